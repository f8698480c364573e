/-
Specification for the annotated list: nested lists of a forest, as HTML.
-/
import Verif.Spec

namespace Verif

/-- what a page consists of -/
inductive Tok where
  | ul | li | item (k : Nat) | liEnd | ulEnd
deriving DecidableEq, Repr

/-- a list around its entries; without entries there is no list -/
def wrap (t : List Tok) : List Tok := if t.isEmpty then [] else .ul :: (t ++ [.ulEnd])

namespace Forest

/-- `Entries F cs t`: `t` shows the siblings `cs`, each with its children as a list inside it. -/
inductive Entries (F : Forest) : List Nat → List Tok → Prop where
  | nil : Entries F [] []
  | cons {c cs g t} : Entries F (F (some c)) g → Entries F cs t → Entries F (c :: cs) (.li :: .item c :: (wrap g ++ .liEnd :: t))

/-- The page is determined by the forest. -/
theorem Entries.unique {F : Forest} {cs : List Nat} {t t' : List Tok} (h : F.Entries cs t) (h' : F.Entries cs t') : t = t' := by
  induction h generalizing t' with
  | nil => cases h'; rfl
  | cons _ _ ih1 ih2 =>
    cases h' with
    | cons h1 h2 => rw [ih1 h1, ih2 h2]

/-- `l'` is `l` without the nodes below level `m` -/
def Cut (F : Forest) (m : Nat) (l l' : List Nat) : Prop :=
  ∃ keep : Nat → Bool, l' = l.filter keep ∧ ∀ k ∈ l, keep k = true ↔ ∃ n, F.Level k n ∧ n ≤ m

/-- `G` is `F` without the nodes below level `m` -/
def CutAt (F : Forest) (m : Nat) (G : Forest) : Prop := ∀ p, F.Cut m (F p) (G p)

/-- the top nodes of the whole forest, or of the branch of a node -/
def tops (F : Forest) : Option Nat → List Nat
  | none => F none
  | some k => [k]

end Forest

/-- What the annotated list shows: one entry (key, opens, closes, level) per node.  The documented template (docs/source/api.rst:376-390)
prints it as follows. -/
def template : List (Nat × Bool × List Nat × Int) → List Tok
  | [] => []
  | (k, opens, closes, _) :: l =>
    (if opens then [.ul, .li] else [.liEnd, .li]) ++ [.item k] ++ closes.flatMap (fun _ => [.liEnd, .ulEnd]) ++ template l

/-- The annotated list `A` shows the siblings `cs` of the forest with their branches: it has the nodes in depth-first order, the
levels count from the first node, and the documented template prints exactly the nested lists. -/
structure Annotates (F : Forest) (cs : List Nat) (A : List (Nat × Bool × List Nat × Int)) : Prop where
  listing : F.DFS cs (A.map (·.1))
  levels : ∀ e ∈ A, ∃ f a b, A.head? = some f ∧ F.Level f.1 a ∧ F.Level e.1 b ∧ e.2.2.2 = (b : Int) - a
  page : ∃ t, F.Entries cs t ∧ template A = wrap t

/-- The annotated list of the whole forest or of one branch, without or with a limit on the level. -/
def AnnotatesTree (F : Forest) (p : Option Nat) : Option Nat → List (Nat × Bool × List Nat × Int) → Prop
  | none, A => Annotates F (F.tops p) A
  | some m, A => ∃ G cs, F.CutAt m G ∧ F.Cut m (F.tops p) cs ∧ Annotates G cs A

end Verif
