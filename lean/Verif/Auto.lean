/-
Model of concurrent calls outside of transactions (autocommit): every statement of a call is committed at once, and between two statements of a call any other call may go on.
`delete` of the query sets opens no transaction (mp_tree.py:32-86, ns_tree.py:30-73, ltree/__init__.py:99-128).
-/
import Verif.Common

namespace Verif.Auto

variable {ι σ ℓ : Type}

/-- The table, and where every client is. -/
structure State (ι σ ℓ : Type) where
  db : σ
  place : ι → ℓ

/-- The next statement of a client: the table after it and where the client is then; `none` when the call is over. -/
abbrev Prog (σ ℓ : Type) := σ → ℓ → Option (σ × ℓ)

/-- One statement of one client.  A client that dies makes no more of them. -/
inductive Step [DecidableEq ι] (prog : ι → Prog σ ℓ) : State ι σ ℓ → State ι σ ℓ → Prop where
  | stmt {s : State ι σ ℓ} (i : ι) {db : σ} {l : ℓ} (h : prog i s.db (s.place i) = some (db, l)) :
      Step prog s ⟨db, fun j => if j = i then l else s.place j⟩

/-- what can be reached in any number of steps -/
inductive Reach [DecidableEq ι] (prog : ι → Prog σ ℓ) (s₀ : State ι σ ℓ) : State ι σ ℓ → Prop where
  | refl : Reach prog s₀ s₀
  | step {s s' : State ι σ ℓ} : Reach prog s₀ s → Step prog s s' → Reach prog s₀ s'

/-- nobody has begun -/
def State.init (start : ℓ) (db : σ) : State ι σ ℓ := ⟨db, fun _ => start⟩

/-- the call is over -/
def Over (prog : Prog σ ℓ) (l : ℓ) : Prop := ∀ db, prog db l = none

/-- a call with nobody else around -/
inductive Alone (prog : Prog σ ℓ) : σ → ℓ → σ → ℓ → Prop where
  | refl {db : σ} {l : ℓ} : Alone prog db l db l
  | step {db db' db'' : σ} {l l' l'' : ℓ} : prog db l = some (db', l') → Alone prog db' l' db'' l'' → Alone prog db l db'' l''

/-- Invariants -/
theorem Reach.keeps [DecidableEq ι] {prog : ι → Prog σ ℓ} {s₀ s : State ι σ ℓ} (h : Reach prog s₀ s) {P : State ι σ ℓ → Prop} (h0 : P s₀)
    (hs : ∀ (s : State ι σ ℓ) (i : ι) (db : σ) (l : ℓ), P s → prog i s.db (s.place i) = some (db, l) → P ⟨db, fun j => if j = i then l else s.place j⟩) : P s := by
  induction h with
  | refl => exact h0
  | step _ hst ih =>
    cases hst with
    | stmt i h => exact hs _ i _ _ ih h

/-- One of the executions: the clients make their statements in the given order. -/
def run [DecidableEq ι] (prog : ι → Prog σ ℓ) : List ι → State ι σ ℓ → State ι σ ℓ
  | [], s => s
  | i :: is, s => match prog i s.db (s.place i) with
    | none => run prog is s
    | some (db, l) => run prog is ⟨db, fun j => if j = i then l else s.place j⟩

theorem run_reach [DecidableEq ι] {prog : ι → Prog σ ℓ} (is : List ι) : ∀ {s₀ s : State ι σ ℓ}, Reach prog s₀ s → Reach prog s₀ (run prog is s) := by
  induction is with
  | nil => intro s₀ s h; exact h
  | cons i is ih =>
    intro s₀ s h
    unfold run
    split
    · exact ih h
    · rename_i e
      exact ih (.step h (.stmt i e))

/-- A call that is one transaction: it runs at one moment, and changes nothing when it fails. -/
def atomic (op : σ → Except Err σ) (start over : ℓ) [DecidableEq ℓ] : Prog σ ℓ := fun db l =>
  if l = start then some (match op db with | .ok db' => db' | .error _ => db, over) else none

theorem Alone.trans {prog : Prog σ ℓ} {a b c : σ} {la lb lc : ℓ} (h : Alone prog a la b lb) (h' : Alone prog b lb c lc) : Alone prog a la c lc := by
  induction h with
  | refl => exact h'
  | step e _ ih => exact .step e (ih h')

theorem Alone.reach {prog : Prog σ ℓ} {a b : σ} {la lb : ℓ} (h : Alone prog a la b lb) {s : State Unit σ ℓ} (hs : Reach (fun _ => prog) s ⟨a, fun _ => la⟩) :
    Reach (fun _ => prog) s ⟨b, fun _ => lb⟩ := by
  induction h with
  | refl => exact hs
  | step e _ ih => exact ih (.step hs (.stmt () e))

end Verif.Auto
