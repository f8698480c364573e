/-
Specification of lists in which the depth of a node is shown by indentation.
-/
import Verif.Spec

namespace Verif

/-- The forest that a reader sees in a list of nodes with their indentation: what is not indented is a root, and the children of a node are the entries indented one level more, among those that
follow it directly with more indentation. -/
def readOutline (O : List (Nat × Nat)) : Forest
  | none => (O.filter (fun e => e.2 == 0)).map (·.1)
  | some p =>
    match O.dropWhile (fun e => e.1 != p) with
    | [] => []
    | (_, n) :: r => ((r.takeWhile (fun e => decide (n < e.2))).filter (fun e => e.2 == n + 1)).map (·.1)

/-- a non-breaking space -/
def nbsp : Char := Char.ofNat 160

/-- `Displays h t`: a browser shows the HTML `h`, which has no tags, as the text `t`. -/
inductive Displays : List Char → List Char → Prop where
  | nil : Displays [] []
  | char {c h t} : c ∉ ['&', '<', '>', '"', '\''] → Displays h t → Displays (c :: h) (c :: t)
  | nbsp {h t} : Displays h t → Displays ('&' :: 'n' :: 'b' :: 's' :: 'p' :: ';' :: h) (nbsp :: t)
  | amp {h t} : Displays h t → Displays ('&' :: 'a' :: 'm' :: 'p' :: ';' :: h) ('&' :: t)
  | lt {h t} : Displays h t → Displays ('&' :: 'l' :: 't' :: ';' :: h) ('<' :: t)
  | gt {h t} : Displays h t → Displays ('&' :: 'g' :: 't' :: ';' :: h) ('>' :: t)
  | quot {h t} : Displays h t → Displays ('&' :: 'q' :: 'u' :: 'o' :: 't' :: ';' :: h) ('"' :: t)
  | apos {h t} : Displays h t → Displays ('&' :: '#' :: 'x' :: '2' :: '7' :: ';' :: h) ('\'' :: t)

/-- A list of choices shows a forest: the nodes in depth-first order, each with its text behind four non-breaking spaces per level, and the first choice stands for no node.  Reading the
indentation gives back the forest. -/
structure ShowsOutline (F : Forest) (text : Nat → List Char) (L : List (Option Nat × List Char)) : Prop where
  outline : ∃ (top : List Char) (O : List (Nat × Nat)) (html : Nat × Nat → List Char), L = (none, top) :: O.map (fun e => (some e.1, html e)) ∧
    F.DFS (F none) (O.map (·.1)) ∧ (O.map (·.1)).Nodup ∧ readOutline O = F ∧ (∀ e ∈ O, F.Level e.1 (e.2 + 1)) ∧
    ∀ e ∈ O, Displays (html e) (List.replicate (4 * e.2) nbsp ++ text e.1)

end Verif
