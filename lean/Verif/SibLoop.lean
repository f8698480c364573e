/-
Adding siblings in a loop: what every step keeps.
-/
import Verif.SpecLoop
import Verif.SpecHistory
import Verif.SpecPos

namespace Verif

/-- the forest after adding nodes one after the other below `p`, each at its slot -/
def Forest.putEach (F : Forest) (p : Option Nat) (l : List (Slot × Nat)) : Forest := l.foldl (fun F e => F.put p e.1 e.2) F

/-- Positions of calls with one target object that no call spoils for the next one: the ends of the group, or its right end and the place right of
the target. -/
def OneSided (l : List Pos) : Prop := (∀ q ∈ l, q = .firstSibling ∨ q = .lastSibling) ∨ (∀ q ∈ l, q = .right ∨ q = .lastSibling)

theorem OneSided.tail {q : Pos} {l : List Pos} (h : OneSided (q :: l)) : OneSided l :=
  h.imp (fun h q hq => h q (List.mem_cons_of_mem _ hq)) (fun h q hq => h q (List.mem_cons_of_mem _ hq))

theorem OneSided.sib {l : List Pos} (h : OneSided l) {q : Pos} (hq : q ∈ l) : IsSibPos q := by
  unfold IsSibPos
  rcases h with h | h <;> rcases h q hq with rfl | rfl <;> simp

/-- a loop of additions below `p`, followed by the forest that they ask for -/
theorem addAll_track {add : σ → ρ → ν → Except Err (σ × ρ × ρ)} {Good : σ → ρ → List ν → Forest → Prop}
    {key : ν → Nat} {slot : ν → Slot} {pk : ρ → Nat} {p : Option Nat}
    (step : ∀ db t n ns F db' obj t', Good db t (n :: ns) F → add db t n = .ok (db', obj, t') →
      Good db' t' ns (F.put p (slot n) (key n)) ∧ pk obj = key n) :
    ∀ ns rest F db t db' objs t', Good db t (ns ++ rest) F → addAll add db t ns = .ok (db', objs, t') →
      Good db' t' rest (F.putEach p (ns.map (fun n => (slot n, key n)))) ∧ objs.map pk = ns.map key := by
  intro ns
  induction ns with
  | nil =>
    intro rest F db t db' objs t' hg e
    cases e
    exact ⟨hg, rfl⟩
  | cons n ns ih =>
    intro rest F db t db' objs t' hg e
    simp only [addAll] at e
    split at e
    · cases e
    · rename_i db1 obj t1 e1
      obtain ⟨hg1, hk⟩ := step _ _ _ _ _ _ _ _ hg e1
      split at e
      · cases e
      · rename_i db2 objs2 t2 e2
        obtain ⟨hg2, hks⟩ := ih _ _ _ _ _ _ _ hg1 e2
        cases e
        exact ⟨hg2, by simp [hk, hks]⟩

/-- ... which is the forest that they give -/
theorem addAll_each {add : σ → ρ → ν → Except Err (σ × ρ × ρ)} {Good : σ → ρ → List ν → Prop} {forest : σ → Forest}
    {key : ν → Nat} {slot : ν → Slot} {pk : ρ → Nat} {p : Option Nat}
    (step : ∀ db t n ns db' obj t', Good db t (n :: ns) → add db t n = .ok (db', obj, t') →
      Good db' t' ns ∧ pk obj = key n ∧ forest db' = (forest db).put p (slot n) (key n)) :
    ∀ ns rest db t db' objs t', Good db t (ns ++ rest) → addAll add db t ns = .ok (db', objs, t') →
      Good db' t' rest ∧ objs.map pk = ns.map key ∧ forest db' = (forest db).putEach p (ns.map (fun n => (slot n, key n))) := by
  intro ns rest db t db' objs t' hg e
  obtain ⟨⟨h1, h2⟩, h3⟩ := addAll_track (Good := fun db t ns F => Good db t ns ∧ forest db = F) (key := key) (slot := slot) (pk := pk) (p := p) (by
    rintro db t n ns F db' obj t' ⟨hg, rfl⟩ e
    obtain ⟨h1, h2, h3⟩ := step _ _ _ _ _ _ _ hg e
    exact ⟨⟨h1, h3⟩, h2⟩) ns rest (forest db) db t db' objs t' ⟨hg, rfl⟩ e
  exact ⟨h1, h3, h2⟩

/-- which side the positions are on: right of the target, or not -/
theorem OneSided.side {l : List Pos} (h : OneSided l) :
    ∃ b : Bool, ∀ q ∈ l, if b then q = .right ∨ q = .lastSibling else q = .firstSibling ∨ q = .lastSibling := by
  rcases h with h | h
  · exact ⟨false, by simpa using h⟩
  · exact ⟨true, by simpa using h⟩

end Verif
