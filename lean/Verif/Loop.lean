/-
Adding in a loop: what every step keeps.
-/
import Verif.SpecLoop
import Verif.Spec

namespace Verif

/-- the forest after adding the nodes `l` one after the other at the end of the children of `p` -/
def Forest.putAll (F : Forest) (p : Option Nat) (l : List Nat) : Forest := l.foldl (fun F k => F.put p .last k) F

theorem addAll_loop {add : σ → ρ → ν → Except Err (σ × ρ × ρ)} {Good : σ → ρ → List ν → Prop} {In : σ → ρ → Prop} {forest : σ → Forest}
    {key : ν → Nat} {pk : ρ → Nat} {p : Option Nat}
    (step : ∀ db t n ns db' obj t', Good db t (n :: ns) → add db t n = .ok (db', obj, t') →
      Good db' t' ns ∧ In db' obj ∧ pk obj = key n ∧ (∀ c, In db c → In db' c) ∧ forest db' = (forest db).put p .last (key n)) :
    ∀ ns db t db' objs t', Good db t ns → addAll add db t ns = .ok (db', objs, t') →
      Good db' t' [] ∧ (∀ c ∈ objs, In db' c) ∧ objs.map pk = ns.map key ∧ (∀ c, In db c → In db' c) ∧
      forest db' = (forest db).putAll p (ns.map key) := by
  intro ns
  induction ns with
  | nil =>
    intro db t db' objs t' hg e
    cases e
    exact ⟨hg, by simp, rfl, fun _ h => h, rfl⟩
  | cons n ns ih =>
    intro db t db' objs t' hg e
    simp only [addAll] at e
    split at e
    · cases e
    · rename_i db1 obj t1 e1
      obtain ⟨hg1, hin, hk, hkeep, hf⟩ := step _ _ _ _ _ _ _ hg e1
      split at e
      · cases e
      · rename_i db2 objs2 t2 e2
        obtain ⟨hg2, hall, hks, hkeep2, hf2⟩ := ih _ _ _ _ _ hg1 e2
        cases e
        refine ⟨hg2, ?_, by simp [hk, hks], fun c hc => hkeep2 c (hkeep c hc), ?_⟩
        · intro c hc
          rcases List.mem_cons.1 hc with rfl | hc
          exacts [hkeep2 _ hin, hall c hc]
        · rw [hf2, hf]; rfl

end Verif
