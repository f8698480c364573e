/-
Cases that meet the hypotheses of C43 and C53, and runs in which the clients overlap.
-/
import Verif.Props.Concurrent
import Verif.Props.ConcurrentRoot

namespace Verif

open Txn

theorem twoClients : ∀ b : Bool, b ∈ [false, true] := by decide

/-! ### MP -/

namespace MP

/-- the start of C43 and C53: two new objects -/
theorem exStart : MPConc.Start exCfg exDB exTwo :=
  ⟨exCfg_ok, rfl, exDB_consistent, by unfold Fresh; decide, by decide⟩

/-- the parents: one client adds below 1, the other below 3 -/
def exParents : Bool → Row := fun b => if b then ⟨3, [], 0, 0, []⟩ else ⟨1, [], 0, 0, []⟩

/-- Both clients take their lock, and their statements alternate; both nodes are there at the end. -/
example : ∃ s, Reach (fun i => childClient exCfg (exParents i) (exTwo i)) (.init exDB) s ∧
    s.log = [true, false] ∧ forest exCfg s.db (some 1) = [2, 3, 10] ∧ forest exCfg s.db (some 3) = [4, 11] := by
  obtain ⟨s, hs, e⟩ := exists_run (c := fun i => childClient exCfg (exParents i) (exTwo i)) (db₀ := exDB) twoClients
    [false, true, false, true, false, true, false, true, true, true, false, false]
    (fun s => (s.log, forest exCfg s.db (some 1), forest exCfg s.db (some 3))) (a := ([true, false], [2, 3, 10], [4, 11])) (by decide)
  simp only [Prod.mk.injEq] at e
  exact ⟨s, hs, e⟩

/-- On one parent, the second client cannot go on before the first has committed. -/
example : (runs (fun i => childClient exCfg ⟨1, [], 0, 0, []⟩ (exTwo i)) [false, true] (.init exDB) [false, true]).isNone = true := by decide

/-- … and adds its node after that of the first. -/
example : ∃ s, Reach (fun i => childClient exCfg ⟨1, [], 0, 0, []⟩ (exTwo i)) (.init exDB) s ∧ forest exCfg s.db (some 1) = [2, 3, 11, 10] := by
  obtain ⟨s, hs, e⟩ := exists_run (c := fun i => childClient exCfg ⟨1, [], 0, 0, []⟩ (exTwo i)) (db₀ := exDB) twoClients
    [true, true, true, true, true, true, false, false, false, false, false, false] (fun s => forest exCfg s.db (some 1)) (a := [2, 3, 11, 10]) (by decide)
  exact ⟨s, hs, e⟩

/-- Two clients with values for a sorted tree. -/
def exTwoS : Bool → Row := fun b => if b then ⟨11, [], 0, 0, [some 1, some 4]⟩ else ⟨10, [], 0, 0, [some 1, some 9]⟩

/-- the hypotheses of `C43_one_parent_sorted`, below the node 2 -/
example : exCfgS.Ok ∧ exCfgS.ordered = true ∧ Consistent exCfgS exDBS ∧ (∀ i, Fresh exDBS (exTwoS i)) ∧
    (∀ i, NonNull exCfgS.orderBy (exTwoS i).vals) ∧ (∀ i j, (exTwoS i).pk = (exTwoS j).pk → i = j) ∧
    (∃ t ∈ exDBS.rows, t.pk = 2) := by
  refine ⟨exCfgS_ok, rfl, exDBS_consistent, by unfold Fresh; decide, ?_, by decide, by decide⟩
  intro i e he
  simp only [exCfgS, List.mem_cons, List.not_mem_nil, or_false] at he
  rcases he with rfl | rfl <;> cases i <;> exact ⟨_, rfl⟩

end MP

/-! ### A client of one statement -/

/-- A client that makes the whole call in one statement after taking the lock. -/
def oneCall {σ ℓ : Type} (key : Nat) (start : ℓ) (call : σ → Except Err (σ × ℓ)) : Client σ ℓ where
  key := key
  start := start
  body := [fun db _ => (call db).map fun r => (fun _ => r.1, r.2)]
  check _ := none

theorem oneCall_alone {σ ℓ : Type} {key : Nat} {start : ℓ} {call : σ → Except Err (σ × ℓ)} (db : σ) :
    (oneCall key start call).alone db = call db := by
  simp only [Client.alone, oneCall, exec]
  cases call db with
  | error e => rfl
  | ok r => rfl

namespace NS

/-- the clients: both add below the node 3 -/
def exClients : Bool → Client DB Row := fun b =>
  oneCall 3 (exTwo b) fun db => (addChild ⟨[]⟩ db ⟨3, 0, 0, 0, 0, []⟩ (exTwo b)).map fun r => (r.1, r.2.1)

/-- They meet the hypotheses of C43. -/
example : (∀ i, (exClients i).key = 3) ∧ ∀ i, Calls ⟨[]⟩ (exClients i) ⟨3, 0, 0, 0, 0, []⟩ (exTwo i) := by
  refine ⟨fun _ => rfl, fun i db => ?_⟩
  unfold exClients
  rw [oneCall_alone]
  cases addChild ⟨[]⟩ db ⟨3, 0, 0, 0, 0, []⟩ (exTwo i) <;> rfl

example : Consistent exDB ∧ (∀ i, Fresh exDB (exTwo i)) ∧ (∀ i j, (exTwo i).pk = (exTwo j).pk → i = j) ∧ (∃ t ∈ exDB.rows, t.pk = 3) :=
  ⟨exDB_inv, by unfold Fresh; decide, by decide, by decide⟩

/-- Both commit, the second first. -/
example : ∃ s, Reach exClients (.init exDB) s ∧ s.log = [true, false] ∧ forest s.db (some 3) = [4, 11, 10] := by
  obtain ⟨s, hs, e⟩ := exists_run (c := exClients) (db₀ := exDB) twoClients [true, true, true, false, false, false]
    (fun s => (s.log, forest s.db (some 3))) (a := ([true, false], [4, 11, 10])) (by decide)
  simp only [Prod.mk.injEq] at e
  exact ⟨s, hs, e⟩

end NS

namespace LT

/-- the clients: both add below the node 3 -/
def exClients : Bool → Client DB Row := fun b =>
  oneCall 3 (exTwo b) fun db => addChild ⟨[]⟩ db ⟨3, [[65], [66]], []⟩ (exTwo b)

/-- They meet the hypotheses of C43. -/
example : (∀ i, (exClients i).key = 3) ∧ ∀ i, Calls ⟨[]⟩ (exClients i) ⟨3, [[65], [66]], []⟩ (exTwo i) := by
  refine ⟨fun _ => rfl, fun i db => ?_⟩
  unfold exClients
  rw [oneCall_alone]

/-- … and the table those of C43 and C53. -/
example : Consistent exDB ∧ (∀ i, Fresh exDB (exTwo i)) ∧ (∀ i j, (exTwo i).pk = (exTwo j).pk → i = j) ∧
    (⟨3, [[65], [66]], []⟩ : Row) ∈ exDB.rows :=
  ⟨consistent_iff.2 exDB_inv, by unfold Fresh; decide, by decide, by decide⟩

/-- Both commit, the second first. -/
example : ∃ s, Reach exClients (.init exDB) s ∧ s.log = [true, false] ∧ forest s.db (some 3) = [4, 11, 10] := by
  obtain ⟨s, hs, e⟩ := exists_run (c := exClients) (db₀ := exDB) twoClients [true, true, true, false, false, false]
    (fun s => (s.log, forest s.db (some 3))) (a := ([true, false], [4, 11, 10])) (by decide)
  simp only [Prod.mk.injEq] at e
  exact ⟨s, hs, e⟩

/-- Concurrent `add_root` calls that both commit. -/
example : ∃ s, Reach (rootPicker exTwo).client (.init exDB) s ∧ s.log = [false, true] ∧ forest s.db none = [1, 5, 10, 11] := by
  obtain ⟨s, hs, e⟩ := exists_run (c := (rootPicker exTwo).client) (db₀ := exDB) twoClients [false, true, false, false, false, true, true, true]
    (fun s => (s.log, forest s.db none)) (a := ([false, true], [1, 5, 10, 11])) (by decide)
  simp only [Prod.mk.injEq] at e
  exact ⟨s, hs, e⟩

end LT

namespace AL

/-- the hypotheses of C53 -/
theorem exConcStart : ConcStart exPlain exDB exTwo :=
  ⟨rfl, consistent_of_inv rfl exDB_inv, by unfold Fresh; decide, by decide, by decide⟩

end AL

end Verif
