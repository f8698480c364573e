/-
Concurrent additions below one node, whatever the implementation: each transaction alone adds one node below `k`.
-/
import Verif.TxnLemmas
import Verif.ForestLemmas

namespace Verif.Txn

variable {ι σ ℓ : Type} [DecidableEq ι]

/-- An implementation, seen from outside: which tables are good, the forest and the stored data of a table. -/
structure View (σ V : Type) where
  good : σ → Prop
  forest : σ → Forest
  data : σ → List (Nat × V)

variable {V : Type} (v : View σ V)

/-- What every interleaving of concurrent additions below `k` leads to, at every moment: the committed table is good; the children of
`k` are those at the start and the new nodes of the clients that committed, as said by `rel`; no other node has other children; the
data are those at the start and those of the new nodes, in the order of the commits; a client that failed got an exception of `E`. -/
structure GrownBelow (k : Nat) (rel : List Nat → List Nat → List Nat → Prop) (E : Err → Prop) (new : ι → Nat × V) (db₀ : σ) (s : State ι σ ℓ) : Prop where
  good : v.good s.db
  children : rel (v.forest db₀ (some k)) (s.log.map fun i => (new i).1) (v.forest s.db (some k))
  others : ∀ p, p ≠ some k → v.forest s.db p = v.forest db₀ p
  data : v.data s.db = v.data db₀ ++ s.log.map new
  nodup : s.log.Nodup
  log : ∀ i, i ∈ s.log ↔ ∃ l, s.phase i = .committed l
  errors : ∀ i e, s.phase i = .raised e → E e

/-- Alone, the client adds the node `new` below `k` to every good table that has `k` and not yet `new`. -/
structure Adds (k : Nat) (rel : List Nat → List Nat → List Nat → Prop) (E : Err → Prop) (new : Nat × V) (c : Client σ ℓ) : Prop where
  key : c.key = k
  ok : ∀ db db' l, v.good db → k ∈ (v.data db).map Prod.fst → new.1 ∉ (v.data db).map Prod.fst → c.alone db = .ok (db', l) →
    v.good db' ∧ (∀ old news, rel old news (v.forest db (some k)) → rel old (news ++ [new.1]) (v.forest db' (some k))) ∧
    (∀ p, p ≠ some k → v.forest db' p = v.forest db p) ∧ v.data db' = v.data db ++ [new]
  error : ∀ db e, v.good db → k ∈ (v.data db).map Prod.fst → new.1 ∉ (v.data db).map Prod.fst → c.alone db = .error e → E e

theorem grownBelow_of {k : Nat} {rel : List Nat → List Nat → List Nat → Prop} {E : Err → Prop} {new : ι → Nat × V} {c : ι → Client σ ℓ}
    (hc : ∀ i, Adds v k rel E (new i) (c i)) (hrel : ∀ l, rel l [] l) {db₀ : σ} (hg : v.good db₀) (hk : k ∈ (v.data db₀).map Prod.fst)
    (hf : ∀ i, (new i).1 ∉ (v.data db₀).map Prod.fst) (hd : ∀ i j, (new i).1 = (new j).1 → i = j)
    {s : State ι σ ℓ} (h : Reach c (.init db₀) s) : GrownBelow v k rel E new db₀ s := by
  let J : List ι → σ → Prop := fun log db => v.good db ∧ rel (v.forest db₀ (some k)) (log.map fun i => (new i).1) (v.forest db (some k)) ∧
    (∀ p, p ≠ some k → v.forest db p = v.forest db₀ p) ∧ v.data db = v.data db₀ ++ log.map new
  have hkey : ∀ {log : List ι} {db : σ} {i : ι}, J log db → i ∉ log →
      k ∈ (v.data db).map Prod.fst ∧ (new i).1 ∉ (v.data db).map Prod.fst := by
    rintro log db i ⟨-, -, -, e⟩ hi
    rw [e, List.map_append, List.mem_append, List.mem_append]
    refine ⟨Or.inl hk, ?_⟩
    rintro (hm | hm)
    · exact hf i hm
    · rw [List.map_map] at hm
      obtain ⟨j, hj, e⟩ := List.mem_map.1 hm
      rw [← hd j i e] at hi
      exact hi hj
  have hkeeps : Keeps c J := by
    intro log db db' i l hJ hi e
    obtain ⟨k1, k2⟩ := hkey hJ hi
    obtain ⟨h1, h2, h3, h4⟩ := (hc i).ok db db' l hJ.1 k1 k2 e
    refine ⟨h1, ?_, fun p hp => (h3 p hp).trans (hJ.2.2.1 p hp), by rw [h4, hJ.2.2.2]; simp⟩
    rw [List.map_append]
    exact h2 _ _ hJ.2.1
  have hinv : Inv c J db₀ s := .reach (stable_of_key (k := k) fun i => (hc i).key) hkeeps ⟨hg, hrel _, fun _ _ => rfl, by simp⟩ h
  obtain ⟨h1, h2, h3, h4⟩ := hinv.keeps
  refine ⟨h1, h2, h3, h4, hinv.nodup, hinv.logged, fun i e hi => ?_⟩
  obtain ⟨pre, db, hp, hser, hJ, ea⟩ := (hinv.raised i e hi).resolve_left id
  have hnl : i ∉ s.log := by
    intro hm
    obtain ⟨l, e'⟩ := (hinv.logged i).1 hm
    rw [e'] at hi
    cases hi
  obtain ⟨k1, k2⟩ := hkey hJ (fun hm => hnl (hp.subset hm))
  exact (hc i).error db e hJ.1 k1 k2 ea

/-! ### The two relations used -/

/-- the new nodes stand after the old ones, in the order of the commits -/
def Appended (old news cur : List Nat) : Prop := cur = old ++ news

/-- the new nodes stand somewhere between the old ones, whose order is the same -/
def Inserted (old news cur : List Nat) : Prop := old.Sublist cur ∧ cur.Perm (old ++ news)

/-- the new nodes stand somewhere between the old ones -/
def Joined (old news cur : List Nat) : Prop := cur.Perm (old ++ news)

theorem Appended.last {F : Forest} {k x : Nat} {old news : List Nat} (h : Appended old news (F (some k))) :
    Appended old (news ++ [x]) (F.put (some k) .last x (some k)) := by
  unfold Appended at *
  simp [Forest.put, Slot.ins, h]

theorem insertBefore_split {t x : Nat} {l : List Nat} (h : t ∈ l) : ∃ a b, l = a ++ b ∧ insertBefore t x l = a ++ x :: b := by
  induction l with
  | nil => simp at h
  | cons y ys ih =>
    unfold insertBefore
    split
    · exact ⟨[], y :: ys, rfl, rfl⟩
    · rename_i hne
      obtain ⟨a, b, e1, e2⟩ := ih (by simpa [Ne.symm hne] using h)
      exact ⟨y :: a, b, by simp [e1], by simp [e2]⟩

theorem insertAfter_split {t x : Nat} {l : List Nat} (h : t ∈ l) : ∃ a b, l = a ++ b ∧ insertAfter t x l = a ++ x :: b := by
  induction l with
  | nil => simp at h
  | cons y ys ih =>
    unfold insertAfter
    split
    · exact ⟨[y], ys, rfl, rfl⟩
    · rename_i hne
      obtain ⟨a, b, e1, e2⟩ := ih (by simpa [Ne.symm hne] using h)
      exact ⟨y :: a, b, by simp [e1], by simp [e2]⟩

theorem insertBefore_absent {t x : Nat} {l : List Nat} (h : t ∉ l) : insertBefore t x l = l := by
  induction l with
  | nil => rfl
  | cons y ys ih =>
    simp only [List.mem_cons, not_or] at h
    simp [insertBefore, Ne.symm h.1, ih h.2]

theorem insertAfter_absent {t x : Nat} {l : List Nat} (h : t ∉ l) : insertAfter t x l = l := by
  induction l with
  | nil => rfl
  | cons y ys ih =>
    simp only [List.mem_cons, not_or] at h
    simp [insertAfter, Ne.symm h.1, ih h.2]

theorem ins_split {s : Slot} {x : Nat} {l : List Nat} (hx : x ∉ l) (h : x ∈ s.ins x l) : ∃ a b, l = a ++ b ∧ s.ins x l = a ++ x :: b := by
  cases s with
  | first => exact ⟨[], l, rfl, rfl⟩
  | last => exact ⟨l, [], by simp, by simp [Slot.ins]⟩
  | before t =>
    by_cases ht : t ∈ l
    · exact insertBefore_split ht
    · exact absurd (by simpa [Slot.ins, insertBefore_absent ht] using h) hx
  | after t =>
    by_cases ht : t ∈ l
    · exact insertAfter_split ht
    · exact absurd (by simpa [Slot.ins, insertAfter_absent ht] using h) hx

theorem Inserted.put {F : Forest} {k : Option Nat} {x : Nat} {s : Slot} {old news : List Nat} (h : Inserted old news (F k)) (hx : x ∉ F k)
    (hm : x ∈ F.put k s x k) : Inserted old (news ++ [x]) (F.put k s x k) := by
  simp only [Forest.put, if_pos] at hm ⊢
  obtain ⟨a, b, e1, e2⟩ := ins_split hx hm
  rw [e2]
  rw [e1] at h
  refine ⟨h.1.trans (List.Sublist.append_left (List.sublist_cons_self x b) a), ?_⟩
  refine (List.perm_middle.trans ((h.2.cons x))).trans ?_
  rw [← List.append_assoc]
  exact (List.perm_append_singleton x (old ++ news)).symm

end Verif.Txn
