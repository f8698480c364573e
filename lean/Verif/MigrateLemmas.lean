/-
Lemmas for loading a dump of another kind of tree.
-/
import Verif.MigrateModel
import Verif.LoadGeneric
import Verif.Props.AdminSearch
import Verif.PageLemmas

namespace Verif

/-- a dump shows the forest and the data -/
theorem DumpOf.shows {keep : Bool} {d : Nest Item} {F : Forest} {D : List (Nat × Vals)} (h : DumpOf keep d F D) :
    F.IsForestOn (D.map Prod.fst) ∧ (D.map Prod.fst).Nodup ∧ ∃ v : Nat → Vals, (∀ e ∈ D, v e.1 = e.2) ∧ Dumps F v keep (F none) d := by
  cases h with
  | @mp cfg db hok h e =>
    have hi := (MP.consistent_iff hok).1 h
    have hpks : (MP.data db.rows).map Prod.fst = db.rows.map MP.Row.pk := by simp [MP.data, Function.comp_def]
    obtain ⟨d', ed, hd⟩ := MP.C19_mp_dump hok h (parent := none) (by simp) keep
    rw [e] at ed
    cases ed
    refine ⟨by rw [hpks]; exact MP.isForestOn_forest hok h, by rw [hpks]; exact h.pks, MP.valsOf db, ?_, hd⟩
    intro e he
    obtain ⟨r, hr, rfl⟩ := List.mem_map.1 he
    exact MP.valsOf_row hi.inv hr
  | @ns db h e =>
    obtain ⟨d', ed, hd⟩ := NS.C19_ns_dump h (parent := none) (by simp) keep
    rw [e] at ed
    cases ed
    exact ⟨NS.isForestOn h, NS.keys_nodup h, _, fun e he => valsIn_mem (NS.keys_nodup h) he, hd⟩
  | @al cfg db h e =>
    have hnd : ((AL.data db.rows).map Prod.fst).Nodup := by rw [AL.data_keys]; exact h.pks
    obtain ⟨d', ed, hd⟩ := AL.C19_al_dump h (parent := none) (by simp) keep
    rw [e] at ed
    cases ed
    exact ⟨AL.isForestOn h.ai, hnd, _, fun e he => valsIn_mem hnd he, hd⟩
  | @lt db h e =>
    have hnd : ((LT.data db.rows).map Prod.fst).Nodup := by rw [LT.keys_eq]; exact h.pks
    obtain ⟨d', ed, hd⟩ := LT.C19_lt_dump h (parent := none) (by simp) keep
    rw [e] at ed
    cases ed
    exact ⟨LT.isForestOn h, hnd, _, fun e he => valsIn_mem hnd he, hd⟩

/-- what has to be loaded -/
theorem DumpOf.target {keep : Bool} {d : Nest Item} {F : Forest} {D : List (Nat × Vals)} (h : DumpOf keep d F D) {keys : Nat → Nat}
    (hkeys : keep = false → ∀ i j, keys i = keys j → i = j) :
    ∃ (m : Nest Nat) (V : Nat → Vals) (i : Nat) (f : Nat → Nat) (T : Forest), prepare keep keys 0 d = .ok (m.map (fun k => (k, V k)), i) ∧ m.labels.Nodup ∧
      Grafted (fun _ => []) T none m ∧ F.Renamed T (D.map Prod.fst) f ∧ (∀ k ∈ m.labels, ∃ e ∈ D, f e.1 = k ∧ V k = e.2) ∧
      (∀ a ∈ D.map Prod.fst, V (f a) = valsIn D a) ∧ (∀ p, ∀ k ∈ F p, k ∈ D.map Prod.fst) ∧ Restored keep F T D (m.labels.map (fun k => (k, V k))) := by
  obtain ⟨hF, hnd, v, hv, hd⟩ := h.shows
  obtain ⟨m, V, i, f, ep, hm, hlp, hV, hren, _, hrest⟩ := roundtrip hF hv hd hkeys
  have hT : Grafted (fun _ => []) (graft (fun _ => []) none m) none m := graft_grafted hm (by simp)
  refine ⟨m, V, i, f, _, ep, hm, hT, hren _ hT, ?_, ?_, hF.good.sub, hrest _ _ hT (List.Perm.refl _)⟩
  · intro k hk
    obtain ⟨e, he, rfl⟩ := List.mem_map.1 (hlp.mem_iff.1 hk)
    exact ⟨e, he, rfl, hV e he⟩
  · intro a ha
    obtain ⟨e, he, rfl⟩ := List.mem_map.1 ha
    rw [hV e he, valsIn_mem hnd he]

/-- with the data sorted, the tree to be loaded is sorted -/
theorem sorted_target {ob : List (Nat × Bool)} {F T : Forest} {D : List (Nat × Vals)} {m : Nest Nat} {V : Nat → Vals} {f : Nat → Nat}
    (hren : F.Renamed T (D.map Prod.fst) f) (hlab : ∀ k ∈ m.labels, ∃ e ∈ D, f e.1 = k ∧ V k = e.2) (hV : ∀ a ∈ D.map Prod.fst, V (f a) = valsIn D a)
    (hsub : ∀ p, ∀ k ∈ F p, k ∈ D.map Prod.fst) (hs : SortedData ob F D) : T.SortedBy ob V ∧ ∀ k ∈ m.labels, NonNull ob (V k) := by
  refine ⟨hren.sorted hsub hV hs.sorted, ?_⟩
  intro k hk
  obtain ⟨e, he, _, e2⟩ := hlab k hk
  rw [e2]; exact hs.nonNull e he

/-- restoring twice is restoring -/
theorem Restored.trans {keep : Bool} {F F' F'' : Forest} {D D' D'' : List (Nat × Vals)} (h : Restored keep F F' D D') (h' : Restored keep F' F'' D' D'')
    (hsub : ∀ p, ∀ k ∈ F p, k ∈ D.map Prod.fst) : Restored keep F F'' D D'' := by
  obtain ⟨⟨f, hf, hD⟩, hs⟩ := h
  obtain ⟨⟨g, hg, hD'⟩, hs'⟩ := h'
  have hks : ∀ k, k ∈ D'.map Prod.fst ↔ k ∈ (D.map Prod.fst).map f := by
    intro k
    rw [(hD.map Prod.fst).mem_iff]
    simp
  refine ⟨⟨fun k => g (f k), ⟨?_, ?_, ?_, ?_⟩, ?_⟩, ?_⟩
  · intro a ha b hb e
    exact hf.inj a ha b hb (hg.inj _ ((hks _).2 (List.mem_map_of_mem ha)) _ ((hks _).2 (List.mem_map_of_mem hb)) e)
  · rw [hg.roots, hf.roots, List.map_map]; rfl
  · intro k hk
    rw [hg.kids _ ((hks _).2 (List.mem_map_of_mem hk)), hf.kids k hk, List.map_map]; rfl
  · intro k hk
    refine hg.outside k ?_
    intro hc
    obtain ⟨a, ha, rfl⟩ := List.mem_map.1 hc
    obtain ⟨b, hb, rfl⟩ := List.mem_map.1 ((hks a).1 ha)
    exact hk (List.mem_map_of_mem (f := fun k => g (f k)) hb)
  · have := hD'.trans (hD.map (fun e : Nat × Vals => (g e.1, e.2)))
    rw [List.map_map] at this
    exact this
  · intro hk
    obtain ⟨e1, p1⟩ := hs hk
    obtain ⟨e2, p2⟩ := hs' hk
    exact ⟨e2.trans e1, p2.trans p1⟩

end Verif
