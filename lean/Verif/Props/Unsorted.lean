/-
C92: a tree with `node_order_by` is the tree without it, sorted.
-/
import Verif.UnsortedLemmas
import Verif.Props.NSHistory
import Verif.Props.MPHistorySorted
import Verif.Props.ALHistory
import Verif.Props.LTHistory

namespace Verif

/-- **C92, for the specifications**: the history with `node_order_by` gives the tree of the history without it, with every group of siblings
sorted and equal siblings in the order they came. -/
theorem C92_spec {ob : List (Nat × Bool)} {ops : List Op} (hn : ∀ op ∈ ops, NoNulls ob op) :
    (Tree.run Tree.empty (ops.map plainOp)).F.StablySorted ob (valsIn (STree.run ob STree.empty ops).data) (STree.run ob STree.empty ops).F ∧
    ∀ k, k ∈ (STree.run ob STree.empty ops).ids ↔ k ∈ (Tree.run Tree.empty (ops.map plainOp)).ids :=
  have := Twin.empty.run hn
  ⟨this.order, this.ids⟩

/-- there is only one way to sort -/
theorem Forest.StablySorted.unique {ob : List (Nat × Bool)} {v : Nat → Vals} {G F1 F2 : Forest} (hnd : ∀ q, (G q).Nodup) (h1 : G.StablySorted ob v F1)
    (h2 : G.StablySorted ob v F2) : F1 = F2 := by
  funext q
  obtain ⟨p1, w1⟩ := h1 q
  obtain ⟨p2, w2⟩ := h2 q
  refine (p1.trans p2.symm).eq_of_pairwise (le := Precedes ob v (G q)) ?_ w1 w2
  rintro a b - - (ha | ⟨ha, sa⟩) (hb | ⟨hb, sb⟩)
  · exact absurd hb (keyLt_asymm ha)
  · exact absurd ha hb
  · exact absurd hb ha
  · by_contra hne
    have inj : ∀ i j : Fin (G q).length, (G q).get i = (G q).get j → i = j := fun i j e => (List.nodup_iff_injective_get.1 (hnd q)) e
    rw [List.sublist_iff_exists_fin_orderEmbedding_get_eq] at sa sb
    obtain ⟨f, hf⟩ := sa
    obtain ⟨g, hg⟩ := sb
    have e1 := inj (f ⟨0, by simp⟩) (g ⟨1, by simp⟩) (by rw [← hf, ← hg]; rfl)
    have e2 := inj (f ⟨1, by simp⟩) (g ⟨0, by simp⟩) (by rw [← hf, ← hg]; rfl)
    have l1 : f ⟨0, by simp⟩ < f ⟨1, by simp⟩ := f.strictMono (by simp [Fin.lt_def])
    have l2 : g ⟨0, by simp⟩ < g ⟨1, by simp⟩ := g.strictMono (by simp [Fin.lt_def])
    rw [e1, e2] at l1
    exact absurd l1 (not_lt.2 l2.le)

/-- without ties the order of the siblings that are sorted does not matter -/
theorem Forest.StablySorted.unique_near {ob : List (Nat × Bool)} {v : Nat → Vals} {G1 G2 F1 F2 : Forest} (hnear : G1.Near G2)
    (hd : ∀ q, ∀ a ∈ F1 q, ∀ b ∈ F1 q, a ≠ b → keyLt ob (v a) (v b) ∨ keyLt ob (v b) (v a))
    (h1 : G1.StablySorted ob v F1) (h2 : G2.StablySorted ob v F2) : F1 = F2 := by
  funext q
  have hp : (F1 q).Perm (F2 q) := (h1 q).1.trans ((hnear q).symm.trans (h2 q).1.symm)
  refine hp.eq_of_pairwise (le := fun a b => ¬ keyLt ob (v b) (v a)) ?_ (h1.sorted q) (h2.sorted q)
  intro a b ha hb hab hba
  by_contra hne
  rcases hd q a ha b (hp.mem_iff.2 hb) hne with h | h
  · exact hba h
  · exact hab h

namespace NS

variable {cfg cfg0 : Cfg}

/-- **C92 for NS** -/
theorem C92_ns (ho : cfg.ordered = true) (ho0 : cfg0.ordered = false) {ops : List Op} (hn : ∀ op ∈ ops, NoNulls cfg.orderBy op) {db db0 : DB}
    (hdb : db = runOps cfg { rows := [] } ops) (hdb0 : db0 = runOps cfg0 { rows := [] } (ops.map plainOp)) :
    (forest db0).StablySorted cfg.orderBy (valsIn (data db.rows)) (forest db) ∧ ∀ k, k ∈ db.rows.map Row.pk ↔ k ∈ db0.rows.map Row.pk := by
  subst hdb hdb0
  have h1 := (C41_ns_sorted ho hn).1
  have h2 := C41_ns ho0 (ops.map plainOp)
  obtain ⟨h3, h4⟩ := C92_spec hn
  refine ⟨by rw [h1.forest, h1.data, h2.forest]; exact h3, fun k => ?_⟩
  rw [h2.ids, ← h4, STree.ids, ← h1.data, data, List.map_map]
  rfl

/-- **C92, what decides the tree**: two histories that give the same values, no two siblings with equal ones, and without order the same parents,
give the same tree. -/
theorem C92_ns_determined (ho : cfg.ordered = true) (ho0 : cfg0.ordered = false) {ops1 ops2 : List Op} (hn1 : ∀ op ∈ ops1, NoNulls cfg.orderBy op)
    (hn2 : ∀ op ∈ ops2, NoNulls cfg.orderBy op) {db1 db2 p1 p2 : DB} (h1 : db1 = runOps cfg { rows := [] } ops1) (h2 : db2 = runOps cfg { rows := [] } ops2)
    (q1 : p1 = runOps cfg0 { rows := [] } (ops1.map plainOp)) (q2 : p2 = runOps cfg0 { rows := [] } (ops2.map plainOp))
    (hp : (forest p1).Near (forest p2)) (hv : (data db1.rows).Perm (data db2.rows)) (hd : ∀ q, ∀ a ∈ forest db1 q, ∀ b ∈ forest db1 q, a ≠ b →
      keyLt cfg.orderBy (valsIn (data db1.rows) a) (valsIn (data db1.rows) b) ∨ keyLt cfg.orderBy (valsIn (data db1.rows) b) (valsIn (data db1.rows) a)) :
    forest db1 = forest db2 := by
  have s1 := (C92_ns ho ho0 hn1 h1 q1).1
  have s2 := (C92_ns ho ho0 hn2 h2 q2).1
  have hk : (data db1.rows).map Prod.fst |>.Nodup := by
    rw [h1, (C41_ns_sorted ho hn1).1.data]
    exact (Twin.empty.run hn1).keys
  have e : valsIn (data db2.rows) = valsIn (data db1.rows) := by
    funext k
    by_cases hm : k ∈ (data db1.rows).map Prod.fst
    · obtain ⟨⟨k, v⟩, he, rfl⟩ := List.mem_map.1 hm
      rw [valsIn_mem hk he, valsIn_mem ((hv.map Prod.fst).nodup_iff.1 hk) (hv.mem_iff.1 he)]
    · have hm2 : k ∉ (data db2.rows).map Prod.fst := fun h => hm ((hv.map Prod.fst).mem_iff.2 h)
      have key : ∀ D : List (Nat × Vals), k ∉ D.map Prod.fst → valsIn D k = [] := by
        intro D hD
        unfold valsIn
        rw [List.lookup_eq_none_iff.2 (fun p hp => by
          simp only [beq_eq_false_iff_ne, ne_eq, bne_iff_ne]
          exact fun e => hD (e ▸ List.mem_map_of_mem hp))]
        rfl
      rw [key _ hm, key _ hm2]
  rw [e] at s2
  exact s1.unique_near hp hd s2

/-- two roots in either order -/
example : forest (runOps exSorted { rows := [] } [.addRoot 1 [some 5], .addRoot 2 [some 3]]) none = [2, 1] ∧
    forest (runOps exSorted { rows := [] } [.addRoot 2 [some 3], .addRoot 1 [some 5]]) none = [2, 1] ∧
    forest (runOps ⟨[]⟩ { rows := [] } [.addRoot 1 [some 5], .addRoot 2 [some 3]]) none = [1, 2] := by decide

/-- siblings out of order, two of them equal, and a move -/
example : forest (runOps ⟨[]⟩ { rows := [] } (exSOps.map plainOp)) (some 1) = [3, 4, 5] ∧
    forest (runOps exSorted { rows := [] } exSOps) (some 1) = [4, 5, 3] := by decide

end NS

namespace MP

variable {cfg cfg0 : Cfg}

/-- **C92 for MP**: neither history runs out of positions, and the moves of the second meet the guard of C41. -/
theorem C92_mp (hok : cfg.Ok) (hok0 : cfg0.Ok) (ho : cfg.ordered = true) (ho0 : cfg0.ordered = false) {ops : List Op}
    (hn : ∀ op ∈ ops, NoNulls cfg.orderBy op) (hr : Roomy cfg { rows := [] } ops) (hg0 : Guarded cfg0 { rows := [] } (ops.map plainOp))
    (hr0 : Roomy cfg0 { rows := [] } (ops.map plainOp)) {db db0 : DB}
    (hdb : db = runOps cfg { rows := [] } ops) (hdb0 : db0 = runOps cfg0 { rows := [] } (ops.map plainOp)) :
    (forest cfg0 db0).StablySorted cfg.orderBy (valsIn (data db.rows)) (forest cfg db) ∧ ∀ k, k ∈ db.rows.map Row.pk ↔ k ∈ db0.rows.map Row.pk := by
  subst hdb hdb0
  have h1 := C41_mp_sorted hok ho hn hr
  have h2 := C41_mp hok0 ho0 hg0 hr0
  obtain ⟨h3, h4⟩ := C92_spec hn
  refine ⟨by rw [h1.forest, h1.data, h2.forest]; exact h3, fun k => ?_⟩
  rw [h2.ids, ← h4, STree.ids, ← h1.data, data, List.map_map]
  rfl

theorem exSOps_plain_guarded : Guarded exCfg { rows := [] } (exSOps.map plainOp) := by
  have ho : exCfg.ordered = false := rfl
  refine ⟨fun h => by simp [ho] at h, fun h => by simp [ho] at h, fun h => by simp [ho] at h, fun h => by simp [ho] at h,
    fun h => by simp [ho] at h, guard_trivial ?_, trivial, trivial⟩
  intro p pos' _ hp
  obtain rfl : pos' = .lastChild := by
    have : preparePosForMove false (some .lastChild) = .ok .lastChild := rfl
    rw [this] at hp; cases hp; rfl
  show 2 ∉ forest exCfg _ (some 3)
  decide

example : (∀ op ∈ exSOps, NoNulls exCfgS.orderBy op) ∧ Roomy exCfgS { rows := [] } exSOps ∧ Guarded exCfg { rows := [] } (exSOps.map plainOp) ∧
    Roomy exCfg { rows := [] } (exSOps.map plainOp) ∧ forest exCfgS (runOps exCfgS { rows := [] } exSOps) (some 1) = [3, 4] :=
  ⟨exSOps_noNulls, by simp only [Roomy, exSOps]; decide, exSOps_plain_guarded, by simp only [Roomy, exSOps, List.map]; decide, by decide⟩

end MP

namespace AL

variable {cfg cfg0 : Cfg}

/-- **C92 for AL** (partial: when any two rows that the history adds differ in their order fields; among equal siblings the order is the
database's choice, `C16_al_ties`). -/
theorem C92_al_partial (ho : cfg.ordered = true) (ho0 : cfg0.ordered = false) {ops : List Op} (hn : ∀ op ∈ ops, NoNulls cfg.orderBy op)
    (hd : AddsDistinct cfg.orderBy ops) {db db0 : DB} (hdb : db = runOps cfg ⟨[]⟩ ops) (hdb0 : db0 = runOps cfg0 ⟨[]⟩ (ops.map plainOp)) :
    (forest cfg0 db0).StablySorted cfg.orderBy (valsIn (data db.rows)) (forest cfg db) ∧ ∀ k, k ∈ db.rows.map Row.pk ↔ k ∈ db0.rows.map Row.pk := by
  subst hdb hdb0
  have h1 := C41_al_sorted_adds_partial ho hd
  have h2 := C41_al ho0 (ops.map plainOp)
  obtain ⟨h3, h4⟩ := C92_spec hn
  refine ⟨by rw [h1.forest, h1.data, h2.forest]; exact h3, fun k => ?_⟩
  rw [h2.ids, ← h4, STree.ids, ← h1.data, data, List.map_map]
  rfl

/-- **C92 fails for AL with ties**: of two equal roots the first is moved next to the second; without order it ends up behind it, with
`node_order_by` it stays in front (the database lists equal rows as they were inserted). -/
theorem C92_al_fails : ∃ ops, forest exPlain (runOps exPlain ⟨[]⟩ (ops.map plainOp)) none = [2, 1] ∧
    forest exSorted (runOps exSorted ⟨[]⟩ ops) none = [1, 2] :=
  ⟨[.addRoot 1 [some 5], .addRoot 2 [some 5], .move 1 2 none], by decide, by decide⟩

example : forest exPlain (runOps exPlain ⟨[]⟩ (exSOps.map plainOp)) (some 1) = [3, 4, 5, 2] ∧
    forest exSorted (runOps exSorted ⟨[]⟩ exSOps) (some 1) = [4, 2, 5, 3] := by decide

end AL

namespace LT

variable {cfg cfg0 : Cfg}

/-- **C92 for LT** (partial: parents and nodes only, and no more than 701 operations; the order can differ, `C92_lt_fails`). -/
theorem C92_lt_partial (ho : cfg.ordered = true) (ho0 : cfg0.ordered = false) {ops : List Op} (hn : ∀ op ∈ ops, NoNulls cfg.orderBy op)
    (hl : ops.length ≤ 701) {db db0 : DB} (hdb : db = runOps cfg ⟨[], []⟩ ops) (hdb0 : db0 = runOps cfg0 ⟨[], []⟩ (ops.map plainOp)) :
    (forest db0).Near (forest db) ∧ ∀ k, k ∈ db.rows.map Row.pk ↔ k ∈ db0.rows.map Row.pk := by
  subst hdb hdb0
  have h1 := C41_lt_sorted_parents_short ho hl
  have h2 := C41_lt_parents_short ho0 (ops := ops.map plainOp) (by simpa using hl)
  obtain ⟨h3, h4⟩ := C92_spec hn
  exact ⟨fun p => (h1.forest p).trans ((h3 p).1.trans (h2.forest p).symm), fun k => by rw [h1.ids, h2.ids, h4]⟩

/-- **C92 fails for LT**: a root that comes last takes the label of the deleted first root. -/
theorem C92_lt_fails : ∃ ops, (∀ op ∈ ops, NoNulls exSorted.orderBy op) ∧
    ¬ (forest (runOps ⟨[]⟩ ⟨[], []⟩ (ops.map plainOp))).StablySorted exSorted.orderBy (valsIn (data (runOps exSorted ⟨[], []⟩ ops).rows))
      (forest (runOps exSorted ⟨[], []⟩ ops)) := by
  refine ⟨[.addRoot 1 [some 5], .addRoot 2 [some 7], .delete [1], .addRoot 3 [some 10]], ?_, fun h => ?_⟩
  · intro op hop
    simp only [List.mem_cons, List.not_mem_nil, or_false] at hop
    have hn : ∀ a, NonNull exSorted.orderBy [some a] := by
      intro a f hf
      simp only [exSorted, List.mem_cons, List.not_mem_nil, or_false] at hf
      subst hf; exact ⟨_, rfl⟩
    rcases hop with rfl | rfl | rfl | rfl <;> first | exact hn _ | trivial
  · exact absurd (h.sorted none) (by decide)

end LT

end Verif
