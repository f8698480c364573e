/-
C87: a node dissolved, with its children in its place.
-/
import Verif.DissolveModel
import Verif.SpecDissolve
import Verif.NS.Dissolve
import Verif.MP.Dissolve
import Verif.LT.Dissolve
import Verif.Props.Arrange

namespace Verif

namespace MP

variable {cfg : Cfg} {db : DB}

/-- the loop over the children of `x` starts well -/
theorem outInv_start (hok : cfg.Ok) (h : Consistent cfg db) {x : Row} (hx : x ∈ db.rows) {cs : List Row} (hc : ∀ c ∈ cs, c ∈ db.rows)
    (hcs : cs.map Row.pk = forest cfg db (some x.pk)) : OutInv cfg db cs.reverse x x := by
  have hi := (consistent_iff hok).1 h
  have hF := isForestOn_forest hok h
  have hdesc : ∀ c ∈ cs, x.path <+: c.path ∧ x ≠ c := by
    intro c hcc
    have h1 : (forest cfg db).Desc x.pk c.pk := .child (by rw [← hcs]; exact List.mem_map_of_mem hcc)
    rw [forest_eq hi hok] at h1
    exact (desc_PF hi.toPInv hok hx (hc c hcc)).1 h1
  have hap := hF.sibs_apart (l := (cs.map Row.pk).reverse) (p := some x.pk) (List.nodup_reverse.2 (hcs ▸ hF.kids_nodup _)) (by rw [hcs]; exact fun x hx => List.mem_reverse.1 hx)
  rw [← List.map_reverse] at hap
  refine ⟨hi, fun c hcc => ⟨c, hc c (List.mem_reverse.1 hcc), .refl c⟩, ?_, hx, .refl (hi.count_nonneg hx), fun c hcc => ?_⟩
  · refine List.Pairwise.imp_of_mem ?_ (List.pairwise_map.1 hap)
    rintro a b ha hb ⟨h1, h2⟩ hpre
    rw [forest_eq hi hok] at h2
    exact h2 ((desc_PF hi.toPInv hok (hc a (List.mem_reverse.1 ha)) (hc b (List.mem_reverse.1 hb))).2 ⟨hpre, fun e => h1 (by rw [e])⟩)
  · obtain ⟨h1, h2⟩ := hdesc c (List.mem_reverse.1 hcc)
    refine ⟨h1, Nat.lt_of_le_of_ne h1.length_le (fun e => h2 (hi.inv.path_inj hx (hc c (List.mem_reverse.1 hcc)) (h1.eq_of_length e)))⟩

/-- **C87 for MP.**  Every child of a node is moved right behind it, the last one first, and then the node is deleted; all objects were fetched before.  The program does what it
does with objects fetched anew.  Either nothing fails, the node is gone and its children, in their order and with their branches, are in its place, and nothing else has changed.
Or there is no path left among the siblings: then PathOverflow ends the program, the node is still there, and some of its children, in their order, are behind it. -/
theorem C87_mp (hok : cfg.Ok) (h : Consistent cfg db) (ho : cfg.ordered = false) {x : Row} (hx : x ∈ db.rows) {cs : List Row} (hc : ∀ c ∈ cs, c ∈ db.rows)
    (hcs : cs.map Row.pk = forest cfg db (some x.pk)) :
    let out := dissolve cfg cs x db
    moveLoop cfg (some .right) cs.reverse x db = moveFresh cfg (some .right) x.pk (cs.reverse.map Row.pk) db ∧ Consistent cfg out.1 ∧
      ((out.2 = none ∧ forest cfg out.1 = (forest cfg db).dissolved x.pk ∧ data out.1.rows = (data db.rows).filter (fun e => decide (e.1 ≠ x.pk))) ∨
       (out.2 = some .pathOverflow ∧ data out.1.rows = data db.rows ∧ (∃ p, x.pk ∈ forest cfg out.1 p ∧ LastTaken cfg out.1 p) ∧
        ∃ kept gone, forest cfg db (some x.pk) = kept ++ gone ∧ kept ≠ [] ∧ forest cfg out.1 = (forest cfg db).released x.pk kept gone)) := by
  have hF := isForestOn_forest hok h
  have hp := mem_forest_par hok ((consistent_iff hok).1 h) hx
  have hi := outInv_start hok h hx hc hcs
  have hg := out_loop hok ho (posArg := some .right) rfl rfl hi
  have hout := hg.out
  rw [List.map_reverse, hcs] at hout
  intro out
  refine ⟨outLoop_fresh hok ho (posArg := some .right) rfl hi, ?_⟩
  cases hm : moveLoop cfg (some .right) cs.reverse x db with
  | mk db' err =>
  rw [hm] at hg hout
  obtain ⟨kept, gone, e, hgd, hend⟩ := hout.released hF (isForestOn_forest hok hg.consistent) hp
  by_cases hr : kept = []
  · subst hr
    rw [List.nil_append] at e
    rw [if_pos rfl] at hend
    simp only at hend
    subst hend
    have eo : out = (delete cfg db' (fun r => r.pk == x.pk), none) := by
      show dissolve cfg cs x db = _
      unfold dissolve
      rw [hm]
    rw [eo]
    obtain ⟨D, h1, h2, h3, h4⟩ := C09_delete hok hg.consistent (fun k => k == x.pk)
    have hkeys : db'.rows.map Row.pk = db.rows.map Row.pk := by
      have := congrArg (List.map Prod.fst) hg.data
      simpa [data, List.map_map, Function.comp_def] using this
    simp only at hgd
    rw [hkeys] at h1
    rw [← e] at hgd
    rw [hgd] at h1 h3
    obtain ⟨g1, g2⟩ := Forest.dissolved_prune hF (List.mem_map_of_mem hx) h1
    refine ⟨h2, Or.inl ⟨rfl, by rw [← g1]; exact h3, ?_⟩⟩
    show data (delete cfg db' _).rows = _
    rw [h4, hg.data]
    refine List.filter_congr (fun x _ => ?_)
    rw [g2, Bool.eq_iff_iff]
    simp
  · rw [if_neg hr] at hend
    obtain ⟨err', y, he, h1, q, hq, h2⟩ := hend
    simp only at he
    subst he h1
    have eo : out = (db', some .pathOverflow) := by
      show dissolve cfg cs x db = _
      unfold dissolve
      rw [hm]
    rw [eo]
    exact ⟨hg.consistent, Or.inr ⟨rfl, hg.data, ⟨q, hq, h2⟩, kept, gone, e, hr, hgd⟩⟩

/-- 1, with the children 2, 3 and 6, is dissolved, and 3, with the child 4 -/
example : Consistent exCfg loopDB ∧
    forest exCfg (dissolve exCfg [⟨2, [49, 49], 2, 0, []⟩, ⟨3, [49, 50], 2, 1, []⟩, ⟨6, [49, 51], 2, 0, []⟩] ⟨1, [49], 1, 3, []⟩ loopDB).1 none = [2, 3, 6, 5] ∧
    forest exCfg (dissolve exCfg [⟨4, [49, 50, 49], 3, 0, []⟩] ⟨3, [49, 50], 2, 1, []⟩ loopDB).1 (some 1) = [2, 4, 6] :=
  ⟨loopDB_consistent, by decide +kernel, by decide +kernel⟩

end MP

namespace NS

variable {cfg : Cfg} {db : DB}

theorem outInv_start (h : Consistent db) {x : Row} (hx : x ∈ db.rows) {cs : List Row} (hc : ∀ c ∈ cs, c ∈ db.rows) (hcs : cs.map Row.pk = forest db (some x.pk)) :
    OutInv db cs.reverse x := by
  have hn := h.toNI
  have hin : ∀ c ∈ cs, encl x c := by
    intro c hcc
    have : c.pk ∈ forest db (some x.pk) := by rw [← hcs]; exact List.mem_map_of_mem hcc
    exact ((par_row hn hx (hc c hcc)).1 ((mem_forest h (hc c hcc)).1 this)).2.1
  have hpar : ∀ c ∈ cs, par db.rows c = some x.pk := by
    intro c hcc
    exact (mem_forest h (hc c hcc)).1 (by rw [← hcs]; exact List.mem_map_of_mem hcc)
  refine ⟨h, fun c hcc => hc c (List.mem_reverse.1 hcc), ?_, hx, fun c hcc => hin c (List.mem_reverse.1 hcc)⟩
  have hch : cs = children db x := by
    refine rows_of_keys hn hc (fun c hcc => ((mem_children hn hx).1 hcc).1) ?_
    rw [hcs, children_PF hn hx, forest_eq hn]
  have hs := children_sorted hn x
  rw [← hch] at hs
  rw [List.pairwise_reverse]
  refine List.Pairwise.imp_of_mem ?_ hs
  intro a b ha hb hlt
  have hxa := hin a ha
  have hxb := hin b hb
  have htr : a.tree = b.tree := hxa.1.symm.trans hxb.1
  have h1 : a.lft < b.lft := by
    rcases lt_iff.1 hlt with h1 | h1
    · omega
    · exact h1.2
  have hab : a ≠ b := by rintro rfl; omega
  rcases hn.tri (hc a ha) (hc b hb) hab htr with h2 | h2 | h2 | h2
  · -- a child is not above a child
    exfalso
    have hi := (par_row hn hx (hc b hb)).1 (hpar b hb)
    rcases hi.2.2 a (hc a ha) h2 with h3 | h3
    · rw [h3] at hxa
      exact encl_irrefl _ hxa
    · exact encl_irrefl _ ⟨hxa.1.trans h3.1, hxa.2.1.trans h3.2.1, h3.2.2.trans hxa.2.2⟩
  · have := h2.2.1
    omega
  · exact h2
  · have := hn.lr b (hc b hb)
    omega

/-- **C87 for NS**: no exception, whatever the tree. -/
theorem C87_ns (h : Consistent db) (ho : cfg.ordered = false) {x : Row} (hx : x ∈ db.rows) {cs : List Row} (hc : ∀ c ∈ cs, c ∈ db.rows)
    (hcs : cs.map Row.pk = forest db (some x.pk)) :
    let out := dissolve cfg cs x db
    moveLoop cfg (some .right) cs.reverse x db = moveFresh cfg (some .right) x.pk (cs.reverse.map Row.pk) db ∧ Consistent out.1 ∧
      out.2 = none ∧ forest out.1 = (forest db).dissolved x.pk ∧ data out.1.rows = (data db.rows).filter (fun e => decide (e.1 ≠ x.pk)) := by
  have hF := isForestOn h
  rw [keys_eq] at hF
  have hg := out_loop ho (posArg := some .right) (by rw [ho]; rfl) (outInv_start h hx hc hcs)
  obtain ⟨hfresh, g1, g2, g3, g4⟩ := hg
  intro out
  refine ⟨hfresh, ?_⟩
  rw [List.map_reverse, hcs] at g4
  cases hm : moveLoop cfg (some .right) cs.reverse x db with
  | mk db' err =>
  rw [hm] at g1 g2 g3 g4
  simp only at g1 g2 g3 g4
  subst g3
  have hgd := Forest.movedAll_released (l := []) g4 (hF.ownKids _) (by simp)
  rw [List.reverse_reverse] at hgd
  have eo : out = (delete db' (fun r => r.pk == x.pk), none) := by
    show dissolve cfg cs x db = _
    unfold dissolve
    rw [hm]
  rw [eo]
  obtain ⟨D, h1, h2, h3, h4⟩ := C24_delete g1 (fun k => k == x.pk)
  have hkeys : db'.rows.map Row.pk = db.rows.map Row.pk := by
    have := congrArg (List.map Prod.fst) g2
    rwa [keys_eq, keys_eq] at this
  rw [hkeys] at h1
  rw [hgd] at h1 h3
  obtain ⟨k1, k2⟩ := Forest.dissolved_prune hF (List.mem_map_of_mem hx) h1
  refine ⟨h2, rfl, by rw [← k1]; exact h3, ?_⟩
  show data (delete db' _).rows = _
  rw [h4, g2]
  refine List.filter_congr (fun x _ => ?_)
  rw [k2, Bool.eq_iff_iff]
  simp

/-- the root 1, with the children 2, 3 and 6, is dissolved, and 3, with the children 4 and 5 -/
example : Consistent loopDB ∧ forest (dissolve ⟨[]⟩ [⟨2, 1, 2, 5, 2, []⟩, ⟨3, 1, 6, 11, 2, []⟩, ⟨6, 1, 12, 13, 2, []⟩] ⟨1, 1, 1, 14, 1, []⟩ loopDB).1 none = [2, 3, 6] ∧
    forest (dissolve ⟨[]⟩ [⟨4, 1, 7, 8, 3, []⟩, ⟨5, 1, 9, 10, 3, []⟩] ⟨3, 1, 6, 11, 2, []⟩ loopDB).1 (some 1) = [2, 4, 5, 6] :=
  ⟨loopDB_inv, by decide +kernel, by decide +kernel⟩

end NS

namespace AL

variable {cfg : Cfg} {db : DB}

/-- **C87 for AL.** -/
theorem C87_al (h : Consistent cfg db) (ho : cfg.ordered = false) {x : Row} (hx : x ∈ db.rows) {cs : List Row} (hc : ∀ c ∈ cs, c ∈ db.rows)
    (hcs : cs.map Row.pk = forest cfg db (some x.pk)) :
    let out := dissolve cfg cs x db
    moveLoop cfg (some .right) x cs.reverse db = moveFresh cfg (some .right) x.pk (cs.reverse.map Row.pk) db ∧ Consistent cfg out.1 ∧
      out.2 = none ∧ forest cfg out.1 = (forest cfg db).dissolved x.pk ∧ data out.1.rows = (data db.rows).filter (fun e => decide (e.1 ≠ x.pk)) := by
  have hkeys' : ∀ rows : List Row, (data rows).map Prod.fst = rows.map Row.pk := fun rows => by unfold data; rw [List.map_map]; rfl
  have hF := isForestOn (cfg := cfg) h.toWf.ai
  rw [hkeys'] at hF
  have hp := (mem_forest (cfg := cfg) h.toWf.ai hx).2 rfl
  have hmap : cs.reverse.map Row.pk = (forest cfg db (some x.pk)).reverse := by rw [List.map_reverse, hcs]
  obtain ⟨hfresh, hg⟩ := C79_al_partial h ho (fun c hcc => hc c (List.mem_reverse.1 hcc)) hx (posArg := some .right) (pos := .right) rfl (by simp)
    (by rw [hmap]; exact List.nodup_reverse.2 (hF.kids_nodup _)) (by rw [hmap]; exact fun _ hk => hF.irrefl x.pk (.child (List.mem_reverse.1 hk)))
  have hout := hg.out
  rw [hmap] at hout
  intro out
  refine ⟨hfresh, ?_⟩
  have g1 := hg.consistent
  have g2 := hg.data
  cases hm : moveLoop cfg (some .right) x cs.reverse db with
  | mk db' err =>
  rw [hm] at g1 g2 hout
  simp only at g1 g2 hout
  have hG := isForestOn (cfg := cfg) g1.toWf.ai
  obtain ⟨kept, gone, e, hgd, hend⟩ := hout.released hF hG hp
  have hr : kept = [] := by
    by_contra hr
    rw [if_neg hr] at hend
    obtain ⟨_, _, _, hf⟩ := hend
    exact hf
  subst hr
  rw [List.nil_append] at e
  rw [if_pos rfl] at hend
  subst hend
  have eo : out = (delete db' (fun r => r.pk == x.pk), none) := by
    show dissolve cfg cs x db = _
    unfold dissolve
    rw [hm]
  rw [eo]
  obtain ⟨D, h1, h2, h3, h4⟩ := C31_delete ho g1 (fun k => k == x.pk)
  have hkeys : db'.rows.map Row.pk = db.rows.map Row.pk := by
    have := congrArg (List.map Prod.fst) g2
    rwa [hkeys', hkeys'] at this
  rw [hkeys] at h1
  rw [← e] at hgd
  rw [hgd] at h1 h3
  obtain ⟨k1, k2⟩ := Forest.dissolved_prune hF (List.mem_map_of_mem hx) h1
  refine ⟨h2, rfl, by rw [← k1]; exact h3, ?_⟩
  show data (delete db' _).rows = _
  rw [h4, g2]
  refine List.filter_congr (fun x _ => ?_)
  rw [k2, Bool.eq_iff_iff]
  simp

/-- 1, with the children 2 and 3, is dissolved -/
example : Consistent exPlain exDB ∧ forest exPlain (dissolve exPlain [⟨2, some 1, 1, []⟩, ⟨3, some 1, 4, []⟩] ⟨1, none, 2, []⟩ exDB).1 none = [2, 3, 5] ∧
    forest exPlain (dissolve exPlain [⟨2, some 1, 1, []⟩, ⟨3, some 1, 4, []⟩] ⟨1, none, 2, []⟩ exDB).1 (some 3) = [4] :=
  ⟨consistent_of_inv rfl exDB_inv, by decide +kernel, by decide +kernel⟩

end AL

namespace LT

variable {cfg : Cfg} {db : DB}

theorem outInv_start (h : Consistent db) {x : Row} (hx : x ∈ db.rows) {cs : List Row} (hc : ∀ c ∈ cs, c ∈ db.rows) (hcs : cs.map Row.pk = forest db (some x.pk)) :
    OutInv db cs.reverse x := by
  have hi := h.inv.inv
  have hF := isForestOn h
  have hap := hF.sibs_apart (l := (cs.map Row.pk).reverse) (p := some x.pk) (List.nodup_reverse.2 (hcs ▸ hF.kids_nodup _)) (by rw [hcs]; exact fun x hx => List.mem_reverse.1 hx)
  rw [← List.map_reverse, forest_eq hi] at hap
  refine ⟨h, fun c hcc => hc c (List.mem_reverse.1 hcc), ?_, hx, fun c hcc => ?_⟩
  · refine List.Pairwise.imp_of_mem ?_ (List.pairwise_map.1 hap)
    rintro a b ha hb ⟨h1, h2⟩ hpre
    exact h2 ((desc_iff (L := 1) hi (by omega) (hc a (List.mem_reverse.1 ha)) (hc b (List.mem_reverse.1 hb))).2 ⟨hpre, fun e => h1 (by rw [e])⟩)
  · have hcc' := List.mem_reverse.1 hcc
    have h1 : (forest db).Desc x.pk c.pk := .child (by rw [← hcs]; exact List.mem_map_of_mem hcc')
    rw [forest_eq hi] at h1
    obtain ⟨h2, h3⟩ := (desc_iff (L := 1) hi (by omega) hx (hc c hcc')).1 h1
    exact ⟨h2, Nat.lt_of_le_of_ne h2.length_le (fun e => h3 (hi.path_inj hx (hc c hcc') (h2.eq_of_length e)))⟩

/-- **C87 for LT** (partial: the order; see `C87_lt_fails`).  No exception; the node is gone, its children are below its parent and nothing else has another parent or is missing.
The first child is in the place of the node, with the siblings that were left of it left of it; the other children and the siblings right of the node come after it, in some order.
A node without children is only deleted. -/
theorem C87_lt_partial (h : Consistent db) (ho : cfg.ordered = false) {x : Row} (hx : x ∈ db.rows) {cs : List Row} (hc : ∀ c ∈ cs, c ∈ db.rows)
    (hcs : cs.map Row.pk = forest db (some x.pk)) {p : Option Nat} (hp : x.pk ∈ forest db p) :
    let out := dissolve cfg cs x db
    moveLoop cfg (some .right) cs.reverse x db = moveFresh cfg (some .right) x.pk (cs.reverse.map Row.pk) db ∧ Consistent out.1 ∧ out.2 = none ∧
      data out.1.rows = (data db.rows).filter (fun e => decide (e.1 ≠ x.pk)) ∧
      (forest db (some x.pk) = [] → forest out.1 = (forest db).dissolved x.pk) ∧
      ∀ c ks, forest db (some x.pk) = c :: ks → ((forest db).dissolved x.pk).UpToRight (forest out.1) p c := by
  have hF := isForestOn h
  rw [keys_eq] at hF
  have hmap : (cs.reverse.map Row.pk).reverse = forest db (some x.pk) := by rw [List.map_reverse, List.reverse_reverse, hcs]
  obtain ⟨hfresh, g1, g2, g3, g4⟩ := out_loop ho (cfg := cfg) (posArg := some .right) rfl (F := forest db) (p := p) (gone := []) (outInv_start h hx hc hcs) hp
    (by rw [hmap]; exact .start hp)
  rw [hmap, List.append_nil] at g4
  intro out
  refine ⟨hfresh, ?_⟩
  cases hm : moveLoop cfg (some .right) cs.reverse x db with
  | mk db' err =>
  rw [hm] at g1 g2 g3 g4
  simp only at g1 g2 g3 g4
  subst g3
  have eo : out = (delete db' (fun r => r.pk == x.pk), none) := by
    show dissolve cfg cs x db = _
    unfold dissolve
    rw [hm]
  rw [eo]
  obtain ⟨D, h1, h2, h3, h4⟩ := C37_delete g1 (fun k => k == x.pk)
  have hkeys : db'.rows.map Row.pk = db.rows.map Row.pk := by
    have := congrArg (List.map Prod.fst) g2
    rwa [keys_eq, keys_eq] at this
  rw [hkeys] at h1
  have hDa : ∀ k, D k = (k == x.pk) := by
    intro k
    rw [Bool.eq_iff_iff, h1 k]
    constructor
    · rintro ⟨_, h | ⟨q, hq, h⟩⟩
      · exact h
      · exfalso
        rw [beq_iff_eq] at hq
        subst hq
        have : ∀ {k}, ¬ (forest db').Desc x.pk k := by
          intro k h
          induction h with
          | child h => rw [g4.kids] at h; cases h
          | step _ _ ih => exact ih
        exact this h
    · intro h
      exact ⟨by rw [beq_iff_eq] at h; rw [h]; exact List.mem_map_of_mem hx, Or.inl h⟩
  refine ⟨h2, rfl, ?_, fun hnil => ?_, fun c ks hk => ?_⟩
  · show data (delete db' _).rows = _
    rw [h4, ← g2]
    unfold data
    rw [List.filter_map]
    refine congrArg _ (List.filter_congr (fun x _ => ?_))
    rw [hDa, Bool.eq_iff_iff]
    simp
  · show forest (delete db' _) = _
    have hre : forest db' = (forest db).released x.pk [] (forest db (some x.pk)) := by
      rw [hnil] at g4 ⊢
      have hkeep := Forest.released_nil (hF.ownKids x.pk)
      rw [hnil] at hkeep
      rw [hkeep]
      obtain ⟨l, r, r', e1, e2, _, e3⟩ := g4.row
      funext q
      by_cases hq : q = p
      · rw [hq, e1, e2, e3 rfl]
        rfl
      · by_cases hqx : q = some x.pk
        · rw [hqx, g4.kids, hnil]
        · exact g4.others q hq hqx
    rw [hre] at h1 h3
    rw [h3]
    exact (Forest.dissolved_prune hF (List.mem_map_of_mem hx) h1).1
  · show ((forest db).dissolved x.pk).UpToRight (forest (delete db' _)) p c
    rw [h3]
    rw [hk] at g4
    exact g4.dissolved hF hp hk hDa

/-- 1, with the children 2 and 3, is dissolved -/
example : Consistent exDB ∧ forest exDB (some 1) = [2, 3] ∧ forest (dissolve ⟨[]⟩ [⟨2, [[65], [65]], []⟩, ⟨3, [[65], [66]], []⟩] ⟨1, [[65]], []⟩ exDB).1 none = [2, 3, 5] :=
  ⟨consistent_iff.2 exDB_inv, by decide +kernel, by decide +kernel⟩

/-- 1 with the children 3 and 4, and its siblings 2 and 8, with the labels B and B0 -/
def shuffleDB : DB := ⟨[⟨1, [[65]], []⟩, ⟨2, [[66]], []⟩, ⟨8, [[66, 48]], []⟩, ⟨3, [[65], [65]], []⟩, ⟨4, [[65], [66]], []⟩], []⟩

/-- the table is what the API produces: four nodes are added, 8 right of 2, and the root 9 is deleted; then the children are added -/
example : ((addRoot ⟨[]⟩ ⟨[], []⟩ ⟨1, [], []⟩).toOption.bind (fun a => (addRoot ⟨[]⟩ a.1 ⟨2, [], []⟩).toOption.bind (fun b => (addRoot ⟨[]⟩ b.1 ⟨9, [], []⟩).toOption.bind (fun c =>
    (addSibling ⟨[]⟩ c.1 ⟨2, [[66]], []⟩ (some .right) ⟨8, [], []⟩).toOption.bind (fun d =>
    (addChild ⟨[]⟩ (delete d.1 (fun r => r.pk == 9)) ⟨1, [[65]], []⟩ ⟨3, [], []⟩).toOption.bind (fun e =>
    (addChild ⟨[]⟩ e.1 ⟨1, [[65]], []⟩ ⟨4, [], []⟩).toOption.map (fun f => f.1.rows))))))) = some shuffleDB.rows := by decide +kernel

theorem shuffleDB_consistent : Consistent shuffleDB := consistent_iff.2 (inv_of_check (by decide))

/-- **The order of siblings that have nothing to do with it** (violation): dissolving 1 makes room between its labels and B, and 2 and 8 change places. -/
theorem C87_lt_fails :
    let out := dissolve ⟨[]⟩ [⟨3, [[65], [65]], []⟩, ⟨4, [[65], [66]], []⟩] ⟨1, [[65]], []⟩ shuffleDB
    Consistent shuffleDB ∧ forest shuffleDB none = [1, 2, 8] ∧ forest shuffleDB (some 1) = [3, 4] ∧ out.2 = none ∧ forest out.1 none = [3, 4, 8, 2] ∧
      (forest shuffleDB).dissolved 1 none = [3, 4, 2, 8] :=
  ⟨shuffleDB_consistent, by decide +kernel, by decide +kernel, by decide +kernel, by decide +kernel, by decide +kernel⟩

end LT

end Verif
