/-
C83: siblings put in a chosen order by a loop of moves.  C84: a node merged into another one.
-/
import Verif.ArrangeModel
import Verif.NS.Arrange
import Verif.Props.MoveLoop
import Verif.Props.DeleteLoop
import Verif.Props.AdminSearch

namespace Verif

/-- a whole group of siblings put in order -/
theorem Forest.Arranged.order {F G : Forest} {p : Option Nat} {ws : List Nat} {Why : Err → Prop} (h : F.Arranged G p ws none Why) :
    G = F.withKids p (Forest.toEnd (F p) ws) ∧ (ws.Perm (F p) → G p = ws) := by
  obtain ⟨done, rest, e, hg, hend⟩ := h
  by_cases hr : rest = []
  · subst hr
    rw [List.append_nil] at e
    subst e
    refine ⟨hg, fun hp => ?_⟩
    rw [hg]
    unfold withKids
    rw [if_pos rfl, toEnd_perm hp]
  · rw [if_neg hr] at hend
    obtain ⟨e', h', _⟩ := hend
    cases h'

/-- the first of the siblings as target, the others put after it -/
theorem Forest.Arranged.order_after {F G : Forest} {p : Option Nat} {w : Nat} {ws : List Nat} {Why : Err → Prop} (h : F.Arranged G p ws none Why) (hp : (w :: ws).Perm (F p))
    (hn : (F p).Nodup) : G p = w :: ws := by
  obtain ⟨e, _⟩ := h.order
  have hnd := List.nodup_cons.1 (hp.nodup_iff.2 hn)
  rw [e]
  unfold withKids toEnd
  rw [if_pos rfl]
  have h1 : (F p).filter (fun k => decide (k ∉ ws)) = [w] := by
    have h2 : (F p).filter (fun k => decide (k ∉ ws)) = (F p).filter (fun k => decide (k = w)) := by
      refine List.filter_congr (fun k hk => ?_)
      rw [Bool.eq_iff_iff, decide_eq_true_eq, decide_eq_true_eq]
      constructor
      · intro h3
        rcases List.mem_cons.1 (hp.mem_iff.2 hk) with h4 | h4
        · exact h4
        · exact absurd h4 h3
      · rintro rfl; exact hnd.1
    rw [h2]
    have h3 : ((F p).filter (fun k => decide (k = w))).Perm ((w :: ws).filter (fun k => decide (k = w))) := (hp.filter _).symm
    have h4 : ws.filter (fun k => decide (k = w)) = [] := List.filter_eq_nil_iff.2 (fun k hk => by
      rw [decide_eq_true_eq]
      rintro rfl
      exact hnd.1 hk)
    rw [List.filter_cons_of_pos (by simp), h4] at h3
    exact List.perm_singleton.1 h3
  rw [h1]
  rfl

/-- siblings are not below each other -/
theorem Forest.IsForestOn.sibs_apart {F : Forest} {ids : List Nat} (h : F.IsForestOn ids) {p : Option Nat} {l : List Nat} (hn : l.Nodup) (hl : ∀ x ∈ l, x ∈ F p) : F.NoneBelow l := by
  unfold NoneBelow
  refine List.Pairwise.imp_of_mem ?_ hn
  intro a b ha hb hne
  exact ⟨fun e => hne e.symm, sib_not_desc h.good.one h.irrefl (hl a ha) (hl b hb)⟩

namespace MP

variable {cfg : Cfg} {db : DB}

/-- **C83 for MP**: different siblings, fetched before the loop, go to the end one after the other: below their parent with `last-child`, or next to one of the group with
`last-sibling`.  They stand at the end in the order of the list, everything else is as it was.  If the numbers for the last place run out the loop stops, and what is done by then is
as asked for. -/
theorem C83_mp (hok : cfg.Ok) (h : Consistent cfg db) (ho : cfg.ordered = false) {nodes : List Row} (hn : ∀ x ∈ nodes, x ∈ db.rows) {t : Row} (ht : t ∈ db.rows)
    {posArg : Option Pos} {pos : Pos} (hprep : preparePosForMove false posArg = .ok pos) (hpos : pos = .lastSibling ∨ pos = .lastChild) {p : Option Nat} (hp : t.pk ∈ forest cfg db p)
    (hnd : (nodes.map Row.pk).Nodup) (hw : ∀ x ∈ nodes, x.pk ∈ forest cfg db (pos.dest p t.pk)) :
    let out := moveLoop cfg posArg nodes t db
    Consistent cfg out.1 ∧ data out.1.rows = data db.rows ∧
      (forest cfg db).Arranged (forest cfg out.1) (pos.dest p t.pk) (nodes.map Row.pk) out.2 (fun e => e = .pathOverflow ∧ LastTaken cfg out.1 (pos.dest p t.pk)) := by
  have hF := isForestOn_forest hok h
  have hw' : ∀ x ∈ nodes.map Row.pk, x ∈ forest cfg db (pos.dest p t.pk) := by
    intro k hk
    obtain ⟨x, hx, rfl⟩ := List.mem_map.1 hk
    exact hw x hx
  obtain ⟨_, hg⟩ := C79_mp_partial hok h ho hn ht hprep hp (hF.sibs_apart hnd hw') (hpos.imp id Or.inl)
  have hG := isForestOn_forest hok hg.consistent
  refine ⟨hg.consistent, hg.data, ?_⟩
  obtain ⟨done, rest, e, hgd, hend⟩ := hg.out.arranged hpos hF hG hp hnd hw'
  refine ⟨done, rest, e, hgd, ?_⟩
  by_cases hr : rest = []
  · rw [if_pos hr] at hend ⊢; exact hend
  · rw [if_neg hr] at hend ⊢
    obtain ⟨err, he, x, hx, h1, q, hq, h2⟩ := hend
    refine ⟨err, he, h1, ?_⟩
    have : pos.dest q t.pk = pos.dest p t.pk := by
      rcases hpos with rfl | rfl
      · have : t.pk ∈ forest cfg (moveLoop cfg posArg nodes t db).1 p := by
          rw [hgd]
          unfold Forest.withKids Forest.toEnd
          rw [if_pos (show p = Pos.dest p t.pk .lastSibling from rfl), List.mem_append, List.mem_filter, decide_eq_true_eq]
          by_cases htd : t.pk ∈ done
          · exact Or.inr htd
          · exact Or.inl ⟨hp, htd⟩
        exact hG.good.one _ _ _ hq this
      · rfl
    rw [← this]
    exact h2

/-- 1 has the children 2, 3 and 6, which are put in the order 6, 2, 3 -/
example : Consistent exCfg loopDB ∧ preparePosForMove false (some .lastChild) = .ok .lastChild ∧ [6, 2, 3].Perm (forest exCfg loopDB (some 1)) ∧
    forest exCfg (moveLoop exCfg (some .lastChild) [⟨6, [49, 51], 2, 0, []⟩, ⟨2, [49, 49], 2, 0, []⟩, ⟨3, [49, 50], 2, 1, []⟩] ⟨1, [49], 1, 3, []⟩ loopDB).1 (some 1) = [6, 2, 3] ∧
    forest exCfg (moveLoop exCfg (some .lastSibling) [⟨2, [49, 49], 2, 0, []⟩, ⟨3, [49, 50], 2, 1, []⟩] ⟨6, [49, 51], 2, 0, []⟩ loopDB).1 (some 1) = [6, 2, 3] :=
  ⟨loopDB_consistent, rfl, by decide +kernel, by decide +kernel, by decide +kernel⟩

/-- **C84 for MP**: all the children of `a`, fetched before, go below `t`, and `a` is deleted.  Then `a` and nothing else is gone, and the children it had come, in their order, after those of `t`.
If the numbers for the last place run out, no node is deleted. -/
theorem C84_mp (hok : cfg.Ok) (h : Consistent cfg db) (ho : cfg.ordered = false) {a t : Row} (ha : a ∈ db.rows) (ht : t ∈ db.rows) (hne : a.pk ≠ t.pk)
    (hd : ¬ (forest cfg db).Desc a.pk t.pk) {cs : List Row} (hc : ∀ x ∈ cs, x ∈ db.rows) (hcs : cs.map Row.pk = forest cfg db (some a.pk)) :
    let out := mergeInto cfg cs a t db
    Consistent cfg out.1 ∧
      ((out.2 = none ∧ forest cfg out.1 = (forest cfg db).merged a.pk t.pk ∧ data out.1.rows = (data db.rows).filter (fun e => decide (e.1 ≠ a.pk))) ∨
       (out.2 = some .pathOverflow ∧ data out.1.rows = data db.rows ∧ LastTaken cfg out.1 (some t.pk) ∧
        ∃ done rest, forest cfg db (some a.pk) = done ++ rest ∧ rest ≠ [] ∧ forest cfg out.1 = (forest cfg db).handed a.pk t.pk done)) := by
  have hF := isForestOn_forest hok h
  have hp := mem_forest_par hok ((consistent_iff hok).1 h) ht
  obtain ⟨_, hg⟩ := C79_mp_partial hok h ho hc ht (posArg := some .lastChild) (pos := .lastChild) rfl hp (hF.sibs_apart (hcs ▸ hF.kids_nodup _) (by rw [hcs]; exact fun x hx => hx)) (Or.inr (Or.inl rfl))
  have hout := hg.out
  rw [hcs] at hout
  obtain ⟨done, rest, e, hgd, hend⟩ := hout.handed hF hp hne hd
  intro out
  cases hm : moveLoop cfg (some .lastChild) cs t db with
  | mk db' err =>
  rw [hm] at hg hgd hend
  by_cases hr : rest = []
  · subst hr
    rw [List.append_nil] at e
    rw [if_pos rfl] at hend
    simp only at hend
    subst hend
    have eo : out = (delete cfg db' (fun r => r.pk == a.pk), none) := by
      show mergeInto cfg cs a t db = _
      unfold mergeInto
      rw [hm]
    rw [eo]
    obtain ⟨D, h1, h2, h3, h4⟩ := C09_delete hok hg.consistent (fun k => k == a.pk)
    have hkeys : db'.rows.map Row.pk = db.rows.map Row.pk := by
      have := congrArg (List.map Prod.fst) hg.data
      simpa [data, List.map_map, Function.comp_def] using this
    simp only at hgd
    rw [hkeys] at h1
    rw [← e] at hgd
    rw [hgd] at h1 h3
    obtain ⟨g1, g2⟩ := Forest.merged_prune hF hne (List.mem_map_of_mem ha) h1
    refine ⟨h2, Or.inl ⟨rfl, by rw [← g1]; exact h3, ?_⟩⟩
    show data (delete cfg db' _).rows = _
    rw [h4, hg.data]
    refine List.filter_congr (fun x _ => ?_)
    rw [g2, Bool.eq_iff_iff]
    simp
  · rw [if_neg hr] at hend
    obtain ⟨err', x, he, h1, q, hq, h2⟩ := hend
    simp only at he
    subst he h1
    have eo : out = (db', some .pathOverflow) := by
      show mergeInto cfg cs a t db = _
      unfold mergeInto
      rw [hm]
    rw [eo]
    exact ⟨hg.consistent, Or.inr ⟨rfl, hg.data, h2, done, rest, e, hr, hgd⟩⟩

/-- 3, with the child 4, is merged into 5; 1, with the children 2, 3 and 6, is merged into 5 -/
example : Consistent exCfg loopDB ∧
    (mergeInto exCfg [⟨4, [49, 50, 49], 3, 0, []⟩] ⟨3, [49, 50], 2, 1, []⟩ ⟨5, [50], 1, 0, []⟩ loopDB).1.rows =
      [⟨1, [49], 1, 2, []⟩, ⟨2, [49, 49], 2, 0, []⟩, ⟨4, [50, 49], 2, 0, []⟩, ⟨6, [49, 51], 2, 0, []⟩, ⟨5, [50], 1, 1, []⟩] ∧
    forest exCfg (mergeInto exCfg [⟨2, [49, 49], 2, 0, []⟩, ⟨3, [49, 50], 2, 1, []⟩, ⟨6, [49, 51], 2, 0, []⟩] ⟨1, [49], 1, 3, []⟩ ⟨5, [50], 1, 0, []⟩ loopDB).1 (some 5) = [2, 3, 6] :=
  ⟨loopDB_consistent, by decide +kernel, by decide +kernel⟩

end MP

namespace NS

variable {cfg : Cfg} {db : DB}

/-- a loop without errors -/
theorem AllBelow.loopOut {posArg : Option Pos} {xs : List Row} {t : Row} (h : AllBelow cfg posArg xs t db) :
    Forest.LoopOut .lastChild t.pk (xs.map Row.pk) (forest db) (forest (moveLoop cfg posArg xs t db).1) (moveLoop cfg posArg xs t db).2 (fun _ _ => False) :=
  ⟨xs.map Row.pk, [], (List.append_nil _).symm, h.moved, h.all⟩

theorem apart_of (h : Consistent db) {nodes : List Row} (hap : (forest db).NoneBelow (nodes.map Row.pk).reverse) :
    nodes.Pairwise (fun a b => b.pk ≠ a.pk ∧ ¬ (PF db.rows).Desc b.pk a.pk) := by
  rw [forest_eq h.toNI] at hap
  unfold Forest.NoneBelow at hap
  rw [List.pairwise_reverse, List.pairwise_map] at hap
  exact hap.imp (fun ⟨h1, h2⟩ => ⟨fun e => h1 e.symm, h2⟩)

/-- **C79 for NS, more**: nodes of the tree of the target go below it as last children, if they end before the target does, the target is not one of them and not below one, and no node is above
an earlier one.  Nodes of other trees may be among them. -/
theorem C79_ns_before (h : Consistent db) (ho : cfg.ordered = false) {nodes : List Row} (hn : ∀ x ∈ nodes, x ∈ db.rows) {t : Row} (ht : t ∈ db.rows) {posArg : Option Pos}
    (hprep : preparePosForMove cfg.ordered posArg = .ok .lastChild) (hap : (forest db).NoneBelow (nodes.map Row.pk).reverse)
    (hat : ∀ x ∈ nodes, x.pk ≠ t.pk ∧ ¬ (forest db).Desc x.pk t.pk) (hl : ∀ x ∈ nodes, x.tree = t.tree → x.rgt < t.rgt) :
    moveLoop cfg posArg nodes t db = moveFresh cfg posArg t.pk (nodes.map Row.pk) db ∧ LoopGood cfg db .lastChild t.pk (nodes.map Row.pk) (moveLoop cfg posArg nodes t db) := by
  have := left_loop ho hprep (xs := nodes) (t := t) (db := db)
    ⟨h, fun x hx => ⟨x, hn x hx, .refl x, hl x hx⟩, apart_of h hap, ht, fun x hx => by rw [← forest_eq h.toNI]; exact hat x hx, hl⟩
  exact ⟨this.fresh, this.consistent, this.data, this.all, fun _ => this.moved⟩

/-- **C79 for NS, more**: nodes of the tree of the target, each after the one before and all after the target, go below it as last children. -/
theorem C79_ns_after (h : Consistent db) (ho : cfg.ordered = false) {nodes : List Row} (hn : ∀ x ∈ nodes, x ∈ db.rows) {t : Row} (ht : t ∈ db.rows) {posArg : Option Pos}
    (hprep : preparePosForMove cfg.ordered posArg = .ok .lastChild) (hap : nodes.Pairwise (fun a b => a.rgt < b.lft)) (hr : ∀ x ∈ nodes, x.tree = t.tree ∧ t.rgt < x.lft) :
    moveLoop cfg posArg nodes t db = moveFresh cfg posArg t.pk (nodes.map Row.pk) db ∧ LoopGood cfg db .lastChild t.pk (nodes.map Row.pk) (moveLoop cfg posArg nodes t db) := by
  have := right_loop ho hprep (xs := nodes) (t := t) (db := db) ⟨h, hn, hap, ht, hr⟩
  exact ⟨this.fresh, this.consistent, this.data, this.all, fun _ => this.moved⟩

/-- **C79 for NS, with objects fetched anew**: any nodes, any target, any position: consistent, and every node where it was asked for, up to the first one that is refused. -/
theorem C79_ns_fresh (h : Consistent db) (ho : cfg.ordered = false) {posArg : Option Pos} {pos : Pos} (hprep : preparePosForMove cfg.ordered posArg = .ok pos) {t : Nat} {xs : List Nat}
    (ht : t ∈ db.rows.map Row.pk) (hx : ∀ x ∈ xs, x ∈ db.rows.map Row.pk) :
    Consistent (moveFresh cfg posArg t xs db).1 ∧ data (moveFresh cfg posArg t xs db).1.rows = data db.rows ∧
      Forest.LoopOut pos t xs (forest db) (forest (moveFresh cfg posArg t xs db).1) (moveFresh cfg posArg t xs db).2 (fun _ _ => False) :=
  fresh_loop ho hprep h ht hx

/-- the children of a node, or any siblings, are below nothing that they are next to -/
theorem kids_left (h : Consistent db) {t : Row} (ht : t ∈ db.rows) {nodes : List Row} (hn : ∀ x ∈ nodes, x ∈ db.rows) (hnd : (nodes.map Row.pk).Nodup)
    (hw : ∀ x ∈ nodes, x.pk ∈ forest db (some t.pk)) : LeftInv db nodes t := by
  have hni := h.toNI
  have hF := isForestOn h
  have hi : ∀ x ∈ nodes, encl t x := fun x hx => ((par_row hni ht (hn x hx)).1 ((mem_forest h (hn x hx)).1 (hw x hx))).2.1
  refine ⟨h, fun x hx => ⟨x, hn x hx, .refl x, fun _ => (hi x hx).2.2⟩, apart_of h ?_, ht, fun x hx => ?_, fun x hx _ => (hi x hx).2.2⟩
  · refine hF.sibs_apart (List.nodup_reverse.2 hnd) (p := some t.pk) (fun k hk => ?_)
    obtain ⟨x, hx, rfl⟩ := List.mem_map.1 (List.mem_reverse.1 hk)
    exact hw x hx
  · have := hi x hx
    refine ⟨fun e => ?_, fun hd => ?_⟩
    · rw [hni.pk_inj (hn x hx) ht e] at this
      exact encl_irrefl _ this
    · rw [desc_PF hni (hn x hx) ht] at hd
      have := this.2.1
      have := hd.2.1
      omega

/-- **C83 for NS** (`last-child`): although every move renumbers the nodes, the children fetched before the loop end in the order of the list. -/
theorem C83_ns (h : Consistent db) (ho : cfg.ordered = false) {nodes : List Row} (hn : ∀ x ∈ nodes, x ∈ db.rows) {t : Row} (ht : t ∈ db.rows)
    {posArg : Option Pos} (hprep : preparePosForMove false posArg = .ok .lastChild) (hnd : (nodes.map Row.pk).Nodup) (hw : ∀ x ∈ nodes, x.pk ∈ forest db (some t.pk)) :
    let out := moveLoop cfg posArg nodes t db
    Consistent out.1 ∧ data out.1.rows = data db.rows ∧ out.2 = none ∧ (forest db).Arranged (forest out.1) (some t.pk) (nodes.map Row.pk) out.2 (fun _ => False) := by
  have hg := left_loop ho (by rw [ho]; exact hprep) (kids_left h ht hn hnd hw)
  refine ⟨hg.consistent, hg.data, hg.all, ?_⟩
  obtain ⟨done, rest, e, hgd, hend⟩ := hg.loopOut.arranged (Or.inr rfl) (isForestOn h) (isForestOn hg.consistent) ((mem_forest h ht).2 rfl) hnd (fun k hk => by
    obtain ⟨x, hx, rfl⟩ := List.mem_map.1 hk
    exact hw x hx)
  refine ⟨done, rest, e, hgd, ?_⟩
  by_cases hr : rest = []
  · rw [if_pos hr] at hend ⊢; exact hend
  · rw [if_neg hr] at hend
    obtain ⟨_, _, _, _, hf⟩ := hend
    exact hf.elim

/-- **C83 for NS** (`last-sibling`, partial: for roots): roots fetched before the loop are put after the target, a root that is none of them. -/
theorem C83_ns_roots_partial (h : Consistent db) (ho : cfg.ordered = false) {nodes : List Row} (hn : ∀ x ∈ nodes, x ∈ db.rows) {t : Row} (ht : t ∈ db.rows)
    {posArg : Option Pos} (hprep : preparePosForMove false posArg = .ok .lastSibling) (hp : t.pk ∈ forest db none) (hnd : (nodes.map Row.pk).Nodup) (htn : t.pk ∉ nodes.map Row.pk)
    (hw : ∀ x ∈ nodes, x.pk ∈ forest db none) :
    let out := moveLoop cfg posArg nodes t db
    Consistent out.1 ∧ data out.1.rows = data db.rows ∧ out.2 = none ∧ (forest db).Arranged (forest out.1) none (nodes.map Row.pk) out.2 (fun _ => False) := by
  have hF := isForestOn h
  have hw' : ∀ k ∈ nodes.map Row.pk, k ∈ forest db none := by
    intro k hk
    obtain ⟨x, hx, rfl⟩ := List.mem_map.1 hk
    exact hw x hx
  obtain ⟨_, hg⟩ := C79_ns_partial (cfg := cfg) h hn ht (by rw [ho]; exact hprep)
    (hF.sibs_apart (List.nodup_reverse.2 hnd) (p := none) (fun k hk => hw' k (List.mem_reverse.1 hk))) (Or.inl ⟨rfl, hp, htn⟩)
  refine ⟨hg.consistent, hg.data, hg.all, ?_⟩
  have hlo : Forest.LoopOut .lastSibling t.pk (nodes.map Row.pk) (forest db) (forest (moveLoop cfg posArg nodes t db).1) (moveLoop cfg posArg nodes t db).2 (fun _ _ => False) :=
    ⟨nodes.map Row.pk, [], (List.append_nil _).symm, hg.moved ho, hg.all⟩
  obtain ⟨done, rest, e, hgd, hend⟩ := hlo.arranged (Or.inl rfl) hF (isForestOn hg.consistent) hp hnd hw'
  refine ⟨done, rest, e, hgd, ?_⟩
  by_cases hr : rest = []
  · rw [if_pos hr] at hend ⊢; exact hend
  · rw [if_neg hr] at hend
    obtain ⟨_, _, _, _, hf⟩ := hend
    exact hf.elim

/-- 1 has the children 2, 3 and 6, which are put in the order 3, 6, 2 -/
example : Consistent loopDB ∧ [3, 6, 2].Perm (forest loopDB (some 1)) ∧
    forest (moveLoop ⟨[]⟩ (some .lastChild) [⟨3, 1, 6, 11, 2, []⟩, ⟨6, 1, 12, 13, 2, []⟩, ⟨2, 1, 2, 5, 2, []⟩] ⟨1, 1, 1, 14, 1, []⟩ loopDB).1 (some 1) = [3, 6, 2] :=
  ⟨loopDB_inv, by decide +kernel, by decide +kernel⟩

/-- **Children put after one of them** (violation): 2 and then 3 are to go to the end of their siblings, after 6.  After the first move the object for 3 has a range in which 6 is now: the second
move is refused as if 6 were below 3.  With objects fetched anew, or with `last-child` of the parent, it is done. -/
theorem C83_ns_sibling_fails :
    let nodes := [⟨2, 1, 2, 5, 2, []⟩, ⟨3, 1, 6, 11, 2, []⟩]
    Consistent loopDB ∧ (moveLoop ⟨[]⟩ (some .lastSibling) nodes ⟨6, 1, 12, 13, 2, []⟩ loopDB).2 = some .invalidMoveToDescendant ∧
      forest (moveLoop ⟨[]⟩ (some .lastSibling) nodes ⟨6, 1, 12, 13, 2, []⟩ loopDB).1 (some 1) = [3, 6, 2] ∧
      forest (moveFresh ⟨[]⟩ (some .lastSibling) 6 [2, 3] loopDB).1 (some 1) = [6, 2, 3] ∧
      forest (moveLoop ⟨[]⟩ (some .lastChild) nodes ⟨1, 1, 1, 14, 1, []⟩ loopDB).1 (some 1) = [6, 2, 3] :=
  ⟨loopDB_inv, by decide +kernel, by decide +kernel, by decide +kernel, by decide +kernel⟩

/-- objects for stored nodes are determined by the keys -/
theorem rows_of_keys (hn : NI db.rows) : ∀ {l m : List Row}, (∀ x ∈ l, x ∈ db.rows) → (∀ x ∈ m, x ∈ db.rows) → l.map Row.pk = m.map Row.pk → l = m
  | [], [], _, _, _ => rfl
  | [], _ :: _, _, _, e => by cases e
  | _ :: _, [], _, _, e => by cases e
  | x :: l, y :: m, hl, hm, e => by
    rw [List.map_cons, List.map_cons, List.cons.injEq] at e
    rw [hn.pk_inj (hl x (.head _)) (hm y (.head _)) e.1, rows_of_keys hn (fun z hz => hl z (.tail _ hz)) (fun z hz => hm z (.tail _ hz)) e.2]

/-- the children of `a` are all before the end of `t`, or all after it in the order of the list -/
theorem merge_loop (h : Consistent db) (ho : cfg.ordered = false) {a t : Row} (ha : a ∈ db.rows) (ht : t ∈ db.rows) (hne : a.pk ≠ t.pk) (hd : ¬ (forest db).Desc a.pk t.pk)
    {cs : List Row} (hc : ∀ x ∈ cs, x ∈ db.rows) (hcs : cs.map Row.pk = forest db (some a.pk)) : AllBelow cfg (some .lastChild) cs t db := by
  have hn := h.toNI
  have hprep : preparePosForMove cfg.ordered (some .lastChild) = .ok .lastChild := by rw [ho]; rfl
  have hF := isForestOn h
  have hin : ∀ x ∈ cs, encl a x := by
    intro x hx
    have : x.pk ∈ forest db (some a.pk) := by rw [← hcs]; exact List.mem_map_of_mem hx
    exact ((par_row hn ha (hc x hx)).1 ((mem_forest h (hc x hx)).1 this)).2.1
  rw [forest_eq hn, desc_PF hn ha ht] at hd
  have hat : a ≠ t := fun e => hne (by rw [e])
  by_cases hr : a.tree = t.tree ∧ t.rgt < a.lft
  · -- after the target
    refine right_loop ho hprep ⟨h, hc, ?_, ht, fun x hx => ?_⟩
    · have hch : cs = children db a := by
        refine rows_of_keys hn hc (fun x hx => ((mem_children hn ha).1 hx).1) ?_
        rw [hcs, children_PF hn ha, forest_eq hn]
      have hs := children_sorted hn a
      rw [← hch] at hs
      refine List.Pairwise.imp_of_mem ?_ hs
      intro x y hx hy hlt
      have hxa := hin x hx
      have hya := hin y hy
      have htr : x.tree = y.tree := hxa.1.symm.trans hya.1
      have h1 : x.lft < y.lft := by
        rcases lt_iff.1 hlt with h1 | h1
        · omega
        · exact h1.2
      by_contra h2
      have hxy : x ≠ y := by rintro rfl; omega
      have h3 := hn.dist y (hc y hy) x (hc x hx) hxy.symm htr.symm
      have h4 := hn.lam x (hc x hx) y (hc y hy) htr h1 (by omega)
      have hyp : y.pk ∈ forest db (some a.pk) := by rw [← hcs]; exact List.mem_map_of_mem hy
      have hyi := (par_row hn ha (hc y hy)).1 ((mem_forest h (hc y hy)).1 hyp)
      rcases hyi.2.2 x (hc x hx) ⟨htr, h1, h4⟩ with h5 | h5
      · rw [h5] at hxa; exact encl_irrefl _ hxa
      · have := h5.2.1; have := hxa.2.1; omega
    · have := hin x hx
      exact ⟨this.1.symm.trans hr.1, by have := this.2.1; omega⟩
  · -- before its end
    have hbef : a.tree = t.tree → a.rgt < t.rgt := by
      intro e
      have hdist := hn.dist a ha t ht hat e
      have hdist' := hn.dist t ht a ha hat.symm e.symm
      have h1 : ¬ t.rgt < a.lft := fun h1 => hr ⟨e, h1⟩
      by_contra h2
      have h3 : t.rgt < a.rgt := by omega
      by_cases h4 : a.lft < t.lft
      · exact hd ⟨e, h4, h3⟩
      · have := hn.lam t ht a ha e.symm (by omega) (by omega)
        omega
    have hleft : ∀ x ∈ cs, x.tree = t.tree → x.rgt < t.rgt := by
      intro x hx e
      have h1 := hin x hx
      have := hbef (h1.1.trans e)
      have := h1.2.2
      omega
    refine left_loop ho hprep ⟨h, fun x hx => ⟨x, hc x hx, .refl x, hleft x hx⟩, apart_of h ?_, ht, fun x hx => ?_, hleft⟩
    · rw [hcs]
      exact hF.sibs_apart (List.nodup_reverse.2 (hF.kids_nodup _)) (fun x hx => List.mem_reverse.1 hx)
    · have h1 := hin x hx
      refine ⟨fun e => ?_, fun h2 => ?_⟩
      · rw [hn.pk_inj (hc x hx) ht e] at h1
        exact hd h1
      · rw [desc_PF hn (hc x hx) ht] at h2
        exact hd ⟨h1.1.trans h2.1, by have := h1.2.1; have := h2.2.1; omega, by have := h1.2.2; have := h2.2.2; omega⟩

/-- **C84 for NS**: wherever the two nodes are, in one tree or in two. -/
theorem C84_ns (h : Consistent db) (ho : cfg.ordered = false) {a t : Row} (ha : a ∈ db.rows) (ht : t ∈ db.rows) (hne : a.pk ≠ t.pk) (hd : ¬ (forest db).Desc a.pk t.pk)
    {cs : List Row} (hc : ∀ x ∈ cs, x ∈ db.rows) (hcs : cs.map Row.pk = forest db (some a.pk)) :
    let out := mergeInto cfg cs a t db
    Consistent out.1 ∧ out.2 = none ∧ forest out.1 = (forest db).merged a.pk t.pk ∧ data out.1.rows = (data db.rows).filter (fun e => decide (e.1 ≠ a.pk)) := by
  have hF := isForestOn h
  rw [keys_eq] at hF
  have hg := merge_loop h ho ha ht hne hd hc hcs
  have hout := hg.loopOut
  rw [hcs] at hout
  obtain ⟨done, rest, e, hgd, hend⟩ := hout.handed hF ((mem_forest h ht).2 rfl) hne hd
  intro out
  have hr : rest = [] := by
    by_contra hr
    rw [if_neg hr] at hend
    obtain ⟨_, _, _, hf⟩ := hend
    exact hf
  subst hr
  rw [List.append_nil] at e
  cases hm : moveLoop cfg (some .lastChild) cs t db with
  | mk db' err =>
  obtain ⟨_, g1, g2, g3, _⟩ := hg
  rw [hm] at g1 g2 g3 hgd
  simp only at g1 g2 g3 hgd
  subst g3
  have eo : out = (delete db' (fun r => r.pk == a.pk), none) := by
    show mergeInto cfg cs a t db = _
    unfold mergeInto
    rw [hm]
  rw [eo]
  obtain ⟨D, h1, h2, h3, h4⟩ := C24_delete g1 (fun k => k == a.pk)
  have hkeys : db'.rows.map Row.pk = db.rows.map Row.pk := by
    have := congrArg (List.map Prod.fst) g2
    rwa [keys_eq, keys_eq] at this
  rw [hkeys] at h1
  rw [← e] at hgd
  rw [hgd] at h1 h3
  obtain ⟨k1, k2⟩ := Forest.merged_prune hF hne (List.mem_map_of_mem ha) h1
  refine ⟨h2, rfl, by rw [← k1]; exact h3, ?_⟩
  show data (delete db' _).rows = _
  rw [h4, g2]
  refine List.filter_congr (fun x _ => ?_)
  rw [k2, Bool.eq_iff_iff]
  simp

/-- 3, with the children 4 and 5, is merged into 2, before it, and into 6, after it -/
example : Consistent loopDB ∧
    forest (mergeInto ⟨[]⟩ [⟨4, 1, 7, 8, 3, []⟩, ⟨5, 1, 9, 10, 3, []⟩] ⟨3, 1, 6, 11, 2, []⟩ ⟨2, 1, 2, 5, 2, []⟩ loopDB).1 (some 2) = [7, 4, 5] ∧
    forest (mergeInto ⟨[]⟩ [⟨4, 1, 7, 8, 3, []⟩, ⟨5, 1, 9, 10, 3, []⟩] ⟨3, 1, 6, 11, 2, []⟩ ⟨6, 1, 12, 13, 2, []⟩ loopDB).1 (some 6) = [4, 5] ∧
    forest (mergeInto ⟨[]⟩ [⟨4, 1, 7, 8, 3, []⟩, ⟨5, 1, 9, 10, 3, []⟩] ⟨3, 1, 6, 11, 2, []⟩ ⟨6, 1, 12, 13, 2, []⟩ loopDB).1 (some 1) = [2, 6] :=
  ⟨loopDB_inv, by decide +kernel, by decide +kernel, by decide +kernel⟩

end NS

namespace AL

variable {cfg : Cfg} {db : DB}

/-- **C83 for AL.**  With `last-sibling` the target is none of the nodes. -/
theorem C83_al (h : Consistent cfg db) (ho : cfg.ordered = false) {nodes : List Row} (hn : ∀ x ∈ nodes, x ∈ db.rows) {t : Row} (ht : t ∈ db.rows)
    {posArg : Option Pos} {pos : Pos} (hprep : preparePosForMove false posArg = .ok pos) (hpos : pos = .lastSibling ∧ t.pk ∉ nodes.map Row.pk ∨ pos = .lastChild) {p : Option Nat}
    (hp : t.pk ∈ forest cfg db p) (hnd : (nodes.map Row.pk).Nodup) (hw : ∀ x ∈ nodes, x.pk ∈ forest cfg db (pos.dest p t.pk)) :
    let out := moveLoop cfg posArg t nodes db
    Consistent cfg out.1 ∧ data out.1.rows = data db.rows ∧ out.2 = none ∧ (forest cfg db).Arranged (forest cfg out.1) (pos.dest p t.pk) (nodes.map Row.pk) out.2 (fun _ => False) := by
  have hpos' : pos = .lastSibling ∨ pos = .lastChild := hpos.imp And.left id
  have hw' : ∀ x ∈ nodes.map Row.pk, x ∈ forest cfg db (pos.dest p t.pk) := by
    intro k hk
    obtain ⟨x, hx, rfl⟩ := List.mem_map.1 hk
    exact hw x hx
  obtain ⟨_, hg⟩ := C79_al_partial h ho hn ht hprep (by rcases hpos' with rfl | rfl <;> simp) hnd (by
    intro hc
    rcases hpos with ⟨_, h1⟩ | rfl
    · exact h1
    · cases hc)
  obtain ⟨done, rest, e, hgd, hend⟩ := hg.out.arranged hpos' (isForestOn h.toWf.ai) (isForestOn hg.consistent.toWf.ai) hp hnd hw'
  have hr : rest = [] := by
    by_contra hr
    rw [if_neg hr] at hend
    obtain ⟨_, _, _, _, hf⟩ := hend
    exact hf
  subst hr
  rw [if_pos rfl] at hend
  exact ⟨hg.consistent, hg.data, hend, done, [], e, hgd, by rw [if_pos rfl]; exact hend⟩

/-- 1 has the children 2 and 3, which change places -/
example : Consistent exPlain exDB ∧ [3, 2].Perm (forest exPlain exDB (some 1)) ∧
    forest exPlain (moveLoop exPlain (some .lastChild) ⟨1, none, 2, []⟩ [⟨3, some 1, 4, []⟩, ⟨2, some 1, 1, []⟩] exDB).1 (some 1) = [3, 2] ∧
    forest exPlain (moveLoop exPlain (some .lastSibling) ⟨3, some 1, 4, []⟩ [⟨2, some 1, 1, []⟩] exDB).1 (some 1) = [3, 2] :=
  ⟨consistent_of_inv rfl exDB_inv, by decide +kernel, by decide +kernel, by decide +kernel⟩

/-- **C84 for AL.** -/
theorem C84_al (h : Consistent cfg db) (ho : cfg.ordered = false) {a t : Row} (ha : a ∈ db.rows) (ht : t ∈ db.rows) (hne : a.pk ≠ t.pk) (hd : ¬ (forest cfg db).Desc a.pk t.pk)
    {cs : List Row} (hc : ∀ x ∈ cs, x ∈ db.rows) (hcs : cs.map Row.pk = forest cfg db (some a.pk)) :
    let out := mergeInto cfg cs a t db
    Consistent cfg out.1 ∧ out.2 = none ∧ forest cfg out.1 = (forest cfg db).merged a.pk t.pk ∧ data out.1.rows = (data db.rows).filter (fun e => decide (e.1 ≠ a.pk)) := by
  have hkeys' : ∀ rows : List Row, (data rows).map Prod.fst = rows.map Row.pk := fun rows => by unfold data; rw [List.map_map]; rfl
  have hF := isForestOn (cfg := cfg) h.toWf.ai
  rw [hkeys'] at hF
  have hp := (mem_forest (cfg := cfg) h.toWf.ai ht).2 rfl
  obtain ⟨_, hg⟩ := C79_al_partial h ho hc ht (posArg := some .lastChild) (pos := .lastChild) rfl (by simp) (hcs ▸ hF.kids_nodup _) (by intro h; cases h)
  have hout := hg.out
  rw [hcs] at hout
  obtain ⟨done, rest, e, hgd, hend⟩ := hout.handed hF hp hne hd
  intro out
  have hr : rest = [] := by
    by_contra hr
    rw [if_neg hr] at hend
    obtain ⟨_, _, _, hf⟩ := hend
    exact hf
  subst hr
  rw [List.append_nil] at e
  rw [if_pos rfl] at hend
  cases hm : moveLoop cfg (some .lastChild) t cs db with
  | mk db' err =>
  have g1 := hg.consistent
  have g2 := hg.data
  rw [hm] at g1 g2 hend hgd
  simp only at g1 g2 hend hgd
  subst hend
  have eo : out = (delete db' (fun r => r.pk == a.pk), none) := by
    show mergeInto cfg cs a t db = _
    unfold mergeInto
    rw [hm]
  rw [eo]
  obtain ⟨D, h1, h2, h3, h4⟩ := C31_delete ho g1 (fun k => k == a.pk)
  have hkeys : db'.rows.map Row.pk = db.rows.map Row.pk := by
    have := congrArg (List.map Prod.fst) g2
    rwa [hkeys', hkeys'] at this
  rw [hkeys] at h1
  rw [← e] at hgd
  rw [hgd] at h1 h3
  obtain ⟨k1, k2⟩ := Forest.merged_prune hF hne (List.mem_map_of_mem ha) h1
  refine ⟨h2, rfl, by rw [← k1]; exact h3, ?_⟩
  show data (delete db' _).rows = _
  rw [h4, g2]
  refine List.filter_congr (fun x _ => ?_)
  rw [k2, Bool.eq_iff_iff]
  simp

/-- 1, with the children 2 and 3, is merged into 5 -/
example : Consistent exPlain exDB ∧ forest exPlain (mergeInto exPlain [⟨2, some 1, 1, []⟩, ⟨3, some 1, 4, []⟩] ⟨1, none, 2, []⟩ ⟨5, none, 3, []⟩ exDB).1 none = [5] ∧
    forest exPlain (mergeInto exPlain [⟨2, some 1, 1, []⟩, ⟨3, some 1, 4, []⟩] ⟨1, none, 2, []⟩ ⟨5, none, 3, []⟩ exDB).1 (some 5) = [2, 3] ∧
    forest exPlain (mergeInto exPlain [⟨2, some 1, 1, []⟩, ⟨3, some 1, 4, []⟩] ⟨1, none, 2, []⟩ ⟨5, none, 3, []⟩ exDB).1 (some 3) = [4] :=
  ⟨consistent_of_inv rfl exDB_inv, by decide +kernel, by decide +kernel, by decide +kernel⟩

end AL

namespace LT

variable {cfg : Cfg} {db : DB}

/-- **C83 for LT.** -/
theorem C83_lt (h : Consistent db) (ho : cfg.ordered = false) {nodes : List Row} (hn : ∀ x ∈ nodes, x ∈ db.rows) {t : Row} (ht : t ∈ db.rows)
    {posArg : Option Pos} {pos : Pos} (hprep : preparePosForMove false posArg = .ok pos) (hpos : pos = .lastSibling ∨ pos = .lastChild) {p : Option Nat} (hp : t.pk ∈ forest db p)
    (hnd : (nodes.map Row.pk).Nodup) (hw : ∀ x ∈ nodes, x.pk ∈ forest db (pos.dest p t.pk)) :
    let out := moveLoop cfg posArg nodes t db
    Consistent out.1 ∧ data out.1.rows = data db.rows ∧ out.2 = none ∧ (forest db).Arranged (forest out.1) (pos.dest p t.pk) (nodes.map Row.pk) out.2 (fun _ => False) := by
  have hF := isForestOn h
  have hw' : ∀ x ∈ nodes.map Row.pk, x ∈ forest db (pos.dest p t.pk) := by
    intro k hk
    obtain ⟨x, hx, rfl⟩ := List.mem_map.1 hk
    exact hw x hx
  obtain ⟨_, hg⟩ := C79_lt_partial h ho hn ht hprep hp (hF.sibs_apart hnd hw') (hpos.imp id Or.inl)
  obtain ⟨done, rest, e, hgd, hend⟩ := (hg.out hpos).arranged hpos hF (isForestOn hg.consistent) hp hnd hw'
  have hr : rest = [] := by
    by_contra hr
    rw [if_neg hr] at hend
    obtain ⟨_, _, _, _, hf⟩ := hend
    exact hf
  subst hr
  rw [if_pos rfl] at hend
  exact ⟨hg.consistent, hg.data, hend, done, [], e, hgd, by rw [if_pos rfl]; exact hend⟩

/-- 1 has the children 2 and 3, which change places -/
example : Consistent exDB ∧ [3, 2].Perm (forest exDB (some 1)) ∧
    forest (moveLoop ⟨[]⟩ (some .lastChild) [⟨3, [[65], [66]], []⟩, ⟨2, [[65], [65]], []⟩] ⟨1, [[65]], []⟩ exDB).1 (some 1) = [3, 2] :=
  ⟨consistent_iff.2 exDB_inv, by decide +kernel, by decide +kernel⟩

/-- **C84 for LT.** -/
theorem C84_lt (h : Consistent db) (ho : cfg.ordered = false) {a t : Row} (ha : a ∈ db.rows) (ht : t ∈ db.rows) (hne : a.pk ≠ t.pk) (hd : ¬ (forest db).Desc a.pk t.pk)
    {cs : List Row} (hc : ∀ x ∈ cs, x ∈ db.rows) (hcs : cs.map Row.pk = forest db (some a.pk)) :
    let out := mergeInto cfg cs a t db
    Consistent out.1 ∧ out.2 = none ∧ forest out.1 = (forest db).merged a.pk t.pk ∧ data out.1.rows = (data db.rows).filter (fun e => decide (e.1 ≠ a.pk)) := by
  have hF := isForestOn h
  rw [keys_eq] at hF
  have hp := (mem_forest h.inv.inv ht).2 rfl
  obtain ⟨_, hg⟩ := C79_lt_partial h ho hc ht (posArg := some .lastChild) (pos := .lastChild) rfl hp (hF.sibs_apart (hcs ▸ hF.kids_nodup _) (by rw [hcs]; exact fun x hx => hx)) (Or.inr (Or.inl rfl))
  have hout := hg.out (Or.inr rfl)
  rw [hcs] at hout
  obtain ⟨done, rest, e, hgd, hend⟩ := hout.handed hF hp hne hd
  intro out
  have hr : rest = [] := by
    by_contra hr
    rw [if_neg hr] at hend
    obtain ⟨_, _, _, hf⟩ := hend
    exact hf
  subst hr
  rw [List.append_nil] at e
  rw [if_pos rfl] at hend
  cases hm : moveLoop cfg (some .lastChild) cs t db with
  | mk db' err =>
  have g1 := hg.consistent
  have g2 := hg.data
  rw [hm] at g1 g2 hend hgd
  simp only at g1 g2 hend hgd
  subst hend
  have eo : out = (delete db' (fun r => r.pk == a.pk), none) := by
    show mergeInto cfg cs a t db = _
    unfold mergeInto
    rw [hm]
  rw [eo]
  obtain ⟨D, h1, h2, h3, h4⟩ := C37_delete g1 (fun k => k == a.pk)
  have hkeys : db'.rows.map Row.pk = db.rows.map Row.pk := by
    have := congrArg (List.map Prod.fst) g2
    rwa [keys_eq, keys_eq] at this
  rw [hkeys] at h1
  rw [← e] at hgd
  rw [hgd] at h1 h3
  obtain ⟨k1, k2⟩ := Forest.merged_prune hF hne (List.mem_map_of_mem ha) h1
  refine ⟨h2, rfl, by rw [← k1]; exact h3, ?_⟩
  show data (delete db' _).rows = _
  rw [h4, ← g2]
  unfold data
  rw [List.filter_map]
  refine congrArg _ (List.filter_congr (fun x _ => ?_))
  rw [k2, Bool.eq_iff_iff]
  simp

/-- 1, with the children 2 and 3, is merged into 5 -/
example : Consistent exDB ∧ forest (mergeInto ⟨[]⟩ [⟨2, [[65], [65]], []⟩, ⟨3, [[65], [66]], []⟩] ⟨1, [[65]], []⟩ ⟨5, [[66]], []⟩ exDB).1 (some 5) = [2, 3] ∧
    forest (mergeInto ⟨[]⟩ [⟨2, [[65], [65]], []⟩, ⟨3, [[65], [66]], []⟩] ⟨1, [[65]], []⟩ ⟨5, [[66]], []⟩ exDB).1 none = [5] :=
  ⟨consistent_iff.2 exDB_inv, by decide +kernel, by decide +kernel⟩

end LT

end Verif
