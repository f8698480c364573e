/-
LT: what `dump_bulk` shows, and when `load_bulk` can add node by node.
-/
import Verif.LT.DumpModel
import Verif.LT.History
import Verif.LT.Example
import Verif.Props.LTQuery
import Verif.DumpForest
import Verif.LoadGeneric

namespace Verif.LT

variable {cfg : Cfg} {db : DB}

theorem isForestOn (h : Consistent db) : (forest db).IsForestOn ((data db.rows).map Prod.fst) := by
  have hp := h.inv.inv
  refine ⟨⟨(getTree db none none).map Row.pk, ?_, getTree_pk_nodup hp none none, ?_⟩, ?_⟩
  · rw [forest_eq hp]; exact getTree_all hp
  · rw [keys_eq]
    refine List.Perm.map _ ?_
    refine (List.perm_ext_iff_of_nodup (List.Nodup.of_map _ (getTree_pk_nodup hp none none)) (List.Nodup.of_map _ h.pks)).2 ?_
    intro r
    rw [mem_getTree]; simp
  · intro k hk
    rw [keys_eq] at hk
    exact forest_nil hk

theorem valsIn_row (h : Consistent db) {r : Row} (hr : r ∈ db.rows) : valsIn (data db.rows) r.pk = r.vals :=
  valsIn_mem (by rw [keys_eq]; exact h.pks) (List.mem_map.2 ⟨r, hr, rfl⟩)

theorem kid_path (h : Consistent db) {x a : Row} (hx : x ∈ db.rows) (ha : a ∈ db.rows) (hm : x.pk ∈ forest db (some a.pk)) : x.path.dropLast = a.path :=
  (par_eq_some h.inv.inv ha).1 ((mem_forest h.inv.inv hx).1 hm)

theorem kid_len (h : Consistent db) {x a : Row} (hx : x ∈ db.rows) (ha : a ∈ db.rows) (hm : x.pk ∈ forest db (some a.pk)) :
    x.path.length = a.path.length + 1 := by
  rw [← kid_path h hx ha hm, List.length_dropLast]
  have := len_pos h.inv.inv hx
  omega

theorem dump_shows (h : Consistent db) {parent : Option Row} (hp : ∀ p, parent = some p → p ∈ db.rows) (keep : Bool) :
    ∃ d, dumpBulk db parent keep = .ok d ∧
      Dumps (forest db) (valsIn (data db.rows)) keep ((forest db).dumpTops (parent.map Row.pk)) d := by
  have hpi := h.inv.inv
  have hsub : ∀ r ∈ getTree db parent none, r ∈ db.rows := getTree_sub
  have hnd := getTree_pk_nodup hpi parent none
  have hlow : ∀ a ∈ getTree db parent none, ∀ p, parent = some p → p.path.length ≤ a.path.length :=
    fun a ha p e => ((mem_getTree.1 ha).2.1 p e).length_le
  have hmain : ∃ ret, dumpLoop Row.path (dumpPlace parent) (getTree db parent none) .nil = .ok ret ∧
      ∀ keep, Dumps (forest db) (valsIn (data db.rows)) keep ((forest db).dumpTops (parent.map Row.pk)) (ret.map (itemOf Row.pk Row.vals keep)) := by
    refine dumps_of_dfs (F := forest db) ?_ hnd ?_ ?_ (fun a ha b hb e => hpi.path_inj (hsub a ha) (hsub b hb) e) ?_ ?_ (fun r hr => valsIn_row h (hsub r hr))
    · rw [forest_eq hpi]
      cases parent with
      | none => exact getTree_all hpi
      | some p => exact getTree_branch hpi (hp p rfl)
    · intro p q k h1 h2
      exact Option.some.inj (parent_unique h h1 h2)
    · intro q hq c hc hcq
      cases parent with
      | none => cases parent_unique h (show c ∈ forest db none from hc) hcq
      | some p =>
        simp only [Forest.dumpTops, Option.map_some, List.mem_singleton] at hc
        subst hc
        obtain ⟨a, ha, rfl⟩ := List.mem_map.1 hq
        have h1 := kid_len h (hp p rfl) (hsub a ha) hcq
        have h2 := hlow a ha p rfl
        omega
    · intro x hx hc
      unfold dumpPlace
      cases parent with
      | none =>
        have h1 := (par_eq_none hpi (hsub x hx)).1 ((mem_forest hpi (hsub x hx)).1 hc)
        have h2 := path_split hpi (hsub x hx)
        rw [h1] at h2
        rw [h2]; rfl
      | some p =>
        simp only [Forest.dumpTops, Option.map_some, List.mem_singleton] at hc
        simp [hpi.pk_inj (hsub x hx) (hp p rfl) hc]
    · intro x hx a ha hm
      have h1 := kid_len h (hsub x hx) (hsub a ha) hm
      have h2 := len_pos hpi (hsub a ha)
      unfold dumpPlace
      rw [kid_path h (hsub x hx) (hsub a ha) hm]
      cases parent with
      | none => simp [show ¬ x.path.length = 1 by omega]
      | some p =>
        have h3 := hlow a ha p rfl
        simp [show ¬ x.path.length = p.path.length by omega]
  obtain ⟨ret, e, hd⟩ := hmain
  exact ⟨_, by rw [dumpBulk, e]; rfl, hd keep⟩

/-! ### Loading -/

/-- the labels A, B, … of the first `n` nodes that are added without neighbours -/
def letters (n : Nat) : List Label := (List.range n).map (fun i => [65 + i])

/-- without neighbours, the first 26 labels are the letters in their order -/
theorem next_letter : ∀ n < 26, generateLabel (letters n) none none = .ok [65 + n] := by decide

theorem lt_next {n : Nat} {l : Label} (h : l ∈ letters n) : l < [65 + n] := by
  obtain ⟨i, hi, rfl⟩ := List.mem_map.1 h
  rw [List.mem_range] at hi
  rw [List.cons_lt_cons_iff]
  left; omega

theorem letters_succ (n : Nat) : letters (n + 1) = letters n ++ [[65 + n]] := by simp [letters, List.range_succ]

/-- the path of the parent -/
def pathOf : Option Row → Path
  | none => []
  | some t => t.path

/-- an object that can be used as parent: its path has to be the stored one -/
def Handle (db : DB) (h : Option Row) (p : Option Nat) : Prop := h.map Row.pk = p ∧ ∀ t, h = some t → t ∈ db.rows

theorem Handle.isPar {hd : Option Row} {p : Option Nat} (h : Handle db hd p) : IsPar db.rows (pathOf hd) := by
  cases hd with
  | none => exact Or.inl rfl
  | some t => exact Or.inr ⟨t, h.2 t rfl, rfl⟩

theorem Handle.at {hd : Option Row} {p : Option Nat} (hi : PI db.rows) (h : Handle db hd p) : at? db.rows (pathOf hd) = p := by
  cases hd with
  | none => rw [← h.1]; exact at_nil hi
  | some t => rw [← h.1]; exact at_of hi (h.2 t rfl)

theorem Handle.forest {hd : Option Row} {p : Option Nat} (hi : PI db.rows) (h : Handle db hd p) :
    forest db p = (below db (pathOf hd) ((pathOf hd).length + 1)).map Row.pk := by
  cases hd with
  | none =>
    rw [← h.1]
    show (rootNodes db).map Row.pk = _
    rw [rootNodes_eq hi]; rfl
  | some t =>
    rw [← h.1]
    unfold LT.forest
    simp only [Option.map_some]
    rw [(get?_eq_some hi).2 ⟨h.2 t rfl, rfl⟩]
    rfl

/-- a place without neighbours is chosen: for roots, or with `node_order_by` when no sibling sorts after the new node -/
theorem addTo_free (h : Inv db.rows) {hd : Option Row} {p : Option Nat} (hh : Handle db hd p) (hneed : p = none ∨ cfg.ordered = true) {new : Row}
    (hg : cfg.ordered = true → firstGreater cfg (below db (pathOf hd) ((pathOf hd).length + 1)) new = none)
    (hf : ∀ r ∈ db.rows, r.pk ≠ new.pk) {l : Label} (hl : generateLabel (sibLabels db (pathOf hd)) none none = .ok l)
    (hlast : ∀ r ∈ db.rows, r.path.dropLast = pathOf hd → lastLabel r.path < l) :
    addTo cfg db hd new = .ok (save db { new with path := pathOf hd ++ [l] }, { new with path := pathOf hd ++ [l] }) ∧
      Added db (save db { new with path := pathOf hd ++ [l] }) { new with path := pathOf hd ++ [l] } new p .last True := by
  obtain ⟨s, ha, hs⟩ := free_added (pre := pathOf hd) (new := new) h hl (by
    intro r hr hd'
    rw [mem_sibLabels h.inv]
    refine ⟨r, hr, ?_⟩
    have hs := path_split h.inv hr
    rwa [hd'] at hs) hh.isPar hf
  rw [hs hlast, hh.at h.inv] at ha
  refine ⟨?_, ha⟩
  -- with siblings, `add_sibling` at the sorted place of the last one
  have sib : ∀ t ∈ db.rows, t.path.dropLast = pathOf hd → cfg.ordered = true →
      commit (addSiblingIn cfg db t (some .sortedSibling) new) = .ok (save db { new with path := pathOf hd ++ [l] }, { new with path := pathOf hd ++ [l] }) := by
    intro t ht htp ho
    have hfg := hg ho
    have hS := siblings_eq h.inv ht
    rw [htp] at hS
    rw [← hS] at hfg
    unfold addSiblingIn
    rw [ho, show preparePosForAddSibling true (some .sortedSibling) = .ok .sortedSibling from by decide]
    have hnb : sibNeighbours cfg db t .sortedSibling new = (none, none) := by
      unfold sibNeighbours
      simp only
      rw [show (sortedPosQueryset cfg.orderBy Row.vals (siblings db t) new.vals).head? = none from hfg]
    simp only
    rw [hnb, htp, getNewPath_found (before := none) (after := none) rfl hl]
    exact commit_ok ha.inv.inv
  cases hd with
  | none =>
    have hr := rootNodes_eq h.inv
    show addRoot cfg db new = _
    unfold addRoot
    have hskip : sibLabels db (pathOf none) = ((rootNodes db).map Row.path).map lastLabel := by rw [hr]; rfl
    cases hlr : lastRootNode db with
    | none =>
      have hnil : rootNodes db = [] := by
        unfold lastRootNode at hlr
        rwa [List.getLast?_eq_none_iff] at hlr
      rw [hskip, hnil] at hl
      simp only
      rw [generatePath_of (skip := []) (l := l) hl]
      exact commit_ok ha.inv.inv
    | some last =>
      cases ho : cfg.ordered with
      | true =>
        simp only [if_true]
        have hm : last ∈ rootNodes db := List.mem_of_getLast? hlr
        obtain ⟨h1, h2⟩ := (mem_rootNodes h.inv).1 hm
        exact sib last h1 h2 ho
      | false =>
        simp only [Bool.false_eq_true, if_false]
        rw [hskip] at hl
        rw [generatePath_of hl]
        exact commit_ok ha.inv.inv
  | some t =>
    have ho : cfg.ordered = true := by
      rcases hneed with e | e
      · rw [← hh.1] at e; cases e
      · exact e
    have ht := hh.2 t rfl
    show addChild cfg db t new = _
    unfold addChild
    rw [(get?_eq_some h.inv).2 ⟨ht, rfl⟩]
    simp only
    cases hleaf : isLeaf db t with
    | true =>
      have hnil := isLeaf_iff.1 hleaf
      have hskip : sibLabels db (pathOf (some t)) = ((children db t).map Row.path).map lastLabel := rfl
      rw [hskip, hnil] at hl
      simp only [Bool.true_eq_false, and_false, if_false]
      unfold newChildPath
      rw [if_pos hleaf, generatePath_of (skip := []) (l := l) hl]
      exact commit_ok ha.inv.inv
    | false =>
      have hne : children db t ≠ [] := fun e => by rw [isLeaf_iff.2 e] at hleaf; cases hleaf
      obtain ⟨last, hlast⟩ : ∃ last, lastChild db t = some last := by
        unfold lastChild
        cases e : (children db t).getLast? with
        | none => rw [List.getLast?_eq_none_iff] at e; exact absurd e hne
        | some last => exact ⟨last, rfl⟩
      have hm : last ∈ children db t := List.mem_of_getLast? hlast
      obtain ⟨h1, h2⟩ := (mem_children h.inv).1 hm
      simp only [ho, and_self, if_true, hlast]
      exact sib last h1 h2 ho

/-- a child without `node_order_by` gets a label after those of its siblings -/
theorem addTo_child (h : Inv db.rows) (ho : cfg.ordered = false) {t : Row} (ht : t ∈ db.rows) {new : Row} (hf : ∀ r ∈ db.rows, r.pk ≠ new.pk) :
    ∃ l, addTo cfg db (some t) new = .ok (save db { new with path := t.path ++ [l] }, { new with path := t.path ++ [l] }) ∧
      Added db (save db { new with path := t.path ++ [l] }) { new with path := t.path ++ [l] } new (some t.pk) .last True := by
  have hS := lists_children h.inv t
  have hn := nbrs_last hS
  obtain ⟨l, e, hp⟩ := newChildPath_spec h t
  have hpar : IsPar db.rows t.path := Or.inr ⟨t, ht, rfl⟩
  have ha := added_place h hn hp hpar hf (slot_last hn (fun _ hr => hr) h.inv hpar rfl) (Clean := True) (fun _ => Or.inl rfl)
  rw [at_of h.inv ht] at ha
  refine ⟨l, ?_, ha⟩
  show addChild cfg db t new = _
  unfold addChild
  rw [(get?_eq_some h.inv).2 ⟨ht, rfl⟩]
  simp only [ho, Bool.false_eq_true, false_and, if_false, e]
  exact commit_ok ha.inv.inv

/-- the labels of the children at `pre` are A, B, … -/
def Neat (db : DB) (pre : Path) : Prop := sibLabels db pre = letters (below db pre (pre.length + 1)).length

theorem below_other (h : PI db.rows) {db' : DB} (h' : PI db'.rows) {x : Row} (e : db'.rows = db.rows ++ [x]) {pre : Path} (hx : x.path.dropLast ≠ pre) :
    below db' pre (pre.length + 1) = below db pre (pre.length + 1) := by
  refine sorted_unique (T := fun _ => True) (lt := fun a b : Row => a.path < b.path) (fun _ _ _ _ hab => plt_asymm hab)
    (fun _ _ => trivial) (below_sorted h' _ _) (below_sorted h _ _) ?_
  intro r
  rw [mem_below h, mem_below h', e, List.mem_append, List.mem_singleton]
  constructor
  · rintro ⟨h1 | rfl, h2⟩
    · exact ⟨h1, h2⟩
    · exact absurd h2 hx
  · rintro ⟨h1, h2⟩; exact ⟨Or.inl h1, h2⟩

theorem below_last (h : PI db.rows) {db' : DB} (h' : PI db'.rows) {x : Row} (e : db'.rows = db.rows ++ [x]) {pre : Path} (hx : x.path.dropLast = pre)
    (hlt : ∀ r ∈ db.rows, r.path.dropLast = pre → r.path < x.path) :
    below db' pre (pre.length + 1) = below db pre (pre.length + 1) ++ [x] := by
  refine sorted_unique (T := fun _ => True) (lt := fun a b : Row => a.path < b.path) (fun _ _ _ _ hab => plt_asymm hab)
    (fun _ _ => trivial) (below_sorted h' _ _) ?_ ?_
  · rw [List.pairwise_append]
    refine ⟨below_sorted h _ _, by simp, ?_⟩
    intro a ha b hb
    rw [List.mem_singleton] at hb
    subst hb
    rw [mem_below h] at ha
    exact hlt a ha.1 ha.2
  · intro r
    rw [List.mem_append, mem_below h, mem_below h', e, List.mem_append, List.mem_singleton]
    constructor
    · rintro ⟨h1 | rfl, h2⟩
      · exact Or.inl ⟨h1, h2⟩
      · exact Or.inr rfl
    · rintro (⟨h1, h2⟩ | rfl)
      · exact ⟨Or.inl h1, h2⟩
      · exact ⟨Or.inr rfl, hx⟩

/-- the places below which a node is added without neighbours -/
def Free (cfg : Cfg) (p : Option Nat) : Prop := p = none ∨ cfg.ordered = true

/-- The state while a structure is loaded.  `K` are the keys there were before, `T` is the aim, `V` the values: where nodes are still to come without
neighbours, the labels so far are A, B, …. -/
structure Holds (cfg : Cfg) (K : List Nat) (T : Forest) (V : Nat → Vals) (db : DB) : Prop where
  inv : Inv db.rows
  vals : ∀ r ∈ db.rows, V r.pk = r.vals
  keys : ∀ k ∈ K, k ∈ db.rows.map Row.pk
  neat : ∀ h p, Handle db h p → Free cfg p → (∃ k ∈ T p, k ∉ K) → Neat db (pathOf h)

theorem addTo_last {K : List Nat} {T : Forest} {V : Nat → Vals} (h : Holds cfg K T V db) {hd : Option Row} {p : Option Nat} (hh : Handle db hd p)
    {k : Nat} (hf : k ∉ db.rows.map Row.pk) (hT : forest db p ++ [k] <+: T p)
    (hs : cfg.ordered = true → (T p).Pairwise (fun a b => ¬ keyLt cfg.orderBy (V b) (V a)) ∧ NonNull cfg.orderBy (V k))
    (hsmall : Free cfg p → (T p).length ≤ 26) :
    ∃ l, addTo cfg db hd ⟨k, [], V k⟩ = .ok (save db ⟨k, pathOf hd ++ [l], V k⟩, ⟨k, pathOf hd ++ [l], V k⟩) ∧
      Added db (save db ⟨k, pathOf hd ++ [l], V k⟩) ⟨k, pathOf hd ++ [l], V k⟩ ⟨k, [], V k⟩ p .last True ∧
      (Free cfg p → Neat db (pathOf hd) ∧ l = [65 + (below db (pathOf hd) ((pathOf hd).length + 1)).length]) := by
  have hfresh : ∀ r ∈ db.rows, r.pk ≠ k := fun r hr e => hf (List.mem_map.2 ⟨r, hr, e⟩)
  have hkT : k ∈ T p := hT.subset (by simp)
  by_cases hfree : Free cfg p
  · have hneat := h.neat hd p hh hfree ⟨k, hkT, fun hk => hf (h.keys k hk)⟩
    have hfor := hh.forest h.inv.inv
    have hlen : (below db (pathOf hd) ((pathOf hd).length + 1)).length < 26 := by
      have h1 := hT.length_le
      have h2 := hsmall hfree
      rw [hfor] at h1
      simp only [List.length_append, List.length_map, List.length_cons, List.length_nil] at h1
      omega
    have hl := next_letter _ hlen
    rw [← hneat] at hl
    obtain ⟨e, ha⟩ := addTo_free (cfg := cfg) (new := ⟨k, [], V k⟩) h.inv hh hfree (by
      intro ho
      unfold firstGreater
      rw [List.head?_eq_none_iff]
      refine sortedPos_nil (by rintro e; simp [Cfg.ordered, e] at ho) (hs ho).2 (hs ho).1 (pk := Row.pk) (by rw [← hfor]; exact hT) ?_
      intro r hr
      exact h.vals r ((mem_below h.inv.inv).1 hr).1) hfresh hl (by
      intro r hr hrp
      have : lastLabel r.path ∈ sibLabels db (pathOf hd) := by
        unfold sibLabels
        rw [List.map_map, List.mem_map]
        exact ⟨r, (mem_below h.inv.inv).2 ⟨hr, hrp⟩, rfl⟩
      rw [hneat] at this
      exact lt_next this)
    exact ⟨_, e, ha, fun _ => ⟨hneat, rfl⟩⟩
  · unfold Free at hfree
    rw [not_or] at hfree
    cases hd with
    | none => exact absurd hh.1.symm hfree.1
    | some t =>
      obtain ⟨l, e, ha⟩ := addTo_child (cfg := cfg) (new := ⟨k, [], V k⟩) h.inv (by simpa using hfree.2) (hh.2 t rfl) hfresh
      refine ⟨l, e, ?_, fun hc => absurd hc (by unfold Free; rw [not_or]; exact hfree)⟩
      rw [← hh.1]; exact ha

theorem Holds.step {K : List Nat} {T : Forest} {V : Nat → Vals} (h : Holds cfg K T V db) {hd : Option Row} {p : Option Nat} (hh : Handle db hd p)
    {k : Nat} {l : Label} {db' : DB} (hdb' : db'.rows = db.rows ++ [⟨k, pathOf hd ++ [l], V k⟩]) (hinv : Inv db'.rows)
    (hl : Free cfg p → Neat db (pathOf hd) ∧ l = [65 + (below db (pathOf hd) ((pathOf hd).length + 1)).length]) : Holds cfg K T V db' := by
  refine ⟨hinv, ?_, ?_, ?_⟩
  · intro r hr
    rw [hdb', List.mem_append, List.mem_singleton] at hr
    rcases hr with hr | rfl
    · exact h.vals r hr
    · rfl
  · intro j hj
    rw [hdb', List.map_append, List.mem_append]
    exact Or.inl (h.keys j hj)
  · rintro g q ⟨hg1, hg2⟩ hfree hnew
    by_cases hold : ∀ t, g = some t → t ∈ db.rows
    · have hgo : Handle db g q := ⟨hg1, hold⟩
      by_cases hpg : pathOf hd = pathOf g
      · have hpq : p = q := by rw [← hh.at h.inv.inv, ← hgo.at h.inv.inv, hpg]
        subst hpq
        obtain ⟨hneat, rfl⟩ := hl hfree
        have hb := below_last h.inv.inv hinv.inv hdb' (pre := pathOf hd) (by simp) (by
          intro r hr hrp
          have hsp := path_split h.inv.inv hr
          rw [hrp] at hsp
          rw [hsp]
          refine (label_lt rfl).2 ?_
          have : lastLabel r.path ∈ sibLabels db (pathOf hd) := by
            unfold sibLabels
            rw [List.map_map, List.mem_map]
            exact ⟨r, (mem_below h.inv.inv).2 ⟨hr, hrp⟩, rfl⟩
          rw [hneat] at this
          exact lt_next this)
        rw [← hpg]
        unfold Neat sibLabels at hneat ⊢
        rw [hb, List.map_append, List.map_append, hneat, List.length_append, List.length_singleton, letters_succ]
        simp [lastLabel_append]
      · have hb := below_other h.inv.inv hinv.inv hdb' (pre := pathOf g) (by simpa using hpg)
        have := h.neat g q hgo hfree hnew
        unfold Neat sibLabels at this ⊢
        rw [hb]; exact this
    · -- the new row itself: it has no children yet
      push Not at hold
      obtain ⟨t, rfl, ht⟩ := hold
      have htn := hg2 t rfl
      rw [hdb', List.mem_append, List.mem_singleton] at htn
      have ht' := htn.resolve_left ht
      have hnil : below db' t.path (t.path.length + 1) = [] := by
        rw [List.eq_nil_iff_forall_not_mem]
        intro r hr
        obtain ⟨h1, h2⟩ := (mem_below hinv.inv).1 hr
        rw [hdb', List.mem_append, List.mem_singleton] at h1
        rcases h1 with h1 | rfl
        · rcases IsPar.drop h.inv.inv h1 with e | ⟨q, hq, e⟩
          · have := len_pos hinv.inv (hg2 t rfl)
            rw [← h2, e] at this
            simp at this
          · rw [h2] at e
            have : q = t := hinv.inv.path_inj (by rw [hdb']; simp [hq]) (hg2 t rfl) e
            rw [this] at hq
            exact ht hq
        · rw [ht'] at h2
          have := congrArg List.length h2
          simp at this
      show sibLabels db' t.path = _
      unfold sibLabels
      rw [show pathOf (some t) = t.path from rfl, hnil]
      rfl

theorem loads {T : Forest} {V : Nat → Vals} {K : List Nat}
    (hT : cfg.ordered = true → T.SortedBy cfg.orderBy V ∧ ∀ p, ∀ k ∈ T p, k ∉ K → NonNull cfg.orderBy (V k))
    (hsmall : ∀ p, Free cfg p → (∃ k ∈ T p, k ∉ K) → (T p).length ≤ 26) :
    Loads (fun db p a => addTo cfg db p ⟨a.1, [], a.2⟩) Row.pk (Holds cfg K T V) forest (fun db => data db.rows) Handle T V where
  known := by
    intro s h k hh
    rw [keys_eq]
    cases h with
    | none => cases hh.1
    | some t =>
      have := hh.1
      simp only [Option.map_some, Option.some.injEq] at this
      exact this ▸ List.mem_map_of_mem (hh.2 t rfl)
  step := by
    rintro s h p k hi hh hk hpre hp hemp
    rw [keys_eq] at hk
    have hkT : k ∈ T p := hp.subset (by simp)
    have hkK : k ∉ K := fun hkK => hk (hi.keys k hkK)
    obtain ⟨l, e, ha, hl⟩ := addTo_last (cfg := cfg) hi hh hk hp (fun ho => ⟨(hT ho).1 p, (hT ho).2 p k hkT hkK⟩)
      (fun hfree => hsmall p hfree ⟨k, hkT, hkK⟩)
    have hrows : (save s ⟨k, pathOf h ++ [l], V k⟩).rows = s.rows ++ [⟨k, pathOf h ++ [l], V k⟩] := by
      rw [save_new (fun r hr e => hk (List.mem_map.2 ⟨r, hr, e⟩))]
    refine ⟨_, _, e, hi.step hh hrows ha.inv hl, ?_, ha.data, rfl, ⟨rfl, ?_⟩, ?_⟩
    · rw [forest_eq ha.inv.inv, forest_eq hi.inv.inv]; exact ha.exact trivial
    · rintro t ⟨⟩; exact ha.obj.1
    · rintro g q ⟨h1, h2⟩
      exact ⟨h1, fun t ht => by rw [hrows]; simp [h2 t ht]⟩

end Verif.LT
