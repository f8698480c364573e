/-
MP: sorted additions among siblings with any values.
-/
import Verif.MP.Add
import Verif.SpecBehind

namespace Verif.MP

variable {cfg : Cfg}

/-- moving a branch to a path in use fails -/
theorem setNewpath_clash {db : DB} {y r : Row} (hy : y ∈ db.rows) (hr : r ∈ db.rows) (hne : ¬ y.path <+: r.path) :
    setNewpath cfg db y.path r.path = .error .integrity := by
  unfold setNewpath
  have : uniquePaths (db.rows.map (newpathRow cfg y.path r.path)) = false := by
    rw [Bool.eq_false_iff]
    intro hu
    rw [uniquePaths_iff, List.map_map] at hu
    have := List.inj_on_of_nodup_map hu hy hr (by
      simp only [Function.comp]
      rw [newpathRow_path, newpathRow_path, ren_of_not_prefix hne, ren_of_prefix [] (by simp)]
      simp)
    exact hne (this ▸ List.prefix_refl _)
  simp only [this, Bool.false_eq_true, if_false]

theorem shiftLoop_clash (hok : cfg.Ok) {db : DB} {P : List Nat} {m k : Nat} {moves : List Row} (hmoves : moves.map Row.path = run cfg P m (k + 1))
    (hk : m + k + 1 < cfg.cap) {y r : Row} (hy : y ∈ db.rows) (hye : y.path = P ++ stp cfg (m + k)) (hr : r ∈ db.rows)
    (hre : r.path = P ++ stp cfg (m + k + 1)) (old : Option (List Nat)) : shiftLoop cfg moves.reverse db old = .error .integrity := by
  have hrev : moves.reverse.map Row.path = (run cfg P m (k + 1)).reverse := by rw [List.map_reverse, hmoves]
  rw [run_succ_reverse] at hrev
  cases hm : moves.reverse with
  | nil => rw [hm] at hrev; simp at hrev
  | cons n ns =>
    rw [hm, List.map_cons, List.cons.injEq] at hrev
    have hnp : ¬ y.path <+: r.path := by
      rw [hye, hre]
      exact step_not_prefix hok (by omega) hk (by omega)
    rw [shiftLoop, hrev.1, incPath_eq hok P hk]
    simp only
    rw [← hye, ← hre, setNewpath_clash hy hr hnp]

/-- The reordering when the siblings to shift are any of the siblings from `first` on. -/
theorem reorderRest_any (hok : cfg.Ok) {db : DB} (h : PInv cfg db.rows) {t target : Row} (ht : t ∈ db.rows) {d : Nat}
    (hbase : basepath cfg target.path ((d : Int) - 1) = pp cfg.steplen t.path) {after : List Row} {first : Row}
    (hsub : after.Sublist (siblings cfg db t)) (hhead : after.head? = some first)
    {m : Nat} (h1 : 1 ≤ m) (hm : m < cfg.cap) (hfe : first.path = pp cfg.steplen t.path ++ stp cfg m) :
    AddPlace cfg db (pp cfg.steplen t.path) (.before first.pk) (reorderRest cfg db m d target after none) ∨
    (reorderRest cfg db m d target after none = .error .integrity ∧
      ∃ i, ∃ a ∈ after, ∃ b ∈ siblings cfg db t, b ∉ after ∧ i + 1 < cfg.cap ∧
        a.path = pp cfg.steplen t.path ++ stp cfg i ∧ b.path = pp cfg.steplen t.path ++ stp cfg (i + 1)) := by
  have hsorted := (siblings_sorted h t).sublist hsub
  obtain ⟨hfm, hmin⟩ := head?_min hsorted hhead
  have hmem : ∀ r ∈ after, r ∈ db.rows ∧ pp cfg.steplen r.path = pp cfg.steplen t.path :=
    fun r hr => (mem_siblings h hok ht).1 (hsub.subset hr)
  have hpos : ∀ r ∈ after, ∃ n, m ≤ n ∧ n < cfg.cap ∧ r.path = pp cfg.steplen t.path ++ stp cfg n := by
    intro r hr
    obtain ⟨n, _, hn, e⟩ := h.sib_pos (hmem r hr).1 (hmem r hr).2
    refine ⟨n, ?_, hn, e⟩
    by_cases he : r = first
    · rw [he, hfe] at e
      have := stp_inj hok hm hn (List.append_cancel_left e)
      omega
    · have := hmin r hr he
      rw [hfe, e, plt_append_left, stp_lt_iff hok hm hn] at this
      omega
  unfold reorderRest
  rw [getPath_eq hok _ _ hm, hbase]
  simp only
  rcases collectShift_spec hok after m hm hsorted hpos with ⟨k, moves, e1, e2, hk, hno, hall⟩ | ⟨e1, hfull⟩
  · by_cases hfree : ∀ r ∈ db.rows, r.path ≠ pp cfg.steplen t.path ++ stp cfg (m + k)
    · left; left
      obtain ⟨db', f, e3, hs, _, hv, hP', hat, hslot⟩ := shift_phase hok h (h.isPar ht) h1 e2 hk hfree none
      rw [Option.map_none] at e3
      refine ⟨m, db', f, h1, hm, by simp only [e1, e3], hs, hv, hP', hat, ?_⟩
      have := hslot (fun _ => True) (.before first.pk) (by
        rw [← hfe]
        exact ⟨first, ⟨(hmem _ hfm).1, trivial⟩, rfl, rfl, plt_irrefl _, fun r _ _ hlt => hlt⟩)
      simpa using this
    · right
      push Not at hfree
      obtain ⟨b, hb, hbe⟩ := hfree
      cases k with
      | zero => exact absurd hfe (hno first hfm)
      | succ k =>
        obtain ⟨a, ha, hae⟩ := hall (m + k) (by omega) (by omega)
        rw [show m + (k + 1) = m + k + 1 by omega] at hbe hk hno
        refine ⟨?_, m + k, a, ha, b, (mem_siblings h hok ht).2 ⟨hb, by rw [hbe, pp_step hok _ hk]⟩, fun hba => hno b hba hbe, hk, hae, hbe⟩
        simp only [e1, shiftLoop_clash hok e2 hk (hmem a ha).1 hae hb hbe none]
  · left; right
    refine ⟨by simp only [e1], ?_⟩
    have : Full cfg db.rows (pp cfg.steplen t.path) m := by
      intro n hn1 hn2
      obtain ⟨r, hr, e⟩ := hfull n hn1 hn2
      exact ⟨r, (hmem r hr).1, e⟩
    exact this.lastUsed hok hm

/-- two rows at consecutive positions are adjacent in the list of the children -/
theorem adjacent_of (hok : cfg.Ok) {db : DB} (h : PInv cfg db.rows) {t : Row} (ht : t ∈ db.rows) {a b : Row} (ha : a ∈ siblings cfg db t)
    (hb : b ∈ siblings cfg db t) {i : Nat} (hi : i + 1 < cfg.cap) (hae : a.path = pp cfg.steplen t.path ++ stp cfg i)
    (hbe : b.path = pp cfg.steplen t.path ++ stp cfg (i + 1)) : ∃ l₁ l₂, siblings cfg db t = l₁ ++ a :: b :: l₂ := by
  have hs := siblings_sorted h t
  have hm : ∀ c ∈ siblings cfg db t, c ∈ db.rows ∧ pp cfg.steplen c.path = pp cfg.steplen t.path := fun c hc => (mem_siblings h hok ht).1 hc
  have hlt : a.path < b.path := by rw [hae, hbe, plt_append_left, stp_lt_iff hok (by omega) hi]; omega
  obtain ⟨l₁, l₂, e⟩ := List.append_of_mem ha
  rw [e] at hs hb hm
  rw [List.pairwise_append, List.pairwise_cons] at hs
  have hb2 : b ∈ l₂ := by
    rcases List.mem_append.1 hb with h1 | h1
    · exact absurd (hs.2.2 b h1 a (by simp)) (plt_asymm hlt)
    · rcases List.mem_cons.1 h1 with h1 | h1
      · rw [h1] at hlt; exact absurd hlt (plt_irrefl _)
      · exact h1
  cases l₂ with
  | nil => cases hb2
  | cons c l₂ =>
    have hcb : c = b := by
      rcases List.mem_cons.1 hb2 with h1 | h1
      · exact h1.symm
      · exfalso
        have h2 := hs.2.1.1 c (by simp)
        have h3 := (List.pairwise_cons.1 hs.2.1.2).1 b h1
        obtain ⟨hc1, hc2⟩ := hm c (by simp)
        obtain ⟨n, _, hn, ec⟩ := h.sib_pos hc1 hc2
        rw [hae, ec, plt_append_left, stp_lt_iff hok (by omega) hn] at h2
        rw [hbe, ec, plt_append_left, stp_lt_iff hok hn hi] at h3
        omega
    exact ⟨l₁, l₂, by rw [e, hcb]⟩

/-- `l` lists the rows that end up as siblings; what a sorted addition among them gives -/
def AddedAny (cfg : Cfg) (db : DB) (new : Row) (p : Option Nat) (P : List Nat) (l : List Row) (out : Except Err (DB × Row)) : Prop :=
  (∃ db' obj s, out = .ok (db', obj) ∧ Added cfg db db' obj new p s ∧ HeadSlot cfg.orderBy Row.vals Row.pk l new.vals s) ∨
  (out = .error .pathOverflow ∧ LastUsed cfg db.rows P) ∨
  (out = .error .integrity ∧ ∃ l₁ a b l₂, l = l₁ ++ a :: b :: l₂ ∧ Behind cfg.orderBy new.vals a.vals ∧ ¬ Behind cfg.orderBy new.vals b.vals)

theorem addSibling_any (hok : cfg.Ok) {db : DB} (h : Inv cfg db.rows) {t : Row} (ht : t ∈ db.rows)
    {posArg : Option Pos} (hprep : preparePosForAddSibling cfg.ordered posArg = .ok .sortedSibling)
    {new : Row} (hfresh : ∀ r ∈ db.rows, r.pk ≠ new.pk) (hnew : new.numchild = 0) :
    AddedAny cfg db new (par cfg db.rows t) (pp cfg.steplen t.path) (siblings cfg db t) (addSibling cfg db t posArg new) := by
  have hd := depth_mul h.toPInv ht
  unfold addSibling
  rw [hprep]
  simp only [if_true]
  unfold sortedPos
  simp only
  cases hf : (sortedPosQueryset cfg.orderBy Row.vals (siblings cfg db t) new.vals).head? with
  | none =>
    simp only
    rcases addPlace_last hok h.toPInv ht (pos := .lastSibling) (Or.inl rfl) none t.depth
        (sortedPosQueryset cfg.orderBy Row.vals (siblings cfg db t) new.vals) (s := .last) rfl with
      ⟨m, db1, f, h1, hm, e, hsame, hno, hP, hat, hslot⟩ | ⟨e, hu⟩
    · left
      obtain ⟨db', obj, e2, hadd⟩ := addSibling_tail hok h hsame h1 hm hP hat hno hfresh hd hnew hslot
      exact ⟨db', obj, .last, by simp only [e, e2], hadd, Or.inr ⟨hf, rfl⟩⟩
    · right; left
      exact ⟨by simp only [e], hu⟩
  | some first =>
    simp only
    have hfm := (mem_behind first).1 (List.mem_of_head? hf)
    obtain ⟨hf1, hf2⟩ := (mem_siblings h.toPInv hok ht).1 hfm.1
    obtain ⟨n, hn1, hn, hfe⟩ := h.sib_pos hf1 hf2
    have hlp : lastpos cfg first.path = .ok n := by rw [hfe, lastpos_eq hok _ hn]
    rw [hlp]
    simp only
    have hl : ¬ IsLastCase cfg db .sortedSibling t := by
      rintro (e | ⟨e, _⟩) <;> cases e
    rw [reorder_some hl]
    rcases reorderRest_any hok h.toPInv ht (h.basepath hok ht) (sortedPos_sublist cfg.orderBy Row.vals (siblings cfg db t) new.vals)
        hf hn1 hn hfe with
      (⟨m, db1, f, h1, hm, e, hsame, hno, hP, hat, hslot⟩ | ⟨e, hu⟩) | ⟨e, i, a, ha, b, hb, hnb, hi, hae, hbe⟩
    · left
      obtain ⟨db', obj, e2, hadd⟩ := addSibling_tail hok h hsame h1 hm hP hat hno hfresh hd hnew hslot
      exact ⟨db', obj, .before first.pk, by simp only [e, e2], hadd, Or.inl ⟨first, hf, rfl⟩⟩
    · right; left
      exact ⟨by simp only [e], hu⟩
    · right; right
      have ha' := (mem_behind a).1 ha
      obtain ⟨l₁, l₂, el⟩ := adjacent_of hok h.toPInv ht ha'.1 hb hi hae hbe
      exact ⟨by simp only [e], l₁, a, b, l₂, el, ha'.2, fun hc => hnb ((mem_behind b).2 ⟨hb, hc⟩)⟩

theorem headSlot_nil {s : Slot} {new : Row} (hs : s = .last) : HeadSlot cfg.orderBy Row.vals Row.pk [] new.vals s := by
  right
  rw [sortedPos_behind]
  exact ⟨rfl, hs⟩

theorem addRoot_any (hok : cfg.Ok) {db : DB} (h : Inv cfg db.rows) (ho : cfg.ordered = true)
    {new : Row} (hfresh : ∀ r ∈ db.rows, r.pk ≠ new.pk) (hnew : new.numchild = 0) :
    AddedAny cfg db new none [] (rootNodes db) (addRoot cfg db new) := by
  have hcap := cap_gt_one hok
  have hnil := at?_nil h.toPInv hok
  unfold addRoot
  cases hl : lastRootNode db with
  | none =>
    left
    have hempty := no_roots hok h.toPInv hl
    simp only [getPath_root_one hok]
    obtain ⟨db', e, hadd⟩ := append_spec hok h (P := []) (m := 1) (d := 1) le_rfl hcap (Or.inl rfl)
      (by rw [hempty]; simp) hfresh hnew (by simp) (db1 := db) (g := fun r => r) (by simp) OnlyNum.id
      (by rw [hempty]; simp)
    rw [hnil] at hadd
    refine ⟨db', _, .last, by simp only [e], hadd, ?_⟩
    have : rootNodes db = [] := by
      unfold lastRootNode at hl
      simpa using hl
    rw [this]
    exact headSlot_nil rfl
  | some last =>
    simp only [ho, if_true]
    obtain ⟨h1, h2, _, _⟩ := lastRoot_spec hok h.toPInv hl
    have := addSibling_any hok h h1 (posArg := some .sortedSibling) (by simp [ho]; decide) hfresh hnew
    have hp : par cfg db.rows last = none := by
      rw [← hnil]; exact (par_eq_at h.toPInv hok h1 (Or.inl rfl)).2 h2
    have hsib : siblings cfg db last = rootNodes db := by
      refine sorted_unique (T := fun r => r ∈ db.rows) (lt := fun a b : Row => a.path < b.path) (fun _ _ _ _ hab => plt_asymm hab)
        (fun r hr => ((mem_siblings h.toPInv hok h1).1 hr).1) (siblings_sorted h.toPInv last) (rootNodes_sorted h.toPInv) ?_
      intro r
      rw [mem_siblings h.toPInv hok h1, mem_rootNodes h.toPInv hok, h2]
      refine and_congr_right (fun hr => ?_)
      rw [← par_eq_at h.toPInv hok hr (Or.inl rfl), hnil]
    rw [h2, hp, hsib] at this
    exact this

theorem addChild_any (hok : cfg.Ok) {db : DB} (h : Inv cfg db.rows) {t : Row} (ht : t ∈ db.rows) {target : Row}
    (htk : target.pk = t.pk) (ho : cfg.ordered = true)
    {new : Row} (hfresh : ∀ r ∈ db.rows, r.pk ≠ new.pk) (hnew : new.numchild = 0) :
    AddedAny cfg db new (some t.pk) t.path (children cfg db t) ((addChild cfg db target new).map (fun x => (x.1, x.2.1))) ∨
    (addChild cfg db target new = .error .pathOverflow ∧ t.isLeaf = true ∧ TooDeep cfg t.path) := by
  by_cases hleaf : t.isLeaf = true
  · rcases addChild_last hok h ht htk (Or.inr hleaf) hfresh hnew with ⟨db', obj, e, hadd⟩ | ⟨e, hu | ⟨_, hu⟩⟩
    · left; left
      refine ⟨db', obj, .last, by rw [e]; rfl, hadd, ?_⟩
      have : children cfg db t = [] := by
        rw [List.eq_nil_iff_forall_not_mem]
        intro r hr
        have := (mem_children h hok ht).1 hr
        exact leaf_no_child h ht hleaf this.1 this.2
      rw [this]
      exact headSlot_nil rfl
    · left; right; left
      exact ⟨by rw [e]; rfl, hu⟩
    · exact Or.inr ⟨e, hleaf, hu⟩
  · left
    have hleaf : t.isLeaf = false := by simpa using hleaf
    have hget : db.get? target.pk = some t := (get?_eq_some h.inv).2 ⟨ht, htk.symm⟩
    obtain ⟨last, el, hlm, hlp, hmax⟩ := lastChild_none hok h ht hleaf
    unfold addChild
    simp only [hget]
    rw [if_pos ⟨ho, hleaf⟩]
    simp only [el]
    have := addSibling_any hok h hlm (posArg := some .sortedSibling) (by simp [ho]; decide) hfresh hnew
    have hp : par cfg db.rows last = some t.pk := (par_eq_some_iff h.inv ht).2 hlp
    have hsib : siblings cfg db last = children cfg db t := by
      refine sorted_unique (T := fun r => r ∈ db.rows) (lt := fun a b : Row => a.path < b.path) (fun _ _ _ _ hab => plt_asymm hab)
        (fun r hr => ((mem_siblings h.toPInv hok hlm).1 hr).1) (siblings_sorted h.toPInv last) (children_sorted h.toPInv t) ?_
      intro r
      rw [mem_siblings h.toPInv hok hlm, mem_children h hok ht, hlp]
    rw [hlp, hp, hsib] at this
    rcases this with ⟨db', obj, s, e, h1, h2⟩ | ⟨e, hu⟩ | ⟨e, hu⟩
    · left
      exact ⟨db', obj, s, by simp only [e]; rfl, h1, h2⟩
    · right; left
      exact ⟨by simp only [e]; rfl, hu⟩
    · right; right
      exact ⟨by simp only [e]; rfl, hu⟩

end Verif.MP
