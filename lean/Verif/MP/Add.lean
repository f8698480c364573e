/-
MP: add_root, add_child, add_sibling.
-/
import Verif.MP.Count
import Verif.Sorted
import Verif.SpecPos

namespace Verif

namespace MP

variable {cfg : Cfg}

/-- the last position below `P` is in use -/
def LastUsed (cfg : Cfg) (rows : List Row) (P : List Nat) : Prop :=
  ∃ r ∈ rows, r.path = P ++ stp cfg (cfg.cap - 1)

theorem Full.lastUsed (hok : cfg.Ok) (h : Full cfg rows P m) (hm : m < cfg.cap) : LastUsed cfg rows P :=
  h (cfg.cap - 1) (by omega) (by have := cap_gt_one hok; omega)

theorem sameNode_iff {a : Row} {b : Row} : sameNode a (some b) = true ↔ a.pk = b.pk := by
  simp [sameNode]

/-- a row that is not the last sibling has room on its right -/
theorem right_room (hok : cfg.Ok) {db : DB} (h : PInv cfg db.rows) {t : Row} (ht : t ∈ db.rows)
    (hl : ¬ IsLastCase cfg db .right t) {n : Nat} (hn : n < cfg.cap)
    (hte : t.path = pp cfg.steplen t.path ++ stp cfg n) : n + 1 < cfg.cap := by
  obtain ⟨last, e2, hlm, hlp2, hmax⟩ := lastSibling_spec hok h ht
  have hne : t ≠ last := by
    rintro rfl
    exact hl (Or.inr ⟨rfl, by rw [e2, sameNode_iff]⟩)
  obtain ⟨k, _, hk, e⟩ := h.sib_pos hlm hlp2
  have hlt := hmax t ht rfl hne
  rw [e] at hlt
  conv at hlt => lhs; rw [hte]
  rw [plt_append_left, stp_lt_iff hok hn hk] at hlt
  omega

/-! ### Places -/

section places

variable {db : DB} {t : Row} {K : Nat → Prop}

theorem place_left (hok : cfg.Ok) (h : PInv cfg db.rows) (ht : t ∈ db.rows) (hK : K t.pk)
    {n : Nat} (h1 : 1 ≤ n) (hn : n < cfg.cap) (hte : t.path = pp cfg.steplen t.path ++ stp cfg n) :
    Place cfg db.rows (pp cfg.steplen t.path) n
      ((siblings cfg db t).filter (fun r => !decide (r.path < t.path))) K (.before t.pk) := by
  refine ⟨h.isPar ht, h1, hn, (siblings_sorted h t).filter _, ?_, ?_, ?_⟩
  · intro r
    rw [List.mem_filter, mem_siblings h hok ht, ← hte]
    simp [and_assoc]
  · intro r hr hp hlt _
    rw [← hte] at hlt
    rw [List.mem_filter, mem_siblings h hok ht]
    exact ⟨⟨hr, hp⟩, by simpa using hlt⟩
  · rw [← hte]
    refine ⟨t, ⟨ht, hK⟩, rfl, rfl, plt_irrefl _, ?_⟩
    intro r _ _ hlt; exact hlt

theorem place_right (hok : cfg.Ok) (h : PInv cfg db.rows) (ht : t ∈ db.rows) (hK : K t.pk)
    {n : Nat} (hn : n + 1 < cfg.cap) (hte : t.path = pp cfg.steplen t.path ++ stp cfg n) :
    Place cfg db.rows (pp cfg.steplen t.path) (n + 1)
      ((siblings cfg db t).filter (fun r => decide (t.path < r.path))) K (.after t.pk) := by
  have key : ∀ r ∈ db.rows, pp cfg.steplen r.path = pp cfg.steplen t.path →
      (t.path < r.path ↔ ¬ r.path < pp cfg.steplen t.path ++ stp cfg (n + 1)) := by
    intro r hr hp
    obtain ⟨k, _, hk, e⟩ := h.sib_pos hr hp
    have e3 : t.path < pp cfg.steplen t.path ++ stp cfg k ↔ n < k := by
      conv => lhs; lhs; rw [hte]
      rw [plt_append_left, stp_lt_iff hok (by omega) hk]
    rw [e, plt_append_left, stp_lt_iff hok hk hn, e3]
    omega
  refine ⟨h.isPar ht, by omega, hn, (siblings_sorted h t).filter _, ?_, ?_, ?_⟩
  · intro r
    rw [List.mem_filter, mem_siblings h hok ht]
    rintro ⟨⟨hr, hp⟩, hlt⟩
    exact ⟨hr, hp, (key r hr hp).1 (by simpa using hlt)⟩
  · intro r hr hp hlt _
    rw [List.mem_filter, mem_siblings h hok ht]
    exact ⟨⟨hr, hp⟩, by simpa using (key r hr hp).2 hlt⟩
  · refine ⟨t, ⟨ht, hK⟩, rfl, by rw [pp_step hok _ hn], ?_, ?_⟩
    · conv_lhs => rw [hte]
      rw [plt_append_left, stp_lt_iff hok (by omega) hn]; omega
    · intro r hr hp hlt
      rw [pp_step hok _ hn] at hp
      exact (key r hr.1 hp).1 hlt

theorem place_first (hok : cfg.Ok) (h : PInv cfg db.rows) (ht : t ∈ db.rows) :
    Place cfg db.rows (pp cfg.steplen t.path) 1 (siblings cfg db t) K .first := by
  have hcap := cap_gt_one hok
  have key : ∀ r ∈ db.rows, pp cfg.steplen r.path = pp cfg.steplen t.path →
      ¬ r.path < pp cfg.steplen t.path ++ stp cfg 1 := by
    intro r hr hp
    obtain ⟨k, hk1, hk, e⟩ := h.sib_pos hr hp
    rw [e, plt_append_left, stp_lt_iff hok hk hcap]
    omega
  refine ⟨h.isPar ht, le_rfl, hcap, siblings_sorted h t, ?_, ?_, ?_⟩
  · intro r
    rw [mem_siblings h hok ht]
    rintro ⟨hr, hp⟩; exact ⟨hr, hp, key r hr hp⟩
  · intro r hr hp _ _
    exact (mem_siblings h hok ht).2 ⟨hr, hp⟩
  · intro r hr hp
    rw [pp_step hok _ hcap] at hp
    exact key r hr.1 hp

/-- the place in a sorted list of siblings, when `after` is a suffix of it -/
theorem place_sorted (hok : cfg.Ok) (h : PInv cfg db.rows) (ht : t ∈ db.rows) {after : List Row} {first : Row}
    (hsub : after.Sublist (siblings cfg db t)) (hhead : after.head? = some first) (hK : K first.pk)
    (hsuf : ∀ r ∈ siblings cfg db t, K r.pk → ¬ r.path < first.path → r ∈ after)
    {n : Nat} (h1 : 1 ≤ n) (hn : n < cfg.cap) (hfe : first.path = pp cfg.steplen t.path ++ stp cfg n) :
    Place cfg db.rows (pp cfg.steplen t.path) n after K (.before first.pk) := by
  have hsorted := (siblings_sorted h t).sublist hsub
  obtain ⟨hfm, hmin⟩ := head?_min hsorted hhead
  have hfs := (mem_siblings h hok ht).1 (hsub.subset hfm)
  refine ⟨h.isPar ht, h1, hn, hsorted, ?_, ?_, ?_⟩
  · intro r
    rw [← hfe]
    intro hr
    obtain ⟨h2, h3⟩ := (mem_siblings h hok ht).1 (hsub.subset hr)
    refine ⟨h2, h3, ?_⟩
    by_cases he : r = first
    · rw [he]; exact plt_irrefl _
    · exact plt_asymm (hmin r hr he)
  · intro r h2 h3 h4 h5
    rw [← hfe] at h4
    exact hsuf r ((mem_siblings h hok ht).2 ⟨h2, h3⟩) h5 h4
  · rw [← hfe]
    refine ⟨first, ⟨hfs.1, hK⟩, rfl, rfl, plt_irrefl _, ?_⟩
    intro r _ _ hlt; exact hlt

end places

/-! ### The reordering for an addition -/

/-- Outcome of the reordering for an addition below `P` at slot `s`. -/
def AddPlace (cfg : Cfg) (db : DB) (P : List Nat) (s : Slot) (r : Except Err (DB × Option (List Nat) × List Nat)) : Prop :=
  (∃ m db' f, 1 ≤ m ∧ m < cfg.cap ∧ r = .ok (db', none, P ++ stp cfg m) ∧ Same cfg db.rows db'.rows f ∧
    (∀ r ∈ db'.rows, r.path ≠ P ++ stp cfg m) ∧ IsPar db'.rows P ∧ at? db'.rows P = at? db.rows P ∧
    PSlot cfg.steplen Row.pk Row.path (· ∈ db'.rows) (P ++ stp cfg m) s) ∨
  (r = .error .pathOverflow ∧ LastUsed cfg db.rows P)

theorem addPlace_last (hok : cfg.Ok) {db : DB} (h : PInv cfg db.rows) {t : Row} (ht : t ∈ db.rows)
    {pos : Pos} (hl : IsLastCase cfg db pos t) (newpos : Option Int) (d : Nat) (sibs : List Row) {s : Slot}
    (hs : sibSlot t.pk pos = some s) :
    AddPlace cfg db (pp cfg.steplen t.path) s (reorder cfg db pos newpos d t sibs none) := by
  obtain ⟨last, e, hlm, hlp, hmax⟩ := lastSibling_spec hok h ht
  obtain ⟨n, hn1, hn, hle⟩ := h.sib_pos hlm hlp
  have hl' := hl
  unfold IsLastCase at hl
  unfold reorder
  rw [if_pos hl]
  simp only [e, hle]
  by_cases hcap : n + 1 < cfg.cap
  · left
    rw [incPath_eq hok _ hcap]
    have hlt : ∀ r ∈ db.rows, pp cfg.steplen r.path = pp cfg.steplen t.path →
        r.path < pp cfg.steplen t.path ++ stp cfg (n + 1) := by
      intro r hr hp
      have h2 : last.path < pp cfg.steplen t.path ++ stp cfg (n + 1) := by
        rw [hle, plt_append_left, stp_lt_iff hok hn hcap]; omega
      by_cases he : r = last
      · rw [he]; exact h2
      · exact plt_trans (hmax r hr hp he) h2
    refine ⟨n + 1, db, fun r => r, by omega, hcap, rfl, Same.refl h, ?_, h.isPar ht, rfl, ?_⟩
    · intro r hr e2
      have := hlt r hr (by rw [e2, pp_step hok _ hcap])
      rw [e2] at this
      exact plt_irrefl _ this
    · rcases hl with hl | ⟨hl, hlast⟩
      · subst hl
        simp only [sibSlot, Option.some.injEq] at hs
        subst hs
        intro r hr hp
        rw [pp_step hok _ hcap] at hp
        exact hlt r hr hp
      · subst hl
        simp only [sibSlot, Option.some.injEq] at hs
        subst hs
        rw [e, sameNode_iff] at hlast
        have htl := h.inv.pk_inj ht hlm hlast
        subst htl
        refine ⟨t, ht, rfl, by rw [pp_step hok _ hcap], hlt t ht rfl, ?_⟩
        intro r hr hp hlt2
        rw [pp_step hok _ hcap] at hp
        by_cases he : r = t
        · rw [he] at hlt2; exact absurd hlt2 (plt_irrefl _)
        · exact absurd hlt2 (plt_asymm (hmax r hr hp he))
  · right
    rw [incPath_overflow hok _ hn (by omega)]
    refine ⟨rfl, last, hlm, ?_⟩
    rw [hle, show n = cfg.cap - 1 by omega]

theorem addPlace_rest (hok : cfg.Ok) {db : DB} (h : PInv cfg db.rows) {target : Row} {d : Nat} {newpk : Nat}
    (hbase : basepath cfg target.path ((d : Int) - 1) = P) (hfresh : ∀ r ∈ db.rows, r.pk ≠ newpk)
    (hp : Place cfg db.rows P m sibs (· ≠ newpk) s) :
    AddPlace cfg db P s (reorderRest cfg db m d target sibs none) := by
  rcases reorderRest_add hok h hbase hp hfresh with ⟨db1, f, e, hsame, hno, hP', hat, hslot⟩ | ⟨e, hfull⟩
  · left
    refine ⟨m, db1, f, hp.one, hp.cap, e, hsame, hno, hP', hat, ?_⟩
    have : (fun r => r ∈ db1.rows ∧ r.pk ≠ newpk) = (· ∈ db1.rows) := by
      funext r
      apply propext
      refine ⟨fun h => h.1, fun hr => ⟨hr, ?_⟩⟩
      rw [hsame.eq] at hr
      obtain ⟨q, hq, rfl⟩ := List.mem_map.1 hr
      rw [hsame.keeps.pk]; exact hfresh q hq
    rw [← this]; exact hslot
  · right
    exact ⟨e, hfull.lastUsed hok hp.cap⟩

theorem addPlace_unsorted (hok : cfg.Ok) {db : DB} (h : PInv cfg db.rows) {t : Row} (ht : t ∈ db.rows)
    {pos : Pos} {s : Slot} (hs : sibSlot t.pk pos = some s) {newpk : Nat} (hfresh : ∀ r ∈ db.rows, r.pk ≠ newpk) :
    AddPlace cfg db (pp cfg.steplen t.path) s (reorder cfg db pos none t.depth t [] none) := by
  by_cases hl : IsLastCase cfg db pos t
  · exact addPlace_last hok h ht hl none _ _ hs
  · rw [reorder_none hl]
    obtain ⟨n, hn1, hn, hte⟩ := h.pos t ht
    have hbase : basepath cfg t.path ((t.depth : Int) - 1) = pp cfg.steplen t.path := h.basepath hok ht
    have hlp : lastpos cfg t.path = .ok n := by rw [hte, lastpos_eq hok _ hn]
    cases pos with
    | firstSibling =>
      simp only [sibSlot, Option.some.injEq] at hs; subst hs
      simp only [placeSiblings, hlp]
      exact addPlace_rest hok h hbase hfresh (m := 1) (place_first hok h ht)
    | left =>
      simp only [sibSlot, Option.some.injEq] at hs; subst hs
      simp only [placeSiblings, hlp]
      exact addPlace_rest hok h hbase hfresh (place_left hok h ht (hfresh t ht) hn1 hn hte)
    | right =>
      simp only [sibSlot, Option.some.injEq] at hs; subst hs
      have hcap : n + 1 < cfg.cap := right_room hok h ht hl hn hte
      simp only [placeSiblings, hlp]
      exact addPlace_rest hok h hbase hfresh (m := n + 1) (place_right hok h ht (hfresh t ht) hcap hte)
    | lastSibling => exact absurd (Or.inl rfl) hl
    | sortedSibling => simp [sibSlot] at hs
    | firstChild => simp [sibSlot] at hs
    | lastChild => simp [sibSlot] at hs
    | sortedChild => simp [sibSlot] at hs
    | other => simp [sibSlot] at hs

/-- The outcome of an addition: the new row at slot `s` below `p`, everything else kept. -/
structure Added (cfg : Cfg) (db db' : DB) (obj new : Row) (p : Option Nat) (s : Slot) : Prop where
  inv : Inv cfg db'.rows
  forest : PF cfg db'.rows = (PF cfg db.rows).put p s new.pk
  data : data db'.rows = data db.rows ++ [(new.pk, new.vals)]
  pk : obj.pk = new.pk
  mem : obj ∈ db'.rows
  parent : ∀ t ∈ db.rows, p = some t.pk → ∃ t' ∈ db'.rows, t'.pk = t.pk ∧ t'.path = t.path

/-- everything after the reordering in `add_sibling` -/
theorem addSibling_tail (hok : cfg.Ok) {db0 db : DB} (h0 : Inv cfg db0.rows) (hs : Same cfg db0.rows db.rows f)
    {P : List Nat} {m d : Nat} (h1 : 1 ≤ m) (hm : m < cfg.cap) (hP : IsPar db.rows P)
    (hat : at? db.rows P = at? db0.rows P)
    (hno : ∀ r ∈ db.rows, r.path ≠ P ++ stp cfg m) {new : Row} (hfresh : ∀ r ∈ db0.rows, r.pk ≠ new.pk)
    (hd : d * cfg.steplen = P.length + cfg.steplen) (hnew : new.numchild = 0) {s : Slot}
    (hslot : PSlot cfg.steplen Row.pk Row.path (· ∈ db.rows) (P ++ stp cfg m) s) :
    ∃ db' obj, finishAddSibling cfg db d (P ++ stp cfg m) new = .ok (db', obj) ∧
      Added cfg db0 db' obj new (at? db0.rows P) s := by
  have hd1 : 1 ≤ d := by
    by_contra hc
    have : d = 0 := by omega
    subst this; have := hok.step; omega
  have hbase : basepath cfg (P ++ stp cfg m) ((d : Int) - 1) = P := by
    rw [basepath_parent hd1 (by rw [step_len hok P hm, hd]), pp_step hok P hm]
  unfold finishAddSibling
  rw [hbase]
  have hinv : Inv cfg db.rows := ⟨hs.pinv, h0.num.of_same hs⟩
  have hfresh' : ∀ r ∈ db.rows, r.pk ≠ new.pk := by
    intro r' hr'
    rw [hs.eq] at hr'
    obtain ⟨r, hr, rfl⟩ := List.mem_map.1 hr'
    rw [hs.keeps.pk]; exact hfresh r hr
  have hne : ∀ r ∈ db.rows, r.path ≠ [] := by
    intro r hr e
    have := (hs.pinv.inv.len r hr).2
    rw [e] at this
    have := hok.step
    simp at *
    omega
  obtain ⟨g, e, og, ng⟩ : ∃ g, (if P ≠ [] then addNumchild db P 1 else db).rows = db.rows.map g ∧
      OnlyNum g ∧ ∀ r ∈ db.rows, (g r).numchild = r.numchild + (if r.path = P then 1 else 0) := by
    by_cases hP0 : P = []
    · refine ⟨fun r => r, by simp [hP0], OnlyNum.id, ?_⟩
      intro r hr
      rw [if_neg (by rw [hP0]; exact hne r hr)]
      simp
    · rw [if_pos hP0]
      obtain ⟨g, e, o, n⟩ := addNumchild_rows db P 1
      exact ⟨g, e, o, fun r _ => n r⟩
  obtain ⟨db', e1, e2, _, hinv', hF, hdata⟩ := insert_spec hok hinv h1 hm hP hno
    (x := { new with path := P ++ stp cfg m, depth := d }) hfresh' rfl hd hnew hslot e og ng
  refine ⟨db', { new with path := P ++ stp cfg m, depth := d }, by simp only [e1], hinv', ?_, ?_, rfl, ?_, ?_⟩
  · rw [hF, hs.forest, hat]
  · rw [hdata, hs.eq, data_map hs.keeps.pk hs.keeps.vals]
  · rw [e2]; simp
  · intro t ht hp
    have ht1 : t.path = P := (at?_eq_pk h0.toPInv ht).1 hp
    rw [← hat] at hp
    obtain ⟨q, hq, e3, e4⟩ := (pkAt_eq_some hs.pinv.inv).1 hp
    refine ⟨g q, ?_, by rw [og.pk, e4], by rw [og.path, e3, ht1]⟩
    rw [e2, e]
    exact List.mem_append_left _ (List.mem_map_of_mem hq)

theorem depth_mul (h : PInv cfg rows) {t : Row} (ht : t ∈ rows) :
    t.depth * cfg.steplen = (pp cfg.steplen t.path).length + cfg.steplen := by
  rw [pp_length, ← h.depth t ht]
  have := (h.inv.len t ht).2
  omega

/-- `add_sibling` once the position is known, for the unsorted positions -/
theorem addSibling_unsorted (hok : cfg.Ok) {db : DB} (h : Inv cfg db.rows) {t : Row} (ht : t ∈ db.rows)
    {posArg : Option Pos} {pos : Pos} (hprep : preparePosForAddSibling cfg.ordered posArg = .ok pos)
    {s : Slot} (hs : sibSlot t.pk pos = some s) {new : Row} (hfresh : ∀ r ∈ db.rows, r.pk ≠ new.pk)
    (hnew : new.numchild = 0) :
    (∃ db' obj, addSibling cfg db t posArg new = .ok (db', obj) ∧
      Added cfg db db' obj new (par cfg db.rows t) s) ∨
    (addSibling cfg db t posArg new = .error .pathOverflow ∧ LastUsed cfg db.rows (pp cfg.steplen t.path)) := by
  have hpos : pos ≠ .sortedSibling := by rintro rfl; simp [sibSlot] at hs
  unfold addSibling
  rw [hprep]
  simp only [hpos, if_false]
  rcases addPlace_unsorted hok h.toPInv ht hs hfresh with ⟨m, db1, f, h1, hm, e, hsame, hno, hP, hat, hslot⟩ | ⟨e, hu⟩
  · left
    obtain ⟨db', obj, e2, hadd⟩ := addSibling_tail hok h hsame h1 hm hP hat hno hfresh (depth_mul h.toPInv ht) hnew hslot
    exact ⟨db', obj, by simp only [e, e2], hadd⟩
  · right
    exact ⟨by simp only [e], hu⟩

/-! ### Sorted insertion -/

/-- the rows below `P` satisfying `K` are in `node_order_by` order and have no null values there -/
structure SortedSibs (cfg : Cfg) (rows : List Row) (P : List Nat) (K : Nat → Prop) : Prop where
  nonNull : ∀ r ∈ rows, pp cfg.steplen r.path = P → K r.pk → NonNull cfg.orderBy r.vals
  sorted : ∀ a ∈ rows, ∀ b ∈ rows, pp cfg.steplen a.path = P → pp cfg.steplen b.path = P →
    K a.pk → K b.pk → a.path < b.path → ¬ keyLt cfg.orderBy b.vals a.vals

/-- `s` is the sorted slot for values `v` below `P`: after everything not greater, before everything greater -/
def SortedSlot (cfg : Cfg) (rows : List Row) (P : List Nat) (K : Nat → Prop) (v : Vals) : Slot → Prop
  | .last => ∀ r ∈ rows, pp cfg.steplen r.path = P → K r.pk → ¬ keyLt cfg.orderBy v r.vals
  | .before t => ∃ tr ∈ rows, pp cfg.steplen tr.path = P ∧ K tr.pk ∧ tr.pk = t ∧
      ∀ r ∈ rows, pp cfg.steplen r.path = P → K r.pk → (keyLt cfg.orderBy v r.vals ↔ ¬ r.path < tr.path)
  | _ => False

theorem ordered_ne (h : cfg.ordered = true) : cfg.orderBy ≠ [] := by
  intro e; simp [Cfg.ordered, e] at h

theorem after_suffix (hok : cfg.Ok) {db : DB} (h : PInv cfg db.rows) {t : Row} (ht : t ∈ db.rows)
    (ho : cfg.ordered = true) {v : Vals} (hv : NonNull cfg.orderBy v) {K : Nat → Prop}
    (hKv : ∀ r ∈ db.rows, ¬ K r.pk → r.vals = v)
    (hs : SortedSibs cfg db.rows (pp cfg.steplen t.path) K) {first : Row}
    (hf : (sortedPosQueryset cfg.orderBy Row.vals (siblings cfg db t) v).head? = some first) :
    first ∈ db.rows ∧ pp cfg.steplen first.path = pp cfg.steplen t.path ∧ K first.pk ∧
    keyLt cfg.orderBy v first.vals ∧
    ∀ r ∈ db.rows, pp cfg.steplen r.path = pp cfg.steplen t.path → K r.pk →
      (keyLt cfg.orderBy v r.vals ↔ ¬ r.path < first.path) := by
  have hsorted := (siblings_sorted h t).sublist (sortedPos_sublist cfg.orderBy Row.vals (siblings cfg db t) v)
  obtain ⟨hfm, hmin⟩ := head?_min hsorted hf
  obtain ⟨hf1, hf2⟩ := (mem_sortedPos (ordered_ne ho) hv _).1 hfm
  have hf3 := (mem_siblings h hok ht).1 hf1
  have hK : K first.pk := by
    by_contra hc
    rw [hKv first hf3.1 hc] at hf2
    exact keyLt_irrefl _ hf2
  refine ⟨hf3.1, hf3.2, hK, hf2, ?_⟩
  intro r hr hp hKr
  constructor
  · intro hk
    have hrm := (mem_sortedPos (ordered_ne ho) hv r).2 ⟨(mem_siblings h hok ht).2 ⟨hr, hp⟩, hk⟩
    by_cases he : r = first
    · rw [he]; exact plt_irrefl _
    · exact plt_asymm (hmin r hrm he)
  · intro hlt
    by_cases he : r = first
    · rw [he]; exact hf2
    · have hlt2 : first.path < r.path := by
        rcases plt_trichotomy r.path first.path with h1 | h1 | h1
        · exact absurd h1 hlt
        · exact absurd (h.inv.path_inj hr hf3.1 h1) he
        · exact h1
      exact keyLt_of_lt_of_le hv (hs.nonNull _ hf3.1 hf3.2 hK) (hs.nonNull r hr hp hKr) hf2
        (hs.sorted first hf3.1 r hr hf3.2 hp hK hKr hlt2)

/-- `add_sibling` with `sorted-sibling` -/
theorem addSibling_sorted (hok : cfg.Ok) {db : DB} (h : Inv cfg db.rows) {t : Row} (ht : t ∈ db.rows)
    (ho : cfg.ordered = true) {posArg : Option Pos}
    (hprep : preparePosForAddSibling cfg.ordered posArg = .ok .sortedSibling)
    {new : Row} (hfresh : ∀ r ∈ db.rows, r.pk ≠ new.pk) (hnew : new.numchild = 0)
    (hv : NonNull cfg.orderBy new.vals) (hs : SortedSibs cfg db.rows (pp cfg.steplen t.path) (fun _ => True)) :
    (∃ db' obj s, addSibling cfg db t posArg new = .ok (db', obj) ∧
      SortedSlot cfg db.rows (pp cfg.steplen t.path) (fun _ => True) new.vals s ∧
      Added cfg db db' obj new (par cfg db.rows t) s) ∨
    (addSibling cfg db t posArg new = .error .pathOverflow ∧ LastUsed cfg db.rows (pp cfg.steplen t.path)) := by
  have hd := depth_mul h.toPInv ht
  unfold addSibling
  rw [hprep]
  simp only [if_true]
  unfold sortedPos
  simp only
  cases hf : (sortedPosQueryset cfg.orderBy Row.vals (siblings cfg db t) new.vals).head? with
  | none =>
    simp only
    have hempty : sortedPosQueryset cfg.orderBy Row.vals (siblings cfg db t) new.vals = [] := by
      simpa using hf
    rcases addPlace_last hok h.toPInv ht (pos := .lastSibling) (Or.inl rfl) none t.depth
        (sortedPosQueryset cfg.orderBy Row.vals (siblings cfg db t) new.vals) (s := .last) rfl with
      ⟨m, db1, f, h1, hm, e, hsame, hno, hP, hat, hslot⟩ | ⟨e, hu⟩
    · left
      obtain ⟨db', obj, e2, hadd⟩ := addSibling_tail hok h hsame h1 hm hP hat hno hfresh hd hnew hslot
      refine ⟨db', obj, .last, by simp only [e, e2], ?_, hadd⟩
      intro r hr hp _ hk
      have := (mem_sortedPos (ordered_ne ho) hv r).2 ⟨(mem_siblings h.toPInv hok ht).2 ⟨hr, hp⟩, hk⟩
      rw [hempty] at this
      simp at this
    · right
      exact ⟨by simp only [e], hu⟩
  | some first =>
    simp only
    obtain ⟨hf1, hf2, _, hf3, hf4⟩ := after_suffix hok h.toPInv ht ho hv
      (fun _ _ hc => absurd trivial hc) hs hf
    obtain ⟨n, hn1, hn, hfe⟩ := h.sib_pos hf1 hf2
    have hlp : lastpos cfg first.path = .ok n := by rw [hfe, lastpos_eq hok _ hn]
    rw [hlp]
    simp only
    have hl : ¬ IsLastCase cfg db .sortedSibling t := by
      rintro (e | ⟨e, _⟩) <;> cases e
    rw [reorder_some hl]
    have hplace := place_sorted (K := (· ≠ new.pk)) hok h.toPInv ht
      (sortedPos_sublist cfg.orderBy Row.vals (siblings cfg db t) new.vals) hf (hfresh _ hf1) (by
        intro r hr _ hlt
        obtain ⟨h1, h2⟩ := (mem_siblings h.toPInv hok ht).1 hr
        exact (mem_sortedPos (ordered_ne ho) hv r).2 ⟨hr, (hf4 r h1 h2 trivial).2 hlt⟩) hn1 hn hfe
    rcases addPlace_rest hok h.toPInv (h.basepath hok ht) hfresh hplace with
      ⟨m, db1, f, h1, hm, e, hsame, hno, hP, hat, hslot⟩ | ⟨e, hu⟩
    · left
      obtain ⟨db', obj, e2, hadd⟩ := addSibling_tail hok h hsame h1 hm hP hat hno hfresh hd hnew hslot
      refine ⟨db', obj, .before first.pk, by simp only [e, e2], ?_, hadd⟩
      exact ⟨first, hf1, hf2, trivial, rfl, hf4⟩
    · right
      exact ⟨by simp only [e], hu⟩

/-! ### add_root -/

theorem getPath_root_one (hok : cfg.Ok) : getPath cfg [] 1 1 = .ok ([] ++ stp cfg 1) := by
  have := getPath_eq hok [] 1 (cap_gt_one hok)
  simpa [basepath, slice0] using this

theorem lastRoot_spec (hok : cfg.Ok) {db : DB} (h : PInv cfg db.rows) {last : Row} (hl : lastRootNode db = some last) :
    last ∈ db.rows ∧ pp cfg.steplen last.path = [] ∧ lastSibling cfg db last = some last ∧ last.depth = 1 := by
  obtain ⟨h1, h2⟩ := getLast?_max (rootNodes_sorted h) hl
  obtain ⟨h3, h4⟩ := (mem_rootNodes h hok).1 h1
  have hpp : ∀ r ∈ db.rows, par cfg db.rows r = none ↔ pp cfg.steplen r.path = [] := by
    intro r hr
    rw [← at?_nil h hok, par_eq_at h hok hr (Or.inl rfl)]
  have h5 := (hpp last h3).1 h4
  refine ⟨h3, h5, ?_, ?_⟩
  · obtain ⟨l, e, hlm, hlp, hmax⟩ := lastSibling_spec hok h h3
    rw [e]
    by_contra hne
    have hne' : l ≠ last := fun e => hne (by rw [e])
    have a := hmax last h3 rfl (Ne.symm hne')
    have b := h2 l ((mem_rootNodes h hok).2 ⟨hlm, (hpp l hlm).2 (by rw [hlp, h5])⟩) hne'
    exact plt_asymm a b
  · have := (parOf_eq_none h.inv hok.step h3).1 h4
    exact (depth_eq_iff h hok h3).2 (by omega)

theorem no_roots (hok : cfg.Ok) {db : DB} (h : PInv cfg db.rows) (hl : lastRootNode db = none) : db.rows = [] := by
  have hr : rootNodes db = [] := by
    unfold lastRootNode at hl
    simpa using hl
  by_contra hne
  -- a row with the shortest path is a root
  have key : ∀ n (r : Row), r ∈ db.rows → r.path.length ≤ n → False := by
    intro n
    induction n with
    | zero =>
      intro r hr' hn
      have := (h.inv.len r hr').2
      have := hok.step
      omega
    | succ n ih =>
      intro r hr' hn
      by_cases hlen : cfg.steplen < r.path.length
      · obtain ⟨q, hq, e⟩ := h.inv.closed r hr' hlen
        refine ih q hq ?_
        rw [e, pp_length]
        have := hok.step
        omega
      · have : r ∈ rootNodes db := (mem_rootNodes h hok).2 ⟨hr', (parOf_eq_none h.inv hok.step hr').2 (by
          have := (h.inv.len r hr').2
          omega)⟩
        rw [hr] at this
        simp at this
  obtain ⟨r, hr'⟩ := List.exists_mem_of_ne_nil _ hne
  exact key _ r hr' le_rfl

/-- the direct insertion at the end, used by `add_root` and `add_child` -/
theorem append_spec (hok : cfg.Ok) {db : DB} (h : Inv cfg db.rows) {P : List Nat} {m d : Nat} (h1 : 1 ≤ m)
    (hm : m < cfg.cap) (hP : IsPar db.rows P)
    (hlt : ∀ r ∈ db.rows, pp cfg.steplen r.path = P → r.path < P ++ stp cfg m)
    {new : Row} (hfresh : ∀ r ∈ db.rows, r.pk ≠ new.pk) (hnew : new.numchild = 0)
    (hd : d * cfg.steplen = P.length + cfg.steplen) {db1 : DB} {g : Row → Row} (hdb1 : db1.rows = db.rows.map g)
    (hg : OnlyNum g) (hgn : ∀ r ∈ db.rows, (g r).numchild = r.numchild + (if r.path = P then 1 else 0)) :
    ∃ db', save db1 { new with path := P ++ stp cfg m, depth := d } = .ok db' ∧
      Added cfg db db' { new with path := P ++ stp cfg m, depth := d } new (at? db.rows P) .last := by
  have hno : ∀ r ∈ db.rows, r.path ≠ P ++ stp cfg m := by
    intro r hr e
    have := hlt r hr (by rw [e, pp_step hok _ hm])
    rw [e] at this
    exact plt_irrefl _ this
  obtain ⟨db', e1, e2, _, hinv', hF, hdata⟩ := insert_spec hok h h1 hm hP hno
    (x := { new with path := P ++ stp cfg m, depth := d }) hfresh rfl hd hnew (s := .last) (by
      intro r hr hp
      rw [pp_step hok _ hm] at hp
      exact hlt r hr hp) hdb1 hg hgn
  refine ⟨db', e1, hinv', hF, hdata, rfl, by rw [e2]; simp, ?_⟩
  intro t ht _
  refine ⟨g t, ?_, hg.pk t, hg.path t⟩
  rw [e2, hdb1]
  exact List.mem_append_left _ (List.mem_map_of_mem ht)

theorem path_ne_nil (hok : cfg.Ok) (h : PInv cfg rows) {r : Row} (hr : r ∈ rows) : r.path ≠ [] := by
  intro e
  have := (h.inv.len r hr).2
  rw [e] at this
  have := hok.step
  simp at *
  omega

/-- `add_root` without `node_order_by` -/
theorem addRoot_unsorted (hok : cfg.Ok) {db : DB} (h : Inv cfg db.rows) (ho : cfg.ordered = false)
    {new : Row} (hfresh : ∀ r ∈ db.rows, r.pk ≠ new.pk) (hnew : new.numchild = 0) :
    (∃ db' obj, addRoot cfg db new = .ok (db', obj) ∧ Added cfg db db' obj new none .last) ∨
    (addRoot cfg db new = .error .pathOverflow ∧ LastUsed cfg db.rows []) := by
  have hcap := cap_gt_one hok
  have hnil := at?_nil h.toPInv hok
  unfold addRoot
  cases hl : lastRootNode db with
  | none =>
    left
    have hempty := no_roots hok h.toPInv hl
    simp only [getPath_root_one hok]
    obtain ⟨db', e, hadd⟩ := append_spec hok h (P := []) (m := 1) (d := 1) le_rfl hcap (Or.inl rfl)
      (by rw [hempty]; simp) hfresh hnew (by simp) (db1 := db) (g := fun r => r) (by simp) OnlyNum.id
      (by rw [hempty]; simp)
    rw [hnil] at hadd
    exact ⟨db', _, by simp only [e], hadd⟩
  | some last =>
    simp only [ho, Bool.false_eq_true, if_false]
    obtain ⟨h1, h2, h3, _⟩ := lastRoot_spec hok h.toPInv hl
    obtain ⟨last', e3, _, _, hmax⟩ := lastSibling_spec hok h.toPInv h1
    rw [h3, Option.some.injEq] at e3
    subst e3
    rw [h2] at hmax
    obtain ⟨n, hn1, hn, hle⟩ := h.sib_pos h1 h2
    rw [hle]
    by_cases hc : n + 1 < cfg.cap
    · left
      rw [incPath_eq hok _ hc]
      obtain ⟨db', e, hadd⟩ := append_spec hok h (P := []) (m := n + 1) (d := 1) (by omega) hc (Or.inl rfl)
        (by
          intro r hr hp
          have h5 : last.path < [] ++ stp cfg (n + 1) := by
            rw [hle, plt_append_left, stp_lt_iff hok hn hc]; omega
          by_cases he : r = last
          · rw [he]; exact h5
          · exact plt_trans (hmax r hr hp he) h5) hfresh hnew (by simp) (db1 := db) (g := fun r => r) (by simp)
          OnlyNum.id (by
            intro r hr
            rw [if_neg (path_ne_nil hok h.toPInv hr)]; simp)
      rw [hnil] at hadd
      exact ⟨db', _, by simp only [e], hadd⟩
    · right
      rw [incPath_overflow hok _ hn (by omega)]
      refine ⟨rfl, last, h1, ?_⟩
      rw [hle, show n = cfg.cap - 1 by omega]

/-- `add_root` with `node_order_by` -/
theorem addRoot_sorted (hok : cfg.Ok) {db : DB} (h : Inv cfg db.rows) (ho : cfg.ordered = true)
    {new : Row} (hfresh : ∀ r ∈ db.rows, r.pk ≠ new.pk) (hnew : new.numchild = 0)
    (hv : NonNull cfg.orderBy new.vals) (hs : SortedSibs cfg db.rows [] (fun _ => True)) :
    (∃ db' obj s, addRoot cfg db new = .ok (db', obj) ∧
      SortedSlot cfg db.rows [] (fun _ => True) new.vals s ∧ Added cfg db db' obj new none s) ∨
    (addRoot cfg db new = .error .pathOverflow ∧ LastUsed cfg db.rows []) := by
  have hcap := cap_gt_one hok
  have hnil := at?_nil h.toPInv hok
  unfold addRoot
  cases hl : lastRootNode db with
  | none =>
    left
    have hempty := no_roots hok h.toPInv hl
    simp only [getPath_root_one hok]
    obtain ⟨db', e, hadd⟩ := append_spec hok h (P := []) (m := 1) (d := 1) le_rfl hcap (Or.inl rfl)
      (by rw [hempty]; simp) hfresh hnew (by simp) (db1 := db) (g := fun r => r) (by simp) OnlyNum.id
      (by rw [hempty]; simp)
    rw [hnil] at hadd
    exact ⟨db', _, .last, by simp only [e], by intro r hr; rw [hempty] at hr; simp at hr, hadd⟩
  | some last =>
    simp only [ho, if_true]
    obtain ⟨h1, h2, _, _⟩ := lastRoot_spec hok h.toPInv hl
    have := addSibling_sorted hok h h1 ho (posArg := some .sortedSibling) (by simp [ho]; decide) hfresh hnew hv
      (by rw [h2]; exact hs)
    have hp : par cfg db.rows last = none := by
      rw [← hnil]; exact (par_eq_at h.toPInv hok h1 (Or.inl rfl)).2 h2
    rw [h2, hp] at this
    exact this

/-! ### add_child -/

/-- what the code checks with `path.max_length` -/
def TooDeep (cfg : Cfg) (p : List Nat) : Prop := cfg.maxLen < p.length + cfg.steplen

theorem lastChild_none (hok : cfg.Ok) {db : DB} (h : Inv cfg db.rows) {t : Row} (ht : t ∈ db.rows)
    (hleaf : t.isLeaf = false) : ∃ last, lastChild cfg db t = some last ∧ last ∈ db.rows ∧
      pp cfg.steplen last.path = t.path ∧
      ∀ r ∈ db.rows, pp cfg.steplen r.path = t.path → r ≠ last → r.path < last.path := by
  have hne : children cfg db t ≠ [] := by
    intro e
    have h0 := h.num t ht
    have : PF cfg db.rows (some t.pk) = [] := by
      by_contra hne
      obtain ⟨y, hy⟩ := List.exists_mem_of_ne_nil _ hne
      obtain ⟨r, hr, hrp, _⟩ := (mem_pforest h.inv).1 hy
      have := (mem_children h hok ht).2 ⟨hr, (par_eq_some_iff h.inv ht).1 hrp⟩
      rw [e] at this
      simp at this
    rw [this] at h0
    simp [Row.isLeaf, h0] at hleaf
  obtain ⟨last, hl⟩ := List.getLast?_isSome.2 hne |> Option.isSome_iff_exists.1
  obtain ⟨h1, h2⟩ := getLast?_max (children_sorted h.toPInv t) hl
  have h3 := (mem_children h hok ht).1 h1
  exact ⟨last, hl, h3.1, h3.2, fun r hr hp hne => h2 r ((mem_children h hok ht).2 ⟨hr, hp⟩) hne⟩

theorem leaf_no_child (h : Inv cfg rows) {t : Row} (ht : t ∈ rows) (hleaf : t.isLeaf = true) {r : Row}
    (hr : r ∈ rows) : pp cfg.steplen r.path ≠ t.path := by
  intro e
  have h0 : t.numchild = 0 := by simpa [Row.isLeaf] using hleaf
  have h1 := h.num t ht
  rw [h0] at h1
  have h2 : PF cfg rows (some t.pk) = [] := List.length_eq_zero_iff.1 (by omega)
  have : r.pk ∈ PF cfg rows (some t.pk) := (mem_pforest h.inv).2 ⟨r, hr, (par_eq_some_iff h.inv ht).2 e, rfl⟩
  rw [h2] at this
  simp at this

theorem incNumchildPk_rows (h : PInv cfg db.rows) {t : Row} (ht : t ∈ db.rows) :
    ∃ g, (incNumchildPk db t.pk).rows = db.rows.map g ∧
    OnlyNum g ∧ ∀ r ∈ db.rows, (g r).numchild = r.numchild + (if r.path = t.path then 1 else 0) := by
  refine ⟨fun r => if r.pk == t.pk then { r with numchild := r.numchild + 1 } else r, rfl,
    ⟨?_, ?_, ?_, ?_⟩, ?_⟩
  case refine_5 =>
    intro r hr
    by_cases he : r.pk = t.pk
    · have := h.inv.pk_inj hr ht he
      subst this
      simp
    · have : r.path ≠ t.path := fun e => he (by rw [h.inv.path_inj hr ht e])
      simp [he, this]
  all_goals intro r; by_cases h : r.pk = t.pk <;> simp [h]

/-- `add_child` when the new node goes last: without `node_order_by` or below a leaf -/
theorem addChild_last (hok : cfg.Ok) {db : DB} (h : Inv cfg db.rows) {t : Row} (ht : t ∈ db.rows) {target : Row}
    (htk : target.pk = t.pk) (ho : cfg.ordered = false ∨ t.isLeaf = true)
    {new : Row} (hfresh : ∀ r ∈ db.rows, r.pk ≠ new.pk) (hnew : new.numchild = 0) :
    (∃ db' obj, addChild cfg db target new = .ok (db', obj, { target with numchild := t.numchild + 1 }) ∧
      Added cfg db db' obj new (some t.pk) .last) ∨
    (addChild cfg db target new = .error .pathOverflow ∧
      (LastUsed cfg db.rows t.path ∨ (t.isLeaf = true ∧ TooDeep cfg t.path))) := by
  have hcap := cap_gt_one hok
  have hget : db.get? target.pk = some t := (get?_eq_some h.inv).2 ⟨ht, htk.symm⟩
  have hat : at? db.rows t.path = some t.pk := at?_row h.toPInv ht
  have hd : (t.depth + 1) * cfg.steplen = t.path.length + cfg.steplen := by
    rw [h.depth t ht, Nat.add_mul, Nat.one_mul]
  have hP : IsPar db.rows t.path := Or.inr ⟨t, ht, rfl⟩
  obtain ⟨g, eg, og, ng⟩ := incNumchildPk_rows h.toPInv ht
  unfold addChild
  simp only [hget]
  rw [if_neg (by rintro ⟨h1, h2⟩; rcases ho with h3 | h3 <;> simp_all)]
  unfold newChildPath
  cases hleaf : t.isLeaf with
  | true =>
    simp only [if_true]
    have hgp : getPath cfg t.path ((t.depth : Int) + 1) 1 = .ok (t.path ++ stp cfg 1) := by
      have := getPath_eq hok t.path ((t.depth : Int) + 1) hcap
      rw [show ((t.depth : Int) + 1 - 1) = (t.depth : Int) by omega, basepath_nat, ← h.depth t ht,
        List.take_length] at this
      simpa using this
    simp only [hgp]
    by_cases hdeep : cfg.maxLen < t.path.length + cfg.steplen
    · right
      rw [if_pos (by rw [step_len hok _ hcap]; exact hdeep)]
      exact ⟨rfl, Or.inr ⟨trivial, hdeep⟩⟩
    · left
      rw [if_neg (by rw [step_len hok _ hcap]; exact hdeep)]
      obtain ⟨db', e, hadd⟩ := append_spec hok h (m := 1) (d := t.depth + 1) le_rfl hcap hP
        (by intro r hr hp; exact absurd hp (leaf_no_child h ht hleaf hr)) hfresh hnew hd eg og ng
      rw [hat] at hadd
      exact ⟨db', _, by simp only [e], hadd⟩
  | false =>
    simp only [Bool.false_eq_true, if_false]
    obtain ⟨last, el, hlm, hlp, hmax⟩ := lastChild_none hok h ht hleaf
    obtain ⟨n, hn1, hn, hle⟩ := h.sib_pos hlm hlp
    simp only [el, hle]
    by_cases hc : n + 1 < cfg.cap
    · left
      rw [incPath_eq hok _ hc]
      obtain ⟨db', e, hadd⟩ := append_spec hok h (m := n + 1) (d := t.depth + 1) (by omega) hc hP
        (by
          intro r hr hp
          have h5 : last.path < t.path ++ stp cfg (n + 1) := by
            rw [hle, plt_append_left, stp_lt_iff hok hn hc]; omega
          by_cases he : r = last
          · rw [he]; exact h5
          · exact plt_trans (hmax r hr hp he) h5) hfresh hnew hd eg og ng
      rw [hat] at hadd
      exact ⟨db', _, by simp only [e], hadd⟩
    · right
      rw [incPath_overflow hok _ hn (by omega)]
      refine ⟨rfl, Or.inl ⟨last, hlm, ?_⟩⟩
      rw [hle, show n = cfg.cap - 1 by omega]

/-- `add_child` with `node_order_by` -/
theorem addChild_sorted (hok : cfg.Ok) {db : DB} (h : Inv cfg db.rows) {t : Row} (ht : t ∈ db.rows) {target : Row}
    (htk : target.pk = t.pk) (ho : cfg.ordered = true)
    {new : Row} (hfresh : ∀ r ∈ db.rows, r.pk ≠ new.pk) (hnew : new.numchild = 0)
    (hv : NonNull cfg.orderBy new.vals) (hs : SortedSibs cfg db.rows t.path (fun _ => True)) :
    (∃ db' obj target' s, addChild cfg db target new = .ok (db', obj, target') ∧
      SortedSlot cfg db.rows t.path (fun _ => True) new.vals s ∧ Added cfg db db' obj new (some t.pk) s) ∨
    (addChild cfg db target new = .error .pathOverflow ∧
      (LastUsed cfg db.rows t.path ∨ (t.isLeaf = true ∧ TooDeep cfg t.path))) := by
  by_cases hleaf : t.isLeaf = true
  · rcases addChild_last hok h ht htk (Or.inr hleaf) hfresh hnew with ⟨db', obj, e, hadd⟩ | he
    · left
      refine ⟨db', obj, _, .last, e, ?_, hadd⟩
      intro r hr hp
      exact absurd hp (leaf_no_child h ht hleaf hr)
    · exact Or.inr he
  · have hleaf : t.isLeaf = false := by simpa using hleaf
    have hget : db.get? target.pk = some t := (get?_eq_some h.inv).2 ⟨ht, htk.symm⟩
    obtain ⟨last, el, hlm, hlp, hmax⟩ := lastChild_none hok h ht hleaf
    unfold addChild
    simp only [hget]
    rw [if_pos ⟨ho, hleaf⟩]
    simp only [el]
    have := addSibling_sorted hok h hlm ho (posArg := some .sortedSibling) (by simp [ho]; decide) hfresh hnew hv
      (by rw [hlp]; exact hs)
    have hp : par cfg db.rows last = some t.pk := (par_eq_some_iff h.inv ht).2 hlp
    rw [hlp, hp] at this
    rcases this with ⟨db', obj, s, e, h1, h2⟩ | ⟨e, hu⟩
    · left
      exact ⟨db', obj, { target with numchild := target.numchild + 1 }, s, by simp only [e], h1, h2⟩
    · right
      exact ⟨by simp only [e], Or.inl hu⟩

end MP
end Verif
