/-
MP: adding at the end, exactly; what `load_bulk` and `load_bulk(bulk_create=True)` store.
-/
import Verif.MP.Add
import Verif.MP.DumpModel
import Verif.DumpForest

namespace Verif.MP

set_option linter.unusedSectionVars false

variable {cfg : Cfg}

/-- the row at the path `P` has `k` more children -/
def grow (P : List Nat) (k : Int) (r : Row) : Row := if r.path = P then { r with numchild := r.numchild + k } else r

theorem grow_onlyNum (P : List Nat) (k : Int) : OnlyNum (grow P k) := by
  constructor <;> intro r <;> unfold grow <;> split <;> rfl

theorem grow_zero (P : List Nat) (r : Row) : grow P 0 r = r := by
  unfold grow; split <;> simp

theorem grow_grow (P : List Nat) (j k : Int) (r : Row) : grow P k (grow P j r) = grow P (j + k) r := by
  unfold grow
  by_cases h : r.path = P <;> simp [h, Int.add_assoc]

theorem grow_other {P : List Nat} {k : Int} {r : Row} (h : r.path ≠ P) : grow P k r = r := by simp [grow, h]

/-- The children of `P` end at position `m - 1`. -/
structure Next (cfg : Cfg) (rows : List Row) (P : List Nat) (m : Nat) : Prop where
  one : 1 ≤ m
  before : ∀ r ∈ rows, pp cfg.steplen r.path = P → ∃ j, 1 ≤ j ∧ j < m ∧ r.path = P ++ stp cfg j
  last : 2 ≤ m → ∃ r ∈ rows, r.path = P ++ stp cfg (m - 1)

/-- The object (or None) passed as parent stands for the parent at the path `P`. -/
def ParentAt (rows : List Row) (h : Option Row) (P : List Nat) (d : Nat) (leaf : Bool) : Prop :=
  match h with
  | none => P = [] ∧ d = 0
  | some p => ∃ t ∈ rows, p.pk = t.pk ∧ t.path = P ∧ t.depth = d ∧ t.isLeaf = leaf

theorem ParentAt.isPar {rows : List Row} {h : Option Row} {P : List Nat} {d : Nat} {leaf : Bool} (hp : ParentAt rows h P d leaf) : IsPar rows P := by
  cases h with
  | none => exact Or.inl hp.1
  | some p => obtain ⟨t, ht, _, e, _⟩ := hp; exact Or.inr ⟨t, ht, e⟩

theorem ParentAt.depth {rows : List Row} {h : Option Row} {P : List Nat} {d : Nat} {leaf : Bool} (hp : ParentAt rows h P d leaf)
    (hi : PInv cfg rows) : P.length = d * cfg.steplen := by
  cases h with
  | none => obtain ⟨rfl, rfl⟩ := hp; simp
  | some p => obtain ⟨t, ht, _, rfl, rfl, _⟩ := hp; exact hi.depth t ht

/-- all rows below `P` come before the position `m` -/
theorem Next.lt (hok : cfg.Ok) {rows : List Row} {P : List Nat} {m : Nat} (h : Next cfg rows P m) (hm : m < cfg.cap) :
    ∀ r ∈ rows, pp cfg.steplen r.path = P → r.path < P ++ stp cfg m := by
  intro r hr hp
  obtain ⟨j, _, h2, e⟩ := h.before r hr hp
  rw [e, plt_append_left, stp_lt_iff hok (by omega) hm]
  omega

theorem Next.free (hok : cfg.Ok) {rows : List Row} {P : List Nat} {m : Nat} (h : Next cfg rows P m) (hm : m < cfg.cap) :
    ∀ r ∈ rows, r.path ≠ P ++ stp cfg m := by
  intro r hr e
  have := h.lt hok hm r hr (by rw [e, pp_step hok _ hm])
  rw [e] at this
  exact plt_irrefl _ this

/-- the last child of `P` -/
theorem Next.max (hok : cfg.Ok) {rows : List Row} {P : List Nat} {m : Nat} (h : Next cfg rows P m) (hm : m ≤ cfg.cap)
    {last : Row} (hl : last ∈ rows) (hp : pp cfg.steplen last.path = P)
    (hmax : ∀ r ∈ rows, pp cfg.steplen r.path = P → r ≠ last → r.path < last.path) : 2 ≤ m ∧ last.path = P ++ stp cfg (m - 1) := by
  obtain ⟨j, h1, h2, e⟩ := h.before last hl hp
  have hm2 : 2 ≤ m := by omega
  refine ⟨hm2, ?_⟩
  obtain ⟨r, hr, er⟩ := h.last hm2
  by_cases he : r = last
  · rw [← he]; exact er
  · have := hmax r hr (by rw [er, pp_step hok _ (by omega)]) he
    rw [er, e, plt_append_left, stp_lt_iff hok (by omega) (by omega)] at this
    omega

theorem save_new {db : DB} {x : Row} (hu : (db.rows.map Row.path).Nodup) (hfresh : ∀ r ∈ db.rows, r.pk ≠ x.pk) (hno : ∀ r ∈ db.rows, r.path ≠ x.path) :
    save db x = .ok { db with rows := db.rows ++ [x] } := by
  unfold save
  have h1 : db.rows.any (fun r => r.pk == x.pk) = false := by
    rw [List.any_eq_false]; intro r hr; simpa using hfresh r hr
  simp only [h1, Bool.false_eq_true, if_false]
  rw [if_pos]
  unfold uniquePaths
  rw [decide_eq_true_eq, List.map_append, List.nodup_append]
  refine ⟨hu, by simp, ?_⟩
  intro a ha b hb
  obtain ⟨r, hr, rfl⟩ := List.mem_map.1 ha
  simp only [List.map_cons, List.map_nil, List.mem_singleton] at hb
  rw [hb]
  exact hno r hr

/-- the row that is stored -/
def placed (new : Row) (p : List Nat) (d : Nat) : Row := { new with path := p, depth := d }

/-- The siblings with greater values (the sorted position), among the children of `P`, are none. -/
def GoesLast (cfg : Cfg) (rows : List Row) (P : List Nat) (v : Vals) : Prop :=
  ∀ l : List Row, (∀ r ∈ l, r ∈ rows ∧ pp cfg.steplen r.path = P) → sortedPosQueryset cfg.orderBy Row.vals l v = []

theorem save_grown (hok : cfg.Ok) {db : DB} (hi : PInv cfg db.rows) {P : List Nat} {m d : Nat} {new : Row} (hn : Next cfg db.rows P m)
    (hm : m < cfg.cap) (hfresh : ∀ r ∈ db.rows, r.pk ≠ new.pk) :
    save { db with rows := db.rows.map (grow P 1) } (placed new (P ++ stp cfg m) d) =
      .ok { db with rows := db.rows.map (grow P 1) ++ [placed new (P ++ stp cfg m) d] } := by
  have hg := grow_onlyNum P 1
  refine save_new (hg.pinv hi).inv.pathNodup ?_ ?_
  · intro r hr
    obtain ⟨q, hq, rfl⟩ := List.mem_map.1 hr
    rw [hg.pk]; exact hfresh q hq
  · intro r hr
    obtain ⟨q, hq, rfl⟩ := List.mem_map.1 hr
    rw [hg.path]; exact hn.free hok hm q hq

theorem grow_nil (hok : cfg.Ok) {rows : List Row} (hi : PInv cfg rows) (k : Int) : rows.map (grow [] k) = rows := by
  conv_rhs => rw [← List.map_id rows]
  exact List.map_congr_left (fun r hr => grow_other (path_ne_nil hok hi hr))

/-- `add_sibling(last, "sorted-sibling")` when the new node goes last -/
theorem addSibling_end (hok : cfg.Ok) (ho : cfg.ordered = true) {db : DB} (hi : PInv cfg db.rows) {P : List Nat} {m : Nat} {new last : Row}
    (hn : Next cfg db.rows P m) (hm : m < cfg.cap) (hfresh : ∀ r ∈ db.rows, r.pk ≠ new.pk) (hg : GoesLast cfg db.rows P new.vals)
    (hl : last ∈ db.rows) (hp : pp cfg.steplen last.path = P) :
    addSibling cfg db last (some .sortedSibling) new =
      .ok ({ db with rows := db.rows.map (grow P 1) ++ [placed new (P ++ stp cfg m) last.depth] }, placed new (P ++ stp cfg m) last.depth) := by
  have hprep : preparePosForAddSibling cfg.ordered (some .sortedSibling) = .ok .sortedSibling := by rw [ho]; decide
  have hafter : sortedPosQueryset cfg.orderBy Row.vals (siblings cfg db last) new.vals = [] :=
    hg _ (fun r hr => by rw [mem_siblings hi hok hl, hp] at hr; exact hr)
  obtain ⟨z, ez, hz, hzp, hzmax⟩ := lastSibling_spec hok hi hl
  rw [hp] at hzp hzmax
  obtain ⟨hm2, hze⟩ := hn.max hok (by omega) hz hzp hzmax
  have hinc : incPath cfg z.path = .ok (P ++ stp cfg m) := by
    rw [hze, incPath_eq hok P (n := m - 1) (by omega), Nat.sub_add_cancel (by omega)]
  have hd1 := hi.depth_pos hok hl
  have hlen : (P ++ stp cfg m).length = last.depth * cfg.steplen := by
    rw [step_len hok P hm, ← hi.depth last hl, ← hp, pp_length]
    have := (hi.inv.len last hl).2
    omega
  have hbase : basepath cfg (P ++ stp cfg m) ((last.depth : Int) - 1) = P := by
    rw [basepath_parent hd1 hlen, pp_step hok P hm]
  simp only [addSibling, hprep, if_true, sortedPos, hafter, List.head?_nil, reorder, ez, hinc, true_or, finishAddSibling, hbase]
  have hdb : (if P ≠ [] then addNumchild db P 1 else db) = { db with rows := db.rows.map (grow P 1) } := by
    by_cases hP : P = []
    · rw [if_neg (by simp [hP]), hP, grow_nil hok hi]
    · rw [if_pos hP]
      unfold addNumchild
      congr 1
      refine List.map_congr_left (fun r _ => ?_)
      by_cases h : r.path = P <;> simp [grow, h]
  rw [hdb]
  have := save_grown hok hi (d := last.depth) hn hm hfresh (new := new)
  unfold placed at this ⊢
  rw [this]

theorem incNumchildPk_grow {db : DB} (hi : PInv cfg db.rows) {t : Row} (ht : t ∈ db.rows) :
    incNumchildPk db t.pk = { db with rows := db.rows.map (grow t.path 1) } := by
  unfold incNumchildPk
  congr 1
  refine List.map_congr_left (fun r hr => ?_)
  by_cases h : r.pk = t.pk
  · have := hi.inv.pk_inj hr ht h
    subst this
    simp [grow]
  · have : r.path ≠ t.path := fun e => h (by rw [hi.inv.path_inj hr ht e])
    simp [grow, h, this]

/-- Adding at the end of the children of `P`: exactly one new row, with the next path, and one child more for the parent. -/
theorem addTo_exact (hok : cfg.Ok) {db : DB} (hi : PInv cfg db.rows) {h : Option Row} {P : List Nat} {d m : Nat} {new : Row}
    (hp : ParentAt db.rows h P d (decide (m = 1))) (hn : Next cfg db.rows P m) (hm : m < cfg.cap)
    (hfresh : ∀ r ∈ db.rows, r.pk ≠ new.pk) (hlen : P = [] ∨ 2 ≤ m ∨ P.length + cfg.steplen ≤ cfg.maxLen)
    (hg : cfg.ordered = true → GoesLast cfg db.rows P new.vals) :
    addTo cfg db h new =
      .ok ({ db with rows := db.rows.map (grow P 1) ++ [placed new (P ++ stp cfg m) (d + 1)] }, placed new (P ++ stp cfg m) (d + 1)) := by
  have hsave := save_grown hok hi (d := d + 1) hn hm hfresh
  cases h with
  | none =>
    obtain ⟨rfl, rfl⟩ := hp
    rw [grow_nil hok hi] at hsave ⊢
    simp only [addTo, addRoot]
    cases hl : lastRootNode db with
    | none =>
      have hempty := no_roots hok hi hl
      have hm1 : m = 1 := by
        by_contra hc
        obtain ⟨r, hr, _⟩ := hn.last (by have := hn.one; omega)
        rw [hempty] at hr; simp at hr
      subst hm1
      simp only [getPath_root_one hok]
      unfold placed at hsave ⊢
      rw [hsave]
    | some last =>
      obtain ⟨h1, h2, h3, h4⟩ := lastRoot_spec hok hi hl
      simp only
      by_cases ho : cfg.ordered = true
      · rw [if_pos ho, addSibling_end hok ho hi hn hm hfresh (hg ho) h1 h2, grow_nil hok hi, h4]
      · rw [if_neg ho]
        obtain ⟨last', e3, _, _, hmax⟩ := lastSibling_spec hok hi h1
        rw [h3, Option.some.injEq] at e3
        subst e3
        rw [h2] at hmax
        obtain ⟨hm2, hze⟩ := hn.max hok (by omega) h1 h2 hmax
        rw [hze, incPath_eq hok _ (n := m - 1) (by omega), Nat.sub_add_cancel (by omega)]
        unfold placed at hsave ⊢
        simp only [hsave]
  | some p =>
    obtain ⟨t, ht, hk, rfl, rfl, hleaf⟩ := hp
    have hget : db.get? p.pk = some t := (get?_eq_some hi.inv).2 ⟨ht, hk.symm⟩
    simp only [addTo, addChild, hget]
    by_cases hm1 : m = 1
    · -- below a leaf
      subst hm1
      simp only [decide_true] at hleaf
      rw [if_neg (by simp [hleaf])]
      have hgp : getPath cfg t.path ((t.depth : Int) + 1) 1 = .ok (t.path ++ stp cfg 1) := by
        have := getPath_eq hok t.path ((t.depth : Int) + 1) (cap_gt_one hok)
        rw [show ((t.depth : Int) + 1 - 1) = (t.depth : Int) by omega, basepath_nat, ← hi.depth t ht, List.take_length] at this
        simpa using this
      have hle : ¬ cfg.maxLen < (t.path ++ stp cfg 1).length := by
        rw [step_len hok _ hm]
        rcases hlen with e | h | h
        · exact absurd e (path_ne_nil hok hi ht)
        · omega
        · omega
      simp only [newChildPath, hleaf, if_true, hgp, if_neg hle, incNumchildPk_grow hi ht]
      unfold placed at hsave ⊢
      rw [hsave]
      rfl
    · have hm2 : 2 ≤ m := by have := hn.one; omega
      simp only [hm1, decide_false] at hleaf
      -- the last child
      have hch : ∀ r, r ∈ children cfg db t ↔ r ∈ db.rows ∧ pp cfg.steplen r.path = t.path := by
        intro r
        unfold children orderByPath
        rw [if_neg (by simp [hleaf]), mem_sortBy, List.mem_filter]
        exact and_congr_right (fun hr => mem_childFilter hi hok ht hr)
      obtain ⟨q, hq, eq⟩ := hn.last hm2
      have hne : children cfg db t ≠ [] := by
        intro e
        have := (hch q).2 ⟨hq, by rw [eq, pp_step hok _ (by omega)]⟩
        rw [e] at this; simp at this
      obtain ⟨last, hl⟩ := List.getLast?_isSome.2 hne |> Option.isSome_iff_exists.1
      obtain ⟨h1, h2⟩ := getLast?_max (children_sorted hi t) hl
      obtain ⟨h3, h4⟩ := (hch last).1 h1
      have hmax : ∀ r ∈ db.rows, pp cfg.steplen r.path = t.path → r ≠ last → r.path < last.path :=
        fun r hr hp hne => h2 r ((hch r).2 ⟨hr, hp⟩) hne
      obtain ⟨_, hze⟩ := hn.max hok (by omega) h3 h4 hmax
      have hld : last.depth = t.depth + 1 := by
        rw [depth_eq_iff hi hok h3, Nat.add_mul, Nat.one_mul, ← hi.depth t ht, hze, step_len hok _ (by omega)]
      by_cases ho : cfg.ordered = true
      · rw [if_pos ⟨ho, hleaf⟩]
        simp only [lastChild, hl, addSibling_end hok ho hi hn hm hfresh (hg ho) h3 h4, hld]
        rfl
      · rw [if_neg (by simp [ho])]
        simp only [newChildPath, hleaf, Bool.false_eq_true, if_false, lastChild, hl]
        rw [hze, incPath_eq hok _ (n := m - 1) (by omega), Nat.sub_add_cancel (by omega)]
        simp only [incNumchildPk_grow hi ht]
        unfold placed at hsave ⊢
        rw [hsave]
        rfl

/-! ### The invariants after one more node -/

section Insert

variable {rows : List Row} {P : List Nat} {m : Nat} {x : Row}

theorem PInv.insert (hok : cfg.Ok) (hi : PInv cfg rows) (hP : IsPar rows P) (h1 : 1 ≤ m) (hm : m < cfg.cap)
    (hno : ∀ r ∈ rows, r.path ≠ P ++ stp cfg m) (hfresh : ∀ r ∈ rows, r.pk ≠ x.pk) (hxp : x.path = P ++ stp cfg m)
    (hxd : x.depth * cfg.steplen = P.length + cfg.steplen) : PInv cfg (rows ++ [x]) := by
  have hlen : cfg.steplen ∣ x.path.length ∧ cfg.steplen ≤ x.path.length := by
    rw [hxp]
    exact ⟨step_dvd hok (hP.dvd hi) hm, by rw [step_len hok P hm]; omega⟩
  have hpar : x.path.length = cfg.steplen ∨ ∃ q ∈ rows, q.path = pp cfg.steplen x.path := by
    rw [hxp, pp_step hok P hm]
    rcases hP with rfl | hq
    · left; rw [step_len hok [] hm]; simp
    · exact Or.inr hq
  refine ⟨ins_inv hi.inv hfresh hlen (by rw [hxp]; exact hno) hpar, ?_, ?_, ?_⟩
  · intro r hr
    rcases List.mem_append.1 hr with hr | hr
    · exact hi.chars r hr
    · simp only [List.mem_singleton] at hr; subst hr
      rw [hxp]
      intro c hc
      rcases List.mem_append.1 hc with hc | hc
      · exact hP.chars hi c hc
      · exact stp_chars hok hm c hc
  · intro r hr
    rcases List.mem_append.1 hr with hr | hr
    · exact hi.depth r hr
    · simp only [List.mem_singleton] at hr; subst hr
      rw [hxp, step_len hok P hm, hxd]
  · intro r hr
    rcases List.mem_append.1 hr with hr | hr
    · exact hi.pos r hr
    · simp only [List.mem_singleton] at hr; subst hr
      exact ⟨m, h1, hm, by rw [hxp, pp_step hok P hm]⟩

theorem Next.onlyNum {g : Row → Row} (hg : OnlyNum g) (h : Next cfg rows P m) : Next cfg (rows.map g) P m := by
  refine ⟨h.one, ?_, ?_⟩
  · intro r hr hp
    obtain ⟨q, hq, rfl⟩ := List.mem_map.1 hr
    rw [hg.path] at hp ⊢
    exact h.before q hq hp
  · intro h2
    obtain ⟨q, hq, e⟩ := h.last h2
    exact ⟨g q, List.mem_map_of_mem hq, by rw [hg.path, e]⟩

/-- one more child of `P` -/
theorem Next.succ (h : Next cfg rows P m) (hxp : x.path = P ++ stp cfg m) : Next cfg (rows ++ [x]) P (m + 1) := by
  refine ⟨by omega, ?_, ?_⟩
  · intro r hr hp
    rcases List.mem_append.1 hr with hr | hr
    · obtain ⟨j, h1, h2, e⟩ := h.before r hr hp
      exact ⟨j, h1, by omega, e⟩
    · simp only [List.mem_singleton] at hr; subst hr
      exact ⟨m, h.one, by omega, hxp⟩
  · intro _
    exact ⟨x, by simp, by rw [hxp]; rfl⟩

/-- rows that are not children of `P` do not matter -/
theorem Next.append (h : Next cfg rows P m) {l : List Row} (hl : ∀ r ∈ l, pp cfg.steplen r.path ≠ P) : Next cfg (rows ++ l) P m := by
  refine ⟨h.one, ?_, ?_⟩
  · intro r hr hp
    rcases List.mem_append.1 hr with hr | hr
    · exact h.before r hr hp
    · exact absurd hp (hl r hr)
  · intro h2
    obtain ⟨q, hq, e⟩ := h.last h2
    exact ⟨q, by simp [hq], e⟩

/-- a new node has no children -/
theorem Next.new (hok : cfg.Ok) (hi : PInv cfg rows) (hP : IsPar rows P) (hm : m < cfg.cap)
    (hno : ∀ r ∈ rows, r.path ≠ P ++ stp cfg m) (hxp : x.path = P ++ stp cfg m) : Next cfg (rows ++ [x]) (P ++ stp cfg m) 1 := by
  have hvac := hi.vacant hok (step_dvd hok (hP.dvd hi) hm) (step_ne_nil hok P hm) hno
  refine ⟨le_rfl, ?_, by omega⟩
  intro r hr hp
  rcases List.mem_append.1 hr with hr | hr
  · exact absurd (hp ▸ pp_prefix r.path) (hvac r hr)
  · simp only [List.mem_singleton] at hr; subst hr
    have := congrArg List.length hp
    rw [hxp, pp_step hok P hm, step_len hok P hm] at this
    have := hok.step
    omega

/-- there is always a next position (possibly beyond the last) -/
theorem next_exists (hi : PInv cfg rows) (hok : cfg.Ok) (P : List Nat) : ∃ m, m ≤ cfg.cap ∧ Next cfg rows P m := by
  by_cases hne : ∃ r ∈ rows, pp cfg.steplen r.path = P
  · obtain ⟨r, hr, hp⟩ := hne
    have : ∃ last ∈ rows, pp cfg.steplen last.path = P ∧ ∀ q ∈ rows, pp cfg.steplen q.path = P → q ≠ last → q.path < last.path := by
      obtain ⟨l, _, hl, hlp, hmax⟩ := lastSibling_spec hok (db := ⟨rows, []⟩) hi hr
      exact ⟨l, hl, by rw [hlp, hp], fun q hq hqp hne => hmax q hq (by rw [hqp, hp]) hne⟩
    obtain ⟨last, hl, hlp, hmax⟩ := this
    obtain ⟨n, h1, h2, e⟩ := hi.sib_pos hl hlp
    refine ⟨n + 1, by omega, by omega, ?_, fun _ => ⟨last, hl, e⟩⟩
    intro q hq hqp
    obtain ⟨j, j1, j2, ej⟩ := hi.sib_pos hq hqp
    refine ⟨j, j1, ?_, ej⟩
    by_cases he : q = last
    · subst he
      have : P ++ stp cfg j = P ++ stp cfg n := by rw [← ej, ← e]
      have h3 := List.append_cancel_left this
      by_contra hc
      have h4 : stp cfg n < stp cfg j := (stp_lt_iff hok h2 j2).2 (by omega)
      rw [h3] at h4
      exact plt_irrefl _ h4
    · have := hmax q hq hqp he
      rw [ej, e, plt_append_left, stp_lt_iff hok j2 h2] at this
      omega
  · exact ⟨1, by have := cap_gt_one hok; omega, le_rfl, fun r hr hp => absurd ⟨r, hr, hp⟩ hne, by omega⟩

theorem Next.unique (hok : cfg.Ok) {m' : Nat} (h : Next cfg rows P m) (h' : Next cfg rows P m') (hm : m ≤ cfg.cap) (hm' : m' ≤ cfg.cap) : m = m' := by
  have key : ∀ {a b}, Next cfg rows P a → Next cfg rows P b → a ≤ cfg.cap → b ≤ cfg.cap → a ≤ b := by
    intro a b ha hb hac hbc
    by_contra hc
    have := hb.one
    obtain ⟨r, hr, e⟩ := ha.last (by omega)
    obtain ⟨j, _, h2, e2⟩ := hb.before r hr (by rw [e, pp_step hok _ (by omega)])
    have h3 := List.append_cancel_left (e.symm.trans e2)
    have h4 : stp cfg j < stp cfg (a - 1) := (stp_lt_iff hok (by omega) (by omega)).2 (by omega)
    rw [h3] at h4
    exact plt_irrefl _ h4
  exact Nat.le_antisymm (key h h' hm hm') (key h' h hm' hm)

end Insert

end Verif.MP
