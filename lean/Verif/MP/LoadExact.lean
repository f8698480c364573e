/-
MP: exactly which rows `load_bulk` and `load_bulk(bulk_create=True)` store.
-/
import Verif.MP.LoadForest

namespace Verif.MP

set_option linter.unusedSectionVars false

variable {cfg : Cfg}

/-- the rows of the structure below the path `P` (depth `d`), the first item at position `m` -/
def layout (cfg : Cfg) (P : List Nat) (d : Nat) : Nat → Nest (Nat × Vals) → List Row
  | _, .nil => []
  | m, .cons a c r => ⟨a.1, P ++ stp cfg m, d + 1, (c.tops.length : Int), a.2⟩ :: (layout cfg (P ++ stp cfg m) (d + 1) 1 c ++ layout cfg P d (m + 1) r)

/-- the same, the first level only -/
def layTops (cfg : Cfg) (P : List Nat) (d : Nat) : Nat → Nest (Nat × Vals) → List Row
  | _, .nil => []
  | m, .cons a c r => ⟨a.1, P ++ stp cfg m, d + 1, (c.tops.length : Int), a.2⟩ :: layTops cfg P d (m + 1) r

/-- the same, the deeper levels -/
def layRest (cfg : Cfg) (P : List Nat) (d : Nat) : Nat → Nest (Nat × Vals) → List Row
  | _, .nil => []
  | m, .cons _ c r => layout cfg (P ++ stp cfg m) (d + 1) 1 c ++ layRest cfg P d (m + 1) r

/-- there is room for the structure -/
def Room (cfg : Cfg) (d : Nat) : Nat → Nest (Nat × Vals) → Prop
  | _, .nil => True
  | m, .cons _ c r => m < cfg.cap ∧ (d = 0 ∨ 2 ≤ m ∨ (d + 1) * cfg.steplen ≤ cfg.maxLen) ∧ Room cfg (d + 1) 1 c ∧ Room cfg d (m + 1) r

/-- every item is, in the order of the tree, not before the siblings given before it -/
def Rising (ob : List (Nat × Bool)) : List Vals → Nest (Nat × Vals) → Prop
  | _, .nil => True
  | prev, .cons a c r => NonNull ob a.2 ∧ (∀ u ∈ prev, ¬ keyLt ob a.2 u) ∧ Rising ob [] c ∧ Rising ob (prev ++ [a.2]) r

theorem layout_pks (P : List Nat) (d m : Nat) (n : Nest (Nat × Vals)) : (layout cfg P d m n).map Row.pk = n.labels.map Prod.fst := by
  induction n generalizing P d m with
  | nil => rfl
  | cons a c r ihc ihr => simp [layout, Nest.labels, ihc, ihr]

theorem layout_pp (hok : cfg.Ok) {P : List Nat} {d m : Nat} {n : Nest (Nat × Vals)} (hr : Room cfg d m n) :
    ∀ r ∈ layout cfg P d m n, P <+: pp cfg.steplen r.path := by
  induction n generalizing P d m with
  | nil => simp [layout]
  | cons a c r ihc ihr =>
    intro x hx
    obtain ⟨h1, _, h3, h4⟩ := hr
    simp only [layout, List.mem_cons, List.mem_append] at hx
    rcases hx with rfl | hx | hx
    · simp only [pp_step hok P h1]; exact List.prefix_refl _
    · exact (List.prefix_append _ _).trans (ihc h3 x hx)
    · exact ihr h4 x hx

theorem layout_perm (P : List Nat) (d m : Nat) (n : Nest (Nat × Vals)) : (layTops cfg P d m n ++ layRest cfg P d m n).Perm (layout cfg P d m n) := by
  induction n generalizing m with
  | nil => exact List.Perm.refl _
  | cons a c r _ ihr =>
    simp only [layTops, layRest, layout, List.cons_append]
    refine List.Perm.cons _ ?_
    rw [← List.append_assoc]
    refine (List.Perm.append_right _ List.perm_append_comm).trans ?_
    rw [List.append_assoc]
    exact List.Perm.append_left _ (ihr _)

/-- a row without its primary key -/
def strip (r : Row) : List Nat × Nat × Int × Vals := (r.path, r.depth, r.numchild, r.vals)

theorem tops_length_map (f : α → β) (n : Nest α) : (n.map f).tops.length = n.tops.length := by rw [Nest.tops_map, List.length_map]

theorem layout_strip {P : List Nat} {d m : Nat} {a b : Nest (Nat × Vals)} (h : a.map Prod.snd = b.map Prod.snd) :
    (layout cfg P d m a).map strip = (layout cfg P d m b).map strip := by
  induction a generalizing P d m b with
  | nil => cases b with
    | nil => rfl
    | cons => simp [Nest.map] at h
  | cons x c r ihc ihr =>
    cases b with
    | nil => simp [Nest.map] at h
    | cons y c' r' =>
      simp only [Nest.map, Nest.cons.injEq] at h
      obtain ⟨h1, h2, h3⟩ := h
      have hl : c.tops.length = c'.tops.length := by rw [← tops_length_map Prod.snd c, h2, tops_length_map]
      simp only [layout, List.map_cons, List.map_append, ihc h2, ihr h3]
      simp [strip, h1, hl]

theorem Room.congr {d m : Nat} {a b : Nest (Nat × Vals)} (h : a.map Prod.snd = b.map Prod.snd) (hr : Room cfg d m a) : Room cfg d m b := by
  induction a generalizing d m b with
  | nil => cases b with
    | nil => trivial
    | cons => simp [Nest.map] at h
  | cons x c r ihc ihr =>
    cases b with
    | nil => simp [Nest.map] at h
    | cons y c' r' =>
      simp only [Nest.map, Nest.cons.injEq] at h
      exact ⟨hr.1, hr.2.1, ihc h.2.1 hr.2.2.1, ihr h.2.2 hr.2.2.2⟩

theorem Rising.congr {ob : List (Nat × Bool)} {prev : List Vals} {a b : Nest (Nat × Vals)} (h : a.map Prod.snd = b.map Prod.snd)
    (hr : Rising ob prev a) : Rising ob prev b := by
  induction a generalizing prev b with
  | nil => cases b with
    | nil => trivial
    | cons => simp [Nest.map] at h
  | cons x c r ihc ihr =>
    cases b with
    | nil => simp [Nest.map] at h
    | cons y c' r' =>
      simp only [Nest.map, Nest.cons.injEq] at h
      have h1 : x.2 = y.2 := h.1
      exact ⟨h1 ▸ hr.1, h1 ▸ hr.2.1, ihc h.2.1 hr.2.2.1, by rw [← h1]; exact ihr h.2.2 hr.2.2.2⟩

/-! ### When there is no room -/

theorem addTo_full (hok : cfg.Ok) {db : DB} (hi : PInv cfg db.rows) {h : Option Row} {P : List Nat} {d : Nat} {new : Row}
    (hp : ParentAt db.rows h P d (decide (cfg.cap = 1))) (hn : Next cfg db.rows P cfg.cap)
    (hg : cfg.ordered = true → GoesLast cfg db.rows P new.vals) : addTo cfg db h new = .error .pathOverflow := by
  have hcap := cap_gt_one hok
  have hsib : ∀ last ∈ db.rows, pp cfg.steplen last.path = P → cfg.ordered = true →
      addSibling cfg db last (some .sortedSibling) new = .error .pathOverflow := by
    intro last hl hpl ho
    have hprep : preparePosForAddSibling cfg.ordered (some .sortedSibling) = .ok .sortedSibling := by rw [ho]; decide
    have hafter : sortedPosQueryset cfg.orderBy Row.vals (siblings cfg db last) new.vals = [] :=
      hg ho _ (fun r hr => by rw [mem_siblings hi hok hl, hpl] at hr; exact hr)
    obtain ⟨z, ez, hz, hzp, hzmax⟩ := lastSibling_spec hok hi hl
    rw [hpl] at hzp hzmax
    obtain ⟨hm2, hze⟩ := hn.max hok le_rfl hz hzp hzmax
    have hinc : incPath cfg z.path = .error .pathOverflow := by
      rw [hze, incPath_overflow hok P (n := cfg.cap - 1) (by omega) (by omega)]
    simp only [addSibling, hprep, if_true, sortedPos, hafter, List.head?_nil, reorder, ez, hinc, true_or]
  cases h with
  | none =>
    obtain ⟨rfl, rfl⟩ := hp
    simp only [addTo, addRoot]
    cases hl : lastRootNode db with
    | none =>
      have hempty := no_roots hok hi hl
      obtain ⟨r, hr, _⟩ := hn.last (by omega)
      rw [hempty] at hr; simp at hr
    | some last =>
      obtain ⟨h1, h2, h3, h4⟩ := lastRoot_spec hok hi hl
      simp only
      by_cases ho : cfg.ordered = true
      · rw [if_pos ho, hsib last h1 h2 ho]
      · rw [if_neg ho]
        obtain ⟨last', e3, _, _, hmax⟩ := lastSibling_spec hok hi h1
        rw [h3, Option.some.injEq] at e3
        subst e3
        rw [h2] at hmax
        obtain ⟨hm2, hze⟩ := hn.max hok le_rfl h1 h2 hmax
        rw [hze, incPath_overflow hok _ (n := cfg.cap - 1) (by omega) (by omega)]
  | some p =>
    obtain ⟨t, ht, hk, rfl, rfl, hleaf⟩ := hp
    have hget : db.get? p.pk = some t := (get?_eq_some hi.inv).2 ⟨ht, hk.symm⟩
    simp only [addTo, addChild, hget]
    rw [show decide (cfg.cap = 1) = false by simp; omega] at hleaf
    have hch : ∀ r, r ∈ children cfg db t ↔ r ∈ db.rows ∧ pp cfg.steplen r.path = t.path := by
      intro r
      unfold children orderByPath
      rw [if_neg (by simp [hleaf]), mem_sortBy, List.mem_filter]
      exact and_congr_right (fun hr => mem_childFilter hi hok ht hr)
    obtain ⟨q, hq, eq⟩ := hn.last (by omega)
    have hne : children cfg db t ≠ [] := by
      intro e
      have := (hch q).2 ⟨hq, by rw [eq, pp_step hok _ (by omega)]⟩
      rw [e] at this; simp at this
    obtain ⟨last, hl⟩ := List.getLast?_isSome.2 hne |> Option.isSome_iff_exists.1
    obtain ⟨h1, h2⟩ := getLast?_max (children_sorted hi t) hl
    obtain ⟨h3, h4⟩ := (hch last).1 h1
    have hmax : ∀ r ∈ db.rows, pp cfg.steplen r.path = t.path → r ≠ last → r.path < last.path :=
      fun r hr hp hne => h2 r ((hch r).2 ⟨hr, hp⟩) hne
    obtain ⟨_, hze⟩ := hn.max hok le_rfl h3 h4 hmax
    by_cases ho : cfg.ordered = true
    · rw [if_pos ⟨ho, hleaf⟩]
      simp only [lastChild, hl, hsib last h3 h4 ho]
      rfl
    · rw [if_neg (by simp [ho])]
      simp only [newChildPath, hleaf, Bool.false_eq_true, if_false, lastChild, hl]
      rw [hze, incPath_overflow hok _ (n := cfg.cap - 1) (by omega) (by omega)]
      rfl

theorem addTo_deep (hok : cfg.Ok) {db : DB} (hi : PInv cfg db.rows) {h : Option Row} {P : List Nat} {d : Nat} {new : Row}
    (hp : ParentAt db.rows h P d true) (hP : P ≠ []) (hlen : cfg.maxLen < P.length + cfg.steplen) : addTo cfg db h new = .error .pathOverflow := by
  cases h with
  | none => exact absurd hp.1 hP
  | some p =>
    obtain ⟨t, ht, hk, rfl, rfl, hleaf⟩ := hp
    have hget : db.get? p.pk = some t := (get?_eq_some hi.inv).2 ⟨ht, hk.symm⟩
    have hgp : getPath cfg t.path ((t.depth : Int) + 1) 1 = .ok (t.path ++ stp cfg 1) := by
      have := getPath_eq hok t.path ((t.depth : Int) + 1) (cap_gt_one hok)
      rw [show ((t.depth : Int) + 1 - 1) = (t.depth : Int) by omega, basepath_nat, ← hi.depth t ht, List.take_length] at this
      simpa using this
    have hle : cfg.maxLen < (t.path ++ stp cfg 1).length := by
      rw [step_len hok _ (cap_gt_one hok)]; exact hlen
    simp only [addTo, addChild, hget]
    rw [if_neg (by simp [hleaf])]
    simp only [newChildPath, hleaf, if_true, hgp, if_pos hle]
    rfl

/-! ### Node by node -/

/-- the place where the next node is added -/
structure Spot (cfg : Cfg) (db : DB) (h : Option Row) (P : List Nat) (d m : Nat) : Prop where
  inv : PInv cfg db.rows
  par : ParentAt db.rows h P d (decide (m = 1))
  next : Next cfg db.rows P m
  le : m ≤ cfg.cap
  num : ∀ t ∈ db.rows, t.path = P → 0 ≤ t.numchild

/-- the table after one more node -/
def after (cfg : Cfg) (db : DB) (P : List Nat) (d m : Nat) (new : Row) : DB :=
  { db with rows := db.rows.map (grow P 1) ++ [placed new (P ++ stp cfg m) (d + 1)] }

theorem Spot.nil_iff (hok : cfg.Ok) {db : DB} {h : Option Row} {P : List Nat} {d m : Nat} (s : Spot cfg db h P d m) : P = [] ↔ d = 0 := by
  have h1 := s.par.depth s.inv
  have h2 := hok.step
  rw [← List.length_eq_zero_iff, h1, Nat.mul_eq_zero]
  omega

theorem Spot.add (hok : cfg.Ok) {db : DB} {h : Option Row} {P : List Nat} {d m : Nat} (s : Spot cfg db h P d m) {new : Row}
    (hfresh : ∀ r ∈ db.rows, r.pk ≠ new.pk) (hg : cfg.ordered = true → GoesLast cfg db.rows P new.vals)
    (hm : m < cfg.cap) (hd : d = 0 ∨ 2 ≤ m ∨ (d + 1) * cfg.steplen ≤ cfg.maxLen) :
    addTo cfg db h new = .ok (after cfg db P d m new, placed new (P ++ stp cfg m) (d + 1)) := by
  refine addTo_exact hok s.inv s.par s.next hm hfresh ?_ hg
  rw [s.nil_iff hok, s.par.depth s.inv]
  rw [Nat.add_mul, Nat.one_mul] at hd
  exact hd

theorem Spot.room (hok : cfg.Ok) {db : DB} {h : Option Row} {P : List Nat} {d m : Nat} (s : Spot cfg db h P d m) {new : Row} {res : DB × Row}
    (e : addTo cfg db h new = .ok res) (hg : cfg.ordered = true → GoesLast cfg db.rows P new.vals) :
    m < cfg.cap ∧ (d = 0 ∨ 2 ≤ m ∨ (d + 1) * cfg.steplen ≤ cfg.maxLen) := by
  have hm : m < cfg.cap := by
    by_contra hc
    have : m = cfg.cap := by have := s.le; omega
    subst this
    rw [addTo_full hok s.inv s.par s.next hg] at e
    cases e
  refine ⟨hm, ?_⟩
  by_contra hc
  simp only [not_or] at hc
  have h1 := s.next.one
  have hm1 : m = 1 := by omega
  subst hm1
  rw [addTo_deep hok s.inv (by simpa using s.par) (by rw [Ne, s.nil_iff hok]; exact hc.1)
    (by rw [s.par.depth s.inv]; have := hc.2.2; rw [Nat.add_mul, Nat.one_mul] at this; omega)] at e
  cases e

theorem Spot.stays (hok : cfg.Ok) {db : DB} {h : Option Row} {P : List Nat} {d m : Nat} (s : Spot cfg db h P d m) {new : Row}
    (hfresh : ∀ r ∈ db.rows, r.pk ≠ new.pk) (hm : m < cfg.cap) : Spot cfg (after cfg db P d m new) h P d (m + 1) := by
  have hg := grow_onlyNum P 1
  have hd : (d + 1) * cfg.steplen = P.length + cfg.steplen := by rw [s.par.depth s.inv, Nat.add_mul, Nat.one_mul]
  refine ⟨?_, ?_, ?_, by omega, ?_⟩
  · refine PInv.insert hok (hg.pinv s.inv) (hg.isPar s.par.isPar) s.next.one hm ?_ ?_ rfl hd
    · intro r hr
      obtain ⟨q, hq, rfl⟩ := List.mem_map.1 hr
      rw [hg.path]; exact s.next.free hok hm q hq
    · intro r hr
      obtain ⟨q, hq, rfl⟩ := List.mem_map.1 hr
      rw [hg.pk]; exact hfresh q hq
  · cases h with
    | none => exact s.par
    | some p =>
      obtain ⟨t, ht, hk, hp, hdt, _⟩ := s.par
      refine ⟨grow P 1 t, List.mem_append_left _ (List.mem_map_of_mem ht), by rw [hg.pk, hk], by rw [hg.path, hp], by rw [hg.depth, hdt], ?_⟩
      have h0 := s.num t ht hp
      have hm0 := s.next.one
      unfold grow Row.isLeaf
      rw [if_pos hp]
      simp only [show decide (m + 1 = 1) = false by simp; omega, beq_eq_false_iff_ne]
      show t.numchild + 1 ≠ 0
      omega
  · exact (s.next.onlyNum hg).succ rfl
  · intro t ht hp
    rcases List.mem_append.1 ht with ht | ht
    · obtain ⟨q, hq, rfl⟩ := List.mem_map.1 ht
      rw [hg.path] at hp
      have := s.num q hq hp
      unfold grow
      rw [if_pos hp]
      show 0 ≤ q.numchild + 1
      omega
    · simp only [List.mem_singleton] at ht; subst ht
      have := congrArg List.length hp
      simp only [placed, step_len hok P hm] at this
      have := hok.step
      omega

theorem Spot.new (hok : cfg.Ok) {db : DB} {h : Option Row} {P : List Nat} {d m : Nat} (s : Spot cfg db h P d m) {new : Row}
    (hfresh : ∀ r ∈ db.rows, r.pk ≠ new.pk) (hm : m < cfg.cap) (h0 : new.numchild = 0) :
    Spot cfg (after cfg db P d m new) (some (placed new (P ++ stp cfg m) (d + 1))) (P ++ stp cfg m) (d + 1) 1 := by
  have hg := grow_onlyNum P 1
  have hfree : ∀ r ∈ db.rows.map (grow P 1), r.path ≠ P ++ stp cfg m := by
    intro r hr
    obtain ⟨q, hq, rfl⟩ := List.mem_map.1 hr
    rw [hg.path]; exact s.next.free hok hm q hq
  refine ⟨(s.stays hok hfresh hm).inv, ?_, ?_, by have := cap_gt_one hok; omega, ?_⟩
  · exact ⟨_, List.mem_append_right _ (List.mem_singleton.2 rfl), rfl, rfl, rfl, by simp [placed, Row.isLeaf, h0]⟩
  · exact Next.new hok (hg.pinv s.inv) (hg.isPar s.par.isPar) hm hfree rfl
  · intro t ht hp
    rcases List.mem_append.1 ht with ht | ht
    · exact absurd hp (hfree t ht)
    · simp only [List.mem_singleton] at ht; subst ht
      simp [placed, h0]

theorem Spot.full (hok : cfg.Ok) {db : DB} {h : Option Row} {P : List Nat} {d m : Nat} (s : Spot cfg db h P d m) {new : Row}
    (hfresh : ∀ r ∈ db.rows, r.pk ≠ new.pk) (hm : m < cfg.cap) (h0 : new.numchild = 0) (hi : Inv cfg db.rows) :
    Inv cfg (after cfg db P d m new).rows := by
  have hd : (d + 1) * cfg.steplen = P.length + cfg.steplen := by rw [s.par.depth s.inv, Nat.add_mul, Nat.one_mul]
  have hg := grow_onlyNum P 1
  obtain ⟨db', hsave, hA⟩ := append_spec hok hi s.next.one hm s.par.isPar (s.next.lt hok hm) (new := new) hfresh h0 hd
    (db1 := { db with rows := db.rows.map (grow P 1) }) rfl hg (by
      intro r _
      unfold grow
      split <;> simp)
  have hsave' := save_grown hok hi.toPInv (d := d + 1) s.next hm (new := new) hfresh
  rw [show placed new (P ++ stp cfg m) (d + 1) = { new with path := P ++ stp cfg m, depth := d + 1 } from rfl, hsave] at hsave'
  have hdb' := Except.ok.inj hsave'
  have := hA.inv
  rw [hdb'] at this
  exact this

/-- a table with the structure below a node elsewhere -/
theorem Spot.deeper {db db' : DB} {h : Option Row} {P Q : List Nat} {d m k : Nat} {l : List Row} (s : Spot cfg db h P d m)
    (hrows : db'.rows = db.rows.map (grow Q k) ++ l) (hi : PInv cfg db'.rows) (hQ : P.length < Q.length) (hl : ∀ r ∈ l, Q <+: pp cfg.steplen r.path) :
    Spot cfg db' h P d m := by
  have hg := grow_onlyNum Q k
  have hne : ∀ r ∈ l, r.path ≠ P := by
    intro r hr e
    have := ((hl r hr).trans (pp_prefix _)).length_le
    rw [e] at this
    omega
  refine ⟨hi, ?_, ?_, s.le, ?_⟩
  · cases h with
    | none => exact s.par
    | some p =>
      obtain ⟨t, ht, hk, hp, hd, hleaf⟩ := s.par
      refine ⟨t, ?_, hk, hp, hd, hleaf⟩
      rw [hrows, List.mem_append]
      left
      rw [List.mem_map]
      refine ⟨t, ht, grow_other ?_⟩
      rw [hp]; intro e; rw [e] at hQ; omega
  · rw [hrows]
    refine (s.next.onlyNum hg).append ?_
    intro r hr e
    have := (hl r hr).length_le
    rw [e] at this
    omega
  · intro t ht hp
    rw [hrows] at ht
    rcases List.mem_append.1 ht with ht | ht
    · obtain ⟨q, hq, rfl⟩ := List.mem_map.1 ht
      rw [hg.path] at hp
      rw [grow_other (by rw [hp]; intro e; rw [e] at hQ; omega)]
      exact s.num q hq hp
    · exact absurd hp (hne t ht)

theorem goesLast_of {rows : List Row} {P : List Nat} {v : Vals} {prev : List Vals} (ho : cfg.ordered = true)
    (hprev : ∀ r ∈ rows, pp cfg.steplen r.path = P → r.vals ∈ prev) (hn : NonNull cfg.orderBy v) (hv : ∀ u ∈ prev, ¬ keyLt cfg.orderBy v u) :
    GoesLast cfg rows P v := by
  intro l hl
  rw [List.eq_nil_iff_forall_not_mem]
  intro r hr
  have hob : cfg.orderBy ≠ [] := by
    intro e; unfold Cfg.ordered at ho; simp [e] at ho
  rw [mem_sortedPos hob hn] at hr
  obtain ⟨h1, h2⟩ := hl r hr.1
  exact hv _ (hprev r h1 h2) hr.2

/-- the rows after loading -/
def loaded (cfg : Cfg) (db : DB) (P : List Nat) (d m : Nat) (n : Nest (Nat × Vals)) : DB :=
  { db with rows := db.rows.map (grow P n.tops.length) ++ layout cfg P d m n }

/-- The load succeeds if and only if there is room, and stores exactly the rows of the structure. -/
theorem load_exact (hok : cfg.Ok) {n : Nest (Nat × Vals)} : ∀ {db : DB} {h : Option Row} {P : List Nat} {d m : Nat} {prev : List Vals},
    Spot cfg db h P d m → (n.labels.map Prod.fst).Nodup → (∀ k ∈ n.labels.map Prod.fst, ∀ r ∈ db.rows, r.pk ≠ k) →
    (cfg.ordered = true → Rising cfg.orderBy prev n ∧ ∀ r ∈ db.rows, pp cfg.steplen r.path = P → r.vals ∈ prev) →
    (Room cfg d m n ∨ ∃ res, loadNest (fun db p a => addTo cfg db p (fresh a)) Row.pk db h n = .ok res) →
    Room cfg d m n ∧ loadNest (fun db p a => addTo cfg db p (fresh a)) Row.pk db h n = .ok (loaded cfg db P d m n, n.labels.map Prod.fst) ∧
      Spot cfg (loaded cfg db P d m n) h P d (m + n.tops.length) ∧ (Inv cfg db.rows → Inv cfg (loaded cfg db P d m n).rows) := by
  induction n with
  | nil =>
    intro db h P d m prev s _ _ _ _
    have hid : loaded cfg db P d m .nil = db := by
      unfold loaded
      simp only [layout, List.append_nil, Nest.tops, List.length_nil, Nat.cast_zero]
      rw [List.map_congr_left (g := id) (fun r _ => grow_zero P r), List.map_id]
    rw [hid]
    exact ⟨trivial, rfl, s, id⟩
  | cons a c r ihc ihr =>
    intro db h P d m prev s hnd hfresh hord e
    simp only [Nest.labels, List.map_cons, List.map_append, List.nodup_cons, List.nodup_append, List.mem_append, not_or, List.mem_cons] at hnd hfresh
    obtain ⟨⟨hac, har⟩, hndc, hndr, hdis⟩ := hnd
    have hfa : ∀ q ∈ db.rows, q.pk ≠ (fresh a).pk := hfresh a.1 (Or.inl rfl)
    have hgl : cfg.ordered = true → GoesLast cfg db.rows P (fresh a).vals := fun ho =>
      goesLast_of ho (hord ho).2 (hord ho).1.1 (hord ho).1.2.1
    obtain ⟨hm, hd⟩ : m < cfg.cap ∧ (d = 0 ∨ 2 ≤ m ∨ (d + 1) * cfg.steplen ≤ cfg.maxLen) := by
      rcases e with e | ⟨res, e⟩
      · exact ⟨e.1, e.2.1⟩
      · simp only [loadNest] at e
        cases e1 : addTo cfg db h (fresh a) with
        | error err => rw [e1] at e; simp at e
        | ok res1 => exact s.room hok e1 hgl
    have e1 := s.add hok hfa hgl hm hd
    simp only [loadNest, e1] at e ⊢
    have s1 := s.stays hok hfa hm
    have s2 := s.new hok hfa hm rfl
    have hfull := s.full hok hfa hm rfl
    generalize hdb1 : after cfg db P d m (fresh a) = db1 at e s1 s2 hfull ⊢
    generalize hobj : placed (fresh a) (P ++ stp cfg m) (d + 1) = obj at e s2 ⊢
    have hrows1 : db1.rows = db.rows.map (grow P 1) ++ [obj] := by rw [← hdb1, ← hobj]; rfl
    have hg := grow_onlyNum P 1
    have hpk1 : ∀ q ∈ db1.rows, q.pk = a.1 ∨ ∃ q' ∈ db.rows, q.pk = q'.pk := by
      intro q hq
      rw [hrows1, List.mem_append, List.mem_singleton] at hq
      rcases hq with hq | rfl
      · obtain ⟨q', hq', rfl⟩ := List.mem_map.1 hq
        exact Or.inr ⟨q', hq', hg.pk q'⟩
      · exact Or.inl (by rw [← hobj]; rfl)
    have hPP : P.length < (P ++ stp cfg m).length := by rw [step_len hok P hm]; have := hok.step; omega
    obtain ⟨hrc, e2, s2', hfull2⟩ := ihc (prev := []) s2 hndc
      (by
        intro k hk q hq e
        rcases hpk1 q hq with h | ⟨q', hq', h⟩
        · exact hac (by rw [← h, e]; exact hk)
        · exact hfresh k (Or.inr (Or.inl hk)) q' hq' (by rw [← h, e]))
      (fun ho => ⟨(hord ho).1.2.2.1, fun q hq hp => by
        obtain ⟨j, h1, h2, _⟩ := s2.next.before q hq hp
        omega⟩)
      (by
        rcases e with e | ⟨res, e⟩
        · exact Or.inl e.2.2.1
        · right
          cases e2 : loadNest (fun db p a => addTo cfg db p (fresh a)) Row.pk db1 (some obj) c with
          | error err => rw [e2] at e; simp at e
          | ok res2 => exact ⟨res2, rfl⟩)
    simp only [e2] at e ⊢
    have hpp2 : ∀ q ∈ layout cfg (P ++ stp cfg m) (d + 1) 1 c, (P ++ stp cfg m) <+: pp cfg.steplen q.path := layout_pp hok hrc
    have s3 := s1.deeper (db' := loaded cfg db1 (P ++ stp cfg m) (d + 1) 1 c) rfl s2'.inv hPP hpp2
    generalize hdb2 : loaded cfg db1 (P ++ stp cfg m) (d + 1) 1 c = db2 at e s3 hfull2 ⊢
    have hrows2 : db2.rows = db1.rows.map (grow (P ++ stp cfg m) c.tops.length) ++ layout cfg (P ++ stp cfg m) (d + 1) 1 c := by rw [← hdb2]; rfl
    have hg2 := grow_onlyNum (P ++ stp cfg m) c.tops.length
    obtain ⟨hrr, e3, s4, hfull3⟩ := ihr (prev := prev ++ [a.2]) s3 hndr
      (by
        intro k hk q hq e
        rw [hrows2, List.mem_append] at hq
        rcases hq with hq | hq
        · obtain ⟨q', hq', rfl⟩ := List.mem_map.1 hq
          rw [hg2.pk] at e
          rcases hpk1 q' hq' with h | ⟨q'', hq'', h⟩
          · exact har (by rw [← h, e]; exact hk)
          · exact hfresh k (Or.inr (Or.inr hk)) q'' hq'' (by rw [← h, e])
        · have : q.pk ∈ (layout cfg (P ++ stp cfg m) (d + 1) 1 c).map Row.pk := List.mem_map_of_mem hq
          rw [layout_pks] at this
          exact hdis _ this _ hk e)
      (fun ho => ⟨(hord ho).1.2.2.2, fun q hq hp => by
        rw [hrows2, List.mem_append] at hq
        rcases hq with hq | hq
        · obtain ⟨q', hq', rfl⟩ := List.mem_map.1 hq
          rw [hg2.path] at hp
          rw [hg2.vals]
          rw [hrows1, List.mem_append, List.mem_singleton] at hq'
          rcases hq' with hq' | rfl
          · obtain ⟨q'', hq'', rfl⟩ := List.mem_map.1 hq'
            rw [hg.path] at hp
            rw [hg.vals]
            exact List.mem_append_left _ ((hord ho).2 q'' hq'' hp)
          · rw [← hobj]; simp [placed, fresh]
        · have := (hpp2 q hq).length_le
          rw [hp] at this
          omega⟩)
      (by
        rcases e with e | ⟨res, e⟩
        · exact Or.inl e.2.2.2
        · right
          cases e3 : loadNest (fun db p a => addTo cfg db p (fresh a)) Row.pk db2 h r with
          | error err => rw [e3] at e; simp at e
          | ok res3 => exact ⟨res3, rfl⟩)
    simp only [e3]
    -- the rows
    have hsig : db2.sigs = db.sigs := by rw [← hdb2, ← hdb1]; rfl
    have hrows : db2.rows.map (grow P r.tops.length) ++ layout cfg P d (m + 1) r =
        db.rows.map (grow P (r.tops.length + 1 : Nat)) ++ layout cfg P d m (.cons a c r) := by
      rw [hrows2, hrows1]
      simp only [List.map_append, List.map_map, layout, List.append_assoc, List.map_cons, List.map_nil, List.cons_append, List.nil_append]
      have ea : db.rows.map (grow P ↑r.tops.length ∘ (grow (P ++ stp cfg m) ↑c.tops.length ∘ grow P 1)) =
          db.rows.map (grow P ((r.tops.length + 1 : Nat) : Int)) := by
        refine List.map_congr_left (fun q hq => ?_)
        simp only [Function.comp_apply]
        rw [grow_other (P := P ++ stp cfg m) (by rw [hg.path]; exact s.next.free hok hm q hq), grow_grow]
        congr 1
        push_cast
        omega
      have eb : grow P ↑r.tops.length (grow (P ++ stp cfg m) ↑c.tops.length obj) = ⟨a.1, P ++ stp cfg m, d + 1, (c.tops.length : Int), a.2⟩ := by
        rw [← hobj]
        have hne : P ++ stp cfg m ≠ P := fun e => by rw [e] at hPP; omega
        have h1 : grow (P ++ stp cfg m) c.tops.length (placed (fresh a) (P ++ stp cfg m) (d + 1)) = ⟨a.1, P ++ stp cfg m, d + 1, (c.tops.length : Int), a.2⟩ := by
          unfold grow
          rw [if_pos (by rfl)]
          simp [placed, fresh]
        rw [h1, grow_other hne]
      have ec : (layout cfg (P ++ stp cfg m) (d + 1) 1 c).map (grow P r.tops.length) = layout cfg (P ++ stp cfg m) (d + 1) 1 c := by
        conv_rhs => rw [← List.map_id (layout cfg (P ++ stp cfg m) (d + 1) 1 c)]
        refine List.map_congr_left (fun q hq => grow_other ?_)
        intro e
        have := ((hpp2 q hq).trans (pp_prefix _)).length_le
        rw [e] at this
        omega
      rw [ea, eb, ec]
    have hlast : loaded cfg db2 P d (m + 1) r = loaded cfg db P d m (.cons a c r) := by
      unfold loaded
      rw [hrows]
      simp only [Nest.tops, List.length_cons]
      cases db2; cases db
      cases hsig
      rfl
    rw [hlast] at s4 hfull3 ⊢
    refine ⟨⟨hm, hd, hrc, hrr⟩, by rw [← hobj]; simp [Nest.labels, placed, fresh], ?_, fun hi => hfull3 (hfull2 (hfull hi))⟩
    simp only [Nest.tops, List.length_cons]
    rw [show m + (r.tops.length + 1) = m + 1 + r.tops.length by omega]
    exact s4

end Verif.MP
