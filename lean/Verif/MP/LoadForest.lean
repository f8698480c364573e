/-
MP: loading a structure attaches it to the forest.
-/
import Verif.MP.Load
import Verif.MP.Query
import Verif.MP.SortedTree

namespace Verif.MP

set_option linter.unusedSectionVars false

variable {cfg : Cfg}

/-- the unsaved object of an item -/
def fresh (a : Nat × Vals) : Row := ⟨a.1, [], 0, 0, a.2⟩

/-- The invariant during loading; `off` is the number of positions below a parent that are not used by its children (gaps). -/
structure Mid (cfg : Cfg) (off : Option Nat → Int) (V : Nat → Vals) (db : DB) : Prop where
  inv : Inv cfg db.rows
  next : ∀ P, IsPar db.rows P → ∃ m, Next cfg db.rows P m ∧ (m : Int) = off (at? db.rows P) + (PF cfg db.rows (at? db.rows P)).length + 1
  known : ∀ k, off (some k) ≠ 0 → k ∈ (data db.rows).map Prod.fst
  vals : ∀ r ∈ db.rows, V r.pk = r.vals

def Handle (db : DB) (h : Option Row) (p : Option Nat) : Prop :=
  match h with
  | none => p = none
  | some o => p = some o.pk ∧ ∃ t ∈ db.rows, t.pk = o.pk

/-- the path of the parent -/
theorem Handle.path (hok : cfg.Ok) {db : DB} (hi : PInv cfg db.rows) {h : Option Row} {p : Option Nat} (hh : Handle db h p) :
    ∃ P, IsPar db.rows P ∧ at? db.rows P = p ∧ ((h = none ∧ P = []) ∨ ∃ t ∈ db.rows, p = some t.pk ∧ t.path = P ∧ ∃ o, h = some o ∧ o.pk = t.pk) := by
  cases h with
  | none => exact ⟨[], Or.inl rfl, by rw [at?_nil hi hok, hh], Or.inl ⟨rfl, rfl⟩⟩
  | some o =>
    obtain ⟨rfl, t, ht, e⟩ := hh
    exact ⟨t.path, Or.inr ⟨t, ht, rfl⟩, by rw [at?_row hi ht, e], Or.inr ⟨t, ht, by rw [e], rfl, o, rfl, e.symm⟩⟩

theorem mem_data {rows : List Row} {k : Nat} : k ∈ (data rows).map Prod.fst ↔ ∃ r ∈ rows, r.pk = k := by
  unfold data
  simp [List.mem_map]

/-- the children count decides like the next position -/
theorem leaf_next (hok : cfg.Ok) {rows : List Row} (hi : Inv cfg rows) {t : Row} (ht : t ∈ rows) {m : Nat} (hn : Next cfg rows t.path m) (hm : m ≤ cfg.cap) :
    t.isLeaf = decide (m = 1) := by
  have hmem : ∀ y, y ∈ PF cfg rows (some t.pk) ↔ ∃ r ∈ rows, pp cfg.steplen r.path = t.path ∧ r.pk = y := by
    intro y
    rw [mem_PF hi.toPInv]
    refine exists_congr (fun r => and_congr_right (fun hr => and_congr_left (fun _ => ?_)))
    rw [← at?_row hi.toPInv ht]
    exact par_eq_at hi.toPInv hok hr (Or.inr ⟨t, ht, rfl⟩)
  have h0 := hi.num t ht
  unfold Row.isLeaf
  by_cases hm1 : m = 1
  · have : PF cfg rows (some t.pk) = [] := by
      rw [List.eq_nil_iff_forall_not_mem]
      intro y hy
      obtain ⟨r, hr, hp, _⟩ := (hmem y).1 hy
      obtain ⟨j, h1, h2, _⟩ := hn.before r hr hp
      omega
    rw [this] at h0
    simp [hm1, h0]
  · obtain ⟨r, hr, e⟩ := hn.last (by have := hn.one; omega)
    have : r.pk ∈ PF cfg rows (some t.pk) := (hmem _).2 ⟨r, hr, by rw [e, pp_step hok _ (by have := hn.one; omega)], rfl⟩
    have hpos := List.length_pos_of_mem this
    have : t.numchild ≠ 0 := by omega
    simp [hm1, this]

theorem loads (hok : cfg.Ok) {off : Option Nat → Int} {T : Forest} {V : Nat → Vals} {base : List Nat}
    (hroom : ∀ q, off q + (T q).length < cfg.cap)
    (hdeep : ∀ k l, k ∉ base → T.Level k l → l = 1 ∨ l * cfg.steplen ≤ cfg.maxLen)
    (hsort : cfg.ordered = true → T.SortedBy cfg.orderBy V ∧ ∀ k q, k ∉ base → k ∈ T q → NonNull cfg.orderBy (V k)) :
    Loads (fun db p a => addTo cfg db p (fresh a)) Row.pk (fun db => Mid cfg off V db ∧ ∀ k ∈ base, k ∈ (data db.rows).map Prod.fst)
      (fun db => PF cfg db.rows) (fun db => data db.rows) Handle T V := by
  constructor
  · intro s h k hh
    cases h with
    | none => exact absurd hh (by simp [Handle])
    | some o =>
      obtain ⟨e, t, ht, e'⟩ := hh
      exact mem_data.2 ⟨t, ht, by rw [e', ← Option.some.inj e]⟩
  · intro db h p k ⟨hi, hbase⟩ hh hk hpre hpk hempty
    obtain ⟨P, hP, hat, hcase⟩ := hh.path hok hi.inv.toPInv
    obtain ⟨m, hn, hm⟩ := hi.next P hP
    rw [hat] at hm
    have hlen : (PF cfg db.rows p).length + 1 ≤ (T p).length := by
      have := hpk.length_le
      simpa using this
    have hmc : m < cfg.cap := by have := hroom p; omega
    have hfresh : ∀ r ∈ db.rows, r.pk ≠ k := fun r hr e => hk (mem_data.2 ⟨r, hr, e⟩)
    have hkb : k ∉ base := fun h => hk (hbase k h)
    have hkT : k ∈ T p := hpk.subset (by simp)
    -- membership among the children of P
    have hmem : ∀ r ∈ db.rows, pp cfg.steplen r.path = P → r.pk ∈ PF cfg db.rows p := by
      intro r hr hp
      rw [mem_PF hi.inv.toPInv]
      exact ⟨r, hr, by rw [← hat]; exact (par_eq_at hi.inv.toPInv hok hr hP).2 hp, rfl⟩
    -- the sorted place is the last
    have hgoes : cfg.ordered = true → GoesLast cfg db.rows P (V k) := by
      intro ho l hl
      rw [List.eq_nil_iff_forall_not_mem]
      intro r hr
      have hob : cfg.orderBy ≠ [] := by
        intro e; unfold Cfg.ordered at ho; simp [e] at ho
      rw [mem_sortedPos hob ((hsort ho).2 k p hkb hkT)] at hr
      obtain ⟨h1, h2⟩ := hl r hr.1
      have h3 := hmem r h1 h2
      obtain ⟨rest, e⟩ := hpk
      have h4 := (hsort ho).1 p
      rw [← e, List.append_assoc, List.pairwise_append] at h4
      have := h4.2.2 r.pk h3 k (by simp)
      rw [hi.vals r h1] at this
      exact this hr.2
    -- depth
    have hpar : ∃ d, ParentAt db.rows h P d (decide (m = 1)) ∧ (P = [] ∨ 2 ≤ m ∨ P.length + cfg.steplen ≤ cfg.maxLen) := by
      rcases hcase with ⟨rfl, rfl⟩ | ⟨t, ht, hpt, rfl, o, rfl, ho⟩
      · exact ⟨0, ⟨rfl, rfl⟩, Or.inl rfl⟩
      · refine ⟨t.depth, ⟨t, ht, ho, rfl, rfl, leaf_next hok hi.inv ht hn (by omega)⟩, Or.inr (Or.inr ?_)⟩
        have hl : (PF cfg db.rows).Level t.pk t.depth := (level_PF hi.inv.toPInv hok ht).2 rfl
        have hlT : ∀ a l, (PF cfg db.rows).Level a l → T.Level a l := by
          intro a l hal
          induction hal with
          | root h => exact .root ((hpre none).subset h)
          | child _ h ih => exact .child ih ((hpre _).subset h)
        have := hdeep k (t.depth + 1) hkb (.child (hlT _ _ hl) (hpt ▸ hkT))
        have hd := hi.inv.depth_pos hok ht
        rw [hi.inv.depth t ht]
        rcases this with h | h
        · omega
        · rw [Nat.add_mul, Nat.one_mul] at h; exact h
    obtain ⟨d, hpa, hfit⟩ := hpar
    have hd : (d + 1) * cfg.steplen = P.length + cfg.steplen := by
      rw [hpa.depth hi.inv.toPInv, Nat.add_mul, Nat.one_mul]
    have hadd := addTo_exact hok hi.inv.toPInv (new := fresh (k, V k)) hpa hn hmc hfresh hfit hgoes
    have hfree := hn.free hok hmc
    have hg := grow_onlyNum P 1
    obtain ⟨db', hsave, hA⟩ := append_spec hok hi.inv hn.one hmc hP (hn.lt hok hmc) (new := fresh (k, V k)) hfresh rfl hd
      (db1 := { db with rows := db.rows.map (grow P 1) }) rfl hg (by
        intro r _
        unfold grow
        split <;> simp)
    have hsave' := save_grown hok hi.inv.toPInv (d := d + 1) hn hmc (new := fresh (k, V k)) hfresh
    rw [show placed (fresh (k, V k)) (P ++ stp cfg m) (d + 1) = { fresh (k, V k) with path := P ++ stp cfg m, depth := d + 1 } from rfl, hsave] at hsave'
    have hdb' := Except.ok.inj hsave'
    have hrows : db'.rows = db.rows.map (grow P 1) ++ [placed (fresh (k, V k)) (P ++ stp cfg m) (d + 1)] := by rw [hdb']; rfl
    rw [hat] at hA
    have hmemrows : ∀ r ∈ db.rows, ∃ r' ∈ db'.rows, r'.pk = r.pk ∧ r'.path = r.path := by
      intro r hr
      exact ⟨grow P 1 r, by rw [hrows]; exact List.mem_append_left _ (List.mem_map_of_mem hr), hg.pk r, hg.path r⟩
    have hat' : ∀ P', IsPar db.rows P' → at? db'.rows P' = at? db.rows P' := by
      intro P' hP'
      rcases hP' with rfl | ⟨q, hq, rfl⟩
      · rw [at?_nil hA.inv.toPInv hok, at?_nil hi.inv.toPInv hok]
      · obtain ⟨q', hq', e1, e2⟩ := hmemrows q hq
        rw [← e2, at?_row hA.inv.toPInv hq', e2, at?_row hi.inv.toPInv hq, e1]
    refine ⟨db', _, by rw [hadd, hdb']; rfl, ⟨⟨hA.inv, ?_, ?_, ?_⟩, ?_⟩, hA.forest, hA.data, rfl, ?_, ?_⟩
    · -- the next positions
      intro P' hP'
      have hx : (placed (fresh (k, V k)) (P ++ stp cfg m) (d + 1)).path = P ++ stp cfg m := rfl
      by_cases hold : IsPar db.rows P'
      · rw [hat' P' hold, hA.forest]
        by_cases hPP : P' = P
        · subst hPP
          refine ⟨m + 1, by rw [hrows]; exact (hn.onlyNum hg).succ hx, ?_⟩
          rw [hat]
          simp only [Forest.put, if_true, Slot.ins, List.length_append, List.length_singleton]
          push_cast
          omega
        · obtain ⟨m', hn', e'⟩ := hi.next P' hold
          refine ⟨m', ?_, ?_⟩
          · rw [hrows]
            refine (hn'.onlyNum hg).append ?_
            intro r hr
            simp only [List.mem_singleton] at hr; subst hr
            rw [hx, pp_step hok P hmc]
            exact Ne.symm hPP
          · have hne : at? db.rows P' ≠ p := by
              intro e
              apply hPP
              rcases hold with rfl | ⟨q, hq, rfl⟩
              · rw [at?_nil hi.inv.toPInv hok] at e
                rcases hP with rfl | ⟨q, hq, rfl⟩
                · rfl
                · rw [at?_row hi.inv.toPInv hq, ← e] at hat; cases hat
              · rw [at?_row hi.inv.toPInv hq] at e
                rcases hP with rfl | ⟨q', hq', rfl⟩
                · rw [at?_nil hi.inv.toPInv hok, ← e] at hat; cases hat
                · rw [at?_row hi.inv.toPInv hq', ← e] at hat
                  rw [hi.inv.inv.pk_inj hq' hq (Option.some.inj hat)]
            rw [Forest.put, if_neg hne]
            exact e'
      · -- the new node
        have hPx : P' = P ++ stp cfg m := by
          rcases hP' with rfl | ⟨q, hq, rfl⟩
          · exact absurd (Or.inl rfl) hold
          · rw [hrows] at hq
            rcases List.mem_append.1 hq with hq | hq
            · obtain ⟨q', hq', rfl⟩ := List.mem_map.1 hq
              exact absurd (Or.inr ⟨q', hq', (hg.path q').symm⟩) hold
            · simp only [List.mem_singleton] at hq; rw [hq]; rfl
        subst hPx
        have hatx : at? db'.rows (P ++ stp cfg m) = some k := at?_row hA.inv.toPInv hA.mem
        refine ⟨1, ?_, ?_⟩
        · rw [hrows]
          refine Next.new hok (hg.pinv hi.inv.toPInv) (hg.isPar hP) hmc ?_ rfl
          intro r hr
          obtain ⟨q, hq, rfl⟩ := List.mem_map.1 hr
          rw [hg.path]; exact hfree q hq
        · have h0 : off (some k) = 0 := by
            by_contra hc
            exact hk (hi.known k hc)
          rw [hatx, hA.forest, h0]
          have : p ≠ some k := by
            rintro rfl
            rcases hcase with ⟨rfl, _⟩ | ⟨t, ht, e, _⟩
            · simp [Handle] at hh
            · exact hfresh t ht (Option.some.inj e).symm
          rw [Forest.put, if_neg (Ne.symm this), hempty]
          simp
    · intro j hj
      rw [hA.data, List.map_append, List.mem_append]
      exact Or.inl (hi.known j hj)
    · intro r hr
      rw [hrows] at hr
      rcases List.mem_append.1 hr with hr | hr
      · obtain ⟨q, hq, rfl⟩ := List.mem_map.1 hr
        rw [hg.pk, hg.vals]; exact hi.vals q hq
      · simp only [List.mem_singleton] at hr; subst hr; rfl
    · intro j hj
      show j ∈ (data db'.rows).map Prod.fst
      rw [hA.data, List.map_append, List.mem_append]
      exact Or.inl (hbase j hj)
    · exact ⟨rfl, _, hA.mem, rfl⟩
    · intro h' p' hh'
      cases h' with
      | none => exact hh'
      | some o =>
        obtain ⟨e, t, ht, e'⟩ := hh'
        obtain ⟨t', ht', e1, _⟩ := hmemrows t ht
        exact ⟨e, t', ht', by rw [e1, e']⟩

theorem at?_inj (hok : cfg.Ok) {rows : List Row} (hi : PInv cfg rows) {P Q : List Nat} (hP : IsPar rows P) (hQ : IsPar rows Q)
    (e : at? rows P = at? rows Q) : P = Q := by
  rcases hP with rfl | ⟨q, hq, rfl⟩
  · rcases hQ with rfl | ⟨q, hq, rfl⟩
    · rfl
    · rw [at?_nil hi hok, at?_row hi hq] at e; cases e
  · rcases hQ with rfl | ⟨q', hq', rfl⟩
    · rw [at?_nil hi hok, at?_row hi hq] at e; cases e
    · rw [at?_row hi hq, at?_row hi hq'] at e
      rw [hi.inv.pk_inj hq hq' (Option.some.inj e)]

theorem offsets (hok : cfg.Ok) {rows : List Row} (hi : PInv cfg rows) : ∃ off : Option Nat → Int,
    (∀ P, IsPar rows P → ∃ m, m ≤ cfg.cap ∧ Next cfg rows P m ∧ (m : Int) = off (at? rows P) + (PF cfg rows (at? rows P)).length + 1) ∧
    ∀ q, (¬ ∃ P, IsPar rows P ∧ at? rows P = q) → off q = 0 := by
  have : ∀ q : Option Nat, ∃ z : Int,
      (∀ P, IsPar rows P → at? rows P = q → ∃ m, m ≤ cfg.cap ∧ Next cfg rows P m ∧ (m : Int) = z + (PF cfg rows q).length + 1) ∧
      ((¬ ∃ P, IsPar rows P ∧ at? rows P = q) → z = 0) := by
    intro q
    by_cases h : ∃ P, IsPar rows P ∧ at? rows P = q
    · obtain ⟨P, hP, e⟩ := h
      obtain ⟨m, hm, hn⟩ := next_exists hi hok P
      refine ⟨(m : Int) - (PF cfg rows q).length - 1, ?_, fun h => absurd ⟨P, hP, e⟩ h⟩
      intro Q hQ e'
      have := at?_inj hok hi hP hQ (by rw [e, e'])
      subst this
      exact ⟨m, hm, hn, by omega⟩
    · exact ⟨0, fun P hP e => absurd ⟨P, hP, e⟩ h, fun _ => rfl⟩
  choose off h1 h2 using this
  exact ⟨off, fun P hP => h1 _ P hP rfl, h2⟩

/-- fewer children than positions -/
theorem PF_length_lt (hok : cfg.Ok) {db : DB} (hi : PInv cfg db.rows) (p : Option Nat) : (PF cfg db.rows p).length < cfg.cap := by
  have hcap := cap_gt_one hok
  by_cases h : ∃ P, IsPar db.rows P ∧ at? db.rows P = p
  · obtain ⟨P, hP, rfl⟩ := h
    obtain ⟨l, e, s, m⟩ := sibs_list hi hok hP
    rw [e, List.length_map]
    have hnd : (l.map Row.path).Nodup := by
      rw [List.Nodup, List.pairwise_map]
      exact s.imp (fun h e => by rw [e] at h; exact plt_irrefl _ h)
    have hsub : l.map Row.path ⊆ (List.range (cfg.cap - 1)).map (fun j => P ++ stp cfg (j + 1)) := by
      intro x hx
      obtain ⟨r, hr, rfl⟩ := List.mem_map.1 hx
      obtain ⟨h1, h2⟩ := (m r).1 hr
      obtain ⟨j, j1, j2, ej⟩ := hi.sib_pos h1 h2
      rw [List.mem_map]
      exact ⟨j - 1, by rw [List.mem_range]; omega, by rw [ej, Nat.sub_add_cancel j1]⟩
    have := (List.subperm_of_subset hnd hsub).length_le
    simp only [List.length_map, List.length_range] at this
    omega
  · have : PF cfg db.rows p = [] := by
      rw [List.eq_nil_iff_forall_not_mem]
      intro y hy
      obtain ⟨r, hr, hp, _⟩ := (mem_PF hi).1 hy
      apply h
      cases p with
      | none => exact ⟨[], Or.inl rfl, at?_nil hi hok⟩
      | some k =>
        obtain ⟨q, hq, _, e⟩ := (parOf_eq_some hi.inv).1 hp
        exact ⟨q.path, Or.inr ⟨q, hq, rfl⟩, by rw [at?_row hi hq, e]⟩
    rw [this]; simp; omega

/-- There is room for `c` more children after the last child at `P`. -/
def RoomAfter (cfg : Cfg) (rows : List Row) (P : List Nat) (c : Nat) : Prop :=
  c < cfg.cap ∧ ∀ r ∈ rows, ∀ j, j < cfg.cap → r.path = P ++ stp cfg j → j + c < cfg.cap

theorem load_grafts (hok : cfg.Ok) {db : DB} (hi : Inv cfg db.rows) {h : Option Row} {p : Option Nat} (hh : Handle db h p) {P : List Nat}
    (hP : IsPar db.rows P) (hat : at? db.rows P = p) {n : Nest Nat}
    (hnd : n.labels.Nodup) (hfresh : ∀ k ∈ n.labels, ∀ r ∈ db.rows, r.pk ≠ k) {V : Nat → Vals} (hV : ∀ r ∈ db.rows, V r.pk = r.vals) {T : Forest}
    (hT : Grafted (PF cfg db.rows) T p n) (hroom : RoomAfter cfg db.rows P n.tops.length) (hwide : ∀ k ∈ n.labels, (T (some k)).length < cfg.cap)
    (hdeep : ∀ k ∈ n.labels, ∀ l, T.Level k l → l = 1 ∨ l * cfg.steplen ≤ cfg.maxLen)
    (hsort : cfg.ordered = true → T.SortedBy cfg.orderBy V ∧ ∀ k ∈ n.labels, NonNull cfg.orderBy (V k)) :
    ∃ db', load cfg db h (n.map (fun k => (k, V k))) = .ok (db', n.labels) ∧ Inv cfg db'.rows ∧ PF cfg db'.rows = T ∧
      data db'.rows = data db.rows ++ n.labels.map (fun k => (k, V k)) := by
  have hcap := cap_gt_one hok
  have hTeq := hT.eq hnd
  obtain ⟨off, hoff, hoff0⟩ := offsets hok hi.toPInv
  have hnp : ∀ k ∈ n.labels, p ≠ some k := by
    rintro k hk rfl
    cases h with
    | none => simp [Handle] at hh
    | some o =>
      obtain ⟨e, t, ht, e'⟩ := hh
      exact hfresh k hk t ht (by rw [e', ← Option.some.inj e])
  have hnot : ∀ k ∈ n.labels, ¬ ∃ Q, IsPar db.rows Q ∧ at? db.rows Q = some k := by
    rintro k hk ⟨Q, hQ, e⟩
    rcases hQ with rfl | ⟨q, hq, rfl⟩
    · rw [at?_nil hi.toPInv hok] at e; cases e
    · rw [at?_row hi.toPInv hq] at e
      exact hfresh k hk q hq (Option.some.inj e)
  have hrow : ∀ q k, k ∈ PF cfg db.rows q → k ∈ db.rows.map Row.pk := by
    intro q k hk
    obtain ⟨r, hr, _, rfl⟩ := (mem_PF hi.toPInv).1 hk
    exact List.mem_map_of_mem hr
  have hnew : ∀ q k, k ∉ db.rows.map Row.pk → k ∈ T q → k ∈ n.labels := by
    intro q k hk hkT
    -- a node of T is a node of the tree or of the structure
    by_cases hq : q = p
    · rw [hq, hT.tops, List.mem_append] at hkT
      rcases hkT with h | h
      · exact absurd (hrow _ _ h) hk
      · exact Nest.tops_sub h
    · by_cases hl : ∃ j ∈ n.labels, q = some j
      · obtain ⟨j, hj, rfl⟩ := hl
        exact hT.inside.kids_mem hj hkT
      · rw [hT.others q hq (fun j hj e => hl ⟨j, hj, e⟩)] at hkT
        exact absurd (hrow _ _ hkT) hk
  have L := loads (cfg := cfg) hok (off := off) (T := T) (V := V) (base := db.rows.map Row.pk)
    (by
      intro q
      by_cases hq : q = p
      · obtain ⟨m, hm, hn, e⟩ := hoff P hP
        rw [hat] at e
        rw [hq, hT.tops, List.length_append]
        have : m - 1 + n.tops.length < cfg.cap := by
          by_cases hm1 : m = 1
          · rw [hm1]; have := hroom.1; omega
          · have := hn.one
            obtain ⟨r, hr, er⟩ := hn.last (by omega)
            exact hroom.2 r hr (m - 1) (by omega) er
        have := hn.one
        push_cast
        omega
      · by_cases hl : ∃ j ∈ n.labels, q = some j
        · obtain ⟨j, hj, rfl⟩ := hl
          rw [hoff0 _ (hnot j hj)]
          have := hwide j hj
          omega
        · rw [hT.others q hq (fun j hj e => hl ⟨j, hj, e⟩)]
          by_cases he : ∃ Q, IsPar db.rows Q ∧ at? db.rows Q = q
          · obtain ⟨Q, hQ, rfl⟩ := he
            obtain ⟨m, hm, hn, e⟩ := hoff Q hQ
            omega
          · rw [hoff0 _ he]
            have := PF_length_lt hok hi.toPInv q
            omega)
    (by
      intro k l hk hl
      have : k ∈ n.labels := by
        cases hl with
        | root h => exact hnew _ _ hk h
        | child _ h => exact hnew _ _ hk h
      exact hdeep k this l hl)
    (by
      intro ho
      exact ⟨(hsort ho).1, fun k q hk hkT => (hsort ho).2 k (hnew q k hk hkT)⟩)
  rw [hTeq] at L
  obtain ⟨db', e, hI, hG, hD⟩ := Loads.grafted (s := db) L
    ⟨⟨hi, fun Q hQ => by obtain ⟨m, _, hn, e⟩ := hoff Q hQ; exact ⟨m, hn, e⟩, fun k hk => by
        by_contra hc
        refine hk (hoff0 _ ?_)
        rintro ⟨Q, hQ, e⟩
        rcases hQ with rfl | ⟨q, hq, rfl⟩
        · rw [at?_nil hi.toPInv hok] at e; cases e
        · rw [at?_row hi.toPInv hq] at e
          exact hc (mem_data.2 ⟨q, hq, Option.some.inj e⟩), hV⟩,
      fun k hk => by
        obtain ⟨r, hr, e⟩ := List.mem_map.1 hk
        exact mem_data.2 ⟨r, hr, e⟩⟩
    hh hnd (fun k hk hc => by obtain ⟨r, hr, e⟩ := mem_data.1 hc; exact hfresh k hk r hr e)
    (fun k hk => by
      rw [List.eq_nil_iff_forall_not_mem]
      intro y hy
      obtain ⟨r, hr, hp, _⟩ := (mem_PF hi.toPInv).1 hy
      obtain ⟨q, hq, _, e⟩ := (parOf_eq_some hi.inv).1 hp
      exact hk (mem_data.2 ⟨q, hq, e⟩))
  exact ⟨db', e, hI.1.inv, by rw [hG.eq hnd, ← hTeq], hD⟩

end Verif.MP
