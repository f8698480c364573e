/-
MP: children counts after an insertion and after a move, and the insertion of one row.
-/
import Verif.MP.Reorder

namespace Verif.MP

variable {cfg : Cfg}

theorem at?_eq_pk (h : PInv cfg rows) {r : Row} (hr : r ∈ rows) {p : List Nat} :
    at? rows p = some r.pk ↔ r.path = p := by
  rw [pkAt_eq_some h.inv]
  constructor
  · rintro ⟨q, hq, e, hk⟩
    rw [← h.inv.pk_inj hq hr hk, e]
  · intro e; exact ⟨r, hr, e, rfl⟩

theorem length_PF (rows : List Row) (p : Option Nat) :
    (PF cfg rows p).length = rows.countP (fun r => decide (par cfg rows r = p)) := length_pforest _ _

/-- a change of children counts only -/
structure OnlyNum (g : Row → Row) : Prop where
  pk : ∀ r, (g r).pk = r.pk
  path : ∀ r, (g r).path = r.path
  depth : ∀ r, (g r).depth = r.depth
  vals : ∀ r, (g r).vals = r.vals

theorem OnlyNum.pinv {g : Row → Row} (hg : OnlyNum g) (h : PInv cfg rows) : PInv cfg (rows.map g) :=
  h.map_same (fun r _ => hg.pk r) (fun r _ => hg.path r) (fun r _ => hg.depth r)

theorem OnlyNum.forest {g : Row → Row} (hg : OnlyNum g) (h : PInv cfg rows) :
    PF cfg (rows.map g) = PF cfg rows :=
  PF_map_path h (fun r _ => hg.pk r) (fun r _ => hg.path r) (fun r _ => hg.depth r)

theorem OnlyNum.at? {g : Row → Row} (hg : OnlyNum g) (rows : List Row) (p : List Nat) :
    at? (rows.map g) p = at? rows p := at?_map (fun r _ => hg.pk r) (fun r _ => hg.path r) p

theorem OnlyNum.isPar {g : Row → Row} (hg : OnlyNum g) (h : IsPar rows P) : IsPar (rows.map g) P :=
  h.map (fun r _ e => by rw [hg.path, e])

theorem NumOk.of_same (hs : Same cfg rows rows' f) (h : NumOk cfg rows) : NumOk cfg rows' := by
  intro r' hr'
  rw [hs.eq] at hr'
  obtain ⟨r, hr, rfl⟩ := List.mem_map.1 hr'
  rw [hs.keeps.num, hs.forest, hs.keeps.pk]
  exact h r hr

/-! ### Insertion -/

/-- the data of the rows: everything that is not bookkeeping of the tree -/
def data (rows : List Row) : List (Nat × Vals) := rows.map (fun r => (r.pk, r.vals))

theorem data_map {f : Row → Row} (h1 : ∀ r, (f r).pk = r.pk) (h2 : ∀ r, (f r).vals = r.vals) (rows : List Row) :
    data (rows.map f) = data rows := by
  unfold data
  rw [List.map_map]
  apply List.map_congr_left
  intro r _
  simp [h1, h2]

/-- Saving a new row at a free place. -/
theorem insert_spec (hok : cfg.Ok) {db : DB} (h : Inv cfg db.rows) {P : List Nat} {m : Nat}
    (h1 : 1 ≤ m) (hm : m < cfg.cap) (hP : IsPar db.rows P)
    (hno : ∀ r ∈ db.rows, r.path ≠ P ++ stp cfg m) {x : Row} (hfresh : ∀ r ∈ db.rows, r.pk ≠ x.pk)
    (hxp : x.path = P ++ stp cfg m) (hxd : x.depth * cfg.steplen = P.length + cfg.steplen) (hx0 : x.numchild = 0)
    {s : Slot} (hs : PSlot cfg.steplen Row.pk Row.path (· ∈ db.rows) (P ++ stp cfg m) s)
    {db1 : DB} {g : Row → Row} (hdb1 : db1.rows = db.rows.map g) (hg : OnlyNum g)
    (hgn : ∀ r ∈ db.rows, (g r).numchild = r.numchild + (if r.path = P then 1 else 0)) :
    ∃ db', save db1 x = .ok db' ∧ db'.rows = db1.rows ++ [x] ∧ db'.sigs = db1.sigs ∧ Inv cfg db'.rows ∧
      PF cfg db'.rows = (PF cfg db.rows).put (at? db.rows P) s x.pk ∧
      data db'.rows = data db.rows ++ [(x.pk, x.vals)] := by
  have hp1 : PInv cfg db1.rows := by rw [hdb1]; exact hg.pinv h.toPInv
  have hF1 : PF cfg db1.rows = PF cfg db.rows := by rw [hdb1]; exact hg.forest h.toPInv
  have hat1 : ∀ p, at? db1.rows p = at? db.rows p := by intro p; rw [hdb1]; exact hg.at? _ p
  have hP1 : IsPar db1.rows P := by rw [hdb1]; exact hg.isPar hP
  have hmem1 : ∀ r' ∈ db1.rows, ∃ r ∈ db.rows, g r = r' := by
    intro r' hr'; rw [hdb1] at hr'; exact List.mem_map.1 hr'
  have hfresh1 : ∀ r ∈ db1.rows, r.pk ≠ x.pk := by
    intro r' hr'; obtain ⟨r, hr, rfl⟩ := hmem1 r' hr'; rw [hg.pk]; exact hfresh r hr
  have hno1 : ∀ r ∈ db1.rows, r.path ≠ x.path := by
    intro r' hr'; obtain ⟨r, hr, rfl⟩ := hmem1 r' hr'; rw [hg.path, hxp]; exact hno r hr
  have hlen : cfg.steplen ∣ x.path.length ∧ cfg.steplen ≤ x.path.length := by
    rw [hxp]
    exact ⟨step_dvd hok (hP.dvd h.toPInv) hm, by rw [step_len hok P hm]; omega⟩
  have hpar : x.path.length = cfg.steplen ∨ ∃ q ∈ db1.rows, q.path = pp cfg.steplen x.path := by
    rw [hxp, pp_step hok P hm]
    rcases hP1 with rfl | hq
    · left; rw [step_len hok [] hm]; simp
    · exact Or.inr hq
  have hvac : ∀ r ∈ db1.rows, ¬ x.path <+: r.path :=
    hp1.vacant hok hlen.1 (by rw [hxp]; exact step_ne_nil hok P hm) hno1
  have hinv := ins_inv (x := x) hp1.inv hfresh1 hlen hno1 hpar
  have hslot : PSlot cfg.steplen Row.pk Row.path (· ∈ db1.rows) x.path s := by
    rw [hxp]
    cases s with
    | first =>
      intro r' hr' hp
      obtain ⟨r, hr, rfl⟩ := hmem1 r' hr'
      rw [hg.path] at hp ⊢; exact hs r hr hp
    | last =>
      intro r' hr' hp
      obtain ⟨r, hr, rfl⟩ := hmem1 r' hr'
      rw [hg.path] at hp ⊢; exact hs r hr hp
    | before t =>
      obtain ⟨tr, htr, a, b, c, d⟩ := hs
      refine ⟨g tr, by rw [hdb1]; exact List.mem_map_of_mem htr, by rw [hg.pk, a], by rw [hg.path, b],
        by rw [hg.path]; exact c, ?_⟩
      intro r' hr' hp hlt
      obtain ⟨r, hr, rfl⟩ := hmem1 r' hr'
      rw [hg.path] at hp hlt ⊢
      rw [hg.path] at hlt
      exact d r hr hp hlt
    | after t =>
      obtain ⟨tr, htr, a, b, c, d⟩ := hs
      refine ⟨g tr, by rw [hdb1]; exact List.mem_map_of_mem htr, by rw [hg.pk, a], by rw [hg.path, b],
        by rw [hg.path]; exact c, ?_⟩
      intro r' hr' hp hlt
      obtain ⟨r, hr, rfl⟩ := hmem1 r' hr'
      rw [hg.path] at hp hlt ⊢
      rw [hg.path] at hlt
      exact d r hr hp hlt
  have hput := ins_put (x := x) hp1.inv hok.step hfresh1 hlen hvac hpar (shows_pforest hp1.inv) (shows_pforest hinv) hslot
  rw [hxp, pp_step hok P hm] at hput
  have hPF : PF cfg (db1.rows ++ [x]) = (PF cfg db.rows).put (at? db.rows P) s x.pk := by
    rw [← hF1, ← hat1]; exact hput
  have hsave : save db1 x = .ok { db1 with rows := db1.rows ++ [x] } := by
    unfold save
    have h0 : db1.rows.any (·.pk == x.pk) = false := by
      rw [List.any_eq_false]
      intro r hr
      simpa using hfresh1 r hr
    have h2 := hinv.pathNodup
    rw [← uniquePaths_iff] at h2
    simp only [h0, Bool.false_eq_true, if_false, h2, if_true]
  have hpinv : PInv cfg (db1.rows ++ [x]) := by
    refine ⟨hinv, ?_, ?_, ?_⟩
    · intro r hr
      rcases List.mem_append.1 hr with hr | hr
      · exact hp1.chars r hr
      · simp only [List.mem_singleton] at hr; subst hr
        rw [hxp]
        intro c hc
        rcases List.mem_append.1 hc with hc | hc
        · exact hP.chars h.toPInv c hc
        · exact stp_chars hok hm c hc
    · intro r hr
      rcases List.mem_append.1 hr with hr | hr
      · exact hp1.depth r hr
      · simp only [List.mem_singleton] at hr; subst hr
        rw [hxp, step_len hok P hm, hxd]
    · intro r hr
      rcases List.mem_append.1 hr with hr | hr
      · exact hp1.pos r hr
      · simp only [List.mem_singleton] at hr; subst hr
        exact ⟨m, h1, hm, by rw [hxp, pp_step hok P hm]⟩
  have hparx : par cfg (db1.rows ++ [x]) x = at? db1.rows P := by
    simp only [par, parOf]
    rw [pkAt_append, hxp, pp_step hok P hm]
    intro e
    have := congrArg List.length e
    rw [pp_length] at this
    have := hok.step
    omega
  have hparr : ∀ r ∈ db1.rows, par cfg (db1.rows ++ [x]) r = par cfg db1.rows r := by
    intro r hr
    simp only [par, parOf]
    rw [pkAt_append]
    intro e
    exact hvac r hr (by rw [e]; exact pp_prefix _)
  have hlenPF : ∀ k, (PF cfg (db1.rows ++ [x]) (some k)).length =
      (PF cfg db1.rows (some k)).length + (if at? db1.rows P = some k then 1 else 0) := by
    intro k
    rw [length_PF, length_PF, List.countP_append, List.countP_singleton]
    congr 1
    · apply List.countP_congr
      intro r hr
      rw [hparr r hr]
    · rw [hparx]; simp
  refine ⟨_, hsave, rfl, rfl, ⟨hpinv, ?_⟩, hPF, ?_⟩
  · intro r' hr'
    rw [hlenPF]
    rcases List.mem_append.1 hr' with hr' | hr'
    · obtain ⟨r, hr, rfl⟩ := hmem1 r' hr'
      rw [hgn r hr, hF1, hg.pk, h.num r hr, hat1]
      have := at?_eq_pk h.toPInv hr (p := P)
      by_cases hrp : r.path = P
      · rw [if_pos hrp, if_pos (this.2 hrp)]; push_cast; rfl
      · rw [if_neg hrp, if_neg (fun e => hrp (this.1 e))]; push_cast; rfl
    · simp only [List.mem_singleton] at hr'; subst hr'
      rw [hx0, hF1]
      have e1 : PF cfg db.rows (some r'.pk) = [] := by
        by_contra hne
        obtain ⟨y, hy⟩ := List.exists_mem_of_ne_nil _ hne
        obtain ⟨r, hr, hrp, _⟩ := (mem_pforest h.inv).1 hy
        obtain ⟨q, hq, _, hqk⟩ := (parOf_eq_some h.inv).1 hrp
        exact hfresh q hq hqk
      have e2 : ¬ at? db1.rows P = some r'.pk := by
        intro e
        obtain ⟨q, hq, _, hk⟩ := (pkAt_eq_some hp1.inv).1 e
        exact hfresh1 q hq hk
      rw [e1, if_neg e2]; simp
  · simp only [data, List.map_append, List.map_cons, List.map_nil]
    rw [hdb1]
    congr 1
    exact data_map hg.pk hg.vals db.rows

/-! ### Moves -/

theorem addNumchild_rows (db : DB) (p : List Nat) (k : Int) : ∃ g, (addNumchild db p k).rows = db.rows.map g ∧
    OnlyNum g ∧ ∀ r, (g r).numchild = r.numchild + (if r.path = p then k else 0) := by
  refine ⟨fun r => if r.path == p then { r with numchild := r.numchild + k } else r, rfl,
    ⟨?_, ?_, ?_, ?_⟩, ?_⟩ <;> intro r <;> by_cases h : r.path = p <;> simp [h]

theorem OnlyNum.id : OnlyNum (fun r => r) := ⟨fun _ => rfl, fun _ => rfl, fun _ => rfl, fun _ => rfl⟩

theorem OnlyNum.comp {f g : Row → Row} (hf : OnlyNum f) (hg : OnlyNum g) : OnlyNum (fun r => g (f r)) :=
  ⟨fun r => by rw [hg.pk, hf.pk], fun r => by rw [hg.path, hf.path],
   fun r => by rw [hg.depth, hf.depth], fun r => by rw [hg.vals, hf.vals]⟩

theorem updateParentCounts_rows (db : DB) {old new : List Nat} (hl1 : cfg.steplen ≤ old.length)
    (hl2 : cfg.steplen ≤ new.length) : ∃ g, (updateParentCounts cfg db old new).rows = db.rows.map g ∧
    OnlyNum g ∧ ∀ r, r.path ≠ [] → (g r).numchild = r.numchild +
      (if pp cfg.steplen old = pp cfg.steplen new then 0 else
        (if r.path = pp cfg.steplen new then 1 else 0) - (if r.path = pp cfg.steplen old then 1 else 0)) := by
  unfold updateParentCounts
  rw [parentPath_eq hl1, parentPath_eq hl2]
  by_cases he : pp cfg.steplen old = pp cfg.steplen new
  · refine ⟨fun r => r, by simp [he], OnlyNum.id, ?_⟩
    intro r _; simp [he]
  · simp only [he, ne_eq, not_false_eq_true, if_true, if_false]
    obtain ⟨g1, e1, o1, n1⟩ : ∃ g, (if ¬ pp cfg.steplen old = [] then addNumchild db (pp cfg.steplen old) (-1) else db).rows =
        db.rows.map g ∧ OnlyNum g ∧ ∀ r, r.path ≠ [] → (g r).numchild = r.numchild + (if r.path = pp cfg.steplen old then -1 else 0) := by
      by_cases h0 : pp cfg.steplen old = []
      · refine ⟨fun r => r, by simp [h0], OnlyNum.id, ?_⟩
        intro r hr; simp [h0, hr]
      · rw [if_pos h0]
        obtain ⟨g, e, o, n⟩ := addNumchild_rows db (pp cfg.steplen old) (-1)
        exact ⟨g, e, o, fun r _ => n r⟩
    generalize hdb1 : (if ¬ pp cfg.steplen old = [] then addNumchild db (pp cfg.steplen old) (-1) else db) = db1 at e1
    obtain ⟨g2, e2, o2, n2⟩ : ∃ g, (if ¬ pp cfg.steplen new = [] then addNumchild db1 (pp cfg.steplen new) 1 else db1).rows =
        db1.rows.map g ∧ OnlyNum g ∧ ∀ r, r.path ≠ [] → (g r).numchild = r.numchild + (if r.path = pp cfg.steplen new then 1 else 0) := by
      by_cases h0 : pp cfg.steplen new = []
      · refine ⟨fun r => r, by simp [h0], OnlyNum.id, ?_⟩
        intro r hr; simp [h0, hr]
      · rw [if_pos h0]
        obtain ⟨g, e, o, n⟩ := addNumchild_rows db1 (pp cfg.steplen new) 1
        exact ⟨g, e, o, fun r _ => n r⟩
    refine ⟨fun r => g2 (g1 r), ?_, o1.comp o2, ?_⟩
    · rw [e2, e1, List.map_map]; rfl
    · intro r hr
      rw [n2 _ (by rw [o1.path]; exact hr), n1 r hr, o1.path]
      split <;> split <;> omega

/-- After the parent counts are updated the whole invariant holds again. -/
theorem moved_counts (hok : cfg.Ok) {rows : List Row} (h : Inv cfg rows) {x : Row} (hx : x ∈ rows) {db' : DB}
    (hm : Moved cfg rows db'.rows f x P s) (ho : OldPar cfg rows db'.rows x P old') {n : Nat} (hn : n < cfg.cap) :
    Inv cfg (updateParentCounts cfg db' old' (P ++ stp cfg n)).rows ∧
    PF cfg (updateParentCounts cfg db' old' (P ++ stp cfg n)).rows = (PF cfg rows).move x.pk (at? rows P) s ∧
    data (updateParentCounts cfg db' old' (P ++ stp cfg n)).rows = data rows := by
  obtain ⟨g, e, og, ng⟩ := updateParentCounts_rows (cfg := cfg) db' ho.len (new := P ++ stp cfg n)
    (by rw [step_len hok P hn]; omega)
  rw [pp_step hok P hn] at ng
  have hF : PF cfg (updateParentCounts cfg db' old' (P ++ stp cfg n)).rows = PF cfg db'.rows := by
    rw [e]; exact og.forest hm.pinv
  refine ⟨⟨by rw [e]; exact og.pinv hm.pinv, ?_⟩, by rw [hF, hm.forest], ?_⟩
  · intro r'' hr''
    rw [hF]
    rw [e] at hr''
    obtain ⟨r', hr', rfl⟩ := List.mem_map.1 hr''
    have hr'2 := hr'
    rw [hm.eq] at hr'
    obtain ⟨r, hr, rfl⟩ := List.mem_map.1 hr'
    have hne : (f r).path ≠ [] := by
      intro e0
      have := (hm.pinv.inv.len _ hr'2).2
      rw [e0] at this
      have := hok.step
      simp at *
      omega
    rw [ng _ hne, hm.keeps.num, h.num r hr, og.pk, hm.keeps.pk]
    -- counting
    have hc := countP_change h.nodup hx
      (P := fun q => decide (par cfg rows q = some r.pk))
      (Q := fun q => decide (par cfg db'.rows (f q) = some r.pk))
      (fun q hq hne => by simp only [hm.par q hq hne])
    have hlen : (PF cfg db'.rows (some r.pk)).length =
        rows.countP (fun q => decide (par cfg db'.rows (f q) = some r.pk)) := by
      rw [length_PF]
      conv_lhs => rw [hm.eq]
      rw [List.countP_map, ← hm.eq]
      rfl
    rw [length_PF, hlen]
    simp only [hm.parx, decide_eq_true_eq] at hc
    rw [← ho.at_old, ← ho.at_new] at hc
    have ho1 : at? db'.rows (pp cfg.steplen old') = some r.pk ↔ (f r).path = pp cfg.steplen old' := by
      rw [← hm.keeps.pk r]; exact at?_eq_pk hm.pinv hr'2
    have ho2 : at? db'.rows P = some r.pk ↔ (f r).path = P := by
      rw [← hm.keeps.pk r]; exact at?_eq_pk hm.pinv hr'2
    simp only [ho1, ho2] at hc
    by_cases hpo : pp cfg.steplen old' = P
    · rw [if_pos hpo]
      rw [hpo] at hc
      omega
    · rw [if_neg hpo]
      split at hc <;> split at hc <;> first | (simp_all; done) | (simp_all; omega)
  · rw [e, data_map og.pk og.vals, hm.eq, data_map hm.keeps.pk hm.keeps.vals]

end Verif.MP
