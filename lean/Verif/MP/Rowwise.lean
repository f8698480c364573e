/-
MP: databases that look at the constraints after every row.

An UPDATE of several rows is executed row by row, and SQLite and MySQL look at a unique index after each row, not at the end of the
statement (PostgreSQL too, unless the constraint is deferred; Django's `unique=True` is not).  In which order the rows are taken is not
known.  `numchild` is a PositiveIntegerField, for which Django adds `CHECK (numchild >= 0)`.
-/
import Verif.MP.Engine
import Verif.MP.Move

namespace Verif.MP

/-- mp_tree.py:837-865: the UPDATE of `_set_newpath_in_branches`, one row after the other -/
def renameRows (cfg : Cfg) (old new : List Nat) : List Row → List Row → Except Err (List Row)
  | [], table => .ok table
  | r :: rest, table =>
    let table := table.map (fun q => if q.pk == r.pk then newpathRow cfg old new q else q)
    if uniquePaths table then renameRows cfg old new rest table else .error .integrity

/-- mp_tree.py:837-865, as `setNewpath`; `ord` gives the order in which the database takes the rows -/
def setNewpathR (ord : List Row → List Row) (cfg : Cfg) (db : DB) (old new : List Nat) : Except Err DB :=
  match renameRows cfg old new (ord (db.rows.filter (fun r => old.isPrefixOf r.path))) db.rows with
  | .error e => .error e
  | .ok rows => .ok { rows, sigs := if db.rows.any (fun r => old.isPrefixOf r.path) then db.sigs ++ [.pathUpdated old new] else db.sigs }

/-- mp_tree.py:752-756, 1032, as `addNumchild` -/
def addNumchildR (db : DB) (path : List Nat) (k : Int) : Except Err DB :=
  if db.rows.any (fun r => r.path == path && decide (r.numchild + k < 0)) then .error .integrity else .ok (addNumchild db path k)

/-- the engine -/
def Engine.rowwise (ord : List Row → List Row) (cfg : Cfg) : Engine := ⟨setNewpathR ord cfg, addNumchildR⟩

/-! ### One UPDATE -/

variable {ord : List Row → List Row} {cfg : Cfg} {db : DB}

/-- the two branches are apart, or as long as each other -/
def Sep (old new : List Nat) : Prop := old.length = new.length ∨ (¬ old <+: new ∧ ¬ new <+: old)

/-- the table when the rows with the keys `D` have been changed -/
def mixed (cfg : Cfg) (old new : List Nat) (rows : List Row) (D : List Nat) : List Row :=
  rows.map (fun q => if q.pk ∈ D then newpathRow cfg old new q else q)

theorem mixed_step {old new : List Nat} {rows : List Row} {D : List Nat} {k : Nat} (hk : k ∉ D) :
    (mixed cfg old new rows D).map (fun q => if q.pk == k then newpathRow cfg old new q else q) = mixed cfg old new rows (k :: D) := by
  unfold mixed
  rw [List.map_map]
  refine List.map_congr_left fun q _ => ?_
  simp only [Function.comp, List.mem_cons]
  by_cases h1 : q.pk ∈ D
  · have h2 : q.pk ≠ k := fun e => hk (e ▸ h1)
    simp [h1, (keeps_newpathRow (cfg := cfg) old new).pk, h2]
  · by_cases h2 : q.pk = k
    · simp [hk, h2]
    · simp [h1, h2]

theorem mixed_all {old new : List Nat} {rows : List Row} {D : List Nat} (hD : ∀ r ∈ rows, old <+: r.path → r.pk ∈ D) :
    mixed cfg old new rows D = rows.map (newpathRow cfg old new) := by
  refine List.map_congr_left fun q hq => ?_
  by_cases h : q.pk ∈ D
  · rw [if_pos h]
  · rw [if_neg h]
    unfold newpathRow
    rw [if_neg]
    rw [List.isPrefixOf_iff_prefix]
    exact fun hp => h (hD q hq hp)

theorem mixed_unique {old new : List Nat} {rows : List Row} (hpath : (rows.map Row.path).Nodup)
    (hfinal : ((rows.map (newpathRow cfg old new)).map Row.path).Nodup) (hsep : Sep old new) (D : List Nat) :
    uniquePaths (mixed cfg old new rows D) = true := by
  unfold uniquePaths
  rw [decide_eq_true_eq]
  unfold mixed
  rw [List.map_map, List.Nodup, List.pairwise_map]
  rw [List.map_map, List.Nodup, List.pairwise_map] at hfinal
  rw [List.Nodup, List.pairwise_map] at hpath
  have key : ∀ a b : Row, a.path ≠ b.path → (newpathRow cfg old new a).path ≠ (newpathRow cfg old new b).path →
      (newpathRow cfg old new a).path ≠ b.path := by
    intro a b h1 h2 e
    rw [newpathRow_path] at e h2
    by_cases hb : old <+: b.path
    · by_cases ha : old <+: a.path
      · obtain ⟨u, hu⟩ := ha
        obtain ⟨w, hw⟩ := hb
        rw [ren_of_prefix u hu.symm, ← hw] at e
        rcases hsep with hl | ⟨h3, h4⟩
        · obtain ⟨e1, e2⟩ := List.append_inj e hl.symm
          exact h1 (by rw [← hu, ← hw, e2])
        · rcases List.prefix_or_prefix_of_prefix (l₁ := old) (l₂ := new) (l₃ := old ++ w) (List.prefix_append _ _) (by rw [← e]; exact List.prefix_append _ _) with h | h
          · exact h3 h
          · exact h4 h
      · rw [ren_of_not_prefix ha] at e
        exact h1 e
    · rw [newpathRow_path, ren_of_not_prefix hb] at h2
      exact h2 e
  refine (hpath.and hfinal).imp ?_
  rintro a b ⟨h1, h2⟩
  simp only [Function.comp] at h2 ⊢
  by_cases ha : a.pk ∈ D <;> by_cases hb : b.pk ∈ D <;> simp only [ha, hb, if_true, if_false]
  · exact h2
  · exact key a b h1 h2
  · exact fun e => key b a (Ne.symm h1) (Ne.symm h2) e.symm
  · exact h1

theorem renameRows_ok {old new : List Nat} {rows : List Row} (hpath : (rows.map Row.path).Nodup)
    (hfinal : ((rows.map (newpathRow cfg old new)).map Row.path).Nodup) (hsep : Sep old new) :
    ∀ (todo : List Row) (D : List Nat), (todo.map Row.pk).Nodup → (∀ r ∈ todo, r.pk ∉ D) →
      (∀ r ∈ rows, old <+: r.path → r.pk ∈ D ∨ r ∈ todo) →
      renameRows cfg old new todo (mixed cfg old new rows D) = .ok (rows.map (newpathRow cfg old new))
  | [], D, _, _, hD => by
    rw [renameRows, mixed_all (fun r hr hp => (hD r hr hp).resolve_right (by simp))]
  | t :: todo, D, hn, hd, hD => by
    rw [renameRows]
    rw [mixed_step (hd t (by simp)), mixed_unique hpath hfinal hsep]
    simp only [if_true]
    rw [List.map_cons, List.nodup_cons] at hn
    refine renameRows_ok hpath hfinal hsep todo _ hn.2 ?_ ?_
    · intro r hr hm
      rcases List.mem_cons.1 hm with e | hm
      · exact hn.1 (e ▸ List.mem_map_of_mem hr)
      · exact hd r (by simp [hr]) hm
    · intro r hr hp
      rcases hD r hr hp with h | h
      · exact Or.inl (by simp [h])
      · rcases List.mem_cons.1 h with rfl | h
        · exact Or.inl (by simp)
        · exact Or.inr h

theorem renameRows_error {old new : List Nat} {rows : List Row}
    (hfinal : ¬ ((rows.map (newpathRow cfg old new)).map Row.path).Nodup) :
    ∀ (todo : List Row) (D : List Nat), todo ≠ [] → (todo.map Row.pk).Nodup → (∀ r ∈ todo, r.pk ∉ D) →
      (∀ r ∈ rows, old <+: r.path → r.pk ∈ D ∨ r ∈ todo) →
      renameRows cfg old new todo (mixed cfg old new rows D) = .error .integrity
  | [], _, h, _, _, _ => absurd rfl h
  | t :: todo, D, _, hn, hd, hD => by
    rw [renameRows]
    rw [mixed_step (hd t (by simp))]
    rw [List.map_cons, List.nodup_cons] at hn
    have hD' : ∀ r ∈ rows, old <+: r.path → r.pk ∈ t.pk :: D ∨ r ∈ todo := by
      intro r hr hp
      rcases hD r hr hp with h | h
      · exact Or.inl (by simp [h])
      · rcases List.mem_cons.1 h with rfl | h
        · exact Or.inl (by simp)
        · exact Or.inr h
    split
    · rename_i hu
      by_cases he : todo = []
      · subst he
        rw [mixed_all (fun r hr hp => (hD' r hr hp).resolve_right (by simp))] at hu
        unfold uniquePaths at hu
        rw [decide_eq_true_eq] at hu
        exact absurd hu hfinal
      · refine renameRows_error hfinal todo _ he hn.2 ?_ hD'
        intro r hr hm
        rcases List.mem_cons.1 hm with e | hm
        · exact hn.1 (e ▸ List.mem_map_of_mem hr)
        · exact hd r (by simp [hr]) hm
    · rfl

/-- **One UPDATE**, if the old and the new branch are apart whenever the result has no duplicates. -/
theorem setNewpathR_eq (hord : ∀ l, (ord l).Perm l) (hpk : (db.rows.map Row.pk).Nodup) (hpath : (db.rows.map Row.path).Nodup) {old new : List Nat}
    (hsep : ((db.rows.map (newpathRow cfg old new)).map Row.path).Nodup → Sep old new) :
    setNewpathR ord cfg db old new = setNewpath cfg db old new := by
  have hp := hord (db.rows.filter (fun r => old.isPrefixOf r.path))
  have h0 : mixed cfg old new db.rows [] = db.rows := by simp [mixed]
  have hn : ((ord (db.rows.filter (fun r => old.isPrefixOf r.path))).map Row.pk).Nodup :=
    (hp.map Row.pk).nodup_iff.2 (hpk.sublist (List.filter_sublist.map _))
  have hD : ∀ r ∈ db.rows, old <+: r.path → r.pk ∈ ([] : List Nat) ∨ r ∈ ord (db.rows.filter (fun r => old.isPrefixOf r.path)) := by
    intro r hr hpre
    exact Or.inr (hp.mem_iff.2 (List.mem_filter.2 ⟨hr, by rw [List.isPrefixOf_iff_prefix]; exact hpre⟩))
  unfold setNewpathR setNewpath
  by_cases hf : ((db.rows.map (newpathRow cfg old new)).map Row.path).Nodup
  · have := renameRows_ok hpath hf (hsep hf) _ [] hn (by simp) hD
    rw [h0] at this
    rw [this]
    have hu : uniquePaths (db.rows.map (newpathRow cfg old new)) = true := by unfold uniquePaths; rw [decide_eq_true_eq]; exact hf
    simp only [hu, if_true]
  · have hu : ¬ uniquePaths (db.rows.map (newpathRow cfg old new)) = true := by unfold uniquePaths; rw [decide_eq_true_eq]; exact hf
    have hne : ord (db.rows.filter (fun r => old.isPrefixOf r.path)) ≠ [] := by
      intro e
      refine hf ?_
      rw [← mixed_all (D := []) (fun r hr hpre => ?_), h0]
      · exact hpath
      · have := (hD r hr hpre).resolve_left (by simp)
        rw [e] at this
        simp at this
    have := renameRows_error hf _ [] hne hn (by simp) hD
    rw [h0] at this
    rw [this]
    simp only [hu]
    rfl

/-! ### The statements of one reordering -/

/-- What is known of the tracked path `o` of the branch to move while siblings below `P` are shifted: it is not above `P`, its prefixes are
paths of rows with children, and if `b`, it is the path of a row. -/
structure Track (cfg : Cfg) (P : List Nat) (b : Prop) (rows : List Row) (o : List Nat) : Prop where
  dvd : cfg.steplen ∣ o.length
  len : cfg.steplen ≤ o.length
  out : ¬ o <+: P
  above : ∀ k, cfg.steplen ∣ k → 0 < k → k < o.length → ∃ r ∈ rows, r.path = o.take k ∧ 1 ≤ r.numchild
  self : b → ∃ r ∈ rows, r.path = o

/-- the condition kept by the loop -/
structure RowK (cfg : Cfg) (P : List Nat) (b : Prop) (db : DB) (old : Option (List Nat)) : Prop where
  pk : (db.rows.map Row.pk).Nodup
  path : (db.rows.map Row.path).Nodup
  nonneg : ∀ r ∈ db.rows, 0 ≤ r.numchild
  track : ∀ o, old = some o → Track cfg P b db.rows o

theorem setNewpath_rows {old new : List Nat} {db' : DB} (e : setNewpath cfg db old new = .ok db') :
    db'.rows = db.rows.map (newpathRow cfg old new) ∧ (db'.rows.map Row.path).Nodup := by
  unfold setNewpath at e
  simp only at e
  split at e
  · rename_i hu
    simp only [Except.ok.injEq] at e
    subst e
    unfold uniquePaths at hu
    rw [decide_eq_true_eq] at hu
    exact ⟨rfl, hu⟩
  · cases e

theorem keep_pk {old new : List Nat} {db' : DB} (hpk : (db.rows.map Row.pk).Nodup) (e : setNewpath cfg db old new = .ok db') :
    (db'.rows.map Row.pk).Nodup := by
  rw [(setNewpath_rows e).1, List.map_map]
  have : (Row.pk ∘ newpathRow cfg old new) = Row.pk := funext fun r => (keeps_newpathRow old new).pk r
  rw [this]; exact hpk

theorem keep_nonneg {old new : List Nat} {db' : DB} (h : ∀ r ∈ db.rows, 0 ≤ r.numchild) (e : setNewpath cfg db old new = .ok db') :
    ∀ r ∈ db'.rows, 0 ≤ r.numchild := by
  rw [(setNewpath_rows e).1]
  intro r hr
  obtain ⟨q, hq, rfl⟩ := List.mem_map.1 hr
  rw [(keeps_newpathRow old new).num]
  exact h q hq

/-- a path after a shift, cut -/
theorem ren_take {P s s' o : List Nat} {L k : Nat} (hL : 0 < L) (hs : s.length = L) (hs' : s'.length = L) (hP : L ∣ P.length) (hk : L ∣ k) :
    ren (P ++ s) (P ++ s') (o.take k) = (ren (P ++ s) (P ++ s') o).take k := by
  by_cases hpre : P ++ s <+: o
  · obtain ⟨u, rfl⟩ := hpre
    rw [ren_of_prefix u rfl]
    by_cases hle : (P ++ s).length ≤ k
    · rw [List.take_append, List.take_of_length_le hle, ren_of_prefix _ rfl, List.take_append (l₁ := P ++ s')]
      have hll : (P ++ s').length = (P ++ s).length := by simp [hs, hs']
      rw [List.take_of_length_le (l := P ++ s') (by rw [hll]; exact hle), hll]
    · have hkP : k ≤ P.length := by
        obtain ⟨a, rfl⟩ := hk
        obtain ⟨b, hb⟩ := hP
        rw [List.length_append, hs, hb] at hle
        rw [hb]
        have h1 : L * a < L * (b + 1) := by rw [Nat.mul_add, Nat.mul_one]; omega
        exact Nat.mul_le_mul_left L (Nat.lt_succ_iff.1 (Nat.lt_of_mul_lt_mul_left h1))
      have h1 : (P ++ s ++ u).take k = P.take k := by rw [List.append_assoc, List.take_append_of_le_length hkP]
      have h2 : (P ++ s' ++ u).take k = P.take k := by rw [List.append_assoc, List.take_append_of_le_length hkP]
      rw [h1, h2, ren_of_not_prefix]
      intro h
      have := h.length_le
      rw [List.length_append, List.length_take, hs] at this
      omega
  · rw [ren_of_not_prefix hpre, ren_of_not_prefix]
    exact fun h => hpre (h.trans (List.take_prefix _ _))

/-- one shift keeps the condition -/
theorem RowK.shift (hok : cfg.Ok) {P : List Nat} {b : Prop} {old : Option (List Nat)} (hk : RowK cfg P b db old) (hP : cfg.steplen ∣ P.length)
    {n m : Nat} (hn : n < cfg.cap) (hm : m < cfg.cap) {db' : DB} (e : setNewpath cfg db (P ++ stp cfg n) (P ++ stp cfg m) = .ok db') :
    RowK cfg P b db' (old.map (bump (P ++ stp cfg n) (P ++ stp cfg m))) := by
  obtain ⟨hrows, hnd⟩ := setNewpath_rows e
  have hll : (P ++ stp cfg n).length = (P ++ stp cfg m).length := by rw [step_len hok P hn, step_len hok P hm]
  refine ⟨keep_pk hk.pk e, hnd, keep_nonneg hk.nonneg e, ?_⟩
  intro o' ho'
  cases old with
  | none => cases ho'
  | some o =>
    simp only [Option.map_some, Option.some.injEq] at ho'
    rw [bump_eq_ren hll] at ho'
    have ht := hk.track o rfl
    have hlen : o'.length = o.length := by rw [← ho', ren_length hll]
    refine ⟨by rw [hlen]; exact ht.dvd, by rw [hlen]; exact ht.len, ?_, ?_, ?_⟩
    · intro hpre
      by_cases hc : P ++ stp cfg n <+: o
      · have h1 := hc.length_le
        have h2 := hpre.length_le
        rw [hlen] at h2
        rw [step_len hok P hn] at h1
        have := hok.step
        omega
      · rw [ren_of_not_prefix hc] at ho'
        exact ht.out (ho' ▸ hpre)
    · intro k hk1 hk2 hk3
      obtain ⟨r, hr, e1, e2⟩ := ht.above k hk1 hk2 (by omega)
      refine ⟨newpathRow cfg (P ++ stp cfg n) (P ++ stp cfg m) r, by rw [hrows]; exact List.mem_map_of_mem hr, ?_, ?_⟩
      · rw [newpathRow_path, e1, ren_take hok.step (stp_length hok hn) (stp_length hok hm) hP hk1, ho']
      · rw [(keeps_newpathRow _ _).num]; exact e2
    · intro hb
      obtain ⟨r, hr, e1⟩ := ht.self hb
      exact ⟨newpathRow cfg (P ++ stp cfg n) (P ++ stp cfg m) r, by rw [hrows]; exact List.mem_map_of_mem hr, by rw [newpathRow_path, e1, ho']⟩

/-- moving the branch out of the way keeps the rows above it -/
theorem Track.moved {P : List Nat} {b : Prop} {o new : List Nat} (ht : Track cfg P b db.rows o) {from' : List Nat} (hl : from'.length = o.length)
    {db' : DB} (e : setNewpath cfg db from' new = .ok db') : Track cfg P False db'.rows o := by
  obtain ⟨hrows, hnd⟩ := setNewpath_rows e
  refine ⟨ht.dvd, ht.len, ht.out, ?_, False.elim⟩
  intro k hk1 hk2 hk3
  obtain ⟨r, hr, e1, e2⟩ := ht.above k hk1 hk2 hk3
  refine ⟨newpathRow cfg from' new r, by rw [hrows]; exact List.mem_map_of_mem hr, ?_, ?_⟩
  · rw [newpathRow_path, ren_of_not_prefix, e1]
    intro hp
    have := hp.length_le
    rw [e1, List.length_take] at this
    omega
  · rw [(keeps_newpathRow _ _).num]; exact e2

/-- the last rename: the new place is not above the branch, or there are duplicates -/
theorem Track.sep (hok : cfg.Ok) {P : List Nat} {o : List Nat} (ht : Track cfg P True db.rows o) (hP : cfg.steplen ∣ P.length) {n : Nat} (hn : n < cfg.cap)
    (hnd : ((db.rows.map (newpathRow cfg o (P ++ stp cfg n))).map Row.path).Nodup) : Sep o (P ++ stp cfg n) := by
  by_cases hl : o.length = (P ++ stp cfg n).length
  · exact Or.inl hl
  have hstep := hok.step
  refine Or.inr ⟨?_, ?_⟩
  · intro hpre
    have h1 := hpre.length_le
    have h3 : o.length ≤ P.length := by
      rw [step_len hok P hn] at h1 hl
      obtain ⟨a, ha⟩ := ht.dvd
      obtain ⟨b, hb⟩ := hP
      rw [ha, hb] at h1 hl ⊢
      have : cfg.steplen * a < cfg.steplen * (b + 1) := by rw [Nat.mul_add, Nat.mul_one]; omega
      exact Nat.mul_le_mul_left _ (Nat.lt_succ_iff.1 (Nat.lt_of_mul_lt_mul_left this))
    exact ht.out (List.prefix_of_prefix_length_le hpre (List.prefix_append _ _) h3)
  · intro hpre
    have h1 := hpre.length_le
    obtain ⟨r, hr, e1, _⟩ := ht.above (P ++ stp cfg n).length (by rw [step_len hok P hn]; exact (Nat.dvd_add_right hP).2 (dvd_refl _))
      (by rw [step_len hok P hn]; omega) (by omega)
    obtain ⟨q, hq, e2⟩ := ht.self trivial
    rw [← List.prefix_iff_eq_take.1 hpre] at e1
    have hrq : r ≠ q := by
      rintro rfl
      exact hl (by rw [← e2, e1])
    have hinj := List.inj_on_of_nodup_map (l := db.rows) (f := fun r => (newpathRow cfg o (P ++ stp cfg n) r).path) (by
      rw [List.map_map] at hnd; exact hnd) hr hq
    refine hrq (hinj ?_)
    have hq' : ren o (P ++ stp cfg n) o = P ++ stp cfg n := by
      rw [ren_of_prefix [] (by simp), List.append_nil]
    have hr' : ren o (P ++ stp cfg n) (P ++ stp cfg n) = P ++ stp cfg n := by
      rw [ren_of_not_prefix]
      intro h
      have := h.length_le
      omega
    rw [newpathRow_path, newpathRow_path, e1, e2, hq', hr']

/-- the counts after a move -/
theorem updateParentCountsE_rowwise (hok : cfg.Ok) (hpath : (db.rows.map Row.path).Nodup) (hnn : ∀ r ∈ db.rows, 0 ≤ r.numchild) {P o : List Nat}
    (ht : Track cfg P False db.rows o) (new : List Nat) :
    updateParentCountsE (.rowwise ord cfg) cfg db o new = .ok (updateParentCounts cfg db o new) := by
  unfold updateParentCountsE updateParentCounts Engine.rowwise
  rw [parentPath_eq ht.len]
  simp only
  split
  · have h1 : pp cfg.steplen o ≠ [] → addNumchildR db (pp cfg.steplen o) (-1) = .ok (addNumchild db (pp cfg.steplen o) (-1)) ∧
        ∀ r ∈ (addNumchild db (pp cfg.steplen o) (-1)).rows, 0 ≤ r.numchild := by
      intro hne
      have hlen : 0 < o.length - cfg.steplen := by
        rw [← pp_length]; exact List.length_pos_iff.2 hne
      have hstep := hok.step
      obtain ⟨q, hq, e1, e2⟩ := ht.above (o.length - cfg.steplen) (Nat.dvd_sub ht.dvd (dvd_refl _)) hlen (by have := ht.len; omega)
      have hall : ∀ r ∈ db.rows, r.path = pp cfg.steplen o → 1 ≤ r.numchild := by
        intro r hr e
        have : r = q := List.inj_on_of_nodup_map hpath hr hq (by rw [e, e1]; rfl)
        rw [this]; exact e2
      constructor
      · unfold addNumchildR
        rw [if_neg]
        rw [List.any_eq_true]
        rintro ⟨r, hr, hc⟩
        rw [Bool.and_eq_true, beq_iff_eq, decide_eq_true_eq] at hc
        have := hall r hr hc.1
        omega
      · intro r hr
        obtain ⟨r0, h0, rfl⟩ := List.mem_map.1 hr
        split
        · rename_i hc
          have := hall r0 h0 (by simpa using hc)
          simp only
          omega
        · exact hnn r0 h0
    have h2 : ∀ d : DB, (∀ r ∈ d.rows, 0 ≤ r.numchild) → ∀ p, addNumchildR d p 1 = .ok (addNumchild d p 1) := by
      intro d hd p
      unfold addNumchildR
      rw [if_neg]
      rw [List.any_eq_true]
      rintro ⟨r, hr, hc⟩
      rw [Bool.and_eq_true, decide_eq_true_eq] at hc
      have := hd r hr
      omega
    by_cases c1 : pp cfg.steplen o ≠ []
    · obtain ⟨h3, h4⟩ := h1 c1
      by_cases c2 : parentPathFromPath cfg new ≠ [] <;> simp [c1, c2, h3, h2 _ h4]
    · by_cases c2 : parentPathFromPath cfg new ≠ [] <;> simp [c1, c2, h2 _ hnn]
  · rfl

/-- the loop -/
theorem shiftLoop_rowwise (hok : cfg.Ok) (hord : ∀ l, (ord l).Perm l) {P : List Nat} (hP : cfg.steplen ∣ P.length) {b : Prop} {N : Nat} {l : List Row}
    (hl : ∀ s ∈ l, ∃ a, a < cfg.cap ∧ s.path = P ++ stp cfg a) {old : Option (List Nat)} (hk : RowK cfg P b db old)
    (hN : ∀ o, old = some o → o.length = N) :
    shiftLoopE (.rowwise ord cfg) cfg l db old = shiftLoop cfg l db old ∧
      ∀ db' old', shiftLoop cfg l db old = .ok (db', old') → RowK cfg P b db' old' ∧ ∀ o, old' = some o → o.length = N := by
  refine shiftLoopE_eq (K := fun db' old' => RowK cfg P b db' old' ∧ ∀ o, old' = some o → o.length = N) ?_ db old ⟨hk, hN⟩
  intro n hn d o inc hko hi
  obtain ⟨a, ha, e⟩ := hl n hn
  rw [e] at hi ⊢
  have ha1 : a + 1 < cfg.cap := by
    by_contra hc
    rw [incPath_overflow hok P ha (by omega)] at hi
    cases hi
  rw [incPath_eq hok P ha1, Except.ok.injEq] at hi
  subst hi
  have hll : (P ++ stp cfg a).length = (P ++ stp cfg (a + 1)).length := by rw [step_len hok P ha, step_len hok P ha1]
  refine ⟨setNewpathR_eq hord hko.1.pk hko.1.path fun _ => Or.inl hll, fun d' e' => ⟨hko.1.shift hok hP ha ha1 e', ?_⟩⟩
  intro o' ho'
  cases o with
  | none => cases ho'
  | some o =>
    simp only [Option.map_some, Option.some.injEq] at ho'
    rw [← ho', bump_eq_ren hll, ren_length hll]
    exact hko.2 o rfl

theorem shiftLoop_none : ∀ {l : List Row} {db db' : DB} {o : Option (List Nat)}, shiftLoop cfg l db none = .ok (db', o) → o = none
  | [], _, _, _, e => by
    simp only [shiftLoop, Except.ok.injEq, Prod.mk.injEq] at e
    exact e.2.symm
  | n :: l, db, _, _, e => by
    rw [shiftLoop] at e
    cases e1 : incPath cfg n.path with
    | error _ => rw [e1] at e; cases e
    | ok inc =>
      rw [e1] at e
      simp only at e
      cases e2 : setNewpath cfg db n.path inc with
      | error _ => rw [e2] at e; cases e
      | ok d => rw [e2] at e; exact shiftLoop_none e

theorem shiftLoop_some : ∀ {l : List Row} {db db' : DB} {p : List Nat} {o : Option (List Nat)}, shiftLoop cfg l db (some p) = .ok (db', o) →
    ∃ o', o = some o'
  | [], _, _, _, _, e => by
    simp only [shiftLoop, Except.ok.injEq, Prod.mk.injEq] at e
    exact ⟨_, e.2.symm⟩
  | n :: l, db, _, _, _, e => by
    rw [shiftLoop] at e
    cases e1 : incPath cfg n.path with
    | error _ => rw [e1] at e; cases e
    | ok inc =>
      rw [e1] at e
      simp only at e
      cases e2 : setNewpath cfg db n.path inc with
      | error _ => rw [e2] at e; cases e
      | ok d => rw [e2] at e; exact shiftLoop_some e

/-- every beginning of a path is the path of a row -/
theorem prefix_row (hok : cfg.Ok) (h : Inv cfg db.rows) : ∀ (j : Nat) {r : Row}, r ∈ db.rows → ∀ k, cfg.steplen ∣ k → 0 < k → k < r.path.length →
    r.path.length ≤ k + j → ∃ q ∈ db.rows, q.path = r.path.take k ∧ 1 ≤ q.numchild
  | 0, r, hr, k, _, _, h1, h2 => by omega
  | j + 1, r, hr, k, hk, h0, h1, h2 => by
    have hstep := hok.step
    obtain ⟨hd, hl⟩ := h.inv.len r hr
    have hkl : k ≤ r.path.length - cfg.steplen := by
      obtain ⟨a, rfl⟩ := hk
      obtain ⟨b, hb⟩ := hd
      rw [hb] at h1 ⊢
      have := Nat.lt_of_mul_lt_mul_left h1
      have h3 : cfg.steplen * (a + 1) ≤ cfg.steplen * b := Nat.mul_le_mul_left _ this
      rw [Nat.mul_add, Nat.mul_one] at h3
      omega
    have hne : pp cfg.steplen r.path ≠ [] := by
      intro e
      have := congrArg List.length e
      rw [pp_length] at this
      simp at this
      omega
    rcases h.toPInv.isPar hr with e | ⟨q, hq, e⟩
    · exact absurd e hne
    · by_cases hkq : k = r.path.length - cfg.steplen
      · refine ⟨q, hq, by rw [e, hkq]; rfl, ?_⟩
        by_contra hc
        have h0 : q.numchild = 0 := by
          have := h.num q hq
          omega
        exact leaf_no_child h hq (by simp [Row.isLeaf, h0]) hr e.symm
      · have hql : q.path.length = r.path.length - cfg.steplen := by rw [e, pp_length]
        obtain ⟨z, hz, e1, e2⟩ := prefix_row hok h j hq k hk h0 (by omega) (by omega)
        refine ⟨z, hz, ?_, e2⟩
        rw [e1, e]
        unfold pp
        rw [List.take_take, Nat.min_eq_left (by omega)]

theorem rowK_init (hok : cfg.Ok) (h : Inv cfg db.rows) {x : Row} (hx : x ∈ db.rows) {P : List Nat} (hout : ¬ x.path <+: P) :
    RowK cfg P True db (some x.path) := by
  refine ⟨h.inv.pkNodup, h.inv.pathNodup, ?_, ?_⟩
  · intro r hr
    have := h.num r hr
    omega
  · rintro _ ⟨⟩
    obtain ⟨hd, hl⟩ := h.inv.len x hx
    exact ⟨hd, hl, hout, fun k h1 h2 h3 => prefix_row hok h x.path.length hx k h1 h2 h3 (by omega), fun _ => ⟨x, hx, rfl⟩⟩

/-- what is known after the reordering -/
structure RowPost (cfg : Cfg) (P : List Nat) (db : DB) (old : Option (List Nat)) : Prop where
  path : (db.rows.map Row.path).Nodup
  nonneg : ∀ r ∈ db.rows, 0 ≤ r.numchild
  track : ∀ o, old = some o → Track cfg P False db.rows o

/-- **The reordering before an addition.** -/
theorem reorderE_rowwise_add (hok : cfg.Ok) (hord : ∀ l, (ord l).Perm l) (h : PInv cfg db.rows) (hnn : ∀ r ∈ db.rows, 0 ≤ r.numchild) {target : Row}
    (ht : target ∈ db.rows) (pos : Pos) (newpos : Option Int) (newdepth : Nat) {sibs : List Row} (hs : ∀ s ∈ sibs, s ∈ siblings cfg db target) :
    reorderE (.rowwise ord cfg) cfg db pos newpos newdepth target sibs none = reorder cfg db pos newpos newdepth target sibs none ∧
    ∀ db' o np, reorder cfg db pos newpos newdepth target sibs none = .ok (db', o, np) → RowPost cfg (pp cfg.steplen target.path) db' o := by
  have hP : cfg.steplen ∣ (pp cfg.steplen target.path).length := by
    rw [pp_length]; exact Nat.dvd_sub (h.inv.len target ht).1 (dvd_refl _)
  have hk : RowK cfg (pp cfg.steplen target.path) False db none := ⟨h.inv.pkNodup, h.inv.pathNodup, hnn, fun _ e => by cases e⟩
  rw [← reorderE_plain]
  unfold reorderE
  split
  · cases lastSibling cfg db target with
    | none => exact ⟨rfl, fun _ _ _ e => by cases e⟩
    | some last =>
      simp only
      cases incPath cfg last.path with
      | error e => exact ⟨trivial, fun _ _ _ e => by cases e⟩
      | ok q =>
        refine ⟨trivial, fun db' o np e => ?_⟩
        simp only [Except.ok.injEq, Prod.mk.injEq] at e
        obtain ⟨rfl, rfl, _⟩ := e
        exact ⟨h.inv.pathNodup, hnn, fun _ e => by cases e⟩
  · have hpl : ∀ n l, placeE cfg db pos newpos target sibs = .ok (n, l) → ∀ s ∈ l, s ∈ siblings cfg db target := by
      intro n l e
      unfold placeE at e
      cases newpos with
      | none => exact mem_placeSiblings e
      | some m =>
        simp only [Except.ok.injEq, Prod.mk.injEq] at e
        obtain ⟨_, rfl⟩ := e
        exact hs
    cases e : placeE cfg db pos newpos target sibs with
    | error e => exact ⟨rfl, fun _ _ _ e => by cases e⟩
    | ok x =>
      obtain ⟨n, l⟩ := x
      simp only
      cases getPath cfg target.path newdepth n with
      | error e => exact ⟨rfl, fun _ _ _ e => by cases e⟩
      | ok q =>
        simp only [tempE]
        cases e4 : collectShift cfg l q with
        | error e => exact ⟨rfl, fun _ _ _ e => by cases e⟩
        | ok moves =>
          simp only
          have hl : ∀ s ∈ moves.reverse, ∃ a, a < cfg.cap ∧ s.path = pp cfg.steplen target.path ++ stp cfg a := by
            intro s hs'
            obtain ⟨h1, h2⟩ := (mem_siblings h hok ht).1 (hpl _ _ e s (mem_collectShift e4 s (List.mem_reverse.1 hs')))
            obtain ⟨a, _, ha, e⟩ := h.sib_pos h1 h2
            exact ⟨a, ha, e⟩
          obtain ⟨h1, h2⟩ := shiftLoop_rowwise (N := 0) hok hord hP hl hk (fun _ e => by cases e)
          rw [h1, shiftLoopE_plain]
          cases e5 : shiftLoop cfg moves.reverse db none with
          | error e => exact ⟨rfl, fun _ _ _ e => by cases e⟩
          | ok y =>
            obtain ⟨d, o⟩ := y
            have hko := (h2 d o e5).1
            have ho : o = none := shiftLoop_none e5
            subst ho
            refine ⟨rfl, fun db' o np e => ?_⟩
            simp only [Except.ok.injEq, Prod.mk.injEq] at e
            obtain ⟨rfl, rfl, _⟩ := e
            exact ⟨hko.path, hko.nonneg, fun _ e => by cases e⟩

/-- what a move hands to the reordering -/
structure MoveArgs (cfg : Cfg) (db : DB) (x : Row) (P : List Nat) (pos : Pos) (newpos : Option Int) (newdepth : Nat) (target : Row) (sibs : List Row) :
    Prop where
  par : IsPar db.rows P
  out : ¬ x.path <+: P
  depth : newdepth * cfg.steplen = P.length + cfg.steplen
  base : basepath cfg target.path ((newdepth : Int) - 1) = P
  last : IsLastCase cfg db pos target → target ∈ db.rows ∧ pp cfg.steplen target.path = P
  place : ¬ IsLastCase cfg db pos target → ∀ n l, placeE cfg db pos newpos target sibs = .ok (n, l) → ∃ m : Nat, m < cfg.cap ∧ n = m ∧
    (∀ s ∈ l, s ∈ db.rows ∧ pp cfg.steplen s.path = P) ∧ (l ≠ [] → target ∈ db.rows ∧ pp cfg.steplen target.path = P) ∧
    (TempCase cfg x P m l → TempRoom cfg db.rows P)

theorem dvd_of_isPar (h : PInv cfg db.rows) {P : List Nat} (hP : IsPar db.rows P) : cfg.steplen ∣ P.length := by
  rcases hP with rfl | ⟨r, hr, rfl⟩
  · simp
  · exact (h.inv.len r hr).1

/-- **The reordering before a move.** -/
theorem reorderE_rowwise_move (hok : cfg.Ok) (hord : ∀ l, (ord l).Perm l) (h : Inv cfg db.rows) {x : Row} (hx : x ∈ db.rows) {P : List Nat} {pos : Pos}
    {newpos : Option Int} {newdepth : Nat} {target : Row} {sibs : List Row} (ha : MoveArgs cfg db x P pos newpos newdepth target sibs) :
    reorderE (.rowwise ord cfg) cfg db pos newpos newdepth target sibs (some x.path) = reorder cfg db pos newpos newdepth target sibs (some x.path) ∧
    ∀ db' o np, reorder cfg db pos newpos newdepth target sibs (some x.path) = .ok (db', o, np) → RowPost cfg P db' o ∧ ∃ o', o = some o' := by
  have hp := h.toPInv
  have hP := dvd_of_isPar hp ha.par
  have hk : RowK cfg P True db (some x.path) := rowK_init hok h hx ha.out
  -- a rename, and what is known after it
  have hren : ∀ {d : DB} {b : Prop} {from' o : List Nat} {m : Nat}, RowK cfg P b d (some o) → m < cfg.cap → from'.length = o.length →
      (from'.length = P.length + cfg.steplen ∨ (b = True ∧ from' = o)) →
      setNewpathR ord cfg d from' (P ++ stp cfg m) = setNewpath cfg d from' (P ++ stp cfg m) ∧
      ∀ d', setNewpath cfg d from' (P ++ stp cfg m) = .ok d' → RowPost cfg P d' (some o) := by
    intro d b from' o m hk hm hl hc
    have ht := hk.track o rfl
    refine ⟨setNewpathR_eq hord hk.pk hk.path fun hnd => ?_, fun d' e => ?_⟩
    · rcases hc with hc | ⟨rfl, rfl⟩
      · exact Or.inl (by rw [step_len hok P hm, hc])
      · exact ht.sep hok hP hm hnd
    · refine ⟨(setNewpath_rows e).2, keep_nonneg hk.nonneg e, ?_⟩
      rintro _ ⟨⟩
      exact ht.moved hl e
  rw [← reorderE_plain]
  unfold reorderE
  by_cases hlc : IsLastCase cfg db pos target
  · have hlc' := hlc
    unfold IsLastCase at hlc'
    rw [if_pos hlc', if_pos hlc']
    obtain ⟨ht, htp⟩ := ha.last hlc
    obtain ⟨last, e, hlm, hlp, _⟩ := lastSibling_spec hok hp ht
    obtain ⟨n, _, hn, hle⟩ := hp.sib_pos hlm (hlp.trans htp)
    simp only [e, hle]
    by_cases hn1 : n + 1 < cfg.cap
    · rw [incPath_eq hok P hn1]
      obtain ⟨h1, h2⟩ := hren hk hn1 rfl (Or.inr ⟨rfl, rfl⟩)
      simp only [Engine.rowwise, Engine.plain, h1]
      cases e1 : setNewpath cfg db x.path (P ++ stp cfg (n + 1)) with
      | error e => exact ⟨trivial, fun _ _ _ e => by cases e⟩
      | ok d =>
        refine ⟨trivial, fun db' o np e => ?_⟩
        simp only [Except.ok.injEq, Prod.mk.injEq] at e
        obtain ⟨rfl, rfl, _⟩ := e
        exact ⟨h2 d e1, _, rfl⟩
    · rw [incPath_overflow hok P hn (by omega)]
      exact ⟨rfl, fun _ _ _ e => by cases e⟩
  · have hlc' := hlc
    unfold IsLastCase at hlc'
    rw [if_neg hlc', if_neg hlc']
    cases e : placeE cfg db pos newpos target sibs with
    | error e => exact ⟨rfl, fun _ _ _ e => by cases e⟩
    | ok y =>
      obtain ⟨n, l⟩ := y
      obtain ⟨m, hm, rfl, hl, hlt, hroom⟩ := ha.place hlc n l e
      simp only
      rw [getPath_eq hok _ _ hm, ha.base]
      simp only [tempE]
      -- the end, from the state before the loop
      have hend : ∀ (d : DB) (b : Prop) (temp : Option (List Nat)), RowK cfg P b d (some x.path) →
          ((temp = none ∧ b = True) ∨ ∃ t, temp = some t ∧ t.length = P.length + cfg.steplen ∧ x.path.length = P.length + cfg.steplen) →
          ∀ moves : List Row, (∀ s ∈ moves.reverse, ∃ a, a < cfg.cap ∧ s.path = P ++ stp cfg a) →
          (match shiftLoopE (.rowwise ord cfg) cfg moves.reverse d (some x.path) with
            | .error e => Except.error e
            | .ok (db, oldpath) =>
              match oldpath with
              | none => .ok (db, none, P ++ stp cfg m)
              | some old =>
                match setNewpathR ord cfg db (temp.getD old) (P ++ stp cfg m) with
                | .error e => .error e
                | .ok db => .ok (db, some old, P ++ stp cfg m)) =
          (match shiftLoop cfg moves.reverse d (some x.path) with
            | .error e => Except.error e
            | .ok (db, oldpath) =>
              match oldpath with
              | none => .ok (db, none, P ++ stp cfg m)
              | some old =>
                match setNewpath cfg db (temp.getD old) (P ++ stp cfg m) with
                | .error e => .error e
                | .ok db => .ok (db, some old, P ++ stp cfg m)) ∧
          ∀ db' o np, (match shiftLoop cfg moves.reverse d (some x.path) with
            | .error e => Except.error e
            | .ok (db, oldpath) =>
              match oldpath with
              | none => .ok (db, none, P ++ stp cfg m)
              | some old =>
                match setNewpath cfg db (temp.getD old) (P ++ stp cfg m) with
                | .error e => .error e
                | .ok db => .ok (db, some old, P ++ stp cfg m)) = .ok (db', o, np) → RowPost cfg P db' o ∧ ∃ o', o = some o' := by
        intro d b temp hkd htemp moves hmv
        obtain ⟨h1, h2⟩ := shiftLoop_rowwise (N := x.path.length) hok hord hP hmv hkd (fun _ e => by cases e; rfl)
        rw [h1]
        cases e5 : shiftLoop cfg moves.reverse d (some x.path) with
        | error e => exact ⟨rfl, fun _ _ _ e => by cases e⟩
        | ok y =>
          obtain ⟨d2, o⟩ := y
          obtain ⟨hk2, hN⟩ := h2 d2 o e5
          obtain ⟨o, rfl⟩ : ∃ o', o = some o' := shiftLoop_some e5
          have hNo := hN o rfl
          simp only
          obtain ⟨h3, h4⟩ := hren (from' := temp.getD o) hk2 hm (by
            rcases htemp with ⟨rfl, _⟩ | ⟨t, rfl, h5, h6⟩
            · rfl
            · rw [Option.getD_some, h5, hNo, h6]) (by
            rcases htemp with ⟨rfl, hb⟩ | ⟨t, rfl, h5, h6⟩
            · exact Or.inr ⟨hb, rfl⟩
            · exact Or.inl (by rw [Option.getD_some, h5]))
          rw [h3]
          cases e6 : setNewpath cfg d2 (temp.getD o) (P ++ stp cfg m) with
          | error e => exact ⟨rfl, fun _ _ _ e => by cases e⟩
          | ok d3 =>
            refine ⟨rfl, fun db' o np e => ?_⟩
            simp only [Except.ok.injEq, Prod.mk.injEq] at e
            obtain ⟨rfl, rfl, _⟩ := e
            exact ⟨h4 d3 e6, _, rfl⟩
      have hmoves : ∀ moves, collectShift cfg l (P ++ stp cfg m) = .ok moves → ∀ s ∈ moves.reverse, ∃ a, a < cfg.cap ∧ s.path = P ++ stp cfg a := by
        intro moves e4 s hs'
        obtain ⟨h1, h2⟩ := hl s (mem_collectShift e4 s (List.mem_reverse.1 hs'))
        obtain ⟨a, _, ha, e⟩ := hp.sib_pos h1 h2
        exact ⟨a, ha, e⟩
      by_cases hc : TempCase cfg x P m l
      · have hcond := (tempCond_iff hok hp hx hm ha.depth).2 hc
        obtain ⟨ht, htp⟩ := hlt hc.2.1
        obtain ⟨last, e1, hlm, hlp, _⟩ := lastSibling_spec hok hp ht
        obtain ⟨k, _, hkc, hle⟩ := hp.sib_pos hlm (hlp.trans htp)
        have hk2 : k + 2 < cfg.cap := hroom hc last hlm (hlp.trans htp) k hle hkc
        have hbase2 : basepath cfg (P ++ stp cfg m) ((newdepth : Int) - 1) = P := by
          have hnd : 1 ≤ newdepth := by
            by_contra hc
            have : newdepth = 0 := by omega
            have hd := ha.depth
            rw [this] at hd
            have := hok.step
            omega
          rw [basepath_parent hnd (by rw [step_len hok P hm, ha.depth]), pp_step hok P hm]
        have hg : getPath cfg (P ++ stp cfg m) newdepth ((k : Int) + 2) = .ok (P ++ stp cfg (k + 2)) := by
          have := getPath_eq hok (P ++ stp cfg m) newdepth hk2
          rw [hbase2] at this
          exact_mod_cast this
        have hxl : x.path.length = P.length + cfg.steplen := by rw [hcond.1, step_len hok P hm]
        obtain ⟨h1, h2⟩ := hren hk hk2 rfl (Or.inl hxl)
        unfold moveToTempE
        rw [if_pos hcond, if_pos hcond]
        simp only [e1, hle, lastpos_eq hok P hkc, hg, Engine.rowwise, Engine.plain, h1]
        cases e2 : setNewpath cfg db x.path (P ++ stp cfg (k + 2)) with
        | error e => exact ⟨rfl, fun _ _ _ e => by cases e⟩
        | ok d =>
          simp only
          cases e4 : collectShift cfg l (P ++ stp cfg m) with
          | error e => exact ⟨rfl, fun _ _ _ e => by cases e⟩
          | ok moves =>
            simp only
            have hpost := h2 d e2
            have hkd : RowK cfg P False d (some x.path) := ⟨keep_pk hk.pk e2, hpost.path, hpost.nonneg, hpost.track⟩
            have := hend d False (some (P ++ stp cfg (k + 2))) hkd (Or.inr ⟨_, rfl, step_len hok P hk2, hxl⟩) moves (hmoves moves e4)
            rw [← shiftLoopE_plain] at this
            exact this
      · have hcond := fun hcc => hc ((tempCond_iff hok hp hx hm ha.depth).1 hcc)
        unfold moveToTempE
        rw [if_neg hcond, if_neg hcond]
        simp only
        cases e4 : collectShift cfg l (P ++ stp cfg m) with
        | error e => exact ⟨rfl, fun _ _ _ e => by cases e⟩
        | ok moves =>
          simp only
          have := hend db True none hk (Or.inl ⟨rfl, rfl⟩) moves (hmoves moves e4)
          rw [← shiftLoopE_plain] at this
          exact this

/-- the arguments of the reordering: a position among siblings -/
theorem moveArgs_sib (hok : cfg.Ok) (h : Inv cfg db.rows) {x : Row} (hx : x ∈ db.rows) {t : Row} (ht : t ∈ db.rows) (hd : ¬ t.isDescendantOf x = true)
    {pos : Pos} {sibs : List Row} (hn : ¬ moveNoop cfg db x ⟨t, t.depth, sibs, none, pos⟩ = true) (hroom : MoveRoom cfg db.rows x t pos)
    (hcp : isChildPos pos = false) :
    MoveArgs cfg db x (pp cfg.steplen t.path) pos none t.depth t sibs := by
  have hp := h.toPInv
  refine ⟨hp.isPar ht, pp_not_desc hok hp hx ht hd, depth_mul hp ht, hp.basepath hok ht, fun _ => ⟨ht, rfl⟩, ?_⟩
  intro hl n l e
  have hdp : destPath cfg pos t = pp cfg.steplen t.path := by simp [destPath, hcp]
  have hmem : ∀ s ∈ l, s ∈ db.rows ∧ pp cfg.steplen s.path = pp cfg.steplen t.path := fun s hs => (mem_siblings hp hok ht).1 (mem_placeSiblings e s hs)
  obtain ⟨k, hk1, hk, hte⟩ := hp.pos t ht
  have hlp : lastpos cfg t.path = .ok k := by rw [hte, lastpos_eq hok _ hk]
  simp only [placeE, placeSiblings, hlp] at e
  have hcap := cap_gt_one hok
  unfold MoveRoom at hroom
  rw [hdp] at hroom
  cases pos with
  | firstSibling =>
    simp only [Except.ok.injEq, Prod.mk.injEq] at e
    refine ⟨1, hcap, e.1.symm, hmem, fun _ => ⟨ht, rfl⟩, fun hc => hroom hc.1 ?_⟩
    obtain ⟨first, e, h1, h2, h3⟩ := firstSibling_spec hok hp ht
    refine ⟨first, h1, h2.trans hdp.symm, h3 x hx hc.1 ?_⟩
    rintro rfl
    exact hn (moveNoop_iff.2 (Or.inl ⟨same_depth hok hp ht hx hc.1, Or.inl ⟨rfl, by rw [e, sameNode_iff]⟩⟩))
  | left =>
    simp only [Except.ok.injEq, Prod.mk.injEq] at e
    exact ⟨k, hk, e.1.symm, hmem, fun _ => ⟨ht, rfl⟩, fun hc => hroom hc.1 (plt_of_eq_of_lt hte hc.2.2)⟩
  | right =>
    simp only [Except.ok.injEq, Prod.mk.injEq] at e
    have hk' : k + 1 < cfg.cap := right_room hok hp ht hl hk hte
    refine ⟨k + 1, hk', by rw [← e.1]; push_cast; rfl, hmem, fun _ => ⟨ht, rfl⟩, fun hc => hroom hc.1 ?_⟩
    refine plt_trans ?_ hc.2.2
    conv => lhs; rw [hte]
    rw [plt_append_left, stp_lt_iff hok hk hk']; omega
  | lastSibling => exact absurd (Or.inl rfl) hl
  | sortedSibling => cases e
  | firstChild => cases e
  | lastChild => cases e
  | sortedChild => cases e
  | other => cases e

/-- the arguments of the reordering: below a leaf -/
theorem moveArgs_leaf (hok : cfg.Ok) (h : Inv cfg db.rows) {x : Row} (hx : x ∈ db.rows) {t : Row} (ht : t ∈ db.rows) (hd : ¬ t.isDescendantOf x = true)
    (hne : t.pk ≠ x.pk) : MoveArgs cfg db x t.path .firstSibling (some 1) (t.depth + 1) t [] := by
  have hp := h.toPInv
  refine ⟨Or.inr ⟨t, ht, rfl⟩, fun hpre => hd ((isDescendantOf_iff hp ht hx).2 ⟨hpre, fun e => hne (by rw [e])⟩), ?_, ?_, ?_, ?_⟩
  · rw [Nat.add_mul, Nat.one_mul, hp.depth t ht]
  · rw [show (((t.depth + 1 : Nat) : Int) - 1) = (t.depth : Int) by omega, basepath_nat, ← hp.depth t ht, List.take_length]
  · rintro (e | ⟨e, _⟩) <;> cases e
  · intro _ n l e
    simp only [placeE, Except.ok.injEq, Prod.mk.injEq] at e
    obtain ⟨rfl, rfl⟩ := e
    exact ⟨1, cap_gt_one hok, rfl, by simp, fun h => absurd rfl h, fun hc => absurd rfl hc.2.1⟩

/-- the arguments of the reordering: the sorted position -/
theorem moveArgs_sorted (hok : cfg.Ok) (h : Inv cfg db.rows) {x : Row} (hx : x ∈ db.rows) {t : Row} (ht : t ∈ db.rows) (hd : ¬ t.isDescendantOf x = true)
    (ho : cfg.ordered = true) (hv : NonNull cfg.orderBy x.vals) (hroom : MoveRoom cfg db.rows x t .sortedSibling) {v : MoveVars}
    (e : moveSorted cfg db x ⟨t, t.depth, [], none, .sortedSibling⟩ = .ok (some v)) (hn : ¬ moveNoop cfg db x v = true) :
    v.target = t ∧ MoveArgs cfg db x (pp cfg.steplen t.path) v.pos v.newpos v.newdepth v.target v.sibs := by
  have hp := h.toPInv
  have hsub : ∀ s ∈ sortedPosQueryset cfg.orderBy Row.vals (siblings cfg db t) x.vals, s ∈ siblings cfg db t := by
    intro s hs
    exact (sortedPos_sublist cfg.orderBy Row.vals (siblings cfg db t) x.vals).subset hs
  have hgo : ∀ (first : Row) (k : Nat), (sortedPosQueryset cfg.orderBy Row.vals (siblings cfg db t) x.vals).head? = some first →
      lastpos cfg first.path = .ok k →
      MoveArgs cfg db x (pp cfg.steplen t.path) .sortedSibling (some (k : Int)) t.depth t (sortedPosQueryset cfg.orderBy Row.vals (siblings cfg db t) x.vals) := by
    intro first k hf hlp
    have hfm := List.mem_of_mem_head? (Option.mem_def.2 hf)
    obtain ⟨h1, h2⟩ := (mem_siblings hp hok ht).1 (hsub first hfm)
    obtain ⟨a, _, ha, hfe⟩ := hp.sib_pos h1 h2
    rw [hfe, lastpos_eq hok _ ha, Except.ok.injEq] at hlp
    subst hlp
    refine ⟨hp.isPar ht, pp_not_desc hok hp hx ht hd, depth_mul hp ht, hp.basepath hok ht, fun _ => ⟨ht, rfl⟩, ?_⟩
    intro _ n l e
    simp only [placeE, Except.ok.injEq, Prod.mk.injEq] at e
    obtain ⟨rfl, rfl⟩ := e
    refine ⟨a, ha, rfl, fun s hs => (mem_siblings hp hok ht).1 (hsub s hs), fun _ => ⟨ht, rfl⟩, fun hc => hroom hc.1 ⟨first, h1, h2, ?_, ?_⟩⟩
    · rw [hfe]; exact hc.2.2
    · exact ((mem_sortedPos (ordered_ne ho) hv first).1 hfm).2
  unfold moveSorted at e
  simp only [if_true] at e
  cases hf : (sortedPosQueryset cfg.orderBy Row.vals (siblings cfg db t) x.vals).head? with
  | none =>
    rw [hf] at e
    simp only [Except.ok.injEq, Option.some.injEq] at e
    subst e
    exact ⟨rfl, moveArgs_sib hok h hx ht hd hn (fun _ hl => hl.elim) rfl⟩
  | some first =>
    rw [hf] at e
    simp only at e
    cases hlp : lastpos cfg first.path with
    | error _ => rw [hlp] at e; cases e
    | ok k =>
      rw [hlp] at e
      simp only at e
      have := hgo first k hf hlp
      split at e
      · split at e
        · cases e
        · split at e
          · simp at e
          · simp only [Except.ok.injEq, Option.some.injEq] at e
            subst e
            exact ⟨rfl, this⟩
      · simp only [Except.ok.injEq, Option.some.injEq] at e
        subst e
        exact ⟨rfl, this⟩

theorem moveSorted_target {x : Row} {v0 v : MoveVars} (e : moveSorted cfg db x v0 = .ok (some v)) : v.target = v0.target := by
  unfold moveSorted at e
  simp only at e
  split at e
  · split at e
    · simp only [Except.ok.injEq, Option.some.injEq] at e; subst e; rfl
    · split at e
      · cases e
      · split at e
        · split at e
          · cases e
          · split at e
            · simp at e
            · simp only [Except.ok.injEq, Option.some.injEq] at e; subst e; rfl
        · simp only [Except.ok.injEq, Option.some.injEq] at e; subst e; rfl
  · simp only [Except.ok.injEq, Option.some.injEq] at e; subst e; rfl

end Verif.MP
