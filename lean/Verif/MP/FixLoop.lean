/-
MP: the two loops of `fix_tree(fix_paths=True)` over one group of siblings (mp_tree.py:181-238).
-/
import Verif.MP.FixGroup
import Verif.MP.Mirror

namespace Verif.MP

set_option linter.unusedSectionVars false

variable {cfg : Cfg} {rows : List Row}

/-- what the loops know in the middle of the work: `l` is the group as first read, `pos` the positions now;
the signals sent since `db₀` tell what has been done -/
structure Loop (cfg : Cfg) (db₀ : DB) (rows : List Row) (P : List Nat) (l : List Row) (g : List Nat → List Nat) (pos : Nat → Nat)
    (s : FixState) : Prop where
  placed : Placed cfg P l g pos
  table : s.db.rows = regroup cfg P g rows
  items : s.items = l.map (fun r => { r with path := P ++ stp cfg (pos r.pk) })
  seq : ∀ n k, s.seq n = some k ↔ ∃ r ∈ l, r.pk = k ∧ pos k = n
  top : ∀ r ∈ l, pos r.pk ≤ s.maxPos
  fed : ∀ w, Feeds cfg w db₀ s.db

/-- a rewriting that keeps the length is told by the signal -/
theorem rewritePath_feeds {db db' : DB} {w : Bool} (h : DepthsOk cfg w db) {old new : List Nat} (hlen : old.length = new.length)
    (e : rewritePath db old new = .ok db') : Feeds cfg w db db' := by
  simp only [rewritePath] at e
  split at e
  · cases e
    have key : ∀ r ∈ db.rows, ({ r with path := ren old new r.path } : Row).entry =
        (if old.isPrefixOf r.path then ⟨r.pk, new ++ r.path.drop old.length,
          if w = true ∨ old.length ≠ new.length then (new ++ r.path.drop old.length).length / cfg.steplen else r.depth⟩ else r.entry) := by
      intro r hr
      by_cases hp : old.isPrefixOf r.path = true
      · rw [if_pos hp]
        obtain ⟨u, hu⟩ := List.isPrefixOf_iff_prefix.1 hp
        simp only [Row.entry, Entry.mk.injEq, true_and]
        rw [ren_of_prefix u hu.symm, ← hu, List.drop_left]
        refine ⟨rfl, ?_⟩
        split
        · rename_i hw
          rcases hw with hw | hw
          · rw [h hw r hr, ← hu]
            simp only [List.length_append, hlen]
          · exact absurd hlen hw
        · rfl
      · rw [if_neg hp, ren_of_not_prefix (fun h => hp (List.isPrefixOf_iff_prefix.2 h))]
    by_cases hany : db.rows.any (fun r => old.isPrefixOf r.path) = true
    · refine ⟨[.pathUpdated old new], by simp [hany], ?_⟩
      simp only [entries, List.foldl_cons, List.foldl_nil, listenSig, List.map_map]
      exact List.map_congr_left key
    · refine ⟨[], by simp [hany], ?_⟩
      simp only [entries, List.foldl_nil, List.map_map]
      refine List.map_congr_left (fun r hr => ?_)
      simp only [List.any_eq_true, not_exists, not_and] at hany
      have := key r hr
      rw [if_neg (hany r hr)] at this
      exact this
  · cases e

theorem PInv.depthsOk (hok : cfg.Ok) {db : DB} {w : Bool} (h : PInv cfg db.rows) : DepthsOk cfg w db := by
  intro _ r hr
  rw [h.depth r hr]
  exact (Nat.mul_div_cancel _ hok.step).symm

theorem find_map_pk {l : List Row} (hnd : (l.map Row.pk).Nodup) (f : Row → Row) (hf : ∀ r, (f r).pk = r.pk) {r : Row} (hr : r ∈ l) :
    (l.map f).find? (·.pk == r.pk) = some (f r) := by
  induction l with
  | nil => simp at hr
  | cons a m ih =>
    rw [List.map_cons, List.nodup_cons] at hnd
    rw [List.map_cons, List.find?_cons]
    rcases List.mem_cons.1 hr with rfl | hm
    · simp [hf]
    · have : a.pk ≠ r.pk := by
        intro e; exact hnd.1 (by rw [e]; exact List.mem_map_of_mem hm)
      rw [show ((f a).pk == r.pk) = false by simp [hf, this]]
      exact ih hnd.2 hm

section

variable {db₀ : DB} {P : List Nat} {l : List Row} {g : List Nat → List Nat} {pos : Nat → Nat} {s : FixState} {d : Nat} (hok : cfg.Ok)
  (h : PInv cfg rows) (hP : IsPar rows P) (hk : Kids cfg rows P l) (hl : Loop cfg db₀ rows P l g pos s)
  (hd : P.length + cfg.steplen = d * cfg.steplen)

include hok hk hl in
theorem Loop.pathOf {r : Row} (hr : r ∈ l) : MP.pathOf s.items r.pk = P ++ stp cfg (pos r.pk) := by
  unfold MP.pathOf
  rw [hl.items, find_map_pk hk.nodup (fun r => { r with path := P ++ stp cfg (pos r.pk) }) (fun _ => rfl) hr]
  rfl

include hok hk hl in
theorem Loop.numOf {r : Row} (hr : r ∈ l) : MP.numOf s.items r.pk = r.numchild := by
  unfold MP.numOf
  rw [hl.items, find_map_pk hk.nodup (fun r => { r with path := P ++ stp cfg (pos r.pk) }) (fun _ => rfl) hr]
  rfl

include hok hd in
theorem group_depth : 1 ≤ d ∧ P.length = (d - 1) * cfg.steplen := by
  have hs := hok.step
  have h1 : 1 ≤ d := by
    rcases Nat.eq_zero_or_pos d with e | e
    · subst e; simp at hd; omega
    · exact e
  refine ⟨h1, ?_⟩
  obtain ⟨e, rfl⟩ : ∃ e, d = e + 1 := ⟨d - 1, by omega⟩
  rw [Nat.add_mul] at hd
  simp
  omega

include hok hd in
theorem group_getPath {n : Nat} (hn : n < cfg.cap) : getPath cfg P (d : Int) (n : Int) = .ok (P ++ stp cfg n) := by
  obtain ⟨h1, h2⟩ := group_depth hok hd
  rw [getPath_eq hok P _ hn, basepath_pred P h1, ← h2, List.take_length]

include hok hd in
theorem group_getPath_long {n : Nat} (hn : cfg.cap ≤ n) :
    ∃ q, getPath cfg P (d : Int) (n : Int) = .ok q ∧ P.length + cfg.steplen < q.length := by
  obtain ⟨h1, h2⟩ := group_depth hok hd
  obtain ⟨key, e, hkey⟩ := int2str_long hok hn
  unfold getPath
  rw [e, basepath_pred P h1, ← h2, List.take_length]
  refine ⟨_, rfl, ?_⟩
  simp only [List.length_append]
  omega

include hok h hP hk hl in
/-- a node of the group is given a free position -/
theorem Loop.move {x : Row} (hx : x ∈ l) {n : Nat} (h1 : 1 ≤ n) (hn : n < cfg.cap) (hno : ∀ r ∈ l, pos r.pk ≠ n) :
    ∃ db' g', rewritePath s.db (P ++ stp cfg (pos x.pk)) (P ++ stp cfg n) = .ok db' ∧
      ∀ m, s.maxPos ≤ m → n ≤ m →
      Loop cfg db₀ rows P l g' (Function.update pos x.pk n)
        { db := db', items := setPath s.items x.pk (P ++ stp cfg n),
          seq := setKey (setKey s.seq n (some x.pk)) (pos x.pk) none, maxPos := m } := by
  obtain ⟨db', g', e, hrows, hpl⟩ := rewritePath_spec hok h hP hk hl.placed hx h1 hn hno hl.table
  refine ⟨db', g', e, fun m hm hnm => ⟨hpl, hrows, ?_, ?_, ?_, ?_⟩⟩
  · simp only [setPath]
    rw [hl.items, List.map_map]
    refine List.map_congr_left (fun r hr => ?_)
    simp only [Function.comp_apply, Function.update_apply, beq_iff_eq]
    by_cases e : r.pk = x.pk
    · rw [if_pos e, if_pos e]
    · rw [if_neg e, if_neg e]
  · intro q k
    simp only [setKey]
    have hxp := hno x hx
    by_cases hq : q = pos x.pk
    · rw [if_pos hq]
      constructor
      · intro hc; cases hc
      · rintro ⟨r, hr, rfl, e⟩
        exfalso
        rw [Function.update_apply] at e
        by_cases er : r.pk = x.pk
        · rw [if_pos er] at e; exact hxp (by rw [e, hq])
        · rw [if_neg er, hq] at e
          exact er (by rw [placed_inj hok h hP hk hl.placed hr hx e])
    · rw [if_neg hq]
      by_cases hqn : q = n
      · rw [if_pos hqn]
        constructor
        · intro e; cases e
          exact ⟨x, hx, rfl, by simp [hqn]⟩
        · rintro ⟨r, hr, rfl, e⟩
          rw [Function.update_apply] at e
          by_cases er : r.pk = x.pk
          · rw [er]
          · rw [if_neg er] at e; exact absurd (by rw [e, hqn]) (hno r hr)
      · rw [if_neg hqn, hl.seq]
        constructor
        · rintro ⟨r, hr, rfl, e⟩
          refine ⟨r, hr, rfl, ?_⟩
          rw [Function.update_apply, if_neg]
          · exact e
          · intro er; exact hq (by rw [← e, er])
        · rintro ⟨r, hr, rfl, e⟩
          refine ⟨r, hr, rfl, ?_⟩
          rw [Function.update_apply] at e
          by_cases er : r.pk = x.pk
          · rw [if_pos er] at e; exact absurd e.symm hqn
          · rw [if_neg er] at e; exact e
  · intro r hr
    simp only [Function.update_apply]
    split
    · exact hnm
    · exact Nat.le_trans (hl.top r hr) hm
  · intro w
    refine (hl.fed w).trans (rewritePath_feeds (PInv.depthsOk hok ?_) ?_ e)
    · rw [hl.table]; exact regroup_PInv hok h hP hk hl.placed
    · simp only [List.length_append, stp_length hok hn, stp_length hok (hl.placed.place x hx).2.1]

include hok h hP hk hl hd in
/-- afterwards the position is free; nodes that were elsewhere have not moved.  It fails only when the position is taken and there is
no room behind the last node. -/
theorem evict_spec {i : Nat} :
    (∃ s' g' pos', evict cfg P d i s = .ok s' ∧ Loop cfg db₀ rows P l g' pos' s' ∧ (∀ r ∈ l, pos' r.pk ≠ i) ∧
      ∀ r ∈ l, pos r.pk ≠ i → pos' r.pk = pos r.pk) ∨
    (evict cfg P d i s = .error .pathOverflow ∧ ∃ r ∈ l, pos r.pk = i) := by
  unfold evict
  cases e : s.seq i with
  | none =>
    refine Or.inl ⟨s, g, pos, rfl, hl, ?_, fun _ _ _ => rfl⟩
    intro r hr er
    have := (hl.seq i r.pk).2 ⟨r, hr, rfl, er⟩
    rw [e] at this; cases this
  | some k =>
    obtain ⟨x, hx, rfl, ex⟩ := (hl.seq i k).1 e
    simp only
    rw [hl.pathOf hok hk hx]
    have hplen : (P ++ stp cfg (pos x.pk)).length = P.length + cfg.steplen := by
      rw [List.length_append, stp_length hok (hl.placed.place x hx).2.1]
    by_cases hcap : s.maxPos + 1 < cfg.cap
    · left
      rw [group_getPath hok hd hcap]
      simp only
      rw [if_neg (by rw [hplen, List.length_append, stp_length hok hcap]; omega)]
      obtain ⟨db', g', e', hL⟩ := hl.move hok h hP hk hx (n := s.maxPos + 1) (by omega) hcap
        (fun r hr => by have := hl.top r hr; omega)
      rw [e']
      have hL := hL (s.maxPos + 1) (by omega) (Nat.le_refl _)
      rw [ex] at hL
      refine ⟨_, g', _, rfl, hL, ?_, ?_⟩
      · intro r hr
        rw [Function.update_apply]
        split
        · have := hl.top x hx; omega
        · intro er
          rename_i hne
          exact hne (by rw [placed_inj hok h hP hk hl.placed hr hx (by rw [er, ex])])
      · intro r hr hne
        rw [Function.update_apply, if_neg]
        intro er; exact hne (by rw [er, ex])
    · right
      obtain ⟨q, eq, hq⟩ := group_getPath_long hok hd (Nat.le_of_not_lt hcap)
      rw [eq]
      simp only
      rw [if_pos (by rw [hplen]; exact hq)]
      exact ⟨rfl, x, hx, ex⟩

include hok h hP hk in
/-- the positions are different numbers from 1 on -/
theorem length_le (hp : Placed cfg P l g pos) {m : Nat} (hm : ∀ r ∈ l, pos r.pk ≤ m) : l.length ≤ m := by
  have hnd : (l.map (fun r => pos r.pk)).Nodup := by
    rw [List.nodup_iff_pairwise_ne, List.pairwise_map]
    have := List.nodup_iff_pairwise_ne.1 (List.Nodup.of_map _ hk.nodup)
    refine this.imp_of_mem ?_
    intro a b ha hb hne e
    exact hne (placed_inj hok h hP hk hp ha hb e)
  have hsub : l.map (fun r => pos r.pk) ⊆ List.range' 1 m := by
    intro n hn
    obtain ⟨r, hr, rfl⟩ := List.mem_map.1 hn
    have := hm r hr
    have := (hp.place r hr).1
    rw [List.mem_range'_1]
    omega
  have := (List.subperm_of_subset hnd hsub).length_le
  simpa using this

include hok h hP hk hl hd in
theorem fixItem_spec {i : Nat} (hi : i < l.length) {x : Row} (hx : x ∈ l) :
    (∃ s' g' pos', fixItem cfg P d i x.pk s = .ok s' ∧ Loop cfg db₀ rows P l g' pos' s' ∧ pos' x.pk = i + 1 ∧
      ∀ r ∈ l, r ≠ x → pos r.pk ≠ i + 1 → pos' r.pk = pos r.pk) ∨
    (fixItem cfg P d i x.pk s = .error .pathOverflow ∧ ∃ r ∈ l, r ≠ x ∧ pos r.pk = i + 1) := by
  have hmaxl := fun m => length_le hok h hP hk hl.placed (m := m)
  have hcap : i + 1 < cfg.cap := by
    have := hmaxl (cfg.cap - 1) (fun r hr => by have := (hl.placed.place r hr).2.1; omega)
    have := (hl.placed.place x hx).2.1
    omega
  unfold fixItem
  rw [hl.pathOf hok hk hx, lastpos_eq hok P (hl.placed.place x hx).2.1]
  simp only
  by_cases ha : pos x.pk = i + 1
  · rw [if_pos ha]
    exact Or.inl ⟨s, g, pos, rfl, hl, ha, fun _ _ _ _ => rfl⟩
  · rw [if_neg ha]
    rcases evict_spec (i := i + 1) hok h hP hk hl hd with ⟨s', g', pos', e, hl', hfree, hsame⟩ | ⟨e, r, hr, er⟩
    · left
      rw [e]
      simp only
      rw [group_getPath hok hd hcap]
      simp only
      rw [hl'.pathOf hok hk hx]
      obtain ⟨db', g'', e', hL⟩ := hl'.move hok h hP hk hx (n := i + 1) (by omega) hcap hfree
      rw [e']
      simp only
      have hpx := hsame x hx ha
      rw [if_neg]
      · have hmx : i + 1 ≤ s'.maxPos := by
          have := length_le hok h hP hk hl'.placed hl'.top
          omega
        have hL := hL s'.maxPos (Nat.le_refl _) hmx
        rw [hpx] at hL
        refine ⟨_, g'', _, rfl, hL, by simp, ?_⟩
        intro r hr hne hri
        rw [Function.update_apply, if_neg]
        · exact hsame r hr hri
        · intro er
          exact hne (nodup_map_inj hk.nodup hr hx er)
      · simp only [setKey]
        rw [if_neg ha, (hl'.seq (pos x.pk) x.pk).2 ⟨x, hx, rfl, hpx⟩]
        simp
    · right
      rw [e]
      exact ⟨rfl, r, hr, by rintro rfl; exact ha er, er⟩

include hok h hP hk hd in
/-- The whole second loop.  `done` has been put in its place.  If the nodes not yet done stand in the order of their positions, nothing
is ever in the way, so the loop cannot fail. -/
theorem fixItems_spec {todo : List Row} : ∀ {done : List Row} {g : List Nat → List Nat} {pos : Nat → Nat} {s : FixState},
    l = done ++ todo → Loop cfg db₀ rows P l g pos s → (∀ j r, done[j]? = some r → pos r.pk = j + 1) →
    (∃ g' pos' db' q, fixItems cfg P d (todo.map Row.pk) done.length s = .ok (db', q) ∧ db'.rows = regroup cfg P g' rows ∧
      (∀ w, Feeds cfg w db₀ db') ∧ Placed cfg P l g' pos' ∧ (∀ j r, l[j]? = some r → pos' r.pk = j + 1) ∧
      q = (todo.filter (fun r => r.numchild ≠ 0)).map (fun r => (P ++ stp cfg (pos' r.pk), d + 1))) ∨
    (fixItems cfg P d (todo.map Row.pk) done.length s = .error .pathOverflow ∧ ¬ l.Pairwise (fun a b => pos a.pk < pos b.pk)) := by
  induction todo with
  | nil =>
    intro done g pos s e hl hdone
    rw [List.append_nil] at e
    subst e
    exact Or.inl ⟨g, pos, s.db, [], rfl, hl.table, hl.fed, hl.placed, hdone, rfl⟩
  | cons x todo ih =>
    intro done g pos s e hl hdone
    have hlen : done.length < l.length := by rw [e]; simp
    have hx : x ∈ l := by rw [e]; simp
    have hne : ∀ r ∈ done, r ≠ x := by
      rintro r hr rfl
      have := List.Nodup.of_map _ hk.nodup
      rw [e, List.nodup_append] at this
      exact this.2.2 r hr r (by simp) rfl
    have hpd : ∀ r ∈ done, pos r.pk ≤ done.length := by
      intro r hr
      obtain ⟨j, hj⟩ := List.mem_iff_getElem?.1 hr
      have := hdone j r hj
      have hj' := (List.getElem?_eq_some_iff.1 hj).1
      omega
    -- in an ordered group `x` and the nodes after it stand behind the nodes already done
    have hxge : l.Pairwise (fun a b => pos a.pk < pos b.pk) → done.length + 1 ≤ pos x.pk := by
      intro hsorted
      rw [e, List.pairwise_append] at hsorted
      obtain ⟨-, -, h3⟩ := hsorted
      have hb : ∀ r ∈ done ++ [x], pos r.pk ≤ pos x.pk := by
        intro r hr
        rcases List.mem_append.1 hr with hr | hr
        · exact Nat.le_of_lt (h3 r hr x (by simp))
        · simp at hr; subst hr; exact Nat.le_refl _
      have hkd : (done ++ [x]).length ≤ pos x.pk := by
        have hnd : ((done ++ [x]).map (fun r => pos r.pk)).Nodup := by
          rw [List.nodup_iff_pairwise_ne, List.pairwise_map]
          have hnn := List.Nodup.of_map _ hk.nodup
          rw [show l = (done ++ [x]) ++ todo by rw [e]; simp] at hnn
          have := List.nodup_iff_pairwise_ne.1 (List.nodup_append.1 hnn).1
          refine this.imp_of_mem ?_
          intro a b ha hb hne e'
          refine hne (placed_inj hok h hP hk hl.placed ?_ ?_ e')
          · rw [e]; simp at ha ⊢; tauto
          · rw [e]; simp at hb ⊢; tauto
        have hsub : (done ++ [x]).map (fun r => pos r.pk) ⊆ List.range' 1 (pos x.pk) := by
          intro n hn
          obtain ⟨r, hr, rfl⟩ := List.mem_map.1 hn
          have h1 := hb r hr
          have h2 := (hl.placed.place r (by rw [e]; simp at hr ⊢; tauto)).1
          rw [List.mem_range'_1]
          omega
        have := (List.subperm_of_subset hnd hsub).length_le
        simpa using this
      simpa using hkd
    rw [List.map_cons]
    unfold fixItems
    rcases fixItem_spec hok h hP hk hl hd hlen hx with ⟨s', g', pos', e1, hl', hpx, hsame⟩ | ⟨e1, r, hr, hrx, er⟩
    · rw [e1]
      simp only
      have hdone' : ∀ j r, (done ++ [x])[j]? = some r → pos' r.pk = j + 1 := by
        intro j r hj
        rcases Nat.lt_trichotomy j done.length with hlt | heq | hgt
        · rw [List.getElem?_append_left hlt] at hj
          have hm := List.mem_of_getElem? hj
          rw [hsame r (by rw [e]; exact List.mem_append_left _ hm) (hne r hm) (by have := hpd r hm; omega)]
          exact hdone j r hj
        · subst heq
          simp at hj
          subst hj
          exact hpx
        · rw [List.getElem?_eq_none (by simp; omega)] at hj; cases hj
      have hih := ih (done := done ++ [x]) (by rw [e]; simp) hl' hdone'
      rw [show (done ++ [x]).length = done.length + 1 by simp] at hih
      rcases hih with ⟨g'', pos'', db', q, e2, hrows, hfed, hpl, hpos, hq⟩ | ⟨e2, hno⟩
      · left
        refine ⟨g'', pos'', db', _, by rw [e2], hrows, hfed, hpl, hpos, ?_⟩
        have hpx'' : pos'' x.pk = done.length + 1 := by
          refine hpos done.length x ?_
          rw [e]; simp
        rw [hl'.pathOf hok hk hx, hl'.numOf hok hk hx, hq, List.filter_cons, hpx, ← hpx'']
        by_cases hn : x.numchild = 0 <;> simp [hn]
      · right
        refine ⟨by rw [e2], ?_⟩
        intro hsorted
        apply hno
        refine hsorted.imp_of_mem ?_
        intro a b ha hb hab
        have hall := hsorted
        rw [e, List.pairwise_append] at hall
        obtain ⟨-, h2, h3⟩ := hall
        rw [List.pairwise_cons] at h2
        have hxge := hxge hsorted
        have hval : ∀ r ∈ l, r ≠ x → pos' r.pk = pos r.pk := by
          intro r hr hrx
          refine hsame r hr hrx ?_
          rw [e] at hr
          rcases List.mem_append.1 hr with hr | hr
          · have := hpd r hr; omega
          · rcases List.mem_cons.1 hr with rfl | hr
            · exact absurd rfl hrx
            · have := h2.1 r hr; omega
        by_cases hax : a = x
        · subst hax
          have hbx : b ≠ a := by rintro rfl; omega
          rw [hpx, hval b hb hbx]; omega
        · by_cases hbx : b = x
          · subst hbx
            rw [hpx, hval a ha hax]
            rw [e] at ha
            rcases List.mem_append.1 ha with ha | ha
            · have := hpd a ha; omega
            · rcases List.mem_cons.1 ha with rfl | ha
              · exact absurd rfl hax
              · have := h2.1 a ha; omega
          · rw [hval a ha hax, hval b hb hbx]; exact hab
    · right
      rw [e1]
      refine ⟨rfl, ?_⟩
      intro hsorted
      have hxge := hxge hsorted
      rw [e, List.pairwise_append] at hsorted
      obtain ⟨-, h2, h3⟩ := hsorted
      rw [List.pairwise_cons] at h2
      rw [e] at hr
      rcases List.mem_append.1 hr with hr | hr
      · have := hpd r hr; omega
      · rcases List.mem_cons.1 hr with rfl | hr
        · exact hrx rfl
        · have := h2.1 r hr; omega

end

end Verif.MP
