/-
MP: one branch rename (`_set_newpath_in_branches`) and the loop shifting siblings.
-/
import Verif.MP.Inv

namespace Verif.MP

variable {cfg : Cfg}

/-! ### Maps of rows -/

/-- a change of rows touching only paths and depths -/
structure Keeps (f : Row → Row) : Prop where
  pk : ∀ r, (f r).pk = r.pk
  num : ∀ r, (f r).numchild = r.numchild
  vals : ∀ r, (f r).vals = r.vals

theorem Keeps.id : Keeps (fun r => r) := ⟨fun _ => rfl, fun _ => rfl, fun _ => rfl⟩

theorem Keeps.comp {f g : Row → Row} (hf : Keeps f) (hg : Keeps g) : Keeps (fun r => g (f r)) :=
  ⟨fun r => by rw [hg.pk, hf.pk], fun r => by rw [hg.num, hf.num], fun r => by rw [hg.vals, hf.vals]⟩

theorem keeps_newpathRow (old new : List Nat) : Keeps (newpathRow cfg old new) := by
  constructor <;> intro r <;> unfold newpathRow <;> split <;> rfl

theorem newpathRow_path (old new : List Nat) (r : Row) :
    (newpathRow cfg old new r).path = ren old new r.path := by
  unfold newpathRow ren; split <;> rfl

/-- same forest when parents and order are kept -/
theorem PF_map_same {rows : List Row} {f : Row → Row} (h : PI cfg rows) (h' : PI cfg (rows.map f))
    (hpk : ∀ r ∈ rows, (f r).pk = r.pk) (hpar : ∀ r ∈ rows, par cfg (rows.map f) (f r) = par cfg rows r)
    (hlt : ∀ r ∈ rows, ∀ q ∈ rows, par cfg rows r = par cfg rows q → r.path < q.path → (f r).path < (f q).path) :
    PF cfg (rows.map f) = PF cfg rows := by
  have h1 := (shows_pforest h').pullback (· ∈ rows) f (fun r' => by simp [List.mem_map])
    (fun a b ha hb e => h.pk_inj ha hb (by rw [← hpk a ha, ← hpk b hb]; exact e))
  have h2 := shows_pforest h
  have h3 := h2.congr (T' := (· ∈ rows)) (par' := fun r => par cfg (rows.map f) (f r))
    (lt' := fun a b => (f a).path < (f b).path) (fun r => Iff.rfl) (fun r hr => (hpar r hr).symm)
    (fun r s hr hs => hlt r hr s hs)
  funext p
  obtain ⟨l, e, s, m⟩ := h1.lists p
  obtain ⟨l', e', s', m'⟩ := h3.lists p
  have : l = l' := sorted_unique (T := (· ∈ rows)) (fun a b _ _ hab => plt_asymm hab)
    (fun r hr => ((m r).1 hr).1) s s' (fun r => by rw [m, m'])
  show pforest _ _ _ _ p = pforest _ _ _ _ p
  rw [e, e', this]
  exact List.map_congr_left (fun r hr => hpk r ((m' r).1 hr).1)

theorem at?_map {rows : List Row} {f : Row → Row} (hpk : ∀ r ∈ rows, (f r).pk = r.pk)
    (hpath : ∀ r ∈ rows, (f r).path = r.path) (p : List Nat) : at? (rows.map f) p = at? rows p := by
  induction rows with
  | nil => rfl
  | cons a l ih =>
    have ih := ih (fun r hr => hpk r (by simp [hr])) (fun r hr => hpath r (by simp [hr]))
    simp only [at?, pkAt, List.map_cons, List.find?_cons] at ih ⊢
    rw [hpath a (by simp)]
    by_cases hp : a.path = p
    · simp [hp, hpk a (by simp)]
    · simp only [hp, decide_false]
      exact ih

theorem PInv.map_same {rows : List Row} {f : Row → Row} (h : PInv cfg rows)
    (hpk : ∀ r ∈ rows, (f r).pk = r.pk) (hpath : ∀ r ∈ rows, (f r).path = r.path)
    (hd : ∀ r ∈ rows, (f r).depth = r.depth) : PInv cfg (rows.map f) := by
  have e1 : (rows.map f).map Row.pk = rows.map Row.pk := by
    rw [List.map_map]; exact List.map_congr_left hpk
  have e2 : (rows.map f).map Row.path = rows.map Row.path := by
    rw [List.map_map]; exact List.map_congr_left hpath
  refine ⟨⟨by rw [e1]; exact h.inv.pkNodup, by rw [e2]; exact h.inv.pathNodup, ?_, ?_⟩, ?_, ?_, ?_⟩
  · intro r' hr'
    obtain ⟨r, hr, rfl⟩ := List.mem_map.1 hr'
    rw [hpath r hr]; exact h.inv.len r hr
  · intro r' hr' hl
    obtain ⟨r, hr, rfl⟩ := List.mem_map.1 hr'
    rw [hpath r hr] at hl ⊢
    obtain ⟨q, hq, e⟩ := h.inv.closed r hr hl
    exact ⟨f q, List.mem_map_of_mem hq, by rw [hpath q hq, e]⟩
  · intro r' hr'
    obtain ⟨r, hr, rfl⟩ := List.mem_map.1 hr'
    rw [hpath r hr]; exact h.chars r hr
  · intro r' hr'
    obtain ⟨r, hr, rfl⟩ := List.mem_map.1 hr'
    rw [hpath r hr, hd r hr]; exact h.depth r hr
  · intro r' hr'
    obtain ⟨r, hr, rfl⟩ := List.mem_map.1 hr'
    rw [hpath r hr]; exact h.pos r hr

theorem PF_map_path {rows : List Row} {f : Row → Row} (h : PInv cfg rows)
    (hpk : ∀ r ∈ rows, (f r).pk = r.pk) (hpath : ∀ r ∈ rows, (f r).path = r.path)
    (hd : ∀ r ∈ rows, (f r).depth = r.depth) : PF cfg (rows.map f) = PF cfg rows := by
  refine PF_map_same h.inv (h.map_same hpk hpath hd).inv hpk ?_ ?_
  · intro r hr
    simp only [par, parOf, hpath r hr]
    exact at?_map hpk hpath _
  · intro r hr q hq _ hlt
    rw [hpath r hr, hpath q hq]; exact hlt

/-- a parent path: the root level or the path of a row -/
def IsPar (rows : List Row) (P : List Nat) : Prop := P = [] ∨ ∃ q ∈ rows, q.path = P

theorem IsPar.chars (h : PInv cfg rows) {P : List Nat} (hP : IsPar rows P) : ∀ c ∈ P, c ∈ cfg.alphabet := by
  rcases hP with rfl | ⟨q, hq, rfl⟩
  · simp
  · exact h.chars q hq

theorem IsPar.dvd (h : PInv cfg rows) {P : List Nat} (hP : IsPar rows P) : cfg.steplen ∣ P.length := by
  rcases hP with rfl | ⟨q, hq, rfl⟩
  · simp
  · exact (h.inv.len q hq).1

/-- every row below `p` has an ancestor (or itself) exactly at `p` -/
theorem PInv.prefix_row (h : PInv cfg rows) (hok : cfg.Ok) {p : List Nat} (hl : cfg.steplen ∣ p.length)
    (hp : p ≠ []) : ∀ (n : Nat) (r : Row), r ∈ rows → r.path.length ≤ n → p <+: r.path →
      ∃ q ∈ rows, q.path = p := by
  have hs := hok.step
  intro n
  induction n with
  | zero =>
    intro r hr hn
    have := (h.inv.len r hr).2
    omega
  | succ n ih =>
    intro r hr hn hpre
    by_cases he : r.path = p
    · exact ⟨r, hr, he⟩
    · obtain ⟨u, hu⟩ := hpre
      have hul : u ≠ [] := by
        rintro rfl; exact he (by simpa using hu.symm)
      have hlr := (h.inv.len r hr)
      have hsum : r.path.length = p.length + u.length := by rw [← hu]; simp
      have hu2 : cfg.steplen ∣ u.length := by
        rw [hsum] at hlr; exact (Nat.dvd_add_right hl).1 hlr.1
      have hu3 : cfg.steplen ≤ u.length := Nat.le_of_dvd (List.length_pos_of_ne_nil hul) hu2
      have hp1 : 0 < p.length := List.length_pos_of_ne_nil hp
      obtain ⟨q, hq, hqp⟩ := h.inv.closed r hr (by omega)
      have hql : q.path.length = r.path.length - cfg.steplen := by rw [hqp, pp_length]
      refine ih q hq (by omega) ?_
      rw [hqp, ← hu, pp_append hu3]
      exact List.prefix_append _ _

theorem PInv.vacant (h : PInv cfg rows) (hok : cfg.Ok) {p : List Nat} (hl : cfg.steplen ∣ p.length)
    (hp : p ≠ []) (hno : ∀ r ∈ rows, r.path ≠ p) : ∀ r ∈ rows, ¬ p <+: r.path := by
  intro r hr hpre
  obtain ⟨q, hq, e⟩ := h.prefix_row hok hl hp _ r hr le_rfl hpre
  exact hno q hq e

theorem step_dvd (hok : cfg.Ok) {P : List Nat} (hP : cfg.steplen ∣ P.length) {n : Nat} (hn : n < cfg.cap) :
    cfg.steplen ∣ (P ++ stp cfg n).length := by
  rw [List.length_append, stp_length hok hn]
  exact Nat.dvd_add hP (Nat.dvd_refl _)

theorem step_len (hok : cfg.Ok) (P : List Nat) {n : Nat} (hn : n < cfg.cap) :
    (P ++ stp cfg n).length = P.length + cfg.steplen := by
  rw [List.length_append, stp_length hok hn]

theorem step_ne_nil (hok : cfg.Ok) (P : List Nat) {n : Nat} (hn : n < cfg.cap) : P ++ stp cfg n ≠ [] := by
  intro e
  have := step_len hok P hn
  rw [e] at this
  have := hok.step
  simp at *
  omega

theorem pp_step (hok : cfg.Ok) (P : List Nat) {n : Nat} (hn : n < cfg.cap) :
    pp cfg.steplen (P ++ stp cfg n) = P := pp_append_step (stp_length hok hn)

theorem canRen (h : PInv cfg rows) (hok : cfg.Ok) {x : Row} (hx : x ∈ rows) {P : List Nat} {n : Nat}
    (hn : n < cfg.cap) (hP : IsPar rows P) (hPx : ¬ x.path <+: P)
    (hno : ∀ r ∈ rows, r.path ≠ P ++ stp cfg n) :
    CanRen cfg.steplen Row.path rows x (P ++ stp cfg n) := by
  have hd := step_dvd hok (hP.dvd h) hn
  refine ⟨hx, ⟨hd, by rw [step_len hok P hn]; omega⟩, h.vacant hok hd (step_ne_nil hok P hn) hno, ?_⟩
  rw [pp_step hok P hn]
  rcases hP with rfl | ⟨q, hq, rfl⟩
  · left; rw [List.nil_append, stp_length hok hn]
  · exact Or.inr ⟨q, hq, rfl, hPx⟩

/-- renaming a branch keeps the path invariant -/
theorem newpath_PInv (h : PInv cfg rows) (hok : cfg.Ok) {x : Row} (hx : x ∈ rows) {P : List Nat} {n : Nat}
    (h1 : 1 ≤ n) (hn : n < cfg.cap) (hP : IsPar rows P) (hPx : ¬ x.path <+: P)
    (hno : ∀ r ∈ rows, r.path ≠ P ++ stp cfg n) :
    PInv cfg (rows.map (newpathRow cfg x.path (P ++ stp cfg n))) := by
  have hc := canRen h hok hx hn hP hPx hno
  have hinv := ren_inv h.inv hok.step hc (f := newpathRow cfg x.path (P ++ stp cfg n))
    (fun r _ => (keeps_newpathRow _ _).pk r) (fun r _ => newpathRow_path _ _ r)
  refine ⟨hinv, ?_, ?_, ?_⟩
  · intro r' hr'
    obtain ⟨r, hr, rfl⟩ := List.mem_map.1 hr'
    rw [newpathRow_path]
    intro c hcm
    by_cases hpre : x.path <+: r.path
    · obtain ⟨u, hu⟩ := hpre
      rw [ren_of_prefix u hu.symm] at hcm
      rcases List.mem_append.1 hcm with hcm | hcm
      · rcases List.mem_append.1 hcm with hcm | hcm
        · exact hP.chars h c hcm
        · exact stp_chars hok hn c hcm
      · exact h.chars r hr c (by rw [← hu]; simp [hcm])
    · rw [ren_of_not_prefix hpre] at hcm; exact h.chars r hr c hcm
  · intro r' hr'
    obtain ⟨r, hr, rfl⟩ := List.mem_map.1 hr'
    have hl := (hinv.len _ hr').1
    unfold newpathRow at hl ⊢
    split
    · rename_i hpre
      rw [if_pos hpre] at hl
      simp only at hl ⊢
      split
      · exact (Nat.div_mul_cancel hl).symm
      · rename_i he
        rw [not_not] at he
        rw [← h.depth r hr]
        rw [List.isPrefixOf_iff_prefix] at hpre
        have := hpre.length_le
        simp only [List.length_append, List.length_drop] at he ⊢
        omega
    · exact h.depth r hr
  · intro r' hr'
    obtain ⟨r, hr, rfl⟩ := List.mem_map.1 hr'
    rw [newpathRow_path]
    by_cases hpre : x.path <+: r.path
    · obtain ⟨u, hu⟩ := hpre
      rw [ren_of_prefix u hu.symm]
      by_cases hrx : r = x
      · subst hrx
        have : u = [] := by simpa using hu
        subst this
        refine ⟨n, h1, hn, ?_⟩
        rw [List.append_nil, pp_step hok P hn]
      · have hul := branch_long h.inv hx hr hrx hu.symm
        obtain ⟨k, hk1, hk2, hk3⟩ := h.pos r hr
        refine ⟨k, hk1, hk2, ?_⟩
        rw [← hu, pp_append hul, List.append_assoc] at hk3
        rw [pp_append hul, List.append_assoc (P ++ stp cfg n), ← List.append_cancel_left hk3]
    · rw [ren_of_not_prefix hpre]; exact h.pos r hr

theorem uniquePaths_iff {rows : List Row} : uniquePaths rows = true ↔ (rows.map Row.path).Nodup := by
  simp [uniquePaths]

theorem setNewpath_ok (h : PInv cfg db.rows) (hok : cfg.Ok) {x : Row} (hx : x ∈ db.rows) {P : List Nat} {n : Nat}
    (h1 : 1 ≤ n) (hn : n < cfg.cap) (hP : IsPar db.rows P) (hPx : ¬ x.path <+: P)
    (hno : ∀ r ∈ db.rows, r.path ≠ P ++ stp cfg n) :
    ∃ db', setNewpath cfg db x.path (P ++ stp cfg n) = .ok db' ∧
      db'.rows = db.rows.map (newpathRow cfg x.path (P ++ stp cfg n)) := by
  unfold setNewpath
  have := (newpath_PInv h hok hx h1 hn hP hPx hno).inv.pathNodup
  rw [← uniquePaths_iff] at this
  simp only [this, if_true]
  exact ⟨_, rfl, rfl⟩

/-- nothing below `old`: nothing happens -/
theorem newpathRow_none {old new : List Nat} {rows : List Row} (hno : ∀ r ∈ rows, ¬ old <+: r.path) :
    rows.map (newpathRow cfg old new) = rows := by
  conv_rhs => rw [← List.map_id rows]
  apply List.map_congr_left
  intro r hr
  unfold newpathRow
  rw [if_neg (by rw [List.isPrefixOf_iff_prefix]; exact hno r hr)]
  rfl

theorem setNewpath_none (h : PInv cfg db.rows) {old new : List Nat} (hno : ∀ r ∈ db.rows, ¬ old <+: r.path) :
    ∃ db', setNewpath cfg db old new = .ok db' ∧ db'.rows = db.rows := by
  unfold setNewpath
  simp only [newpathRow_none hno]
  have := h.inv.pathNodup
  rw [← uniquePaths_iff] at this
  simp only [this, if_true]
  exact ⟨_, rfl, rfl⟩

/-! ### The shift loop -/

/-- what the loop does to a path: positions `a, .., a+k-1` below `P` go one step to the right -/
def sh (cfg : Cfg) (P : List Nat) (a : Nat) : Nat → List Nat → List Nat
  | 0, p => p
  | k + 1, p => sh cfg P a k (ren (P ++ stp cfg (a + k)) (P ++ stp cfg (a + k + 1)) p)

/-- the paths of positions `a, .., a+k-1` -/
def run (cfg : Cfg) (P : List Nat) (a k : Nat) : List (List Nat) :=
  (List.range k).map (fun i => P ++ stp cfg (a + i))

theorem run_succ_reverse (P : List Nat) (a k : Nat) :
    (run cfg P a (k + 1)).reverse = (P ++ stp cfg (a + k)) :: (run cfg P a k).reverse := by
  simp [run, List.range_succ]

theorem step_not_prefix (hok : cfg.Ok) {P : List Nat} {n m : Nat} (hn : n < cfg.cap) (hm : m < cfg.cap)
    (hne : n ≠ m) : ¬ (P ++ stp cfg n) <+: (P ++ stp cfg m) := by
  intro hp
  have := hp.eq_of_length (by rw [step_len hok P hn, step_len hok P hm])
  exact hne (stp_inj hok hn hm (List.append_cancel_left this))

theorem sh_sib (hok : cfg.Ok) (P : List Nat) {a : Nat} : ∀ (k : Nat), a + k < cfg.cap → ∀ {n : Nat}, n < cfg.cap →
    n ≠ a + k → sh cfg P a k (P ++ stp cfg n) = P ++ stp cfg (if a ≤ n ∧ n < a + k then n + 1 else n) := by
  intro k
  induction k with
  | zero =>
    intro _ n _ _
    rw [if_neg (by omega)]; rfl
  | succ k ih =>
    intro hk n hn hne
    by_cases he : n = a + k
    · subst he
      rw [sh, ren_of_prefix [] (by simp), List.append_nil, ih (by omega) (by omega) (by omega),
        if_neg (by omega), if_pos (by omega)]
    · rw [sh, ren_of_not_prefix (step_not_prefix hok (by omega) hn (by omega)), ih (by omega) hn (by omega)]
      congr 2
      by_cases h2 : a ≤ n ∧ n < a + k
      · rw [if_pos h2, if_pos (by omega)]
      · rw [if_neg h2, if_neg (by omega)]

/-- shorter or different paths are not touched -/
theorem sh_other (P : List Nat) {a : Nat} {p : List Nat} : ∀ (k : Nat),
    (∀ i, a ≤ i → i < a + k → ¬ (P ++ stp cfg i) <+: p) → sh cfg P a k p = p := by
  intro k
  induction k with
  | zero => intro _; rfl
  | succ k ih =>
    intro h
    rw [sh, ren_of_not_prefix (h _ (by omega) (by omega))]
    exact ih (fun i h1 h2 => h i h1 (by omega))

theorem sh_short (hok : cfg.Ok) (P : List Nat) {a k : Nat} {p : List Nat} (hk : a + k < cfg.cap)
    (hl : p.length ≤ P.length) : sh cfg P a k p = p := by
  refine sh_other P k (fun i _ h2 hp => ?_)
  have := hp.length_le
  rw [step_len hok P (by omega)] at this
  have := hok.step
  omega

theorem bump_eq_ren {old new p : List Nat} (h : old.length = new.length) : bump old new p = ren old new p := by
  unfold bump ren; rw [h]

theorem IsPar.map {rows : List Row} {P : List Nat} (h : IsPar rows P) {f : Row → Row}
    (hf : ∀ r ∈ rows, r.path = P → (f r).path = P) : IsPar (rows.map f) P := by
  rcases h with rfl | ⟨q, hq, e⟩
  · exact Or.inl rfl
  · exact Or.inr ⟨f q, List.mem_map_of_mem hq, hf q hq e⟩

/-- what a table looks like after a change that keeps the forest -/
structure Same (cfg : Cfg) (rows rows' : List Row) (f : Row → Row) : Prop where
  eq : rows' = rows.map f
  keeps : Keeps f
  pinv : PInv cfg rows'
  par : ∀ r ∈ rows, par cfg rows' (f r) = par cfg rows r
  forest : PF cfg rows' = PF cfg rows

theorem Same.refl (h : PInv cfg rows) : Same cfg rows rows (fun r => r) :=
  ⟨by simp, Keeps.id, h, fun _ _ => rfl, rfl⟩

theorem Same.trans {r1 r2 r3 : List Row} {f g} (h1 : Same cfg r1 r2 f) (h2 : Same cfg r2 r3 g) :
    Same cfg r1 r3 (fun r => g (f r)) := by
  refine ⟨?_, h1.keeps.comp h2.keeps, h2.pinv, ?_, by rw [h2.forest, h1.forest]⟩
  · rw [h2.eq, h1.eq, List.map_map]; rfl
  · intro r hr
    rw [h2.par (f r) (by rw [h1.eq]; exact List.mem_map_of_mem hr), h1.par r hr]

/-- one step of the loop -/
theorem shift_one (hok : cfg.Ok) {db : DB} (h : PInv cfg db.rows) {P : List Nat} (hP : IsPar db.rows P) {n : Nat}
    (h1 : 1 ≤ n) (hn : n + 1 < cfg.cap) (hno : ∀ r ∈ db.rows, r.path ≠ P ++ stp cfg (n + 1)) :
    ∃ db' f, setNewpath cfg db (P ++ stp cfg n) (P ++ stp cfg (n + 1)) = .ok db' ∧
      Same cfg db.rows db'.rows f ∧
      (∀ r ∈ db.rows, (f r).path = ren (P ++ stp cfg n) (P ++ stp cfg (n + 1)) r.path) ∧
      (∀ r ∈ db'.rows, r.path ≠ P ++ stp cfg n) := by
  have hne := step_ne_nil hok P (show n < cfg.cap by omega)
  have hdvd := step_dvd hok (hP.dvd h) (show n < cfg.cap by omega)
  by_cases hex : ∃ y ∈ db.rows, y.path = P ++ stp cfg n
  · obtain ⟨y, hy, hyp⟩ := hex
    have hyP : ¬ y.path <+: P := by
      intro hp
      have := hp.length_le
      rw [hyp, step_len hok P (by omega)] at this
      have := hok.step
      omega
    obtain ⟨db', he, hrows⟩ := setNewpath_ok h hok hy (by omega) hn hP hyP hno
    have hpinv := newpath_PInv h hok hy (by omega) hn hP hyP hno
    have hc := canRen h hok hy hn hP hyP hno
    have hpk : ∀ r ∈ db.rows, (newpathRow cfg y.path (P ++ stp cfg (n + 1)) r).pk = r.pk :=
      fun r _ => (keeps_newpathRow _ _).pk r
    have hpath : ∀ r ∈ db.rows, (newpathRow cfg y.path (P ++ stp cfg (n + 1)) r).path =
        ren y.path (P ++ stp cfg (n + 1)) r.path := fun r _ => newpathRow_path _ _ r
    have hpp : pp cfg.steplen y.path = pp cfg.steplen (P ++ stp cfg (n + 1)) := by
      rw [hyp, pp_step hok P (by omega), pp_step hok P hn]
    refine ⟨db', newpathRow cfg y.path (P ++ stp cfg (n + 1)), by rw [← hyp]; exact he,
      ⟨hrows, keeps_newpathRow _ _, by rw [hrows]; exact hpinv, ?_, ?_⟩, by rw [← hyp]; exact hpath, ?_⟩
    · intro r hr
      rw [hrows]
      by_cases hrx : r = y
      · subst hrx
        simp only [MP.par]
        rw [ren_parOf_x h.inv hok.step hc hpk hpath]
        unfold parOf
        rw [hpp]
      · exact ren_parOf h.inv hok.step hc hpk hpath hr hrx
    · rw [hrows]
      refine ren_same h.inv hok.step hc hpk hpath (shows_pforest h.inv) (shows_pforest hpinv.inv) hpp ?_
      intro r hr hrx hrp
      rw [pp_step hok P hn] at hrp
      obtain ⟨k, hk1, hk2, hk3⟩ := h.pos r hr
      rw [hrp] at hk3
      rw [hk3, hyp]
      simp only [plt_append_left]
      rw [stp_lt_iff hok hk2 (by omega), stp_lt_iff hok hk2 hn, stp_lt_iff hok (by omega) hk2,
        stp_lt_iff hok hn hk2]
      have : k ≠ n + 1 := by
        rintro rfl; exact hno r hr hk3
      omega
    · intro r' hr'
      rw [hrows] at hr'
      obtain ⟨r, hr, rfl⟩ := List.mem_map.1 hr'
      rw [hpath r hr]
      by_cases hpre : y.path <+: r.path
      · obtain ⟨u, hu⟩ := hpre
        rw [ren_of_prefix u hu.symm]
        intro e
        have hl := congrArg List.length e
        rw [List.length_append, step_len hok P hn, step_len hok P (by omega)] at hl
        have : u = [] := List.length_eq_zero_iff.1 (by omega)
        subst this
        rw [List.append_nil] at e
        have := stp_inj hok hn (by omega) (List.append_cancel_left e)
        omega
      · rw [ren_of_not_prefix hpre]
        intro e
        rw [hyp, e] at hpre
        exact hpre (List.prefix_refl _)
  · have hno' : ∀ r ∈ db.rows, r.path ≠ P ++ stp cfg n := fun r hr e => hex ⟨r, hr, e⟩
    have hv := h.vacant hok hdvd hne hno'
    obtain ⟨db', he, hrows⟩ := setNewpath_none (cfg := cfg) h hv (new := P ++ stp cfg (n + 1))
    refine ⟨db', fun r => r, he, by rw [hrows]; exact Same.refl h, ?_, by rw [hrows]; exact hno'⟩
    intro r hr
    rw [ren_of_not_prefix (hv r hr)]

theorem shiftLoop_spec (hok : cfg.Ok) {P : List Nat} {a : Nat} (ha : 1 ≤ a) :
    ∀ (k : Nat) (ns : List Row) (db : DB) (old : Option (List Nat)), PInv cfg db.rows → IsPar db.rows P →
    ns.map Row.path = (run cfg P a k).reverse → a + k < cfg.cap →
    (∀ r ∈ db.rows, r.path ≠ P ++ stp cfg (a + k)) →
    ∃ db' f, shiftLoop cfg ns db old = .ok (db', old.map (sh cfg P a k)) ∧
      Same cfg db.rows db'.rows f ∧ (∀ r ∈ db.rows, (f r).path = sh cfg P a k r.path) ∧
      (∀ r ∈ db'.rows, r.path ≠ P ++ stp cfg a) := by
  intro k
  induction k with
  | zero =>
    intro ns db old h hP hns _ hno
    have : ns = [] := by simpa [run] using hns
    subst this
    refine ⟨db, fun r => r, ?_, Same.refl h, fun r _ => rfl, hno⟩
    rw [shiftLoop]
    cases old <;> rfl
  | succ k ih =>
    intro ns db old h hP hns hk hno
    rw [run_succ_reverse] at hns
    cases ns with
    | nil => simp at hns
    | cons n ns =>
      rw [List.map_cons, List.cons.injEq] at hns
      obtain ⟨hn, hns⟩ := hns
      rw [show a + (k + 1) = (a + k) + 1 by omega] at hno
      obtain ⟨db1, f1, e1, s1, p1, v1⟩ := shift_one hok h hP (n := a + k) (by omega) (by omega) hno
      have hP1 : IsPar db1.rows P := by
        rw [s1.eq]
        refine hP.map (fun r hr e => ?_)
        rw [p1 r hr, e]
        refine ren_of_not_prefix ?_
        intro hp
        have := hp.length_le
        rw [step_len hok P (by omega)] at this
        have := hok.step
        omega
      obtain ⟨db2, f2, e2, s2, p2, v2⟩ := ih ns db1
        (old.map (bump (P ++ stp cfg (a + k)) (P ++ stp cfg (a + k + 1)))) s1.pinv hP1 hns (by omega) v1
      refine ⟨db2, fun r => f2 (f1 r), ?_, s1.trans s2, ?_, v2⟩
      · rw [shiftLoop, hn, incPath_eq hok P (by omega)]
        simp only [e1]
        rw [e2, Option.map_map]
        congr 2
        apply Option.map_congr
        intro o _
        simp only [Function.comp, sh]
        rw [bump_eq_ren (by rw [step_len hok P (by omega), step_len hok P (by omega)])]
      · intro r hr
        rw [p2 (f1 r) (by rw [s1.eq]; exact List.mem_map_of_mem hr), p1 r hr]
        rfl

/-! ### Collecting the siblings to shift -/

theorem collectShift_spec (hok : cfg.Ok) {P : List Nat} : ∀ (sibs : List Row) (m : Nat), m < cfg.cap →
    sibs.Pairwise (fun a b => a.path < b.path) →
    (∀ r ∈ sibs, ∃ n, m ≤ n ∧ n < cfg.cap ∧ r.path = P ++ stp cfg n) →
    (∃ k moves, collectShift cfg sibs (P ++ stp cfg m) = .ok moves ∧ moves.map Row.path = run cfg P m k ∧
      m + k < cfg.cap ∧ (∀ r ∈ sibs, r.path ≠ P ++ stp cfg (m + k)) ∧
      (∀ i, m ≤ i → i < m + k → ∃ r ∈ sibs, r.path = P ++ stp cfg i)) ∨
    (collectShift cfg sibs (P ++ stp cfg m) = .error .pathOverflow ∧
      ∀ n, m ≤ n → n < cfg.cap → ∃ r ∈ sibs, r.path = P ++ stp cfg n) := by
  intro sibs
  induction sibs with
  | nil =>
    intro m hm _ _
    exact Or.inl ⟨0, [], rfl, rfl, hm, by simp, fun i h1 h2 => by omega⟩
  | cons s ss ih =>
    intro m hm hs hpos
    rw [List.pairwise_cons] at hs
    obtain ⟨n, hmn, hn, hsn⟩ := hpos s (by simp)
    rw [collectShift]
    by_cases hlt : P ++ stp cfg m < s.path
    · rw [if_pos hlt]
      refine Or.inl ⟨0, [], rfl, rfl, hm, ?_, fun i h1 h2 => by omega⟩
      intro r hr
      rw [Nat.add_zero]
      intro e
      rcases List.mem_cons.1 hr with rfl | hr
      · rw [e] at hlt; exact plt_irrefl _ hlt
      · have := plt_trans hlt (hs.1 r hr)
        rw [e] at this; exact plt_irrefl _ this
    · rw [if_neg hlt]
      have hnm : n = m := by
        rw [hsn, plt_append_left, stp_lt_iff hok hm hn] at hlt; omega
      subst hnm
      rw [hsn]
      by_cases hcap : n + 1 < cfg.cap
      · rw [incPath_eq hok P hcap]
        have hpos' : ∀ r ∈ ss, ∃ k, n + 1 ≤ k ∧ k < cfg.cap ∧ r.path = P ++ stp cfg k := by
          intro r hr
          obtain ⟨k, h1, h2, h3⟩ := hpos r (by simp [hr])
          refine ⟨k, ?_, h2, h3⟩
          have := hs.1 r hr
          rw [hsn, h3, plt_append_left, stp_lt_iff hok hn h2] at this
          omega
        rcases ih (n + 1) hcap hs.2 hpos' with ⟨k, moves, h1, h2, h3, h4, h5⟩ | ⟨h1, h2⟩
        · refine Or.inl ⟨k + 1, s :: moves, ?_, ?_, by omega, ?_, ?_⟩
          · simp only [h1]
          · rw [List.map_cons, h2, hsn]
            simp only [run, List.range_succ_eq_map, List.map_cons, List.map_map, Nat.add_zero]
            congr 1
            apply List.map_congr_left
            intro i _
            simp only [Function.comp]
            rw [show n + 1 + i = n + i.succ by omega]
          · intro r hr
            rw [show n + (k + 1) = n + 1 + k by omega]
            rcases List.mem_cons.1 hr with rfl | hr
            · rw [hsn]
              intro e
              have := stp_inj hok hn (by omega) (List.append_cancel_left e)
              omega
            · exact h4 r hr
          · intro i hi1 hi2
            by_cases he : i = n
            · exact ⟨s, by simp, by rw [he]; exact hsn⟩
            · obtain ⟨r, hr, e⟩ := h5 i (by omega) (by omega)
              exact ⟨r, by simp [hr], e⟩
        · refine Or.inr ⟨by simp only [h1], ?_⟩
          intro i hi1 hi2
          by_cases he : i = n
          · exact ⟨s, by simp, by rw [he]; exact hsn⟩
          · obtain ⟨r, hr, e⟩ := h2 i (by omega) hi2
            exact ⟨r, by simp [hr], e⟩
      · rw [incPath_overflow hok P hn (by omega)]
        refine Or.inr ⟨rfl, ?_⟩
        intro i hi1 hi2
        have : i = n := by omega
        exact ⟨s, by simp, by rw [this]; exact hsn⟩

end Verif.MP
