/-
LT: what putting a row at the path found by `_get_new_path` does to the tree.
-/
import Verif.LT.NewPath
import Verif.Shuffle

namespace Verif.LT

variable {db db' : DB} {rows : List Row} {pre : Path} {before after : Option Row} {l : Label} {moved : Bool}

/-! ### The rows after `_get_new_path` -/

/-- what `_get_new_path` does to paths -/
def gPath (moved : Bool) (pre : Path) (before : Option Row) (p : Path) : Path :=
  if moved then sh pre ((labelOf before).getD []) p else p

theorem gRow_path (r : Row) : (gRow moved pre before r).path = gPath moved pre before r.path := by
  unfold gRow gPath
  split <;> rfl

theorem gRow_pk (r : Row) : (gRow moved pre before r).pk = r.pk := by
  unfold gRow
  split <;> rfl

theorem gRow_vals (r : Row) : (gRow moved pre before r).vals = r.vals := by
  unfold gRow
  split <;> rfl

theorem gMap : PathMap 1 (gPath moved pre before) := by
  cases moved
  · exact ⟨fun _ _ e => e, fun _ _ => rfl, fun _ => rfl⟩
  · exact pathMap_sh pre ((labelOf before).getD [])

theorem gPath_self : gPath moved pre before pre = pre := by
  cases moved
  · rfl
  · exact sh_self pre _

theorem gPath_drop (p : Path) : (gPath moved pre before p).dropLast = pre ↔ p.dropLast = pre := by
  have h1 := (gMap (moved := moved) (pre := pre) (before := before)).pp p (Nat.one_dvd _)
  rw [pp_one, pp_one] at h1
  rw [h1]
  constructor
  · intro e
    exact (gMap (moved := moved) (pre := pre) (before := before)).inj _ _ (by rw [e, gPath_self])
  · intro e
    rw [e, gPath_self]

theorem g_inv (h : Inv rows) : Inv (rows.map (gRow moved pre before)) := by
  cases moved
  · rw [show rows.map (gRow false pre before) = rows from List.map_id' rows]; exact h
  · exact shift_inv h pre _

theorem g_par (h : Inv rows) {r : Row} (hr : r ∈ rows) :
    par (rows.map (gRow moved pre before)) (gRow moved pre before r) = par rows r :=
  map_parOf (f := gRow moved pre before) h.inv gMap (fun r _ => gRow_pk r) (fun r _ => gRow_path r) hr

theorem g_at (h : Inv rows) : at? (rows.map (gRow moved pre before)) pre = at? rows pre := by
  have := map_pkAt (f := gRow moved pre before) h.inv gMap (fun r _ => gRow_pk r) (fun r _ => gRow_path r) pre
  rwa [gPath_self] at this

/-- The rows left of the gap. -/
def LeftOf (after : Option Row) (r : Row) : Prop := ∃ a, after = some a ∧ ¬ a.path < r.path

theorem Nbrs.right_of (hn : Nbrs rows pre before after) {r : Row} (hr : r ∈ rows) (e : r.path.dropLast = pre) (hl : ¬ LeftOf after r) :
    ∃ b, before = some b ∧ ¬ r.path < b.path := (hn.adj r hr e).resolve_right hl

theorem Nbrs.not_both (hn : Nbrs rows pre before after) {r : Row} (hl : LeftOf after r) : ∀ b, before = some b → r.path < b.path := by
  intro b hb
  obtain ⟨a, ha, hra⟩ := hl
  exact plt_of_le_of_lt hra (hn.lt b a hb ha)

/-- the condition under which moving right keeps all orders -/
def KeepsOrder (rows : List Row) (pre : Path) : Prop :=
  ∀ r ∈ rows, ∀ q ∈ rows, r.path.dropLast = pre → q.path.dropLast = pre →
    ∀ c t, lastLabel q.path = lastLabel r.path ++ c :: t → 65 ≤ c

theorem g_lt (h : Inv rows) (hn : Nbrs rows pre before after) (hb : moved = true → ∃ b, before = some b) {r q : Row} (hr : r ∈ rows)
    (hq : q ∈ rows) (hpp : r.path.dropLast = q.path.dropLast) (hlt : r.path < q.path)
    (hok : r.path.dropLast = pre → LeftOf after r ∨ moved = false ∨
      ∀ c t, lastLabel q.path = lastLabel r.path ++ c :: t → 65 ≤ c) :
    (gRow moved pre before r).path < (gRow moved pre before q).path := by
  cases moved with
  | false => exact hlt
  | true =>
    obtain ⟨b, rfl⟩ := hb rfl
    refine sh_lt h.inv hr hq hpp hlt ?_
    intro hpre
    rcases hok hpre with h1 | h1 | h1
    · left
      obtain ⟨hb1, hb2⟩ := hn.b b rfl
      exact (sib_lt h.inv hr hb1 (by rw [hpre, hb2])).1 (hn.not_both h1 b rfl)
    · cases h1
    · exact Or.inr h1

/-- no row is at or below the new path -/
theorem NewPath.vacant (h : Inv db.rows) (hn : Nbrs db.rows pre before after) (hp : NewPath db pre before after db' l moved) :
    ∀ r ∈ db'.rows, ¬ (pre ++ [l]) <+: r.path := by
  have h' : Inv db'.rows := by rw [hp.rows]; exact g_inv h
  have ne : ∀ r ∈ db'.rows, r.path ≠ pre ++ [l] := by
    intro r1 hr1 e
    rw [hp.rows] at hr1
    obtain ⟨r, hr, rfl⟩ := List.mem_map.1 hr1
    have hd : r.path.dropLast = pre := by
      rw [← gPath_drop (moved := moved) (before := before), ← gRow_path, e, List.dropLast_concat]
    rcases hn.adj r hr hd with h1 | h1
    · have := hp.right r hr hd h1
      rw [e] at this
      exact plt_irrefl _ this
    · have := hp.left r hr hd h1
      rw [e] at this
      exact plt_irrefl _ this
  -- the ancestors of a row are stored
  have key : ∀ (n : Nat) (r : Row), r.path.length ≤ n → r ∈ db'.rows → ¬ (pre ++ [l]) <+: r.path := by
    intro n
    induction n with
    | zero =>
      intro r hl hr hpre
      have := len_pos h'.inv hr
      omega
    | succ n ih =>
      intro r hl hr hpre
      obtain ⟨u, hu⟩ := hpre
      rcases List.eq_nil_or_concat' u with rfl | ⟨u', c, rfl⟩
      · exact ne r hr (by rw [← hu, List.append_nil])
      · have hlen : 1 < r.path.length := by rw [← hu]; simp; omega
        obtain ⟨q, hq, hqp⟩ := h'.inv.closed r hr hlen
        have hqp' : q.path = (pre ++ [l]) ++ u' := by
          rw [hqp, pp_one, ← hu, ← List.append_assoc, List.dropLast_concat]
        refine ih q ?_ hq ⟨u', hqp'.symm⟩
        rw [hqp', List.length_append]
        rw [← hu] at hl
        simp at hl ⊢
        omega
  exact fun r hr => key _ r (Nat.le_refl _) hr

/-! ### Adding -/

theorem at_of (h : PI rows) {t : Row} (ht : t ∈ rows) : at? rows t.path = some t.pk := (pkAt_eq_some h).2 ⟨t, ht, rfl, rfl⟩

theorem at_nil (h : PI rows) : at? rows [] = none := by
  unfold at?
  rw [pkAt_eq_none]
  intro r hr e
  have := len_pos h hr
  simp [e] at this

/-- the path `pre` is the empty one or that of a row -/
def IsPar (rows : List Row) (pre : Path) : Prop := pre = [] ∨ ∃ q ∈ rows, q.path = pre

theorem IsPar.drop (h : PI rows) {r : Row} (hr : r ∈ rows) : IsPar rows r.path.dropLast := by
  by_cases hl : 1 < r.path.length
  · obtain ⟨q, hq, e⟩ := h.closed r hr hl
    exact Or.inr ⟨q, hq, by rw [e, pp_one]⟩
  · left
    rw [← List.length_eq_zero_iff, List.length_dropLast]
    omega

theorem par_iff (h : PI rows) (hp : IsPar rows pre) {r : Row} (hr : r ∈ rows) : par rows r = at? rows pre ↔ r.path.dropLast = pre := by
  constructor
  · intro e
    have := pp_of_par h (by omega) hr (p := pre) (hp.imp (fun e => by rw [e]; rfl) id) e
    rwa [pp_one] at this
  · intro e
    unfold par parOf at?
    rw [pp_one, e]

theorem sib_pre (h : PI rows) {r q : Row} (hr : r ∈ rows) (hq : q ∈ rows) (e : par rows r = par rows q) :
    r.path.dropLast = q.path.dropLast := by
  have hp := IsPar.drop h hq
  rw [(par_iff h hp hq).2 rfl] at e
  exact (par_iff h hp hr).1 e

/-- **A new row at the path found.** -/
theorem add_place (h : Inv db.rows) (hn : Nbrs db.rows pre before after) (hp : NewPath db pre before after db' l moved)
    (hpar : IsPar db.rows pre) {x : Row} (hx : x.path = pre ++ [l]) (hf : ∀ r ∈ db.rows, r.pk ≠ x.pk) {s : Slot}
    (hs : GapSlot (· ∈ db.rows) Row.pk (par db.rows) (fun a b => a.path < b.path) (LeftOf after) (at? db.rows pre) s) :
    Inv (db'.rows ++ [x]) ∧
    ((PF db.rows).put (at? db.rows pre) s x.pk).UpToRight (PF (db'.rows ++ [x])) (at? db.rows pre) x.pk ∧
    ((moved = false ∨ KeepsOrder db.rows pre) → PF (db'.rows ++ [x]) = (PF db.rows).put (at? db.rows pre) s x.pk) := by
  have hv := hp.vacant h hn
  have h1 : Inv db'.rows := by rw [hp.rows]; exact g_inv h
  have hf1 : ∀ r ∈ db'.rows, r.pk ≠ x.pk := by
    intro r hr
    rw [hp.rows] at hr
    obtain ⟨q, hq, rfl⟩ := List.mem_map.1 hr
    rw [gRow_pk]; exact hf q hq
  have hpar1 : x.path.length = 1 ∨ ∃ q ∈ db'.rows, q.path = pp 1 x.path := by
    rw [hx, pp_one, List.dropLast_concat]
    rcases hpar with rfl | ⟨q, hq, e⟩
    · left; simp
    · right
      refine ⟨gRow moved pre before q, ?_, ?_⟩
      · rw [hp.rows]; exact List.mem_map_of_mem hq
      · rw [gRow_path, e, gPath_self]
  have hlen : 1 ∣ x.path.length ∧ 1 ≤ x.path.length := ⟨Nat.one_dvd _, by rw [hx]; simp⟩
  have hne : ∀ r ∈ db'.rows, r.path ≠ x.path := fun r hr e => hv r hr (by rw [← hx, e]; exact List.prefix_refl _)
  have hI : PI (db'.rows ++ [x]) := ins_inv h1.inv hf1 hlen hne hpar1
  have hInv : Inv (db'.rows ++ [x]) := by
    refine ⟨hI, ?_⟩
    intro r hr c hc
    rcases List.mem_append.1 hr with hr | hr
    · exact h1.labels r hr c hc
    · rw [List.mem_singleton] at hr
      subst hr
      rw [hx] at hc
      rcases List.mem_append.1 hc with hc | hc
      · rcases hpar with rfl | ⟨q, hq, e⟩
        · cases hc
        · exact h.labels q hq c (e ▸ hc)
      · rw [List.mem_singleton] at hc
        subst hc; exact hp.label
  -- pull the new table back to the old rows and the new one
  let f : Row → Row := fun r => if r.pk = x.pk then r else gRow moved pre before r
  have fx : f x = x := if_pos rfl
  have fr : ∀ r ∈ db.rows, f r = gRow moved pre before r := fun r hr => if_neg (hf r hr)
  have hxn : ¬ x ∈ db.rows := fun hm => hf x hm rfl
  have hinj : InjOn (fun r => r ∈ db.rows ∨ r = x) (fun r => (f r).pk) := by
    have hk : ∀ r, (f r).pk = r.pk := by
      intro r
      show (if r.pk = x.pk then r else gRow moved pre before r).pk = _
      split
      · rfl
      · exact gRow_pk r
    intro a b ha hb e
    simp only [hk] at e
    rcases ha with ha | rfl
    · rcases hb with hb | rfl
      · exact h.inv.pk_inj ha hb e
      · exact absurd e (hf a ha)
    · rcases hb with hb | rfl
      · exact absurd e.symm (hf b hb)
      · rfl
  have hF' := (shows_pforest hI).pullback (fun r => r ∈ db.rows ∨ r = x) f (by
    intro r'
    rw [List.mem_append, List.mem_singleton, hp.rows, List.mem_map]
    constructor
    · rintro (⟨r, hr, rfl⟩ | rfl)
      · exact ⟨r, Or.inl hr, fr r hr⟩
      · exact ⟨r', Or.inr rfl, fx⟩
    · rintro ⟨r, hr | rfl, rfl⟩
      · exact Or.inl ⟨r, hr, (fr r hr).symm⟩
      · exact Or.inr fx) hinj
  have hF'' : Shows (PF (db'.rows ++ [x])) (fun r => r ∈ db.rows ∨ r = x) Row.pk
      (fun r => parOf 1 Row.pk Row.path (db'.rows ++ [x]) (f r)) (fun r s => (f r).path < (f s).path) := by
    constructor
    intro p
    obtain ⟨l', e, so, m⟩ := hF'.lists p
    refine ⟨l', ?_, so, m⟩
    rw [show PF (db'.rows ++ [x]) p = _ from e]
    refine List.map_congr_left ?_
    intro r _
    show (if r.pk = x.pk then r else gRow moved pre before r).pk = _
    split
    · rfl
    · exact gRow_pk r
  have hparx : parOf 1 Row.pk Row.path (db'.rows ++ [x]) (f x) = at? db.rows pre := by
    rw [fx]
    show par (db'.rows ++ [x]) x = _
    rw [← g_at (moved := moved) (before := before) h, ← hp.rows]
    rcases hpar with rfl | ⟨q, hq, e⟩
    · rw [at_nil h1.inv, par_eq_none hI (by simp), hx, List.dropLast_concat]
    · have hq1 : gRow moved pre before q ∈ db'.rows := by rw [hp.rows]; exact List.mem_map_of_mem hq
      have e1 : (gRow moved pre before q).path = pre := by rw [gRow_path, e, gPath_self]
      have e2 := at_of h1.inv hq1
      rw [e1] at e2
      rw [e2, par_eq_some hI (by simp [hq1]), hx, List.dropLast_concat, e1]
  have hparr : ∀ r, r ∈ db.rows → parOf 1 Row.pk Row.path (db'.rows ++ [x]) (f r) = par db.rows r := by
    intro r hr
    rw [fr r hr]
    have hr1 : gRow moved pre before r ∈ db'.rows := by rw [hp.rows]; exact List.mem_map_of_mem hr
    have := g_par (moved := moved) (pre := pre) (before := before) h hr
    rw [← this, ← hp.rows]
    show par _ _ = par _ _
    ext k
    rw [show par (db'.rows ++ [x]) _ = some k ↔ _ from parOf_eq_some hI, show par db'.rows _ = some k ↔ _ from parOf_eq_some h1.inv]
    constructor
    · rintro ⟨q, hq, e, hk⟩
      rcases List.mem_append.1 hq with hq | hq
      · exact ⟨q, hq, e, hk⟩
      · rw [List.mem_singleton] at hq
        subst hq
        exact absurd (hx ▸ e ▸ pp_prefix _) (hv _ hr1)
    · rintro ⟨q, hq, e, hk⟩
      exact ⟨q, by simp [hq], e, hk⟩
  have hinjk : InjOn (· ∈ db.rows) Row.pk := fun a b ha hb e => h.inv.pk_inj ha hb e
  have main := gap_put (s := s) (Left := LeftOf after) (lt := fun a b : Row => a.path < b.path) (shows_pforest h.inv) hF'' hxn hparr (asymOn_path _)
    (fun a b _ _ hab => plt_asymm hab) hinjk hparx
    (fun r q _ _ _ _ hlt ⟨a, ha, hq⟩ => ⟨a, ha, fun hc => hq (plt_trans hc hlt)⟩) hs
    (by
      intro r q hr hq e hlt hL
      rw [fr r hr, fr q hq]
      refine g_lt h hn hp.gap hr hq (sib_pre h.inv hr hq e) hlt ?_
      intro hpre
      exact Or.inl (hL ((par_iff h.inv hpar hr).2 hpre)))
    (by
      intro r hr e hL
      rw [fr r hr, fx, hx]
      exact hp.left r hr ((par_iff h.inv hpar hr).1 e) hL)
    (by
      intro r hr e hL
      rw [fr r hr, fx, hx]
      have hd := (par_iff h.inv hpar hr).1 e
      exact hp.right r hr hd (hn.right_of hr hd hL))
  refine ⟨hInv, main.1, ?_⟩
  intro hk
  refine main.2 ?_
  intro r q hr hq e1 e2 _ hlt
  rw [fr r hr, fr q hq]
  have hr2 := (par_iff h.inv hpar hr).1 e1
  have hq2 := (par_iff h.inv hpar hq).1 e2
  refine g_lt h hn hp.gap hr hq (by rw [hr2, hq2]) hlt ?_
  intro hpre
  rcases hk with hk | hk
  · exact Or.inr (Or.inl hk)
  · exact Or.inr (Or.inr (hk r hr q hq hr2 hq2))

/-! ### Moving -/

/-- **A row moved with its branch to the path found.**  `f` is the rewriting of the paths of the branch. -/
theorem move_place (h : Inv db.rows) (hn : Nbrs db.rows pre before after) (hp : NewPath db pre before after db' l moved)
    (hpar : IsPar db.rows pre) {x : Row} (hx : x ∈ db.rows) (hin : ¬ x.path <+: pre) {f : Row → Row}
    (hfpk : ∀ r ∈ db'.rows, (f r).pk = r.pk)
    (hfpath : ∀ r ∈ db'.rows, (f r).path = ren (gRow moved pre before x).path (pre ++ [l]) r.path) {s : Slot}
    (hs : GapSlot (fun r => r ∈ db.rows ∧ r ≠ x) Row.pk (par db.rows) (fun a b => a.path < b.path) (LeftOf after) (at? db.rows pre) s) :
    Inv (db'.rows.map f) ∧
    ((PF db.rows).move x.pk (at? db.rows pre) s).UpToRight (PF (db'.rows.map f)) (at? db.rows pre) x.pk ∧
    ((moved = false ∨ KeepsOrder db.rows pre) → PF (db'.rows.map f) = (PF db.rows).move x.pk (at? db.rows pre) s) := by
  have hv := hp.vacant h hn
  have h1 : Inv db'.rows := by rw [hp.rows]; exact g_inv h
  have gmem : ∀ r ∈ db.rows, gRow moved pre before r ∈ db'.rows := fun r hr => by rw [hp.rows]; exact List.mem_map_of_mem hr
  have ginj : ∀ r ∈ db.rows, ∀ q ∈ db.rows, gRow moved pre before r = gRow moved pre before q → r = q := by
    intro r hr q hq e
    refine h.inv.pk_inj hr hq ?_
    rw [← gRow_pk (moved := moved) (pre := pre) (before := before) r, e, gRow_pk]
  have hpar1 : (pre ++ [l]).length = 1 ∨ ∃ q ∈ db'.rows, q.path = pp 1 (pre ++ [l]) ∧ ¬ (gRow moved pre before x).path <+: q.path := by
    rw [pp_one, List.dropLast_concat]
    rcases hpar with rfl | ⟨q, hq, e⟩
    · left; simp
    · right
      refine ⟨gRow moved pre before q, gmem q hq, by rw [gRow_path, e, gPath_self], ?_⟩
      -- the branch of x does not contain the new parent: through descendants
      rw [← e] at hin
      intro hpre
      by_cases hqx : q = x
      · exact hin (hqx ▸ List.prefix_refl _)
      · have hne : gRow moved pre before x ≠ gRow moved pre before q := fun e => hqx (ginj x hx q hq e).symm
        have hd := (desc_iff (L := 1) h1.inv (by omega) (gmem x hx) (gmem q hq)).2 ⟨hpre, hne⟩
        rw [gRow_pk, gRow_pk] at hd
        have mem_eq : ∀ p k, k ∈ PF db'.rows p ↔ k ∈ PF db.rows p := by
          intro p k
          rw [hp.rows]
          exact map_mem (f := gRow moved pre before) h.inv gMap (fun r _ => gRow_pk r) (fun r _ => gRow_path r)
        have hd' : (PF db.rows).Desc x.pk q.pk := by
          have gen : ∀ k, (PF db'.rows).Desc x.pk k → (PF db.rows).Desc x.pk k := by
            intro k hk
            induction hk with
            | child hc => exact .child ((mem_eq _ _).1 hc)
            | step _ hc ih => exact .step ih ((mem_eq _ _).1 hc)
          exact gen _ hd
        exact hin ((desc_iff (L := 1) h.inv (by omega) hx hq).1 hd').1
  have hc : CanRen 1 Row.path db'.rows (gRow moved pre before x) (pre ++ [l]) := by
    refine ⟨gmem x hx, ⟨Nat.one_dvd _, by simp⟩, hv, ?_⟩
    exact hpar1
  have hI : PI (db'.rows.map f) := ren_inv h1.inv (by omega) hc hfpk hfpath
  have hInv : Inv (db'.rows.map f) := by
    refine ⟨hI, ?_⟩
    intro r' hr' c hcm
    obtain ⟨r, hr, rfl⟩ := List.mem_map.1 hr'
    rw [hfpath r hr] at hcm
    by_cases hb : (gRow moved pre before x).path <+: r.path
    · obtain ⟨u, hu⟩ := hb
      rw [ren_of_prefix u hu.symm] at hcm
      rcases List.mem_append.1 hcm with hcm | hcm
      · rcases List.mem_append.1 hcm with hcm | hcm
        · rcases hpar with rfl | ⟨q, hq, e⟩
          · cases hcm
          · exact h.labels q hq c (e ▸ hcm)
        · rw [List.mem_singleton] at hcm
          subst hcm; exact hp.label
      · exact h1.labels r hr c (by rw [← hu]; exact List.mem_append_right _ hcm)
    · rw [ren_of_not_prefix hb] at hcm
      exact h1.labels r hr c hcm
  have hpkf : ∀ r ∈ db.rows, (f (gRow moved pre before r)).pk = r.pk := fun r hr => by rw [hfpk _ (gmem r hr), gRow_pk]
  have hF' := (shows_pforest hI).pullback (· ∈ db.rows) (fun r => f (gRow moved pre before r)) (by
    intro r'
    rw [List.mem_map]
    constructor
    · rintro ⟨r1, hr1, rfl⟩
      rw [hp.rows] at hr1
      obtain ⟨r, hr, rfl⟩ := List.mem_map.1 hr1
      exact ⟨r, hr, rfl⟩
    · rintro ⟨r, hr, rfl⟩
      exact ⟨_, gmem r hr, rfl⟩) (by
    intro a b ha hb e
    simp only [hpkf a ha, hpkf b hb] at e
    exact h.inv.pk_inj ha hb e)
  have hF'' : Shows (PF (db'.rows.map f)) (· ∈ db.rows) Row.pk
      (fun r => parOf 1 Row.pk Row.path (db'.rows.map f) (f (gRow moved pre before r)))
      (fun r s => (f (gRow moved pre before r)).path < (f (gRow moved pre before s)).path) := by
    constructor
    intro p
    obtain ⟨l', e, so, m⟩ := hF'.lists p
    refine ⟨l', ?_, so, m⟩
    rw [show PF (db'.rows.map f) p = _ from e]
    refine List.map_congr_left ?_
    intro r hr
    exact hpkf r ((m r).1 hr).1
  have hparx : parOf 1 Row.pk Row.path (db'.rows.map f) (f (gRow moved pre before x)) = at? db.rows pre := by
    rw [ren_parOf_x h1.inv (by omega) hc hfpk hfpath, pp_one, List.dropLast_concat, ← g_at (moved := moved) (before := before) h, ← hp.rows]
  have hparr : ∀ r, r ∈ db.rows → r ≠ x → parOf 1 Row.pk Row.path (db'.rows.map f) (f (gRow moved pre before r)) = par db.rows r := by
    intro r hr hne
    rw [ren_parOf h1.inv (by omega) hc hfpk hfpath (gmem r hr) (fun e => hne (ginj r hr x hx e)),
      ← g_par (moved := moved) (pre := pre) (before := before) h hr, ← hp.rows]
  have hfx : (f (gRow moved pre before x)).path = pre ++ [l] := ren_path_x hc hfpath
  have hsib : ∀ r ∈ db.rows, r ≠ x → par db.rows r = at? db.rows pre → (f (gRow moved pre before r)).path = (gRow moved pre before r).path := by
    intro r hr hne e
    refine ren_path_sib h1.inv (by omega) hc hfpath (gmem r hr) (fun e => hne (ginj r hr x hx e)) ?_
    rw [pp_one, pp_one, List.dropLast_concat, gRow_path, gPath_drop]
    exact (par_iff h.inv hpar hr).1 e
  have hren : ∀ r ∈ db.rows, ∀ q ∈ db.rows, r ≠ x → q ≠ x → r.path.dropLast = q.path.dropLast →
      (gRow moved pre before r).path < (gRow moved pre before q).path →
      (f (gRow moved pre before r)).path < (f (gRow moved pre before q)).path := by
    intro r hr q hq hrx hqx e hlt
    refine ren_lt h1.inv (by omega) hc hfpath (gmem r hr) (gmem q hq) (fun e => hrx (ginj r hr x hx e))
      (fun e => hqx (ginj q hq x hx e)) ?_ hlt
    have h2 := g_par (moved := moved) (pre := pre) (before := before) h hr
    have h3 := g_par (moved := moved) (pre := pre) (before := before) h hq
    rw [← hp.rows] at h2 h3
    refine Eq.trans h2 (Eq.trans ?_ h3.symm)
    unfold par parOf
    rw [pp_one, pp_one, e]
  have hinjk : InjOn (· ∈ db.rows) Row.pk := fun a b ha hb e => h.inv.pk_inj ha hb e
  have main := gap_move (s := s) (Left := LeftOf after) (lt := fun a b : Row => a.path < b.path) (shows_pforest h.inv) hF'' hx hinjk hparr (asymOn_path _)
    (fun a b _ _ hab => plt_asymm hab) hparx
    (fun r q _ _ _ _ hlt ⟨a, ha, hq⟩ => ⟨a, ha, fun hc => hq (plt_trans hc hlt)⟩) hs
    (by
      intro r q hr hq hrx hqx e hlt hL
      have e' := sib_pre h.inv hr hq e
      refine hren r hr q hq hrx hqx e' (g_lt h hn hp.gap hr hq e' hlt ?_)
      intro hpre
      exact Or.inl (hL ((par_iff h.inv hpar hr).2 hpre)))
    (by
      intro r hr hrx e hL
      show (f (gRow moved pre before r)).path < (f (gRow moved pre before x)).path
      rw [hsib r hr hrx e, hfx]
      exact hp.left r hr ((par_iff h.inv hpar hr).1 e) hL)
    (by
      intro r hr hrx e hL
      show (f (gRow moved pre before x)).path < (f (gRow moved pre before r)).path
      rw [hsib r hr hrx e, hfx]
      have hd := (par_iff h.inv hpar hr).1 e
      exact hp.right r hr hd (hn.right_of hr hd hL))
  refine ⟨hInv, main.1, ?_⟩
  intro hk
  refine main.2 ?_
  intro r q hr hq hrx hqx e1 e2 _ hlt
  have hr2 := (par_iff h.inv hpar hr).1 e1
  have hq2 := (par_iff h.inv hpar hq).1 e2
  refine hren r hr q hq hrx hqx (by rw [hr2, hq2]) (g_lt h hn hp.gap hr hq (by rw [hr2, hq2]) hlt ?_)
  intro hpre
  rcases hk with hk | hk
  · exact Or.inr (Or.inl hk)
  · exact Or.inr (Or.inr (hk r hr q hq hr2 hq2))

end Verif.LT
