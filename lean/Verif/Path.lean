/-
Generic theory of tables keyed by path.  Used for MP (paths are strings, a step is `steplen` characters)
and for LT (paths are lists of labels, a step is one label).
-/
import Verif.Lex
import Verif.ForestLemmas
import Verif.Common

namespace Verif

set_option linter.unusedSectionVars false

variable {ρ κ : Type} [LinearOrder κ]

/-- path of the parent: all but the last step -/
def pp (L : Nat) (p : List κ) : List κ := p.take (p.length - L)

/-- replace the prefix `old` by `new` -/
def ren (old new p : List κ) : List κ := if old.isPrefixOf p then new ++ p.drop old.length else p

/-- Consistency of a table of paths. -/
structure PathInv (L : Nat) (pk : ρ → Nat) (path : ρ → List κ) (T : List ρ) : Prop where
  pkNodup : (T.map pk).Nodup
  pathNodup : (T.map path).Nodup
  len : ∀ r ∈ T, L ∣ (path r).length ∧ L ≤ (path r).length
  closed : ∀ r ∈ T, L < (path r).length → ∃ q ∈ T, path q = pp L (path r)

/-- the primary key of the row at a path -/
def pkAt (pk : ρ → Nat) (path : ρ → List κ) (T : List ρ) (p : List κ) : Option Nat :=
  (T.find? (fun q => path q = p)).map pk

/-- the primary key of the parent -/
def parOf (L : Nat) (pk : ρ → Nat) (path : ρ → List κ) (T : List ρ) (r : ρ) : Option Nat :=
  pkAt pk path T (pp L (path r))

theorem nodup_map_inj {α β : Type} {f : α → β} {l : List α} (h : (l.map f).Nodup) {a b : α} (ha : a ∈ l)
    (hb : b ∈ l) (e : f a = f b) : a = b := List.inj_on_of_nodup_map h ha hb e

variable {L : Nat} {pk : ρ → Nat} {path : ρ → List κ} {T : List ρ}

theorem PathInv.pk_inj (h : PathInv L pk path T) {a b : ρ} (ha : a ∈ T) (hb : b ∈ T) (e : pk a = pk b) : a = b :=
  nodup_map_inj h.pkNodup ha hb e

theorem PathInv.path_inj (h : PathInv L pk path T) {a b : ρ} (ha : a ∈ T) (hb : b ∈ T) (e : path a = path b) :
    a = b := nodup_map_inj h.pathNodup ha hb e

theorem PathInv.injOn (h : PathInv L pk path T) : InjOn (· ∈ T) pk := fun _ _ ha hb e => h.pk_inj ha hb e

theorem pkAt_eq_some (h : PathInv L pk path T) {p : List κ} {k : Nat} :
    pkAt pk path T p = some k ↔ ∃ q ∈ T, path q = p ∧ pk q = k := by
  unfold pkAt
  constructor
  · intro h
    rw [Option.map_eq_some_iff] at h
    obtain ⟨q, hq, hk⟩ := h
    have h1 := List.find?_some hq
    exact ⟨q, List.mem_of_find?_eq_some hq, by simpa using h1, hk⟩
  · rintro ⟨q, hq, hp, hk⟩
    cases hf : T.find? (fun q => path q = p) with
    | none =>
      rw [List.find?_eq_none] at hf
      exact absurd hp (by simpa using hf q hq)
    | some q' =>
      have h1 := List.find?_some hf
      have h2 := List.mem_of_find?_eq_some hf
      have : q' = q := h.path_inj h2 hq (by rw [hp]; simpa using h1)
      subst this
      simp [hk]

theorem pkAt_eq_none {p : List κ} : pkAt pk path T p = none ↔ ∀ q ∈ T, path q ≠ p := by
  unfold pkAt
  rw [Option.map_eq_none_iff, List.find?_eq_none]
  simp

theorem parOf_eq_some (h : PathInv L pk path T) {r : ρ} {k : Nat} :
    parOf L pk path T r = some k ↔ ∃ q ∈ T, path q = pp L (path r) ∧ pk q = k := pkAt_eq_some h

theorem pp_length (p : List κ) : (pp L p).length = p.length - L := by
  simp [pp]

theorem parOf_eq_none (h : PathInv L pk path T) (hL : 0 < L) {r : ρ} (hr : r ∈ T) :
    parOf L pk path T r = none ↔ (path r).length = L := by
  unfold parOf
  rw [pkAt_eq_none]
  have hlen := h.len r hr
  constructor
  · intro hn
    by_contra hne
    obtain ⟨q, hq, e⟩ := h.closed r hr (by omega)
    exact hn q hq e
  · intro e q hq hp
    have h1 := (h.len q hq).2
    have h2 := pp_length (L := L) (path r)
    rw [← hp] at h2
    omega

theorem pp_prefix (p : List κ) : pp L p <+: p := List.take_prefix _ _

/-- the last step -/
def lastSeg (L : Nat) (p : List κ) : List κ := p.drop (p.length - L)

theorem pp_append_lastSeg (p : List κ) : pp L p ++ lastSeg L p = p := List.take_append_drop _ _

theorem lastSeg_length {p : List κ} (h : L ≤ p.length) : (lastSeg L p).length = L := by
  simp [lastSeg]; omega

/-- siblings compare by their last step -/
theorem sib_lt_iff {p q : List κ} (h : pp L p = pp L q) : p < q ↔ lastSeg L p < lastSeg L q := by
  conv_lhs => rw [← pp_append_lastSeg (L := L) p, ← pp_append_lastSeg (L := L) q, h]
  exact plt_append_left _ _ _

theorem pp_append {a b : List κ} (h : L ≤ b.length) : pp L (a ++ b) = a ++ pp L b := by
  unfold pp
  rw [List.take_append]
  have h1 : (a ++ b).length - L - a.length = b.length - L := by simp; omega
  rw [h1, List.take_of_length_le (by simp; omega)]

theorem lastSeg_append {a b : List κ} (h : b.length = L) : lastSeg L (a ++ b) = b := by
  unfold lastSeg
  rw [List.length_append, h, Nat.add_sub_cancel, List.drop_append_of_le_length (by simp)]
  simp

theorem pp_append_step {a b : List κ} (h : b.length = L) : pp L (a ++ b) = a := by
  rw [pp_append (by omega)]; simp [pp, h]

/-! ### Renaming a branch -/

theorem ren_of_prefix {old new p : List κ} (u : List κ) (h : p = old ++ u) : ren old new p = new ++ u := by
  subst h
  unfold ren
  rw [if_pos (by rw [List.isPrefixOf_iff_prefix]; exact List.prefix_append _ _)]
  simp

theorem ren_of_not_prefix {old new p : List κ} (h : ¬ old <+: p) : ren old new p = p := by
  unfold ren
  rw [if_neg (by rwa [List.isPrefixOf_iff_prefix])]

/-- Hypotheses of a branch rename: the branch of `x` goes from its path to `new`. -/
structure CanRen (L : Nat) (path : ρ → List κ) (T : List ρ) (x : ρ) (new : List κ) : Prop where
  mem : x ∈ T
  len : L ∣ new.length ∧ L ≤ new.length
  vacant : ∀ r ∈ T, ¬ new <+: path r
  parent : new.length = L ∨ ∃ q ∈ T, path q = pp L new ∧ ¬ path x <+: path q

section rename

variable {f : ρ → ρ} {x : ρ} {new : List κ}

/-- a row of the branch other than its root is at least one step longer -/
theorem branch_long (h : PathInv L pk path T) (hx : x ∈ T) {r : ρ} (hr : r ∈ T) (hne : r ≠ x)
    {u : List κ} (hu : path r = path x ++ u) : L ≤ u.length := by
  have h1 := (h.len r hr).1
  have h2 := (h.len x hx).1
  rw [hu, List.length_append] at h1
  have h3 : L ∣ u.length := (Nat.dvd_add_right h2).1 h1
  have h4 : u.length ≠ 0 := by
    intro h0
    have : u = [] := List.length_eq_zero_iff.1 h0
    subst this
    exact hne (h.path_inj hr hx (by simpa using hu))
  exact Nat.le_of_dvd (by omega) h3

theorem sib_not_in_branch (h : PathInv L pk path T) (hL : 0 < L) (hc : CanRen L path T x new) {r : ρ}
    (hr : r ∈ T) (hne : r ≠ x) (hs : pp L (path r) = pp L new) : ¬ path x <+: path r := by
  rintro ⟨u, hu⟩
  have hl := branch_long h hc.mem hr hne hu.symm
  have e : pp L (path r) = path x ++ pp L u := by rw [← hu, pp_append hl]
  rw [hs] at e
  rcases hc.parent with hp | ⟨q, hq, hqp, hqn⟩
  · have := pp_length (L := L) new
    rw [e, List.length_append] at this
    have := (h.len x hc.mem).2
    omega
  · apply hqn
    rw [hqp, e]
    exact List.prefix_append _ _

variable (h : PathInv L pk path T) (hL : 0 < L) (hc : CanRen L path T x new)
  (hfpk : ∀ r ∈ T, pk (f r) = pk r) (hfpath : ∀ r ∈ T, path (f r) = ren (path x) new (path r))

include hc hfpath in
theorem ren_path_x : path (f x) = new := by
  rw [hfpath x hc.mem, ren_of_prefix [] (by simp)]; simp

include h hL hc hfpath in
theorem ren_path_sib {r : ρ} (hr : r ∈ T) (hne : r ≠ x) (hs : pp L (path r) = pp L new) :
    path (f r) = path r := by
  rw [hfpath r hr, ren_of_not_prefix (sib_not_in_branch h hL hc hr hne hs)]

include h hL hc hfpk hfpath in
theorem ren_inv : PathInv L pk path (T.map f) := by
  have inj : ∀ r ∈ T, ∀ q ∈ T, path (f r) = path (f q) → r = q := by
    intro r hr q hq e
    rw [hfpath r hr, hfpath q hq] at e
    by_cases h1 : path x <+: path r
    · obtain ⟨u, hu⟩ := h1
      rw [ren_of_prefix u hu.symm] at e
      by_cases h2 : path x <+: path q
      · obtain ⟨v, hv⟩ := h2
        rw [ren_of_prefix v hv.symm] at e
        have : u = v := List.append_cancel_left e
        exact h.path_inj hr hq (by rw [← hu, ← hv, this])
      · rw [ren_of_not_prefix h2] at e
        exact absurd ⟨u, e⟩ (hc.vacant q hq)
    · rw [ren_of_not_prefix h1] at e
      by_cases h2 : path x <+: path q
      · obtain ⟨v, hv⟩ := h2
        rw [ren_of_prefix v hv.symm] at e
        exact absurd ⟨v, e.symm⟩ (hc.vacant r hr)
      · rw [ren_of_not_prefix h2] at e
        exact h.path_inj hr hq e
  refine ⟨?_, ?_, ?_, ?_⟩
  · rw [List.map_map]
    have : T.map (pk ∘ f) = T.map pk := List.map_congr_left (fun r hr => hfpk r hr)
    rw [this]; exact h.pkNodup
  · rw [List.map_map]
    refine List.Nodup.map_on ?_ (List.Nodup.of_map _ h.pathNodup)
    intro r hr q hq e; exact inj r hr q hq e
  · intro r' hr'
    obtain ⟨r, hr, rfl⟩ := List.mem_map.1 hr'
    rw [hfpath r hr]
    by_cases h1 : path x <+: path r
    · obtain ⟨u, hu⟩ := h1
      rw [ren_of_prefix u hu.symm, List.length_append]
      have h2 := (h.len r hr).1
      rw [← hu, List.length_append] at h2
      have h3 : L ∣ u.length := (Nat.dvd_add_right (h.len x hc.mem).1).1 h2
      exact ⟨Nat.dvd_add hc.len.1 h3, Nat.le_trans hc.len.2 (Nat.le_add_right _ _)⟩
    · rw [ren_of_not_prefix h1]; exact h.len r hr
  · intro r' hr' hlong
    obtain ⟨r, hr, rfl⟩ := List.mem_map.1 hr'
    by_cases hne : r = x
    · subst hne
      rw [ren_path_x hc hfpath] at hlong ⊢
      rcases hc.parent with hp | ⟨q, hq, hqp, hqn⟩
      · omega
      · exact ⟨f q, List.mem_map.2 ⟨q, hq, rfl⟩, by rw [hfpath q hq, ren_of_not_prefix hqn, hqp]⟩
    · rw [hfpath r hr] at hlong ⊢
      by_cases h1 : path x <+: path r
      · obtain ⟨u, hu⟩ := h1
        have hl := branch_long h hc.mem hr hne hu.symm
        rw [ren_of_prefix u hu.symm, pp_append hl]
        have hlx := (h.len x hc.mem).2
        obtain ⟨q, hq, hqp⟩ := h.closed r hr (by rw [← hu, List.length_append]; omega)
        rw [← hu, pp_append hl] at hqp
        exact ⟨f q, List.mem_map.2 ⟨q, hq, rfl⟩, by rw [hfpath q hq, ren_of_prefix _ hqp]⟩
      · rw [ren_of_not_prefix h1] at hlong ⊢
        obtain ⟨q, hq, hqp⟩ := h.closed r hr hlong
        refine ⟨f q, List.mem_map.2 ⟨q, hq, rfl⟩, ?_⟩
        rw [hfpath q hq, ren_of_not_prefix, hqp]
        rw [hqp]
        intro h2; exact h1 (h2.trans (pp_prefix _))

include h hL hc hfpk hfpath in
theorem ren_parOf {r : ρ} (hr : r ∈ T) (hne : r ≠ x) :
    parOf L pk path (T.map f) (f r) = parOf L pk path T r := by
  have h' := ren_inv h hL hc hfpk hfpath
  ext k
  rw [parOf_eq_some h', parOf_eq_some h]
  rw [hfpath r hr]
  by_cases h1 : path x <+: path r
  · obtain ⟨u, hu⟩ := h1
    have hl := branch_long h hc.mem hr hne hu.symm
    rw [ren_of_prefix u hu.symm, pp_append hl, ← hu, pp_append hl]
    constructor
    · rintro ⟨q', hq', hp, hk⟩
      obtain ⟨q, hq, rfl⟩ := List.mem_map.1 hq'
      rw [hfpath q hq] at hp
      refine ⟨q, hq, ?_, by rw [← hfpk q hq, hk]⟩
      by_cases h2 : path x <+: path q
      · obtain ⟨v, hv⟩ := h2
        rw [ren_of_prefix v hv.symm] at hp
        rw [← hv, List.append_cancel_left hp]
      · rw [ren_of_not_prefix h2] at hp
        exact absurd ⟨_, hp.symm⟩ (hc.vacant q hq)
    · rintro ⟨q, hq, hp, hk⟩
      exact ⟨f q, List.mem_map.2 ⟨q, hq, rfl⟩, by rw [hfpath q hq, ren_of_prefix _ hp], by rw [hfpk q hq, hk]⟩
  · rw [ren_of_not_prefix h1]
    have h2 : ¬ path x <+: pp L (path r) := fun h2 => h1 (h2.trans (pp_prefix _))
    constructor
    · rintro ⟨q', hq', hp, hk⟩
      obtain ⟨q, hq, rfl⟩ := List.mem_map.1 hq'
      rw [hfpath q hq] at hp
      refine ⟨q, hq, ?_, by rw [← hfpk q hq, hk]⟩
      by_cases h3 : path x <+: path q
      · obtain ⟨v, hv⟩ := h3
        rw [ren_of_prefix v hv.symm] at hp
        exact absurd (List.IsPrefix.trans ⟨v, hp⟩ (pp_prefix _)) (hc.vacant r hr)
      · rw [ren_of_not_prefix h3] at hp; exact hp
    · rintro ⟨q, hq, hp, hk⟩
      refine ⟨f q, List.mem_map.2 ⟨q, hq, rfl⟩, ?_, by rw [hfpk q hq, hk]⟩
      rw [hfpath q hq, ren_of_not_prefix (by rw [hp]; exact h2), hp]

include h hL hc hfpk hfpath in
theorem ren_parOf_x : parOf L pk path (T.map f) (f x) = pkAt pk path T (pp L new) := by
  have h' := ren_inv h hL hc hfpk hfpath
  ext k
  rw [parOf_eq_some h', pkAt_eq_some h, ren_path_x hc hfpath]
  constructor
  · rintro ⟨q', hq', hp, hk⟩
    obtain ⟨q, hq, rfl⟩ := List.mem_map.1 hq'
    rw [hfpath q hq] at hp
    refine ⟨q, hq, ?_, by rw [← hfpk q hq, hk]⟩
    by_cases h3 : path x <+: path q
    · obtain ⟨v, hv⟩ := h3
      rw [ren_of_prefix v hv.symm] at hp
      exfalso
      have := congrArg List.length hp
      rw [pp_length, List.length_append] at this
      have := hc.len.2
      omega
    · rw [ren_of_not_prefix h3] at hp; exact hp
  · rintro ⟨q, hq, hp, hk⟩
    refine ⟨f q, List.mem_map.2 ⟨q, hq, rfl⟩, ?_, by rw [hfpk q hq, hk]⟩
    rcases hc.parent with hl | ⟨q2, hq2, hqp2, hqn2⟩
    · exfalso
      have := congrArg List.length hp
      rw [pp_length] at this
      have := (h.len q hq).2
      omega
    · have : q = q2 := h.path_inj hq hq2 (by rw [hp, hqp2])
      subst this
      rw [hfpath q hq, ren_of_not_prefix hqn2, hp]

include h hL hc hfpath in
theorem ren_lt {r q : ρ} (hr : r ∈ T) (hq : q ∈ T) (hrx : r ≠ x) (hqx : q ≠ x)
    (hs : parOf L pk path T r = parOf L pk path T q) (hlt : path r < path q) : path (f r) < path (f q) := by
  have hpp : pp L (path r) = pp L (path q) := by
    cases hk : parOf L pk path T r with
    | none =>
      have h1 := (parOf_eq_none h hL hr).1 hk
      have h2 := (parOf_eq_none h hL hq).1 (by rw [← hs, hk])
      simp [pp, h1, h2]
    | some k =>
      obtain ⟨a, ha, hap, hak⟩ := (parOf_eq_some h).1 hk
      obtain ⟨b, hb, hbp, hbk⟩ := (parOf_eq_some h).1 (hs ▸ hk)
      have : a = b := h.pk_inj ha hb (by rw [hak, hbk])
      rw [← hap, ← hbp, this]
  rw [hfpath r hr, hfpath q hq]
  have iff : ∀ {r q : ρ}, r ∈ T → q ∈ T → r ≠ x → q ≠ x → pp L (path r) = pp L (path q) →
      path x <+: path r → path x <+: path q := by
    intro r q hr hq hrx hqx hpp h1
    obtain ⟨u, hu⟩ := h1
    have hl := branch_long h hc.mem hr hrx hu.symm
    have e : pp L (path r) = path x ++ pp L u := by rw [← hu, pp_append hl]
    have : path x <+: pp L (path q) := by rw [← hpp, e]; exact List.prefix_append _ _
    exact this.trans (pp_prefix _)
  by_cases h1 : path x <+: path r
  · have h2 := iff hr hq hrx hqx hpp h1
    obtain ⟨u, hu⟩ := h1
    obtain ⟨v, hv⟩ := h2
    rw [ren_of_prefix u hu.symm, ren_of_prefix v hv.symm, plt_append_left]
    rw [← hu, ← hv, plt_append_left] at hlt
    exact hlt
  · have h2 : ¬ path x <+: path q := fun h2 => h1 (iff hq hr hqx hrx hpp.symm h2)
    rw [ren_of_not_prefix h1, ren_of_not_prefix h2]
    exact hlt

end rename

/-- The place of the path `new` among the rows of `R` with the same parent path. -/
def PSlot (L : Nat) (pk : ρ → Nat) (path : ρ → List κ) (R : ρ → Prop) (new : List κ) : Slot → Prop
  | .first => ∀ r, R r → pp L (path r) = pp L new → new < path r
  | .last => ∀ r, R r → pp L (path r) = pp L new → path r < new
  | .before t => ∃ tr, R tr ∧ pk tr = t ∧ pp L (path tr) = pp L new ∧ new < path tr ∧
      ∀ r, R r → pp L (path r) = pp L new → path r < path tr → path r < new
  | .after t => ∃ tr, R tr ∧ pk tr = t ∧ pp L (path tr) = pp L new ∧ path tr < new ∧
      ∀ r, R r → pp L (path r) = pp L new → path tr < path r → new < path r

theorem asymOn_path (T : ρ → Prop) : AsymOn T (fun a b => path a < path b) :=
  fun _ _ _ _ h => plt_asymm h

/-- rows with equal parents have equal parent paths -/
theorem pp_of_par (h : PathInv L pk path T) (hL : 0 < L) {r : ρ} (hr : r ∈ T) {p : List κ}
    (hp : p.length = 0 ∨ ∃ q ∈ T, path q = p)
    (e : parOf L pk path T r = pkAt pk path T p) : pp L (path r) = p := by
  rcases hp with hp | ⟨q, hq, hqp⟩
  · have : p = [] := List.length_eq_zero_iff.1 hp
    subst this
    have : pkAt pk path T [] = none := by
      rw [pkAt_eq_none]
      intro q hq h0
      have := (h.len q hq).2
      simp [h0] at this; omega
    rw [this] at e
    have := (parOf_eq_none h hL hr).1 e
    simp [pp, this]
  · have h1 : pkAt pk path T p = some (pk q) := (pkAt_eq_some h).2 ⟨q, hq, hqp, rfl⟩
    rw [h1] at e
    obtain ⟨a, ha, hap, hak⟩ := (parOf_eq_some h).1 e
    have : a = q := h.pk_inj ha hq hak
    rw [← hap, this, hqp]

/-- **Branch rename = move.** -/
theorem ren_move {f : ρ → ρ} {x : ρ} {new : List κ} {F F' : Forest} {s : Slot}
    (h : PathInv L pk path T) (hL : 0 < L) (hc : CanRen L path T x new)
    (hfpk : ∀ r ∈ T, pk (f r) = pk r) (hfpath : ∀ r ∈ T, path (f r) = ren (path x) new (path r))
    (hF : Shows F (· ∈ T) pk (parOf L pk path T) (fun a b => path a < path b))
    (hF' : Shows F' (· ∈ T.map f) pk (parOf L pk path (T.map f)) (fun a b => path a < path b))
    (hs : PSlot L pk path (fun r => r ∈ T ∧ r ≠ x) new s) :
    F' = F.move (pk x) (pkAt pk path T (pp L new)) s := by
  have hF2 := hF'.pullback (· ∈ T) f (fun r' => by simp [List.mem_map]) (fun a b ha hb e => by
    simp only [hfpk a ha, hfpk b hb] at e; exact h.pk_inj ha hb e)
  -- replace `pk ∘ f` by `pk`
  have hF3 : Shows F' (· ∈ T) pk (fun r => parOf L pk path (T.map f) (f r)) (fun a b => path (f a) < path (f b)) := by
    constructor
    intro p
    obtain ⟨l, e, so, m⟩ := hF2.lists p
    refine ⟨l, ?_, so, m⟩
    rw [e]
    exact List.map_congr_left (fun r hr => hfpk r ((m r).1 hr).1)
  have hpar : (pp L new).length = 0 ∨ ∃ q ∈ T, path q = pp L new := by
    rcases hc.parent with hp | ⟨q, hq, hqp, _⟩
    · left; rw [pp_length]; omega
    · exact Or.inr ⟨q, hq, hqp⟩
  refine hF.move hF3 hc.mem h.injOn (fun r hr hne => ren_parOf h hL hc hfpk hfpath hr hne)
    (fun r q hr hq hrx hqx hs hlt => ren_lt h hL hc hfpath hr hq hrx hqx hs hlt)
    (fun a b _ _ hab => plt_asymm hab) (ren_parOf_x h hL hc hfpk hfpath) ?_
  have conv : ∀ r, (r ∈ T ∧ r ≠ x) → parOf L pk path T r = pkAt pk path T (pp L new) →
      pp L (path r) = pp L new ∧ path (f r) = path r := by
    rintro r ⟨hr, hne⟩ e
    have := pp_of_par h hL hr hpar e
    exact ⟨this, ren_path_sib h hL hc hfpath hr hne this⟩
  have hx := ren_path_x hc hfpath
  cases s with
  | first =>
    intro r hr e
    obtain ⟨h1, h2⟩ := conv r hr e
    simp only [h2, hx]
    exact hs r hr h1
  | last =>
    intro r hr e
    obtain ⟨h1, h2⟩ := conv r hr e
    simp only [h2, hx]
    exact hs r hr h1
  | before t =>
    obtain ⟨tr, htr, htk, htp, hlt, hrest⟩ := hs
    have htp' : parOf L pk path T tr = pkAt pk path T (pp L new) := by unfold parOf; rw [htp]
    obtain ⟨_, h2⟩ := conv tr htr htp'
    refine ⟨tr, htr, htk, htp', by simpa only [h2, hx] using hlt, ?_, ?_⟩
    · intro r hr e hl
      obtain ⟨h3, h4⟩ := conv r hr e
      simp only [h4, hx]
      exact hrest r hr h3 hl
    · intro r hr e hl
      obtain ⟨h3, h4⟩ := conv r hr e
      simp only [h4, hx]
      exact plt_trans hlt hl
  | after t =>
    obtain ⟨tr, htr, htk, htp, hlt, hrest⟩ := hs
    have htp' : parOf L pk path T tr = pkAt pk path T (pp L new) := by unfold parOf; rw [htp]
    obtain ⟨_, h2⟩ := conv tr htr htp'
    refine ⟨tr, htr, htk, htp', by simpa only [h2, hx] using hlt, ?_, ?_⟩
    · intro r hr e hl
      obtain ⟨h3, h4⟩ := conv r hr e
      simp only [h4, hx]
      exact plt_trans hl hlt
    · intro r hr e hl
      obtain ⟨h3, h4⟩ := conv r hr e
      simp only [h4, hx]
      exact hrest r hr h3 hl

/-- **Moving a row to the place where it already is changes nothing.** -/
theorem stay_move {x : ρ} {F : Forest} {s : Slot} (h : PathInv L pk path T) (hL : 0 < L) (hx : x ∈ T)
    (hF : Shows F (· ∈ T) pk (parOf L pk path T) (fun a b => path a < path b))
    (hs : PSlot L pk path (fun r => r ∈ T ∧ r ≠ x) (path x) s) :
    F = F.move (pk x) (parOf L pk path T x) s := by
  have hpar : (pp L (path x)).length = 0 ∨ ∃ q ∈ T, path q = pp L (path x) := by
    by_cases hl : L < (path x).length
    · exact Or.inr (h.closed x hx hl)
    · left; rw [pp_length]; omega
  refine hF.move hF hx h.injOn (fun _ _ _ => rfl) (fun _ _ _ _ _ _ _ hlt => hlt)
    (fun a b _ _ hab => plt_asymm hab) rfl ?_
  have conv : ∀ r, (r ∈ T ∧ r ≠ x) → parOf L pk path T r = parOf L pk path T x →
      pp L (path r) = pp L (path x) := fun r hr e => pp_of_par h hL hr.1 hpar e
  cases s with
  | first => exact fun r hr e => hs r hr (conv r hr e)
  | last => exact fun r hr e => hs r hr (conv r hr e)
  | before t =>
    obtain ⟨tr, htr, htk, htp, hlt, hrest⟩ := hs
    refine ⟨tr, htr, htk, by unfold parOf; rw [htp], hlt, ?_, ?_⟩
    · exact fun r hr e hl => hrest r hr (conv r hr e) hl
    · exact fun r hr e hl => plt_trans hlt hl
  | after t =>
    obtain ⟨tr, htr, htk, htp, hlt, hrest⟩ := hs
    refine ⟨tr, htr, htk, by unfold parOf; rw [htp], hlt, ?_, ?_⟩
    · exact fun r hr e hl => plt_trans hl hlt
    · exact fun r hr e hl => hrest r hr (conv r hr e) hl

/-- **Renaming a branch within its gap changes nothing.** -/
theorem ren_same {f : ρ → ρ} {x : ρ} {new : List κ} {F F' : Forest}
    (h : PathInv L pk path T) (hL : 0 < L) (hc : CanRen L path T x new)
    (hfpk : ∀ r ∈ T, pk (f r) = pk r) (hfpath : ∀ r ∈ T, path (f r) = ren (path x) new (path r))
    (hF : Shows F (· ∈ T) pk (parOf L pk path T) (fun a b => path a < path b))
    (hF' : Shows F' (· ∈ T.map f) pk (parOf L pk path (T.map f)) (fun a b => path a < path b))
    (hpp : pp L (path x) = pp L new)
    (hgap : ∀ r ∈ T, r ≠ x → pp L (path r) = pp L new → (path r < path x → path r < new) ∧
      (path x < path r → new < path r)) :
    F' = F := by
  have hF2 := hF'.pullback (· ∈ T) f (fun r' => by simp [List.mem_map]) (fun a b ha hb e => by
    simp only [hfpk a ha, hfpk b hb] at e; exact h.pk_inj ha hb e)
  have hF3 : Shows F' (· ∈ T) pk (fun r => parOf L pk path (T.map f) (f r)) (fun a b => path (f a) < path (f b)) := by
    constructor
    intro p
    obtain ⟨l, e, so, m⟩ := hF2.lists p
    refine ⟨l, ?_, so, m⟩
    rw [e]
    exact List.map_congr_left (fun r hr => hfpk r ((m r).1 hr).1)
  refine hF3.unique ?_ (fun a b _ _ hab => plt_asymm hab)
  have hx := ren_path_x hc hfpath
  have hparx : parOf L pk path T x = pkAt pk path T (pp L new) := by unfold parOf; rw [hpp]
  have hpar : (pp L new).length = 0 ∨ ∃ q ∈ T, path q = pp L new := by
    rcases hc.parent with hp | ⟨q, hq, hqp, _⟩
    · left; rw [pp_length]; omega
    · exact Or.inr ⟨q, hq, hqp⟩
  refine hF.congr (fun _ => Iff.rfl) ?_ ?_
  · intro r hr
    by_cases hne : r = x
    · subst hne
      rw [ren_parOf_x h hL hc hfpk hfpath]; exact hparx
    · rw [ren_parOf h hL hc hfpk hfpath hr hne]
  · intro r q hr hq e hlt
    by_cases hrx : r = x
    · subst hrx
      have hqr : q ≠ r := by rintro rfl; exact plt_irrefl _ hlt
      have h1 := pp_of_par h hL hq hpar (by rw [← e, hparx])
      rw [hx, ren_path_sib h hL hc hfpath hq hqr h1]
      exact (hgap q hq hqr h1).2 hlt
    · by_cases hqx : q = x
      · subst hqx
        have h1 := pp_of_par h hL hr hpar (by rw [e, hparx])
        rw [hx, ren_path_sib h hL hc hfpath hr hrx h1]
        exact (hgap r hr hrx h1).1 hlt
      · exact ren_lt h hL hc hfpath hr hq hrx hqx e hlt

/-! ### Inserting a row -/

theorem ins_inv {x : ρ} (h : PathInv L pk path T) (hpk : ∀ r ∈ T, pk r ≠ pk x)
    (hlen : L ∣ (path x).length ∧ L ≤ (path x).length) (hnew : ∀ r ∈ T, path r ≠ path x)
    (hpar : (path x).length = L ∨ ∃ q ∈ T, path q = pp L (path x)) : PathInv L pk path (T ++ [x]) := by
  refine ⟨?_, ?_, ?_, ?_⟩
  · rw [List.map_append]
    refine List.Nodup.append h.pkNodup (by simp) ?_
    intro a ha hb
    obtain ⟨r, hr, rfl⟩ := List.mem_map.1 ha
    simp at hb; exact hpk r hr hb
  · rw [List.map_append]
    refine List.Nodup.append h.pathNodup (by simp) ?_
    intro a ha hb
    obtain ⟨r, hr, rfl⟩ := List.mem_map.1 ha
    simp at hb; exact hnew r hr hb
  · intro r hr
    rcases List.mem_append.1 hr with hr | hr
    · exact h.len r hr
    · simp at hr; subst hr; exact hlen
  · intro r hr hl
    rcases List.mem_append.1 hr with hr | hr
    · obtain ⟨q, hq, e⟩ := h.closed r hr hl
      exact ⟨q, by simp [hq], e⟩
    · simp at hr; subst hr
      rcases hpar with h1 | ⟨q, hq, e⟩
      · omega
      · exact ⟨q, by simp [hq], e⟩

theorem pkAt_append {x : ρ} {p : List κ} (h : path x ≠ p) : pkAt pk path (T ++ [x]) p = pkAt pk path T p := by
  unfold pkAt
  rw [List.find?_append]
  have : List.find? (fun q => decide (path q = p)) [x] = none := by simp [h]
  rw [this, Option.or_none]

/-- **Inserting a row at a vacant path = put.** -/
theorem ins_put {x : ρ} {F F' : Forest} {s : Slot} (h : PathInv L pk path T) (hL : 0 < L)
    (hpk : ∀ r ∈ T, pk r ≠ pk x)
    (hlen : L ∣ (path x).length ∧ L ≤ (path x).length) (hnew : ∀ r ∈ T, ¬ path x <+: path r)
    (hpar : (path x).length = L ∨ ∃ q ∈ T, path q = pp L (path x))
    (hF : Shows F (· ∈ T) pk (parOf L pk path T) (fun a b => path a < path b))
    (hF' : Shows F' (· ∈ T ++ [x]) pk (parOf L pk path (T ++ [x])) (fun a b => path a < path b))
    (hs : PSlot L pk path (· ∈ T) (path x) s) :
    F' = F.put (pkAt pk path T (pp L (path x))) s (pk x) := by
  have hnew' : ∀ r ∈ T, path r ≠ path x := fun r hr e => hnew r hr (by rw [e]; exact List.prefix_refl _)
  have h' := ins_inv h hpk hlen hnew' hpar
  have hxT : x ∉ T := fun hx => hpk x hx rfl
  have hF2 : Shows F' (fun r => r ∈ T ∨ r = x) pk (parOf L pk path (T ++ [x])) (fun a b => path a < path b) :=
    hF'.congr (fun r => by simp) (fun _ _ => rfl) (fun _ _ _ _ _ h => h)
  have hat : ∀ p : List κ, ¬ path x <+: p → pkAt pk path (T ++ [x]) p = pkAt pk path T p := by
    intro p hp
    ext k
    rw [pkAt_eq_some h', pkAt_eq_some h]
    constructor
    · rintro ⟨q, hq, e, hk⟩
      rcases List.mem_append.1 hq with hq | hq
      · exact ⟨q, hq, e, hk⟩
      · simp at hq; subst hq
        exact absurd (by rw [e]; exact List.prefix_refl _) hp
    · rintro ⟨q, hq, e, hk⟩; exact ⟨q, by simp [hq], e, hk⟩
  have hxp : pkAt pk path (T ++ [x]) (pp L (path x)) = pkAt pk path T (pp L (path x)) := by
    apply hat
    intro hp
    have := hp.length_le
    rw [pp_length] at this
    have := hlen.2
    omega
  have hpar' : (pp L (path x)).length = 0 ∨ ∃ q ∈ T, path q = pp L (path x) := by
    rcases hpar with hp | hq
    · left; rw [pp_length]; omega
    · exact Or.inr hq
  refine hF.put hF2 hxT ?_ (fun _ _ _ _ _ h => h) (fun a b _ _ hab => plt_asymm hab) h.injOn
    hxp ?_
  · intro r hr
    exact hat _ (fun hp => hnew r hr (hp.trans (pp_prefix _)))
  · have conv : ∀ r ∈ T, parOf L pk path T r = pkAt pk path T (pp L (path x)) →
        pp L (path r) = pp L (path x) := fun r hr e => pp_of_par h hL hr hpar' e
    cases s with
    | first => intro r hr e; exact hs r hr (conv r hr e)
    | last => intro r hr e; exact hs r hr (conv r hr e)
    | before t =>
      obtain ⟨tr, htr, htk, htp, hlt, hrest⟩ := hs
      refine ⟨tr, htr, htk, by unfold parOf; rw [htp], hlt, ?_, ?_⟩
      · intro r hr e hl; exact hrest r hr (conv r hr e) hl
      · intro r hr e hl; exact plt_trans hlt hl
    | after t =>
      obtain ⟨tr, htr, htk, htp, hlt, hrest⟩ := hs
      refine ⟨tr, htr, htk, by unfold parOf; rw [htp], hlt, ?_, ?_⟩
      · intro r hr e hl; exact plt_trans hl hlt
      · intro r hr e hl; exact hrest r hr (conv r hr e) hl

/-! ### Deleting branches -/

/-- Keeping a set of rows closed under parents keeps the invariant. -/
theorem del_inv {keep : ρ → Bool} (h : PathInv L pk path T)
    (hclosed : ∀ r ∈ T, ∀ q ∈ T, path q = pp L (path r) → keep r = true → keep q = true) :
    PathInv L pk path (T.filter keep) := by
  refine ⟨?_, ?_, ?_, ?_⟩
  · exact h.pkNodup.sublist ((List.filter_sublist).map _)
  · exact h.pathNodup.sublist ((List.filter_sublist).map _)
  · intro r hr; exact h.len r (List.mem_filter.1 hr).1
  · intro r hr hl
    have hr := List.mem_filter.1 hr
    obtain ⟨q, hq, e⟩ := h.closed r hr.1 hl
    exact ⟨q, List.mem_filter.2 ⟨hq, hclosed r hr.1 q hq e hr.2⟩, e⟩

theorem del_prune {keep : ρ → Bool} {D : Nat → Bool} {F F' : Forest} (h : PathInv L pk path T)
    (hclosed : ∀ r ∈ T, ∀ q ∈ T, path q = pp L (path r) → keep r = true → keep q = true)
    (hD : ∀ r ∈ T, D (pk r) = !keep r)
    (hF : Shows F (· ∈ T) pk (parOf L pk path T) (fun a b => path a < path b))
    (hF' : Shows F' (· ∈ T.filter keep) pk (parOf L pk path (T.filter keep)) (fun a b => path a < path b)) :
    F' = F.prune D := by
  have h' := del_inv h hclosed
  refine hF.prune (par' := parOf L pk path (T.filter keep)) (lt' := fun a b => path a < path b)
    (hF'.congr ?_ (fun _ _ => rfl) (fun _ _ _ _ _ h => h)) ?_ (fun _ _ _ _ _ _ _ h => h)
    (fun a b _ _ hab => plt_asymm hab) ?_
  · intro r
    rw [List.mem_filter]
    constructor
    · rintro ⟨a, b⟩; exact ⟨a, by rw [hD r a, b]; rfl⟩
    · rintro ⟨a, b⟩; rw [hD r a] at b; exact ⟨a, by simpa using b⟩
  · intro r hr hk
    rw [hD r hr] at hk
    have hk : keep r = true := by simpa using hk
    ext k
    rw [parOf_eq_some h', parOf_eq_some h]
    constructor
    · rintro ⟨q, hq, e, hk⟩; exact ⟨q, (List.mem_filter.1 hq).1, e, hk⟩
    · rintro ⟨q, hq, e, hk'⟩
      exact ⟨q, List.mem_filter.2 ⟨hq, hclosed r hr q hq e hk⟩, e, hk'⟩
  · intro r p hr hp hDp
    obtain ⟨q, hq, e, rfl⟩ := (parOf_eq_some h).1 hp
    rw [hD q hq] at hDp
    rw [hD r hr]
    by_contra hc
    have : keep r = true := by simpa using hc
    rw [hclosed r hr q hq e this] at hDp
    simp at hDp

/-! ### The forest of a table of paths -/

theorem strictWeak_path (path : ρ → List κ) : StrictWeak (fun a b => decide (path a < path b)) where
  total a b := by
    simp only [decide_eq_false_iff_not]; exact ple_total _ _
  trans a b c := by
    simp only [decide_eq_false_iff_not]; exact ple_trans

/-- rows sorted by path -/
def sortPath (path : ρ → List κ) (l : List ρ) : List ρ := sortBy (fun a b => decide (path a < path b)) l

theorem sortPath_strict {l : List ρ} (h : (l.map path).Nodup) :
    (sortPath path l).Pairwise (fun a b => path a < path b) := by
  have := sortBy_strict (strictWeak_path path) (List.Nodup.of_map _ h) (fun a ha b hb hne => by
    simp only [decide_eq_true_eq]
    rcases plt_trichotomy (path a) (path b) with h1 | h1 | h1
    · exact Or.inl h1
    · exact absurd (nodup_map_inj h ha hb h1) hne
    · exact Or.inr h1)
  exact this.imp (by simp)

/-- the forest described by the paths -/
def pforest (L : Nat) (pk : ρ → Nat) (path : ρ → List κ) (T : List ρ) : Forest := fun p =>
  (sortPath path (T.filter (fun r => decide (parOf L pk path T r = p)))).map pk

theorem shows_pforest (h : PathInv L pk path T) :
    Shows (pforest L pk path T) (· ∈ T) pk (parOf L pk path T) (fun a b => path a < path b) := by
  constructor
  intro p
  refine ⟨_, rfl, sortPath_strict (h.pathNodup.sublist (List.filter_sublist.map _)), ?_⟩
  intro r
  rw [sortPath, mem_sortBy, List.mem_filter]
  simp

theorem length_pforest (T : List ρ) (p : Option Nat) :
    (pforest L pk path T p).length = T.countP (fun r => decide (parOf L pk path T r = p)) := by
  rw [pforest, List.length_map, sortPath, (sortBy_perm _ _).length_eq, List.countP_eq_length_filter]

theorem mem_pforest (h : PathInv L pk path T) {p : Option Nat} {y : Nat} :
    y ∈ pforest L pk path T p ↔ ∃ r ∈ T, parOf L pk path T r = p ∧ pk r = y := (shows_pforest h).mem

/-- counting rows when the property changes for one row only -/
theorem countP_change {T : List ρ} (hn : T.Nodup) {x : ρ} (hx : x ∈ T) {P Q : ρ → Bool}
    (h : ∀ r ∈ T, r ≠ x → P r = Q r) :
    T.countP P + (if Q x then 1 else 0) = T.countP Q + (if P x then 1 else 0) := by
  induction T with
  | nil => simp at hx
  | cons a T ih =>
    rw [List.nodup_cons] at hn
    rw [List.countP_cons, List.countP_cons]
    rcases List.mem_cons.1 hx with rfl | hx
    · have : T.countP P = T.countP Q := by
        apply List.countP_congr
        intro r hr
        have hne : r ≠ x := by rintro rfl; exact hn.1 hr
        rw [h r (by simp [hr]) hne]
      omega
    · have := ih hn.2 hx (fun r hr hne => h r (by simp [hr]) hne)
      have hax : a ≠ x := by rintro rfl; exact hn.1 hx
      rw [h a (by simp) hax]
      omega

end Verif
