/-
Tables of paths: descendants, levels, pre-order.
-/
import Verif.Path

namespace Verif

variable {κ : Type} [LinearOrder κ] {ρ : Type}
variable {L : Nat} {pk : ρ → Nat} {path : ρ → List κ} {T : List ρ}

theorem child_prefix (h : PathInv L pk path T) (hL : 0 < L) {a d : ρ} (hd : d ∈ T)
    (hp : path a = pp L (path d)) : path a <+: path d ∧ a ≠ d := by
  refine ⟨hp ▸ pp_prefix _, ?_⟩
  rintro rfl
  have := (h.len a hd).2
  have e := congrArg List.length hp
  rw [pp_length] at e
  omega

/-- descendants have longer paths with the path of the ancestor as a prefix -/
theorem desc_prefix (h : PathInv L pk path T) (hL : 0 < L) {a : ρ} (ha : a ∈ T) {k : Nat}
    (hd : (pforest L pk path T).Desc (pk a) k) :
    ∃ d ∈ T, pk d = k ∧ path a <+: path d ∧ a ≠ d := by
  induction hd with
  | child hc =>
    obtain ⟨d, hd, hp, hk⟩ := (mem_pforest h).1 hc
    obtain ⟨q, hq, e, hk'⟩ := (parOf_eq_some h).1 hp
    have : q = a := h.pk_inj hq ha hk'
    subst this
    exact ⟨d, hd, hk, child_prefix h hL hd e⟩
  | @step m k _ hc ih =>
    obtain ⟨b, hb, hkb, hpre, hne⟩ := ih
    obtain ⟨d, hd, hp, hk⟩ := (mem_pforest h).1 hc
    obtain ⟨q, hq, e, hk'⟩ := (parOf_eq_some h).1 hp
    have : q = b := h.pk_inj hq hb (by rw [hk', hkb])
    subst this
    obtain ⟨h1, h2⟩ := child_prefix h hL hd e
    refine ⟨d, hd, hk, hpre.trans h1, ?_⟩
    rintro rfl
    have h3 := h1.length_le
    have h4 := hpre.length_le
    exact h2 (h.path_inj hb ha (h1.eq_of_length (by omega)))

theorem prefix_pp (h : PathInv L pk path T) {a d : ρ} (ha : a ∈ T) (hd : d ∈ T) (hp : path a <+: path d)
    (hne : a ≠ d) : path a <+: pp L (path d) := by
  obtain ⟨u, hu⟩ := hp
  have := branch_long h ha hd (Ne.symm hne) hu.symm
  rw [← hu, pp_append this]
  exact List.prefix_append _ _

theorem prefix_desc (h : PathInv L pk path T) (hL : 0 < L) {a : ρ} (ha : a ∈ T) :
    ∀ (n : Nat) (d : ρ), (path d).length ≤ n → d ∈ T → path a <+: path d → a ≠ d →
      (pforest L pk path T).Desc (pk a) (pk d) := by
  intro n
  induction n with
  | zero =>
    intro d hn hd _ _
    have := (h.len d hd).2
    omega
  | succ n ih =>
    intro d hn hd hp hne
    have h1 := prefix_pp h ha hd hp hne
    have hla := (h.len a ha).2
    have hll := h1.length_le
    rw [pp_length] at hll
    obtain ⟨q, hq, e⟩ := h.closed d hd (by omega)
    have hdc : pk d ∈ pforest L pk path T (some (pk q)) :=
      (mem_pforest h).2 ⟨d, hd, (parOf_eq_some h).2 ⟨q, hq, e, rfl⟩, rfl⟩
    by_cases hqa : a = q
    · subst hqa; exact .child hdc
    · refine .step (ih q ?_ hq (by rw [e]; exact h1) hqa) hdc
      rw [e, pp_length]; omega

theorem desc_iff (h : PathInv L pk path T) (hL : 0 < L) {a d : ρ} (ha : a ∈ T) (hd : d ∈ T) :
    (pforest L pk path T).Desc (pk a) (pk d) ↔ path a <+: path d ∧ a ≠ d := by
  constructor
  · intro hx
    obtain ⟨d', hd', hk, r⟩ := desc_prefix h hL ha hx
    have : d' = d := h.pk_inj hd' hd hk
    subst this
    exact r
  · rintro ⟨hp, hne⟩
    exact prefix_desc h hL ha _ d (Nat.le_refl _) hd hp hne

/-- a key with descendants is the key of a row -/
theorem desc_left_mem (h : PathInv L pk path T) {a k : Nat} (hd : (pforest L pk path T).Desc a k) :
    ∃ r ∈ T, pk r = a := by
  induction hd with
  | child hc =>
    obtain ⟨d, hd, hp, hk⟩ := (mem_pforest h).1 hc
    obtain ⟨q, hq, e, hk'⟩ := (parOf_eq_some h).1 hp
    exact ⟨q, hq, hk'⟩
  | step _ _ ih => exact ih

/-- levels are lengths of paths in steps -/
theorem level_length (h : PathInv L pk path T) (hL : 0 < L) {k n : Nat}
    (hl : (pforest L pk path T).Level k n) : ∃ r ∈ T, pk r = k ∧ (path r).length = n * L := by
  induction hl with
  | root hr =>
    obtain ⟨r, hr, hp, hk⟩ := (mem_pforest h).1 hr
    exact ⟨r, hr, hk, by rw [(parOf_eq_none h hL hr).1 hp]; omega⟩
  | @child p x n _ hc ih =>
    obtain ⟨b, hb, hkb, hn⟩ := ih
    obtain ⟨d, hd, hp, hk⟩ := (mem_pforest h).1 hc
    obtain ⟨q, hq, e, hk'⟩ := (parOf_eq_some h).1 hp
    have : q = b := h.pk_inj hq hb (by rw [hk', hkb])
    subst this
    refine ⟨d, hd, hk, ?_⟩
    have h1 := congrArg List.length e
    rw [pp_length, hn] at h1
    have h2 := (h.len d hd).2
    rw [Nat.add_mul]; omega

theorem length_level (h : PathInv L pk path T) (hL : 0 < L) :
    ∀ (n : Nat) (r : ρ), r ∈ T → (path r).length = (n + 1) * L → (pforest L pk path T).Level (pk r) (n + 1) := by
  intro n
  induction n with
  | zero =>
    intro r hr hn
    exact .root ((mem_pforest h).2 ⟨r, hr, (parOf_eq_none h hL hr).2 (by omega), rfl⟩)
  | succ n ih =>
    intro r hr hn
    have h0 : (n + 1 + 1) * L = (n + 1) * L + L := by rw [Nat.add_mul (n + 1)]; omega
    have h1 : L ≤ (n + 1) * L := Nat.le_mul_of_pos_left _ (by omega)
    obtain ⟨q, hq, e⟩ := h.closed r hr (by omega)
    refine .child (ih q hq ?_) ((mem_pforest h).2 ⟨r, hr, (parOf_eq_some h).2 ⟨q, hq, e, rfl⟩, rfl⟩)
    rw [e, pp_length]; omega

theorem level_iff (h : PathInv L pk path T) (hL : 0 < L) {r : ρ} (hr : r ∈ T) {n : Nat} :
    (pforest L pk path T).Level (pk r) n ↔ (path r).length = n * L := by
  constructor
  · intro hl
    obtain ⟨q, hq, hk, e⟩ := level_length h hL hl
    rw [← h.pk_inj hq hr hk, e]
  · intro e
    have h2 := (h.len r hr).2
    cases n with
    | zero => omega
    | succ n => exact length_level h hL n r hr e

/-! ### Pre-order -/

/-- siblings in order: every path below the first is smaller than every path below the second -/
theorem block_lt {a b y z : List κ} (hl : a.length = b.length) (hab : a < b) (hy : a <+: y) (hz : b <+: z) :
    y < z := by
  obtain ⟨u, rfl⟩ := hy
  obtain ⟨v, rfl⟩ := hz
  exact plt_append_of_lt hl hab u v

/-- A listing, sorted by path, of the branches of the siblings `cs` is their pre-order. -/
theorem dfs_listing (h : PathInv L pk path T) (hL : 0 < L) {l cs : List ρ} (hlT : ∀ r ∈ l, r ∈ T)
    (hcT : ∀ r ∈ cs, r ∈ T) (hl : l.Pairwise (fun a b => path a < path b))
    (hcs : cs.Pairwise (fun a b => path a < path b))
    (hlen : ∀ a ∈ cs, ∀ b ∈ cs, (path a).length = (path b).length)
    (hmem : ∀ r ∈ T, r ∈ l ↔ ∃ c ∈ cs, path c <+: path r) :
    (pforest L pk path T).DFS (cs.map pk) (l.map pk) := by
  let lt : Nat → Nat → Prop := fun x y => ∃ a ∈ T, ∃ b ∈ T, pk a = x ∧ pk b = y ∧ path a < path b
  have ltp : ∀ {a b}, a ∈ T → b ∈ T → (lt (pk a) (pk b) ↔ path a < path b) := by
    intro a b ha hb
    constructor
    · rintro ⟨a', ha', b', hb', e1, e2, h1⟩
      rw [← h.pk_inj ha' ha e1, ← h.pk_inj hb' hb e2]; exact h1
    · intro h1; exact ⟨a, ha, b, hb, rfl, rfl, h1⟩
  have under : ∀ {c y}, c ∈ T → (y = pk c ∨ (pforest L pk path T).Desc (pk c) y) →
      ∃ r ∈ T, pk r = y ∧ path c <+: path r := by
    intro c y hc hy
    rcases hy with rfl | hy
    · exact ⟨c, hc, rfl, List.prefix_refl _⟩
    · obtain ⟨d, hd, e, hp, _⟩ := desc_prefix h hL hc hy
      exact ⟨d, hd, e, hp⟩
  have blk : ∀ {a b : ρ}, a ∈ T → b ∈ T → (path a).length = (path b).length → lt (pk a) (pk b) →
      ∀ y z, (y = pk a ∨ (pforest L pk path T).Desc (pk a) y) →
        (z = pk b ∨ (pforest L pk path T).Desc (pk b) z) → lt y z := by
    intro a b ha hb hlen hab y z hy hz
    obtain ⟨r, hr, rfl, h1⟩ := under ha hy
    obtain ⟨s, hs, rfl, h2⟩ := under hb hz
    exact (ltp hr hs).2 (block_lt hlen ((ltp ha hb).1 hab) h1 h2)
  have kids : ∀ {p c : Nat}, c ∈ pforest L pk path T (some p) → ∃ r ∈ T, pk r = c ∧
      ∃ q ∈ T, pk q = p ∧ path q = pp L (path r) := by
    intro p c hc
    obtain ⟨d, hd, hp, hk⟩ := (mem_pforest h).1 hc
    obtain ⟨q, hq, e, hk'⟩ := (parOf_eq_some h).1 hp
    exact ⟨d, hd, hk, q, hq, hk', e⟩
  refine dfs_of_sorted (lt := lt) (l.map pk).length _ _ (Nat.le_refl _) ?_ ?_ ?_ ?_ ?_ ?_ ?_ ?_
  · intro x y hx hy h1 h2
    obtain ⟨a, ha, rfl⟩ := List.mem_map.1 hx
    obtain ⟨b, hb, rfl⟩ := List.mem_map.1 hy
    exact plt_asymm ((ltp (hlT a ha) (hlT b hb)).1 h1) ((ltp (hlT b hb) (hlT a ha)).1 h2)
  · rw [List.pairwise_map]
    exact hl.imp_of_mem (fun ha hb h1 => (ltp (hlT _ ha) (hlT _ hb)).2 h1)
  · rw [List.pairwise_map]
    exact hcs.imp_of_mem (fun ha hb h1 => (ltp (hcT _ ha) (hcT _ hb)).2 h1)
  · intro p _
    obtain ⟨m, e, s, hm⟩ := (shows_pforest h).lists (some p)
    rw [e, List.pairwise_map]
    exact s.imp_of_mem (fun ha hb h1 => (ltp ((hm _).1 ha).1 ((hm _).1 hb).1).2 h1)
  · intro y
    constructor
    · intro hy
      obtain ⟨r, hr, rfl⟩ := List.mem_map.1 hy
      obtain ⟨c, hc, hp⟩ := (hmem r (hlT r hr)).1 hr
      refine ⟨pk c, List.mem_map_of_mem hc, ?_⟩
      by_cases e : c = r
      · subst e; exact Or.inl rfl
      · exact Or.inr ((desc_iff h hL (hcT c hc) (hlT r hr)).2 ⟨hp, e⟩)
    · rintro ⟨x, hx, hy⟩
      obtain ⟨c, hc, rfl⟩ := List.mem_map.1 hx
      obtain ⟨r, hr, rfl, hp⟩ := under (hcT c hc) hy
      exact List.mem_map_of_mem ((hmem r hr).2 ⟨c, hc, hp⟩)
  · intro x y hx hd
    obtain ⟨a, ha, rfl⟩ := List.mem_map.1 hx
    obtain ⟨d, hdT, rfl, hp, hne⟩ := desc_prefix h hL (hlT a ha) hd
    refine (ltp (hlT a ha) hdT).2 (plt_prefix hp ?_)
    intro e; exact hne (h.path_inj (hlT a ha) hdT e)
  · intro x y hx hy hxy
    obtain ⟨a, ha, rfl⟩ := List.mem_map.1 hx
    obtain ⟨b, hb, rfl⟩ := List.mem_map.1 hy
    exact blk (hcT a ha) (hcT b hb) (hlen a ha b hb) hxy
  · intro p _ x y hx hy hxy
    obtain ⟨a, ha, rfl, q, hq, e, e'⟩ := kids hx
    obtain ⟨b, hb, rfl, q', hq', e1, e1'⟩ := kids hy
    have : q = q' := h.pk_inj hq hq' (by rw [e, e1])
    subst this
    have h1 := congrArg List.length e'
    have h2 := congrArg List.length e1'
    rw [pp_length] at h1 h2
    have := (h.len a ha).2
    have := (h.len b hb).2
    exact blk ha hb (by omega) hxy

/-- every row has a root above it -/
theorem exists_root (h : PathInv L pk path T) (hL : 0 < L) : ∀ (n : Nat) (r : ρ), (path r).length ≤ n → r ∈ T →
    ∃ c ∈ T, (path c).length = L ∧ path c <+: path r := by
  intro n
  induction n with
  | zero => intro r hn hr; have := (h.len r hr).2; omega
  | succ n ih =>
    intro r hn hr
    have h1 := (h.len r hr).2
    by_cases hlr : (path r).length = L
    · exact ⟨r, hr, hlr, List.prefix_refl _⟩
    · obtain ⟨q, hq, e⟩ := h.closed r hr (by omega)
      obtain ⟨c, hc, hl, hp⟩ := ih q (by rw [e, pp_length]; omega) hq
      exact ⟨c, hc, hl, hp.trans (e ▸ pp_prefix _)⟩

/-- the whole table sorted by path is the pre-order of the forest -/
theorem dfs_all (h : PathInv L pk path T) (hL : 0 < L) {l : List ρ}
    (hl : l.Pairwise (fun a b => path a < path b)) (hm : ∀ r, r ∈ l ↔ r ∈ T) :
    (pforest L pk path T).DFS (pforest L pk path T none) (l.map pk) := by
  obtain ⟨m, e, s, hm'⟩ := (shows_pforest h).lists none
  have hlen : ∀ a ∈ m, (path a).length = L := fun a ha =>
    (parOf_eq_none h hL ((hm' a).1 ha).1).1 ((hm' a).1 ha).2
  rw [e]
  refine dfs_listing h hL (fun r hr => (hm r).1 hr) (fun r hr => ((hm' r).1 hr).1) hl s ?_ ?_
  · intro a ha b hb; rw [hlen a ha, hlen b hb]
  · intro r hr
    refine ⟨fun _ => ?_, fun _ => (hm r).2 hr⟩
    obtain ⟨c, hc, hl, hp⟩ := exists_root h hL _ r (Nat.le_refl _) hr
    exact ⟨c, (hm' c).2 ⟨hc, (parOf_eq_none h hL hc).2 hl⟩, hp⟩

/-- the branch of a row sorted by path is its pre-order -/
theorem dfs_branch (h : PathInv L pk path T) (hL : 0 < L) {x : ρ} (hx : x ∈ T) {l : List ρ}
    (hl : l.Pairwise (fun a b => path a < path b)) (hm : ∀ r, r ∈ l ↔ r ∈ T ∧ path x <+: path r) :
    (pforest L pk path T).DFS [pk x] (l.map pk) := by
  refine dfs_listing h hL (cs := [x]) (fun r hr => ((hm r).1 hr).1) (by simpa using hx) hl (by simp) (by simp) ?_
  intro r hr
  simp [hm, hr]

/-- the paths describe a forest on exactly the keys of the rows -/
theorem isForestOn (h : PathInv L pk path T) (hL : 0 < L) :
    (pforest L pk path T).IsForestOn (T.map pk) := by
  have hs := sortPath_strict (path := path) h.pathNodup
  refine ⟨⟨(sortPath path T).map pk, dfs_all h hL hs (fun r => mem_sortBy), ?_, ?_⟩, ?_⟩
  · exact ((sortBy_perm _ T).map pk).nodup_iff.2 h.pkNodup
  · exact (sortBy_perm _ T).map pk
  · intro p hp
    rw [List.eq_nil_iff_forall_not_mem]
    intro c hc
    obtain ⟨d, hd, hpar, hk⟩ := (mem_pforest h).1 hc
    obtain ⟨q, hq, e, hk'⟩ := (parOf_eq_some h).1 hpar
    exact hp (List.mem_map.2 ⟨q, hq, hk'⟩)

end Verif
