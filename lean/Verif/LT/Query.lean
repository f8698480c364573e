/-
LT: what the navigation queries return on a consistent table.
-/
import Verif.LT.Move
import Verif.SpecNav

namespace Verif.LT

variable {db : DB} {rows : List Row}

theorem mem_PF (h : PI rows) {p : Option Nat} {y : Nat} :
    y ∈ PF rows p ↔ ∃ r ∈ rows, par rows r = p ∧ r.pk = y := mem_pforest h

theorem level_PF (h : PI rows) {r : Row} (hr : r ∈ rows) {n : Nat} : (PF rows).Level r.pk n ↔ r.path.length = n := by
  rw [level_iff h (by omega) hr, Nat.mul_one]

theorem level_exists (h : PI rows) {r : Row} (hr : r ∈ rows) : (PF rows).Level r.pk r.path.length := (level_PF h hr).2 rfl

theorem desc_PF (h : PI rows) {a d : Row} (ha : a ∈ rows) (hd : d ∈ rows) :
    (PF rows).Desc a.pk d.pk ↔ a.path <+: d.path ∧ a ≠ d := desc_iff h (by omega) ha hd

theorem prefix_len_lt (h : PI rows) {a d : Row} (ha : a ∈ rows) (hd : d ∈ rows) (hp : a.path <+: d.path) (hne : a ≠ d) :
    a.path.length < d.path.length := by
  have h1 := hp.length_le
  have h2 : a.path.length ≠ d.path.length := fun e => hne (h.path_inj ha hd (hp.eq_of_length e))
  omega

theorem getTree_sub {p : Option Row} {k : Option Int} : ∀ r ∈ getTree db p k, r ∈ db.rows := by
  intro r hr
  exact (List.mem_filter.1 (mem_orderByPath.1 hr)).1

theorem getTree_sorted (h : PI db.rows) (p : Option Row) (k : Option Int) :
    (getTree db p k).Pairwise (fun a b => a.path < b.path) :=
  orderByPath_strict (nodup_filter_paths h.pathNodup _)

theorem getTree_pk_nodup (h : PI db.rows) (p : Option Row) (k : Option Int) : ((getTree db p k).map Row.pk).Nodup := by
  have hs := getTree_sorted h p k
  rw [List.nodup_iff_pairwise_ne, List.pairwise_map]
  refine hs.imp_of_mem ?_
  intro a b ha hb hlt e
  rw [h.pk_inj (getTree_sub a ha) (getTree_sub b hb) e] at hlt
  exact List.lt_irrefl _ hlt

/-- the length that `max_depth` counts from -/
def topLen : Option Row → Nat
  | none => 0
  | some q => q.path.length

theorem mem_getTree {p : Option Row} {k : Option Int} {r : Row} : r ∈ getTree db p k ↔
    r ∈ db.rows ∧ (∀ q, p = some q → q.path <+: r.path) ∧
      ∀ m, k = some m → m ≠ 0 → (r.path.length : Int) ≤ m + topLen p := by
  unfold getTree
  rw [mem_orderByPath, List.mem_filter, Bool.and_eq_true]
  refine and_congr_right (fun _ => and_congr ?_ ?_)
  · cases p with
    | none => simp
    | some q => simp [List.isPrefixOf_iff_prefix]
  · cases k with
    | none => simp
    | some m =>
      have e : ((m == 0 || decide ((r.path.length : Int) ≤ m + (topLen p : Int))) = true) ↔
          ∀ m_1 : Int, some m = some m_1 → m_1 ≠ 0 → (r.path.length : Int) ≤ m_1 + topLen p := by
        simp only [Bool.or_eq_true, beq_iff_eq, decide_eq_true_eq, Option.some.injEq, forall_eq']
        constructor
        · rintro (h | h) hne
          · exact absurd h hne
          · exact h
        · intro h
          by_cases hm : m = 0
          · exact Or.inl hm
          · exact Or.inr (h hm)
      cases p <;> exact e

theorem getTree_all (h : PI db.rows) : (PF db.rows).DFS (PF db.rows none) ((getTree db none none).map Row.pk) :=
  dfs_all h (by omega) (getTree_sorted h none none) (fun r => by rw [mem_getTree]; simp)

theorem getTree_branch (h : PI db.rows) {p : Row} (hp : p ∈ db.rows) :
    (PF db.rows).DFS [p.pk] ((getTree db (some p) none).map Row.pk) :=
  dfs_branch h (by omega) hp (getTree_sorted h (some p) none) (fun r => by rw [mem_getTree]; simp)

theorem getTree_limit (h : PI db.rows) (p : Option Row) {m : Int} (hm : m ≠ 0) : getTree db p (some m) =
    (getTree db p none).filter (fun r => decide ((r.path.length : Int) ≤ m + topLen p)) := by
  refine sorted_unique (T := fun _ => True) (lt := fun a b : Row => a.path < b.path) ?_ (fun _ _ => trivial)
    (getTree_sorted h p _) ((getTree_sorted h p none).filter _) ?_
  · intro a b _ _ hab; exact plt_asymm hab
  · intro r
    rw [List.mem_filter, decide_eq_true_eq, mem_getTree, mem_getTree]
    simp [and_assoc, hm]

theorem mem_descendants (h : PI db.rows) {p : Row} (hp : p ∈ db.rows) {r : Row} : r ∈ descendants db p false none ↔
    r ∈ db.rows ∧ (PF db.rows).Desc p.pk r.pk := by
  unfold descendants
  simp only [Bool.false_eq_true, if_false]
  rw [List.mem_filter, mem_getTree]
  constructor
  · rintro ⟨⟨hr, hpre, _⟩, hne⟩
    refine ⟨hr, (desc_PF h hp hr).2 ⟨hpre p rfl, ?_⟩⟩
    rintro rfl; simp at hne
  · rintro ⟨hr, hdesc⟩
    obtain ⟨hpre, hne⟩ := (desc_PF h hp hr).1 hdesc
    refine ⟨⟨hr, ?_, by simp⟩, ?_⟩
    · rintro q ⟨⟩; exact hpre
    · simp only [bne_iff_ne, ne_eq]
      intro e; exact hne (h.pk_inj hr hp e).symm

theorem filter_eq_single {α : Type} {l : List α} (hn : l.Nodup) {q : α → Bool} {a : α} (ha : a ∈ l) (hq : q a = true)
    (hu : ∀ b ∈ l, q b = true → b = a) : l.filter q = [a] := by
  have hp : (l.filter q).Perm [a] := by
    refine (List.perm_ext_iff_of_nodup (hn.filter _) (by simp)).2 ?_
    intro b
    rw [List.mem_filter, List.mem_singleton]
    constructor
    · rintro ⟨h1, h2⟩; exact hu b h1 h2
    · rintro rfl; exact ⟨ha, hq⟩
  exact List.perm_singleton.1 hp

theorem rows_nodup (h : PI rows) : rows.Nodup := List.Nodup.of_map _ h.pkNodup

theorem getByPath_of (h : PI db.rows) {r : Row} (hr : r ∈ db.rows) : getByPath db r.path = .ok r := by
  unfold getByPath
  rw [filter_eq_single (rows_nodup h) hr (by simp) (by
    intro b hb e
    exact h.path_inj hb hr (by simpa using e))]

theorem getParent_root (h : PI db.rows) {x : Row} (hx : x ∈ db.rows) (hr : par db.rows x = none) :
    getParent db x = .ok none := by
  unfold getParent
  have h1 := (par_eq_none h hx).1 hr
  have h2 := len_pos h hx
  have h3 := congrArg List.length h1
  rw [List.length_dropLast, List.length_nil] at h3
  rw [if_pos (by omega)]

theorem getParent_some (h : PI db.rows) {x p : Row} (hp : p ∈ db.rows)
    (hr : par db.rows x = some p.pk) : getParent db x = .ok (some p) := by
  have hpp := (par_eq_some h hp).1 hr
  have h2 := len_pos h hp
  have h3 := congrArg List.length hpp
  rw [List.length_dropLast] at h3
  unfold getParent
  rw [if_neg (by omega), hpp, getByPath_of h hp]

theorem getRoot_spec (h : PI db.rows) {x : Row} (hx : x ∈ db.rows) :
    ∃ r ∈ db.rows, getRoot db x = .ok r ∧ r.path.length = 1 ∧ r.path <+: x.path := by
  obtain ⟨r, hr, hl, hp⟩ := exists_root h (by omega) _ x (Nat.le_refl _) hx
  refine ⟨r, hr, ?_, hl, hp⟩
  unfold getRoot
  obtain ⟨l, hrl⟩ := List.length_eq_one_iff.1 hl
  obtain ⟨u, hu⟩ := hp
  rw [← hu, hrl]
  show getByPath db [l] = .ok r
  rw [← hrl]
  exact getByPath_of h hr

theorem mem_ancestors (h : PI db.rows) {x r : Row} (hx : x ∈ db.rows) :
    r ∈ ancestors db x ↔ r ∈ db.rows ∧ r.path <+: x.path ∧ r ≠ x := by
  unfold ancestors
  rw [mem_orderByPath, List.mem_filter, Bool.and_eq_true, List.isPrefixOf_iff_prefix]
  refine and_congr_right (fun hr => and_congr_right (fun _ => ?_))
  simp only [bne_iff_ne, ne_eq]
  refine not_congr ⟨fun e => h.pk_inj hr hx e, fun e => by rw [e]⟩

theorem ancestors_sorted (h : PI db.rows) (x : Row) : (ancestors db x).Pairwise (fun a b => a.path < b.path) :=
  orderByPath_strict (nodup_filter_paths h.pathNodup _)

theorem ancestors_anc (h : PI db.rows) : ∀ (n : Nat) (x : Row), x.path.length ≤ n → x ∈ db.rows →
    (PF db.rows).Anc x.pk ((ancestors db x).map Row.pk) := by
  intro n
  induction n with
  | zero => intro x hn hx; have := len_pos h hx; omega
  | succ n ih =>
    intro x hn hx
    cases hpar : par db.rows x with
    | none =>
      have : ancestors db x = [] := by
        rw [List.eq_nil_iff_forall_not_mem]
        intro r hr
        obtain ⟨hr, hp, hne⟩ := (mem_ancestors h hx).1 hr
        have h1 := prefix_len_lt h hr hx hp hne
        have h2 := congrArg List.length ((par_eq_none h hx).1 hpar)
        have h3 := len_pos h hr
        rw [List.length_dropLast, List.length_nil] at h2
        omega
      rw [this]
      exact .root ((mem_PF h).2 ⟨x, hx, hpar, rfl⟩)
    | some k =>
      obtain ⟨p, hp, e, rfl⟩ := (parOf_eq_some h).1 hpar
      obtain ⟨hpre, hpne⟩ := child_prefix h (by omega) hx e
      have hlt := prefix_len_lt h hp hx hpre hpne
      have hanc : ancestors db x = ancestors db p ++ [p] := by
        refine sorted_unique (T := fun _ => True) (lt := fun a b : Row => a.path < b.path) ?_ (fun _ _ => trivial)
          (ancestors_sorted h x) ?_ ?_
        · intro a b _ _ hab; exact plt_asymm hab
        · rw [List.pairwise_append]
          refine ⟨ancestors_sorted h p, by simp, ?_⟩
          intro a ha b hb
          rw [List.mem_singleton] at hb; subst hb
          obtain ⟨ha, hpa, hne⟩ := (mem_ancestors h hp).1 ha
          exact plt_prefix hpa (fun e => hne (h.path_inj ha hp e))
        · intro r
          rw [mem_ancestors h hx, List.mem_append, mem_ancestors h hp, List.mem_singleton]
          constructor
          · rintro ⟨hr, hpr, hne⟩
            by_cases hrp : r = p
            · exact Or.inr hrp
            · exact Or.inl ⟨hr, e ▸ prefix_pp h hr hx hpr hne, hrp⟩
          · rintro (⟨hr, hpr, hne⟩ | rfl)
            · refine ⟨hr, hpr.trans hpre, ?_⟩
              rintro rfl
              have := hpr.length_le
              omega
            · exact ⟨hp, hpre, hpne⟩
      rw [hanc, List.map_append]
      exact .step (ih p (by omega) hp) ((mem_PF h).2 ⟨x, hx, hpar, rfl⟩)

theorem root_headD (h : PI db.rows) {x r : Row} (hx : x ∈ db.rows) (hr : r ∈ db.rows) (hl : r.path.length = 1)
    (hp : r.path <+: x.path) : r.pk = (((ancestors db x).map Row.pk) ++ [x.pk]).headD x.pk := by
  by_cases hrx : r = x
  · have : ancestors db x = [] := by
      rw [List.eq_nil_iff_forall_not_mem]
      intro q hq
      obtain ⟨hq, hp, hne⟩ := (mem_ancestors h hx).1 hq
      have h1 := prefix_len_lt h hq hx hp hne
      have h3 := len_pos h hq
      rw [← hrx, hl] at h1
      omega
    simp [this, hrx]
  · have hm : r ∈ ancestors db x := (mem_ancestors h hx).2 ⟨hr, hp, hrx⟩
    have hs := ancestors_sorted h x
    cases ha : ancestors db x with
    | nil => rw [ha] at hm; simp at hm
    | cons a l =>
      have ham : a ∈ ancestors db x := by rw [ha]; simp
      obtain ⟨har, hap, _⟩ := (mem_ancestors h hx).1 ham
      rw [ha] at hm hs
      rw [List.pairwise_cons] at hs
      rcases List.mem_cons.1 hm with e1 | h1
      · simp [e1]
      · have h1 := hs.1 r h1
        have hra : r.path <+: a.path := List.prefix_of_prefix_length_le hp hap (by have := len_pos h har; omega)
        by_cases hne : r.path = a.path
        · rw [hne] at h1; exact absurd h1 (plt_irrefl _)
        · exact absurd (plt_prefix hra hne) (plt_asymm h1)

theorem par_iff_dropLast (h : PI rows) {r s : Row} (hr : r ∈ rows) (hs : s ∈ rows) :
    par rows r = par rows s ↔ r.path.dropLast = s.path.dropLast := by
  have h1 := (par_iff h (IsPar.drop h hs) hs).2 rfl
  rw [h1]
  exact par_iff h (IsPar.drop h hs) hr

theorem siblings_PF (h : PI db.rows) {x : Row} (hx : x ∈ db.rows) :
    (siblings db x).map Row.pk = PF db.rows (par db.rows x) := by
  obtain ⟨l, e, s, m⟩ := (shows_pforest h).lists (par db.rows x)
  refine Eq.trans ?_ e.symm
  congr 1
  refine sorted_unique (T := fun _ => True) (lt := fun a b : Row => a.path < b.path) ?_ (fun _ _ => trivial)
    (by rw [siblings_eq h hx]; exact below_sorted h _ _) s ?_
  · intro a b _ _ hab; exact plt_asymm hab
  · intro r
    rw [mem_siblings h hx, m]
    exact and_congr_right (fun hr => (par_iff_dropLast h hr hx).symm)

theorem children_PF (h : PI db.rows) {x : Row} (hx : x ∈ db.rows) :
    (children db x).map Row.pk = PF db.rows (some x.pk) := by
  rw [← forest_eq h]
  show _ = (match db.get? x.pk with | none => [] | some r => (children db r).map Row.pk)
  rw [(get?_eq_some h).2 ⟨hx, rfl⟩]

/-- neighbours in a sorted list -/
theorem next_in_sorted {l : List Row} (hs : l.Pairwise (fun a b => a.path < b.path)) {x : Row} (hx : x ∈ l) :
    ∃ l₁ l₂, l = l₁ ++ x :: l₂ ∧ l.filter (fun r => decide (x.path < r.path)) = l₂ ∧
      l.filter (fun r => decide (r.path < x.path)) = l₁ := by
  obtain ⟨l₁, l₂, rfl⟩ := List.append_of_mem hx
  rw [List.pairwise_append, List.pairwise_cons] at hs
  refine ⟨l₁, l₂, rfl, ?_, ?_⟩
  · rw [List.filter_append, List.filter_cons]
    have h1 : l₁.filter (fun r => decide (x.path < r.path)) = [] := by
      rw [List.filter_eq_nil_iff]
      intro r hr
      simpa using plt_asymm (hs.2.2 r hr x (by simp))
    have h2 : l₂.filter (fun r => decide (x.path < r.path)) = l₂ := by
      rw [List.filter_eq_self]
      intro r hr
      simpa using hs.2.1.1 r hr
    rw [h1, h2]
    simp
  · rw [List.filter_append, List.filter_cons]
    have h1 : l₁.filter (fun r => decide (r.path < x.path)) = l₁ := by
      rw [List.filter_eq_self]
      intro r hr
      simpa using hs.2.2 r hr x (by simp)
    have h2 : l₂.filter (fun r => decide (r.path < x.path)) = [] := by
      rw [List.filter_eq_nil_iff]
      intro r hr
      simpa using plt_asymm (hs.2.1.1 r hr)
    rw [h1, h2]
    simp

theorem neighbours (h : PI db.rows) {x : Row} (hx : x ∈ db.rows) :
    ∃ l₁ l₂, PF db.rows (par db.rows x) = l₁ ++ x.pk :: l₂ ∧
      (nextSibling db x).map Row.pk = l₂.head? ∧ (prevSibling db x).map Row.pk = l₁.getLast? := by
  have hmem : x ∈ siblings db x := (mem_siblings h hx).2 ⟨hx, rfl⟩
  obtain ⟨l₁, l₂, e, e1, e2⟩ := next_in_sorted (by rw [siblings_eq h hx]; exact below_sorted h _ _) hmem
  refine ⟨l₁.map Row.pk, l₂.map Row.pk, ?_, ?_, ?_⟩
  · rw [← siblings_PF h hx, e]; simp
  · unfold nextSibling; rw [e1]; simp
  · unfold prevSibling; rw [e2]; simp

theorem isRoot_iff (h : PI db.rows) {x : Row} (hx : x ∈ db.rows) : x.isRoot = true ↔ par db.rows x = none := by
  rw [par_eq_none h hx, Row.isRoot, beq_iff_eq, ← List.length_eq_zero_iff, List.length_dropLast]
  have := len_pos h hx
  omega

end Verif.LT
