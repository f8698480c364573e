/-
MP: one round of `fix_tree(fix_paths=True)`.
-/
import Verif.MP.FixLoop
import Verif.MP.SortedTree

namespace Verif.MP

set_option linter.unusedSectionVars false

variable {cfg : Cfg} {rows : List Row}

theorem readPositions_spec {P : List Nat} {pos : Nat → Nat} (hok : cfg.Ok) {todo : List Row}
    (ht : ∀ r ∈ todo, pos r.pk < cfg.cap ∧ r.path = P ++ stp cfg (pos r.pk)) :
    ∀ {done : List Row} {seq : Nat → Option Nat} {m : Option Nat},
    (∀ a ∈ done ++ todo, ∀ b ∈ done ++ todo, pos a.pk = pos b.pk → a.pk = b.pk) →
    (∀ n k, seq n = some k ↔ ∃ r ∈ done, r.pk = k ∧ pos k = n) → (∀ r ∈ done, ∃ m', m = some m' ∧ pos r.pk ≤ m') →
    ∃ seq' m', readPositions cfg todo seq m = .ok (seq', m') ∧
      (∀ n k, seq' n = some k ↔ ∃ r ∈ done ++ todo, r.pk = k ∧ pos k = n) ∧
      ∀ r ∈ done ++ todo, ∃ m'', m' = some m'' ∧ pos r.pk ≤ m'' := by
  induction todo with
  | nil =>
    intro done seq m _ h1 h2
    refine ⟨seq, m, rfl, ?_, ?_⟩ <;> simpa
  | cons x todo ih =>
    intro done seq m hinj h1 h2
    unfold readPositions
    obtain ⟨hx1, hx2⟩ := ht x (by simp)
    rw [hx2, lastpos_eq hok P hx1]
    simp only
    have := ih (fun r hr => ht r (by simp [hr])) (done := done ++ [x]) (seq := setKey seq (pos x.pk) (some x.pk))
      (m := higher m (pos x.pk))
      (by simpa using hinj) ?_ ?_
    · simpa using this
    · intro n k
      simp only [setKey]
      by_cases hn : n = pos x.pk
      · rw [if_pos hn]
        constructor
        · intro e; cases e
          exact ⟨x, by simp, rfl, hn.symm⟩
        · rintro ⟨r, hr, rfl, e⟩
          rw [hinj r (by simp at hr ⊢; tauto) x (by simp) (by rw [e, hn])]
      · rw [if_neg hn, h1]
        constructor
        · rintro ⟨r, hr, e⟩; exact ⟨r, by simp [hr], e⟩
        · rintro ⟨r, hr, rfl, e⟩
          rcases List.mem_append.1 hr with hr | hr
          · exact ⟨r, hr, rfl, e⟩
          · simp at hr; subst hr; exact absurd e.symm hn
    · intro r hr
      unfold higher
      cases m with
      | none =>
        simp only
        rcases List.mem_append.1 hr with hr | hr
        · obtain ⟨m', e, _⟩ := h2 r hr; cases e
        · simp at hr; subst hr; exact ⟨_, rfl, Nat.le_refl _⟩
      | some m =>
        simp only
        have hm : (if pos x.pk > m then some (pos x.pk) else some m) = some (max (pos x.pk) m) := by
          split
          · rw [Nat.max_eq_left (by omega)]
          · rw [Nat.max_eq_right (by omega)]
        rw [hm]
        refine ⟨_, rfl, ?_⟩
        rcases List.mem_append.1 hr with hr | hr
        · obtain ⟨m', e, hle⟩ := h2 r hr; cases e; omega
        · simp at hr; subst hr; exact Nat.le_max_left _ _

/-- the children of `P` in the order of `ord` -/
def group (ord : List Row → List Row) (rows : List Row) (P : List Nat) (d : Nat) : List Row :=
  ord (rows.filter (fun r => P.isPrefixOf r.path && r.depth == d))

theorem kids_group (hok : cfg.Ok) (h : PInv cfg rows) {ord : List Row → List Row} (ho : OrdersBy cfg ord) {P : List Nat} {d : Nat}
    (hd : P.length + cfg.steplen = d * cfg.steplen) : Kids cfg rows P (group ord rows P d) := by
  have hs := hok.step
  constructor
  · intro r
    unfold group
    rw [(ho.perm _).mem_iff, List.mem_filter]
    constructor
    · rintro ⟨hr, hc⟩
      simp only [Bool.and_eq_true, beq_iff_eq] at hc
      refine ⟨hr, ?_⟩
      obtain ⟨u, hu⟩ := List.isPrefixOf_iff_prefix.1 hc.1
      have hl := h.depth r hr
      rw [hc.2, ← hd, ← hu, List.length_append] at hl
      rw [← hu]
      exact pp_append_step (by omega)
    · rintro ⟨hr, rfl⟩
      refine ⟨hr, ?_⟩
      simp only [Bool.and_eq_true, beq_iff_eq]
      refine ⟨List.isPrefixOf_iff_prefix.2 (pp_prefix _), ?_⟩
      have hl := h.depth r hr
      have hlen := (h.inv.len r hr).2
      rw [pp_length, Nat.sub_add_cancel hlen, hl] at hd
      exact Nat.eq_of_mul_eq_mul_right hs hd
  · unfold group
    rw [((ho.perm _).map Row.pk).nodup_iff]
    exact (List.filter_sublist.map Row.pk).nodup h.inv.pkNodup

/-- what one round does, when it does not fail -/
structure Round (cfg : Cfg) (rows : List Row) (P : List Nat) (d : Nat) (l : List Row) (g : List Nat → List Nat) (pos : Nat → Nat)
    (rows' : List Row) (q : List (List Nat × Nat)) : Prop where
  placed : Placed cfg P l g pos
  table : rows' = regroup cfg P g rows
  steps : ∀ j r, l[j]? = some r → pos r.pk = j + 1
  queue : q = (l.filter (fun r => r.numchild ≠ 0)).map (fun r => (P ++ stp cfg (pos r.pk), d + 1))

theorem fixGroup_spec (hok : cfg.Ok) {db : DB} (h : PInv cfg db.rows) {ord : List Row → List Row} (ho : OrdersBy cfg ord) {P : List Nat}
    {d : Nat} (hP : IsPar db.rows P) (hd : P.length + cfg.steplen = d * cfg.steplen) :
    (∃ db' q g pos, fixGroup cfg ord db P d = .ok (db', q) ∧ Round cfg db.rows P d (group ord db.rows P d) g pos db'.rows q ∧
      ∀ w, Feeds cfg w db db') ∨
    (fixGroup cfg ord db P d = .error .pathOverflow ∧ cfg.ordered = true) := by
  have hk := kids_group hok h ho hd
  set l := group ord db.rows P d with hl
  -- the positions at the start
  obtain ⟨pos, hpos⟩ : ∃ pos : Nat → Nat, ∀ r ∈ l, 1 ≤ pos r.pk ∧ pos r.pk < cfg.cap ∧ r.path = P ++ stp cfg (pos r.pk) := by
    refine ⟨fun k => match lastpos cfg (pathOf l k) with | .ok n => n | .error _ => 0, ?_⟩
    intro r hr
    obtain ⟨hr1, hr2⟩ := (hk.mem r).1 hr
    obtain ⟨n, h1, h2, e⟩ := h.pos r hr1
    rw [hr2] at e
    have hpo : pathOf l r.pk = P ++ stp cfg n := by
      unfold pathOf
      have := find_map_pk hk.nodup (fun r => r) (fun _ => rfl) hr
      rw [List.map_id'] at this
      rw [this, ← e]
      rfl
    simp only [hpo, lastpos_eq hok P h2]
    exact ⟨h1, h2, e⟩
  have hpl : Placed cfg P l (fun s => s) pos := by
    refine ⟨StepMap.id, fun r hr => ?_⟩
    obtain ⟨h1, h2, e⟩ := hpos r hr
    refine ⟨h1, h2, ?_⟩
    rw [e]; exact lastSeg_append (stp_length hok h2)
  obtain ⟨seq, m, e, hseq, hm⟩ := readPositions_spec hok (todo := l) (done := []) (seq := fun _ => none) (m := none)
    (fun r hr => (hpos r hr).2) (fun a ha b hb e => by
      rw [placed_inj hok h hP hk hpl (by simpa using ha) (by simpa using hb) e]) (by simp) (by simp)
  have hL : Loop cfg db db.rows P l (fun s => s) pos { db, items := l, seq, maxPos := m.getD 0 } := by
    refine ⟨hpl, (regroup_id P).symm, ?_, hseq, ?_, fun w => Feeds.refl⟩
    · simp only
      conv_lhs => rw [← List.map_id' l]
      refine List.map_congr_left (fun r hr => ?_)
      rw [← (hpos r hr).2.2]
    · intro r hr
      obtain ⟨m', e', hle⟩ := hm r (by simpa using hr)
      rw [e']; exact hle
  unfold fixGroup
  simp only
  rw [show ord (db.rows.filter (fun r => P.isPrefixOf r.path && r.depth == d)) = l from rfl, e]
  simp only
  rcases fixItems_spec hok h hP hk hd (todo := l) (done := []) rfl hL (by simp) with ⟨g', pos', db', q, e', h1, hf, h2, h3, h4⟩ | ⟨e', hno⟩
  · exact Or.inl ⟨db', q, g', pos', e', ⟨h2, h1, h3, h4⟩, hf⟩
  · right
    refine ⟨e', ?_⟩
    by_contra hc
    apply hno
    have hsort : l.Pairwise (fun a b => a.path < b.path) := by
      rw [hl]; unfold group
      rw [ho.byPath (by simpa using hc)]
      exact orderByPath_strict ((List.filter_sublist.map Row.path).nodup h.inv.pathNodup)
    refine hsort.imp_of_mem ?_
    intro a b ha hb hab
    obtain ⟨_, ha2, ea⟩ := hpos a ha
    obtain ⟨_, hb2, eb⟩ := hpos b hb
    rw [ea, eb, plt_append_left, stp_lt_iff hok ha2 hb2] at hab
    exact hab

end Verif.MP
