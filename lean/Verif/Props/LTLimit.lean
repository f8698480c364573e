/-
C74: how many roots a tree can have.
-/
import Verif.SpecLimit
import Verif.LT.Limit
import Verif.Props.LTDump
import Verif.Props.LTHistory

namespace Verif.LT

variable {cfg : Cfg} {db : DB}

/-! ### One addition -/

/-- **C74: `add_root` fails exactly when the 702 labels of one or two letters are in use by roots** (without `node_order_by`). -/
theorem C74_lt_add_root_iff (ho : cfg.ordered = false) (h : Consistent db) {new : Row} (hf : Fresh db new) :
    (Full db none ↔ addRoot cfg db new = .error .valueError) ∧
    (¬ Full db none → ∃ db' obj s, addRoot cfg db new = .ok (db', obj) ∧ AddedAt db db' obj new none s) := by
  have hu := usedAt_iff_full h.inv.inv (pre := []) (Or.inl rfl)
  rw [at_nil h.inv.inv] at hu
  have h1 : Full db none → addRoot cfg db new = .error .valueError := fun hfull => addRoot_used ho h.inv (hu.1 hfull) new
  refine ⟨⟨h1, fun e => ?_⟩, fun hn => ?_⟩
  · rcases C36_add_root_partial ho h hf with ⟨_, _, _, e', _⟩ | ⟨_, hfull⟩
    · rw [e'] at e; cases e
    · exact hfull
  · rcases C36_add_root_partial ho h hf with ⟨db', obj, s, e, ha, _⟩ | ⟨_, hfull⟩
    · exact ⟨db', obj, s, e, ha⟩
    · exact absurd hfull hn

/-- **C74 with `node_order_by`**: `add_root` fails exactly when the 702 labels are in use and the new node sorts behind all the roots. -/
theorem C74_lt_add_root_sorted_iff (ho : cfg.ordered = true) (h : Consistent db) {new : Row} (hf : Fresh db new) (hn : NonNull cfg.orderBy new.vals) :
    (Full db none ∧ ¬ HasGreater cfg db none new.vals ↔ addRoot cfg db new = .error .valueError) ∧
    (¬ (Full db none ∧ ¬ HasGreater cfg db none new.vals) → ∃ db' obj s, addRoot cfg db new = .ok (db', obj) ∧ AddedNear db db' obj new none s) := by
  have hu := usedAt_iff_full h.inv.inv (pre := []) (Or.inl rfl)
  have hg := firstGreater_iff ho h.inv.inv (lists_roots h.inv.inv) (Or.inl rfl) hn
  rw [at_nil h.inv.inv] at hu hg
  rcases addRoot_sorted ho h.inv hf with ⟨b, hb, db', obj, e, ha⟩ | ⟨hb, ⟨db', l, s, e, ha, _⟩ | ⟨e, hfull⟩⟩
  · refine ⟨⟨fun hh => absurd (hg.2 ⟨b, hb⟩) hh.2, fun e' => ?_⟩, fun _ => ⟨db', obj, _, e, .of h.inv ha⟩⟩
    rw [e] at e'; cases e'
  · refine ⟨⟨fun hh => ?_, fun e' => ?_⟩, fun _ => ⟨db', _, s, e, .of h.inv ha⟩⟩
    · exact absurd (hu.1 hh.1) ((addRoot_sorted_short ho h.inv hf hb e).not_used ha.inv)
    · rw [e] at e'; cases e'
  · have h2 : Full db none ∧ ¬ HasGreater cfg db none new.vals := by
      refine ⟨?_, fun hgr => ?_⟩
      · rw [← at_nil h.inv.inv]; exact full_of h.inv.inv (Or.inl rfl) hfull
      · obtain ⟨b, hb'⟩ := hg.1 hgr
        rw [hb] at hb'; cases hb'
    exact ⟨⟨fun _ => e, fun _ => h2⟩, fun hh => absurd h2 hh⟩

/-- **C74 with `node_order_by`, `add_child`**: the same limit for the children of every node.  (Without `node_order_by` there is none: `C36_add_child`.) -/
theorem C74_lt_add_child_sorted_iff (ho : cfg.ordered = true) (h : Consistent db) {t : Row} (ht : t ∈ db.rows) {new : Row} (hf : Fresh db new)
    (hn : NonNull cfg.orderBy new.vals) :
    (Full db (some t.pk) ∧ ¬ HasGreater cfg db (some t.pk) new.vals ↔ addChild cfg db t new = .error .valueError) ∧
    (¬ (Full db (some t.pk) ∧ ¬ HasGreater cfg db (some t.pk) new.vals) →
      ∃ db' obj s, addChild cfg db t new = .ok (db', obj) ∧ AddedNear db db' obj new (some t.pk) s) := by
  have hpar : IsPar db.rows t.path := Or.inr ⟨t, ht, rfl⟩
  have hu := usedAt_iff_full h.inv.inv hpar
  have hg := firstGreater_iff ho h.inv.inv (lists_children h.inv.inv t) hpar hn
  rw [at_of h.inv.inv ht] at hu hg
  rcases addChild_sorted ho h.inv ht hf with ⟨b, hb, db', obj, e, ha⟩ | ⟨hb, ⟨db', l, s, e, ha, _⟩ | ⟨e, hfull⟩⟩
  · refine ⟨⟨fun hh => absurd (hg.2 ⟨b, hb⟩) hh.2, fun e' => ?_⟩, fun _ => ⟨db', obj, _, e, .of h.inv ha⟩⟩
    rw [e] at e'; cases e'
  · refine ⟨⟨fun hh => ?_, fun e' => ?_⟩, fun _ => ⟨db', _, s, e, .of h.inv ha⟩⟩
    · exact absurd (hu.1 hh.1) ((addChild_sorted_short ho h.inv ht hf hb e).not_used ha.inv)
    · rw [e] at e'; cases e'
  · have h2 : Full db (some t.pk) ∧ ¬ HasGreater cfg db (some t.pk) new.vals := by
      refine ⟨?_, fun hgr => ?_⟩
      · rw [← at_of h.inv.inv ht]; exact full_of h.inv.inv hpar hfull
      · obtain ⟨b, hb'⟩ := hg.1 hgr
        rw [hb] at hb'; cases hb'
    exact ⟨⟨fun _ => e, fun _ => h2⟩, fun hh => absurd h2 hh⟩

/-! ### Many additions -/

/-- the roots of the table as the API shows them -/
theorem roots_count (db : DB) : (forest db none).length = (db.rows.filter (fun r => r.path.length == 1)).length := by
  show ((rootNodes db).map Row.pk).length = _
  rw [List.length_map]
  unfold rootNodes orderByPath
  exact (sortBy_perm _ _).length_eq

theorem roots_append {db' : DB} {x : Row} (e : db'.rows = db.rows ++ [x]) :
    (forest db' none).length = (forest db none).length + if x.path.length = 1 then 1 else 0 := by
  rw [roots_count, roots_count, e, List.filter_append, List.length_append]
  congr 1
  by_cases h : x.path.length = 1 <;> simp [h]

/-- The state that `add_root`, `add_child` and `delete` lead to: the roots have short labels. -/
structure Plain (db : DB) : Prop where
  consistent : Consistent db
  short : ShortAt db.rows []

theorem Plain.empty {sigs : List Sig} : Plain ⟨[], sigs⟩ := ⟨empty_consistent, by intro r hr; cases hr⟩

/-- then the roots are counted -/
theorem Plain.full_iff (h : Plain db) : Full db none ↔ 702 ≤ (forest db none).length := by
  refine ⟨full_length h.consistent, fun hl => ?_⟩
  have hu := usedAt_iff_full h.consistent.inv.inv (pre := []) (Or.inl rfl)
  rw [at_nil h.consistent.inv.inv] at hu
  refine hu.2 (used_of_length h.consistent.inv.inv (Or.inl rfl) h.short ?_)
  rw [at_nil h.consistent.inv.inv]; exact hl

theorem Plain.add_root (ho : cfg.ordered = false) (h : Plain db) {new : Row} (hf : Fresh db new) :
    ((forest db none).length < 702 → ∃ db' obj, addRoot cfg db new = .ok (db', obj) ∧ Plain db' ∧ obj ∈ db'.rows ∧ obj.pk = new.pk ∧
      (∃ x, x.pk = new.pk ∧ db'.rows = db.rows ++ [x]) ∧ (forest db' none).length = (forest db none).length + 1) ∧
    (702 ≤ (forest db none).length → addRoot cfg db new = .error .valueError) := by
  have hu := usedAt_iff_full h.consistent.inv.inv (pre := []) (Or.inl rfl)
  rw [at_nil h.consistent.inv.inv] at hu
  refine ⟨fun hl => ?_, fun hl => ((C74_lt_add_root_iff ho h.consistent hf).1).1 (h.full_iff.2 hl)⟩
  rcases addRoot_short ho h.consistent.inv hf with ⟨db', obj, s, e, ha, hs⟩ | ⟨_, hu'⟩
  · refine ⟨db', obj, e, ⟨consistent_iff.2 ha.inv, hs.shortAt h.short⟩, ha.obj.1, ha.obj.2, ?_, ?_⟩
    · obtain ⟨l, _, er⟩ := hs
      exact ⟨{ new with path := [] ++ [l] }, rfl, er⟩
    · obtain ⟨l, _, er⟩ := hs
      rw [roots_append er]; rfl
  · exact absurd (h.full_iff.1 (hu.2 hu')) (by omega)

theorem Plain.add_child (ho : cfg.ordered = false) (h : Plain db) {t : Row} (ht : t ∈ db.rows) {new : Row} (hf : Fresh db new) :
    ∃ db' obj, addChild cfg db t new = .ok (db', obj) ∧ Plain db' ∧ obj ∈ db'.rows ∧ obj.pk = new.pk ∧
      (∃ x, x.pk = new.pk ∧ db'.rows = db.rows ++ [x]) ∧ (forest db' none).length = (forest db none).length := by
  obtain ⟨db', obj, l, e, ha, er⟩ := addChild_short_rows ho h.consistent.inv ht hf
  have hlen := len_pos h.consistent.inv.inv ht
  have hne : t.path ≠ [] := List.length_pos_iff.1 hlen
  refine ⟨db', obj, e, ⟨consistent_iff.2 ha.inv, ?_⟩, ha.obj.1, ha.obj.2, ⟨{ new with path := t.path ++ [l] }, rfl, er⟩, ?_⟩
  · intro r hr hd
    rw [er] at hr
    rcases List.mem_append.1 hr with hr | hr
    · exact h.short r hr hd
    · rw [List.mem_singleton] at hr
      subst hr
      simp at hd
      exact absurd hd hne
  · rw [roots_append er]
    simp
    exact hne

/-- **C74: exactly 702.**  From the empty tree, without `node_order_by`: whatever the nodes are, the first 702 calls of `add_root` succeed and the next one
raises ValueError. -/
theorem C74_lt_limit (ho : cfg.ordered = false) {news : List Row} (hn : (news.map Row.pk).Nodup) :
    (news.length ≤ 702 → ∃ db', addEach (addRoot cfg) ⟨[], []⟩ news = .ok db' ∧ Consistent db' ∧ db'.rows.map Row.pk = news.map Row.pk ∧
      (forest db' none).length = news.length) ∧
    (702 < news.length → addEach (addRoot cfg) ⟨[], []⟩ news = .error .valueError) := by
  suffices ∀ (news : List Row) (db : DB), Plain db → (db.rows.map Row.pk ++ news.map Row.pk).Nodup →
      ((forest db none).length + news.length ≤ 702 → ∃ db', addEach (addRoot cfg) db news = .ok db' ∧ Consistent db' ∧
        db'.rows.map Row.pk = db.rows.map Row.pk ++ news.map Row.pk ∧ (forest db' none).length = (forest db none).length + news.length) ∧
      (702 < (forest db none).length + news.length → (forest db none).length ≤ 702 → addEach (addRoot cfg) db news = .error .valueError) by
    have h0 : (forest (⟨[], []⟩ : DB) none).length = 0 := rfl
    have := this news ⟨[], []⟩ .empty (by simpa using hn)
    rw [h0] at this
    refine ⟨fun hl => ?_, fun hl => this.2 (by omega) (by omega)⟩
    obtain ⟨db', h1, h2, h3, h4⟩ := this.1 (by omega)
    exact ⟨db', h1, h2, by simpa using h3, by omega⟩
  intro news
  induction news with
  | nil => exact fun db h _ => ⟨fun _ => ⟨db, rfl, h.consistent, by simp, by simp⟩, fun h1 h2 => absurd h1 (by simp; omega)⟩
  | cons x xs ih =>
    intro db h hnd
    have hf : Fresh db x := by
      intro r hr e
      rw [List.nodup_append] at hnd
      exact hnd.2.2 r.pk (List.mem_map.2 ⟨r, hr, rfl⟩) x.pk (by simp) e
    have next : (forest db none).length < 702 → ∃ db₁ obj, addRoot cfg db x = .ok (db₁, obj) ∧ Plain db₁ ∧
        db₁.rows.map Row.pk = db.rows.map Row.pk ++ [x.pk] ∧ (forest db₁ none).length = (forest db none).length + 1 := by
      intro hl
      obtain ⟨db₁, obj, e, hp, _, _, ⟨y, hy, er⟩, hc⟩ := (h.add_root ho hf).1 hl
      exact ⟨db₁, obj, e, hp, by rw [er, List.map_append, ← hy]; rfl, hc⟩
    constructor
    · intro hl
      simp only [List.length_cons] at hl ⊢
      obtain ⟨db₁, obj, e, hp, hk, hc⟩ := next (by omega)
      obtain ⟨db', h1, h2, h3, h4⟩ := (ih db₁ hp (by rw [hk]; simpa using hnd)).1 (by omega)
      exact ⟨db', by unfold addEach; rw [e]; exact h1, h2, by rw [h3, hk]; simp, by omega⟩
    · intro hl h0
      simp only [List.length_cons] at hl
      unfold addEach
      by_cases hc : (forest db none).length < 702
      · obtain ⟨db₁, obj, e, hp, hk, hc'⟩ := next hc
        rw [e]
        exact (ih db₁ hp (by rw [hk]; simpa using hnd)).2 (by omega) (by omega)
      · rw [(h.add_root ho hf).2 (by omega)]

/-- **C74 over histories**: with roots made by `add_root` only (children and deletions as one likes), a tree never has more than 702 roots, and `add_root` fails
exactly when it has 702. -/
theorem C74_lt_history (ho : cfg.ordered = false) {ops : List Op} (hp : ∀ op ∈ ops, op.Plain) :
    (forest (runOps cfg ⟨[], []⟩ ops) none).length ≤ 702 ∧
    ∀ new, Fresh (runOps cfg ⟨[], []⟩ ops) new →
      (addRoot cfg (runOps cfg ⟨[], []⟩ ops) new = .error .valueError ↔ (forest (runOps cfg ⟨[], []⟩ ops) none).length = 702) := by
  suffices ∀ (ops : List Op) (db : DB), (∀ op ∈ ops, op.Plain) → Plain db → (forest db none).length ≤ 702 →
      Plain (runOps cfg db ops) ∧ (forest (runOps cfg db ops) none).length ≤ 702 by
    obtain ⟨h1, h2⟩ := this ops ⟨[], []⟩ hp .empty (by show 0 ≤ 702; omega)
    refine ⟨h2, fun new hf => ?_⟩
    rw [← (C74_lt_add_root_iff ho h1.consistent hf).1, h1.full_iff]
    omega
  intro ops
  induction ops with
  | nil => exact fun db _ h hl => ⟨h, hl⟩
  | cons op ops ih =>
    intro db hpl h hl
    suffices Plain (step cfg db op) ∧ (forest (step cfg db op) none).length ≤ 702 from
      ih _ (fun o ho' => hpl o (by simp [ho'])) this.1 this.2
    have hpo := hpl op (by simp)
    cases op with
    | addRoot k v =>
      cases hk : db.get? k with
      | some r =>
        have e : step cfg db (.addRoot k v) = db := by simp [step, exec, hk]
        rw [e]; exact ⟨h, hl⟩
      | none =>
        have hf : Fresh db ⟨k, [], v⟩ := fresh_of hk
        by_cases hc : (forest db none).length < 702
        · obtain ⟨db₁, obj, e, hp, _, _, _, hc'⟩ := (h.add_root ho hf).1 hc
          have e' : step cfg db (.addRoot k v) = db₁ := by simp [step, exec, hk, e, Except.map]
          rw [e']
          exact ⟨hp, by omega⟩
        · have e' : step cfg db (.addRoot k v) = db := by simp [step, exec, hk, (h.add_root ho hf).2 (by omega), Except.map]
          rw [e']; exact ⟨h, hl⟩
    | addChild t k v =>
      cases ht : db.get? t with
      | none =>
        have e' : step cfg db (.addChild t k v) = db := by simp [step, exec, ht]
        rw [e']; exact ⟨h, hl⟩
      | some target =>
        cases hk : db.get? k with
        | some r =>
          have e' : step cfg db (.addChild t k v) = db := by simp [step, exec, hk, ht]
          rw [e']; exact ⟨h, hl⟩
        | none =>
          obtain ⟨db₁, obj, e, hp, _, _, _, hc'⟩ := h.add_child ho (row_of h.consistent ht).1 (fresh_of (v := v) hk)
          have e' : step cfg db (.addChild t k v) = db₁ := by simp [step, exec, hk, ht, e, Except.map]
          rw [e']
          exact ⟨hp, by omega⟩
    | delete S =>
      have hd := delete_rows h.consistent.inv.inv (fun r => S.contains r.pk)
      refine ⟨⟨step_consistent h.consistent (.delete S), ?_⟩, ?_⟩
      · intro r hr hdl
        change r ∈ (delete db (fun r => S.contains r.pk)).rows at hr
        rw [hd] at hr
        exact h.short r (List.mem_filter.1 hr).1 hdl
      · refine Nat.le_trans ?_ hl
        rw [roots_count, roots_count]
        change ((delete db (fun r => S.contains r.pk)).rows.filter _).length ≤ _
        rw [hd]
        exact (List.filter_sublist.filter _).length_le
    | addSibling => exact absurd hpo (by simp [Op.Plain])
    | move => exact absurd hpo (by simp [Op.Plain])

/-! ### With `node_order_by` -/

/-- **C74 with `node_order_by`: exactly 702.**  Nodes that come in order, each not before an earlier one: the first 702 calls of `add_root` succeed and the next one raises
ValueError. -/
theorem C74_lt_sorted_limit (ho : cfg.ordered = true) {news : List Row} (hn : (news.map Row.pk).Nodup) (hnn : ∀ x ∈ news, NonNull cfg.orderBy x.vals)
    (hs : news.Pairwise (fun a b => ¬ keyLt cfg.orderBy b.vals a.vals)) :
    (news.length ≤ 702 → ∃ db', addEach (addRoot cfg) ⟨[], []⟩ news = .ok db' ∧ Consistent db' ∧ data db'.rows = news.map (fun r => (r.pk, r.vals)) ∧
      (forest db' none).length = news.length) ∧
    (702 < news.length → addEach (addRoot cfg) ⟨[], []⟩ news = .error .valueError) := by
  suffices ∀ (news : List Row) (db : DB), Plain db → (db.rows.map Row.pk ++ news.map Row.pk).Nodup → (∀ x ∈ news, NonNull cfg.orderBy x.vals) →
      (db.rows ++ news).Pairwise (fun a b => ¬ keyLt cfg.orderBy b.vals a.vals) →
      ((forest db none).length + news.length ≤ 702 → ∃ db', addEach (addRoot cfg) db news = .ok db' ∧ Consistent db' ∧
        data db'.rows = data db.rows ++ news.map (fun r => (r.pk, r.vals)) ∧ (forest db' none).length = (forest db none).length + news.length) ∧
      (702 < (forest db none).length + news.length → (forest db none).length ≤ 702 → addEach (addRoot cfg) db news = .error .valueError) by
    have h0 : (forest (⟨[], []⟩ : DB) none).length = 0 := rfl
    have := this news ⟨[], []⟩ .empty (by simpa using hn) hnn (by simpa using hs)
    rw [h0] at this
    refine ⟨fun hl => ?_, fun hl => this.2 (by omega) (by omega)⟩
    obtain ⟨db', h1, h2, h3, h4⟩ := this.1 (by omega)
    exact ⟨db', h1, h2, by simpa [data] using h3, by omega⟩
  intro news
  induction news with
  | nil => exact fun db h _ _ _ => ⟨fun _ => ⟨db, rfl, h.consistent, by simp, by simp⟩, fun h1 h2 => absurd h1 (by simp; omega)⟩
  | cons x xs ih =>
    intro db h hnd hnn hs
    have hi := h.consistent.inv
    have hf : Fresh db x := by
      intro r hr e
      rw [List.nodup_append] at hnd
      exact hnd.2.2 r.pk (List.mem_map.2 ⟨r, hr, rfl⟩) x.pk (by simp) e
    have hng : ¬ HasGreater cfg db none x.vals := by
      rintro ⟨r, hr, _, hlt⟩
      rw [List.pairwise_append] at hs
      exact hs.2.2 r hr x (by simp) hlt
    have hb : firstGreater cfg (rootNodes db) x = none := by
      cases e : firstGreater cfg (rootNodes db) x with
      | none => rfl
      | some b =>
        have := (firstGreater_iff ho hi.inv (lists_roots hi.inv) (Or.inl rfl) (hnn x (by simp))).2 ⟨b, e⟩
        rw [at_nil hi.inv] at this
        exact absurd this hng
    have hiff := C74_lt_add_root_sorted_iff ho h.consistent hf (hnn x (by simp))
    have next : (forest db none).length < 702 → ∃ db₁ obj y, addRoot cfg db x = .ok (db₁, obj) ∧ Plain db₁ ∧ y.pk = x.pk ∧ y.vals = x.vals ∧
        db₁.rows = db.rows ++ [y] ∧ (forest db₁ none).length = (forest db none).length + 1 := by
      intro hl
      obtain ⟨db₁, obj, s, e, ha⟩ := hiff.2 (fun hh => absurd (h.full_iff.1 hh.1) (by omega))
      have hsh := addRoot_sorted_short ho hi hf hb e
      have hpl : Plain db₁ := ⟨ha.consistent, hsh.shortAt h.short⟩
      obtain ⟨l, _, er⟩ := hsh
      exact ⟨db₁, obj, { x with path := [] ++ [l] }, e, hpl, rfl, rfl, er, by rw [roots_append er]; rfl⟩
    have rest : ∀ {db₁ : DB} {y : Row}, y.pk = x.pk → y.vals = x.vals → db₁.rows = db.rows ++ [y] →
        (db₁.rows.map Row.pk ++ xs.map Row.pk).Nodup ∧ (db₁.rows ++ xs).Pairwise (fun a b => ¬ keyLt cfg.orderBy b.vals a.vals) ∧
        data db₁.rows = data db.rows ++ [(x.pk, x.vals)] := by
      intro db₁ y hy hv er
      rw [er]
      refine ⟨by simpa [hy] using hnd, ?_, by simp [data, hy, hv]⟩
      rw [List.append_assoc, List.pairwise_append] at *
      refine ⟨hs.1, ?_, ?_⟩
      · simp only [List.singleton_append, List.pairwise_cons] at hs ⊢
        refine ⟨fun b hbm => ?_, hs.2.1.2⟩
        rw [hv]; exact hs.2.1.1 b hbm
      · intro a ha b hbm
        simp only [List.singleton_append, List.mem_cons] at hbm
        rcases hbm with rfl | hbm
        · rw [hv]; exact hs.2.2 a ha x (by simp)
        · exact hs.2.2 a ha b (by simp [hbm])
    constructor
    · intro hl
      simp only [List.length_cons] at hl ⊢
      obtain ⟨db₁, obj, y, e, hp, hy, hv, er, hc⟩ := next (by omega)
      obtain ⟨k1, k2, k3⟩ := rest hy hv er
      obtain ⟨db', h1, h2, h3, h4⟩ := (ih db₁ hp k1 (fun z hz => hnn z (by simp [hz])) k2).1 (by omega)
      exact ⟨db', by unfold addEach; rw [e]; exact h1, h2, by rw [h3, k3]; simp, by omega⟩
    · intro hl h0
      simp only [List.length_cons] at hl
      unfold addEach
      by_cases hc : (forest db none).length < 702
      · obtain ⟨db₁, obj, y, e, hp, hy, hv, er, hc'⟩ := next hc
        obtain ⟨k1, k2, _⟩ := rest hy hv er
        rw [e]
        exact (ih db₁ hp k1 (fun z hz => hnn z (by simp [hz])) k2).2 (by omega) (by omega)
      · rw [hiff.1.1 ⟨h.full_iff.2 (by omega), hng⟩]

/-! ### Loading -/

/-- **C74: a structure with more than 702 roots cannot be loaded** into an empty table (without `node_order_by`), whatever is below the roots; with at most 702 it can.  The tree
that was dumped may well have had more roots: `add_sibling` and `move` make them without limit. -/
theorem C74_lt_load (ho : cfg.ordered = false) {n : Nest (Nat × Vals)} (hn : (n.labels.map Prod.fst).Nodup) :
    (n.tops.length ≤ 702 → ∃ db' added, load cfg ⟨[], []⟩ none n = .ok (db', added) ∧ Consistent db' ∧ (forest db' none).length = n.tops.length) ∧
    (702 < n.tops.length → load cfg ⟨[], []⟩ none n = .error .valueError) := by
  suffices ∀ (n : Nest (Nat × Vals)) (db : DB) (p : Option Row), Plain db → (∀ r, p = some r → r ∈ db.rows) →
      (db.rows.map Row.pk ++ n.labels.map Prod.fst).Nodup →
      ((p = none → (forest db none).length + n.tops.length ≤ 702) →
        ∃ db' added X, loadNest (fun db p a => addTo cfg db p ⟨a.1, [], a.2⟩) Row.pk db p n = .ok (db', added) ∧ Plain db' ∧ db'.rows = db.rows ++ X ∧
          X.map Row.pk = n.labels.map Prod.fst ∧ (forest db' none).length = (forest db none).length + if p = none then n.tops.length else 0) ∧
      (p = none → 702 < (forest db none).length + n.tops.length → (forest db none).length ≤ 702 →
        loadNest (fun db p a => addTo cfg db p ⟨a.1, [], a.2⟩) Row.pk db p n = .error .valueError) by
    have h0 : (forest (⟨[], []⟩ : DB) none).length = 0 := rfl
    have := this n ⟨[], []⟩ none .empty (by simp) (by simpa using hn)
    rw [h0] at this
    unfold load
    rw [loadBulk_eq]
    refine ⟨fun hl => ?_, fun hl => this.2 rfl (by omega) (by omega)⟩
    obtain ⟨db', added, X, h1, h2, _, _, h5⟩ := this.1 (fun _ => by omega)
    exact ⟨db', added, h1, h2.consistent, by simpa using h5⟩
  intro n
  induction n with
  | nil =>
    intro db p h _ _
    refine ⟨fun _ => ⟨db, [], [], rfl, h, by simp, rfl, by simp [Nest.tops]⟩, fun _ h1 h2 => absurd h1 (by simp [Nest.tops]; omega)⟩
  | cons a c r ihc ihr =>
    intro db p h hp hnd
    have hf : Fresh db ⟨a.1, [], a.2⟩ := by
      intro q hq e
      rw [List.nodup_append] at hnd
      exact hnd.2.2 q.pk (List.mem_map.2 ⟨q, hq, rfl⟩) a.1 (by simp [Nest.labels]) e
    have next : (p = none → (forest db none).length < 702) → ∃ db₁ obj x, addTo cfg db p ⟨a.1, [], a.2⟩ = .ok (db₁, obj) ∧ Plain db₁ ∧ obj ∈ db₁.rows ∧
        x.pk = a.1 ∧ db₁.rows = db.rows ++ [x] ∧ (forest db₁ none).length = (forest db none).length + if p = none then 1 else 0 := by
      intro hl
      cases p with
      | none =>
        obtain ⟨db₁, obj, e, hpl, ho1, _, ⟨x, hx, er⟩, hc⟩ := (h.add_root ho hf).1 (hl rfl)
        exact ⟨db₁, obj, x, e, hpl, ho1, hx, er, by simpa using hc⟩
      | some t =>
        obtain ⟨db₁, obj, e, hpl, ho1, _, ⟨x, hx, er⟩, hc⟩ := h.add_child ho (hp t rfl) hf
        exact ⟨db₁, obj, x, e, hpl, ho1, hx, er, by simpa using hc⟩
    have keys : (db.rows.map Row.pk ++ a.1 :: (c.labels.map Prod.fst ++ r.labels.map Prod.fst)).Nodup := by
      simpa [Nest.labels] using hnd
    -- the children of the first item
    have kids : ∀ {db₁ : DB} {obj x : Row}, Plain db₁ → obj ∈ db₁.rows → x.pk = a.1 → db₁.rows = db.rows ++ [x] →
        ∃ db₂ l1 X, loadNest (fun db p a => addTo cfg db p ⟨a.1, [], a.2⟩) Row.pk db₁ (some obj) c = .ok (db₂, l1) ∧ Plain db₂ ∧
          db₂.rows = db.rows ++ x :: X ∧ X.map Row.pk = c.labels.map Prod.fst ∧ (forest db₂ none).length = (forest db₁ none).length ∧
          (db₂.rows.map Row.pk ++ r.labels.map Prod.fst).Nodup := by
      intro db₁ obj x hpl ho1 hx er
      obtain ⟨db₂, l1, X, h1, h2, h3, h4, h5⟩ := (ihc db₁ (some obj) hpl (by rintro q ⟨⟩; exact ho1) (by
        rw [er, List.map_append]
        simp only [List.map_cons, List.map_nil, hx]
        refine keys.sublist ?_
        simp)).1 (by simp)
      refine ⟨db₂, l1, X, h1, h2, by rw [h3, er]; simp, h4, by simpa using h5, ?_⟩
      rw [h3, er]
      simpa [hx, h4] using keys
    constructor
    · intro hl
      have hl' : p = none → (forest db none).length + (r.tops.length + 1) ≤ 702 := hl
      obtain ⟨db₁, obj, x, e, hpl, ho1, hx, er, hc⟩ := next (fun e => by have := hl' e; omega)
      obtain ⟨db₂, l1, X, e2, hp2, er2, hX, hc2, hk2⟩ := kids hpl ho1 hx er
      obtain ⟨db₃, l2, Y, e3, hp3, er3, hY, hc3⟩ := (ihr db₂ p hp2 (fun q hq => by rw [er2]; exact List.mem_append_left _ (hp q hq)) hk2).1 (fun e => by
        have := hl' e
        rw [hc2, hc, if_pos e]; omega)
      refine ⟨db₃, obj.pk :: (l1 ++ l2), x :: (X ++ Y), ?_, hp3, by rw [er3, er2]; simp, by simp [hx, hX, hY, Nest.labels], ?_⟩
      · unfold loadNest
        simp only [e, e2, e3]
      · rw [hc3, hc2, hc]
        by_cases hpn : p = none
        · simp only [hpn, if_true, Nest.tops, List.length_cons]; omega
        · simp [hpn]
    · rintro rfl hl h0
      simp only [Nest.tops, List.length_cons] at hl
      by_cases hc : (forest db none).length < 702
      · obtain ⟨db₁, obj, x, e, hpl, ho1, hx, er, hc'⟩ := next (fun _ => hc)
        obtain ⟨db₂, l1, X, e2, hp2, er2, hX, hc2, hk2⟩ := kids hpl ho1 hx er
        simp only [if_true] at hc'
        have := (ihr db₂ none hp2 (by simp) hk2).2 rfl (by omega) (by omega)
        unfold loadNest
        simp only [e, e2, this]
      · unfold loadNest addTo
        simp only [(h.add_root ho hf).2 (by omega)]

/-- **C74: the dump of a tree with more than 702 roots cannot be loaded** into an empty table, with or without `keep_ids`. -/
theorem C74_lt_round_trip (ho : cfg.ordered = false) (h : Consistent db) (hl : 702 < (forest db none).length) (keep : Bool) {keys : Nat → Nat}
    (hkeys : keep = false → ∀ i j, keys i = keys j → i = j) :
    ∃ d m i, dumpBulk db none keep = .ok d ∧ prepare keep keys 0 d = .ok (m, i) ∧ load cfg ⟨[], []⟩ none m = .error .valueError := by
  have hnd : ((data db.rows).map Prod.fst).Nodup := by rw [keys_eq]; exact h.pks
  obtain ⟨d, ed, hd⟩ := C19_lt_dump h (parent := none) (by simp) keep
  obtain ⟨m, V, i, f, ep, hm, _, _, hren, _⟩ := roundtrip (isForestOn h) (v := valsIn (data db.rows)) (fun e he => valsIn_mem hnd he) hd hkeys
  refine ⟨d, _, i, ed, ep, (C74_lt_load ho ?_).2 ?_⟩
  · rw [Nest.labels_map, List.map_map]
    simpa [Function.comp_def] using hm
  · have := (hren _ (graft_grafted hm (by simp))).roots
    have h2 := (graft_grafted (F := fun _ => []) (p := none) hm (by simp)).tops
    rw [h2] at this
    simp only [List.nil_append] at this
    rw [Nest.tops_map, List.length_map, this, List.length_map]
    exact hl

/-! ### `add_sibling` has no limit -/

/-- **C74: `add_sibling` has no limit.**  Next to any node, any number of nodes can be added as last siblings, and they stand in the order in which they were added; so there
are trees with more than 702 roots. -/
theorem C74_lt_siblings (ho : cfg.ordered = false) {t : Nat} {news : List (Nat × Vals)} : ∀ {db : DB}, Consistent db → ∀ {p : Option Nat}, t ∈ forest db p →
    (db.rows.map Row.pk ++ news.map Prod.fst).Nodup →
    Consistent (runOps cfg db (news.map (fun e => .addSibling t (some .lastSibling) e.1 e.2))) ∧
    forest (runOps cfg db (news.map (fun e => .addSibling t (some .lastSibling) e.1 e.2))) p = forest db p ++ news.map Prod.fst := by
  induction news with
  | nil => exact fun h p ht _ => ⟨h, by simp [runOps]⟩
  | cons x xs ih =>
    intro db h p ht hnd
    have hk := forest_keys h.inv.inv ht
    rw [keys_eq] at hk
    obtain ⟨r, hr, er⟩ := List.mem_map.1 hk
    have hget : db.get? t = some r := (get?_eq_some h.inv.inv).2 ⟨hr, er⟩
    have hf : Fresh db ⟨x.1, [], x.2⟩ := by
      intro q hq e
      rw [List.nodup_append] at hnd
      exact hnd.2.2 q.pk (List.mem_map.2 ⟨q, hq, rfl⟩) x.1 (by simp) e
    obtain ⟨p', hp', db', obj, e, _, ha⟩ := C36_add_sibling_partial ho h hr (posArg := some .lastSibling) (pos := .lastSibling) rfl hf
    have ha := ha (Or.inl rfl)
    have hpp : p' = p := by
      rw [er] at hp'
      have h1 := (mem_forest h.inv.inv hr (p := p)).1 (by rw [er]; exact ht)
      have h2 := (mem_forest h.inv.inv hr (p := p')).1 (by rw [er]; exact hp')
      rw [← h1, ← h2]
    subst hpp
    have hstep : step cfg db (.addSibling t (some .lastSibling) x.1 x.2) = db' := by
      simp [step, exec, hget, get?_eq_none.2 hf, e, Except.map]
    have hF : forest db' p' = forest db p' ++ [x.1] := by
      rw [ha.forest]; simp [Forest.put, sibAsked, Slot.ins]
    have hkeys : db'.rows.map Row.pk = db.rows.map Row.pk ++ [x.1] := by
      rw [← keys_eq, ← keys_eq, ha.data]; simp
    have := ih ha.consistent (p := p') (by rw [hF]; exact List.mem_append_left _ ht) (by rw [hkeys]; simpa using hnd)
    simp only [List.map_cons, runOps, List.foldl_cons] at this ⊢
    rw [hstep]
    refine ⟨this.1, ?_⟩
    rw [this.2, hF]; simp

/-! ### Examples -/

/-- 703 new nodes -/
def exNews : List Row := (List.range 703).map (fun k => ⟨k, [], [some k]⟩)

theorem exNews_nodup : (exNews.map Row.pk).Nodup := by
  unfold exNews
  rw [List.map_map]
  simpa [Function.comp_def] using List.nodup_range

example : addEach (addRoot ⟨[]⟩) ⟨[], []⟩ exNews = .error .valueError := (C74_lt_limit rfl exNews_nodup).2 (by simp [exNews])

example : ∃ db', addEach (addRoot ⟨[]⟩) ⟨[], []⟩ (exNews.take 702) = .ok db' ∧ (forest db' none).length = 702 := by
  obtain ⟨db', e, _, _, hl⟩ := (C74_lt_limit (cfg := ⟨[]⟩) (news := exNews.take 702) rfl
    ((List.take_sublist _ _).map _ |>.nodup exNews_nodup)).1 (by simp)
  exact ⟨db', e, by rw [hl]; simp [exNews]⟩

example : addEach (addRoot exSorted) ⟨[], []⟩ exNews = .error .valueError := by
  refine (C74_lt_sorted_limit rfl exNews_nodup ?_ ?_).2 (by simp [exNews])
  · intro x hx
    obtain ⟨k, _, rfl⟩ := List.mem_map.1 hx
    rintro e he
    simp only [exSorted, List.mem_singleton] at he
    subst he
    exact ⟨k, rfl⟩
  · unfold exNews
    rw [List.pairwise_map]
    refine List.pairwise_lt_range.imp ?_
    intro a b hab
    simp [exSorted, keyLt, fieldLt, fieldOf]
    omega

/-- a tree of more than 702 roots, whose dump cannot be loaded -/
example : ∃ ops, Consistent (runOps ⟨[]⟩ exDB ops) ∧ (forest (runOps ⟨[]⟩ exDB ops) none).length = 705 ∧
    ∃ d m i, dumpBulk (runOps ⟨[]⟩ exDB ops) none true = .ok d ∧ prepare true id 0 d = .ok (m, i) ∧ load ⟨[]⟩ ⟨[], []⟩ none m = .error .valueError := by
  have h := C74_lt_siblings (cfg := ⟨[]⟩) (t := 1) (news := (List.range 703).map (fun k => (k + 10, []))) rfl (consistent_iff.2 exDB_inv) (p := none) (by decide) (by
    rw [List.nodup_append]
    refine ⟨by decide, ?_, ?_⟩
    · rw [List.map_map]
      exact List.nodup_range.map_on (by intro a _ b _ e; simpa using e)
    · intro a ha b hb e
      rw [List.map_map, List.mem_map] at hb
      obtain ⟨k, _, rfl⟩ := hb
      simp [exDB] at ha
      simp at e
      omega)
  have hl : (forest (runOps ⟨[]⟩ exDB (((List.range 703).map (fun k => (k + 10, []))).map (fun e => .addSibling 1 (some .lastSibling) e.1 e.2))) none).length = 705 := by
    rw [h.2, List.length_append]
    simp [show (forest exDB none).length = 2 by decide]
  exact ⟨_, h.1, hl, C74_lt_round_trip rfl h.1 (by rw [hl]; decide) true (by simp)⟩

end Verif.LT
