/-
C49: the stored paths fit in the path field.
-/
import Verif.Height
import Verif.Props.SortedAny
import Verif.Props.MPMove
import Verif.Props.MPDelete
import Verif.Props.MPBulk

namespace Verif.MP

variable {cfg : Cfg} {db : DB}

/-- every stored path fits in the path field (mp_tree.py:1030 `max_length`) -/
def PathsFit (cfg : Cfg) (db : DB) : Prop := ∀ r ∈ db.rows, r.path.length ≤ cfg.maxLen

instance : Decidable (PathsFit cfg db) := by unfold PathsFit; infer_instance

/-- the branch of `x` fits in the field if `x` becomes a child of `q` -/
def BranchFits (cfg : Cfg) (db : DB) (x : Nat) (q : Option Nat) : Prop :=
  ∀ n, (forest cfg db).LevelOf q n → ∀ y e, (forest cfg db).Below x y e → (n + 1 + e) * cfg.steplen ≤ cfg.maxLen

theorem pathsFit_iff (hok : cfg.Ok) (h : Consistent cfg db) : PathsFit cfg db ↔ (forest cfg db).HeightLE (cfg.maxLen / cfg.steplen) := by
  have h := (consistent_iff hok).1 h
  rw [forest_eq h hok]
  constructor
  · intro hf k d hl
    have : ∃ r ∈ db.rows, r.pk = k := by
      cases hl with
      | root hr => obtain ⟨r, hr, _, e⟩ := (mem_PF h.toPInv).1 hr; exact ⟨r, hr, e⟩
      | child _ hr => obtain ⟨r, hr, _, e⟩ := (mem_PF h.toPInv).1 hr; exact ⟨r, hr, e⟩
    obtain ⟨r, hr, rfl⟩ := this
    have hd := (level_PF h.toPInv hok hr).1 hl
    rw [Nat.le_div_iff_mul_le hok.step, ← hd, ← h.toPInv.depth r hr]
    exact hf r hr
  · intro hh r hr
    have := hh r.pk r.depth ((level_PF h.toPInv hok hr).2 rfl)
    rw [Nat.le_div_iff_mul_le hok.step, ← h.toPInv.depth r hr] at this
    exact this

theorem unique_of (hok : cfg.Ok) (h : Consistent cfg db) : ∀ p q k, k ∈ forest cfg db p → k ∈ forest cfg db q → p = q :=
  fun _ _ _ hp hq => parent_unique hok h hp hq

/-- a new node below `p` -/
theorem fits_added (hok : cfg.Ok) (h : Consistent cfg db) (hf : PathsFit cfg db) {new : Row} (hnew : ∀ r ∈ db.rows, r.pk ≠ new.pk)
    {p : Option Nat} (hp : ∀ q, p = some q → ∃ r ∈ db.rows, r.pk = q)
    (hroom : ∀ d, (forest cfg db).LevelOf p d → (d + 1) * cfg.steplen ≤ cfg.maxLen)
    {db' : DB} {obj : Row} {s : Slot} (ha : AddedAt cfg db db' obj new p s) : PathsFit cfg db' := by
  rw [pathsFit_iff hok ha.consistent, ha.forest]
  have hi := (consistent_iff hok).1 h
  refine Forest.HeightLE.put ((pathsFit_iff hok h).1 hf) ?_ ?_ ?_
  · have : DB.get? db new.pk = none := get?_eq_none.2 hnew
    simp only [forest, this]
  · intro e
    obtain ⟨r, hr, hk⟩ := hp _ e
    exact hnew r hr hk
  · intro d hd
    rw [Nat.le_div_iff_mul_le hok.step]
    exact hroom d hd

/-- if `p` has a child then there is room for another at its level -/
theorem room_of_child (hok : cfg.Ok) (h : Consistent cfg db) (hf : PathsFit cfg db) {p : Option Nat} {c : Nat} (hc : c ∈ forest cfg db p) :
    ∀ d, (forest cfg db).LevelOf p d → (d + 1) * cfg.steplen ≤ cfg.maxLen := by
  intro d hd
  rw [← Nat.le_div_iff_mul_le hok.step]
  refine (pathsFit_iff hok h).1 hf c (d + 1) ?_
  cases p with
  | none => cases hd; exact .root hc
  | some q => exact .child hd hc

theorem mem_rows (hok : cfg.Ok) (h : Consistent cfg db) {p : Option Nat} {c : Nat} (hc : c ∈ forest cfg db p) : ∀ q, p = some q → ∃ r ∈ db.rows, r.pk = q := by
  rintro q rfl
  unfold forest at hc
  cases e : DB.get? db q with
  | none => simp [e] at hc
  | some r => exact ⟨r, ((get?_eq_some ((consistent_iff hok).1 h).inv).1 e).1, ((get?_eq_some ((consistent_iff hok).1 h).inv).1 e).2⟩

/-- **C49, `add_root`**, with and without `node_order_by` -/
theorem C49_mp_add_root (hok : cfg.Ok) (h : Consistent cfg db) (hf : PathsFit cfg db) (hlen : cfg.steplen ≤ cfg.maxLen) {new : Row}
    (hn : Fresh db new) {db' : DB} {obj : Row} (e : addRoot cfg db new = .ok (db', obj)) : PathsFit cfg db' := by
  have hroom : ∀ d, (forest cfg db).LevelOf none d → (d + 1) * cfg.steplen ≤ cfg.maxLen := by
    intro d hd; cases hd; simpa using hlen
  cases ho : cfg.ordered with
  | false =>
    rcases C05_add_root hok h ho hn with ⟨_, _, e', ha⟩ | ⟨e', _⟩ <;> rw [e] at e' <;> cases e'
    exact fits_added hok h hf hn.1 (by simp) hroom ha
  | true =>
    rcases C48_mp_add_root_partial hok h ho hn with ⟨_, _, _, e', ha, _⟩ | ⟨e', _⟩ | ⟨e', _⟩ <;> rw [e] at e' <;> cases e'
    exact fits_added hok h hf hn.1 (by simp) hroom ha

theorem addChild_deep (hok : cfg.Ok) (h : Consistent cfg db) {t target : Row} (ht : t ∈ db.rows) (hk : target.pk = t.pk)
    (hl : t.isLeaf = true) (hlen : cfg.maxLen < t.path.length + cfg.steplen) (new : Row) : addChild cfg db target new = .error .pathOverflow := by
  have hi := ((consistent_iff hok).1 h).toPInv
  have := addTo_deep hok hi (h := some target) (P := t.path) (d := t.depth) (new := new) ⟨t, ht, hk, rfl, rfl, hl⟩
    (by intro e; have := hi.depth t ht; have h2 := hi.inv.len t ht; rw [e] at this h2; have := hok.step; simp at h2; omega) hlen
  simp only [addTo] at this
  cases e : addChild cfg db target new with
  | error er => rw [e] at this; cases this; rfl
  | ok r => rw [e] at this; cases this

/-- **C49, `add_child`** -/
theorem C49_mp_add_child (hok : cfg.Ok) (h : Consistent cfg db) (hf : PathsFit cfg db) {t target : Row} (ht : t ∈ db.rows)
    (hk : target.pk = t.pk) {new : Row} (hn : Fresh db new) {db' : DB} {obj target' : Row}
    (e : addChild cfg db target new = .ok (db', obj, target')) : PathsFit cfg db' := by
  have hi := (consistent_iff hok).1 h
  have hroom : ∀ d, (forest cfg db).LevelOf (some t.pk) d → (d + 1) * cfg.steplen ≤ cfg.maxLen := by
    cases hc : forest cfg db (some t.pk) with
    | cons c l => exact room_of_child hok h hf (c := c) (by rw [hc]; simp)
    | nil =>
      intro d hd
      rw [forest_eq hi hok] at hd hc
      have hd := (level_PF hi.toPInv hok ht).1 hd
      have hlf := (isLeaf_iff hi ht).2 hc
      by_contra hgt
      have := addChild_deep hok h ht hk hlf (by rw [hi.toPInv.depth t ht, hd]; rw [Nat.add_mul, Nat.one_mul] at hgt; omega) new
      rw [this] at e
      cases e
  have hm : ∀ q, some t.pk = some q → ∃ r ∈ db.rows, r.pk = q := by rintro q ⟨⟩; exact ⟨t, ht, rfl⟩
  cases ho : cfg.ordered with
  | false =>
    rcases C05_add_child hok h ho ht hk hn with ⟨_, _, _, e', ha⟩ | ⟨e', _⟩ <;> rw [e] at e' <;> cases e'
    exact fits_added hok h hf hn.1 hm hroom ha
  | true =>
    rcases C48_mp_add_child_partial hok h ho ht hk hn with (⟨_, _, _, e', ha, _⟩ | ⟨e', _⟩ | ⟨e', _⟩) | ⟨e', _⟩ <;> rw [e] at e' <;> cases e'
    exact fits_added hok h hf hn.1 hm hroom ha

/-- **C49, `add_sibling`** -/
theorem C49_mp_add_sibling (hok : cfg.Ok) (h : Consistent cfg db) (hf : PathsFit cfg db) {t : Row} (ht : t ∈ db.rows)
    {posArg : Option Pos} {new : Row} (hn : Fresh db new) {db' : DB} {obj : Row}
    (e : addSibling cfg db t posArg new = .ok (db', obj)) : PathsFit cfg db' := by
  have hprep : ∃ pos, preparePosForAddSibling cfg.ordered posArg = .ok pos := by
    unfold addSibling at e
    cases e1 : preparePosForAddSibling cfg.ordered posArg with
    | error er => rw [e1] at e; cases e
    | ok pos => exact ⟨pos, rfl⟩
  obtain ⟨pos, hprep⟩ := hprep
  cases ho : cfg.ordered with
  | false =>
    rw [ho] at hprep
    have hsib := sibPos_of_prep hprep
    have harg : posArg = some pos ∨ (posArg = none ∧ pos = .lastSibling) := by
      unfold preparePosForAddSibling preparePosVar at hprep
      rcases posArg with _ | q
      · simp [validPosForAddSibling, validPosForSortedAddSibling] at hprep
        exact Or.inr ⟨rfl, hprep.symm⟩
      · left
        revert hprep
        cases q <;> simp [validPosForAddSibling, validPosForSortedAddSibling]
    obtain ⟨p, hp, hout⟩ := C06_add_sibling hok h ho ht hsib harg hn
    rcases hout with ⟨_, _, e', ha⟩ | ⟨e', _⟩ <;> rw [e] at e' <;> cases e'
    exact fits_added hok h hf hn.1 (mem_rows hok h hp) (room_of_child hok h hf hp) ha
  | true =>
    rw [ho] at hprep
    have harg : posArg = none ∨ posArg = some .sortedSibling := by
      unfold preparePosForAddSibling preparePosVar at hprep
      rcases posArg with _ | q
      · exact Or.inl rfl
      · right
        revert hprep
        cases q <;> simp [validPosForAddSibling, validPosForSortedAddSibling]
    obtain ⟨p, hp, hout⟩ := C48_mp_add_sibling_partial hok h ho ht harg hn
    rcases hout with ⟨_, _, _, e', ha, _⟩ | ⟨e', _⟩ | ⟨e', _⟩ <;> rw [e] at e' <;> cases e'
    exact fits_added hok h hf hn.1 (mem_rows hok h hp) (room_of_child hok h hf hp) ha

/-- what a move does to the lengths -/
theorem fits_moved (hok : cfg.Ok) (h : Consistent cfg db) (hf : PathsFit cfg db) {x : Row} (hx : x ∈ db.rows) {q : Option Nat}
    (hq : ∀ k, q = some k → k ≠ x.pk ∧ ¬ (forest cfg db).Desc x.pk k) {F : Forest}
    (hF : (F = forest cfg db ∧ x.pk ∈ forest cfg db q) ∨ ∃ s, F = (forest cfg db).move x.pk q s ∧ x.pk ∈ F q) {db' : DB}
    (hc : Consistent cfg db') (hF' : forest cfg db' = F) : PathsFit cfg db' ↔ BranchFits cfg db x.pk q := by
  have hi := (consistent_iff hok).1 h
  have hl : (forest cfg db).Level x.pk x.depth := by rw [forest_eq hi hok]; exact (level_PF hi.toPInv hok hx).2 rfl
  rw [pathsFit_iff hok hc, hF']
  rcases hF with ⟨rfl, hxq⟩ | ⟨s, rfl, hxq⟩
  · have hall := (pathsFit_iff hok h).1 hf
    refine ⟨fun _ => ?_, fun _ => hall⟩
    intro n hn y e hb
    rw [← Nat.le_div_iff_mul_le hok.step]
    refine hall y _ ?_
    refine hb.level ?_
    cases q with
    | none => cases hn; exact .root hxq
    | some k => exact .child hn hxq
  · rw [Forest.heightLE_move (unique_of hok h) ?_ hl hxq ((pathsFit_iff hok h).1 hf)]
    · unfold BranchFits
      simp only [Nat.le_div_iff_mul_le hok.step]
    · intro k hk e hb
      rcases hb.desc with h1 | h1
      exacts [(hq k hk).1 h1, (hq k hk).2 h1]

theorem dest_out {x t : Row} {pos : Pos} (hin : ¬ (forest cfg db).MoveRefused x.pk t.pk pos) {p : Option Nat} (hp : t.pk ∈ forest cfg db p) :
    ∀ k, pos.dest p t.pk = some k → k ≠ x.pk ∧ ¬ (forest cfg db).Desc x.pk k := by
  intro k hk
  unfold Forest.MoveRefused at hin
  rw [not_or] at hin
  unfold Pos.dest at hk
  split at hk
  · next hc => cases hk; exact ⟨fun e => hin.2 ⟨hc, e⟩, hin.1⟩
  · subst hk
    exact ⟨fun e => hin.1 (.child (e ▸ hp)), fun hd => hin.1 (.step hd hp)⟩

/-- **C49, `move` without `node_order_by`** (partial: the code does not check, see `C49_mp_move_fails`).  After a successful move
the paths fit in the field exactly if the branch fits below its new parent. -/
theorem C49_mp_move_partial (hok : cfg.Ok) (h : Consistent cfg db) (ho : cfg.ordered = false) (hf : PathsFit cfg db) {x t : Row}
    (hx : x ∈ db.rows) (ht : t ∈ db.rows) {pos : Pos} (hpos : IsPlainPos pos) {posArg : Option Pos}
    (harg : posArg = some pos ∨ (posArg = none ∧ pos = .lastSibling)) (hin : ¬ (forest cfg db).MoveRefused x.pk t.pk pos) :
    ∃ p, t.pk ∈ forest cfg db p ∧ (MoveFits cfg db x.pk p t.pk pos →
      ∀ res, move cfg db x t posArg = .ok res → (PathsFit cfg res.db ↔ BranchFits cfg db x.pk (pos.dest p t.pk))) := by
  obtain ⟨p, hp, hm⟩ := C07_move_partial hok h ho hx ht hpos harg hin
  refine ⟨p, hp, ?_⟩
  intro hfit res e
  rcases hm hfit with ⟨_, e', hm⟩ | ⟨e', _⟩ <;> rw [e] at e' <;> cases e'
  exact fits_moved hok h hf hx (dest_out hin hp) (Forest.asked_move hp hpos) hm.consistent hm.forest

/-- **C49, `move` with `node_order_by`** (partial likewise) -/
theorem C49_mp_move_sorted_partial (hok : cfg.Ok) (h : Consistent cfg db) (ho : cfg.ordered = true) (hf : PathsFit cfg db) {x t : Row}
    (hx : x ∈ db.rows) (ht : t ∈ db.rows) (hn : AllNonNull cfg db) (hs : ((forest cfg db).remove x.pk).SortedBy cfg.orderBy (valsOf db))
    {pos : Pos} {posArg : Option Pos} (hprep : preparePosForMove true posArg = .ok pos) (hin : ¬ (forest cfg db).MoveRefused x.pk t.pk pos) :
    ∃ p, t.pk ∈ forest cfg db p ∧ (MoveFits cfg db x.pk p t.pk pos →
      ∀ res, move cfg db x t posArg = .ok res → (PathsFit cfg res.db ↔ BranchFits cfg db x.pk (pos.dest p t.pk))) := by
  obtain ⟨p, hp, hm⟩ := C16_move_partial hok h ho hx ht hn hs hprep hin
  refine ⟨p, hp, ?_⟩
  intro hfit res e
  rcases hm hfit with ⟨_, s, e', hm, _, hat⟩ | ⟨e', _⟩ <;> rw [e] at e' <;> cases e'
  obtain ⟨l₁, l₂, hl, _⟩ := hat
  refine fits_moved hok h hf hx (dest_out hin hp) (Or.inr ⟨s, rfl, ?_⟩) hm.consistent hm.forest
  rw [← hm.forest, hl]
  simp

/-- **C49, `delete`** -/
theorem C49_mp_delete (hok : cfg.Ok) (h : Consistent cfg db) (hf : PathsFit cfg db) (sel : Row → Bool) : PathsFit cfg (delete cfg db sel) := by
  obtain ⟨g, _, _, _, e, og, _⟩ := delete_rows hok ((consistent_iff hok).1 h) sel
  intro r' hr'
  rw [e] at hr'
  obtain ⟨r, hr, rfl⟩ := List.mem_map.1 hr'
  rw [og.path]
  exact hf r (List.mem_filter.1 hr).1

/-- a successful addition adds one row -/
theorem addTo_added (hok : cfg.Ok) (h : Consistent cfg db) {parent : Option Row} (hp : ∀ q, parent = some q → ∃ r ∈ db.rows, r.pk = q.pk) {new : Row}
    (hn : Fresh db new) {db' : DB} {obj : Row} (e : addTo cfg db parent new = .ok (db', obj)) : ∃ p s, AddedAt cfg db db' obj new p s := by
  cases parent with
  | none =>
    simp only [addTo] at e
    cases ho : cfg.ordered with
    | false =>
      rcases C05_add_root hok h ho hn with ⟨_, _, e', ha⟩ | ⟨e', _⟩ <;> rw [e] at e' <;> cases e'
      exact ⟨_, _, ha⟩
    | true =>
      rcases C48_mp_add_root_partial hok h ho hn with ⟨_, _, _, e', ha, _⟩ | ⟨e', _⟩ | ⟨e', _⟩ <;> rw [e] at e' <;> cases e'
      exact ⟨_, _, ha⟩
  | some q =>
    obtain ⟨t, ht, hk⟩ := hp q rfl
    simp only [addTo] at e
    cases e1 : addChild cfg db q new with
    | error er => rw [e1] at e; cases e
    | ok r =>
      rw [e1] at e
      obtain ⟨_, _, _⟩ := r
      cases e
      cases ho : cfg.ordered with
      | false =>
        rcases C05_add_child hok h ho ht hk.symm hn with ⟨_, _, _, e', ha⟩ | ⟨e', _⟩ <;> rw [e1] at e' <;> cases e'
        exact ⟨_, _, ha⟩
      | true =>
        rcases C48_mp_add_child_partial hok h ho ht hk.symm hn with (⟨_, _, _, e', ha, _⟩ | ⟨e', _⟩ | ⟨e', _⟩) | ⟨e', _⟩ <;> rw [e1] at e' <;> cases e'
        exact ⟨_, _, ha⟩

theorem addTo_fits (hok : cfg.Ok) (h : Consistent cfg db) (hf : PathsFit cfg db) (hlen : cfg.steplen ≤ cfg.maxLen) {parent : Option Row}
    (hp : ∀ q, parent = some q → ∃ r ∈ db.rows, r.pk = q.pk) {new : Row}
    (hn : Fresh db new) {db' : DB} {obj : Row} (e : addTo cfg db parent new = .ok (db', obj)) : PathsFit cfg db' := by
  cases parent with
  | none => exact C49_mp_add_root hok h hf hlen hn e
  | some q =>
    obtain ⟨t, ht, hk⟩ := hp q rfl
    simp only [addTo] at e
    cases e1 : addChild cfg db q new with
    | error er => rw [e1] at e; cases e
    | ok r =>
      rw [e1] at e
      obtain ⟨_, _, _⟩ := r
      cases e
      exact C49_mp_add_child hok h hf ht hk.symm hn e1

/-- **C49, `load_bulk`** (without `bulk_create`), also in trees with `node_order_by` and with arbitrary values -/
theorem C49_mp_load (hok : cfg.Ok) (hlen : cfg.steplen ≤ cfg.maxLen) (n : Nest (Nat × Vals)) (h : Consistent cfg db) (hf : PathsFit cfg db)
    {parent : Option Row} (hp : ∀ q, parent = some q → ∃ r ∈ db.rows, r.pk = q.pk) (hk : (n.labels.map Prod.fst).Nodup)
    (hnew : ∀ a ∈ n.labels, ∀ r ∈ db.rows, r.pk ≠ a.1) {db' : DB} {added : List Nat} (e : load cfg db parent n = .ok (db', added)) :
    Consistent cfg db' ∧ PathsFit cfg db' := by
  have key : ∀ (n : Nest (Nat × Vals)) (db : DB) (parent : Option Row), Consistent cfg db → PathsFit cfg db →
      (∀ q, parent = some q → ∃ r ∈ db.rows, r.pk = q.pk) → (n.labels.map Prod.fst).Nodup → (∀ a ∈ n.labels, ∀ r ∈ db.rows, r.pk ≠ a.1) →
      ∀ db' added, loadNest (fun db p a => addTo cfg db p (fresh a)) Row.pk db parent n = .ok (db', added) →
      Consistent cfg db' ∧ PathsFit cfg db' ∧ (∀ r ∈ db'.rows, r.pk ∈ db.rows.map Row.pk ∨ r.pk ∈ n.labels.map Prod.fst) ∧
      ∀ r ∈ db.rows, ∃ r' ∈ db'.rows, r'.pk = r.pk := by
    intro n
    induction n with
    | nil =>
      intro db parent h hf _ _ _ db' added e
      cases e
      exact ⟨h, hf, fun r hr => Or.inl (List.mem_map_of_mem hr), fun r hr => ⟨r, hr, rfl⟩⟩
    | cons a c r ihc ihr =>
      intro db parent h hf hp hk hnew db' added e
      simp only [Nest.labels, List.map_cons, List.map_append, List.nodup_cons, List.nodup_append, List.mem_append, List.mem_cons] at hk hnew
      simp only [loadNest] at e
      cases e1 : addTo cfg db parent (fresh a) with
      | error er => rw [e1] at e; cases e
      | ok r1 =>
        obtain ⟨db1, obj⟩ := r1
        rw [e1] at e
        simp only at e
        have hfr : Fresh db (fresh a) := ⟨fun r hr => hnew a (Or.inl rfl) r hr, rfl⟩
        obtain ⟨_, _, ha⟩ := addTo_added hok h hp hfr e1
        have hf1 := addTo_fits hok h hf hlen hp hfr e1
        have hpk : ∀ k, k ∈ db1.rows.map Row.pk ↔ k ∈ db.rows.map Row.pk ∨ k = a.1 := by
          intro k
          have := congrArg (List.map Prod.fst) ha.data
          simp only [data, List.map_map, List.map_append, List.map_cons, List.map_nil] at this
          have h2 : db1.rows.map Row.pk = db.rows.map Row.pk ++ [a.1] := this
          rw [h2]
          simp
        cases e2 : loadNest (fun db p a => addTo cfg db p (fresh a)) Row.pk db1 (some obj) c with
        | error er => rw [e2] at e; cases e
        | ok r2 =>
          obtain ⟨db2, l1⟩ := r2
          rw [e2] at e
          simp only at e
          obtain ⟨h2, hf2, hb2, hs2⟩ := ihc db1 (some obj) ha.consistent hf1 (by rintro q ⟨⟩; exact ⟨obj, ha.obj.1, rfl⟩) hk.2.1
            (by
              intro b hb r hr e
              rcases (hpk r.pk).1 (List.mem_map_of_mem hr) with h3 | h3
              · obtain ⟨r0, hr0, e0⟩ := List.mem_map.1 h3
                exact hnew b (Or.inr (Or.inl hb)) r0 hr0 (e0.trans e)
              · exact hk.1 (Or.inl (by rw [← h3, e]; exact List.mem_map_of_mem hb))) _ _ e2
          cases e3 : loadNest (fun db p a => addTo cfg db p (fresh a)) Row.pk db2 parent r with
          | error er => rw [e3] at e; cases e
          | ok r3 =>
            obtain ⟨db3, l2⟩ := r3
            rw [e3] at e
            cases e
            have hs1 : ∀ r ∈ db.rows, ∃ r' ∈ db2.rows, r'.pk = r.pk := by
              intro r hr
              obtain ⟨r1, hr1, e1⟩ := List.mem_map.1 ((hpk r.pk).2 (Or.inl (List.mem_map_of_mem hr)))
              obtain ⟨r2, hr2, e2⟩ := hs2 r1 hr1
              exact ⟨r2, hr2, e2.trans e1⟩
            obtain ⟨h3, hf3, hb3, hs3⟩ := ihr db2 parent h2 hf2
              (by
                intro q hq
                obtain ⟨r0, hr0, e0⟩ := hp q hq
                obtain ⟨r1, hr1, e1⟩ := hs1 r0 hr0
                exact ⟨r1, hr1, e1.trans e0⟩) hk.2.2.1
              (by
                intro b hb r hr e
                rcases hb2 r hr with h3 | h3
                · rcases (hpk r.pk).1 h3 with h3 | h3
                  · obtain ⟨r0, hr0, e0⟩ := List.mem_map.1 h3
                    exact hnew b (Or.inr (Or.inr hb)) r0 hr0 (e0.trans e)
                  · exact hk.1 (Or.inr (by rw [← h3, e]; exact List.mem_map_of_mem hb))
                · exact hk.2.2.2 _ h3 _ (List.mem_map_of_mem hb) e) _ _ e3
            refine ⟨h3, hf3, ?_, ?_⟩
            · intro r' hr'
              simp only [Nest.labels, List.map_cons, List.map_append, List.mem_cons, List.mem_append]
              rcases hb3 r' hr' with h4 | h4
              · obtain ⟨r2, hr2, e2⟩ := List.mem_map.1 h4
                rcases hb2 r2 hr2 with h5 | h5
                · rcases (hpk _).1 h5 with h6 | h6
                  · exact Or.inl (e2 ▸ h6)
                  · exact Or.inr (Or.inl (e2 ▸ h6))
                · exact Or.inr (Or.inr (Or.inl (e2 ▸ h5)))
              · exact Or.inr (Or.inr (Or.inr h4))
            · intro r0 hr0
              obtain ⟨r1, hr1, e1⟩ := hs1 r0 hr0
              obtain ⟨r2, hr2, e2⟩ := hs3 r1 hr1
              exact ⟨r2, hr2, e2.trans e1⟩
  rw [load_eq] at e
  obtain ⟨h1, h2, _⟩ := key n db parent h hf hp hk hnew _ _ e
  exact ⟨h1, h2⟩

/-- **C49 is false for `move`**: the branch of a node with a child goes below a node, where the child's path is longer than the
field.  (SQLite stores it; a database that checks raises its own error instead of PathOverflow.) -/
theorem C49_mp_move_fails : ∃ cfg db x t res, cfg.Ok ∧ Consistent cfg db ∧ PathsFit cfg db ∧ x ∈ db.rows ∧ t ∈ db.rows ∧
    move cfg db x t (some .firstChild) = .ok res ∧ Consistent cfg res.db ∧ ¬ PathsFit cfg res.db := by
  refine ⟨⟨List.range' 48 10, 1, [], 2⟩, { rows := [⟨1, [49], 1, 0, []⟩, ⟨2, [50], 1, 1, []⟩, ⟨3, [50, 49], 2, 0, []⟩] }, ⟨2, [50], 1, 1, []⟩,
    ⟨1, [49], 1, 0, []⟩, _, ⟨by decide, by decide, by decide⟩, ⟨by decide, by decide, by intro p; cases p <;> decide, by decide, by decide⟩,
    by decide, by decide, by decide, rfl, ⟨by decide, by decide, by intro p; cases p <;> decide, by decide, by decide⟩, by decide⟩

/-- **C49 is false for `load_bulk(bulk_create=True)`**: only the first level goes through `add_root` or `add_child`, which check. -/
theorem C49_mp_load_fails : ∃ (cfg : Cfg) (n : Nest (Nat × Vals)) (db2 : DB) (added : List Nat), cfg.Ok ∧ cfg.steplen ≤ cfg.maxLen ∧ (n.labels.map Prod.fst).Nodup ∧
    loadCreate cfg { rows := [] } none n = .ok (db2, added) ∧ Consistent cfg db2 ∧ ¬ PathsFit cfg db2 := by
  refine ⟨⟨List.range' 48 10, 1, [], 2⟩, .cons (1, []) (.cons (2, []) (.cons (3, []) .nil .nil) .nil) .nil, _, _, ⟨by decide, by decide, by decide⟩,
    by decide, by decide, rfl, ⟨by decide, by decide, by intro p; cases p <;> decide, by decide, by decide⟩, by decide⟩

/-- the hypotheses hold for the example tree: adding below a leaf, beside it, and moving node 2 below node 4 -/
example : Consistent exCfg exDB ∧ PathsFit exCfg exDB ∧ exCfg.steplen ≤ exCfg.maxLen ∧ Fresh exDB ⟨9, [], 0, 0, []⟩ ∧
    (∃ r, addChild exCfg exDB ⟨4, [49, 51, 49], 3, 0, []⟩ ⟨9, [], 0, 0, []⟩ = .ok r) ∧
    (∃ r, addSibling exCfg exDB ⟨4, [49, 51, 49], 3, 0, []⟩ (some .left) ⟨9, [], 0, 0, []⟩ = .ok r) ∧
    (∃ r, move exCfg exDB ⟨2, [49, 49], 2, 0, []⟩ ⟨4, [49, 51, 49], 3, 0, []⟩ (some .lastChild) = .ok r ∧ PathsFit exCfg r.db) :=
  ⟨⟨by decide, by decide, by intro p; cases p <;> decide, by decide, by decide⟩, by decide, by decide, by unfold Fresh; decide, ⟨_, rfl⟩, ⟨_, rfl⟩,
    _, rfl, by decide⟩

end Verif.MP
