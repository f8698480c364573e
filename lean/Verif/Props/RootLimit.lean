/-
C74: how many roots the other implementations can have.
-/
import Verif.SpecLimit
import Verif.Props.PathRoom
import Verif.Props.NSTree
import Verif.Props.ALTree

namespace Verif

/-- Calls of which each succeeds and puts its node last among the roots, as long as there is room -/
theorem addEach_last {σ ρ : Type} {add : σ → ρ → Except Err (σ × ρ)} (F : σ → Forest) (D : σ → List (Nat × Vals)) (pk : ρ → Nat) (vals : ρ → Vals)
    (Good : Nat → σ → Prop) (P : ρ → Prop) (N : Nat)
    (step : ∀ n s x, n < N → Good n s → P x → pk x ∉ (D s).map Prod.fst →
      ∃ s' o, add s x = .ok (s', o) ∧ Good (n + 1) s' ∧ F s' = (F s).put none .last (pk x) ∧ D s' = D s ++ [(pk x, vals x)]) :
    ∀ (xs : List ρ) (n : Nat) (s : σ), n + xs.length ≤ N → Good n s → (∀ x ∈ xs, P x) → ((D s).map Prod.fst ++ xs.map pk).Nodup →
      ∃ s', addEach add s xs = .ok s' ∧ Good (n + xs.length) s' ∧ F s' none = F s none ++ xs.map pk ∧ (∀ k, F s' (some k) = F s (some k)) ∧
        D s' = D s ++ xs.map (fun x => (pk x, vals x)) := by
  intro xs
  induction xs with
  | nil => exact fun n s _ h _ _ => ⟨s, rfl, h, by simp, fun _ => rfl, by simp⟩
  | cons x xs ih =>
    intro n s hN h hP hnd
    simp only [List.length_cons] at hN ⊢
    have hx : pk x ∉ (D s).map Prod.fst := by
      intro hm
      rw [List.nodup_append] at hnd
      exact hnd.2.2 (pk x) hm (pk x) (by simp) rfl
    obtain ⟨s₁, o, e, hg, hf, hd⟩ := step n s x (by omega) h (hP x (by simp)) hx
    obtain ⟨s', e', hg', h1, h2, h3⟩ := ih (n + 1) s₁ (by omega) hg (fun y hy => hP y (by simp [hy])) (by rw [hd]; simpa using hnd)
    refine ⟨s', by unfold addEach; rw [e]; exact e', by rw [show n + (xs.length + 1) = n + 1 + xs.length by omega]; exact hg', ?_, ?_, ?_⟩
    · rw [h1, hf]; simp [Forest.put, Slot.ins]
    · intro k; rw [h2, hf]; simp [Forest.put]
    · rw [h3, hd]; simp

end Verif

namespace Verif.NS

variable {cfg : Cfg} {db : DB}

/-- **C74: nested sets have no limit.**  Any number of new nodes can be added as roots, to any consistent table. -/
theorem C74_ns (ho : cfg.ordered = false) (h : Consistent db) {news : List Row} (hn : (db.rows.map Row.pk ++ news.map Row.pk).Nodup) :
    ∃ db', addEach (addRoot cfg) db news = .ok db' ∧ Consistent db' ∧ forest db' none = forest db none ++ news.map Row.pk ∧
      (∀ k, forest db' (some k) = forest db (some k)) ∧ data db'.rows = data db.rows ++ news.map (fun r => (r.pk, r.vals)) := by
  have hk : ∀ rows : List Row, (data rows).map Prod.fst = rows.map Row.pk := fun rows => by simp [data, Function.comp_def]
  refine addEach_last forest (fun db => data db.rows) Row.pk Row.vals (fun _ => Consistent) (fun _ => True) news.length ?_ news 0 db (by omega) h
    (fun _ _ => trivial) (by rw [hk]; exact hn)
  intro n db x _ h _ hx
  rw [hk] at hx
  obtain ⟨db', obj, e, ha⟩ := C22_add_root h ho (new := x) (fun r hr e => hx (List.mem_map.2 ⟨r, hr, e⟩))
  exact ⟨db', obj, e, ha.consistent, ha.forest, ha.data⟩

end Verif.NS

namespace Verif.AL

variable {cfg : Cfg} {db : DB}

/-- **C74: adjacency lists have no limit.** -/
theorem C74_al (ho : cfg.ordered = false) (h : Consistent cfg db) {news : List Row} (hp : ∀ x ∈ news, x.parent = none)
    (hn : (db.rows.map Row.pk ++ news.map Row.pk).Nodup) :
    ∃ db', addEach (addRoot cfg) db news = .ok db' ∧ Consistent cfg db' ∧ forest cfg db' none = forest cfg db none ++ news.map Row.pk ∧
      (∀ k, forest cfg db' (some k) = forest cfg db (some k)) ∧ data db'.rows = data db.rows ++ news.map (fun r => (r.pk, r.vals)) := by
  have hk : ∀ rows : List Row, (data rows).map Prod.fst = rows.map Row.pk := fun rows => by simp [data, Function.comp_def]
  refine addEach_last (forest cfg) (fun db => data db.rows) Row.pk Row.vals (fun _ => Consistent cfg) (fun x => x.parent = none) news.length ?_ news 0 db (by omega) h
    hp (by rw [hk]; exact hn)
  intro n db x _ h hx0 hx
  rw [hk] at hx
  obtain ⟨db', obj, e, ha⟩ := C31_add_root ho h (new := x) (fun r hr e => hx (List.mem_map.2 ⟨r, hr, e⟩)) hx0
  exact ⟨db', obj, e, ha.consistent, ha.forest, ha.data⟩

end Verif.AL

namespace Verif.MP

variable {cfg : Cfg} {db : DB}

/-- The roots have the positions up to `n`, and the last one is taken. -/
structure UpTo (cfg : Cfg) (n : Nat) (db : DB) : Prop where
  consistent : Consistent cfg db
  pos : ∀ r ∈ db.rows, ∃ k, 1 ≤ k ∧ k ≤ n ∧ r.path = stp cfg k
  last : 1 ≤ n → ∃ r ∈ db.rows, r.path = stp cfg n
  lt : n < cfg.cap

theorem UpTo.lastRoot (hok : cfg.Ok) {n : Nat} (h : UpTo cfg n db) :
    (lastRootNode db = none ∧ n = 0) ∨ ∃ r, lastRootNode db = some r ∧ r.path = stp cfg n := by
  have hi := ((consistent_iff hok).1 h.consistent)
  cases hl : lastRootNode db with
  | none =>
    refine Or.inl ⟨rfl, ?_⟩
    by_contra hc
    obtain ⟨r, hr, _⟩ := h.last (by omega)
    rw [no_roots hok hi.toPInv hl] at hr
    cases hr
  | some l =>
    refine Or.inr ⟨l, rfl, ?_⟩
    obtain ⟨h1, h2⟩ := getLast?_max (rootNodes_sorted hi.toPInv) hl
    obtain ⟨h3, h4⟩ := (mem_rootNodes hi.toPInv hok).1 h1
    obtain ⟨k, hk1, hkn, hk⟩ := h.pos l h3
    obtain ⟨r, hr, hrn⟩ := h.last (by omega)
    by_cases e : r = l
    · rw [← e]; exact hrn
    · have hroot : r ∈ rootNodes db := by
        refine (mem_rootNodes hi.toPInv hok).2 ⟨hr, ?_⟩
        refine (parOf_eq_none hi.toPInv.inv hok.step hr).2 ?_
        rw [hrn, stp_length hok h.lt]
      have := h2 r hroot e
      rw [hrn, hk, stp_lt_iff hok h.lt (by have := h.lt; omega)] at this
      omega

theorem UpTo.add (hok : cfg.Ok) (ho : cfg.ordered = false) {n : Nat} (h : UpTo cfg n db) {new : Row} (hf : Fresh db new) :
    (n + 1 < cfg.cap → ∃ db' obj, addRoot cfg db new = .ok (db', obj) ∧ UpTo cfg (n + 1) db' ∧ AddedAt cfg db db' obj new none .last) ∧
    (n + 1 = cfg.cap → addRoot cfg db new = .error .pathOverflow) := by
  have hi := ((consistent_iff hok).1 h.consistent)
  have hcap := cap_gt_one hok
  have hpath : n + 1 < cfg.cap → addRoot cfg db new = (match save db { new with path := stp cfg (n + 1), depth := 1 } with
      | .error e => .error e
      | .ok db => .ok (db, { new with path := stp cfg (n + 1), depth := 1 })) := by
    intro hc
    unfold addRoot
    rcases h.lastRoot hok with ⟨e, rfl⟩ | ⟨r, e, hr⟩
    · simp only [e, getPath_root_one hok]; rfl
    · simp only [e, ho, hr, inc_stp hok hc]; rfl
  constructor
  · intro hc
    rcases C05_add_root hok h.consistent ho hf with ⟨db', obj, e, ha⟩ | ⟨e, _⟩
    · refine ⟨db', obj, e, ⟨ha.consistent, ?_, ?_, hc⟩, ha⟩ <;> rw [hpath hc] at e <;>
      · have hany : db.rows.any (·.pk == new.pk) = false := by
          rw [List.any_eq_false]
          intro r hr; simpa using hf.1 r hr
        simp only [save, hany, Bool.false_eq_true, if_false] at e
        split at e
        · cases e
        · rename_i he
          split at he
          · cases he
            cases e
            first
            | intro r hr
              rcases List.mem_append.1 hr with hr | hr
              · obtain ⟨k, h1, h2, h3⟩ := h.pos r hr
                exact ⟨k, h1, by omega, h3⟩
              · rw [List.mem_singleton] at hr
                exact ⟨n + 1, by omega, le_rfl, by rw [hr]⟩
            | intro _
              exact ⟨_, List.mem_append_right _ (List.mem_singleton.2 rfl), rfl⟩
          · cases he
    · rw [hpath hc] at e
      have hs : ∀ row, save db row ≠ .error .pathOverflow := by
        intro row
        unfold save
        dsimp only
        split <;> split <;> simp
      split at e
      · rename_i he
        cases e
        exact absurd he (hs _)
      · cases e
  · intro hc
    unfold addRoot
    rcases h.lastRoot hok with ⟨e, rfl⟩ | ⟨r, e, hr⟩
    · omega
    · simp only [e, ho, hr, inc_stp_full hok hc]; rfl

/-- **C74: materialized paths have exactly one root less than there are positions.**  From the empty table, without `node_order_by`. -/
theorem C74_mp_limit (hok : cfg.Ok) (ho : cfg.ordered = false) {news : List Row} (hn : (news.map Row.pk).Nodup) (h0 : ∀ x ∈ news, x.numchild = 0) :
    (news.length < cfg.cap → ∃ db', addEach (addRoot cfg) { rows := [] } news = .ok db' ∧ Consistent cfg db' ∧ forest cfg db' none = news.map Row.pk ∧
      data db'.rows = news.map (fun r => (r.pk, r.vals))) ∧
    (cfg.cap ≤ news.length → addEach (addRoot cfg) { rows := [] } news = .error .pathOverflow) := by
  have hcap := cap_gt_one hok
  have hk : ∀ rows : List Row, (data rows).map Prod.fst = rows.map Row.pk := fun rows => by simp [data, Function.comp_def]
  have hemp : UpTo cfg 0 { rows := [] } := ⟨(HInv.empty cfg).consistent, by simp, by omega, by omega⟩
  have key := addEach_last (add := addRoot cfg) (forest cfg) (fun db => data db.rows) Row.pk Row.vals (UpTo cfg) (fun x => x.numchild = 0) (cfg.cap - 1) (by
    intro n db x hlt h hx0 hx
    rw [hk] at hx
    obtain ⟨db', obj, e, hu, ha⟩ := (h.add hok ho (new := x) ⟨fun r hr e => hx (List.mem_map.2 ⟨r, hr, e⟩), hx0⟩).1 (by omega)
    exact ⟨db', obj, e, hu, ha.forest, ha.data⟩)
  constructor
  · intro hl
    obtain ⟨db', e, hu, hf, _, hd⟩ := key news 0 { rows := [] } (by omega) hemp h0 (by simpa [data] using hn)
    exact ⟨db', e, hu.consistent, hf, hd⟩
  · intro hl
    -- the first `cap - 1` are added, the next one fails
    obtain ⟨a, x, b, rfl, ha⟩ : ∃ a x b, news = a ++ x :: b ∧ a.length = cfg.cap - 1 := by
      refine ⟨news.take (cfg.cap - 1), news[cfg.cap - 1]'(by omega), news.drop (cfg.cap - 1 + 1), ?_, by simp; omega⟩
      rw [List.getElem_cons_drop, List.take_append_drop]
    have happ : ∀ (a b : List Row) (db db' : DB), addEach (addRoot cfg) db a = .ok db' → addEach (addRoot cfg) db (a ++ b) = addEach (addRoot cfg) db' b := by
      intro a
      induction a with
      | nil => intro b db db' e; cases e; rfl
      | cons y ys ih =>
        intro b db db' e
        cases h : addRoot cfg db y with
        | error _ => simp [addEach, h] at e
        | ok p =>
          simp only [addEach, h, List.cons_append] at e ⊢
          exact ih b p.1 db' e
    rw [List.map_append, List.nodup_append] at hn
    obtain ⟨db', e, hu, hf, _, hd⟩ := key a 0 { rows := [] } (by omega) hemp (fun y hy => h0 y (by simp [hy])) (by simpa [data] using hn.1)
    rw [happ a _ _ _ e]
    have hfresh : Fresh db' x := by
      refine ⟨fun r hr er => ?_, h0 x (by simp)⟩
      have : r.pk ∈ a.map Row.pk := by
        have h1 : r.pk ∈ (data db'.rows).map Prod.fst := by rw [hk]; exact List.mem_map.2 ⟨r, hr, rfl⟩
        rw [hd] at h1
        simpa [data, Function.comp_def] using h1
      exact hn.2.2 r.pk this x.pk (by simp) er
    unfold addEach
    rw [(hu.add hok ho hfresh).2 (by omega)]

/-- eight positions, of which seven can be used -/
example : (∃ db', addEach (addRoot roomCfg) { rows := [] } ((List.range 7).map (fun k => ⟨k, [], 0, 0, []⟩)) = .ok db' ∧ forest roomCfg db' none = List.range 7) ∧
    addEach (addRoot roomCfg) { rows := [] } ((List.range 8).map (fun k => ⟨k, [], 0, 0, []⟩)) = .error .pathOverflow := by
  constructor
  · obtain ⟨db', e, _, hf, _⟩ := (C74_mp_limit (news := (List.range 7).map (fun k => ⟨k, [], 0, 0, []⟩)) roomCfg_ok rfl (by decide) (by decide)).1 (by decide)
    exact ⟨db', e, by rw [hf]; decide⟩
  · exact (C74_mp_limit roomCfg_ok rfl (by decide) (by decide)).2 (by decide)

end Verif.MP

namespace Verif

/-- a thousand roots more -/
example : (∃ db', addEach (NS.addRoot ⟨[]⟩) NS.exDB ((List.range 1000).map (fun k => ⟨k + 10, 0, 0, 0, 0, []⟩)) = .ok db' ∧
    (NS.forest db' none).length = (NS.forest NS.exDB none).length + 1000) ∧
    ∃ db', addEach (AL.addRoot AL.exPlain) AL.exDB ((List.range 1000).map (fun k => ⟨k + 10, none, 0, []⟩)) = .ok db' ∧
    (AL.forest AL.exPlain db' none).length = (AL.forest AL.exPlain AL.exDB none).length + 1000 := by
  have hnd : ∀ {l : List Nat}, l.Nodup → (∀ a ∈ l, a < 10) → (l ++ (List.range 1000).map (fun k => k + 10)).Nodup := by
    intro l hl hlt
    rw [List.nodup_append]
    refine ⟨hl, List.nodup_range.map_on (by intro a _ b _ e; simpa using e), ?_⟩
    intro a ha b hb e
    obtain ⟨k, _, rfl⟩ := List.mem_map.1 hb
    have := hlt a ha
    omega
  constructor
  · obtain ⟨db', e, _, hf, _⟩ := NS.C74_ns (cfg := ⟨[]⟩) (db := NS.exDB) (news := (List.range 1000).map (fun k => ⟨k + 10, 0, 0, 0, 0, []⟩)) rfl NS.exDB_inv
      (by rw [List.map_map]; exact hnd (by decide) (by decide))
    exact ⟨db', e, by rw [hf]; simp⟩
  · obtain ⟨db', e, _, hf, _⟩ := AL.C74_al (cfg := AL.exPlain) (db := AL.exDB) (news := (List.range 1000).map (fun k => ⟨k + 10, none, 0, []⟩)) rfl
      (AL.consistent_of_inv rfl AL.exDB_inv) (by simp) (by rw [List.map_map]; exact hnd (by decide) (by decide))
    exact ⟨db', e, by rw [hf]; simp⟩

end Verif
