/-
C51: `get_descendants_group_count`.
-/
import Verif.AnnotatedModel
import Verif.Props.MPQuery
import Verif.Props.NSQuery
import Verif.Props.ALQuery
import Verif.Props.LTQuery

namespace Verif

/-- The answer lists the roots, or the children of the node, in order, each with the number of its descendants: the length of a list
without repetitions that has exactly the descendants. -/
def GroupCount (F : Forest) (p : Option Nat) (L : List (Nat × Rat)) : Prop :=
  L.map (·.1) = F p ∧ ∀ e ∈ L, ∃ l : List Nat, l.Nodup ∧ (∀ y, y ∈ l ↔ F.Desc e.1 y) ∧ e.2 = l.length

/-- from the rows -/
theorem groupCount_of {ρ : Type} {F : Forest} {p : Option Nat} {pk : ρ → Nat} {nodes : List ρ} {cnt : ρ → Rat}
    (h1 : nodes.map pk = F p) (h2 : ∀ r ∈ nodes, ∃ l : List Nat, l.Nodup ∧ (∀ y, y ∈ l ↔ F.Desc (pk r) y) ∧ cnt r = l.length) :
    GroupCount F p (nodes.map (fun r => (pk r, cnt r))) := by
  refine ⟨by rw [List.map_map]; exact h1, ?_⟩
  intro e he
  obtain ⟨r, hr, rfl⟩ := List.mem_map.1 he
  exact h2 r hr

/-- counting the rows of a branch -/
theorem branch_count {ρ : Type} [DecidableEq ρ] {F : Forest} {pk : ρ → Nat} {rows : List ρ} (hn : (rows.map pk).Nodup) {P : ρ → Bool} {x : ρ} (hx : x ∈ rows)
    (hP : P x = true) (hd : ∀ y ∈ rows, F.Desc (pk x) (pk y) ↔ P y = true ∧ x ≠ y) (hk : ∀ k, F.Desc (pk x) k → ∃ y ∈ rows, pk y = k) :
    ∃ l : List Nat, l.Nodup ∧ (∀ y, y ∈ l ↔ F.Desc (pk x) y) ∧ ((((rows.filter P).length : Int) - 1 : Int) : Rat) = l.length := by
  have hxm : x ∈ rows.filter P := List.mem_filter.2 ⟨hx, hP⟩
  have hrn : (rows.filter P).Nodup := (List.Nodup.of_map pk hn).filter _
  refine ⟨((rows.filter P).erase x).map pk, ?_, ?_, ?_⟩
  · exact hn.sublist (((List.erase_sublist).trans List.filter_sublist).map pk)
  · intro k
    rw [List.mem_map]
    constructor
    · rintro ⟨r, hr, rfl⟩
      rw [hrn.mem_erase_iff, List.mem_filter] at hr
      exact (hd r hr.2.1).2 ⟨hr.2.2, fun e => hr.1 e.symm⟩
    · intro hde
      obtain ⟨r, hr, rfl⟩ := hk k hde
      have := (hd r hr).1 hde
      exact ⟨r, by rw [hrn.mem_erase_iff, List.mem_filter]; exact ⟨fun e => this.2 e.symm, hr, this.1⟩, rfl⟩
  · rw [List.length_map, List.length_erase_of_mem hxm]
    have : 0 < (rows.filter P).length := List.length_pos_of_mem hxm
    rw [show ((rows.filter P).length : Int) - 1 = (((rows.filter P).length - 1 : Nat) : Int) from by omega]
    rfl

/-- **C51 for MP.** -/
theorem C51_mp {cfg : MP.Cfg} {db : MP.DB} (hok : cfg.Ok) (h : MP.Consistent cfg db) {p : Option MP.Row} (hp : ∀ q, p = some q → q ∈ db.rows) :
    GroupCount (MP.forest cfg db) (p.map MP.Row.pk) ((MP.descendantsGroupCount cfg db p).map (fun e => (e.1.pk, (e.2 : Rat)))) := by
  have h := (MP.consistent_iff hok).1 h
  have hpi := h.toPInv
  have hfe := MP.forest_eq h hok
  unfold MP.descendantsGroupCount
  rw [List.map_map]
  refine groupCount_of (pk := MP.Row.pk) (cnt := fun r => (((db.rows.filter (fun q => r.path.isPrefixOf q.path)).length : Int) - 1 : Int)) ?_ ?_
  · rw [hfe]
    cases p with
    | none => rw [← hfe]; rfl
    | some q => exact children_PF hok h (hp q rfl)
  · intro r hr
    have hr : r ∈ db.rows := by
      cases p with
      | none => exact (MP.mem_orderByPath.1 hr |> List.mem_filter.1).1
      | some q =>
        simp only [MP.children] at hr
        split at hr
        · simp at hr
        · exact (MP.mem_orderByPath.1 hr |> List.mem_filter.1).1
    rw [hfe]
    refine branch_count (pk := MP.Row.pk) hpi.inv.pkNodup hr (by simp) ?_ ?_
    · intro y hy
      rw [MP.desc_PF hpi hok hr hy, List.isPrefixOf_iff_prefix]
    · intro k hd
      cases hd with
      | child hm => obtain ⟨r, hr, _, e⟩ := (MP.mem_PF hpi).1 hm; exact ⟨r, hr, e⟩
      | step _ hm => obtain ⟨r, hr, _, e⟩ := (MP.mem_PF hpi).1 hm; exact ⟨r, hr, e⟩

example : MP.Consistent MP.exCfg MP.exDB ∧
    (MP.descendantsGroupCount MP.exCfg MP.exDB none).map (fun e => (e.1.pk, e.2)) = [(1, 3), (5, 0)] ∧
    (MP.descendantsGroupCount MP.exCfg MP.exDB (some ⟨1, [49], 1, 2, []⟩)).map (fun e => (e.1.pk, e.2)) = [(2, 0), (3, 1)] :=
  ⟨MP.exDB_consistent, by decide, by decide⟩

/-- **C51 for LT.** -/
theorem LT.C51_lt {db : LT.DB} (h : LT.Consistent db) {p : Option LT.Row} (hp : ∀ q, p = some q → q ∈ db.rows) :
    GroupCount (LT.forest db) (p.map LT.Row.pk) ((LT.descendantsGroupCount db p).map (fun e => (e.1.pk, (e.2 : Rat)))) := by
  have hpi := h.inv.inv
  have hfe := LT.forest_eq hpi
  unfold LT.descendantsGroupCount
  rw [List.map_map]
  refine groupCount_of (pk := LT.Row.pk) (cnt := fun r => (((db.rows.filter (fun q => r.path.isPrefixOf q.path)).length : Int) - 1 : Int)) ?_ ?_
  · rw [hfe]
    cases p with
    | none => rw [← hfe]; rfl
    | some q => exact LT.children_PF hpi (hp q rfl)
  · intro r hr
    have hr : r ∈ db.rows := by
      cases p with
      | none => exact (LT.mem_orderByPath.1 hr |> List.mem_filter.1).1
      | some q => exact (LT.mem_orderByPath.1 hr |> List.mem_filter.1).1
    rw [hfe]
    refine branch_count (pk := LT.Row.pk) hpi.pkNodup hr (by simp) ?_ ?_
    · intro y hy
      rw [LT.desc_PF hpi hr hy, List.isPrefixOf_iff_prefix]
    · intro k hd
      cases hd with
      | child hm => obtain ⟨r, hr, _, e⟩ := (LT.mem_PF hpi).1 hm; exact ⟨r, hr, e⟩
      | step _ hm => obtain ⟨r, hr, _, e⟩ := (LT.mem_PF hpi).1 hm; exact ⟨r, hr, e⟩

example : LT.Consistent LT.exDB ∧ (LT.descendantsGroupCount LT.exDB none).map (fun e => (e.1.pk, e.2)) = [(1, 3), (5, 0)] ∧
    (LT.descendantsGroupCount LT.exDB (some ⟨1, [[65]], []⟩)).map (fun e => (e.1.pk, e.2)) = [(2, 0), (3, 1)] :=
  ⟨LT.consistent_iff.2 LT.exDB_inv, by decide, by decide⟩

/-- **C51 for NS.** -/
theorem NS.C51_ns {db : NS.DB} (h : NS.Consistent db) {p : Option NS.Row} (hp : ∀ q, p = some q → q ∈ db.rows) :
    GroupCount (NS.forest db) (p.map NS.Row.pk) ((NS.descendantsGroupCount db p).map (fun e => (e.1.pk, e.2))) := by
  have hn := h.toNI
  unfold NS.descendantsGroupCount
  rw [List.map_map]
  refine groupCount_of (pk := NS.Row.pk) (cnt := fun r => NS.descendantCount db r none) ?_ ?_
  · rw [NS.forest_eq hn]
    cases p with
    | none => exact NS.rootNodes_PF hn
    | some q => exact NS.children_PF hn (hp q rfl)
  · intro r hr
    have hr : r ∈ db.rows := by
      cases p with
      | none => exact ((NS.rootNodes_par hn).1 hr).1
      | some q => exact ((NS.mem_children hn (hp q rfl)).1 hr).1
    obtain ⟨l, _, _, h1, h2, h3⟩ := (NS.C25_nav h hr).descendants
    exact ⟨l, h2, h1, Except.ok.inj h3⟩

example : NS.Consistent NS.exDB ∧ (NS.descendantsGroupCount NS.exDB none).map (fun e => (e.1.pk, e.2)) = [(1, ((6 : Int) : Rat) / 2), (5, ((0 : Int) : Rat) / 2)] :=
  ⟨NS.exDB_inv, rfl⟩

theorem AL.collect_counts {F : Forest} {f : AL.Row → Except Err Int} : ∀ (nodes : List AL.Row),
    (∀ r ∈ nodes, ∃ n l, f r = .ok n ∧ l.Nodup ∧ (∀ y, y ∈ l ↔ F.Desc r.pk y) ∧ (n : Rat) = (l : List Nat).length) →
    ∃ L : List (AL.Row × Int), AL.collect (fun r => (f r).map (fun n => [(r, n)])) nodes = .ok L ∧ L.map (fun e => e.1) = nodes ∧
      ∀ e ∈ L, ∃ l : List Nat, l.Nodup ∧ (∀ y, y ∈ l ↔ F.Desc e.1.pk y) ∧ (e.2 : Rat) = l.length
  | [], _ => ⟨[], rfl, rfl, by simp⟩
  | r :: nodes, h => by
    obtain ⟨n, l, e, h1, h2, h3⟩ := h r (by simp)
    obtain ⟨L, eL, hm, hL⟩ := AL.collect_counts nodes (fun r hr => h r (List.mem_cons_of_mem _ hr))
    refine ⟨(r, n) :: L, ?_, by simp [hm], ?_⟩
    · unfold AL.collect
      rw [e, eL]
      rfl
    · intro e he
      rcases List.mem_cons.1 he with rfl | he
      · exact ⟨l, h1, h2, h3⟩
      · exact hL e he

/-- **C51 for AL.** -/
theorem AL.C51_al {cfg : AL.Cfg} {db : AL.DB} (h : AL.Wf cfg db) {p : Option AL.Row} (hp : ∀ q, p = some q → q ∈ db.rows) :
    ∃ L, AL.descendantsGroupCount cfg db p = .ok L ∧
      GroupCount (AL.forest cfg db) (p.map AL.Row.pk) (L.map (fun e => (e.1.pk, (e.2 : Rat)))) := by
  have hfe := AL.forest_eq (cfg := cfg) h.ai
  obtain ⟨L, e, hm, hL⟩ := AL.collect_counts (F := AL.forest cfg db) (f := fun r => AL.descendantCount cfg db r none none)
    (match (generalizing := false) p with | none => AL.rootNodes cfg db | some p => AL.children cfg db p) (by
      intro r hr
      have hr : r ∈ db.rows := by
        cases p with
        | none => exact (AL.mem_withParent.1 (AL.mem_order.1 hr)).1
        | some q => exact (AL.mem_children.1 hr).1
      obtain ⟨_, _, hnav⟩ := AL.C32_nav_partial h hr
      obtain ⟨l, _, _, h1, h2, h3⟩ := hnav.descendants
      simp only [AL.alNav] at h3
      cases e : AL.descendantCount cfg db r none none with
      | error e' => rw [e] at h3; simp [Except.map] at h3
      | ok n =>
        rw [e] at h3
        exact ⟨n, l, rfl, h2, h1, Except.ok.inj h3⟩)
  refine ⟨L, by cases p <;> exact e, ?_, ?_⟩
  · rw [List.map_map, hfe]
    have : L.map (fun e => e.1.pk) = (L.map (fun e => e.1)).map AL.Row.pk := by rw [List.map_map]; rfl
    refine Eq.trans this ?_
    rw [hm]
    cases p with
    | none => rfl
    | some q => rfl
  · intro e he
    obtain ⟨r, hr, rfl⟩ := List.mem_map.1 he
    exact hL r hr

example : AL.Wf AL.exPlain AL.exDB ∧ (AL.descendantsGroupCount AL.exPlain AL.exDB none).map (List.map (fun e => (e.1.pk, e.2))) = .ok [(1, 3), (5, 0)] :=
  ⟨AL.wf_of_ai AL.exDB_inv.toAI, rfl⟩

end Verif
