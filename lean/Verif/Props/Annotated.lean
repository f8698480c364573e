/-
C40: the annotated list is a well-formed nesting.
-/
import Verif.AnnotatedModel
import Verif.Props.MPQuery
import Verif.Props.NSQuery
import Verif.Props.ALQuery
import Verif.Props.LTQuery
import Verif.LT.History

namespace Verif

/-- the argument `max_depth` of a limit -/
def maxDepthArg (m : Option Nat) : Option Int := m.map Int.ofNat

/-- an annotated list with the keys of its nodes -/
def keyed {ρ : Type} (pk : ρ → Nat) (A : List (ρ × Info)) : List (Nat × Bool × List Nat × Int) :=
  A.map (fun e => (pk e.1, e.2.opens, e.2.close, e.2.level))

theorem keyed_annotate {ρ : Type} (pk : ρ → Nat) (depth : ρ → Int) (l : List ρ) :
    keyed pk (annotate (l.map (fun r => (r, depth r)))) = shown (annotate (l.map (fun r => (pk r, depth r)))) := by
  have := shown_map pk (l.map (fun r => (r, depth r)))
  rw [List.map_map] at this
  exact this

theorem limited_some {m : Nat} (h : m ≠ 0) : limited (maxDepthArg (some m)) = true := by
  simp [limited, maxDepthArg, h]

/-- **C40 for MP.** On every consistent tree the annotated list, of the whole tree or of a branch, without or with `max_depth`, has the
nodes in depth-first order with their levels relative to the first node, and the documented template prints from it exactly the nested
lists of the forest (with `max_depth`: of the forest without the nodes below that depth). -/
theorem C40_mp {cfg : MP.Cfg} {db : MP.DB} (hok : cfg.Ok) (h : MP.Consistent cfg db) {p : Option MP.Row} (hp : ∀ q, p = some q → q ∈ db.rows)
    (m : Option Nat) (hm : m ≠ some 0) :
    AnnotatesTree (MP.forest cfg db) (p.map MP.Row.pk) m (keyed MP.Row.pk (MP.annotatedList db p (maxDepthArg m))) := by
  have hl := C11_mp hok h hp none
  have hi := (MP.consistent_iff hok).1 h
  have key := annotates_tree (fun a b k => parent_unique hok h (p := a) (q := b) (k := k))
    (l := (MP.getTree db p none).map (fun r => (r.pk, (r.depth : Int)))) (p := p.map MP.Row.pk)
    (by rw [List.map_map]; exact hl) (by
      intro e he
      obtain ⟨r, hr, rfl⟩ := List.mem_map.1 he
      refine ⟨r.depth, rfl, ?_⟩
      rw [MP.forest_eq hi hok]
      exact MP.level_exists hi.toPInv hok (getTree_sub r hr)) m
  cases m with
  | none =>
    simp only at key
    rw [← keyed_annotate MP.Row.pk (fun r => (r.depth : Int))] at key
    exact key
  | some m =>
    simp only at key
    rw [List.filter_map, ← keyed_annotate MP.Row.pk (fun r => (r.depth : Int))] at key
    unfold MP.annotatedList
    simp only
    rw [limited_some (fun e => hm (by rw [e])), if_pos rfl]
    exact key

example : MP.Consistent MP.exCfg MP.exDB ∧
    keyed MP.Row.pk (MP.annotatedList MP.exDB none none) =
      [(1, true, [], 0), (2, true, [], 1), (3, false, [], 1), (4, true, [0, 1], 2), (5, false, [0], 0)] ∧
    template (keyed MP.Row.pk (MP.annotatedList MP.exDB none none)) =
      [.ul, .li, .item 1, .ul, .li, .item 2, .liEnd, .li, .item 3, .ul, .li, .item 4, .liEnd, .ulEnd, .liEnd, .ulEnd, .liEnd,
        .li, .item 5, .liEnd, .ulEnd] ∧
    keyed MP.Row.pk (MP.annotatedList MP.exDB none (some 2)) = [(1, true, [], 0), (2, true, [], 1), (3, false, [0], 1), (5, false, [0], 0)] ∧
    keyed MP.Row.pk (MP.annotatedList MP.exDB (some ⟨3, [49, 51], 2, 1, []⟩) none) = [(3, true, [], 0), (4, true, [0, 1], 1)] :=
  ⟨MP.exDB_consistent, by decide, by decide, by decide, by decide⟩

/-- **C40 for NS.** -/
theorem NS.C40_ns {db : NS.DB} (h : NS.Consistent db) {p : Option NS.Row} (hp : ∀ q, p = some q → q ∈ db.rows) (m : Option Nat)
    (hm : m ≠ some 0) :
    AnnotatesTree (NS.forest db) (p.map NS.Row.pk) m (keyed NS.Row.pk (NS.annotatedList db p (maxDepthArg m))) := by
  have hl := NS.C11_ns h hp none (by simp)
  have key := annotates_tree (fun a b k => NS.parent_unique h (p := a) (q := b) (k := k))
    (l := (NS.getTree db p none).map (fun r => (r.pk, r.depth))) (p := p.map NS.Row.pk)
    (by rw [List.map_map]; exact hl) (by
      intro e he
      obtain ⟨r, hr, rfl⟩ := List.mem_map.1 he
      rw [NS.forest_eq h.toNI]
      exact NS.level_depth h.toNI (NS.getTree_sub r hr)) m
  cases m with
  | none =>
    simp only at key
    rw [← keyed_annotate NS.Row.pk NS.Row.depth] at key
    exact key
  | some m =>
    simp only at key
    rw [List.filter_map, ← keyed_annotate NS.Row.pk NS.Row.depth] at key
    unfold NS.annotatedList
    simp only
    rw [limited_some (fun e => hm (by rw [e])), if_pos rfl]
    exact key

example : NS.Consistent NS.exDB ∧ keyed NS.Row.pk (NS.annotatedList NS.exDB none none) =
      [(1, true, [], 0), (2, true, [], 1), (3, false, [], 1), (4, true, [0, 1], 2), (5, false, [0], 0)] ∧
    keyed NS.Row.pk (NS.annotatedList NS.exDB none (some 1)) = [(1, true, [], 0), (5, false, [0], 0)] :=
  ⟨NS.exDB_inv, by decide, by decide⟩

/-- **C40 for LT**, without `max_depth`. -/
theorem LT.C40_lt {db : LT.DB} (h : LT.Consistent db) {p : Option LT.Row} (hp : ∀ q, p = some q → q ∈ db.rows) :
    ∃ A, LT.annotatedList db p none = .ok A ∧ AnnotatesTree (LT.forest db) (p.map LT.Row.pk) none (keyed LT.Row.pk A) := by
  have hl := LT.C11_lt h hp none (by simp)
  have key := annotates_tree (fun a b k => LT.parent_unique h (p := a) (q := b) (k := k))
    (l := (LT.getTree db p none).map (fun r => (r.pk, (r.depth : Int)))) (p := p.map LT.Row.pk)
    (by rw [List.map_map]; exact hl) (by
      intro e he
      obtain ⟨r, hr, rfl⟩ := List.mem_map.1 he
      refine ⟨r.depth, rfl, ?_⟩
      rw [LT.forest_eq h.inv.inv]
      exact LT.level_exists h.inv.inv (LT.getTree_sub r hr)) none
  simp only at key
  rw [← keyed_annotate LT.Row.pk (fun r => (r.depth : Int))] at key
  exact ⟨_, rfl, key⟩

example : LT.Consistent LT.exDB ∧ (LT.annotatedList LT.exDB none none).map (keyed LT.Row.pk) =
      .ok [(1, true, [], 0), (2, true, [], 1), (3, false, [], 1), (4, true, [0, 1], 2), (5, false, [0], 0)] :=
  ⟨LT.consistent_iff.2 LT.exDB_inv, rfl⟩

/-- LT: `get_annotated_list` with `max_depth` always raises, although it is documented. -/
theorem LT.C40_lt_max_depth_raises (db : LT.DB) (p : Option LT.Row) {m : Int} (hm : m ≠ 0) :
    LT.annotatedList db p (some m) = .error .fieldError := by
  simp [LT.annotatedList, limited, hm]

/-- **C40 for AL**, without `max_depth`. -/
theorem AL.C40_al {cfg : AL.Cfg} {db : AL.DB} (h : AL.Wf cfg db) {p : Option AL.Row} (hp : ∀ q, p = some q → q ∈ db.rows) :
    ∃ A, AL.annotatedList cfg db (p.map (fun q => (q, none))) none = .ok A ∧
      AnnotatesTree (AL.forest cfg db) (p.map AL.Row.pk) none (keyed AL.Row.pk A) := by
  obtain ⟨L, e, hl, hlev⟩ := AL.C11_al h hp none (by simp)
  have key := annotates_tree (F := AL.forest cfg db) (fun a b k ha hb => by
      rw [AL.forest_eq h.ai] at ha hb
      exact AL.PF_parent_unique h.ai (k := k) ha hb)
    (l := L.map (fun e => (e.1.pk, e.2))) (p := p.map AL.Row.pk) (by rw [List.map_map]; exact hl) (by
      intro e he
      obtain ⟨r, hr, rfl⟩ := List.mem_map.1 he
      exact hlev r hr) none
  simp only at key
  rw [← shown_map AL.Row.pk L] at key
  refine ⟨annotate L, ?_, key⟩
  unfold AL.annotatedList
  rw [show AL.getTree cfg db (p.map (fun q => (q, none))) none = .ok L from e]
  rfl

example : AL.Wf AL.exPlain AL.exDB ∧ (AL.annotatedList AL.exPlain AL.exDB none none).map (keyed AL.Row.pk) =
      .ok [(1, true, [], 0), (2, true, [], 1), (3, false, [], 1), (4, true, [0, 1], 2), (5, false, [0], 0)] :=
  ⟨AL.wf_of_ai AL.exDB_inv.toAI, rfl⟩

/-- AL: `get_annotated_list` with `max_depth` always raises, although it is documented. -/
theorem AL.C40_al_max_depth_raises {cfg : AL.Cfg} {db : AL.DB} (h : AL.Wf cfg db) {p : Option AL.Row} (hp : ∀ q, p = some q → q ∈ db.rows)
    {m : Int} (hm : m ≠ 0) : AL.annotatedList cfg db (p.map (fun q => (q, none))) (some m) = .error .attributeError := by
  obtain ⟨L, e, _⟩ := AL.C11_al h hp none (by simp)
  unfold AL.annotatedList
  rw [show AL.getTree cfg db (p.map (fun q => (q, none))) none = .ok L from e]
  simp [limited, hm]

end Verif
