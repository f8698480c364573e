/-
AL: `move` as a transaction of single statements, for concurrent clients.
-/
import Verif.AL.Base
import Verif.TxnParts

namespace Verif.AL

open Txn

/-- al_tree.py:268-281: the UPDATE of `_make_hole_and_get_sibling_order`: the positions from `min` on below `parent` go up by one -/
def pushUp (parent : Option Nat) (min : Int) (db : DB) : DB :=
  ⟨db.rows.map (fun r => if r.parent == parent && decide (min ≤ r.sib) then { r with sib := r.sib + 1 } else r)⟩

/-- the UPDATE of the siblings, if there is one -/
def applyHole : Option (Option Nat × Int) → DB → DB
  | none, db => db
  | some (p, m), db => pushUp p m db

/-- al_tree.py:268-279: the query of `_make_hole_and_get_sibling_order`: the UPDATE to do, and the position -/
def holeQuery (db : DB) (pos : Pos) (target : Row) : Except Err (Option (Option Nat × Int) × Int) :=
  let sibs := withParent db target.parent
  let chosen : Except Err (List Row × Int) := match pos with
    | .left => .ok (sibs.filter (fun r => decide (target.sib ≤ r.sib)), target.sib)
    | .right => .ok (sibs.filter (fun r => decide (target.sib < r.sib)), target.sib + 1)
    | .firstSibling => .ok (sibs, 1)
    | _ => .error .keyError
  match chosen with
  | .error e => .error e
  | .ok (sibs, o) => .ok (if minSib sibs == 0 then none else some (target.parent, minSib sibs), o)

theorem makeHole_eq (db : DB) (pos : Pos) (target : Row) :
    makeHole db pos target = (holeQuery db pos target).map (fun r => (applyHole r.1 db, r.2)) := by
  unfold makeHole holeQuery
  cases pos <;> simp only [Except.map] <;> split <;> rfl

/-- al_tree.py:150-151, 283-287: the queries for the position -/
def orderQuery (cfg : Cfg) (db : DB) (node : Row) (g : Goal) : Except Err (Option (Option Nat × Int) × Int) :=
  if g.pos == .sortedSibling then .ok (none, node.sib)
  else match g.sibOrder with
    | some o => .ok (none, o)
    | none =>
      if isLastPos cfg db g.pos g.target then
        match lastSibling cfg db g.target with
        | none => .error .attributeError
        | some l => .ok (none, l.sib + 1)
      else holeQuery db g.pos g.target

theorem goalOrder_eq (cfg : Cfg) (db : DB) (node : Row) (g : Goal) :
    goalOrder cfg db node g = (orderQuery cfg db node g).map (fun r => (applyHole r.1 db, r.2)) := by
  unfold goalOrder orderQuery
  split
  · rfl
  · cases g.sibOrder with
    | some o => rfl
    | none =>
      dsimp only
      unfold newSibOrder
      split
      · cases lastSibling cfg db g.target <;> rfl
      · exact makeHole_eq db g.pos g.target

/-- what `save()` writes -/
def saved (row : Row) (db : DB) : DB :=
  ⟨if db.rows.any (·.pk == row.pk) then db.rows.map (fun r => if r.pk == row.pk then row else r) else db.rows ++ [row]⟩

theorem save_eq_saved {db db' : DB} {row : Row} (e : save db row = .ok db') : db' = saved row db := by
  unfold save at e
  unfold saved
  dsimp only at e
  generalize (if db.rows.any (·.pk == row.pk) then db.rows.map (fun r => if r.pk == row.pk then row else r) else db.rows ++ [row]) = rows at e ⊢
  split at e
  · cases e; rfl
  · split at e
    · cases e; rfl
    · cases e

/-- The variables of a call of `move`. -/
inductive MoveVars where
  | start
  /-- the position and the target are prepared -/
  | goal (g : Goal)
  /-- the move is not refused -/
  | checked (g : Goal)
  /-- the new parent is fetched -/
  | parented (g : Goal) (parent : Option Row)
  /-- the position is known, and the UPDATE that makes room for it -/
  | placed (parent : Option Row) (sib : Int) (hole : Option (Option Nat × Int))
  /-- there is room -/
  | ready (parent : Option Row) (sib : Int)
  /-- the call is over: the caller's object, and whether it was moved -/
  | over (node : Row) (moved : Bool)

/-- al_tree.py:115-136 -/
def stGoal (cfg : Cfg) (node target : Row) (pos : Option Pos) : Stmt DB MoveVars := fun db l =>
  match l with
  | .start => match preparePosForMove cfg.ordered pos with
    | .error e => .error e
    | .ok pos => match moveGoal cfg db node target pos with
      | .error e => .error e
      | .ok g => .ok (id, .goal g)
  | l => .ok (id, l)

/-- al_tree.py:138-147 -/
def stCheck (cfg : Cfg) (node : Row) (cached : Option Int) : Stmt DB MoveVars := fun db l =>
  match l with
  | .goal g => match isDescendantOf cfg db g.target node cached with
    | .error e => .error e
    | .ok true => .error .invalidMoveToDescendant
    | .ok false => if noMove cfg db node g.target g.pos then .ok (id, .over node false) else .ok (id, .checked g)
  | l => .ok (id, l)

/-- al_tree.py:149 -/
def stParent : Stmt DB MoveVars := fun db l =>
  match l with
  | .checked g => match goalParent db g with
    | .error e => .error e
    | .ok p => .ok (id, .parented g p)
  | l => .ok (id, l)

/-- al_tree.py:150-151: the queries -/
def stOrder (cfg : Cfg) (node : Row) : Stmt DB MoveVars := fun db l =>
  match l with
  | .parented g p => match orderQuery cfg db node g with
    | .error e => .error e
    | .ok (hole, o) => .ok (id, .placed p o hole)
  | l => .ok (id, l)

/-- al_tree.py:151: the UPDATE of the siblings -/
def stHole : Stmt DB MoveVars := fun _ l =>
  match l with
  | .placed p o hole => .ok (applyHole hole, .ready p o)
  | l => .ok (id, l)

/-- al_tree.py:153 -/
def stSave (node : Row) : Stmt DB MoveVars := fun db l =>
  match l with
  | .ready p o =>
    let node := { node with parent := p.map Row.pk, sib := o }
    match save db node with
    | .error e => .error e
    | .ok _ => .ok (saved node, .over node true)
  | l => .ok (id, l)

/-- `move` as a client.  It locks nothing: `key` is one nobody else asks for. -/
def moveClient (cfg : Cfg) (key : Nat) (node target : Row) (cached : Option Int) (pos : Option Pos) : Client DB MoveVars where
  key := key
  start := .start
  body := [stGoal cfg node target pos, stCheck cfg node cached, stParent, stOrder cfg node, stHole, stSave node]
  check := fun _ => none

/-- the caller's object at the end -/
def MoveVars.node? : MoveVars → Option Row
  | .over n _ => some n
  | _ => none

/-- Alone, the client is `move`. -/
theorem moveClient_alone (cfg : Cfg) (key : Nat) (db : DB) (node target : Row) (cached : Option Int) (pos : Option Pos) :
    ((moveClient cfg key node target cached pos).alone db).map (fun r => (r.1, r.2.node?)) =
      (move cfg db node target cached pos).map (fun r => (r.1, some r.2)) := by
  unfold Client.alone moveClient
  simp only [Txn.exec, stGoal]
  unfold move
  cases hp : preparePosForMove cfg.ordered pos with
  | error e => rfl
  | ok pos0 =>
    dsimp only
    cases hg : moveGoal cfg db node target pos0 with
    | error e => rfl
    | ok g =>
      dsimp only [id, stCheck]
      cases hd : isDescendantOf cfg db g.target node cached with
      | error e => rfl
      | ok b =>
        cases b with
        | true => rfl
        | false =>
          dsimp only
          by_cases hn : noMove cfg db node g.target g.pos = true
          · rw [if_pos hn, if_pos hn]; rfl
          · rw [if_neg hn, if_neg hn]
            dsimp only [id, stParent]
            unfold moveTo
            cases hq : goalParent db g with
            | error e => rfl
            | ok p =>
              dsimp only [id, stOrder]
              rw [goalOrder_eq]
              cases ho : orderQuery cfg db node g with
              | error e => rfl
              | ok r =>
                obtain ⟨hole, o⟩ := r
                simp only [Except.map, id, stHole, stSave]
                cases hs : save (applyHole hole db) { node with parent := p.map Row.pk, sib := o } with
                | error e => rfl
                | ok db' =>
                  have := save_eq_saved hs
                  subst this
                  rfl

/-! ### What the client writes -/

/-- the new parent that a call asks for -/
def destOf (ordered : Bool) (target : Row) (pos : Option Pos) : Option Nat :=
  match preparePosForMove ordered pos with
  | .error _ => none
  | .ok p => if isChildPos p then some target.pk else target.parent

/-- The changes of a client: the table keeps its rows and their data; the parent changes for the moved node only, and only if `moved`. -/
def Effect (x : Row) (dst : Option Nat) (moved : Bool) (w : DB → DB) : Prop :=
  ∀ db, (∃ r ∈ db.rows, r.pk = x.pk) → ∃ f : Row → Row, (w db).rows = db.rows.map f ∧ ∀ r, (f r).pk = r.pk ∧
    (r.pk ≠ x.pk → (f r).parent = r.parent ∧ (f r).vals = r.vals) ∧
    (r.pk = x.pk → if moved then (f r).parent = dst ∧ (f r).vals = x.vals else (f r).parent = r.parent ∧ (f r).vals = r.vals)

theorem effect_id (x : Row) (dst : Option Nat) : Effect x dst false id :=
  fun db _ => ⟨id, by simp, fun r => ⟨rfl, fun _ => ⟨rfl, rfl⟩, fun _ => by simp⟩⟩

theorem Effect.hole {x : Row} {dst : Option Nat} {w : DB → DB} (h : Effect x dst false w) (o : Option (Option Nat × Int)) :
    Effect x dst false (applyHole o ∘ w) := by
  cases o with
  | none => exact h
  | some pm =>
    intro db hx
    obtain ⟨f, h1, h2⟩ := h db hx
    refine ⟨fun r => if (f r).parent == pm.1 && decide (pm.2 ≤ (f r).sib) then { f r with sib := (f r).sib + 1 } else f r, ?_, fun r => ?_⟩
    · simp only [Function.comp, applyHole, pushUp, h1, List.map_map]
      rfl
    · have := h2 r
      dsimp only
      split <;> exact this

theorem Effect.save {x : Row} {dst : Option Nat} {w : DB → DB} (h : Effect x dst false w) {node : Row} (hk : node.pk = x.pk)
    (hp : node.parent = dst) (hv : node.vals = x.vals) : Effect x dst true (saved node ∘ w) := by
  intro db hx
  obtain ⟨f, h1, h2⟩ := h db hx
  refine ⟨fun r => if (f r).pk == node.pk then node else f r, ?_, fun r => ?_⟩
  · obtain ⟨r, hr, e⟩ := hx
    simp only [Function.comp, saved, h1]
    rw [if_pos, List.map_map]
    · rfl
    · rw [List.any_eq_true]
      exact ⟨f r, List.mem_map_of_mem hr, by simp [(h2 r).1, e, hk]⟩
  · obtain ⟨h3, h4, -⟩ := h2 r
    dsimp only
    by_cases e : r.pk = x.pk
    · rw [if_pos (by simp [h3, hk, e])]
      exact ⟨by rw [hk, e], fun h => absurd e h, fun _ => by rw [if_pos rfl]; exact ⟨hp, hv⟩⟩
    · rw [if_neg (by simp [h3, hk, e])]
      exact ⟨h3, h4, fun h => absurd h e⟩

/-- where the call goes -/
def GoalTo (dst : Option Nat) (g : Goal) : Prop := (match g.parent with | some p => some p.pk | none => g.target.parent) = dst

theorem child_row {cfg : Cfg} {db : DB} {node r : Row} (h : r ∈ children cfg db node) : r ∈ db.rows ∧ r.parent = some node.pk := by
  unfold children at h
  have := mem_order.1 h
  unfold withParent at this
  simpa using List.mem_filter.1 this

theorem goalTo {cfg : Cfg} {db : DB} {node target : Row} {posArg : Option Pos} {pos : Pos} (hp : preparePosForMove cfg.ordered posArg = .ok pos)
    {g : Goal} (e : moveGoal cfg db node target pos = .ok g) :
    GoalTo (destOf cfg.ordered target posArg) g ∧ (g.target = target ∨ (g.target ∈ db.rows ∧ g.target.parent = some target.pk)) ∧
    (g.target.pk = node.pk → g.target.parent = destOf cfg.ordered target posArg) := by
  unfold destOf
  rw [hp]
  dsimp only
  unfold moveGoal at e
  split at e
  · rename_i hc
    rw [if_pos hc]
    split at e
    · cases e
    · rename_i hne
      split at e
      · split at e
        · cases e
        · rename_i t ht
          cases e
          have := child_row (List.mem_of_getLast? ht)
          exact ⟨this.2, Or.inr this, fun _ => this.2⟩
      · have hne' : target.pk ≠ node.pk := fun e => hne (by simp [e])
        split at e <;> cases e <;> exact ⟨rfl, Or.inl rfl, fun h => absurd h hne'⟩
  · rename_i hc
    rw [if_neg hc]
    cases e
    exact ⟨rfl, Or.inl rfl, fun _ => rfl⟩

/-- Where a client is: the number of statements to come, the variables, the changes.  `stays` is what makes a move change nothing. -/
def Prog (x : Row) (dst : Option Nat) (stays : Prop) (n : Nat) (l : MoveVars) (w : DB → DB) : Prop :=
  match l with
  | .start => n = 6 ∧ Effect x dst false w
  | .goal g => n = 5 ∧ GoalTo dst g ∧ (g.target.pk = x.pk → stays) ∧ Effect x dst false w
  | .checked g => n = 4 ∧ GoalTo dst g ∧ Effect x dst false w
  | .parented _ p => n = 3 ∧ p.map Row.pk = dst ∧ Effect x dst false w
  | .placed p _ _ => n = 2 ∧ p.map Row.pk = dst ∧ Effect x dst false w
  | .ready p _ => n = 1 ∧ p.map Row.pk = dst ∧ Effect x dst false w
  | .over _ m => n ≤ 4 ∧ Effect x dst m w ∧ (m = false → stays)

/-- the statements to come are the end of the body -/
def Progress (cfg : Cfg) (key : Nat) (x t : Row) (cached : Option Int) (pos : Option Pos) (stays : Prop) (rest : List (Stmt DB MoveVars)) (l : MoveVars)
    (w : DB → DB) : Prop :=
  rest <:+ (moveClient cfg key x t cached pos).body ∧ Prog x (destOf cfg.ordered t pos) stays rest.length l w ∧
    (rest.length ≠ 6 → ∃ p, preparePosForMove cfg.ordered pos = .ok p)

theorem progress_start (cfg : Cfg) (key : Nat) (x t : Row) (cached : Option Int) (pos : Option Pos) (stays : Prop) :
    Progress cfg key x t cached pos stays (moveClient cfg key x t cached pos).body .start id :=
  ⟨List.suffix_refl _, ⟨rfl, effect_id _ _⟩, fun h => absurd rfl h⟩

theorem goalParent_key {db : DB} {g : Goal} {p : Option Row} {dst : Option Nat} (h : GoalTo dst g) (e : goalParent db g = .ok p) : p.map Row.pk = dst := by
  unfold goalParent at e
  unfold GoalTo at h
  cases hg : g.parent with
  | some q => rw [hg] at e h; cases e; exact h
  | none =>
    rw [hg] at e h
    dsimp only at e h
    unfold getParent at e
    split at e
    · rename_i hn; cases e; rw [← h, hn]; rfl
    · rename_i k hk
      split at e
      · cases e
      · rename_i r hr
        cases e
        have : r.pk = k := by simpa using List.find?_some hr
        rw [← h, hk, ← this]; rfl

/-- Every statement goes on as planned. -/
theorem progress_step {cfg : Cfg} {key : Nat} {x t : Row} {cached : Option Int} {pos : Option Pos} {stays : Prop} {st : Stmt DB MoveVars}
    {rest : List (Stmt DB MoveVars)} {l l' : MoveVars} {w u : DB → DB} {db : DB}
    (hstay : ∀ r, (r = t ∨ r ∈ (w db).rows) → r.pk = x.pk → r.parent = destOf cfg.ordered t pos → Effect x (destOf cfg.ordered t pos) false w → stays)
    (h : Progress cfg key x t cached pos stays (st :: rest) l w) (e : st (w db) l = .ok (u, l')) : Progress cfg key x t cached pos stays rest l' (u ∘ w) := by
  obtain ⟨h1, h2, h3⟩ := h
  refine ⟨(List.suffix_cons _ _).trans h1, ?_⟩
  suffices hgoal : Prog x (destOf cfg.ordered t pos) stays rest.length l' (u ∘ w) ∧ ((st :: rest).length = 6 → ∃ p, preparePosForMove cfg.ordered pos = .ok p) from
    ⟨hgoal.1, fun _ => by
      by_cases e6 : (st :: rest).length = 6
      · exact hgoal.2 e6
      · exact h3 e6⟩
  have hn : (st, rest) ∈ [(stGoal cfg x t pos, [stCheck cfg x cached, stParent, stOrder cfg x, stHole, stSave x]),
      (stCheck cfg x cached, [stParent, stOrder cfg x, stHole, stSave x]), (stParent, [stOrder cfg x, stHole, stSave x]),
      (stOrder cfg x, [stHole, stSave x]), (stHole, [stSave x]), (stSave x, [])] := by
    simp only [moveClient, List.suffix_cons_iff, List.suffix_nil, List.cons.injEq, reduceCtorEq, or_false] at h1
    simpa using h1
  simp only [List.mem_cons, List.not_mem_nil, or_false, Prod.mk.injEq] at hn
  have hover : ∀ {n m}, l = .over n m → st (w db) l = .ok (id, l) → Prog x (destOf cfg.ordered t pos) stays rest.length l' (u ∘ w) ∧
      ((st :: rest).length = 6 → ∃ p, preparePosForMove cfg.ordered pos = .ok p) := by
    rintro n m rfl e'
    rw [e'] at e
    cases e
    have h4 := h2.1
    exact ⟨⟨by simp at h4; omega, h2.2⟩, fun h6 => by omega⟩
  rcases hn with ⟨rfl, rfl⟩ | ⟨rfl, rfl⟩ | ⟨rfl, rfl⟩ | ⟨rfl, rfl⟩ | ⟨rfl, rfl⟩ | ⟨rfl, rfl⟩
  · cases l with
    | start =>
      unfold stGoal at e
      dsimp only at e
      split at e
      · cases e
      · rename_i p hp
        split at e
        · cases e
        · rename_i g hg
          cases e
          obtain ⟨g1, g2, g3⟩ := goalTo hp hg
          exact ⟨⟨rfl, g1, fun hk => hstay _ (g2.imp id (·.1)) hk (g3 hk) h2.2, h2.2⟩, fun _ => ⟨p, hp⟩⟩
    | over n m => exact hover rfl rfl
    | _ => exact absurd h2.1 (by simp)
  · cases l with
    | goal g =>
      unfold stCheck at e
      dsimp only at e
      split at e
      · cases e
      · cases e
      · split at e
        · rename_i hno
          cases e
          refine ⟨⟨by simp, h2.2.2.2, fun _ => h2.2.2.1 ?_⟩, by simp⟩
          unfold noMove at hno
          simp only [Bool.and_eq_true, beq_iff_eq] at hno
          exact hno.1.symm
        · cases e
          exact ⟨⟨rfl, h2.2.1, h2.2.2.2⟩, by simp⟩
    | over n m => exact hover rfl rfl
    | _ => exact absurd h2.1 (by simp)
  · cases l with
    | checked g =>
      unfold stParent at e
      dsimp only at e
      split at e
      · cases e
      · rename_i p hp
        cases e
        exact ⟨⟨rfl, goalParent_key h2.2.1 hp, h2.2.2⟩, by simp⟩
    | over n m => exact hover rfl rfl
    | _ => exact absurd h2.1 (by simp)
  · cases l with
    | parented g p =>
      unfold stOrder at e
      dsimp only at e
      split at e
      · cases e
      · cases e
        exact ⟨⟨rfl, h2.2⟩, by simp⟩
    | over n m => exact hover rfl rfl
    | _ => exact absurd h2.1 (by simp)
  · cases l with
    | placed p o hole =>
      cases e
      exact ⟨⟨rfl, h2.2.1, h2.2.2.hole _⟩, by simp⟩
    | over n m => exact hover rfl rfl
    | _ => exact absurd h2.1 (by simp)
  · cases l with
    | ready p o =>
      unfold stSave at e
      dsimp only at e
      split at e
      · cases e
      · cases e
        exact ⟨⟨by simp, h2.2.2.save rfl h2.2.1 rfl, nofun⟩, by simp⟩
    | over n m => exact hover rfl rfl
    | _ => exact absurd h2.1 (by simp)

/-- at the end -/
theorem progress_end {cfg : Cfg} {key : Nat} {x t : Row} {cached : Option Int} {pos : Option Pos} {stays : Prop} {l : MoveVars} {w : DB → DB}
    (h : Progress cfg key x t cached pos stays [] l w) : ∃ m, Effect x (destOf cfg.ordered t pos) m w ∧ (m = false → stays) ∧
      ∃ p, preparePosForMove cfg.ordered pos = .ok p := by
  have h2 := h.2.1
  cases l with
  | over n m => exact ⟨m, h2.2.1, h2.2.2, h.2.2 (by simp)⟩
  | _ => exact absurd h2.1 (by simp)

/-- Nodes moved to places outside all the branches that are moved: there is no cycle. -/
theorem ai_moved {rows : List Row} (h : AI rows) {f : Row → Row} (hk : ∀ r ∈ rows, (f r).pk = r.pk) {X : Nat → Prop} {D : Option Nat → Prop}
    (hf : ∀ r ∈ rows, (f r).parent = r.parent ∨ (X r.pk ∧ D (f r).parent))
    (hex : ∀ p, D (some p) → ∃ q ∈ rows, q.pk = p) (hout : ∀ k p, X k → D (some p) → p ≠ k ∧ ¬ (PF cfg rows).Desc k p) : AI (rows.map f) := by
  classical
  obtain ⟨rank, hrank⟩ := h.rank
  let inside : Nat → Prop := fun k => ∃ a, X a ∧ (k = a ∨ (PF cfg rows).Desc a k)
  obtain ⟨M, hM⟩ : ∃ M, ∀ r ∈ rows, rank r.pk ≤ M := by
    clear hf hex hout hrank inside h hk
    induction rows with
    | nil => exact ⟨0, by simp⟩
    | cons r l ih =>
      obtain ⟨M, hM⟩ := ih
      refine ⟨M + rank r.pk, fun q hq => ?_⟩
      rcases List.mem_cons.1 hq with rfl | hq
      · omega
      · have := hM q hq; omega
  refine ⟨?_, ?_, fun k => if inside k then M + 1 + rank k else rank k, ?_⟩
  · rw [List.map_map, List.map_congr_left (f := Row.pk ∘ f) (g := Row.pk) hk]
    exact h.pks
  · intro r' hr' p hp
    obtain ⟨r, hr, rfl⟩ := List.mem_map.1 hr'
    have : ∃ q ∈ rows, q.pk = p := by
      rcases hf r hr with e | ⟨-, e⟩
      · exact h.exist r hr p (by rw [← e, hp])
      · exact hex p (by rw [← hp]; exact e)
    obtain ⟨q, hq, e⟩ := this
    exact ⟨f q, List.mem_map_of_mem hq, by rw [hk q hq, e]⟩
  · intro r' hr' p hp
    obtain ⟨r, hr, rfl⟩ := List.mem_map.1 hr'
    rw [hk r hr]
    dsimp only
    rcases hf r hr with e | ⟨hx, e⟩
    · have hpar : r.parent = some p := by rw [← e, hp]
      have h1 := hrank r hr p hpar
      have hin : inside p → inside r.pk := by
        have hm : r.pk ∈ PF cfg rows (some p) := List.mem_map.2 ⟨r, mem_order.2 (List.mem_filter.2 ⟨hr, by simp [hpar]⟩), rfl⟩
        rintro ⟨a, ha, rfl | hd⟩
        · exact ⟨_, ha, Or.inr (.child hm)⟩
        · exact ⟨a, ha, Or.inr (.step hd hm)⟩
      by_cases h2 : inside p
      · rw [if_pos h2, if_pos (hin h2)]; omega
      · rw [if_neg h2]
        split <;> omega
    · rw [hp] at e
      have h2 : ¬ inside p := by
        rintro ⟨a, ha, e'⟩
        have := hout a p ha e
        exact e'.elim this.1 this.2
      obtain ⟨q, hq, e'⟩ := hex p e
      rw [if_neg h2, if_pos ⟨r.pk, hx, Or.inl rfl⟩]
      have := hM q hq
      rw [e'] at this
      omega

end Verif.AL
