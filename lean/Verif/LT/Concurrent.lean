/-
LT: `move` as the statements of a transaction (ltree/__init__.py:266-334, 404-475), and what they read and write of the trees.

`move` locks nothing.  The queries for the new place are one statement here; between this statement, the query for the labels in use, the two
UPDATEs that shift siblings, the UPDATE of the descendants and the `save` other clients may commit.
-/
import Verif.LT.Move
import Verif.RowParts
import Verif.Sorted

namespace Verif.LT

open Txn

/-! ### The statements -/

/-- The variables of a call of `move`. -/
inductive CallVars where
  | start
  /-- about to look for a label between `before` and `after` below `pre` -/
  | seek (pre : Path) (before after : Option Row) (moved : Bool)
  /-- there is none: `b` and the siblings after it are to be shifted -/
  | blocked (pre : Path) (b : Row) (after : Option Row)
  | found (p : Path) (moved : Bool)
  /-- the node as known, and its new path -/
  | ready (node : Row) (p : Path)
  /-- the call is over: the caller's object -/
  | over (node : Row)

/-- ltree/__init__.py:272-309: the queries for the new place -/
def planMove (cfg : Cfg) (db : DB) (node target : Row) (pos : Option Pos) : Except Err CallVars :=
  match preparePosForMove cfg.ordered pos with
  | .error e => .error e
  | .ok pos =>
    if isChildPos pos = true ∧ target.pk = node.pk then .error .invalidMoveToDescendant
    else if target.isDescendantOf node then .error .invalidMoveToDescendant
    else .ok (.seek (moveNeighbours cfg db node target pos).2 (moveNeighbours cfg db node target pos).1.1 (moveNeighbours cfg db node target pos).1.2 false)

/-- the queries as one statement -/
def stPlan (cfg : Cfg) (node target : Row) (pos : Option Pos) : Stmt DB CallVars := fun db l =>
  match l with
  | .start =>
    match planMove cfg db node target pos with
    | .error e => .error e
    | .ok l => .ok (id, l)
  | l => .ok (id, l)

/-- ltree/__init__.py:404-420: the query for the labels in use, and the new path -/
def stTry : Stmt DB CallVars := fun db l =>
  match l with
  | .seek pre before after moved =>
    if badOrder (labelOf before) (labelOf after) then .error .valueError
    else
      match generatePath pre (labelOf before) (labelOf after) ((below db pre (pre.length + 1)).map Row.path) with
      | .ok p => .ok (id, .found p moved)
      | .error .invalidLabelConstraints =>
        match before with
        | none => .error .attributeError
        | some b => .ok (id, .blocked pre b after)
      | .error e => .error e
  | l => .ok (id, l)

/-- ltree/__init__.py:442-450, 463-465: the first UPDATE of `_move_subtree_right` -/
def stTop : Stmt DB CallVars := fun _ l =>
  match l with
  | .blocked _ b _ => .ok (fun db => { db with rows := shiftTop b.path db.rows }, l)
  | l => .ok (id, l)

/-- ltree/__init__.py:451-475: the second UPDATE, and the signal -/
def stDeep : Stmt DB CallVars := fun _ l =>
  match l with
  | .blocked _ b _ => .ok (fun db => { rows := shiftDeep b.path db.rows, sigs := db.sigs ++ [.movedRight b.path] }, l)
  | l => .ok (id, l)

/-- ltree/__init__.py:423-432: `insert_before.refresh_from_db()`, and again, or the exception when this was the last time -/
def stFetch (last : Bool) : Stmt DB CallVars := fun db l =>
  match l with
  | .blocked pre b after =>
    match db.get? b.pk with
    | none => .error .doesNotExist
    | some b' => if last then .error .pathOverflow else .ok (id, .seek pre (some b') after true)
  | l => .ok (id, l)

/-- the tries of `_get_new_path` -/
def tries : Nat → List (Stmt DB CallVars)
  | 0 => [stTry, stTop, stDeep, stFetch true]
  | n + 1 => stTry :: stTop :: stDeep :: stFetch false :: tries n

/-- ltree/__init__.py:312-313: `node.refresh_from_db()` if nodes were moved -/
def stRefresh (node : Row) : Stmt DB CallVars := fun db l =>
  match l with
  | .found p moved =>
    match refreshed db node moved with
    | .error e => .error e
    | .ok n => .ok (id, .ready n p)
  | l => .ok (id, l)

/-- ltree/__init__.py:317-324: the UPDATE of the descendants -/
def stRewrite : Stmt DB CallVars := fun _ l =>
  match l with
  | .ready n p => .ok (fun db => { db with rows := rewriteBelow n.path p db.rows }, l)
  | l => .ok (id, l)

/-- ltree/__init__.py:326-334: `node.save()` and the signal -/
def stSave : Stmt DB CallVars := fun _ l =>
  match l with
  | .ready n p => .ok (fun db => { save db { n with path := p } with sigs := (save db { n with path := p }).sigs ++ [.moved n.path p] },
      .over { n with path := p })
  | l => .ok (id, l)

/-- the statements after `_get_new_path` -/
def lastStmts (node : Row) : List (Stmt DB CallVars) := [stRefresh node, stRewrite, stSave]

/-- `move` as a client.  It locks nothing: `key` is one nobody else asks for.  The unique constraint is deferred to the commit. -/
def moveClient (cfg : Cfg) (key : Nat) (node target : Row) (pos : Option Pos) : Client DB CallVars where
  key := key
  start := .start
  body := stPlan cfg node target pos :: (tries 2 ++ lastStmts node)
  check := fun db => if uniquePaths db.rows then none else some .integrity

/-! ### Alone, the client is `move` -/

theorem exec_found (tl : List (Stmt DB CallVars)) (db : DB) (p : Path) (moved : Bool) : ∀ n, Txn.exec (tries n ++ tl) db (.found p moved) = Txn.exec tl db (.found p moved)
  | 0 => rfl
  | n + 1 => exec_found tl db p moved n

theorem exec_tries (tl : List (Stmt DB CallVars)) (pre : Path) (after : Option Row) : ∀ (n : Nat) (db : DB) (before : Option Row) (moved : Bool),
    Txn.exec (tries n ++ tl) db (.seek pre before after moved) =
      match getNewPath db pre before after moved n with
      | .error e => .error e
      | .ok (db, p, moved) => Txn.exec tl db (.found p moved) := by
  have key : ∀ (last : Bool) (rest : List (Stmt DB CallVars)) (db : DB) (b : Row),
      Txn.exec (stTop :: stDeep :: stFetch last :: rest) db (.blocked pre b after) =
        match (moveRight db b).get? b.pk with
        | none => .error .doesNotExist
        | some b' => if last then .error .pathOverflow else Txn.exec rest (moveRight db b) (.seek pre (some b') after true) := by
    intro last rest db b
    simp only [Txn.exec, stTop, stDeep, stFetch]
    have e : ({ rows := shiftDeep b.path (shiftTop b.path db.rows), sigs := db.sigs ++ [.movedRight b.path] } : DB) = moveRight db b := rfl
    rw [e]
    cases (moveRight db b).get? b.pk with
    | none => rfl
    | some b' => cases last <;> rfl
  intro n
  induction n with
  | zero =>
    intro db before moved
    unfold getNewPath
    simp only [tries, List.cons_append, List.nil_append]
    rw [Txn.exec]
    simp only [stTry]
    by_cases hb : badOrder (labelOf before) (labelOf after) = true
    · rw [if_pos hb, if_pos hb]
    · rw [if_neg hb, if_neg hb]
      cases hg : generatePath pre (labelOf before) (labelOf after) ((below db pre (pre.length + 1)).map Row.path) with
      | ok p => rfl
      | error e =>
        cases e with
        | invalidLabelConstraints =>
          cases before with
          | none => rfl
          | some b =>
            dsimp only [id]
            rw [key]
            cases (moveRight db b).get? b.pk <;> rfl
        | _ => rfl
  | succ n ih =>
    intro db before moved
    unfold getNewPath
    simp only [tries, List.cons_append]
    rw [Txn.exec]
    simp only [stTry]
    by_cases hb : badOrder (labelOf before) (labelOf after) = true
    · rw [if_pos hb, if_pos hb]
    · rw [if_neg hb, if_neg hb]
      cases hg : generatePath pre (labelOf before) (labelOf after) ((below db pre (pre.length + 1)).map Row.path) with
      | ok p => exact exec_found ..
      | error e =>
        cases e with
        | invalidLabelConstraints =>
          cases before with
          | none => rfl
          | some b =>
            dsimp only [id]
            rw [key]
            cases (moveRight db b).get? b.pk with
            | none => rfl
            | some b' =>
              dsimp only
              rw [if_neg (by simp)]
              exact ih (moveRight db b) (some b') true
        | _ => rfl

/-- Alone, the client is `move`. -/
theorem moveClient_alone (cfg : Cfg) (key : Nat) (db : DB) (node target : Row) (pos : Option Pos) :
    (moveClient cfg key node target pos).alone db = (move cfg db node target pos).map (fun r => (r.1, .over r.2)) := by
  have hfin : ∀ r : Except Err (DB × Row), (moveClient cfg key node target pos).finish (r.map (fun r => (r.1, .over r.2))) =
      (commit r).map (fun r => (r.1, .over r.2)) := by
    intro r
    unfold Client.finish moveClient commit
    cases r with
    | error e => rfl
    | ok r =>
      simp only [Except.map]
      by_cases hu : uniquePaths r.1.rows = true
      · rw [if_pos hu, if_pos hu]
      · rw [if_neg hu, if_neg hu]
  unfold Client.alone move
  rw [← hfin]
  congr 1
  show Txn.exec (stPlan cfg node target pos :: (tries 2 ++ lastStmts node)) db .start = _
  rw [Txn.exec]
  simp only [stPlan]
  unfold planMove
  cases preparePosForMove cfg.ordered pos with
  | error e => rfl
  | ok pos0 =>
    dsimp only
    by_cases h1 : isChildPos pos0 = true ∧ target.pk = node.pk
    · rw [if_pos h1, if_pos h1]; rfl
    · rw [if_neg h1, if_neg h1]
      by_cases h2 : target.isDescendantOf node = true
      · rw [if_pos h2, if_pos h2]; rfl
      · rw [if_neg h2, if_neg h2]
        dsimp only [id]
        rw [exec_tries]
        cases getNewPath db (moveNeighbours cfg db node target pos0).2 (moveNeighbours cfg db node target pos0).1.1
            (moveNeighbours cfg db node target pos0).1.2 false 2 with
        | error e => rfl
        | ok r =>
          obtain ⟨db', p, moved⟩ := r
          dsimp only
          simp only [lastStmts, Txn.exec, stRefresh]
          cases refreshed db' node moved with
          | error e => rfl
          | ok n => rfl

/-! ### The rows of one tree -/

/-- the row is in the tree whose root has the path `R` -/
def inTree (R : Path) (r : Row) : Bool := R.isPrefixOf r.path

/-- the rows of the tree -/
abbrev treeRows (R : Path) (db : DB) : List Row := Parts.part DB.rows (inTree R) db

theorem inTree_iff {R : Path} {r : Row} : inTree R r = true ↔ R <+: r.path := List.isPrefixOf_iff_prefix

/-- The node and the target are in the tree with the rows `B`. -/
structure OwnTree (R : Path) (B : List Row) (x t : Row) : Prop where
  len : R.length = 1
  pre : ∀ r ∈ B, R <+: r.path
  keys : (B.map Row.pk).Nodup
  node : x ∈ B
  target : t ∈ B

/-- the node stays in the tree -/
def Inside (cfg : Cfg) (t : Row) (pos : Option Pos) : Prop :=
  ∀ p, preparePosForMove cfg.ordered pos = .ok p → isChildPos p = true ∨ 2 ≤ t.path.length

/-! ### What is read -/

section
variable {cfg : Cfg} {R : Path} {a b db : DB} {B : List Row} {x t : Row} {pre : Path}

theorem below_part (hp : R <+: pre) (n : Nat) :
    below db pre n = orderByPath ((treeRows R db).filter (fun r => pre.isPrefixOf r.path && r.path.length == n)) := by
  unfold below treeRows Parts.part
  congr 1
  rw [List.filter_filter]
  refine List.filter_congr fun r _ => ?_
  rw [Bool.eq_iff_iff]
  simp only [Bool.and_eq_true, inTree_iff, List.isPrefixOf_iff_prefix]
  exact ⟨fun h => ⟨h, hp.trans h.1⟩, fun h => h.1⟩

theorem below_congr (hp : R <+: pre) (h : treeRows R a = treeRows R b) (n : Nat) : below a pre n = below b pre n := by
  rw [below_part hp, below_part hp, h]

theorem below_inner (hp : R <+: pre) (h : treeRows R db = B) {n : Nat} {r : Row} (hr : r ∈ below db pre n) : r ∈ B ∧ r.path.length = n := by
  rw [below_part hp, h] at hr
  unfold orderByPath at hr
  rw [mem_sortBy, List.mem_filter] at hr
  simp only [Bool.and_eq_true, beq_iff_eq] at hr
  exact ⟨hr.1, hr.2.2⟩

theorem root_dropLast (hl : R.length = 1) {p : Path} (h : R <+: p) (h2 : 2 ≤ p.length) : R <+: p.dropLast := by
  refine List.prefix_of_prefix_length_le h (List.dropLast_prefix p) ?_
  rw [List.length_dropLast]; omega

theorem prev_congr (hl : R.length = 1) (hp : R <+: t.path) (h2 : 2 ≤ t.path.length) (h : treeRows R a = treeRows R b) :
    prevSibling a t = prevSibling b t := by
  unfold prevSibling siblings
  rw [below_congr (root_dropLast hl hp h2) h]

theorem next_congr (hl : R.length = 1) (hp : R <+: t.path) (h2 : 2 ≤ t.path.length) (h : treeRows R a = treeRows R b) :
    nextSibling a t = nextSibling b t := by
  unfold nextSibling siblings
  rw [below_congr (root_dropLast hl hp h2) h]

/-- a row of the tree below its root -/
def DeepIn (B : List Row) (r : Row) : Prop := r ∈ B ∧ 2 ≤ r.path.length

/-- inside a tree, the queries see only the tree -/
theorem neighbours_congr (ho : OwnTree R B x t) (ha : treeRows R a = B) (hb : treeRows R b = B) {pos : Pos} (hin : isChildPos pos = true ∨ 2 ≤ t.path.length) :
    moveNeighbours cfg a x t pos = moveNeighbours cfg b x t pos := by
  have h : treeRows R a = treeRows R b := ha.trans hb.symm
  have htp := ho.pre t ho.target
  have hch : children a t = children b t := below_congr htp h _
  have hprev : ∀ r ∈ B, 2 ≤ r.path.length → prevSibling a r = prevSibling b r := fun r hr h2 => prev_congr ho.len (ho.pre r hr) h2 h
  have hsib : 2 ≤ t.path.length → siblings a t = siblings b t := fun h2 => below_congr (root_dropLast ho.len htp h2) h _
  cases pos with
  | sortedSibling =>
    have h2 := hin.resolve_left (by simp [isChildPos])
    unfold moveNeighbours
    dsimp only
    rw [hsib h2]
    cases hs : (sortedPosQueryset cfg.orderBy Row.vals (siblings b t) x.vals).head? with
    | none => rfl
    | some r =>
      dsimp only
      have hm := below_inner (root_dropLast ho.len htp h2) hb ((sortedPos_sublist _ _ _ _).mem (List.mem_of_head? hs))
      rw [hprev r hm.1 (by rw [hm.2]; exact h2)]
  | sortedChild =>
    unfold moveNeighbours
    dsimp only
    rw [hch]
    cases hs : (sortedPosQueryset cfg.orderBy Row.vals (children b t) x.vals).head? with
    | none => rfl
    | some r =>
      dsimp only
      have hm := below_inner htp hb ((sortedPos_sublist _ _ _ _).mem (List.mem_of_head? hs))
      have := htp.length_le
      rw [ho.len] at this
      rw [hprev r hm.1 (by rw [hm.2]; omega)]
  | firstSibling => unfold moveNeighbours; dsimp only; rw [hsib (hin.resolve_left (by simp [isChildPos]))]
  | lastSibling => unfold moveNeighbours; dsimp only; rw [hsib (hin.resolve_left (by simp [isChildPos]))]
  | left => unfold moveNeighbours; dsimp only; rw [hprev t ho.target (hin.resolve_left (by simp [isChildPos]))]
  | right => unfold moveNeighbours; dsimp only; rw [next_congr ho.len htp (hin.resolve_left (by simp [isChildPos])) h]
  | firstChild => unfold moveNeighbours; dsimp only; rw [hch]
  | lastChild => unfold moveNeighbours; dsimp only; rw [hch]
  | other => rfl

theorem neighbours_inner (ho : OwnTree R B x t) (h : treeRows R db = B) {pos : Pos} (hin : isChildPos pos = true ∨ 2 ≤ t.path.length) :
    R <+: (moveNeighbours cfg db x t pos).2 ∧ ∀ b, (moveNeighbours cfg db x t pos).1.1 = some b → DeepIn B b := by
  have htp := ho.pre t ho.target
  have ht1 := htp.length_le
  rw [ho.len] at ht1
  have hch : ∀ r ∈ children db t, DeepIn B r := by
    intro r hr
    have hm := below_inner htp h hr
    exact ⟨hm.1, by rw [hm.2]; omega⟩
  have hsib : 2 ≤ t.path.length → R <+: t.path.dropLast ∧ ∀ r ∈ siblings db t, DeepIn B r := by
    intro h2
    have hp := root_dropLast ho.len htp h2
    refine ⟨hp, fun r hr => ?_⟩
    have hm := below_inner hp h hr
    exact ⟨hm.1, by rw [hm.2]; exact h2⟩
  cases pos with
  | sortedSibling =>
    have h2 := hsib (hin.resolve_left (by simp [isChildPos]))
    unfold moveNeighbours
    dsimp only
    cases hs : (sortedPosQueryset cfg.orderBy Row.vals (siblings db t) x.vals).head? with
    | none => exact ⟨h2.1, nofun⟩
    | some r =>
      refine ⟨h2.1, fun b hb => ?_⟩
      cases hb
      exact h2.2 r ((sortedPos_sublist _ _ _ _).mem (List.mem_of_head? hs))
  | sortedChild =>
    unfold moveNeighbours
    dsimp only
    cases hs : (sortedPosQueryset cfg.orderBy Row.vals (children db t) x.vals).head? with
    | none => exact ⟨htp, nofun⟩
    | some r =>
      refine ⟨htp, fun b hb => ?_⟩
      cases hb
      exact hch r ((sortedPos_sublist _ _ _ _).mem (List.mem_of_head? hs))
  | firstSibling =>
    have h2 := hsib (hin.resolve_left (by simp [isChildPos]))
    exact ⟨h2.1, fun b hb => h2.2 b (List.mem_of_head? hb)⟩
  | lastSibling => exact ⟨(hsib (hin.resolve_left (by simp [isChildPos]))).1, nofun⟩
  | left =>
    have h2 := hin.resolve_left (by simp [isChildPos])
    refine ⟨(hsib h2).1, fun b hb => ?_⟩
    cases hb
    exact ⟨ho.target, h2⟩
  | right =>
    have h2 := hsib (hin.resolve_left (by simp [isChildPos]))
    exact ⟨h2.1, fun b hb => h2.2 b (List.mem_filter.1 (List.mem_of_head? hb)).1⟩
  | firstChild => exact ⟨htp, fun b hb => hch b (List.mem_of_head? hb)⟩
  | lastChild => exact ⟨htp, nofun⟩
  | other => exact ⟨(hsib (hin.resolve_left (by simp [isChildPos]))).1, nofun⟩

theorem planMove_congr (ho : OwnTree R B x t) (ha : treeRows R a = B) (hb : treeRows R b = B) {pos : Option Pos} (hin : Inside cfg t pos) :
    planMove cfg a x t pos = planMove cfg b x t pos := by
  unfold planMove
  cases hp : preparePosForMove cfg.ordered pos with
  | error e => rfl
  | ok pos0 =>
    dsimp only
    rw [neighbours_congr ho ha hb (hin _ hp)]

end

/-! ### What is written -/

section
variable {cfg : Cfg} {ι : Type} {R : ι → Path} {K : ι → Nat → Prop}

theorem appendA_prefix {R p : Path} (hl : R.length = 1) (h : R <+: p) {d : Nat} (hd : 2 ≤ d) : R <+: appendA d p := by
  unfold appendA
  split
  · exact h
  · refine (List.prefix_of_prefix_length_le h (List.take_prefix (d - 1) p) ?_).trans (List.prefix_append _ _)
    rw [List.length_take, hl]
    have := h.length_le
    omega

theorem appendA_length {p : Path} (d : Nat) : (appendA d p).length = p.length := by
  unfold appendA
  split
  · rfl
  · rename_i l rest e
    have := congrArg List.length e
    rw [List.length_drop, List.length_cons] at this
    rw [List.length_append, List.length_cons, List.length_take]
    omega

theorem within_right {R start : Path} (hl : R.length = 1) (h : R <+: start) (h2 : 2 ≤ start.length) (c : Row → Bool) :
    ∃ f : Row → Row, (∀ r, f r = if rightOf start r && c r then { r with path := appendA start.length r.path } else r) ∧
      (∀ r, inTree R r = false → f r = r) ∧ ∀ r, inTree R r = true → (inTree R (f r) = true ∧ (f r).pk = r.pk ∧ (f r).path.length = r.path.length) := by
  refine ⟨_, fun _ => rfl, fun r hr => ?_, fun r hr => ?_⟩
  · rw [if_neg]
    intro e
    rw [Bool.and_eq_true] at e
    have e1 := e.1
    unfold rightOf at e1
    rw [if_pos (by omega), Bool.and_eq_true, List.isPrefixOf_iff_prefix] at e1
    rw [inTree_iff.2 ((root_dropLast hl h h2).trans e1.1)] at hr
    cases hr
  · by_cases hc : (rightOf start r && c r) = true
    · rw [if_pos hc]
      exact ⟨inTree_iff.2 (appendA_prefix hl (inTree_iff.1 hr) h2), rfl, appendA_length _⟩
    · rw [if_neg hc]
      exact ⟨hr, rfl, rfl⟩

theorem within_rewrite {R old new : Path} (ho : R <+: old) (hn : R <+: new) :
    Parts.Within DB.rows Row.pk (inTree R) (fun db => { db with rows := rewriteBelow old new db.rows }) := by
  refine ⟨_, fun _ => rfl, fun r hr => ?_, fun r hr => ?_⟩
  · rw [if_neg]
    intro e
    rw [Bool.and_eq_true, List.isPrefixOf_iff_prefix] at e
    rw [inTree_iff.2 (ho.trans e.1)] at hr
    cases hr
  · split
    · exact ⟨inTree_iff.2 (hn.trans (List.prefix_append _ _)), rfl⟩
    · exact ⟨hr, rfl⟩

/-- the `save` of a row of the tree, as an UPDATE inside it -/
def saveIn (R : Path) (row : Row) (db : DB) : DB :=
  { db with rows := db.rows.map (fun r => if inTree R r && r.pk == row.pk then row else r) }

theorem within_save {R : Path} {row : Row} (h : R <+: row.path) : Parts.Within DB.rows Row.pk (inTree R) (saveIn R row) := by
  refine ⟨_, fun _ => rfl, fun r hr => ?_, fun r hr => ?_⟩
  · rw [hr]; rfl
  · split
    · rename_i e
      rw [Bool.and_eq_true, beq_iff_eq] at e
      exact ⟨inTree_iff.2 h, e.2.symm⟩
    · exact ⟨hr, rfl⟩

/-! ### Locality -/

/-- the key of the sibling that may be shifted -/
def CallVars.sibling : CallVars → Option Nat
  | .seek _ before _ _ => before.map Row.pk
  | .blocked _ b _ => some b.pk
  | _ => none

/-- what the variables of a call inside a tree can be -/
def InTree (R : Path) (k : Nat → Prop) (x : Row) : CallVars → Prop
  | .start => True
  | .seek pre before _ _ => R <+: pre ∧ ∀ b, before = some b → R <+: b.path ∧ 2 ≤ b.path.length ∧ k b.pk
  | .blocked pre b _ => R <+: pre ∧ R <+: b.path ∧ 2 ≤ b.path.length ∧ k b.pk
  | .found p _ => R <+: p
  | .ready n p => n.pk = x.pk ∧ R <+: n.path ∧ R <+: p
  | .over _ => True

/-- the rows with this key are below the root -/
def Below (R : Path) (db : DB) (k : Option Nat) : Prop := ∀ r ∈ treeRows R db, k = some r.pk → 2 ≤ r.path.length

/-- what the statements of a call rely on -/
structure Relies (R : ι → Path) (K : ι → Nat → Prop) (i : ι) (B : List Row) (x : Row) (l : CallVars) (db : DB) : Prop where
  keyed : Parts.Keyed DB.rows Row.pk (fun i => inTree (R i)) K db
  rest : ((db.rows.filter fun r => !inTree (R i) r).map Row.path).Nodup
  has : ∃ r ∈ treeRows (R i) db, r.pk = x.pk
  vars : InTree (R i) (K i) x l
  below_ : Below (R i) db l.sibling
  begin_ : l = .start → treeRows (R i) db = B

variable {B : List Row} {x t : Row}

theorem local_of {i : ι} (hR : Parts.Disjoint (fun i => inTree (R i))) {st : Stmt DB CallVars}
    (hr : ∀ a b l, Relies R K i B x l a → Relies R K i B x l b → treeRows (R i) a = treeRows (R i) b → st a l = st b l)
    (hw : ∀ a l u l', Relies R K i B x l a → st a l = .ok (u, l') → (u = id ∧ l' = l) ∨
      (∃ u', Parts.Within DB.rows Row.pk (inTree (R i)) u' ∧ InTree (R i) (K i) x l' ∧ l' ≠ .start ∧ Below (R i) (u a) l'.sibling ∧
        ∀ b, Relies R K i B x l b → treeRows (R i) b = treeRows (R i) a → (u b).rows = (u' b).rows)) :
    Local (Relies R K i B x) (treeRows (R i)) (fun X => ∃ j, j ≠ i ∧ X = treeRows (R j)) st := by
  refine ⟨hr, fun a l u l' ha he b hb hab => ?_⟩
  rcases hw a l u l' ha he with ⟨rfl, rfl⟩ | ⟨u', h1, h2, h3, h4, h5⟩
  · exact ⟨hb, hab, fun _ _ => rfl⟩
  · have e1 : (u b).rows = (u' b).rows := h5 b hb hab
    have e2 : (u a).rows = (u' a).rows := h5 a ha rfl
    have t1 : ∀ j, treeRows (R j) (u b) = treeRows (R j) (u' b) := fun j => by unfold treeRows Parts.part; rw [e1]
    have t2 : treeRows (R i) (u a) = treeRows (R i) (u' a) := by unfold treeRows Parts.part; rw [e2]
    have hV : treeRows (R i) (u b) = treeRows (R i) (u a) := by rw [t1, t2]; exact h1.own hab
    refine ⟨⟨?_, ?_, ?_, h2, ?_, fun e => absurd e h3⟩, hV, ?_⟩
    · intro j r hr'
      rw [e1] at hr'
      exact h1.keyed hR hb.keyed j r hr'
    · rw [e1]
      have := h1.frame (q := fun r => !inTree (R i) r) (fun r hr' => by rw [hr']; rfl) b
      unfold Parts.part at this
      rw [this]
      exact hb.rest
    · obtain ⟨r, hr', hk⟩ := hb.has
      obtain ⟨f, f1, f2, f3⟩ := h1
      have hm := List.mem_filter.1 hr'
      refine ⟨f r, ?_, (f3 r hm.2).2.trans hk⟩
      rw [t1]
      refine List.mem_filter.2 ⟨?_, (f3 r hm.2).1⟩
      rw [f1]
      exact List.mem_map_of_mem hm.1
    · unfold Below
      rw [hV]
      exact h4
    · rintro X ⟨j, hj, rfl⟩
      rw [t1]
      refine h1.frame (fun r hri => ?_) b
      cases hrj : inTree (R j) r with
      | false => rfl
      | true => exact absurd (hR i j r hri hrj) (fun e => hj e.symm)

theorem try_local {i : ι} (hR : Parts.Disjoint (fun i => inTree (R i))) :
    Local (Relies R K i B x) (treeRows (R i)) (fun X => ∃ j, j ≠ i ∧ X = treeRows (R j)) stTry := by
  refine local_of hR (fun a b l ha hb hab => ?_) (fun a l u l' ha he => ?_)
  · cases l with
    | seek pre before after moved =>
      unfold stTry
      dsimp only
      rw [below_congr ha.vars.1 hab]
    | _ => rfl
  · cases l with
    | seek pre before after moved =>
      unfold stTry at he
      dsimp only at he
      split at he
      · cases he
      · split at he
        · rename_i p hp
          cases he
          refine Or.inr ⟨id, Parts.within_id, ?_, nofun, fun _ _ => nofun, fun _ _ _ => rfl⟩
          unfold generatePath at hp
          split at hp
          · cases hp
          · cases hp
            exact ha.vars.1.trans (List.prefix_append _ _)
        · split at he
          · cases he
          · rename_i b _ _
            cases he
            have hb := ha.vars.2 b rfl
            exact Or.inr ⟨id, Parts.within_id, ⟨ha.vars.1, hb⟩, nofun, ha.below_, fun _ _ _ => rfl⟩
        · cases he
    | _ => cases he; exact Or.inl ⟨rfl, rfl⟩

theorem shift_local {i : ι} (hR : Parts.Disjoint (fun i => inTree (R i))) (hl : (R i).length = 1) {st : Stmt DB CallVars} (c : Path → Row → Bool)
    (hst : ∀ db pre b after, ∃ s : DB → List Sig, st db (.blocked pre b after) = .ok (fun db =>
      { rows := db.rows.map (fun r => if rightOf b.path r && c b.path r then { r with path := appendA b.path.length r.path } else r), sigs := s db }, .blocked pre b after))
    (hid : ∀ db l, (∀ pre b after, l ≠ .blocked pre b after) → st db l = .ok (id, l)) (hrd : ∀ a b l, st a l = st b l) :
    Local (Relies R K i B x) (treeRows (R i)) (fun X => ∃ j, j ≠ i ∧ X = treeRows (R j)) st := by
  refine local_of hR (fun a b l ha hb hab => hrd a b l) (fun a l u l' ha he => ?_)
  cases l with
  | blocked pre b after =>
    obtain ⟨s, e⟩ := hst a pre b after
    rw [e] at he
    cases he
    obtain ⟨h1, h2, h3, h4⟩ := ha.vars
    obtain ⟨f, f1, f2, f3⟩ := within_right hl h2 h3 (c b.path)
    have hW : Parts.Within DB.rows Row.pk (inTree (R i)) (fun db => { rows := db.rows.map f, sigs := s db }) :=
      ⟨f, fun _ => rfl, f2, fun r hr => ⟨(f3 r hr).1, (f3 r hr).2.1⟩⟩
    have hff : (fun r => if rightOf b.path r && c b.path r then { r with path := appendA b.path.length r.path } else r) = f := funext fun r => (f1 r).symm
    rw [hff]
    refine Or.inr ⟨_, hW, ha.vars, nofun, ?_, fun _ _ _ => rfl⟩
    intro r hr hk
    have hr2 : r ∈ (treeRows (R i) a).map f := by
      have := List.filter_map (f := f) (p := inTree (R i)) (l := a.rows)
      have h5 : treeRows (R i) { rows := a.rows.map f, sigs := s a } = (treeRows (R i) a).map f :=
        Parts.filter_map_within f2 (fun r hr => (f3 r hr).1) a.rows
      rw [← h5]; exact hr
    obtain ⟨q, hq, rfl⟩ := List.mem_map.1 hr2
    have hqi := (List.mem_filter.1 hq).2
    rw [(f3 q hqi).2.2]
    refine ha.below_ q hq ?_
    rw [← (f3 q hqi).2.1]
    exact hk
  | _ => rw [hid a _ (fun _ _ _ h => by cases h)] at he; cases he; exact Or.inl ⟨rfl, rfl⟩

theorem fetch_local {i : ι} (hR : Parts.Disjoint (fun i => inTree (R i))) (last : Bool) :
    Local (Relies R K i B x) (treeRows (R i)) (fun X => ∃ j, j ≠ i ∧ X = treeRows (R j)) (stFetch last) := by
  refine local_of hR (fun a b l ha hb hab => ?_) (fun a l u l' ha he => ?_)
  · cases l with
    | blocked pre b0 after =>
      have h1 : a.get? b0.pk = b.get? b0.pk := Parts.find?_congr ha.keyed hb.keyed hab ha.vars.2.2.2
      unfold stFetch
      dsimp only
      rw [h1]
    | _ => rfl
  · cases l with
    | blocked pre b0 after =>
      unfold stFetch at he
      dsimp only at he
      split at he
      · cases he
      · rename_i b' hb'
        split at he
        · cases he
        · cases he
          have hm : b' ∈ a.rows := List.mem_of_find?_eq_some hb'
          have hk : b'.pk = b0.pk := by simpa using List.find?_some hb'
          have hKi : K i b'.pk := by rw [hk]; exact ha.vars.2.2.2
          have hin := (ha.keyed i b' hm).2 hKi
          have hbt : b' ∈ treeRows (R i) a := List.mem_filter.2 ⟨hm, hin⟩
          refine Or.inr ⟨id, Parts.within_id, ⟨ha.vars.1, fun b hb => ?_⟩, nofun, ?_, fun _ _ _ => rfl⟩
          · cases hb
            exact ⟨inTree_iff.1 hin, ha.below_ b' hbt (by simp [CallVars.sibling, hk]), hKi⟩
          · intro r hr e
            refine ha.below_ r hr ?_
            simpa [CallVars.sibling, hk] using e
    | _ => cases he; exact Or.inl ⟨rfl, rfl⟩

theorem mem_tries {st : Stmt DB CallVars} : ∀ {n : Nat}, st ∈ tries n → st = stTry ∨ st = stTop ∨ st = stDeep ∨ ∃ last, st = stFetch last
  | 0, h => by
    simp only [tries, List.mem_cons, List.not_mem_nil, or_false] at h
    rcases h with h | h | h | h
    · exact Or.inl h
    · exact Or.inr (Or.inl h)
    · exact Or.inr (Or.inr (Or.inl h))
    · exact Or.inr (Or.inr (Or.inr ⟨_, h⟩))
  | n + 1, h => by
    simp only [tries, List.mem_cons] at h
    rcases h with h | h | h | h | h
    · exact Or.inl h
    · exact Or.inr (Or.inl h)
    · exact Or.inr (Or.inr (Or.inl h))
    · exact Or.inr (Or.inr (Or.inr ⟨_, h⟩))
    · exact mem_tries h

/-- Every statement of a `move` inside a tree is local to the tree. -/
theorem moveClient_local (key : Nat) {i : ι} (hR : Parts.Disjoint (fun i => inTree (R i))) {pos : Option Pos} (ho : OwnTree (R i) B x t)
    (hB : ∀ r ∈ B, K i r.pk) (hin : Inside cfg t pos) :
    (moveClient cfg key x t pos).Local (Relies R K i B x) (treeRows (R i)) (fun X => ∃ j, j ≠ i ∧ X = treeRows (R j)) := by
  intro st hst
  simp only [moveClient, lastStmts, List.mem_cons, List.mem_append, List.not_mem_nil, or_false] at hst
  rcases hst with rfl | hst | rfl | rfl | rfl
  · refine local_of hR (fun a b l ha hb hab => ?_) (fun a l u l' ha he => ?_)
    · cases l with
      | start =>
        unfold stPlan
        dsimp only
        rw [planMove_congr ho (ha.begin_ rfl) (hb.begin_ rfl) hin]
      | _ => rfl
    · cases l with
      | start =>
        unfold stPlan at he
        dsimp only at he
        split at he
        · cases he
        · rename_i hp
          cases he
          unfold planMove at hp
          split at hp
          · cases hp
          · rename_i pos0 hpos
            split at hp
            · cases hp
            · split at hp
              · cases hp
              · cases hp
                have hB' := ha.begin_ rfl
                obtain ⟨h1, h2⟩ := neighbours_inner (cfg := cfg) ho hB' (hin _ hpos)
                refine Or.inr ⟨id, Parts.within_id, ⟨h1, fun b hb => ?_⟩, nofun, ?_, fun _ _ _ => rfl⟩
                · have := h2 b hb
                  exact ⟨ho.pre b this.1, this.2, hB b this.1⟩
                · intro r hr e
                  simp only [CallVars.sibling, Option.map_eq_some_iff] at e
                  obtain ⟨b, hb, e⟩ := e
                  have hb := h2 b hb
                  have hr' : r ∈ B := by rw [← hB']; exact hr
                  rw [← List.inj_on_of_nodup_map ho.keys hb.1 hr' e]
                  exact hb.2
      | _ => cases he; exact Or.inl ⟨rfl, rfl⟩
  · rcases mem_tries hst with rfl | rfl | rfl | ⟨last, rfl⟩
    · exact try_local hR
    · refine shift_local hR ho.len (fun s r => r.path.length == s.length) (fun db pre b after => ⟨DB.sigs, rfl⟩) (fun db l hl => ?_) (fun a b l => by cases l <;> rfl)
      cases l with
      | blocked pre b after => exact absurd rfl (hl _ _ _)
      | _ => rfl
    · refine shift_local hR ho.len (fun s r => decide (s.length < r.path.length)) (fun db pre b after => ⟨fun db => db.sigs ++ [.movedRight b.path], rfl⟩)
        (fun db l hl => ?_) (fun a b l => by cases l <;> rfl)
      cases l with
      | blocked pre b after => exact absurd rfl (hl _ _ _)
      | _ => rfl
    · exact fetch_local hR last
  · refine local_of hR (fun a b l ha hb hab => ?_) (fun a l u l' ha he => ?_)
    · cases l with
      | found p moved =>
        have h1 : a.get? x.pk = b.get? x.pk := Parts.find?_congr ha.keyed hb.keyed hab (hB x ho.node)
        unfold stRefresh refreshed
        dsimp only
        rw [h1]
      | _ => rfl
    · cases l with
      | found p moved =>
        unfold stRefresh refreshed at he
        dsimp only at he
        cases moved with
        | false =>
          cases he
          exact Or.inr ⟨id, Parts.within_id, ⟨rfl, ho.pre x ho.node, ha.vars⟩, nofun, fun _ _ => nofun, fun _ _ _ => rfl⟩
        | true =>
          rw [if_pos rfl] at he
          cases hn : a.get? x.pk with
          | none => rw [hn] at he; cases he
          | some n =>
            rw [hn] at he
            cases he
            have hm : n ∈ a.rows := List.mem_of_find?_eq_some hn
            have hk : n.pk = x.pk := by simpa using List.find?_some hn
            have hin' := (ha.keyed i n hm).2 (by rw [hk]; exact hB x ho.node)
            exact Or.inr ⟨id, Parts.within_id, ⟨hk, inTree_iff.1 hin', ha.vars⟩, nofun, fun _ _ => nofun, fun _ _ _ => rfl⟩
      | _ => cases he; exact Or.inl ⟨rfl, rfl⟩
  · refine local_of hR (fun a b l ha hb hab => by cases l <;> rfl) (fun a l u l' ha he => ?_)
    cases l with
    | ready n p =>
      cases he
      exact Or.inr ⟨_, within_rewrite ha.vars.2.1 ha.vars.2.2, ha.vars, nofun, fun _ _ => nofun, fun _ _ _ => rfl⟩
    | _ => cases he; exact Or.inl ⟨rfl, rfl⟩
  · refine local_of hR (fun a b l ha hb hab => by cases l <;> rfl) (fun a l u l' ha he => ?_)
    cases l with
    | ready n p =>
      cases he
      refine Or.inr ⟨_, within_save (row := { n with path := p }) ha.vars.2.2, trivial, nofun, fun _ _ => nofun, fun b hb _ => ?_⟩
      obtain ⟨r, hr, hk⟩ := hb.has
      have hany : b.rows.any (fun q => q.pk == n.pk) = true := by
        rw [List.any_eq_true]
        exact ⟨r, (List.mem_filter.1 hr).1, by rw [beq_iff_eq, hk, ha.vars.1]⟩
      show (save b { n with path := p }).rows = _
      unfold save saveIn
      dsimp only
      rw [if_pos hany]
      refine List.map_congr_left fun q hq => ?_
      by_cases e : q.pk = n.pk
      · have : inTree (R i) q = true := (hb.keyed i q hq).2 (by rw [e, ha.vars.1]; exact hB x ho.node)
        rw [this, Bool.true_and]
      · have e' : (q.pk == n.pk) = false := by simpa using e
        rw [e', Bool.and_false]
    | _ => cases he; exact Or.inl ⟨rfl, rfl⟩

/-- the deferred constraint depends on the tree only -/
theorem check_local (key : Nat) {i : ι} {pos : Option Pos} {l : CallVars} {a b : DB} (ha : Relies R K i B x l a) (hb : Relies R K i B x l b)
    (hab : treeRows (R i) a = treeRows (R i) b) : (moveClient cfg key x t pos).check a = (moveClient cfg key x t pos).check b := by
  have h1 : ∀ {d : DB}, Relies R K i B x l d → ((d.rows.map Row.path).Nodup ↔ ((treeRows (R i) d).map Row.path).Nodup) := fun hd =>
    Parts.nodup_parts (col := Row.path) (c := fun p => (R i).isPrefixOf p) (fun _ => rfl) hd.rest
  have h2 : uniquePaths a.rows = uniquePaths b.rows := by
    unfold uniquePaths
    rw [Bool.eq_iff_iff, decide_eq_true_iff, decide_eq_true_iff, h1 ha, h1 hb, hab]
  unfold moveClient
  dsimp only
  rw [h2]

end

end Verif.LT
