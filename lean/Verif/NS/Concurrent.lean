/-
NS: `move` as the statements of a transaction (ns_tree.py:257-379), and what they read and write of the trees.

`move` locks nothing.  The queries before the first UPDATE are one statement here; between this statement, the UPDATEs and the
`refresh_from_db` calls other clients may commit.
-/
import Verif.NS.Move
import Verif.NS.Mirror
import Verif.TxnParts

namespace Verif.NS

open Txn

/-- The UPDATE that makes the hole (ns_tree.py:324-346). -/
inductive HoleUpd where
  /-- no UPDATE: the branch becomes the last tree -/
  | none
  /-- `_alter_gap` -/
  | gap (tree start offset : Int)
  /-- `_move_tree_right` -/
  | right (tree : Int)
deriving DecidableEq

def HoleUpd.apply : HoleUpd → DB → DB
  | .none, db => db
  | .gap tree start offset, db => alterGap db tree start offset
  | .right tree, db => moveTreeRight db tree

/-- the queries of `makeHole`: the UPDATE to make, the tree of the hole and its position -/
def holeOf (db : DB) (node target : Row) (parent cached : Option Row) (pos : Pos) : Except Err (HoleUpd × Int × Int) :=
  let gap := node.rgt - node.lft + 1
  match parent with
  | some p => .ok (.gap target.tree p.rgt gap, target.tree, p.rgt)
  | none =>
    if target.isRoot then
      match pos with
      | .lastSibling =>
        match siblings db target with
        | .error e => .error e
        | .ok sibs => match sibs.getLast? with
          | none => .error .indexError
          | some last => .ok (.none, last.tree + 1, 1)
      | .firstSibling => .ok (.right 1, 1, 1)
      | .left => .ok (.right target.tree, target.tree, 1)
      | _ => .ok (.none, target.tree, 1)
    else
      match pos with
      | .lastSibling =>
        match getParent db target cached with
        | .error e => .error e
        | .ok none => .error .attributeError
        | .ok (some p) => .ok (.gap target.tree p.rgt gap, target.tree, p.rgt)
      | .firstSibling | .left => .ok (.gap target.tree target.lft gap, target.tree, target.lft)
      | _ => .error .valueError

theorem makeHole_eq (db : DB) (node target : Row) (parent cached : Option Row) (pos : Pos) :
    makeHole db node target parent cached pos = (holeOf db node target parent cached pos).map (fun h => (h.1.apply db, h.2.1, h.2.2)) := by
  unfold makeHole holeOf
  cases parent with
  | some p => rfl
  | none =>
    dsimp only
    split
    · cases pos <;> try rfl
      cases siblings db target with
      | error e => rfl
      | ok sibs => dsimp only; cases sibs.getLast? <;> rfl
    · cases pos <;> try rfl
      cases getParent db target cached with
      | error e => rfl
      | ok p => cases p <;> rfl

/-- The variables of a call of `move`. -/
inductive MoveVars where
  | start
  /-- what is to be done: the node and the target as known, whether the target becomes the parent, the hole, its tree and position -/
  | planned (node target : Row) (below : Bool) (hole : HoleUpd) (tree newpos : Int)
  /-- the call is over: the caller's objects -/
  | over (node target : Row)

/-- ns_tree.py:268-353: the queries -/
def planFrom (cfg : Cfg) (db : DB) (node target origTarget : Row) (parent cached : Option Row) (pos : Pos) : Except Err MoveVars :=
  if target.isDescendantOf node then .error .invalidMoveToDescendant
  else
    match moveNoop db node target pos with
    | .error e => .error e
    | .ok true => .ok (.over node origTarget)
    | .ok false =>
      match resolveSorted cfg db pos target node.vals with
      | .error e => .error e
      | .ok (pos1, target1) =>
        match resolvePos db pos1 target1 with
        | .error e => .error e
        | .ok (pos2, target2) =>
          match holeOf db node target2 parent cached pos2 with
          | .error e => .error e
          | .ok (h, tree, newpos) => .ok (.planned node target2 parent.isSome h tree newpos)

/-- ns_tree.py:264-353: the queries, from the start -/
def planMove (cfg : Cfg) (db : DB) (node target : Row) (cached : Option Row) (pos : Option Pos) : Except Err MoveVars :=
  match preparePosForMove cfg.ordered pos with
  | .error e => .error e
  | .ok pos0 =>
    match moveVars db node target pos0 with
    | .error e => .error e
    | .ok (pos, target', parent) =>
      planFrom cfg db node target' target parent (if pos0 = .lastSibling ∧ node.pk ≠ target.pk then cached else none) pos

/-- the queries as one statement -/
def stPlan (cfg : Cfg) (node target : Row) (cached : Option Row) (pos : Option Pos) : Stmt DB MoveVars := fun db l =>
  match l with
  | .start =>
    match planMove cfg db node target cached pos with
    | .error e => .error e
    | .ok l => .ok (id, l)
  | l => .ok (id, l)

/-- ns_tree.py:327-346: the UPDATE that makes the hole -/
def stHole : Stmt DB MoveVars := fun _ l =>
  match l with
  | .planned _ _ _ hole _ _ => .ok (hole.apply, l)
  | l => .ok (id, l)

/-- ns_tree.py:349: `node.refresh_from_db()` -/
def stFetch : Stmt DB MoveVars := fun db l =>
  match l with
  | .planned node target below hole tree newpos =>
    match db.get? node.pk with
    | none => .error .doesNotExist
    | some node => .ok (id, .planned node target below hole tree newpos)
  | l => .ok (id, l)

/-- ns_tree.py:356-374: the UPDATE of the branch -/
def stJump : Stmt DB MoveVars := fun _ l =>
  match l with
  | .planned node target below _ tree newpos =>
    .ok (fun db => moveRows db node tree (newpos - node.lft) (target.depth - node.depth + (if below then 1 else 0)), l)
  | l => .ok (id, l)

/-- ns_tree.py:377: the UPDATE that closes the gap -/
def stClose : Stmt DB MoveVars := fun _ l =>
  match l with
  | .planned node _ _ _ _ _ => .ok (fun db => closeGap db node.lft node.rgt node.tree, l)
  | l => .ok (id, l)

/-- ns_tree.py:378-379: `refresh_from_db()` of the caller's objects -/
def stResult (origTarget : Row) : Stmt DB MoveVars := fun db l =>
  match l with
  | .planned node _ _ _ _ _ =>
    match db.get? node.pk, db.get? origTarget.pk with
    | some node', some target' => .ok (id, .over node' target')
    | _, _ => .error .doesNotExist
  | l => .ok (id, l)

/-- `move` as a client.  It locks nothing: `key` is one nobody else asks for. -/
def moveClient (cfg : Cfg) (key : Nat) (node target : Row) (cached : Option Row) (pos : Option Pos) : Client DB MoveVars where
  key := key
  start := .start
  body := [stPlan cfg node target cached pos, stHole, stFetch, stJump, stClose, stResult target]
  check := fun _ => none

/-- Alone, the client is `move`. -/
theorem moveClient_alone (cfg : Cfg) (key : Nat) (db : DB) (node target : Row) (cached : Option Row) (pos : Option Pos) :
    (moveClient cfg key node target cached pos).alone db = (move cfg db node target cached pos).map (fun r => (r.db, .over r.node r.target)) := by
  unfold Client.alone moveClient
  simp only [Txn.exec, stPlan]
  unfold move planMove
  cases hp : preparePosForMove cfg.ordered pos with
  | error e => rfl
  | ok pos0 =>
    dsimp only
    cases hv : moveVars db node target pos0 with
    | error e => rfl
    | ok v =>
      obtain ⟨p, t', par⟩ := v
      dsimp only
      unfold moveFrom planFrom
      by_cases hd : t'.isDescendantOf node = true
      · rw [if_pos hd, if_pos hd]; rfl
      · rw [if_neg hd, if_neg hd]
        cases hn : moveNoop db node t' p with
        | error e => rfl
        | ok b =>
          cases b with
          | true => rfl
          | false =>
            dsimp only
            cases h1 : resolveSorted cfg db p t' node.vals with
            | error e => rfl
            | ok v1 =>
              dsimp only
              cases h2 : resolvePos db v1.1 v1.2 with
              | error e => rfl
              | ok v2 =>
                dsimp only
                unfold moveTo
                rw [makeHole_eq]
                cases h3 : holeOf db node v2.2 par (if pos0 = .lastSibling ∧ node.pk ≠ target.pk then cached else none) v2.1 with
                | error e => rfl
                | ok h =>
                  simp only [Except.map, id, stHole, stFetch]
                  cases h4 : (h.1.apply db).get? node.pk with
                  | none => rfl
                  | some n =>
                    simp only [stJump, stClose, stResult, id]
                    generalize (closeGap _ n.lft n.rgt n.tree) = d
                    cases h5 : d.get? n.pk with
                    | none => rfl
                    | some n' => cases h6 : d.get? target.pk <;> rfl

/-! ### What is read -/

/-- the rows of one tree -/
def treeRows (T : Int) (db : DB) : List Row := db.rows.filter (·.tree == T)

section
variable {a b db : DB} {T : Int} {cfg : Cfg}

theorem filter_tree (p : Row → Bool) : db.rows.filter (fun r => r.tree == T && p r) = (treeRows T db).filter p := by
  unfold treeRows
  rw [List.filter_filter]
  refine List.filter_congr ?_
  intro r _
  cases h1 : r.tree == T <;> cases h2 : p r <;> rfl

theorem children_congr {x : Row} (hx : x.tree = T) (h : treeRows T a = treeRows T b) : children a x = children b x := by
  unfold children descendants getTree
  simp only [Bool.false_eq_true, if_false]
  split
  · rfl
  · simp only [Bool.and_assoc, hx, filter_tree, h]

theorem children_tree {x r : Row} (hr : r ∈ children db x) : r.tree = x.tree := by
  unfold children descendants getTree at hr
  simp only [Bool.false_eq_true, if_false] at hr
  split at hr
  · cases hr
  · have := mem_order.1 (List.mem_of_mem_filter (List.mem_of_mem_filter hr))
    have := (List.mem_filter.1 this).2
    simp only [Bool.and_eq_true, beq_iff_eq] at this
    exact this.1.1.1

theorem ancestors_congr {x : Row} (hx : x.tree = T) (h : treeRows T a = treeRows T b) : ancestors a x = ancestors b x := by
  unfold ancestors
  simp only [Bool.and_assoc, hx, filter_tree, h]

theorem getParent_congr {x : Row} (hx : x.tree = T) (h : treeRows T a = treeRows T b) (c : Option Row) : getParent a x c = getParent b x c := by
  unfold getParent
  rw [ancestors_congr hx h]

theorem getParent_tree {x p : Row} {c : Option Row} (hc : ∀ q, c = some q → q.tree = x.tree) (e : getParent db x c = .ok (some p)) :
    p.tree = x.tree := by
  unfold getParent at e
  split at e
  · cases e
  · split at e
    · cases e
      exact hc p rfl
    · split at e
      · cases e
      · rename_i q hq
        cases e
        have := List.mem_of_getLast? hq
        unfold ancestors at this
        split at this
        · cases this
        · have := mem_order.1 this
          have := (List.mem_filter.1 this).2
          simp only [Bool.and_eq_true, beq_iff_eq] at this
          exact this.1.1

theorem siblings_congr {x : Row} (hx : x.tree = T) (hl : x.lft ≠ 1) (h : treeRows T a = treeRows T b) : siblings a x = siblings b x := by
  unfold siblings
  rw [if_neg (by simpa using hl), if_neg (by simpa using hl), getParent_congr hx h]
  cases e : getParent b x none with
  | error e => rfl
  | ok p =>
    cases p with
    | none => rfl
    | some p =>
      dsimp only
      rw [children_congr (by rw [getParent_tree (by simp) e]; exact hx) h]

/-- the siblings of a node that is no root are no roots, and in its tree -/
theorem siblings_inner (hn : NI db.rows) {x r : Row} (hl : x.lft ≠ 1) {l : List Row} (e : siblings db x = .ok l) (hr : r ∈ l) :
    r.tree = x.tree ∧ r.lft ≠ 1 := by
  unfold siblings at e
  rw [if_neg (by simpa using hl)] at e
  split at e
  · cases e
  · cases e
  · rename_i p hp
    cases e
    have hpt := getParent_tree (by simp) hp
    have hpm := getParent_mem (by simp) hp
    have hrt := children_tree hr
    refine ⟨hrt.trans hpt, fun h1 => ?_⟩
    have hrm := children_sub hr
    have hr' := hr
    unfold children descendants getTree at hr'
    simp only [Bool.false_eq_true, if_false] at hr'
    split at hr'
    · cases hr'
    · rw [List.mem_filter, List.mem_filter] at hr'
      obtain ⟨⟨h2, h3⟩, -⟩ := hr'
      have h2 := (List.mem_filter.1 (mem_order.1 h2)).2
      have hne : r ≠ p := by rintro rfl; simp at h3
      have h4 := (hn.dist r hrm p hpm hne hrt).1
      have h5 := hn.one p hpm
      simp at h2
      omega

theorem resolveSorted_congr {t : Row} (ht : t.tree = T) (hl : t.lft ≠ 1) (h : treeRows T a = treeRows T b) (pos : Pos) (v : Vals) :
    resolveSorted cfg a pos t v = resolveSorted cfg b pos t v := by
  unfold resolveSorted
  rw [siblings_congr ht hl h]

theorem resolveSorted_inner (hn : NI db.rows) {t t' : Row} (hl : t.lft ≠ 1) {pos pos' : Pos} {v : Vals}
    (e : resolveSorted cfg db pos t v = .ok (pos', t')) : t'.tree = t.tree ∧ t'.lft ≠ 1 := by
  unfold resolveSorted at e
  split at e
  · split at e
    · cases e
    · rename_i sibs es
      split at e
      · rename_i f hf
        cases e
        exact siblings_inner hn hl es ((sortedPos_sublist _ _ _ _).mem (List.mem_of_mem_head? hf))
      · cases e; exact ⟨rfl, hl⟩
  · cases e; exact ⟨rfl, hl⟩

theorem resolvePos_congr {t : Row} (ht : t.tree = T) (hl : t.lft ≠ 1) (h : treeRows T a = treeRows T b) (pos : Pos) :
    resolvePos a pos t = resolvePos b pos t := by
  unfold resolvePos
  rw [siblings_congr ht hl h]

theorem resolvePos_inner (hn : NI db.rows) {t t' : Row} (hl : t.lft ≠ 1) {pos pos' : Pos}
    (e : resolvePos db pos t = .ok (pos', t')) : t'.tree = t.tree ∧ t'.lft ≠ 1 := by
  unfold resolvePos at e
  split at e
  · split at e
    · cases e
    · rename_i sibs es
      have hs : ∀ r ∈ sibs, r.tree = t.tree ∧ r.lft ≠ 1 := fun r hr => siblings_inner hn hl es hr
      have hn : (nextAfter t sibs).tree = t.tree ∧ (nextAfter t sibs).lft ≠ 1 := by
        rcases nextAfter_mem (t := t) sibs with e | e
        · rw [e]; exact ⟨rfl, hl⟩
        · exact hs _ e
      dsimp only at e
      generalize hq : (if pos = Pos.right then
        if sameNode t sibs.getLast? = true then (Pos.lastSibling, t) else (Pos.left, nextAfter t sibs) else (pos, t)) = q at e
      have hq2 : q.2.tree = t.tree ∧ q.2.lft ≠ 1 := by
        subst hq
        split
        · split
          · exact ⟨rfl, hl⟩
          · exact hn
        · exact ⟨rfl, hl⟩
      generalize (if q.1 = Pos.left ∧ sameNode q.2 sibs.head? = true then Pos.firstSibling else q.1) = pp at e
      split at e
      · split at e
        · cases e
        · rename_i f hf
          cases e
          exact hs _ (List.mem_of_head? hf)
      · cases e
        exact hq2
  · cases e; exact ⟨rfl, hl⟩

theorem moveNoop_congr {x t : Row} (ht : t.tree = T) (hl : t.lft ≠ 1) (h : treeRows T a = treeRows T b) (pos : Pos) :
    moveNoop a x t pos = moveNoop b x t pos := by
  unfold moveNoop lastSibling firstSibling
  rw [siblings_congr ht hl h]

theorem moveVars_congr {x t : Row} (ht : t.tree = T) (h : treeRows T a = treeRows T b) (pos : Pos) :
    moveVars a x t pos = moveVars b x t pos := by
  unfold moveVars lastChild
  rw [children_congr ht h]

theorem holeOf_congr {x t : Row} {parent cached : Option Row} (ht : t.tree = T) (hl : parent = none → t.lft ≠ 1) (h : treeRows T a = treeRows T b)
    (pos : Pos) : holeOf a x t parent cached pos = holeOf b x t parent cached pos := by
  unfold holeOf
  cases parent with
  | some p => rfl
  | none =>
    dsimp only
    rw [siblings_congr ht (hl rfl) h, getParent_congr ht h]

/-- the call stays inside the tree: the target becomes the parent, or is not a root -/
def Inside (cfg : Cfg) (t : Row) (pos : Option Pos) : Prop := ∀ p, preparePosForMove cfg.ordered pos = .ok p → isChildPos p = true ∨ t.lft ≠ 1

/-- what `moveVars` gives inside a tree -/
theorem moveVars_inner (hn : NI db.rows) {x t t' : Row} {pos pos' : Pos} {parent : Option Row} (ht : t ∈ db.rows)
    (hin : isChildPos pos = true ∨ t.lft ≠ 1) (e : moveVars db x t pos = .ok (pos', t', parent)) :
    t'.tree = t.tree ∧ ((parent.isSome = true ∧ pos' = .lastChild ∧ x.pk ≠ t'.pk) ∨ (parent = none ∧ t'.lft ≠ 1)) := by
  unfold moveVars at e
  split at e
  · split at e
    · cases e
    · rename_i hne
      split at e
      · cases e
        exact ⟨rfl, Or.inl ⟨rfl, rfl, hne⟩⟩
      · rename_i hleaf
        split at e
        · cases e
        · rename_i last hl
          cases e
          have hr := List.mem_of_getLast? hl
          have hrt := children_tree hr
          refine ⟨hrt, Or.inr ⟨rfl, fun h1 => ?_⟩⟩
          have hrm := children_sub hr
          unfold children descendants getTree at hr
          simp only [Bool.false_eq_true, if_false] at hr
          split at hr
          · cases hr
          · rw [List.mem_filter, List.mem_filter] at hr
            obtain ⟨⟨h2, h3⟩, -⟩ := hr
            have h2 := (List.mem_filter.1 (mem_order.1 h2)).2
            have hne : t' ≠ t := by rintro rfl; simp at h3
            have h4 := (hn.dist t' hrm t ht hne hrt).1
            have h5 := hn.one t ht
            simp at h2
            omega
  · rename_i hc
    cases e
    exact ⟨rfl, Or.inr ⟨rfl, hin.resolve_left hc⟩⟩

/-- inside a tree, the queries see only the tree -/
theorem planMove_congr (hn : NI b.rows) {x t : Row} (ht : t ∈ b.rows) (hT : t.tree = T) {cached : Option Row} {pos : Option Pos}
    (hin : Inside cfg t pos) (h : treeRows T a = treeRows T b) : planMove cfg a x t cached pos = planMove cfg b x t cached pos := by
  unfold planMove
  cases hp : preparePosForMove cfg.ordered pos with
  | error e => rfl
  | ok pos0 =>
    dsimp only
    rw [moveVars_congr hT h]
    cases hv : moveVars b x t pos0 with
    | error e => rfl
    | ok v =>
      obtain ⟨p, t', par⟩ := v
      obtain ⟨h1, h2⟩ := moveVars_inner hn ht (hin pos0 hp) hv
      dsimp only
      unfold planFrom
      split
      · rfl
      · rcases h2 with ⟨h2, rfl, h3⟩ | ⟨rfl, h2⟩
        · have hno : ∀ d, moveNoop d x t' .lastChild = .ok false := fun d => by unfold moveNoop; rw [if_neg h3]
          have hrs : ∀ d, resolveSorted cfg d .lastChild t' x.vals = .ok (.lastChild, t') := fun d => rfl
          have hrp : ∀ d, resolvePos d .lastChild t' = .ok (.lastChild, t') := fun d => rfl
          simp only [hno, hrs, hrp]
          rw [holeOf_congr (h1.trans hT) (by rintro rfl; cases h2) h]
        · rw [moveNoop_congr (h1.trans hT) h2 h]
          cases moveNoop b x t' p with
          | error e => rfl
          | ok nb =>
            cases nb with
            | true => rfl
            | false =>
              dsimp only
              rw [resolveSorted_congr (h1.trans hT) h2 h]
              cases h3 : resolveSorted cfg b p t' x.vals with
              | error e => rfl
              | ok v1 =>
                obtain ⟨p1, t1⟩ := v1
                have h4 := resolveSorted_inner hn h2 h3
                dsimp only
                rw [resolvePos_congr (h4.1.trans (h1.trans hT)) h4.2 h]
                cases h5 : resolvePos b p1 t1 with
                | error e => rfl
                | ok v2 =>
                  obtain ⟨p2, t2⟩ := v2
                  have h6 := resolvePos_inner hn h4.2 h5
                  dsimp only
                  rw [holeOf_congr (h6.1.trans (h4.1.trans (h1.trans hT))) (fun _ => h6.2) h]

/-- what the queries give inside a tree: the hole is in the tree -/
def InTree (T : Int) (x : Row) : MoveVars → Prop
  | .start => True
  | .planned node _ _ hole tree _ => node.pk = x.pk ∧ node.tree = T ∧ tree = T ∧ ∃ s o, hole = .gap T s o
  | .over _ _ => True

theorem holeOf_inner {x t : Row} {parent cached : Option Row} {pos : Pos} (hl : parent = none → t.lft ≠ 1) {h : HoleUpd} {tree np : Int}
    (e : holeOf db x t parent cached pos = .ok (h, tree, np)) : tree = t.tree ∧ ∃ s o, h = .gap t.tree s o := by
  unfold holeOf at e
  cases parent with
  | some p => cases e; exact ⟨rfl, _, _, rfl⟩
  | none =>
    dsimp only at e
    rw [if_neg (by unfold Row.isRoot; simpa using hl rfl)] at e
    split at e
    · split at e
      · cases e
      · cases e
      · cases e; exact ⟨rfl, _, _, rfl⟩
    · cases e; exact ⟨rfl, _, _, rfl⟩
    · cases e; exact ⟨rfl, _, _, rfl⟩
    · cases e

theorem planMove_inner (hn : NI db.rows) {x t : Row} (ht : t ∈ db.rows) (hx : x.tree = T) (hT : t.tree = T) {cached : Option Row} {pos : Option Pos}
    (hin : Inside cfg t pos) {l : MoveVars} (e : planMove cfg db x t cached pos = .ok l) : InTree T x l := by
  unfold planMove at e
  cases hp : preparePosForMove cfg.ordered pos with
  | error e' => rw [hp] at e; cases e
  | ok pos0 =>
    rw [hp] at e
    dsimp only at e
    cases hv : moveVars db x t pos0 with
    | error e' => rw [hv] at e; cases e
    | ok v =>
      obtain ⟨p, t', par⟩ := v
      obtain ⟨h1, h2⟩ := moveVars_inner hn ht (hin pos0 hp) hv
      rw [hv] at e
      dsimp only at e
      unfold planFrom at e
      split at e
      · cases e
      · rcases h2 with ⟨h2, rfl, h3⟩ | ⟨rfl, h2⟩
        · have hno : moveNoop db x t' .lastChild = .ok false := by unfold moveNoop; rw [if_neg h3]
          have hrs : resolveSorted cfg db .lastChild t' x.vals = .ok (.lastChild, t') := rfl
          have hrp : resolvePos db .lastChild t' = .ok (.lastChild, t') := rfl
          simp only [hno, hrs, hrp] at e
          split at e
          · cases e
          · rename_i hh
            cases e
            obtain ⟨e1, s, o, e2⟩ := holeOf_inner (by rintro rfl; cases h2) hh
            exact ⟨rfl, hx, e1.trans (h1.trans hT), s, o, by rw [e2, h1, hT]⟩
        · split at e
          · cases e
          · cases e; trivial
          · split at e
            · cases e
            · rename_i p1 t1 h3
              have h4 := resolveSorted_inner hn h2 h3
              split at e
              · cases e
              · rename_i p2 t2 h5
                have h6 := resolvePos_inner hn h4.2 h5
                split at e
                · cases e
                · rename_i hh
                  cases e
                  obtain ⟨e1, s, o, e2⟩ := holeOf_inner (fun _ => h6.2) hh
                  have hall := h6.1.trans (h4.1.trans (h1.trans hT))
                  exact ⟨rfl, hx, e1.trans hall, s, o, by rw [e2, hall]⟩

theorem planMove_ne_start {x t : Row} {cached : Option Row} {pos : Option Pos} {l : MoveVars} (e : planMove cfg db x t cached pos = .ok l) :
    l ≠ .start := by
  rintro rfl
  unfold planMove at e
  split at e
  · cases e
  · split at e
    · cases e
    · unfold planFrom at e
      repeat' split at e
      all_goals cases e

end

/-! ### What is written -/

section
variable {ι : Type} {T : ι → Int} {K : ι → Nat → Prop}

/-- The keys of the clients' trees. -/
def Keyed (T : ι → Int) (K : ι → Nat → Prop) (db : DB) : Prop := ∀ i, ∀ r ∈ db.rows, (r.tree = T i ↔ K i r.pk)

/-- an UPDATE inside tree `S` -/
structure Within (S : Int) (u : DB → DB) : Prop where
  upd : ∃ f : Row → Row, (∀ db, (u db).rows = db.rows.map f) ∧ (∀ r, r.tree ≠ S → f r = r) ∧ ∀ r, r.tree = S → (f r).tree = S ∧ (f r).pk = r.pk

theorem Within.keyed {i : ι} {u : DB → DB} (hu : Within (T i) u) {db : DB} (h : Keyed T K db) : Keyed T K (u db) := by
  obtain ⟨f, h1, h2, h3⟩ := hu
  intro j r' hr'
  rw [h1] at hr'
  obtain ⟨r, hr, rfl⟩ := List.mem_map.1 hr'
  by_cases hS : r.tree = T i
  · rw [(h3 r hS).1, (h3 r hS).2, ← h j r hr, hS]
  · rw [h2 r hS]; exact h j r hr

theorem Within.frame {S S' : Int} {u : DB → DB} (hu : Within S u) (hne : S' ≠ S) (db : DB) : treeRows S' (u db) = treeRows S' db := by
  obtain ⟨f, h1, h2, h3⟩ := hu
  unfold treeRows
  rw [h1]
  induction db.rows with
  | nil => rfl
  | cons r l ih =>
    rw [List.map_cons]
    by_cases hS : r.tree = S
    · rw [List.filter_cons_of_neg (by rw [(h3 r hS).1]; simpa using fun e => hne e.symm),
        List.filter_cons_of_neg (by rw [hS]; simpa using fun e => hne e.symm), ih]
    · rw [h2 r hS]
      rw [List.filter_cons, List.filter_cons, ih]

theorem Within.own {S : Int} {u : DB → DB} (hu : Within S u) {a b : DB} (h : treeRows S a = treeRows S b) : treeRows S (u a) = treeRows S (u b) := by
  obtain ⟨f, h1, h2, h3⟩ := hu
  have key : ∀ l : List Row, (l.map f).filter (·.tree == S) = (l.filter (·.tree == S)).map f := by
    intro l
    induction l with
    | nil => rfl
    | cons r l ih =>
      rw [List.map_cons]
      by_cases hS : r.tree = S
      · rw [List.filter_cons_of_pos (by rw [(h3 r hS).1]; simp), List.filter_cons_of_pos (by simpa using hS), ih, List.map_cons]
      · rw [h2 r hS, List.filter_cons_of_neg (by simpa using hS), List.filter_cons_of_neg (by simpa using hS), ih]
  unfold treeRows at h ⊢
  rw [h1, h1, key, key, h]

theorem within_id (S : Int) : Within S id := ⟨id, fun _ => by simp, fun _ _ => rfl, fun _ h => ⟨h, rfl⟩⟩

theorem within_gap (S s o : Int) : Within S (fun db => alterGap db S s o) := by
  refine ⟨gapRow S s o, fun _ => rfl, fun r h => ?_, fun r h => ?_⟩
  · unfold gapRow; rw [if_neg (fun e => h e.2)]
  · unfold gapRow; split <;> exact ⟨h, rfl⟩

theorem within_jump {S : Int} {x : Row} (hx : x.tree = S) (j d : Int) : Within S (fun db => moveRows db x S j d) := by
  refine ⟨jumpRow x.tree x.lft x.rgt S j d, fun _ => rfl, fun r h => ?_, fun r h => ?_⟩
  · unfold jumpRow; rw [if_neg (fun e => h (e.1.trans hx))]
  · unfold jumpRow; split
    · exact ⟨rfl, rfl⟩
    · exact ⟨h, rfl⟩

/-- the row with a key of the tree is found in the tree -/
theorem get?_congr {i : ι} {a b : DB} (ha : Keyed T K a) (hb : Keyed T K b) (h : treeRows (T i) a = treeRows (T i) b) {k : Nat} (hk : K i k) :
    a.get? k = b.get? k := by
  have key : ∀ {d : DB}, Keyed T K d → d.get? k = (treeRows (T i) d).find? (·.pk == k) := by
    intro d hd
    unfold DB.get? treeRows
    rw [List.find?_filter]
    have hall : ∀ r ∈ d.rows, (r.pk == k) = ((r.tree == T i) && (r.pk == k)) := by
      intro r hr
      by_cases e : r.pk = k
      · have := (hd i r hr).2 (e ▸ hk)
        simp [this, e]
      · simp [e]
    clear hd
    revert hall
    generalize d.rows = l
    induction l with
    | nil => intro _; rfl
    | cons r l ih =>
      intro hall
      rw [List.find?_cons, List.find?_cons, hall r (by simp), ih (fun q hq => hall q (List.mem_cons_of_mem _ hq))]
      congr 1
      have := hall r (by simp)
      rw [Bool.eq_iff_iff] at this ⊢
      simp at this ⊢
  rw [key ha, key hb, h]

/-- what the statements of a call rely on -/
def Relies (T : ι → Int) (K : ι → Nat → Prop) (i : ι) (x t : Row) (l : MoveVars) (db : DB) : Prop :=
  Keyed T K db ∧ InTree (T i) x l ∧ K i x.pk ∧ K i t.pk ∧ (match l with | .start => NI db.rows ∧ t ∈ db.rows ∧ x.tree = T i ∧ t.tree = T i | _ => True)

theorem relies_next {i : ι} {x t : Row} {l l' : MoveVars} {db : DB} {u : DB → DB} (h : Relies T K i x t l db) (hu : Within (T i) u)
    (hl : InTree (T i) x l') (hs : l' ≠ .start) : Relies T K i x t l' (u db) := by
  refine ⟨hu.keyed h.1, hl, h.2.2.1, h.2.2.2.1, ?_⟩
  cases l' with
  | start => exact absurd rfl hs
  | planned => trivial
  | over => trivial

theorem local_of {i : ι} (hT : ∀ j, j ≠ i → T j ≠ T i) {x t : Row} {st : Stmt DB MoveVars}
    (hr : ∀ a b l, Relies T K i x t l a → Relies T K i x t l b → treeRows (T i) a = treeRows (T i) b → st a l = st b l)
    (hw : ∀ a l u l', Relies T K i x t l a → st a l = .ok (u, l') → (u = id ∧ l' = l) ∨ (Within (T i) u ∧ InTree (T i) x l' ∧ l' ≠ .start)) :
    Local (Relies T K i x t) (treeRows (T i)) (fun X => ∃ j, j ≠ i ∧ X = treeRows (T j)) st := by
  refine ⟨hr, fun a l u l' ha he b hb hab => ?_⟩
  rcases hw a l u l' ha he with ⟨rfl, rfl⟩ | ⟨h1, h2, h3⟩
  · exact ⟨hb, hab, fun _ _ => rfl⟩
  · refine ⟨relies_next hb h1 h2 h3, h1.own hab, ?_⟩
    rintro X ⟨j, hj, rfl⟩
    exact h1.frame (hT j hj) b

/-- Every statement of a `move` inside a tree is local to the tree. -/
theorem moveClient_local (cfg : Cfg) (key : Nat) {i : ι} (hT : ∀ j, j ≠ i → T j ≠ T i) {x t : Row} {cached : Option Row} {pos : Option Pos}
    (hin : Inside cfg t pos) :
    (moveClient cfg key x t cached pos).Local (Relies T K i x t) (treeRows (T i)) (fun X => ∃ j, j ≠ i ∧ X = treeRows (T j)) := by
  intro st hst
  simp only [moveClient, List.mem_cons, List.not_mem_nil, or_false] at hst
  rcases hst with rfl | rfl | rfl | rfl | rfl | rfl
  · refine local_of hT (fun a b l ha hb hab => ?_) (fun a l u l' ha he => ?_)
    · cases l with
      | start =>
        obtain ⟨h1, h2, h3, h4⟩ := hb.2.2.2.2
        unfold stPlan
        dsimp only
        rw [planMove_congr h1 h2 h4 hin hab]
      | planned => rfl
      | over => rfl
    · cases l with
      | start =>
        obtain ⟨h1, h2, h3, h4⟩ := ha.2.2.2.2
        unfold stPlan at he
        dsimp only at he
        split at he
        · cases he
        · rename_i hp
          cases he
          exact Or.inr ⟨within_id _, planMove_inner h1 h2 h3 h4 hin hp, planMove_ne_start hp⟩
      | planned => cases he; exact Or.inl ⟨rfl, rfl⟩
      | over => cases he; exact Or.inl ⟨rfl, rfl⟩
  · refine local_of hT (fun _ _ _ _ _ _ => rfl) (fun a l u l' ha he => ?_)
    cases l with
    | planned node target below hole tree np =>
      cases he
      obtain ⟨h1, h2, h3, s, o, rfl⟩ := ha.2.1
      exact Or.inr ⟨within_gap _ _ _, ⟨h1, h2, h3, s, o, rfl⟩, nofun⟩
    | start => cases he; exact Or.inl ⟨rfl, rfl⟩
    | over => cases he; exact Or.inl ⟨rfl, rfl⟩
  · refine local_of hT (fun a b l ha hb hab => ?_) (fun a l u l' ha he => ?_)
    · cases l with
      | planned node target below hole tree np =>
        unfold stFetch
        dsimp only
        rw [get?_congr ha.1 hb.1 hab (by rw [ha.2.1.1]; exact ha.2.2.1)]
      | start => rfl
      | over => rfl
    · cases l with
      | planned node target below hole tree np =>
        unfold stFetch at he
        dsimp only at he
        obtain ⟨h1, h2, h3, h4⟩ := ha.2.1
        split at he
        · cases he
        · rename_i n hn
          cases he
          have hm : n ∈ a.rows ∧ n.pk = node.pk := ⟨List.mem_of_find?_eq_some hn, by simpa using List.find?_some hn⟩
          exact Or.inr ⟨within_id _, ⟨hm.2.trans h1, (ha.1 i n hm.1).2 (by rw [hm.2, h1]; exact ha.2.2.1), h3, h4⟩, nofun⟩
      | start => cases he; exact Or.inl ⟨rfl, rfl⟩
      | over => cases he; exact Or.inl ⟨rfl, rfl⟩
  · refine local_of hT (fun _ _ _ _ _ _ => rfl) (fun a l u l' ha he => ?_)
    cases l with
    | planned node target below hole tree np =>
      cases he
      obtain ⟨h1, h2, h3, h4⟩ := ha.2.1
      subst h3
      exact Or.inr ⟨within_jump h2 _ _, ⟨h1, h2, rfl, h4⟩, nofun⟩
    | start => cases he; exact Or.inl ⟨rfl, rfl⟩
    | over => cases he; exact Or.inl ⟨rfl, rfl⟩
  · refine local_of hT (fun _ _ _ _ _ _ => rfl) (fun a l u l' ha he => ?_)
    cases l with
    | planned node target below hole tree np =>
      cases he
      have h := ha.2.1
      refine Or.inr ⟨?_, h, nofun⟩
      unfold closeGap
      rw [h.2.1]
      exact within_gap _ _ _
    | start => cases he; exact Or.inl ⟨rfl, rfl⟩
    | over => cases he; exact Or.inl ⟨rfl, rfl⟩
  · refine local_of hT (fun a b l ha hb hab => ?_) (fun a l u l' ha he => ?_)
    · cases l with
      | planned node target below hole tree np =>
        unfold stResult
        dsimp only
        rw [get?_congr ha.1 hb.1 hab (by rw [ha.2.1.1]; exact ha.2.2.1), get?_congr ha.1 hb.1 hab ha.2.2.2.1]
      | start => rfl
      | over => rfl
    · cases l with
      | planned node target below hole tree np =>
        unfold stResult at he
        dsimp only at he
        split at he
        · cases he; exact Or.inr ⟨within_id _, trivial, nofun⟩
        · cases he
      | start => cases he; exact Or.inl ⟨rfl, rfl⟩
      | over => cases he; exact Or.inl ⟨rfl, rfl⟩

end

end Verif.NS
