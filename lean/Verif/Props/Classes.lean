/-
C67: objects of inherited models.
-/
import Verif.MP.Classes
import Verif.NS.Classes
import Verif.AL.Classes
import Verif.LT.Classes
import Verif.AL.Example
import Verif.Props.MPMove
import Verif.Props.NSTree
import Verif.Props.ALTree
import Verif.Props.LTTree

/-! ### AL -/

namespace Verif.AL

variable {cfg : Cfg} {db : DB}

/-- **C67 for AL, `add_sibling`**: with a target of any class. -/
theorem C67_al_add_sibling (ho : cfg.ordered = false) (h : Consistent cfg db) {t : Row} (ht : t ∈ db.rows) (ct : Cls) {posArg : Option Pos}
    {pos : Pos} (hpos : preparePosForAddSibling false posArg = .ok pos) {new : Row} (hf : Fresh db new) :
    ∃ p, t.pk ∈ forest cfg db p ∧ ∃ db' obj, addSiblingC cfg db ct t posArg new = .ok (db', obj) ∧
      AddedAt cfg db db' obj new p (sibAsked t.pk pos) := by
  rw [addSiblingC_eq ho (h.inv ho) ht]
  exact C31_add_sibling ho h ht hpos hf

/-- **C67 for AL, `move`**: for objects of any classes, every move that is not to be refused. -/
theorem C67_al_move (ho : cfg.ordered = false) (h : Consistent cfg db) {x t : Row} (hx : x ∈ db.rows) (ht : t ∈ db.rows) (cn ct : Cls)
    {cached : Option Int} {posArg : Option Pos} {pos : Pos} (hpos : preparePosForMove false posArg = .ok pos)
    (hr : ¬ (forest cfg db).MoveRefused x.pk t.pk pos) :
    ∃ p, t.pk ∈ forest cfg db p ∧ ∃ db' obj, moveC cfg db cn ct x t cached posArg = .ok (db', obj) ∧
      MovedTo cfg db db' obj x ((forest cfg db).moveAsked x.pk p t.pk pos) := by
  have hi := h.inv ho
  rw [forest_eq hi.toAI] at hr
  obtain ⟨db', obj, e, hm⟩ := moveC_unsorted ho hi hx ht (cached := cached) hpos hr cn ct
  refine ⟨_, (mem_forest hi.toAI ht).2 rfl, db', obj, e, consistent_of_inv ho hm.inv, ?_, hm.data, hm.obj⟩
  rw [forest_eq hm.inv.toAI, forest_eq hi.toAI]
  exact hm.forest

/-- **C67 for AL, refused moves** (partial: except for a leaf that is moved below itself through an object of another class). -/
theorem C67_al_refused_partial (h : Wf cfg db) {x t : Row} (hx : x ∈ db.rows) {cached : Option Int} {posArg : Option Pos} {pos : Pos}
    (hpos : preparePosForMove cfg.ordered posArg = .ok pos) (hr : (forest cfg db).MoveRefused x.pk t.pk pos) {cn ct : Cls}
    (hs : t.pk = x.pk → cn = ct ∨ forest cfg db (some t.pk) ≠ []) :
    moveC cfg db cn ct x t cached posArg = .error .invalidMoveToDescendant := by
  rw [forest_eq h.ai] at hr hs
  refine moveC_refused h.ai hx hpos hr (fun e => (hs e).imp_right fun hne => ?_)
  cases hl : isLeaf cfg db t with
  | false => rfl
  | true =>
    refine absurd ?_ hne
    rw [List.eq_nil_iff_forall_not_mem]
    intro k hk
    rw [mem_PF] at hk
    obtain ⟨r, hr, e, _⟩ := hk
    have hc : r ∈ children cfg db t := mem_children.2 ⟨hr, e⟩
    unfold isLeaf at hl
    rw [List.isEmpty_iff.1 hl] at hc
    cases hc

/-- the root 1 with the child 2 -/
def exPair : DB := ⟨[⟨1, none, 1, []⟩, ⟨2, some 1, 1, []⟩]⟩

/-- **C67 fails for AL, `move`**: below itself, through an object of another class, a leaf becomes its own parent, and is in no tree. -/
theorem C67_al_self : Consistent exPlain exPair ∧ (forest exPlain exPair).MoveRefused 2 2 .firstChild ∧
    move exPlain exPair ⟨2, some 1, 1, []⟩ ⟨2, some 1, 1, []⟩ none (some .firstChild) = .error .invalidMoveToDescendant ∧
    ∃ db' obj, moveC exPlain exPair treeCls 1 ⟨2, some 1, 1, []⟩ ⟨2, some 1, 1, []⟩ none (some .firstChild) = .ok (db', obj) ∧
      forest exPlain db' none = [1] ∧ forest exPlain db' (some 1) = [] ∧ 2 ∈ forest exPlain db' (some 2) ∧ ¬ Consistent exPlain db' := by
  refine ⟨⟨wf_of_ai (cfg := exPlain) (ai_example id (by decide) (by decide)), by decide, by decide⟩, Or.inr ⟨rfl, rfl⟩, by decide,
    ⟨[⟨1, none, 1, []⟩, ⟨2, some 2, 1, []⟩]⟩, ⟨2, some 2, 1, []⟩, by decide, by decide, by decide, by decide, ?_⟩
  intro h
  obtain ⟨rank, hr⟩ := (h.inv rfl).toAI.rank
  exact absurd (hr ⟨2, some 2, 1, []⟩ (by decide) 2 rfl) (Nat.lt_irrefl _)

/-- the hypotheses of C67: an inherited target and an inherited node, next to the last sibling and next to itself -/
example : Consistent exPlain exDB ∧
    ((addSiblingC exPlain exDB 1 ⟨3, some 1, 4, []⟩ (some .right) ⟨9, none, 0, []⟩).toOption.map (fun x => forest exPlain x.1 (some 1))) = some [2, 3, 9] ∧
    ((moveC exPlain exDB 1 0 ⟨5, none, 3, []⟩ ⟨3, some 1, 4, []⟩ none (some .right)).toOption.map (fun x => forest exPlain x.1 (some 1))) = some [2, 3, 5] ∧
    ((moveC exPlain exDB 1 0 ⟨2, some 1, 1, []⟩ ⟨2, some 1, 1, []⟩ none (some .left)).toOption.map (fun x => forest exPlain x.1 (some 1))) = some [2, 3] :=
  ⟨consistent_of_inv rfl exDB_inv, by decide, by decide, by decide⟩

end Verif.AL

/-! ### LT -/

namespace Verif.LT

variable {cfg : Cfg} {db : DB}

/-- **C67 for LT**: for objects of any classes, with or without `node_order_by`, `move` has the outcome for objects of the tree model, unless
the node is moved below itself through an object of another class. -/
theorem C67_lt_move_partial {x t : Row} {cn ct : Cls} {posArg : Option Pos} {pos : Pos} (hpos : preparePosForMove cfg.ordered posArg = .ok pos)
    (hs : ct = cn ∨ ¬ (pos.isChild = true ∧ t.pk = x.pk)) : moveC cfg db cn ct x t posArg = move cfg db x t posArg := by
  refine moveC_eq (hs.imp_right fun h q hq => ?_)
  rw [hpos] at hq
  cases hq
  rintro ⟨h1, h2⟩
  exact h ⟨by rw [← h1]; cases pos <;> rfl, h2⟩

/-- the root 1 with the child 2 -/
def exPair : DB := { rows := [⟨1, [[65]], []⟩, ⟨2, [[65], [65]], []⟩] }

/-- **C67 fails for LT, `move`**: below itself, through an object of another class, a node leaves the tree with everything below it, and no
root is left. -/
theorem C67_lt_self : Consistent exPair ∧ (forest exPair).MoveRefused 1 1 .firstChild ∧
    move ⟨[]⟩ exPair ⟨1, [[65]], []⟩ ⟨1, [[65]], []⟩ (some .firstChild) = .error .invalidMoveToDescendant ∧
    ∃ db' obj, moveC ⟨[]⟩ exPair treeCls 1 ⟨1, [[65]], []⟩ ⟨1, [[65]], []⟩ (some .firstChild) = .ok (db', obj) ∧
      forest exPair none = [1] ∧ forest db' none = [] ∧ db'.rows.map Row.path = [[[65], [48]], [[65], [48], [65]]] ∧ ¬ Consistent db' := by
  refine ⟨consistent_iff.2 (inv_of_check (by decide)), Or.inr ⟨rfl, rfl⟩, by decide, _, _, rfl, by decide, by decide, by decide, ?_⟩
  intro h
  obtain ⟨p, hp, e⟩ := h.inv.inv.closed ⟨1, [[65], [48]], []⟩ (by decide) (by decide)
  revert e hp
  revert p
  decide

example : (moveC ⟨[]⟩ exPair 1 2 ⟨2, [[65], [65]], []⟩ ⟨1, [[65]], []⟩ (some .right)).toOption.map (fun x => (forest x.1 none, forest x.1 (some 1))) =
    some ([1, 2], []) := by decide

end Verif.LT

/-! ### NS -/

namespace Verif.NS

variable {cfg : Cfg} {db : DB}

/-- **C67 for NS, `add_sibling`** (partial: except on the right of an inherited node that is no root). -/
theorem C67_ns_add_sibling_partial (h : Consistent db) (ho : cfg.ordered = false) {t : Row} (ht : t ∈ db.rows) {ct : Cls} {cached : Option Row}
    (hc : CacheOk db t cached) {posArg : Option Pos} {pos : Pos} (hpos : preparePosForAddSibling false posArg = .ok pos) {new : Row}
    (hf : Fresh db new) (hr : posArg = some .right → t.pk ∈ forest db none ∨ ct = treeCls) :
    ∃ p, t.pk ∈ forest db p ∧ ∃ db' obj, addSiblingC cfg db ct t cached posArg new = .ok (db', obj) ∧
      AddedAt db db' obj new p (sibAsked t.pk pos) := by
  rw [addSiblingC_eq h.toNI ht]
  · exact C22_add_sibling h ho ht hc hpos hf
  · intro e
    rcases hr e with hr | hr
    · exact Or.inl ((par_eq_none h.toNI ht).1 ((mem_forest h ht).1 hr))
    · exact Or.inr hr

/-- **C67 fails for NS, `add_sibling`**, for every inherited target that is no root: on the right of it means on the left of it. -/
theorem C67_ns_add_right (h : Consistent db) (ho : cfg.ordered = false) {t : Row} (ht : t ∈ db.rows) {ct : Cls} (hc : ct ≠ treeCls)
    {cached : Option Row} {new : Row} (hf : Fresh db new) {p : Nat} (hp : t.pk ∈ forest db (some p)) :
    ∃ db' obj, addSiblingC cfg db ct t cached (some .right) new = .ok (db', obj) ∧ AddedAt db db' obj new (some p) (.before t.pk) := by
  have e := (mem_forest h ht).1 hp
  obtain ⟨db', obj, e1, ha⟩ := addSiblingC_right h ho ht (fun hl => by rw [(par_eq_none h.toNI ht).2 hl] at e; cases e) hc (cached := cached) hf
  rw [e] at ha
  exact ⟨db', obj, e1, .of h ha⟩

/-- **C67 for NS, `add_sibling` with `node_order_by`.** -/
theorem C67_ns_add_sibling_sorted (h : Consistent db) (ho : cfg.ordered = true) {t : Row} (ht : t ∈ db.rows) (ct : Cls) (cached : Option Row)
    (posArg : Option Pos) (new : Row) : addSiblingC cfg db ct t cached posArg new = addSibling cfg db t cached posArg new := by
  by_cases hp : posArg = some .right
  · subst hp
    unfold addSiblingC addSibling
    rw [ho]
    rfl
  · exact addSiblingC_eq h.toNI ht (fun e => absurd e hp)

/-- **C67 for NS, `move`** (partial: except on the right of an inherited node). -/
theorem C67_ns_move_partial (h : Consistent db) (ho : cfg.ordered = false) {x t : Row} (hx : x ∈ db.rows) (ht : t ∈ db.rows) {cn ct : Cls}
    {cached : Option Row} (hc : CacheOk db t cached) {posArg : Option Pos} {pos : Pos} (hpos : preparePosForMove false posArg = .ok pos)
    (hin : ¬ (forest db).MoveRefused x.pk t.pk pos) (hr : pos = .right → ct = treeCls) :
    ∃ p, t.pk ∈ forest db p ∧ ∃ res, moveC cfg db cn ct x t cached posArg = .ok res ∧
      MovedTo db res x t ((forest db).moveAsked x.pk p t.pk pos) := by
  obtain ⟨res, e, hm⟩ := moveC_unsorted h ho hx ht (cacheOk_par h ht hc) hpos (fun hr => hin ((refused_iff h hx ht pos).1 hr)) (cn := cn) hr
  refine ⟨_, (mem_forest h ht).2 rfl, res, e, ?_⟩
  rw [forest_eq h.toNI]
  exact .of hm

/-- **C67 fails for NS, `move`**, for every other inherited target: on the right of it means on the left of it. -/
theorem C67_ns_move_right (h : Consistent db) (ho : cfg.ordered = false) {x t : Row} (hx : x ∈ db.rows) (ht : t ∈ db.rows) (hk : x.pk ≠ t.pk)
    {cn ct : Cls} (hc : ct ≠ treeCls) {cached : Option Row} (hin : ¬ (forest db).MoveRefused x.pk t.pk .right) :
    ∃ p, t.pk ∈ forest db p ∧ ∃ res, moveC cfg db cn ct x t cached (some .right) = .ok res ∧
      MovedTo db res x t ((forest db).move x.pk p (.before t.pk)) := by
  obtain ⟨res, e, hm⟩ := moveC_right h ho hx ht hk (cached := cached)
    (fun he => hin ((refused_iff h hx ht .right).1 (Or.inl he))) (cn := cn) hc
  refine ⟨_, (mem_forest h ht).2 rfl, res, e, ?_⟩
  rw [forest_eq h.toNI]
  exact .of hm

/-- **C67 for NS, `move` with `node_order_by`** (partial: except below the node itself). -/
theorem C67_ns_move_sorted_partial (ho : cfg.ordered = true) {x t : Row} {cached : Option Row} {posArg : Option Pos} {pos : Pos}
    (hpos : preparePosForMove true posArg = .ok pos) (hs : ¬ (pos.isChild = true ∧ x.pk = t.pk)) (cn ct : Cls) :
    moveC cfg db cn ct x t cached posArg = move cfg db x t cached posArg :=
  moveC_sorted ho hpos hs cn ct

/-- **C67 for NS, refused moves** (partial: except for a leaf that is moved below itself through an object of another class). -/
theorem C67_ns_refused_partial (h : Consistent db) {x t : Row} (hx : x ∈ db.rows) (ht : t ∈ db.rows) {cached : Option Row} {posArg : Option Pos}
    {pos : Pos} (hpos : preparePosForMove cfg.ordered posArg = .ok pos) (hr : (forest db).MoveRefused x.pk t.pk pos) {cn ct : Cls}
    (hs : t.pk = x.pk → cn = ct ∨ forest db (some t.pk) ≠ []) :
    moveC cfg db cn ct x t cached posArg = .error .invalidMoveToDescendant := by
  refine moveC_refused h hx ht hpos ((refused_iff h hx ht pos).2 hr) ?_
  rintro rfl
  refine (hs rfl).imp_right fun hne => ?_
  cases hl : t.isLeaf with
  | false => rfl
  | true =>
    refine absurd ?_ hne
    rw [List.eq_nil_iff_forall_not_mem, forest_eq h.toNI]
    intro k hk
    rw [mem_PF h.toNI] at hk
    obtain ⟨r, hr, e, _⟩ := hk
    exact leaf_no_child h.toNI ht hl hr e

/-- the root 1 with the children 2, 3 and 4 -/
def exFour : DB := { rows := [⟨1, 1, 1, 8, 1, []⟩, ⟨2, 1, 2, 3, 2, []⟩, ⟨3, 1, 4, 5, 2, []⟩, ⟨4, 1, 6, 7, 2, []⟩] }

/-- **C67 fails for NS, `move`**: below itself, through an object of another class, a leaf gets an interval that cuts the others. -/
theorem C67_ns_self : Consistent exFour ∧ (forest exFour).MoveRefused 4 4 .firstChild ∧
    move ⟨[]⟩ exFour ⟨4, 1, 6, 7, 2, []⟩ ⟨4, 1, 6, 7, 2, []⟩ none (some .firstChild) = .error .invalidMoveToDescendant ∧
    ∃ res, moveC ⟨[]⟩ exFour treeCls 1 ⟨4, 1, 6, 7, 2, []⟩ ⟨4, 1, 6, 7, 2, []⟩ none (some .firstChild) = .ok res ∧
      res.db.rows = [⟨1, 1, 1, 6, 1, []⟩, ⟨2, 1, 2, 3, 2, []⟩, ⟨3, 1, 4, 5, 2, []⟩, ⟨4, 1, 3, 6, 3, []⟩] ∧ ¬ Consistent res.db := by
  refine ⟨(by decide : NI _) |> fun h => ⟨h, fun r hr => full_of_range 9 (by revert r; decide) (by revert r; decide)⟩, Or.inr ⟨rfl, rfl⟩, rfl,
    _, rfl, by decide, fun h => absurd h.toNI (by decide)⟩

/-- the hypotheses of the theorems, and the wrong side -/
example : Consistent exDB ∧
    ((addSiblingC ⟨[]⟩ exDB 1 ⟨3, 1, 4, 7, 2, []⟩ none (some .left) ⟨9, 0, 0, 0, 0, []⟩).toOption.map (fun x => forest x.1 (some 1))) = some [2, 9, 3] ∧
    ((addSiblingC ⟨[]⟩ exDB 1 ⟨3, 1, 4, 7, 2, []⟩ none (some .right) ⟨9, 0, 0, 0, 0, []⟩).toOption.map (fun x => forest x.1 (some 1))) = some [2, 9, 3] ∧
    ((addSibling ⟨[]⟩ exDB ⟨3, 1, 4, 7, 2, []⟩ none (some .right) ⟨9, 0, 0, 0, 0, []⟩).toOption.map (fun x => forest x.1 (some 1))) = some [2, 3, 9] ∧
    ((moveC ⟨[]⟩ exDB 1 1 ⟨2, 1, 2, 3, 2, []⟩ ⟨1, 1, 1, 8, 1, []⟩ none (some .left)).toOption.map (fun x => forest x.db none)) = some [2, 1, 5] ∧
    ((moveC ⟨[]⟩ exDB 1 1 ⟨2, 1, 2, 3, 2, []⟩ ⟨1, 1, 1, 8, 1, []⟩ none (some .right)).toOption.map (fun x => forest x.db none)) = some [2, 1, 5] :=
  ⟨exDB_inv, by decide, by decide, by decide, by decide, by decide⟩

end Verif.NS

/-! ### MP -/

namespace Verif

open MP

variable {cfg : Cfg} {db : DB}

/-- Two more positions after the last child of `p` (root for `none`) can be written in `steplen` characters. -/
def RoomAfter (cfg : Cfg) (db : DB) (p : Option Nat) : Prop :=
  ∀ r ∈ db.rows, r.pk ∈ forest cfg db p → ∀ n, lastpos cfg r.path = .ok n → n + 2 < cfg.alphabet.length ^ cfg.steplen

theorem tempRoom_of (hok : cfg.Ok) (h : Inv cfg db.rows) {t : Row} (ht : t ∈ db.rows) {pos : Pos}
    (hroom : RoomAfter cfg db (pos.dest (par cfg db.rows t) t.pk)) : TempRoom cfg db.rows (destPath cfg pos t) := by
  have hP := destPath_isPar (cfg := cfg) h ht pos
  intro r hr hrp n hn hcap
  refine hroom r hr ?_ n (by rw [hn]; exact lastpos_eq hok _ hcap)
  rw [forest_eq h hok, mem_PF h.toPInv, ← at?_dest h ht pos]
  exact ⟨r, hr, (par_eq_at h.toPInv hok hr hP).2 hrp, rfl⟩

/-- **C67 for MP, `add_sibling`** (partial: except on the right of an inherited node when the last position is taken): the outcome for an
object of the tree model, with or without `node_order_by`. -/
theorem C67_mp_add_sibling_partial (hok : cfg.Ok) (h : Consistent cfg db) {t : Row} (ht : t ∈ db.rows) {ct : Cls} {posArg : Option Pos}
    {new : Row} (hr : posArg = some .right → ct = treeCls ∨ ∃ p, t.pk ∈ forest cfg db p ∧ ¬ LastTaken cfg db p) :
    addSiblingC cfg db ct t posArg new = addSibling cfg db t posArg new := by
  have h := (consistent_iff hok).1 h
  refine addSiblingC_eq hok h.toPInv ht (fun e => (hr e).imp_right ?_)
  rintro ⟨p, hp, hl⟩ hu
  refine hl ?_
  rw [forest_eq h hok, mem_PF h.toPInv] at hp
  obtain ⟨q, hq, rfl, hk⟩ := hp
  rw [h.inv.pk_inj hq ht hk]
  exact lastTaken_of hok h (isPar_pp h.toPInv ht) hu

/-- What C67 asks of `move`: the same exception, or the same forest and data, from a consistent tree to a consistent tree, and an object that is
up to date. -/
def SameOutcome (cfg : Cfg) (x : Row) (r r' : Except Err MoveResult) : Prop :=
  (∃ e, r = .error e ∧ r' = .error e) ∨
  ∃ res res', r = .ok res ∧ r' = .ok res' ∧ (Consistent cfg res.db → Consistent cfg res'.db) ∧ forest cfg res'.db = forest cfg res.db ∧
    data res'.db.rows = data res.db.rows ∧ (res.node ∈ res.db.rows ∧ res.node.pk = x.pk → res'.node ∈ res'.db.rows ∧ res'.node.pk = x.pk)

theorem SameOutcome.refl (x : Row) (r : Except Err MoveResult) : SameOutcome cfg x r r := by
  cases r with
  | error e => exact Or.inl ⟨e, rfl, rfl⟩
  | ok res => exact Or.inr ⟨res, res, rfl, rfl, id, rfl, rfl, id⟩

/-- **C67 for MP, `move`** (partial: with room after the new siblings, and not below the node itself), with or without `node_order_by`: for
objects of any classes, the outcome for objects of the tree model. -/
theorem C67_mp_move_partial (hok : cfg.Ok) (h : Consistent cfg db) {x t : Row} (hx : x ∈ db.rows) (ht : t ∈ db.rows) {posArg : Option Pos}
    {pos : Pos} (hprep : preparePosForMove cfg.ordered posArg = .ok pos) (hself : ¬ (pos.isChild = true ∧ t.pk = x.pk)) (cn ct : Cls) :
    ∃ p, t.pk ∈ forest cfg db p ∧ (RoomAfter cfg db (pos.dest p t.pk) →
      SameOutcome cfg x (move cfg db x t posArg) (moveC cfg db cn ct x t posArg)) := by
  have hi := (consistent_iff hok).1 h
  refine ⟨par cfg db.rows t, mem_forest_par hok hi ht, fun hroom => ?_⟩
  rcases moveC_same hok hi hx ht hprep (tempRoom_of hok hi ht hroom) (by rw [isChildPos_eq]; exact hself) cn ct with
    e | ⟨res, res', e1, e2, e3, hg⟩
  · rw [e]; exact .refl x _
  · refine Or.inr ⟨res, res', e1, e2, fun _ => (consistent_iff hok).2 hg.inv, ?_, ?_, fun _ => hg.node⟩
    · rw [forest_eq hg.inv hok, e3, forest_eq hi hok]; exact hg.forest
    · rw [e3]; exact hg.data

/-- **C67 for MP, `move` without `node_order_by`** (partial: with room after the new siblings): the forest asked for. -/
theorem C67_mp_move_unsorted_partial (hok : cfg.Ok) (h : Consistent cfg db) (ho : cfg.ordered = false) {x t : Row} (hx : x ∈ db.rows)
    (ht : t ∈ db.rows) {pos : Pos} (hpos : IsPlainPos pos) {posArg : Option Pos}
    (harg : posArg = some pos ∨ (posArg = none ∧ pos = .lastSibling)) (hin : ¬ (forest cfg db).MoveRefused x.pk t.pk pos) (cn ct : Cls) :
    ∃ p, t.pk ∈ forest cfg db p ∧ (RoomAfter cfg db (pos.dest p t.pk) →
      ∃ res, moveC cfg db cn ct x t posArg = .ok res ∧ MovedTo cfg db res x ((forest cfg db).moveAsked x.pk p t.pk pos)) := by
  have hi := (consistent_iff hok).1 h
  refine ⟨par cfg db.rows t, mem_forest_par hok hi ht, fun hroom => ?_⟩
  have hprep := plainPos_prep hpos harg
  have htr := tempRoom_of hok hi ht hroom
  rcases move_unsorted hok hi ho hx ht hprep (fun _ _ => htr) with ⟨hr, _⟩ | ⟨_, ⟨res, e, hg⟩ | ⟨_, hu⟩⟩
  · exact absurd ((refused_iff hok hi hx ht pos).1 hr) hin
  · rw [forest_eq hi hok]
    rcases moveC_same hok hi hx ht (by rw [ho]; exact hprep) htr (fun hc => hin ((refused_iff hok hi hx ht pos).1 (Or.inr hc))) cn ct with
      e2 | ⟨r, res', e1, e2, e3, hg2⟩
    · exact ⟨res, by rw [e2, e], .of hok hg⟩
    · rw [e] at e1
      cases e1
      refine ⟨res', e2, .of hok (F := _) (P := destPath cfg pos t) (t := t) ?_⟩
      have : PF cfg db.rows = (PF cfg db.rows).moveAsked x.pk (par cfg db.rows t) t.pk pos := by rw [← hg.forest, e3]
      rw [this] at hg2
      exact hg2
  · exact absurd hu (tempRoom_unused hok htr)

/-- **C67 for MP, refused moves** (partial: except for a leaf that is moved below itself through an object of another class). -/
theorem C67_mp_refused_partial (hok : cfg.Ok) (h : Consistent cfg db) {x t : Row} (hx : x ∈ db.rows) (ht : t ∈ db.rows) {posArg : Option Pos}
    {pos : Pos} (hprep : preparePosForMove cfg.ordered posArg = .ok pos) (hr : (forest cfg db).MoveRefused x.pk t.pk pos) {cn ct : Cls}
    (hs : t.pk = x.pk → ct = cn ∨ forest cfg db (some t.pk) ≠ []) :
    moveC cfg db cn ct x t posArg = .error .invalidMoveToDescendant := by
  have hi := (consistent_iff hok).1 h
  refine moveC_refused hok hi hx ht hprep ((refused_iff hok hi hx ht pos).2 hr) (fun e => (hs e).imp_right fun hne => ?_)
  cases hl : t.isLeaf with
  | false => rfl
  | true =>
    refine absurd ?_ hne
    rw [forest_eq hi hok, List.eq_nil_iff_forall_not_mem]
    intro k hk
    rw [mem_PF hi.toPInv] at hk
    obtain ⟨r, hr, e, _⟩ := hk
    exact leaf_no_child hi ht hl hr ((par_eq_some_iff hi.inv ht).1 e)

/-- **C67 fails for MP, `add_sibling`**: on the right of an inherited last sibling at the last position there is no PathOverflow; the new path
has a step that is too long, and the new node is below nobody. -/
theorem C67_mp_add_right : ∃ db t new, Consistent exCfg db ∧ t ∈ db.rows ∧ Fresh db new ∧
    addSiblingC exCfg db treeCls t (some .right) new = .error .pathOverflow ∧
    ∃ db' obj, addSiblingC exCfg db 1 t (some .right) new = .ok (db', obj) ∧ obj.path = [49, 49, 48] ∧ obj.depth = 2 ∧ ¬ Consistent exCfg db' := by
  refine ⟨{ rows := [⟨1, [49], 1, 1, []⟩, ⟨2, [49, 57], 2, 0, []⟩] }, ⟨2, [49, 57], 2, 0, []⟩, ⟨9, [], 0, 0, []⟩,
    ⟨by decide, by decide, by intro p; cases p <;> decide, by decide, by decide⟩, by decide, by unfold Fresh; decide, by decide,
    _, _, rfl, by decide, by decide, fun h => absurd (((consistent_iff exCfg_ok).1 h).depth ⟨9, [49, 49, 48], 2, 0, []⟩ (by decide)) (by decide)⟩

/-- nine roots: no position is free -/
def exNine : DB := { rows := (List.range 9).map (fun i => ⟨i + 1, [49 + i], 1, 0, []⟩) }

theorem exNine_consistent : Consistent exCfg exNine :=
  ⟨by decide, by decide, by intro p; cases p <;> decide, by decide, by decide⟩

/-- **C67 fails for MP, `move`**: on the right of an inherited last sibling the moved node vanishes below another one. -/
theorem C67_mp_move_right : Consistent exCfg exNine ∧
    move exCfg exNine ⟨1, [49], 1, 0, []⟩ ⟨9, [57], 1, 0, []⟩ (some .right) = .error .pathOverflow ∧
    ∃ res, moveC exCfg exNine treeCls 1 ⟨1, [49], 1, 0, []⟩ ⟨9, [57], 1, 0, []⟩ (some .right) = .ok res ∧
      res.node.path = [49, 48] ∧ 1 ∉ forest exCfg res.db none ∧ ¬ Consistent exCfg res.db :=
  ⟨exNine_consistent, rfl, _, rfl, by decide, by decide,
    fun h => absurd (((consistent_iff exCfg_ok).1 h).inv.closed ⟨1, [49, 48], 2, 0, []⟩ (by decide) (by decide)) (by decide)⟩

/-- **C67 fails for MP, `move`**: for an inherited node that already is the first sibling (or the last one), the move there is not seen to
be one that changes nothing, and raises PathOverflow when no position is free. -/
theorem C67_mp_noop : Consistent exCfg exNine ∧
    (move exCfg exNine ⟨1, [49], 1, 0, []⟩ ⟨5, [53], 1, 0, []⟩ (some .firstSibling)).toOption.map (·.db.rows) = some exNine.rows ∧
    moveC exCfg exNine 1 treeCls ⟨1, [49], 1, 0, []⟩ ⟨5, [53], 1, 0, []⟩ (some .firstSibling) = .error .pathOverflow ∧
    (move exCfg exNine ⟨9, [57], 1, 0, []⟩ ⟨5, [53], 1, 0, []⟩ (some .lastSibling)).toOption.map (·.db.rows) = some exNine.rows ∧
    moveC exCfg exNine 1 treeCls ⟨9, [57], 1, 0, []⟩ ⟨5, [53], 1, 0, []⟩ (some .lastSibling) = .error .pathOverflow :=
  ⟨exNine_consistent, by decide, rfl, by decide, rfl⟩

/-- **C67 fails for MP, `move`**: below itself, through an object of another class, a leaf leaves the tree. -/
theorem C67_mp_self : ∃ db, Consistent exCfg db ∧ (⟨2, [49, 49], 2, 0, []⟩ : Row) ∈ db.rows ∧ (forest exCfg db).MoveRefused 2 2 .firstChild ∧
    ∃ res, moveC exCfg db treeCls 1 ⟨2, [49, 49], 2, 0, []⟩ ⟨2, [49, 49], 2, 0, []⟩ (some .firstChild) = .ok res ∧
      res.node.path = [49, 49, 49] ∧ forest exCfg res.db (some 1) = [] ∧ ¬ Consistent exCfg res.db :=
  ⟨{ rows := [⟨1, [49], 1, 1, []⟩, ⟨2, [49, 49], 2, 0, []⟩] }, ⟨by decide, by decide, by intro p; cases p <;> decide, by decide, by decide⟩,
    by decide, Or.inr ⟨rfl, rfl⟩, _, rfl, by decide, by decide,
    fun h => absurd (((consistent_iff exCfg_ok).1 h).inv.closed ⟨2, [49, 49, 49], 3, 0, []⟩ (by decide) (by decide)) (by decide)⟩

/-- the hypotheses of the partial theorems: a move that the classes keep from being seen as one that changes nothing, and one on the right of an
inherited last sibling -/
example : Consistent exCfg exDB ∧ RoomAfter exCfg exDB (some 1) ∧
    (∃ res, moveC exCfg exDB 1 1 ⟨2, [49, 49], 2, 0, []⟩ ⟨3, [49, 51], 2, 1, []⟩ (some .firstSibling) = .ok res ∧ forest exCfg res.db (some 1) = [2, 3]) ∧
    (∃ res, moveC exCfg exDB 1 2 ⟨2, [49, 49], 2, 0, []⟩ ⟨3, [49, 51], 2, 1, []⟩ (some .right) = .ok res ∧ forest exCfg res.db (some 1) = [3, 2]) := by
  refine ⟨exDB_consistent, ?_, ⟨_, rfl, by decide⟩, ⟨_, rfl, by decide⟩⟩
  intro r hr _ n hn
  simp only [exDB, List.mem_cons, List.not_mem_nil, or_false] at hr
  rcases hr with rfl | rfl | rfl | rfl | rfl <;> (revert hn; simp [lastpos, lastStep, exCfg, NumConv.str2int, NumConv.str2intLoop, NumConv.digit, List.range', List.findIdx?_cons]; rintro rfl; decide)

end Verif
