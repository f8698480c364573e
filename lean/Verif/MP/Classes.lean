/-
MP: `add_sibling` and `move` for objects of different classes.

`a == b` for model instances (Django's `Model.__eq__`) is false for objects of different classes, even with the same primary key.
-/
import Verif.MP.Move
import Verif.Classes

namespace Verif

namespace MP

/-- `a == b` for an object `a` of the class `c` and the outcome `b` of a query -/
def sameNodeC (c : Cls) (a : Row) (b : Option Row) : Bool := c == treeCls && sameNode a b

/-- mp_tree.py:758-835 `_reorder_nodes_before_add_or_move` -/
def reorderC (cfg : Cfg) (db : DB) (pos : Pos) (newpos : Option Int) (newdepth : Nat) (ct : Cls) (target : Row)
    (sibs : List Row) (oldpath : Option (List Nat)) :
    Except Err (DB × Option (List Nat) × List Nat) :=
  if pos = .lastSibling ∨ (pos = .right ∧ sameNodeC ct target (lastSibling cfg db target)) then
    match lastSibling cfg db target with
    | none => .error .attributeError
    | some last =>
      match incPath cfg last.path with
      | .error e => .error e
      | .ok newpath =>
        match oldpath with
        | none => .ok (db, none, newpath)
        | some old =>
          match setNewpath cfg db old newpath with
          | .error e => .error e
          | .ok db => .ok (db, some old, newpath)
  else
    match (match newpos with
      | some n => Except.ok (n, sibs)
      | none => placeSiblings cfg db pos target) with
    | .error e => .error e
    | .ok (newpos, sibs) =>
      match getPath cfg target.path newdepth newpos with
      | .error e => .error e
      | .ok newpath =>
        match (match oldpath with
          | none => Except.ok (db, none)
          | some old => moveToTemp cfg db target sibs newdepth old newpath) with
        | .error e => .error e
        | .ok (db, temp) =>
          match collectShift cfg sibs newpath with
          | .error e => .error e
          | .ok moves =>
            match shiftLoop cfg moves.reverse db oldpath with
            | .error e => .error e
            | .ok (db, oldpath) =>
              match oldpath with
              | none => .ok (db, none, newpath)
              | some old =>
                match setNewpath cfg db (temp.getD old) newpath with
                | .error e => .error e
                | .ok db => .ok (db, some old, newpath)

/-- mp_tree.py:436-478 `add_sibling` with a target of the class `ct` -/
def addSiblingC (cfg : Cfg) (db : DB) (ct : Cls) (target : Row) (pos : Option Pos) (new : Row) :
    Except Err (DB × Row) :=
  match preparePosForAddSibling cfg.ordered pos with
  | .error e => .error e
  | .ok pos =>
    match (if pos = .sortedSibling then sortedPos cfg (siblings cfg db target) new
           else Except.ok (pos, none, [])) with
    | .error e => .error e
    | .ok (pos, newpos, sibs) =>
      match reorderC cfg db pos newpos target.depth ct target sibs none with
      | .error e => .error e
      | .ok (db, _, newpath) => finishAddSibling cfg db target.depth newpath new

/-- mp_tree.py:549-579 `update_move_to_child_vars`, with the class of the object named target afterwards: the last child is an object of the
tree model -/
def moveToChildVarsC (cfg : Cfg) (db : DB) (cn ct : Cls) (node target : Row) (pos : Pos) : Except Err (MoveVars × Cls) :=
  if isChildPos pos then
    if ct = cn ∧ target.pk = node.pk then .error .invalidMoveToDescendant
    else if target.isLeaf then
      .ok ({ target, newdepth := target.depth + 1, sibs := [], newpos := some 1, pos := .firstSibling }, ct)
    else
      match lastChild cfg db target with
      | none => .error .attributeError
      | some last =>
        .ok ({ target := last, newdepth := target.depth + 1, sibs := [], newpos := none,
               pos := childToSib pos }, treeCls)
  else .ok ({ target, newdepth := target.depth, sibs := [], newpos := none, pos }, ct)

/-- mp_tree.py:513-525: the special cases where nothing needs to be done -/
def moveNoopC (cfg : Cfg) (db : DB) (cn cv : Cls) (node : Row) (v : MoveVars) : Bool :=
  (v.newdepth == node.depth &&
    ((v.pos == .firstSibling && sameNodeC cn node (firstSibling cfg db v.target)) ||
     (v.pos == .lastSibling && sameNodeC cn node (lastSibling cfg db v.target)))) ||
  ((cn == cv && node.pk == v.target.pk) &&
    (v.pos == .left ||
     ((v.pos == .right || v.pos == .lastSibling) && sameNodeC cv v.target (lastSibling cfg db v.target))))

/-- mp_tree.py:513-534: `move` once the variables are known -/
def moveToC (cfg : Cfg) (db : DB) (cn cv : Cls) (node target target' : Row) (v : MoveVars) : Except Err MoveResult :=
  if moveNoopC cfg db cn cv node v then .ok ⟨db, node, target'⟩
  else
    match reorderC cfg db v.pos v.newpos v.newdepth cv v.target v.sibs (some node.path) with
    | .error e => .error e
    | .ok (db, oldpath, newpath) => finishMove cfg db node v.target target target' (oldpath.getD []) newpath

/-- mp_tree.py:480-534 `move` of an object of the class `cn` to a target of the class `ct` -/
def moveC (cfg : Cfg) (db : DB) (cn ct : Cls) (node target : Row) (pos : Option Pos) : Except Err MoveResult :=
  match preparePosForMove cfg.ordered pos with
  | .error e => .error e
  | .ok pos =>
    match moveToChildVarsC cfg db cn ct node target pos with
    | .error e => .error e
    | .ok (v, cv) =>
      let target' := if isChildPos pos then { target with numchild := target.numchild + 1 } else target
      if v.target.isDescendantOf node then .error .invalidMoveToDescendant
      else
        match moveSorted cfg db node v with
        | .error e => .error e
        | .ok none => .ok ⟨db, node, target'⟩
        | .ok (some v) => moveToC cfg db cn cv node target target' v

variable {cfg : Cfg}

theorem sameNodeC_imp {c : Cls} {a : Row} {b : Option Row} (h : sameNodeC c a b = true) : sameNode a b = true := by
  simp only [sameNodeC, Bool.and_eq_true] at h; exact h.2

/-! ### Reordering -/

/-- The class does not matter, unless the new place is on the right of the last sibling and there is no position left. -/
theorem reorderC_eq (hok : cfg.Ok) {db : DB} (h : PInv cfg db.rows) {t : Row} (ht : t ∈ db.rows) {ct : Cls} {pos : Pos} {newpos : Option Int}
    {d : Nat} {sibs : List Row} {old : Option (List Nat)}
    (hr : pos = .right → ct = treeCls ∨ (newpos = none ∧ d = t.depth ∧ ¬ LastUsed cfg db.rows (pp cfg.steplen t.path))) :
    reorderC cfg db pos newpos d ct t sibs old = reorder cfg db pos newpos d t sibs old := by
  by_cases hcase : pos = .right ∧ sameNode t (lastSibling cfg db t) = true ∧ ct ≠ treeCls
  · obtain ⟨rfl, hl, hc⟩ := hcase
    obtain ⟨rfl, rfl, hroom⟩ := (hr rfl).resolve_left hc
    obtain ⟨last, e, hlm, hlp, hmax⟩ := lastSibling_spec hok h ht
    have hlt : t = last := by
      rw [e, sameNode_iff] at hl
      exact h.inv.pk_inj ht hlm hl
    subst hlt
    obtain ⟨n, hn1, hn, hte⟩ := h.pos t ht
    have hcap : n + 1 < cfg.cap := by
      by_contra hc
      exact hroom ⟨t, ht, by rw [hte, pp_step hok _ hn, show n = cfg.cap - 1 by omega]⟩
    have hf : (ct == treeCls) = false := by simpa using hc
    have hnil : (siblings cfg db t).filter (fun r => decide (t.path < r.path)) = [] := by
      rw [List.filter_eq_nil_iff]
      intro r hr'
      rw [mem_siblings h hok ht] at hr'
      by_cases hrt : r = t
      · rw [hrt]; simp
      · simpa using plt_asymm (hmax r hr'.1 hr'.2 hrt)
    have hbase : basepath cfg t.path ((t.depth : Int) - 1) = pp cfg.steplen t.path := h.basepath hok ht
    have hlp : lastpos cfg t.path = .ok n := by rw [hte, lastpos_eq hok _ hn]
    have hinc : incPath cfg t.path = .ok (pp cfg.steplen t.path ++ stp cfg (n + 1)) := by
      conv => lhs; rw [hte]
      exact incPath_eq hok _ hcap
    have hget : getPath cfg t.path t.depth ((n : Int) + 1) = .ok (pp cfg.steplen t.path ++ stp cfg (n + 1)) := by
      rw [show ((n : Int) + 1) = ((n + 1 : Nat) : Int) by push_cast; rfl, getPath_eq hok _ _ hcap, hbase]
    unfold reorderC reorder
    rw [if_neg (by simp [sameNodeC, hf]), if_pos (Or.inr ⟨rfl, hl⟩)]
    simp only [e, hinc, placeSiblings, hlp, hnil, hget]
    cases old with
    | none => rfl
    | some o =>
      simp only [moveToTemp, ne_eq, not_true_eq_false, false_and, and_false, if_false, collectShift, List.reverse_nil, shiftLoop, Option.getD_none]
      rfl
  · have hiff : (pos = .lastSibling ∨ (pos = .right ∧ sameNodeC ct t (lastSibling cfg db t) = true)) ↔
        (pos = .lastSibling ∨ (pos = .right ∧ sameNode t (lastSibling cfg db t) = true)) := by
      constructor
      · rintro (e | ⟨e1, e2⟩)
        · exact Or.inl e
        · exact Or.inr ⟨e1, sameNodeC_imp e2⟩
      · rintro (e | ⟨e1, e2⟩)
        · exact Or.inl e
        · refine Or.inr ⟨e1, ?_⟩
          have hc : ct = treeCls := by
            by_contra hc
            exact hcase ⟨e1, e2, hc⟩
          simp [sameNodeC, hc, e2]
    unfold reorderC reorder
    by_cases hb : pos = .lastSibling ∨ (pos = .right ∧ sameNode t (lastSibling cfg db t) = true)
    · rw [if_pos hb, if_pos (hiff.2 hb)]; rfl
    · rw [if_neg hb, if_neg (fun e => hb (hiff.1 e))]; rfl

theorem sortedPos_not_right {l : List Row} {new : Row} {pos : Pos} {np : Option Int} {sibs : List Row}
    (e : sortedPos cfg l new = .ok (pos, np, sibs)) : pos ≠ .right := by
  rintro rfl
  unfold sortedPos at e
  simp only at e
  split at e
  · cases e
  · split at e <;> cases e

/-- **`add_sibling` with a target of any class**, except on the right of a last sibling that uses the last position: the same outcome as
with an object of the tree model. -/
theorem addSiblingC_eq (hok : cfg.Ok) {db : DB} (h : PInv cfg db.rows) {t : Row} (ht : t ∈ db.rows) {ct : Cls} {posArg : Option Pos} {new : Row}
    (hr : posArg = some .right → ct = treeCls ∨ ¬ LastUsed cfg db.rows (pp cfg.steplen t.path)) :
    addSiblingC cfg db ct t posArg new = addSibling cfg db t posArg new := by
  unfold addSiblingC addSibling
  cases hp : preparePosForAddSibling cfg.ordered posArg with
  | error e => rfl
  | ok pos =>
    simp only
    have hr' : pos = .right → ct = treeCls ∨ ¬ LastUsed cfg db.rows (pp cfg.steplen t.path) := by
      rintro rfl
      apply hr
      revert hp
      unfold preparePosForAddSibling
      cases posArg with
      | none => cases cfg.ordered <;> intro e <;> cases e
      | some p => cases p <;> cases cfg.ordered <;> intro e <;> first | rfl | cases e
    by_cases hs : pos = .sortedSibling
    · simp only [hs, if_true]
      cases hsp : sortedPos cfg (siblings cfg db t) new with
      | error e => rfl
      | ok r =>
        obtain ⟨p, np, sibs⟩ := r
        simp only
        rw [reorderC_eq hok h ht (fun e => absurd e (sortedPos_not_right hsp))]
        rfl
    · simp only [hs, if_false]
      rw [reorderC_eq hok h ht (fun e => (hr' e).imp_right (fun hn => ⟨rfl, rfl, hn⟩))]
      rfl

/-! ### Moving -/

theorem tempRoom_unused (hok : cfg.Ok) {rows : List Row} {P : List Nat} (h : TempRoom cfg rows P) : ¬ LastUsed cfg rows P := by
  rintro ⟨r, hr, e⟩
  have hcap := cap_gt_one hok
  have := h r hr (by rw [e, pp_step hok _ (by omega)]) (cfg.cap - 1) e (by omega)
  omega

/-- left of itself -/
theorem place_left_self (hok : cfg.Ok) {db : DB} (h : PInv cfg db.rows) {x : Row} (hx : x ∈ db.rows) {n : Nat} (h1 : 1 ≤ n) (hn : n < cfg.cap)
    (hxe : x.path = pp cfg.steplen x.path ++ stp cfg n) :
    ∃ s, Place cfg db.rows (pp cfg.steplen x.path) n
        ((siblings cfg db x).filter (fun r => !decide (r.path < x.path))) (· ≠ x.pk) s ∧
      PSlot cfg.steplen Row.pk Row.path (fun r => r ∈ db.rows ∧ r ≠ x) x.path s := by
  have hpl := place_left (K := fun _ => True) hok h hx trivial h1 hn hxe
  have key : ∃ s, NSlot cfg.steplen (fun r => r ∈ db.rows ∧ r.pk ≠ x.pk) x.path s ∧
      PSlot cfg.steplen Row.pk Row.path (fun r => r ∈ db.rows ∧ r ≠ x) x.path s := by
    have hsort := (siblings_sorted h x).filter (fun r => decide (x.path < r.path))
    have hmem : ∀ r, r ∈ (siblings cfg db x).filter (fun r => decide (x.path < r.path)) ↔
        (r ∈ db.rows ∧ pp cfg.steplen r.path = pp cfg.steplen x.path) ∧ x.path < r.path := by
      intro r; rw [List.mem_filter, mem_siblings h hok hx]; simp
    have hne : ∀ r ∈ db.rows, r.pk ≠ x.pk → r.path ≠ x.path := fun r hr hk e => hk (by rw [h.inv.path_inj hr hx e])
    cases hd : ((siblings cfg db x).filter (fun r => decide (x.path < r.path))).head? with
    | none =>
      rw [List.head?_eq_none_iff] at hd
      have hlast : ∀ r ∈ db.rows, r.pk ≠ x.pk → pp cfg.steplen r.path = pp cfg.steplen x.path → r.path < x.path := by
        intro r hr hk hp
        rcases plt_trichotomy r.path x.path with h7 | h7 | h7
        · exact h7
        · exact absurd h7 (hne r hr hk)
        · have := (hmem r).2 ⟨⟨hr, hp⟩, h7⟩
          rw [hd] at this; simp at this
      refine ⟨.last, fun r hr hp => hlast r hr.1 hr.2 hp, fun r hr hp => hlast r hr.1 ?_ hp⟩
      exact fun e => hr.2 (h.inv.pk_inj hr.1 hx e)
    | some next =>
      obtain ⟨g1, g2⟩ := head?_min hsort hd
      obtain ⟨⟨g3, g4⟩, g5⟩ := (hmem next).1 g1
      have hnk : next.pk ≠ x.pk := by
        intro e
        rw [h.inv.pk_inj g3 hx e] at g5
        exact plt_irrefl _ g5
      have hbet : ∀ r ∈ db.rows, r.pk ≠ x.pk → pp cfg.steplen r.path = pp cfg.steplen x.path → r.path < next.path → r.path < x.path := by
        intro r hr hk hp hlt
        rcases plt_trichotomy r.path x.path with h7 | h7 | h7
        · exact h7
        · exact absurd h7 (hne r hr hk)
        · by_cases he : r = next
          · rw [he] at hlt; exact absurd hlt (plt_irrefl _)
          · exact absurd hlt (plt_asymm (g2 r ((hmem r).2 ⟨⟨hr, hp⟩, h7⟩) he))
      refine ⟨.before next.pk, ⟨next, ⟨g3, hnk⟩, rfl, g4, plt_asymm g5, fun r hr hp hlt => hbet r hr.1 hr.2 hp hlt⟩,
        ⟨next, ⟨g3, fun e => hnk (by rw [e])⟩, rfl, g4, g5, fun r hr hp hlt => hbet r hr.1 ?_ hp hlt⟩⟩
      exact fun e => hr.2 (h.inv.pk_inj hr.1 hx e)
  obtain ⟨s, hs1, hs2⟩ := key
  exact ⟨s, ⟨hpl.isPar, hpl.one, hpl.cap, hpl.sorted, hpl.mem, fun r hr hp hlt _ => hpl.all r hr hp hlt trivial, by rw [← hxe]; exact hs1⟩, hs2⟩

/-- The reordering for a move to the position of a sibling, also next to the node itself. -/
theorem reorder_sib (hok : cfg.Ok) {db : DB} (h : PInv cfg db.rows) {x t : Row} (hx : x ∈ db.rows) (ht : t ∈ db.rows)
    (hd : ¬ t.isDescendantOf x = true) {pos : Pos} {s0 : Slot} (hs : sibSlot t.pk pos = some s0)
    (hroom : TempRoom cfg db.rows (pp cfg.steplen t.path)) {sibs0 : List Row} :
    ∃ s, MovePlace cfg db x (pp cfg.steplen t.path) s (reorder cfg db pos none t.depth t sibs0 (some x.path)) ∧
      (PF cfg db.rows).move x.pk (par cfg db.rows t) s = (PF cfg db.rows).sibMove x.pk (par cfg db.rows t) t.pk pos := by
  have hPx := pp_not_desc hok h hx ht hd
  have hdm := depth_mul h ht
  by_cases hl : IsLastCase cfg db pos t
  · rcases hl with rfl | ⟨rfl, hlast⟩
    · exact ⟨.last, movePlace_last hok h hx ht hd (Or.inl rfl) none t.depth sibs0 rfl (Or.inr rfl), rfl⟩
    · by_cases hk : t.pk = x.pk
      · have := h.inv.pk_inj ht hx hk
        subst this
        have hp := movePlace_last hok h hx ht hd (pos := .lastSibling) (Or.inl rfl) none t.depth sibs0 rfl (Or.inr rfl)
        refine ⟨.last, ?_, ?_⟩
        · have e : reorder cfg db .right none t.depth t sibs0 (some t.path) = reorder cfg db .lastSibling none t.depth t sibs0 (some t.path) := by
            unfold reorder
            rw [if_pos (Or.inr ⟨rfl, hlast⟩), if_pos (Or.inl rfl)]
          rw [e]; exact hp
        · rw [(stay_last hok h hx ht hlast).1]
          simp [Forest.sibMove]
      · refine ⟨.after t.pk, movePlace_last hok h hx ht hd (Or.inr ⟨rfl, hlast⟩) none t.depth sibs0 rfl (Or.inl hk), ?_⟩
        simp [Forest.sibMove, hk]
  · obtain ⟨n, hn1, hnc, hte⟩ := h.pos t ht
    have hbase : basepath cfg t.path ((t.depth : Int) - 1) = pp cfg.steplen t.path := h.basepath hok ht
    have hlp : lastpos cfg t.path = .ok n := by rw [hte, lastpos_eq hok _ hnc]
    have hat : ∀ {m : Nat} {sibs : List Row} {K : Nat → Prop} {s : Slot} {p : Row → Bool},
        Place cfg db.rows (pp cfg.steplen t.path) m sibs K s → sibs = (siblings cfg db t).filter p →
        (∀ r ∈ db.rows, pp cfg.steplen r.path = pp cfg.steplen t.path → r.path = pp cfg.steplen t.path ++ stp cfg m → p r = true) →
        x.path = pp cfg.steplen t.path ++ stp cfg m → x ∈ sibs := by
      intro m sibs K s p hpl e hpx hxe
      rw [e, List.mem_filter, mem_siblings h hok ht]
      have hpp : pp cfg.steplen x.path = pp cfg.steplen t.path := by rw [hxe, pp_step hok _ hpl.cap]
      exact ⟨⟨hx, hpp⟩, hpx x hx hpp hxe⟩
    rw [reorder_none hl]
    cases pos with
    | firstSibling =>
      have hpl := place_first (K := (· ≠ x.pk)) hok h ht
      refine ⟨.first, ?_, rfl⟩
      simp only [placeSiblings, hlp]
      exact movePlace_rest hok h hx hbase hpl hdm (fun _ => ⟨ht, rfl⟩)
        (fun e => absurd (siblings_self hok h ht) (by rw [e]; simp))
        (fun hxe => (mem_siblings h hok ht).2 ⟨hx, by rw [hxe, pp_step hok _ hpl.cap]⟩) (fun _ => hroom) hPx
    | left =>
      simp only [placeSiblings, hlp]
      have hrest : ∀ {s}, Place cfg db.rows (pp cfg.steplen t.path) n ((siblings cfg db t).filter (fun r => !decide (r.path < t.path))) (· ≠ x.pk) s →
          MovePlace cfg db x (pp cfg.steplen t.path) s
            (reorderRest cfg db n t.depth t ((siblings cfg db t).filter (fun r => !decide (r.path < t.path))) (some x.path)) := by
        intro s hpl
        exact movePlace_rest hok h hx hbase hpl hdm (fun _ => ⟨ht, rfl⟩)
          (fun e => by
            have : t ∈ (siblings cfg db t).filter (fun r => !decide (r.path < t.path)) := by
              rw [List.mem_filter]; exact ⟨siblings_self hok h ht, by simp⟩
            rw [e] at this; simp at this)
          (hat hpl rfl (by
            intro r _ _ hr
            rw [← hte] at hr
            rw [hr]; simp)) (fun _ => hroom) hPx
      by_cases hk : t.pk = x.pk
      · have := h.inv.pk_inj ht hx hk
        subst this
        obtain ⟨s, hpl, hstay⟩ := place_left_self hok h hx hn1 hnc hte
        refine ⟨s, hrest hpl, ?_⟩
        rw [Inv.stay hok h hx hstay]
        simp [Forest.sibMove]
      · refine ⟨.before t.pk, hrest (place_left hok h ht hk hn1 hnc hte), ?_⟩
        simp [Forest.sibMove, hk]
    | right =>
      simp only [placeSiblings, hlp]
      have hcap : n + 1 < cfg.cap := right_room hok h ht hl hnc hte
      have hlast : ∃ r, r ∈ (siblings cfg db t).filter (fun r => decide (t.path < r.path)) := by
        obtain ⟨last, e2, hlm, hlp2, hmax⟩ := lastSibling_spec hok h ht
        have hne : t ≠ last := by
          rintro rfl
          exact hl (Or.inr ⟨rfl, by rw [e2, sameNode_iff]⟩)
        exact ⟨last, by
          rw [List.mem_filter, mem_siblings h hok ht]
          exact ⟨⟨hlm, hlp2⟩, by simpa using hmax t ht rfl hne⟩⟩
      have hrest : ∀ {s}, Place cfg db.rows (pp cfg.steplen t.path) (n + 1) ((siblings cfg db t).filter (fun r => decide (t.path < r.path))) (· ≠ x.pk) s →
          MovePlace cfg db x (pp cfg.steplen t.path) s
            (reorderRest cfg db ((n : Int) + 1) t.depth t ((siblings cfg db t).filter (fun r => decide (t.path < r.path))) (some x.path)) := by
        intro s hpl
        exact movePlace_rest (m := n + 1) hok h hx hbase hpl hdm (fun _ => ⟨ht, rfl⟩)
          (fun e => by
            obtain ⟨r, hr⟩ := hlast
            rw [e] at hr; simp at hr)
          (hat hpl rfl (by
            intro r _ _ hr
            rw [hr, decide_eq_true_eq]
            conv => lhs; rw [hte]
            rw [plt_append_left, stp_lt_iff hok hnc hcap]; omega)) (fun _ => hroom) hPx
      by_cases hk : t.pk = x.pk
      · have := h.inv.pk_inj ht hx hk
        subst this
        obtain ⟨next, hpl, hstay⟩ := place_self hok h ht hl hcap hte
        refine ⟨.before next, hrest hpl, ?_⟩
        rw [Inv.stay hok h hx hstay]
        simp [Forest.sibMove]
      · refine ⟨.after t.pk, hrest (place_right hok h ht hk hcap hte), ?_⟩
        simp [Forest.sibMove, hk]
    | lastSibling => exact absurd (Or.inl rfl) hl
    | sortedSibling => simp [sibSlot] at hs
    | firstChild => simp [sibSlot] at hs
    | lastChild => simp [sibSlot] at hs
    | sortedChild => simp [sibSlot] at hs
    | other => simp [sibSlot] at hs

theorem moveNoopC_imp {db : DB} {cn cv : Cls} {x : Row} {v : MoveVars} (hn : moveNoopC cfg db cn cv x v = true) : moveNoop cfg db x v = true := by
  revert hn
  unfold moveNoopC moveNoop
  simp only [Bool.or_eq_true, Bool.and_eq_true]
  rintro (⟨h1, ⟨h2, h3⟩ | ⟨h2, h3⟩⟩ | ⟨⟨_, h1⟩, h2 | ⟨h2, h3⟩⟩)
  · exact Or.inl ⟨h1, Or.inl ⟨h2, sameNodeC_imp h3⟩⟩
  · exact Or.inl ⟨h1, Or.inr ⟨h2, sameNodeC_imp h3⟩⟩
  · exact Or.inr ⟨h1, Or.inl h2⟩
  · exact Or.inr ⟨h1, Or.inr ⟨h2, sameNodeC_imp h3⟩⟩

/-- The same outcome, or a move that changes nothing in the one case, and rewrites the table without any visible change in the other. -/
def SameMove (cfg : Cfg) (db : DB) (node target : Row) (P : List Nat) (r r' : Except Err MoveResult) : Prop :=
  r' = r ∨ ∃ res res', r = .ok res ∧ r' = .ok res' ∧ res.db = db ∧ MoveGood cfg db res' node target P (PF cfg db.rows)

/-- `move` once the variables are known, next to a sibling -/
theorem moveToC_sib (hok : cfg.Ok) {db : DB} (h : Inv cfg db.rows) {x target target' : Row} (hx : x ∈ db.rows)
    (ht' : target'.pk = target.pk) {t : Row} (ht : t ∈ db.rows) (hd : ¬ t.isDescendantOf x = true) {pos : Pos}
    {s : Slot} (hs : sibSlot t.pk pos = some s) (hroom : TempRoom cfg db.rows (pp cfg.steplen t.path)) {sibs0 : List Row} (cn cv : Cls) :
    SameMove cfg db x target (pp cfg.steplen t.path) (moveTo cfg db x target target' ⟨t, t.depth, sibs0, none, pos⟩)
      (moveToC cfg db cn cv x target target' ⟨t, t.depth, sibs0, none, pos⟩) := by
  have hp := h.toPInv
  have hre : reorderC cfg db pos none t.depth cv t sibs0 (some x.path) = reorder cfg db pos none t.depth t sibs0 (some x.path) :=
    reorderC_eq hok hp ht (fun _ => Or.inr ⟨rfl, rfl, tempRoom_unused hok hroom⟩)
  by_cases hc : moveNoopC cfg db cn cv x ⟨t, t.depth, sibs0, none, pos⟩ = true
  · left
    unfold moveToC moveTo
    rw [if_pos hc, if_pos (moveNoopC_imp hc)]
  · by_cases hn : moveNoop cfg db x ⟨t, t.depth, sibs0, none, pos⟩ = true
    · right
      have e1 : moveTo cfg db x target target' ⟨t, t.depth, sibs0, none, pos⟩ = .ok ⟨db, x, target'⟩ := by
        unfold moveTo; rw [if_pos hn]
      obtain ⟨s', hmp, hF⟩ := reorder_sib hok hp hx ht hd hs hroom (sibs0 := sibs0)
      have hF2 : (PF cfg db.rows).sibMove x.pk (par cfg db.rows t) t.pk pos = PF cfg db.rows := by
        rw [moveNoop_iff] at hn
        rcases hn with ⟨_, ⟨rfl, hs⟩ | ⟨rfl, hs⟩⟩ | ⟨he, rfl | ⟨rfl | rfl, hs⟩⟩
        · exact (stay_first hok hp hx ht hs).1
        · exact (stay_last hok hp hx ht hs).1
        · simp [Forest.sibMove, he]
        · simp [Forest.sibMove, he]
        · have := hp.inv.pk_inj hx ht he
          subst this
          exact (stay_last hok hp hx ht hs).1
      rcases hmp with ⟨m, db', f, old', hm, e, h1, h2⟩ | ⟨_, h1⟩
      · obtain ⟨res, g1, g2⟩ := finishMove_spec hok h hx ht ht' h1 h2 hm
        refine ⟨_, res, e1, ?_, rfl, ?_⟩
        · unfold moveToC
          rw [if_neg hc]
          simp only [hre, e, Option.getD_some]
          exact g1
        · rw [par_pp, hF, hF2] at g2
          exact g2
      · exact absurd h1 (tempRoom_unused hok hroom)
    · left
      unfold moveToC moveTo
      rw [if_neg hc, if_neg hn]
      simp only [hre]
      rfl

/-- `move` once the variables are known, at a given position -/
theorem moveToC_at (hok : cfg.Ok) {db : DB} (h : Inv cfg db.rows) {x target target' : Row} {v : MoveVars} (hv : v.target ∈ db.rows)
    (hn : ¬ moveNoop cfg db x v = true) (hr : v.pos ≠ .right) (cn cv : Cls) :
    moveToC cfg db cn cv x target target' v = moveTo cfg db x target target' v := by
  unfold moveToC moveTo
  rw [if_neg (fun hc => hn (moveNoopC_imp hc)), if_neg hn]
  simp only [reorderC_eq hok h.toPInv hv (fun e => absurd e hr)]
  rfl

/-- the position for a sorted move: nothing to do, the last place, or a given place -/
theorem moveSorted_cases {db : DB} {x : Row} {v : MoveVars} (hpos : v.pos = .sortedSibling) {w : MoveVars}
    (e : moveSorted cfg db x v = .ok (some w)) :
    w.target = v.target ∧ w.newdepth = v.newdepth ∧ ((w.newpos = none ∧ w.pos = .lastSibling) ∨ w.pos = .sortedSibling) := by
  unfold moveSorted at e
  rw [if_pos hpos] at e
  simp only at e
  split at e
  · cases e; exact ⟨rfl, rfl, Or.inl ⟨rfl, rfl⟩⟩
  · split at e
    · cases e
    · split at e
      · split at e
        · cases e
        · split at e
          · cases e
          · cases e; exact ⟨rfl, rfl, Or.inr hpos⟩
      · cases e; exact ⟨rfl, rfl, Or.inr hpos⟩

/-- the sorted part of `move`, and what follows -/
theorem moveSortedC (hok : cfg.Ok) {db : DB} (h : Inv cfg db.rows) {x target target' : Row} (hx : x ∈ db.rows)
    (ht' : target'.pk = target.pk) {t : Row} (ht : t ∈ db.rows) (hd : ¬ t.isDescendantOf x = true) {pos : Pos}
    (hs : pos = .sortedSibling ∨ ∃ s, sibSlot t.pk pos = some s) (hroom : TempRoom cfg db.rows (pp cfg.steplen t.path)) (cn cv : Cls) :
    SameMove cfg db x target (pp cfg.steplen t.path)
      (match moveSorted cfg db x ⟨t, t.depth, [], none, pos⟩ with
        | .error e => .error e
        | .ok none => .ok ⟨db, x, target'⟩
        | .ok (some v) => moveTo cfg db x target target' v)
      (match moveSorted cfg db x ⟨t, t.depth, [], none, pos⟩ with
        | .error e => .error e
        | .ok none => .ok ⟨db, x, target'⟩
        | .ok (some v) => moveToC cfg db cn cv x target target' v) := by
  by_cases hpos : pos = .sortedSibling
  · cases hm : moveSorted cfg db x ⟨t, t.depth, [], none, pos⟩ with
    | error e => exact Or.inl rfl
    | ok o =>
      cases o with
      | none => exact Or.inl rfl
      | some w =>
        simp only
        obtain ⟨wt, wd, ws, wn, wp⟩ := w
        obtain ⟨e1, e2, e3⟩ := moveSorted_cases (by exact hpos) hm
        simp only at e1 e2 e3
        subst e1 e2
        rcases e3 with ⟨e4, e5⟩ | e5
        · subst e4 e5
          exact moveToC_sib hok h hx ht' ht hd rfl hroom cn cv
        · subst e5
          left
          exact moveToC_at hok h ht (by rw [moveNoop_iff]; simp) (by simp) cn cv
  · obtain ⟨s, hs⟩ := hs.resolve_left hpos
    simp only [moveSorted, hpos, if_false]
    exact moveToC_sib hok h hx ht' ht hd hs hroom cn cv

/-- **`move` for objects of any classes**, where the new siblings leave the last position and the one after it free: unless a node is moved
below itself, the outcome is the one for objects of the tree model. -/
theorem moveC_same (hok : cfg.Ok) {db : DB} (h : Inv cfg db.rows) {x t : Row} (hx : x ∈ db.rows) (ht : t ∈ db.rows) {posArg : Option Pos}
    {pos : Pos} (hprep : preparePosForMove cfg.ordered posArg = .ok pos) (hroom : TempRoom cfg db.rows (destPath cfg pos t))
    (hself : ¬ (isChildPos pos = true ∧ t.pk = x.pk)) (cn ct : Cls) :
    SameMove cfg db x t (destPath cfg pos t) (move cfg db x t posArg) (moveC cfg db cn ct x t posArg) := by
  have hpos : isChildPos pos = true ∨ pos = .sortedSibling ∨ ∃ s, sibSlot t.pk pos = some s := by
    cases ho : cfg.ordered with
    | true =>
      rw [ho] at hprep
      rcases sorted_of_prep hprep with rfl | rfl
      · exact Or.inr (Or.inl rfl)
      · exact Or.inl rfl
    | false =>
      rw [ho] at hprep
      have := plain_of_prep hprep
      cases pos <;> simp_all [isPlainPos, isChildPos, sibSlot]
  have hvars : moveToChildVarsC cfg db cn ct x t pos =
      (match moveToChildVars cfg db x t pos with
        | .error e => .error e
        | .ok v => .ok (v, if isChildPos pos = true ∧ t.isLeaf = false then treeCls else ct)) := by
    unfold moveToChildVarsC moveToChildVars
    cases hc : isChildPos pos with
    | false => simp
    | true =>
      have hne : t.pk ≠ x.pk := fun e => hself ⟨hc, e⟩
      simp only [hne, and_false, if_true, if_false]
      cases hl : t.isLeaf with
      | true => simp
      | false =>
        cases hlc : lastChild cfg db t with
        | none => simp
        | some last => simp
  unfold move moveC
  rw [hprep]
  simp only [hvars]
  rcases moveToChildVars_spec hok h hx ht pos with ⟨hr, e | ⟨v, e, hd⟩⟩ | ⟨hr, hc, e, hd⟩ |
    ⟨hr, hc, hleaf, hne, e, hd⟩ | ⟨hr, hc, last, hlm, hlp, e, hd⟩
  · left; simp only [e]
  · left; simp only [e, hd, if_true]
  · simp only [e, hd, if_false, Bool.false_eq_true]
    have hdp : destPath cfg pos t = pp cfg.steplen t.path := by simp [destPath, hc]
    rw [hdp] at hroom ⊢
    exact moveSortedC hok h hx (by simp [hc]) ht hd (hpos.resolve_left (by rw [hc]; simp)) hroom cn _
  · left
    simp only [e, hd, if_false, Bool.false_eq_true, moveSorted, reduceCtorEq]
    refine moveToC_at hok h ht ?_ (by simp) cn _
    have hp := h.toPInv
    rw [moveNoop_iff]
    rintro (⟨hd2, ⟨_, hs2⟩ | ⟨hc, _⟩⟩ | ⟨he, _⟩)
    · obtain ⟨first, e, h1, h2, h3⟩ := firstSibling_spec hok hp ht
      rw [e, sameNode_iff] at hs2
      have := hp.inv.pk_inj hx h1 hs2
      subst this
      have e1 := depth_mul hp hx
      have e2 := depth_mul hp ht
      rw [h2] at e1
      simp only at hd2
      rw [← hd2] at e1
      rw [Nat.add_mul] at e1
      have := hok.step
      omega
    · cases hc
    · exact hne he.symm
  · simp only [e, hd, if_false, Bool.false_eq_true]
    have hdp : destPath cfg pos t = pp cfg.steplen last.path := by simp [destPath, hc, hlp]
    rw [hdp] at hroom ⊢
    refine moveSortedC hok h hx (by simp [hc]) hlm hd ?_ hroom cn _
    cases pos <;> simp_all [isChildPos, childToSib, sibSlot]

/-- **Refused moves stay refused**, unless a leaf is moved below itself through an object of another class. -/
theorem moveC_refused (hok : cfg.Ok) {db : DB} (h : Inv cfg db.rows) {x t : Row} (hx : x ∈ db.rows) (ht : t ∈ db.rows) {posArg : Option Pos}
    {pos : Pos} (hprep : preparePosForMove cfg.ordered posArg = .ok pos) (hr : Refused x t pos) {cn ct : Cls}
    (hc : t.pk = x.pk → ct = cn ∨ t.isLeaf = false) :
    moveC cfg db cn ct x t posArg = .error .invalidMoveToDescendant := by
  have hp := h.toPInv
  unfold moveC
  rw [hprep]
  simp only
  unfold moveToChildVarsC
  cases hcp : isChildPos pos with
  | false =>
    have hd : t.isDescendantOf x = true := hr.resolve_right (by rw [hcp]; simp)
    simp [hd]
  | true =>
    simp only [if_true]
    by_cases he : ct = cn ∧ t.pk = x.pk
    · rw [if_pos he]
    · rw [if_neg he]
      cases hleaf : t.isLeaf with
      | true =>
        have hd : t.isDescendantOf x = true := by
          rcases hr with hd | ⟨_, hk⟩
          · exact hd
          · rcases hc hk with e | e
            · exact absurd ⟨e, hk⟩ he
            · rw [hleaf] at e; cases e
        simp [hd]
      | false =>
        obtain ⟨last, e, hlm, hlp, _⟩ := lastChild_none hok h ht hleaf
        have hd : last.isDescendantOf x = true := by
          rw [child_desc hok hp hx ht hlm hlp]
          rcases hr with hd | ⟨_, hk⟩
          · exact Or.inr hd
          · exact Or.inl (hp.inv.pk_inj ht hx hk)
        simp [e, hd]

end MP

end Verif
