/-
AL: the queries terminate and show the forest.
-/
import Verif.AL.Base
import Verif.DFS

namespace Verif.AL

variable {cfg : Cfg} {db : DB} {rows : List Row}

theorem getParent_spec (h : AI db.rows) {r : Row} (hr : r ∈ db.rows) :
    (r.parent = none ∧ getParent db r = .ok none) ∨ ∃ p ∈ db.rows, r.parent = some p.pk ∧ getParent db r = .ok (some p) := by
  unfold getParent
  cases hp : r.parent with
  | none => exact Or.inl ⟨rfl, rfl⟩
  | some k =>
    obtain ⟨q, hq, rfl⟩ := h.exist r hr k hp
    refine Or.inr ⟨q, hq, rfl, ?_⟩
    simp only
    rw [(get?_eq_some h).2 ⟨hq, rfl⟩]

theorem ancestorsLoop_spec (h : AI db.rows) {r : Row} {l : List Row} (hc : Chain db.rows r l) :
    ∀ fuel acc, l.length < fuel → ancestorsLoop db fuel r acc = .ok (l ++ acc) := by
  induction hc with
  | root hr hp =>
    intro fuel acc hf
    cases fuel with
    | zero => simp at hf
    | succ fuel =>
      unfold ancestorsLoop
      rcases getParent_spec h hr with ⟨_, e⟩ | ⟨p, _, e, _⟩
      · rw [e]; rfl
      · rw [hp] at e; cases e
  | @step r p l hc hr hp ih =>
    intro fuel acc hf
    cases fuel with
    | zero => simp at hf
    | succ fuel =>
      unfold ancestorsLoop
      rcases getParent_spec h hr with ⟨e, _⟩ | ⟨q, hq, e, e'⟩
      · rw [hp] at e; cases e
      · rw [hp] at e
        have := h.pk_inj hc.mem hq (Option.some.inj e)
        subst this
        rw [e']
        simp only
        rw [ih fuel (p :: acc) (by simpa using hf)]
        simp

theorem ancestors_spec (h : AI db.rows) {r : Row} {l : List Row} (hc : Chain db.rows r l) : ancestors db r = .ok l := by
  unfold ancestors
  rw [ancestorsLoop_spec h hc _ _ (Nat.lt_succ_of_lt (hc.length_lt h)), List.append_nil]

theorem depthLoop_spec (h : AI db.rows) {r : Row} {l : List Row} (hc : Chain db.rows r l) :
    ∀ fuel d, l.length < fuel → depthLoop db fuel r d = .ok (d + l.length + 1) := by
  induction hc with
  | root hr hp =>
    intro fuel d hf
    cases fuel with
    | zero => simp at hf
    | succ fuel =>
      unfold depthLoop
      rcases getParent_spec h hr with ⟨_, e⟩ | ⟨p, _, e, _⟩
      · rw [e]; simp
      · rw [hp] at e; cases e
  | @step r p l hc hr hp ih =>
    intro fuel d hf
    cases fuel with
    | zero => simp at hf
    | succ fuel =>
      unfold depthLoop
      rcases getParent_spec h hr with ⟨e, _⟩ | ⟨q, hq, e, e'⟩
      · rw [hp] at e; cases e
      · rw [hp] at e
        have := h.pk_inj hc.mem hq (Option.some.inj e)
        subst this
        rw [e']
        simp only
        rw [ih fuel (d + 1) (by simpa using hf)]
        simp only [List.length_append, List.length_singleton]
        congr 1
        push_cast
        omega

theorem getDepth_spec (h : AI db.rows) {r : Row} {l : List Row} (hc : Chain db.rows r l) : getDepth db r none = .ok (l.length + 1) := by
  unfold getDepth
  cases hp : r.parent with
  | none =>
    cases hc with
    | root => rfl
    | step _ _ hp' => rw [hp] at hp'; cases hp'
  | some p =>
    simp only
    rw [depthLoop_spec h hc _ _ (Nat.lt_succ_of_lt (hc.length_lt h))]
    congr 1
    omega

theorem getDepth_ok (h : AI db.rows) {r : Row} (hr : r ∈ db.rows) (cached : Option Int) : ∃ d, getDepth db r cached = .ok d := by
  cases cached with
  | none => obtain ⟨l, hc⟩ := chain_exists h hr; exact ⟨_, getDepth_spec h hc⟩
  | some d =>
    unfold getDepth
    cases r.parent with
    | none => exact ⟨_, rfl⟩
    | some p => exact ⟨_, rfl⟩

theorem children_PF (db : DB) (r : Row) : (children cfg db r).map Row.pk = PF cfg db.rows (some r.pk) := rfl

theorem rootNodes_PF (db : DB) : (rootNodes cfg db).map Row.pk = PF cfg db.rows none := rfl

theorem mem_children {r c : Row} : c ∈ children cfg db r ↔ c ∈ db.rows ∧ c.parent = some r.pk := by
  unfold children; rw [mem_order, mem_withParent]

theorem siblings_eq (r : Row) : siblings cfg db r = order cfg (withParent db r.parent) := by
  unfold siblings
  cases r.parent <;> rfl

/-! ### The recursion -/

/-- the keys of a listing -/
def keys (l : List (Row × Int)) : List Nat := l.map (fun e => e.1.pk)

theorem keys_append (l l' : List (Row × Int)) : keys (l ++ l') = keys l ++ keys l' := List.map_append

theorem keys_cons (e : Row × Int) (l : List (Row × Int)) : keys (e :: l) = e.1.pk :: keys l := rfl

theorem collect_dfs {F : Forest} {f : Row → Except Err (List (Row × Int))} {Q : Row × Int → Prop} {cs : List Row}
    (hf : ∀ c ∈ cs, ∃ L, f c = .ok L ∧ F.DFS [c.pk] (keys L) ∧ ∀ e ∈ L, Q e) :
    ∃ L, collect f cs = .ok L ∧ F.DFS (cs.map Row.pk) (keys L) ∧ ∀ e ∈ L, Q e := by
  induction cs with
  | nil => exact ⟨[], rfl, .nil, by simp⟩
  | cons c cs ih =>
    obtain ⟨L1, e1, d1, q1⟩ := hf c (by simp)
    obtain ⟨L2, e2, d2, q2⟩ := ih (fun c hc => hf c (by simp [hc]))
    refine ⟨L1 ++ L2, ?_, ?_, ?_⟩
    · unfold collect
      rw [e1]
      simp only
      rw [e2]
    · rw [keys_append, List.map_cons]
      exact d1.append d2
    · intro e he
      rcases List.mem_append.1 he with he | he
      · exact q1 e he
      · exact q2 e he

/-- every listed node is stored and comes with its depth, counted from `depth` for the nodes at level `base + 1` -/
def DepthOk (rows : List Row) (depth : Int) (base : Nat) (e : Row × Int) : Prop :=
  ∃ l, Chain rows e.1 l ∧ base ≤ l.length ∧ e.2 = depth + (l.length - base : Nat)

theorem DepthOk.below {depth : Int} {base : Nat} {e : Row × Int} (h : DepthOk rows (depth + 1) (base + 1) e) :
    DepthOk rows depth base e := by
  obtain ⟨l, hc, hb, he⟩ := h
  refine ⟨l, hc, by omega, ?_⟩
  rw [he]
  omega

theorem treeRec_some (h : AI db.rows) : ∀ (fuel : Nat) (r : Row) (l : List Row) (depth : Int), Chain db.rows r l →
    db.rows.length ≤ fuel + l.length →
    ∃ L, treeRec cfg db none fuel (some (r, !(withParent db (some r.pk)).isEmpty)) depth = .ok L ∧
      (PF cfg db.rows).DFS (PF cfg db.rows (some r.pk)) (keys L) ∧ ∀ e ∈ L, DepthOk db.rows depth (l.length + 1) e := by
  intro fuel
  induction fuel with
  | zero =>
    intro r l depth hc hf
    have := hc.length_lt h
    omega
  | succ fuel ih =>
    intro r l depth hc hf
    unfold treeRec
    rw [if_neg (by simp [tooDeep])]
    have hqs : treeNodes cfg db (some (r, !(withParent db (some r.pk)).isEmpty)) = children cfg db r := by
      unfold treeNodes
      simp only
      split
      · rfl
      · rename_i he
        symm
        rw [List.eq_nil_iff_forall_not_mem]
        intro c hc'
        rw [mem_children, ← mem_withParent] at hc'
        simp only [Bool.not_eq_true', Bool.not_eq_false, List.isEmpty_iff] at he
        rw [he] at hc'
        cases hc'
    rw [hqs]
    have := collect_dfs (F := PF cfg db.rows) (Q := DepthOk db.rows depth (l.length + 1)) (cs := children cfg db r)
      (f := fun node => match treeRec cfg db none fuel (some (node, !(withParent db (some node.pk)).isEmpty)) (depth + 1) with
        | .error e => .error e
        | .ok l => .ok ((node, depth) :: l)) ?_
    · exact this
    · intro c hcm
      rw [mem_children] at hcm
      have hcc : Chain db.rows c (l ++ [r]) := .step hc hcm.1 hcm.2
      obtain ⟨L, e, hd, hq⟩ := ih c (l ++ [r]) (depth + 1) hcc (by simp only [List.length_append, List.length_singleton]; omega)
      refine ⟨(c, depth) :: L, by rw [e], ?_, ?_⟩
      · rw [keys_cons]
        have := Forest.DFS.cons (F := PF cfg db.rows) (c := c.pk) hd .nil
        rwa [List.append_nil] at this
      · intro e he
        rcases List.mem_cons.1 he with rfl | he
        · exact ⟨_, hcc, by simp, by simp⟩
        · refine DepthOk.below ?_
          have := hq e he
          rwa [List.length_append, List.length_singleton] at this

theorem treeRec_none (h : AI db.rows) : ∃ L, treeRec cfg db none (db.rows.length + 1) none 1 = .ok L ∧
    (PF cfg db.rows).DFS (PF cfg db.rows none) (keys L) ∧ ∀ e ∈ L, DepthOk db.rows 1 0 e := by
  unfold treeRec
  rw [if_neg (by simp [tooDeep])]
  refine collect_dfs (cs := rootNodes cfg db) ?_
  intro c hcm
  have hcm := mem_withParent.1 (mem_order.1 hcm)
  have hcc : Chain db.rows c [] := .root hcm.1 hcm.2
  obtain ⟨L, e, hd, hq⟩ := treeRec_some (cfg := cfg) h db.rows.length c [] (1 + 1) hcc (by simp)
  refine ⟨(c, 1) :: L, by rw [e], ?_, ?_⟩
  · rw [keys_cons]
    have := Forest.DFS.cons (F := PF cfg db.rows) (c := c.pk) hd .nil
    rwa [List.append_nil] at this
  · intro e he
    rcases List.mem_cons.1 he with rfl | he
    · exact ⟨_, hcc, by simp, by simp⟩
    · exact (hq e he).below

/-- listed depths are at least the depth of the call -/
theorem treeRec_ge {m : Option Int} : ∀ (fuel : Nat) (p : Option (Row × Bool)) (depth : Int) (L : List (Row × Int)),
    treeRec cfg db m fuel p depth = .ok L → ∀ e ∈ L, depth ≤ e.2 := by
  intro fuel
  induction fuel with
  | zero => intro p depth L e; simp [treeRec] at e
  | succ fuel ih =>
    intro p depth L e
    unfold treeRec at e
    split at e
    · cases e; simp
    · generalize treeNodes cfg db p = qs at e
      induction qs generalizing L with
      | nil => simp [collect] at e; subst e; simp
      | cons c cs ihc =>
        unfold collect at e
        cases e1 : treeRec cfg db m fuel (some (c, !(withParent db (some c.pk)).isEmpty)) (depth + 1) with
        | error er => rw [e1] at e; simp at e
        | ok L1 =>
          rw [e1] at e
          simp only at e
          split at e
          · cases e
          · rename_i L2 e2
            cases e
            intro x hx
            rcases List.mem_append.1 hx with hx | hx
            · rcases List.mem_cons.1 hx with rfl | hx
              · exact Int.le_refl _
              · have := ih _ _ _ e1 x hx
                omega
            · exact ihc _ e2 x hx

/-- a limit keeps exactly the nodes that are not deeper than it -/
theorem treeRec_limit {m : Int} (hm : m ≠ 0) : ∀ (fuel : Nat) (p : Option (Row × Bool)) (depth : Int) (L : List (Row × Int)),
    treeRec cfg db none fuel p depth = .ok L →
      treeRec cfg db (some m) fuel p depth = .ok (L.filter (fun e => decide (e.2 ≤ m))) := by
  intro fuel
  induction fuel with
  | zero => intro p depth L e; simp [treeRec] at e
  | succ fuel ih =>
    intro p depth L e
    have hge := treeRec_ge _ _ _ _ e
    by_cases hd : m < depth
    · unfold treeRec
      rw [if_pos (by simp [tooDeep, hm, hd])]
      congr 1
      symm
      rw [List.filter_eq_nil_iff]
      intro x hx
      have := hge x hx
      simp only [decide_eq_true_eq]
      omega
    · unfold treeRec at e ⊢
      rw [if_neg (by simp [tooDeep])] at e
      rw [if_neg (by simp [tooDeep, hd])]
      clear hge
      generalize treeNodes cfg db p = qs at e ⊢
      induction qs generalizing L with
      | nil => simp [collect] at e; subst e; simp [collect]
      | cons c cs ihc =>
        unfold collect at e ⊢
        cases e1 : treeRec cfg db none fuel (some (c, !(withParent db (some c.pk)).isEmpty)) (depth + 1) with
        | error er => rw [e1] at e; simp at e
        | ok L1 =>
          rw [e1] at e
          rw [ih _ _ _ e1]
          simp only at e ⊢
          split at e
          · cases e
          · rename_i L2 e2
            cases e
            rw [ihc _ e2]
            simp only
            rw [List.filter_append, List.filter_cons_of_pos (by simp only [decide_eq_true_eq]; omega)]

/-- the limit that `get_tree(parent, max_depth)` hands to the recursion -/
theorem getTree_some (h : AI db.rows) {r : Row} {l : List Row} (hc : Chain db.rows r l) {cached : Option Int} {d : Int}
    (hd : getDepth db r cached = .ok d) :
    ∃ L, getTree cfg db (some (r, cached)) none = .ok ((r, d) :: L) ∧
      (PF cfg db.rows).DFS (PF cfg db.rows (some r.pk)) (keys L) ∧ (∀ e ∈ L, DepthOk db.rows (d + 1) (l.length + 1) e) ∧
      ∀ m, m ≠ 0 → m + d ≠ 0 → getTree cfg db (some (r, cached)) (some m) = .ok ((r, d) :: L.filter (fun e => decide (e.2 ≤ m + d))) := by
  obtain ⟨L, e, h1, h2⟩ := treeRec_some (cfg := cfg) h (db.rows.length + 1) r l (d + 1) hc (by omega)
  have hch : (!(children cfg db r).isEmpty) = !(withParent db (some r.pk)).isEmpty := by
    congr 1
    rw [Bool.eq_iff_iff, List.isEmpty_iff, List.isEmpty_iff, List.eq_nil_iff_forall_not_mem, List.eq_nil_iff_forall_not_mem]
    simp only [mem_children, mem_withParent]
  refine ⟨L, ?_, h1, h2, ?_⟩
  · unfold getTree
    simp only
    rw [hd]
    simp only
    rw [hch, e]
  · intro m hm hmd
    unfold getTree
    simp only
    rw [hd]
    simp only
    rw [hch]
    have : (m == 0) = false := by simpa using hm
    rw [this]
    simp only [Bool.false_eq_true, if_false]
    rw [treeRec_limit hmd _ _ _ _ e]

theorem descendants_spec (h : AI db.rows) {r : Row} (hr : r ∈ db.rows) (cached : Option Int) :
    ∃ L, descendants cfg db r cached false none = .ok L ∧ (PF cfg db.rows).DFS (PF cfg db.rows (some r.pk)) (keys L) := by
  obtain ⟨l, hc⟩ := chain_exists h hr
  obtain ⟨d, hd⟩ := getDepth_ok h hr cached
  obtain ⟨L, e, h1, _⟩ := getTree_some (cfg := cfg) h hc hd
  refine ⟨L, ?_, h1⟩
  unfold descendants
  rw [e]
  rfl

theorem isDescendantOf_spec (h : AI db.rows) {x : Row} (hx : x ∈ db.rows) (r : Row) (cached : Option Int) :
    ∃ b, isDescendantOf cfg db r x cached = .ok b ∧ (b = true ↔ (PF cfg db.rows).Desc x.pk r.pk) := by
  obtain ⟨L, e, hd⟩ := descendants_spec (cfg := cfg) h hx cached
  refine ⟨L.any (fun e => e.1.pk == r.pk), ?_, ?_⟩
  · unfold isDescendantOf
    rw [e]; rfl
  · have : L.any (fun e => e.1.pk == r.pk) = true ↔ r.pk ∈ keys L := by
      rw [List.any_eq_true]
      unfold keys
      rw [List.mem_map]
      simp only [beq_iff_eq]
    rw [this, hd.mem]
    constructor
    · rintro ⟨c, hc, e | e⟩
      · exact .child (e ▸ hc)
      · exact Forest.Desc.trans (.child hc) e
    · intro hd; exact hd.cases_head

end Verif.AL
