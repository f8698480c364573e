/-
C30, and C41 for AL: whole histories on the adjacency list backend.
-/
import Verif.AL.History
import Verif.Props.ALQuery
import Verif.SpecSortedHistory

namespace Verif.AL

variable {cfg : Cfg} {db : DB}

/-! ### C30 -/

/-- **C30.** Without `node_order_by`, after every history of operations on freshly fetched nodes — calls that raise included —: every
parent exists, following parents ends at a root, and no two siblings have the same position. -/
theorem C30_history (ho : cfg.ordered = false) (ops : List Op) : Consistent cfg (runOps cfg ⟨[]⟩ ops) := by
  suffices ∀ db : DB, Consistent cfg db → Consistent cfg (runOps cfg db ops) from this _ (consistent_of_inv ho empty_inv)
  induction ops with
  | nil => intro db h; exact h
  | cons op ops ih =>
    intro db h
    exact ih _ (step_sim ho h op (s := ⟨db.rows.map Row.pk, forest cfg db⟩) ⟨rfl, fun _ => Iff.rfl⟩).1

/-- **C30 with `node_order_by`** (there are no positions then), whatever the values: equal siblings and nulls included. -/
theorem C30_history_sorted (ho : cfg.ordered = true) (ops : List Op) : Wf cfg (runOps cfg ⟨[]⟩ ops) := by
  suffices ∀ db : DB, Wf cfg db → Wf cfg (runOps cfg db ops) from this _ (wf_of_ai (empty_inv (cfg := cfg)).toAI)
  induction ops with
  | nil => intro db h; exact h
  | cons op ops ih => intro db h; exact ih _ (step_wf_ordered ho h op)

/-- a history with additions, moves between trees, a refused move, an addition below a missing node, and a deletion -/
def exOps : List Op := [.addRoot 1 [], .addChild 1 2 [], .addSibling 2 (some .left) 3 [], .addRoot 4 [], .addChild 9 5 [],
  .addChild 3 5 [], .move 4 2 (some .firstChild), .move 1 5 (some .left), .move 2 1 (some .left), .delete [3]]

example : (runOps exPlain ⟨[]⟩ exOps).rows.map (fun r => (r.pk, r.parent, r.sib)) = [(1, none, 2), (2, none, 1), (4, some 2, 1)] := by decide

/-! ### C41 -/

theorem forest_empty : forest cfg ⟨[]⟩ = fun _ => [] := by
  rw [forest_eq (empty_inv (cfg := cfg)).toAI]
  funext p
  refine List.eq_nil_iff_forall_not_mem.2 (fun k hk => ?_)
  obtain ⟨r, hr, _⟩ := mem_PF.1 hk
  cases hr

/-- **C41 for AL, without `node_order_by`**: every history gives the forest and the nodes that the specification
`Tree.run` gives. -/
theorem C41_al (ho : cfg.ordered = false) (ops : List Op) : Abs cfg (runOps cfg ⟨[]⟩ ops) (Tree.run Tree.empty ops) := by
  suffices ∀ (db : DB) (s : Tree), Consistent cfg db → Abs cfg db s → Abs cfg (runOps cfg db ops) (s.run ops) by
    refine this _ _ (consistent_of_inv ho empty_inv) ⟨?_, by simp [Tree.empty]⟩
    exact forest_empty
  induction ops with
  | nil => intro db s _ ha; exact ha
  | cons op ops ih =>
    intro db s h ha
    obtain ⟨h1, h2⟩ := step_sim ho h op ha
    exact ih _ _ h1 h2

/-! ### Sorted histories -/

/-- no two siblings of the abstract tree have equal values -/
def Distinct (ob : List (Nat × Bool)) (s : STree) : Prop :=
  ∀ p, ∀ a ∈ s.F p, ∀ b ∈ s.F p, a ≠ b → keyLt ob (valsIn s.data a) (valsIn s.data b) ∨ keyLt ob (valsIn s.data b) (valsIn s.data a)

/-- the table shows the abstract tree -/
def AbsS (cfg : Cfg) (db : DB) (s : STree) : Prop := ShowsSTree (forest cfg db) (data db.rows) s

theorem keys_data (rows : List Row) : (data rows).map Prod.fst = rows.map Row.pk := by
  simp [data, Function.comp_def]

theorem AbsS.toAbs {s : STree} (ha : AbsS cfg db s) : Abs cfg db ⟨s.ids, s.F⟩ :=
  ⟨ha.forest, fun k => by rw [← keys_data, ha.data]; rfl⟩

theorem AbsS.noTies {s : STree} (ha : AbsS cfg db s) (h : Wf cfg db) (hd : Distinct cfg.orderBy s) : NoTies cfg db := by
  intro a haa b hb hne hp
  have := hd a.parent a.pk (by rw [← ha.forest]; exact (mem_forest h.ai haa).2 rfl) b.pk
    (by rw [← ha.forest]; exact (mem_forest h.ai hb).2 hp.symm) (fun e => hne (h.ai.pk_inj haa hb e))
  rwa [← ha.data, vals_eq h.ai haa, vals_eq h.ai hb] at this

theorem mem_sortedSlot {ob : List (Nat × Bool)} {v : Nat → Vals} {vx : Vals} {l : List Nat} {x k : Nat} :
    k ∈ (sortedSlot ob v vx l).ins x l ↔ k = x ∨ k ∈ l := by
  unfold sortedSlot
  split
  · rename_i a e
    have ha := List.mem_of_find?_eq_some e
    clear e
    show k ∈ insertBefore a x l ↔ _
    induction l with
    | nil => cases ha
    | cons y ys ih =>
      unfold insertBefore
      split
      · exact List.mem_cons
      · rename_i hne
        have := ih ((List.mem_cons.1 ha).resolve_left (fun e => hne e.symm))
        rw [List.mem_cons, this, List.mem_cons, or_left_comm]
  · show k ∈ l ++ [x] ↔ _
    rw [List.mem_append, List.mem_singleton, or_comm]

theorem absS_added {s : STree} (ha : AbsS cfg db s) (h : Wf cfg db) (hd : Distinct cfg.orderBy s) {db' : DB} {obj new : Row}
    {p : Option Nat} (hf : Fresh db new) (hadd : SortedAdded cfg db db' obj new p)
    (hd' : Distinct cfg.orderBy (s.add cfg.orderBy p new.pk new.vals)) : AbsS cfg db' (s.add cfg.orderBy p new.pk new.vals) := by
  have hx : new.pk ∉ (data db.rows).map Prod.fst := by
    rw [keys_data]
    intro hm
    obtain ⟨r, hr, e⟩ := List.mem_map.1 hm
    exact hf r hr e
  have hmem : ∀ k, k ∈ (s.add cfg.orderBy p new.pk new.vals).F p ↔ k = new.pk ∨ k ∈ s.F p := by
    intro k
    show k ∈ (s.F.put p _ new.pk) p ↔ _
    unfold Forest.put
    rw [if_pos rfl]
    exact mem_sortedSlot
  have hv : ∀ {k}, k ∈ db.rows.map Row.pk → valsIn (s.add cfg.orderBy p new.pk new.vals).data k = valsIn (data db.rows) k := by
    intro k hk
    show valsIn (s.data ++ _) k = _
    rw [← ha.data]
    exact valsIn_append_old (by rw [keys_data]; exact hk)
  have hvn : valsIn (s.add cfg.orderBy p new.pk new.vals).data new.pk = new.vals := by
    show valsIn (s.data ++ _) _ = _
    rw [← ha.data]
    exact valsIn_append_new hx
  obtain ⟨hn, ⟨sl, hs⟩, hat⟩ := hadd.place (ha.noTies h hd) (by
    intro r hr hp
    have h1 := hd' p r.pk ((hmem _).2 (Or.inr (by rw [← ha.forest]; exact (mem_forest h.ai hr).2 hp))) new.pk ((hmem _).2 (Or.inl rfl)) (hf r hr)
    rwa [hvn, hv (List.mem_map_of_mem hr), vals_eq h.ai hr] at h1)
  refine ShowsSTree.add ha (fun q a hm => by rw [keys_data]; exact forest_keys h hm) hx hs ?_ ?_ hat
  · rw [hadd.rows, data, data, List.map_append, List.map_singleton, hadd.obj.1, hadd.obj.2.1]
  · rw [forest_eq hadd.wf.ai]; exact PF_nodup hadd.wf.ai p

theorem step_simS (ho : cfg.ordered = true) (h : Wf cfg db) {op : Op} {s : STree} (hd : Distinct cfg.orderBy s)
    (hd' : Distinct cfg.orderBy (s.step cfg.orderBy op)) (ha : AbsS cfg db s) : AbsS cfg (step cfg db op) (s.step cfg.orderBy op) := by
  have ha' := ha.toAbs
  have hmem : ∀ k, k ∈ s.ids ↔ ∃ r, db.get? k = some r := fun k => ha'.mem h k
  revert hd'
  cases op with
  | addRoot k v =>
    simp only [step, exec, STree.step]
    cases e : db.get? k with
    | some r => rw [if_pos ((hmem k).2 ⟨r, e⟩)]; exact fun _ => ha
    | none =>
      rw [if_neg (fun hk => by obtain ⟨r, e'⟩ := (hmem k).1 hk; rw [e] at e'; cases e')]
      obtain ⟨db', obj, e', hadd⟩ := C16_al_add_root_partial ho h (fresh_of e (v := v)) rfl
      rw [e']; exact absS_added ha h hd (fresh_of e) hadd
  | addChild t k v =>
    simp only [step, exec, STree.step]
    cases e1 : db.get? t with
    | none =>
      rw [if_pos (Or.inr (fun hk => by obtain ⟨r, e'⟩ := (hmem t).1 hk; rw [e1] at e'; cases e'))]
      cases db.get? k <;> exact fun _ => ha
    | some target =>
      cases e : db.get? k with
      | some r => rw [if_pos (Or.inl ((hmem k).2 ⟨r, e⟩))]; exact fun _ => ha
      | none =>
        rw [if_neg (by
          rintro (hk | hk)
          · obtain ⟨r, e'⟩ := (hmem k).1 hk; rw [e] at e'; cases e'
          · exact hk ((hmem t).2 ⟨target, e1⟩))]
        dsimp only
        obtain ⟨ht, htk⟩ := row_of h e1
        obtain ⟨db', obj, c, e', hadd⟩ := C16_al_add_child_partial ho h ht rfl (cached := none) (fresh_of e (v := v))
        rw [e']
        rw [htk] at hadd
        exact absS_added ha h hd (fresh_of e) hadd
  | addSibling t pos k v =>
    simp only [step, exec, STree.step]
    cases e1 : db.get? t with
    | none =>
      rw [if_pos (Or.inr (fun hk => by obtain ⟨r, e'⟩ := (hmem t).1 hk; rw [e1] at e'; cases e'))]
      cases db.get? k <;> exact fun _ => ha
    | some target =>
      cases e : db.get? k with
      | some r => rw [if_pos (Or.inl ((hmem k).2 ⟨r, e⟩))]; exact fun _ => ha
      | none =>
        rw [if_neg (by
          rintro (hk | hk)
          · obtain ⟨r, e'⟩ := (hmem k).1 hk; rw [e] at e'; cases e'
          · exact hk ((hmem t).2 ⟨target, e1⟩))]
        dsimp only
        obtain ⟨ht, htk⟩ := row_of h e1
        cases hp : preparePosForAddSibling true pos with
        | error er =>
          have : addSibling cfg db target pos ⟨k, none, 0, v⟩ = .error er := by
            unfold addSibling; rw [ho, hp]
          rw [this]; exact fun _ => ha
        | ok q =>
          obtain ⟨p, hm, db', obj, e', hadd⟩ := C16_al_add_sibling_partial ho h ht hp (fresh_of e (v := v))
          rw [e']
          rw [htk] at hm
          simp only
          rw [show s.parent t = p from ha'.parent h hm]
          exact absS_added ha h hd (fresh_of e) hadd
  | move x t pos =>
    simp only [step, exec, STree.step]
    cases e1 : db.get? t with
    | none =>
      rw [if_pos (Or.inr (fun hk => by obtain ⟨r, e'⟩ := (hmem t).1 hk; rw [e1] at e'; cases e'))]
      cases db.get? x <;> exact fun _ => ha
    | some target =>
      cases e : db.get? x with
      | none =>
        rw [if_pos (Or.inl (fun hk => by obtain ⟨r, e'⟩ := (hmem x).1 hk; rw [e] at e'; cases e'))]
        exact fun _ => ha
      | some node =>
        rw [if_neg (by
          rintro (hk | hk)
          · exact hk ((hmem x).2 ⟨node, e⟩)
          · exact hk ((hmem t).2 ⟨target, e1⟩))]
        dsimp only
        obtain ⟨ht, htk⟩ := row_of h e1
        obtain ⟨hx, hxk⟩ := row_of h e
        cases hp : preparePosForMove true pos with
        | error er =>
          have : move cfg db node target none pos = .error er := by
            unfold move; rw [ho, hp]
          rw [this]; exact fun _ => ha
        | ok q =>
          simp only
          by_cases hr : (forest cfg db).MoveRefused node.pk target.pk q
          · rw [C08_al h hx (cached := none) (by rw [ho]; exact hp) hr]
            rw [hxk, htk, ha.forest] at hr
            rw [if_pos hr]
            exact fun _ => ha
          · obtain ⟨p, hm, db', obj, e', hmv⟩ := C16_al_move_partial ho h hx ht (cached := none) hp hr
            rw [hxk, htk, ha.forest] at hr
            rw [if_neg hr]
            rw [htk] at hm
            rw [show s.parent t = p from ha'.parent h hm]
            rw [e']
            intro hd'
            obtain ⟨hn, ⟨sl, hs⟩, hat⟩ := hmv.place (ha.noTies h hd) (by
              intro r hr' hne hrp
              have hmx : ∀ k, k ∈ (s.F.move x (q.dest p t) (sortedSlot cfg.orderBy (valsIn s.data) (valsIn s.data x) (s.F.remove x (q.dest p t)))) (q.dest p t) ↔
                  k = x ∨ k ∈ s.F.remove x (q.dest p t) := by
                intro k
                unfold Forest.move Forest.put
                rw [if_pos rfl]
                exact mem_sortedSlot
              have hrk : r.pk ≠ x := fun e => hne (h.ai.pk_inj hr' hx (e.trans hxk.symm))
              rw [htk] at hrp
              have h1 := hd' (q.dest p t) r.pk ((hmx _).2 (Or.inr (by
                unfold Forest.remove
                rw [← ha.forest, List.mem_filter]
                exact ⟨(mem_forest h.ai hr').2 hrp, decide_eq_true hrk⟩))) x ((hmx _).2 (Or.inl rfl)) hrk
              rwa [← ha.data, vals_eq h.ai hr', ← hxk, vals_eq h.ai hx] at h1)
            refine ⟨?_, hmv.data.trans ha.data⟩
            refine hs.trans ?_
            have hnd : (forest cfg db' (q.dest p target.pk)).Nodup := by
              rw [forest_eq hmv.wf.ai]; exact PF_nodup hmv.wf.ai _
            rw [hs] at hnd hat
            rw [hmv.data] at hat
            rw [move_sorted_slot hnd hat, hxk, htk, ha.forest, ha.data]
  | delete S =>
    classical
    intro _
    have hi := inv_of_noTies ho h (ha.noTies h hd)
    obtain ⟨h1, h2⟩ := delete_spec hi S.contains
    have hids : ∀ k, k ∈ db.rows.map Row.pk ↔ k ∈ s.ids := ha'.ids
    have hD : ∀ k, gone db (fun r => S.contains r.pk) k = true ↔ k ∈ db.rows.map Row.pk ∧ Tree.Doomed (forest cfg db) S.contains k := by
      intro k; rw [forest_eq hi.toAI]; exact gone_iff hi.toAI S.contains
    refine ⟨?_, ?_⟩
    · show forest cfg (delete db (fun r => S.contains r.pk)) = _
      rw [forest_eq h1.toAI, h2, ← forest_eq hi.toAI]
      simp only [STree.step]
      rw [ha.forest]
      congr 1
      funext k
      rw [Bool.eq_iff_iff, hD, decide_eq_true_eq, hids, ha.forest]
    · show data (delete db (fun r => S.contains r.pk)).rows = _
      rw [data_delete, ha.data]
      simp only [STree.step]
      apply List.filter_congr
      intro e he
      have hk : e.1 ∈ s.ids := List.mem_map_of_mem he
      congr 1
      rw [Bool.eq_iff_iff, hD, decide_eq_true_eq, hids, ha.forest]
      simp [hk]

/-- **C41 for AL, with `node_order_by`** (partial): every history in which siblings never have equal order fields gives the forest and the
data that the specification `STree.run` gives.  With equal siblings their order is the database's choice (`C16_al_ties`). -/
theorem C41_al_sorted_partial (ho : cfg.ordered = true) {ops : List Op}
    (hd : ∀ n, Distinct cfg.orderBy (STree.run cfg.orderBy STree.empty (ops.take n))) :
    AbsS cfg (runOps cfg ⟨[]⟩ ops) (STree.run cfg.orderBy STree.empty ops) := by
  suffices ∀ (db : DB) (s : STree), Wf cfg db → AbsS cfg db s → (∀ n, Distinct cfg.orderBy (s.run cfg.orderBy (ops.take n))) →
      AbsS cfg (runOps cfg db ops) (s.run cfg.orderBy ops) by
    refine this _ _ (wf_of_ai (empty_inv (cfg := cfg)).toAI) ⟨?_, rfl⟩ hd
    exact forest_empty
  clear hd
  induction ops with
  | nil => intro db s _ ha _; exact ha
  | cons op ops ih =>
    intro db s h ha hd
    exact ih _ _ (step_wf_ordered ho h op) (step_simS ho h (hd 0) (hd 1) ha) (fun n => hd (n + 1))

/-- the row that an operation adds -/
def _root_.Verif.Op.adds : Op → Option (Nat × Vals)
  | .addRoot k v | .addChild _ k v | .addSibling _ _ k v => some (k, v)
  | _ => none

/-- the rows added in a history can be told apart by their order fields -/
def AddsDistinct (ob : List (Nat × Bool)) (ops : List Op) : Prop :=
  ∀ o₁ ∈ ops, ∀ o₂ ∈ ops, ∀ k₁ v₁ k₂ v₂, o₁.adds = some (k₁, v₁) → o₂.adds = some (k₂, v₂) → k₁ ≠ k₂ → keyLt ob v₁ v₂ ∨ keyLt ob v₂ v₁

/-- every node of the forest has data, and all data come from additions of the history -/
structure From (ops : List Op) (s : STree) : Prop where
  known : ∀ p, ∀ k ∈ s.F p, k ∈ s.ids
  added : ∀ e ∈ s.data, ∃ op ∈ ops, op.adds = some e

theorem From.add {ops : List Op} {s : STree} (h : From ops s) {ob : List (Nat × Bool)} {p : Option Nat} {op : Op} (hop : op ∈ ops)
    {k : Nat} {v : Vals} (e : op.adds = some (k, v)) : From ops (s.add ob p k v) := by
  have hid : ∀ j, j ∈ (s.add ob p k v).ids ↔ j = k ∨ j ∈ s.ids := by
    intro j
    show j ∈ (s.data ++ [(k, v)]).map Prod.fst ↔ _
    rw [List.map_append, List.mem_append, List.map_singleton, List.mem_singleton, or_comm]
    rfl
  refine ⟨?_, ?_⟩
  · intro q j hj
    rw [hid]
    unfold STree.add Forest.put at hj
    simp only at hj
    split at hj
    · rename_i e
      subst e
      exact (mem_sortedSlot.1 hj).imp_right (h.known _ j)
    · exact Or.inr (h.known q j hj)
  · intro d hd
    rcases List.mem_append.1 hd with hd | hd
    · exact h.added d hd
    · rw [List.mem_singleton] at hd
      exact ⟨op, hop, by rw [e, hd]⟩

theorem From.step {ops : List Op} {s : STree} (h : From ops s) {ob : List (Nat × Bool)} {op : Op} (hop : op ∈ ops) : From ops (s.step ob op) := by
  cases op with
  | addRoot k v =>
    simp only [STree.step]
    split
    · exact h
    · exact h.add hop rfl
  | addChild t k v =>
    simp only [STree.step]
    split
    · exact h
    · exact h.add hop rfl
  | addSibling t pos k v =>
    simp only [STree.step]
    split
    · exact h
    · split
      · exact h
      · exact h.add hop rfl
  | move x t pos =>
    simp only [STree.step]
    split
    · exact h
    · rename_i hxt
      split
      · exact h
      · split
        · exact h
        · refine ⟨?_, h.added⟩
          intro q j hj
          unfold Forest.move Forest.put at hj
          simp only at hj
          split at hj
          · rename_i e
            rw [e] at hj
            rcases mem_sortedSlot.1 hj with rfl | hj
            · exact not_not.1 (fun hn => hxt (Or.inl hn))
            · exact h.known _ j (List.mem_filter.1 hj).1
          · exact h.known _ j (List.mem_filter.1 hj).1
  | delete S =>
    classical
    refine ⟨?_, fun e he => h.added e (List.mem_filter.1 he).1⟩
    intro q j hj
    have hj' : j ∈ s.F q ∧ ¬ Tree.Doomed s.F S.contains j := by
      simp only [STree.step] at hj
      unfold Forest.prune at hj
      cases q with
      | none =>
        have h1 := List.mem_filter.1 hj
        refine ⟨h1.1, fun hd => ?_⟩
        have := h1.2
        simp [hd, h.known _ j h1.1] at this
      | some q =>
        simp only at hj
        split at hj
        · cases hj
        · have h1 := List.mem_filter.1 hj
          refine ⟨h1.1, fun hd => ?_⟩
          have := h1.2
          simp [hd, h.known _ j h1.1] at this
    obtain ⟨e, he, rfl⟩ := List.mem_map.1 (h.known q j hj'.1)
    exact List.mem_map.2 ⟨e, List.mem_filter.2 ⟨he, by simpa using hj'.2⟩, rfl⟩

theorem From.distinct {ops : List Op} {s : STree} (h : From ops s) {ob : List (Nat × Bool)} (hd : AddsDistinct ob ops) : Distinct ob s := by
  have hv : ∀ k, k ∈ s.ids → ∃ op ∈ ops, op.adds = some (k, valsIn s.data k) := by
    intro k hk
    unfold valsIn
    cases hl : s.data.lookup k with
    | none =>
      rw [List.lookup_eq_none_iff] at hl
      obtain ⟨e, he, rfl⟩ := List.mem_map.1 hk
      simpa using hl e he
    | some v =>
      obtain ⟨l₁, l₂, e, _⟩ := List.lookup_eq_some_iff.1 hl
      exact h.added _ (by rw [e]; simp)
  intro p a ha b hb hne
  obtain ⟨o₁, h1, e1⟩ := hv a (h.known p a ha)
  obtain ⟨o₂, h2, e2⟩ := hv b (h.known p b hb)
  exact hd o₁ h1 o₂ h2 _ _ _ _ e1 e2 hne

/-- **C41 for AL, with `node_order_by`**, with a guard on the operations alone: when any two rows that the history adds can
be told apart by their order fields, the history gives what the specification gives. -/
theorem C41_al_sorted_adds_partial (ho : cfg.ordered = true) {ops : List Op} (hd : AddsDistinct cfg.orderBy ops) :
    AbsS cfg (runOps cfg ⟨[]⟩ ops) (STree.run cfg.orderBy STree.empty ops) := by
  refine C41_al_sorted_partial ho (fun n => From.distinct (ops := ops) ?_ hd)
  have : ∀ (os : List Op) (s : STree), From ops s → (∀ o ∈ os, o ∈ ops) → From ops (s.run cfg.orderBy os) := by
    intro os
    induction os with
    | nil => intro s h _; exact h
    | cons o os ih => intro s h ho; exact ih _ (h.step (ho o (by simp))) (fun o' h' => ho o' (by simp [h']))
  exact this _ _ ⟨(fun p k hk => by cases hk), (fun e he => by cases he)⟩ (fun o ho => List.mem_of_mem_take ho)

/-- a sorted history: siblings added out of order and a move -/
def exSOps : List Op := [.addRoot 1 [some 5], .addRoot 2 [some 3], .addChild 1 3 [some 7], .addChild 1 4 [some 2],
  .addSibling 3 none 5 [some 4], .move 2 1 (some .sortedChild)]

example : AddsDistinct exSorted.orderBy exSOps ∧
    forest exSorted (runOps exSorted ⟨[]⟩ exSOps) (some 1) = [4, 2, 5, 3] := by
  refine ⟨?_, by decide⟩
  intro o₁ h1 o₂ h2 k₁ v₁ k₂ v₂ e1 e2 hne
  simp only [exSOps, List.mem_cons, List.not_mem_nil, or_false] at h1 h2
  rcases h1 with rfl | rfl | rfl | rfl | rfl | rfl <;> simp only [Op.adds, Option.some.injEq, Prod.mk.injEq, reduceCtorEq] at e1 <;>
    obtain ⟨rfl, rfl⟩ := e1 <;>
    rcases h2 with rfl | rfl | rfl | rfl | rfl | rfl <;> simp only [Op.adds, Option.some.injEq, Prod.mk.injEq, reduceCtorEq] at e2 <;>
    obtain ⟨rfl, rfl⟩ := e2 <;> first | exact absurd rfl hne | (rw [← keyLtB_iff, ← keyLtB_iff]; decide)

/-! ### C46 for AL -/

/-- **C46 fails for AL**: after a move `get_depth()` of the moved object gives its old depth if that had been asked for before the
move.  The row itself is up to date (`C31_move`). -/
theorem C46_al_stale_depth : ∃ (x t obj : Row) (d : Int) (db' : DB), Consistent exPlain exDB ∧ x ∈ exDB.rows ∧ t ∈ exDB.rows ∧
    getDepth exDB x none = .ok d ∧ move exPlain exDB x t (some d) (some .lastChild) = .ok (db', obj) ∧
    getDepth db' obj (some d) = .ok 3 ∧ (forest exPlain db').Level obj.pk 2 := by
  refine ⟨⟨4, some 3, 1, []⟩, ⟨5, none, 3, []⟩, ⟨4, some 5, 1, []⟩, 3, _, consistent_of_inv rfl exDB_inv, by decide, by decide, by decide, rfl, by decide, ?_⟩
  exact .child (p := 5) (.root (by decide)) (by decide)

end Verif.AL
