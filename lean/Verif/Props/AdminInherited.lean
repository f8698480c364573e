/-
C77: the admin and the form of a model that inherits from the tree model.
-/
import Verif.AdminInherited
import Verif.AL.Classes
import Verif.Props.AdminList

namespace Verif

variable {σ ρ : Type} {F : Forest} {ids : List Nat} {sub : Nat → Bool}

/-- **C77, when the list shows everything it should**: every node of the model is shown exactly if everything above one is a node of the model. -/
theorem C77_complete_iff {req : Option Nat → Except Err (List AdminRow)} (h : SubShows F ids sub req) :
    ∃ top out, req none = .ok top ∧ Opened req top out ∧
      ((∀ k ∈ ids, sub k = true → k ∈ out.map AdminRow.node) ↔ ∀ a k, k ∈ ids → sub k = true → F.Desc a k → sub a = true) := by
  obtain ⟨top, out, _, e, ho, _, _, _, _, hm, _⟩ := h.all
  refine ⟨top, out, e, ho, ?_, ?_⟩
  · intro hall a k hk hh hd
    exact ((hm k).1 (hall k hk hh)).2.2 a hd
  · intro hall k hk hh
    exact (hm k).2 ⟨hk, hh, fun a ha => hall a k hk hh ha⟩

/-- **C77, trees of one model**: if all nodes are of the model, and the buttons are where children are, the list is that of C54. -/
theorem C77_uniform {req : Option Nat → Except Err (List AdminRow)} (hF : F.IsForestOn ids) (h : SubShows F ids sub req) (hb : Buttons req (fun k => F (some k) ≠ []))
    (hall : ∀ k ∈ ids, sub k = true) : AdminShows F ids req := by
  have hfil : ∀ p, (F p).filter sub = F p := by
    intro p
    rw [List.filter_eq_self]
    exact fun k hk => hall k (hF.good.sub p k hk)
  have hlists : ∀ p, (∀ k, p = some k → k ∈ ids) → ∃ l, req p = .ok l ∧ ListsChildren F p l := by
    intro p hp
    obtain ⟨l, e, hl⟩ := h.lists p (fun k hk => ⟨hp k hk, hall k (hp k hk)⟩)
    exact ⟨l, e, hl.nodes.trans (hfil p), hl.parent, hl.level, hb p l e⟩
  refine ⟨hlists, fun k hk => h.unknown k (fun hh => hk hh.1), ?_⟩
  obtain ⟨top, e, ht⟩ := hlists none (by simp)
  obtain ⟨l, hd, hn, hp⟩ := hF.listing
  obtain ⟨out, ho, rfl, hl⟩ := opened_dfs (ids := ids) (req := req) (fun k hk => hlists (some k) (by simpa using hk)) hd
    top ht.nodes (fun k hk => hp.mem_iff.1 hk) ht.hasChildren ht.level
  exact ⟨top, out, e, ho, fun out' h' => h'.unique ho, hd, hn, fun k => hp.mem_iff, hl⟩

theorem ne_nil_of_filter {l : List Nat} (h : l.filter sub ≠ []) : l ≠ [] := by
  rintro rfl
  exact h rfl

namespace MP
variable {cfg : Cfg} {db : DB}

/-- the list for a model that inherits from an MP model.  admin_tree.py:31-32: `numchild` counts all children. -/
def subView (cfg : Cfg) : SubView DB Row where
  key := Row.pk
  find := DB.get?
  roots := rootNodes
  children := children cfg
  depth := fun _ r => .ok r.depth
  select := fun db P => orderByPath (db.rows.filter P)
  hasChildren := fun _ _ r => hasChildren r

theorem subFits (hok : cfg.Ok) (h : Consistent cfg db) (sub : Nat → Bool) :
    (subView cfg).Fits db sub db.rows (forest cfg db) (fun k => forest cfg db (some k) ≠ []) := by
  have hi := (consistent_iff hok).1 h
  have hsel : ∀ (P : Row → Bool) r, r ∈ (subView cfg).select db P ↔ r ∈ db.rows ∧ P r = true := by
    intro P r
    show r ∈ orderByPath (db.rows.filter P) ↔ _
    rw [mem_orderByPath, List.mem_filter]
  have heq : ∀ qs : List Row, qs.Pairwise (fun a b => a.path < b.path) → (∀ r ∈ qs, r ∈ db.rows) →
      toSub (subView cfg) sub db qs = qs.filter (fun r => sub r.pk) := by
    intro qs hq hs
    exact toSub_eq (v := subView cfg) (rows := db.rows) (lt := fun a b => a.path < b.path) (fun a b hab => plt_asymm hab) hq
      (orderByPath_strict (nodup_filter_paths hi.inv.pathNodup _)) hsel hs (fun a ha b hb e => hi.inv.pk_inj ha hb e)
  have hroots : ∀ r ∈ rootNodes db, r ∈ db.rows := fun r hr => (List.mem_filter.1 (mem_sortBy.1 hr)).1
  have hch : ∀ p ∈ db.rows, ∀ r ∈ children cfg db p, r ∈ db.rows := fun p hp r hr => ((mem_children hi hok hp).1 hr).1
  refine ⟨?_, ?_, ?_, ?_, ?_, ?_, ?_, ?_, ?_⟩
  · intro k p e
    exact (get?_eq_some hi.inv).1 e
  · intro k e hk
    obtain ⟨r, hr, rfl⟩ := List.mem_map.1 hk
    exact absurd (((get?_eq_some hi.inv).2 ⟨hr, rfl⟩).symm.trans e) (by simp)
  · show ((toSub (subView cfg) sub db (rootNodes db)).map Row.pk) = _
    rw [heq _ (rootNodes_sorted hi.toPInv) hroots, show forest cfg db none = (rootNodes db).map Row.pk from rfl, List.filter_map]
    rfl
  · exact fun r hr => ((hsel _ r).1 hr).1
  · intro p hp
    show ((toSub (subView cfg) sub db (children cfg db p)).map Row.pk) = (forest cfg db (some p.pk)).filter sub
    rw [heq _ (children_sorted hi.toPInv p) (hch p hp)]
    rw [← show (children cfg db p).map Row.pk = forest cfg db (some p.pk) from (C10_nav hok h hp).children, List.filter_map]
    rfl
  · exact fun p _ r hr => ((hsel _ r).1 hr).1
  · exact fun p hp => (C10_nav hok h hp).depth
  · intro r hr
    show decide (0 < r.numchild) = true ↔ forest cfg db (some r.pk) ≠ []
    have := (C10_nav hok h hr).childrenCount
    rw [decide_eq_true_eq, show r.numchild = _ from this, ← List.length_pos_iff]
    omega
  · exact fun r _ hne => ne_nil_of_filter hne

/-- **C77 for MP, the list** (partial: nodes below nodes that are not of the model are not shown, and a button needs a child of any kind). -/
theorem C77_mp_list_partial (hok : cfg.Ok) (h : Consistent cfg db) (sub : Nat → Bool) :
    SubShows (forest cfg db) (db.rows.map Row.pk) sub (subContext (subView cfg) sub db) ∧
      Buttons (subContext (subView cfg) sub db) (fun k => forest cfg db (some k) ≠ []) := by
  have hi := (consistent_iff hok).1 h
  exact ⟨subShows_of (subFits hok h sub) (by rw [forest_eq hi hok]; exact isForestOn hi.inv hok.step), (subFits hok h sub).buttons⟩

end MP

namespace NS
variable {db : DB}

/-- the list for a model that inherits from an NS model.  admin_tree.py:33-36: `rgt - lft` counts all descendants. -/
def subView : SubView DB Row where
  key := Row.pk
  find := DB.get?
  roots := rootNodes
  children := children
  depth := fun _ r => .ok r.depth
  select := fun db P => order (db.rows.filter P)
  hasChildren := fun _ _ r => hasChildren r

theorem subFits (h : Consistent db) (sub : Nat → Bool) : subView.Fits db sub db.rows (forest db) (fun k => forest db (some k) ≠ []) := by
  have hn := h.toNI
  have hsel : ∀ (P : Row → Bool) r, r ∈ subView.select db P ↔ r ∈ db.rows ∧ P r = true := by
    intro P r
    show r ∈ order (db.rows.filter P) ↔ _
    rw [mem_order, List.mem_filter]
  have heq : ∀ qs : List Row, qs.Pairwise lt → (∀ r ∈ qs, r ∈ db.rows) → toSub subView sub db qs = qs.filter (fun r => sub r.pk) := by
    intro qs hq hs
    exact toSub_eq (v := subView) (rows := db.rows) (lt := lt) (fun a b hab => lt_asymm hab) hq
      (order_filter_sorted hn _) hsel hs (fun a ha b hb e => hn.pk_inj ha hb e)
  refine ⟨?_, ?_, ?_, ?_, ?_, ?_, ?_, ?_, ?_⟩
  · exact fun k p e => (get?_eq_some hn).1 e
  · intro k e hk
    obtain ⟨r, hr, rfl⟩ := List.mem_map.1 hk
    exact get?_eq_none.1 e r hr rfl
  · show ((toSub subView sub db (rootNodes db)).map Row.pk) = _
    rw [heq _ (rootNodes_sorted hn) (fun r hr => (mem_rootNodes.1 hr).1), show forest db none = (rootNodes db).map Row.pk from rfl, List.filter_map]
    rfl
  · exact fun r hr => ((hsel _ r).1 hr).1
  · intro p hp
    show ((toSub subView sub db (children db p)).map Row.pk) = (forest db (some p.pk)).filter sub
    rw [heq _ (children_sorted hn p) (fun r hr => ((mem_children hn hp).1 hr).1)]
    rw [← show (children db p).map Row.pk = forest db (some p.pk) from (C25_nav h hp).children, List.filter_map]
    rfl
  · exact fun p _ r hr => ((hsel _ r).1 hr).1
  · exact fun p hp => (C25_nav h hp).depth
  · intro r hr
    show decide (1 < r.rgt - r.lft) = true ↔ forest db (some r.pk) ≠ []
    have hl := (C25_nav h hr).isLeaf
    have hlr := h.lr r hr
    rw [Ne, ← hl]
    show _ ↔ ¬ (r.rgt - r.lft == 1) = true
    rw [decide_eq_true_eq, beq_iff_eq]
    omega
  · exact fun r _ hne => ne_nil_of_filter hne

/-- **C77 for NS, the list** (partial in the same way). -/
theorem C77_ns_list_partial (h : Consistent db) (sub : Nat → Bool) :
    SubShows (forest db) (db.rows.map Row.pk) sub (subContext subView sub db) ∧ Buttons (subContext subView sub db) (fun k => forest db (some k) ≠ []) := by
  have hF := isForestOn h
  rw [keys_eq] at hF
  exact ⟨subShows_of (subFits h sub) hF, (subFits h sub).buttons⟩

end NS

namespace AL
variable {cfg : Cfg} {db : DB}

/-- the list for a model that inherits from an AL model.  admin_tree.py:37-38: `cl.model` is the inherited model, so only its nodes count. -/
def subView (cfg : Cfg) : SubView DB Row where
  key := Row.pk
  find := DB.get?
  roots := rootNodes cfg
  children := children cfg
  depth := fun db r => getDepth db r none
  select := fun db P => order cfg (db.rows.filter P)
  hasChildren := fun db sub r => db.rows.any (fun q => sub q.pk && q.parent == some r.pk)

/-- rows of one parent -/
theorem order_sorted_of (h : AInv cfg db.rows) {l : List Row} (hl : l.Sublist db.rows) {p : Option Nat} (hp : ∀ r ∈ l, r.parent = p) :
    (order cfg l).Pairwise (lt cfg) := by
  have : l = withParent ⟨l⟩ p := by
    unfold withParent
    symm
    rw [List.filter_eq_self]
    exact fun r hr => by simpa using hp r hr
  have hc : ∀ a ∈ cfg.ties l, ∀ b ∈ cfg.ties l, a ≠ b → lt cfg a b ∨ lt cfg b a := by
    intro a ha b hb hne
    rw [(cfg.ties_perm _).mem_iff] at ha hb
    exact h.comp a (hl.mem ha) b (hl.mem hb) hne ((hp a ha).trans (hp b hb).symm)
  have h1 : (order cfg l).Pairwise (fun a b => ltB cfg b a = false) := by
    refine sortBy_sorted_on ?_ ?_
    · intro a _ b _ hab
      exact Bool.eq_false_iff.2 (lt_asymm (cfg := cfg) hab)
    · intro a ha b hb c hc' h1 h2
      have h3 := hc a ha b hb
      have h4 := hc b hb c hc'
      by_cases e1 : a = b
      · subst e1; exact h2
      by_cases e2 : b = c
      · subst e2; exact h1
      have h5 := (h3 e1).resolve_right (by unfold lt; simp [h1])
      have h6 := (h4 e2).resolve_right (by unfold lt; simp [h2])
      exact Bool.eq_false_iff.2 (lt_asymm (lt_trans h5 h6))
  have h2 : (order cfg l).Nodup := (order_perm _).nodup_iff.2 ((rows_nodup h.toAI).sublist hl)
  refine (h1.and h2).imp_of_mem ?_
  rintro a b ha hb ⟨hab, hne⟩
  rw [mem_order, ← (cfg.ties_perm _).mem_iff] at ha hb
  exact (hc a ha b hb hne).resolve_right (by unfold lt; simp [hab])

theorem subFits (h : AInv cfg db.rows) (sub : Nat → Bool) : (subView cfg).Fits db sub db.rows (forest cfg db) (fun k => (forest cfg db (some k)).filter sub ≠ []) := by
  have hai := h.toAI
  have hw : Wf cfg db := wf_of_ai hai
  have hsel : ∀ (P : Row → Bool) r, r ∈ (subView cfg).select db P ↔ r ∈ db.rows ∧ P r = true := by
    intro P r
    show r ∈ order cfg (db.rows.filter P) ↔ _
    rw [mem_order, List.mem_filter]
  have heq : ∀ p, toSub (subView cfg) sub db (order cfg (withParent db p)) = (order cfg (withParent db p)).filter (fun r => sub r.pk) := by
    intro p
    have hmem : ∀ r ∈ order cfg (withParent db p), r ∈ db.rows ∧ r.parent = p := fun r hr => mem_withParent.1 (mem_order.1 hr)
    refine toSub_eq (v := subView cfg) (rows := db.rows) (lt := lt cfg) (fun a b hab => lt_asymm hab) (order_sorted h p) ?_ hsel (fun r hr => (hmem r hr).1)
      (fun a ha b hb e => hai.pk_inj ha hb e)
    refine order_sorted_of h (p := p) List.filter_sublist ?_
    intro r hr
    rw [List.mem_filter, Bool.and_eq_true, List.any_eq_true] at hr
    obtain ⟨hr, _, q, hq, e⟩ := hr
    rw [← hai.pk_inj (hmem q hq).1 hr (beq_iff_eq.1 e)]
    exact (hmem q hq).2
  have hfor : ∀ p, (forest cfg db p) = (order cfg (withParent db p)).map Row.pk := fun p => by rw [forest_eq hai]; rfl
  refine ⟨?_, ?_, ?_, ?_, ?_, ?_, ?_, ?_, ?_⟩
  · exact fun k p e => (get?_eq_some hai).1 e
  · intro k e hk
    obtain ⟨r, hr, rfl⟩ := List.mem_map.1 hk
    exact get?_eq_none.1 e r hr rfl
  · rw [show (subView cfg).roots db = order cfg (withParent db none) from rfl, heq, hfor, List.filter_map]
    rfl
  · exact fun r hr => ((hsel _ r).1 hr).1
  · intro p hp
    rw [show (subView cfg).children db p = order cfg (withParent db (some p.pk)) from rfl, heq]
    show _ = (forest cfg db (some p.pk)).filter sub
    rw [hfor, List.filter_map]
    rfl
  · exact fun p _ r hr => ((hsel _ r).1 hr).1
  · intro p hp
    obtain ⟨_, _, hn⟩ := C32_nav_partial hw hp
    exact hn.depth
  · intro r hr
    show (db.rows.any (fun q => sub q.pk && q.parent == some r.pk)) = true ↔ (forest cfg db (some r.pk)).filter sub ≠ []
    rw [List.any_eq_true, forest_eq hai]
    constructor
    · rintro ⟨q, hq, e⟩
      rw [Bool.and_eq_true, beq_iff_eq] at e
      exact List.ne_nil_of_mem (List.mem_filter.2 ⟨mem_PF.2 ⟨q, hq, e.2, rfl⟩, e.1⟩)
    · intro hne
      obtain ⟨k, hk⟩ := List.exists_mem_of_ne_nil _ hne
      obtain ⟨hk, hs⟩ := List.mem_filter.1 hk
      obtain ⟨q, hq, e, rfl⟩ := mem_PF.1 hk
      exact ⟨q, hq, by simp [hs, e]⟩
  · exact fun r _ hne => hne

/-- **C77 for AL, the list** (partial: nodes below nodes that are not of the model are not shown; the buttons are exact), without `node_order_by`. -/
theorem C77_al_list_partial (ho : cfg.ordered = false) (h : Consistent cfg db) (sub : Nat → Bool) :
    SubShows (forest cfg db) (db.rows.map Row.pk) sub (subContext (subView cfg) sub db) ∧
      Buttons (subContext (subView cfg) sub db) (fun k => (forest cfg db (some k)).filter sub ≠ []) := by
  have hi := h.inv ho
  have hF := isForestOn (cfg := cfg) hi.toAI
  rw [data_keys] at hF
  exact ⟨subShows_of (subFits hi sub) hF, (subFits hi sub).buttons⟩

/-- **C77 for AL, the list**, with `node_order_by` (partial as before, and the order of equal siblings is the database's choice for every query, so none may be equal). -/
theorem C77_al_list_sorted_partial (ho : cfg.ordered = true) (h : Wf cfg db) (hn : NoTies cfg db) (sub : Nat → Bool) :
    SubShows (forest cfg db) (db.rows.map Row.pk) sub (subContext (subView cfg) sub db) ∧
      Buttons (subContext (subView cfg) sub db) (fun k => (forest cfg db (some k)).filter sub ≠ []) := by
  have hi := inv_of_noTies ho h hn
  have hF := isForestOn (cfg := cfg) hi.toAI
  rw [data_keys] at hF
  exact ⟨subShows_of (subFits hi sub) hF, (subFits hi sub).buttons⟩

/-! ### The form -/

theorem formRefsC_mem {F : Forest} {ids tree branch : List Nat} {x : Nat} (hF : F.IsForestOn ids) (ht : TreeListing F none none tree) (hb : TreeListing F (some x) none branch)
    (c : Cls) (k : Nat) : k ∈ formRefsC c tree branch ↔ k ∈ ids ∧ ¬ F.Desc x k ∧ (k = x → c ≠ treeCls) := by
  have hmem := hb.mem_branch
  obtain ⟨full, base, ⟨hd, _⟩, hn, keep, rfl, hk⟩ := hb
  have hall : full.filter keep = full := by
    rw [List.filter_eq_self]
    exact fun k hm => (hk k hm).2 (by simp)
  rw [hall] at hmem ⊢
  cases hd with
  | @cons _ _ l₁ l₂ h1 h2 =>
    cases h2
    rw [List.append_nil] at hmem hn ⊢
    rw [List.nodup_cons] at hn
    have hx : ¬ F.Desc x x := by
      intro h
      have := h1.mem x
      obtain ⟨d, hd, hh⟩ := h.cases_head
      exact hn.1 (this.2 ⟨d, hd, hh⟩)
    unfold formRefsC
    rw [List.mem_filter, ht.mem_all hF]
    refine and_congr_right (fun _ => ?_)
    simp only [List.head?_cons, List.tail_cons, Bool.not_eq_true', Bool.or_eq_false_iff, Bool.and_eq_false_iff, beq_eq_false_iff_ne, List.contains_eq_mem,
      decide_eq_false_iff_not, ne_eq, Option.some.injEq]
    have hm := hmem k
    rw [List.mem_cons] at hm
    constructor
    · rintro ⟨h3, h4⟩
      refine ⟨fun hd => ?_, fun e he => h3.elim (fun h => h he) (fun h => h e.symm)⟩
      rcases hm.2 (Or.inr hd) with rfl | h
      · exact hx hd
      · exact h4 h
    · rintro ⟨h3, h4⟩
      refine ⟨?_, fun h => ?_⟩
      · by_cases e : k = x
        · exact Or.inl (h4 e)
        · exact Or.inr (fun e' => e e'.symm)
      · rcases hm.1 (Or.inr h) with rfl | hd
        · exact hn.1 h
        · exact h3 hd

/-- **C77 for AL, the references the form lists** (partial: for an object of an inherited model the node itself is listed): every node that is not below the instance. -/
theorem C77_al_offered_partial (h : Wf cfg db) {x : Row} (hx : x ∈ db.rows) (c : Cls) :
    ∃ all below, getTree cfg db none none = .ok all ∧ descendants cfg db x none true none = .ok below ∧
      ∀ k, k ∈ formRefsC c (all.map (fun e => e.1.pk)) (below.map (fun e => e.1.pk)) ↔
        k ∈ db.rows.map Row.pk ∧ ¬ (forest cfg db).Desc x.pk k ∧ (k = x.pk → c ≠ treeCls) := by
  have hF := isForestOn (cfg := cfg) h.ai
  rw [data_keys] at hF
  obtain ⟨all, e, hall, _⟩ := C11_al h (p := none) (by simp) none (by simp)
  obtain ⟨below, e', hb, _⟩ := C11_al h (p := some x) (by rintro q e; cases e; exact hx) none (by simp)
  refine ⟨all, below, e, ?_, fun k => formRefsC_mem hF hall hb c k⟩
  unfold descendants
  rw [show getTree cfg db (some (x, none)) none = .ok below from e']
  rfl

/-- **C77 for AL, the references the form accepts**: those of the model. -/
theorem C77_al_accepts (sub : Nat → Bool) (ref : Option Nat) : formAccepts db sub ref = true ↔ ∀ k, ref = some k → k ∈ db.rows.map Row.pk ∧ sub k = true := by
  unfold formAccepts
  cases ref with
  | none => simp
  | some k =>
    simp only [List.any_eq_true, Bool.and_eq_true, beq_iff_eq, Option.some.injEq, forall_eq', List.mem_map]
    constructor
    · rintro ⟨r, hr, rfl, hs⟩; exact ⟨⟨r, hr, rfl⟩, hs⟩
    · rintro ⟨⟨r, hr, rfl⟩, hs⟩; exact ⟨r, hr, rfl, hs⟩

theorem shown_mem {F : Forest} {ids : List Nat} (hF : F.IsForestOn ids) {x k : Nat} {pos : Pos} (hs : F.ShowsPlace x (some k) pos) : k ∈ ids := by
  unfold Forest.ShowsPlace at hs
  split at hs
  · rename_i r e1
    obtain ⟨p, l₁, l₂, e2⟩ := hs
    cases e1
    exact hF.good.sub p k (by rw [e2]; simp)
  · obtain ⟨l, e2⟩ := hs
    by_contra hk
    rw [hF.outside k hk] at e2
    cases e2
  · by_contra hk
    rw [hF.outside k hk] at hs
    simp at hs
  · exact hs.elim

/-- **C77 for AL, a form sent back unchanged** (partial), without `node_order_by`: it is accepted exactly if the node before, or without one the parent, is of the model, or there is
neither. -/
theorem C77_al_unchanged_partial (ho : cfg.orderBy = []) (h : Consistent cfg db) {x : Row} (hx : x ∈ db.rows) (sub : Nat → Bool) :
    ∃ ref pos, formInitial false (alNav cfg db x) = .ok (ref, pos) ∧ (forest cfg db).ShowsPlace x.pk ref pos ∧
      (formAccepts db sub ref = true ↔ ∀ k, ref = some k → sub k = true) := by
  obtain ⟨ref, pos, e, _, hs⟩ := C44_al_initial h ho hx
  refine ⟨ref, pos, e, hs, ?_⟩
  have hF := isForestOn (cfg := cfg) (h.inv (ordered_false (m := manager cfg) ho)).toAI
  rw [data_keys] at hF
  rw [C77_al_accepts]
  refine forall_congr' fun k => imp_congr_right fun ek => ⟨fun h => h.2, fun h => ⟨?_, h⟩⟩
  subst ek
  exact shown_mem hF hs

/-- **C77 for AL, a form sent back unchanged** (partial), with `node_order_by`: it is accepted exactly if the parent is of the model, or there is none. -/
theorem C77_al_unchanged_sorted_partial (h : Wf cfg db) {x : Row} (hx : x ∈ db.rows) (sub : Nat → Bool) :
    ∃ ref pos, formInitial true (alNav cfg db x) = .ok (ref, pos) ∧ (forest cfg db).ShowsPlace x.pk ref pos ∧
      (formAccepts db sub ref = true ↔ ∀ k, ref = some k → sub k = true) := by
  obtain ⟨ref, pos, e, _, hs⟩ := C44_al_initial_sorted h hx
  refine ⟨ref, pos, e, hs, ?_⟩
  have hF := isForestOn (cfg := cfg) h.ai
  rw [data_keys] at hF
  rw [C77_al_accepts]
  refine forall_congr' fun k => imp_congr_right fun ek => ⟨fun h => h.2, fun h => ⟨?_, h⟩⟩
  subst ek
  exact shown_mem hF hs

end AL

namespace LT
variable {db : DB}

/-- the list for a model that inherits from an LT model.  admin_tree.py:39-44: `cl.model` is the inherited model, and all its nodes below count, not only children. -/
def subView : SubView DB Row where
  key := Row.pk
  find := DB.get?
  roots := rootNodes
  children := children
  depth := fun _ r => .ok r.depth
  select := fun db P => orderByPath (db.rows.filter P)
  hasChildren := fun db sub r => db.rows.any (fun q => sub q.pk && (r.path.isPrefixOf q.path && q.pk != r.pk))

theorem subFits (h : Consistent db) (sub : Nat → Bool) : subView.Fits db sub db.rows (forest db) (fun k => ∃ d, (forest db).Desc k d ∧ sub d = true) := by
  have hp := h.inv.inv
  have hsel : ∀ (P : Row → Bool) r, r ∈ subView.select db P ↔ r ∈ db.rows ∧ P r = true := by
    intro P r
    show r ∈ orderByPath (db.rows.filter P) ↔ _
    rw [mem_orderByPath, List.mem_filter]
  have hstrict : ∀ P : Row → Bool, (orderByPath (db.rows.filter P)).Pairwise (fun a b => a.path < b.path) :=
    fun P => orderByPath_strict (hp.pathNodup.sublist (List.filter_sublist.map _))
  have heq : ∀ qs : List Row, qs.Pairwise (fun a b => a.path < b.path) → (∀ r ∈ qs, r ∈ db.rows) → toSub subView sub db qs = qs.filter (fun r => sub r.pk) := by
    intro qs hq hs
    exact toSub_eq (v := subView) (rows := db.rows) (lt := fun a b => a.path < b.path) (fun a b hab => plt_asymm hab) hq
      (hstrict _) hsel hs (fun a ha b hb e => hp.pk_inj ha hb e)
  refine ⟨?_, ?_, ?_, ?_, ?_, ?_, ?_, ?_, ?_⟩
  · exact fun k p e => (get?_eq_some hp).1 e
  · intro k e hk
    obtain ⟨r, hr, rfl⟩ := List.mem_map.1 hk
    exact get?_eq_none.1 e r hr rfl
  · show ((toSub subView sub db (rootNodes db)).map Row.pk) = _
    rw [heq (rootNodes db) (hstrict _) (fun r hr => ((mem_rootNodes hp).1 hr).1), show forest db none = (rootNodes db).map Row.pk from rfl, List.filter_map]
    rfl
  · exact fun r hr => ((hsel _ r).1 hr).1
  · intro p hq
    show ((toSub subView sub db (children db p)).map Row.pk) = (forest db (some p.pk)).filter sub
    rw [heq (children db p) (hstrict _) (fun r hr => ((mem_children hp).1 hr).1)]
    rw [← show (children db p).map Row.pk = forest db (some p.pk) from (C37_nav h hq).children, List.filter_map]
    rfl
  · exact fun p _ r hr => ((hsel _ r).1 hr).1
  · exact fun p hq => (C37_nav h hq).depth
  · intro r hr
    show (db.rows.any (fun q => sub q.pk && (r.path.isPrefixOf q.path && q.pk != r.pk))) = true ↔ ∃ d, (forest db).Desc r.pk d ∧ sub d = true
    rw [List.any_eq_true, forest_eq hp]
    constructor
    · rintro ⟨q, hq, e⟩
      simp only [Bool.and_eq_true, List.isPrefixOf_iff_prefix, bne_iff_ne, ne_eq] at e
      exact ⟨q.pk, (desc_PF hp hr hq).2 ⟨e.2.1, fun e' => e.2.2 (by rw [e'])⟩, e.1⟩
    · rintro ⟨d, hd, hs⟩
      have : ∃ q ∈ db.rows, q.pk = d := by
        cases hd with
        | child h => obtain ⟨q, hq, _, e⟩ := (mem_PF hp).1 h; exact ⟨q, hq, e⟩
        | step _ h => obtain ⟨q, hq, _, e⟩ := (mem_PF hp).1 h; exact ⟨q, hq, e⟩
      obtain ⟨q, hq, rfl⟩ := this
      obtain ⟨h1, h2⟩ := (desc_PF hp hr hq).1 hd
      refine ⟨q, hq, ?_⟩
      simp only [Bool.and_eq_true, List.isPrefixOf_iff_prefix, bne_iff_ne, ne_eq]
      exact ⟨hs, h1, fun e => h2 (hp.pk_inj hr hq e.symm)⟩
  · intro r _ hne
    obtain ⟨k, hk⟩ := List.exists_mem_of_ne_nil _ hne
    obtain ⟨hk, hs⟩ := List.mem_filter.1 hk
    exact ⟨k, .child hk, hs⟩

/-- **C77 for LT, the list** (partial: nodes below nodes that are not of the model are not shown, and a button needs a node of the model anywhere below). -/
theorem C77_lt_list_partial (h : Consistent db) (sub : Nat → Bool) :
    SubShows (forest db) (db.rows.map Row.pk) sub (subContext subView sub db) ∧
      Buttons (subContext subView sub db) (fun k => ∃ d, (forest db).Desc k d ∧ sub d = true) := by
  have hF := isForestOn h
  rw [keys_eq] at hF
  exact ⟨subShows_of (subFits h sub) hF, (subFits h sub).buttons⟩

end LT

/-! ### Where the list and the form go wrong -/

/-- `1` with children `2` and `3`, `4` below `3`, and `5`; the nodes `1`, `4` and `5` are of the model -/
def exSub (k : Nat) : Bool := k == 1 || k == 4 || k == 5

/-- **C77, nodes that cannot be found**: `4` is of the model, and no list shows it: the lists of `1` and `5`, the only ones that can be asked for besides its own, are empty. -/
theorem C77_never_shown :
    MP.Consistent MP.exCfg MP.exDB ∧ exSub 4 = true ∧ (MP.forest MP.exCfg MP.exDB).Level 4 3 ∧
      subContext (MP.subView MP.exCfg) exSub MP.exDB none = .ok [⟨1, 0, 1, true⟩, ⟨5, 0, 1, false⟩] ∧
      subContext (MP.subView MP.exCfg) exSub MP.exDB (some 1) = .ok [] ∧ subContext (MP.subView MP.exCfg) exSub MP.exDB (some 5) = .ok [] ∧
      subContext (MP.subView MP.exCfg) exSub MP.exDB (some 3) = .error .doesNotExist := by
  refine ⟨MP.exDB_consistent, rfl, ?_, by decide, by decide, by decide, by decide⟩
  exact .child (p := 3) (.child (p := 1) (.root (by decide)) (by decide)) (by decide)

/-- **C77, buttons that show nothing**: for MP, NS and LT the root `1` has a button though it has no child of the model.  For AL it has none. -/
theorem C77_empty_button :
    (∃ l, subContext (MP.subView MP.exCfg) exSub MP.exDB none = .ok (⟨1, 0, 1, true⟩ :: l)) ∧ subContext (MP.subView MP.exCfg) exSub MP.exDB (some 1) = .ok [] ∧
      NS.Consistent NS.formDB ∧ (∃ l, subContext NS.subView (fun k => k == 1) NS.formDB none = .ok (⟨1, 0, 1, true⟩ :: l)) ∧
      subContext NS.subView (fun k => k == 1) NS.formDB (some 1) = .ok [] ∧
      LT.Consistent LT.exDB ∧ (∃ l, subContext LT.subView exSub LT.exDB none = .ok (⟨1, 0, 1, true⟩ :: l)) ∧ subContext LT.subView exSub LT.exDB (some 1) = .ok [] ∧
      (∃ l, subContext LT.subView (fun k => k == 1) LT.exDB none = .ok (⟨1, 0, 1, false⟩ :: l)) ∧
      AL.Consistent AL.exPlain AL.exDB ∧ (∃ l, subContext (AL.subView AL.exPlain) exSub AL.exDB none = .ok (⟨1, 0, 1, false⟩ :: l)) :=
  ⟨⟨[⟨5, 0, 1, false⟩], by decide⟩, by decide, NS.formDB_inv, ⟨[], by decide⟩, by decide, LT.consistent_iff.2 LT.exDB_inv, ⟨[⟨5, 0, 1, false⟩], by decide⟩, by decide, ⟨[], by decide⟩,
    AL.consistent_of_inv rfl AL.exDB_inv, ⟨[⟨5, 0, 1, false⟩], by decide⟩⟩

/-- **C77 for AL, a form that cannot be saved**: the form of `4` shows its parent `3` as the reference.  It lists `3`, and `4` itself, and accepts neither `3` nor nodes not of the model. -/
theorem C77_al_rejected :
    AL.Consistent AL.exPlain AL.exDB ∧
      formInitial false (AL.alNav AL.exPlain AL.exDB ⟨4, some 3, 1, []⟩) = .ok (some 3, .firstChild) ∧
      AL.formAccepts AL.exDB exSub (some 3) = false ∧ AL.formAccepts AL.exDB exSub (some 1) = true ∧
      (∃ all below, AL.getTree AL.exPlain AL.exDB none none = .ok all ∧ AL.descendants AL.exPlain AL.exDB ⟨4, some 3, 1, []⟩ none true none = .ok below ∧
        AL.formRefsC 1 (all.map (fun e => e.1.pk)) (below.map (fun e => e.1.pk)) = [1, 2, 3, 4, 5] ∧
        AL.formRefsC treeCls (all.map (fun e => e.1.pk)) (below.map (fun e => e.1.pk)) = [1, 2, 3, 5]) ∧
      formSave (AL.manager AL.exPlain) AL.exDB ⟨4, some 3, 1, []⟩ false ⟨true, true, []⟩ (some ⟨4, some 3, 1, []⟩) .firstChild = .error .invalidMoveToDescendant :=
  ⟨AL.consistent_of_inv rfl AL.exDB_inv, by decide, by decide, by decide, ⟨_, _, rfl, rfl, by decide, by decide⟩, by decide⟩

/-- the hypotheses are met by stored trees, with nodes of the model at several levels -/
example :
    subContext (MP.subView MP.exCfg) (fun k => k != 2) MP.exDB (some 1) = .ok [⟨3, 1, 2, true⟩] ∧
      subContext (NS.subView) (fun k => k != 2) NS.formDB (some 1) = .ok [⟨5, 1, 2, false⟩] ∧
      AL.Wf AL.exSorted AL.exSDB ∧ AL.NoTies AL.exSorted AL.exSDB ∧
      subContext (AL.subView AL.exSorted) (fun k => k != 3) AL.exSDB (some 1) = .ok [⟨2, 1, 2, false⟩, ⟨4, 1, 2, false⟩] ∧
      subContext LT.subView (fun k => k != 2) LT.exDB (some 1) = .ok [⟨3, 1, 2, true⟩] :=
  ⟨by decide, by decide, AL.wf_of_ai AL.exSDB_inv.toAI, AL.noTies_of_inv rfl AL.exSDB_inv, by decide, by decide⟩

end Verif
