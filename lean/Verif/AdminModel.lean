/-
Model of the tree list of `TreeAdmin` (admin.py `changelist_view`, `children_view`, `get_queryset`) with the context for the
front end (templatetags/admin_tree.py), on top of any of the four managers.

Not modelled: permissions, paging, search and list filters, an `ordering` of the admin class or of the model (without one,
Django keeps the order of the manager's query), multi-table inheritance, and the HTML.
-/
import Verif.SpecAdmin
import Verif.DFS

namespace Verif

/-- What the list uses of a manager and its model -/
structure TreeView (σ ρ : Type) where
  /-- `obj.pk` -/
  key : ρ → Nat
  /-- `get_object_or_404(model, pk=…)` -/
  find : σ → Nat → Option ρ
  /-- `get_root_nodes()` -/
  roots : σ → List ρ
  /-- `get_children(parent)` -/
  children : σ → ρ → List ρ
  /-- `obj.get_depth()` -/
  depth : σ → ρ → Except Err Int
  /-- the annotation `treebeard_has_children` -/
  hasChildren : σ → ρ → Bool

variable {σ ρ : Type}

/-- admin_tree.py:58-66: the context of one row, without `can-change` -/
def adminRow (v : TreeView σ ρ) (db : σ) (parent : Nat) (level : Int) (obj : ρ) : AdminRow :=
  ⟨v.key obj, parent, level, v.hasChildren db obj⟩

/-- admin.py:33-52, 77-82, 93-104 and admin_tree.py:56-67: the rows for the roots, or for the children of the node with
this primary key.  Http404 is the error `doesNotExist`. -/
def treeContext (v : TreeView σ ρ) (db : σ) (parentId : Option Nat) : Except Err (List AdminRow) :=
  match parentId with
  | none => .ok ((v.roots db).map (adminRow v db 0 1))
  | some k =>
    match v.find db k with
    | none => .error .doesNotExist
    | some p =>
      match v.depth db p with
      | .error e => .error e
      | .ok d => .ok ((v.children db p).map (adminRow v db (v.key p) (d + 1)))

/-! ### What is the same for all managers -/

/-- the parts fit the rows and the forest -/
structure TreeView.Fits (v : TreeView σ ρ) (db : σ) (rows : List ρ) (F : Forest) : Prop where
  found : ∀ k p, v.find db k = some p → p ∈ rows ∧ v.key p = k
  notFound : ∀ k, v.find db k = none → k ∉ rows.map v.key
  roots : (v.roots db).map v.key = F none ∧ ∀ r ∈ v.roots db, r ∈ rows
  children : ∀ p ∈ rows, (v.children db p).map v.key = F (some (v.key p)) ∧ ∀ r ∈ v.children db p, r ∈ rows
  depth : ∀ p ∈ rows, ∃ n : Nat, v.depth db p = .ok n ∧ F.Level (v.key p) n
  has : ∀ r ∈ rows, (v.hasChildren db r = true ↔ F (some (v.key r)) ≠ [])

variable {v : TreeView σ ρ} {db : σ} {rows : List ρ} {F : Forest}

theorem listsChildren_of (hf : v.Fits db rows F) {objs : List ρ} {p : Option Nat} {n : Nat} (hn : ∀ r ∈ objs, F.Level (v.key r) n)
    (hm : objs.map v.key = F p) (hs : ∀ r ∈ objs, r ∈ rows) : ListsChildren F p (objs.map (adminRow v db (p.getD 0) n)) := by
  refine ⟨by rw [List.map_map]; exact hm, ?_, ?_, ?_⟩ <;> intro r hr <;> obtain ⟨o, ho, rfl⟩ := List.mem_map.1 hr
  · rfl
  · exact ⟨n, rfl, hn o ho⟩
  · exact hf.has o (hs o ho)

theorem TreeView.Fits.lists (hf : v.Fits db rows F) {p : Option Nat} (hp : ∀ k, p = some k → k ∈ rows.map v.key) :
    ∃ l, treeContext v db p = .ok l ∧ ListsChildren F p l := by
  cases p with
  | none =>
    refine ⟨_, rfl, listsChildren_of hf (n := 1) ?_ hf.roots.1 hf.roots.2⟩
    intro r hr
    exact .root (by rw [← hf.roots.1]; exact List.mem_map_of_mem hr)
  | some k =>
    cases e : v.find db k with
    | none => exact absurd (hp k rfl) (hf.notFound k e)
    | some q =>
      obtain ⟨hq, hk⟩ := hf.found k q e
      subst hk
      obtain ⟨n, hd, hl⟩ := hf.depth q hq
      have hc := hf.children q hq
      refine ⟨_, by unfold treeContext; simp only [e, hd]; rfl, ?_⟩
      have := listsChildren_of hf (p := some (v.key q)) (n := n + 1) (objs := v.children db q) ?_ hc.1 hc.2
      · rw [show ((n : Int) + 1) = ((n + 1 : Nat) : Int) from by simp]
        exact this
      · intro r hr
        exact .child hl (by rw [← hc.1]; exact List.mem_map_of_mem hr)

theorem TreeView.Fits.unknown (hf : v.Fits db rows F) {k : Nat} (hk : k ∉ rows.map v.key) : treeContext v db (some k) = .error .doesNotExist := by
  unfold treeContext
  cases e : v.find db k with
  | none => simp only [e]
  | some q =>
    obtain ⟨hq, rfl⟩ := hf.found k q e
    exact absurd (List.mem_map_of_mem hq) hk

/-- opening everything shows the listing in depth-first order, with the levels -/
theorem opened_dfs {req : Option Nat → Except Err (List AdminRow)} {ids : List Nat}
    (hreq : ∀ k ∈ ids, ∃ l, req (some k) = .ok l ∧ ListsChildren F (some k) l) {cs l : List Nat} (hd : F.DFS cs l) :
    ∀ rs : List AdminRow, rs.map AdminRow.node = cs → (∀ k ∈ l, k ∈ ids) → (∀ r ∈ rs, (r.hasChildren = true ↔ F (some r.node) ≠ [])) →
      (∀ r ∈ rs, ∃ n : Nat, r.level = n ∧ F.Level r.node n) →
      ∃ out, Opened req rs out ∧ out.map AdminRow.node = l ∧ ∀ r ∈ out, ∃ n : Nat, r.level = n ∧ F.Level r.node n := by
  induction hd with
  | nil =>
    intro rs e _ _ _
    obtain rfl := List.map_eq_nil_iff.1 e
    exact ⟨[], .nil, rfl, by simp⟩
  | @cons c cs l₁ l₂ h1 _ ih1 ih2 =>
    intro rs e hids hh hl
    cases rs with
    | nil => simp at e
    | cons r rs =>
      rw [List.map_cons, List.cons.injEq] at e
      obtain ⟨rfl, e⟩ := e
      obtain ⟨out₂, o2, e2, lv2⟩ := ih2 rs e (fun k hk => hids k (by simp [hk])) (fun q hq => hh q (by simp [hq])) (fun q hq => hl q (by simp [hq]))
      have hr := hh r (by simp)
      have hlv := hl r (by simp)
      cases hc : r.hasChildren with
      | false =>
        have hnil : F (some r.node) = [] := by
          by_contra hne
          rw [hr.2 hne] at hc
          cases hc
        rw [hnil] at h1
        cases h1
        refine ⟨r :: out₂, .closed hc o2, by simp [e2], ?_⟩
        intro q hq
        rcases List.mem_cons.1 hq with rfl | hq
        exacts [hlv, lv2 q hq]
      | true =>
        obtain ⟨below, eb, hb⟩ := hreq r.node (hids _ (by simp))
        obtain ⟨out₁, o1, e1, lv1⟩ := ih1 below hb.nodes (fun k hk => hids k (by simp [hk])) hb.hasChildren hb.level
        refine ⟨r :: (out₁ ++ out₂), .opened hc eb o1 o2, by simp [e1, e2], ?_⟩
        intro q hq
        simp only [List.mem_cons, List.mem_append] at hq
        rcases hq with rfl | hq | hq
        exacts [hlv, lv1 q hq, lv2 q hq]

/-- the result of opening everything is determined -/
theorem Opened.unique {req : Option Nat → Except Err (List AdminRow)} {rs l l' : List AdminRow} (h : Opened req rs l) (h' : Opened req rs l') : l = l' := by
  induction h generalizing l' with
  | nil => cases h'; rfl
  | closed hc _ ih =>
    cases h' with
    | closed _ h2 => rw [ih h2]
    | opened hc' => rw [hc] at hc'; cases hc'
  | opened hc hb _ _ ih1 ih2 =>
    cases h' with
    | closed hc' => rw [hc] at hc'; cases hc'
    | opened _ hb' h1 h2 =>
      rw [hb] at hb'
      cases hb'
      rw [ih1 h1, ih2 h2]

end Verif
