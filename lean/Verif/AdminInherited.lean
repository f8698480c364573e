/-
Model of the admin's tree list and of the reference field of the form for a model that inherits from the tree model (multi-table inheritance).
-/
import Verif.SpecInherited
import Verif.AdminSearch
import Verif.Classes

namespace Verif

/-- What the list of an inherited model uses: the tree model's table, and which of its rows have a row in the table of the inherited model (`sub`, by primary key). -/
structure SubView (σ ρ : Type) where
  /-- `obj.pk` -/
  key : ρ → Nat
  /-- `objects.get(pk=…)` of the tree model -/
  find : σ → Nat → Option ρ
  /-- `get_root_nodes()`, of the tree model -/
  roots : σ → List ρ
  /-- `get_children(parent)`, of the tree model -/
  children : σ → ρ → List ρ
  /-- `obj.get_depth()` -/
  depth : σ → ρ → Except Err Int
  /-- `self.model.objects.filter(…)`: the rows that meet the condition, in the order of the manager -/
  select : σ → (ρ → Bool) → List ρ
  /-- the annotation `treebeard_has_children` -/
  hasChildren : σ → (Nat → Bool) → ρ → Bool

variable {σ ρ : Type}

/-- admin_tree.py:58-66: the context of one row -/
def subRow (v : SubView σ ρ) (sub : Nat → Bool) (db : σ) (parent : Nat) (level : Int) (obj : ρ) : AdminRow :=
  ⟨v.key obj, parent, level, v.hasChildren db sub obj⟩

/-- admin.py:46-50: back from the tree model to the inherited one, `filter(ptr__in=qs)` -/
def toSub (v : SubView σ ρ) (sub : Nat → Bool) (db : σ) (qs : List ρ) : List ρ :=
  v.select db (fun r => sub (v.key r) && qs.any (fun q => v.key q == v.key r))

/-- admin.py:33-52, 77-82, 93-104 and admin_tree.py:56-67 for an inherited model.  `get_object_or_404` asks for a node of the inherited model. -/
def subContext (v : SubView σ ρ) (sub : Nat → Bool) (db : σ) (parentId : Option Nat) : Except Err (List AdminRow) :=
  match parentId with
  | none => .ok ((toSub v sub db (v.roots db)).map (subRow v sub db 0 1))
  | some k =>
    match v.find db k with
    | none => .error .doesNotExist
    | some p =>
      if sub k then
        match v.depth db p with
        | .error e => .error e
        | .ok d => .ok ((toSub v sub db (v.children db p)).map (subRow v sub db (v.key p) (d + 1)))
      else .error .doesNotExist

/-! ### What is the same for all managers -/

/-- the parts fit the rows and the forest -/
structure SubView.Fits (v : SubView σ ρ) (db : σ) (sub : Nat → Bool) (rows : List ρ) (F : Forest) (B : Nat → Prop) : Prop where
  found : ∀ k p, v.find db k = some p → p ∈ rows ∧ v.key p = k
  notFound : ∀ k, v.find db k = none → k ∉ rows.map v.key
  roots : (toSub v sub db (v.roots db)).map v.key = (F none).filter sub
  rootsMem : ∀ r ∈ toSub v sub db (v.roots db), r ∈ rows
  children : ∀ p ∈ rows, (toSub v sub db (v.children db p)).map v.key = (F (some (v.key p))).filter sub
  childrenMem : ∀ p ∈ rows, ∀ r ∈ toSub v sub db (v.children db p), r ∈ rows
  depth : ∀ p ∈ rows, ∃ n : Nat, v.depth db p = .ok n ∧ F.Level (v.key p) n
  has : ∀ r ∈ rows, (v.hasChildren db sub r = true ↔ B (v.key r))
  opens : ∀ r ∈ rows, (F (some (v.key r))).filter sub ≠ [] → B (v.key r)

variable {v : SubView σ ρ} {db : σ} {sub : Nat → Bool} {rows : List ρ} {F : Forest} {B : Nat → Prop}

theorem listsSub_of (hf : v.Fits db sub rows F B) {objs : List ρ} {p : Option Nat} {n : Nat} (hn : ∀ r ∈ objs, F.Level (v.key r) n)
    (hm : objs.map v.key = (F p).filter sub) (hs : ∀ r ∈ objs, r ∈ rows) : ListsSub F sub p (objs.map (subRow v sub db (p.getD 0) n)) := by
  refine ⟨by rw [List.map_map]; exact hm, ?_, ?_, ?_⟩ <;> intro r hr <;> obtain ⟨o, ho, rfl⟩ := List.mem_map.1 hr
  · rfl
  · exact ⟨n, rfl, hn o ho⟩
  · exact fun h => (hf.has o (hs o ho)).2 (hf.opens o (hs o ho) h)

theorem SubView.Fits.lists (hf : v.Fits db sub rows F B) {p : Option Nat} (hp : ∀ k, p = some k → k ∈ rows.map v.key ∧ sub k = true) :
    ∃ l, subContext v sub db p = .ok l ∧ ListsSub F sub p l := by
  cases p with
  | none =>
    refine ⟨_, rfl, listsSub_of hf (n := 1) ?_ hf.roots hf.rootsMem⟩
    intro r hr
    have : v.key r ∈ (F none).filter sub := by rw [← hf.roots]; exact List.mem_map_of_mem hr
    exact .root (List.mem_filter.1 this).1
  | some k =>
    cases e : v.find db k with
    | none => exact absurd (hp k rfl).1 (hf.notFound k e)
    | some q =>
      obtain ⟨hq, hk⟩ := hf.found k q e
      subst hk
      obtain ⟨n, hd, hl⟩ := hf.depth q hq
      have hc := hf.children q hq
      refine ⟨_, by unfold subContext; simp only [e, hd, (hp _ rfl).2, if_true]; rfl, ?_⟩
      have := listsSub_of hf (p := some (v.key q)) (n := n + 1) (objs := toSub v sub db (v.children db q)) ?_ hc (hf.childrenMem q hq)
      · rw [show ((n : Int) + 1) = ((n + 1 : Nat) : Int) from by simp]
        exact this
      · intro r hr
        have : v.key r ∈ (F (some (v.key q))).filter sub := by rw [← hc]; exact List.mem_map_of_mem hr
        exact .child hl (List.mem_filter.1 this).1

theorem SubView.Fits.unknown (hf : v.Fits db sub rows F B) {k : Nat} (hk : ¬ (k ∈ rows.map v.key ∧ sub k = true)) : subContext v sub db (some k) = .error .doesNotExist := by
  unfold subContext
  cases e : v.find db k with
  | none => simp only [e]
  | some q =>
    obtain ⟨hq, rfl⟩ := hf.found k q e
    simp only [e]
    rw [if_neg]
    exact fun h => hk ⟨List.mem_map_of_mem hq, h⟩

theorem SubView.Fits.buttons (hf : v.Fits db sub rows F B) : Buttons (subContext v sub db) B := by
  intro p l e r hr
  unfold subContext at e
  cases p with
  | none =>
    cases e
    obtain ⟨o, ho, rfl⟩ := List.mem_map.1 hr
    exact hf.has o (hf.rootsMem o ho)
  | some k =>
    simp only at e
    cases hq : v.find db k with
    | none => rw [hq] at e; cases e
    | some q =>
      rw [hq] at e
      simp only at e
      split at e
      · cases hd : v.depth db q with
        | error _ => rw [hd] at e; cases e
        | ok d =>
          rw [hd] at e
          cases e
          obtain ⟨o, ho, rfl⟩ := List.mem_map.1 hr
          exact hf.has o (hf.childrenMem q (hf.found k q hq).1 o ho)
      · cases e

/-- opening everything -/
theorem opened_sub {req : Option Nat → Except Err (List AdminRow)} {ids : List Nat}
    (hreq : ∀ k ∈ ids, sub k = true → ∃ l, req (some k) = .ok l ∧ ListsSub F sub (some k) l) {cs l : List Nat} (hd : F.DFS cs l) :
    ∀ rs : List AdminRow, rs.map AdminRow.node = cs.filter sub → (∀ k ∈ l, k ∈ ids) → (∀ r ∈ rs, (F (some r.node)).filter sub ≠ [] → r.hasChildren = true) →
      (∀ r ∈ rs, ∃ n : Nat, r.level = n ∧ F.Level r.node n) →
      ∃ out, Opened req rs out ∧ (out.map AdminRow.node).Sublist l ∧ (∀ k, k ∈ out.map AdminRow.node ↔ ∃ c ∈ cs, HitBelow F sub c k) ∧
        ∀ r ∈ out, ∃ n : Nat, r.level = n ∧ F.Level r.node n := by
  induction hd with
  | nil =>
    intro rs e _ _ _
    obtain rfl := List.map_eq_nil_iff.1 e
    exact ⟨[], .nil, by simp, by simp, by simp⟩
  | @cons c cs l₁ l₂ h1 _ ih1 ih2 =>
    intro rs e hids hh hl
    by_cases hc : sub c = true
    · rw [List.filter_cons_of_pos hc] at e
      cases rs with
      | nil => simp at e
      | cons r rs =>
        rw [List.map_cons, List.cons.injEq] at e
        obtain ⟨rfl, e⟩ := e
        obtain ⟨out₂, o2, s2, m2, lv2⟩ := ih2 rs e (fun k hk => hids k (by simp [hk])) (fun q hq => hh q (by simp [hq])) (fun q hq => hl q (by simp [hq]))
        have hr := hh r (by simp)
        have hlv := hl r (by simp)
        cases hch : r.hasChildren with
        | false =>
          have hnil : (F (some r.node)).filter sub = [] := by
            by_contra hne
            rw [hr hne] at hch
            cases hch
          refine ⟨r :: out₂, .closed hch o2, ?_, ?_, ?_⟩
          · rw [List.map_cons]
            exact (s2.trans (List.sublist_append_right l₁ l₂)).cons_cons _
          · intro k
            rw [List.map_cons, List.mem_cons, m2]
            constructor
            · rintro (rfl | ⟨d, hd, h⟩)
              · exact ⟨_, by simp, .here hc⟩
              · exact ⟨d, by simp [hd], h⟩
            · rintro ⟨d, hd, h⟩
              rcases List.mem_cons.1 hd with rfl | hd
              · cases h with
                | here _ => exact Or.inl rfl
                | down _ h h' =>
                  have := List.mem_filter.2 ⟨h, h'.top⟩
                  rw [hnil] at this
                  simp at this
              · exact Or.inr ⟨d, hd, h⟩
          · intro q hq
            rcases List.mem_cons.1 hq with rfl | hq
            exacts [hlv, lv2 q hq]
        | true =>
          obtain ⟨below, eb, hb⟩ := hreq r.node (hids _ (by simp)) hc
          obtain ⟨out₁, o1, s1, m1, lv1⟩ := ih1 below hb.nodes (fun k hk => hids k (by simp [hk])) hb.opens hb.level
          refine ⟨r :: (out₁ ++ out₂), .opened hch eb o1 o2, ?_, ?_, ?_⟩
          · rw [List.map_cons, List.map_append]
            exact (s1.append s2).cons_cons _
          · intro k
            rw [List.map_cons, List.mem_cons, List.map_append, List.mem_append, m1, m2]
            constructor
            · rintro (rfl | ⟨d, hd, h⟩ | ⟨d, hd, h⟩)
              · exact ⟨_, by simp, .here hc⟩
              · exact ⟨r.node, by simp, .down hc hd h⟩
              · exact ⟨d, by simp [hd], h⟩
            · rintro ⟨d, hd, h⟩
              rcases List.mem_cons.1 hd with rfl | hd
              · cases h with
                | here _ => exact Or.inl rfl
                | down _ h2 h3 => exact Or.inr (Or.inl ⟨_, h2, h3⟩)
              · exact Or.inr (Or.inr ⟨d, hd, h⟩)
          · intro q hq
            simp only [List.mem_cons, List.mem_append] at hq
            rcases hq with rfl | hq | hq
            exacts [hlv, lv1 q hq, lv2 q hq]
    · rw [List.filter_cons_of_neg hc] at e
      obtain ⟨out₂, o2, s2, m2, lv2⟩ := ih2 rs e (fun k hk => hids k (by simp [hk])) hh hl
      refine ⟨out₂, o2, ?_, ?_, lv2⟩
      · exact (s2.trans (List.sublist_append_right l₁ l₂)).cons c
      · intro k
        rw [m2]
        constructor
        · rintro ⟨d, hd, h⟩; exact ⟨d, by simp [hd], h⟩
        · rintro ⟨d, hd, h⟩
          rcases List.mem_cons.1 hd with rfl | hd
          · exact absurd h.top hc
          · exact ⟨d, hd, h⟩

theorem subShows_of (hf : v.Fits db sub rows F B) (hF : F.IsForestOn (rows.map v.key)) : SubShows F (rows.map v.key) sub (subContext v sub db) := by
  refine ⟨fun p hp => hf.lists hp, fun k hk => hf.unknown hk, ?_⟩
  obtain ⟨tree, hd, hn, hp⟩ := hF.listing
  obtain ⟨top, e, ht⟩ := hf.lists (p := none) (by simp)
  obtain ⟨out, ho, hs, hm, hlv⟩ := opened_sub (sub := sub) (ids := rows.map v.key) (req := subContext v sub db)
    (fun k hk hh => hf.lists (p := some k) (by rintro j ⟨⟩; exact ⟨hk, hh⟩)) hd top ht.nodes (fun k hk => hp.mem_iff.1 hk) ht.opens ht.level
  refine ⟨top, out, tree, e, ho, fun out' h' => h'.unique ho, hd, hs, hs.nodup hn, ?_, hlv⟩
  intro k
  rw [hm]
  exact hitPath_iff hF.good.one (fun k => by rw [← hp.mem_iff]; exact hd.mem k)

/-! ### The order of `filter(ptr__in=…)` -/

/-- the selected rows are those of the query set that are of the model, in the same order, if both are sorted -/
theorem toSub_eq {lt : ρ → ρ → Prop} (ha : ∀ a b, lt a b → ¬ lt b a) {qs : List ρ} (hq : qs.Pairwise lt)
    (hs : (toSub v sub db qs).Pairwise lt) (hm : ∀ (P : ρ → Bool) r, r ∈ v.select db P ↔ r ∈ rows ∧ P r = true) (hsub : ∀ r ∈ qs, r ∈ rows)
    (hk : ∀ a ∈ rows, ∀ b ∈ rows, v.key a = v.key b → a = b) : toSub v sub db qs = qs.filter (fun r => sub (v.key r)) := by
  refine sorted_unique (T := fun _ => True) (lt := lt) (fun a b _ _ h => ha a b h) (fun _ _ => trivial) hs (hq.sublist List.filter_sublist) ?_
  intro r
  unfold toSub
  rw [hm, List.mem_filter, Bool.and_eq_true, List.any_eq_true]
  constructor
  · rintro ⟨hr, h1, q, hq, e⟩
    rw [← hk q (hsub q hq) r hr (by simpa using e)]
    rw [hk r hr q (hsub q hq) (by simpa using (show v.key q = v.key r by simpa using e).symm)] at h1
    exact ⟨hq, h1⟩
  · rintro ⟨hr, h1⟩
    exact ⟨hsub r hr, h1, r, hr, by simp⟩

/-! ### The reference field of the form -/

/-- forms.py:105-114 for AL: `node not in descendants`.  The nodes of `get_tree()` are objects of the tree model, and so are those of `get_descendants(instance)`, except the
first, which is the instance itself, of the class `c`.  Objects of different classes are not equal. -/
def AL.formRefsC (c : Cls) (tree branch : List Nat) : List Nat :=
  tree.filter (fun k => !((c == treeCls && branch.head? == some k) || branch.tail.contains k))

/-- forms.py:115-118 for AL, and Django's `ModelChoiceField`: a chosen reference is accepted if it is in `opts.model.objects.all()`, the nodes of the inherited model.  No reference
is accepted (`required=False`). -/
def AL.formAccepts (db : AL.DB) (sub : Nat → Bool) (ref : Option Nat) : Bool :=
  match ref with
  | none => true
  | some k => db.rows.any (fun r => r.pk == k && sub r.pk)

end Verif
