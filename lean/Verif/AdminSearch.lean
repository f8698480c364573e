/-
Model of search, list filters and actions of the admin's tree list.
-/
import Verif.SpecSearch
import Verif.AdminModel
import Verif.PageLemmas
import Verif.AL.Model

namespace Verif

variable {σ ρ : Type}

/-- admin.py:33-51, 78-104 and Django's `ChangeList.get_queryset`: search terms and list filters are applied to the query set of `TreeAdmin.get_queryset`, which for a GET request has
the roots or the children of one node only.  The front end sends the same terms with every request (treebeard-admin.js:55-57).  `hit` says for which nodes the terms hold. -/
def searchContext (v : TreeView σ ρ) (hit : Nat → Bool) (db : σ) (parentId : Option Nat) : Except Err (List AdminRow) :=
  match parentId with
  | none => .ok (((v.roots db).filter (fun r => hit (v.key r))).map (adminRow v db 0 1))
  | some k =>
    match v.find db k with
    | none => .error .doesNotExist
    | some p =>
      match v.depth db p with
      | .error e => .error e
      | .ok d => .ok (((v.children db p).filter (fun r => hit (v.key r))).map (adminRow v db (v.key p) (d + 1)))

/-- What an action was asked to be applied to: the boxes ticked, or the link "Select all … nodes". -/
structure Choice where
  selected : List Nat
  across : Bool

/-- admin.py:33-36, 78-81: for a POST request `get_queryset` is Django's, which has all the nodes (`all`); Django's `ChangeList` applies the terms, and `response_action` the selection
(outside /repo, by its known behaviour).  `none`: nothing was selected, no action runs. -/
def actionTargets (key : ρ → Nat) (all : List ρ) (hit : Nat → Bool) (c : Choice) : Option (List Nat) :=
  let qs := (all.map key).filter hit
  if c.across then some qs
  else if c.selected.isEmpty then none
  else some (qs.filter (fun k => c.selected.contains k))

/-- Django's `cl.result_count`, the number in "Select all … nodes": of the GET request -/
def acrossCount (v : TreeView σ ρ) (hit : Nat → Bool) (db : σ) : Nat := ((v.roots db).filter (fun r => hit (v.key r))).length

/-- the link is there if not all of them are on the page -/
def acrossOffered (v : TreeView σ ρ) (hit : Nat → Bool) (db : σ) (perPage : Nat) : Bool := decide (perPage < acrossCount v hit db)

/-- Django's `get_deleted_objects` for MP, NS and LT, the nodes listed on the page that asks for confirmation (outside /repo, by its known behaviour): it follows the foreign keys to the
nodes, and the nodes have none to each other.  TreeAdmin does not override it. -/
def confirmList (targets : List Nat) : List Nat := targets

theorem searchContext_eq (v : TreeView σ ρ) (hit : Nat → Bool) (db : σ) (p : Option Nat) :
    searchContext v hit db p = (treeContext v db p).map (List.filter fun r => hit r.node) := by
  have h : ∀ (l : List ρ) a n, (l.filter (fun r => hit (v.key r))).map (adminRow v db a n) = (l.map (adminRow v db a n)).filter (fun r => hit r.node) := by
    intro l a n
    rw [List.filter_map]
    rfl
  unfold searchContext treeContext
  cases p with
  | none => simp only [h]; rfl
  | some k =>
    simp only
    cases v.find db k with
    | none => rfl
    | some q =>
      simp only
      cases v.depth db q with
      | error e => rfl
      | ok d => simp only [h]; rfl

/-- Django's `get_deleted_objects` for AL: the foreign key `parent` is followed, with the same collector that deletes -/
def AL.confirmList (db : AL.DB) (targets : List Nat) : List Nat :=
  (db.rows.filter (fun r => AL.cascade db db.rows.length (fun k => db.rows.any (fun r => r.pk == k && targets.contains r.pk)) r.pk)).map AL.Row.pk

/-! ### What is shown -/

variable {F : Forest} {hit : Nat → Bool}

/-- a chain of hits from `c` down -/
inductive HitBelow (F : Forest) (hit : Nat → Bool) : Nat → Nat → Prop where
  | here {c} : hit c = true → HitBelow F hit c c
  | down {c d k} : hit c = true → d ∈ F (some c) → HitBelow F hit d k → HitBelow F hit c k

theorem HitBelow.top {c k : Nat} (h : HitBelow F hit c k) : hit c = true := by cases h <;> assumption

theorem HitBelow.bottom {c k : Nat} (h : HitBelow F hit c k) : hit k = true := by
  induction h with
  | here h => exact h
  | down _ _ _ ih => exact ih

theorem HitBelow.snoc {c m d : Nat} (h : HitBelow F hit c m) (hd : d ∈ F (some m)) (hh : hit d = true) : HitBelow F hit c d := by
  induction h with
  | here h => exact .down h hd (.here hh)
  | down h1 h2 _ ih => exact .down h1 h2 (ih hd)

theorem Desc_last (hu : ∀ p q k, k ∈ F p → k ∈ F q → p = q) {a d m : Nat} (h : F.Desc a d) (hd : d ∈ F (some m)) : a = m ∨ F.Desc a m := by
  cases h with
  | child h => exact Or.inl (Option.some.inj (hu _ _ _ h hd))
  | step h1 h2 =>
    obtain rfl := Option.some.inj (hu _ _ _ h2 hd)
    exact Or.inr h1

theorem HitBelow.above (hu : ∀ p q k, k ∈ F p → k ∈ F q → p = q) {c k : Nat} (h : HitBelow F hit c k) {a : Nat} (ha : F.Desc a k) :
    hit a = true ∨ F.Desc a c := by
  induction h with
  | here _ => exact Or.inr ha
  | down h1 h2 _ ih =>
    rcases ih ha with h | h
    · exact Or.inl h
    · rcases Desc_last hu h h2 with rfl | h
      exacts [Or.inl h1, Or.inr h]

theorem desc_under {c d k : Nat} (h : d ∈ F (some c)) (hk : F.Desc d k) : F.Desc c k := by
  induction hk with
  | child h' => exact .step (.child h) h'
  | step _ h' ih => exact .step ih h'

theorem hitBelow_of_desc {c k : Nat} (h : F.Desc c k) (hk : F.HitPath hit k) : HitBelow F hit c k := by
  induction h with
  | child h => exact .down (hk.2 c (.child h)) h (.here hk.1)
  | @step m d h1 h2 ih =>
    have hm : hit m = true := hk.2 m (.child h2)
    have : HitBelow F hit c m := ih ⟨hm, fun a ha => hk.2 a (.step ha h2)⟩
    exact this.snoc h2 hk.1

/-- the shown nodes: chains of hits from a root down -/
theorem hitPath_iff (hu : ∀ p q k, k ∈ F p → k ∈ F q → p = q) {ids : List Nat} (hids : ∀ k, k ∈ ids ↔ ∃ c ∈ F none, k = c ∨ F.Desc c k) {k : Nat} :
    (∃ c ∈ F none, HitBelow F hit c k) ↔ k ∈ ids ∧ F.HitPath hit k := by
  constructor
  · rintro ⟨c, hc, h⟩
    refine ⟨?_, h.bottom, ?_⟩
    · rw [hids]
      refine ⟨c, hc, ?_⟩
      clear hc
      induction h with
      | here _ => exact Or.inl rfl
      | @down c d k _ h2 _ ih =>
        right
        rcases ih with rfl | h
        · exact .child h2
        · exact desc_under h2 h
    · intro a ha
      rcases h.above hu ha with h | h
      · exact h
      · exfalso
        cases h with
        | child h => cases hu _ _ _ h hc
        | step _ h => cases hu _ _ _ h hc
  · rintro ⟨hk, hp⟩
    obtain ⟨c, hc, rfl | hd⟩ := (hids k).1 hk
    · exact ⟨k, hc, .here hp.1⟩
    · exact ⟨c, hc, hitBelow_of_desc hd hp⟩

/-- opening everything -/
theorem opened_hits {req : Option Nat → Except Err (List AdminRow)} {ids : List Nat}
    (hreq : ∀ k ∈ ids, ∃ l, req (some k) = .ok l ∧ ListsHits F hit (some k) l) {cs l : List Nat} (hd : F.DFS cs l) :
    ∀ rs : List AdminRow, rs.map AdminRow.node = cs.filter hit → (∀ k ∈ l, k ∈ ids) → (∀ r ∈ rs, (r.hasChildren = true ↔ F (some r.node) ≠ [])) →
      (∀ r ∈ rs, ∃ n : Nat, r.level = n ∧ F.Level r.node n) →
      ∃ out, Opened req rs out ∧ (out.map AdminRow.node).Sublist l ∧ (∀ k, k ∈ out.map AdminRow.node ↔ ∃ c ∈ cs, HitBelow F hit c k) ∧
        ∀ r ∈ out, ∃ n : Nat, r.level = n ∧ F.Level r.node n := by
  induction hd with
  | nil =>
    intro rs e _ _ _
    obtain rfl := List.map_eq_nil_iff.1 e
    exact ⟨[], .nil, by simp, by simp, by simp⟩
  | @cons c cs l₁ l₂ h1 _ ih1 ih2 =>
    intro rs e hids hh hl
    by_cases hc : hit c = true
    · rw [List.filter_cons_of_pos hc] at e
      cases rs with
      | nil => simp at e
      | cons r rs =>
        rw [List.map_cons, List.cons.injEq] at e
        obtain ⟨rfl, e⟩ := e
        obtain ⟨out₂, o2, s2, m2, lv2⟩ := ih2 rs e (fun k hk => hids k (by simp [hk])) (fun q hq => hh q (by simp [hq])) (fun q hq => hl q (by simp [hq]))
        have hr := hh r (by simp)
        have hlv := hl r (by simp)
        cases hch : r.hasChildren with
        | false =>
          have hnil : F (some r.node) = [] := by
            by_contra hne
            rw [hr.2 hne] at hch
            cases hch
          rw [hnil] at h1
          cases h1
          refine ⟨r :: out₂, .closed hch o2, by simpa using s2, ?_, ?_⟩
          · intro k
            rw [List.map_cons, List.mem_cons, m2]
            constructor
            · rintro (rfl | ⟨d, hd, h⟩)
              · exact ⟨_, by simp, .here hc⟩
              · exact ⟨d, by simp [hd], h⟩
            · rintro ⟨d, hd, h⟩
              rcases List.mem_cons.1 hd with rfl | hd
              · cases h with
                | here _ => exact Or.inl rfl
                | down _ h _ => rw [hnil] at h; simp at h
              · exact Or.inr ⟨d, hd, h⟩
          · intro q hq
            rcases List.mem_cons.1 hq with rfl | hq
            exacts [hlv, lv2 q hq]
        | true =>
          obtain ⟨below, eb, hb⟩ := hreq r.node (hids _ (by simp))
          obtain ⟨out₁, o1, s1, m1, lv1⟩ := ih1 below hb.nodes (fun k hk => hids k (by simp [hk])) hb.hasChildren hb.level
          refine ⟨r :: (out₁ ++ out₂), .opened hch eb o1 o2, ?_, ?_, ?_⟩
          · rw [List.map_cons, List.map_append]
            exact (s1.append s2).cons_cons _
          · intro k
            rw [List.map_cons, List.mem_cons, List.map_append, List.mem_append, m1, m2]
            constructor
            · rintro (rfl | ⟨d, hd, h⟩ | ⟨d, hd, h⟩)
              · exact ⟨_, by simp, .here hc⟩
              · exact ⟨r.node, by simp, .down hc hd h⟩
              · exact ⟨d, by simp [hd], h⟩
            · rintro ⟨d, hd, h⟩
              rcases List.mem_cons.1 hd with rfl | hd
              · cases h with
                | here _ => exact Or.inl rfl
                | down _ h2 h3 => exact Or.inr (Or.inl ⟨_, h2, h3⟩)
              · exact Or.inr (Or.inr ⟨d, hd, h⟩)
          · intro q hq
            simp only [List.mem_cons, List.mem_append] at hq
            rcases hq with rfl | hq | hq
            exacts [hlv, lv1 q hq, lv2 q hq]
    · rw [List.filter_cons_of_neg hc] at e
      obtain ⟨out₂, o2, s2, m2, lv2⟩ := ih2 rs e (fun k hk => hids k (by simp [hk])) hh hl
      refine ⟨out₂, o2, ?_, ?_, lv2⟩
      · exact (s2.trans (List.sublist_append_right l₁ l₂)).cons c
      · intro k
        rw [m2]
        constructor
        · rintro ⟨d, hd, h⟩; exact ⟨d, by simp [hd], h⟩
        · rintro ⟨d, hd, h⟩
          rcases List.mem_cons.1 hd with rfl | hd
          · exact absurd h.top hc
          · exact ⟨d, hd, h⟩

/-- C76 follows from C54 -/
theorem searchShows_of {ids : List Nat} {req : Option Nat → Except Err (List AdminRow)} (hF : F.IsForestOn ids) (h : AdminShows F ids req) (hit : Nat → Bool) :
    SearchShows F ids hit (fun p => (req p).map (List.filter fun r => hit r.node)) := by
  have hlists : ∀ p, (∀ k, p = some k → k ∈ ids) → ∃ l, (req p).map (List.filter fun r => hit r.node) = .ok l ∧ ListsHits F hit p l := by
    intro p hp
    obtain ⟨l, e, hl⟩ := h.lists p hp
    refine ⟨l.filter fun r => hit r.node, by rw [e]; rfl, ?_, ?_, ?_, ?_⟩
    · rw [← hl.nodes, List.filter_map]; rfl
    · exact fun r hr => hl.parent r (List.mem_filter.1 hr).1
    · exact fun r hr => hl.level r (List.mem_filter.1 hr).1
    · exact fun r hr => hl.hasChildren r (List.mem_filter.1 hr).1
  refine ⟨hlists, ?_, ?_⟩
  · intro k hk
    rw [h.unknown k hk]; rfl
  · obtain ⟨tree, hd, hn, hp⟩ := hF.listing
    obtain ⟨top, e, ht⟩ := hlists none (by simp)
    obtain ⟨out, ho, hs, hm, hlv⟩ := opened_hits (hit := hit) (ids := ids) (req := fun p => (req p).map (List.filter fun r => hit r.node)) (fun k hk => hlists (some k) (by simpa using hk)) hd top ht.nodes (fun k hk => hp.mem_iff.1 hk)
      ht.hasChildren ht.level
    refine ⟨top, out, tree, e, ho, fun out' h' => h'.unique ho, hd, hs, hs.nodup hn, ?_, hlv⟩
    intro k
    rw [hm]
    exact hitPath_iff hF.good.one (fun k => by rw [← hp.mem_iff]; exact hd.mem k)

end Verif
