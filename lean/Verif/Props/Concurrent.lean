/-
C43: concurrent `add_child` calls on one node, for MP with `node_order_by`, NS and LT.
-/
import Verif.TxnGrow
import Verif.Props.MPConcurrent
import Verif.Props.NSTree
import Verif.Props.LTForm

namespace Verif

open Txn

variable {ι ℓ : Type} [DecidableEq ι]

/-! ### MP with `node_order_by` -/

namespace MP

/-- consistent tables sorted by `node_order_by` -/
def sortedView (cfg : Cfg) : View DB Vals where
  good db := Consistent cfg db ∧ SortedTree cfg db
  forest := forest cfg
  data db := data db.rows

end MP

open MP in
/-- **C43, MP with `node_order_by`**: any number of clients call `add_child` on the same node, with possibly stale objects of it, of a
sorted tree.  In every interleaving the committed table is at every moment consistent and sorted, the children of the node are those
at the start, in the same order, with the new ones in between, and nothing else has changed.  The only exception is PathOverflow. -/
theorem C43_one_parent_sorted {cfg : Cfg} {db₀ : DB} {c : ι → Client DB ℓ} {out : ℓ → Row} {target new : ι → Row} (hok : cfg.Ok)
    (ho : cfg.ordered = true) (h₀ : Consistent cfg db₀) (hs₀ : SortedTree cfg db₀) (hf : ∀ i, Fresh db₀ (new i))
    (hv : ∀ i, NonNull cfg.orderBy (new i).vals) (hd : ∀ i j, (new i).pk = (new j).pk → i = j) {t : Row} (ht : t ∈ db₀.rows)
    (hk : ∀ i, (target i).pk = t.pk) (hlock : ∀ i, (c i).key = t.pk) (hc : ∀ i, Calls cfg (c i) out (target i) (new i))
    {s : State ι DB ℓ} (h : Reach c (.init db₀) s) :
    GrownBelow (sortedView cfg) t.pk Inserted (· = .pathOverflow) (fun i => ((new i).pk, (new i).vals)) db₀ s := by
  have keys : ∀ rows : List Row, (data rows).map Prod.fst = rows.map Row.pk := by
    intro rows; unfold data; rw [List.map_map]; rfl
  have hrow : ∀ {db : DB} {i : ι}, t.pk ∈ ((sortedView cfg).data db).map Prod.fst →
      (new i).pk ∉ ((sortedView cfg).data db).map Prod.fst → (∃ t' ∈ db.rows, (target i).pk = t'.pk ∧ t'.pk = t.pk) ∧ Fresh db (new i) := by
    intro db i h1 h2
    simp only [sortedView, keys] at h1 h2
    obtain ⟨t', ht', e⟩ := List.mem_map.1 h1
    exact ⟨⟨t', ht', by rw [hk i, e], e⟩, fun r hr e => h2 (List.mem_map.2 ⟨r, hr, e⟩), (hf i).2⟩
  refine grownBelow_of (sortedView cfg) ?_ (fun l => ⟨List.Sublist.refl l, by simp⟩) ⟨h₀, hs₀⟩ ?_ ?_ hd h
  · intro i
    refine ⟨hlock i, ?_, ?_⟩
    · rintro db db' l ⟨hcons, hsort⟩ h1 h2 e
      obtain ⟨⟨t', ht', e1, e2⟩, hfr⟩ := hrow h1 h2
      obtain ⟨x, e⟩ := (hc i).ok hfr.1 e
      rcases C16_add_child hok hcons ho hsort ht' e1 hfr (hv i) with ⟨a, b, d, e', ⟨sl, ha⟩, hst, pl⟩ | ⟨e', -⟩
      · rw [e] at e'
        cases e'
        refine ⟨⟨ha.consistent, hst⟩, ?_, ?_, ha.data⟩
        · intro old news hrel
          obtain ⟨l₁, l₂, epl, -⟩ := pl
          rw [e2] at ha epl
          show Inserted _ _ (forest cfg db' (some t.pk))
          rw [ha.forest] at epl ⊢
          refine hrel.put ?_ (by show (new i).pk ∈ (forest cfg db).put _ _ _ _; rw [epl]; simp)
          intro hm
          have hin := (consistent_iff hok).1 hcons
          change (new i).pk ∈ forest cfg db (some t.pk) at hm
          rw [forest_eq hin hok, mem_PF hin.toPInv] at hm
          obtain ⟨r, hr, -, e⟩ := hm
          exact hfr.1 r hr e
        · intro p hp
          show forest cfg db' p = forest cfg db p
          rw [ha.forest, e2]
          simp [Forest.put, hp]
      · rw [e] at e'
        cases e'
    · rintro db e ⟨hcons, hsort⟩ h1 h2 he
      obtain ⟨⟨t', ht', e1, e2⟩, hfr⟩ := hrow h1 h2
      have he := (hc i).error hfr.1 he
      rcases C16_add_child hok hcons ho hsort ht' e1 hfr (hv i) with ⟨a, b, d, e', -⟩ | ⟨e', -⟩
      · rw [he] at e'; cases e'
      · rw [he] at e'; cases e'; rfl
  · show t.pk ∈ (data db₀.rows).map Prod.fst
    rw [keys]
    exact List.mem_map_of_mem ht
  · intro i
    show (new i).pk ∉ (data db₀.rows).map Prod.fst
    rw [keys]
    intro hm
    obtain ⟨r, hr, e⟩ := List.mem_map.1 hm
    exact (hf i).1 r hr e

/-! ### NS -/

namespace NS

/-- consistent tables, sorted if there is a `node_order_by` -/
def concView (cfg : Cfg) : View DB Vals where
  good db := Consistent db ∧ (cfg.ordered = true → SortedTree cfg db)
  forest := forest
  data db := data db.rows

/-- The transaction of this client, alone, is `add_child(target)` with this new object. -/
def Calls (cfg : Cfg) (c : Client DB ℓ) (target new : Row) : Prop :=
  ∀ db, (c.alone db).map Prod.fst = (addChild cfg db target new).map Prod.fst

/-- how the children grow -/
def Rel (cfg : Cfg) : List Nat → List Nat → List Nat → Prop := if cfg.ordered then Inserted else Appended

variable {cfg : Cfg} {db₀ : DB} {c : ι → Client DB ℓ} {target new : ι → Row}

/-- **C43, NS**: any number of clients call `add_child` on the same node, with possibly stale objects of it.  In every interleaving the
committed table is at every moment consistent (and sorted, with `node_order_by`); the children of the node are those at the start with
the new ones appended in the order of the commits (with `node_order_by`: inserted), and nothing else has changed.  No call fails. -/
theorem C43_ns_one_parent (h₀ : Consistent db₀) (hs₀ : cfg.ordered = true → SortedTree cfg db₀) (hf : ∀ i, Fresh db₀ (new i))
    (hv : cfg.ordered = true → ∀ i, NonNull cfg.orderBy (new i).vals) (hd : ∀ i j, (new i).pk = (new j).pk → i = j) {t : Row}
    (ht : t ∈ db₀.rows) (hk : ∀ i, (target i).pk = t.pk) (hlock : ∀ i, (c i).key = t.pk) (hc : ∀ i, Calls cfg (c i) (target i) (new i))
    {s : State ι DB ℓ} (h : Reach c (.init db₀) s) :
    GrownBelow (concView cfg) t.pk (Rel cfg) (fun _ => False) (fun i => ((new i).pk, (new i).vals)) db₀ s := by
  have hrow : ∀ {db : DB} {i : ι}, t.pk ∈ ((concView cfg).data db).map Prod.fst →
      (new i).pk ∉ ((concView cfg).data db).map Prod.fst → (∃ t' ∈ db.rows, (target i).pk = t'.pk ∧ t'.pk = t.pk) ∧ Fresh db (new i) := by
    intro db i h1 h2
    simp only [concView, keys_eq] at h1 h2
    obtain ⟨t', ht', e⟩ := List.mem_map.1 h1
    exact ⟨⟨t', ht', by rw [hk i, e], e⟩, fun r hr e => h2 (List.mem_map.2 ⟨r, hr, e⟩)⟩
  have hkind : ∀ {db : DB} {i : ι}, (concView cfg).good db → t.pk ∈ ((concView cfg).data db).map Prod.fst →
      (new i).pk ∉ ((concView cfg).data db).map Prod.fst → ∃ db' obj t' s, addChild cfg db (target i) (new i) = .ok (db', obj, t') ∧
        AddedAt db db' obj (new i) (some t.pk) s ∧ (cfg.ordered = false → s = .last) ∧ (cfg.ordered = true → SortedTree cfg db' ∧
          (new i).pk ∈ forest db' (some t.pk)) := by
    rintro db i ⟨hcons, hsort⟩ h1 h2
    obtain ⟨⟨t', ht', e1, e2⟩, hfr⟩ := hrow h1 h2
    cases ho : cfg.ordered with
    | false =>
      obtain ⟨a, b, d, e, ha⟩ := C22_add_child hcons ho ht' e1 hfr
      rw [e2] at ha
      exact ⟨a, b, d, _, e, ha, fun _ => rfl, by simp⟩
    | true =>
      obtain ⟨a, b, d, e, ⟨s, ha⟩, hs, l₁, l₂, pl, -⟩ := C16_ns_add_child hcons ho (hsort ho) ht' e1 hfr (hv ho i)
      rw [e2] at ha pl
      exact ⟨a, b, d, s, e, ha, by simp, fun _ => ⟨hs, by rw [pl]; simp⟩⟩
  refine grownBelow_of (concView cfg) ?_ ?_ ⟨h₀, hs₀⟩ ?_ ?_ hd h
  · intro i
    refine ⟨hlock i, ?_, ?_⟩
    · intro db db' l hg h1 h2 e
      obtain ⟨a, b, d, s, e', ha, hl, hs⟩ := hkind hg h1 h2
      have := hc i db
      rw [e, e'] at this
      cases this
      refine ⟨⟨ha.consistent, fun ho => (hs ho).1⟩, ?_, ?_, ha.data⟩
      · intro old news
        show Rel cfg old news (forest db (some t.pk)) → Rel cfg old (news ++ [(new i).pk]) (forest db' (some t.pk))
        cases ho : cfg.ordered with
        | false =>
          have : Rel cfg = Appended := by unfold Rel; rw [ho]; rfl
          rw [this, ha.forest, hl ho]
          exact Appended.last
        | true =>
          have : Rel cfg = Inserted := by unfold Rel; rw [ho]; rfl
          rw [this]
          intro hrel
          have hm := (hs ho).2
          rw [ha.forest] at hm ⊢
          refine hrel.put (fun hm => ?_) hm
          exact fresh_keys (hrow h1 h2).2 (forest_keys hg.1 hm)
      · intro p hp
        show forest db' p = forest db p
        rw [ha.forest]
        simp [Forest.put, hp]
    · intro db e hg h1 h2 he
      obtain ⟨a, b, d, s, e', -⟩ := hkind hg h1 h2
      have := hc i db
      rw [he, e'] at this
      cases this
  · intro l
    unfold Rel
    split
    · exact ⟨List.Sublist.refl l, by simp⟩
    · simp [Appended]
  · show t.pk ∈ (data db₀.rows).map Prod.fst
    rw [keys_eq]
    exact List.mem_map_of_mem ht
  · exact fun i => fresh_keys (hf i)

end NS

/-! ### LT -/

namespace LT

/-- consistent tables with the row `t` -/
def concView (t : Row) : View DB Vals where
  good db := Consistent db ∧ t ∈ db.rows
  forest := forest
  data db := data db.rows

/-- The transaction of this client, alone, is `add_child(target)` with this new object. -/
def Calls (cfg : Cfg) (c : Client DB ℓ) (target new : Row) : Prop :=
  ∀ db, (c.alone db).map Prod.fst = (addChild cfg db target new).map Prod.fst

theorem addChild_congr {cfg : Cfg} {db : DB} {a b new : Row} (h1 : a.pk = b.pk) (h2 : a.path = b.path) :
    addChild cfg db a new = addChild cfg db b new := by
  have hc : children db a = children db b := by unfold children; rw [h2]
  have hl : isLeaf db a = isLeaf db b := by unfold isLeaf; rw [hc]
  have hlc : lastChild db a = lastChild db b := by unfold lastChild; rw [hc]
  unfold addChild newChildPath
  rw [h1, h2, hc, hl, hlc]

variable {cfg : Cfg} {db₀ : DB} {c : ι → Client DB ℓ} {target new : ι → Row}

/-- **C43, LT**: any number of clients call `add_child` on the same node, without `node_order_by`; their objects of it have its path.
In every interleaving the committed table is at every moment consistent, with the new children appended in the order of the commits,
and nothing else has changed.  No call fails. -/
theorem C43_lt_one_parent (ho : cfg.ordered = false) (h₀ : Consistent db₀) (hf : ∀ i, Fresh db₀ (new i))
    (hd : ∀ i j, (new i).pk = (new j).pk → i = j) {t : Row} (ht : t ∈ db₀.rows) (hk : ∀ i, (target i).pk = t.pk)
    (hp : ∀ i, (target i).path = t.path) (hlock : ∀ i, (c i).key = t.pk) (hc : ∀ i, Calls cfg (c i) (target i) (new i))
    {s : State ι DB ℓ} (h : Reach c (.init db₀) s) :
    GrownBelow (concView t) t.pk Appended (fun _ => False) (fun i => ((new i).pk, (new i).vals)) db₀ s := by
  have hfresh : ∀ {db : DB} {i : ι}, (new i).pk ∉ ((concView t).data db).map Prod.fst → Fresh db (new i) := by
    intro db i h2 r hr e
    simp only [concView, keys_eq] at h2
    exact h2 (List.mem_map.2 ⟨r, hr, e⟩)
  refine grownBelow_of (concView t) ?_ (fun l => by simp [Appended]) ⟨h₀, ht⟩ ?_ (fun i => fresh_keys (hf i)) hd h
  · intro i
    refine ⟨hlock i, ?_, ?_⟩
    · intro db db' l hg h1 h2 e
      have hfr := hfresh h2
      obtain ⟨a, b, e', ha⟩ := C36_add_child ho hg.1 hg.2 hfr
      have := hc i db
      rw [e, addChild_congr (hk i) (hp i), e'] at this
      cases this
      refine ⟨⟨ha.consistent, addChild_keeps hg.1.inv hfr hg.2 e'⟩, ?_, ?_, ha.data⟩
      · intro old news hrel
        show Appended _ _ (forest db' (some t.pk))
        rw [ha.forest]
        exact hrel.last
      · intro p hp
        show forest db' p = forest db p
        rw [ha.forest]
        simp [Forest.put, hp]
    · intro db e hg h1 h2 he
      obtain ⟨a, b, e', ha⟩ := C36_add_child ho hg.1 hg.2 (hfresh h2)
      have := hc i db
      rw [he, addChild_congr (hk i) (hp i), e'] at this
      cases this
  · show t.pk ∈ (data db₀.rows).map Prod.fst
    rw [keys_eq]
    exact List.mem_map_of_mem ht

/-- **C43, LT with `node_order_by`**: likewise, with the new children somewhere between the old ones (their order is the subject of
`C16_lt_add_child_partial`).  The only exception is ValueError. -/
theorem C43_lt_one_parent_sorted (ho : cfg.ordered = true) (h₀ : Consistent db₀) (hf : ∀ i, Fresh db₀ (new i))
    (hd : ∀ i j, (new i).pk = (new j).pk → i = j) {t : Row} (ht : t ∈ db₀.rows) (hk : ∀ i, (target i).pk = t.pk)
    (hp : ∀ i, (target i).path = t.path) (hlock : ∀ i, (c i).key = t.pk) (hc : ∀ i, Calls cfg (c i) (target i) (new i))
    {s : State ι DB ℓ} (h : Reach c (.init db₀) s) :
    GrownBelow (concView t) t.pk Joined (· = .valueError) (fun i => ((new i).pk, (new i).vals)) db₀ s := by
  have hfresh : ∀ {db : DB} {i : ι}, (new i).pk ∉ ((concView t).data db).map Prod.fst → Fresh db (new i) := by
    intro db i h2 r hr e
    simp only [concView, keys_eq] at h2
    exact h2 (List.mem_map.2 ⟨r, hr, e⟩)
  have hkind : ∀ {db : DB} {i : ι}, (concView t).good db → Fresh db (new i) →
      (∃ db' obj s, addChild cfg db t (new i) = .ok (db', obj) ∧ AddedNear db db' obj (new i) (some t.pk) s) ∨
      addChild cfg db t (new i) = .error .valueError := by
    intro db i hg hfr
    rcases addChild_sorted ho hg.1.inv hg.2 hfr with ⟨b, hb, db', obj, e, ha⟩ | ⟨hb, ⟨db', l, s, e, ha, hl⟩ | ⟨e, hu⟩⟩
    · exact Or.inl ⟨_, _, _, e, .of hg.1.inv ha⟩
    · exact Or.inl ⟨_, _, _, e, .of hg.1.inv ha⟩
    · exact Or.inr e
  refine grownBelow_of (concView t) ?_ (fun l => by simp [Joined]) ⟨h₀, ht⟩ ?_ (fun i => fresh_keys (hf i)) hd h
  · intro i
    refine ⟨hlock i, ?_, ?_⟩
    · intro db db' l hg h1 h2 e
      have hfr := hfresh h2
      have := hc i db
      rw [e, addChild_congr (hk i) (hp i)] at this
      rcases hkind hg hfr with ⟨a, b, s, e', ha⟩ | e'
      · rw [e'] at this
        cases this
        obtain ⟨ho, x, r, r', e1, e2, hperm⟩ := ha.near
        refine ⟨⟨ha.consistent, addChild_keeps hg.1.inv hfr hg.2 e'⟩, ?_, ?_, ha.data⟩
        · intro old news hrel
          have hx : (new i).pk ∉ forest db (some t.pk) := fun hm => fresh_keys hfr (forest_keys hg.1.inv.inv hm)
          have hj : Joined old (news ++ [(new i).pk]) ((forest db).put (some t.pk) s (new i).pk (some t.pk)) := by
            simp only [Forest.put, if_pos] at e1 ⊢
            obtain ⟨a, b, f1, f2⟩ := ins_split hx (by rw [e1]; simp)
            rw [f2]
            refine (List.perm_middle.trans ?_)
            have hrel : (forest db (some t.pk)).Perm (old ++ news) := hrel
            rw [f1] at hrel
            refine (hrel.cons _).trans ?_
            rw [← List.append_assoc]
            exact (List.perm_append_singleton _ (old ++ news)).symm
          refine List.Perm.trans ?_ hj
          show (forest db' (some t.pk)).Perm _
          rw [e1, e2]
          exact (hperm.cons _).append_left _
        · intro p hp
          show forest db' p = forest db p
          rw [ho p hp]
          simp [Forest.put, hp]
      · rw [e'] at this
        cases this
    · intro db e hg h1 h2 he
      have := hc i db
      rw [he, addChild_congr (hk i) (hp i)] at this
      rcases hkind hg (hfresh h2) with ⟨a, b, s, e', ha⟩ | e'
      · rw [e'] at this
        cases this
      · rw [e'] at this
        cases this
        rfl
  · show t.pk ∈ (data db₀.rows).map Prod.fst
    rw [keys_eq]
    exact List.mem_map_of_mem ht

end LT

end Verif
