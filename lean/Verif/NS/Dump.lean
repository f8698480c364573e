/-
NS: what `dump_bulk` shows, and that `load_bulk` can add node by node.
-/
import Verif.NS.DumpModel
import Verif.NS.Example
import Verif.Props.NSQuery
import Verif.DumpForest
import Verif.LoadGeneric

namespace Verif.NS

variable {cfg : Cfg} {db : DB}

theorem isForestOn (h : Consistent db) : (forest db).IsForestOn ((data db.rows).map Prod.fst) := by
  refine ⟨⟨(getTree db none none).map Row.pk, ?_, rows_pk_nodup h.toNI (getTree_sorted h.toNI _ _) getTree_sub, ?_⟩, ?_⟩
  · rw [forest_eq h.toNI]; exact getTree_all h.toNI
  · rw [keys_eq]
    refine List.Perm.map _ ?_
    refine (List.perm_ext_iff_of_nodup ?_ (List.Nodup.of_map _ h.pks)).2 ?_
    · exact List.Nodup.of_map _ (rows_pk_nodup h.toNI (getTree_sorted h.toNI none none) getTree_sub)
    · intro r
      refine ⟨fun hr => getTree_sub r hr, fun hr => ?_⟩
      unfold getTree
      simp only [mem_order, List.mem_filter, and_true]
      exact hr
  · intro k hk
    rw [keys_eq] at hk
    exact forest_nil hk

theorem valsIn_row (h : Consistent db) {r : Row} (hr : r ∈ db.rows) : valsIn (data db.rows) r.pk = r.vals :=
  valsIn_mem (keys_nodup h) (List.mem_map.2 ⟨r, hr, rfl⟩)

/-- a child is one level below its parent, and `get_parent` finds the parent -/
theorem below (h : Consistent db) {x a : Row} (hx : x ∈ db.rows) (ha : a ∈ db.rows) (hm : x.pk ∈ forest db (some a.pk)) :
    x.depth = a.depth + 1 ∧ getParent db x none = .ok (some a) := by
  have hp := (mem_forest h hx).1 hm
  constructor
  · obtain ⟨n, hn, hl⟩ := level_depth h.toNI ha
    rw [forest_eq h.toNI] at hm
    rw [level_unique h.toNI hx (.child hl hm), hn]; rfl
  · rcases getParent_spec h.toNI hx with ⟨_, h2, _⟩ | ⟨_, p, hi, h2, h3⟩
    · rw [h2] at hp; cases hp
    · rw [h2] at hp
      injection hp with hp
      rw [h3, h.pk_inj hi.1 ha hp]

theorem root_depth (h : Consistent db) {x : Row} (hx : x ∈ db.rows) (hm : x.pk ∈ forest db none) : x.depth = 1 := by
  rw [forest_eq h.toNI] at hm
  exact level_unique h.toNI hx (.root hm)

theorem dump_shows (h : Consistent db) {parent : Option Row} (hp : ∀ p, parent = some p → p ∈ db.rows) (keep : Bool) :
    ∃ d, dumpBulk db parent keep = .ok d ∧
      Dumps (forest db) (valsIn (data db.rows)) keep ((forest db).dumpTops (parent.map Row.pk)) d := by
  have hsub : ∀ r ∈ getTree db parent none, r ∈ db.rows := getTree_sub
  have hnd := rows_pk_nodup h.toNI (getTree_sorted h.toNI parent none) hsub
  have hplace : ∀ x ∈ getTree db parent none, ∀ a ∈ getTree db parent none, x.pk ∈ forest db (some a.pk) →
      dumpPlace db parent x = .ok (some a.pk) := by
    intro x hx a ha hm
    obtain ⟨h1, h2⟩ := below h (hsub x hx) (hsub a ha) hm
    obtain ⟨n, hn, hl⟩ := level_depth h.toNI (hsub a ha)
    have hlow : 1 ≤ a.depth := by rw [h.depth a (hsub a ha)]; omega
    unfold dumpPlace
    rw [h2]
    cases parent with
    | none => simp [show ¬ x.depth = 1 by omega]
    | some p =>
      have hge : p.depth ≤ a.depth := by
        rw [mem_getTree h.toNI (hp p rfl)] at ha
        rcases ha.2 with rfl | he
        · exact Int.le_refl _
        · exact Int.le_of_lt (h.toNI.depth_lt (hp p rfl) ha.1 he)
      simp [show ¬ x.depth = p.depth by omega]
  have hmain : ∃ ret, dumpLoop Row.pk (dumpPlace db parent) (getTree db parent none) .nil = .ok ret ∧
      ∀ keep, Dumps (forest db) (valsIn (data db.rows)) keep ((forest db).dumpTops (parent.map Row.pk)) (ret.map (itemOf Row.pk Row.vals keep)) := by
    refine dumps_of_dfs (F := forest db) ?_ hnd ?_ ?_ (fun a ha b hb e => h.pk_inj (hsub a ha) (hsub b hb) e) ?_ hplace (fun r hr => valsIn_row h (hsub r hr))
    · rw [forest_eq h.toNI]
      cases parent with
      | none => exact getTree_all h.toNI
      | some p => exact getTree_branch h.toNI (hp p rfl)
    · intro p q k h1 h2
      exact Option.some.inj (parent_unique h h1 h2)
    · intro q hq c hc hcq
      cases parent with
      | none => cases parent_unique h (show c ∈ forest db none from hc) hcq
      | some p =>
        simp only [Forest.dumpTops, Option.map_some, List.mem_singleton] at hc
        subst hc
        obtain ⟨a, ha, rfl⟩ := List.mem_map.1 hq
        have hpm := hp p rfl
        obtain ⟨h1, _⟩ := below h hpm (hsub a ha) hcq
        rw [mem_getTree h.toNI hpm] at ha
        rcases ha.2 with rfl | he
        · omega
        · have := h.toNI.depth_lt hpm ha.1 he
          omega
    · intro x hx hc
      unfold dumpPlace
      cases parent with
      | none => simp [root_depth h (hsub x hx) hc]
      | some p =>
        simp only [Forest.dumpTops, Option.map_some, List.mem_singleton] at hc
        simp [h.pk_inj (hsub x hx) (hp p rfl) hc]
  obtain ⟨ret, e, hd⟩ := hmain
  exact ⟨_, by rw [dumpBulk, e]; rfl, hd keep⟩

/-! ### Loading -/

/-- an object that can be used as parent: `add_child` reads it again -/
def Handle (db : DB) (h : Option Row) (p : Option Nat) : Prop := h.map Row.pk = p ∧ ∀ k, p = some k → k ∈ db.rows.map Row.pk

/-- consistent, with the values `V` -/
def Holds (V : Nat → Vals) (db : DB) : Prop := Consistent db ∧ ∀ r ∈ db.rows, V r.pk = r.vals

theorem addTo_last (h : Consistent db) {hd : Option Row} {p : Option Nat} (hh : Handle db hd p) {V : Nat → Vals} (hV : ∀ r ∈ db.rows, V r.pk = r.vals)
    {k : Nat} (hf : k ∉ db.rows.map Row.pk) {T : List Nat} (hT : forest db p ++ [k] <+: T)
    (hs : cfg.ordered = true → T.Pairwise (fun a b => ¬ keyLt cfg.orderBy (V b) (V a)) ∧ NonNull cfg.orderBy (V k)) :
    ∃ db' obj, addTo cfg db hd ⟨k, 0, 0, 0, 0, V k⟩ = .ok (db', obj) ∧ AddedAt db db' obj ⟨k, 0, 0, 0, 0, V k⟩ p .last := by
  have hfresh : ∀ r ∈ db.rows, r.pk ≠ k := fun r hr e => hf (List.mem_map.2 ⟨r, hr, e⟩)
  cases hd with
  | none =>
    obtain ⟨rfl, _⟩ := hh
    cases ho : cfg.ordered with
    | false =>
      obtain ⟨db', obj, e, ha⟩ := addRoot_unsorted (new := ⟨k, 0, 0, 0, 0, V k⟩) h ho hfresh
      exact ⟨db', obj, e, .of h ha⟩
    | true =>
      obtain ⟨db', obj, s, e, ha, hcase⟩ := addRoot_sorted (new := ⟨k, 0, 0, 0, 0, V k⟩) h ho hfresh
      obtain ⟨h1, h2⟩ := hs ho
      have hob := ordered_ne ho
      have hnil : sortedPosQueryset cfg.orderBy Row.vals (rootNodes db) (V k) = [] :=
        sortedPos_nil hob h2 h1 (pk := Row.pk) hT (fun r hr => hV r (mem_rootNodes.1 hr).1)
      rcases hcase with ⟨z, _, hz, _⟩ | ⟨_, rfl⟩
      · rw [hnil] at hz; simp at hz
      · exact ⟨db', obj, e, .of h ha⟩
  | some t =>
    obtain ⟨rfl, hk⟩ := hh
    obtain ⟨t', ht', hpk⟩ := List.mem_map.1 (hk t.pk rfl)
    cases ho : cfg.ordered with
    | false =>
      obtain ⟨db', obj, t'', e, ha⟩ := addChild_unsorted (new := ⟨k, 0, 0, 0, 0, V k⟩) h ho ht' hpk.symm hfresh
      refine ⟨db', obj, by simp only [addTo, e]; rfl, ?_⟩
      rw [hpk] at ha
      exact .of h ha
    | true =>
      obtain ⟨db', obj, t'', s, e, ha, hcase⟩ := addChild_sorted (new := ⟨k, 0, 0, 0, 0, V k⟩) h ho ht' hpk.symm hfresh
      obtain ⟨h1, h2⟩ := hs ho
      have hob := ordered_ne ho
      have hT' : (children db t').map Row.pk ++ [k] <+: T := by
        have : (children db t').map Row.pk = forest db (some t.pk) := by
          rw [forest_eq h.toNI, children_PF h.toNI ht', hpk]
        rw [this]; exact hT
      have hnil : sortedPosQueryset cfg.orderBy Row.vals (children db t') (V k) = [] :=
        sortedPos_nil hob h2 h1 (pk := Row.pk) hT' (fun r hr => hV r ((mem_children h.toNI ht').1 hr).1)
      rcases hcase with ⟨z, _, hz, _⟩ | ⟨_, rfl⟩
      · rw [hnil] at hz; simp at hz
      · refine ⟨db', obj, by simp only [addTo, e]; rfl, ?_⟩
        rw [hpk] at ha
        exact .of h ha

theorem loads {T : Forest} {V : Nat → Vals} {K : List Nat}
    (hT : cfg.ordered = true → T.SortedBy cfg.orderBy V ∧ ∀ p, ∀ k ∈ T p, k ∉ K → NonNull cfg.orderBy (V k)) :
    Loads (fun db p a => addTo cfg db p ⟨a.1, 0, 0, 0, 0, a.2⟩) Row.pk (fun db => Holds V db ∧ ∀ k ∈ K, k ∈ db.rows.map Row.pk) forest (fun db => data db.rows) Handle T V where
  known := by
    intro s h k hh
    rw [keys_eq]; exact hh.2 k rfl
  step := by
    rintro s h p k ⟨⟨hi, hV⟩, hK⟩ hh hk hpre hp hemp
    rw [keys_eq] at hk
    have hkT : k ∈ T p := hp.subset (by simp)
    obtain ⟨s', obj, e, ha⟩ := addTo_last (cfg := cfg) hi hh hV hk hp
      (fun ho => ⟨(hT ho).1 p, (hT ho).2 p k hkT (fun hkK => hk (hK k hkK))⟩)
    have hkeys : ∀ j, j ∈ s'.rows.map Row.pk ↔ j ∈ s.rows.map Row.pk ∨ j = k := by
      intro j
      rw [← keys_eq, ← keys_eq, ha.data]; simp
    refine ⟨s', obj, e, ⟨⟨ha.consistent, ?_⟩, ?_⟩, ha.forest, ha.data, ha.obj.2, ⟨congrArg some ha.obj.2, ?_⟩, ?_⟩
    · intro r hr
      have : (r.pk, r.vals) ∈ data s'.rows := List.mem_map.2 ⟨r, hr, rfl⟩
      rw [ha.data, List.mem_append] at this
      rcases this with h1 | h1
      · obtain ⟨q, hq, e⟩ := List.mem_map.1 h1
        injection e with e1 e2
        rw [← e1, ← e2]; exact hV q hq
      · simp only [List.mem_singleton, Prod.mk.injEq] at h1
        rw [h1.1, h1.2]
    · intro j hj; exact (hkeys j).2 (Or.inl (hK j hj))
    · rintro j ⟨⟩; exact (hkeys _).2 (Or.inr rfl)
    · rintro h p ⟨h1, h2⟩
      exact ⟨h1, fun j hj => (hkeys j).2 (Or.inl (h2 j hj))⟩

end Verif.NS
