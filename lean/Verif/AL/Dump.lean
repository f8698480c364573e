/-
AL: what `dump_bulk` shows, and that `load_bulk` can add node by node.
-/
import Verif.AL.DumpModel
import Verif.AL.History
import Verif.Props.ALQuery
import Verif.DumpForest
import Verif.LoadGeneric

namespace Verif.AL

variable {cfg : Cfg} {db : DB} {rows : List Row}

theorem isForestOn (h : AI db.rows) : (forest cfg db).IsForestOn ((data db.rows).map Prod.fst) := by
  rw [forest_eq h, data_keys]
  obtain ⟨L, _, hd, hq⟩ := treeRec_none (cfg := cfg) h
  refine ⟨⟨keys L, hd, PF_dfs_nodup h hd, ?_⟩, ?_⟩
  · refine (List.perm_ext_iff_of_nodup (PF_dfs_nodup h hd) h.pks).2 ?_
    intro k
    constructor
    · intro hk
      obtain ⟨e, he, rfl⟩ := List.mem_map.1 hk
      obtain ⟨l, hc, _⟩ := hq e he
      exact List.mem_map_of_mem hc.mem
    · intro hk
      obtain ⟨r, hr, rfl⟩ := List.mem_map.1 hk
      obtain ⟨l, hc⟩ := chain_exists h hr
      rw [hd.mem]
      clear hk hr
      induction hc with
      | root hr hp => exact ⟨_, mem_PF.2 ⟨_, hr, hp, rfl⟩, Or.inl rfl⟩
      | @step r p l _ hr hp ih =>
        obtain ⟨c, hc, hcase⟩ := ih
        have hm : r.pk ∈ PF cfg db.rows (some p.pk) := mem_PF.2 ⟨r, hr, hp, rfl⟩
        refine ⟨c, hc, Or.inr ?_⟩
        rcases hcase with e | hd
        · rw [← e]; exact .child hm
        · exact .step hd hm
  · intro k hk
    rw [List.eq_nil_iff_forall_not_mem]
    intro x hx
    obtain ⟨r, hr, hp, rfl⟩ := mem_PF.1 hx
    obtain ⟨q, hq, e⟩ := h.exist r hr k hp
    exact hk (e ▸ List.mem_map_of_mem hq)

/-- the depth that the nodes of the list know -/
theorem getDepth_cached {r : Row} {d : Int} {k : Nat} (hp : r.parent = some k) : getDepth db r (some d) = .ok d := by
  unfold getDepth; rw [hp]

theorem getDepth_root {r : Row} {c : Option Int} (hp : r.parent = none) : getDepth db r c = .ok 1 := by
  unfold getDepth; rw [hp]

theorem Chain.parent_some {r : Row} {l : List Row} (h : Chain rows r l) {k : Nat} (hp : r.parent = some k) : 1 ≤ l.length := by
  cases h with
  | root _ e => rw [hp] at e; cases e
  | step => simp

theorem dump_shows (h : AI db.rows) {parent : Option (Row × Option Int)} (hp : ∀ p, parent = some p → p.1 ∈ db.rows) (keep : Bool) :
    ∃ d, dumpBulk cfg db parent keep = .ok d ∧
      Dumps (forest cfg db) (valsIn (data db.rows)) keep ((forest cfg db).dumpTops (parent.map (fun p => p.1.pk))) d := by
  have hfe := forest_eq (cfg := cfg) h
  have hmain : ∃ objs, getTree cfg db parent none = .ok objs ∧ (forest cfg db).DFS ((forest cfg db).dumpTops (parent.map (fun p => p.1.pk))) (keys objs) ∧
      (∀ e ∈ objs, e.1 ∈ db.rows) ∧ (keys objs).Nodup ∧ (∀ e ∈ objs, e.1.pk ∈ (forest cfg db).dumpTops (parent.map (fun p => p.1.pk)) → dumpPlace db parent e = .ok none) ∧
      (∀ q ∈ keys objs, ∀ c ∈ (forest cfg db).dumpTops (parent.map (fun p => p.1.pk)), c ∉ forest cfg db (some q)) ∧
      (∀ e ∈ objs, ∀ k, e.1.parent = some k → k ∈ keys objs → dumpPlace db parent e = .ok (some k)) := by
    cases parent with
    | none =>
      obtain ⟨L, e, hd, hq⟩ := treeRec_none (cfg := cfg) h
      refine ⟨L, e, by rw [hfe]; exact hd, ?_, PF_dfs_nodup h hd, ?_, ?_, ?_⟩
      · intro x hx
        obtain ⟨l, hc, _⟩ := hq x hx
        exact hc.mem
      · intro x hx hxt
        have hxp : x.1.parent = none := by
          obtain ⟨l, hc, _⟩ := hq x hx
          have : x.1.pk ∈ forest cfg db none := hxt
          exact (mem_forest h hc.mem).1 this
        unfold dumpPlace
        rw [getDepth_root hxp]
        rfl
      · intro q _ c hc hcq
        have hc' : c ∈ forest cfg db none := hc
        rw [hfe] at hc' hcq
        cases PF_parent_unique h hc' hcq
      · intro x hx k hk _
        obtain ⟨l, hc, _, hdep⟩ := hq x hx
        have hlen := hc.parent_some hk
        unfold dumpPlace
        rw [getDepth_cached hk]
        have : (x.2 == 1) = false := by rw [beq_eq_false_iff_ne]; omega
        simp only [this, hk]
    | some pc =>
      obtain ⟨p, c⟩ := pc
      have hpm : p ∈ db.rows := hp _ rfl
      obtain ⟨l, hc⟩ := chain_exists h hpm
      obtain ⟨d, hdp⟩ := getDepth_ok h hpm c
      obtain ⟨L, e, hd, hq, _⟩ := getTree_some (cfg := cfg) h hc hdp
      have hdd : (PF cfg db.rows).DFS [p.pk] (keys ((p, d) :: L)) := by
        rw [keys_cons]
        have := Forest.DFS.cons hd (Forest.DFS.nil (F := PF cfg db.rows))
        rwa [List.append_nil] at this
      have hnd : (keys ((p, d) :: L)).Nodup := hdd.nodup (fun _ _ _ h1 h2 => PF_parent_unique h h1 h2) (desc_irrefl h) (PF_nodup h) (by simp)
        (fun a ha b hb => by
          rw [List.mem_singleton] at ha hb
          subst ha
          subst hb
          exact desc_irrefl h _)
      have hself : getDepth db p (some d) = .ok d := by
        cases hpp : p.parent with
        | none => rw [getDepth_root hpp] at hdp ⊢; exact hdp
        | some k => exact getDepth_cached hpp
      have hno : ∀ k ∈ keys ((p, d) :: L), p.pk ∉ PF cfg db.rows (some k) := by
        intro k hk hm
        rw [hdd.mem] at hk
        obtain ⟨c', hc', hk⟩ := hk
        rw [List.mem_singleton] at hc'
        subst hc'
        rcases hk with rfl | hk
        · exact desc_irrefl h _ (.child hm)
        · exact desc_irrefl h _ (.step hk hm)
      refine ⟨(p, d) :: L, e, by rw [hfe]; exact hdd, ?_, hnd, ?_, ?_, ?_⟩
      · intro x hx
        rcases List.mem_cons.1 hx with rfl | hx
        · exact hpm
        · obtain ⟨l, hc, _⟩ := hq x hx
          exact hc.mem
      · intro x hx hxt
        have hxk : x.1.pk = p.pk := by simpa [Forest.dumpTops] using hxt
        have : x = (p, d) := List.inj_on_of_nodup_map (f := fun e : Row × Int => e.1.pk) hnd hx (by simp) hxk
        subst this
        unfold dumpPlace
        simp only
        rw [hself, hdp]
        simp [Except.map]
      · intro q hq c' hc' hcq
        simp only [Forest.dumpTops, Option.map_some, List.mem_singleton] at hc'
        subst hc'
        rw [hfe] at hcq
        exact hno q hq hcq
      · intro x hx k hk hkm
        rcases List.mem_cons.1 hx with rfl | hx
        · exact absurd (mem_PF.2 ⟨p, hpm, hk, rfl⟩) (hno k hkm)
        · obtain ⟨l', hc', _, hdep⟩ := hq x hx
          unfold dumpPlace
          rw [getDepth_cached hk]
          simp only [hdp, Except.map]
          have : (x.2 == d) = false := by rw [beq_eq_false_iff_ne]; omega
          rw [this]
          simp only [hk]
  obtain ⟨objs, e, hd, hsub, hnd, htop, hcs, hbelow⟩ := hmain
  obtain ⟨ret, el, hr⟩ := dumps_of_dfs (F := forest cfg db) (key := fun e : Row × Int => e.1.pk) (pk := fun e : Row × Int => e.1.pk) (rs := objs)
    (place := dumpPlace db parent) (v := valsIn (data db.rows)) (vals := fun e => e.1.vals) hd hnd
    (by
      intro p q k h1 h2
      rw [hfe] at h1 h2
      exact Option.some.inj (PF_parent_unique h h1 h2)) hcs (fun a ha b hb e => List.inj_on_of_nodup_map hnd ha hb e)
    htop
    (by
      intro x hx a ha hm
      exact hbelow x hx _ ((mem_forest h (hsub x hx)).1 hm) (List.mem_map_of_mem (f := fun e : Row × Int => e.1.pk) ha))
    (fun r hr => vals_eq h (hsub r hr))
  exact ⟨_, by rw [dumpBulk, e]; simp only [el]; rfl, hr keep⟩

/-! ### Loading -/

/-- a row added after its siblings -/
theorem PF_append {new : Row} (h : order cfg (withParent ⟨rows⟩ new.parent ++ [new]) = order cfg (withParent ⟨rows⟩ new.parent) ++ [new]) :
    PF cfg (rows ++ [new]) = (PF cfg rows).put new.parent .last new.pk := by
  funext q
  unfold PF Forest.put
  by_cases hq : q = new.parent
  · subst hq
    rw [if_pos rfl]
    have : withParent ⟨rows ++ [new]⟩ new.parent = withParent ⟨rows⟩ new.parent ++ [new] := by simp [withParent]
    rw [this, h]
    simp [Slot.ins]
  · rw [if_neg hq]
    have : withParent ⟨rows ++ [new]⟩ q = withParent ⟨rows⟩ q := by
      simp [withParent, Ne.symm hq]
    rw [this]

theorem orderedInsert_last {ρ : Type} {r : ρ → ρ → Prop} [DecidableRel r] {a x : ρ} (h : r a x) (m : List ρ) :
    List.orderedInsert r a (m ++ [x]) = List.orderedInsert r a m ++ [x] := by
  induction m with
  | nil => simp [h]
  | cons b m ih =>
    simp only [List.cons_append, List.orderedInsert_cons]
    split
    · rfl
    · rw [ih]; rfl

/-- sorting is stable: a last element that is not before any other one stays last -/
theorem sortBy_last {ρ : Type} {lt : ρ → ρ → Bool} {l : List ρ} {x : ρ} (h : ∀ a ∈ l, lt x a = false) : sortBy lt (l ++ [x]) = sortBy lt l ++ [x] := by
  unfold sortBy
  induction l with
  | nil => rfl
  | cons a l ih =>
    rw [List.cons_append, List.insertionSort_cons, List.insertionSort_cons, ih (fun b hb => h b (by simp [hb]))]
    exact orderedInsert_last (r := fun a b => lt b a = false) (h a (by simp)) _

/-- an object that can be used as parent: only its key is used -/
def Handle (db : DB) (h : Option (Row × Option Int)) (p : Option Nat) : Prop :=
  h.map (fun e => e.1.pk) = p ∧ ∀ k, p = some k → k ∈ db.rows.map Row.pk

/-- well formed, with the values `V`.  There are two ways to be sure of the place of a new node: with `node_order_by`, the database returns equal rows in
the order of the table, and the tree to be built is sorted; or no two siblings are equal, now and in the tree to be built. -/
structure Holds (cfg : Cfg) (T : Forest) (V : Nat → Vals) (db : DB) : Prop where
  ai : AI db.rows
  vals : ∀ r ∈ db.rows, V r.pk = r.vals
  inv : (cfg.ordered = true ∧ cfg.ties = id ∧ T.SortedBy cfg.orderBy V) ∨
    (AInv cfg db.rows ∧ (cfg.ordered = true → ∀ p, (T p).Pairwise (fun a b => keyLt cfg.orderBy (V a) (V b))))

/-- sorted lists without equal rows are determined by their rows -/
theorem order_unique (h : AInv cfg db.rows) {p : Option Nat} {l : List Row} (hs : l.Pairwise (lt cfg)) (hp : l.Perm (withParent db p)) :
    order cfg (withParent db p) = l := by
  refine ((order_perm _).trans hp.symm).eq_of_pairwise (le := lt cfg) ?_ (order_sorted h p) hs
  intro a b _ _ h1 h2
  exact absurd h2 (lt_asymm h1)

theorem addTo_last {T : Forest} {V : Nat → Vals} (h : Holds cfg T V db) {hd : Option (Row × Option Int)} {p : Option Nat} (hh : Handle db hd p)
    {k : Nat} (hf : k ∉ db.rows.map Row.pk) (hT : forest cfg db p ++ [k] <+: T p) :
    ∃ db' obj, addTo cfg db hd ⟨k, none, 0, V k⟩ = .ok (db', obj) ∧ Holds cfg T V db' ∧ forest cfg db' = (forest cfg db).put p .last k ∧
      data db'.rows = data db.rows ++ [(k, V k)] ∧ obj.1.pk = k := by
  have hai := h.ai
  have hfresh : ∀ r ∈ db.rows, r.pk ≠ k := fun r hr e => hf (List.mem_map.2 ⟨r, hr, e⟩)
  have hvals : ∀ db' : DB, data db'.rows = data db.rows ++ [(k, V k)] → ∀ r ∈ db'.rows, V r.pk = r.vals := by
    intro db' hd r hr
    have : (r.pk, r.vals) ∈ data db'.rows := List.mem_map.2 ⟨r, hr, rfl⟩
    rw [hd, List.mem_append] at this
    rcases this with h1 | h1
    · obtain ⟨q, hq, e⟩ := List.mem_map.1 h1
      injection e with e1 e2
      rw [← e1, ← e2]; exact h.vals q hq
    · simp only [List.mem_singleton, Prod.mk.injEq] at h1
      rw [h1.1, h1.2]
  cases ho : cfg.ordered with
  | false =>
    have hi : AInv cfg db.rows := (h.inv.resolve_left (by rintro ⟨e, _⟩; rw [ho] at e; cases e)).1
    have fin : ∀ db' obj, Added cfg db db' obj ⟨k, none, 0, V k⟩ p .last → Holds cfg T V db' ∧ forest cfg db' = (forest cfg db).put p .last k ∧
        data db'.rows = data db.rows ++ [(k, V k)] ∧ obj.pk = k := by
      intro db' obj ha
      refine ⟨⟨ha.inv.toAI, hvals db' ha.data, Or.inr ⟨ha.inv, fun e => by rw [ho] at e; cases e⟩⟩, ?_, ha.data, ha.obj.2⟩
      rw [forest_eq ha.inv.toAI, forest_eq hai]; exact ha.forest
    cases hd with
    | none =>
      obtain ⟨rfl, _⟩ := hh
      obtain ⟨db', obj, e, ha⟩ := addRoot_unsorted (new := ⟨k, none, 0, V k⟩) ho hi hfresh rfl
      exact ⟨db', (obj, some 1), by simp only [addTo, e]; rfl, fin db' obj ha⟩
    | some t =>
      obtain ⟨t, c⟩ := t
      obtain ⟨rfl, hk⟩ := hh
      obtain ⟨t', ht', hpk⟩ := List.mem_map.1 (hk t.pk rfl)
      obtain ⟨db', obj, c', e, ha⟩ := addChild_unsorted (new := ⟨k, none, 0, V k⟩) ho hi ht' hpk.symm (cached := c) hfresh
      rw [hpk] at ha
      exact ⟨db', (obj, c'), e, fin db' obj ha⟩
  | true =>
    have fin : ∀ db' obj, AddedRow db db' obj ⟨k, none, 0, V k⟩ p → Holds cfg T V db' ∧ forest cfg db' = (forest cfg db).put p .last k ∧
        data db'.rows = data db.rows ++ [(k, V k)] ∧ obj.pk = k := by
      intro db' obj ha
      obtain ⟨hk, hv, hp⟩ := ha.obj
      have hk : obj.pk = k := hk
      have hv : obj.vals = V k := hv
      obtain ⟨rest, eT⟩ := hT
      have hmem : ∀ r ∈ withParent db p, r.pk ∈ forest cfg db p := by
        intro r hr
        obtain ⟨h1, h2⟩ := mem_withParent.1 hr
        exact (mem_forest hai h1).2 h2
      -- either way the new row comes last
      have hlast : order cfg (withParent db p ++ [obj]) = order cfg (withParent db p) ++ [obj] ∧
          ((cfg.ordered = true ∧ cfg.ties = id ∧ T.SortedBy cfg.orderBy V) ∨
            (AInv cfg db'.rows ∧ (cfg.ordered = true → ∀ p, (T p).Pairwise (fun a b => keyLt cfg.orderBy (V a) (V b))))) := by
        rcases h.inv with ⟨_, hid, hsorted⟩ | ⟨hinv, hstrict⟩
        · refine ⟨?_, Or.inl ⟨ho, hid, hsorted⟩⟩
          unfold order
          rw [hid]
          simp only [id]
          refine sortBy_last ?_
          intro a ha'
          have := hsorted p
          rw [← eT, List.append_assoc, List.pairwise_append] at this
          have := this.2.2 a.pk (hmem a ha') k (by simp)
          rw [h.vals a (mem_withParent.1 ha').1, ← hv] at this
          rw [Bool.eq_false_iff]
          intro hlt
          exact this ((lt_ordered ho).1 hlt)
        · have hlt : ∀ a ∈ withParent db p, lt cfg a obj := by
            intro a ha'
            have := hstrict ho p
            rw [← eT, List.append_assoc, List.pairwise_append] at this
            have := this.2.2 a.pk (hmem a ha') k (by simp)
            rw [h.vals a (mem_withParent.1 ha').1, ← hv] at this
            exact (lt_ordered ho).2 this
          have hinv' : AInv cfg db'.rows := by
            refine ⟨ha.inv, fun ho' => (by rw [ho] at ho'; cases ho'), ?_⟩
            rw [ha.rows]
            intro a ha' b hb' hne hpp
            rw [List.mem_append, List.mem_singleton] at ha' hb'
            rcases ha' with ha' | rfl <;> rcases hb' with hb' | rfl
            · exact hinv.comp a ha' b hb' hne hpp
            · exact Or.inl (hlt a (mem_withParent.2 ⟨ha', hpp.trans hp⟩))
            · exact Or.inr (hlt b (mem_withParent.2 ⟨hb', hpp.symm.trans hp⟩))
            · exact absurd rfl hne
          refine ⟨?_, Or.inr ⟨hinv', hstrict⟩⟩
          have e : withParent db' p = withParent db p ++ [obj] := by
            unfold withParent; rw [ha.rows]; simp [hp]
          rw [← e]
          refine order_unique hinv' ?_ ?_
          · rw [List.pairwise_append]
            refine ⟨order_sorted hinv p, by simp, ?_⟩
            intro a ha' b hb'
            rw [List.mem_singleton] at hb'
            subst hb'
            exact hlt a (mem_order.1 ha')
          · rw [e]; exact (order_perm _).append_right _
      refine ⟨⟨ha.inv, hvals db' ha.data, hlast.2⟩, ?_, ha.data, hk⟩
      rw [forest_eq ha.inv, forest_eq hai, ha.rows]
      have := PF_append (cfg := cfg) (rows := db.rows) (new := obj) (by rw [hp]; exact hlast.1)
      rw [this, hp, hk]
    cases hd with
    | none =>
      obtain ⟨rfl, _⟩ := hh
      obtain ⟨db', obj, e, ha⟩ := addRoot_sorted (new := ⟨k, none, 0, V k⟩) ho hai hfresh rfl
      exact ⟨db', (obj, some 1), by simp only [addTo, e]; rfl, fin db' obj ha⟩
    | some t =>
      obtain ⟨t, c⟩ := t
      obtain ⟨rfl, hk⟩ := hh
      obtain ⟨t', ht', hpk⟩ := List.mem_map.1 (hk t.pk rfl)
      obtain ⟨db', obj, c', e, ha⟩ := addChild_sorted (new := ⟨k, none, 0, V k⟩) ho hai ht' hpk.symm (cached := c) hfresh
      rw [hpk] at ha
      exact ⟨db', (obj, c'), e, fin db' obj ha⟩

theorem loads {T : Forest} {V : Nat → Vals} :
    Loads (fun db p a => addTo cfg db p ⟨a.1, none, 0, a.2⟩) (fun e : Row × Option Int => e.1.pk) (Holds cfg T V) (forest cfg) (fun db => data db.rows) Handle T V where
  known := by
    intro s h k hh
    rw [data_keys]; exact hh.2 k rfl
  step := by
    intro s h p k hi hh hk hpre hp hemp
    rw [data_keys] at hk
    obtain ⟨s', obj, e, hi', hf, hd, ho⟩ := addTo_last hi hh hk hp
    have hkeys : ∀ j, j ∈ s'.rows.map Row.pk ↔ j ∈ s.rows.map Row.pk ∨ j = k := by
      intro j
      rw [← data_keys, ← data_keys, hd]; simp
    refine ⟨s', obj, e, hi', hf, hd, ho, ⟨congrArg some ho, ?_⟩, ?_⟩
    · rintro j ⟨⟩; exact (hkeys _).2 (Or.inr rfl)
    · rintro h p ⟨h1, h2⟩
      exact ⟨h1, fun j hj => (hkeys j).2 (Or.inl (h2 j hj))⟩

end Verif.AL
