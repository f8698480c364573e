/-
C96: copying a branch in a tree that `node_order_by` keeps in order.
-/
import Verif.SpecCopySorted
import Verif.LinksLemmas
import Verif.Props.Copy
import Verif.Props.LoadSorted
import Verif.Props.MergeSorted

namespace Verif

variable {ob : List (Nat × Bool)} {F F' T : Forest} {D D' : List (Nat × Vals)} {x : Nat} {p : Option Nat} {f : Nat → Nat}

theorem stable_unique {v : Nat → Vals} {g l₁ l₂ : List Nat} (hnd : g.Nodup) (h1 : l₁.Perm g ∧ l₁.Pairwise (Precedes ob v g)) (h2 : l₂.Perm g ∧ l₂.Pairwise (Precedes ob v g)) :
    l₁ = l₂ :=
  congrFun (Forest.StablySorted.unique (G := fun _ => g) (F1 := fun _ => l₁) (F2 := fun _ => l₂) (fun _ => hnd) (fun _ => h1) (fun _ => h2)) none

/-- a group of siblings that is in order is not changed by sorting it -/
theorem stable_of_sorted {v : Nat → Vals} {g l : List Nat} (hnd : g.Nodup) (h : l.Perm g ∧ l.Pairwise (Precedes ob v g)) (hs : g.Pairwise (fun a b => ¬ keyLt ob (v b) (v a))) :
    l = g := by
  refine stable_unique hnd h ⟨.refl _, ?_⟩
  rw [List.pairwise_iff_forall_sublist] at hs ⊢
  exact fun hsub => Or.inr ⟨hs hsub, hsub⟩

/-- the copy of a branch, sorted, differs from the copy in the place of its top only -/
theorem Copied.sort (hc : Copied F T D D' (valsIn D) x p f) (hF : F.IsForestOn (D.map Prod.fst)) (hx : x ∈ D.map Prod.fst)
    (hs : F.SortedBy ob (valsIn D)) (hn : ∀ k ∈ D.map Prod.fst, NonNull ob (valsIn D k)) (hkeys : (D'.map Prod.fst).Nodup) (hst : T.StablySorted ob (valsIn D') F') :
    CopiedSorted ob F F' D D' (valsIn D) x p f := by
  obtain ⟨l, hl, hlnd, hD'⟩ := hc.data
  obtain ⟨l', hl', -, hsub, hbr⟩ := hF.branch hx
  have hll : l = l' := hl.det hl'
  subst hll
  have hold : ∀ a ∈ D.map Prod.fst, valsIn D' a = valsIn D a := by
    intro a ha
    obtain ⟨⟨a, w⟩, hm, rfl⟩ := List.mem_map.1 ha
    have hD : (D.map Prod.fst).Nodup := by
      rw [hD', List.map_append, List.nodup_append] at hkeys
      exact hkeys.1
    rw [valsIn_mem hkeys (by rw [hD']; exact List.mem_append_left _ hm), valsIn_mem hD hm]
  have hnew : ∀ a, F.Branch x a → valsIn D' (f a) = valsIn D a := by
    intro a ha
    refine valsIn_mem hkeys ?_
    rw [hD']
    exact List.mem_append_right _ (List.mem_map.2 ⟨a, (hbr a).2 ha, rfl⟩)
  have hin : ∀ q, ∀ a ∈ F q, a ∈ D.map Prod.fst := hF.good.sub
  refine ⟨hc.new, hc.inj, ?_, ?_, ?_, hc.data⟩
  · have hfx : f x ∉ D.map Prod.fst := hc.new x (Or.inl rfl)
    have hins := sortedIns_sortedSlot (ob := ob) (v := valsIn D) (x := f x) (vx := valsIn D x) (hs p) (hF.kids_nodup p) (fun a ha => hn a (hin p a ha)) (hn x hx)
    obtain ⟨_, hat⟩ := SortedBy.put (v' := valsIn D') hs hins (fun q a ha => hold a (hin q a ha)) (hnew x (Or.inl rfl))
    have hfp : f x ∉ F p := fun hm => hfx (hin p _ hm)
    have hput : ∀ s : Slot, (F.put p s (f x)) p = s.ins (f x) (F p) := fun s => by simp [Forest.put]
    have hndp : (T p).Nodup := by
      rw [hc.top, List.nodup_append]
      exact ⟨hF.kids_nodup p, by simp, by rintro a ha b hb rfl; rw [List.mem_singleton] at hb; subst hb; exact hfp ha⟩
    have hst2 := hs.stably.put (v' := valsIn D') (p := p) (k := f x) hfp rfl (by
      rw [hput]
      obtain ⟨l₁, l₂, e1, e2, -⟩ := hins
      rw [e2]
      have h1 := hF.kids_nodup p
      rw [e1] at h1 hfp
      rw [List.nodup_middle, List.nodup_cons]
      exact ⟨hfp, h1⟩) (fun q a ha => hold a (hin q a ha)) hat p
    have hT : (F.put p .last (f x)) p = T p := by rw [hc.top, hput]; rfl
    rw [hT, hput] at hst2
    rw [stable_unique hndp (hst p) hst2]
    exact hins
  · intro a ha
    have hTa := hc.inside a ha
    have hkids : ∀ b ∈ F (some a), F.Branch x b := by
      intro b hb
      rcases ha with rfl | ha
      · exact Or.inr (.child hb)
      · exact Or.inr (.step ha hb)
    rw [← hTa]
    refine stable_of_sorted ?_ (hst _) ?_
    · rw [hTa]
      refine (List.nodup_map_iff_inj_on (hF.kids_nodup _)).2 ?_
      intro b hb c hc' e
      exact hc.inj b c (hkids b hb) (hkids c hc') e
    · rw [hTa, List.pairwise_map]
      refine (hs (some a)).imp_of_mem ?_
      intro b c hb hc' h
      rw [hnew b (hkids b hb), hnew c (hkids c hc')]
      exact h
  · intro q hq hqa
    have hTq := hc.others q hq hqa
    rw [← hTq]
    refine stable_of_sorted (by rw [hTq]; exact hF.kids_nodup q) (hst _) ?_
    rw [hTq]
    refine (hs q).imp_of_mem ?_
    intro b c hb hc' h
    rw [hold b (hin q b hb), hold c (hin q c hc')]
    exact h

/-- the values of the copies -/
theorem copied_vals {m : Nest Nat} {V : Nat → Vals} {P : Vals → Prop} {v : Nat → Vals} (hc : Copied F T D (D ++ m.labels.map (fun k => (k, V k))) v x p f)
    (hF : F.IsForestOn (D.map Prod.fst)) (hx : x ∈ D.map Prod.fst) (hn : ∀ k ∈ D.map Prod.fst, P (v k)) : ∀ k ∈ m.labels, P (V k) := by
  obtain ⟨l, hl, hlnd, hD'⟩ := hc.data
  obtain ⟨l', hl', -, hsub, -⟩ := hF.branch hx
  have hll : l = l' := hl.det hl'
  subst hll
  have he := List.append_cancel_left hD'
  intro k hk
  have : (k, V k) ∈ l.map (fun a => (f a, v a)) := by rw [← he]; exact List.mem_map.2 ⟨k, hk, rfl⟩
  obtain ⟨a, ha, e⟩ := List.mem_map.1 this
  have hv : v a = V k := congrArg Prod.snd e
  exact hv ▸ hn a (hsub a ha)

theorem SortedData.vals_nonNull {ob : List (Nat × Bool)} {F : Forest} {D : List (Nat × Vals)} (h : SortedData ob F D) (hnd : (D.map Prod.fst).Nodup) :
    ∀ k ∈ D.map Prod.fst, NonNull ob (valsIn D k) := by
  intro k hk
  obtain ⟨⟨k, w⟩, hm, rfl⟩ := List.mem_map.1 hk
  rw [valsIn_mem hnd hm]
  exact h.nonNull _ hm

/-! ### NS -/

namespace NS

variable {cfg : Cfg} {db : DB}

/-- **C96 for NS.** -/
theorem C96_ns (h : Consistent db) (ho : cfg.ordered = true) (hs : SortedTree cfg db) {x : Row} (hx : x ∈ db.rows) {parent : Option Row}
    (hp : ∀ p, parent = some p → p.pk ∈ db.rows.map Row.pk) {keys : Nat → Nat} (hkeys : ∀ i j, keys i = keys j → i = j) (hnew : ∀ i, keys i ∉ db.rows.map Row.pk) :
    ∃ db' added f, copyBranch cfg db x parent keys = .ok (db', added) ∧ Consistent db' ∧ SortedTree cfg db' ∧
      (data db'.rows).map Prod.fst = (data db.rows).map Prod.fst ++ added ∧
      CopiedSorted cfg.orderBy (forest db) (forest db') (data db.rows) (data db'.rows) (valsIn (data db.rows)) x.pk (parent.map Row.pk) f := by
  have hF := isForestOn h
  have hxk : x.pk ∈ (data db.rows).map Prod.fst := by rw [keys_eq]; exact List.mem_map_of_mem hx
  obtain ⟨d, ed, hd⟩ := C19_ns_dump h (parent := some x) (by rintro p ⟨⟩; exact hx) false
  obtain ⟨m, V, i, f, ep, hnd, htops, hlab, hV, hcop⟩ := copy_prepared hF hxk hd hkeys (by rw [keys_eq]; exact hnew)
  have hfresh : ∀ k ∈ m.labels, ∀ r ∈ db.rows, r.pk ≠ k := by
    rintro k hk r hr rfl
    refine (hlab _ hk).1 ?_
    rw [keys_eq]; exact List.mem_map_of_mem hr
  have hpk : ∀ k, parent.map Row.pk = some k → k ∈ (data db.rows).map Prod.fst := by
    intro k hk
    cases parent with
    | none => cases hk
    | some p => cases hk; rw [keys_eq]; exact hp p rfl
  have hT : Grafted (forest db) (graft (forest db) (parent.map Row.pk) m) (parent.map Row.pk) m :=
    graft_grafted hnd (fun k hk e => (hlab k hk).1 (hpk k e))
  have hn := hs.vals_nonNull (keys_nodup h)
  have hVn := copied_vals (P := NonNull cfg.orderBy) (hcop _ _ _ hT rfl) hF hxk hn
  obtain ⟨db', el, hc', ⟨T, hgT, hst⟩, hso, hd'⟩ := C91_ns h ho hs hp hnd hfresh hVn
  have hcs := (hcop T _ _ hgT hd').sort hF hxk hs.sorted hn (keys_nodup hc') hst
  refine ⟨db', m.labels, f, ?_, hc', ⟨?_, hso⟩, by rw [hd']; simp [Function.comp_def], hcs⟩
  · unfold copyBranch
    rw [ed]
    dsimp only
    rw [ep]
    exact el
  · intro e he
    rw [hd'] at he
    rcases List.mem_append.1 he with he | he
    · exact hs.nonNull e he
    · obtain ⟨k, hk, rfl⟩ := List.mem_map.1 he
      exact hVn k hk

end NS

/-! ### MP -/

namespace MP

variable {cfg : Cfg} {db : DB}

/-- **C96 for MP**: or `PathOverflow`, and then nothing is stored. -/
theorem C96_mp (hok : cfg.Ok) (h : Consistent cfg db) (ho : cfg.ordered = true) (hs : SortedTree cfg db) {x : Row} (hx : x ∈ db.rows) {parent : Option Row}
    (hp : ∀ p, parent = some p → p.pk ∈ db.rows.map Row.pk) {keys : Nat → Nat} (hkeys : ∀ i j, keys i = keys j → i = j) (hnew : ∀ i, keys i ∉ db.rows.map Row.pk) :
    (∃ db' added f, copyBranch cfg db x parent keys = .ok (db', added) ∧ Consistent cfg db' ∧ SortedTree cfg db' ∧
      (data db'.rows).map Prod.fst = (data db.rows).map Prod.fst ++ added ∧
      CopiedSorted cfg.orderBy (forest cfg db) (forest cfg db') (data db.rows) (data db'.rows) (valsOf db) x.pk (parent.map Row.pk) f) ∨
    copyBranch cfg db x parent keys = .error .pathOverflow := by
  have hF := isForestOn_data hok h
  have hsd := hs.toData
  have hxk : x.pk ∈ (data db.rows).map Prod.fst := by rw [keys_data]; exact List.mem_map_of_mem hx
  obtain ⟨d, ed, hd⟩ := C19_mp_dump hok h (parent := some x) (by rintro p ⟨⟩; exact hx) false
  obtain ⟨m, V, i, f, ep, hnd, htops, hlab, hV, hcop⟩ := copy_prepared hF hxk hd hkeys (by rw [keys_data]; exact hnew)
  rw [valsOf_eq] at hcop
  have hfresh : ∀ k ∈ m.labels, ∀ r ∈ db.rows, r.pk ≠ k := by
    rintro k hk r hr rfl
    refine (hlab _ hk).1 ?_
    rw [keys_data]; exact List.mem_map_of_mem hr
  have hpk : ∀ k, parent.map Row.pk = some k → k ∈ (data db.rows).map Prod.fst := by
    intro k hk
    cases parent with
    | none => cases hk
    | some p => cases hk; rw [keys_data]; exact hp p rfl
  have hT : Grafted (forest cfg db) (graft (forest cfg db) (parent.map Row.pk) m) (parent.map Row.pk) m :=
    graft_grafted hnd (fun k hk e => (hlab k hk).1 (hpk k e))
  have hn := hsd.vals_nonNull hF.ids_nodup
  have hVn := copied_vals (P := NonNull cfg.orderBy) (hcop _ _ _ hT rfl) hF hxk hn
  have hcopy : ∀ r, load cfg db parent (m.map (fun k => (k, V k))) = r → copyBranch cfg db x parent keys = r := by
    rintro _ rfl
    unfold copyBranch
    rw [ed]
    dsimp only
    rw [ep]
  rcases C91_mp hok h ho hs hp hnd hfresh hVn with ⟨db', el, hc', ⟨T, hgT, hst⟩, hso, hd'⟩ | el
  · left
    have hcs := (hcop T _ _ hgT hd').sort hF hxk hsd.sorted hn (isForestOn_data hok hc').ids_nodup hst
    refine ⟨db', m.labels, f, hcopy _ el, hc', ⟨?_, by rw [valsOf_eq]; exact hso⟩, by rw [hd']; simp [Function.comp_def], by rw [valsOf_eq]; exact hcs⟩
    intro r hr
    have he : (r.pk, r.vals) ∈ data db'.rows := List.mem_map_of_mem (f := fun r : Row => (r.pk, r.vals)) hr
    rw [hd'] at he
    rcases List.mem_append.1 he with he | he
    · exact hsd.nonNull _ he
    · obtain ⟨k, hk, e⟩ := List.mem_map.1 he
      have hv : V k = r.vals := congrArg Prod.snd e
      exact hv ▸ hVn k hk
  · exact Or.inr (hcopy _ el)

end MP

/-! ### AL -/

namespace AL

variable {cfg : Cfg} {db : DB}

/-- **C96 for AL** (partial: the order of siblings with equal values is not stored, the database chooses it; the copy, and every group of siblings of the copy, is in order). -/
theorem C96_al_partial (h : Wf cfg db) (ho : cfg.ordered = true) (hn : ∀ r ∈ db.rows, NonNull cfg.orderBy r.vals) {x : Row × Option Int} (hx : x.1 ∈ db.rows)
    {parent : Option (Row × Option Int)} (hp : ∀ p, parent = some p → p.1.pk ∈ db.rows.map Row.pk) {keys : Nat → Nat} (hkeys : ∀ i j, keys i = keys j → i = j)
    (hnew : ∀ i, keys i ∉ db.rows.map Row.pk) :
    ∃ db' added f, copyBranch cfg db x parent keys = .ok (db', added) ∧ Wf cfg db' ∧ (data db'.rows).map Prod.fst = (data db.rows).map Prod.fst ++ added ∧
      (∃ T, Copied (forest cfg db) T (data db.rows) (data db'.rows) (valsIn (data db.rows)) x.1.pk (parent.map (fun p => p.1.pk)) f ∧ T.Near (forest cfg db')) ∧
      (forest cfg db').SortedBy cfg.orderBy (valsIn (data db'.rows)) := by
  have hF := isForestOn (cfg := cfg) h.ai
  have hkn : ((data db.rows).map Prod.fst).Nodup := hF.ids_nodup
  have hxk : x.1.pk ∈ (data db.rows).map Prod.fst := by rw [data_keys]; exact List.mem_map_of_mem hx
  obtain ⟨d, ed, hd⟩ := C19_al_dump h (parent := some x) (by rintro p ⟨⟩; exact hx) false
  obtain ⟨m, V, i, f, ep, hnd, htops, hlab, hV, hcop⟩ := copy_prepared hF hxk hd hkeys (by rw [data_keys]; exact hnew)
  have hfresh : ∀ k ∈ m.labels, ∀ r ∈ db.rows, r.pk ≠ k := by
    rintro k hk r hr rfl
    refine (hlab _ hk).1 ?_
    rw [data_keys]; exact List.mem_map_of_mem hr
  have hpk : ∀ k, parent.map (fun p => p.1.pk) = some k → k ∈ (data db.rows).map Prod.fst := by
    intro k hk
    cases parent with
    | none => cases hk
    | some p => cases hk; rw [data_keys]; exact hp p rfl
  have hT : Grafted (forest cfg db) (graft (forest cfg db) (parent.map (fun p => p.1.pk)) m) (parent.map (fun p => p.1.pk)) m :=
    graft_grafted hnd (fun k hk e => (hlab k hk).1 (hpk k e))
  have hnn : ∀ k ∈ (data db.rows).map Prod.fst, NonNull cfg.orderBy (valsIn (data db.rows) k) := by
    intro k hk
    rw [data_keys] at hk
    obtain ⟨r, hr, rfl⟩ := List.mem_map.1 hk
    rw [valsIn_mem hkn (List.mem_map_of_mem (f := fun r : Row => (r.pk, r.vals)) hr)]
    exact hn r hr
  have hVn := copied_vals (P := NonNull cfg.orderBy) (hcop _ _ _ hT rfl) hF hxk hnn
  obtain ⟨db', el, hc', ⟨⟨T, hgT, hst⟩, hd'⟩, hso⟩ := C91_al_partial h ho hn hp hnd hfresh hVn
  refine ⟨db', m.labels, f, ?_, hc', by rw [hd']; simp [Function.comp_def], ⟨T, hcop T _ _ hgT hd', hst⟩, hso⟩
  unfold copyBranch
  rw [ed]
  dsimp only
  rw [ep]
  exact el

end AL

/-! ### LT -/

namespace LT

variable {cfg : Cfg} {db : DB}

/-- **C96 for LT** (partial: not the order, see `C16_lt_fails`; or ValueError when no label is left, and then nothing is stored). -/
theorem C96_lt_partial (h : Consistent db) (ho : cfg.ordered = true) {x : Row} (hx : x ∈ db.rows) {parent : Option Row}
    (hp : ∀ p, parent = some p → p ∈ db.rows) {keys : Nat → Nat} (hkeys : ∀ i j, keys i = keys j → i = j) (hnew : ∀ i, keys i ∉ db.rows.map Row.pk) :
    (∃ db' added f, copyBranch cfg db x parent keys = .ok (db', added) ∧ Consistent db' ∧ (data db'.rows).map Prod.fst = (data db.rows).map Prod.fst ++ added ∧
      ∃ T, Copied (forest db) T (data db.rows) (data db'.rows) (valsIn (data db.rows)) x.pk (parent.map Row.pk) f ∧ T.Near (forest db')) ∨
    copyBranch cfg db x parent keys = .error .valueError := by
  have hF := isForestOn h
  have hxk : x.pk ∈ (data db.rows).map Prod.fst := by rw [keys_eq]; exact List.mem_map_of_mem hx
  obtain ⟨d, ed, hd⟩ := C19_lt_dump h (parent := some x) (by rintro p ⟨⟩; exact hx) false
  obtain ⟨m, V, i, f, ep, hnd, htops, hlab, hV, hcop⟩ := copy_prepared hF hxk hd hkeys (by rw [keys_eq]; exact hnew)
  have hfresh : ∀ k ∈ m.labels, ∀ r ∈ db.rows, r.pk ≠ k := by
    rintro k hk r hr rfl
    refine (hlab _ hk).1 ?_
    rw [keys_eq]; exact List.mem_map_of_mem hr
  have hcopy : ∀ r, load cfg db parent (m.map (fun k => (k, V k))) = r → copyBranch cfg db x parent keys = r := by
    rintro _ rfl
    unfold copyBranch
    rw [ed]
    dsimp only
    rw [ep]
  rcases C91_lt_partial h ho hp hnd hfresh (V := V) with ⟨db', el, hc', ⟨T, hgT, hst⟩, hd'⟩ | el
  · exact Or.inl ⟨db', m.labels, f, hcopy _ el, hc', by rw [hd']; simp [Function.comp_def], T, hcop T _ _ hgT hd', hst⟩
  · exact Or.inr (hcopy _ el)

end LT

/-! ### Examples -/

/-- 2 (value 1) copied below its own parent 1: the copy comes behind 2 and before 3 and 4 (values 3) -/
example : ∃ db' added f, NS.copyBranch NS.exSorted NS.exSDB ⟨2, 1, 2, 3, 2, [some 1]⟩ (some ⟨1, 0, 0, 0, 0, []⟩) (fun i => 10 + i) = .ok (db', added) ∧ NS.Consistent db' ∧
    NS.SortedTree NS.exSorted db' ∧ (NS.data db'.rows).map Prod.fst = (NS.data NS.exSDB.rows).map Prod.fst ++ added ∧
    CopiedSorted NS.exSorted.orderBy (NS.forest NS.exSDB) (NS.forest db') (NS.data NS.exSDB.rows) (NS.data db'.rows) (valsIn (NS.data NS.exSDB.rows)) 2 (some 1) f :=
  NS.C96_ns (cfg := NS.exSorted) NS.exSDB_inv rfl NS.exSDB_sorted (x := ⟨2, 1, 2, 3, 2, [some 1]⟩) (by decide) (parent := some ⟨1, 0, 0, 0, 0, []⟩) (by rintro p ⟨⟩; decide)
    (fun i j e => by omega) (fun i hc => by simp [NS.exSDB] at hc; omega)

example : (NS.copyBranch NS.exSorted NS.exSDB ⟨2, 1, 2, 3, 2, [some 1]⟩ (some ⟨1, 0, 0, 0, 0, []⟩) (fun i => 10 + i)).toOption.map (fun y => NS.forest y.1 (some 1)) =
    some [2, 10, 3, 4] := by
  simp only [NS.copyBranch, NS.load, loadBulk_eq]; decide +kernel

/-- the branch of 2, with its children 4 and 5, copied below 5 -/
example : (∃ db' added f, MP.copyBranch MP.exCfgS MP.exDBS ⟨2, [50], 1, 2, [some 1, some 2]⟩ (some ⟨5, [50, 50], 2, 0, [some 3, some 3]⟩) (fun i => 10 + i) = .ok (db', added) ∧
      MP.Consistent MP.exCfgS db' ∧ SortedTree MP.exCfgS db' ∧ (MP.data db'.rows).map Prod.fst = (MP.data MP.exDBS.rows).map Prod.fst ++ added ∧
      CopiedSorted MP.exCfgS.orderBy (MP.forest MP.exCfgS MP.exDBS) (MP.forest MP.exCfgS db') (MP.data MP.exDBS.rows) (MP.data db'.rows) (MP.valsOf MP.exDBS) 2 (some 5) f) ∨
    MP.copyBranch MP.exCfgS MP.exDBS ⟨2, [50], 1, 2, [some 1, some 2]⟩ (some ⟨5, [50, 50], 2, 0, [some 3, some 3]⟩) (fun i => 10 + i) = .error .pathOverflow :=
  MP.C96_mp MP.exCfgS_ok MP.exDBS_consistent rfl ⟨MP.exDBS_sorted.1, MP.exDBS_sorted.2⟩ (x := ⟨2, [50], 1, 2, [some 1, some 2]⟩) (by decide)
    (parent := some ⟨5, [50, 50], 2, 0, [some 3, some 3]⟩) (by rintro p ⟨⟩; decide) (fun i j e => by omega) (fun i hc => by simp [MP.exDBS] at hc; omega)

example : (MP.copyBranch MP.exCfgS MP.exDBS ⟨2, [50], 1, 2, [some 1, some 2]⟩ (some ⟨5, [50, 50], 2, 0, [some 3, some 3]⟩) (fun i => 10 + i)).toOption.map
    (fun y => (MP.forest MP.exCfgS y.1 (some 5), MP.forest MP.exCfgS y.1 (some 10))) = some ([10], [11, 12]) := by
  simp only [MP.copyBranch, MP.load, loadBulk_eq]; decide +kernel

/-- AL: the branch of 1, with its children, copied below its child 3 -/
example : ∃ db' added f, AL.copyBranch AL.exSorted AL.exSDB (⟨1, none, 0, [some 5]⟩, none) (some (⟨3, none, 0, []⟩, none)) (fun i => 10 + i) = .ok (db', added) ∧ AL.Wf AL.exSorted db' ∧
    (AL.data db'.rows).map Prod.fst = (AL.data AL.exSDB.rows).map Prod.fst ++ added ∧
    (∃ T, Copied (AL.forest AL.exSorted AL.exSDB) T (AL.data AL.exSDB.rows) (AL.data db'.rows) (valsIn (AL.data AL.exSDB.rows)) 1 (some 3) f ∧ T.Near (AL.forest AL.exSorted db')) ∧
    (AL.forest AL.exSorted db').SortedBy AL.exSorted.orderBy (valsIn (AL.data db'.rows)) :=
  AL.C96_al_partial (cfg := AL.exSorted) (AL.wf_of_ai AL.exSDB_inv.toAI) rfl (by
      intro r hr f hf
      simp only [AL.exSorted, List.mem_cons, List.not_mem_nil, or_false] at hf
      simp only [AL.exSDB, List.mem_cons, List.not_mem_nil, or_false] at hr
      subst hf
      rcases hr with rfl | rfl | rfl | rfl | rfl <;> exact ⟨_, rfl⟩) (x := (⟨1, none, 0, [some 5]⟩, none)) (by decide) (parent := some (⟨3, none, 0, []⟩, none))
    (by rintro p ⟨⟩; decide) (fun i j e => by omega) (fun i hc => by simp [AL.exSDB] at hc; omega)

/-- LT: the branch of 1 copied below its child 3 -/
example : (∃ db' added f, LT.copyBranch LT.exSorted LT.exSDB ⟨1, [[65]], [some 5]⟩ (some ⟨3, [[65], [66]], [some 3]⟩) (fun i => 10 + i) = .ok (db', added) ∧ LT.Consistent db' ∧
      (LT.data db'.rows).map Prod.fst = (LT.data LT.exSDB.rows).map Prod.fst ++ added ∧
      ∃ T, Copied (LT.forest LT.exSDB) T (LT.data LT.exSDB.rows) (LT.data db'.rows) (valsIn (LT.data LT.exSDB.rows)) 1 (some 3) f ∧ T.Near (LT.forest db')) ∨
    LT.copyBranch LT.exSorted LT.exSDB ⟨1, [[65]], [some 5]⟩ (some ⟨3, [[65], [66]], [some 3]⟩) (fun i => 10 + i) = .error .valueError :=
  LT.C96_lt_partial (LT.consistent_iff.2 LT.exSDB_inv) (cfg := LT.exSorted) rfl (x := ⟨1, [[65]], [some 5]⟩) (by decide) (parent := some ⟨3, [[65], [66]], [some 3]⟩)
    (by rintro p ⟨⟩; decide) (fun i j e => by omega) (fun i hc => by simp [LT.exSDB] at hc; omega)

/-- LT: the copy of 1 (value 5) below 1 comes before the child with the value 1: **C96 fails for LT** -/
theorem LT.C96_lt_fails : ∃ db : LT.DB, LT.Consistent db ∧ LT.SortedTree LT.exSorted db ∧ ∃ x ∈ db.rows, ∃ db',
    LT.copyBranch LT.exSorted db x (some x) (fun i => 10 + i) = .ok (db', [10, 11]) ∧ ¬ (LT.forest db').SortedBy LT.exSorted.orderBy (valsIn (LT.data db'.rows)) := by
  have hc : LT.Consistent ⟨[⟨1, [[65]], [some 5]⟩, ⟨2, [[65], [66]], [some 1]⟩], []⟩ := LT.consistent_iff.2 (LT.inv_of_check (by decide))
  have e : (LT.copyBranch LT.exSorted ⟨[⟨1, [[65]], [some 5]⟩, ⟨2, [[65], [66]], [some 1]⟩], []⟩ ⟨1, [[65]], [some 5]⟩ (some ⟨1, [[65]], [some 5]⟩) (fun i => 10 + i)).toOption.map
      (fun y => (y.1.rows, y.2)) =
      some ([⟨1, [[65]], [some 5]⟩, ⟨2, [[65], [66]], [some 1]⟩, ⟨10, [[65], [65]], [some 5]⟩, ⟨11, [[65], [65], [65]], [some 1]⟩], [10, 11]) := by
    simp only [LT.copyBranch, LT.load, loadBulk_eq]; decide +kernel
  refine ⟨⟨[⟨1, [[65]], [some 5]⟩, ⟨2, [[65], [66]], [some 1]⟩], []⟩, hc, ?_, ⟨1, [[65]], [some 5]⟩, by decide, ?_⟩
  · refine ⟨?_, sortedBy_of_keys [1, 2] (fun k hk => LT.forest_nil hk) (by decide)⟩
    intro e he f hf
    simp only [LT.exSorted, List.mem_cons, List.not_mem_nil, or_false] at hf
    simp only [LT.data, List.map_cons, List.map_nil, List.mem_cons, List.not_mem_nil, or_false] at he
    rcases he with rfl | rfl <;> subst hf <;> exact ⟨_, rfl⟩
  · rcases hr : LT.copyBranch LT.exSorted ⟨[⟨1, [[65]], [some 5]⟩, ⟨2, [[65], [66]], [some 1]⟩], []⟩ ⟨1, [[65]], [some 5]⟩ (some ⟨1, [[65]], [some 5]⟩) (fun i => 10 + i) with e' | ⟨db', l⟩
    · rw [hr] at e; cases e
    · rw [hr] at e
      have e := Option.some.inj e
      obtain ⟨rows, w⟩ := db'
      have e1 : rows = _ := congrArg Prod.fst e
      have e2 : l = _ := congrArg Prod.snd e
      subst e1 e2
      refine ⟨_, rfl, fun hs => ?_⟩
      have hs1 : (LT.forest ⟨[⟨1, [[65]], [some 5]⟩, ⟨2, [[65], [66]], [some 1]⟩, ⟨10, [[65], [65]], [some 5]⟩, ⟨11, [[65], [65], [65]], [some 1]⟩], []⟩ (some 1)).Pairwise
          (fun a b => ¬ keyLt LT.exSorted.orderBy (valsIn [(1, [some 5]), (2, [some 1]), (10, [some 5]), (11, [some 1])] b)
            (valsIn [(1, [some 5]), (2, [some 1]), (10, [some 5]), (11, [some 1])] a)) := hs (some 1)
      exact absurd hs1 (by decide)

end Verif
