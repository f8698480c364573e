/-
C93: nodes of a sorted tree that are merged or dissolved.  The two histories are `handOps`: every child is moved with `sorted-child` to the other node, or with
`sorted-sibling` to its parent, and then the node is deleted.
-/
import Verif.MergeSortedLemmas
import Verif.Props.Unsorted
import Verif.Props.AdminSearch

namespace Verif

/-- The outcome of handing the children of `a` over to `p` in the sorted tree `F` with the data `D`: `a` is gone, its children are children of `p`, and all siblings are sorted,
those with equal values in the order they had, the children of `a` last. -/
structure HandedSorted (ob : List (Nat × Bool)) (F F' : Forest) (D D' : List (Nat × Vals)) (a : Nat) (p : Option Nat) : Prop where
  tree : (F.handedOver a p).StablySorted ob (valsIn D) F'
  data : D' = D.filter (fun e => decide (e.1 ≠ a))

namespace NS

variable {cfg : Cfg} {db : DB}

/-- **C92 from any sorted table** -/
theorem C92_ns_from (ho : cfg.ordered = true) (h : Consistent db) (hs : SortedTree cfg db) {ops : List Op} (hn : ∀ op ∈ ops, NoNulls cfg.orderBy op) {db' : DB}
    (hdb : db' = runOps cfg db ops) :
    Consistent db' ∧ SortedTree cfg db' ∧ AbsS db' (STree.run cfg.orderBy ⟨data db.rows, forest db⟩ ops) ∧
    (Tree.run ⟨db.rows.map Row.pk, forest db⟩ (ops.map plainOp)).F.StablySorted cfg.orderBy (valsIn (data db'.rows)) (forest db') := by
  have key : ∀ (ops : List Op) (db : DB) (s : STree), Consistent db → SortedTree cfg db → AbsS db s → (∀ op ∈ ops, NoNulls cfg.orderBy op) →
      Consistent (runOps cfg db ops) ∧ SortedTree cfg (runOps cfg db ops) ∧ AbsS (runOps cfg db ops) (s.run cfg.orderBy ops) := by
    intro ops
    induction ops with
    | nil => intro db s h hs ha _; exact ⟨h, hs, ha⟩
    | cons op ops ih =>
      intro db s h hs ha hn
      obtain ⟨h1, h2⟩ := step_simS ho h hs (hn op (by simp)) ha
      exact ih _ _ (step_consistent h op) h1 h2 (fun o ho => hn o (List.mem_cons_of_mem _ ho))
  subst hdb
  obtain ⟨k1, k2, k3⟩ := key ops db ⟨data db.rows, forest db⟩ h hs ⟨rfl, rfl⟩ hn
  refine ⟨k1, k2, k3, ?_⟩
  have := ((Twin.self hs (isForestOn h) (keys_nodup h)).run hn).order
  rw [← k3.forest, ← k3.data, keys_eq] at this
  exact this

/-- **C93 for NS, merging** -/
theorem C93_ns_merge (ho : cfg.ordered = true) (h : Consistent db) (hs : SortedTree cfg db) {a b : Nat} (ha : a ∈ db.rows.map Row.pk) (hb : b ∈ db.rows.map Row.pk)
    (hne : a ≠ b) (hd : ¬ (forest db).Desc a b) {db' : DB} (hdb : db' = runOps cfg db (handOps (forest db (some a)) a b .sortedChild)) :
    Consistent db' ∧ SortedTree cfg db' ∧ HandedSorted cfg.orderBy (forest db) (forest db') (data db.rows) (data db'.rows) a (some b) := by
  obtain ⟨k1, k2, k3, _⟩ := C92_ns_from ho h hs (handOps_noNulls _ _ _ _) hdb
  rw [← keys_eq] at ha hb
  obtain ⟨r1, r2⟩ := STree.run_handOps hs (keys_nodup h) (Or.inr rfl) (handsOver_merge (isForestOn h) ha hb hne hd) rfl
  exact ⟨k1, k2, by rw [k3.forest]; exact r1, by rw [k3.data]; exact r2⟩

/-- **C93 for NS, dissolving** -/
theorem C93_ns_dissolve (ho : cfg.ordered = true) (h : Consistent db) (hs : SortedTree cfg db) {a : Nat} {p : Option Nat} (ha : a ∈ forest db p)
    {db' : DB} (hdb : db' = runOps cfg db (handOps (forest db (some a)) a a .sortedSibling)) :
    Consistent db' ∧ SortedTree cfg db' ∧ HandedSorted cfg.orderBy (forest db) (forest db') (data db.rows) (data db'.rows) a p := by
  obtain ⟨k1, k2, k3, _⟩ := C92_ns_from ho h hs (handOps_noNulls _ _ _ _) hdb
  obtain ⟨r1, r2⟩ := STree.run_handOps hs (keys_nodup h) (Or.inl rfl) (handsOver_dissolve (isForestOn h) ha) rfl
  exact ⟨k1, k2, by rw [k3.forest]; exact r1, by rw [k3.data]; exact r2⟩

/-- the root 1 with the children 2, 3, 4, of which 3 and 4 are equal, is dissolved -/
example : Consistent exSDB ∧ SortedTree exSorted exSDB ∧ 1 ∈ forest exSDB none ∧ forest exSDB (some 1) = [2, 3, 4] ∧
    forest (runOps exSorted exSDB (handOps [2, 3, 4] 1 1 .sortedSibling)) none = [2, 3, 4] :=
  ⟨exSDB_inv, exSDB_sorted, by decide, by decide, by decide⟩

end NS

namespace MP

variable {cfg : Cfg} {db : DB}

theorem keys_data (rows : List Row) : (data rows).map Prod.fst = rows.map Row.pk := by simp [data, Function.comp_def]

theorem isForestOn_data (hok : cfg.Ok) (h : Consistent cfg db) : (forest cfg db).IsForestOn ((data db.rows).map Prod.fst) := by
  rw [keys_data]; exact isForestOn_forest hok h

theorem _root_.Verif.SortedTree.toData (hs : SortedTree cfg db) : SortedData cfg.orderBy (forest cfg db) (data db.rows) := by
  refine ⟨fun e he => ?_, by rw [← valsOf_eq]; exact hs.sorted⟩
  obtain ⟨r, hr, rfl⟩ := List.mem_map.1 he
  exact hs.nonNull r hr

/-- **C92 from any sorted table** that has room for all operations -/
theorem C92_mp_from (hok : cfg.Ok) (ho : cfg.ordered = true) (h : Consistent cfg db) (hs : SortedTree cfg db) {ops : List Op} (hn : ∀ op ∈ ops, NoNulls cfg.orderBy op)
    (hr : Roomy cfg db ops) {db' : DB} (hdb : db' = runOps cfg db ops) :
    Consistent cfg db' ∧ SortedTree cfg db' ∧ MP.AbsS cfg db' (STree.run cfg.orderBy ⟨data db.rows, forest cfg db⟩ ops) ∧
    (Tree.run ⟨db.rows.map Row.pk, forest cfg db⟩ (ops.map plainOp)).F.StablySorted cfg.orderBy (valsIn (data db'.rows)) (forest cfg db') := by
  have key : ∀ (ops : List Op) (db : DB) (s : STree), HInv cfg db → MP.AbsS cfg db s → Guarded cfg db ops → Roomy cfg db ops →
      HInv cfg (runOps cfg db ops) ∧ MP.AbsS cfg (runOps cfg db ops) (s.run cfg.orderBy ops) := by
    intro ops
    induction ops with
    | nil => intro db s h ha _ _; exact ⟨h, ha⟩
    | cons op ops ih =>
      intro db s h ha hg hr
      rcases step_simS hok ho h.consistent (h.sorted ho) hg.1 ha with h2 | h2
      · exact ih _ _ (HInv.step hok h hg.1) h2 hg.2 hr.2
      · exact absurd h2 hr.1
  subst hdb
  obtain ⟨k1, k3⟩ := key ops db ⟨data db.rows, forest cfg db⟩ ⟨h, fun _ => hs⟩ ⟨rfl, rfl⟩ (guarded_sorted ho hn _) hr
  refine ⟨k1.consistent, k1.sorted ho, k3, ?_⟩
  have := ((Twin.self hs.toData (isForestOn_data hok h) (isForestOn_data hok h).ids_nodup).run hn).order
  rw [← k3.forest, ← k3.data, keys_data] at this
  exact this

/-- **C93 for MP, merging**, unless a move runs out of positions -/
theorem C93_mp_merge (hok : cfg.Ok) (ho : cfg.ordered = true) (h : Consistent cfg db) (hs : SortedTree cfg db) {a b : Nat} (ha : a ∈ db.rows.map Row.pk)
    (hb : b ∈ db.rows.map Row.pk) (hne : a ≠ b) (hd : ¬ (forest cfg db).Desc a b) (hr : Roomy cfg db (handOps (forest cfg db (some a)) a b .sortedChild)) {db' : DB}
    (hdb : db' = runOps cfg db (handOps (forest cfg db (some a)) a b .sortedChild)) :
    Consistent cfg db' ∧ SortedTree cfg db' ∧ HandedSorted cfg.orderBy (forest cfg db) (forest cfg db') (data db.rows) (data db'.rows) a (some b) := by
  obtain ⟨k1, k2, k3, _⟩ := C92_mp_from hok ho h hs (handOps_noNulls _ _ _ _) hr hdb
  rw [← keys_data] at ha hb
  have hF := isForestOn_data hok h
  obtain ⟨r1, r2⟩ := STree.run_handOps hs.toData hF.ids_nodup (Or.inr rfl) (handsOver_merge hF ha hb hne hd) rfl
  exact ⟨k1, k2, by rw [k3.forest]; exact r1, by rw [k3.data]; exact r2⟩

/-- **C93 for MP, dissolving**, unless a move runs out of positions -/
theorem C93_mp_dissolve (hok : cfg.Ok) (ho : cfg.ordered = true) (h : Consistent cfg db) (hs : SortedTree cfg db) {a : Nat} {p : Option Nat} (ha : a ∈ forest cfg db p)
    (hr : Roomy cfg db (handOps (forest cfg db (some a)) a a .sortedSibling)) {db' : DB}
    (hdb : db' = runOps cfg db (handOps (forest cfg db (some a)) a a .sortedSibling)) :
    Consistent cfg db' ∧ SortedTree cfg db' ∧ HandedSorted cfg.orderBy (forest cfg db) (forest cfg db') (data db.rows) (data db'.rows) a p := by
  obtain ⟨k1, k2, k3, _⟩ := C92_mp_from hok ho h hs (handOps_noNulls _ _ _ _) hr hdb
  have hF := isForestOn_data hok h
  obtain ⟨r1, r2⟩ := STree.run_handOps hs.toData hF.ids_nodup (Or.inl rfl) (handsOver_dissolve hF ha) rfl
  exact ⟨k1, k2, by rw [k3.forest]; exact r1, by rw [k3.data]; exact r2⟩

/-- the root 2 with the children 4 and 5 is dissolved, and merged into the root 1 -/
example : Consistent exCfgS exDBS ∧ SortedTree exCfgS exDBS ∧ forest exCfgS exDBS (some 2) = [4, 5] ∧ Roomy exCfgS exDBS (handOps [4, 5] 2 2 .sortedSibling) ∧
    forest exCfgS (runOps exCfgS exDBS (handOps [4, 5] 2 2 .sortedSibling)) none = [4, 1, 5, 3] ∧ Roomy exCfgS exDBS (handOps [4, 5] 2 1 .sortedChild) ∧
    forest exCfgS (runOps exCfgS exDBS (handOps [4, 5] 2 1 .sortedChild)) (some 1) = [4, 5] :=
  ⟨exDBS_consistent, ⟨exDBS_sorted.1, exDBS_sorted.2⟩, by decide, by simp only [Roomy, handOps, List.map, List.cons_append, List.nil_append]; decide, by decide,
    by simp only [Roomy, handOps, List.map, List.cons_append, List.nil_append]; decide, by decide⟩

end MP

namespace AL

variable {cfg : Cfg} {db : DB}

theorem run_handOps_data {ob : List (Nat × Bool)} (s : STree) (cs : List Nat) (a t : Nat) (pos : Pos) (n : Nat) :
    (STree.run ob s ((handOps cs a t pos).take n)).data.Sublist s.data := by
  have key : ∀ (ops : List Op) (s : STree), (∀ op ∈ ops, op.adds = none) → (STree.run ob s ops).data.Sublist s.data := by
    intro ops
    induction ops with
    | nil => intro s _; exact .refl _
    | cons op ops ih =>
      intro s ho
      refine (ih (s.step ob op) (fun o h => ho o (by simp [h]))).trans ?_
      have := ho op (by simp)
      cases op with
      | move x t pos =>
        simp only [STree.step]
        split
        · exact .refl _
        · split
          · exact .refl _
          · split <;> exact .refl _
      | delete S => exact List.filter_sublist
      | addRoot k v => cases this
      | addChild t k v => cases this
      | addSibling t p k v => cases this
  refine key _ s (fun op hop => ?_)
  rcases List.mem_append.1 (List.mem_of_mem_take hop) with h | h
  · obtain ⟨c, _, rfl⟩ := List.mem_map.1 h; rfl
  · rw [List.mem_singleton.1 h]; rfl

/-- the rows of the table can be told apart by their order fields -/
def RowsDistinct (cfg : Cfg) (db : DB) : Prop :=
  ∀ r ∈ db.rows, ∀ s ∈ db.rows, r.pk ≠ s.pk → keyLt cfg.orderBy r.vals s.vals ∨ keyLt cfg.orderBy s.vals r.vals

theorem handed_partial (ho : cfg.ordered = true) (h : Wf cfg db) (hn : ∀ r ∈ db.rows, NonNull cfg.orderBy r.vals) (hd : RowsDistinct cfg db) {a t : Nat} {pos : Pos}
    {d : Option Nat} (hpos : pos = .sortedSibling ∨ pos = .sortedChild) (hh : HandsOver (forest cfg db) ((data db.rows).map Prod.fst) a t (lastPos pos) d) {db' : DB}
    (hdb : db' = runOps cfg db (handOps (forest cfg db (some a)) a t pos)) :
    Wf cfg db' ∧ HandedSorted cfg.orderBy (forest cfg db) (forest cfg db') (data db.rows) (data db'.rows) a d := by
  have hF := hh.forest
  have hs : SortedData cfg.orderBy (forest cfg db) (data db.rows) := by
    refine ⟨fun e he => ?_, C16_al_sorted ho h hn⟩
    obtain ⟨r, hr, rfl⟩ := List.mem_map.1 he
    exact hn r hr
  have htw := Twin.self hs hF hF.ids_nodup
  have key : ∀ (ops : List Op) (db : DB) (s : STree), Wf cfg db → AbsS cfg db s → (∀ n, Distinct cfg.orderBy (s.run cfg.orderBy (ops.take n))) →
      Wf cfg (runOps cfg db ops) ∧ AbsS cfg (runOps cfg db ops) (s.run cfg.orderBy ops) := by
    intro ops
    induction ops with
    | nil => intro db s h ha _; exact ⟨h, ha⟩
    | cons op ops ih =>
      intro db s h ha hd
      exact ih _ _ (step_wf_ordered ho h op) (step_simS ho h (hd 0) (hd 1) ha) (fun n => hd (n + 1))
  suffices hg : ∀ n, Distinct cfg.orderBy (STree.run cfg.orderBy ⟨data db.rows, forest cfg db⟩ ((handOps (forest cfg db (some a)) a t pos).take n)) by
    obtain ⟨k1, k2⟩ := key _ db ⟨data db.rows, forest cfg db⟩ h ⟨rfl, rfl⟩ hg
    obtain ⟨r1, r2⟩ := STree.run_handOps hs hF.ids_nodup hpos hh rfl
    rw [← hdb] at k1 k2
    exact ⟨k1, by rw [k2.forest]; exact r1, by rw [k2.data]; exact r2⟩
  · intro n
    have hr := htw.run (ops := (handOps (forest cfg db (some a)) a t pos).take n) (fun op hop => handOps_noNulls _ _ _ _ op (List.mem_of_mem_take hop))
    have hsub := run_handOps_data (ob := cfg.orderBy) ⟨data db.rows, forest cfg db⟩ (forest cfg db (some a)) a t pos n
    have hv : ∀ q, ∀ x ∈ (STree.run cfg.orderBy ⟨data db.rows, forest cfg db⟩ ((handOps (forest cfg db (some a)) a t pos).take n)).F q,
        ∃ r ∈ db.rows, r.pk = x ∧ valsIn (STree.run cfg.orderBy ⟨data db.rows, forest cfg db⟩ ((handOps (forest cfg db (some a)) a t pos).take n)).data x = r.vals := by
      intro q x hx
      obtain ⟨⟨k, v⟩, he, rfl⟩ := List.mem_map.1 (hr.inside q x hx)
      obtain ⟨r, hr', e⟩ := List.mem_map.1 (hsub.subset he)
      cases e
      exact ⟨r, hr', rfl, valsIn_mem hr.keys he⟩
    intro q x hx y hy hne
    obtain ⟨r, hr1, rfl, e1⟩ := hv q x hx
    obtain ⟨s, hs1, rfl, e2⟩ := hv q y hy
    rw [e1, e2]
    exact hd r hr1 s hs1 hne

/-- **C93 for AL, merging** (partial: when the rows differ in their order fields; the order of equal siblings is the database's choice). -/
theorem C93_al_merge_partial (ho : cfg.ordered = true) (h : Wf cfg db) (hn : ∀ r ∈ db.rows, NonNull cfg.orderBy r.vals) (hu : RowsDistinct cfg db) {a b : Nat}
    (ha : a ∈ (data db.rows).map Prod.fst) (hb : b ∈ (data db.rows).map Prod.fst) (hne : a ≠ b) (hd : ¬ (forest cfg db).Desc a b) {db' : DB}
    (hdb : db' = runOps cfg db (handOps (forest cfg db (some a)) a b .sortedChild)) :
    Wf cfg db' ∧ HandedSorted cfg.orderBy (forest cfg db) (forest cfg db') (data db.rows) (data db'.rows) a (some b) :=
  handed_partial ho h hn hu (Or.inr rfl) (handsOver_merge (isForestOn h.ai) ha hb hne hd) hdb

/-- **C93 for AL, dissolving** (partial likewise) -/
theorem C93_al_dissolve_partial (ho : cfg.ordered = true) (h : Wf cfg db) (hn : ∀ r ∈ db.rows, NonNull cfg.orderBy r.vals) (hu : RowsDistinct cfg db) {a : Nat}
    {p : Option Nat} (ha : a ∈ forest cfg db p) {db' : DB} (hdb : db' = runOps cfg db (handOps (forest cfg db (some a)) a a .sortedSibling)) :
    Wf cfg db' ∧ HandedSorted cfg.orderBy (forest cfg db) (forest cfg db') (data db.rows) (data db'.rows) a p :=
  handed_partial ho h hn hu (Or.inl rfl) (handsOver_dissolve (isForestOn h.ai) ha) hdb

/-- the root 1 with the children 2, 3 and 4 is dissolved -/
example : Wf exSorted exSDB ∧ RowsDistinct exSorted exSDB ∧ forest exSorted exSDB none = [5, 1] ∧ forest exSorted exSDB (some 1) = [2, 3, 4] ∧
    forest exSorted (runOps exSorted exSDB (handOps [2, 3, 4] 1 1 .sortedSibling)) none = [2, 5, 3, 4] :=
  ⟨wf_of_ai exSDB_inv.toAI, by unfold RowsDistinct; simp only [← keyLtB_iff]; decide, by decide, by decide, by decide⟩

end AL

namespace LT

variable {cfg : Cfg} {db : DB}

theorem handed_partial (ho : cfg.ordered = true) (h : Consistent db) (hs : SortedTree cfg db) {a t : Nat} {pos : Pos} {d : Option Nat}
    (hpos : pos = .sortedSibling ∨ pos = .sortedChild) (hh : HandsOver (forest db) ((data db.rows).map Prod.fst) a t (lastPos pos) d)
    (hl : ∀ p, (forest db p).length + (forest db (some a)).length ≤ 700) {db' : DB} (hdb : db' = runOps cfg db (handOps (forest db (some a)) a t pos)) :
    Consistent db' ∧ ((forest db).handedOver a d).Near (forest db') ∧ ∀ k, k ∈ db'.rows.map Row.pk ↔ k ∈ db.rows.map Row.pk ∧ k ≠ a := by
  have hF := hh.forest
  have key : ∀ (ops : List Op) (db : DB) (s : STree), Consistent db → AbsNear db s.ids s.F → (∀ n p, ((s.run cfg.orderBy (ops.take n)).F p).length < 702) →
      Consistent (runOps cfg db ops) ∧ AbsNear (runOps cfg db ops) (s.run cfg.orderBy ops).ids (s.run cfg.orderBy ops).F := by
    intro ops
    induction ops with
    | nil => intro db s h ha _; exact ⟨h, ha⟩
    | cons op ops ih =>
      intro db s h ha hg
      exact ih _ _ (step_consistent h op) (step_nearS ho h op ha (hg 0)) (fun n => hg (n + 1))
  suffices hg : ∀ n p, ((STree.run cfg.orderBy ⟨data db.rows, forest db⟩ ((handOps (forest db (some a)) a t pos).take n)).F p).length < 702 by
    obtain ⟨k1, k2⟩ := key (handOps (forest db (some a)) a t pos) db ⟨data db.rows, forest db⟩ h ⟨.refl _, fun k => by rw [STree.ids, keys_eq]⟩ hg
    obtain ⟨r1, r2⟩ := STree.run_handOps hs hF.ids_nodup hpos hh rfl
    rw [← hdb] at k1 k2
    refine ⟨k1, fun q => (k2.forest q).trans (r1 q).1, fun k => ?_⟩
    rw [k2.ids, STree.ids, r2, ← keys_eq]
    simp only [List.mem_map, List.mem_filter, decide_eq_true_eq]
    constructor
    · rintro ⟨e, ⟨he, hne⟩, rfl⟩; exact ⟨⟨e, he, rfl⟩, hne⟩
    · rintro ⟨⟨e, he, rfl⟩, hne⟩; exact ⟨e, ⟨he, hne⟩, rfl⟩
  · intro n p
    have h1 := STree.run_length cfg.orderBy ⟨data db.rows, forest db⟩ ((handOps (forest db (some a)) a t pos).take n) p
    have h2 : ((handOps (forest db (some a)) a t pos).take n).length ≤ (forest db (some a)).length + 1 := by
      rw [List.length_take]
      unfold handOps
      simp
    have h3 := hl p
    simp only at h1
    omega

/-- **C93 for LT, merging** (partial: nodes and parents only, and with at most 700 siblings; the order fails, C16_lt_fails). -/
theorem C93_lt_merge_partial (ho : cfg.ordered = true) (h : Consistent db) (hs : SortedTree cfg db) {a b : Nat} (ha : a ∈ db.rows.map Row.pk) (hb : b ∈ db.rows.map Row.pk)
    (hne : a ≠ b) (hd : ¬ (forest db).Desc a b) (hl : ∀ p, (forest db p).length + (forest db (some a)).length ≤ 700) {db' : DB}
    (hdb : db' = runOps cfg db (handOps (forest db (some a)) a b .sortedChild)) :
    Consistent db' ∧ ((forest db).handedOver a (some b)).Near (forest db') ∧ ∀ k, k ∈ db'.rows.map Row.pk ↔ k ∈ db.rows.map Row.pk ∧ k ≠ a := by
  rw [← keys_eq] at ha hb
  exact handed_partial ho h hs (Or.inr rfl) (handsOver_merge (isForestOn h) ha hb hne hd) hl hdb

/-- **C93 for LT, dissolving** (partial likewise) -/
theorem C93_lt_dissolve_partial (ho : cfg.ordered = true) (h : Consistent db) (hs : SortedTree cfg db) {a : Nat} {p : Option Nat} (ha : a ∈ forest db p)
    (hl : ∀ p, (forest db p).length + (forest db (some a)).length ≤ 700) {db' : DB} (hdb : db' = runOps cfg db (handOps (forest db (some a)) a a .sortedSibling)) :
    Consistent db' ∧ ((forest db).handedOver a p).Near (forest db') ∧ ∀ k, k ∈ db'.rows.map Row.pk ↔ k ∈ db.rows.map Row.pk ∧ k ≠ a :=
  handed_partial ho h hs (Or.inl rfl) (handsOver_dissolve (isForestOn h) ha) hl hdb

example : Consistent exSDB ∧ SortedTree exSorted exSDB ∧ 1 ∈ forest exSDB none ∧ forest exSDB (some 1) = [2, 3, 4] ∧
    forest (runOps exSorted exSDB (handOps [2, 3, 4] 1 1 .sortedSibling)) none = [2, 3, 4] :=
  ⟨consistent_iff.2 exSDB_inv, exSDB_sorted, by decide, by decide, by decide⟩

/-- **C93 fails for LT**: the child 2 (value 10) of 1 goes to 3, whose only child 4 (value 7) has the second label; it takes the first one. -/
theorem C93_lt_fails : ∃ db a b, Consistent db ∧ SortedTree exSorted db ∧ a ∈ db.rows.map Row.pk ∧ b ∈ db.rows.map Row.pk ∧ a ≠ b ∧ ¬ (forest db).Desc a b ∧
    ¬ SortedTree exSorted (runOps exSorted db (handOps (forest db (some a)) a b .sortedChild)) := by
  have hc : Consistent ⟨[⟨1, [[65]], [some 1]⟩, ⟨2, [[65], [65]], [some 10]⟩, ⟨3, [[66]], [some 2]⟩, ⟨4, [[66], [66]], [some 7]⟩], []⟩ :=
    consistent_iff.2 (inv_of_check (by decide))
  refine ⟨⟨[⟨1, [[65]], [some 1]⟩, ⟨2, [[65], [65]], [some 10]⟩, ⟨3, [[66]], [some 2]⟩, ⟨4, [[66], [66]], [some 7]⟩], []⟩, 1, 3, hc, ?_, by decide, by decide, by decide, ?_, ?_⟩
  · refine ⟨?_, sortedBy_of_keys [1, 2, 3, 4] (fun k hk => forest_nil hk) (by decide)⟩
    intro e he f hf
    simp only [exSorted, List.mem_cons, List.not_mem_nil, or_false] at hf
    simp only [data, List.map_cons, List.map_nil, List.mem_cons, List.not_mem_nil, or_false] at he
    rcases he with rfl | rfl | rfl | rfl <;> subst hf <;> exact ⟨_, rfl⟩
  · intro hd
    rw [forest_eq hc.inv.inv, desc_PF hc.inv.inv (a := ⟨1, [[65]], [some 1]⟩) (d := ⟨3, [[66]], [some 2]⟩) (by decide) (by decide)] at hd
    exact absurd hd.1 (by decide)
  · intro hs
    exact absurd (hs.sorted (some 3)) (by decide)

end LT

end Verif
