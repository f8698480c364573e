/-
C89: nodes sorted anew among their siblings.
-/
import Verif.ResortModel
import Verif.ResortLemmas
import Verif.Props.SortedMoveAny
import Verif.Props.Arrange
import Verif.Props.MPHistorySorted
import Verif.NearForest
import Verif.Props.LTForm

namespace Verif

theorem Forest.IsForestOn.groups {F : Forest} {ids : List Nat} (h : F.IsForestOn ids) : Groups F :=
  ⟨h.kids_nodup, fun p q x hp hq => h.good.one p q x hp hq⟩

theorem Forest.IsForestOn.self_allowed {F : Forest} {ids : List Nat} (h : F.IsForestOn ids) (x : Nat) : ¬ F.MoveRefused x x .sortedSibling := by
  rintro (h' | ⟨h', _⟩)
  · exact h.irrefl _ h'
  · cases h'

theorem nonNull_keys {F : Forest} {D : List (Nat × Vals)} {ob : List (Nat × Bool)} (h : F.IsForestOn (D.map Prod.fst)) (hn : (D.map Prod.fst).Nodup) (hnn : ∀ e ∈ D, NonNull ob e.2) :
    ∀ p, ∀ k ∈ F p, NonNull ob (valsIn D k) := by
  intro p k hk
  obtain ⟨e, he, rfl⟩ := List.mem_map.1 (h.good.sub p k hk)
  rw [valsIn_mem hn (show (e.1, e.2) ∈ D from he)]
  exact hnn e he

/-- a listing of all nodes, the greater ones first -/
theorem Forest.Descending.of_all {ob : List (Nat × Bool)} {v : Nat → Vals} {ks : List Nat} {F : Forest} (h : ks.Pairwise (fun a b => ¬ keyLt ob (v a) (v b))) (hall : ∀ p, ∀ k ∈ F p, k ∈ ks) :
    Forest.Descending ob v ks F :=
  ⟨fun _ _ _ _ _ hab => List.pairwise_iff_forall_sublist.1 h hab, fun p _ k hk => hall p k hk⟩

/-- what is known when `x` comes next -/
theorem Forest.Descending.next {ob : List (Nat × Bool)} {v : Nat → Vals} {done rest : List Nat} {x : Nat} {F : Forest} (h : Forest.Descending ob v (done ++ x :: rest) F) {p : Option Nat}
    (hx : x ∈ F p) : ∀ a ∈ F p, a ∉ done → ¬ keyLt ob (v x) (v a) := by
  intro a ha had
  have := h.whole p ⟨x, hx, by simp⟩ a ha
  rcases List.mem_append.1 this with h1 | h1
  · exact absurd h1 had
  · rcases List.mem_cons.1 h1 with rfl | h1
    · exact keyLt_irrefl _
    · exact h.order p x hx a ha ((List.Sublist.cons_cons x (List.singleton_sublist.2 h1)).trans (List.sublist_append_right _ _))

/-- when greater siblings have been moved before, those greater than `x` are at the end, in order -/
theorem not_outOfOrder {ob : List (Nat × Bool)} {v : Nat → Vals} {done : List Nat} {x : Nat} {F G : Forest} {p : Option Nat} (hob : ob ≠ []) (hs : Sorting ob v done F G) (hw : Waiting done G)
    (hg : Groups G) (hn : ∀ k ∈ G p, NonNull ob (v k)) (hx : x ∈ G p) (hd : ∀ a ∈ G p, a ∉ done → ¬ keyLt ob (v x) (v a)) : ¬ OutOfOrder ob v (v x) (G.remove x p) := by
  rintro ⟨l₁, a, b, l₂, e, h1, h2⟩
  have hsub : [a, b].Sublist (G p) := by
    have : [a, b].Sublist (G.remove x p) := by
      rw [e]
      exact (List.Sublist.cons_cons a (List.Sublist.cons_cons b (List.nil_sublist _))).trans (List.sublist_append_right _ _)
    exact this.trans List.filter_sublist
  have ha : a ∈ G p := hsub.subset (by simp)
  have hb : b ∈ G p := hsub.subset (by simp)
  rw [behind_nonNull hob (hn x hx)] at h1 h2
  have had : a ∈ done := by
    by_contra hc
    exact hd a ha hc h1
  refine pair_sublist_asymm (hg.nodup p) hsub ?_
  by_cases hbd : b ∈ done
  · exact hs.order p b hb a ha hbd (Or.inl (keyLt_of_le_of_lt (hn b hb) (hn x hx) (hn a ha) h2 h1))
  · exact hw p b hb a ha hbd had

/-- a node put at the end of its group -/
theorem near_last {F : Forest} (hg : Groups F) {x : Nat} {p : Option Nat} (hx : x ∈ F p) : F.Near (F.move x p .last) := by
  intro q
  by_cases hq : q = p
  · subst hq
    rw [move_here]
    refine (Forest.ins_perm (s := .last) (l := (F q).filter (· ≠ x)) trivial x).trans ?_
    have := List.perm_cons_erase hx
    rw [(hg.nodup q).erase_eq_filter] at this
    rw [List.filter_congr (p := (· ≠ x)) (q := (· != x)) (fun a _ => by by_cases e : a = x <;> simp [e])]
    exact this.symm
  · rw [move_other hg hx hq]

/-! ### MP -/

namespace MP

variable {cfg : Cfg} {db : DB}

/-- What the loop leaves behind: a consistent table with the same data, in which some of the nodes, from the first one on, are sorted; these are all of them, or the next one could not move
because the last position below its parent is taken. -/
structure ResortOut (cfg : Cfg) (db : DB) (ks : List Nat) (out : DB × Option Err) : Prop where
  consistent : Consistent cfg out.1
  data : data out.1.rows = data db.rows
  sorted : ∃ done rest, ks = done ++ rest ∧ Forest.Resorted cfg.orderBy (valsOf db) done (forest cfg db) (forest cfg out.1) ∧
    match rest with
    | [] => out.2 = none
    | x :: _ => out.2 = some .pathOverflow ∧ ∃ p, x ∈ forest cfg out.1 p ∧ LastTaken cfg out.1 p

theorem resort_from (hok : cfg.Ok) (ho : cfg.ordered = true) {db₀ : DB} (h₀ : Consistent cfg db₀) (hnn : AllNonNull cfg db₀) : ∀ {rest done : List Nat} {db : DB}, Consistent cfg db →
    data db.rows = data db₀.rows → (done ++ rest).Nodup → (∀ k ∈ rest, k ∈ db₀.rows.map Row.pk) →
    Forest.Descending cfg.orderBy (valsOf db₀) (done ++ rest) (forest cfg db₀) → Sorting cfg.orderBy (valsOf db₀) done (forest cfg db₀) (forest cfg db) → Waiting done (forest cfg db) →
    ResortOut cfg db₀ (done ++ rest) (resort cfg rest db) := by
  have hob : cfg.orderBy ≠ [] := ordered_ne ho
  have hF := isForestOn_forest hok h₀
  have hkeys : ∀ rows : List Row, (data rows).map Prod.fst = rows.map Row.pk := fun rows => by
    unfold MP.data; rw [List.map_map]; rfl
  have hnd₀ : ((data db₀.rows).map Prod.fst).Nodup := by rw [hkeys]; exact h₀.pks
  have hn : ∀ p, ∀ k ∈ forest cfg db₀ p, NonNull cfg.orderBy (valsOf db₀ k) := by
    rw [valsOf_eq]
    refine nonNull_keys (by rw [hkeys]; exact hF) hnd₀ ?_
    intro e he
    obtain ⟨r, hr, rfl⟩ := List.mem_map.1 he
    exact hnn r hr
  intro rest
  induction rest with
  | nil =>
    intro done db h hd _ _ _ hs _
    rw [List.append_nil]
    exact ⟨h, hd, done, [], by simp, hs.resorted hF.groups, rfl⟩
  | cons k rest ih =>
    intro done db h hd hnd hst hdesc hs hw
    have hi := (consistent_iff hok).1 h
    have hv : valsOf db = valsOf db₀ := by rw [valsOf_eq, valsOf_eq, hd]
    have hk : k ∈ db.rows.map Row.pk := by
      rw [← hkeys, hd, hkeys]
      exact hst k (by simp)
    obtain ⟨x, hx, rfl⟩ := List.mem_map.1 hk
    have hG := isForestOn_forest hok h
    have hgG := hG.groups
    have hkd : x.pk ∉ done := fun hm => (List.nodup_append.1 hnd).2.2 x.pk hm x.pk (by simp) rfl
    have hget : db.get? x.pk = some x := (get?_eq_some hi.inv).2 ⟨hx, rfl⟩
    have hxv : x.vals = valsOf db₀ x.pk := by rw [← hv]; exact (valsOf_row hi.inv hx).symm
    obtain ⟨p, hxp, hmove⟩ := C60_mp_move_partial hok h ho hx hx (posArg := some .sortedSibling) (pos := .sortedSibling) rfl (hG.self_allowed x.pk)
    have hdest : Pos.dest p x.pk .sortedSibling = p := rfl
    rw [hdest] at hmove
    have hxF : x.pk ∈ forest cfg db₀ p := (hs.same p).mem_iff.1 hxp
    have hnG : ∀ k ∈ forest cfg db p, NonNull cfg.orderBy (valsOf db₀ k) := fun k hk => hn p k ((hs.same p).mem_iff.1 hk)
    have hmax : ∀ a ∈ forest cfg db p, a ∉ done → ¬ keyLt cfg.orderBy (valsOf db₀ x.pk) (valsOf db₀ a) :=
      fun a ha had => hdesc.next hxF a ((hs.same p).mem_iff.1 ha) had
    have hfits : AnyFits cfg db x p := by
      rintro ⟨z, hz, hb⟩
      exfalso
      have hzG : z ∈ forest cfg db p := List.Sublist.subset hz (by simp)
      rw [hxv, hv, behind_nonNull hob (hnG _ hxp)] at hb
      have hzd : z ∈ done := by
        by_contra hc
        exact hmax z hzG hc hb
      exact pair_sublist_asymm (hgG.nodup p) hz (hw p x.pk hxp z hzG hkd hzd)
    have hres : resort cfg (x.pk :: rest) db = match move cfg db x x (some .sortedSibling) with
      | .error e => (db, some e)
      | .ok res => resort cfg rest res.db := by
      rw [resort]
      simp only [hget]
      cases move cfg db x x (some .sortedSibling) <;> rfl
    rw [hres]
    rcases hmove hfits with ⟨res, s, e, hm, hfb⟩ | ⟨e, hlast⟩ | ⟨e, hout⟩
    · rw [e]
      simp only
      rw [hxv, hv] at hfb
      obtain ⟨hs', hset⟩ := hs.step hF.groups hob hn hxp hkd hfb
      have hw' := hw.step hgG hset hxp hmax
      have := ih (done := done ++ [x.pk]) (db := res.db) hm.consistent (hm.data.trans hd) (by simpa using hnd) (fun k hk => hst k (by simp [hk])) (by simpa using hdesc)
        (by rw [hm.forest]; exact hs') (by rw [hm.forest]; exact hw')
      simpa using this
    · rw [e]
      exact ⟨h, hd, done, x.pk :: rest, rfl, hs.resorted hF.groups, rfl, p, hxp, hlast⟩
    · exfalso
      rw [hxv, hv] at hout
      exact not_outOfOrder hob hs hw hgG hnG hxp hmax hout

/-- **C89 for MP** (partial: greater siblings first; in another order IntegrityError is possible, see `C89_mp_order`). -/
theorem C89_mp_partial (hok : cfg.Ok) (h : Consistent cfg db) (ho : cfg.ordered = true) (hnn : AllNonNull cfg db) {ks : List Nat} (hnd : ks.Nodup) (hst : ∀ k ∈ ks, k ∈ db.rows.map Row.pk)
    (hdesc : Forest.Descending cfg.orderBy (valsOf db) ks (forest cfg db)) : ResortOut cfg db ks (resort cfg ks db) :=
  resort_from hok ho h hnn (rest := ks) (done := []) h rfl hnd hst hdesc (.nil _) (.nil _)

/-- **C89 for MP, the whole tree**: all nodes, the greater ones first; the tree is sorted if there is room. -/
theorem C89_mp_tree (hok : cfg.Ok) (h : Consistent cfg db) (ho : cfg.ordered = true) (hnn : AllNonNull cfg db) {ks : List Nat} (hks : ks.Perm (db.rows.map Row.pk))
    (hdesc : ks.Pairwise (fun a b => ¬ keyLt cfg.orderBy (valsOf db a) (valsOf db b))) (he : (resort cfg ks db).2 = none) : SortedTree cfg (resort cfg ks db).1 := by
  have hF := isForestOn_forest hok h
  have hall : ∀ p, ∀ k ∈ forest cfg db p, k ∈ ks := fun p k hk => hks.mem_iff.2 (hF.good.sub p k hk)
  have hout := C89_mp_partial hok h ho hnn (hks.nodup_iff.2 h.pks) (fun k hk => hks.mem_iff.1 hk) (.of_all hdesc hall)
  obtain ⟨done, rest, e, hr, hend⟩ := hout.sorted
  have hv : valsOf (resort cfg ks db).1 = valsOf db := by rw [valsOf_eq, valsOf_eq, hout.data]
  refine ⟨?_, ?_⟩
  · intro r hr'
    have : (r.pk, r.vals) ∈ MP.data db.rows := by
      rw [← hout.data]
      exact List.mem_map.2 ⟨r, hr', rfl⟩
    obtain ⟨q, hq, e⟩ := List.mem_map.1 this
    simp only [Prod.mk.injEq] at e
    rw [← e.2]
    exact hnn q hq
  · rw [hv]
    cases rest with
    | nil =>
      rw [List.append_nil] at e
      subst e
      exact hr.sortedBy hall
    | cons x rest =>
      rw [hend.1] at he
      cases he

/-- Some of the roots were edited: their values are 5, 1, 3 and 5, and 5 has two children with the values 2 and 1. -/
def resortDB : DB := { rows := [⟨1, [49], 1, 0, [some 5]⟩, ⟨2, [50], 1, 0, [some 1]⟩, ⟨3, [52], 1, 0, [some 3]⟩, ⟨4, [53], 1, 2, [some 5]⟩, ⟨5, [53, 49], 2, 0, [some 2]⟩,
  ⟨6, [53, 50], 2, 0, [some 1]⟩] }

theorem resortDB_consistent : Consistent exAny resortDB := ⟨by decide, by decide, by intro p; cases p <;> decide, by decide, by decide⟩

theorem exAny_ok : exAny.Ok := ⟨by decide, by decide, by decide⟩

/-- hypotheses and result: the whole table, and two groups -/
example : let ks := [4, 1, 3, 5, 2, 6]
    exAny.ordered = true ∧ AllNonNull exAny resortDB ∧ ks.Nodup ∧ (∀ k ∈ ks, k ∈ resortDB.rows.map Row.pk) ∧
    Forest.Descending exAny.orderBy (valsOf resortDB) ks (forest exAny resortDB) ∧ (resort exAny ks resortDB).2 = none ∧
    forest exAny resortDB none = [1, 2, 3, 4] ∧ forest exAny (resort exAny ks resortDB).1 none = [2, 3, 4, 1] ∧ forest exAny (resort exAny ks resortDB).1 (some 4) = [6, 5] := by
  refine ⟨rfl, ?_, by decide, by decide, .of_all (by decide +kernel) ?_, by decide +kernel, by decide +kernel, by decide +kernel, by decide +kernel⟩
  · intro r hr e he
    simp only [resortDB, List.mem_cons, List.not_mem_nil, or_false] at hr
    simp only [exAny, List.mem_cons, List.not_mem_nil, or_false] at he
    rcases hr with rfl | rfl | rfl | rfl | rfl | rfl <;> subst he <;> exact ⟨_, rfl⟩
  · intro p k hk
    have := (isForestOn_forest exAny_ok resortDB_consistent).good.sub p k hk
    revert this
    have : ∀ k ∈ resortDB.rows.map Row.pk, k ∈ [4, 1, 3, 5, 2, 6] := by decide
    exact this k

/-- **C89 is false for MP in another order**: the last root but one comes first, and the move ends with IntegrityError. -/
theorem C89_mp_order : Consistent exAny resortDB ∧ resort exAny [3, 4, 1, 2] resortDB = (resortDB, some .integrity) := ⟨resortDB_consistent, by decide +kernel⟩

/-- **C89 is false for MP in another order**: the second of two roots comes first, there is no room for its temporary place, and it becomes a child of the other one. -/
theorem C89_mp_corrupts : ∃ db, exAny.Ok ∧ Consistent exAny db ∧ AllNonNull exAny db ∧ forest exAny db none = [1, 2] ∧ (resort exAny [2, 1] db).2 = none ∧
    ¬ Consistent exAny (resort exAny [2, 1] db).1 ∧ forest exAny (resort exAny [2, 1] db).1 none = [1] := by
  refine ⟨{ rows := [⟨1, [49], 1, 0, [some 5]⟩, ⟨2, [57], 1, 0, [some 1]⟩] }, exAny_ok, ⟨by decide, by decide, by intro p; cases p <;> decide, by decide, by decide⟩, ?_, by decide,
    by decide +kernel, ?_, by decide +kernel⟩
  · intro r hr e he
    simp only [List.mem_cons, List.not_mem_nil, or_false] at hr
    simp only [exAny, List.mem_cons, List.not_mem_nil, or_false] at he
    rcases hr with rfl | rfl <;> subst he <;> exact ⟨_, rfl⟩
  · rintro ⟨_, _, h3, _, _⟩
    exact absurd (h3 .wrongNumchild) (by decide +kernel)

end MP

/-! ### NS -/

namespace NS

variable {cfg : Cfg} {db : DB}

theorem resort_from (ho : cfg.ordered = true) {db₀ : DB} (h₀ : Consistent db₀) (hnn : ∀ r ∈ db₀.rows, NonNull cfg.orderBy r.vals) : ∀ {rest done : List Nat} {db : DB}, Consistent db →
    data db.rows = data db₀.rows → (done ++ rest).Nodup → (∀ k ∈ rest, k ∈ db₀.rows.map Row.pk) →
    Sorting cfg.orderBy (valsIn (data db₀.rows)) done (forest db₀) (forest db) →
    ∃ db', resort cfg rest db = (db', none) ∧ Consistent db' ∧ data db'.rows = data db₀.rows ∧
      Forest.Resorted cfg.orderBy (valsIn (data db₀.rows)) (done ++ rest) (forest db₀) (forest db') := by
  have hob : cfg.orderBy ≠ [] := by
    intro e
    simp [Cfg.ordered, e] at ho
  have hF := isForestOn h₀
  have hn : ∀ p, ∀ k ∈ forest db₀ p, NonNull cfg.orderBy (valsIn (data db₀.rows) k) := by
    refine nonNull_keys hF (keys_nodup h₀) ?_
    intro e he
    obtain ⟨r, hr, rfl⟩ := List.mem_map.1 he
    exact hnn r hr
  intro rest
  induction rest with
  | nil =>
    intro done db h hd _ _ hs
    exact ⟨db, rfl, h, hd, by rw [List.append_nil]; exact hs.resorted hF.groups⟩
  | cons k rest ih =>
    intro done db h hd hnd hst hs
    have hk : k ∈ db.rows.map Row.pk := by
      rw [← keys_eq, hd, keys_eq]
      exact hst k (by simp)
    obtain ⟨x, hx, rfl⟩ := List.mem_map.1 hk
    have hkd : x.pk ∉ done := fun hm => (List.nodup_append.1 hnd).2.2 x.pk hm x.pk (by simp) rfl
    have hget : db.get? x.pk = some x := (get?_eq_some h.toNI).2 ⟨hx, rfl⟩
    have hxv : x.vals = valsIn (data db₀.rows) x.pk := by
      rw [← hd]
      exact (valsIn_mem (keys_nodup h) (List.mem_map.2 ⟨x, hx, rfl⟩)).symm
    obtain ⟨p, hxp, res, s, e, hm, hfb⟩ := C60_ns_move h ho hx hx (cached := none) (posArg := some .sortedSibling) (pos := .sortedSibling) rfl ((isForestOn h).self_allowed x.pk)
    have hdest : Pos.dest p x.pk .sortedSibling = p := rfl
    rw [hdest] at hm hfb
    have hres : resort cfg (x.pk :: rest) db = resort cfg rest res.db := by
      simp only [resort, hget, e]
    rw [hres]
    rw [hxv, hd] at hfb
    obtain ⟨hs', _⟩ := hs.step hF.groups hob hn hxp hkd hfb
    have := ih (done := done ++ [x.pk]) (db := res.db) hm.consistent (hm.data.trans hd) (by simpa using hnd) (fun k hk => hst k (by simp [hk])) (by rw [hm.forest]; exact hs')
    simpa using this

/-- **C89 for NS**: in any order. -/
theorem C89_ns (h : Consistent db) (ho : cfg.ordered = true) (hnn : ∀ r ∈ db.rows, NonNull cfg.orderBy r.vals) {ks : List Nat} (hnd : ks.Nodup) (hst : ∀ k ∈ ks, k ∈ db.rows.map Row.pk) :
    ∃ db', resort cfg ks db = (db', none) ∧ Consistent db' ∧ data db'.rows = data db.rows ∧
      Forest.Resorted cfg.orderBy (valsIn (data db.rows)) ks (forest db) (forest db') :=
  resort_from ho h hnn (rest := ks) (done := []) h rfl hnd hst (.nil _)

/-- **C89 for NS, the whole tree** -/
theorem C89_ns_tree (h : Consistent db) (ho : cfg.ordered = true) (hnn : ∀ r ∈ db.rows, NonNull cfg.orderBy r.vals) {ks : List Nat} (hks : ks.Perm (db.rows.map Row.pk)) :
    (resort cfg ks db).2 = none ∧ SortedTree cfg (resort cfg ks db).1 := by
  obtain ⟨db', e, _, hd, hr⟩ := C89_ns h ho hnn (hks.nodup_iff.2 h.pks) (fun k hk => hks.mem_iff.1 hk)
  rw [e]
  have hF := isForestOn h
  rw [keys_eq] at hF
  refine ⟨rfl, ⟨?_, ?_⟩⟩
  · show ∀ e ∈ data db'.rows, _
    rw [hd]
    intro e he
    obtain ⟨r, hr, rfl⟩ := List.mem_map.1 he
    exact hnn r hr
  · show Forest.SortedBy _ _ (valsIn (data db'.rows))
    rw [hd]
    exact hr.sortedBy (fun p k hk => hks.mem_iff.2 (hF.good.sub p k hk))

/-- hypotheses and result: the roots 1, 2, 3 with the values 5, 1, 3 and two children of 1 with equal values; the order of the keys is that of the equal ones -/
example : let db : DB := { rows := [⟨1, 1, 1, 6, 1, [some 5]⟩, ⟨4, 1, 2, 3, 2, [some 7]⟩, ⟨5, 1, 4, 5, 2, [some 7]⟩, ⟨2, 2, 1, 2, 1, [some 1]⟩, ⟨3, 3, 1, 2, 1, [some 3]⟩] }
    Consistent db ∧ exSorted.ordered = true ∧ (∀ r ∈ db.rows, NonNull exSorted.orderBy r.vals) ∧ forest db none = [1, 2, 3] ∧
    (resort exSorted [3, 5, 1, 4, 2] db).2 = none ∧ forest (resort exSorted [3, 5, 1, 4, 2] db).1 none = [2, 3, 1] ∧ forest (resort exSorted [3, 5, 1, 4, 2] db).1 (some 1) = [5, 4] := by
  refine ⟨by
    refine ⟨⟨by decide, by decide, by decide, by decide, by decide, by decide, by decide, by decide⟩, ?_⟩
    intro r hr
    refine full_of_range 6 ?_ ?_
    · revert r; decide
    · revert r; decide, rfl, ?_, by decide, by decide +kernel, by decide +kernel, by decide +kernel⟩
  intro r hr e he
  simp only [List.mem_cons, List.not_mem_nil, or_false] at hr
  simp only [exSorted, List.mem_cons, List.not_mem_nil, or_false] at he
  rcases hr with rfl | rfl | rfl | rfl | rfl <;> subst he <;> exact ⟨_, rfl⟩

end NS

/-! ### AL -/

namespace AL

variable {cfg : Cfg} {db : DB}

/-- **C89 for AL**: the order is not stored; the loop changes nothing, and the tree is sorted. -/
theorem C89_al (h : Wf cfg db) (ho : cfg.ordered = true) {ks : List Nat} (hst : ∀ k ∈ ks, k ∈ db.rows.map Row.pk) :
    resort cfg ks db = (db, none) ∧ ((∀ r ∈ db.rows, NonNull cfg.orderBy r.vals) → (forest cfg db).SortedBy cfg.orderBy (valsIn (data db.rows))) := by
  refine ⟨?_, C16_al_sorted ho h⟩
  induction ks with
  | nil => rfl
  | cons k ks ih =>
    obtain ⟨x, hx, rfl⟩ := List.mem_map.1 (hst k (by simp))
    have hget : db.get? x.pk = some x := (get?_eq_some h.ai).2 ⟨hx, rfl⟩
    obtain ⟨p, hxp, db', obj, e, _, hrows, _⟩ := C60_al_move ho h hx hx (cached := none) (posArg := some .sortedSibling) (pos := .sortedSibling) rfl
      ((isForestOn (cfg := cfg) h.ai).self_allowed x.pk)
    have hdest : Pos.dest p x.pk .sortedSibling = p := rfl
    have hpar : x.parent = p := (mem_forest h.ai hx).1 hxp
    have hdb : db' = db := by
      have : db'.rows = db.rows := by
        rw [hrows, hdest, ← hpar]
        conv_rhs => rw [← List.map_id' db.rows]
        refine List.map_congr_left (fun r hr => ?_)
        split
        · rename_i e
          rw [h.ai.pk_inj hr hx e]
        · rfl
      cases db; cases db'; simp only at this; rw [this]
    simp only [resort, hget, e, hdb]
    exact ih (fun k hk => hst k (by simp [hk]))

/-- hypotheses and result -/
example : let db : DB := { rows := [⟨1, none, 0, [some 5]⟩, ⟨2, none, 0, [some 1]⟩, ⟨3, some 1, 0, [some 3]⟩] }
    exSorted.ordered = true ∧ forest exSorted db none = [2, 1] ∧ resort exSorted [1, 3, 2] db = (db, none) := by decide

end AL

/-! ### LT -/

namespace LT

variable {cfg : Cfg} {db : DB}

/-- **C89 for LT** (partial: parents and data only; that the siblings are not sorted is shown by `C89_lt_unsorts` and `C89_lt_descending`). -/
theorem C89_lt_partial (h : Consistent db) (ho : cfg.ordered = true) {ks : List Nat} (hst : ∀ k ∈ ks, k ∈ db.rows.map Row.pk) :
    ∃ db' err, resort cfg ks db = (db', err) ∧ Consistent db' ∧ data db'.rows = data db.rows ∧ (∀ p, (forest db' p).Perm (forest db p)) ∧
      (err = none ∨ (err = some .valueError ∧ ∃ p, Full db' p)) := by
  induction ks generalizing db with
  | nil => exact ⟨db, none, rfl, h, rfl, fun _ => .refl _, Or.inl rfl⟩
  | cons k ks ih =>
    obtain ⟨x, hx, rfl⟩ := List.mem_map.1 (hst k (by simp))
    have hi := h.inv.inv
    have hget : db.get? x.pk = some x := (get?_eq_some hi).2 ⟨hx, rfl⟩
    have hF := isForestOn h
    have hg := hF.groups
    obtain ⟨p, hxp⟩ : ∃ p, x.pk ∈ forest db p := ⟨_, (mem_forest hi hx).2 rfl⟩
    have hdest : Pos.dest p x.pk .sortedSibling = p := rfl
    have key : ∀ {db' : DB}, Consistent db' → data db'.rows = data db.rows → (∀ q, (forest db' q).Perm (forest db q)) →
        ∃ db'' err, resort cfg ks db' = (db'', err) ∧ Consistent db'' ∧ data db''.rows = data db.rows ∧ (∀ p, (forest db'' p).Perm (forest db p)) ∧
          (err = none ∨ (err = some .valueError ∧ ∃ p, Full db'' p)) := by
      intro db' hc hd hp
      obtain ⟨db'', err, e, hc', hd', hp', herr⟩ := ih hc (fun k hk => by
        rw [← keys_eq, hd, keys_eq]
        exact hst k (by simp [hk]))
      exact ⟨db'', err, e, hc', hd'.trans hd, fun p => (hp' p).trans (hp p), herr⟩
    rcases sortedMove_near ho h hx hx (pos := .sortedSibling) rfl (hF.self_allowed x.pk) hxp with ⟨db', obj, s, e, hm⟩ | ⟨e, hu⟩
    · rw [hdest] at hm
      have hres : resort cfg (x.pk :: ks) db = resort cfg ks db' := by
        rw [resort, hget]
        simp only [e]
      rw [hres]
      exact key hm.consistent hm.data ((near_last hg hxp).trans ((Forest.Near.refl _).moved hm.near (s' := .last) trivial))
    · have hres : resort cfg (x.pk :: ks) db = (db, some .valueError) := by
        rw [resort, hget]
        simp only [e]
      rw [hres]
      exact ⟨db, _, rfl, h, rfl, fun _ => .refl _, Or.inr ⟨rfl, _, hu⟩⟩

/-- **C89 is false for LT**: the roots are sorted, and not any more after every one of them has been moved to its sorted place. -/
theorem C89_lt_unsorts : let db : DB := { rows := [⟨1, [[65]], [some 1]⟩, ⟨2, [[66]], [some 2]⟩, ⟨3, [[67]], [some 3]⟩] }
    Consistent db ∧ SortedTree exSorted db ∧ (resort exSorted [1, 2, 3] db).2 = none ∧ forest (resort exSorted [1, 2, 3] db).1 none = [3, 1, 2] := by
  intro db
  have hc : Consistent db := consistent_iff.2 (inv_of_check (by decide))
  refine ⟨hc, ⟨by
    intro e he f hf
    simp only [db, LT.data, List.map_cons, List.map_nil, List.mem_cons, List.not_mem_nil, or_false] at he
    simp only [exSorted, List.mem_cons, List.not_mem_nil, or_false] at hf
    rcases he with rfl | rfl | rfl <;> subst hf <;> exact ⟨_, rfl⟩, ?_⟩, by decide +kernel, by decide +kernel⟩
  intro p
  cases p with
  | none => decide
  | some q =>
    have hF := (isForestOn hc)
    have : forest db (some q) = [] := by
      rw [List.eq_nil_iff_forall_not_mem]
      intro k hk
      have h1 := hF.good.sub _ k hk
      have h2 : ∀ k ∈ (data db.rows).map Prod.fst, k ∈ forest db none := by decide
      cases hF.groups.unique _ _ k hk (h2 k h1)
    rw [this]
    exact .nil

/-- **C89 is false for LT with the greater siblings first**: the roots 1 to 7 have the values 7 to 1, and are not sorted after every one of them, the greatest first, has been moved to its
sorted place. -/
theorem C89_lt_descending : ∃ db, Consistent db ∧ (∀ r ∈ db.rows, r.vals = [some (8 - (r.pk : Int))]) ∧ (resort exSorted [1, 2, 3, 4, 5, 6, 7] db).2 = none ∧
    forest (resort exSorted [1, 2, 3, 4, 5, 6, 7] db).1 none = [7, 5, 4, 6, 3, 2, 1] := by
  refine ⟨{ rows := [⟨1, [[50]], [some 7]⟩, ⟨2, [[66, 48]], [some 6]⟩, ⟨3, [[90, 90]], [some 5]⟩, ⟨4, [[65, 48]], [some 4]⟩, ⟨5, [[49, 48]], [some 3]⟩, ⟨6, [[66, 49]], [some 2]⟩,
    ⟨7, [[49]], [some 1]⟩] }, consistent_iff.2 (inv_of_check (by decide +kernel)), by decide, by decide +kernel, by decide +kernel⟩

end LT

end Verif
