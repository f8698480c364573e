/-
C100: of several moves of a node only the last one counts.
-/
import Verif.WanderModel
import Verif.Props.Undo
import Verif.Props.CutSorted
import Verif.MP.Growth

namespace Verif

namespace Forest

variable {F G : Forest} {x t : Nat} {ids ids' : List Nat}

theorem desc_iff_of_remove (hF : F.IsForestOn ids) (hG : G.IsForestOn ids') (hg : G.remove x = F.remove x) {d : Nat} : G.Desc x d ↔ F.Desc x d :=
  ⟨desc_of_remove hG hg, desc_of_remove hF hg.symm⟩

theorem refused_iff_of_remove (hF : F.IsForestOn ids) (hG : G.IsForestOn ids') (hg : G.remove x = F.remove x) {pos : Pos} : G.MoveRefused x t pos ↔ F.MoveRefused x t pos :=
  or_congr (desc_iff_of_remove hF hG hg) Iff.rfl

/-- another node has kept its parent -/
theorem parent_of_remove (hF : F.IsForestOn ids) (hg : G.remove x = F.remove x) (hne : t ≠ x) {p p' : Option Nat} (hp : t ∈ F p) (hp' : t ∈ G p') : p' = p := by
  have : t ∈ G.remove x p' := List.mem_filter.2 ⟨hp', by simpa using hne⟩
  rw [hg] at this
  exact hF.good.one _ _ _ (List.mem_filter.1 this).1 hp

theorem moveAsked_of_remove (hg : G.remove x = F.remove x) (hne : t ≠ x) (p : Option Nat) {pos : Pos} (hpos : IsPlainPos pos) : G.moveAsked x p t pos = F.moveAsked x p t pos := by
  rcases hpos with (rfl | rfl | rfl | rfl) | rfl | rfl <;> unfold moveAsked <;> (try unfold sibMove) <;> (try simp only [if_neg hne]) <;> simp only [move_of_remove hg]

end Forest

theorem plain_of_prep {posArg : Option Pos} {pos : Pos} (h : preparePosForMove false posArg = .ok pos) : IsPlainPos pos ∧ (posArg = some pos ∨ (posArg = none ∧ pos = .lastSibling)) := by
  unfold IsPlainPos IsSibPos
  cases posArg with
  | none => cases h; simp
  | some q => cases q <;> first | (cases h; simp) | cases h

section
variable {σ ρ : Type} {get : σ → Nat → Option ρ} {mv : σ → ρ → ρ → Option Pos → Except Err (σ × ρ)}

/-- what every step keeps is kept; `n` is the number of steps to come -/
theorem wander_keeps {I : Nat → σ → ρ → Prop} : ∀ (l : List (Nat × Option Pos)) {n : Nat} {s : σ} {x : ρ} {s' : σ} {x' : ρ},
    (∀ n s x k t pos s' x', (k, pos) ∈ l → I (n + 1) s x → get s k = some t → mv s x t pos = .ok (s', x') → I n s' x') →
    I (l.length + n) s x → wander get mv l s x = .ok (s', x') → I n s' x'
  | [], n, s, x, s', x', _, hI, h => by cases h; simpa using hI
  | (k, pos) :: l, n, s, x, s', x', hstep, hI, h => by
    unfold wander at h
    split at h
    · cases h
    · rename_i t ht
      split at h
      · cases h
      · rename_i s1 x1 hm
        refine wander_keeps l (fun n s x k t pos s' x' hk => hstep n s x k t pos s' x' (by simp [hk])) (hstep _ _ _ _ _ _ _ _ (by simp) ?_ ht hm) h
        have e : ((k, pos) :: l).length + n = l.length + n + 1 := by simp; omega
        rw [← e]; exact hI

/-- the last step -/
theorem wander_last {k : Nat} {pos : Option Pos} : ∀ (l : List (Nat × Option Pos)) {s : σ} {x : ρ} {r : σ × ρ}, wander get mv (l ++ [(k, pos)]) s x = .ok r →
    ∃ s1 x1 t, wander get mv l s x = .ok (s1, x1) ∧ get s1 k = some t ∧ mv s1 x1 t pos = .ok r
  | [], s, x, r, h => by
    simp only [List.nil_append, wander] at h
    split at h
    · cases h
    · rename_i t ht
      split at h
      · cases h
      · rename_i s1 x1 hm
        cases h
        exact ⟨s, x, t, rfl, ht, hm⟩
  | (k', pos') :: l, s, x, r, h => by
    simp only [List.cons_append, wander] at h ⊢
    split at h
    · cases h
    · rename_i t ht
      split at h
      · cases h
      · rename_i s1 x1 hm
        exact wander_last l h

end

namespace NS

variable {cfg : Cfg} {db : DB}

/-- what the moves of `x` leave as it was -/
structure Roamed (db : DB) (x : Row) (db' : DB) (x' : Row) : Prop where
  consistent : Consistent db'
  rest : (forest db').remove x.pk = (forest db).remove x.pk
  data : data db'.rows = data db.rows
  obj : x' ∈ db'.rows ∧ x'.pk = x.pk

theorem Roamed.refl (h : Consistent db) {x : Row} (hx : x ∈ db.rows) : Roamed db x db x := ⟨h, rfl, rfl, hx, rfl⟩

theorem move_prep {x t : Row} {cached : Option Row} {posArg : Option Pos} {res : MoveResult} (h : move cfg db x t cached posArg = .ok res) : ∃ pos, preparePosForMove cfg.ordered posArg = .ok pos := by
  unfold move at h
  split at h
  · cases h
  · exact ⟨_, by assumption⟩

theorem move_not_refused (h : Consistent db) {x t : Row} (hx : x ∈ db.rows) (ht : t ∈ db.rows) {cached : Option Row} {posArg : Option Pos} {pos : Pos} (hpos : preparePosForMove cfg.ordered posArg = .ok pos)
    {res : MoveResult} (e : move cfg db x t cached posArg = .ok res) : ¬ (forest db).MoveRefused x.pk t.pk pos := by
  intro hr
  rw [C08_ns h hx ht hpos hr] at e
  cases e

theorem wander_roamed (h : Consistent db) (ho : cfg.ordered = false) {x : Row} (hx : x ∈ db.rows) {l : List (Nat × Option Pos)} {db' : DB} {x' : Row} (e : wander cfg l db x = .ok (db', x')) :
    Roamed db x db' x' := by
  refine wander_keeps (I := fun _ s y => Roamed db x s y) l (n := 0) ?_ (.refl h hx) e
  intro _ s y k t posArg s' y' _ hI hg hm
  cases hmv : move cfg s y t none posArg with
  | error e => simp only [hmv] at hm; cases hm
  | ok res =>
    simp only [hmv] at hm
    cases hm
    have ht := ((get?_eq_some hI.consistent.toNI).1 hg).1
    obtain ⟨pos, hpos⟩ := move_prep hmv
    have hr := move_not_refused hI.consistent hI.obj.1 ht hpos hmv
    rw [ho] at hpos
    obtain ⟨p, hp, res', e', hm'⟩ := C23_move hI.consistent ho hI.obj.1 ht (cacheOk_none _ _) hpos hr
    rw [hmv, Except.ok.injEq] at e'
    subst e'
    refine ⟨hm'.consistent, ?_, hm'.data.trans hI.data, hm'.node.1, hm'.node.2.trans hI.obj.2⟩
    rw [hm'.forest, hI.obj.2, Forest.remove_moveAsked, hI.rest]

theorem Roamed.target {x x1 : Row} {db1 : DB} (hR : Roamed db x db1 x1) {k : Nat} {t1 : Row} (ht : db1.get? k = some t1) : t1 ∈ db1.rows ∧ t1.pk = k ∧ ∃ t ∈ db.rows, t.pk = k := by
  obtain ⟨h1, h2⟩ := (get?_eq_some hR.consistent.toNI).1 ht
  refine ⟨h1, h2, ?_⟩
  have : k ∈ (NS.data db1.rows).map Prod.fst := by rw [keys_eq]; exact List.mem_map.2 ⟨t1, h1, h2⟩
  rw [hR.data, keys_eq] at this
  obtain ⟨t, h3, h4⟩ := List.mem_map.1 this
  exact ⟨t, h3, h4⟩

/-- **C100 for NS, unsorted.** -/
theorem C100_ns (h : Consistent db) (ho : cfg.ordered = false) {x : Row} (hx : x ∈ db.rows) {l : List (Nat × Option Pos)} {k : Nat} (hk : k ≠ x.pk) {posArg : Option Pos} {db' : DB} {x' : Row}
    (e : wander cfg (l ++ [(k, posArg)]) db x = .ok (db', x')) :
    ∃ t ∈ db.rows, t.pk = k ∧ ∃ res, move cfg db x t none posArg = .ok res ∧ Consistent db' ∧ Consistent res.db ∧ forest res.db = forest db' ∧ data res.db.rows = data db'.rows := by
  obtain ⟨db1, x1, t1, e1, ht1, hm⟩ := wander_last l e
  have hR := wander_roamed h ho hx e1
  obtain ⟨h1, hk1, t, ht, hkt⟩ := hR.target ht1
  cases hmv : move cfg db1 x1 t1 none posArg with
  | error e => simp only [hmv] at hm; cases hm
  | ok res1 =>
    simp only [hmv] at hm
    cases hm
    obtain ⟨pos, hpos⟩ := move_prep hmv
    have hr1 := move_not_refused hR.consistent hR.obj.1 h1 hpos hmv
    rw [ho] at hpos
    have hF := isForestOn h
    have hG := isForestOn hR.consistent
    have hr : ¬ (forest db).MoveRefused x.pk t.pk pos := by
      rw [hkt, ← Forest.refused_iff_of_remove hF hG hR.rest, ← hk1, ← hR.obj.2]
      exact hr1
    obtain ⟨p1, hp1, res', e', hm1⟩ := C23_move hR.consistent ho hR.obj.1 h1 (cacheOk_none _ _) hpos hr1
    rw [hmv, Except.ok.injEq] at e'
    subst e'
    obtain ⟨p, hp, res, e0, hm0⟩ := C23_move h ho hx ht (cacheOk_none _ _) hpos hr
    refine ⟨t, ht, hkt, res, e0, hm1.consistent, hm0.consistent, ?_, by rw [hm0.data, ← hR.data, ← hm1.data]⟩
    rw [hkt] at hp
    rw [hk1] at hp1
    obtain rfl := Forest.parent_of_remove hF hR.rest hk hp hp1
    rw [hm0.forest, hm1.forest, hkt, hk1, hR.obj.2, Forest.moveAsked_of_remove hR.rest hk _ (plain_of_prep hpos).1]

/-- the moves of a sorted tree -/
theorem wander_roamed_sorted (h : Consistent db) (ho : cfg.ordered = true) {x : Row} (hx : x ∈ db.rows) (hnn : ∀ e ∈ data db.rows, NonNull cfg.orderBy e.2)
    (hs : ((forest db).remove x.pk).SortedBy cfg.orderBy (valsIn (data db.rows))) {l : List (Nat × Option Pos)} {db' : DB} {x' : Row} (e : wander cfg l db x = .ok (db', x')) :
    Roamed db x db' x' := by
  refine wander_keeps (I := fun _ s y => Roamed db x s y) l (n := 0) ?_ (.refl h hx) e
  intro _ s y k t posArg s' y' _ hI hg hm
  cases hmv : move cfg s y t none posArg with
  | error e => simp only [hmv] at hm; cases hm
  | ok res =>
    simp only [hmv] at hm
    cases hm
    have ht := ((get?_eq_some hI.consistent.toNI).1 hg).1
    obtain ⟨pos, hpos⟩ := move_prep hmv
    have hr := move_not_refused hI.consistent hI.obj.1 ht hpos hmv
    rw [ho] at hpos
    obtain ⟨p, hp, res', s0, e', hm', -, -⟩ := C16_ns_move hI.consistent ho hI.obj.1 ht (by rw [hI.data]; exact hnn) (by rw [hI.obj.2, hI.rest, hI.data]; exact hs) (cached := none) hpos hr
    rw [hmv, Except.ok.injEq] at e'
    subst e'
    refine ⟨hm'.consistent, ?_, hm'.data.trans hI.data, hm'.node.1, hm'.node.2.trans hI.obj.2⟩
    rw [hm'.forest, hI.obj.2, Forest.remove_move, hI.rest]

/-- **C100 for NS, sorted.** -/
theorem C100_ns_sorted (h : Consistent db) (ho : cfg.ordered = true) {x : Row} (hx : x ∈ db.rows) (hnn : ∀ e ∈ data db.rows, NonNull cfg.orderBy e.2)
    (hs : ((forest db).remove x.pk).SortedBy cfg.orderBy (valsIn (data db.rows))) {l : List (Nat × Option Pos)} {k : Nat} (hk : k ≠ x.pk) {posArg : Option Pos} {db' : DB} {x' : Row}
    (e : wander cfg (l ++ [(k, posArg)]) db x = .ok (db', x')) :
    ∃ t ∈ db.rows, t.pk = k ∧ ∃ res, move cfg db x t none posArg = .ok res ∧ Consistent db' ∧ Consistent res.db ∧ SortedTree cfg db' ∧ forest res.db = forest db' ∧
      data res.db.rows = data db'.rows := by
  obtain ⟨db1, x1, t1, e1, ht1, hm⟩ := wander_last l e
  have hR := wander_roamed_sorted h ho hx hnn hs e1
  obtain ⟨h1, hk1, t, ht, hkt⟩ := hR.target ht1
  cases hmv : move cfg db1 x1 t1 none posArg with
  | error e => simp only [hmv] at hm; cases hm
  | ok res1 =>
    simp only [hmv] at hm
    cases hm
    obtain ⟨pos, hpos⟩ := move_prep hmv
    have hr1 := move_not_refused hR.consistent hR.obj.1 h1 hpos hmv
    rw [ho] at hpos
    have hF := isForestOn h
    have hG := isForestOn hR.consistent
    have hr : ¬ (forest db).MoveRefused x.pk t.pk pos := by
      rw [hkt, ← Forest.refused_iff_of_remove hF hG hR.rest, ← hk1, ← hR.obj.2]
      exact hr1
    obtain ⟨p1, hp1, res', s1, e', hm1, hsd, hat1⟩ := C16_ns_move hR.consistent ho hR.obj.1 h1 (by rw [hR.data]; exact hnn) (by rw [hR.obj.2, hR.rest, hR.data]; exact hs) (cached := none) hpos hr1
    rw [hmv, Except.ok.injEq] at e'
    subst e'
    obtain ⟨p, hp, res, s0, e0, hm0, -, hat0⟩ := C16_ns_move h ho hx ht hnn hs (cached := none) hpos hr
    refine ⟨t, ht, hkt, res, e0, hm1.consistent, hm0.consistent, hsd, ?_, by rw [hm0.data, ← hR.data, ← hm1.data]⟩
    rw [hkt] at hp
    rw [hk1] at hp1
    obtain rfl := Forest.parent_of_remove hF hR.rest hk hp hp1
    have f0 := hm0.forest
    have f1 := hm1.forest
    have n0 := (isForestOn hm0.consistent).kids_nodup (pos.dest p1 k)
    have n1 := (isForestOn hm1.consistent).kids_nodup (pos.dest p1 k)
    rw [hkt] at f0 hat0
    rw [hk1, hR.obj.2, Forest.move_of_remove hR.rest] at f1
    rw [hk1, hR.obj.2, hm1.data, hR.data] at hat1
    rw [hm0.data] at hat0
    rw [f0] at hat0 n0 ⊢
    rw [f1] at hat1 n1 ⊢
    exact (movedSorted_of n0 hat0).unique (movedSorted_of n1 hat1)

/-- 3 goes below 2, to the left of 1, and below 6; or below 6 at once -/
example : Consistent loopDB ∧ ((wander ⟨[]⟩ [(2, some .firstChild), (1, some .left), (6, some .lastChild)] loopDB ⟨3, 1, 6, 11, 2, []⟩).toOption.map (fun a =>
      (forest a.1 none, forest a.1 (some 1), forest a.1 (some 6), forest a.1 (some 3)))) = some ([1], [2, 6], [3], [4, 5]) ∧
    ((loopDB.get? 6).bind (fun t => (move ⟨[]⟩ loopDB ⟨3, 1, 6, 11, 2, []⟩ t none (some .lastChild)).toOption.map (fun a =>
      (forest a.db none, forest a.db (some 1), forest a.db (some 6), forest a.db (some 3))))) = some ([1], [2, 6], [3], [4, 5]) :=
  ⟨loopDB_inv, by decide +kernel, by decide +kernel⟩

/-- 2 goes among the roots, below 4, and behind its smaller siblings below 1; or there at once -/
example : Consistent exSDB ∧ SortedData exSorted.orderBy (forest exSDB) (data exSDB.rows) ∧
    ((wander exSorted [(1, none), (4, some .sortedChild), (3, some .sortedSibling)] exSDB ⟨2, 1, 2, 3, 2, [some 1]⟩).toOption.map (fun a =>
      (forest a.1 none, forest a.1 (some 1)))) = some ([1], [2, 3, 4]) ∧
    ((exSDB.get? 3).bind (fun t => (move exSorted exSDB ⟨2, 1, 2, 3, 2, [some 1]⟩ t none (some .sortedSibling)).toOption.map (fun a =>
      (forest a.db none, forest a.db (some 1))))) = some ([1], [2, 3, 4]) :=
  ⟨exSDB_inv, exSDB_sorted, by decide +kernel, by decide +kernel⟩

end NS

namespace AL

variable {cfg : Cfg} {db : DB}

theorem move_prep {x t : Row} {cached : Option Int} {posArg : Option Pos} {r : DB × Row} (h : move cfg db x t cached posArg = .ok r) : ∃ pos, preparePosForMove cfg.ordered posArg = .ok pos := by
  unfold move at h
  split at h
  · cases h
  · exact ⟨_, by assumption⟩

theorem move_not_refused (h : Wf cfg db) {x t : Row} (hx : x ∈ db.rows) {cached : Option Int} {posArg : Option Pos} {pos : Pos} (hpos : preparePosForMove cfg.ordered posArg = .ok pos)
    {r : DB × Row} (e : move cfg db x t cached posArg = .ok r) : ¬ (forest cfg db).MoveRefused x.pk t.pk pos := by
  intro hr
  rw [C08_al h hx hpos hr] at e
  cases e

theorem keys_of_data (rows : List Row) : (data rows).map Prod.fst = rows.map Row.pk := by unfold data; rw [List.map_map]; rfl

/-- what the moves of `x` leave as it was -/
structure Roamed (cfg : Cfg) (db : DB) (x : Row) (db' : DB) (x' : Row) : Prop where
  consistent : Consistent cfg db'
  rest : (forest cfg db').remove x.pk = (forest cfg db).remove x.pk
  data : data db'.rows = data db.rows
  obj : x' ∈ db'.rows ∧ x'.pk = x.pk

theorem wander_roamed (h : Consistent cfg db) (ho : cfg.ordered = false) {x : Row} (hx : x ∈ db.rows) {l : List (Nat × Option Pos)} {db' : DB} {x' : Row}
    (e : wander cfg l db x = .ok (db', x')) : Roamed cfg db x db' x' := by
  refine wander_keeps (I := fun _ s y => Roamed cfg db x s y) l (n := 0) ?_ ⟨h, rfl, rfl, hx, rfl⟩ e
  intro _ s y k t posArg s' y' _ hI hg hm
  have ht := ((get?_eq_some hI.consistent.toWf.ai).1 hg).1
  obtain ⟨pos, hpos⟩ := move_prep hm
  have hr := move_not_refused hI.consistent.toWf hI.obj.1 hpos hm
  rw [ho] at hpos
  obtain ⟨p, hp, db2, obj2, e', hm'⟩ := C31_move ho hI.consistent hI.obj.1 ht (cached := none) hpos hr
  rw [hm, Except.ok.injEq, Prod.mk.injEq] at e'
  obtain ⟨rfl, rfl⟩ := e'
  refine ⟨hm'.consistent, ?_, hm'.data.trans hI.data, hm'.obj.1, hm'.obj.2.trans hI.obj.2⟩
  rw [hm'.forest, hI.obj.2, Forest.remove_moveAsked, hI.rest]

/-- **C100 for AL, unsorted.** -/
theorem C100_al (h : Consistent cfg db) (ho : cfg.ordered = false) {x : Row} (hx : x ∈ db.rows) {l : List (Nat × Option Pos)} {k : Nat} (hk : k ≠ x.pk) {posArg : Option Pos} {db' : DB} {x' : Row}
    (e : wander cfg (l ++ [(k, posArg)]) db x = .ok (db', x')) :
    ∃ t ∈ db.rows, t.pk = k ∧ ∃ db2 obj, move cfg db x t none posArg = .ok (db2, obj) ∧ Consistent cfg db' ∧ Consistent cfg db2 ∧ forest cfg db2 = forest cfg db' ∧
      data db2.rows = data db'.rows := by
  obtain ⟨db1, x1, t1, e1, ht1, hmv⟩ := wander_last l e
  have hR := wander_roamed h ho hx e1
  obtain ⟨h1, hk1⟩ := (get?_eq_some hR.consistent.toWf.ai).1 ht1
  have hmem : k ∈ db.rows.map Row.pk := by
    rw [← keys_of_data, ← hR.data, keys_of_data]
    exact List.mem_map.2 ⟨t1, h1, hk1⟩
  obtain ⟨t, ht, hkt⟩ := List.mem_map.1 hmem
  obtain ⟨pos, hpos⟩ := move_prep hmv
  have hr1 := move_not_refused hR.consistent.toWf hR.obj.1 hpos hmv
  rw [ho] at hpos
  have hF := isForestOn (cfg := cfg) h.toWf.ai
  have hG := isForestOn (cfg := cfg) hR.consistent.toWf.ai
  have hr : ¬ (forest cfg db).MoveRefused x.pk t.pk pos := by
    rw [hkt, ← Forest.refused_iff_of_remove hF hG hR.rest, ← hk1, ← hR.obj.2]
    exact hr1
  obtain ⟨p1, hp1, _, _, e', hm1⟩ := C31_move ho hR.consistent hR.obj.1 h1 (cached := none) hpos hr1
  rw [hmv, Except.ok.injEq, Prod.mk.injEq] at e'
  obtain ⟨rfl, rfl⟩ := e'
  obtain ⟨p, hp, db2, obj, e0, hm0⟩ := C31_move ho h hx ht (cached := none) hpos hr
  refine ⟨t, ht, hkt, db2, obj, e0, hm1.consistent, hm0.consistent, ?_, by rw [hm0.data, ← hR.data, ← hm1.data]⟩
  rw [hkt] at hp
  rw [hk1] at hp1
  obtain rfl := Forest.parent_of_remove hF hR.rest hk hp hp1
  rw [hm0.forest, hm1.forest, hkt, hk1, hR.obj.2, Forest.moveAsked_of_remove hR.rest hk _ (plain_of_prep hpos).1]

/-- 2 goes to the right of 5, below 5, and to the left of 1; or to the left of 1 at once -/
example : Consistent exPlain exDB ∧ ((wander exPlain [(5, some .right), (5, some .lastChild), (1, some .left)] exDB ⟨2, some 1, 1, []⟩).toOption.map (fun a =>
      (forest exPlain a.1 none, forest exPlain a.1 (some 1), forest exPlain a.1 (some 5)))) = some ([2, 1, 5], [3], []) ∧
    ((exDB.get? 1).bind (fun t => (move exPlain exDB ⟨2, some 1, 1, []⟩ t none (some .left)).toOption.map (fun a =>
      (forest exPlain a.1 none, forest exPlain a.1 (some 1), forest exPlain a.1 (some 5))))) = some ([2, 1, 5], [3], []) :=
  ⟨consistent_of_inv rfl exDB_inv, by decide +kernel, by decide +kernel⟩

/-- what the moves of `x` in a sorted tree do: nothing but to set its parent -/
theorem wander_sorted (h : Wf cfg db) (ho : cfg.ordered = true) {x : Row} (hx : x ∈ db.rows) {l : List (Nat × Option Pos)} {db' : DB} {x' : Row}
    (e : wander cfg l db x = .ok (db', x')) : Wf cfg db' ∧ x' ∈ db'.rows ∧ ∃ p, x' = { x with parent := p } ∧ db'.rows = db.rows.map (fun r => if r.pk = x.pk then x' else r) := by
  refine wander_keeps (I := fun _ (s : DB) y => Wf cfg s ∧ y ∈ s.rows ∧ ∃ p, y = { x with parent := p } ∧ s.rows = db.rows.map (fun r => if r.pk = x.pk then y else r)) l (n := 0) ?_
    ⟨h, hx, x.parent, rfl, ?_⟩ e
  swap
  · refine (List.map_id _).symm.trans (List.map_congr_left fun r hr => ?_)
    split
    · rename_i hk
      exact List.inj_on_of_nodup_map h.pks hr hx hk
    · rfl
  intro _ s y k t posArg s' y' _ ⟨hw, hy, p, hyx, hrows⟩ hg hm
  have ht := ((get?_eq_some hw.ai).1 hg).1
  obtain ⟨pos, hpos⟩ := move_prep hm
  have hr := move_not_refused hw hy hpos hm
  rw [ho] at hpos
  obtain ⟨p', -, db2, obj2, e', hm'⟩ := C16_al_move_partial ho hw hy ht (cached := none) hpos hr
  rw [hm, Except.ok.injEq, Prod.mk.injEq] at e'
  obtain ⟨rfl, rfl⟩ := e'
  refine ⟨hm'.wf, hm'.obj.2, pos.dest p' t.pk, by rw [hm'.obj.1, hyx], ?_⟩
  rw [hm'.rows, hrows, List.map_map, hm'.obj.1]
  refine List.map_congr_left fun r _ => ?_
  have hk : y.pk = x.pk := by rw [hyx]
  simp only [Function.comp_apply, hk]
  by_cases hr : r.pk = x.pk
  · simp [hr, hk]
  · simp [hr]

/-- **C100 for AL, sorted**: the very same rows are stored. -/
theorem C100_al_sorted (h : Wf cfg db) (ho : cfg.ordered = true) {x : Row} (hx : x ∈ db.rows) {l : List (Nat × Option Pos)} {k : Nat} (hk : k ≠ x.pk) {posArg : Option Pos} {db' : DB} {x' : Row}
    (e : wander cfg (l ++ [(k, posArg)]) db x = .ok (db', x')) :
    ∃ t ∈ db.rows, t.pk = k ∧ ∃ db2, move cfg db x t none posArg = .ok (db2, x') ∧ Wf cfg db' ∧ db2.rows = db'.rows := by
  obtain ⟨db1, x1, t1, e1, ht1, hmv⟩ := wander_last l e
  obtain ⟨hw, hx1, q, hxx, hrows⟩ := wander_sorted h ho hx e1
  have hkx : x1.pk = x.pk := by rw [hxx]
  obtain ⟨h1, hk1⟩ := (get?_eq_some hw.ai).1 ht1
  -- the target is as it was
  have ht : t1 ∈ db.rows := by
    rw [hrows] at h1
    obtain ⟨r, hr, er⟩ := List.mem_map.1 h1
    split at er
    · exact absurd (hk1.symm.trans ((congrArg Row.pk er).symm.trans hkx)) hk
    · exact er ▸ hr
  obtain ⟨pos, hpos⟩ := move_prep hmv
  have hr1 := move_not_refused hw hx1 hpos hmv
  rw [ho] at hpos
  -- below `x` nothing has changed
  have hdesc : ∀ d, (forest cfg db).Desc x.pk d → (forest cfg db1).Desc x.pk d := by
    have hirr := (isForestOn (cfg := cfg) h.ai).irrefl x.pk
    have hsub : ∀ m d, (forest cfg db).Desc x.pk d → d ∈ forest cfg db (some m) → d ∈ forest cfg db1 (some m) := by
      intro m d hd hm
      have hdm : d ∈ db.rows.map Row.pk := by
        rw [← keys_of_data]
        exact (isForestOn (cfg := cfg) h.ai).good.sub _ _ hm
      obtain ⟨r, hr, rfl⟩ := List.mem_map.1 hdm
      have hne : r.pk ≠ x.pk := fun hh => hirr (hh ▸ hd)
      have hr' : r ∈ db1.rows := by rw [hrows]; exact List.mem_map.2 ⟨r, hr, if_neg hne⟩
      exact (mem_forest hw.ai hr').2 ((mem_forest h.ai hr).1 hm)
    intro d hd
    induction hd with
    | child hc => exact .child (hsub _ _ (.child hc) hc)
    | step h1 h2 ih => exact .step ih (hsub _ _ (.step h1 h2) h2)
  have hr : ¬ (forest cfg db).MoveRefused x.pk t1.pk pos := by
    rintro (hd | hc)
    · exact hr1 (Or.inl (hkx ▸ hdesc _ hd))
    · exact hr1 (Or.inr (hkx.symm ▸ hc))
  obtain ⟨p1, hp1, _, _, e', hm1⟩ := C16_al_move_partial ho hw hx1 h1 (cached := none) hpos hr1
  rw [hmv, Except.ok.injEq, Prod.mk.injEq] at e'
  obtain ⟨rfl, rfl⟩ := e'
  obtain ⟨p, hp, db2, obj, e0, hm0⟩ := C16_al_move_partial ho h hx ht (cached := none) hpos hr
  have hpp : p = p1 := ((mem_forest h.ai ht).1 hp).symm.trans ((mem_forest hw.ai h1).1 hp1)
  subst hpp
  have hobj : obj = x' := by rw [hm0.obj.1, hm1.obj.1, hxx]
  subst hobj
  refine ⟨t1, ht, hk1, db2, e0, hm1.wf, ?_⟩
  rw [hm0.rows, hm1.rows, hrows, List.map_map]
  refine List.map_congr_left fun r _ => ?_
  simp only [Function.comp_apply, hkx]
  by_cases hr : r.pk = x.pk
  · simp [hr, hxx]
  · simp [hr]

/-- 2 goes among the roots, below 4, and below 5; or there at once -/
example : Wf exSorted exSDB ∧ ((wander exSorted [(5, none), (4, some .sortedChild), (5, some .sortedChild)] exSDB ⟨2, some 1, 0, [some 1]⟩).toOption.map (fun a => a.1.rows)) =
    ((exSDB.get? 5).bind (fun t => (move exSorted exSDB ⟨2, some 1, 0, [some 1]⟩ t none (some .sortedChild)).toOption.map (fun a => a.1.rows))) ∧
    ((exSDB.get? 5).bind (fun t => (move exSorted exSDB ⟨2, some 1, 0, [some 1]⟩ t none (some .sortedChild)).toOption.map (fun a => forest exSorted a.1 (some 5)))) = some [2] :=
  ⟨wf_of_ai exSDB_inv.toAI, by decide +kernel, by decide +kernel⟩

end AL

namespace MP

variable {cfg : Cfg} {db : DB}

theorem move_prep {x t : Row} {posArg : Option Pos} {r : MoveResult} (h : move cfg db x t posArg = .ok r) : ∃ pos, preparePosForMove cfg.ordered posArg = .ok pos := by
  unfold move at h
  split at h
  · cases h
  · exact ⟨_, by assumption⟩

theorem move_not_refused (hok : cfg.Ok) (h : Consistent cfg db) {x t : Row} (hx : x ∈ db.rows) (ht : t ∈ db.rows) {posArg : Option Pos} {pos : Pos}
    (hpos : preparePosForMove cfg.ordered posArg = .ok pos) {r : MoveResult} (e : move cfg db x t posArg = .ok r) : ¬ (forest cfg db).MoveRefused x.pk t.pk pos := by
  intro hr
  rw [C08_mp hok h hx ht hpos hr] at e
  cases e

/-- where there is room for two more positions everywhere -/
theorem moveFits_of_posIn {M : Nat} (hM : M + 2 < cfg.cap) (hp : PosIn cfg M db) (x : Nat) (p : Option Nat) (t : Nat) (pos : Pos) : MoveFits cfg db x p t pos := by
  intro _ _ r hr _ n e
  have := hp r hr n e
  unfold Cfg.cap at hM
  omega

/-- what the moves of `x` leave as it was -/
structure Roamed (cfg : Cfg) (db : DB) (x : Row) (db' : DB) (x' : Row) : Prop where
  consistent : Consistent cfg db'
  rest : (forest cfg db').remove x.pk = (forest cfg db).remove x.pk
  data : data db'.rows = data db.rows
  obj : x' ∈ db'.rows ∧ x'.pk = x.pk

theorem Roamed.target (hok : cfg.Ok) {x x1 : Row} {db1 : DB} (hR : Roamed cfg db x db1 x1) {k : Nat} {t1 : Row} (ht : db1.get? k = some t1) :
    t1 ∈ db1.rows ∧ t1.pk = k ∧ ∃ t ∈ db.rows, t.pk = k := by
  obtain ⟨h1, h2⟩ := (get?_eq_some ((consistent_iff hok).1 hR.consistent).inv).1 ht
  refine ⟨h1, h2, ?_⟩
  have hkeys : db1.rows.map Row.pk = db.rows.map Row.pk := by
    have := congrArg (List.map Prod.fst) hR.data
    simpa [MP.data, List.map_map, Function.comp_def] using this
  have : k ∈ db1.rows.map Row.pk := List.mem_map.2 ⟨t1, h1, h2⟩
  rw [hkeys] at this
  obtain ⟨t, h3, h4⟩ := List.mem_map.1 this
  exact ⟨t, h3, h4⟩

theorem wander_roamed (hok : cfg.Ok) (h : Consistent cfg db) (ho : cfg.ordered = false) {x : Row} (hx : x ∈ db.rows) {l : List (Nat × Option Pos)} {n M : Nat}
    (hM : M + l.length + n + 2 < cfg.cap) (hpos : PosIn cfg M db) {db' : DB} {x' : Row} (e : wander cfg l db x = .ok (db', x')) :
    Roamed cfg db x db' x' ∧ ∃ M', M' + n + 2 < cfg.cap ∧ PosIn cfg M' db' := by
  refine wander_keeps (I := fun n s y => Roamed cfg db x s y ∧ ∃ M', M' + n + 2 < cfg.cap ∧ PosIn cfg M' s) l (n := n) ?_ ⟨⟨h, rfl, rfl, hx, rfl⟩, M, by omega, hpos⟩ e
  intro n s y k t posArg s' y' _ ⟨hI, M', hM', hp'⟩ hg hm
  cases hmv : move cfg s y t posArg with
  | error e => simp only [hmv] at hm; cases hm
  | ok res =>
    simp only [hmv] at hm
    cases hm
    have ht := (hI.target hok hg).1
    obtain ⟨pos, hpos⟩ := move_prep hmv
    have hr := move_not_refused hok hI.consistent hI.obj.1 ht hpos hmv
    rw [ho] at hpos
    obtain ⟨hpl, harg⟩ := Verif.plain_of_prep hpos
    obtain ⟨p, hp, hm⟩ := C07_move_partial hok hI.consistent ho hI.obj.1 ht hpl harg hr
    have hat := move_at hok (by omega) ((consistent_iff hok).1 hI.consistent) hp' hI.obj.1 ht posArg
    rcases hm (moveFits_of_posIn (by omega) hp' _ _ _ _) with ⟨res', e', hm'⟩ | ⟨e', -⟩
    · rw [hmv, Except.ok.injEq] at e'
      subst e'
      refine ⟨⟨hm'.consistent, ?_, hm'.data.trans hI.data, hm'.node.1, hm'.node.2.trans hI.obj.2⟩, M' + 1, by omega, hat.2 _ hmv⟩
      rw [hm'.forest, hI.obj.2, Forest.remove_moveAsked, hI.rest]
    · exact absurd e' hat.1

/-- **C100 for MP, unsorted** (partial: while there is room, so that neither the moves nor the direct move run out of positions; see `C100_mp_fails`). -/
theorem C100_mp_partial (hok : cfg.Ok) (h : Consistent cfg db) (ho : cfg.ordered = false) {x : Row} (hx : x ∈ db.rows) {l : List (Nat × Option Pos)} {M : Nat}
    (hM : M + l.length + 2 < cfg.cap) (hroom : PosIn cfg M db) {k : Nat} (hk : k ≠ x.pk) {posArg : Option Pos} {db' : DB} {x' : Row}
    (e : wander cfg (l ++ [(k, posArg)]) db x = .ok (db', x')) :
    ∃ t ∈ db.rows, t.pk = k ∧ ∃ res, move cfg db x t posArg = .ok res ∧ Consistent cfg db' ∧ Consistent cfg res.db ∧ forest cfg res.db = forest cfg db' ∧ data res.db.rows = data db'.rows := by
  obtain ⟨db1, x1, t1, e1, ht1, hm⟩ := wander_last l e
  obtain ⟨hR, M1, hM1, hroom1⟩ := wander_roamed hok h ho hx (n := 0) hM hroom e1
  obtain ⟨h1, hk1, t, ht, hkt⟩ := hR.target hok ht1
  cases hmv : move cfg db1 x1 t1 posArg with
  | error e => simp only [hmv] at hm; cases hm
  | ok res1 =>
    simp only [hmv] at hm
    cases hm
    obtain ⟨pos, hpos⟩ := move_prep hmv
    have hr1 := move_not_refused hok hR.consistent hR.obj.1 h1 hpos hmv
    rw [ho] at hpos
    obtain ⟨hpl, harg⟩ := Verif.plain_of_prep hpos
    have hF := isForestOn_forest hok h
    have hG := isForestOn_forest hok hR.consistent
    have hr : ¬ (forest cfg db).MoveRefused x.pk t.pk pos := by
      rw [hkt, ← Forest.refused_iff_of_remove hF hG hR.rest, ← hk1, ← hR.obj.2]
      exact hr1
    obtain ⟨p1, hp1, hm1⟩ := C07_move_partial hok hR.consistent ho hR.obj.1 h1 hpl harg hr1
    obtain ⟨p, hp, hm0⟩ := C07_move_partial hok h ho hx ht hpl harg hr
    rcases hm1 (moveFits_of_posIn (by omega) hroom1 _ _ _ _) with ⟨res', e', hm1⟩ | ⟨e', -⟩
    swap
    · rw [hmv] at e'; cases e'
    rw [hmv, Except.ok.injEq] at e'
    subst e'
    rcases hm0 (moveFits_of_posIn (by omega) hroom _ _ _ _) with ⟨res, e0, hm0⟩ | ⟨e0, -⟩
    swap
    · exact absurd e0 (move_at hok (by omega) ((consistent_iff hok).1 h) hroom hx ht posArg).1
    refine ⟨t, ht, hkt, res, e0, hm1.consistent, hm0.consistent, ?_, by rw [hm0.data, ← hR.data, ← hm1.data]⟩
    rw [hkt] at hp
    rw [hk1] at hp1
    obtain rfl := Forest.parent_of_remove hF hR.rest hk hp hp1
    rw [hm0.forest, hm1.forest, hkt, hk1, hR.obj.2, Forest.moveAsked_of_remove hR.rest hk _ hpl]

theorem wander_roamed_sorted (hok : cfg.Ok) (h : Consistent cfg db) (ho : cfg.ordered = true) (hs : SortedTree cfg db) {x : Row} (hx : x ∈ db.rows) {l : List (Nat × Option Pos)}
    {db' : DB} {x' : Row} (e : wander cfg l db x = .ok (db', x')) : Roamed cfg db x db' x' ∧ SortedTree cfg db' := by
  refine wander_keeps (I := fun _ s y => Roamed cfg db x s y ∧ SortedTree cfg s) l (n := 0) ?_ ⟨⟨h, rfl, rfl, hx, rfl⟩, hs⟩ e
  intro n s y k t posArg s' y' _ ⟨hI, hs'⟩ hg hm
  cases hmv : move cfg s y t posArg with
  | error e => simp only [hmv] at hm; cases hm
  | ok res =>
    simp only [hmv] at hm
    cases hm
    have ht := (hI.target hok hg).1
    obtain ⟨pos, hpos⟩ := move_prep hmv
    have hr := move_not_refused hok hI.consistent hI.obj.1 ht hpos hmv
    rw [ho] at hpos
    obtain ⟨p, hp, ⟨res', s0, e', hm', hsd, -⟩ | ⟨e', -⟩⟩ := C16_move hok hI.consistent ho hs' hI.obj.1 ht hpos hr
    · rw [hmv, Except.ok.injEq] at e'
      subst e'
      refine ⟨⟨hm'.consistent, ?_, hm'.data.trans hI.data, hm'.node.1, hm'.node.2.trans hI.obj.2⟩, hsd⟩
      rw [hm'.forest, hI.obj.2, Forest.remove_move, hI.rest]
    · rw [hmv] at e'
      cases e'

/-- **C100 for MP, sorted**: or the direct move ends with a path overflow, if the last position below its destination is taken. -/
theorem C100_mp_sorted (hok : cfg.Ok) (h : Consistent cfg db) (ho : cfg.ordered = true) (hs : SortedTree cfg db) {x : Row} (hx : x ∈ db.rows) {l : List (Nat × Option Pos)}
    {k : Nat} (hk : k ≠ x.pk) {posArg : Option Pos} {db' : DB} {x' : Row} (e : wander cfg (l ++ [(k, posArg)]) db x = .ok (db', x')) :
    Consistent cfg db' ∧ SortedTree cfg db' ∧ ∃ t ∈ db.rows, t.pk = k ∧
      ((∃ res, move cfg db x t posArg = .ok res ∧ Consistent cfg res.db ∧ forest cfg res.db = forest cfg db' ∧ data res.db.rows = data db'.rows) ∨
        (move cfg db x t posArg = .error .pathOverflow ∧ ∃ p pos, k ∈ forest cfg db p ∧ preparePosForMove true posArg = .ok pos ∧ LastTaken cfg db (pos.dest p k))) := by
  obtain ⟨db1, x1, t1, e1, ht1, hm⟩ := wander_last l e
  obtain ⟨hR, hs1⟩ := wander_roamed_sorted hok h ho hs hx e1
  obtain ⟨h1, hk1, t, ht, hkt⟩ := hR.target hok ht1
  cases hmv : move cfg db1 x1 t1 posArg with
  | error e => simp only [hmv] at hm; cases hm
  | ok res1 =>
    simp only [hmv] at hm
    cases hm
    obtain ⟨pos, hpos⟩ := move_prep hmv
    have hr1 := move_not_refused hok hR.consistent hR.obj.1 h1 hpos hmv
    rw [ho] at hpos
    have hF := isForestOn_forest hok h
    have hG := isForestOn_forest hok hR.consistent
    have hr : ¬ (forest cfg db).MoveRefused x.pk t.pk pos := by
      rw [hkt, ← Forest.refused_iff_of_remove hF hG hR.rest, ← hk1, ← hR.obj.2]
      exact hr1
    obtain ⟨p1, hp1, ⟨res', s1, e', hm1, hsd, hat1⟩ | ⟨e', -⟩⟩ := C16_move hok hR.consistent ho hs1 hR.obj.1 h1 hpos hr1
    swap
    · rw [hmv] at e'; cases e'
    rw [hmv, Except.ok.injEq] at e'
    subst e'
    refine ⟨hm1.consistent, hsd, t, ht, hkt, ?_⟩
    obtain ⟨p, hp, ⟨res, s0, e0, hm0, -, hat0⟩ | ⟨e0, hl⟩⟩ := C16_move hok h ho hs hx ht hpos hr
    swap
    · exact Or.inr ⟨e0, p, pos, hkt ▸ hp, hpos, hkt ▸ hl⟩
    refine Or.inl ⟨res, e0, hm0.consistent, ?_, by rw [hm0.data, ← hR.data, ← hm1.data]⟩
    rw [hkt] at hp
    rw [hk1] at hp1
    obtain rfl := Forest.parent_of_remove hF hR.rest hk hp hp1
    have f0 := hm0.forest
    have f1 := hm1.forest
    have n0 := (isForestOn_forest hok hm0.consistent).kids_nodup (pos.dest p1 k)
    have n1 := (isForestOn_forest hok hm1.consistent).kids_nodup (pos.dest p1 k)
    rw [hkt] at f0 hat0
    rw [hk1, hR.obj.2, Forest.move_of_remove hR.rest] at f1
    rw [hk1, hR.obj.2, valsOf_congr hm1.data, valsOf_congr hR.data] at hat1
    rw [valsOf_congr hm0.data] at hat0
    rw [f0] at hat0 n0 ⊢
    rw [f1] at hat1 n1 ⊢
    exact (movedSorted_of n0 hat0).unique (movedSorted_of n1 hat1)

/-- 3 goes below 2, to the left of 1, and below 5; or below 5 at once -/
example : Consistent exCfg exDB ∧ PosIn exCfg 5 exDB ∧ 5 + 2 + 2 < exCfg.cap ∧
    ((wander exCfg [(2, some .firstChild), (1, some .left), (5, some .lastChild)] exDB ⟨3, [49, 51], 2, 1, []⟩).toOption.map (fun a =>
      (forest exCfg a.1 none, forest exCfg a.1 (some 1), forest exCfg a.1 (some 5), forest exCfg a.1 (some 3)))) = some ([1, 5], [2], [3], [4]) ∧
    ((exDB.get? 5).bind (fun t => (move exCfg exDB ⟨3, [49, 51], 2, 1, []⟩ t (some .lastChild)).toOption.map (fun a =>
      (forest exCfg a.db none, forest exCfg a.db (some 1), forest exCfg a.db (some 5), forest exCfg a.db (some 3))))) = some ([1, 5], [2], [3], [4]) := by
  refine ⟨exDB_consistent, ?_, by decide, by decide +kernel, by decide +kernel⟩
  intro r hr n e
  have : ∀ r ∈ exDB.rows, ∀ n, (lastpos exCfg r.path).toOption = some n → n ≤ 5 := by
    have hd : ∀ r ∈ exDB.rows, ((lastpos exCfg r.path).toOption.getD 0) ≤ 5 := by decide
    intro r hr n e
    have := hd r hr
    rw [e] at this
    exact this
  exact this r hr n (by rw [e]; rfl)

/-- in the sorted tree, 4 goes among the roots and back below 2 -/
example : Consistent exCfgS exDBS ∧ SortedTree exCfgS exDBS ∧
    ((wander exCfgS [(2, none), (1, some .sortedChild), (2, some .sortedChild)] exDBS ⟨4, [50, 49], 2, 0, [some 2, some 0]⟩).toOption.map (fun a => (forest exCfgS a.1 none, forest exCfgS a.1 (some 2)))) =
      some (forest exCfgS exDBS none, forest exCfgS exDBS (some 2)) :=
  ⟨exDBS_consistent, ⟨exDBS_sorted.1, exDBS_sorted.2⟩, by decide +kernel⟩

/-- **The direct move can be closed** (violation): the roots 1 to 9 have all the positions there are.  9 goes below 1 and then to the right of 1, and all is well; to the right of 1 at once it
is a path overflow. -/
theorem C100_mp_fails : ∃ db : DB, Consistent exCfg db ∧ ∃ x ∈ db.rows, ∃ t ∈ db.rows, t.pk = 1 ∧ x.pk = 9 ∧
    (∃ db' x', wander exCfg [(1, some .lastChild), (1, some .right)] db x = .ok (db', x') ∧ forest exCfg db' none = [1, 9, 2, 3, 4, 5, 6, 7, 8]) ∧
    move exCfg db x t (some .right) = .error .pathOverflow := by
  refine ⟨{ rows := (List.range 9).map (fun i => ⟨i + 1, [49 + i], 1, 0, []⟩) }, ?_, ⟨9, [57], 1, 0, []⟩, by decide +kernel, ⟨1, [49], 1, 0, []⟩, by decide +kernel, rfl, rfl,
    ⟨_, _, rfl, by decide +kernel⟩, rfl⟩
  exact ⟨by decide, by decide, by intro p; cases p <;> decide, by decide, by decide⟩

end MP

namespace LT

variable {cfg : Cfg} {db : DB}

theorem move_prep {x t : Row} {posArg : Option Pos} {r : DB × Row} (h : move cfg db x t posArg = .ok r) : ∃ pos, preparePosForMove cfg.ordered posArg = .ok pos := by
  cases hp : preparePosForMove cfg.ordered posArg with
  | ok pos => exact ⟨pos, rfl⟩
  | error e =>
    unfold move commit at h
    rw [hp] at h
    cases h

theorem move_not_refused (h : Consistent db) {x t : Row} (hx : x ∈ db.rows) (ht : t ∈ db.rows) {posArg : Option Pos} {pos : Pos}
    (hpos : preparePosForMove cfg.ordered posArg = .ok pos) {r : DB × Row} (e : move cfg db x t posArg = .ok r) : ¬ (forest db).MoveRefused x.pk t.pk pos := by
  intro hr
  rw [C08_lt h hx ht hpos hr] at e
  cases e

/-- what the moves of `x` leave as it was -/
structure Roamed (db : DB) (x : Row) (db' : DB) (x' : Row) : Prop where
  consistent : Consistent db'
  rest : (forest db').remove x.pk = (forest db).remove x.pk
  data : data db'.rows = data db.rows
  obj : x' ∈ db'.rows ∧ x'.pk = x.pk

/-- the last places -/
def LastPlace (posArg : Option Pos) : Prop := posArg = none ∨ posArg = some .lastSibling ∨ posArg = some .lastChild

theorem LastPlace.prep {posArg : Option Pos} (h : LastPlace posArg) {pos : Pos} (hpos : preparePosForMove false posArg = .ok pos) : pos = .lastSibling ∨ pos = .lastChild := by
  rcases h with rfl | rfl | rfl <;> cases hpos <;> simp

theorem wander_roamed (h : Consistent db) (ho : cfg.ordered = false) {x : Row} (hx : x ∈ db.rows) {l : List (Nat × Option Pos)} (hl : ∀ e ∈ l, LastPlace e.2) {db' : DB} {x' : Row}
    (e : wander cfg l db x = .ok (db', x')) : Roamed db x db' x' := by
  refine wander_keeps (I := fun _ s y => Roamed db x s y) l (n := 0) ?_ ⟨h, rfl, rfl, hx, rfl⟩ e
  intro _ s y k t posArg s' y' hmem hI hg hm
  have ht := ((get?_eq_some (consistent_iff.1 hI.consistent).inv).1 hg).1
  obtain ⟨pos, hpos⟩ := move_prep hm
  have hr := move_not_refused hI.consistent hI.obj.1 ht hpos hm
  rw [ho] at hpos
  obtain ⟨p, hp, db2, obj2, e', -, hm'⟩ := C36_move_partial ho hI.consistent hI.obj.1 ht hpos hr
  rw [hm, Except.ok.injEq, Prod.mk.injEq] at e'
  obtain ⟨rfl, rfl⟩ := e'
  have hm' := hm' (by rcases (hl _ hmem).prep hpos with h | h <;> simp [h])
  refine ⟨hm'.consistent, ?_, hm'.data.trans hI.data, hm'.obj.1, hm'.obj.2.trans hI.obj.2⟩
  rw [hm'.forest, hI.obj.2, Forest.remove_moveAsked, hI.rest]

/-- **C100 for LT** (partial: unsorted, all the moves to a last place; see `C100_lt_fails`). -/
theorem C100_lt_partial (h : Consistent db) (ho : cfg.ordered = false) {x : Row} (hx : x ∈ db.rows) {l : List (Nat × Option Pos)} (hl : ∀ e ∈ l, LastPlace e.2) {k : Nat} (hk : k ≠ x.pk)
    {posArg : Option Pos} (hlast : LastPlace posArg) {db' : DB} {x' : Row} (e : wander cfg (l ++ [(k, posArg)]) db x = .ok (db', x')) :
    ∃ t ∈ db.rows, t.pk = k ∧ ∃ db2 obj, move cfg db x t posArg = .ok (db2, obj) ∧ Consistent db' ∧ Consistent db2 ∧ forest db2 = forest db' ∧ data db2.rows = data db'.rows := by
  obtain ⟨db1, x1, t1, e1, ht1, hmv⟩ := wander_last l e
  have hR := wander_roamed h ho hx hl e1
  obtain ⟨h1, hk1⟩ := (get?_eq_some (consistent_iff.1 hR.consistent).inv).1 ht1
  have hmem : k ∈ db.rows.map Row.pk := by
    rw [← keys_eq, ← hR.data, keys_eq]
    exact List.mem_map.2 ⟨t1, h1, hk1⟩
  obtain ⟨t, ht, hkt⟩ := List.mem_map.1 hmem
  obtain ⟨pos, hpos⟩ := move_prep hmv
  have hr1 := move_not_refused hR.consistent hR.obj.1 h1 hpos hmv
  rw [ho] at hpos
  have hF := isForestOn h
  have hG := isForestOn hR.consistent
  have hr : ¬ (forest db).MoveRefused x.pk t.pk pos := by
    rw [hkt, ← Forest.refused_iff_of_remove hF hG hR.rest, ← hk1, ← hR.obj.2]
    exact hr1
  have hend : ∀ P : Prop, pos = .lastSibling ∨ pos = .lastChild ∨ P := fun P => by rcases hlast.prep hpos with h | h <;> simp [h]
  obtain ⟨p1, hp1, _, _, e', -, hm1⟩ := C36_move_partial ho hR.consistent hR.obj.1 h1 hpos hr1
  rw [hmv, Except.ok.injEq, Prod.mk.injEq] at e'
  obtain ⟨rfl, rfl⟩ := e'
  have hm1 := hm1 (hend _)
  obtain ⟨p, hp, db2, obj, e0, -, hm0⟩ := C36_move_partial ho h hx ht hpos hr
  have hm0 := hm0 (hend _)
  refine ⟨t, ht, hkt, db2, obj, e0, hm1.consistent, hm0.consistent, ?_, by rw [hm0.data, ← hR.data, ← hm1.data]⟩
  rw [hkt] at hp
  rw [hk1] at hp1
  obtain rfl := Forest.parent_of_remove hF hR.rest hk hp hp1
  rw [hm0.forest, hm1.forest, hkt, hk1, hR.obj.2, Forest.moveAsked_of_remove hR.rest hk _ (Verif.plain_of_prep hpos).1]

/-- 3 goes below 5, among the roots, and below 2; or below 2 at once -/
example : Consistent exDB ∧ ((wander ⟨[]⟩ [(5, some .lastChild), (1, none), (2, some .lastChild)] exDB ⟨3, [[65], [66]], []⟩).toOption.map (fun a =>
      (forest a.1 none, forest a.1 (some 1), forest a.1 (some 2), forest a.1 (some 3)))) = some ([1, 5], [2], [3], [4]) ∧
    ((exDB.get? 2).bind (fun t => (move ⟨[]⟩ exDB ⟨3, [[65], [66]], []⟩ t (some .lastChild)).toOption.map (fun a =>
      (forest a.1 none, forest a.1 (some 1), forest a.1 (some 2), forest a.1 (some 3))))) = some ([1, 5], [2], [3], [4]) :=
  ⟨consistent_iff.2 exDB_inv, by decide +kernel, by decide +kernel⟩

/-- **The others are not left alone** (violation): the roots are 4, 1, 3, 2; 2 goes to the first place and then to the last one; at once to the last one it leaves the others as they are. -/
theorem C100_lt_fails : ∃ db : DB, Consistent db ∧ ∃ x ∈ db.rows, ∃ t ∈ db.rows, x.pk = 2 ∧ t.pk = 4 ∧
    ∃ db' x' db2 obj, wander ⟨[]⟩ [(1, some .firstSibling), (4, some .lastSibling)] db x = .ok (db', x') ∧ move ⟨[]⟩ db x t (some .lastSibling) = .ok (db2, obj) ∧
      forest db' none = [4, 3, 1, 2] ∧ forest db2 none = [4, 1, 3, 2] := by
  refine ⟨⟨[⟨1, [[65]], []⟩, ⟨2, [[66]], []⟩, ⟨3, [[65, 48]], []⟩, ⟨4, [[48]], []⟩], []⟩, consistent_iff.2 (inv_of_check (by decide)), ⟨2, [[66]], []⟩, by decide, ⟨4, [[48]], []⟩, by decide, rfl, rfl,
    _, _, _, _, rfl, rfl, by decide, by decide⟩

end LT

end Verif
