/-
MP: `delete` statement by statement (mp_tree.py:32-86), with other calls of `delete` in between.
-/
import Verif.MP.Delete
import Verif.MP.Add
import Verif.Auto
import Verif.SpecTogether

namespace Verif.MP

open Auto

deriving instance DecidableEq for DelStmt

/-- Where a call of `delete` is. -/
inductive DelPlace where
  | start
  /-- the rows are read (mp_tree.py:43-68): the statements to come -/
  | todo (l : List DelStmt)
  /-- Django has collected the rows to delete -/
  | collected (pks : List Nat) (paths : List (List Nat)) (ks : List Nat)
deriving DecidableEq

/-- mp_tree.py:32-86 `delete`.  Django's `delete` (mp_tree.py:81) is one DELETE (`fast`, django/db/models/deletion.py `can_fast_delete`) or a SELECT and a DELETE by primary keys. -/
def delProg (cfg : Cfg) (fast : Bool) (sel : Row → Bool) : Prog DB DelPlace := fun db l =>
  match l with
  | .start => some (db, .todo (deleteStmts cfg db sel))
  | .todo [] => none
  | .todo (.lose p n :: l) => some (execDel db (.lose p n), .todo l)
  | .todo (.delete pks paths :: l) =>
    if fast then some (execDel db (.delete pks paths), .todo l)
    else some (db, .collected pks paths ((db.rows.filter (delMatches pks paths)).map Row.pk))
  | .collected pks paths ks =>
    some ({ rows := db.rows.filter (fun r => !ks.contains r.pk), sigs := if ks.isEmpty then db.sigs else db.sigs ++ [.nodesDeleted pks paths] }, .todo [])

theorem filter_collected {rows : List Row} (h : (rows.map Row.pk).Nodup) (P : Row → Bool) :
    rows.filter (fun r => !((rows.filter P).map Row.pk).contains r.pk) = rows.filter (fun r => !P r) := by
  refine List.filter_congr (fun r hr => ?_)
  congr 1
  rw [Bool.eq_iff_iff, List.contains_iff_mem, List.mem_map]
  constructor
  · rintro ⟨q, hq, e⟩
    obtain ⟨h1, h2⟩ := List.mem_filter.1 hq
    rwa [← List.inj_on_of_nodup_map h h1 hr e]
  · exact fun hp => ⟨r, List.mem_filter.2 ⟨hr, hp⟩, rfl⟩

/-- Alone, the statements are `delete`. -/
theorem delProg_alone (cfg : Cfg) (fast : Bool) (sel : Row → Bool) (db : DB) (h : (db.rows.map Row.pk).Nodup) :
    Alone (delProg cfg fast sel) db .start (delete cfg db sel) (.todo []) := by
  refine .step (db' := db) (l' := .todo (deleteStmts cfg db sel)) rfl ?_
  have key : ∀ (E : List (List Nat × Nat)) (pks : List Nat) (paths : List (List Nat)) (db : DB), (db.rows.map Row.pk).Nodup →
      Alone (delProg cfg fast sel) db (.todo (E.map (fun e => DelStmt.lose e.1 e.2) ++ [.delete pks paths]))
        (List.foldl execDel db (E.map (fun e => DelStmt.lose e.1 e.2) ++ [.delete pks paths])) (.todo []) := by
    intro E pks paths
    induction E with
    | nil =>
      intro db h
      cases fast with
      | true => exact .step rfl .refl
      | false =>
        refine .step rfl (.step rfl ?_)
        rw [filter_collected h]
        have e : ((db.rows.filter (delMatches pks paths)).map Row.pk).isEmpty = !db.rows.any (delMatches pks paths) := by
          rw [Bool.eq_iff_iff, List.isEmpty_map, List.isEmpty_iff, List.filter_eq_nil_iff, Bool.not_eq_true', List.any_eq_false]
        rw [e]
        have : (if (!db.rows.any (delMatches pks paths)) = true then db.sigs else db.sigs ++ [.nodesDeleted pks paths]) =
            if db.rows.any (delMatches pks paths) then db.sigs ++ [.nodesDeleted pks paths] else db.sigs := by
          cases db.rows.any (delMatches pks paths) <;> rfl
        rw [this]
        exact .refl
    | cons e E ih =>
      intro db h
      refine .step rfl (ih _ ?_)
      have : (execDel db (.lose e.1 e.2)).rows.map Row.pk = db.rows.map Row.pk := by
        show (db.rows.map _).map Row.pk = _
        rw [List.map_map]
        refine List.map_congr_left (fun r _ => ?_)
        simp only [Function.comp]
        split <;> rfl
      rw [this]; exact h
  obtain ⟨E, R, _, hst, _⟩ := deleteStmts_eq cfg db sel
  unfold delete
  rw [hst]
  exact key _ _ _ db h

/-! ### The counter -/

theorem keys_bump (q : List Nat) (E : List (List Nat × Nat)) :
    (bumpCounter q E).map (·.1) = if q ∈ E.map (·.1) then E.map (·.1) else E.map (·.1) ++ [q] := by
  induction E with
  | nil => rfl
  | cons e E ih =>
    obtain ⟨p, n⟩ := e
    simp only [bumpCounter]
    split
    · rename_i h; subst h; simp
    · rename_i h
      simp only [List.map_cons, ih, List.mem_cons]
      by_cases hq : q ∈ E.map (·.1)
      · simp [hq]
      · rw [if_neg hq, if_neg]
        · rfl
        · rintro (e | e)
          · exact h e.symm
          · exact hq e

theorem keys_plan (cfg : Cfg) : ∀ (R : List Row) (plan : DeletePlan), (plan.parents.map (·.1)).Nodup → [] ∉ plan.parents.map (·.1) →
    ((deletePlan cfg R plan).parents.map (·.1)).Nodup ∧ [] ∉ (deletePlan cfg R plan).parents.map (·.1) := by
  intro R
  induction R with
  | nil => intro plan h1 h2; exact ⟨h1, h2⟩
  | cons n R ih =>
    intro plan h1 h2
    simp only [deletePlan]
    have h3 : ((if basepath cfg n.path ((n.depth : Int) - 1) ≠ [] then { plan with parents := bumpCounter (basepath cfg n.path ((n.depth : Int) - 1)) plan.parents } else plan).parents.map (·.1)).Nodup
        ∧ [] ∉ (if basepath cfg n.path ((n.depth : Int) - 1) ≠ [] then { plan with parents := bumpCounter (basepath cfg n.path ((n.depth : Int) - 1)) plan.parents } else plan).parents.map (·.1) := by
      split
      · rename_i hb
        simp only [keys_bump]
        split
        · exact ⟨h1, h2⟩
        · rename_i hm
          refine ⟨?_, ?_⟩
          · rw [List.nodup_append]
            refine ⟨h1, by simp, ?_⟩
            intro a ha b hb' e
            rw [List.mem_singleton] at hb'
            subst hb'; subst e
            exact hm ha
          · rw [List.mem_append, List.mem_singleton]
            rintro (h | h)
            · exact h2 h
            · exact hb h.symm
      · exact ⟨h1, h2⟩
    generalize (if basepath cfg n.path ((n.depth : Int) - 1) ≠ [] then { plan with parents := bumpCounter (basepath cfg n.path ((n.depth : Int) - 1)) plan.parents } else plan) = plan' at h3 ⊢
    split
    · exact ih { plan' with pks := plan'.pks ++ [n.pk] } h3.1 h3.2
    · exact ih { plan' with paths := plan'.paths ++ [n.path] } h3.1 h3.2

theorem cntOf_of_mem : ∀ {E : List (List Nat × Nat)}, (E.map (·.1)).Nodup → ∀ {e : List Nat × Nat}, e ∈ E → cntOf E e.1 = e.2 := by
  intro E
  induction E with
  | nil => intro _ e he; cases he
  | cons x E ih =>
    intro hn e he
    rw [List.map_cons, List.nodup_cons] at hn
    have h0 : ∀ p, p ∉ E.map (·.1) → cntOf E p = 0 := by
      intro p hp
      unfold cntOf
      rw [List.filter_eq_nil_iff.2]
      · rfl
      · intro y hy
        rw [beq_iff_eq]
        rintro rfl
        exact hp (List.mem_map_of_mem hy)
    rw [cntOf_cons]
    rcases List.mem_cons.1 he with rfl | he
    · rw [if_pos rfl, h0 _ hn.1]; rfl
    · rw [ih hn.2 he, if_neg]
      · omega
      · rintro e'
        exact hn.1 (e' ▸ List.mem_map_of_mem he)

theorem mem_keys_of_cntOf {E : List (List Nat × Nat)} {p : List Nat} (h : 0 < cntOf E p) : p ∈ E.map (·.1) := by
  by_contra hp
  have : cntOf E p = 0 := by
    unfold cntOf
    rw [List.filter_eq_nil_iff.2]
    · rfl
    · intro y hy
      rw [beq_iff_eq]
      rintro rfl
      exact hp (List.mem_map_of_mem hy)
  omega

/-- a list of images -/
theorem exists_preimages {α β : Type} {f : α → β} {A : List α} : ∀ {R : List β}, (∀ x ∈ R, ∃ y ∈ A, f y = x) → ∃ T : List α, (∀ y ∈ T, y ∈ A) ∧ T.map f = R := by
  intro R
  induction R with
  | nil => intro _; exact ⟨[], by simp, rfl⟩
  | cons x R ih =>
    intro h
    obtain ⟨y, hy, e⟩ := h x (by simp)
    obtain ⟨T, h1, h2⟩ := ih (fun z hz => h z (by simp [hz]))
    exact ⟨y :: T, by simpa [hy] using h1, by simp [e, h2]⟩

/-! ### The invariant -/

/-- What a client is at: the leaves and the other nodes it removes (rows of the table at the beginning), the updates of counters that are to come, and whether it is through. -/
structure Ghost where
  tl : List Row
  tp : List Row
  E : List (List Nat × Nat)
  done : Bool

def Ghost.tops (γ : Ghost) : List Row := γ.tl ++ γ.tp

/-- the rows the client's DELETE removes -/
def Ghost.Hits (γ : Ghost) (r : Row) : Prop := r ∈ γ.tl ∨ ∃ c ∈ γ.tp, c.path <+: r.path

variable {ι : Type}

/-- the row is not counted any more -/
def LostBy (cfg : Cfg) (G : ι → Ghost) (c : Row) : Prop := ∃ i, c ∈ (G i).tops ∧ pp cfg.steplen c.path ∉ (G i).E.map (·.1)

/-- the row is deleted -/
def GoneBy (G : ι → Ghost) (r : Row) : Prop := ∃ i, (G i).done = true ∧ (G i).Hits r

/-- the statements to come are those of the ghost -/
inductive Sees (rows : List Row) (gone : Row → Prop) (γ : Ghost) : DelPlace → Prop where
  | start : γ = ⟨[], [], [], false⟩ → Sees rows gone γ .start
  | todo : γ.done = false → Sees rows gone γ (.todo (γ.E.map (fun e => DelStmt.lose e.1 e.2) ++ [.delete (γ.tl.map Row.pk) (γ.tp.map Row.path)]))
  | over : γ.done = true → γ.E = [] → Sees rows gone γ (.todo [])
  | collected {pks : List Nat} {paths : List (List Nat)} {ks : List Nat} : γ.done = false → γ.E = [] → (∀ r ∈ rows, ¬ gone r → (r.pk ∈ ks ↔ γ.Hits r)) → Sees rows gone γ (.collected pks paths ks)

/-- what a client knows -/
structure Own (cfg : Cfg) (rows : List Row) (S : Nat → Bool) (γ : Ghost) : Prop where
  sub : ∀ c ∈ γ.tops, c ∈ rows ∧ S c.pk = true
  nodup : γ.tops.Nodup
  keys : (γ.E.map (·.1)).Nodup
  cnt : ∀ e ∈ γ.E, e.2 = γ.tops.countP (fun c => decide (pp cfg.steplen c.path = e.1))

open Classical in
structure DelInv (cfg : Cfg) (rows : List Row) (S : ι → Nat → Bool) (s : State ι DB DelPlace) (G : ι → Ghost) : Prop where
  left : ∃ g, OnlyNum g ∧ s.db.rows = (rows.filter (fun r => !decide (GoneBy G r))).map g ∧
    ∀ r ∈ rows, (g r).numchild = rows.countP (fun c => decide (pp cfg.steplen c.path = r.path) && !decide (LostBy cfg G c))
  sees : ∀ i, Sees rows (GoneBy G) (G i) (s.place i)
  own : ∀ i, Own cfg rows (S i) (G i)
  leaf : ∀ i, ∀ c ∈ (G i).tl, ∀ d ∈ rows, pp cfg.steplen d.path = c.path → LostBy cfg G d
  cover : ∀ i, s.place i ≠ .start → ∀ r ∈ rows, S i r.pk = true → GoneBy G r ∨ ∃ c ∈ (G i).tops, c.path <+: r.path

variable [DecidableEq ι] {cfg : Cfg} {rows : List Row} {S : ι → Nat → Bool} {G : ι → Ghost}

theorem exists_upd {P : Ghost → Prop} {i : ι} {γ : Ghost} : (∃ j, P (if j = i then γ else G j)) ↔ P γ ∨ ∃ j, j ≠ i ∧ P (G j) := by
  constructor
  · rintro ⟨j, h⟩
    by_cases e : j = i
    · rw [if_pos e] at h; exact Or.inl h
    · rw [if_neg e] at h; exact Or.inr ⟨j, e, h⟩
  · rintro (h | ⟨j, e, h⟩)
    · exact ⟨i, by rw [if_pos rfl]; exact h⟩
    · exact ⟨j, by rw [if_neg e]; exact h⟩

theorem exists_at {P : Ghost → Prop} (i : ι) : (∃ j, P (G j)) ↔ P (G i) ∨ ∃ j, j ≠ i ∧ P (G j) := by
  constructor
  · rintro ⟨j, h⟩
    by_cases e : j = i
    · subst e; exact Or.inl h
    · exact Or.inr ⟨j, e, h⟩
  · rintro (h | ⟨j, _, h⟩)
    · exact ⟨i, h⟩
    · exact ⟨j, h⟩

theorem gone_upd {i : ι} {γ : Ghost} {r : Row} : GoneBy (fun j => if j = i then γ else G j) r ↔ (γ.done = true ∧ γ.Hits r) ∨ ∃ j, j ≠ i ∧ (G j).done = true ∧ (G j).Hits r :=
  exists_upd (P := fun γ => γ.done = true ∧ γ.Hits r)

theorem lost_upd {i : ι} {γ : Ghost} {c : Row} : LostBy cfg (fun j => if j = i then γ else G j) c ↔
    (c ∈ γ.tops ∧ pp cfg.steplen c.path ∉ γ.E.map (·.1)) ∨ ∃ j, j ≠ i ∧ c ∈ (G j).tops ∧ pp cfg.steplen c.path ∉ (G j).E.map (·.1) :=
  exists_upd (P := fun γ : Ghost => c ∈ γ.tops ∧ pp cfg.steplen c.path ∉ γ.E.map Prod.fst)

theorem Sees.mono {rows : List Row} {gone gone' : Row → Prop} {γ : Ghost} {l : DelPlace} (h : Sees rows gone γ l) (hm : ∀ r, gone r → gone' r) : Sees rows gone' γ l := by
  cases h with
  | start e => exact .start e
  | todo e => exact .todo e
  | over e e' => exact .over e e'
  | collected e e' hk => exact .collected e e' (fun r hr hg => hk r hr (fun hh => hg (hm r hh)))

/-- a step of client `i` that makes its ghost `γ` -/
theorem DelInv.step {s : State ι DB DelPlace} (h : DelInv cfg rows S s G) {i : ι} {γ : Ghost} {db : DB} {l : DelPlace}
    (hgone : ∀ r, GoneBy G r → GoneBy (fun j => if j = i then γ else G j) r)
    (hlost : ∀ c, LostBy cfg G c → LostBy cfg (fun j => if j = i then γ else G j) c)
    (hleft : ∃ g, OnlyNum g ∧ db.rows = (rows.filter (fun r => !@decide (GoneBy (fun j => if j = i then γ else G j) r) (Classical.propDecidable _))).map g ∧
      ∀ r ∈ rows, (g r).numchild = rows.countP (fun c => decide (pp cfg.steplen c.path = r.path) &&
        !@decide (LostBy cfg (fun j => if j = i then γ else G j) c) (Classical.propDecidable _)))
    (hsees : Sees rows (GoneBy (fun j => if j = i then γ else G j)) γ l) (hown : Own cfg rows (S i) γ)
    (hleaf : ∀ c ∈ γ.tl, ∀ d ∈ rows, pp cfg.steplen d.path = c.path → LostBy cfg (fun j => if j = i then γ else G j) d)
    (hcover : l ≠ .start → ∀ r ∈ rows, S i r.pk = true → GoneBy (fun j => if j = i then γ else G j) r ∨ ∃ c ∈ γ.tops, c.path <+: r.path) :
    DelInv cfg rows S ⟨db, fun j => if j = i then l else s.place j⟩ (fun j => if j = i then γ else G j) := by
  refine ⟨hleft, ?_, ?_, ?_, ?_⟩
  · intro j
    by_cases e : j = i
    · simp only [if_pos e]; exact hsees
    · simp only [if_neg e]; exact (h.sees j).mono hgone
  · intro j
    by_cases e : j = i
    · subst e; simp only [if_true]; exact hown
    · simp only [if_neg e]; exact h.own j
  · intro j
    by_cases e : j = i
    · simp only [if_pos e]; exact hleaf
    · simp only [if_neg e]; exact fun c hc d hd ed => hlost d (h.leaf j c hc d hd ed)
  · intro j
    by_cases e : j = i
    · subst e; simp only [if_true]; exact hcover
    · simp only [if_neg e]
      exact fun hp r hr hs => (h.cover j hp r hr hs).imp_left (hgone r)

theorem deleteStmts_keys (cfg : Cfg) (db : DB) (sel : Row → Bool) : ∃ E R,
    R = removedLoop cfg (orderByDepthPath (db.rows.filter sel)) [] ∧
    deleteStmts cfg db sel = E.map (fun e => DelStmt.lose e.1 e.2) ++
      [.delete ((R.filter Row.isLeaf).map Row.pk) ((R.filter (fun r => !r.isLeaf)).map Row.path)] ∧
    (E.map (·.1)).Nodup ∧ [] ∉ E.map (·.1) ∧
    ∀ p, p ≠ [] → cntOf E p = R.countP (fun n => decide (basepath cfg n.path ((n.depth : Int) - 1) = p)) := by
  obtain ⟨h1, h2, h3⟩ := deletePlan_spec (cfg := cfg) (removedLoop cfg (orderByDepthPath (db.rows.filter sel)) []) ⟨[], [], []⟩
  obtain ⟨k1, k2⟩ := keys_plan cfg (removedLoop cfg (orderByDepthPath (db.rows.filter sel)) []) ⟨[], [], []⟩ (by simp) (by simp)
  refine ⟨(deletePlan cfg (removedLoop cfg (orderByDepthPath (db.rows.filter sel)) []) ⟨[], [], []⟩).parents, _, rfl, ?_, k1, k2, ?_⟩
  · unfold deleteStmts
    simp only [h1, h2, List.nil_append]
  · intro p hp
    rw [h3 p hp]
    simp [cntOf]

/-- the first statement: reading -/
theorem DelInv.read (hok : cfg.Ok) (hI : PInv cfg rows) {s : State ι DB DelPlace} (h : DelInv cfg rows S s G) {i : ι} (hi : s.place i = .start) :
    ∃ γ, DelInv cfg rows S ⟨s.db, fun j => if j = i then .todo (deleteStmts cfg s.db (fun r => S i r.pk)) else s.place j⟩ (fun j => if j = i then γ else G j) := by
  classical
  obtain ⟨g, og, hrows, hnum⟩ := h.left
  have hGi : G i = ⟨[], [], [], false⟩ := by
    have := h.sees i
    rw [hi] at this
    cases this with
    | start e => exact e
  have hpres : ∀ x, x ∈ s.db.rows ↔ ∃ r ∈ rows, ¬ GoneBy G r ∧ g r = x := by
    intro x
    rw [hrows, List.mem_map]
    simp [List.mem_filter, and_assoc]
  have hI' : PInv cfg (rows.map g) := og.pinv hI
  obtain ⟨E, R, hR, hst, hk1, hk2, hcnt⟩ := deleteStmts_keys cfg s.db (fun r => S i r.pk)
  have hmem : ∀ n, n ∈ orderByDepthPath (s.db.rows.filter (fun r => S i r.pk)) ↔ n ∈ s.db.rows ∧ S i n.pk = true := by
    intro n; rw [orderByDepthPath, mem_sortBy, List.mem_filter]
  have hsubl : s.db.rows.Sublist (rows.map g) := by rw [hrows]; exact List.filter_sublist.map _
  obtain ⟨r1, r2, r3, r4⟩ := removedLoop_spec hI' hok (orderByDepthPath (s.db.rows.filter (fun r => S i r.pk))) []
    (by intro n hn; exact hsubl.subset ((hmem n).1 (by simpa using hn)).1)
    (by
      simp only [List.nil_append]
      refine (sortBy_sorted strictWeak_depthPath _).imp ?_
      intro a b hab
      simp only [decide_eq_false_iff_not] at hab
      by_contra hc
      exact hab (Or.inl (by omega)))
    (by
      simp only [List.nil_append]
      exact (sortBy_perm _ _).nodup_iff.2 ((hI'.nodup.sublist hsubl).filter _))
    (by simp)
  rw [← hR] at r1 r2 r3 r4
  obtain ⟨T, hT, hTR⟩ := exists_preimages (f := g) (A := rows.filter (fun r => !decide (GoneBy G r) && S i r.pk)) (R := R) (by
    intro x hx
    obtain ⟨h1, h2⟩ := (hmem x).1 (by simpa using r1 x hx)
    obtain ⟨r, hr, hg, rfl⟩ := (hpres x).1 h1
    exact ⟨r, List.mem_filter.2 ⟨hr, by simp [hg, ← og.pk r, h2]⟩, rfl⟩)
  have hTm : ∀ c ∈ T, c ∈ rows ∧ ¬ GoneBy G c ∧ S i c.pk = true := by
    intro c hc
    have := List.mem_filter.1 (hT c hc)
    simpa using this
  have hTn : T.Nodup := by rw [← hTR] at r4; exact r4.of_map
  have hstep : 0 < cfg.steplen := by have := hok.step; omega
  have hcE : ∀ p, p ≠ [] → cntOf E p = T.countP (fun c => decide (pp cfg.steplen c.path = p)) := by
    intro p hp
    rw [hcnt p hp, ← hTR, List.countP_map]
    refine List.countP_congr (fun c hc => ?_)
    simp only [Function.comp]
    rw [hI'.basepath hok (List.mem_map_of_mem (hTm c hc).1), og.path]
  let γ : Ghost := ⟨T.filter (fun c => (g c).isLeaf), T.filter (fun c => !(g c).isLeaf), E, false⟩
  have hperm : γ.tops.Perm T := by
    show (T.filter (fun c => (g c).isLeaf) ++ T.filter (fun c => !(g c).isLeaf)).Perm T
    exact List.filter_append_perm _ _
  have hkey : ∀ c ∈ γ.tops, pp cfg.steplen c.path ≠ [] → pp cfg.steplen c.path ∈ E.map (·.1) := by
    intro c hc hne
    refine mem_keys_of_cntOf ?_
    rw [hcE _ hne, List.countP_pos_iff]
    exact ⟨c, hperm.mem_iff.1 hc, by simp⟩
  have hgone : ∀ r, GoneBy (fun j => if j = i then γ else G j) r ↔ GoneBy G r := by
    intro r
    rw [gone_upd]
    unfold GoneBy
    rw [exists_at (P := fun γ : Ghost => γ.done = true ∧ γ.Hits r) i, hGi]
    simp [γ]
  have hlost : ∀ c, pp cfg.steplen c.path ≠ [] → (LostBy cfg (fun j => if j = i then γ else G j) c ↔ LostBy cfg G c) := by
    intro c hne
    rw [lost_upd]
    unfold LostBy
    rw [exists_at (P := fun γ : Ghost => c ∈ γ.tops ∧ pp cfg.steplen c.path ∉ γ.E.map (·.1)) i, hGi]
    refine or_congr ?_ Iff.rfl
    constructor
    · rintro ⟨h1, h2⟩; exact absurd (hkey c h1 hne) h2
    · rintro ⟨h1, _⟩; cases h1
  have hlost' : ∀ c, LostBy cfg G c → LostBy cfg (fun j => if j = i then γ else G j) c := by
    rintro c ⟨j, h1, h2⟩
    rw [lost_upd]
    refine Or.inr ⟨j, ?_, h1, h2⟩
    rintro rfl
    rw [hGi] at h1
    cases h1
  refine ⟨γ, ?_⟩
  have hfeq : (fun r => !@decide (GoneBy (fun j => if j = i then γ else G j) r) (Classical.propDecidable _)) = fun r => !decide (GoneBy G r) := by
    funext r
    congr 1
    rw [Bool.eq_iff_iff, decide_eq_true_iff, decide_eq_true_iff]
    exact hgone r
  refine h.step (fun r hr => (hgone r).2 hr) hlost' ⟨g, og, ?_, ?_⟩ ?_ ?_ ?_ ?_
  · rw [hfeq, hrows]
  · intro r hr
    rw [hnum r hr]
    congr 1
    refine List.countP_congr (fun c hc => ?_)
    simp only [Bool.and_eq_true, decide_eq_true_eq, Bool.not_eq_true', decide_eq_false_iff_not]
    refine and_congr_right fun e => not_congr ?_
    exact (hlost c (by rw [e]; exact path_ne_nil hok hI hr)).symm
  · rw [hst]
    have e1 : (R.filter Row.isLeaf).map Row.pk = γ.tl.map Row.pk := by
      rw [← hTR, List.filter_map, List.map_map]
      refine List.map_congr_left (fun c _ => og.pk c)
    have e2 : (R.filter (fun r => !r.isLeaf)).map Row.path = γ.tp.map Row.path := by
      rw [← hTR, List.filter_map, List.map_map]
      refine List.map_congr_left (fun c _ => og.path c)
    rw [e1, e2]
    exact .todo rfl
  · refine ⟨?_, hperm.nodup_iff.2 hTn, hk1, ?_⟩
    · intro c hc
      obtain ⟨h1, _, h3⟩ := hTm c (hperm.mem_iff.1 hc)
      exact ⟨h1, h3⟩
    · intro e he
      have hne : e.1 ≠ [] := fun h0 => hk2 (h0 ▸ List.mem_map_of_mem he)
      rw [hperm.countP_eq, ← hcE _ hne, cntOf_of_mem hk1 he]
  · intro c hc d hd ed
    obtain ⟨h1, h2⟩ := List.mem_filter.1 hc
    have hcr := (hTm c h1).1
    have h0 : (g c).numchild = 0 := by simpa [Row.isLeaf] using h2
    have hn := hnum c hcr
    rw [h0] at hn
    have hz : rows.countP (fun x => decide (pp cfg.steplen x.path = c.path) && !@decide (LostBy cfg G x) (Classical.propDecidable _)) = 0 := by omega
    rw [List.countP_eq_zero] at hz
    by_contra hc'
    refine hz d hd ?_
    simp only [Bool.and_eq_true, decide_eq_true_eq, Bool.not_eq_true', decide_eq_false_iff_not]
    exact ⟨ed, fun hh => hc' (hlost' d hh)⟩
  · intro _ r hr hs
    by_cases hg : GoneBy G r
    · exact Or.inl ((hgone r).2 hg)
    · obtain ⟨q, hq, hqp⟩ := r2 (g r) (by
        simp only [List.nil_append]
        exact (hmem _).2 ⟨(hpres _).2 ⟨r, hr, hg, rfl⟩, by rw [og.pk]; exact hs⟩)
      rw [← hTR] at hq
      obtain ⟨c, hc, rfl⟩ := List.mem_map.1 hq
      rw [og.path, og.path] at hqp
      exact Or.inr ⟨c, hperm.mem_iff.2 hc, hqp⟩

/-- a counter is lowered -/
theorem DelInv.lower (hch : ChosenOnce S) (hI : PInv cfg rows) {s : State ι DB DelPlace} (h : DelInv cfg rows S s G) {i : ι} {e : List Nat × Nat} {E : List (List Nat × Nat)} (hE : (G i).E = e :: E)
    (hd : (G i).done = false) :
    DelInv cfg rows S ⟨execDel s.db (.lose e.1 e.2), fun j => if j = i then .todo (E.map (fun e => DelStmt.lose e.1 e.2) ++ [.delete ((G i).tl.map Row.pk) ((G i).tp.map Row.path)]) else s.place j⟩
      (fun j => if j = i then ⟨(G i).tl, (G i).tp, E, false⟩ else G j) := by
  classical
  obtain ⟨g, og, hrows, hnum⟩ := h.left
  have ho := h.own i
  have hkn := ho.keys
  rw [hE, List.map_cons, List.nodup_cons] at hkn
  let γ : Ghost := ⟨(G i).tl, (G i).tp, E, false⟩
  have htops : γ.tops = (G i).tops := rfl
  have hgone : ∀ r, GoneBy (fun j => if j = i then γ else G j) r ↔ GoneBy G r := by
    intro r
    rw [gone_upd]
    unfold GoneBy
    rw [exists_at (P := fun γ : Ghost => γ.done = true ∧ γ.Hits r) i, hd]
    simp [γ]
  have hlost : ∀ c, LostBy cfg (fun j => if j = i then γ else G j) c ↔ LostBy cfg G c ∨ (c ∈ (G i).tops ∧ pp cfg.steplen c.path = e.1) := by
    intro c
    rw [lost_upd]
    unfold LostBy
    rw [exists_at (P := fun γ : Ghost => c ∈ γ.tops ∧ pp cfg.steplen c.path ∉ γ.E.map (·.1)) i, hE, htops]
    simp only [γ, List.map_cons, List.mem_cons, not_or]
    constructor
    · rintro (⟨h1, h2⟩ | h1)
      · by_cases he : pp cfg.steplen c.path = e.1
        · exact Or.inr ⟨h1, he⟩
        · exact Or.inl (Or.inl ⟨h1, he, h2⟩)
      · exact Or.inl (Or.inr h1)
    · rintro ((⟨h1, _, h2⟩ | h1) | ⟨h1, h2⟩)
      · exact Or.inl ⟨h1, h2⟩
      · exact Or.inr h1
      · exact Or.inl ⟨h1, by rw [h2]; exact hkn.1⟩
  have hnot : ∀ c ∈ (G i).tops, pp cfg.steplen c.path = e.1 → ¬ LostBy cfg G c := by
    rintro c hc he ⟨j, h1, h2⟩
    have : j = i := hch j i c.pk ((h.own j).sub c h1).2 (ho.sub c hc).2
    subst this
    rw [hE, List.map_cons, List.mem_cons, not_or] at h2
    exact h2.1 he
  let f : Row → Row := fun r => if r.path == e.1 then { r with numchild := max (r.numchild - e.2) 0 } else r
  have of : OnlyNum f := by
    constructor <;> intro r <;> simp only [f] <;> split <;> rfl
  have hsee := h.sees i
  have hnst : s.place i ≠ .start := by
    intro hs
    rw [hs] at hsee
    cases hsee with
    | start e' => rw [e'] at hE; cases hE
  have hfeq : (fun r => !@decide (GoneBy (fun j => if j = i then γ else G j) r) (Classical.propDecidable _)) = fun r => !decide (GoneBy G r) := by
    funext r
    congr 1
    rw [Bool.eq_iff_iff, decide_eq_true_iff, decide_eq_true_iff]
    exact hgone r
  refine h.step (γ := γ) (fun r hr => (hgone r).2 hr) (fun c hc => (hlost c).2 (Or.inl hc)) ⟨fun r => f (g r), og.comp of, ?_, ?_⟩ (.todo rfl) ?_ ?_ ?_
  · show s.db.rows.map f = _
    rw [hfeq, hrows, List.map_map]
    rfl
  · intro r hr
    have hn := hnum r hr
    by_cases he : r.path = e.1
    · have h1 : (f (g r)).numchild = max ((g r).numchild - e.2) 0 := by simp [f, og.path, he]
      rw [h1, hn]
      have hcn := ho.cnt e (by rw [hE]; simp)
      have hsum : rows.countP (fun c => decide (pp cfg.steplen c.path = r.path) && !@decide (LostBy cfg G c) (Classical.propDecidable _)) =
          rows.countP (fun c => decide (pp cfg.steplen c.path = r.path) && !@decide (LostBy cfg (fun j => if j = i then γ else G j) c) (Classical.propDecidable _)) + e.2 := by
        have h2 := List.countP_eq_countP_filter_add rows (fun c => decide (pp cfg.steplen c.path = r.path) && !@decide (LostBy cfg G c) (Classical.propDecidable _)) (fun c => !decide (c ∈ (G i).tops))
        rw [h2, List.countP_filter, List.countP_filter]
        congr 1
        · refine List.countP_congr (fun c hc => ?_)
          simp only [Bool.and_eq_true, decide_eq_true_eq, Bool.not_eq_true', decide_eq_false_iff_not, hlost]
          constructor
          · rintro ⟨⟨h1, h2⟩, h3⟩
            exact ⟨h1, by rintro (h | h); exact h2 h; exact h3 h.1⟩
          · rintro ⟨h1, h2⟩
            exact ⟨⟨h1, fun h => h2 (Or.inl h)⟩, fun h => h2 (Or.inr ⟨h, by rw [h1, he]⟩)⟩
        · rw [hcn, List.countP_eq_length_filter, List.countP_eq_length_filter]
          refine List.Perm.length_eq ((List.perm_ext_iff_of_nodup (hI.nodup.filter _) (ho.nodup.filter _)).2 ?_)
          intro c
          simp only [List.mem_filter, Bool.and_eq_true, decide_eq_true_eq, Bool.not_eq_true', decide_eq_false_iff_not, Bool.not_not]
          constructor
          · rintro ⟨_, ⟨h1, _⟩, h3⟩; exact ⟨h3, by rw [h1, he]⟩
          · rintro ⟨h1, h2⟩; exact ⟨(ho.sub c h1).1, ⟨by rw [h2, he], hnot c h1 h2⟩, h1⟩
      rw [hsum]
      push_cast
      omega
    · have h1 : (f (g r)).numchild = (g r).numchild := by simp [f, og.path, he]
      rw [h1, hn]
      congr 1
      refine List.countP_congr (fun c hc => ?_)
      simp only [Bool.and_eq_true, decide_eq_true_eq, Bool.not_eq_true', decide_eq_false_iff_not, hlost]
      refine and_congr_right fun e1 => not_congr ?_
      exact ⟨Or.inl, by rintro (h | ⟨_, h⟩); exact h; exact absurd (e1.symm.trans h) he⟩
  · exact ⟨ho.sub, ho.nodup, hkn.2, fun e' he' => ho.cnt e' (by rw [hE]; exact List.mem_cons_of_mem _ he')⟩
  · exact fun c hc d hd ed => (hlost d).2 (Or.inl (h.leaf i c hc d hd ed))
  · exact fun _ r hr hs => (h.cover i hnst r hr hs).imp_left (fun hg => (hgone r).2 hg)

omit [DecidableEq ι] in
theorem hits_iff (hI : PInv cfg rows) {γ : Ghost} (hsub : ∀ c ∈ γ.tops, c ∈ rows) {r : Row} (hr : r ∈ rows) :
    delMatches (γ.tl.map Row.pk) (γ.tp.map Row.path) r = true ↔ γ.Hits r := by
  unfold delMatches Ghost.Hits
  rw [Bool.or_eq_true, List.contains_iff_mem, List.any_eq_true]
  simp only [List.mem_map, List.isPrefixOf_iff_prefix]
  refine or_congr ⟨?_, fun h => ⟨r, h, rfl⟩⟩ ⟨?_, ?_⟩
  · rintro ⟨c, hc, e⟩
    rwa [← hI.inv.pk_inj (hsub c (List.mem_append_left _ hc)) hr e]
  · rintro ⟨p, ⟨c, hc, rfl⟩, h⟩; exact ⟨c, hc, h⟩
  · rintro ⟨c, hc, h⟩; exact ⟨_, ⟨c, hc, rfl⟩, h⟩

/-- the DELETE -/
theorem DelInv.finish {s : State ι DB DelPlace} (h : DelInv cfg rows S s G) {i : ι} (hE : (G i).E = []) (hst : s.place i ≠ .start) {m : Row → Bool} {db : DB}
    (hdb : db.rows = s.db.rows.filter (fun r => !m r)) (hmg : ∀ g, OnlyNum g → ∀ r, m (g r) = m r) (hm : ∀ r ∈ rows, ¬ GoneBy G r → (m r = true ↔ (G i).Hits r)) :
    DelInv cfg rows S ⟨db, fun j => if j = i then .todo [] else s.place j⟩ (fun j => if j = i then ⟨(G i).tl, (G i).tp, [], true⟩ else G j) := by
  classical
  obtain ⟨g, og, hrows, hnum⟩ := h.left
  have ho := h.own i
  let γ : Ghost := ⟨(G i).tl, (G i).tp, [], true⟩
  have hgone : ∀ r, GoneBy (fun j => if j = i then γ else G j) r ↔ GoneBy G r ∨ (G i).Hits r := by
    intro r
    rw [gone_upd]
    unfold GoneBy
    rw [exists_at (P := fun γ : Ghost => γ.done = true ∧ γ.Hits r) i]
    have e : (γ.done = true ∧ γ.Hits r) ↔ (G i).Hits r := ⟨fun h => h.2, fun h => ⟨rfl, h⟩⟩
    rw [e]
    generalize (∃ j, j ≠ i ∧ (G j).done = true ∧ (G j).Hits r) = X
    clear hE hst hdb hmg hm hrows hnum ho e
    tauto
  have hlost : ∀ c, LostBy cfg (fun j => if j = i then γ else G j) c ↔ LostBy cfg G c := by
    intro c
    rw [lost_upd]
    unfold LostBy
    rw [exists_at (P := fun γ : Ghost => c ∈ γ.tops ∧ pp cfg.steplen c.path ∉ γ.E.map (·.1)) i, hE]
    rfl
  refine h.step (γ := γ) (fun r hr => (hgone r).2 (Or.inl hr)) (fun c hc => (hlost c).2 hc) ⟨g, og, ?_, ?_⟩ (.over rfl rfl) ?_ ?_ ?_
  · rw [hdb, hrows, List.filter_map, List.filter_filter]
    congr 1
    refine List.filter_congr (fun r hr => ?_)
    simp only [Function.comp]
    rw [← Bool.not_or, hmg g og]
    congr 1
    rw [Bool.eq_iff_iff, Bool.or_eq_true, decide_eq_true_iff, decide_eq_true_iff, hgone]
    by_cases hg : GoneBy G r
    · simp [hg]
    · rw [hm r hr hg]; simp [hg]
  · intro r hr
    rw [hnum r hr]
    congr 1
    refine List.countP_congr (fun c hc => ?_)
    simp only [Bool.and_eq_true, decide_eq_true_eq, Bool.not_eq_true', decide_eq_false_iff_not, hlost]
  · exact ⟨ho.sub, ho.nodup, by simp [γ], by simp [γ]⟩
  · exact fun c hc d hd ed => (hlost d).2 (h.leaf i c hc d hd ed)
  · exact fun _ r hr hs => (h.cover i hst r hr hs).imp_left (fun hg => (hgone r).2 (Or.inl hg))

/-- Django reads the keys -/
theorem DelInv.collect {s : State ι DB DelPlace} (h : DelInv cfg rows S s G) {i : ι} (hE : (G i).E = []) (hd : (G i).done = false) (hst : s.place i ≠ .start)
    {pks : List Nat} {paths : List (List Nat)} {ks : List Nat} (hk : ∀ r ∈ rows, ¬ GoneBy G r → (r.pk ∈ ks ↔ (G i).Hits r)) :
    DelInv cfg rows S ⟨s.db, fun j => if j = i then .collected pks paths ks else s.place j⟩ G := by
  refine ⟨h.left, ?_, h.own, h.leaf, ?_⟩
  · intro j
    by_cases e : j = i
    · subst e; simp only [if_true]; exact .collected hd hE hk
    · simp only [if_neg e]; exact h.sees j
  · intro j hj
    by_cases e : j = i
    · subst e; exact h.cover j hst
    · simp only [if_neg e] at hj; exact h.cover j hj

theorem delInv_step (hok : cfg.Ok) (hch : ChosenOnce S) (hI : PInv cfg rows) {fast : ι → Bool} {s : State ι DB DelPlace} (h : DelInv cfg rows S s G) {i : ι} {db : DB} {l : DelPlace}
    (e : delProg cfg (fast i) (fun r => S i r.pk) s.db (s.place i) = some (db, l)) :
    ∃ G', DelInv cfg rows S ⟨db, fun j => if j = i then l else s.place j⟩ G' := by
  classical
  have hsee := h.sees i
  generalize hpl : s.place i = pl at e hsee
  have hsub : ∀ c ∈ (G i).tops, c ∈ rows := fun c hc => ((h.own i).sub c hc).1
  cases hsee with
  | start hG =>
    simp only [delProg, Option.some.injEq, Prod.mk.injEq] at e
    obtain ⟨rfl, rfl⟩ := e
    obtain ⟨γ, hγ⟩ := h.read hok hI hpl
    exact ⟨_, hγ⟩
  | todo hd =>
    cases hE : (G i).E with
    | cons x E =>
      rw [hE] at e
      simp only [List.map_cons, List.cons_append, delProg, Option.some.injEq, Prod.mk.injEq] at e
      obtain ⟨rfl, rfl⟩ := e
      exact ⟨_, h.lower hch hI hE hd⟩
    | nil =>
      rw [hE] at e
      simp only [List.map_nil, List.nil_append, delProg] at e
      have hst : s.place i ≠ .start := by rw [hpl]; simp
      split at e
      · simp only [Option.some.injEq, Prod.mk.injEq] at e
        obtain ⟨rfl, rfl⟩ := e
        refine ⟨_, h.finish hE hst (m := delMatches ((G i).tl.map Row.pk) ((G i).tp.map Row.path)) rfl ?_ (fun r hr _ => hits_iff hI hsub hr)⟩
        intro g og r
        unfold delMatches
        rw [og.pk, og.path]
      · simp only [Option.some.injEq, Prod.mk.injEq] at e
        obtain ⟨rfl, rfl⟩ := e
        refine ⟨_, h.collect hE hd hst ?_⟩
        intro r hr hg
        rw [← hits_iff hI hsub hr]
        obtain ⟨g, og, hrows, _⟩ := h.left
        have hmg : ∀ r, delMatches ((G i).tl.map Row.pk) ((G i).tp.map Row.path) (g r) = delMatches ((G i).tl.map Row.pk) ((G i).tp.map Row.path) r := by
          intro r
          unfold delMatches
          rw [og.pk, og.path]
        rw [List.mem_map]
        constructor
        · rintro ⟨x, hx, ex⟩
          obtain ⟨h1, h2⟩ := List.mem_filter.1 hx
          rw [hrows] at h1
          obtain ⟨q, hq, rfl⟩ := List.mem_map.1 h1
          rw [og.pk] at ex
          have := hI.inv.pk_inj (List.mem_filter.1 hq).1 hr ex
          subst this
          rwa [hmg] at h2
        · intro hm
          refine ⟨g r, List.mem_filter.2 ⟨?_, by rw [hmg]; exact hm⟩, og.pk r⟩
          rw [hrows]
          exact List.mem_map_of_mem (List.mem_filter.2 ⟨hr, by simp [hg]⟩)
  | over hd hE => simp [delProg] at e
  | collected hd hE hk =>
    rename_i pks paths ks
    simp only [delProg, Option.some.injEq, Prod.mk.injEq] at e
    obtain ⟨rfl, rfl⟩ := e
    refine ⟨_, h.finish hE (by rw [hpl]; simp) (m := fun r => ks.contains r.pk) rfl ?_ ?_⟩
    · intro g og r
      simp only [og.pk]
    · intro r hr hg
      rw [List.contains_iff_mem]
      exact hk r hr hg

theorem delInv_reach (hok : cfg.Ok) (hch : ChosenOnce S) {db : DB} (hI : Inv cfg db.rows) {fast : ι → Bool} {s : State ι DB DelPlace}
    (h : Reach (fun i => delProg cfg (fast i) (fun r => S i r.pk)) (.init .start db) s) : ∃ G, DelInv cfg db.rows S s G := by
  classical
  refine h.keeps (P := fun s => ∃ G, DelInv cfg db.rows S s G) ?_ (fun s i db' l ⟨G, hs⟩ e => delInv_step hok hch hI.toPInv hs e)
  refine ⟨fun _ => ⟨[], [], [], false⟩, ⟨fun r => r, .id, ?_, ?_⟩, fun i => .start rfl, ?_, ?_, ?_⟩
  · show db.rows = _
    rw [List.map_id']
    symm
    rw [List.filter_eq_self]
    intro r _
    rw [Bool.not_eq_true', decide_eq_false_iff_not]
    rintro ⟨i, h1, _⟩
    cases h1
  · intro r hr
    rw [hI.num r hr, length_PF_pp hI.toPInv hr]
    congr 1
    refine List.countP_congr (fun c hc => ?_)
    have hl : ¬ LostBy cfg (fun _ : ι => (⟨[], [], [], false⟩ : Ghost)) c := by
      rintro ⟨i, h1, _⟩
      cases h1
    simp [hl]
  · intro i
    exact ⟨by simp [Ghost.tops], by simp [Ghost.tops], by simp, by simp⟩
  · intro i c hc; cases hc
  · intro i hi; exact absurd rfl hi

/-! ### When nobody is under way -/

/-- nobody is under way -/
def Quiet (place : ι → DelPlace) : Prop := ∀ i, place i = .start ∨ place i = .todo []

omit [DecidableEq ι] in
theorem DelInv.quiet_done {s : State ι DB DelPlace} (h : DelInv cfg rows S s G) (hq : Quiet s.place) (i : ι) :
    (s.place i = .start ∧ (G i).tops = [] ∧ (G i).done = false) ∨ (s.place i = .todo [] ∧ (G i).done = true ∧ (G i).E = []) := by
  have hs := h.sees i
  rcases hq i with e | e
  · rw [e] at hs
    cases hs with
    | start hG => exact Or.inl ⟨e, by rw [hG]; rfl, by rw [hG]⟩
  · rw [e] at hs
    generalize hl : DelPlace.todo [] = l at hs
    cases hs with
    | over h1 h2 => exact Or.inr ⟨e, h1, h2⟩
    | todo h1 =>
      injection hl with hl
      exact absurd hl.symm (by simp)
    | _ => cases hl

omit [DecidableEq ι] in
/-- a branch of which the client removes the top goes -/
theorem DelInv.branch_gone (hok : cfg.Ok) (hI : PInv cfg rows) {s : State ι DB DelPlace} (h : DelInv cfg rows S s G) (hq : Quiet s.place) :
    ∀ (n : Nat) (i : ι) (c r : Row), c ∈ (G i).tops → r ∈ rows → c.path <+: r.path → r.path.length - c.path.length ≤ n → GoneBy G r := by
  have hstep : 0 < cfg.steplen := by have := hok.step; omega
  intro n
  induction n with
  | zero =>
    intro i c r hc hr hp hn
    have hcr := ((h.own i).sub c hc).1
    have : c = r := hI.inv.path_inj hcr hr (hp.eq_of_length (by have := hp.length_le; omega))
    subst this
    rcases h.quiet_done hq i with ⟨_, e, _⟩ | ⟨_, hd, _⟩
    · rw [e] at hc; cases hc
    · refine ⟨i, hd, ?_⟩
      rcases List.mem_append.1 hc with hc | hc
      · exact Or.inl hc
      · exact Or.inr ⟨c, hc, List.prefix_refl _⟩
  | succ n ih =>
    intro i c r hc hr hp hn
    have hcr := ((h.own i).sub c hc).1
    rcases h.quiet_done hq i with ⟨_, e, _⟩ | ⟨_, hd, _⟩
    · rw [e] at hc; cases hc
    · rcases List.mem_append.1 hc with hc' | hc'
      · by_cases hcr' : c = r
        · subst hcr'; exact ⟨i, hd, Or.inl hc'⟩
        · obtain ⟨k, hk, hor⟩ := ((desc_iff hI.inv hstep hcr hr).2 ⟨hp, hcr'⟩).cases_head
          obtain ⟨d, hdr, hpar, rfl⟩ := (mem_pforest hI.inv).1 hk
          have hpd : pp cfg.steplen d.path = c.path := by
            obtain ⟨q, hq', e, ek⟩ := (parOf_eq_some hI.inv).1 hpar
            rw [← e, hI.inv.pk_inj hq' hcr ek]
          have hdp : d.path <+: r.path := by
            rcases hor with e | hdesc
            · rw [hI.inv.pk_inj hdr hr e.symm]; exact List.prefix_refl _
            · exact ((desc_iff hI.inv hstep hdr hr).1 hdesc).1
          obtain ⟨j, hj, _⟩ := h.leaf i c hc' d hdr hpd
          refine ih j d r hj hr hdp ?_
          have h1 := (hI.inv.len d hdr).2
          have h2 : (pp cfg.steplen d.path).length = d.path.length - cfg.steplen := by unfold pp; rw [List.length_take]; omega
          have h3 := (hI.inv.len d hdr).1
          have h4 := hdp.length_le
          rw [hpd] at h2
          omega
      · exact ⟨i, hd, Or.inr ⟨c, hc', hp⟩⟩

omit [DecidableEq ι] in
theorem DelInv.gone_iff (hok : cfg.Ok) (hI : PInv cfg rows) {s : State ι DB DelPlace} (h : DelInv cfg rows S s G) (hq : Quiet s.place) {r : Row} (hr : r ∈ rows) :
    GoneBy G r ↔ ∃ i, s.place i ≠ .start ∧ doomed rows (fun r => S i r.pk) r = true := by
  constructor
  · rintro ⟨i, hd, hh⟩
    have hst : s.place i ≠ .start := by
      rcases h.quiet_done hq i with ⟨_, _, e⟩ | ⟨e, _⟩
      · rw [e] at hd; cases hd
      · rw [e]; simp
    rcases hh with hh | ⟨c, hc, hp⟩
    · have := (h.own i).sub r (List.mem_append_left _ hh)
      exact ⟨i, hst, doomed_iff.2 ⟨r, hr, this.2, List.prefix_refl _⟩⟩
    · have := (h.own i).sub c (List.mem_append_right _ hc)
      exact ⟨i, hst, doomed_iff.2 ⟨c, this.1, this.2, hp⟩⟩
  · rintro ⟨i, hst, hd⟩
    obtain ⟨q, hqr, hs, hp⟩ := doomed_iff.1 hd
    rcases h.cover i hst q hqr hs with ⟨j, hj, hh⟩ | ⟨c, hc, hcp⟩
    · rcases hh with hh | ⟨c, hc, hcp⟩
      · exact h.branch_gone hok hI hq _ j q r (List.mem_append_left _ hh) hr hp (Nat.le_refl _)
      · exact ⟨j, hj, Or.inr ⟨c, hc, hcp.trans hp⟩⟩
    · exact h.branch_gone hok hI hq _ i c r hc hr (hcp.trans hp) (Nat.le_refl _)

omit [DecidableEq ι] in
/-- What is left when nobody is under way. -/
theorem DelInv.quiet_spec (hok : cfg.Ok) (hI : PInv cfg rows) {s : State ι DB DelPlace} (h : DelInv cfg rows S s G) (hq : Quiet s.place) {D : Nat → Bool}
    (hD : ∀ r ∈ rows, D r.pk = true ↔ ∃ i, s.place i ≠ .start ∧ doomed rows (fun r => S i r.pk) r = true) :
    Inv cfg s.db.rows ∧ PF cfg s.db.rows = (PF cfg rows).prune D ∧ data s.db.rows = data (rows.filter (fun r => !D r.pk)) := by
  classical
  obtain ⟨g, og, hrows, hnum⟩ := h.left
  have hG : ∀ r ∈ rows, (GoneBy G r ↔ D r.pk = true) := fun r hr => (h.gone_iff hok hI hq hr).trans (hD r hr).symm
  have hrows : s.db.rows = (rows.filter (fun r => !D r.pk)).map g := by
    rw [hrows]
    congr 1
    refine List.filter_congr (fun r hr => ?_)
    congr 1
    rw [Bool.eq_iff_iff, decide_eq_true_iff]
    exact hG r hr
  have hclosed : ∀ r ∈ rows, ∀ q ∈ rows, q.path = pp cfg.steplen r.path → (!D r.pk) = true → (!D q.pk) = true := by
    intro r hr q hqr e hk
    rw [Bool.not_eq_true', Bool.eq_false_iff] at hk ⊢
    intro hd
    obtain ⟨i, hi, hd⟩ := (hD q hqr).1 hd
    obtain ⟨n, hn, hs, hp⟩ := doomed_iff.1 hd
    exact hk ((hD r hr).2 ⟨i, hi, doomed_iff.2 ⟨n, hn, hs, hp.trans (e ▸ pp_prefix _)⟩⟩)
  have hp := hI.filter hclosed
  refine ⟨⟨hrows ▸ og.pinv hp, ?_⟩, ?_, ?_⟩
  · rw [hrows]
    intro r' hr'
    obtain ⟨r, hr, rfl⟩ := List.mem_map.1 hr'
    obtain ⟨hr0, hk⟩ := List.mem_filter.1 hr
    rw [og.forest hp, og.pk, length_PF_pp hp hr, hnum r hr0, List.countP_filter]
    congr 1
    refine List.countP_congr (fun c hc => ?_)
    simp only [Bool.and_eq_true, decide_eq_true_eq, Bool.not_eq_true', decide_eq_false_iff_not]
    refine and_congr_right fun e => ?_
    rw [← Bool.not_eq_true, ← hG c hc]
    refine not_congr ⟨?_, ?_⟩
    · rintro ⟨j, hj, _⟩
      rcases h.quiet_done hq j with ⟨_, e', _⟩ | ⟨_, hd, _⟩
      · rw [e'] at hj; cases hj
      · refine ⟨j, hd, ?_⟩
        rcases List.mem_append.1 hj with hj | hj
        · exact Or.inl hj
        · exact Or.inr ⟨c, hj, List.prefix_refl _⟩
    · rintro ⟨j, hd, hh⟩
      have hEj : (G j).E = [] := by
        rcases h.quiet_done hq j with ⟨_, _, e'⟩ | ⟨_, _, e'⟩
        · rw [e'] at hd; cases hd
        · exact e'
      rcases hh with hh | ⟨t, ht, htp⟩
      · exact ⟨j, List.mem_append_left _ hh, by rw [hEj]; simp⟩
      · by_cases htc : t = c
        · subst htc
          exact ⟨j, List.mem_append_right _ ht, by rw [hEj]; simp⟩
        · have htr := ((h.own j).sub t (List.mem_append_right _ ht)).1
          have := prefix_pp hI.inv htr hc htp htc
          rw [e] at this
          have hg : GoneBy G r := ⟨j, hd, Or.inr ⟨t, ht, this⟩⟩
          rw [(hG r hr0).1 hg] at hk
          cases hk
  · rw [hrows, og.forest hp]
    refine del_prune hI.inv hclosed ?_ (shows_pforest hI.inv) (shows_pforest (del_inv hI.inv hclosed))
    intro r hr
    rw [Bool.not_not]
  · rw [hrows]
    exact data_map og.pk og.vals _

end Verif.MP
