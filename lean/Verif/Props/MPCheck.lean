/-
C13 and C15: `fix_tree()` and `find_problems()` of the materialized path backend.
-/
import Verif.Props.MPAdd
import Verif.MP.Check

namespace Verif

open MP

variable {cfg : Cfg} {db : DB}

/-! ### C15 -/

/-- **C15.** For every table content whatsoever, `find_problems()` returns five empty lists exactly when every path uses only
alphabet characters, has a length that is a multiple of `steplen`, has its parent path in the table, and every depth
and children count is right (`RowsSound` says this without any helper of the code). -/
theorem C15_find_problems (hok : cfg.Ok) (db : DB) :
    (∀ p, findProblems cfg db none p = []) ↔ RowsSound cfg db.rows := findProblems_iff hok

/-- **C15**, the other half: no node is listed twice, in one list or in two. -/
theorem C15_listed_once (hn : (db.rows.map Row.pk).Nodup) (parent : Option Row) :
    (∀ p, (findProblems cfg db parent p).Nodup) ∧
    ∀ p q k, k ∈ findProblems cfg db parent p → k ∈ findProblems cfg db parent q → p = q :=
  ⟨fun p => findProblems_nodup hn parent p, fun _ _ _ h1 h2 => findProblems_disjoint hn h1 h2⟩

/-- what each of the five lists is for: the first thing wrong with the row -/
def FirstWrong (cfg : Cfg) (rows : List Row) (r : Row) : Problem → Prop
  | .evilChars => ∃ c ∈ r.path, c ∉ cfg.alphabet
  | .badSteplen => (∀ c ∈ r.path, c ∈ cfg.alphabet) ∧ ¬ cfg.steplen ∣ r.path.length
  | .orphan => (∀ c ∈ r.path, c ∈ cfg.alphabet) ∧ cfg.steplen ∣ r.path.length ∧ cfg.steplen < r.path.length ∧
      ∀ q ∈ rows, ∀ s, s.length = cfg.steplen → r.path ≠ q.path ++ s
  | .wrongDepth => (∀ c ∈ r.path, c ∈ cfg.alphabet) ∧ cfg.steplen ∣ r.path.length ∧
      (cfg.steplen < r.path.length → ∃ q ∈ rows, ∃ s, s.length = cfg.steplen ∧ r.path = q.path ++ s) ∧
      r.path.length ≠ r.depth * cfg.steplen
  | .wrongNumchild => (∀ c ∈ r.path, c ∈ cfg.alphabet) ∧ cfg.steplen ∣ r.path.length ∧
      (cfg.steplen < r.path.length → ∃ q ∈ rows, ∃ s, s.length = cfg.steplen ∧ r.path = q.path ++ s) ∧
      r.path.length = r.depth * cfg.steplen ∧
      r.numchild ≠ ((rows.filter (fun q => childPath cfg.steplen r.path q.path)).length : Int)

/-- **C15**, each list: when all characters and lengths are right the five lists contain exactly the nodes whose first
problem they are for; the first two lists are exact on every table. -/
theorem C15_lists (hok : cfg.Ok) (parent : Option Row) (p : Problem) (k : Nat)
    (hgood : p = .wrongNumchild → (∀ r ∈ db.rows, ∀ c ∈ r.path, c ∈ cfg.alphabet) ∧ ∀ r ∈ db.rows, cfg.steplen ∣ r.path.length) :
    k ∈ findProblems cfg db parent p ↔
      ∃ r ∈ db.rows, r.pk = k ∧ (∀ q, parent = some q → q.path <+: r.path) ∧ FirstWrong cfg db.rows r p := by
  have hs := hok.step
  have hmem : k ∈ findProblems cfg db parent p ↔ ∃ r ∈ db.rows, r.pk = k ∧ (∀ q, parent = some q → q.path <+: r.path) ∧
      problemOf cfg db r = some p := by
    unfold findProblems
    simp only [List.mem_map, List.mem_filter, mem_orderByPath, beq_iff_eq]
    have hb : ∀ r, inBranch parent r = true ↔ ∀ q, parent = some q → q.path <+: r.path := by
      intro r; cases parent <;> simp [inBranch]
    constructor
    · rintro ⟨r, ⟨⟨hr, hb1⟩, hp⟩, hk⟩; exact ⟨r, hr, hk, (hb r).1 hb1, hp⟩
    · rintro ⟨r, hr, hk, hb1, hp⟩; exact ⟨r, ⟨⟨hr, (hb r).2 hb1⟩, hp⟩, hk⟩
  rw [hmem]
  have key : ∀ r ∈ db.rows, (problemOf cfg db r = some p ↔ FirstWrong cfg db.rows r p) := by
    intro r hr
    have e1 : (r.path.any (fun c => !cfg.alphabet.contains c)) = true ↔ ∃ c ∈ r.path, c ∉ cfg.alphabet := by simp
    unfold problemOf
    by_cases h1 : ∃ c ∈ r.path, c ∉ cfg.alphabet
    · rw [if_pos (e1.2 h1)]
      have h1' : ¬ ∀ c ∈ r.path, c ∈ cfg.alphabet := by
        intro h; obtain ⟨c, hc, hn⟩ := h1; exact hn (h c hc)
      cases p <;> simp only [FirstWrong, Option.some.injEq, reduceCtorEq, false_iff, true_iff, not_and] <;>
        first | exact h1 | (intro h; exact absurd h h1')
    · have h1' : ∀ c ∈ r.path, c ∈ cfg.alphabet := by
        intro c hc; by_contra hn; exact h1 ⟨c, hc, hn⟩
      rw [if_neg (by rw [e1]; exact h1)]
      by_cases h2 : cfg.steplen ∣ r.path.length
      · rw [if_neg (by simpa using Nat.mod_eq_zero_of_dvd h2)]
        have hpar := getParent_ok_iff (db := db) hok h2
        have hx : (cfg.steplen < r.path.length → ∃ q ∈ db.rows, q.path = pp cfg.steplen r.path) ↔
            (cfg.steplen < r.path.length → ∃ q ∈ db.rows, ∃ s, s.length = cfg.steplen ∧ r.path = q.path ++ s) := by
          constructor <;> intro h hlt <;> obtain ⟨q, hq, e⟩ := h hlt
          · exact ⟨q, hq, (split_step (by omega)).2 e.symm⟩
          · exact ⟨q, hq, ((split_step (by omega)).1 e).symm⟩
        rw [hx] at hpar
        cases h3 : getParent cfg db r with
        | error e =>
          have h3' : ¬ (cfg.steplen < r.path.length → ∃ q ∈ db.rows, ∃ s, s.length = cfg.steplen ∧ r.path = q.path ++ s) := by
            rw [← hpar, h3]; simp
          simp only
          cases p <;> simp only [FirstWrong, Option.some.injEq, reduceCtorEq, false_iff, true_iff, not_and]
          · exact h1
          · exact fun _ h => h h2
          · rw [Classical.not_imp] at h3'
            refine ⟨h1', h2, h3'.1, ?_⟩
            intro q hq s hs' e
            exact h3'.2 ⟨q, hq, s, hs', e⟩
          · exact fun _ _ h => absurd h h3'
          · exact fun _ _ h => absurd h h3'
        | ok o =>
          have h3' := hpar.1 ⟨o, h3⟩
          simp only
          have hdd : r.depth = r.path.length / cfg.steplen ↔ r.path.length = r.depth * cfg.steplen := by
            constructor
            · intro e; rw [e]; exact (Nat.div_mul_cancel h2).symm
            · intro e; rw [e]; exact (Nat.mul_div_cancel _ hs).symm
          by_cases h4 : r.depth = r.path.length / cfg.steplen
          · rw [if_neg (by simpa using h4)]
            have horph : ¬ (cfg.steplen < r.path.length ∧ ∀ q ∈ db.rows, ∀ s, s.length = cfg.steplen → r.path ≠ q.path ++ s) := by
              rintro ⟨hlt, hno⟩
              obtain ⟨q, hq, s, e1, e2⟩ := h3' hlt
              exact hno q hq s e1 e2
            by_cases h5 : (realNumchild cfg db r : Int) = r.numchild
            · rw [if_neg (by simpa using h5)]
              cases p <;> simp only [FirstWrong, reduceCtorEq, false_iff, not_and]
              · exact h1
              · exact fun _ h => h h2
              · exact fun _ _ hlt hno => horph ⟨hlt, hno⟩
              · exact fun _ _ _ h => h (hdd.1 h4)
              · intro _ _ _ _ h
                obtain ⟨g1, g2⟩ := hgood rfl
                rw [realNumchild_eq hok g1 g2 hr h4] at h5
                exact h h5.symm
            · rw [if_pos h5]
              cases p <;> simp only [FirstWrong, Option.some.injEq, reduceCtorEq, false_iff, true_iff, not_and]
              · exact h1
              · exact fun _ h => h h2
              · exact fun _ _ hlt hno => horph ⟨hlt, hno⟩
              · exact fun _ _ _ h => h (hdd.1 h4)
              · obtain ⟨g1, g2⟩ := hgood rfl
                rw [realNumchild_eq hok g1 g2 hr h4] at h5
                exact ⟨h1', h2, h3', hdd.1 h4, fun h => h5 h.symm⟩
          · rw [if_pos h4]
            have horph : ¬ (cfg.steplen < r.path.length ∧ ∀ q ∈ db.rows, ∀ s, s.length = cfg.steplen → r.path ≠ q.path ++ s) := by
              rintro ⟨hlt, hno⟩
              obtain ⟨q, hq, s, e1, e2⟩ := h3' hlt
              exact hno q hq s e1 e2
            cases p <;> simp only [FirstWrong, Option.some.injEq, reduceCtorEq, false_iff, true_iff, not_and]
            · exact h1
            · exact fun _ h => h h2
            · exact fun _ _ hlt hno => horph ⟨hlt, hno⟩
            · exact ⟨h1', h2, h3', fun h => h4 (hdd.2 h)⟩
            · exact fun _ _ _ h => absurd (hdd.2 h) h4
      · rw [if_pos (by intro h; exact h2 (Nat.dvd_of_mod_eq_zero h))]
        cases p <;> simp only [FirstWrong, Option.some.injEq, reduceCtorEq, false_iff, true_iff, not_and]
        · exact h1
        · exact ⟨h1', h2⟩
        · exact fun _ h => absurd h h2
        · exact fun _ h => absurd h h2
        · exact fun _ h => absurd h h2
  constructor
  · rintro ⟨r, hr, hk, hb, hp⟩; exact ⟨r, hr, hk, hb, (key r hr).1 hp⟩
  · rintro ⟨r, hr, hk, hb, hp⟩; exact ⟨r, hr, hk, hb, (key r hr).2 hp⟩

/-- decimal steps of two characters -/
def badCfg : Cfg := ⟨List.range' 48 10, 2, [], 10⟩

/-- one row with each problem, and a good one -/
def badDB : DB := { rows := [⟨1, [120, 49], 1, 0, []⟩, ⟨2, [48, 49, 50], 1, 0, []⟩, ⟨3, [48, 49, 48, 49], 2, 0, []⟩,
  ⟨4, [48, 50], 7, 0, []⟩, ⟨5, [48, 51], 1, 7, []⟩, ⟨6, [48, 52], 1, 0, []⟩] }

example : badCfg.Ok ∧ findProblems badCfg badDB none .evilChars = [1] ∧ findProblems badCfg badDB none .badSteplen = [2] ∧
    findProblems badCfg badDB none .orphan = [3] ∧ findProblems badCfg badDB none .wrongDepth = [4] ∧
    findProblems badCfg badDB none .wrongNumchild = [5] := ⟨⟨by decide, by decide, by decide⟩, by decide, by decide, by decide, by decide, by decide⟩

/-- **`find_problems` accepts two kinds of rows that no operation writes**: an empty path with depth 0 and a zero step. -/
theorem C15_accepts_degenerate :
    (∀ p, findProblems exCfg { rows := [⟨1, [], 0, 0, []⟩] } none p = []) ∧
    (∀ p, findProblems exCfg { rows := [⟨1, [48], 1, 0, []⟩] } none p = []) := by
  constructor <;> intro p <;> cases p <;> decide

/-! ### C13 -/

/-- the table without depths and children counts -/
def shapes (rows : List Row) : List (Nat × List Nat × Vals) := rows.map (fun r => (r.pk, r.path, r.vals))

/-- Paths as they must be, whatever depths and children counts say. -/
structure PathsSound (cfg : Cfg) (rows : List Row) : Prop where
  chars : ∀ r ∈ rows, ∀ c ∈ r.path, c ∈ cfg.alphabet
  steplen : ∀ r ∈ rows, cfg.steplen ∣ r.path.length
  parent : ∀ r ∈ rows, cfg.steplen < r.path.length → ∃ q ∈ rows, ∃ s, s.length = cfg.steplen ∧ r.path = q.path ++ s

/-- **C13.** `fix_tree()` touches nothing but depths and children counts (on every table, with or without parent); running it
twice is running it once; and whatever depths and children counts were, when the paths are sound `find_problems()`
reports nothing afterwards. -/
theorem C13_fix_tree (hok : cfg.Ok) (db : DB) :
    (∀ parent, shapes (fixTree cfg db parent).rows = shapes db.rows ∧
      (fixTree cfg (fixTree cfg db parent) parent).rows = (fixTree cfg db parent).rows) ∧
    (PathsSound cfg db.rows → ∀ p, findProblems cfg (fixTree cfg db none) none p = []) := by
  refine ⟨fun parent => ⟨?_, fixTree_idem cfg db parent⟩, fun h => ?_⟩
  · rw [fixTree_rows]
    unfold shapes
    rw [List.map_map]
    apply List.map_congr_left
    intro r _
    simp only [Function.comp]
    split <;> rfl
  · refine (findProblems_iff hok).2 ?_
    rw [fixTree_rows]
    simp only [inBranch, if_true]
    refine ⟨?_, ?_, ?_, ?_, ?_⟩
    · intro r hr; obtain ⟨q, hq, rfl⟩ := List.mem_map.1 hr; exact h.chars q hq
    · intro r hr; obtain ⟨q, hq, rfl⟩ := List.mem_map.1 hr; exact h.steplen q hq
    · intro r hr hl; obtain ⟨q, hq, rfl⟩ := List.mem_map.1 hr
      obtain ⟨p, hp, e⟩ := h.parent q hq hl
      exact ⟨_, List.mem_map_of_mem hp, e⟩
    · intro r hr; obtain ⟨q, hq, rfl⟩ := List.mem_map.1 hr
      exact (Nat.div_mul_cancel (h.steplen q hq)).symm
    · intro r hr; obtain ⟨q, hq, rfl⟩ := List.mem_map.1 hr
      rw [filter_paths_length (f := fixedRow cfg db.rows) (fun _ => rfl) db.rows
        (fun p => childPath cfg.steplen (fixedRow cfg db.rows q).path p)]
      rfl

/-- **C13 for a branch.** With a parent, the rows outside its branch stay as they are and `find_problems(parent)` reports
nothing afterwards, if all paths are sound. -/
theorem C13_fix_branch (hok : cfg.Ok) (h : PathsSound cfg db.rows) (q : Row) :
    (∀ r ∈ db.rows, ¬ q.path <+: r.path → r ∈ (fixTree cfg db (some q)).rows) ∧
    ∀ p, findProblems cfg (fixTree cfg db (some q)) (some q) p = [] := by
  have hs := hok.step
  have hpath : ∀ r, (if inBranch (some q) r then fixedRow cfg db.rows r else r).path = r.path := by
    intro r; split <;> rfl
  constructor
  · intro r hr hn
    rw [fixTree_rows, List.mem_map]
    refine ⟨r, hr, ?_⟩
    rw [if_neg]; simpa [inBranch] using hn
  · rw [findProblems_nil_iff]
    intro r' hr' hb'
    have hr'' := hr'
    rw [fixTree_rows] at hr'
    obtain ⟨r, hr, rfl⟩ := List.mem_map.1 hr'
    have hb : inBranch (some q) r = true := by
      have : ∀ r : Row, inBranch (some q) r = q.path.isPrefixOf r.path := fun _ => rfl
      rw [this, hpath, ← this] at hb'
      exact hb'
    have hc : ∀ r ∈ (fixTree cfg db (some q)).rows, ∀ c ∈ r.path, c ∈ cfg.alphabet := by
      intro r hr; rw [fixTree_rows] at hr; obtain ⟨s, hs, rfl⟩ := List.mem_map.1 hr
      rw [hpath]; exact h.chars s hs
    have hl : ∀ r ∈ (fixTree cfg db (some q)).rows, cfg.steplen ∣ r.path.length := by
      intro r hr; rw [fixTree_rows] at hr; obtain ⟨s, hs, rfl⟩ := List.mem_map.1 hr
      rw [hpath]; exact h.steplen s hs
    rw [if_pos hb] at hr'' ⊢
    rw [problemOf_none_iff]
    refine ⟨h.chars r hr, Nat.mod_eq_zero_of_dvd (h.steplen r hr), ?_, rfl, ?_⟩
    · rw [getParent_ok_iff hok (r := fixedRow cfg db.rows r) (h.steplen r hr)]
      intro hlt
      obtain ⟨p, hp, e⟩ := h.parent r hr hlt
      refine ⟨_, by rw [fixTree_rows]; exact List.mem_map_of_mem hp, ?_⟩
      rw [hpath]
      exact ((split_step (by exact Nat.le_of_lt hlt)).1 e).symm
    · rw [realNumchild_eq hok hc hl hr'' rfl]
      simp only [fixedRow]
      congr 1
      rw [fixTree_rows]
      exact filter_paths_length hpath db.rows (fun p => childPath cfg.steplen r.path p)

/-- the example tree with all depths and counts spoilt: repaired to the very same table -/
example : PathsSound exCfg exDB.rows ∧
    (fixTree exCfg { rows := exDB.rows.map (fun r => { r with depth := 77, numchild := r.pk }) } none).rows = exDB.rows := by
  have h := ((findProblems_iff exCfg_ok).1 exDB_consistent.problems)
  exact ⟨⟨h.chars, h.steplen, h.parent⟩, by decide⟩

end Verif
