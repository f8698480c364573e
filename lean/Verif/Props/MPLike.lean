/-
C58: MP on a database whose LIKE ignores case.

Spec: no two characters of `alphabet` are equal for LIKE; all paths are texts over the alphabet.  Then every function that filters on
`path__startswith` does what it does where LIKE is exact, and so all the other theorems on MP apply.  The default alphabet satisfies
this; an alphabet with letters in both cases does not, and then branches are mixed up on SQLite.
-/
import Verif.MP.Like
import Verif.Props.MPAdd

namespace Verif

open MP

variable {cfg : Cfg} {db : DB} {fold : Nat → Nat}

theorem rowsOver_of_consistent (hok : cfg.Ok) (h : MP.Consistent cfg db) : RowsOver cfg.alphabet db.rows :=
  fun r hr => ((consistent_iff (db := db) hok).1 h).chars r hr

theorem like_sibling (hok : cfg.Ok) (hc : CaseSafe fold cfg.alphabet) (h : RowsOver cfg.alphabet db.rows) {target : Row}
    (ht : Over cfg.alphabet target.path) (pos : Option Pos) (new : Row) :
    addSiblingE (.like fold cfg) cfg db target pos new = addSibling cfg db target pos new :=
  addSiblingE_eq (fun _ _ _ hs => reorderE_like hc hok h ht hs (fun _ e => by cases e)) (fun _ _ _ _ _ _ _ _ _ => rfl)

/-- **C58** Adding nodes. -/
theorem C58_add (hok : cfg.Ok) (hc : CaseSafe fold cfg.alphabet) (h : MP.Consistent cfg db) (new : Row) :
    addRootE (.like fold cfg) cfg db new = addRoot cfg db new ∧
    (∀ target, addChildE (.like fold cfg) cfg db target new = addChild cfg db target new) ∧
    (∀ target ∈ db.rows, ∀ pos, addSiblingE (.like fold cfg) cfg db target pos new = addSibling cfg db target pos new) := by
  have ho := rowsOver_of_consistent hok h
  exact ⟨addRootE_eq fun t ht => like_sibling hok hc ho (ho t ht) _ _, fun target => addChildE_eq fun t ht => like_sibling hok hc ho (ho t ht) _ _,
    fun t ht pos => like_sibling hok hc ho (ho t ht) pos _⟩

/-- **C58** Moving. -/
theorem C58_move (hok : cfg.Ok) (hc : CaseSafe fold cfg.alphabet) (h : MP.Consistent cfg db) {node target : Row} (hn : node ∈ db.rows)
    (ht : target ∈ db.rows) (pos : Option Pos) : moveE (.like fold cfg) cfg db node target pos = move cfg db node target pos := by
  have ho := rowsOver_of_consistent hok h
  refine moveE_eq ht fun v _ hv hs _ _ => ⟨reorderE_like hc hok ho (ho _ hv) hs (fun p e => by cases e; exact ho _ hn), fun db' old new _ => ?_⟩
  exact updateParentCountsE_plain db' _ _

/-- **C58** Deleting any query set. -/
theorem C58_delete (hok : cfg.Ok) (hc : CaseSafe fold cfg.alphabet) (h : MP.Consistent cfg db) (sel : Row → Bool) :
    deleteL fold cfg db sel = delete cfg db sel :=
  deleteL_eq hc (rowsOver_of_consistent hok h) sel

/-- **C58** The queries. -/
theorem C58_queries (hok : cfg.Ok) (hc : CaseSafe fold cfg.alphabet) (h : MP.Consistent cfg db) {node : Row} (hn : node ∈ db.rows) :
    (∀ maxDepth, getTreeL fold db (some node) maxDepth = getTree db (some node) maxDepth) ∧
    (∀ includeSelf maxDepth, descendantsL fold db node includeSelf maxDepth = descendants db node includeSelf maxDepth) ∧
    (∀ parent, descendantsGroupCountL fold cfg db parent = descendantsGroupCount cfg db parent) ∧
    (∀ keep, dumpBulkL fold cfg db (some node) keep = dumpBulk cfg db (some node) keep) := by
  have ho := rowsOver_of_consistent hok h
  have hp : ∀ p, some node = some p → Over cfg.alphabet p.path := fun p e => by cases e; exact ho _ hn
  exact ⟨getTreeL_eq hc ho hp, descendantsL_eq hc ho (ho _ hn), descendantsGroupCountL_eq hc ho, dumpBulkL_eq hc ho hp⟩

/-- **C58** Checking and repairing, for any table whose paths are texts over the alphabet. -/
theorem C58_repair (hok : cfg.Ok) (hc : CaseSafe fold cfg.alphabet) (h : ∀ r ∈ db.rows, ∀ c ∈ r.path, c ∈ cfg.alphabet) {parent : Option Row}
    (hp : ∀ p, parent = some p → p ∈ db.rows) :
    (∀ p, findProblemsL fold cfg db parent p = findProblems cfg db parent p) ∧
    fixTreeL fold cfg db parent = fixTree cfg db parent ∧
    (∀ ord, OrdersBy cfg ord → fixTreePathsL fold cfg ord db parent = fixTreePaths cfg ord db parent) := by
  have hp' : ∀ p, parent = some p → Over cfg.alphabet p.path := fun p e => h p (hp p e)
  exact ⟨findProblemsL_eq hc h hp', fixTreeL_eq hc h hp', fun ord ho => fixTreePathsL_eq hc hok ho.perm h hp'⟩

/-- the default alphabet, 0-9A-Z (mp_tree.py:1028) -/
def defaultAlphabet : List Nat := (List.range 10).map (· + 48) ++ (List.range 26).map (· + 65)

/-- **C58** The default alphabet has no two characters that SQLite's LIKE takes for equal. -/
theorem C58_default : CaseSafe asciiFold defaultAlphabet := by decide +kernel

/-- 0-9A-Za-z, the alphabet docs/source/mp_tree.rst:122 gives for PostgreSQL -/
def mixedCfg : Cfg := ⟨(List.range 10).map (· + 48) ++ (List.range 26).map (· + 65) ++ (List.range 26).map (· + 97), 1, [], 255⟩

/-- roots "A" and "a", each with a child -/
def mixedDb : DB := ⟨[⟨1, [65], 1, 1, []⟩, ⟨2, [65, 49], 2, 0, []⟩, ⟨3, [97], 1, 1, []⟩, ⟨4, [97, 49], 2, 0, []⟩], []⟩

example : mixedCfg.Ok := ⟨by decide +kernel, by decide +kernel, by decide⟩

theorem mixed_consistent : MP.Consistent mixedCfg mixedDb :=
  ⟨by decide +kernel, by decide +kernel, by intro p; cases p <;> decide +kernel, by decide +kernel, by decide +kernel⟩

/-- **C58** With letters in both cases in the alphabet, on SQLite the tree of "A" contains the branch of "a", deleting "A" deletes "a",
and moving "A" fails because the rows of the branch "a" are renamed with it. -/
theorem C58_mixed_case_fails : MP.Consistent mixedCfg mixedDb ∧
    (getTreeL asciiFold mixedDb (some ⟨1, [65], 1, 1, []⟩) none).map Row.pk = [1, 2, 3, 4] ∧
    (getTree mixedDb (some ⟨1, [65], 1, 1, []⟩) none).map Row.pk = [1, 2] ∧
    (deleteL asciiFold mixedCfg mixedDb (·.pk == 1)).rows = [] ∧
    (delete mixedCfg mixedDb (·.pk == 1)).rows.map Row.pk = [3, 4] ∧
    (moveE (.like asciiFold mixedCfg) mixedCfg mixedDb ⟨1, [65], 1, 1, []⟩ ⟨3, [97], 1, 1, []⟩ (some .right)).toOption = none ∧
    ((move mixedCfg mixedDb ⟨1, [65], 1, 1, []⟩ ⟨3, [97], 1, 1, []⟩ (some .right)).toOption.map (·.db.rows.map (·.path))) =
      some [[98], [98, 49], [97], [97, 49]] := by
  refine ⟨mixed_consistent, ?_⟩
  decide +kernel

/-- the same tree over the default alphabet -/
def upperCfg : Cfg := ⟨defaultAlphabet, 1, [], 255⟩
/-- roots "A" and "B", each with a child -/
def upperDb : DB := ⟨[⟨1, [65], 1, 1, []⟩, ⟨2, [65, 49], 2, 0, []⟩, ⟨3, [66], 1, 1, []⟩, ⟨4, [66, 49], 2, 0, []⟩], []⟩

example : upperCfg.Ok ∧ CaseSafe asciiFold upperCfg.alphabet ∧ MP.Consistent upperCfg upperDb :=
  ⟨⟨by decide +kernel, by decide +kernel, by decide⟩, C58_default,
    ⟨by decide +kernel, by decide +kernel, by intro p; cases p <;> decide +kernel, by decide +kernel, by decide +kernel⟩⟩

end Verif
