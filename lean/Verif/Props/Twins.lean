/-
C103: only the values of the fields of `node_order_by` matter to the tree.
-/
import Verif.TwinLemmas
import Verif.Props.NSApi
import Verif.Props.ALApi
import Verif.Props.MPApi
import Verif.Props.LTApi

namespace Verif

/-- The history `exApi` with other values and other edits -/
def exApiTwin : List ApiOp :=
  [.load none (.cons (1, [some 1]) (.cons (2, [some 8]) .nil (.cons (3, []) .nil .nil)) (.cons (4, [none]) .nil .nil)),
   .tree (.addSibling 3 (some .left) 5 [some 0]), .edit 5 [some 4], .tree (.move 2 4 (some .firstChild)), .tree (.move 1 5 (some .lastChild)),
   .tree (.delete [3]), .load (some 4) (.cons (6, [some 9]) (.cons (7, [some 5]) .nil .nil) .nil), .load none (.cons (1, [some 3]) .nil .nil), .fixTree none false]

theorem twin_nil (v w : Vals) : TwinVals [] v w := fun _ h => by cases h

theorem exApi_twin : TwinHist [] exApi exApiTwin :=
  .both (.load (.cons (twin_nil _ _) (.cons (twin_nil _ _) .nil (.cons (twin_nil _ _) .nil .nil)) (.cons (twin_nil _ _) .nil .nil))) <| .left rfl <|
  .both (.addSibling (twin_nil _ _)) <| .right rfl <| .both .move <| .both .move <| .both .delete <|
  .both (.load (.cons (twin_nil _ _) (.cons (twin_nil _ _) .nil .nil) .nil)) <| .both (.load (.cons (twin_nil _ _) .nil .nil)) <| .both .fixTree .nil

/-- The history `exApiSorted` with a second field that is not in `node_order_by` -/
def exApiSortedTwin : List ApiOp :=
  [.load none (.cons (1, [some 5, some 3]) (.cons (2, [some 3, some 1]) .nil (.cons (3, [some 1, some 7]) .nil .nil)) (.cons (4, [some 2, some 0]) .nil .nil)),
   .edit 3 [some 9, none], .tree (.addSibling 3 none 5 [some 7, some 7]), .tree (.move 2 4 (some .sortedChild)), .tree (.move 1 5 (some .sortedChild)),
   .tree (.addSibling 4 (some .left) 8 [some 0, some 6]), .tree (.delete [3]), .load (some 4) (.cons (6, [some 0]) (.cons (7, [some 0, some 2]) .nil .nil) .nil), .edit 4 [some 8, some 9]]

theorem exApiSorted_twin : TwinHist [(0, false)] exApiSorted exApiSortedTwin := by
  have t : ∀ a l l', TwinVals [(0, false)] (a :: l) (a :: l') := by
    intro a l l' e he
    rw [List.mem_singleton.1 he]
    rfl
  exact .both (.load (.cons (t _ _ _) (.cons (t _ _ _) .nil (.cons (t _ _ _) .nil .nil)) (.cons (t _ _ _) .nil .nil))) <| .both (.edit (t _ _ _)) <|
    .both (.addSibling (t _ _ _)) <| .both .move <| .both .move <| .both (.addSibling (t _ _ _)) <| .both .delete <|
    .both (.load (.cons (t _ _ _) (.cons (t _ _ _) .nil .nil) .nil)) <| .both (.edit (t _ _ _)) .nil

namespace NS

variable {db db2 : DB}

/-- **C103 for NS**, with and without `node_order_by` -/
theorem C103_ns (cfg : Cfg) (h : Consistent db) (h2 : Consistent db2) (hF : forest db = forest db2) (hD : TwinData cfg.orderBy (data db.rows) (data db2.rows))
    {ops ops2 : List ApiOp} (ho : TwinHist cfg.orderBy ops ops2) :
    forest ((calls cfg).run db ops) = forest ((calls cfg).run db2 ops2) ∧
    TwinData cfg.orderBy (data ((calls cfg).run db ops).rows) (data ((calls cfg).run db2 ops2).rows) := by
  obtain ⟨-, hs⟩ := C62_ns cfg h ops
  obtain ⟨-, hs2⟩ := C62_ns cfg h2 ops2
  have ht := STree.Twins.run ho (s := ⟨data db.rows, forest db⟩) (s' := ⟨data db2.rows, forest db2⟩) ⟨hF, hD⟩
  exact ⟨by rw [hs.forest, hs2.forest, ht.forest], by rw [hs.data, hs2.data]; exact ht.data⟩

example : Consistent { rows := [] } ∧ TwinHist (⟨[]⟩ : Cfg).orderBy exApi exApiTwin ∧ TwinHist exSorted.orderBy exApiSorted exApiSortedTwin :=
  ⟨empty_consistent, exApi_twin, exApiSorted_twin⟩

end NS

namespace AL

variable {cfg : Cfg} {db db2 : DB}

/-- **C103 for AL** -/
theorem C103_al (hord : cfg.ordered = false) (h : Consistent cfg db) (h2 : Consistent cfg db2) (hF : forest cfg db = forest cfg db2)
    (hD : TwinData cfg.orderBy (data db.rows) (data db2.rows)) {ops ops2 : List ApiOp} (ho : TwinHist cfg.orderBy ops ops2) :
    forest cfg ((calls cfg).run db ops) = forest cfg ((calls cfg).run db2 ops2) ∧
    TwinData cfg.orderBy (data ((calls cfg).run db ops).rows) (data ((calls cfg).run db2 ops2).rows) := by
  obtain ⟨-, hs⟩ := C62_al hord h ops
  obtain ⟨-, hs2⟩ := C62_al hord h2 ops2
  have ht := STree.Twins.run ho (s := ⟨data db.rows, forest cfg db⟩) (s' := ⟨data db2.rows, forest cfg db2⟩) ⟨hF, hD⟩
  exact ⟨by rw [hs.forest, hs2.forest, ht.forest], by rw [hs.data, hs2.data]; exact ht.data⟩

/-- **C103 for AL, sorted**: the same nodes below the same parents (their order is computed when they are read, and the database chooses between
equal ones). -/
theorem C103_al_sorted (hord : cfg.ordered = true) (h : Wf cfg db) (h2 : Wf cfg db2) (hF : forest cfg db = forest cfg db2)
    (hD : TwinData cfg.orderBy (data db.rows) (data db2.rows)) {ops ops2 : List ApiOp} (ho : TwinHist cfg.orderBy ops ops2) :
    (∀ p, (forest cfg ((calls cfg).run db ops) p).Perm (forest cfg ((calls cfg).run db2 ops2) p)) ∧
    TwinData cfg.orderBy (data ((calls cfg).run db ops).rows) (data ((calls cfg).run db2 ops2).rows) := by
  obtain ⟨-, hs⟩ := C62_al_sorted hord h ops
  obtain ⟨-, hs2⟩ := C62_al_sorted hord h2 ops2
  have ht := STree.Twins.run ho (s := ⟨data db.rows, forest cfg db⟩) (s' := ⟨data db2.rows, forest cfg db2⟩) ⟨hF, hD⟩
  refine ⟨fun p => (hs.forest p).trans ?_, by rw [hs.data, hs2.data]; exact ht.data⟩
  rw [ht.forest]
  exact (hs2.forest p).symm

example : Consistent exPlain { rows := [] } ∧ TwinHist exPlain.orderBy exApi exApiTwin ∧ Wf exSorted { rows := [] } ∧ TwinHist exSorted.orderBy exApiSorted exApiSortedTwin := by
  have hw : ∀ cfg, Wf cfg { rows := [] } := fun _ => wf_of_ai (ai_example id (rows := []) (by decide) (by decide))
  exact ⟨⟨hw _, by decide, by decide⟩, exApi_twin, hw _, exApiSorted_twin⟩

end AL

namespace MP

variable {cfg : Cfg} {db db2 : DB} {ord : List Row → List Row}

/-- **C103 for MP** (partial: no call is refused for want of room, and the moves have the room that they do not check) -/
theorem C103_mp_partial (hok : cfg.Ok) (hord : OrdersBy cfg ord) (h : Consistent cfg db) (h2 : Consistent cfg db2) (hF : forest cfg db = forest cfg db2)
    (hD : TwinData cfg.orderBy (data db.rows) (data db2.rows)) {ops ops2 : List ApiOp} (ho : TwinHist cfg.orderBy ops ops2)
    (hg : (calls cfg ord).Guarded (ApiGuard cfg) db ops) (hg2 : (calls cfg ord).Guarded (ApiGuard cfg) db2 ops2)
    (hm : (calls cfg ord).made (refuses cfg) db ops = ops) (hm2 : (calls cfg ord).made (refuses cfg) db2 ops2 = ops2) :
    forest cfg ((calls cfg ord).run db ops) = forest cfg ((calls cfg ord).run db2 ops2) ∧
    TwinData cfg.orderBy (data ((calls cfg ord).run db ops).rows) (data ((calls cfg ord).run db2 ops2).rows) := by
  obtain ⟨-, hs⟩ := C62_mp_partial hok hord h ops hg
  obtain ⟨-, hs2⟩ := C62_mp_partial hok hord h2 ops2 hg2
  rw [hm] at hs
  rw [hm2] at hs2
  have ht := STree.Twins.run ho (s := ⟨data db.rows, forest cfg db⟩) (s' := ⟨data db2.rows, forest cfg db2⟩) ⟨hF, hD⟩
  exact ⟨by rw [hs.forest, hs2.forest, ht.forest], by rw [hs.data, hs2.data]; exact ht.data⟩

example : Consistent exCfg { rows := [] } ∧ TwinHist exCfg.orderBy exApi exApiTwin ∧ (calls exCfg (stableOrder exCfg)).Guarded (ApiGuard exCfg) { rows := [] } exApi ∧
    (calls exCfg (stableOrder exCfg)).Guarded (ApiGuard exCfg) { rows := [] } exApiTwin ∧
    ((calls exCfg (stableOrder exCfg)).made (refuses exCfg) { rows := [] } exApi).length = exApi.length ∧
    ((calls exCfg (stableOrder exCfg)).made (refuses exCfg) { rows := [] } exApiTwin).length = exApiTwin.length := by
  refine ⟨⟨by decide, by decide, by intro p; cases p <;> decide, by decide, by decide⟩, exApi_twin, ?_, ?_, by decide +kernel, by decide +kernel⟩
  · exact ⟨trivial, trivial, trivial, apiGuard_child (pos := .firstChild) rfl rfl (by decide +kernel), apiGuard_child (pos := .lastChild) rfl rfl (by decide +kernel), trivial,
      trivial, trivial, by rintro ⟨⟩, trivial⟩
  · exact ⟨trivial, trivial, trivial, apiGuard_child (pos := .firstChild) rfl rfl (by decide +kernel), apiGuard_child (pos := .lastChild) rfl rfl (by decide +kernel), trivial,
      trivial, trivial, by rintro ⟨⟩, trivial⟩

end MP

namespace LT

variable {db db2 : DB}

/-- **C103 for LT** (partial: no call is refused for want of room, and up to the order of siblings, see `C103_lt_fails`) -/
theorem C103_lt_partial (cfg : Cfg) (h : Consistent db) (h2 : Consistent db2) (hF : forest db = forest db2) (hD : TwinData cfg.orderBy (data db.rows) (data db2.rows))
    {ops ops2 : List ApiOp} (ho : TwinHist cfg.orderBy ops ops2) (hm : (calls cfg).made refuses db ops = ops) (hm2 : (calls cfg).made refuses db2 ops2 = ops2) :
    (∀ p, (forest ((calls cfg).run db ops) p).Perm (forest ((calls cfg).run db2 ops2) p)) ∧
    TwinData cfg.orderBy (data ((calls cfg).run db ops).rows) (data ((calls cfg).run db2 ops2).rows) := by
  obtain ⟨-, hs⟩ := C62_lt_partial cfg h ops
  obtain ⟨-, hs2⟩ := C62_lt_partial cfg h2 ops2
  rw [hm] at hs
  rw [hm2] at hs2
  have ht := STree.Twins.run ho (s := ⟨data db.rows, forest db⟩) (s' := ⟨data db2.rows, forest db2⟩) ⟨hF, hD⟩
  refine ⟨fun p => (hs.forest p).trans ?_, by rw [hs.data, hs2.data]; exact ht.data⟩
  rw [ht.forest]
  exact (hs2.forest p).symm

example : Consistent { rows := [] } ∧ ((calls ⟨[]⟩).made refuses { rows := [] } exApi).length = exApi.length ∧
    ((calls ⟨[]⟩).made refuses { rows := [] } exApiTwin).length = exApiTwin.length :=
  ⟨consistent_iff.2 (inv_of_check (by decide)), by decide +kernel, by decide +kernel⟩

/-- **The labels matter** (violation): two consistent tables that show the same tree with the same data, the roots 4, 1, 3; the same call adds a node at the first place;
the trees differ. -/
theorem C103_lt_fails : ∃ db db2 : DB, Consistent db ∧ Consistent db2 ∧ forest db none = [4, 1, 3] ∧ forest db2 none = [4, 1, 3] ∧ data db.rows = data db2.rows ∧
    forest ((calls ⟨[]⟩).run db [.tree (.addSibling 1 (some .firstSibling) 70 [])]) none ≠ forest ((calls ⟨[]⟩).run db2 [.tree (.addSibling 1 (some .firstSibling) 70 [])]) none :=
  ⟨⟨[⟨1, [[65]], []⟩, ⟨3, [[65, 48]], []⟩, ⟨4, [[48]], []⟩], []⟩, ⟨[⟨1, [[66]], []⟩, ⟨3, [[67]], []⟩, ⟨4, [[65]], []⟩], []⟩,
    consistent_iff.2 (inv_of_check (by decide)), consistent_iff.2 (inv_of_check (by decide)), by decide +kernel, by decide +kernel, by decide, by decide +kernel⟩

end LT

end Verif
