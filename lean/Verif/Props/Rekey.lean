/-
C104: primary keys are only names.
-/
import Verif.RekeyLemmas
import Verif.Props.NSApi
import Verif.Props.ALApi
import Verif.Props.MPApi
import Verif.Props.LTApi

namespace Verif

/-- keys in another order, with gaps -/
def exNames (k : Nat) : Nat := if k ≤ 9 then 100 - 3 * k else 1000 + k

theorem exNames_inj : Function.Injective exNames := by
  intro a b h
  unfold exNames at h
  split at h <;> split at h <;> omega

namespace NS

variable {f : Nat → Nat} {db db2 : DB}

/-- **C104 for NS**, with and without `node_order_by` -/
theorem C104_ns (hf : Function.Injective f) (cfg : Cfg) (h : Consistent db) (h2 : Consistent db2) (hF : (forest db).Rekeyed f (forest db2))
    (hD : data db2.rows = rekeyData f (data db.rows)) (ops : List ApiOp) :
    (forest ((calls cfg).run db ops)).Rekeyed f (forest ((calls cfg).run db2 (ops.map (ApiOp.rekey f)))) ∧
    data ((calls cfg).run db2 (ops.map (ApiOp.rekey f))).rows = rekeyData f (data ((calls cfg).run db ops).rows) := by
  obtain ⟨-, hs⟩ := C62_ns cfg h ops
  obtain ⟨-, hs2⟩ := C62_ns cfg h2 (ops.map (ApiOp.rekey f))
  have ht := STree.Rekeyed.run hf cfg.orderBy ops (s := ⟨data db.rows, forest db⟩) (s' := ⟨data db2.rows, forest db2⟩) ⟨hF, hD⟩
  exact ⟨by rw [hs.forest, hs2.forest]; exact ht.forest, by rw [hs.data, hs2.data]; exact ht.data⟩

example : Consistent { rows := [] } ∧ (let F := forest ((calls ⟨[]⟩).run { rows := [] } (exApi.map (ApiOp.rekey exNames))); [F none, F (some 97), F (some 88), F (some 82)] = [[97, 88], [85], [94, 82], [79]]) :=
  ⟨empty_consistent, by decide +kernel⟩

end NS

namespace AL

variable {f : Nat → Nat} {cfg : Cfg} {db db2 : DB}

/-- **C104 for AL** -/
theorem C104_al (hf : Function.Injective f) (hord : cfg.ordered = false) (h : Consistent cfg db) (h2 : Consistent cfg db2) (hF : (forest cfg db).Rekeyed f (forest cfg db2))
    (hD : data db2.rows = rekeyData f (data db.rows)) (ops : List ApiOp) :
    (forest cfg ((calls cfg).run db ops)).Rekeyed f (forest cfg ((calls cfg).run db2 (ops.map (ApiOp.rekey f)))) ∧
    data ((calls cfg).run db2 (ops.map (ApiOp.rekey f))).rows = rekeyData f (data ((calls cfg).run db ops).rows) := by
  obtain ⟨-, hs⟩ := C62_al hord h ops
  obtain ⟨-, hs2⟩ := C62_al hord h2 (ops.map (ApiOp.rekey f))
  have ht := STree.Rekeyed.run hf cfg.orderBy ops (s := ⟨data db.rows, forest cfg db⟩) (s' := ⟨data db2.rows, forest cfg db2⟩) ⟨hF, hD⟩
  exact ⟨by rw [hs.forest, hs2.forest]; exact ht.forest, by rw [hs.data, hs2.data]; exact ht.data⟩

/-- **C104 for AL, sorted**: the same nodes below the same parents (their order is computed when they are read, and the database chooses between
equal ones). -/
theorem C104_al_sorted (hf : Function.Injective f) (hord : cfg.ordered = true) (h : Wf cfg db) (h2 : Wf cfg db2) (hF : (forest cfg db).Rekeyed f (forest cfg db2))
    (hD : data db2.rows = rekeyData f (data db.rows)) (ops : List ApiOp) :
    (∀ p, (forest cfg ((calls cfg).run db2 (ops.map (ApiOp.rekey f))) (p.map f)).Perm ((forest cfg ((calls cfg).run db ops) p).map f)) ∧
    data ((calls cfg).run db2 (ops.map (ApiOp.rekey f))).rows = rekeyData f (data ((calls cfg).run db ops).rows) := by
  obtain ⟨-, hs⟩ := C62_al_sorted hord h ops
  obtain ⟨-, hs2⟩ := C62_al_sorted hord h2 (ops.map (ApiOp.rekey f))
  have ht := STree.Rekeyed.run hf cfg.orderBy ops (s := ⟨data db.rows, forest cfg db⟩) (s' := ⟨data db2.rows, forest cfg db2⟩) ⟨hF, hD⟩
  refine ⟨fun p => (hs2.forest (p.map f)).trans ?_, by rw [hs.data, hs2.data]; exact ht.data⟩
  rw [ht.forest p]
  exact ((hs.forest p).map f).symm

example : Consistent exPlain { rows := [] } ∧ Wf exSorted { rows := [] } ∧
    (let F := forest exPlain ((calls exPlain).run { rows := [] } (exApi.map (ApiOp.rekey exNames))); [F none, F (some 97), F (some 88), F (some 82)] = [[97, 88], [85], [94, 82], [79]]) := by
  have hw : ∀ cfg, Wf cfg { rows := [] } := fun _ => wf_of_ai (ai_example id (rows := []) (by decide) (by decide))
  exact ⟨⟨hw _, by decide, by decide⟩, hw _, by decide +kernel⟩

end AL

namespace MP

variable {f : Nat → Nat} {cfg : Cfg} {db db2 : DB} {ord : List Row → List Row}

/-- **C104 for MP** (partial: no call is refused for want of room, and the moves have the room that they do not check) -/
theorem C104_mp_partial (hf : Function.Injective f) (hok : cfg.Ok) (hord : OrdersBy cfg ord) (h : Consistent cfg db) (h2 : Consistent cfg db2)
    (hF : (forest cfg db).Rekeyed f (forest cfg db2)) (hD : data db2.rows = rekeyData f (data db.rows)) {ops : List ApiOp}
    (hg : (calls cfg ord).Guarded (ApiGuard cfg) db ops) (hg2 : (calls cfg ord).Guarded (ApiGuard cfg) db2 (ops.map (ApiOp.rekey f)))
    (hm : (calls cfg ord).made (refuses cfg) db ops = ops) (hm2 : (calls cfg ord).made (refuses cfg) db2 (ops.map (ApiOp.rekey f)) = ops.map (ApiOp.rekey f)) :
    (forest cfg ((calls cfg ord).run db ops)).Rekeyed f (forest cfg ((calls cfg ord).run db2 (ops.map (ApiOp.rekey f)))) ∧
    data ((calls cfg ord).run db2 (ops.map (ApiOp.rekey f))).rows = rekeyData f (data ((calls cfg ord).run db ops).rows) := by
  obtain ⟨-, hs⟩ := C62_mp_partial hok hord h ops hg
  obtain ⟨-, hs2⟩ := C62_mp_partial hok hord h2 (ops.map (ApiOp.rekey f)) hg2
  rw [hm] at hs
  rw [hm2] at hs2
  have ht := STree.Rekeyed.run hf cfg.orderBy ops (s := ⟨data db.rows, forest cfg db⟩) (s' := ⟨data db2.rows, forest cfg db2⟩) ⟨hF, hD⟩
  exact ⟨by rw [hs.forest, hs2.forest]; exact ht.forest, by rw [hs.data, hs2.data]; exact ht.data⟩

example : Consistent exCfg { rows := [] } ∧ (calls exCfg (stableOrder exCfg)).Guarded (ApiGuard exCfg) { rows := [] } exApi ∧
    (calls exCfg (stableOrder exCfg)).Guarded (ApiGuard exCfg) { rows := [] } (exApi.map (ApiOp.rekey exNames)) ∧
    ((calls exCfg (stableOrder exCfg)).made (refuses exCfg) { rows := [] } exApi).length = exApi.length ∧
    ((calls exCfg (stableOrder exCfg)).made (refuses exCfg) { rows := [] } (exApi.map (ApiOp.rekey exNames))).length = exApi.length := by
  refine ⟨⟨by decide, by decide, by intro p; cases p <;> decide, by decide, by decide⟩, ?_, ?_, by decide +kernel, by decide +kernel⟩
  · exact ⟨trivial, trivial, trivial, apiGuard_child (pos := .firstChild) rfl rfl (by decide +kernel), apiGuard_child (pos := .lastChild) rfl rfl (by decide +kernel), trivial,
      trivial, trivial, by rintro ⟨⟩, trivial⟩
  · exact ⟨trivial, trivial, trivial, apiGuard_child (pos := .firstChild) rfl rfl (by decide +kernel), apiGuard_child (pos := .lastChild) rfl rfl (by decide +kernel), trivial,
      trivial, trivial, by rintro ⟨⟩, trivial⟩

end MP

namespace LT

variable {f : Nat → Nat} {db db2 : DB}

/-- **C104 for LT** (partial: no call is refused for want of room, and up to the order of siblings, which depends on the labels, see `C103_lt_fails`) -/
theorem C104_lt_partial (hf : Function.Injective f) (cfg : Cfg) (h : Consistent db) (h2 : Consistent db2) (hF : (forest db).Rekeyed f (forest db2))
    (hD : data db2.rows = rekeyData f (data db.rows)) {ops : List ApiOp} (hm : (calls cfg).made refuses db ops = ops)
    (hm2 : (calls cfg).made refuses db2 (ops.map (ApiOp.rekey f)) = ops.map (ApiOp.rekey f)) :
    (∀ p, (forest ((calls cfg).run db2 (ops.map (ApiOp.rekey f))) (p.map f)).Perm ((forest ((calls cfg).run db ops) p).map f)) ∧
    data ((calls cfg).run db2 (ops.map (ApiOp.rekey f))).rows = rekeyData f (data ((calls cfg).run db ops).rows) := by
  obtain ⟨-, hs⟩ := C62_lt_partial cfg h ops
  obtain ⟨-, hs2⟩ := C62_lt_partial cfg h2 (ops.map (ApiOp.rekey f))
  rw [hm] at hs
  rw [hm2] at hs2
  have ht := STree.Rekeyed.run hf cfg.orderBy ops (s := ⟨data db.rows, forest db⟩) (s' := ⟨data db2.rows, forest db2⟩) ⟨hF, hD⟩
  refine ⟨fun p => (hs2.forest (p.map f)).trans ?_, by rw [hs.data, hs2.data]; exact ht.data⟩
  rw [ht.forest p]
  exact ((hs.forest p).map f).symm

example : Consistent { rows := [] } ∧ ((calls ⟨[]⟩).made refuses { rows := [] } exApi).length = exApi.length ∧
    ((calls ⟨[]⟩).made refuses { rows := [] } (exApi.map (ApiOp.rekey exNames))).length = exApi.length :=
  ⟨consistent_iff.2 (inv_of_check (by decide)), by decide +kernel, by decide +kernel⟩

end LT

end Verif
