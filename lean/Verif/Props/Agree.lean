/-
C41: the four implementations give the same forest.
-/
import Verif.Props.MPHistorySorted
import Verif.Props.NSHistory
import Verif.Props.ALHistory
import Verif.Props.LTHistory

namespace Verif

/-- **C41, NS and AL**: every history without `node_order_by` gives the same nodes and the same ordered forest. -/
theorem C41_ns_al {ncfg : NS.Cfg} {acfg : AL.Cfg} (hn : ncfg.ordered = false) (ha : acfg.ordered = false) (ops : List Op) :
    NS.forest (NS.runOps ncfg { rows := [] } ops) = AL.forest acfg (AL.runOps acfg ⟨[]⟩ ops) ∧
    ∀ k, k ∈ (NS.runOps ncfg { rows := [] } ops).rows.map NS.Row.pk ↔ k ∈ (AL.runOps acfg ⟨[]⟩ ops).rows.map AL.Row.pk := by
  have h1 := NS.C41_ns hn ops
  have h2 := AL.C41_al ha ops
  exact ⟨h1.forest.trans h2.forest.symm, fun k => (h1.ids k).trans (h2.ids k).symm⟩

/-- **C41, MP and NS**: the same for histories that MP has room for. -/
theorem C41_mp_ns_partial {mcfg : MP.Cfg} {ncfg : NS.Cfg} (hok : mcfg.Ok) (hm : mcfg.ordered = false) (hn : ncfg.ordered = false) {ops : List Op}
    (hg : MP.Guarded mcfg { rows := [] } ops) (hr : MP.Roomy mcfg { rows := [] } ops) :
    MP.forest mcfg (MP.runOps mcfg { rows := [] } ops) = NS.forest (NS.runOps ncfg { rows := [] } ops) ∧
    ∀ k, k ∈ (MP.runOps mcfg { rows := [] } ops).rows.map MP.Row.pk ↔ k ∈ (NS.runOps ncfg { rows := [] } ops).rows.map NS.Row.pk := by
  have h1 := C41_mp hok hm hg hr
  have h2 := NS.C41_ns hn ops
  exact ⟨h1.forest.trans h2.forest.symm, fun k => (h1.ids k).trans (h2.ids k).symm⟩

/-- **C41, LT and NS**: the same nodes with the same parents, up to the order of siblings, if there are never 702 roots; and exactly the
same forest for histories that are smooth for LT. -/
theorem C41_lt_ns_partial {lcfg : LT.Cfg} {ncfg : NS.Cfg} (hl : lcfg.ordered = false) (hn : ncfg.ordered = false) {ops : List Op}
    (hg : ∀ n, (NS.forest (NS.runOps ncfg { rows := [] } (ops.take n)) none).length < 702) :
    (NS.forest (NS.runOps ncfg { rows := [] } ops)).Near (LT.forest (LT.runOps lcfg ⟨[], []⟩ ops)) ∧
    (LT.SmoothHistory lcfg ⟨[], []⟩ ops → LT.forest (LT.runOps lcfg ⟨[], []⟩ ops) = NS.forest (NS.runOps ncfg { rows := [] } ops)) := by
  have h2 := NS.C41_ns hn ops
  refine ⟨?_, fun hs => ?_⟩
  · rw [h2.forest]
    refine (LT.C41_lt_parents_partial hl (fun n => ?_)).forest
    rw [← (NS.C41_ns hn (ops.take n)).forest]
    exact hg n
  · exact (LT.C41_lt_partial hl hs).forest.trans h2.forest.symm

/-- **C41 with `node_order_by`, MP and NS**, no null order fields. -/
theorem C41_mp_ns_sorted_partial {mcfg : MP.Cfg} {ncfg : NS.Cfg} (hok : mcfg.Ok) (hm : mcfg.ordered = true) (he : ncfg.orderBy = mcfg.orderBy)
    {ops : List Op} (hr : MP.Roomy mcfg { rows := [] } ops) (hnn : ∀ op ∈ ops, NoNulls mcfg.orderBy op) :
    MP.forest mcfg (MP.runOps mcfg { rows := [] } ops) = NS.forest (NS.runOps ncfg { rows := [] } ops) := by
  have h1 := C41_mp_sorted hok hm hnn hr
  have hn : ncfg.ordered = true := by unfold NS.Cfg.ordered; rw [he]; exact hm
  have h2 := (NS.C41_ns_sorted hn (by rw [he]; exact hnn)).1
  rw [he] at h2
  exact h1.forest.trans h2.forest.symm

/-- **C41 with `node_order_by`, AL and NS**, for rows with order fields that are not null and differ. -/
theorem C41_al_ns_sorted_partial {acfg : AL.Cfg} {ncfg : NS.Cfg} (hm : acfg.ordered = true) (he : ncfg.orderBy = acfg.orderBy)
    {ops : List Op} (hd : AL.AddsDistinct acfg.orderBy ops) (hnn : ∀ op ∈ ops, NoNulls acfg.orderBy op) :
    AL.forest acfg (AL.runOps acfg ⟨[]⟩ ops) = NS.forest (NS.runOps ncfg { rows := [] } ops) := by
  have h1 := AL.C41_al_sorted_adds_partial hm hd
  have hn : ncfg.ordered = true := by unfold NS.Cfg.ordered; rw [he]; exact hm
  have h2 := (NS.C41_ns_sorted hn (by rw [he]; exact hnn)).1
  rw [he] at h2
  exact h1.forest.trans h2.forest.symm

/-- one history on all four -/
example : MP.Guarded MP.exCfg { rows := [] } exOps ∧ MP.Roomy MP.exCfg { rows := [] } exOps ∧
    MP.forest MP.exCfg (MP.runOps MP.exCfg { rows := [] } exOps) none = NS.forest (NS.runOps ⟨[]⟩ { rows := [] } exOps) none ∧
    AL.forest AL.exPlain (AL.runOps AL.exPlain ⟨[]⟩ exOps) none = NS.forest (NS.runOps ⟨[]⟩ { rows := [] } exOps) none := by
  refine ⟨exOps_guarded, by simp only [MP.Roomy, exOps]; decide, by decide, by decide⟩

end Verif
