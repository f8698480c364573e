/-
C42: which arguments create nodes.
-/
import Verif.CreateArgs
import Verif.MP.Example

namespace Verif

variable {κ : Type} (c : Creator κ) (model : List κ → Except Err c.Row)

/-- C42: ValueError if both arguments are given, whatever the table, the target and the position.  Nothing is stored.  (Partial: an empty
dictionary counts as not given here; see `C42_empty_kwargs`.) -/
theorem C42_both_partial {kw : List κ} (hkw : kw ≠ []) (inst : Inst c.Row) : c.run model (some kw) (some inst) = .error .valueError := by
  cases kw with
  | nil => exact absurd rfl hkw
  | cons a l => rfl

/-- C42: ValueError if neither argument is given. -/
theorem C42_neither : c.run model none none = .error .valueError := rfl

/-- C42: NodeAlreadySaved if the instance is already saved. -/
theorem C42_saved {kw : Option (List κ)} (hkw : kw = none ∨ kw = some []) (obj : c.Row) : c.run model kw (some ⟨obj, false⟩) = .error .nodeAlreadySaved := by
  rcases hkw with rfl | rfl <;> rfl

/-- C42: in all other cases exactly the object asked for is added: the instance itself, or a new object with the given values. -/
theorem C42_instance {kw : Option (List κ)} (hkw : kw = none ∨ kw = some []) (obj : c.Row) : c.run model kw (some ⟨obj, true⟩) = c.body obj := by
  rcases hkw with rfl | rfl <;> rfl

theorem C42_kwargs (kw : List κ) {obj : c.Row} (h : model kw = .ok obj) : c.run model (some kw) none = c.body obj := by
  simp [Creator.run, created, checkCreateArgs, newObject, h]

/-- values that the model class does not accept: its error, and nothing is stored -/
theorem C42_bad_kwargs (kw : List κ) {e : Err} (h : model kw = .error e) : c.run model (some kw) none = .error e := by
  simp [Creator.run, created, checkCreateArgs, newObject, h]

/-- **C42 fails for an empty dictionary** with an instance: both arguments are given and the node is added. -/
theorem C42_empty_kwargs : ∃ (c : Creator Nat) (model : List Nat → Except Err c.Row) (inst : Inst c.Row) (r : c.Result), c.run model (some []) (some inst) = .ok r :=
  ⟨.mpRoot MP.exCfg ⟨[], []⟩, fun _ => .error .typeError, ⟨⟨1, [], 0, 0, []⟩, true⟩, (⟨[⟨1, [49], 1, 0, []⟩], []⟩, ⟨1, [49], 1, 0, []⟩),
    show MP.addRoot MP.exCfg ⟨[], []⟩ ⟨1, [], 0, 0, []⟩ = .ok (⟨[⟨1, [49], 1, 0, []⟩], []⟩, ⟨1, [49], 1, 0, []⟩) by decide⟩

/-- Through the methods of the node, `create_kwargs` is always given: without any arguments a node with the default values is created. -/
theorem C42_method_neither : byMethod (c.run model) [] none = created model c.body (some []) none := rfl

theorem C42_method_both {kw : List κ} (hkw : kw ≠ []) (inst : Inst c.Row) : byMethod (c.run model) kw (some inst) = .error .valueError :=
  C42_both_partial c model hkw inst

theorem C42_method_saved (obj : c.Row) : byMethod (c.run model) [] (some ⟨obj, false⟩) = .error .nodeAlreadySaved := rfl

theorem C42_method_instance (obj : c.Row) : byMethod (c.run model) [] (some ⟨obj, true⟩) = c.body obj := rfl

/-! Concrete cases. -/

example : (Creator.mpRoot MP.exCfg MP.exDB).run (fun _ : List Nat => .error .typeError) (some [3]) (some ⟨⟨9, [], 0, 0, []⟩, true⟩) = .error .valueError :=
  C42_both_partial (.mpRoot MP.exCfg MP.exDB) _ (by decide) _

example : (Creator.alSibling ⟨[], id, fun _ => .refl _⟩ ⟨[]⟩ ⟨9, none, 0, []⟩ none).run (fun _ : List Nat => .error .typeError) none (some ⟨⟨9, none, 0, []⟩, false⟩) = .error .nodeAlreadySaved :=
  C42_saved (.alSibling ⟨[], id, fun _ => .refl _⟩ ⟨[]⟩ ⟨9, none, 0, []⟩ none) _ (Or.inl rfl) _

end Verif
