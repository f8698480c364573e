/-
Objects of models that inherit from the tree model (multi-table inheritance).
-/

namespace Verif

/-- The class of a node object: 0 is the tree model, the others are models that inherit from it with a table of their own.  The queries of
the managers return objects of the tree model (models.py:180-204 `tree_model`; the fields of the tree are in its table). -/
abbrev Cls := Nat

/-- the class of the objects that the managers' queries return -/
def treeCls : Cls := 0

end Verif
