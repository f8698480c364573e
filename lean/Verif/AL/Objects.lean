/-
AL: the queries that go through Django's relation cache.
-/
import Verif.AL.Query
import Verif.SpecCached

namespace Verif.AL

/-- `node.parent`: the related object that the foreign key has cached, or else the stored row, which it then caches.  `up` are the cached objects: the parent,
its cached parent and so on.  (Django code, django/db/models/fields/related_descriptors.py `ForwardManyToOneDescriptor.__get__`.) -/
def parentObj (db : DB) (node : Row) (up : List Row) : Except Err (Option (Row × List Row)) :=
  match up with
  | p :: up => .ok (some (p, up))
  | [] => (getParent db node).map (fun o => o.map (fun p => (p, [])))

/-- al_tree.py:238-250 `get_parent`; a proxy model fetches the row, `update` is not used -/
def getParentObj (proxy : Bool) (db : DB) (node : Row) (up : List Row) : Except Err (Option Row) :=
  if proxy then getParent db node else (parentObj db node up).map (fun o => o.map Prod.fst)

/-- al_tree.py:259-263, the loop of `get_ancestors` -/
def ancestorsObjLoop (db : DB) : Nat → Row → List Row → List Row → Except Err (List Row)
  | 0, _, _, _ => .error .diverges
  | fuel + 1, node, up, acc =>
    match parentObj db node up with
    | .error e => .error e
    | .ok none => .ok acc
    | .ok (some (p, up)) => ancestorsObjLoop db fuel p up (p :: acc)

/-- al_tree.py:252-263 `get_ancestors`, and the objects cached afterwards.  A proxy model fetches every row again and caches nothing. -/
def ancestorsObj (proxy : Bool) (db : DB) (node : Row) (up : List Row) : Except Err (List Row × List Row) :=
  if proxy then (ancestors db node).map (fun l => (l, up))
  else (ancestorsObjLoop db (db.rows.length + up.length + 1) node up []).map (fun l => (l, l.reverse))

/-- al_tree.py:232-236 `get_root` -/
def getRootObj (proxy : Bool) (db : DB) (node : Row) (up : List Row) : Except Err Row :=
  (ancestorsObj proxy db node up).map (fun r => r.1.headD node)

/-- al_tree.py:325-328, the loop of `get_depth` -/
def depthObjLoop (db : DB) : Nat → Row → List Row → Int → Except Err Int
  | 0, _, _, _ => .error .diverges
  | fuel + 1, node, up, depth =>
    match parentObj db node up with
    | .error e => .error e
    | .ok none => .ok (depth + 1)
    | .ok (some (p, up)) => depthObjLoop db fuel p up (depth + 1)

/-- al_tree.py:305-330 `get_depth`; `cached` is the object's `_cached_depth` -/
def getDepthObj (db : DB) (node : Row) (up : List Row) (cached : Option Int) (update : Bool) : Except Err Int :=
  match node.parent with
  | none => .ok 1
  | some _ =>
    match if update then none else cached with
    | some d => .ok d
    | none => depthObjLoop db (db.rows.length + up.length + 1) node up 0

/-- what the cached objects say about the tree -/
def links (up : List Row) : List (Nat × Option Nat) := up.map (fun r => (r.pk, r.parent))

variable {cfg : Cfg} {db : DB}

theorem ancestorsObjLoop_nil (fuel : Nat) (node : Row) (acc : List Row) : ancestorsObjLoop db fuel node [] acc = ancestorsLoop db fuel node acc := by
  induction fuel generalizing node acc with
  | zero => rfl
  | succ n ih =>
    unfold ancestorsObjLoop ancestorsLoop parentObj
    cases getParent db node with
    | error e => rfl
    | ok o =>
      cases o with
      | none => rfl
      | some p => exact ih p _

theorem depthObjLoop_nil (fuel : Nat) (node : Row) (d : Int) : depthObjLoop db fuel node [] d = depthLoop db fuel node d := by
  induction fuel generalizing node d with
  | zero => rfl
  | succ n ih =>
    unfold depthObjLoop depthLoop parentObj
    cases getParent db node with
    | error e => rfl
    | ok o =>
      cases o with
      | none => rfl
      | some p => exact ih p _

theorem getParent_congr {a b : Row} (h : a.parent = b.parent) : getParent db a = getParent db b := by
  unfold getParent; rw [h]

theorem ancestorsLoop_congr {a b : Row} (h : a.parent = b.parent) (fuel : Nat) (acc : List Row) :
    ancestorsLoop db fuel a acc = ancestorsLoop db fuel b acc := by
  cases fuel with
  | zero => rfl
  | succ n => unfold ancestorsLoop; rw [getParent_congr h]

theorem depthLoop_congr {a b : Row} (h : a.parent = b.parent) (fuel : Nat) (d : Int) : depthLoop db fuel a d = depthLoop db fuel b d := by
  cases fuel with
  | zero => rfl
  | succ n => unfold depthLoop; rw [getParent_congr h]

/-- The two loops, from an object with a live cache.  `k` is the key of the object. -/
theorem loops_live (h : AI db.rows) {up : List Row} {node : Row} (hl : (PF cfg db.rows).LiveUp node.parent (links up)) {k : Nat}
    (hk : k ∈ PF cfg db.rows node.parent) :
    ∃ l, (∀ fuel acc, db.rows.length + up.length < fuel → ancestorsObjLoop db fuel node up acc = .ok (l ++ acc)) ∧
      (∀ fuel d, db.rows.length + up.length < fuel → depthObjLoop db fuel node up d = .ok (d + l.length + 1)) ∧
      (PF cfg db.rows).Anc k (l.map Row.pk) ∧ (PF cfg db.rows).Level k (l.length + 1) ∧ (PF cfg db.rows).LiveUp node.parent (links l.reverse) := by
  induction up generalizing node k with
  | nil =>
    obtain ⟨r, hr, hp, rfl⟩ := mem_PF.1 hk
    obtain ⟨l, hc⟩ := chain_exists h hr
    have hlt := hc.length_lt h
    refine ⟨l, ?_, ?_, hc.anc, hc.level, ?_⟩
    · intro fuel acc hf
      rw [ancestorsObjLoop_nil, ancestorsLoop_congr hp.symm, ancestorsLoop_spec h hc _ _ (by simp at hf; omega)]
    · intro fuel d hf
      rw [depthObjLoop_nil, depthLoop_congr hp.symm, depthLoop_spec h hc _ _ (by simp at hf; omega)]
    · rw [← hp]
      clear hlt hp hk hl
      induction hc with
      | root => trivial
      | step hc' hr' hp' ih =>
        rw [List.reverse_append]
        exact ⟨hp', mem_PF.2 ⟨_, hc'.mem, rfl, rfl⟩, ih hc'.mem⟩
  | cons p up ih =>
    obtain ⟨h1, h2, h3⟩ := hl
    obtain ⟨l, ha, hd, hanc, hlev, hlive⟩ := ih h3 h2
    refine ⟨l ++ [p], ?_, ?_, ?_, ?_, ?_⟩
    · intro fuel acc hf
      cases fuel with
      | zero => simp at hf
      | succ n =>
        unfold ancestorsObjLoop parentObj
        simp only
        rw [ha n _ (by simp at hf; omega)]
        simp
    · intro fuel d hf
      cases fuel with
      | zero => simp at hf
      | succ n =>
        unfold depthObjLoop parentObj
        simp only
        rw [hd n _ (by simp at hf; omega)]
        simp only [List.length_append, List.length_singleton]
        congr 1
        push_cast
        omega
    · rw [List.map_append]
      exact .step hanc (h1 ▸ hk)
    · rw [List.length_append]
      exact .child hlev (h1 ▸ hk)
    · rw [List.reverse_append]
      exact ⟨h1, h2, hlive⟩

end Verif.AL
