/-
C43: concurrent `add_child` calls (MP).
-/
import Verif.MP.Concurrent

namespace Verif

open MP Txn

variable {ι ℓ : Type} [DecidableEq ι] {cfg : Cfg} {db₀ : DB} {c : ι → Client DB ℓ} {out : ℓ → Row} {target new : ι → Row}

/-- The forest after the additions of these clients, in this order: each new node is the last child of its parent. -/
def appended (F : Forest) (parent new : ι → Nat) (log : List ι) : Forest :=
  log.foldl (fun F i => F.put (some (parent i)) .last (new i)) F

namespace MPConc

/-- What holds of the committed table after the commits of `log`. -/
structure J (cfg : Cfg) (db₀ : DB) (target new : ι → Row) (log : List ι) (db : DB) : Prop where
  consistent : Consistent cfg db
  forest : forest cfg db = appended (forest cfg db₀) (fun i => (target i).pk) (fun i => (new i).pk) log
  data : data db.rows = data db₀.rows ++ log.map fun i => ((new i).pk, (new i).vals)
  fresh : ∀ i, i ∉ log → ∀ r ∈ db.rows, r.pk ≠ (new i).pk
  kept : Kept db₀ db

/-- What is assumed at the start: the new objects are new, and have different keys. -/
structure Start (cfg : Cfg) (db₀ : DB) (new : ι → Row) : Prop where
  ok : cfg.Ok
  unsorted : cfg.ordered = false
  consistent : Consistent cfg db₀
  fresh : ∀ i, Fresh db₀ (new i)
  distinct : ∀ i j, (new i).pk = (new j).pk → i = j

omit [DecidableEq ι] in
theorem J.start (h : Start cfg db₀ new) : J cfg db₀ target new [] db₀ :=
  ⟨h.consistent, rfl, by simp, fun i _ => (h.fresh i).1, .refl _⟩

omit [DecidableEq ι] in
theorem J.add (hs : Start cfg db₀ new) {log : List ι} {db db' : DB} {i : ι} (h : J cfg db₀ target new log db) (hi : i ∉ log)
    {obj t' : Row} (e : addChild cfg db (target i) (new i) = .ok (db', obj, t')) :
    J cfg db₀ target new (log ++ [i]) db' ∧ Kept db db' ∧ obj ∈ db'.rows ∧ obj.pk = (new i).pk := by
  have hf : Fresh db (new i) := ⟨h.fresh i hi, (hs.fresh i).2⟩
  obtain ⟨node, hg, -, eo, ed⟩ := addChild_inserts hs.unsorted hf.1 e
  have hinv := (consistent_iff hs.ok).1 h.consistent
  obtain ⟨hn, hnk⟩ := (get?_eq_some hinv.inv).1 hg
  have hk : Kept db db' := by rw [ed]; exact kept_inserted _ _ _
  rcases C05_add_child hs.ok h.consistent hs.unsorted hn hnk.symm hf with ⟨a, b, d, e', ha⟩ | ⟨e', -⟩
  · rw [e] at e'
    cases e'
    refine ⟨⟨ha.consistent, ?_, ?_, ?_, h.kept.trans hk⟩, hk, ha.obj⟩
    · rw [ha.forest, h.forest, hnk]
      simp [appended, List.foldl_append]
    · rw [ha.data, h.data]
      simp
    · intro j hj r hr
      have hj1 : j ∉ log := fun hm => hj (by simp [hm])
      have hj2 : j ≠ i := fun hm => hj (by simp [hm])
      rw [ed] at hr
      rcases mem_inserted.1 hr with ⟨q, hq, e⟩ | e
      · have := h.fresh j hj1 q hq
        rw [← e]
        split <;> exact this
      · rw [e, ha.obj.2]
        exact fun e => hj2 (hs.distinct i j e).symm
  · rw [e] at e'
    cases e'

omit [DecidableEq ι] in
theorem J.keeps (hs : Start cfg db₀ new) (hc : ∀ i, Calls cfg (c i) out (target i) (new i)) :
    Keeps c (J cfg db₀ target new) := by
  intro log db db' i l h hi e
  obtain ⟨t', e⟩ := (hc i).ok (h.fresh i hi) e
  exact (h.add hs hi e).1

end MPConc

open MPConc

/-- What every interleaving of concurrent `add_child` calls leads to, at every moment: the committed table is consistent; its forest
is the one at the start with the new nodes of the clients that committed, each added as last child, in the order of the commits; the
data are those at the start and those of the new nodes; and every client that committed has got an object with the path and the depth
of its stored row. -/
structure AllAdded (cfg : Cfg) (db₀ : DB) (target new : ι → Row) (out : ℓ → Row) (s : State ι DB ℓ) : Prop where
  consistent : Consistent cfg s.db
  forest : forest cfg s.db = appended (forest cfg db₀) (fun i => (target i).pk) (fun i => (new i).pk) s.log
  data : data s.db.rows = data db₀.rows ++ s.log.map fun i => ((new i).pk, (new i).vals)
  nodup : s.log.Nodup
  log : ∀ i, i ∈ s.log ↔ ∃ l, s.phase i = .committed l
  objs : ∀ i l, s.phase i = .committed l → ∃ r ∈ s.db.rows, r.pk = (new i).pk ∧ (out l).pk = r.pk ∧ (out l).path = r.path ∧ (out l).depth = r.depth
  /-- a client only fails if its parent was not there at the start, or if there is no room for another child -/
  errors : ∀ i e, s.phase i = .raised e → (e = .doesNotExist ∧ ∀ r ∈ db₀.rows, r.pk ≠ (target i).pk) ∨
    (e = .pathOverflow ∧ (LastTaken cfg s.db (some (target i).pk) ∨
      ∃ t ∈ s.db.rows, t.pk = (target i).pk ∧ cfg.maxLen < t.path.length + cfg.steplen))

omit [DecidableEq ι] in
theorem mem_appended_of_mem {F : Forest} {parent new : ι → Nat} {p : Option Nat} {x : Nat} (log : List ι) (h : x ∈ F p) :
    x ∈ appended F parent new log p := by
  induction log generalizing F with
  | nil => exact h
  | cons i log ih =>
    refine ih ?_
    simp only [Forest.put]
    split
    · simp [Slot.ins, h]
    · exact h

theorem allAdded_of (hs : Start cfg db₀ new) (hc : ∀ i, Calls cfg (c i) out (target i) (new i))
    (hst : Stable c (J cfg db₀ target new)) {s : State ι DB ℓ} (h : Reach c (.init db₀) s) : AllAdded cfg db₀ target new out s := by
  have hk : Keeps c (J cfg db₀ target new) := J.keeps hs hc
  have hinv := Inv.reach hst hk (J.start hs) h
  obtain ⟨hj, hsince⟩ := Serial.since (R := Kept) Kept.refl (fun _ _ _ => Kept.trans) hk (by
    intro log db db' i l hj hi e
    obtain ⟨t', e⟩ := (hc i).ok (hj.fresh i hi) e
    exact (hj.add hs hi e).2.1) (J.start hs) hinv.serial hinv.nodup
  refine ⟨hj.consistent, hj.forest, hj.data, hinv.nodup, hinv.logged, ?_, ?_⟩
  · intro i l hi
    obtain ⟨pre, post, db, db', el, hser, hjp, ea⟩ := hinv.result i l hi
    have hn := hinv.nodup
    rw [el] at hn
    have hip : i ∉ pre := fun hm => (List.nodup_append.1 hn).2.2 i hm i (by simp) rfl
    obtain ⟨t', e⟩ := (hc i).ok (hjp.fresh i hip) ea
    obtain ⟨-, -, hm, hpk⟩ := hjp.add hs hip e
    obtain ⟨r, hr, e1, e2, e3, -⟩ := hsince (pre ++ [i]) db' ⟨post, by simp [el]⟩ (.snoc hser ea) _ hm
    exact ⟨r, hr, by rw [e1, hpk], e1.symm, e2.symm, e3.symm⟩
  · intro i e hi
    obtain ⟨pre, db, hp, hser, hjp, ea⟩ := (hinv.raised i e hi).resolve_left id
    have hnl : i ∉ s.log := by
      intro hm
      obtain ⟨l, e'⟩ := (hinv.logged i).1 hm
      rw [e'] at hi
      cases hi
    have hip : i ∉ pre := fun hm => hnl (hp.subset hm)
    have hf : Fresh db (new i) := ⟨hjp.fresh i hip, (hs.fresh i).2⟩
    have ea := (hc i).error hf.1 ea
    have hin := (consistent_iff hs.ok).1 hjp.consistent
    cases hg : db.get? (target i).pk with
    | none =>
      left
      unfold addChild at ea
      simp only [hg] at ea
      cases ea
      refine ⟨rfl, fun r hr hk => ?_⟩
      obtain ⟨r', hr', e1, -⟩ := hjp.kept r hr
      have := (get?_eq_some hin.inv).2 ⟨hr', e1.trans hk⟩
      rw [hg] at this
      cases this
    | some node =>
      obtain ⟨hn, hnk⟩ := (get?_eq_some hin.inv).1 hg
      right
      have hkp := hsince pre db hp hser
      rcases C05_add_child hs.ok hjp.consistent hs.unsorted hn hnk.symm hf with ⟨a, b, d, e', ha⟩ | ⟨e', hfull⟩
      · rw [ea] at e'
        cases e'
      · rw [ea] at e'
        cases e'
        refine ⟨rfl, ?_⟩
        rcases hfull with ⟨r, hr, hrm, hrs⟩ | ⟨-, hdeep⟩
        · left
          obtain ⟨r', hr', e1, e2, -⟩ := hkp r hr
          refine ⟨r', hr', ?_, by rw [e2]; exact hrs⟩
          rw [e1, hj.forest]
          obtain ⟨post, hpost⟩ := hp
          rw [← hpost]
          rw [hnk, hjp.forest] at hrm
          unfold appended
          rw [List.foldl_append]
          exact mem_appended_of_mem post hrm
        · right
          obtain ⟨t, ht, e1, e2, -⟩ := hkp node hn
          exact ⟨t, ht, e1.trans hnk, by rw [e2]; exact hdeep⟩

/-- **C43, one parent**: any number of clients call `add_child` on the same node, with possibly stale objects of it, without
`node_order_by`.  However `add_child` is cut into statements after the lock, in every interleaving the committed table is at every
moment the consistent tree with the committed children appended in the order of the commits. -/
theorem C43_one_parent (hs : Start cfg db₀ new) {k : Nat} (hk : ∀ i, (target i).pk = k) (hlock : ∀ i, (c i).key = k)
    (hc : ∀ i, Calls cfg (c i) out (target i) (new i)) {s : State ι DB ℓ} (h : Reach c (.init db₀) s) :
    AllAdded cfg db₀ target new out s ∧
    forest cfg s.db (some k) = forest cfg db₀ (some k) ++ s.log.map (fun i => (new i).pk) ∧
    (∀ p, p ≠ some k → forest cfg s.db p = forest cfg db₀ p) := by
  have ha := allAdded_of hs hc (stable_of_key hlock) h
  refine ⟨ha, ?_⟩
  rw [ha.forest]
  simp only [hk]
  clear ha
  generalize forest cfg db₀ = F
  induction s.log using List.reverseRecOn with
  | nil => exact ⟨by simp [appended], fun _ _ => rfl⟩
  | append_singleton l i ih =>
    have : appended F (fun _ => k) (fun i => (new i).pk) (l ++ [i]) = (appended F (fun _ => k) (fun i => (new i).pk) l).put (some k) .last (new i).pk := by
      simp [appended, List.foldl_append]
    rw [this]
    refine ⟨by simp [Forest.put, Slot.ins, ih.1], fun p hp => ?_⟩
    simp only [Forest.put, if_neg hp]
    exact ih.2 p hp

/-! ### Different parents -/

theorem childClient_reached {target new : Row} {db : DB} {rest : List (Stmt DB AddVars)} {w : DB → DB} {l : AddVars}
    (h : Reached (childClient cfg target new) db rest w l) :
    (rest = [readParent target, choosePath cfg, countChild, insertChild new] ∧ w = id ∧ l = ⟨target, [], new⟩) ∨
    ∃ node, db.get? target.pk = some node ∧
      ((rest = [choosePath cfg, countChild, insertChild new] ∧ w = id ∧ l = ⟨node, [], new⟩) ∨
      ∃ path, newChildPath cfg db node = .ok path ∧
        ((rest = [countChild, insertChild new] ∧ w = id ∧ l = ⟨node, path, new⟩) ∨
        (rest = [insertChild new] ∧ w = (fun d => incNumchildPk d node.pk) ∧ l = ⟨node, path, new⟩) ∨
        ∃ obj, obj = { new with path := path, depth := node.depth + 1 } ∧ uniquePaths ((incNumchildPk db node.pk).rows ++ [obj]) = true ∧
          rest = [] ∧ w = (fun d => insertRow obj (incNumchildPk d node.pk)) ∧ l = ⟨node, path, obj⟩)) := by
  induction h with
  | start => exact Or.inl ⟨rfl, rfl, rfl⟩
  | @stmt st rest w u l l' _ he ih =>
    right
    rcases ih with ⟨e, rfl, rfl⟩ | ⟨node, hg, ⟨e, rfl, rfl⟩ | ⟨path, hp, ⟨e, rfl, rfl⟩ | ⟨e, rfl, rfl⟩ | ⟨obj, -, -, e, -⟩⟩⟩
    · cases e
      unfold readParent at he
      simp only [id] at he
      cases hg : db.get? target.pk with
      | none => simp [hg] at he
      | some node =>
        simp only [hg] at he
        cases he
        exact ⟨node, rfl, Or.inl ⟨rfl, rfl, rfl⟩⟩
    · cases e
      unfold choosePath at he
      simp only [id] at he
      cases hp : newChildPath cfg db node with
      | error e => simp [hp] at he
      | ok path =>
        simp only [hp] at he
        cases he
        exact ⟨node, hg, Or.inr ⟨path, hp, Or.inl ⟨rfl, rfl, rfl⟩⟩⟩
    · cases e
      cases he
      exact ⟨node, hg, Or.inr ⟨path, hp, Or.inr (Or.inl ⟨rfl, rfl, rfl⟩)⟩⟩
    · cases e
      unfold insertChild at he
      simp only at he
      split at he
      · rename_i hu
        cases he
        exact ⟨node, hg, Or.inr ⟨path, hp, Or.inr (Or.inr ⟨_, rfl, hu, rfl, rfl, rfl⟩)⟩⟩
      · cases he
    · cases e

omit [DecidableEq ι] in
theorem childClient_stable (hs : Start cfg db₀ new) :
    Stable (fun i => childClient cfg (target i) (new i)) (J cfg db₀ target new) := by
  intro log db db' i j l li rest w hJ hi hj hij hkey hal hr
  have hkey : (target i).pk ≠ (target j).pk := hkey
  obtain ⟨t', e⟩ := (childClient_calls hs.unsorted (target j) (new j)).ok (hJ.fresh j hj) hal
  obtain ⟨hJ', -, hm, hpk⟩ := hJ.add hs hj e
  obtain ⟨par, hgp, hpp, eo, ed⟩ := addChild_inserts hs.unsorted (hJ.fresh j hj) e
  have hin := (consistent_iff hs.ok).1 hJ.consistent
  have hin' := (consistent_iff hs.ok).1 hJ'.consistent
  obtain ⟨hpm, hpk'⟩ := (get?_eq_some hin.inv).1 hgp
  have hobj : pp cfg.steplen l.obj.path = par.path := by
    obtain ⟨par', hp', e1, e2, -⟩ := (by rw [ed]; exact kept_inserted _ _ _ : Kept db db') par hpm
    have hmem : l.obj.pk ∈ forest cfg db' (some par'.pk) := by
      rw [hJ'.forest, e1, hpk', hpk]
      simp [appended, List.foldl_append, Forest.put, Slot.ins]
    rw [forest_eq hin' hs.ok, mem_PF hin'.toPInv] at hmem
    obtain ⟨r, hr, h1, h2⟩ := hmem
    rw [hin'.inv.pk_inj hr hm h2] at h1
    rw [← e2]
    exact (par_eq_some_iff hin'.inv hp').1 h1
  -- the parent of `i` is not changed by `j`
  have hget : ∀ {node}, db.get? (target i).pk = some node → db'.get? (target i).pk = some node := by
    intro node hg
    have hn := (get?_eq_some hin.inv).1 hg
    rw [ed, get?_inserted hkey (by rw [hpk]; intro e; exact hJ.fresh j hj node hn.1 (hn.2.trans e.symm)), hg]
  have hpath : ∀ {node}, db.get? (target i).pk = some node → newChildPath cfg db' node = newChildPath cfg db node := by
    intro node hg
    have hn := (get?_eq_some hin.inv).1 hg
    rw [ed] at hin' ⊢
    exact newChildPath_inserted hs.ok hin hn.1 hpm hpk' (by rw [hn.2]; exact hkey) hobj hin'
  have h0 : Reached (childClient cfg (target i) (new i)) db' (childClient cfg (target i) (new i)).body id ⟨target i, [], new i⟩ := .start
  rcases childClient_reached hr with ⟨rfl, rfl, rfl⟩ | ⟨node, hg, hrest⟩
  · exact h0
  have h1 : Reached (childClient cfg (target i) (new i)) db' [choosePath cfg, countChild, insertChild (new i)] id ⟨node, [], new i⟩ :=
    .stmt (u := id) h0 (by simp [readParent, hget hg])
  rcases hrest with ⟨rfl, rfl, rfl⟩ | ⟨path, hp, hrest⟩
  · exact h1
  have h2 : Reached (childClient cfg (target i) (new i)) db' [countChild, insertChild (new i)] id ⟨node, path, new i⟩ :=
    .stmt (u := id) h1 (by simp [choosePath, hpath hg, hp])
  have h3 : Reached (childClient cfg (target i) (new i)) db' [insertChild (new i)] (fun d => incNumchildPk d node.pk) ⟨node, path, new i⟩ :=
    .stmt h2 rfl
  rcases hrest with ⟨rfl, rfl, rfl⟩ | ⟨rfl, rfl, rfl⟩ | ⟨obj, rfl, -, rfl, rfl, rfl⟩
  · exact h2
  · exact h3
  · refine .stmt (u := insertRow { new i with path := path, depth := node.depth + 1 }) h3 ?_
    have hn := (get?_eq_some hin'.inv).1 (hget hg)
    have hf : Fresh db' (new i) := ⟨hJ'.fresh i (by simp [hi, hij]), (hs.fresh i).2⟩
    have hu : uniquePaths ((incNumchildPk db' node.pk).rows ++ [{ new i with path := path, depth := node.depth + 1 }]) = true := by
      have hall := childClient_alone (target := target i) hs.unsorted hf.1
      rw [h3.exec] at hall
      simp only [exec, insertChild, Client.finish] at hall
      rcases C05_add_child hs.ok hJ'.consistent hs.unsorted hn.1 hn.2.symm hf with ⟨a, b, d, e', -⟩ | ⟨e', -⟩
      all_goals
        rw [e'] at hall
        by_contra hc
        rw [if_neg hc] at hall
        cases hall
    simp [insertChild, hu]

/-- **C43, any parents**: any number of clients call `add_child`, each on any node, possibly on a node another client is adding, with
possibly stale objects, without `node_order_by`.  In every interleaving of their statements, each holding the lock of its parent's row
until its commit, the committed table is at every moment the consistent tree with the committed nodes appended below their parents in
the order of the commits.  The only exceptions are DoesNotExist for a parent that was not there at the start, and PathOverflow. -/
theorem C43_any_parents (hs : Start cfg db₀ new) {s : State ι DB AddVars}
    (h : Reach (fun i => childClient cfg (target i) (new i)) (.init db₀) s) : AllAdded cfg db₀ target new AddVars.obj s :=
  allAdded_of hs (fun i => childClient_calls hs.unsorted (target i) (new i)) (childClient_stable hs) h

end Verif
