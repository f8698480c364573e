/-
C72: how long a materialized path tree has room.
-/
import Verif.MP.Growth
import Verif.Props.MPLength
import Verif.Props.Agree

namespace Verif.MP

variable {cfg : Cfg} {db : DB} {M : Nat}

/-- the operations of a history that are no deletions -/
def writes (ops : List Op) : List Op := ops.filter (fun | .delete _ => false | _ => true)

/-- the path of a first child fits in the path field -/
def ChildFits (cfg : Cfg) (db : DB) : Op → Prop
  | .addChild t _ _ => ∀ r, db.get? t = some r → r.isLeaf = true → r.path.length + cfg.steplen ≤ cfg.maxLen
  | _ => True

/-- one operation -/
theorem exec_pos (hok : cfg.Ok) (h : Consistent cfg db) (hp : PosIn cfg M db) (hM : M + 2 < cfg.cap) (op : Op) :
    (ChildFits cfg db op → exec cfg db op ≠ .error .pathOverflow) ∧ ∀ db', exec cfg db op = .ok db' → PosIn cfg (M + 1) db' := by
  have hi := (consistent_iff hok).1 h
  have lift : ∀ {α : Type} {r : Except Err α} {f : α → DB}, r ≠ .error .pathOverflow ∧ (∀ a, r = .ok a → PosIn cfg (M + 1) (f a)) →
      r.map f ≠ .error .pathOverflow ∧ ∀ db', r.map f = .ok db' → PosIn cfg (M + 1) db' := by
    intro α r f ⟨h1, h2⟩
    cases r with
    | error e => exact ⟨fun hc => h1 (by cases hc; rfl), nofun⟩
    | ok a => exact ⟨nofun, fun db' e => by cases e; exact h2 a rfl⟩
  cases op with
  | addRoot k v =>
    simp only [exec]
    cases db.get? k with
    | some r => exact ⟨fun _ => nofun, nofun⟩
    | none =>
      obtain ⟨h1, h2⟩ := addRoot_at hok hM hi.toPInv hp ⟨k, [], 0, 0, v⟩
      obtain ⟨h1, h2⟩ := lift (f := (·.1)) ⟨h1, fun a e => h2 a.1 a.2 e⟩
      exact ⟨fun _ => h1, h2⟩
  | addChild t k v =>
    simp only [exec]
    cases e1 : db.get? t with
    | none => cases db.get? k <;> exact ⟨fun _ => nofun, nofun⟩
    | some target =>
      cases db.get? k with
      | some r => exact ⟨fun _ => nofun, nofun⟩
      | none =>
        dsimp only
        obtain ⟨ht, hk⟩ := row_of h hok e1
        by_cases hlen : target.isLeaf = true → target.path.length + cfg.steplen ≤ cfg.maxLen
        · obtain ⟨h1, h2⟩ := addChild_at hok hM hi.toPInv hp ht hlen ⟨k, [], 0, 0, v⟩
          obtain ⟨h1, h2⟩ := lift (f := (·.1)) ⟨h1, fun a e => h2 a.1 a.2.1 a.2.2 e⟩
          exact ⟨fun _ => h1, h2⟩
        · have hd : addChild cfg db target ⟨k, [], 0, 0, v⟩ = .error .pathOverflow := by
            have hl : target.isLeaf = true := by
              by_contra hc
              exact hlen (fun h => absurd h hc)
            exact addChild_deep hok h ht rfl hl (by by_contra hc; exact hlen (fun _ => by omega)) _
          rw [hd]
          refine ⟨fun hf => absurd (hf target e1) hlen, nofun⟩
  | addSibling t pos k v =>
    simp only [exec]
    cases e1 : db.get? t with
    | none => cases db.get? k <;> exact ⟨fun _ => nofun, nofun⟩
    | some target =>
      cases db.get? k with
      | some r => exact ⟨fun _ => nofun, nofun⟩
      | none =>
        dsimp only
        obtain ⟨ht, hk⟩ := row_of h hok e1
        obtain ⟨h1, h2⟩ := addSibling_at hok hM hi.toPInv hp ht pos ⟨k, [], 0, 0, v⟩
        obtain ⟨h1, h2⟩ := lift (f := (·.1)) ⟨h1, fun a e => h2 a.1 a.2 e⟩
        exact ⟨fun _ => h1, h2⟩
  | move x t pos =>
    simp only [exec]
    cases e1 : db.get? x with
    | none => exact ⟨fun _ => nofun, nofun⟩
    | some node =>
      cases e2 : db.get? t with
      | none => exact ⟨fun _ => nofun, nofun⟩
      | some target =>
        dsimp only
        obtain ⟨h1, h2⟩ := move_at hok hM hi hp (row_of h hok e1).1 (row_of h hok e2).1 pos
        obtain ⟨h1, h2⟩ := lift (f := (·.db)) ⟨h1, fun a e => h2 a e⟩
        exact ⟨fun _ => h1, h2⟩
  | delete S => exact ⟨fun _ => nofun, fun db' e => by cases e; exact (delete_pos hp).mono (Nat.le_succ M)⟩

/-- with room for two more positions the guard of C04 is met -/
theorem guard_of_pos (hp : PosIn cfg M db) (hM : M + 2 < cfg.cap) {op : Op} (hn : cfg.ordered = true → NoNulls cfg.orderBy op) : Guard cfg db op := by
  cases op with
  | addRoot k v => exact hn
  | addChild t k v => exact hn
  | addSibling t pos k v => exact hn
  | delete S => trivial
  | move x t pos =>
    intro _ p pos' _ _ _ _ r hr _ n e
    have := hp r hr n e
    show n + 2 < cfg.cap
    omega

theorem step_pos (hok : cfg.Ok) (h : Consistent cfg db) (hp : PosIn cfg M db) (hM : M + 2 < cfg.cap) (op : Op) : PosIn cfg (M + 1) (step cfg db op) := by
  unfold step
  cases e : exec cfg db op with
  | ok db' => exact (exec_pos hok h hp hM op).2 db' e
  | error _ => exact hp.mono (Nat.le_succ M)

/-- **C72.** Every operation uses at most one position more than were in use before it; deletions use none.  So if there is room for one position per addition and
move, and for one more, then every move of the history has the room that it does not check, and afterwards the positions have grown by at most the number of
additions and moves. -/
theorem C72_mp_history (hok : cfg.Ok) (h : HInv cfg db) (hp : PosIn cfg M db) {ops : List Op} (hn : cfg.ordered = true → ∀ op ∈ ops, NoNulls cfg.orderBy op)
    (hM : M + (writes ops).length + 1 < cfg.cap) : Guarded cfg db ops ∧ PosIn cfg (M + (writes ops).length) (runOps cfg db ops) := by
  induction ops generalizing db M with
  | nil => exact ⟨trivial, hp⟩
  | cons op ops ih =>
    have hn0 : cfg.ordered = true → NoNulls cfg.orderBy op := fun ho => hn ho op (by simp)
    have hn1 : cfg.ordered = true → ∀ op ∈ ops, NoNulls cfg.orderBy op := fun ho o hm => hn ho o (by simp [hm])
    have hdel : ∀ S, op = .delete S → Guarded cfg db (op :: ops) ∧ PosIn cfg (M + (writes (op :: ops)).length) (runOps cfg db (op :: ops)) := by
      rintro S rfl
      obtain ⟨h1, h2⟩ := ih (HInv.step hok h (op := .delete S) trivial) (M := M) (delete_pos hp) hn1 hM
      exact ⟨⟨trivial, h1⟩, h2⟩
    have hwr : writes (op :: ops) = op :: writes ops → Guarded cfg db (op :: ops) ∧ PosIn cfg (M + (writes (op :: ops)).length) (runOps cfg db (op :: ops)) := by
      intro e
      rw [e] at hM ⊢
      rw [List.length_cons] at hM ⊢
      have hg := guard_of_pos hp (by omega) hn0
      obtain ⟨h1, h2⟩ := ih (HInv.step hok h hg) (step_pos hok h.consistent hp (by omega) op) hn1 (by omega)
      exact ⟨⟨hg, h1⟩, h2.mono (by omega)⟩
    cases op with
    | delete S => exact hdel S rfl
    | _ => exact hwr rfl

/-- Along the history of an abstract tree, no child is asked for below a node of depth `H`.  `F` reads off the ordered forest, `st` is the step of the specification. -/
def DepthsFit {σ : Type} (F : σ → Forest) (st : σ → Op → σ) (H : Nat) : σ → List Op → Prop
  | _, [] => True
  | s, op :: ops => (∀ t k v, op = .addChild t k v → ∀ d, (F s).Level t d → d < H) ∧ DepthsFit F st H (st s op) ops

/-- a child at a depth that the path field has room for -/
theorem childFits_of (hok : cfg.Ok) (h : Consistent cfg db) {op : Op}
    (hf : ∀ t k v, op = .addChild t k v → ∀ d, (forest cfg db).Level t d → d < cfg.maxLen / cfg.steplen) : ChildFits cfg db op := by
  cases op with
  | addChild t k v =>
    intro r e _
    have hi := ((consistent_iff hok).1 h).toPInv
    obtain ⟨hr, rfl⟩ := row_of h hok e
    have hd := hf _ k v rfl r.depth (by rw [forest_eq ((consistent_iff hok).1 h) hok]; exact level_exists hi hok hr)
    have hl := hi.depth r hr
    have := (Nat.le_div_iff_mul_le hok.step).1 hd
    rw [hl]
    calc r.depth * cfg.steplen + cfg.steplen = (r.depth + 1) * cfg.steplen := by ring
      _ ≤ cfg.maxLen := this
  | _ => trivial

/-- A history whose operations are simulated by the steps of a specification does not run out of room.  `P` says of a state of the specification and the rest of the
history that its children fit. -/
theorem roomy_of {σ : Type} {st : σ → Op → σ} (A : DB → σ → Prop) (P : σ → List Op → Prop) (hok : cfg.Ok)
    (hP : ∀ db s op ops, Consistent cfg db → A db s → P s (op :: ops) → ChildFits cfg db op ∧ P (st s op) ops)
    (hsim : ∀ db s op, HInv cfg db → Guard cfg db op → A db s → A (step cfg db op) (st s op) ∨ exec cfg db op = .error .pathOverflow) {ops : List Op}
    (hn : cfg.ordered = true → ∀ op ∈ ops, NoNulls cfg.orderBy op) {s : σ} (h : HInv cfg db) (ha : A db s) (hp : PosIn cfg M db)
    (hM : M + (writes ops).length + 1 < cfg.cap) (hd : P s ops) : Roomy cfg db ops := by
  induction ops generalizing db M s with
  | nil => trivial
  | cons op ops ih =>
    have hn1 : cfg.ordered = true → ∀ op ∈ ops, NoNulls cfg.orderBy op := fun ho o hm => hn ho o (by simp [hm])
    have hg : Guard cfg db op := (C72_mp_history hok h hp hn hM).1.1
    obtain ⟨hcf, hd1⟩ := hP db s op ops h.consistent ha hd
    have hne : exec cfg db op ≠ .error .pathOverflow := by
      cases op with
      | delete S => nofun
      | _ => exact (exec_pos hok h.consistent hp (by simp [writes] at hM; omega) _).1 hcf
    have ha1 := (hsim db s op h hg ha).resolve_right hne
    have h1 := HInv.step hok h hg
    refine ⟨hne, ?_⟩
    cases op with
    | delete S => exact ih hn1 h1 ha1 (delete_pos hp) hM hd1
    | _ => exact ih hn1 h1 ha1 (step_pos hok h.consistent hp (by simp [writes] at hM; omega) _) (by simp [writes] at hM ⊢; omega) hd1

theorem posIn_empty : PosIn cfg 0 { rows := [] } := nofun

/-- **C72, the whole tree** (without `node_order_by`).  From the empty table, a history that makes fewer additions and moves than there are positions, and that asks for no
child deeper than the path field has room for, gives the tree that the specification gives: nothing else can go wrong.  (`C41_mp` assumes of every single state
that its positions suffice; here the operations are just counted.) -/
theorem C72_mp_tree (hok : cfg.Ok) (ho : cfg.ordered = false) {ops : List Op} (hc : (writes ops).length + 1 < cfg.cap)
    (hd : DepthsFit Tree.F Tree.step (cfg.maxLen / cfg.steplen) Tree.empty ops) :
    Consistent cfg (runOps cfg { rows := [] } ops) ∧ Abs cfg (runOps cfg { rows := [] } ops) (Tree.run Tree.empty ops) := by
  have hn : cfg.ordered = true → ∀ op ∈ ops, NoNulls cfg.orderBy op := fun h => by rw [ho] at h; cases h
  have hg := (C72_mp_history hok (HInv.empty cfg) posIn_empty hn (by omega)).1
  have hr : Roomy cfg { rows := [] } ops := roomy_of (Abs cfg) (DepthsFit Tree.F Tree.step (cfg.maxLen / cfg.steplen)) hok
    (fun db s op ops h ha hd => ⟨childFits_of hok h (by rw [ha.forest]; exact hd.1), hd.2⟩)
    (fun db s op h hg ha => (step_sim hok ho h.consistent hg ha).2.imp id (·.1)) hn (HInv.empty cfg)
    ⟨by funext p; cases p <;> rfl, by simp [Tree.empty]⟩ posIn_empty (by omega) hd
  exact ⟨(HInv.run hok (HInv.empty cfg) hg).consistent, C41_mp hok ho hg hr⟩

/-- **C72, the whole tree, with `node_order_by`**, for histories without nulls. -/
theorem C72_mp_tree_sorted (hok : cfg.Ok) (ho : cfg.ordered = true) {ops : List Op} (hn : ∀ op ∈ ops, NoNulls cfg.orderBy op) (hc : (writes ops).length + 1 < cfg.cap)
    (hd : DepthsFit STree.F (STree.step cfg.orderBy) (cfg.maxLen / cfg.steplen) STree.empty ops) :
    HInv cfg (runOps cfg { rows := [] } ops) ∧ AbsS cfg (runOps cfg { rows := [] } ops) (STree.run cfg.orderBy STree.empty ops) := by
  have hr : Roomy cfg { rows := [] } ops := roomy_of (AbsS cfg) (DepthsFit STree.F (STree.step cfg.orderBy) (cfg.maxLen / cfg.steplen)) hok
    (fun db s op ops h ha hd => ⟨childFits_of hok h (by rw [ha.forest]; exact hd.1), hd.2⟩)
    (fun db s op h hg ha => (step_simS hok ho h.consistent (h.sorted ho) hg ha)) (fun _ => hn) (HInv.empty cfg)
    ⟨by funext p; cases p <;> rfl, rfl⟩ posIn_empty (by omega) hd
  exact ⟨HInv.run hok (HInv.empty cfg) (guarded_sorted ho hn _), C41_mp_sorted hok ho hn hr⟩

/-! ### Counting alone -/

/-- the additions of a history -/
def additions (ops : List Op) : List Op := ops.filter (fun | .addRoot .. => true | .addChild .. => true | .addSibling .. => true | _ => false)

/-- a tree is at most as deep as it has nodes -/
theorem depth_le_rows (hok : cfg.Ok) (h : PInv cfg db.rows) {r : Row} (hr : r ∈ db.rows) : r.depth ≤ db.rows.length := by
  have hl := h.depth r hr
  have hx : ∀ i : Fin r.depth, ∃ q ∈ db.rows, q.depth = i.val + 1 := by
    intro i
    have hi : (i.val + 1) * cfg.steplen ≤ r.path.length := by rw [hl]; exact Nat.mul_le_mul_right _ i.isLt
    obtain ⟨q, hq, e⟩ := h.prefix_row hok (p := r.path.take ((i.val + 1) * cfg.steplen)) (by rw [List.length_take, Nat.min_eq_left hi]; exact Nat.dvd_mul_left _ _)
      (by
        rw [← List.length_pos_iff, List.length_take, Nat.min_eq_left hi]
        exact Nat.mul_pos (Nat.succ_pos _) hok.step) _ r hr (Nat.le_refl _) (List.take_prefix _ _)
    refine ⟨q, hq, ?_⟩
    have h1 := h.depth q hq
    rw [e, List.length_take, Nat.min_eq_left hi] at h1
    exact (Nat.eq_of_mul_eq_mul_right hok.step h1).symm
  choose f hf hd using hx
  have hnd : (List.ofFn f).Nodup := by
    rw [List.nodup_ofFn]
    intro i j e
    have := congrArg Row.depth e
    rw [hd, hd] at this
    exact Fin.ext (by omega)
  have hsub : List.ofFn f ⊆ db.rows := by
    intro q hq
    obtain ⟨i, rfl⟩ := (List.mem_ofFn' _ _).1 hq
    exact hf i
  have := (hnd.subperm hsub).length_le
  rwa [List.length_ofFn] at this

/-- the rows that a tree shows -/
theorem rows_le_ids (h : PInv cfg db.rows) {ids : List Nat} (hi : ∀ k, k ∈ db.rows.map Row.pk → k ∈ ids) : db.rows.length ≤ ids.length := by
  have := (h.inv.pkNodup.subperm (l₂ := ids) hi).length_le
  rwa [List.length_map] at this

theorem tree_step_ids (s : Tree) (op : Op) (ops : List Op) : (s.step op).ids.length + (additions ops).length ≤ s.ids.length + (additions (op :: ops)).length := by
  cases op with
  | addRoot k v => simp only [Tree.step]; split <;> (simp [additions]; try omega)
  | addChild t k v => simp only [Tree.step]; split <;> (simp [additions]; try omega)
  | addSibling t pos k v =>
    simp only [Tree.step]
    split
    · simp [additions]
    · cases preparePosForAddSibling false pos <;> (simp [additions]; try omega)
  | move x t pos =>
    simp only [Tree.step]
    split
    · simp [additions]
    · cases preparePosForMove false pos with
      | error e => simp [additions]
      | ok p => dsimp only; split <;> simp [additions]
  | delete S =>
    have : (s.step (.delete S)).ids.length ≤ s.ids.length := List.length_filter_le _ _
    simpa [additions] using this

theorem stree_step_ids (ob : List (Nat × Bool)) (s : STree) (op : Op) (ops : List Op) :
    (s.step ob op).ids.length + (additions ops).length ≤ s.ids.length + (additions (op :: ops)).length := by
  cases op with
  | addRoot k v => simp only [STree.step]; split <;> (simp [additions, STree.add, STree.ids]; try omega)
  | addChild t k v => simp only [STree.step]; split <;> (simp [additions, STree.add, STree.ids]; try omega)
  | addSibling t pos k v =>
    simp only [STree.step]
    split
    · simp [additions]
    · cases preparePosForAddSibling true pos <;> (simp [additions, STree.add, STree.ids]; try omega)
  | move x t pos =>
    simp only [STree.step]
    split
    · simp [additions]
    · cases preparePosForMove true pos with
      | error e => simp [additions]
      | ok p => dsimp only; split <;> simp [additions, STree.ids]
  | delete S =>
    have : (s.step ob (.delete S)).ids.length ≤ s.ids.length := by
      simp only [STree.ids, STree.step, List.length_map]
      exact List.length_filter_le _ _
    simpa [additions] using this

/-- few nodes: every child fits -/
theorem childFits_count (hok : cfg.Ok) (h : Consistent cfg db) {op : Op} {ops : List Op} {ids : List Nat} (hi : ∀ k, k ∈ db.rows.map Row.pk → k ∈ ids)
    (hc : ids.length + (additions (op :: ops)).length ≤ cfg.maxLen / cfg.steplen) : ChildFits cfg db op := by
  have hp := ((consistent_iff hok).1 h).toPInv
  refine childFits_of hok h (fun t k v e d hl => ?_)
  subst e
  have hex : ∃ r ∈ db.rows, r.pk = t := by
    rw [forest_eq ((consistent_iff hok).1 h) hok] at hl
    cases hl with
    | root hm =>
      obtain ⟨r, hr, _, e⟩ := (mem_PF hp).1 hm
      exact ⟨r, hr, e⟩
    | child _ hm =>
      obtain ⟨r, hr, _, e⟩ := (mem_PF hp).1 hm
      exact ⟨r, hr, e⟩
  obtain ⟨r, hr, rfl⟩ := hex
  rw [forest_eq ((consistent_iff hok).1 h) hok, level_PF hp hok hr] at hl
  have h1 := depth_le_rows hok hp hr
  have h2 := rows_le_ids hp hi
  simp [additions] at hc
  omega

/-- **C72, counting alone.**  Fewer additions and moves than positions, and no more additions than the path field has levels: whatever the operations are, the table shows
the tree asked for. -/
theorem C72_mp_small (hok : cfg.Ok) (ho : cfg.ordered = false) {ops : List Op} (hc : (writes ops).length + 1 < cfg.cap)
    (ha : (additions ops).length ≤ cfg.maxLen / cfg.steplen) :
    Consistent cfg (runOps cfg { rows := [] } ops) ∧ Abs cfg (runOps cfg { rows := [] } ops) (Tree.run Tree.empty ops) := by
  have hn : cfg.ordered = true → ∀ op ∈ ops, NoNulls cfg.orderBy op := fun h => by rw [ho] at h; cases h
  have hg := (C72_mp_history hok (HInv.empty cfg) posIn_empty hn (by omega)).1
  have hr : Roomy cfg { rows := [] } ops := roomy_of (Abs cfg) (fun s ops => s.ids.length + (additions ops).length ≤ cfg.maxLen / cfg.steplen) hok
    (fun db s op ops h ha hd => ⟨childFits_count hok h (fun k => (ha.ids k).1) hd, Nat.le_trans (tree_step_ids s op ops) hd⟩)
    (fun db s op h hg ha => (step_sim hok ho h.consistent hg ha).2.imp id (·.1)) hn (HInv.empty cfg)
    (s := Tree.empty) ⟨by funext p; cases p <;> rfl, by simp [Tree.empty]⟩ posIn_empty (by omega) (by simpa [Tree.empty] using ha)
  exact ⟨(HInv.run hok (HInv.empty cfg) hg).consistent, C41_mp hok ho hg hr⟩

/-- **C72, counting alone, with `node_order_by`**, for histories without nulls. -/
theorem C72_mp_small_sorted (hok : cfg.Ok) (ho : cfg.ordered = true) {ops : List Op} (hn : ∀ op ∈ ops, NoNulls cfg.orderBy op) (hc : (writes ops).length + 1 < cfg.cap)
    (ha : (additions ops).length ≤ cfg.maxLen / cfg.steplen) :
    HInv cfg (runOps cfg { rows := [] } ops) ∧ AbsS cfg (runOps cfg { rows := [] } ops) (STree.run cfg.orderBy STree.empty ops) := by
  have hr : Roomy cfg { rows := [] } ops := roomy_of (AbsS cfg) (fun s ops => s.ids.length + (additions ops).length ≤ cfg.maxLen / cfg.steplen) hok
    (fun db s op ops h ha hd => ⟨childFits_count hok h (fun k => (ha.toAbs.ids k).1) hd, Nat.le_trans (stree_step_ids cfg.orderBy s op ops) hd⟩)
    (fun db s op h hg ha => (step_simS hok ho h.consistent (h.sorted ho) hg ha)) (fun _ => hn) (HInv.empty cfg)
    (s := STree.empty) ⟨by funext p; cases p <;> rfl, rfl⟩ posIn_empty (by omega) (by simpa [STree.empty, STree.ids] using ha)
  exact ⟨HInv.run hok (HInv.empty cfg) (guarded_sorted ho hn _), C41_mp_sorted hok ho hn hr⟩

/-! ### The bound is right -/

/-- two roots at the positions `a` and `b` -/
def twoRoots (cfg : Cfg) (a b : Nat) : List Row := [⟨1, stp cfg a, 1, 0, []⟩, ⟨2, stp cfg b, 1, 0, []⟩]

theorem two_last1 (hok : cfg.Ok) {a b : Nat} (hab : a < b) (hb : b < cfg.cap) {db : DB} (h : db.rows = twoRoots cfg a b) (t : Row) (ht : t.depth = 1) :
    lastSibling cfg db t = some ⟨2, stp cfg b, 1, 0, []⟩ := by
  have h2 : stp cfg a ≤ stp cfg b := by rw [← not_lt, stp_lt_iff hok hb (by omega)]; omega
  simp [lastSibling, siblings, h, twoRoots, orderByPath, sortBy, ht, h2]

theorem two_last2 (hok : cfg.Ok) {a b : Nat} (hab : b < a) (hb : a < cfg.cap) {db : DB} (h : db.rows = twoRoots cfg a b) (t : Row) (ht : t.depth = 1) :
    lastSibling cfg db t = some ⟨1, stp cfg a, 1, 0, []⟩ := by
  have h2 : ¬ stp cfg a ≤ stp cfg b := by rw [not_le, stp_lt_iff hok (by omega) hb]; exact hab
  simp [lastSibling, siblings, h, twoRoots, orderByPath, sortBy, ht, h2]

theorem not_pre (hok : cfg.Ok) {a b : Nat} (ha : a < cfg.cap) (hb : b < cfg.cap) (hab : a ≠ b) : (stp cfg a).isPrefixOf (stp cfg b) = false := by
  rw [Bool.eq_false_iff, Ne, List.isPrefixOf_iff_prefix]
  intro hp
  exact hab (stp_inj hok ha hb (hp.eq_of_length (by rw [stp_length hok ha, stp_length hok hb])))

/-- a root goes behind the last root -/
theorem move_root_last (ho : cfg.ordered = false) {db : DB} {x t last : Row} (hx : x.depth = 1) (ht : t.depth = 1) (hxt : x.pk ≠ t.pk)
    (hlx : x.pk ≠ last.pk) (hl : ∀ t : Row, t.depth = 1 → lastSibling cfg db t = some last) {newpath : List Nat} (hinc : incPath cfg last.path = .ok newpath)
    (hxp : x.path.length = cfg.steplen) (hnp : newpath.length = cfg.steplen) {db' : DB} (hset : setNewpath cfg db x.path newpath = .ok db')
    {x' t' : Row} (gx : db'.get? x.pk = some x') (gt : db'.get? t.pk = some t') : move cfg db x t (some .lastSibling) = .ok ⟨db', x', t'⟩ := by
  have hd : t.isDescendantOf x = false := by simp [Row.isDescendantOf, hx, ht]
  have hpp : ∀ p : List Nat, p.length = cfg.steplen → parentPathFromPath cfg p = [] := by
    intro p hp
    simp [parentPathFromPath, hp, slice0]
  have hno : moveNoop cfg db x ⟨t, t.depth, [], none, .lastSibling⟩ = false := by
    simp [moveNoop, hl t ht, sameNode, hlx, hxt]
  have hre : reorder cfg db .lastSibling none t.depth t [] (some x.path) = .ok (db', some x.path, newpath) := by
    simp [reorder, hl t ht, hinc, hset]
  simp [move, ho, show preparePosForMove false (some .lastSibling) = .ok .lastSibling from rfl, moveToChildVars, isChildPos, moveSorted, hd, moveTo, hno, hre, finishMove, updateParentCounts, hpp _ hxp, hpp _ hnp, gx, gt]

theorem move_root_full (ho : cfg.ordered = false) {db : DB} {x t last : Row} (hx : x.depth = 1) (ht : t.depth = 1) (hxt : x.pk ≠ t.pk)
    (hlx : x.pk ≠ last.pk) (hl : ∀ t : Row, t.depth = 1 → lastSibling cfg db t = some last) (hinc : incPath cfg last.path = .error .pathOverflow) :
    move cfg db x t (some .lastSibling) = .error .pathOverflow := by
  have hd : t.isDescendantOf x = false := by simp [Row.isDescendantOf, hx, ht]
  have hno : moveNoop cfg db x ⟨t, t.depth, [], none, .lastSibling⟩ = false := by
    simp [moveNoop, hl t ht, sameNode, hlx, hxt]
  have hre : reorder cfg db .lastSibling none t.depth t [] (some x.path) = .error .pathOverflow := by
    simp [reorder, hl t ht, hinc]
  simp [move, ho, show preparePosForMove false (some .lastSibling) = .ok .lastSibling from rfl, moveToChildVars, isChildPos, moveSorted, hd, moveTo, hno, hre]

theorem set_two (hok : cfg.Ok) {a b : Nat} (hab : a ≠ b) (ha : a < cfg.cap) (hb : b < cfg.cap) {c : Nat} (hc : c < cfg.cap) {db : DB} (h : db.rows = twoRoots cfg a b) :
    (c ≠ b → ∃ db', setNewpath cfg db (stp cfg a) (stp cfg c) = .ok db' ∧ db'.rows = twoRoots cfg c b) ∧
    (c ≠ a → ∃ db', setNewpath cfg db (stp cfg b) (stp cfg c) = .ok db' ∧ db'.rows = twoRoots cfg a c) := by
  have e1 := stp_length hok ha
  have e2 := stp_length hok hb
  have e3 := stp_length hok hc
  have n1 := not_pre hok ha hb hab
  have n2 := not_pre hok hb ha (Ne.symm hab)
  constructor
  · intro hne
    have hne : stp cfg c ≠ stp cfg b := fun e => hne (stp_inj hok hc hb e)
    have hm : db.rows.map (newpathRow cfg (stp cfg a) (stp cfg c)) = twoRoots cfg c b := by
      simp [h, twoRoots, newpathRow, n1, e1, e3, List.drop_of_length_le]
    refine ⟨_, by unfold setNewpath; rw [hm]; exact if_pos (by simp [uniquePaths, twoRoots, hne]), rfl⟩
  · intro hne
    have hne : stp cfg a ≠ stp cfg c := fun e => hne (stp_inj hok ha hc e).symm
    have hm : db.rows.map (newpathRow cfg (stp cfg b) (stp cfg c)) = twoRoots cfg a c := by
      simp [h, twoRoots, newpathRow, n2, e2, e3, List.drop_of_length_le]
    refine ⟨_, by unfold setNewpath; rw [hm]; exact if_pos (by simp [uniquePaths, twoRoots, hne]), rfl⟩

theorem two_get1 {a b : Nat} {db : DB} (h : db.rows = twoRoots cfg a b) : db.get? 1 = some ⟨1, stp cfg a, 1, 0, []⟩ := by simp [DB.get?, h, twoRoots]
theorem two_get2 {a b : Nat} {db : DB} (h : db.rows = twoRoots cfg a b) : db.get? 2 = some ⟨2, stp cfg b, 1, 0, []⟩ := by simp [DB.get?, h, twoRoots]

theorem inc_stp (hok : cfg.Ok) {n : Nat} (hn : n + 1 < cfg.cap) : incPath cfg (stp cfg n) = .ok (stp cfg (n + 1)) := incPath_eq hok [] hn
theorem inc_stp_full (hok : cfg.Ok) {n : Nat} (hn : n + 1 = cfg.cap) : incPath cfg (stp cfg n) = .error .pathOverflow :=
  incPath_overflow hok [] (by omega) (by omega)

theorem step_two1 (hok : cfg.Ok) (ho : cfg.ordered = false) {a b : Nat} (hab : a < b) (hb : b + 1 < cfg.cap) {db : DB} (h : db.rows = twoRoots cfg a b) :
    (step cfg db (.move 1 2 (some .lastSibling))).rows = twoRoots cfg (b + 1) b := by
  obtain ⟨db', hs, hr⟩ := (set_two hok (by omega) (by omega) (by omega) hb h).1 (by omega)
  have := move_root_last ho (x := ⟨1, stp cfg a, 1, 0, []⟩) (t := ⟨2, stp cfg b, 1, 0, []⟩) rfl rfl (by simp) (by show 1 ≠ 2; decide)
    (fun t ht => two_last1 hok hab (by omega) h t ht) (inc_stp hok hb) (stp_length hok (by omega)) (stp_length hok hb) hs (two_get1 hr) (two_get2 hr)
  simp only [step, exec, two_get1 h, two_get2 h, this]
  exact hr

theorem step_two2 (hok : cfg.Ok) (ho : cfg.ordered = false) {a b : Nat} (hab : b < a) (ha : a + 1 < cfg.cap) {db : DB} (h : db.rows = twoRoots cfg a b) :
    (step cfg db (.move 2 1 (some .lastSibling))).rows = twoRoots cfg a (a + 1) := by
  obtain ⟨db', hs, hr⟩ := (set_two hok (by omega) (by omega) (by omega) ha h).2 (by omega)
  have := move_root_last ho (x := ⟨2, stp cfg b, 1, 0, []⟩) (t := ⟨1, stp cfg a, 1, 0, []⟩) rfl rfl (by simp) (by show 2 ≠ 1; decide)
    (fun t ht => two_last2 hok hab (by omega) h t ht) (inc_stp hok ha) (stp_length hok (by omega)) (stp_length hok ha) hs (two_get2 hr) (two_get1 hr)
  simp only [step, exec, two_get1 h, two_get2 h, this]
  exact hr

/-- first the one root goes to the end, then the other one, and so on -/
def seesaw : Nat → List Op
  | 0 => []
  | n + 1 => seesaw n ++ [if n % 2 = 0 then .move 1 2 (some .lastSibling) else .move 2 1 (some .lastSibling)]

/-- the two roots after `n` of these moves -/
def seesawRows (cfg : Cfg) (n : Nat) : List Row := if n % 2 = 0 then twoRoots cfg (n + 1) (n + 2) else twoRoots cfg (n + 2) (n + 1)

theorem runOps_append (db : DB) (a b : List Op) : runOps cfg db (a ++ b) = runOps cfg (runOps cfg db a) b := List.foldl_append

theorem seesaw_rows (hok : cfg.Ok) (ho : cfg.ordered = false) {db : DB} (h : db.rows = twoRoots cfg 1 2) :
    ∀ n, n + 2 < cfg.cap → (runOps cfg db (seesaw n)).rows = seesawRows cfg n := by
  intro n
  induction n with
  | zero => intro _; exact h
  | succ n ih =>
    intro hn
    have := ih (by omega)
    rw [seesaw, runOps_append]
    show (step cfg _ _).rows = _
    unfold seesawRows at this ⊢
    by_cases hp : n % 2 = 0
    · rw [if_pos hp] at this ⊢
      rw [if_neg (by omega)]
      exact step_two1 hok ho (by omega) hn this
    · rw [if_neg hp] at this ⊢
      rw [if_pos (by omega)]
      exact step_two2 hok ho (by omega) hn this

/-- the history: two roots, then `n` moves -/
def seesawOps (n : Nat) : List Op := [.addRoot 1 [], .addRoot 2 []] ++ seesaw n

theorem two_start (hok : cfg.Ok) (ho : cfg.ordered = false) (hc : 2 < cfg.cap) : (runOps cfg { rows := [] } [.addRoot 1 [], .addRoot 2 []]).rows = twoRoots cfg 1 2 := by
  have e1 : getPath cfg [] 1 1 = .ok (stp cfg 1) := by
    have := getPath_eq hok [] 1 (n := 1) (by omega)
    simpa [basepath, slice0] using this
  have hne : stp cfg 1 ≠ stp cfg 2 := fun e => absurd (stp_inj hok (by omega) hc e) (by decide)
  have hinc := inc_stp hok hc
  simp [runOps, step, exec, DB.get?, addRoot, lastRootNode, rootNodes, orderByPath, sortBy, e1, save, uniquePaths, ho, hinc, hne, twoRoots, Except.map]

theorem writes_seesaw (n : Nat) : (writes (seesawOps n)).length = n + 2 ∧ (additions (seesawOps n)).length = 2 := by
  induction n with
  | zero => exact ⟨rfl, rfl⟩
  | succ n ih =>
    have e : seesawOps (n + 1) = seesawOps n ++ [if n % 2 = 0 then .move 1 2 (some .lastSibling) else .move 2 1 (some .lastSibling)] := by
      simp [seesawOps, seesaw]
    rw [e]
    unfold writes additions at ih ⊢
    rw [List.filter_append, List.filter_append, List.length_append, List.length_append, ih.1, ih.2]
    by_cases hp : n % 2 = 0
    · rw [if_pos hp]; exact ⟨rfl, rfl⟩
    · rw [if_neg hp]; exact ⟨rfl, rfl⟩

/-- **C72: no better bound.**  Whatever the alphabet and `steplen` are, two nodes are enough to use up all the positions: a history of two additions and otherwise moves,
one operation fewer than there are positions, leads to a table of just two roots where `add_root` raises `PathOverflow`, and so does moving the first of the two roots to the
end. -/
theorem C72_mp_exhausts (hok : cfg.Ok) (ho : cfg.ordered = false) (hc : 3 ≤ cfg.cap) : ∃ (ops : List Op) (x t : Nat),
    (writes ops).length + 1 = cfg.cap ∧ (additions ops).length = 2 ∧ (runOps cfg { rows := [] } ops).rows.length = 2 ∧
    (∀ k v, (∀ r ∈ (runOps cfg { rows := [] } ops).rows, r.pk ≠ k) → exec cfg (runOps cfg { rows := [] } ops) (.addRoot k v) = .error .pathOverflow) ∧
    rootNodes (runOps cfg { rows := [] } ops) = [x, t].filterMap (fun k => (runOps cfg { rows := [] } ops).get? k) ∧
    exec cfg (runOps cfg { rows := [] } ops) (.move x t (some .lastSibling)) = .error .pathOverflow := by
  obtain ⟨n, hn⟩ : ∃ n, cfg.cap = n + 3 := ⟨cfg.cap - 3, by omega⟩
  have hr := seesaw_rows hok ho (two_start hok ho (by omega)) n (by omega)
  rw [← runOps_append] at hr
  change (runOps cfg { rows := [] } (seesawOps n)).rows = _ at hr
  have key : ∀ {db : DB} {x t : Row}, x.depth = 1 → t.depth = 1 → x.pk ≠ t.pk → (∀ r : Row, r.depth = 1 → lastSibling cfg db r = some t) → incPath cfg t.path = .error .pathOverflow →
      rootNodes db = [x, t] → db.get? x.pk = some x → db.get? t.pk = some t →
      (∀ k v, (∀ r ∈ db.rows, r.pk ≠ k) → exec cfg db (.addRoot k v) = .error .pathOverflow) ∧
      rootNodes db = [x.pk, t.pk].filterMap (fun k => db.get? k) ∧ exec cfg db (.move x.pk t.pk (some .lastSibling)) = .error .pathOverflow := by
    intro db x t hx ht hxt hl hinc hroots g1 g2
    refine ⟨fun k v hk => ?_, by simp [hroots, g1, g2], ?_⟩
    · simp only [exec, get?_eq_none.2 hk, addRoot, lastRootNode, hroots, List.getLast?_cons_cons, List.getLast?_singleton, ho, hinc]
      rfl
    · simp only [exec, g1, g2, move_root_full ho hx ht hxt hxt hl hinc]
      rfl
  have hw := writes_seesaw n
  by_cases hp : n % 2 = 0
  · rw [seesawRows, if_pos hp] at hr
    have h2 : stp cfg (n + 1) ≤ stp cfg (n + 2) := by rw [← not_lt, stp_lt_iff hok (by omega) (by omega)]; omega
    refine ⟨seesawOps n, 1, 2, by omega, hw.2, by rw [hr]; rfl, ?_⟩
    exact key (x := ⟨1, stp cfg (n + 1), 1, 0, []⟩) (t := ⟨2, stp cfg (n + 2), 1, 0, []⟩) rfl rfl (by simp)
      (fun t ht => two_last1 hok (by omega) (by omega) hr t ht) (inc_stp_full hok (by omega))
      (by simp [rootNodes, hr, twoRoots, orderByPath, sortBy, h2]) (two_get1 hr) (two_get2 hr)
  · rw [seesawRows, if_neg hp] at hr
    have h2 : ¬ stp cfg (n + 2) ≤ stp cfg (n + 1) := by rw [not_le, stp_lt_iff hok (by omega) (by omega)]; omega
    refine ⟨seesawOps n, 2, 1, by omega, hw.2, by rw [hr]; rfl, ?_⟩
    exact key (x := ⟨2, stp cfg (n + 1), 1, 0, []⟩) (t := ⟨1, stp cfg (n + 2), 1, 0, []⟩) rfl rfl (by simp)
      (fun t ht => two_last2 hok (by omega) (by omega) hr t ht) (inc_stp_full hok (by omega))
      (by simp [rootNodes, hr, twoRoots, orderByPath, sortBy, h2]) (two_get2 hr) (two_get1 hr)

/-! ### Examples -/

/-- two letters and three characters per step: room for seven positions -/
def roomCfg : Cfg := ⟨[48, 49], 3, [], 12⟩

theorem roomCfg_ok : roomCfg.Ok := by constructor <;> decide

/-- six operations that are not deletions, and a deletion -/
def roomOps : List Op := [.addRoot 1 [], .addRoot 2 [], .addChild 1 3 [], .move 1 2 (some .right), .delete [3], .move 2 1 (some .lastChild), .addSibling 2 (some .left) 4 []]

example : (writes roomOps).length + 1 < roomCfg.cap ∧ (additions roomOps).length ≤ roomCfg.maxLen / roomCfg.steplen ∧ roomCfg.ordered = false := by decide

example : Abs roomCfg (runOps roomCfg { rows := [] } roomOps) (Tree.run Tree.empty roomOps) :=
  (C72_mp_small roomCfg_ok (by decide) (by decide) (by decide)).2

/-- the tree at the end: 1 is the root, 4 and 2 are its children -/
example : forest roomCfg (runOps roomCfg { rows := [] } roomOps) none = [1] ∧ forest roomCfg (runOps roomCfg { rows := [] } roomOps) (some 1) = [4, 2] := by decide

/-- a table in use: its positions go up to 3 -/
example : HInv exCfg exDB ∧ PosIn exCfg 3 exDB ∧ 3 + (writes [Op.move 5 1 (some .left), .addRoot 9 []]).length + 1 < exCfg.cap := by
  refine ⟨⟨exDB_consistent, fun h => absurd h (by decide)⟩, ?_, by decide⟩
  intro r hr n e
  have : ∀ r ∈ exDB.rows, ∃ m ≤ 3, lastpos exCfg r.path = .ok m := by decide
  obtain ⟨m, hm, e'⟩ := this r hr
  rw [e'] at e
  cases e
  exact hm

/-- the hypotheses with `node_order_by` -/
example : exCfgS.ordered = true ∧ (∀ op ∈ exSOps, NoNulls exCfgS.orderBy op) ∧ (writes exSOps).length + 1 < exCfgS.cap ∧
    (additions exSOps).length ≤ exCfgS.maxLen / exCfgS.steplen := ⟨by decide, exSOps_noNulls, by decide, by decide⟩

/-- depths that fit: one root with a child, where the path field has room for two levels -/
example : DepthsFit Tree.F Tree.step 2 Tree.empty [.addRoot 1 [], .addChild 1 2 []] := by
  refine ⟨nofun, ⟨?_, trivial⟩⟩
  rintro t k v ⟨⟩ d hl
  have hF : ∀ q, (Tree.step Tree.empty (.addRoot 1 [])).F (some q) = [] := by
    intro q
    simp [Tree.step, Tree.empty, Forest.put]
  cases hl with
  | root _ => decide
  | child _ hm => rw [hF] at hm; cases hm

example : 3 ≤ roomCfg.cap := by decide

end Verif.MP

namespace Verif

/-- **C72, in terms of C41**: MP and NS agree on every history that is short enough, whatever its operations are. -/
theorem C72_mp_ns {mcfg : MP.Cfg} {ncfg : NS.Cfg} (hok : mcfg.Ok) (hm : mcfg.ordered = false) (hn : ncfg.ordered = false) {ops : List Op}
    (hc : (MP.writes ops).length + 1 < mcfg.cap) (ha : (MP.additions ops).length ≤ mcfg.maxLen / mcfg.steplen) :
    MP.forest mcfg (MP.runOps mcfg { rows := [] } ops) = NS.forest (NS.runOps ncfg { rows := [] } ops) ∧
    ∀ k, k ∈ (MP.runOps mcfg { rows := [] } ops).rows.map MP.Row.pk ↔ k ∈ (NS.runOps ncfg { rows := [] } ops).rows.map NS.Row.pk := by
  have h1 := (MP.C72_mp_small hok hm hc ha).2
  have h2 := NS.C41_ns hn ops
  exact ⟨h1.forest.trans h2.forest.symm, fun k => (h1.ids k).trans (h2.ids k).symm⟩

end Verif
