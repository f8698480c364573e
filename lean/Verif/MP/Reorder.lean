/-
MP: `_reorder_nodes_before_add_or_move`.
-/
import Verif.MP.Rename

namespace Verif

theorem filter_insertBefore (t x : Nat) (l : List Nat) :
    (insertBefore t x l).filter (· ≠ x) = l.filter (· ≠ x) := by
  induction l with
  | nil => rfl
  | cons y l ih =>
    unfold insertBefore
    split
    · simp
    · rw [List.filter_cons, List.filter_cons, ih]

theorem filter_insertAfter (t x : Nat) (l : List Nat) :
    (insertAfter t x l).filter (· ≠ x) = l.filter (· ≠ x) := by
  induction l with
  | nil => rfl
  | cons y l ih =>
    unfold insertAfter
    split
    · simp [List.filter_cons]
    · rw [List.filter_cons, List.filter_cons, ih]

theorem Slot.filter_ins (s : Slot) (x : Nat) (l : List Nat) :
    (s.ins x l).filter (· ≠ x) = l.filter (· ≠ x) := by
  cases s with
  | first => simp [Slot.ins]
  | last => simp [Slot.ins]
  | before t => exact filter_insertBefore t x l
  | after t => exact filter_insertAfter t x l

theorem Forest.remove_put_remove (F : Forest) (x : Nat) (p : Option Nat) (s : Slot) :
    ((F.remove x).put p s x).remove x = F.remove x := by
  funext q
  by_cases h : q = p
  · subst h
    show ((if q = q then s.ins x (F.remove x q) else F.remove x q).filter (· ≠ x)) = _
    rw [if_pos rfl, Slot.filter_ins]
    simp [Forest.remove]
  · simp [Forest.remove, Forest.put, h]

theorem Forest.move_move (F : Forest) (x : Nat) (p p' : Option Nat) (s s' : Slot) :
    (F.move x p s).move x p' s' = F.move x p' s' := by
  unfold Forest.move
  rw [Forest.remove_put_remove]

end Verif

namespace Verif.MP

variable {cfg : Cfg}

/-! ### Parents by path -/

theorem at?_nil (h : PInv cfg rows) (hok : cfg.Ok) : at? rows [] = none := by
  rw [pkAt_eq_none]
  intro q hq e
  have := (h.inv.len q hq).2
  rw [e] at this
  have := hok.step
  simp at *
  omega

theorem at?_row (h : PInv cfg rows) {q : Row} (hq : q ∈ rows) : at? rows q.path = some q.pk :=
  (pkAt_eq_some h.inv).2 ⟨q, hq, rfl, rfl⟩

theorem at?_map_par (h : PInv cfg rows) (hok : cfg.Ok) {f : Row → Row} (h' : PInv cfg (rows.map f))
    (hpk : ∀ r ∈ rows, (f r).pk = r.pk) {P : List Nat} (hP : IsPar rows P)
    (hf : ∀ r ∈ rows, r.path = P → (f r).path = P) : at? (rows.map f) P = at? rows P := by
  rcases hP with rfl | ⟨q, hq, rfl⟩
  · rw [at?_nil h hok, at?_nil h' hok]
  · rw [at?_row h hq, ← hf q hq rfl, at?_row h' (List.mem_map_of_mem hq), hpk q hq]

theorem par_eq_at (h : PInv cfg rows) (hok : cfg.Ok) {r : Row} (hr : r ∈ rows) {P : List Nat} (hP : IsPar rows P) :
    par cfg rows r = at? rows P ↔ pp cfg.steplen r.path = P := by
  constructor
  · intro e
    refine pp_of_par h.inv hok.step hr ?_ e
    rcases hP with rfl | hP
    · exact Or.inl rfl
    · exact Or.inr hP
  · intro e; subst e; rfl

theorem PInv.isPar (h : PInv cfg rows) {r : Row} (hr : r ∈ rows) :
    IsPar rows (pp cfg.steplen r.path) := by
  have h1 := h.inv.len r hr
  by_cases hl : cfg.steplen < r.path.length
  · exact Or.inr (h.inv.closed r hr hl)
  · left
    apply List.length_eq_zero_iff.1
    rw [pp_length]; omega

theorem PInv.sib_pos (h : PInv cfg rows) {r : Row} (hr : r ∈ rows) {P : List Nat}
    (hp : pp cfg.steplen r.path = P) : ∃ n, 1 ≤ n ∧ n < cfg.cap ∧ r.path = P ++ stp cfg n := by
  obtain ⟨n, h1, h2, h3⟩ := h.pos r hr
  rw [hp] at h3
  exact ⟨n, h1, h2, h3⟩

/-! ### Slots before the shift -/

/-- the place `new`, still possibly occupied: everything at `new` or later will be on the right -/
def NSlot (L : Nat) (R : Row → Prop) (new : List Nat) : Slot → Prop
  | .first => ∀ r, R r → pp L r.path = pp L new → ¬ r.path < new
  | .last => ∀ r, R r → pp L r.path = pp L new → r.path < new
  | .before t => ∃ tr, R tr ∧ tr.pk = t ∧ pp L tr.path = pp L new ∧ ¬ tr.path < new ∧
      ∀ r, R r → pp L r.path = pp L new → r.path < tr.path → r.path < new
  | .after t => ∃ tr, R tr ∧ tr.pk = t ∧ pp L tr.path = pp L new ∧ tr.path < new ∧
      ∀ r, R r → pp L r.path = pp L new → tr.path < r.path → ¬ r.path < new

/-- transport of a slot along a change of the rows that keeps siblings in order and leaves `new` free -/
theorem NSlot.transport {L : Nat} {R R' : Row → Prop} {f : Row → Row} {new : List Nat} {s : Slot}
    (h : NSlot L R new s) (hRR : ∀ r, R r → R' (f r)) (hback : ∀ r', R' r' → ∃ r, R r ∧ f r = r')
    (hpk : ∀ r, R r → (f r).pk = r.pk)
    (hpp : ∀ r, R r → (pp L (f r).path = pp L new ↔ pp L r.path = pp L new))
    (hlo : ∀ r, R r → pp L r.path = pp L new → r.path < new → (f r).path < new)
    (hhi : ∀ r, R r → pp L r.path = pp L new → ¬ r.path < new → new < (f r).path)
    (hord : ∀ r q, R r → R q → pp L r.path = pp L new → pp L q.path = pp L new →
      ((f r).path < (f q).path → r.path < q.path)) :
    PSlot L Row.pk Row.path R' new s := by
  cases s with
  | first =>
    intro r' hr' hp'
    obtain ⟨r, hr, rfl⟩ := hback r' hr'
    have hp := (hpp r hr).1 hp'
    exact hhi r hr hp (h r hr hp)
  | last =>
    intro r' hr' hp'
    obtain ⟨r, hr, rfl⟩ := hback r' hr'
    have hp := (hpp r hr).1 hp'
    exact hlo r hr hp (h r hr hp)
  | before t =>
    obtain ⟨tr, htr, hk, hp, hn, hall⟩ := h
    refine ⟨f tr, hRR tr htr, by rw [hpk tr htr, hk], (hpp tr htr).2 hp, hhi tr htr hp hn, ?_⟩
    intro r' hr' hp' hlt
    obtain ⟨r, hr, rfl⟩ := hback r' hr'
    have hp2 := (hpp r hr).1 hp'
    exact hlo r hr hp2 (hall r hr hp2 (hord r tr hr htr hp2 hp hlt))
  | after t =>
    obtain ⟨tr, htr, hk, hp, hn, hall⟩ := h
    refine ⟨f tr, hRR tr htr, by rw [hpk tr htr, hk], (hpp tr htr).2 hp, hlo tr htr hp hn, ?_⟩
    intro r' hr' hp' hlt
    obtain ⟨r, hr, rfl⟩ := hback r' hr'
    have hp2 := (hpp r hr).1 hp'
    exact hhi r hr hp2 (hall r hr hp2 (hord tr r htr hr hp hp2 hlt))

/-- same, when siblings keep their paths -/
theorem NSlot.congr {L : Nat} {R R' : Row → Prop} {f : Row → Row} {new : List Nat} {s : Slot}
    (h : NSlot L R new s) (hRR : ∀ r, R r → R' (f r)) (hback : ∀ r', R' r' → ∃ r, R r ∧ f r = r')
    (hpk : ∀ r, R r → (f r).pk = r.pk)
    (hpp : ∀ r, R r → (pp L (f r).path = pp L new ↔ pp L r.path = pp L new))
    (hpath : ∀ r, R r → pp L r.path = pp L new → (f r).path = r.path) : NSlot L R' new s := by
  cases s with
  | first =>
    intro r' hr' hp'
    obtain ⟨r, hr, rfl⟩ := hback r' hr'
    have hp := (hpp r hr).1 hp'
    rw [hpath r hr hp]
    exact h r hr hp
  | last =>
    intro r' hr' hp'
    obtain ⟨r, hr, rfl⟩ := hback r' hr'
    have hp := (hpp r hr).1 hp'
    rw [hpath r hr hp]
    exact h r hr hp
  | before t =>
    obtain ⟨tr, htr, hk, hp, hn, hall⟩ := h
    refine ⟨f tr, hRR tr htr, by rw [hpk tr htr, hk], (hpp tr htr).2 hp, by rw [hpath tr htr hp]; exact hn, ?_⟩
    intro r' hr' hp' hlt
    obtain ⟨r, hr, rfl⟩ := hback r' hr'
    have hp2 := (hpp r hr).1 hp'
    rw [hpath r hr hp2, hpath tr htr hp] at hlt
    rw [hpath r hr hp2]
    exact hall r hr hp2 hlt
  | after t =>
    obtain ⟨tr, htr, hk, hp, hn, hall⟩ := h
    refine ⟨f tr, hRR tr htr, by rw [hpk tr htr, hk], (hpp tr htr).2 hp, by rw [hpath tr htr hp]; exact hn, ?_⟩
    intro r' hr' hp' hlt
    obtain ⟨r, hr, rfl⟩ := hback r' hr'
    have hp2 := (hpp r hr).1 hp'
    rw [hpath r hr hp2, hpath tr htr hp] at hlt
    rw [hpath r hr hp2]
    exact hall r hr hp2 hlt

/-! ### The shift phase -/

/-- the positions of the siblings of `P` after the shift -/
theorem shift_facts (hok : cfg.Ok) {rows : List Row} (h : PInv cfg rows) {P : List Nat} {m k : Nat}
    (hk : m + k < cfg.cap) (hno : ∀ r ∈ rows, r.path ≠ P ++ stp cfg (m + k))
    {r : Row} (hr : r ∈ rows) (hp : pp cfg.steplen r.path = P) :
    ∃ n n', n < cfg.cap ∧ n' < cfg.cap ∧ r.path = P ++ stp cfg n ∧ sh cfg P m k r.path = P ++ stp cfg n' ∧
      n ≠ m + k ∧ n' = (if m ≤ n ∧ n < m + k then n + 1 else n) := by
  obtain ⟨n, _, hn, e⟩ := h.sib_pos hr hp
  have hne : n ≠ m + k := by rintro rfl; exact hno r hr e
  refine ⟨n, _, hn, ?_, e, ?_, hne, rfl⟩
  · split <;> omega
  · rw [e, sh_sib hok P k hk hn hne]

theorem shift_phase (hok : cfg.Ok) {db : DB} (h : PInv cfg db.rows) {P : List Nat} (hP : IsPar db.rows P)
    {m k : Nat} (h1 : 1 ≤ m) {moves : List Row} (hmoves : moves.map Row.path = run cfg P m k)
    (hk : m + k < cfg.cap) (hno : ∀ r ∈ db.rows, r.path ≠ P ++ stp cfg (m + k)) (old : Option (List Nat)) :
    ∃ db' f, shiftLoop cfg moves.reverse db old = .ok (db', old.map (sh cfg P m k)) ∧
      Same cfg db.rows db'.rows f ∧ (∀ r ∈ db.rows, (f r).path = sh cfg P m k r.path) ∧
      (∀ r ∈ db'.rows, r.path ≠ P ++ stp cfg m) ∧ IsPar db'.rows P ∧ at? db'.rows P = at? db.rows P ∧
      ∀ (K : Nat → Prop) (s : Slot), NSlot cfg.steplen (fun r => r ∈ db.rows ∧ K r.pk) (P ++ stp cfg m) s →
        PSlot cfg.steplen Row.pk Row.path (fun r => r ∈ db'.rows ∧ K r.pk) (P ++ stp cfg m) s := by
  have hm : m < cfg.cap := by omega
  obtain ⟨db', f, e, hs, hpath, hv⟩ := shiftLoop_spec hok h1 k moves.reverse db old h hP
    (by rw [List.map_reverse, hmoves]) hk hno
  have hfP : ∀ r ∈ db.rows, r.path = P → (f r).path = P := by
    intro r hr e
    rw [hpath r hr, sh_short hok P hk (by rw [e]), e]
  have hP' : IsPar db'.rows P := by rw [hs.eq]; exact hP.map hfP
  have hat : at? db'.rows P = at? db.rows P := by
    rw [hs.eq]
    exact at?_map_par h hok (by rw [← hs.eq]; exact hs.pinv) (fun r _ => hs.keeps.pk r) hP hfP
  refine ⟨db', f, e, hs, hpath, hv, hP', hat, ?_⟩
  intro K s hslot
  refine hslot.transport (f := f) ?_ ?_ (fun r _ => hs.keeps.pk r) ?_ ?_ ?_ ?_
  · intro r hr
    exact ⟨by rw [hs.eq]; exact List.mem_map_of_mem hr.1, by rw [hs.keeps.pk]; exact hr.2⟩
  · rintro r' ⟨hr', hk'⟩
    rw [hs.eq] at hr'
    obtain ⟨r, hr, rfl⟩ := List.mem_map.1 hr'
    exact ⟨r, ⟨hr, by rw [hs.keeps.pk] at hk'; exact hk'⟩, rfl⟩
  · intro r hr
    rw [pp_step hok P hm, ← par_eq_at h hok hr.1 hP, ← par_eq_at hs.pinv hok (by
      rw [hs.eq]; exact List.mem_map_of_mem hr.1) hP', hat, hs.par r hr.1]
  · intro r hr hp hlt
    rw [pp_step hok P hm] at hp
    obtain ⟨n, n', hn, hn', e1, e2, hne, he⟩ := shift_facts hok h hk hno hr.1 hp
    rw [hpath r hr.1, e2, plt_append_left, stp_lt_iff hok hn' hm]
    rw [e1, plt_append_left, stp_lt_iff hok hn hm] at hlt
    rw [if_neg (by omega)] at he
    omega
  · intro r hr hp hlt
    rw [pp_step hok P hm] at hp
    obtain ⟨n, n', hn, hn', e1, e2, hne, he⟩ := shift_facts hok h hk hno hr.1 hp
    rw [hpath r hr.1, e2, plt_append_left, stp_lt_iff hok hm hn']
    rw [e1, plt_append_left, stp_lt_iff hok hn hm] at hlt
    split at he <;> omega
  · intro r q hr hq hp hp2 hlt
    rw [pp_step hok P hm] at hp hp2
    obtain ⟨n, n', hn, hn', e1, e2, hne, he⟩ := shift_facts hok h hk hno hr.1 hp
    obtain ⟨i, i', hi, hi', d1, d2, hne2, he2⟩ := shift_facts hok h hk hno hq.1 hp2
    rw [hpath r hr.1, hpath q hq.1, e2, d2, plt_append_left, stp_lt_iff hok hn' hi'] at hlt
    rw [e1, d1, plt_append_left, stp_lt_iff hok hn hi]
    split at he <;> split at he2 <;> omega

/-! ### A place chosen among siblings -/

/-- `sibs` are siblings at position `m` below `P` or later, in order; `s` is the slot -/
structure Place0 (cfg : Cfg) (rows : List Row) (P : List Nat) (m : Nat) (sibs : List Row) (K : Nat → Prop)
    (s : Slot) : Prop where
  isPar : IsPar rows P
  one : 1 ≤ m
  cap : m < cfg.cap
  sorted : sibs.Pairwise (fun a b => a.path < b.path)
  mem : ∀ r, r ∈ sibs → r ∈ rows ∧ pp cfg.steplen r.path = P ∧ ¬ r.path < P ++ stp cfg m
  slot : NSlot cfg.steplen (fun r => r ∈ rows ∧ K r.pk) (P ++ stp cfg m) s

/-- the same, with no one satisfying `K` missing -/
structure Place (cfg : Cfg) (rows : List Row) (P : List Nat) (m : Nat) (sibs : List Row) (K : Nat → Prop)
    (s : Slot) : Prop where
  isPar : IsPar rows P
  one : 1 ≤ m
  cap : m < cfg.cap
  sorted : sibs.Pairwise (fun a b => a.path < b.path)
  mem : ∀ r, r ∈ sibs → r ∈ rows ∧ pp cfg.steplen r.path = P ∧ ¬ r.path < P ++ stp cfg m
  all : ∀ r ∈ rows, pp cfg.steplen r.path = P → ¬ r.path < P ++ stp cfg m → K r.pk → r ∈ sibs
  slot : NSlot cfg.steplen (fun r => r ∈ rows ∧ K r.pk) (P ++ stp cfg m) s

theorem Place.toPlace0 (hp : Place cfg rows P m sibs K s) : Place0 cfg rows P m sibs K s :=
  ⟨hp.isPar, hp.one, hp.cap, hp.sorted, hp.mem, hp.slot⟩

/-- all the positions from `m` on below `P` are used -/
def Full (cfg : Cfg) (rows : List Row) (P : List Nat) (m : Nat) : Prop :=
  ∀ n, m ≤ n → n < cfg.cap → ∃ r ∈ rows, r.path = P ++ stp cfg n

/-- the siblings to shift, one place right of which there is room -/
def Collected (cfg : Cfg) (rows : List Row) (P : List Nat) (m : Nat) (sibs : List Row) (K : Nat → Prop) : Prop :=
    (∃ k moves, collectShift cfg sibs (P ++ stp cfg m) = .ok moves ∧ moves.map Row.path = run cfg P m k ∧
      m + k < cfg.cap ∧ (∀ r ∈ rows, (K r.pk ∨ r ∈ sibs) → r.path ≠ P ++ stp cfg (m + k)) ∧
      (∀ i, m ≤ i → i < m + k → ∃ r ∈ sibs, r.path = P ++ stp cfg i)) ∨
    (collectShift cfg sibs (P ++ stp cfg m) = .error .pathOverflow ∧ Full cfg rows P m)

theorem Place.collect (hok : cfg.Ok) (h : PInv cfg rows) (hp : Place cfg rows P m sibs K s) :
    Collected cfg rows P m sibs K := by
  have hpos : ∀ r ∈ sibs, ∃ n, m ≤ n ∧ n < cfg.cap ∧ r.path = P ++ stp cfg n := by
    intro r hr
    obtain ⟨hr1, hr2, hr3⟩ := hp.mem r hr
    obtain ⟨n, _, hn, e⟩ := h.sib_pos hr1 hr2
    refine ⟨n, ?_, hn, e⟩
    rw [e, plt_append_left, stp_lt_iff hok hn hp.cap] at hr3
    omega
  rcases collectShift_spec hok sibs m hp.cap hp.sorted hpos with ⟨k, moves, h1, h2, h3, h4, h5⟩ | ⟨h1, h2⟩
  · refine Or.inl ⟨k, moves, h1, h2, h3, ?_, h5⟩
    rintro r hr (hK | hK) e
    swap
    · exact h4 r hK e
    refine h4 r (hp.all r hr ?_ ?_ hK) e
    · rw [e, pp_step hok P h3]
    · rw [e, plt_append_left, stp_lt_iff hok h3 hp.cap]; omega
  · refine Or.inr ⟨h1, ?_⟩
    intro n hn1 hn2
    obtain ⟨r, hr, e⟩ := h2 n hn1 hn2
    exact ⟨r, (hp.mem r hr).1, e⟩

/-- the rest of `_reorder_nodes_before_add_or_move` once position and siblings are known -/
def reorderRest (cfg : Cfg) (db : DB) (newpos : Int) (newdepth : Nat) (target : Row) (sibs : List Row)
    (oldpath : Option (List Nat)) : Except Err (DB × Option (List Nat) × List Nat) :=
  match getPath cfg target.path newdepth newpos with
  | .error e => .error e
  | .ok newpath =>
    match (match oldpath with
      | none => Except.ok (db, none)
      | some old => moveToTemp cfg db target sibs newdepth old newpath) with
    | .error e => .error e
    | .ok (db, temp) =>
      match collectShift cfg sibs newpath with
      | .error e => .error e
      | .ok moves =>
        match shiftLoop cfg moves.reverse db oldpath with
        | .error e => .error e
        | .ok (db, oldpath) =>
          match oldpath with
          | none => .ok (db, none, newpath)
          | some old =>
            match setNewpath cfg db (temp.getD old) newpath with
            | .error e => .error e
            | .ok db => .ok (db, some old, newpath)

def IsLastCase (cfg : Cfg) (db : DB) (pos : Pos) (target : Row) : Prop :=
  pos = .lastSibling ∨ (pos = .right ∧ sameNode target (lastSibling cfg db target) = true)

theorem reorder_some {db : DB} {pos : Pos} {target : Row} (hl : ¬ IsLastCase cfg db pos target) (n : Int)
    (newdepth : Nat) (sibs : List Row) (old : Option (List Nat)) :
    reorder cfg db pos (some n) newdepth target sibs old = reorderRest cfg db n newdepth target sibs old := by
  unfold IsLastCase at hl
  unfold reorder
  rw [if_neg hl]
  rfl

theorem reorder_none {db : DB} {pos : Pos} {target : Row} (hl : ¬ IsLastCase cfg db pos target)
    (newdepth : Nat) (sibs0 : List Row) (old : Option (List Nat)) :
    reorder cfg db pos none newdepth target sibs0 old =
      match placeSiblings cfg db pos target with
      | .error e => .error e
      | .ok (n, sibs) => reorderRest cfg db n newdepth target sibs old := by
  unfold IsLastCase at hl
  unfold reorder
  rw [if_neg hl]
  rfl

/-! ### Adding -/

theorem reorderRest_add (hok : cfg.Ok) {db : DB} (h : PInv cfg db.rows) {target : Row} {newdepth : Nat}
    (hbase : basepath cfg target.path ((newdepth : Int) - 1) = P) (hp : Place cfg db.rows P m sibs K s)
    (hK : ∀ r ∈ db.rows, K r.pk) :
    (∃ db' f, reorderRest cfg db m newdepth target sibs none = .ok (db', none, P ++ stp cfg m) ∧
      Same cfg db.rows db'.rows f ∧ (∀ r ∈ db'.rows, r.path ≠ P ++ stp cfg m) ∧ IsPar db'.rows P ∧
      at? db'.rows P = at? db.rows P ∧
      PSlot cfg.steplen Row.pk Row.path (fun r => r ∈ db'.rows ∧ K r.pk) (P ++ stp cfg m) s) ∨
    (reorderRest cfg db m newdepth target sibs none = .error .pathOverflow ∧ Full cfg db.rows P m) := by
  unfold reorderRest
  rw [getPath_eq hok _ _ hp.cap, hbase]
  simp only
  rcases hp.collect hok h with ⟨k, moves, e1, e2, hk, hno, _⟩ | ⟨e1, hfull⟩
  · left
    obtain ⟨db', f, e3, hs, _, hv, hP', hat, hslot⟩ := shift_phase hok h hp.isPar hp.one e2 hk
      (fun r hr => hno r hr (Or.inl (hK r hr))) none
    rw [Option.map_none] at e3
    exact ⟨db', f, by simp only [e1, e3], hs, hv, hP', hat, hslot K s hp.slot⟩
  · right
    exact ⟨by simp only [e1], hfull⟩

/-! ### Moving -/

/-- what a table looks like after moving the branch of `x` below the row at `P` -/
structure Moved (cfg : Cfg) (rows rows' : List Row) (f : Row → Row) (x : Row) (P : List Nat) (s : Slot) : Prop where
  eq : rows' = rows.map f
  keeps : Keeps f
  pinv : PInv cfg rows'
  par : ∀ r ∈ rows, r ≠ x → par cfg rows' (f r) = par cfg rows r
  parx : MP.par cfg rows' (f x) = at? rows P
  forest : PF cfg rows' = (PF cfg rows).move x.pk (at? rows P) s

/-- the rename of `x` to a free place -/
theorem rename_moved (hok : cfg.Ok) {db : DB} (h : PInv cfg db.rows) {x : Row} (hx : x ∈ db.rows) {P : List Nat}
    {n : Nat} (h1 : 1 ≤ n) (hn : n < cfg.cap) (hP : IsPar db.rows P) (hPx : ¬ x.path <+: P)
    (hno : ∀ r ∈ db.rows, r.path ≠ P ++ stp cfg n) {s : Slot}
    (hs : PSlot cfg.steplen Row.pk Row.path (fun r => r ∈ db.rows ∧ r.pk ≠ x.pk) (P ++ stp cfg n) s) :
    ∃ db', setNewpath cfg db x.path (P ++ stp cfg n) = .ok db' ∧
      Moved cfg db.rows db'.rows (newpathRow cfg x.path (P ++ stp cfg n)) x P s := by
  obtain ⟨db', e, hrows⟩ := setNewpath_ok h hok hx h1 hn hP hPx hno
  have hpinv := newpath_PInv h hok hx h1 hn hP hPx hno
  have hc := canRen h hok hx hn hP hPx hno
  have hpk : ∀ r ∈ db.rows, (newpathRow cfg x.path (P ++ stp cfg n) r).pk = r.pk :=
    fun r _ => (keeps_newpathRow _ _).pk r
  have hpath : ∀ r ∈ db.rows, (newpathRow cfg x.path (P ++ stp cfg n) r).path =
      ren x.path (P ++ stp cfg n) r.path := fun r _ => newpathRow_path _ _ r
  refine ⟨db', e, hrows, keeps_newpathRow _ _, by rw [hrows]; exact hpinv, ?_, ?_, ?_⟩
  · intro r hr hrx
    rw [hrows]
    exact ren_parOf h.inv hok.step hc hpk hpath hr hrx
  · rw [hrows]
    have := ren_parOf_x h.inv hok.step hc hpk hpath
    rw [pp_step hok P hn] at this
    exact this
  · rw [hrows]
    have := ren_move h.inv hok.step hc hpk hpath (shows_pforest h.inv) (shows_pforest hpinv.inv) (s := s) (by
      have e : (fun r => r ∈ db.rows ∧ r ≠ x) = (fun r => r ∈ db.rows ∧ r.pk ≠ x.pk) := by
        funext r
        apply propext
        refine and_congr_right (fun hr => not_congr ⟨fun e => by rw [e], fun e => h.inv.pk_inj hr hx e⟩)
      rw [e]; exact hs)
    rw [pp_step hok P hn] at this
    exact this

/-- last sibling of a row -/
theorem lastSibling_spec (hok : cfg.Ok) {db : DB} (h : PInv cfg db.rows) {t : Row} (ht : t ∈ db.rows) :
    ∃ last, lastSibling cfg db t = some last ∧ last ∈ db.rows ∧ pp cfg.steplen last.path = pp cfg.steplen t.path ∧
      ∀ r ∈ db.rows, pp cfg.steplen r.path = pp cfg.steplen t.path → r ≠ last → r.path < last.path := by
  have hne : siblings cfg db t ≠ [] := by
    intro e
    have := (mem_siblings h hok ht (r := t)).2 ⟨ht, rfl⟩
    rw [e] at this
    simp at this
  obtain ⟨last, hl⟩ := List.getLast?_isSome.2 hne |> Option.isSome_iff_exists.1
  obtain ⟨h1, h2⟩ := getLast?_max (siblings_sorted h t) hl
  have h3 := (mem_siblings h hok ht).1 h1
  exact ⟨last, hl, h3.1, h3.2, fun r hr hp hne => h2 r ((mem_siblings h hok ht).2 ⟨hr, hp⟩) hne⟩

/-- The room `move` needs without saying so: when the node moves left among its siblings, the temporary
position two after the last sibling fits in `steplen` characters. -/
def TempRoom (cfg : Cfg) (rows : List Row) (P : List Nat) : Prop :=
  ∀ r ∈ rows, pp cfg.steplen r.path = P → ∀ n, r.path = P ++ stp cfg n → n < cfg.cap → n + 2 < cfg.cap

/-- the condition for the temporary move -/
def TempCase (cfg : Cfg) (x : Row) (P : List Nat) (m : Nat) (sibs : List Row) : Prop :=
  pp cfg.steplen x.path = P ∧ sibs ≠ [] ∧ P ++ stp cfg m < x.path

theorem tempCond_iff (hok : cfg.Ok) {rows : List Row} (h : PInv cfg rows) {x : Row} (hx : x ∈ rows)
    {P : List Nat} {m : Nat} (hm : m < cfg.cap) {newdepth : Nat} (hd : newdepth * cfg.steplen = P.length + cfg.steplen)
    {sibs : List Row} :
    (x.path.length = (P ++ stp cfg m).length
      ∧ basepath cfg x.path ((x.path.length / cfg.steplen : Nat) - 1) =
          basepath cfg (P ++ stp cfg m) ((newdepth : Int) - 1)
      ∧ sibs ≠ [] ∧ P ++ stp cfg m < x.path) ↔ TempCase cfg x P m sibs := by
  have hl := h.inv.len x hx
  have hstep := hok.step
  have hq : 1 ≤ x.path.length / cfg.steplen := Nat.div_pos hl.2 (by omega)
  have hnd : 1 ≤ newdepth := by
    by_contra hc
    have : newdepth = 0 := by omega
    subst this; omega
  rw [basepath_parent hq (Nat.div_mul_cancel hl.1).symm,
    basepath_parent hnd (by rw [step_len hok P hm, hd]), pp_step hok P hm]
  unfold TempCase
  constructor
  · rintro ⟨_, h2, h3, h4⟩; exact ⟨h2, h3, h4⟩
  · rintro ⟨h2, h3, h4⟩
    refine ⟨?_, h2, h3, h4⟩
    have := congrArg List.length h2
    rw [pp_length] at this
    rw [step_len hok P hm]
    omega

/-- The result of the first part of a move: the branch may have been moved to a temporary place. -/
theorem moveToTemp_spec (hok : cfg.Ok) {db : DB} (h : PInv cfg db.rows) {x : Row} (hx : x ∈ db.rows)
    (hp : Place0 cfg db.rows P m sibs K s) {newdepth : Nat} (hd : newdepth * cfg.steplen = P.length + cfg.steplen)
    {target : Row} (ht : sibs ≠ [] → target ∈ db.rows ∧ pp cfg.steplen target.path = P)
    (hroom : TempCase cfg x P m sibs → TempRoom cfg db.rows P) (hPx : ¬ x.path <+: P) :
    (¬ TempCase cfg x P m sibs ∧
      moveToTemp cfg db target sibs newdepth x.path (P ++ stp cfg m) = .ok (db, none)) ∨
    (TempCase cfg x P m sibs ∧ ∃ db' f n, n < cfg.cap ∧
      moveToTemp cfg db target sibs newdepth x.path (P ++ stp cfg m) = .ok (db', some (P ++ stp cfg n)) ∧
      (f x).path = P ++ stp cfg n ∧ Moved cfg db.rows db'.rows f x P .last ∧
      (∀ r ∈ db.rows, r.path < P ++ stp cfg n ∨ pp cfg.steplen r.path ≠ P) ∧
      (∀ r ∈ db.rows, pp cfg.steplen r.path = P → ∀ k, k < cfg.cap → r.path = P ++ stp cfg k → k + 2 ≤ n) ∧
      (∀ r ∈ db.rows, (f r).path = ren x.path (P ++ stp cfg n) r.path)) := by
  unfold moveToTemp
  by_cases hc : TempCase cfg x P m sibs
  · right
    refine ⟨hc, ?_⟩
    rw [if_pos ((tempCond_iff hok h hx hp.cap hd).2 hc)]
    obtain ⟨ht1, ht2⟩ := ht hc.2.1
    obtain ⟨last, hl, hlm, hlp, hmax⟩ := lastSibling_spec hok h ht1
    rw [ht2] at hlp hmax
    obtain ⟨l, hl1, hlc, hle⟩ := h.sib_pos hlm hlp
    have hroom' := hroom hc last hlm hlp l hle hlc
    have hle2 : ∀ r ∈ db.rows, pp cfg.steplen r.path = P → ∀ k, k < cfg.cap → r.path = P ++ stp cfg k → k ≤ l := by
      intro r hr hrp k hk e
      by_cases hrl : r = last
      · subst hrl
        have := stp_inj hok hk hlc (List.append_cancel_left (e.symm.trans hle))
        omega
      · have := hmax r hr hrp hrl
        rw [e, hle, plt_append_left, stp_lt_iff hok hk hlc] at this
        omega
    have hno : ∀ r ∈ db.rows, r.path ≠ P ++ stp cfg (l + 2) := by
      intro r hr e
      have := hle2 r hr (by rw [e, pp_step hok P hroom']) _ hroom' e
      omega
    have hlast : ∀ r ∈ db.rows, pp cfg.steplen r.path = P → r.path < P ++ stp cfg (l + 2) := by
      intro r hr hrp
      obtain ⟨k, _, hk, e⟩ := h.sib_pos hr hrp
      have := hle2 r hr hrp k hk e
      rw [e, plt_append_left, stp_lt_iff hok hk hroom']
      omega
    obtain ⟨db', e, hmoved⟩ := rename_moved hok h hx (by omega) hroom' hp.isPar hPx hno (s := .last) (by
      intro r hr hrp
      rw [pp_step hok P hroom'] at hrp
      exact hlast r hr.1 hrp)
    refine ⟨db', _, l + 2, hroom', ?_, ?_, hmoved, ?_, ?_, ?_⟩
    · have hnd : 1 ≤ newdepth := by
        by_contra hcc
        have : newdepth = 0 := by omega
        subst this; have := hok.step; omega
      simp only [hl, hle, lastpos_eq hok P hlc]
      rw [show ((l : Int) + 2) = ((l + 2 : Nat) : Int) by push_cast; rfl, getPath_eq hok _ _ hroom',
        basepath_parent hnd (by rw [step_len hok P hp.cap, hd]), pp_step hok P hp.cap]
      simp only [e]
    · rw [newpathRow_path, ren_of_prefix [] (by simp), List.append_nil]
    · intro r hr
      by_cases hrp : pp cfg.steplen r.path = P
      · exact Or.inl (hlast r hr hrp)
      · exact Or.inr hrp
    · intro r hr hrp k hk e
      have := hle2 r hr hrp k hk e
      omega
    · intro r hr; exact newpathRow_path _ _ r
  · left
    refine ⟨hc, ?_⟩
    rw [if_neg (fun hcc => hc ((tempCond_iff hok h hx hp.cap hd).1 hcc))]

theorem Moved.of_same {rows T T' : List Row} {f g : Row → Row} {x : Row} (hx : x ∈ rows) (h : PInv cfg rows)
    (hs : Same cfg rows T f) (hat : at? T P = at? rows P) (hm : Moved cfg T T' g (f x) P s) :
    Moved cfg rows T' (fun r => g (f r)) x P s := by
  refine ⟨?_, hs.keeps.comp hm.keeps, hm.pinv, ?_, ?_, ?_⟩
  · rw [hm.eq, hs.eq, List.map_map]; rfl
  · intro r hr hne
    rw [hm.par (f r) (by rw [hs.eq]; exact List.mem_map_of_mem hr) ?_, hs.par r hr]
    intro e
    have := congrArg Row.pk e
    rw [hs.keeps.pk, hs.keeps.pk] at this
    exact hne (h.inv.pk_inj hr hx this)
  · rw [hm.parx, hat]
  · rw [hm.forest, hs.forest, hat, hs.keeps.pk]

theorem Moved.trans {rows T T' : List Row} {f g : Row → Row} {x : Row} (hx : x ∈ rows) (h : PInv cfg rows)
    (hs : Moved cfg rows T f x P0 s0) (hat : at? T P = at? rows P) (hm : Moved cfg T T' g (f x) P s) :
    Moved cfg rows T' (fun r => g (f r)) x P s := by
  refine ⟨?_, hs.keeps.comp hm.keeps, hm.pinv, ?_, ?_, ?_⟩
  · rw [hm.eq, hs.eq, List.map_map]; rfl
  · intro r hr hne
    rw [hm.par (f r) (by rw [hs.eq]; exact List.mem_map_of_mem hr) ?_, hs.par r hr hne]
    intro e
    have := congrArg Row.pk e
    rw [hs.keeps.pk, hs.keeps.pk] at this
    exact hne (h.inv.pk_inj hr hx this)
  · rw [hm.parx, hat]
  · rw [hm.forest, hs.forest, hat, hs.keeps.pk, Forest.move_move]

theorem ren_length {old new p : List Nat} (h : old.length = new.length) : (ren old new p).length = p.length := by
  by_cases hp : old <+: p
  · obtain ⟨u, hu⟩ := hp
    rw [ren_of_prefix u hu.symm, ← hu]; simp [h]
  · rw [ren_of_not_prefix hp]

theorem sh_length (hok : cfg.Ok) (P : List Nat) {a : Nat} : ∀ (k : Nat) (p : List Nat), a + k < cfg.cap →
    (sh cfg P a k p).length = p.length := by
  intro k
  induction k with
  | zero => intro p _; rfl
  | succ k ih =>
    intro p hk
    rw [sh, ih _ (by omega), ren_length (by rw [step_len hok P (by omega), step_len hok P (by omega)])]

/-- What the caller of the reordering needs to know: the tracked old path still points to the old parent. -/
structure OldPar (cfg : Cfg) (rows rows' : List Row) (x : Row) (P old' : List Nat) : Prop where
  len : cfg.steplen ≤ old'.length
  isPar : IsPar rows' (pp cfg.steplen old')
  at_old : at? rows' (pp cfg.steplen old') = par cfg rows x
  isPar_new : IsPar rows' P
  at_new : at? rows' P = at? rows P

theorem pp_not_branch (hok : cfg.Ok) {p q : List Nat} (hl : cfg.steplen ≤ p.length) (hq : q.length ≤ p.length - cfg.steplen) :
    ¬ p <+: q := by
  intro h
  have := h.length_le
  have := hok.step
  omega

theorem newpathRow_path_par (hok : cfg.Ok) {p new : List Nat} (hl : cfg.steplen ≤ p.length) {r : Row} {P : List Nat}
    (hP : P.length ≤ p.length - cfg.steplen) (e : r.path = P) : (newpathRow cfg p new r).path = P := by
  rw [newpathRow_path, e, ren_of_not_prefix (pp_not_branch hok hl hP)]

theorem reorderRest_core (hok : cfg.Ok) {db : DB} (h : PInv cfg db.rows) {x : Row} (hx : x ∈ db.rows)
    {target : Row} {newdepth : Nat} (hbase : basepath cfg target.path ((newdepth : Int) - 1) = P)
    (hp : Place0 cfg db.rows P m sibs (· ≠ x.pk) s) (hcol : Collected cfg db.rows P m sibs (· ≠ x.pk)) (hd : newdepth * cfg.steplen = P.length + cfg.steplen)
    (ht : sibs ≠ [] → target ∈ db.rows ∧ pp cfg.steplen target.path = P)
    (hempty : sibs = [] → pp cfg.steplen x.path ≠ P) (hat0 : x.path = P ++ stp cfg m → x ∈ sibs)
    (hroom : TempCase cfg x P m sibs → TempRoom cfg db.rows P) (hPx : ¬ x.path <+: P) :
    (∃ db' f old', reorderRest cfg db m newdepth target sibs (some x.path) = .ok (db', some old', P ++ stp cfg m) ∧
      Moved cfg db.rows db'.rows f x P s ∧ OldPar cfg db.rows db'.rows x P old') ∨
    (reorderRest cfg db m newdepth target sibs (some x.path) = .error .pathOverflow ∧ Full cfg db.rows P m) := by
  have hxl := (h.inv.len x hx).2
  unfold reorderRest
  rw [getPath_eq hok _ _ hp.cap, hbase]
  simp only
  rcases moveToTemp_spec hok h hx hp hd ht hroom hPx with ⟨hc, e0⟩ | ⟨hc, db1, f1, n, hn, e0, hfx, hmv, hlt, hroom2, hf1⟩
  · simp only [e0]
    rcases hcol with ⟨k, moves, e1, e2, hk, hno, _⟩ | ⟨e1, hfull⟩
    · left
      have hno' : ∀ r ∈ db.rows, r.path ≠ P ++ stp cfg (m + k) := by
        intro r hr
        by_cases hrx : r.pk = x.pk
        · have := h.inv.pk_inj hr hx hrx
          subst this
          intro e
          have hrp : pp cfg.steplen r.path = P := by rw [e, pp_step hok P hk]
          have hle : ¬ P ++ stp cfg m < r.path := fun hlt => hc ⟨hrp, fun e0 => hempty e0 hrp, hlt⟩
          rw [e, plt_append_left, stp_lt_iff hok hp.cap hk] at hle
          have hk0 : k = 0 := by omega
          subst hk0
          exact hno r hr (Or.inr (hat0 e)) e
        · exact hno r hr (Or.inl hrx)
      obtain ⟨db2, f2, e3, hs, hpath, hv, hP', hat, hslot⟩ :=
        shift_phase hok h hp.isPar hp.one e2 hk hno' (some x.path)
      have hx2 : f2 x ∈ db2.rows := by rw [hs.eq]; exact List.mem_map_of_mem hx
      have hx2l : (f2 x).path.length = x.path.length := by rw [hpath x hx, sh_length hok P k _ hk]
      have hPx2 : ¬ (f2 x).path <+: P := by
        intro hpre
        have hle := hpre.length_le
        rw [hpath x hx, sh_short hok P hk (by omega)] at hpre
        exact hPx hpre
      obtain ⟨db3, e4, hm3⟩ := rename_moved hok hs.pinv hx2 hp.one hp.cap hP' hPx2 hv (s := s) (by
        have := hslot (· ≠ x.pk) s hp.slot
        rw [hs.keeps.pk]; exact this)
      have hmoved := Moved.of_same hx h hs hat hm3
      have hold : IsPar db2.rows (pp cfg.steplen (f2 x).path) := hs.pinv.isPar hx2
      have hfix : ∀ r ∈ db2.rows, r.path = pp cfg.steplen (f2 x).path →
          (newpathRow cfg (f2 x).path (P ++ stp cfg m) r).path = pp cfg.steplen (f2 x).path :=
        fun r _ e => newpathRow_path_par hok (by omega) (by rw [pp_length]) e
      have hfixP : ∀ r ∈ db2.rows, r.path = P → (newpathRow cfg (f2 x).path (P ++ stp cfg m) r).path = P := by
        intro r _ e
        rw [newpathRow_path, e, ren_of_not_prefix hPx2]
      refine ⟨db3, _, sh cfg P m k x.path, ?_, hmoved, ?_⟩
      · simp only [e1, e3, Option.map_some, Option.getD_none]
        rw [← hpath x hx, e4]
      · rw [← hpath x hx]
        refine ⟨by omega, ?_, ?_, ?_, ?_⟩
        · rw [hm3.eq]; exact hold.map hfix
        · rw [hm3.eq, at?_map_par hs.pinv hok (by rw [← hm3.eq]; exact hm3.pinv)
            (fun r _ => hm3.keeps.pk r) hold hfix]
          exact hs.par x hx
        · rw [hm3.eq]; exact hP'.map hfixP
        · rw [hm3.eq, at?_map_par hs.pinv hok (by rw [← hm3.eq]; exact hm3.pinv)
            (fun r _ => hm3.keeps.pk r) hP' hfixP, hat]
    · right
      exact ⟨by simp only [e1], hfull⟩
  · simp only [e0]
    rcases hcol with ⟨k, moves, e1, e2, hk, hno, hrun⟩ | ⟨e1, hfull⟩
    · left
      obtain ⟨nx, hnx1, hnx2, hxe⟩ := h.sib_pos hx hc.1
      have hnxm : m < nx := by
        have := hc.2.2
        rwa [hxe, plt_append_left, stp_lt_iff hok hp.cap hnx2] at this
      have hnx3 := hroom2 x hx hc.1 nx hnx2 hxe
      have hnmk : m + k < n := by
        rcases Nat.eq_zero_or_pos k with rfl | hk0
        · omega
        · obtain ⟨r, hr, e⟩ := hrun (m + k - 1) (by omega) (by omega)
          have := hroom2 r (hp.mem r hr).1 (hp.mem r hr).2.1 _ (by omega) e
          omega
      have hfixP1 : ∀ r ∈ db.rows, r.path = P → (f1 r).path = P := by
        intro r hr e
        rw [hf1 r hr, e, ren_of_not_prefix hPx]
      have hP1 : IsPar db1.rows P := by rw [hmv.eq]; exact hp.isPar.map hfixP1
      have hat1 : at? db1.rows P = at? db.rows P := by
        rw [hmv.eq]
        exact at?_map_par h hok (by rw [← hmv.eq]; exact hmv.pinv) (fun r _ => hmv.keeps.pk r) hp.isPar hfixP1
      have hno1 : ∀ r ∈ db1.rows, r.path ≠ P ++ stp cfg (m + k) := by
        intro r' hr'
        rw [hmv.eq] at hr'
        obtain ⟨r, hr, rfl⟩ := List.mem_map.1 hr'
        rw [hf1 r hr]
        by_cases hpre : x.path <+: r.path
        · obtain ⟨u, hu⟩ := hpre
          rw [ren_of_prefix u hu.symm]
          intro e
          have hl := congrArg List.length e
          rw [List.length_append, step_len hok P hn, step_len hok P hk] at hl
          have : u = [] := List.length_eq_zero_iff.1 (by omega)
          subst this
          rw [List.append_nil] at e
          have := stp_inj hok hn hk (List.append_cancel_left e)
          omega
        · rw [ren_of_not_prefix hpre]
          refine hno r hr (Or.inl ?_)
          intro e
          rw [h.inv.pk_inj hr hx e] at hpre
          exact hpre (List.prefix_refl _)
      obtain ⟨db2, f2, e3, hs, hpath, hv, hP', hat, hslot⟩ :=
        shift_phase hok hmv.pinv hP1 hp.one e2 hk hno1 (some x.path)
      have hx1 : f1 x ∈ db1.rows := by rw [hmv.eq]; exact List.mem_map_of_mem hx
      have hx2 : f2 (f1 x) ∈ db2.rows := by rw [hs.eq]; exact List.mem_map_of_mem hx1
      have hx2p : (f2 (f1 x)).path = P ++ stp cfg n := by
        rw [hpath _ hx1, hfx, sh_sib hok P k hk hn (by omega), if_neg (by omega)]
      have hPx2 : ¬ (f2 (f1 x)).path <+: P := by
        rw [hx2p]
        exact pp_not_branch hok (by rw [step_len hok P hn]; omega) (by rw [step_len hok P hn]; omega)
      have hslot1 : NSlot cfg.steplen (fun r => r ∈ db1.rows ∧ r.pk ≠ x.pk) (P ++ stp cfg m) s := by
        have hne : ∀ r, r.pk ≠ x.pk → r ≠ x := by rintro r hr rfl; exact hr rfl
        refine hp.slot.congr (f := f1) ?_ ?_ (fun r _ => hmv.keeps.pk r) ?_ ?_
        · rintro r ⟨hr, hk⟩
          exact ⟨by rw [hmv.eq]; exact List.mem_map_of_mem hr, by rw [hmv.keeps.pk]; exact hk⟩
        · rintro r' ⟨hr', hk'⟩
          rw [hmv.eq] at hr'
          obtain ⟨r, hr, rfl⟩ := List.mem_map.1 hr'
          exact ⟨r, ⟨hr, by rw [hmv.keeps.pk] at hk'; exact hk'⟩, rfl⟩
        · rintro r ⟨hr, hk⟩
          rw [pp_step hok P hp.cap, ← par_eq_at h hok hr hp.isPar, ← par_eq_at hmv.pinv hok (by
            rw [hmv.eq]; exact List.mem_map_of_mem hr) hP1, hat1, hmv.par r hr (hne r hk)]
        · rintro r ⟨hr, hk⟩ hpr
          rw [pp_step hok P hp.cap] at hpr
          rw [hf1 r hr, ren_of_not_prefix]
          intro hpre
          obtain ⟨nr, _, hnr, er⟩ := h.sib_pos hr hpr
          have := hpre.eq_of_length (by rw [hxe, er, step_len hok P hnx2, step_len hok P hnr])
          exact hne r hk (h.inv.path_inj hr hx this.symm)
      obtain ⟨db3, e4, hm3⟩ := rename_moved hok hs.pinv hx2 hp.one hp.cap hP' hPx2 hv (s := s) (by
        have := hslot (· ≠ x.pk) s hslot1
        rw [hs.keeps.pk, hmv.keeps.pk]; exact this)
      have hm2 := Moved.of_same hx1 hmv.pinv hs hat hm3
      have hmoved := Moved.trans hx h hmv hat1 hm2
      have hfixP : ∀ r ∈ db2.rows, r.path = P → (newpathRow cfg (f2 (f1 x)).path (P ++ stp cfg m) r).path = P := by
        intro r _ e
        rw [newpathRow_path, e, ren_of_not_prefix hPx2]
      have hold : pp cfg.steplen (sh cfg P m k x.path) = P := by
        by_cases hmk : nx = m + k
        · rw [hxe, sh_other P k (fun i h1 h2 => step_not_prefix hok (by omega) hnx2 (by omega)), pp_step hok P hnx2]
        · rw [hxe, sh_sib hok P k hk hnx2 hmk]
          refine pp_step hok P ?_
          split <;> omega
      have hPn : IsPar db3.rows P := by rw [hm3.eq]; exact hP'.map hfixP
      have hatn : at? db3.rows P = at? db.rows P := by
        rw [hm3.eq, at?_map_par hs.pinv hok (by rw [← hm3.eq]; exact hm3.pinv)
          (fun r _ => hm3.keeps.pk r) hP' hfixP, hat, hat1]
      refine ⟨db3, _, sh cfg P m k x.path, ?_, hmoved, ?_⟩
      · simp only [e1, e3, Option.map_some, Option.getD_some]
        rw [← hx2p, e4]
      · refine ⟨by rw [sh_length hok P k _ hk]; exact hxl, ?_, ?_, hPn, hatn⟩
        · rw [hold]; exact hPn
        · rw [hold, hatn]
          exact ((par_eq_at h hok hx hp.isPar).2 hc.1).symm
    · right
      exact ⟨by simp only [e1], hfull⟩

theorem reorderRest_move (hok : cfg.Ok) {db : DB} (h : PInv cfg db.rows) {x : Row} (hx : x ∈ db.rows)
    {target : Row} {newdepth : Nat} (hbase : basepath cfg target.path ((newdepth : Int) - 1) = P)
    (hp : Place cfg db.rows P m sibs (· ≠ x.pk) s) (hd : newdepth * cfg.steplen = P.length + cfg.steplen)
    (ht : sibs ≠ [] → target ∈ db.rows ∧ pp cfg.steplen target.path = P)
    (hempty : sibs = [] → pp cfg.steplen x.path ≠ P) (hat0 : x.path = P ++ stp cfg m → x ∈ sibs)
    (hroom : TempCase cfg x P m sibs → TempRoom cfg db.rows P) (hPx : ¬ x.path <+: P) :
    (∃ db' f old', reorderRest cfg db m newdepth target sibs (some x.path) = .ok (db', some old', P ++ stp cfg m) ∧
      Moved cfg db.rows db'.rows f x P s ∧ OldPar cfg db.rows db'.rows x P old') ∨
    (reorderRest cfg db m newdepth target sibs (some x.path) = .error .pathOverflow ∧ Full cfg db.rows P m) :=
  reorderRest_core hok h hx hbase hp.toPlace0 (hp.collect hok h) hd ht hempty hat0 hroom hPx

end Verif.MP
