/-
MP: how far the positions go.
-/
import Verif.MP.Engine
import Verif.MP.History

namespace Verif.MP

variable {cfg : Cfg} {db db' : DB} {M : Nat}

/-- the positions in use are at most `M`: the last step of every path is the number of a position up to `M` -/
def PosIn (cfg : Cfg) (M : Nat) (db : DB) : Prop := ∀ r ∈ db.rows, ∀ n, lastpos cfg r.path = .ok n → n ≤ M

theorem PosIn.mono {N : Nat} (h : PosIn cfg M db) (hmn : M ≤ N) : PosIn cfg N db := fun r hr n e => Nat.le_trans (h r hr n e) hmn

/-- a path that ends with the step of a position up to `B` -/
def At (cfg : Cfg) (B : Nat) (p : List Nat) : Prop := ∃ P m, p = P ++ stp cfg m ∧ m ≤ B ∧ m < cfg.cap ∧ cfg.steplen ∣ P.length

theorem At.mono {B C : Nat} {p : List Nat} (h : At cfg B p) (hbc : B ≤ C) : At cfg C p := by
  obtain ⟨P, m, h1, h2, h3, h4⟩ := h
  exact ⟨P, m, h1, by omega, h3, h4⟩

theorem At.length (hok : cfg.Ok) {B : Nat} {p : List Nat} (h : At cfg B p) : cfg.steplen ∣ p.length ∧ cfg.steplen ≤ p.length := by
  obtain ⟨P, m, rfl, _, h3, h4⟩ := h
  rw [List.length_append, stp_length hok h3]
  exact ⟨Nat.dvd_add h4 (Nat.dvd_refl _), by omega⟩

theorem At.inc (hok : cfg.Ok) {B : Nat} {p : List Nat} (h : At cfg B p) (hB : B + 1 < cfg.cap) : ∃ q, incPath cfg p = .ok q ∧ At cfg (B + 1) q ∧ q.length = p.length := by
  obtain ⟨P, m, rfl, h2, h3, h4⟩ := h
  refine ⟨_, incPath_eq hok P (by omega), ⟨P, m + 1, rfl, by omega, by omega, h4⟩, ?_⟩
  simp only [List.length_append]
  rw [stp_length hok h3, stp_length hok (by omega)]

theorem At.last (hok : cfg.Ok) {B : Nat} {p : List Nat} (h : At cfg B p) : ∃ n, lastpos cfg p = .ok n ∧ n ≤ B := by
  obtain ⟨P, m, rfl, h2, h3, _⟩ := h
  exact ⟨m, lastpos_eq hok P h3, h2⟩

theorem At.swap (hok : cfg.Ok) {B : Nat} {old new d : List Nat} (h : At cfg B (old ++ d)) (hd : d ≠ []) (ho : cfg.steplen ∣ old.length)
    (hn : cfg.steplen ∣ new.length) : At cfg B (new ++ d) := by
  obtain ⟨P, m, e, h2, h3, h4⟩ := h
  have hlen := congrArg List.length e
  rw [List.length_append, List.length_append, stp_length hok h3] at hlen
  have hpos : 0 < d.length := List.length_pos_iff.2 hd
  have hdd : cfg.steplen ∣ d.length := by
    have : cfg.steplen ∣ old.length + d.length := by rw [hlen]; exact Nat.dvd_add h4 (Nat.dvd_refl _)
    exact (Nat.dvd_add_right ho).1 this
  have hle : cfg.steplen ≤ d.length := Nat.le_of_dvd hpos hdd
  have : d = P.drop old.length ++ stp cfg m := by
    have := congrArg (List.drop old.length) e
    rw [List.drop_left, List.drop_append_of_le_length (by omega)] at this
    exact this
  refine ⟨new ++ P.drop old.length, m, by rw [this]; simp, h2, h3, ?_⟩
  rw [List.length_append, List.length_drop]
  exact Nat.dvd_add hn (Nat.dvd_sub h4 ho)

theorem at_getPath (hok : cfg.Ok) {p : List Nat} (hp : cfg.steplen ∣ p.length) {d n B : Nat} (hd : 1 ≤ d) (hn : n ≤ B) (hB : B < cfg.cap) :
    ∃ q, getPath cfg p d n = .ok q ∧ At cfg B q := by
  refine ⟨_, getPath_eq hok p d (by omega), _, n, rfl, hn, by omega, ?_⟩
  rw [basepath_pred p hd, List.length_take]
  rcases Nat.le_total ((d - 1) * cfg.steplen) p.length with h | h
  · rw [Nat.min_eq_left h]; exact Nat.dvd_mul_left _ _
  · rw [Nat.min_eq_right h]; exact hp

/-- all rows are at positions up to `B`, but for the one out of the way at `t` -/
def AtAll (cfg : Cfg) (B : Nat) (t : Option (List Nat)) (rows : List Row) : Prop :=
  ∀ r ∈ rows, At cfg B r.path ∨ (t = some r.path ∧ cfg.steplen ∣ r.path.length ∧ cfg.steplen ≤ r.path.length)

theorem posIn_of_at (hok : cfg.Ok) (h : AtAll cfg M none db.rows) : PosIn cfg M db := by
  intro r hr n e
  rcases h r hr with h | ⟨h, _⟩
  · obtain ⟨m, e', hm⟩ := h.last hok
    rw [e'] at e; cases e; exact hm
  · cases h

theorem PosIn.at (hok : cfg.Ok) (h : PosIn cfg M db) (hi : PInv cfg db.rows) {r : Row} (hr : r ∈ db.rows) : At cfg M r.path := by
  obtain ⟨n, _, h2, h3⟩ := hi.pos r hr
  refine ⟨_, n, h3, ?_, h2, ?_⟩
  · refine h r hr n ?_
    rw [h3]; exact lastpos_eq hok _ h2
  · have h1 := hi.inv.len r hr
    rw [pp_length]
    exact Nat.dvd_sub h1.1 (Nat.dvd_refl _)

theorem PosIn.atAll (hok : cfg.Ok) (h : PosIn cfg M db) (hi : PInv cfg db.rows) : AtAll cfg M none db.rows :=
  fun _ hr => Or.inl (h.at hok hi hr)

theorem AtAll.mono {B C : Nat} {t : Option (List Nat)} {rows : List Row} (h : AtAll cfg B t rows) (hbc : B ≤ C) : AtAll cfg C t rows :=
  fun r hr => (h r hr).imp (fun h => h.mono hbc) id

theorem newpathRow_at (hok : cfg.Ok) {B : Nat} {old new : List Nat} {r : Row} (ho : cfg.steplen ∣ old.length ∧ cfg.steplen ≤ old.length) (hn : At cfg B new)
    (h : At cfg B r.path) : At cfg B (newpathRow cfg old new r).path := by
  unfold newpathRow
  split
  · rename_i hp
    obtain ⟨d, e⟩ := List.isPrefixOf_iff_prefix.1 hp
    show At cfg B (new ++ r.path.drop old.length)
    rw [← e, List.drop_left]
    by_cases hd : d = []
    · subst hd; simpa using hn
    · rw [← e] at h
      exact h.swap hok hd ho.1 (hn.length hok).1
  · exact h

theorem setNewpath_map {old new : List Nat} (e : setNewpath cfg db old new = .ok db') : db'.rows = db.rows.map (newpathRow cfg old new) := by
  unfold setNewpath at e
  dsimp only at e
  split at e
  · cases e; rfl
  · cases e

theorem setNewpath_ne {old new : List Nat} : setNewpath cfg db old new ≠ .error .pathOverflow := by
  unfold setNewpath
  dsimp only
  split <;> nofun

/-- an UPDATE of paths, with the branch out of the way at `t` or not -/
theorem setNewpath_at (hok : cfg.Ok) {B : Nat} {t : Option (List Nat)} {old new : List Nat} (ho : cfg.steplen ∣ old.length ∧ cfg.steplen ≤ old.length)
    (hn : At cfg B new) (ht : ∀ p, t = some p → p.length ≤ old.length) (h : AtAll cfg B t db.rows) (e : setNewpath cfg db old new = .ok db') :
    AtAll cfg B t db'.rows := by
  rw [setNewpath_map e]
  intro q hq
  obtain ⟨r, hr, rfl⟩ := List.mem_map.1 hq
  rcases h r hr with h | ⟨h, hl⟩
  · exact Or.inl (newpathRow_at hok ho hn h)
  · unfold newpathRow
    split
    · rename_i hp
      obtain ⟨d, e⟩ := List.isPrefixOf_iff_prefix.1 hp
      left
      show At cfg B (new ++ r.path.drop old.length)
      have := ht _ h
      rw [List.drop_eq_nil_of_le this]; simpa using hn
    · exact Or.inr ⟨h, hl⟩

/-- the branch goes out of the way -/
theorem setNewpath_away (hok : cfg.Ok) {B : Nat} {old t : List Nat} (ho : cfg.steplen ∣ old.length ∧ cfg.steplen ≤ old.length)
    (ht : cfg.steplen ∣ t.length ∧ cfg.steplen ≤ t.length) (h : AtAll cfg B none db.rows) (e : setNewpath cfg db old t = .ok db') :
    AtAll cfg B (some t) db'.rows := by
  rw [setNewpath_map e]
  intro q hq
  obtain ⟨r, hr, rfl⟩ := List.mem_map.1 hq
  rcases h r hr with h | ⟨h, _⟩
  · unfold newpathRow
    split
    · rename_i hp
      obtain ⟨d, e⟩ := List.isPrefixOf_iff_prefix.1 hp
      show At cfg B (t ++ r.path.drop old.length) ∨ (some t = some (t ++ r.path.drop old.length) ∧ cfg.steplen ∣ (t ++ r.path.drop old.length).length ∧
        cfg.steplen ≤ (t ++ r.path.drop old.length).length)
      rw [← e, List.drop_left]
      by_cases hd : d = []
      · subst hd; right; simpa using ht
      · left; rw [← e] at h; exact h.swap hok hd ho.1 ht.1
    · exact Or.inl h
  · cases h

/-- the branch comes back -/
theorem setNewpath_back (hok : cfg.Ok) {B : Nat} {t new : List Nat} (ht : cfg.steplen ∣ t.length ∧ cfg.steplen ≤ t.length) (hn : At cfg B new)
    (h : AtAll cfg B (some t) db.rows) (e : setNewpath cfg db t new = .ok db') : AtAll cfg B none db'.rows := by
  rw [setNewpath_map e]
  intro q hq
  obtain ⟨r, hr, rfl⟩ := List.mem_map.1 hq
  rcases h r hr with h | ⟨h, _⟩
  · exact Or.inl (newpathRow_at hok ht hn h)
  · left
    cases h
    unfold newpathRow
    rw [if_pos (List.isPrefixOf_iff_prefix.2 (List.prefix_refl _))]
    simpa using hn

theorem collectShift_at (hok : cfg.Ok) (hM : M + 1 < cfg.cap) : ∀ (sibs : List Row) (prior : List Nat), (∀ r ∈ sibs, At cfg M r.path) →
    ∃ l, collectShift cfg sibs prior = .ok l ∧ ∀ r ∈ l, r ∈ sibs
  | [], _, _ => ⟨[], rfl, by simp⟩
  | n :: ns, prior, h => by
    unfold collectShift
    split
    · exact ⟨[], rfl, by simp⟩
    · obtain ⟨q, e, _⟩ := (h n (by simp)).inc hok hM
      obtain ⟨l, e2, hl⟩ := collectShift_at hok hM ns q (fun r hr => h r (by simp [hr]))
      rw [e]; dsimp only
      rw [e2]
      exact ⟨n :: l, rfl, fun r hr => by
        rcases List.mem_cons.1 hr with rfl | hr
        · simp
        · exact List.mem_cons_of_mem _ (hl r hr)⟩

theorem bump_length {n inc p : List Nat} (h : inc.length = n.length) : (bump n inc p).length = p.length := by
  unfold bump
  split
  · rename_i hp
    have := (List.isPrefixOf_iff_prefix.1 hp).length_le
    rw [List.length_append, List.length_drop]; omega
  · rfl

theorem shiftLoop_at (hok : cfg.Ok) (hM : M + 1 < cfg.cap) {t : Option (List Nat)} : ∀ (l : List Row) (db : DB) (old : Option (List Nat)),
    (∀ r ∈ l, At cfg M r.path ∧ ∀ p, t = some p → p.length ≤ r.path.length) → AtAll cfg (M + 1) t db.rows →
    shiftLoop cfg l db old ≠ .error .pathOverflow ∧ ∀ db' old', shiftLoop cfg l db old = .ok (db', old') →
      AtAll cfg (M + 1) t db'.rows ∧ old'.map List.length = old.map List.length
  | [], db, old, _, h => ⟨nofun, fun db' old' e => by cases e; exact ⟨h, rfl⟩⟩
  | n :: ns, db, old, hl, h => by
    obtain ⟨q, e, hq, hlen⟩ := (hl n (by simp)).1.inc hok hM
    unfold shiftLoop
    rw [e]; dsimp only
    cases e2 : setNewpath cfg db n.path q with
    | error er => exact ⟨fun hc => setNewpath_ne (e2.trans (by cases hc; rfl)), nofun⟩
    | ok db1 =>
      dsimp only
      obtain ⟨h1, h2⟩ := shiftLoop_at hok hM ns db1 (old.map (bump n.path q)) (fun r hr => hl r (by simp [hr]))
        (setNewpath_at hok ((hl n (by simp)).1.length hok) hq (hl n (by simp)).2 h e2)
      refine ⟨h1, fun db' old' e => ?_⟩
      obtain ⟨h3, h4⟩ := h2 db' old' e
      refine ⟨h3, h4.trans ?_⟩
      cases old with
      | none => rfl
      | some o => simp only [Option.map_some]; rw [bump_length hlen]

theorem temp_at (hok : cfg.Ok) {p : List Nat} (hp : cfg.steplen ∣ p.length) {d n : Nat} (hd : 1 ≤ d) (hn : n < cfg.cap) :
    ∃ q, getPath cfg p d n = .ok q ∧ (cfg.steplen ∣ q.length ∧ cfg.steplen ≤ q.length) ∧ q.length ≤ d * cfg.steplen := by
  obtain ⟨q, e, h⟩ := at_getPath hok hp hd (Nat.le_refl n) hn
  refine ⟨q, e, h.length hok, ?_⟩
  rw [getPath_eq hok p d hn] at e
  cases e
  rw [List.length_append, stp_length hok hn, basepath_pred p hd, List.length_take]
  have : (d - 1) * cfg.steplen + cfg.steplen = d * cfg.steplen := by
    obtain ⟨k, rfl⟩ : ∃ k, d = k + 1 := ⟨d - 1, by omega⟩
    rw [Nat.add_sub_cancel, Nat.add_mul, Nat.one_mul]
  omega

theorem lastSibling_mem {t last : Row} (e : lastSibling cfg db t = some last) : last ∈ siblings cfg db t := List.mem_of_getLast? e

theorem moveToTemp_at (hok : cfg.Ok) (hM : M + 2 < cfg.cap) {newdepth : Nat} {target : Row} {sibs : List Row} {old newpath : List Nat}
    (hrows : AtAll cfg (M + 1) none db.rows) (hd : 1 ≤ newdepth) (hsib : ∀ r ∈ siblings cfg db target, At cfg M r.path) (hnew : At cfg (M + 1) newpath)
    (hold : cfg.steplen ∣ old.length ∧ cfg.steplen ≤ old.length) :
    moveToTemp cfg db target sibs newdepth old newpath ≠ .error .pathOverflow ∧ ∀ db1 temp, moveToTemp cfg db target sibs newdepth old newpath = .ok (db1, temp) →
      AtAll cfg (M + 1) temp db1.rows ∧ ∀ t, temp = some t → (cfg.steplen ∣ t.length ∧ cfg.steplen ≤ t.length) ∧ t.length ≤ newdepth * cfg.steplen := by
  unfold moveToTemp
  split
  · cases el : lastSibling cfg db target with
    | none => exact ⟨nofun, nofun⟩
    | some last =>
      obtain ⟨b, eb, hb⟩ := (hsib last (lastSibling_mem el)).last hok
      obtain ⟨t, et, ht1, ht2⟩ := temp_at hok (hnew.length hok).1 (d := newdepth) (n := b + 2) hd (by omega)
      dsimp only
      rw [eb]; dsimp only
      rw [show ((b : Int) + 2) = ((b + 2 : Nat) : Int) by push_cast; rfl, et]
      dsimp only
      cases e2 : setNewpath cfg db old t with
      | error er => exact ⟨fun hc => setNewpath_ne (e2.trans (by cases hc; rfl)), nofun⟩
      | ok db1 =>
        refine ⟨nofun, fun db1 temp e => ?_⟩
        cases e
        refine ⟨setNewpath_away hok hold ht1 hrows e2, ?_⟩
        rintro t ⟨⟩
        exact ⟨ht1, ht2⟩
  · exact ⟨nofun, fun db1 temp e => by cases e; exact ⟨hrows, nofun⟩⟩

/-- `_reorder_nodes_before_add_or_move` with a given position, where there is room for two more positions: it does not run out of room, and no node gets a
position over `M + 1` -/
theorem reorder_given (hok : cfg.Ok) (hM : M + 2 < cfg.cap) {pos : Pos} {n newdepth : Nat} {target : Row} {sibs : List Row} {old : Option (List Nat)}
    (hrows : AtAll cfg M none db.rows) (ht : At cfg M target.path) (hd : 1 ≤ newdepth)
    (hsib : ∀ r ∈ siblings cfg db target, At cfg M r.path) (hn : n ≤ M + 1) (hl : ∀ r ∈ sibs, At cfg M r.path ∧ newdepth * cfg.steplen ≤ r.path.length)
    (hold : ∀ o, old = some o → cfg.steplen ∣ o.length ∧ cfg.steplen ≤ o.length)
    (hpos : ¬ (pos = .lastSibling ∨ (pos = .right ∧ sameNode target (lastSibling cfg db target)))) :
    reorder cfg db pos (some n) newdepth target sibs old ≠ .error .pathOverflow ∧ ∀ db' o p, reorder cfg db pos (some n) newdepth target sibs old = .ok (db', o, p) →
      AtAll cfg (M + 1) none db'.rows ∧ At cfg (M + 1) p := by
  have hrows1 := hrows.mono (Nat.le_succ M)
  obtain ⟨newpath, e, hnew⟩ := at_getPath hok (ht.length hok).1 (d := newdepth) hd hn (by omega)
  obtain ⟨moves, em, hm⟩ := collectShift_at hok (by omega) sibs newpath (fun r hr => (hl r hr).1)
  unfold reorder
  rw [if_neg hpos]; dsimp only
  rw [e]; dsimp only
  cases old with
  | none =>
    dsimp only
    rw [em]; dsimp only
    obtain ⟨hs1, hs2⟩ := shiftLoop_at hok (M := M) (by omega) (t := none) moves.reverse db none
      (fun r hr => ⟨(hl r (hm r (List.mem_reverse.1 hr))).1, nofun⟩) hrows1
    cases es : shiftLoop cfg moves.reverse db none with
    | error er => exact ⟨fun hc => hs1 (es.trans (by cases hc; rfl)), nofun⟩
    | ok pr =>
      obtain ⟨db2, old2⟩ := pr
      obtain ⟨h3, h4⟩ := hs2 db2 old2 es
      cases old2 with
      | none => exact ⟨nofun, fun db' o p e => by cases e; exact ⟨h3, hnew⟩⟩
      | some o2 => cases h4
  | some old =>
    dsimp only
    obtain ⟨ht1, ht2⟩ := moveToTemp_at hok hM (sibs := sibs) hrows1 hd hsib hnew (hold old rfl)
    cases et : moveToTemp cfg db target sibs newdepth old newpath with
    | error er => exact ⟨fun hc => ht1 (et.trans (by cases hc; rfl)), nofun⟩
    | ok pr =>
      obtain ⟨db1, temp⟩ := pr
      obtain ⟨h1, h2⟩ := ht2 db1 temp et
      dsimp only
      rw [em]; dsimp only
      obtain ⟨hs1, hs2⟩ := shiftLoop_at hok (M := M) (by omega) (t := temp) moves.reverse db1 (some old)
        (fun r hr => ⟨(hl r (hm r (List.mem_reverse.1 hr))).1, fun p e => Nat.le_trans (h2 p e).2 (hl r (hm r (List.mem_reverse.1 hr))).2⟩) h1
      cases es : shiftLoop cfg moves.reverse db1 (some old) with
      | error er => exact ⟨fun hc => hs1 (es.trans (by cases hc; rfl)), nofun⟩
      | ok pr =>
        obtain ⟨db2, old2⟩ := pr
        obtain ⟨h3, h4⟩ := hs2 db2 old2 es
        cases old2 with
        | none => cases h4
        | some o2 =>
          dsimp only
          cases e2 : setNewpath cfg db2 (temp.getD o2) newpath with
          | error er => exact ⟨fun hc => setNewpath_ne (e2.trans (by cases hc; rfl)), nofun⟩
          | ok db3 =>
            refine ⟨nofun, fun db' o p e => ?_⟩
            cases e
            refine ⟨?_, hnew⟩
            cases temp with
            | none =>
              simp only [Option.map_some, Option.some.injEq] at h4
              refine setNewpath_at hok ?_ hnew nofun h3 e2
              show cfg.steplen ∣ o2.length ∧ cfg.steplen ≤ o2.length
              rw [h4]; exact hold old rfl
            | some t => exact setNewpath_back hok (h2 t rfl).1 hnew h3 e2

theorem reorder_found {pos : Pos} {newdepth : Nat} {target : Row} {sibs l : List Row} {n : Int} {old : Option (List Nat)}
    (hpos : ¬ (pos = .lastSibling ∨ (pos = .right ∧ sameNode target (lastSibling cfg db target)))) (e : placeSiblings cfg db pos target = .ok (n, l)) :
    reorder cfg db pos none newdepth target sibs old = reorder cfg db pos (some n) newdepth target l old := by
  unfold reorder
  rw [if_neg hpos, if_neg hpos]; dsimp only
  rw [e]

/-- the same for any position -/
theorem reorder_at (hok : cfg.Ok) (hM : M + 2 < cfg.cap) {pos : Pos} {newpos : Option Int} {newdepth : Nat} {target : Row} {sibs : List Row} {old : Option (List Nat)}
    (hrows : AtAll cfg M none db.rows) (ht : At cfg M target.path) (hd : 1 ≤ newdepth)
    (hsib : ∀ r ∈ siblings cfg db target, At cfg M r.path) (hsl : newpos = none → ∀ r ∈ siblings cfg db target, newdepth * cfg.steplen ≤ r.path.length)
    (hnp : ∀ n, newpos = some n → (∃ k : Nat, n = k ∧ k ≤ M + 1) ∧ ∀ r ∈ sibs, At cfg M r.path ∧ newdepth * cfg.steplen ≤ r.path.length)
    (hold : ∀ o, old = some o → cfg.steplen ∣ o.length ∧ cfg.steplen ≤ o.length) :
    reorder cfg db pos newpos newdepth target sibs old ≠ .error .pathOverflow ∧ ∀ db' o p, reorder cfg db pos newpos newdepth target sibs old = .ok (db', o, p) →
      AtAll cfg (M + 1) none db'.rows ∧ At cfg (M + 1) p := by
  have hrows1 := hrows.mono (Nat.le_succ M)
  by_cases hpos : pos = .lastSibling ∨ (pos = .right ∧ sameNode target (lastSibling cfg db target))
  · unfold reorder
    rw [if_pos hpos]
    cases el : lastSibling cfg db target with
    | none => exact ⟨nofun, nofun⟩
    | some last =>
      obtain ⟨q, e, hq, _⟩ := (hsib last (lastSibling_mem el)).inc hok (by omega)
      dsimp only
      rw [e]; dsimp only
      cases old with
      | none => exact ⟨nofun, fun db' o p e => by cases e; exact ⟨hrows1, hq⟩⟩
      | some old =>
        dsimp only
        cases e2 : setNewpath cfg db old q with
        | error er => exact ⟨fun hc => setNewpath_ne (e2.trans (by cases hc; rfl)), nofun⟩
        | ok db1 => exact ⟨nofun, fun db' o p e => by cases e; exact ⟨setNewpath_at hok (hold _ rfl) hq nofun hrows1 e2, hq⟩⟩
  · cases newpos with
    | some n =>
      obtain ⟨⟨k, rfl, hk⟩, hl⟩ := hnp n rfl
      exact reorder_given hok hM hrows ht hd hsib hk hl hold hpos
    | none =>
      have hall : ∀ r ∈ siblings cfg db target, At cfg M r.path ∧ newdepth * cfg.steplen ≤ r.path.length := fun r hr => ⟨hsib r hr, hsl rfl r hr⟩
      obtain ⟨b, eb, hb⟩ := ht.last hok
      have key : ∀ (n : Nat) l, placeSiblings cfg db pos target = .ok ((n : Int), l) → n ≤ M + 1 → (∀ r ∈ l, r ∈ siblings cfg db target) →
          reorder cfg db pos none newdepth target sibs old ≠ .error .pathOverflow ∧ ∀ db' o p, reorder cfg db pos none newdepth target sibs old = .ok (db', o, p) →
            AtAll cfg (M + 1) none db'.rows ∧ At cfg (M + 1) p := by
        intro n l e hn hl
        rw [reorder_found hpos e]
        exact reorder_given hok hM hrows ht hd hsib hn (fun r hr => hall r (hl r hr)) hold hpos
      have hother : placeSiblings cfg db pos target = .error .keyError →
          reorder cfg db pos none newdepth target sibs old ≠ .error .pathOverflow ∧ ∀ db' o p, reorder cfg db pos none newdepth target sibs old = .ok (db', o, p) →
            AtAll cfg (M + 1) none db'.rows ∧ At cfg (M + 1) p := by
        intro e
        unfold reorder
        rw [if_neg hpos]; dsimp only
        rw [e]
        exact ⟨nofun, nofun⟩
      unfold placeSiblings at key hother
      rw [eb] at key hother
      cases pos with
      | left => exact key b _ rfl (by omega) (fun r hr => (List.mem_filter.1 hr).1)
      | right => exact key (b + 1) _ rfl (by omega) (fun r hr => (List.mem_filter.1 hr).1)
      | firstSibling => exact key 1 _ rfl (by omega) (fun r hr => hr)
      | _ => exact hother rfl

/-! ### The operations -/

theorem depth_pos (hok : cfg.Ok) (h : PInv cfg db.rows) {t : Row} (ht : t ∈ db.rows) : 1 ≤ t.depth := by
  have h1 := h.depth t ht
  have h2 := (h.inv.len t ht).2
  have := hok.step
  rcases Nat.eq_zero_or_pos t.depth with h0 | h0
  · rw [h0] at h1; simp at h1; rw [h1] at h2; simp at h2; omega
  · exact h0

theorem sibling_length (hok : cfg.Ok) (h : PInv cfg db.rows) {t r : Row} (ht : t ∈ db.rows) (hr : r ∈ siblings cfg db t) :
    r.path.length = t.depth * cfg.steplen := by
  obtain ⟨hr, e⟩ := (mem_siblings h hok ht).1 hr
  have h1 := congrArg List.length e
  rw [pp_length, pp_length] at h1
  have h2 := (h.inv.len t ht).2
  have h3 := (h.inv.len r hr).2
  rw [← h.depth t ht]
  omega

theorem save_at {B : Nat} {row : Row} (hr : At cfg B row.path) (h : AtAll cfg B none db.rows) (e : save db row = .ok db') : AtAll cfg B none db'.rows := by
  unfold save at e
  dsimp only at e
  have hall : AtAll cfg B none (if db.rows.any (·.pk == row.pk) then db.rows.map (fun r => if r.pk == row.pk then row else r) else db.rows ++ [row]) := by
    intro q hq
    split at hq
    · obtain ⟨r, hr', rfl⟩ := List.mem_map.1 hq
      split
      · exact Or.inl hr
      · exact h r hr'
    · rcases List.mem_append.1 hq with hq | hq
      · exact h q hq
      · rw [List.mem_singleton] at hq; subst hq; exact Or.inl hr
  generalize (if db.rows.any (·.pk == row.pk) then db.rows.map (fun r => if r.pk == row.pk then row else r) else db.rows ++ [row]) = rows at e hall
  split at e
  · cases e; exact hall
  · cases e

theorem save_ne {row : Row} : save db row ≠ .error .pathOverflow := by
  unfold save
  dsimp only
  generalize (if db.rows.any (·.pk == row.pk) then db.rows.map (fun r => if r.pk == row.pk then row else r) else db.rows ++ [row]) = rows
  split <;> nofun

theorem AtAll.map {B : Nat} {rows : List Row} (h : AtAll cfg B none rows) {g : Row → Row} (hg : OnlyNum g) : AtAll cfg B none (rows.map g) := by
  intro q hq
  obtain ⟨r, hr, rfl⟩ := List.mem_map.1 hq
  rw [hg.path]
  exact h r hr

theorem addNumchild_at {B : Nat} {p : List Nat} {k : Int} (h : AtAll cfg B none db.rows) : AtAll cfg B none (addNumchild db p k).rows := by
  obtain ⟨g, e, hg, _⟩ := addNumchild_rows db p k
  rw [e]
  exact h.map hg

theorem updateParentCounts_at {B : Nat} {o n : List Nat} (h : AtAll cfg B none db.rows) : AtAll cfg B none (updateParentCounts cfg db o n).rows := by
  unfold updateParentCounts
  dsimp only
  have : AtAll cfg B none (if parentPathFromPath cfg o ≠ [] then addNumchild db (parentPathFromPath cfg o) (-1) else db).rows := by
    split
    · exact addNumchild_at h
    · exact h
  split
  · split
    · exact addNumchild_at this
    · exact this
  · exact h

theorem preparePosVar_ne (o : Bool) (pos : Option Pos) (v w : List Pos) : preparePosVar o pos v w ≠ .error .pathOverflow := by
  have key : ∀ q : Pos, (if q ∉ v then Except.error Err.invalidPosition else if o = true ∧ q ∉ w then .error .invalidPosition
      else if q ∈ w ∧ o = false then .error .missingNodeOrderBy else .ok q : Except Err Pos) ≠ .error .pathOverflow := by
    intro q h
    split at h
    · cases h
    · split at h
      · cases h
      · split at h <;> cases h
  cases pos with
  | none => exact key _
  | some p => exact key p

/-- the end of `add_sibling`, once the position is known -/
def placeNew (cfg : Cfg) (db : DB) (t : Row) (pos : Pos) (newpos : Option Int) (sibs : List Row) (new : Row) : Except Err (DB × Row) :=
  match reorder cfg db pos newpos t.depth t sibs none with
  | .error e => .error e
  | .ok (db, _, newpath) => finishAddSibling cfg db t.depth newpath new

/-- `add_sibling` -/
theorem addSibling_at (hok : cfg.Ok) (hM : M + 2 < cfg.cap) (h : PInv cfg db.rows) (hp : PosIn cfg M db) {t : Row} (ht : t ∈ db.rows) (pos : Option Pos) (new : Row) :
    addSibling cfg db t pos new ≠ .error .pathOverflow ∧ ∀ db' obj, addSibling cfg db t pos new = .ok (db', obj) → PosIn cfg (M + 1) db' := by
  have hrows := hp.atAll hok h
  have hsib : ∀ r ∈ siblings cfg db t, At cfg M r.path := fun r hr => hp.at hok h ((mem_siblings h hok ht).1 hr).1
  have hlen : ∀ r ∈ siblings cfg db t, t.depth * cfg.steplen ≤ r.path.length := fun r hr => Nat.le_of_eq (sibling_length hok h ht hr).symm
  have key : ∀ (pos' : Pos) (newpos : Option Int) (sibs : List Row),
      (∀ n, newpos = some n → (∃ k : Nat, n = k ∧ k ≤ M + 1) ∧ ∀ r ∈ sibs, At cfg M r.path ∧ t.depth * cfg.steplen ≤ r.path.length) →
      placeNew cfg db t pos' newpos sibs new ≠ .error .pathOverflow ∧ ∀ db' obj, placeNew cfg db t pos' newpos sibs new = .ok (db', obj) → PosIn cfg (M + 1) db' := by
    intro pos' newpos sibs hnp
    unfold placeNew
    obtain ⟨h1, h2⟩ := reorder_at hok hM (pos := pos') hrows (hp.at hok h ht) (depth_pos hok h ht) hsib (fun _ => hlen) hnp (old := none) nofun
    cases e : reorder cfg db pos' newpos t.depth t sibs none with
    | error er => exact ⟨fun hc => h1 (e.trans (by cases hc; rfl)), nofun⟩
    | ok r =>
      obtain ⟨db1, o, p⟩ := r
      obtain ⟨h3, h4⟩ := h2 db1 o p e
      dsimp only
      unfold finishAddSibling
      dsimp only
      have h5 : AtAll cfg (M + 1) none (if basepath cfg p ((t.depth : Int) - 1) ≠ [] then addNumchild db1 (basepath cfg p ((t.depth : Int) - 1)) 1 else db1).rows := by
        split
        · exact addNumchild_at h3
        · exact h3
      generalize (if basepath cfg p ((t.depth : Int) - 1) ≠ [] then addNumchild db1 (basepath cfg p ((t.depth : Int) - 1)) 1 else db1) = db2 at h5 ⊢
      cases e2 : save db2 { new with path := p, depth := t.depth } with
      | error er => exact ⟨fun hc => save_ne (e2.trans (by cases hc; rfl)), nofun⟩
      | ok db3 => exact ⟨nofun, fun db' obj e => by cases e; exact posIn_of_at hok (save_at h4 h5 e2)⟩
  unfold addSibling
  cases ep : preparePosForAddSibling cfg.ordered pos with
  | error er =>
    refine ⟨fun hc => ?_, nofun⟩
    exact preparePosVar_ne _ _ _ _ (ep.trans (by cases hc; rfl))
  | ok pos' =>
    dsimp only
    by_cases hs : pos' = .sortedSibling
    · rw [if_pos hs]
      unfold sortedPos
      dsimp only
      cases eh : (sortedPosQueryset cfg.orderBy Row.vals (siblings cfg db t) new.vals).head? with
      | none => exact key .lastSibling none _ nofun
      | some first =>
        have hsub : ∀ r ∈ sortedPosQueryset cfg.orderBy Row.vals (siblings cfg db t) new.vals, r ∈ siblings cfg db t := fun r hr => (sortedPos_sublist ..).subset hr
        obtain ⟨n, en, hn⟩ := (hsib first (hsub first (List.mem_of_head? eh))).last hok
        dsimp only
        rw [en]
        refine key .sortedSibling (some (n : Int)) _ ?_
        rintro _ ⟨⟩
        exact ⟨⟨n, rfl, by omega⟩, fun r hr => ⟨hsib r (hsub r hr), hlen r (hsub r hr)⟩⟩
    · rw [if_neg hs]
      exact key pos' none [] nofun

/-- `add_root` -/
theorem addRoot_at (hok : cfg.Ok) (hM : M + 2 < cfg.cap) (h : PInv cfg db.rows) (hp : PosIn cfg M db) (new : Row) :
    addRoot cfg db new ≠ .error .pathOverflow ∧ ∀ db' obj, addRoot cfg db new = .ok (db', obj) → PosIn cfg (M + 1) db' := by
  have hrows := (hp.atAll hok h).mono (Nat.le_succ M)
  unfold addRoot
  cases el : lastRootNode db with
  | some last =>
    have hl := mem_rows_of_lastRoot el
    dsimp only
    split
    · exact addSibling_at hok hM h hp hl _ new
    · obtain ⟨q, e, hq, _⟩ := (hp.at hok h hl).inc hok (by omega)
      rw [e]; dsimp only
      cases e2 : save db { new with path := q, depth := 1 } with
      | error er => exact ⟨fun hc => save_ne (e2.trans (by cases hc; rfl)), nofun⟩
      | ok db3 => exact ⟨nofun, fun db' obj e => by cases e; exact posIn_of_at hok (save_at hq hrows e2)⟩
  | none =>
    dsimp only
    obtain ⟨q, e, hq⟩ := at_getPath hok (p := []) (by simp) (d := 1) (n := 1) (B := M + 1) (by omega) (by omega) (by omega)
    rw [show getPath cfg [] 1 1 = .ok q from e]; dsimp only
    cases e2 : save db { new with path := q, depth := 1 } with
    | error er => exact ⟨fun hc => save_ne (e2.trans (by cases hc; rfl)), nofun⟩
    | ok db3 => exact ⟨nofun, fun db' obj e => by cases e; exact posIn_of_at hok (save_at hq hrows e2)⟩

/-- `add_child`, if the path of a first child fits in the field -/
theorem addChild_at (hok : cfg.Ok) (hM : M + 2 < cfg.cap) (h : PInv cfg db.rows) (hp : PosIn cfg M db) {t : Row} (ht : t ∈ db.rows)
    (hlen : t.isLeaf = true → t.path.length + cfg.steplen ≤ cfg.maxLen) (new : Row) :
    addChild cfg db t new ≠ .error .pathOverflow ∧ ∀ db' obj t', addChild cfg db t new = .ok (db', obj, t') → PosIn cfg (M + 1) db' := by
  have hrows := (hp.atAll hok h).mono (Nat.le_succ M)
  unfold addChild
  rw [(get?_eq_some h.inv).2 ⟨ht, rfl⟩]
  dsimp only
  split
  · cases el : lastChild cfg db t with
    | none => exact ⟨nofun, nofun⟩
    | some last =>
      dsimp only
      obtain ⟨h1, h2⟩ := addSibling_at hok hM h hp (mem_rows_of_lastChild el) (some .sortedSibling) new
      cases e : addSibling cfg db last (some .sortedSibling) new with
      | error er => exact ⟨fun hc => h1 (e.trans (by cases hc; rfl)), nofun⟩
      | ok r => exact ⟨nofun, fun db' obj t' e' => by cases e'; exact h2 _ _ e⟩
  · have key : newChildPath cfg db t ≠ .error .pathOverflow ∧ ∀ p, newChildPath cfg db t = .ok p → At cfg (M + 1) p := by
      unfold newChildPath
      split
      · rename_i hlf
        obtain ⟨q, e, hq⟩ := at_getPath hok (hp.at hok h ht |>.length hok).1 (d := t.depth + 1) (n := 1) (B := M + 1) (by omega) (by omega) (by omega)
        rw [show getPath cfg t.path ((t.depth : Int) + 1) 1 = .ok q from e]
        dsimp only
        have hql : q.length ≤ cfg.maxLen := by
          obtain ⟨q', e', _, h3⟩ := temp_at hok (hp.at hok h ht |>.length hok).1 (d := t.depth + 1) (n := 1) (by omega) (by omega)
          rw [e] at e'; cases e'
          have := hlen hlf
          rw [h.depth t ht] at this
          rw [Nat.add_mul, Nat.one_mul] at h3
          omega
        rw [if_neg (by omega)]
        exact ⟨nofun, fun p e => by cases e; exact hq⟩
      · cases el : lastChild cfg db t with
        | none => exact ⟨nofun, nofun⟩
        | some last =>
          obtain ⟨q, e, hq, _⟩ := (hp.at hok h (mem_rows_of_lastChild el)).inc hok (by omega)
          dsimp only
          rw [e]
          exact ⟨nofun, fun p e => by cases e; exact hq⟩
    cases e : newChildPath cfg db t with
    | error er => exact ⟨fun hc => key.1 (e.trans (by cases hc; rfl)), nofun⟩
    | ok q =>
      have hq := key.2 q e
      dsimp only
      have hr2 : AtAll cfg (M + 1) none (incNumchildPk db t.pk).rows := by
        refine hrows.map (g := fun r => if r.pk == t.pk then { r with numchild := r.numchild + 1 } else r) ⟨?_, ?_, ?_, ?_⟩ <;> intro r <;> by_cases hk : r.pk = t.pk <;> simp [hk]
      cases e2 : save (incNumchildPk db t.pk) { new with path := q, depth := t.depth + 1 } with
      | error er => exact ⟨fun hc => save_ne (e2.trans (by cases hc; rfl)), nofun⟩
      | ok db3 => exact ⟨nofun, fun db' obj t' e => by cases e; exact posIn_of_at hok (save_at hq hr2 e2)⟩

/-- the end of `move`, once the target is known -/
def moveFrom (cfg : Cfg) (db : DB) (x t target' : Row) (v : MoveVars) : Except Err MoveResult :=
  match moveSorted cfg db x v with
  | .error e => .error e
  | .ok none => .ok ⟨db, x, target'⟩
  | .ok (some v) => moveTo cfg db x t target' v

theorem moveFrom_some {x t target' : Row} {v w : MoveVars} (e : moveSorted cfg db x v = .ok (some w)) : moveFrom cfg db x t target' v = moveTo cfg db x t target' w := by
  unfold moveFrom; rw [e]

/-- `move` -/
theorem move_at (hok : cfg.Ok) (hM : M + 2 < cfg.cap) (hi : Inv cfg db.rows) (hp : PosIn cfg M db) {x t : Row} (hx : x ∈ db.rows) (ht : t ∈ db.rows)
    (pos : Option Pos) : move cfg db x t pos ≠ .error .pathOverflow ∧ ∀ res, move cfg db x t pos = .ok res → PosIn cfg (M + 1) res.db := by
  have h := hi.toPInv
  have hrows := hp.atAll hok h
  -- once the variables are known
  have key : ∀ (v : MoveVars) (target' : Row), v.target ∈ db.rows → 1 ≤ v.newdepth → (v.newpos = none → v.newdepth = v.target.depth) →
      (∀ n, v.newpos = some n → (∃ k : Nat, n = k ∧ k ≤ M + 1) ∧ ∀ r ∈ v.sibs, At cfg M r.path ∧ v.newdepth * cfg.steplen ≤ r.path.length) →
      moveTo cfg db x t target' v ≠ .error .pathOverflow ∧ ∀ res, moveTo cfg db x t target' v = .ok res → PosIn cfg (M + 1) res.db := by
    intro v target' hv hd hnd hnp
    unfold moveTo
    split
    · exact ⟨nofun, fun res e => by cases e; exact hp.mono (Nat.le_succ M)⟩
    · have hsib : ∀ r ∈ siblings cfg db v.target, At cfg M r.path := fun r hr => hp.at hok h ((mem_siblings h hok hv).1 hr).1
      obtain ⟨h1, h2⟩ := reorder_at hok hM (pos := v.pos) hrows (hp.at hok h hv) hd hsib
        (fun e r hr => by rw [hnd e]; exact Nat.le_of_eq (sibling_length hok h hv hr).symm) hnp (old := some x.path)
        (fun o e => by cases e; exact h.inv.len x hx)
      cases e : reorder cfg db v.pos v.newpos v.newdepth v.target v.sibs (some x.path) with
      | error er => exact ⟨fun hc => h1 (e.trans (by cases hc; rfl)), nofun⟩
      | ok r =>
        obtain ⟨db1, o, p⟩ := r
        obtain ⟨h3, h4⟩ := h2 db1 o p e
        dsimp only
        unfold finishMove
        dsimp only
        have h5 := updateParentCounts_at (o := o.getD []) (n := p) h3
        generalize updateParentCounts cfg db1 (o.getD []) p = db2 at h5 ⊢
        split
        · exact ⟨nofun, fun res e => by cases e; exact posIn_of_at hok h5⟩
        · exact ⟨nofun, nofun⟩
  have key2 : ∀ (v : MoveVars) (target' : Row), v.target ∈ db.rows → 1 ≤ v.newdepth → (v.newpos = none → v.newdepth = v.target.depth) →
      (v.pos = .sortedSibling → v.newdepth = v.target.depth) → (∀ n, v.newpos = some n → n = 1 ∧ v.sibs = []) →
      moveFrom cfg db x t target' v ≠ .error .pathOverflow ∧ ∀ res, moveFrom cfg db x t target' v = .ok res → PosIn cfg (M + 1) res.db := by
    intro v target' hv hd hnd hsd hnp
    have hsib : ∀ r ∈ siblings cfg db v.target, At cfg M r.path := fun r hr => hp.at hok h ((mem_siblings h hok hv).1 hr).1
    by_cases hs : v.pos = .sortedSibling
    · have hsub : ∀ r ∈ sortedPosQueryset cfg.orderBy Row.vals (siblings cfg db v.target) x.vals, r ∈ siblings cfg db v.target := fun r hr => (sortedPos_sublist ..).subset hr
      cases eh : (sortedPosQueryset cfg.orderBy Row.vals (siblings cfg db v.target) x.vals).head? with
      | none =>
        have e : moveSorted cfg db x v = .ok (some { v with sibs := sortedPosQueryset cfg.orderBy Row.vals (siblings cfg db v.target) x.vals, newpos := none, pos := .lastSibling }) := by
          unfold moveSorted; rw [if_pos hs]; dsimp only; rw [eh]
        rw [moveFrom_some e]
        exact key _ target' hv hd (fun _ => hsd hs) nofun
      | some first =>
        obtain ⟨n, en, hn⟩ := (hsib first (hsub first (List.mem_of_head? eh))).last hok
        obtain ⟨m, em, hm⟩ := (hp.at hok h hx).last hok
        have hk := key { v with sibs := sortedPosQueryset cfg.orderBy Row.vals (siblings cfg db v.target) x.vals, newpos := some (n : Int) } target' hv hd nofun
          (by rintro _ ⟨⟩
              refine ⟨⟨n, rfl, by omega⟩, fun r hr => ⟨hsib r (hsub r hr), ?_⟩⟩
              show v.newdepth * cfg.steplen ≤ _
              rw [hsd hs]
              exact Nat.le_of_eq (sibling_length hok h hv (hsub r hr)).symm)
        have e : moveSorted cfg db x v = .ok none ∨
            moveSorted cfg db x v = .ok (some { v with sibs := sortedPosQueryset cfg.orderBy Row.vals (siblings cfg db v.target) x.vals, newpos := some (n : Int) }) := by
          unfold moveSorted
          rw [if_pos hs]; dsimp only
          rw [eh]; dsimp only
          rw [en]; dsimp only
          by_cases hb : basepath cfg x.path ((x.depth : Int) - 1) = basepath cfg first.path ((first.depth : Int) - 1)
          · rw [if_pos hb, em]; dsimp only
            by_cases hm : (m : Int) = (n : Int) - 1
            · rw [if_pos hm]; exact Or.inl rfl
            · rw [if_neg hm]; exact Or.inr rfl
          · rw [if_neg hb]; exact Or.inr rfl
        rcases e with e | e
        · unfold moveFrom
          rw [e]
          exact ⟨nofun, fun res e => by cases e; exact hp.mono (Nat.le_succ M)⟩
        · rw [moveFrom_some e]; exact hk
    · have e : moveSorted cfg db x v = .ok (some v) := by unfold moveSorted; rw [if_neg hs]
      rw [moveFrom_some e]
      refine key v target' hv hd hnd (fun n e => ?_)
      obtain ⟨rfl, hl⟩ := hnp n e
      exact ⟨⟨1, rfl, by omega⟩, by rw [hl]; simp⟩
  unfold move
  cases ep : preparePosForMove cfg.ordered pos with
  | error er => exact ⟨fun hc => preparePosVar_ne _ _ _ _ (ep.trans (by cases hc; rfl)), nofun⟩
  | ok pos' =>
    dsimp only
    have hvars : moveToChildVars cfg db x t pos' ≠ .error .pathOverflow ∧ ∀ v, moveToChildVars cfg db x t pos' = .ok v →
        v.target ∈ db.rows ∧ 1 ≤ v.newdepth ∧ (v.newpos = none → v.newdepth = v.target.depth) ∧ (v.pos = .sortedSibling → v.newdepth = v.target.depth) ∧
          (∀ n, v.newpos = some n → n = 1 ∧ v.sibs = []) := by
      unfold moveToChildVars
      split
      · split
        · exact ⟨nofun, nofun⟩
        · split
          · refine ⟨nofun, fun v e => ?_⟩
            cases e
            exact ⟨ht, by simp, nofun, nofun, fun n e => by cases e; exact ⟨rfl, rfl⟩⟩
          · cases el : lastChild cfg db t with
            | none => exact ⟨nofun, nofun⟩
            | some last =>
              refine ⟨nofun, fun v e => ?_⟩
              cases e
              have hm := (mem_children hi hok ht).1 (List.mem_of_getLast? el)
              have : t.depth + 1 = last.depth := by
                have h1 := congrArg List.length hm.2
                rw [pp_length, h.depth t ht, h.depth last hm.1] at h1
                have h2 := (h.inv.len last hm.1).2
                rw [h.depth last hm.1] at h2
                have h3 := hok.step
                have : (t.depth + 1) * cfg.steplen = last.depth * cfg.steplen := by rw [Nat.add_mul, Nat.one_mul]; omega
                exact Nat.eq_of_mul_eq_mul_right (by omega) this
              exact ⟨mem_rows_of_lastChild el, by simp, fun _ => this, fun _ => this, nofun⟩
      · refine ⟨nofun, fun v e => ?_⟩
        cases e
        exact ⟨ht, depth_pos hok h ht, fun _ => rfl, fun _ => rfl, nofun⟩
    cases ev : moveToChildVars cfg db x t pos' with
    | error er => exact ⟨fun hc => hvars.1 (ev.trans (by cases hc; rfl)), nofun⟩
    | ok v =>
      dsimp only
      split
      · exact ⟨nofun, nofun⟩
      · obtain ⟨h1, h2, h3, h4, h5⟩ := hvars.2 v ev
        exact key2 v _ h1 h2 h3 h4 h5

/-- `delete` -/
theorem delete_pos {sel : Row → Bool} (hp : PosIn cfg M db) : PosIn cfg M (delete cfg db sel) := by
  unfold delete
  generalize deleteStmts cfg db sel = l
  induction l generalizing db with
  | nil => exact hp
  | cons st l ih =>
    refine ih ?_
    cases st with
    | lose p n =>
      intro q hq
      obtain ⟨r, hr, rfl⟩ := List.mem_map.1 hq
      split
      · exact hp r hr
      · exact hp r hr
    | delete pks paths => exact fun r hr => hp r (List.mem_filter.1 hr).1

end Verif.MP
