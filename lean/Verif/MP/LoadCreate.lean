/-
MP: `load_bulk(bulk_create=True)` stores the rows that `load_bulk` stores.
-/
import Verif.MP.LoadExact

namespace Verif.MP

variable {cfg : Cfg}

/-! ### The order in which the rows are stored is not seen -/

theorem PI_perm {rows rows' : List Row} (hp : rows.Perm rows') (h : PI cfg rows) : PI cfg rows' :=
  ⟨(hp.map _).nodup_iff.1 h.pkNodup, (hp.map _).nodup_iff.1 h.pathNodup, fun r hr => h.len r (hp.mem_iff.2 hr), fun r hr hl => by
    obtain ⟨q, hq, e⟩ := h.closed r (hp.mem_iff.2 hr) hl
    exact ⟨q, hp.mem_iff.1 hq, e⟩⟩

theorem PF_perm {rows rows' : List Row} (hp : rows.Perm rows') (h : PI cfg rows) : PF cfg rows = PF cfg rows' := by
  have h' := PI_perm hp h
  refine (shows_pforest h).unique ((shows_pforest h').congr (fun r => hp.mem_iff.symm) ?_ (fun _ _ _ _ _ hlt => hlt)) (asymOn_path _)
  intro r _
  have h1 : ∀ k, par cfg rows' r = some k ↔ par cfg rows r = some k := by
    intro k
    rw [parOf_eq_some h, parOf_eq_some h']
    exact exists_congr (fun q => and_congr_left (fun _ => hp.mem_iff.symm))
  exact Option.ext h1

theorem PInv.perm {rows rows' : List Row} (hp : rows.Perm rows') (h : PInv cfg rows) : PInv cfg rows' :=
  ⟨PI_perm hp h.inv, fun r hr => h.chars r (hp.mem_iff.2 hr), fun r hr => h.depth r (hp.mem_iff.2 hr), fun r hr => h.pos r (hp.mem_iff.2 hr)⟩

theorem Inv.perm {rows rows' : List Row} (hp : rows.Perm rows') (h : Inv cfg rows) : Inv cfg rows' :=
  ⟨h.toPInv.perm hp, fun r hr => by rw [h.num r (hp.mem_iff.2 hr), PF_perm hp h.inv]⟩

theorem layTops_pks (P : List Nat) (d m : Nat) (n : Nest (Nat × Vals)) : (layTops cfg P d m n).map Row.pk = n.tops.map Prod.fst := by
  induction n generalizing m with
  | nil => rfl
  | cons x c r _ ih => simp [layTops, Nest.tops, ih]

/-! ### The rows -/

theorem buildChildren_eq (hok : cfg.Ok) {n : Nest (Nat × Vals)} : ∀ {P : List Nat} {d i : Nat}, P.length = d * cfg.steplen → Room cfg d (i + 1) n →
    buildChildren cfg P d i n = .ok (layout cfg P d (i + 1) n) := by
  induction n with
  | nil => intros; rfl
  | cons a c r ihc ihr =>
    intro P d i hP hr
    obtain ⟨h1, _, h3, h4⟩ := hr
    have hp : getPath cfg P ((d : Int) + 1) ((i : Int) + 1) = .ok (P ++ stp cfg (i + 1)) := by
      have := getPath_eq hok P ((d : Int) + 1) h1
      rw [show ((d : Int) + 1 - 1) = (d : Int) by omega, basepath_nat, ← hP, List.take_length] at this
      simpa using this
    have hlen : (P ++ stp cfg (i + 1)).length = (d + 1) * cfg.steplen := by rw [step_len hok P h1, hP, Nat.add_mul, Nat.one_mul]
    simp only [buildChildren, hp, ihc hlen h3, ihr hP h4, layout]

/-- the first level, node by node -/
theorem firstLevel_exact (hok : cfg.Ok) {n : Nest (Nat × Vals)} : ∀ {db : DB} {h : Option Row} {P : List Nat} {d m : Nat} {prev : List Vals},
    Spot cfg db h P d m → (n.labels.map Prod.fst).Nodup → (∀ k ∈ n.labels.map Prod.fst, ∀ r ∈ db.rows, r.pk ≠ k) →
    (cfg.ordered = true → Rising cfg.orderBy prev n ∧ ∀ r ∈ db.rows, pp cfg.steplen r.path = P → r.vals ∈ prev) → Room cfg d m n →
    firstLevel cfg db h n = .ok ({ db with rows := db.rows.map (grow P n.tops.length) ++ layTops cfg P d m n }, layRest cfg P d m n,
      n.tops.map Prod.fst) := by
  induction n with
  | nil =>
    intro db h P d m prev _ _ _ _ _
    simp only [firstLevel, layTops, layRest, List.append_nil, Nest.tops, List.length_nil, Nat.cast_zero, List.map_nil]
    rw [List.map_congr_left (g := id) (fun r _ => grow_zero P r), List.map_id]
  | cons a c r _ ihr =>
    intro db h P d m prev s hnd hfresh hord hroom
    simp only [Nest.labels, List.map_cons, List.map_append, List.nodup_cons, List.nodup_append, List.mem_append, not_or, List.mem_cons] at hnd hfresh
    obtain ⟨⟨_, har⟩, _, hndr, _⟩ := hnd
    obtain ⟨hm, hd, hrc, hrr⟩ := hroom
    let new : Row := ⟨a.1, [], 0, (c.tops.length : Int), a.2⟩
    have hfa : ∀ q ∈ db.rows, q.pk ≠ new.pk := hfresh a.1 (Or.inl rfl)
    have e1 := s.add hok hfa (fun ho => goesLast_of ho (hord ho).2 (hord ho).1.1 (hord ho).1.2.1) hm hd
    have hlen : (P ++ stp cfg m).length = (d + 1) * cfg.steplen := by
      rw [step_len hok P hm, s.par.depth s.inv, Nat.add_mul, Nat.one_mul]
    have hg := grow_onlyNum P 1
    have e2 := buildChildren_eq hok hlen (i := 0) hrc
    have s1 := s.stays hok hfa hm
    have e3 := ihr (prev := prev ++ [a.2]) s1 hndr
      (by
        intro k hk q hq e
        rcases List.mem_append.1 hq with hq | hq
        · obtain ⟨q', hq', rfl⟩ := List.mem_map.1 hq
          rw [hg.pk] at e
          exact hfresh k (Or.inr (Or.inr hk)) q' hq' e
        · rw [List.mem_singleton] at hq; subst hq
          exact har (by rw [show a.1 = k from e]; exact hk))
      (fun ho => ⟨(hord ho).1.2.2.2, fun q hq hp => by
        rcases List.mem_append.1 hq with hq | hq
        · obtain ⟨q', hq', rfl⟩ := List.mem_map.1 hq
          rw [hg.path] at hp
          rw [hg.vals]
          exact List.mem_append_left _ ((hord ho).2 q' hq' hp)
        · rw [List.mem_singleton] at hq; subst hq
          simp [placed, new]⟩) hrr
    have hne : P ++ stp cfg m ≠ P := fun e => by
      have := congrArg List.length e
      rw [step_len hok P hm] at this
      have := hok.step
      omega
    simp only [firstLevel]
    rw [show (⟨a.1, [], 0, (c.tops.length : Int), a.2⟩ : Row) = new from rfl, e1]
    simp only [placed]
    rw [e2]
    simp only
    rw [e3]
    simp only [after, Except.ok.injEq, Prod.mk.injEq, layRest, layTops, Nest.tops, List.length_cons, List.map_cons, true_and]
    refine ⟨?_, rfl⟩
    congr 1
    rw [List.map_append, List.map_map, List.append_assoc, List.map_singleton]
    congr 1
    · refine List.map_congr_left (fun q _ => ?_)
      simp only [Function.comp_apply]
      rw [grow_grow]
      congr 1
      push_cast
      omega
    · rw [grow_other (by exact hne)]
      rfl

/-- a place for the structure in a consistent tree -/
theorem Spot.init (hok : cfg.Ok) {db : DB} (hi : Inv cfg db.rows) {h : Option Row} (hh : ∀ p, h = some p → p ∈ db.rows) :
    ∃ m, Spot cfg db h ((h.map Row.path).getD []) ((h.map Row.depth).getD 0) m := by
  obtain ⟨m, hm, hn⟩ := next_exists hi.toPInv hok ((h.map Row.path).getD [])
  refine ⟨m, hi.toPInv, ?_, hn, hm, ?_⟩
  · cases h with
    | none => exact ⟨rfl, rfl⟩
    | some p =>
      have hp := hh p rfl
      refine ⟨p, hp, rfl, rfl, rfl, ?_⟩
      exact leaf_next hok hi hp hn hm
  · intro t ht _
    rw [hi.num t ht]
    omega

end Verif.MP
