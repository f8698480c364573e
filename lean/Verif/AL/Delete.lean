/-
AL: deletion.
-/
import Verif.AL.Place
import Verif.SpecHistory

namespace Verif.AL

variable {cfg : Cfg} {db : DB}

theorem cascade_succ (n : Nat) (S : Nat → Bool) : cascade db (n + 1) S = cascadeStep db (cascade db n S) := by
  induction n generalizing S with
  | zero => rfl
  | succ n ih =>
    show cascade db (n + 1) (cascadeStep db S) = _
    rw [ih]; rfl

theorem cascadeStep_iff {S : Nat → Bool} {k : Nat} :
    cascadeStep db S k = true ↔ S k = true ∨ ∃ r ∈ db.rows, r.pk = k ∧ ∃ p, r.parent = some p ∧ S p = true := by
  unfold cascadeStep
  rw [Bool.or_eq_true, List.any_eq_true]
  simp only [Bool.and_eq_true, beq_iff_eq]
  constructor
  · rintro (h | ⟨r, hr, hk, h⟩)
    · exact Or.inl h
    · refine Or.inr ⟨r, hr, hk, ?_⟩
      revert h
      cases r.parent with
      | none => simp
      | some p => intro h; exact ⟨p, rfl, h⟩
  · rintro (h | ⟨r, hr, hk, p, e, h⟩)
    · exact Or.inl h
    · exact Or.inr ⟨r, hr, hk, by rw [e]; exact h⟩

theorem cascade_mono {S : Nat → Bool} {k n m : Nat} (hnm : n ≤ m) (h : cascade db n S k = true) : cascade db m S k = true := by
  induction hnm with
  | refl => exact h
  | step _ ih => rw [cascade_succ]; exact cascadeStep_iff.2 (Or.inl ih)

theorem cascade_sound {S : Nat → Bool} {k n : Nat} (h : cascade db n S k = true) : Tree.Doomed (PF cfg db.rows) S k := by
  induction n generalizing k with
  | zero => exact Or.inl h
  | succ n ih =>
    rw [cascade_succ] at h
    rcases cascadeStep_iff.1 h with h | ⟨r, hr, rfl, p, e, h⟩
    · exact ih h
    · have hm : r.pk ∈ PF cfg db.rows (some p) := mem_PF.2 ⟨r, hr, e, rfl⟩
      rcases ih h with h | ⟨q, hq, hd⟩
      · exact Or.inr ⟨p, h, .child hm⟩
      · exact Or.inr ⟨q, hq, .step hd hm⟩

theorem cascade_complete (h : AI db.rows) {S : Nat → Bool} {r : Row} {l : List Row} (hc : Chain db.rows r l)
    (hd : Tree.Doomed (PF cfg db.rows) S r.pk) : cascade db l.length S r.pk = true := by
  induction hc with
  | @root r hr hp =>
    rcases hd with hd | ⟨q, _, hd⟩
    · exact hd
    · obtain ⟨r', h', ek, p, ep, _⟩ := desc_last hd
      have := h.pk_inj h' hr ek
      subst this
      rw [hp] at ep
      cases ep
  | @step r p l hc hr hp ih =>
    rw [List.length_append, List.length_singleton, cascade_succ]
    rcases hd with hd | ⟨q, hq, hd⟩
    · exact cascadeStep_iff.2 (Or.inl (cascade_mono (Nat.zero_le _) hd))
    · refine cascadeStep_iff.2 (Or.inr ⟨r, hr, rfl, p.pk, hp, ih ?_⟩)
      obtain ⟨r', h', ek, p', ep, hor⟩ := desc_last hd
      have := h.pk_inj h' hr ek
      subst this
      rw [hp] at ep
      cases ep
      rcases hor with e | e
      · rw [e]; exact Or.inl hq
      · exact Or.inr ⟨q, hq, e⟩

/-- the keys that go -/
def gone (db : DB) (S : Row → Bool) (k : Nat) : Bool := cascade db db.rows.length (fun k => db.rows.any (fun r => r.pk == k && S r)) k

theorem delete_rows (S : Row → Bool) : (delete db S).rows = db.rows.filter (fun r => !gone db S r.pk) := rfl

theorem gone_iff (h : AI db.rows) (S : Nat → Bool) {k : Nat} : gone db (fun r => S r.pk) k = true ↔ k ∈ db.rows.map Row.pk ∧ Tree.Doomed (PF cfg db.rows) S k := by
  have hS : ∀ k, db.rows.any (fun r => r.pk == k && S r.pk) = true ↔ k ∈ db.rows.map Row.pk ∧ S k = true := by
    intro k
    rw [List.any_eq_true, List.mem_map]
    simp only [Bool.and_eq_true, beq_iff_eq]
    constructor
    · rintro ⟨r, hr, rfl, hs⟩; exact ⟨⟨r, hr, rfl⟩, hs⟩
    · rintro ⟨⟨r, hr, rfl⟩, hs⟩; exact ⟨r, hr, rfl, hs⟩
  unfold gone
  constructor
  · intro hg
    rcases cascade_sound (cfg := cfg) hg with hd | ⟨q, hq, hd⟩
    · exact ⟨((hS k).1 hd).1, Or.inl ((hS k).1 hd).2⟩
    · obtain ⟨r, hr, ek, _⟩ := desc_last hd
      exact ⟨List.mem_map.2 ⟨r, hr, ek⟩, Or.inr ⟨q, ((hS q).1 hq).2, hd⟩⟩
  · rintro ⟨hk, hd⟩
    obtain ⟨r, hr, rfl⟩ := List.mem_map.1 hk
    obtain ⟨l, hc⟩ := chain_exists h hr
    refine cascade_mono (Nat.le_of_lt (hc.length_lt h)) (cascade_complete (cfg := cfg) h hc ?_)
    rcases hd with hd | ⟨q, hq, hd⟩
    · exact Or.inl ((hS _).2 ⟨hk, hd⟩)
    · refine Or.inr ⟨q, (hS q).2 ⟨?_, hq⟩, hd⟩
      obtain ⟨c, hc, _⟩ := hd.cases_head
      obtain ⟨c', hc', ep, _⟩ := mem_PF.1 hc
      obtain ⟨q', hq', e⟩ := h.exist c' hc' q ep
      exact List.mem_map.2 ⟨q', hq', e⟩

/-- what is left has its parents left -/
theorem gone_child (h : AI db.rows) (S : Nat → Bool) {r : Row} (hr : r ∈ db.rows) {p : Nat} (hp : r.parent = some p)
    (hg : gone db (fun r => S r.pk) p = true) : gone db (fun r => S r.pk) r.pk = true := by
  have hm : r.pk ∈ PF ⟨[], id, fun _ => .refl _⟩ db.rows (some p) := mem_PF.2 ⟨r, hr, hp, rfl⟩
  rw [gone_iff (cfg := ⟨[], id, fun _ => .refl _⟩) h] at hg ⊢
  refine ⟨List.mem_map_of_mem hr, ?_⟩
  rcases hg.2 with hd | ⟨q, hq, hd⟩
  · exact Or.inr ⟨p, hd, .child hm⟩
  · exact Or.inr ⟨q, hq, .step hd hm⟩

theorem ai_delete (h : AI db.rows) (S : Nat → Bool) : AI (delete db (fun r => S r.pk)).rows := by
  rw [delete_rows]
  refine ⟨h.pks.sublist (List.filter_sublist.map _), ?_, ?_⟩
  · intro r hr p e
    obtain ⟨h1, h2⟩ := List.mem_filter.1 hr
    obtain ⟨q, hq, rfl⟩ := h.exist r h1 p e
    refine ⟨q, List.mem_filter.2 ⟨hq, ?_⟩, rfl⟩
    cases hg : gone db (fun r => S r.pk) q.pk with
    | false => rfl
    | true => rw [gone_child h S h1 e hg] at h2; cases h2
  · obtain ⟨rank, hrk⟩ := h.rank
    exact ⟨rank, fun r hr => hrk r (List.mem_filter.1 hr).1⟩

theorem data_delete (S : Row → Bool) : data (delete db S).rows = (data db.rows).filter (fun e => !gone db S e.1) := by
  rw [delete_rows]
  unfold data
  rw [List.filter_map]
  rfl

theorem delete_spec (h : AInv cfg db.rows) (S : Nat → Bool) : AInv cfg (delete db (fun r => S r.pk)).rows ∧
    PF cfg (delete db (fun r => S r.pk)).rows = (PF cfg db.rows).prune (gone db (fun r => S r.pk)) := by
  have h' : AInv cfg (delete db (fun r => S r.pk)).rows := by
    refine ⟨ai_delete h.toAI S, ?_, ?_⟩
    · intro ho r hr
      rw [delete_rows] at hr
      exact h.sib ho r (List.mem_filter.1 hr).1
    · intro a ha b hb
      rw [delete_rows] at ha hb
      exact h.comp a (List.mem_filter.1 ha).1 b (List.mem_filter.1 hb).1
  refine ⟨h', ?_⟩
  have hF := shows_PF h'
  have hF' : Shows (PF cfg (delete db (fun r => S r.pk)).rows) (fun r => r ∈ db.rows ∧ gone db (fun r => S r.pk) r.pk = false) Row.pk Row.parent (lt cfg) := by
    refine hF.congr ?_ (fun _ _ => rfl) (fun _ _ _ _ _ hlt => hlt)
    intro r
    rw [delete_rows, List.mem_filter]
    simp
  refine Shows.prune (shows_PF h) hF' (fun _ _ _ => rfl) (fun _ _ _ _ _ _ _ hlt => hlt) (asymOn_lt _) ?_
  intro r q hr e hg
  exact gone_child h.toAI S hr e hg

end Verif.AL
