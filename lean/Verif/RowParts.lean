/-
Parts of a table, as sets of rows, and UPDATEs inside a part.
-/
import Verif.TxnParts
import Mathlib.Data.List.Basic
import Mathlib.Data.List.Nodup

namespace Verif.Parts

variable {ρ σ ι κ : Type} {rows : σ → List ρ} {pk : ρ → Nat} {p q : ρ → Bool}

/-- the rows of a part -/
def part (rows : σ → List ρ) (p : ρ → Bool) (db : σ) : List ρ := (rows db).filter p

/-- an UPDATE inside the part `p`: other rows stay as they are, the rows of the part stay in it and keep their keys -/
def Within (rows : σ → List ρ) (pk : ρ → Nat) (p : ρ → Bool) (u : σ → σ) : Prop :=
  ∃ f : ρ → ρ, (∀ db, rows (u db) = (rows db).map f) ∧ (∀ r, p r = false → f r = r) ∧ ∀ r, p r = true → p (f r) = true ∧ pk (f r) = pk r

/-- which keys are in which part -/
def Keyed (rows : σ → List ρ) (pk : ρ → Nat) (p : ι → ρ → Bool) (K : ι → Nat → Prop) (db : σ) : Prop :=
  ∀ i, ∀ r ∈ rows db, (p i r = true ↔ K i (pk r))

/-- the parts have no row in common -/
def Disjoint (p : ι → ρ → Bool) : Prop := ∀ i j r, p i r = true → p j r = true → i = j

theorem within_id : Within rows pk p (id : σ → σ) := ⟨id, fun _ => by simp, fun _ _ => rfl, fun _ h => ⟨h, rfl⟩⟩

theorem Within.comp {u v : σ → σ} (hu : Within rows pk p u) (hv : Within rows pk p v) : Within rows pk p (v ∘ u) := by
  obtain ⟨f, f1, f2, f3⟩ := hu
  obtain ⟨g, g1, g2, g3⟩ := hv
  refine ⟨g ∘ f, fun db => by simp [g1, f1], fun r hr => ?_, fun r hr => ?_⟩
  · simp only [Function.comp, f2 r hr, g2 r hr]
  · exact ⟨(g3 _ (f3 r hr).1).1, (g3 _ (f3 r hr).1).2.trans (f3 r hr).2⟩

theorem Within.keyed {p : ι → ρ → Bool} {K : ι → Nat → Prop} (hd : Disjoint p) {i : ι} {u : σ → σ} (hu : Within rows pk (p i) u) {db : σ}
    (h : Keyed rows pk p K db) : Keyed rows pk p K (u db) := by
  obtain ⟨f, h1, h2, h3⟩ := hu
  intro j r' hr'
  rw [h1] at hr'
  obtain ⟨r, hr, rfl⟩ := List.mem_map.1 hr'
  cases hS : p i r with
  | false => rw [h2 r hS]; exact h j r hr
  | true =>
    obtain ⟨h4, h5⟩ := h3 r hS
    rw [h5, ← h j r hr]
    by_cases hij : i = j
    · subst hij; rw [h4, hS]
    · exact ⟨fun e => absurd (hd i j _ h4 e) hij, fun e => absurd (hd i j _ hS e) hij⟩

theorem Within.frame {u : σ → σ} (hu : Within rows pk p u) (hd : ∀ r, p r = true → q r = false) (db : σ) :
    part rows q (u db) = part rows q db := by
  obtain ⟨f, h1, h2, h3⟩ := hu
  unfold part
  rw [h1]
  induction rows db with
  | nil => rfl
  | cons r l ih =>
    rw [List.map_cons]
    cases hS : p r with
    | true => rw [List.filter_cons_of_neg (by simp [hd _ (h3 r hS).1]), List.filter_cons_of_neg (by simp [hd _ hS]), ih]
    | false => rw [h2 r hS, List.filter_cons, List.filter_cons, ih]

theorem filter_map_within {f : ρ → ρ} (h2 : ∀ r, p r = false → f r = r) (h3 : ∀ r, p r = true → p (f r) = true) (l : List ρ) :
    (l.map f).filter p = (l.filter p).map f := by
  induction l with
  | nil => rfl
  | cons r l ih =>
    rw [List.map_cons]
    cases hS : p r with
    | true => rw [List.filter_cons_of_pos (h3 r hS), List.filter_cons_of_pos hS, ih, List.map_cons]
    | false => rw [h2 r hS, List.filter_cons_of_neg (by simp [hS]), List.filter_cons_of_neg (by simp [hS]), ih]

theorem Within.own {u : σ → σ} (hu : Within rows pk p u) {a b : σ} (h : part rows p a = part rows p b) :
    part rows p (u a) = part rows p (u b) := by
  obtain ⟨f, h1, h2, h3⟩ := hu
  unfold part at h ⊢
  rw [h1, h1, filter_map_within h2 (fun r hr => (h3 r hr).1), filter_map_within h2 (fun r hr => (h3 r hr).1), h]

theorem find?_part {K : ι → Nat → Prop} {p : ι → ρ → Bool} {i : ι} {k : Nat} (hk : K i k) {d : σ} (hd : Keyed rows pk p K d) :
    (rows d).find? (fun r => pk r == k) = (part rows (p i) d).find? (fun r => pk r == k) := by
  unfold part
  rw [List.find?_filter]
  have hall : ∀ r ∈ rows d, (pk r == k) = ((p i r) && (pk r == k)) := by
    intro r hr
    by_cases e : pk r = k
    · have := (hd i r hr).2 (e ▸ hk)
      simp [this, e]
    · simp [e]
  clear hd
  revert hall
  generalize rows d = l
  induction l with
  | nil => intro _; rfl
  | cons r l ih =>
    intro hall
    rw [List.find?_cons, List.find?_cons, hall r (by simp), ih (fun q hq => hall q (List.mem_cons_of_mem _ hq))]
    congr 1
    have := hall r (by simp)
    rw [Bool.eq_iff_iff] at this ⊢
    simp at this ⊢

/-- the row with a key of the part is found in the part -/
theorem find?_congr {K : ι → Nat → Prop} {p : ι → ρ → Bool} {i : ι} {a b : σ} (ha : Keyed rows pk p K a) (hb : Keyed rows pk p K b)
    (h : part rows (p i) a = part rows (p i) b) {k : Nat} (hk : K i k) :
    (rows a).find? (fun r => pk r == k) = (rows b).find? (fun r => pk r == k) := by
  rw [find?_part hk ha, find?_part hk hb, h]

/-- If a column tells the parts apart, an UPDATE inside a part keeps the column unique in the table iff it does so in the part. -/
theorem nodup_within {col : ρ → κ} {c : κ → Bool} (hc : ∀ r, p r = c (col r)) {f : ρ → ρ} (h2 : ∀ r, p r = false → f r = r)
    (h3 : ∀ r, p r = true → p (f r) = true) {l : List ρ} (hn : (l.map col).Nodup) :
    ((l.map f).map col).Nodup ↔ (((l.filter p).map f).map col).Nodup := by
  have hperm : (l.filter p ++ l.filter (fun r => !p r)).Perm l := List.filter_append_perm p l
  have h1 : ((l.map f).map col).Perm (((l.filter p).map f).map col ++ ((l.filter (fun r => !p r)).map f).map col) := by
    rw [← List.map_append, ← List.map_append]
    exact ((hperm.map f).map col).symm
  rw [h1.nodup_iff, List.nodup_append]
  refine ⟨fun h => h.1, fun h => ⟨h, ?_, ?_⟩⟩
  · have : (l.filter (fun r => !p r)).map f = l.filter (fun r => !p r) := by
      conv_rhs => rw [← List.map_id (l.filter fun r => !p r)]
      exact List.map_congr_left fun r hr => h2 r (by simpa using (List.mem_filter.1 hr).2)
    rw [this]
    exact hn.sublist (List.filter_sublist.map col)
  · intro x hx y hy e
    obtain ⟨r', hr', rfl⟩ := List.mem_map.1 hx
    obtain ⟨r, hr, rfl⟩ := List.mem_map.1 hr'
    obtain ⟨s', hs', rfl⟩ := List.mem_map.1 hy
    obtain ⟨s, hs, rfl⟩ := List.mem_map.1 hs'
    have e1 := h3 r (List.mem_filter.1 hr).2
    have e2 : p s = false := by simpa using (List.mem_filter.1 hs).2
    rw [h2 s e2] at e
    rw [hc, e] at e1
    rw [hc, e1] at e2
    cases e2

/-- If a column tells the part from the rest, and is unique in the rest, it is unique in the table iff it is in the part. -/
theorem nodup_parts {col : ρ → κ} {c : κ → Bool} (hc : ∀ r, p r = c (col r)) {l : List ρ} (hn : ((l.filter fun r => !p r).map col).Nodup) :
    (l.map col).Nodup ↔ ((l.filter p).map col).Nodup := by
  have hperm : (l.filter p ++ l.filter (fun r => !p r)).Perm l := List.filter_append_perm p l
  rw [(hperm.map col).symm.nodup_iff, List.map_append, List.nodup_append]
  refine ⟨fun h => h.1, fun h => ⟨h, hn, ?_⟩⟩
  intro x hx y hy e
  obtain ⟨r, hr, rfl⟩ := List.mem_map.1 hx
  obtain ⟨s, hs, rfl⟩ := List.mem_map.1 hy
  have e1 := (List.mem_filter.1 hr).2
  have e2 : p s = false := by simpa using (List.mem_filter.1 hs).2
  rw [hc, e] at e1
  rw [hc, e1] at e2
  cases e2

end Verif.Parts
