/-
Proofs about the number conversion: digits, padded steps and their order.
-/
import Verif.NumConv
import Mathlib.Tactic.Ring
import Mathlib.Data.List.Nodup
import Mathlib.Algebra.Order.Group.Nat

namespace Verif.NumConv

/-- value of a list of digits, most significant first -/
def val (b : Nat) (D : List Nat) : Nat := D.foldl (fun r d => r * b + d) 0

theorem foldl_val (b : Nat) (D : List Nat) (r : Nat) :
    D.foldl (fun r d => r * b + d) r = r * b ^ D.length + val b D := by
  induction D generalizing r with
  | nil => simp [val]
  | cons d D ih =>
    simp only [List.foldl_cons, val]
    rw [ih, ih (0 * b + d)]
    simp only [List.length_cons, pow_succ]; ring

theorem val_cons (b d : Nat) (D : List Nat) : val b (d :: D) = d * b ^ D.length + val b D := by
  have := foldl_val b D (0 * b + d)
  simp only [val, List.foldl_cons] at this ⊢
  rw [this]; simp

theorem val_snoc (b d : Nat) (D : List Nat) : val b (D ++ [d]) = val b D * b + d := by
  simp [val]

theorem val_replicate (b k : Nat) (D : List Nat) : val b (List.replicate k 0 ++ D) = val b D := by
  induction k with
  | zero => simp
  | succ k ih => rw [List.replicate_succ, List.cons_append, val_cons, ih]; simp

theorem val_lt {b : Nat} {D : List Nat} (h : ∀ d ∈ D, d < b) : val b D < b ^ D.length := by
  induction D with
  | nil => simp [val]
  | cons d D ih =>
    rw [val_cons, List.length_cons, pow_succ]
    have h1 := ih (fun x hx => h x (by simp [hx]))
    have h2 : d < b := h d (by simp)
    calc d * b ^ D.length + val b D < d * b ^ D.length + b ^ D.length := by omega
      _ = (d + 1) * b ^ D.length := by ring
      _ ≤ b * b ^ D.length := Nat.mul_le_mul_right _ h2
      _ = b ^ D.length * b := by ring

theorem val_lt_of_lt {b : Nat} : ∀ {D E : List Nat}, D.length = E.length → (∀ d ∈ D, d < b) →
    D < E → val b D < val b E
  | [], [], _, _, h => absurd h (by simp)
  | d :: D, e :: E, hl, hd, h => by
    rw [List.cons_lt_cons_iff] at h
    simp only [List.length_cons, Nat.add_right_cancel_iff] at hl
    rw [val_cons, val_cons, hl]
    have hD : ∀ x ∈ D, x < b := fun x hx => hd x (by simp [hx])
    rcases h with h | ⟨rfl, h⟩
    · have := val_lt hD
      rw [hl] at this
      calc d * b ^ E.length + val b D < (d + 1) * b ^ E.length := by
            have : (d + 1) * b ^ E.length = d * b ^ E.length + b ^ E.length := by ring
            omega
        _ ≤ e * b ^ E.length := Nat.mul_le_mul_right _ h
        _ ≤ _ := Nat.le_add_right _ _
    · have := val_lt_of_lt hl hD h
      omega

theorem lt_or_eq_or_gt : ∀ D E : List Nat, D < E ∨ D = E ∨ E < D
  | [], [] => by simp
  | [], e :: E => by simp
  | d :: D, [] => by simp
  | d :: D, e :: E => by
    simp only [List.cons_lt_cons_iff, List.cons.injEq]
    rcases Nat.lt_trichotomy d e with h | h | h
    · simp [h]
    · subst h
      rcases lt_or_eq_or_gt D E with h | h | h <;> simp [h]
    · simp [h]

theorem val_lt_iff {b : Nat} {D E : List Nat} (hl : D.length = E.length) (hD : ∀ d ∈ D, d < b)
    (hE : ∀ d ∈ E, d < b) : val b D < val b E ↔ D < E := by
  constructor
  · intro h
    rcases lt_or_eq_or_gt D E with h' | h' | h'
    · exact h'
    · subst h'; omega
    · have := val_lt_of_lt hl.symm hE h'; omega
  · exact val_lt_of_lt hl hD

theorem val_inj {b : Nat} {D E : List Nat} (hl : D.length = E.length) (hD : ∀ d ∈ D, d < b)
    (hE : ∀ d ∈ E, d < b) (h : val b D = val b E) : D = E := by
  rcases lt_or_eq_or_gt D E with h' | h' | h'
  · have := val_lt_of_lt hl hD h'; omega
  · exact h'
  · have := val_lt_of_lt hl.symm hE h'; omega

/-! ### characters -/

/-- the character for a digit -/
def chr (a : List Nat) (d : Nat) : Nat := a.getD d 0

theorem chr_eq {a : List Nat} {d : Nat} (h : d < a.length) : chr a d = a[d] := by
  simp [chr, List.getD_eq_getElem?_getD, List.getElem?_eq_getElem h]

theorem chr_mem {a : List Nat} {d : Nat} (h : d < a.length) : chr a d ∈ a := by
  simp [chr_eq h]

theorem digit_chr {a : List Nat} (hn : a.Nodup) {d : Nat} (h : d < a.length) :
    digit a (chr a d) = some d := by
  unfold digit
  rw [List.findIdx?_eq_some_iff_getElem]
  refine ⟨h, ?_, ?_⟩
  · simp [chr_eq h]
  · intro j hj
    simp only [chr_eq h, Bool.not_eq_true, beq_eq_false_iff_ne, ne_eq]
    intro e
    have := (List.Nodup.getElem_inj_iff hn).1 e
    omega

theorem digit_lt {a : List Nat} {c d : Nat} (h : digit a c = some d) : d < a.length ∧ chr a d = c := by
  unfold digit at h
  rw [List.findIdx?_eq_some_iff_getElem] at h
  obtain ⟨h1, h2, _⟩ := h
  exact ⟨h1, by rw [chr_eq h1]; simpa using h2⟩

theorem digit_none {a : List Nat} {c : Nat} : digit a c = none ↔ c ∉ a := by
  unfold digit
  rw [List.findIdx?_eq_none_iff]
  constructor
  · intro h hc; simpa using h c hc
  · intro h x hx; simp only [beq_eq_false_iff_ne]; rintro rfl; exact h hx

/-- every string over the alphabet is a string of digits -/
theorem exists_digits {a : List Nat} : ∀ {s : List Nat}, (∀ c ∈ s, c ∈ a) →
    ∃ D : List Nat, s = D.map (chr a) ∧ (∀ d ∈ D, d < a.length)
  | [], _ => ⟨[], rfl, by simp⟩
  | c :: s, h => by
    obtain ⟨D, hD, hlt⟩ := exists_digits (s := s) (fun x hx => h x (by simp [hx]))
    cases hc : digit a c with
    | none => exact absurd (h c (by simp)) (digit_none.1 hc)
    | some d =>
      obtain ⟨h1, h2⟩ := digit_lt hc
      refine ⟨d :: D, by simp [hD, h2], ?_⟩
      intro x hx
      rcases List.mem_cons.1 hx with rfl | hx
      · exact h1
      · exact hlt x hx

theorem str2intLoop_digits {a : List Nat} (hn : a.Nodup) (D : List Nat) (hD : ∀ d ∈ D, d < a.length)
    (r : Nat) : str2intLoop a r (D.map (chr a)) = .ok (D.foldl (fun r d => r * a.length + d) r) := by
  induction D generalizing r with
  | nil => rfl
  | cons d D ih =>
    simp only [List.map_cons, str2intLoop, digit_chr hn (hD d (by simp)), List.foldl_cons]
    exact ih (fun x hx => hD x (by simp [hx])) _

theorem str2int_digits {a : List Nat} (hn : a.Nodup) {D : List Nat} (hD : ∀ d ∈ D, d < a.length) :
    str2int a (D.map (chr a)) = .ok (val a.length D) := str2intLoop_digits hn D hD 0

theorem str2intLoop_error {a : List Nat} : ∀ (s : List Nat) (r : Nat),
    (∃ c ∈ s, c ∉ a) → str2intLoop a r s = .error .valueError
  | [], _, h => by simp at h
  | c :: s, r, h => by
    unfold str2intLoop
    cases hc : digit a c with
    | none => rfl
    | some d =>
      obtain ⟨x, hx, hxa⟩ := h
      rcases List.mem_cons.1 hx with rfl | hx
      · exact absurd (digit_none.2 hxa) (by simp [hc])
      · exact str2intLoop_error s _ ⟨x, hx, hxa⟩

theorem str2intLoop_ok {a : List Nat} : ∀ (s : List Nat) (r : Nat),
    (∀ c ∈ s, c ∈ a) → ∃ n, str2intLoop a r s = .ok n
  | [], r, _ => ⟨r, rfl⟩
  | c :: s, r, h => by
    unfold str2intLoop
    cases hc : digit a c with
    | none => exact absurd (h c (by simp)) (digit_none.1 hc)
    | some d => exact str2intLoop_ok s _ (fun x hx => h x (by simp [hx]))

/-! ### int2str -/

theorem int2strLoop_spec {a : List Nat} (hr : 2 ≤ a.length) : ∀ (fuel num : Nat) (ret : List Nat),
    num < fuel → ∃ D : List Nat, int2strLoop a fuel num ret = .ok (D.map (chr a) ++ ret) ∧
      (∀ d ∈ D, d < a.length) ∧ val a.length D = num ∧
      (∀ k, 1 ≤ k → (D.length ≤ k ↔ num < a.length ^ k)) := by
  intro fuel
  induction fuel with
  | zero => intro num ret h; omega
  | succ fuel ih =>
    intro num ret h
    have hpos : 0 < a.length := by omega
    have hm : num % a.length < a.length := Nat.mod_lt _ hpos
    have hget : a[num % a.length]? = some (chr a (num % a.length)) := by
      rw [List.getElem?_eq_getElem hm, chr_eq hm]
    unfold int2strLoop
    rw [if_neg (by omega), hget]
    simp only
    by_cases hlt : num < a.length
    · rw [if_pos hlt]
      refine ⟨[num], by simp [Nat.mod_eq_of_lt hlt], by simpa using hlt, by simp [val], ?_⟩
      intro k hk
      simp only [List.length_cons, List.length_nil, Nat.zero_add, hk, true_iff]
      calc num < a.length ^ 1 := by simpa using hlt
        _ ≤ a.length ^ k := Nat.pow_le_pow_right hpos hk
    · rw [if_neg hlt]
      have hdiv : num / a.length < fuel := by
        have : num / a.length < num := Nat.div_lt_self (by omega) (by omega)
        omega
      obtain ⟨D, hD, hdl, hv, hk⟩ := ih (num / a.length) (chr a (num % a.length) :: ret) hdiv
      refine ⟨D ++ [num % a.length], by simp [hD], ?_, ?_, ?_⟩
      · intro d hd
        rcases List.mem_append.1 hd with hd | hd
        · exact hdl d hd
        · simp at hd; subst hd; exact hm
      · rw [val_snoc, hv]; exact Nat.div_add_mod' num a.length
      · intro k hk1
        have hDne : D ≠ [] := by
          rintro rfl
          have : num / a.length = 0 := by rw [← hv]; simp [val]
          rw [Nat.div_eq_zero_iff] at this; omega
        have hDpos : 1 ≤ D.length := List.length_pos_iff.2 hDne
        rw [List.length_append, List.length_singleton]
        obtain ⟨j, rfl⟩ : ∃ j, k = j + 1 := ⟨k - 1, by omega⟩
        by_cases hj : j = 0
        · subst hj
          simp only [Nat.zero_add, pow_one]
          constructor
          · intro h; omega
          · intro h; omega
        · have := hk j (by omega)
          rw [Nat.add_le_add_iff_right, this, pow_succ, Nat.div_lt_iff_lt_mul hpos]

theorem int2str_spec {a : List Nat} (hr : 2 ≤ a.length) (n : Nat) :
    ∃ D : List Nat, int2str a (n : Int) = .ok (D.map (chr a)) ∧
      (∀ d ∈ D, d < a.length) ∧ val a.length D = n ∧
      (∀ k, 1 ≤ k → (D.length ≤ k ↔ n < a.length ^ k)) := by
  obtain ⟨D, h1, h2⟩ := int2strLoop_spec hr (n + 1) n [] (by omega)
  refine ⟨D, ?_, h2⟩
  unfold int2str
  rw [if_neg (by omega)]
  simpa using h1

/-- numconv.py:42-46 with a one-letter alphabet: the loop never ends for a positive number. -/
theorem int2str_diverges (c : Nat) (fuel : Nat) (num : Nat) (h : 1 ≤ num) (ret : List Nat) :
    int2strLoop [c] fuel num ret = .error .diverges := by
  induction fuel generalizing ret num with
  | zero => rfl
  | succ f ih =>
    unfold int2strLoop
    simp only [List.length_cons, List.length_nil, Nat.zero_add, Nat.mod_one]
    simp only [List.getElem?_cons_zero, Nat.div_one]
    rw [if_neg (by omega), if_neg (by omega)]
    exact ih num h _

/-! ### Steps: numbers padded to a fixed width -/

theorem chr_lt {a : List Nat} (ha : a.Pairwise (· < ·)) {d e : Nat} (he : e < a.length) (h : d < e) :
    chr a d < chr a e := by
  have hd : d < a.length := by omega
  rw [chr_eq hd, chr_eq he]
  exact List.pairwise_iff_getElem.1 ha d e hd he h

theorem map_chr_lt {a : List Nat} (ha : a.Pairwise (· < ·)) : ∀ {D E : List Nat},
    (∀ d ∈ D, d < a.length) → (∀ d ∈ E, d < a.length) →
    (D.map (chr a) < E.map (chr a) ↔ D < E)
  | [], [], _, _ => by simp
  | [], e :: E, _, _ => by simp
  | d :: D, [], _, _ => by simp
  | d :: D, e :: E, hD, hE => by
    have ih := map_chr_lt ha (D := D) (E := E) (fun x hx => hD x (by simp [hx]))
      (fun x hx => hE x (by simp [hx]))
    have hd := hD d (by simp)
    have he := hE e (by simp)
    simp only [List.map_cons, List.cons_lt_cons_iff, ih]
    rcases Nat.lt_trichotomy d e with h | h | h
    · simp [h, chr_lt ha he h]
    · subst h; simp
    · have := chr_lt ha hd h
      constructor
      · rintro (h' | ⟨h', _⟩) <;> omega
      · rintro (h' | ⟨h', _⟩) <;> omega

theorem nodup_of_sorted {a : List Nat} (ha : a.Pairwise (· < ·)) : a.Nodup :=
  ha.imp (fun h => Nat.ne_of_lt h)

end Verif.NumConv
