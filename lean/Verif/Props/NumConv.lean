/-
C01, C02, C03: numconv.py and the steps of MP paths.
-/
import Verif.NumConvLemmas
import Verif.MP.Steps

namespace Verif

open NumConv MP

/-! ### C01 -/

/-- **C01.** For every alphabet without duplicates of at least two characters and every natural number,
`int2str` returns, `str2int` gives the number back, and the string has at most `k` characters exactly when
the number is below `len(alphabet) ** k`. -/
theorem C01_round_trip (a : List Nat) (hn : a.Nodup) (h2 : 2 ≤ a.length) (n : Nat) :
    ∃ s, int2str a (n : Int) = .ok s ∧ str2int a s = .ok n ∧
      ∀ k, (0 < n ∨ 0 < k) → (s.length ≤ k ↔ n < a.length ^ k) := by
  obtain ⟨D, h1, h3, h4, h5⟩ := int2str_spec h2 n
  refine ⟨_, h1, by rw [str2int_digits hn h3, h4], ?_⟩
  intro k hk
  rw [List.length_map]
  rcases Nat.eq_zero_or_pos k with rfl | hk'
  · have hn0 : 0 < n := by rcases hk with h | h <;> omega
    rw [pow_zero]
    constructor
    · intro hl
      have : D = [] := List.length_eq_zero_iff.1 (by omega)
      subst this
      simp [val] at h4
      omega
    · intro h; omega
  · exact h5 k hk'

theorem int2strLoop_ne_nil {a : List Nat} : ∀ (fuel n : Nat) (ret s : List Nat),
    int2strLoop a fuel n ret = .ok s → s ≠ []
  | 0, _, _, _, h => by simp [int2strLoop] at h
  | fuel + 1, n, ret, s, h => by
    unfold int2strLoop at h
    split at h
    · simp at h
    · cases hd : a[n % a.length]? with
      | none => simp [hd] at h
      | some c =>
        simp only [hd] at h
        split at h
        · injection h with h; subst h; simp
        · exact int2strLoop_ne_nil fuel _ _ s h

theorem int2str_ne_nil {a : List Nat} {n : Int} {s : List Nat} (h : int2str a n = .ok s) : s ≠ [] := by
  unfold int2str at h
  split at h
  · simp at h
  · exact int2strLoop_ne_nil _ _ _ _ h

/-- The other direction: a string over the alphabet without a leading zero is what `int2str` writes for its
value. -/
theorem C01_round_trip_str (a : List Nat) (hn : a.Nodup) (h2 : 2 ≤ a.length) (c : Nat) (s : List Nat)
    (hc : ∀ x ∈ c :: s, x ∈ a) (h0 : c ≠ a.headD 0 ∨ s = []) :
    ∃ n : Nat, str2int a (c :: s) = .ok n ∧ int2str a (n : Int) = .ok (c :: s) := by
  obtain ⟨D, hD, hlt⟩ := exists_digits hc
  refine ⟨val a.length D, by rw [hD, str2int_digits hn hlt], ?_⟩
  obtain ⟨E, h1, h3, h4, h5⟩ := int2str_spec h2 (val a.length D)
  rw [h1, hD]
  congr 2
  have hDl : D.length = s.length + 1 := by have := congrArg List.length hD; simpa using this.symm
  have hle : E.length ≤ D.length := (h5 D.length (by omega)).2 (val_lt hlt)
  have hge : D.length ≤ E.length := by
    by_contra hc'
    have hEpos : 1 ≤ E.length := by
      have := int2str_ne_nil h1
      cases E with
      | nil => simp at this
      | cons x l => simp
    have hlt2 := (h5 E.length hEpos).1 le_rfl
    obtain ⟨d, D', rfl⟩ : ∃ d D', D = d :: D' := by
      cases D with
      | nil => simp at hDl
      | cons d D' => exact ⟨d, D', rfl⟩
    simp only [List.map_cons, List.cons.injEq] at hD
    have hd : d ≠ 0 := by
      rintro rfl
      rcases h0 with h0 | h0
      · apply h0
        rw [hD.1]
        cases a with
        | nil => simp at h2
        | cons x l => rfl
      · subst h0
        simp only [List.length_cons, List.length_nil] at hDl hc'
        omega
    rw [val_cons] at hlt2
    have : a.length ^ E.length ≤ a.length ^ D'.length := Nat.pow_le_pow_right (by omega) (by simp at hc'; omega)
    have : 1 * a.length ^ D'.length ≤ d * a.length ^ D'.length := Nat.mul_le_mul_right _ (by omega)
    omega
  exact (val_inj (by omega) h3 hlt h4)

/-- the hypotheses hold for the default alphabet of treebeard (`0-9A-Z`), and 1295 = "ZZ" -/
example : (List.range' 48 10 ++ List.range' 65 26).Nodup ∧ 2 ≤ (List.range' 48 10 ++ List.range' 65 26).length ∧
    int2str (List.range' 48 10 ++ List.range' 65 26) 1295 = .ok [90, 90] ∧
    str2int (List.range' 48 10 ++ List.range' 65 26) [90, 90] = .ok 1295 := by decide

/-! ### C02 -/

/-- **C02.** The paths written for two positions below the same parent compare as strings exactly as the
positions compare as numbers; the position can be read back from the path; and `_inc_path` gives the path of the next
position, or PathOverflow when that does not fit in `steplen` characters. -/
theorem C02_steps_sort (cfg : Cfg) (hok : cfg.Ok) (parent : List Nat) (depth : Int) (a b : Nat)
    (ha : a < cfg.alphabet.length ^ cfg.steplen) (hb : b < cfg.alphabet.length ^ cfg.steplen) :
    ∃ pa pb, getPath cfg parent depth a = .ok pa ∧ getPath cfg parent depth b = .ok pb ∧
      (pa < pb ↔ a < b) ∧ (pa = pb ↔ a = b) ∧ lastpos cfg pa = .ok a ∧
      pa.length = (basepath cfg parent (depth - 1)).length + cfg.steplen ∧
      incPath cfg pa = if a + 1 < cfg.alphabet.length ^ cfg.steplen then getPath cfg parent depth (a + 1 : Nat)
        else .error .pathOverflow := by
  refine ⟨_, _, getPath_eq hok parent depth ha, getPath_eq hok parent depth hb, ?_, ?_, ?_, ?_, ?_⟩
  · rw [plt_append_left, stp_lt_iff hok ha hb]
  · rw [List.append_right_inj]
    exact ⟨stp_inj hok ha hb, fun e => by rw [e]⟩
  · exact lastpos_eq hok _ ha
  · rw [List.length_append, stp_length hok ha]
  · split
    · rename_i h
      rw [incPath_eq hok _ h, getPath_eq hok parent depth h]
    · rename_i h
      exact incPath_overflow hok _ ha (by unfold Cfg.cap; omega)

/-- a configuration with steps of two digits -/
def cfgDec2 : Cfg := ⟨List.range' 48 10, 2, [], 255⟩

theorem cfgDec2_ok : cfgDec2.Ok := ⟨by decide, by decide, by decide⟩

example : getPath cfgDec2 [48, 49] 2 9 = .ok [48, 49, 48, 57] ∧ getPath cfgDec2 [48, 49] 2 10 = .ok [48, 49, 49, 48] := by
  decide

/-- Without the condition that the position fits, the claim is false: position 100 sorts before 99. -/
theorem C02_no_room_misorders : ∃ pa pb, getPath cfgDec2 [] 1 (99 : Nat) = .ok pa ∧ getPath cfgDec2 [] 1 (100 : Nat) = .ok pb ∧
    pb < pa := by
  exact ⟨[57, 57], [49, 48, 48], by decide, by decide, by decide⟩

/-! ### C03 -/

/-- **C03**, constructor: ValueError exactly for alphabets with a repeated character. -/
theorem C03_alphabet (a : List Nat) : NumConv.new a = .error .valueError ↔ ¬ a.Nodup := by
  unfold NumConv.new
  split <;> simp_all

theorem C03_alphabet_ok (a : List Nat) (h : a.Nodup) : NumConv.new a = .ok a := by
  unfold NumConv.new; rw [if_pos h]

/-- **C03**, `int2str`: ValueError for every negative number, whatever the alphabet. -/
theorem C03_negative (a : List Nat) (n : Int) (h : n < 0) : int2str a n = .error .valueError := by
  unfold int2str; rw [if_pos h]

/-- **C03**, `str2int`: ValueError exactly when some character is outside the alphabet, otherwise a number. -/
theorem C03_digits (a : List Nat) (s : List Nat) :
    (str2int a s = .error .valueError ↔ ∃ c ∈ s, c ∉ a) ∧ ((∀ c ∈ s, c ∈ a) → ∃ n, str2int a s = .ok n) := by
  refine ⟨⟨?_, str2intLoop_error s 0⟩, str2intLoop_ok s 0⟩
  intro h
  by_contra hc
  push Not at hc
  obtain ⟨n, e⟩ := str2intLoop_ok s 0 hc
  unfold str2int at h
  rw [e] at h
  simp at h

example : str2int [48, 49] [49, 50] = .error .valueError ∧ str2int [48, 49] [49, 48] = .ok 2 := by decide

/-- What the constructor lets through although `int2str` cannot use it: with a one-letter alphabet `int2str`
does not terminate for any positive number, and with an empty alphabet it raises ZeroDivisionError. -/
theorem C03_degenerate_alphabets (c : Nat) (n : Nat) (h : 1 ≤ n) :
    NumConv.new [c] = .ok [c] ∧ (∀ fuel ret, int2strLoop [c] fuel n ret = .error .diverges) ∧
    NumConv.new [] = .ok [] ∧ int2str [] n = .error .zeroDivision := by
  refine ⟨by simp [NumConv.new], fun fuel ret => int2str_diverges c fuel n h ret, by simp [NumConv.new], ?_⟩
  unfold int2str
  rw [if_neg (by omega)]
  simp [int2strLoop]

end Verif
