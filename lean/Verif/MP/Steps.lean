/-
MP: from strings to positions.  `stp cfg n` is the step (of `steplen` characters) for position `n`.
-/
import Verif.MP.Model
import Verif.NumConvLemmas
import Verif.Path

namespace Verif.MP

/-- A usable configuration: an alphabet of at least two characters in collation order and a positive step
length. -/
structure Cfg.Ok (cfg : Cfg) : Prop where
  sorted : cfg.alphabet.Pairwise (· < ·)
  two : 2 ≤ cfg.alphabet.length
  step : 1 ≤ cfg.steplen

/-- number of different steps -/
def Cfg.cap (cfg : Cfg) : Nat := cfg.alphabet.length ^ cfg.steplen

/-- the step for a position -/
def stp (cfg : Cfg) (n : Nat) : List Nat :=
  match NumConv.int2str cfg.alphabet n with
  | .error _ => []
  | .ok key => pad cfg (cfg.steplen - key.length) ++ key

variable {cfg : Cfg}

theorem Cfg.Ok.nodup (h : cfg.Ok) : cfg.alphabet.Nodup := NumConv.nodup_of_sorted h.sorted

theorem headD_eq (h : cfg.Ok) : cfg.alphabet.headD 0 = NumConv.chr cfg.alphabet 0 := by
  have := h.two
  cases ha : cfg.alphabet with
  | nil => simp [ha] at this
  | cons a l => simp [NumConv.chr]

/-- key and padded step as digits -/
theorem int2str_digits (h : cfg.Ok) {n : Nat} (hn : n < cfg.cap) :
    ∃ key, NumConv.int2str cfg.alphabet (n : Int) = .ok key ∧ key.length ≤ cfg.steplen ∧
      ∃ D : List Nat, pad cfg (cfg.steplen - key.length) ++ key = D.map (NumConv.chr cfg.alphabet) ∧
        D.length = cfg.steplen ∧ (∀ d ∈ D, d < cfg.alphabet.length) ∧ NumConv.val cfg.alphabet.length D = n := by
  obtain ⟨D, h1, h2, h3, h4⟩ := NumConv.int2str_spec h.two n
  have hlen : D.length ≤ cfg.steplen := (h4 cfg.steplen h.step).2 hn
  refine ⟨_, h1, by simpa using hlen, List.replicate (cfg.steplen - D.length) 0 ++ D, ?_, ?_, ?_, ?_⟩
  · rw [pad, headD_eq h]; simp
  · simp; omega
  · intro d hd
    rcases List.mem_append.1 hd with hd | hd
    · have := (List.mem_replicate.1 hd).2
      have := h.two
      omega
    · exact h2 d hd
  · rw [NumConv.val_replicate, h3]

theorem int2str_long (h : cfg.Ok) {n : Nat} (hn : cfg.cap ≤ n) :
    ∃ key, NumConv.int2str cfg.alphabet (n : Int) = .ok key ∧ cfg.steplen < key.length := by
  obtain ⟨D, h1, h2, h3, h4⟩ := NumConv.int2str_spec h.two n
  refine ⟨_, h1, ?_⟩
  have := h4 cfg.steplen h.step
  rw [List.length_map]
  by_contra hc
  have := this.1 (by omega)
  unfold Cfg.cap at hn
  omega

theorem stp_digits (h : cfg.Ok) {n : Nat} (hn : n < cfg.cap) :
    ∃ D : List Nat, stp cfg n = D.map (NumConv.chr cfg.alphabet) ∧
        D.length = cfg.steplen ∧ (∀ d ∈ D, d < cfg.alphabet.length) ∧ NumConv.val cfg.alphabet.length D = n := by
  obtain ⟨key, h1, _, D, h3⟩ := int2str_digits h hn
  refine ⟨D, ?_, h3.2⟩
  unfold stp
  rw [h1]
  exact h3.1

theorem stp_length (h : cfg.Ok) {n : Nat} (hn : n < cfg.cap) : (stp cfg n).length = cfg.steplen := by
  obtain ⟨D, h1, h2, _⟩ := stp_digits h hn
  rw [h1, List.length_map, h2]

theorem stp_chars (h : cfg.Ok) {n : Nat} (hn : n < cfg.cap) : ∀ c ∈ stp cfg n, c ∈ cfg.alphabet := by
  obtain ⟨D, h1, _, h3, _⟩ := stp_digits h hn
  rw [h1]
  intro c hc
  obtain ⟨d, hd, rfl⟩ := List.mem_map.1 hc
  exact NumConv.chr_mem (h3 d hd)

theorem str2int_stp (h : cfg.Ok) {n : Nat} (hn : n < cfg.cap) :
    NumConv.str2int cfg.alphabet (stp cfg n) = .ok n := by
  obtain ⟨D, h1, _, h3, h4⟩ := stp_digits h hn
  rw [h1, NumConv.str2int_digits h.nodup h3, h4]

theorem stp_lt_iff (h : cfg.Ok) {n m : Nat} (hn : n < cfg.cap) (hm : m < cfg.cap) :
    stp cfg n < stp cfg m ↔ n < m := by
  obtain ⟨D, h1, h2, h3, h4⟩ := stp_digits h hn
  obtain ⟨E, k1, k2, k3, k4⟩ := stp_digits h hm
  rw [h1, k1, NumConv.map_chr_lt h.sorted h3 k3, ← NumConv.val_lt_iff (by rw [h2, k2]) h3 k3, h4, k4]

theorem stp_inj (h : cfg.Ok) {n m : Nat} (hn : n < cfg.cap) (hm : m < cfg.cap)
    (e : stp cfg n = stp cfg m) : n = m := by
  have h1 := str2int_stp h hn
  rw [e, str2int_stp h hm] at h1
  exact (Except.ok.inj h1).symm

theorem exists_stp (h : cfg.Ok) {s : List Nat} (hl : s.length = cfg.steplen)
    (hc : ∀ c ∈ s, c ∈ cfg.alphabet) : ∃ n, n < cfg.cap ∧ s = stp cfg n := by
  obtain ⟨D, h1, h2⟩ := NumConv.exists_digits hc
  have hlen : D.length = cfg.steplen := by rw [← hl, h1, List.length_map]
  have hlt : NumConv.val cfg.alphabet.length D < cfg.cap := by
    have := NumConv.val_lt h2
    rw [hlen] at this; exact this
  refine ⟨_, hlt, ?_⟩
  obtain ⟨E, k1, k2, k3, k4⟩ := stp_digits h hlt
  rw [k1, h1]
  congr 1
  exact NumConv.val_inj (by rw [hlen, k2]) h2 k3 k4.symm

/-- the first step of all -/
theorem pad_eq_stp (h : cfg.Ok) : pad cfg cfg.steplen = stp cfg 0 := by
  have h0 : 0 < cfg.cap := Nat.pow_pos (by have := h.two; omega)
  obtain ⟨E, k1, k2, k3, k4⟩ := stp_digits h h0
  rw [k1, pad, headD_eq h]
  have : E = List.replicate cfg.steplen 0 := by
    apply NumConv.val_inj (b := cfg.alphabet.length) (by simp [k2]) k3
    · intro d hd
      have := (List.mem_replicate.1 hd).2
      have := h.two
      omega
    · rw [k4]
      have := NumConv.val_replicate cfg.alphabet.length cfg.steplen []
      simp only [List.append_nil] at this
      rw [this]; simp [NumConv.val]
  rw [this]; simp

theorem val_replicate_max (b k : Nat) (hb : 1 ≤ b) :
    NumConv.val b (List.replicate k (b - 1)) = b ^ k - 1 := by
  induction k with
  | zero => simp [NumConv.val]
  | succ k ih =>
    rw [List.replicate_succ, NumConv.val_cons, ih]
    simp only [List.length_replicate, pow_succ]
    have : 1 ≤ b ^ k := Nat.one_le_pow _ _ (by omega)
    obtain ⟨c, rfl⟩ : ∃ c, b = c + 1 := ⟨b - 1, by omega⟩
    have e : (c + 1) ^ k * (c + 1) = c * (c + 1) ^ k + (c + 1) ^ k := by ring
    rw [e]
    simp only [Nat.add_sub_cancel]
    omega

/-- the last step of all -/
theorem max_eq_stp (h : cfg.Ok) :
    List.replicate cfg.steplen (cfg.alphabet.getLastD 0) = stp cfg (cfg.cap - 1) := by
  have hpos : 0 < cfg.cap := Nat.pow_pos (by have := h.two; omega)
  obtain ⟨E, k1, k2, k3, k4⟩ := stp_digits h (show cfg.cap - 1 < cfg.cap by omega)
  have hl : cfg.alphabet.getLastD 0 = NumConv.chr cfg.alphabet (cfg.alphabet.length - 1) := by
    have h2 := h.two
    rw [NumConv.chr_eq (by omega)]
    rw [List.getLastD_eq_getLast?, List.getLast?_eq_getElem?, List.getElem?_eq_getElem (by omega)]
    rfl
  rw [k1, hl]
  have : E = List.replicate cfg.steplen (cfg.alphabet.length - 1) := by
    apply NumConv.val_inj (b := cfg.alphabet.length) (by simp [k2]) k3
    · intro d hd
      have := (List.mem_replicate.1 hd).2
      have := h.two
      omega
    · rw [k4, val_replicate_max _ _ (by have := h.two; omega)]; rfl
  rw [this]; simp

/-! ### The path functions -/

theorem slice0_nat (p : List Nat) (k : Nat) : slice0 p (k : Int) = p.take k := by
  simp [slice0]

theorem basepath_nat (p : List Nat) (d : Nat) : basepath cfg p (d : Int) = p.take (d * cfg.steplen) := by
  unfold basepath
  rw [show ((d : Int) * (cfg.steplen : Int)) = ((d * cfg.steplen : Nat) : Int) by push_cast; rfl, slice0_nat]

theorem basepath_pred (p : List Nat) {d : Nat} (hd : 1 ≤ d) :
    basepath cfg p ((d : Int) - 1) = p.take ((d - 1) * cfg.steplen) := by
  rw [show ((d : Int) - 1) = ((d - 1 : Nat) : Int) by omega, basepath_nat]

/-- for a path of length `d * steplen` the base path of depth `d - 1` is the parent path -/
theorem basepath_parent {p : List Nat} {d : Nat} (hd : 1 ≤ d) (hl : p.length = d * cfg.steplen) :
    basepath cfg p ((d : Int) - 1) = pp cfg.steplen p := by
  rw [basepath_pred p hd, pp, hl, Nat.sub_mul, Nat.one_mul]

theorem parentPath_eq {p : List Nat} (h : cfg.steplen ≤ p.length) :
    parentPathFromPath cfg p = pp cfg.steplen p := by
  unfold parentPathFromPath pp
  rw [show ((p.length : Int) - (cfg.steplen : Int)) = ((p.length - cfg.steplen : Nat) : Int) by omega, slice0_nat]

theorem slice0_neg (p : List Nat) (h : 1 ≤ cfg.steplen) : slice0 p (-(cfg.steplen : Int)) = pp cfg.steplen p := by
  unfold slice0 pp
  rw [if_neg (by omega)]
  congr 1
  omega

theorem getPath_eq (h : cfg.Ok) (p : List Nat) (d : Int) {n : Nat} (hn : n < cfg.cap) :
    getPath cfg p d (n : Int) = .ok (basepath cfg p (d - 1) ++ stp cfg n) := by
  obtain ⟨key, h1, _⟩ := int2str_digits h hn
  unfold getPath stp
  rw [h1]
  simp

theorem lastpos_eq (h : cfg.Ok) (P : List Nat) {n : Nat} (hn : n < cfg.cap) :
    lastpos cfg (P ++ stp cfg n) = .ok n := by
  unfold lastpos lastStep
  have := lastSeg_append (L := cfg.steplen) (a := P) (b := stp cfg n) (stp_length h hn)
  unfold lastSeg at this
  rw [this, str2int_stp h hn]

theorem incPath_eq (h : cfg.Ok) (P : List Nat) {n : Nat} (hn : n + 1 < cfg.cap) :
    incPath cfg (P ++ stp cfg n) = .ok (P ++ stp cfg (n + 1)) := by
  unfold incPath
  rw [lastpos_eq h P (by omega)]
  obtain ⟨key, h1, h2, _⟩ := int2str_digits h hn
  simp only
  rw [show ((n : Int) + 1) = ((n + 1 : Nat) : Int) by push_cast; rfl, h1]
  simp only
  rw [if_neg (by omega), slice0_neg _ h.step, pp_append_step (stp_length h (by omega))]
  unfold stp
  rw [h1]
  simp

theorem incPath_overflow (h : cfg.Ok) (P : List Nat) {n : Nat} (hn : n < cfg.cap) (hn' : cfg.cap ≤ n + 1) :
    incPath cfg (P ++ stp cfg n) = .error .pathOverflow := by
  unfold incPath
  rw [lastpos_eq h P hn]
  obtain ⟨key, h1, h2⟩ := int2str_long h hn'
  simp only
  rw [show ((n : Int) + 1) = ((n + 1 : Nat) : Int) by push_cast; rfl, h1]
  simp only
  rw [if_pos (by omega)]

theorem cap_gt_one (h : cfg.Ok) : 1 < cfg.cap :=
  Nat.one_lt_pow (by have := h.step; omega) (by have := h.two; omega)

end Verif.MP
