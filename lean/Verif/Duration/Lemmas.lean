import Verif.Duration.Spec
import Mathlib.Tactic.Ring
import Mathlib.Tactic.Linarith
import Mathlib.Tactic.NormNum
import Mathlib.Tactic.FieldSimp
import Mathlib.Tactic.Positivity
import Mathlib.Tactic.LinearCombination

/-! # Helper lemmas for durations -/

namespace Quickly.Duration

open Spec

theorem two_zpow_pos (e : ℤ) : (0 : ℚ) < 2 ^ e := zpow_pos (by norm_num) e

theorem value_eq (log : ℤ) (d : ℕ) :
    value log d = (2 : ℚ) ^ (1 - log) * (1 - 2 ^ (-(d + 1 : ℤ))) := by
  induction d with
  | zero =>
    simp only [value]
    rw [show (1 - log : ℤ) = 1 + -log by ring, zpow_add₀ (by norm_num)]
    norm_num
    ring
  | succ d ih =>
    simp only [value, ih]
    rw [show (-log - (d + 1 : ℤ)) = (1 - log) + (-(d + 1 : ℤ)) + (-1) by ring,
      zpow_add₀ (by norm_num), zpow_add₀ (by norm_num),
      show (-((d + 1 : ℕ) + 1 : ℤ)) = -(d + 1 : ℤ) + (-1) by push_cast; ring,
      zpow_add₀ (a := (2:ℚ)) (by norm_num) (-(d+1 : ℤ)) (-1)]
    ring

theorem half_pow_le (d : ℕ) : (2 : ℚ) ^ (-(d + 1 : ℤ)) ≤ 1/2 := by
  have : (2 : ℚ) ^ (-(d + 1 : ℤ)) ≤ 2 ^ (-1 : ℤ) :=
    zpow_le_zpow_right₀ (by norm_num) (by omega)
  simpa using this

theorem duration_ok (log : ℤ) (d : ℕ) (h : 0 ≤ d + log + 3) : duration log d = .ok (value log d) := by
  unfold duration
  rw [if_neg (by omega)]
  simp only
  rw [if_neg (by omega)]
  congr 1
  rw [value_eq]
  obtain ⟨k, hk⟩ := Int.eq_ofNat_of_zero_le h
  have e1 : ((d : ℤ) + log + 3).toNat = k := by rw [hk]; simp
  have e2 : (1 - log : ℤ) = d + 4 - k := by omega
  have p1 : (2:ℚ) ^ ((d : ℤ) + 4 - k) = 2 ^ d * 16 / 2 ^ k := by
    rw [zpow_sub₀ (by norm_num), zpow_add₀ (by norm_num), zpow_natCast, zpow_natCast]
    norm_num
  have p2 : (2:ℚ) ^ (-((d : ℤ) + 1)) = 1 / (2 ^ d * 2) := by
    rw [zpow_neg, zpow_add₀ (by norm_num), zpow_natCast]
    norm_num
  rw [e1, e2, p1, p2]
  push_cast
  simp only [Int.toNat_natCast]
  field_simp
  ring

theorem duration_err (log d : ℤ) (h : d < 0 ∨ d + log + 3 < 0) : duration log d = .error .valueError := by
  unfold duration
  by_cases h1 : d < 0
  · simp [h1]
  · rw [if_neg h1]; simp only
    rw [if_pos (by omega)]

/-! ## frexp -/

theorem expo_eq (m : ℚ) (e : ℤ) (h1 : 1/2 ≤ |m|) (h2 : |m| < 1) : expo (m * 2 ^ e) = e := by
  unfold expo
  have hp := two_zpow_pos e
  rw [abs_mul, abs_of_pos hp]
  have hpos : 0 < |m| * 2 ^ e := mul_pos (by linarith) hp
  have a1 : (2 : ℚ) ^ (e - 1) ≤ |m| * 2 ^ e := by
    rw [zpow_sub₀ (by norm_num)]
    have : (2:ℚ) ^ e / 2 ^ (1:ℤ) = 1/2 * 2 ^ e := by norm_num; ring
    rw [this]
    exact mul_le_mul_of_nonneg_right h1 hp.le
  have a2 : |m| * 2 ^ e < (2 : ℚ) ^ e := by nlinarith
  have b1 : e - 1 ≤ Int.log 2 (|m| * 2 ^ e) :=
    (Int.zpow_le_iff_le_log (b := 2) (by norm_num) hpos).mp (by exact_mod_cast a1)
  have b2 : Int.log 2 (|m| * 2 ^ e) < e :=
    (Int.lt_zpow_iff_log_lt (b := 2) (by norm_num) hpos).mp (by exact_mod_cast a2)
  omega

theorem frexpFloat_eq (m : ℚ) (e : ℤ) (h1 : 1/2 ≤ |m|) (h2 : |m| < 1) :
    frexpFloat (m * 2 ^ e) = (m, e) := by
  have hp := two_zpow_pos e
  have hne : m * 2 ^ e ≠ 0 := by
    intro h
    rcases mul_eq_zero.mp h with h | h
    · rw [h] at h1; norm_num at h1
    · exact hp.ne' h
  unfold frexpFloat
  rw [if_neg hne, expo_eq m e h1 h2, mul_div_assoc, div_self hp.ne', mul_one]

theorem frexp_exists (q : ℚ) (h : q ≠ 0) :
    ∃ (m : ℚ) (e : ℤ), 1/2 ≤ |m| ∧ |m| < 1 ∧ q = m * 2 ^ e := by
  have hq : 0 < |q| := abs_pos.mpr h
  refine ⟨q / 2 ^ (Int.log 2 |q| + 1), Int.log 2 |q| + 1, ?_, ?_, ?_⟩
  · have := Int.zpow_log_le_self (b := 2) (r := |q|) (by norm_num) hq
    rw [abs_div, abs_of_pos (two_zpow_pos _), le_div_iff₀ (two_zpow_pos _), zpow_add₀ (by norm_num)]
    push_cast at this
    norm_num
    linarith
  · have := Int.lt_zpow_succ_log_self (b := 2) (by norm_num) |q|
    rw [abs_div, abs_of_pos (two_zpow_pos _), div_lt_one (two_zpow_pos _)]
    exact_mod_cast this
  · field_simp

theorem roundEven_int (k : ℤ) : roundEven (k : ℚ) = k := by
  unfold roundEven
  simp

theorem toFloat_of_int (m : ℚ) (e k : ℤ) (h1 : 1/2 ≤ |m|) (h2 : |m| < 1)
    (hk : m * 2 ^ (53 : ℤ) = k) : toFloat (m * 2 ^ e) = m * 2 ^ e := by
  have hp := two_zpow_pos e
  have hne : m * 2 ^ e ≠ 0 := by
    intro h
    rcases mul_eq_zero.mp h with h | h
    · rw [h] at h1; norm_num at h1
    · exact hp.ne' h
  unfold toFloat
  rw [if_neg hne, expo_eq m e h1 h2]
  have : m * 2 ^ e * 2 ^ (53 - e) = (k : ℚ) := by
    rw [← hk, mul_assoc, ← zpow_add₀ (by norm_num)]; congr 2; ring
  rw [this, roundEven_int, ← hk, mul_assoc, ← zpow_add₀ (by norm_num)]
  congr 2; ring

/-- The mantissa of a double is an integer multiple of 2^-53. -/
theorem isDouble_mantissa (m : ℚ) (e : ℤ) (h1 : 1/2 ≤ |m|) (h2 : |m| < 1)
    (h : IsDouble (m * 2 ^ e)) : ∃ k : ℤ, m * 2 ^ (53 : ℤ) = k := by
  obtain ⟨k, e', hk, he⟩ := h
  -- e' + 53 ≥ e
  have hp := two_zpow_pos e
  have hk' : |(k : ℚ)| < 2 ^ (53 : ℤ) := by
    have : ((|k| : ℤ) : ℚ) < ((2 ^ 53 : ℤ) : ℚ) := Int.cast_lt.mpr hk
    rw [Int.cast_abs] at this
    norm_num at this ⊢
    exact this
  have hm : m = k * 2 ^ (e' - e) := by
    rw [sub_eq_add_neg, zpow_add₀ (by norm_num), ← mul_assoc, ← he, mul_assoc,
      ← zpow_add₀ (by norm_num)]
    simp
  have hlow : (2:ℚ) ^ (-1 : ℤ) < 2 ^ (53 + (e' - e)) := by
    have : |m| < 2 ^ (53 + (e' - e)) := by
      rw [hm, abs_mul, abs_of_pos (two_zpow_pos _), zpow_add₀ (by norm_num)]
      exact mul_lt_mul_of_pos_right hk' (two_zpow_pos _)
    calc (2:ℚ) ^ (-1 : ℤ) = 1/2 := by norm_num
      _ ≤ |m| := h1
      _ < _ := this
  have : -1 < 53 + (e' - e) := (zpow_lt_zpow_iff_right₀ (by norm_num)).mp hlow
  obtain ⟨j, hj⟩ := Int.eq_ofNat_of_zero_le (by omega : 0 ≤ 53 + (e' - e))
  refine ⟨k * 2 ^ j, ?_⟩
  rw [hm, mul_assoc, ← zpow_add₀ (by norm_num), add_comm (e' - e), hj, zpow_natCast]
  push_cast; ring

theorem toFloat_isDouble (q : ℚ) (h : IsDouble q) : toFloat q = q := by
  by_cases h0 : q = 0
  · simp [toFloat, h0]
  · obtain ⟨m, e, h1, h2, rfl⟩ := frexp_exists q h0
    obtain ⟨k, hk⟩ := isDouble_mantissa m e h1 h2 h
    exact toFloat_of_int m e k h1 h2 hk

theorem toFloat_one_sub (m : ℚ) (k : ℤ) (h1 : 1/2 ≤ m) (h2 : m < 1) (hk : m * 2 ^ (53 : ℤ) = k) :
    toFloat (1 - m) = 1 - m := by
  apply toFloat_isDouble
  refine ⟨2 ^ 53 - k, -53, ?_, ?_⟩
  · have a : (k : ℚ) < 2 ^ (53:ℤ) := by rw [← hk]; nlinarith [two_zpow_pos 53]
    have b : (0 : ℚ) < k := by rw [← hk]; nlinarith [two_zpow_pos 53]
    have a' : k < 2 ^ 53 := by
      have : (k : ℚ) < ((2 ^ 53 : ℤ) : ℚ) := by norm_num at a ⊢; exact a
      exact Int.cast_lt.mp this
    have b' : 0 < k := by exact_mod_cast b
    rw [abs_lt]; constructor <;> omega
  · push_cast
    rw [← hk, zpow_neg]
    norm_num
    ring

/-- What `frexp` and `log_dotcount` compute on a positive double. -/
theorem frexp_double (m : ℚ) (e : ℤ) (h1 : 1/2 ≤ m) (h2 : m < 1) (hd : IsDouble (m * 2 ^ e)) :
    frexp (m * 2 ^ e) = (m, e) ∧ frexp (1 - m) = frexpFloat (1 - m) := by
  have ha : |m| = m := abs_of_pos (by linarith)
  obtain ⟨k, hk⟩ := isDouble_mantissa m e (by rw [ha]; exact h1) (by rw [ha]; exact h2) hd
  constructor
  · unfold frexp
    rw [toFloat_isDouble _ hd, frexpFloat_eq m e (by rw [ha]; exact h1) (by rw [ha]; exact h2)]
  · unfold frexp
    rw [toFloat_one_sub m k h1 h2 hk]

theorem value_pos (log : ℤ) (d : ℕ) : 0 < value log d := by
  rw [value_eq]
  have := half_pow_le d
  exact mul_pos (two_zpow_pos _) (by linarith)

theorem isDouble_value (log : ℤ) (d : ℕ) (h : d ≤ 52) : IsDouble (value log d) := by
  refine ⟨2 ^ (d + 1) - 1, 1 - log - (d + 1), ?_, ?_⟩
  · have h1 : (2 : ℤ) ^ (d + 1) ≤ 2 ^ 53 := pow_le_pow_right₀ (by norm_num) (by omega)
    have h2 : (1 : ℤ) ≤ 2 ^ (d + 1) := one_le_pow₀ (by norm_num)
    rw [abs_lt]; constructor <;> omega
  · rw [value_eq, show (1 - log - (d + 1) : ℤ) = (1 - log) + (-(d + 1 : ℤ)) by ring,
      zpow_add₀ (by norm_num)]
    have : (2:ℚ) ^ (-(d + 1 : ℤ)) * 2 ^ (d + 1) = 1 := by
      rw [show (d + 1 : ℤ) = ((d + 1 : ℕ) : ℤ) by push_cast; ring, zpow_neg, zpow_natCast]
      field_simp
    push_cast
    linear_combination (-(2:ℚ) ^ (1 - log)) * this

theorem logDotcount_value (log : ℤ) (d : ℕ) (h : d ≤ 52) : logDotcount (value log d) = (log, (d : ℤ)) := by
  have hd := isDouble_value log d h
  have hh := half_pow_le d
  have hp := two_zpow_pos (-(d + 1 : ℤ))
  have hv : value log d = (1 - 2 ^ (-(d + 1 : ℤ))) * 2 ^ (1 - log) := by rw [value_eq]; ring
  rw [hv] at hd ⊢
  obtain ⟨f1, f2⟩ := frexp_double (1 - 2 ^ (-(d + 1 : ℤ))) (1 - log) (by linarith) (by linarith) hd
  unfold logDotcount
  simp only [f1, f2]
  have : (1 : ℚ) - (1 - 2 ^ (-(d + 1 : ℤ))) = 1/2 * 2 ^ (-(d : ℤ)) := by
    rw [show (-(d + 1 : ℤ)) = -(d : ℤ) + (-1) by ring, zpow_add₀ (by norm_num)]
    norm_num; ring
  rw [this, frexpFloat_eq (1/2) (-(d:ℤ)) (by norm_num [abs_of_pos]) (by norm_num [abs_of_pos])]
  simp

/-- Everything `log_dotcount` does on a positive double, in one statement. -/
theorem logDotcount_double (v : ℚ) (hv : 0 < v) (hd : IsDouble v) :
    ∃ (m : ℚ) (e : ℤ) (d : ℕ), 1/2 ≤ m ∧ m < 1 ∧ v = m * 2 ^ e ∧ logDotcount v = (1 - e, (d : ℤ)) ∧
      (2 : ℚ) ^ (-(d + 2 : ℤ)) < 1 - m ∧ 1 - m ≤ 2 ^ (-(d + 1 : ℤ)) ∧
      frexp v = (m, e) ∧
      ((frexp (1 - m)).1 = 1/2 ↔ 1 - m = 2 ^ (-(d + 1 : ℤ))) := by
  obtain ⟨m, e, h1, h2, rfl⟩ := frexp_exists v hv.ne'
  have hm : 0 < m := by
    by_contra hc
    have : m * 2 ^ e ≤ 0 := mul_nonpos_of_nonpos_of_nonneg (by linarith) (two_zpow_pos e).le
    linarith
  rw [abs_of_pos hm] at h1 h2
  obtain ⟨f1, f2⟩ := frexp_double m e h1 h2 hd
  obtain ⟨m2, e2, g1, g2, g3⟩ := frexp_exists (1 - m) (by linarith)
  have hm2 : 0 < m2 := by
    by_contra hc
    have : m2 * 2 ^ e2 ≤ 0 := mul_nonpos_of_nonpos_of_nonneg (by linarith) (two_zpow_pos e2).le
    linarith
  have f3 : frexpFloat (1 - m) = (m2, e2) := by rw [g3, frexpFloat_eq m2 e2 g1 g2]
  rw [abs_of_pos hm2] at g1 g2
  have hp := two_zpow_pos e2
  have hs : ∀ z : ℤ, (2:ℚ) ^ (z - 1) = 1/2 * 2 ^ z := by
    intro z; rw [zpow_sub₀ (by norm_num)]; norm_num; ring
  -- bound on e2
  have he2 : e2 - 1 ≤ -1 := by
    have : (2:ℚ) ^ (e2 - 1) ≤ 2 ^ (-1 : ℤ) := by
      rw [hs, show (2:ℚ) ^ (-1:ℤ) = 1/2 by norm_num]
      nlinarith
    exact (zpow_le_zpow_iff_right₀ (by norm_num)).mp this
  by_cases hlt : 1/2 < m2
  · have hne : e2 ≤ -1 := by
      by_contra hc
      have he0 : e2 = 0 := by omega
      rw [he0] at g3
      simp at g3
      linarith
    obtain ⟨d, hdd⟩ := Int.eq_ofNat_of_zero_le (by omega : 0 ≤ -e2 - 1)
    refine ⟨m, e, d, h1, h2, rfl, ?_, ?_, ?_, f1, ?_⟩
    · unfold logDotcount
      simp only [f1, f2, f3, hlt, if_true]
      rw [hdd]
    · rw [show (-(d + 2 : ℤ)) = e2 - 1 by omega, hs, g3]
      exact mul_lt_mul_of_pos_right hlt hp
    · rw [show (-(d + 1 : ℤ)) = e2 by omega, g3]
      nlinarith
    · rw [f2, f3, show (-(d + 1 : ℤ)) = e2 by omega]
      constructor
      · intro h; simp only at h; linarith
      · intro h
        rw [g3] at h
        exfalso
        nlinarith
  · have hm2' : m2 = 1/2 := by linarith
    obtain ⟨d, hdd⟩ := Int.eq_ofNat_of_zero_le (by omega : 0 ≤ -e2)
    refine ⟨m, e, d, h1, h2, rfl, ?_, ?_, ?_, f1, ?_⟩
    · unfold logDotcount
      simp only [f1, f2, f3, hlt, if_false]
      rw [sub_zero, hdd]
    · rw [show (-(d + 2 : ℤ)) = e2 - 1 - 1 by omega, hs, hs, g3, hm2']
      nlinarith
    · rw [show (-(d + 1 : ℤ)) = e2 - 1 by omega, hs, g3, hm2']
    · rw [f2, f3, show (-(d + 1 : ℤ)) = e2 - 1 by omega, hs, hm2', g3, hm2']
      simp

theorem value_lt (log : ℤ) (d : ℕ) : value log d < 2 ^ (1 - log) := by
  rw [value_eq]
  nlinarith [two_zpow_pos (1 - log), two_zpow_pos (-(d + 1 : ℤ)), mul_pos (two_zpow_pos (1 - log)) (two_zpow_pos (-(d + 1 : ℤ)))]

theorem le_value (log : ℤ) (d : ℕ) : (2:ℚ) ^ (-log) ≤ value log d := by
  rw [value_eq, show (1 - log : ℤ) = -log + 1 by ring, zpow_add₀ (by norm_num)]
  have := half_pow_le d
  have hp := two_zpow_pos (-log)
  rw [zpow_one]
  nlinarith

/-- Comparing two written lengths. -/
theorem value_le_iff (log : ℤ) (d d' : ℕ) : value log d ≤ value log d' ↔ d ≤ d' := by
  rw [value_eq, value_eq, mul_le_mul_iff_right₀ (two_zpow_pos _)]
  constructor
  · intro h
    have : (2:ℚ) ^ (-(d' + 1 : ℤ)) ≤ 2 ^ (-(d + 1 : ℤ)) := by linarith
    have := (zpow_le_zpow_iff_right₀ (by norm_num : (1:ℚ) < 2)).mp this
    omega
  · intro h
    have : (2:ℚ) ^ (-(d' + 1 : ℤ)) ≤ 2 ^ (-(d + 1 : ℤ)) :=
      zpow_le_zpow_right₀ (by norm_num) (by omega)
    linarith

end Quickly.Duration
