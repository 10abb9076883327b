import Verif.Duration.Lemmas

/-! # Properties of `quickly.duration` (C04 - C09) -/

namespace Quickly.Duration

open Spec

/-! ## C04 -/

/-- `duration(log, dots)` is the musical value of the note, and raises
ValueError exactly when `dots < 0` or `log + dots + 3 < 0`. -/
theorem C04_duration_value (log dots : ℤ) :
    (∀ d : ℕ, dots = d → 0 ≤ d + log + 3 → duration log dots = .ok (value log d)) ∧
    ((dots < 0 ∨ dots + log + 3 < 0) ↔ duration log dots = .error .valueError) := by
  constructor
  · rintro d rfl h; exact duration_ok log d h
  · constructor
    · exact duration_err log dots
    · intro h
      by_contra hc
      have h0 : 0 ≤ dots := by omega
      obtain ⟨d, rfl⟩ := Int.eq_ofNat_of_zero_le h0
      rw [duration_ok log d (by omega)] at h
      cases h

/-- For every log from maxima down and every dot count a double can hold (up to
52 dots), `log_dotcount(duration(log, dots)) == (log, dots)`. -/
theorem C04_log_dotcount_duration (log : ℤ) (d : ℕ) (hl : 0 ≤ d + log + 3) (hd : d ≤ 52) :
    ∃ v, duration log d = .ok v ∧ logDotcount v = (log, (d : ℤ)) :=
  ⟨_, duration_ok log d hl, logDotcount_value log d hd⟩

example : duration 2 3 = .ok (15/32) := by
  rw [show (3 : ℤ) = ((3 : ℕ) : ℤ) by rfl, duration_ok 2 3 (by norm_num)]
  norm_num [value]

/-- With 53 dots or more the conversion to float rounds up to the next power of
two, so the round trip does not hold there. -/
theorem C04_too_many_dots (log : ℤ) (d : ℕ) (hd : 53 ≤ d) :
    logDotcount (value log d) = (log - 1, 0) := by
  have hh := half_pow_le d
  have hp := two_zpow_pos (-(d + 1 : ℤ))
  have hv : value log d = (1 - 2 ^ (-(d + 1 : ℤ))) * 2 ^ (1 - log) := by rw [value_eq]; ring
  have hexp : expo (value log d) = 1 - log := by
    rw [hv]
    exact expo_eq _ _ (by rw [abs_of_pos (by linarith)]; linarith) (by rw [abs_of_pos (by linarith)]; linarith)
  have hne : value log d ≠ 0 := (value_pos log d).ne'
  have hx : value log d * 2 ^ (53 - (1 - log)) = 2 ^ 53 - 2 ^ (52 - d : ℤ) := by
    rw [hv, mul_assoc, ← zpow_add₀ (by norm_num), show (1 - log + (53 - (1 - log)) : ℤ) = 53 by ring,
      sub_mul, one_mul, ← zpow_add₀ (by norm_num), show (-(d + 1 : ℤ) + 53) = 52 - d by ring]
    norm_num
  have hs : (2 : ℚ) ^ (52 - d : ℤ) ≤ 1/2 := by
    have : (2 : ℚ) ^ (52 - d : ℤ) ≤ 2 ^ (-1 : ℤ) := zpow_le_zpow_right₀ (by norm_num) (by omega)
    simpa using this
  have hs0 := two_zpow_pos (52 - d : ℤ)
  have hround : roundEven (value log d * 2 ^ (53 - (1 - log))) = 2 ^ 53 := by
    rw [hx]
    have hf : ⌊(2 : ℚ) ^ 53 - 2 ^ (52 - d : ℤ)⌋ = 2 ^ 53 - 1 := by
      rw [Int.floor_eq_iff]; push_cast; constructor <;> linarith
    unfold roundEven
    simp only [hf]
    push_cast
    rw [if_neg (by linarith)]
    split
    · norm_num
    · norm_num
  have htf : toFloat (value log d) = 1/2 * 2 ^ (2 - log) := by
    unfold toFloat
    rw [if_neg hne, hexp, hround, show (2 - log : ℤ) = 54 + (1 - log - 53) by ring,
      zpow_add₀ (by norm_num)]
    push_cast
    norm_num
    ring
  have f1 : frexp (value log d) = (1/2, 2 - log) := by
    unfold frexp
    rw [htf, frexpFloat_eq (1/2) _ (by norm_num [abs_of_pos]) (by norm_num [abs_of_pos])]
  have f2 : frexp (1 - 1/2) = (1/2, 0) := by
    have : (1 : ℚ) - 1/2 = 1/2 * 2 ^ (0 : ℤ) := by norm_num
    unfold frexp
    rw [this, toFloat_of_int (1/2) 0 (2^52) (by norm_num [abs_of_pos]) (by norm_num [abs_of_pos])
      (by norm_num), frexpFloat_eq (1/2) _ (by norm_num [abs_of_pos]) (by norm_num [abs_of_pos])]
  unfold logDotcount
  simp only [f1, f2]
  simp
  ring

/-- Different (log, dots) pairs denote different lengths. -/
theorem C04_duration_injective (log log' : ℤ) (d d' : ℕ) (v : ℚ)
    (h : duration log d = .ok v) (h' : duration log' d' = .ok v) : log = log' ∧ d = d' := by
  have get : ∀ (l : ℤ) (d : ℕ), duration l d = .ok v → v = value l d := by
    intro l d h
    by_cases hl : 0 ≤ d + l + 3
    · rw [duration_ok l d hl] at h; injection h with h; exact h.symm
    · rw [duration_err l d (.inr (by omega))] at h; cases h
  have e := get _ _ h
  have e' := get _ _ h'
  have b1 := value_lt log d
  have b2 := le_value log d
  have c1 := value_lt log' d'
  have c2 := le_value log' d'
  rw [← e] at b1 b2
  rw [← e'] at c1 c2
  have k1 : -log < 1 - log' := (zpow_lt_zpow_iff_right₀ (by norm_num : (1:ℚ) < 2)).mp (lt_of_le_of_lt b2 c1)
  have k2 : -log' < 1 - log := (zpow_lt_zpow_iff_right₀ (by norm_num : (1:ℚ) < 2)).mp (lt_of_le_of_lt c2 b1)
  have hl : log = log' := by omega
  subst hl
  refine ⟨rfl, ?_⟩
  have a1 := (value_le_iff log d d').mp (by rw [← e, ← e'])
  have a2 := (value_le_iff log d' d).mp (by rw [← e, ← e'])
  omega

/-! ## C05 -/

/-- For every positive length that is a double, the truncated length is written
with a non-negative number of dots, is not longer, and every written length that
is not longer than `v` is not longer than the truncated one. -/
theorem C05_truncation (v : ℚ) (hv : 0 < v) (hd : IsDouble v) :
    ∃ (log : ℤ) (d : ℕ), logDotcount v = (log, (d : ℤ)) ∧ value log d ≤ v ∧
      ∀ (log' : ℤ) (d' : ℕ), value log' d' ≤ v → value log' d' ≤ value log d := by
  obtain ⟨m, e, d, h1, h2, rfl, hl, hlo, hhi, _, _⟩ := logDotcount_double v hv hd
  have hp := two_zpow_pos e
  refine ⟨1 - e, d, hl, ?_, ?_⟩
  · rw [value_eq, show (1 - (1 - e) : ℤ) = e by ring]
    nlinarith
  · intro log' d' hle
    have hlog : 1 - e ≤ log' := by
      by_contra hc
      have a := le_value log' d'
      have b : (2:ℚ) ^ e ≤ 2 ^ (-log') := zpow_le_zpow_right₀ (by norm_num) (by omega)
      nlinarith
    by_cases heq : log' = 1 - e
    · subst heq
      rw [value_le_iff]
      rw [value_eq, show (1 - (1 - e) : ℤ) = e by ring] at hle
      have h3 : 1 - (2:ℚ) ^ (-(d' + 1 : ℤ)) ≤ m := by
        by_contra hc
        push Not at hc
        nlinarith
      have h4 : (2:ℚ) ^ (-(d + 2 : ℤ)) < 2 ^ (-(d' + 1 : ℤ)) := by linarith
      have := (zpow_lt_zpow_iff_right₀ (by norm_num : (1:ℚ) < 2)).mp h4
      omega
    · have a := value_lt log' d'
      have b := le_value (1 - e) d
      have c : (2:ℚ) ^ (1 - log') ≤ 2 ^ (-(1 - e)) := zpow_le_zpow_right₀ (by norm_num) (by omega)
      linarith

/-- The documented example: 1.4 whole notes are written as one whole note. -/
example : IsDouble (11/8) ∧ value 0 0 ≤ 11/8 ∧ ¬ value 0 1 ≤ 11/8 :=
  ⟨⟨11, -3, by norm_num, by norm_num⟩, by norm_num [value], by norm_num [value]⟩

/-- Zero is not a duration, but the code gives it the log of a half note and a
dot count of minus one, and writes it as "2". -/
theorem C05_zero : logDotcount 0 = (1, -1) ∧ toString 0 = .ok ['2'] := by
  have f0 : frexp 0 = (0, 0) := by simp [frexp, toFloat, frexpFloat]
  have f1 : frexp (1 - 0) = (1/2, 1) := by
    have : (1 : ℚ) - 0 = 1/2 * 2 ^ (1 : ℤ) := by norm_num
    unfold frexp
    rw [this, toFloat_of_int (1/2) 1 (2^52) (by norm_num [abs_of_pos]) (by norm_num [abs_of_pos])
      (by norm_num), frexpFloat_eq (1/2) _ (by norm_num [abs_of_pos]) (by norm_num [abs_of_pos])]
  have h : logDotcount 0 = (1, -1) := by
    unfold logDotcount
    simp only [f0, f1]
    simp
  refine ⟨h, ?_⟩
  unfold toString
  rw [h]
  decide

/-! ## C06 -/

theorem strip_digits_dots (l : List Char) (d : ℕ) (h0 : l ≠ [])
    (h : ∀ c ∈ l, (c == ' ' || c == '\t' || c == '.') = false) :
    strip (l ++ List.replicate d '.') = l := by
  unfold strip
  simp only
  have h1 : (l ++ List.replicate d '.').dropWhile (fun c => c == ' ' || c == '\t' || c == '.')
      = l ++ List.replicate d '.' := by
    cases l with
    | nil => exact absurd rfl h0
    | cons c cs =>
      rw [List.cons_append, List.dropWhile_cons_of_neg]
      simp [h c List.mem_cons_self]
  rw [h1, List.reverse_append, List.reverse_replicate]
  have h2 : ∀ k, (List.replicate k '.' ++ l.reverse).dropWhile
      (fun c => c == ' ' || c == '\t' || c == '.') =
      l.reverse.dropWhile (fun c => c == ' ' || c == '\t' || c == '.') := by
    intro k
    induction k with
    | zero => rfl
    | succ k ih =>
      rw [List.replicate_succ, List.cons_append, List.dropWhile_cons_of_pos (by decide), ih]
  rw [h2]
  have h3 : l.reverse.dropWhile (fun c => c == ' ' || c == '\t' || c == '.') = l.reverse := by
    cases hr : l.reverse with
    | nil => rfl
    | cons c cs =>
      rw [List.dropWhile_cons_of_neg]
      have : c ∈ l := by rw [← List.mem_reverse, hr]; exact List.mem_cons_self
      simp [h c this]
  rw [h3, List.reverse_reverse]

theorem digit_ne {c : Char} (h : c.isDigit = true) :
    (c == ' ' || c == '\t' || c == '.') = false ∧ c ≠ '-' ∧ c ≠ '+' ∧ c ≠ '.' := by
  refine ⟨?_, ?_, ?_, ?_⟩
  · simp only [Bool.or_eq_false_iff, beq_eq_false_iff_ne]
    refine ⟨⟨?_, ?_⟩, ?_⟩ <;> (rintro rfl; revert h; decide)
  all_goals (rintro rfl; revert h; decide)

theorem parseInt_digits (n : ℕ) : parseInt (Nat.toDigits 10 n) = some (n : ℤ) := by
  have hd : ∀ c ∈ Nat.toDigits 10 n, c.isDigit = true :=
    fun c hc => Nat.isDigit_of_mem_toDigits (by decide) (by decide) hc
  have hne : Nat.toDigits 10 n ≠ [] := Nat.toDigits_ne_nil
  have hv : Nat.ofDigitChars 10 (Nat.toDigits 10 n) 0 = n := Nat.ofDigitChars_ten_toDigits
  generalize Nat.toDigits 10 n = l at *
  cases l with
  | nil => exact absurd rfl hne
  | cons c cs =>
    have hc := digit_ne (hd c List.mem_cons_self)
    unfold parseInt
    dsimp only
    split
    · rename_i heq; injection heq with h1 _; exact absurd h1 hc.2.1
    · rename_i heq; injection heq with h1 _; exact absurd h1 hc.2.2.1
    · rw [if_pos ⟨hne, hd⟩, hv]

theorem toString_value (log : ℤ) (d : ℕ) (hd : d ≤ 52) :
    toString (value log d) =
      if log < 0 then
        match namedDurations[(-1 - log).toNat]? with
        | none => .error .indexError
        | some name => .ok ('\\' :: name ++ List.replicate d '.')
      else .ok (Nat.toDigits 10 (2 ^ log.toNat) ++ List.replicate d '.') := by
  unfold toString
  rw [logDotcount_value log d hd]
  simp only [Int.toNat_natCast]
  rfl

/-- `from_string(to_string(v)) == v` for every writable length of at most maxima
and up to 52 dots. -/
theorem C06_string_roundtrip (log : ℤ) (d : ℕ) (hl : -3 ≤ log) (hd : d ≤ 52) :
    ∃ s, toString (value log d) = .ok s ∧ fromString s none = .ok (value log d) := by
  rw [toString_value log d hd]
  by_cases hneg : log < 0
  · have : log = -1 ∨ log = -2 ∨ log = -3 := by omega
    have key : ∀ (name : List Char) (i : ℕ), log = -1 - i →
        (∀ c ∈ '\\' :: name, (c == ' ' || c == '\t' || c == '.') = false) →
        parseInt ('\\' :: name) = none →
        tupleIndex (('\\' :: name).dropWhile (· == '\\')) namedDurations = some i →
        fromString ('\\' :: name ++ List.replicate d '.') none = .ok (value log d) := by
      intro name i hi hc hp ht
      unfold fromString
      simp only
      rw [strip_digits_dots _ d (by simp) hc, hp, ht]
      simp only
      have hcount : ('\\' :: name ++ List.replicate d '.').count '.' = d := by
        rw [List.count_append, List.count_replicate_self]
        have : List.count '.' ('\\' :: name) = 0 := by
          rw [List.count_eq_zero]
          intro hm
          have := hc '.' hm
          simp at this
        omega
      rw [hcount, ← hi, duration_ok log d (by omega)]
    rcases this with h | h | h
    · refine ⟨_, by rw [if_pos hneg, h]; rfl, ?_⟩
      exact key "breve".toList 0 (by simp [h]) (by decide) (by decide) (by decide)
    · refine ⟨_, by rw [if_pos hneg, h]; rfl, ?_⟩
      exact key "longa".toList 1 (by simp [h]) (by decide) (by decide) (by decide)
    · refine ⟨_, by rw [if_pos hneg, h]; rfl, ?_⟩
      exact key "maxima".toList 2 (by simp [h]) (by decide) (by decide) (by decide)
  · refine ⟨_, by rw [if_neg hneg], ?_⟩
    obtain ⟨l, rfl⟩ := Int.eq_ofNat_of_zero_le (by omega : 0 ≤ log)
    have hdig : ∀ c ∈ Nat.toDigits 10 (2 ^ l), c.isDigit = true :=
      fun c hc => Nat.isDigit_of_mem_toDigits (by decide) (by decide) hc
    unfold fromString
    simp only [Int.toNat_natCast]
    rw [strip_digits_dots _ d Nat.toDigits_ne_nil (fun c hc => (digit_ne (hdig c hc)).1),
      parseInt_digits]
    simp only
    have hcount : (Nat.toDigits 10 (2 ^ l) ++ List.replicate d '.').count '.' = d := by
      rw [List.count_append, List.count_replicate_self]
      have : List.count '.' (Nat.toDigits 10 (2 ^ l)) = 0 := by
        rw [List.count_eq_zero]
        intro hm
        exact (digit_ne (hdig '.' hm)).2.2.2 rfl
      omega
    have hbit : bitLength ((2 ^ l : ℕ) : ℤ) - 1 = l := by
      unfold bitLength
      rw [if_neg (by exact_mod_cast (Nat.two_pow_pos l).ne')]
      rw [Int.natAbs_natCast, Nat.log_pow (by norm_num)]
      ring
    rw [hcount, hbit, duration_ok _ d (by omega)]

example : toString (value 2 1) = .ok ['4', '.'] := by
  rw [toString_value 2 1 (by norm_num)]; decide

/-- Lengths longer than maxima cannot be written: IndexError. -/
theorem C06_too_long (log : ℤ) (d : ℕ) (hl : log < -3) (hd : d ≤ 52) :
    toString (value log d) = .error .indexError := by
  rw [toString_value log d hd, if_pos (by omega)]
  have : namedDurations[(-1 - log).toNat]? = none := by
    rw [List.getElem?_eq_none_iff]
    show 3 ≤ _
    omega
  rw [this]

/-- For any positive double, the text reads back as the truncated length. -/
theorem C06_string_truncates (v : ℚ) (hv : 0 < v) (hd : IsDouble v) (s : List Char)
    (hs : toString v = .ok s) :
    ∃ (log : ℤ) (d : ℕ), logDotcount v = (log, (d : ℤ)) ∧ fromString s none = .ok (value log d) := by
  obtain ⟨m, e, d, h1, h2, rfl, hl, hlo, hhi, _, _⟩ := logDotcount_double v hv hd
  -- at most 52 dots: 1 - m is a multiple of 2^-53
  have hd52 : d ≤ 52 := by
    have ha : |m| = m := abs_of_pos (by linarith)
    obtain ⟨k, hk⟩ := isDouble_mantissa m e (by rw [ha]; exact h1) (by rw [ha]; exact h2) hd
    have hpos : (0 : ℚ) < (2 ^ 53 - k : ℤ) := by
      push_cast
      rw [← hk]
      have : (2:ℚ) ^ (53:ℤ) = 2 ^ 53 := by norm_num
      rw [this]
      nlinarith
    have hge : (1 : ℤ) ≤ 2 ^ 53 - k := by
      have : (0 : ℤ) < 2 ^ 53 - k := by exact_mod_cast hpos
      omega
    have hge' : (1 : ℚ) ≤ (1 - m) * 2 ^ (53:ℤ) := by
      have h5 : ((1 : ℤ) : ℚ) ≤ ((2 ^ 53 - k : ℤ) : ℚ) := Int.cast_le.mpr hge
      rw [sub_mul, hk]
      push_cast at h5
      norm_num at h5 ⊢
      exact h5
    have h6 : (2:ℚ) ^ (0:ℤ) ≤ 2 ^ (-(d + 1 : ℤ) + 53) := by
      rw [zpow_add₀ (by norm_num), zpow_zero]
      have := mul_le_mul_of_nonneg_right hhi (two_zpow_pos 53).le
      linarith
    have := (zpow_le_zpow_iff_right₀ (by norm_num : (1:ℚ) < 2)).mp h6
    omega
  refine ⟨1 - e, d, hl, ?_⟩
  have hsv : toString (value (1 - e) d) = toString (m * 2 ^ e) := by
    unfold toString
    rw [hl, logDotcount_value _ d hd52]
  by_cases hlog : -3 ≤ 1 - e
  · obtain ⟨s', a, b⟩ := C06_string_roundtrip (1 - e) d hlog hd52
    rw [hsv, hs] at a
    injection a with a
    rw [a]; exact b
  · rw [← hsv, C06_too_long _ d (by omega) hd52] at hs
    cases hs

/-! ## C07 -/

/-- `is_writable(v)` holds for a positive double exactly when `v` is a note
length with dots, from maxima down to 1/1024. -/
theorem C07_is_writable_iff (v : ℚ) (hv : 0 < v) (hd : IsDouble v) :
    isWritable v = true ↔ ∃ (log : ℤ) (d : ℕ), -3 ≤ log ∧ log ≤ 10 ∧ v = value log d := by
  obtain ⟨m, e, d, h1, h2, hve, hl, hlo, hhi, hf, hw⟩ := logDotcount_double v hv hd
  unfold isWritable
  rw [hf]
  simp only [decide_eq_true_eq, hw]
  constructor
  · rintro ⟨a, b, c⟩
    refine ⟨1 - e, d, by omega, by omega, ?_⟩
    rw [value_eq, show (1 - (1 - e) : ℤ) = e by ring, hve, ← c]
    ring
  · rintro ⟨log, d', a, b, c⟩
    have hm : v = (1 - 2 ^ (-(d' + 1 : ℤ))) * 2 ^ (1 - log) := by rw [c, value_eq]; ring
    have hh := half_pow_le d'
    have hp := two_zpow_pos (-(d' + 1 : ℤ))
    have f1 := frexpFloat_eq (1 - 2 ^ (-(d' + 1 : ℤ))) (1 - log)
      (by rw [abs_of_pos (by linarith)]; linarith) (by rw [abs_of_pos (by linarith)]; linarith)
    have f2 := frexpFloat_eq m e (by rw [abs_of_pos (by linarith)]; linarith)
      (by rw [abs_of_pos (by linarith)]; linarith)
    rw [← hm] at f1
    rw [← hve, f1] at f2
    injection f2 with g1 g2
    refine ⟨by omega, by omega, ?_⟩
    have : (1:ℚ) - m = 2 ^ (-(d' + 1 : ℤ)) := by rw [← g1]; ring
    rw [this] at hlo hhi ⊢
    have k1 := (zpow_lt_zpow_iff_right₀ (by norm_num : (1:ℚ) < 2)).mp hlo
    have k2 := (zpow_le_zpow_iff_right₀ (by norm_num : (1:ℚ) < 2)).mp hhi
    have : d = d' := by omega
    rw [this]

example : IsDouble (7/16) ∧ (7/16 : ℚ) = value 2 2 :=
  ⟨⟨7, -4, by norm_num, by norm_num⟩, by norm_num [value]⟩

/-- Zero is reported as writable. -/
theorem C07_zero_is_writable : isWritable 0 = true := by
  have f0 : frexp 0 = (0, 0) := by simp [frexp, toFloat, frexpFloat]
  have f1 : frexp (1 - 0) = (1/2, 1) := by
    have : (1 : ℚ) - 0 = 1/2 * 2 ^ (1 : ℤ) := by norm_num
    unfold frexp
    rw [this, toFloat_of_int (1/2) 1 (2^52) (by norm_num [abs_of_pos]) (by norm_num [abs_of_pos])
      (by norm_num), frexpFloat_eq (1/2) _ (by norm_num [abs_of_pos]) (by norm_num [abs_of_pos])]
  unfold isWritable
  rw [f0]
  simp only [f1]
  decide

/-! ## C08 -/

/-- Shifting a written length shifts its log and its dots (never below zero). -/
theorem C08_shift_value (log : ℤ) (d : ℕ) (hd : d ≤ 52) (l k : ℤ)
    (hok : 0 ≤ max 0 (d + k) + (log + l) + 3) :
    shiftDuration (value log d) l k = .ok (value (log + l) (d + k).toNat) := by
  unfold shiftDuration
  rw [logDotcount_value log d hd]
  simp only
  have : max 0 ((d : ℤ) + k) = (((d : ℤ) + k).toNat : ℤ) := by omega
  rw [this] at hok ⊢
  exact duration_ok _ _ hok

example : shiftDuration (value 2 0) 1 1 = .ok (value 3 1) := by
  have := C08_shift_value 2 0 (by norm_num) 1 1 (by norm_num)
  exact this

/-- A log shift multiplies any written length by a power of two. -/
theorem C08_shift_scales (log : ℤ) (d : ℕ) (hd : d ≤ 52) (l : ℤ) (hok : 0 ≤ d + (log + l) + 3) :
    shiftDuration (value log d) l 0 = .ok (value log d * 2 ^ (-l)) := by
  rw [C08_shift_value log d hd l 0 (by omega)]
  congr 1
  rw [value_eq, value_eq, show (1 - (log + l) : ℤ) = (1 - log) + (-l) by ring, zpow_add₀ (by norm_num)]
  simp
  ring

/-- Two shifts compose to the sum of the shifts, when the number of dots is not
cut off at zero in between. -/
theorem C08_shift_compose (log : ℤ) (d : ℕ) (hd : d ≤ 52) (l k l' k' : ℤ)
    (hk : 0 ≤ d + k) (hk52 : d + k ≤ 52)
    (h1 : 0 ≤ d + k + (log + l) + 3) (v : ℚ)
    (hv : shiftDuration (value log d) l k = .ok v) :
    shiftDuration v l' k' = shiftDuration (value log d) (l + l') (k + k') := by
  rw [C08_shift_value log d hd l k (by omega)] at hv
  injection hv with hv
  subst hv
  unfold shiftDuration
  rw [logDotcount_value log d hd, logDotcount_value _ _ (by omega)]
  simp only
  congr 1
  · ring
  · congr 1; omega

/-- A shift is undone by the opposite shift when no dots were cut off. -/
theorem C08_shift_inverse (log : ℤ) (d : ℕ) (hd : d ≤ 52) (l k : ℤ) (hlog : -3 ≤ log)
    (hk : 0 ≤ d + k) (hk52 : d + k ≤ 52) (h1 : 0 ≤ d + k + (log + l) + 3) :
    ∃ v, shiftDuration (value log d) l k = .ok v ∧
      shiftDuration v (-l) (-k) = .ok (value log d) := by
  refine ⟨_, C08_shift_value log d hd l k (by omega), ?_⟩
  rw [C08_shift_compose log d hd l k (-l) (-k) hk hk52 h1 _ (C08_shift_value log d hd l k (by omega)),
    C08_shift_value log d hd _ _ (by omega)]
  simp

example : ∃ v, shiftDuration (value 2 1) (-1) 2 = .ok v ∧ shiftDuration v 1 (-2) = .ok (value 2 1) :=
  C08_shift_inverse 2 1 (by norm_num) (-1) 2 (by norm_num) (by norm_num) (by norm_num) (by norm_num)

/-! ## C09 -/

theorem C09_add_assoc (a b c : Transform) : (a.add b).add c = a.add (b.add c) := by
  simp only [Transform.add, Transform.mk.injEq]
  refine ⟨by ring, by ring, by ring⟩

theorem C09_add_comm (a b : Transform) : a.add b = b.add a := by
  simp only [Transform.add, Transform.mk.injEq]
  refine ⟨by ring, by ring, by ring⟩

theorem C09_add_identity (a : Transform) : a.add {} = a ∧ Transform.add {} a = a := by
  constructor <;> simp [Transform.add]

/-- A Transform is falsy exactly when it changes no written length with any scaling. -/
theorem C09_bool_iff (t : Transform) :
    t.bool = false ↔
      ∀ (log : ℤ) (d : ℕ) (s : ℚ), -3 ≤ log → d ≤ 52 →
        t.transform (value log d) s = .ok (value log d, s) := by
  constructor
  · intro h log d s _ _
    simp only [Transform.bool, decide_eq_false_iff_not, not_or, not_not] at h
    obtain ⟨h1, h2, h3⟩ := h
    unfold Transform.transform
    rw [if_neg (by simp [h1, h2]), h3, mul_one]
  · intro h
    simp only [Transform.bool, decide_eq_false_iff_not, not_or, not_not]
    by_cases hc : t.log ≠ 0 ∨ t.dotcount ≠ 0
    · exfalso
      -- a length with one dot and a log far from the limit
      have h2 := h (max 0 (-t.log)) 1 1 (by omega) (by norm_num)
      unfold Transform.transform at h2
      rw [if_pos hc] at h2
      rw [C08_shift_value _ 1 (by norm_num) _ _ (by omega)] at h2
      simp only [Except.ok.injEq, Prod.mk.injEq] at h2
      have := C04_duration_injective (max 0 (-t.log) + t.log) (max 0 (-t.log))
        (((1 : ℕ) : ℤ) + t.dotcount).toNat 1 (value (max 0 (-t.log)) 1)
        (by rw [duration_ok _ _ (by omega), h2.1])
        (duration_ok (max 0 (-t.log)) 1 (by omega))
      omega
    · push Not at hc
      refine ⟨hc.1, hc.2, ?_⟩
      have h2 := h 0 0 1 (by norm_num) (by norm_num)
      unfold Transform.transform at h2
      rw [if_neg (by simp [hc.1, hc.2])] at h2
      simp only [Except.ok.injEq, Prod.mk.injEq] at h2
      simpa using h2.2

/-- Applying the sum of two transforms to a written length is applying one after
the other, when no dots are cut off in between. -/
theorem C09_transform_add (a b : Transform) (log : ℤ) (d : ℕ) (s : ℚ) (hd : d ≤ 52)
    (hlog : 0 ≤ d + log + 3)
    (hk : 0 ≤ d + a.dotcount) (hk52 : d + a.dotcount ≤ 52)
    (v : ℚ) (s' : ℚ) (hv : a.transform (value log d) s = .ok (v, s')) :
    b.transform v s' = (a.add b).transform (value log d) s := by
  have hshift : ∀ (t : Transform) (l : ℤ) (k : ℕ) (x : ℚ), k ≤ 52 → 0 ≤ k + l + 3 →
      t.transform (value l k) x =
        match shiftDuration (value l k) t.log t.dotcount with
        | .ok y => .ok (y, x * t.scale)
        | .error e => .error e := by
    intro t l k x hk hl
    unfold Transform.transform
    by_cases hc : t.log ≠ 0 ∨ t.dotcount ≠ 0
    · rw [if_pos hc]; cases shiftDuration (value l k) t.log t.dotcount <;> rfl
    · rw [if_neg hc]
      push Not at hc
      rw [hc.1, hc.2, C08_shift_value l k hk 0 0 (by omega)]
      simp
  rw [hshift a log d s hd hlog] at hv
  by_cases hok : 0 ≤ max 0 (d + a.dotcount) + (log + a.log) + 3
  · have hs := C08_shift_value log d hd a.log a.dotcount hok
    rw [hs] at hv
    simp only [Except.ok.injEq, Prod.mk.injEq] at hv
    obtain ⟨rfl, rfl⟩ := hv
    rw [hshift b _ _ _ (by omega) (by omega), hshift (a.add b) _ _ _ hd hlog]
    have := C08_shift_compose log d hd a.log a.dotcount b.log b.dotcount hk hk52 (by omega) _ hs
    rw [this]
    simp only [Transform.add]
    cases shiftDuration (value log d) (a.log + b.log) (a.dotcount + b.dotcount) with
    | ok y => simp [mul_assoc]
    | error e => rfl
  · exfalso
    unfold shiftDuration at hv
    rw [logDotcount_value log d hd] at hv
    simp only at hv
    rw [duration_err _ _ (.inr (by omega))] at hv
    cases hv

example :
    (Transform.mk 1 0 (2/3)).transform (value 2 1) 1 = .ok (value 3 1, 2/3) := by
  unfold Transform.transform
  rw [if_pos (by decide), C08_shift_value 2 1 (by norm_num) 1 0 (by norm_num)]
  norm_num

/-- `length` is the product of the transformed duration and scaling. -/
theorem C09_length (t : Transform) (dur s d' s' : ℚ) (h : t.transform dur s = .ok (d', s')) :
    t.length dur s = .ok (d' * s') := by
  simp [Transform.length, h]

/-- Removing more dots than there are is not undone: the cut-off case really differs. -/
theorem C09_cutoff_differs :
    ∃ (a b : Transform) (v s' : ℚ), a.transform (value 2 0) 1 = .ok (v, s') ∧
      b.transform v s' ≠ (a.add b).transform (value 2 0) 1 := by
  refine ⟨⟨0, -1, 1⟩, ⟨0, 1, 1⟩, value 2 0, 1, ?_, ?_⟩
  · unfold Transform.transform
    rw [if_pos (by decide), C08_shift_value 2 0 (by norm_num) 0 (-1) (by norm_num)]
    norm_num
    rfl
  · unfold Transform.transform
    rw [if_pos (by decide), C08_shift_value 2 0 (by norm_num) 0 1 (by norm_num),
      if_neg (by decide)]
    norm_num [value]

end Quickly.Duration
