import Verif.Key.Spec
import Verif.Pitch.Lemmas
import Mathlib.Tactic.Linarith
import Mathlib.Tactic.Ring
import Mathlib.Tactic.NormNum
import Mathlib.Tactic.IntervalCases
import Mathlib.Tactic.LinearCombination

/-! # Helper lemmas for key signatures -/

namespace Quickly.Key

open Spec Quickly.Pitch

/-- Rotating with slices, by at most the length. -/
theorem rotate_get {α : Type} (xs : List α) (S : ℤ) (h1 : S ≤ xs.length) (h2 : -(xs.length : ℤ) ≤ S)
    (i : ℕ) (hi : i < xs.length) :
    (sliceFrom xs (-S) ++ sliceTo xs (-S))[i]? = xs[(((i : ℤ) - S) % (xs.length : ℤ)).toNat]? := by
  unfold sliceFrom sliceTo
  by_cases hS : -S < 0
  · rw [if_pos hS, if_pos hS]
    obtain ⟨s, rfl⟩ : ∃ s : ℕ, S = s := ⟨S.toNat, by omega⟩
    have e : ((xs.length : ℤ) + -(s : ℤ)).toNat = xs.length - s := by omega
    rw [e]
    by_cases hlt : i < s
    · rw [List.getElem?_append_left (by rw [List.length_drop]; omega), List.getElem?_drop]
      congr 1
      have : ((i : ℤ) - s) % (xs.length : ℤ) = i - s + xs.length := by
        rw [← Int.add_emod_right]
        exact Int.emod_eq_of_lt (by omega) (by omega)
      rw [this]; omega
    · rw [List.getElem?_append_right (by rw [List.length_drop]; omega), List.length_drop,
        List.getElem?_take_of_lt (by omega)]
      congr 1
      rw [Int.emod_eq_of_lt (by omega) (by omega)]; omega
  · rw [if_neg hS, if_neg hS]
    obtain ⟨s, hs⟩ : ∃ s : ℕ, -S = s := ⟨(-S).toNat, by omega⟩
    have e : (i : ℤ) - S = i + s := by omega
    rw [hs, e]
    simp only [Int.toNat_natCast]
    by_cases hlt : i + s < xs.length
    · rw [List.getElem?_append_left (by rw [List.length_drop]; omega), List.getElem?_drop]
      congr 1
      rw [Int.emod_eq_of_lt (by omega) (by omega)]; omega
    · rw [List.getElem?_append_right (by rw [List.length_drop]; omega), List.length_drop,
        List.getElem?_take_of_lt (by omega)]
      congr 1
      have : ((i : ℤ) + s) % (xs.length : ℤ) = i + s - xs.length := by
        rw [← Int.sub_emod_right]
        exact Int.emod_eq_of_lt (by omega) (by omega)
      rw [this]; omega

theorem alterations_length (offset : ℤ) (scale : List ℚ) :
    (alterations offset scale).length = scale.length := by simp [alterations]

theorem alterations_get (offset : ℤ) (scale : List ℚ) (d : ℕ) (hd : d < scale.length) :
    (alterations offset scale)[d]? = some
      (degree scale ((offset % (scale.length : ℤ)).toNat + d) - sc scale d -
        (sc scale (offset % (scale.length : ℤ)).toNat - sc scale 0)) := by
  simp only [alterations, List.getElem?_map, List.getElem?_range hd, Option.map_some, degree]
  congr 1
  ring

theorem accidentals_length (note : ℤ) (alter : ℚ) (mode : List ℚ) (scale : List ℚ)
    (h : mode.length = scale.length) (hs : 0 < scale.length) :
    (accidentals note alter (some mode) scale).length = scale.length := by
  have hn0 := Int.emod_nonneg note (b := (scale.length : ℤ)) (by omega)
  have hn1 := Int.emod_lt_of_pos note (b := (scale.length : ℤ)) (by omega)
  simp only [accidentals, List.length_append, sliceFrom, sliceTo, List.length_zipWith,
    alterations_length, h, Nat.min_self]
  split <;> simp only [List.length_drop, List.length_take, List.length_zipWith, alterations_length, h,
    Nat.min_self] <;> omega

/-- The accidental on the note that is `d` steps above the tonic. -/
theorem accidentals_get (note : ℕ) (alter : ℚ) (mode : List ℚ) (scale : List ℚ)
    (h : mode.length = scale.length) (hn : note < scale.length) (d : ℕ) (hd : d < scale.length) (m : ℚ)
    (hm : mode[d]? = some m) :
    (accidentals note alter (some mode) scale)[(note + d) % scale.length]? =
      some (m - (degree scale (note + d) - sc scale d - (sc scale note - sc scale 0)) + alter) := by
  have hmod : (note : ℤ) % (scale.length : ℤ) = note := Int.emod_eq_of_lt (by omega) (by omega)
  have hlen : (List.zipWith (fun m s => m - s + alter) mode (alterations (note : ℤ) scale)).length
      = scale.length := by simp [alterations_length, h]
  have hi : (note + d) % scale.length < scale.length := Nat.mod_lt _ (by omega)
  simp only [accidentals, hmod]
  rw [rotate_get _ _ (by rw [hlen]; omega) (by omega) _ (by rw [hlen]; exact hi), hlen]
  have e : ((((note + d) % scale.length : ℕ) : ℤ) - note) % (scale.length : ℤ) = d := by
    push_cast
    rw [Int.emod_sub_emod]
    rw [show (note : ℤ) + d - note = d by ring]
    exact Int.emod_eq_of_lt (by omega) (by omega)
  rw [e]
  simp only [Int.toNat_natCast, List.getElem?_zipWith, hm, alterations_get _ _ _ hd, hmod]

/-! ## The chromatic scale -/

theorem chromLoop_length (scale flats : List ℚ) (c s n : ℕ) : (chromLoop scale flats c s n).length = c := by
  induction c generalizing s n with
  | zero => rfl
  | succ c ih => simp [chromLoop, ih]

theorem chromLoop_get (scale flats : List ℚ) (c s n : ℕ) (hn : n < scale.length) (k : ℕ) (hk : k < c) :
    ∃ m, m < scale.length ∧
      (chromLoop scale flats c s n)[k]? = some (m, ((s + k : ℕ) : ℚ) / 2 - sc scale m) := by
  induction c generalizing s n k with
  | zero => omega
  | succ c ih =>
    simp only [chromLoop]
    have hn' : (if n < scale.length - 1 ∧ ((s : ℚ) / 2 ∈ flats ∨ (s : ℚ) / 2 = sc scale (n + 1)) then n + 1
        else n) < scale.length := by split <;> omega
    cases k with
    | zero => exact ⟨_, hn', by simp⟩
    | succ k =>
      obtain ⟨m, hm, he⟩ := ih (s + 1) _ hn' k (by omega)
      refine ⟨m, hm, ?_⟩
      rw [List.getElem?_cons_succ, he]
      rw [show s + 1 + k = s + (k + 1) by omega]

theorem sc_major_zero : sc majorScale 0 = 0 := by decide +kernel

/-- Entry `i` of a chromatic scale sounds as semitone `i`, octaves aside. -/
theorem chromaticScale_get (note : ℕ) (hn : note < 7) (alter : ℚ) (flats : List ℚ) (S : ℤ)
    (hS : 2 * (alter + sc majorScale note) = S) (h1 : S ≤ 12) (h2 : -12 ≤ S) (i : ℕ) (hi : i < 12) :
    ∃ n a, (chromaticScale note alter majorScale flats)[i]? = some (n, a) ∧ n < 7 ∧
      ∃ k : ℤ, 2 * (sc majorScale n + a) = i + 12 * k := by
  have hl : majorScale.length = 7 := rfl
  have ht : trunc ((alter + (sc majorScale note - sc majorScale 0)) * 2) = S := by
    rw [sc_major_zero, ← trunc_intCast S, ← hS]
    congr 1
    ring
  simp only [chromaticScale, ht]
  rw [rotate_get _ S (by simp only [List.length_map, chromLoop_length]; exact_mod_cast h1)
    (by simp only [List.length_map, chromLoop_length]; exact_mod_cast h2) i
    (by simp only [List.length_map, chromLoop_length]; exact hi)]
  simp only [List.length_map, chromLoop_length]
  have hk0 := Int.emod_nonneg ((i : ℤ) - S) (b := 12) (by norm_num)
  have hk1 := Int.emod_lt_of_pos ((i : ℤ) - S) (b := 12) (by norm_num)
  have hdiv := Int.emod_add_mul_ediv ((i : ℤ) - S) 12
  obtain ⟨k, hk⟩ : ∃ k : ℕ, ((i : ℤ) - S) % 12 = k := ⟨(((i : ℤ) - S) % 12).toNat, by omega⟩
  push_cast
  rw [hk, Int.toNat_natCast]
  obtain ⟨m, hm, he⟩ := chromLoop_get majorScale flats 12 0 0 (by decide) k (by omega)
  rw [List.getElem?_map, he]
  refine ⟨_, _, rfl, ?_, ?_⟩
  · rw [hl]; exact Nat.mod_lt _ (by norm_num)
  · generalize ((i : ℤ) - S) / 12 = q at *
    generalize (m + note) / majorScale.length = o
    refine ⟨-q - (o : ℤ), ?_⟩
    rw [hk] at hdiv
    have hdq : (k : ℚ) + 12 * (q : ℚ) = i - S := by exact_mod_cast hdiv
    rw [sc_major_zero]
    push_cast
    push_cast at hS
    linear_combination hS + hdq

theorem chromaticScale_length (note : ℕ) (alter : ℚ) (flats : List ℚ) (scale : List ℚ) (S : ℤ)
    (hS : trunc ((alter + (sc scale note - sc scale 0)) * 2) = S) :
    (chromaticScale note alter scale flats).length = 12 := by
  simp only [chromaticScale, hS, List.length_append, sliceFrom, sliceTo]
  split <;> simp only [List.length_drop, List.length_take, List.length_map, chromLoop_length] <;> omega

/-! ## Filling in the scale of the signature -/

/-- All 12 entries sound as they should. -/
def Sounds (steps : List (ℕ × ℚ)) : Prop :=
  ∀ i : ℕ, i < 12 → ∃ (n : ℕ) (a : ℚ), steps[i]? = some (n, a) ∧ n < 7 ∧ ∃ k : ℤ, 2 * (sc majorScale n + a) = i + 12 * k

theorem Sounds.length {steps : List (ℕ × ℚ)} (h : Sounds steps) : 12 ≤ steps.length := by
  obtain ⟨n, a, h1, _⟩ := h 11 (by norm_num)
  have := (List.getElem?_eq_some_iff.1 h1).1
  omega

theorem fillIn_sounds (steps : List (ℕ × ℚ)) (h : Sounds steps) (note : ℕ) (rest : List (ℚ × ℚ))
    (hr : ∀ j (hj : j < rest.length), note + j < 7 ∧ (rest[j]).1 = sc majorScale (note + j) ∧
      Half ((rest[j]).1 + (rest[j]).2)) : Sounds (fillIn steps note rest) := by
  induction rest generalizing steps note with
  | nil => exact h
  | cons x rest ih =>
    obtain ⟨b, a⟩ := x
    simp only [fillIn]
    obtain ⟨h1, h2, k, h3⟩ := hr 0 (by simp)
    simp only [List.getElem_cons_zero, Nat.add_zero] at h1 h2 h3
    have ht : trunc ((b + a) * 2) = k := by
      rw [h3, show (k : ℚ) / 2 * 2 = k by ring, trunc_intCast]
    apply ih
    · intro i hi
      rw [ht]
      have hk0 := Int.emod_nonneg k (b := 12) (by norm_num)
      by_cases hki : (k % 12).toNat = i
      · rw [hki, List.getElem?_set_self (by have := h.length; omega)]
        refine ⟨note, a, rfl, h1, k / 12, ?_⟩
        rw [← h2]
        have := Int.emod_add_mul_ediv k 12
        have e : k = i + 12 * (k / 12) := by omega
        have e' : (k : ℚ) = i + 12 * ((k / 12 : ℤ) : ℚ) := by exact_mod_cast e
        linear_combination 2 * h3 + e'
      · rw [List.getElem?_set_ne hki]
        exact h i hi
    · intro j hj
      have := hr (j + 1) (by simpa using hj)
      simp only [List.getElem_cons_succ] at this
      rw [show note + 1 + j = note + (j + 1) by omega]
      exact this

/-- What `fillIn` puts at a position: the last note of the signature that
sounds there, or else what was there. -/
theorem fillIn_get (steps : List (ℕ × ℚ)) (note : ℕ) (rest : List (ℚ × ℚ)) (i : ℕ)
    (hi : i < steps.length) :
    ((∃ j, ∃ hj : j < rest.length,
        (trunc (((rest[j]).1 + (rest[j]).2) * 2) % 12).toNat = i ∧
        (fillIn steps note rest)[i]? = some (note + j, (rest[j]).2)) ∨
    ((∀ j (hj : j < rest.length), (trunc (((rest[j]).1 + (rest[j]).2) * 2) % 12).toNat ≠ i) ∧
      (fillIn steps note rest)[i]? = steps[i]?)) := by
  induction rest generalizing steps note with
  | nil => right; simp [fillIn]
  | cons x rest ih =>
    obtain ⟨b, a⟩ := x
    simp only [fillIn]
    rcases ih (steps.set ((trunc ((b + a) * 2)) % 12).toNat (note, a)) (note + 1) (by simpa using hi) with
      ⟨j, hj, h1, h2⟩ | ⟨h1, h2⟩
    · left
      refine ⟨j + 1, by simpa using hj, ?_⟩
      simp only [List.getElem_cons_succ]
      refine ⟨h1, ?_⟩
      rw [h2, show note + 1 + j = note + (j + 1) by omega]
    · by_cases hx : ((trunc ((b + a) * 2)) % 12).toNat = i
      · left
        refine ⟨0, by simp, ?_⟩
        simp only [List.getElem_cons_zero]
        refine ⟨hx, ?_⟩
        rw [h2, hx, List.getElem?_set_self hi]
        rfl
      · right
        refine ⟨?_, ?_⟩
        · intro j hj
          cases j with
          | zero => exact hx
          | succ j => exact h1 j (by simpa using hj)
        · rw [h2, List.getElem?_set_ne hx]

theorem sc_major (n : ℕ) (hn : n < 7) : 2 * sc majorScale n = 2 * n - (if n < 3 then 0 else 1) := by
  interval_cases n <;> norm_num [sc, majorScale]

/-- The octave lambda is right when the alteration is moderate. -/
theorem octaveOf_right (n : ℕ) (hn : n < 7) (a : ℚ) (i : ℕ) (hi : i < 12) (k : ℤ)
    (h : 2 * (sc majorScale n + a) = i + 12 * k) (h1 : -3 < a) (h2 : a < 4) :
    octaveOf ((n : ℚ) + a) = -k := by
  obtain ⟨w, hw, hw2⟩ : ∃ w : ℤ, 2 * sc majorScale n = w ∧ w = 2 * n - (if n < 3 then 0 else 1) := by
    refine ⟨2 * n - (if n < 3 then 0 else 1), ?_, rfl⟩
    rw [sc_major n hn]
    split <;> push_cast <;> ring
  have ha : a = ((i + 12 * k - w : ℤ) : ℚ) / 2 := by push_cast; linarith
  have hb1 : -6 < (i : ℤ) + 12 * k - w := by
    have : (-6 : ℚ) < ((i + 12 * k - w : ℤ) : ℚ) := by linarith
    exact_mod_cast this
  have hb2 : (i : ℤ) + 12 * k - w < 8 := by
    have : ((i + 12 * k - w : ℤ) : ℚ) < 8 := by linarith
    exact_mod_cast this
  have c1 : ((n : ℚ) + a > 6) ↔ 12 < 2 * (n : ℤ) + (i + 12 * k - w) := by
    rw [ha]
    constructor
    · intro h
      have : (12 : ℚ) < ((2 * (n : ℤ) + (i + 12 * k - w) : ℤ) : ℚ) := by push_cast at *; linarith
      exact_mod_cast this
    · intro h
      have : (12 : ℚ) < ((2 * (n : ℤ) + (i + 12 * k - w) : ℤ) : ℚ) := by exact_mod_cast h
      push_cast at *; linarith
  have c2 : ((n : ℚ) + a < 0) ↔ 2 * (n : ℤ) + (i + 12 * k - w) < 0 := by
    rw [ha]
    constructor
    · intro h
      have : ((2 * (n : ℤ) + (i + 12 * k - w) : ℤ) : ℚ) < 0 := by push_cast at *; linarith
      exact_mod_cast this
    · intro h
      have : ((2 * (n : ℤ) + (i + 12 * k - w) : ℤ) : ℚ) < 0 := by exact_mod_cast h
      push_cast at *; linarith
  unfold octaveOf
  by_cases hc : ((n : ℚ) + a > 6)
  · rw [if_pos hc]
    rw [c1] at hc
    split at hw2 <;> omega
  · rw [if_neg hc]
    rw [c1] at hc
    by_cases hd : ((n : ℚ) + a < 0)
    · rw [if_pos hd]
      rw [c2] at hd
      split at hw2 <;> omega
    · rw [if_neg hd]
      rw [c2] at hd
      split at hw2 <;> omega

/-! ## Tonics -/

theorem tonicLoop_succ (d : ℤ) (scale : List ℚ) (n : ℕ) (na : ℕ × ℚ) :
    tonicLoop d scale (n + 1) na = tonicStep d scale (tonicLoop d scale n na) := by
  induction n generalizing na with
  | zero => rfl
  | succ n ih => rw [tonicLoop, ih]; rfl

theorem tonic_pos_succ (scale : List ℚ) (n : ℕ) :
    tonic ((n : ℤ) + 1) scale = tonicStep 1 scale (tonic n scale) := by
  have e1 : tonic ((n : ℤ) + 1) scale = tonicLoop 1 scale (n + 1) (0, 0) := by
    unfold tonic
    simp only
    rw [if_pos (by omega)]
    congr 1
    omega
  have e2 : tonic (n : ℤ) scale = tonicLoop 1 scale n (0, 0) := by
    unfold tonic
    simp only
    cases n with
    | zero => simp [tonicLoop]
    | succ n => rw [if_pos (by omega)]; congr 1; omega
  rw [e1, e2, tonicLoop_succ]

theorem tonic_neg_succ (scale : List ℚ) (n : ℕ) :
    tonic (-(n : ℤ) - 1) scale = tonicStep (-1) scale (tonic (-(n : ℤ)) scale) := by
  have e1 : tonic (-(n : ℤ) - 1) scale = tonicLoop (-1) scale (n + 1) (0, 0) := by
    unfold tonic
    simp only
    rw [if_neg (by omega), if_pos (by omega)]
    congr 1
    omega
  have e2 : tonic (-(n : ℤ)) scale = tonicLoop (-1) scale n (0, 0) := by
    unfold tonic
    simp only
    cases n with
    | zero => simp [tonicLoop]
    | succ n => rw [if_neg (by omega), if_pos (by omega)]; congr 1; omega
  rw [e1, e2, tonicLoop_succ]

theorem tonicStep_lt (d : ℤ) (scale : List ℚ) (hs : 0 < scale.length) (na : ℕ × ℚ) :
    (tonicStep d scale na).1 < scale.length := by
  have h0 := Int.emod_nonneg ((na.1 : ℤ) + d * 4) (b := (scale.length : ℤ)) (by omega)
  have h1 := Int.emod_lt_of_pos ((na.1 : ℤ) + d * 4) (b := (scale.length : ℤ)) (by omega)
  simp only [tonicStep]
  omega

/-- One step moves by a fifth: 4 staff steps and 3.5 whole tones, octaves aside. -/
theorem tonicStep_spec (d : ℤ) (scale : List ℚ) (hs : 0 < scale.length) (na : ℕ × ℚ) :
    ∃ k : ℤ, ((tonicStep d scale na).1 : ℤ) + scale.length * k = na.1 + 4 * d ∧
      sc scale (tonicStep d scale na).1 + (tonicStep d scale na).2 + 6 * k =
        sc scale na.1 + na.2 + 7/2 * d := by
  refine ⟨((na.1 : ℤ) + d * 4) / (scale.length : ℤ), ?_, ?_⟩
  · have h0 := Int.emod_nonneg ((na.1 : ℤ) + d * 4) (b := (scale.length : ℤ)) (by omega)
    have h1 := Int.emod_add_mul_ediv ((na.1 : ℤ) + d * 4) (scale.length : ℤ)
    simp only [tonicStep]
    rw [Int.toNat_of_nonneg h0]
    linarith
  · simp only [tonicStep]
    ring

theorem tonic_lt (sf : ℤ) (scale : List ℚ) (hs : 0 < scale.length) : (tonic sf scale).1 < scale.length := by
  rcases lt_or_ge sf 0 with h | h
  · obtain ⟨n, rfl⟩ : ∃ n : ℕ, sf = -(n : ℤ) - 1 := ⟨(-sf - 1).toNat, by omega⟩
    rw [tonic_neg_succ]; exact tonicStep_lt _ _ hs _
  · obtain ⟨n, rfl⟩ : ∃ n : ℕ, sf = n := ⟨sf.toNat, by omega⟩
    cases n with
    | zero => simpa [tonic, tonicLoop] using hs
    | succ n => push_cast; rw [tonic_pos_succ]; exact tonicStep_lt _ _ hs _

/-- The closed form of the tonic in the major scale. -/
theorem tonic_major (sf : ℤ) :
    ((tonic sf majorScale).1 : ℤ) = (4 * sf) % 7 ∧
    (tonic sf majorScale).2 = (((sf + 1) / 7 : ℤ) : ℚ) / 2 := by
  have hl : majorScale.length = 7 := rfl
  have step : ∀ (d : ℤ) (na : ℕ × ℚ) (s : ℤ), (d = 1 ∨ d = -1) →
      ((na.1 : ℤ) = (4 * s) % 7 ∧ na.2 = (((s + 1) / 7 : ℤ) : ℚ) / 2) →
      (((tonicStep d majorScale na).1 : ℤ) = (4 * (s + d)) % 7 ∧
        (tonicStep d majorScale na).2 = (((s + d + 1) / 7 : ℤ) : ℚ) / 2) := by
    intro d na s hd ⟨h1, h2⟩
    have hlt := tonicStep_lt d majorScale (by decide) na
    obtain ⟨k, e1, e2⟩ := tonicStep_spec d majorScale (by decide) na
    rw [hl] at hlt e1
    have hna : na.1 < 7 := by omega
    have f1 := sc_major _ hlt
    have f2 := sc_major _ hna
    generalize hn : (tonicStep d majorScale na).1 = n at *
    generalize (tonicStep d majorScale na).2 = a at *
    have g1 : (n : ℤ) = (4 * (s + d)) % 7 := by omega
    refine ⟨g1, ?_⟩
    have g2 : 2 * a = (((s + 1) / 7 : ℤ) : ℚ) + (2 * na.1 - (if na.1 < 3 then 0 else 1))
        - (2 * n - (if n < 3 then 0 else 1)) + 7 * d - 12 * k := by
      rw [h2] at e2
      linarith
    have g3 : (((s + d + 1) / 7 : ℤ)) = ((s + 1) / 7 : ℤ) + (2 * (na.1 : ℤ) - (if na.1 < 3 then 0 else 1))
        - (2 * (n : ℤ) - (if n < 3 then 0 else 1)) + 7 * d - 12 * k := by
      obtain ⟨q, r, hr0, hr1, rfl⟩ : ∃ q r : ℤ, 0 ≤ r ∧ r < 7 ∧ s = 7 * q + r :=
        ⟨s / 7, s % 7, by omega, by omega, by omega⟩
      rcases hd with rfl | rfl <;> interval_cases r <;> split <;> split <;> omega
    have g4 : (((s + d + 1) / 7 : ℤ) : ℚ) = 2 * a := by
      rw [g2, g3]
      push_cast
      split <;> split <;> push_cast <;> ring
    rw [g4]; ring
  have zero : ((tonic 0 majorScale).1 : ℤ) = (4 * 0) % 7 ∧
      (tonic 0 majorScale).2 = (((0 + 1) / 7 : ℤ) : ℚ) / 2 := by
    simp [tonic, tonicLoop]
  rcases lt_or_ge sf 0 with h | h
  · obtain ⟨n, rfl⟩ : ∃ n : ℕ, sf = -(n : ℤ) := ⟨(-sf).toNat, by omega⟩
    clear h
    induction n with
    | zero => simpa using zero
    | succ n ih =>
      have := step (-1) _ (-(n : ℤ)) (Or.inr rfl) ih
      rw [← tonic_neg_succ] at this
      have e : -((n + 1 : ℕ) : ℤ) = -(n : ℤ) - 1 := by push_cast; ring
      rw [e]
      exact this
  · obtain ⟨n, rfl⟩ : ∃ n : ℕ, sf = n := ⟨sf.toNat, by omega⟩
    clear h
    induction n with
    | zero => simpa using zero
    | succ n ih =>
      have := step 1 _ (n : ℤ) (Or.inl rfl) ih
      rw [← tonic_pos_succ] at this
      push_cast
      exact this

end Quickly.Key
