import Verif.Scheme.Spec
import Verif.Text.Props
import Mathlib.Tactic.Ring
import Mathlib.Data.Nat.Digits.Lemmas

/-! # Lemmas for Scheme numbers -/

namespace Quickly.Scheme

open Spec

theorem digit_digitChar (d : ℕ) (h : d < 16) : digit (digitChar d) = some d := by
  have : ∀ d < 16, digit (digitChar d) = some d := by decide
  exact this d h

theorem digits_append (b acc : ℕ) (s t : Str) : digits b acc (s ++ t) = (digits b acc s).bind fun x => digits b x t := by
  induction s generalizing acc with
  | nil => rfl
  | cons c s ih =>
    simp only [List.cons_append, digits]
    cases digit c with
    | none => rfl
    | some d =>
      simp only
      split_ifs
      · exact ih _
      · rfl

theorem digits_reverse (b acc : ℕ) (l : List ℕ) (hb : b ≤ 16) (h : ∀ d ∈ l, d < b) :
    digits b acc (l.reverse.map digitChar) = some (b ^ l.length * acc + Nat.ofDigits b l) := by
  induction l with
  | nil => simp [digits]
  | cons d l ih =>
    have hd := h d (by simp)
    rw [List.reverse_cons, List.map_append, digits_append, ih (fun x hx => h x (by simp [hx]))]
    simp only [Option.bind_some, List.map_cons, List.map_nil, digits, digit_digitChar d (by omega), if_pos hd,
      Nat.ofDigits_cons, List.length_cons, Option.some.injEq]
    ring

theorem base_le (r : Radix) : 2 ≤ r.base ∧ r.base ≤ 16 := by cases r <;> decide

theorem natural_fmtNat (r : Radix) (n : ℕ) : natural r.base (fmtNat r n) = some n := by
  have hb := base_le r
  unfold fmtNat natural
  by_cases hn : n = 0
  · subst hn
    simp only [if_true]
    have : digit '0' = some 0 := rfl
    simp only [List.cons_ne_nil, if_false, digits, this, if_pos (show 0 < r.base by omega)]
    simp
  · rw [if_neg hn]
    have hne : (Nat.digits r.base n).reverse.map digitChar ≠ [] := by
      simp [Nat.digits_ne_nil_iff_ne_zero, hn]
    rw [if_neg hne, digits_reverse _ _ _ hb.2 (fun d hd => Nat.digits_lt_base (by omega) hd), Nat.ofDigits_digits]
    simp

/-- The characters of numbers. -/
def numChars : List Char := ['0', '1', '2', '3', '4', '5', '6', '7', '8', '9', 'a', 'b', 'c', 'd', 'e', 'f']

theorem digitChar_mem (d : ℕ) : digitChar d ∈ numChars := by
  by_cases h : d < 16
  · have : ∀ d < 16, digitChar d ∈ numChars := by decide
    exact this d h
  · obtain ⟨k, rfl⟩ : ∃ k, d = k + 15 := ⟨d - 15, by omega⟩
    simp [digitChar, numChars]

theorem fmtNat_chars (r : Radix) (n : ℕ) : fmtNat r n ≠ [] ∧ ∀ c ∈ fmtNat r n, c ∈ numChars := by
  unfold fmtNat
  split_ifs with hn
  · exact ⟨by simp, by simp [numChars]⟩
  · refine ⟨by simp [Nat.digits_ne_nil_iff_ne_zero, hn], ?_⟩
    intro c hc
    obtain ⟨d, -, rfl⟩ := List.mem_map.1 hc
    exact digitChar_mem d

theorem takeWhile_all {α : Type} (p : α → Bool) (l m : List α) (h : ∀ x ∈ l, p x = true)
    (hm : m.head?.all (fun x => !p x) = true) : (l ++ m).takeWhile p = l ∧ (l ++ m).dropWhile p = m := by
  induction l with
  | nil =>
    cases m with
    | nil => simp
    | cons x m => simp at hm; simp [hm]
  | cons x l ih =>
    have := ih (fun y hy => h y (by simp [hy]))
    simp [h x (by simp), this]

theorem ureal_natural (r : Radix) (n : ℕ) : ureal r.base (fmtNat r n) = some (n : ℚ) := by
  have hc := (fmtNat_chars r n).2
  have h : (fmtNat r n).dropWhile (fun c => decide (c ≠ '/')) = [] := by
    have := (takeWhile_all (fun c => decide (c ≠ '/')) (fmtNat r n) [] (by
      intro c hc'
      have := hc c hc'
      simp only [decide_eq_true_eq]
      rintro rfl
      exact absurd this (by decide)) (by simp)).2
    rwa [List.append_nil] at this
  unfold ureal
  rw [h, natural_fmtNat]
  rfl

theorem ureal_frac (r : Radix) (n d : ℕ) (hd : d ≠ 0) :
    ureal r.base (fmtNat r n ++ ['/'] ++ fmtNat r d) = some ((n : ℚ) / d) := by
  have hc := (fmtNat_chars r n).2
  have h := takeWhile_all (fun c => decide (c ≠ '/')) (fmtNat r n) ('/' :: fmtNat r d)
    (by
      intro c hc'
      have := hc c hc'
      simp only [decide_eq_true_eq]
      rintro rfl
      exact absurd this (by decide)) (by simp)
  unfold ureal
  rw [show fmtNat r n ++ ['/'] ++ fmtNat r d = fmtNat r n ++ '/' :: fmtNat r d by simp, h.2]
  simp only [h.1, natural_fmtNat, if_neg hd]

theorem sreal_plain (b : ℕ) (s : Str) (h : ∃ c s', s = c :: s' ∧ c ∈ numChars) : sreal b s = ureal b s := by
  obtain ⟨c, s', rfl, hc⟩ := h
  unfold sreal
  split
  · rename_i h; cases h; exact absurd hc (by decide)
  · rename_i h; cases h; exact absurd hc (by decide)
  · rfl

theorem fmtNat_first (r : Radix) (n : ℕ) (t : Str) : ∃ c s', fmtNat r n ++ t = c :: s' ∧ c ∈ numChars := by
  obtain ⟨h1, h2⟩ := fmtNat_chars r n
  cases hf : fmtNat r n with
  | nil => exact absurd hf h1
  | cons c s => exact ⟨c, s ++ t, rfl, h2 c (by simp [hf])⟩

theorem sreal_fmt (r : Radix) (n : ℤ) : sreal r.base (fmt r n) = some (n : ℚ) := by
  unfold fmt
  split_ifs with h
  · simp only [sreal, ureal_natural, Option.map_some]
    congr 1
    have : (n.natAbs : ℤ) = -n := by omega
    rw [← Int.cast_natCast, this]
    simp
  · rw [sreal_plain _ _ (by simpa using fmtNat_first r n.natAbs []), ureal_natural]
    congr 1
    have : (n.natAbs : ℤ) = n := by omega
    rw [← Int.cast_natCast, this]

theorem sreal_fmt_frac (r : Radix) (n : ℤ) (d : ℕ) (hd : d ≠ 0) :
    sreal r.base (fmt r n ++ ['/'] ++ fmt r d) = some ((n : ℚ) / d) := by
  have hfd : fmt r d = fmtNat r d := by simp [fmt]
  rw [hfd]
  unfold fmt
  split_ifs with h
  · rw [show '-' :: fmtNat r n.natAbs ++ ['/'] ++ fmtNat r d = '-' :: (fmtNat r n.natAbs ++ ['/'] ++ fmtNat r d) by simp]
    simp only [sreal, ureal_frac r _ d hd, Option.map_some]
    congr 1
    have : (n.natAbs : ℤ) = -n := by omega
    rw [← Int.cast_natCast n.natAbs, this]
    push_cast
    ring
  · rw [sreal_plain _ _ (by rw [List.append_assoc]; exact fmtNat_first r n.natAbs _), ureal_frac r _ d hd]
    congr 1
    have : (n.natAbs : ℤ) = n := by omega
    rw [← Int.cast_natCast n.natAbs, this]

theorem number_prefix (r : Radix) (s : Str) (h : ∃ c s', s = c :: s' ∧ c ≠ '#') : number (r.pfx ++ s) = sreal r.base s := by
  obtain ⟨c, s', rfl, hc⟩ := h
  cases r
  · rfl
  · rfl
  · simp only [Radix.pfx, List.nil_append]
    unfold number
    split
    · rename_i h; cases h; exact absurd rfl hc
    · rename_i h; cases h; exact absurd rfl hc
    · rename_i h; cases h; exact absurd rfl hc
    · rename_i h; cases h; exact absurd rfl hc
    · rfl
  · rfl

theorem fmt_first (r : Radix) (n : ℤ) (t : Str) : ∃ c s', fmt r n ++ t = c :: s' ∧ c ∈ '-' :: numChars := by
  unfold fmt
  split_ifs
  · exact ⟨'-', _, rfl, by simp⟩
  · obtain ⟨c, s, h1, h2⟩ := fmtNat_first r n.natAbs t
    exact ⟨c, s, h1, by simp [h2]⟩

theorem fmt_chars (r : Radix) (n : ℤ) : ∀ c ∈ fmt r n, c ∈ '-' :: numChars := by
  unfold fmt
  intro c hc
  split_ifs at hc
  · rcases List.mem_cons.1 hc with rfl | hc
    · simp
    · exact List.mem_cons_of_mem _ ((fmtNat_chars r _).2 c hc)
  · exact List.mem_cons_of_mem _ ((fmtNat_chars r _).2 c hc)

/-- The text of a whole number or a fraction. -/
def exact (r : Radix) (q : ℚ) : Str := if q.den ≠ 1 then fmt r q.num ++ ['/'] ++ fmt r q.den else fmt r q.num

theorem exact_first (r : Radix) (q : ℚ) : ∃ c s', exact r q = c :: s' ∧ c ∈ '-' :: numChars := by
  unfold exact
  split_ifs
  · rw [List.append_assoc]; exact fmt_first r q.num _
  · simpa using fmt_first r q.num []

theorem exact_chars (r : Radix) (q : ℚ) : ∀ c ∈ exact r q, c ∈ '/' :: '-' :: numChars := by
  unfold exact
  intro c hc
  split_ifs at hc
  · simp only [List.mem_append, List.mem_singleton] at hc
    rcases hc with (hc | rfl) | hc
    · exact List.mem_cons_of_mem _ (fmt_chars r _ c hc)
    · simp
    · exact List.mem_cons_of_mem _ (fmt_chars r _ c hc)
  · exact List.mem_cons_of_mem _ (fmt_chars r _ c hc)

theorem number_exact (r : Radix) (q : ℚ) : number (r.pfx ++ exact r q) = some q := by
  rw [number_prefix r _ (by
    obtain ⟨c, s, h1, h2⟩ := exact_first r q
    exact ⟨c, s, h1, by rintro rfl; exact absurd h2 (by decide)⟩)]
  unfold exact
  split_ifs with h
  · rw [sreal_fmt_frac r _ _ q.den_nz, Rat.num_div_den]
  · rw [sreal_fmt]
    congr 1
    simp only [ne_eq, not_not] at h
    exact (Rat.den_eq_one_iff q).1 h

end Quickly.Scheme
