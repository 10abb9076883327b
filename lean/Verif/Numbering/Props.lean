import Verif.Numbering.Lemmas

/-!
# Properties of `quickly.numbering` (C01, C02, C03)
-/

namespace Quickly.Numbering

/-! ## C01 Roman numerals -/

/-- `int2roman(n)` is the standard Roman numeral of every integer `n ≥ 1`. -/
theorem C01_int2roman_is_standard (n : Nat) (h : 1 ≤ n) :
    int2roman (n : Int) = .ok (Spec.roman n) := by
  unfold int2roman
  rw [if_neg (by omega), romanLoop_eq]

example : int2roman 1994 = .ok ['M','C','M','X','C','I','V'] := by decide
example : int2roman 4888 = .ok "MMMMDCCCLXXXVIII".toList := by decide

/-- Reading the numeral of `n` gives `n`, for every integer `n ≥ 1`. -/
theorem C01_roman_roundtrip (n : Int) (h : 1 ≤ n) (s : List Char) (hs : int2roman n = .ok s) :
    roman2int s = .ok n := by
  obtain ⟨k, rfl⟩ := Int.eq_ofNat_of_zero_le (by omega : 0 ≤ n)
  rw [C01_int2roman_is_standard k (by omega)] at hs
  injection hs with hs
  subst hs
  exact roman2int_spec k

example : ∃ s, int2roman 3999 = .ok s ∧ roman2int s = .ok 3999 := ⟨_, rfl, by decide⟩

/-- `int2roman` returns a value exactly for `n ≥ 1`, and raises ValueError otherwise. -/
theorem C01_int2roman_domain (n : Int) :
    (1 ≤ n → ∃ s, int2roman n = .ok s ∧ s ≠ []) ∧ (n < 1 → int2roman n = .error .valueError) := by
  constructor
  · intro h
    obtain ⟨k, rfl⟩ := Int.eq_ofNat_of_zero_le (by omega : 0 ≤ n)
    refine ⟨_, C01_int2roman_is_standard k (by omega), ?_⟩
    intro he
    have := roman2int_spec k
    rw [he] at this
    have h0 : roman2int [] = .ok 0 := by decide
    rw [h0] at this
    injection this with this
    omega
  · intro h; simp [int2roman, h]

/-- Different numbers have different numerals. -/
theorem C01_int2roman_injective (m n : Int) (s : List Char)
    (hm : int2roman m = .ok s) (hn : int2roman n = .ok s) : m = n := by
  have pos : ∀ k : Int, int2roman k = .ok s → 1 ≤ k := by
    intro k hk
    by_cases h : k < 1
    · rw [(C01_int2roman_domain k).2 h] at hk; cases hk
    · omega
  have h1 := C01_roman_roundtrip m (pos m hm) s hm
  have h2 := C01_roman_roundtrip n (pos n hn) s hn
  rw [h1] at h2
  injection h2

/-- `roman2int` gives a number exactly for strings of Roman letters (in either
case), and raises KeyError for every other string. -/
theorem C01_roman2int_domain (s : List Char) :
    ((∀ c ∈ s, c.toUpper ∈ ['I', 'V', 'X', 'L', 'C', 'D', 'M']) → ∃ n, roman2int s = .ok n) ∧
    ((∃ c ∈ s, c.toUpper ∉ ['I', 'V', 'X', 'L', 'C', 'D', 'M']) → roman2int s = .error .keyError) := by
  have hv : ∀ c : Char, romanValue c ≠ none ↔ c ∈ ['I', 'V', 'X', 'L', 'C', 'D', 'M'] := by
    intro c
    unfold romanValue
    split <;> simp_all
  have hok := roman2intLoop_ok_iff (s.map Char.toUpper).reverse (0, 0)
  constructor
  · intro h
    obtain ⟨r, hr⟩ := hok.mpr (by
      intro c hc
      rw [hv]
      simp only [List.mem_reverse, List.mem_map] at hc
      obtain ⟨c', hc', rfl⟩ := hc
      exact h c' hc')
    exact ⟨r.1, by unfold roman2int; rw [hr]⟩
  · rintro ⟨c, hc, hn⟩
    cases hr : roman2intLoop (s.map Char.toUpper).reverse (0, 0) with
    | ok r =>
      have := hok.mp ⟨r, hr⟩ c.toUpper (by simp only [List.mem_reverse, List.mem_map]; exact ⟨c, hc, rfl⟩)
      exact absurd ((hv _).mp this) hn
    | error e =>
      have := roman2intLoop_error _ _ _ hr
      subst this
      unfold roman2int; rw [hr]

example : roman2int "xiv".toList = .ok 14 := by decide
example : roman2int "XQ".toList = .error .keyError := by decide

/-! ## C02 letters -/

/-- For an alphabet without repetitions every `n ≥ 0` has a name, which reads back as `n`. -/
theorem C02_letter_roundtrip {α : Type} [DecidableEq α] (chars : List α) (nd : chars.Nodup)
    (hne : chars ≠ []) (n : Int) (hn : 0 ≤ n) :
    ∃ s, int2letter n chars = .ok s ∧ letter2int s chars = .ok n := by
  obtain ⟨k, rfl⟩ := Int.eq_ofNat_of_zero_le hn
  have hm : 0 < chars.length := List.length_pos_iff.mpr hne
  obtain ⟨s, h1, h2⟩ := roundtrip_letters chars nd hm k
  exact ⟨s, by rw [int2letter_nat k chars hm, h1], h2⟩

example : int2letter 703 "ABCDEFGHIJKLMNOPQRSTUVWXYZ".toList = .ok ['A','A','A'] := by
  simp [int2letter, letterLoop, pick]
example : ("ABCDEFGHIJKLMNOPQRSTUVWXYZ".toList).Nodup := by decide

/-- Every word over the alphabet is the name of exactly the number it reads as. -/
theorem C02_word_roundtrip {α : Type} [DecidableEq α] (chars : List α)
    (s : List α) (hs : ∀ c ∈ s, c ∈ chars) :
    ∃ n : Int, 0 ≤ n ∧ letter2int s chars = .ok n ∧ int2letter n chars = .ok s := by
  obtain ⟨n, h1, h2⟩ := letters_roundtrip_back chars s hs
  refine ⟨n, by omega, h1, ?_⟩
  by_cases hm : 0 < chars.length
  · rw [int2letter_nat n chars hm, h2]
  · have : chars = [] := List.eq_nil_of_length_eq_zero (by omega)
    subst this
    have hs' : s = [] := List.eq_nil_iff_forall_not_mem.mpr (fun c hc => by simpa using hs c hc)
    subst hs'
    simp [letter2intLoop] at h1
    have : n = 0 := by omega
    subst this
    simp [int2letter, letterLoop, pick]

example : letter2int ['B','A','B'] ['A','B'] = .ok 12 ∧ int2letter 12 ['A','B'] = .ok ['B','A','B'] := by
  constructor
  · decide
  · simp [int2letter, letterLoop, pick]

/-- The name is empty exactly for numbers that are not positive. -/
theorem C02_empty_iff {α : Type} [DecidableEq α] (chars : List α) (nd : chars.Nodup)
    (hne : chars ≠ []) (n : Int) :
    int2letter n chars = .ok [] ↔ n ≤ 0 := by
  constructor
  · intro h
    by_cases hn : 0 ≤ n
    · obtain ⟨s, h1, h2⟩ := C02_letter_roundtrip chars nd hne n hn
      rw [h] at h1
      injection h1 with h1
      subst h1
      simp [letter2int, letter2intLoop] at h2
      omega
    · omega
  · intro h
    have hm : ¬ (chars.length = 0 ∧ 0 < n) := by omega
    have h0 : n.toNat = 0 := by omega
    unfold int2letter
    rw [if_neg hm, h0]
    simp [letterLoop, pick]

/-- `letter2int` raises ValueError exactly when a character is not in the alphabet. -/
theorem C02_letter2int_domain {α : Type} [DecidableEq α] (chars s : List α) :
    letter2int s chars = .error .valueError ↔ ∃ c ∈ s, c ∉ chars := by
  have h := letter2intLoop_mem chars s 0
  constructor
  · intro he
    apply Classical.byContradiction
    intro hc
    obtain ⟨v, hv⟩ := h.mpr (fun c hc' => Classical.byContradiction (fun hn => hc ⟨c, hc', hn⟩))
    unfold letter2int at he
    rw [he] at hv
    cases hv
  · rintro ⟨c, hc, hn⟩
    unfold letter2int
    cases hl : letter2intLoop chars s 0 with
    | ok v => exact absurd (h.mp ⟨v, hl⟩ c hc) hn
    | error e => rw [letter2intLoop_error _ _ _ _ hl]

example : letter2int ['A','x'] ['A','B'] = .error .valueError := by decide

/-- With an empty alphabet every positive number raises ZeroDivisionError. -/
theorem C02_empty_alphabet {α : Type} (n : Int) (h : 0 < n) :
    int2letter n ([] : List α) = .error .zeroDivisionError := by
  simp [int2letter, h]

/-- Shorter words name smaller numbers: the sequence is A..Z, AA, AB, ... -/
theorem C02_shorter_is_smaller {α : Type} [DecidableEq α] (chars : List α) (nd : chars.Nodup)
    (hne : chars ≠ []) (m n : Int) (hm : 0 ≤ m) (hmn : m < n) (s t : List α)
    (hs : int2letter m chars = .ok s) (ht : int2letter n chars = .ok t) : s.length ≤ t.length := by
  obtain ⟨k, rfl⟩ := Int.eq_ofNat_of_zero_le hm
  obtain ⟨l, rfl⟩ := Int.eq_ofNat_of_zero_le (by omega : 0 ≤ n)
  have hp : 0 < chars.length := List.length_pos_iff.mpr hne
  rw [int2letter_nat _ _ hp] at hs ht
  have len : ∀ ds : List Nat, ∀ xs, pick chars ds = .ok xs → xs.length = ds.length := by
    intro ds
    induction ds with
    | nil => intro xs h; simp [pick] at h; simp [h]
    | cons d ds ih =>
      intro xs h
      simp only [pick] at h
      split at h
      · cases h
      · split at h
        · rename_i r hr; injection h with h; subst h; simp [ih _ hr]
        · cases h
  rw [len _ _ hs, len _ _ ht, List.length_reverse, List.length_reverse]
  have mono : ∀ k l, k ≤ l → (letterLoop chars.length k).length ≤ (letterLoop chars.length l).length := by
    intro k
    induction k using Nat.strongRecOn with
    | _ k ih =>
      intro l h
      cases k with
      | zero => simp [letterLoop]
      | succ k =>
        cases l with
        | zero => omega
        | succ l =>
          simp only [letterLoop_succ, List.length_cons]
          have := ih (k / chars.length) (Nat.lt_succ_of_le (Nat.div_le_self _ _)) (l / chars.length)
            (Nat.div_le_div_right (by omega))
          omega
  exact mono k l (by omega)

/-! ## C03 English names -/

theorem int2text_zero : int2text 0 = .ok "Zero".toList := by
  rw [int2text, int2words_small _ (by omega)]; decide

/-- For every `n ≥ 0` (not only up to the documented 999999999) `int2text(n)` is
the concatenation of words from the tables that read as `n`, or "Zero". -/
theorem C03_int2text_denotes (n : Nat) :
    ∃ ws : List Word, Spec.reading ws = n ∧
      ((n = 0 ∧ int2text n = .ok "Zero".toList) ∨
       (n ≠ 0 ∧ ∃ r, joinWords ws = .ok r ∧ int2text n = .ok r)) := by
  refine ⟨int2words n, reading_int2words n, ?_⟩
  obtain ⟨r, hr, hc⟩ := joinWords_ok _ (int2words_ok n)
  by_cases h0 : n = 0
  · subst h0; left; exact ⟨rfl, int2text_zero⟩
  · right
    refine ⟨h0, r, hr, ?_⟩
    unfold int2text
    rw [hr]
    rcases hc with ⟨_, hc⟩ | ⟨c, cs, rfl, _⟩
    · exfalso
      apply h0
      have := reading_int2words n
      rw [hc] at this
      exact this.symm
    · rfl

example : int2text 21 = .ok "TwentyOne".toList := by
  rw [int2text, int2words_small _ (by omega)]; decide
example : Spec.reading [.to19 1, .hundred, .tens 0, .to19 3, .thousand, .to19 7] = 123007 := by decide

/-- Distinct numbers have distinct names. -/
theorem C03_int2text_injective (m n : Nat) (s : List Char)
    (hm : int2text m = .ok s) (hn : int2text n = .ok s) : m = n := by
  have key : ∀ k, int2text k = .ok s →
      joinWords (int2words k) = .ok s ∧ k ≠ 0 ∨ k = 0 ∧ s = "Zero".toList := by
    intro k hk
    by_cases h0 : k = 0
    · subst h0
      right
      have := int2text_zero
      rw [this] at hk; injection hk with hk
      exact ⟨rfl, hk.symm⟩
    · left
      obtain ⟨r, hr, hc⟩ := joinWords_ok _ (int2words_ok k)
      unfold int2text at hk
      rw [hr] at hk
      rcases hc with ⟨_, hc⟩ | ⟨c, cs, rfl, _⟩
      · exfalso; apply h0
        have := reading_int2words k
        rw [hc] at this; exact this.symm
      · exact ⟨by rw [hr]; exact hk, h0⟩
  have zero : ∀ k, k ≠ 0 → joinWords (int2words k) ≠ .ok "Zero".toList := by
    intro k hk hj
    have hz : joinWords [Word.to19 0] = .ok "Zero".toList := by decide
    have := joinWords_injective _ _ (int2words_ok k) (by simp [Word.ok]) _ hj hz
    have hr := reading_int2words k
    rw [this] at hr
    exact hk hr.symm
  rcases key m hm with ⟨h1, h1'⟩ | ⟨h1, h1'⟩ <;> rcases key n hn with ⟨h2, h2'⟩ | ⟨h2, h2'⟩
  · have := joinWords_injective _ _ (int2words_ok m) (int2words_ok n) _ h1 h2
    rw [← reading_int2words m, this, reading_int2words]
  · subst h2'; exact absurd h1 (zero m h1')
  · subst h1'; exact absurd h2 (zero n h2')
  · rw [h1, h2]

/-- `int2text` never raises for `n ≥ 0` and never returns an empty text. -/
theorem C03_int2text_total (n : Nat) : ∃ r, int2text n = .ok r ∧ r ≠ [] := by
  obtain ⟨r, hr, hc⟩ := joinWords_ok _ (int2words_ok n)
  unfold int2text
  rw [hr]
  rcases hc with ⟨rfl, _⟩ | ⟨c, cs, rfl, _⟩
  · exact ⟨_, rfl, by decide⟩
  · exact ⟨_, rfl, by simp⟩

/-- The words stay in the grammar that English uses below a billion: at most one
"million" and one "thousand", each after a number below a thousand. -/
theorem C03_int2text_shape (n : Nat) (h : n < 1000000000) :
    int2words n =
      (if n ≥ 1000000 then smallWords (n / 1000000) ++ [Word.million] else []) ++
      (if n % 1000000 ≥ 1000 then smallWords (n % 1000000 / 1000) ++ [Word.thousand] else []) ++
      smallWords (n % 1000) := by
  have low : ∀ m, m < 1000000 → int2words m =
      (if m ≥ 1000 then smallWords (m / 1000) ++ [Word.thousand] else []) ++ smallWords (m % 1000) := by
    intro m hm
    by_cases h2 : m ≥ 1000
    · rw [int2words_mid m hm h2]; simp [h2]
    · rw [int2words_small m (by omega)]
      have : m % 1000 = m := by omega
      simp [h2, this]
  by_cases h1 : n ≥ 1000000
  · rw [int2words_big n h1, int2words_small (n / 1000000) (by omega),
      low (n % 1000000) (Nat.mod_lt _ (by decide))]
    have : n % 1000000 % 1000 = n % 1000 := by omega
    simp only [h1, if_true, this, List.append_assoc]
  · have : n % 1000000 = n := by omega
    rw [low n (by omega), this]
    simp [h1]

end Quickly.Numbering
