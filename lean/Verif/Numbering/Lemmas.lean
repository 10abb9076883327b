import Verif.Numbering.Spec

/-! # Helper lemmas for numbering -/

namespace Quickly.Numbering

/-! ## Roman -/

/-- The three lower digits of the standard numeral. -/
def romanLow (r : Nat) : List Char :=
  Spec.romanDigit 'C' 'D' 'M' (r / 100 % 10) ++
    Spec.romanDigit 'X' 'L' 'C' (r / 10 % 10) ++ Spec.romanDigit 'I' 'V' 'X' (r % 10)

theorem romanLoop_low_fin : ∀ r : Fin 1000,
    romanLoop romanNumerals.tail (r.val : Int) = romanLow r.val := by
  decide +kernel

theorem romanLoop_low (r : Nat) (h : r < 1000) :
    romanLoop romanNumerals.tail (r : Int) = romanLow r :=
  romanLoop_low_fin ⟨r, h⟩

theorem flatten_replicate_singleton {α : Type} (k : Nat) (c : α) :
    (List.replicate k [c]).flatten = List.replicate k c := by
  induction k with
  | zero => rfl
  | succ k ih => simp [List.replicate_succ, ih]

theorem romanLoop_eq (n : Nat) : romanLoop romanNumerals (n : Int) = Spec.roman n := by
  have h : romanLoop romanNumerals (n : Int) =
      (List.replicate ((n : Int) / 1000).toNat ['M']).flatten ++
        romanLoop romanNumerals.tail ((n : Int) % 1000) := rfl
  have e1 : ((n : Int) / 1000).toNat = n / 1000 := by omega
  have e2 : (n : Int) % 1000 = ((n % 1000 : Nat) : Int) := by omega
  rw [h, e1, e2, romanLoop_low _ (Nat.mod_lt _ (by decide)), flatten_replicate_singleton]
  unfold romanLow Spec.roman
  have d1 : n % 1000 / 100 % 10 = n / 100 % 10 := by omega
  have d2 : n % 1000 / 10 % 10 = n / 10 % 10 := by omega
  have d3 : n % 1000 % 10 = n % 10 := by omega
  rw [d1, d2, d3]
  simp

/-- Loop state after the lower digits: the value, and a `prev` of at most 1000. -/
def lowOk (r : Int) : Py (Int × Int) → Bool
  | .ok (n, p) => decide (n = r) && decide (p ≤ 1000)
  | .error _ => false

theorem roman2int_low_fin : ∀ r : Fin 1000,
    lowOk (r.val : Int) (roman2intLoop ((romanLow r.val).map Char.toUpper).reverse (0, 0)) = true := by
  decide +kernel

theorem roman2intLoop_M (k : Nat) (num prev : Int) (h : prev ≤ 1000) :
    ∃ p, roman2intLoop (List.replicate k 'M') (num, prev) = .ok (num + 1000 * k, p) := by
  induction k generalizing num prev with
  | zero => exact ⟨prev, by simp [roman2intLoop]⟩
  | succ k ih =>
    obtain ⟨p, hp⟩ := ih (num + 1000) 1000 (Int.le_refl _)
    refine ⟨p, ?_⟩
    have hv : romanValue 'M' = some 1000 := rfl
    rw [List.replicate_succ, roman2intLoop, hv]
    have : ¬ ((1000 : Int) < prev) := by omega
    simp only [this, if_false]
    rw [hp]
    congr 2
    push_cast
    omega

theorem roman2intLoop_append (a b : List Char) (st : Int × Int) :
    roman2intLoop (a ++ b) st =
      (match roman2intLoop a st with
       | .ok st' => roman2intLoop b st'
       | .error e => .error e) := by
  induction a generalizing st with
  | nil => simp [roman2intLoop]
  | cons c cs ih =>
    obtain ⟨num, prev⟩ := st
    simp only [List.cons_append, roman2intLoop]
    cases romanValue c with
    | none => rfl
    | some v => by_cases h : v < prev <;> simp [h, ih]

theorem roman2int_spec (n : Nat) : roman2int (Spec.roman n) = .ok (n : Int) := by
  have hs : Spec.roman n = List.replicate (n / 1000) 'M' ++ romanLow (n % 1000) := by
    unfold romanLow Spec.roman
    have d1 : n % 1000 / 100 % 10 = n / 100 % 10 := by omega
    have d2 : n % 1000 / 10 % 10 = n / 10 % 10 := by omega
    have d3 : n % 1000 % 10 = n % 10 := by omega
    rw [d1, d2, d3]
    simp
  have hM : Char.toUpper 'M' = 'M' := by decide
  unfold roman2int
  rw [hs, List.map_append, List.reverse_append, roman2intLoop_append]
  have hl := roman2int_low_fin ⟨n % 1000, Nat.mod_lt _ (by decide)⟩
  dsimp only at hl
  revert hl
  generalize roman2intLoop ((romanLow (n % 1000)).map Char.toUpper).reverse (0, 0) = r
  intro hl
  match r with
  | .error _ => simp [lowOk] at hl
  | .ok (m, p) =>
    simp only [lowOk, Bool.and_eq_true, decide_eq_true_eq] at hl
    obtain ⟨h1, h2⟩ := hl
    obtain ⟨q, hq⟩ := roman2intLoop_M (n / 1000) m p h2
    simp only [List.map_replicate, List.reverse_replicate, hM, hq]
    congr 1
    omega

theorem roman2intLoop_ok_iff (s : List Char) (st : Int × Int) :
    (∃ r, roman2intLoop s st = .ok r) ↔ ∀ c ∈ s, romanValue c ≠ none := by
  induction s generalizing st with
  | nil => simp [roman2intLoop]
  | cons c cs ih =>
    obtain ⟨num, prev⟩ := st
    simp only [roman2intLoop]
    cases hv : romanValue c with
    | none => simp [hv]
    | some v => by_cases h : v < prev <;> simp [h, ih, hv]

theorem roman2intLoop_error (s : List Char) (st : Int × Int) (e : PyErr)
    (h : roman2intLoop s st = .error e) : e = .keyError := by
  induction s generalizing st with
  | nil => simp [roman2intLoop] at h
  | cons c cs ih =>
    obtain ⟨num, prev⟩ := st
    simp only [roman2intLoop] at h
    split at h
    · injection h with h; exact h.symm
    · split at h <;> exact ih _ h

/-! ## Letters -/

theorem index_getElem {α : Type} [DecidableEq α] (chars : List α) (nd : chars.Nodup)
    (i : Nat) (x : α) (h : chars[i]? = some x) : index x chars = .ok i := by
  induction chars generalizing i with
  | nil => simp at h
  | cons y ys ih =>
    cases i with
    | zero => simp at h; simp [index, h]
    | succ i =>
      simp at h
      have hm : x ∈ ys := List.mem_of_getElem? h
      have hne : y ≠ x := fun e => (List.nodup_cons.mp nd).1 (e ▸ hm)
      simp [index, hne, ih (List.nodup_cons.mp nd).2 i h]

theorem index_ok {α : Type} [DecidableEq α] (chars : List α) (x : α) (i : Nat)
    (h : index x chars = .ok i) : chars[i]? = some x := by
  induction chars generalizing i with
  | nil => simp [index] at h
  | cons y ys ih =>
    simp only [index] at h
    split at h
    · injection h with h; subst h; simp_all
    · split at h
      · rename_i j hj
        injection h with h; subst h; simp [ih j hj]
      · cases h

theorem index_error_iff {α : Type} [DecidableEq α] (chars : List α) (x : α) :
    index x chars = .error .valueError ↔ x ∉ chars := by
  induction chars with
  | nil => simp [index]
  | cons y ys ih =>
    simp only [index]
    by_cases h : y = x
    · simp [h]
    · simp only [if_neg h, List.mem_cons, not_or, ← ih]
      constructor
      · intro hh
        refine ⟨fun e => h e.symm, ?_⟩
        split at hh
        · cases hh
        · rename_i e he; rw [he]; exact hh
      · rintro ⟨_, hh⟩; rw [hh]

theorem index_error {α : Type} [DecidableEq α] (chars : List α) (x : α) (e : PyErr)
    (h : index x chars = .error e) : e = .valueError := by
  induction chars with
  | nil => simp [index] at h; exact h.symm
  | cons y ys ih =>
    simp only [index] at h
    split at h
    · cases h
    · split at h
      · cases h
      · rename_i e' he
        injection h with h; subst h; exact ih he

/-- The digits picked as a list of alphabet members: value of the loop. -/
theorem letter2intLoop_append {α : Type} [DecidableEq α] (chars : List α) (a b : List α) (r : Int) :
    letter2intLoop chars (a ++ b) r =
      (match letter2intLoop chars a r with
       | .ok r' => letter2intLoop chars b r'
       | .error e => .error e) := by
  induction a generalizing r with
  | nil => simp [letter2intLoop]
  | cons c cs ih =>
    simp only [List.cons_append, letter2intLoop]
    cases index c chars with
    | error e => rfl
    | ok i => simp [ih]

theorem pick_append {α : Type} (chars : List α) (a b : List Nat) :
    pick chars (a ++ b) =
      (match pick chars a, pick chars b with
       | .ok x, .ok y => .ok (x ++ y)
       | .error e, _ => .error e
       | .ok _, .error e => .error e) := by
  induction a with
  | nil => simp [pick]; cases pick chars b <;> rfl
  | cons d ds ih =>
    simp only [List.cons_append, pick]
    cases chars[d]? with
    | none => rfl
    | some x =>
      simp only [ih]
      cases pick chars ds <;> cases pick chars b <;> rfl

theorem letterLoop_succ (mod n : Nat) :
    letterLoop mod (n + 1) = (n % mod) :: letterLoop mod (n / mod) := by
  rw [letterLoop]

theorem letterLoop_lt (mod : Nat) (hm : 0 < mod) (n : Nat) : ∀ d ∈ letterLoop mod n, d < mod := by
  induction n using Nat.strongRecOn with
  | _ n ih =>
    cases n with
    | zero => simp [letterLoop]
    | succ n =>
      rw [letterLoop_succ]
      intro d hd
      rcases List.mem_cons.mp hd with h | h
      · subst h; exact Nat.mod_lt _ hm
      · exact ih (n / mod) (Nat.lt_succ_of_le (Nat.div_le_self _ _)) d h

theorem int2letter_nat {α : Type} (n : Nat) (chars : List α) (h : 0 < chars.length) :
    int2letter (n : Int) chars = pick chars (letterLoop chars.length n).reverse := by
  unfold int2letter
  have : ¬ (chars.length = 0 ∧ 0 < (n : Int)) := by omega
  rw [if_neg this]; rfl

theorem roundtrip_letters {α : Type} [DecidableEq α] (chars : List α) (nd : chars.Nodup)
    (hm : 0 < chars.length) (n : Nat) :
    ∃ s, pick chars (letterLoop chars.length n).reverse = .ok s ∧
      letter2intLoop chars s 0 = .ok (n : Int) := by
  induction n using Nat.strongRecOn with
  | _ n ih =>
    cases n with
    | zero => exact ⟨[], by simp [letterLoop, pick], by simp [letter2intLoop]⟩
    | succ n =>
      obtain ⟨s, h1, h2⟩ := ih (n / chars.length) (Nat.lt_succ_of_le (Nat.div_le_self _ _))
      have hd : n % chars.length < chars.length := Nat.mod_lt _ hm
      refine ⟨s ++ [chars[n % chars.length]], ?_, ?_⟩
      · rw [letterLoop_succ, List.reverse_cons, pick_append, h1]
        simp [pick, List.getElem?_eq_getElem hd]
      · rw [letter2intLoop_append, h2]
        have hi := index_getElem chars nd _ _ (List.getElem?_eq_getElem hd)
        simp only [letter2intLoop, hi]
        congr 1
        have hdm := Nat.div_add_mod n chars.length
        have : ((n / chars.length : Nat) : Int) * (chars.length : Int) =
            ((chars.length * (n / chars.length) : Nat) : Int) := by
          push_cast; rw [Int.mul_comm]
        rw [this]
        omega

theorem letter2intLoop_mem {α : Type} [DecidableEq α] (chars s : List α) (r : Int) :
    (∃ v, letter2intLoop chars s r = .ok v) ↔ ∀ c ∈ s, c ∈ chars := by
  induction s generalizing r with
  | nil => simp [letter2intLoop]
  | cons c cs ih =>
    simp only [letter2intLoop]
    cases hi : index c chars with
    | error e =>
      have := index_error _ _ _ hi; subst this
      have := (index_error_iff chars c).mp hi
      simp [this]
    | ok i =>
      have := List.mem_of_getElem? (index_ok _ _ _ hi)
      simp [ih, this]

theorem letter2intLoop_error {α : Type} [DecidableEq α] (chars s : List α) (r : Int) (e : PyErr)
    (h : letter2intLoop chars s r = .error e) : e = .valueError := by
  induction s generalizing r with
  | nil => simp [letter2intLoop] at h
  | cons c cs ih =>
    simp only [letter2intLoop] at h
    split at h
    · rename_i e' he; injection h with h; subst h; exact index_error _ _ _ he
    · exact ih _ h

theorem snoc_induction {α : Type} {P : List α → Prop} (hnil : P [])
    (hsnoc : ∀ l a, P l → P (l ++ [a])) (l : List α) : P l := by
  have : ∀ l : List α, P l.reverse := by
    intro l
    induction l with
    | nil => exact hnil
    | cons a l ih => rw [List.reverse_cons]; exact hsnoc _ _ ih
  simpa using this l.reverse

theorem letters_roundtrip_back {α : Type} [DecidableEq α] (chars : List α)
    (s : List α) (hs : ∀ c ∈ s, c ∈ chars) :
    ∃ n : Nat, letter2intLoop chars s 0 = .ok (n : Int) ∧
      pick chars (letterLoop chars.length n).reverse = .ok s := by
  induction s using snoc_induction with
  | hnil => exact ⟨0, by simp [letter2intLoop], by simp [letterLoop, pick]⟩
  | hsnoc s a ih =>
    obtain ⟨m, h1, h2⟩ := ih (fun c hc => hs c (by simp [hc]))
    have ha : a ∈ chars := hs a (by simp)
    have : ∃ i, index a chars = .ok i := by
      cases hi : index a chars with
      | ok i => exact ⟨i, rfl⟩
      | error e =>
        have := index_error _ _ _ hi; subst this
        exact absurd ha ((index_error_iff chars a).mp hi)
    obtain ⟨i, hi⟩ := this
    have hget := index_ok _ _ _ hi
    have hlt : i < chars.length := (List.getElem?_eq_some_iff.mp hget).1
    refine ⟨(chars.length * m + i) + 1, ?_, ?_⟩
    · rw [letter2intLoop_append, h1]
      simp only [letter2intLoop, hi]
      congr 1
      push_cast
      rw [Int.mul_comm]
      omega
    · have e1 : (chars.length * m + i) % chars.length = i := by
        rw [Nat.mul_add_mod, Nat.mod_eq_of_lt hlt]
      have e2 : (chars.length * m + i) / chars.length = m := by
        rw [Nat.mul_add_div (by omega), Nat.div_eq_of_lt hlt, Nat.add_zero]
      rw [letterLoop_succ, e1, e2, List.reverse_cons, pick_append, h2]
      simp [pick, hget]

/-! ## English -/

open Spec

theorem readFrom_small (n : Nat) (h : n < 1000) (rest : List Word) (d t : Nat) :
    readFrom (smallWords n ++ rest) d t 0 = readFrom rest d t n := by
  unfold smallWords
  by_cases h1 : n ≥ 100
  · by_cases h2 : n % 100 ≥ 20
    · by_cases h3 : n % 100 % 10 = 0
      · simp only [h1, h2, h3, if_true, readFrom, List.cons_append, List.nil_append, ne_eq,
          not_true, if_false]
        congr 1; omega
      · simp only [h1, h2, h3, if_true, readFrom, List.cons_append, List.nil_append, ne_eq,
          not_false_iff]
        congr 1; omega
    · by_cases h3 : n % 100 = 0
      · simp only [h1, h2, h3, if_true, readFrom, List.cons_append, List.nil_append, ne_eq,
          not_true, if_false, List.append_nil]
        simp [readFrom]
        congr 1; omega
      · simp only [h1, h2, h3, if_true, readFrom, List.cons_append, List.nil_append, ne_eq,
          not_false_iff, if_false]
        congr 1; omega
  · by_cases h2 : n ≥ 20
    · by_cases h3 : n % 10 = 0
      · simp only [h1, h2, h3, if_true, readFrom, List.cons_append, List.nil_append, ne_eq,
          not_true, if_false]
        congr 1; omega
      · simp only [h1, h2, h3, if_true, readFrom, List.cons_append, List.nil_append, ne_eq,
          not_false_iff, if_false]
        congr 1; omega
    · by_cases h3 : n = 0
      · simp [h3]
      · simp only [h1, h2, h3, if_true, readFrom, List.cons_append, List.nil_append, ne_eq,
          not_false_iff, if_false]
        congr 1; omega

/-- Below a thousand `_int2text` is just its last part. -/
theorem int2words_small (n : Nat) (h : n < 1000) : int2words n = smallWords n := by
  rw [int2words]
  have h1 : ¬ n ≥ 1000000 := by omega
  have h2 : ¬ n ≥ 1000 := by omega
  simp [h1, h2]

theorem int2words_mid (n : Nat) (h1 : n < 1000000) (h2 : n ≥ 1000) :
    int2words n = smallWords (n / 1000) ++ [Word.thousand] ++ smallWords (n % 1000) := by
  rw [int2words]
  have h1' : ¬ n ≥ 1000000 := by omega
  simp only [h1', h2, dite_true, dite_false]
  rw [int2words_small _ (by omega)]

theorem int2words_big (n : Nat) (h1 : n ≥ 1000000) :
    int2words n = int2words (n / 1000000) ++ [Word.million] ++ int2words (n % 1000000) := by
  rw [int2words]
  simp only [h1, dite_true]
  congr 1
  by_cases h2 : n % 1000000 ≥ 1000
  · rw [int2words_mid _ (Nat.mod_lt _ (by decide)) h2]
    simp only [h2, dite_true]
    rw [int2words_small _ (by omega)]
  · rw [int2words_small (n % 1000000) (by omega)]
    simp [h2]

theorem readFrom_mid (n : Nat) (h : n < 1000000) (rest : List Word) (d : Nat) :
    readFrom (int2words n ++ rest) d 0 0 = readFrom rest d (n / 1000 * 1000) (n % 1000) := by
  by_cases h2 : n ≥ 1000
  · rw [int2words_mid n h h2]
    simp only [List.append_assoc]
    rw [readFrom_small _ (by omega)]
    simp only [List.cons_append, List.nil_append, readFrom]
    rw [readFrom_small _ (by omega)]
  · rw [int2words_small n (by omega), readFrom_small n (by omega)]
    have e1 : n / 1000 * 1000 = 0 := by omega
    have e2 : n % 1000 = n := by omega
    rw [e1, e2]

theorem readFrom_million (n : Nat) (rest : List Word) :
    readFrom (int2words n ++ Word.million :: rest) 0 0 0 =
      readFrom rest (n * 1000000) 0 0 := by
  induction n using Nat.strongRecOn generalizing rest with
  | _ n ih =>
    by_cases h1 : n ≥ 1000000
    · rw [int2words_big n h1]
      simp only [List.append_assoc, List.cons_append, List.nil_append]
      rw [ih (n / 1000000) (by omega), readFrom_mid _ (Nat.mod_lt _ (by decide))]
      simp only [readFrom]
      have e : n / 1000000 * 1000000 + n % 1000000 / 1000 * 1000 + n % 1000000 % 1000 = n := by omega
      rw [e]
    · rw [readFrom_mid _ (by omega)]
      simp only [readFrom]
      have e : 0 + n / 1000 * 1000 + n % 1000 = n := by omega
      rw [e]

theorem reading_int2words (n : Nat) : reading (int2words n) = n := by
  unfold reading
  by_cases h1 : n ≥ 1000000
  · rw [int2words_big n h1]
    simp only [List.append_assoc, List.cons_append, List.nil_append]
    rw [readFrom_million]
    have := readFrom_mid (n % 1000000) (Nat.mod_lt _ (by decide)) [] (n / 1000000 * 1000000)
    rw [List.append_nil] at this
    rw [this]
    simp only [readFrom]; omega
  · have := readFrom_mid n (by omega) [] 0
    rw [List.append_nil] at this
    rw [this]
    simp only [readFrom]; omega

/-- A word that is in the tables. -/
def Word.ok : Word → Prop
  | .to19 i => i < 20
  | .tens i => i < 8
  | _ => True

theorem smallWords_ok (n : Nat) (h : n < 1000) : ∀ w ∈ smallWords n, w.ok := by
  intro w hw
  unfold smallWords at hw
  simp only [List.mem_append] at hw
  by_cases h1 : n ≥ 100 <;> simp only [h1, if_true, if_false] at hw
  · by_cases h2 : n % 100 ≥ 20 <;> simp only [h2, if_true, if_false] at hw
    · rcases hw with (hw | hw) | hw
      · simp at hw; rcases hw with rfl | rfl <;> simp [Word.ok]; omega
      · simp at hw; subst hw; simp [Word.ok]; omega
      · split at hw <;> simp at hw; subst hw; simp [Word.ok]; omega
    · rcases hw with (hw | hw) | hw
      · simp at hw; rcases hw with rfl | rfl <;> simp [Word.ok]; omega
      · simp at hw
      · split at hw <;> simp at hw; subst hw; simp [Word.ok]; omega
  · by_cases h2 : n ≥ 20 <;> simp only [h2, if_true, if_false] at hw
    · rcases hw with (hw | hw) | hw
      · simp at hw
      · simp at hw; subst hw; simp [Word.ok]; omega
      · split at hw <;> simp at hw; subst hw; simp [Word.ok]; omega
    · rcases hw with (hw | hw) | hw
      · simp at hw
      · simp at hw
      · split at hw <;> simp at hw; subst hw; simp [Word.ok]; omega

theorem int2words_ok (n : Nat) : ∀ w ∈ int2words n, w.ok := by
  induction n using Nat.strongRecOn with
  | _ n ih =>
    intro w hw
    by_cases h1 : n ≥ 1000000
    · rw [int2words_big n h1] at hw
      simp only [List.mem_append, List.mem_singleton] at hw
      rcases hw with (hw | rfl) | hw
      · exact ih _ (by omega) w hw
      · trivial
      · exact ih _ (by omega) w hw
    · by_cases h2 : n ≥ 1000
      · rw [int2words_mid n (by omega) h2] at hw
        simp only [List.mem_append, List.mem_singleton] at hw
        rcases hw with (hw | rfl) | hw
        · exact smallWords_ok _ (by omega) w hw
        · trivial
        · exact smallWords_ok _ (by omega) w hw
      · rw [int2words_small n (by omega)] at hw
        exact smallWords_ok _ (by omega) w hw

/-- Shape of a title-cased word: one capital, then lower case letters. -/
def titled (l : List Char) : Bool :=
  match l with
  | [] => false
  | c :: cs => c.isUpper && cs.all (fun x => !x.isUpper)

theorem to19_titled : ∀ i : Fin 20, ∃ t, to19Names[i.val]? = some t ∧ titled t.toList = true := by
  decide

theorem tens_titled : ∀ i : Fin 8, ∃ t, tensNames[i.val]? = some t ∧ titled t.toList = true := by
  decide

theorem text_titled (w : Word) (h : w.ok) : ∃ t, w.text = some t ∧ titled t.toList = true := by
  cases w with
  | to19 i => exact to19_titled ⟨i, h⟩
  | tens i => exact tens_titled ⟨i, h⟩
  | hundred => exact ⟨_, rfl, by decide⟩
  | thousand => exact ⟨_, rfl, by decide⟩
  | million => exact ⟨_, rfl, by decide⟩

/-- Two titled texts at the start of a string agree when what follows starts a new word. -/
theorem titled_prefix (a b x y : List Char) (ha : titled a = true) (hb : titled b = true)
    (hx : x = [] ∨ ∃ c cs, x = c :: cs ∧ c.isUpper = true)
    (hy : y = [] ∨ ∃ c cs, y = c :: cs ∧ c.isUpper = true)
    (h : a ++ x = b ++ y) : a = b ∧ x = y := by
  cases a with
  | nil => simp [titled] at ha
  | cons a0 as =>
    cases b with
    | nil => simp [titled] at hb
    | cons b0 bs =>
      simp only [titled, Bool.and_eq_true] at ha hb
      simp only [List.cons_append, List.cons.injEq] at h
      obtain ⟨h0, h⟩ := h
      have key : ∀ as bs : List Char, as.all (fun x => !x.isUpper) = true →
          bs.all (fun x => !x.isUpper) = true → as ++ x = bs ++ y → as = bs ∧ x = y := by
        intro as
        induction as with
        | nil =>
          intro bs _ hb h
          cases bs with
          | nil => exact ⟨rfl, h⟩
          | cons b bs =>
            exfalso
            simp only [List.nil_append, List.cons_append] at h
            rcases hx with rfl | ⟨c, cs, rfl, hc⟩
            · cases h
            · injection h with h1 h2
              subst h1
              simp [hc] at hb
        | cons a as ih =>
          intro bs ha hb h
          cases bs with
          | nil =>
            exfalso
            simp only [List.nil_append, List.cons_append] at h
            rcases hy with rfl | ⟨c, cs, rfl, hc⟩
            · cases h
            · injection h with h1 h2
              subst h1
              simp [hc] at ha
          | cons b bs =>
            simp only [List.cons_append, List.cons.injEq] at h
            simp only [List.all_cons, Bool.and_eq_true] at ha hb
            obtain ⟨e1, e2⟩ := ih bs ha.2 hb.2 h.2
            exact ⟨by rw [h.1, e1], e2⟩
      obtain ⟨e1, e2⟩ := key as bs ha.2 hb.2 h
      exact ⟨by rw [h0, e1], e2⟩

theorem text_injective : ∀ a b : Word, a.ok → b.ok → a.text = b.text → a = b := by
  intro a b ha hb h
  have h19 : ∀ i j : Fin 20, to19Names[i.val]? = to19Names[j.val]? → i = j := by decide
  have h10 : ∀ i j : Fin 8, tensNames[i.val]? = tensNames[j.val]? → i = j := by decide
  have hx : ∀ (i : Fin 20) (j : Fin 8), to19Names[i.val]? ≠ tensNames[j.val]? := by decide
  have a1 : ∀ (i : Fin 20), to19Names[i.val]? ≠ some "Hundred" ∧ to19Names[i.val]? ≠ some "Thousand" ∧
    to19Names[i.val]? ≠ some "Million" := by decide
  have a2 : ∀ (i : Fin 8), tensNames[i.val]? ≠ some "Hundred" ∧ tensNames[i.val]? ≠ some "Thousand" ∧
    tensNames[i.val]? ≠ some "Million" := by decide
  cases a with
  | to19 i =>
    cases b with
    | to19 j => have := congrArg Fin.val (h19 ⟨i, ha⟩ ⟨j, hb⟩ h); exact congrArg Word.to19 this
    | tens j => exact absurd h (hx ⟨i, ha⟩ ⟨j, hb⟩)
    | hundred => exact absurd h (a1 ⟨i, ha⟩).1
    | thousand => exact absurd h (a1 ⟨i, ha⟩).2.1
    | million => exact absurd h (a1 ⟨i, ha⟩).2.2
  | tens i =>
    cases b with
    | tens j => have := congrArg Fin.val (h10 ⟨i, ha⟩ ⟨j, hb⟩ h); exact congrArg Word.tens this
    | to19 j => exact absurd h.symm (hx ⟨j, hb⟩ ⟨i, ha⟩)
    | hundred => exact absurd h (a2 ⟨i, ha⟩).1
    | thousand => exact absurd h (a2 ⟨i, ha⟩).2.1
    | million => exact absurd h (a2 ⟨i, ha⟩).2.2
  | hundred =>
    cases b with
    | tens j => exact absurd h.symm (a2 ⟨j, hb⟩).1
    | to19 j => exact absurd h.symm (a1 ⟨j, hb⟩).1
    | hundred => rfl
    | thousand => simp [Word.text] at h
    | million => simp [Word.text] at h
  | thousand =>
    cases b with
    | tens j => exact absurd h.symm (a2 ⟨j, hb⟩).2.1
    | to19 j => exact absurd h.symm (a1 ⟨j, hb⟩).2.1
    | hundred => simp [Word.text] at h
    | thousand => rfl
    | million => simp [Word.text] at h
  | million =>
    cases b with
    | tens j => exact absurd h.symm (a2 ⟨j, hb⟩).2.2
    | to19 j => exact absurd h.symm (a1 ⟨j, hb⟩).2.2
    | hundred => simp [Word.text] at h
    | thousand => simp [Word.text] at h
    | million => rfl

theorem joinWords_ok (ws : List Word) (h : ∀ w ∈ ws, w.ok) :
    ∃ r, joinWords ws = .ok r ∧ (r = [] ∧ ws = [] ∨ ∃ c cs, r = c :: cs ∧ c.isUpper = true) := by
  induction ws with
  | nil => exact ⟨[], rfl, .inl ⟨rfl, rfl⟩⟩
  | cons w ws ih =>
    obtain ⟨r, h1, _⟩ := ih (fun w hw => h w (List.mem_cons_of_mem _ hw))
    obtain ⟨t, ht, htt⟩ := text_titled w (h w List.mem_cons_self)
    refine ⟨t.toList ++ r, by simp [joinWords, ht, h1], .inr ?_⟩
    cases hl : t.toList with
    | nil => simp [hl, titled] at htt
    | cons c cs =>
      simp only [hl, titled, Bool.and_eq_true] at htt
      exact ⟨c, cs ++ r, rfl, htt.1⟩

theorem joinWords_injective (a b : List Word) (ha : ∀ w ∈ a, w.ok) (hb : ∀ w ∈ b, w.ok)
    (r : List Char) (h1 : joinWords a = .ok r) (h2 : joinWords b = .ok r) : a = b := by
  induction a generalizing b r with
  | nil =>
    simp [joinWords] at h1
    obtain ⟨r', hr', hc⟩ := joinWords_ok b hb
    rw [h2] at hr'
    injection hr' with hr'
    rcases hc with ⟨_, hc⟩ | ⟨c, cs, hc, _⟩
    · exact hc.symm
    · rw [← hr', h1] at hc; cases hc
  | cons w ws ih =>
    cases b with
    | nil =>
      simp [joinWords] at h2
      obtain ⟨r', hr', hc⟩ := joinWords_ok _ ha
      rw [h1] at hr'
      injection hr' with hr'
      rcases hc with ⟨_, hc⟩ | ⟨c, cs, hc, _⟩
      · cases hc
      · rw [← hr', h2] at hc; cases hc
    | cons v vs =>
      have haw := ha w List.mem_cons_self
      have hbv := hb v List.mem_cons_self
      have haws := fun w hw => ha w (List.mem_cons_of_mem _ hw)
      have hbvs := fun w hw => hb w (List.mem_cons_of_mem _ hw)
      obtain ⟨t, ht, htt⟩ := text_titled w haw
      obtain ⟨u, hu, hut⟩ := text_titled v hbv
      obtain ⟨x, hx, hxc⟩ := joinWords_ok ws haws
      obtain ⟨y, hy, hyc⟩ := joinWords_ok vs hbvs
      simp only [joinWords, ht, hx, Except.ok.injEq] at h1
      simp only [joinWords, hu, hy, Except.ok.injEq] at h2
      have hx' : x = [] ∨ ∃ c cs, x = c :: cs ∧ c.isUpper = true := by
        rcases hxc with h | h
        · exact .inl h.1
        · exact .inr h
      have hy' : y = [] ∨ ∃ c cs, y = c :: cs ∧ c.isUpper = true := by
        rcases hyc with h | h
        · exact .inl h.1
        · exact .inr h
      obtain ⟨e1, e2⟩ := titled_prefix _ _ _ _ htt hut hx' hy' (h1.trans h2.symm)
      have e1' : t = u := String.toList_injective e1
      have hwv : w = v := text_injective w v haw hbv (by rw [ht, hu, e1'])
      subst e2
      rw [hwv, ih vs haws hbvs x hx hy]

end Quickly.Numbering
