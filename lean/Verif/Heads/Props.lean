import Verif.Heads.Spec
import Verif.Scheme.Lemmas
import Verif.Pitch.Props

/-!
# C78: head values survive writing and reading
-/

namespace Quickly.Heads

open Quickly.Scheme (Str fmt fmtNat natural_fmtNat fmtNat_chars numChars)
open Spec

/-! ### Numbers -/

theorem fmtNat_digits (n : ℕ) : Digits (fmtNat .dec n) := by
  refine ⟨(fmtNat_chars .dec n).1, ?_⟩
  unfold fmtNat
  intro c hc
  split at hc
  · simp only [List.mem_singleton] at hc; subst hc; decide
  · simp only [List.mem_map, List.mem_reverse] at hc
    obtain ⟨d, hd, rfl⟩ := hc
    have hlt : d < 10 := Nat.digits_lt_base (by decide) hd
    have : ∀ d : Fin 10, Scheme.digitChar d ∈ "0123456789".toList := by decide
    exact this ⟨d, hlt⟩

theorem digits_ne {s : Str} (h : Digits s) (c : Char) (hc : c ∉ "0123456789".toList) : c ∉ s := fun hm => hc (h.2 c hm)

theorem digits_natural {s : Str} (h : Digits s) : ∃ n, Scheme.Spec.natural 10 s = some n := by
  unfold Scheme.Spec.natural
  rw [if_neg h.1]
  have : ∀ acc, ∃ n, Scheme.Spec.digits 10 acc s = some n := by
    have h2 := h.2
    clear h
    induction s with
    | nil => intro acc; exact ⟨acc, rfl⟩
    | cons c s ih =>
      intro acc
      have hc : ∃ d, Scheme.Spec.digit c = some d ∧ d < 10 := by
        have := h2 c (by simp)
        have key : ∀ c ∈ "0123456789".toList, ∃ d < 10, Scheme.Spec.digit c = some d := by decide
        obtain ⟨d, h1, h2⟩ := key c this
        exact ⟨d, h2, h1⟩
      obtain ⟨d, hd, hlt⟩ := hc
      obtain ⟨n, hn⟩ := ih (fun x hx => h2 x (by simp [hx])) (10 * acc + d)
      exact ⟨n, by rw [Scheme.Spec.digits, hd]; simp only [hlt, if_true]; exact hn⟩
  exact this 0

theorem pyInt_digits {s : Str} (h : Digits s) : pyInt s = match Scheme.Spec.natural 10 s with
    | some n => .ok (n : ℤ)
    | none => .error .valueError := by
  unfold pyInt
  split
  · rename_i t
    exact absurd (h.2 '-' (by simp)) (by decide)
  · rfl

theorem fmt_cases (n : ℤ) : (0 ≤ n ∧ fmt .dec n = fmtNat .dec n.natAbs) ∨ (n < 0 ∧ fmt .dec n = '-' :: fmtNat .dec n.natAbs) := by
  unfold Scheme.fmt
  by_cases h : n < 0
  · right; exact ⟨h, by rw [if_pos h]⟩
  · left; exact ⟨by omega, by rw [if_neg h]⟩

theorem pyInt_fmt (n : ℤ) : pyInt (fmt .dec n) = .ok n := by
  have hn := natural_fmtNat .dec n.natAbs
  simp only [Scheme.Radix.base] at hn
  rcases fmt_cases n with ⟨h, e⟩ | ⟨h, e⟩
  · rw [e, pyInt_digits (fmtNat_digits _), hn]
    simp only
    congr 1
    omega
  · rw [e]
    simp only [pyInt, hn]
    congr 1
    omega

theorem fmt_no_slash (n : ℤ) : '/' ∉ fmt .dec n := by
  rcases fmt_cases n with ⟨-, e⟩ | ⟨-, e⟩ <;> rw [e]
  · exact digits_ne (fmtNat_digits _) _ (by decide)
  · simp only [List.mem_cons, not_or]
    exact ⟨by decide, digits_ne (fmtNat_digits _) _ (by decide)⟩

theorem split_none {s : Str} (h : '/' ∉ s) : split s = [s] := by
  induction s with
  | nil => rfl
  | cons c s ih =>
    simp only [List.mem_cons, not_or] at h
    rw [split, if_neg (fun e => h.1 e.symm), ih h.2]

theorem split_one {a b : Str} (ha : '/' ∉ a) (hb : '/' ∉ b) : split (a ++ ['/'] ++ b) = [a, b] := by
  induction a with
  | nil => simp [split, split_none hb]
  | cons c a ih =>
    simp only [List.mem_cons, not_or] at ha
    have := ih ha.2
    simp only [List.cons_append, split, if_neg (fun e => ha.1 (Eq.symm e))]
    rw [show a ++ ['/'] ++ b = a ++ ['/'] ++ b from rfl] at this
    rw [this]

theorem slash_inj {a b c d : Str} (ha : '/' ∉ a) (hb : '/' ∉ b) (hc : '/' ∉ c) (hd : '/' ∉ d)
    (h : a ++ ['/'] ++ b = c ++ ['/'] ++ d) : a = c ∧ b = d := by
  have h1 := split_one ha hb
  rw [h, split_one hc hd] at h1
  simp only [List.cons.injEq, and_true] at h1
  exact ⟨h1.1.symm, h1.2.symm⟩

/-! ### Comments -/

theorem inside_close (o c : Str) (body : List Str) : inside c ([o] ++ body ++ [c]) = .ok (.text body.flatten) := by
  have : ([o] ++ body ++ [c]).getLast? = some c := by rw [List.getLast?_append]; rfl
  simp only [inside, this]
  simp

theorem inside_other (o c d : Str) (body : List Str) (h : d ≠ c) :
    inside c ([o] ++ body ++ [d]) = .ok (.text (body.flatten ++ d)) := by
  have : ([o] ++ body ++ [d]).getLast? = some d := by rw [List.getLast?_append]; rfl
  simp only [inside, this]
  simp [h]

theorem find_env {s : Str} (h : s ≠ []) (h1 : '{' ∉ s) (h2 : '}' ∉ s) : [['{'], s, ['}']].find? notBrace = some s := by
  have : notBrace s = true := by
    unfold notBrace
    simp only [Bool.not_eq_true', Bool.or_eq_false_iff, decide_eq_false_iff_not]
    refine ⟨⟨⟨h, ?_⟩, ?_⟩, ?_⟩ <;> rintro rfl <;> simp at h1 h2
  rw [List.find?_cons_of_neg (by decide), List.find?_cons_of_pos this]

/-! ### C78 -/

/-- C78: whatever value is written, and however the text is divided in tokens, when the text is one element of the
kind then reading it gives the value back (for all kinds but the Scheme block comment). -/
theorem C78_read_written_partial (k : Kind) (hk : k ≠ .scmMulti) (h : Head) (s : Str) (hw : write k h = .ok s)
    (ts : List Str) (hl : Lexed k ts) (ht : ts.flatten = s) : read k ts = .ok h := by
  cases k <;> cases h <;> simp only [write, reduceCtorEq, Except.ok.injEq] at hw <;> subst hw
  case plain.text => simp only [read, ht]
  case int.int n =>
    obtain ⟨t, -, rfl | rfl⟩ := hl <;> simp only [List.flatten_cons, List.flatten_nil, List.append_nil] at ht <;>
      simp only [read, first, bind, Except.bind, ht, pyInt_fmt] <;> rfl
  case fraction.pair a b =>
    obtain ⟨x, y, -, -, rfl⟩ := hl
    simp only [List.flatten_cons, List.flatten_nil, List.append_nil] at ht
    simp only [read, first, bind, Except.bind, ht, split_one (fmt_no_slash a) (fmt_no_slash b), List.mapM_cons,
      List.mapM_nil, pyInt_fmt, pure, Except.pure]
  case octave.int n =>
    obtain ⟨t, -, -, rfl⟩ := hl
    simp only [List.flatten_cons, List.flatten_nil, List.append_nil] at ht
    simp only [read, first, bind, Except.bind, ht, Pitch.C17_round_trip]
    rfl
  case octCheck.int n =>
    obtain ⟨t, -, rfl⟩ := hl
    simp only [List.flatten_cons, List.flatten_nil, List.append_nil, List.cons.injEq, true_and] at ht
    simp only [read, first, bind, Except.bind, List.drop_succ_cons, List.drop_zero, ht, Pitch.C17_round_trip]
    rfl
  case lilyMulti.text s =>
    obtain ⟨body, -, rfl⟩ := hl
    simp only [read, inside_close]
    simp only [List.flatten_append, List.flatten_cons, List.flatten_nil, List.append_nil] at ht
    have := List.append_cancel_right ht
    rw [List.append_cancel_left this]
  case lilySingle.text s =>
    obtain ⟨body, -, -, rfl⟩ := hl
    simp only [List.flatten_cons, List.singleton_append, List.cons.injEq, true_and] at ht
    simp [read, ht]
  case backslash.text s => simp [read, ht]
  case scmSingle.text s =>
    obtain ⟨body, -, rfl⟩ := hl
    simp only [List.flatten_cons, List.singleton_append, List.cons.injEq, true_and] at ht
    simp [read, ht]
  case scmMulti.text => exact absurd rfl hk
  case char.text s =>
    obtain ⟨t, -, rfl⟩ := hl
    simp only [List.flatten_cons, List.flatten_nil, List.append_nil, List.append_cancel_left_eq] at ht
    subst ht
    rfl
  case bool.bool b =>
    obtain ⟨t, hm, rfl⟩ := hl
    simp only [List.flatten_cons, List.flatten_nil, List.append_nil] at ht
    subst ht
    cases b <;> rfl
  case envName.text s =>
    obtain ⟨t, h1, h2, h3, rfl⟩ := hl
    simp only [List.flatten_cons, List.flatten_nil, List.append_nil] at ht
    have ht' : ['{'] ++ t ++ ['}'] = ['{'] ++ s ++ ['}'] := by simpa using ht
    have := List.append_cancel_left (List.append_cancel_right ht')
    subst this
    simp only [read, find_env h1 h2 h3]
  case texComment.text s =>
    obtain ⟨body, -, rfl⟩ := hl
    simp only [List.flatten_cons, List.singleton_append, List.cons.injEq, true_and] at ht
    simp [read, ht]

/-- C78: exactly the valid values are written as one element of the kind. -/
theorem C78_valid (k : Kind) (hk : k ≠ .scmMulti) (h : Head) :
    (∃ s, write k h = .ok s ∧ ∃ ts, Lexed k ts ∧ ts.flatten = s) ↔ Valid k h := by
  cases k <;> cases h <;> simp only [write, Valid, reduceCtorEq, Except.ok.injEq, false_and, exists_false, exists_eq_left']
  case plain.text s =>
    constructor
    · rintro ⟨ts, h1, rfl⟩; exact h1
    · intro h; exact ⟨[s], by simpa [Lexed] using h, by simp⟩
  case int.int n =>
    simp only [iff_true]
    refine ⟨[fmt .dec n], ⟨fmtNat .dec n.natAbs, fmtNat_digits _, ?_⟩, by simp⟩
    rcases fmt_cases n with ⟨-, e⟩ | ⟨-, e⟩ <;> simp [e]
  case fraction.pair a b =>
    constructor
    · rintro ⟨ts, ⟨x, y, hx, hy, rfl⟩, ht⟩
      simp only [List.flatten_cons, List.flatten_nil, List.append_nil] at ht
      obtain ⟨rfl, rfl⟩ := slash_inj (digits_ne hx _ (by decide)) (digits_ne hy _ (by decide)) (fmt_no_slash a) (fmt_no_slash b) ht
      constructor
      · rcases fmt_cases a with ⟨h, -⟩ | ⟨-, e⟩
        · exact h
        · exact absurd (by rw [e]; simp) (digits_ne hx '-' (by decide))
      · rcases fmt_cases b with ⟨h, -⟩ | ⟨-, e⟩
        · exact h
        · exact absurd (by rw [e]; simp) (digits_ne hy '-' (by decide))
    · rintro ⟨h1, h2⟩
      refine ⟨[fmt .dec a ++ ['/'] ++ fmt .dec b], ⟨_, _, ?_, ?_, rfl⟩, by simp⟩
      · rcases fmt_cases a with ⟨-, e⟩ | ⟨h, -⟩
        · rw [e]; exact fmtNat_digits _
        · omega
      · rcases fmt_cases b with ⟨-, e⟩ | ⟨h, -⟩
        · rw [e]; exact fmtNat_digits _
        · omega
  case octave.int n =>
    constructor
    · rintro ⟨ts, ⟨t, h1, -, rfl⟩, ht⟩ rfl
      simp [Pitch.octaveToString] at ht
      exact h1 ht
    · intro h
      refine ⟨[Pitch.octaveToString n], ⟨_, ?_, ?_, rfl⟩, by simp⟩
      · unfold Pitch.octaveToString
        split <;> simp <;> omega
      · intro c hc
        rcases (Pitch.C17_minimal n).1 with h | h
        · exact .inl (h c hc)
        · exact .inr (h c hc)
  case octCheck.int n =>
    simp only [iff_true]
    refine ⟨['=' :: Pitch.octaveToString n], ⟨_, ?_, rfl⟩, by simp⟩
    intro c hc
    rcases (Pitch.C17_minimal n).1 with h | h
    · exact .inl (h c hc)
    · exact .inr (h c hc)
  case lilyMulti.text s =>
    constructor
    · rintro ⟨ts, ⟨body, hb, rfl⟩, ht⟩
      simp only [List.flatten_append, List.flatten_cons, List.flatten_nil, List.append_nil] at ht
      rwa [List.append_cancel_left (List.append_cancel_right ht)] at hb
    · intro h
      exact ⟨[['%', '{']] ++ [s] ++ [['%', '}']], ⟨[s], by simpa using h, rfl⟩, by simp⟩
  case lilySingle.text s =>
    constructor
    · rintro ⟨ts, ⟨body, h1, h2, rfl⟩, ht⟩
      simp only [List.flatten_cons, List.singleton_append, List.cons.injEq, true_and] at ht
      subst ht
      exact ⟨h1, h2⟩
    · rintro ⟨h1, h2⟩
      exact ⟨[['%'], s], ⟨[s], by simpa using h1, by simpa using h2, rfl⟩, by simp⟩
  case backslash.text s =>
    constructor
    · rintro ⟨ts, ⟨t, h1, h2, h3⟩, ht⟩
      rw [ht] at h3
      simp only [List.cons.injEq, true_and] at h3
      subst h3
      exact ⟨h1, h2⟩
    · rintro ⟨h1, h2⟩
      exact ⟨['\\' :: s], ⟨s, h1, h2, by simp⟩, by simp⟩
  case scmSingle.text s =>
    constructor
    · rintro ⟨ts, ⟨body, h1, rfl⟩, ht⟩
      simp only [List.flatten_cons, List.singleton_append, List.cons.injEq, true_and] at ht
      subst ht
      exact h1
    · intro h1
      exact ⟨[[';'], s], ⟨[s], by simpa using h1, rfl⟩, by simp⟩
  case scmMulti.text => exact absurd rfl hk
  case char.text s =>
    constructor
    · rintro ⟨ts, ⟨t, h1, rfl⟩, ht⟩
      simp only [List.flatten_cons, List.flatten_nil, List.append_nil, List.append_cancel_left_eq] at ht
      subst ht
      exact h1
    · intro h
      exact ⟨[['#', '\\'] ++ s], ⟨s, h, rfl⟩, by simp⟩
  case bool.bool b =>
    simp only [iff_true]
    cases b
    · exact ⟨[['#', 'f']], ⟨_, by decide, rfl⟩, rfl⟩
    · exact ⟨[['#', 't']], ⟨_, by decide, rfl⟩, rfl⟩
  case envName.text s =>
    constructor
    · rintro ⟨ts, ⟨t, h1, h2, h3, rfl⟩, ht⟩
      have ht' : ['{'] ++ t ++ ['}'] = ['{'] ++ s ++ ['}'] := by simpa using ht
      rw [List.append_cancel_left (List.append_cancel_right ht')] at h1 h2 h3
      exact ⟨h1, h2, h3⟩
    · rintro ⟨h1, h2, h3⟩
      exact ⟨[['{'], s, ['}']], ⟨s, h1, h2, h3, rfl⟩, by simp⟩
  case texComment.text s =>
    constructor
    · rintro ⟨ts, ⟨body, h1, rfl⟩, ht⟩
      simp only [List.flatten_cons, List.singleton_append, List.cons.injEq, true_and] at ht
      subst ht
      exact h1
    · intro h1
      exact ⟨[['%'], s], ⟨[s], by simpa using h1, rfl⟩, by simp⟩

/-- C78: every element that stands in a source text is read without an error, as a value that the constructor
accepts too and that can be written; for the kinds whose text is the value exactly the source text is written again. -/
theorem C78_source_kept_partial (k : Kind) (hk : k ≠ .scmMulti) (ts : List Str) (hl : Lexed k ts) :
    ∃ h s, read k ts = .ok h ∧ check k h = true ∧ write k h = .ok s ∧ (exact k = true → s = ts.flatten) := by
  cases k
  case plain => exact ⟨_, _, rfl, rfl, rfl, fun _ => rfl⟩
  case int =>
    obtain ⟨t, ht, rfl | rfl⟩ := hl <;> obtain ⟨n, hn⟩ := digits_natural ht
    · refine ⟨.int n, _, ?_, rfl, rfl, by simp [exact]⟩
      simp only [read, first, bind, Except.bind, pyInt_digits ht, hn]; rfl
    · refine ⟨.int (-(n : ℤ)), _, ?_, rfl, rfl, by simp [exact]⟩
      simp only [read, first, bind, Except.bind, pyInt, hn]; rfl
  case fraction =>
    obtain ⟨x, y, hx, hy, rfl⟩ := hl
    obtain ⟨n, hn⟩ := digits_natural hx
    obtain ⟨m, hm⟩ := digits_natural hy
    refine ⟨.pair n m, _, ?_, rfl, rfl, by simp [exact]⟩
    simp only [read, first, bind, Except.bind, split_one (digits_ne hx '/' (by decide)) (digits_ne hy '/' (by decide)), List.mapM_cons,
      List.mapM_nil, pyInt_digits hx, hn, pyInt_digits hy, hm, pure, Except.pure]
  case octave => obtain ⟨t, -, -, rfl⟩ := hl; exact ⟨_, _, rfl, rfl, rfl, by simp [exact]⟩
  case octCheck => obtain ⟨t, -, rfl⟩ := hl; exact ⟨_, _, rfl, rfl, rfl, by simp [exact]⟩
  case lilyMulti =>
    obtain ⟨body, -, rfl⟩ := hl
    exact ⟨_, _, inside_close _ _ body, rfl, rfl, by simp⟩
  case lilySingle => obtain ⟨body, -, -, rfl⟩ := hl; exact ⟨_, _, rfl, rfl, rfl, by simp⟩
  case backslash =>
    obtain ⟨t, h1, h2, h3⟩ := hl
    refine ⟨.text t, _, by simp [read, h3], ?_, rfl, by simp [h3]⟩
    simpa [check] using h2
  case scmSingle => obtain ⟨body, -, rfl⟩ := hl; exact ⟨_, _, rfl, rfl, rfl, by simp⟩
  case scmMulti => exact absurd rfl hk
  case char => obtain ⟨t, -, rfl⟩ := hl; exact ⟨_, _, rfl, rfl, rfl, by simp⟩
  case bool =>
    obtain ⟨t, ht, rfl⟩ := hl
    simp only [List.mem_cons, List.not_mem_nil, or_false] at ht
    rcases ht with rfl | rfl | rfl | rfl <;> exact ⟨_, _, rfl, rfl, rfl, by simp [exact]⟩
  case envName =>
    obtain ⟨t, h1, h2, h3, rfl⟩ := hl
    exact ⟨.text t, _, by simp only [read, find_env h1 h2 h3], rfl, rfl, by simp⟩
  case texComment => obtain ⟨body, -, rfl⟩ := hl; exact ⟨_, _, rfl, rfl, rfl, by simp⟩

/-- C78, a finding: every Scheme block comment `#! … !#` is read with the closing `!#` as part of its text, and when it is
written `#!` comes after it: the beginning of a comment that is not closed. -/
theorem C78_scheme_block_comment (ts : List Str) (hl : Lexed .scmMulti ts) :
    ∃ h, read .scmMulti ts = .ok h ∧ write .scmMulti h = .ok (ts.flatten ++ ['#', '!']) ∧
      ∀ ts', Lexed .scmMulti ts' → ts'.flatten ≠ ts.flatten ++ ['#', '!'] := by
  obtain ⟨body, -, rfl⟩ := hl
  refine ⟨.text (body.flatten ++ ['!', '#']), inside_other _ _ _ _ (by decide), by simp [write], ?_⟩
  rintro ts' ⟨body', -, rfl⟩ h
  have := congrArg (fun l => l.reverse.head?) h
  simp at this

/-- C78, a finding: a single-line comment whose text begins with a brace, or has a newline in it, and a block comment with `%}` in its text
are accepted by the constructor, but what is written is not that comment; the first one opens a block comment. -/
theorem C78_accepted_not_valid :
    (∀ s : Str, check .lilySingle (.text ('{' :: s)) = true ∧ write .lilySingle (.text ('{' :: s)) = .ok ('%' :: '{' :: s) ∧
      ¬ Valid .lilySingle (.text ('{' :: s))) ∧
    (∀ a b : Str, check .lilySingle (.text (a ++ ['\n'] ++ b)) = true ∧ ¬ Valid .lilySingle (.text (a ++ ['\n'] ++ b))) ∧
    ∀ a b : Str, check .lilyMulti (.text (a ++ ['%', '}'] ++ b)) = true ∧ ¬ Valid .lilyMulti (.text (a ++ ['%', '}'] ++ b)) := by
  refine ⟨fun s => ⟨rfl, rfl, ?_⟩, fun a b => ⟨rfl, ?_⟩, fun a b => ⟨rfl, ?_⟩⟩
  · simp [Valid]
  · simp [Valid]
  · simp only [Valid, not_not]
    exact ⟨a, b, rfl⟩

/-! ### Examples -/

example : Lexed .lilyMulti ["%{".toList, " a\n".toList, "b ".toList, "%}".toList] :=
  ⟨[" a\n".toList, "b ".toList], by decide, rfl⟩
example : read .lilyMulti ["%{".toList, " a\n".toList, "b ".toList, "%}".toList] = .ok (.text " a\nb ".toList) := by decide
example : Valid .fraction (.pair 3 4) ∧ write .fraction (.pair 3 4) = .ok "3/4".toList := by
  refine ⟨⟨by decide, by decide⟩, by decide +kernel⟩
example : read .fraction ["3/4".toList] = .ok (.pair 3 4) := by decide +kernel
example : read .envName ["{".toList, "lilypond".toList, "}".toList] = .ok (.text "lilypond".toList) := by decide
example : read .octCheck ["=,,".toList] = .ok (.int (-2)) := by decide
example : check .backslash (.text "\\x".toList) = false ∧ check .int (.text []) = false := by decide
example : Lexed .scmMulti ["#!".toList, " x ".toList, "!#".toList] := ⟨[" x ".toList], by decide, rfl⟩

end Quickly.Heads
