import Verif.Str.Spec

/-! # C44: strings are escaped and unescaped losslessly -/

namespace Quickly.Str

open Spec

theorem flush_source (acc : Text) :
    source (if acc.isEmpty then [] else [⟨false, acc.reverse⟩]) = acc.reverse := by
  cases acc <;> simp [source]

theorem flush_unescape (acc : Text) :
    unescape (if acc.isEmpty then [] else [⟨false, acc.reverse⟩]) = acc.reverse := by
  cases acc <;> simp [unescape]

theorem unescape_append (a b : List Token) : unescape (a ++ b) = unescape a ++ unescape b := by
  simp [unescape]

/-- The lexer on the body of a written string. -/
theorem lexBody_escape (s rest acc : Text) (ha : ∀ c ∈ acc, c ≠ '"' ∧ c ≠ '\\') :
    ∃ ts, lexBody acc (escapeText s ++ '"' :: rest) = some (ts ++ [⟨false, ['"']⟩], rest) ∧
      unescape ts = acc.reverse ++ s ∧ source ts = acc.reverse ++ escapeText s ∧
      ∀ t ∈ ts, Inner t := by
  have hflush : ∀ t ∈ (if acc.isEmpty then [] else [(⟨false, acc.reverse⟩ : Token)]), Inner t := by
    intro t ht
    split at ht
    · cases ht
    · simp at ht; subst ht
      simp only [Inner, Bool.false_eq_true, if_false, List.mem_reverse]
      exact ⟨fun h => (ha _ h).1 rfl, fun h => (ha _ h).2 rfl⟩
  induction s generalizing acc with
  | nil =>
    refine ⟨if acc.isEmpty then [] else [⟨false, acc.reverse⟩], ?_, ?_, ?_, hflush⟩
    · simp [escapeText, lexBody]
    · simpa using flush_unescape acc
    · simpa [escapeText] using flush_source acc
  | cons c s ih =>
    by_cases h1 : c = '\\'
    · subst h1
      obtain ⟨ts, e1, e2, e3, e4⟩ := ih [] (by simp) (by simp)
      refine ⟨(if acc.isEmpty then [] else [⟨false, acc.reverse⟩]) ++ ⟨true, ['\\', '\\']⟩ :: ts,
        ?_, ?_, ?_, ?_⟩
      · have : escapeText ('\\' :: s) = '\\' :: '\\' :: escapeText s := rfl
        rw [this]
        simp only [List.cons_append, lexBody, e1, List.append_assoc]
      · rw [unescape_append, flush_unescape]
        simp only [unescape, List.reverse_nil, List.nil_append, List.drop_one] at e2
        simp [unescape, e2]
      · simp only [source, List.reverse_nil, List.nil_append] at e3
        rw [source, List.flatMap_append]
        have := flush_source acc
        simp only [source] at this
        rw [this]
        simp [e3, escapeText]
      · intro t ht
        rcases List.mem_append.1 ht with h | h
        · exact hflush t h
        · rcases List.mem_cons.1 h with rfl | h
          · simp [Inner]
          · exact e4 t h
    · by_cases h2 : c = '"'
      · subst h2
        obtain ⟨ts, e1, e2, e3, e4⟩ := ih [] (by simp) (by simp)
        refine ⟨(if acc.isEmpty then [] else [⟨false, acc.reverse⟩]) ++ ⟨true, ['\\', '"']⟩ :: ts,
          ?_, ?_, ?_, ?_⟩
        · have : escapeText ('"' :: s) = '\\' :: '"' :: escapeText s := rfl
          rw [this]
          simp only [List.cons_append, lexBody, e1, List.append_assoc]
        · rw [unescape_append, flush_unescape]
          simp only [unescape, List.reverse_nil, List.nil_append, List.drop_one] at e2
          simp [unescape, e2]
        · simp only [source, List.reverse_nil, List.nil_append] at e3
          rw [source, List.flatMap_append]
          have := flush_source acc
          simp only [source] at this
          rw [this]
          simp [e3, escapeText]
        · intro t ht
          rcases List.mem_append.1 ht with h | h
          · exact hflush t h
          · rcases List.mem_cons.1 h with rfl | h
            · simp [Inner]
            · exact e4 t h
      · have hacc : ∀ d ∈ c :: acc, d ≠ '"' ∧ d ≠ '\\' := by
          intro d hd
          rcases List.mem_cons.1 hd with rfl | hd
          · exact ⟨h2, h1⟩
          · exact ha d hd
        obtain ⟨ts, e1, e2, e3, e4⟩ := ih (c :: acc) hacc (by
          intro t ht
          simp at ht; subst ht
          simp only [Inner, Bool.false_eq_true, if_false]
          constructor
          · intro h
            exact (hacc '"' (by simpa [or_comm] using h)).1 rfl
          · intro h
            exact (hacc '\\' (by simpa [or_comm] using h)).2 rfl)
        refine ⟨ts, ?_, by simpa using e2, ?_, e4⟩
        · have : escapeText (c :: s) = c :: escapeText s := by
            simp [escapeText, h1, h2]
          rw [this, List.cons_append, lexBody]
          · exact e1
          · intro e; exact h2 e
          · intro r e; exact absurd e h1
          · intro r e; exact absurd e h1
        · have : escapeText (c :: s) = c :: escapeText s := by
            simp [escapeText, h1, h2]
          rw [this]; simpa using e3

/-- **C44**: written before any other text, a string value is read back by the lexer and
`read_head` as the same value, and the rest of the text is what was there. -/
theorem C44_round_trip (s rest : Text) :
    ∃ ts, lexString (writeHead s ++ rest) = some (ts, rest) ∧ source ts = writeHead s ∧
      readHead ts = s := by
  obtain ⟨ts, e1, e2, e3, -⟩ := lexBody_escape s rest [] (by simp)
  refine ⟨⟨false, ['"']⟩ :: (ts ++ [⟨false, ['"']⟩]), ?_, ?_, ?_⟩
  · have : writeHead s ++ rest = '"' :: (escapeText s ++ '"' :: rest) := by simp [writeHead]
    rw [this]
    simp only [lexString, e1]
  · simp only [source, List.reverse_nil, List.nil_append] at e3
    simp [source, e3, writeHead]
  · simpa [readHead] using e2

theorem unescape_source (body : List Token) (h : ∀ t ∈ body, Inner t) :
    source body = escapeText (unescape body) := by
  induction body with
  | nil => rfl
  | cons t body ih =>
    have ht := h t (by simp)
    have ih := ih fun t' h' => h t' (by simp [h'])
    have e : escapeText (unescape (t :: body)) =
        escapeText (if t.escape then t.text.drop 1 else t.text) ++ escapeText (unescape body) := by
      simp [unescape, escapeText]
    have e' : source (t :: body) = t.text ++ source body := by simp [source]
    rw [e, e', ih]
    congr 1
    simp only [Inner] at ht
    split at ht
    · rename_i hesc
      rw [if_pos hesc]
      rcases ht with h' | h' <;> rw [h'] <;> rfl
    · rename_i hesc
      rw [if_neg hesc]
      have : ∀ l : Text, '"' ∉ l → '\\' ∉ l → escapeText l = l := by
        intro l
        induction l with
        | nil => intros; rfl
        | cons c l ihl =>
          intro h1 h2
          simp only [List.mem_cons, not_or] at h1 h2
          have := ihl h1.2 h2.2
          simp only [escapeText] at this
          simp [escapeText, this, Ne.symm h1.1, Ne.symm h2.1]
      exact (this _ ht.1 ht.2).symm

/-- **C44**, the other direction: a string literal that is read from tokens and not changed is
written as the same text (when it has no lone backslash). -/
theorem C44_write_read (ts : List Token) (h : Literal ts) :
    writeHead (readHead ts) = source ts := by
  obtain ⟨body, rfl, hb⟩ := h
  have : readHead (⟨false, ['"']⟩ :: body ++ [⟨false, ['"']⟩]) = unescape body := by
    simp [readHead]
  rw [this, writeHead, ← unescape_source body hb]
  simp [source]

/-- The reading does not depend on how the lexer cuts the plain text: two literals with the
same source text have the same value. -/
theorem C44_tokenization (ts ts' : List Token) (h : Literal ts) (h' : Literal ts')
    (e : source ts = source ts') : readHead ts = readHead ts' := by
  have hinj : ∀ a b : Text, escapeText a = escapeText b → a = b := by
    intro a b e
    obtain ⟨t1, l1, -, r1⟩ := C44_round_trip a []
    obtain ⟨t2, l2, -, r2⟩ := C44_round_trip b []
    have : writeHead a = writeHead b := by simp [writeHead, e]
    rw [this, l2] at l1
    simp at l1
    rw [← r1, ← r2, l1]
  apply hinj
  have := (C44_write_read ts h).trans (e.trans (C44_write_read ts' h').symm)
  simpa [writeHead] using this

theorem escape_parity (s : Text) :
    ∀ before after, escapeText s = before ++ '"' :: after →
      (before.reverse.takeWhile (· = '\\')).length % 2 = 1 := by
  -- strengthen: with an even number of backslashes in front
  suffices H : ∀ (s p : Text), (p.reverse.takeWhile (· = '\\')).length % 2 = 0 →
      ∀ before after, escapeText s = before ++ '"' :: after →
        ((p ++ before).reverse.takeWhile (· = '\\')).length % 2 = 1 by
    intro before after e
    simpa using H s [] (by simp) before after e
  intro s
  induction s with
  | nil => intro p _ before after e; simp [escapeText] at e
  | cons c s ih =>
    intro p hp before after e
    by_cases h1 : c = '\\' ∨ c = '"'
    · have e' : escapeText (c :: s) = '\\' :: c :: escapeText s := by
        simp [escapeText, h1]
      rw [e'] at e
      cases before with
      | nil => simp at e
      | cons b before =>
        simp only [List.cons_append, List.cons.injEq] at e
        obtain ⟨rfl, e⟩ := e
        cases before with
        | nil =>
          simp only [List.reverse_append, List.reverse_cons, List.reverse_nil, List.nil_append,
            List.singleton_append, List.takeWhile_cons, decide_true, if_true, List.length_cons]
          omega
        | cons b before =>
          simp only [List.cons_append, List.cons.injEq] at e
          obtain ⟨rfl, e⟩ := e
          have := ih (p ++ ['\\', c]) (by
            simp only [List.reverse_append, List.reverse_cons, List.reverse_nil, List.nil_append,
              List.singleton_append, List.cons_append]
            by_cases h2 : c = '\\'
            · subst h2
              simp only [List.takeWhile_cons, decide_true, if_true, List.length_cons]
              omega
            · simp [List.takeWhile_cons, h2]) before after e
          simpa using this
    · have hc : ¬ c = '\\' := fun h => h1 (.inl h)
      have hq : ¬ c = '"' := fun h => h1 (.inr h)
      have e' : escapeText (c :: s) = c :: escapeText s := by simp [escapeText, hc, hq]
      rw [e'] at e
      cases before with
      | nil => simp at e; exact absurd e.1 hq
      | cons b before =>
        simp only [List.cons_append, List.cons.injEq] at e
        obtain ⟨rfl, e⟩ := e
        have := ih (p ++ [c]) (by simp [List.takeWhile_cons, hc]) before after e
        simpa using this

/-- **C44**: between its quotes, the written form has no unescaped quote. -/
theorem C44_no_open_quote (s : Text) :
    ∃ inner, writeHead s = ['"'] ++ inner ++ ['"'] ∧ ¬ OpenQuote inner := by
  refine ⟨escapeText s, rfl, ?_⟩
  rintro ⟨before, after, e, hp⟩
  have := escape_parity s before after e
  omega

/-- A value with quotes and backslashes, followed by other text. -/
example : writeHead "a\"b\\".toList = "\"a\\\"b\\\\\"".toList ∧
    lexString (writeHead "a\"b\\".toList ++ " c".toList) =
      some ([⟨false, ['"']⟩, ⟨false, ['a']⟩, ⟨true, ['\\', '"']⟩, ⟨false, ['b']⟩,
        ⟨true, ['\\', '\\']⟩, ⟨false, ['"']⟩], " c".toList) := by decide +kernel

/-- A literal cut in other pieces. -/
example : Literal [⟨false, ['"']⟩, ⟨false, ['a']⟩, ⟨false, ['b']⟩, ⟨true, ['\\', '"']⟩,
    ⟨false, ['"']⟩] :=
  ⟨[⟨false, ['a']⟩, ⟨false, ['b']⟩, ⟨true, ['\\', '"']⟩], rfl, by
    intro t ht; simp at ht; rcases ht with rfl | rfl | rfl <;> simp [Inner]⟩

end Quickly.Str
