import Verif.Scheme.Lemmas2

/-! # Reading the text of Scheme elements -/

namespace Quickly.Scheme

open Spec

/-- What follows is the end, or ends a word. -/
def Rest (r : Str) : Prop := r.head?.all isDelim = true

/-- How the text of a datum begins. -/
def Start (s : Str) : Prop :=
  (∃ c s', s = c :: s' ∧ isSpace c = false ∧ c ≠ ')' ∧ c ≠ '@') ∧
  ∀ r, Rest r → (s ++ r).takeWhile (fun c => !isDelim c) ≠ ['.']

/-- The text is that of the datum. -/
def Reads (s : Str) (d : Datum) : Prop :=
  Start s ∧ ∃ N, ∀ n ≥ N, ∀ r, Rest r → readDatum n (s ++ r) = some (d, r)

theorem word_split (w r : Str) (h : ∀ c ∈ w, isDelim c = false) (hr : Rest r) :
    (w ++ r).takeWhile (fun c => !isDelim c) = w ∧ (w ++ r).dropWhile (fun c => !isDelim c) = r :=
  takeWhile_all _ w r (fun c hc => by simp [h c hc]) (by
    unfold Rest at hr
    cases r with
    | nil => rfl
    | cons c r => simpa using hr)

theorem reads_atom (w : Str) (d : Datum) (hw : ∀ c ∈ w, isDelim c = false)
    (hf : ∃ c w', w = c :: w' ∧ c ∉ ['\'', '`', ',', '@']) (hd : w ≠ ['.']) (ha : atom w = some d) : Reads w d := by
  obtain ⟨c, w', rfl, hc⟩ := hf
  have hcd := hw c (by simp)
  simp only [isDelim, Bool.or_eq_false_iff, beq_eq_false_iff_ne] at hcd
  simp only [List.mem_cons, List.not_mem_nil, or_false, not_or] at hc
  refine ⟨⟨⟨c, w', rfl, hcd.1.1.1.1, hcd.1.1.2, hc.2.2.2⟩, ?_⟩, 1, ?_⟩
  · intro r hr
    rw [(word_split _ r hw hr).1]
    exact hd
  · intro n hn r hr
    obtain ⟨n, rfl⟩ : ∃ k, n = k + 1 := ⟨n - 1, by omega⟩
    have hws := word_split _ r hw hr
    rw [readDatum]
    have hsp : List.dropWhile isSpace (c :: w' ++ r) = c :: (w' ++ r) := by
      rw [List.cons_append, List.dropWhile_cons_of_neg]
      simp [hcd.1.1.1.1]
    rw [hsp]
    simp only [if_neg hcd.1.1.1.2, if_neg hcd.1.1.2, if_neg hcd.1.2, if_neg hc.1, if_neg hc.2.1, if_neg hc.2.2.1]
    rw [List.cons_append] at hws
    rw [hws.1, hws.2, ha]
    rfl

theorem string_escape (s acc r : Str) : string acc (Str.escapeText s ++ '"' :: r) = some (acc.reverse ++ s, r) := by
  induction s generalizing acc with
  | nil => simp [Str.escapeText, string]
  | cons c s ih =>
    have he : Str.escapeText (c :: s) = (if c = '\\' ∨ c = '"' then ['\\', c] else [c]) ++ Str.escapeText s := by
      simp [Str.escapeText]
    rw [he]
    split_ifs with h
    · have : string acc (['\\', c] ++ Str.escapeText s ++ '"' :: r) = string (c :: acc) (Str.escapeText s ++ '"' :: r) := by
        simp [string]
      rw [this, ih]
      simp
    · have : string acc ([c] ++ Str.escapeText s ++ '"' :: r) = string (c :: acc) (Str.escapeText s ++ '"' :: r) := by
        simp only [List.cons_append, List.nil_append]
        rw [string]
        · intro h'; exact h (.inr h')
        · intro h' _; exact h (.inl h')
        · intro _ _ h'; exact fun _ => h (.inl h')
      rw [this, ih]
      simp

theorem reads_string (s : Str) : Reads (Str.writeHead s) (.str s) := by
  refine ⟨⟨⟨'"', Str.escapeText s ++ ['"'], rfl, by decide, by decide, by decide⟩, ?_⟩, 1, ?_⟩
  · intro r _
    simp [Str.writeHead, isDelim]
  · intro n hn r hr
    obtain ⟨n, rfl⟩ : ∃ k, n = k + 1 := ⟨n - 1, by omega⟩
    have : Str.writeHead s ++ r = '"' :: (Str.escapeText s ++ '"' :: r) := by simp [Str.writeHead]
    rw [this, readDatum, List.dropWhile_cons_of_neg (by decide)]
    simp only [if_neg (show ¬ '"' = '(' by decide), if_neg (show ¬ '"' = ')' by decide), if_true, string_escape]
    rfl

theorem reads_quoted (q : Q) (s : Str) (d : Datum) (h : Reads s d) : Reads (q.text ++ s) (.quoted q d) := by
  obtain ⟨⟨⟨c, s', rfl, h1, h2, h3⟩, h4⟩, N, hN⟩ := h
  refine ⟨⟨?_, ?_⟩, N + 1, ?_⟩
  · cases q
    · exact ⟨'\'', _, rfl, by decide, by decide, by decide⟩
    · exact ⟨'`', _, rfl, by decide, by decide, by decide⟩
    · exact ⟨',', _, rfl, by decide, by decide, by decide⟩
  · intro r _
    cases q <;> simp [Q.text, isDelim, isSpace]
  · intro n hn r hr
    obtain ⟨n, rfl⟩ : ∃ k, n = k + 1 := ⟨n - 1, by omega⟩
    have := hN n (by omega) r hr
    cases q
    · simp only [Q.text, List.cons_append, List.nil_append]
      rw [readDatum, List.dropWhile_cons_of_neg (by decide)]
      simp only [if_neg (show ¬ '\'' = '(' by decide), if_neg (show ¬ '\'' = ')' by decide),
        if_neg (show ¬ '\'' = '"' by decide), if_true]
      rw [List.cons_append] at this
      rw [this]; rfl
    · simp only [Q.text, List.cons_append, List.nil_append]
      rw [readDatum, List.dropWhile_cons_of_neg (by decide)]
      simp only [if_neg (show ¬ '`' = '(' by decide), if_neg (show ¬ '`' = ')' by decide),
        if_neg (show ¬ '`' = '"' by decide), if_neg (show ¬ '`' = '\'' by decide), if_true]
      rw [List.cons_append] at this
      rw [this]; rfl
    · simp only [Q.text, List.cons_append, List.nil_append]
      rw [readDatum, List.dropWhile_cons_of_neg (by decide)]
      simp only [if_neg (show ¬ ',' = '(' by decide), if_neg (show ¬ ',' = ')' by decide),
        if_neg (show ¬ ',' = '"' by decide), if_neg (show ¬ ',' = '\'' by decide),
        if_neg (show ¬ ',' = '`' by decide), if_true, List.head?_cons, Option.some.injEq, if_neg h3]
      rw [List.cons_append] at this
      rw [this]; rfl

theorem readList_space (n : ℕ) (s : Str) : readList n (' ' :: s) = readList n s := by
  cases n with
  | zero => rfl
  | succ n =>
    rw [readList, readList, List.dropWhile_cons_of_pos (by decide)]

theorem readDatum_space (n : ℕ) (s : Str) : readDatum n (' ' :: s) = readDatum n s := by
  cases n with
  | zero => rfl
  | succ n => rw [readDatum, readDatum, List.dropWhile_cons_of_pos (by decide)]

/-- The text is that of the data in a list. -/
def ReadsList (s : Str) (d : Datum) : Prop :=
  ∃ N, ∀ n ≥ N, ∀ r, readList n (s ++ ')' :: r) = some (d, r)

theorem readsList_nil : ReadsList [] .nil := by
  refine ⟨1, fun n hn r => ?_⟩
  obtain ⟨n, rfl⟩ : ∃ k, n = k + 1 := ⟨n - 1, by omega⟩
  rw [List.nil_append, readList, List.dropWhile_cons_of_neg (by decide)]
  rfl

theorem readList_cons (s t : Str) (a d : Datum) (hs : Reads s a) (N' : ℕ)
    (ht : ∀ n ≥ N', ∀ r, Rest (t ++ ')' :: r) ∧ readList n (t ++ ')' :: r) = some (d, r)) : ReadsList (s ++ t) (.pair a d) := by
  obtain ⟨⟨⟨c, s', rfl, h1, h2, h3⟩, h4⟩, N, hN⟩ := hs
  refine ⟨N + N' + 1, fun n hn r => ?_⟩
  obtain ⟨n, rfl⟩ : ∃ k, n = k + 1 := ⟨n - 1, by omega⟩
  obtain ⟨t1, t2⟩ := ht n (by omega) r
  have hd := hN n (by omega) _ t1
  have hw := h4 _ t1
  rw [List.append_assoc]
  rw [List.cons_append] at hd hw ⊢
  rw [readList, List.dropWhile_cons_of_neg (by simp [h1])]
  simp only [if_neg h2, if_neg hw, hd, t2]
  rfl

theorem readsList_cons (s t : Str) (a d : Datum) (hs : Reads s a) (ht : ReadsList t d) :
    ReadsList (s ++ ' ' :: t) (.pair a d) := by
  obtain ⟨N, hN⟩ := ht
  refine readList_cons s (' ' :: t) a d hs N fun n hn r => ⟨rfl, ?_⟩
  rw [List.cons_append, readList_space]
  exact hN n hn r

theorem readsList_last (s : Str) (a : Datum) (hs : Reads s a) : ReadsList s (.pair a .nil) := by
  obtain ⟨N, hN⟩ := readsList_nil
  have := readList_cons s [] a .nil hs N fun n hn r => ⟨rfl, hN n hn r⟩
  rwa [List.append_nil] at this

theorem readsList_dot (s : Str) (a : Datum) (hs : Reads s a) : ReadsList ('.' :: ' ' :: s) a := by
  obtain ⟨-, N, hN⟩ := hs
  refine ⟨N + 1, fun n hn r => ?_⟩
  obtain ⟨n, rfl⟩ : ∃ k, n = k + 1 := ⟨n - 1, by omega⟩
  have := hN n (by omega) (')' :: r) rfl
  rw [List.cons_append, List.cons_append, readList, List.dropWhile_cons_of_neg (by decide)]
  have hw : List.takeWhile (fun c => !isDelim c) ('.' :: ' ' :: (s ++ ')' :: r)) = ['.'] := by
    rw [List.takeWhile_cons_of_pos (by decide), List.takeWhile_cons_of_neg (by decide)]
  simp only [if_neg (show ¬ '.' = ')' by decide), hw, if_true, readDatum_space, this]
  rw [List.dropWhile_cons_of_neg (by decide)]
  rfl

theorem reads_list (s : Str) (d : Datum) (h : ReadsList s d) : Reads ('(' :: (s ++ [')'])) d := by
  obtain ⟨N, hN⟩ := h
  refine ⟨⟨⟨'(', _, rfl, by decide, by decide, by decide⟩, ?_⟩, N + 1, ?_⟩
  · intro r _
    rw [List.cons_append, List.takeWhile_cons_of_neg (by decide)]
    simp
  · intro n hn r _
    obtain ⟨n, rfl⟩ : ∃ k, n = k + 1 := ⟨n - 1, by omega⟩
    rw [List.cons_append, readDatum, List.dropWhile_cons_of_neg (by decide)]
    simp only [if_true, List.append_assoc, List.singleton_append]
    exact hN n (by omega) r

theorem reads_number (q : ℚ) : Reads (exact .dec q) (.num q) := by
  obtain ⟨c, s, h1, h2⟩ := exact_first .dec q
  have hch := exact_chars .dec q
  have hn : number (exact .dec q) = some q := by simpa [Radix.pfx] using number_exact .dec q
  have hmem : ∀ x ∈ '/' :: '-' :: numChars, isDelim x = false ∧ x ≠ '.' ∧ x ≠ '#' ∧ x ∉ ['\'', '`', ',', '@'] := by decide
  refine reads_atom _ _ (fun x hx => (hmem x (hch x hx)).1) ⟨c, s, h1, (hmem c (List.mem_cons_of_mem _ h2)).2.2.2⟩ ?_ ?_
  · rw [h1]; intro h; cases h; exact (hmem '.' (List.mem_cons_of_mem _ h2)).2.1 rfl
  · unfold atom
    have h3 : ∀ t, exact .dec q ≠ '#' :: t := by
      intro t h
      rw [h1] at h; cases h
      exact (hmem '#' (List.mem_cons_of_mem _ h2)).2.2.1 rfl
    rw [if_neg (h3 _), if_neg (h3 _), hn]

theorem reads_symbol (w : Str) (h : Symbol w) : Reads w (.sym w) := by
  obtain ⟨⟨c, w', rfl, hc⟩, hw, hn, hd⟩ := h
  simp only [List.mem_cons, List.not_mem_nil, or_false, not_or] at hc
  refine reads_atom _ _ hw ⟨c, w', rfl, by simp [hc]⟩ hd ?_
  unfold atom
  have h3 : ∀ t, c :: w' ≠ '#' :: t := by intro t h; cases h; exact hc.1 rfl
  rw [if_neg (h3 _), if_neg (h3 _), hn]
  simp only
  rw [if_neg]
  rintro (h | h)
  · exact hc.1 h
  · exact hd h

theorem reads_bool (b : Bool) : Reads (if b then "#t".toList else "#f".toList) (.bool b) := by
  cases b
  · exact reads_atom _ _ (by decide) ⟨'#', ['f'], rfl, by decide⟩ (by decide) rfl
  · exact reads_atom _ _ (by decide) ⟨'#', ['t'], rfl, by decide⟩ (by decide) rfl

theorem create_ok (v : Val) (h : Ok v) : Heads (create v) ∧ Reads (tx (create v)) (denote v) := by
  have hgo : ∀ vs : List Val, Ok.go vs → ∀ v ∈ vs, Ok v := by
    intro vs
    induction vs with
    | nil => simp
    | cons w vs ih =>
      rintro ⟨h1, h2⟩ v hv
      rcases List.mem_cons.1 hv with rfl | hv
      · exact h1
      · exact ih h2 v hv
  match v, h with
  | .bool b, _ =>
    refine ⟨by cases b <;> simp [create, Heads, Heads.go, El.head, Except.toOption], ?_⟩
    simpa [create, tx, tx.tight, El.head, Except.toOption, denote] using reads_bool b
  | .int n, _ =>
    have hw : fmt .dec n = exact .dec n := by simp [exact]
    obtain ⟨c, s, h1, -⟩ := exact_first .dec n
    refine ⟨by simp [create, Heads, Heads.go, El.head, Except.toOption, writeNum, hw, h1], ?_⟩
    have := reads_number n
    simpa [create, tx, tx.tight, El.head, Except.toOption, denote, writeNum, hw, Radix.pfx] using this
  | .frac q, _ =>
    obtain ⟨c, s, h1, -⟩ := exact_first .dec q
    have hw : writeNum .dec (.frac q) = .ok (exact .dec q) := by simp [writeNum, exact, Radix.pfx]
    refine ⟨by simp [create, Heads, Heads.go, El.head, Except.toOption, hw, h1], ?_⟩
    have := reads_number q
    simpa [create, tx, tx.tight, El.head, Except.toOption, denote, hw] using this
  | .str s, _ =>
    refine ⟨by simp [create, Heads, Heads.go, El.head, Except.toOption, Str.writeHead], ?_⟩
    simpa [create, tx, tx.tight, El.head, Except.toOption, denote] using reads_string s
  | .sym s, h =>
    have h' : Symbol s := by simpa [Ok] using h
    refine ⟨?_, ?_⟩
    · obtain ⟨⟨c, w, rfl, -⟩, -⟩ := h'
      simp [create, Heads, Heads.go, El.head, Except.toOption]
    · simpa [create, tx, tx.tight, El.head, Except.toOption, denote] using reads_symbol s h'
  | .quoted q v, h =>
    obtain ⟨h1, h2⟩ := create_ok v (by simpa [Ok] using h)
    refine ⟨?_, ?_⟩
    · cases q <;> simp [create, Heads, Heads.go, El.head, Except.toOption, Q.text, h1]
    · simpa [create, tx, tx.tight, El.head, Except.toOption, denote] using reads_quoted q _ _ h2
  | .list vs, h =>
    have hall := hgo vs (by simpa [Ok] using h)
    have ih : ∀ v ∈ vs, Heads (create v) ∧ Reads (tx (create v)) (denote v) := fun v hv => create_ok v (hall v hv)
    have key : ∀ ws : List Val, (∀ v ∈ ws, Heads (create v) ∧ Reads (tx (create v)) (denote v)) →
        Heads.go (create.all ws) ∧ ReadsList (tx.spaced (create.all ws)) (denote.all ws) := by
      intro ws hws
      induction ws with
      | nil => exact ⟨trivial, readsList_nil⟩
      | cons w ws ihw =>
        obtain ⟨w1, w2⟩ := hws w (by simp)
        obtain ⟨i1, i2⟩ := ihw fun v hv => hws v (by simp [hv])
        refine ⟨⟨w1, i1⟩, ?_⟩
        cases ws with
        | nil => simpa [create.all, tx.spaced, denote.all] using readsList_last _ _ w2
        | cons x ws =>
          simp only [create.all, tx.spaced, denote.all, List.cons_ne_nil, if_false] at i2 ⊢
          exact readsList_cons _ _ _ _ w2 i2
    obtain ⟨k1, k2⟩ := key vs ih
    refine ⟨by simp [create, Heads, El.head, Except.toOption, k1], ?_⟩
    simpa [create, tx, denote] using reads_list _ _ k2
  | .tuple vs, h =>
    have h' : 2 ≤ vs.length ∧ Ok.go vs := by simpa [Ok] using h
    have hall := hgo vs h'.2
    have ih : ∀ v ∈ vs, Heads (create v) ∧ Reads (tx (create v)) (denote v) := fun v hv => create_ok v (hall v hv)
    have key : ∀ ws : List Val, ws ≠ [] → (∀ v ∈ ws, Heads (create v) ∧ Reads (tx (create v)) (denote v)) →
        Heads.go (create.dotted ws) ∧ create.dotted ws ≠ [] ∧
          ReadsList (tx.spaced (create.dotted ws)) (denote.dotted ws) := by
      intro ws hne hws
      induction ws with
      | nil => exact absurd rfl hne
      | cons w ws ihw =>
        obtain ⟨w1, w2⟩ := hws w (by simp)
        cases ws with
        | nil =>
          refine ⟨by simp [create.dotted, Heads.go, Heads, El.head, Except.toOption, w1], by simp [create.dotted], ?_⟩
          have := readsList_dot _ _ w2
          simpa [create.dotted, tx.spaced, denote.dotted, tx, tx.tight, El.head, Except.toOption] using this
        | cons x ws =>
          obtain ⟨i1, i2, i3⟩ := ihw (by simp) fun v hv => hws v (by simp [hv])
          refine ⟨⟨w1, i1⟩, by simp [create.dotted], ?_⟩
          simp only [create.dotted, tx.spaced, denote.dotted, if_neg i2] at i3 ⊢
          exact readsList_cons _ _ _ _ w2 i3
    obtain ⟨k1, -, k2⟩ := key vs (by rintro rfl; simp at h') ih
    refine ⟨by simp [create, Heads, El.head, Except.toOption, k1], ?_⟩
    simpa [create, tx, denote] using reads_list _ _ k2
termination_by sizeOf v
decreasing_by
  all_goals simp_wf
  all_goals have := List.sizeOf_lt_of_mem hv
  all_goals omega

end Quickly.Scheme
