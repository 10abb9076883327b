import Verif.Markup.Lemmas

/-! # Reading the text of markup elements -/

namespace Quickly.Markup

open Quickly.Text Quickly.Scheme.Spec Quickly.Markup.Spec

variable {nargs : Str → Option ℕ}

/-- The end, or a space. -/
def Rest (r : Str) : Prop := r = [] ∨ ∃ r', r = ' ' :: r'

/-- The text is that of the markup. -/
def Reads (nargs : Str → Option ℕ) (s : Str) (m : M) : Prop :=
  (∃ c s', s = c :: s' ∧ isWhite c = false ∧ c ≠ '}') ∧
  ∃ N, ∀ n ≥ N, ∀ r, Rest r → readM nargs n (s ++ r) = some (m, r)

theorem rest_spaced (ss : List Str) (r : Str) (h : Rest r) : Rest (spaced ss ++ r) := by
  cases ss with
  | nil => exact h
  | cons s ss => exact .inr ⟨_, rfl⟩

theorem split_all (p : Char → Bool) (hp : p ' ' = false) (w r : Str) (h : ∀ c ∈ w, p c = true) (hr : Rest r) :
    (w ++ r).takeWhile p = w ∧ (w ++ r).dropWhile p = r :=
  Scheme.takeWhile_all _ w r h (by
    rcases hr with rfl | ⟨r, rfl⟩
    · rfl
    · simp [hp])

theorem read_space (n : ℕ) (s : Str) : readM nargs n (' ' :: s) = readM nargs n s := by
  cases n with
  | zero => rfl
  | succ n => rw [readM, readM, List.dropWhile_cons_of_pos (by decide)]

theorem readMs_space (n : ℕ) (s : Str) : readMs nargs n (' ' :: s) = readMs nargs n s := by
  cases n with
  | zero => rfl
  | succ n => rw [readMs, readMs, List.dropWhile_cons_of_pos (by decide)]

theorem isWord_not (c : Char) (h : isWord c = true) :
    isWhite c = false ∧ c ≠ '{' ∧ c ≠ '}' ∧ c ≠ '"' ∧ c ≠ '\\' ∧ c ≠ '#' := by
  unfold isWord at h
  simp at h
  tauto

theorem reads_word (w : Str) (h : Word w) : Reads nargs w (.text w) := by
  obtain ⟨hne, hw⟩ := h
  obtain ⟨c, w', rfl⟩ := List.exists_cons_of_ne_nil hne
  obtain ⟨h1, h2, h3, h4, h5, h6⟩ := isWord_not c (hw c (by simp))
  refine ⟨⟨c, w', rfl, h1, h3⟩, 1, fun n hn r hr => ?_⟩
  obtain ⟨n, rfl⟩ : ∃ k, n = k + 1 := ⟨n - 1, by omega⟩
  obtain ⟨s1, s2⟩ := split_all isWord rfl _ r hw hr
  rw [List.cons_append] at s1 s2 ⊢
  rw [readM, List.dropWhile_cons_of_neg (by simp [h1])]
  simp only [if_neg h2, if_neg h4, if_neg h5, if_neg h6, hw c (by simp), if_true, s1, s2]

theorem reads_str (s : Str) : Reads nargs (Str.writeHead s) (.text s) := by
  refine ⟨⟨'"', Str.escapeText s ++ ['"'], rfl, by decide, by decide⟩, 1, fun n hn r hr => ?_⟩
  obtain ⟨n, rfl⟩ : ∃ k, n = k + 1 := ⟨n - 1, by omega⟩
  have : Str.writeHead s ++ r = '"' :: (Str.escapeText s ++ '"' :: r) := by simp [Str.writeHead]
  rw [this, readM, List.dropWhile_cons_of_neg (by decide)]
  simp only [if_neg (show ¬ '"' = '{' by decide), if_true, Scheme.string_escape]
  rfl

theorem reads_scheme (s : Str) (d : Datum) (h : Scheme.Reads s d) : Reads nargs ('#' :: s) (.datum d) := by
  obtain ⟨-, N, hN⟩ := h
  refine ⟨⟨'#', s, rfl, by decide, by decide⟩, N + 1, fun n hn r hr => ?_⟩
  obtain ⟨n, rfl⟩ : ∃ k, n = k + 1 := ⟨n - 1, by omega⟩
  have hr' : Scheme.Rest r := by
    rcases hr with rfl | ⟨r, rfl⟩ <;> rfl
  have := hN n (by omega) r hr'
  rw [List.cons_append, readM, List.dropWhile_cons_of_neg (by decide)]
  simp only [if_neg (show ¬ '#' = '{' by decide), if_neg (show ¬ '#' = '"' by decide), if_true, this]
  rfl

theorem readArgs_spaced (ss : List Str) (ms : List M) (h : List.Forall₂ (Reads nargs) ss ms) :
    ∃ N, ∀ n ≥ N, ∀ r, Rest r → readArgs nargs n ms.length (spaced ss ++ r) = some (ms, r) := by
  induction h with
  | nil => exact ⟨0, fun n _ r _ => by simp [readArgs, spaced]⟩
  | @cons s m ss ms hs _ ih =>
    obtain ⟨N, hN⟩ := ih
    obtain ⟨-, N', hN'⟩ := hs
    refine ⟨N + N' + 1, fun n hn r hr => ?_⟩
    obtain ⟨n, rfl⟩ : ∃ k, n = k + 1 := ⟨n - 1, by omega⟩
    have h1 := hN' n (by omega) _ (rest_spaced ss r hr)
    have h2 := hN n (by omega) r hr
    rw [List.length_cons, readArgs]
    simp only [spaced, List.cons_append, List.append_assoc, read_space, h1, h2]
    rfl

theorem readMs_spaced (ss : List Str) (ms : List M) (h : List.Forall₂ (Reads nargs) ss ms) :
    ∃ N, ∀ n ≥ N, ∀ r, readMs nargs n (spaced ss ++ ' ' :: '}' :: r) = some (ms, r) := by
  induction h with
  | nil =>
    refine ⟨1, fun n hn r => ?_⟩
    obtain ⟨n, rfl⟩ : ∃ k, n = k + 1 := ⟨n - 1, by omega⟩
    rw [spaced, List.nil_append, readMs_space, readMs, List.dropWhile_cons_of_neg (by decide)]
    rfl
  | @cons s m ss ms hs _ ih =>
    obtain ⟨N, hN⟩ := ih
    obtain ⟨⟨c, s', rfl, c1, c2⟩, N', hN'⟩ := hs
    refine ⟨N + N' + 1, fun n hn r => ?_⟩
    obtain ⟨n, rfl⟩ : ∃ k, n = k + 1 := ⟨n - 1, by omega⟩
    have h1 := hN' n (by omega) _ (rest_spaced ss (' ' :: '}' :: r) (.inr ⟨_, rfl⟩))
    have h2 := hN n (by omega) r
    rw [spaced, List.cons_append, readMs_space]
    rw [List.append_assoc, List.cons_append, readMs, List.dropWhile_cons_of_neg (by simp [c1])]
    rw [List.cons_append] at h1
    simp only [if_neg c2, h1, h2]
    rfl

theorem reads_cmd (name : Str) (hn : ∀ c ∈ name, isName c = true) (ss : List Str) (ms : List M)
    (ha : nargs name = some ms.length) (h : List.Forall₂ (Reads nargs) ss ms) :
    Reads nargs ('\\' :: name ++ spaced ss) (.cmd name ms) := by
  obtain ⟨N, hN⟩ := readArgs_spaced ss ms h
  refine ⟨⟨'\\', _, rfl, by decide, by decide⟩, N + 1, fun n hn' r hr => ?_⟩
  obtain ⟨n, rfl⟩ : ∃ k, n = k + 1 := ⟨n - 1, by omega⟩
  obtain ⟨s1, s2⟩ := split_all isName rfl name _ hn (rest_spaced ss r hr)
  have h1 := hN n (by omega) r hr
  rw [List.cons_append, List.cons_append, List.append_assoc, readM, List.dropWhile_cons_of_neg (by decide)]
  simp only [if_neg (show ¬ '\\' = '{' by decide), if_neg (show ¬ '\\' = '"' by decide), if_neg (show ¬ '\\' = '#' by decide),
    if_true, s1, s2, ha, h1]
  rfl

theorem reads_list (ss : List Str) (ms : List M) (h : List.Forall₂ (Reads nargs) ss ms) :
    Reads nargs ('{' :: (spaced ss ++ [' ', '}'])) (.list ms) := by
  obtain ⟨N, hN⟩ := readMs_spaced ss ms h
  refine ⟨⟨'{', _, rfl, by decide, by decide⟩, N + 1, fun n hn r hr => ?_⟩
  obtain ⟨n, rfl⟩ : ∃ k, n = k + 1 := ⟨n - 1, by omega⟩
  have h1 := hN n (by omega) r
  rw [List.cons_append, List.append_assoc, readM, List.dropWhile_cons_of_neg (by decide)]
  simp only [List.cons_append, List.nil_append, if_true, h1]
  rfl

/-! ## Elements -/

/-- The element has a text that means this. -/
def Said (nargs : Str → Option ℕ) (t : Node.Tree El) (m : M) : Prop := ∃ s, Gives t s ∧ Reads nargs s m

theorem said_lists {ts : List (Node.Tree El)} {ms : List M} (h : List.Forall₂ (Said nargs) ts ms) :
    ∃ ss, List.Forall₂ Gives ts ss ∧ List.Forall₂ (Reads nargs) ss ms := by
  induction h with
  | nil => exact ⟨[], .nil, .nil⟩
  | cons h _ ih =>
    obtain ⟨ss, i1, i2⟩ := ih
    obtain ⟨s, h1, h2⟩ := h
    exact ⟨s :: ss, .cons h1 i1, .cons h2 i2⟩

theorem said_cmd (name : Str) (hn : ∀ c ∈ name, isName c = true) (ts : List (Node.Tree El)) (ms : List M)
    (ha : nargs name = some ms.length) (h : List.Forall₂ (Said nargs) ts ms) : Said nargs (cmd name ts) (.cmd name ms) := by
  obtain ⟨ss, h1, h2⟩ := said_lists h
  exact ⟨_, gives_head (.cmd name) rfl rfl rfl (by simp [El.elem]) ts ss h1, reads_cmd name hn ss ms ha h2⟩

theorem said_markup (name : Str) (hn : ∀ c ∈ name, isName c = true) (ts : List (Node.Tree El)) (ms : List M)
    (ha : nargs name = some ms.length) (h : List.Forall₂ (Said nargs) ts ms) : Said nargs (.node (.markup name) ts) (.cmd name ms) := by
  obtain ⟨ss, h1, h2⟩ := said_lists h
  exact ⟨_, gives_head (.markup name) rfl rfl rfl (by simp [El.elem]) ts ss h1, reads_cmd name hn ss ms ha h2⟩

theorem said_list (ts : List (Node.Tree El)) (ms : List M) (h : List.Forall₂ (Said nargs) ts ms) :
    Said nargs (.node .list ts) (.list ms) := by
  obtain ⟨ss, h1, h2⟩ := said_lists h
  exact ⟨_, gives_list ts ss h1, reads_list ss ms h2⟩

theorem said_word (w : Str) (h : Word w) : Said nargs (.node (.word w) []) (.text w) :=
  ⟨w, gives_leaf (.word w) rfl h.1, reads_word w h⟩

theorem said_str (s : Str) : Said nargs (.node (.str s) []) (.text s) :=
  ⟨_, gives_leaf (.str s) rfl (by simp [El.elem, Str.writeHead]), reads_str s⟩

theorem said_tree (t : Node.Tree Scheme.El) (d : Datum) (h : Scheme.Heads t) (hr : Scheme.Reads (Scheme.tx t) d) :
    Said nargs (.node .scheme [lift t]) (.datum d) := by
  refine ⟨_, gives_scheme _ (Scheme.tx t) ?_ (Scheme.tx_ne t h), reads_scheme _ _ hr⟩
  rw [toText_lift]
  exact Scheme.out_toText t h

theorem said_a (v : Scheme.Val) (h : Ok v) : Said nargs (a v) (mVal v) := by
  obtain ⟨h1, h2⟩ := Scheme.create_ok v h
  exact said_tree _ _ h1 h2

theorem said_sym (n : Str) (h : Symbol n) : Said nargs (sym n) (mSym n) :=
  said_a (.quoted .quote (.sym n)) (by simpa [Ok] using h)

theorem said_pair (x y : Scheme.Val) (hx : Ok x) (hy : Ok y) : Said nargs (pair x y) (mPair x y) :=
  said_a (.quoted .quote (.tuple [x, y])) (by simp [Ok, Ok.go, hx, hy])

theorem said_scmString (t : Str) : Said nargs (s (scmString t)) (mStr t) :=
  said_a (.str t) (by simp [Ok])

theorem said_scmNumber (q : ℚ) : Said nargs (s (scmNumber q)) (mNum q) :=
  said_a (.frac q) (by simp [Ok])

theorem said_hex (n : ℤ) : Said nargs (s (.node (.hex n) [])) (mNum n) := by
  have hx : Scheme.fmt .hex n = Scheme.exact .hex n := by simp [Scheme.exact]
  have hw : El.elem (.hex n) = { kind := .head, head := '#' :: 'x' :: Scheme.exact .hex n } := by
    simp [El.elem, Scheme.writeNum, Except.toOption, Scheme.Radix.pfx, hx]
  refine ⟨'#' :: ('#' :: 'x' :: Scheme.exact .hex n), gives_scheme _ _ ?_ (by simp), reads_scheme _ _ ?_⟩
  · have hp := plain_toText (.node (.hex n) [])
    rw [toText] at hp ⊢
    rw [C37_compositional _ _ _ hp, hw]
    simp [Text.Spec.headFrag, Text.Spec.tailFrag, Text.Spec.childFrags, toText.go, combine_eq, Text.Spec.layout, Text.Spec.join,
      Text.Spec.lastWishes, collapse, pyMax]
  · have hch := Scheme.exact_chars .hex n
    have hn : number ('#' :: 'x' :: Scheme.exact .hex n) = some (n : ℚ) := Scheme.number_exact .hex n
    have hmem : ∀ x ∈ '/' :: '-' :: Scheme.numChars, isDelim x = false ∧ x ≠ 't' := by decide
    refine Scheme.reads_atom _ _ ?_ ⟨'#', _, rfl, by decide⟩ (by simp) ?_
    · intro c hc
      rcases List.mem_cons.1 hc with rfl | hc
      · rfl
      · rcases List.mem_cons.1 hc with rfl | hc
        · rfl
        · exact (hmem c (hch c hc)).1
    · unfold atom
      rw [if_neg (by simp), if_neg (by simp), hn]

end Quickly.Markup
