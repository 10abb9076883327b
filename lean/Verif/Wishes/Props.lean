import Verif.Wishes.Lemmas2

/-!
# C71: texts are kept apart by the whitespace that elements ask for
-/

namespace Quickly.Wishes

open Quickly.Node Quickly.Text Quickly.Text.Spec

/-- **C71**, `write()`: all texts are written in order, and the whitespace between each two is at least as important as
what the first asks for after it and the second before it. -/
theorem C71_write (cc : Concat) (t : Node.Tree Elem) :
    ∃ gaps, Meets (shown t) gaps ∧ (∀ g ∈ gaps, Wish cc t g) ∧ write cc t = weave ((shown t).map Piece.text) gaps :=
  weave_write cc t

/-- **C71**, `write_indented()`: the same for the lines without their indents. -/
theorem C71_indented (isSpace : Char → Bool) (hn : isSpace '\n' = true) (cc : Concat) (cfg : Indent.Config)
    (t : Node.Tree Elem) (out : Str) (h : Indent.writeIndented isSpace cc cfg t = .ok out) :
    ∃ (lines : List (ℕ × Str)) (lead first : Str) (gaps : List Str),
      out = (lines.flatMap fun l => List.replicate l.1 ' ' ++ l.2 ++ ['\n']) ∧ (∀ c ∈ lead, isSpace c = true) ∧
      lead ++ Indent.Spec.joinLines (lines.map Prod.snd) = first ++ weave ((shown t).map Piece.text) gaps ∧
      Meets (shown t) gaps ∧ ∀ a ∈ (shown t).head?, AtMost a.before first := by
  obtain ⟨lines, h1, lead, h2, h3⟩ := Indent.C42_lines isSpace hn cc cfg t out h
  obtain ⟨ws', gaps, k1, k2, k3⟩ := chunks_render (stream_chunks cc [] t) []
  refine ⟨lines, lead, _, gaps, h1, h2, h3.symm.trans k3, k1, ?_⟩
  intro a ha
  have hne : vis (pieces [] t) ≠ [] := by
    intro h0
    have : shown t = [] := h0
    rw [this] at ha; simp at ha
  rw [if_neg hne, List.nil_append]
  exact collapse_max (k2 a ha)

/-! ## Single-line comments -/

theorem meets_split {as bs : List Piece} {a b : Piece} {gs : List Str} (h : Meets (as ++ a :: b :: bs) gs) :
    ∃ gs1 g gs2, gs = gs1 ++ g :: gs2 ∧ AtMost a.after g ∧ AtMost b.before g ∧ gs1.length = as.length ∧
      gs2.length = bs.length := by
  induction as generalizing gs with
  | nil =>
    cases h with
    | more h1 h2 h3 =>
      refine ⟨[], _, _, rfl, h1, h2, rfl, ?_⟩
      clear h1 h2
      generalize hp : b :: bs = ps at h3
      induction h3 generalizing b bs with
      | none => simp at hp
      | one => simp only [List.cons.injEq] at hp; rw [hp.2]; rfl
      | more _ _ _ ih =>
        simp only [List.cons.injEq] at hp
        rw [hp.2, List.length_cons, ih rfl, List.length_cons]
  | cons x as ih =>
    cases as with
    | nil =>
      cases h with
      | more h1 h2 h3 =>
        obtain ⟨gs1, g, gs2, e, k1, k2, k3, k4⟩ := ih h3
        exact ⟨_ :: gs1, g, gs2, by rw [e]; rfl, k1, k2, by simp [k3], k4⟩
    | cons y as =>
      cases h with
      | more h1 h2 h3 =>
        obtain ⟨gs1, g, gs2, e, k1, k2, k3, k4⟩ := ih h3
        exact ⟨_ :: gs1, g, gs2, by rw [e]; rfl, k1, k2, by simp [k3], k4⟩

theorem weave_split (xs ys : List Str) (x y : Str) (gs1 gs2 : List Str) (g : Str) (h1 : gs1.length = xs.length) :
    weave (xs ++ x :: y :: ys) (gs1 ++ g :: gs2) = weave (xs ++ [x]) gs1 ++ g ++ weave (y :: ys) gs2 := by
  induction xs generalizing gs1 with
  | nil =>
    cases gs1 with
    | nil => simp [weave]
    | cons => simp at h1
  | cons z xs ih =>
    cases gs1 with
    | nil => simp at h1
    | cons k gs1 =>
      have := ih gs1 (by simpa using h1)
      cases xs with
      | nil => simp only [List.nil_append, List.cons_append, weave] at this ⊢; rw [this]; simp
      | cons w xs => simp only [List.cons_append, weave] at this ⊢; rw [this]; simp

theorem weave_last (xs : List Str) (x : Str) (gs : List Str) (h : gs.length = xs.length) :
    ∃ X, weave (xs ++ [x]) gs = X ++ x ∧ ((∀ g ∈ gs, Plain g) → squeeze X = squeeze xs.flatten) := by
  induction xs generalizing gs with
  | nil =>
    cases gs with
    | nil => exact ⟨[], by simp [weave], by simp⟩
    | cons => simp at h
  | cons z xs ih =>
    cases gs with
    | nil => simp at h
    | cons k gs =>
      obtain ⟨X, h1, h2⟩ := ih gs (by simpa using h)
      refine ⟨z ++ k ++ X, ?_, ?_⟩
      · cases xs with
        | nil =>
          simp only [List.nil_append, List.cons_append, weave] at h1 ⊢
          rw [List.append_assoc (z ++ k), ← h1]
        | cons w xs => simp only [List.cons_append, weave] at h1 ⊢; rw [h1]; simp
      · intro hg
        have k1 := h2 fun g hg' => hg g (by simp [hg'])
        have k2 := squeeze_plain (hg k (by simp))
        unfold squeeze at *
        rw [List.flatten_cons, List.filter_append, List.filter_append, List.filter_append, k2, k1]
        simp

/-- **C71**: a text that asks for a newline after it, such as a single-line comment, does not hide the texts after
it: it is followed by whitespace with a newline. Before and after it are the texts of the others. -/
theorem C71_comment (cc : Concat) (t : Node.Tree Elem) (hp : allPlain cc t) (as bs : List Piece) (a : Piece)
    (h : shown t = as ++ a :: bs) (hb : bs ≠ []) (hn : '\n' ∈ a.after) :
    ∃ X g Y, write cc t = X ++ a.text ++ g ++ Y ∧ Plain g ∧ '\n' ∈ g ∧
      squeeze X = squeeze (as.map Piece.text).flatten ∧ squeeze Y = squeeze (bs.map Piece.text).flatten := by
  obtain ⟨gaps, h1, h2, h3⟩ := C71_write cc t
  obtain ⟨b, bs', rfl⟩ := List.exists_cons_of_ne_nil hb
  rw [h] at h1 h3
  obtain ⟨gs1, g, gs2, e, k1, -, k3, k4⟩ := meets_split h1
  subst e
  have hpl : ∀ x ∈ gs1 ++ g :: gs2, Plain x := fun x hx => hp x (h2 x hx)
  rw [List.map_append, List.map_cons, List.map_cons, weave_split _ _ _ _ _ _ _ (by simpa using k3)] at h3
  obtain ⟨X, w1, w2⟩ := weave_last (as.map Piece.text) a.text gs1 (by simpa using k3)
  refine ⟨X, g, _, by rw [h3, w1], hpl g (by simp), ?_, w2 fun x hx => hpl x (by simp [hx]), ?_⟩
  · have : 0 < a.after.count '\n' := List.count_pos_iff.mpr hn
    have : 0 < g.count '\n' := by rcases k1 with k | k <;> omega
    exact List.count_pos_iff.mp this
  · rw [List.map_cons]
    exact squeeze_weave _ _ (by simp [k4]) fun x hx => hpl x (by simp [hx])

/-! ## Edited documents -/

open Quickly.Edits Quickly.Edits.Spec

/-- **C71**, `edit()`: the texts of the tree are in the document in order, and the whitespace between each two is at
least as important as what they ask for, or it is the whitespace that was there. (The last does not suffice if a new text
was added before it, see below.) -/
theorem C71_edit_partial (isSpace : Char → Bool) (cc : Concat) (doc : Str) (ctx : Context) (start stop : Option ℕ)
    (t : Node.Tree Elem) (hp : Parsed isSpace doc ctx.tokens)
    (hs : ∀ k ∈ ctx.tokens, k.2 ≤ startOf ctx start ∨ startOf ctx start ≤ k.1)
    (hk : Kept doc ctx.tokens (startOf ctx start) (points cc t))
    (hsp : spacesOnly isSpace (points cc t))
    (he : ∀ pt ∈ points cc t, ∀ p e, pt.range = some (p, e) → e ≤ stop.getD ctx.stop)
    (hse : startOf ctx start ≤ stop.getD ctx.stop) :
    ∃ gaps, EMeets doc (startOf ctx start) (points cc t) (visible (points cc t)) gaps ∧
      (∀ g ∈ gaps, ∀ c ∈ g, isSpace c = true) ∧
      edit cc doc ctx start stop t = doc.take (startOf ctx start) ++
        interleave gaps ((visible (points cc t)).map (Edits.Spec.shown doc)) ++ doc.drop (stop.getD ctx.stop) := by
  obtain ⟨gaps, h1, h2, h0, h3⟩ := apply_gaps hp (stop.getD ctx.stop) (points cc t) hsp _ _ [] (at_start hs) hk (by simp) 0
    (Nat.zero_le _)
  refine ⟨gaps, (gaps_emeets h0 (fun _ h => h) (.inl rfl)).1, h2, ?_⟩
  have hl : ∀ (pts : List Point) (pos : ℕ), (∀ pt ∈ pts, ∀ p e, pt.range = some (p, e) → e ≤ stop.getD ctx.stop) →
      pos ≤ stop.getD ctx.stop → lastEnd pos pts ≤ stop.getD ctx.stop := by
    intro pts
    induction pts with
    | nil => intro pos _ h; exact h
    | cons pt pts ih =>
      intro pos h1 h2
      rw [lastEnd]
      cases hr : pt.range with
      | none => exact ih pos (fun q hq => h1 q (by simp [hq])) h2
      | some pe => exact ih pe.2 (fun q hq => h1 q (by simp [hq])) (h1 pt (by simp) pe.1 pe.2 hr)
  rw [edit, edits]
  have := h3
  rw [slice_zero, show max (lastEnd (startOf ctx start) (points cc t)) (stop.getD ctx.stop) = stop.getD ctx.stop by
    have := hl (points cc t) (startOf ctx start) he hse; omega] at this
  exact this

/-- **C71**, `edit()`: whitespace that is asked for is never absent: where two texts ask for some whitespace between them, there is
some. -/
theorem C71_edit_apart {doc : Str} {start : ℕ} {pts ps qs : List Point} {a b : Point} {gaps : List Str}
    (hm : EMeets doc start pts (ps ++ a :: b :: qs) gaps) (hd : ∀ pt ∈ pts, ∀ p e, pt.range = some (p, e) → p ≤ doc.length)
    (hb : b ∈ pts) (h1 : Plain a.after) (h2 : Plain b.before) (h : a.after ≠ [] ∨ b.before ≠ []) :
    ∃ g, gaps[ps.length + 1]? = some g ∧ g ≠ [] := by
  induction ps generalizing gaps with
  | nil =>
    cases hm with
    | more k1 k2 =>
      refine ⟨_, rfl, ?_⟩
      rcases k1 with ⟨k1, k3⟩ | ⟨q, p, e, r1, r2, r3, -⟩
      · intro hg
        rw [hg] at k1 k3
        rcases h with h | h
        · exact h (key_zero h1 k1)
        · exact h (key_zero h2 k3)
      · have hlen := hd b hb p e r1
        intro hg
        rw [hg] at r3
        have := congrArg List.length r3
        rw [slice, List.length_drop, List.length_take] at this
        simp only [List.length_nil] at this
        omega
  | cons x ps ih =>
    cases ps with
    | nil =>
      cases hm with
      | more k1 k2 =>
        obtain ⟨g, g1, g2⟩ := ih k2
        exact ⟨g, g1, g2⟩
    | cons y ps =>
      cases hm with
      | more k1 k2 =>
        obtain ⟨g, g1, g2⟩ := ih k2
        exact ⟨g, g1, g2⟩

/-- A new single-line comment, `quickly/dom/lily.py` L2401-2410. -/
def exComment : Elem := { kind := .head, head := "%x".toList, sp := { after := ['\n'] } }

/-- C71 does not hold for `edit()`: a single-line comment that is inserted between the notes of `{ c d }` hides the
second note and the closing brace. `write()` of the same tree does not. -/
theorem C71_edit_comment_hides :
    edit defaultConcat exDoc exContext none none (exList [.node exC [], .node exComment [], .node exD []]) =
      "{ c %x d }".toList ∧
    write defaultConcat (exList [.node exC [], .node exComment [], .node exD []]) = "{ c %x\nd }".toList := by
  decide +kernel

/-! ### Examples -/

example : (shown (exList [.node exC [], .node exComment [], .node exD []])).map (fun a => (a.place, a.tail, a.text)) =
    [([], false, ['{']), ([0], false, ['c']), ([1], false, "%x".toList), ([2], false, ['d']), ([], true, ['}'])] := by
  decide +kernel
example : (shown (exList [.node exC [], .node exComment [], .node exD []])).map (fun a => (a.before, a.after)) =
    [([], [' ']), ([], []), ([], ['\n']), ([], []), ([' '], [])] := by
  decide +kernel
-- inserted after the last note: there the newline comes, as the space before the brace is replaced
example : edit defaultConcat exDoc exContext none none (exList [.node exC [], .node exComment []]) = "{ c %x\n}".toList := by
  decide +kernel

end Quickly.Wishes
