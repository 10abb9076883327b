import Verif.Newlines.Lemmas
import Verif.Wishes.Props

/-!
# C72: the line breaks of the original text are retained
-/

namespace Quickly.Newlines

open Quickly.Node Quickly.Text Quickly.Text.Spec Quickly.Wishes Quickly.Newlines.Spec

/-! ## Raising -/

theorem handleTail_missing {text sep : Str} {m : ℤ} {cur : ℕ} {e : Elem} (h : tailMissing e = true) :
    handleTail text sep m cur e = .error .indexError := by
  unfold tailMissing at h
  simp only [Bool.and_eq_true, beq_iff_eq, Option.isNone_iff_eq_none, Option.isSome_iff_exists] at h
  obtain ⟨⟨h1, x, h2⟩, h3⟩ := h
  simp [handleTail, h1, h2, h3]

theorem handleTail_ok {text sep : Str} {m : ℤ} {cur : ℕ} {e : Elem} (h : tailMissing e = false) :
    ∃ r, handleTail text sep m cur e = .ok r := by
  unfold tailMissing at h
  unfold handleTail
  cases hk : e.kind <;> cases ho : e.headOrigin <;> cases ht : e.tailOrigin <;> simp_all

mutual
theorem handle_result (text sep : Str) (m : ℤ) (cur : ℕ) (t : Node.Tree Elem) :
    if (elems t).any tailMissing then handle text sep m cur t = .error .indexError
    else ∃ r, handle text sep m cur t = .ok r := by
  cases t with
  | node e cs =>
    rw [elems, handle, List.any_cons]
    have hk := kids_result text sep m (handleHead text sep m cur e).2 cs
    split at hk
    · rename_i h
      rw [h, Bool.or_true, if_pos rfl, hk]; rfl
    · rename_i h
      obtain ⟨r, hr⟩ := hk
      rw [Bool.not_eq_true] at h
      rw [h, Bool.or_false, hr]
      cases hm : tailMissing e with
      | true =>
        rw [if_pos rfl]
        simp only [bind, Except.bind]
        rw [handleTail_missing hm]
      | false =>
        obtain ⟨r', hr'⟩ := handleTail_ok (text := text) (sep := sep) (m := m) (cur := r.2) hm
        rw [if_neg (by simp)]
        simp only [bind, Except.bind]
        rw [hr']
        exact ⟨_, rfl⟩
theorem kids_result (text sep : Str) (m : ℤ) (cur : ℕ) (cs : List (Node.Tree Elem)) :
    if (elemsL cs).any tailMissing then handle.kids text sep m cur cs = .error .indexError
    else ∃ r, handle.kids text sep m cur cs = .ok r := by
  cases cs with
  | nil => exact ⟨_, rfl⟩
  | cons c cs =>
    rw [elemsL, handle.kids, List.any_append]
    have h1 := handle_result text sep m cur c
    split at h1
    · rename_i h
      rw [h, Bool.true_or, if_pos rfl, h1]; rfl
    · rename_i h
      obtain ⟨r, hr⟩ := h1
      rw [Bool.not_eq_true] at h
      rw [h, Bool.false_or, hr]
      have h2 := kids_result text sep m r.2 cs
      split at h2
      · rename_i h'
        rw [h', if_pos rfl]
        simp only [bind, Except.bind]
        rw [h2]
      · rename_i h'
        obtain ⟨r', hr'⟩ := h2
        rw [if_neg h']
        simp only [bind, Except.bind]
        rw [hr']
        exact ⟨_, rfl⟩
end

/-- C72 does not hold if the source text is incomplete: where the tail of an element was missing, IndexError is raised. -/
theorem C72_missing_tail_raises (text sep : Str) (m : ℤ) (t : Node.Tree Elem) :
    addNewlines text sep m t = .error .indexError ↔ ∃ e ∈ elems t, tailMissing e = true := by
  have h := handle_result text sep m (seek text sep 0) t
  rw [← List.any_eq_true]
  unfold addNewlines
  split at h
  · rename_i h'
    rw [h]
    exact ⟨fun _ => h', fun _ => rfl⟩
  · rename_i h'
    obtain ⟨r, hr⟩ := h
    rw [hr]
    exact ⟨fun h => (by cases h), fun h => absurd h h'⟩

/-- **C72**: it is the only way to fail. Missing: documents with missing tails. -/
theorem C72_succeeds_partial (text sep : Str) (m : ℤ) (t : Node.Tree Elem) (h : ∀ e ∈ elems t, tailMissing e = false) :
    ∃ t', addNewlines text sep m t = .ok t' := by
  have h1 := handle_result text sep m (seek text sep 0) t
  rw [if_neg (by
    intro h2
    obtain ⟨e, he, h3⟩ := List.any_eq_true.mp h2
    rw [h e he] at h3; exact absurd h3 (by simp))] at h1
  obtain ⟨r, hr⟩ := h1
  exact ⟨r.1, by rw [addNewlines, hr]; rfl⟩

/-! ## What is set -/

theorem addNewlines_set {text sep : Str} {m : ℤ} {t t' : Node.Tree Elem} (h : addNewlines text sep m t = .ok t') :
    ∃ k, Set text sep m 0 (pieces [] t) (pieces [] t') k ∧ unspaced t' = unspaced t := by
  rw [addNewlines] at h
  obtain ⟨⟨t'', c⟩, h1, h2⟩ := bind_ok h
  simp only [pure, Except.pure, Except.ok.injEq] at h2
  subst h2
  obtain ⟨k, s, -, u⟩ := handle_set [] t t'' (seek_at text sep 0 (Nat.zero_le _)) h1
  exact ⟨k, s, u⟩

theorem set_befores {text sep : Str} {m : ℤ} {k k' : ℕ} {as bs : List Piece} (h : Set text sep m k as bs k') :
    bs.map Piece.before = List.zipWith raised (due text sep m k as) (as.map Piece.before) := by
  induction h with
  | nil => rfl
  | none h1 h2 _ ih => simp [due, h1, ih, h2.before]
  | some h1 h2 _ ih => simp [due, h1, ih, h2.before]

/-- **C72**: exactly the whitespace before heads and tails is changed, in exactly this way: if there are more newlines between the
previous text and this one in the source than the element asks for, then it becomes that number of newlines, but
not more than the maximum. -/
theorem C72_set (text sep : Str) (m : ℤ) (t t' : Node.Tree Elem) (h : addNewlines text sep m t = .ok t') :
    (pieces [] t').map Piece.before = List.zipWith raised (due text sep m 0 (pieces [] t)) ((pieces [] t).map Piece.before) ∧
    unspaced t' = unspaced t := by
  obtain ⟨k, s, u⟩ := addNewlines_set h
  exact ⟨set_befores s, u⟩

/-- Separators are counted as expected: newlines by counting them in the source from the one position until the
other. -/
theorem blocks_newlines (text : Str) (p q : ℕ) : blocks text ['\n'] p q = (Edits.Spec.slice text p q).count '\n' := by
  induction q with
  | zero => simp [blocks, Edits.Spec.slice]
  | succ q ih =>
    rw [blocks_succ, ih]
    unfold Edits.Spec.slice
    by_cases hq : q < text.length
    · rw [List.take_add_one, List.getElem?_eq_getElem hq, Option.toList_some]
      have hs : sepAt text ['\n'] q = true ↔ text[q] = '\n' := by
        simp only [sepAt, hq, decide_true, Bool.true_and, List.drop_eq_getElem_cons hq]
        simp only [List.isPrefixOf, Bool.and_true, beq_iff_eq]
        exact eq_comm
      by_cases hp : p ≤ q
      · rw [List.drop_append_of_le_length (by rw [List.length_take]; omega), List.count_append]
        congr 1
        by_cases hc : text[q] = '\n'
        · rw [if_pos ⟨hp, hs.mpr hc⟩, hc]; rfl
        · rw [if_neg (fun h => hc (hs.mp h.2)), List.count_cons]; simp [hc]
      · rw [if_neg (fun h => hp h.1), List.drop_eq_nil_of_le (by rw [List.length_take]; omega),
          List.drop_eq_nil_of_le (by rw [List.length_append, List.length_take]; simp only [List.length_singleton]; omega)]
        rfl
    · rw [if_neg (fun h => by rw [sepAt_end (by omega)] at h; simp at h), List.take_of_length_le (by omega),
        List.take_of_length_le (by omega)]
      rfl

/-! ## What is written -/

theorem set_filter {text sep : Str} {m : ℤ} {k k' : ℕ} {as bs : List Piece} (h : Set text sep m k as bs k')
    (ho : ∀ a ∈ as, pos a ≠ none → a.text ≠ []) :
    Set text sep m k (as.filter fun a => a.text ≠ []) (bs.filter fun a => a.text ≠ []) k' := by
  induction h with
  | nil => exact .nil
  | none h1 h2 _ ih =>
    rename_i a b as bs _
    have ih := ih fun x hx => ho x (by simp [hx])
    by_cases ht : a.text = []
    · rw [List.filter_cons_of_neg (by simp [ht]), List.filter_cons_of_neg (by simp [h2.text, ht])]
      exact ih
    · rw [List.filter_cons_of_pos (by simp [ht]), List.filter_cons_of_pos (by simp [h2.text, ht])]
      exact .none h1 h2 ih
  | some h1 h2 _ ih =>
    rename_i a b as bs _
    have ih := ih fun x hx => ho x (by simp [hx])
    have ht := ho a (by simp) (by simp [h1])
    rw [List.filter_cons_of_pos (by simp [ht]), List.filter_cons_of_pos (by simp [h2.text, ht])]
    exact .some h1 h2 ih

theorem set_texts {text sep : Str} {m : ℤ} {k k' : ℕ} {as bs : List Piece} (h : Set text sep m k as bs k') :
    bs.map Piece.text = as.map Piece.text := by
  induction h with
  | nil => rfl
  | none h1 h2 _ ih => simp [ih, h2.text]
  | some h1 h2 _ ih => simp [ih, h2.text]

theorem le_raised (n : ℕ) (w : Str) : n ≤ (raised n w).count '\n' := by
  unfold raised
  split
  · rw [List.count_replicate_self]; exact Nat.le_refl _
  · omega

theorem set_get {text sep : Str} {m : ℤ} {k k' : ℕ} {as bs : List Piece} (h : Set text sep m k as bs k') {i : ℕ} {b : Piece}
    {n : ℕ} (hb : bs[i]? = some b) (hn : (due text sep m k as)[i]? = some n) : ∃ a, as[i]? = some a ∧ b.before = raised n a.before := by
  induction h generalizing i with
  | nil => simp at hb
  | none h1 h2 _ ih =>
    rename_i a b' as bs _
    simp only [due, h1] at hn
    cases i with
    | zero =>
      simp only [List.getElem?_cons_zero, Option.some.injEq] at hb hn
      subst hb hn
      exact ⟨a, rfl, h2.before⟩
    | succ i =>
      simp only [List.getElem?_cons_succ] at hb hn ⊢
      exact ih hb hn
  | some h1 h2 _ ih =>
    rename_i a b' as bs _
    simp only [due, h1] at hn
    cases i with
    | zero =>
      simp only [List.getElem?_cons_zero, Option.some.injEq] at hb hn
      subst hb hn
      exact ⟨a, rfl, h2.before⟩
    | succ i =>
      simp only [List.getElem?_cons_succ] at hb hn ⊢
      exact ih hb hn

theorem meets_get {ps : List Piece} {gs : List Str} (h : Meets ps gs) {i : ℕ} {g : Str} (hg : gs[i]? = some g) :
    ∃ b, ps[i + 1]? = some b ∧ AtMost b.before g := by
  induction h generalizing i with
  | none => simp at hg
  | one => simp at hg
  | more h1 h2 h3 ih =>
    cases i with
    | zero =>
      simp only [List.getElem?_cons_zero, Option.some.injEq] at hg
      subst hg
      exact ⟨_, rfl, h2⟩
    | succ i =>
      simp only [List.getElem?_cons_succ] at hg ⊢
      exact ih hg

theorem atMost_newlines {a b : Str} (h : AtMost a b) : a.count '\n' ≤ b.count '\n' := by
  unfold AtMost at h; omega

theorem set_gaps {text sep : Str} {m : ℤ} {k : ℕ} {t t' : Node.Tree Elem} (hs : Set text sep m 0 (shown t) (shown t') k)
    {gaps : List Str} (hm : Meets (shown t') gaps) (i : ℕ) (g : Str) (n : ℕ) (hg : gaps[i]? = some g)
    (hn : (due text sep m 0 (shown t))[i + 1]? = some n) : n ≤ g.count '\n' := by
  obtain ⟨b, hb, hle⟩ := meets_get hm hg
  obtain ⟨a, -, hr⟩ := set_get hs hb hn
  have h1 := atMost_newlines hle
  rw [hr] at h1
  exact Nat.le_trans (le_raised _ _) h1

/-- **C72**, `write()`: after `add_newlines()` the same texts are written, with before each of them (but the first) at least
the newlines that are between it and the previous one in the source text, up to the maximum. -/
theorem C72_write (cc : Concat) (text sep : Str) (m : ℤ) (t t' : Node.Tree Elem) (h : addNewlines text sep m t = .ok t')
    (ho : OriginsShown t) :
    ∃ gaps, write cc t' = weave ((shown t).map Piece.text) gaps ∧ gaps.length + 1 = max 1 (shown t).length ∧
      ∀ i g n, gaps[i]? = some g → (due text sep m 0 (shown t))[i + 1]? = some n → n ≤ g.count '\n' := by
  obtain ⟨k, s, -⟩ := addNewlines_set h
  have hs : Set text sep m 0 (shown t) (shown t') k := set_filter s ho
  obtain ⟨gaps, h1, -, h3⟩ := C71_write cc t'
  refine ⟨gaps, by rw [h3, set_texts hs], ?_, set_gaps hs h1⟩
  have hl : (shown t').length = (shown t).length := by
    have := congrArg List.length (set_texts hs)
    simpa using this
  rw [← hl]
  clear hl h3 hs s
  generalize shown t' = ps at h1
  induction h1 with
  | none => rfl
  | one => rfl
  | more _ _ _ ih => simp only [List.length_cons] at ih ⊢; omega

/-- **C72**, `write_indented()`: the same for the lines without their indents. -/
theorem C72_indented (isSpace : Char → Bool) (hsp : isSpace '\n' = true) (cc : Concat) (cfg : Indent.Config) (text sep : Str) (m : ℤ)
    (t t' : Node.Tree Elem) (h : addNewlines text sep m t = .ok t') (ho : OriginsShown t) (out : Str)
    (hw : Indent.writeIndented isSpace cc cfg t' = .ok out) :
    ∃ (lines : List (ℕ × Str)) (lead first : Str) (gaps : List Str),
      out = (lines.flatMap fun l => List.replicate l.1 ' ' ++ l.2 ++ ['\n']) ∧ (∀ c ∈ lead, isSpace c = true) ∧
      lead ++ Indent.Spec.joinLines (lines.map Prod.snd) = first ++ weave ((shown t).map Piece.text) gaps ∧
      ∀ i g n, gaps[i]? = some g → (due text sep m 0 (shown t))[i + 1]? = some n → n ≤ g.count '\n' := by
  obtain ⟨k, s, -⟩ := addNewlines_set h
  have hs : Set text sep m 0 (shown t) (shown t') k := set_filter s ho
  obtain ⟨lines, lead, first, gaps, h1, h2, h3, h4, -⟩ := C71_indented isSpace hsp cc cfg t' out hw
  exact ⟨lines, lead, first, gaps, h1, h2, by rw [h3, set_texts hs], set_gaps hs h4⟩

/-! ## Only these newlines -/

theorem collapseLast_after {P : Str → Prop} {ps : List Point} {w : Str} (h : ∀ p ∈ ps, P p.after) (hw : P w) :
    ∀ p ∈ collapseLast ps w, P p.after := by
  induction ps with
  | nil => simp [collapseLast]
  | cons p ps ih =>
    cases ps with
    | nil =>
      intro q hq
      simp only [collapseLast, List.mem_singleton] at hq
      subst hq
      have := collapse_mem (xs := [p.after, w]) (by simp)
      simp only [List.mem_cons, List.not_mem_nil, or_false] at this
      rcases this with e | e
      · simp only [e]; exact h p (by simp)
      · simp only [e]; exact hw
    | cons q qs =>
      intro r hr
      rw [collapseLast, List.mem_cons] at hr
      rcases hr with rfl | hr
      · exact h _ (by simp)
      · exact ih (fun p hp => h p (by simp [hp])) r hr

mutual
theorem points_after {P : Str → Prop} (cc : Concat) (t : Node.Tree Elem)
    (h : ∀ e ∈ elems t, P e.sp.afterHead ∧ P e.sp.after ∧ ∀ c d, P (cc e c d)) : ∀ p ∈ points cc t, P p.after := by
  cases t with
  | node e cs =>
    have he := h e (by simp [elems])
    intro p hp
    simp only [points, List.mem_append, Option.mem_toList] at hp
    rcases hp with (hp | hp) | hp
    · unfold headPoint at hp
      split at hp
      · simp at hp
      · simp only [Option.some.injEq] at hp
        subst hp
        simp only
        split
        · exact he.1
        · exact he.2.1
    · exact kids_after cc e he.2.1 he.2.2 cs (fun x hx => h x (by simp [elems, hx])) p hp
    · unfold tailPoint at hp
      split at hp
      · simp only [Option.some.injEq] at hp
        subst hp
        exact he.2.1
      · simp at hp
theorem kids_after {P : Str → Prop} (cc : Concat) (e : Elem) (he : P e.sp.after)
    (hcc : ∀ c d, P (cc e c d)) (cs : List (Node.Tree Elem))
    (h : ∀ e ∈ elemsL cs, P e.sp.afterHead ∧ P e.sp.after ∧ ∀ c d, P (cc e c d)) :
    ∀ p ∈ points.kids cc e cs, P p.after := by
  cases cs with
  | nil => simp [points.kids]
  | cons n ns =>
    intro p hp
    simp only [points.kids, List.mem_append] at hp
    have h1 := points_after cc n fun x hx => h x (by simp [elemsL, hx])
    rcases hp with hp | hp
    · cases ns with
      | cons m ms => exact collapseLast_after h1 (hcc _ _) p hp
      | nil =>
        simp only at hp
        split at hp
        · exact h1 p hp
        · exact collapseLast_after h1 he p hp
    · exact kids_after cc e he hcc ns (fun x hx => h x (by simp [elemsL, hx])) p hp
end

mutual
theorem elems_unspaced (t : Node.Tree Elem) : (elems (unspaced t)).map (fun e => (e.sp.afterHead, e.sp.between, e.sp.after)) =
    (elems t).map fun e => (e.sp.afterHead, e.sp.between, e.sp.after) := by
  cases t with
  | node e cs => rw [unspaced, elems, elems, List.map_cons, List.map_cons, elemsL_unspaced cs]
theorem elemsL_unspaced (cs : List (Node.Tree Elem)) : (elemsL (unspacedL cs)).map (fun e => (e.sp.afterHead, e.sp.between, e.sp.after)) =
    (elemsL cs).map fun e => (e.sp.afterHead, e.sp.between, e.sp.after) := by
  cases cs with
  | nil => rfl
  | cons c cs => rw [unspacedL, elemsL, elemsL, List.map_append, List.map_append, elems_unspaced c, elemsL_unspaced cs]
end

theorem layout_gap (fs : List Frag) (h : ∀ f ∈ fs, f.text ≠ []) (i : ℕ) (g : Str)
    (hg : ((layout fs).2.dropLast.map fun u => collapse u.2)[i]? = some g) :
    ∃ f f', fs[i]? = some f ∧ fs[i + 1]? = some f' ∧ (g = f.after ∨ g = f'.before) := by
  induction fs generalizing i with
  | nil => simp [layout] at hg
  | cons f fs ih =>
    have hf := h f (by simp)
    cases fs with
    | nil => simp [layout, hf] at hg
    | cons f' fs =>
      have hf' := h f' (by simp)
      have ih := ih fun x hx => h x (by simp [hx])
      have e : (layout (f' :: fs)).1 = [f'.before] := by simp [layout, hf']
      have e2 : (layout (f' :: fs)).2 ≠ [] := by simp [layout, hf']
      rw [layout] at hg
      simp only [hf, if_false] at hg
      rw [List.dropLast_cons_of_ne_nil e2, List.map_cons] at hg
      cases i with
      | zero =>
        simp only [List.getElem?_cons_zero, Option.some.injEq] at hg
        refine ⟨f, f', rfl, rfl, ?_⟩
        rw [e] at hg
        have := collapse_mem (xs := [f.after, f'.before]) (by simp)
        rw [hg] at this
        simpa using this
      | succ i =>
        simp only [List.getElem?_cons_succ] at hg ⊢
        exact ih i hg

mutual
theorem pieces_elem (p : Path) (t : Node.Tree Elem) : ∀ a ∈ pieces p t, a.elem ∈ elems t := by
  cases t with
  | node e cs =>
    intro a ha
    rw [elems]
    simp only [Wishes.pieces, List.mem_append] at ha
    rcases ha with (ha | ha) | ha
    · split at ha
      · simp at ha
      · simp only [List.mem_singleton] at ha; subst ha; simp
    · exact List.mem_cons_of_mem _ (go_elem p 0 cs a ha)
    · split at ha
      · simp only [List.mem_singleton] at ha; subst ha; simp
      · simp at ha
theorem go_elem (p : Path) (i : ℕ) (cs : List (Node.Tree Elem)) : ∀ a ∈ pieces.go p i cs, a.elem ∈ elemsL cs := by
  cases cs with
  | nil => simp [pieces.go]
  | cons c cs =>
    intro a ha
    rw [elemsL]
    simp only [pieces.go, List.mem_append] at ha ⊢
    rcases ha with ha | ha
    · exact .inl (pieces_elem _ c a ha)
    · exact .inr (go_elem p (i + 1) cs a ha)
end

theorem forall₂_get {α β : Type} {R : α → β → Prop} {as : List α} {bs : List β} (h : List.Forall₂ R as bs) {i : ℕ} {b : β}
    (hb : bs[i]? = some b) : ∃ a, as[i]? = some a ∧ R a b := by
  induction h generalizing i with
  | nil => simp at hb
  | cons h1 _ ih =>
    cases i with
    | zero => simp only [List.getElem?_cons_zero, Option.some.injEq] at hb; subst hb; exact ⟨_, rfl, h1⟩
    | succ i => simp only [List.getElem?_cons_succ] at hb ⊢; exact ih hb

/-- **C72**: if the elements do not ask for newlines by themselves, then there are no other newlines: after `add_newlines()`
exactly the newlines of the source are written, up to the maximum. Missing: the newlines inside the previous token count too, see
`C72_multiline_token`. -/
theorem C72_exact_partial (cc : Concat) (text sep : Str) (m : ℤ) (t t' : Node.Tree Elem) (h : addNewlines text sep m t = .ok t')
    (ha : ∀ a ∈ pieces [] t, a.text ≠ []) (hn : NoNewlines cc t) :
    ∃ gaps, write cc t' = weave ((shown t).map Piece.text) gaps ∧ gaps.length + 1 = max 1 (shown t).length ∧
      ∀ i g, gaps[i]? = some g → (due text sep m 0 (shown t))[i + 1]? = some (g.count '\n') := by
  obtain ⟨k, s, hu⟩ := addNewlines_set h
  have hs : Set text sep m 0 (shown t) (shown t') k := set_filter s fun a h _ => ha a h
  have hf := shows_filter (pieces_points cc [] t')
  have hm := meets_of hf (layout_meets _)
  refine ⟨(layout (frags (points cc t'))).2.dropLast.map fun u => collapse u.2, ?_, ?_, ?_⟩
  · rw [← set_texts hs, shown, ← forall₂_texts hf, ← map_filter_text]
    have h2 : write cc t' = join (layout (frags (points cc t'))).2 := by
      rw [write_eq, out, combine_eq]
    rw [h2, join_weave, layout_texts]
  · have hl : (shown t').length = (shown t).length := by
      have := congrArg List.length (set_texts hs)
      simpa using this
    rw [← hl]
    have hm : Meets (shown t') ((layout (frags (points cc t'))).2.dropLast.map fun u => collapse u.2) := hm
    generalize (layout (frags (points cc t'))).2.dropLast.map (fun u => collapse u.2) = gs at hm
    generalize shown t' = ps at hm
    induction hm with
    | none => rfl
    | one => rfl
    | more _ _ _ ih => simp only [List.length_cons] at ih ⊢; omega
  · intro i g hg
    have ha' : ∀ a ∈ pieces [] t', a.text ≠ [] := by
      intro b hb
      have : b.text ∈ (pieces [] t').map Piece.text := List.mem_map_of_mem hb
      rw [set_texts s, List.mem_map] at this
      obtain ⟨a, h1, h2⟩ := this
      rw [← h2]; exact ha a h1
    have hall : ∀ f ∈ frags (points cc t'), f.text ≠ [] := by
      intro f hf
      have h1 := pieces_points cc [] t'
      obtain ⟨p, hp, rfl⟩ := List.mem_map.mp hf
      obtain ⟨j, hj, he⟩ := List.getElem_of_mem hp
      obtain ⟨a, g1, g2⟩ := forall₂_get h1 (i := j) (b := p) (by rw [List.getElem?_eq_getElem hj, he])
      have := ha' a (List.mem_of_getElem? g1)
      rw [← g2.1] at this
      exact this
    have hafter : ∀ f ∈ frags (points cc t'), '\n' ∉ f.after := by
      intro f hf
      obtain ⟨p, hp, rfl⟩ := List.mem_map.mp hf
      refine points_after (P := fun w => '\n' ∉ w) cc t' ?_ p hp
      intro e he
      have h1 : (e.sp.afterHead, e.sp.between, e.sp.after) ∈ (elems t').map fun e => (e.sp.afterHead, e.sp.between, e.sp.after) := List.mem_map_of_mem he
      rw [← elems_unspaced, hu, elems_unspaced, List.mem_map] at h1
      obtain ⟨e2, h2, h3⟩ := h1
      simp only [Prod.mk.injEq] at h3
      have h4 := hn.1 e2 h2
      refine ⟨h3.1 ▸ h4.2.1, h3.2.2 ▸ h4.2.2.2.2, hn.2 e (h3.2.1 ▸ h4.2.2.1)⟩
    obtain ⟨f, f', f1, f2, f3⟩ := layout_gap _ hall i g hg
    obtain ⟨b, hb, hle⟩ := meets_get hm hg
    have hle := atMost_newlines hle
    -- the next piece
    have hfb : f'.before = b.before := by
      have h0 : (frags (points cc t')).filter (fun f => f.text ≠ []) = frags (points cc t') :=
        List.filter_eq_self.mpr fun f hf => by simpa using hall f hf
      have f2' : ((frags (points cc t')).filter (fun f => f.text ≠ []))[i + 1]? = some f' := by rw [h0]; exact f2
      obtain ⟨b', e1, e2⟩ := forall₂_get hf f2'
      have e1 : (shown t')[i + 1]? = some b' := e1
      have hb : (shown t')[i + 1]? = some b := hb
      rw [hb] at e1
      simp only [Option.some.injEq] at e1
      rw [e1]; exact e2.2.1
    have hgb : g.count '\n' = b.before.count '\n' := by
      rcases f3 with e | e
      · have : g.count '\n' = 0 := by
          rw [e]; exact List.count_eq_zero.mpr (hafter f (List.mem_of_getElem? f1))
        omega
      · rw [e, hfb]
    have hlen : i + 1 < (due text sep m 0 (shown t)).length := by
      have h1 : (shown t')[i + 1]? = some b := hb
      have h2 := (List.getElem?_eq_some_iff.mp h1).1
      have : ∀ {k k' as bs}, Set text sep m k as bs k' → (due text sep m k as).length = bs.length := by
        intro k k' as bs h
        induction h with
        | nil => rfl
        | none h1 _ _ ih => simp [due, h1, ih]
        | some h1 _ _ ih => simp [due, h1, ih]
      rw [this hs]; exact h2
    obtain ⟨a, a1, a2⟩ := set_get hs hb (List.getElem?_eq_getElem hlen)
    rw [List.getElem?_eq_getElem hlen, hgb, a2]
    have hmem : a ∈ pieces [] t := (List.mem_filter.mp (List.mem_of_getElem? a1)).1
    have h0 : a.before.count '\n' = 0 := by
      have := hn.1 _ (pieces_elem [] t a hmem)
      refine List.count_eq_zero.mpr ?_
      unfold Piece.before
      split
      · exact this.2.2.2.1
      · exact this.1
    congr 1
    unfold raised
    split
    · rw [List.count_replicate_self]
    · omega

/-! ## Twice -/

theorem better_better (s w : Str) : better s (better s w) = better s w := by
  unfold better
  by_cases h : s ≠ [] ∧ keyLt (key w) (key s) = true
  · rw [if_pos h]; simp
  · rw [if_neg h, if_neg h]

theorem handleHead_twice (text sep : Str) (m : ℤ) (cur : ℕ) (e : Elem) (bt : Str) :
    handleHead text sep m cur { e with sp := { e.sp with before := (handleHead text sep m cur e).1, beforeTail := bt } } =
      handleHead text sep m cur e := by
  unfold handleHead
  cases hk : e.kind <;> cases ho : e.headOrigin <;> simp [better_better]

theorem handleTail_twice (text sep : Str) (m : ℤ) (cur : ℕ) (e : Elem) (b : Str) (r : Str × ℕ)
    (h : handleTail text sep m cur e = .ok r) :
    handleTail text sep m cur { e with sp := { e.sp with before := b, beforeTail := r.1 } } = .ok r := by
  unfold handleTail at *
  cases hk : e.kind <;> cases ho : e.headOrigin <;> cases ht : e.tailOrigin <;> simp_all <;>
    (subst h; simp [better_better])

mutual
theorem handle_twice (text sep : Str) (m : ℤ) (cur : ℕ) (t : Node.Tree Elem) (r : Node.Tree Elem × ℕ)
    (h : handle text sep m cur t = .ok r) : handle text sep m cur r.1 = .ok r := by
  cases t with
  | node e cs =>
    rw [handle] at h
    obtain ⟨ks, h1, h⟩ := bind_ok h
    obtain ⟨tl, h2, h⟩ := bind_ok h
    simp only [pure, Except.pure, Except.ok.injEq] at h
    subst h
    simp only
    rw [handle, handleHead_twice, kids_twice text sep m _ cs ks h1]
    simp only [bind, Except.bind]
    rw [handleTail_twice _ _ _ _ _ _ _ h2]
    rfl
theorem kids_twice (text sep : Str) (m : ℤ) (cur : ℕ) (cs : List (Node.Tree Elem)) (r : List (Node.Tree Elem) × ℕ)
    (h : handle.kids text sep m cur cs = .ok r) : handle.kids text sep m cur r.1 = .ok r := by
  cases cs with
  | nil =>
    simp only [handle.kids, pure, Except.pure, Except.ok.injEq] at h
    subst h; rfl
  | cons c cs =>
    rw [handle.kids] at h
    obtain ⟨r1, h1, h⟩ := bind_ok h
    obtain ⟨r2, h2, h⟩ := bind_ok h
    simp only [pure, Except.pure, Except.ok.injEq] at h
    subst h
    simp only
    rw [handle.kids, handle_twice text sep m cur c r1 h1]
    simp only [bind, Except.bind]
    rw [kids_twice text sep m r1.2 cs r2 h2]
    rfl
end

/-- **C72**: doing it again changes nothing. -/
theorem C72_twice (text sep : Str) (m : ℤ) (t t' : Node.Tree Elem) (h : addNewlines text sep m t = .ok t') :
    addNewlines text sep m t' = .ok t' := by
  rw [addNewlines] at h
  obtain ⟨r, h1, h2⟩ := bind_ok h
  simp only [pure, Except.pure, Except.ok.injEq] at h2
  subst h2
  rw [addNewlines, handle_twice text sep m _ t r h1]
  rfl

/-! ## Examples -/

/-- The text `{ c`, a blank line, `d` and on the next line `}`. -/
def exText : Str := "{ c\n\nd\n}".toList

/-- Its tree. -/
def exTree : Node.Tree Elem :=
  .node { kind := .block, head := ['{'], tail := ['}'], headOrigin := some (0, 1), tailOrigin := some (7, 8),
          sp := { afterHead := [' '], between := [' '], beforeTail := [' '] } }
    [.node { kind := .head, head := ['c'], headOrigin := some (2, 3) } [],
     .node { kind := .head, head := ['d'], headOrigin := some (5, 6) } []]

example : (addNewlines exText ['\n'] 10 exTree).map (write defaultConcat) = .ok exText := by decide +kernel
example : (addNewlines exText ['\n'] 1 exTree).map (write defaultConcat) = .ok "{ c\nd\n}".toList := by decide +kernel
example : due exText ['\n'] 10 0 (shown exTree) = [0, 0, 2, 1] := by decide +kernel
example : ∀ a ∈ pieces [] exTree, a.text ≠ [] := by decide +kernel
example : ∀ e ∈ elems exTree, tailMissing e = false := by decide +kernel
example : NoNewlines defaultConcat exTree := ⟨by decide +kernel, fun _ h _ _ => h⟩

/-- A comment of two lines, then a note on the line where it ends: the text `c %{`, `%} d`. -/
def exComment : Node.Tree Elem :=
  .node { kind := .plain, sp := { between := [' '] } }
    [.node { kind := .head, head := ['c'], headOrigin := some (0, 1) } [],
     .node { kind := .head, head := "%{\n%}".toList, headOrigin := some (2, 7) } [],
     .node { kind := .head, head := ['d'], headOrigin := some (8, 9) } []]

/-- The newlines inside a token count for what comes after it: a note that is on the line where a comment ends is put on a new
line. -/
theorem C72_multiline_token :
    write defaultConcat exComment = "c %{\n%} d".toList ∧
    (addNewlines "c %{\n%} d".toList ['\n'] 10 exComment).map (write defaultConcat) = .ok "c %{\n%}\nd".toList := by
  decide +kernel

/-- The text `{ c`, without the closing brace. -/
def exOpen : Node.Tree Elem :=
  .node { kind := .block, head := ['{'], tail := ['}'], headOrigin := some (0, 1), tailOrigin := none }
    [.node { kind := .head, head := ['c'], headOrigin := some (2, 3) } []]

example : (match addNewlines "{ c".toList ['\n'] 10 exOpen with | .error e => some e | .ok _ => none) = some .indexError := by
  decide +kernel

end Quickly.Newlines
