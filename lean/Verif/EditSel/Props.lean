import Verif.EditSel.Core

/-! # C88: editing a selection -/

namespace Quickly.EditSel

open Quickly.Node Quickly.Text Quickly.Edits Quickly.Edits.Spec Quickly.Find Quickly.Find.Spec Quickly.Cursor Spec

/-- The root context of a document: it goes from the first to the last token. -/
structure Around (ctx : Context) : Prop where
  first : ∀ k ∈ ctx.tokens, ctx.pos ≤ k.1
  last : ∀ k ∈ ctx.tokens, k.2 ≤ ctx.stop

theorem mark_mem {cc : Concat} {a : Node.Tree Elem} {k : Find.Tok} (hk : k ∈ toks (orgs a)) :
    ∃ pt ∈ points cc a, ∃ p e, pt.range = some (p, e) ∧ k = tok (p, e) := by
  rw [toks_orgs cc a, List.mem_filterMap] at hk
  obtain ⟨pt, hpt, hk⟩ := hk
  unfold mark at hk
  cases hr : pt.range with
  | none => rw [hr] at hk; cases hk
  | some pe => rw [hr] at hk; cases hk; exact ⟨pt, hpt, pe.1, pe.2, hr, rfl⟩

/-- **C88**: editing a selection (or a whole document) only changes the text of what is selected: all text before the
first and after the last selected node stays as it is, except that whitespace may be inserted. Between them is the text of the new
points, in order and with only whitespace between them. This is for every implementation of `edit_range` that only changes
what is between the start of the first and the end of the last selected node and leaves the nodes that remain in order. -/
theorem C88_selection (isSpace : Char → Bool) (cc : Concat) (doc : Str) (ctx : Context) (d : Node.Tree Elem)
    (hp : Parsed isSpace doc ctx.tokens) (hctx : Around ctx) (hd : Intact doc ctx.tokens (points cc d))
    (c : Cursor) (o : Options) (ho : o.readonly = false) (editRange : Job → Node.Tree Elem → Py (Node.Tree Elem))
    (j : Job) (hj : job (orgs d) c o.fromRoot o.fromCursor = .ok j)
    (a a' : Node.Tree Elem) (ha : d.get? j.ancestor.path = some a) (ha' : editRange j a = .ok a')
    (s e : ℕ) (hs : s = (j.start.map Int.toNat).getD ctx.pos) (he : e = (j.stop.map Int.toNat).getD ctx.stop) (hse : s ≤ e)
    (mid : List Point) (hb : OnlyBetween doc ctx.tokens s e (points cc a) (points cc a') mid)
    (hsp : spacesOnly isSpace (points cc a')) :
    ∃ text n, editCursor cc doc ctx d c o editRange = .ok (text, n) ∧
      ∃ s0 e0 x gaps g z, s0 ≤ s ∧ Blank isSpace (slice doc s0 s) ∧ e ≤ e0 ∧ Blank isSpace (slice doc e e0) ∧
        Spaced isSpace (doc.take s0) x ∧ Spaced isSpace (doc.drop e0) z ∧
        gaps.length = (visible mid).length ∧ (∀ w ∈ gaps, Blank isSpace w) ∧ Blank isSpace g ∧
        text = x ++ (interleave gaps ((visible mid).map (shown doc)) ++ g) ++ z := by
  refine ⟨_, _, by rw [editCursor, hj]; simp only [ha, ha', ho]; rfl, ?_⟩
  rw [Edits.edit, edits, ← hs, ← he]
  obtain ⟨f1, f2⟩ := job_facts (orgs d) (ordered_of_intact cc d hd) c _ _ j hj
  obtain ⟨us, ws, hpt⟩ := points_get cc _ d a ha
  have hsub : ∀ r n, (orgs d).get? (j.ancestor.path ++ r) = some n → (toks n).Sublist (toks (orgs a)) := by
    intro r n h
    rw [get?_append, orgs_get, ha] at h
    exact (toks_get _ _ _ h).1
  have hmem : ∀ pt ∈ points cc a, ∃ q ∈ points cc d, q.range = pt.range ∧ q.modified = pt.modified := by
    intro pt h
    have : seen pt ∈ (points cc d).map seen := by rw [hpt]; simp only [List.mem_append]; exact .inl (.inr (List.mem_map_of_mem h))
    obtain ⟨q, hq, e⟩ := List.mem_map.1 this
    exact ⟨q, hq, congrArg Prod.fst e, congrArg Prod.snd e⟩
  -- the places of the ancestor are together
  have hpw : ((points cc d).map seen).Pairwise fun a b => ∀ p e q f, a.1 = some (p, e) → b.1 = some (q, f) → e ≤ q := by
    rw [List.pairwise_map]
    exact hd.kept.inOrder
  rw [hpt, List.pairwise_append, List.pairwise_append] at hpw
  obtain ⟨⟨-, pw1, pw2⟩, -, pw3⟩ := hpw
  refine core hp hse (points cc a) (points cc a') mid ?_ ⟨?_, ?_⟩ ?_ ?_ ?_ hb hsp
  · intro pt h
    obtain ⟨q, hq, e1, e2⟩ := hmem pt h
    rw [← e1, ← e2]
    exact hd.there q hq
  · intro pt h p e hr
    obtain ⟨q, hq, e1, e2⟩ := hmem pt h
    exact hd.kept.origin q hq p e (by rw [e1]; exact hr)
  · rw [List.pairwise_map] at pw1
    exact pw1
  · cases hst : j.start with
    | none => right; rw [hst] at hs; rw [hs]; exact hctx.first
    | some s' =>
      left
      obtain ⟨r, n, h1, k, ks, h2, h3⟩ := f1 s' hst
      obtain ⟨pt, h4, p, q, h5, h6⟩ := mark_mem (cc := cc) ((hsub r n h1).subset (show k ∈ toks n by rw [h2]; simp))
      rw [hst] at hs
      have : s = p := by
        rw [hs, ← h3, h6]
        rfl
      exact ⟨pt, h4, q, by rw [this]; exact h5⟩
  · cases hst : j.stop with
    | none => right; rw [hst] at he; rw [he]; exact hctx.last
    | some s' =>
      left
      obtain ⟨r, n, h1, ks, k, h2, h3⟩ := f2 s' hst
      obtain ⟨pt, h4, p, q, h5, h6⟩ := mark_mem (cc := cc) ((hsub r n h1).subset (show k ∈ toks n by rw [h2]; simp))
      rw [hst] at he
      have : e = q := by
        rw [he, ← h3, h6]
        rfl
      exact ⟨pt, h4, p, by rw [this]; exact h5⟩
  · rintro k hk ⟨p1, hp1, a1, b1, r1, c1⟩ ⟨p2, hp2, a2, b2, r2, c2⟩
    obtain ⟨q, hq, p, e', hr, h1, h2⟩ := hd.all k hk
    have hne := hp.nonempty k hk
    have hqs : seen q ∈ (points cc d).map seen := List.mem_map_of_mem hq
    rw [hpt, List.mem_append, List.mem_append] at hqs
    rcases hqs with (h | h) | h
    · have := pw2 _ h (seen p1) (List.mem_map_of_mem hp1) p e' a1 b1 hr r1
      omega
    · obtain ⟨q', hq', e1⟩ := List.mem_map.1 h
      exact ⟨q', hq', p, e', by rw [show q'.range = q.range from congrArg Prod.fst e1]; exact hr, h1, h2⟩
    · have := pw3 (seen p2) (List.mem_append_right _ (List.mem_map_of_mem hp2)) _ h a2 b2 p e' r2 hr
      omega

/-- **C88**: an edit with `readonly` set does not change the document. -/
theorem C88_readonly (cc : Concat) (doc : Str) (ctx : Context) (d : Node.Tree Elem) (c : Cursor) (o : Options)
    (ho : o.readonly = true) (editRange : Job → Node.Tree Elem → Py (Node.Tree Elem)) (text : Str) (n : ℕ)
    (h : editCursor cc doc ctx d c o editRange = .ok (text, n)) : text = doc ∧ n = 0 := by
  rw [editCursor] at h
  split at h
  · cases h
  · split at h
    · cases h
    · split at h
      · cases h
      · rw [ho] at h
        simp only [if_true, Except.ok.injEq, Prod.mk.injEq] at h
        exact ⟨h.1.symm, h.2.symm⟩

/-- **C88**: when `changes()` is 0 after an edit, the document has not been changed. -/
theorem C88_no_changes (cc : Concat) (doc : Str) (ctx : Context) (d : Node.Tree Elem) (c : Cursor) (o : Options)
    (editRange : Job → Node.Tree Elem → Py (Node.Tree Elem)) (text : Str)
    (h : editCursor cc doc ctx d c o editRange = .ok (text, 0)) : text = doc := by
  rw [editCursor] at h
  split at h
  · cases h
  · split at h
    · cases h
    · split at h
      · cases h
      · split at h
        · simp only [Except.ok.injEq, Prod.mk.injEq] at h
          exact h.1.symm
        · simp only [Except.ok.injEq, Prod.mk.injEq] at h
          obtain ⟨h1, h2⟩ := h
          rw [List.length_eq_zero_iff] at h2
          rw [← h1, Edits.edit, h2]
          rfl

/-- **C88**: `edit_document` edits the whole tree: `edit_range` gets the root of it, and the text is what `Element.edit` makes
of the whole document. -/
theorem C88_document (cc : Concat) (doc : Str) (ctx : Context) (d d' : Node.Tree Elem) (o : Options) (ho : o.readonly = false)
    (hc : o.fromCursor = false) (editRange : Job → Node.Tree Elem → Py (Node.Tree Elem))
    (h : editRange Cursor.whole d = .ok d') :
    editDocument cc doc ctx d o editRange = .ok (Edits.edit cc doc ctx none none d', (edits cc ctx none none d').length) := by
  have hj : job (orgs d) ⟨0, 0⟩ o.fromRoot o.fromCursor = .ok Cursor.whole := by
    simp [job, Cursor.hasSelection, hc]
  rw [editDocument, editCursor, hj]
  simp only [show d.get? Cursor.whole.ancestor.path = some d from rfl, h, ho]
  rfl

/-- **C88**: an exception that is raised by `edit_range`, or when the range is made, is what the caller gets, and there is
no new text then. -/
theorem C88_raises (cc : Concat) (doc : Str) (ctx : Context) (d : Node.Tree Elem) (c : Cursor) (o : Options)
    (editRange : Job → Node.Tree Elem → Py (Node.Tree Elem)) (e : PyErr) :
    (job (orgs d) c o.fromRoot o.fromCursor = .error e → editCursor cc doc ctx d c o editRange = .error e) ∧
      ∀ j a, job (orgs d) c o.fromRoot o.fromCursor = .ok j → d.get? j.ancestor.path = some a → editRange j a = .error e →
        editCursor cc doc ctx d c o editRange = .error e := by
  refine ⟨fun h => by rw [editCursor, h], fun j a h1 h2 h3 => ?_⟩
  rw [editCursor, h1]
  simp only [h2, h3]

end Quickly.EditSel
