import Verif.EditSel.Spec
import Verif.Edits.Lemmas

/-! # Lemmas about editing a selection -/

namespace Quickly.EditSel

open Quickly.Node Quickly.Text Quickly.Edits Quickly.Edits.Spec Spec

variable {isSpace : Char → Bool} {doc : Str} {tokens : List Tok}

/-! ### Texts with whitespace inserted -/

theorem Spec.Spaced.refl (u : Str) : Spaced isSpace u u := by
  induction u with
  | nil => exact .nil
  | cons c u ih => exact .keep c ih

theorem Spec.Spaced.append {u v u' v' : Str} (h : Spaced isSpace u v) (h' : Spaced isSpace u' v') :
    Spaced isSpace (u ++ u') (v ++ v') := by
  induction h with
  | nil => exact h'
  | keep c _ ih => exact .keep c ih
  | space c hc _ ih => exact .space c hc ih

theorem Spec.Spaced.blank {w : Str} (hw : Blank isSpace w) : Spaced isSpace [] w := by
  induction w with
  | nil => exact .nil
  | cons c w ih => exact .space c (hw c (by simp)) (ih fun d hd => hw d (by simp [hd]))

/-! ### Series of edits -/

/-- Text before the first edit stays as it is. -/
theorem apply_shift {es : List Edit} {j e : ℕ} (h : SortedFrom e es) (hj : j ≤ e) :
    applyFrom doc j es = slice doc j e ++ applyFrom doc e es := by
  cases es with
  | nil => rw [applyFrom, applyFrom, slice_drop doc hj]
  | cons x es =>
    obtain ⟨p, q, w⟩ := x
    rw [applyFrom_eq, applyFrom_eq, ← slice_append doc hj h.1]
    simp

/-- Edits that insert whitespace. -/
theorem apply_spaces {es : List Edit} {i : ℕ} (h : SortedFrom i es)
    (hw : ∀ x ∈ es, x.1 = x.2.1 ∧ Blank isSpace x.2.2) : Spaced isSpace (doc.drop i) (applyFrom doc i es) := by
  induction es generalizing i with
  | nil => exact Spaced.refl _
  | cons x es ih =>
    obtain ⟨p, q, w⟩ := x
    obtain ⟨h1, h2⟩ := hw (p, q, w) (by simp)
    dsimp only at h1 h2
    subst h1
    rw [applyFrom_eq, ← slice_drop doc h.1]
    refine Spaced.append ?_ (ih h.2.2 fun x hx => hw x (by simp [hx]))
    have := Spaced.append (Spaced.refl (isSpace := isSpace) (slice doc i p)) (Spaced.blank h2)
    rwa [List.append_nil] at this

theorem loop_kept {pos stop : ℕ} {rest : List Tok} {ins : Str} {pt : Point} {pts : List Point} {p e : ℕ}
    (hr : pt.range = some (p, e)) (hm : pt.modified = false) :
    loop stop pos rest ins (pt :: pts) = (before p pos (collapse [ins, pt.before]) rest).1 ++
      loop stop e (before p pos (collapse [ins, pt.before]) rest).2 pt.after pts := by
  rw [loop.eq_def]
  dsimp only
  rw [hr]
  simp [hm]

theorem Kept_right {pos : ℕ} {as bs : List Point} (h : Kept doc tokens pos (as ++ bs)) :
    Kept doc tokens (lastEnd pos as) bs := by
  induction as generalizing pos with
  | nil => exact h
  | cons a as ih =>
    rw [lastEnd]
    cases hr : a.range with
    | none => exact ih h.tail
    | some pe => exact ih (h.next hr)

/-- The points before the selection: only whitespace is inserted. -/
theorem prefix_loop (hp : Parsed isSpace doc tokens) (stop : ℕ) (qs as : List Point) (hsp : spacesOnly isSpace as) :
    ∀ (pos : ℕ) (rest : List Tok) (ins : Str), At tokens pos rest → Kept doc tokens pos (as ++ qs) → Blank isSpace ins →
      (∀ pt ∈ as, pt.range.isSome = true ∧ pt.modified = false) →
      (∀ t ∈ tokens, pos ≤ t.1 → t.2 ≤ lastEnd pos as → ∃ pt ∈ as, ∃ p e, pt.range = some (p, e) ∧ p ≤ t.1 ∧ t.2 ≤ e) →
      pos ≤ lastEnd pos as ∧ ∃ rest' ins' x, At tokens (lastEnd pos as) rest' ∧ Blank isSpace ins' ∧
        Spaced isSpace (slice doc pos (lastEnd pos as)) x ∧
        applyFrom doc pos (loop stop pos rest ins (as ++ qs)) =
          x ++ applyFrom doc (lastEnd pos as) (loop stop (lastEnd pos as) rest' ins' qs) := by
  induction as with
  | nil =>
    intro pos rest ins hat _ hins _ _
    refine ⟨Nat.le_refl _, rest, ins, [], hat, hins, ?_, rfl⟩
    rw [lastEnd, slice_self]
    exact .nil
  | cons pt as ih =>
    intro pos rest ins hat hk hins hall hcov
    have ih := ih fun q hq => hsp q (by simp [hq])
    obtain ⟨hbef, haft⟩ := hsp pt (by simp)
    have hcol := collapse_space hins hbef
    obtain ⟨hs, hm⟩ := hall pt (by simp)
    cases hr : pt.range with
    | none => rw [hr] at hs; cases hs
    | some pe =>
      obtain ⟨p, e⟩ := pe
      obtain ⟨h1, h2, h3, h4, h5⟩ := hk.origin pt (by simp) p e hr
      obtain ⟨hb1, hb2⟩ := before_spec hp hat h1 h4 (collapse [ins, pt.before])
      have hat' := at_next hp h2 hb1 h5
      have hk' : Kept doc tokens e (as ++ qs) := hk.next hr
      have hle : lastEnd pos (pt :: as) = lastEnd e as := by rw [lastEnd, hr]
      rw [hle] at hcov ⊢
      obtain ⟨i1, rest', ins', x, i2, i3, i4, i5⟩ := ih e _ pt.after hat' hk' haft (fun q hq => hall q (by simp [hq]))
        (by
          intro t ht hte htl
          obtain ⟨q, hq, p', e', hr', ha, hb⟩ := hcov t ht (by omega) htl
          rcases List.mem_cons.1 hq with rfl | hq
          · rw [hr] at hr'; cases hr'
            have := hp.nonempty t ht
            omega
          · exact ⟨q, hq, p', e', hr', ha, hb⟩)
      have hsort := sorted_loop hp stop (as ++ qs) e _ pt.after hat' hk'
      refine ⟨by omega, rest', ins', ?_⟩
      rw [List.cons_append, loop_kept hr hm]
      have hsl : ∀ a, a ≤ e → slice doc a (lastEnd e as) = slice doc a e ++ slice doc e (lastEnd e as) :=
        fun a ha => (slice_append doc ha i1).symm
      rcases hb2 with ⟨hb, hno, -⟩ | ⟨d, hb, hd1, hd2, hno, hd⟩
      · refine ⟨slice doc pos e ++ x, i2, i3, ?_, ?_⟩
        · rw [hsl pos (by omega)]
          exact (Spaced.refl _).append i4
        · rw [hb, List.nil_append, apply_shift hsort (show pos ≤ e by omega), i5]
          simp
      · rcases hd with ⟨rfl, rfl, hne⟩ | ⟨t, ht, ht1, ht2⟩
        · refine ⟨collapse [ins, pt.before] ++ (slice doc d e ++ x), i2, i3, ?_, ?_⟩
          · have := (Spaced.blank (isSpace := isSpace) hcol).append ((Spaced.refl (slice doc d e)).append i4)
            rw [List.nil_append] at this
            rw [hsl d (by omega)]
            exact this
          · rw [hb, List.singleton_append, applyFrom_eq, slice_self, apply_shift hsort (show d ≤ e by omega), i5]
            simp
        · exfalso
          have := hp.nonempty t ht
          obtain ⟨q, hq, p', e', hr', ha, hb⟩ := hcov t ht ht1 (by omega)
          rcases List.mem_cons.1 hq with rfl | hq
          · rw [hr] at hr'; cases hr'; omega
          · have := (List.pairwise_cons.1 hk.inOrder).1 q (by simp [hq]) p e p' e' hr hr'; omega

/-- The points in the selection. -/
theorem middle_loop (hp : Parsed isSpace doc tokens) (stop : ℕ) (qs ms : List Point) (hsp : spacesOnly isSpace ms) :
    ∀ (pos : ℕ) (rest : List Tok) (ins : Str), At tokens pos rest → Kept doc tokens pos (ms ++ qs) → Blank isSpace ins →
      ∃ rest' ins' gaps, At tokens (lastEnd pos ms) rest' ∧ Blank isSpace ins' ∧
        gaps.length = (visible ms).length ∧ (∀ g ∈ gaps, Blank isSpace g) ∧
        applyFrom doc pos (loop stop pos rest ins (ms ++ qs)) =
          interleave gaps ((visible ms).map (shown doc)) ++
            applyFrom doc (lastEnd pos ms) (loop stop (lastEnd pos ms) rest' ins' qs) := by
  induction ms with
  | nil =>
    intro pos rest ins hat _ hins
    exact ⟨rest, ins, [], hat, hins, rfl, by simp, rfl⟩
  | cons pt ms ih =>
    intro pos rest ins hat hk hins
    have ih := ih fun q hq => hsp q (by simp [hq])
    obtain ⟨hbef, haft⟩ := hsp pt (by simp)
    have hcol := collapse_space hins hbef
    rw [List.cons_append, loop.eq_def]
    dsimp only
    cases hr : pt.range with
    | none =>
      have hle : lastEnd pos (pt :: ms) = lastEnd pos ms := by rw [lastEnd, hr]
      rw [hle]
      dsimp only
      split
      · rename_i htext
        obtain ⟨rest', ins', gaps, g1, g2, g3, g4, g5⟩ := ih pos rest pt.after hat hk.tail haft
        have hv : visible (pt :: ms) = pt :: visible ms := by
          simp [visible, htext]
        refine ⟨rest', ins', collapse [ins, pt.before] :: gaps, g1, g2, by rw [hv]; simp [g3], ?_, ?_⟩
        · intro g hg
          rcases List.mem_cons.1 hg with rfl | hg
          · exact hcol
          · exact g4 g hg
        · rw [applyFrom_eq, g5, slice_self, hv, List.map_cons, interleave]
          simp [shown, hr]
      · rename_i htext
        have hv : visible (pt :: ms) = visible ms := by
          simp only [ne_eq, not_not] at htext
          simp [visible, htext, hr]
        rw [hv]
        exact ih pos rest ins hat hk.tail hins
    | some pe =>
      obtain ⟨p, e⟩ := pe
      have hle : lastEnd pos (pt :: ms) = lastEnd e ms := by rw [lastEnd, hr]
      rw [hle]
      obtain ⟨h1, h2, h3, h4, h5⟩ := hk.origin pt (by simp) p e hr
      obtain ⟨hb1, hb2⟩ := before_spec hp hat h1 h4 (collapse [ins, pt.before])
      have hv : visible (pt :: ms) = pt :: visible ms := by simp [visible, hr]
      have hat' := at_next hp h2 hb1 h5
      have hk' : Kept doc tokens e (ms ++ qs) := hk.next hr
      have hsort := sorted_loop hp stop (ms ++ qs) e _ pt.after hat' hk'
      obtain ⟨rest', ins', gaps, g1, g2, g3, g4, g5⟩ := ih e _ pt.after hat' hk' haft
      dsimp only
      have hrest : ∀ j ≤ p, applyFrom doc j ((if pt.modified then [(p, e, pt.text)] else []) ++
            loop stop e (before p pos (collapse [ins, pt.before]) rest).2 pt.after (ms ++ qs)) =
          slice doc j p ++ shown doc pt ++ (interleave gaps ((visible ms).map (shown doc)) ++
            applyFrom doc (lastEnd e ms) (loop stop (lastEnd e ms) rest' ins' qs)) := by
        intro j hj
        by_cases hm : pt.modified = true
        · rw [if_pos hm, List.singleton_append, applyFrom_eq, g5]
          simp [shown, hr, hm]
        · rw [if_neg hm, List.nil_append, apply_shift hsort (show j ≤ e by omega), g5,
            ← slice_append doc hj (Nat.le_of_lt h2)]
          simp [shown, hr, hm]
      rw [List.append_assoc]
      rcases hb2 with ⟨hb, hno, -⟩ | ⟨d, hb, hd1, hd2, hno, -⟩
      · refine ⟨rest', ins', slice doc pos p :: gaps, g1, g2, by rw [hv]; simp [g3], ?_, ?_⟩
        · intro g hg
          rcases List.mem_cons.1 hg with rfl | hg
          · exact slice_space hp hno
          · exact g4 g hg
        · rw [hb, List.nil_append, hrest pos h1, hv, List.map_cons, interleave]
          simp
      · refine ⟨rest', ins', (collapse [ins, pt.before] ++ slice doc d p) :: gaps, g1, g2, by rw [hv]; simp [g3], ?_, ?_⟩
        · intro g hg
          rcases List.mem_cons.1 hg with rfl | hg
          · intro c hc
            rcases List.mem_append.1 hc with hc | hc
            · exact hcol c hc
            · exact slice_space hp hno c hc
          · exact g4 g hg
        · rw [hb, List.singleton_append, applyFrom_eq, hrest d hd2, slice_self, hv, List.map_cons, interleave]
          simp

/-- The points after the selection. -/
theorem suffix_loop (hp : Parsed isSpace doc tokens) (stop : ℕ) (b : Point) (bs : List Point)
    (hsp : spacesOnly isSpace (b :: bs)) (pos : ℕ) (rest : List Tok) (ins : Str) (hat : At tokens pos rest)
    (hk : Kept doc tokens pos (b :: bs)) (hins : Blank isSpace ins)
    (hall : ∀ pt ∈ b :: bs, pt.range.isSome = true ∧ pt.modified = false) (p e : ℕ) (hr : b.range = some (p, e))
    (hcov : ∀ t ∈ tokens, e ≤ t.1 → t.2 ≤ lastEnd pos (b :: bs) → ∃ pt ∈ bs, ∃ p e, pt.range = some (p, e) ∧ p ≤ t.1 ∧ t.2 ≤ e)
    (hstop : stop ≤ p) :
    ∃ g z, Blank isSpace g ∧ Spaced isSpace (doc.drop p) z ∧ applyFrom doc pos (loop stop pos rest ins (b :: bs)) = g ++ z := by
  obtain ⟨h1, h2, h3, h4, h5⟩ := hk.origin b (by simp) p e hr
  obtain ⟨hbef, haft⟩ := hsp b (by simp)
  have hcol := collapse_space hins hbef
  obtain ⟨hb1, hb2⟩ := before_spec hp hat h1 h4 (collapse [ins, b.before])
  have hat' := at_next hp h2 hb1 h5
  have hk' : Kept doc tokens e bs := hk.next hr
  have hsort := sorted_loop hp stop bs e _ b.after hat' hk'
  obtain ⟨-, hm⟩ := hall b (by simp)
  rw [loop_kept hr hm]
  -- the rest
  obtain ⟨i1, rest', ins', x, i2, i3, i4, i5⟩ := prefix_loop hp stop [] bs (fun q hq => hsp q (by simp [hq])) e _ b.after hat'
    (by rw [List.append_nil]; exact hk') haft (fun q hq => hall q (by simp [hq]))
    (by
      intro t ht hte htl
      exact hcov t ht hte (by rw [lastEnd, hr]; exact htl))
  rw [List.append_nil, loop, if_neg (by omega), applyFrom] at i5
  have hz : ∀ j, j ≤ p → applyFrom doc j (loop stop e (before p pos (collapse [ins, b.before]) rest).2 b.after bs) =
      slice doc j p ++ (slice doc p e ++ (x ++ doc.drop (lastEnd e bs))) := by
    intro j hj
    rw [apply_shift hsort (show j ≤ e by omega), i5, ← slice_append doc hj (Nat.le_of_lt h2)]
    simp
  have hzs : Spaced isSpace (doc.drop p) (slice doc p e ++ (x ++ doc.drop (lastEnd e bs))) := by
    rw [← slice_drop doc (Nat.le_of_lt h2), ← slice_drop doc i1]
    exact (Spaced.refl _).append (i4.append (Spaced.refl _))
  rcases hb2 with ⟨hb, hno, -⟩ | ⟨d, hb, hd1, hd2, hno, -⟩
  · exact ⟨slice doc pos p, _, slice_space hp hno, hzs, by rw [hb, List.nil_append, hz pos h1]⟩
  · refine ⟨collapse [ins, b.before] ++ slice doc d p, _, ?_, hzs, ?_⟩
    · intro c hc
      rcases List.mem_append.1 hc with hc | hc
      · exact hcol c hc
      · exact slice_space hp hno c hc
    · rw [hb, List.singleton_append, applyFrom_eq, hz d hd2, slice_self]
      simp

end Quickly.EditSel
