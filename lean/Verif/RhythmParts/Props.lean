import Verif.RhythmParts.Lemmas

/-!
# C112: Music can be edited part by part

`remove()`, `remove_scaling()` and `remove_fraction_scaling()` look at nothing but a node and its right sibling.  So a range
can be divided, and the order of such edits, each with its own range, makes no difference.
-/

namespace Quickly.RhythmParts

open Quickly.RhythmEdits Quickly.RhythmEdits.Spec
open Quickly.Length (Nd)
open Quickly.RhythmTime (sample)
open Quickly.Rhythm (Mus Kind Label D)

/-- The edits that only take something away from the durations. -/
inductive Takes : RhythmEdit → Prop
  | remove : Takes .remove
  | removeScaling : Takes .removeScaling
  | removeFraction : Takes .removeFraction

/-- What the edits do with the duration of one node. -/
def effect : RhythmEdit → Option Kind → Label → Option D
  | .remove, r, l => if Rhythm.mayRemove l r then none else l.dur
  | .removeScaling, _, l => l.dur.map fun d => (d.1, 1)
  | .removeFraction, _, l => l.dur.map fun d => if d.2.den = 1 then d else (d.1, 1)
  | _, _, l => l.dur

theorem onLabels_effect {e : RhythmEdit} (he : Takes e) (a b : ℕ) (ms : List Mus) :
    e.onLabels a b ms = (eachL (within (effect e) a b) 0 ms).2 := by
  cases he
  · exact edit_local (p := Rhythm.removeProc) (fun _ _ _ _ => rfl) a b ms
  · exact edit_local (p := Rhythm.removeScalingProc) (fun _ _ _ _ => rfl) a b ms
  · exact edit_local (p := Rhythm.removeFractionProc) (fun _ _ _ _ => rfl) a b ms

theorem mayRemove_dur (l : Label) (d : Option D) (r : Option Kind) : Rhythm.mayRemove { l with dur := d } r = Rhythm.mayRemove l r := rfl

theorem effect_steady {e : RhythmEdit} (he : Takes e) : Steady (effect e) := by
  intro r l h
  cases he
  · simp only [effect]
    split
    · rename_i hm
      have hk : l.kind ≠ .skip := by
        intro hk
        simp [Rhythm.mayRemove, hk, Kind.required] at hm
      simp only [Label.isDurable, hk, decide_false, Bool.false_and, Bool.not_false, Bool.and_true] at h ⊢
      exact h
    · exact h
  · simpa [Label.isDurable, effect] using h
  · simpa [Label.isDurable, effect] using h

theorem effect_comm {e e' : RhythmEdit} (he : Takes e) (he' : Takes e') (r : Option Kind) (l : Label) :
    effect e' r { l with dur := effect e r l } = effect e r { l with dur := effect e' r l } := by
  by_cases hm : Rhythm.mayRemove l r = true <;> cases hd : l.dur with
  | none => cases he <;> cases he' <;> simp [effect, mayRemove_dur, hm, hd]
  | some d =>
    by_cases hn : d.2.den = 1 <;> cases he <;> cases he' <;> simp [effect, mayRemove_dur, hm, hd, hn]

theorem place_mono (ms : List Mus) {a b : ℕ} (h : a ≤ b) : place ms a ≤ place ms b := by
  refine List.findIdx_le_findIdx fun x _ hx => ?_
  simp only [Bool.and_eq_true, decide_eq_true_eq] at hx ⊢
  exact ⟨hx.1, h.trans hx.2⟩

/-- **C112**: the edit of a range gives the same durations as the edit of its two parts, one after another. -/
theorem C112_parts {e : RhythmEdit} (he : Takes e) {a b c : ℕ} (hab : a ≤ b) (hbc : b ≤ c) (doc : List Nd) (h : Orderly doc) :
    values (e.run b c (e.run a b doc)) = values (e.run a c doc) := by
  have h1 := (C101_sequence [(e, a, b), (e, b, c)] doc h).1
  have h2 := (C101_sequence [(e, a, c)] doc h).1
  simp only [List.foldl, onLabels_effect he, (eachL_each _ _ _ _).1,
    funext fun i => funext fun r => funext fun l => within_parts (effect_steady he) (place_mono (labelsL 0 doc) hab)
      (place_mono (labelsL 0 doc) hbc) i r l] at h1 h2
  exact values_of_labels (h1.trans h2.symm)

/-- **C112**: two of these edits, each with its own range, give the same durations in either order. -/
theorem C112_order {e e' : RhythmEdit} (he : Takes e) (he' : Takes e') (a b c d : ℕ) (doc : List Nd) (h : Orderly doc) :
    values (e'.run c d (e.run a b doc)) = values (e.run a b (e'.run c d doc)) := by
  have h1 := (C101_sequence [(e, a, b), (e', c, d)] doc h).1
  have h2 := (C101_sequence [(e', c, d), (e, a, b)] doc h).1
  simp only [List.foldl, onLabels_effect he, onLabels_effect he', (eachL_each _ _ _ _).1] at h1 h2
  refine values_of_labels (h1.trans (Eq.trans ?_ h2.symm))
  rw [funext fun i => funext fun r => funext fun l => within_comm (effect_steady he) (effect_steady he')
    (fun r l _ => effect_comm he he' r l) _ _ _ _ i r l]

theorem effect_again {e : RhythmEdit} (he : Takes e) (r : Option Kind) (l : Label) :
    effect e r { l with dur := effect e r l } = effect e r l := by
  by_cases hm : Rhythm.mayRemove l r = true <;> cases hd : l.dur with
  | none => cases he <;> simp [effect, mayRemove_dur, hm, hd]
  | some d => by_cases hn : d.2.den = 1 <;> cases he <;> simp [effect, mayRemove_dur, hm, hd, hn]

/-- **C112**: after the edit of a range, the same edit of a part of it (or of the whole again) changes no duration. -/
theorem C112_again {e : RhythmEdit} (he : Takes e) {a b c d : ℕ} (hac : a ≤ c) (hdb : d ≤ b) (doc : List Nd) (h : Orderly doc) :
    values (e.run c d (e.run a b doc)) = values (e.run a b doc) := by
  have h1 := (C101_sequence [(e, a, b), (e, c, d)] doc h).1
  have h2 := (C101_sequence [(e, a, b)] doc h).1
  have hw : ∀ i r l, within (effect e) (place (labelsL 0 doc) c) (place (labelsL 0 doc) d) i r
      { l with dur := within (effect e) (place (labelsL 0 doc) a) (place (labelsL 0 doc) b) i r l } =
      within (effect e) (place (labelsL 0 doc) a) (place (labelsL 0 doc) b) i r l := by
    intro i r l
    have e1 : Rhythm.inRange (place (labelsL 0 doc) c) (place (labelsL 0 doc) d) i
        { l with dur := within (effect e) (place (labelsL 0 doc) a) (place (labelsL 0 doc) b) i r l } =
        Rhythm.inRange (place (labelsL 0 doc) c) (place (labelsL 0 doc) d) i l := inRange_set (steady_within (effect_steady he) _ _ i r l)
    by_cases hc : Rhythm.inRange (place (labelsL 0 doc) c) (place (labelsL 0 doc) d) i l = true
    · have ha : Rhythm.inRange (place (labelsL 0 doc) a) (place (labelsL 0 doc) b) i l = true := by
        have := place_mono (labelsL 0 doc) hac
        have := place_mono (labelsL 0 doc) hdb
        simp only [Rhythm.inRange, Bool.and_eq_true, decide_eq_true_eq] at hc ⊢
        exact ⟨⟨by omega, by omega⟩, hc.2⟩
      rw [within_in (e1.trans hc), within_in ha]
      exact effect_again he r l
    · rw [within_out (fun x => hc (e1.symm.trans x))]
  simp only [List.foldl, onLabels_effect he, (eachL_each _ _ _ _).1, hw] at h1 h2
  exact values_of_labels (h1.trans h2.symm)

/-- **C112**, the limit: `implicit()` looks at the durations before a node in the range, so it keeps more durations when the
range is divided: the first duration of every part stays. -/
theorem C112_implicit_parts : ∃ (doc : List Nd) (a b c : ℕ), Orderly doc ∧ a ≤ b ∧ b ≤ c ∧
    values (RhythmEdit.implicit.run b c (RhythmEdit.implicit.run a b doc)) ≠ values (RhythmEdit.implicit.run a c doc) :=
  ⟨RhythmTime.explicit 0 12 sample, 0, 1, 12, C101_orderly 0 12 .explicit sample sample_orderly, by decide, by decide, by decide +kernel⟩

/-! ### An example: `{ c4 c \tuplet 3/2 { c8 c c8 } <c e>2*1/2 r \skip 4 c }` -/

example : values (RhythmEdit.remove.run 4 12 (RhythmEdit.remove.run 0 4 sample)) = values (RhythmEdit.remove.run 0 12 sample) :=
  C112_parts .remove (by decide) (by decide) sample sample_orderly

example : values (RhythmEdit.remove.run 0 4 sample) ≠ values sample ∧
    values (RhythmEdit.remove.run 0 4 sample) ≠ values (RhythmEdit.remove.run 0 12 sample) ∧
    values (RhythmEdit.removeScaling.run 0 12 sample) ≠ values sample := by decide +kernel

example : values (RhythmEdit.remove.run 2 4 (RhythmEdit.remove.run 0 12 sample)) = values (RhythmEdit.remove.run 0 12 sample) :=
  C112_again .remove (by decide) (by decide) sample sample_orderly

example : values (RhythmEdit.removeScaling.run 0 12 (RhythmEdit.remove.run 0 4 sample)) =
    values (RhythmEdit.remove.run 0 4 (RhythmEdit.removeScaling.run 0 12 sample)) :=
  C112_order .remove .removeScaling 0 4 0 12 sample sample_orderly

end Quickly.RhythmParts
