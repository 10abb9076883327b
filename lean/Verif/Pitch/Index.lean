import Verif.Pitch.Props

/-!
# C13: MIDI numbers of notes that are not in the scale
-/

namespace Quickly.Pitch

/-- C13: `to_midi` fails exactly when the note is not in the scale, counted from either end. -/
theorem C13_to_midi_error (p : Pitch) (scale : List ℚ) :
    p.toMidi scale = .error .indexError ↔ p.note < -(scale.length : ℤ) ∨ (scale.length : ℤ) ≤ p.note := by
  unfold Pitch.toMidi pyGet
  dsimp only
  by_cases h : (if p.note < 0 then p.note + scale.length else p.note) < 0
  · simp only [h, if_true, true_iff]
    split at h <;> omega
  · simp only [h, if_false]
    cases hg : scale[(if p.note < 0 then p.note + (scale.length : ℤ) else p.note).toNat]? with
    | none =>
      rw [List.getElem?_eq_none_iff] at hg
      simp only [true_iff]
      split at hg <;> omega
    | some x =>
      have hlt := (List.getElem?_eq_some_iff.1 hg).1
      simp only [reduceCtorEq, false_iff]
      split at hlt <;> split at h <;> omega

/-- C13, a finding: a note below zero is counted from the end of the scale, in the same octave: in the major scale, note -1
has the MIDI number of note 6, which is an octave above the step below note 0. -/
theorem C13_negative_note (o n : ℤ) (a : ℚ) (scale : List ℚ) (h : n < 0) (hn : -(scale.length : ℤ) ≤ n) :
    Pitch.toMidi ⟨o, n, a⟩ scale = Pitch.toMidi ⟨o, n + scale.length, a⟩ scale := by
  have h1 : ¬ n + (scale.length : ℤ) < 0 := by omega
  simp only [Pitch.toMidi, pyGet, h, h1, if_true, if_false]

example : Pitch.toMidi ⟨0, -1, 0⟩ majorScale = .ok 71 ∧ Pitch.toMidi ⟨0, 0, 0⟩ majorScale = .ok 60 ∧
    Pitch.toMidi ⟨-1, 6, 0⟩ majorScale = .ok 59 ∧ Pitch.toMidi ⟨0, 7, 0⟩ majorScale = .error .indexError ∧
    Pitch.toMidi ⟨0, -8, 0⟩ majorScale = .error .indexError := by
  have h6 : Int.toNat 6 = 6 := rfl
  refine ⟨?_, ?_, ?_, ?_, ?_⟩ <;> norm_num [Pitch.toMidi, pyGet, majorScale, trunc, h6]

end Quickly.Pitch
