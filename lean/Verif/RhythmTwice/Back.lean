import Verif.RhythmTwice.Props

/-! # C113: Durations can be transformed there and back -/

namespace Quickly.RhythmTwice

open Quickly.RhythmEdits Quickly.RhythmEdits.Spec
open Quickly.Length (Nd)
open Quickly.RhythmTime (sample transform)
open Quickly.Rhythm (Mus Kind Label D walk walkL transformProc)
open Quickly.Duration (Transform)

theorem one_nothing (w : Bool) (l : Label) : one {} w none l = (none, l.dur) := by
  cases w with
  | false => rfl
  | true => cases hd : l.dur <;> simp [one, transformProc, hd, Transform.transform]

variable {w : ℕ → Label → Bool}

mutual
theorem walk_nothing : ∀ (m : Mus) (i : ℕ) (bf : List Label) (r : Option Kind),
    (walk (transformProc {}) w none i bf r m).1 = none ∧ (walk (transformProc {}) w none i bf r m).2.2 = m
  | .node l cs, i, bf, r => by
    obtain ⟨h1, h2⟩ := walkL_nothing cs (i + 1) bf
    simp only [walk_node, one_nothing, h1, h2, and_self]
theorem walkL_nothing : ∀ (cs : List Mus) (i : ℕ) (bf : List Label),
    (walkL (transformProc {}) w none i bf cs).1 = none ∧ (walkL (transformProc {}) w none i bf cs).2.2 = cs
  | [], i, bf => ⟨rfl, rfl⟩
  | c :: cs, i, bf => by
    obtain ⟨h1, h2⟩ := walk_nothing c i bf (cs.head?.map (·.label.kind))
    have h3 := walkL_nothing cs
    simp only [walkL, h1, h2, (h3 _ _).1, (h3 _ _).2, and_self]
end

/-- **C113**: a Transform that does nothing changes no duration. -/
theorem C113_nothing (a b : ℕ) (doc : List Nd) (h : Orderly doc) :
    (transform {} a b doc).1 = none ∧ values (transform {} a b doc).2 = values doc := by
  have hw := fun a b => walkL_nothing (w := fun i l => decide (a ≤ i ∧ i < b) && l.kind.handles) (labelsL 0 doc) 0 []
  constructor
  · rw [(C100_results a b doc h.toRegular).2.2]
    exact (hw _ _).1
  · have e : labelsL 0 (transform {} a b doc).2 = _ := C100_refines (.transform {}) a b doc h.toRegular
    exact values_of_labels (e.trans (hw _ _).2)

/-- **C113**: a Transform and then its opposite give the durations back. -/
theorem C113_back (s : Transform) (hs : s.scale ≠ 0) (a b : ℕ) (doc : List Nd) (h : Orderly doc)
    (hf : ∀ d, some d ∈ values doc → Fits s d) (h1 : (transform s a b doc).1 = none)
    (h2 : (transform ⟨-s.log, -s.dotcount, s.scale⁻¹⟩ a b (transform s a b doc).2).1 = none) :
    values (transform ⟨-s.log, -s.dotcount, s.scale⁻¹⟩ a b (transform s a b doc).2).2 = values doc := by
  rw [← (C113_twice s _ a b doc h hf h1 h2).2]
  have : s.add ⟨-s.log, -s.dotcount, s.scale⁻¹⟩ = {} := by simp [Transform.add, hs]
  rw [this]
  exact (C113_nothing a b doc h).2

example : values (transform ⟨-1, -1, 3/2⟩ 0 12 (transform ⟨1, 1, 2/3⟩ 0 12 sample).2).2 = values sample := by
  have := C113_back ⟨1, 1, 2/3⟩ (by norm_num) 0 12 sample sample_orderly (sample_fits 1 1 (by decide) (2/3)) (by decide +kernel)
    (by decide +kernel)
  simpa using this

end Quickly.RhythmTwice
