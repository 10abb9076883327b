import Verif.RhythmParts.Props
import Verif.RhythmTwice.Props

/-! # C112: Durations can be transformed part by part -/

namespace Quickly.RhythmParts

open Quickly.RhythmEdits Quickly.RhythmEdits.Spec
open Quickly.Length (Nd)
open Quickly.Rhythm (Mus Kind Label D walk walkL transformProc rev)
open Quickly.RhythmTime (sample)
open Quickly.RhythmTwice (one walk_node none_of_walkL)
open Quickly.Duration (Transform)

theorem one_parts (t : Transform) {w1 w2 : Bool} (hd : ¬ (w1 = true ∧ w2 = true)) (l : Label) (h1 : (one t w1 none l).1 = none) :
    one t (w1 || w2) none l = one t w2 none { l with dur := (one t w1 none l).2 } := by
  cases w1 with
  | false => rfl
  | true =>
    cases w2 with
    | true => exact absurd ⟨rfl, rfl⟩ hd
    | false => exact Prod.ext h1 rfl

variable {w1 w2 : ℕ → Label → Bool}

mutual
theorem walk_parts (t : Transform) (hw : ∀ i l d, w2 i { l with dur := d } = w2 i l) (hd : ∀ i l, ¬ (w1 i l = true ∧ w2 i l = true)) :
    ∀ (m : Mus) (i : ℕ) (bf bf' bf'' : List Label) (r r' r'' : Option Kind),
    (walk (transformProc t) w1 none i bf r m).1 = none →
    (walk (transformProc t) w2 none i bf' r' (walk (transformProc t) w1 none i bf r m).2.2).1 = none →
    walk (transformProc t) (fun i l => w1 i l || w2 i l) none i bf'' r'' m =
        walk (transformProc t) w2 none i bf' r' (walk (transformProc t) w1 none i bf r m).2.2 ∧
      (walk (transformProc t) w2 none i bf' r' (walk (transformProc t) w1 none i bf r m).2.2).2.1 =
        (walk (transformProc t) w1 none i bf r m).2.1
  | .node l cs, i, bf, bf', bf'', r, r', r'', h1, h2 => by
    simp only [walk_node, hw] at h1 h2 ⊢
    have e1 := none_of_walkL h1
    have e2 := none_of_walkL h2
    have e3 := one_parts t (hd i l) l e1
    rw [e1] at h1 h2 ⊢
    rw [e3]
    rw [e2] at h2 ⊢
    obtain ⟨k1, k2⟩ := walkL_parts t hw hd cs (i + 1) bf bf' bf'' h1 h2
    exact ⟨by rw [k1], k2⟩
theorem walkL_parts (t : Transform) (hw : ∀ i l d, w2 i { l with dur := d } = w2 i l) (hd : ∀ i l, ¬ (w1 i l = true ∧ w2 i l = true)) :
    ∀ (cs : List Mus) (i : ℕ) (bf bf' bf'' : List Label),
    (walkL (transformProc t) w1 none i bf cs).1 = none →
    (walkL (transformProc t) w2 none i bf' (walkL (transformProc t) w1 none i bf cs).2.2).1 = none →
    walkL (transformProc t) (fun i l => w1 i l || w2 i l) none i bf'' cs =
        walkL (transformProc t) w2 none i bf' (walkL (transformProc t) w1 none i bf cs).2.2 ∧
      (walkL (transformProc t) w2 none i bf' (walkL (transformProc t) w1 none i bf cs).2.2).2.1 =
        (walkL (transformProc t) w1 none i bf cs).2.1
  | [], i, bf, bf', bf'', _, _ => ⟨rfl, rfl⟩
  | c :: cs, i, bf, bf', bf'', h1, h2 => by
    simp only [walkL] at h1 h2 ⊢
    have e1 := none_of_walkL h1
    have e2 := none_of_walkL h2
    obtain ⟨k1, k2⟩ := walk_parts t hw hd c i bf bf' bf'' _ _ (cs.head?.map (·.label.kind)) e1 e2
    rw [k1]
    rw [e1] at h1 h2 e2 k2 ⊢
    rw [e2, k2] at h2 ⊢
    obtain ⟨k3, k4⟩ := walkL_parts t hw hd cs _ _ _ (rev (walk (transformProc t) w2 none i bf' _ (walk (transformProc t) w1 none i bf
      (cs.head?.map (·.label.kind)) c).2.2).2.2 ++ bf'') h1 h2
    exact ⟨by rw [k3], k4⟩
end

theorem music_parts (t : Transform) {a b c : ℕ} (hab : a ≤ b) (hbc : b ≤ c) (ms : List Mus)
    (h1 : (Rhythm.transform t a b ms).1 = none) (h2 : (Rhythm.transform t b c (Rhythm.transform t a b ms).2).1 = none) :
    Rhythm.transform t a c ms = Rhythm.transform t b c (Rhythm.transform t a b ms).2 := by
  have hw : (fun (i : ℕ) (l : Label) => decide (a ≤ i ∧ i < c) && l.kind.handles) =
      fun i l => (decide (a ≤ i ∧ i < b) && l.kind.handles) || (decide (b ≤ i ∧ i < c) && l.kind.handles) := by
    funext i l
    rw [← Bool.and_or_distrib_right, ← Bool.decide_or]
    have : (a ≤ i ∧ i < c) ↔ (a ≤ i ∧ i < b) ∨ (b ≤ i ∧ i < c) := by omega
    simp only [this]
  have := (walkL_parts (w1 := fun i l => decide (a ≤ i ∧ i < b) && l.kind.handles)
    (w2 := fun i l => decide (b ≤ i ∧ i < c) && l.kind.handles) t (fun _ _ _ => rfl)
    (fun i l h => by simp only [Bool.and_eq_true, decide_eq_true_eq] at h; omega) ms 0 [] [] [] h1 h2).1
  simp only [Rhythm.transform, hw, this]

/-- **C112** for `transform()`: when the two parts of a range are transformed, and no exception is raised, the transform of
the whole range raises none, and gives the same durations. -/
theorem C112_transform (t : Transform) {a b c : ℕ} (hab : a ≤ b) (hbc : b ≤ c) (doc : List Nd) (h : Orderly doc)
    (h1 : (RhythmTime.transform t a b doc).1 = none) (h2 : (RhythmTime.transform t b c (RhythmTime.transform t a b doc).2).1 = none) :
    (RhythmTime.transform t a c doc).1 = none ∧
      values (RhythmTime.transform t a c doc).2 = values (RhythmTime.transform t b c (RhythmTime.transform t a b doc).2).2 := by
  have ho : Orderly (RhythmTime.transform t a b doc).2 := C101_orderly a b (.transform t) doc h
  have e1 : labelsL 0 (RhythmTime.transform t a b doc).2 =
      (Rhythm.transform t (place (labelsL 0 doc) a) (place (labelsL 0 doc) b) (labelsL 0 doc)).2 :=
    C100_refines (.transform t) a b doc h.toRegular
  have hp : ∀ k, place (labelsL 0 (RhythmTime.transform t a b doc).2) k = place (labelsL 0 doc) k :=
    fun k => place_run a b (.transform t) doc k
  have e2 : labelsL 0 (RhythmTime.transform t b c (RhythmTime.transform t a b doc).2).2 = _ :=
    C100_refines (.transform t) b c _ ho.toRegular
  have e3 : labelsL 0 (RhythmTime.transform t a c doc).2 = _ := C100_refines (.transform t) a c doc h.toRegular
  rw [(C100_results a b doc h.toRegular).2.2] at h1
  rw [(C100_results b c _ ho.toRegular).2.2, hp, hp, e1] at h2
  have hm := music_parts t (place_mono (labelsL 0 doc) hab) (place_mono (labelsL 0 doc) hbc) (labelsL 0 doc) h1 h2
  constructor
  · rw [(C100_results a c doc h.toRegular).2.2, hm]; exact h2
  · refine values_of_labels (e3.trans (Eq.trans ?_ e2.symm))
    rw [hp, hp, e1]
    simp only [RhythmEdit.onLabels, hm]

example : values (RhythmTime.transform ⟨1, 1, 2/3⟩ 0 12 sample).2 =
    values (RhythmTime.transform ⟨1, 1, 2/3⟩ 4 12 (RhythmTime.transform ⟨1, 1, 2/3⟩ 0 4 sample).2).2 :=
  (C112_transform ⟨1, 1, 2/3⟩ (by decide) (by decide) sample sample_orderly (by decide +kernel) (by decide +kernel)).2

example : values (RhythmTime.transform ⟨1, 1, 2/3⟩ 0 4 sample).2 ≠ values sample ∧
    values (RhythmTime.transform ⟨1, 1, 2/3⟩ 0 4 sample).2 ≠ values (RhythmTime.transform ⟨1, 1, 2/3⟩ 0 12 sample).2 := by
  decide +kernel

end Quickly.RhythmParts
