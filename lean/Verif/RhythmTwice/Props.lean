import Verif.RhythmTwice.Lemmas

/-!
# C113: Transforming durations twice is transforming them once

`transform()` with one Transform and then with another one gives the durations that `transform()` gives with the sum of both.
-/

namespace Quickly.RhythmTwice

open Quickly.RhythmEdits Quickly.RhythmEdits.Spec
open Quickly.Length (Nd)
open Quickly.RhythmTime (sample transform)
open Quickly.Duration (Transform)

theorem music_twice (s t : Transform) (a b : ℕ) (ms : List Rhythm.Mus)
    (hf : ∀ x ∈ Rhythm.Spec.allNodes ms, x.1.kind.handles = true → ∀ d, x.1.dur = some d → Fits s d)
    (h1 : (Rhythm.transform s a b ms).1 = none) (h2 : (Rhythm.transform t a b (Rhythm.transform s a b ms).2).1 = none) :
    Rhythm.transform (s.add t) a b ms = Rhythm.transform t a b (Rhythm.transform s a b ms).2 := by
  have := (walkL_twice (w := fun i l => decide (a ≤ i ∧ i < b) && l.kind.handles) s t (fun _ _ _ => rfl)
    (fun i l h => by simp only [Bool.and_eq_true] at h; exact h.2) ms 0 [] [] [] false hf h1 h2).1
  simp only [Rhythm.transform, this]

/-- **C113**: when both transforms succeed, and the first one cuts off no dots, the transform with the sum of both succeeds,
and gives the same durations. -/
theorem C113_twice (s t : Transform) (a b : ℕ) (doc : List Nd) (h : Orderly doc) (hf : ∀ d, some d ∈ values doc → Fits s d)
    (h1 : (transform s a b doc).1 = none) (h2 : (transform t a b (transform s a b doc).2).1 = none) :
    (transform (s.add t) a b doc).1 = none ∧
      values (transform (s.add t) a b doc).2 = values (transform t a b (transform s a b doc).2).2 := by
  have ho : Orderly (transform s a b doc).2 := C101_orderly a b (.transform s) doc h
  have e1 : labelsL 0 (transform s a b doc).2 =
      (Rhythm.transform s (place (labelsL 0 doc) a) (place (labelsL 0 doc) b) (labelsL 0 doc)).2 :=
    C100_refines (.transform s) a b doc h.toRegular
  have hp : ∀ k, place (labelsL 0 (transform s a b doc).2) k = place (labelsL 0 doc) k := fun k => place_run a b (.transform s) doc k
  have e2 : labelsL 0 (transform t a b (transform s a b doc).2).2 = _ := C100_refines (.transform t) a b _ ho.toRegular
  have e3 : labelsL 0 (transform (s.add t) a b doc).2 = _ := C100_refines (.transform (s.add t)) a b doc h.toRegular
  rw [(C100_results a b doc h.toRegular).2.2] at h1
  rw [(C100_results a b _ ho.toRegular).2.2, hp, hp, e1] at h2
  have hm := music_twice s t (place (labelsL 0 doc) a) (place (labelsL 0 doc) b) (labelsL 0 doc) (by
    intro x hx hh d hd
    refine hf d ?_
    rw [C100_values]
    exact List.mem_map.2 ⟨x, List.mem_filter.2 ⟨hx, hh⟩, hd⟩) h1 h2
  constructor
  · rw [(C100_results a b doc h.toRegular).2.2, hm]; exact h2
  · refine values_of_labels (e3.trans (Eq.trans ?_ e2.symm))
    rw [hp, hp, e1]
    simp only [RhythmEdit.onLabels, hm]

/-- **C113**: two transforms that succeed in either order, and cut off no dots, give the same durations in either order. -/
theorem C113_order (s t : Transform) (a b : ℕ) (doc : List Nd) (h : Orderly doc)
    (hs : ∀ d, some d ∈ values doc → Fits s d) (ht : ∀ d, some d ∈ values doc → Fits t d)
    (h1 : (transform s a b doc).1 = none) (h2 : (transform t a b (transform s a b doc).2).1 = none)
    (h3 : (transform t a b doc).1 = none) (h4 : (transform s a b (transform t a b doc).2).1 = none) :
    values (transform t a b (transform s a b doc).2).2 = values (transform s a b (transform t a b doc).2).2 := by
  rw [← (C113_twice s t a b doc h hs h1 h2).2, ← (C113_twice t s a b doc h ht h3 h4).2, Duration.C09_add_comm]

/-- **C113**, the limit: when the first transform cuts off dots that are not there, the sum of both gives other durations:
a dot less and then a dot more makes dotted notes of all of `sample`, the sum of both changes nothing. -/
theorem C113_cut_off : ∃ (s t : Transform) (doc : List Nd), Orderly doc ∧ (transform s 0 12 doc).1 = none ∧
    (transform t 0 12 (transform s 0 12 doc).2).1 = none ∧
    values (transform (s.add t) 0 12 doc).2 ≠ values (transform t 0 12 (transform s 0 12 doc).2).2 :=
  ⟨⟨0, -1, 1⟩, ⟨0, 1, 1⟩, sample, sample_orderly, by decide +kernel, by decide +kernel, by decide +kernel⟩

/-! ### An example: `{ c4 c \tuplet 3/2 { c8 c c8 } <c e>2*1/2 r \skip 4 c }`, twice as fast and then with a dot more -/

example : (transform ⟨1, 0, 1⟩ 0 12 sample).1 = none ∧ (transform ⟨0, 1, 2/3⟩ 0 12 (transform ⟨1, 0, 1⟩ 0 12 sample).2).1 = none ∧
    values (transform ⟨1, 0, 1⟩ 0 12 sample).2 ≠ values sample := by decide +kernel

/-- The durations of the sample can be written without dots. -/
theorem sample_fits (l : ℤ) (k : ℕ) (hk : k ≤ 52) (q : ℚ) : ∀ d, some d ∈ values sample → Fits ⟨l, k, q⟩ d := by
  have hv : values sample = [some (1/4, 1), none, none, some (1/8, 1), none, some (1/8, 1), some (1/2, 1/2), none, none, none,
      some (1/4, 1), none] := by decide +kernel
  intro d hd
  rw [hv] at hd
  simp only [List.mem_cons, Option.some.injEq, reduceCtorEq, List.not_mem_nil, false_or, or_false] at hd
  have h4 : Fits ⟨l, k, q⟩ (1/4, 1) := ⟨2, 0, by norm_num [Duration.Spec.value], by decide, by decide, by simp, by simpa using hk⟩
  have h8 : Fits ⟨l, k, q⟩ (1/8, 1) := ⟨3, 0, by norm_num [Duration.Spec.value], by decide, by decide, by simp, by simpa using hk⟩
  have h2 : Fits ⟨l, k, q⟩ (1/2, 1/2) := ⟨1, 0, by norm_num [Duration.Spec.value], by decide, by decide, by simp, by simpa using hk⟩
  rcases hd with rfl | rfl | rfl | rfl | rfl <;> assumption

example : values (transform ⟨1, 1, 2/3⟩ 0 12 sample).2 =
    values (transform ⟨0, 1, 2/3⟩ 0 12 (transform ⟨1, 0, 1⟩ 0 12 sample).2).2 := by
  have := (C113_twice ⟨1, 0, 1⟩ ⟨0, 1, 2/3⟩ 0 12 sample sample_orderly (sample_fits 1 0 (by decide) 1) (by decide +kernel) (by decide +kernel)).2
  simpa [Transform.add] using this

example : values (transform ⟨0, 1, 2/3⟩ 0 12 (transform ⟨1, 0, 1⟩ 0 12 sample).2).2 =
    values (transform ⟨1, 0, 1⟩ 0 12 (transform ⟨0, 1, 2/3⟩ 0 12 sample).2).2 :=
  C113_order ⟨1, 0, 1⟩ ⟨0, 1, 2/3⟩ 0 12 sample sample_orderly (sample_fits 1 0 (by decide) 1) (sample_fits 0 1 (by decide) (2/3))
    (by decide +kernel) (by decide +kernel) (by decide +kernel) (by decide +kernel)

end Quickly.RhythmTwice
