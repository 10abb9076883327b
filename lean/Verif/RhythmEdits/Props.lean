import Verif.RhythmEdits.Lemmas
import Verif.RhythmTime.Props

/-!
# C99: Rhythm edits change nothing but durations

Without the durations, a document is the same before and after any edit of `quickly/rhythm.py`; nodes outside the range also
keep their durations.
-/

namespace Quickly.RhythmEdits

open Quickly.Node Quickly.Signature Quickly.Length Quickly.RhythmTime Quickly.RhythmTime.Spec Spec

theorem fine_keep : Fine .keep := fun d h => by cases h
theorem fine_del : Fine .del := fun d h => by cases h
theorem fine_set (q : ℚ) (s : Option ℚ) : Fine (.set q s) := fun d h => by cases h
theorem fine_from (d : D) : Fine (.add (fromDuration d)) := fun x h => by cases h; rfl

theorem fine_delScaling (n : Nd) : Fine (delScaling n) := by
  unfold delScaling; split
  · exact fine_set _ _
  · exact fine_keep

theorem fine_setDuration (n : Nd) (d : D) : Fine (setDuration n d) := by
  unfold setDuration; split
  · exact fine_set _ _
  · exact fine_from d

theorem fine_remove : FineProc removeProc fun _ => True := by
  intro st i before right n _
  refine ⟨trivial, ?_⟩
  simp only [removeProc]; split
  · exact fine_del
  · exact fine_keep

theorem fine_removeScaling : FineProc removeScalingProc fun _ => True :=
  fun _ _ _ _ n _ => ⟨trivial, fine_delScaling n⟩

theorem fine_removeFraction : FineProc removeFractionProc fun _ => True := by
  intro st i before right n _
  refine ⟨trivial, ?_⟩
  simp only [removeFractionProc]
  split
  · split
    · exact fine_keep
    · exact fine_delScaling n
  · exact fine_keep

theorem fine_explicit : FineProc explicitProc fun st => ∀ d, st = some d → d.val.1 = .Duration := by
  intro st i before right n hi
  simp only [explicitProc]
  split
  · rcases st with _ | d
    · exact ⟨fun d h => by cases h; rfl, fine_from _⟩
    · exact ⟨hi, fun x h => by cases h; exact hi d rfl⟩
  · rename_i d hd
    refine ⟨?_, fine_keep⟩
    have h1 : isA .Duration d = true := List.find?_some hd
    rw [isA_duration] at h1
    split
    · intro x h; cases h; simpa using h1
    · exact hi

theorem fine_implicit : FineProc implicitProc fun _ => True := by
  intro st i before right n _
  refine ⟨trivial, ?_⟩
  simp only [implicitProc]
  split
  · exact fine_keep
  · split
    · exact fine_del
    · exact fine_keep

theorem fine_perLine (block : ℕ → Option ℕ) : FineProc (perLineProc block) fun _ => True := by
  intro st i before right n _
  refine ⟨trivial, ?_⟩
  simp only [perLineProc]
  split
  · split
    · exact fine_del
    · exact fine_keep
  · split
    · split
      · exact fine_from _
      · exact fine_keep
    · exact fine_keep

theorem fine_transform (t : Duration.Transform) : FineProc (transformProc t) fun _ => True := by
  intro st i before right n _
  refine ⟨trivial, ?_⟩
  simp only [transformProc]
  split
  · split
    · exact fine_keep
    · split
      · exact fine_set _ _
      · exact fine_set _ _
  · exact fine_keep

theorem fine_copy : FineProc copyProc fun _ => True := fun _ _ _ _ _ _ => ⟨trivial, fine_keep⟩
theorem fine_copyExplicit : FineProc copyExplicitProc fun _ => True := fun _ _ _ _ _ _ => ⟨trivial, fine_keep⟩

theorem fine_paste (durs : List (Option D)) (cycle : Bool) : FineProc (pasteProc durs cycle) fun _ => True := by
  rintro ⟨k, prev⟩ i before right n _
  refine ⟨trivial, ?_⟩
  simp only [pasteProc]
  split
  · exact fine_keep
  · exact fine_setDuration _ _
  · split
    · exact fine_del
    · split
      · exact fine_setDuration _ _
      · exact fine_keep

theorem inRange_within {a b i : ℕ} {n : Nd} (h : inRange a b i n = true) : a ≤ i ∧ i < b := by
  simp only [inRange, Bool.and_eq_true, decide_eq_true_eq] at h
  exact h.1

/-- Every edit is a walk that only adds Durations, and only visits nodes in the range. -/
theorem run_walk (e : RhythmEdit) (a b : ℕ) : ∃ (σ : Type) (P : Proc σ) (Inv : σ → Prop) (st : σ) (which : ℕ → Nd → Bool),
    FineProc P Inv ∧ Inv st ∧ (∀ i n, which i n = true → n.val.1 ∈ timed) ∧ (∀ i n, which i n = true → a ≤ i ∧ i < b) ∧
    ∀ doc, e.run a b doc = (walkL P which st 0 [] doc).2.2 := by
  have ht := inRange_timed a b
  have hr : ∀ i n, inRange a b i n = true → a ≤ i ∧ i < b := fun i n h => inRange_within h
  cases e with
  | remove => exact ⟨_, _, _, (), _, fine_remove, trivial, ht, hr, fun _ => rfl⟩
  | removeScaling => exact ⟨_, _, _, (), _, fine_removeScaling, trivial, ht, hr, fun _ => rfl⟩
  | removeFraction => exact ⟨_, _, _, (), _, fine_removeFraction, trivial, ht, hr, fun _ => rfl⟩
  | explicit => exact ⟨_, _, _, none, _, fine_explicit, (fun d h => by cases h), ht, hr, fun _ => rfl⟩
  | implicit => exact ⟨_, _, _, none, _, fine_implicit, trivial, ht, hr, fun _ => rfl⟩
  | implicitPerLine block => exact ⟨_, _, _, none, _, fine_perLine block, trivial, ht, hr, fun _ => rfl⟩
  | transform t =>
    refine ⟨_, _, _, none, _, fine_transform t, trivial, ?_, ?_, fun _ => rfl⟩
    · intro i n h
      simp only [Bool.and_eq_true, handle_iff, decide_eq_true_eq] at h
      exact h.2
    · intro i n h
      simp only [Bool.and_eq_true, decide_eq_true_eq] at h
      exact h.1
  | copy => exact ⟨_, _, _, [], _, fine_copy, trivial, ht, hr, fun _ => rfl⟩
  | copyExplicit => exact ⟨_, _, _, (none, []), _, fine_copyExplicit, trivial, ht, hr, fun _ => rfl⟩
  | paste durs cycle => exact ⟨_, _, _, (0, none), _, fine_paste durs cycle, trivial, ht, hr, fun _ => rfl⟩

/-- **C99**: whatever the edit and the range, the document without the durations is the same. -/
theorem C99_only_durations (e : RhythmEdit) (a b : ℕ) (doc : List Nd) : stripL (e.run a b doc) = stripL doc := by
  obtain ⟨σ, P, Inv, st, which, h1, h2, -, -, h5⟩ := run_walk e a b
  rw [h5]
  exact (walkL_strip h1 doc st 0 [] h2).2

/-- **C99**: the nodes outside the range keep their durations, with all that is in them. -/
theorem C99_outside (e : RhythmEdit) (a b : ℕ) (doc : List Nd) (h : Written doc) :
    (ownedL (e.run a b doc)).length = (ownedL doc).length ∧
      ∀ k, ¬ (a ≤ k ∧ k < b) → (ownedL (e.run a b doc))[k]? = (ownedL doc)[k]? := by
  obtain ⟨σ, P, Inv, st, which, h1, h2, h3, h4, h5⟩ := run_walk e a b
  rw [h5]
  have := walkL_owned h1 h3 h4 doc false st 0 [] (fun x hx hd => ⟨hd, h x hx hd⟩) h2
  refine ⟨this.1, fun k hk => this.2 k (by simpa using hk)⟩

theorem walkL_keep {σ : Type} {P : Proc σ} {which : ℕ → Nd → Bool}
    (h : ∀ st i before right n, (P st i before right n).2 = .keep) : ∀ (ts : List Nd) (st : σ) (i : ℕ) (before : List Nd),
    (walkL P which st i before ts).2.2 = ts
  | [], st, i, before => rfl
  | .node l cs :: ts, st, i, before => by
    have ih1 := walkL_keep (which := which) h cs
    have ih2 := walkL_keep (which := which) h ts
    simp only [walkL, walk]
    rw [ih2, ih1]
    have : (if which i (.node l cs) then P st i before ts.head? (.node l cs) else (st, .keep)).2 = .keep := by
      split
      · exact h ..
      · rfl
    rw [this]
    rfl

/-- **C99**: copying the rhythm changes nothing. -/
theorem C99_copy (a b : ℕ) (doc : List Nd) : (copy a b doc).2 = doc ∧ (copyExplicit a b doc).2 = doc :=
  ⟨walkL_keep (fun _ _ _ _ _ => rfl) doc _ _ _, walkL_keep (fun _ _ _ _ _ => rfl) doc _ _ _⟩

theorem normal_written {doc : List Nd} (h : Normal doc) : Written doc := fun x hx hd => (h.written x hx hd).1

/-- The durations of the nodes. -/
def ownedValues (doc : List Nd) : List (List D) := (ownedL doc).map (·.map durationOf)

/-- With `sample`, `{ c4 c \tuplet 3/2 { c8 c c8 } <c e>2*1/2 r \skip 4 c }`: pasting changes the durations in the range, and
only those. -/
example : ownedValues sample = [[(1/4, 1)], [], [], [(1/8, 1)], [], [(1/8, 1)], [(1/2, 1/2)], [], [], [], [(1/4, 1)], []] ∧
    ownedValues (RhythmEdit.run 1 5 sample (.paste [some (1/16, 2), none] true)) =
      [[(1/4, 1)], [(1/16, 2)], [], [], [(1/16, 2)], [(1/8, 1)], [(1/2, 1/2)], [], [], [], [(1/4, 1)], []] := by
  decide +kernel

example (k : ℕ) (hk : 5 ≤ k) : (ownedL (RhythmEdit.run 1 5 sample (.paste [some (1/16, 2), none] true)))[k]? =
    (ownedL sample)[k]? :=
  (C99_outside _ 1 5 sample (normal_written sample_normal)).2 k (by omega)

end Quickly.RhythmEdits
