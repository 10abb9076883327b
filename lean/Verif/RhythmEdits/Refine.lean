import Verif.RhythmEdits.Numbers

/-!
# C100: Rhythm edits give the nodes of a document the right durations

The edits of `Verif.Rhythm`, for which C47, C48, C49, C57 and C58 say what they do with the durations, are what the edits of
the nodes of a document do, for every document and range.  So what these properties say holds for the Duration nodes of
documents.
-/

namespace Quickly.RhythmEdits

open Quickly.Node Quickly.Signature Quickly.Length Quickly.RhythmTime Quickly.RhythmTime.Spec Spec
open Quickly.Rhythm (Mus)

theorem regular_reg {doc : List Nd} (h : Regular doc) (x : Bool × Nd) (hx : x ∈ nodesL false doc) : Reg x :=
  ⟨h.one x hx, h.written x hx, h.apart x hx⟩

variable {σ τ : Type} {P : Proc σ} {p : Rhythm.Proc τ} {R : σ → τ → Prop}

theorem sim_range (doc : List Nd) (h : Regular doc) (a b : ℕ) {which : ℕ → Nd → Bool} (q : Rhythm.Label → Bool)
    (hq : ∀ l, q l = true → l.kind.handles = true)
    (hl : ∀ i n, which i n = (decide (a ≤ i ∧ i < b) && q (label i n))) (hs : Step P p which R) {st : σ} {st' : τ}
    (hR : R st st') :
    R (walkL P which st 0 [] doc).1 (Rhythm.walkL p
        (fun j l => decide (place (labelsL 0 doc) a ≤ j ∧ j < place (labelsL 0 doc) b) && q l) st' 0 [] (labelsL 0 doc)).1 ∧
      labelsL 0 (walkL P which st 0 [] doc).2.2 = (Rhythm.walkL p
        (fun j l => decide (place (labelsL 0 doc) a ≤ j ∧ j < place (labelsL 0 doc) b) && q l) st' 0 []
          (labelsL 0 doc)).2.2 := by
  have hw : ∀ i n, which i n = true → n.val.1 ∈ timed := by
    intro i n hi
    rw [hl, Bool.and_eq_true] at hi
    have := hq _ hi.2
    change (kindOf n).handles = true at this
    rw [kind_handles] at this
    simpa using this
  have := walkL_sim (which' := fun _ l => decide (a ≤ l.id ∧ l.id < b) && q l) hs hw (fun i n j => (hl i n).symm) doc false
    st st' 0 0 [] [] (regular_reg h) h.top hR rfl
  rw [← lwalkL_agree (p := p) (labelsL 0 doc) st' 0 [] false (agree_range doc a b q hq)]
  exact ⟨this.1, this.2.1⟩

theorem sim_edit (doc : List Nd) (h : Regular doc) (a b : ℕ) (hs : Step P p (inRange a b) R) {st : σ} {st' : τ}
    (hR : R st st') :
    R (walkL P (inRange a b) st 0 [] doc).1
        (Rhythm.edit p st' (place (labelsL 0 doc) a) (place (labelsL 0 doc) b) (labelsL 0 doc)).1 ∧
      labelsL 0 (walkL P (inRange a b) st 0 [] doc).2.2 =
        (Rhythm.edit p st' (place (labelsL 0 doc) a) (place (labelsL 0 doc) b) (labelsL 0 doc)).2 :=
  sim_range doc h a b Rhythm.Label.isDurable durable_handles
    (fun i n => by rw [label_durable]; rfl) hs hR

/-- The edit of music with durations. -/
def RhythmEdit.onLabels (a b : ℕ) (ms : List Mus) : RhythmEdit → List Mus
  | .remove => Rhythm.remove a b ms
  | .removeScaling => Rhythm.removeScaling a b ms
  | .removeFraction => Rhythm.removeFraction a b ms
  | .explicit => Rhythm.explicit a b ms
  | .implicit => Rhythm.implicit a b ms
  | .implicitPerLine block => Rhythm.implicitPerLine block a b ms
  | .transform t => (Rhythm.transform t a b ms).2
  | .copy => ms
  | .copyExplicit => ms
  | .paste durs cycle => Rhythm.paste durs cycle a b ms

/-- **C100**: the durations of the nodes after an edit are those of the edit of music with durations; the range is the same
one, by the numbers of all nodes. -/
theorem C100_refines (e : RhythmEdit) (a b : ℕ) (doc : List Nd) (h : Regular doc) :
    labelsL 0 (e.run a b doc) =
      e.onLabels (place (labelsL 0 doc) a) (place (labelsL 0 doc) b) (labelsL 0 doc) := by
  cases e with
  | remove => exact (sim_edit doc h a b (step_remove a b) rfl).2
  | removeScaling => exact (sim_edit doc h a b (step_removeScaling a b) rfl).2
  | removeFraction => exact (sim_edit doc h a b (step_removeFraction a b) rfl).2
  | explicit => exact (sim_edit doc h a b (step_explicit a b) ⟨rfl, fun e he => by cases he⟩).2
  | implicit => exact (sim_edit doc h a b (step_implicit a b) rfl).2
  | implicitPerLine block => exact (sim_edit doc h a b (step_perLine a b block) rfl).2
  | transform t =>
    exact (sim_range doc h a b (fun l => l.kind.handles) (fun _ h => h)
      (fun i n => by
        rw [transWhich, handle_iff]
        change _ = (_ && (kindOf n).handles)
        rw [kind_handles]) (step_transform a b t) rfl).2
  | copy => simp only [RhythmEdit.run, (C99_copy a b doc).1, RhythmEdit.onLabels]
  | copyExplicit => simp only [RhythmEdit.run, (C99_copy a b doc).2, RhythmEdit.onLabels]
  | paste ds cycle => exact (sim_edit doc h a b (step_paste a b ds cycle) rfl).2

/-- **C100** for the durations that are copied, and the exception that a transform raises. -/
theorem C100_results (a b : ℕ) (doc : List Nd) (h : Regular doc) :
    (copy a b doc).1 = Rhythm.copy (place (labelsL 0 doc) a) (place (labelsL 0 doc) b) (labelsL 0 doc) ∧
    (copyExplicit a b doc).1 = Rhythm.copyExplicit (place (labelsL 0 doc) a) (place (labelsL 0 doc) b) (labelsL 0 doc) ∧
    ∀ t, (transform t a b doc).1 =
      (Rhythm.transform t (place (labelsL 0 doc) a) (place (labelsL 0 doc) b) (labelsL 0 doc)).1 := by
  refine ⟨?_, ?_, fun t => ?_⟩
  · exact congrArg List.reverse (sim_edit doc h a b (step_copy a b) (st := []) rfl).1
  · exact congrArg (fun x => x.2.reverse) (sim_edit doc h a b (step_copyExplicit a b) (st := (none, [])) rfl).1
  · exact (sim_range doc h a b (fun l => l.kind.handles) (fun _ h => h)
      (fun i n => by
        rw [transWhich, handle_iff]
        change _ = (_ && (kindOf n).handles)
        rw [kind_handles]) (step_transform a b t) (st := none) rfl).1

mutual
theorem values_labels : ∀ (t : Nd) (i : ℕ) (right : Option Rhythm.Kind) (ins : Bool),
    ((Rhythm.Spec.nodes ins right (labels i t)).filter fun x => x.1.kind.handles).map (fun x => x.1.dur) =
      (owned t).map fun ds => ds.head?.map durationOf
  | .node l cs, i, right, ins => by
    have ih := valuesL_labels cs (if l.1 ∈ timed then i + 1 else i) (ins || (label i (.node l cs)).kind.sets)
    have hh : (label i (.node l cs)).kind.handles = decide (l.1 ∈ timed) := kind_handles (.node l cs)
    have hd : (label i (.node l cs)).dur = (durs (.node l cs)).head?.map durationOf := by
      change durationScaling _ = _
      unfold durationScaling
      rw [find_durs]
    simp only [labels, Rhythm.Spec.nodes, owned, List.filter_cons, hh]
    by_cases ht : l.1 ∈ timed
    · simp only [ht, decide_true, if_true, List.map_cons, hd] at ih ⊢
      rw [ih]
      rfl
    · simp only [ht, decide_false, Bool.false_eq_true, if_false, List.nil_append] at ih ⊢
      exact ih
theorem valuesL_labels : ∀ (ts : List Nd) (i : ℕ) (ins : Bool),
    ((Rhythm.Spec.nodesL ins (labelsL i ts)).filter fun x => x.1.kind.handles).map (fun x => x.1.dur) =
      (ownedL ts).map fun ds => ds.head?.map durationOf
  | [], i, ins => rfl
  | t :: ts, i, ins => by
    by_cases hd : t.val.1 = .Duration
    · simp only [labelsL, ownedL, hd, if_true]
      exact valuesL_labels ts i ins
    · simp only [labelsL, ownedL, hd, if_false, Rhythm.Spec.nodesL, List.filter_append, List.map_append]
      rw [values_labels t, valuesL_labels ts]
end

/-- The durations of all nodes that can have one, in document order. -/
def values (doc : List Nd) : List (Option D) := (ownedL doc).map fun ds => ds.head?.map durationOf

/-- The music with durations has the durations of the nodes, in the same order. -/
theorem C100_values (doc : List Nd) : values doc =
    ((Rhythm.Spec.allNodes (labelsL 0 doc)).filter fun x => x.1.kind.handles).map (fun x => x.1.dur) :=
  (valuesL_labels doc 0 false).symm

/-- **C100**: pasting the rhythm that was copied from a document in the same place keeps all durations, if no duration is
absent where it would have to be written. -/
theorem C100_paste_copy (cycle : Bool) (a b : ℕ) (doc : List Nd) (h : Regular doc)
    (hr : ∀ x ∈ Rhythm.Spec.durables (place (labelsL 0 doc) a) (place (labelsL 0 doc) b) (labelsL 0 doc),
      x.1.dur = none → ¬ Rhythm.Spec.MustStay x.1 x.2) :
    values (paste (copy a b doc).1 cycle a b doc) = values doc ∧
      stripL (paste (copy a b doc).1 cycle a b doc) = stripL doc := by
  refine ⟨?_, C99_only_durations (.paste _ cycle) a b doc⟩
  have h1 := C100_refines (.paste (copy a b doc).1 cycle) a b doc h
  simp only [RhythmEdit.run, RhythmEdit.onLabels] at h1
  rw [C100_values, C100_values, h1, (C100_results a b doc h).1, Rhythm.C48_paste_copy cycle _ _ _ hr]

/-- `Apart` can be decided. -/
instance decApart : ∀ cs, Decidable (Apart cs)
  | [] => isTrue trivial
  | [_] => isTrue trivial
  | _ :: d :: cs => @instDecidableAnd _ _ _ (decApart (d :: cs))

/-- The sample of C93, `{ c4 c \tuplet 3/2 { c8 c c8 } <c e>2*1/2 r \skip 4 c }`, is as it is read. -/
theorem sample_regular : Regular sample := by
  refine ⟨sample_normal.one, sample_normal.written, ?_, by decide +kernel⟩
  have : ((nodesL false sample).all fun x => decide (Apart x.2.children)) = true := by decide +kernel
  intro x hx
  exact of_decide_eq_true (List.all_eq_true.1 this x hx)

/-- The numbers of the nodes: the second note of the tuplet is the fifth node that can have a duration, and the eighth
node. -/
example : place (labelsL 0 sample) 4 = 7 := by decide +kernel

example : values sample = [some (1/4, 1), none, none, some (1/8, 1), none, some (1/8, 1), some (1/2, 1/2), none, none, none,
    some (1/4, 1), none] ∧ (copy 0 6 sample).1 = [some (1/4, 1), none, some (1/8, 1), none, some (1/8, 1)] := by
  decide +kernel

example : values (paste (copy 0 12 sample).1 true 0 12 sample) = values sample :=
  (C100_paste_copy true 0 12 sample sample_regular (by
    have : ((Rhythm.Spec.durables (place (labelsL 0 sample) 0) (place (labelsL 0 sample) 12) (labelsL 0 sample)).all fun x =>
      x.1.dur.isSome || Rhythm.mayRemove x.1 x.2) = true := by decide +kernel
    intro x hx hn
    have h := List.all_eq_true.1 this x hx
    rw [hn] at h
    exact (Rhythm.mayRemove_iff _ _).1 (by simpa using h))).1

end Quickly.RhythmEdits
