import Verif.RhythmEdits.Keep

/-!
# C101: Rhythm edits one after another

A document that is as it should be written still is after an edit, so C100 holds for any sequence of edits.  Then what C47
says of two edits of durations holds for documents: making durations explicit, or implicit, a second time changes no
duration, and making them implicit first makes no difference for making them explicit.
-/

namespace Quickly.RhythmEdits

open Quickly.Node Quickly.Signature Quickly.Length Quickly.RhythmTime Quickly.RhythmTime.Spec Spec
open Quickly.Rhythm (Mus)

theorem neat_keep (n : Nd) : Neat n .keep := fun d h => by cases h
theorem neat_del (n : Nd) : Neat n .del := fun d h => by cases h
theorem neat_set (n : Nd) (q : ℚ) (s : Option ℚ) : Neat n (.set q s) := fun d h => by cases h
theorem neat_from {n : Nd} (h1 : durs n = []) (h2 : isA .Durable n = true) (d : D) : Neat n (.add (fromDuration d)) :=
  fun x h => by cases h; exact ⟨h1, h2, rfl, written_from d⟩

theorem neat_delScaling (n : Nd) : Neat n (delScaling n) := by
  unfold delScaling; split
  · exact neat_set _ _ _
  · exact neat_keep _

theorem neat_setDuration {n : Nd} (h : isA .Durable n = true) (d : D) : Neat n (setDuration n d) := by
  unfold setDuration; split
  · exact neat_set _ _ _
  · rename_i ha
    rw [any_durs] at ha
    refine neat_from (durs_of_none ?_) h d
    cases hd : durationScaling n with
    | none => rfl
    | some e => rw [hd] at ha; exact (ha rfl).elim

variable (a b : ℕ)

theorem neat_remove : NeatProc removeProc (inRange a b) fun _ => True := by
  intro st i before right n _ _ _
  refine ⟨trivial, ?_⟩
  simp only [removeProc]; split
  · exact neat_del n
  · exact neat_keep n

theorem neat_removeScaling : NeatProc removeScalingProc (inRange a b) fun _ => True :=
  fun _ _ _ _ n _ _ _ => ⟨trivial, neat_delScaling n⟩

theorem neat_removeFraction : NeatProc removeFractionProc (inRange a b) fun _ => True := by
  intro st i before right n _ _ _
  refine ⟨trivial, ?_⟩
  simp only [removeFractionProc]
  split
  · split
    · exact neat_keep n
    · exact neat_delScaling n
  · exact neat_keep n

theorem neat_explicit : NeatProc explicitProc (inRange a b)
    fun st => ∀ d, st = some d → d.val.1 = .Duration ∧ WrittenDuration d := by
  intro st i before right n hi hwi hw
  simp only [explicitProc]
  cases hd : durs n with
  | nil =>
    simp only [find_none hd]
    rcases st with _ | d
    · exact ⟨fun d h => by cases h; exact ⟨rfl, written_from _⟩, neat_from hd (inRange_durable hwi) _⟩
    · exact ⟨hi, fun x h => by cases h; exact ⟨hd, inRange_durable hwi, hi d rfl⟩⟩
  | cons d ds =>
    simp only [find_some hd]
    refine ⟨?_, neat_keep n⟩
    split
    · intro x h; cases h; exact ⟨(durs_mem hd).2, hw d (by simp [hd])⟩
    · exact hi

theorem neat_implicit : NeatProc implicitProc (inRange a b) fun _ => True := by
  intro st i before right n _ _ _
  refine ⟨trivial, ?_⟩
  simp only [implicitProc]
  split
  · exact neat_keep n
  · split
    · exact neat_del n
    · exact neat_keep n

theorem neat_perLine (block : ℕ → Option ℕ) : NeatProc (perLineProc block) (inRange a b) fun _ => True := by
  intro st i before right n _ hwi _
  refine ⟨trivial, ?_⟩
  simp only [perLineProc]
  split
  · split
    · exact neat_del n
    · exact neat_keep n
  · rename_i hd
    split
    · split
      · exact neat_from (durs_of_none hd) (inRange_durable hwi) _
      · exact neat_keep n
    · exact neat_keep n

theorem neat_transform (t : Duration.Transform) (which : ℕ → Nd → Bool) : NeatProc (transformProc t) which fun _ => True := by
  intro st i before right n _ _ _
  refine ⟨trivial, ?_⟩
  simp only [transformProc]
  split
  · split
    · exact neat_keep n
    · split
      · exact neat_set n _ _
      · exact neat_set n _ _
  · exact neat_keep n

theorem neat_paste (durs : List (Option D)) (cycle : Bool) : NeatProc (pasteProc durs cycle) (inRange a b) fun _ => True := by
  rintro ⟨k, prev⟩ i before right n _ hwi _
  refine ⟨trivial, ?_⟩
  have hn := inRange_durable hwi
  simp only [pasteProc]
  split
  · exact neat_keep n
  · exact neat_setDuration hn _
  · split
    · exact neat_del n
    · split
      · exact neat_setDuration hn _
      · exact neat_keep n

/-- **C101**: after an edit, the document still is as it should be: at most one Duration per node, with at most one scaling,
and at the place where it has to be written. -/
theorem C101_orderly (e : RhythmEdit) (doc : List Nd) (h : Orderly doc) : Orderly (e.run a b doc) := by
  have ht := inRange_timed a b
  cases e with
  | remove => exact walkL_orderly (neat_remove a b) ht doc _ trivial h
  | removeScaling => exact walkL_orderly (neat_removeScaling a b) ht doc _ trivial h
  | removeFraction => exact walkL_orderly (neat_removeFraction a b) ht doc _ trivial h
  | explicit => exact walkL_orderly (neat_explicit a b) ht doc _ (fun d hd => by cases hd) h
  | implicit => exact walkL_orderly (neat_implicit a b) ht doc _ trivial h
  | implicitPerLine block => exact walkL_orderly (neat_perLine a b block) ht doc _ trivial h
  | transform t =>
    refine walkL_orderly (neat_transform t _) ?_ doc none trivial h
    intro i n hi
    simp only [Bool.and_eq_true, handle_iff, decide_eq_true_eq] at hi
    exact hi.2
  | copy => simp only [RhythmEdit.run, (C99_copy a b doc).1]; exact h
  | copyExplicit => simp only [RhythmEdit.run, (C99_copy a b doc).2]; exact h
  | paste ds cycle => exact walkL_orderly (neat_paste a b ds cycle) ht doc _ trivial h

/-! ## The numbers of the nodes do not change -/

theorem strip_val (t : Nd) : (strip t).val = t.val := by cases t; rfl

mutual
theorem owned_strip : ∀ t : Nd, (owned (strip t)).length = (owned t).length
  | .node l cs => by
    simp only [strip, owned, List.length_append, ownedL_strip cs]
    split <;> rfl
theorem ownedL_strip : ∀ ts : List Nd, (ownedL (stripL ts)).length = (ownedL ts).length
  | [] => rfl
  | t :: ts => by
    by_cases h : t.val.1 = .Duration
    · simp only [stripL, ownedL, h, if_true]
      exact ownedL_strip ts
    · have h' : (strip t).val.1 ≠ .Duration := by rw [strip_val]; exact h
      simp only [stripL, ownedL, h, h', if_false, List.length_append, owned_strip t, ownedL_strip ts]
end

/-- What `place` looks at. -/
def key (x : Rhythm.Label × Option Rhythm.Kind × Bool) : Bool × ℕ := (x.1.kind.handles, x.1.id)

mutual
theorem key_strip : ∀ (t : Nd) (i : ℕ) (r r' : Option Rhythm.Kind) (ins ins' : Bool),
    (Rhythm.Spec.nodes ins r (labels i t)).map key = (Rhythm.Spec.nodes ins' r' (labels i (strip t))).map key
  | .node l cs, i, r, r', ins, ins' => by
    have h : ∀ xs, (label i (.node l xs)).kind.handles = decide (l.1 ∈ timed) := fun xs => kind_handles (.node l xs)
    simp only [strip, labels, Rhythm.Spec.nodes, List.map_cons, key, h]
    rw [key_stripL cs _ _ (ins' || (label i (.node l (stripL cs))).kind.sets)]
    rfl
theorem key_stripL : ∀ (ts : List Nd) (i : ℕ) (ins ins' : Bool),
    (Rhythm.Spec.nodesL ins (labelsL i ts)).map key = (Rhythm.Spec.nodesL ins' (labelsL i (stripL ts))).map key
  | [], i, ins, ins' => rfl
  | t :: ts, i, ins, ins' => by
    by_cases h : t.val.1 = .Duration
    · simp only [stripL, labelsL, h, if_true]
      exact key_stripL ts i ins ins'
    · have h' : (strip t).val.1 ≠ .Duration := by rw [strip_val]; exact h
      simp only [stripL, labelsL, h, h', if_false, Rhythm.Spec.nodesL, List.map_append]
      rw [key_strip t i _ ((labelsL (i + (owned (strip t)).length) (stripL ts)).head?.map (·.label.kind)) ins ins',
        key_stripL ts _ ins ins', owned_strip]
end

theorem place_key (ms : List Mus) (a : ℕ) :
    place ms a = ((Rhythm.Spec.allNodes ms).map key).findIdx fun x => x.1 && decide (a ≤ x.2) := by
  rw [place, List.findIdx_map]
  rfl

theorem place_strip (doc : List Nd) (a : ℕ) : place (labelsL 0 doc) a = place (labelsL 0 (stripL doc)) a := by
  rw [place_key, place_key, Rhythm.Spec.allNodes, Rhythm.Spec.allNodes, key_stripL doc 0 false false]

theorem place_run (e : RhythmEdit) (doc : List Nd) (k : ℕ) :
    place (labelsL 0 (e.run a b doc)) k = place (labelsL 0 doc) k := by
  rw [place_strip, C99_only_durations, ← place_strip]

/-- Edits one after another, each with its range. -/
def runAll (es : List (RhythmEdit × ℕ × ℕ)) (doc : List Nd) : List Nd := es.foldl (fun d e => e.1.run e.2.1 e.2.2 d) doc

/-- **C101**: after any sequence of edits, the durations are those of the same edits of music with durations, for the same
ranges, the document is as it should be, and it is the same without the durations. -/
theorem C101_sequence (es : List (RhythmEdit × ℕ × ℕ)) (doc : List Nd) (h : Orderly doc) :
    labelsL 0 (runAll es doc) = es.foldl (fun ms e => e.1.onLabels (place (labelsL 0 doc) e.2.1)
        (place (labelsL 0 doc) e.2.2) ms) (labelsL 0 doc) ∧
      Orderly (runAll es doc) ∧ stripL (runAll es doc) = stripL doc := by
  suffices key : ∀ d, Orderly d → stripL d = stripL doc →
      labelsL 0 (runAll es d) = es.foldl (fun ms e => e.1.onLabels (place (labelsL 0 doc) e.2.1)
        (place (labelsL 0 doc) e.2.2) ms) (labelsL 0 d) ∧
      Orderly (runAll es d) ∧ stripL (runAll es d) = stripL doc from key doc h rfl
  induction es with
  | nil => exact fun d hd hs => ⟨rfl, hd, hs⟩
  | cons e es ih =>
    intro d hd hs
    have hp : ∀ k, place (labelsL 0 d) k = place (labelsL 0 doc) k := fun k => by rw [place_strip, hs, ← place_strip]
    have := ih (e.1.run e.2.1 e.2.2 d) (C101_orderly _ _ _ d hd) ((C99_only_durations ..).trans hs)
    rw [C100_refines e.1 e.2.1 e.2.2 d hd.toRegular, hp, hp] at this
    exact this

theorem values_of_labels {doc doc' : List Nd} (h : labelsL 0 doc = labelsL 0 doc') : values doc = values doc' := by
  rw [C100_values, C100_values, h]

/-- **C101**: a second time, `explicit()` changes no duration. -/
theorem C101_explicit_twice (doc : List Nd) (h : Orderly doc) :
    values (explicit a b (explicit a b doc)) = values (explicit a b doc) := by
  have h1 := (C101_sequence [(.explicit, a, b), (.explicit, a, b)] doc h).1
  have h2 := (C101_sequence [(.explicit, a, b)] doc h).1
  simp only [List.foldl, RhythmEdit.onLabels, Rhythm.C47_explicit_idempotent] at h1 h2
  exact values_of_labels (h1.trans h2.symm)

/-- **C101**: a second time, `implicit()` changes no duration. -/
theorem C101_implicit_twice (doc : List Nd) (h : Orderly doc) :
    values (implicit a b (implicit a b doc)) = values (implicit a b doc) := by
  have h1 := (C101_sequence [(.implicit, a, b), (.implicit, a, b)] doc h).1
  have h2 := (C101_sequence [(.implicit, a, b)] doc h).1
  simp only [List.foldl, RhythmEdit.onLabels, Rhythm.C47_implicit_idempotent] at h1 h2
  exact values_of_labels (h1.trans h2.symm)

/-- **C101**: `explicit()` gives the same durations whether or not `implicit()` is called before. -/
theorem C101_explicit_implicit (doc : List Nd) (h : Orderly doc) :
    values (explicit a b (implicit a b doc)) = values (explicit a b doc) := by
  have h1 := (C101_sequence [(.implicit, a, b), (.explicit, a, b)] doc h).1
  have h2 := (C101_sequence [(.explicit, a, b)] doc h).1
  simp only [List.foldl, RhythmEdit.onLabels, Rhythm.C47_explicit_implicit] at h1 h2
  exact values_of_labels (h1.trans h2.symm)

/-- The order of the children of a list of nodes can be decided. -/
instance decInOrder (c : Cls) (cs : List Nd) : Decidable (InOrder c cs) :=
  inferInstanceAs (Decidable ((cs.map fun x => x.val.1).Pairwise fun j k => rank c j ≤ rank c k))

/-- The sample of C93, `{ c4 c \tuplet 3/2 { c8 c c8 } <c e>2*1/2 r \skip 4 c }`. -/
theorem sample_orderly : Orderly sample := by
  refine ⟨sample_regular, ?_, ?_⟩
  · have : ((nodesL false sample).all fun x => decide (x.2.val.1 ∈ durables → InOrder x.2.val.1 x.2.children)) = true := by
      decide +kernel
    exact fun x hx => of_decide_eq_true (List.all_eq_true.1 this x hx)
  · have : ((nodesL false sample).all fun x => decide (x.2.val.1 ≠ .Durable)) = true := by decide +kernel
    exact fun x hx => of_decide_eq_true (List.all_eq_true.1 this x hx)

example : values (explicit 0 12 (implicit 0 12 sample)) = values (explicit 0 12 sample) :=
  C101_explicit_implicit 0 12 sample sample_orderly

example : values (explicit 0 12 sample) ≠ values sample ∧ values (implicit 0 12 sample) ≠ values sample := by
  decide +kernel

end Quickly.RhythmEdits
