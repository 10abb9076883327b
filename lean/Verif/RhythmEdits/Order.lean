import Verif.RhythmEdits.Labels
import Verif.Add.Props

/-!
# C99: Rhythm edits put durations at the right place

A Duration that an edit adds to a node comes after the pitch, the chord or the text, and before the articulations and
comments, so it is written where LilyPond expects it.
-/

namespace Quickly.RhythmEdits

open Quickly.Node Quickly.Signature Quickly.Length Quickly.RhythmTime Quickly.RhythmTime.Spec Spec

theorem placedL_filter (cs : List Nd) : PlacedL cs ↔ ∀ x ∈ cs.filter solid, Placed x := by
  induction cs with
  | nil => simp [PlacedL]
  | cons c cs ih =>
    by_cases h : c.val.1 = .Duration
    · simp [PlacedL, solid, h, ih]
    · simp [PlacedL, solid, h, ih]

theorem setFirst_cls (q : ℚ) (s : Option ℚ) (cs : List Nd) :
    (setFirst q s cs).map (fun x => x.val.1) = cs.map fun x => x.val.1 := by
  induction cs with
  | nil => rfl
  | cons c cs ih =>
    obtain ⟨l, xs⟩ := c
    simp only [setFirst]
    split
    · simp [Node.Tree.val]
    · simp [ih]

theorem rank_duration : ∀ c ∈ durables, rank c .Duration = 1 := by decide +kernel

/-- The place of the Duration in the child order of a node is behind what is written before it. -/
theorem earlier_front : ∀ c ∈ durables, ∃ order, childOrder c = [order] ∧
    (∃ k ∈ order, k.any (isSub 5 .Duration) = true) ∧
    ∀ k : Cls, decide (order.findIdx (fun o => o.any (isSub 5 k)) < order.findIdx (fun o => o.any (isSub 5 .Duration))) =
      (front c).any (isSub 5 k) := by
  intro c hc
  simp only [durables, Length.Spec.events, List.mem_cons, List.not_mem_nil, or_false] at hc
  rcases hc with rfl | rfl | rfl | rfl | rfl | rfl | rfl | rfl | rfl | rfl | rfl | rfl | rfl | rfl
  all_goals exact ⟨_, rfl, by decide +kernel, fun k => by cases k <;> rfl⟩

theorem inOrder_add (c : Cls) (hc : c ∈ durables) (cs : List Nd) (d : Nd) (hd : d.val.1 = .Duration) (h : InOrder c cs) :
    InOrder c (Add.add isAny (childOrder c) cs d) := by
  obtain ⟨order, h1, ⟨k, hk, hk'⟩, h3⟩ := earlier_front c hc
  have hl : Add.Spec.Listed isAny order d := ⟨k, hk, by simpa only [isAny, isA, hd] using hk'⟩
  have hp := Add.C40_place isAny [] [] order cs d (by simp) (by simp) hl
  have he : (fun x => decide (Add.Spec.place isAny order x < Add.Spec.place isAny order d)) =
      fun x : Nd => (front c).any (isSub 5 x.val.1) := by
    funext x
    rw [← h3]
    refine decide_eq_decide.2 ?_
    simp only [Add.Spec.place]
    unfold isAny isA
    rw [hd]
  rw [he] at hp
  rw [h1]
  simp only [List.nil_append] at hp
  rw [hp]
  have hr := rank_duration c hc
  clear hp he hl h1 h3
  induction cs with
  | nil => simp [InOrder]
  | cons x cs ih =>
    have hx := h
    simp only [InOrder, List.map_cons, List.pairwise_cons] at h
    by_cases hf : (front c).any (isSub 5 x.val.1) = true
    · have := ih h.2
      simp only [List.takeWhile_cons, List.dropWhile_cons, hf, if_true, List.cons_append]
      simp only [InOrder, List.map_cons, List.pairwise_cons]
      refine ⟨fun k _ => ?_, this⟩
      simp [rank, hf]
    · simp only [List.takeWhile_cons, List.dropWhile_cons, hf, Bool.false_eq_true, if_false, List.nil_append]
      have h1 : 1 ≤ rank c x.val.1 := by
        simp only [rank, hf, Bool.false_eq_true, if_false]
        split <;> decide
      unfold InOrder at hx ⊢
      rw [List.map_cons, List.pairwise_cons]
      refine ⟨fun k hk => ?_, hx⟩
      rw [hd, hr]
      rw [List.map_cons, List.mem_cons] at hk
      rcases hk with rfl | hk
      · exact h1
      · exact h1.trans (h.1 k hk)

theorem inOrder_apply (ch : RhythmTime.Change) (hf : Fine ch) (c : Cls) (hc : c ∈ durables) (cs : List Nd) (h : InOrder c cs) :
    InOrder c (ch.apply c cs) := by
  cases ch with
  | keep => exact h
  | del => exact List.Pairwise.sublist ((List.eraseP_sublist).map _) h
  | add d => exact inOrder_add c hc cs d (hf d rfl) h
  | set q s =>
    simp only [InOrder, Change.apply, setFirst_cls]
    exact h

variable {σ : Type} {P : Proc σ} {which : ℕ → Nd → Bool} {Inv : σ → Prop}

mutual
theorem walk_placed (h : FineProc P Inv) : ∀ (t : Nd) (st : σ) (i : ℕ) (before : List Nd) (right : Option Nd), Inv st →
    Placed t → Placed (walk P which st i before right t).2.2
  | .node l cs, st, i, before, right, hi, hp => by
    obtain ⟨h1, h2⟩ := fine_step (which := which) h st i before right (.node l cs) hi
    have h4 := walkL_placed h cs _ (if isA .HandleDuration (.node l cs) then i + 1 else i) before h1 hp.2
    simp only [walk, Placed]
    refine ⟨fun hl => ?_, ?_⟩
    · refine inOrder_apply _ h2 l.1 hl _ ?_
      have e := walkL_val (P := P) (which := which) cs
        (if which i (.node l cs) then P st i before right (.node l cs) else (st, .keep)).1
        (if isA .HandleDuration (.node l cs) then i + 1 else i) before
      have e' := congrArg (List.map Prod.fst) e
      rw [List.map_map, List.map_map] at e'
      have := hp.1 hl
      unfold InOrder at this ⊢
      exact e' ▸ this
    · rw [placedL_filter, apply_solid _ h2, ← placedL_filter]
      exact h4
theorem walkL_placed (h : FineProc P Inv) : ∀ (ts : List Nd) (st : σ) (i : ℕ) (before : List Nd), Inv st →
    PlacedL ts → PlacedL (walkL P which st i before ts).2.2
  | [], st, i, before, hi, hp => trivial
  | t :: ts, st, i, before, hi, hp => by
    have h1 := (walk_strip (which := which) h t st i before ts.head? hi).1
    have h3 := walkL_placed h ts _ (walk P which st i before ts.head? t).2.1
      (rev (walk P which st i before ts.head? t).2.2 ++ before) h1 hp.2
    simp only [walkL, PlacedL]
    refine ⟨?_, h3⟩
    rcases hp.1 with hd | hp
    · left; rw [walk_val]; exact hd
    · right; exact walk_placed h t st i before ts.head? hi hp
end

/-- **C99**: if the children of the notes, chords, rests and texts are in the order in which they have to be written, they
still are after any edit: a Duration comes after the pitch, the chord or the text, and before articulations and comments. -/
theorem C99_place (e : RhythmEdit) (a b : ℕ) (doc : List Nd) (h : PlacedL doc) : PlacedL (e.run a b doc) := by
  obtain ⟨σ, P, Inv, st, which, h1, h2, -, -, h5⟩ := run_walk e a b
  rw [h5]
  exact walkL_placed h1 doc st 0 [] h2 h

/-- `{ c4 cis'!-. }`: the note without a duration. -/
def marked : List Nd :=
  [.node (.MusicList, .text "") [.node (.Note, .text "") [.node (.Duration, .value (1/4)) []],
    .node (.Note, .text "") [.node (.Octave, .text "") [], .node (.Accidental, .text "") [], .node (.Articulations, .text "") []]]]

example : PlacedL marked := by
  simp only [marked, PlacedL, Placed, InOrder, Node.Tree.val]
  decide +kernel

/-- The classes of the children of the children of the first node. -/
def parts (doc : List Nd) : List (List Cls) :=
  doc.flatMap fun n => n.children.map fun m => m.children.map fun x => x.val.1

example : parts (RhythmEdit.run 0 9 marked .explicit) = [[.Duration], [.Octave, .Accidental, .Duration, .Articulations]] := by
  decide +kernel

end Quickly.RhythmEdits
