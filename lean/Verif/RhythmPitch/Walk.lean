import Verif.RhythmPitch.Lemmas

/-! # The walk over a document without its pitches -/

namespace Quickly.RhythmPitch

open Quickly.Node Quickly.Signature Quickly.Length Quickly.RhythmTime Spec
open Quickly.RhythmEdits hiding parts walk_val
open Quickly.RhythmTime.Spec (timed sounding)
open Quickly.PitchTime.Spec (pitched parts)

variable {σ : Type}

/-- An edit that does the same without the pitches; `f` is the state that it then has. -/
def Blind (P : Proc σ) (f : σ → σ) : Prop :=
  ∀ st i before before' right n, previousDuration before = previousDuration before' →
    P (f st) i before' (right.map bare) (bare n) = (f (P st i before right n).1, bareChange (P st i before right n).2)

variable {P : Proc σ} {f : σ → σ} {Inv : σ → Prop} {which : ℕ → Nd → Bool}

theorem walk_part (hw : ∀ i n, which i n = true → n.val.1 ∈ timed) {p : Bool} {c : Nd} (h : ofPitch p c = true) (st : σ) (i : ℕ)
    (before : List Nd) (right : Option Nd) : walk P which st i before right c = (st, i, c) := by
  obtain ⟨-, h1, h2⟩ := ofPitch_parts h
  obtain ⟨l, cs⟩ := c
  have h2 : cs = [] := h2
  subst h2
  have ht : l.1 ∉ timed := parts_timed _ h1
  have hw' : which i (.node l []) = false := by
    cases hc : which i (.node l []) with
    | false => rfl
    | true => exact absurd (hw _ _ hc) ht
  have hh : isA .HandleDuration (.node l []) = false := by rw [handle_iff]; exact decide_eq_false ht
  simp [walk, walkL, hw', hh, RhythmTime.Change.apply]

theorem ofPitch_walk (hw : ∀ i n, which i n = true → n.val.1 ∈ timed) {p : Bool} {c : Nd} (h : ofPitch p c = false) (st : σ) (i : ℕ)
    (before : List Nd) (right : Option Nd) : ofPitch p (walk P which st i before right c).2.2 = false := by
  cases h3 : ofPitch p (walk P which st i before right c).2.2 with
  | false => rfl
  | true =>
    obtain ⟨h0, h1, h2⟩ := ofPitch_parts h3
    obtain ⟨l, cs⟩ := c
    have hpart : l.1 ∈ parts := h1
    have ht : l.1 ∉ timed := parts_timed _ hpart
    have hw' : which i (.node l cs) = false := by
      cases hc : which i (.node l cs) with
      | false => rfl
      | true => exact absurd (hw _ _ hc) ht
    simp only [walk, hw', Bool.false_eq_true, if_false, RhythmTime.Change.apply] at h2
    have hl := (walkL_vals (P := P) (which := which) cs st (if isA .HandleDuration (.node l cs) = true then i + 1 else i) before).length_eq
    have h2 : (walkL P which st (if isA .HandleDuration (.node l cs) = true then i + 1 else i) before cs).2.2 = [] := h2
    rw [h2, List.length_nil, List.length_eq_zero_iff] at hl
    subst hl
    have : ofPitch p (.node l []) = true := by
      rw [h0]
      simp [ofPitch, Node.Tree.val, Node.Tree.children, hpart]
    rw [this] at h
    exact absurd h (by decide)

theorem step_bare (hb : Blind P f) (hw : ∀ i n, which i n = true → n.val.1 ∈ timed) (hwb : ∀ i n, which i (bare n) = which i n)
    (st : σ) (i : ℕ) {before before' : List Nd} (hp : previousDuration before = previousDuration before') (right right' : Option Nd)
    (n : Nd) (hr : n.val.1 ∈ timed → right' = right.map bare) :
    (if which i (bare n) then P (f st) i before' right' (bare n) else (f st, .keep)) =
      (f (if which i n then P st i before right n else (st, .keep)).1,
        bareChange (if which i n then P st i before right n else (st, .keep)).2) := by
  rw [hwb]
  split
  · rename_i h
    rw [hr (hw _ _ h), hb st i before before' right n hp]
  · rfl

mutual
theorem walk_bare (hb : Blind P f) (hf : FineProc P Inv) (hw : ∀ i n, which i n = true → n.val.1 ∈ timed)
    (hwb : ∀ i n, which i (bare n) = which i n) : ∀ (t : Nd) (st : σ) (i : ℕ) (before before' : List Nd) (right right' : Option Nd),
    Plain t → Inv st → previousDuration before = previousDuration before' → (t.val.1 ∈ timed → right' = right.map bare) →
    walk P which (f st) i before' right' (bare t) = (f (walk P which st i before right t).1, (walk P which st i before right t).2.1,
      bare (walk P which st i before right t).2.2)
  | .node l cs, st, i, before, before', right, right', hpl, hi, hp, hr => by
    obtain ⟨h1, h2⟩ := fine_step (which := which) hf st i before right (.node l cs) hi
    have hs := step_bare hb hw hwb st i hp right right' (.node l cs) hr
    have hh : isA .HandleDuration (bare (.node l cs)) = isA .HandleDuration (.node l cs) := isA_bare _ _
    rw [Plain] at hpl
    have hl := walkL_bare hb hf hw hwb (decide (l.1 ∈ pitched)) cs _ (if isA .HandleDuration (.node l cs) then i + 1 else i) before before'
      hpl.2 (fun h => hpl.1 (of_decide_eq_true h)) h1 hp
    have hc : (if l.1 ∈ pitched then (l.1, Val.text "") else l).1 = l.1 := by split <;> rfl
    rw [bare] at hs hh ⊢
    simp only [walk, hs, hh, hl, bare, hc, apply_bare _ h2]
theorem walkL_bare (hb : Blind P f) (hf : FineProc P Inv) (hw : ∀ i n, which i n = true → n.val.1 ∈ timed)
    (hwb : ∀ i n, which i (bare n) = which i n) (p : Bool) : ∀ (ts : List Nd) (st : σ) (i : ℕ) (before before' : List Nd),
    PlainL ts → (p = true → ∀ t ∈ ts, t.val.1 ∉ timed) → Inv st → previousDuration before = previousDuration before' →
    walkL P which (f st) i before' (bareL p ts) = (f (walkL P which st i before ts).1, (walkL P which st i before ts).2.1,
      bareL p (walkL P which st i before ts).2.2)
  | [], st, i, before, before', _, _, _, _ => rfl
  | t :: ts, st, i, before, before', hpl, hq, hi, hp => by
    rw [PlainL] at hpl
    have hq' : p = true → ∀ t ∈ ts, t.val.1 ∉ timed := fun h x hx => hq h x (List.mem_cons_of_mem _ hx)
    cases h : ofPitch p t with
    | true =>
      have h1 := walkL_bare hb hf hw hwb p ts st i (rev t ++ before) before' hpl.2 hq' hi ((previous_part h before).trans hp)
      simp only [bareL, h, if_true, walkL, walk_part hw h, h1]
    | false =>
      have hr : t.val.1 ∈ timed → (bareL p ts).head? = ts.head?.map bare := by
        intro ht
        cases p with
        | true => exact absurd ht (hq rfl t (List.mem_cons_self ..))
        | false => rw [bareL_map, List.head?_map]
      have h1 := walk_bare hb hf hw hwb t st i before before' ts.head? _ hpl.1 hi hp hr
      have hi' := (walk_strip (which := which) hf t st i before ts.head? hi).1
      have h2 := walkL_bare hb hf hw hwb p ts _ (walk P which st i before ts.head? t).2.1 _ _ hpl.2 hq' hi'
        (previous_bare (walk P which st i before ts.head? t).2.2 hp)
      have h3 := ofPitch_walk hw h st i before ts.head? (P := P)
      simp only [bareL, h, h3, Bool.false_eq_true, if_false, walkL, h1, h2]
end

theorem bare_fromDuration (d : D) : bare (fromDuration d) = fromDuration d := by
  unfold fromDuration
  split <;> simp [bare, bareL, pitched, ofPitch]

theorem duration_bare (n : Nd) : (bare n).children.any (isA .Duration) = n.children.any (isA .Duration) := by
  obtain ⟨l, cs⟩ := n
  rw [children_bare, any_bareL _ duration_parts]
  rfl

theorem find_bare (n : Nd) : (bare n).children.find? (isA .Duration) = (n.children.find? (isA .Duration)).map bare := by
  obtain ⟨l, cs⟩ := n
  rw [children_bare, find_bareL _ duration_parts]
  rfl

theorem blind_remove : Blind removeProc id := by
  intro st i before before' right n _
  simp only [removeProc, mayRemove_bare, id]
  split <;> rfl

theorem delScaling_bare (n : Nd) : delScaling (bare n) = bareChange (delScaling n) := by
  simp only [delScaling, durationScaling_bare]
  split <;> rfl

theorem blind_removeScaling : Blind removeScalingProc id := by
  intro st i before before' right n _
  simp only [removeScalingProc, delScaling_bare, id]

theorem blind_removeFraction : Blind removeFractionProc id := by
  intro st i before before' right n _
  simp only [removeFractionProc, delScaling_bare, durationScaling_bare, id]
  cases durationScaling n with
  | none => rfl
  | some d => simp only; split <;> rfl

theorem blind_explicit : Blind explicitProc (Option.map bare) := by
  intro st i before before' right n hp
  simp only [explicitProc, find_bare, setsPrevious_bare]
  cases n.children.find? (isA .Duration) with
  | none =>
    cases st with
    | none => simp [bareChange, bare_fromDuration, hp]
    | some d => simp [bareChange]
  | some d =>
    simp only [Option.map_some, bareChange]
    split <;> rfl

theorem blind_implicit : Blind implicitProc id := by
  intro st i before before' right n _
  simp only [implicitProc, durationScaling_bare, mayRemove_bare, setsPrevious_bare, id]
  cases durationScaling n with
  | none => rfl
  | some d => simp only; split <;> rfl

theorem blind_perLine (block : ℕ → Option ℕ) : Blind (perLineProc block) id := by
  intro st i before before' right n _
  simp only [perLineProc, durationScaling_bare, mayRemove_bare, setsPrevious_bare, id]
  cases durationScaling n with
  | some d => simp only; split <;> rfl
  | none =>
    simp only
    split
    · split
      · simp [bareChange, bare_fromDuration]
      · rfl
    · rfl

theorem blind_transform (t : Duration.Transform) : Blind (transformProc t) id := by
  intro st i before before' right n _
  simp only [transformProc, durationScaling_bare, isA_bare, id]
  split
  · split
    · rfl
    · split <;> rfl
  · rfl

theorem blind_copy : Blind copyProc id := by
  intro st i before before' right n _
  simp only [copyProc, durationScaling_bare, id]
  rfl

theorem blind_copyExplicit : Blind copyExplicitProc id := by
  rintro ⟨prev, acc⟩ i before before' right n hp
  simp only [copyExplicitProc, durationScaling_bare, id, hp]
  rfl

theorem setDuration_bare (n : Nd) (d : D) : setDuration (bare n) d = bareChange (setDuration n d) := by
  simp only [setDuration, duration_bare]
  split
  · rfl
  · simp [bareChange, bare_fromDuration]

theorem blind_paste (durs : List (Option D)) (cycle : Bool) : Blind (pasteProc durs cycle) id := by
  rintro ⟨k, prev⟩ i before before' right n _
  simp only [pasteProc, mayRemove_bare, setDuration_bare, id]
  split
  · rfl
  · rfl
  · split
    · rfl
    · split <;> rfl

theorem inRange_bare (a b i : ℕ) (n : Nd) : inRange a b i (bare n) = inRange a b i n := by rw [inRange, inRange, isDurable_bare]

end Quickly.RhythmPitch
