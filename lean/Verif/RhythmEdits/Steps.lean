import Verif.RhythmEdits.Sim

/-! # Every edit, on nodes and on labels -/

namespace Quickly.RhythmEdits

open Quickly.Node Quickly.Signature Quickly.Length Quickly.RhythmTime Quickly.RhythmTime.Spec Spec
open Quickly.Rhythm (Mus)

theorem fineT_keep : FineT .keep := fun d h => by cases h
theorem fineT_del : FineT .del := fun d h => by cases h
theorem fineT_set (q : ℚ) (s : Option ℚ) : FineT (.set q s) := fun d h => by cases h
theorem fineT_from (d : D) : FineT (.add (fromDuration d)) := fun x h => by cases h; exact fromDuration_tree d

theorem inRange_durable {a b i : ℕ} {n : Nd} (h : inRange a b i n = true) : isA .Durable n = true := by
  simp only [inRange, isDurable, Bool.and_eq_true] at h
  exact h.2.1

theorem keep_scaling {n : Nd} {cs' : List Nd} (h : durs (.node n.val cs') = durs n) :
    durationScaling (.node n.val (RhythmTime.Change.apply n.val.1 cs' .keep)) = durationScaling n := scaling_durs h

theorem del_scaling {n : Nd} {cs' : List Nd} (h : durs (.node n.val cs') = durs n) (h1 : (durs n).length ≤ 1) :
    durationScaling (.node n.val (RhythmTime.Change.apply n.val.1 cs' .del)) = none := by
  refine scaling_none ?_
  have : durs (.node n.val (cs'.eraseP (isA .Duration))) = (durs (.node n.val cs')).tail := by
    simp only [durs, Node.Tree.children]
    clear h h1
    induction cs' with
    | nil => rfl
    | cons c cs ih =>
      by_cases hc : c.val.1 = .Duration
      · have h' : isA .Duration c = true := by rw [isA_duration]; simp [hc]
        simp [List.eraseP_cons, h', hc]
      · have h' : isA .Duration c = false := by rw [isA_duration]; simp [hc]
        simp only [List.eraseP_cons, h', cond_false, List.filter_cons, hc, decide_false, Bool.false_eq_true, if_false, ih]
  rw [Change.apply, this, h]
  cases hd : durs n with
  | nil => rfl
  | cons d ds =>
    rw [hd] at h1
    simp at h1
    simp [h1]

theorem set_scaling {n : Nd} {cs' : List Nd} (h : durs (.node n.val cs') = durs n) (hw : ∀ d ∈ durs n, WrittenDuration d)
    (hn : durs n ≠ []) (q s : ℚ) :
    durationScaling (.node n.val (RhythmTime.Change.apply n.val.1 cs' (.set q (some s)))) = some (q, s) := by
  cases hd : durs n with
  | nil => exact (hn hd).elim
  | cons d ds => exact setFirst_scaling q s n.val cs' d ds (h.trans hd) (hw d (by simp [hd]))

theorem set_none_scaling {n : Nd} {cs' : List Nd} (h : durs (.node n.val cs') = durs n) {d : D}
    (hd : durationScaling n = some d) (q : ℚ) :
    durationScaling (.node n.val (RhythmTime.Change.apply n.val.1 cs' (.set q none))) = some (q, d.2) := by
  have hd' : durationScaling (.node n.val cs') = some d := (scaling_durs h).trans hd
  clear h hd
  rw [Change.apply]
  unfold durationScaling at hd' ⊢
  simp only [Node.Tree.children] at hd' ⊢
  induction cs' with
  | nil => cases hd'
  | cons c cs ih =>
    rw [setFirst_cons]
    by_cases hc : c.val.1 = .Duration
    · have h' : isA .Duration c = true := by rw [isA_duration]; simp [hc]
      have h2 : isA .Duration (setDur q none c) = true := by
        obtain ⟨l, xs⟩ := c
        rw [isA_duration]
        exact decide_eq_true hc
      simp only [hc, if_true, List.find?_cons, h', h2, Option.map_some, Option.some.injEq] at hd' ⊢
      subst hd'
      obtain ⟨l, xs⟩ := c
      rfl
    · have h' : isA .Duration c = false := by rw [isA_duration]; simp [hc]
      simp only [hc, if_false, List.find?_cons, h'] at hd' ⊢
      exact ih hd'

theorem addT_scaling {n : Nd} {cs' : List Nd} (h : durs (.node n.val cs') = durs n) (hn : durs n = []) (e : Nd) (he : DurTree e) :
    durationScaling (.node n.val (RhythmTime.Change.apply n.val.1 cs' (.add e))) = some (durationOf e) :=
  add_scaling n.val cs' _ e he (h.trans hn)

theorem durs_of_some {n : Nd} {d : D} (h : durationScaling n = some d) : durs n ≠ [] := fun e => by
  rw [scaling_none e] at h; cases h

theorem durs_of_none {n : Nd} (h : durationScaling n = none) : durs n = [] := by
  cases hd : durs n with
  | nil => rfl
  | cons d ds => rw [scaling_some hd] at h; cases h

theorem any_durs (n : Nd) : n.children.any (isA .Duration) = (durationScaling n).isSome := by
  have := scaling_isNone n
  cases h : durationScaling n <;> simp [h] at this ⊢ <;> exact this

theorem setDuration_scaling {n : Nd} {cs' : List Nd} (h : durs (.node n.val cs') = durs n)
    (hw : ∀ d ∈ durs n, WrittenDuration d) (d : D) :
    durationScaling (.node n.val ((setDuration n d).apply n.val.1 cs')) = some d := by
  unfold setDuration
  rw [any_durs]
  cases hd : durationScaling n with
  | none =>
    simp only [Option.isSome_none, Bool.false_eq_true, if_false]
    rw [addT_scaling h (durs_of_none hd) _ (fromDuration_tree d), fromDuration_value]
  | some e =>
    simp only [Option.isSome_some, if_true]
    rw [set_scaling h hw (durs_of_some hd)]

theorem fineT_setDuration (n : Nd) (d : D) : FineT (setDuration n d) := by
  unfold setDuration; split
  · exact fineT_set _ _
  · exact fineT_from d

theorem fineT_delScaling (n : Nd) : FineT (delScaling n) := by
  unfold delScaling; split
  · exact fineT_set _ _
  · exact fineT_keep

theorem delScaling_scaling {n : Nd} {cs' : List Nd} (h : durs (.node n.val cs') = durs n)
    (hw : ∀ d ∈ durs n, WrittenDuration d) :
    durationScaling (.node n.val ((delScaling n).apply n.val.1 cs')) = (durationScaling n).map fun d => (d.1, 1) := by
  unfold delScaling
  cases hd : durationScaling n with
  | none => simp only [Option.map_none]; rw [keep_scaling h, hd]
  | some d => simp only [Option.map_some]; rw [set_scaling h hw (durs_of_some hd)]

variable (a b : ℕ)

theorem step_remove : Step removeProc Rhythm.removeProc (inRange a b) Eq := by
  intro st st' i before before' right right' n cs' hR hwi hb hright h1 hw hcs
  refine ⟨hR, ?_, ?_⟩
  · simp only [removeProc]; split
    · exact fineT_del
    · exact fineT_keep
  · simp only [removeProc, Rhythm.removeProc]
    rw [hright (inRange_durable hwi), kind_mayRemove]
    split
    · exact del_scaling hcs h1
    · exact keep_scaling hcs

theorem step_removeScaling : Step removeScalingProc Rhythm.removeScalingProc (inRange a b) Eq := by
  intro st st' i before before' right right' n cs' hR hwi hb hright h1 hw hcs
  exact ⟨hR, fineT_delScaling n, delScaling_scaling hcs hw⟩

theorem step_removeFraction : Step removeFractionProc Rhythm.removeFractionProc (inRange a b) Eq := by
  intro st st' i before before' right right' n cs' hR hwi hb hright h1 hw hcs
  simp only [removeFractionProc, Rhythm.removeFractionProc, label]
  cases hd : durationScaling n with
  | none => exact ⟨trivial, fineT_keep, (keep_scaling hcs).trans hd⟩
  | some d =>
    simp only [Option.map_some]
    by_cases h : d.2.den = 1
    · simp only [h, if_true]
      exact ⟨trivial, fineT_keep, (keep_scaling hcs).trans hd⟩
    · simp only [h, if_false]
      exact ⟨trivial, fineT_delScaling n, by rw [delScaling_scaling hcs hw, hd]; rfl⟩

/-- The Duration node and the duration that `explicit` knows. -/
def ExplicitRel (st : Option Nd) (st' : Option D) : Prop := st' = st.map durationOf ∧ ∀ e, st = some e → DurTree e

theorem step_explicit : Step explicitProc Rhythm.explicitProc (inRange a b) ExplicitRel := by
  rintro st st' i before before' right right' n cs' ⟨rfl, hR⟩ hwi hb hright h1 hw hcs
  simp only [explicitProc, Rhythm.explicitProc, label]
  cases hd : durs n with
  | nil =>
    simp only [find_none hd, scaling_none hd]
    rcases st with _ | e
    · simp only [Option.map_none]
      refine ⟨⟨?_, ?_⟩, fineT_from _, ?_⟩
      · simp [fromDuration_value, hb]
      · intro e he; cases he; exact fromDuration_tree _
      · rw [addT_scaling hcs hd _ (fromDuration_tree _), fromDuration_value, hb]
    · simp only [Option.map_some]
      exact ⟨⟨rfl, hR⟩, fun x hx => by cases hx; exact hR e rfl, addT_scaling hcs hd e (hR e rfl)⟩
  | cons d ds =>
    have hm := durs_mem hd
    simp only [find_some hd, scaling_some hd, kind_sets]
    refine ⟨?_, fineT_keep, (keep_scaling hcs).trans (scaling_some hd)⟩
    split
    · exact ⟨rfl, fun e he => by cases he; exact durTree_of hm.2 (hw d (by simp [hd]))⟩
    · exact ⟨rfl, hR⟩

theorem step_implicit : Step implicitProc Rhythm.implicitProc (inRange a b) Eq := by
  rintro st st' i before before' right right' n cs' rfl hwi hb hright h1 hw hcs
  simp only [implicitProc, Rhythm.implicitProc]
  rw [hright (inRange_durable hwi), kind_mayRemove]
  simp only [label, kind_sets]
  cases hd : durationScaling n with
  | none => exact ⟨rfl, fineT_keep, (keep_scaling hcs).trans hd⟩
  | some d =>
    simp only
    split
    · exact ⟨rfl, fineT_del, del_scaling hcs h1⟩
    · exact ⟨rfl, fineT_keep, (keep_scaling hcs).trans hd⟩

theorem step_perLine (block : ℕ → Option ℕ) : Step (perLineProc block) (Rhythm.perLineProc block) (inRange a b) Eq := by
  rintro st st' i before before' right right' n cs' rfl hwi hb hright h1 hw hcs
  simp only [perLineProc, Rhythm.perLineProc]
  rw [hright (inRange_durable hwi), kind_mayRemove]
  simp only [label, kind_sets]
  cases hd : durationScaling n with
  | some d =>
    simp only
    by_cases h : (decide (st = some (d, block i)) && mayRemove n right) = true
    · rw [if_pos h]
      split
      · exact ⟨rfl, fineT_del, del_scaling hcs h1⟩
      · rename_i h'; exact (h' h).elim
    · rw [if_neg h]
      split
      all_goals
        split
        · rename_i h'; exact (h h').elim
        · exact ⟨rfl, fineT_keep, (keep_scaling hcs).trans hd⟩
  | none =>
    simp only
    rcases hbl : block i with _ | k
    · exact ⟨rfl, fineT_keep, (keep_scaling hcs).trans hd⟩
    rcases st with _ | ⟨d, m⟩
    · exact ⟨rfl, fineT_keep, (keep_scaling hcs).trans hd⟩
    simp only
    split
    · exact ⟨rfl, fineT_from d, by
        rw [addT_scaling hcs (durs_of_none hd) _ (fromDuration_tree d), fromDuration_value]⟩
    · exact ⟨rfl, fineT_keep, (keep_scaling hcs).trans hd⟩

theorem step_copy : Step copyProc Rhythm.copyProc (inRange a b) Eq := by
  rintro st st' i before before' right right' n cs' rfl hwi hb hright h1 hw hcs
  exact ⟨rfl, fineT_keep, keep_scaling hcs⟩

theorem step_copyExplicit : Step copyExplicitProc Rhythm.copyExplicitProc (inRange a b) Eq := by
  rintro ⟨prev, acc⟩ st' i before before' right right' n cs' rfl hwi hb hright h1 hw hcs
  simp only [copyExplicitProc, Rhythm.copyExplicitProc, label, hb]
  refine ⟨?_, fineT_keep, keep_scaling hcs⟩
  cases durationScaling n <;> cases prev <;> rfl

theorem step_paste (ds : List (Option D)) (cycle : Bool) :
    Step (pasteProc ds cycle) (Rhythm.pasteProc ds cycle) (inRange a b) Eq := by
  rintro ⟨k, prev⟩ st' i before before' right right' n cs' rfl hwi hb hright h1 hw hcs
  simp only [pasteProc, Rhythm.pasteProc]
  rw [hright (inRange_durable hwi), kind_mayRemove]
  rw [show Rhythm.nthDuration ds cycle k = nthDuration ds cycle k from rfl]
  rcases hn : nthDuration ds cycle k with _ | _ | d
  · exact ⟨rfl, fineT_keep, keep_scaling hcs⟩
  · simp only
    split
    · exact ⟨rfl, fineT_del, del_scaling hcs h1⟩
    · rcases prev with _ | d
      · exact ⟨rfl, fineT_keep, keep_scaling hcs⟩
      · exact ⟨rfl, fineT_setDuration n d, setDuration_scaling hcs hw d⟩
  · exact ⟨rfl, fineT_setDuration n d, setDuration_scaling hcs hw d⟩

theorem step_transform (t : Duration.Transform) : Step (transformProc t) (Rhythm.transformProc t) (transWhich a b) Eq := by
  rintro st st' i before before' right right' n cs' rfl hwi hb hright h1 hw hcs
  simp only [transformProc, Rhythm.transformProc, label]
  rcases st with _ | e
  · cases hd : durationScaling n with
    | none => exact ⟨rfl, fineT_keep, (keep_scaling hcs).trans hd⟩
    | some d =>
      simp only
      cases ht : t.transform d.1 d.2 with
      | error e => exact ⟨rfl, fineT_keep, (keep_scaling hcs).trans hd⟩
      | ok d' =>
        simp only
        have hk := kind_tempo n
        by_cases h : isA .Tempo n = true
        · rw [h] at hk
          simp only [h, of_decide_eq_true hk, if_true]
          exact ⟨trivial, fineT_set _ _, set_none_scaling hcs hd _⟩
        · have h' : isA .Tempo n = false := by simpa using h
          rw [h'] at hk
          simp only [h', of_decide_eq_false hk, Bool.false_eq_true, if_false]
          exact ⟨trivial, fineT_set _ _, set_scaling hcs hw (durs_of_some hd) _ _⟩
  · exact ⟨rfl, fineT_keep, keep_scaling hcs⟩

end Quickly.RhythmEdits
