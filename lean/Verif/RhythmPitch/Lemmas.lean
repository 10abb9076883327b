import Verif.RhythmPitch.Spec
import Verif.RhythmEdits.Props
import Verif.RhythmEdits.Order

/-! # Edits of durations do not look at pitches -/

namespace Quickly.RhythmPitch

open Quickly.Node Quickly.Signature Quickly.Length Quickly.RhythmTime Spec
open Quickly.RhythmEdits hiding parts
open Quickly.RhythmTime.Spec (timed sounding)
open Quickly.PitchTime.Spec (pitched parts)

theorem bareL_filter (p : Bool) (cs : List Nd) : bareL p cs = (cs.filter fun c => !ofPitch p c).map bare := by
  induction cs with
  | nil => rfl
  | cons c cs ih => cases h : ofPitch p c <;> simp [bareL, h, ih]

theorem ofPitch_false (c : Nd) : ofPitch false c = false := rfl

theorem bareL_map (cs : List Nd) : bareL false cs = cs.map bare := by
  rw [bareL_filter]; simp [ofPitch_false]

theorem bare_cls (n : Nd) : (bare n).val.1 = n.val.1 := by
  obtain ⟨l, cs⟩ := n
  simp only [bare, Node.Tree.val]
  split <;> rfl

theorem isA_bare (c : Cls) (n : Nd) : isA c (bare n) = isA c n := by rw [isA, isA, bare_cls]

theorem isAny_bare (n : Nd) (cs : List Cls) : isAny (bare n) cs = isAny n cs := by
  simp only [isAny, isA_bare]

theorem ofPitch_parts {p : Bool} {c : Nd} (h : ofPitch p c = true) : p = true ∧ c.val.1 ∈ parts ∧ c.children = [] := by
  simp only [ofPitch, Bool.and_eq_true, decide_eq_true_eq, List.isEmpty_iff] at h
  exact ⟨h.1.1, h.1.2, h.2⟩

theorem part_not {k : Cls} (hk : ∀ x ∈ parts, isSub 5 x k = false) {p : Bool} {c : Nd} (h : ofPitch p c = true) : isA k c = false :=
  hk _ (ofPitch_parts h).2.1

theorem any_bareL (k : Cls) (hk : ∀ x ∈ parts, isSub 5 x k = false) (p : Bool) (cs : List Nd) :
    (bareL p cs).any (isA k) = cs.any (isA k) := by
  induction cs with
  | nil => rfl
  | cons c cs ih =>
    cases h : ofPitch p c
    · simp [bareL, h, ih, isA_bare]
    · simp [bareL, h, ih, part_not hk h]

theorem find_bareL (k : Cls) (hk : ∀ x ∈ parts, isSub 5 x k = false) (p : Bool) (cs : List Nd) :
    (bareL p cs).find? (isA k) = (cs.find? (isA k)).map bare := by
  induction cs with
  | nil => rfl
  | cons c cs ih =>
    cases h : ofPitch p c
    · cases h2 : isA k c <;> simp [bareL, h, ih, List.find?_cons, isA_bare, h2]
    · simp [bareL, h, ih, List.find?_cons, part_not hk h]

theorem duration_parts : ∀ x ∈ parts, isSub 5 x .Duration = false := by decide +kernel
theorem articulations_parts : ∀ x ∈ parts, isSub 5 x .Articulations = false := by decide +kernel
theorem parts_timed : ∀ x ∈ parts, x ∉ timed := by decide +kernel
theorem parts_sounding : ∀ x ∈ parts, x ∉ sounding := by decide +kernel

theorem children_bare (l : Cls × Val) (cs : List Nd) : (bare (.node l cs)).children = bareL (decide (l.1 ∈ pitched)) cs := rfl

theorem bare_val {n : Nd} (h : n.val.1 ∉ pitched) : (bare n).val = n.val := by
  obtain ⟨l, cs⟩ := n
  have h' : l.1 ∉ pitched := h
  simp only [bare, Node.Tree.val, h', if_false]

theorem headValue_bare {n : Nd} (h : n.val.1 ∉ pitched) : headValue (bare n) = headValue n := by
  rw [headValue, headValue, bare_val h]

theorem durationOf_bare {d : Nd} (h : isA .Duration d = true) : durationOf (bare d) = durationOf d := by
  rw [isA_duration, decide_eq_true_iff] at h
  have h1 : d.val.1 ∉ pitched := by rw [h]; decide
  obtain ⟨l, cs⟩ := d
  have h2 : l.1 ∉ pitched := h1
  rw [durationOf, durationOf, headValue_bare h1, children_bare, decide_eq_false h2, bareL_map]
  congr 2
  show ((cs.map bare).filter (isA .DurationScaling)).map headValue = (cs.filter (isA .DurationScaling)).map headValue
  clear h h1 h2
  induction cs with
  | nil => rfl
  | cons c cs ih =>
    cases h : isA .DurationScaling c
    · simp [isA_bare, h, ih]
    · have hp : c.val.1 ∉ pitched := by
        rw [isA, isSub_scaling, decide_eq_true_iff] at h
        rw [h]; decide
      simp [isA_bare, h, ih, headValue_bare hp]

theorem durationScaling_bare (n : Nd) : durationScaling (bare n) = durationScaling n := by
  obtain ⟨l, cs⟩ := n
  rw [durationScaling, durationScaling, children_bare, find_bareL _ duration_parts]
  show ((cs.find? (isA .Duration)).map bare).map durationOf = (cs.find? (isA .Duration)).map durationOf
  cases h : cs.find? (isA .Duration) with
  | none => rfl
  | some d => simp [durationOf_bare (List.find?_some h)]

theorem setsPrevious_bare (n : Nd) : setsPrevious (bare n) = setsPrevious n := by simp only [setsPrevious, isA_bare]

theorem required_bare (n : Nd) : required (bare n) = required n := by
  obtain ⟨l, cs⟩ := n
  simp only [required, isA_bare]
  by_cases h : isA .LyricItem (.node l cs) = true
  · have hp : l.1 ∉ pitched := by
      intro hp
      have : ∀ x ∈ pitched, isSub 5 x .LyricItem = false := by decide +kernel
      have h2 := this _ hp
      rw [isA] at h
      simp [Node.Tree.val, h2] at h
    rw [children_bare, decide_eq_false hp, bareL_map, List.any_map]
    simp only [Function.comp_def, isAny_bare]
    rfl
  · simp [h]

theorem mayRemove_bare (n : Nd) (right : Option Nd) : mayRemove (bare n) (right.map bare) = mayRemove n right := by
  have h : (bare n).children.any (isA .Articulations) = n.children.any (isA .Articulations) := by
    obtain ⟨l, cs⟩ := n
    rw [children_bare, any_bareL _ articulations_parts]
    rfl
  simp only [mayRemove, required_bare, h]
  cases right with
  | none => rfl
  | some r => simp only [Option.map_some, isA_bare, required_bare]

theorem isDurable_bare (n : Nd) : isDurable (bare n) = isDurable n := by
  have h : (bare n).children.any (isA .Duration) = n.children.any (isA .Duration) := by
    obtain ⟨l, cs⟩ := n
    rw [children_bare, any_bareL _ duration_parts]
    rfl
  simp only [isDurable, isA_bare, h]

/-! ## The previous duration -/

theorem previous_cons (n : Nd) {b b' : List Nd} (h : previousDuration b = previousDuration b') :
    previousDuration (n :: b) = previousDuration (bare n :: b') := by
  simp only [previousDuration, setsPrevious_bare, durationScaling_bare, h]

theorem previous_part {p : Bool} {c : Nd} (hc : ofPitch p c = true) (b : List Nd) : previousDuration (rev c ++ b) = previousDuration b := by
  obtain ⟨l, cs⟩ := c
  obtain ⟨-, h1, h2⟩ := ofPitch_parts hc
  have h2 : cs = [] := h2
  subst h2
  have hs : setsPrevious (.node l []) = false := by rw [sets_iff]; exact decide_eq_false (parts_sounding _ h1)
  simp [rev, revL, previousDuration, hs]

mutual
theorem previous_bare : ∀ (t : Nd) {b b' : List Nd}, previousDuration b = previousDuration b' →
    previousDuration (rev t ++ b) = previousDuration (rev (bare t) ++ b')
  | .node l cs, b, b', h => by
    have := previous_bareL (decide (l.1 ∈ pitched)) cs h
    have e : rev (bare (.node l cs)) = bare (.node l cs) :: revL (bareL (decide (l.1 ∈ pitched)) cs) := rfl
    rw [e, rev, List.cons_append, List.cons_append]
    exact previous_cons _ this
theorem previous_bareL (p : Bool) : ∀ (ts : List Nd) {b b' : List Nd}, previousDuration b = previousDuration b' →
    previousDuration (revL ts ++ b) = previousDuration (revL (bareL p ts) ++ b')
  | [], b, b', h => h
  | t :: ts, b, b', h => by
    rw [bareL]
    split
    · rename_i hp
      rw [revL, List.append_assoc]
      exact previous_bareL p ts ((previous_part hp b).trans h)
    · rw [revL, revL, List.append_assoc, List.append_assoc]
      exact previous_bareL p ts (previous_bare t h)
end

/-! ## The changes -/

/-- The change, with a Duration without pitches. -/
def bareChange : RhythmTime.Change → RhythmTime.Change
  | .add d => .add (bare d)
  | ch => ch

theorem erase_bareL (p : Bool) (cs : List Nd) : bareL p (cs.eraseP (isA .Duration)) = (bareL p cs).eraseP (isA .Duration) := by
  induction cs with
  | nil => rfl
  | cons c cs ih =>
    cases h : ofPitch p c
    · cases h2 : isA .Duration c <;> simp [bareL, h, List.eraseP_cons, isA_bare, h2, ih]
    · have h2 := part_not duration_parts h
      simp [bareL, h, List.eraseP_cons, h2, ih]

theorem drain_bare : ∀ xs : List Nd, drain (xs.map bare) = (drain xs).map bare
  | [] => rfl
  | [x] => by cases h : isA .DurationScaling x <;> simp [drain, isA_bare, h]
  | x :: y :: rest => by
    have h1 := drain_bare rest
    have h2 := drain_bare (y :: rest)
    rw [List.map_cons] at h2
    cases h : isA .DurationScaling x <;> simp [drain, isA_bare, h, h1, h2]

theorem setScaling_bare (s : ℚ) (ds : List Nd) : setScaling s (ds.map bare) = (setScaling s ds).map bare := by
  have hf : (fun x : Nd => !isA .DurationScaling x) ∘ bare = fun x => !isA .DurationScaling x := by
    funext x; simp [isA_bare]
  rw [setScaling, setScaling, List.dropWhile_map, List.takeWhile_map, hf]
  cases h : ds.dropWhile (fun x => !isA .DurationScaling x) with
  | nil =>
    simp only [List.map_nil]
    split
    · rfl
    · simp [bare, bareL, pitched]
  | cons x rest =>
    obtain ⟨l, xs⟩ := x
    have hx : isA .DurationScaling (.node l xs) = true := by
      have := List.head?_dropWhile_not (fun x => !isA .DurationScaling x) ds
      rw [h] at this
      simpa using this
    have hl : l.1 ∉ pitched := by
      rw [isA, isSub_scaling, decide_eq_true_iff] at hx
      have hx : l.1 = .DurationScaling := hx
      rw [hx]; decide
    rw [List.map_cons]
    simp only [bare, hl, if_false, decide_false, List.map_append, List.map_take, List.map_drop]
    congr 1
    split
    · simp only [List.map_append, List.map_take, ← List.map_drop, drain_bare]
    · simp only [List.map_cons, bare, hl, if_false, decide_false, drain_bare]

theorem setDur_bare (q : ℚ) (s : Option ℚ) {d : Nd} (h : d.val.1 = .Duration) : bare (setDur q s d) = setDur q s (bare d) := by
  obtain ⟨l, cs⟩ := d
  have hl : l.1 ∉ pitched := by
    have h : l.1 = .Duration := h
    rw [h]; decide
  simp only [setDur, bare, hl, if_false, decide_false, bareL_map]
  cases s with
  | none => rfl
  | some s => simp only [setScaling_bare]

theorem setFirst_bareL (q : ℚ) (s : Option ℚ) (p : Bool) (cs : List Nd) : bareL p (setFirst q s cs) = setFirst q s (bareL p cs) := by
  induction cs with
  | nil => rfl
  | cons c cs ih =>
    cases h : ofPitch p c
    · have e : bareL p (c :: cs) = bare c :: bareL p cs := by simp [bareL, h]
      rw [e, setFirst_cons, setFirst_cons, bare_cls]
      split
      · rename_i hd
        have h2 : ofPitch p (setDur q s c) = false := by
          obtain ⟨l, xs⟩ := c
          have hd : l.1 = .Duration := hd
          have : l.1 ∉ parts := by rw [hd]; decide
          simp [ofPitch, setDur, Node.Tree.val, this]
        rw [bareL, h2, ← setDur_bare q s hd]
        rfl
      · rw [bareL, h, ih]
        rfl
    · have hd : c.val.1 ≠ .Duration := by
        intro hd
        have := (ofPitch_parts h).2.1
        rw [hd] at this
        exact absurd this (by decide)
      rw [setFirst_cons, if_neg hd]
      simp [bareL, h, ih]

theorem insertAfter_bare (skip : List (List Cls)) (d : Nd) (cs : List Nd) :
    Add.insertAfter isAny skip (bare d) (cs.map bare) = (Add.insertAfter isAny skip d cs).map (·.map bare) := by
  induction cs with
  | nil => rfl
  | cons c cs ih =>
    have hs : Add.isaAny isAny (bare c) skip = Add.isaAny isAny c skip := by
      unfold Add.isaAny
      congr 1
      funext k
      exact isAny_bare c k
    simp only [List.map_cons, Add.insertAfter, hs, ih]
    split
    · cases Add.insertAfter isAny skip d cs <;> rfl
    · rfl

theorem tryOrder_bare (d : Nd) (cs : List Nd) : ∀ (order done : List (List Cls)),
    Add.tryOrder isAny (bare d) (cs.map bare) done order = (Add.tryOrder isAny d cs done order).map (·.map bare)
  | [], _ => rfl
  | k :: order, done => by
    have ih := tryOrder_bare d cs order (done ++ [k])
    simp only [Add.tryOrder, isAny_bare, insertAfter_bare, ih]
    split
    · cases Add.insertAfter isAny done d cs <;> rfl
    · rfl

theorem tryOrders_bare (d : Nd) (cs : List Nd) : ∀ orders : List (List (List Cls)),
    Add.tryOrders isAny (bare d) (cs.map bare) orders = (Add.tryOrders isAny d cs orders).map (·.map bare)
  | [] => rfl
  | o :: orders => by
    simp only [Add.tryOrders, tryOrder_bare, tryOrders_bare d cs orders]
    cases Add.tryOrder isAny d cs [] o <;> rfl

theorem add_map (orders : List (List (List Cls))) (cs : List Nd) (d : Nd) :
    (Add.add isAny orders cs d).map bare = Add.add isAny orders (cs.map bare) (bare d) := by
  simp only [Add.add, tryOrders_bare]
  cases Add.tryOrders isAny d cs orders with
  | none => simp
  | some l => rfl

/-- The parts of a pitch, whatever is in them. -/
def isPart (c : Nd) : Bool := decide (c.val.1 ∈ parts)

theorem add_note (c : Cls) (hc : c = .Note ∨ c = .PitchedRest) (cs : List Nd) (d : Nd) (hd : d.val.1 = .Duration) :
    Add.add isAny (childOrder c) cs d = cs.takeWhile isPart ++ d :: cs.dropWhile isPart := by
  have hc' : c ∈ RhythmEdits.Spec.durables := by rcases hc with rfl | rfl <;> decide
  obtain ⟨order, h1, ⟨k, hk, hk'⟩, h3⟩ := earlier_front c hc'
  have hl : Add.Spec.Listed isAny order d := ⟨k, hk, by simpa only [isAny, isA, hd] using hk'⟩
  have hp := Add.C40_place isAny [] [] order cs d (by simp) (by simp) hl
  have hfront : ∀ k : Cls, (RhythmEdits.Spec.front c).any (isSub 5 k) = decide (k ∈ parts) := by
    intro k
    rcases hc with rfl | rfl <;> cases k <;> rfl
  have he : (fun x => decide (Add.Spec.place isAny order x < Add.Spec.place isAny order d)) = isPart := by
    funext x
    rw [isPart, ← hfront, ← h3]
    refine decide_eq_decide.2 ?_
    simp only [Add.Spec.place]
    unfold isAny isA
    rw [hd]
  rw [he] at hp
  rw [h1]
  simpa only [List.nil_append] using hp

theorem isPart_bare (c : Nd) : isPart (bare c) = isPart c := by rw [isPart, isPart, bare_cls]

theorem split_bare (d : Nd) (hd : d.val.1 = .Duration) (cs : List Nd) :
    bareL true (cs.takeWhile isPart ++ d :: cs.dropWhile isPart) =
      (bareL true cs).takeWhile isPart ++ bare d :: (bareL true cs).dropWhile isPart := by
  have hdp : ofPitch true d = false := by
    have : d.val.1 ∉ parts := by rw [hd]; decide
    simp [ofPitch, this]
  induction cs with
  | nil => simp [bareL, hdp]
  | cons c cs ih =>
    cases h : ofPitch true c
    · cases h2 : isPart c
      · simp [bareL, h, h2, hdp, isPart_bare, List.takeWhile_cons, List.dropWhile_cons]
      · simp [bareL, h, h2, isPart_bare, List.takeWhile_cons, List.dropWhile_cons, ih]
    · have h2 : isPart c = true := by rw [isPart]; exact decide_eq_true (ofPitch_parts h).2.1
      simp [bareL, h, h2, List.takeWhile_cons, List.dropWhile_cons, ih]

theorem apply_bare (ch : RhythmTime.Change) (hf : Fine ch) (c : Cls) (cs : List Nd) :
    bareL (decide (c ∈ pitched)) (ch.apply c cs) = (bareChange ch).apply c (bareL (decide (c ∈ pitched)) cs) := by
  cases ch with
  | keep => rfl
  | del => exact erase_bareL _ cs
  | set q s => exact setFirst_bareL q s _ cs
  | add d =>
    have hd := hf d rfl
    have hd' : (bare d).val.1 = .Duration := (bare_cls d).trans hd
    simp only [RhythmTime.Change.apply, bareChange]
    by_cases hc : c ∈ pitched
    · rw [decide_eq_true hc]
      have : c = .Pitch ∨ (c = .Note ∨ c = .PitchedRest) := by
        simp only [pitched, List.mem_cons, List.not_mem_nil, or_false] at hc
        tauto
      rcases this with rfl | hc
      · have hdp : ofPitch true d = false := by
          have : d.val.1 ∉ parts := by rw [hd]; decide
          simp [ofPitch, this]
        simp [Add.add, childOrder, Add.tryOrders, bareL_filter, List.filter_append, hdp]
      · rw [add_note c hc cs d hd, add_note c hc _ _ hd', split_bare d hd]
    · rw [decide_eq_false hc, bareL_map, bareL_map, add_map]

end Quickly.RhythmPitch
