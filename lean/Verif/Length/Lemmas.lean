import Verif.Length.Spec
import Verif.Time.Props
import Verif.Duration.Props

/-! # Lemmas about the length of music -/

namespace Quickly.Length

open Quickly.Node Quickly.Signature Spec
open Quickly.Time (Mus Kind)
open Quickly.Duration (Transform)
open Quickly.Duration.Spec (value)

/-! ## Classes -/

theorem isA_node (k c : Cls) (v : Val) (cs : List Nd) : isA k (.node (c, v) cs) = isSub 5 c k := rfl

theorem silent_cls : ∀ c ∈ silent, isSub 5 c .Chord = false ∧ isSub 5 c .Skip = false ∧ isSub 5 c .Durable = false ∧
    isSub 5 c .AfterGrace = false ∧ isSub 5 c .Reference = false ∧ isSub 5 c .Times = false ∧ isSub 5 c .Tuplet = false ∧
    isSub 5 c .ScaleDurations = false ∧ isSub 5 c .ShiftDurations = false ∧ isSub 5 c .Grace = false ∧
    isSub 5 c .MusicList = false ∧ isSub 5 c .SimultaneousMusicList = false := by decide +kernel

theorem attached_cls : ∀ c ∈ attached, isSub 5 c .Times = false ∧ isSub 5 c .Tuplet = false ∧
    isSub 5 c .ScaleDurations = false ∧ isSub 5 c .ShiftDurations = false ∧ isSub 5 c .Grace = false ∧
    (c ∉ events → isSub 5 c .Durable = false) := by decide +kernel

theorem event_cls : ∀ c ∈ events, isSub 5 c .Chord = false ∧ isSub 5 c .Skip = false ∧ isSub 5 c .Durable = true := by
  decide +kernel

theorem wrapper_cls : ∀ c ∈ wrappers, isSub 5 c .Chord = false ∧ isSub 5 c .Skip = false ∧ isSub 5 c .Durable = false ∧
    isSub 5 c .AfterGrace = false ∧ isSub 5 c .Music = true ∧ isSub 5 c .Times = false ∧ isSub 5 c .Tuplet = false ∧
    isSub 5 c .ScaleDurations = false ∧ isSub 5 c .ShiftDurations = false ∧ isSub 5 c .Grace = false ∧
    isSub 5 c .MusicList = false ∧ isSub 5 c .SimultaneousMusicList = false ∧ c ≠ .Simultaneous := by decide +kernel

theorem grace_cls : ∀ c ∈ graces, isSub 5 c .Chord = false ∧ isSub 5 c .Skip = false ∧ isSub 5 c .Durable = false ∧
    isSub 5 c .AfterGrace = false ∧ isSub 5 c .Music = true ∧ isSub 5 c .Times = false ∧ isSub 5 c .Tuplet = false ∧
    isSub 5 c .ScaleDurations = false ∧ isSub 5 c .ShiftDurations = false ∧ isSub 5 c .Grace = true ∧
    isSub 5 c .MusicList = false ∧ isSub 5 c .SimultaneousMusicList = false ∧ c ≠ .Simultaneous := by decide +kernel

theorem comment_cls : ∀ c ∈ comments, isSub 5 c .Fraction = false ∧ isSub 5 c .Int = false ∧ isSub 5 c .Float = false ∧
    isSub 5 c .Scheme = false ∧ isSub 5 c .DurationScaling = false ∧ isSub 5 c .Duration = false ∧ isSub 5 c .Music = false ∧
    isSub 5 c .Skip = false ∧ isSub 5 c .Chord = false ∧ isSub 5 c .Durable = false ∧ isSub 5 c .AfterGrace = false ∧
    isSub 5 c .Reference = false := by
  decide +kernel

/-- The only class that is a Duration is `Duration`. -/
theorem isSub_duration (c : Cls) : isSub 5 c .Duration = decide (c = .Duration) := by
  cases c <;> decide +kernel

/-! ## Lists of nodes -/

theorem revL_append (xs ys : List Nd) : revL (xs ++ ys) = revL ys ++ revL xs := by
  induction xs with
  | nil => simp [revL]
  | cons x xs ih => simp [revL, ih]

theorem toMusL_append (p : Option Cls) (xs ys : List Nd) : ∀ (before : List Nd) (ms ns : List Mus),
    toMusL p before xs = .ok ms → toMusL p (revL xs ++ before) ys = .ok ns →
    toMusL p before (xs ++ ys) = .ok (ms ++ ns) := by
  induction xs with
  | nil =>
    intro before ms ns h1 h2
    simp only [toMusL, Except.ok.injEq] at h1
    subst h1
    simpa [revL] using h2
  | cons x xs ih =>
    intro before ms ns h1 h2
    simp only [toMusL, List.cons_append] at h1 ⊢
    cases hx : toMus p before x with
    | error e => rw [hx] at h1; cases h1
    | ok m =>
      rw [hx] at h1
      simp only at h1 ⊢
      cases hxs : toMusL p (rev x ++ before) xs with
      | error e => rw [hxs] at h1; cases h1
      | ok ms' =>
        rw [hxs] at h1
        simp only [Except.ok.injEq] at h1
        subst h1
        rw [ih (rev x ++ before) ms' ns hxs (by simpa [revL] using h2)]
        rfl

theorem toMusL_single (p : Option Cls) (before : List Nd) (t : Nd) (ms : List Mus)
    (h : toMusL p before [t] = .ok ms) : ∃ m, toMus p before t = .ok m ∧ ms = [m] := by
  simp only [toMusL] at h
  cases hx : toMus p before t with
  | error e => rw [hx] at h; cases h
  | ok m =>
    rw [hx] at h
    simp only [Except.ok.injEq] at h
    exact ⟨m, rfl, h.symm⟩

theorem toMusL_of_single (p : Option Cls) (before : List Nd) (t : Nd) (m : Mus) (h : toMus p before t = .ok m) :
    toMusL p before [t] = .ok [m] := by
  simp [toMusL, h]

theorem toMus_node (p : Option Cls) (before : List Nd) (c : Cls) (v : Val) (cs : List Nd) (k : Kind) (ms : List Mus)
    (hk : kindOf p before (.node (c, v) cs) = .ok k) (hm : toMusL (some c) before cs = .ok ms) :
    toMus p before (.node (c, v) cs) = .ok (.node k ms) := by
  simp [toMus, hk, hm]

theorem previous_skip (n : Nd) (before : List Nd) (h : setsPrevious n = false) :
    previousDuration (n :: before) = previousDuration before := by simp [previousDuration, h]

/-- A node that is not a durable which sets the duration is skipped. -/
theorem previous_rev (c : Cls) (v : Val) (cs before : List Nd) (h : isSub 5 c .Durable = false ∨ isSub 5 c .Skip = true) :
    previousDuration (rev (.node (c, v) cs) ++ before) = previousDuration (revL cs ++ before) := by
  rw [rev, List.cons_append, previous_skip]
  simp only [setsPrevious, isA_node]
  rcases h with h | h <;> simp [h]

theorem kindOf_music (p : Option Cls) (before : List Nd) (c : Cls) (v : Val) (cs : List Nd) (t : Option Transform)
    (h : isSub 5 c .Chord = false ∧ isSub 5 c .Skip = false ∧ isSub 5 c .Durable = false ∧ isSub 5 c .AfterGrace = false ∧
      isSub 5 c .Music = true) (ht : transform (.node (c, v) cs) = .ok t) :
    kindOf p before (.node (c, v) cs) = .ok (.music (isSequential p (.node (c, v) cs)) t) := by
  simp [kindOf, isA_node, h, ht, Except.map]

theorem transform_none (c : Cls) (v : Val) (cs : List Nd)
    (h : isSub 5 c .Times = false ∧ isSub 5 c .Tuplet = false ∧ isSub 5 c .ScaleDurations = false ∧
      isSub 5 c .ShiftDurations = false ∧ isSub 5 c .Grace = false) : transform (.node (c, v) cs) = .ok none := by
  simp [transform, isA_node, h]

theorem isSequential_false (p : Option Cls) (c : Cls) (v : Val) (cs : List Nd) (h : isSub 5 c .MusicList = false) :
    isSequential p (.node (c, v) cs) = false := by
  simp [isSequential, isA_node, h]

/-! ## Trees that take no time -/

theorem attached_ok (x : Nd) (h : All attached x) : NoDur x → ∀ (p : Option Cls) (before : List Nd),
    (∃ m, toMus p before x = .ok m) ∧ previousDuration (rev x ++ before) = previousDuration before := by
  induction h with
  | mk c v cs hc hcs ih =>
    intro hn p before
    cases hn with
    | mk _ _ _ hd hn =>
      obtain ⟨h1, h2, h3, h4, h5, h6⟩ := attached_cls c hc
      have hall : ∀ (ys : List Nd), (∀ x ∈ ys, x ∈ cs) → ∀ (p : Option Cls) (before : List Nd),
          (∃ ms, toMusL p before ys = .ok ms) ∧ previousDuration (revL ys ++ before) = previousDuration before := by
        intro ys
        induction ys with
        | nil => intro _ p before; exact ⟨⟨[], rfl⟩, rfl⟩
        | cons y ys ihy =>
          intro hy p before
          have hyc := hy y (by simp)
          obtain ⟨⟨m, hm⟩, hp⟩ := ih y hyc (hn y hyc) p before
          obtain ⟨⟨ms, hms⟩, hps⟩ := ihy (fun x hx => hy x (by simp [hx])) p (rev y ++ before)
          refine ⟨⟨m :: ms, by simp [toMusL, hm, hms]⟩, ?_⟩
          rw [revL, List.append_assoc, hps, hp]
      obtain ⟨⟨ms, hms⟩, -⟩ := hall cs (fun _ h => h) (some c) before
      have hps := (hall cs (fun _ h => h) (some c) before).2
      constructor
      · have htr := transform_none c v cs ⟨h1, h2, h3, h4, h5⟩
        have : ∃ k, kindOf p before (.node (c, v) cs) = .ok k := by
          unfold kindOf
          simp only [htr, Except.map]
          split_ifs <;> exact ⟨_, rfl⟩
        obtain ⟨k, hk⟩ := this
        exact ⟨_, toMus_node _ _ _ _ _ _ _ hk hms⟩
      · by_cases he : c ∈ events
        · rw [rev, List.cons_append, previousDuration]
          have : durationScaling (.node (c, v) cs) = none := by
            simp only [durationScaling, Option.map_eq_none_iff, List.find?_eq_none]
            intro y hy
            rcases y with ⟨⟨yc, yv⟩, ys⟩
            rw [isA_node, isSub_duration]
            have : yc ≠ .Duration := hd he _ hy
            simpa using this
          rw [this]
          split_ifs <;> exact hps
        · rw [previous_rev c v cs before (.inl (h6 he)), hps]

theorem attachedL_ok (xs : List Nd) : (∀ x ∈ xs, All attached x ∧ NoDur x) → ∀ (p : Option Cls) (before : List Nd),
    (∃ ms, toMusL p before xs = .ok ms) ∧ previousDuration (revL xs ++ before) = previousDuration before := by
  induction xs with
  | nil => intro _ p before; exact ⟨⟨[], rfl⟩, rfl⟩
  | cons y ys ih =>
    intro h p before
    obtain ⟨⟨m, hm⟩, hp⟩ := attached_ok y (h y (by simp)).1 (h y (by simp)).2 p before
    obtain ⟨⟨ms, hms⟩, hps⟩ := ih (fun x hx => h x (by simp [hx])) p (rev y ++ before)
    refine ⟨⟨m :: ms, by simp [toMusL, hm, hms]⟩, ?_⟩
    rw [revL, List.append_assoc, hps, hp]

theorem length_other (rem : Time.Remote) (tr : Transform) (ms : List Mus) :
    Time.length rem tr (.node .other ms) = .ok 0 := by simp [Time.length, Kind.isMusic]

/-- The length of music that is not sequential, from the lengths of the children. -/
theorem length_longest (rem : Time.Remote) (tr : Transform) (f : Option Transform) (ms : List Mus) (qs : List ℚ) (q : ℚ)
    (h : ms.map (Time.length rem (Time.Spec.under tr f)) = qs.map .ok) (hq : Longest qs q) :
    Time.length rem tr (.node (.music false f) ms) = .ok q := by
  obtain ⟨-, x, hx, h1, h2⟩ := Time.C52_sum_max rem tr f ms qs h
  rw [hx]
  congr 1
  rcases hq with ⟨rfl, rfl⟩ | ⟨h3, h4⟩
  · simpa using h2
  · rcases h2 with h2 | ⟨rfl, -⟩
    · exact le_antisymm (h4 x h2) (h1 q h3)
    · cases h3

theorem longest_zeros (qs : List ℚ) (h : ∀ q ∈ qs, q = 0) : Longest qs 0 := by
  rcases qs with _ | ⟨q, qs⟩
  · exact .inl ⟨rfl, rfl⟩
  · refine .inr ⟨by rw [h q (by simp)]; simp, ?_⟩
    intro y hy
    rw [h y hy]

theorem silent_ok (x : Nd) (h : Silent x) : ∀ (p : Option Cls) (before : List Nd),
    (∃ m, toMus p before x = .ok m ∧ ∀ rem tr, Time.length rem tr m = .ok 0) ∧
      previousDuration (rev x ++ before) = previousDuration before := by
  induction h with
  | mk c v cs hc hcs ih =>
    intro p before
    obtain ⟨h1, h2, h3, h4, h5, h6, h7, h8, h9, h10, h11, h12⟩ := silent_cls c hc
    have hall : ∀ (ys : List Nd), (∀ x ∈ ys, x ∈ cs) → ∀ (p : Option Cls) (before : List Nd),
        (∃ ms, toMusL p before ys = .ok ms ∧ ∀ rem tr, ∀ q ∈ ms.map (Time.length rem tr), q = .ok 0) ∧
          previousDuration (revL ys ++ before) = previousDuration before := by
      intro ys
      induction ys with
      | nil => intro _ p before; exact ⟨⟨[], rfl, by simp⟩, rfl⟩
      | cons y ys ihy =>
        intro hy p before
        obtain ⟨⟨m, hm, hl⟩, hp⟩ := ih y (hy y (by simp)) p before
        obtain ⟨⟨ms, hms, hls⟩, hps⟩ := ihy (fun x hx => hy x (by simp [hx])) p (rev y ++ before)
        refine ⟨⟨m :: ms, by simp [toMusL, hm, hms], ?_⟩, ?_⟩
        · intro rem tr q hq
          simp only [List.map_cons, List.mem_cons] at hq
          rcases hq with rfl | hq
          · exact hl rem tr
          · exact hls rem tr q hq
        · rw [revL, List.append_assoc, hps, hp]
    obtain ⟨⟨ms, hms, hls⟩, hps⟩ := hall cs (fun _ h => h) (some c) before
    refine ⟨?_, by rw [previous_rev c v cs before (.inl h3), hps]⟩
    by_cases hmu : isSub 5 c .Music = true
    · refine ⟨_, toMus_node _ _ _ _ _ _ _ (kindOf_music p before c v cs none ⟨h1, h2, h3, h4, hmu⟩
        (transform_none c v cs ⟨h6, h7, h8, h9, h10⟩)) hms, ?_⟩
      intro rem tr
      rw [isSequential_false p c v cs h11]
      refine length_longest rem tr none ms (ms.map fun _ => 0) 0 ?_ (longest_zeros _ (by simp))
      rw [List.map_map]
      refine List.map_congr_left ?_
      intro m hm
      exact hls rem _ _ (List.mem_map_of_mem hm)
    · refine ⟨.node .other ms, toMus_node _ _ _ _ _ _ _ ?_ hms, fun rem tr => length_other _ _ _⟩
      simp only [Bool.not_eq_true] at hmu
      simp [kindOf, isA_node, h1, h2, h3, h4, h5, hmu]
  | markup v cs hcs =>
    intro p before
    obtain ⟨⟨ms, hms⟩, hps⟩ := attachedL_ok cs hcs (some .Markup) before
    refine ⟨⟨.node .other ms, toMus_node _ _ _ _ _ _ _ ?_ hms, fun rem tr => length_other _ _ _⟩,
      by rw [previous_rev .Markup v cs before (.inl (by decide +kernel)), hps]⟩
    simp [kindOf, isA_node, show isSub 5 .Markup .Chord = false by decide +kernel,
      show isSub 5 .Markup .Skip = false by decide +kernel, show isSub 5 .Markup .Durable = false by decide +kernel,
      show isSub 5 .Markup .AfterGrace = false by decide +kernel, show isSub 5 .Markup .Music = false by decide +kernel,
      show isSub 5 .Markup .Reference = false by decide +kernel]

/-- The same for a list. -/
theorem silentL_ok (xs : List Nd) : (∀ x ∈ xs, Silent x) → ∀ (p : Option Cls) (before : List Nd),
    (∃ ms, toMusL p before xs = .ok ms ∧ ∀ rem tr, ms.map (Time.length rem tr) = (xs.map fun _ => (0 : ℚ)).map .ok) ∧
      previousDuration (revL xs ++ before) = previousDuration before := by
  induction xs with
  | nil => intro _ p before; exact ⟨⟨[], rfl, by simp⟩, rfl⟩
  | cons y ys ih =>
    intro h p before
    obtain ⟨⟨m, hm, hl⟩, hp⟩ := silent_ok y (h y (by simp)) p before
    obtain ⟨⟨ms, hms, hls⟩, hps⟩ := ih (fun x hx => h x (by simp [hx])) p (rev y ++ before)
    refine ⟨⟨m :: ms, by simp [toMusL, hm, hms], ?_⟩, ?_⟩
    · intro rem tr
      simp [hl rem tr, hls rem tr]
    · rw [revL, List.append_assoc, hps, hp]

theorem post_cls : ∀ c ∈ posts, isSub 5 c .Chord = false ∧ isSub 5 c .Skip = false ∧ isSub 5 c .Durable = false ∧
    isSub 5 c .AfterGrace = false ∧ isSub 5 c .Music = false ∧ isSub 5 c .Reference = false := by decide +kernel

/-- The same for a list with events that are attached to a note. -/
theorem postL_ok (xs : List Nd) : (∀ x ∈ xs, Silent x ∨ (All attached x ∧ NoDur x ∧ x.val.1 ∈ posts)) →
    ∀ (p : Option Cls) (before : List Nd),
    (∃ ms, toMusL p before xs = .ok ms ∧ ∀ rem tr, ms.map (Time.length rem tr) = (xs.map fun _ => (0 : ℚ)).map .ok) ∧
      previousDuration (revL xs ++ before) = previousDuration before := by
  induction xs with
  | nil => intro _ p before; exact ⟨⟨[], rfl, by simp⟩, rfl⟩
  | cons y ys ih =>
    intro h p before
    have key : (∃ m, toMus p before y = .ok m ∧ ∀ rem tr, Time.length rem tr m = .ok 0) ∧
        previousDuration (rev y ++ before) = previousDuration before := by
      rcases h y (by simp) with h | ⟨h1, h2, h3⟩
      · exact silent_ok y h p before
      · obtain ⟨⟨m, hm⟩, hp⟩ := attached_ok y h1 h2 p before
        refine ⟨⟨m, hm, fun rem tr => ?_⟩, hp⟩
        obtain ⟨l, cs⟩ := y
        obtain ⟨k1, k2, k3, k4, k5, k6⟩ := post_cls l.1 h3
        have hk : kindOf p before (.node l cs) = .ok .other := by
          obtain ⟨c, v⟩ := l
          simp only at k1 k2 k3 k4 k5 k6
          simp [kindOf, isA_node, k1, k2, k3, k4, k5, k6]
        simp only [toMus, hk] at hm
        cases hms : toMusL (some l.1) before cs with
        | error e => rw [hms] at hm; cases hm
        | ok ms =>
          rw [hms] at hm
          injection hm with hm
          subst hm
          exact length_other _ _ _
    obtain ⟨⟨m, hm, hl⟩, hp⟩ := key
    obtain ⟨⟨ms, hms, hls⟩, hps⟩ := ih (fun x hx => h x (by simp [hx])) p (rev y ++ before)
    refine ⟨⟨m :: ms, by simp [toMusL, hm, hms], ?_⟩, ?_⟩
    · intro rem tr
      simp [hl rem tr, hls rem tr]
    · rw [revL, List.append_assoc, hps, hp]

end Quickly.Length
