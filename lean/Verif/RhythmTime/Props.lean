import Verif.RhythmTime.Trans
import Verif.Duration.Props

/-!
# C93 and C94: Editing the rhythm and the time of the music

C93: writing the durations explicitly or implicitly does not change when the music of a document takes place.  C94: a
transform of all durations scales it.
-/

namespace Quickly.RhythmTime

open Quickly.Node Quickly.Signature Quickly.Length Quickly.Length.Spec Spec
open Quickly.Duration (Transform)
open Quickly.Duration.Spec (value)

/-! ## C93 -/

theorem map_one (x : Py ℚ) : x.map (1 * ·) = x := by
  cases x <;> simp [Except.map]

theorem map_one_snd (x : Py (List ℕ × ℚ)) : (x.map fun x => (x.1, 1 * x.2)) = x := by
  cases x <;> simp [Except.map]

theorem map_one_opt (x : Py (Option (List ℕ × ℚ))) : (x.map fun x => x.map fun y => (y.1, 1 * y.2)) = x := by
  rcases x with _ | _ | _ <;> simp [Except.map]

/-- Documents in which the music takes place at the same time. -/
def SameTime (doc doc' : List Nd) : Prop :=
  (∀ path, Outside doc path → lengthAt doc' path = lengthAt doc path ∧
      ∀ incl, positionAt doc' path incl = positionAt doc path incl) ∧
    ∀ start stop, Outside doc start → Outside doc stop → durationBetween doc' start stop = durationBetween doc start stop

theorem same_time {doc doc' : List Nd} (h : ∃ q q', GoodL AnyT Eq (1/4, 1) (1/4, 1) doc doc' q q') :
    SameTime doc doc' := by
  obtain ⟨q, q', h⟩ := h
  refine ⟨fun path ho => ⟨?_, fun incl => ?_⟩, fun start stop ho ho' => ?_⟩
  · rw [doc_length h zero_le_one scales_one trivial path ho, map_one]
  · rw [doc_position h zero_le_one scales_one trivial path ho, map_one_snd]
  · rw [doc_duration h zero_le_one scales_one trivial start stop ho ho', map_one_opt]

/-- **C93**: adding the current duration to all notes and rests in a range does not change the length or the position of
any node, or the time between two nodes. -/
theorem C93_explicit (doc : List Nd) (a b : ℕ) (h : Normal doc) (ha : StartsOutside a doc) :
    SameTime doc (explicit a b doc) := same_time (explicit_good a b doc h ha)

/-- **C93** for removing the repeated durations in a range. -/
theorem C93_implicit (doc : List Nd) (a b : ℕ) (h : Normal doc) : SameTime doc (implicit a b doc) :=
  same_time (implicit_good a b doc h)

/-- **C93** for removing the repeated durations in a range, while writing one at the begin of a line. -/
theorem C93_implicit_per_line (doc : List Nd) (block : ℕ → Option ℕ) (a b : ℕ) (h : Normal doc) :
    SameTime doc (implicitPerLine block a b doc) := same_time (perLine_good block a b doc h)

/-- A Duration. -/
def dur (q : ℚ) : Nd := .node (.Duration, .value q) []

/-- A note. -/
def note (cs : List Nd) : Nd := .node (.Note, .text "c") cs

/-- `{ c4 c \tuplet 3/2 { c8 c c8 } <c e>2*1/2 r \skip 4 c }`. -/
def sample : List Nd :=
  [.node (.MusicList, .text "") [note [dur (1/4)], note [],
    .node (.Tuplet, .text "") [.node (.Fraction, .pair 3 2) [],
      .node (.MusicList, .text "") [note [dur (1/8)], note [], note [dur (1/8)]]],
    .node (.Chord, .text "") [.node (.ChordBody, .text "") [note [], note []],
      .node (.Duration, .value (1/2)) [.node (.DurationScaling, .value (1/2)) []]],
    .node (.Rest, .text "r") [], .node (.Skip, .text "") [dur (1/4)], note []]]

/-- What is checked for `sample`. -/
def checkNode (x : Bool × Nd) : Bool :=
  decide ((durs x.2).length ≤ 1) &&
    (!decide (x.2.val.1 = .Duration) || (x.2.children.all fun y => decide (y.val.1 ∈ .DurationScaling :: comments) && y.children.isEmpty) &&
      decide ((x.2.children.filter fun y => decide (y.val.1 = .DurationScaling)).length ≤ 1)) &&
    (!x.1 || !decide (x.2.val.1 ∈ sounding) || (durs x.2).isEmpty)

theorem check_normal {doc : List Nd} (h : (nodesL false doc).all checkNode = true) : Normal doc := by
  rw [List.all_eq_true] at h
  refine ⟨?_, ?_, ?_⟩
  · intro x hx
    have := h x hx
    simp only [checkNode, Bool.and_eq_true, decide_eq_true_eq] at this
    exact this.1.1
  · intro x hx hd
    have := h x hx
    simp only [checkNode, Bool.and_eq_true, hd, decide_true, Bool.not_true, Bool.false_or, List.all_eq_true,
      decide_eq_true_eq, List.isEmpty_iff] at this
    exact this.1.2
  · intro x hx h1 h2
    have := h x hx
    simp only [checkNode, Bool.and_eq_true, h1, h2, decide_true, Bool.not_true, Bool.false_or, List.isEmpty_iff] at this
    exact this.2

theorem sample_normal : Normal sample := check_normal (by decide +kernel)

theorem sample_starts : StartsOutside 0 sample := by
  intro x hx
  have : (((nodesL false sample).filter fun x => decide (x.2.val.1 ∈ timed))[0]?.all fun x => !x.1) = true := by
    decide +kernel
  rw [hx] at this
  simpa using this

/-- The number of Durations. -/
def durCount (doc : List Nd) : ℕ := (nodesL false doc).countP fun x => decide (x.2.val.1 = .Duration)

/-- The edits do something: with `explicit` it is `{ c4 c4 \tuplet 3/2 { c8 c8 c8 } <c2*1/2 e2*1/2>2*1/2 r2*1/2 \skip 4 c2*1/2 }`,
and only the third note of the tuplet has a duration that is written again. -/
example : durCount sample = 5 ∧ durCount (explicit 0 20 sample) = 11 ∧ durCount (implicit 0 20 sample) = 4 ∧
    durCount (implicitPerLine (fun i => some (i / 2)) 0 20 sample) = 7 := by decide +kernel

example : SameTime sample (explicit 0 20 sample) := C93_explicit _ _ _ sample_normal sample_starts
example : SameTime sample (implicit 0 20 sample) := C93_implicit _ _ _ sample_normal

/-- The length of the music is that of seven quarter notes. -/
theorem sample_length : lengthAt sample [0] = .ok (7/4) := by decide +kernel

/-- `StartsOutside` is needed for **C93**: in `{ <c e>2 c }` with a range that starts at the first note of the chord, the
notes of the chord get the duration 4, and then also the note after it, which had the length of a half note. -/
theorem C93_starts_inside :
    let doc : List Nd := [.node (.MusicList, .text "") [.node (.Chord, .text "")
      [.node (.ChordBody, .text "") [note [], note []], dur (1/2)], note []]]
    Normal doc ∧ lengthAt doc [0] = .ok 1 ∧ lengthAt (explicit 1 4 doc) [0] = .ok (3/4) :=
  ⟨check_normal (by decide +kernel), by decide +kernel, by decide +kernel⟩

/-! ## C94 -/

/-- Documents in which the time of the music is scaled. -/
def ScaledTime (c : ℚ) (doc doc' : List Nd) : Prop :=
  (∀ path, Outside doc path → lengthAt doc' path = (lengthAt doc path).map (c * ·) ∧
      ∀ incl, positionAt doc' path incl = (positionAt doc path incl).map fun x => (x.1, c * x.2)) ∧
    ∀ start stop, Outside doc start → Outside doc stop →
      durationBetween doc' start stop = (durationBetween doc start stop).map fun x => x.map fun y => (y.1, c * y.2)

theorem scaled_time {T : Transform → Prop} {c : ℚ} {t : Transform} (doc : List Nd) (h : Normal doc) (hf : FirstWritten doc)
    (b : ℕ) (hb : timedCount doc ≤ b) (hd : EveryDuration doc fun d => ∃ d', Changed T c t d d')
    (hT : ∀ x ∈ nodesL false doc, TOk T x.2) (hc : 0 ≤ c) (hT0 : T {}) :
    (transform t 0 b doc).1 = none ∧ ScaledTime c doc (transform t 0 b doc).2 := by
  obtain ⟨h1, q, q', h2⟩ := trans_good doc h hf b hb hd hT
  exact ⟨h1, fun path ho => ⟨doc_length h2 hc changed_scales hT0 path ho,
    fun incl => doc_position h2 hc changed_scales hT0 path ho incl⟩,
    fun start stop ho ho' => doc_duration h2 hc changed_scales hT0 start stop ho ho'⟩

theorem changed_scale (s : ℚ) (d : D) : Changed AnyT s { scale := s } d (d.1, d.2 * s) := by
  refine ⟨by simp [Transform.transform], ?_⟩
  intro tr _
  simp only [Transform.length, Transform.transform]
  by_cases hc : tr.log ≠ 0 ∨ tr.dotcount ≠ 0
  · rw [if_pos hc, if_pos hc]
    cases Duration.shiftDuration d.1 tr.log tr.dotcount with
    | error e => rfl
    | ok v => simp only [Except.map]; congr 1; ring
  · rw [if_neg hc, if_neg hc]
    simp only [Except.map]; congr 1; ring

/-- **C94**: scaling all durations in a document multiplies all lengths and positions by the scale. -/
theorem C94_scale (doc : List Nd) (s : ℚ) (hs : 0 ≤ s) (h : Normal doc) (hf : FirstWritten doc) (b : ℕ)
    (hb : timedCount doc ≤ b) :
    (transform { scale := s } 0 b doc).1 = none ∧ ScaledTime s doc (transform { scale := s } 0 b doc).2 :=
  scaled_time (T := AnyT) doc h hf b hb (fun _ _ _ d _ => ⟨_, changed_scale s d⟩) (fun _ _ _ _ _ _ => trivial) hs trivial

theorem shift_cls : ∀ c : Cls, isSub 5 c .ShiftDurations = decide (c = .ShiftDurations) := by
  intro c; cases c <;> decide +kernel

theorem transform_noshift (n : Nd) (hn : n.val.1 ≠ .ShiftDurations) (t : Transform)
    (h : Length.transform n = .ok (some t)) : t.log = 0 ∧ t.dotcount = 0 := by
  have hsh : isA .ShiftDurations n = false := by rw [isA, shift_cls]; simpa using hn
  simp only [Length.transform, hsh, Bool.false_eq_true, if_false] at h
  split at h
  · split at h
    · cases h
    · rename_i f _
      cases hfr : fraction f with
      | error e => rw [hfr] at h; cases h
      | ok q => rw [hfr] at h; cases h; exact ⟨rfl, rfl⟩
  · split at h
    · split at h
      · cases h
      · split at h
        · cases h
        · split at h
          · cases h
          · cases h; exact ⟨rfl, rfl⟩
    · split at h
      · cases hv : firstNum n.children with
        | error e => rw [hv] at h; cases h
        | ok v =>
          rw [hv] at h
          cases v with
          | none => cases h
          | some q => cases h; exact ⟨rfl, rfl⟩
      · split at h
        · cases h; exact ⟨rfl, rfl⟩
        · cases h

/-- **C94** for transforms that also shift all durations, such as doubling or halving them: lengths and positions are
multiplied by the scale and a power of two, if the document has no `\shiftDurations` and its durations do not become
longer than LilyPond can write. -/
theorem C94_shift (doc : List Nd) (log : ℤ) (s : ℚ) (hs : 0 ≤ s) (h : Normal doc) (hf : FirstWritten doc) (b : ℕ)
    (hb : timedCount doc ≤ b)
    (hd : EveryDuration doc fun d => ∃ (l : ℤ) (k : ℕ), k ≤ 52 ∧ 0 ≤ k + (l + log) + 3 ∧ d.1 = value l k)
    (hsh : ∀ x ∈ nodesL false doc, x.2.val.1 ≠ .ShiftDurations) :
    (transform { log := log, scale := s } 0 b doc).1 = none ∧
      ScaledTime (2 ^ (-log) * s) doc (transform { log := log, scale := s } 0 b doc).2 := by
  refine scaled_time (T := fun tr => tr.log = 0 ∧ tr.dotcount = 0) doc h hf b hb ?_ ?_
    (mul_nonneg (zpow_nonneg (by norm_num) _) hs) ⟨rfl, rfl⟩
  · intro x hx ht d hxd
    obtain ⟨l, k, h1, h2, h3⟩ := hd x hx ht d hxd
    refine ⟨(d.1 * 2 ^ (-log), d.2 * s), ?_, ?_⟩
    · simp only [Transform.transform]
      split
      · rw [h3, Duration.C08_shift_scales l k h1 log h2]
      · rename_i h0
        have : log = 0 := by simpa using h0
        subst this
        simp
    · rintro tr ⟨h4, h5⟩
      simp only [Transform.length, Transform.transform, h4, h5, ne_eq, not_true_eq_false, or_self, if_false, Except.map]
      congr 1
      ring
  · intro x hx t ht tr htr
    obtain ⟨h1, h2⟩ := transform_noshift x.2 (hsh x hx) t ht
    split
    · exact ⟨by simp [Transform.add, htr.1, h1], by simp [Transform.add, htr.2, h2]⟩
    · exact htr

theorem sample_first : FirstWritten sample := by
  intro x hx
  have : (((nodesL false sample).find? fun x => decide (x.2.val.1 ∈ sounding)).all fun x => !(durs x.2).isEmpty) = true := by
    decide +kernel
  rw [hx] at this
  simpa using this

example : ScaledTime (2/3) sample (transform { scale := 2/3 } 0 20 sample).2 :=
  (C94_scale sample (2/3) (by norm_num) sample_normal sample_first 20 (by decide +kernel)).2

example : lengthAt (transform { scale := 2/3 } 0 20 sample).2 [0] = .ok (7/6) := by decide +kernel

theorem sample_durations (log : ℤ) (h : -4 ≤ log) :
    EveryDuration sample fun d => ∃ (l : ℤ) (k : ℕ), k ≤ 52 ∧ 0 ≤ k + (l + log) + 3 ∧ d.1 = value l k := by
  intro x hx _ d hd
  have hall : ((nodesL false sample).all fun x => (durationScaling x.2).all fun d =>
      decide (d.1 = 1/4 ∨ d.1 = 1/8 ∨ d.1 = 1/2)) = true := by decide +kernel
  have := List.all_eq_true.1 hall x hx
  rw [hd] at this
  rcases of_decide_eq_true this with h1 | h1 | h1
  · exact ⟨2, 0, by omega, by omega, by rw [h1, Duration.value_eq]; norm_num⟩
  · exact ⟨3, 0, by omega, by omega, by rw [h1, Duration.value_eq]; norm_num⟩
  · exact ⟨1, 0, by omega, by omega, by rw [h1, Duration.value_eq]; norm_num⟩

theorem sample_noshift : ∀ x ∈ nodesL false sample, x.2.val.1 ≠ .ShiftDurations := by
  have hall : ((nodesL false sample).all fun x => decide (x.2.val.1 ≠ .ShiftDurations)) = true := by decide +kernel
  intro x hx
  exact of_decide_eq_true (List.all_eq_true.1 hall x hx)

example : ScaledTime (2 ^ (-(-1 : ℤ)) * 1) sample (transform { log := -1, scale := 1 } 0 20 sample).2 :=
  (C94_shift sample (-1) 1 (by norm_num) sample_normal sample_first 20 (by decide +kernel)
    (sample_durations (-1) (by omega)) sample_noshift).2

/-- `FirstWritten` is needed for **C94**: `{ c c4 }` has a first note with the default duration, which stays. -/
theorem C94_default_duration :
    let doc : List Nd := [.node (.MusicList, .text "") [note [], note [dur (1/4)]]]
    Normal doc ∧ lengthAt doc [0] = .ok (1/2) ∧ lengthAt (transform { log := -1 } 0 2 doc).2 [0] = .ok (3/4) :=
  ⟨check_normal (by decide +kernel), by decide +kernel, by decide +kernel⟩

/-- `\shiftDurations` is excluded from `C94_shift`: in `{ \shiftDurations 0 1 { c4 } }` a dot is added both before and after, but
with `\shiftDurations -5 0 { c4 }` there is a length of 8 whole notes, and none when the note gets longer. -/
theorem C94_shift_durations :
    let doc : List Nd := [.node (.ShiftDurations, .text "") [.node (.Int, .num (.int (-5))) [],
      .node (.Int, .num (.int 0)) [], .node (.MusicList, .text "") [note [dur (1/4)]]]]
    Normal doc ∧ lengthAt doc [0] = .ok 8 ∧
      lengthAt (transform { log := -1 } 0 2 doc).2 [0] = .error .valueError :=
  ⟨check_normal (by decide +kernel), by decide +kernel, by decide +kernel⟩

end Quickly.RhythmTime
