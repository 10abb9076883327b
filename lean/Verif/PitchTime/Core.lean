import Verif.PitchTime.Mus
import Verif.RhythmTime.Time
import Verif.Length.Lemmas

/-! # Music with other pitches takes the same time -/

namespace Quickly.PitchTime

open Quickly.Node Quickly.Signature Quickly.Length Quickly.Length.Spec Spec
open Quickly.Duration (Transform)
open Quickly.Time (Mus Kind)
open Quickly.RhythmTime (PyRel)

/-! ## Classes -/

theorem music_cls (c : Cls) : isSub 5 c .Music = true → isSub 5 c .Duration = false ∧ isSub 5 c .DurationScaling = false ∧
    isSub 5 c .Fraction = false ∧ isSub 5 c .Int = false ∧ isSub 5 c .Float = false ∧ isSub 5 c .Scheme = false ∧
    isSub 5 c .Identifier = false ∧ isSub 5 c .EqualSign = false ∧ isSub 5 c .Assignment = false ∧ isSub 5 c .Reference = false := by
  cases c <;> decide +kernel

theorem pitched_cls : ∀ c ∈ pitched, isSub 5 c .Music = true ∧ isSub 5 c .Times = false ∧ isSub 5 c .Tuplet = false ∧
    isSub 5 c .ScaleDurations = false ∧ isSub 5 c .ShiftDurations = false ∧ isSub 5 c .Grace = false ∧ isSub 5 c .Chord = false ∧
    isSub 5 c .Skip = false ∧ isSub 5 c .AfterGrace = false ∧ isSub 5 c .MusicList = false ∧ isSub 5 c .SimultaneousMusicList = false ∧
    isSub 5 c .Assignment = false ∧ isSub 5 c .Simultaneous = false ∧ c ≠ .Chord ∧ c ≠ .Assignment := by
  decide +kernel

theorem part_cls : ∀ c ∈ parts, isSub 5 c .Duration = false ∧ isSub 5 c .DurationScaling = false ∧
    isSub 5 c .Fraction = false ∧ isSub 5 c .Int = false ∧ isSub 5 c .Float = false ∧ isSub 5 c .Scheme = false ∧
    isSub 5 c .Identifier = false ∧ isSub 5 c .EqualSign = false ∧ isSub 5 c .Music = false ∧ isSub 5 c .Reference = false ∧ isSub 5 c .Note = false := by
  decide +kernel

theorem check_cls : isSub 5 .OctaveCheck .Duration = false ∧ isSub 5 .OctaveCheck .DurationScaling = false ∧
    isSub 5 .OctaveCheck .Fraction = false ∧ isSub 5 .OctaveCheck .Int = false ∧ isSub 5 .OctaveCheck .Float = false ∧ isSub 5 .OctaveCheck .Scheme = false ∧
    isSub 5 .OctaveCheck .Identifier = false ∧ isSub 5 .OctaveCheck .EqualSign = false ∧ isSub 5 .OctaveCheck .Music = false ∧
    isSub 5 .OctaveCheck .Reference = false ∧ isSub 5 .OctaveCheck .Note = false := by
  decide +kernel

theorem value_cls (c : Cls) : isSub 5 c .Duration = true ∨ isSub 5 c .DurationScaling = true → c ∈ [.Duration, .DurationScaling] := by
  cases c <;> decide +kernel

theorem simultaneous_cls (c : Cls) : isSub 5 c .Simultaneous = decide (c = .Simultaneous) := by cases c <;> decide +kernel
theorem note_cls (c : Cls) : isSub 5 c .Note = decide (c = .Note) := by cases c <;> decide +kernel
theorem chord_cls (c : Cls) : isSub 5 c .Chord = decide (c = .Chord) := by cases c <;> decide +kernel
theorem assignment_cls (c : Cls) : isSub 5 c .Assignment = decide (c = .Assignment) := by cases c <;> decide +kernel

theorem silent_note {y : Nd} (h : Silent y) : isA .Note y = false := by
  cases h with
  | mk c v cs hc _ => exact (show ∀ c ∈ silent, isSub 5 c .Note = false by decide +kernel) c hc
  | markup v cs _ => exact (show isSub 5 .Markup .Note = false by decide +kernel)

/-! ## What is in a node -/

/-- What is found in nodes that are neither music nor belong to a pitch. -/
theorem find_like {α : Type} (g : Nd → Option α) (hg : ∀ l cs ds, Like (some l.1) cs ds → g (.node l ds) = g (.node l cs))
    (hm : ∀ n, isA .Music n = true → g n = none) (hp : ∀ n, n.val.1 ∈ parts → g n = none) (hc : ∀ n, n.val.1 = .OctaveCheck → g n = none)
    {p : Option Cls} {ts us : List Nd} (h : Like p ts us) :
    us.filterMap g = ts.filterMap g ∧ ∀ x y, ts = [x] → us = [y] → isA .Music x = true → isA .Music y = true := by
  induction h with
  | nil p => exact ⟨rfl, fun x y h => by cases h⟩
  | node p l cs ds ts us _ h _ _ ih => 
    refine ⟨by simp only [List.filterMap_cons, hg l cs ds h, ih.1], ?_⟩
    intro x y h1 h2 h3
    cases h1; cases h2; exact h3
  | pitch p c v w cs ds ts us hpc _ _ _ ih =>
    have := (pitched_cls c hpc).1
    refine ⟨by simp only [List.filterMap_cons, hm (.node (c, v) cs) this, hm (.node (c, w) ds) this, ih.1], ?_⟩
    intro x y h1 h2 h3
    cases h1; cases h2; exact h3
  | left c y ts us _ _ hy _ ih =>
    refine ⟨by simp only [List.filterMap_cons, hp y hy, ih.1], ?_⟩
    intro x z h1 h2 h3
    rw [List.cons.injEq] at h1
    rw [← h1.1, show isA .Music y = false from (part_cls _ hy).2.2.2.2.2.2.2.2.1] at h3
    cases h3
  | right c y ts us hc1 _ hy h1 ih =>
    refine ⟨by simp only [List.filterMap_cons, hp y hy, ih.1], ?_⟩
    intro x z e1 e2 h3
    cases e2; subst e1
    exfalso
    cases h1 with
    | left _ _ _ _ _ _ hx _ => rw [show isA .Music x = false from (part_cls _ hx).2.2.2.2.2.2.2.2.1] at h3; cases h3
    | check _ _ _ _ _ _ _ _ => rw [isA_node, check_cls.2.2.2.2.2.2.2.2.1] at h3; cases h3
  | check p v cs ts us _ _ _ ih =>
    refine ⟨by simp only [List.filterMap_cons, hc (.node (.OctaveCheck, v) cs) rfl, ih.1], ?_⟩
    intro x y h1 h2 h3
    cases h1
    rw [isA_node, check_cls.2.2.2.2.2.2.2.2.1] at h3; cases h3
  | relative p v pre x post y ts us _ _ _ hx _ _ _ ihx ih =>
    have hy := ihx.2 x y rfl rfl hx
    refine ⟨by simp only [List.filterMap_cons, hm _ hy, hm (.node (.Relative, v) (pre ++ x :: post)) (by rw [isA_node]; decide +kernel), ih.1], ?_⟩
    intro x' y' h1 h2 h3
    cases h2; exact hy

theorem music_one {p : Option Cls} {x y : Nd} (h : Like p [x] [y]) (hx : isA .Music x = true) : isA .Music y = true :=
  (find_like (fun _ => (none : Option Unit)) (fun _ _ _ _ => rfl) (fun _ _ => rfl) (fun _ _ => rfl) (fun _ _ => rfl) h).2 x y rfl rfl hx

/-- The same for what only depends on the node itself. -/
theorem find_val {α : Type} (k : Cls × Val → Option α) (hm : ∀ l, isSub 5 l.1 .Music = true → k l = none)
    (hp : ∀ l, l.1 ∈ parts → k l = none) (hc : ∀ l, l.1 = .OctaveCheck → k l = none) {p : Option Cls} {ts us : List Nd} (h : Like p ts us) :
    us.filterMap (fun n => k n.val) = ts.filterMap (fun n => k n.val) :=
  (find_like (fun n => k n.val) (fun _ _ _ _ => rfl) (fun _ hn => hm _ hn) (fun _ hn => hp _ hn) (fun _ hn => hc _ hn) h).1

theorem find_filterMap {α : Type} (q : Nd → Bool) (f : Nd → α) (ts : List Nd) :
    (ts.find? q).map f = (ts.filterMap fun n => if q n then some (f n) else none).head? := by
  induction ts with
  | nil => rfl
  | cons t ts ih =>
    rw [List.find?_cons, List.filterMap_cons]
    cases hq : q t <;> simp [ih]

theorem filter_filterMap {α : Type} (q : Nd → Bool) (f : Nd → α) (ts : List Nd) :
    (ts.filter q).map f = ts.filterMap fun n => if q n then some (f n) else none := by
  induction ts with
  | nil => rfl
  | cons t ts ih =>
    rw [List.filter_cons, List.filterMap_cons]
    cases hq : q t <;> simp [ih]

theorem any_filterMap (q : Nd → Bool) (ts : List Nd) : ts.any q = ((ts.filterMap fun n => if q n then some () else none).head?).isSome := by
  induction ts with
  | nil => rfl
  | cons t ts ih =>
    rw [List.any_cons, List.filterMap_cons]
    cases hq : q t <;> simp [ih]

section
variable {p : Option Cls} {ts us : List Nd}

theorem scalings_like (h : Like p ts us) : (us.filter (isA .DurationScaling)).map headValue = (ts.filter (isA .DurationScaling)).map headValue := by
  rw [filter_filterMap, filter_filterMap]
  exact find_val (fun l => if isSub 5 l.1 .DurationScaling then some (match l.2 with | .value q => q | _ => 0) else none)
    (fun l hl => by simp [(music_cls _ hl).2.1]) (fun l hl => by simp [(part_cls _ hl).2.1]) (fun l hl => by simp [hl, check_cls.2.1]) h

theorem durations_like (h : Like p ts us) : (us.find? (isA .Duration)).map durationOf = (ts.find? (isA .Duration)).map durationOf := by
  rw [find_filterMap, find_filterMap]
  congr 1
  refine (find_like (fun n => if isA .Duration n then some (durationOf n) else none) ?_ (fun n hn => ?_) (fun n hn => ?_) (fun n hn => ?_) h).1
  · intro l cs ds hcd
    have h1 : durationOf (.node l ds) = durationOf (.node l cs) := by
      simp only [durationOf, Node.Tree.children, scalings_like hcd]
      rfl
    simp only [h1]
    rfl
  · simp [isA, (music_cls _ hn).1]
  · simp [isA, (part_cls _ hn).1]
  · simp [isA, hn, check_cls.1]

theorem fractions_like (h : Like p ts us) : (us.find? (isA .Fraction)).map fraction = (ts.find? (isA .Fraction)).map fraction := by
  rw [find_filterMap, find_filterMap]
  congr 1
  exact (find_like (fun n => if isA .Fraction n then some (fraction n) else none) (fun _ _ _ _ => rfl)
    (fun n hn => by simp [isA, (music_cls _ hn).2.2.1]) (fun n hn => by simp [isA, (part_cls _ hn).2.2.1])
    (fun n hn => by simp [isA, hn, check_cls.2.2.1]) h).1

theorem anyDuration_like (h : Like p ts us) : us.any (isA .Duration) = ts.any (isA .Duration) := by
  rw [any_filterMap, any_filterMap]
  congr 2
  exact find_val (fun l => if isSub 5 l.1 .Duration then some () else none)
    (fun l hl => by simp [(music_cls _ hl).1]) (fun l hl => by simp [(part_cls _ hl).1]) (fun l hl => by simp [hl, check_cls.1]) h

theorem identifier_like (h : Like p ts us) : (us.find? (isA .Identifier)).map headText = (ts.find? (isA .Identifier)).map headText := by
  rw [find_filterMap, find_filterMap]
  congr 1
  exact find_val (fun l => if isSub 5 l.1 .Identifier then some (match l.2 with | .text s => s | _ => "") else none)
    (fun l hl => by simp [(music_cls _ hl).2.2.2.2.2.2.1]) (fun l hl => by simp [(part_cls _ hl).2.2.2.2.2.2.1])
    (fun l hl => by simp [hl, check_cls.2.2.2.2.2.2.1]) h

theorem ints_like (h : Like p ts us) : us.filterMap getIntValue = ts.filterMap getIntValue :=
  (find_like getIntValue (fun _ _ _ _ => rfl)
    (fun n hn => by simp [getIntValue, isA, music_cls _ hn])
    (fun n hn => by simp [getIntValue, isA, part_cls _ hn])
    (fun n hn => by simp [getIntValue, isA, hn, check_cls]) h).1

/-- The numbers that `firstNum` looks at. -/
def numOf (n : Nd) : Option (Py (Option ℚ)) :=
  match getNumValue n with
  | .ok none => none
  | x => some x

theorem firstNum_eq (ts : List Nd) : firstNum ts = ((ts.filterMap numOf).head?).getD (.ok none) := by
  induction ts with
  | nil => rfl
  | cons t ts ih =>
    rw [firstNum, List.filterMap_cons, numOf]
    rcases getNumValue t with e | _ | q
    · rfl
    · exact ih
    · rfl

theorem firstNum_like (h : Like p ts us) : firstNum us = firstNum ts := by
  rw [firstNum_eq, firstNum_eq]
  congr 2
  exact (find_like numOf (fun _ _ _ _ => rfl)
    (fun n hn => by simp [numOf, getNumValue, isA, music_cls _ hn])
    (fun n hn => by simp [numOf, getNumValue, isA, part_cls _ hn])
    (fun n hn => by simp [numOf, getNumValue, isA, hn, check_cls]) h).1

theorem notes_one (h : Like p ts us) : us.any (isA .Note) = ts.any (isA .Note) := by
  induction h with
  | nil p => rfl
  | node p l cs ds ts us _ h _ _ ih => simp only [List.any_cons, ih]; rfl
  | pitch p c v w cs ds ts us hpc _ _ _ ih => simp only [List.any_cons, ih]; rfl
  | left c y ts us _ _ hy _ ih => simp only [List.any_cons, ih, isA, part_cls _ hy, Bool.false_or]
  | right c y ts us _ _ hy _ ih => simp only [List.any_cons, ih, isA, part_cls _ hy, Bool.false_or]
  | check p v cs ts us _ _ _ ih => simp only [List.any_cons, ih, isA, Node.Tree.val, check_cls, Bool.false_or]
  | relative p v pre x post y ts us _ _ _ hx hn _ _ ihx ih =>
    simp only [List.any_cons, ih, isA_node, List.any_nil, Bool.or_false] at ihx ⊢
    rw [ihx]
    have : isA .Note x = false := by
      rw [isA, note_cls]
      simp only [pitched, List.mem_cons, not_or] at hn
      simpa using hn.1
    rw [this, show isSub 5 .Relative .Note = false by decide +kernel]

theorem notes_like (h : Like p ts us) : p = some .Chord →
    us.any (fun body => body.children.any (isA .Note)) = ts.any fun body => body.children.any (isA .Note) := by
  induction h with
  | nil p => intro _; rfl
  | node p l cs ds ts us _ h _ _ ih => intro hp; rw [List.any_cons, List.any_cons, ih hp]; congr 1; exact notes_one h
  | pitch p c v w cs ds ts us hpc h _ _ ih => intro hp; rw [List.any_cons, List.any_cons, ih hp]; congr 1; exact notes_one h
  | left c y ts us hc _ hy _ ih => intro hp; cases hp; exact absurd hc (by decide)
  | right c y ts us hc _ hy _ ih => intro hp; cases hp; exact absurd hc (by decide)
  | check p v cs ts us _ hs _ ih =>
    intro hp
    have : cs.any (isA .Note) = false := by
      rw [List.any_eq_false]
      intro y hy
      simp [silent_note (hs y hy)]
    rw [List.any_cons, ih hp, show (Node.Tree.node (Cls.OctaveCheck, v) cs).children.any (isA .Note) = false from this, Bool.false_or]
  | relative p v pre x post y ts us _ hc _ hx hn _ _ ihx ih => intro hp; exact absurd hp hc

/-- The values of durations are not negative. -/
theorem scaling_nonneg (h : Like p ts us) : ∀ y ∈ ts, isA .DurationScaling y = true → 0 ≤ headValue y := by
  induction h with
  | nil p => intro y hy; cases hy
  | node p l cs ds ts us hf h _ _ ih =>
    intro y hy hd
    rcases List.mem_cons.1 hy with rfl | hy
    · exact hf.1 (value_cls _ (.inr hd))
    · exact ih y hy hd
  | pitch p c v w cs ds ts us hpc h _ _ ih =>
    intro y hy hd
    rcases List.mem_cons.1 hy with rfl | hy
    · rw [isA_node, (music_cls _ (pitched_cls c hpc).1).2.1] at hd; cases hd
    · exact ih y hy hd
  | left c z ts us hc _ hz _ ih =>
    intro y hy hd
    rcases List.mem_cons.1 hy with rfl | hy
    · rw [isA, (part_cls _ hz).2.1] at hd; cases hd
    · exact ih y hy hd
  | right c z ts us hc _ hz _ ih => exact ih
  | check p v cs ts us _ hs _ ih =>
    intro y hy hd
    rcases List.mem_cons.1 hy with rfl | hy
    · rw [isA_node, check_cls.2.1] at hd; cases hd
    · exact ih y hy hd
  | relative p v pre x post y ts us _ hc _ hx hn _ _ ihx ih =>
    intro y hy hd
    rcases List.mem_cons.1 hy with rfl | hy
    · exact absurd hd (by rw [isA_node]; decide +kernel)
    · exact ih y hy hd

theorem fold_nonneg (xs : List ℚ) : (∀ x ∈ xs, 0 ≤ x) → ∀ acc : ℚ, 0 ≤ acc → 0 ≤ xs.foldl (· * ·) acc := by
  induction xs with
  | nil => intro _ acc h; exact h
  | cons x xs ih => intro h acc ha; exact ih (fun x hx => h x (by simp [hx])) _ (mul_nonneg ha (h x (by simp)))

theorem duration_nonneg (h : Like p ts us) : ∀ y ∈ ts, isA .Duration y = true → 0 ≤ (durationOf y).1 ∧ 0 ≤ (durationOf y).2 := by
  induction h with
  | nil p => intro y hy; cases hy
  | node p l cs ds ts us hf h _ _ ih =>
    intro y hy hd
    rcases List.mem_cons.1 hy with rfl | hy
    · refine ⟨hf.1 (value_cls _ (.inl hd)), fold_nonneg _ ?_ 1 (by norm_num)⟩
      intro x hx
      obtain ⟨z, hz, rfl⟩ := List.mem_map.1 hx
      rw [List.mem_filter] at hz
      exact scaling_nonneg h z hz.1 hz.2
    · exact ih y hy hd
  | pitch p c v w cs ds ts us hpc h _ _ ih =>
    intro y hy hd
    rcases List.mem_cons.1 hy with rfl | hy
    · rw [isA_node, (music_cls _ (pitched_cls c hpc).1).1] at hd; cases hd
    · exact ih y hy hd
  | left c z ts us hc _ hz _ ih =>
    intro y hy hd
    rcases List.mem_cons.1 hy with rfl | hy
    · rw [isA, (part_cls _ hz).1] at hd; cases hd
    · exact ih y hy hd
  | right c z ts us hc _ hz _ ih => exact ih
  | check p v cs ts us _ hs _ ih =>
    intro y hy hd
    rcases List.mem_cons.1 hy with rfl | hy
    · rw [isA_node, check_cls.1] at hd; cases hd
    · exact ih y hy hd
  | relative p v pre x post y ts us _ hc _ hx hn _ _ ihx ih =>
    intro y hy hd
    rcases List.mem_cons.1 hy with rfl | hy
    · exact absurd hd (by rw [isA_node]; decide +kernel)
    · exact ih y hy hd
end

/-! ## The kind of a node -/

theorem transform_like {l : Cls × Val} {cs ds : List Nd} {p : Option Cls} (h : Like p cs ds) : transform (.node l ds) = transform (.node l cs) := by
  have hf := fractions_like h
  simp only [transform, isA_node, Node.Tree.children, firstNum_like h, ints_like h]
  rcases h1 : cs.find? (isA .Fraction) with _ | f <;> rcases h2 : ds.find? (isA .Fraction) with _ | g <;>
    rw [h1, h2] at hf <;> simp only [Option.map_none, Option.map_some, Option.some.injEq, reduceCtorEq] at hf
  · rfl
  · simp only [hf]
    rfl

/-- Whether music lists in such a node are simultaneous. -/
def sim : Option Cls → Bool
  | some c => isSub 5 c .Simultaneous
  | none => false

theorem sequential_eq (p : Option Cls) (n : Nd) :
    isSequential p n = if isA .SimultaneousMusicList n then false else if isA .MusicList n then !sim p else false := by
  cases p <;> rfl

theorem durationScaling_like {l l' : Cls × Val} {cs ds : List Nd} {p : Option Cls} (h : Like p cs ds) :
    durationScaling (.node l' ds) = durationScaling (.node l cs) := durations_like h

/-- No negative duration. -/
def ND (d : D) : Prop := 0 ≤ d.1 ∧ 0 ≤ d.2

theorem written_nonneg {l : Cls × Val} {cs ds : List Nd} {p : Option Cls} (h : Like p cs ds) (d : D)
    (hd : durationScaling (.node l cs) = some d) : ND d := by
  simp only [durationScaling, Node.Tree.children, Option.map_eq_some_iff] at hd
  obtain ⟨y, hy, rfl⟩ := hd
  exact duration_nonneg h y (List.mem_of_find?_eq_some hy) (List.find?_some hy)

theorem kind_like {c : Cls} {v w : Val} {cs ds : List Nd} (h : Like (some c) cs ds) (hv : v = w ∨ c ∈ pitched) (p p' : Option Cls) (before before' : List Nd)
    (hp : sim p' = sim p) (hb : previousDuration before' = previousDuration before) :
    kindOf p' before' (.node (c, w) ds) = kindOf p before (.node (c, v) cs) := by
  have hd : getDuration before' (.node (c, w) ds) = getDuration before (.node (c, v) cs) := by
    simp only [getDuration, hb, durationScaling_like (l := (c, v)) (l' := (c, w)) h]
  have ha : ds.any (isA .Duration) = cs.any (isA .Duration) := anyDuration_like h
  have ht : transform (.node (c, w) ds) = transform (.node (c, v) cs) := by
    have h1 := transform_like (l := (c, w)) h
    rw [h1]
    rfl
  have hr : isSub 5 c .Music = false → isSub 5 c .Reference = true → headText (.node (c, w) ds) = headText (.node (c, v) cs) := by
    intro h1 h2
    rcases hv with rfl | hv
    · rfl
    · rw [(pitched_cls c hv).1] at h1; cases h1
  unfold kindOf
  simp only [hd, ht, sequential_eq, hp, isA_node, Node.Tree.children]
  by_cases hc : isSub 5 c .Chord = true
  · rw [if_pos hc, if_pos hc]
    rw [chord_cls, decide_eq_true_iff] at hc
    subst hc
    have := notes_like h rfl
    simp only [Node.Tree.children] at this
    rw [this]
  rw [if_neg hc, if_neg hc]
  by_cases hs : isSub 5 c .Skip = true
  · rw [if_pos hs, if_pos hs, ha]
    rfl
  rw [if_neg hs, if_neg hs]
  split
  · rfl
  split
  · rfl
  by_cases hm : isSub 5 c .Music = true
  · simp only [hm, if_true]
    rfl
  · by_cases h2 : isSub 5 c .Reference = true
    · simp [hm, h2, hr (by simpa using hm) h2]
    · simp [hm, h2]

theorem kind_nonneg {c : Cls} {v : Val} {cs ds : List Nd} (h : Like (some c) cs ds) (p : Option Cls) (before : List Nd)
    (hb : ND (previousDuration before)) (hf : ∀ t, transform (.node (c, v) cs) = .ok (some t) → 0 ≤ t.scale) (k : Kind)
    (hk : kindOf p before (.node (c, v) cs) = .ok k) : NN k := by
  have hd : ND (getDuration before (.node (c, v) cs)) := by
    unfold getDuration
    cases hw : durationScaling (.node (c, v) cs) with
    | none => exact hb
    | some d => exact written_nonneg h d hw
  unfold kindOf at hk
  simp only at hk
  split at hk
  · cases hk; exact hd
  split at hk
  · simp only [Except.ok.injEq] at hk
    rw [← hk]
    split
    · exact hd
    · trivial
  split at hk
  · cases hk; exact hd
  split at hk
  · cases hk; trivial
  split at hk
  · cases ht : transform (.node (c, v) cs) with
    | error e => rw [ht] at hk; cases hk
    | ok t =>
      rw [ht] at hk
      cases hk
      cases t with
      | none => trivial
      | some t => exact hf t ht
  split at hk
  · cases hk; trivial
  · cases hk; trivial

theorem kind_music {p : Option Cls} {before : List Nd} {n : Nd} {k : Kind} (h : kindOf p before n = .ok k) (hm : isA .Music n = true) :
    k.isMusic = true := by
  unfold kindOf at h
  simp only at h
  split at h
  · cases h; rfl
  split at h
  · simp only [Except.ok.injEq] at h
    rw [← h]
    split <;> rfl
  split at h
  · cases h; rfl
  split at h
  · cases h; rfl
  cases ht : transform n with
  | error e => rw [ht] at h; cases h
  | ok t => rw [ht] at h; cases h; rfl

/-! ## The whole -/

theorem toMusL_app (p : Option Cls) (xs ys : List Nd) : ∀ before : List Nd,
    toMusL p before (xs ++ ys) = (match toMusL p before xs with
      | .error e => .error e
      | .ok ms => match toMusL p (revL xs ++ before) ys with
        | .error e => .error e
        | .ok ns => .ok (ms ++ ns)) := by
  induction xs with
  | nil =>
    intro before
    simp only [List.nil_append, toMusL, revL]
    cases toMusL p before ys <;> rfl
  | cons x xs ih =>
    intro before
    simp only [List.cons_append, toMusL, ih, revL, List.append_assoc]
    cases toMus p before x with
    | error e => rfl
    | ok m =>
      cases toMusL p (rev x ++ before) xs with
      | error e => rfl
      | ok ms =>
        simp only
        cases toMusL p (revL xs ++ (rev x ++ before)) ys <;> rfl

/-- Nodes that take no time, in front of others. -/
theorem silents (xs : List Nd) (h : ∀ x ∈ xs, Silent x) (p : Option Cls) (before : List Nd) :
    (∃ ms, toMusL p before xs = .ok ms ∧ ∀ m ∈ ms, Zero m) ∧ previousDuration (revL xs ++ before) = previousDuration before := by
  obtain ⟨⟨ms, h1, h2⟩, h3⟩ := silentL_ok xs h p before
  refine ⟨⟨ms, h1, ?_⟩, h3⟩
  intro m hm rem tr
  have h4 : Time.length rem tr m ∈ (xs.map fun _ => (0 : ℚ)).map .ok := by
    rw [← h2 rem tr]
    exact List.mem_map_of_mem hm
  simp only [List.map_map, List.mem_map, Function.comp] at h4
  obtain ⟨_, _, h5⟩ := h4
  exact h5.symm

theorem previous_node {l l' : Cls × Val} {cs ds : List Nd} (h : Like (some l.1) cs ds) (hl : l'.1 = l.1) (before before' : List Nd)
    (hb : previousDuration (revL ds ++ before') = previousDuration (revL cs ++ before)) (hn : ND (previousDuration (revL cs ++ before))) :
    previousDuration (rev (.node l' ds) ++ before') = previousDuration (rev (.node l cs) ++ before) ∧
      ND (previousDuration (rev (.node l cs) ++ before)) := by
  simp only [rev, List.cons_append, previousDuration, durationScaling_like (l := l) (l' := l') h, hb]
  have : setsPrevious (.node l' ds) = setsPrevious (.node l cs) := by
    simp only [setsPrevious, isA, Node.Tree.val, hl]
  rw [this]
  refine ⟨rfl, ?_⟩
  split
  · cases hw : durationScaling (.node l cs) with
    | none => exact hn
    | some d => exact written_nonneg h d hw
  · exact hn

/-- A silent node that is not music. -/
theorem silent_other {y : Nd} (h : Silent y) (hm : isA .Music y = false) (hr : isA .Reference y = false) (p : Option Cls) (before : List Nd) :
    ∃ m, toMus p before y = .ok m ∧ m.kind = .other := by
  obtain ⟨⟨m, h1, h2⟩, -⟩ := silent_ok y h p before
  refine ⟨m, h1, ?_⟩
  have hk : kindOf p before y = .ok .other := by
    have hc : isA .Chord y = false ∧ isA .Skip y = false ∧ isA .Durable y = false ∧ isA .AfterGrace y = false := by
      cases h with
      | mk c v cs hc _ => 
        obtain ⟨a, b, c, d, -⟩ := silent_cls c hc
        exact ⟨a, b, c, d⟩
      | markup v cs _ => simp only [isA_node]; decide +kernel
    unfold kindOf
    simp [hc, hm, hr]
  obtain ⟨l, cs⟩ := y
  rw [toMus, hk] at h1
  simp only at h1
  split at h1
  · cases h1
  · cases h1; rfl

/-- Nodes of a document that is the same but for pitches. -/
theorem like_main {p : Option Cls} {ts us : List Nd} (h : Like p ts us) : ∀ (p' : Option Cls) (before before' : List Nd), sim p' = sim p →
    previousDuration before' = previousDuration before → ND (previousDuration before) →
    PyRel RL (toMusL p before ts) (toMusL p' before' us) ∧
      previousDuration (revL us ++ before') = previousDuration (revL ts ++ before) ∧ ND (previousDuration (revL ts ++ before)) := by
  have head : ∀ (c : Cls) (v w : Val) (cs ds : List Nd), Like (some c) cs ds → v = w ∨ c ∈ pitched →
      (∀ t, transform (.node (c, v) cs) = .ok (some t) → 0 ≤ t.scale) →
      (∀ (p' : Option Cls) (before before' : List Nd), sim p' = sim (some c) →
        previousDuration before' = previousDuration before → ND (previousDuration before) →
        PyRel RL (toMusL (some c) before cs) (toMusL p' before' ds) ∧
          previousDuration (revL ds ++ before') = previousDuration (revL cs ++ before) ∧ ND (previousDuration (revL cs ++ before))) →
      ∀ (p p' : Option Cls) (before before' : List Nd), sim p' = sim p →
      previousDuration before' = previousDuration before → ND (previousDuration before) →
      PyRel R (toMus p before (.node (c, v) cs)) (toMus p' before' (.node (c, w) ds)) ∧
        previousDuration (rev (.node (c, w) ds) ++ before') = previousDuration (rev (.node (c, v) cs) ++ before) ∧
        ND (previousDuration (rev (.node (c, v) cs) ++ before)) := by
    intro c v w cs ds hcd hv hf ih p p' before before' hp hb hn
    obtain ⟨i1, i2, i3⟩ := ih (some c) before before' rfl hb hn
    refine ⟨?_, previous_node (l := (c, v)) (l' := (c, w)) hcd rfl before before' i2 i3⟩
    rw [toMus, toMus, kind_like hcd hv p p' before before' hp hb]
    cases hk : kindOf p before (.node (c, v) cs) with
    | error e => exact rfl
    | ok k =>
      simp only
      cases h1 : toMusL (some c) before cs <;> cases h2 : toMusL (some c) before' ds <;> rw [h1, h2] at i1
      · exact i1
      · exact i1.elim
      · exact i1.elim
      · exact R_node k (kind_nonneg hcd p before hn hf k hk) i1
  have cons : ∀ (p : Option Cls) (x y : Nd) (ts us : List Nd),
      (∀ (p' : Option Cls) (before before' : List Nd), sim p' = sim p →
        previousDuration before' = previousDuration before → ND (previousDuration before) →
        PyRel R (toMus p before x) (toMus p' before' y) ∧
        previousDuration (rev y ++ before') = previousDuration (rev x ++ before) ∧ ND (previousDuration (rev x ++ before))) →
      (∀ (p' : Option Cls) (before before' : List Nd), sim p' = sim p →
        previousDuration before' = previousDuration before → ND (previousDuration before) →
        PyRel RL (toMusL p before ts) (toMusL p' before' us) ∧
          previousDuration (revL us ++ before') = previousDuration (revL ts ++ before) ∧ ND (previousDuration (revL ts ++ before))) →
      ∀ (p' : Option Cls) (before before' : List Nd), sim p' = sim p →
        previousDuration before' = previousDuration before → ND (previousDuration before) →
        PyRel RL (toMusL p before (x :: ts)) (toMusL p' before' (y :: us)) ∧
          previousDuration (revL (y :: us) ++ before') = previousDuration (revL (x :: ts) ++ before) ∧
          ND (previousDuration (revL (x :: ts) ++ before)) := by
    intro p x y ts us h1 h2 p' before before' hp hb hn
    obtain ⟨a1, a2, a3⟩ := h1 p' before before' hp hb hn
    obtain ⟨b1, b2, b3⟩ := h2 p' (rev x ++ before) (rev y ++ before') hp a2 a3
    refine ⟨?_, by simpa only [revL, List.append_assoc] using b2, by simpa only [revL, List.append_assoc] using b3⟩
    rw [toMusL, toMusL]
    cases e1 : toMus p before x <;> cases e2 : toMus p' before' y <;> rw [e1, e2] at a1
    · exact a1
    · exact a1.elim
    · exact a1.elim
    · simp only
      cases f1 : toMusL p (rev x ++ before) ts <;> cases f2 : toMusL p' (rev y ++ before') us <;> rw [f1, f2] at b1
      · exact b1
      · exact b1.elim
      · exact b1.elim
      · exact RL.keep a1 b1
  induction h with
  | nil p => intro p' before before' _ hb hn; exact ⟨.nil, hb, hn⟩
  | node p l cs ds ts us hf h _ ih1 ih2 =>
    exact cons p _ _ ts us (head l.1 l.2 l.2 cs ds h (.inl rfl) hf.2 ih1 p) ih2
  | pitch p c v w cs ds ts us hpc h _ ih1 ih2 =>
    refine cons p _ _ ts us (head c v w cs ds h (.inr hpc) ?_ ih1 p) ih2
    intro t ht
    obtain ⟨-, a1, a2, a3, a4, a5, -⟩ := pitched_cls c hpc
    rw [transform_none c v cs ⟨a1, a2, a3, a4, a5⟩] at ht
    cases ht
  | left c y ts us hc hs hy _ ih =>
    intro p' before before' hp hb hn
    have hcl := part_cls _ hy
    obtain ⟨m, hm, hk⟩ := silent_other hs hcl.2.2.2.2.2.2.2.2.1 hcl.2.2.2.2.2.2.2.2.2.1 (some c) before
    have hpd := (silent_ok y hs (some c) before).2
    obtain ⟨b1, b2, b3⟩ := ih p' (rev y ++ before) before' hp (hb.trans hpd.symm) (hpd ▸ hn)
    refine ⟨?_, by simpa only [revL, List.append_assoc] using b2, by simpa only [revL, List.append_assoc] using b3⟩
    rw [toMusL, hm]
    simp only
    cases f1 : toMusL (some c) (rev y ++ before) ts <;> cases f2 : toMusL p' before' us <;> rw [f1, f2] at b1
    · exact b1
    · exact b1.elim
    · exact b1.elim
    · exact RL.drop hk b1
  | right c y ts us hc hs hy _ ih =>
    intro p' before before' hp hb hn
    have hcl := part_cls _ hy
    obtain ⟨m, hm, hk⟩ := silent_other hs hcl.2.2.2.2.2.2.2.2.1 hcl.2.2.2.2.2.2.2.2.2.1 p' before'
    have hpd := (silent_ok y hs p' before').2
    obtain ⟨b1, b2, b3⟩ := ih p' before (rev y ++ before') hp (hpd.trans hb) hn
    refine ⟨?_, by simpa only [revL, List.append_assoc] using b2, b3⟩
    rw [toMusL, hm]
    simp only
    cases f1 : toMusL (some c) before ts <;> cases f2 : toMusL p' (rev y ++ before') us <;> rw [f1, f2] at b1
    · exact b1
    · exact b1.elim
    · exact b1.elim
    · exact RL.add hk b1
  | check p v cs ts us _ hs _ ih =>
    intro p' before before' hp hb hn
    have hs' : Silent (.node (.OctaveCheck, v) cs) := .mk _ _ _ (by decide) hs
    obtain ⟨m, hm, hk⟩ := silent_other hs' check_cls.2.2.2.2.2.2.2.2.1 check_cls.2.2.2.2.2.2.2.2.2.1 p before
    have hpd := (silent_ok _ hs' p before).2
    obtain ⟨b1, b2, b3⟩ := ih p' (rev (.node (.OctaveCheck, v) cs) ++ before) before' hp (hb.trans hpd.symm) (hpd ▸ hn)
    refine ⟨?_, by simpa only [revL, List.append_assoc] using b2, by simpa only [revL, List.append_assoc] using b3⟩
    rw [toMusL, hm]
    simp only
    cases f1 : toMusL p (rev (.node (.OctaveCheck, v) cs) ++ before) ts <;> cases f2 : toMusL p' before' us <;> rw [f1, f2] at b1
    · exact b1
    · exact b1.elim
    · exact b1.elim
    · exact RL.drop hk b1
  | relative p v pre x post y ts us hsim _ hz hx _ hxy _ ihx ih =>
    refine cons p _ _ ts us ?_ ih
    intro p' before before' hp hb hn
    have hsp : sim p' = sim (some .Relative) := by
      rw [hp]
      cases p with
      | none => exact (show false = isSub 5 .Relative .Simultaneous by decide +kernel)
      | some c =>
        simp only [sim, simultaneous_cls]
        have : c ≠ .Simultaneous := fun e => hsim (by rw [e])
        rw [decide_eq_false this]
        decide
    obtain ⟨⟨zs, hzs, zero⟩, hpd⟩ := silents pre (fun z h => (hz z (by simp [h])).1) (some .Relative) before
    obtain ⟨b1, b2, b3⟩ := ihx p' (revL pre ++ before) before' hsp (hb.trans hpd.symm) (hpd ▸ hn)
    simp only [revL, List.nil_append] at b2 b3
    obtain ⟨⟨zs2, hzs2, zero2⟩, hpd2⟩ := silents post (fun z h => (hz z (by simp [h])).1) (some .Relative) (rev x ++ (revL pre ++ before))
    have hpr : previousDuration (rev (.node (.Relative, v) (pre ++ x :: post)) ++ before) = previousDuration (rev x ++ (revL pre ++ before)) := by
      rw [previous_rev .Relative v _ before (.inl (by decide +kernel)), revL_append, revL, List.append_assoc, List.append_assoc, hpd2]
    refine ⟨?_, by rw [b2, hpr], by rw [hpr]; exact b3⟩
    have hk : kindOf p before (.node (.Relative, v) (pre ++ x :: post)) = .ok (.music false none) := by
      rw [kindOf_music p before .Relative v _ none (by decide +kernel) (transform_none _ _ _ (by decide +kernel)),
        isSequential_false _ _ _ _ (by decide +kernel)]
    rw [toMus, hk, toMusL_app, hzs]
    simp only [toMusL] at b1 ⊢
    cases e1 : toMus (some .Relative) (revL pre ++ before) x <;> cases e2 : toMus p' before' y <;> rw [e1, e2] at b1
    · exact b1
    · exact b1.elim
    · exact b1.elim
    · rename_i m m'
      simp only [hzs2]
      have hmu : m.kind.isMusic = true := by
        obtain ⟨lx, cx⟩ := x
        rw [toMus] at e1
        cases hkx : kindOf (some .Relative) (revL pre ++ before) (.node lx cx) with
        | error e => rw [hkx] at e1; cases e1
        | ok k =>
          rw [hkx] at e1
          simp only at e1
          split at e1
          · cases e1
          · cases e1
            exact kind_music hkx hx
      have hr : R m m' := by
        have b1 : RL [m] [m'] := b1
        cases b1 with
        | keep h _ => exact h
        | drop h _ => rw [h] at hmu; cases hmu
        | add _ h =>
          cases h with
          | drop h _ => rw [h] at hmu; cases hmu
      exact R_hoist zs zs2 zero zero2 hmu hr

end Quickly.PitchTime
