import Verif.RhythmTime.Time
import Verif.Length.Lemmas

/-! # Nodes with other Durations, and the music they are -/

namespace Quickly.RhythmTime

open Quickly.Node Quickly.Signature Quickly.Length Quickly.Length.Spec Spec
open Quickly.Duration (Transform)
open Quickly.Time (Mus Kind Remote)

variable {T : Transform → Prop} {E : D → D → Prop}

/-! ## Classes -/

theorem sounding_cls : ∀ c : Cls, (isSub 5 c .Durable && !isSub 5 c .Skip) = decide (c ∈ sounding) := by
  intro c; cases c <;> decide +kernel

theorem timed_cls : ∀ c : Cls, isSub 5 c .HandleDuration = decide (c ∈ timed) := by
  intro c; cases c <;> decide +kernel

theorem skip_cls : ∀ c : Cls, isSub 5 c .Skip = decide (c = .Skip) := by
  intro c; cases c <;> decide +kernel

theorem note_cls : ∀ c : Cls, isSub 5 c .Note = decide (c = .Note) := by
  intro c; cases c <;> decide +kernel

theorem assignment_cls : ∀ c : Cls, isSub 5 c .Assignment = decide (c = .Assignment) := by
  intro c; cases c <;> decide +kernel

theorem durable_timed : ∀ c : Cls, isSub 5 c .Durable = true → c ∈ timed := by
  intro c; cases c <;> decide +kernel

theorem chord_sounding : ∀ c : Cls, isSub 5 c .Chord = true → c ∈ sounding := by
  intro c; cases c <;> decide +kernel

theorem duration_cls : isSub 5 .Duration .Chord = false ∧ isSub 5 .Duration .Skip = false ∧
    isSub 5 .Duration .Durable = false ∧ isSub 5 .Duration .AfterGrace = false ∧ isSub 5 .Duration .Music = false ∧
    isSub 5 .Duration .Reference = false ∧ isSub 5 .Duration .Fraction = false ∧ isSub 5 .Duration .Int = false ∧
    isSub 5 .Duration .Float = false ∧ isSub 5 .Duration .Scheme = false ∧ isSub 5 .Duration .HandleDuration = false := by
  decide +kernel

/-- What is in a Duration. -/
def inDuration : List Cls := .DurationScaling :: comments

theorem inDuration_cls : ∀ c ∈ inDuration, isSub 5 c .Chord = false ∧ isSub 5 c .Skip = false ∧
    isSub 5 c .Durable = false ∧ isSub 5 c .AfterGrace = false ∧ isSub 5 c .Music = false ∧
    isSub 5 c .Reference = false ∧ isSub 5 c .Note = false ∧ isSub 5 c .HandleDuration = false := by
  decide +kernel

theorem sets_iff (n : Nd) : setsPrevious n = decide (n.val.1 ∈ sounding) := sounding_cls n.val.1

theorem handle_iff (n : Nd) : isA .HandleDuration n = decide (n.val.1 ∈ timed) := timed_cls n.val.1

theorem isA_duration (n : Nd) : isA .Duration n = decide (n.val.1 = .Duration) := isSub_duration n.val.1

theorem find_durs (n : Nd) : n.children.find? (isA .Duration) = (durs n).head? := by
  have : (isA .Duration) = fun c : Nd => decide (c.val.1 = .Duration) := funext isA_duration
  rw [durs, this, List.head?_filter]

/-! ## Exceptions -/

/-- The exception that the class of a node raises. -/
def kindErr (n : Nd) : Option PyErr :=
  if isA .Chord n || isA .Skip n || isA .Durable n || isA .AfterGrace n || !isA .Music n then none
  else
    match Length.transform n with
    | .error e => some e
    | .ok _ => none

mutual
/-- The exception that `toMus` raises. -/
def err : Nd → Option PyErr
  | .node l cs => (kindErr (.node l cs)).or (errL cs)
/-- The same for a list. -/
def errL : List Nd → Option PyErr
  | [] => none
  | c :: cs => (err c).or (errL cs)
end

theorem kindOf_err (parent : Option Cls) (before : List Nd) (n : Nd) :
    match kindErr n with
    | some e => kindOf parent before n = .error e
    | none => ∃ k, kindOf parent before n = .ok k := by
  simp only [kindErr, kindOf]
  split
  · rename_i h
    split at h <;> simp_all
    split at h <;> simp_all [Except.map]
  · rename_i h
    split
    · exact ⟨_, rfl⟩
    · split
      · exact ⟨_, rfl⟩
      · split
        · exact ⟨_, rfl⟩
        · split
          · exact ⟨_, rfl⟩
          · split
            · split at h
              · simp_all
              · split at h
                · cases h
                · rename_i hx
                  rw [hx]
                  exact ⟨_, rfl⟩
            · split <;> exact ⟨_, rfl⟩

mutual
theorem toMus_err : ∀ (t : Nd) (parent : Option Cls) (before : List Nd),
    match err t with
    | some e => toMus parent before t = .error e
    | none => ∃ m, toMus parent before t = .ok m
  | .node l cs, parent, before => by
    have h1 := kindOf_err parent before (.node l cs)
    have h2 := toMusL_err cs (some l.1) before
    simp only [err, toMus]
    cases hk : kindErr (.node l cs) with
    | some e =>
      rw [hk] at h1
      simp only [Option.some_or] at h1 ⊢
      simp only [h1]
    | none =>
      rw [hk] at h1
      obtain ⟨k, h1⟩ := h1
      simp only [Option.none_or, h1]
      cases he : errL cs with
      | some e => rw [he] at h2; simp only at h2 ⊢; simp only [h2]
      | none => rw [he] at h2; obtain ⟨ms, h2⟩ := h2; simp only [h2]; exact ⟨_, rfl⟩
theorem toMusL_err : ∀ (ts : List Nd) (parent : Option Cls) (before : List Nd),
    match errL ts with
    | some e => toMusL parent before ts = .error e
    | none => ∃ ms, toMusL parent before ts = .ok ms
  | [], parent, before => ⟨[], rfl⟩
  | t :: ts, parent, before => by
    have h1 := toMus_err t parent before
    have h2 := toMusL_err ts parent (rev t ++ before)
    simp only [errL, toMusL]
    cases hk : err t with
    | some e =>
      rw [hk] at h1
      simp only [Option.some_or] at h1 ⊢
      simp only [h1]
    | none =>
      rw [hk] at h1
      obtain ⟨k, h1⟩ := h1
      simp only [Option.none_or, h1]
      cases he : errL ts with
      | some e => rw [he] at h2; simp only at h2 ⊢; simp only [h2]
      | none => rw [he] at h2; obtain ⟨ms, h2⟩ := h2; simp only [h2]; exact ⟨_, rfl⟩
end

theorem errL_append (xs ys : List Nd) : errL (xs ++ ys) = (errL xs).or (errL ys) := by
  induction xs with
  | nil => rfl
  | cons x xs ih => simp only [List.cons_append, errL, ih, Option.or_assoc]

theorem toMusL_same {cs cs' : List Nd} (h : errL cs' = errL cs) (parent : Option Cls) (before before' : List Nd) :
    PyRel (fun _ _ => True) (toMusL parent before cs) (toMusL parent before' cs') := by
  have h1 := toMusL_err cs parent before
  have h2 := toMusL_err cs' parent before'
  rw [h] at h2
  cases he : errL cs with
  | some e => rw [he] at h1 h2; simp only at h1 h2; rw [h1, h2]; exact rfl
  | none => rw [he] at h1 h2; obtain ⟨a, h1⟩ := h1; obtain ⟨b, h2⟩ := h2; rw [h1, h2]; exact trivial

/-! ## Durations -/

/-- A Duration with scalings and comments. -/
def DurTree (d : Nd) : Prop := d.val.1 = .Duration ∧ ∀ x ∈ d.children, x.val.1 ∈ inDuration ∧ x.children = []

theorem leaf_ok (x : Nd) (h : x.val.1 ∈ inDuration ∧ x.children = []) : err x = none ∧
    ∀ before, previousDuration (rev x ++ before) = previousDuration before := by
  obtain ⟨⟨c, v⟩, cs⟩ := x
  obtain ⟨h1, h2⟩ := h
  simp only [Node.Tree.val, Node.Tree.children] at h1 h2
  subst h2
  obtain ⟨a1, a2, a3, a4, a5, a6, -⟩ := inDuration_cls c h1
  constructor
  · simp [err, errL, kindErr, isA_node, a5]
  · intro before
    rw [previous_rev c v [] before (.inl a3)]
    rfl

theorem leaves_ok (xs : List Nd) (h : ∀ x ∈ xs, x.val.1 ∈ inDuration ∧ x.children = []) : errL xs = none ∧
    ∀ before, previousDuration (revL xs ++ before) = previousDuration before := by
  induction xs with
  | nil => exact ⟨rfl, fun _ => rfl⟩
  | cons x xs ih =>
    obtain ⟨h1, h2⟩ := leaf_ok x (h x (by simp))
    obtain ⟨h3, h4⟩ := ih fun y hy => h y (by simp [hy])
    refine ⟨by simp [errL, h1, h3], ?_⟩
    intro before
    rw [revL, List.append_assoc, h4, h2]

theorem durTree_ok (d : Nd) (h : DurTree d) : err d = none ∧
    (∀ before, previousDuration (rev d ++ before) = previousDuration before) ∧ d.children.any (isA .Note) = false := by
  obtain ⟨⟨c, v⟩, cs⟩ := d
  obtain ⟨h1, h2⟩ := h
  change c = .Duration at h1
  change ∀ x ∈ cs, _ at h2
  subst h1
  obtain ⟨h3, h4⟩ := leaves_ok cs h2
  refine ⟨?_, ?_, ?_⟩
  · simp [err, h3, kindErr, isA_node, duration_cls]
  · intro before
    rw [previous_rev _ v cs before (.inl duration_cls.2.2.1), h4]
  · rw [List.any_eq_false]
    intro x hx
    rw [isA, (inDuration_cls _ (h2 x hx).1).2.2.2.2.2.2.1]
    simp

theorem durTree_toMus (d : Nd) (h : DurTree d) (parent : Option Cls) (before : List Nd) :
    ∃ ms, toMus parent before d = .ok (.node .other ms) := by
  have he := toMus_err d parent before
  rw [(durTree_ok d h).1] at he
  obtain ⟨m, hm⟩ := he
  obtain ⟨⟨c, v⟩, cs⟩ := d
  obtain ⟨h1, h2⟩ := h
  change c = .Duration at h1
  change ∀ x ∈ cs, _ at h2
  subst h1
  have h3 := toMusL_err cs (some .Duration) before
  rw [(leaves_ok cs h2).1] at h3
  obtain ⟨ms, h3⟩ := h3
  refine ⟨ms, toMus_node _ _ _ _ _ _ _ ?_ h3⟩
  simp [kindOf, isA_node, duration_cls]

theorem fromDuration_tree (d : D) : DurTree (fromDuration d) := by
  refine ⟨rfl, ?_⟩
  intro x hx
  simp only [fromDuration, Node.Tree.children] at hx
  split at hx
  · cases hx
  · simp only [List.mem_singleton] at hx
    subst hx
    exact ⟨by simp [inDuration, Node.Tree.val], rfl⟩

theorem fromDuration_value (d : D) : durationOf (fromDuration d) = d := by
  obtain ⟨q, s⟩ := d
  have : isA .DurationScaling (.node (.DurationScaling, .value s) []) = true := by rw [isA_node]; decide +kernel
  by_cases h : s = 1
  · subst h
    simp [fromDuration, durationOf, headValue, Node.Tree.val, Node.Tree.children]
  · simp [fromDuration, h, durationOf, headValue, Node.Tree.val, Node.Tree.children, List.filter, this]

/-! ## Nodes that stay the same but for Durations -/

/-- The nodes have the same class and head, but for the value of a Duration. -/
def ValRel (x x' : Nd) : Prop := x'.val = x.val ∨ (x.val.1 = .Duration ∧ x'.val.1 = .Duration)

theorem ValRel.cls {x x' : Nd} (h : ValRel x x') : x'.val.1 = x.val.1 := by
  rcases h with h | ⟨h1, h2⟩
  · rw [h]
  · rw [h1, h2]

theorem ValRel.isA {x x' : Nd} (h : ValRel x x') (c : Cls) : isA c x' = isA c x := by
  simp only [Length.isA, h.cls]

theorem ValRel.refl (x : Nd) : ValRel x x := .inl rfl

theorem valRel_any (c : Cls) {cs cs' : List Nd} (h : List.Forall₂ ValRel cs cs') :
    cs'.any (isA c) = cs.any (isA c) := by
  induction h with
  | nil => rfl
  | cons h _ ih => simp only [List.any_cons, ih, h.isA]

theorem valRel_fraction {cs cs' : List Nd} (h : List.Forall₂ ValRel cs cs') :
    (cs'.find? (isA .Fraction)).map Length.fraction = (cs.find? (isA .Fraction)).map Length.fraction := by
  induction h with
  | nil => rfl
  | @cons x x' _ _ h _ ih =>
    by_cases hx : isA .Fraction x = true
    · rw [List.find?_cons_of_pos hx, List.find?_cons_of_pos (by rw [h.isA]; exact hx)]
      rcases h with h | ⟨h1, h2⟩
      · simp only [Option.map_some, Length.fraction, h]
      · rw [isA, h1, duration_cls.2.2.2.2.2.2.1] at hx
        cases hx
    · rw [List.find?_cons_of_neg hx, List.find?_cons_of_neg (by rw [h.isA]; exact hx), ih]

theorem valRel_num {x x' : Nd} (h : ValRel x x') : getNumValue x' = getNumValue x := by
  rcases h with h | ⟨h1, h2⟩
  · unfold getNumValue isA Length.fraction
    rw [h]
  · simp [getNumValue, isA, h1, h2, duration_cls]

theorem valRel_int {x x' : Nd} (h : ValRel x x') : getIntValue x' = getIntValue x := by
  rcases h with h | ⟨h1, h2⟩
  · unfold getIntValue isA
    rw [h]
  · simp [getIntValue, isA, h1, h2, duration_cls]

theorem valRel_firstNum {cs cs' : List Nd} (h : List.Forall₂ ValRel cs cs') : firstNum cs' = firstNum cs := by
  induction h with
  | nil => rfl
  | cons h _ ih => simp only [firstNum, valRel_num h, ih]

theorem valRel_ints {cs cs' : List Nd} (h : List.Forall₂ ValRel cs cs') :
    cs'.filterMap getIntValue = cs.filterMap getIntValue := by
  induction h with
  | nil => rfl
  | cons h _ ih => simp only [List.filterMap_cons, valRel_int h, ih]

theorem transform_same (l : Cls × Val) {cs cs' : List Nd} (h : List.Forall₂ ValRel cs cs') :
    Length.transform (.node l cs') = Length.transform (.node l cs) := by
  have hf := valRel_fraction h
  have e : ∀ c, isA c (.node l cs') = isA c (.node l cs) := fun _ => rfl
  simp only [Length.transform, Node.Tree.children, e, valRel_firstNum h, valRel_ints h]
  cases h1 : cs.find? (isA .Fraction) with
  | none =>
    rw [h1] at hf
    simp only [Option.map_none, Option.map_eq_none_iff] at hf
    simp only [hf]
  | some f =>
    rw [h1] at hf
    simp only [Option.map_some, Option.map_eq_some_iff] at hf
    obtain ⟨f', h2, h3⟩ := hf
    simp only [h2, h3]

theorem kindErr_same (l : Cls × Val) {cs cs' : List Nd} (h : List.Forall₂ ValRel cs cs') :
    kindErr (.node l cs') = kindErr (.node l cs) := by
  have e : ∀ c, isA c (.node l cs') = isA c (.node l cs) := fun _ => rfl
  simp only [kindErr, e, transform_same l h]

theorem kindErr_durable (l : Cls × Val) (cs cs' : List Nd) (h : isA .Durable (.node l cs) = true) :
    kindErr (.node l cs') = kindErr (.node l cs) := by
  have e : ∀ c, isA c (.node l cs') = isA c (.node l cs) := fun _ => rfl
  simp [kindErr, e, h]

/-! ## Nodes whose durations are related -/

/-- With the current durations before them, the nodes are related; `q` and `q'` are the current durations after them. -/
def Good (T : Transform → Prop) (E : D → D → Prop) (p p' : D) (t t' : Nd) (q q' : D) : Prop :=
  ValRel t t' ∧ ∀ (parent : Option Cls) (before before' : List Nd), previousDuration before = p →
    previousDuration before' = p' → PyRel (musRel T E) (toMus parent before t) (toMus parent before' t') ∧
      previousDuration (rev t ++ before) = q ∧ previousDuration (rev t' ++ before') = q'

/-- The transforms of a node keep the condition on transforms. -/
def TOk (T : Transform → Prop) (n : Nd) : Prop :=
  ∀ t, Length.transform n = .ok (some t) → ∀ tr, T tr → T (if t.bool then tr.add t else tr)

/-- The same for lists of nodes. -/
inductive GoodL (T : Transform → Prop) (E : D → D → Prop) : D → D → List Nd → List Nd → D → D → Prop
  | nil (p p' : D) : GoodL T E p p' [] [] p p'
  /-- a Duration or a durable -/
  | leaf (p p' r r' q q' : D) (t t' : Nd) (ts ts' : List Nd) : t.val.1 ∈ .Duration :: sounding →
      Good T E p p' t t' r r' → GoodL T E r r' ts ts' q q' → GoodL T E p p' (t :: ts) (t' :: ts') q q'
  /-- another node -/
  | pass (p p' r r' q q' : D) (l : Cls × Val) (cs cs' ts ts' : List Nd) : l.1 ∉ .Duration :: sounding →
      TOk T (.node l cs) → GoodL T E p p' cs cs' r r' →
      (l.1 = .Skip → ∀ d d', durationScaling (.node l cs) = some d → durationScaling (.node l cs') = some d' → E d d') →
      GoodL T E r r' ts ts' q q' → GoodL T E p p' (.node l cs :: ts) (.node l cs' :: ts') q q'

theorem GoodL.vals {p p' q q' : D} {ts ts' : List Nd} (h : GoodL T E p p' ts ts' q q') : List.Forall₂ ValRel ts ts' := by
  induction h with
  | nil => exact .nil
  | leaf _ _ _ _ _ _ _ _ _ _ _ h _ ih => exact .cons h.1 ih
  | pass _ _ _ _ _ _ _ _ _ _ _ _ _ _ _ _ _ ih => exact .cons (.inl rfl) ih

/-- What `GoodL` says about the music. -/
def MusL (T : Transform → Prop) (E : D → D → Prop) (p p' : D) (ts ts' : List Nd) (q q' : D) : Prop :=
  ∀ (parent : Option Cls) (before before' : List Nd), previousDuration before = p → previousDuration before' = p' →
    PyRel (musRelL T E) (toMusL parent before ts) (toMusL parent before' ts') ∧
      previousDuration (revL ts ++ before) = q ∧ previousDuration (revL ts' ++ before') = q'

theorem musL_cons {p p' r r' q q' : D} {t t' : Nd} {ts ts' : List Nd} (h : Good T E p p' t t' r r')
    (ih : MusL T E r r' ts ts' q q') : MusL T E p p' (t :: ts) (t' :: ts') q q' := by
  intro parent before before' h1 h2
  obtain ⟨h3, h4, h5⟩ := h.2 parent before before' h1 h2
  obtain ⟨h6, h7, h8⟩ := ih parent _ _ h4 h5
  refine ⟨?_, ?_, ?_⟩
  · simp only [toMusL]
    revert h3
    cases toMus parent before t with
    | error e =>
      cases toMus parent before' t' with
      | error f => exact id
      | ok b => exact False.elim
    | ok a =>
      cases toMus parent before' t' with
      | error f => exact False.elim
      | ok b =>
        intro h3
        revert h6
        simp only
        cases toMusL parent (rev t ++ before) ts with
        | error e =>
          cases toMusL parent (rev t' ++ before') ts' with
          | error f => exact id
          | ok b => exact False.elim
        | ok as =>
          cases toMusL parent (rev t' ++ before') ts' with
          | error f => exact False.elim
          | ok bs => exact fun h6 => ⟨h3, h6⟩
  · rw [revL, List.append_assoc]; exact h7
  · rw [revL, List.append_assoc]; exact h8

/-- The kind of a node that does not set the duration of the next one. -/
theorem pass_kind (l : Cls × Val) {cs cs' : List Nd} (hs : setsPrevious (.node l cs) = false)
    (hT : TOk T (.node l cs)) (hv : List.Forall₂ ValRel cs cs')
    (hskip : isA .Skip (.node l cs) = true → ∀ d d', durationScaling (.node l cs) = some d →
      durationScaling (.node l cs') = some d' → E d d') (parent : Option Cls) (before before' : List Nd) :
    PyRel (fun k k' => kindRel E k k' ∧ (∀ tr, T tr → T (Time.enter tr k)) ∧
        ((isA .Skip (.node l cs) = true → durs (.node l cs) = []) → k' = k))
      (kindOf parent before (.node l cs)) (kindOf parent before' (.node l cs')) := by
  have e : ∀ c, isA c (.node l cs') = isA c (.node l cs) := fun _ => rfl
  have hsd : isSub 5 l.1 .Durable = false ∨ isSub 5 l.1 .Skip = true := by
    simp only [setsPrevious, Bool.and_eq_false_iff, Bool.not_eq_false'] at hs
    exact hs
  have hch : isA .Chord (.node l cs) = false := by
    by_contra hc
    rw [Bool.not_eq_false] at hc
    have := chord_sounding l.1 hc
    rw [sets_iff] at hs
    simp only [Node.Tree.val, this, decide_true] at hs
    cases hs
  simp only [kindOf, e, hch, Bool.false_eq_true, if_false]
  by_cases hsk : isA .Skip (.node l cs) = true
  · have hany : (Node.Tree.node l cs').children.any (isA .Duration) = (Node.Tree.node l cs).children.any (isA .Duration) :=
      valRel_any .Duration hv
    simp only [hsk, if_true, hany]
    by_cases ha : (Node.Tree.node l cs).children.any (isA .Duration) = true
    · simp only [ha, if_true]
      have ha' : cs'.any (isA .Duration) = true := by rw [valRel_any .Duration hv]; exact ha
      change cs.any (isA .Duration) = true at ha
      obtain ⟨y, hy⟩ : ∃ y, cs.find? (isA .Duration) = some y := by
        rw [List.any_eq_true] at ha
        obtain ⟨x, hx, hxd⟩ := ha
        cases hf : cs.find? (isA .Duration) with
        | none => rw [List.find?_eq_none] at hf; exact absurd hxd (hf x hx)
        | some y => exact ⟨y, rfl⟩
      have hd : durationScaling (.node l cs) = some (durationOf y) := by simp [durationScaling, Node.Tree.children, hy]
      obtain ⟨d', hd'⟩ : ∃ d', durationScaling (.node l cs') = some d' := by
        rw [List.any_eq_true] at ha'
        obtain ⟨x, hx, hxd⟩ := ha'
        cases hf : cs'.find? (isA .Duration) with
        | none => rw [List.find?_eq_none] at hf; exact absurd hxd (hf x hx)
        | some y => exact ⟨durationOf y, by simp [durationScaling, Node.Tree.children, hf]⟩
      simp only [getDuration, hd, hd', Option.getD_some]
      refine ⟨⟨d'.1, d'.2, rfl, hskip hsk _ d' hd hd'⟩, fun tr htr => htr, fun hn => ?_⟩
      have := find_durs (.node l cs)
      rw [hn trivial] at this
      change cs.find? _ = _ at this
      rw [hy] at this
      cases this
    · simp only [ha]
      exact ⟨rfl, fun tr htr => htr, fun _ => rfl⟩
  · simp only [hsk]
    have hdu : isA .Durable (.node l cs) = false := by
      rcases hsd with hd | hd
      · exact hd
      · exact absurd hd hsk
    simp only [hdu]
    by_cases hag : isA .AfterGrace (.node l cs) = true
    · simp only [hag]
      exact ⟨rfl, fun tr htr => htr, fun _ => rfl⟩
    · simp only [hag]
      by_cases hm : isA .Music (.node l cs) = true
      · have hseq : isSequential parent (.node l cs') = isSequential parent (.node l cs) := rfl
        simp only [hm, transform_same l hv, hseq]
        cases ht : Length.transform (.node l cs) with
        | error x => exact rfl
        | ok t =>
          refine ⟨rfl, fun tr htr => ?_, fun _ => rfl⟩
          cases t with
          | none => exact htr
          | some t => exact hT t ht tr htr
      · simp only [hm]
        by_cases hr : isA .Reference (.node l cs) = true
        · have : headText (.node l cs') = headText (.node l cs) := rfl
          simp only [hr, this]
          exact ⟨rfl, fun tr htr => htr, fun _ => rfl⟩
        · simp only [hr]
          exact ⟨rfl, fun tr htr => htr, fun _ => rfl⟩

/-- A node that does not set the duration of the next one. -/
theorem good_pass {p p' q q' : D} (l : Cls × Val) {cs cs' : List Nd} (hs : setsPrevious (.node l cs) = false)
    (hT : TOk T (.node l cs)) (h : MusL T E p p' cs cs' q q') (hv : List.Forall₂ ValRel cs cs')
    (hskip : isA .Skip (.node l cs) = true → ∀ d d', durationScaling (.node l cs) = some d →
      durationScaling (.node l cs') = some d' → E d d') : Good T E p p' (.node l cs) (.node l cs') q q' := by
  refine ⟨.inl rfl, ?_⟩
  intro parent before before' h1 h2
  obtain ⟨h3, h4, h5⟩ := h (some l.1) before before' h1 h2
  have hsd : isSub 5 l.1 .Durable = false ∨ isSub 5 l.1 .Skip = true := by
    simp only [setsPrevious, Bool.and_eq_false_iff, Bool.not_eq_false'] at hs
    exact hs
  refine ⟨?_, ?_, ?_⟩
  · have hk := pass_kind l hs hT hv hskip parent before before'
    simp only [toMus]
    revert hk
    cases kindOf parent before (.node l cs) with
    | error x =>
      cases kindOf parent before' (.node l cs') with
      | error f => exact id
      | ok b => exact False.elim
    | ok k =>
      cases kindOf parent before' (.node l cs') with
      | error f => exact False.elim
      | ok k' =>
        rintro ⟨hk1, hk2, -⟩
        revert h3
        simp only
        cases toMusL (some l.1) before cs with
        | error x =>
          cases toMusL (some l.1) before' cs' with
          | error f => exact id
          | ok b => exact False.elim
        | ok as =>
          cases toMusL (some l.1) before' cs' with
          | error f => exact False.elim
          | ok bs => exact fun h3 => ⟨hk1, fun _ => ⟨hk2, h3⟩⟩
  · obtain ⟨c, v⟩ := l
    rw [previous_rev c v cs before hsd]
    exact h4
  · obtain ⟨c, v⟩ := l
    rw [previous_rev c v cs' before' hsd]
    exact h5

/-- A node that sets the duration of the next one. -/
theorem good_sound {p p' : D} (l : Cls × Val) {cs cs' : List Nd} (hs : setsPrevious (.node l cs) = true)
    (hE : E ((durationScaling (.node l cs)).getD p) ((durationScaling (.node l cs')).getD p'))
    (hn : (cs'.any fun body => body.children.any (isA .Note)) = cs.any fun body => body.children.any (isA .Note))
    (he : errL cs' = errL cs)
    (hq : durationScaling (.node l cs) = none → ∀ before, previousDuration before = p →
      previousDuration (revL cs ++ before) = p)
    (hq' : durationScaling (.node l cs') = none → ∀ before, previousDuration before = p' →
      previousDuration (revL cs' ++ before) = p') :
    Good T E p p' (.node l cs) (.node l cs') ((durationScaling (.node l cs)).getD p)
      ((durationScaling (.node l cs')).getD p') := by
  refine ⟨.inl rfl, ?_⟩
  intro parent before before' h1 h2
  have hs' : setsPrevious (.node l cs') = true := hs
  refine ⟨?_, ?_, ?_⟩
  · have e : ∀ c, isA c (.node l cs') = isA c (.node l cs) := fun _ => rfl
    have hsd : isA .Durable (.node l cs) = true ∧ isA .Skip (.node l cs) = false := by
      simp only [setsPrevious, Bool.and_eq_true, Bool.not_eq_true'] at hs
      exact hs
    have hms := toMusL_same he (some l.1) before before'
    have hk : ∃ k k', kindOf parent before (.node l cs) = .ok k ∧ kindOf parent before' (.node l cs') = .ok k' ∧
        kindRel E k k' ∧ Closed k := by
      have hn' : ((Node.Tree.node l cs').children.any fun body => body.children.any (isA .Note)) =
        (Node.Tree.node l cs).children.any fun body => body.children.any (isA .Note) := hn
      simp only [kindOf, e, hsd.1, hsd.2, hn', getDuration, h1, h2]
      by_cases hc : isA .Chord (.node l cs) = true
      · simp only [hc]
        exact ⟨_, _, rfl, rfl, ⟨_, _, rfl, hE⟩, trivial⟩
      · simp only [hc]
        exact ⟨_, _, rfl, rfl, ⟨_, _, rfl, hE⟩, trivial⟩
    obtain ⟨k, k', hk1, hk2, hk3, hk4⟩ := hk
    simp only [toMus, hk1, hk2]
    revert hms
    cases toMusL (some l.1) before cs with
    | error x =>
      cases toMusL (some l.1) before' cs' with
      | error f => exact id
      | ok b => exact False.elim
    | ok as =>
      cases toMusL (some l.1) before' cs' with
      | error f => exact False.elim
      | ok bs => exact fun _ => ⟨hk3, fun ho => absurd hk4 ho⟩
  · rw [rev, List.cons_append, previousDuration, if_pos hs]
    cases hd : durationScaling (.node l cs) with
    | none => simpa using hq hd before h1
    | some d => rfl
  · rw [rev, List.cons_append, previousDuration, if_pos hs']
    cases hd : durationScaling (.node l cs') with
    | none => simpa using hq' hd before' h2
    | some d => rfl

/-- A Duration, and another one. -/
theorem good_duration {p p' : D} {d d' : Nd} (h : DurTree d) (h' : DurTree d') : Good T E p p' d d' p p' := by
  refine ⟨.inr ⟨h.1, h'.1⟩, ?_⟩
  intro parent before before' h1 h2
  obtain ⟨ms, hm⟩ := durTree_toMus d h parent before
  obtain ⟨ms', hm'⟩ := durTree_toMus d' h' parent before'
  refine ⟨?_, by rw [(durTree_ok d h).2.1, h1], by rw [(durTree_ok d' h').2.1, h2]⟩
  rw [hm, hm']
  exact ⟨rfl, fun hc => (hc trivial).elim⟩

theorem pass_sets {l : Cls × Val} {cs : List Nd} (h : l.1 ∉ .Duration :: sounding) :
    setsPrevious (.node l cs) = false := by
  simp only [List.mem_cons, not_or] at h
  rw [sets_iff]
  simp [Node.Tree.val, h.2]

theorem GoodL.music {p p' q q' : D} {ts ts' : List Nd} (h : GoodL T E p p' ts ts' q q') : MusL T E p p' ts ts' q q' := by
  induction h with
  | nil p p' => intro parent before before' h1 h2; exact ⟨trivial, h1, h2⟩
  | leaf p p' r r' q q' t t' ts ts' _ h _ ih => exact musL_cons h ih
  | pass p p' r r' q q' l cs cs' ts ts' h1 h2 h3 h4 _ ih1 ih2 =>
    refine musL_cons (good_pass l (pass_sets h1) h2 ih1 h3.vals ?_) ih2
    intro hsk
    rw [isA, skip_cls] at hsk
    exact h4 (of_decide_eq_true hsk)

end Quickly.RhythmTime
