import Verif.Basic
import Verif.Duration.Model

/-!
# Model of `quickly/rhythm.py` and of `previous_duration`/`duration_getter`
(`quickly/dom/lily.py` L3299-3367)

Music is a tree of labelled nodes.  The Duration child of a node is not a node of the tree but the
field `dur`, the value of `duration_scaling`; that it behaves as a variable is C50 (`Verif.Attr`).
Simplifications: durations that are pasted are exact (Fractions or small integers); a node has at
most one Duration child.  A range is given as the interval of the numbers (in document order) of
its nodes.
-/

namespace Quickly.Rhythm

/-- A value of `duration_scaling`: the tuple (duration, scaling). -/
abbrev D := ℚ × ℚ

/-- The types of nodes that are distinguished.
`sounding` stands for Note, Chord, Rest, MultiMeasureRest, PitchedRest, Space, Q, Drum, LyricText
and LyricSkip; `lyricItem` has a Scheme, String, Symbol or Markup child if `visible`; `timed` is
another HandleDuration (Tuplet, Partial, After), `other` is everything else. -/
inductive Kind where
  | sounding | unpitched | skip
  | lyricItem (visible : Bool)
  | tempo | timed | other
deriving DecidableEq, Repr

/-- `isinstance(node, Durable)`, `quickly/dom/lily.py` L194. -/
def Kind.durable : Kind → Bool
  | .sounding | .unpitched | .skip | .lyricItem _ => true
  | .tempo | .timed | .other => false

/-- `duration_required`: L93, L202, L1520 (Unpitched), L1580 (Skip), L1826-1828 (LyricItem). -/
def Kind.required : Kind → Bool
  | .unpitched | .skip => true
  | .lyricItem visible => !visible
  | _ => false

/-- `duration_sets_previous`: L94, L203, L1581 (Skip). -/
def Kind.sets : Kind → Bool
  | .sounding | .unpitched | .lyricItem _ => true
  | _ => false

/-- `isinstance(node, HandleDuration)`, L83. -/
def Kind.handles : Kind → Bool
  | .other => false
  | _ => true

/-- What is known of a node: its identity, type, whether it has an Articulations child, and its
duration and scaling. -/
structure Label where
  id : ℕ
  kind : Kind
  art : Bool
  dur : Option D
deriving DecidableEq, Repr

/-- A node with its children. -/
inductive Mus where
  | node (l : Label) (cs : List Mus)

/-- The label of a node. -/
def Mus.label : Mus → Label
  | .node l _ => l

mutual
/-- A node and its descendants in backward direction: `yield n`, followed by
`n.descendants(reverse=True)`; `quickly/node.py` L471-494 and L553-555. -/
def rev : Mus → List Label
  | .node l cs => l :: revL cs
/-- The nodes of a list, in backward direction. -/
def revL : List Mus → List Label
  | [] => []
  | c :: cs => revL cs ++ rev c
end

/-- `previous_duration(node)`, L3347-3367; `before` is what `node.backward()` yields, see `walk`. -/
def previousDuration : List Label → D
  | [] => (1/4, 1)
  | l :: before =>
    if l.kind.durable && l.kind.sets then
      match l.dur with
      | some d => d
      | none => previousDuration before
    else previousDuration before

/-- The test in `EditRhythm.durables`, `quickly/rhythm.py` L42-50: a `\skip` without a duration
(it has a music argument) is not a durable. -/
def Label.isDurable (l : Label) : Bool :=
  l.kind.durable && !(decide (l.kind = .skip) && l.dur.isNone)

/-- `EditRhythm.may_remove`, L53-75; `right` is the type of the right sibling. -/
def mayRemove (l : Label) (right : Option Kind) : Bool :=
  if l.kind.required then false
  else if l.art then true
  else
    match right with
    | some .unpitched => false
    | some (.lyricItem visible) => !(Kind.lyricItem visible).required
    | _ => true

/-- What is done with one node: from the state, the preceding nodes in backward direction, the
type of the right sibling and the node, to the new state and the new duration. -/
abbrev Proc (σ : Type) := σ → List Label → Option Kind → Label → σ × Option D

mutual
/-- A walk over the nodes in document order, `for n in r.nodes()`; `i` is the number of the node,
`which` tells for which nodes `p` is called.  `before` is what `node.backward()` would yield
(`quickly/node.py` L541-556): the left siblings with their descendants, in backward direction, and
then those of the ancestors. -/
def walk {σ : Type} (p : Proc σ) (which : ℕ → Label → Bool) (st : σ) (i : ℕ)
    (before : List Label) (right : Option Kind) : Mus → σ × ℕ × Mus
  | .node l cs =>
    let (st, dur) := if which i l then p st before right l else (st, l.dur)
    let (st, i, cs) := walkL p which st (i + 1) before cs
    (st, i, .node { l with dur := dur } cs)
/-- The walk over the children of a node. -/
def walkL {σ : Type} (p : Proc σ) (which : ℕ → Label → Bool) (st : σ) (i : ℕ)
    (before : List Label) : List Mus → σ × ℕ × List Mus
  | [] => (st, i, [])
  | c :: cs =>
    let (st, i, c) := walk p which st i before (cs.head?.map (·.label.kind)) c
    let (st, i, cs) := walkL p which st i (rev c ++ before) cs
    (st, i, c :: cs)
end

/-- The durables in the range of the nodes with number `a ≤ i < b`. -/
def inRange (a b : ℕ) (i : ℕ) (l : Label) : Bool := decide (a ≤ i ∧ i < b) && l.isDurable

/-- `EditRhythm.edit_range` (L77-81): `doc` are the children of the root node, the range is
`a ≤ i < b`; gives the last state and the edited music. -/
def edit {σ : Type} (p : Proc σ) (st : σ) (a b : ℕ) (doc : List Mus) : σ × List Mus :=
  let (st, _, doc) := walkL p (inRange a b) st 0 [] doc
  (st, doc)

/-- `Remove.process`, L95-98. -/
def removeProc : Proc Unit := fun st _ right l =>
  (st, if mayRemove l right then none else l.dur)

/-- `RemoveScaling.process`, L103-105. -/
def removeScalingProc : Proc Unit := fun st _ _ l => (st, l.dur.map fun d => (d.1, 1))

/-- `RemoveFractionScaling.process`, L110-114; `int(s) != s`. -/
def removeFractionProc : Proc Unit := fun st _ _ l =>
  (st, l.dur.map fun d => if d.2.den = 1 then d else (d.1, 1))

/-- `RhythmExplicit.process`, L119-127; the state is the value of the Duration node `prev`. -/
def explicitProc : Proc (Option D) := fun prev before _ l =>
  match l.dur with
  | none =>
    let d := match prev with
      | none => previousDuration before
      | some d => d
    (some d, some d)
  | some d => (if l.kind.sets then some d else prev, some d)

/-- `RhythmImplicit.process`, L132-140. -/
def implicitProc : Proc (Option D) := fun prev _ right l =>
  match l.dur with
  | none => (prev, none)
  | some d =>
    if decide (prev = some d) && mayRemove l right then (prev, none)
    else (if l.kind.sets then some d else prev, some d)

/-- `RhythmImplicitPerLine.process`, L152-167; `block` is `find_block()`. -/
def perLineProc (block : ℕ → Option ℕ) : Proc (Option (D × Option ℕ)) := fun prev _ right l =>
  match l.dur with
  | some d =>
    if decide (prev = some (d, block l.id)) && mayRemove l right then (prev, none)
    else (if l.kind.sets then some (d, block l.id) else prev, some d)
  | none =>
    match block l.id, prev with
    | some n, some (d, m) => if m ≠ some n then (some (d, some n), some d) else (prev, none)
    | _, _ => (prev, none)

/-- `CopyRhythm.edit_range` with `explicit=False`, L270; the state is the list in reverse. -/
def copyProc : Proc (List (Option D)) := fun acc _ _ l => (l.dur :: acc, l.dur)

/-- `CopyRhythm.edit_range` with `explicit=True`, L258-269. -/
def copyExplicitProc : Proc (Option D × List D) := fun (prev, acc) before _ l =>
  let d := match l.dur with
    | some d => d
    | none =>
      match prev with
      | some d => d
      | none => previousDuration before
  ((some d, d :: acc), l.dur)

/-- The `n`-th of the durations that are pasted: `itertools.cycle(durations)` or
`iter(durations)`, L296; `none` when there are no more. -/
def nthDuration (durs : List (Option D)) (cycle : Bool) (n : ℕ) : Option (Option D) :=
  if cycle then durs[n % durs.length]? else durs[n]?

/-- The body of the loop of `PasteRhythm.edit_range`, L297-305; the state is the number of the
duration and `prev`.  When there are no more durations, `zip` ends and nothing more is done. -/
def pasteProc (durs : List (Option D)) (cycle : Bool) : Proc (ℕ × Option D) :=
  fun (n, prev) _ right l =>
    match nthDuration durs cycle n with
    | none => ((n, prev), l.dur)
    | some (some d) => ((n + 1, some d), some d)
    | some none =>
      if mayRemove l right then ((n + 1, prev), none)
      else
        match prev with
        | some d => ((n + 1, prev), some d)
        | none => ((n + 1, prev), l.dur)

/-- `remove(music)`, L308. -/
def remove (a b : ℕ) (doc : List Mus) : List Mus := (edit removeProc () a b doc).2
/-- `remove_scaling(music)`, L320. -/
def removeScaling (a b : ℕ) (doc : List Mus) : List Mus := (edit removeScalingProc () a b doc).2
/-- `remove_fraction_scaling(music)`, L325. -/
def removeFraction (a b : ℕ) (doc : List Mus) : List Mus := (edit removeFractionProc () a b doc).2
/-- `explicit(music)`, L331. -/
def explicit (a b : ℕ) (doc : List Mus) : List Mus := (edit explicitProc none a b doc).2
/-- `implicit(music)`, L336. -/
def implicit (a b : ℕ) (doc : List Mus) : List Mus := (edit implicitProc none a b doc).2
/-- `implicit(music, per_line=True)`, L336. -/
def implicitPerLine (block : ℕ → Option ℕ) (a b : ℕ) (doc : List Mus) : List Mus :=
  (edit (perLineProc block) none a b doc).2
/-- `copy(music)`, L388. -/
def copy (a b : ℕ) (doc : List Mus) : List (Option D) := (edit copyProc [] a b doc).1.reverse
/-- `copy(music, explicit=True)`, L388. -/
def copyExplicit (a b : ℕ) (doc : List Mus) : List D :=
  (edit copyExplicitProc (none, []) a b doc).1.2.reverse
/-- `paste(music, durations, cycle)`, L400. -/
def paste (durs : List (Option D)) (cycle : Bool) (a b : ℕ) (doc : List Mus) : List Mus :=
  (edit (pasteProc durs cycle) (0, none) a b doc).2

/-- `RhythmTransform.edit_range`, L220-230; the state is the exception that ended the edit, if
any. -/
def transformProc (t : Duration.Transform) : Proc (Option PyErr) := fun st _ _ l =>
  match st, l.dur with
  | none, some d =>
    match t.transform d.1 d.2 with
    | .error e => (some e, some d)
    | .ok d' =>
      if l.kind = .tempo then (none, some (d'.1, d.2)) -- only `n.duration` is set
      else (none, some d')
  | st, dur => (st, dur)

/-- `transform(music, log, dotcount, scale)`, L366. -/
def transform (t : Duration.Transform) (a b : ℕ) (doc : List Mus) : Option PyErr × List Mus :=
  let (st, _, doc) := walkL (transformProc t)
    (fun i l => decide (a ≤ i ∧ i < b) && l.kind.handles) none 0 [] doc
  (st, doc)

/-! ## `duration_getter`, `quickly/dom/lily.py` L3299-3344 -/

/-- The state of a getter: the identities of the cached durables and their duration. -/
structure Getter where
  durables : List ℕ
  duration : D
deriving Repr

/-- The state of a new getter, L3315-3316 (`duration` is None there, but it is only returned when
a durable is in the cache). -/
def Getter.new : Getter := ⟨[], (1/4, 1)⟩

/-- The loop `for prev in durable < Durable`, L3328-3342. -/
def getterSearch (g : Getter) (new : List ℕ) : List Label → Getter × D
  | [] => (⟨new, (1/4, 1)⟩, (1/4, 1))
  | l :: before =>
    if l.kind.durable && l.kind.sets then
      match l.dur with
      | some d => (⟨new, d⟩, d)
      | none =>
        if l.id ∈ g.durables then ({ g with durables := g.durables ++ new }, g.duration)
        else getterSearch g (l.id :: new) before
    else getterSearch g new before

/-- `get_duration(durable)`, L3318-3342. -/
def Getter.get (g : Getter) (l : Label) (before : List Label) : Getter × D :=
  match l.dur with
  | some d => (g, d)
  | none => if l.id ∈ g.durables then (g, g.duration) else getterSearch g [l.id] before

/-- A history of queries. -/
def Getter.run (g : Getter) : List (Label × List Label) → List D
  | [] => []
  | (l, before) :: qs => (g.get l before).2 :: (g.get l before).1.run qs

mutual
/-- All nodes of the music, each with what its `backward()` yields. -/
def sites (before : List Label) : Mus → List (Label × List Label)
  | .node l cs => (l, before) :: sitesL before cs
/-- All nodes of a list of siblings. -/
def sitesL (before : List Label) : List Mus → List (Label × List Label)
  | [] => []
  | c :: cs => sites before c ++ sitesL (rev c ++ before) cs
end

end Quickly.Rhythm
