import Verif.Basic
import Verif.Add.Model
import Mathlib.Data.Rat.Defs
import Mathlib.Algebra.Order.Ring.Unbundled.Rat

/-!
# Model of the attributes of notes, `quickly/dom/lily.py`

`HandleDuration` (L83-191: `duration`, `scaling`, `duration_scaling`), `Pitchable` (L215-306:
`octave`, `accidental`, `oct_check`) and the parts of `Duration` (L1692-1782) and
`DurationScaling` (L1785-1812) they use.  The attributes are not stored, but are read from and
written to the child nodes, so the state of the model is the list of child nodes.

Simplifications: a child that is not an Octave, Accidental, OctCheck or Duration is only a class
and an identity.  Numbers that are not Fractions (int and float) are their exact rational value;
infinities and NaN (for which `fractions.Fraction()` raises) are left out.
`Fraction.limit_denominator()` of the standard library is a parameter `lim`.
-/

namespace Quickly.Attr

/-- The other classes that occur in a `child_order()`; `lyric` is
`(Scheme, String, Symbol, Markup)`, `text` is `TEXT`, `music` is `MUSIC` (L3497-3500), `unlisted`
is anything else. -/
inductive Kind where
  | restModifier | articulations | comment | chordBody | lyric | text | equalSign | int
  | fraction | music | unlisted
deriving DecidableEq, Repr

/-- The classes of children. -/
inductive Cls where
  | octave | accidental | octCheck | duration
  | kind (k : Kind)
deriving DecidableEq, Repr

/-- The head value of an Accidental, L1631-1640. -/
inductive Acc where
  | cautionary | forced
deriving DecidableEq, Repr

/-- A child of a Duration: a DurationScaling with its head value (L1785), or something else
(a comment). -/
inductive Sub where
  | scaling (q : ℚ)
  | other (id : ℕ)
deriving DecidableEq, Repr

/-- `isinstance(n, DurationScaling)`. -/
def Sub.isScaling : Sub → Bool
  | .scaling _ => true
  | .other _ => false

/-- A child of a note. -/
inductive Child where
  | octave (n : ℤ)
  | accidental (a : Acc)
  | octCheck (n : ℤ)
  | duration (head : ℚ) (subs : List Sub)
  | other (kind : Kind) (id : ℕ)
deriving DecidableEq, Repr

/-- The class of a child. -/
def Child.cls : Child → Cls
  | .octave _ => .octave
  | .accidental _ => .accidental
  | .octCheck _ => .octCheck
  | .duration _ _ => .duration
  | .other k _ => .kind k

/-- `isinstance(child, cls)`. -/
def isa (c : Child) (k : Cls) : Bool := decide (c.cls = k)

/-- The elements that have one of the attributes. -/
inductive Owner where
  | note | pitch | unpitched | rest | pitchedRest | space | skip | q | drum | chord
  | lyricItem | lyricText | lyricSkip | tempo | tuplet | partial_ | after
deriving DecidableEq, Repr

/-- `child_order()`: Chord L1459, Note L1482, Pitch L1514, Unpitched L1522, RestType L1528,
PitchedRest L1550, Space L1558, Skip L1599, Q L1621, Drum L1627, LyricItem L1822, LyricText
L1833, LyricSkip L1854, Tempo L2092, Tuplet L2258; After and Partial have none
(`quickly/dom/element.py` L708-717). -/
def childOrder : Owner → List (List Cls)
  | .chord => [[.kind .chordBody, .duration, .kind .articulations, .kind .comment]]
  | .note => [[.octave, .accidental, .octCheck, .duration, .kind .articulations, .kind .comment]]
  | .pitch => [[.octave, .accidental, .octCheck, .kind .comment]]
  | .unpitched | .rest | .space | .q | .drum => [[.duration, .kind .articulations, .kind .comment]]
  | .pitchedRest => [[.octave, .accidental, .octCheck, .duration, .kind .restModifier,
    .kind .articulations, .kind .comment]]
  | .skip | .lyricText | .lyricSkip => [[.duration, .kind .comment]]
  | .lyricItem => [[.kind .lyric, .duration, .kind .comment]]
  | .tempo => [[.kind .text, .duration, .kind .equalSign, .kind .int]]
  | .tuplet => [[.kind .fraction, .duration, .kind .music]]
  | .partial_ | .after => []

/-- An element with its children. -/
structure Elem where
  owner : Owner
  children : List Child
deriving DecidableEq, Repr

/-- `self.add(node)`, `quickly/dom/element.py` L719-739. -/
def Elem.add (e : Elem) (c : Child) : Elem :=
  { e with children := Add.add isa (childOrder e.owner) e.children c }

/-- A number given to a setter: a Fraction, or another number with that exact value. -/
inductive Num where
  | frac (q : ℚ)
  | num (q : ℚ)
deriving DecidableEq, Repr

/-- The exact value of a number. -/
def Num.val : Num → ℚ
  | .frac q => q
  | .num q => q

variable (lim : ℚ → ℚ)

/-- The conversion of a number to a head value: L113-116, L155-158, and the constructors of
Duration (L1711-1714) and DurationScaling (L1794-1797). -/
def Num.head : Num → ℚ
  | .frac q => q
  | .num q => lim q

/-- The value that a DurationScaling gets; `none` if `value in (1, None)`, which means that there
should be no DurationScaling, L153-159. -/
def newScaling : Option Num → Option ℚ
  | none => none
  | some v => if v.val = 1 then none else some (v.head lim)

/-- The product of the DurationScaling children, L142-146 and L1766-1768. -/
def product : List Sub → ℚ
  | [] => 1
  | .scaling q :: rest => q * product rest
  | .other _ :: rest => product rest

/-- The loop `for s in scaling: d.remove(s)`, L159-160, on the part of the list the iterator has
not visited.  The list is changed while iterating: after the removal of an item the iterator
continues behind the item that took its place, so that one is not visited. -/
def drain : List Sub → List Sub
  | [] => []
  | .other i :: rest => .other i :: drain rest
  | .scaling _ :: [] => []
  | .scaling _ :: y :: rest => y :: drain rest

/-- The children of a Duration before and after the first DurationScaling. -/
def splitScaling : List Sub → Option (List Sub × List Sub)
  | [] => none
  | .scaling _ :: rest => some ([], rest)
  | .other i :: rest => (splitScaling rest).map fun (a, b) => (.other i :: a, b)

/-- The body of the loop `for d in self / Duration` of the `scaling` setter, L150-164, on the
children of `d`.  When the first DurationScaling is removed (L154), the iterator skips the child
that took its place. -/
def setSubs (value : Option ℚ) (subs : List Sub) : List Sub :=
  match splitScaling subs, value with
  | some (a, b), none => a ++ (b.take 1 ++ drain (b.drop 1))
  | some (a, b), some q => a ++ .scaling q :: drain b
  | none, some q => .scaling q :: subs
  | none, none => subs

/-- `duration` getter, L96-106. -/
def getDuration : List Child → Option ℚ
  | [] => none
  | .duration h _ :: _ => some h
  | _ :: rest => getDuration rest

/-- `scaling` getter, L127-146. -/
def getScaling : List Child → Option ℚ
  | [] => none
  | .duration _ s :: _ => some (product s)
  | _ :: rest => getScaling rest

/-- `duration_scaling` getter, L172-180, with `Duration.duration()`, L1759-1769. -/
def getDurationScaling : List Child → Option (ℚ × ℚ)
  | [] => none
  | .duration h s :: _ => some (h, product s)
  | _ :: rest => getDurationScaling rest

/-- `octave` getter, L229-241. -/
def getOctave : List Child → ℤ
  | [] => 0
  | .octave n :: _ => n
  | _ :: rest => getOctave rest

/-- `accidental` getter, L255-265. -/
def getAccidental : List Child → Option Acc
  | [] => none
  | .accidental a :: _ => some a
  | _ :: rest => getAccidental rest

/-- `oct_check` getter, L281-291. -/
def getOctCheck : List Child → Option ℤ
  | [] => none
  | .octCheck n :: _ => some n
  | _ :: rest => getOctCheck rest

/-- Change the first child of a class, or remove it if the result is `none`; the children are
`none` if there is no child of the class. -/
def onFirst (k : Cls) (f : Child → Option Child) : List Child → Option (List Child)
  | [] => none
  | c :: rest =>
    if isa c k then some ((f c).toList ++ rest)
    else (onFirst k f rest).map (c :: ·)

/-- `duration` setter, L108-119.  Setting to `none` only removes the first Duration. -/
def setDuration (value : Option Num) (e : Elem) : Elem :=
  match onFirst .duration (fun c =>
      match value, c with
      | some v, .duration _ s => some (.duration (v.head lim) s)
      | _, _ => none) e.children with
  | some l => { e with children := l }
  | none =>
    match value with
    | none => e
    | some v => e.add (.duration (v.head lim) [])

/-- `duration` deleter, L121-125. -/
def delDuration (e : Elem) : Elem :=
  match onFirst .duration (fun _ => none) e.children with
  | some l => { e with children := l }
  | none => e

/-- `scaling` setter, L148-166. -/
def setScaling (value : Option Num) (e : Elem) : Elem × Option PyErr :=
  match onFirst .duration (fun c =>
      match c with
      | .duration h s => some (.duration h (setSubs (newScaling lim value) s))
      | c => some c) e.children with
  | some l => ({ e with children := l }, none)
  | none => (e, if newScaling lim value = none then none else some .valueError)

/-- `duration_scaling` setter, L182-187. -/
def setDurationScaling (value : Option (Option Num × Option Num)) (e : Elem) :
    Elem × Option PyErr :=
  match value with
  | some (d, s) => setScaling lim s (setDuration lim d e)
  | none => (delDuration e, none)

/-- `octave` setter, L243-249: the Octave child is kept when the octave is set to 0. -/
def setOctave (n : ℤ) (e : Elem) : Elem :=
  match onFirst .octave (fun _ => some (.octave n)) e.children with
  | some l => { e with children := l }
  | none => if n = 0 then e else e.add (.octave n)

/-- `accidental` setter, L266-275. -/
def setAccidental (a : Option Acc) (e : Elem) : Elem :=
  match onFirst .accidental (fun _ => a.map .accidental) e.children with
  | some l => { e with children := l }
  | none =>
    match a with
    | none => e
    | some a => e.add (.accidental a)

/-- `oct_check` setter, L293-302. -/
def setOctCheck (n : Option ℤ) (e : Elem) : Elem :=
  match onFirst .octCheck (fun _ => n.map .octCheck) e.children with
  | some l => { e with children := l }
  | none =>
    match n with
    | none => e
    | some n => e.add (.octCheck n)

/-- `self[:] = self ^ cls` in the deleters, L250-252, L277-279, L304-306. -/
def delAll (k : Cls) (e : Elem) : Elem :=
  { e with children := e.children.filter fun c => !isa c k }

/-- Setting or deleting one of the attributes. -/
inductive Op where
  | setDuration (value : Option Num)
  | delDuration
  | setScaling (value : Option Num)
  | delScaling
  | setDurationScaling (value : Option (Option Num × Option Num))
  | delDurationScaling
  | setOctave (n : ℤ)
  | delOctave
  | setAccidental (a : Option Acc)
  | delAccidental
  | setOctCheck (n : Option ℤ)
  | delOctCheck
deriving DecidableEq, Repr

/-- One operation: the changed element and the exception that is raised, if any.
The `scaling` deleter is L168-170, the `duration_scaling` deleter L189-191. -/
def exec (e : Elem) : Op → Elem × Option PyErr
  | .setDuration v => (setDuration lim v e, none)
  | .delDuration => (delDuration e, none)
  | .setScaling v => setScaling lim v e
  | .delScaling => setScaling lim none e
  | .setDurationScaling v => setDurationScaling lim v e
  | .delDurationScaling => (delDuration e, none)
  | .setOctave n => (setOctave n e, none)
  | .delOctave => (delAll .octave e, none)
  | .setAccidental a => (setAccidental a e, none)
  | .delAccidental => (delAll .accidental e, none)
  | .setOctCheck n => (setOctCheck n e, none)
  | .delOctCheck => (delAll .octCheck e, none)

/-- A history of operations; exceptions are caught by the caller. -/
def run (e : Elem) : List Op → Elem × List (Option PyErr)
  | [] => (e, [])
  | op :: ops =>
    let (e1, err) := exec lim e op
    let (e2, errs) := run e1 ops
    (e2, err :: errs)

end Quickly.Attr
