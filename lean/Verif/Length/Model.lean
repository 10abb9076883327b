import Verif.Signature.Model
import Verif.Time.Model

/-!
# Model of the musical length of LilyPond elements, `quickly/dom/lily.py` and `quickly/time.py`

What the `Time` model (C52) takes as given is computed here from the tree: the duration of a durable, the transform of a
command, and whether music is sequential.

Simplifications: a node is a class and the value of its head.  A Scheme node has the number it contains, if it has one
child that is a `scm.Number` (also `Bool`, which is the number 0 or 1), and else none.  Python floats are exact rational
numbers, there is no infinity.  An exception of `transform()` is raised when the tree is converted, not when the length
is computed.  The name of a reference is the text of its head.  References find the assignments at the toplevel before
it, no include files are followed.
-/

namespace Quickly.Length

open Quickly.Node Quickly.Signature
open Quickly.Time (Mus Kind)
open Quickly.Duration (Transform)

/-- Python numbers: `int`, `float` and `Fraction`. -/
inductive Num where
  | int (n : ℤ)
  | float (q : ℚ)
  | frac (q : ℚ)
deriving DecidableEq, Repr

/-- The value of a number. -/
def Num.rat : Num → ℚ
  | .int n => n
  | .float q => q
  | .frac q => q

/-- The head of a node: a text, the number of an Int or Float, the numbers of a Fraction, the value of a Duration or
DurationScaling, or the number in a Scheme node. -/
inductive Val where
  | text (s : String)
  | num (v : Num)
  | pair (a b : ℤ)
  | value (q : ℚ)
  | scheme (v : Option Num)
deriving DecidableEq, Repr

/-- A node with its children. -/
abbrev Nd := Node.Tree (Cls × Val)

/-- `isinstance(node, cls)`. -/
def isA (c : Cls) (n : Nd) : Bool := isSub 5 n.val.1 c

/-- The head of a Duration or DurationScaling, which is a Fraction (L1713-1716, L1794-1797). -/
def headValue (n : Nd) : ℚ :=
  match n.val.2 with
  | .value q => q
  | _ => 0

/-- A value of `duration_scaling`. -/
abbrev D := ℚ × ℚ

/-- `Duration.duration()`, L1758-1768. -/
def durationOf (d : Nd) : D := (headValue d, ((d.children.filter (isA .DurationScaling)).map headValue).foldl (· * ·) 1)

/-- `HandleDuration.duration_scaling`, L168-176. -/
def durationScaling (n : Nd) : Option D := (n.children.find? (isA .Duration)).map durationOf

/-- `duration_sets_previous`, L94, L203, L1581. -/
def setsPrevious (n : Nd) : Bool := isA .Durable n && !isA .Skip n

mutual
/-- A node and its descendants in backward direction, `quickly/node.py` L541-556. -/
def rev : Nd → List Nd
  | .node l cs => .node l cs :: revL cs
/-- The nodes of a list, in backward direction. -/
def revL : List Nd → List Nd
  | [] => []
  | c :: cs => revL cs ++ rev c
end

/-- `previous_duration(node)`, L3347-3367, which a getter (L3299-3344) finds too, C46; `before` is what
`node.backward()` yields. -/
def previousDuration : List Nd → D
  | [] => (1/4, 1)
  | n :: before =>
    if setsPrevious n then
      match durationScaling n with
      | some d => d
      | none => previousDuration before
    else previousDuration before

/-- What `Time.get_duration(durable)` returns. -/
def getDuration (before : List Nd) (n : Nd) : D := (durationScaling n).getD (previousDuration before)

/-- `Fraction.fraction()`, L624-626. -/
def fraction (n : Nd) : Py ℚ :=
  match n.val.2 with
  | .pair a b => if b = 0 then .error .zeroDivisionError else .ok ((a : ℚ) / b)
  | _ => .error .typeError

/-- `get_num_value(node)`, L3455-3464. -/
def getNumValue (n : Nd) : Py (Option ℚ) :=
  if isA .Int n || isA .Float n then
    match n.val.2 with
    | .num v => .ok (some v.rat)
    | _ => .ok none
  else if isA .Fraction n then (fraction n).map some
  else if isA .Scheme n then
    match n.val.2 with
    | .scheme v => .ok (v.map Num.rat)
    | _ => .ok none
  else .ok none

/-- `v` if it is an `int`, or `int(v)` if it is a `float` that is an integer, L3471, L3476-3480. -/
def Num.toInt? : Num → Option ℤ
  | .int n => some n
  | .float q => if q.den = 1 then some q.num else none
  | .frac _ => none

/-- `get_int_value(node)`, L3467-3480. -/
def getIntValue (n : Nd) : Option ℤ :=
  if isA .Int n || isA .Float n then
    match n.val.2 with
    | .num v => v.toInt?
    | _ => none
  else if isA .Scheme n then
    match n.val.2 with
    | .scheme (some v) => v.toInt?
    | _ => none
  else none

/-- The first number in `filter_map(get_num_value, self)`, L2278. -/
def firstNum : List Nd → Py (Option ℚ)
  | [] => .ok none
  | c :: cs =>
    match getNumValue c with
    | .error e => .error e
    | .ok (some q) => .ok (some q)
    | .ok none => firstNum cs

/-- `transform()`: Times L2235-2238, Tuplet L2253-2256, ScaleDurations L2276-2279, ShiftDurations L2294-2299, Grace
L2314-2316, and no transform for other music, L47-54. -/
def transform (n : Nd) : Py (Option Transform) :=
  if isA .Times n then
    match n.children.find? (isA .Fraction) with
    | none => .ok none
    | some f => (fraction f).map fun q => some { scale := q }
  else if isA .Tuplet n then
    match n.children.find? (isA .Fraction) with
    | none => .ok none
    | some f =>
      match fraction f with
      | .error e => .error e
      | .ok q => if q = 0 then .error .zeroDivisionError else .ok (some { scale := 1 / q })
  else if isA .ScaleDurations n then
    (firstNum n.children).map fun v => v.map fun q => { scale := q }
  else if isA .ShiftDurations n then
    match n.children.filterMap getIntValue with
    | log :: dots :: _ => .ok (some { log := log, dotcount := dots })
    | _ => .ok none
  else if isA .Grace n then .ok (some { scale := 0 })
  else .ok none

/-- `is_sequential()`, L37-45, L1367-1369, L1381-1383. -/
def isSequential (parent : Option Cls) (n : Nd) : Bool :=
  if isA .SimultaneousMusicList n then false
  else if isA .MusicList n then
    match parent with
    | some p => !isSub 5 p .Simultaneous
    | none => true
  else false

/-- The name of a reference, `get_name()` L1099. -/
def headText (n : Nd) : String :=
  match n.val.2 with
  | .text s => s
  | _ => ""

/-- Which of the kinds of the `Time` model a node is; `time_length()` is implemented in Music L69-80, Durable L205-212,
Chord L1446-1457, Skip L1583-1594 and AfterGrace L2364-2374. -/
def kindOf (parent : Option Cls) (before : List Nd) (n : Nd) : Py Kind :=
  let d := getDuration before n
  if isA .Chord n then
    .ok (.chord (n.children.any fun body => body.children.any (isA .Note)) d.1 d.2)
  else if isA .Skip n then
    .ok (if n.children.any (isA .Duration) then .durable d.1 d.2 else .music false none)
  else if isA .Durable n then .ok (.durable d.1 d.2)
  else if isA .AfterGrace n then .ok .afterGrace
  else if isA .Music n then (transform n).map fun t => .music (isSequential parent n) t
  else if isA .Reference n then .ok (.reference (headText n))
  else .ok .other

mutual
/-- The tree for the `Time` model. -/
def toMus (parent : Option Cls) (before : List Nd) : Nd → Py Mus
  | .node l cs =>
    match kindOf parent before (.node l cs) with
    | .error e => .error e
    | .ok k =>
      match toMusL (some l.1) before cs with
      | .error e => .error e
      | .ok ms => .ok (.node k ms)
/-- The same for children; `before` is what comes before the first of them. -/
def toMusL (parent : Option Cls) (before : List Nd) : List Nd → Py (List Mus)
  | [] => .ok []
  | c :: cs =>
    match toMus parent before c with
    | .error e => .error e
    | .ok m =>
      match toMusL parent (rev c ++ before) cs with
      | .error e => .error e
      | .ok ms => .ok (m :: ms)
end

/-- An assignment at the toplevel: the name, what comes before the value, and the value.  The parent of the value is an
Assignment. -/
abbrev Assigned := String × List Nd × Nd

/-- The name of an Assignment, `get_name()` L1008-1011; the name of an Identifier is the text of its head. -/
def assignedName (n : Nd) : Option String := (n.children.find? (isA .Identifier)).map headText

/-- What comes before the value of an Assignment in it, backward, and the value, `get_value()` L1013-1016: the right
sibling of the first EqualSign. -/
def assignedValue (before : List Nd) : List Nd → Option (List Nd × Nd)
  | [] => none
  | c :: cs =>
    if isA .EqualSign c then cs.head?.map fun v => (rev c ++ before, v)
    else assignedValue (rev c ++ before) cs

/-- The assignments that `Lookup.find_assignment()` (L3256-3269, without a scope) finds from the end of a list of nodes at
the toplevel, the last one first; `before` comes before the nodes.  An Assignment without a value is not found. -/
def assignments (before : List Nd) : List Nd → List Assigned
  | [] => []
  | t :: ts =>
    assignments (rev t ++ before) ts ++
      (if isA .Assignment t then
        match assignedName t, assignedValue before t.children with
        | some name, some (b, v) => [(name, b, v)]
        | _, _ => []
      else [])

/-- The assignments for the `Time` model, the last one first. -/
def toEnv : List Assigned → Py Time.Env
  | [] => .ok []
  | (name, before, value) :: env =>
    match toMus (some .Assignment) before value with
    | .error e => .error e
    | .ok m =>
      match toEnv env with
      | .error e => .error e
      | .ok ms => .ok ((name, m) :: ms)

/-- `Time.length(node)`, `quickly/time.py` L176-183, for a node that is not in other music. -/
def timeLength (env : List Assigned) (parent : Option Cls) (before : List Nd) (n : Nd) : Py ℚ :=
  match toEnv env with
  | .error e => .error e
  | .ok e =>
    match toMus parent before n with
    | .error e => .error e
    | .ok m => Time.length (Time.remoteLength e) {} m

end Quickly.Length
