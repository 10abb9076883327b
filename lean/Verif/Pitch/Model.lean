import Verif.Basic
import Mathlib.Data.Rat.Floor

/-!
# Model of `quickly/pitch.py`

Alterations and scale values are rationals (the Python values are ints, floats
that are multiples of 1/4, or Fractions, all exact).  Strings are `List Char`.
-/

namespace Quickly.Pitch

/-- A Python string. -/
abbrev Str := List Char

/-- `Pitch`, `quickly/pitch.py` L70-99: octave, note and alter. -/
structure Pitch where
  octave : ℤ
  note : ℤ
  alter : ℚ
  deriving DecidableEq

/-- `MAJOR_SCALE`, `quickly/pitch.py` L50. -/
def majorScale : List ℚ := [0, 1, 2, 5/2, 7/2, 9/2, 11/2]

/-- `MAJOR_FLATS`, `quickly/pitch.py` L54. -/
def majorFlats : List ℚ := [3/2, 5]

/-- `seq[i]` with Python's negative indices. -/
def pyGet {α : Type} (l : List α) (i : ℤ) : Py α :=
  let j := if i < 0 then i + l.length else i
  if j < 0 then .error .indexError
  else match l[j.toNat]? with
    | some x => .ok x
    | none => .error .indexError

/-! ## Comparison, `quickly/pitch.py` L113-141 -/

/-- `tuple < tuple` for the three attributes (`__lt__` L128-131, `_as_tuple` L113-115): the first
position that differs decides. -/
def Pitch.lt (p q : Pitch) : Bool :=
  if p.octave ≠ q.octave then decide (p.octave < q.octave)
  else if p.note ≠ q.note then decide (p.note < q.note)
  else decide (p.alter < q.alter)

/-- `__eq__`, L117-118. -/
def Pitch.eq (p q : Pitch) : Bool :=
  decide (p.octave = q.octave ∧ p.note = q.note ∧ p.alter = q.alter)

/-- `__ne__`, L120-121. -/
def Pitch.ne (p q : Pitch) : Bool :=
  decide (p.octave ≠ q.octave ∨ p.note ≠ q.note ∨ p.alter ≠ q.alter)

/-- `__gt__`, L123-126, a tuple comparison of its own. -/
def Pitch.gt (p q : Pitch) : Bool :=
  if p.octave ≠ q.octave then decide (q.octave < p.octave)
  else if p.note ≠ q.note then decide (q.note < p.note)
  else decide (q.alter < p.alter)

/-- `__ge__`, L133-136. -/
def Pitch.ge (p q : Pitch) : Bool :=
  if p.octave ≠ q.octave then decide (q.octave < p.octave)
  else if p.note ≠ q.note then decide (q.note < p.note)
  else decide (q.alter ≤ p.alter)

/-- `__le__`, L138-141. -/
def Pitch.le (p q : Pitch) : Bool :=
  if p.octave ≠ q.octave then decide (p.octave < q.octave)
  else if p.note ≠ q.note then decide (p.note < q.note)
  else decide (p.alter ≤ q.alter)

/-- `copy`, L143-145. -/
def Pitch.copy (p : Pitch) : Pitch := ⟨p.octave, p.note, p.alter⟩

/-! ## MIDI -/

/-- `int(x)`: truncation towards zero. -/
def trunc (x : ℚ) : ℤ := if x < 0 then -⌊-x⌋ else ⌊x⌋

/-- `to_midi(scale)`, `quickly/pitch.py` L147-150. -/
def Pitch.toMidi (p : Pitch) (scale : List ℚ) : Py ℤ :=
  match pyGet scale p.note with
  | .ok s => .ok (trunc (((p.octave + 5) * 12 : ℤ) + (s + p.alter) * 2))
  | .error e => .error e

/-- `bisect.bisect_left(scale, x)`: on the sorted scale the number of leading
items below `x` (the library's binary search is not modelled). -/
def bisectLeft (scale : List ℚ) (x : ℚ) : ℤ := ((scale.takeWhile (fun s => decide (s < x))).length : ℤ)

/-- `bisect.bisect_right(scale, x)`, likewise for items not above `x`. -/
def bisectRight (scale : List ℚ) (x : ℚ) : ℤ := ((scale.takeWhile (fun s => decide (s ≤ x))).length : ℤ)

/-- `from_midi(key, scale, flats)`, `quickly/pitch.py` L152-189.  `divmod` by 12
is floor division.  The final `int` conversion of a whole alteration does not
change its value. -/
def fromMidi (key : ℤ) (scale : List ℚ) (flats : List ℚ) : Py Pitch :=
  let octave := key / 12
  let step := key % 12
  let pitch : ℚ := (step : ℚ) / 2
  let note := if pitch ∈ flats then bisectLeft scale pitch else bisectRight scale pitch - 1
  match pyGet scale note with
  | .ok s => .ok ⟨octave - 5, note, pitch - s⟩
  | .error e => .error e

/-! ## Relative pitches -/

/-- `make_absolute(prev_pitch, default_octave, scale)`, `quickly/pitch.py`
L191-199, `l` the length of the scale. -/
def Pitch.makeAbsolute (p prev : Pitch) (defaultOctave : ℤ) (l : ℕ) : Pitch :=
  { p with octave := p.octave + (prev.octave - (p.note - prev.note + 3) / (l : ℤ) - defaultOctave) }

/-- `make_relative(prev_pitch, default_octave, scale)`, `quickly/pitch.py` L201-209. -/
def Pitch.makeRelative (p prev : Pitch) (defaultOctave : ℤ) (l : ℕ) : Pitch :=
  { p with octave := p.octave - (prev.octave - (p.note - prev.note + 3) / (l : ℤ) - defaultOctave) }

/-! ## Octave strings, `quickly/pitch.py` L625-641 -/

/-- `octave_to_string(n)`: a negative repeat count gives the empty string. -/
def octaveToString (n : ℤ) : Str :=
  if n < 0 then List.replicate (-n).toNat ',' else List.replicate n.toNat '\''

/-- `octave_from_string(octave)`. -/
def octaveFromString (s : Str) : ℤ := (s.count '\'' : ℤ) - (s.count ',' : ℤ)

/-! ## Pitch names -/

/-- A language table: `pitch_names[language]`, a dict from name to
`(octave, note, alter)`, in insertion order. -/
abbrev Table := List (Str × (ℤ × ℤ × ℚ))

/-- Dictionary access on the items of a table. -/
def Table.get (t : Table) (name : Str) : Option (ℤ × ℤ × ℚ) :=
  match t with
  | [] => none
  | (n, v) :: t => if n = name then some v else Table.get t name

/-- The inner dict of the reversed table: octave to list of names. -/
abbrev OctaveDict := List (ℤ × List Str)

/-- `d[octave].append(name)` on a `defaultdict(list)`. -/
def OctaveDict.append (d : OctaveDict) (octave : ℤ) (name : Str) : OctaveDict :=
  match d with
  | [] => [(octave, [name])]
  | (o, ns) :: d => if o = octave then (o, ns ++ [name]) :: d
    else (o, ns) :: OctaveDict.append d octave name

/-- A reversed table: (note, alter) to octave dict. -/
abbrev RevTable := List ((ℤ × ℚ) × OctaveDict)

/-- `notes[note, alter][octave].append(name)`, `quickly/pitch.py` L61. -/
def RevTable.add (r : RevTable) (na : ℤ × ℚ) (octave : ℤ) (name : Str) : RevTable :=
  match r with
  | [] => [(na, [(octave, [name])])]
  | (k, d) :: r => if k = na then (k, d.append octave name) :: r
    else (k, d) :: RevTable.add r na octave name

/-- `_make_reverse_pitch_table` for one language, `quickly/pitch.py` L57-64. -/
def reverse (t : Table) : RevTable :=
  t.foldl (fun r item => r.add (item.2.2.1, item.2.2.2) item.2.1 item.1) []

/-- Dictionary access on a reversed table. -/
def RevTable.get (r : RevTable) (na : ℤ × ℚ) : Option OctaveDict :=
  match r with
  | [] => none
  | (k, d) :: r => if k = na then some d else RevTable.get r na

/-- The `prefer_` attributes of a PitchProcessor, `quickly/pitch.py` L221-237. -/
structure Prefs where
  long : Bool := false
  accented : Bool := false
  x : Bool := false
  doubleS : Bool := false
  classic : Bool := true
  deprecated : Bool := false
  deriving DecidableEq

/-- The languages that have a `_suitable` method; every other language is
`other`, for which the dispatcher returns None. -/
inductive Lang
  | nederlands | catalan | deutsch | english | espanol | francais | norsk | suomi | other
  deriving DecidableEq

/-- `sub in name`. -/
def hasSub (sub name : Str) : Bool := (name.tails).any (fun t => sub.isPrefixOf t)

/-- `name.endswith(c)` for one character. -/
def endsWithChar (c : Char) (name : Str) : Bool := name.getLast? == some c

/-- The `_suitable` methods, `quickly/pitch.py` L559-622: the first name that
meets the preference, or None. -/
def suitable (lang : Lang) (pr : Prefs) (names : List Str) : Option Str :=
  match lang with
  | .nederlands => names.find? (fun n => pr.classic ==
      (["es".toList, "eses".toList, "as".toList, "ases".toList].contains n))
  | .catalan => names.find? (fun n => pr.deprecated == endsWithChar 's' n)
  | .deutsch => names.find? (fun n => pr.deprecated ==
      (["eeh".toList, "ases".toList, "aseh".toList, "aeh".toList].contains n))
  | .english =>
    match (if pr.long then names.find? (fun n => n.contains '-') else none) with
    | some n => some n
    | none => names.find? (fun n => !n.contains '-' && pr.x == endsWithChar 'x' n)
  | .espanol => names.find? (fun n => pr.x == endsWithChar 'x' n)
  | .francais =>
    match names.filter (fun n => pr.accented == n.contains 'é') with
    | [n] => some n
    | [] => names.find? (fun n => pr.x == endsWithChar 'x' n)
    | subset => subset.find? (fun n => pr.x == endsWithChar 'x' n)
  | .norsk =>
    match names.filter (fun n => pr.doubleS == hasSub "ss".toList n) with
    | [n] => some n
    | [] => names.find? (fun n => pr.classic == (hasSub "ee".toList n || hasSub "ae".toList n))
    | subset => subset.find? (fun n => pr.classic == (hasSub "ee".toList n || hasSub "ae".toList n))
  | .suomi => names.find? (fun n => pr.deprecated ==
      (["ases".toList, "bb".toList, "heses".toList].contains n))
  | .other => none

/-- The first item in insertion order with the smallest key, which is where the
stable `sorted(octave_dict, key=...)` starts, `quickly/pitch.py` L304. -/
def nearest (target : ℤ) : OctaveDict → Option (ℤ × List Str)
  | [] => none
  | x :: d =>
    match nearest target d with
    | none => some x
    | some y => if |y.1 - target| < |x.1 - target| then some y else some x

/-- `self._suitable(self._language, names) or names[-1]`, and the single-name
case, `quickly/pitch.py` L306-309. -/
def chooseName (lang : Lang) (pr : Prefs) (names : List Str) : Py Str :=
  match names with
  | [n] => .ok n
  | names =>
    match suitable lang pr names with
    | some (c :: cs) => .ok (c :: cs)
    | _ => match names.getLast? with
      | some n => .ok n
      | none => .error .indexError

/-- A PitchProcessor: the table of its language and its preferences. -/
structure Processor where
  lang : Lang
  table : Table
  prefs : Prefs := {}

/-- `pitch(name)`, `quickly/pitch.py` L277-291. -/
def Processor.pitch (pp : Processor) (name : Str) : Py Pitch :=
  match pp.table.get name with
  | some (octave, note, alter) => .ok ⟨octave, note, alter⟩
  | none => .error .keyError

/-- `name_octave(pitch)`, `quickly/pitch.py` L293-310.  An octave dict is never
empty, so the for loop always returns at its first item (`none` stands for the
impossible empty case). -/
def Processor.nameOctave (pp : Processor) (p : Pitch) : Py (Str × ℤ) :=
  match (reverse pp.table).get (p.note, p.alter) with
  | none => .error .keyError
  | some d =>
    match nearest p.octave d with
    | none => .error .typeError
    | some (octave, names) =>
      match chooseName pp.lang pp.prefs names with
      | .ok name => .ok (name, p.octave - octave)
      | .error e => .error e

/-- `to_string(pitch)`, `quickly/pitch.py` L312-334. -/
def Processor.toString (pp : Processor) (p : Pitch) : Py Str :=
  match pp.nameOctave p with
  | .ok (name, octave) => .ok (name ++ octaveToString octave)
  | .error e => .error e

/-- The part of a Pitchable node that pitch processing reads and writes: the
head (name) and the octave count. -/
structure PNode where
  head : Str
  octave : ℤ
  deriving DecidableEq

/-- `read_node(node)`, `quickly/pitch.py` L336-364. -/
def Processor.readNode (pp : Processor) (n : PNode) : Py Pitch :=
  match pp.pitch n.head with
  | .ok p => .ok { p with octave := p.octave + n.octave }
  | .error e => .error e

/-- `write_node(node, pitch)`, `quickly/pitch.py` L366-389. -/
def Processor.writeNode (pp : Processor) (n : PNode) (pitch : Pitch) : Py PNode :=
  match pp.pitch n.head with
  | .error e => .error e
  | .ok p =>
    if p.note = pitch.note ∧ p.alter = pitch.alter then
      .ok { n with octave := pitch.octave - p.octave }
    else
      match pp.nameOctave pitch with
      | .ok (head, octave) => .ok ⟨head, octave⟩
      | .error e => .error e

/-- `process(node, write)`, `quickly/pitch.py` L391-423, with `f` what the body
of the with statement does to the pitch. -/
def Processor.process (pp : Processor) (n : PNode) (write : Bool) (f : Pitch → Pitch) : Py PNode :=
  match pp.readNode n with
  | .error e => .error e
  | .ok p => if write then pp.writeNode n (f p) else .ok n

/-- `pitchable(pitch)`, `quickly/pitch.py` L425-445. -/
def Processor.pitchable (pp : Processor) (p : Pitch) : Py PNode :=
  match pp.nameOctave p with
  | .ok (name, octave) => .ok ⟨name, octave⟩
  | .error e => .error e

/-! ## Determining the language, `quickly/pitch.py` L644-679 -/

/-- `pitch_names`: language name, identity of the table object, table. -/
abbrev Names := List (Str × ℕ × Table)

/-- `pitch_names[name]`. -/
def Names.get (pn : Names) (name : Str) : Option (ℕ × Table) :=
  match pn with
  | [] => none
  | (n, v) :: pn => if n = name then some v else Names.get pn name

/-- `ubiquitous`, L661. -/
def ubiquitous : List Str :=
  ["nederlands".toList, "english".toList, "deutsch".toList, "français".toList, "italiano".toList]

/-- `exotic`, L662. -/
def exotic : List Str := ["arabic".toList, "bagpipe".toList, "persian".toList]

/-- The loop of `others()`, L664-670: names of tables that were not seen. -/
def othersLoop : Names → List ℕ → List Str
  | [], _ => []
  | (name, i, _) :: pn, seen =>
    if i ∈ seen then othersLoop pn seen else name :: othersLoop pn (i :: seen)

/-- The ids of the listed languages; KeyError when one does not exist (L666). -/
def seenIds (pn : Names) : List Str → Py (List ℕ)
  | [] => .ok []
  | n :: ns =>
    match pn.get n with
    | none => .error .keyError
    | some (i, _) => match seenIds pn ns with
      | .ok l => .ok (i :: l)
      | .error e => .error e

/-- String comparison by code points, as `sorted` uses. -/
def strLe (a b : Str) : Bool := decide (a ≤ b)

/-- `langs()`, L659-674.  The generator is lazy: a KeyError would surface
only after the ubiquitous languages were yielded; here it is the whole result. -/
def langs (pn : Names) : Py (List Str) :=
  match seenIds pn (ubiquitous ++ exotic) with
  | .ok seen => .ok (ubiquitous ++ (othersLoop pn seen).mergeSort strLe ++ exotic)
  | .error e => .error e

/-- Does the language know all names (after removing r, R, s and q)?, L676-679. -/
def knowsAll (pn : Names) (names : List Str) (lang : Str) : Bool :=
  match pn.get lang with
  | none => false
  | some (_, t) =>
    (names.filter (fun n => !([['r'], ['R'], ['s'], ['q']].contains n))).all
      (fun n => (t.get n).isSome)

/-- `determine_language(names)`, L644-679. -/
def determineLanguage (pn : Names) (names : List Str) : Py (List Str) :=
  match langs pn with
  | .ok ls => .ok (ls.filter (knowsAll pn names))
  | .error e => .error e

end Quickly.Pitch
