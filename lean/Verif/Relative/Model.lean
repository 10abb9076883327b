import Verif.Pitch.Model
import Verif.Transpose.Model

/-!
# Model of `quickly/relative.py` and of `Transpose` in `quickly/transpose.py`

The music is a small tree, just what the code distinguishes.  Every note has the pitch
language that is current at its place (`follow_language`, C65), comments
are left out (`util.skip_comments`) and notes have no music of their own (the
scores in markup that L156 of `transpose.py` and L72-74 of `relative.py` look for).
`\transposition` and `\stringTuning`, which are skipped, are left out too.
-/

namespace Quickly.Relative

open Quickly.Pitch Quickly.Transpose

/-- The pitch processor when its language is set to the name. -/
abbrev Langs := Str → Processor

/-- The pitch names of every language. -/
abbrev Tables := Str → Table

/-- The names the processor knows in every language. -/
def Langs.tables (pp : Langs) : Tables := fun l => (pp l).table

/-- A note or pitched rest (`lily.Pitchable`, `quickly/dom/lily.py` L215-306):
name and octave, the octave check, whether the edit may change it
(`writable`, `quickly/transpose.py` L145: it is in the range), and the language that is
set when the code comes to the note. -/
structure Note where
  node : PNode
  check : Option ℤ := none
  writable : Bool := true
  lang : Str := []
  deriving DecidableEq

/-- Commands with music that LilyPond's `\relative` does not affect. -/
inductive Apart
  /-- `\transpose` -/
  | transpose
  /-- `\chordmode` or `\chords` -/
  | chordmode
  deriving DecidableEq

/-- Music as `notes()` sees it, `quickly/transpose.py` L147-175 and
`quickly/relative.py` L67-85. -/
inductive Mus
  /-- a note or pitched rest -/
  | note (n : Note)
  /-- a `lily.Chord`; its notes are in the `ChordBody`, `quickly/dom/lily.py` L1443-1476 -/
  | chord (ns : List Note)
  /-- `\octaveCheck` with its pitch, `quickly/dom/lily.py` L1677-1689 -/
  | check (n : Note)
  /-- `\key` or `\inversion` with its pitch -/
  | key (n : Note)
  /-- any other node with music in it -/
  | group (ms : List Mus)
  /-- `\relative` with or without start pitch -/
  | relative (start : Option Note) (ms : List Mus)
  /-- `\fixed` with its pitch -/
  | fixed (start : Note) (ms : List Mus)
  /-- `\absolute` -/
  | absolute (ms : List Mus)
  /-- `\transpose` with its two pitches, or `\chordmode` -/
  | apart (kind : Apart) (args : List Note) (ms : List Mus)

/-! ## Transposing -/

/-- What `edit_range` has at hand: the pitch processor, what
`transposer.transpose` makes of a pitch, `transposer.octave`, and whether the
first pitch in `\relative` is absolute, `quickly/transpose.py` L135-145. -/
structure Ctx where
  pp : Langs
  tr : Pitch → Pitch
  toct : ℤ
  firstAbs : Bool

/-- `last_pitch` with its `transposed` attribute, if it has that. -/
structure Last where
  pitch : Pitch
  transposed : Option Pitch

/-- `last_pitch.transposed`, or `last_pitch` when that raises AttributeError,
`quickly/transpose.py` L224-227. -/
def Last.prev (l : Last) : Pitch :=
  match l.transposed with
  | some t => t
  | none => l.pitch

/-- The octave lowered by `k`. -/
def down (k : ℤ) (p : Pitch) : Pitch := { p with octave := p.octave - k }

/-- The body of the with statement in `transpose_pitches`, `quickly/transpose.py` L177-182,
with `p.octave -= offset` by the caller (L208-209; the offset is 0 for
`transpose_absolute`, L192-195). -/
def transposeAbs (c : Ctx) (offset : ℤ) (n : Note) : Py Note :=
  match (c.pp n.lang).process n.node n.writable (fun p => down offset (c.tr p)) with
  | .ok nd => .ok { n with node := nd }
  | .error e => .error e

/-- `transpose_no_octave` for one note, `quickly/transpose.py` L184-190. -/
def transposeKey (c : Ctx) (n : Note) : Py Note :=
  match (c.pp n.lang).process n.node n.writable (fun p => { c.tr p with octave := p.octave }) with
  | .ok nd => .ok { n with node := nd }
  | .error e => .error e

/-- `transpose(note, last_pitch)` in `transpose_relative`, `quickly/transpose.py` L214-238. -/
def transposeNote (c : Ctx) (n : Note) (last : Last) : Py (Last × Note) :=
  match (c.pp n.lang).readNode n.node with
  | .error e => .error e
  | .ok p =>
    let defaultOctave := p.octave - n.node.octave
    let p := p.makeAbsolute last.pitch defaultOctave 7
    if !n.writable then .ok (⟨p, none⟩, n)
    else
      let q := c.tr p
      let check := match n.check with
        | some _ => some (q.octave - defaultOctave)
        | none => none
      match (c.pp n.lang).writeNode n.node (q.makeRelative last.prev defaultOctave 7) with
      | .error e => .error e
      | .ok nd => .ok (⟨p, some q⟩, { n with node := nd, check := check })

/-- The notes of a chord, each relative to the one before, `quickly/transpose.py` L261-263:
`stack` without its first item, and the changed notes. -/
def transposeStack (c : Ctx) (top : Last) : List Note → Py (List (Last × Note))
  | [] => .ok []
  | n :: ns =>
    match transposeNote c n top with
    | .error e => .error e
    | .ok r => match transposeStack c r.1 ns with
      | .error e => .error e
      | .ok rs => .ok (r :: rs)

/-- A chord, `quickly/transpose.py` L259-264: `stack[:2][-1]` is the first note of the
chord, or what was before an empty chord. -/
def transposeChord (c : Ctx) (last : Last) (ns : List Note) : Py (Last × List Note) :=
  match transposeStack c last ns with
  | .error e => .error e
  | .ok [] => .ok (last, [])
  | .ok (r :: rs) => .ok (r.1, (r :: rs).map Prod.snd)

/-- An `\octaveCheck` in relative music, `quickly/transpose.py` L265-273. -/
def transposeCheck (c : Ctx) (n : Note) : Py (Last × Note) :=
  match (c.pp n.lang).readNode n.node with
  | .error e => .error e
  | .ok p =>
    if n.writable then
      match (c.pp n.lang).writeNode n.node (c.tr p) with
      | .error e => .error e
      | .ok nd => .ok (⟨p, some (c.tr p)⟩, { n with node := nd })
    else .ok (⟨p, none⟩, n)

/-- The start pitch of `\relative`, `quickly/transpose.py` L240-250. -/
def transposeStart (c : Ctx) (n : Note) : Py (Last × Note) :=
  match (c.pp n.lang).readNode n.node with
  | .error e => .error e
  | .ok p =>
    if n.writable then
      match (c.pp n.lang).writeNode n.node (c.tr p) with
      | .error e => .error e
      | .ok nd => .ok (⟨down c.toct p, some (down c.toct (c.tr p))⟩, { n with node := nd })
    else .ok (⟨p, none⟩, n)

/-- The reference when there is no start pitch, `quickly/transpose.py` L252 and
`quickly/relative.py` L96-99, L230-233. -/
def firstPitch (firstAbs : Bool) : Pitch := if firstAbs then ⟨-1, 3, 0⟩ else ⟨0, 0, 0⟩

/-- Which function walks over the notes: `transpose_pitches` whose caller lowers
the octaves by `offset`, or `transpose_relative` with its `last_pitch`. If `flat` is set
`notes()` does not yield chords and octave checks but the notes in it: `relative_mode` is not
handed on by L169. -/
inductive Walk
  | pitches (offset : ℤ)
  | relative (last : Last) (flat : Bool := false)

/-- The walk over the music of a `\transpose`, L169, or of a `\chordmode`, L175. -/
def Walk.enter : Walk → Apart → Walk
  | .relative last _, .transpose => .relative last true
  | w, _ => w

/-- The walk after that music. -/
def Walk.leave : Walk → Walk → Walk
  | .relative _ flat, .relative last _ => .relative last flat
  | w, _ => w

/-- The `last_pitch` after some notes that are yielded one by one. -/
def lastOf (last : Last) (rs : List (Last × Note)) : Last := (rs.getLast?.map Prod.fst).getD last

mutual
/-- `notes()` with what its callers do to the notes they get,
`quickly/transpose.py` L147-273. -/
def transposeMus (c : Ctx) (w : Walk) : Mus → Py (Walk × Mus)
  | .note n => match w with
    | .pitches o => match transposeAbs c o n with
      | .error e => .error e
      | .ok n => .ok (w, .note n)
    | .relative last flat => match transposeNote c n last with
      | .error e => .error e
      | .ok (last, n) => .ok (.relative last flat, .note n)
  | .chord ns => match w with
    | .pitches o => match ns.mapM (transposeAbs c o) with
      | .error e => .error e
      | .ok ns => .ok (w, .chord ns)
    | .relative last false => match transposeChord c last ns with
      | .error e => .error e
      | .ok (last, ns) => .ok (.relative last, .chord ns)
    | .relative last true => match transposeStack c last ns with
      | .error e => .error e
      | .ok rs => .ok (.relative (lastOf last rs) true, .chord (rs.map Prod.snd))
  | .check n => match w with
    | .pitches o => match transposeAbs c o n with
      | .error e => .error e
      | .ok n => .ok (w, .check n)
    | .relative _ false => match transposeCheck c n with
      | .error e => .error e
      | .ok (last, n) => .ok (.relative last, .check n)
    | .relative last true => match transposeNote c n last with
      | .error e => .error e
      | .ok (last, n) => .ok (.relative last true, .check n)
  | .key n => match transposeKey c n with
    | .error e => .error e
    | .ok n => .ok (w, .key n)
  | .group ms => match transposeList c w ms with
    | .error e => .error e
    | .ok (w, ms) => .ok (w, .group ms)
  | .relative none ms => match transposeList c (.relative ⟨firstPitch c.firstAbs, none⟩) ms with
    | .error e => .error e
    | .ok (_, ms) => .ok (w, .relative none ms)
  | .relative (some s) ms => match transposeStart c s with
    | .error e => .error e
    | .ok (last, s) => match transposeList c (.relative last) ms with
      | .error e => .error e
      | .ok (_, ms) => .ok (w, .relative (some s) ms)
  | .fixed s ms =>
    -- L197-209; a start pitch that may not be changed is yielded by nobody and stays
    match (if s.writable then transposeAbs c 0 s else .ok s) with
    | .error e => .error e
    | .ok s' => match transposeList c (.pitches (if s.writable then c.toct else 0)) ms with
      | .error e => .error e
      | .ok (_, ms) => .ok (w, .fixed s' ms)
  | .absolute ms => match transposeList c (.pitches 0) ms with
    | .error e => .error e
    | .ok (_, ms) => .ok (w, .absolute ms)
  | .apart kind as ms =>
    -- L165-169; a `\chordmode` has no pitches
    match as.mapM (transposeAbs c c.toct) with
    | .error e => .error e
    | .ok as => match transposeList c (w.enter kind) ms with
      | .error e => .error e
      | .ok (w', ms) => .ok (w.leave w', .apart kind as ms)
/-- The nodes one after another. -/
def transposeList (c : Ctx) (w : Walk) : List Mus → Py (Walk × List Mus)
  | [] => .ok (w, [])
  | m :: ms => match transposeMus c w m with
    | .error e => .error e
    | .ok (w, m) => match transposeList c w ms with
      | .error e => .error e
      | .ok (w, ms) => .ok (w, m :: ms)
end

/-- `Transpose.edit_range`, `quickly/transpose.py` L133-275: `transpose_absolute((node,))`. -/
def transposeDoc (c : Ctx) (ms : List Mus) : Py (List Mus) :=
  match transposeList c (.pitches 0) ms with
  | .error e => .error e
  | .ok (_, ms) => .ok ms

/-! ## Relative to absolute -/

/-- One note, `quickly/relative.py` L106-109 and L114-117; the pitch becomes the
last pitch. -/
def absNote (pp : Langs) (n : Note) (last : Pitch) : Py (Pitch × Note) :=
  match (pp n.lang).readNode n.node with
  | .error e => .error e
  | .ok p =>
    let defaultOctave := p.octave - n.node.octave
    let p := p.makeAbsolute last defaultOctave 7
    match (pp n.lang).writeNode n.node p with
    | .error e => .error e
    | .ok nd => .ok (p, { n with node := nd })

/-- The notes of a chord, `quickly/relative.py` L112-117. -/
def absStack (pp : Langs) (top : Pitch) : List Note → Py (List (Pitch × Note))
  | [] => .ok []
  | n :: ns =>
    match absNote pp n top with
    | .error e => .error e
    | .ok r => match absStack pp r.1 ns with
      | .error e => .error e
      | .ok rs => .ok (r :: rs)

/-- A chord, `quickly/relative.py` L110-118. -/
def absChord (pp : Langs) (last : Pitch) (ns : List Note) : Py (Pitch × List Note) :=
  match absStack pp last ns with
  | .error e => .error e
  | .ok [] => .ok (last, [])
  | .ok (r :: rs) => .ok (r.1, (r :: rs).map Prod.snd)

mutual
/-- `Rel2abs`, `quickly/relative.py` L55-128.  `last` is None outside `\relative`.
The result is the list of nodes that replaces the node: `make_absolute` puts the
music of `\relative` in its place (L101) and an `\octaveCheck` in it is removed (L123).

Simplified: every node is visited once, in the order of the document.  The code changes lists while it iterates over them and
looks for `\relative` in the whole document after every note (L73-74); `Verif.Rel2abs` models that, proves for which documents it comes to
the same (`C25_document_partial`), and shows what happens for others. -/
def rel2abs (pp : Langs) (firstAbs : Bool) (last : Option Pitch) : Mus → Py (Option Pitch × List Mus)
  | .note n => match last with
    | none => .ok (none, [.note n])
    | some l => match absNote pp n l with
      | .error e => .error e
      | .ok (p, n) => .ok (some p, [.note n])
  | .chord ns => match last with
    | none => .ok (none, [.chord ns])
    | some l => match absChord pp l ns with
      | .error e => .error e
      | .ok (p, ns) => .ok (some p, [.chord ns])
  | .check n => match last with
    | none => .ok (none, [.check n])
    | some _ => match (pp n.lang).readNode n.node with
      | .error e => .error e
      | .ok p => .ok (some p, [])
  | .key n => .ok (last, [.key n])
  | .group ms => match rel2absList pp firstAbs last ms with
    | .error e => .error e
    | .ok (last, ms) => .ok (last, [.group ms])
  | .relative none ms => match rel2absList pp firstAbs (some (firstPitch firstAbs)) ms with
    | .error e => .error e
    | .ok (_, ms) => .ok (last, ms)
  | .relative (some s) ms => match (pp s.lang).readNode s.node with
    | .error e => .error e
    | .ok p => match rel2absList pp firstAbs (some p) ms with
      | .error e => .error e
      | .ok (_, ms) => .ok (last, ms)
  | .fixed s ms => match rel2absList pp firstAbs none ms with
    | .error e => .error e
    | .ok (_, ms) => .ok (last, [.fixed s ms])
  | .absolute ms => match rel2absList pp firstAbs none ms with
    | .error e => .error e
    | .ok (_, ms) => .ok (last, [.absolute ms])
  | .apart .transpose as ms => match rel2absList pp firstAbs none ms with
    | .error e => .error e
    | .ok (_, ms) => .ok (last, [.apart .transpose as ms])
  | .apart .chordmode as ms => match rel2absList pp firstAbs last ms with
    | .error e => .error e
    | .ok (last, ms) => .ok (last, [.apart .chordmode as ms])
/-- The nodes one after another. -/
def rel2absList (pp : Langs) (firstAbs : Bool) (last : Option Pitch) :
    List Mus → Py (Option Pitch × List Mus)
  | [] => .ok (last, [])
  | m :: ms => match rel2abs pp firstAbs last m with
    | .error e => .error e
    | .ok (last, m) => match rel2absList pp firstAbs last ms with
      | .error e => .error e
      | .ok (last, ms) => .ok (last, m ++ ms)
end

/-! ## Absolute to relative -/

/-- The settings of `Abs2rel`, `quickly/relative.py` L167-174. -/
structure Settings where
  startPitch : Bool
  firstAbs : Bool

/-- `get_first_pitch(p)`, `quickly/relative.py` L224-234: the reference, and the
start pitch that is put in the `\relative` node. -/
def getFirstPitch (pp : Langs) (st : Settings) (lang : Str) (p : Pitch) : Py (Pitch × Option Note) :=
  if st.startPitch then
    let last : Pitch := ⟨if p.note > 3 then p.octave + 1 else p.octave, 0, 0⟩
    match (pp lang).pitchable last with
    | .error e => .error e
    | .ok nd => .ok (last, some { node := nd, lang := lang })
  else .ok (firstPitch st.firstAbs, none)

/-- What `relative_notes` hands on: `last_pitch` (None before the first note) and the
start pitch in the `\relative` node. -/
structure RelState where
  last : Option Pitch := none
  start : Option Note := none

/-- `relative_note(node, last_pitch)`, `quickly/relative.py` L236-243. -/
def relNote (pp : Langs) (st : Settings) (s : RelState) (n : Note) : Py (RelState × Note) :=
  match (pp n.lang).readNode n.node with
  | .error e => .error e
  | .ok p =>
    let defaultOctave := p.octave - n.node.octave
    match (match s.last with
      | some l => (.ok (l, s.start) : Py (Pitch × Option Note))
      | none => getFirstPitch pp st n.lang p) with
    | .error e => .error e
    | .ok (l, start) => match (pp n.lang).writeNode n.node (p.makeRelative l defaultOctave 7) with
      | .error e => .error e
      | .ok nd => .ok (⟨some p, start⟩, { n with node := nd })

mutual
/-- `relative_notes(node, last_pitch)`, `quickly/relative.py` L245-261.  For a chord the
code iterates over the Pitchables among the children of the chord; the notes are
one level deeper, in the `ChordBody`, so there are none.  An `\octaveCheck` and a nested
`\relative` with its start pitch are nodes like any other. -/
def relMus (pp : Langs) (st : Settings) (s : RelState) : Mus → Py (RelState × Mus)
  | .note n => match relNote pp st s n with
    | .error e => .error e
    | .ok (s, n) => .ok (s, .note n)
  | .chord ns => .ok (s, .chord ns)
  | .check n => match relNote pp st s n with
    | .error e => .error e
    | .ok (s, n) => .ok (s, .check n)
  | .key n => .ok (s, .key n)
  | .group ms => match relList pp st s ms with
    | .error e => .error e
    | .ok (s, ms) => .ok (s, .group ms)
  | .relative none ms => match relList pp st s ms with
    | .error e => .error e
    | .ok (s, ms) => .ok (s, .relative none ms)
  | .relative (some b) ms => match relNote pp st s b with
    | .error e => .error e
    | .ok (s, b) => match relList pp st s ms with
      | .error e => .error e
      | .ok (s, ms) => .ok (s, .relative (some b) ms)
  | .fixed b ms => .ok (s, .fixed b ms)
  | .absolute ms => .ok (s, .absolute ms)
  | .apart .transpose as ms => .ok (s, .apart .transpose as ms)
  | .apart .chordmode as ms => match relList pp st s ms with
    | .error e => .error e
    | .ok (s, ms) => .ok (s, .apart .chordmode as ms)
/-- The nodes one after another. -/
def relList (pp : Langs) (st : Settings) (s : RelState) : List Mus → Py (RelState × List Mus)
  | [] => .ok (s, [])
  | m :: ms => match relMus pp st s m with
    | .error e => .error e
    | .ok (s, m) => match relList pp st s ms with
      | .error e => .error e
      | .ok (s, ms) => .ok (s, m :: ms)
end

/-- `make_relative(node)`, `quickly/relative.py` L207-265: the new `\relative` node
around the music list with nodes `ms`. -/
def makeRelative (pp : Langs) (st : Settings) (ms : List Mus) : Py Mus :=
  match relList pp st {} ms with
  | .error e => .error e
  | .ok (s, ms) => .ok (.relative s.start [.group ms])

end Quickly.Relative
