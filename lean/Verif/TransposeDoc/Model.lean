import Verif.Rel2abs.Model

/-!
# Model of `Transpose` on the nodes of a document

`Transpose.edit_range` (`quickly/transpose.py` L133-275) with the generator `notes()` and all the loops that get
nodes from it.  A generator runs until it yields, then the loop that called it does its work with the node, and then the
generator goes on; so the functions here visit the nodes in the order of the document and do with every note
what the loop (`Sink`) does that is waiting for it.  The language of the pitch processor is handed on from node to node.

No list of nodes is changed, so a document is a tree (`Rel2abs.Doc`).  Simplified: the name, the octave and the octave check of a note are in the
value of the node (C51), the version of the document is in the context (`firstAbs`), and so is the language at the start. -/

namespace Quickly.TransposeDoc

open Quickly.Pitch Quickly.Relative Quickly.Rel2abs

/-- The loop that gets the notes, and what it remembers. -/
inductive Sink
  /-- `transpose_pitches`, L177-182; its caller lowers the octaves -/
  | pitches (offset : ℤ)
  /-- `transpose_no_octave`, L184-190 -/
  | key
  /-- the notes in `\relative`, L254-258 -/
  | relative (last : Last)
  /-- the notes in a chord, L261-264: `stack[-1]`, and `stack[1]` if it is there -/
  | chord (top : Last) (first : Option Last)
  /-- the notes in an `\octaveCheck`, L265-273 -/
  | check (last : Last)

/-- What the loop does with a note. -/
def consume (c : Ctx) (n : Note) : Sink → Py (Sink × Note)
  | .pitches o => match transposeAbs c o n with
    | .error e => .error e
    | .ok n => .ok (.pitches o, n)
  | .key => match transposeKey c n with
    | .error e => .error e
    | .ok n => .ok (.key, n)
  | .relative last => match transposeNote c n last with
    | .error e => .error e
    | .ok (last, n) => .ok (.relative last, n)
  | .chord top first => match transposeNote c n top with
    | .error e => .error e
    | .ok (last, n) => .ok (.chord last (some (first.getD last)), n)
  | .check _ => match transposeCheck c n with
    | .error e => .error e
    | .ok (last, n) => .ok (.check last, n)

/-- The first node in `\relative` or `\fixed`. -/
inductive Start
  | relative
  | fixed

/-- The note with another pitch. -/
def setNote (i : Id) (p : Bool) (n : Note) (ks : List Doc) : Doc := .node i (.note p n.node n.check) ks

/-- The first node of `\relative`, L242-250, or `\fixed`, L200-207: the loop that gets the notes after it, and the node.  In `\fixed` it is never a
note like the others; in `\relative` it is one if it is not the start pitch. -/
def first (c : Ctx) (sel : Id → Bool) (start : Option Start) (L : Str) : Doc → Py (Option (Sink × Doc))
  | .node i (.note p nd chk) ks => match start with
    | some .fixed =>
      if sel i then match transposeAbs c 0 { node := nd, check := chk, lang := L } with
        | .error e => .error e
        | .ok n => .ok (some (.pitches c.toct, setNote i p n ks))
      else .ok (some (.pitches 0, .node i (.note p nd chk) ks))
    | some .relative => match transposeStart c { node := nd, check := chk, writable := sel i, lang := L } with
      | .error e => .error e
      | .ok (last, n) => .ok (some (.relative last, setNote i p n ks))
    | none => .ok none
  | k => match start with
    | some .fixed => .ok (some (.pitches 0, k))
    | _ => .ok none

/-- The last pitch, if chords and octave checks are yielded too (`relative_mode`, L172). -/
def relLast : Bool → Sink → Option Last
  | true, .relative last => some last
  | _, _ => none

mutual
/-- One node that `notes(…, rm)` comes to, L153-175.  `sel` are the nodes that are in the range (`writable`, L145), `L` is the language. -/
def visit (c : Ctx) (sel : Id → Bool) (rm : Bool) (s : Sink) (L : Str) : Doc → Py (Sink × Str × Doc)
  | .node i (.note p nd chk) ks =>
    match consume c { node := nd, check := chk, writable := sel i, lang := L } s with
    | .error e => .error e
    | .ok (s, n) => match list c sel false 0 (.pitches 0) L ks with
      | .error e => .error e
      | .ok (_, L, ks) => .ok (s, L, setNote i p n ks)
  | .node i (.skip .key) ks => match list c sel false 0 .key L ks with
    | .error e => .error e
    | .ok (_, L, ks) => .ok (s, L, .node i (.skip .key) ks)
  | .node i (.skip .absolute) ks => match list c sel false 0 (.pitches 0) L ks with
    | .error e => .error e
    | .ok (_, L, ks) => .ok (s, L, .node i (.skip .absolute) ks)
  | .node i .relative ks =>
    match skip c sel (if (ks.filter fun k => k.lab ≠ .comment).length > 1 then some .relative else none) true
        (.relative ⟨firstPitch c.firstAbs, none⟩) L ks with
    | .error e => .error e
    | .ok (_, L, ks) => .ok (s, L, .node i .relative ks)
  | .node i (.skip .fixed) ks => match skip c sel (some .fixed) false (.pitches 0) L ks with
    | .error e => .error e
    | .ok (_, L, ks) => .ok (s, L, .node i (.skip .fixed) ks)
  | .node i (.skip .transpose) ks => match list c sel false 2 s L ks with
    | .error e => .error e
    | .ok (s, L, ks) => .ok (s, L, .node i (.skip .transpose) ks)
  | .node i (.skip .silent) ks => .ok (s, L, .node i (.skip .silent) ks)
  | .node i (.language l) ks => .ok (s, l, .node i (.language l) ks)
  | .node i .chord ks => match relLast rm s with
    | some last => match list c sel false 0 (.chord last none) L ks with
      | .error e => .error e
      | .ok (.chord _ first, L, ks) => .ok (.relative (first.getD last), L, .node i .chord ks)
      | .ok (_, _, _) => .error .runtimeError
    | none => match list c sel rm 0 s L ks with
      | .error e => .error e
      | .ok (s, L, ks) => .ok (s, L, .node i .chord ks)
  | .node i .check ks => match relLast rm s with
    | some last => match list c sel false 0 (.check last) L ks with
      | .error e => .error e
      | .ok (.check last, L, ks) => .ok (.relative last, L, .node i .check ks)
      | .ok (_, _, _) => .error .runtimeError
    | none => match list c sel rm 0 s L ks with
      | .error e => .error e
      | .ok (s, L, ks) => .ok (s, L, .node i .check ks)
  | .node i l ks => match list c sel rm 0 s L ks with
    | .error e => .error e
    | .ok (s, L, ks) => .ok (s, L, .node i l ks)
/-- The nodes one after another; the first `n` are the pitches of a `\transpose`, L165-169. -/
def list (c : Ctx) (sel : Id → Bool) (rm : Bool) (n : ℕ) (s : Sink) (L : Str) : List Doc → Py (Sink × Str × List Doc)
  | [] => .ok (s, L, [])
  | k :: ks => match n with
    | 0 => match visit c sel rm s L k with
      | .error e => .error e
      | .ok (s, L, k) => match list c sel rm 0 s L ks with
        | .error e => .error e
        | .ok (s, L, ks) => .ok (s, L, k :: ks)
    | n + 1 => match visit c sel false (.pitches c.toct) L k with
      | .error e => .error e
      | .ok (_, L, k) => match list c sel rm n s L ks with
        | .error e => .error e
        | .ok (s, L, ks) => .ok (s, L, k :: ks)
/-- The nodes of a `\relative` or `\fixed` without the comments (`util.skip_comments`, L199 and L241).  The first one may be a pitch: L242-252,
L200-207. -/
def skip (c : Ctx) (sel : Id → Bool) (start : Option Start) (rm : Bool) (s : Sink) (L : Str) : List Doc → Py (Sink × Str × List Doc)
  | [] => .ok (s, L, [])
  | k :: ks => if k.lab = .comment then match skip c sel start rm s L ks with
      | .error e => .error e
      | .ok (s, L, ks) => .ok (s, L, k :: ks)
    else match first c sel start L k with
      | .error e => .error e
      | .ok (some (s, k)) => match skip c sel none rm s L ks with
        | .error e => .error e
        | .ok (s, L, ks) => .ok (s, L, k :: ks)
      | .ok none => match visit c sel rm s L k with
        | .error e => .error e
        | .ok (s, L, k) => match skip c sel none rm s L ks with
          | .error e => .error e
          | .ok (s, L, ks) => .ok (s, L, k :: ks)
end

/-- `Transpose.edit_range(r)`, L133-275, with `root` the ancestor of the range. -/
def editRange (c : Ctx) (sel : Id → Bool) (L : Str) (root : Doc) : Py Doc :=
  match visit c sel false (.pitches 0) L root with
  | .error e => .error e
  | .ok (_, _, root) => .ok root

end Quickly.TransposeDoc
