import Verif.Relative.Model

/-!
# Model of `Rel2abs` with the lists it changes

`Rel2abs.edit_range` (`quickly/relative.py` L55-128) changes lists of child nodes while generators are
running over them, so the nodes are in a store here, as they are in memory: every node has a number,
and the list of its children is looked up again at every step of an iteration.

Simplified: the functions have a limit on the number of nested calls (`none` when it is reached), the values of nodes are just what
the code distinguishes, the version of the document is a parameter (`firstAbs`),
and so is the language that was found before the range (`find_language`, C65). -/

namespace Quickly.Rel2abs

open Quickly.Pitch Quickly.Relative

/-- The identity of a node. -/
abbrev Id := ℕ

/-- The nodes that `notes()` passes over, `quickly/relative.py` L79-83. -/
inductive Skip
  | absolute
  | fixed
  | transpose
  /-- `\key` or `\inversion` -/
  | key
  /-- `\transposition` or `\stringTuning` -/
  | silent
  deriving DecidableEq

/-- What the code sees of a node. -/
inductive Lab
  /-- a `lily.Pitchable`; `pitch` tells whether it is a `lily.Pitch` -/
  | note (pitch : Bool) (nd : PNode) (check : Option ℤ)
  | chord
  | check
  | relative
  | skip (kind : Skip)
  /-- a `\language` or `\include` that sets the language -/
  | language (lang : Str)
  | comment
  | chordmode
  | other
  deriving DecidableEq

/-- The nodes: what they are, the lists of their children and their parents; and the language of the pitch processor. -/
structure Heap where
  lab : Id → Lab
  kids : Id → List Id
  parent : Id → Option Id
  lang : Str

/-- The settings: the names of the languages, and whether the first pitch is absolute. -/
structure Cfg where
  pp : Langs
  firstAbs : Bool

/-- The list that `notes()` iterates over: the children of a node as they are at the
moment, or a list of its own. -/
inductive Src
  | live (owner : Id)
  | own (ids : List Id)

/-- The list as it is at the moment. -/
def Src.items (h : Heap) : Src → List Id
  | .live o => h.kids o
  | .own l => l

/-- What the loop that gets the notes remembers: `last_pitch`; for a chord `stack[-1]` and, if it is there, `stack[1]`. -/
inductive Sink
  | music (last : Pitch)
  | chord (top : Pitch) (first : Option Pitch)
  | check (last : Pitch)
  deriving DecidableEq

/-- The note as the code sees it, in the language that is set now. -/
def noteOf (h : Heap) (nd : PNode) (check : Option ℤ) : Note := { node := nd, check := check, lang := h.lang }

/-- The note is written back. -/
def Heap.setNote (h : Heap) (i : Id) (pitch : Bool) (n : Note) : Heap :=
  { h with lab := fun j => if j = i then .note pitch n.node n.check else h.lab j }

/-- What is done with a note that `notes()` yields, `quickly/relative.py` L104-109, L114-117 and L122. -/
def consume (c : Cfg) (h : Heap) (i : Id) (pitch : Bool) (nd : PNode) (check : Option ℤ) : Sink → Py (Heap × Sink)
  | .music last => match absNote c.pp (noteOf h nd check) last with
    | .error e => .error e
    | .ok (p, n) => .ok (h.setNote i pitch n, .music p)
  | .chord top first => match absNote c.pp (noteOf h nd check) top with
    | .error e => .error e
    | .ok (p, n) => .ok (h.setNote i pitch n, .chord p (some (first.getD p)))
  | .check _ => match (c.pp h.lang).readNode nd with
    | .error e => .error e
    | .ok p => .ok (h, .check p)

/-- `parent[index:index+1] = nodes`, L101: the nodes get the parent too (`quickly/node.py` L352-360). -/
def Heap.splice (h : Heap) (p : Id) (i : ℕ) (nodes : List Id) : Heap :=
  { h with
    kids := fun j => if j = p then (h.kids p).take i ++ nodes ++ (h.kids p).drop (i + 1) else h.kids j
    parent := fun j => if j ∈ nodes then some p else h.parent j }

/-- `n.parent.remove(n)`, L123.  Nodes are compared by identity (`quickly/node.py` L300-306). -/
def Heap.remove (h : Heap) (p n : Id) : Heap :=
  { h with kids := fun j => if j = p then (h.kids p).erase n else h.kids j }

/-- Whether the node is a `lily.Pitch`. -/
def Lab.isPitch : Lab → Bool
  | .note p _ _ => p
  | _ => false

/-- The start pitch and the other nodes, L92-99. -/
def startPitch (c : Cfg) (h : Heap) (nodes : List Id) : Py (Pitch × List Id) :=
  match nodes with
  | s :: m :: ms => match h.lab s with
    | .note true nd _ => match (c.pp h.lang).readNode nd with
      | .error e => .error e
      | .ok p => .ok (p, m :: ms)
    | _ => .ok (firstPitch c.firstAbs, nodes)
  | _ => .ok (firstPitch c.firstAbs, nodes)

mutual
/-- `for n in processor.follow_language(nodes)` in `notes()` (L69), from index `i` on, with what the
caller does with the nodes it gets. -/
def loop (c : Cfg) (root : Id) : ℕ → Heap → Sink → Src → ℕ → Option (Py (Heap × Sink))
  | 0, _, _, _, _ => none
  | f + 1, h, s, src, i => match (src.items h)[i]? with
    | none => some (.ok (h, s))
    | some n => match visit c root f h s n with
      | none => none
      | some (.error e) => some (.error e)
      | some (.ok (h, s)) => loop c root f h s src (i + 1)
/-- One node, L70-85 and L104-123. -/
def visit (c : Cfg) (root : Id) : ℕ → Heap → Sink → Id → Option (Py (Heap × Sink))
  | 0, _, _, _ => none
  | f + 1, h, s, n => match h.lab n with
    | .language l => some (.ok ({ h with lang := l }, s))
    | .note pitch nd chk => match consume c h n pitch nd chk s with
      | .error e => some (.error e)
      | .ok (h, s) => match convertAll c root f h root 0 with
        | none => none
        | some (.error e) => some (.error e)
        | some (.ok h) => some (.ok (h, s))
    | .chord => match s with
      | .music last => match loop c root f h (.chord last none) (.live n) 0 with
        | none => none
        | some (.error e) => some (.error e)
        | some (.ok (h, .chord _ first)) => some (.ok (h, .music (first.getD last)))
        | some (.ok (_, _)) => some (.error .runtimeError)
      | _ => some (.error .attributeError)
    | .check => match s with
      | .music last => match loop c root f h (.check last) (.live n) 0 with
        | none => none
        | some (.error e) => some (.error e)
        | some (.ok (h, .check last)) => match h.parent n with
          | none => some (.error .attributeError)
          | some p => if n ∈ h.kids p then some (.ok (h.remove p n, .music last)) else some (.error .valueError)
        | some (.ok (_, _)) => some (.error .runtimeError)
      | _ => some (.error .attributeError)
    | .relative => match makeAbsolute c root f h n with
      | none => none
      | some (.error e) => some (.error e)
      | some (.ok h) => some (.ok (h, s))
    | .skip _ => some (.ok (h, s))
    | .comment => loop c root f h s (.live n) 0
    | .chordmode => loop c root f h s (.live n) 0
    | .other => loop c root f h s (.live n) 0
/-- `make_absolute(node)`, L87-123. -/
def makeAbsolute (c : Cfg) (root : Id) : ℕ → Heap → Id → Option (Py Heap)
  | 0, _, _ => none
  | f + 1, h, n => match h.parent n with
    | none => some (.error .attributeError)
    | some p => match (h.kids p).idxOf? n with
      | none => some (.error .valueError)
      | some i => match startPitch c h ((h.kids n).filter fun k => h.lab k ≠ .comment) with
        | .error e => some (.error e)
        | .ok (last, nodes) => match loop c root f (h.splice p i nodes) (.music last) (.own nodes) 0 with
          | none => none
          | some (.error e) => some (.error e)
          | some (.ok (h, _)) => some (.ok h)
/-- `for n in node.instances_of(lily.Relative): make_absolute(n)`, L73-74, in the children of `owner` from index
`i` on: `instances_of` does not look inside a node that it has yielded (`quickly/node.py` L105-144, L471-494). -/
def convertAll (c : Cfg) (root : Id) : ℕ → Heap → Id → ℕ → Option (Py Heap)
  | 0, _, _, _ => none
  | f + 1, h, owner, i => match (h.kids owner)[i]? with
    | none => some (.ok h)
    | some n =>
      match (if h.lab n = .relative then makeAbsolute c root f h n else convertAll c root f h n 0) with
      | none => none
      | some (.error e) => some (.error e)
      | some (.ok h) => convertAll c root f h owner (i + 1)
end

/-- Which nodes the range contains, at least partly or completely (`Range.in_range`, `quickly/node.py` L1038-1046). -/
structure Sel where
  touched : Id → Bool := fun _ => true
  inside : Id → Bool := fun _ => true

/-- What the main loop does with a node, L125-128; `inner` is what comes of the nodes in it. -/
def editNode (c : Cfg) (sel : Sel) (root : Id) (f : ℕ) (h : Heap) (n : Id) (inner : Option (Py Heap)) : Option (Py Heap) :=
  if sel.touched n then match h.lab n with
    | .language l => some (.ok { h with lang := l })
    | .relative => if sel.inside n then makeAbsolute c root f h n else some (.ok h)
    | _ => inner
  else some (.ok h)

/-- The main loop, L125-128: the languages, and the `\relative` nodes in the range, in the children of `owner` from index `i`
on.  A range knows how many children a node had (`stop`) when it was entered (`quickly/node.py` L1298-1307, L1312-1317). -/
def editLoop (c : Cfg) (sel : Sel) (root : Id) : ℕ → Heap → Id → ℕ → ℕ → Option (Py Heap)
  | 0, _, _, _, _ => none
  | f + 1, h, owner, stop, i => if i < stop then match (h.kids owner)[i]? with
      | none => some (.error .indexError)
      | some n =>
        match editNode c sel root f h n (editLoop c sel root f h n (h.kids n).length 0) with
        | none => none
        | some (.error e) => some (.error e)
        | some (.ok h) => editLoop c sel root f h owner stop (i + 1)
    else some (.ok h)

/-- `Rel2abs.edit_range`, L55-128, for a range with the ancestor `root`. -/
def editRange (c : Cfg) (sel : Sel) (fuel : ℕ) (h : Heap) (root : Id) : Option (Py Heap) :=
  editLoop c sel root fuel h root (h.kids root).length 0

/-! ## Documents as trees -/

/-- A node with the nodes in it. -/
inductive Doc
  | node (id : Id) (lab : Lab) (kids : List Doc)

/-- The identity of the node. -/
def Doc.id : Doc → Id
  | .node i _ _ => i

/-- What the node is. -/
def Doc.lab : Doc → Lab
  | .node _ l _ => l

/-- The children. -/
def Doc.kids : Doc → List Doc
  | .node _ _ ks => ks

end Quickly.Rel2abs
