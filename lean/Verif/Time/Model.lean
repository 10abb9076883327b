import Verif.Basic
import Verif.Duration.Model

/-!
# Model of `quickly/time.py`
with `time_length`, `transform` and `is_sequential` of the music nodes in `quickly/dom/lily.py`

Simplifications: the duration of a durable is what `Time.get_duration` gives for it, that is C46.
Of a node is known whether it is sequential (for a MusicList that depends on the parent, L1367) and
its transform.  No include files are followed (`scope` is None); references find the assignments
at the toplevel before it (`Lookup`, L3256-3269).  No music node has properties (L56), so they are
left out of the context.
-/

namespace Quickly.Time

open Quickly.Duration (Transform)

/-- The kinds of nodes: durables (with duration and scaling), chords (with notes or not), an
`\afterGrace` command, a reference to a variable, other music, and nodes that are no music.
A `\skip` with a duration is a durable, and else other music (L1583-1594). -/
inductive Kind where
  | durable (duration scaling : ℚ)
  | chord (notes : Bool) (duration scaling : ℚ)
  | music (sequential : Bool) (transform : Option Transform)
  | afterGrace
  | reference (name : String)
  | other
deriving DecidableEq

/-- `isinstance(node, Music)`; a Reference is not a Music node, L309. -/
def Kind.isMusic : Kind → Bool
  | .durable .. | .chord .. | .music .. | .afterGrace => true
  | .reference _ | .other => false

/-- `is_sequential`, L37-45, L1367-1369, L1381-1383. -/
def Kind.isSequential : Kind → Bool
  | .music s _ => s
  | _ => false

/-- A node with its children. -/
inductive Mus where
  | node (k : Kind) (cs : List Mus)

/-- The kind of a node. -/
def Mus.kind : Mus → Kind
  | .node k _ => k
/-- The children of a node. -/
def Mus.children : Mus → List Mus
  | .node _ cs => cs

/-- `TimeContext.enter`, `quickly/time.py` L313-330; the context is its transform. -/
def enter (tr : Transform) (k : Kind) : Transform :=
  match k with
  | .music _ (some t) => if t.bool then tr.add t else tr
  | _ => tr

/-- `sum()` of a generator; the first exception is raised. -/
def pySum : ℚ → List (Py ℚ) → Py ℚ
  | acc, [] => .ok acc
  | acc, .ok x :: xs => pySum (acc + x) xs
  | _, .error e :: _ => .error e

/-- `max()` of a generator that has started with `acc`. -/
def pyMaxFrom : ℚ → List (Py ℚ) → Py ℚ
  | acc, [] => .ok acc
  | acc, .ok x :: xs => pyMaxFrom (if acc < x then x else acc) xs
  | _, .error e :: _ => .error e

/-- `max(..., default=0)`. -/
def pyMax : List (Py ℚ) → Py ℚ
  | [] => .ok 0
  | .ok x :: xs => pyMaxFrom x xs
  | .error e :: _ => .error e

/-- `self[:end]`. -/
def upto {α : Type} (xs : List α) : Option ℕ → List α
  | none => xs
  | some n => xs.take n

/-- The loop in `AfterGrace.time_length`, `quickly/dom/lily.py` L2371-2374. -/
def firstMusic : List (Kind × Py ℚ) → Py ℚ
  | [] => .ok 0
  | (k, x) :: xs => if k.isMusic then x else firstMusic xs

/-- `time_length(context, end)`, given the lengths of the children in that context: L69-80, L205-212
(with `durable_length`, `quickly/time.py` L346-348), L1446-1457, L1583-1594, L2364-2374. -/
def timeLength (tr : Transform) (k : Kind) (cs : List (Kind × Py ℚ)) (stop : Option ℕ) : Py ℚ :=
  match k with
  | .durable d s => tr.length d s
  | .chord notes d s => if notes then tr.length d s else .ok 0
  | .afterGrace => firstMusic (upto cs stop)
  | .music sequential _ =>
    if sequential then pySum 0 ((upto cs stop).map (·.2))
    else if stop = none then pyMax (cs.map (·.2)) else .ok 0
  | .reference _ | .other => .ok 0

/-- What gives the length of a variable: `TimeContext.remote_length`. -/
abbrev Remote := Transform → String → Py ℚ

mutual
/-- `TimeContext.length(node)`, `quickly/time.py` L332-344. -/
def length (rem : Remote) (tr : Transform) : Mus → Py ℚ
  | .node k cs =>
    match k with
    | .reference n => rem tr n
    | k => if k.isMusic then timeLength (enter tr k) k (lengths rem (enter tr k) cs) none else .ok 0
/-- The children and their lengths. -/
def lengths (rem : Remote) (tr : Transform) : List Mus → List (Kind × Py ℚ)
  | [] => []
  | c :: cs => (c.kind, length rem tr c) :: lengths rem tr cs
end

/-- The assignments at the toplevel, the last one first. -/
abbrev Env := List (String × Mus)

/-- `TimeContext.remote_length`, L350-361, with `Lookup.find_assignment`, `quickly/dom/lily.py`
L3256-3269: the value that is found is searched for from the place of the assignment that is
found.  If a name is not found, `get_value_with_scope` returns None, which can't be unpacked. -/
def remoteLength : Env → Remote
  | [], _, _ => .error .typeError
  | (name, value) :: env, tr, n =>
    if name = n then
      match value.kind with
      | .reference n' => remoteLength env tr n'
      | k => if k.isMusic then length (remoteLength env) tr value else .ok 0
    else remoteLength env tr n

/-- `node[index]`. -/
def child (m : Mus) (i : ℕ) : Py Mus :=
  match m.children[i]? with
  | some c => .ok c
  | none => .error .indexError

/-- `TimeContext._follow_trail(node, trail)`, L300-310; `acc` is the length up to now. -/
def followTrail (rem : Remote) (tr : Transform) (node : Mus) (acc : ℚ) :
    List ℕ → Py (Transform × Mus × ℚ)
  | [] => .ok (tr, node, acc)
  | i :: trail => do
    let tr := enter tr node.kind
    let acc ← if i ≠ 0 ∧ node.kind.isSequential then do
        let x ← timeLength tr node.kind (lengths rem tr node.children) (some i)
        pure (acc + x)
      else pure acc
    let node ← child node i
    followTrail rem tr node acc trail

/-- The node at a path. -/
def get : Mus → List ℕ → Option Mus
  | m, [] => some m
  | m, i :: path =>
    match m.children[i]? with
    | some c => get c path
    | none => none

/-- `isinstance(p, Music)` for the node at a path. -/
def musicAt (root : Mus) (path : List ℕ) : Bool :=
  match get root path with
  | some m => m.kind.isMusic
  | none => false

/-- The loop in `Time._preceding_music`, L167-182, from the node at `path.take k` upwards: the
depth of the topmost Music ancestor. -/
def climb (root : Mus) (path : List ℕ) : ℕ → ℕ
  | 0 => 0
  | k + 1 => if musicAt root (path.take k) then climb root path k else k + 1

/-- `Time._preceding_music(node)`: the path of the topmost music and the trail. -/
def precedingMusic (root : Mus) (path : List ℕ) : List ℕ × List ℕ :=
  let k := climb root path path.length
  (path.take k, path.drop k)

/-- `for p in reversed(ancestors): context = context.enter(p)`. -/
def enterAll (tr : Transform) (node : Mus) : List ℕ → Transform
  | [] => tr
  | i :: trail =>
    match node.children[i]? with
    | some c => enterAll (enter tr node.kind) c trail
    | none => tr

/-- `Time.length(node)`, L184-191, for the node at a path. -/
def lengthAt (rem : Remote) (root : Mus) (path : List ℕ) : Py ℚ :=
  let (mp, trail) := precedingMusic root path
  match get root mp, get root path with
  | some music, some node =>
    match node.kind with
    | .other => length rem {} node
    | _ => length rem (enterAll {} music trail) node
  | _, _ => .error .indexError

/-- `Time.position(node, include)`, L193-210: the path of the music, and the time. -/
def position (rem : Remote) (root : Mus) (path : List ℕ) (incl : Bool) : Py (List ℕ × ℚ) := do
  let (mp, trail) := precedingMusic root path
  match get root mp with
  | none => .error .indexError
  | some music =>
    let (tr, node, len) ← followTrail rem {} music 0 trail
    if incl then do
      let x ← length rem tr node
      pure (mp, len + x)
    else pure (mp, len)

/-- The loop over the common part in `Time.duration`, L230-239: gives the context, the node and
what is left of the trails. -/
def common (tr : Transform) (node : Mus) : List ℕ → List ℕ →
    Py (Transform × Mus × List ℕ × List ℕ)
  | p :: ps, e :: es =>
    let tr := enter tr node.kind
    if p ≠ e then .ok (tr, node, p :: ps, e :: es)
    else
      match child node p with
      | .ok c => common tr c ps es
      | .error err => .error err
  | ps, es => .ok (tr, node, ps, es)

/-- `Time.duration(start_node, end_node)`, L212-245. -/
def duration (rem : Remote) (root : Mus) (start stop : List ℕ) : Py (Option (List ℕ × ℚ)) := do
  let (mp, st) := precedingMusic root start
  let (mp', et) := precedingMusic root stop
  if mp' ≠ mp then return none
  match get root mp with
  | none => .error .indexError
  | some music =>
    let (tr, node, st, et) ← common {} music st et
    let (_, _, startTime) ← followTrail rem tr node 0 st
    let (tr', node', endTime) ← followTrail rem tr node 0 et
    let x ← length rem tr' node'
    return some (mp, endTime + x - startTime)

end Quickly.Time
