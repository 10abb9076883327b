import Verif.RhythmTime.Model

/-!
# Model of the other edits of `quickly/rhythm.py` on the nodes of a document

`Verif.RhythmTime` has `explicit`, `implicit` and `transform`; here are the other edits, and a type of all of them.  The
simplifications are the same.
-/

namespace Quickly.RhythmEdits

open Quickly.Node Quickly.Signature Quickly.Length Quickly.RhythmTime

/-- `Remove.process`, `quickly/rhythm.py` L95-98. -/
def removeProc : Proc Unit := fun st _ _ right n => (st, if mayRemove n right then .del else .keep)

/-- `del node.scaling`, `quickly/dom/lily.py` L148-164 and L181-183.  The duration is set to what it is. -/
def delScaling (n : Nd) : Change :=
  match durationScaling n with
  | some d => .set d.1 (some 1)
  | none => .keep

/-- `RemoveScaling.process`, `quickly/rhythm.py` L103-105. -/
def removeScalingProc : Proc Unit := fun st _ _ _ n => (st, delScaling n)

/-- `RemoveFractionScaling.process`, L110-114; `int(s) != s`. -/
def removeFractionProc : Proc Unit := fun st _ _ _ n =>
  (st, match durationScaling n with
    | some d => if d.2.den = 1 then .keep else delScaling n
    | none => .keep)

/-- `node.duration_scaling = value`, `quickly/dom/lily.py` L182-187. -/
def setDuration (n : Nd) (d : D) : Change :=
  if n.children.any (isA .Duration) then .set d.1 (some d.2) else .add (fromDuration d)

/-- The `n`-th of the durations that are pasted: `itertools.cycle(durations)` or `iter(durations)`,
`quickly/rhythm.py` L296; `none` when there are no more. -/
def nthDuration (durs : List (Option D)) (cycle : Bool) (n : ℕ) : Option (Option D) :=
  if cycle then durs[n % durs.length]? else durs[n]?

/-- The body of the loop of `PasteRhythm.edit_range`, L297-305; the state is the number of the duration and `prev`. -/
def pasteProc (durs : List (Option D)) (cycle : Bool) : Proc (ℕ × Option D) := fun (k, prev) _ _ right n =>
  match nthDuration durs cycle k with
  | none => ((k, prev), .keep)
  | some (some d) => ((k + 1, some d), setDuration n d)
  | some none =>
    if mayRemove n right then ((k + 1, prev), .del)
    else
      match prev with
      | some d => ((k + 1, prev), setDuration n d)
      | none => ((k + 1, prev), .keep)

/-- `CopyRhythm.edit_range` with `explicit=False`, L270; the state is the list in reverse. -/
def copyProc : Proc (List (Option D)) := fun acc _ _ _ n => (durationScaling n :: acc, .keep)

/-- `CopyRhythm.edit_range` with `explicit=True`, L258-269. -/
def copyExplicitProc : Proc (Option D × List D) := fun (prev, acc) _ before _ n =>
  let d := match durationScaling n with
    | some d => d
    | none =>
      match prev with
      | some d => d
      | none => previousDuration before
  ((some d, d :: acc), .keep)

/-- `remove(music)`, L308, on the nodes at the toplevel of a document. -/
def remove (a b : ℕ) (doc : List Nd) : List Nd := (walkL removeProc (inRange a b) () 0 [] doc).2.2
/-- `remove_scaling(music)`, L320. -/
def removeScaling (a b : ℕ) (doc : List Nd) : List Nd := (walkL removeScalingProc (inRange a b) () 0 [] doc).2.2
/-- `remove_fraction_scaling(music)`, L325. -/
def removeFraction (a b : ℕ) (doc : List Nd) : List Nd := (walkL removeFractionProc (inRange a b) () 0 [] doc).2.2
/-- `paste(music, durations, cycle)`, L400. -/
def paste (durs : List (Option D)) (cycle : Bool) (a b : ℕ) (doc : List Nd) : List Nd :=
  (walkL (pasteProc durs cycle) (inRange a b) (0, none) 0 [] doc).2.2
/-- `copy(music)`, L388: the durations, and the document. -/
def copy (a b : ℕ) (doc : List Nd) : List (Option D) × List Nd :=
  let (acc, _, doc) := walkL copyProc (inRange a b) [] 0 [] doc
  (acc.reverse, doc)
/-- `copy(music, explicit=True)`, L388. -/
def copyExplicit (a b : ℕ) (doc : List Nd) : List D × List Nd :=
  let ((_, acc), _, doc) := walkL copyExplicitProc (inRange a b) (none, []) 0 [] doc
  (acc.reverse, doc)

/-- The functions of `quickly/rhythm.py`. -/
inductive RhythmEdit where
  | remove | removeScaling | removeFraction | explicit | implicit
  | implicitPerLine (block : ℕ → Option ℕ)
  | transform (t : Duration.Transform)
  | copy | copyExplicit
  | paste (durs : List (Option D)) (cycle : Bool)

/-- The document after the edit of a range. -/
def RhythmEdit.run (a b : ℕ) (doc : List Nd) : RhythmEdit → List Nd
  | .remove => RhythmEdits.remove a b doc
  | .removeScaling => RhythmEdits.removeScaling a b doc
  | .removeFraction => RhythmEdits.removeFraction a b doc
  | .explicit => RhythmTime.explicit a b doc
  | .implicit => RhythmTime.implicit a b doc
  | .implicitPerLine block => RhythmTime.implicitPerLine block a b doc
  | .transform t => (RhythmTime.transform t a b doc).2
  | .copy => (RhythmEdits.copy a b doc).2
  | .copyExplicit => (RhythmEdits.copyExplicit a b doc).2
  | .paste durs cycle => RhythmEdits.paste durs cycle a b doc

end Quickly.RhythmEdits
