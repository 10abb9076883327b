import Verif.Unknown.Model
import Verif.Edits.Spec
import Verif.Text.Spec

/-!
# What replacing unknown regions should do
-/

namespace Quickly.Unknown.Spec

open Quickly.Node Quickly.Text Quickly.Text.Spec Quickly.Unknown

/-- The node at the place `p` is an `Unknown`. -/
def UnknownAt (t : UTree) (p : Path) : Prop := ∃ u, t.get? p = some u ∧ u.val.2 = true

/-- No `Unknown` at the place `p` or above it, not counting the root. -/
def Known (t : UTree) (p : Path) : Prop := ∀ q, q ≠ [] → q <+: p → ¬ UnknownAt t q

/-- The unknown regions as they come from reading a document: an origin, no children, no spacing of their own. -/
def FromSource (u : UTree) : Prop :=
  ∃ e r, u = .node (e, true) [] ∧ e.kind = .head ∧ e.headOrigin = some r ∧ e.tailOrigin = none ∧ e.headModified = false ∧ e.sp = {}

/-- All unknown regions below the root come from reading a document. -/
def AllFromSource (t : UTree) : Prop := ∀ p u, p ≠ [] → t.get? p = some u → u.val.2 = true → FromSource u

/-- The texts that a document shows: those of its elements, in order, and for an unknown region that part of the source text. -/
def shown (doc : Str) : UTree → List Str
  | .node v cs =>
    if v.2 then (match v.1.headOrigin with
      | some (p, e) => some? (Edits.Spec.slice doc p e)
      | none => [])
    else (if v.1.kind = .plain then [] else some? v.1.head) ++ go cs ++ (if v.1.kind = .block then some? v.1.tail else [])
where
  /-- The children. -/
  go : List UTree → List Str
    | [] => []
    | c :: cs => shown doc c ++ go cs

end Quickly.Unknown.Spec
