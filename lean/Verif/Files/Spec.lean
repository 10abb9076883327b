import Verif.Files.Model
import Verif.Scope.Spec

/-! # The text that is read, and notes whose duration does not depend on what is before them -/

namespace Quickly.Files.Spec

open Quickly.Node Quickly.Signature Quickly.Length
open Quickly.Scope (Config Scope Doc)

/-- The DOM documents are those the nodes are given for. -/
def Sources (cfg : Config) (src : Source) : Prop :=
  ∀ u d dom, cfg.factory u = some d → d.dom = some dom → dom = seenAll 0 (src d)

/-- The node that is seen, in the document of a scope; an `\include` that can't be followed stays in the text. -/
def nodeOf (src : Source) (x : Scope.Node × Scope) : Nd :=
  match x.1 with
  | .assign _ i | .other i => ((src x.2.top.doc)[i]?).getD (.node (.Include, .text "\\include") [])
  | .incl f => .node (.Include, .text "\\include") [.node (.String, .text f) []]

/-- The text that LilyPond reads before the child at index `i` of the document of a scope: includes are replaced with the
text of the file. -/
def textBefore (cfg : Config) (depth : ℕ) (src : Source) (s : Scope) (i : ℕ) : List (Scope.Node × Scope) :=
  Scope.Spec.textBefore cfg depth s.top s.parents ((seenAll 0 (src s.top.doc)).take i).reverse

mutual
/-- Whether the first note, rest, chord etc. in a node has a written duration, if there is one. -/
def first : Nd → Option Bool
  | .node l cs =>
    if isSub 5 l.1 .Durable && !isSub 5 l.1 .Skip then some (cs.any fun c => isSub 5 c.val.1 .Duration) else firstL cs
/-- The same for a list of nodes. -/
def firstL : List Nd → Option Bool
  | [] => none
  | t :: ts => match first t with
    | some b => some b
    | none => firstL ts
end

/-- The durations of the notes do not depend on what is before the node. -/
def Timed (t : Nd) : Prop := first t ≠ some false

/-- The current duration after the nodes `xs` is the one after the nodes `ys`, or does not matter for `t`. -/
def Same (xs ys : List Nd) (t : Nd) : Prop :=
  previousDuration (revL xs) = previousDuration (revL ys) ∨ Timed t

/-- For the values of all variables in a text the current duration in their own file is the one in the text, or does not
matter. -/
def AllSame (src : Source) (text : List (Scope.Node × Scope)) : Prop :=
  ∀ xs zs name i s, text = xs ++ (.assign name i, s) :: zs → ∀ b v, valueAt (src s.top.doc) i = some (b, v) →
    Same ((src s.top.doc).take i) (xs.map (nodeOf src)) v

end Quickly.Files.Spec
