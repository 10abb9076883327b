import Verif.Time.Model

/-! # What the time of music means -/

namespace Quickly.Time.Spec

open Quickly.Duration (Transform)

/-- The music `m` is in is changed by the transform. -/
def under (tr : Transform) : Option Transform → Transform
  | none => tr
  | some t => tr.add t

/-- The latest of two moments. -/
def latest (a b : Py ℚ) : Py ℚ := do return max (← a) (← b)

mutual
/-- The moment at which music ends that starts at `t`: notes sound for their duration, sequential
music is played one after another, simultaneous music starts together and ends with the last
one. -/
def finish (rem : Remote) (tr : Transform) (t : ℚ) : Mus → Py ℚ
  | .node (.durable d s) _ => do return t + (← tr.length d s)
  | .node (.chord notes d s) _ => if notes then do return t + (← tr.length d s) else return t
  | .node (.music true f) cs => sequential rem (under tr f) t cs
  | .node (.music false f) cs => together rem (under tr f) t cs
  | .node .afterGrace cs => afterGrace rem tr t cs
  | .node (.reference n) _ => do return t + (← rem tr n)
  | .node .other _ => return t
/-- The end of music that is played one after another. -/
def sequential (rem : Remote) (tr : Transform) (t : ℚ) : List Mus → Py ℚ
  | [] => return t
  | c :: cs => do sequential rem tr (← finish rem tr t c) cs
/-- The end of music that starts together. -/
def together (rem : Remote) (tr : Transform) (t : ℚ) : List Mus → Py ℚ
  | [] => return t
  | [c] => finish rem tr t c
  | c :: c' :: cs => latest (finish rem tr t c) (together rem tr t (c' :: cs))
/-- The end of the main music of an `\afterGrace`. -/
def afterGrace (rem : Remote) (tr : Transform) (t : ℚ) : List Mus → Py ℚ
  | [] => return t
  | c :: cs => if c.kind.isMusic then finish rem tr t c else afterGrace rem tr t cs
end

/-- The moment at which the node at a path starts in music that starts at `t`. -/
def onset (rem : Remote) (tr : Transform) (t : ℚ) (m : Mus) : List ℕ → Py ℚ
  | [] => return t
  | i :: path =>
    match m, m.children[i]? with
    | .node (.music true f) cs, some c => do
      onset rem (under tr f) (← sequential rem (under tr f) t (cs.take i)) c path
    | .node (.music false f) _, some c => onset rem (under tr f) t c path
    | _, some c => onset rem tr t c path
    | _, none => .error .indexError

mutual
/-- Music with every reference replaced. -/
def expand (look : String → Option Mus) : Mus → Option Mus
  | .node (.reference n) _ => look n
  | .node (.music s f) cs => do return .node (.music s f) (← expandL look cs)
  | .node .afterGrace cs => do return .node .afterGrace (← expandL look cs)
  | m => some m
/-- The same for a list of nodes. -/
def expandL (look : String → Option Mus) : List Mus → Option (List Mus)
  | [] => some []
  | c :: cs => do return (← expand look c) :: (← expandL look cs)
end

/-- The value of a variable, with every reference replaced by the value it had there. -/
def value : Env → String → Option Mus
  | [], _ => none
  | (name, v) :: env, n => if name = n then expand (value env) v else value env n

mutual
/-- No argument of an `\afterGrace` is a reference. -/
def directGrace : Mus → Prop
  | .node k cs => (k = .afterGrace → ∀ c ∈ cs, ∀ n, c.kind ≠ .reference n) ∧ directGraceL cs
/-- The same for a list of nodes. -/
def directGraceL : List Mus → Prop
  | [] => True
  | c :: cs => directGrace c ∧ directGraceL cs
end

/-- The transform of a node. -/
def transformOf : Kind → Option Transform
  | .music _ f => f
  | _ => none

end Quickly.Time.Spec
