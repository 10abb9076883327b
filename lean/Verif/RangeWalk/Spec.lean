import Verif.RangeWalk.Model
import Verif.Range.Spec
import Verif.Query.Spec

/-!
# What the properties of walking with a range speak about
-/

namespace Quickly.RangeWalk.Spec

open Quickly.Node Quickly.Node.Spec Quickly.NodeRange Quickly.NodeRange.Spec Quickly.Query Quickly.Query.Spec

variable {α κ : Type}

/-- The stacks that a range over `t` can get: a new range, `goto` another node, step to a next or previous node, `enter()`,
and `leave()`, any number of times. -/
inductive Reached (t : Tree α) (st en : Option Path) : List (Level α) → Prop
  | new : Reached t st en (make t st en).stack
  | goto {p n r} : t.get? p = some n → Touches t st en p → (make t st en).gotoTrail p = some r → Reached t st en r.stack
  | step {l ls rev n l'} : Reached t st en (l :: ls) → l.step rev = some (n, l') → Reached t st en (l' :: ls)
  | enter {ls} : Reached t st en ls → Reached t st en (enter ls)
  | leave {ls} : Reached t st en ls → Reached t st en (leave ls).2

/-- The range is at the node at `p`, and has not entered it. -/
def At (ls : List (Level α)) (p : Path) : Prop :=
  (∃ n, current ls = some n ∧ n.1 = p) ∧ ∃ l ms, ls = l :: ms ∧ l.index ≠ none

/-- The range has entered the node at `p` (or is at its ancestor, `[]`), and is at none of the children yet. -/
def In (ls : List (Level α)) (p : Path) : Prop :=
  (∃ n, current ls = some n ∧ n.1 = p) ∧ ∃ l ms, ls = l :: ms ∧ l.index = none

/-- A generator runs to its end, with the answers `dec`; at the end it leaves this stack. -/
inductive EndsAt {σ : Type} (go : σ → Bool → (Item α × σ) ⊕ List (Level α)) (dec : List (Item α) → Bool) :
    Bool → σ → List (Item α) → List (Level α) → Prop
  | done {ok s hist ls} : go s ok = .inr ls → EndsAt go dec ok s hist ls
  | step {ok s hist n s' ls} : go s ok = .inl (n, s') → EndsAt go dec (dec (hist ++ [n])) s' (hist ++ [n]) ls →
      EndsAt go dec ok s hist ls

/-- The place `q` is after `p` in the direction and not below it. -/
def Beyond (rev : Bool) (p q : Path) : Prop := if rev then Left q p else Left p q

/-- Where an operator looks when a node was entered: the walks then begin with the children, and the node itself is the
first of its "ancestors". -/
def PlaceIn : Op → Path → Path → Prop
  | .gt, p, q => Above p q ∨ Left p q
  | .lt, p, q => Above p q ∨ Left q p
  | .lshift, p, q => p ≠ [] ∧ AboveOrSelf q p
  | op, p, q => Place op p q

end Quickly.RangeWalk.Spec
