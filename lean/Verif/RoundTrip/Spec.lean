import Verif.Abs2rel.SpecRange
import Verif.Rel2abs.Spec

/-!
# Documents that come back when they are converted to relative music and back

A document is the same if its tree is (`toDoc`), whatever the identities of its nodes are (`erase`): converting twice makes no new nodes but the `\relative` nodes
and their pitches, and those go again. -/

namespace Quickly.RoundTrip.Spec

open Quickly.Pitch Quickly.Relative
open Quickly.Abs2rel (Doc)
open Quickly.Abs2rel.Spec (Still StillL)

mutual
/-- The tree without the identities of the nodes. -/
def erase : Rel2abs.Doc → Rel2abs.Doc
  | .node _ l ks => .node 0 l (eraseL ks)
/-- The same for a list. -/
def eraseL : List Rel2abs.Doc → List Rel2abs.Doc
  | [] => []
  | k :: ks => erase k :: eraseL ks
end

mutual
/-- There is no `\octaveCheck` in the node. -/
def NoCheck : Doc → Prop
  | .node l ks => l ≠ .lab .check ∧ NoCheckL ks
/-- The same for a list. -/
def NoCheckL : List Doc → Prop
  | [] => True
  | k :: ks => NoCheck k ∧ NoCheckL ks
end

mutual
/-- Music without chords and without `\octaveCheck`.  There may be chords in `\key`, `\transpose` and so on, and in a note (a `\score` in a markup). -/
def Simple : Doc → Prop
  | .node (.lab .chord) _ => False
  | .node (.lab .check) _ => False
  | .node (.lab (.note _ _ _)) ks => NoCheckL ks
  | .node (.lab (.skip _)) ks => NoCheckL ks
  | .node (.lab (.language _)) ks => NoCheckL ks
  | .node _ ks => SimpleL ks
/-- The same for a list. -/
def SimpleL : List Doc → Prop
  | [] => True
  | k :: ks => Simple k ∧ SimpleL ks
end

/-- The first `n` nodes, comments apart. -/
def firsts (n : ℕ) (ks : List Doc) : List Doc := (ks.filter fun k => k.lab ≠ .lab .comment).take n

mutual
/-- The music that is converted is simple, and there is no such music in comments, `\key` and so on and in the pitches of `\transpose` and `\fixed`. -/
def Ready : Doc → Prop
  | .node .list ks => ((∃ k ∈ ks, k.isNote = true) → SimpleL ks) ∧ ((∀ k ∈ ks, k.isNote = false) → ReadyL ks)
  | .node (.lab .chordmode) ks => SimpleL ks
  | .node (.lab l) ks => (Rel2abs.Spec.Lab.closed l = true → StillL ks) ∧ (∀ k ∈ firsts (Rel2abs.Spec.Lab.args l) ks, Still k) ∧ ReadyL ks
/-- The same for a list. -/
def ReadyL : List Doc → Prop
  | [] => True
  | k :: ks => Ready k ∧ ReadyL ks
end

end Quickly.RoundTrip.Spec
