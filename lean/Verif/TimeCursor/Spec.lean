import Verif.TimeCursor.Model
import Verif.Find.Spec
import Verif.Time.Spec

/-! # Cursors in music -/

namespace Quickly.TimeCursor.Spec

open Quickly.Node Quickly.Find Quickly.Time Quickly.Find.Spec

/-- A music list with its contents, one after another, somewhere in the document (not in a chord). -/
structure InList (t : Node.Tree Label) (p : List ℕ) (l : Node.Tree Label) : Prop where
  at_path : t.get? p = some l
  sequential : l.val.2 = .music true none
  no_chord : ∀ k ≤ p.length, ∀ m, t.get? (p.take k) = some m → ∀ b d s, m.val.2 ≠ .chord b d s

/-- The cursor is in the list, before the item `i` and after the items before that. -/
structure Before (l : Node.Tree Label) (i : ℕ) (x : ℤ) : Prop where
  inside : ∃ a, Starts (orgs l) a ∧ a < x
  before : ∃ c, l.children[i]? = some c ∧ ∃ a, Starts (orgs c) a ∧ x ≤ a
  after : ∀ j < i, ∀ c, l.children[j]? = some c → ∀ b, Ends (orgs c) b → b ≤ x

/-- The cursor is in the list, after the item `i` and before the items after that. -/
structure After (l : Node.Tree Label) (i : ℕ) (x : ℤ) : Prop where
  inside : ∃ b, Ends (orgs l) b ∧ x < b
  after : ∃ c, l.children[i]? = some c ∧ ∃ b, Ends (orgs c) b ∧ b ≤ x
  before : ∀ j, i < j → ∀ c, l.children[j]? = some c → ∀ a, Starts (orgs c) a → x ≤ a

/-- The place is not in music and not in a chord: none of the nodes on the way to it is one. -/
def Outside (t : Node.Tree Label) (p : List ℕ) : Prop :=
  ∀ k m, t.get? (p.take k) = some m → m.val.2.isMusic = false ∧ ∀ b d s, m.val.2 ≠ .chord b d s

end Quickly.TimeCursor.Spec
