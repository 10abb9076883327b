import Verif.Language.Model
import Verif.Node.Spec

/-! # Which language is valid at a place -/

namespace Quickly.Language.Spec

open Quickly.Pitch Quickly.Node Quickly.Node.Spec

/-- The node selects the language `l`: it is `\language "l"` or `\include "l.ly"`. -/
def Chooses (pn : Names) (n : Nd) (l : Str) : Prop :=
  l ≠ [] ∧ (∃ t, pn.get l = some t) ∧ (n = .language (some l) ∨ n = .incl (some (l ++ ".ly".toList)))

/-- `l` is the language at the place `p`, if it is `l0` at the beginning: that of the last node before
`p` that selects one. -/
def At (pn : Names) (t : Node.Tree Nd) (l0 : Str) (p : Path) (l : Str) : Prop :=
  (∃ m, NodeOf t m ∧ DocBefore m.1 p ∧ Chooses pn m.2.val l ∧
    ∀ m' l', NodeOf t m' → DocBefore m'.1 p → Chooses pn m'.2.val l' → m'.1 = m.1 ∨ DocBefore m'.1 m.1) ∨
  (l = l0 ∧ ∀ m l', NodeOf t m → DocBefore m.1 p → ¬ Chooses pn m.2.val l')

/-- All languages are known, and includes have a file name. -/
def Valid (pn : Names) (t : Node.Tree Nd) : Prop :=
  ∀ m, NodeOf t m → m.2.val ≠ .incl none ∧
    ∀ l, m.2.val = .language (some l) → l ≠ [] → ∃ x, pn.get l = some x

/-- No `\language` or `\include` is inside another one. -/
def Flat (t : Node.Tree Nd) : Prop :=
  ∀ m m', NodeOf t m → NodeOf t m' → Above m.1 m'.1 → m.2.val.cls ≠ .other → m'.2.val.cls = .other

end Quickly.Language.Spec
