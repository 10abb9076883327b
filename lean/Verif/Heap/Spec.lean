import Verif.Heap.Model
import Mathlib.Logic.Relation

/-!
# What C30 speaks about
-/

namespace Quickly.Heap.Spec

/-- `c` is listed as a child of `n`. -/
def Lists (h : Heap) (n c : ℕ) : Prop := c ∈ h.kids n

/-- `b` is somewhere below `a`. -/
def Below (h : Heap) (a b : ℕ) : Prop := Relation.TransGen (Lists h) a b

/-- The node may be put in a place of `self` where `cut` are the nodes that are
overwritten: it is not listed anywhere else, and `self` is not in it. -/
def Free (h : Heap) (self : ℕ) (cut : List ℕ) (node : ℕ) : Prop :=
  (∀ p, Lists h p node → p = self ∧ node ∈ cut) ∧ node ≠ self ∧ ¬ Below h node self

/-- The same for more nodes, which must be different. -/
def AllFree (h : Heap) (self : ℕ) (cut nodes : List ℕ) : Prop :=
  nodes.Nodup ∧ ∀ n ∈ nodes, Free h self cut n

/-- What the documentation asks of the caller, L157-162: nodes that are added were
taken out of their previous parent first.  All nodes must have been made. -/
def Allowed (h : Heap) : Op → Prop
  | .new cs => cs.Nodup ∧ ∀ n ∈ cs, n < h.next ∧ ∀ p, ¬ Lists h p n
  | .append self node => self < h.next ∧ node < h.next ∧ Free h self [] node
  | .extend self nodes => self < h.next ∧ (∀ n ∈ nodes, n < h.next) ∧ AllFree h self [] nodes
  | .insert self _ node => self < h.next ∧ node < h.next ∧ Free h self [] node
  | .setItem self k node => self < h.next ∧ node < h.next ∧
      Free h self (match itemIndex (h.kids self).length k with
        | some i => ((h.kids self).drop i).take 1
        | none => []) node
  | .setSlice self start stop nodes => self < h.next ∧ (∀ n ∈ nodes, n < h.next) ∧
      AllFree h self (((h.kids self).take (sliceBounds (h.kids self).length start stop).2).drop
        (sliceBounds (h.kids self).length start stop).1) nodes
  | .replaceWith self node => self < h.next ∧ node < h.next ∧ (∀ p, ¬ Lists h p node) ∧
      node ≠ self ∧ ¬ Below h node self
  | .take self _ _ => self < h.next
  | .delItem self _ => self < h.next
  | .remove self _ => self < h.next
  | .clear self => self < h.next
  | .clearParent node => node < h.next ∧ ∀ p, ¬ Lists h p node

/-- The states that can arise. -/
inductive Reachable : Heap → Prop
  | start : Reachable empty
  | step {h} (op : Op) : Reachable h → Allowed h op → Reachable (run h op).1

end Quickly.Heap.Spec
