import Verif.Build.Model
import Mathlib.Data.List.Forall2

/-! # Specification of `build_tree` -/

namespace Quickly.Build.Spec

open Quickly.Node

variable {α κ : Type}

mutual
/-- All labels of a tree in document order. -/
def listing : Tree α → List α
  | .node a kids => a :: listings kids
/-- All labels of a list of trees in document order. -/
def listings : List (Tree α) → List α
  | [] => []
  | t :: ts => listing t ++ listings ts
end

/-- The arguments a node already has, without ignored nodes. -/
def arguments (e : Env α κ) (p : Tree α) : List α :=
  (p.children.filter fun c => !e.ignored c.val).map Tree.val

/-- `Match args pre`: the arguments are one by one instances of the entries. -/
def Match (e : Env α κ) (args : List α) (pre : List κ) : Prop :=
  List.Forall₂ (fun a c => e.isa a c = true) args pre

/-- The arguments of `p` are the start of one of its signatures, and `c` is the next entry. -/
def Next (e : Env α κ) (p : Tree α) (c : κ) : Prop :=
  ∃ s ∈ e.sigs p.val, ∃ pre post, s = pre ++ c :: post ∧ Match e (arguments e p) pre

/-- `p` could have arguments, but has no signatures for them, and has none; it takes ignored nodes. -/
def Idle (e : Env α κ) (p : Tree α) : Prop := e.gen p.val = true ∧ e.sigs p.val = [] ∧ arguments e p = []

/-- `p` needs or allows more arguments. -/
def Waits (e : Env α κ) (p : Tree α) : Prop := (∃ c, Next e p c) ∨ Idle e p

/-- `n` is a further argument for `p`. -/
def Continues (e : Env α κ) (p n : Tree α) : Prop := ∃ c, Next e p c ∧ e.isa n.val c = true

/-- `p` takes `n`: it continues a signature, or is of the ignored type while `p` waits for
arguments. -/
def Takes (e : Env α κ) (p n : Tree α) : Prop :=
  (e.ignored n.val = true ∧ Waits e p) ∨ (e.ignored n.val = false ∧ Continues e p n)

/-- The trees that can be made of the input nodes by attaching arguments one by one. -/
inductive Built (e : Env α κ) (input : List (Tree α)) : Tree α → Prop
  | given (t : Tree α) : t ∈ input → Built e input t
  | attach (p n : Tree α) : Built e input p → Built e input n → Takes e p n →
      Built e input (.node p.val (p.children ++ [n]))

end Quickly.Build.Spec
