import Verif.Build.Spec
import Mathlib.Data.List.Chain

/-!
# Expressions: commands with their arguments

An expression is a node with arguments, which are expressions again.  In a text, and in the input of
`build_tree`, it is just the node followed by the arguments.
-/

namespace Quickly.Build.Spec

open Quickly.Node

variable {α κ : Type}

/-- A node and its arguments (and ignored nodes, which can be between them). -/
inductive Ex (α : Type) where
  | mk (node : Tree α) (args : List (Ex α))

def Ex.node : Ex α → Tree α
  | .mk n _ => n

def Ex.args : Ex α → List (Ex α)
  | .mk _ as => as

def Ex.label (x : Ex α) : α := x.node.val

mutual
/-- The nodes, one after another. -/
def Ex.input : Ex α → List (Tree α)
  | .mk n args => n :: inputs args
def inputs : List (Ex α) → List (Tree α)
  | [] => []
  | x :: xs => x.input ++ inputs xs
end

mutual
/-- The node with all its arguments added in order. -/
def Ex.tree (e : Env α κ) : Ex α → Tree α
  | .mk n args => (trees e args).foldl e.addArg n
def trees (e : Env α κ) : List (Ex α) → List (Tree α)
  | [] => []
  | x :: xs => x.tree e :: trees e xs
end

/-- The labels of arguments, without the ignored ones. -/
def labels (e : Env α κ) (xs : List (Ex α)) : List α := (xs.map Ex.label).filter fun a => !e.ignored a

/-- With the arguments `ls`, a node `a` can have an argument of the type `c`. -/
def CanHave (e : Env α κ) (a : α) (ls : List α) (c : κ) : Prop :=
  ∃ s ∈ e.sigs a, ∃ pre post, s = pre ++ c :: post ∧ Match e ls pre

/-- With the arguments `ls`, a node `a` can have `b` as next argument: an instance of one of the types it can have.
An ignored node is taken if it can have any argument, and also if it could have arguments but gives no signatures. -/
def Accepts (e : Env α κ) (a : α) (ls : List α) (b : α) : Prop :=
  (∃ c, CanHave e a ls c ∧ (e.ignored b = true ∨ e.isa b c = true)) ∨
    (e.ignored b = true ∧ e.gen a = true ∧ e.sigs a = [] ∧ ls = [])

/-- Neither the node nor its last argument (nor the last argument of that, and so on) can have `b` as a further
argument. -/
inductive Over (e : Env α κ) (b : α) : Ex α → Prop
  | mk (n : Tree α) (args : List (Ex α)) : ¬ Accepts e n.val (arguments e n ++ labels e args) b →
      (∀ y, args.getLast? = some y → Over e b y) → Over e b (.mk n args)

/-- A proper expression: every argument is one that the node can have there, and does not belong to the argument
before it. -/
inductive Good (e : Env α κ) : Ex α → Prop
  | mk (n : Tree α) (args : List (Ex α)) :
      (∀ pre z post, args = pre ++ z :: post → Accepts e n.val (arguments e n ++ labels e pre) z.label) →
      args.IsChain (fun x y => Over e y.label x) → (∀ x ∈ args, Good e x) → Good e (.mk n args)

/-- Proper expressions after one another. -/
def GoodAll (e : Env α κ) (xs : List (Ex α)) : Prop :=
  (∀ x ∈ xs, Good e x) ∧ xs.IsChain (fun x y => Over e y.label x)

end Quickly.Build.Spec
