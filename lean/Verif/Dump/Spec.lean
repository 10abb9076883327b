import Verif.Dump.Model

/-!
# Reading Python code

A reader of the part of Python that has calls with positional arguments: a name, and between parentheses the arguments,
separated by commas. There may be whitespace before and after each argument, and a comma after the last one.
-/

namespace Quickly.Dump.Spec

open Quickly.Node Quickly.Text Quickly.Dump

variable {κ η : Type}

/-- The names and values that are known to Python: the class with a name, whether its first argument is a
head value, and what value is read from the start of a text. -/
structure Env (κ η : Type) where
  cls : Str → Option κ
  isText : κ → Bool
  lit : Str → Option (η × Str)

/-- The text without the whitespace that it begins with. -/
def skip (s : Str) : Str := s.dropWhile fun c => c == ' ' || c == '\n'

mutual
/-- Read a call from the start of a text: the element that it makes, and the text after it. The number limits the depth
of the recursion. -/
def call (E : Env κ η) : ℕ → Str → Option (Tree (Val κ η) × Str)
  | 0, _ => none
  | n + 1, s =>
    match s.dropWhile (· != '(') with
    | '(' :: r =>
      match E.cls (s.takeWhile (· != '(')) with
      | none => none
      | some k =>
        if E.isText k then
          match E.lit (skip r) with
          | none => none
          | some (v, r) => (more E n r).map fun x => (.node (k, some v) x.1, x.2)
        else (args E n r).map fun x => (.node (k, none) x.1, x.2)
    | _ => none
/-- The arguments that are left, and the text after the closing parenthesis. -/
def args (E : Env κ η) : ℕ → Str → Option (List (Tree (Val κ η)) × Str)
  | 0, _ => none
  | n + 1, s =>
    match skip s with
    | ')' :: r => some ([], r)
    | s =>
      match call E n s with
      | none => none
      | some (t, r) => (more E n r).map fun x => (t :: x.1, x.2)
/-- What follows after an argument: a comma with further arguments, or the closing parenthesis. -/
def more (E : Env κ η) : ℕ → Str → Option (List (Tree (Val κ η)) × Str)
  | 0, _ => none
  | n + 1, s =>
    match skip s with
    | ')' :: r => some ([], r)
    | ',' :: r => args E n r
    | _ => none
end

/-- What Python makes of a text with one expression: the element, provided that nothing follows it. -/
def eval (E : Env κ η) (s : Str) : Option (Tree (Val κ η)) :=
  match call E (2 * s.length + 2) s with
  | some (t, r) => if skip r = [] then some t else none
  | none => none

/-- A text does not begin with whitespace or a closing parenthesis, and is not empty. -/
def Begins (s : Str) : Prop := ∃ c r, s = c :: r ∧ c ≠ ' ' ∧ c ≠ '\n' ∧ c ≠ ')'

/-- Python knows an element: its class by its name, and its head value can be read from its `repr()`. -/
structure Known (N : Names κ η) (E : Env κ η) (x : Val κ η) : Prop where
  cls : E.cls (N.name x.1) = some x.1
  name : '(' ∉ N.name x.1 ∧ Begins (N.name x.1)
  text : E.isText x.1 = x.2.isSome
  repr : ∀ v, x.2 = some v → Begins (N.repr v) ∧
    ∀ r, (∃ c q, r = c :: q ∧ (c = ',' ∨ c = ')')) → E.lit (N.repr v ++ r) = some (v, r)

/-- Every node of a tree has the property. -/
def Each {α : Type} (P : α → Prop) (t : Tree α) : Prop := ∀ p n, t.get? p = some n → P n.val

end Quickly.Dump.Spec
