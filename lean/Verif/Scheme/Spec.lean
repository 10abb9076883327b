import Verif.Scheme.Model

/-!
# Reading Scheme text

A small reader of Scheme data (R5RS), independent of the code: what a text means.
-/

namespace Quickly.Scheme.Spec

open Quickly.Scheme

/-! ## Numbers -/

/-- The value of a digit. -/
def digit : Char → Option ℕ
  | '0' => some 0 | '1' => some 1 | '2' => some 2 | '3' => some 3 | '4' => some 4
  | '5' => some 5 | '6' => some 6 | '7' => some 7 | '8' => some 8 | '9' => some 9
  | 'a' => some 10 | 'b' => some 11 | 'c' => some 12 | 'd' => some 13 | 'e' => some 14 | 'f' => some 15
  | 'A' => some 10 | 'B' => some 11 | 'C' => some 12 | 'D' => some 13 | 'E' => some 14 | 'F' => some 15
  | _ => none

/-- The value of digits with base `b`, after digits with value `acc`. -/
def digits (b acc : ℕ) : Str → Option ℕ
  | [] => some acc
  | c :: s => match digit c with
    | some d => if d < b then digits b (b * acc + d) s else none
    | none => none

/-- One or more digits. -/
def natural (b : ℕ) (s : Str) : Option ℕ := if s = [] then none else digits b 0 s

/-- `<natural>` or `<natural>/<natural>`. -/
def ureal (b : ℕ) (s : Str) : Option ℚ :=
  match s.dropWhile (· ≠ '/') with
  | '/' :: t =>
    match natural b (s.takeWhile (· ≠ '/')), natural b t with
    | some n, some d => if d = 0 then none else some ((n : ℚ) / d)
    | _, _ => none
  | _ => (natural b s).map fun n => (n : ℚ)

/-- With a sign. -/
def sreal (b : ℕ) : Str → Option ℚ
  | '-' :: s => (ureal b s).map fun q => -q
  | '+' :: s => ureal b s
  | s => ureal b s

/-- An exact number, with a radix prefix. -/
def number : Str → Option ℚ
  | '#' :: 'b' :: s => sreal 2 s
  | '#' :: 'o' :: s => sreal 8 s
  | '#' :: 'd' :: s => sreal 10 s
  | '#' :: 'x' :: s => sreal 16 s
  | s => sreal 10 s

/-! ## Data -/

/-- Scheme data. -/
inductive Datum where
  | bool (b : Bool)
  | num (q : ℚ)
  | str (s : Str)
  | sym (s : Str)
  | quoted (q : Q) (d : Datum)
  | splice (d : Datum)
  | nil
  | pair (a d : Datum)

/-- White space. -/
def isSpace (c : Char) : Bool := c == ' ' || c == '\n' || c == '\t'

/-- What ends a word. -/
def isDelim (c : Char) : Bool := isSpace c || c == '(' || c == ')' || c == '"' || c == ';'

/-- A string up to the closing quote. -/
def string (acc : Str) : Str → Option (Str × Str)
  | [] => none
  | '"' :: s => some (acc.reverse, s)
  | ['\\'] => none
  | '\\' :: c :: s => string (c :: acc) s
  | c :: s => string (c :: acc) s

/-- A word that is a symbol: it is not a number and no dot, and does not begin like something else. -/
def Symbol (w : Str) : Prop :=
  (∃ c w', w = c :: w' ∧ c ∉ ['#', '\'', '`', ',', '@']) ∧ (∀ c ∈ w, isDelim c = false) ∧ number w = none ∧ w ≠ ['.']

/-- A word without parentheses and quotes. -/
def atom (w : Str) : Option Datum :=
  if w = ['#', 't'] then some (.bool true)
  else if w = ['#', 'f'] then some (.bool false)
  else match number w with
    | some q => some (.num q)
    | none =>
      match w with
      | [] => none
      | c :: w' => if c = '#' ∨ c :: w' = ['.'] then none else some (.sym (c :: w'))

mutual

/-- Read a datum: it, and the rest of the text. The number limits the nesting. -/
def readDatum : ℕ → Str → Option (Datum × Str)
  | 0, _ => none
  | n + 1, s =>
    match s.dropWhile isSpace with
    | [] => none
    | c :: s =>
      if c = '(' then readList n s
      else if c = ')' then none
      else if c = '"' then (string [] s).map fun r => (.str r.1, r.2)
      else if c = '\'' then (readDatum n s).map fun r => (.quoted .quote r.1, r.2)
      else if c = '`' then (readDatum n s).map fun r => (.quoted .quasi r.1, r.2)
      else if c = ',' then
        if s.head? = some '@' then (readDatum n s.tail).map fun r => (.splice r.1, r.2)
        else (readDatum n s).map fun r => (.quoted .unquote r.1, r.2)
      else (atom ((c :: s).takeWhile fun c => !isDelim c)).map fun d => (d, (c :: s).dropWhile fun c => !isDelim c)

/-- Read the data of a list up to the closing parenthesis. -/
def readList : ℕ → Str → Option (Datum × Str)
  | 0, _ => none
  | n + 1, s =>
    match s.dropWhile isSpace with
    | [] => none
    | c :: s =>
      if c = ')' then some (.nil, s)
      else if (c :: s).takeWhile (fun c => !isDelim c) = ['.'] then
        match readDatum n s with
        | none => none
        | some (d, r) => match r.dropWhile isSpace with
          | [] => none
          | c :: r => if c = ')' then some (d, r) else none
      else match readDatum n (c :: s) with
        | none => none
        | some (a, r) => (readList n r).map fun x => (.pair a x.1, x.2)

end

/-- The text means `d`: a reader that goes deep enough reads it, and nothing is left. -/
def Means (s : Str) (d : Datum) : Prop := ∃ N, ∀ n ≥ N, readDatum n s = some (d, [])

/-- What a Python value is in Scheme: a list is a list, a tuple ends with a pair. -/
def denote : Val → Datum
  | .bool b => .bool b
  | .int n => .num n
  | .frac q => .num q
  | .str s => .str s
  | .sym s => .sym s
  | .quoted q v => .quoted q (denote v)
  | .list vs => all vs
  | .tuple vs => dotted vs
where
  /-- A list. -/
  all : List Val → Datum
    | [] => .nil
    | v :: vs => .pair (denote v) (all vs)
  /-- A list of pairs with the last value at the end. -/
  dotted : List Val → Datum
    | [] => .nil
    | [v] => denote v
    | v :: w :: vs => .pair (denote v) (dotted (w :: vs))

/-- Symbols are symbols, and tuples have more than one value (as the documentation asks). -/
def Ok : Val → Prop
  | .sym s => Symbol s
  | .quoted _ v => Ok v
  | .list vs => go vs
  | .tuple vs => 2 ≤ vs.length ∧ go vs
  | _ => True
where
  /-- For all of them. -/
  go : List Val → Prop
    | [] => True
    | v :: vs => Ok v ∧ go vs

end Quickly.Scheme.Spec
