import Verif.Html.Model

/-!
# Html, apart from the elements of quickly
-/

namespace Quickly.Html.Spec

open Quickly.Text

/-- A piece of Html: text, or an element with a name, attributes (a value is not needed) and contents. -/
inductive X where
  | text (s : Str)
  | elem (name : Str) (attrs : List (Str × Option Str)) (kids : List X)

/-- The characters that mean something in Html are written as entity. -/
def esc (s : Str) : Str := s.flatMap fun c => match c with
  | '&' => "&amp;".toList
  | '<' => "&lt;".toList
  | '>' => "&gt;".toList
  | '"' => "&quot;".toList
  | '\'' => "&#x27;".toList
  | c => [c]

/-- An attribute, with a space before it. -/
def serAttr (a : Str × Option Str) : Str :=
  [' '] ++ a.1 ++ (match a.2 with
    | some v => "=\"".toList ++ esc v ++ "\"".toList
    | none => [])

/-- How Html is written. -/
def ser : X → Str
  | .text s => esc s
  | .elem name attrs [] => "<".toList ++ name ++ (attrs.map serAttr).flatten ++ "/>".toList
  | .elem name attrs (k :: kids) =>
    "<".toList ++ name ++ (attrs.map serAttr).flatten ++ ">".toList ++ go (k :: kids) ++ "</".toList ++ name ++ ">".toList
where
  /-- The contents. -/
  go : List X → Str
    | [] => []
    | x :: xs => ser x ++ go xs

/-- All text in it. -/
def plain : X → Str
  | .text s => s
  | .elem _ _ kids => go kids
where
  /-- The contents. -/
  go : List X → Str
    | [] => []
    | x :: xs => plain x ++ go xs

/-- A name is not empty and has no character that ends a name. -/
def isName (s : Str) : Bool := s != [] && s.all fun c => !([' ', '\n', '\t', '<', '>', '/', '=', '"', '\'', '&'].contains c)

/-- It is a text. -/
def isText : X → Bool
  | .text _ => true
  | .elem _ _ _ => false

/-- All names are names. -/
def named : X → Bool
  | .text _ => true
  | .elem name attrs kids => isName name && attrs.all (fun a => isName a.1) && go kids
where
  /-- The contents. -/
  go : List X → Bool
    | [] => true
    | x :: xs => named x && go xs

/-- No text is empty, and no two texts are next to each other: the contents are not cut in more pieces than needed. -/
def normal : X → Bool
  | .text s => s != []
  | .elem _ _ kids => go kids
where
  /-- The contents. -/
  go : List X → Bool
    | [] => true
    | x :: xs => normal x && !(isText x && (xs.head?.map isText).getD false) && go xs

end Quickly.Html.Spec
