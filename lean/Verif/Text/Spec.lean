import Verif.Text.Model

/-!
# What the properties of text output speak about
-/

namespace Quickly.Text.Spec

open Quickly.Node Quickly.Text

/-- Whitespace `a` is at most as important as `b`: it has fewer newlines, or as many and
at most as many spaces. -/
def AtMost (a b : Str) : Prop :=
  a.count '\n' < b.count '\n' ∨ (a.count '\n' = b.count '\n' ∧ a.count ' ' ≤ b.count ' ')

/-- `w` is the most important of the list: the first one that has no more important
one. -/
def MostImportant (ws : List Str) (w : Str) : Prop :=
  ∃ as bs, ws = as ++ w :: bs ∧ (∀ x ∈ ws, AtMost x w) ∧ ∀ x ∈ as, ¬ AtMost w x

/-- Fragments taken apart: the wishes before the first text, and the texts (that are not
empty), each with the wishes between it and the next text. -/
def layout : List Frag → List Str × List (Str × List Str)
  | [] => ([], [])
  | f :: fs =>
    let l := layout fs
    if f.text = [] then (f.before :: f.after :: l.1, l.2) else ([f.before], (f.text, f.after :: l.1) :: l.2)

/-- The texts with between each two the most important of the wishes. -/
def join : List (Str × List Str) → Str
  | [] => []
  | [(t, _)] => t
  | (t, ws) :: u :: us => t ++ collapse ws ++ join (u :: us)

/-- The wishes after the last text. -/
def lastWishes : List (Str × List Str) → List Str
  | [] => []
  | [(_, ws)] => ws
  | _ :: u :: us => lastWishes (u :: us)

/-- Only newlines and spaces. -/
def Plain (s : Str) : Prop := ∀ c ∈ s, c = '\n' ∨ c = ' '

/-- The texts alternating with the gaps. -/
def weave : List Str → List Str → Str
  | t :: u :: ts, g :: gs => t ++ g ++ weave (u :: ts) gs
  | t :: _, _ => t
  | [], _ => []

/-- A text, if it is not empty. -/
def some? (s : Str) : List Str := if s = [] then [] else [s]

/-- All texts of the elements, in document order: the head, then those of the children,
then the tail. -/
def texts : Tree Elem → List Str
  | .node e cs => (if e.kind = .plain then [] else some? e.head) ++ go cs ++ (if e.kind = .block then some? e.tail else [])
where
  /-- Those of the children. -/
  go : List (Tree Elem) → List Str
    | [] => []
    | c :: cs => texts c ++ go cs

/-- A whitespace wish in the tree: a spacing attribute of an element, or the space an
element wants between two adjacent children. -/
inductive Wish (cc : Concat) : Tree Elem → Str → Prop
  | before {e cs} : Wish cc (.node e cs) e.sp.before
  | afterHead {e cs} : Wish cc (.node e cs) e.sp.afterHead
  | beforeTail {e cs} : Wish cc (.node e cs) e.sp.beforeTail
  | after {e cs} : Wish cc (.node e cs) e.sp.after
  | between {e as c d bs} : Wish cc (.node e (as ++ c :: d :: bs)) (cc e c d)
  | child {e cs c w} : c ∈ cs → Wish cc c w → Wish cc (.node e cs) w

/-- All whitespace wishes are newlines and spaces. -/
def allPlain (cc : Concat) (t : Tree Elem) : Prop := ∀ w, Wish cc t w → Plain w

/-- The element or one of its descendants is of a kind that has a text. -/
def hasPoint : Tree Elem → Bool
  | .node e cs => e.kind != .plain || go cs
where
  /-- One of these. -/
  go : List (Tree Elem) → Bool
    | [] => false
    | c :: cs => hasPoint c || go cs

/-- The fragment of the head of an element with this number of children. -/
def headFrag (e : Elem) (len : ℕ) : List Frag :=
  if e.kind = .plain then []
  else if len = 0 ∧ (e.kind = .head ∨ e.tail = []) then [⟨e.sp.before, e.head, e.sp.after⟩]
  else [⟨e.sp.before, e.head, e.sp.afterHead⟩]

/-- The fragment of the tail. -/
def tailFrag (e : Elem) : List Frag :=
  if e.kind = .block then [⟨e.sp.beforeTail, e.tail, e.sp.after⟩] else []

/-- The fragments of the children, given what they are combined to by themselves: after each but the last comes
the wish of the parent for the space between, after the last one the parent's `space_after` if the parent has no
tail. -/
def childFrags (cc : Concat) (out : Tree Elem → Frag) (e : Elem) : List (Tree Elem) → List Frag
  | [] => []
  | n :: ns =>
    (if hasPoint n then
      [match ns with
      | m :: _ => { out n with after := collapse [(out n).after, cc e n m] }
      | [] => if e.kind = .block then out n else { out n with after := collapse [(out n).after, e.sp.after] }]
    else []) ++ childFrags cc out e ns

end Quickly.Text.Spec
