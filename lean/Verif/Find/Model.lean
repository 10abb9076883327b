import Verif.Node.Lemmas
import Mathlib.Data.Int.Notation

/-!
# Model of finding nodes by text position, `quickly/dom/element.py` L321-471

Of an element only the origins matter here: the tokens its head and tail were read from.
-/

namespace Quickly.Find

open Quickly.Node

/-- A parce token: its position in the text and the end of it. -/
structure Tok where
  pos : ℤ
  stop : ℤ

/-- An element. `head` and `tail` are `head_origin` and `tail_origin`; an element without such
an attribute (AttributeError) or with an empty tuple (IndexError) has `[]`, as these errors are treated
the same, L333, L352. -/
structure Org where
  head : List Tok := []
  tail : List Tok := []

/-- `self.head_origin[0].pos`. -/
def headPos (t : Tree Org) : Option ℤ := t.val.head.head?.map Tok.pos

/-- `self.descendants()`, the nodes in document order (see C26). -/
def descendants : Tree Org → List (Tree Org)
  | .node _ cs => go cs
where
  /-- The children and their descendants. -/
  go : List (Tree Org) → List (Tree Org)
    | [] => []
    | c :: cs => c :: descendants c ++ go cs

/-- `Element.pos`, L321-338. -/
def pos (t : Tree Org) : Option ℤ :=
  match headPos t with
  | some p => some p
  | none => (descendants t).findSome? headPos

/-- `Element.end`, L340-360. -/
def stop : Tree Org → Option ℤ
  | .node e cs =>
    match e.tail.getLast?.map Tok.stop with
    | some p => some p
    | none =>
      match kids cs with
      | some p => some p
      | none => e.head.getLast?.map Tok.stop
where
  /-- The loop over the reversed children, L354-357: the end of the last one that has one. -/
  kids : List (Tree Org) → Option ℤ
    | [] => none
    | c :: cs =>
      match kids cs with
      | some p => some p
      | none => stop c

/-- The loop of `find_child`, L372-384. -/
def childLoop (position : ℤ) (prev : Option (Item Org)) : List (Item Org) → Py (Option (Item Org))
  | [] => .ok prev
  | n :: ns =>
    match pos n.2 with
    | some p =>
      if p = position then .ok (some n)
      else if p > position then .ok prev
      else
        match stop n.2 with
        | none => .error .typeError
        | some e =>
          if e > position then .ok (some n)
          else childLoop position (if e = position then some n else none) ns
    | none => childLoop position prev ns

/-- `find_child`, L362-384. -/
def findChild (position : ℤ) (n : Item Org) : Py (Option (Item Org)) :=
  childLoop position none (iterate false n)

theorem childLoop_mem {position : ℤ} {prev : Option (Item Org)} {ns : List (Item Org)} {m : Item Org}
    (h : childLoop position prev ns = .ok (some m)) : prev = some m ∨ m ∈ ns := by
  induction ns generalizing prev with
  | nil => exact .inl (Except.ok.inj h)
  | cons n ns ih =>
    rw [childLoop] at h
    repeat' split at h
    · exact .inr (by simp [Option.some.inj (Except.ok.inj h)])
    · exact .inl (Except.ok.inj h)
    · cases h
    · exact .inr (by simp [Option.some.inj (Except.ok.inj h)])
    · rcases ih h with h' | h'
      · exact .inr (by simp [Option.some.inj h'])
      · exact .inr (by simp [h'])
    · rcases ih h with h' | h'
      · cases h'
      · exact .inr (by simp [h'])
    · rcases ih h with h' | h'
      · exact .inl h'
      · exact .inr (by simp [h'])

theorem findChild_size {position : ℤ} {n m : Item Org} (h : findChild position n = .ok (some m)) :
    m.2.size < n.2.size := by
  rcases childLoop_mem h with h | h
  · cases h
  · have h1 := wsize_iterate false n
    obtain ⟨as, bs, e⟩ := List.append_of_mem h
    rw [e, wsize_append] at h1
    simp only [wsize, List.map_cons, List.sum_cons] at h1
    omega

/-- The loop of `find_descendants`, L413-415; `found` is the result of `find_child`. -/
def descendLoop (position stopPos : ℤ) (found : Py (Option (Item Org))) : Py (List (Item Org)) :=
  match found with
  | .error e => .error e
  | .ok none => .ok []
  | .ok (some n) =>
    match pos n.2, stop n.2 with
    | some p, some e =>
      if p ≤ position ∧ stopPos ≤ e then
        match descendLoop position stopPos (findChild position n) with
        | .ok ns => .ok (n :: ns)
        | .error e => .error e
      else .ok []
    | _, _ => .error .typeError
termination_by match found with
  | .ok (some n) => n.2.size
  | _ => 0
decreasing_by
  split
  · rename_i h; exact findChild_size h
  · have := size_eq n.2; omega

/-- `find_descendants`, L400-415. -/
def findDescendants (position : ℤ) (stopPos : Option ℤ) (n : Item Org) : Py (List (Item Org)) :=
  let e := match stopPos with
    | none => position
    | some e => if e < position then position else e
  descendLoop position e (findChild position n)

/-- `find_descendant`, L386-398. -/
def findDescendant (position : ℤ) (stopPos : Option ℤ) (n : Item Org) : Py (Option (Item Org)) :=
  match findDescendants position stopPos n with
  | .ok ns => .ok ns.getLast?
  | .error e => .error e

/-- What to do with a node: go on, return it, or enter it. -/
inductive Look
  | skip
  | found
  | enter

/-- The loop of `find_descendant_right` (L427-443) and `find_descendant_left` (L455-471), which
differ in the direction and in what they do with a node. -/
def walk (rev : Bool) (look : Item Org → Py Look) (gen : List (Item Org)) (stack : List (List (Item Org))) :
    Py (Option (Item Org)) :=
  match gen with
  | n :: gen =>
    match look n with
    | .error e => .error e
    | .ok .skip => walk rev look gen stack
    | .ok .found => .ok (some n)
    | .ok .enter => walk rev look (iterate rev n) (gen :: stack)
  | [] =>
    match stack with
    | gen :: stack => walk rev look gen stack
    | [] => .ok none
termination_by (wsize gen + wsize stack.flatten, stack.length)
decreasing_by
  all_goals simp only [wsize, List.map_cons, List.sum_cons, List.flatten_cons, List.map_append, List.sum_append, List.map_nil, List.sum_nil, Prod.lex_def, List.length_cons]
  · have := size_eq n.2; omega
  · have := wsize_iterate rev n
    simp only [wsize] at this
    omega
  · omega

/-- What `find_descendant_right` does with a node, L431-437. -/
def lookRight (position : ℤ) (n : Item Org) : Py Look :=
  match stop n.2 with
  | some e =>
    if e > position then
      match pos n.2 with
      | some p => if p ≥ position then .ok .found else .ok .enter
      | none => .error .typeError
    else .ok .skip
  | none => .ok .skip

/-- What `find_descendant_left` does with a node, L459-465. -/
def lookLeft (position : ℤ) (n : Item Org) : Py Look :=
  match pos n.2 with
  | some p =>
    if p < position then
      match stop n.2 with
      | some e => if e ≤ position then .ok .found else .ok .enter
      | none => .error .typeError
    else .ok .skip
  | none => .ok .skip

/-- `find_descendant_right`, L417-443. -/
def findRight (position : ℤ) (n : Item Org) : Py (Option (Item Org)) :=
  walk false (lookRight position) (iterate false n) []

/-- `find_descendant_left`, L445-471. -/
def findLeft (position : ℤ) (n : Item Org) : Py (Option (Item Org)) :=
  walk true (lookLeft position) (iterate true n) []

end Quickly.Find
