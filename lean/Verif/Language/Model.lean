import Verif.Pitch.Model
import Verif.Query.Model

/-!
# Model of following the pitch name language, `quickly/pitch.py` L447-478, and of
`distill_preferences`, L480-557
-/

namespace Quickly.Language

open Quickly.Pitch Quickly.Node Quickly.Query

/-- A node of a document: a `\language` or `\include` command with the text of its String
child, if any (`quickly/dom/lily.py` L2782, L2813), or something else. -/
inductive Nd where
  | language (s : Option Str)
  | incl (s : Option Str)
  | other (i : ℕ)
deriving DecidableEq

/-- The classes that matter. -/
inductive NCls where
  | language | incl | other
deriving DecidableEq

/-- The class of a node. -/
def Nd.cls : Nd → NCls
  | .language _ => .language
  | .incl _ => .incl
  | .other _ => .other

/-- For the query operators. -/
def env : Env Nd NCls := { cls := Nd.cls, isSub := fun a b => decide (a = b), bodyEquals := fun a b => decide (a = b) }

/-- `name in pitch_names`. -/
def knows (pn : Names) (name : Str) : Bool := (pn.get name).isSome

/-- `filename.endswith(".ly")`, and the part before it, `quickly/dom/lily.py` L2832-2833. -/
def stem (f : Str) : Option Str :=
  if ".ly".toList.isSuffixOf f then some (f.take (f.length - 3)) else none

/-- The attribute `language`, `quickly/dom/lily.py` L2779-2783 and L2823-2835. -/
def Nd.lang (pn : Names) : Nd → Py (Option Str)
  | .language s => .ok s
  | .incl none => .error .attributeError
  | .incl (some f) =>
    match stem f with
    | some l => .ok (if knows pn l then some l else none)
    | none => .ok none
  | .other _ => .ok none

/-- `lang = n.language; if lang: self.language = lang`, `quickly/pitch.py` L456-458 and L473-475, with the
setter L251-255: the language that is set, if any. -/
def sets (pn : Names) (n : Nd) : Py (Option Str) :=
  match n.lang pn with
  | .error e => .error e
  | .ok none => .ok none
  | .ok (some []) => .ok none
  | .ok (some (c :: l)) => if knows pn (c :: l) then .ok (some (c :: l)) else .error .keyError

/-- The loop of `find_language`, `quickly/pitch.py` L455-459: the language afterwards. -/
def findLoop (pn : Names) (cur : Str) : List Nd → Py Str
  | [] => .ok cur
  | n :: ns =>
    match sets pn n with
    | .error e => .error e
    | .ok none => findLoop pn cur ns
    | .ok (some l) => .ok l

/-- `find_language(node)` for the node at `p` of the tree `t`, L447-459: it can give `result`. -/
def FindLanguage (pn : Names) (cur : Str) (t : Node.Tree Nd) (p : Path) (n : Node.Tree Nd) (result : Py Str) : Prop :=
  ∃ out, Yields env t p n .lt (.classes [.language, .incl]) out ∧ findLoop pn cur (out.map fun m => m.2.val) = result

/-- `follow_language(nodes)`, L461-478: the nodes it yields, each with the language at that moment, and
the language, or the exception, at the end. -/
def follow (pn : Names) (cur : Str) : List (Item Nd) → List (Item Nd × Str) × Py Str
  | [] => ([], .ok cur)
  | n :: ns =>
    match sets pn n.2.val with
    | .error e => ([], .error e)
    | .ok (some l) => follow pn l ns
    | .ok none => ((n, cur) :: (follow pn cur ns).1, (follow pn cur ns).2)

end Quickly.Language
