import Verif.Scheme.Model
import Verif.Query.Model
import Verif.Assign.Model
import Verif.Scope.Model

/-!
# Model of the attributes of LilyPond nodes

`Document.version`, `Version.version`, `Language.language`, `Include.filename` and `Include.language`
(`quickly/dom/lily.py` L575-591, L2738-2840), `lilypond_version` (`quickly/dom/util.py` L172-181) and its use by
`quickly/relative.py` and `quickly/transpose.py`, and the descriptor `_Variable` (`quickly/dom/lily.py` L450-483).
-/

namespace Quickly.Access

open Quickly.Node Quickly.Query

/-- A text. -/
abbrev Str := List Char

/-- The nodes: the commands `\version`, `\language` and `\include`, a String with its head, something else. -/
inductive Nd where
  | version
  | language
  | incl
  | string (head : Str)
  | other (id : ℕ)
deriving DecidableEq

/-- The classes that are asked for. -/
inductive NCls where
  | version | language | incl | string | other
deriving DecidableEq

/-- The class of a node. -/
def Nd.cls : Nd → NCls
  | .version => .version
  | .language => .language
  | .incl => .incl
  | .string _ => .string
  | .other _ => .other

/-- For the query operators. -/
def env : Env Nd NCls := { cls := Nd.cls, isSub := fun a b => decide (a = b), bodyEquals := fun a b => decide (a = b) }

/-- `re.findall(r'\d+', s)` with `int` of every match, L2747.  The first argument gives the value of a decimal digit (there
are more than the ten of ASCII), the second is the value of the match so far. (Python refuses to convert more than 4300
digits; that is not modelled.) -/
def findInts (dig : Char → Option ℕ) : Option ℕ → Str → List ℕ
  | cur, [] => cur.toList
  | cur, c :: s => match dig c with
    | some d => findInts dig (some (10 * cur.getD 0 + d)) s
    | none => cur.toList ++ findInts dig none s

/-- `'.'.join(map(str, version))`, L2752. -/
def joinVersion : List ℕ → Str
  | [] => []
  | [n] => Scheme.fmtNat .dec n
  | n :: ns => Scheme.fmtNat .dec n ++ '.' :: joinVersion ns

/-- The head of the first String child: `for n in self / String: return n.head`, L2746-2747, L2782-2783, L2813-2814. -/
def getString : List (Node.Tree Nd) → Option Str
  | [] => none
  | .node (.string s) _ :: _ => some s
  | _ :: cs => getString cs

/-- `for n in self / String: n.head = s; return`, L2753-2755, L2787-2789, L2818-2820: none if there is no String. -/
def changeString (s : Str) : List (Node.Tree Nd) → Option (List (Node.Tree Nd))
  | [] => none
  | .node (.string _) u :: cs => some (.node (.string s) u :: cs)
  | c :: cs => (changeString s cs).map (c :: ·)

/-- The setters: the head of the first String is changed, otherwise `self.insert(0, String(s))`, L2756-2757, L2790, L2821. -/
def setString (s : Str) : Node.Tree Nd → Node.Tree Nd
  | .node v cs => .node v ((changeString s cs).getD (.node (.string s) [] :: cs))

/-- `Version.version`, L2743-2748. -/
def version (dig : Char → Option ℕ) (n : Node.Tree Nd) : List ℕ :=
  match getString n.children with
  | some s => findInts dig none s
  | none => []

/-- The setter of `Version.version`, L2750-2757. -/
def setVersion (v : List ℕ) (n : Node.Tree Nd) : Node.Tree Nd := setString (joinVersion v) n

/-- `n` with the node at the place `p` changed. -/
def modify (f : Node.Tree Nd → Node.Tree Nd) : Path → Node.Tree Nd → Node.Tree Nd
  | [], n => f n
  | i :: p, .node v cs => .node v (cs.modify i (modify f p))

/-- `Document.version` of the document `t`, L578-583, and `lilypond_version` of every node in it, `quickly/dom/util.py`
L172-181, can give `v`. -/
def DocVersion (dig : Char → Option ℕ) (t : Node.Tree Nd) (v : List ℕ) : Prop :=
  ∃ out, Yields env t [] t .floordiv (.classes [.version]) out ∧
    v = match out with
      | [] => []
      | n :: _ => version dig n.2

/-- The setter of `Document.version`, L585-590, can give `t'`. -/
def SetDocVersion (v : List ℕ) (t t' : Node.Tree Nd) : Prop :=
  ∃ out, Yields env t [] t .floordiv (.classes [.version]) out ∧
    t' = match out with
      | [] => .node t.val (setVersion v (.node .version []) :: t.children)
      | n :: _ => modify (setVersion v) n.1 t

/-- `a >= b` for tuples of integers. -/
def tupleGe : List ℕ → List ℕ → Bool
  | _, [] => true
  | [], _ :: _ => false
  | a :: as, b :: bs => if a = b then tupleGe as bs else decide (b < a)

/-- `util.lilypond_version(node) >= (2, 18)`, `quickly/relative.py` L65, L180, `quickly/transpose.py` L143. -/
def FirstPitchAbsolute (dig : Char → Option ℕ) (t : Node.Tree Nd) (b : Bool) : Prop :=
  ∃ v, DocVersion dig t v ∧ b = tupleGe v [2, 18]

/-- `Include.language`, L2823-2835; `known` is `language in pitch.pitch_names`. -/
def inclLanguage (known : Str → Bool) (n : Node.Tree Nd) : Py (Option Str) :=
  match getString n.children with
  | none => .error .attributeError
  | some f =>
    if ".ly".toList.isSuffixOf f then
      let language := f.take (f.length - 3)
      .ok (if known language then some language else none)
    else .ok none

/-- The setter of `Include.language`, L2837-2839. -/
def setInclLanguage (l : Str) (n : Node.Tree Nd) : Node.Tree Nd := setString (l ++ ".ly".toList) n

/-! ## `_Variable` -/

open Quickly.Assign in
/-- `name.replace('_', '-')`, L469. -/
def variableName (attr : Str) : Name := .str (String.ofList (attr.map fun c => if c = '_' then '-' else c))

open Quickly.Assign in
/-- `_Variable.__get__`, L471-474 (a node is always true). -/
def getAttr (cs : List Child) (attr : Str) : Py (Option Val) := getVariable cs (variableName attr)

open Quickly.Assign in
/-- `_Variable.__set__`, L476-480; none is None. -/
def setAttr (isSymbol : String → Bool) (cs : List Child) (attr : Str) : Option Val → Py (List Child)
  | none => pure (unsetVariable cs (variableName attr))
  | some v => setVariable isSymbol cs (variableName attr) v

open Quickly.Assign in
/-- `_Variable.__delete__`, L482-483. -/
def delAttr (cs : List Child) (attr : Str) : List Child := unsetVariable cs (variableName attr)

/-! ## References to variables -/

open Quickly.Assign in
/-- An `IdentifierRef`: its head, without the backslash, and its children. -/
structure Ref where
  head : String
  children : List Item
deriving DecidableEq

open Quickly.Assign in
/-- `IdentifierRef.get_name`, L1099-1115. -/
def Ref.getName (r : Ref) : Name :=
  match (if r.head = "" then [] else [.str r.head]) ++ getList r.children with
  | [.str s] => .str s
  | [.int i] => .int i
  | names => .tuple names

open Quickly.Assign in
/-- The inner loop of `IdentifierRef.set_name`, L1141-1143. -/
def refRest (isSymbol : String → Bool) : List Part → List Item
  | [] => []
  | p :: ps => .separator "." :: makeListNode isSymbol p :: refRest isSymbol ps

open Quickly.Assign in
/-- L1133-1143: the parts of the name, as nodes; the head stays as it is if there are none. -/
def Ref.setParts (isSymbol : String → Bool) (r : Ref) : List Part → Ref
  | [] => ⟨r.head, []⟩
  | p :: ps => match makeListNode isSymbol p with
    | .symbol s => ⟨s, refRest isSymbol ps⟩
    | n => ⟨"", n :: refRest isSymbol ps⟩

open Quickly.Assign in
/-- `IdentifierRef.set_name`, L1117-1143 (an integer is not iterable). -/
def Ref.setName (isSymbol : String → Bool) (r : Ref) : Name → Py Ref
  | .str s => .ok (r.setParts isSymbol [.str s])
  | .int _ => .error .typeError
  | .tuple ps => .ok (r.setParts isSymbol ps)

open Quickly.Assign in
/-- `IdentifierRef(head)`, a `TextElement` that cannot be made without a head, `quickly/dom/element.py` L874. -/
def newRef : Option String → Py Ref
  | none => .error .typeError
  | some head => if head.startsWith "\\" then .error .typeError else .ok ⟨head, []⟩

open Quickly.Assign in
/-- `IdentifierRef.with_name`, L1087-1097. -/
def refWithName (isSymbol : String → Bool) (name : Name) : Py Ref := do
  (← newRef none).setName isSymbol name

/-- `Reference.get_value_with_scope`, L427-443, for a reference with the name that is looked up from the place in the scope;
`cfg wait` are the surroundings, which depend on whether ongoing transformations are waited for. -/
def getValueWithScope (cfg : Bool → Scope.Config) (depth : ℕ) (s : Scope.Scope) (place : List Scope.Node) (name : String)
    (wait : Bool) : Option (ℕ × Scope.Scope) :=
  (Scope.precedingNodes (cfg wait) depth s.top s.parents place).bind (Scope.findAssignment name)

/-- `Reference.get_value`, L416-425: `wait` is not used. -/
def getValue (cfg : Bool → Scope.Config) (depth : ℕ) (s : Scope.Scope) (place : List Scope.Node) (name : String)
    (_wait : Bool) : Option ℕ :=
  (getValueWithScope cfg depth s place name true).map (·.1)

end Quickly.Access
