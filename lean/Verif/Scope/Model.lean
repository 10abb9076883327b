import Verif.Basic
import Mathlib.Data.Nat.Notation

/-!
# Model of `quickly/dom/scope.py` and of `Lookup` (`quickly/dom/lily.py` L3165-3269)

`urljoin`, `urlparse(url).path` and the factory are parameters.  Simplification: the include path
and `relative_include`, which a scope gets from its parent, are the same for all scopes.
-/

namespace Quickly.Scope

/-- The nodes in which is searched: an `\include` command, an Assignment, any other one. -/
inductive Node where
  | incl (filename : String)
  | assign (name : String) (value : ℕ)
  | other (id : ℕ)
deriving DecidableEq

/-- A parce Document: its url, and the nodes of the DOM document it is transformed to (`none` if
the transform is not ready and is not waited for, or if it is not a `lily.Document`). -/
structure Doc where
  url : Option String
  dom : Option (List Node)
deriving DecidableEq

/-- The surroundings: the functions from urllib, the factory (`none` is an OSError or None) and
the settings of the scopes. -/
structure Config where
  join : String → String → String
  path : String → String
  factory : String → Option Doc
  includePath : List String
  relativeInclude : Bool

/-- A scope: its document and, for a child scope, the node that was specified to `include_scope`
(given as the nodes that precede it, see `Lookup`), followed by the parent scope, its parent etc. -/
structure Level where
  doc : Doc
  node : Option (List Node)
deriving DecidableEq

/-- A Scope with its ancestors, `Scope.ancestors`, L97-102. -/
structure Scope where
  top : Level
  parents : List Level
deriving DecidableEq

/-- The scope and its ancestors. -/
def Scope.levels (s : Scope) : List Level := s.top :: s.parents

/-- The parent scope. -/
def Scope.parent (s : Scope) : Option Scope :=
  match s.parents with
  | [] => none
  | p :: ps => some ⟨p, ps⟩

/-- `Scope.root`, L104-109. -/
def Scope.root (s : Scope) : Level := s.levels.getLast (by simp [Scope.levels])

/-- The nested function `add` of `Scope.urls`, L126-130. -/
def addUrl (cfg : Config) (skip : List (Option String)) (url : String) (urls : List String)
    (base : Option String) : List String :=
  match base with
  | none => urls
  | some b =>
    if b = "" then urls
    else
      let u := cfg.join b url
      if some u ∉ skip ∧ u ∉ urls then urls ++ [u] else urls

/-- `Scope.urls`, L111-138. -/
def Scope.urls (cfg : Config) (s : Scope) (url : String) : List String :=
  let skip := s.levels.map (·.doc.url)
  let urls := if cfg.relativeInclude then addUrl cfg skip url [] s.top.doc.url else []
  let urls := addUrl cfg skip url urls s.root.doc.url
  (cfg.includePath.map fun u => if u.endsWith "/" then u else u ++ "/").foldl
    (fun urls u => addUrl cfg skip url urls (some u)) urls

/-- `Scope.get_document`, L140-153. -/
def getDocument (cfg : Config) (url : String) : Option Doc := cfg.factory (cfg.path url)

/-- The loop in `Scope.include_scope`, L92-95. -/
def firstDocument (cfg : Config) : List String → Option Doc
  | [] => none
  | u :: us =>
    match getDocument cfg u with
    | some d => some d
    | none => firstDocument cfg us

/-- `Scope.include_scope`, L75-95. -/
def Scope.includeScope (cfg : Config) (s : Scope) (url : String) (node : Option (List Node)) :
    Option Scope :=
  (firstDocument cfg (s.urls cfg url)).map fun d => ⟨⟨d, node⟩, s.levels⟩

/-- The `while` loop over the `stack` in `Lookup.preceding_nodes`, L3232-3250, as a recursive
function: `below` visits the nodes of an included document.  `nodes` are the nodes to visit in
backward direction; those after a node are also the place of that node (of all ancestors that
handle assignments, L3188-3200, the nodes that precede it). -/
def visitWith (cfg : Config) (below : Scope → List Node → Option (List (Node × Scope)))
    (s : Scope) : List Node → Option (List (Node × Scope))
  | [] => some []
  | n :: nodes => do
    let rest ← visitWith cfg below s nodes
    match n with
    | .incl f =>
      match s.includeScope cfg f (some nodes) with
      | some s' =>
        match s'.top.doc.dom with
        | some dom => return (← below s' dom.reverse) ++ rest
        | none => return (n, s) :: rest
      | none => return (n, s) :: rest
    | _ => return (n, s) :: rest

/-- The same with a limit on the depth of the stack; `none` means that the limit is reached. -/
def visit (cfg : Config) : ℕ → Scope → List Node → Option (List (Node × Scope))
  | 0 => visitWith cfg fun _ _ => none
  | k + 1 => visitWith cfg (visit cfg k)

/-- `Lookup.preceding_nodes`, L3202-3259: continues in the parent scopes, from the node that is
stored in the scope. -/
def precedingNodes (cfg : Config) (fuel : ℕ) : Level → List Level → List Node →
    Option (List (Node × Scope))
  | top, parents, place => do
    let here ← visit cfg fuel ⟨top, parents⟩ place
    match parents, top.node with
    | p :: ps, some place' => return here ++ (← precedingNodes cfg fuel p ps place')
    | _, _ => return here

/-- `Lookup.find_assignment`, L3261-3269. -/
def findAssignment (name : String) : List (Node × Scope) → Option (ℕ × Scope)
  | [] => none
  | (.assign n v, s) :: rest => if n = name then some (v, s) else findAssignment name rest
  | _ :: rest => findAssignment name rest

end Quickly.Scope
