import Verif.Scope.Model

/-! # What includes mean -/

namespace Quickly.Scope.Spec

/-- A root scope: it has no parents and no node. -/
def IsRoot (s : Scope) : Prop := s.parents = [] ∧ s.top.node = none

/-- The scopes that can be made by `include_scope`, starting with a root scope. -/
inductive Reachable (cfg : Config) : Scope → Prop
  | root (s : Scope) : IsRoot s → Reachable cfg s
  | incl (s s' : Scope) (url : String) (node : Option (List Node)) : Reachable cfg s →
      s.includeScope cfg url node = some s' → Reachable cfg s'

/-- The url of the document the factory gives for a url is that url. -/
def Faithful (cfg : Config) : Prop := ∀ u d, cfg.factory (cfg.path u) = some d → d.url = some u

/-- `U` lists the urls of all documents that exist. -/
def AllUrls (cfg : Config) (U : List String) : Prop :=
  ∀ f d, cfg.factory f = some d → ∃ u ∈ U, d.url = some u

/-- The text that is read, with every include command replaced by the text of the included document,
if that can be included there; `before` are the nodes before `nodes`, in backward direction. -/
def textWith (cfg : Config) (below : Scope → List Node → List (Node × Scope)) (s : Scope)
    (before : List Node) : List Node → List (Node × Scope)
  | [] => []
  | n :: nodes =>
    (match n with
     | .incl f =>
       match s.includeScope cfg f (some before) with
       | some s' =>
         match s'.top.doc.dom with
         | some dom => below s' dom
         | none => [(n, s)]
       | none => [(n, s)]
     | _ => [(n, s)]) ++ textWith cfg below s (n :: before) nodes

/-- The same, with includes followed to a certain depth. -/
def text (cfg : Config) : ℕ → Scope → List Node → List (Node × Scope)
  | 0, s, nodes => textWith cfg (fun _ _ => []) s [] nodes
  | k + 1, s, nodes => textWith cfg (text cfg k) s [] nodes

/-- The text that was read when the reader arrives at a place in a document: that of the documents
that include it, up to the include command, and that of the document up to the place. -/
def textBefore (cfg : Config) (depth : ℕ) : Level → List Level → List Node → List (Node × Scope)
  | top, parents, place =>
    (match parents, top.node with
     | p :: ps, some place' => textBefore cfg depth p ps place'
     | _, _ => []) ++ text cfg depth ⟨top, parents⟩ place.reverse

end Quickly.Scope.Spec
