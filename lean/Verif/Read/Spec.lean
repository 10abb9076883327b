import Verif.Read.Model

/-!
# What it means to read music without losing anything

The tokens of an element are those of its head, of its children, and of its tail, in this order:
that is the order in which the element is written.
-/

namespace Quickly.Read.Spec

mutual

/-- The tokens of an element, in the order in which they are written. -/
def toks : Elem → List Tok
  | .mk _ h t ks => h ++ toksL ks ++ t

/-- The tokens of a list of elements. -/
def toksL : List Elem → List Tok
  | [] => []
  | e :: es => toks e ++ toksL es

end

mutual

/-- The tokens in an item. -/
def itemToks : Item → List Tok
  | .tok t => [t]
  | .elem _ e => toks e
  | .flat l => toksL l
  | .pitch l => toksL l
  | .modifier l => toksL l
  | .dur dots scaling => dots ++ toksL scaling.toList
  | .markup l => itemsToks l

/-- The tokens in a list of items: the source. -/
def itemsToks : List Item → List Tok
  | [] => []
  | i :: is => itemToks i ++ itemsToks is

end

end Quickly.Read.Spec
