import Verif.Access.Spec
import Verif.Assign.Props
import Verif.Scope.Props

/-! # C86: references to variables -/

namespace Quickly.Access

open Spec Quickly.Assign

theorem getList_refRest (isSymbol : String → Bool) (ps : List Part) : getList (refRest isSymbol ps) = ps := by
  induction ps with
  | nil => rfl
  | cons p ps ih =>
    rw [getList] at ih
    cases p with
    | str s =>
      simp only [refRest, makeListNode, getList, List.filterMap_cons]
      cases isSymbol s <;> simp [ih]
    | int i =>
      simp only [refRest, makeListNode, getList, List.filterMap_cons]
      simp [ih]

theorem ref_parts (isSymbol : String → Bool) (he : isSymbol "" = false) (r : Ref) (p : Part) (ps : List Part) :
    (if (r.setParts isSymbol (p :: ps)).head = "" then [] else [Part.str (r.setParts isSymbol (p :: ps)).head]) ++
      getList (r.setParts isSymbol (p :: ps)).children = p :: ps := by
  have hr := getList_refRest isSymbol ps
  rw [getList] at hr
  cases p with
  | int i => simp [Ref.setParts, makeListNode, getList, hr]
  | str s =>
    cases hs : isSymbol s with
    | true =>
      have hne : s ≠ "" := by rintro rfl; rw [he] at hs; cases hs
      simp [Ref.setParts, makeListNode, hs, hne, getList, hr]
    | false => simp [Ref.setParts, makeListNode, hs, getList, hr]

/-- **C86**: a reference has the name that was set, whatever it was before. The empty text is no symbol. -/
theorem C86_name (isSymbol : String → Bool) (he : isSymbol "" = false) (r : Ref) (name : Name) (hn : IsName name) :
    ∃ r', r.setName isSymbol name = .ok r' ∧ r'.getName = name := by
  match name, hn with
  | .str s, _ =>
    refine ⟨_, rfl, ?_⟩
    rw [Ref.getName, ref_parts isSymbol he]
  | .tuple (.str s :: q :: ps), _ =>
    refine ⟨_, rfl, ?_⟩
    rw [Ref.getName, ref_parts isSymbol he]

example : IsName (.tuple [.str "music", .int 1]) ∧
    (Ref.mk "old" [.string "x"]).setName (fun s => s == "music") (.tuple [.str "music", .int 1]) =
      .ok ⟨"music", [.separator ".", .int 1]⟩ ∧
    (Ref.mk "old" [.string "x"]).setName (fun s => s == "music") (.str "a b") = .ok ⟨"", [.string "a b"]⟩ :=
  ⟨trivial, rfl, rfl⟩

/-- **C86**: a reference and an assignment that are given names have the same name exactly if the names are the same; so that
the reference refers to the variable. -/
theorem C86_refers (isSymbol : String → Bool) (he : isSymbol "" = false) (r : Ref) (a b : Name) (ha : IsName a) (hb : IsName b)
    (node : Elem) :
    ∃ r' es, r.setName isSymbol a = .ok r' ∧ withName isSymbol b node = .ok es ∧ Assign.getValue es = some node ∧
      ∃ items, es.head? = some (.identifier items) ∧ (Assign.getName items = r'.getName ↔ a = b) := by
  obtain ⟨r', h1, h2⟩ := C86_name isSymbol he r a ha
  have hp : Assign.Spec.Proper b := by
    match b, hb with
    | .str s, _ => trivial
    | .tuple (.str s :: q :: ps), _ => simp [Assign.Spec.Proper]
  obtain ⟨items, h3, h4⟩ := C54_name isSymbol b hp
  refine ⟨r', [.identifier items, .equalSign, node], h1, ?_, rfl, items, rfl, ?_⟩
  · simp only [withName, h3]; rfl
  · rw [h2, h4]; exact eq_comm

/-- **C86** fails for the constructor `IdentifierRef.with_name`, also for the example in its documentation: it always raises
TypeError. -/
theorem C86_with_name (isSymbol : String → Bool) (name : Name) : refWithName isSymbol name = .error .typeError := rfl

/-- **C86**: the value of a reference is the value that was last assigned to the name in the text before it (all includes
being followed), and None if there is none. -/
theorem C86_value (cfg : Bool → Scope.Config) (depth : ℕ) (s : Scope.Scope) (place : List Scope.Node) (name : String)
    (ys : List (Scope.Node × Scope.Scope))
    (h : Scope.precedingNodes (cfg true) depth s.top s.parents place = some ys) (wait : Bool) :
    match Access.getValue cfg depth s place name wait with
    | some v => ∃ s' xs zs,
        Scope.Spec.textBefore (cfg true) depth s.top s.parents place = xs ++ (.assign name v, s') :: zs ∧
        ∀ z ∈ zs, ∀ w, z.1 ≠ .assign name w
    | none => ∀ z ∈ Scope.Spec.textBefore (cfg true) depth s.top s.parents place, ∀ w, z.1 ≠ .assign name w := by
  have := Scope.C59_last_assignment (cfg true) depth s place name ys h
  simp only [Access.getValue, getValueWithScope, h, Option.bind_some]
  cases hf : Scope.findAssignment name ys with
  | none => rw [hf] at this; exact this
  | some p =>
    rw [hf] at this
    obtain ⟨v, s'⟩ := p
    exact ⟨s', this⟩

/-- A file `a.ly` that includes `b.ly`, which is not ready yet if it is not waited for. -/
def waitConfig (wait : Bool) : Scope.Config where
  join _ u := "/d/" ++ u
  path u := u
  factory f := if f = "/d/b.ly" then some ⟨some "/d/b.ly", if wait then some [.assign "x" 1] else none⟩ else none
  includePath := []
  relativeInclude := true

/-- **C86** fails for `wait=False`: `get_value` waits all the same, and returns a value where `get_value_with_scope` returns
None, as documented. -/
theorem C86_wait :
    let s : Scope.Scope := ⟨⟨⟨some "/d/a.ly", some [.incl "b.ly", .other 1]⟩, none⟩, []⟩
    getValueWithScope waitConfig 2 s [.incl "b.ly"] "x" false = none ∧
      Access.getValue waitConfig 2 s [.incl "b.ly"] "x" false = some 1 := by
  decide +kernel

end Quickly.Access
