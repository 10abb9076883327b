import Verif.Copy.Spec
import Verif.Node.Props
import Verif.Space.Props

/-! # C95: copies of elements -/

namespace Quickly.Copy

open Quickly.Node Quickly.Text Quickly.Edits Quickly.Space Quickly.Copy.Spec

variable {κ η : Type} [DecidableEq η]

set_option linter.unusedSectionVars false

/-! ## Objects -/

/-- What is true of every object that can be made. -/
structure Sane (C : Classes κ η) (o : Obj κ η) : Prop where
  value : o.value.isSome = true ↔ C.kind o.cls = .text
  plain : C.kind o.cls = .plain → o.headOrigin = none
  tail : C.kind o.cls ≠ .block → o.tailOrigin = none
  both : o.headOrigin = none → o.tailOrigin = none
  flags : C.kind o.cls ≠ .text → o.headModified = false ∧ o.tailModified = false

theorem copyNode_eq (C : Classes κ η) (o : Obj κ η) (h : Sane C o) :
    copyNode C o = { cls := o.cls, value := o.value.map (C.init o.cls) } := by
  unfold copyNode
  cases hv : o.value with
  | none => rfl
  | some v =>
    have : C.kind o.cls = .text := h.value.1 (by rw [hv]; rfl)
    simp [new, this]

theorem sane_new (C : Classes κ η) (k : κ) (v : η) (attrs : List (Name × Str)) : Sane C (new C k v attrs) := by
  constructor
  · simp only [new]; split <;> simp_all
  all_goals simp [new]

theorem sane_copyNode (C : Classes κ η) (o : Obj κ η) (h : Sane C o) : Sane C (copyNode C o) := by
  rw [copyNode_eq C o h]
  constructor
  · simpa using h.value
  all_goals simp

theorem sane_copyOriginFrom (C : Classes κ η) (o other : Obj κ η) (m : Option Bool) (h : Sane C o)
    (h' : Sane C other) : Sane C (copyOriginFrom C o other m) := by
  obtain ⟨k, v, sp, ho, tl, hm, tm⟩ := o
  obtain ⟨a, b, c, d, e⟩ := h
  obtain ⟨-, -, -, d', -⟩ := h'
  dsimp only at a b c d e
  unfold copyOriginFrom copySlots
  cases hh : other.headOrigin with
  | none =>
    cases hk : C.kind k <;> simp only [hk] <;> rcases m with _ | _ | _ <;> constructor <;> simp_all
  | some w =>
    cases ht : other.tailOrigin <;> cases hk : C.kind k <;> simp only [hk] <;> rcases m with _ | _ | _ <;>
      constructor <;> simp_all

/-- Every object that can be made is sane. -/
theorem sane (C : Classes κ η) {o : Obj κ η} (h : Made C o) : Sane C o := by
  induction h with
  | new k v attrs => exact sane_new C k v attrs
  | withOrigin k v ho tl attrs hk =>
    obtain ⟨a, -, -, -, -⟩ := sane_new C k v attrs
    constructor
    · exact a
    · intro h; exact absurd h hk
    · intro h
      have h : C.kind k ≠ .block := h
      simp [withOrigin, h]
    · intro h; simp [withOrigin] at h
    · intro _; simp [withOrigin, new]
  | setHead v o o' _ he ih =>
    unfold setHead at he
    split at he
    · rename_i hk
      split at he
      · cases he; exact ih
      · cases he
        obtain ⟨a, b, c, d, e⟩ := ih
        exact ⟨by simpa using hk, b, c, d, fun h => absurd hk h⟩
    · cases he
  | setSpace op o _ ih =>
    obtain ⟨a, b, c, d, e⟩ := ih
    exact ⟨a, b, c, d, e⟩
  | copy o _ ih => exact sane_copyNode C o ih
  | copyWithOrigin o _ ih => exact sane_copyOriginFrom C _ _ _ (sane_copyNode C o ih) ih
  | copyOriginFrom o other m _ _ ih ih' => exact sane_copyOriginFrom C _ _ _ ih ih'

/-- C95: a copy is of the same class, has the head value that the constructor makes of the head value, and nothing
else: no origin, it is not modified, and the spacing is that of the class. -/
theorem C95_copy_node (C : Classes κ η) (o : Obj κ η) (h : Made C o) :
    copyNode C o = { cls := o.cls, value := o.value.map (C.init o.cls) } :=
  copyNode_eq C o (sane C h)

theorem copyNodeWithOrigin_eq (C : Classes κ η) (o : Obj κ η) (hs : Sane C o) :
    copyNodeWithOrigin C o = { unspaced o with value := o.value.map (C.init o.cls) } := by
  unfold copyNodeWithOrigin
  rw [copyNode_eq C o hs]
  obtain ⟨a, b, c, d, e⟩ := hs
  obtain ⟨k, v, sp, ho, tl, hm, tm⟩ := o
  dsimp only at a b c d e
  unfold copyOriginFrom copySlots unspaced
  cases ho with
  | none =>
    cases hk : C.kind k <;> simp_all
  | some w =>
    cases tl <;> cases hk : C.kind k <;> simp_all

/-- C95: a copy with origin has moreover the origins and the modified flags of the object; of all the slots only the
spacing is lost. -/
theorem C95_copy_node_with_origin (C : Classes κ η) (o : Obj κ η) (h : Made C o) :
    copyNodeWithOrigin C o = { unspaced o with value := o.value.map (C.init o.cls) } :=
  copyNodeWithOrigin_eq C o (sane C h)

/-- C95: `copy_origin_from` takes over the origin of the other element if it has one, as far as the class of the element
has a place for it, and leaves its class, head value and spacing alone. -/
theorem C95_origin_from (C : Classes κ η) (o other : Obj κ η) (m : Option Bool) (h : Made C o) (h' : Made C other) :
    let r := copyOriginFrom C o other m
    r.cls = o.cls ∧ r.value = o.value ∧ r.space = o.space ∧
    r.headOrigin = (if C.kind o.cls = .plain then none else other.headOrigin.or o.headOrigin) ∧
    r.tailOrigin = (if C.kind o.cls = .block then other.tailOrigin.or o.tailOrigin else none) := by
  have hs := sane C h
  have hs' := sane C h'
  obtain ⟨a, b, c, d, e⟩ := hs
  obtain ⟨-, -, -, d', -⟩ := hs'
  obtain ⟨k, v, sp, ho, tl, hm, tm⟩ := o
  dsimp only at a b c d e
  unfold copyOriginFrom copySlots
  cases hh : other.headOrigin <;> cases ht : other.tailOrigin <;> cases hk : C.kind k <;> rcases m with _ | _ | _ <;>
    simp_all

/-- C95: and the element is then written back to the document (`modified=True`, if there was an origin), or not
(`modified=False`), or if the other one was (the default). For elements that are no `TextElement` it is never written
back. -/
theorem C95_origin_from_modified (C : Classes κ η) (o other : Obj κ η) (m : Option Bool) (h : Made C o) :
    (copyOriginFrom C o other m).headModified =
      (decide (C.kind o.cls = .text) && match m with
        | some true => other.headOrigin.isSome
        | some false => false
        | none => other.headModified) := by
  obtain ⟨a, b, c, d, e⟩ := sane C h
  obtain ⟨k, v, sp, ho, tl, hm, tm⟩ := o
  dsimp only at a b c d e
  unfold copyOriginFrom copySlots
  cases hh : other.headOrigin <;> cases ht : other.tailOrigin <;> cases hk : C.kind k <;> rcases m with _ | _ | _ <;>
    simp_all

/-- C95: the tail of an element is never written back, whatever is done with it. -/
theorem C95_tail_unmodified (C : Classes κ η) {o : Obj κ η} (h : Made C o) : o.tailModified = false := by
  induction h with
  | new k v attrs => rfl
  | withOrigin k v ho tl attrs _ => rfl
  | setHead v o o' _ e ih =>
    unfold setHead at e
    split at e
    · split at e <;> cases e <;> exact ih
    · cases e
  | setSpace op o _ ih => exact ih
  | copy o _ ih =>
    unfold copyNode
    split <;> rfl
  | copyWithOrigin o h ih =>
    rw [C95_copy_node_with_origin C o h]
    exact ih
  | copyOriginFrom o other m h h' ih ih' =>
    obtain ⟨a, b, c, d, e⟩ := sane C h
    obtain ⟨k, v, sp, ho, tl, hm, tm⟩ := o
    dsimp only at a b c d e
    unfold copyOriginFrom copySlots
    cases hh : other.headOrigin <;> cases ht : other.tailOrigin <;> cases hk : C.kind k <;> rcases m with _ | _ | _ <;>
      simp_all

/-- C95: setting the head of a `TextElement` gives it the value; it is written back if the value is another one. Other
elements have no head that can be set. -/
theorem C95_set_head (C : Classes κ η) (v : η) (o : Obj κ η) :
    setHead C v o =
      if C.kind o.cls = .text then
        .ok { o with value := some v, headModified := o.headModified || decide (o.value ≠ some v) }
      else .error .attributeError := by
  unfold setHead
  split
  · split
    · rename_i h
      rw [← h]; simp
    · rename_i h
      simp [h]
  · rfl

/-! ## Trees -/

theorem each_cons {α : Type} {P : α → Prop} {v : α} {cs : List (Tree α)} (h : Each P (.node v cs)) :
    P v ∧ ∀ c ∈ cs, Each P c := by
  refine ⟨h [] _ rfl, fun c hc p n hn => ?_⟩
  obtain ⟨i, hi, rfl⟩ := List.mem_iff_getElem.1 hc
  refine h (i :: p) n ?_
  simp [Tree.get?, Tree.children, hi, hn]

theorem each_node {α : Type} {P : α → Prop} {v : α} {cs : List (Tree α)} :
    Each P (.node v cs) ↔ P v ∧ ∀ c ∈ cs, Each P c := by
  refine ⟨each_cons, fun h p n hn => ?_⟩
  rcases p with _ | ⟨i, p⟩
  · cases hn; exact h.1
  · simp only [Tree.get?, Tree.children] at hn
    cases hc : cs[i]? with
    | none => simp [hc] at hn
    | some c => exact h.2 c (List.mem_of_getElem? hc) p n (by simpa [hc] using hn)

theorem copy_go {α : Type} (f : α → α) (cs : List (Tree α)) : Tree.copy.go f cs = cs.map (Tree.copy f) := by
  induction cs with
  | nil => rfl
  | cons c cs ih => simp [Tree.copy.go, ih]

theorem collapseLast_map (g : Point → Point) (hg : ∀ (p : Point) w, g { p with after := w } = { g p with after := w })
    (ha : ∀ p, (g p).after = p.after) (w : Str) : ∀ ps : List Point,
    collapseLast (ps.map g) w = (collapseLast ps w).map g
  | [] => rfl
  | [p] => by
    simp only [List.map_cons, List.map_nil, collapseLast]
    rw [ha]
    exact congrArg (fun x => [x]) (hg p _).symm
  | p :: q :: ps => by
    have := collapseLast_map g hg ha w (q :: ps)
    simp only [List.map_cons] at this
    simp [collapseLast, this]

/-- `f` changes the points of an object as `g` says, and nothing else. -/
structure Acts (C : Classes κ η) (f : Obj κ η → Obj κ η) (g : Point → Point) (o : Obj κ η) : Prop where
  cls : (f o).cls = o.cls
  sp : (elem C (f o)).sp = (elem C o).sp
  head : ∀ n, headPoint (elem C (f o)) n = (headPoint (elem C o) n).map g
  tail : tailPoint (elem C (f o)) = (tailPoint (elem C o)).map g

mutual
theorem points_copy (C : Classes κ η) (f : Obj κ η → Obj κ η) (g : Point → Point)
    (hg : ∀ (p : Point) w, g { p with after := w } = { g p with after := w }) (ha : ∀ p, (g p).after = p.after) :
    ∀ t : Tree (Obj κ η), Each (Acts C f g) t → points C (t.copy f) = (points C t).map g
  | .node o cs, h => by
    have ho := (each_cons h).1
    rw [Tree.copy, copy_go, points, points, ho.head, ho.tail,
      kids_copy C f g hg ha o ho cs (each_cons h).2, List.length_map]
    simp only [List.map_append]
    congr 1
    · congr 1
      cases headPoint (elem C o) cs.length <;> rfl
    · cases tailPoint (elem C o) <;> rfl
theorem kids_copy (C : Classes κ η) (f : Obj κ η → Obj κ η) (g : Point → Point)
    (hg : ∀ (p : Point) w, g { p with after := w } = { g p with after := w }) (ha : ∀ p, (g p).after = p.after)
    (o : Obj κ η) (ho : Acts C f g o) : ∀ cs : List (Tree (Obj κ η)), (∀ c ∈ cs, Each (Acts C f g) c) →
      points.kids C (f o) (cs.map (Tree.copy f)) = (points.kids C o cs).map g
  | [], _ => rfl
  | [n], h => by
    simp only [List.map_cons, List.map_nil, points.kids, List.append_nil]
    rw [points_copy C f g hg ha n (h n (by simp)), ho.tail, ho.sp]
    cases tailPoint (elem C o) with
    | none => simp [collapseLast_map g hg ha]
    | some p => simp
  | n :: m :: ns, h => by
    have ih := kids_copy C f g hg ha o ho (m :: ns) fun c hc => h c (List.mem_cons_of_mem _ hc)
    rw [List.map_cons] at ih
    rw [List.map_cons, List.map_cons, points.kids, points.kids, ih]
    simp only [List.map_append]
    rw [points_copy C f g hg ha n (h n (by simp)), ho.sp, ho.cls, copy_val, copy_val,
      (h n (by simp) [] n rfl).cls, (h m (by simp) [] m rfl).cls,
      collapseLast_map g hg ha]
end

/-- A point of a new element. -/
def fresh (p : Point) : Point := { p with range := none, modified := false }

theorem getProp_none (d : Name → Str) (n : Name) : getProp d n none = d n := rfl

/-- How copying a node changes its points, if its spacing is that of the class. -/
theorem acts_copy (C : Classes κ η) (o : Obj κ η) (h : Sane C o) (hs : Steady C o) (hp : Plain C o) :
    Acts C (copyNode C) fresh o := by
  have he : elem C (copyNode C o) =
      { elem C o with headOrigin := none, tailOrigin := none, headModified := false, tailModified := false } := by
    rw [copyNode_eq C o h]
    unfold elem
    congr 1
    · cases hv : o.value with
      | none => rfl
      | some v => exact hs v hv
    · simp only [getProp_none]
      rw [hp, hp, hp, hp, hp]
  constructor
  · rw [copyNode_eq C o h]
  · rw [he]
  · intro n
    rw [he]
    simp only [headPoint, Elem.hasTail]
    split <;> rfl
  · rw [he]
    simp only [tailPoint]
    split <;> rfl

theorem acts_copyWithOrigin (C : Classes κ η) (o : Obj κ η) (h : Sane C o) (hs : Steady C o) (hp : Plain C o) :
    Acts C (copyNodeWithOrigin C) id o := by
  have he : elem C (copyNodeWithOrigin C o) = elem C o := by
    rw [copyNodeWithOrigin_eq C o h]
    unfold elem unspaced
    congr 1
    · cases hv : o.value with
      | none => rfl
      | some v => exact hs v hv
    · simp only [getProp_none]
      rw [hp, hp, hp, hp, hp]
  refine ⟨by rw [copyNodeWithOrigin_eq C o h]; rfl, by rw [he], fun n => ?_, ?_⟩
  · rw [he]; simp
  · rw [he]; simp

theorem each_imp {α : Type} {P Q : α → Prop} {t : Tree α} (h : Each P t) (hi : ∀ a, P a → Q a) : Each Q t :=
  fun p n hn => hi _ (h p n hn)

theorem frag_fresh : Point.frag ∘ fresh = Point.frag := rfl

/-- C95: the copy of a tree is written as the tree itself, if the spacing of every element is that of its class. What is
missing: elements with another spacing, which is lost, see `C95_copy_exact` and `C95_spacing_lost`. -/
theorem C95_copy_text_partial (C : Classes κ η) (t : Tree (Obj κ η))
    (h : Each (fun o => Made C o ∧ Steady C o ∧ Plain C o) t) : write C (copy C t) = write C t := by
  unfold write copy
  rw [points_copy C _ fresh (fun _ _ => rfl) (fun _ => rfl) t (each_imp h fun o ho => acts_copy C o (sane C ho.1) ho.2.1 ho.2.2),
    List.map_map, frag_fresh]

theorem copy_copy {α : Type} (f g : α → α) : ∀ t : Tree α, (t.copy f).copy g = t.copy (g ∘ f) := by
  have main : ∀ n, ∀ t : Tree α, sizeOf t < n → (t.copy f).copy g = t.copy (g ∘ f) := by
    intro n
    induction n with
    | zero => intro t h; omega
    | succ n ih =>
      intro t h
      obtain ⟨v, cs⟩ := t
      simp only [Tree.copy, copy_go, List.map_map, Tree.node.injEq, Function.comp_apply, true_and]
      refine List.map_congr_left fun c hc => ih c ?_
      have := List.sizeOf_lt_of_mem hc
      simp at h
      omega
  exact fun t => main _ t (Nat.lt_succ_self _)

theorem copy_congr {α : Type} (f g : α → α) : ∀ t : Tree α, Each (fun a => f a = g a) t → t.copy f = t.copy g := by
  have main : ∀ n, ∀ t : Tree α, sizeOf t < n → Each (fun a => f a = g a) t → t.copy f = t.copy g := by
    intro n
    induction n with
    | zero => intro t h; omega
    | succ n ih =>
      intro t h he
      obtain ⟨v, cs⟩ := t
      simp only [Tree.copy, copy_go, Tree.node.injEq]
      refine ⟨(each_cons he).1, List.map_congr_left fun c hc => ih c ?_ ((each_cons he).2 c hc)⟩
      have := List.sizeOf_lt_of_mem hc
      simp at h
      omega
  exact fun t => main _ t (Nat.lt_succ_self _)

theorem each_copy {α : Type} (f : α → α) {P : α → Prop} {t : Tree α} (h : Each (fun a => P (f a)) t) :
    Each P (t.copy f) := by
  intro p n hn
  rw [copy_get?, Option.map_eq_some_iff] at hn
  obtain ⟨m, hm, rfl⟩ := hn
  rw [copy_val]
  exact h p m hm

theorem sane_unspaced (C : Classes κ η) {o : Obj κ η} (h : Sane C o) : Sane C (unspaced o) := by
  obtain ⟨a, b, c, d, e⟩ := h
  exact ⟨a, b, c, d, e⟩

/-- C95: what a copy is written as, exactly: as the tree with for every element the spacing of its class. -/
theorem C95_copy_exact (C : Classes κ η) (t : Tree (Obj κ η)) (h : Each (fun o => Made C o ∧ Steady C o) t) :
    write C (copy C t) = write C (mapTree unspaced t) := by
  have h1 : copy C t = copy C (mapTree unspaced t) := by
    unfold copy mapTree
    rw [copy_copy]
    rfl
  rw [h1]
  unfold write copy
  rw [points_copy C _ fresh (fun _ _ => rfl) (fun _ => rfl) (mapTree unspaced t)
    (each_copy unspaced (each_imp h fun o ho => acts_copy C (unspaced o) (sane_unspaced C (sane C ho.1)) ho.2 fun _ => rfl)),
    List.map_map, frag_fresh]

/-- C95: nothing in a copy is at a place in a document, and nothing is modified: it will be written wherever it is put
in a document. -/
theorem C95_copy_is_new (C : Classes κ η) (t : Tree (Obj κ η)) (h : Each (Made C) t) :
    ∀ pt ∈ points C (copy C t), pt.range = none ∧ pt.modified = false := by
  have hf : ∀ o, Made C o → Acts C id fresh (copyNode C o) := by
    intro o ho
    rw [C95_copy_node C o ho]
    refine ⟨rfl, rfl, fun n => ?_, ?_⟩
    · simp only [headPoint, id]; split <;> rfl
    · simp only [tailPoint, id]; split <;> rfl
  have hp := points_copy C id fresh (fun _ _ => rfl) (fun _ => rfl) (copy C t) (each_copy _ (each_imp h hf))
  have hid : (copy C t).copy id = copy C t := by
    unfold copy
    rw [copy_copy]
    rfl
  rw [hid] at hp
  intro pt hpt
  rw [hp] at hpt
  obtain ⟨q, -, rfl⟩ := List.mem_map.1 hpt
  exact ⟨rfl, rfl⟩

/-- C95: writing back a copy that has the origin makes the same changes in the document as writing back the tree itself,
if the spacing of every element is that of its class. What is missing: elements with another spacing. -/
theorem C95_copy_edits_partial (C : Classes κ η) (t : Tree (Obj κ η))
    (h : Each (fun o => Made C o ∧ Steady C o ∧ Plain C o) t) (ctx : Context) (start stop : Option ℕ) :
    edits C ctx start stop (copyWithOrigin C t) = edits C ctx start stop t := by
  unfold edits copyWithOrigin
  rw [points_copy C _ id (fun _ _ => rfl) (fun _ => rfl) t
    (each_imp h fun o ho => acts_copyWithOrigin C o (sane C ho.1) ho.2.1 ho.2.2), List.map_id]

/-- C95: in general, the same changes as writing back the tree with for every element the spacing of its class. -/
theorem C95_copy_edits_exact (C : Classes κ η) (t : Tree (Obj κ η)) (h : Each (fun o => Made C o ∧ Steady C o) t)
    (ctx : Context) (start stop : Option ℕ) :
    edits C ctx start stop (copyWithOrigin C t) = edits C ctx start stop (mapTree unspaced t) := by
  have hs : ∀ o, Made C o → copyNodeWithOrigin C (unspaced o) = copyNodeWithOrigin C o := by
    intro o ho
    rw [copyNodeWithOrigin_eq C o (sane C ho), copyNodeWithOrigin_eq C (unspaced o) (sane_unspaced C (sane C ho))]
    rfl
  have h1 : copyWithOrigin C t = copyWithOrigin C (mapTree unspaced t) := by
    unfold copyWithOrigin mapTree
    rw [copy_copy]
    exact copy_congr _ _ _ (each_imp h fun o ho => (hs o ho.1).symm)
  rw [h1]
  unfold edits copyWithOrigin
  rw [points_copy C _ id (fun _ _ => rfl) (fun _ => rfl) (mapTree unspaced t)
    (each_copy unspaced (each_imp h fun o ho =>
      acts_copyWithOrigin C (unspaced o) (sane_unspaced C (sane C ho.1)) ho.2 fun _ => rfl)), List.map_id]

/-- C95: `copy()` gives a node of the same class, and the children are copies of the children, in order; without
children only the node itself is copied. -/
theorem C95_shape (C : Classes κ η) (t : Tree (Obj κ η)) :
    (copy C t).children = t.children.map (copy C) ∧ (copy C t).val = copyNode C t.val ∧
    (t.copyShallow (copyNode C)).val = (copy C t).val ∧ (t.copyShallow (copyNode C)).children = [] := by
  obtain ⟨v, cs⟩ := t
  exact ⟨copy_go _ _, rfl, rfl, rfl⟩

/-! ## An environment

`tex.Environment.with_name('x')`, `quickly/dom/tex.py` L106-119: the newlines after `\begin{x}` and before `\end{x}` are
asked for by the two commands. -/

/-- The classes in an environment. -/
inductive TexClass
  | Environment
  | Command
  | EnvironmentName
deriving DecidableEq

/-- `quickly/dom/tex.py` L81-134, `BackslashCommand` of `quickly/dom/base.py`. -/
def texClasses : Classes TexClass Str where
  kind := fun k => if k = .Environment then .plain else .text
  dflt := fun k n => if k = .Environment ∧ (n = .before ∨ n = .after) then ['\n'] else []
  head := fun _ => []
  tail := fun _ => []
  write := fun k v => if k = .Command then '\\' :: v else '{' :: v ++ ['}']
  init := fun _ v => v
  concat := fun _ between _ _ => between

/-- `Environment.with_name(name)`. -/
def withName (name : Str) : Tree (Obj TexClass Str) :=
  .node (new texClasses .Environment [] [])
    [.node (new texClasses .Command "begin".toList [(.after, ['\n'])]) [.node (new texClasses .EnvironmentName name []) []],
     .node (new texClasses .Command "end".toList [(.before, ['\n'])]) [.node (new texClasses .EnvironmentName name []) []]]

/-- An environment without children has no line break of its own, `with_name` asks for one. -/
example : String.ofList (write texClasses (withName ['x'])) = "\\begin{x}\n\\end{x}" := by decide +kernel

/-- C95: the spacing of the elements is lost when they are copied: the two lines of an environment become one. -/
theorem C95_spacing_lost :
    Each (fun o => Made texClasses o ∧ Steady texClasses o) (withName ['x']) ∧
    String.ofList (write texClasses (copy texClasses (withName ['x']))) = "\\begin{x}\\end{x}" := by
  refine ⟨?_, by decide +kernel⟩
  simp only [withName, each_node, List.mem_cons, List.not_mem_nil, or_false, forall_eq_or_imp, forall_eq, false_imp_iff,
    implies_true, and_true]
  exact ⟨⟨.new .., fun _ _ => rfl⟩, ⟨⟨.new .., fun _ _ => rfl⟩, .new .., fun _ _ => rfl⟩,
    ⟨.new .., fun _ _ => rfl⟩, .new .., fun _ _ => rfl⟩

/-- An environment that was read from `\begin{x} \end{x}` has no spacing of its own. -/
def readEnv : Tree (Obj TexClass Str) :=
  .node (new texClasses .Environment [] [])
    [.node (withOrigin texClasses .Command "begin".toList [(0, 6)] [] [])
       [.node (withOrigin texClasses .EnvironmentName ['x'] [(6, 7), (7, 8), (8, 9)] [] []) []],
     .node (withOrigin texClasses .Command "end".toList [(10, 14)] [] [])
       [.node (withOrigin texClasses .EnvironmentName ['x'] [(14, 15), (15, 16), (16, 17)] [] []) []]]

example : Each (fun o => Made texClasses o ∧ Steady texClasses o ∧ Plain texClasses o) readEnv := by
  simp only [readEnv, each_node, List.mem_cons, List.not_mem_nil, or_false, forall_eq_or_imp, forall_eq, false_imp_iff,
    implies_true, and_true]
  have w : ∀ k v ho, k ≠ .Environment → Made texClasses (withOrigin texClasses k v ho [] []) := fun k v ho hk =>
    .withOrigin k v ho [] [] (by simp [texClasses, hk])
  exact ⟨⟨.new .., fun _ _ => rfl, fun _ => rfl⟩,
    ⟨⟨w _ _ _ (by decide), fun _ _ => rfl, fun _ => rfl⟩, w _ _ _ (by decide), fun _ _ => rfl, fun _ => rfl⟩,
    ⟨w _ _ _ (by decide), fun _ _ => rfl, fun _ => rfl⟩, w _ _ _ (by decide), fun _ _ => rfl, fun _ => rfl⟩

example : edits texClasses ⟨0, 17, [(0, 6), (6, 7), (7, 8), (8, 9), (10, 14), (14, 15), (15, 16), (16, 17)]⟩ none none
    (copyWithOrigin texClasses (.node (new texClasses .Environment [] []) (readEnv.children.take 1))) = [(9, 17, [])] := by
  decide +kernel

example : String.ofList (write texClasses (copy texClasses readEnv)) = "\\begin{x}\\end{x}" ∧
    (points texClasses readEnv).map (·.range) = [some (0, 6), some (6, 9), some (10, 14), some (14, 17)] ∧
    (points texClasses (copyWithOrigin texClasses readEnv)).map (·.range) =
      [some (0, 6), some (6, 9), some (10, 14), some (14, 17)] := by decide +kernel

end Quickly.Copy
