import Verif.Unknown.Spec
import Verif.Edits.Props
import Verif.Text.Props
import Mathlib.Data.List.Forall2

/-!
# C74: unknown regions
-/

namespace Quickly.Unknown

open Quickly.Node Quickly.Text Quickly.Text.Spec Quickly.Unknown.Spec

/-- What a child becomes. -/
def rep (doc : Str) (c : UTree) : UTree := if c.val.2 then textNode doc c else replaceUnknown doc c

theorem rep_go (doc : Str) (cs : List UTree) : replaceUnknown.go doc cs = cs.map (rep doc) := by
  induction cs with
  | nil => rfl
  | cons c cs ih => rw [replaceUnknown.go, ih]; rfl

theorem rep_eq (doc : Str) (v : Elem × Bool) (cs : List UTree) : replaceUnknown doc (.node v cs) = .node v (cs.map (rep doc)) := by
  rw [replaceUnknown, rep_go]

theorem elems_go (cs : List UTree) : elems.go cs = cs.map elems := by
  induction cs with
  | nil => rfl
  | cons c cs ih => rw [elems.go, ih]; rfl

theorem elems_eq (v : Elem × Bool) (cs : List UTree) : elems (.node v cs) = .node v.1 (cs.map elems) := by
  rw [elems, elems_go]

theorem get?_cons (v : Elem × Bool) (cs : List UTree) (i : ℕ) (p : Path) :
    (Tree.node v cs).get? (i :: p) = (cs[i]?).bind fun c => c.get? p := by
  simp only [Tree.get?, Tree.children]
  cases cs[i]? <;> rfl

/-- Below the root: the node itself is replaced too. -/
theorem rep_none_left (doc : Str) (p : Path) (t u : UTree) (h : (rep doc t).get? p = some u) : u.val.2 = false := by
  induction p generalizing t with
  | nil =>
    simp only [Tree.get?, Option.some.injEq] at h
    subst h
    unfold rep
    split
    · rfl
    · rename_i hn
      obtain ⟨v, cs⟩ := t
      rw [rep_eq]
      simpa [Tree.val] using hn
  | cons i p ih =>
    unfold rep at h
    split at h
    · simp [textNode, Tree.get?, Tree.children] at h
    · obtain ⟨v, cs⟩ := t
      rw [rep_eq, get?_cons, List.getElem?_map] at h
      cases hc : cs[i]? with
      | none => rw [hc] at h; simp at h
      | some c =>
        rw [hc] at h
        exact ih c h

/-- **C74**: after `replace_unknown()`, no descendant is an `Unknown`. -/
theorem C74_none_left (doc : Str) (t : UTree) (p : Path) (hp : p ≠ []) : ¬ UnknownAt (replaceUnknown doc t) p := by
  rintro ⟨u, h, h1⟩
  obtain ⟨v, cs⟩ := t
  cases p with
  | nil => exact hp rfl
  | cons i p =>
    rw [rep_eq, get?_cons, List.getElem?_map] at h
    cases hc : cs[i]? with
    | none => rw [hc] at h; simp at h
    | some c =>
      rw [hc] at h
      have := rep_none_left doc p c u h
      rw [this] at h1
      simp at h1

theorem known_tail {v : Elem × Bool} {cs : List UTree} {i : ℕ} {p : Path} {c : UTree} (hc : cs[i]? = some c)
    (h : Known (.node v cs) (i :: p)) : c.val.2 = false ∧ Known c p := by
  constructor
  · by_contra hn
    refine h [i] (by simp) (by simp) ⟨c, ?_, by simpa using hn⟩
    rw [get?_cons, hc]
    simp [Tree.get?]
  · rintro q hq hqp ⟨u, h1, h2⟩
    refine h (i :: q) (by simp) (by simpa using hqp) ⟨u, ?_, h2⟩
    rw [get?_cons, hc]
    exact h1

theorem replace_get (doc : Str) (p : Path) (t : UTree) (h : Known t p) :
    (replaceUnknown doc t).get? p = (t.get? p).map (replaceUnknown doc) := by
  induction p generalizing t with
  | nil => rfl
  | cons i p ih =>
    obtain ⟨v, cs⟩ := t
    rw [rep_eq, get?_cons, get?_cons, List.getElem?_map]
    cases hc : cs[i]? with
    | none => rfl
    | some c =>
      obtain ⟨h1, h2⟩ := known_tail hc h
      simp only [Option.map_some, Option.bind_some]
      rw [rep, h1]
      exact ih c h2

/-- **C74**: the other elements stay where they are, as they are. -/
theorem C74_others (doc : Str) (t : UTree) (p : Path) (h : Known t p) :
    ((replaceUnknown doc t).get? p).map (fun u => (u.val, u.children.length)) =
      (t.get? p).map (fun u => (u.val, u.children.length)) := by
  rw [replace_get doc p t h, Option.map_map]
  congr 1
  funext u
  obtain ⟨v, cs⟩ := u
  simp [rep_eq, Tree.val, Tree.children]

theorem posEnd_source {u : UTree} {p e : ℕ} (h : FromSource u) (hr : u.val.1.headOrigin = some (p, e)) : pos u = some p ∧ stop u = some e := by
  obtain ⟨x, r, rfl, _, h2, h3, _⟩ := h
  simp only [Tree.val] at hr
  rw [hr] at h2
  simp only [Option.some.injEq] at h2
  subst h2
  simp [pos, stop, stop.go, hr, h3]

theorem textNode_source {doc : Str} {u : UTree} {p e : ℕ} (h : FromSource u) (hr : u.val.1.headOrigin = some (p, e)) :
    textNode doc u = .node ({ kind := .head, head := Edits.Spec.slice doc p e, headOrigin := some (p, e), headModified := true : Elem }, false) [] := by
  obtain ⟨h1, h2⟩ := posEnd_source h hr
  rw [textNode, h1, h2, hr]
  rfl

/-- **C74**: in place of each `Unknown` is a text that has the origin, and that part of the source text. -/
theorem C74_replaced (doc : Str) (t : UTree) (q : Path) (i : ℕ) (hk : Known t q) (u : UTree) (hu : t.get? (q ++ [i]) = some u)
    (hunk : u.val.2 = true) (hs : FromSource u) (p e : ℕ) (hr : u.val.1.headOrigin = some (p, e)) :
    (replaceUnknown doc t).get? (q ++ [i]) = some (.node
      ({ kind := .head, head := Edits.Spec.slice doc p e, headOrigin := some (p, e), headModified := true }, false) []) := by
  induction q generalizing t with
  | nil =>
    obtain ⟨v, cs⟩ := t
    rw [List.nil_append, get?_cons] at hu
    rw [List.nil_append, rep_eq, get?_cons, List.getElem?_map]
    cases hc : cs[i]? with
    | none => rw [hc] at hu; simp at hu
    | some c =>
      rw [hc] at hu
      simp only [Option.bind_some, Tree.get?, Option.some.injEq] at hu
      subst hu
      simp only [Option.map_some, Option.bind_some, Tree.get?]
      rw [rep, if_pos hunk, textNode_source hs hr]
  | cons j q ih =>
    obtain ⟨v, cs⟩ := t
    rw [List.cons_append, get?_cons] at hu
    rw [List.cons_append, rep_eq, get?_cons, List.getElem?_map]
    cases hc : cs[j]? with
    | none => rw [hc] at hu; simp at hu
    | some c =>
      rw [hc] at hu
      obtain ⟨h1, h2⟩ := known_tail hc hk
      simp only [Option.map_some, Option.bind_some]
      rw [rep, h1]
      exact ih c h2 hu

/-! ## Writing -/

theorem any_get (f : Elem → Bool) (t : UTree) : anyUnknown f t = true ↔ ∃ p u, t.get? p = some u ∧ u.val.2 = true ∧ f u.val.1 = true := by
  obtain ⟨v, cs⟩ := t
  have hgo : ∀ ds : List UTree, (∀ d ∈ ds, d ∈ cs) → (anyUnknown.go f ds = true ↔ ∃ d ∈ ds, ∃ p u, d.get? p = some u ∧ u.val.2 = true ∧ f u.val.1 = true) := by
    intro ds
    induction ds with
    | nil => intro _; simp [anyUnknown.go]
    | cons d ds ih =>
      intro hd
      have hm := hd d (by simp)
      rw [anyUnknown.go, Bool.or_eq_true, ih (fun x hx => hd x (by simp [hx])), any_get f d]
      simp
  rw [anyUnknown, Bool.or_eq_true, Bool.and_eq_true, hgo cs (fun _ h => h)]
  constructor
  · rintro (h | ⟨d, hd, p, u, h⟩)
    · exact ⟨[], .node v cs, rfl, h⟩
    · obtain ⟨i, hi⟩ := List.getElem?_of_mem hd
      refine ⟨i :: p, u, ?_, h.2⟩
      rw [get?_cons, hi]
      exact h.1
  · rintro ⟨p, u, h1, h2⟩
    cases p with
    | nil =>
      simp only [Tree.get?, Option.some.injEq] at h1
      subst h1
      exact .inl h2
    | cons i p =>
      rw [get?_cons] at h1
      cases hc : cs[i]? with
      | none => rw [hc] at h1; simp at h1
      | some c =>
        rw [hc] at h1
        exact .inr ⟨c, List.mem_of_getElem? hc, p, u, h1, h2⟩
termination_by t
decreasing_by
  have := List.sizeOf_lt_of_mem hm
  simp_wf
  omega

/-- `write()` raises RuntimeError if there is an `Unknown`, and only then. -/
theorem C74_write_raises (cc : Concat) (t : UTree) : write cc t = .error .runtimeError ↔ ∃ p, UnknownAt t p := by
  have h := any_get (fun _ => true) t
  unfold write
  cases hu : anyUnknown (fun _ => true) t with
  | true =>
    obtain ⟨p, u, h1, h2, _⟩ := h.mp hu
    simp only [if_true, true_iff]
    exact ⟨p, u, h1, h2⟩
  | false =>
    simp only [Bool.false_eq_true, if_false, reduceCtorEq, false_iff]
    rintro ⟨p, u, h1, h2⟩
    rw [h.mpr ⟨p, u, h1, h2, rfl⟩] at hu
    simp at hu

theorem source_child {v : Elem × Bool} {cs : List UTree} {c : UTree} (h : AllFromSource (.node v cs)) (hc : c ∈ cs) :
    (c.val.2 = true → FromSource c) ∧ AllFromSource c := by
  obtain ⟨i, hi⟩ := List.getElem?_of_mem hc
  constructor
  · intro h1
    refine h [i] c (by simp) ?_ h1
    rw [get?_cons, hi]
    simp [Tree.get?]
  · intro p u hp hu hx
    refine h (i :: p) u (by simp) ?_ hx
    rw [get?_cons, hi]
    exact hu

theorem texts_go (cs : List (Node.Tree Elem)) : texts.go cs = (cs.map texts).flatten := by
  induction cs with
  | nil => rfl
  | cons c cs ih => rw [texts.go, ih]; rfl

theorem shown_go (doc : Str) (cs : List UTree) : shown.go doc cs = (cs.map (shown doc)).flatten := by
  induction cs with
  | nil => rfl
  | cons c cs ih => rw [shown.go, ih]; rfl

theorem shown_texts (doc : Str) : (t : UTree) → (hr : t.val.2 = false) → (h : AllFromSource t) → texts (elems (replaceUnknown doc t)) = shown doc t
  | .node v cs, hr, h => by
    simp only [Tree.val] at hr
    rw [rep_eq, elems_eq, texts, shown, hr, texts_go, shown_go, List.map_map, List.map_map]
    simp only [Bool.false_eq_true, if_false]
    congr 3
    apply List.map_congr_left
    intro c hc
    obtain ⟨h1, h2⟩ := source_child h hc
    simp only [Function.comp_apply, rep]
    cases hv : c.val.2 with
    | false => simp only [Bool.false_eq_true, if_false]; exact shown_texts doc c hv h2
    | true =>
      have hs := h1 hv
      obtain ⟨e, ⟨p, x⟩, he, k1, k2, _⟩ := h1 hv
      rw [if_pos rfl, textNode_source hs (p := p) (e := x) (by rw [he]; exact k2), he, shown]
      simp [elems, elems.go, texts, texts.go, k2]
termination_by t => t
decreasing_by
  have := List.sizeOf_lt_of_mem hc
  simp_wf
  omega

/-- **C74**, only for unknown regions that have an origin and if the node itself is not one: after `replace_unknown()`
`write()` gives the texts of the document, in order, with for each unknown region its part of the source text; and whitespace the elements
ask for in between. -/
theorem C74_write_partial (cc : Concat) (doc : Str) (t : UTree) (hr : t.val.2 = false) (h : AllFromSource t) :
    ∃ gaps, gaps.length = (shown doc t).length - 1 ∧ (∀ g ∈ gaps, Wish cc (elems (replaceUnknown doc t)) g) ∧
      write cc (replaceUnknown doc t) = .ok (weave (shown doc t) gaps) := by
  obtain ⟨gaps, h1, h2, h3⟩ := C37_texts cc (elems (replaceUnknown doc t))
  rw [shown_texts doc t hr h] at h1 h3
  refine ⟨gaps, h1, h2, ?_⟩
  unfold write
  rw [if_neg, h3]
  intro hu
  obtain ⟨p, u, k1, k2, _⟩ := (any_get _ _).mp hu
  cases p with
  | nil =>
    simp only [Tree.get?, Option.some.injEq] at k1
    subst k1
    obtain ⟨v, cs⟩ := t
    rw [rep_eq] at k2
    simp only [Tree.val] at k2 hr
    rw [hr] at k2
    simp at k2
  | cons i p => exact C74_none_left doc t (i :: p) (by simp) ⟨u, k1, k2⟩

/-! ## Editing -/

/-- The points are the same, but for unknown regions: those are modified, and their text is that of the source. -/
def Same (doc : Str) (a b : Point) : Prop :=
  b.range = a.range ∧ b.before = a.before ∧ b.after = a.after ∧
  (b.text = a.text ∧ b.modified = a.modified ∨
    ∃ p e, a.range = some (p, e) ∧ a.modified = false ∧ b.text = Edits.Spec.slice doc p e)

theorem same_refl (doc : Str) (ps : List Point) : List.Forall₂ (Same doc) ps ps := by
  induction ps with
  | nil => exact .nil
  | cons p ps ih => exact .cons ⟨rfl, rfl, rfl, .inl ⟨rfl, rfl⟩⟩ ih

theorem same_collapseLast {doc : Str} {as bs : List Point} (w : Str) (h : List.Forall₂ (Same doc) as bs) :
    List.Forall₂ (Same doc) (collapseLast as w) (collapseLast bs w) := by
  induction h with
  | nil => exact .nil
  | cons h1 h2 ih =>
    rename_i a b as bs
    cases h2 with
    | nil =>
      obtain ⟨k1, k2, k3, k4⟩ := h1
      exact .cons ⟨k1, k2, by simp [k3], k4⟩ .nil
    | cons h3 h4 => exact .cons h1 ih

theorem same_append {doc : Str} {as bs cs ds : List Point} (h : List.Forall₂ (Same doc) as bs) (k : List.Forall₂ (Same doc) cs ds) :
    List.Forall₂ (Same doc) (as ++ cs) (bs ++ ds) := by
  induction h with
  | nil => exact k
  | cons h1 _ ih => exact .cons h1 ih

/-- The hook `concat_space()` makes no difference between an `Unknown` and its `Text`. -/
def Indifferent (cc : Concat) (doc : Str) : Prop := ∀ e n m, cc e (elems (rep doc n)) (elems (rep doc m)) = cc e (elems n) (elems m)

theorem same_points (cc : Concat) (doc : Str) (hcc : Indifferent cc doc) : (t : UTree) → (h : AllFromSource t) →
    List.Forall₂ (Same doc) (points cc (elems t)) (points cc (elems (replaceUnknown doc t)))
  | .node v cs, h => by
    have hkid : ∀ c ∈ cs, List.Forall₂ (Same doc) (points cc (elems c)) (points cc (elems (rep doc c))) := by
      intro c hc
      obtain ⟨h1, h2⟩ := source_child h hc
      cases hv : c.val.2 with
      | false =>
        rw [rep, hv]
        exact same_points cc doc hcc c h2
      | true =>
        have hs := h1 hv
        obtain ⟨e, ⟨p, x⟩, he, k1, k2, k3, k4, k5⟩ := h1 hv
        rw [rep, if_pos hv, textNode_source hs (p := p) (e := x) (by rw [he]; exact k2), he]
        simp only [elems, elems.go, points, points.kids, headPoint, tailPoint, k1, k2, k4, k5, List.length_nil, Elem.hasTail]
        refine .cons ⟨rfl, rfl, rfl, .inr ⟨p, x, rfl, rfl, rfl⟩⟩ .nil
    have hgo : ∀ ds : List UTree, (∀ d ∈ ds, d ∈ cs) →
        List.Forall₂ (Same doc) (points.kids cc v.1 (ds.map elems)) (points.kids cc v.1 ((ds.map (rep doc)).map elems)) := by
      intro ds
      induction ds with
      | nil => intro _; exact .nil
      | cons d ds ih =>
        intro hd
        have k1 := hkid d (hd d (by simp))
        have k2 := ih (fun x hx => hd x (by simp [hx]))
        simp only [List.map_cons, points.kids]
        refine same_append ?_ k2
        cases ds with
        | nil =>
          simp only [List.map_nil]
          split
          · exact k1
          · exact same_collapseLast _ k1
        | cons m ms =>
          simp only [List.map_cons]
          rw [hcc]
          exact same_collapseLast _ k1
    rw [rep_eq, elems_eq, elems_eq, points, points]
    simp only [List.length_map]
    exact same_append (same_append (same_refl _ _) (hgo cs (fun _ h => h))) (same_refl _ _)
termination_by t => t
decreasing_by
  have := List.sizeOf_lt_of_mem hc
  simp_wf
  omega

/-- An edit that replaces a part of the text by itself. -/
def isNoop (doc : Str) (x : Edits.Edit) : Bool := x.2.2 == Edits.Spec.slice doc x.1 x.2.1

theorem loop_same (doc : Str) (stop pos : ℕ) (tokens : List Edits.Tok) (ia : Str) (as bs : List Point) (h : List.Forall₂ (Same doc) as bs) :
    (Edits.loop stop pos tokens ia as).filter (fun x => !isNoop doc x) = (Edits.loop stop pos tokens ia bs).filter (fun x => !isNoop doc x) := by
  induction h generalizing pos tokens ia with
  | nil => rfl
  | cons h1 _ ih =>
    rename_i a b as bs _
    obtain ⟨k1, k2, k3, k4⟩ := h1
    rw [Edits.loop, Edits.loop]
    simp only [k1, k2, k3]
    cases hr : a.range with
    | none =>
      have ht : b.text = a.text := by
        rcases k4 with h | ⟨p, e, h, _⟩
        · exact h.1
        · rw [hr] at h; simp at h
      simp only [ht]
      split
      · rw [List.filter_cons, List.filter_cons, ih]
      · exact ih _ _ _
    | some r =>
      obtain ⟨p, e⟩ := r
      simp only [List.filter_append, ih]
      congr 2
      rcases k4 with ⟨h1, h2⟩ | ⟨q, f, h1, h2, h3⟩
      · rw [h1, h2]
      · rw [hr] at h1
        simp only [Option.some.injEq, Prod.mk.injEq] at h1
        obtain ⟨rfl, rfl⟩ := h1
        rw [h2, h3]
        cases b.modified <;> simp [isNoop]

theorem applyFrom_skip (doc : Str) (i e : ℕ) (xs : List Edits.Edit) (hie : i ≤ e) (h : ∀ x ∈ xs, e ≤ x.1) :
    Edits.applyFrom doc i xs = (doc.take e).drop i ++ Edits.applyFrom doc e xs := by
  cases xs with
  | nil =>
    rw [Edits.applyFrom, Edits.applyFrom]
    nth_rw 1 [← List.take_append_drop e doc]
    by_cases hl : i ≤ doc.length
    · rw [List.drop_append_of_le_length (by simp; omega)]
    · rw [List.drop_eq_nil_of_le (by simp; omega), List.drop_eq_nil_of_le (as := List.take e doc) (by simp; omega),
        List.drop_eq_nil_of_le (as := doc) (by omega)]
      rfl
  | cons x xs =>
    have hx := h x (by simp)
    obtain ⟨p, f, y⟩ := x
    simp only at hx
    rw [Edits.applyFrom, Edits.applyFrom, ← List.append_assoc, ← List.append_assoc]
    congr 2
    have : List.drop i (List.take p doc) = List.drop i (List.take e doc) ++ List.drop e (List.take p doc) := by
      have h1 : doc.take p = doc.take e ++ (doc.take p).drop e := by
        conv_lhs => rw [← List.take_append_drop e (doc.take p)]
        rw [List.take_take, Nat.min_eq_left hx]
      nth_rw 1 [h1]
      by_cases hl : i ≤ (doc.take e).length
      · rw [List.drop_append_of_le_length hl]
      · simp only [List.length_take, Nat.not_le] at hl
        rw [List.drop_eq_nil_of_le (by simp; omega), List.drop_eq_nil_of_le (as := List.take e doc) (by simp; omega),
          List.drop_eq_nil_of_le (as := List.take p doc) (by simp; omega)]
        rfl
    rw [this]

theorem applyFrom_filter (doc : Str) (i : ℕ) (xs : List Edits.Edit) (hs : xs.Pairwise (fun a b => a.2.1 ≤ b.1))
    (hi : ∀ x ∈ xs, i ≤ x.1 ∧ x.1 ≤ x.2.1) :
    Edits.applyFrom doc i (xs.filter fun x => !isNoop doc x) = Edits.applyFrom doc i xs := by
  induction xs generalizing i with
  | nil => rfl
  | cons x xs ih =>
    obtain ⟨p, e, y⟩ := x
    have h1 := hi (p, e, y) (by simp)
    simp only at h1
    rw [List.pairwise_cons] at hs
    have h2 : ∀ x ∈ xs, e ≤ x.1 ∧ x.1 ≤ x.2.1 := fun x hx => ⟨hs.1 x hx, (hi x (by simp [hx])).2⟩
    have h3 := ih e hs.2 h2
    by_cases hn : isNoop doc (p, e, y) = true
    · rw [List.filter_cons, if_neg (by simp [hn])]
      have hy : y = (doc.take e).drop p := by simpa [isNoop, Edits.Spec.slice] using hn
      rw [Edits.applyFrom, applyFrom_skip doc i p _ h1.1, applyFrom_skip doc p e _ h1.2, h3, hy, List.append_assoc]
      · intro x hx; exact (h2 x (List.mem_of_mem_filter hx)).1
      · intro x hx; exact Nat.le_trans h1.2 (h2 x (List.mem_of_mem_filter hx)).1
    · rw [List.filter_cons, if_pos (by simpa using hn), Edits.applyFrom, Edits.applyFrom, h3]

theorem same_range {doc : Str} {as bs : List Point} (h : List.Forall₂ (Same doc) as bs) : bs.map Point.range = as.map Point.range := by
  induction h with
  | nil => rfl
  | cons h1 _ ih => rw [List.map_cons, List.map_cons, ih, h1.1]

theorem kept_of_range {doc : Str} {tokens : List Edits.Tok} {start : ℕ} {as bs : List Point} (h : bs.map Point.range = as.map Point.range)
    (hk : Edits.Spec.Kept doc tokens start as) : Edits.Spec.Kept doc tokens start bs := by
  constructor
  · intro pt hpt p e hr
    have : pt.range ∈ bs.map Point.range := List.mem_map_of_mem hpt
    rw [h] at this
    obtain ⟨q, hq, hqr⟩ := List.mem_map.mp this
    exact hk.origin q hq p e (hqr.trans hr)
  · have h1 := hk.inOrder
    have key : ∀ cs : List Point, cs.Pairwise (fun a b => ∀ p e q f, a.range = some (p, e) → b.range = some (q, f) → e ≤ q) ↔
        (cs.map Point.range).Pairwise (fun a b => ∀ p e q f, a = some (p, e) → b = some (q, f) → e ≤ q) := by
      intro cs; rw [List.pairwise_map]
    rw [key, h, ← key]
    exact h1

/-- **C74**: `edit()` leaves unknown regions as they are; it makes no difference whether `replace_unknown()` was called with the
text of the document. -/
theorem C74_edit_partial (isSpace : Char → Bool) (cc : Concat) (doc : Str) (ctx : Edits.Context) (start stop : Option ℕ) (t : UTree)
    (hcc : Indifferent cc doc) (hr : t.val.2 = false) (h : AllFromSource t) (hp : Edits.Spec.Parsed isSpace doc ctx.tokens)
    (hs : ∀ k ∈ ctx.tokens, k.2 ≤ Edits.startOf ctx start ∨ Edits.startOf ctx start ≤ k.1)
    (hk : Edits.Spec.Kept doc ctx.tokens (Edits.startOf ctx start) (points cc (elems t))) :
    edit cc doc ctx start stop (replaceUnknown doc t) = edit cc doc ctx start stop t ∧
    ∃ s, edit cc doc ctx start stop t = .ok s := by
  have hsame := same_points cc doc hcc t h
  have hk' := kept_of_range (same_range hsame) hk
  have s1 := Edits.C38_sorted_partial isSpace cc doc ctx start stop (elems t) hp hs hk
  have s2 := Edits.C38_sorted_partial isSpace cc doc ctx start stop (elems (replaceUnknown doc t)) hp hs hk'
  have key : Edits.edit cc doc ctx start stop (elems (replaceUnknown doc t)) = Edits.edit cc doc ctx start stop (elems t) := by
    unfold Edits.edit
    rw [← applyFrom_filter doc 0 _ s1.1 (fun x hx => ⟨Nat.zero_le _, (s1.2 x hx).2⟩),
      ← applyFrom_filter doc 0 _ s2.1 (fun x hx => ⟨Nat.zero_le _, (s2.2 x hx).2⟩)]
    unfold Edits.edits
    rw [loop_same doc _ _ _ _ _ _ hsame]
  have n1 : anyUnknown (fun e => e.headOrigin.isNone) t = false := by
    cases hu : anyUnknown (fun e => e.headOrigin.isNone) t with
    | false => rfl
    | true =>
      obtain ⟨p, u, k1, k2, k3⟩ := (any_get _ _).mp hu
      cases p with
      | nil =>
        simp only [Tree.get?, Option.some.injEq] at k1
        subst k1
        rw [hr] at k2
        simp at k2
      | cons i p =>
        obtain ⟨e, r, rfl, _, h2, _⟩ := h _ u (by simp) k1 k2
        simp only [Tree.val] at k3
        rw [h2] at k3
        simp at k3
  have n2 : anyUnknown (fun e => e.headOrigin.isNone) (replaceUnknown doc t) = false := by
    cases hu : anyUnknown (fun e => e.headOrigin.isNone) (replaceUnknown doc t) with
    | false => rfl
    | true =>
      obtain ⟨p, u, k1, k2, _⟩ := (any_get _ _).mp hu
      cases p with
      | nil =>
        simp only [Tree.get?, Option.some.injEq] at k1
        subst k1
        obtain ⟨v, cs⟩ := t
        rw [rep_eq] at k2
        simp only [Tree.val] at k2 hr
        rw [hr] at k2
        simp at k2
      | cons i p => exact absurd ⟨u, k1, k2⟩ (C74_none_left doc t (i :: p) (by simp))
  unfold edit
  rw [n1, n2, key]
  exact ⟨rfl, _, rfl⟩

/-! ## Where it does not hold -/

/-- C74 does not hold for the node itself: an `Unknown` is not replaced, so that `write()` still raises. -/
theorem C74_root_stays (cc : Concat) (doc : Str) (e : Elem) (cs : List UTree) :
    write cc (replaceUnknown doc (.node (e, true) cs)) = .error .runtimeError :=
  (C74_write_raises cc _).mpr ⟨[], _, rfl, by rw [rep_eq]; rfl⟩

/-- C74 does not hold for a copy: `copy()` has no origin, and then each unknown region becomes the whole source text. -/
theorem C74_copy_whole_text (doc : Str) (v : Elem × Bool) (e : Elem) :
    ∃ x, (replaceUnknown doc (copy (.node v [.node (e, true) []]))).get? [0] = some (.node (x, false) []) ∧ x.head = doc := by
  refine ⟨_, by simp [copy, copy.go, rep_eq, rep, Tree.val, Tree.get?, textNode]; rfl, ?_⟩
  simp [pos, pos.go, stop, stop.go, pySlice]

/-! ## Example -/

/-- `<a ?? >`, where the region from 3 to 5 is unknown. -/
def exTree : UTree := .node ({ kind := .plain }, false)
  [.node ({ kind := .block, head := ['<', 'b'], tail := ['>'], headOrigin := some (0, 2), tailOrigin := some (6, 7), headModified := true,
            sp := { afterHead := [' '], beforeTail := [' '] } }, false)
    [.node ({ kind := .head, headOrigin := some (3, 5) }, true) []]]

/-- The source text. -/
def exDoc : Str := "<a ?? >".toList

/-- The tokens. -/
def exContext : Edits.Context := ⟨0, 7, [(0, 2), (3, 4), (4, 5), (6, 7)]⟩

example : write defaultConcat exTree = .error .runtimeError := by rfl
example : write defaultConcat (replaceUnknown exDoc exTree) = .ok "<b ?? >".toList := by rfl
example : edit defaultConcat exDoc exContext none none exTree = .ok "<b ?? >".toList := by rfl
example : edit defaultConcat exDoc exContext none none (replaceUnknown exDoc exTree) = .ok "<b ?? >".toList := by rfl
example : Indifferent defaultConcat exDoc := fun _ _ _ => rfl
example : shown exDoc exTree = ["<b".toList, "??".toList, ">".toList] := by rfl
example : AllFromSource exTree := by
  intro p u hp hu h
  match p, hu with
  | [], _ => exact absurd rfl hp
  | [0], hu => cases hu; simp [Tree.val] at h
  | [0, 0], hu => cases hu; exact ⟨_, _, rfl, rfl, rfl, rfl, rfl, rfl⟩

end Quickly.Unknown
