import Verif.Lily.Spec
import Verif.Read.Props
import Verif.Build.Lemmas
import Verif.Group.Props

/-! # Lemmas about reading LilyPond: the number of times a token is used -/

namespace Quickly.Lily

open Quickly.Read
open Quickly.Read.Spec
open Spec

variable {κ : Type}

/-! ## Trees -/

mutual
@[simp] theorem ofTree_toTree : ∀ x : Elem, ofTree (toTree x) = x
  | .mk c h t ks => by simp [toTree, ofTree, ofTrees_toTrees ks]
@[simp] theorem ofTrees_toTrees : ∀ l : List Elem, ofTrees (toTrees l) = l
  | [] => rfl
  | k :: ks => by simp [toTrees, ofTrees, ofTree_toTree k, ofTrees_toTrees ks]
end

theorem toTrees_map (l : List Elem) : toTrees l = l.map toTree := by
  induction l with
  | nil => rfl
  | cons x l ih => simp [toTrees, ih]

theorem ofTrees_map (l : List (Node.Tree Label)) : ofTrees l = l.map ofTree := by
  induction l with
  | nil => rfl
  | cons x l ih => simp [ofTrees, ih]

theorem toksL_flatMap (l : List Elem) : toksL l = l.flatMap toks := by
  induction l with
  | nil => rfl
  | cons x l ih => simp [toksL, ih]

theorem cntL_sum (t : Tok) (l : List Elem) : cntL t l = (l.map (cnt t)).sum := by
  induction l with
  | nil => rfl
  | cons x l ih => simp [ih]

theorem cnt_addArg (e : Env κ) (hf : Fair e) (t : Tok) (p n : Node.Tree Label) :
    cnt t (ofTree (e.build.addArg p n)) ≤ cnt t (ofTree p) + cnt t (ofTree n) := by
  obtain ⟨a, ks⟩ := p
  have := hf (.node a ks) n t
  simp only [Build.Env.addArg, Node.Tree.val, Node.Tree.children, ofTree, ofTrees_map, List.map_append,
    List.map_cons, List.map_nil, cnt_mk, cntL_append, cntL_cons, cntL_nil] at this ⊢
  simp only [cnt]
  omega

/-- `build_tree` uses no token twice. -/
theorem cnt_buildTree (e : Env κ) (hf : Fair e) (t : Tok) (nodes : List Elem) :
    cntL t (e.buildTree nodes) ≤ cntL t nodes := by
  have := Build.main_le e.build (fun n => cnt t (ofTree n)) (cnt_addArg e hf t) (toTrees nodes) []
  rw [Env.buildTree, Build.Env.buildTree, cntL_sum, ofTrees_map, List.map_map]
  rw [toTrees_map, List.map_map] at this
  rw [cntL_sum, toTrees_map]
  simpa [Function.comp_def] using this

theorem cnt_createMusic (e : Env κ) (hf : Fair e) (t : Tok) (items : List Item) (out : List Elem)
    (h : e.createMusic items = .ok out) : cntL t out ≤ cntI t items := by
  unfold Env.createMusic at h
  rcases hm : music e.nargs items with er | nodes
  · rw [hm] at h; cases h
  · rw [hm] at h
    injection h with h
    have h1 := C63_no_token_twice e.nargs items nodes hm t
    have h2 := cnt_buildTree e hf t nodes
    rw [h] at h2
    simp only [cntL, cntI] at h2 ⊢
    omega

/-! ## Assignments and lyrics -/

/-- The number of times a token is in nodes that are grouped. -/
def cntG (t : Tok) (n : Group.Node Elem) : ℕ := cnt t (ungroup n)

theorem cntL_map {β : Type} (t : Tok) (f : β → Elem) (l : List β) :
    cntL t (l.map f) = (l.map fun x => cnt t (f x)).sum := by
  rw [cntL_sum, List.map_map]; rfl

theorem cntG_contents (t : Tok) (n : Group.Node Elem) :
    ((Group.Spec.contents n).map (cntG t)).sum = cntG t n := by
  cases n with
  | list items =>
    simp only [Group.Spec.contents, List.map_map, cntG, ungroup, cnt_mk, List.count_nil]
    rw [cntL_sum]
    simp [Function.comp_def, cntG, ungroup]
  | _ => simp [Group.Spec.contents]

theorem cntG_flatMap (t : Tok) (l : List (Group.Node Elem)) :
    ((l.flatMap Group.Spec.contents).map (cntG t)).sum = (l.map (cntG t)).sum := by
  induction l with
  | nil => rfl
  | cons n l ih => simp [ih, cntG_contents]

theorem cnt_outElem (t : Tok) (o : Group.Out Elem) :
    cnt t (outElem o) = ((Group.Spec.outContents o).map (cntG t)).sum := by
  cases o with
  | node n => rw [Group.Spec.outContents, cntG_contents]; rfl
  | assignList items rest =>
    simp only [outElem, assignment, Group.Spec.outContents, List.map_append, List.sum_append, cntG_flatMap,
      cnt_mk, cntL_cons, List.count_nil, List.map_map]
    rw [cntL_sum, cntL_map]
    simp only [Function.comp_def, Nat.zero_add, Nat.add_zero]
    rfl
  | assignName first rest =>
    simp only [outElem, assignment, Group.Spec.outContents, List.map_append, List.sum_append, cntG_flatMap,
      cnt_mk, cntL_cons, List.count_nil, cntG_contents, cntL_map, cntL_nil]
    simp only [Nat.zero_add, Nat.add_zero]
    rfl

theorem cnt_groupNode (t : Tok) (x : Elem) : cntG t (groupNode x) ≤ cnt t x := by
  obtain ⟨c, h, tl, ks⟩ := x
  unfold groupNode
  split <;> simp [cntG, ungroup, Elem.kids] <;> omega

theorem cnt_handleAssignments (t : Tok) (nodes : List Elem) :
    cntL t (handleAssignments nodes) ≤ cntL t nodes := by
  have h := congrArg (fun l => (l.map (cntG t)).sum) (Group.C55_keeps_nodes (nodes.map groupNode))
  simp only [cntG_flatMap] at h
  have h1 : cntL t (handleAssignments nodes) =
      (((Group.handleAssignments (nodes.map groupNode)).flatMap Group.Spec.outContents).map (cntG t)).sum := by
    rw [handleAssignments, cntL_map]
    generalize Group.handleAssignments (nodes.map groupNode) = l
    induction l with
    | nil => rfl
    | cons o l ih =>
      rw [List.map_cons, List.sum_cons, ih, cnt_outElem]
      simp
  rw [h1, h]
  clear h h1
  induction nodes with
  | nil => simp
  | cons x l ih =>
    have := cnt_groupNode t x
    simp only [List.map_cons, List.sum_cons, cntL_cons]
    omega

theorem cnt_lyricElem (t : Tok) (o : Group.LOut Elem) :
    cnt t (lyricElem o) = cntL t (Group.Spec.loutContents o) := by
  cases o <;> simp [lyricElem, Group.Spec.loutContents]

theorem cnt_lyricNode (t : Tok) (x : Elem) : cntL t (Group.Spec.lcontents (lyricNode x)) ≤ cnt t x := by
  obtain ⟨c, h, tl, ks⟩ := x
  unfold lyricNode
  split <;> simp [Group.Spec.lcontents, Elem.kids] <;> omega

theorem cntL_flatMap {β : Type} (t : Tok) (f : β → List Elem) (l : List β) :
    cntL t (l.flatMap f) = (l.map fun x => cntL t (f x)).sum := by
  induction l with
  | nil => rfl
  | cons x l ih => simp [ih]

theorem cnt_postprocessLyrics (t : Tok) (nodes : List Elem) :
    cntL t (postprocessLyrics nodes) ≤ cntL t nodes := by
  have h := congrArg (cntL t) (Group.C55_lyrics_keep (nodes.map lyricNode))
  rw [cntL_flatMap, cntL_flatMap] at h
  rw [postprocessLyrics, cntL_map]
  simp only [cnt_lyricElem]
  rw [h]
  clear h
  induction nodes with
  | nil => simp
  | cons x l ih =>
    have := cnt_lyricNode t x
    simp only [List.map_cons, List.sum_cons, cntL_cons]
    omega

/-! ## Helpers -/

theorem cnt_origin (t : Tok) (items : List Item) : (origin items).count t ≤ cntI t items := by
  induction items with
  | nil => simp [origin]
  | cons i items ih =>
    simp only [origin, cntI_cons] at ih ⊢
    cases i <;> simp [tokOf, List.filterMap_cons, List.count_cons] <;> omega

theorem cnt_origin_append (t : Tok) (a b : List Item) : (origin a).count t + cntI t b ≤ cntI t (a ++ b) := by
  have := cnt_origin t a
  simp; omega

theorem cnt_take_drop (t : Tok) (n : ℕ) (items : List Item) :
    (origin (items.take n)).count t + cntI t (items.drop n) ≤ cntI t items := by
  have := cnt_origin_append t (items.take n) (items.drop n)
  rwa [List.take_append_drop] at this

theorem popTail_ok (e : Env κ) (cl : List String) (items : List Item) (r : List Item × List Tok)
    (h : e.popTail cl items = .ok r) : items ≠ [] ∧
      (r = (items, []) ∨ ∃ z, e.text z ∈ cl ∧ items = r.1 ++ [.tok z] ∧ r.2 = [z]) := by
  rcases List.eq_nil_or_concat items with rfl | ⟨l, i, rfl⟩
  · simp [Env.popTail] at h
  · refine ⟨by simp, ?_⟩
    rw [List.concat_eq_append] at *
    cases i with
    | tok z =>
      simp only [Env.popTail, List.getLast?_concat, Except.ok.injEq] at h
      by_cases hz : e.text z ∈ cl
      · rw [if_pos hz] at h
        refine .inr ⟨z, hz, ?_⟩
        subst h; simp
      · rw [if_neg hz] at h
        exact .inl h.symm
    | _ =>
      simp only [Env.popTail, List.getLast?_concat, Except.ok.injEq] at h
      exact .inl h.symm

theorem cnt_popTail (e : Env κ) (t : Tok) (cl : List String) (items : List Item) (r : List Item × List Tok)
    (h : e.popTail cl items = .ok r) : cntI t r.1 + r.2.count t ≤ cntI t items := by
  rcases (popTail_ok e cl items r h).2 with rfl | ⟨z, -, h2, h3⟩
  · simp
  · rw [h2, h3]; simp

theorem cnt_common (e : Env κ) (t : Tok) (n : ℕ) (items : List Item) :
    cntL t (e.common n items) ≤ cntI t items := by
  induction n generalizing items with
  | zero => cases items <;> simp [Env.common]
  | succ n ih =>
    cases items with
    | nil => simp [Env.common]
    | cons i items =>
      have hi := ih items
      cases i with
      | tok u => cases hc : e.actionClass u <;> simp [Env.common, hc] <;> omega
      | elem c x => simp [Env.common]; omega
      | markup m =>
        have h1 := cnt_createMarkup e.nargs t m items
        have h2 := ih (createMarkup e.nargs m items).2
        simp [Env.common]; omega
      | _ => simp [Env.common]; omega

theorem cnt_figures (e : Env κ) (t : Tok) (n : ℕ) (step : Option Elem) (items : List Item) :
    cntL t (e.figures n step items) ≤ cntL t step.toList + cntI t items := by
  induction n generalizing items step with
  | zero => cases items <;> simp [Env.figures]
  | succ n ih =>
    cases items with
    | nil => simp [Env.figures]
    | cons i items =>
      have hi := ih step items
      have happ : ∀ (s : Option Elem) (c : Cls) (u : Tok),
          cntL t (s.map fun x => x.append (make c u)).toList ≤ cntL t s.toList + [u].count t := by
        intro s c u; cases s <;> simp
      cases i with
      | tok u =>
        simp only [Env.figures, cntI_cons, cnt1_tok]
        split
        · have := ih (some (make (.other (if e.text u = "_" then "FigureSkip" else "FigureStep")) u)) items
          simp only [Option.toList_some, cntL_cons, cntL_nil, cnt_make] at this
          simp only [cntL_append]; omega
        · have h1 := ih (step.map fun s => s.append (make (.other "FigureAccidental") u)) items
          have h2 := happ step (.other "FigureAccidental") u
          omega
        · have h1 := ih (step.map fun s => s.append (make (.other "FigureAlteration") u)) items
          have h2 := happ step (.other "FigureAlteration") u
          omega
        · omega
      | elem c x =>
        have := ih (some x) items
        simp only [Env.figures, cntL_append, cntI_cons, cnt1_elem] at this ⊢
        simp at this
        omega
      | markup m =>
        have h1 := cnt_createMarkup e.nargs t m items
        have h2 := ih (createMarkup e.nargs m items).1 (createMarkup e.nargs m items).2
        simp [Env.figures]; omega
      | _ => simp [Env.figures]; omega

theorem bind_ok {α β : Type} {x : Py α} {f : α → Py β} {b : β} (h : (x >>= f) = .ok b) :
    ∃ a, x = .ok a ∧ f a = .ok b := by
  cases x with
  | error er => cases h
  | ok a => exact ⟨a, rfl, h⟩

theorem cnt_createBlock (e : Env κ) (hf : Fair e) (t : Tok) (c : Cls) (m a : Bool) (items : List Item) (i : Item)
    (h : e.createBlock c m a items = .ok i) : cnt1 t i ≤ cntI t items := by
  obtain ⟨r, hr, h⟩ := bind_ok h
  obtain ⟨nodes, hn, h⟩ := bind_ok h
  injection h with h
  subst h
  have h1 := cnt_popTail e t _ _ _ hr
  have h2 := cnt_take_drop t 2 r.1
  have h3 : cntL t nodes ≤ cntI t (r.1.drop 2) := by
    cases m with
    | true => exact cnt_createMusic e hf t _ _ hn
    | false =>
      simp only [Env.blockNodes, Bool.false_eq_true, if_false, Except.ok.injEq] at hn
      subst hn
      exact Nat.le_trans (cnt_buildTree e hf t _) (cnt_common e t _ _)
  have h4 := cnt_handleAssignments t nodes
  cases a <;> simp <;> omega

/-- One item only, and that is the closing delimiter. -/
def Lone (e : Env κ) (cl : List String) (items : List Item) : Prop :=
  ∃ z, items = [.tok z] ∧ e.text z ∈ cl

theorem cnt_opened (e : Env κ) (t : Tok) (cl : List String) (items : List Item) (r : List Item × List Tok)
    (h : e.popTail cl items = .ok r) (hl : ¬ Lone e cl items) :
    (origin (items.take 1)).count t + cntI t (r.1.drop 1) + r.2.count t ≤ cntI t items := by
  rcases (popTail_ok e cl items r h).2 with rfl | ⟨z, h1, h2, h3⟩
  · simpa using cnt_take_drop t 1 items
  · rcases r with ⟨l, tl⟩
    simp only at h2 h3
    cases l with
    | nil => exact absurd ⟨z, h2, h1⟩ hl
    | cons x l =>
      have := cnt_take_drop t 1 (x :: l)
      rw [h2, h3]
      simp at this ⊢
      omega

theorem cnt_modifiers (e : Env κ) (t : Tok) : ∀ (items : List Item) (l : List Elem),
    e.modifiers items = .ok l → cntL t l ≤ cntI t items := by
  intro items
  induction items using Env.modifiers.induct e with
  | case1 => intro l h; rw [Env.modifiers] at h; injection h with h; subst h; simp
  | case2 u items h1 ih =>
    intro l h
    rw [Env.modifiers.eq_def] at h
    simp only [h1, if_true] at h
    obtain ⟨r, hr, h⟩ := bind_ok h
    injection h with h
    subst h
    have := ih r hr
    simp; omega
  | case3 u h1 h2 h3 a items ih =>
    intro l h
    rw [Env.modifiers.eq_def] at h
    simp only [h1, h2, h3, if_true, if_false] at h
    obtain ⟨r, hr, h⟩ := bind_ok h
    injection h with h
    subst h
    have := ih r hr
    simp; omega
  | case4 u h1 h2 h3 x items hx =>
    intro l h
    rw [Env.modifiers.eq_def] at h
    simp only [h1, h2, h3, if_true, if_false] at h
    cases x with
    | tok a => exact absurd rfl (hx a)
    | _ => cases h
  | case5 u h1 h2 h3 =>
    intro l h
    rw [Env.modifiers.eq_def] at h
    simp [h1, h2, h3] at h
  | case6 u items h1 h2 h3 ih =>
    intro l h
    rw [Env.modifiers.eq_def] at h
    simp only [h1, h2, h3, if_true, if_false] at h
    obtain ⟨r, hr, h⟩ := bind_ok h
    injection h with h
    subst h
    have := ih r hr
    simp; omega
  | case7 u items h1 h2 h3 ih =>
    intro l h
    rw [Env.modifiers.eq_def] at h
    simp only [h1, h2, h3, if_true, if_false] at h
    obtain ⟨r, hr, h⟩ := bind_ok h
    injection h with h
    subst h
    have := ih r hr
    simp; omega
  | case8 u items h1 h2 h3 ih =>
    intro l h
    rw [Env.modifiers.eq_def] at h
    simp only [h1, h2, h3, if_false] at h
    have := ih l h
    simp; omega
  | case9 c x items ih =>
    intro l h
    rw [Env.modifiers.eq_def] at h
    obtain ⟨r, hr, h⟩ := bind_ok h
    injection h with h
    subst h
    have := ih r hr
    simp; omega
  | case10 x items h1 h2 =>
    intro l h
    rw [Env.modifiers.eq_def] at h
    cases x with
    | tok a => exact absurd rfl (h1 a)
    | elem c y => exact absurd rfl (h2 c y)
    | _ => cases h

theorem cnt_listNodes (e : Env κ) (t : Tok) : ∀ (items : List Item) (l : List Elem),
    e.listNodes items = .ok l → cntL t l ≤ cntI t items := by
  intro items
  induction items with
  | nil => intro l h; injection h with h; subst h; simp
  | cons i items ih =>
    intro l h
    cases i with
    | tok u =>
      obtain ⟨r, hr, h⟩ := bind_ok h
      injection h with h
      subst h
      have := ih r hr
      simp; omega
    | elem c x =>
      obtain ⟨r, hr, h⟩ := bind_ok h
      injection h with h
      subst h
      have := ih r hr
      simp; omega
    | _ => cases h

theorem cnt_pitchNodes (e : Env κ) (t : Tok) : ∀ (items : List Item) (l : List Elem),
    e.pitchNodes items = .ok l → cntL t l ≤ cntI t items := by
  intro items
  induction items with
  | nil => intro l h; injection h with h; subst h; simp
  | cons i items ih =>
    intro l h
    cases i with
    | tok u =>
      rw [Env.pitchNodes] at h
      cases hc : e.pitchClass u with
      | none => rw [hc] at h; cases h
      | some c =>
        rw [hc] at h
        obtain ⟨r, hr, h⟩ := bind_ok h
        injection h with h
        subst h
        have := ih r hr
        simp; omega
    | elem c x =>
      obtain ⟨r, hr, h⟩ := bind_ok h
      injection h with h
      subst h
      have := ih r hr
      simp; omega
    | _ => cases h

theorem cnt_durationParts (e : Env κ) (t : Tok) (items : List Item) :
    (e.durationParts items).1.count t + cntL t (e.durationParts items).2.toList ≤ cntI t items := by
  induction items with
  | nil => simp [Env.durationParts]
  | cons i items ih =>
    cases i with
    | tok u =>
      rw [Env.durationParts]
      split
      · simp [List.count_cons] at ih ⊢; omega
      · simp; omega
    | elem c x =>
      rw [Env.durationParts]
      split
      · cases hd : (e.durationParts items).2 <;> simp [hd] at ih ⊢ <;> omega
      · simp; omega
    | _ => simp [Env.durationParts]; omega

theorem cnt_flatten (t : Tok) (items : List Item) : cntI t (flatten items) = cntI t items := by
  induction items with
  | nil => rfl
  | cons i items ih => cases i <;> simp [flatten, ih]

theorem cnt_musiclist (e : Env κ) (hf : Fair e) (t : Tok) (items : List Item)
    (r : Cls × List Tok × List Tok × List Elem) (h : e.musiclist items = .ok r)
    (hl : ¬ Lone e ["}", ">>"] items) :
    r.2.1.count t + cntL t r.2.2.2 + r.2.2.1.count t ≤ cntI t items := by
  obtain ⟨q, hq, h⟩ := bind_ok h
  obtain ⟨s, hs, h⟩ := bind_ok h
  obtain ⟨nodes, hn, h⟩ := bind_ok h
  injection h with h
  subst h
  have h1 := cnt_opened e t _ _ _ hq hl
  have h2 := cnt_createMusic e hf t _ _ hn
  simp only
  omega

theorem cnt_delimited (e : Env κ) (t : Tok) (cl : String) (items : List Item)
    (r : List Tok × List Item × List Tok) (h : e.delimited cl items = .ok r) (hl : ¬ Lone e [cl] items) :
    r.1.count t + cntI t (r.2.1.drop 1) + r.2.2.count t ≤ cntI t items := by
  obtain ⟨q, hq, h⟩ := bind_ok h
  injection h with h
  subst h
  exact cnt_opened e t _ _ _ hq hl

theorem cnt_figureNodes (e : Env κ) (t : Tok) (cl : String) (items : List Item)
    (r : List Tok × List Item × List Tok) (h : e.delimited cl items = .ok r) (hl : ¬ Lone e [cl] items)
    (hh : ∀ u is, items = .tok u :: is → e.act u ≠ .figure) (n : ℕ) :
    r.1.count t + cntL t (e.figures n none r.2.1) + r.2.2.count t ≤ cntI t items := by
  have h1 := cnt_delimited e t cl items r h hl
  obtain ⟨q, hq, h⟩ := bind_ok h
  injection h with h
  subst h
  simp only at h1 ⊢
  have hq1 : ∀ u is, q.1 = .tok u :: is → e.act u ≠ .figure := by
    intro u is hu
    rcases (popTail_ok e _ _ _ hq).2 with rfl | ⟨z, -, h2, -⟩
    · exact hh u is hu
    · exact hh u (is ++ [.tok z]) (by rw [h2, hu]; rfl)
  have hf := cnt_figures e t n none q.1
  rcases q with ⟨l, tl⟩
  simp only at *
  cases l with
  | nil => cases n <;> simp [Env.figures] at * <;> omega
  | cons i l =>
    cases i with
    | tok u =>
      have hu := hq1 u l rfl
      have : cntL t (e.figures n none (.tok u :: l)) ≤ cntI t l := by
        cases n with
        | zero => simp [Env.figures]
        | succ n =>
          have hi := cnt_figures e t n none l
          rw [Env.figures]
          split <;> simp_all
      simp only [List.drop_one, List.tail_cons] at h1
      omega
    | _ =>
      have h0 : (origin (items.take 1)).count t = 0 := by
        rcases (popTail_ok e _ _ _ hq).2 with h2 | ⟨z, -, h2, -⟩
        · rw [Prod.mk.injEq] at h2
          rw [← h2.1]; simp [origin, tokOf, List.filterMap]
        · rw [h2]; simp [origin, tokOf, List.filterMap]
      have := cnt_popTail e t _ _ _ hq
      simp only [Option.toList_none, cntL_nil, Nat.zero_add] at this hf
      omega

/-! ## Contexts -/

theorem item_tok (e : Env κ) (r : Raw) (t : Tok) (h : e.item r = .ok (.tok t)) : r = .tok t := by
  cases r with
  | tok u => simp [Env.item] at h; rw [h]
  | given c x => simp [Env.item] at h
  | ctx n rs =>
    exfalso
    obtain ⟨items, -, h⟩ := bind_ok h
    have hblock : ∀ c m a is, e.createBlock c m a is ≠ .ok (.tok t) := by
      intro c m a is hb
      obtain ⟨r, -, hb⟩ := bind_ok hb
      obtain ⟨nodes, -, hb⟩ := bind_ok hb
      cases hb
    cases n with
    | book | layoutContext | markupscore | score =>
      obtain ⟨c, -, h⟩ := bind_ok h
      exact hblock _ _ _ _ h
    | header | paper | layout | midi => exact hblock _ _ _ _ h
    | musiclist | drumlist | chordlist | figurelist | lyriclist | lyricmode | drummode | chordmode | notemode
    | figuremode | pitch | chordModifier | figure | figurebracket | identifierRef | markuplist =>
      obtain ⟨c, -, h⟩ := bind_ok h
      cases h
    | chord | schemelily =>
      obtain ⟨c, -, h⟩ := bind_ok h
      obtain ⟨d, -, h⟩ := bind_ok h
      cases h
    | «repeat» | lyricsto | duration | durationScaling | markup | string | multilineComment
    | singlelineComment => cases h
    | script =>
      simp only [Env.method] at h
      split at h <;> cases h
    | list =>
      obtain ⟨c, -, h⟩ := bind_ok h
      split at h <;> cases h

theorem items_single (e : Env κ) (rs : List Raw) (t : Tok) (h : e.items rs = .ok [.tok t]) :
    rs = [.tok t] := by
  cases rs with
  | nil => cases h
  | cons r rs =>
    obtain ⟨i, hi, h⟩ := bind_ok h
    obtain ⟨is, his, h⟩ := bind_ok h
    injection h with h
    rw [List.cons.injEq] at h
    obtain ⟨rfl, rfl⟩ := h
    rw [item_tok e r t hi]
    cases rs with
    | nil => rfl
    | cons r rs =>
      obtain ⟨i, hi, his⟩ := bind_ok his
      obtain ⟨is, hi', his⟩ := bind_ok his
      cases his

theorem items_first (e : Env κ) (rs : List Raw) (t : Tok) (is : List Item)
    (h : e.items rs = .ok (.tok t :: is)) : ∃ rs', rs = .tok t :: rs' := by
  cases rs with
  | nil => cases h
  | cons r rs =>
    obtain ⟨i, hi, h⟩ := bind_ok h
    obtain ⟨is, his, h⟩ := bind_ok h
    injection h with h
    rw [List.cons.injEq] at h
    obtain ⟨rfl, rfl⟩ := h
    exact ⟨rs, by rw [item_tok e r t hi]⟩

theorem cnt_method (e : Env κ) (hf : Fair e) (t : Tok) (n : Name) (items : List Item) (i : Item)
    (hl : ¬ Lone e (closers n) items)
    (hh : n = .figure ∨ n = .figurebracket → ∀ u is, items = .tok u :: is → e.act u ≠ .figure)
    (h : e.method n items = .ok i) : cnt1 t i ≤ cntI t items := by
  cases n with
  | book | layoutContext | markupscore =>
    obtain ⟨c, -, h⟩ := bind_ok h
    exact cnt_createBlock e hf t _ _ _ _ _ h
  | score =>
    obtain ⟨r, hr, h⟩ := bind_ok h
    have h1 := cnt_createBlock e hf t _ _ _ _ _ h
    have h2 := cnt_popTail e t _ _ _ hr
    omega
  | header | paper | layout | midi => exact cnt_createBlock e hf t _ _ _ _ _ h
  | musiclist | drumlist | chordlist | figurelist =>
    obtain ⟨r, hr, h⟩ := bind_ok h
    injection h with h
    subst h
    have := cnt_musiclist e hf t _ _ hr hl
    simpa using this
  | lyriclist =>
    obtain ⟨r, hr, h⟩ := bind_ok h
    injection h with h
    subst h
    have h1 := cnt_musiclist e hf t _ _ hr hl
    have h2 := cnt_postprocessLyrics t r.2.2.2
    simp; omega
  | lyricmode | drummode | chordmode | notemode | figuremode =>
    obtain ⟨nodes, hn, h⟩ := bind_ok h
    injection h with h
    subst h
    simpa using cnt_createMusic e hf t _ _ hn
  | pitch =>
    obtain ⟨nodes, hn, h⟩ := bind_ok h
    injection h with h
    subst h
    simpa using cnt_pitchNodes e t _ _ hn
  | chordModifier =>
    obtain ⟨nodes, hn, h⟩ := bind_ok h
    injection h with h
    subst h
    simpa using cnt_modifiers e t _ _ hn
  | figure | figurebracket =>
    obtain ⟨r, hr, h⟩ := bind_ok h
    injection h with h
    subst h
    have := cnt_figureNodes e t _ _ _ hr hl (hh (by simp)) r.2.1.length
    simpa using this
  | identifierRef =>
    obtain ⟨nodes, hn, h⟩ := bind_ok h
    injection h with h
    subst h
    have h1 := cnt_listNodes e t _ _ hn
    have h2 := cnt_take_drop t 1 items
    simp at h1 h2 ⊢; omega
  | markuplist =>
    obtain ⟨r, hr, h⟩ := bind_ok h
    injection h with h
    subst h
    have h1 := cnt_delimited e t _ _ _ hr hl
    have h2 := C64_no_token_twice e.nargs (r.2.1.drop 1).length (r.2.1.drop 1) t
    simp only [cnt1_elem, cnt_mk, cntL, cntI] at h1 ⊢; omega
  | chord | schemelily =>
    obtain ⟨r, hr, h⟩ := bind_ok h
    obtain ⟨nodes, hn, h⟩ := bind_ok h
    injection h with h
    subst h
    have h1 := cnt_delimited e t _ _ _ hr hl
    have h2 := cnt_createMusic e hf t _ _ hn
    simp; omega
  | «repeat» | lyricsto =>
    injection h with h
    subst h
    simpa using cnt_common e t _ _
  | duration =>
    injection h with h
    subst h
    simpa using cnt_durationParts e t items
  | durationScaling | string | multilineComment | singlelineComment =>
    injection h with h
    subst h
    simpa using cnt_origin t items
  | markup =>
    injection h with h
    subst h
    simp [cnt_flatten]
  | script =>
    simp only [Env.method] at h
    split at h
    · cases h
    · injection h with h
      subst h
      rename_i u is
      simpa using cnt_origin t (.tok u :: is)
    · cases h
  | list =>
    obtain ⟨nodes, hn, h⟩ := bind_ok h
    have h1 := cnt_listNodes e t _ _ hn
    split at h
    · injection h with h
      subst h
      simpa using h1
    · injection h with h
      subst h
      simpa using h1

/-- Number of times a token is in the source. -/
def cntR (t : Tok) (r : Raw) : ℕ := (rawToks r).count t

mutual
theorem cnt_item (e : Env κ) (hf : Fair e) (t : Tok) : ∀ (r : Raw) (i : Item), Opened e r →
    e.item r = .ok i → cnt1 t i ≤ (rawToks r).count t
  | .tok u, i, _, h => by
    injection h with h
    subst h
    simp [rawToks]
  | .given c x, i, _, h => by
    injection h with h
    subst h
    simp [rawToks, cnt]
  | .ctx n rs, i, ho, h => by
    obtain ⟨items, hi, h⟩ := bind_ok h
    rw [Opened] at ho
    have h1 := cnt_items e hf t rs items ho.2.2 hi
    have h2 := cnt_method e hf t n items i
      (by
        rintro ⟨z, rfl, hz⟩
        exact ho.1 z (items_single e rs z hi) hz)
      (by
        rintro hn u is rfl
        obtain ⟨rs', hrs⟩ := items_first e rs u is hi
        exact ho.2.1 hn u rs' hrs) h
    rw [rawToks]; omega
theorem cnt_items (e : Env κ) (hf : Fair e) (t : Tok) : ∀ (rs : List Raw) (is : List Item), OpenedL e rs →
    e.items rs = .ok is → cntI t is ≤ (rawToksL rs).count t
  | [], is, _, h => by
    injection h with h
    subst h
    simp
  | r :: rs, is, ho, h => by
    obtain ⟨i, hi, h⟩ := bind_ok h
    obtain ⟨is', his, h⟩ := bind_ok h
    injection h with h
    subst h
    rw [OpenedL] at ho
    have h1 := cnt_item e hf t r i ho.1 hi
    have h2 := cnt_items e hf t rs is' ho.2 his
    simp [rawToksL]; omega
end

end Quickly.Lily
