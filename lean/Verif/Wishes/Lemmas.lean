import Verif.Wishes.Spec
import Verif.Text.Props
import Mathlib.Data.List.Forall2

/-! # Lemmas -/

namespace Quickly.Wishes

open Quickly.Node Quickly.Text Quickly.Text.Spec

/-- The same for fragments. -/
inductive FMeets : List Frag → List Str → Prop
  | none : FMeets [] []
  | one {a} : FMeets [a] []
  | more {a b g ps gs} : AtMost a.after g → AtMost b.before g → FMeets (b :: ps) gs → FMeets (a :: b :: ps) (g :: gs)

theorem layout_next (fs : List Frag) (h : (layout fs).2 ≠ []) :
    ∃ f r, fs.filter (fun f => f.text ≠ []) = f :: r ∧ f.before ∈ (layout fs).1 := by
  induction fs with
  | nil => exact absurd rfl h
  | cons f fs ih =>
    simp only [layout] at h ⊢
    by_cases ht : f.text = []
    · simp only [ht, if_true] at h ⊢
      obtain ⟨f', r, h1, h2⟩ := ih h
      refine ⟨f', r, ?_, by simp [h2]⟩
      rw [List.filter_cons_of_neg (by simp [ht])]; exact h1
    · simp only [ht, if_false]
      exact ⟨f, _, List.filter_cons_of_pos (by simp [ht]), by simp⟩

theorem layout_meets (fs : List Frag) :
    FMeets (fs.filter fun f => f.text ≠ []) ((layout fs).2.dropLast.map fun u => collapse u.2) := by
  induction fs with
  | nil => exact .none
  | cons f fs ih =>
    simp only [layout]
    by_cases ht : f.text = []
    · simp only [ht, if_true]
      rw [List.filter_cons_of_neg (by simp [ht])]; exact ih
    · simp only [ht, if_false]
      rw [List.filter_cons_of_pos (by simp [ht])]
      by_cases hl : (layout fs).2 = []
      · have : fs.filter (fun f => f.text ≠ []) = [] := by
          have h := layout_texts fs
          rw [hl, List.map_nil] at h
          rw [List.filter_eq_nil_iff]
          intro g hg
          have := (List.filter_eq_nil_iff.mp h.symm) g.text (List.mem_map_of_mem hg)
          simpa using this
        rw [hl, this]; exact .one
      · obtain ⟨f', r, h1, h2⟩ := layout_next fs hl
        obtain ⟨u, us, hu⟩ := List.exists_cons_of_ne_nil hl
        rw [hu] at ih ⊢
        rw [h1] at ih ⊢
        rw [List.dropLast_cons_of_ne_nil (by simp), List.map_cons]
        exact .more (collapse_max (by simp)) (collapse_max (by simp [h2])) ih

/-- A point shows a text, and asks for at least the same whitespace. -/
def Shows (a : Piece) (p : Point) : Prop := p.text = a.text ∧ p.before = a.before ∧ AtMost a.after p.after

theorem collapseLast_shows {as : List Piece} {ps : List Point} (w : Str) (h : List.Forall₂ Shows as ps) :
    List.Forall₂ Shows as (collapseLast ps w) := by
  induction h with
  | nil => exact .nil
  | cons h1 h2 ih =>
    rename_i a p as ps
    cases ps with
    | nil =>
      cases h2
      refine .cons ⟨h1.1, h1.2.1, ?_⟩ .nil
      exact atMost_trans h1.2.2 (collapse_max (xs := [p.after, w]) (x := p.after) (by simp))
    | cons q qs => exact .cons h1 ih

mutual
theorem pieces_points (cc : Concat) (p : Path) (t : Node.Tree Elem) : List.Forall₂ Shows (pieces p t) (points cc t) := by
  cases t with
  | node e cs =>
    simp only [pieces, points]
    refine List.rel_append (List.rel_append ?_ (go_points cc e p 0 cs)) ?_
    · unfold headPoint
      by_cases hk : e.kind = .plain
      · simp [hk]
      · simp only [hk, if_false, Option.toList_some]
        refine .cons ⟨rfl, rfl, ?_⟩ .nil
        simp only [Piece.after, Elem.hasTail]
        by_cases h0 : cs.length = 0 <;> by_cases hb : e.kind = .block <;> by_cases ht : e.tail = [] <;>
          simp [h0, hb, ht, atMost_refl]
    · unfold tailPoint
      by_cases hk : e.kind = .block
      · simp only [hk, if_true, Option.toList_some]
        exact .cons ⟨rfl, rfl, atMost_refl _⟩ .nil
      · simp [hk]
theorem go_points (cc : Concat) (e : Elem) (p : Path) (i : ℕ) (cs : List (Node.Tree Elem)) :
    List.Forall₂ Shows (pieces.go p i cs) (points.kids cc e cs) := by
  cases cs with
  | nil => simp [pieces.go, points.kids]
  | cons n ns =>
    simp only [pieces.go, points.kids]
    refine List.rel_append ?_ (go_points cc e p (i + 1) ns)
    have h := pieces_points cc (p ++ [i]) n
    cases ns with
    | cons m ms => exact collapseLast_shows _ h
    | nil =>
      simp only
      split
      · exact h
      · exact collapseLast_shows _ h
end

theorem shows_filter {as : List Piece} {ps : List Point} (h : List.Forall₂ Shows as ps) :
    List.Forall₂ (fun a (f : Frag) => f.text = a.text ∧ f.before = a.before ∧ AtMost a.after f.after)
      (as.filter fun a => a.text ≠ []) ((ps.map Point.frag).filter fun f => f.text ≠ []) := by
  induction h with
  | nil => exact .nil
  | cons h1 h2 ih =>
    rename_i a p as ps
    rw [List.map_cons]
    by_cases ht : a.text = []
    · rw [List.filter_cons_of_neg (by simp [ht]), List.filter_cons_of_neg (by simp [Point.frag, h1.1, ht])]
      exact ih
    · rw [List.filter_cons_of_pos (by simp [ht]), List.filter_cons_of_pos (by simp [Point.frag, h1.1, ht])]
      exact .cons ⟨h1.1, h1.2.1, h1.2.2⟩ ih

theorem meets_of {as : List Piece} {fs : List Frag} {gs : List Str}
    (h : List.Forall₂ (fun a (f : Frag) => f.text = a.text ∧ f.before = a.before ∧ AtMost a.after f.after) as fs)
    (hf : FMeets fs gs) : Meets as gs := by
  induction hf generalizing as with
  | none => cases h; exact .none
  | one => cases h with | cons h1 h2 => cases h2; exact .one
  | more k1 k2 k3 ih =>
    cases h with
    | cons h1 h2 =>
      cases h2 with
      | cons h3 h4 =>
        refine .more (atMost_trans h1.2.2 k1) ?_ (ih (.cons h3 h4))
        rw [← h3.2.1]; exact k2

theorem forall₂_texts {as : List Piece} {fs : List Frag}
    (h : List.Forall₂ (fun a (f : Frag) => f.text = a.text ∧ f.before = a.before ∧ AtMost a.after f.after) as fs) :
    fs.map Frag.text = as.map Piece.text := by
  induction h with
  | nil => rfl
  | cons h1 h2 ih => rw [List.map_cons, List.map_cons, ih, h1.1]

theorem map_filter_text (fs : List Frag) :
    (fs.map Frag.text).filter (· ≠ []) = (fs.filter fun f => f.text ≠ []).map Frag.text := by
  rw [List.filter_map]; rfl

theorem weave_write (cc : Concat) (t : Node.Tree Elem) :
    ∃ gaps, Meets (shown t) gaps ∧ (∀ g ∈ gaps, Wish cc t g) ∧ write cc t = weave ((shown t).map Piece.text) gaps := by
  have h := shows_filter (pieces_points cc [] t)
  refine ⟨(layout (frags (points cc t))).2.dropLast.map fun u => collapse u.2,
    meets_of h (layout_meets _), ?_, ?_⟩
  · intro g hg
    obtain ⟨u, hu, rfl⟩ := List.mem_map.mp hg
    have hu := List.dropLast_subset _ hu
    exact (layout_wish _ (fun w => Wish cc t w) (frags_wish cc t)).2 u hu _ (collapse_mem (layout_snd_ne _ u hu))
  · rw [shown, ← forall₂_texts h, ← map_filter_text]
    have h2 : write cc t = join (layout (frags (points cc t))).2 := by
      rw [write_eq, out, combine_eq]
    rw [h2, join_weave, layout_texts]

end Quickly.Wishes
