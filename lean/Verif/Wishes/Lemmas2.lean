import Verif.Wishes.Lemmas
import Verif.Indent.Props
import Verif.Edits.Props

/-! # Lemmas about indented output and about edits -/

namespace Quickly.Wishes

open Quickly.Node Quickly.Text Quickly.Text.Spec
open Quickly.Indent.Spec hiding visible

/-! ## Indented output -/

/-- Every text has the wish before it in front and the wish after it behind it. -/
inductive Chunks : List Item → List Piece → Prop
  | nil : Chunks [] []
  | wish {w is ps} : Chunks is ps → Chunks (.wish w :: is) ps
  | piece {a is ps} : Chunks is ps → Chunks (.wish a.before :: .text a.text :: .wish a.after :: is) (a :: ps)

theorem Chunks.append {is js : List Item} {ps qs : List Piece} (h : Chunks is ps) (k : Chunks js qs) :
    Chunks (is ++ js) (ps ++ qs) := by
  induction h with
  | nil => exact k
  | wish _ ih => exact .wish ih
  | piece _ ih => exact .piece ih

/-- The texts that are not empty. -/
def vis (ps : List Piece) : List Piece := ps.filter fun a => a.text ≠ []

theorem vis_append (ps qs : List Piece) : vis (ps ++ qs) = vis ps ++ vis qs := List.filter_append ..

mutual
theorem stream_chunks (cc : Concat) (p : Path) (t : Node.Tree Elem) : Chunks (stream cc t) (vis (pieces p t)) := by
  cases t with
  | node e cs =>
    simp only [stream, pieces, vis_append]
    have hk := kids_chunks cc e none p 0 cs
    have ht : Chunks ((if e.kind = .block ∧ e.tail ≠ [] then [Item.wish e.sp.beforeTail, .text e.tail] else []) ++
        [.wish e.sp.after]) (vis (if e.kind = .block then [⟨p, true, e, cs.length⟩] else [])) := by
      by_cases hb : e.kind = .block
      · by_cases h0 : e.tail = []
        · simp [hb, h0, vis, Piece.text]; exact .wish .nil
        · have hv : vis [⟨p, true, e, cs.length⟩] = [⟨p, true, e, cs.length⟩] := by
            simp [vis, Piece.text, h0]
          simp only [hb, h0, ne_eq, not_false_eq_true, and_self, if_true, hv]
          exact .piece (a := ⟨p, true, e, cs.length⟩) .nil
      · simp [hb, vis]; exact .wish .nil
    by_cases hh : e.kind ≠ .plain ∧ e.head ≠ []
    · have hv : vis (if e.kind = .plain then [] else [⟨p, false, e, cs.length⟩]) = [⟨p, false, e, cs.length⟩] := by
        simp [vis, Piece.text, hh.1, hh.2]
      rw [hv, if_pos hh]
      by_cases hm : (e.kind = .block ∧ e.tail ≠ []) ∨ cs ≠ []
      · rw [if_pos hm]
        have ha : (⟨p, false, e, cs.length⟩ : Piece).after = e.sp.afterHead := by
          simp only [Piece.after]
          rw [if_neg (by simp), if_neg]
          rintro ⟨h1, h2⟩
          rcases hm with hm | hm
          · exact h2 hm
          · exact hm (List.length_eq_zero_iff.mp h1)
        have h1 : Chunks ([Item.wish e.sp.before] ++ (.text e.head :: [.wish e.sp.afterHead])) [⟨p, false, e, cs.length⟩] := by
          rw [← ha]
          exact .piece (a := ⟨p, false, e, cs.length⟩) .nil
        have := (h1.append hk).append ht
        simpa only [List.append_assoc] using this
      · rw [if_neg hm]
        have hcs : cs = [] := by
          by_contra h; exact hm (.inr h)
        have hnt : ¬ (e.kind = .block ∧ e.tail ≠ []) := fun h => hm (.inl h)
        subst hcs
        have ha : (⟨p, false, e, 0⟩ : Piece).after = e.sp.after := by
          simp only [Piece.after]
          rw [if_neg (by simp), if_pos ⟨trivial, hnt⟩]
        have hv2 : vis (if e.kind = .block then [⟨p, true, e, 0⟩] else []) = [] := by
          by_cases hb : e.kind = .block
          · have : e.tail = [] := by
              by_contra h; exact hnt ⟨hb, h⟩
            simp [vis, hb, this, Piece.text]
          · simp [vis, hb]
        have h1 : Chunks [Item.wish e.sp.before, .text e.head, .wish e.sp.after] [⟨p, false, e, 0⟩] := by
          rw [← ha]
          exact .piece (a := ⟨p, false, e, 0⟩) .nil
        simp only [List.length_nil, hv2, if_neg hnt]
        simpa [stream.kids, pieces.go, vis] using h1
    · rw [if_neg hh]
      have hv : vis (if e.kind = .plain then [] else [⟨p, false, e, cs.length⟩]) = [] := by
        by_cases hk : e.kind = .plain
        · simp [hk, vis]
        · have : e.head = [] := by
            by_contra h; exact hh ⟨hk, h⟩
          simp [vis, hk, Piece.text, this]
      rw [hv]
      have := (hk.append ht)
      simp only [List.append_nil, List.nil_append]
      simpa only [List.append_assoc, List.singleton_append, List.cons_append, List.nil_append] using Chunks.wish (w := e.sp.before) this
theorem kids_chunks (cc : Concat) (e : Elem) (prev : Option (Node.Tree Elem)) (p : Path) (i : ℕ) (cs : List (Node.Tree Elem)) :
    Chunks (stream.kids cc e prev cs) (vis (pieces.go p i cs)) := by
  cases cs with
  | nil => exact .nil
  | cons m ms =>
    simp only [stream.kids, pieces.go, vis_append]
    refine Chunks.append ?_ (kids_chunks cc e (some m) p (i + 1) ms)
    have h := stream_chunks cc (p ++ [i]) m
    cases prev with
    | none => exact h
    | some n => exact .wish h
end

theorem chunks_render {is : List Item} {ps : List Piece} (h : Chunks is ps) (ws : List Str) :
    ∃ ws' gaps, Meets ps gaps ∧ (∀ a ∈ ps.head?, a.before ∈ ws') ∧
      render ws is = (if ps = [] then [] else collapse (ws ++ ws')) ++ weave (ps.map Piece.text) gaps := by
  induction h generalizing ws with
  | nil => exact ⟨[], [], .none, by simp, by simp [render, weave]⟩
  | wish h ih =>
    rename_i w is ps
    obtain ⟨ws', gaps, h1, h2, h3⟩ := ih (ws ++ [w])
    refine ⟨w :: ws', gaps, h1, fun a ha => by simp [h2 a ha], ?_⟩
    rw [render, h3]
    simp
  | piece h ih =>
    rename_i a is ps
    obtain ⟨ws', gaps, h1, h2, h3⟩ := ih [a.after]
    have hr : render ws (.wish a.before :: .text a.text :: .wish a.after :: is) =
        collapse (ws ++ [a.before]) ++ a.text ++ render [a.after] is := by
      simp [render]
    cases ps with
    | nil =>
      cases h1
      refine ⟨[a.before], [], .one, by simp, ?_⟩
      rw [hr, h3]
      simp [weave]
    | cons b ps =>
      refine ⟨[a.before], collapse ([a.after] ++ ws') :: gaps,
        .more (collapse_max (by simp)) (collapse_max (by simp [h2 b rfl])) h1, by simp, ?_⟩
      rw [hr, h3]
      simp [weave]

/-! ## Edits -/

open Quickly.Edits Quickly.Edits.Spec

variable {isSpace : Char → Bool} {doc : Str} {tokens : List Tok}

/-- The gaps that the loop makes: `pos` is the end of the last existing point, `ins` the wish after the last
visible one. -/
inductive Gaps (doc : Str) : ℕ → Str → List Point → List Str → Prop
  | nil {pos ins} : Gaps doc pos ins [] []
  | skip {pos ins pt pts gs} : pt.range = none → pt.text = [] → Gaps doc pos ins pts gs → Gaps doc pos ins (pt :: pts) gs
  | new {pos ins pt pts gs} : pt.range = none → pt.text ≠ [] → Gaps doc pos pt.after pts gs →
      Gaps doc pos ins (pt :: pts) (collapse [ins, pt.before] :: gs)
  | put {pos ins pt pts gs p e s} : pt.range = some (p, e) → Gaps doc e pt.after pts gs →
      Gaps doc pos ins (pt :: pts) ((collapse [ins, pt.before] ++ s) :: gs)
  | kept {pos ins pt pts gs p e} : pt.range = some (p, e) → pos < p → Gaps doc e pt.after pts gs →
      Gaps doc pos ins (pt :: pts) (slice doc pos p :: gs)

theorem apply_gaps (hp : Parsed isSpace doc tokens) (stop : ℕ) (pts : List Point) (hsp : spacesOnly isSpace pts) :
    ∀ (pos : ℕ) (rest : List Tok) (ins : Str), At tokens pos rest → Kept doc tokens pos pts →
      (∀ c ∈ ins, isSpace c = true) → ∀ i ≤ pos,
      ∃ gaps, gaps.length = (visible pts).length ∧ (∀ g ∈ gaps, ∀ c ∈ g, isSpace c = true) ∧ Gaps doc pos ins pts gaps ∧
        applyFrom doc i (loop stop pos rest ins pts) =
          slice doc i pos ++ interleave gaps ((visible pts).map (Edits.Spec.shown doc)) ++ doc.drop (max (lastEnd pos pts) stop) := by
  induction pts with
  | nil =>
    intro pos rest ins _ _ _ i hi
    refine ⟨[], rfl, by simp, .nil, ?_⟩
    rw [loop]
    split
    · rw [applyFrom_eq, lastEnd, applyFrom, show max pos stop = stop by omega]
      simp [interleave]
    · rw [applyFrom, lastEnd, show max pos stop = pos by omega, ← slice_drop doc hi]
      simp [interleave]
  | cons pt pts ih =>
    intro pos rest ins hat hk hins i hi
    have ih := ih fun q hq => hsp q (by simp [hq])
    obtain ⟨hbef, haft⟩ := hsp pt (by simp)
    have hcol := collapse_space hins hbef
    rw [loop.eq_def]
    dsimp only
    cases hr : pt.range with
    | none =>
      dsimp only
      rw [lastEnd, hr]
      split
      · rename_i htext
        obtain ⟨gaps, g1, g2, g0, g3⟩ := ih pos rest pt.after hat hk.tail haft pos (Nat.le_refl _)
        have hv : visible (pt :: pts) = pt :: visible pts := by
          simp [visible, htext]
        refine ⟨collapse [ins, pt.before] :: gaps, by rw [hv]; simp [g1], ?_, .new hr htext g0, ?_⟩
        · intro g hg
          rcases List.mem_cons.1 hg with rfl | hg
          · exact hcol
          · exact g2 g hg
        · rw [applyFrom_eq, g3, slice_self, hv, List.map_cons, interleave]
          simp [Edits.Spec.shown, hr]
      · rename_i htext
        simp only [ne_eq, not_not] at htext
        have hv : visible (pt :: pts) = visible pts := by
          simp [visible, htext, hr]
        obtain ⟨gaps, g1, g2, g0, g3⟩ := ih pos rest ins hat hk.tail hins i hi
        exact ⟨gaps, by rw [hv]; exact g1, g2, .skip hr htext g0, by rw [hv]; exact g3⟩
    | some pe =>
      obtain ⟨p, e⟩ := pe
      obtain ⟨h1, h2, h3, h4, h5⟩ := hk.origin pt (by simp) p e hr
      obtain ⟨hb1, hb2⟩ := before_spec hp hat h1 h4 (collapse [ins, pt.before])
      have hv : visible (pt :: pts) = pt :: visible pts := by simp [visible, hr]
      have hat' := at_next hp h2 hb1 h5
      have hk' := hk.next hr
      dsimp only
      rw [lastEnd, hr, List.append_assoc]
      -- the point and what comes after it, from `j`
      have hrest : ∀ j ≤ p, ∃ gaps, gaps.length = (visible pts).length ∧ (∀ g ∈ gaps, ∀ c ∈ g, isSpace c = true) ∧
          Gaps doc e pt.after pts gaps ∧
          applyFrom doc j ((if pt.modified then [(p, e, pt.text)] else []) ++
            loop stop e (before p pos (collapse [ins, pt.before]) rest).2 pt.after pts) =
          slice doc j p ++ Edits.Spec.shown doc pt ++ interleave gaps ((visible pts).map (Edits.Spec.shown doc)) ++
            doc.drop (max (lastEnd e pts) stop) := by
        intro j hj
        by_cases hm : pt.modified = true
        · obtain ⟨gaps, g1, g2, g0, g3⟩ := ih e _ pt.after hat' hk' haft e (Nat.le_refl _)
          refine ⟨gaps, g1, g2, g0, ?_⟩
          rw [if_pos hm, List.singleton_append, applyFrom_eq, g3, slice_self]
          simp [Edits.Spec.shown, hr, hm]
        · obtain ⟨gaps, g1, g2, g0, g3⟩ := ih e _ pt.after hat' hk' haft j (by omega)
          refine ⟨gaps, g1, g2, g0, ?_⟩
          rw [if_neg hm, List.nil_append, g3, ← slice_append doc hj (Nat.le_of_lt h2)]
          simp [Edits.Spec.shown, hr, hm]
      rcases hb2 with ⟨hb, hno, hcase⟩ | ⟨d, hb, hd1, hd2, hno, -⟩
      · obtain ⟨gaps, g1, g2, g0, g3⟩ := hrest i (by omega)
        refine ⟨slice doc pos p :: gaps, by rw [hv]; simp [g1], ?_, ?_, ?_⟩
        · intro g hg
          rcases List.mem_cons.1 hg with rfl | hg
          · exact slice_space hp hno
          · exact g2 g hg
        · by_cases hlt : pos < p
          · exact .kept hr hlt g0
          · have hs : collapse [ins, pt.before] = [] := by
              rcases hcase with h | h
              · omega
              · exact h
            have : slice doc pos p = collapse [ins, pt.before] ++ [] := by
              rw [hs, show p = pos by omega, slice_self]; rfl
            rw [this]
            exact .put hr g0
        · rw [hb, List.nil_append, g3, hv, List.map_cons, interleave, ← slice_append doc hi h1]
          simp
      · obtain ⟨gaps, g1, g2, g0, g3⟩ := hrest d hd2
        refine ⟨(collapse [ins, pt.before] ++ slice doc d p) :: gaps, by rw [hv]; simp [g1], ?_, .put hr g0, ?_⟩
        · intro g hg
          rcases List.mem_cons.1 hg with rfl | hg
          · intro c hc
            rcases List.mem_append.1 hc with hc | hc
            · exact hcol c hc
            · exact slice_space hp hno c hc
          · exact g2 g hg
        · rw [hb, List.singleton_append, applyFrom_eq, g3, hv, List.map_cons, interleave]
          simp

theorem atMost_append {w g : Str} (s : Str) (h : AtMost w g) : AtMost w (g ++ s) := by
  simp only [AtMost, List.count_append] at *
  omega

theorem gaps_emeets {all : List Point} {start pos : ℕ} {ins : Str} {pts : List Point} {gs : List Str}
    (h : Gaps doc pos ins pts gs) (hall : ∀ pt ∈ pts, pt ∈ all)
    (hpos : pos = start ∨ ∃ c ∈ all, ∃ r, c.range = some (r, pos)) :
    EMeets doc start all (visible pts) gs ∧
      ∀ b ∈ (visible pts).head?, ∀ g ∈ gs.head?, (AtMost ins g ∧ AtMost b.before g) ∨ Untouched doc start all b g := by
  have hone : ∀ (a : Point) (g : Str) (ps : List Point) (gs : List Str), EMeets doc start all ps gs →
      (∀ b ∈ ps.head?, ∀ g ∈ gs.head?, (AtMost a.after g ∧ AtMost b.before g) ∨ Untouched doc start all b g) →
      EMeets doc start all (a :: ps) (g :: gs) := by
    intro a g ps gs h1 h2
    cases h1 with
    | none => exact .one
    | one => exact .more (h2 _ rfl _ rfl) .one
    | more k1 k2 => exact .more (h2 _ rfl _ rfl) (.more k1 k2)
  have hc1 : ∀ x y : Str, AtMost x (collapse [x, y]) := fun x y => collapse_max (by simp)
  have hc2 : ∀ x y : Str, AtMost y (collapse [x, y]) := fun x y => collapse_max (by simp)
  induction h with
  | nil => exact ⟨.none, by simp [visible]⟩
  | skip h1 h2 h3 ih =>
    rename_i pos ins pt pts gs
    have hv : visible (pt :: pts) = visible pts := by simp [visible, h1, h2]
    rw [hv]
    exact ih (fun q hq => hall q (by simp [hq])) hpos
  | new h1 h2 h3 ih =>
    rename_i pos ins pt pts gs
    have hv : visible (pt :: pts) = pt :: visible pts := by simp [visible, h2]
    obtain ⟨i1, i2⟩ := ih (fun q hq => hall q (by simp [hq])) hpos
    rw [hv]
    refine ⟨hone _ _ _ _ i1 i2, ?_⟩
    intro b hb g hg
    cases hb; cases hg
    exact .inl ⟨hc1 _ _, hc2 _ _⟩
  | put h1 h3 ih =>
    rename_i pos ins pt pts gs p e s
    have hv : visible (pt :: pts) = pt :: visible pts := by simp [visible, h1]
    obtain ⟨i1, i2⟩ := ih (fun q hq => hall q (by simp [hq])) (.inr ⟨pt, hall pt (by simp), p, h1⟩)
    rw [hv]
    refine ⟨hone _ _ _ _ i1 i2, ?_⟩
    intro b hb g hg
    cases hb; cases hg
    exact .inl ⟨atMost_append _ (hc1 _ _), atMost_append _ (hc2 _ _)⟩
  | kept h1 h2 h3 ih =>
    rename_i pos ins pt pts gs p e
    have hv : visible (pt :: pts) = pt :: visible pts := by simp [visible, h1]
    obtain ⟨i1, i2⟩ := ih (fun q hq => hall q (by simp [hq])) (.inr ⟨pt, hall pt (by simp), p, h1⟩)
    rw [hv]
    refine ⟨hone _ _ _ _ i1 i2, ?_⟩
    intro b hb g hg
    cases hb; cases hg
    exact .inr ⟨pos, p, e, h1, h2, rfl, hpos⟩

end Quickly.Wishes
