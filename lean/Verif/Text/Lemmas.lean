import Verif.Text.Spec
import Mathlib.Logic.Basic

/-!
# Lemmas about combining text
-/

namespace Quickly.Text

open Quickly.Node Quickly.Text.Spec

theorem keyLt_iff (a b : Str) : keyLt (key a) (key b) = true ↔ ¬ AtMost b a := by
  unfold keyLt key AtMost
  simp only [Bool.or_eq_true, Bool.and_eq_true, decide_eq_true_eq, beq_iff_eq]
  omega

theorem atMost_refl (a : Str) : AtMost a a := .inr ⟨rfl, Nat.le_refl _⟩

theorem atMost_trans {a b c : Str} (h : AtMost a b) (k : AtMost b c) : AtMost a c := by
  unfold AtMost at *; omega

theorem atMost_total (a b : Str) : AtMost a b ∨ AtMost b a := by
  unfold AtMost; omega

theorem atMost_nil (a : Str) : AtMost [] a := by
  unfold AtMost; simp only [List.count_nil]; omega

/-- The more important of two. -/
def imp (x y : Str) : Str := if keyLt (key x) (key y) then y else x

theorem pyMax_imp (m x : Str) (xs : List Str) : pyMax m (x :: xs) = pyMax (imp m x) xs := by
  unfold imp
  simp only [pyMax]
  split <;> rfl

theorem pyMax_nil (m : Str) : pyMax m [] = m := rfl

theorem collapse_two (x y : Str) : collapse [x, y] = imp x y := by
  simp only [collapse, pyMax_imp, pyMax_nil]

theorem imp_assoc (x y z : Str) : imp (imp x y) z = imp x (imp y z) := by
  unfold imp
  by_cases h1 : keyLt (key x) (key y) = true <;> by_cases h2 : keyLt (key y) (key z) = true <;>
    by_cases h3 : keyLt (key x) (key z) = true <;> simp only [h1, h2, h3, if_true, if_false, Bool.false_eq_true] <;>
    (exfalso; revert h1 h2 h3; simp only [keyLt_iff, AtMost]; omega)

theorem pyMax_eq (m x : Str) (xs : List Str) : pyMax m (x :: xs) = imp m (pyMax x xs) := by
  induction xs generalizing m x with
  | nil => simp only [pyMax_imp, pyMax_nil]
  | cons y ys ih => rw [pyMax_imp, ih, imp_assoc, ← ih x y]

theorem collapse_cons (x y : Str) (xs : List Str) : collapse (x :: y :: xs) = imp x (collapse (y :: xs)) := pyMax_eq x y xs

theorem collapse_append {xs ys : List Str} (hx : xs ≠ []) (hy : ys ≠ []) :
    collapse (xs ++ ys) = imp (collapse xs) (collapse ys) := by
  induction xs with
  | nil => exact absurd rfl hx
  | cons x xs ih =>
    cases xs with
    | nil =>
      cases ys with
      | nil => exact absurd rfl hy
      | cons y ys => exact collapse_cons x y ys
    | cons z zs =>
      have := ih (by simp)
      simp only [List.cons_append] at this ⊢
      rw [collapse_cons, this, collapse_cons, imp_assoc]

theorem imp_left (x y : Str) : AtMost x (imp x y) := by
  unfold imp
  split
  · rename_i h
    rw [keyLt_iff] at h
    exact (atMost_total x y).resolve_right h
  · exact atMost_refl x

theorem imp_right (x y : Str) : AtMost y (imp x y) := by
  unfold imp
  split
  · exact atMost_refl y
  · rename_i h
    rw [keyLt_iff, not_not] at h
    exact h

theorem imp_idem (x : Str) : imp x x = x := by unfold imp; split <;> rfl

theorem imp_eq (x y : Str) : imp x y = x ∨ imp x y = y := by
  unfold imp; split <;> simp

theorem key_zero {x : Str} (hx : Plain x) (h : AtMost x []) : x = [] := by
  cases x with
  | nil => rfl
  | cons c x =>
    exfalso
    unfold AtMost at h
    rcases hx c (by simp) with rfl | rfl
    · simp at h
    · simp [List.count_cons] at h

theorem imp_nil {x : Str} : imp x [] = x := by
  unfold imp
  rw [if_neg]
  rw [keyLt_iff, not_not]
  exact atMost_nil x

theorem nil_imp {x : Str} (hx : Plain x) : imp [] x = x := by
  unfold imp
  split
  · rfl
  · rename_i h
    rw [keyLt_iff, not_not] at h
    exact (key_zero hx h).symm

theorem plain_imp {x y : Str} (hx : Plain x) (hy : Plain y) : Plain (imp x y) := by
  rcases imp_eq x y with h | h <;> rw [h] <;> assumption

theorem collapse_mem {xs : List Str} (h : xs ≠ []) : collapse xs ∈ xs := by
  induction xs with
  | nil => exact absurd rfl h
  | cons x xs ih =>
    cases xs with
    | nil => simp [collapse, pyMax]
    | cons y ys =>
      rw [collapse_cons]
      rcases imp_eq x (collapse (y :: ys)) with h | h <;> rw [h]
      · simp
      · have := ih (by simp)
        simp only [List.mem_cons] at this ⊢
        exact .inr this

theorem collapse_max {xs : List Str} {x : Str} (h : x ∈ xs) : AtMost x (collapse xs) := by
  induction xs with
  | nil => simp at h
  | cons y ys ih =>
    cases ys with
    | nil => simp only [List.mem_singleton] at h; subst h; exact atMost_refl _
    | cons z zs =>
      rw [collapse_cons]
      rcases List.mem_cons.mp h with rfl | h
      · exact imp_left _ _
      · exact atMost_trans (ih h) (imp_right _ _)

theorem collapse_plain {xs : List Str} (h : ∀ x ∈ xs, Plain x) : Plain (collapse xs) := by
  by_cases hx : xs = []
  · subst hx; intro c hc; simp [collapse] at hc
  · exact h _ (collapse_mem hx)

/-! ## The layout -/

theorem join_cons (t : Str) (ws : List Str) {r : List (Str × List Str)} (h : r ≠ []) :
    join ((t, ws) :: r) = t ++ collapse ws ++ join r := by
  cases r with
  | nil => exact absurd rfl h
  | cons u us => rfl

theorem lastWishes_cons (u : Str × List Str) {r : List (Str × List Str)} (h : r ≠ []) :
    lastWishes (u :: r) = lastWishes r := by
  cases r with
  | nil => exact absurd rfl h
  | cons v vs => rfl

/-- What the loop does, in terms of the layout. -/
theorem combineLoop_eq (res ws : List Str) (fs : List Frag) :
    combineLoop res ws fs =
      match (layout fs).2 with
      | [] => (res, ws ++ (layout fs).1)
      | r => ((combineLoop res ws fs).1, lastWishes r) := by
  induction fs generalizing res ws with
  | nil => simp [combineLoop, layout]
  | cons f fs ih =>
    unfold combineLoop
    by_cases h : f.text = []
    · have h1 := ih res (ws ++ [f.before] ++ [f.after])
      simp only [h, if_true, layout]
      cases hr : (layout fs).2 with
      | nil => rw [hr] at h1; simp only at h1 ⊢; rw [h1]; simp
      | cons u us => rw [hr] at h1; simp only at h1 ⊢; rw [← h1]
    · have h1 := ih (res ++ [collapse (ws ++ [f.before])] ++ [f.text]) [f.after]
      simp only [h, if_false, layout]
      cases hr : (layout fs).2 with
      | nil => rw [hr] at h1; simp only at h1 ⊢; rw [h1]; simp [lastWishes]
      | cons u us =>
        rw [hr] at h1
        simp only at h1 ⊢
        rw [lastWishes_cons _ (by simp), ← h1]

/-- The list `result` of the loop. -/
def pieces (ws : List Str) : List Frag → List Str
  | [] => []
  | f :: fs => if f.text = [] then pieces (ws ++ [f.before] ++ [f.after]) fs
    else collapse (ws ++ [f.before]) :: f.text :: pieces [f.after] fs

theorem combineLoop_fst (res ws : List Str) (fs : List Frag) : (combineLoop res ws fs).1 = res ++ pieces ws fs := by
  induction fs generalizing res ws with
  | nil => simp [combineLoop, pieces]
  | cons f fs ih =>
    unfold combineLoop pieces
    split
    · exact ih _ _
    · rw [ih]; simp

theorem pieces_eq (ws : List Str) (fs : List Frag) :
    pieces ws fs = match (layout fs).2 with
      | [] => []
      | r => collapse (ws ++ (layout fs).1) :: (pieces ws fs).tail := by
  induction fs generalizing ws with
  | nil => rfl
  | cons f fs ih =>
    unfold pieces layout
    by_cases h : f.text = []
    · simp only [h, if_true]
      have := ih (ws ++ [f.before] ++ [f.after])
      cases hr : (layout fs).2 with
      | nil => rw [hr] at this; simpa using this
      | cons u us => rw [hr] at this; simpa using this
    · simp [h]

theorem pieces_tail (ws : List Str) (fs : List Frag) : (pieces ws fs).tail.flatten = join (layout fs).2 := by
  induction fs generalizing ws with
  | nil => rfl
  | cons f fs ih =>
    unfold pieces layout
    by_cases h : f.text = []
    · simp only [h, if_true]; exact ih _
    · simp only [h, if_false, List.tail_cons, List.flatten_cons]
      have h1 := pieces_eq [f.after] fs
      have h2 := ih [f.after]
      cases hr : (layout fs).2 with
      | nil => rw [hr] at h1; simp only at h1; rw [h1]; simp [join]
      | cons u us =>
        rw [hr] at h1 h2
        simp only at h1
        rw [h1, join_cons _ _ (by simp), List.flatten_cons, h2]
        simp

theorem combine_eq (fs : List Frag) :
    combine fs = ⟨if (layout fs).2 = [] then [] else collapse (layout fs).1, join (layout fs).2,
      collapse (if (layout fs).2 = [] then (layout fs).1 else lastWishes (layout fs).2)⟩ := by
  unfold combine
  have h1 := combineLoop_eq [] [] fs
  have h2 := combineLoop_fst [] [] fs
  have h3 := pieces_eq [] fs
  have h4 := pieces_tail [] fs
  simp only
  rw [h2]
  simp only [List.nil_append, List.drop_one, h4]
  cases hr : (layout fs).2 with
  | nil =>
    rw [hr] at h1 h3
    simp only [List.nil_append] at h1 h3
    rw [h1, h3]
    simp
  | cons u us =>
    rw [hr] at h1 h3
    simp only [List.nil_append] at h1 h3
    rw [h1, h3]
    simp

/-- The layout of two lists of fragments after each other. -/
def joinL : List Str → List (Str × List Str) → List Str × List (Str × List Str) → List Str × List (Str × List Str)
  | g, [], l => (g ++ l.1, l.2)
  | g, (t, k) :: r, l => let l' := joinL k r l; (g, (t, l'.1) :: l'.2)

theorem joinL_pre (g h : List Str) (r : List (Str × List Str)) (l) :
    joinL (g ++ h) r l = (g ++ (joinL h r l).1, (joinL h r l).2) := by
  cases r with
  | nil => simp [joinL]
  | cons u r => obtain ⟨t, k⟩ := u; simp [joinL]

theorem layout_append (A B : List Frag) : layout (A ++ B) = joinL (layout A).1 (layout A).2 (layout B) := by
  induction A with
  | nil => simp [layout, joinL]
  | cons f A ih =>
    simp only [List.cons_append, layout]
    rw [ih]
    by_cases h : f.text = []
    · simp only [h, if_true]
      have := joinL_pre [f.before, f.after] (layout A).1 (layout A).2 (layout B)
      simpa using this.symm
    · simp only [h, if_false, joinL]
      have := joinL_pre [f.after] (layout A).1 (layout A).2 (layout B)
      simp only [List.singleton_append] at this
      rw [this]

/-! ## Pieces -/

/-- Combining two fragments. -/
def op (x y : Frag) : Frag := combine [x, y]

theorem op_eq (x y : Frag) : op x y =
    if x.text = [] then
      if y.text = [] then ⟨[], [], imp (imp (imp x.before x.after) y.before) y.after⟩
      else ⟨imp (imp x.before x.after) y.before, y.text, y.after⟩
    else
      if y.text = [] then ⟨x.before, x.text, imp (imp x.after y.before) y.after⟩
      else ⟨x.before, x.text ++ imp x.after y.before ++ y.text, y.after⟩ := by
  unfold op
  rw [combine_eq]
  by_cases h1 : x.text = [] <;> by_cases h2 : y.text = [] <;>
    simp [layout, h1, h2, join, lastWishes, collapse, pyMax_imp, pyMax_nil]

/-! ## Lists of fragments after each other -/

/-- All wishes are newlines and spaces. -/
def PlainF (fs : List Frag) : Prop := ∀ f ∈ fs, Plain f.before ∧ Plain f.after

theorem joinL_eq (g : List Str) (r : List (Str × List Str)) (l) (hr : r ≠ []) :
    (joinL g r l).1 = g ∧ (joinL g r l).2 ≠ [] ∧
    join (joinL g r l).2 = (if l.2 = [] then join r else join r ++ collapse (lastWishes r ++ l.1) ++ join l.2) ∧
    lastWishes (joinL g r l).2 = (if l.2 = [] then lastWishes r ++ l.1 else lastWishes l.2) := by
  induction r generalizing g with
  | nil => exact absurd rfl hr
  | cons u r ih =>
    obtain ⟨t, k⟩ := u
    simp only [joinL, ne_eq, reduceCtorEq, not_false_eq_true, true_and]
    cases r with
    | nil =>
      simp only [joinL]
      by_cases hl : l.2 = []
      · simp [hl, join, lastWishes]
      · simp only [hl, if_false]
        rw [join_cons _ _ hl, lastWishes_cons _ hl]
        simp [join, lastWishes]
    | cons v r =>
      obtain ⟨h1, h2, h3, h4⟩ := ih k (by simp)
      rw [join_cons _ _ h2, lastWishes_cons _ h2, h1, h3, h4, join_cons t k (r := v :: r) (by simp),
        lastWishes_cons (t, k) (r := v :: r) (by simp)]
      constructor
      · split <;> simp
      · rfl

theorem layout_text (fs : List Frag) : ∀ u ∈ (layout fs).2, u.1 ≠ [] := by
  induction fs with
  | nil => simp [layout]
  | cons f fs ih =>
    simp only [layout]
    split
    · exact ih
    · rename_i h
      intro u hu
      simp only [List.mem_cons] at hu
      rcases hu with rfl | hu
      · exact h
      · exact ih u hu

theorem join_nil {r : List (Str × List Str)} (h : ∀ u ∈ r, u.1 ≠ []) : join r = [] ↔ r = [] := by
  cases r with
  | nil => simp [join]
  | cons u r =>
    have := h u (by simp)
    obtain ⟨t, k⟩ := u
    cases r <;> simp_all [join]

theorem text_nil (fs : List Frag) : (combine fs).text = [] ↔ (layout fs).2 = [] := by
  rw [combine_eq]; exact join_nil (layout_text fs)

theorem layout_wish (fs : List Frag) (P : Str → Prop) (h : ∀ f ∈ fs, P f.before ∧ P f.after) :
    (∀ w ∈ (layout fs).1, P w) ∧ ∀ u ∈ (layout fs).2, ∀ w ∈ u.2, P w := by
  induction fs with
  | nil => simp [layout]
  | cons f fs ih =>
    obtain ⟨h1, h2⟩ := ih (fun g hg => h g (by simp [hg]))
    obtain ⟨h3, h4⟩ := h f (by simp)
    simp only [layout]
    split
    · refine ⟨?_, h2⟩
      intro w hw
      simp only [List.mem_cons] at hw
      rcases hw with rfl | rfl | hw
      · exact h3
      · exact h4
      · exact h1 w hw
    · refine ⟨by simpa using h3, ?_⟩
      intro u hu
      simp only [List.mem_cons] at hu
      rcases hu with rfl | hu
      · intro w hw
        simp only [List.mem_cons] at hw
        rcases hw with rfl | hw
        · exact h4
        · exact h1 w hw
      · exact h2 u hu

theorem layout_fst_ne {fs : List Frag} (h : fs ≠ []) : (layout fs).1 ≠ [] := by
  cases fs with
  | nil => exact absurd rfl h
  | cons f fs => simp only [layout]; split <;> simp

theorem layout_snd_ne (fs : List Frag) : ∀ u ∈ (layout fs).2, u.2 ≠ [] := by
  induction fs with
  | nil => simp [layout]
  | cons f fs ih =>
    simp only [layout]
    split
    · exact ih
    · intro u hu
      simp only [List.mem_cons] at hu
      rcases hu with rfl | hu
      · simp
      · exact ih u hu

theorem lastWishes_mem {r : List (Str × List Str)} (h : r ≠ []) : ∃ u ∈ r, lastWishes r = u.2 := by
  induction r with
  | nil => exact absurd rfl h
  | cons u r ih =>
    cases r with
    | nil => exact ⟨u, by simp, rfl⟩
    | cons v r =>
      obtain ⟨w, hw, he⟩ := ih (by simp)
      exact ⟨w, by simp only [List.mem_cons] at hw ⊢; exact .inr hw, by rw [lastWishes_cons _ (by simp), he]⟩

theorem collapse_appendP {xs ys : List Str} (hy : ∀ y ∈ ys, Plain y) :
    collapse (xs ++ ys) = imp (collapse xs) (collapse ys) := by
  by_cases h : xs = []
  · subst h
    simp only [List.nil_append]
    rw [show collapse [] = ([] : Str) from rfl, nil_imp (collapse_plain hy)]
  · by_cases k : ys = []
    · subst k
      rw [show collapse [] = ([] : Str) from rfl, imp_nil, List.append_nil]
    · exact collapse_append h k

theorem combine_append {A B : List Frag} (hA : PlainF A) (hB : PlainF B) : combine (A ++ B) = op (combine A) (combine B) := by
  obtain ⟨pA, qA⟩ := layout_wish A Plain hA
  obtain ⟨pB, qB⟩ := layout_wish B Plain hB
  have cA := collapse_plain pA
  have cB := collapse_plain pB
  rw [op_eq]
  have tA := text_nil A
  have tB := text_nil B
  by_cases h1 : (layout A).2 = []
  · rw [if_pos (tA.mpr h1)]
    have hl : layout (A ++ B) = ((layout A).1 ++ (layout B).1, (layout B).2) := by
      rw [layout_append, h1]; rfl
    by_cases h2 : (layout B).2 = []
    · rw [if_pos (tB.mpr h2)]
      rw [combine_eq (A ++ B), combine_eq A, combine_eq B, hl]
      simp only [h1, h2, if_true, join, Frag.mk.injEq, true_and]
      rw [nil_imp cA, imp_nil, collapse_appendP pB]
    · rw [if_neg (fun h => h2 (tB.mp h))]
      rw [combine_eq (A ++ B), combine_eq A, combine_eq B, hl]
      simp only [h1, h2, if_true, if_false, Frag.mk.injEq, and_true]
      rw [nil_imp cA, collapse_appendP pB]
  · rw [if_neg (fun h => h1 (tA.mp h))]
    obtain ⟨g1, g2, g3, g4⟩ := joinL_eq (layout A).1 (layout A).2 (layout B) h1
    rw [← layout_append] at g1 g2 g3 g4
    by_cases h2 : (layout B).2 = []
    · rw [if_pos (tB.mpr h2)]
      rw [combine_eq (A ++ B), combine_eq A, combine_eq B, g1, g3, g4]
      simp only [h1, h2, g2, if_true, if_false, Frag.mk.injEq, true_and]
      rw [imp_nil, collapse_appendP pB]
    · rw [if_neg (fun h => h2 (tB.mp h))]
      rw [combine_eq (A ++ B), combine_eq A, combine_eq B, g1, g3, g4]
      simp only [h1, h2, g2, if_false, Frag.mk.injEq, true_and, and_true]
      rw [collapse_appendP pB]

theorem combine_plain {A : List Frag} (h : PlainF A) : Plain (combine A).before ∧ Plain (combine A).after := by
  obtain ⟨pA, qA⟩ := layout_wish A Plain h
  rw [combine_eq]
  constructor
  · dsimp only
    split
    · intro c hc; simp at hc
    · exact collapse_plain pA
  · dsimp only
    split
    · exact collapse_plain pA
    · rename_i hr
      obtain ⟨u, hu, he⟩ := lastWishes_mem hr
      rw [he]
      exact collapse_plain (qA u hu)

theorem combine_single {x : Frag} (hb : x.text = [] → x.before = []) (hp : Plain x.after) : combine [x] = x := by
  rw [combine_eq]
  by_cases h : x.text = []
  · obtain ⟨b, t, a⟩ := x
    simp only at h hb hp
    subst h
    have := hb rfl
    subst this
    simp only [layout, if_true, join, Frag.mk.injEq, true_and]
    exact nil_imp hp
  · obtain ⟨b, t, a⟩ := x
    simp only at h
    simp [layout, h, join, lastWishes, collapse, pyMax_nil]

theorem combine_norm (A : List Frag) : (combine A).text = [] → (combine A).before = [] := by
  intro h
  rw [text_nil] at h
  rw [combine_eq]
  simp [h]

theorem combine_flatten (As : List (List Frag)) (h : ∀ A ∈ As, PlainF A) :
    combine As.flatten = combine (As.map combine) := by
  induction As with
  | nil => rfl
  | cons A As ih =>
    have h1 : PlainF A := h A (by simp)
    have h2 : PlainF As.flatten := by
      intro f hf
      obtain ⟨B, hB, hf⟩ := List.mem_flatten.mp hf
      exact h B (by simp [hB]) f hf
    have h3 : PlainF (As.map combine) := by
      intro f hf
      obtain ⟨B, hB, rfl⟩ := List.mem_map.mp hf
      exact combine_plain (h B (by simp [hB]))
    have h4 : PlainF [combine A] := by
      intro f hf
      simp only [List.mem_singleton] at hf
      subst hf
      exact combine_plain h1
    rw [List.flatten_cons, combine_append h1 h2, ih (fun B hB => h B (by simp [hB])), List.map_cons,
      ← List.singleton_append, combine_append h4 h3, combine_single (combine_norm A) (combine_plain h1).2]

/-- The gap between two lists of fragments. -/
theorem text_append (A B : List Frag) : (combine (A ++ B)).text =
    (combine A).text ++ (if (layout A).2 = [] ∨ (layout B).2 = [] then []
      else collapse (lastWishes (layout A).2 ++ (layout B).1)) ++ (combine B).text := by
  rw [combine_eq (A ++ B), combine_eq A, combine_eq B]
  dsimp only
  by_cases h1 : (layout A).2 = []
  · rw [layout_append, h1]
    simp [joinL, join]
  · obtain ⟨g1, g2, g3, g4⟩ := joinL_eq (layout A).1 (layout A).2 (layout B) h1
    rw [← layout_append] at g1 g2 g3 g4
    rw [g3]
    by_cases h2 : (layout B).2 = []
    · simp [h2, join]
    · simp [h1, h2]

theorem layout_fst_append {A : List Frag} (B : List Frag) (h : (layout A).2 ≠ []) :
    (layout (A ++ B)).1 = (layout A).1 ∧ (layout (A ++ B)).2 ≠ [] := by
  obtain ⟨g1, g2, g3, g4⟩ := joinL_eq (layout A).1 (layout A).2 (layout B) h
  rw [← layout_append] at g1 g2
  exact ⟨g1, g2⟩

/-- The wish after the last fragment counts. -/
theorem last_mem (A : List Frag) (f : Frag) (h : (layout (A ++ [f])).2 ≠ []) :
    f.after ∈ lastWishes (layout (A ++ [f])).2 := by
  by_cases h1 : (layout A).2 = []
  · rw [layout_append, h1] at h ⊢
    simp only [joinL] at h ⊢
    simp only [layout] at h ⊢
    split
    · rename_i hf; simp [hf] at h
    · simp [lastWishes]
  · obtain ⟨g1, g2, g3, g4⟩ := joinL_eq (layout A).1 (layout A).2 (layout [f]) h1
    rw [← layout_append] at g4
    rw [g4]
    simp only [layout]
    split
    · simp
    · simp [lastWishes]

/-- The texts of the layout are the texts that are not empty. -/
theorem layout_texts (fs : List Frag) : (layout fs).2.map Prod.fst = (fs.map Frag.text).filter (· ≠ []) := by
  induction fs with
  | nil => rfl
  | cons f fs ih =>
    simp only [layout, List.map_cons, List.filter_cons]
    by_cases h : f.text = []
    · simp [h, ih]
    · simp [h, ih]

theorem join_weave (r : List (Str × List Str)) :
    join r = weave (r.map Prod.fst) (r.dropLast.map fun u => collapse u.2) := by
  induction r with
  | nil => rfl
  | cons u r ih =>
    obtain ⟨t, k⟩ := u
    cases r with
    | nil => rfl
    | cons v r =>
      rw [join_cons _ _ (by simp), ih]
      simp [weave]

/-! ## Points -/

theorem collapseLast_texts (ps : List Point) (w : Str) :
    (collapseLast ps w).map Point.text = ps.map Point.text := by
  induction ps with
  | nil => rfl
  | cons p ps ih =>
    cases ps with
    | nil => rfl
    | cons q ps => simp only [collapseLast, List.map_cons]; rw [ih]; rfl

theorem collapseLast_snoc (ps : List Point) (p : Point) (w : Str) :
    collapseLast (ps ++ [p]) w = ps ++ [{ p with after := collapse [p.after, w] }] := by
  induction ps with
  | nil => rfl
  | cons q ps ih =>
    cases ps with
    | nil => simp [collapseLast]
    | cons r ps =>
      simp only [List.cons_append] at ih ⊢
      simp only [collapseLast, ih]

theorem collapseLast_wish (P : Str → Prop) (ps : List Point) (w : Str) (hw : P w)
    (h : ∀ p ∈ ps, P p.before ∧ P p.after) : ∀ p ∈ collapseLast ps w, P p.before ∧ P p.after := by
  rcases List.eq_nil_or_concat ps with rfl | ⟨qs, q, rfl⟩
  · simp [collapseLast]
  · rw [List.concat_eq_append, collapseLast_snoc]
    intro p hp
    simp only [List.mem_append, List.mem_singleton] at hp
    rcases hp with hp | rfl
    · exact h p (by simp [hp])
    · obtain ⟨h1, h2⟩ := h q (by simp)
      refine ⟨h1, ?_⟩
      simp only [collapse_two]
      rcases imp_eq q.after w with e | e <;> rw [e] <;> assumption

/-- The fragments of points. -/
abbrev frags (ps : List Point) : List Frag := ps.map Point.frag

theorem text_congr {A B : List Frag} (h : A.map Frag.text = B.map Frag.text) :
    ((layout A).2 = [] ↔ (layout B).2 = []) := by
  have h1 := layout_texts A
  have h2 := layout_texts B
  rw [h, ← h2] at h1
  rw [← List.map_eq_nil_iff (f := Prod.fst), h1, List.map_eq_nil_iff]

theorem frags_text (ps : List Point) : (frags ps).map Frag.text = ps.map Point.text := by
  simp [frags, Point.frag, Function.comp_def]

/-- Only the whitespace after changes. -/
theorem combine_last (A : List Frag) (f : Frag) (w : Str) :
    combine (A ++ [{ f with after := imp f.after w }]) =
      { combine (A ++ [f]) with after := imp (combine (A ++ [f])).after w } := by
  rw [combine_eq, combine_eq, layout_append, layout_append]
  have hl : layout [{ f with after := imp f.after w }] =
      if f.text = [] then ([f.before, imp f.after w], []) else ([f.before], [(f.text, [imp f.after w])]) := by
    simp [layout]
  have hl' : layout [f] = if f.text = [] then ([f.before, f.after], []) else ([f.before], [(f.text, [f.after])]) := by
    simp [layout]
  have key : ∀ xs : List Str, collapse (xs ++ [f.before, imp f.after w]) = imp (collapse (xs ++ [f.before, f.after])) w := by
    intro xs
    have e1 : ∀ y, collapse [f.before, y] = imp f.before y := fun y => collapse_two _ _
    cases xs with
    | nil => simp only [List.nil_append, e1, imp_assoc]
    | cons x xs =>
      rw [collapse_append (by simp) (by simp), collapse_append (by simp) (by simp), e1, e1]
      simp only [imp_assoc]
  rw [hl, hl']
  by_cases h1 : (layout A).2 = []
  · rw [h1]
    by_cases h2 : f.text = []
    · simp [h2, joinL, join, key]
    · simp [h2, joinL, join, lastWishes, collapse, pyMax_nil]
  · by_cases h2 : f.text = []
    · simp only [h2, if_true]
      obtain ⟨g1, g2, g3, g4⟩ := joinL_eq (layout A).1 (layout A).2 ([f.before, imp f.after w], []) h1
      obtain ⟨k1, k2, k3, k4⟩ := joinL_eq (layout A).1 (layout A).2 ([f.before, f.after], []) h1
      rw [g1, g3, g4, k1, k3, k4]
      simp [g2, k2, key]
    · simp only [h2, if_false]
      obtain ⟨g1, g2, g3, g4⟩ := joinL_eq (layout A).1 (layout A).2 ([f.before], [(f.text, [imp f.after w])]) h1
      obtain ⟨k1, k2, k3, k4⟩ := joinL_eq (layout A).1 (layout A).2 ([f.before], [(f.text, [f.after])]) h1
      rw [g1, g3, g4, k1, k3, k4]
      simp [g2, k2, lastWishes, collapse, pyMax_nil, join]

theorem combine_collapseLast {ps : List Point} (w : Str) (h : ps ≠ []) :
    combine (frags (collapseLast ps w)) = { combine (frags ps) with after := imp (combine (frags ps)).after w } := by
  rcases List.eq_nil_or_concat ps with rfl | ⟨qs, q, rfl⟩
  · exact absurd rfl h
  · rw [List.concat_eq_append, collapseLast_snoc, collapse_two]
    unfold frags
    rw [List.map_append, List.map_append]
    exact combine_last (qs.map Point.frag) q.frag w

end Quickly.Text
