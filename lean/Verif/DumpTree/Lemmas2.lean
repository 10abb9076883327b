import Verif.DumpTree.Lemmas

/-!
# Lemmas about `dump`: a tree can be read back
-/

namespace Quickly.DumpTree

open Quickly.Node Quickly.Node.Spec Quickly.DumpTree.Spec

variable {α β : Type}

/-! ## Depth and what is shown, for every node -/

/-- The nodes with their depths. -/
def flat : ℕ → Tree Str → List (ℕ × Str)
  | k, .node v cs => (k, v) :: kids k cs
where
  /-- The children. -/
  kids (k : ℕ) : List (Tree Str) → List (ℕ × Str)
    | [] => []
    | c :: cs => flat (k + 1) c ++ kids k cs

/-- Nothing follows, or what follows is not deeper than `k`. -/
def Stops (k : ℕ) (xs : List (ℕ × Str)) : Prop := ∀ x, xs.head? = some x → x.1 ≤ k

theorem flat_head (k : ℕ) (n : Tree Str) (ys : List (ℕ × Str)) : ∃ s l, flat k n ++ ys = (k, s) :: l := by
  obtain ⟨v, cs⟩ := n
  exact ⟨v, _, rfl⟩

theorem flat_inj (n : Tree Str) : ∀ (k : ℕ) (m : Tree Str) (xs ys : List (ℕ × Str)), Stops k xs → Stops k ys →
    flat k n ++ xs = flat k m ++ ys → n = m ∧ xs = ys := by
  refine Tree.rec (motive_1 := fun n => ∀ (k : ℕ) (m : Tree Str) (xs ys : List (ℕ × Str)), Stops k xs → Stops k ys →
      flat k n ++ xs = flat k m ++ ys → n = m ∧ xs = ys)
    (motive_2 := fun cs => ∀ (k : ℕ) (ds : List (Tree Str)) (xs ys : List (ℕ × Str)), Stops k xs → Stops k ys →
      flat.kids k cs ++ xs = flat.kids k ds ++ ys → cs = ds ∧ xs = ys) ?_ ?_ ?_ n
  · intro v cs ih k m xs ys hx hy h
    obtain ⟨w, ds⟩ := m
    simp only [flat, List.cons_append, List.cons.injEq, Prod.mk.injEq, true_and] at h
    obtain ⟨rfl, h⟩ := h
    obtain ⟨rfl, rfl⟩ := ih k ds xs ys hx hy h
    exact ⟨rfl, rfl⟩
  · intro k ds xs ys hx hy h
    cases ds with
    | nil => exact ⟨rfl, by simpa [flat.kids] using h⟩
    | cons d ds =>
      exfalso
      simp only [flat.kids, List.nil_append, List.append_assoc] at h
      obtain ⟨s, l, hl⟩ := flat_head (k + 1) d (flat.kids k ds ++ ys)
      have := hx (k + 1, s) (by rw [h, hl]; rfl)
      exact absurd this (Nat.not_succ_le_self k)
  · intro c cs ih1 ih2 k ds xs ys hx hy h
    cases ds with
    | nil =>
      exfalso
      simp only [flat.kids, List.nil_append, List.append_assoc] at h
      obtain ⟨s, l, hl⟩ := flat_head (k + 1) c (flat.kids k cs ++ xs)
      have := hy (k + 1, s) (by rw [← h, hl]; rfl)
      exact absurd this (Nat.not_succ_le_self k)
    | cons d ds =>
      simp only [flat.kids, List.append_assoc] at h
      have stops : ∀ (es : List (Tree Str)) (zs : List (ℕ × Str)), Stops k zs → Stops (k + 1) (flat.kids k es ++ zs) := by
        intro es zs hz x hxx
        cases es with
        | nil =>
          have := hz x (by simpa [flat.kids] using hxx)
          omega
        | cons e es =>
          simp only [flat.kids, List.append_assoc] at hxx
          obtain ⟨s, l, hl⟩ := flat_head (k + 1) e (flat.kids k es ++ zs)
          rw [hl] at hxx
          simp only [List.head?_cons, Option.some.injEq] at hxx
          rw [← hxx]
          exact Nat.le_refl _
      obtain ⟨rfl, h'⟩ := ih1 (k + 1) d _ _ (stops cs xs hx) (stops ds ys hy) h
      obtain ⟨rfl, rfl⟩ := ih2 k ds xs ys hx hy h'
      exact ⟨rfl, rfl⟩

/-! ## Lines -/

/-- All strings of the style have the width `w`, and they have no newline and no `<`. -/
def Even (w : ℕ) (d : Style) : Prop := ∀ i, (d.get i).length = w ∧ '\n' ∉ d.get i ∧ '<' ∉ d.get i

/-- The line shows the text `x.2` after `x.1` columns of width `w`. -/
def Decodes (w : ℕ) (l : Str) (x : ℕ × Str) : Prop :=
  ∃ c : Str, l = c ++ x.2 ∧ c.length = x.1 * w ∧ '<' ∉ c ∧ '\n' ∉ l ∧ x.2.head? = some '<'

theorem prefixLoop_even {w : ℕ} {d : Style} (hd : Even w d) (t : Tree α) (k i : ℕ) (p : Path) :
    ((prefixLoop t d k i p []).reverse.flatten).length = k * w ∧ '<' ∉ (prefixLoop t d k i p []).reverse.flatten ∧
      '\n' ∉ (prefixLoop t d k i p []).reverse.flatten := by
  induction k generalizing i p with
  | zero => simp [prefixLoop]
  | succ k ih =>
    rw [prefixLoop_succ]
    obtain ⟨h1, h2, h3⟩ := ih 0 p.dropLast
    obtain ⟨g1, g2, g3⟩ := hd (i + if isLast t p then 1 else 0)
    rw [List.flatten_append, List.length_append, h1]
    simp only [List.flatten_cons, List.flatten_nil, List.append_nil, List.mem_append, not_or]
    exact ⟨by rw [g1, Nat.succ_mul], ⟨h2, g3⟩, h3, g2⟩

theorem line_decodes {w : ℕ} {d : Style} (hd : Even w d) {repr : Tree α → Str} (hr : Plain repr) (t : Tree α) (p : Path) (k : ℕ)
    (v : Tree α) : Decodes w (line t d repr p k v) (k, repr v) := by
  obtain ⟨h1, h2, h3⟩ := prefixLoop_even hd t k 2 p
  refine ⟨_, rfl, h1, h2, ?_, (hr v).2⟩
  simp only [line, List.mem_append, not_or]
  exact ⟨h3, (hr v).1⟩

theorem forall2_append {γ δ : Type} {R : γ → δ → Prop} {a c : List γ} {b d : List δ} (h : List.Forall₂ R a b)
    (k : List.Forall₂ R c d) : List.Forall₂ R (a ++ c) (b ++ d) := by
  induction h with
  | nil => exact k
  | cons h _ ih => exact .cons h ih

theorem dump_decodes {w : ℕ} {d : Style} (hd : Even w d) {repr : Tree α → Str} (hr : Plain repr) (t : Tree α) (n : Tree α) :
    ∀ (p : Path) (k : ℕ), List.Forall₂ (Decodes w) (dump t d repr p k n) (flat k (shown repr n)) := by
  refine Tree.rec
    (motive_1 := fun n => ∀ (p : Path) (k : ℕ), List.Forall₂ (Decodes w) (dump t d repr p k n) (flat k (shown repr n)))
    (motive_2 := fun cs => ∀ (p : Path) (k i : ℕ),
      List.Forall₂ (Decodes w) (dump.kids t d repr p k i cs) (flat.kids k (shown.kids repr cs))) ?_ ?_ ?_ n
  · intro v cs ih p k
    simp only [dump, shown, flat]
    exact .cons (line_decodes hd hr t p k (.node v cs)) (ih p k 0)
  · intro p k i
    simp only [dump.kids, shown.kids, flat.kids]
    exact .nil
  · intro c cs ih1 ih2 p k i
    simp only [dump.kids, shown.kids, flat.kids]
    exact forall2_append (ih1 _ _) (ih2 _ _ _)

theorem split_first {c : Char} {a b r s : Str} (ha : c ∉ a) (hb : c ∉ b) (hr : r.head? = some c) (hs : s.head? = some c)
    (h : a ++ r = b ++ s) : a = b ∧ r = s := by
  induction a generalizing b with
  | nil =>
    cases b with
    | nil => exact ⟨rfl, h⟩
    | cons x b =>
      exfalso
      simp only [List.nil_append] at h
      subst h
      simp only [List.cons_append, List.head?_cons, Option.some.injEq] at hr
      subst hr
      simp at hb
  | cons x a ih =>
    cases b with
    | nil =>
      exfalso
      simp only [List.nil_append] at h
      subst h
      simp only [List.cons_append, List.head?_cons, Option.some.injEq] at hs
      subst hs
      simp at ha
    | cons y b =>
      simp only [List.cons_append, List.cons.injEq] at h
      obtain ⟨rfl, h⟩ := h
      obtain ⟨rfl, rfl⟩ := ih (fun h => ha (List.mem_cons_of_mem _ h)) (fun h => hb (List.mem_cons_of_mem _ h)) h
      exact ⟨rfl, rfl⟩

theorem decodes_unique {w : ℕ} (hw : 0 < w) {l : Str} {x y : ℕ × Str} (hx : Decodes w l x) (hy : Decodes w l y) : x = y := by
  obtain ⟨a, ha, la, na, _, ra⟩ := hx
  obtain ⟨b, hb, lb, nb, _, rb⟩ := hy
  obtain ⟨rfl, h⟩ := split_first na nb ra rb (ha.symm.trans hb)
  refine Prod.ext ?_ h
  exact Nat.eq_of_mul_eq_mul_right hw (la.symm.trans lb)

theorem forall2_unique {w : ℕ} (hw : 0 < w) {ls : List Str} {xs ys : List (ℕ × Str)} (hx : List.Forall₂ (Decodes w) ls xs)
    (hy : List.Forall₂ (Decodes w) ls ys) : xs = ys := by
  induction hx generalizing ys with
  | nil => cases hy; rfl
  | cons h _ ih =>
    cases hy with
    | cons h' t' => rw [decodes_unique hw h h', ih t']

theorem text_inj {ls ms : List Str} (hl : ∀ l ∈ ls, '\n' ∉ l) (hm : ∀ l ∈ ms, '\n' ∉ l) (h : text ls = text ms) : ls = ms := by
  induction ls generalizing ms with
  | nil =>
    cases ms with
    | nil => rfl
    | cons m ms => simp [text] at h
  | cons l ls ih =>
    cases ms with
    | nil => simp [text] at h
    | cons m ms =>
      have h' : l ++ ('\n' :: text ls) = m ++ ('\n' :: text ms) := by simpa [text] using h
      obtain ⟨rfl, h'⟩ := split_first (hl l (by simp)) (hm m (by simp)) rfl rfl h'
      have := ih (ms := ms) (fun x hx => hl x (List.mem_cons_of_mem _ hx)) (fun x hx => hm x (List.mem_cons_of_mem _ hx))
        (by simpa using h')
      rw [this]

theorem forall2_newline {w : ℕ} {ls : List Str} {xs : List (ℕ × Str)} (h : List.Forall₂ (Decodes w) ls xs) :
    ∀ l ∈ ls, '\n' ∉ l := by
  induction h with
  | nil => simp
  | cons h _ ih =>
    intro l hl
    rcases List.mem_cons.1 hl with rfl | hl
    · obtain ⟨_, _, _, _, h, _⟩ := h
      exact h
    · exact ih l hl

theorem lookup_mem {κ ν : Type} [BEq κ] (k : κ) (l : List (κ × ν)) (v : ν) (h : l.lookup k = some v) : v ∈ l.map Prod.snd := by
  induction l with
  | nil => simp at h
  | cons x l ih =>
    obtain ⟨a, b⟩ := x
    rw [List.lookup_cons] at h
    cases hk : k == a with
    | true => simp_all
    | false => rw [hk] at h; exact List.mem_cons_of_mem _ (ih h)

theorem style_even {name : Option Str} {d : Style} (h : getStyle name = some d) : ∃ w, 0 < w ∧ Even w d := by
  have hm := lookup_mem _ _ _ h
  have : ∀ d ∈ styles.map Prod.snd, 0 < d.1.length ∧ Even d.1.length d := by
    intro d hd
    have e : ∀ i, d.get i ∈ [d.1, d.2.1, d.2.2.1, d.2.2.2] := by
      intro i
      match i with
      | 0 => simp [Style.get]
      | 1 => simp [Style.get]
      | 2 => simp [Style.get]
      | _ + 3 => simp [Style.get]
    have k : ∀ d ∈ styles.map Prod.snd, 0 < d.1.length ∧ ∀ x ∈ [d.1, d.2.1, d.2.2.1, d.2.2.2],
        x.length = d.1.length ∧ '\n' ∉ x ∧ '<' ∉ x := by
      decide +kernel
    exact ⟨(k d hd).1, fun i => (k d hd).2 _ (e i)⟩
  exact ⟨_, (this d hm).1, (this d hm).2⟩

end Quickly.DumpTree
