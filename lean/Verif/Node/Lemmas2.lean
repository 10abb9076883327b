import Verif.Node.Lemmas
import Mathlib.Data.List.Induction

/-!
# More lemmas: forward and backward, ancestors, height, equality
-/

namespace Quickly.Node

open Spec

variable {α : Type}

/-! ## forward and backward -/

theorem siblings_nil (rev : Bool) (t : Tree α) : siblings rev t [] = [] := by
  cases rev <;> rfl

theorem mem_drop_number {p : Path} {k i : ℕ} {ts : List (Tree α)} {n : Item α} :
    n ∈ (number p i ts).drop k ↔ ∃ j, j ≥ k ∧ n.1 = p ++ [i + j] ∧ ts[j]? = some n.2 := by
  induction ts generalizing i k with
  | nil => simp [number]
  | cons t ts ih =>
    cases k with
    | zero => rw [List.drop_zero, mem_number]; simp
    | succ k =>
      simp only [number, List.drop_succ_cons, ih]
      constructor
      · rintro ⟨j, h1, h2, h3⟩
        exact ⟨j + 1, by omega, by rw [h2]; congr 2; omega, by simpa using h3⟩
      · rintro ⟨j, h1, h2, h3⟩
        cases j with
        | zero => omega
        | succ j => exact ⟨j, by omega, by rw [h2]; congr 2; omega, by simpa using h3⟩

theorem mem_take_number {p : Path} {k i : ℕ} {ts : List (Tree α)} {n : Item α} :
    n ∈ (number p i ts).take k ↔ ∃ j, j < k ∧ n.1 = p ++ [i + j] ∧ ts[j]? = some n.2 := by
  induction ts generalizing i k with
  | nil => simp [number]
  | cons t ts ih =>
    cases k with
    | zero => simp
    | succ k =>
      simp only [number, List.take_succ_cons, List.mem_cons, ih]
      constructor
      · rintro (rfl | ⟨j, h1, h2, h3⟩)
        · exact ⟨0, by omega, by simp, by simp⟩
        · exact ⟨j + 1, by omega, by rw [h2]; congr 2; omega, by simpa using h3⟩
      · rintro ⟨j, h1, h2, h3⟩
        cases j with
        | zero =>
          simp only [List.getElem?_cons_zero, Option.some.injEq] at h3
          exact .inl (Prod.ext (by simpa using h2) h3.symm)
        | succ j => exact .inr ⟨j, by omega, by rw [h2]; congr 2; omega, by simpa using h3⟩

/-- The branches that come after the one of index `i`. -/
def After (rev : Bool) (i k : ℕ) : Prop := if rev then k < i else i < k

theorem get?_snoc (t : Tree α) (q : Path) (k : ℕ) :
    t.get? (q ++ [k]) = (t.get? q).bind (fun u => u.children[k]?) := by
  rw [get?_append]
  congr 1
  funext u
  simp only [Tree.get?]
  split <;> simp_all

theorem mem_siblings {rev : Bool} {t : Tree α} {q : Path} {i : ℕ} {n : Item α} :
    n ∈ siblings rev t (q ++ [i]) ↔ ∃ k, After rev i k ∧ n.1 = q ++ [k] ∧ t.get? (q ++ [k]) = some n.2 := by
  have hg : ∀ k, t.get? (q ++ [k]) = (t.get? q).bind (fun u => u.children[k]?) := get?_snoc t q
  cases rev
  · simp only [siblings, Bool.false_eq_true, if_false, rightSiblings, List.getLast?_append, List.getLast?_singleton,
      Option.some_or, List.dropLast_concat]
    cases hq : t.get? q with
    | none => simp [hg, hq]
    | some u =>
      simp only [mem_drop_number, hg, hq, Option.bind_some, After, Bool.false_eq_true, if_false]
      constructor
      · rintro ⟨j, h1, h2, h3⟩; exact ⟨j, by omega, by simpa using h2, h3⟩
      · rintro ⟨j, h1, h2, h3⟩; exact ⟨j, by omega, by simpa using h2, h3⟩
  · simp only [siblings, if_true, leftSiblings, List.getLast?_append, List.getLast?_singleton,
      Option.some_or, List.dropLast_concat]
    cases hq : t.get? q with
    | none => simp [hg, hq]
    | some u =>
      simp only [List.mem_reverse, mem_take_number, hg, hq, Option.bind_some, After, if_true]
      constructor
      · rintro ⟨j, h1, h2, h3⟩; exact ⟨j, by omega, by simpa using h2, h3⟩
      · rintro ⟨j, h1, h2, h3⟩; exact ⟨j, by omega, by simpa using h2, h3⟩

theorem siblings_pairwise (rev : Bool) (t : Tree α) (p : Path) :
    (siblings rev t p).Pairwise (fun a b => Branch rev a.1 b.1) := by
  cases rev
  · simp only [siblings, Bool.false_eq_true, if_false, rightSiblings]
    split
    · simp
    · split
      · simp
      · exact List.Pairwise.sublist (List.drop_sublist _ _) (by simpa [Branch] using number_pairwise _ _ _)
  · simp only [siblings, if_true, leftSiblings]
    split
    · simp
    · split
      · simp
      · rw [List.pairwise_reverse]
        exact List.Pairwise.sublist (List.take_sublist _ _) (by simpa [Branch] using number_pairwise _ _ _)

/-- The siblings of a node and of its ancestors, up to a node. -/
def levels (rev : Bool) (t : Tree α) (upto : Option Path) (p : Path) : List (Item α) :=
  if h : p = [] then [] else if upto = some p then [] else
    siblings rev t p ++ levels rev t upto p.dropLast
termination_by p.length
decreasing_by
  have := List.length_pos_iff.mpr h
  simp only [List.length_dropLast]
  omega

theorem levels_nil (rev : Bool) (t : Tree α) (upto : Option Path) : levels rev t upto [] = [] := by
  unfold levels; simp

theorem levels_snoc (rev : Bool) (t : Tree α) (upto : Option Path) (q : Path) (i : ℕ) :
    levels rev t upto (q ++ [i]) = if upto = some (q ++ [i]) then [] else
      siblings rev t (q ++ [i]) ++ levels rev t upto q := by
  rw [levels]
  simp

theorem climb_eq (rev : Bool) (t : Tree α) (upto : Option Path) (sibs : List (Item α)) (node : Path) :
    match climb rev t upto sibs node with
    | some (n, s, p) => sibs ++ levels rev t upto node.dropLast = n :: (s ++ levels rev t upto p.dropLast)
    | none => sibs ++ levels rev t upto node.dropLast = [] := by
  induction node using List.reverseRecOn generalizing sibs with
  | nil =>
    unfold climb
    cases sibs <;> simp [levels_nil]
  | append_singleton q i ih =>
    unfold climb
    cases sibs with
    | cons n sibs => simp
    | nil =>
      simp only [List.append_eq_nil_iff, List.cons_ne_self, and_false, dite_false, List.dropLast_concat, List.nil_append]
      by_cases hc : q ≠ [] ∧ upto ≠ some q
      · have hl : levels rev t upto q = siblings rev t q ++ levels rev t upto q.dropLast := by
          rw [levels]
          simp [hc.1, hc.2]
        rw [if_pos hc, hl]
        exact ih (siblings rev t q)
      · have hl : levels rev t upto q = [] := by
          rw [levels]
          split
          · rfl
          · rename_i h
            rw [if_pos]
            by_contra hu
            exact hc ⟨h, hu⟩
        rw [if_neg hc]
        exact hl

/-- The work list of `forward` and `backward`. -/
def fView (rev : Bool) (t : Tree α) (upto : Option Path) (s : FState α) : Option (Item α) × List (Item α) :=
  match s.inner with
  | some d => ((dView d).1, (dView d).2 ++ (s.sibs ++ levels rev t upto s.node.dropLast))
  | none => (s.pending, s.sibs ++ levels rev t upto s.node.dropLast)

theorem wResume_append {rev : Bool} {p : Option (Item α)} {V W : List (Item α)} {ok : Bool} :
    (wResume (iterate rev) (p, V) ok = none → wResume (iterate rev) (p, V ++ W) ok = wResume (iterate rev) (none, W) true) ∧
    ∀ n p' V', wResume (iterate rev) (p, V) ok = some (n, (p', V')) → wResume (iterate rev) (p, V ++ W) ok = some (n, (p', V' ++ W)) := by
  have e : kidsIf (iterate rev) p ok ++ (V ++ W) = kidsIf (iterate rev) p ok ++ V ++ W := by simp
  constructor
  · intro h
    unfold wResume at h
    simp only at h
    split at h
    · rename_i hn
      have e2 : kidsIf (iterate rev) (none : Option (Item α)) true ++ W = W := rfl
      simp only [wResume, e, hn, List.nil_append, e2]
    · cases h
  · intro n p' V' h
    unfold wResume at h
    simp only at h
    split at h
    · cases h
    · rename_i m W' hn
      simp only [Option.some.injEq, Prod.mk.injEq] at h
      obtain ⟨rfl, rfl, rfl⟩ := h
      simp only [wResume, e, hn, List.cons_append]

theorem wResume_none (rev ok : Bool) (W : List (Item α)) :
    wResume (iterate rev) (none, W) ok = wResume (iterate rev) (none, W) true := rfl

theorem next_sim (rev : Bool) (t : Tree α) (upto : Option Path) (sibs : List (Item α)) (node : Path) :
    match fwdNext rev t upto sibs node with
    | some (n, s) => wResume (iterate rev) (none, sibs ++ levels rev t upto node.dropLast) true =
        some (n, fView rev t upto s)
    | none => wResume (iterate rev) (none, sibs ++ levels rev t upto node.dropLast) true = none := by
  have := climb_eq rev t upto sibs node
  unfold fwdNext
  cases hc : climb rev t upto sibs node with
  | none =>
    rw [hc] at this
    simp only [wResume, kidsIf, List.nil_append] at this ⊢
    rw [this]
  | some x =>
    obtain ⟨n, s, p⟩ := x
    rw [hc] at this
    simp only [wResume, kidsIf, List.nil_append, fView] at this ⊢
    rw [this]

theorem inner_sim (rev : Bool) (t : Tree α) (upto : Option Path) (d : DState α) (sibs : List (Item α))
    (node : Path) (ok : Bool) :
    match fwdInner rev t upto d sibs node ok with
    | some (n, s) => wResume (iterate rev) ((dView d).1, (dView d).2 ++ (sibs ++ levels rev t upto node.dropLast)) ok =
        some (n, fView rev t upto s)
    | none => wResume (iterate rev) ((dView d).1, (dView d).2 ++ (sibs ++ levels rev t upto node.dropLast)) ok = none := by
  have hd := desc_sim rev d ok
  unfold fwdInner
  cases hr : descResume rev d ok with
  | none =>
    rw [hr] at hd
    have h1 := wResume_append (W := sibs ++ levels rev t upto node.dropLast).1 hd
    have h2 := next_sim rev t upto sibs node
    have h3 : wResume (iterate rev) ((dView d).1, (dView d).2 ++ (sibs ++ levels rev t upto node.dropLast)) ok = _ := h1
    simp only [h3]
    exact h2
  | some x =>
    obtain ⟨n, d'⟩ := x
    rw [hr] at hd
    exact wResume_append.2 _ _ _ hd

theorem fwd_sim (rev : Bool) (t : Tree α) (upto : Option Path) :
    Sim (iterate rev) (fwdResume rev t upto) (fView rev t upto) := by
  intro s ok
  obtain ⟨pending, inner, sibs, node⟩ := s
  have hnext := next_sim rev t upto sibs node
  cases inner with
  | some d =>
    have := inner_sim rev t upto d sibs node ok
    simp only [fwdResume]
    cases hr : fwdInner rev t upto d sibs node ok with
    | none => rw [hr] at this; exact this
    | some x => rw [hr] at this; exact this
  | none =>
    cases pending with
    | none =>
      simp only [fwdResume]
      cases hr : fwdNext rev t upto sibs node with
      | none => rw [hr] at hnext; exact hnext
      | some x => rw [hr] at hnext; exact hnext
    | some n =>
      by_cases hc : (ok && !n.2.children.isEmpty) = true
      · have hok : ok = true := by simp at hc; exact hc.1
        have hw : wResume (iterate rev) (fView rev t upto ⟨some n, none, sibs, node⟩) ok =
            wResume (iterate rev) ((dView (descStart rev n)).1,
              (dView (descStart rev n)).2 ++ (sibs ++ levels rev t upto node.dropLast)) true := by
          simp [wResume, fView, kidsIf, hok, dView, descStart]
        have := inner_sim rev t upto (descStart rev n) sibs node true
        simp only [fwdResume, hc, if_true, hw]
        cases hr : fwdInner rev t upto (descStart rev n) sibs node true with
        | none => rw [hr] at this; exact this
        | some x => rw [hr] at this; exact this
      · have hk : kidsIf (iterate rev) (some n) ok = [] := by
          cases ok with
          | false => rfl
          | true =>
            have : n.2.children = [] := by simpa using hc
            simp [kidsIf, iterate_eq_nil, this]
        have hw : wResume (iterate rev) (fView rev t upto ⟨some n, none, sibs, node⟩) ok =
            wResume (iterate rev) (none, sibs ++ levels rev t upto node.dropLast) true := by
          have e2 : kidsIf (iterate rev) (none : Option (Item α)) true = [] := rfl
          simp only [fView, wResume, hk, e2]
        simp only [fwdResume, hc, Bool.false_eq_true, if_false, hw]
        cases hr : fwdNext rev t upto sibs node with
        | none => rw [hr] at hnext; exact hnext
        | some x => rw [hr] at hnext; exact hnext

theorem fwdStart_view (rev : Bool) (t : Tree α) (upto : Option Path) (p : Path) :
    fView rev t upto (fwdStart rev t upto p) = (none, levels rev t upto p) := by
  unfold fwdStart
  split
  · rename_i h
    rw [levels]
    simp [h.1, h.2, fView]
  · rename_i h
    rw [levels]
    split
    · simp [fView, levels_nil]
    · rename_i h'
      rw [if_pos]
      · simp [fView, levels_nil]
      · by_contra hu
        exact h ⟨h', hu⟩

theorem branch_snoc {rev : Bool} {q m : Path} {i : ℕ} :
    Branch rev (q ++ [i]) m ↔ Branch rev q m ∨ ∃ k r, After rev i k ∧ m = q ++ k :: r := by
  have key : ∀ {P : ℕ → ℕ → Prop}, (∃ c a b r s, q ++ [i] = c ++ a :: r ∧ m = c ++ b :: s ∧ P a b) ↔
      (∃ c a b r s, q = c ++ a :: r ∧ m = c ++ b :: s ∧ P a b) ∨ ∃ k r, P i k ∧ m = q ++ k :: r := by
    intro P
    constructor
    · rintro ⟨c, a, b, r, s, h1, h2, h3⟩
      rcases List.eq_nil_or_concat r with rfl | ⟨r', x, rfl⟩
      · obtain ⟨rfl, h4⟩ := List.append_inj' h1 rfl
        simp only [List.cons.injEq, and_true] at h4
        subst h4
        exact .inr ⟨b, s, h3, h2⟩
      · left
        refine ⟨c, a, b, r', s, ?_, h2, h3⟩
        have h5 : q ++ [i] = (c ++ a :: r') ++ [x] := by simpa using h1
        exact (List.append_inj' h5 rfl).1
    · rintro (⟨c, a, b, r, s, h1, h2, h3⟩ | ⟨k, r, h1, h2⟩)
      · exact ⟨c, a, b, r ++ [i], s, by simp [h1], h2, h3⟩
      · exact ⟨q, i, k, [], r, rfl, h2, h1⟩
  cases rev
  · simpa [Branch, Left, After] using key (P := fun a b => a < b)
  · have hl : ∀ x, Left m x ↔ ∃ c a b r s, x = c ++ a :: r ∧ m = c ++ b :: s ∧ b < a := by
      intro x
      constructor
      · rintro ⟨c, a, b, r, s, h1, h2, h3⟩; exact ⟨c, b, a, s, r, h2, h1, h3⟩
      · rintro ⟨c, a, b, r, s, h1, h2, h3⟩; exact ⟨c, b, a, s, r, h2, h1, h3⟩
    simp only [Branch, if_true, hl, After]
    exact key (P := fun a b => b < a)

theorem not_branch_nil {rev : Bool} {m : Path} : ¬ Branch rev [] m := by
  cases rev
  · rintro ⟨c, i, j, r, s, h, -⟩; simp at h
  · rintro ⟨c, i, j, r, s, -, h, -⟩; simp at h

theorem under_siblings {rev : Bool} {t : Tree α} {q : Path} {i : ℕ} {m : Item α} :
    (∃ w ∈ siblings rev t (q ++ [i]), Under w m) ↔
      t.get? m.1 = some m.2 ∧ ∃ k r, After rev i k ∧ m.1 = q ++ k :: r := by
  constructor
  · rintro ⟨w, hw, r, h1, h2⟩
    obtain ⟨k, h3, h4, h5⟩ := mem_siblings.mp hw
    refine ⟨?_, k, r, h3, by simp [h1, h4]⟩
    rw [h1, get?_append, h4, h5]
    exact h2
  · rintro ⟨h1, k, r, h2, h3⟩
    have h4 : m.1 = (q ++ [k]) ++ r := by simp [h3]
    rw [h4, get?_append] at h1
    cases hw : t.get? (q ++ [k]) with
    | none => rw [hw] at h1; simp at h1
    | some u =>
      rw [hw] at h1
      exact ⟨(q ++ [k], u), mem_siblings.mpr ⟨k, h2, rfl, hw⟩, r, h4, h1⟩

theorem under_levels (rev : Bool) (t : Tree α) (upto : Option Path) (p : Path)
    (hu : ∀ u, upto = some u → AboveOrSelf u p) (m : Item α) :
    (∃ w ∈ levels rev t upto p, Under w m) ↔
      NodeOf t m ∧ Branch rev p m.1 ∧ ∀ u, upto = some u → Above u m.1 := by
  induction p using List.reverseRecOn with
  | nil => simp [levels_nil, not_branch_nil]
  | append_singleton q i ih =>
    rw [levels_snoc]
    split
    · rename_i h
      simp only [List.not_mem_nil, false_and, exists_false, false_iff]
      rintro ⟨-, hb, hab⟩
      obtain ⟨j, r, hr⟩ := hab _ h
      exact branch_ne (r := j :: r) (s := []) hb (by simp [hr])
    · rename_i h
      have hu' : ∀ u, upto = some u → AboveOrSelf u q := by
        intro u hu1
        obtain ⟨r, hr⟩ := hu u hu1
        rcases List.eq_nil_or_concat r with rfl | ⟨r', x, rfl⟩
        · exact absurd (by rw [hu1]; simpa using hr.symm) h
        · have h5 : q ++ [i] = (u ++ r') ++ [x] := by simpa using hr
          exact ⟨r', (List.append_inj' h5 rfl).1⟩
      have hor : (∃ w ∈ siblings rev t (q ++ [i]) ++ levels rev t upto q, Under w m) ↔
          (∃ w ∈ siblings rev t (q ++ [i]), Under w m) ∨ ∃ w ∈ levels rev t upto q, Under w m := by
        simp only [List.mem_append, or_and_right, exists_or]
      rw [hor, ih hu', under_siblings, branch_snoc]
      constructor
      · rintro (⟨h1, k, r, h2, h3⟩ | ⟨h1, h2, h3⟩)
        · refine ⟨h1, .inr ⟨k, r, h2, h3⟩, fun u hu1 => ?_⟩
          obtain ⟨s, rfl⟩ := hu' u hu1
          cases s with
          | nil => exact ⟨k, r, by simpa using h3⟩
          | cons x s => exact ⟨x, s ++ k :: r, by simpa using h3⟩
        · exact ⟨h1, .inl h2, h3⟩
      · rintro ⟨h1, h2 | ⟨k, r, h2, h4⟩, h3⟩
        · exact .inr ⟨h1, h2, h3⟩
        · exact .inl ⟨h1, k, r, h2, h4⟩

theorem levels_pairwise (rev : Bool) (t : Tree α) (upto : Option Path) (p : Path)
    (hu : ∀ u, upto = some u → AboveOrSelf u p) :
    (levels rev t upto p).Pairwise (fun a b => Branch rev a.1 b.1) := by
  induction p using List.reverseRecOn with
  | nil => simp [levels_nil]
  | append_singleton q i ih =>
    rw [levels_snoc]
    split
    · simp
    · rename_i h
      have hu' : ∀ u, upto = some u → AboveOrSelf u q := by
        intro u hu1
        obtain ⟨r, hr⟩ := hu u hu1
        rcases List.eq_nil_or_concat r with rfl | ⟨r', x, rfl⟩
        · exact absurd (by rw [hu1]; simpa using hr.symm) h
        · have h5 : q ++ [i] = (u ++ r') ++ [x] := by simpa using hr
          exact ⟨r', (List.append_inj' h5 rfl).1⟩
      rw [List.pairwise_append]
      refine ⟨siblings_pairwise _ _ _, ih hu', fun a ha b hb => ?_⟩
      obtain ⟨k, -, h4, -⟩ := mem_siblings.mp ha
      have := (under_levels rev t upto q hu' b).mp ⟨b, hb, under_self b⟩
      rw [h4]
      simpa using Branch.append this.2.1 [k] []

/-! ## Document order is the order of the trails -/

theorem lt_iff_docBefore (p q : Path) : p < q ↔ DocBefore p q := by
  induction p generalizing q with
  | nil =>
    cases q with
    | nil => simp [DocBefore, not_above_self, left_irrefl]
    | cons j q => simpa [DocBefore] using Or.inl ⟨j, q, rfl⟩
  | cons i p ih =>
    cases q with
    | nil =>
      simp only [List.not_lt_nil, false_iff]
      rintro (⟨k, r, h⟩ | ⟨c, a, b, r, s, h1, h2, h3⟩)
      · simp at h
      · simp at h2
    | cons j q =>
      rw [List.cons_lt_cons_iff, ih]
      constructor
      · rintro (h | ⟨rfl, ⟨k, r, rfl⟩ | ⟨c, a, b, r, s, rfl, rfl, h⟩⟩)
        · exact .inr ⟨[], i, j, p, q, rfl, rfl, h⟩
        · exact .inl ⟨k, r, rfl⟩
        · exact .inr ⟨i :: c, a, b, r, s, rfl, rfl, h⟩
      · rintro (⟨k, r, h⟩ | ⟨c, a, b, r, s, h1, h2, h3⟩)
        · simp only [List.cons_append, List.cons.injEq] at h
          exact .inr ⟨h.1.symm, .inl ⟨k, r, h.2⟩⟩
        · cases c with
          | nil =>
            simp only [List.nil_append, List.cons.injEq] at h1 h2
            left
            omega
          | cons x c =>
            simp only [List.cons_append, List.cons.injEq] at h1 h2
            exact .inr ⟨by omega, .inr ⟨c, a, b, r, s, h1.2, h2.2, h3⟩⟩

/-! ## Ancestors -/

theorem ancestors_nil (r : ℕ) : Ref.ancestors ⟨r, []⟩ = [] := by
  unfold Ref.ancestors; simp

theorem ancestors_snoc (r : ℕ) (p : Path) (i : ℕ) :
    Ref.ancestors ⟨r, p ++ [i]⟩ = ⟨r, p⟩ :: Ref.ancestors ⟨r, p⟩ := by
  rw [Ref.ancestors]; simp

theorem ancestorsWithIndex_nil (r : ℕ) : Ref.ancestorsWithIndex ⟨r, []⟩ = [] := by
  unfold Ref.ancestorsWithIndex; simp

theorem ancestorsWithIndex_snoc (r : ℕ) (p : Path) (i : ℕ) :
    Ref.ancestorsWithIndex ⟨r, p ++ [i]⟩ = (⟨r, p⟩, i) :: Ref.ancestorsWithIndex ⟨r, p⟩ := by
  rw [Ref.ancestorsWithIndex]; simp

theorem ancestors_length (r : ℕ) (p : Path) : (Ref.ancestors ⟨r, p⟩).length = p.length := by
  induction p using List.reverseRecOn with
  | nil => simp [ancestors_nil]
  | append_singleton p i ih => simp [ancestors_snoc, ih]

theorem mem_ancestors {a r : Ref} : a ∈ r.ancestors ↔ a.root = r.root ∧ Above a.path r.path := by
  obtain ⟨root, p⟩ := r
  induction p using List.reverseRecOn with
  | nil =>
    simp only [ancestors_nil, List.not_mem_nil, false_iff]
    rintro ⟨-, i, s, h⟩
    simp at h
  | append_singleton p i ih =>
    rw [ancestors_snoc, List.mem_cons, ih]
    constructor
    · rintro (rfl | ⟨h, j, s, h2⟩)
      · exact ⟨rfl, i, [], rfl⟩
      · exact ⟨h, j, s ++ [i], by simp only at h2 ⊢; simp [h2]⟩
    · rintro ⟨h, j, s, h2⟩
      rcases List.eq_nil_or_concat s with rfl | ⟨s', x, rfl⟩
      · left
        have := (List.append_inj' h2 rfl).1
        cases a; simp_all
      · right
        have h5 : p ++ [i] = (a.path ++ j :: s') ++ [x] := by simpa using h2
        exact ⟨h, j, s', (List.append_inj' h5 rfl).1⟩

theorem ancestors_pairwise (r : Ref) : r.ancestors.Pairwise (fun a b => Above b.path a.path) := by
  obtain ⟨root, p⟩ := r
  induction p using List.reverseRecOn with
  | nil => simp [ancestors_nil]
  | append_singleton p i ih =>
    rw [ancestors_snoc, List.pairwise_cons]
    exact ⟨fun b hb => (mem_ancestors.mp hb).2, ih⟩

theorem trail_eq (r : Ref) : r.trail = r.path := by
  obtain ⟨root, p⟩ := r
  induction p using List.reverseRecOn with
  | nil => simp [Ref.trail, ancestorsWithIndex_nil]
  | append_singleton p i ih =>
    simp only [Ref.trail] at ih
    simp [Ref.trail, ancestorsWithIndex_snoc, ih]

theorem caLoop1_eq (other : Ref) (l acc : List Ref) :
    caLoop1 other l acc = if other ∈ l then .inl other else .inr (acc ++ l) := by
  induction l generalizing acc with
  | nil => simp [caLoop1]
  | cons n l ih =>
    unfold caLoop1
    by_cases h : n = other
    · subst h; simp
    · simp only [h, if_false, ih, List.mem_cons, Ne.symm h, false_or]
      split <;> simp [*]

theorem caLoop2_eq (anc l : List Ref) : caLoop2 anc l = l.find? (fun n => decide (n ∈ anc)) := by
  induction l with
  | nil => rfl
  | cons n l ih =>
    unfold caLoop2
    by_cases h : n ∈ anc
    · simp [h]
    · simp [h, ih]

theorem cwLoop1_eq (other : Ref) (r : ℕ) (q s : Path) (anc : List Ref) (trail : List ℕ) (ht : trail.reverse = s) :
    (other ∈ Ref.ancestors ⟨r, q⟩ → ∃ tr, cwLoop1 other (Ref.ancestorsWithIndex ⟨r, q⟩) anc trail = .inl (other, tr) ∧
      q ++ s = other.path ++ tr.reverse) ∧
    (other ∉ Ref.ancestors ⟨r, q⟩ → ∃ tr, cwLoop1 other (Ref.ancestorsWithIndex ⟨r, q⟩) anc trail =
      .inr (anc ++ Ref.ancestors ⟨r, q⟩, tr) ∧ tr.reverse = q ++ s) := by
  induction q using List.reverseRecOn generalizing s anc trail with
  | nil => simp [ancestors_nil, ancestorsWithIndex_nil, cwLoop1, ht]
  | append_singleton q i ih =>
    rw [ancestors_snoc, ancestorsWithIndex_snoc]
    have := ih (i :: s) (anc ++ [⟨r, q⟩]) (trail ++ [i]) (by simp [ht])
    unfold cwLoop1
    by_cases h : (⟨r, q⟩ : Ref) = other
    · subst h
      simp [ht]
    · simp only [h, if_false, List.mem_cons, Ne.symm h, false_or]
      simpa using this

theorem idxOf_ancestors (r : ℕ) (q s : Path) (hs : s ≠ []) :
    (Ref.ancestors ⟨r, q ++ s⟩).idxOf ⟨r, q⟩ + 1 = s.length := by
  induction s using List.reverseRecOn with
  | nil => exact absurd rfl hs
  | append_singleton s i ih =>
    rw [← List.append_assoc, ancestors_snoc]
    by_cases h : s = []
    · subst h; simp
    · rw [List.idxOf_cons_ne _ (by simp [h])]
      have := ih h
      simp only [List.length_append, List.length_singleton]
      omega

theorem cwLoop2_eq (self : Ref) (r : ℕ) (q s : Path) (trail : List ℕ) (ht : trail.reverse = s) :
    match caLoop2 (self :: self.ancestors) (Ref.ancestors ⟨r, q⟩) with
    | none => cwLoop2 self self.ancestors self.path.reverse (Ref.ancestorsWithIndex ⟨r, q⟩) trail = none
    | some c => ∃ a b, cwLoop2 self self.ancestors self.path.reverse (Ref.ancestorsWithIndex ⟨r, q⟩) trail =
        some (c, a, b) ∧ self.path = c.path ++ a ∧ q ++ s = c.path ++ b := by
  induction q using List.reverseRecOn generalizing s trail with
  | nil => simp [ancestors_nil, ancestorsWithIndex_nil, caLoop2, cwLoop2]
  | append_singleton q i ih =>
    rw [ancestors_snoc, ancestorsWithIndex_snoc]
    have := ih (i :: s) (trail ++ [i]) (by simp [ht])
    unfold caLoop2 cwLoop2
    by_cases h : (⟨r, q⟩ : Ref) = self
    · subst h
      simp [ht]
    · by_cases h2 : (⟨r, q⟩ : Ref) ∈ self.ancestors
      · simp only [List.mem_cons, h2, or_true, if_true, h, if_false]
        obtain ⟨h3, j, x, h4⟩ := mem_ancestors.mp h2
        obtain ⟨sr, sp⟩ := self
        simp only at h3 h4
        subst h3 h4
        refine ⟨_, _, rfl, ?_, by simp [ht]⟩
        rw [idxOf_ancestors r q (j :: x) (by simp)]
        simp only [List.reverse_append, List.append_cancel_left_eq]
        rw [List.take_append_of_le_length (by simp), List.take_of_length_le (by simp)]
        simp
      · simp only [List.mem_cons, h2, or_false, h, if_false]
        simpa using this

/-! ## Height -/

/-- The height, recursively. -/
def ht : Tree α → ℕ
  | .node _ cs => go cs
where
  /-- One more than the highest. -/
  go : List (Tree α) → ℕ
    | [] => 0
    | c :: cs => max (ht c + 1) (go cs)

/-- The heights of the trees in the iterators, seen from the top node. -/
def reach : List (Tree α) → List (List (Tree α)) → ℕ
  | gen, [] => ht.go gen - 1
  | gen, g :: stack => max (ht.go gen + stack.length) (reach g stack)

theorem heightLoop_eq (gen : List (Tree α)) (stack : List (List (Tree α))) (h : ℕ) (hh : stack.length ≤ h) :
    heightLoop gen stack h = max h (reach gen stack) := by
  induction gen, stack, h using heightLoop.induct with
  | case1 v gen stack h ih =>
    rw [heightLoop, ih hh]
    cases stack with
    | nil => simp only [reach, ht.go, ht]; omega
    | cons g stack => simp only [reach, ht.go, ht, List.length_cons] at hh ⊢; omega
  | case2 v c cs gen stack h ih =>
    rw [heightLoop, ih (by simp only [List.length_cons]; omega)]
    have : 1 ≤ ht.go (c :: cs) := by simp only [ht.go]; omega
    cases stack with
    | nil =>
      have e : ht.go (Tree.node v (c :: cs) :: gen) = max (ht.go (c :: cs) + 1) (ht.go gen) := rfl
      simp only [reach, List.length_nil, e]; omega
    | cons g stack =>
      have e : ht.go (Tree.node v (c :: cs) :: gen) = max (ht.go (c :: cs) + 1) (ht.go gen) := rfl
      simp only [reach, List.length_cons, e] at hh ⊢; omega
  | case3 g stack h ih =>
    simp only [List.length_cons] at hh
    rw [heightLoop, ih (by omega)]
    simp only [reach, ht.go]; omega
  | case4 h =>
    rw [heightLoop]
    simp [reach, ht.go]

theorem height_eq (t : Tree α) : t.height = ht t := by
  unfold Tree.height
  rw [heightLoop_eq _ _ _ (by simp)]
  simp only [reach, ht.go]
  omega

theorem ht_node (v : α) (cs : List (Tree α)) : ht (.node v cs) = ht.go cs := rfl

theorem ht_go_le {cs : List (Tree α)} {c : Tree α} (h : c ∈ cs) : ht c + 1 ≤ ht.go cs := by
  induction cs with
  | nil => simp at h
  | cons d cs ih =>
    rcases List.mem_cons.mp h with rfl | h
    · simp only [ht.go]; omega
    · have := ih h
      simp only [ht.go]; omega

theorem ht_bound (t : Tree α) (p : Path) (h : (t.get? p).isSome) : p.length ≤ ht t := by
  induction p generalizing t with
  | nil => simp
  | cons i p ih =>
    obtain ⟨v, cs⟩ := t
    simp only [Tree.get?, Tree.children] at h
    split at h
    · rename_i c hc
      have h1 := ih c h
      have h2 := ht_go_le (List.mem_of_getElem? hc)
      rw [ht_node]
      simp only [List.length_cons]
      omega
    · simp at h

theorem ht_go_exists {cs : List (Tree α)} (h : cs ≠ []) : ∃ (i : ℕ) (c : Tree α), cs[i]? = some c ∧ ht.go cs = ht c + 1 := by
  induction cs with
  | nil => exact absurd rfl h
  | cons d cs ih =>
    by_cases hc : cs = []
    · exact ⟨0, d, by simp, by subst hc; simp [ht.go]⟩
    · obtain ⟨i, c, h1, h2⟩ := ih hc
      by_cases hle : ht.go cs ≤ ht d + 1
      · exact ⟨0, d, by simp, by simp only [ht.go]; omega⟩
      · exact ⟨i + 1, c, by simpa using h1, by simp only [ht.go]; omega⟩

theorem ht_attained (n : ℕ) : ∀ t : Tree α, ht t = n → ∃ p, (t.get? p).isSome ∧ p.length = n := by
  induction n with
  | zero => exact fun t _ => ⟨[], by simp [Tree.get?], rfl⟩
  | succ n ih =>
    intro t h
    obtain ⟨v, cs⟩ := t
    rw [ht_node] at h
    have hne : cs ≠ [] := by rintro rfl; simp [ht.go] at h
    obtain ⟨i, c, h1, h2⟩ := ht_go_exists hne
    obtain ⟨p, h3, h4⟩ := ih c (by omega)
    exact ⟨i :: p, by simp only [Tree.get?, Tree.children, h1, h3], by simp [h4]⟩

/-! ## Equality -/

theorem size_child {v : α} {cs : List (Tree α)} {c : Tree α} (h : c ∈ cs) : c.size < (Tree.node v cs).size := by
  have : ∀ cs : List (Tree α), c ∈ cs → c.size ≤ Tree.size.go cs := by
    intro cs
    induction cs with
    | nil => simp
    | cons d cs ih =>
      intro h
      rcases List.mem_cons.mp h with rfl | h
      · simp [Tree.size.go]
      · have := ih h
        simp only [Tree.size.go]; omega
  have := this cs h
  simp only [Tree.size]; omega

theorem equals_all {body : α → α → Bool} {cs ds : List (Tree α)} (h : cs.length = ds.length) :
    Tree.equals.all body cs ds = true ↔ ∀ (i : ℕ) (c d : Tree α), cs[i]? = some c → ds[i]? = some d → c.equals body d = true := by
  induction cs generalizing ds with
  | nil => simp [Tree.equals.all]
  | cons c cs ih =>
    cases ds with
    | nil => simp at h
    | cons d ds =>
      simp only [Tree.equals.all, Bool.and_eq_true, ih (by simpa using h)]
      constructor
      · rintro ⟨h1, h2⟩ i x y hx hy
        cases i with
        | zero => simp at hx hy; subst hx hy; exact h1
        | succ i => exact h2 i x y (by simpa using hx) (by simpa using hy)
      · intro h
        exact ⟨h 0 c d rfl rfl, fun i x y hx hy => h (i + 1) x y (by simpa using hx) (by simpa using hy)⟩

end Quickly.Node
