import Verif.Abs2rel.Spec

/-! # The range at a node, and places in the document -/

namespace Quickly.Abs2rel

open Quickly.Pitch Quickly.Relative Quickly.Abs2rel.Spec
open Quickly.Node (Path)
open Quickly.Node.Spec (Above Left)

theorem left_nil (q : Path) : ¬ Left [] q := by
  rintro ⟨c, i, j, r, s, h, -, -⟩
  simp at h

theorem left_nil' (q : Path) : ¬ Left q [] := by
  rintro ⟨c, i, j, r, s, -, h, -⟩
  simp at h

theorem left_cons (i j : ℕ) (p q : Path) : Left (i :: p) (j :: q) ↔ i < j ∨ (i = j ∧ Left p q) := by
  constructor
  · rintro ⟨c, a, b, r, s, h1, h2, h3⟩
    cases c with
    | nil =>
      simp only [List.nil_append, List.cons.injEq] at h1 h2
      exact .inl (by omega)
    | cons x c =>
      simp only [List.cons_append, List.cons.injEq] at h1 h2
      exact .inr ⟨h1.1.trans h2.1.symm, c, a, b, r, s, h1.2, h2.2, h3⟩
  · rintro (h | ⟨rfl, c, a, b, r, s, h1, h2, h3⟩)
    · exact ⟨[], i, j, p, q, rfl, rfl, h⟩
    · exact ⟨i :: c, a, b, r, s, by rw [h1]; rfl, by rw [h2]; rfl, h3⟩

theorem left_append (c p q : Path) : Left (c ++ p) (c ++ q) ↔ Left p q := by
  induction c with
  | nil => rfl
  | cons x c ih => simp [left_cons, ih]

theorem above_append (c p q : Path) : Above (c ++ p) (c ++ q) ↔ Above p q := by
  simp [Above, List.append_assoc]

theorem above_cons (i j : ℕ) (p q : Path) : Above (i :: p) (j :: q) ↔ i = j ∧ Above p q := by
  constructor
  · rintro ⟨a, r, h⟩
    simp only [List.cons_append, List.cons.injEq] at h
    exact ⟨h.1.symm, a, r, h.2⟩
  · rintro ⟨rfl, a, r, h⟩
    exact ⟨a, r, by rw [h]; rfl⟩

theorem above_nil (q : Path) : Above [] q ↔ q ≠ [] := by
  constructor
  · rintro ⟨a, r, h⟩ rfl
    simp at h
  · intro h
    cases q with
    | nil => exact (h rfl).elim
    | cons a r => exact ⟨a, r, rfl⟩

theorem above_nil' (q : Path) : ¬ Above q [] := by
  rintro ⟨a, r, h⟩
  simp at h

/-- `r` is the range at the place `p`. -/
structure At (st : Path) (en : Option Path) (p : Path) (r : Rng) : Prop where
  st : st = p ++ r.st ∨ (r.st = [] ∧ ∀ q, ¬ Left (p ++ q) st)
  en : match r.en with
    | some e => en = some (p ++ e)
    | none => ∀ e, en = some e → ∀ q, ¬ Left e (p ++ q) ∧ ¬ Above e (p ++ q)

/-- The trails lead to nodes. -/
structure Valid (r : Rng) (d : Doc) : Prop where
  st : ∃ x, get? d r.st = some x
  en : ∀ e, r.en = some e → ∃ x, get? d e = some x

theorem get?_cons {d : Doc} {i : ℕ} {p : Path} {x : Doc} (h : get? d (i :: p) = some x) :
    ∃ k, d.kids[i]? = some k ∧ get? k p = some x := by
  rw [get?] at h
  split at h
  · rename_i k hk
    exact ⟨k, hk, h⟩
  · cases h

theorem get?_one {d k : Doc} {i : ℕ} (h : d.kids[i]? = some k) (p : Path) : get? d (i :: p) = get? k p := by
  rw [get?, h]

theorem child_st (j : ℕ) (s : Path) (en : Option Path) (len i : ℕ) : ((⟨j :: s, en⟩ : Rng).child len i).st = if i = j then s else [] := rfl

theorem child_st_nil (en : Option Path) (len i : ℕ) : ((⟨[], en⟩ : Rng).child len i).st = [] := ite_self _

theorem child_en (s : Path) (j : ℕ) (e : Path) (len i : ℕ) : ((⟨s, some (j :: e)⟩ : Rng).child len i).en = if i = j then some e else none := by
  simp only [Rng.child, Rng.stop]
  by_cases h : i = j
  · subst h
    simp
  · simp [h]

theorem child_en_nil (s : Path) (len i : ℕ) : ((⟨s, some []⟩ : Rng).child len i).en = none := by
  show (if (i : ℤ) = (⟨s, some []⟩ : Rng).stop len then some [] else none) = none
  rw [if_neg]
  show ¬ ((i : ℤ) = -1)
  omega

theorem valid_child {r : Rng} {d k : Doc} {i : ℕ} (h : Valid r d) (hk : d.kids[i]? = some k) : Valid (r.child d.kids.length i) k := by
  obtain ⟨st, en⟩ := r
  obtain ⟨⟨x, hx⟩, h2⟩ := h
  constructor
  · cases st with
    | nil => exact ⟨k, by rw [child_st_nil, get?]⟩
    | cons j s =>
      rw [child_st]
      split
      · rename_i e
        subst e
        simp only at hx
        rw [get?_one hk] at hx
        exact ⟨x, hx⟩
      · exact ⟨k, by rw [get?]⟩
  · intro e he
    cases en with
    | none => cases he
    | some f =>
      obtain ⟨y, hy⟩ := h2 f rfl
      cases f with
      | nil =>
        rw [child_en_nil] at he
        cases he
      | cons j f =>
        rw [child_en] at he
        split at he
        · rename_i hj
          cases he
          subst hj
          rw [get?_one hk] at hy
          exact ⟨y, hy⟩
        · cases he

theorem touched_child {st : Path} {en : Option Path} {p : Path} {r : Rng} (h : At st en p r) (len i : ℕ) (hi : i < len) :
    Touched st en (p ++ [i]) ↔ r.start ≤ i ∧ (i : ℤ) ≤ r.stop len := by
  obtain ⟨rs, re⟩ := r
  obtain ⟨h1, h2⟩ := h
  rw [Touched]
  refine and_congr ?_ ?_
  · simp only [Rng.start]
    rcases h1 with h1 | ⟨h1, h1'⟩
    · rw [h1, left_append]
      cases rs with
      | nil => simp [left_nil']
      | cons j s => simp [left_cons, left_nil]
    · simp only at h1
      subst h1
      simpa using h1' [i]
  · simp only [Rng.stop]
    cases re with
    | none =>
      simp only at h2 ⊢
      exact ⟨fun _ => by omega, fun _ e he => h2 e he [i]⟩
    | some e =>
      simp only at h2 ⊢
      subst h2
      simp only [Option.some.injEq, forall_eq', left_append, above_append]
      cases e with
      | nil =>
        simp only [above_nil]
        constructor
        · intro h
          simp at h
        · intro h
          omega
      | cons j e => simp [left_cons, above_cons, left_nil', above_nil']

theorem at_child {st : Path} {en : Option Path} {p : Path} {r : Rng} (h : At st en p r) (len i : ℕ) (h3 : r.start ≤ i)
    (h4 : (i : ℤ) ≤ r.stop len) : At st en (p ++ [i]) (r.child len i) := by
  obtain ⟨rs, re⟩ := r
  obtain ⟨h1, h2⟩ := h
  simp only [Rng.start] at h1 h3
  constructor
  · rcases h1 with h1 | ⟨h1, h1'⟩
    · cases rs with
      | nil =>
        refine .inr ⟨child_st_nil _ _ _, fun q => ?_⟩
        rw [h1, List.append_assoc, left_append]
        exact left_nil' _
      | cons j s =>
        simp only [List.head?_cons, Option.getD_some] at h3
        rw [child_st]
        by_cases e : i = j
        · subst e
          exact .inl (by simp [h1])
        · refine .inr ⟨by simp [e], fun q => ?_⟩
          rw [h1, List.append_assoc, left_append]
          simp only [List.singleton_append, left_cons, not_or, not_and]
          omega
    · subst h1
      exact .inr ⟨child_st_nil _ _ _, fun q => by rw [List.append_assoc]; exact h1' _⟩
  · cases re with
    | none =>
      simp only at h2
      show ∀ e, en = some e → _
      intro e he q
      rw [List.append_assoc]
      exact h2 e he _
    | some e =>
      simp only at h2
      subst h2
      cases e with
      | nil => simp only [Rng.stop] at h4; omega
      | cons j e =>
        simp only [Rng.stop] at h4
        rw [child_en]
        by_cases hj : i = j
        · subst hj
          simp
        · simp only [hj, if_false]
          intro e' he' q
          cases he'
          rw [List.append_assoc, left_append, above_append]
          simp only [List.singleton_append, left_cons, above_cons, not_or, not_and]
          omega

/-! ## Completely in the range -/

theorem start_whole : ∀ (s : Path) (d : Doc), (∃ x, get? d s = some x) →
    ((s.all (· == 0) = true) ↔ ∀ q x, get? d q = some x → ¬ Left q s)
  | [], d, _ => by simp [left_nil']
  | j :: s, d, ⟨x, hx⟩ => by
    obtain ⟨k, hk, hx⟩ := get?_cons hx
    have ih := start_whole s k ⟨x, hx⟩
    simp only [List.all_cons, Bool.and_eq_true, beq_iff_eq, ih]
    constructor
    · rintro ⟨rfl, h⟩ q y hy
      cases q with
      | nil => exact left_nil _
      | cons i q =>
        obtain ⟨k', hk', hy⟩ := get?_cons hy
        rw [left_cons]
        rintro (hl | ⟨rfl, hl⟩)
        · omega
        · rw [hk] at hk'
          cases hk'
          exact h q y hy hl
    · intro h
      have hj : j = 0 := by
        by_contra hj
        obtain ⟨hl, -⟩ := List.getElem?_eq_some_iff.1 hk
        have h0 : 0 < d.kids.length := by omega
        refine h [0] d.kids[0] (by rw [get?_one (List.getElem?_eq_getElem h0), get?]) ?_
        rw [left_cons]
        exact .inl (by omega)
      subst hj
      exact ⟨rfl, fun q y hy hl => h (0 :: q) y (by rw [get?_one hk]; exact hy) (by rw [left_cons]; exact .inr ⟨rfl, hl⟩)⟩

theorem end_whole : ∀ (e : Path) (d : Doc), (∃ x, get? d e = some x) →
    (endLoop d e = true ↔ ∀ q x, get? d q = some x → ¬ Left e q ∧ ¬ Above e q)
  | [], d, _ => by
    rw [endLoop, List.isEmpty_iff]
    constructor
    · intro h q x hx
      cases q with
      | nil => exact ⟨left_nil _, above_nil' _⟩
      | cons i q =>
        obtain ⟨k, hk, -⟩ := get?_cons hx
        simp [h] at hk
    · intro h
      cases hk : d.kids with
      | nil => rfl
      | cons k ks =>
        have h0 : d.kids[0]? = some k := by simp [hk]
        exact ((h [0] k (by rw [get?_one h0, get?])).2 ((above_nil _).2 (by simp))).elim
  | i :: e, d, ⟨x, hx⟩ => by
    obtain ⟨k, hk, hx⟩ := get?_cons hx
    have ih := end_whole e k ⟨x, hx⟩
    obtain ⟨hl, -⟩ := List.getElem?_eq_some_iff.1 hk
    rw [endLoop]
    by_cases h1 : (i : ℤ) < (d.kids.length : ℤ) - 1
    · simp only [h1, if_true, Bool.false_eq_true, false_iff]
      intro h
      have h2 : i + 1 < d.kids.length := by omega
      exact (h [i + 1] _ (by rw [get?_one (List.getElem?_eq_getElem h2), get?])).1 (by rw [left_cons]; exact .inl (by omega))
    · simp only [h1, if_false, hk, ih]
      constructor
      · intro h q y hy
        cases q with
        | nil => exact ⟨left_nil' _, above_nil' _⟩
        | cons j q =>
          obtain ⟨k', hk', hy⟩ := get?_cons hy
          obtain ⟨hl', -⟩ := List.getElem?_eq_some_iff.1 hk'
          rw [left_cons, above_cons]
          constructor
          · rintro (hj | ⟨rfl, hj⟩)
            · omega
            · rw [hk] at hk'
              cases hk'
              exact (h q y hy).1 hj
          · rintro ⟨rfl, hj⟩
            rw [hk] at hk'
            cases hk'
            exact (h q y hy).2 hj
      · intro h q y hy
        have := h (i :: q) y (by rw [get?_one hk]; exact hy)
        rw [left_cons, above_cons] at this
        exact ⟨fun hl => this.1 (.inr ⟨rfl, hl⟩), fun ha => this.2 ⟨rfl, ha⟩⟩

theorem whole_iff {st : Path} {en : Option Path} {p : Path} {r : Rng} {d : Doc} (h : At st en p r) (hv : Valid r d) :
    r.whole d = true ↔ Complete st en p d := by
  obtain ⟨rs, re⟩ := r
  obtain ⟨h1, h2⟩ := h
  obtain ⟨v1, v2⟩ := hv
  simp only at h1 h2 v1 v2
  have e1 : rs.all (· == 0) = true ↔ ∀ q x, get? d q = some x → ¬ Left (p ++ q) st := by
    rcases h1 with h1 | ⟨h1, h1'⟩
    · rw [start_whole rs d v1, h1]
      simp only [left_append]
    · subst h1
      exact ⟨fun _ q x _ => h1' q, fun _ => rfl⟩
  have e2 : endIn d re = true ↔ ∀ q x, get? d q = some x → ∀ e, en = some e → ¬ Left e (p ++ q) ∧ ¬ Above e (p ++ q) := by
    cases re with
    | none => exact ⟨fun _ q x _ e he => h2 e he q, fun _ => rfl⟩
    | some e =>
      simp only at h2
      rw [endIn, end_whole e d (v2 e rfl), h2]
      simp only [Option.some.injEq, forall_eq', left_append, above_append]
  rw [Rng.whole, Bool.and_eq_true, e1, e2, Complete]
  simp only [Touched]
  exact ⟨fun h q x hx => ⟨h.1 q x hx, h.2 q x hx⟩, fun h => ⟨fun q x hx => (h q x hx).1, fun q x hx => (h q x hx).2⟩⟩

theorem inRange_eq (r : Rng) (len i : ℕ) (d : Doc) : r.inRange len i d = (r.child len i).whole d := by
  rw [Rng.inRange]
  by_cases h : (r.start : ℤ) < i ∧ (i : ℤ) < r.stop len
  · obtain ⟨h1, h2⟩ := h
    have e1 : (r.child len i).st = [] := by
      rw [Rng.child]
      simp only
      rw [if_neg (by omega)]
    have e2 : (r.child len i).en = none := by
      rw [Rng.child]
      cases h : r.en with
      | none => rfl
      | some e =>
        simp only
        rw [if_neg (by omega)]
    simp [h1, h2, Rng.whole, e1, e2, endIn]
  · simp only [h, decide_false, Bool.false_or]

end Quickly.Abs2rel
