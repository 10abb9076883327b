import Verif.Range.Props

/-!
# The truth value of a range
-/

namespace Quickly.NodeRange

open Quickly.Node Quickly.Node.Spec Quickly.NodeRange.Spec

variable {α : Type}

theorem docBefore_head {i j : ℕ} {p q : Path} (h : NotBefore (j :: q) (i :: p)) : i ≤ j := by
  rcases h with h | ⟨k, r, h⟩ | ⟨c, a, b, x, y, h1, h2, hab⟩
  · simp only [List.cons.injEq] at h; omega
  · simp only [List.cons_append, List.cons.injEq] at h; omega
  · cases c with
    | nil => simp only [List.nil_append, List.cons.injEq] at h1 h2; omega
    | cons z c => simp only [List.cons_append, List.cons.injEq] at h1 h2; omega

theorem not_notBefore_nil {p : Path} (hp : p ≠ []) : ¬ NotBefore [] p := by
  rintro (h | ⟨k, r, h⟩ | ⟨c, a, b, x, y, h1, h2, hab⟩)
  · exact hp h.symm
  · simp at h
  · simp at h2

/-- C33: a range is true exactly if there is a node in it besides the ancestor, so if `nodes()` yields a node. -/
theorem C33_truth (t : Tree α) (st en : Option Path) (hp : Proper t st en) :
    (make t st en).bool = true ↔ ∃ m : Item α, NodeOf t m ∧ m.1 ≠ [] ∧ Within st en m.1 := by
  have eq : (make t st en).bool = decide ((startIndex st 0 : ℤ) ≤ stopIndex en 0 t.children.length) := rfl
  rw [eq, decide_eq_true_iff]
  clear eq
  obtain ⟨h1, h2, h3⟩ := hp
  have kid : ∀ {p n}, t.get? p = some n → p ≠ [] → 0 < t.children.length := by
    intro p n h hne
    cases p with
    | nil => exact absurd rfl hne
    | cons i p =>
      cases t with
      | node v cs =>
        cases cs with
        | nil => simp [Tree.get?, Tree.children] at h
        | cons c cs => simp [Tree.children]
  have first : 0 < t.children.length → ∃ n, t.get? [0] = some n := by
    intro h
    cases t with
    | node v cs =>
      cases cs with
      | nil => simp [Tree.children] at h
      | cons c cs => exact ⟨c, rfl⟩
  match st, en, h1, h2, h3 with
  | some (i :: s), en, h1, h2, h3 =>
    obtain ⟨n, hn⟩ := h1 _ rfl
    refine ⟨fun _ => ⟨(i :: s, n), hn, by simp, ?_, ?_⟩, fun _ => ?_⟩
    · rintro s' ⟨⟩; exact .inl rfl
    · intro e' he; exact h3 _ _ rfl he
    · cases en with
      | none =>
        have hi : i < t.children.length := by
          by_contra hc
          cases t with
          | node v cs =>
            have : cs[i]? = none := List.getElem?_eq_none (by simpa [Tree.children] using hc)
            simp [Tree.get?, Tree.children, this] at hn
        simp only [startIndex, truthy, stopIndex, List.getElem?_cons_zero, Option.getD_some]
        omega
      | some ep =>
        cases ep with
        | nil => exact absurd (h3 _ _ rfl rfl) (not_notBefore_nil (by simp))
        | cons j ep =>
          have := docBefore_head (h3 _ _ rfl rfl)
          simp only [startIndex, truthy, stopIndex, trailIndex, List.getElem?_cons_zero, Option.getD_some]
          omega
  | none, none, h1, h2, h3 =>
    simp only [startIndex, truthy, stopIndex]
    refine ⟨fun h => ?_, fun ⟨m, hm, hne, _⟩ => ?_⟩
    · obtain ⟨n, hn⟩ := first (by omega)
      exact ⟨([0], n), hn, by simp, by simp, by simp⟩
    · have := kid hm hne; omega
  | some [], none, h1, h2, h3 =>
    simp only [startIndex, truthy, stopIndex]
    refine ⟨fun h => ?_, fun ⟨m, hm, hne, _⟩ => ?_⟩
    · obtain ⟨n, hn⟩ := first (by omega)
      exact ⟨([0], n), hn, by simp, by rintro _ ⟨⟩; exact notBefore_nil _, by simp⟩
    · have := kid hm hne; omega
  | none, some [], h1, h2, h3 =>
    simp only [startIndex, truthy, stopIndex, trailIndex]
    refine ⟨fun h => by simp at h, fun ⟨m, hm, hne, hw⟩ => ?_⟩
    exact absurd (hw.2 _ rfl) (not_notBefore_nil hne)
  | some [], some [], h1, h2, h3 =>
    simp only [startIndex, truthy, stopIndex, trailIndex]
    refine ⟨fun h => by simp at h, fun ⟨m, hm, hne, hw⟩ => ?_⟩
    exact absurd (hw.2 _ rfl) (not_notBefore_nil hne)
  | none, some (j :: e), h1, h2, h3 =>
    obtain ⟨n, hn⟩ := h2 _ rfl
    refine ⟨fun _ => ⟨(j :: e, n), hn, by simp, by simp, by rintro _ ⟨⟩; exact .inl rfl⟩, fun _ => ?_⟩
    simp only [startIndex, truthy, stopIndex, trailIndex, List.getElem?_cons_zero]
    omega
  | some [], some (j :: e), h1, h2, h3 =>
    obtain ⟨n, hn⟩ := h2 _ rfl
    refine ⟨fun _ => ⟨(j :: e, n), hn, by simp, by rintro _ ⟨⟩; exact notBefore_nil _, by rintro _ ⟨⟩; exact .inl rfl⟩,
      fun _ => ?_⟩
    simp only [startIndex, truthy, stopIndex, trailIndex, List.getElem?_cons_zero]
    omega

/-- A range of one node is true, one that ends at its ancestor is not. -/
example : Proper exTree (some [1]) (some [1]) ∧ (make exTree (some [1]) (some [1])).bool = true ∧
    Proper exTree none (some []) ∧ (make exTree none (some [])).bool = false := by
  refine ⟨⟨?_, ?_, ?_⟩, by decide, ⟨?_, ?_, ?_⟩, by decide⟩
  · rintro s ⟨⟩; exact ⟨_, rfl⟩
  · rintro s ⟨⟩; exact ⟨_, rfl⟩
  · rintro s e ⟨⟩ ⟨⟩; exact .inl rfl
  · rintro s ⟨⟩
  · rintro s ⟨⟩; exact ⟨_, rfl⟩
  · rintro s e ⟨⟩

/-- C33, what the claim is not true for: a range is documented to be false if it is empty, but it is true if the end
is before the start and both are below the same child of the ancestor. -/
theorem C33_empty_range_true :
    ∃ (t : Tree Char) (s e : Path), (∃ n, t.get? s = some n) ∧ (∃ n, t.get? e = some n) ∧ DocBefore e s ∧
      (∀ p, ¬ Within (some s) (some e) p) ∧ (make t (some s) (some e)).bool = true := by
  have hb : DocBefore [1, 0] [1, 1] := .inr ⟨[1], 0, 1, [], [], rfl, rfl, by decide⟩
  refine ⟨exTree, [1, 1], [1, 0], ⟨_, rfl⟩, ⟨_, rfl⟩, hb, ?_, by decide⟩
  rintro p ⟨h1, h2⟩
  have := notBefore_trans (h2 _ rfl) (h1 _ rfl)
  rw [notBefore_iff] at this
  exact this hb

end Quickly.NodeRange
