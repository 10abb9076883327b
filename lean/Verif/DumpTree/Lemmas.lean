import Verif.DumpTree.Spec
import Verif.Node.Lemmas2

/-!
# Lemmas about `dump`
-/

namespace Quickly.DumpTree

open Quickly.Node Quickly.Node.Spec Quickly.DumpTree.Spec

variable {α β : Type}

/-! ## The columns -/

theorem isLast_iff (t : Tree α) (q : Path) (i : ℕ) : isLast t (q ++ [i]) = true ↔ Last t (q ++ [i]) := by
  unfold isLast Last
  simp only [List.getLast?_append, List.getLast?_singleton, Option.some_or, List.dropLast_concat]
  constructor
  · intro h
    cases h' : t.get? q with
    | none => simp [h'] at h
    | some u =>
      simp only [h', decide_eq_true_eq] at h
      exact ⟨q, i, u, rfl, h', h.symm⟩
  · rintro ⟨q', i', u, h, hu, hl⟩
    obtain ⟨rfl, h2⟩ := List.append_inj' h rfl
    obtain rfl : i = i' := by simpa using h2
    simp [hu, hl]

theorem prefixLoop_append (t : Tree α) (d : Style) (k i : ℕ) (p : Path) (pre : List Str) :
    prefixLoop t d k i p pre = pre ++ prefixLoop t d k i p [] := by
  induction k generalizing i p pre with
  | zero => simp [prefixLoop]
  | succ k ih =>
    simp only [prefixLoop]
    rw [ih, ih (pre := [] ++ _)]
    simp

theorem prefixLoop_succ (t : Tree α) (d : Style) (k i : ℕ) (p : Path) :
    (prefixLoop t d (k + 1) i p []).reverse =
      (prefixLoop t d k 0 p.dropLast []).reverse ++ [d.get (i + if isLast t p then 1 else 0)] := by
  simp only [prefixLoop]
  rw [prefixLoop_append]
  simp

open Classical in
theorem loop_bars (t : Tree α) (d : Style) (b r : Path) :
    (prefixLoop t d r.length 0 (b ++ r) []).reverse =
      (List.range r.length).map fun k => if Last t (b ++ r.take (k + 1)) then d.2.1 else d.1 := by
  induction r using List.reverseRecOn with
  | nil => simp [prefixLoop]
  | append_singleton r j ih =>
    rw [List.length_append, List.length_singleton, prefixLoop_succ, ← List.append_assoc, List.dropLast_concat, ih,
      List.range_succ, List.map_append]
    congr 1
    · apply List.map_congr_left
      intro k hk
      have hk := List.mem_range.1 hk
      rw [List.take_append_of_le_length (by omega)]
    · have h := isLast_iff t (b ++ r) j
      have h2 : (r ++ [j]).take (r.length + 1) = r ++ [j] := List.take_of_length_le (by simp)
      simp only [List.map_cons, List.map_nil, h2]
      rw [← List.append_assoc]
      by_cases hl : Last t (b ++ r ++ [j])
      · rw [h.2 hl, if_pos hl]
        rfl
      · have : isLast t (b ++ r ++ [j]) = false := by
          rw [← Bool.not_eq_true, h]; exact hl
        rw [this, if_neg hl]
        rfl

open Classical in
theorem loop_columns (t : Tree α) (d : Style) (b r : Path) :
    (prefixLoop t d r.length 2 (b ++ r) []).reverse = columns t d.1 d.2.1 d.2.2.1 d.2.2.2 b r := by
  unfold columns
  rcases List.eq_nil_or_concat r with rfl | ⟨r, j, rfl⟩
  · simp [prefixLoop]
  · rw [List.concat_eq_append, List.length_append, List.length_singleton, prefixLoop_succ, ← List.append_assoc,
      List.dropLast_concat, loop_bars, List.range_succ, List.map_append]
    congr 1
    · apply List.map_congr_left
      intro k hk
      have hk := List.mem_range.1 hk
      rw [if_neg (show ¬ k + 1 = r.length + 1 by omega), List.take_append_of_le_length (by omega)]
    · have h := isLast_iff t (b ++ r) j
      simp only [List.map_cons, List.map_nil, if_true]
      by_cases hl : Last t (b ++ r ++ [j])
      · rw [h.2 hl, if_pos hl]
        rfl
      · have : isLast t (b ++ r ++ [j]) = false := by
          rw [← Bool.not_eq_true, h]; exact hl
        rw [this, if_neg hl]
        rfl

/-! ## The nodes in document order -/

/-- The node and all that is below it, in document order. -/
def pre : Path → Tree α → List (Item α)
  | p, .node v cs => (p, .node v cs) :: kids p 0 cs
where
  /-- The children from an index. -/
  kids (p : Path) : ℕ → List (Tree α) → List (Item α)
    | _, [] => []
    | i, c :: cs => pre (p ++ [i]) c ++ kids p (i + 1) cs

mutual
theorem dump_eq (t : Tree α) (d : Style) (repr : Tree α → Str) (b : ℕ) : (n : Tree α) → (p : Path) → b ≤ p.length →
    dump t d repr p (p.length - b) n = (pre p n).map fun m => line t d repr m.1 (m.1.length - b) m.2
  | .node v cs, p, h => by
    simp only [dump, pre, List.map_cons]
    rw [dump_kids_eq t d repr b cs p 0 h]
theorem dump_kids_eq (t : Tree α) (d : Style) (repr : Tree α → Str) (b : ℕ) : (cs : List (Tree α)) → (p : Path) → (i : ℕ) →
    b ≤ p.length →
    dump.kids t d repr p (p.length - b) i cs =
      (pre.kids p i cs).map fun m => line t d repr m.1 (m.1.length - b) m.2
  | [], _, _, _ => by simp [dump.kids, pre.kids]
  | c :: cs, p, i, h => by
    simp only [dump.kids, pre.kids, List.map_append]
    rw [dump_kids_eq t d repr b cs p (i + 1) h, ← dump_eq t d repr b c (p ++ [i]) (by simp; omega)]
    congr 2
    simp; omega
end

theorem mem_pre_kids_of (p : Path) (i : ℕ) (cs : List (Tree α)) (m : Item α) :
    m ∈ pre.kids p i cs ↔ ∃ k c, cs[k]? = some c ∧ m ∈ pre (p ++ [i + k]) c := by
  induction cs generalizing i with
  | nil => simp [pre.kids]
  | cons c cs ih =>
    simp only [pre.kids, List.mem_append, ih]
    constructor
    · rintro (h | ⟨k, c', hk, h⟩)
      · exact ⟨0, c, rfl, h⟩
      · exact ⟨k + 1, c', by simpa using hk, by rwa [show i + (k + 1) = i + 1 + k by omega]⟩
    · rintro ⟨_ | k, c', hk, h⟩
      · obtain rfl : c = c' := by simpa using hk
        exact Or.inl h
      · exact Or.inr ⟨k, c', by simpa using hk, by rwa [show i + 1 + k = i + (k + 1) by omega]⟩

theorem mem_pre_prefix {p : Path} {n : Tree α} {x : Item α} (h : x ∈ pre p n) : ∃ r, x.1 = p ++ r := by
  revert p x
  have key : ∀ (n : Tree α) (p : Path) (x : Item α), x ∈ pre p n → ∃ r, x.1 = p ++ r := by
    intro n
    refine Tree.rec (motive_1 := fun n => ∀ p x, x ∈ pre p n → ∃ r, x.1 = p ++ r)
      (motive_2 := fun cs => ∀ p i x, x ∈ pre.kids p i cs → ∃ r, x.1 = p ++ r) ?_ ?_ ?_ n
    · intro v cs ih p x hx
      simp only [pre, List.mem_cons] at hx
      rcases hx with rfl | hx
      · exact ⟨[], by simp⟩
      · exact ih p 0 x hx
    · intro p i x hx
      simp [pre.kids] at hx
    · intro c cs ih1 ih2 p i x hx
      simp only [pre.kids, List.mem_append] at hx
      rcases hx with hx | hx
      · obtain ⟨r, hr⟩ := ih1 _ x hx
        exact ⟨[i] ++ r, by simpa using hr⟩
      · exact ih2 p _ x hx
  intro p x h
  exact key n p x h

theorem mem_pre (r : Path) (p : Path) (n : Tree α) (m : Tree α) : (p ++ r, m) ∈ pre p n ↔ n.get? r = some m := by
  revert r p m
  refine Tree.rec (motive_1 := fun n => ∀ r p m, (p ++ r, m) ∈ pre p n ↔ n.get? r = some m)
    (motive_2 := fun cs => ∀ c ∈ cs, ∀ r p m, (p ++ r, m) ∈ pre p c ↔ c.get? r = some m) ?_ ?_ ?_ n
  · intro v cs ih r p m
    simp only [pre, List.mem_cons, mem_pre_kids_of]
    cases r with
    | nil =>
      simp only [List.append_nil, Tree.get?, Prod.mk.injEq, true_and, Option.some.injEq]
      constructor
      · rintro (h | ⟨k, c, _, h⟩)
        · exact h.symm
        · obtain ⟨s, hs⟩ := mem_pre_prefix h
          have := congrArg List.length hs
          simp at this
      · intro h
        exact Or.inl h.symm
    | cons j r =>
      simp only [Tree.get?, Tree.children, Prod.mk.injEq]
      constructor
      · rintro (⟨h, _⟩ | ⟨k, c, hk, h⟩)
        · have := congrArg List.length h
          simp at this
        · obtain ⟨s, hs⟩ := mem_pre_prefix h
          have hs' : p ++ (j :: r) = p ++ ((0 + k) :: s) := by simpa using hs
          have hs' := List.append_cancel_left hs'
          simp only [List.cons.injEq, Nat.zero_add] at hs'
          obtain ⟨rfl, rfl⟩ := hs'
          rw [hk]
          refine (ih c (List.mem_of_getElem? hk) r (p ++ [j]) m).1 ?_
          simpa using h
      · intro h
        cases hj : cs[j]? with
        | none => simp [hj] at h
        | some c =>
          rw [hj] at h
          refine Or.inr ⟨j, c, hj, ?_⟩
          have := (ih c (List.mem_of_getElem? hj) r (p ++ [j]) m).2 h
          simpa using this
  · intro c hc
    cases hc
  · intro c cs ih1 ih2 x hx
    rcases List.mem_cons.1 hx with rfl | hx
    · exact ih1
    · exact ih2 x hx

theorem pre_pairwise (n : Tree α) (p : Path) : (pre p n).Pairwise (fun a b => DocBefore a.1 b.1) := by
  refine Tree.rec (motive_1 := fun n => ∀ p, (pre p n).Pairwise (fun a b => DocBefore a.1 b.1))
    (motive_2 := fun cs => ∀ p i, (pre.kids p i cs).Pairwise (fun a b => DocBefore a.1 b.1)) ?_ ?_ ?_ n p
  · intro v cs ih p
    simp only [pre, List.pairwise_cons]
    refine ⟨fun x hx => ?_, ih p 0⟩
    rw [mem_pre_kids_of] at hx
    obtain ⟨k, c, _, hx⟩ := hx
    obtain ⟨r, hr⟩ := mem_pre_prefix hx
    exact Or.inl ⟨0 + k, r, by simpa using hr⟩
  · intro p i
    simp [pre.kids]
  · intro c cs ih1 ih2 p i
    simp only [pre.kids, List.pairwise_append]
    refine ⟨ih1 _, ih2 p _, fun a ha b hb => ?_⟩
    obtain ⟨r, hr⟩ := mem_pre_prefix ha
    rw [mem_pre_kids_of] at hb
    obtain ⟨k, c', _, hb⟩ := hb
    obtain ⟨s, hs⟩ := mem_pre_prefix hb
    exact Or.inr ⟨p, i, i + 1 + k, r, s, by simpa using hr, by simpa using hs, by omega⟩

theorem pre_lists {t : Tree α} {p : Path} {n : Tree α} (h : t.get? p = some n) :
    Lists false (fun m => NodeOf t m ∧ AboveOrSelf p m.1) (pre p n) := by
  refine ⟨by simpa [Order] using pre_pairwise n p, fun m => ?_⟩
  constructor
  · intro hm
    obtain ⟨r, hr⟩ := mem_pre_prefix hm
    obtain ⟨q, u⟩ := m
    simp only at hr
    subst hr
    rw [mem_pre] at hm
    exact ⟨by simp [NodeOf, get?_append, h, hm], r, rfl⟩
  · rintro ⟨h1, r, hr⟩
    obtain ⟨q, u⟩ := m
    simp only at hr
    subst hr
    rw [mem_pre]
    simpa [NodeOf, get?_append, h] using h1

end Quickly.DumpTree
