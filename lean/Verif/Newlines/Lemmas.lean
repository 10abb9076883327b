import Verif.Newlines.Model
import Verif.Newlines.Spec
import Mathlib.Order.Basic
import Mathlib.Tactic.Common

/-! # Lemmas -/

namespace Quickly.Newlines

open Quickly.Node Quickly.Text Quickly.Text.Spec Quickly.Wishes Quickly.Newlines.Spec

theorem findIn_some {sep : Str} {cs : Str} {i r : ℕ} (h : findIn sep cs i = some r) :
    i ≤ r ∧ r ≤ i + cs.length ∧ sep.isPrefixOf (cs.drop (r - i)) = true ∧
      ∀ j, j < r - i → sep.isPrefixOf (cs.drop j) = false := by
  induction cs generalizing i with
  | nil =>
    simp only [findIn] at h
    split at h
    · rename_i hs
      simp only [Option.some.injEq] at h
      subst h
      refine ⟨Nat.le_refl _, by simp, by simp [hs], by simp⟩
    · simp at h
  | cons c cs ih =>
    simp only [findIn] at h
    split at h
    · rename_i hs
      simp only [Option.some.injEq] at h
      subst h
      exact ⟨Nat.le_refl _, by simp, by simpa using hs, by simp⟩
    · rename_i hs
      obtain ⟨h1, h2, h3, h4⟩ := ih h
      refine ⟨by omega, by simp only [List.length_cons]; omega, ?_, ?_⟩
      · rw [show r - i = (r - (i + 1)) + 1 by omega, List.drop_succ_cons]; exact h3
      · intro j hj
        cases j with
        | zero => exact Bool.eq_false_iff.mpr hs
        | succ j => rw [List.drop_succ_cons]; exact h4 j (by omega)

theorem findIn_none {sep : Str} {cs : Str} {i : ℕ} (h : findIn sep cs i = none) :
    ∀ j, j < cs.length → sep.isPrefixOf (cs.drop j) = false := by
  induction cs generalizing i with
  | nil => intro j hj; simp at hj
  | cons c cs ih =>
    simp only [findIn] at h
    split at h
    · simp at h
    · rename_i hs
      intro j hj
      cases j with
      | zero => exact Bool.eq_false_iff.mpr hs
      | succ j => rw [List.drop_succ_cons]; exact ih h j (by simpa using hj)

/-- `cur` is the first separator from `k` on, or the end of the text. -/
structure At (text sep : Str) (k cur : ℕ) : Prop where
  le : cur ≤ text.length
  ge : min k text.length ≤ cur
  skip : ∀ i, k ≤ i → i < cur → sepAt text sep i = false
  here : cur < text.length → sepAt text sep cur = true

theorem seek_at (text sep : Str) (k : ℕ) (hk : k ≤ text.length) : At text sep k (seek text sep k) := by
  unfold seek find
  rw [if_pos hk]
  cases hf : findIn sep (text.drop k) k with
  | none =>
    have h := findIn_none hf
    refine ⟨by simp, Nat.min_le_right _ _, ?_, by simp⟩
    intro i h1 h2
    simp only [Option.getD_none] at h2
    have := h (i - k) (by rw [List.length_drop]; omega)
    rw [List.drop_drop, show k + (i - k) = i by omega] at this
    simp [sepAt, this]
  | some r =>
    obtain ⟨h1, h2, h3, h4⟩ := findIn_some hf
    rw [List.length_drop] at h2
    simp only [Option.getD_some]
    refine ⟨by omega, by omega, ?_, ?_⟩
    · intro i k1 k2
      have := h4 (i - k) (by omega)
      rw [List.drop_drop, show k + (i - k) = i by omega] at this
      simp [sepAt, this]
    · intro hr
      rw [List.drop_drop, show k + (r - k) = r by omega] at h3
      simp [sepAt, hr, h3]

theorem blocks_succ (text sep : Str) (k q : ℕ) :
    blocks text sep k (q + 1) = blocks text sep k q + if k ≤ q ∧ sepAt text sep q = true then 1 else 0 := by
  unfold blocks
  rw [List.range_succ, List.filter_append, List.length_append]
  congr 1
  by_cases h : k ≤ q ∧ sepAt text sep q = true
  · rw [if_pos h, List.filter_cons_of_pos (by simp [h.1, h.2])]; rfl
  · rw [if_neg h, List.filter_cons_of_neg (by simpa using h)]; rfl

theorem blocks_none {text sep : Str} {k q : ℕ} (h : ∀ i, k ≤ i → i < q → sepAt text sep i = false) :
    blocks text sep k q = 0 := by
  induction q with
  | zero => rfl
  | succ q ih =>
    rw [blocks_succ, ih fun i h1 h2 => h i h1 (by omega)]
    by_cases hk : k ≤ q
    · simp [h q hk (by omega)]
    · simp [hk]

theorem blocks_first {text sep : Str} {k c q : ℕ} (hkc : k ≤ c) (hcq : c < q)
    (h : ∀ i, k ≤ i → i < c → sepAt text sep i = false) (hc : sepAt text sep c = true) :
    blocks text sep k q = blocks text sep (c + 1) q + 1 := by
  induction q with
  | zero => omega
  | succ q ih =>
    by_cases hq : c = q
    · subst hq
      rw [blocks_succ, blocks_none h, blocks_none (k := c + 1) (q := c + 1) (by intros; omega)]
      simp [hkc, hc]
    · have h1 : c + 1 ≤ q := by omega
      have h2 : k ≤ q := by omega
      rw [blocks_succ, ih (by omega), blocks_succ text sep (c + 1)]
      simp only [h1, h2, true_and]
      omega

theorem sepAt_end {text sep : Str} {i : ℕ} (h : text.length ≤ i) : sepAt text sep i = false := by
  simp [sepAt, Nat.not_lt.mpr h]

theorem countLoop_spec {text sep : Str} {pos : ℕ} (fuel k cur : ℕ) (hf : text.length ≤ cur + fuel) (ha : At text sep k cur) :
    At text sep (max k pos) (countLoop text sep pos fuel cur).1 ∧
      (countLoop text sep pos fuel cur).2 = blocks text sep k pos := by
  have stop : ¬ (pos > cur ∧ cur < text.length) → At text sep (max k pos) cur ∧ 0 = blocks text sep k pos := by
    intro hn
    have h1 := ha.le
    have h2 := ha.ge
    refine ⟨⟨ha.le, by omega, fun i hi hic => ha.skip i (by omega) hic, ha.here⟩, ?_⟩
    rw [blocks_none]
    intro i hi hip
    by_cases hic : i < cur
    · exact ha.skip i hi hic
    · exact sepAt_end (by omega)
  induction fuel generalizing k cur with
  | zero =>
    have h1 := ha.le
    exact stop (by omega)
  | succ fuel ih =>
    rw [countLoop]
    split
    · rename_i hc
      have h2 := ha.ge
      have hk : k ≤ cur := by omega
      have hat := seek_at text sep (cur + 1) (by omega)
      have hge := hat.ge
      obtain ⟨h3, h4⟩ := ih (cur + 1) (seek text sep (cur + 1)) (by omega) hat (by
        intro hn
        have h5 := hat.le
        refine ⟨⟨hat.le, by omega, fun i hi hic => hat.skip i (by omega) hic, hat.here⟩, ?_⟩
        rw [blocks_none]
        intro i hi hip
        by_cases hic : i < seek text sep (cur + 1)
        · exact hat.skip i hi hic
        · exact sepAt_end (by omega))
      refine ⟨?_, ?_⟩
      · rw [show max k pos = max (cur + 1) pos by omega]; exact h3
      · change _ + 1 = _
        rw [h4, blocks_first hk hc.1 ha.skip (ha.here hc.2)]
    · rename_i hn
      exact stop hn

theorem getNewlines_spec {text sep : Str} {m : ℤ} {pos k cur : ℕ} (ha : At text sep k cur) :
    At text sep (max k pos) (getNewlines text sep m pos cur).1 ∧
      (getNewlines text sep m pos cur).2 = List.replicate (min (blocks text sep k pos : ℤ) m).toNat '\n' := by
  have h := countLoop_spec (pos := pos) text.length k cur (by omega) ha
  unfold getNewlines
  refine ⟨h.1, ?_⟩
  change List.replicate (min ((countLoop text sep pos text.length cur).2 : ℤ) m).toNat '\n' = _
  rw [h.2]

theorem better_replicate (n : ℕ) (w : Str) : better (List.replicate n '\n') w = raised n w := by
  unfold better raised key keyLt
  simp only [List.count_replicate_self]
  have h0 : List.count ' ' (List.replicate n '\n') = 0 := by
    rw [List.count_replicate]; rfl
  rw [h0]
  by_cases h : w.count '\n' < n
  · have : n ≠ 0 := by omega
    simp [h, this]
  · simp [h]

/-! ## The whole tree -/

/-- What a piece becomes if `n` newlines are due. -/
structure Became (n : ℕ) (a b : Piece) : Prop where
  text : b.text = a.text
  after : b.after = a.after
  before : b.before = raised n a.before
  pos : Spec.pos b = Spec.pos a

/-- What texts become, from the position `k` to the position `k'`. -/
inductive Set (text sep : Str) (m : ℤ) : ℕ → List Piece → List Piece → ℕ → Prop
  | nil {k} : Set text sep m k [] [] k
  | none {k k' a b as bs} : pos a = Option.none → Became 0 a b → Set text sep m k as bs k' → Set text sep m k (a :: as) (b :: bs) k'
  | some {k k' p a b as bs} : pos a = Option.some p → Became (min (blocks text sep k p : ℤ) m).toNat a b →
      Set text sep m (max k p) as bs k' → Set text sep m k (a :: as) (b :: bs) k'

theorem Set.append {text sep : Str} {m : ℤ} {k k' k'' : ℕ} {as bs cs ds : List Piece} (h : Set text sep m k as bs k')
    (h' : Set text sep m k' cs ds k'') : Set text sep m k (as ++ cs) (bs ++ ds) k'' := by
  induction h with
  | nil => exact h'
  | none h1 h2 _ ih => exact .none h1 h2 (ih h')
  | some h1 h2 _ ih => exact .some h1 h2 (ih h')

theorem raised_zero (w : Str) : raised 0 w = w := by simp [raised]

theorem bind_ok {α β : Type} {x : Py α} {f : α → Py β} {y : β} (h : (x >>= f) = .ok y) : ∃ a, x = .ok a ∧ f a = .ok y := by
  cases x with
  | error e => cases h
  | ok a => exact ⟨a, rfl, h⟩

theorem handleHead_set {text sep : Str} {m : ℤ} {k cur : ℕ} (p : Path) (len : ℕ) (e : Elem) (bt : Str) (ha : At text sep k cur) :
    ∃ k1, At text sep k1 (handleHead text sep m cur e).2 ∧
      Set text sep m k (if e.kind = .plain then [] else [⟨p, false, e, len⟩])
        (if e.kind = .plain then [] else
          [⟨p, false, { e with sp := { e.sp with before := (handleHead text sep m cur e).1, beforeTail := bt } }, len⟩]) k1 := by
  by_cases hk : e.kind = .plain
  · simp only [hk, if_true, handleHead]
    exact ⟨k, ha, .nil⟩
  · simp only [hk, if_false]
    cases ho : e.headOrigin with
    | none =>
      have : handleHead text sep m cur e = (e.sp.before, cur) := by
        unfold handleHead
        cases e.kind <;> simp [ho]
      rw [this]
      exact ⟨k, ha, .none (by simp [pos, ho]) ⟨rfl, rfl, (raised_zero _).symm, by simp [pos, ho]⟩ .nil⟩
    | some pe =>
      obtain ⟨q, q'⟩ := pe
      have : handleHead text sep m cur e = (better (getNewlines text sep m q cur).2 e.sp.before, (getNewlines text sep m q cur).1) := by
        unfold handleHead
        cases hh : e.kind
        · exact absurd hh hk
        · simp [ho]
        · simp [ho]
      rw [this]
      have hg := getNewlines_spec (m := m) (pos := q) ha
      refine ⟨max k q, hg.1, .some (p := q) (by simp [pos, ho]) ⟨rfl, rfl, ?_, by simp [pos, ho]⟩ .nil⟩
      simp only [Piece.before]
      rw [hg.2]; exact better_replicate _ _

theorem handleTail_set {text sep : Str} {m : ℤ} {k cur cur' : ℕ} (p : Path) (len : ℕ) (e : Elem) {bt : Str}
    (ha : At text sep k cur) (h : handleTail text sep m cur e = .ok (bt, cur')) :
    ∃ k', At text sep k' cur' ∧ ∀ b, Set text sep m k (if e.kind = .block then [⟨p, true, e, len⟩] else [])
      (if e.kind = .block then [⟨p, true, { e with sp := { e.sp with before := b, beforeTail := bt } }, len⟩] else []) k' := by
  unfold handleTail at h
  by_cases hk : e.kind = .block
  · rw [hk] at h
    simp only [hk, if_true]
    cases ht : e.tailOrigin with
    | none =>
      cases ho : e.headOrigin with
      | some _ => rw [ho, ht] at h; simp at h
      | none =>
        rw [ho, ht] at h
        simp only [Except.ok.injEq, Prod.mk.injEq] at h
        refine ⟨k, h.2 ▸ ha, fun b => .none (by simp [pos, ht]) ⟨rfl, rfl, ?_, by simp [pos, ht]⟩ .nil⟩
        rw [raised_zero]; exact h.1.symm
    | some pe =>
      obtain ⟨q, q'⟩ := pe
      have hg := getNewlines_spec (m := m) (pos := q) ha
      have h3 : better (getNewlines text sep m q cur).2 e.sp.beforeTail = bt ∧ (getNewlines text sep m q cur).1 = cur' := by
        rw [ht] at h
        cases ho : e.headOrigin <;> rw [ho] at h <;>
          simpa only [Except.ok.injEq, Prod.mk.injEq] using h
      refine ⟨max k q, h3.2 ▸ hg.1, fun b => .some (p := q) (by simp [pos, ht]) ⟨rfl, rfl, ?_, by simp [pos, ht]⟩ .nil⟩
      simp only [Piece.before, if_true]
      rw [← h3.1, hg.2]; exact better_replicate _ _
  · simp only [hk, if_false]
    refine ⟨k, ?_, fun _ => .nil⟩
    cases hh : e.kind <;> simp_all

mutual
theorem handle_set {text sep : Str} {m : ℤ} {k cur cur' : ℕ} (p : Path) (t t' : Node.Tree Elem) (ha : At text sep k cur)
    (h : handle text sep m cur t = .ok (t', cur')) :
    ∃ k', Set text sep m k (pieces p t) (pieces p t') k' ∧ At text sep k' cur' ∧ unspaced t' = unspaced t := by
  cases t with
  | node e cs =>
    rw [handle] at h
    obtain ⟨⟨cs', cur2⟩, h1, h⟩ := bind_ok h
    obtain ⟨⟨bt, cur3⟩, h2, h⟩ := bind_ok h
    simp only [pure, Except.pure, Except.ok.injEq, Prod.mk.injEq] at h
    obtain ⟨rfl, rfl⟩ := h
    obtain ⟨k1, a1, s1⟩ := handleHead_set (m := m) p cs.length e bt ha
    obtain ⟨k2, s2, a2, u2, l2⟩ := kids_set p 0 cs cs' a1 h1
    obtain ⟨k3, a3, s3⟩ := handleTail_set p cs.length e a2 h2
    refine ⟨k3, ?_, a3, ?_⟩
    · rw [pieces, pieces]
      refine Set.append (Set.append ?_ s2) ?_
      · rw [l2]; exact s1
      · rw [l2]; exact s3 _
    · rw [unspaced, unspaced, u2]
      simp only
      have hh : (if e.kind = .plain then (handleHead text sep m cur e).1 else []) = if e.kind = .plain then e.sp.before else [] := by
        split
        · rename_i hk
          simp [handleHead, hk]
        · rfl
      have ht : (if e.kind = .block then [] else bt) = if e.kind = .block then [] else e.sp.beforeTail := by
        split
        · rfl
        · rename_i hk
          unfold handleTail at h2
          cases hk2 : e.kind <;> simp_all
      rw [hh, ht]
theorem kids_set {text sep : Str} {m : ℤ} {k cur cur' : ℕ} (p : Path) (i : ℕ) (cs cs' : List (Node.Tree Elem))
    (ha : At text sep k cur) (h : handle.kids text sep m cur cs = .ok (cs', cur')) :
    ∃ k', Set text sep m k (pieces.go p i cs) (pieces.go p i cs') k' ∧ At text sep k' cur' ∧ unspacedL cs' = unspacedL cs ∧
      cs'.length = cs.length := by
  cases cs with
  | nil =>
    simp only [handle.kids, pure, Except.pure, Except.ok.injEq, Prod.mk.injEq] at h
    obtain ⟨rfl, rfl⟩ := h
    exact ⟨k, .nil, ha, rfl, rfl⟩
  | cons c cs =>
    rw [handle.kids] at h
    obtain ⟨⟨c', cur1⟩, h1, h⟩ := bind_ok h
    obtain ⟨⟨cs'', cur2⟩, h2, h⟩ := bind_ok h
    simp only [pure, Except.pure, Except.ok.injEq, Prod.mk.injEq] at h
    obtain ⟨rfl, rfl⟩ := h
    obtain ⟨k1, s1, a1, u1⟩ := handle_set (p ++ [i]) c c' ha h1
    obtain ⟨k2, s2, a2, u2, l2⟩ := kids_set p (i + 1) cs cs'' a1 h2
    exact ⟨k2, Set.append s1 s2, a2, by rw [unspacedL, unspacedL, u1, u2], by simp [l2]⟩
end

end Quickly.Newlines
