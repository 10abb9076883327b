import Verif.Transpose.Lemmas

/-!
# Properties C21-C23: transposing pitches
-/

namespace Quickly.Transpose

open Spec Quickly.Pitch Quickly.Key

/-! ## C22 -/

/-- C22: `transpose` terminates for every transposer that has a scale and every
pitch: from some number of rounds on the result is there and stays the same. -/
theorem C22_terminates (t : Transposer) (scale : List ℚ) (ht : t.scale = some scale) (p : Pitch) :
    ∃ N q, ∀ fuel ≥ N, t.transpose fuel p = some (.ok q) := by
  obtain ⟨N, q, h⟩ := respell_finishes scale (plain scale t p) (plain_valid _ _ _)
  exact ⟨N, q, fun n hn => by simp only [Transposer.transpose, ht, h n hn]⟩

/-- C22: so the result is unique. -/
theorem C22_deterministic (t : Transposer) (p q r : Pitch) (hq : Yields t p q) (hr : Yields t p r) : q = r := by
  obtain ⟨n, hn⟩ := hq
  obtain ⟨m, hm⟩ := hr
  cases hs : t.scale with
  | none => simp only [Transposer.transpose, hs] at hn; cases hn
  | some scale =>
    obtain ⟨N, x, hx⟩ := C22_terminates t scale hs p
    have mono : ∀ k y, t.transpose k p = some (.ok y) → y = x := by
      intro k y hy
      have h1 := hx (max N k) (le_max_left _ _)
      simp only [Transposer.transpose, hs] at hy h1
      split at hy
      · exact absurd hy (by simp)
      · rename_i z hz
        cases hy
        have : respell scale (max N k) (plain scale t p) = some y := by
          unfold respell at hz ⊢
          split at hz
          · exact absurd hz (by simp)
          · rename_i w hw
            rw [loop_mono _ _ k _ (le_max_right _ _) _ _ hw]
            exact loop_mono _ _ k _ (le_max_right _ _) _ _ hz
        rw [this] at h1
        simp only [Option.some.injEq, Except.ok.injEq] at h1
        exact h1
    rw [mono n q hn, mono m r hm]

/-- C22: the result has a note in 0..6 and, when no step of the scale is wider
than two whole tones, an alteration in -1..1. -/
theorem C22_bounds (t : Transposer) (scale : List ℚ) (ht : t.scale = some scale) (hs : Narrow scale)
    (p q : Pitch) (h : Yields t p q) : 0 ≤ q.note ∧ q.note ≤ 6 ∧ -1 ≤ q.alter ∧ q.alter ≤ 1 := by
  obtain ⟨n, hn⟩ := h
  simp only [Transposer.transpose, ht] at hn
  split at hn
  · exact absurd hn (by simp)
  · rename_i r hr
    simp only [Option.some.injEq, Except.ok.injEq] at hn
    subst hn
    obtain ⟨⟨v0, v1⟩, _⟩ := respell_spec scale n _ _ (plain_valid _ _ _) hr
    obtain ⟨b0, b1⟩ := respell_bound scale hs n _ _ (plain_valid _ _ _) hr
    exact ⟨v0, by omega, b0, b1⟩

/-- C22: the major scale has no such wide step. -/
theorem C22_major_scale : Narrow majorScale := by
  intro n h0 h1
  interval_cases n <;> decide +kernel

/-- C22: a pitch is respelled only when the plain spelling, which moves the
same number of staff positions for every pitch, has an alteration outside -1..1. -/
theorem C22_respell_only_when_needed (t : Transposer) (scale : List ℚ) (ht : t.scale = some scale)
    (p q : Pitch) (h : Yields t p q) (r : Pitch) (hv : Valid r) (hs : staff r = staff p + moves t)
    (hh : height scale r = height scale p + interval t) (h1 : -1 ≤ r.alter) (h2 : r.alter ≤ 1) : q = r := by
  have e : plain scale t p = r :=
    pitch_ext scale _ _ (plain_valid _ _ _) hv (by rw [plain_staff, hs]) (by rw [plain_height, hh])
  obtain ⟨n, hn⟩ := h
  simp only [Transposer.transpose, ht, e, respell_skip scale n r h1 h2, Option.some.injEq,
    Except.ok.injEq] at hn
  exact hn.symm

/-- C22: with a scale that has a wider step the alteration can end outside
-1..1. -/
theorem C22_wide_scale_exceeds :
    ∃ scale t p q, t.scale = some scale ∧ Yields t p q ∧ 1 < q.alter :=
  ⟨[0, 1/10, 2/10, 3/10, 4/10, 5/10, 6/10], ⟨some [0, 1/10, 2/10, 3/10, 4/10, 5/10, 6/10], 0, 0, 2⟩, ⟨0, 6, -1/2⟩, ⟨0, 6, 3/2⟩,
    rfl, ⟨20, by decide +kernel⟩, by norm_num⟩

/-! ## C21 -/

/-- C21: transposing changes the sounding height of every pitch by the same
amount: the interval between the two pitches the transposer was made from. -/
theorem C21_same_interval (a b : Pitch) (scale : List ℚ) (p q : Pitch)
    (h : Yields (Transposer.make a b scale) p q) :
    height scale q - height scale p = height scale b - height scale a := by
  obtain ⟨n, hn⟩ := h
  simp only [Transposer.transpose, Transposer.make] at hn
  split at hn
  · exact absurd hn (by simp)
  · rename_i r hr
    simp only [Option.some.injEq, Except.ok.injEq] at hn
    subst hn
    rw [(respell_spec scale n _ _ (plain_valid _ _ _) hr).2, plain_height]
    simp only [interval, height]
    push_cast
    ring

/-- C21: transposing `a` itself yields exactly `b`, when `b` is spelled with at
most a double accidental. -/
theorem C21_from_to (a b : Pitch) (scale : List ℚ) (hb : Valid b)
    (h1 : -1 ≤ b.alter) (h2 : b.alter ≤ 1) : Yields (Transposer.make a b scale) a b := by
  obtain ⟨N, q, h⟩ := C22_terminates (Transposer.make a b scale) scale rfl a
  have hq : Yields (Transposer.make a b scale) a q := ⟨N, h N (le_refl _)⟩
  have e := C22_respell_only_when_needed _ scale rfl a q hq b hb
    (by simp only [staff, moves, Transposer.make]; ring)
    (by simp only [height, interval, Transposer.make]; push_cast; ring) h1 h2
  exact e ▸ hq

/-- C21: if the pitch that lies as many staff positions and whole tones above
`p` as `b` lies above `a` has at most a double accidental, it is the result; so
without respelling every pitch moves the same number of staff positions. -/
theorem C21_staff (a b : Pitch) (scale : List ℚ) (p q : Pitch)
    (h : Yields (Transposer.make a b scale) p q) (r : Pitch) (hv : Valid r)
    (hs : staff r - staff p = staff b - staff a)
    (hh : height scale r - height scale p = height scale b - height scale a)
    (h1 : -1 ≤ r.alter) (h2 : r.alter ≤ 1) : q = r := by
  refine C22_respell_only_when_needed _ scale rfl p q h r hv ?_ ?_ h1 h2
  · simp only [staff, moves, Transposer.make] at *; linarith
  · simp only [height, interval, Transposer.make] at *; push_cast; linarith

-- c to es, applied to e flat: g flat
example : Yields (Transposer.make ⟨0, 0, 0⟩ ⟨0, 2, -(1/2)⟩ majorScale) ⟨0, 2, -(1/2)⟩ ⟨0, 4, -(1/2)⟩ :=
  ⟨5, by decide +kernel⟩
-- c to cisis, applied to gis: respelled, across the octave
example : Yields (Transposer.make ⟨0, 0, 0⟩ ⟨0, 0, 1⟩ majorScale) ⟨0, 6, 1/2⟩ ⟨1, 0, 1⟩ :=
  ⟨5, by decide +kernel⟩

/-! ## C23 -/

/-- C23: the sum of two transposers has the sum of their intervals, in height
and in staff positions. -/
theorem C23_add_interval (s t : Transposer) :
    interval (s.add t) = interval s + interval t ∧ moves (s.add t) = moves s + moves t := by
  constructor
  · simp only [interval, Transposer.add]; push_cast; ring
  · simp only [moves, Transposer.add]; omega

/-- C23: transposing with the sum (given the scale that `__add__` forgets) sounds
the same as transposing with the one and then with the other; and it is the
same pitch when neither of the three needs respelling. -/
theorem C23_add_transposes (s t : Transposer) (scale : List ℚ) (hs : s.scale = some scale)
    (ht : t.scale = some scale) (p q r x : Pitch) (h1 : Yields s p q) (h2 : Yields t q r)
    (h3 : Yields (withScale scale (s.add t)) p x) :
    height scale x = height scale r ∧
    (staff q = staff p + moves s → staff r = staff q + moves t →
      staff x = staff p + moves (s.add t) → x = r) := by
  have key : ∀ (t : Transposer) (p q : Pitch), t.scale = some scale → Yields t p q →
      Valid q ∧ height scale q = height scale p + interval t := by
    intro t p q ht ⟨n, hn⟩
    simp only [Transposer.transpose, ht] at hn
    split at hn
    · exact absurd hn (by simp)
    · rename_i r hr
      simp only [Option.some.injEq, Except.ok.injEq] at hn
      subst hn
      obtain ⟨v, hh⟩ := respell_spec scale n _ _ (plain_valid _ _ _) hr
      exact ⟨v, by rw [hh, plain_height]⟩
  obtain ⟨vq, hq⟩ := key s p q hs h1
  obtain ⟨vr, hr⟩ := key t q r ht h2
  obtain ⟨vx, hx⟩ := key _ p x rfl h3
  have e : height scale x = height scale r := by
    rw [hr, hq, hx]
    have := (C23_add_interval s t).1
    simp only [withScale, interval] at *
    linarith
  refine ⟨e, fun a b c => pitch_ext scale _ _ vx vr ?_ e⟩
  rw [c, b, a, (C23_add_interval s t).2]
  ring

/-- C23, the part that fails: the objects that `+` and `-` return cannot be used
at all, because `transpose` needs a scale that they do not have. -/
theorem C23_sum_cannot_transpose (s t : Transposer) (fuel : ℕ) (p : Pitch) :
    (s.add t).transpose fuel p = some (.error .attributeError) ∧
    (s.sub t).transpose fuel p = some (.error .attributeError) := ⟨rfl, rfl⟩

/-- C23: the staff positions of a difference are right. -/
theorem C23_sub_moves (s t : Transposer) : moves (s.sub t) = moves s - moves t := by
  simp only [moves, Transposer.sub]; omega

/-- C23, partial: a difference has the difference of the intervals, and so
reverts the last transposition, exactly when the steps need no octave carry;
the full statement has no such condition. -/
theorem C23_sub_interval_partial (s t : Transposer) :
    interval (s.sub t) = interval s - interval t ↔ 0 ≤ s.steps - t.steps ∧ s.steps - t.steps < 7 := by
  have e : interval (s.sub t) = interval s - interval t + 12 * (((s.steps - t.steps) / 7 : ℤ) : ℚ) := by
    simp only [interval, Transposer.sub]; push_cast; ring
  have : (0 ≤ s.steps - t.steps ∧ s.steps - t.steps < 7) ↔ (s.steps - t.steps) / 7 = 0 := by omega
  rw [e, this]
  constructor
  · intro h
    have : (((s.steps - t.steps) / 7 : ℤ) : ℚ) = 0 := by linarith
    exact_mod_cast this
  · intro h
    rw [h]; simp

/-- C23: adding `t` to a transposer with its steps in 0..6 and subtracting it
again gives the same interval when the sum of the steps stays below 7. -/
theorem C23_add_sub_partial (s t : Transposer) (h0 : 0 ≤ s.steps) (h1 : 0 ≤ t.steps) (h2 : s.steps + t.steps < 7) :
    interval ((s.add t).sub t) = interval s ∧ moves ((s.add t).sub t) = moves s := by
  have hst : (s.add t).steps = s.steps + t.steps := by simp only [Transposer.add]; omega
  rw [(C23_sub_interval_partial (s.add t) t).2 (by rw [hst]; omega), (C23_add_interval s t).1, C23_sub_moves,
    (C23_add_interval s t).2]
  constructor <;> ring

/-- C23, the counterexample: up a sixth plus up a third, minus the third, is not
a sixth again but two octaves less. -/
theorem C23_sub_does_not_revert :
    ∃ a b c d : Pitch,
      interval (((Transposer.make a b majorScale).add (Transposer.make c d majorScale)).sub
        (Transposer.make c d majorScale)) ≠ interval (Transposer.make a b majorScale) :=
  ⟨⟨0, 0, 0⟩, ⟨0, 5, 0⟩, ⟨0, 0, 0⟩, ⟨0, 2, 0⟩, by decide +kernel⟩

example : interval ((Transposer.make ⟨0, 0, 0⟩ ⟨0, 5, 0⟩ majorScale).add
    (Transposer.make ⟨0, 0, 0⟩ ⟨0, 2, 0⟩ majorScale)) = 13/2 := by decide +kernel

end Quickly.Transpose
