import Verif.Transpose.Spec
import Verif.Key.Lemmas
import Mathlib.Algebra.Order.Archimedean.Basic

/-! # Helper lemmas for transposing -/

namespace Quickly.Transpose

open Spec Quickly.Pitch Quickly.Key

variable {σ : Type}

theorem loop_mono (cond : σ → Bool) (body : σ → σ) (n m : ℕ) (h : n ≤ m) (s r : σ)
    (hr : loop cond body n s = some r) : loop cond body m s = some r := by
  induction n generalizing m s with
  | zero =>
    simp only [loop] at hr
    split at hr
    · exact absurd hr (by simp)
    · rename_i hc
      cases m with
      | zero => simp only [loop, if_neg hc]; exact hr
      | succ m => simp only [loop, if_neg hc]; exact hr
  | succ n ih =>
    obtain ⟨m, rfl⟩ : ∃ k, m = k + 1 := ⟨m - 1, by omega⟩
    simp only [loop] at hr ⊢
    split at hr
    · rename_i hc; rw [if_pos hc]; exact ih m (by omega) _ hr
    · rename_i hc; rw [if_neg hc]; exact hr

/-- What holds before a loop and is kept by its body holds after it; and the
condition is false then. -/
theorem loop_inv (cond : σ → Bool) (body : σ → σ) (inv : σ → Prop)
    (hb : ∀ s, cond s = true → inv s → inv (body s)) (n : ℕ) (s r : σ) (hs : inv s)
    (hr : loop cond body n s = some r) : inv r ∧ cond r = false := by
  induction n generalizing s with
  | zero =>
    simp only [loop] at hr
    split at hr
    · exact absurd hr (by simp)
    · rename_i hc; cases hr; exact ⟨hs, by simpa using hc⟩
  | succ n ih =>
    simp only [loop] at hr
    split at hr
    · rename_i hc; exact ih _ (hb _ hc hs) hr
    · rename_i hc; cases hr; exact ⟨hs, by simpa using hc⟩

/-- A loop that reaches a state where the condition is false after `k` rounds of
its body finishes. -/
theorem loop_finishes (cond : σ → Bool) (body : σ → σ) (k : ℕ) (s : σ)
    (h : cond (body^[k] s) = false) : ∃ n r, loop cond body n s = some r := by
  induction k generalizing s with
  | zero => exact ⟨0, s, by simp only [Function.iterate_zero, id_eq] at h; simp [loop, h]⟩
  | succ k ih =>
    rw [Function.iterate_succ_apply] at h
    obtain ⟨n, r, hr⟩ := ih _ h
    refine ⟨n + 1, if cond s then r else s, ?_⟩
    simp only [loop]
    split <;> simp [*]

theorem loop_skip (cond : σ → Bool) (body : σ → σ) (n : ℕ) (s : σ) (h : cond s = false) :
    loop cond body n s = some s := by
  cases n <;> simp [loop, h]

theorem stepUp_valid (scale : List ℚ) (p : Pitch) : Valid (stepUp scale p) := by
  simp only [Valid, stepUp]; omega

theorem stepDown_valid (scale : List ℚ) (p : Pitch) : Valid (stepDown scale p) := by
  simp only [Valid, stepDown]; omega

theorem plain_valid (scale : List ℚ) (t : Transposer) (p : Pitch) : Valid (plain scale t p) := by
  simp only [Valid, plain]; omega

theorem stepUp_height (scale : List ℚ) (p : Pitch) : height scale (stepUp scale p) = height scale p := by
  simp only [height, stepUp]; push_cast; ring

theorem stepDown_height (scale : List ℚ) (p : Pitch) : height scale (stepDown scale p) = height scale p := by
  simp only [height, stepDown]; push_cast; ring

theorem plain_height (scale : List ℚ) (t : Transposer) (p : Pitch) :
    height scale (plain scale t p) = height scale p + interval t := by
  simp only [height, plain, interval]; push_cast; ring

theorem stepUp_staff (scale : List ℚ) (p : Pitch) : staff (stepUp scale p) = staff p + 1 := by
  simp only [staff, stepUp]; omega

theorem stepDown_staff (scale : List ℚ) (p : Pitch) : staff (stepDown scale p) = staff p - 1 := by
  simp only [staff, stepDown]; omega

theorem plain_staff (scale : List ℚ) (t : Transposer) (p : Pitch) :
    staff (plain scale t p) = staff p + moves t := by
  simp only [staff, plain, moves]; omega

/-- A valid pitch is determined by its staff position and its height. -/
theorem pitch_ext (scale : List ℚ) (p q : Pitch) (hp : Valid p) (hq : Valid q) (hs : staff p = staff q)
    (hh : height scale p = height scale q) : p = q := by
  obtain ⟨o, n, a⟩ := p
  obtain ⟨o', n', a'⟩ := q
  simp only [Valid, staff, height] at *
  have e1 : o = o' := by omega
  have e2 : n = n' := by omega
  subst e1 e2
  have : a = a' := by linarith
  rw [this]

theorem iterate_up (scale : List ℚ) (k : ℕ) (p : Pitch) :
    staff ((stepUp scale)^[k] p) = staff p + k ∧ height scale ((stepUp scale)^[k] p) = height scale p := by
  induction k generalizing p with
  | zero => simp
  | succ k ih =>
    rw [Function.iterate_succ_apply, (ih _).1, (ih _).2, stepUp_staff, stepUp_height]
    exact ⟨by push_cast; ring, rfl⟩

theorem iterate_down (scale : List ℚ) (k : ℕ) (p : Pitch) :
    staff ((stepDown scale)^[k] p) = staff p - k ∧ height scale ((stepDown scale)^[k] p) = height scale p := by
  induction k generalizing p with
  | zero => simp
  | succ k ih =>
    rw [Function.iterate_succ_apply, (ih _).1, (ih _).2, stepDown_staff, stepDown_height]
    exact ⟨by push_cast; ring, rfl⟩

theorem iterate_up_valid (scale : List ℚ) (k : ℕ) (p : Pitch) (hp : Valid p) :
    Valid ((stepUp scale)^[k] p) := by
  cases k with
  | zero => exact hp
  | succ k => rw [Function.iterate_succ_apply']; exact stepUp_valid _ _

theorem iterate_down_valid (scale : List ℚ) (k : ℕ) (p : Pitch) (hp : Valid p) :
    Valid ((stepDown scale)^[k] p) := by
  cases k with
  | zero => exact hp
  | succ k => rw [Function.iterate_succ_apply']; exact stepDown_valid _ _

/-- After a whole number of octaves up the alteration is lower by six whole
tones per octave, whatever the scale. -/
theorem octaves_up (scale : List ℚ) (k : ℕ) (p : Pitch) (hp : Valid p) :
    (stepUp scale)^[7 * k] p = ⟨p.octave + k, p.note, p.alter - 6 * k⟩ := by
  have h := iterate_up scale (7 * k) p
  refine pitch_ext scale _ _ (iterate_up_valid scale _ p hp) (by exact hp) ?_ ?_
  · rw [h.1]; simp only [staff]; push_cast; ring
  · rw [h.2]; simp only [height]; push_cast; ring

theorem octaves_down (scale : List ℚ) (k : ℕ) (p : Pitch) (hp : Valid p) :
    (stepDown scale)^[7 * k] p = ⟨p.octave - k, p.note, p.alter + 6 * k⟩ := by
  have h := iterate_down scale (7 * k) p
  refine pitch_ext scale _ _ (iterate_down_valid scale _ p hp) (by exact hp) ?_ ?_
  · rw [h.1]; simp only [staff]; push_cast; ring
  · rw [h.2]; simp only [height]; push_cast; ring

theorem up_finishes (scale : List ℚ) (p : Pitch) (hp : Valid p) :
    ∃ n r, loop (fun p : Pitch => decide (p.alter > 1)) (stepUp scale) n p = some r := by
  obtain ⟨k, hk⟩ := exists_nat_gt p.alter
  apply loop_finishes _ _ (7 * k)
  rw [octaves_up scale k p hp]
  have : (0 : ℚ) ≤ k := Nat.cast_nonneg k
  simp only [gt_iff_lt, decide_eq_false_iff_not, not_lt]
  linarith

theorem down_finishes (scale : List ℚ) (p : Pitch) (hp : Valid p) :
    ∃ n r, loop (fun p : Pitch => decide (p.alter < -1)) (stepDown scale) n p = some r := by
  obtain ⟨k, hk⟩ := exists_nat_gt (-p.alter)
  apply loop_finishes _ _ (7 * k)
  rw [octaves_down scale k p hp]
  have : (0 : ℚ) ≤ k := Nat.cast_nonneg k
  simp only [decide_eq_false_iff_not, not_lt]
  linarith

theorem respell_finishes (scale : List ℚ) (p : Pitch) (hp : Valid p) :
    ∃ N q, ∀ n ≥ N, respell scale n p = some q := by
  obtain ⟨n1, r, h1⟩ := up_finishes scale p hp
  have hr : Valid r := (loop_inv _ _ Valid (fun _ _ _ => stepUp_valid _ _) _ _ _ hp h1).1
  obtain ⟨n2, q, h2⟩ := down_finishes scale r hr
  refine ⟨max n1 n2, q, ?_⟩
  intro n hn
  simp only [respell, loop_mono _ _ n1 n (by omega) _ _ h1]
  exact loop_mono _ _ n2 n (by omega) _ _ h2

theorem respell_spec (scale : List ℚ) (n : ℕ) (p q : Pitch) (hp : Valid p) (h : respell scale n p = some q) :
    Valid q ∧ height scale q = height scale p := by
  unfold respell at h
  split at h
  · exact absurd h (by simp)
  · rename_i r hr
    have i1 := (loop_inv _ _ (fun x => Valid x ∧ height scale x = height scale p)
      (fun s _ hs => ⟨stepUp_valid _ _, by rw [stepUp_height, hs.2]⟩) _ _ _ ⟨hp, rfl⟩ hr).1
    exact (loop_inv _ _ (fun x => Valid x ∧ height scale x = height scale p)
      (fun s _ hs => ⟨stepDown_valid _ _, by rw [stepDown_height, hs.2]⟩) _ _ _ i1 h).1

theorem respell_skip (scale : List ℚ) (n : ℕ) (p : Pitch) (h1 : -1 ≤ p.alter) (h2 : p.alter ≤ 1) :
    respell scale n p = some p := by
  unfold respell
  rw [loop_skip _ _ _ _ (by simpa using h2)]
  exact loop_skip _ _ _ _ (by simpa using h1)

theorem stepUp_narrow (scale : List ℚ) (hs : Narrow scale) (p : Pitch) (hp : Valid p) :
    p.alter - 2 ≤ (stepUp scale p).alter := by
  have := hs p.note hp.1 hp.2
  simp only [stepUp]
  linarith

theorem stepDown_narrow (scale : List ℚ) (hs : Narrow scale) (p : Pitch) (hp : Valid p) :
    (stepDown scale p).alter ≤ p.alter + 2 := by
  have h := hs ((p.note - 1) % 7) (by omega) (by omega)
  obtain ⟨h0, h1⟩ := hp
  simp only [stepDown]
  rcases eq_or_lt_of_le h0 with e | e
  · rw [← e] at h ⊢
    norm_num at h ⊢
    linarith
  · have e1 : (p.note - 1) % 7 = p.note - 1 := by omega
    have e2 : (p.note - 1) / 7 = 0 := by omega
    have e3 : (p.note - 1 + 1) / 7 = 0 := by omega
    have e4 : (p.note - 1 + 1) % 7 = p.note := by omega
    rw [e1, e3, e4] at h
    rw [e1, e2]
    push_cast at *
    linarith

/-- With no wide steps in the scale the loops end with an alteration in -1..1. -/
theorem respell_bound (scale : List ℚ) (hs : Narrow scale) (n : ℕ) (p q : Pitch) (hp : Valid p)
    (h : respell scale n p = some q) : -1 ≤ q.alter ∧ q.alter ≤ 1 := by
  unfold respell at h
  split at h
  · exact absurd h (by simp)
  · rename_i r hr
    obtain ⟨⟨v, hup⟩, hrc⟩ := loop_inv _ _ (fun x => Valid x ∧ (x.alter = p.alter ∨ -1 < x.alter))
      (fun s hc hs' => ⟨stepUp_valid _ _, Or.inr (by
        have := stepUp_narrow scale hs s hs'.1
        simp only [decide_eq_true_eq, gt_iff_lt] at hc
        linarith)⟩) _ _ _ ⟨hp, Or.inl rfl⟩ hr
    simp only [gt_iff_lt, decide_eq_false_iff_not, not_lt] at hrc
    obtain ⟨⟨_, hd⟩, hqc⟩ := loop_inv _ _ (fun x => Valid x ∧ x.alter ≤ 1)
      (fun s hc hs' => ⟨stepDown_valid _ _, by
        have := stepDown_narrow scale hs s hs'.1
        simp only [decide_eq_true_eq] at hc
        linarith⟩) _ _ _ ⟨v, hrc⟩ h
    simp only [decide_eq_false_iff_not, not_lt] at hqc
    exact ⟨hqc, hd⟩

end Quickly.Transpose
