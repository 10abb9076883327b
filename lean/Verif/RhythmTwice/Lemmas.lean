import Verif.RhythmEdits.Chain

/-! # Two transforms of the durations of music, one after another -/

namespace Quickly.RhythmTwice

open Quickly.Rhythm Quickly.Rhythm.Spec
open Quickly.Duration (Transform)

/-- The duration can be written, and the transform neither cuts off dots of it nor makes more than 52. -/
def Fits (s : Transform) (d : D) : Prop :=
  ∃ (log : ℤ) (k : ℕ), d.1 = Duration.Spec.value log k ∧ k ≤ 52 ∧ 0 ≤ k + log + 3 ∧ 0 ≤ k + s.dotcount ∧ k + s.dotcount ≤ 52

/-- The scaling makes no difference for the duration. -/
theorem transform_other {t : Transform} {q x : ℚ} {y : ℚ × ℚ} (h : t.transform q x = .ok y) (x' : ℚ) :
    t.transform q x' = .ok (y.1, x' * t.scale) := by
  unfold Transform.transform at h ⊢
  split
  · rename_i hc
    rw [if_pos hc] at h
    split at h
    · cases h; rfl
    · cases h
  · rename_i hc
    rw [if_neg hc] at h
    cases h; rfl

/-- What is done with one node. -/
def one (t : Transform) (w : Bool) (st : Option PyErr) (l : Label) : Option PyErr × Option D :=
  if w then transformProc t st [] none l else (st, l.dur)

theorem one_twice (s t : Transform) (w : Bool) (l : Label) (hf : w = true → ∀ d, l.dur = some d → Fits s d)
    (h1 : (one s w none l).1 = none) (h2 : (one t w none { l with dur := (one s w none l).2 }).1 = none) :
    one (s.add t) w none l = one t w none { l with dur := (one s w none l).2 } := by
  cases w with
  | false => rfl
  | true =>
    cases hd : l.dur with
    | none => simp [one, transformProc, hd]
    | some d =>
      obtain ⟨log, k, hv, hk, hl, h3, h4⟩ := hf rfl d hd
      cases hs : s.transform d.1 d.2 with
      | error e => simp [one, transformProc, hd, hs] at h1
      | ok d1 =>
        have hadd : t.transform d1.1 d1.2 = (s.add t).transform d.1 d.2 := by
          rw [hv] at hs ⊢
          exact Duration.C09_transform_add s t log k d.2 hk hl h3 h4 d1.1 d1.2 hs
        by_cases ht : l.kind = .tempo
        · cases he : t.transform d1.1 d.2 with
          | error e => simp [one, transformProc, hd, hs, ht, he] at h2
          | ok d2 =>
            have h5 := transform_other he d1.2
            rw [hadd] at h5
            simp [one, transformProc, hd, hs, ht, he, h5]
        · cases he : t.transform d1.1 d1.2 with
          | error e => simp [one, transformProc, hd, hs, ht, he] at h2
          | ok d2 =>
            rw [he] at hadd
            simp [one, transformProc, hd, hs, ht, he, ← hadd]

variable {w : ℕ → Label → Bool}

theorem walk_node (t : Transform) (st : Option PyErr) (i : ℕ) (bf : List Label) (r : Option Kind) (l : Label) (cs : List Mus) :
    walk (transformProc t) w st i bf r (.node l cs) =
      ((walkL (transformProc t) w (one t (w i l) st l).1 (i + 1) bf cs).1,
        (walkL (transformProc t) w (one t (w i l) st l).1 (i + 1) bf cs).2.1,
        .node { l with dur := (one t (w i l) st l).2 } (walkL (transformProc t) w (one t (w i l) st l).1 (i + 1) bf cs).2.2) := rfl

theorem none_of_walkL {t : Transform} {st : Option PyErr} {i : ℕ} {bf : List Label} {cs : List Mus}
    (h : (walkL (transformProc t) w st i bf cs).1 = none) : st = none := by
  cases st with
  | none => rfl
  | some e => rw [transform_stuck.2] at h; cases h

mutual
theorem walk_twice (s t : Transform) (hw : ∀ i l d, w i { l with dur := d } = w i l) (hh : ∀ i l, w i l = true → l.kind.handles = true) :
    ∀ (m : Mus) (i : ℕ) (bf bf' bf'' : List Label) (r r' r'' : Option Kind) (ins : Bool) (rn : Option Kind),
    (∀ x ∈ nodes ins rn m, x.1.kind.handles = true → ∀ d, x.1.dur = some d → Fits s d) →
    (walk (transformProc s) w none i bf r m).1 = none →
    (walk (transformProc t) w none i bf' r' (walk (transformProc s) w none i bf r m).2.2).1 = none →
    walk (transformProc (s.add t)) w none i bf'' r'' m =
        walk (transformProc t) w none i bf' r' (walk (transformProc s) w none i bf r m).2.2 ∧
      (walk (transformProc t) w none i bf' r' (walk (transformProc s) w none i bf r m).2.2).2.1 =
        (walk (transformProc s) w none i bf r m).2.1
  | .node l cs, i, bf, bf', bf'', r, r', r'', ins, rn, hf, h1, h2 => by
    simp only [nodes, List.mem_cons, forall_eq_or_imp] at hf
    simp only [walk_node, hw] at h1 h2 ⊢
    have e1 := none_of_walkL h1
    have e2 := none_of_walkL h2
    have e3 := one_twice s t (w i l) l (fun h => hf.1 (hh _ _ h)) e1 e2
    rw [e1] at h1 h2 ⊢
    rw [e3]
    rw [e2] at h2 ⊢
    obtain ⟨k1, k2⟩ := walkL_twice s t hw hh cs (i + 1) bf bf' bf'' _ hf.2 h1 h2
    exact ⟨by rw [k1], k2⟩
theorem walkL_twice (s t : Transform) (hw : ∀ i l d, w i { l with dur := d } = w i l) (hh : ∀ i l, w i l = true → l.kind.handles = true) :
    ∀ (cs : List Mus) (i : ℕ) (bf bf' bf'' : List Label) (ins : Bool),
    (∀ x ∈ nodesL ins cs, x.1.kind.handles = true → ∀ d, x.1.dur = some d → Fits s d) →
    (walkL (transformProc s) w none i bf cs).1 = none →
    (walkL (transformProc t) w none i bf' (walkL (transformProc s) w none i bf cs).2.2).1 = none →
    walkL (transformProc (s.add t)) w none i bf'' cs =
        walkL (transformProc t) w none i bf' (walkL (transformProc s) w none i bf cs).2.2 ∧
      (walkL (transformProc t) w none i bf' (walkL (transformProc s) w none i bf cs).2.2).2.1 =
        (walkL (transformProc s) w none i bf cs).2.1
  | [], i, bf, bf', bf'', ins, _, _, _ => ⟨rfl, rfl⟩
  | c :: cs, i, bf, bf', bf'', ins, hf, h1, h2 => by
    simp only [nodesL, List.mem_append] at hf
    simp only [walkL] at h1 h2 ⊢
    have e1 := none_of_walkL h1
    have e2 := none_of_walkL h2
    obtain ⟨k1, k2⟩ := walk_twice s t hw hh c i bf bf' bf'' _ _ (cs.head?.map (·.label.kind)) ins _ (fun x hx => hf x (.inl hx)) e1 e2
    rw [k1]
    rw [e1] at h1 h2 e2 k2 ⊢
    rw [e2, k2] at h2 ⊢
    obtain ⟨k3, k4⟩ := walkL_twice s t hw hh cs _ _ _ (rev (walk (transformProc t) w none i bf' _ (walk (transformProc s) w none i bf
      (cs.head?.map (·.label.kind)) c).2.2).2.2 ++ bf'') ins (fun x hx => hf x (.inr hx)) h1 h2
    exact ⟨by rw [k3], k4⟩
end

end Quickly.RhythmTwice
