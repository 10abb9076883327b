import Verif.Time.Spec
import Mathlib.Tactic.Ring
import Mathlib.Tactic.Linarith

namespace Quickly.Time

open Quickly.Duration (Transform)
open Spec

theorem add_id (tr t : Transform) (h : t.bool = false) : tr.add t = tr := by
  simp only [Transform.bool, decide_eq_false_iff_not, not_or, not_not] at h
  obtain ⟨h1, h2, h3⟩ := h
  cases tr
  simp [Transform.add, h1, h2, h3]

theorem enter_under (tr : Transform) (s : Bool) (f : Option Transform) :
    enter tr (.music s f) = under tr f := by
  cases f with
  | none => rfl
  | some t =>
    simp only [enter, under]
    split
    · rfl
    · rename_i h
      rw [add_id]
      simpa using h

theorem pySum_shift (xs : List (Py ℚ)) : ∀ a b : ℚ,
    pySum (a + b) xs = (pySum b xs).map (a + ·) := by
  induction xs with
  | nil => intros; rfl
  | cons x xs ih =>
    intro a b
    cases x with
    | error e => rfl
    | ok x => simp only [pySum, add_assoc, ih]

theorem pySum_append (xs ys : List (Py ℚ)) : ∀ a : ℚ,
    pySum a (xs ++ ys) = (pySum a xs).bind fun b => pySum b ys := by
  induction xs with
  | nil => intros; rfl
  | cons x xs ih =>
    intro a
    cases x with
    | error e => rfl
    | ok x => simp only [List.cons_append, pySum, ih]

theorem map_add_add (x : Py ℚ) (a b : ℚ) : (x.map (b + ·)).map (a + ·) = x.map (a + b + ·) := by
  cases x with
  | error e => rfl
  | ok x => simp [Except.map, add_assoc]

theorem lengths_kind (rem : Remote) (tr : Transform) (cs : List Mus) :
    (lengths rem tr cs).map (·.1) = cs.map (·.kind) := by
  induction cs with
  | nil => rfl
  | cons c cs ih => simp [lengths, ih]

theorem lengths_eq (rem : Remote) (tr : Transform) (cs : List Mus) :
    lengths rem tr cs = cs.map fun c => (c.kind, length rem tr c) := by
  induction cs with
  | nil => rfl
  | cons c cs ih => simp [lengths, ih]

/-- The lengths of simultaneous music, seen from the end. -/
def maxR : List (Py ℚ) → Py ℚ
  | [] => .ok 0
  | [x] => x
  | x :: y :: xs => latest x (maxR (y :: xs))

theorem pyMaxFrom_eq (xs : List (Py ℚ)) : ∀ a : ℚ, pyMaxFrom a xs = maxR (.ok a :: xs) := by
  induction xs with
  | nil => intros; rfl
  | cons x xs ih =>
    intro a
    cases x with
    | error e =>
      simp only [pyMaxFrom, maxR, latest]
      cases xs <;> rfl
    | ok x =>
      simp only [pyMaxFrom, ih]
      have hm : (if a < x then x else a) = max a x := by
        split
        · rename_i h; rw [max_eq_right h.le]
        · rename_i h; rw [max_eq_left (not_lt.1 h)]
      rw [hm]
      cases xs with
      | nil => rfl
      | cons y ys =>
        simp only [maxR, latest]
        cases maxR (y :: ys) with
        | error e => rfl
        | ok z => simp only [bind, Except.bind, pure, Except.pure, max_assoc]

theorem pyMax_eq (xs : List (Py ℚ)) : pyMax xs = maxR xs := by
  cases xs with
  | nil => rfl
  | cons x xs =>
    cases x with
    | error e =>
      simp only [pyMax, maxR]
      cases xs <;> rfl
    | ok x => exact pyMaxFrom_eq xs x

mutual
theorem finish_length (rem : Remote) : ∀ (m : Mus) (tr : Transform) (t : ℚ),
    finish rem tr t m = (length rem tr m).map (t + ·)
  | .node k cs, tr, t => by
    cases k with
    | durable d s =>
      simp only [finish, length, Kind.isMusic, if_true, timeLength, enter]
      cases tr.length d s <;> rfl
    | chord notes d s =>
      simp only [finish, length, Kind.isMusic, if_true, timeLength, enter]
      cases notes with
      | false => simp [Except.map, pure, Except.pure]
      | true => simp only [if_true]; cases tr.length d s <;> rfl
    | music sq f =>
      simp only [length, Kind.isMusic, if_true, timeLength, enter_under]
      cases sq with
      | true =>
        simp only [finish, if_true, upto]
        rw [← add_zero t, ← pySum_shift, add_zero t, sequential_length]
        simp
      | false =>
        simp only [finish, Bool.false_eq_true, if_false, if_true, pyMax_eq]
        rw [together_length]
    | afterGrace =>
      simp only [finish, length, Kind.isMusic, if_true, timeLength, enter, upto]
      rw [afterGrace_length]
    | reference n =>
      simp only [finish, length]
      cases rem tr n <;> rfl
    | other =>
      simp [finish, length, Kind.isMusic, Except.map, pure, Except.pure]
theorem sequential_length (rem : Remote) : ∀ (cs : List Mus) (tr : Transform) (t : ℚ),
    sequential rem tr t cs = pySum t ((lengths rem tr cs).map (·.2))
  | [], _, _ => rfl
  | c :: cs, tr, t => by
    simp only [sequential, lengths, List.map_cons, finish_length rem c]
    cases length rem tr c with
    | error e => rfl
    | ok x =>
      simp only [Except.map, bind, Except.bind, pySum]
      exact sequential_length rem cs tr _
theorem together_length (rem : Remote) : ∀ (cs : List Mus) (tr : Transform) (t : ℚ),
    together rem tr t cs = (maxR ((lengths rem tr cs).map (·.2))).map (t + ·)
  | [], _, t => by simp [together, lengths, maxR, Except.map, pure, Except.pure]
  | [c], tr, t => by simp only [together, lengths, List.map_cons, List.map_nil, maxR,
      finish_length rem c]
  | c :: c' :: cs, tr, t => by
    have ih := together_length rem (c' :: cs) tr t
    simp only [lengths, List.map_cons] at ih ⊢
    simp only [together, finish_length rem c, maxR, ih]
    cases length rem tr c with
    | error e => rfl
    | ok x =>
      simp only [latest, Except.map, bind, Except.bind, pure, Except.pure]
      cases maxR (length rem tr c' :: (lengths rem tr cs).map (·.2)) with
      | error e => rfl
      | ok y => simp [max_add_add_left]
theorem afterGrace_length (rem : Remote) : ∀ (cs : List Mus) (tr : Transform) (t : ℚ),
    Spec.afterGrace rem tr t cs = (firstMusic (lengths rem tr cs)).map (t + ·)
  | [], _, t => by simp [Spec.afterGrace, lengths, firstMusic, Except.map, pure, Except.pure]
  | c :: cs, tr, t => by
    simp only [Spec.afterGrace, lengths, firstMusic]
    split
    · exact finish_length rem c tr t
    · exact afterGrace_length rem cs tr t
end

theorem length_mono_max {s : ℚ} (hs : 0 ≤ s) (xs : List (Py ℚ)) :
    maxR (xs.map (Except.map (s * ·))) = (maxR xs).map (s * ·) := by
  match xs with
  | [] => simp [maxR, Except.map]
  | [x] => rfl
  | x :: y :: xs =>
    have ih := length_mono_max hs (y :: xs)
    simp only [List.map_cons, maxR] at ih ⊢
    rw [ih]
    cases x with
    | error e => rfl
    | ok x =>
      cases maxR (y :: xs) with
      | error e => rfl
      | ok z => simp [latest, Except.map, bind, Except.bind, pure, Except.pure, mul_max_of_nonneg x z hs]

theorem pySum_scale {s : ℚ} (xs : List (Py ℚ)) : ∀ a,
    pySum (s * a) (xs.map (Except.map (s * ·))) = (pySum a xs).map (s * ·) := by
  induction xs with
  | nil => intros; rfl
  | cons x xs ih =>
    intro a
    cases x with
    | error e => rfl
    | ok x =>
      simp only [List.map_cons, Except.map, pySum, ← mul_add]
      exact ih _

/-- The transform with the scale multiplied. -/
def times (s : ℚ) (tr : Transform) : Transform := { tr with scale := s * tr.scale }

theorem transform_times (s : ℚ) (tr : Transform) (d x : ℚ) :
    (times s tr).length d x = (tr.length d x).map (s * ·) := by
  obtain ⟨l, c, sc⟩ := tr
  change Transform.length ⟨l, c, s * sc⟩ d x = _
  by_cases h : l ≠ 0 ∨ c ≠ 0
  · simp only [Transform.length, Transform.transform, if_pos h]
    cases Duration.shiftDuration d l c with
    | error e => rfl
    | ok d' => simp only [Except.map]; congr 1; ring
  · simp only [Transform.length, Transform.transform, if_neg h, Except.map]
    congr 1; ring

theorem enter_times (s : ℚ) (tr : Transform) (k : Kind) : enter (times s tr) k = times s (enter tr k) := by
  simp only [enter]
  split
  · split
    · simp [times, Transform.add, mul_assoc]
    · rfl
  · rfl

theorem upto_map {α β : Type} (f : α → β) (xs : List α) (n : Option ℕ) :
    upto (xs.map f) n = (upto xs n).map f := by
  cases n with
  | none => rfl
  | some n => simp [upto, List.map_take]

theorem firstMusic_scale (s : ℚ) (xs : List (Kind × Py ℚ)) :
    firstMusic (xs.map fun x => (x.1, x.2.map (s * ·))) = (firstMusic xs).map (s * ·) := by
  induction xs with
  | nil => simp [firstMusic, Except.map]
  | cons x xs ih =>
    obtain ⟨k, x⟩ := x
    simp only [List.map_cons, firstMusic]
    split
    · rfl
    · exact ih

theorem timeLength_scale {s : ℚ} (hs : 0 ≤ s) (tr : Transform) (k : Kind)
    (cs : List (Kind × Py ℚ)) (stop : Option ℕ) :
    timeLength (times s tr) k (cs.map fun x => (x.1, x.2.map (s * ·))) stop =
      (timeLength tr k cs stop).map (s * ·) := by
  cases k with
  | durable d x => exact transform_times s tr d x
  | chord notes d x =>
    simp only [timeLength]
    split
    · exact transform_times s tr d x
    · simp [Except.map]
  | afterGrace => simp only [timeLength, upto_map, firstMusic_scale]
  | music sq f =>
    simp only [timeLength, upto_map, List.map_map]
    split
    · have := pySum_scale (s := s) ((upto cs stop).map (·.2)) 0
      rw [mul_zero, List.map_map] at this
      exact this
    · split
      · have := length_mono_max hs (cs.map (·.2))
        rw [List.map_map] at this
        rw [pyMax_eq, pyMax_eq]
        exact this
      · simp [Except.map]
  | reference n => simp [timeLength, Except.map]
  | other => simp [timeLength, Except.map]

mutual
theorem length_scale {s : ℚ} (hs : 0 ≤ s) {rem : Remote}
    (hr : ∀ tr n, rem (times s tr) n = (rem tr n).map (s * ·)) : ∀ (m : Mus) (tr : Transform),
    length rem (times s tr) m = (length rem tr m).map (s * ·)
  | .node k cs, tr => by
    have h : ∀ k : Kind, (if k.isMusic then timeLength (enter (times s tr) k) k
        (lengths rem (enter (times s tr) k) cs) none else (.ok 0 : Py ℚ)) =
        (if k.isMusic then timeLength (enter tr k) k (lengths rem (enter tr k) cs) none
          else (.ok 0 : Py ℚ)).map (s * ·) := by
      intro k
      split
      · rw [enter_times, lengths_scale hs hr cs, timeLength_scale hs]
      · simp [Except.map]
    cases k with
    | reference n => exact hr tr n
    | durable d x => exact h (.durable d x)
    | chord b d x => exact h (.chord b d x)
    | afterGrace => exact h .afterGrace
    | music sq f => exact h (.music sq f)
    | other => exact h .other
theorem lengths_scale {s : ℚ} (hs : 0 ≤ s) {rem : Remote}
    (hr : ∀ tr n, rem (times s tr) n = (rem tr n).map (s * ·)) : ∀ (cs : List Mus) (tr : Transform),
    lengths rem (times s tr) cs = (lengths rem tr cs).map fun x => (x.1, x.2.map (s * ·))
  | [], _ => rfl
  | c :: cs, tr => by
    simp only [lengths, List.map_cons, length_scale hs hr c, lengths_scale hs hr cs]
end

theorem remote_scale {s : ℚ} (hs : 0 ≤ s) (env : Env) : ∀ (tr : Transform) (n : String),
    remoteLength env (times s tr) n = (remoteLength env tr n).map (s * ·) := by
  induction env with
  | nil => intros; rfl
  | cons e env ih =>
    intro tr n
    obtain ⟨name, v⟩ := e
    simp only [remoteLength]
    split
    · split
      · exact ih _ _
      · split
        · exact length_scale hs ih v tr
        · simp [Except.map]
    · exact ih _ _

/-! ## Variables -/

theorem expandL_kinds (look : String → Option Mus) : ∀ (cs cs' : List Mus),
    expandL look cs = some cs' → cs'.length = cs.length := by
  intro cs
  induction cs with
  | nil => intro cs' h; simp only [expandL, Option.some.injEq] at h; rw [← h]
  | cons c cs ih =>
    intro cs' h
    simp only [expandL, Option.bind_eq_bind, Option.pure_def, Option.bind_eq_some_iff] at h
    obtain ⟨d, -, ds, hds, he⟩ := h
    cases he
    simp [ih ds hds]

section
variable {rem rem' : Remote} {look : String → Option Mus}

theorem expand_kind : ∀ (c d : Mus), (∀ n, c.kind ≠ .reference n) →
    expand look c = some d → d.kind = c.kind := by
  intro c d hk he
  obtain ⟨k, cs⟩ := c
  cases k with
  | reference n => exact absurd rfl (hk n)
  | music s f =>
    simp only [expand, Option.bind_eq_bind, Option.pure_def, Option.bind_eq_some_iff] at he
    obtain ⟨ds, -, he⟩ := he
    cases he; rfl
  | afterGrace =>
    simp only [expand, Option.bind_eq_bind, Option.pure_def, Option.bind_eq_some_iff] at he
    obtain ⟨ds, -, he⟩ := he
    cases he; rfl
  | durable d x => simp only [expand, Option.some.injEq] at he; rw [← he]
  | chord b d x => simp only [expand, Option.some.injEq] at he; rw [← he]
  | other => simp only [expand, Option.some.injEq] at he; rw [← he]

mutual
theorem length_expand (hl : ∀ n v tr, look n = some v → rem tr n = length rem' tr v) :
    ∀ (m m' : Mus) (tr : Transform), directGrace m → expand look m = some m' →
    length rem tr m = length rem' tr m'
  | .node k cs, m', tr, hg, h => by
    rw [directGrace] at hg
    cases k with
    | reference n => exact hl n m' tr h
    | durable d x => simp only [expand, Option.some.injEq] at h; rw [← h]; rfl
    | chord b d x => simp only [expand, Option.some.injEq] at h; rw [← h]; rfl
    | other => simp only [expand, Option.some.injEq] at h; rw [← h]; rfl
    | music s f =>
      simp only [expand, Option.bind_eq_bind, Option.pure_def, Option.bind_eq_some_iff] at h
      obtain ⟨ds, hds, he⟩ := h
      cases he
      have ih := (lengths_expand hl cs ds (enter tr (.music s f)) hg.2 hds).1
      simp only [length, Kind.isMusic, if_true, timeLength, upto, ih]
    | afterGrace =>
      simp only [expand, Option.bind_eq_bind, Option.pure_def, Option.bind_eq_some_iff] at h
      obtain ⟨ds, hds, he⟩ := h
      cases he
      have ih := (lengths_expand hl cs ds (enter tr .afterGrace) hg.2 hds).2 (hg.1 rfl)
      simp only [length, Kind.isMusic, if_true, timeLength, upto, ih]
theorem lengths_expand (hl : ∀ n v tr, look n = some v → rem tr n = length rem' tr v) :
    ∀ (cs ds : List Mus) (tr : Transform), directGraceL cs → expandL look cs = some ds →
    (lengths rem tr cs).map (·.2) = (lengths rem' tr ds).map (·.2) ∧
    ((∀ c ∈ cs, ∀ n, c.kind ≠ .reference n) → lengths rem tr cs = lengths rem' tr ds)
  | [], ds, tr, _, h => by
    simp only [expandL, Option.some.injEq] at h
    rw [← h]; exact ⟨rfl, fun _ => rfl⟩
  | c :: cs, ds, tr, hg, h => by
    rw [directGraceL] at hg
    simp only [expandL, Option.bind_eq_bind, Option.pure_def, Option.bind_eq_some_iff] at h
    obtain ⟨d, hd, ds', hds, he⟩ := h
    cases he
    obtain ⟨i1, i2⟩ := lengths_expand hl cs ds' tr hg.2 hds
    have ih := length_expand hl c d tr hg.1 hd
    simp only [lengths, List.map_cons, ih, i1, true_and]
    intro hk
    rw [expand_kind (look := look) c d (hk c (by simp)) hd,
      i2 fun c hc => hk c (by simp [hc])]
end
end

theorem remote_value (env : Env) (hg : ∀ x ∈ env, directGrace x.2) (rem' : Remote) :
    ∀ (n : String) (v : Mus) (tr : Transform), value env n = some v →
      remoteLength env tr n = length rem' tr v := by
  induction env with
  | nil => intro n v tr h; cases h
  | cons e env ih =>
    obtain ⟨name, x⟩ := e
    have ih' := ih fun y hy => hg y (by simp [hy])
    have hx := hg (name, x) (by simp)
    intro n v tr h
    rw [value] at h
    simp only [remoteLength]
    split
    · rename_i hn
      rw [if_pos hn] at h
      have hle := length_expand ih' x v tr hx h
      obtain ⟨k, cs⟩ := x
      cases k with
      | reference n' => exact ih' n' v tr h
      | other =>
        simp only [expand, Option.some.injEq] at h
        rw [← h]
        rfl
      | durable d y => simpa [Mus.kind, Kind.isMusic] using hle
      | chord b d y => simpa [Mus.kind, Kind.isMusic] using hle
      | music s f => simpa [Mus.kind, Kind.isMusic] using hle
      | afterGrace => simpa [Mus.kind, Kind.isMusic] using hle
    · rename_i hn
      rw [if_neg hn] at h
      exact ih' n v tr h

/-! ## Positions -/

theorem get_append : ∀ (p : List ℕ) (m : Mus) (q : List ℕ),
    get m (p ++ q) = (get m p).bind fun x => get x q := by
  intro p
  induction p with
  | nil => intros; rfl
  | cons i p ih =>
    intro m q
    simp only [List.cons_append, get]
    cases m.children[i]? with
    | none => rfl
    | some c => exact ih c q

theorem take_lengths (rem : Remote) (tr : Transform) (cs : List Mus) (i : ℕ) :
    (lengths rem tr cs).take i = lengths rem tr (cs.take i) := by
  rw [lengths_eq, lengths_eq, List.map_take]

theorem follow_shift (rem : Remote) : ∀ (trail : List ℕ) (tr : Transform) (m : Mus) (a b : ℚ),
    followTrail rem tr m (a + b) trail =
      (followTrail rem tr m b trail).map fun x => (x.1, x.2.1, a + x.2.2) := by
  intro trail
  induction trail with
  | nil => intros; rfl
  | cons i trail ih =>
    intro tr m a b
    simp only [followTrail]
    split
    · cases timeLength (enter tr m.kind) m.kind (lengths rem (enter tr m.kind) m.children) (some i) with
      | error e => rfl
      | ok x =>
        simp only [bind, Except.bind, pure, Except.pure, child]
        cases m.children[i]? with
        | none => rfl
        | some c => simp only [add_assoc]; exact ih _ _ _ _
    · simp only [bind, Except.bind, pure, Except.pure, child]
      cases m.children[i]? with
      | none => rfl
      | some c => exact ih _ _ _ _

/-- Following a trail, the moment is that of the specification. -/
theorem follow_onset (rem : Remote) : ∀ (trail : List ℕ) (tr : Transform) (m : Mus) (t : ℚ),
    (get m trail).isSome →
    followTrail rem tr m t trail =
      (onset rem tr t m trail).map fun x => (enterAll tr m trail, (get m trail).getD m, x) := by
  intro trail
  induction trail with
  | nil => intros; rfl
  | cons i trail ih =>
    intro tr m t hg
    obtain ⟨k, cs⟩ := m
    simp only [get, Mus.children] at hg
    cases hc : cs[i]? with
    | none => rw [hc] at hg; cases hg
    | some c =>
      rw [hc] at hg
      change (get c trail).isSome = true at hg
      have hget : get (.node k cs) (i :: trail) = get c trail := by simp [get, Mus.children, hc]
      obtain ⟨x, hx⟩ := Option.isSome_iff_exists.1 hg
      simp only [followTrail, onset, enterAll, hget, Mus.kind, Mus.children, child, hc]
      have hgd : (get c trail).getD (Mus.node k cs) = (get c trail).getD c := by rw [hx]; rfl
      rw [hgd]
      cases k with
      | music sq f =>
        simp only [enter_under, Kind.isSequential]
        cases sq with
        | true =>
          simp only [and_true, sequential_length]
          by_cases hi : i = 0
          · subst hi
            simp only [ne_eq, not_true_eq_false, if_false, bind, Except.bind, pure, Except.pure,
              List.take_zero, lengths, List.map_nil, pySum]
            exact ih _ _ _ hg
          · simp only [ne_eq, hi, not_false_eq_true, if_true, timeLength, upto, take_lengths]
            have := pySum_shift ((lengths rem (under tr f) (cs.take i)).map (·.2)) t 0
            rw [add_zero] at this
            rw [this]
            cases pySum 0 ((lengths rem (under tr f) (cs.take i)).map (·.2)) with
            | error e => rfl
            | ok y =>
              simp only [bind, Except.bind, pure, Except.pure, Except.map]
              exact ih _ _ _ hg
        | false =>
          simp only [Bool.false_eq_true, and_false, if_false, bind, Except.bind, pure, Except.pure]
          exact ih _ _ _ hg
      | durable d y =>
        simp only [Kind.isSequential, Bool.false_eq_true, and_false, if_false]
        exact ih _ _ _ hg
      | chord b d y =>
        simp only [Kind.isSequential, Bool.false_eq_true, and_false, if_false]
        exact ih _ _ _ hg
      | afterGrace =>
        simp only [Kind.isSequential, Bool.false_eq_true, and_false, if_false]
        exact ih _ _ _ hg
      | reference n =>
        simp only [Kind.isSequential, Bool.false_eq_true, and_false, if_false]
        exact ih _ _ _ hg
      | other =>
        simp only [Kind.isSequential, Bool.false_eq_true, and_false, if_false]
        exact ih _ _ _ hg

end Quickly.Time
