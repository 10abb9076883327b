import Verif.PitchTime.Spec
import Verif.RhythmTime.Time

/-! # Music with other nodes that take no time -/

namespace Quickly.PitchTime

open Quickly.Duration (Transform)
open Quickly.Time

/-- Variables have the same length, and it is not negative. -/
def RemR (rem rem' : Remote) : Prop := ∀ (tr : Transform) (n : String), 0 ≤ tr.scale → rem' tr n = rem tr n ∧ ∀ q, rem tr n = .ok q → 0 ≤ q

/-- The music has the same length wherever it is, and it is not negative. -/
structure R (m m' : Mus) : Prop where
  music : m'.kind.isMusic = m.kind.isMusic
  ref : ∀ n, m'.kind = .reference n ↔ m.kind = .reference n
  len : ∀ (rem rem' : Remote) (tr : Transform), RemR rem rem' → 0 ≤ tr.scale → length rem' tr m' = length rem tr m
  nonneg : ∀ (rem rem' : Remote) (tr : Transform) (q : ℚ), RemR rem rem' → 0 ≤ tr.scale → length rem tr m = .ok q → 0 ≤ q

/-- In each of the lists there may be other nodes that are no music. -/
inductive RL : List Mus → List Mus → Prop
  | nil : RL [] []
  | keep {m m' : Mus} {ms ms' : List Mus} : R m m' → RL ms ms' → RL (m :: ms) (m' :: ms')
  | drop {m : Mus} {ms ms' : List Mus} : m.kind = .other → RL ms ms' → RL (m :: ms) ms'
  | add {m : Mus} {ms ms' : List Mus} : m.kind = .other → RL ms ms' → RL ms (m :: ms')

theorem length_of_other {m : Mus} (h : m.kind = .other) (rem : Remote) (tr : Transform) : length rem tr m = .ok 0 := by
  obtain ⟨k, cs⟩ := m
  simp only [Mus.kind] at h
  subst h
  simp [length, Kind.isMusic]

section
variable {rem rem' : Remote} {tr : Transform}

theorem sum_rel (hr : RemR rem rem') (ht : 0 ≤ tr.scale) {ms ms' : List Mus} (h : RL ms ms') : ∀ acc : ℚ,
    pySum acc ((lengths rem' tr ms').map (·.2)) = pySum acc ((lengths rem tr ms).map (·.2)) := by
  induction h with
  | nil => intro acc; rfl
  | @keep m m' _ _ h _ ih =>
    intro acc
    simp only [lengths, List.map_cons, h.len rem rem' tr hr ht]
    cases length rem tr m with
    | error e => rfl
    | ok x => exact ih _
  | drop h _ ih =>
    intro acc
    simp only [lengths, List.map_cons, length_of_other h, pySum, add_zero, ih]
  | add h _ ih =>
    intro acc
    simp only [lengths, List.map_cons, length_of_other h, pySum, add_zero, ih]

theorem maxFrom_rel (hr : RemR rem rem') (ht : 0 ≤ tr.scale) {ms ms' : List Mus} (h : RL ms ms') : ∀ acc : ℚ, 0 ≤ acc →
    pyMaxFrom acc ((lengths rem' tr ms').map (·.2)) = pyMaxFrom acc ((lengths rem tr ms).map (·.2)) := by
  induction h with
  | nil => intro acc _; rfl
  | @keep m m' _ _ h _ ih =>
    intro acc ha
    simp only [lengths, List.map_cons, h.len rem rem' tr hr ht]
    cases length rem tr m with
    | error e => rfl
    | ok x =>
      simp only [pyMaxFrom]
      apply ih
      split
      · linarith
      · exact ha
  | drop h _ ih =>
    intro acc ha
    simp only [lengths, List.map_cons, length_of_other h, pyMaxFrom]
    rw [if_neg (by linarith)]
    exact ih acc ha
  | add h _ ih =>
    intro acc ha
    simp only [lengths, List.map_cons, length_of_other h, pyMaxFrom]
    rw [if_neg (by linarith)]
    exact ih acc ha

theorem max_eq (xs : List (Py ℚ)) (h : ∀ q, .ok q ∈ xs → 0 ≤ q) : pyMax xs = pyMaxFrom 0 xs := by
  cases xs with
  | nil => rfl
  | cons x xs =>
    cases x with
    | error e => rfl
    | ok x =>
      have hx := h x (by simp)
      simp only [pyMax, pyMaxFrom]
      split
      · rfl
      · rw [show x = 0 by linarith]

theorem nonneg_right (hr : RemR rem rem') (ht : 0 ≤ tr.scale) {ms ms' : List Mus} (h : RL ms ms') :
    (∀ q, .ok q ∈ (lengths rem tr ms).map (·.2) → 0 ≤ q) ∧ ∀ q, .ok q ∈ (lengths rem' tr ms').map (·.2) → 0 ≤ q := by
  induction h with
  | nil => simp [lengths]
  | keep h _ ih =>
    constructor
    · intro q hq
      simp only [lengths, List.map_cons, List.mem_cons] at hq
      rcases hq with hq | hq
      · exact h.nonneg rem rem' tr q hr ht hq.symm
      · exact ih.1 q hq
    · intro q hq
      simp only [lengths, List.map_cons, List.mem_cons] at hq
      rcases hq with hq | hq
      · exact h.nonneg rem rem' tr q hr ht (by rw [← h.len rem rem' tr hr ht]; exact hq.symm)
      · exact ih.2 q hq
  | drop h _ ih =>
    refine ⟨?_, ih.2⟩
    intro q hq
    simp only [lengths, List.map_cons, List.mem_cons, length_of_other h] at hq
    rcases hq with hq | hq
    · cases hq; exact le_refl _
    · exact ih.1 q hq
  | add h _ ih =>
    refine ⟨ih.1, ?_⟩
    intro q hq
    simp only [lengths, List.map_cons, List.mem_cons, length_of_other h] at hq
    rcases hq with hq | hq
    · cases hq; exact le_refl _
    · exact ih.2 q hq

theorem first_rel (hr : RemR rem rem') (ht : 0 ≤ tr.scale) {ms ms' : List Mus} (h : RL ms ms') :
    firstMusic (lengths rem' tr ms') = firstMusic (lengths rem tr ms) := by
  induction h with
  | nil => rfl
  | keep h _ ih => simp only [lengths, firstMusic, h.music, h.len rem rem' tr hr ht, ih]
  | drop h _ ih => simp only [lengths, firstMusic, h, Kind.isMusic, ih, Bool.false_eq_true, if_false]
  | add h _ ih => simp only [lengths, firstMusic, h, Kind.isMusic, ih, Bool.false_eq_true, if_false]

theorem sum_nonneg (xs : List (Py ℚ)) : ∀ acc : ℚ, 0 ≤ acc → (∀ q, .ok q ∈ xs → 0 ≤ q) → ∀ q, pySum acc xs = .ok q → 0 ≤ q := by
  induction xs with
  | nil => intro acc ha _ q hq; cases hq; exact ha
  | cons x xs ih =>
    intro acc ha h q hq
    cases x with
    | error e => cases hq
    | ok x => exact ih _ (add_nonneg ha (h x (by simp))) (fun q hq => h q (by simp [hq])) q hq

theorem maxFrom_nonneg (xs : List (Py ℚ)) : ∀ acc : ℚ, 0 ≤ acc → ∀ q, pyMaxFrom acc xs = .ok q → 0 ≤ q := by
  induction xs with
  | nil => intro acc ha q hq; cases hq; exact ha
  | cons x xs ih =>
    intro acc ha q hq
    cases x with
    | error e => cases hq
    | ok x =>
      simp only [pyMaxFrom] at hq
      refine ih _ ?_ q hq
      split
      · linarith
      · exact ha

theorem first_nonneg (xs : List (Kind × Py ℚ)) (h : ∀ q, .ok q ∈ xs.map (·.2) → 0 ≤ q) : ∀ q, firstMusic xs = .ok q → 0 ≤ q := by
  induction xs with
  | nil => intro q hq; cases hq; exact le_refl _
  | cons x xs ih =>
    intro q hq
    simp only [firstMusic] at hq
    split at hq
    · exact h q (by simp [hq])
    · exact ih (fun q hq => h q (by simp only [List.map_cons, List.mem_cons]; exact .inr hq)) q hq
end

theorem shift_nonneg (d : ℚ) (l k : ℤ) (q : ℚ) (h : Duration.shiftDuration d l k = .ok q) : 0 ≤ q := by
  simp only [Duration.shiftDuration, Duration.duration] at h
  split at h
  · cases h
  · split at h
    · cases h
    · simp only [Except.ok.injEq] at h
      rw [← h]
      apply div_nonneg
      · have : (1 : ℤ) ≤ 2 ^ (max 0 ((Duration.logDotcount d).2 + k)).toNat := by exact_mod_cast Nat.one_le_two_pow
        have h2 : (0 : ℤ) ≤ (2 * 2 ^ (max 0 ((Duration.logDotcount d).2 + k)).toNat - 1) * 2 ^ 3 := by
          apply mul_nonneg <;> linarith
        exact_mod_cast h2
      · positivity

theorem length_nonneg (tr : Transform) (ht : 0 ≤ tr.scale) (d s : ℚ) (hd : 0 ≤ d) (hs : 0 ≤ s) (q : ℚ) (h : tr.length d s = .ok q) : 0 ≤ q := by
  simp only [Duration.Transform.length, Duration.Transform.transform] at h
  split at h
  · rename_i d' s' e
    simp only [Except.ok.injEq] at h
    split at e
    · split at e
      · rename_i e2
        simp only [Except.ok.injEq, Prod.mk.injEq] at e
        rw [← h, ← e.1, ← e.2]
        exact mul_nonneg (shift_nonneg _ _ _ _ e2) (mul_nonneg hs ht)
      · cases e
    · simp only [Except.ok.injEq, Prod.mk.injEq] at e
      rw [← h, ← e.1, ← e.2]
      exact mul_nonneg hd (mul_nonneg hs ht)
  · cases h

/-- No negative times in a kind. -/
def NN : Kind → Prop
  | .durable d s | .chord _ d s => 0 ≤ d ∧ 0 ≤ s
  | .music _ (some t) => 0 ≤ t.scale
  | _ => True

theorem enter_scale {tr : Transform} {k : Kind} (hk : NN k) (ht : 0 ≤ tr.scale) : 0 ≤ (enter tr k).scale := by
  unfold enter
  split
  · split
    · simp only [Duration.Transform.add]
      exact mul_nonneg ht hk
    · exact ht
  · exact ht

theorem R_node (k : Kind) {ms ms' : List Mus} (hk : NN k) (h : RL ms ms') : R (.node k ms) (.node k ms') where
  music := rfl
  ref _ := Iff.rfl
  len rem rem' tr hr ht := by
    have ht' := enter_scale hk ht
    obtain ⟨n1, n2⟩ := nonneg_right hr ht' h
    cases k with
    | reference n => exact (hr tr n ht).1
    | other => rfl
    | durable d s => rfl
    | chord n d s => rfl
    | afterGrace => simp only [length, Kind.isMusic, if_true, timeLength, upto]; exact first_rel hr ht' h
    | music s t =>
      simp only [length, Kind.isMusic, if_true, timeLength, upto]
      split
      · exact sum_rel hr ht' h 0
      · rw [max_eq _ n1, max_eq _ n2]
        exact maxFrom_rel hr ht' h 0 (le_refl _)
  nonneg rem rem' tr q hr ht := by
    have ht' := enter_scale hk ht
    obtain ⟨n1, n2⟩ := nonneg_right hr ht' h
    cases k with
    | reference n => exact (hr tr n ht).2 q
    | other => intro e; cases e; exact le_refl _
    | durable d s => exact length_nonneg _ ht' d s hk.1 hk.2 q
    | chord n d s =>
      simp only [length, Kind.isMusic, if_true, timeLength]
      split
      · exact length_nonneg _ ht' d s hk.1 hk.2 q
      · intro e; cases e; exact le_refl _
    | afterGrace => simp only [length, Kind.isMusic, if_true, timeLength, upto]; exact first_nonneg _ n1 q
    | music s t =>
      simp only [length, Kind.isMusic, if_true, timeLength, upto]
      split
      · exact sum_nonneg _ 0 (le_refl _) n1 q
      · rw [max_eq _ n1]
        exact maxFrom_nonneg _ 0 (le_refl _) q

/-- Nodes of which the length is zero. -/
def Zero (m : Mus) : Prop := ∀ rem tr, length rem tr m = .ok 0

theorem maxFrom_zeros (rem : Remote) (tr : Transform) (zs : List Mus) (hz : ∀ z ∈ zs, Zero z) (rest : List (Py ℚ)) : ∀ acc : ℚ, 0 ≤ acc →
    pyMaxFrom acc ((lengths rem tr zs).map (·.2) ++ rest) = pyMaxFrom acc rest := by
  induction zs with
  | nil => intro acc _; rfl
  | cons z zs ih =>
    intro acc ha
    simp only [lengths, List.map_cons, List.cons_append, hz z (by simp) rem tr, pyMaxFrom]
    rw [if_neg (by linarith)]
    exact ih (fun z h => hz z (by simp [h])) acc ha

theorem lengths_append (rem : Remote) (tr : Transform) (a b : List Mus) : lengths rem tr (a ++ b) = lengths rem tr a ++ lengths rem tr b := by
  induction a with
  | nil => rfl
  | cons x a ih => simp [lengths, ih]

/-- Instead of music that consists of one other music, and nodes that take no time, there is that music. -/
theorem R_hoist {m m' : Mus} (pre post : List Mus) (hpre : ∀ z ∈ pre, Zero z) (hpost : ∀ z ∈ post, Zero z) (hm : m.kind.isMusic = true) (h : R m m') :
    R (.node (.music false none) (pre ++ m :: post)) m' := by
  have key : ∀ (rem rem' : Remote) (tr : Transform), RemR rem rem' → 0 ≤ tr.scale →
      length rem tr (.node (.music false none) (pre ++ m :: post)) = length rem tr m := by
    intro rem rem' tr hr ht
    simp only [length, Kind.isMusic, if_true, timeLength, Bool.false_eq_true, if_false, enter]
    have hn : ∀ q, .ok q ∈ (lengths rem tr (pre ++ m :: post)).map (·.2) → 0 ≤ q := by
      have h0 : ∀ zs : List Mus, (∀ z ∈ zs, Zero z) → ∀ q, .ok q ∈ (lengths rem tr zs).map (·.2) → 0 ≤ q := by
        intro zs
        induction zs with
        | nil => simp [lengths]
        | cons z zs ih =>
          intro hz q hq
          simp only [lengths, List.map_cons, List.mem_cons, hz z (by simp) rem tr] at hq
          rcases hq with hq | hq
          · cases hq; exact le_refl _
          · exact ih (fun z h => hz z (by simp [h])) q hq
      intro q hq
      rw [lengths_append, lengths, List.map_append, List.map_cons, List.mem_append, List.mem_cons] at hq
      rcases hq with hq | hq | hq
      · exact h0 pre hpre q hq
      · exact h.nonneg rem rem' tr q hr ht hq.symm
      · exact h0 post hpost q hq
    rw [max_eq _ hn, lengths_append, lengths, List.map_append, List.map_cons, maxFrom_zeros rem tr pre hpre _ 0 (le_refl _)]
    cases hl : length rem tr m with
    | error e => rfl
    | ok x =>
      have hx := h.nonneg rem rem' tr x hr ht hl
      have := maxFrom_zeros rem tr post hpost [] (if 0 < x then x else 0) (by split <;> linarith)
      rw [List.append_nil] at this
      simp only [pyMaxFrom, this]
      split
      · rfl
      · rw [show x = 0 by linarith]
  have href : ∀ n, m'.kind = .reference n ↔ (Mus.node (.music false none) (pre ++ m :: post)).kind = .reference n := by
    intro n
    rw [h.ref n]
    constructor
    · intro e; rw [e] at hm; cases hm
    · intro e; cases e
  exact ⟨by rw [h.music, hm]; rfl, href,
    fun rem rem' tr hr ht => by rw [h.len rem rem' tr hr ht, key rem rem' tr hr ht],
    fun rem rem' tr q hr ht => by rw [key rem rem' tr hr ht]; exact h.nonneg rem rem' tr q hr ht⟩

/-- The same for variables. -/
inductive EnvR : Env → Env → Prop
  | nil : EnvR [] []
  | cons {n : String} {m m' : Mus} {e e' : Env} : R m m' → EnvR e e' → EnvR ((n, m) :: e) ((n, m') :: e')

theorem env_rel {e e' : Env} (h : EnvR e e') : RemR (remoteLength e) (remoteLength e') := by
  induction h with
  | nil => intro tr n _; exact ⟨rfl, fun q hq => by cases hq⟩
  | @cons name m m' e e' h _ ih =>
    intro tr n ht
    simp only [remoteLength]
    by_cases hn : name = n
    · simp only [if_pos hn]
      cases hk : m.kind with
      | reference r =>
        rw [(h.ref r).2 hk]
        exact ih tr r ht
      | _ =>
        have h1 := h.music
        have hnr : ∀ r, m'.kind ≠ .reference r := fun r hr => by have := (h.ref r).1 hr; rw [hk] at this; cases this
        have hl := h.len _ _ tr ih ht
        have hq := fun q => h.nonneg _ _ tr q ih ht
        rw [hk] at h1
        cases hk' : m'.kind with
        | reference r => exact absurd hk' (hnr r)
        | _ =>
          rw [hk'] at h1
          simp only [Kind.isMusic] at h1
          simp only [Kind.isMusic, if_true, Bool.false_eq_true, if_false]
          first
          | exact ⟨hl, hq⟩
          | exact ⟨trivial, fun q hq => by cases hq; exact le_refl _⟩
          | cases h1
    · simp only [if_neg hn]
      exact ih tr n ht

end Quickly.PitchTime
