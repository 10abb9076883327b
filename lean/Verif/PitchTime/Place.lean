import Verif.PitchTime.Mus

/-! # Where music takes place, with other nodes that take no time -/

namespace Quickly.PitchTime

open Quickly.Duration (Transform)
open Quickly.Time

/-- The nodes at the paths are related, and so are all others. -/
inductive PR : Mus → Mus → List ℕ → List ℕ → Prop
  | here {m m' : Mus} : R m m' → PR m m' [] []
  | down {k : Kind} {ms ms' : List Mus} {x x' : Mus} {ns ns' : List Mus} {i j : List ℕ} : NN k → RL ms ms' → PR x x' i j → RL ns ns' →
      PR (.node k (ms ++ x :: ns)) (.node k (ms' ++ x' :: ns')) (ms.length :: i) (ms'.length :: j)
  | hoist {pre post : List Mus} {m m' : Mus} {i j : List ℕ} : (∀ z ∈ pre, Zero z) → (∀ z ∈ post, Zero z) → m.kind.isMusic = true → PR m m' i j →
      PR (.node (.music false none) (pre ++ m :: post)) m' (pre.length :: i) j

theorem RL.append {a b a' b' : List Mus} (h : RL a a') (g : RL b b') : RL (a ++ b) (a' ++ b') := by
  induction h with
  | nil => exact g
  | keep h _ ih => exact .keep h ih
  | drop h _ ih => exact .drop h ih
  | add h _ ih => exact .add h ih

theorem PR.rel {m m' : Mus} {i j : List ℕ} (h : PR m m' i j) : R m m' := by
  induction h with
  | here h => exact h
  | down hk h1 _ h2 ih => exact R_node _ hk (h1.append (.keep ih h2))
  | hoist h1 h2 hm _ ih => exact R_hoist _ _ h1 h2 hm ih

theorem get_app (ms : List Mus) (x : Mus) (ns : List Mus) : (ms ++ x :: ns)[ms.length]? = some x := by simp

/-! ## The topmost music -/

theorem climb_succ (k : Kind) (ms : List Mus) (x : Mus) (ns : List Mus) (path : List ℕ) : ∀ n : ℕ,
    climb (.node k (ms ++ x :: ns)) (ms.length :: path) (n + 1) = if climb x path n = 0 then (if k.isMusic then 0 else 1) else climb x path n + 1 := by
  have hm : ∀ n, musicAt (.node k (ms ++ x :: ns)) (List.take (n + 1) (ms.length :: path)) = musicAt x (path.take n) := by
    intro n
    simp only [List.take_succ_cons, musicAt, Time.get, Mus.children, get_app]
  intro n
  induction n with
  | zero =>
    simp only [climb, List.take_zero, musicAt, Time.get, Mus.kind]
    rfl
  | succ n ih =>
    rw [climb, hm, ih]
    conv => rhs; simp only [climb]
    by_cases h : musicAt x (path.take n) = true
    · simp only [h, if_true]
    · simp only [h, if_false]
      simp

theorem climb_cons (k : Kind) (ms : List Mus) (x : Mus) (ns : List Mus) (path : List ℕ) :
    climb (.node k (ms ++ x :: ns)) (ms.length :: path) (ms.length :: path).length =
      if climb x path path.length = 0 then (if k.isMusic then 0 else 1) else climb x path path.length + 1 := climb_succ k ms x ns path _

/-- The length of the node at a path, if all above it is music. -/
def lenFrom (rem : Remote) (tr : Transform) (m : Mus) (path : List ℕ) : Py ℚ :=
  match Time.get m path with
  | some node => length rem (enterAll tr m path) node
  | none => .error .indexError

theorem lenFrom_cons (rem : Remote) (tr : Transform) (k : Kind) (ms : List Mus) (x : Mus) (ns : List Mus) (path : List ℕ) :
    lenFrom rem tr (.node k (ms ++ x :: ns)) (ms.length :: path) = lenFrom rem (enter tr k) x path := by
  simp only [lenFrom, Time.get, enterAll, Mus.children, get_app, Mus.kind]

theorem lengthAt_zero (rem : Remote) (m : Mus) (path : List ℕ) (h : climb m path path.length = 0) : lengthAt rem m path = lenFrom rem {} m path := by
  simp only [lengthAt, precedingMusic, h, List.take_zero, List.drop_zero, Time.get, lenFrom]
  cases hg : Time.get m path with
  | none => rfl
  | some n =>
    simp only
    cases hk : n.kind with
    | other => simp only [length_of_other hk]
    | _ => rfl

theorem lengthAt_cons (rem : Remote) (k : Kind) (ms : List Mus) (x : Mus) (ns : List Mus) (path : List ℕ)
    (h : climb x path path.length ≠ 0 ∨ k.isMusic = false) :
    lengthAt rem (.node k (ms ++ x :: ns)) (ms.length :: path) = lengthAt rem x path := by
  have hc : climb (.node k (ms ++ x :: ns)) (ms.length :: path) (ms.length :: path).length = climb x path path.length + 1 := by
    rw [climb_cons]
    by_cases h0 : climb x path path.length = 0
    · rcases h with h | h
      · exact absurd h0 h
      · simp [h0, h]
    · rw [if_neg h0]
  simp only [lengthAt, precedingMusic, hc, List.take_succ_cons, List.drop_succ_cons, Time.get, Mus.children, get_app]

/-- The time of the node at a path, in the topmost music. -/
def time (rem : Remote) (root : Mus) (path : List ℕ) (incl : Bool) : Py ℚ := (position rem root path incl).map (·.2)

/-- The time from the beginning of a node that is music. -/
def timeFrom (rem : Remote) (tr : Transform) (m : Mus) (acc : ℚ) (path : List ℕ) (incl : Bool) : Py ℚ :=
  match followTrail rem tr m acc path with
  | .error e => .error e
  | .ok (tr, node, len) =>
    if incl then
      match length rem tr node with
      | .error e => .error e
      | .ok x => .ok (len + x)
    else .ok len

theorem time_zero (rem : Remote) (m : Mus) (path : List ℕ) (incl : Bool) (h : climb m path path.length = 0) :
    time rem m path incl = timeFrom rem {} m 0 path incl := by
  simp only [time, position, precedingMusic, h, List.take_zero, List.drop_zero, Time.get, timeFrom]
  cases followTrail rem {} m 0 path with
  | error e => rfl
  | ok a =>
    obtain ⟨t, n, l⟩ := a
    simp only [bind, Except.bind]
    cases incl
    · rfl
    · simp only [if_true]
      cases length rem t n <;> rfl

theorem time_cons (rem : Remote) (k : Kind) (ms : List Mus) (x : Mus) (ns : List Mus) (path : List ℕ) (incl : Bool)
    (h : climb x path path.length ≠ 0 ∨ k.isMusic = false) :
    time rem (.node k (ms ++ x :: ns)) (ms.length :: path) incl = time rem x path incl := by
  have hc : climb (.node k (ms ++ x :: ns)) (ms.length :: path) (ms.length :: path).length = climb x path path.length + 1 := by
    rw [climb_cons]
    by_cases h0 : climb x path path.length = 0
    · rcases h with h | h
      · exact absurd h0 h
      · simp [h0, h]
    · rw [if_neg h0]
  simp only [time, position, precedingMusic, hc, List.take_succ_cons, List.drop_succ_cons, Time.get, Mus.children, get_app]
  cases Time.get x (List.take (climb x path path.length) path) with
  | none => rfl
  | some m =>
    simp only [bind, Except.bind]
    cases followTrail rem {} m 0 (List.drop (climb x path path.length) path) with
    | error e => rfl
    | ok a =>
      obtain ⟨t, n, l⟩ := a
      cases incl
      · rfl
      · simp only [if_true]
        cases length rem t n <;> rfl

theorem lengths_length (rem : Remote) (tr : Transform) (ms : List Mus) : (lengths rem tr ms).length = ms.length := by
  induction ms with
  | nil => rfl
  | cons m ms ih => simp only [lengths, List.length_cons, ih]

theorem timeFrom_cons (rem : Remote) (tr : Transform) (k : Kind) (ms : List Mus) (x : Mus) (ns : List Mus) (acc : ℚ) (path : List ℕ) (incl : Bool) :
    timeFrom rem tr (.node k (ms ++ x :: ns)) acc (ms.length :: path) incl =
      if k.isSequential then
        match pySum 0 ((lengths rem (enter tr k) ms).map (·.2)) with
        | .error e => .error e
        | .ok q => timeFrom rem (enter tr k) x (acc + q) path incl
      else timeFrom rem (enter tr k) x acc path incl := by
  have hchild : child (.node k (ms ++ x :: ns)) ms.length = .ok x := by
    simp only [child, Mus.children, get_app]
  simp only [timeFrom, followTrail, Mus.kind, hchild, Mus.children]
  by_cases hs : k.isSequential = true
  · have hk : ∃ t, k = .music true t := by
      cases k <;> simp only [Kind.isSequential, Bool.false_eq_true] at hs
      exact ⟨_, by rw [hs]⟩
    obtain ⟨t, rfl⟩ := hk
    simp only [Kind.isSequential, if_true, and_true]
    have htl : timeLength (enter tr (.music true t)) (.music true t) (lengths rem (enter tr (.music true t)) (ms ++ x :: ns)) (some ms.length) =
        pySum 0 ((lengths rem (enter tr (.music true t)) ms).map (·.2)) := by
      simp only [timeLength, if_true, upto, lengths_append]
      congr 2
      have := lengths_length rem (enter tr (.music true t)) ms
      rw [← this]
      simp
    rw [htl]
    by_cases h0 : ms = []
    · subst h0
      simp [lengths, pySum, bind, Except.bind, pure, Except.pure]
    · rw [if_pos (by simpa using h0)]
      cases pySum 0 ((lengths rem (enter tr (.music true t)) ms).map (·.2)) with
      | error e => rfl
      | ok q => rfl
  · rw [if_neg (fun e => hs e.2), if_neg hs]
    rfl

/-- The nodes at the paths take the same time, at the same time. -/
theorem place_rel {m m' : Mus} {i j : List ℕ} (h : PR m m' i j) (rem rem' : Remote) (hr : RemR rem rem') :
    (climb m' j j.length = 0 ↔ climb m i i.length = 0) ∧ (∀ tr : Transform, 0 ≤ tr.scale → lenFrom rem' tr m' j = lenFrom rem tr m i) ∧
      lengthAt rem' m' j = lengthAt rem m i ∧
      ∀ incl, (∀ (tr : Transform) (acc : ℚ), 0 ≤ tr.scale → timeFrom rem' tr m' acc j incl = timeFrom rem tr m acc i incl) ∧
        time rem' m' j incl = time rem m i incl := by
  have h1 : (0 : ℚ) ≤ ({} : Transform).scale := by decide
  induction h with
  | @here m m' h =>
    have hl : ∀ tr : Transform, 0 ≤ tr.scale → lenFrom rem' tr m' [] = lenFrom rem tr m [] := fun tr ht => h.len rem rem' tr hr ht
    have ht : ∀ incl (tr : Transform) (acc : ℚ), 0 ≤ tr.scale → timeFrom rem' tr m' acc [] incl = timeFrom rem tr m acc [] incl := by
      intro incl tr acc ht
      simp only [timeFrom, followTrail, h.len rem rem' tr hr ht]
    refine ⟨Iff.rfl, hl, ?_, fun incl => ⟨ht incl, ?_⟩⟩
    · rw [lengthAt_zero _ _ _ rfl, lengthAt_zero _ _ _ rfl, hl _ h1]
    · rw [time_zero _ _ _ _ rfl, time_zero _ _ _ _ rfl, ht incl _ _ h1]
  | @down k ms ms' x x' ns ns' i j hk hm h hn ih =>
    obtain ⟨i1, i2, i3, i4⟩ := ih
    have c1 : climb (.node k (ms' ++ x' :: ns')) (ms'.length :: j) (ms'.length :: j).length = 0 ↔
        climb (.node k (ms ++ x :: ns)) (ms.length :: i) (ms.length :: i).length = 0 := by
      rw [climb_cons, climb_cons]
      by_cases h0 : climb x i i.length = 0
      · rw [if_pos h0, if_pos (i1.2 h0)]
      · rw [if_neg h0, if_neg (fun e => h0 (i1.1 e))]
        simp
    have c2 : ∀ tr : Transform, 0 ≤ tr.scale → lenFrom rem' tr (.node k (ms' ++ x' :: ns')) (ms'.length :: j) =
        lenFrom rem tr (.node k (ms ++ x :: ns)) (ms.length :: i) := by
      intro tr ht
      rw [lenFrom_cons, lenFrom_cons]
      exact i2 _ (enter_scale hk ht)
    have c3 : ∀ incl (tr : Transform) (acc : ℚ), 0 ≤ tr.scale → timeFrom rem' tr (.node k (ms' ++ x' :: ns')) acc (ms'.length :: j) incl =
        timeFrom rem tr (.node k (ms ++ x :: ns)) acc (ms.length :: i) incl := by
      intro incl tr acc ht
      have ht' := enter_scale hk ht
      rw [timeFrom_cons, timeFrom_cons, sum_rel hr ht' hm 0]
      split
      · split
        · rfl
        · exact (i4 incl).1 _ _ ht'
      · exact (i4 incl).1 _ _ ht'
    refine ⟨c1, c2, ?_, fun incl => ⟨c3 incl, ?_⟩⟩
    · by_cases h0 : climb (.node k (ms ++ x :: ns)) (ms.length :: i) (ms.length :: i).length = 0
      · rw [lengthAt_zero _ _ _ h0, lengthAt_zero _ _ _ (c1.2 h0), c2 _ h1]
      · have h2 : climb x i i.length ≠ 0 ∨ k.isMusic = false := by
          rw [climb_cons] at h0
          by_cases h2 : climb x i i.length = 0
          · rw [if_pos h2] at h0
            by_cases h3 : k.isMusic = true
            · rw [if_pos h3] at h0; exact absurd rfl h0
            · exact .inr (by simpa using h3)
          · exact .inl h2
        rw [lengthAt_cons _ _ _ _ _ _ h2, lengthAt_cons _ _ _ _ _ _ (h2.imp_left fun e e' => e (i1.1 e')), i3]
    · by_cases h0 : climb (.node k (ms ++ x :: ns)) (ms.length :: i) (ms.length :: i).length = 0
      · rw [time_zero _ _ _ _ h0, time_zero _ _ _ _ (c1.2 h0), c3 _ _ _ h1]
      · have h2 : climb x i i.length ≠ 0 ∨ k.isMusic = false := by
          rw [climb_cons] at h0
          by_cases h2 : climb x i i.length = 0
          · rw [if_pos h2] at h0
            by_cases h3 : k.isMusic = true
            · rw [if_pos h3] at h0; exact absurd rfl h0
            · exact .inr (by simpa using h3)
          · exact .inl h2
        rw [time_cons _ _ _ _ _ _ _ h2, time_cons _ _ _ _ _ _ _ (h2.imp_left fun e e' => e (i1.1 e')), (i4 incl).2]
  | @hoist pre post m m' i j hpre hpost hm h ih =>
    obtain ⟨i1, i2, i3, i4⟩ := ih
    have c1 : climb m' j j.length = 0 ↔ climb (.node (.music false none) (pre ++ m :: post)) (pre.length :: i) (pre.length :: i).length = 0 := by
      rw [climb_cons, i1]
      by_cases h0 : climb m i i.length = 0
      · rw [if_pos h0]; simp [h0, Kind.isMusic]
      · rw [if_neg h0]; simp [h0]
    have c2 : ∀ tr : Transform, 0 ≤ tr.scale → lenFrom rem' tr m' j = lenFrom rem tr (.node (.music false none) (pre ++ m :: post)) (pre.length :: i) := by
      intro tr ht
      rw [lenFrom_cons]
      exact i2 tr ht
    have c3 : ∀ incl (tr : Transform) (acc : ℚ), 0 ≤ tr.scale → timeFrom rem' tr m' acc j incl =
        timeFrom rem tr (.node (.music false none) (pre ++ m :: post)) acc (pre.length :: i) incl := by
      intro incl tr acc ht
      rw [timeFrom_cons]
      exact (i4 incl).1 tr acc ht
    refine ⟨c1, c2, ?_, fun incl => ⟨c3 incl, ?_⟩⟩
    · by_cases h0 : climb m i i.length = 0
      · rw [lengthAt_zero _ _ _ (i1.2 h0), lengthAt_zero _ _ _ (c1.1 (i1.2 h0)), c2 _ h1]
      · rw [lengthAt_cons _ _ _ _ _ _ (.inl h0), i3]
    · by_cases h0 : climb m i i.length = 0
      · rw [time_zero _ _ _ _ (i1.2 h0), time_zero _ _ _ _ (c1.1 (i1.2 h0)), c3 _ _ _ h1]
      · rw [time_cons _ _ _ _ _ _ _ (.inl h0), (i4 incl).2]

end Quickly.PitchTime
