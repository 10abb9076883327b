import Verif.RhythmTime.Model
import Verif.RhythmTime.Spec
import Mathlib.Tactic.Ring
import Mathlib.Tactic.Linarith
import Mathlib.Algebra.Order.Ring.Rat

/-! # Music with other durations, and the time in it -/

namespace Quickly.RhythmTime

open Quickly.Node Quickly.Signature Quickly.Length
open Quickly.Duration (Transform)
open Quickly.Time (Mus Kind Remote)

/-- Both raise the same exception, or both give a result and these are related. -/
def PyRel {α β : Type} (R : α → β → Prop) : Py α → Py β → Prop
  | .ok a, .ok b => R a b
  | .error e, .error f => e = f
  | _, _ => False

/-- The kinds are equal but for the durations. -/
def kindRel (E : D → D → Prop) : Kind → Kind → Prop
  | .durable d s, k' => ∃ d' s', k' = .durable d' s' ∧ E (d, s) (d', s')
  | .chord n d s, k' => ∃ d' s', k' = .chord n d' s' ∧ E (d, s) (d', s')
  | k, k' => k' = k

/-- The children of these do not matter for the length. -/
def Closed : Kind → Prop
  | .durable .. | .chord .. | .reference _ | .other => True
  | _ => False

instance (k : Kind) : Decidable (Closed k) := by
  cases k <;> simp only [Closed] <;> infer_instance

mutual
/-- The trees are equal but for the durations, and what is in nodes that are not other music. -/
def musRel (T : Transform → Prop) (E : D → D → Prop) : Mus → Mus → Prop
  | .node k cs, .node k' cs' =>
    kindRel E k k' ∧ (¬Closed k → (∀ tr, T tr → T (Time.enter tr k)) ∧ musRelL T E cs cs')
/-- The same for lists. -/
def musRelL (T : Transform → Prop) (E : D → D → Prop) : List Mus → List Mus → Prop
  | [], [] => True
  | c :: cs, c' :: cs' => musRel T E c c' ∧ musRelL T E cs cs'
  | _, _ => False
end

variable {T : Transform → Prop} {E : D → D → Prop} {c : ℚ}

theorem kindRel_isMusic {k k' : Kind} (h : kindRel E k k') : k'.isMusic = k.isMusic := by
  cases k <;> simp only [kindRel] at h
  case durable d s => obtain ⟨_, _, rfl, -⟩ := h; rfl
  case chord n d s => obtain ⟨_, _, rfl, -⟩ := h; rfl
  all_goals rw [h]

theorem kindRel_sequential {k k' : Kind} (h : kindRel E k k') : k'.isSequential = k.isSequential := by
  cases k <;> simp only [kindRel] at h
  case durable d s => obtain ⟨_, _, rfl, -⟩ := h; rfl
  case chord n d s => obtain ⟨_, _, rfl, -⟩ := h; rfl
  all_goals rw [h]

theorem kindRel_open {k k' : Kind} (h : kindRel E k k') (ho : ¬Closed k) : k' = k := by
  cases k <;> simp only [kindRel, Closed, not_true_eq_false, not_false_eq_true] at h ho <;> exact h

theorem musRel_kind {m m' : Mus} (h : musRel T E m m') : kindRel E m.kind m'.kind := by
  cases m; cases m'; exact h.1

/-! ## Sums and maxima -/

theorem pySum_scale (xs : List (Py ℚ)) : ∀ acc : ℚ,
    Time.pySum (c * acc) (xs.map (·.map (c * ·))) = (Time.pySum acc xs).map (c * ·) := by
  induction xs with
  | nil => intro acc; rfl
  | cons x xs ih =>
    intro acc
    cases x with
    | error e => rfl
    | ok x =>
      simp only [List.map_cons, Except.map, Time.pySum]
      rw [← mul_add]
      exact ih (acc + x)

theorem pyMaxFrom_scale (hc : 0 ≤ c) (xs : List (Py ℚ)) : ∀ acc : ℚ,
    Time.pyMaxFrom (c * acc) (xs.map (·.map (c * ·))) = (Time.pyMaxFrom acc xs).map (c * ·) := by
  induction xs with
  | nil => intro acc; rfl
  | cons x xs ih =>
    intro acc
    cases x with
    | error e => rfl
    | ok x =>
      simp only [List.map_cons, Except.map, Time.pyMaxFrom]
      have : (if c * acc < c * x then c * x else c * acc) = c * (if acc < x then x else acc) := by
        by_cases h : acc < x
        · rw [if_pos h]
          by_cases h0 : c = 0
          · simp [h0]
          · rw [if_pos (mul_lt_mul_of_pos_left h (lt_of_le_of_ne hc (Ne.symm h0)))]
        · rw [if_neg h, if_neg]
          simp only [not_lt] at h ⊢
          exact mul_le_mul_of_nonneg_left h hc
      rw [this]
      exact ih _

theorem pyMax_scale (hc : 0 ≤ c) (xs : List (Py ℚ)) :
    Time.pyMax (xs.map (·.map (c * ·))) = (Time.pyMax xs).map (c * ·) := by
  cases xs with
  | nil => simp [Time.pyMax, Except.map]
  | cons x xs =>
    cases x with
    | error e => rfl
    | ok x => exact pyMaxFrom_scale hc xs x

/-- Lengths of children, and those of the others. -/
def LensRel (c : ℚ) (xs ys : List (Kind × Py ℚ)) : Prop :=
  List.Forall₂ (fun a b => b.1.isMusic = a.1.isMusic ∧ b.2 = a.2.map (c * ·)) xs ys

theorem lensRel_map {xs ys : List (Kind × Py ℚ)} (h : LensRel c xs ys) :
    ys.map (·.2) = (xs.map (·.2)).map (·.map (c * ·)) := by
  induction h with
  | nil => rfl
  | cons h _ ih => simp only [List.map_cons, ih, h.2]

theorem lensRel_first {xs ys : List (Kind × Py ℚ)} (h : LensRel c xs ys) :
    Time.firstMusic ys = (Time.firstMusic xs).map (c * ·) := by
  induction h with
  | nil => simp [Time.firstMusic, Except.map]
  | @cons a b _ _ h _ ih =>
    obtain ⟨k, x⟩ := a
    obtain ⟨k', x'⟩ := b
    simp only at h
    simp only [Time.firstMusic, h.1]
    split
    · exact h.2
    · exact ih

theorem lensRel_upto {xs ys : List (Kind × Py ℚ)} (h : LensRel c xs ys) (stop : Option ℕ) :
    LensRel c (Time.upto xs stop) (Time.upto ys stop) := by
  cases stop with
  | none => exact h
  | some n => exact List.forall₂_take n h

/-- The durations are scaled. -/
def Scales (T : Transform → Prop) (E : D → D → Prop) (c : ℚ) : Prop :=
  ∀ d d', E d d' → ∀ tr, T tr → tr.length d'.1 d'.2 = (tr.length d.1 d.2).map (c * ·)

theorem timeLength_scale (hc : 0 ≤ c) (hE : Scales T E c) {k k' : Kind} (hk : kindRel E k k') (tr : Transform)
    (htr : T tr) {xs ys : List (Kind × Py ℚ)} (hl : ¬Closed k → LensRel c xs ys) (stop : Option ℕ) :
    Time.timeLength tr k' ys stop = (Time.timeLength tr k xs stop).map (c * ·) := by
  cases k <;> simp only [kindRel, Closed, not_true_eq_false, not_false_eq_true, forall_const, IsEmpty.forall_iff] at hk hl
  case durable d s =>
    obtain ⟨d', s', rfl, he⟩ := hk
    exact hE _ _ he tr htr
  case chord n d s =>
    obtain ⟨d', s', rfl, he⟩ := hk
    simp only [Time.timeLength]
    split
    · exact hE _ _ he tr htr
    · simp [Except.map]
  case music seq t =>
    subst hk
    simp only [Time.timeLength]
    split
    · have := pySum_scale (c := c) ((Time.upto xs stop).map (·.2)) 0
      rw [mul_zero] at this
      rw [lensRel_map (lensRel_upto hl stop), this]
    · split
      · rw [lensRel_map hl, pyMax_scale hc]
      · simp [Except.map]
  case afterGrace =>
    subst hk
    exact lensRel_first (lensRel_upto hl stop)
  case reference n => subst hk; simp [Time.timeLength, Except.map]
  case other => subst hk; simp [Time.timeLength, Except.map]

/-- The lengths of variables are scaled. -/
def RemRel (T : Transform → Prop) (c : ℚ) (rem rem' : Remote) : Prop :=
  ∀ tr, T tr → ∀ n, rem' tr n = (rem tr n).map (c * ·)

mutual
theorem length_scale (hc : 0 ≤ c) (hE : Scales T E c) {rem rem' : Remote} (hr : RemRel T c rem rem') :
    ∀ (m m' : Mus), musRel T E m m' → ∀ tr, T tr → Time.length rem' tr m' = (Time.length rem tr m).map (c * ·)
  | .node k cs, .node k' cs', h, tr, htr => by
    obtain ⟨hk, ho⟩ := h
    by_cases hcl : Closed k
    · cases k <;> simp only [Closed] at hcl
      case durable d s =>
        obtain ⟨d', s', rfl, he⟩ := hk
        simp only [Time.length, Kind.isMusic, if_true, Time.enter, Time.timeLength]
        exact hE _ _ he tr htr
      case chord n d s =>
        obtain ⟨d', s', rfl, he⟩ := hk
        simp only [Time.length, Kind.isMusic, if_true, Time.enter, Time.timeLength]
        split
        · exact hE _ _ he tr htr
        · simp [Except.map]
      case reference n =>
        subst hk
        simp only [Time.length]
        exact hr tr htr n
      case other => subst hk; simp [Time.length, Kind.isMusic, Except.map]
    · obtain ⟨hT, hcs⟩ := ho hcl
      have hk' := kindRel_open hk hcl
      subst hk'
      have hl := lengths_scale hc hE hr cs cs' hcs (Time.enter tr k') (hT tr htr)
      cases k' <;> simp only [Closed, not_true_eq_false, not_false_eq_true] at hcl
      all_goals
        simp only [Time.length, Kind.isMusic, if_true]
        exact timeLength_scale hc hE hk _ (hT tr htr) (fun _ => hl) none
theorem lengths_scale (hc : 0 ≤ c) (hE : Scales T E c) {rem rem' : Remote} (hr : RemRel T c rem rem') :
    ∀ (ms ms' : List Mus), musRelL T E ms ms' → ∀ tr, T tr →
      LensRel c (Time.lengths rem tr ms) (Time.lengths rem' tr ms')
  | [], [], _, _, _ => .nil
  | m :: ms, m' :: ms', h, tr, htr => by
    simp only [Time.lengths]
    exact .cons ⟨kindRel_isMusic (musRel_kind h.1), length_scale hc hE hr m m' h.1 tr htr⟩
      (lengths_scale hc hE hr ms ms' h.2 tr htr)
  | [], _ :: _, h, _, _ => h.elim
  | _ :: _, [], h, _, _ => h.elim
end

/-! ## Variables -/

/-- The same names with related values. -/
def EnvRel (T : Transform → Prop) (E : D → D → Prop) (env env' : Time.Env) : Prop :=
  List.Forall₂ (fun a b => b.1 = a.1 ∧ musRel T E a.2 b.2) env env'

theorem remote_scale (hc : 0 ≤ c) (hE : Scales T E c) {env env' : Time.Env} (h : EnvRel T E env env') :
    RemRel T c (Time.remoteLength env) (Time.remoteLength env') := by
  induction h with
  | nil => intro tr _ n; rfl
  | @cons a b env env' h _ ih =>
    obtain ⟨name, m⟩ := a
    obtain ⟨name', m'⟩ := b
    obtain ⟨hn, hm⟩ := h
    simp only at hn hm
    subst hn
    intro tr htr n
    simp only [Time.remoteLength]
    split
    · have hk := musRel_kind hm
      have hl := length_scale hc hE ih m m' hm tr htr
      have hi := kindRel_isMusic hk
      by_cases hcl : Closed m.kind
      · cases hmk : m.kind <;> rw [hmk] at hcl hk <;> simp only [Closed] at hcl
        case durable d s => obtain ⟨d', s', hmk', -⟩ := hk; simp only [hmk', Kind.isMusic, if_true]; exact hl
        case chord n d s => obtain ⟨d', s', hmk', -⟩ := hk; simp only [hmk', Kind.isMusic, if_true]; exact hl
        case reference n' => simp only [kindRel] at hk; simp only [hk]; exact ih tr htr n'
        case other => simp only [kindRel] at hk; simp [hk, Kind.isMusic, Except.map]
      · have hk' := kindRel_open hk hcl
        rw [hk']
        cases m.kind
        case reference n' => exact ih tr htr n'
        all_goals simp only [Kind.isMusic, if_true, hl]
        all_goals simp [Except.map]
    · exact ih tr htr n

/-! ## Positions -/

theorem musRelL_get : ∀ (ms ms' : List Mus), musRelL T E ms ms' → ∀ i : ℕ,
    (ms[i]? = none ∧ ms'[i]? = none) ∨ ∃ m m', ms[i]? = some m ∧ ms'[i]? = some m' ∧ musRel T E m m'
  | [], [], _, i => .inl ⟨by simp, by simp⟩
  | m :: ms, m' :: ms', h, i => by
    cases i with
    | zero => exact .inr ⟨m, m', rfl, rfl, h.1⟩
    | succ i => simpa using musRelL_get ms ms' h.2 i
  | [], _ :: _, h, _ => h.elim
  | _ :: _, [], h, _ => h.elim

/-- On the way to the node the children are related too. -/
def Open (T : Transform → Prop) (E : D → D → Prop) : Mus → Mus → List ℕ → Prop
  | m, m', [] => musRel T E m m'
  | m, m', i :: path => m'.kind = m.kind ∧ musRel T E m m' ∧ (∀ tr, T tr → T (Time.enter tr m.kind)) ∧
      musRelL T E m.children m'.children ∧
      ∀ x x', m.children[i]? = some x → m'.children[i]? = some x' → Open T E x x' path

theorem Open.rel {m m' : Mus} {path : List ℕ} (h : Open T E m m' path) : musRel T E m m' := by
  cases path with
  | nil => exact h
  | cons i path => exact h.2.1

theorem get_rel (path : List ℕ) : ∀ (m m' : Mus), Open T E m m' path →
    (Time.get m path = none ∧ Time.get m' path = none) ∨
      ∃ x x', Time.get m path = some x ∧ Time.get m' path = some x' ∧ musRel T E x x' := by
  induction path with
  | nil => intro m m' h; exact .inr ⟨m, m', rfl, rfl, h⟩
  | cons i path ih =>
    intro m m' ho
    simp only [Time.get]
    rcases musRelL_get _ _ ho.2.2.2.1 i with ⟨h1, h2⟩ | ⟨x, x', h1, h2, hx⟩
    · simp [h1, h2]
    · simp only [h1, h2]
      exact ih x x' (ho.2.2.2.2 x x' h1 h2)

theorem open_take (path : List ℕ) : ∀ (m m' : Mus), Open T E m m' path → ∀ k, Open T E m m' (path.take k) := by
  induction path with
  | nil => intro m m' h k; simpa [Open] using h
  | cons i path ih =>
    intro m m' h k
    cases k with
    | zero => exact h.rel
    | succ k => exact ⟨h.1, h.2.1, h.2.2.1, h.2.2.2.1, fun x x' hx hx' => ih x x' (h.2.2.2.2 x x' hx hx') k⟩

theorem open_drop (path : List ℕ) : ∀ (m m' : Mus), Open T E m m' path → ∀ k x x', Time.get m (path.take k) = some x →
    Time.get m' (path.take k) = some x' → Open T E x x' (path.drop k) := by
  induction path with
  | nil =>
    intro m m' h k x x' hx hx'
    simp only [List.take_nil, Time.get, Option.some.injEq] at hx hx'
    subst hx hx'
    simpa [Open] using h
  | cons i path ih =>
    intro m m' h k x x' hx hx'
    cases k with
    | zero =>
      simp only [List.take_zero, Time.get, Option.some.injEq] at hx hx'
      subst hx hx'
      exact h
    | succ k =>
      simp only [List.take_succ_cons, Time.get] at hx hx'
      cases hy : m.children[i]? with
      | none => rw [hy] at hx; cases hx
      | some y =>
        cases hy' : m'.children[i]? with
        | none => rw [hy'] at hx'; cases hx'
        | some y' =>
          rw [hy] at hx
          rw [hy'] at hx'
          exact ih y y' (h.2.2.2.2 y y' hy hy') k x x' hx hx'

theorem musicAt_rel {m m' : Mus} (path : List ℕ) (ho : Open T E m m' path) :
    Time.musicAt m' path = Time.musicAt m path := by
  rcases get_rel path m m' ho with ⟨h1, h2⟩ | ⟨x, x', h1, h2, hx⟩
  · simp [Time.musicAt, h1, h2]
  · simp [Time.musicAt, h1, h2, kindRel_isMusic (musRel_kind hx)]

theorem climb_rel {m m' : Mus} (path : List ℕ) (ho : Open T E m m' path) (k : ℕ) :
    Time.climb m' path k = Time.climb m path k := by
  induction k with
  | zero => rfl
  | succ k ih => simp only [Time.climb, ih, musicAt_rel _ (open_take path m m' ho k)]

theorem preceding_rel {m m' : Mus} (path : List ℕ) (ho : Open T E m m' path) :
    Time.precedingMusic m' path = Time.precedingMusic m path := by
  simp only [Time.precedingMusic, climb_rel path ho]

theorem enterAll_rel (path : List ℕ) : ∀ (m m' : Mus), Open T E m m' path → ∀ tr, T tr →
    Time.enterAll tr m' path = Time.enterAll tr m path ∧ T (Time.enterAll tr m path) := by
  induction path with
  | nil => intro m m' _ tr htr; exact ⟨rfl, htr⟩
  | cons i path ih =>
    intro m m' ho tr htr
    obtain ⟨hk, h, hT, hcs, hnext⟩ := ho
    simp only [Time.enterAll]
    rcases musRelL_get _ _ hcs i with ⟨h1, h2⟩ | ⟨x, x', h1, h2, hx⟩
    · simp only [h1, h2]; exact ⟨trivial, htr⟩
    · simp only [h1, h2, hk]
      exact ih x x' (hnext x x' h1 h2) _ (hT tr htr)

theorem follow_rel (hc : 0 ≤ c) (hE : Scales T E c) {rem rem' : Remote} (hr : RemRel T c rem rem') (path : List ℕ) :
    ∀ (m m' : Mus), Open T E m m' path → ∀ tr, T tr → ∀ acc : ℚ,
      PyRel (fun a b => b.1 = a.1 ∧ T a.1 ∧ musRel T E a.2.1 b.2.1 ∧ b.2.2 = c * a.2.2)
        (Time.followTrail rem tr m acc path) (Time.followTrail rem' tr m' (c * acc) path) := by
  induction path with
  | nil => intro m m' h tr htr acc; exact ⟨rfl, htr, h, rfl⟩
  | cons i path ih =>
    intro m m' ho tr htr acc
    obtain ⟨hk, h, hT, hcs, hnext⟩ := ho
    have hch : Time.child m i = (match m.children[i]? with | some x => .ok x | none => .error .indexError) := rfl
    have hch' : Time.child m' i = (match m'.children[i]? with | some x => .ok x | none => .error .indexError) := rfl
    simp only [Time.followTrail, hk]
    have next : ∀ acc' : ℚ, PyRel (fun a b => b.1 = a.1 ∧ T a.1 ∧ musRel T E a.2.1 b.2.1 ∧ b.2.2 = c * a.2.2)
        (Time.child m i >>= fun n => Time.followTrail rem (Time.enter tr m.kind) n acc' path)
        (Time.child m' i >>= fun n => Time.followTrail rem' (Time.enter tr m.kind) n (c * acc') path) := by
      intro acc'
      rw [hch, hch']
      rcases musRelL_get _ _ hcs i with ⟨h1, h2⟩ | ⟨x, x', h1, h2, hx⟩
      · rw [h1, h2]; exact rfl
      · rw [h1, h2]
        exact ih x x' (hnext x x' h1 h2) _ (hT tr htr) acc'
    by_cases hi : i ≠ 0 ∧ m.kind.isSequential = true
    · simp only [if_pos hi]
      have hl := timeLength_scale hc hE (musRel_kind h) (Time.enter tr m.kind) (hT tr htr)
        (fun _ => lengths_scale hc hE hr m.children m'.children hcs _ (hT tr htr)) (some i)
      rw [hk] at hl
      rw [hl]
      cases Time.timeLength (Time.enter tr m.kind) m.kind (Time.lengths rem (Time.enter tr m.kind) m.children) (some i) with
      | error e => exact rfl
      | ok x =>
        have := next (acc + x)
        rw [mul_add] at this
        exact this
    · simp only [if_neg hi]
      exact next acc

theorem lengthAt_rel (hc : 0 ≤ c) (hE : Scales T E c) (hT : T {}) {rem rem' : Remote} (hr : RemRel T c rem rem')
    {m m' : Mus} (path : List ℕ) (ho : Open T E m m' path) :
    Time.lengthAt rem' m' path = (Time.lengthAt rem m path).map (c * ·) := by
  have hp := preceding_rel path ho
  simp only [Time.lengthAt, hp]
  have hq : Time.precedingMusic m path = (path.take (Time.climb m path path.length),
      path.drop (Time.climb m path path.length)) := rfl
  rw [hq]
  simp only
  rcases get_rel _ m m' (open_take path m m' ho (Time.climb m path path.length)) with ⟨h1, h2⟩ | ⟨x, x', h1, h2, hx⟩
  · simp [h1, h2, Except.map]
  · rcases get_rel path m m' ho with ⟨h3, h4⟩ | ⟨y, y', h3, h4, hy⟩
    · simp [h1, h2, h3, h4, Except.map]
    · simp only [h1, h2, h3, h4]
      obtain ⟨he, hTe⟩ := enterAll_rel _ x x' (open_drop path m m' ho _ x x' h1 h2) {} hT
      have hl := length_scale hc hE hr y y' hy {} hT
      have hl2 := length_scale hc hE hr y y' hy _ hTe
      have hk := musRel_kind hy
      by_cases hcl : Closed y.kind
      · cases hmk : y.kind <;> rw [hmk] at hcl hk <;> simp only [Closed] at hcl
        case durable d s => obtain ⟨d', s', hmk', -⟩ := hk; simp only [hmk', he]; exact hl2
        case chord n d s => obtain ⟨d', s', hmk', -⟩ := hk; simp only [hmk', he]; exact hl2
        case reference n => simp only [kindRel] at hk; simp only [hk, he]; exact hl2
        case other => simp only [kindRel] at hk; simp only [hk]; exact hl
      · have hk' := kindRel_open hk hcl
        rw [hk']
        cases y.kind <;> simp only [he] <;> first | exact hl2 | exact hl

theorem position_rel (hc : 0 ≤ c) (hE : Scales T E c) (hT : T {}) {rem rem' : Remote} (hr : RemRel T c rem rem')
    {m m' : Mus} (path : List ℕ) (ho : Open T E m m' path) (incl : Bool) :
    Time.position rem' m' path incl = (Time.position rem m path incl).map fun x => (x.1, c * x.2) := by
  have hp := preceding_rel path ho
  simp only [Time.position, hp]
  have hq : Time.precedingMusic m path = (path.take (Time.climb m path path.length),
      path.drop (Time.climb m path path.length)) := rfl
  rw [hq]
  simp only
  rcases get_rel _ m m' (open_take path m m' ho (Time.climb m path path.length)) with ⟨h1, h2⟩ | ⟨x, x', h1, h2, hx⟩
  · simp [h1, h2, Except.map]
  · simp only [h1, h2]
    have hf := follow_rel hc hE hr _ x x' (open_drop path m m' ho _ x x' h1 h2) {} hT 0
    rw [mul_zero] at hf
    revert hf
    cases Time.followTrail rem {} x 0 (path.drop (Time.climb m path path.length)) with
    | error e =>
      cases Time.followTrail rem' {} x' 0 (path.drop (Time.climb m path path.length)) with
      | error f => rintro rfl; rfl
      | ok b => exact False.elim
    | ok a =>
      cases Time.followTrail rem' {} x' 0 (path.drop (Time.climb m path path.length)) with
      | error f => exact False.elim
      | ok b =>
        obtain ⟨t1, n1, l1⟩ := a
        obtain ⟨t2, n2, l2⟩ := b
        rintro ⟨h3, h4, h5, h6⟩
        simp only at h3 h4 h5 h6
        subst h3 h6
        cases incl with
        | false => rfl
        | true =>
          have := length_scale hc hE hr n1 n2 h5 t2 h4
          simp only [if_true, bind, Except.bind, this]
          cases Time.length rem t2 n1 with
          | error e => rfl
          | ok y => simp [Except.map, pure, Except.pure, mul_add]

theorem common_rel (ps : List ℕ) : ∀ (m m' : Mus) es, Open T E m m' ps → Open T E m m' es → ∀ tr, T tr →
    PyRel (fun a b => b.1 = a.1 ∧ T a.1 ∧ musRel T E a.2.1 b.2.1 ∧ b.2.2 = a.2.2 ∧ Open T E a.2.1 b.2.1 a.2.2.1 ∧
      Open T E a.2.1 b.2.1 a.2.2.2)
      (Time.common tr m ps es) (Time.common tr m' ps es) := by
  induction ps with
  | nil =>
    intro m m' es h1 h2 tr htr
    simp only [Time.common]
    exact ⟨rfl, htr, h1.rel, rfl, h1, h2⟩
  | cons p ps ih =>
    intro m m' es h1 h2 tr htr
    cases es with
    | nil => exact ⟨rfl, htr, h1.rel, rfl, h1, h2⟩
    | cons e es =>
      obtain ⟨hk, h, hT, hcs, hnext⟩ := id h1
      simp only [Time.common, hk]
      by_cases hpe : p ≠ e
      · simp only [if_pos hpe]
        exact ⟨rfl, hT tr htr, h, rfl, h1, h2⟩
      · simp only [ne_eq, not_not] at hpe
        subst hpe
        simp only [ne_eq, not_true_eq_false, if_false, Time.child]
        rcases musRelL_get _ _ hcs p with ⟨h3, h4⟩ | ⟨x, x', h3, h4, hx⟩
        · simp only [h3, h4]; exact rfl
        · simp only [h3, h4]
          exact ih x x' es (hnext x x' h3 h4) (h2.2.2.2.2 x x' h3 h4) _ (hT tr htr)

theorem duration_rel (hc : 0 ≤ c) (hE : Scales T E c) (hT : T {}) {rem rem' : Remote} (hr : RemRel T c rem rem')
    {m m' : Mus} (start stop : List ℕ) (ho : Open T E m m' start) (ho' : Open T E m m' stop) :
    Time.duration rem' m' start stop =
      (Time.duration rem m start stop).map fun x => x.map fun y => (y.1, c * y.2) := by
  simp only [Time.duration, preceding_rel start ho, preceding_rel stop ho']
  have hq : Time.precedingMusic m start = (start.take (Time.climb m start start.length),
      start.drop (Time.climb m start start.length)) := rfl
  have hq' : Time.precedingMusic m stop = (stop.take (Time.climb m stop stop.length),
      stop.drop (Time.climb m stop stop.length)) := rfl
  rw [hq, hq']
  simp only
  by_cases hne : stop.take (Time.climb m stop stop.length) ≠ start.take (Time.climb m start start.length)
  · simp only [if_pos hne]; rfl
  · simp only [if_neg hne]
    simp only [ne_eq, not_not] at hne
    rcases get_rel _ m m' (open_take start m m' ho (Time.climb m start start.length)) with ⟨h1, h2⟩ | ⟨x, x', h1, h2, hx⟩
    · simp [h1, h2, Except.map]
    · simp only [h1, h2]
      have hcm := common_rel _ x x' _ (open_drop start m m' ho _ x x' h1 h2)
        (open_drop stop m m' ho' _ x x' (by rw [hne]; exact h1) (by rw [hne]; exact h2)) {} hT
      revert hcm
      cases Time.common {} x (start.drop (Time.climb m start start.length))
          (stop.drop (Time.climb m stop stop.length)) with
      | error e =>
        cases Time.common {} x' (start.drop (Time.climb m start start.length))
            (stop.drop (Time.climb m stop stop.length)) with
        | error f => rintro rfl; rfl
        | ok b => exact False.elim
      | ok a =>
        cases Time.common {} x' (start.drop (Time.climb m start start.length))
            (stop.drop (Time.climb m stop stop.length)) with
        | error f => exact False.elim
        | ok b =>
          obtain ⟨t1, n1, s1, e1⟩ := a
          obtain ⟨t2, n2, s2, e2⟩ := b
          rintro ⟨h3, h4, h5, h6, h7, h8⟩
          simp only [Prod.mk.injEq] at h3 h4 h5 h6 h7 h8
          obtain ⟨rfl, rfl⟩ := h6
          subst h3
          have f1 := follow_rel hc hE hr s2 n1 n2 h7 t2 h4 0
          have f2 := follow_rel hc hE hr e2 n1 n2 h8 t2 h4 0
          rw [mul_zero] at f1 f2
          simp only [bind, Except.bind]
          revert f1
          cases Time.followTrail rem t2 n1 0 s2 with
          | error e =>
            cases Time.followTrail rem' t2 n2 0 s2 with
            | error f => rintro rfl; rfl
            | ok b => exact False.elim
          | ok a =>
            cases Time.followTrail rem' t2 n2 0 s2 with
            | error f => exact False.elim
            | ok b =>
              rintro ⟨-, -, -, g1⟩
              simp only
              revert f2
              cases Time.followTrail rem t2 n1 0 e2 with
              | error e =>
                cases Time.followTrail rem' t2 n2 0 e2 with
                | error f => rintro rfl; rfl
                | ok b => exact False.elim
              | ok a' =>
                cases Time.followTrail rem' t2 n2 0 e2 with
                | error f => exact False.elim
                | ok b' =>
                  rintro ⟨g2, g3, g4, g5⟩
                  simp only
                  rw [g2, length_scale hc hE hr _ _ g4 _ g3]
                  cases Time.length rem a'.1 a'.2.1 with
                  | error e => rfl
                  | ok y =>
                    simp only [Except.map, pure, Except.pure, Option.map_some, g1, g5]
                    congr 3
                    ring

end Quickly.RhythmTime
