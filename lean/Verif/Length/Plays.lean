import Verif.Length.Lemmas

/-! # The length of music is what LilyPond documents -/

namespace Quickly.Length

open Quickly.Node Quickly.Signature Spec
open Quickly.Time (Mus Kind)
open Quickly.Duration (Transform)
open Quickly.Duration.Spec (value)

/-! ## Durations -/

theorem find_duration (pre post : List Nd) (n : Nd) (h : ∀ x ∈ pre, x.val.1 ≠ .Duration) (hn : n.val.1 = .Duration) :
    (pre ++ n :: post).find? (isA .Duration) = some n := by
  have hpre : pre.find? (isA .Duration) = none := by
    rw [List.find?_eq_none]
    intro x hx
    rw [isA, isSub_duration]
    simpa using h x hx
  rw [List.find?_append, hpre, Option.none_or, List.find?_cons_of_pos]
  rw [isA, isSub_duration, hn]
  rfl

theorem written_ok (cs : List Nd) (q s : ℚ) (h : Written cs q s) (l : Cls × Val) :
    durationScaling (.node l cs) = some (q, s) := by
  cases h with
  | plain pre post q ds hpre hds =>
    simp only [durationScaling, Node.Tree.children]
    rw [find_duration pre post _ hpre rfl]
    have : ds.filter (isA .DurationScaling) = [] := by
      rw [List.filter_eq_nil_iff]
      intro x hx
      rw [isA, (comment_cls _ (hds x hx)).2.2.2.2.1]
      simp
    simp [durationOf, headValue, Node.Tree.val, Node.Tree.children, this]
  | scaled pre post q s hpre =>
    simp only [durationScaling, Node.Tree.children]
    rw [find_duration pre post _ hpre rfl]
    have : isA .DurationScaling (.node (.DurationScaling, .value s) []) = true := by
      rw [isA_node]; decide +kernel
    simp [durationOf, headValue, Node.Tree.val, Node.Tree.children, List.filter, this]

theorem has_ok (d d' : D) (cs : List Nd) (h : Has d cs d') (l : Cls × Val) (before : List Nd)
    (hb : previousDuration before = d) : getDuration before (.node l cs) = d' := by
  rcases h with h | ⟨h, rfl⟩
  · simp [getDuration, written_ok cs _ _ h l]
  · have : durationScaling (.node l cs) = none := by
      simp only [durationScaling, Option.map_eq_none_iff, List.find?_eq_none]
      intro x hx
      rw [isA, isSub_duration]
      simpa using h x hx
    simp [getDuration, this, hb]

theorem has_previous (d d' : D) (cs : List Nd) (h : Has d cs d') (c : Cls) (v : Val) (before : List Nd)
    (hc : isSub 5 c .Durable = true) (hs : isSub 5 c .Skip = false) (hcs : ∀ x ∈ cs, All attached x ∧ NoDur x)
    (hb : previousDuration before = d) : previousDuration (rev (.node (c, v) cs) ++ before) = d' := by
  have hg := has_ok d d' cs h (c, v) before hb
  rw [rev, List.cons_append, previousDuration]
  simp only [setsPrevious, isA_node, hc, hs, Bool.not_false, Bool.and_self, if_true]
  simp only [getDuration] at hg
  cases hd : durationScaling (.node (c, v) cs) with
  | none =>
    rw [hd] at hg
    simp only [Option.getD_none] at hg ⊢
    rw [(attachedL_ok cs hcs (some c) before).2, hg]
  | some x =>
    rw [hd] at hg
    simpa using hg

/-! ## Transforms -/

/-- The transform for the commands around an expression. -/
def toTr : List Change → Transform
  | [] => {}
  | .scale q :: cs => (toTr cs).add { scale := q }
  | .shift a b :: cs => (toTr cs).add { log := a, dotcount := b }

theorem sounds_eq (ctx : List Change) : ∀ (l k : ℤ) (s q : ℚ), 0 ≤ k → k ≤ 52 → -3 ≤ l → sounds ctx l k s = some q →
    0 ≤ k + (toTr ctx).dotcount ∧ -3 ≤ l + (toTr ctx).log ∧
      q = value (l + (toTr ctx).log) (k + (toTr ctx).dotcount).toNat * (s * (toTr ctx).scale) := by
  induction ctx with
  | nil =>
    intro l k s q h1 h2 h3 h
    simp only [sounds, Option.some.injEq] at h
    simp [toTr, ← h, h1, h3]
  | cons c ctx ih =>
    intro l k s q h1 h2 h3 h
    cases c with
    | scale x =>
      obtain ⟨h4, h5, h6⟩ := ih l k (s * x) q h1 h2 h3 h
      refine ⟨by simpa [toTr, Transform.add] using h4, by simpa [toTr, Transform.add] using h5, ?_⟩
      rw [h6]
      simp only [toTr, Transform.add, add_zero]
      ring
    | shift a b =>
      simp only [sounds] at h
      by_cases hc : -3 ≤ l + a ∧ 0 ≤ k + b ∧ k + b ≤ 52
      · rw [if_pos hc] at h
        obtain ⟨h4, h5, h6⟩ := ih (l + a) (k + b) s q hc.2.1 hc.2.2 hc.1 h
        simp only [toTr, Transform.add, mul_one] at *
        refine ⟨by omega, by omega, ?_⟩
        rw [h6, show l + a + (toTr ctx).log = l + ((toTr ctx).log + a) by ring,
          show k + b + (toTr ctx).dotcount = k + ((toTr ctx).dotcount + b) by ring]
      · rw [if_neg hc] at h
        cases h

theorem value_nonneg (l : ℤ) (k : ℕ) : 0 ≤ value l k := (Duration.value_pos l k).le

theorem Sounds_ok (ctx : List Change) (d : D) (q : ℚ) (h : Sounds ctx d q) :
    (toTr ctx).length d.1 d.2 = .ok q ∧ (0 ≤ (toTr ctx).scale → 0 ≤ q) ∧ ((toTr ctx).scale = 0 → q = 0) := by
  obtain ⟨l, k, hl, hk, hd, hs, h⟩ := h
  obtain ⟨h1, h2, h3⟩ := sounds_eq ctx l k d.2 q (by omega) (by omega) hl h
  refine ⟨?_, ?_, ?_⟩
  · rw [hd, h3]
    by_cases hc : (toTr ctx).log ≠ 0 ∨ (toTr ctx).dotcount ≠ 0
    · have := Duration.C08_shift_value l k hk (toTr ctx).log (toTr ctx).dotcount (by omega)
      simp [Transform.length, Transform.transform, if_pos hc, this]
    · simp only [not_or, not_not] at hc
      simp [Transform.length, Transform.transform, hc]
  · intro hsc
    rw [h3]
    have := value_nonneg (l + (toTr ctx).log) (k + (toTr ctx).dotcount).toNat
    positivity
  · intro hsc
    rw [h3, hsc]
    ring

/-! ## Variables -/

/-- The assignments are those of the variables. -/
def Vars (vars : List Var) (env : List Assigned) : Prop :=
  List.Forall₂ (fun x y => x.1 = y.1 ∧ previousDuration y.2.1 = x.2.1 ∧ x.2.2 = y.2.2) vars env

theorem remoteLength_found (env : Time.Env) (tr : Transform) (n : String) (v : Mus) :
    Time.remoteLength ((n, v) :: env) tr n = Time.length (Time.remoteLength env) tr v := by
  simp only [Time.remoteLength, if_true]
  rcases v with ⟨k, cs⟩
  cases k <;> simp [Mus.kind, Kind.isMusic, Time.length]

theorem vars_found (name : String) (d0 : D) (t : Nd) (vars : List Var) : ∀ (env : List Assigned) (e : Time.Env),
    Vars vars env → toEnv env = .ok e → vars.find? (fun x => decide (x.1 = name)) = some (name, d0, t) →
    ∃ env' e' before m, Vars (vars.dropWhile (fun x => decide (x.1 ≠ name))).tail env' ∧ toEnv env' = .ok e' ∧
      previousDuration before = d0 ∧ toMus (some .Assignment) before t = .ok m ∧
      ∀ tr, Time.remoteLength e tr name = Time.length (Time.remoteLength e') tr m := by
  induction vars with
  | nil => intro env e _ _ h; simp at h
  | cons x vars ih =>
    intro env e hv he hf
    cases hv with
    | @cons _ y _ env hxy hv =>
      obtain ⟨n, before, val⟩ := y
      simp only [toEnv] at he
      cases hm : toMus (some .Assignment) before val with
      | error err => rw [hm] at he; cases he
      | ok m =>
        rw [hm] at he
        simp only at he
        cases he' : toEnv env with
        | error err => rw [he'] at he; cases he
        | ok e' =>
          rw [he'] at he
          simp only [Except.ok.injEq] at he
          subst he
          obtain ⟨h1, h2, h3⟩ := hxy
          simp only at h1 h2 h3
          by_cases hn : x.1 = name
          · rw [List.find?_cons_of_pos (by simpa using hn)] at hf
            simp only [Option.some.injEq] at hf
            subst hf
            simp only at h1 h2 h3
            subst h1 h3
            refine ⟨env, e', before, m, ?_, he', h2, hm, fun tr => remoteLength_found _ _ _ _⟩
            rw [List.dropWhile_cons_of_neg (by simp)]
            exact hv
          · rw [List.find?_cons_of_neg (by simpa using hn)] at hf
            obtain ⟨env2, e2, b2, m2, k1, k2, k3, k4, k5⟩ := ih env e' hv he' hf
            refine ⟨env2, e2, b2, m2, ?_, k2, k3, k4, ?_⟩
            · rw [List.dropWhile_cons_of_pos (by simpa using hn)]
              exact k1
            · intro tr
              rw [← k5 tr]
              simp only [Time.remoteLength]
              rw [if_neg (by rw [← h1]; exact hn)]

/-! ## Lists of expressions -/

/-- The expressions have the lengths in the model. -/
def Conv (rem : Time.Remote) (tr : Transform) (p : Option Cls) (before xs : List Nd) (qs : List ℚ) : Prop :=
  ∃ ms, toMusL p before xs = .ok ms ∧ ms.map (Time.length rem tr) = qs.map .ok

theorem conv_append (rem : Time.Remote) (tr : Transform) (p : Option Cls) (before xs ys : List Nd) (qs rs : List ℚ)
    (h1 : Conv rem tr p before xs qs) (h2 : Conv rem tr p (revL xs ++ before) ys rs) :
    Conv rem tr p before (xs ++ ys) (qs ++ rs) := by
  obtain ⟨ms, hm, hl⟩ := h1
  obtain ⟨ns, hn, hl'⟩ := h2
  exact ⟨ms ++ ns, toMusL_append p xs ys before ms ns hm hn, by simp [hl, hl']⟩

theorem conv_silent (rem : Time.Remote) (tr : Transform) (p : Option Cls) (before xs : List Nd)
    (h : ∀ x ∈ xs, Silent x) : Conv rem tr p before xs (xs.map fun _ => 0) ∧
      previousDuration (revL xs ++ before) = previousDuration before := by
  obtain ⟨⟨ms, hm, hl⟩, hp⟩ := silentL_ok xs h p before
  exact ⟨⟨ms, hm, hl rem tr⟩, hp⟩

/-- Music between elements that take no time. -/
theorem conv_around (rem : Time.Remote) (tr : Transform) (p : Option Cls) (d d' : D) (q : ℚ) (before pre post : List Nd)
    (m : Nd) (h : ∀ x ∈ pre ++ post, Silent x) (hb : previousDuration before = d)
    (hm : ∀ before, previousDuration before = d →
      Conv rem tr p before [m] [q] ∧ previousDuration (revL [m] ++ before) = d') :
    Conv rem tr p before (pre ++ m :: post) ((pre.map fun _ => 0) ++ q :: post.map fun _ => 0) ∧
      previousDuration (revL (pre ++ m :: post) ++ before) = d' := by
  obtain ⟨h1, h2⟩ := conv_silent rem tr p before pre (fun x hx => h x (by simp [hx]))
  obtain ⟨h3, h4⟩ := hm (revL pre ++ before) (by rw [h2, hb])
  obtain ⟨h5, h6⟩ := conv_silent rem tr p (revL [m] ++ (revL pre ++ before)) post (fun x hx => h x (by simp [hx]))
  constructor
  · have := conv_append rem tr p before pre ([m] ++ post) _ _ h1 (conv_append rem tr p _ [m] post _ _ h3 h5)
    simpa using this
  · have : revL (pre ++ m :: post) ++ before = revL post ++ (revL [m] ++ (revL pre ++ before)) := by
      rw [show pre ++ m :: post = pre ++ ([m] ++ post) by simp, revL_append, revL_append]
      simp
    rw [this, h6, h4]

theorem longest_one (a b : List ℚ) (q : ℚ) (h : ∀ x ∈ a ++ b, x = 0) (hq : 0 ≤ q) : Longest (a ++ q :: b) q := by
  refine .inr ⟨by simp, ?_⟩
  intro y hy
  simp only [List.mem_append, List.mem_cons] at hy h
  rcases hy with hy | rfl | hy
  · rw [h y (.inl hy)]; exact hq
  · exact le_refl _
  · rw [h y (.inr hy)]; exact hq

/-- A command whose music starts together. -/
theorem command_ok (rem : Time.Remote) (tr : Transform) (p : Option Cls) (before : List Nd) (c : Cls) (v : Val)
    (cs : List Nd) (f : Option Transform) (qs : List ℚ) (q : ℚ)
    (hc : isSub 5 c .Chord = false ∧ isSub 5 c .Skip = false ∧ isSub 5 c .Durable = false ∧ isSub 5 c .AfterGrace = false ∧
      isSub 5 c .Music = true) (hs : isSequential p (.node (c, v) cs) = false) (hf : transform (.node (c, v) cs) = .ok f)
    (h : Conv rem (Time.Spec.under tr f) (some c) before cs qs) (hq : Longest qs q) :
    Conv rem tr p before [.node (c, v) cs] [q] := by
  obtain ⟨ms, hm, hl⟩ := h
  have hk := kindOf_music p before c v cs f hc hf
  rw [hs] at hk
  refine ⟨_, toMusL_of_single _ _ _ _ (toMus_node _ _ _ _ _ _ _ hk hm), ?_⟩
  simp [length_longest rem tr f ms qs q hl hq]

theorem previous_single (c : Cls) (v : Val) (cs before : List Nd) (d : D) (h : isSub 5 c .Durable = false ∨ isSub 5 c .Skip = true)
    (hd : previousDuration (revL cs ++ before) = d) : previousDuration (revL [.node (c, v) cs] ++ before) = d := by
  rw [revL, revL, List.nil_append, previous_rev c v cs before h, hd]

/-! ## Numbers -/

theorem number_silent (n : Nd) (x : ℚ) (h : Number n x) : Silent n := by
  cases h with
  | int n => exact .mk _ _ _ (by decide) (by simp)
  | float q => exact .mk _ _ _ (by decide) (by simp)
  | fraction a b _ => exact .mk _ _ _ (by decide) (by simp)
  | scheme v cs h => exact .mk _ _ _ (by decide) h

theorem integer_silent (n : Nd) (x : ℤ) (h : Integer n x) : Silent n := by
  cases h with
  | int n => exact .mk _ _ _ (by decide) (by simp)
  | scheme v cs h => exact .mk _ _ _ (by decide) h
  | float n => exact .mk _ _ _ (by decide) (by simp)
  | schemeFloat v cs h => exact .mk _ _ _ (by decide) h

theorem comment_num (x : Nd) (h : x.val.1 ∈ comments) : getNumValue x = .ok none ∧ getIntValue x = none := by
  obtain ⟨h1, h2, h3, h4, -⟩ := comment_cls _ h
  simp [getNumValue, getIntValue, isA, h1, h2, h3, h4]

theorem number_num (n : Nd) (x : ℚ) (h : Number n x) : getNumValue n = .ok (some x) := by
  cases h with
  | int n =>
    rw [getNumValue, isA_node, show isSub 5 .Int .Int = true by decide +kernel]
    rfl
  | float q =>
    rw [getNumValue, isA_node, isA_node, show isSub 5 .Float .Float = true by decide +kernel, Bool.or_true]
    rfl
  | fraction a b hb =>
    rw [getNumValue, isA_node, isA_node, isA_node, show isSub 5 .Fraction .Int = false by decide +kernel,
      show isSub 5 .Fraction .Float = false by decide +kernel, show isSub 5 .Fraction .Fraction = true by decide +kernel]
    simp [fraction, Node.Tree.val, hb, Except.map]
  | scheme v cs h =>
    rw [getNumValue, isA_node, isA_node, isA_node, isA_node, show isSub 5 .Scheme .Int = false by decide +kernel,
      show isSub 5 .Scheme .Float = false by decide +kernel, show isSub 5 .Scheme .Fraction = false by decide +kernel,
      show isSub 5 .Scheme .Scheme = true by decide +kernel]
    rfl

theorem integer_int (n : Nd) (x : ℤ) (h : Integer n x) : getIntValue n = some x := by
  cases h with
  | int n =>
    rw [getIntValue, isA_node, show isSub 5 .Int .Int = true by decide +kernel]
    rfl
  | scheme v cs h =>
    rw [getIntValue, isA_node, isA_node, isA_node, show isSub 5 .Scheme .Int = false by decide +kernel,
      show isSub 5 .Scheme .Float = false by decide +kernel, show isSub 5 .Scheme .Scheme = true by decide +kernel]
    rfl
  | float n =>
    rw [getIntValue, isA_node, isA_node, show isSub 5 .Float .Float = true by decide +kernel, Bool.or_true]
    simp [Node.Tree.val, Num.toInt?]
  | schemeFloat v cs h =>
    rw [getIntValue, isA_node, isA_node, isA_node, show isSub 5 .Scheme .Int = false by decide +kernel,
      show isSub 5 .Scheme .Float = false by decide +kernel, show isSub 5 .Scheme .Scheme = true by decide +kernel]
    simp [Node.Tree.val, Num.toInt?]

theorem firstNum_comments (pre rest : List Nd) (n : Nd) (x : ℚ) (hpre : ∀ x ∈ pre, x.val.1 ∈ comments)
    (h : Number n x) : firstNum (pre ++ n :: rest) = .ok (some x) := by
  induction pre with
  | nil => simp [firstNum, number_num n x h]
  | cons y pre ih =>
    simp only [List.cons_append, firstNum, (comment_num y (hpre y (by simp))).1]
    exact ih fun x hx => hpre x (by simp [hx])

theorem filterMap_comments (pre rest : List Nd) (hpre : ∀ x ∈ pre, x.val.1 ∈ comments) :
    (pre ++ rest).filterMap getIntValue = rest.filterMap getIntValue := by
  induction pre with
  | nil => rfl
  | cons y pre ih =>
    rw [List.cons_append, List.filterMap_cons, (comment_num y (hpre y (by simp))).2]
    exact ih fun x hx => hpre x (by simp [hx])

theorem find_fraction (pre rest : List Nd) (a b : ℤ) (hpre : ∀ x ∈ pre, x.val.1 ∈ comments) :
    (pre ++ .node (.Fraction, .pair a b) [] :: rest).find? (isA .Fraction) =
      some (.node (.Fraction, .pair a b) []) := by
  have : pre.find? (isA .Fraction) = none := by
    rw [List.find?_eq_none]
    intro x hx
    rw [isA, (comment_cls _ (hpre x hx)).1]
    simp
  rw [List.find?_append, this, Option.none_or, List.find?_cons_of_pos]
  rw [isA_node]
  decide +kernel

end Quickly.Length
