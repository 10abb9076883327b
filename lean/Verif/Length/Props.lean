import Verif.Length.Plays

/-! # C87: The length of LilyPond music -/

namespace Quickly.Length

open Quickly.Node Quickly.Signature Spec
open Quickly.Time (Mus Kind)
open Quickly.Duration (Transform)
open Quickly.Duration.Spec (value)

/-- What is shown of expressions. -/
def Good (vars : List Var) (ctx : List Change) (d : D) (ts : List Nd) (qs : List ℚ) (d' : D) : Prop :=
  ∀ (env : List Assigned) (e : Time.Env), Vars vars env → toEnv env = .ok e →
    0 ≤ (toTr ctx).scale →
    (∀ q ∈ qs, 0 ≤ q) ∧ ((toTr ctx).scale = 0 → ∀ q ∈ qs, q = 0) ∧
    ∀ (p : Option Cls) (before : List Nd), p ≠ some .Simultaneous → previousDuration before = d →
      Conv (Time.remoteLength e) (toTr ctx) p before ts qs ∧ previousDuration (revL ts ++ before) = d'

theorem zeros (pre post : List Nd) : ∀ x ∈ (pre.map fun _ => (0 : ℚ)) ++ post.map fun _ => (0 : ℚ), x = 0 := by
  intro x hx
  simp only [List.mem_append, List.mem_map] at hx
  rcases hx with ⟨_, _, rfl⟩ | ⟨_, _, rfl⟩ <;> rfl

theorem longest_mem (qs : List ℚ) (q : ℚ) (h : Longest qs q) (P : ℚ → Prop) (h0 : P 0) (hq : ∀ x ∈ qs, P x) : P q := by
  rcases h with ⟨-, rfl⟩ | ⟨h, -⟩
  · exact h0
  · exact hq q h

/-- A command with one music argument. -/
theorem good_command (vars : List Var) (ctx : List Change) (d d' : D) (c : Cls) (v : Val) (pre post : List Nd) (m : Nd)
    (q : ℚ) (f : Option Transform) (ctx' : List Change)
    (hc : isSub 5 c .Chord = false ∧ isSub 5 c .Skip = false ∧ isSub 5 c .Durable = false ∧ isSub 5 c .AfterGrace = false ∧
      isSub 5 c .Music = true) (hl : isSub 5 c .MusicList = false) (hsim : c ≠ .Simultaneous)
    (hf : transform (.node (c, v) (pre ++ m :: post)) = .ok f) (hctx : Time.Spec.under (toTr ctx) f = toTr ctx')
    (h0 : 0 ≤ (toTr ctx).scale → 0 ≤ (toTr ctx').scale) (h00 : (toTr ctx).scale = 0 → (toTr ctx').scale = 0)
    (hs : ∀ x ∈ pre ++ post, Silent x) (ih : Good vars ctx' d [m] [q] d') :
    Good vars ctx d [.node (c, v) (pre ++ m :: post)] [q] d' := by
  intro env e hv he hsc
  obtain ⟨h1, h2, h3⟩ := ih env e hv he (h0 hsc)
  refine ⟨h1, fun h => h2 (h00 h), ?_⟩
  intro p before hp hb
  obtain ⟨h4, h5⟩ := conv_around (Time.remoteLength e) (toTr ctx') (some c) d d' q before pre post m hs hb
    (fun b hb => h3 (some c) b (by simpa using hsim) hb)
  refine ⟨command_ok _ _ p before c v _ f _ q hc (isSequential_false p c v _ hl) hf (by rw [hctx]; exact h4)
    (longest_one _ _ q (zeros pre post) (h1 q (by simp))), ?_⟩
  exact previous_single c v _ before d' (.inl hc.2.2.1) h5

theorem good_same (vars : List Var) (ctx : List Change) (d d' : D) (c : Cls) (v : Val) (pre post : List Nd) (m : Nd)
    (q : ℚ)
    (hc : isSub 5 c .Chord = false ∧ isSub 5 c .Skip = false ∧ isSub 5 c .Durable = false ∧ isSub 5 c .AfterGrace = false ∧
      isSub 5 c .Music = true) (hl : isSub 5 c .MusicList = false) (hsim : c ≠ .Simultaneous)
    (ht : isSub 5 c .Times = false ∧ isSub 5 c .Tuplet = false ∧ isSub 5 c .ScaleDurations = false ∧
      isSub 5 c .ShiftDurations = false ∧ isSub 5 c .Grace = false)
    (hs : ∀ x ∈ pre ++ post, Silent x) (ih : Good vars ctx d [m] [q] d') :
    Good vars ctx d [.node (c, v) (pre ++ m :: post)] [q] d' :=
  good_command vars ctx d d' c v pre post m q none ctx hc hl hsim (transform_none c v _ ht) rfl id id hs ih

/-- Music that is played is music. -/
theorem plays_music (vars : List Var) (ctx : List Change) (d d' : D) (ts : List Nd) (qs : List ℚ)
    (h : Plays vars ctx d ts qs d') : ∀ m, ts = [m] → m.val.1 ≠ .IdentifierRef → m.val.1 ∉ silent →
      isSub 5 m.val.1 .Music = true := by
  have hev : ∀ c ∈ events ++ wrappers ++ graces, isSub 5 c .Music = true := by decide +kernel
  have hmk : Cls.Markup ∈ silent := by decide
  induction h with
  | nil => intro m h; simp at h
  | cons _ _ _ _ _ t ts _ _ _ _ ih _ =>
    intro m h
    simp only [List.cons.injEq] at h
    exact ih m (by rw [h.1])
  | silent _ _ _ t hs =>
    intro m h _ hm
    simp only [List.cons.injEq, and_true] at h
    subst h
    cases hs with
    | mk c v cs hc _ => exact absurd hc hm
    | markup v cs _ => exact absurd hmk hm
  | event _ _ _ _ c v cs _ hc =>
    intro m h _ _
    simp only [List.cons.injEq, and_true] at h
    subst h
    exact hev c (by simp [hc])
  | wrapper _ _ _ _ c _ _ _ _ _ hc =>
    intro m h _ _
    simp only [List.cons.injEq, and_true] at h
    subst h
    exact hev c (by simp [hc])
  | grace _ _ _ _ c _ _ _ _ _ hc =>
    intro m h _ _
    simp only [List.cons.injEq, and_true] at h
    subst h
    exact hev c (by simp [hc])
  | «variable» =>
    intro m h hm
    simp only [List.cons.injEq, and_true] at h
    subst h
    exact absurd rfl hm
  | _ =>
    intro m h _ _
    simp only [List.cons.injEq, and_true] at h
    subst h
    simp only [Node.Tree.val]
    decide +kernel

theorem kindOf_isMusic (p : Option Cls) (before : List Nd) (n : Nd) (k : Kind) (h : kindOf p before n = .ok k)
    (hm : isSub 5 n.val.1 .Music = true) : k.isMusic = true := by
  unfold kindOf at h
  simp only [isA, hm, if_true] at h
  split_ifs at h <;> (try (injection h with h; subst h; rfl))
  cases ht : transform n with
  | error e => rw [ht] at h; cases h
  | ok t =>
    rw [ht] at h
    injection h with h
    subst h
    rfl

theorem toMus_kind (p : Option Cls) (before : List Nd) (n : Nd) (m : Mus) (h : toMus p before n = .ok m) :
    kindOf p before n = .ok m.kind := by
  rcases n with ⟨l, cs⟩
  simp only [toMus] at h
  cases hk : kindOf p before (.node l cs) with
  | error e => rw [hk] at h; cases h
  | ok k =>
    rw [hk] at h
    simp only at h
    cases hm : toMusL (some l.1) before cs with
    | error e => rw [hm] at h; cases h
    | ok ms =>
      rw [hm] at h
      injection h with h
      subst h
      rfl

set_option maxHeartbeats 2000000 in
theorem good (vars : List Var) (ctx : List Change) (d d' : D) (ts : List Nd) (qs : List ℚ)
    (h : Plays vars ctx d ts qs d') : Good vars ctx d ts qs d' := by
  induction h with
  | nil vars ctx d =>
    intro env e hv he hsc
    refine ⟨by simp, by simp, fun p before hp hb => ⟨⟨[], rfl, rfl⟩, hb⟩⟩
  | cons vars ctx d d1 d2 t ts q qs h1 h2 ih1 ih2 =>
    intro env e hv he hsc
    obtain ⟨a1, a2, a3⟩ := ih1 env e hv he hsc
    obtain ⟨b1, b2, b3⟩ := ih2 env e hv he hsc
    refine ⟨?_, ?_, ?_⟩
    · intro x hx
      rcases List.mem_cons.1 hx with rfl | hx
      · exact a1 x (by simp)
      · exact b1 x hx
    · intro h x hx
      rcases List.mem_cons.1 hx with rfl | hx
      · exact a2 h x (by simp)
      · exact b2 h x hx
    · intro p before hp hb
      obtain ⟨a4, a5⟩ := a3 p before hp hb
      obtain ⟨b4, b5⟩ := b3 p (revL [t] ++ before) hp a5
      refine ⟨conv_append _ _ p before [t] ts _ _ a4 b4, ?_⟩
      rw [show t :: ts = [t] ++ ts from rfl, revL_append, List.append_assoc]
      exact b5
  | silent vars ctx d t hs =>
    intro env e hv he hsc
    refine ⟨by simp, by simp, fun p before hp hb => ?_⟩
    obtain ⟨h1, h2⟩ := conv_silent (Time.remoteLength e) (toTr ctx) p before [t] (by simpa using hs)
    exact ⟨h1, by rw [h2, hb]⟩
  | event vars ctx d d' c v cs q hc hcs hh hso =>
    intro env e hv he hsc
    obtain ⟨h1, h2, h3⟩ := Sounds_ok ctx d' q hso
    obtain ⟨k1, k2, k3⟩ := event_cls c hc
    refine ⟨by simpa using h2 hsc, by simpa using h3, fun p before hp hb => ?_⟩
    obtain ⟨⟨ms, hms⟩, -⟩ := attachedL_ok cs hcs (some c) before
    have hg := has_ok d d' cs hh (c, v) before hb
    constructor
    · refine ⟨_, toMusL_of_single _ _ _ _ (toMus_node p before c v cs (.durable d'.1 d'.2) ms ?_ hms), ?_⟩
      · simp [kindOf, isA_node, k1, k2, k3, hg]
      · simp [Time.length, Kind.isMusic, Time.timeLength, Time.enter, h1]
    · rw [revL, revL, List.nil_append]
      exact has_previous d d' cs hh c v before k3 k2 hcs hb
  | chord vars ctx d d' v cs q body n hcs hh hso hb hn hnc =>
    intro env e hv he hsc
    obtain ⟨h1, h2, h3⟩ := Sounds_ok ctx d' q hso
    refine ⟨by simpa using h2 hsc, by simpa using h3, fun p before hp hbd => ?_⟩
    obtain ⟨⟨ms, hms⟩, -⟩ := attachedL_ok cs hcs (some .Chord) before
    have hg := has_ok d d' cs hh (.Chord, v) before hbd
    have hany : (cs.any fun body => body.children.any (isA .Note)) = true := by
      rw [List.any_eq_true]
      refine ⟨body, hb, ?_⟩
      rw [List.any_eq_true]
      refine ⟨n, hn, ?_⟩
      rw [isA, hnc]
      decide +kernel
    constructor
    · refine ⟨_, toMusL_of_single _ _ _ _ (toMus_node p before .Chord v cs (.chord true d'.1 d'.2) ms ?_ hms), ?_⟩
      · have : isSub 5 Cls.Chord .Chord = true := by decide +kernel
        simp only [kindOf, isA_node, this, hg, if_true, Node.Tree.children] at hany ⊢
        rw [hany]
      · simp [Time.length, Kind.isMusic, Time.timeLength, Time.enter, h1]
    · rw [revL, revL, List.nil_append]
      exact has_previous d d' cs hh .Chord v before (by decide +kernel) (by decide +kernel) hcs hbd
  | chord0 vars ctx d d' v cs hcs hh hn =>
    intro env e hv he hsc
    refine ⟨by simp, by simp, fun p before hp hbd => ?_⟩
    obtain ⟨⟨ms, hms⟩, -⟩ := attachedL_ok cs hcs (some .Chord) before
    have hg := has_ok d d' cs hh (.Chord, v) before hbd
    have hnote : ∀ c : Cls, isSub 5 c .Note = true → c ∈ events := by intro c; cases c <;> decide +kernel
    have hany : (cs.any fun body => body.children.any (isA .Note)) = false := by
      rw [List.any_eq_false]
      intro body hb
      rw [Bool.not_eq_true, List.any_eq_false]
      intro n hnb hc
      exact hn body hb n hnb (hnote _ hc)
    constructor
    · refine ⟨_, toMusL_of_single _ _ _ _ (toMus_node p before .Chord v cs (.chord false d'.1 d'.2) ms ?_ hms), ?_⟩
      · have : isSub 5 Cls.Chord .Chord = true := by decide +kernel
        simp only [kindOf, isA_node, this, hg, if_true, Node.Tree.children] at hany ⊢
        rw [hany]
      · simp [Time.length, Kind.isMusic, Time.timeLength]
    · rw [revL, revL, List.nil_append]
      exact has_previous d d' cs hh .Chord v before (by decide +kernel) (by decide +kernel) hcs hbd
  | skip vars ctx d v cs x s q hcs hw hso =>
    intro env e hv he hsc
    obtain ⟨h1, h2, h3⟩ := Sounds_ok ctx (x, s) q hso
    refine ⟨by simpa using h2 hsc, by simpa using h3, fun p before hp hb => ?_⟩
    obtain ⟨⟨ms, hms, -⟩, hps⟩ := silentL_ok cs hcs (some .Skip) before
    have hd := written_ok cs x s hw (.Skip, v)
    have hany : cs.any (isA .Duration) = true := by
      rw [durationScaling, Option.map_eq_some_iff] at hd
      obtain ⟨y, hy, -⟩ := hd
      rw [List.any_eq_true]
      exact ⟨y, List.mem_of_find?_eq_some hy, by simpa using List.find?_some hy⟩
    constructor
    · refine ⟨_, toMusL_of_single _ _ _ _ (toMus_node p before .Skip v cs (.durable x s) ms ?_ hms), ?_⟩
      · have k1 : isSub 5 Cls.Skip .Chord = false := by decide +kernel
        have k2 : isSub 5 Cls.Skip .Skip = true := by decide +kernel
        simp [kindOf, isA_node, k1, k2, Node.Tree.children, hany, getDuration, hd]
      · simp [Time.length, Kind.isMusic, Time.timeLength, Time.enter, h1]
    · exact previous_single .Skip v cs before d (.inr (by decide +kernel)) (by rw [hps, hb])
  | skipMusic vars ctx d d' v pre post m q hs hm hp ih =>
    intro env e hv he hsc
    obtain ⟨h1, h2, h3⟩ := ih env e hv he hsc
    refine ⟨h1, h2, fun p before hp hb => ?_⟩
    obtain ⟨h4, h5⟩ := conv_around (Time.remoteLength e) (toTr ctx) (some .Skip) d d' q before pre post m
      (fun x hx => (hs x hx).2) hb (fun b hb => h3 (some .Skip) b (by simp) hb)
    obtain ⟨ms, hms, hl⟩ := h4
    have hany : (pre ++ m :: post).any (isA .Duration) = false := by
      rw [List.any_eq_false]
      intro x hx
      rw [isA, isSub_duration]
      simp only [List.mem_append, List.mem_cons] at hx
      rcases hx with hx | rfl | hx
      · have := (hs x (by simp [hx])).1
        rintro hc
        rw [decide_eq_true_eq] at hc
        rw [hc] at this
        revert this
        decide
      · simpa using hm
      · have := (hs x (by simp [hx])).1
        rintro hc
        rw [decide_eq_true_eq] at hc
        rw [hc] at this
        revert this
        decide
    constructor
    · refine ⟨_, toMusL_of_single _ _ _ _ (toMus_node p before .Skip v _ (.music false none) ms ?_ hms), ?_⟩
      · have k1 : isSub 5 Cls.Skip .Chord = false := by decide +kernel
        have k2 : isSub 5 Cls.Skip .Skip = true := by decide +kernel
        simp only [kindOf, isA_node, k1, k2, Node.Tree.children, hany, if_true, Bool.false_eq_true, if_false]
      · simp [length_longest (Time.remoteLength e) (toTr ctx) none ms _ q hl
          (longest_one _ _ q (zeros pre post) (h1 q (by simp)))]
    · exact previous_single .Skip v _ before d' (.inr (by decide +kernel)) h5
  | list vars ctx d d' v cs qs hp ih =>
    intro env e hv he hsc
    obtain ⟨h1, h2, h3⟩ := ih env e hv he hsc
    refine ⟨by simpa using List.sum_nonneg h1, ?_, fun p before hp hb => ?_⟩
    · intro h
      have := h2 h
      simp [List.sum_eq_zero this]
    obtain ⟨⟨ms, hms, hl⟩, h5⟩ := h3 (some .MusicList) before (by simp) hb
    constructor
    · have hk := kindOf_music p before .MusicList v cs none (by decide +kernel) (transform_none _ _ _ (by decide +kernel))
      have hseq : isSequential p (.node (.MusicList, v) cs) = true := by
        have k1 : isSub 5 Cls.MusicList .SimultaneousMusicList = false := by decide +kernel
        have k2 : isSub 5 Cls.MusicList .MusicList = true := by decide +kernel
        have k3 : ∀ c : Cls, isSub 5 c .Simultaneous = true → c = .Simultaneous := by intro c; cases c <;> decide +kernel
        simp only [isSequential, isA_node, k1, k2, if_true, Bool.false_eq_true, if_false]
        cases p with
        | none => rfl
        | some c =>
          simp only [Bool.not_eq_true']
          by_contra hc
          rw [Bool.not_eq_false] at hc
          exact hp (by rw [k3 c hc])
      rw [hseq] at hk
      refine ⟨_, toMusL_of_single _ _ _ _ (toMus_node p before .MusicList v cs _ ms hk hms), ?_⟩
      simp [(Time.C52_sum_max (Time.remoteLength e) (toTr ctx) none ms qs hl).1]
    · exact previous_single .MusicList v cs before d' (.inl (by decide +kernel)) h5
  | together vars ctx d d' v cs qs q hp hq ih =>
    intro env e hv he hsc
    obtain ⟨h1, h2, h3⟩ := ih env e hv he hsc
    refine ⟨?_, ?_, fun p before hp hb => ?_⟩
    · simpa using longest_mem qs q hq (fun x => 0 ≤ x) (le_refl _) h1
    · intro h
      simpa using longest_mem qs q hq (fun x => x = 0) rfl (h2 h)
    obtain ⟨h4, h5⟩ := h3 (some .SimultaneousMusicList) before (by simp) hb
    refine ⟨command_ok _ _ p before .SimultaneousMusicList v cs none qs q (by decide +kernel) ?_
      (transform_none _ _ _ (by decide +kernel)) h4 hq, previous_single _ v cs before d' (.inl (by decide +kernel)) h5⟩
    simp [isSequential, isA_node, show isSub 5 Cls.SimultaneousMusicList .SimultaneousMusicList = true by decide +kernel]
  | simultaneous vars ctx d d' v w cs pre post qs q hs hp hq ih =>
    intro env e hv he hsc
    obtain ⟨h1, h2, h3⟩ := ih env e hv he hsc
    have hq0 : 0 ≤ q := longest_mem qs q hq (fun x => 0 ≤ x) (le_refl _) h1
    refine ⟨by simpa using hq0, ?_, fun p before hp hb => ?_⟩
    · intro h
      simpa using longest_mem qs q hq (fun x => x = 0) rfl (h2 h)
    obtain ⟨h4, h5⟩ := conv_around (Time.remoteLength e) (toTr ctx) (some .Simultaneous) d d' q before pre post
      (.node (.MusicList, w) cs) hs hb (by
        intro b hb
        obtain ⟨h4, h5⟩ := h3 (some .MusicList) b (by simp) hb
        refine ⟨command_ok _ _ _ b .MusicList w cs none qs q (by decide +kernel) ?_
          (transform_none _ _ _ (by decide +kernel)) h4 hq, previous_single _ w cs b d' (.inl (by decide +kernel)) h5⟩
        simp [isSequential, isA_node, show isSub 5 Cls.MusicList .SimultaneousMusicList = false by decide +kernel,
          show isSub 5 Cls.MusicList .MusicList = true by decide +kernel,
          show isSub 5 Cls.Simultaneous .Simultaneous = true by decide +kernel])
    refine ⟨command_ok _ _ p before .Simultaneous v _ none _ q (by decide +kernel)
      (isSequential_false _ _ _ _ (by decide +kernel)) (transform_none _ _ _ (by decide +kernel)) h4
      (longest_one _ _ q (zeros pre post) hq0), previous_single _ v _ before d' (.inl (by decide +kernel)) h5⟩
  | wrapper vars ctx d d' c v pre post m q hc hs hp ih =>
    obtain ⟨h1, h2, h3, h4, h5, h6, h7, h8, h9, h10, h11, -, h13⟩ := wrapper_cls c hc
    exact good_same vars ctx d d' c v pre post m q ⟨h1, h2, h3, h4, h5⟩ h11 h13 ⟨h6, h7, h8, h9, h10⟩ hs ih
  | volta vars ctx d d' v pre post m q hs _ hp ih =>
    exact good_same vars ctx d d' .Repeat v pre post m q (by decide +kernel) (by decide +kernel) (by decide) 
      (by decide +kernel) hs ih
  | combine vars ctx d d1 d2 v pre mid post m n q r hs hm hn ihm ihn =>
    intro env e hv he hsc
    obtain ⟨a1, a2, a3⟩ := ihm env e hv he hsc
    obtain ⟨b1, b2, b3⟩ := ihn env e hv he hsc
    have hq0 := a1 q (by simp)
    have hr0 := b1 r (by simp)
    refine ⟨by simpa using le_max_of_le_left hq0, ?_, fun p before hp hb => ?_⟩
    · intro h
      simp [a2 h q (by simp), b2 h r (by simp)]
    obtain ⟨h4, h5⟩ := conv_around (Time.remoteLength e) (toTr ctx) (some .PartCombine) d d1 q before pre mid m
      (fun x hx => hs x (by
        rcases List.mem_append.1 hx with h | h <;> simp [h])) hb (fun b hb => a3 _ b (by simp) hb)
    obtain ⟨h6, h7⟩ := conv_around (Time.remoteLength e) (toTr ctx) (some .PartCombine) d1 d2 r
      (revL (pre ++ m :: mid) ++ before) [] post n (fun x hx => hs x (by
        rw [List.nil_append] at hx
        simp [hx])) h5
      (fun b hb => b3 _ b (by simp) hb)
    have h8 := conv_append _ _ _ _ _ _ _ _ h4 h6
    refine ⟨command_ok _ _ p before .PartCombine v _ none _ (max q r) (by decide +kernel)
      (isSequential_false _ _ _ _ (by decide +kernel)) (transform_none _ _ _ (by decide +kernel)) h8 ?_,
      previous_single _ v _ before d2 (.inl (by decide +kernel)) ?_⟩
    · refine .inr ⟨?_, ?_⟩
      · rcases le_total q r with h | h
        · rw [max_eq_right h]; simp
        · rw [max_eq_left h]; simp
      · intro y hy
        simp only [List.map_nil, List.nil_append, List.mem_append, List.mem_cons, List.mem_map] at hy
        rcases hy with (⟨_, _, rfl⟩ | rfl | ⟨_, _, rfl⟩) | rfl | ⟨_, _, rfl⟩
        · exact le_max_of_le_left hq0
        · exact le_max_left _ _
        · exact le_max_of_le_left hq0
        · exact le_max_right _ _
        · exact le_max_of_le_left hq0
    · rw [show pre ++ m :: mid ++ n :: post = (pre ++ m :: mid) ++ ([] ++ n :: post) by simp, revL_append,
        List.append_assoc]
      exact h7
  | times vars ctx d d' v a b pre mid post m q hpre hs ha hb hp ih =>
    have hF : Silent (.node (.Fraction, .pair a b) []) := .mk _ _ _ (by decide) (by simp)
    have := good_command vars ctx d d' .Times v (pre ++ .node (.Fraction, .pair a b) [] :: mid) post m q
      (some { scale := (a / b : ℚ) }) (.scale (a / b) :: ctx) (by decide +kernel) (by decide +kernel) (by decide) ?_ rfl ?_ ?_
      ?_ ih
    · simpa using this
    · have hT : isSub 5 Cls.Times .Times = true := by decide +kernel
      rw [transform, isA_node, hT]
      simp only [if_true, Node.Tree.children]
      rw [List.append_assoc, List.cons_append, find_fraction pre _ a b hpre]
      simp [fraction, Node.Tree.val, hb.ne', Except.map]
    · intro h
      simp only [toTr, Transform.add]
      positivity
    · intro h
      simp [toTr, Transform.add, h]
    · intro x hx
      simp only [List.mem_append, List.mem_cons] at hx
      rcases hx with (hx | rfl | hx) | hx
      · exact hs x (by simp [hx])
      · exact hF
      · exact hs x (by simp [hx])
      · exact hs x (by simp [hx])
  | tuplet vars ctx d d' v a b pre mid post m q hpre hs ha hb hp ih =>
    have hF : Silent (.node (.Fraction, .pair a b) []) := .mk _ _ _ (by decide) (by simp)
    have := good_command vars ctx d d' .Tuplet v (pre ++ .node (.Fraction, .pair a b) [] :: mid) post m q
      (some { scale := (b / a : ℚ) }) (.scale (b / a) :: ctx) (by decide +kernel) (by decide +kernel) (by decide) ?_ rfl ?_ ?_
      ?_ ih
    · simpa using this
    · have hT : isSub 5 Cls.Tuplet .Times = false := by decide +kernel
      have hT' : isSub 5 Cls.Tuplet .Tuplet = true := by decide +kernel
      rw [transform, isA_node, isA_node, hT, hT']
      simp only [if_true, Bool.false_eq_true, if_false, Node.Tree.children]
      rw [List.append_assoc, List.cons_append, find_fraction pre _ a b hpre]
      simp [fraction, Node.Tree.val, hb.ne', ha.ne']
    · intro h
      simp only [toTr, Transform.add]
      positivity
    · intro h
      simp [toTr, Transform.add, h]
    · intro x hx
      simp only [List.mem_append, List.mem_cons] at hx
      rcases hx with (hx | rfl | hx) | hx
      · exact hs x (by simp [hx])
      · exact hF
      · exact hs x (by simp [hx])
      · exact hs x (by simp [hx])
  | scale vars ctx d d' v n x pre mid post m q hpre hs hn hx hp ih =>
    have := good_command vars ctx d d' .ScaleDurations v (pre ++ n :: mid) post m q
      (some { scale := x }) (.scale x :: ctx) (by decide +kernel) (by decide +kernel) (by decide) ?_ rfl ?_ ?_
      ?_ ih
    · simpa using this
    · have k1 : isSub 5 Cls.ScaleDurations .Times = false := by decide +kernel
      have k2 : isSub 5 Cls.ScaleDurations .Tuplet = false := by decide +kernel
      have k3 : isSub 5 Cls.ScaleDurations .ScaleDurations = true := by decide +kernel
      rw [transform, isA_node, isA_node, isA_node, k1, k2, k3]
      simp only [if_true, Bool.false_eq_true, if_false, Node.Tree.children]
      rw [List.append_assoc, List.cons_append, firstNum_comments pre _ n x hpre hn]
      rfl
    · intro h
      simp only [toTr, Transform.add]
      positivity
    · intro h
      simp [toTr, Transform.add, h]
    · intro y hy
      simp only [List.mem_append, List.mem_cons] at hy
      rcases hy with (hy | rfl | hy) | hy
      · exact hs y (by simp [hy])
      · exact number_silent _ _ hn
      · exact hs y (by simp [hy])
      · exact hs y (by simp [hy])
  | shift vars ctx d d' v n1 n2 a b pre mid mid2 post m q hpre hs hn1 hn2 hp ih =>
    have := good_command vars ctx d d' .ShiftDurations v (pre ++ n1 :: mid ++ n2 :: mid2) post m q
      (some { log := a, dotcount := b }) (.shift a b :: ctx) (by decide +kernel) (by decide +kernel) (by decide) ?_ rfl ?_ ?_
      ?_ ih
    · simpa using this
    · have k1 : isSub 5 Cls.ShiftDurations .Times = false := by decide +kernel
      have k2 : isSub 5 Cls.ShiftDurations .Tuplet = false := by decide +kernel
      have k3 : isSub 5 Cls.ShiftDurations .ScaleDurations = false := by decide +kernel
      have k4 : isSub 5 Cls.ShiftDurations .ShiftDurations = true := by decide +kernel
      rw [transform, isA_node, isA_node, isA_node, isA_node, k1, k2, k3, k4]
      simp only [if_true, Bool.false_eq_true, if_false, Node.Tree.children]
      rw [show pre ++ n1 :: mid ++ n2 :: mid2 ++ m :: post = pre ++ (n1 :: (mid ++ (n2 :: (mid2 ++ m :: post)))) by simp,
        filterMap_comments pre _ (fun x hx => hpre x (by simp [hx])), List.filterMap_cons, integer_int n1 a hn1]
      simp only
      rw [filterMap_comments mid _ (fun x hx => hpre x (by simp [hx])), List.filterMap_cons, integer_int n2 b hn2]
    · intro h
      simpa [toTr, Transform.add] using h
    · intro h
      simp [toTr, Transform.add, h]
    · intro y hy
      simp only [List.mem_append, List.mem_cons] at hy
      rcases hy with ((hy | rfl | hy) | rfl | hy) | hy
      · exact hs y (by simp [hy])
      · exact integer_silent _ _ hn1
      · exact hs y (by simp [hy])
      · exact integer_silent _ _ hn2
      · exact hs y (by simp [hy])
      · exact hs y (by simp [hy])
  | grace vars ctx d d' c v pre post m q hc hs hp ih =>
    obtain ⟨h1, h2, h3, h4, h5, h6, h7, h8, h9, h10, h11, -, h13⟩ := grace_cls c hc
    have hz : (toTr (.scale 0 :: ctx)).scale = 0 := by simp [toTr, Transform.add]
    have := good_command vars ctx d d' c v pre post m q (some { scale := 0 }) (.scale 0 :: ctx) ⟨h1, h2, h3, h4, h5⟩ h11 h13
      (by simp [transform, isA_node, h6, h7, h8, h9, h10]) rfl (fun _ => hz.ge) (fun _ => hz) hs ih
    intro env e hv he hsc
    have hq : q = 0 := (ih env e hv he hz.ge).2.1 hz q (by simp)
    subst hq
    exact this env e hv he hsc
  | afterGrace vars ctx d d1 d2 v pre mid post m n q r hpre hs hm1 hm2 hm hn ihm ihn =>
    intro env e hv he hsc
    obtain ⟨a1, a2, a3⟩ := ihm env e hv he hsc
    obtain ⟨b1, b2, b3⟩ := ihn env e hv he (by simp [toTr, Transform.add])
    refine ⟨a1, a2, fun p before hp hb => ?_⟩
    have hmus := plays_music _ _ _ _ _ _ hm m rfl hm1 hm2
    obtain ⟨⟨ps, hps, -⟩, hpd⟩ := silentL_ok pre (fun x hx => hs x (by simp [hx])) (some .AfterGrace) before
    obtain ⟨⟨mm, hmm, hml⟩, hmd⟩ := a3 (some .AfterGrace) (revL pre ++ before) (by simp) (by rw [hpd, hb])
    obtain ⟨m', hm', rfl⟩ := toMusL_single _ _ _ _ hmm
    obtain ⟨⟨mds, hmds, -⟩, hmdd⟩ := silentL_ok mid (fun x hx => hs x (by simp [hx])) (some .AfterGrace)
      (revL [m] ++ (revL pre ++ before))
    obtain ⟨⟨nn, hnn, -⟩, hnd⟩ := b3 (some .AfterGrace) (revL mid ++ (revL [m] ++ (revL pre ++ before))) (by simp)
      (by rw [hmdd, hmd])
    obtain ⟨⟨pos, hpos, -⟩, hpod⟩ := silentL_ok post (fun x hx => hs x (by simp [hx])) (some .AfterGrace)
      (revL [n] ++ (revL mid ++ (revL [m] ++ (revL pre ++ before))))
    have hall := toMusL_append _ _ _ _ _ _ hps (toMusL_append _ _ _ _ _ _ hmm (toMusL_append _ _ _ _ _ _ hmds
      (toMusL_append _ _ _ _ _ _ hnn hpos)))
    have hcs : pre ++ ([m] ++ (mid ++ ([n] ++ post))) = pre ++ m :: mid ++ n :: post := by simp
    rw [hcs] at hall
    have hk : kindOf p before (.node (.AfterGrace, v) (pre ++ m :: mid ++ n :: post)) = .ok .afterGrace := by
      simp [kindOf, isA_node, show isSub 5 Cls.AfterGrace .Chord = false by decide +kernel,
        show isSub 5 Cls.AfterGrace .Skip = false by decide +kernel,
        show isSub 5 Cls.AfterGrace .Durable = false by decide +kernel,
        show isSub 5 Cls.AfterGrace .AfterGrace = true by decide +kernel]
    have hk' := toMus_kind _ _ _ _ hm'
    have hmk := kindOf_isMusic _ _ _ _ hk' hmus
    have hpk : ∀ x ∈ ps, x.kind.isMusic = false := by
      have : ∀ (xs : List Nd) (b : List Nd) (ys : List Mus), (∀ x ∈ xs, x.val.1 ∈ comments ∨ x.val.1 = .Fraction) →
          toMusL (some .AfterGrace) b xs = .ok ys → ∀ y ∈ ys, y.kind.isMusic = false := by
        intro xs
        induction xs with
        | nil => intro b ys _ h; simp only [toMusL, Except.ok.injEq] at h; subst h; simp
        | cons x xs ih =>
          intro b ys hx h
          simp only [toMusL] at h
          cases h1 : toMus (some .AfterGrace) b x with
          | error err => rw [h1] at h; cases h
          | ok y =>
            rw [h1] at h
            simp only at h
            cases h2 : toMusL (some .AfterGrace) (rev x ++ b) xs with
            | error err => rw [h2] at h; cases h
            | ok ys' =>
              rw [h2] at h
              simp only [Except.ok.injEq] at h
              subst h
              intro z hz
              rcases List.mem_cons.1 hz with rfl | hz
              · have hkz := toMus_kind _ _ _ _ h1
                have : ∀ c ∈ .Fraction :: comments, isSub 5 c .Skip = false ∧ isSub 5 c .Chord = false ∧
                    isSub 5 c .Durable = false ∧ isSub 5 c .AfterGrace = false ∧ isSub 5 c .Reference = false ∧
                    isSub 5 c .Music = false := by decide +kernel
                obtain ⟨t1, t2, t3, t4, t5, t6⟩ := this x.val.1 (by
                  rcases hx x (by simp) with h | h <;> simp [h])
                simp only [kindOf, isA, t1, t2, t3, t4, t5, t6, Bool.false_eq_true, if_false, Except.ok.injEq] at hkz
                rw [← hkz]
                rfl
              · exact ih _ _ (fun x hx' => hx x (by simp [hx'])) h2 z hz
      exact this pre before ps hpre hps
    constructor
    · refine ⟨_, toMusL_of_single _ _ _ _ (toMus_node p before .AfterGrace v _ _ _ hk hall), ?_⟩
      simp only [List.map_cons, List.map_nil, List.cons.injEq, and_true] at hml ⊢
      have hfm : ∀ (xs : List Mus) (rest : List Mus), (∀ x ∈ xs, x.kind.isMusic = false) →
          Time.firstMusic (Time.lengths (Time.remoteLength e) (toTr ctx) (xs ++ m' :: rest)) = .ok q := by
        intro xs rest
        induction xs with
        | nil => intro _; simp [Time.lengths, Time.firstMusic, hmk, hml]
        | cons x xs ih =>
          intro h
          simp only [List.cons_append, Time.lengths, Time.firstMusic, h x (by simp), Bool.false_eq_true, if_false]
          exact ih fun y hy => h y (by simp [hy])
      simp only [Time.length, Kind.isMusic, if_true, Time.enter, Time.timeLength, Time.upto]
      exact hfm ps _ hpk
    · refine previous_single .AfterGrace v _ before d2 (.inl (by decide +kernel)) ?_
      rw [← hcs]
      simp only [revL_append, List.append_assoc]
      rw [hpod, hnd]
  | after vars ctx d v cs hcs =>
    intro env e hv he hsc
    refine ⟨by simp, by simp, fun p before hp hb => ?_⟩
    obtain ⟨⟨ms, hms, hl⟩, hd⟩ := postL_ok cs hcs (some .After) before
    refine ⟨command_ok _ _ p before .After v cs none _ 0 (by decide +kernel) (isSequential_false _ _ _ _ (by decide +kernel))
      (transform_none _ _ _ (by decide +kernel)) ⟨ms, hms, hl _ _⟩ (longest_zeros _ ?_),
      previous_single .After v cs before d (.inl (by decide +kernel)) (by rw [hd, hb])⟩
    intro q hq
    simp only [List.mem_map] at hq
    obtain ⟨_, _, rfl⟩ := hq
    rfl
  | «variable» vars rest ctx d d0 d1 name cs t q hcs hf hr hp ih =>
    subst hr
    intro env e hv he hsc
    obtain ⟨env', e', b', m', k1, k2, k3, k4, k5⟩ := vars_found name d0 t vars env e hv he hf
    obtain ⟨h1, h2, h3⟩ := ih env' e' k1 k2 hsc
    refine ⟨h1, h2, fun p before hp hb => ?_⟩
    obtain ⟨⟨mm, hmm, hml⟩, -⟩ := h3 (some .Assignment) b' (by simp) k3
    obtain ⟨m2, hm2, rfl⟩ := toMusL_single _ _ _ _ hmm
    rw [hm2] at k4
    injection k4 with k4
    subst k4
    obtain ⟨⟨ms, hms, -⟩, hps⟩ := silentL_ok cs hcs (some .IdentifierRef) before
    constructor
    · refine ⟨_, toMusL_of_single _ _ _ _ (toMus_node p before .IdentifierRef (.text name) cs (.reference name) ms ?_ hms), ?_⟩
      · simp [kindOf, isA_node, show isSub 5 Cls.IdentifierRef .Chord = false by decide +kernel,
          show isSub 5 Cls.IdentifierRef .Skip = false by decide +kernel,
          show isSub 5 Cls.IdentifierRef .Durable = false by decide +kernel,
          show isSub 5 Cls.IdentifierRef .AfterGrace = false by decide +kernel,
          show isSub 5 Cls.IdentifierRef .Music = false by decide +kernel,
          show isSub 5 Cls.IdentifierRef .Reference = true by decide +kernel, headText, Node.Tree.val]
      · simp only [List.map_cons, List.map_nil, List.cons.injEq, and_true] at hml ⊢
        rw [Time.length, k5, hml]
    · exact previous_single .IdentifierRef _ cs before d (.inl (by decide +kernel)) (by rw [hps, hb])

/-! ## Documents -/

theorem assignments_append (xs ys : List Nd) : ∀ before,
    assignments before (xs ++ ys) = assignments (revL xs ++ before) ys ++ assignments before xs := by
  induction xs with
  | nil => intro before; simp [assignments, revL]
  | cons x xs ih =>
    intro before
    simp [assignments, revL, ih]

theorem isSub_assignment (c : Cls) : isSub 5 c .Assignment = decide (c = .Assignment) := by
  cases c <;> decide +kernel

theorem assignments_other (before : List Nd) (t : Nd) (h : t.val.1 ≠ .Assignment) : assignments before [t] = [] := by
  simp [assignments, isA, isSub_assignment, h]

theorem assignments_one (before : List Nd) (v w : Val) (name : String) (ids : List Nd) (t : Nd) :
    assignments before [.node (.Assignment, v) [.node (.Identifier, .text name) ids, .node (.EqualSign, w) [], t]] =
      [(name, .node (.EqualSign, w) [] :: (.node (.Identifier, .text name) ids :: (revL ids ++ before)), t)] := by
  have h1 : isSub 5 Cls.Assignment .Assignment = true := by decide +kernel
  have h2 : isSub 5 Cls.Identifier .Identifier = true := by decide +kernel
  have h3 : isSub 5 Cls.Identifier .EqualSign = false := by decide +kernel
  have h4 : isSub 5 Cls.EqualSign .EqualSign = true := by decide +kernel
  simp [assignments, isA, Node.Tree.val, Node.Tree.children, assignedName, assignedValue, headText, h1, h2, h3, h4, rev, revL]

/-- Trees without music. -/
theorem all_previous (L : List Cls) (hL : ∀ c ∈ L, isSub 5 c .Durable = false) (t : Nd) (h : All L t) :
    ∀ before, previousDuration (rev t ++ before) = previousDuration before := by
  induction h with
  | mk c v cs hc hcs ih =>
    intro before
    rw [previous_rev c v cs before (.inl (hL c hc))]
    clear hcs
    induction cs generalizing before with
    | nil => rfl
    | cons x xs ihx =>
      rw [revL, List.append_assoc, ihx (fun y hy => ih y (by simp [hy])), ih x (by simp)]

theorem allL_previous (L : List Cls) (hL : ∀ c ∈ L, isSub 5 c .Durable = false) (ts : List Nd) (h : ∀ x ∈ ts, All L x) :
    ∀ before, previousDuration (revL ts ++ before) = previousDuration before := by
  induction ts with
  | nil => intro before; rfl
  | cons x xs ihx =>
    intro before
    rw [revL, List.append_assoc, ihx (fun y hy => h y (by simp [hy])), all_previous L hL x (h x (by simp))]

theorem doc_ok (ts : List Nd) (vars : List Var) (d : D) (h : Doc ts vars d) :
    Vars vars (assignments [] ts) ∧ (∃ e, toEnv (assignments [] ts) = .ok e) ∧ previousDuration (revL ts) = d := by
  induction h with
  | nil => exact ⟨.nil, ⟨_, rfl⟩, rfl⟩
  | music ts vars d d' t q _ ht hp ih =>
    obtain ⟨h1, ⟨e, he⟩, h3⟩ := ih
    rw [assignments_append, assignments_other _ t ht, List.nil_append, revL_append]
    exact ⟨h1, ⟨e, he⟩, ((good _ _ _ _ _ _ hp _ e h1 he (by simp [toTr])).2.2 none _ (by simp) h3).2⟩
  | assign ts vars d d' t q name v w ids _ hids hp ih =>
    obtain ⟨h1, ⟨e, he⟩, h3⟩ := ih
    have hb : previousDuration (.node (.EqualSign, w) [] :: (.node (.Identifier, .text name) ids :: (revL ids ++ revL ts))) =
        d := by
      have e1 : isSub 5 Cls.EqualSign .Durable = false := by decide +kernel
      have e2 : isSub 5 Cls.Identifier .Durable = false := by decide +kernel
      have e3 := (conv_silent (Time.remoteLength e) {} none (revL ts) ids hids).2
      simp only [previousDuration, setsPrevious, isA_node, e1, e2, Bool.false_and, Bool.false_eq_true, if_false]
      rw [e3, h3]
    obtain ⟨⟨ms, hms, -⟩, hd⟩ := (good _ _ _ _ _ _ hp _ e h1 he (by simp [toTr])).2.2 (some .Assignment) _ (by simp) hb
    obtain ⟨m, hm, rfl⟩ := toMusL_single _ _ _ _ hms
    rw [assignments_append, assignments_one, List.append_nil, List.singleton_append]
    refine ⟨.cons ⟨rfl, hb, rfl⟩ h1, ⟨(name, m) :: e, by simp only [toEnv, hm, he]⟩, ?_⟩
    rw [revL_append]
    refine previous_single _ v _ _ d' (.inl (by decide +kernel)) ?_
    simpa [revL, rev] using hd
  | settings ts vars d c v cs _ hc hcs ih =>
    obtain ⟨h1, ⟨e, he⟩, h3⟩ := ih
    have hcl : ∀ c ∈ Spec.settings, c ≠ .Assignment ∧ isSub 5 c .Durable = false := by decide +kernel
    rw [assignments_append, assignments_other _ (.node (c, v) cs) (hcl c hc).1, List.nil_append, revL_append]
    refine ⟨h1, ⟨e, he⟩, previous_single c v _ _ d (.inl (hcl c hc).2) ?_⟩
    rw [allL_previous inSettings (by decide +kernel) cs hcs, h3]
  | score ts vars d d' c v cs qs _ hc hp ih =>
    obtain ⟨h1, ⟨e, he⟩, h3⟩ := ih
    have hcl : ∀ c ∈ scores, c ≠ .Assignment ∧ isSub 5 c .Durable = false := by decide +kernel
    rw [assignments_append, assignments_other _ (.node (c, v) cs) (hcl c hc).1, List.nil_append, revL_append]
    refine ⟨h1, ⟨e, he⟩, previous_single c v _ _ d' (.inl (hcl c hc).2) ?_⟩
    exact ((good _ _ _ _ _ _ hp _ e h1 he (by simp [toTr])).2.2 none _ (by simp) h3).2

/-- **C87**: the length that is returned for music in a document is what LilyPond documents, for the music that `Plays`
describes: with the current duration of the document before it (`ts` at the toplevel and then `inner` in the blocks the
music is in), and with the values of the variables that are assigned before it.

Missing: figured bass, repeats other than volta repeats, alternatives, drum chords, `\afterGrace` with a variable,
and `\tag` and other commands that are not Music, for which the length is wrong or not defined (see the theorems below and
C52); durations that get a negative number of dots; variables in include files (C104). -/
theorem C87_length_partial (ts inner : List Nd) (p : Option Cls) (t : Nd) (vars : List Var) (d d1 d2 : D) (qs : List ℚ)
    (q : ℚ) (hd : Doc ts vars d) (hi : Plays vars [] d inner qs d1) (hp : p ≠ some .Simultaneous)
    (h : Plays vars [] d1 [t] [q] d2) : timeLength (assignments [] ts) p (revL (ts ++ inner)) t = .ok q := by
  obtain ⟨hv, ⟨e, he⟩, hb⟩ := doc_ok ts vars d hd
  have hb1 := ((good _ _ _ _ _ _ hi _ e hv he (by simp [toTr])).2.2 none _ (by simp) hb).2
  rw [← revL_append] at hb1
  obtain ⟨⟨ms, hms, hl⟩, -⟩ := (good _ _ _ _ _ _ h _ e hv he (by simp [toTr])).2.2 p _ hp hb1
  obtain ⟨m, hm, rfl⟩ := toMusL_single _ _ _ _ hms
  simp only [List.map_cons, List.map_nil, List.cons.injEq, and_true] at hl
  simp only [timeLength, he, hm]
  exact hl

end Quickly.Length
