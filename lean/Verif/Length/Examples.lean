import Verif.Length.Props

/-! # C87: examples, and lengths that are wrong -/

namespace Quickly.Length

open Quickly.Node Quickly.Signature Spec
open Quickly.Time (Mus Kind)
open Quickly.Duration.Spec (value)

/-! ## Parts of examples -/

/-- A note with a duration. -/
def dur (c : Cls) (q : ℚ) : Nd := .node (c, .text "") [.node (.Duration, .value q) []]

/-- A note without a duration. -/
def bare (c : Cls) : Nd := .node (c, .text "") []

/-- `{ ... }` -/
def seq (ts : List Nd) : Nd := .node (.MusicList, .text "{") ts

/-- `music = { c8 d e }` -/
def exAssign : Nd :=
  .node (.Assignment, .text "") [.node (.Identifier, .text "music") [.node (.Symbol, .text "music") []],
    .node (.EqualSign, .text "=") [], seq [dur .Note (1/8), bare .Note, bare .Note]]

/-- `\tuplet 3/2 { \music r4 }` -/
def exTuplet : Nd :=
  .node (.Tuplet, .text "") [.node (.Fraction, .pair 3 2) [], seq [.node (.IdentifierRef, .text "music") [], dur .Rest (1/4)]]

/-- `\shiftDurations #1 #1 { c4 d }` -/
def exShift : Nd :=
  .node (.ShiftDurations, .text "") [.node (.Scheme, .scheme (some (.int 1))) [], .node (.Scheme, .scheme (some (.int 1))) [],
    seq [dur .Note (1/4), bare .Note]]

theorem plays_dur (vars : List Var) (ctx : List Change) (d : D) (c : Cls) (x q : ℚ) (hc : c ∈ events)
    (h : Sounds ctx (x, 1) q) : Plays vars ctx d [dur c x] [q] (x, 1) :=
  .event vars ctx d (x, 1) c _ _ q hc
    (by
      intro y hy
      simp only [List.mem_singleton] at hy
      subst hy
      exact ⟨.mk _ _ _ (by decide) (by simp), .mk _ _ _ (by simp) (by simp)⟩)
    (.inl (.plain [] [] x [] (by simp) (by simp))) h

theorem plays_bare (vars : List Var) (ctx : List Change) (d : D) (c : Cls) (q : ℚ) (hc : c ∈ events)
    (h : Sounds ctx d q) : Plays vars ctx d [bare c] [q] d :=
  .event vars ctx d d c _ _ q hc (by simp) (.inr ⟨by simp, rfl⟩) h

theorem plays_two (vars : List Var) (ctx : List Change) (d d1 d2 : D) (s t : Nd) (q r : ℚ)
    (h1 : Plays vars ctx d [s] [q] d1) (h2 : Plays vars ctx d1 [t] [r] d2) : Plays vars ctx d [s, t] [q, r] d2 :=
  .cons vars ctx d d1 d2 s [t] q [r] h1 h2

/-- `c8 d e` -/
theorem plays_three (vars : List Var) (ctx : List Change) (d : D) (q : ℚ) (h : Sounds ctx (1/8, 1) q) :
    Plays vars ctx d [seq [dur .Note (1/8), bare .Note, bare .Note]] [[q, q, q].sum] (1/8, 1) :=
  .list vars ctx d _ _ _ _ (.cons _ _ _ _ _ _ _ _ _ (plays_dur _ _ _ .Note _ _ (by decide) h)
    (plays_two _ _ _ _ _ _ _ _ _ (plays_bare _ _ _ .Note _ (by decide) h) (plays_bare _ _ _ .Note _ (by decide) h)))

/-- `\tuplet 3/2 { \music r4 }` after `music = { c8 d e }` is a quarter note and two thirds of a quarter note. -/
theorem C87_length_nontrivial_tuplet :
    timeLength (assignments [] [exAssign]) (some .Score) (revL ([exAssign] ++ [])) exTuplet = .ok (5/12) := by
  have h8 : ∀ ctx q, sounds ctx 3 0 1 = some q → Sounds ctx (1/8, 1) q := fun ctx q h =>
    ⟨3, 0, by norm_num, by norm_num, by norm_num [value], by norm_num, h⟩
  have h4 : ∀ ctx q, sounds ctx 2 0 1 = some q → Sounds ctx (1/4, 1) q := fun ctx q h =>
    ⟨2, 0, by norm_num, by norm_num, by norm_num [value], by norm_num, h⟩
  refine C87_length_partial [exAssign] [] (some .Score) exTuplet
    [("music", (1/4, 1), seq [dur .Note (1/8), bare .Note, bare .Note])] (1/8, 1) (1/8, 1) (1/4, 1) [] (5/12)
    (.assign [] [] _ _ _ (3/8) "music" _ _ [.node (.Symbol, .text "music") []] .nil ?_ ?_) (.nil _ _ _) (by simp) ?_
  · intro x hx
    simp only [List.mem_singleton] at hx
    subst hx
    exact .mk _ _ _ (by decide) (by simp)
  · have := plays_three [] [] (1/4, 1) (1/8) (h8 [] _ (by norm_num [sounds, value]))
    norm_num at this
    exact this
  · refine .tuplet _ _ _ _ _ 3 2 [] [] [] _ _ (by simp) (by simp) (by norm_num) (by norm_num) ?_
    have hv : Plays [("music", (1/4, 1), seq [dur .Note (1/8), bare .Note, bare .Note])] [.scale (2 / 3)] (1/8, 1)
        [.node (.IdentifierRef, .text "music") []] [[1/12, 1/12, 1/12].sum] (1/8, 1) :=
      .variable _ [] _ _ (1/4, 1) (1/8, 1) "music" [] _ _ (by simp) (by simp) (by simp)
        (plays_three _ _ _ (1/12) (h8 _ _ (by norm_num [sounds, value])))
    have := Plays.list _ _ _ _ (.text "{") _ _ (plays_two _ _ _ _ _ _ _ _ _ hv
      (plays_dur _ _ _ .Rest (1/4) (1/6) (by decide) (h4 _ _ (by norm_num [sounds, value]))))
    norm_num at this
    norm_num
    exact this

/-- `\shiftDurations #1 #1 { c4 d }` is two dotted eighth notes. -/
theorem C87_length_nontrivial_shift : timeLength [] none (revL ([] ++ [])) exShift = .ok (3/8) := by
  have h4 : Sounds [.shift 1 1] (1/4, 1) (3/16) :=
    ⟨2, 0, by norm_num, by norm_num, by norm_num [value], by norm_num, by norm_num [sounds, value]⟩
  refine C87_length_partial [] [] none exShift [] (1/4, 1) (1/4, 1) (1/4, 1) [] (3/8) .nil (.nil _ _ _) (by simp) ?_
  refine .shift _ _ _ _ _ _ _ 1 1 [] [] [] [] _ _ (by simp) (by simp) (.scheme 1 [] (by simp)) (.scheme 1 [] (by simp)) ?_
  have := Plays.list _ _ _ _ (.text "{") _ _ (plays_two [] _ (1/4, 1) _ _ _ _ _ _
    (plays_dur _ _ _ .Note (1/4) _ (by decide) h4) (plays_bare _ _ _ .Note _ (by decide) h4))
  norm_num at this
  exact this

/-! ## Lengths that are wrong -/

/-- What `Plays` gives for nodes that need not be played. -/
theorem length_of_conv (env : List Assigned) (e : Time.Env) (p : Option Cls) (before : List Nd) (t : Nd) (q : ℚ)
    (he : toEnv env = .ok e) (h : Conv (Time.remoteLength e) {} p before [t] [q]) : timeLength env p before t = .ok q := by
  obtain ⟨ms, hms, hl⟩ := h
  obtain ⟨m, hm, rfl⟩ := toMusL_single _ _ _ _ hms
  simp only [List.map_cons, List.map_nil, List.cons.injEq, and_true] at hl
  simp only [timeLength, he, hm]
  exact hl

theorem isSub_note (c : Cls) : isSub 5 c .Note = decide (c = .Note) := by
  cases c <;> decide +kernel

/-- A chord of drum notes, `<bd hh>4`, has length 0, whatever duration is written or current: only a `Note` is looked
for. -/
theorem C87_drum_chord (ts : List Nd) (vars : List Var) (d : D) (p : Option Cls) (v w : Val) (ns cs : List Nd)
    (hd : Doc ts vars d) (hn : ∀ x ∈ ns, x.val.1 = .Drum ∧ All attached x ∧ NoDur x)
    (hc : ∀ x ∈ cs, (All attached x ∧ NoDur x) ∧ ∀ y ∈ x.children, y.val.1 ≠ .Note) :
    timeLength (assignments [] ts) p (revL ts) (.node (.Chord, v) (.node (.ChordBody, w) ns :: cs)) = .ok 0 := by
  obtain ⟨hv, ⟨e, he⟩, hb⟩ := doc_ok ts vars d hd
  obtain ⟨⟨ms, hms⟩, -⟩ := attachedL_ok (.node (.ChordBody, w) ns :: cs) (by
    intro x hx
    rcases List.mem_cons.1 hx with rfl | hx
    · exact ⟨.mk _ _ _ (by decide) fun x hx => (hn x hx).2.1,
        .mk _ _ _ (fun h => absurd h (by decide)) fun x hx => (hn x hx).2.2⟩
    · exact (hc x hx).1) (some .Chord) (revL ts)
  have hany : ((.node (.ChordBody, w) ns :: cs).any fun body => body.children.any (isA .Note)) = false := by
    rw [List.any_eq_false]
    intro x hx
    rw [Bool.not_eq_true, List.any_eq_false]
    intro y hy
    rw [isA, isSub_note]
    rcases List.mem_cons.1 hx with rfl | hx
    · simp [(hn y hy).1]
    · simpa using (hc x hx).2 y hy
  refine length_of_conv _ e p _ _ _ he ⟨_, toMusL_of_single _ _ _ _ (toMus_node p (revL ts) .Chord v _
    (.chord false (getDuration (revL ts) (.node (.Chord, v) (.node (.ChordBody, w) ns :: cs))).1
      (getDuration (revL ts) (.node (.Chord, v) (.node (.ChordBody, w) ns :: cs))).2) ms ?_ hms), ?_⟩
  · have : isSub 5 Cls.Chord .Chord = true := by decide +kernel
    simp only [kindOf, isA_node, this, if_true, Node.Tree.children] at hany ⊢
    rw [hany]
  · simp [Time.length, Kind.isMusic, Time.timeLength]

/-- A repeat has the length of its music once: also `\repeat unfold 4 { c4 }`, which is played four times. -/
theorem C87_repeat_once (ts : List Nd) (vars : List Var) (d d' : D) (p : Option Cls) (v : Val) (kind : String) (n : ℤ)
    (m : Nd) (q : ℚ) (hd : Doc ts vars d) (hp : p ≠ some .Simultaneous) (hm : Plays vars [] d [m] [q] d') :
    timeLength (assignments [] ts) p (revL ts)
      (.node (.Repeat, v) [.node (.Symbol, .text kind) [], .node (.Int, .num (.int n)) [], m]) = .ok q := by
  obtain ⟨hv, ⟨e, he⟩, hb⟩ := doc_ok ts vars d hd
  have := good_same vars [] d d' .Repeat v [.node (.Symbol, .text kind) [], .node (.Int, .num (.int n)) []] [] m q
    (by decide +kernel) (by decide +kernel) (by decide) (by decide +kernel) (by
      intro x hx
      simp only [List.append_nil, List.mem_cons, List.not_mem_nil, or_false] at hx
      rcases hx with rfl | rfl <;> exact .mk _ _ _ (by decide) (by simp)) (good _ _ _ _ _ _ hm)
  exact length_of_conv _ e p _ _ _ he ((this _ e hv he (by simp [toTr])).2.2 p _ hp hb).1

/-- A repeat with alternatives has the length of the longer one of the music and the alternatives, although they are
played one after the other. -/
theorem C87_alternatives (ts : List Nd) (vars : List Var) (d d1 d2 : D) (p : Option Cls) (v w : Val) (kind : String) (n : ℤ)
    (m a : Nd) (q r : ℚ) (hd : Doc ts vars d) (hm : Plays vars [] d [m] [q] d1)
    (ha : Plays vars [] d1 [a] [r] d2) :
    timeLength (assignments [] ts) p (revL ts)
      (.node (.Repeat, v) [.node (.Symbol, .text kind) [], .node (.Int, .num (.int n)) [], m,
        .node (.Alternative, w) [a]]) = .ok (max q r) := by
  obtain ⟨hv, ⟨e, he⟩, hb⟩ := doc_ok ts vars d hd
  obtain ⟨m1, -, m3⟩ := good _ _ _ _ _ _ hm _ e hv he (by simp [toTr])
  have halt := Plays.wrapper vars [] d1 d2 .Alternative w [] [] a r (by decide) (by simp) ha
  obtain ⟨a1, -, a3⟩ := good _ _ _ _ _ _ halt _ e hv he (by simp [toTr])
  have hq0 := m1 q (by simp)
  have hr0 := a1 r (by simp)
  obtain ⟨h4, h5⟩ := conv_around (Time.remoteLength e) (toTr []) (some .Repeat) d d1 q (revL ts)
    [.node (.Symbol, .text kind) [], .node (.Int, .num (.int n)) []] [] m (by
      intro x hx
      simp only [List.append_nil, List.mem_cons, List.not_mem_nil, or_false] at hx
      rcases hx with rfl | rfl <;> exact .mk _ _ _ (by decide) (by simp)) hb (fun b hb => m3 _ b (by simp) hb)
  have h8 := conv_append _ _ _ _ _ _ _ _ h4 (a3 (some .Repeat) _ (by simp) h5).1
  refine length_of_conv _ e p _ _ _ he (command_ok _ _ p _ .Repeat v _ none _ (max q r) (by decide +kernel)
    (isSequential_false _ _ _ _ (by decide +kernel)) (transform_none _ _ _ (by decide +kernel)) h8 ?_)
  refine .inr ⟨?_, ?_⟩
  · rcases le_total q r with h | h
    · rw [max_eq_right h]; simp
    · rw [max_eq_left h]; simp
  · intro y hy
    simp only [List.map_cons, List.map_nil, List.nil_append, List.cons_append, List.mem_cons, List.not_mem_nil,
      or_false] at hy
    rcases hy with rfl | rfl | rfl | rfl
    · exact le_max_of_le_left hq0
    · exact le_max_of_le_left hq0
    · exact le_max_left _ _
    · exact le_max_right _ _

/-- `\mark 4` is as long as a quarter note: the number is read as a duration without a pitch. -/
theorem C87_mark (ts : List Nd) (vars : List Var) (d : D) (p : Option Cls) (v w : Val) (l : ℤ) (k : ℕ) (hl : -3 ≤ l) (hk : k ≤ 52)
    (hd : Doc ts vars d) (hp : p ≠ some .Simultaneous) :
    timeLength (assignments [] ts) p (revL ts)
      (.node (.Mark, v) [.node (.Unpitched, w) [.node (.Duration, .value (value l k)) []]]) = .ok (value l k) := by
  obtain ⟨hv, ⟨e, he⟩, hb⟩ := doc_ok ts vars d hd
  have hm : Plays vars [] d [.node (.Unpitched, w) [.node (.Duration, .value (value l k)) []]] [value l k] (value l k, 1) :=
    .event vars [] d (value l k, 1) .Unpitched _ _ _ (by decide)
      (by
        intro y hy
        simp only [List.mem_singleton] at hy
        subst hy
        exact ⟨.mk _ _ _ (by decide) (by simp), .mk _ _ _ (by simp) (by simp)⟩)
      (.inl (.plain [] [] _ [] (by simp) (by simp))) ⟨l, k, hl, hk, rfl, by simp, by simp [sounds]⟩
  have := good_same vars [] d _ .Mark v [] [] _ (value l k) (by decide +kernel) (by decide +kernel) (by decide)
    (by decide +kernel) (by simp) (good _ _ _ _ _ _ hm)
  exact length_of_conv _ e p _ _ _ he ((this _ e hv he (by simp [toTr])).2.2 p _ hp hb).1

/-- Commands with music that are not Music themselves. -/
def tagged : List Cls := [.Tag, .KeepWithTag, .RemoveWithTag, .PushToTag, .AppendToTag, .ApplyMusic]

/-- Music with a tag, `\tag #'part { c1 }`, has length 0 wherever it is, however long the music in it is; the same for the
other commands with tags and for `\applyMusic`. -/
theorem C87_tag (ts : List Nd) (vars : List Var) (d d' : D) (p : Option Cls) (c : Cls) (v : Val) (x m : Nd) (q : ℚ)
    (hc : c ∈ tagged) (hx : Silent x) (hd : Doc ts vars d) (hm : Plays vars [] d [m] [q] d') :
    timeLength (assignments [] ts) p (revL ts) (.node (c, v) [x, m]) = .ok 0 := by
  obtain ⟨hv, ⟨e, he⟩, hb⟩ := doc_ok ts vars d hd
  have hcl : ∀ c ∈ tagged, isSub 5 c .Chord = false ∧ isSub 5 c .Skip = false ∧ isSub 5 c .Durable = false ∧
      isSub 5 c .AfterGrace = false ∧ isSub 5 c .Music = false ∧ isSub 5 c .Reference = false ∧ c ≠ .Simultaneous := by
    decide +kernel
  obtain ⟨k1, k2, k3, k4, k5, k6, k7⟩ := hcl c hc
  obtain ⟨⟨ms, hms, -⟩, -⟩ := conv_around (Time.remoteLength e) (toTr []) (some c) d d' q (revL ts) [x] [] m
    (by simpa using hx) hb
    (fun b hb => (good _ _ _ _ _ _ hm _ e hv he (by simp [toTr])).2.2 (some c) b (by simpa using k7) hb)
  refine length_of_conv _ e p _ _ _ he ⟨_, toMusL_of_single _ _ _ _ (toMus_node p (revL ts) c v _ .other ms ?_ hms), ?_⟩
  · simp [kindOf, isA_node, k1, k2, k3, k4, k5, k6]
  · simp [Time.length, Kind.isMusic]

/-- `{ \tag #'part c1 d4 }` has length 1/4, but takes five quarter notes. -/
example : timeLength [] none []
    (seq [.node (.Tag, .text "\\tag") [.node (.Symbol, .text "part") [], dur .Note 1], dur .Note (1/4)]) = .ok (1/4) := by
  decide +kernel

/-- `\after 2 \turn c1` -/
example : timeLength [] none []
    (seq [.node (.After, .text "\\after") [.node (.Duration, .value (1/2)) [], bare .Articulation], dur .Note 1]) = .ok 1 := by
  decide +kernel

end Quickly.Length
