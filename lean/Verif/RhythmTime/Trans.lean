import Verif.RhythmTime.Edits

/-! # The edit that changes all durations -/

namespace Quickly.RhythmTime

open Quickly.Node Quickly.Signature Quickly.Length Quickly.Length.Spec Spec
open Quickly.Duration (Transform)
open Quickly.Time (Mus Kind Remote)

variable {T : Transform → Prop} {c : ℚ} {t : Transform}

/-- The transform changes the duration, and thereby all lengths. -/
def Changed (T : Transform → Prop) (c : ℚ) (t : Transform) (d d' : D) : Prop :=
  t.transform d.1 d.2 = .ok d' ∧ ∀ tr, T tr → tr.length d'.1 d'.2 = (tr.length d.1 d.2).map (c * ·)

theorem changed_scales : Scales T (Changed T c t) c := fun _ _ h => h.2

/-- What is known of the nodes of the document. -/
def TransNode (T : Transform → Prop) (c : ℚ) (t : Transform) (x : Bool × Nd) : Prop :=
  NormalNode x ∧ (x.2.val.1 ∈ timed → ∀ d, durationScaling x.2 = some d → ∃ d', Changed T c t d d') ∧ TOk T x.2

/-- What is known of the nodes that can have a duration. -/
def TransAt (b f : ℕ) (j : ℕ) (x : Bool × Nd) : Prop :=
  j < b ∧ (x.2.val.1 ∈ sounding → f ≤ j) ∧ (j = f → x.2.val.1 ∈ sounding ∧ durs x.2 ≠ [])

/-- The state of `transform` and the current durations. -/
def TransInv (T : Transform → Prop) (c : ℚ) (t : Transform) (f : ℕ) (i : ℕ) (st : Option PyErr) (p p' : D) : Prop :=
  st = none ∧ (Changed T c t p p' ∨ i ≤ f)

/-- For which nodes `transformProc` is called. -/
def transWhich (a b : ℕ) (i : ℕ) (n : Nd) : Bool := decide (a ≤ i ∧ i < b) && isA .HandleDuration n

theorem transWhich_timed (a b : ℕ) (i : ℕ) (n : Nd) (h : transWhich a b i n = true) : n.val.1 ∈ timed := by
  simp only [transWhich, Bool.and_eq_true, handle_iff, decide_eq_true_eq] at h
  exact h.2

theorem transWhich_true {b i : ℕ} {n : Nd} (hb : i < b) (h : n.val.1 ∈ timed) : transWhich 0 b i n = true := by
  simp [transWhich, handle_iff, h, hb]

theorem tempo_cls : ∀ c : Cls, isSub 5 c .Tempo = decide (c = .Tempo) := by
  intro c; cases c <;> decide +kernel

theorem trans_none {n : Nd} (h : durs n = []) (i : ℕ) (before : List Nd) (right : Option Nd) :
    transformProc t none i before right n = (none, .keep) := by
  simp only [transformProc, scaling_none h]

theorem trans_some {n : Nd} {d d' : D} (h : durationScaling n = some d) (ht : t.transform d.1 d.2 = .ok d') (i : ℕ)
    (before : List Nd) (right : Option Nd) : transformProc t none i before right n =
      (none, .set d'.1 (if n.val.1 = .Tempo then none else some d'.2)) := by
  simp only [transformProc, h, ht, isA, tempo_cls, decide_eq_true_eq]
  split <;> rfl

theorem tempo_not : Cls.Tempo ∉ sounding := by decide

theorem trans_inside (b : ℕ) (d : D) : ∀ (st : Option PyErr) (i : ℕ) (before : List Nd) (right : Option Nd) (n : Nd),
    st = none → (OkIn n ∧ (n.val.1 ∈ timed → ∀ d, durationScaling n = some d → ∃ d', Changed T c t d d')) →
      transWhich 0 b i n = true →
      (transformProc t st i before right n).1 = none ∧ InCh d n (transformProc t st i before right n).2 := by
  rintro st i before right n rfl ⟨ho, hc⟩ hw
  cases hds : durs n with
  | nil => rw [trans_none hds]; exact ⟨rfl, trivial⟩
  | cons e es =>
    have hn : n.val.1 ∉ sounding := fun h => by rw [ho.1 h] at hds; cases hds
    obtain ⟨d', hd', -⟩ := hc (transWhich_timed 0 b i n hw) _ (scaling_some hds)
    rw [trans_some (scaling_some hds) hd']
    exact ⟨rfl, hn⟩

theorem trans_sound (b f : ℕ) : ∀ (st : Option PyErr) i before right l cs p p', l.1 ∈ sounding →
    TransInv T c t f i st p p' → previousDuration before = p' →
    Loc (TransNode T c t) (TransAt b f) i (nodes false (.node l cs)) →
    ∃ q q', Good T (Changed T c t) p p' (.node l cs)
        (walk (transformProc t) (transWhich 0 b) st i before right (.node l cs)).2.2 q q' ∧
      TransInv T c t f (walk (transformProc t) (transWhich 0 b) st i before right (.node l cs)).2.1
        (walk (transformProc t) (transWhich 0 b) st i before right (.node l cs)).1 q q' := by
  rintro st i before right l cs p p' hs ⟨rfl, hp⟩ hb hl
  obtain ⟨⟨-, hn2, -⟩, ho⟩ := sound_loc (Sx := fun _ _ => True) (i := i) hs ⟨fun x hx => (hl.1 x hx).1, fun _ _ _ => trivial⟩
  obtain ⟨hnode, hat, hin⟩ := hl.node
  simp only [hs, decide_true, Bool.false_or] at hin
  have htimed : l.1 ∈ timed := by simp [timed, hs]
  obtain ⟨a1, a2, a3⟩ := hat htimed
  have hwt : transWhich 0 b i (.node l cs) = true := transWhich_true a1 htimed
  have inner : ∀ d : D, _ := fun d => walkL_inside (P := transformProc t) (transWhich_timed 0 b) d
    (fun n => OkIn n ∧ (n.val.1 ∈ timed → ∀ d, durationScaling n = some d → ∃ d', Changed T c t d d')) (fun _ h => h.1)
    (fun st => st = none) (trans_inside b d) cs none (i + 1) before rfl
    (fun x hx => ⟨ho x hx, (hin.1 x hx).2.1⟩)
  have wd := walked_durs (P := transformProc t) (transWhich_timed 0 b) ho none (i + 1) before l
  cases hds : durs (.node l cs) with
  | nil =>
    rw [walk_sound (P := transformProc t) (which := transWhich 0 b) hs (st1 := none) (ch := .keep)
      (by rw [if_pos hwt, trans_none hds])]
    have hE : Changed T c t p p' := by
      rcases hp with hp | hp
      · exact hp
      · exact ((a3 (by have := a2 hs; omega)).2 hds).elim
    obtain ⟨i1, i2⟩ := inner p'
    have hsc := scaling_none hds
    refine ⟨_, _, good_keep l hs ho (same_in i1) wd.1 (fun _ => rfl) (by rw [hsc]; exact hE), i2, .inl ?_⟩
    rw [hsc]
    exact hE
  | cons d0 ds =>
    have hsc := scaling_some hds
    obtain ⟨m1, m2⟩ := durs_mem hds
    have hwr : WrittenDuration d0 := (hin.1 _ (nodesL_mem true cs d0 m1)).1.2.1 m2
    obtain ⟨d', hE⟩ := hnode.2.1 htimed _ hsc
    have hnt : l.1 ≠ .Tempo := fun h => tempo_not (h ▸ hs)
    rw [walk_sound (P := transformProc t) (which := transWhich 0 b) hs (st1 := none) (ch := .set d'.1 (some d'.2))
      (by
        rw [if_pos hwt, trans_some hsc hE.1]
        simp only [Node.Tree.val, hnt, if_false])]
    obtain ⟨i1, i2⟩ := inner p'
    refine ⟨durationOf d0, d', good_change l hs ho (same_set (same_in i1) wd.2 _ _) (by rw [hsc]; rfl) ?_ hE, i2, .inl hE⟩
    rw [Change.apply, setFirst_scaling d'.1 d'.2 l _ d0 ds (wd.1.trans hds) hwr]
    rfl

theorem trans_pass (b f : ℕ) : ∀ (st : Option PyErr) i before right (n : Nd) p p', n.val.1 ∉ .Duration :: sounding →
    TransInv T c t f i st p p' → TransNode T c t (false, n) → (n.val.1 ∈ timed → TransAt b f i (false, n)) →
    TransInv T c t f (if isA .HandleDuration n = true then i + 1 else i)
        (if transWhich 0 b i n = true then transformProc t st i before right n else (st, .keep)).1 p p' ∧ TOk T n ∧
      PassCh (Changed T c t) n
        (if transWhich 0 b i n = true then transformProc t st i before right n else (st, .keep)).2 := by
  rintro st i before right n p p' hn ⟨rfl, hp⟩ ⟨-, hch, hT⟩ hat
  simp only [List.mem_cons, not_or] at hn
  rw [handle_iff]
  by_cases ht : n.val.1 ∈ timed
  · obtain ⟨a1, a2, a3⟩ := hat ht
    rw [if_pos (decide_eq_true ht), if_pos (transWhich_true a1 ht)]
    have hp' : Changed T c t p p' ∨ i + 1 ≤ f := by
      rcases hp with hp | hp
      · exact .inl hp
      · right
        have : i ≠ f := fun h => hn.2 (a3 h).1
        omega
    cases hds : durs n with
    | nil =>
      rw [trans_none hds]
      exact ⟨⟨rfl, hp'⟩, hT, fun _ d hd => by rw [scaling_none hds] at hd; cases hd⟩
    | cons d0 ds =>
      have hsc := scaling_some hds
      obtain ⟨d', hE⟩ := hch ht _ hsc
      rw [trans_some hsc hE.1]
      refine ⟨⟨rfl, hp'⟩, hT, by rw [hds]; simp, fun hk => ⟨d'.2, by simp [hk], fun d hd => ?_⟩⟩
      rw [hsc] at hd
      cases hd
      exact hE
  · have hwf : ¬ transWhich 0 b i n = true := fun h => ht (transWhich_timed 0 b i n h)
    rw [if_neg (by simpa using ht), if_neg hwf]
    refine ⟨⟨rfl, hp⟩, hT, fun hk => ?_⟩
    rw [hk] at ht
    exact (ht (by decide)).elim

theorem trans_good (doc : List Nd) (h : Normal doc) (hf : FirstWritten doc) (b : ℕ) (hb : timedCount doc ≤ b)
    (hd : EveryDuration doc fun d => ∃ d', Changed T c t d d') (hT : ∀ x ∈ nodesL false doc, TOk T x.2) :
    (transform t 0 b doc).1 = none ∧
      ∃ q q', GoodL T (Changed T c t) (1/4, 1) (1/4, 1) doc (transform t 0 b doc).2 q q' := by
  have hloc : Loc (TransNode T c t)
      (TransAt b ((timedNodes (nodesL false doc)).findIdx fun x => decide (x.2.val.1 ∈ sounding))) 0 (nodesL false doc) := by
    refine ⟨fun x hx => ⟨normal_nodes h x hx, hd x hx, hT x hx⟩, ?_⟩
    intro k x hx
    rw [Nat.zero_add]
    obtain ⟨hk, hkx⟩ := List.getElem?_eq_some_iff.1 hx
    refine ⟨lt_of_lt_of_le hk hb, ?_, ?_⟩
    · intro hs
      by_contra hlt
      have := List.not_of_lt_findIdx (p := fun x : Bool × Nd => decide (x.2.val.1 ∈ sounding))
        (xs := timedNodes (nodesL false doc)) (i := k) (by omega)
      rw [hkx] at this
      simp [hs] at this
    · intro hkf
      have h1 : decide (x.2.val.1 ∈ sounding) = true := by
        have := List.findIdx_getElem (p := fun x : Bool × Nd => decide (x.2.val.1 ∈ sounding))
          (xs := timedNodes (nodesL false doc)) (w := hkf ▸ hk)
        subst hkf
        rw [hkx] at this
        exact this
      refine ⟨of_decide_eq_true h1, hf x ?_⟩
      have h2 : (timedNodes (nodesL false doc)).find? (fun x => decide (x.2.val.1 ∈ sounding)) = some x := by
        rw [List.find?_eq_some_iff_getElem]
        refine ⟨h1, k, hk, hkx, ?_⟩
        intro j hj
        have := List.not_of_lt_findIdx (p := fun x : Bool × Nd => decide (x.2.val.1 ∈ sounding))
          (xs := timedNodes (nodesL false doc)) (i := j) (by omega)
        simpa using this
      rw [timedNodes, List.find?_filter] at h2
      rw [← h2]
      congr 1
      funext y
      by_cases hy : y.2.val.1 ∈ sounding
      · have : y.2.val.1 ∈ timed := by simp [timed, hy]
        simp [hy, this]
      · simp [hy]
  obtain ⟨q, q', h1, h2⟩ := walkL_good (P := transformProc t) (TransInv T c t _) (transWhich_timed 0 b)
    (fun x hx => hx.1.2.1) (trans_sound b _) (trans_pass b _) doc none 0 [] (1/4, 1) (1/4, 1) ⟨rfl, .inr (Nat.zero_le _)⟩
    rfl hloc
  exact ⟨h2.1, q, q', h1⟩

end Quickly.RhythmTime
