import Verif.RhythmTime.Nodes

/-! # The time in a document with other Durations -/

namespace Quickly.RhythmTime

open Quickly.Node Quickly.Signature Quickly.Length Quickly.Length.Spec Spec
open Quickly.Duration (Transform)
open Quickly.Time (Mus Kind Remote)

variable {T : Transform → Prop} {E : D → D → Prop} {c : ℚ}

theorem GoodL.inv {p p' q q' : D} {t : Nd} {ts us : List Nd} (h : GoodL T E p p' (t :: ts) us q q') :
    ∃ t' ts' r r', us = t' :: ts' ∧ Good T E p p' t t' r r' ∧ GoodL T E r r' ts ts' q q' := by
  cases h with
  | leaf _ _ r r' _ _ _ t' _ ts' _ h1 h2 => exact ⟨t', ts', r, r', rfl, h1, h2⟩
  | pass _ _ r r' _ _ l cs cs' _ ts' h1 h2 h3 h4 h5 =>
    refine ⟨_, ts', r, r', rfl, good_pass l (pass_sets h1) h2 h3.music h3.vals ?_, h5⟩
    intro hsk
    rw [isA, skip_cls] at hsk
    exact h4 (of_decide_eq_true hsk)

theorem GoodL.take {p p' q q' : D} {ts us : List Nd} (h : GoodL T E p p' ts us q q') : ∀ i : ℕ,
    ∃ r r', GoodL T E p p' (ts.take i) (us.take i) r r' := by
  induction h with
  | nil p p' => intro i; exact ⟨p, p', by simpa using .nil p p'⟩
  | leaf p p' r r' q q' t t' ts ts' h1 h2 _ ih =>
    intro i
    cases i with
    | zero => exact ⟨p, p', .nil p p'⟩
    | succ i =>
      obtain ⟨s, s', hs⟩ := ih i
      exact ⟨s, s', .leaf p p' r r' s s' t t' _ _ h1 h2 hs⟩
  | pass p p' r r' q q' l cs cs' ts ts' h1 h2 h3 h4 _ _ ih =>
    intro i
    cases i with
    | zero => exact ⟨p, p', .nil p p'⟩
    | succ i =>
      obtain ⟨s, s', hs⟩ := ih i
      exact ⟨s, s', .pass p p' r r' s s' l cs cs' _ _ h1 h2 h3 h4 hs⟩

/-! ## Paths -/

theorem toMusL_cons_inv {parent : Option Cls} {before : List Nd} {t : Nd} {ts : List Nd} {ms : List Mus}
    (h : toMusL parent before (t :: ts) = .ok ms) :
    ∃ m ns, toMus parent before t = .ok m ∧ toMusL parent (rev t ++ before) ts = .ok ns ∧ ms = m :: ns := by
  simp only [toMusL] at h
  cases h1 : toMus parent before t with
  | error e => rw [h1] at h; cases h
  | ok m =>
    rw [h1] at h
    simp only at h
    cases h2 : toMusL parent (rev t ++ before) ts with
    | error e => rw [h2] at h; cases h
    | ok ns => rw [h2] at h; simp only [Except.ok.injEq] at h; exact ⟨m, ns, rfl, rfl, h.symm⟩

theorem toMus_inv {parent : Option Cls} {before : List Nd} {l : Cls × Val} {cs : List Nd} {m : Mus}
    (h : toMus parent before (.node l cs) = .ok m) :
    ∃ k ns, kindOf parent before (.node l cs) = .ok k ∧ toMusL (some l.1) before cs = .ok ns ∧ m = .node k ns := by
  simp only [toMus] at h
  cases h1 : kindOf parent before (.node l cs) with
  | error e => rw [h1] at h; cases h
  | ok m =>
    rw [h1] at h
    simp only at h
    cases h2 : toMusL (some l.1) before cs with
    | error e => rw [h2] at h; cases h
    | ok ns => rw [h2] at h; simp only [Except.ok.injEq] at h; exact ⟨m, ns, rfl, rfl, h.symm⟩

/-- The way to a node that is not in a durable. -/
theorem GoodL.path {p p' q q' : D} {ts us : List Nd} (h : GoodL T E p p' ts us q q') :
    ∀ (parent : Option Cls) (before before' : List Nd), previousDuration before = p → previousDuration before' = p' →
    ∀ ms ms', toMusL parent before ts = .ok ms → toMusL parent before' us = .ok ms' →
    ∀ i path, Outside ts (i :: path) → ∀ x x', ms[i]? = some x → ms'[i]? = some x' → Open T E x x' path := by
  induction h with
  | nil p p' =>
    intro parent before before' h1 h2 ms ms' hm hm' i path ho x x' hx hx'
    simp only [toMusL, Except.ok.injEq] at hm
    subst hm
    simp at hx
  | leaf p p' r r' q q' t t' ts ts' hc hg hl ih =>
    intro parent before before' h1 h2 ms ms' hm hm' i path ho x x' hx hx'
    obtain ⟨g1, g2, g3⟩ := hg.2 parent before before' h1 h2
    obtain ⟨m, ns, e1, e2, rfl⟩ := toMusL_cons_inv hm
    obtain ⟨m', ns', e3, e4, rfl⟩ := toMusL_cons_inv hm'
    cases i with
    | zero =>
      simp only [List.getElem?_cons_zero, Option.some.injEq] at hx hx'
      subst hx hx'
      rw [e1, e3] at g1
      cases path with
      | nil => exact g1
      | cons j path =>
        rw [Outside] at ho
        exact absurd hc (ho t rfl).1
    | succ i =>
      simp only [List.getElem?_cons_succ] at hx hx'
      refine ih parent _ _ g2 g3 ns ns' e2 e4 i path ?_ x x' hx hx'
      cases path with
      | nil => simp [Outside]
      | cons j path =>
        rw [Outside] at ho ⊢
        intro n hn
        exact ho n (by simpa using hn)
  | pass p p' r r' q q' l cs cs' ts ts' hc hT hcs hsk hl ih1 ih2 =>
    intro parent before before' h1 h2 ms ms' hm hm' i path ho x x' hx hx'
    have hsk' : isA .Skip (.node l cs) = true → ∀ d d', durationScaling (.node l cs) = some d →
        durationScaling (.node l cs') = some d' → E d d' := by
      intro h
      rw [isA, skip_cls] at h
      exact hsk (of_decide_eq_true h)
    obtain ⟨g1, g2, g3⟩ := (good_pass l (pass_sets hc) hT hcs.music hcs.vals hsk').2 parent before before' h1 h2
    obtain ⟨m, ns, e1, e2, rfl⟩ := toMusL_cons_inv hm
    obtain ⟨m', ns', e3, e4, rfl⟩ := toMusL_cons_inv hm'
    cases i with
    | zero =>
      simp only [List.getElem?_cons_zero, Option.some.injEq] at hx hx'
      subst hx hx'
      rw [e1, e3] at g1
      cases path with
      | nil => exact g1
      | cons j path =>
        rw [Outside] at ho
        obtain ⟨-, ho1, ho2⟩ := ho (.node l cs) rfl
        have hk := pass_kind l (pass_sets hc) hT hcs.vals hsk' parent before before'
        obtain ⟨k, xs, k1, k2, rfl⟩ := toMus_inv e1
        obtain ⟨k', xs', k3, k4, rfl⟩ := toMus_inv e3
        rw [k1, k3] at hk
        obtain ⟨hk1, hk2, hk3⟩ := hk
        have hms := (hcs.music (some l.1) before before' h1 h2).1
        rw [k2, k4] at hms
        refine ⟨hk3 ?_, g1, hk2, hms, ?_⟩
        · intro h
          rw [isA, skip_cls] at h
          exact ho1 (of_decide_eq_true h)
        · intro y y' hy hy'
          exact ih1 (some l.1) before before' h1 h2 xs xs' k2 k4 j path ho2 y y' hy hy'
    | succ i =>
      simp only [List.getElem?_cons_succ] at hx hx'
      refine ih2 parent _ _ g2 g3 ns ns' e2 e4 i path ?_ x x' hx hx'
      cases path with
      | nil => simp [Outside]
      | cons j path =>
        rw [Outside] at ho ⊢
        intro n hn
        exact ho n (by simpa using hn)

/-! ## Assignments -/

theorem name_same {cs cs' : List Nd} (h : List.Forall₂ ValRel cs cs') :
    (cs'.find? (isA .Identifier)).map headText = (cs.find? (isA .Identifier)).map headText := by
  induction h with
  | nil => rfl
  | @cons x x' _ _ h _ ih =>
    by_cases hx : isA .Identifier x = true
    · rw [List.find?_cons_of_pos hx, List.find?_cons_of_pos (by rw [h.isA]; exact hx)]
      rcases h with h | ⟨h1, h2⟩
      · simp only [Option.map_some, headText, h]
      · rw [isA, h1] at hx
        exact absurd hx (by decide +kernel)
    · rw [List.find?_cons_of_neg hx, List.find?_cons_of_neg (by rw [h.isA]; exact hx), ih]

theorem errL_cons_none {t : Nd} {ts : List Nd} (h : errL (t :: ts) = none) : err t = none ∧ errL ts = none := by
  simpa [errL] using h

theorem value_same {p p' q q' : D} {cs cs' : List Nd} (h : GoodL T E p p' cs cs' q q') (he : errL cs = none) :
    ∀ before before', previousDuration before = p → previousDuration before' = p' →
    (assignedValue before cs = none ∧ assignedValue before' cs' = none) ∨
      ∃ b v b' v' m m', assignedValue before cs = some (b, v) ∧ assignedValue before' cs' = some (b', v') ∧
        toMus (some .Assignment) b v = .ok m ∧ toMus (some .Assignment) b' v' = .ok m' ∧ musRel T E m m' := by
  induction cs generalizing p p' cs' with
  | nil => cases h; intro before before' _ _; exact .inl ⟨rfl, rfl⟩
  | cons x xs ih =>
    intro before before' h1 h2
    obtain ⟨x', xs', r, r', rfl, hg, hl⟩ := h.inv
    obtain ⟨he1, he2⟩ := errL_cons_none he
    obtain ⟨g1, g2, g3⟩ := hg.2 none before before' h1 h2
    simp only [assignedValue, hg.1.isA]
    by_cases heq : isA .EqualSign x = true
    · simp only [heq, if_true]
      cases xs with
      | nil => cases hl; exact .inl ⟨rfl, rfl⟩
      | cons y ys =>
        obtain ⟨y', ys', s, s', rfl, hy, -⟩ := hl.inv
        obtain ⟨k1, -, -⟩ := hy.2 (some .Assignment) _ _ g2 g3
        have hye := toMus_err y (some .Assignment) (rev x ++ before)
        rw [(errL_cons_none he2).1] at hye
        obtain ⟨m, hm⟩ := hye
        rw [hm] at k1
        cases hm' : toMus (some .Assignment) (rev x' ++ before') y' with
        | error e => rw [hm'] at k1; exact k1.elim
        | ok m' =>
          rw [hm'] at k1
          exact .inr ⟨_, y, _, y', m, m', rfl, rfl, hm, hm', k1⟩
    · simp only [heq]
      exact ih hl he2 _ _ g2 g3

theorem toEnv_append (xs ys : List Assigned) (e f : Time.Env) (h1 : toEnv xs = .ok e) (h2 : toEnv ys = .ok f) :
    toEnv (xs ++ ys) = .ok (e ++ f) := by
  induction xs generalizing e with
  | nil => simp only [toEnv, Except.ok.injEq] at h1; subst h1; exact h2
  | cons x xs ih =>
    obtain ⟨name, before, value⟩ := x
    simp only [List.cons_append, toEnv] at h1 ⊢
    cases hm : toMus (some .Assignment) before value with
    | error _ => rw [hm] at h1; cases h1
    | ok m =>
      rw [hm] at h1
      simp only at h1 ⊢
      cases hx : toEnv xs with
      | error _ => rw [hx] at h1; cases h1
      | ok g =>
        rw [hx] at h1
        simp only [Except.ok.injEq] at h1
        subst h1
        rw [ih g hx]
        rfl

theorem env_same {p p' q q' : D} {ts ts' : List Nd} (h : GoodL T E p p' ts ts' q q') (he : errL ts = none) :
    ∀ before before', previousDuration before = p → previousDuration before' = p' →
      ∃ env env', toEnv (assignments before ts) = .ok env ∧ toEnv (assignments before' ts') = .ok env' ∧
        EnvRel T E env env' := by
  induction h with
  | nil p p' => intro before before' _ _; exact ⟨[], [], rfl, rfl, .nil⟩
  | leaf p p' r r' q q' t t' ts ts' hc hg hl ih =>
    intro before before' h1 h2
    obtain ⟨g1, g2, g3⟩ := hg.2 none before before' h1 h2
    obtain ⟨env, env', e1, e2, e3⟩ := ih (errL_cons_none he).2 _ _ g2 g3
    have hna : ∀ c : Cls, c ∈ .Duration :: sounding → isSub 5 c .Assignment = false := by decide +kernel
    have ha : isA .Assignment t = false := hna _ hc
    have ha' : isA .Assignment t' = false := by rw [hg.1.isA]; exact ha
    refine ⟨env, env', ?_, ?_, e3⟩
    · simp only [assignments, ha]; simpa using e1
    · simp only [assignments, ha']; simpa using e2
  | pass p p' r r' q q' l cs cs' ts ts' hc hT hcs hsk hl _ ih2 =>
    intro before before' h1 h2
    have hg := good_pass l (pass_sets hc) hT hcs.music hcs.vals fun h => hsk (of_decide_eq_true (by
      rw [isA, skip_cls] at h; exact h))
    obtain ⟨g1, g2, g3⟩ := hg.2 none before before' h1 h2
    obtain ⟨env, env', e1, e2, e3⟩ := ih2 (errL_cons_none he).2 _ _ g2 g3
    have hecs : errL cs = none := by
      have := (errL_cons_none he).1
      simp only [err, Option.or_eq_none_iff] at this
      exact this.2
    have hv := value_same hcs hecs before before' h1 h2
    have hn := name_same hcs.vals
    have e : isA .Assignment (.node l cs') = isA .Assignment (.node l cs) := rfl
    simp only [assignments, e]
    by_cases ha : isA .Assignment (.node l cs) = true
    · simp only [ha, if_true, assignedName, Node.Tree.children, hn]
      cases (cs.find? (isA .Identifier)).map headText with
      | none => exact ⟨env, env', by simpa using e1, by simpa using e2, e3⟩
      | some name =>
        rcases hv with ⟨v1, v2⟩ | ⟨b, v, b', v', m, m', v1, v2, m1, m2, hm⟩
        · simp only [v1, v2]
          exact ⟨env, env', by simpa using e1, by simpa using e2, e3⟩
        · simp only [v1, v2]
          refine ⟨env ++ [(name, m)], env' ++ [(name, m')], toEnv_append _ _ _ _ e1 ?_, toEnv_append _ _ _ _ e2 ?_, ?_⟩
          · simp only [toEnv, m1]
          · simp only [toEnv, m2]
          · exact List.rel_append e3 (.cons ⟨rfl, hm⟩ .nil)
    · simp only [ha]
      exact ⟨env, env', by simpa using e1, by simpa using e2, e3⟩

/-! ## Documents -/

theorem errL_take (ts : List Nd) (h : errL ts = none) (i : ℕ) : errL (ts.take i) = none := by
  have := errL_append (ts.take i) (ts.drop i)
  rw [List.take_append_drop, h] at this
  exact (Option.or_eq_none_iff.1 this.symm).1

/-- What is known about the music of the documents. -/
theorem doc_cases {q q' : D} {doc doc' : List Nd} (h : GoodL T E (1/4, 1) (1/4, 1) doc doc' q q') :
    (∃ e, Spec.music doc = .error e ∧ Spec.music doc' = .error e) ∨
      ∃ m m', Spec.music doc = .ok m ∧ Spec.music doc' = .ok m' ∧ (∀ path, Outside doc path → Open T E m m' path) ∧
        ∀ i, ∃ env env', assigned doc i = .ok env ∧ assigned doc' i = .ok env' ∧ EnvRel T E env env' := by
  have hm := (h.music (some .Document) [] [] rfl rfl).1
  have he := toMusL_err doc (some .Document) []
  simp only [Spec.music]
  cases herr : errL doc with
  | some e =>
    rw [herr] at he
    simp only at he
    rw [he] at hm ⊢
    cases h' : toMusL (some .Document) [] doc' with
    | error f => rw [h'] at hm; cases hm; exact .inl ⟨e, rfl, rfl⟩
    | ok ms' => rw [h'] at hm; exact hm.elim
  | none =>
    rw [herr] at he
    obtain ⟨ms, he⟩ := he
    rw [he] at hm ⊢
    cases h' : toMusL (some .Document) [] doc' with
    | error f => rw [h'] at hm; exact hm.elim
    | ok ms' =>
      rw [h'] at hm
      refine .inr ⟨.node .other ms, .node .other ms', rfl, rfl, ?_, ?_⟩
      · intro path ho
        have hr : musRel T E (.node .other ms) (.node .other ms') := ⟨rfl, fun hc => (hc trivial).elim⟩
        cases path with
        | nil => exact hr
        | cons i path =>
          refine ⟨rfl, hr, fun tr htr => htr, hm, ?_⟩
          intro x x' hx hx'
          exact h.path (some .Document) [] [] rfl rfl ms ms' he h' i path ho x x' hx hx'
      · intro i
        obtain ⟨r, r', ht⟩ := h.take i
        exact env_same ht (errL_take doc herr i) [] [] rfl rfl

theorem doc_length {q q' : D} {doc doc' : List Nd} (h : GoodL T E (1/4, 1) (1/4, 1) doc doc' q q') (hc : 0 ≤ c)
    (hE : Scales T E c) (hT : T {}) (path : List ℕ) (ho : Outside doc path) :
    lengthAt doc' path = (lengthAt doc path).map (c * ·) := by
  simp only [lengthAt]
  rcases doc_cases h with ⟨e, h1, h2⟩ | ⟨m, m', h1, h2, h3, h4⟩
  · simp [h1, h2, Except.map]
  · obtain ⟨env, env', h5, h6, h7⟩ := h4 (path.headD 0)
    simp only [h1, h2, h5, h6]
    exact lengthAt_rel hc hE hT (remote_scale hc hE h7) path (h3 path ho)

theorem doc_position {q q' : D} {doc doc' : List Nd} (h : GoodL T E (1/4, 1) (1/4, 1) doc doc' q q') (hc : 0 ≤ c)
    (hE : Scales T E c) (hT : T {}) (path : List ℕ) (ho : Outside doc path) (incl : Bool) :
    positionAt doc' path incl = (positionAt doc path incl).map fun x => (x.1, c * x.2) := by
  simp only [positionAt]
  rcases doc_cases h with ⟨e, h1, h2⟩ | ⟨m, m', h1, h2, h3, h4⟩
  · simp [h1, h2, Except.map]
  · obtain ⟨env, env', h5, h6, h7⟩ := h4 (path.headD 0)
    simp only [h1, h2, h5, h6]
    exact position_rel hc hE hT (remote_scale hc hE h7) path (h3 path ho) incl

theorem doc_duration {q q' : D} {doc doc' : List Nd} (h : GoodL T E (1/4, 1) (1/4, 1) doc doc' q q') (hc : 0 ≤ c)
    (hE : Scales T E c) (hT : T {}) (start stop : List ℕ) (ho : Outside doc start) (ho' : Outside doc stop) :
    durationBetween doc' start stop =
      (durationBetween doc start stop).map fun x => x.map fun y => (y.1, c * y.2) := by
  simp only [durationBetween]
  rcases doc_cases h with ⟨e, h1, h2⟩ | ⟨m, m', h1, h2, h3, h4⟩
  · simp [h1, h2, Except.map]
  · obtain ⟨env, env', h5, h6, h7⟩ := h4 (start.headD 0)
    simp only [h1, h2, h5, h6]
    exact duration_rel hc hE hT (remote_scale hc hE h7) start stop (h3 start ho) (h3 stop ho')

end Quickly.RhythmTime
