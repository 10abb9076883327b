import Verif.Attr.Lemmas

/-! # C50 and C51: the attributes of notes behave as independent variables -/

namespace Quickly.Attr

open Spec

variable (lim : ℚ → ℚ)

theorem read_proj (e : Elem) : read e =
    ⟨(proj e.children).oct.head?.getD 0, (proj e.children).acc.head?, (proj e.children).chk.head?,
     (proj e.children).dur.head?.map fun p => (p.1, product p.2)⟩ := by
  have : read e = ⟨getOctave e.children, getAccidental e.children, getOctCheck e.children,
    getDurationScaling e.children⟩ := rfl
  rw [this, getOctave_eq, getAccidental_eq, getOctCheck_eq, getDurationScaling_eq]
  rfl

theorem single_proj (e : Elem) : Single e ↔
    (((proj e.children).oct).length ≤ 1 ∧ ((proj e.children).acc).length ≤ 1 ∧
      ((proj e.children).chk).length ≤ 1 ∧ ((proj e.children).dur).length ≤ 1) ∧
    ∀ p ∈ (proj e.children).dur, (scals p.2).length ≤ 1 := single_iff e

theorem others_proj (e : Elem) : others e = (proj e.children).oth := rfl

theorem newScaling_getD (h1 : lim 1 = 1) (v : Option Num) : (newScaling lim v).getD 1 = scale lim v := by
  cases v with
  | none => rfl
  | some v =>
    rw [newScaling, scale]
    split
    · rename_i hv
      cases v with
      | frac q => simpa [Num.head, Num.val] using hv.symm
      | num q =>
        simp only [Num.val] at hv
        simp [Num.head, hv, h1]
    · rfl

theorem newScaling_ne (v : Option Num) :
    newScaling lim v = none ↔ v = none ∨ v.map Num.val = some 1 := by
  cases v with
  | none => simp [newScaling]
  | some v => simp [newScaling]

/-- The effect of one step on all that is observed, with the invariant. -/
def Good (e e' : Elem) (err : Option PyErr) (s : Attrs × Option PyErr) : Prop :=
  read e' = s.1 ∧ err = s.2 ∧ Single e' ∧ others e' = others e ∧ e'.owner = e.owner

theorem owner_setDuration (v e) : (setDuration lim v e).owner = e.owner := by
  rw [setDuration.eq_def]; split
  · rfl
  · cases v <;> rfl
theorem owner_delDuration (e) : (delDuration e).owner = e.owner := by
  rw [delDuration]; split <;> rfl
theorem owner_setScaling (v e) : (setScaling lim v e).1.owner = e.owner := by
  rw [setScaling]; split <;> rfl
theorem owner_setOctave (v e) : (setOctave v e).owner = e.owner := by
  rw [setOctave]; split
  · rfl
  · split <;> rfl
theorem owner_setAccidental (v e) : (setAccidental v e).owner = e.owner := by
  rw [setAccidental.eq_def]; split
  · rfl
  · cases v <;> rfl
theorem owner_setOctCheck (v e) : (setOctCheck v e).owner = e.owner := by
  rw [setOctCheck.eq_def]; split
  · rfl
  · cases v <;> rfl

theorem le_one {α} {l : List α} (h : l.length ≤ 1) : l = [] ∨ ∃ x, l = [x] := by
  cases l with
  | nil => exact .inl rfl
  | cons x l =>
    simp only [List.length_cons] at h
    have : l = [] := List.eq_nil_of_length_eq_zero (by omega)
    exact .inr ⟨x, by rw [this]⟩

theorem good_setDuration (e : Elem) (h : Single e) (v : Option Num) :
    Good e (setDuration lim v e) none (durStep lim v (read e), none) := by
  obtain ⟨⟨h1, h2, h3, h4⟩, h5⟩ := (single_iff e).1 h
  have hp := proj_setDuration lim v e h4
  refine ⟨?_, rfl, ?_, ?_, owner_setDuration lim v e⟩
  · rw [read_proj, hp, read_proj, durStep]
    rcases le_one h4 with hd | ⟨⟨q, s⟩, hd⟩
    · cases v <;> simp [proj, hd, product]
    · cases v <;> simp [proj, hd]
  · rw [single_proj, hp]
    refine ⟨⟨h1, h2, h3, ?_⟩, ?_⟩
    · cases v <;> simp
    · intro p hpm
      cases v with
      | none => simp at hpm
      | some v =>
        simp only [Option.toList_some, List.map_cons, List.map_nil, List.mem_singleton] at hpm
        subst hpm
        rcases le_one h4 with hd | ⟨⟨q, s⟩, hd⟩
        · simp [hd, scals]
        · simpa [hd] using h5 (q, s) (by simp [hd])
  · rw [others_proj, hp]; rfl

theorem good_delDuration (e : Elem) (h : Single e) :
    Good e (delDuration e) none ({ read e with dur := none }, none) := by
  obtain ⟨⟨h1, h2, h3, h4⟩, h5⟩ := (single_iff e).1 h
  have hp := proj_delDuration e h4
  refine ⟨?_, rfl, ?_, ?_, owner_delDuration e⟩
  · rw [read_proj, hp, read_proj]; simp
  · rw [single_proj, hp]
    exact ⟨⟨h1, h2, h3, by simp⟩, by simp⟩
  · rw [others_proj, hp]; rfl

theorem good_setScaling (hlim : lim 1 = 1) (e : Elem) (h : Single e) (v : Option Num) :
    Good e (setScaling lim v e).1 (setScaling lim v e).2 (scaleStep lim v (read e)) := by
  obtain ⟨⟨h1, h2, h3, h4⟩, h5⟩ := (single_iff e).1 h
  obtain ⟨hp, herr⟩ := proj_setScaling lim v e h4
  refine ⟨?_, ?_, ?_, ?_, owner_setScaling lim v e⟩
  · rw [read_proj, hp, read_proj, scaleStep.eq_def]
    rcases le_one h4 with hd | ⟨⟨q, s⟩, hd⟩
    · simp [proj, hd]
    · have := product_setSubs (newScaling lim v) s (h5 (q, s) (by simp [hd]))
      simp [proj, hd, this, newScaling_getD lim hlim]
  · rw [herr, read_proj, scaleStep.eq_def]
    rcases le_one h4 with hd | ⟨⟨q, s⟩, hd⟩
    · have := newScaling_ne lim v
      by_cases hn : newScaling lim v = none
      · have hn' := this.1 hn
        simp only [proj, hd, hn, hn', List.head?_nil, Option.map_none, ne_eq, not_true_eq_false,
          and_false, if_false, if_true]
      · have hn' : ¬(v = none ∨ v.map Num.val = some 1) := fun h' => hn (this.2 h')
        simp only [proj, hd, hn, hn', List.head?_nil, Option.map_none, if_false, ne_eq,
          not_false_eq_true, and_self, if_true]
    · simp [proj, hd]
  · rw [single_proj, hp]
    refine ⟨⟨h1, h2, h3, by simpa using h4⟩, ?_⟩
    intro p hpm
    simp only [List.mem_map] at hpm
    obtain ⟨p', hm, rfl⟩ := hpm
    simp only [scals_setSubs _ _ (h5 p' hm)]
    cases newScaling lim v <;> simp
  · rw [others_proj, hp]; rfl

theorem good_step (hlim : lim 1 = 1) (e : Elem) (h : Single e) (op : Op) :
    Good e (exec lim e op).1 (exec lim e op).2 (step lim (read e) op) := by
  obtain ⟨⟨h1, h2, h3, h4⟩, h5⟩ := (single_iff e).1 h
  cases op with
  | setDuration v => exact good_setDuration lim e h v
  | delDuration => exact good_delDuration e h
  | setScaling v => exact good_setScaling lim hlim e h v
  | delScaling => exact good_setScaling lim hlim e h none
  | setDurationScaling v =>
    cases v with
    | none => exact good_delDuration e h
    | some p =>
      obtain ⟨d, s⟩ := p
      obtain ⟨a1, a2, a3, a4, a5⟩ := good_setDuration lim e h d
      obtain ⟨b1, b2, b3, b4, b5⟩ := good_setScaling lim hlim _ a3 s
      rw [a1] at b1 b2
      exact ⟨b1, b2, b3, b4.trans a4, b5.trans a5⟩
  | delDurationScaling => exact good_delDuration e h
  | setOctave n =>
    have hp := proj_setOctave n e h1
    refine ⟨?_, rfl, ?_, ?_, owner_setOctave n e⟩
    · simp only [exec, step]
      rw [read_proj, hp, read_proj]
      by_cases ho : octs e.children = []
      · by_cases hn : n = 0 <;> simp [ho, hn]
      · simp [ho]
    · simp only [exec]
      rw [single_proj, hp]
      refine ⟨⟨?_, h2, h3, h4⟩, h5⟩
      simp only
      split
      · split <;> simp
      · simp
    · simp only [exec]; rw [others_proj, hp]; rfl
  | delOctave =>
    have hp := (proj_delAll e).1
    refine ⟨?_, rfl, ?_, ?_, rfl⟩
    · simp only [exec, step]; rw [read_proj, hp, read_proj]; simp
    · simp only [exec]; rw [single_proj, hp]
      exact ⟨⟨by simp, h2, h3, h4⟩, h5⟩
    · simp only [exec]; rw [others_proj, hp]; rfl
  | setAccidental n =>
    have hp := proj_setAccidental n e h2
    refine ⟨?_, rfl, ?_, ?_, owner_setAccidental n e⟩
    · simp only [exec, step]
      rw [read_proj, hp, read_proj]
      cases n <;> simp
    · simp only [exec]
      rw [single_proj, hp]
      refine ⟨⟨h1, ?_, h3, h4⟩, h5⟩
      cases n <;> simp
    · simp only [exec]; rw [others_proj, hp]; rfl
  | delAccidental =>
    have hp := (proj_delAll e).2.1
    refine ⟨?_, rfl, ?_, ?_, rfl⟩
    · simp only [exec, step]; rw [read_proj, hp, read_proj]; simp
    · simp only [exec]; rw [single_proj, hp]
      exact ⟨⟨h1, by simp, h3, h4⟩, h5⟩
    · simp only [exec]; rw [others_proj, hp]; rfl
  | setOctCheck n =>
    have hp := proj_setOctCheck n e h3
    refine ⟨?_, rfl, ?_, ?_, owner_setOctCheck n e⟩
    · simp only [exec, step]
      rw [read_proj, hp, read_proj]
      cases n <;> simp
    · simp only [exec]
      rw [single_proj, hp]
      refine ⟨⟨h1, h2, ?_, h4⟩, h5⟩
      cases n <;> simp
    · simp only [exec]; rw [others_proj, hp]; rfl
  | delOctCheck =>
    have hp := (proj_delAll e).2.2
    refine ⟨?_, rfl, ?_, ?_, rfl⟩
    · simp only [exec, step]; rw [read_proj, hp, read_proj]; simp
    · simp only [exec]; rw [single_proj, hp]
      exact ⟨⟨h1, h2, by simp, h4⟩, h5⟩
    · simp only [exec]; rw [others_proj, hp]; rfl

theorem good_run (hlim : lim 1 = 1) (e : Elem) (h : Single e) (ops : List Op) :
    read (run lim e ops).1 = (Spec.run lim (read e) ops).1 ∧
    (run lim e ops).2 = (Spec.run lim (read e) ops).2 ∧ Single (run lim e ops).1 ∧
    others (run lim e ops).1 = others e ∧ (run lim e ops).1.owner = e.owner := by
  induction ops generalizing e with
  | nil => exact ⟨rfl, rfl, h, rfl, rfl⟩
  | cons op ops ih =>
    obtain ⟨a1, a2, a3, a4, a5⟩ := good_step lim hlim e h op
    obtain ⟨b1, b2, b3, b4, b5⟩ := ih _ a3
    rw [a1] at b1 b2
    refine ⟨b1, ?_, b3, b4.trans a4, b5.trans a5⟩
    simp only [run, Spec.run, b2, a2]

/-- **C50** and **C51**, all histories: after any history of setting and deleting `duration`,
`scaling`, `duration_scaling`, `octave`, `accidental` and `oct_check`, of an element that is read
from a document or newly made, what is read is what four independent variables would hold, and
the same exceptions are raised (a scaling without a duration, and no other).  The property is
about elements with at most one child of every class; see `C50_many_scalings` for others. -/
theorem C50_history (hlim : lim 1 = 1) (e : Elem) (h : Single e) (ops : List Op) :
    read (run lim e ops).1 = (Spec.run lim (read e) ops).1 ∧
    (run lim e ops).2 = (Spec.run lim (read e) ops).2 ∧ Single (run lim e ops).1 :=
  ⟨(good_run lim hlim e h ops).1, (good_run lim hlim e h ops).2.1,
   (good_run lim hlim e h ops).2.2.1⟩

/-- **C50**: `duration` and `scaling` read the parts of `duration_scaling`, always. -/
theorem C50_getters (l : List Child) :
    getDuration l = (getDurationScaling l).map Prod.fst ∧
    getScaling l = (getDurationScaling l).map Prod.snd := ⟨getDuration_eq l, getScaling_eq l⟩

/-- **C50**, reading back: a duration that is set reads back exactly if it is a Fraction, or a
number with a denominator that `limit_denominator()` keeps; the scaling is what it was. -/
theorem C50_set_duration (hlim : lim 1 = 1) (e : Elem) (h : Single e) (ops : List Op) (v : Num)
    (hv : ∀ q, v = .num q → lim q = q) :
    let e' := (run lim e ops).1
    let e'' := (exec lim e' (.setDuration (some v))).1
    getDuration e''.children = some v.val ∧
    getScaling e''.children = some ((getScaling e'.children).getD 1) := by
  intro e' e''
  have hs : Single e' := (C50_history lim hlim e h ops).2.2
  have hr : read e'' = (step lim (read e') _).1 := (good_step lim hlim e' hs _).1
  have hd : getDurationScaling e''.children = (read e'').dur := rfl
  have hd' : getDurationScaling e'.children = (read e').dur := rfl
  rw [getDuration_eq, getScaling_eq, getScaling_eq, hd, hd', hr]
  have hh : v.head lim = v.val := by
    cases v with
    | frac q => rfl
    | num q => exact hv q rfl
  simp [step, durStep, hh]

/-- **C50**: a scaling that is set reads back, and the duration is what it was. -/
theorem C50_set_scaling (hlim : lim 1 = 1) (e : Elem) (h : Single e) (ops : List Op) (v : Num)
    (hv : ∀ q, v = .num q → lim q = q) :
    let e' := (run lim e ops).1
    let e'' := (exec lim e' (.setScaling (some v))).1
    getDuration e''.children = getDuration e'.children ∧
    (getDuration e'.children ≠ none → getScaling e''.children = some v.val) := by
  intro e' e''
  have hs : Single e' := (C50_history lim hlim e h ops).2.2
  have hr : read e'' = (step lim (read e') _).1 := (good_step lim hlim e' hs _).1
  have hd : getDurationScaling e''.children = (read e'').dur := rfl
  have hd' : getDurationScaling e'.children = (read e').dur := rfl
  rw [getDuration_eq, getScaling_eq, getDuration_eq, hd, hd', hr]
  have hh : v.head lim = v.val := by
    cases v with
    | frac q => rfl
    | num q => exact hv q rfl
  simp only [step, scaleStep.eq_def]
  cases hdur : (read e').dur with
  | none => simp [hdur]
  | some p => simp [scale, hh]

/-- **C50**: deleting the duration removes the Duration child with its scaling; the other
attributes stay. -/
theorem C50_delete (hlim : lim 1 = 1) (e : Elem) (h : Single e) (ops : List Op) :
    let e' := (run lim e ops).1
    let e'' := (exec lim e' .delDuration).1
    getDuration e''.children = none ∧ getScaling e''.children = none ∧
    (∀ c ∈ e''.children, isa c .duration = false) ∧
    (read e'') = { read e' with dur := none } := by
  intro e' e''
  have hs : Single e' := (C50_history lim hlim e h ops).2.2
  have hr : read e'' = (step lim (read e') _).1 := (good_step lim hlim e' hs _).1
  have hd : getDurationScaling e''.children = (read e'').dur := rfl
  have h4 := ((single_iff e').1 hs).1.2.2.2
  refine ⟨?_, ?_, ?_, ?_⟩
  · rw [getDuration_eq, hd, hr]; rfl
  · rw [getScaling_eq, hd, hr]; rfl
  · have hp : proj e''.children = _ := proj_delDuration e' h4
    have hp' : durs e''.children = [] := congrArg Proj.dur hp
    rw [← List.length_eq_zero_iff, ← filter_duration, List.length_eq_zero_iff,
      List.filter_eq_nil_iff] at hp'
    intro c hc
    simpa using hp' c hc
  · rw [hr]; rfl

/-- **C50** fails for a Duration with more than one DurationScaling (which can only be made by
hand, the reader merges them): deleting the scaling removes every second one. -/
theorem C50_many_scalings :
    let e : Elem := ⟨.note, [.duration (1/4) [.scaling (1/2), .scaling (1/3)]]⟩
    getScaling (exec lim e .delScaling).1.children = some (1/3) ∧
    getScaling (exec lim e (.setScaling none)).1.children = some (1/3) := by
  intro e
  have h : ∀ q : ℚ, (some (q * 1) : Option ℚ) = some q := fun q => by rw [mul_one]
  exact ⟨h _, h _⟩

/-- **C50**: with two of them, a new scaling replaces both; with three, the last one stays. -/
theorem C50_set_many_scalings (q r₁ r₂ r₃ : ℚ) (v : ℚ) (hv : v ≠ 1) :
    getScaling (exec lim ⟨.note, [.duration q [.scaling r₁, .scaling r₂]]⟩
      (.setScaling (some (.frac v)))).1.children = some v ∧
    getScaling (exec lim ⟨.note, [.duration q [.scaling r₁, .scaling r₂, .scaling r₃]]⟩
      (.setScaling (some (.frac v)))).1.children = some (v * r₃) := by
  constructor <;>
    simp [exec, setScaling, onFirst, isa, newScaling, Num.val, Num.head, hv, setSubs, splitScaling, drain, getScaling, product, Child.cls]

/-- **C51**, all histories: an attribute is changed only by the operations on that attribute, and
holds what was last set, or the value it had. -/
theorem C51_independent (hlim : lim 1 = 1) (e : Elem) (h : Single e) (ops : List Op) :
    let e' := (run lim e ops).1
    getOctave e'.children = ops.foldl (fun v op => match op with
      | .setOctave n => n | .delOctave => 0 | _ => v) (getOctave e.children) ∧
    getAccidental e'.children = ops.foldl (fun v op => match op with
      | .setAccidental a => a | .delAccidental => none | _ => v) (getAccidental e.children) ∧
    getOctCheck e'.children = ops.foldl (fun v op => match op with
      | .setOctCheck n => n | .delOctCheck => none | _ => v) (getOctCheck e.children) := by
  intro e'
  have hr := (C50_history lim hlim e h ops).1
  have key : ∀ (ops : List Op) (a : Attrs),
      (Spec.run lim a ops).1.octave = ops.foldl (fun v op => match op with
        | .setOctave n => n | .delOctave => 0 | _ => v) a.octave ∧
      (Spec.run lim a ops).1.accidental = ops.foldl (fun v op => match op with
        | .setAccidental a => a | .delAccidental => none | _ => v) a.accidental ∧
      (Spec.run lim a ops).1.octCheck = ops.foldl (fun v op => match op with
        | .setOctCheck n => n | .delOctCheck => none | _ => v) a.octCheck := by
    intro ops
    induction ops with
    | nil => intro a; exact ⟨rfl, rfl, rfl⟩
    | cons op ops ih =>
      intro a
      obtain ⟨i1, i2, i3⟩ := ih (step lim a op).1
      have hs : ∀ v b, ((scaleStep lim v b).1.octave = b.octave) ∧
          ((scaleStep lim v b).1.accidental = b.accidental) ∧
          ((scaleStep lim v b).1.octCheck = b.octCheck) := by
        intro v b
        rw [scaleStep.eq_def]
        split <;> exact ⟨rfl, rfl, rfl⟩
      have hd : ∀ v b, ((durStep lim v b).octave = b.octave) ∧
          ((durStep lim v b).accidental = b.accidental) ∧
          ((durStep lim v b).octCheck = b.octCheck) := fun v b => ⟨rfl, rfl, rfl⟩
      simp only [Spec.run, List.foldl_cons, i1, i2, i3]
      cases op with
      | setScaling v => simp only [step, hs, and_self]
      | delScaling => simp only [step, hs, and_self]
      | setDurationScaling v =>
        cases v with
        | none => exact ⟨rfl, rfl, rfl⟩
        | some p => simp only [step, hs, hd, and_self]
      | _ => exact ⟨rfl, rfl, rfl⟩
  have := key ops (read e)
  rw [← hr] at this
  exact this

theorem respects_sublist {order : List Cls} {l l' : List Child} (hs : l'.Sublist l)
    (h : Add.Spec.Respects isa order l) : Add.Spec.Respects isa order l' := List.Pairwise.sublist hs h

theorem respects_classes {order : List Cls} {l l' : List Child}
    (hs : l'.map Child.cls = l.map Child.cls)
    (h : Add.Spec.Respects isa order l) : Add.Spec.Respects isa order l' := by
  have key : ∀ l : List Child, Add.Spec.Respects isa order l ↔
      (l.map Child.cls).Pairwise fun a b =>
        order.findIdx (fun k => decide (a = k)) ≤ order.findIdx fun k => decide (b = k) := by
    intro l
    rw [List.pairwise_map]
    exact Iff.rfl
  rw [key, hs, ← key]
  exact h

theorem orders (o : Owner) : childOrder o = [] ∧ order o = [] ∨ childOrder o = [order o] := by
  cases o <;> decide

theorem respects_nil (l : List Child) : Add.Spec.Respects isa [] l := by
  simp [Add.Spec.Respects, Add.Spec.place, List.pairwise_iff_forall_sublist]

theorem ordered_add (e : Elem) (c : Child) (h : Ordered e) : Ordered (e.add c) := by
  rcases orders e.owner with ⟨-, hn⟩ | hs
  · show Add.Spec.Respects isa (order e.owner) _
    rw [hn]
    exact respects_nil _
  · show Add.Spec.Respects isa (order e.owner) _
    simp only [Elem.add, hs]
    exact Add.C40_respects isa _ e.children c h

theorem ordered_onFirst (e : Elem) (h : Ordered e) {k f l}
    (hf : ∀ c c', isa c k = true → f c = some c' → c'.cls = c.cls)
    (hl : onFirst k f e.children = some l) : Ordered { e with children := l } := by
  obtain ⟨a, c, b, he, -, hc, rfl⟩ := onFirst_some hl
  have hr := h
  unfold Ordered at hr ⊢
  simp only
  cases hfc : f c with
  | none =>
    refine respects_sublist ?_ hr
    rw [he]
    simp
  | some c' =>
    refine respects_classes ?_ hr
    rw [he]
    simp [hf c c' hc hfc]

theorem ordered_step (e : Elem) (h : Ordered e) (op : Op) : Ordered (exec lim e op).1 := by
  have hdur : ∀ (e : Elem), Ordered e → ∀ v, Ordered (setDuration lim v e) := by
    intro e h v
    rw [setDuration.eq_def]
    split
    · rename_i l hl
      refine ordered_onFirst e h ?_ hl
      intro c c' hc hf
      cases v <;> cases c <;> simp_all [Child.cls]
      subst hf; rfl
    · cases v with
      | none => exact h
      | some v => exact ordered_add e _ h
  have hdel : Ordered (delDuration e) := by
    rw [delDuration]
    split
    · rename_i l hl
      exact ordered_onFirst e h (by simp) hl
    · exact h
  have hscal : ∀ (e : Elem), Ordered e → ∀ v, Ordered (setScaling lim v e).1 := by
    intro e h v
    rw [setScaling]
    split
    · rename_i l hl
      refine ordered_onFirst e h ?_ hl
      intro c c' hc hf
      obtain ⟨m, s, rfl⟩ := isa_duration hc
      simp only [Option.some.injEq] at hf
      subst hf
      rfl
    · exact h
  have hall : ∀ k, Ordered (delAll k e) := fun k =>
    respects_sublist List.filter_sublist h
  cases op with
  | setDuration v => exact hdur e h v
  | delDuration => exact hdel
  | setScaling v => exact hscal e h v
  | delScaling => exact hscal e h none
  | setDurationScaling v =>
    cases v with
    | none => exact hdel
    | some p => exact hscal _ (hdur e h p.1) p.2
  | delDurationScaling => exact hdel
  | setOctave n =>
    simp only [exec]
    rw [setOctave]
    split
    · rename_i l hl
      refine ordered_onFirst e h ?_ hl
      intro c c' hc hf
      obtain ⟨m, rfl⟩ := isa_octave hc
      simp only [Option.some.injEq] at hf
      subst hf; rfl
    · split
      · exact h
      · exact ordered_add e _ h
  | delOctave => exact hall _
  | setAccidental n =>
    simp only [exec]
    rw [setAccidental.eq_def]
    split
    · rename_i l hl
      refine ordered_onFirst e h ?_ hl
      intro c c' hc hf
      obtain ⟨m, rfl⟩ := isa_accidental hc
      cases n with
      | none => cases hf
      | some n => cases hf; rfl
    · cases n with
      | none => exact h
      | some n => exact ordered_add e _ h
  | delAccidental => exact hall _
  | setOctCheck n =>
    simp only [exec]
    rw [setOctCheck.eq_def]
    split
    · rename_i l hl
      refine ordered_onFirst e h ?_ hl
      intro c c' hc hf
      obtain ⟨m, rfl⟩ := isa_octCheck hc
      cases n with
      | none => cases hf
      | some n => cases hf; rfl
    · cases n with
      | none => exact h
      | some n => exact ordered_add e _ h
  | delOctCheck => exact hall _

/-- **C51**, all histories: if the children are in the child order of the element (as they are
after reading, and for an element without children), they are so after any history; in a note the
octave is before the accidental, that is before the octave check, and that before the duration. -/
theorem C51_order (e : Elem) (h : Ordered e) (ops : List Op) : Ordered (run lim e ops).1 := by
  induction ops generalizing e with
  | nil => exact h
  | cons op ops ih => exact ih _ (ordered_step lim e h op)

/-- **C51**: what `C51_order` means for a note: the text is octave, accidental, octave check,
duration. -/
theorem C51_note_order (l : List Child) (h : Ordered ⟨.note, l⟩) (a b c : List Child) (x y : Child)
    (hl : l = a ++ x :: b ++ y :: c) :
    (isa y .octave = true → isa x .octave = true) ∧
    (isa y .accidental = true → isa x .octave = true ∨ isa x .accidental = true) ∧
    (isa y .octCheck = true → isa x .octave = true ∨ isa x .accidental = true ∨
      isa x .octCheck = true) := by
  have hr : Add.Spec.Respects isa
    [.octave, .accidental, .octCheck, .duration, .kind .articulations, .kind .comment] l := h
  subst hl
  simp only [Add.Spec.Respects] at hr
  rw [List.pairwise_append] at hr
  have hxy := hr.2.2 x (by simp) y (by simp)
  cases x with
  | octave n => simp [isa, Child.cls]
  | accidental n =>
    cases y with
    | octave m => simp [Add.Spec.place, isa, Child.cls, List.findIdx_cons] at hxy
    | _ => simp [isa, Child.cls]
  | octCheck n =>
    cases y with
    | octave m => simp [Add.Spec.place, isa, Child.cls, List.findIdx_cons] at hxy
    | accidental m => simp [Add.Spec.place, isa, Child.cls, List.findIdx_cons] at hxy
    | _ => simp [isa, Child.cls]
  | duration n s =>
    cases y with
    | octave m => simp [Add.Spec.place, isa, Child.cls, List.findIdx_cons] at hxy
    | accidental m => simp [Add.Spec.place, isa, Child.cls, List.findIdx_cons] at hxy
    | octCheck m => simp [Add.Spec.place, isa, Child.cls, List.findIdx_cons] at hxy
    | _ => simp [isa, Child.cls]
  | other k i =>
    cases y with
    | octave m => cases k <;> simp [Add.Spec.place, isa, Child.cls, List.findIdx_cons] at hxy
    | accidental m => cases k <;> simp [Add.Spec.place, isa, Child.cls, List.findIdx_cons] at hxy
    | octCheck m => cases k <;> simp [Add.Spec.place, isa, Child.cls, List.findIdx_cons] at hxy
    | _ => simp [isa, Child.cls]

/-- **C51**: the children that do not store an attribute (articulations, comments, ...) stay, in
the same order, under any history. -/
theorem C51_others_stay (hlim : lim 1 = 1) (e : Elem) (h : Single e) (ops : List Op) :
    others (run lim e ops).1 = others e := (good_run lim hlim e h ops).2.2.2.1

/-- **C51**: "Delete this attribute or set it to 0 to remove the octave" is not so: an Octave
child stays when the octave is set to 0 (it writes no text). -/
theorem C51_octave_zero_keeps_child :
    let e : Elem := ⟨.note, [.octave 1]⟩
    (exec lim e (.setOctave 0)).1.children = [.octave 0] ∧
    (exec lim e .delOctave).1.children = [] := ⟨rfl, rfl⟩

/-! The cases are met: `c'!4*1/2-. % hi`, with `lim` the identity. -/

/-- A note with everything. -/
def exNote : Elem := ⟨.note, [.octave 1, .accidental .forced, .duration (1/4) [.scaling (1/2)],
  .other .articulations 0, .other .comment 1]⟩

example : Single exNote ∧ Ordered exNote := by
  constructor
  · rw [single_iff]; decide +kernel
  · simp [Ordered, order, before, after, Add.Spec.Respects, exNote, Add.Spec.place, isa, Child.cls, List.findIdx_cons]

example : (run id exNote [.delScaling, .setOctCheck (some (-1)), .delAccidental,
      .setDuration (some (.num (1/8))), .delOctave, .setDurationScaling none,
      .setScaling (some (.num 2)), .setDurationScaling (some (some (.frac 2), some (.num (1/3)))),
      .setOctave 2]) =
    (⟨.note, [.octave 2, .octCheck (-1), .duration 2 [.scaling (1/3)],
      .other .articulations 0, .other .comment 1]⟩,
     [none, none, none, none, none, none, some .valueError, none, none]) := by decide +kernel

end Quickly.Attr
