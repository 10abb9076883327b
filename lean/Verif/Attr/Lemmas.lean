import Verif.Attr.Spec
import Verif.Add.Props

/-! # Lemmas for the attributes of notes -/

namespace Quickly.Attr

open Spec

/-- The values of the Octave children. -/
def octs (l : List Child) : List ℤ :=
  l.filterMap fun c => match c with | .octave n => some n | _ => none
/-- The values of the Accidental children. -/
def accs (l : List Child) : List Acc :=
  l.filterMap fun c => match c with | .accidental n => some n | _ => none
/-- The values of the OctCheck children. -/
def chks (l : List Child) : List ℤ :=
  l.filterMap fun c => match c with | .octCheck n => some n | _ => none
/-- The Duration children. -/
def durs (l : List Child) : List (ℚ × List Sub) :=
  l.filterMap fun c => match c with | .duration n s => some (n, s) | _ => none
/-- The other children. -/
def oths (l : List Child) : List (Kind × ℕ) :=
  l.filterMap fun c => match c with | .other k i => some (k, i) | _ => none
/-- The scalings of a duration. -/
def scals (l : List Sub) : List ℚ :=
  l.filterMap fun c => match c with | .scaling q => some q | _ => none

theorem octs_append (a b) : octs (a ++ b) = octs a ++ octs b := List.filterMap_append
theorem accs_append (a b) : accs (a ++ b) = accs a ++ accs b := List.filterMap_append
theorem chks_append (a b) : chks (a ++ b) = chks a ++ chks b := List.filterMap_append
theorem durs_append (a b) : durs (a ++ b) = durs a ++ durs b := List.filterMap_append
theorem oths_append (a b) : oths (a ++ b) = oths a ++ oths b := List.filterMap_append
theorem scals_append (a b) : scals (a ++ b) = scals a ++ scals b := List.filterMap_append

theorem octs_cons (c l) : octs (c :: l) = octs [c] ++ octs l := octs_append [c] l
theorem accs_cons (c l) : accs (c :: l) = accs [c] ++ accs l := accs_append [c] l
theorem chks_cons (c l) : chks (c :: l) = chks [c] ++ chks l := chks_append [c] l
theorem durs_cons (c l) : durs (c :: l) = durs [c] ++ durs l := durs_append [c] l
theorem oths_cons (c l) : oths (c :: l) = oths [c] ++ oths l := oths_append [c] l

theorem getOctave_eq (l) : getOctave l = (octs l).head?.getD 0 := by
  induction l with
  | nil => rfl
  | cons c l ih => cases c <;> simp_all [getOctave, octs]

theorem getAccidental_eq (l) : getAccidental l = (accs l).head? := by
  induction l with
  | nil => rfl
  | cons c l ih => cases c <;> simp_all [getAccidental, accs]

theorem getOctCheck_eq (l) : getOctCheck l = (chks l).head? := by
  induction l with
  | nil => rfl
  | cons c l ih => cases c <;> simp_all [getOctCheck, chks]

theorem getDurationScaling_eq (l) :
    getDurationScaling l = (durs l).head?.map fun p => (p.1, product p.2) := by
  induction l with
  | nil => rfl
  | cons c l ih => cases c <;> simp_all [getDurationScaling, durs]

theorem getDuration_eq (l) : getDuration l = (getDurationScaling l).map Prod.fst := by
  induction l with
  | nil => rfl
  | cons c l ih => cases c <;> simp_all [getDurationScaling, getDuration]

theorem getScaling_eq (l) : getScaling l = (getDurationScaling l).map Prod.snd := by
  induction l with
  | nil => rfl
  | cons c l ih => cases c <;> simp_all [getDurationScaling, getScaling]

theorem filter_octave (l : List Child) : (l.filter (isa · .octave)).length = (octs l).length := by
  induction l with
  | nil => rfl
  | cons c l ih => cases c <;> simp_all [octs, isa, Child.cls]

theorem filter_accidental (l : List Child) :
    (l.filter (isa · .accidental)).length = (accs l).length := by
  induction l with
  | nil => rfl
  | cons c l ih => cases c <;> simp_all [accs, isa, Child.cls]

theorem filter_octCheck (l : List Child) :
    (l.filter (isa · .octCheck)).length = (chks l).length := by
  induction l with
  | nil => rfl
  | cons c l ih => cases c <;> simp_all [chks, isa, Child.cls]

theorem filter_duration (l : List Child) :
    (l.filter (isa · .duration)).length = (durs l).length := by
  induction l with
  | nil => rfl
  | cons c l ih => cases c <;> simp_all [durs, isa, Child.cls]

theorem mem_durs (l : List Child) (h s) : Child.duration h s ∈ l ↔ (h, s) ∈ durs l := by
  induction l with
  | nil => simp [durs]
  | cons c l ih => cases c <;> simp_all [durs]

theorem filter_scaling (l : List Sub) :
    (l.filter Sub.isScaling).length =
      (scals l).length := by
  induction l with
  | nil => rfl
  | cons c l ih => cases c <;> simp_all [scals, Sub.isScaling, List.filter_cons]

/-- `Single` in terms of the lists of values. -/
theorem single_iff (e : Elem) : Single e ↔
    ((octs e.children).length ≤ 1 ∧ (accs e.children).length ≤ 1 ∧
      (chks e.children).length ≤ 1 ∧ (durs e.children).length ≤ 1) ∧
    ∀ p ∈ durs e.children, (scals p.2).length ≤ 1 := by
  constructor
  · rintro ⟨h1, h2⟩
    refine ⟨⟨?_, ?_, ?_, ?_⟩, ?_⟩
    · rw [← filter_octave]; exact h1 _ (by simp)
    · rw [← filter_accidental]; exact h1 _ (by simp)
    · rw [← filter_octCheck]; exact h1 _ (by simp)
    · rw [← filter_duration]; exact h1 _ (by simp)
    · rintro ⟨h, s⟩ hp
      rw [← filter_scaling]
      exact h2 h s ((mem_durs _ _ _).2 hp)
  · rintro ⟨⟨h1, h2, h3, h4⟩, h5⟩
    refine ⟨fun k hk => ?_, fun h s hm => ?_⟩
    · cases k with
      | octave => rw [filter_octave]; exact h1
      | accidental => rw [filter_accidental]; exact h2
      | octCheck => rw [filter_octCheck]; exact h3
      | duration => rw [filter_duration]; exact h4
      | kind k => exact absurd rfl (hk k)
    · rw [filter_scaling]
      exact h5 _ ((mem_durs _ _ _).1 hm)

theorem onFirst_none {k f} {l : List Child} (h : onFirst k f l = none) :
    ∀ c ∈ l, isa c k = false := by
  induction l with
  | nil => simp
  | cons c l ih =>
    simp only [onFirst] at h
    split at h
    · cases h
    · rename_i hc
      simp only [Option.map_eq_none_iff] at h
      intro x hx
      rcases List.mem_cons.1 hx with rfl | hx
      · simpa using hc
      · exact ih h x hx

theorem onFirst_some {k f} {l l' : List Child} (h : onFirst k f l = some l') :
    ∃ a c b, l = a ++ c :: b ∧ (∀ x ∈ a, isa x k = false) ∧ isa c k = true ∧
      l' = a ++ ((f c).toList ++ b) := by
  induction l generalizing l' with
  | nil => cases h
  | cons c l ih =>
    simp only [onFirst] at h
    split at h
    · rename_i hc
      cases h
      exact ⟨[], c, l, rfl, by simp, hc, rfl⟩
    · rename_i hc
      simp only [Option.map_eq_some_iff] at h
      obtain ⟨l'', h1, rfl⟩ := h
      obtain ⟨a, c', b, rfl, h2, h3, rfl⟩ := ih h1
      refine ⟨c :: a, c', b, rfl, ?_, h3, rfl⟩
      intro x hx
      rcases List.mem_cons.1 hx with rfl | hx
      · simpa using hc
      · exact h2 x hx

theorem octs_nil {l : List Child} (h : ∀ x ∈ l, isa x .octave = false) : octs l = [] := by
  rw [← List.length_eq_zero_iff, ← filter_octave]
  simpa [List.filter_eq_nil_iff] using h

theorem accs_nil {l : List Child} (h : ∀ x ∈ l, isa x .accidental = false) : accs l = [] := by
  rw [← List.length_eq_zero_iff, ← filter_accidental]
  simpa [List.filter_eq_nil_iff] using h

theorem chks_nil {l : List Child} (h : ∀ x ∈ l, isa x .octCheck = false) : chks l = [] := by
  rw [← List.length_eq_zero_iff, ← filter_octCheck]
  simpa [List.filter_eq_nil_iff] using h

theorem durs_nil {l : List Child} (h : ∀ x ∈ l, isa x .duration = false) : durs l = [] := by
  rw [← List.length_eq_zero_iff, ← filter_duration]
  simpa [List.filter_eq_nil_iff] using h

theorem isa_octave {c : Child} (h : isa c .octave = true) : ∃ n, c = .octave n := by
  cases c <;> simp_all [isa, Child.cls]
theorem isa_accidental {c : Child} (h : isa c .accidental = true) : ∃ n, c = .accidental n := by
  cases c <;> simp_all [isa, Child.cls]
theorem isa_octCheck {c : Child} (h : isa c .octCheck = true) : ∃ n, c = .octCheck n := by
  cases c <;> simp_all [isa, Child.cls]
theorem isa_duration {c : Child} (h : isa c .duration = true) : ∃ n s, c = .duration n s := by
  cases c <;> simp_all [isa, Child.cls]

theorem product_eq (l : List Sub) (h : scals l = []) : product l = 1 := by
  induction l with
  | nil => rfl
  | cons c l ih => cases c <;> simp_all [scals, product]

theorem product_single (l : List Sub) (q : ℚ) (h : scals l = [q]) : product l = q := by
  induction l with
  | nil => simp [scals] at h
  | cons c l ih =>
    cases c with
    | other i => exact ih h
    | scaling r =>
      have : r = q ∧ scals l = [] := by simpa [scals] using h
      rw [product, product_eq l this.2, this.1, mul_one]

theorem drain_none (l : List Sub) (h : scals l = []) : drain l = l := by
  induction l with
  | nil => rfl
  | cons c l ih =>
    cases c with
    | other i => rw [drain, ih h]
    | scaling r => simp [scals] at h

theorem splitScaling_none {l : List Sub} (h : splitScaling l = none) : scals l = [] := by
  induction l with
  | nil => rfl
  | cons c l ih =>
    cases c with
    | other i =>
      simp only [splitScaling, Option.map_eq_none_iff] at h
      exact ih h
    | scaling r => simp [splitScaling] at h

theorem splitScaling_some {l a b : List Sub} (h : splitScaling l = some (a, b)) :
    scals a = [] ∧ ∃ q, l = a ++ .scaling q :: b := by
  induction l generalizing a with
  | nil => cases h
  | cons c l ih =>
    cases c with
    | other i =>
      simp only [splitScaling, Option.map_eq_some_iff, Prod.exists, Prod.mk.injEq] at h
      obtain ⟨a', b', h1, rfl, rfl⟩ := h
      obtain ⟨h2, q, rfl⟩ := ih h1
      exact ⟨h2, q, rfl⟩
    | scaling r =>
      simp only [splitScaling, Option.some.injEq, Prod.mk.injEq] at h
      obtain ⟨rfl, rfl⟩ := h
      exact ⟨rfl, r, rfl⟩

/-- With at most one DurationScaling, the setter leaves exactly the new one. -/
theorem scals_setSubs (value : Option ℚ) (l : List Sub) (h : (scals l).length ≤ 1) :
    scals (setSubs value l) = value.toList := by
  rw [setSubs.eq_def]
  cases hs : splitScaling l with
  | none =>
    have h0 := splitScaling_none hs
    cases value with
    | none => simpa using h0
    | some q => simpa [scals] using h0
  | some p =>
    obtain ⟨a, b⟩ := p
    obtain ⟨h1, q, rfl⟩ := splitScaling_some hs
    have hb : scals b = [] := by
      rw [scals_append, h1] at h
      simpa [scals] using h
    cases value with
    | none =>
      have hb' : scals (b.take 1) = [] ∧ scals (b.drop 1) = [] := by
        rw [← List.append_eq_nil_iff, ← scals_append, List.take_append_drop, hb]
      simp only [drain_none _ hb'.2, List.take_append_drop, scals_append, h1, hb, List.nil_append,
        Option.toList_none]
    | some r =>
      simp only [scals_append, h1, drain_none _ hb, List.nil_append, Option.toList_some]
      have : scals (.scaling r :: b) = r :: scals b := rfl
      rw [this, hb]

theorem product_setSubs (value : Option ℚ) (l : List Sub) (h : (scals l).length ≤ 1) :
    product (setSubs value l) = value.getD 1 := by
  have := scals_setSubs value l h
  cases value with
  | none => exact product_eq _ this
  | some q => exact product_single _ q this

/-- The five lists of values of children. -/
structure Proj where
  oct : List ℤ
  acc : List Acc
  chk : List ℤ
  dur : List (ℚ × List Sub)
  oth : List (Kind × ℕ)

/-- The five lists of values of the children. -/
def proj (l : List Child) : Proj := ⟨octs l, accs l, chks l, durs l, oths l⟩

@[simp] theorem octs_octave (n) : octs [.octave n] = [n] := rfl
@[simp] theorem octs_accidental (n) : octs [.accidental n] = [] := rfl
@[simp] theorem octs_octCheck (n) : octs [.octCheck n] = [] := rfl
@[simp] theorem octs_duration (n s) : octs [.duration n s] = [] := rfl
@[simp] theorem accs_octave (n) : accs [.octave n] = [] := rfl
@[simp] theorem accs_accidental (n) : accs [.accidental n] = [n] := rfl
@[simp] theorem accs_octCheck (n) : accs [.octCheck n] = [] := rfl
@[simp] theorem accs_duration (n s) : accs [.duration n s] = [] := rfl
@[simp] theorem chks_octave (n) : chks [.octave n] = [] := rfl
@[simp] theorem chks_accidental (n) : chks [.accidental n] = [] := rfl
@[simp] theorem chks_octCheck (n) : chks [.octCheck n] = [n] := rfl
@[simp] theorem chks_duration (n s) : chks [.duration n s] = [] := rfl
@[simp] theorem durs_octave (n) : durs [.octave n] = [] := rfl
@[simp] theorem durs_accidental (n) : durs [.accidental n] = [] := rfl
@[simp] theorem durs_octCheck (n) : durs [.octCheck n] = [] := rfl
@[simp] theorem durs_duration (n s) : durs [.duration n s] = [(n, s)] := rfl
@[simp] theorem oths_octave (n) : oths [.octave n] = [] := rfl
@[simp] theorem oths_accidental (n) : oths [.accidental n] = [] := rfl
@[simp] theorem oths_octCheck (n) : oths [.octCheck n] = [] := rfl
@[simp] theorem oths_duration (n s) : oths [.duration n s] = [] := rfl
@[simp] theorem octs_emp : octs [] = [] := rfl
@[simp] theorem accs_emp : accs [] = [] := rfl
@[simp] theorem chks_emp : chks [] = [] := rfl
@[simp] theorem durs_emp : durs [] = [] := rfl
@[simp] theorem oths_emp : oths [] = [] := rfl

theorem proj_insert (a b : List Child) (c : Child) : proj (a ++ c :: b) =
    ⟨octs a ++ (octs [c] ++ octs b), accs a ++ (accs [c] ++ accs b),
     chks a ++ (chks [c] ++ chks b), durs a ++ (durs [c] ++ durs b),
     oths a ++ (oths [c] ++ oths b)⟩ := by
  rw [show a ++ c :: b = a ++ ([c] ++ b) from rfl]
  simp only [proj, octs_append, accs_append, chks_append, durs_append, oths_append]

theorem proj_append (a b : List Child) : proj (a ++ b) =
    ⟨octs a ++ octs b, accs a ++ accs b, chks a ++ chks b, durs a ++ durs b,
     oths a ++ oths b⟩ := by
  simp only [proj, octs_append, accs_append, chks_append, durs_append, oths_append]

/-- Adding a child. -/
theorem add_children (e : Elem) (c : Child) : ∃ a b, e.children = a ++ b ∧
    (e.add c).children = a ++ c :: b := Add.C40_keeps_children isa (childOrder e.owner) e.children c

theorem single_nil {α} {a b : List α} {x : α} (h : (a ++ (x :: b)).length ≤ 1) : a = [] ∧ b = [] := by
  simp only [List.length_append, List.length_cons] at h
  exact ⟨List.eq_nil_of_length_eq_zero (by omega), List.eq_nil_of_length_eq_zero (by omega)⟩

variable (lim : ℚ → ℚ)

theorem proj_setOctave (n : ℤ) (e : Elem) (h : (octs e.children).length ≤ 1) :
    proj (setOctave n e).children =
      { proj e.children with
        oct := if octs e.children = [] then (if n = 0 then [] else [n]) else [n] } := by
  rw [setOctave]
  cases ho : onFirst .octave (fun _ => some (.octave n)) e.children with
  | some l =>
    obtain ⟨a, c, b, he, ha, hc, rfl⟩ := onFirst_some ho
    obtain ⟨m, rfl⟩ := isa_octave hc
    rw [he] at h ⊢
    have : octs (a ++ Child.octave m :: b) = octs a ++ m :: octs b := by
      rw [octs_append, octs_cons]; rfl
    rw [this] at h ⊢
    obtain ⟨h1, h2⟩ := single_nil h
    have := proj_insert a b (.octave n)
    simp only [Option.toList_some, List.cons_append, List.nil_append]
    rw [this, proj_insert]
    simp [h1, h2]
  | none =>
    have h0 := octs_nil (onFirst_none ho)
    simp only [h0, if_true]
    split
    · rename_i hn
      simp [proj, h0]
    · obtain ⟨a, b, h1, h2⟩ := add_children e (.octave n)
      have : octs a = [] ∧ octs b = [] := by
        rw [← List.append_eq_nil_iff, ← octs_append, ← h1, h0]
      rw [h2, h1, proj_insert, proj_append]
      simp [this]

theorem proj_setAccidental (n : Option Acc) (e : Elem) (h : (accs e.children).length ≤ 1) :
    proj (setAccidental n e).children = { proj e.children with acc := n.toList } := by
  rw [setAccidental.eq_def]
  cases ho : onFirst .accidental (fun _ => n.map .accidental) e.children with
  | some l =>
    obtain ⟨a, c, b, he, ha, hc, rfl⟩ := onFirst_some ho
    obtain ⟨m, rfl⟩ := isa_accidental hc
    rw [he] at h ⊢
    have : accs (a ++ Child.accidental m :: b) = accs a ++ m :: accs b := by
      rw [accs_append, accs_cons]; rfl
    rw [this] at h
    obtain ⟨h1, h2⟩ := single_nil h
    cases n with
    | none =>
      simp only [Option.map_none, Option.toList_none, List.nil_append]
      rw [proj_insert, proj_append]
      simp [h1, h2]
    | some n =>
      simp only [Option.map_some, Option.toList_some, List.cons_append, List.nil_append]
      rw [proj_insert, proj_insert]
      simp [h1, h2]
  | none =>
    have h0 := accs_nil (onFirst_none ho)
    cases n with
    | none => simp [proj, h0]
    | some n =>
      obtain ⟨a, b, h1, h2⟩ := add_children e (.accidental n)
      have : accs a = [] ∧ accs b = [] := by
        rw [← List.append_eq_nil_iff, ← accs_append, ← h1, h0]
      simp only [Option.toList_some]
      rw [h2, h1, proj_insert, proj_append]
      simp [this]

theorem proj_setOctCheck (n : Option ℤ) (e : Elem) (h : (chks e.children).length ≤ 1) :
    proj (setOctCheck n e).children = { proj e.children with chk := n.toList } := by
  rw [setOctCheck.eq_def]
  cases ho : onFirst .octCheck (fun _ => n.map .octCheck) e.children with
  | some l =>
    obtain ⟨a, c, b, he, ha, hc, rfl⟩ := onFirst_some ho
    obtain ⟨m, rfl⟩ := isa_octCheck hc
    rw [he] at h ⊢
    have : chks (a ++ Child.octCheck m :: b) = chks a ++ m :: chks b := by
      rw [chks_append, chks_cons]; rfl
    rw [this] at h
    obtain ⟨h1, h2⟩ := single_nil h
    cases n with
    | none =>
      simp only [Option.map_none, Option.toList_none, List.nil_append]
      rw [proj_insert, proj_append]
      simp [h1, h2]
    | some n =>
      simp only [Option.map_some, Option.toList_some, List.cons_append, List.nil_append]
      rw [proj_insert, proj_insert]
      simp [h1, h2]
  | none =>
    have h0 := chks_nil (onFirst_none ho)
    cases n with
    | none => simp [proj, h0]
    | some n =>
      obtain ⟨a, b, h1, h2⟩ := add_children e (.octCheck n)
      have : chks a = [] ∧ chks b = [] := by
        rw [← List.append_eq_nil_iff, ← chks_append, ← h1, h0]
      simp only [Option.toList_some]
      rw [h2, h1, proj_insert, proj_append]
      simp [this]

theorem proj_delDuration (e : Elem) (h : (durs e.children).length ≤ 1) :
    proj (delDuration e).children = { proj e.children with dur := [] } := by
  rw [delDuration]
  cases ho : onFirst .duration (fun _ => none) e.children with
  | some l =>
    obtain ⟨a, c, b, he, ha, hc, rfl⟩ := onFirst_some ho
    obtain ⟨m, s, rfl⟩ := isa_duration hc
    rw [he] at h ⊢
    have : durs (a ++ Child.duration m s :: b) = durs a ++ (m, s) :: durs b := by
      rw [durs_append, durs_cons]; rfl
    rw [this] at h
    obtain ⟨h1, h2⟩ := single_nil h
    simp only [Option.toList_none, List.nil_append]
    rw [proj_insert, proj_append]
    simp [h1, h2]
  | none =>
    have h0 := durs_nil (onFirst_none ho)
    simp [proj, h0]

theorem proj_setDuration (v : Option Num) (e : Elem) (h : (durs e.children).length ≤ 1) :
    proj (setDuration lim v e).children = { proj e.children with
      dur := v.toList.map fun v => (v.head lim, ((durs e.children).head?.map Prod.snd).getD []) } := by
  rw [setDuration.eq_def]
  split
  · rename_i l ho
    obtain ⟨a, c, b, he, ha, hc, rfl⟩ := onFirst_some ho
    obtain ⟨m, s, rfl⟩ := isa_duration hc
    rw [he] at h ⊢
    have : durs (a ++ Child.duration m s :: b) = durs a ++ (m, s) :: durs b := by
      rw [durs_append, durs_cons]; rfl
    rw [this] at h ⊢
    obtain ⟨h1, h2⟩ := single_nil h
    cases v with
    | none =>
      simp only [Option.toList_none, List.nil_append]
      rw [proj_insert, proj_append]
      simp [h1, h2]
    | some v =>
      simp only [Option.toList_some, List.cons_append, List.nil_append]
      rw [proj_insert, proj_insert]
      simp [h1, h2]
  · rename_i ho
    have h0 := durs_nil (onFirst_none ho)
    cases v with
    | none => simp [proj, h0]
    | some v =>
      obtain ⟨a, b, h1, h2⟩ := add_children e (.duration (v.head lim) [])
      have : durs a = [] ∧ durs b = [] := by
        rw [← List.append_eq_nil_iff, ← durs_append, ← h1, h0]
      simp only [Option.toList_some]
      rw [h2, h1, proj_insert, proj_append, durs_append]
      simp [this]

theorem proj_setScaling (v : Option Num) (e : Elem) (h : (durs e.children).length ≤ 1) :
    proj (setScaling lim v e).1.children = { proj e.children with
      dur := (durs e.children).map fun p => (p.1, setSubs (newScaling lim v) p.2) } ∧
    (setScaling lim v e).2 =
      if durs e.children = [] ∧ newScaling lim v ≠ none then some .valueError else none := by
  rw [setScaling]
  split
  · rename_i l ho
    obtain ⟨a, c, b, he, ha, hc, rfl⟩ := onFirst_some ho
    obtain ⟨m, s, rfl⟩ := isa_duration hc
    rw [he] at h ⊢
    have : durs (a ++ Child.duration m s :: b) = durs a ++ (m, s) :: durs b := by
      rw [durs_append, durs_cons]; rfl
    rw [this] at h ⊢
    obtain ⟨h1, h2⟩ := single_nil h
    simp only [Option.toList_some, List.cons_append, List.nil_append]
    rw [proj_insert, proj_insert]
    simp [h1, h2]
  · rename_i ho
    have h0 := durs_nil (onFirst_none ho)
    constructor
    · simp [proj, h0]
    · simp only [h0, true_and, ne_eq, ite_not]

theorem proj_delAll (e : Elem) :
    proj (delAll .octave e).children = { proj e.children with oct := [] } ∧
    proj (delAll .accidental e).children = { proj e.children with acc := [] } ∧
    proj (delAll .octCheck e).children = { proj e.children with chk := [] } := by
  obtain ⟨o, l⟩ := e
  simp only [delAll]
  induction l with
  | nil => exact ⟨rfl, rfl, rfl⟩
  | cons c l ih =>
    simp only [proj, Proj.mk.injEq] at ih ⊢
    cases c <;> simp_all [isa, Child.cls, octs, accs, chks, durs, oths]

end Quickly.Attr
