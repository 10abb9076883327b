import Verif.Files.Spec
import Verif.Length.Props

/-! # Music whose durations do not depend on what is before it -/

namespace Quickly.Files

open Quickly.Node Quickly.Signature Quickly.Length Spec
open Quickly.Time (Mus Kind)
open Quickly.Duration (Transform)

/-- Kinds for which the children do not matter. -/
def leaf : Kind → Bool
  | .durable .. | .chord .. => true
  | _ => false

mutual
/-- Music without the parts that do not matter for its length. -/
def trim : Mus → Mus
  | .node k cs => .node k (if leaf k then [] else trimL cs)
/-- The same for children. -/
def trimL : List Mus → List Mus
  | [] => []
  | m :: ms => trim m :: trimL ms
end

theorem trim_kind (m : Mus) : (trim m).kind = m.kind := by
  cases m; rfl

mutual
theorem length_trim (rem : Time.Remote) (tr : Transform) : ∀ m : Mus, Time.length rem tr (trim m) = Time.length rem tr m
  | .node k cs => by
    cases k with
    | durable d s => rfl
    | chord n d s => rfl
    | music s t => simp only [trim, leaf, Time.length, lengths_trim rem _ cs, Bool.false_eq_true, if_false]
    | afterGrace => simp only [trim, leaf, Time.length, lengths_trim rem _ cs, Bool.false_eq_true, if_false]
    | reference n => rfl
    | other => rfl
theorem lengths_trim (rem : Time.Remote) (tr : Transform) : ∀ ms : List Mus,
    Time.lengths rem tr (trimL ms) = Time.lengths rem tr ms
  | [] => rfl
  | m :: ms => by simp only [trimL, Time.lengths, trim_kind, length_trim rem tr m, lengths_trim rem tr ms]
end

/-- The same result, apart from parts that do not matter. -/
def Eqv (x y : Py Mus) : Prop := x.map trim = y.map trim

def EqvL (x y : Py (List Mus)) : Prop := x.map trimL = y.map trimL

/-- The same error, or none. -/
def Err {α : Type} (x y : Py α) : Prop := x.map (fun _ => ()) = y.map fun _ => ()

theorem previous_congr (xs b b' : List Nd) (h : previousDuration b = previousDuration b') :
    previousDuration (xs ++ b) = previousDuration (xs ++ b') := by
  induction xs with
  | nil => exact h
  | cons x xs ih =>
    simp only [List.cons_append, previousDuration, ih]

theorem kindOf_congr (p : Option Cls) (n : Nd) (b b' : List Nd) (h : previousDuration b = previousDuration b') :
    kindOf p b n = kindOf p b' n := by
  simp only [kindOf, getDuration, h]

theorem kindOf_err (p : Option Cls) (n : Nd) (b b' : List Nd) : Err (kindOf p b n) (kindOf p b' n) := by
  simp only [Err, kindOf]
  repeat' split
  all_goals rfl

mutual
theorem toMus_congr (p : Option Cls) : ∀ (n : Nd) (b b' : List Nd), previousDuration b = previousDuration b' →
    toMus p b n = toMus p b' n
  | .node l cs, b, b', h => by
    rw [toMus, toMus, kindOf_congr p _ b b' h, toMusL_congr (some l.1) cs b b' h]
theorem toMusL_congr (p : Option Cls) : ∀ (ns : List Nd) (b b' : List Nd), previousDuration b = previousDuration b' →
    toMusL p b ns = toMusL p b' ns
  | [], b, b', h => rfl
  | n :: ns, b, b', h => by
    rw [toMusL, toMusL, toMus_congr p n b b' h, toMusL_congr p ns _ _ (previous_congr (rev n) b b' h)]
end

theorem err_cases {α : Type} {x y : Py α} (h : Err x y) :
    (∃ e, x = .error e ∧ y = .error e) ∨ (∃ a b, x = .ok a ∧ y = .ok b) := by
  cases x <;> cases y <;> simp [Err, Except.map] at h ⊢
  exact h.symm

mutual
theorem toMus_err (p : Option Cls) : ∀ (n : Nd) (b b' : List Nd), Err (toMus p b n) (toMus p b' n)
  | .node l cs, b, b' => by
    rw [toMus, toMus]
    rcases err_cases (kindOf_err p (.node l cs) b b') with ⟨e, h1, h2⟩ | ⟨k, k', h1, h2⟩
    · rw [h1, h2]; rfl
    · rw [h1, h2]
      rcases err_cases (toMusL_err (some l.1) cs b b') with ⟨e, h1, h2⟩ | ⟨m, m', h1, h2⟩
      · simp only [h1, h2]; rfl
      · simp only [h1, h2]; rfl
theorem toMusL_err (p : Option Cls) : ∀ (ns : List Nd) (b b' : List Nd), Err (toMusL p b ns) (toMusL p b' ns)
  | [], b, b' => rfl
  | n :: ns, b, b' => by
    rw [toMusL, toMusL]
    rcases err_cases (toMus_err p n b b') with ⟨e, h1, h2⟩ | ⟨k, k', h1, h2⟩
    · rw [h1, h2]; rfl
    · rw [h1, h2]
      rcases err_cases (toMusL_err p ns (rev n ++ b) (rev n ++ b')) with ⟨e, h1, h2⟩ | ⟨m, m', h1, h2⟩
      · simp only [h1, h2]; rfl
      · simp only [h1, h2]; rfl
end

theorem cls_durable : ∀ c : Cls, (isSub 5 c .Chord = true → isSub 5 c .Durable = true ∧ isSub 5 c .Skip = false) := by
  intro c; cases c <;> decide +kernel

theorem written_of_any (l : Cls × Val) (cs : List Nd) (h : (cs.any fun c => isSub 5 c.val.1 .Duration) = true) :
    ∃ d, durationScaling (.node l cs) = some d := by
  rw [List.any_eq_true] at h
  obtain ⟨c, hc, hd⟩ := h
  have : (cs.find? (isA .Duration)).isSome := List.find?_isSome.2 ⟨c, hc, hd⟩
  obtain ⟨x, hx⟩ := Option.isSome_iff_exists.1 this
  exact ⟨durationOf x, by simp only [durationScaling, Tree.children, hx, Option.map_some]⟩

/-- The kind of a note with a written duration. -/
theorem kindOf_written (p : Option Cls) (n : Nd) (b b' : List Nd) (d : D) (h : durationScaling n = some d) :
    kindOf p b n = kindOf p b' n := by
  simp only [kindOf, getDuration, h, Option.getD_some]

theorem kindOf_leaf (p : Option Cls) (l : Cls × Val) (cs b : List Nd)
    (h : (isSub 5 l.1 .Durable && !isSub 5 l.1 .Skip) = true) : ∃ k, kindOf p b (.node l cs) = .ok k ∧ leaf k = true := by
  simp only [Bool.and_eq_true, Bool.not_eq_true'] at h
  simp only [kindOf, isA, Tree.val, h.1, h.2, if_true, Bool.false_eq_true, if_false]
  split
  · exact ⟨_, rfl, rfl⟩
  · exact ⟨_, rfl, rfl⟩

/-- Other nodes. -/
theorem kindOf_other (p : Option Cls) (l : Cls × Val) (cs b b' : List Nd)
    (h : (isSub 5 l.1 .Durable && !isSub 5 l.1 .Skip) = false) : kindOf p b (.node l cs) = kindOf p b' (.node l cs) := by
  have hc : isSub 5 l.1 .Chord = false := by
    by_contra hc
    have := cls_durable l.1 (by simpa using hc)
    rw [this.1, this.2] at h
    cases h
  by_cases hs : isSub 5 l.1 .Skip = true
  · have h1 : isA .Chord (.node l cs) = false := hc
    have h2 : isA .Skip (.node l cs) = true := hs
    by_cases ha : (cs.any fun c => isSub 5 c.val.1 .Duration) = true
    · obtain ⟨d, hd⟩ := written_of_any l cs ha
      exact kindOf_written p _ b b' d hd
    · have ha' : ¬ ((Node.Tree.node l cs).children.any (isA .Duration) = true) := ha
      have hn : ¬ (isA .Chord (.node l cs) = true) := by rw [h1]; simp
      have key : ∀ b, kindOf p b (.node l cs) = .ok (.music false none) := by
        intro b
        unfold kindOf
        simp only [if_neg hn, if_pos h2, if_neg ha']
      rw [key, key]
  · have hs' : isSub 5 l.1 .Skip = false := by simpa using hs
    rw [hs'] at h
    have hd : isSub 5 l.1 .Durable = false := by simpa using h
    simp only [kindOf, isA, Tree.val, hc, hs', hd, Bool.false_eq_true, if_false]

theorem trimL_cons_congr {m m' : Mus} {ms ms' : List Mus} (h : trim m = trim m') (hs : trimL ms = trimL ms') :
    trimL (m :: ms) = trimL (m' :: ms') := by simp only [trimL, h, hs]

theorem eqv_cases {x y : Py Mus} (h : Eqv x y) :
    (∃ e, x = .error e ∧ y = .error e) ∨ (∃ a b, x = .ok a ∧ y = .ok b ∧ trim a = trim b) := by
  cases x <;> cases y <;> simp [Eqv, Except.map] at h ⊢ <;> first | exact h | exact h.symm

theorem eqvL_cases {x y : Py (List Mus)} (h : EqvL x y) :
    (∃ e, x = .error e ∧ y = .error e) ∨ (∃ a b, x = .ok a ∧ y = .ok b ∧ trimL a = trimL b) := by
  cases x <;> cases y <;> simp [EqvL, Except.map] at h ⊢ <;> first | exact h | exact h.symm

mutual
theorem timed_ok (p : Option Cls) : ∀ (n : Nd) (b b' : List Nd),
    (first n ≠ some false → Eqv (toMus p b n) (toMus p b' n)) ∧
    (first n = some true → previousDuration (rev n ++ b) = previousDuration (rev n ++ b'))
  | .node l cs, b, b' => by
    by_cases hd : (isSub 5 l.1 .Durable && !isSub 5 l.1 .Skip) = true
    · have hf : first (.node l cs) = some (cs.any fun c => isSub 5 c.val.1 .Duration) := by
        rw [first, if_pos hd]
      rw [hf]
      by_cases ha : (cs.any fun c => isSub 5 c.val.1 .Duration) = true
      · obtain ⟨d, hw⟩ := written_of_any l cs ha
        refine ⟨fun _ => ?_, fun _ => ?_⟩
        · obtain ⟨k, hk, hl⟩ := kindOf_leaf p l cs b hd
          rw [toMus, toMus, kindOf_written p _ b' b d hw, hk]
          rcases err_cases (toMusL_err (some l.1) cs b b') with ⟨e, h1, h2⟩ | ⟨m, m', h1, h2⟩
          · simp only [h1, h2]; rfl
          · simp only [h1, h2, Eqv, Except.map, trim, hl, if_true]
        · have : setsPrevious (.node l cs) = true := hd
          simp only [rev, List.cons_append, previousDuration, this, if_true, hw]
      · rw [Bool.not_eq_true] at ha
        rw [ha]
        exact ⟨fun h => absurd rfl h, fun h => by cases h⟩
    · rw [Bool.not_eq_true] at hd
      have hf : first (.node l cs) = firstL cs := by rw [first, hd]; rfl
      rw [hf]
      obtain ⟨h1, h2⟩ := timedL_ok (some l.1) cs b b'
      refine ⟨fun h => ?_, fun h => ?_⟩
      · rw [toMus, toMus, kindOf_other p l cs b' b hd]
        rcases kindOf p b (.node l cs) with e | k
        · rfl
        · rcases eqvL_cases (h1 h) with ⟨e, e1, e2⟩ | ⟨m, m', e1, e2, e3⟩
          · simp only [e1, e2]; rfl
          · simp only [e1, e2, Eqv, Except.map, trim, e3]
      · have : setsPrevious (.node l cs) = false := hd
        simp only [rev, List.cons_append, previousDuration, this, Bool.false_eq_true, if_false]
        exact h2 h
theorem timedL_ok (p : Option Cls) : ∀ (ns : List Nd) (b b' : List Nd),
    (firstL ns ≠ some false → EqvL (toMusL p b ns) (toMusL p b' ns)) ∧
    (firstL ns = some true → previousDuration (revL ns ++ b) = previousDuration (revL ns ++ b'))
  | [], b, b' => ⟨fun _ => rfl, fun h => by cases h⟩
  | n :: ns, b, b' => by
    obtain ⟨h1, h2⟩ := timed_ok p n b b'
    rw [firstL]
    cases hf : first n with
    | none =>
      obtain ⟨h3, h4⟩ := timedL_ok p ns (rev n ++ b) (rev n ++ b')
      refine ⟨fun h => ?_, fun h => ?_⟩
      · rw [toMusL, toMusL]
        rcases eqv_cases (h1 (by rw [hf]; simp)) with ⟨e, e1, e2⟩ | ⟨m, m', e1, e2, e3⟩
        · simp only [e1, e2]; rfl
        · rcases eqvL_cases (h3 h) with ⟨e, f1, f2⟩ | ⟨ms, ms', f1, f2, f3⟩
          · simp only [e1, e2, f1, f2]; rfl
          · simp only [e1, e2, f1, f2, EqvL, Except.map, trimL_cons_congr e3 f3]
      · rw [revL, List.append_assoc, List.append_assoc]
        exact h4 h
    | some x =>
      cases x with
      | false => exact ⟨fun h => absurd rfl h, fun h => by cases h⟩
      | true =>
        have hp := h2 hf
        refine ⟨fun h => ?_, fun h => ?_⟩
        · rw [toMusL, toMusL, toMusL_congr p ns _ _ hp]
          rcases eqv_cases (h1 (by rw [hf]; simp)) with ⟨e, e1, e2⟩ | ⟨m, m', e1, e2, e3⟩
          · simp only [e1, e2]; rfl
          · rw [e1, e2]
            rcases toMusL p (rev n ++ b') ns with e | ms
            · rfl
            · simp only [EqvL, Except.map, trimL_cons_congr e3 rfl]
        · rw [revL, List.append_assoc, List.append_assoc]
          exact previous_congr _ _ _ hp
end

/-- Music gets the same length if the current duration before it is the same or does not matter. -/
theorem same_ok (p : Option Cls) (t : Nd) (b b' : List Nd) (h : previousDuration b = previousDuration b' ∨ Timed t) :
    Eqv (toMus p b t) (toMus p b' t) := by
  rcases h with h | h
  · rw [toMus_congr p t b b' h]; rfl
  · exact (timed_ok p t b b').1 h

end Quickly.Files
