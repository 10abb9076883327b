import Verif.Space.Spec
import Mathlib.Data.List.Induction

/-! # C41: spacing attributes behave like plain attributes with defaults -/

namespace Quickly.Space

variable {ν : Type} [DecidableEq ν]

/-- Keys are distinct; a dict in the slot is not empty and holds no default value. -/
def Good (dflt : Name → ν) : Slot ν → Prop
  | none => True
  | some d => (PyDict.keys d).Nodup ∧ d ≠ [] ∧ ∀ n, d.get n ≠ some (dflt n)

theorem delProp_spec (dflt : Name → ν) (n : Name) (o : Slot ν) (h : Good dflt o) :
    Good dflt (delProp n o) ∧
      ∀ m, getProp dflt m (delProp n o) = if m = n then dflt m else getProp dflt m o := by
  cases o with
  | none => simp [delProp, getProp, Good]
  | some d =>
    obtain ⟨hn, hne, hd⟩ := h
    cases hg : d.get n with
    | none =>
      simp only [delProp, hg]
      refine ⟨⟨hn, hne, hd⟩, fun m => ?_⟩
      split
      · subst_vars; simp [getProp, hg]
      · rfl
    | some w =>
      have hget : ∀ m, getProp dflt m (some (d.del n)) =
          if m = n then dflt m else getProp dflt m (some d) := by
        intro m
        by_cases hm : m = n
        · simp [getProp, PyDict.get_del _ _ _ hn, hm]
        · simp [getProp, PyDict.get_del _ _ _ hn, hm]
      simp only [delProp, hg]
      split
      · rename_i he
        refine ⟨trivial, fun m => ?_⟩
        rw [← hget m, List.isEmpty_iff.1 he]
        simp [getProp, PyDict.get]
      · rename_i he
        refine ⟨⟨PyDict.nodup_del _ _ hn, fun e => he (by simp [e]), fun m => ?_⟩, hget⟩
        rw [PyDict.get_del _ _ _ hn]
        split
        · simp
        · exact hd m

theorem setProp_default (dflt : Name → ν) (n : Name) (o : Slot ν) :
    setProp dflt n (dflt n) o = delProp n o := by
  cases o with
  | none => simp [setProp, delProp]
  | some d => simp [setProp, delProp]

theorem setProp_spec (dflt : Name → ν) (n : Name) (v : ν) (o : Slot ν) (h : Good dflt o) :
    Good dflt (setProp dflt n v o) ∧
      ∀ m, getProp dflt m (setProp dflt n v o) = if m = n then v else getProp dflt m o := by
  by_cases hv : v = dflt n
  · subst hv
    rw [setProp_default]
    refine ⟨(delProp_spec dflt n o h).1, fun m => ?_⟩
    rw [(delProp_spec dflt n o h).2]
    split
    · subst_vars; rfl
    · rfl
  · have key : ∀ d : PyDict Name ν, (PyDict.keys d).Nodup → (∀ n, d.get n ≠ some (dflt n)) →
        Good dflt (some (d.set n v)) ∧ ∀ m, getProp dflt m (some (d.set n v)) =
          if m = n then v else getProp dflt m (some d) := by
      intro d hn hd
      refine ⟨⟨PyDict.nodup_set _ _ _ hn, ?_, fun m => ?_⟩, fun m => ?_⟩
      · intro e
        have := PyDict.get_set n v n d
        rw [e] at this
        simp [PyDict.get] at this
      · rw [PyDict.get_set]
        split
        · subst_vars; simpa using hv
        · exact hd m
      · by_cases hm : m = n
        · simp [getProp, PyDict.get_set, hm]
        · simp [getProp, PyDict.get_set, hm]
    cases o with
    | none =>
      simp only [setProp, if_neg hv]
      have := key [] (by simp [PyDict.keys]) (by simp [PyDict.get])
      refine ⟨this.1, fun m => ?_⟩
      rw [this.2 m]; simp [getProp, PyDict.get]
    | some d =>
      simp only [setProp, if_neg hv]
      exact key d h.1 h.2.2

theorem run_spec (dflt : Name → ν) (ops : List (Op ν)) :
    Good dflt (run dflt ops) ∧
      ∀ n, getProp dflt n (run dflt ops) = Spec.recent dflt n ops.reverse := by
  induction ops using List.reverseRecOn with
  | nil => exact ⟨trivial, fun n => rfl⟩
  | append_singleton ops op ih =>
    have hr : run dflt (ops ++ [op]) = step dflt (run dflt ops) op := by simp [run]
    rw [hr]
    cases op with
    | set n v =>
      obtain ⟨h1, h2⟩ := setProp_spec dflt n v _ ih.1
      refine ⟨h1, fun m => ?_⟩
      simp only [step, h2 m, ih.2 m, List.reverse_append, List.reverse_cons, List.reverse_nil,
        List.nil_append, List.singleton_append, Spec.recent, eq_comm]
    | del n =>
      obtain ⟨h1, h2⟩ := delProp_spec dflt n _ ih.1
      refine ⟨h1, fun m => ?_⟩
      simp only [step, h2 m, ih.2 m, List.reverse_append, List.reverse_cons, List.reverse_nil,
        List.nil_append, List.singleton_append, Spec.recent, eq_comm]

/-- **C41**: after any history of sets and deletes of the five attributes, each attribute
reads as the last value set since its last delete, or as the class default. -/
theorem C41_history (dflt : Name → ν) (ops : List (Op ν)) (n : Name) :
    getProp dflt n (run dflt ops) = Spec.value dflt n ops :=
  (run_spec dflt ops).2 n

/-- **C41**, independence: a statement about one attribute does not change another. -/
theorem C41_independent (dflt : Name → ν) (ops : List (Op ν)) (n m : Name) (v : ν) (h : m ≠ n) :
    getProp dflt m (run dflt (ops ++ [.set n v])) = getProp dflt m (run dflt ops) ∧
    getProp dflt m (run dflt (ops ++ [.del n])) = getProp dflt m (run dflt ops) := by
  have h' : ¬ n = m := fun e => h e.symm
  constructor <;> rw [C41_history, C41_history] <;>
    simp [Spec.value, Spec.recent, h']

/-- **C41**, as the class documentation says: an object stores spacing data only while one
of the five attributes differs from its default. -/
theorem C41_no_memory (dflt : Name → ν) (ops : List (Op ν)) :
    run dflt ops = none ↔ ∀ n, Spec.value dflt n ops = dflt n := by
  constructor
  · intro h n
    rw [← C41_history, h]; rfl
  · intro h
    have hg := (run_spec dflt ops).1
    cases hr : run dflt ops with
    | none => rfl
    | some d =>
      rw [hr] at hg
      obtain ⟨hn, hne, hd⟩ := hg
      cases d with
      | nil => exact absurd rfl hne
      | cons kv d =>
        obtain ⟨k, v⟩ := kv
        have h1 := h k
        rw [← C41_history, hr] at h1
        have h2 := hd k
        simp [getProp, PyDict.get] at h1 h2
        exact absurd h1 h2

/-- A block with a newline after the head: change two attributes, and one back. -/
example : let dflt : Name → String := fun n => if n = .afterHead then "\n" else ""
    let ops := [.set .before " ", .set .afterHead "", .set .between "\n\n", .del .between,
      .set .afterHead "\n"]
    getProp dflt .before (run dflt ops) = " " ∧ getProp dflt .afterHead (run dflt ops) = "\n" ∧
    getProp dflt .between (run dflt ops) = "" ∧ run dflt ops = some [(.before, " ")] ∧
    run dflt (ops ++ [.set .before ""]) = none := by decide

end Quickly.Space
