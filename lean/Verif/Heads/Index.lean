import Verif.Heads.Props

/-!
# C78: when a head cannot be read because a token is missing
-/

namespace Quickly.Heads

open Quickly.Scheme (Str)
open Spec

theorem pyInt_index (s : Str) : pyInt s ≠ .error .indexError := by
  unfold pyInt
  split <;> split <;> simp

theorem mapM_index (l : List Str) : l.mapM pyInt ≠ .error .indexError := by
  induction l with
  | nil => simp [pure, Except.pure]
  | cons s l ih =>
    rw [List.mapM_cons]
    cases h : pyInt s with
    | error e =>
      have := pyInt_index s
      rw [h] at this
      simpa [bind, Except.bind] using this
    | ok n =>
      cases h' : l.mapM pyInt with
      | error e => rw [h'] at ih; simpa [bind, Except.bind] using ih
      | ok ns => simp [bind, Except.bind, pure, Except.pure]

/-- C78: reading a head raises `IndexError` exactly when there is no token at all and the kind looks at one, or when a
Scheme boolean is one character or nothing; the other kinds are read from whatever tokens there are. -/
theorem C78_index_error (k : Kind) (o : List Str) :
    read k o = .error .indexError ↔
      (o = [] ∧ k ∉ [Kind.plain, .lilySingle, .backslash, .scmSingle, .envName, .texComment]) ∨
      (k = .bool ∧ ∃ t ts, o = t :: ts ∧ t.length < 2) := by
  cases o with
  | nil => cases k <;> simp [read, first, inside, bind, Except.bind]
  | cons t ts =>
    cases k
    case int =>
      have := pyInt_index t
      cases h : pyInt t <;> simp_all [read, first, bind, Except.bind, pure, Except.pure]
    case fraction =>
      have := mapM_index (split t)
      cases h : (split t).mapM pyInt with
      | error e => simp_all [read, first, bind, Except.bind]
      | ok l =>
        simp only [read, first, bind, Except.bind, h]
        split <;> simp [pure, Except.pure]
    case bool =>
      match t with
      | [] => simp [read, first, bind, Except.bind]
      | [c] => simp [read, first, bind, Except.bind]
      | c :: d :: t => simp [read, first, bind, Except.bind, pure, Except.pure]
    case lilyMulti =>
      have : (t :: ts).getLast? ≠ none := by simp
      simp only [read, inside]; split <;> simp_all
    case scmMulti =>
      have : (t :: ts).getLast? ≠ none := by simp
      simp only [read, inside]; split <;> simp_all
    all_goals simp [read, first, bind, Except.bind, pure, Except.pure]

example : read .bool ["#".toList] = .error .indexError ∧ read .bool ["#true".toList] = .ok (.bool true) ∧
    read .char [] = .error .indexError ∧ read .envName ["{".toList, "}".toList] = .ok .none := by decide

end Quickly.Heads
