import Verif.Basic

/-!
# Python dictionaries

A `dict` is the list of its items in insertion order.  This file models the builtin
operations the code uses; it is part of the trusted reading of Python.
-/

namespace Quickly

/-- A Python `dict`: items in insertion order. -/
abbrev PyDict (κ ν : Type) := List (κ × ν)

namespace PyDict

variable {κ ν : Type} [DecidableEq κ]

/-- `d.get(k)`: `none` for a KeyError. -/
def get (k : κ) : PyDict κ ν → Option ν
  | [] => none
  | (k', v) :: d => if k' = k then some v else get k d

/-- `d[k] = v`: replaces the value in place or appends the item. -/
def set (k : κ) (v : ν) : PyDict κ ν → PyDict κ ν
  | [] => [(k, v)]
  | (k', v') :: d => if k' = k then (k', v) :: d else (k', v') :: set k v d

/-- `del d[k]`, for a key that exists (no change otherwise). -/
def del (k : κ) : PyDict κ ν → PyDict κ ν
  | [] => []
  | (k', v') :: d => if k' = k then d else (k', v') :: del k d

/-- The keys in order. -/
def keys (d : PyDict κ ν) : List κ := d.map (·.1)

/-- `{k: v for k, v in items}`. -/
def ofItems (items : List (κ × ν)) : PyDict κ ν :=
  items.foldl (fun d kv => set kv.1 kv.2 d) []

theorem get_set (k : κ) (v : ν) (k' : κ) (d : PyDict κ ν) :
    get k' (set k v d) = if k' = k then some v else get k' d := by
  induction d with
  | nil => by_cases h : k = k' <;> simp [set, get, h, eq_comm]
  | cons kv d ih =>
    obtain ⟨a, w⟩ := kv
    by_cases h : a = k
    · subst h
      by_cases h' : a = k'
      · simp [set, get, h']
      · have : ¬ k' = a := fun e => h' e.symm
        simp [set, get, h', this]
    · simp only [set, if_neg h, get]
      by_cases h' : a = k'
      · subst h'; simp [h]
      · simp [h', ih]

theorem get_none_iff (k : κ) (d : PyDict κ ν) : get k d = none ↔ k ∉ keys d := by
  induction d with
  | nil => simp [get, keys]
  | cons kv d ih =>
    obtain ⟨a, w⟩ := kv
    by_cases h : a = k
    · simp [get, keys, h]
    · have : ¬ k = a := fun e => h e.symm
      simp only [keys] at ih
      simp [get, keys, h, this, ih]

theorem keys_set (k : κ) (v : ν) (d : PyDict κ ν) :
    keys (set k v d) = if k ∈ keys d then keys d else keys d ++ [k] := by
  induction d with
  | nil => simp [set, keys]
  | cons kv d ih =>
    obtain ⟨a, w⟩ := kv
    by_cases h : a = k
    · simp [set, keys, h]
    · have h' : ¬ k = a := fun e => h e.symm
      have e1 : keys ((a, w) :: d) = a :: keys d := rfl
      have e2 : keys (set k v ((a, w) :: d)) = a :: keys (set k v d) := by
        simp only [set, if_neg h]; rfl
      rw [e1, e2, ih]
      by_cases hk : k ∈ keys d
      · simp [hk]
      · simp [hk, h']

theorem nodup_set (k : κ) (v : ν) (d : PyDict κ ν) (h : (keys d).Nodup) :
    (keys (set k v d)).Nodup := by
  rw [keys_set]
  split
  · exact h
  · rename_i hk
    rw [List.nodup_append]
    refine ⟨h, by simp, ?_⟩
    intro a ha b hb
    simp at hb; subst hb
    exact fun e => hk (e ▸ ha)

theorem keys_del (k : κ) (d : PyDict κ ν) : keys (del k d) = (keys d).erase k := by
  induction d with
  | nil => simp [del, keys]
  | cons kv d ih =>
    obtain ⟨a, w⟩ := kv
    by_cases h : a = k
    · simp [del, keys, h]
    · simp only [keys] at ih
      simp [del, keys, h, ih]

theorem nodup_del (k : κ) (d : PyDict κ ν) (h : (keys d).Nodup) : (keys (del k d)).Nodup := by
  rw [keys_del]; exact h.erase k

theorem get_del (k k' : κ) (d : PyDict κ ν) (h : (keys d).Nodup) :
    get k' (del k d) = if k' = k then none else get k' d := by
  induction d with
  | nil => simp [del, get]
  | cons kv d ih =>
    obtain ⟨a, w⟩ := kv
    simp only [keys, List.map_cons, List.nodup_cons] at h
    by_cases ha : a = k
    · subst ha
      simp only [del, if_true, get]
      by_cases h' : k' = a
      · subst h'
        simp only [if_true]
        exact (get_none_iff _ _).2 h.1
      · have : ¬ a = k' := fun e => h' e.symm
        simp [h', this]
    · simp only [del, if_neg ha, get]
      by_cases h' : a = k'
      · subst h'; simp [ha]
      · simp only [if_neg h']; exact ih h.2

end PyDict

end Quickly
