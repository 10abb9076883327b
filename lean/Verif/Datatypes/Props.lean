import Verif.Datatypes.Lemmas

/-! # Properties of `quickly.datatypes.Properties` (C10) -/

namespace Quickly.Datatypes

variable {κ β : Type} [DecidableEq κ]

theorem nodup_add (a b : Dict κ β) : (keys (add a b)).Nodup := nodup_init _

theorem rel_run (ops : List (Op κ β)) : Rel (run ops) (Spec.run ops) := by
  unfold run Spec.run
  have : ∀ (h : List (Dict κ β)) (s : List (Spec.Props κ β)), Rel h s →
      Rel (ops.foldl step h) (ops.foldl Spec.step s) := by
    induction ops with
    | nil => intro h s r; exact r
    | cons op ops ih => intro h s r; exact ih _ _ (rel_step r op)
  exact this [] [] ⟨rfl, by simp, by simp⟩

/-- After any history of creating, setting, deleting and adding, every object
behaves as the partial function of the specification: attribute access gives its
value or None, `in` tells whether it is defined, and an object is truthy exactly
when something is defined. -/
theorem C10_history (ops : List (Op κ β)) :
    (run ops).length = (Spec.run ops).length ∧
    ∀ (i : Nat) (d : Dict κ β) (p : Spec.Props κ β),
      (run ops)[i]? = some d → (Spec.run ops)[i]? = some p →
      (∀ k, contains d k = (p k).isSome) ∧
      (∀ k, getattr d k = (p k).getD none) ∧
      (bool d = true ↔ ∃ k, (p k).isSome = true) := by
  have r := rel_run ops
  refine ⟨r.len, ?_⟩
  intro i d p hd hp
  have hv := r.val i d p hd hp
  refine ⟨fun k => by simp [contains, hv], fun k => ?_, ?_⟩
  · simp only [getattr, hv]; cases p k <;> rfl
  · simp only [bool]
    constructor
    · intro h
      cases d with
      | nil => simp at h
      | cons q d =>
        obtain ⟨k, v⟩ := q
        exact ⟨k, by rw [← hv k]; simp [Dict.lookup]⟩
    · rintro ⟨k, hk⟩
      cases d with
      | nil => rw [← hv k] at hk; simp [Dict.lookup] at hk
      | cons q d => rfl

example :
    let h := run [Op.new [("a", some 1)], Op.new [("a", none), ("b", some 2)], Op.add 0 1,
      Op.del 0 "a", Op.del 0 "zz"]
    h.map (fun d => (getattr d "a", getattr d "b", contains d "a", bool d)) =
      [(none, none, false, false), (none, some 2, true, true), (none, some 2, true, true)] := by
  decide

/-- Equality of two objects of any history is extensional equality. -/
theorem C10_eq_extensional [DecidableEq β] (ops : List (Op κ β)) (i j : Nat) (x y : Dict κ β)
    (p q : Spec.Props κ β)
    (hx : (run ops)[i]? = some x) (hy : (run ops)[j]? = some y)
    (hp : (Spec.run ops)[i]? = some p) (hq : (Spec.run ops)[j]? = some q) :
    eq x y = true ↔ p = q := by
  have r := rel_run ops
  rw [eq_iff x y (r.nodup _ (List.mem_of_getElem? hx)) (r.nodup _ (List.mem_of_getElem? hy))]
  have h1 := r.val i x p hx hp
  have h2 := r.val j y q hy hq
  constructor
  · intro h; funext k; rw [← h1, ← h2, h]
  · intro h k; rw [h1, h2, h]

/-- `(x + y) + z == x + (y + z)` for all objects of any history. -/
theorem C10_add_assoc [DecidableEq β] (ops : List (Op κ β)) (x y z : Dict κ β)
    (hx : x ∈ run ops) (hy : y ∈ run ops) (hz : z ∈ run ops) :
    eq (add (add x y) z) (add x (add y z)) = true := by
  have r := rel_run ops
  have nx := r.nodup x hx
  have ny := r.nodup y hy
  have nz := r.nodup z hz
  have nxy : (keys (add x y)).Nodup := nodup_init _
  have nyz : (keys (add y z)).Nodup := nodup_init _
  rw [eq_iff _ _ (nodup_add _ _) (nodup_add _ _)]
  intro k
  rw [lookup_add _ _ nxy nz, lookup_add _ _ nx ny, lookup_add _ _ nx nyz, lookup_add _ _ ny nz]
  cases Dict.lookup k z <;> simp

/-- The empty Properties is an identity on both sides. -/
theorem C10_add_identity [DecidableEq β] (ops : List (Op κ β)) (x : Dict κ β) (hx : x ∈ run ops) :
    eq (add x (init [])) x = true ∧ eq (add (init []) x) x = true := by
  have nx := (rel_run ops).nodup x hx
  have n0 : (keys (init ([] : Dict κ β))).Nodup := nodup_init _
  have l0 : ∀ k, Dict.lookup k (init ([] : Dict κ β)) = none := fun k => by rw [lookup_init]; rfl
  refine ⟨(eq_iff _ _ (nodup_add _ _) nx).mpr ?_, (eq_iff _ _ (nodup_add _ _) nx).mpr ?_⟩
  · intro k; rw [lookup_add _ _ nx n0, l0]; simp
  · intro k; rw [lookup_add _ _ n0 nx, l0]; cases Dict.lookup k x <;> simp

example : (run [Op.new [("a", some 1)], Op.new [("a", (none : Option Nat))]]).length = 2 := by decide

end Quickly.Datatypes
