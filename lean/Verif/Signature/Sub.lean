import Verif.Signature.Tables
import Mathlib.Logic.Relation

/-!
# What it is to be a subclass
-/

namespace Quickly.Signature

/-- The classes that are reached with so many steps to a base class. -/
def up : ℕ → Cls → List Cls
  | 0, a => [a]
  | n + 1, a => (bases a).flatMap (up n)

theorem up_five (a : Cls) : up 5 a = [] := by
  have h : (allCls.all fun a => (up 5 a).isEmpty) = true := by decide +kernel
  exact List.isEmpty_iff.1 (List.all_eq_true.1 h a (mem_allCls a))

theorem isSub_enough (c : Cls) : ∀ (n : ℕ) (a : Cls), up (n + 1) a = [] → isSub (n + 1) a c = isSub n a c
  | 0, a, h => by
    have hb : bases a = [] := by
      cases hb : bases a with
      | nil => rfl
      | cons x xs => simp [up, hb] at h
    simp [isSub, hb]
  | n + 1, a, h => by
    have h' : ∀ b ∈ bases a, up (n + 1) b = [] := by
      intro b hb
      rw [up, List.flatMap_eq_nil_iff] at h
      exact h b hb
    have hall : ((bases a).any fun b => isSub (n + 1) b c) = (bases a).any fun b => isSub n b c := by
      rw [Bool.eq_iff_iff, List.any_eq_true, List.any_eq_true]
      constructor
      · rintro ⟨b, hb, k⟩; exact ⟨b, hb, by rw [← isSub_enough c n b (h' b hb)]; exact k⟩
      · rintro ⟨b, hb, k⟩; exact ⟨b, hb, by rw [isSub_enough c n b (h' b hb)]; exact k⟩
    show (a == c || (bases a).any fun b => isSub (n + 1) b c) = (a == c || (bases a).any fun b => isSub n b c)
    rw [hall]

theorem isSub_sound (c : Cls) : ∀ (n : ℕ) (a : Cls), isSub n a c = true →
    Relation.ReflTransGen (fun x y => y ∈ bases x) a c
  | 0, a, h => by rw [isSub, beq_iff_eq] at h; exact h ▸ .refl
  | n + 1, a, h => by
    rw [isSub, Bool.or_eq_true, beq_iff_eq, List.any_eq_true] at h
    rcases h with h | ⟨b, hb, h⟩
    · exact h ▸ .refl
    · exact .head hb (isSub_sound c n b h)

/-- C83: the test for a subclass is true exactly for the class itself and for what is reached from it by going to a base
class any number of times. -/
theorem C83_subclass (a c : Cls) : isSub 5 a c = true ↔ Relation.ReflTransGen (fun x y => y ∈ bases x) a c := by
  refine ⟨isSub_sound c 5 a, fun h => ?_⟩
  induction h using Relation.ReflTransGen.head_induction_on with
  | refl => simp [isSub]
  | @head x y hb _ ih =>
    have h6 : isSub 6 x c = isSub 5 x c := by
      refine isSub_enough c 5 x ?_
      rw [up, List.flatMap_eq_nil_iff]
      exact fun b _ => up_five b
    rw [← h6, isSub, Bool.or_eq_true, List.any_eq_true]
    exact .inr ⟨y, hb, ih⟩

/-- A multi measure rest is a rest, and over four steps it is music; it is not a note. -/
example : isSub 5 .MultiMeasureRest .Rest = true ∧ isSub 5 .MultiMeasureRest .Music = true ∧
    isSub 5 .MultiMeasureRest .Note = false := by decide +kernel

end Quickly.Signature
