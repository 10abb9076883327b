import Verif.PitchTime.View
import Verif.Rel2abs.Stay
import Verif.TransposeDoc.Props

/-! # What the pitch edits do, in terms of `Edit` -/

namespace Quickly.PitchTime

open Quickly.Node Quickly.Signature Quickly.Length Quickly.Length.Spec Spec
open Quickly.Pitch (PNode)
open Quickly.Rel2abs
open Quickly.Rel2abs.Spec

mutual
theorem edit_one_refl : ∀ t : Doc, Edit [t] [t]
  | .node i l ks => by
    have := edit_refl ks
    cases l with
    | note b n chk => exact .note _ _ _ _ _ _ _ _ _ _ this .nil
    | _ => exact .node _ _ _ _ _ _ (by simp) this .nil
theorem edit_refl : ∀ ts : List Doc, Edit ts ts
  | [] => .nil
  | t :: ts => by
    have h1 := edit_one_refl t
    have h2 := edit_refl ts
    cases t with
    | node i l ks =>
      have h3 := edit_refl ks
      cases l with
      | note b n chk => exact .note _ _ _ _ _ _ _ _ _ _ h3 h2
      | _ => exact .node _ _ _ _ _ _ (by simp) h3 h2
end

theorem edit_append {a b a' b' : List Doc} (h : Edit a a') (g : Edit b b') : Edit (a ++ b) (a' ++ b') := by
  induction h with
  | nil => exact g
  | node i l ks gs ts us hl h _ _ ih => exact .node _ _ _ _ _ _ hl h ih
  | note i b n n' chk chk' ks gs ts us h _ _ ih => exact .note _ _ _ _ _ _ _ _ _ _ h ih
  | check i ks ts us _ ih => exact .check _ _ _ _ ih
  | relative i pre b post y ts us hb hp h _ _ ih => exact .relative _ _ _ _ _ _ _ hb hp h ih

/-! ## Transposing -/

mutual
theorem same_edit (sel : Id → Bool) : ∀ t t' : Doc, TransposeDoc.Spec.Same sel t t' → Edit [t] [t']
  | .node i l ks, .node j m gs, h => by
    rw [TransposeDoc.Spec.Same] at h
    obtain ⟨rfl, h1, h2⟩ := h
    have hk := sameL_edit sel ks gs h2
    rcases h1 with rfl | ⟨-, p, n, chk, n', chk', rfl, rfl, -⟩
    · cases l with
      | note b n chk => exact .note _ _ _ _ _ _ _ _ _ _ hk .nil
      | _ => exact .node _ _ _ _ _ _ (by simp) hk .nil
    · exact .note _ _ _ _ _ _ _ _ _ _ hk .nil
theorem sameL_edit (sel : Id → Bool) : ∀ ts ts' : List Doc, TransposeDoc.Spec.SameL sel ts ts' → Edit ts ts'
  | [], [], _ => .nil
  | t :: ts, t' :: ts', h => by
    rw [TransposeDoc.Spec.SameL] at h
    exact edit_append (same_edit sel t t' h.1) (sameL_edit sel ts ts' h.2)
  | [], _ :: _, h => by simp [TransposeDoc.Spec.SameL] at h
  | _ :: _, [], h => by simp [TransposeDoc.Spec.SameL] at h
end

theorem sameL_get (sel : Id → Bool) : ∀ (ts ts' : List Doc), TransposeDoc.Spec.SameL sel ts ts' → ∀ (i : ℕ) (x : Doc), ts[i]? = some x →
    ∃ y, ts'[i]? = some y ∧ TransposeDoc.Spec.Same sel x y
  | [], [], _, i, x, hx => by simp at hx
  | t :: ts, t' :: ts', h, i, x, hx => by
    rw [TransposeDoc.Spec.SameL] at h
    cases i with
    | zero => simp at hx; subst hx; exact ⟨t', by simp, h.1⟩
    | succ i => obtain ⟨y, h1, h2⟩ := sameL_get sel ts ts' h.2 i x (by simpa using hx); exact ⟨y, by simpa using h1, h2⟩
  | [], _ :: _, h, _, _, _ => by simp [TransposeDoc.Spec.SameL] at h
  | _ :: _, [], h, _, _, _ => by simp [TransposeDoc.Spec.SameL] at h

theorem same_at (sel : Id → Bool) {ts ts' : List Doc} (h : TransposeDoc.Spec.SameL sel ts ts') {path : List ℕ} {a : Doc} (ha : at? ts path = some a) :
    ∃ b, at? ts' path = some b ∧ a.id = b.id := by
  induction path generalizing ts ts' with
  | nil => simp [at?] at ha
  | cons i path ih =>
    obtain ⟨x, hx, ⟨rfl, rfl⟩ | ⟨hp, h2⟩⟩ := at_cons ha
    · obtain ⟨y, hy, hs⟩ := sameL_get sel _ _ h i a hx
      refine ⟨y, by simpa [at?] using hy, ?_⟩
      cases a; cases y
      rw [TransposeDoc.Spec.Same] at hs
      exact hs.1
    · obtain ⟨y, hy, hs⟩ := sameL_get sel _ _ h i x hx
      cases path with
      | nil => exact absurd rfl hp
      | cons j path =>
        cases x with
        | node k l ks =>
          cases y with
          | node k' m gs =>
            rw [TransposeDoc.Spec.Same] at hs
            obtain ⟨rfl, h1, h3⟩ := hs
            obtain ⟨b, hb, e⟩ := ih h3 h2
            refine ⟨b, ?_, e⟩
            simp only [at?, hx] at ha
            rcases h1 with rfl | ⟨-, p, n, chk, n', chk', rfl, rfl, -⟩
            · cases l with
              | note b n chk => simp at ha
              | _ => simp only [at?, hy]; exact hb
            · simp at ha

end Quickly.PitchTime
