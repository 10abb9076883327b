import Verif.RhythmPitch.Walk
import Verif.PitchTime.Props

/-!
# C111: Rhythm edits do not depend on the pitches

The durations after an edit of `quickly/rhythm.py` are the same whatever the pitches are, so durations and pitches can be edited in any order.
-/

namespace Quickly.RhythmPitch

open Quickly.Node Quickly.Signature Quickly.Length Spec
open Quickly.RhythmTime hiding Same
open Quickly.RhythmEdits hiding parts walk_val
open Quickly.RhythmEdits.Spec (stripL)
open Quickly.RhythmTime.Spec (timed sounding)
open Quickly.PitchTime.Spec (pitched parts View nd nds)
open Quickly.Rel2abs (Doc Lab tn)
open Quickly.Relative (exPP)
open Quickly.PitchTime (exKids exView)

theorem handle_bare (a b i : ℕ) (n : Nd) : (decide (a ≤ i ∧ i < b) && isA .HandleDuration (bare n)) =
    (decide (a ≤ i ∧ i < b) && isA .HandleDuration n) := by rw [isA_bare]

/-- The whole walk. -/
theorem whole {σ : Type} {P : Proc σ} {f : σ → σ} {Inv : σ → Prop} {which : ℕ → Nd → Bool} (hb : Blind P f) (hf : FineProc P Inv)
    (hw : ∀ i n, which i n = true → n.val.1 ∈ timed) (hwb : ∀ i n, which i (bare n) = which i n) (st : σ) (hi : Inv st) (doc : List Nd)
    (h : PlainL doc) : walkL P which (f st) 0 [] (bareL false doc) = (f (walkL P which st 0 [] doc).1, (walkL P which st 0 [] doc).2.1,
      bareL false (walkL P which st 0 [] doc).2.2) :=
  walkL_bare hb hf hw hwb false doc st 0 [] [] h (fun h => by cases h) hi rfl

theorem range_timed (a b : ℕ) : ∀ i n, (decide (a ≤ i ∧ i < b) && isA .HandleDuration n) = true → n.val.1 ∈ timed := by
  intro i n h
  simp only [Bool.and_eq_true, handle_iff, decide_eq_true_eq] at h
  exact h.2

theorem run_bare (e : RhythmEdit) (a b : ℕ) (doc : List Nd) (h : PlainL doc) : bareL false (e.run a b doc) = e.run a b (bareL false doc) := by
  have ht := inRange_timed a b
  have hr := inRange_bare a b
  cases e with
  | remove => exact (congrArg (·.2.2) (whole blind_remove fine_remove ht hr () trivial doc h)).symm
  | removeScaling => exact (congrArg (·.2.2) (whole blind_removeScaling fine_removeScaling ht hr () trivial doc h)).symm
  | removeFraction => exact (congrArg (·.2.2) (whole blind_removeFraction fine_removeFraction ht hr () trivial doc h)).symm
  | explicit => exact (congrArg (·.2.2) (whole blind_explicit fine_explicit ht hr none (fun d h => by cases h) doc h)).symm
  | implicit => exact (congrArg (·.2.2) (whole blind_implicit fine_implicit ht hr none trivial doc h)).symm
  | implicitPerLine block => exact (congrArg (·.2.2) (whole (blind_perLine block) (fine_perLine block) ht hr none trivial doc h)).symm
  | transform t => exact (congrArg (·.2.2) (whole (blind_transform t) (fine_transform t) (range_timed a b) (handle_bare a b) none trivial doc h)).symm
  | copy => exact (congrArg (·.2.2) (whole blind_copy fine_copy ht hr [] trivial doc h)).symm
  | copyExplicit => exact (congrArg (·.2.2) (whole blind_copyExplicit fine_copyExplicit ht hr (none, []) trivial doc h)).symm
  | paste durs cycle => exact (congrArg (·.2.2) (whole (blind_paste durs cycle) (fine_paste durs cycle) ht hr (0, none) trivial doc h)).symm

/-- **C111**: if two documents differ in their pitches only, so they do after any edit of durations. -/
theorem C111_edit (e : RhythmEdit) (a b : ℕ) (doc doc' : List Nd) (h : PlainL doc) (h' : PlainL doc') (he : bareL false doc = bareL false doc') :
    bareL false (e.run a b doc) = bareL false (e.run a b doc') := by
  rw [run_bare e a b doc h, run_bare e a b doc' h', he]

/-- **C111**: the durations that are copied, and the exception that ends a transformation, do not depend on the pitches. -/
theorem C111_results (t : Duration.Transform) (a b : ℕ) (doc doc' : List Nd) (h : PlainL doc) (h' : PlainL doc')
    (he : bareL false doc = bareL false doc') : (copy a b doc).1 = (copy a b doc').1 ∧
    (copyExplicit a b doc).1 = (copyExplicit a b doc').1 ∧ (RhythmTime.transform t a b doc).1 = (RhythmTime.transform t a b doc').1 := by
  have ht := inRange_timed a b
  have hr := inRange_bare a b
  have k1 := fun d hd => (congrArg (·.1) (whole blind_copy fine_copy ht hr [] trivial d hd)).symm
  have k2 := fun d hd => (congrArg (·.1) (whole blind_copyExplicit fine_copyExplicit ht hr (none, []) trivial d hd)).symm
  have k3 := fun d hd => (congrArg (·.1) (whole (blind_transform t) (fine_transform t) (range_timed a b) (handle_bare a b) none trivial d hd)).symm
  refine ⟨congrArg List.reverse ?_, congrArg (fun x : Option D × List D => x.2.reverse) ?_, ?_⟩
  · have j := k1 doc h
    rw [he] at j
    exact j.trans (k1 doc' h').symm
  · have j := k2 doc h
    rw [he] at j
    exact j.trans (k2 doc' h').symm
  · have j := k3 doc h
    rw [he] at j
    exact j.trans (k3 doc' h').symm

/-- `{ cis'!4 d \tuplet 3/2 { e8 f g, } r a }`, if the names and parts are these. -/
def tune (names : List String) (oct acc low : List Nd) : List Nd :=
  let n (i : ℕ) (cs : List Nd) : Nd := .node (.Note, .text (names.getD i "c")) cs
  [.node (.MusicList, .text "{") [n 0 (oct ++ acc ++ [dur (1/4)]), n 1 [],
    .node (.Tuplet, .text "") [.node (.Fraction, .pair 3 2) [], .node (.MusicList, .text "{") [n 2 [dur (1/8)], n 3 [], n 4 low]],
    .node (.Rest, .text "r") [], n 5 []]]

/-- With these pitches. -/
def tune1 : List Nd := tune ["cis", "d", "e", "f", "g", "a"] [.node (.Octave, .num (.int 1)) []] [.node (.Accidental, .text "!") []]
  [.node (.Octave, .num (.int (-1))) []]

/-- And with others. -/
def tune2 : List Nd := tune ["es", "f", "g", "a", "b", "c"] [] [] [.node (.Octave, .num (.int 2)) [], .node (.OctCheck, .text "=") []]

theorem tunes : PlainL tune1 ∧ PlainL tune2 ∧ bareL false tune1 = bareL false tune2 := by
  refine ⟨?_, ?_, by with_unfolding_all rfl⟩
  · simp [tune1, tune, dur, Plain, PlainL, pitched, timed, sounding, Node.Tree.val, Length.Spec.events]
  · simp [tune2, tune, dur, Plain, PlainL, pitched, timed, sounding, Node.Tree.val, Length.Spec.events]

/-- Writing all durations changes the tunes, and in both the same durations are written, after the pitch. -/
example : bareL false (RhythmEdit.explicit.run 0 9 tune1) = bareL false (RhythmEdit.explicit.run 0 9 tune2) ∧
    durCount tune1 = 2 ∧ durCount (RhythmEdit.explicit.run 0 9 tune2) = 7 :=
  ⟨C111_edit _ _ _ _ _ tunes.1 tunes.2.1 tunes.2.2, by decide +kernel⟩

/-- The durations that are copied from both. -/
example : (copyExplicit 0 9 tune2).1 = [(1/4, 1), (1/4, 1), (1/8, 1), (1/8, 1), (1/8, 1), (1/8, 1), (1/8, 1)] := by
  rw [← (C111_results {} 0 9 tune1 tune2 tunes.1 tunes.2.1 tunes.2.2).2.1]
  decide +kernel

/-! ## Transposed documents -/

open Quickly.TransposeDoc.Spec (Same SameL LabSame)

theorem bareL_parts (xs ys : List Nd) (h : ∀ y ∈ xs, y.val.1 ∈ parts ∧ y.children = []) : bareL true (xs ++ ys) = bareL true ys := by
  induction xs with
  | nil => rfl
  | cons x xs ih =>
    have hx := h x (List.mem_cons_self ..)
    have : ofPitch true x = true := by simp [ofPitch, hx.1, hx.2]
    rw [List.cons_append, bareL, this]
    exact ih fun y hy => h y (List.mem_cons_of_mem _ hy)

theorem pitched_parts : ∀ x ∈ pitched, x ∉ parts := by decide

theorem ofPitch_note (p : Bool) (c : Nd) (h : c.val.1 ∈ pitched) : ofPitch p c = false := by
  simp [ofPitch, pitched_parts _ h]

theorem plain_append {xs ys : List Nd} : PlainL (xs ++ ys) ↔ PlainL xs ∧ PlainL ys := by
  induction xs with
  | nil => simp [PlainL]
  | cons x xs ih => simp [PlainL, ih, and_assoc]

theorem plain_leaves (xs : List Nd) (h : ∀ y ∈ xs, y.children = []) : PlainL xs := by
  induction xs with
  | nil => trivial
  | cons x xs ih =>
    refine ⟨?_, ih fun y hy => h y (List.mem_cons_of_mem _ hy)⟩
    obtain ⟨l, cs⟩ := x
    have hc : cs = [] := h _ (List.mem_cons_self ..)
    subst hc
    simp [Plain, PlainL]

mutual
theorem same_bare (w : View) (sel : Rel2abs.Id → Bool) : ∀ k g : Doc, Same sel k g → Notes w k →
    bare (nd w k) = bare (nd w g) ∧ (Plain (nd w k) → Plain (nd w g)) ∧ (nd w k).val.1 = (nd w g).val.1 ∧ ∀ p, ofPitch p (nd w k) = ofPitch p (nd w g)
  | .node i l ks, .node j m gs, h, hn => by
    rw [Same] at h
    obtain ⟨rfl, hl, hs⟩ := h
    rw [Notes] at hn
    obtain ⟨h1, h2, h3, h4⟩ := sameL_bare w sel ks gs hs hn.2
    rcases hl with rfl | ⟨-, b, n, chk, n', chk', rfl, rfl, -⟩
    · cases l with
      | note b n chk =>
        obtain ⟨hp, hq⟩ := hn.1 b n chk rfl
        refine ⟨?_, ?_, rfl, fun p => (ofPitch_note p (nd w (.node i (.note b n chk) ks)) hp).trans
          (ofPitch_note p (nd w (.node i (.note b n chk) gs)) hp).symm⟩
        · simp only [nd, bare, hp, decide_true, if_true, bareL_parts _ _ (hq n chk), h1]
        · simp only [nd, Plain]
          rintro ⟨k1, k2⟩
          refine ⟨fun hp c hc => ?_, ?_⟩
          · rcases List.mem_append.1 hc with hc | hc
            · exact parts_timed _ (hq n chk c hc).1
            · exact h3 (fun x hx => k1 hp x (List.mem_append_right _ hx)) c hc
          · exact plain_append.2 ⟨(plain_append.1 k2).1, h2 (plain_append.1 k2).2⟩
      | _ =>
        refine ⟨?_, ?_, rfl, fun p => ?_⟩
        · simp only [nd, bare, h1]
        · simp only [nd, Plain]
          exact fun ⟨k1, k2⟩ => ⟨fun hp => h3 (k1 hp), h2 k2⟩
        · show (p && decide ((w.lab i).1 ∈ parts) && (nds w ks).isEmpty) = (p && decide ((w.lab i).1 ∈ parts) && (nds w gs).isEmpty)
          rw [h4]
    · obtain ⟨hp, hq⟩ := hn.1 b n chk rfl
      refine ⟨?_, ?_, rfl, fun p => (ofPitch_note p (nd w (.node i (.note b n chk) ks)) hp).trans
        (ofPitch_note p (nd w (.node i (.note b n' chk') gs)) hp).symm⟩
      · simp only [nd, bare, hp, decide_true, if_true, bareL_parts _ _ (hq _ _), h1]
      · simp only [nd, Plain]
        rintro ⟨k1, k2⟩
        refine ⟨fun hp c hc => ?_, ?_⟩
        · rcases List.mem_append.1 hc with hc | hc
          · exact parts_timed _ (hq n' chk' c hc).1
          · exact h3 (fun x hx => k1 hp x (List.mem_append_right _ hx)) c hc
        · exact plain_append.2 ⟨plain_leaves _ fun y hy => (hq n' chk' y hy).2, h2 (plain_append.1 k2).2⟩
theorem sameL_bare (w : View) (sel : Rel2abs.Id → Bool) : ∀ ks gs : List Doc, SameL sel ks gs → NotesL w ks →
    (∀ {p}, bareL p (nds w ks) = bareL p (nds w gs)) ∧ (PlainL (nds w ks) → PlainL (nds w gs)) ∧
      ((∀ c ∈ nds w ks, c.val.1 ∉ timed) → ∀ c ∈ nds w gs, c.val.1 ∉ timed) ∧ (nds w ks).isEmpty = (nds w gs).isEmpty
  | [], [], _, _ => ⟨rfl, id, id, rfl⟩
  | k :: ks, g :: gs, h, hn => by
    rw [SameL] at h
    rw [NotesL] at hn
    obtain ⟨h1, h2, h3, h4⟩ := same_bare w sel k g h.1 hn.1
    obtain ⟨k1, k2, k3, -⟩ := sameL_bare w sel ks gs h.2 hn.2
    refine ⟨fun {p} => ?_, ?_, ?_, rfl⟩
    · simp only [nds, bareL, h4 p, h1, k1]
    · simp only [nds, PlainL]
      exact fun ⟨a, b⟩ => ⟨h2 a, k2 b⟩
    · intro hc c hm
      rw [nds, List.mem_cons] at hm
      rcases hm with rfl | hm
      · rw [← h3]; exact hc _ (by rw [nds]; exact List.mem_cons_self ..)
      · exact k3 (fun x hx => hc x (by rw [nds]; exact List.mem_cons_of_mem _ hx)) c hm
  | [], _ :: _, h, _ => by rw [SameL] at h; exact h.elim; all_goals simp
  | _ :: _, [], h, _ => by rw [SameL] at h; exact h.elim; all_goals simp
end

/-- **C111**: the durations can be edited before or after the music is transposed: the transposed music gets the same durations, and keeps its
pitches. -/
theorem C111_transposed (c : Relative.Ctx) (sel : Rel2abs.Id → Bool) (L : Pitch.Str) (i : Rel2abs.Id) (l : Lab) (ks : List Doc) (t' : Doc)
    (h : TransposeDoc.editRange c sel L (.node i l ks) = .ok t') (w : View) (hn : NotesL w ks) (hp : PlainL (nds w ks)) (e : RhythmEdit) (a b : ℕ) :
    bareL false (e.run a b (nds w t'.kids)) = bareL false (e.run a b (nds w ks)) ∧
      stripL (e.run a b (nds w t'.kids)) = stripL (nds w t'.kids) := by
  have hs := TransposeDoc.C90_only_pitches c sel L _ t' h
  cases t' with
  | node j m gs =>
    rw [Same] at hs
    obtain ⟨h1, h2, -, -⟩ := sameL_bare w sel ks gs hs.2.2 hn
    exact ⟨(C111_edit e a b _ _ hp (h2 hp) h1).symm, C99_only_durations e a b _⟩

/-- `\relative c' { c2 d \octaveCheck d' } { e'4 }`, transposed one octave up, gets the same durations. -/
example (t' : Doc) (h : TransposeDoc.editRange ⟨exPP, fun p => ⟨p.octave + 1, p.note, p.alter⟩, 1, true⟩ (fun _ => true) [] (.node 0 .other exKids) = .ok t') :
    bareL false (RhythmEdit.explicit.run 0 9 (nds exView t'.kids)) = bareL false (RhythmEdit.explicit.run 0 9 (nds exView exKids)) ∧
      durCount (nds exView exKids) = 2 ∧ durCount (RhythmEdit.explicit.run 0 9 (nds exView exKids)) = 3 := by
  refine ⟨(C111_transposed _ _ _ 0 .other exKids t' h exView ?_ ?_ .explicit 0 9).1, by decide +kernel⟩
  · have hq : ∀ i n chk, ∀ y ∈ exView.parts i n chk, y.val.1 ∈ parts ∧ y.children = [] := by
      intro i n chk y hy
      simp only [exView] at hy
      split at hy
      · simp at hy
      · simp only [List.mem_singleton] at hy
        subst hy
        exact ⟨List.mem_cons_self .., rfl⟩
    have hm : ∀ i ∈ [2, 4, 6, 8, 10], (exView.lab i).1 ∈ pitched := by decide +kernel
    simp only [exKids, tn, NotesL, Notes, and_true]
    refine ⟨⟨?_, ?_, ?_, ⟨?_, ?_⟩, ?_, ?_, ?_⟩, ?_, ?_, ?_⟩
    all_goals first
      | (intro b n chk h; cases h; done)
      | (intro b n chk h; cases h; exact ⟨hm _ (by decide), hq _⟩)
  · simp [exKids, tn, nds, nd, exView, Plain, PlainL, pitched, timed, sounding, Node.Tree.val, Length.Spec.events]

end Quickly.RhythmPitch
