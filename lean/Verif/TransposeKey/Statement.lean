import Verif.TransposeKey.Model
import Verif.TransposeKey.Props

/-! # Property C98: the key signature of a `\key` statement -/

namespace Quickly.TransposeKey

open Quickly.Pitch Quickly.Key Quickly.Transpose Quickly.TransposeKey.Spec
open Quickly.Transpose.Spec (Yields Valid)

/-- The children that say something about the key. -/
def Arg.telling : Arg → Bool
  | .other => false
  | _ => true

theorem keyLoop_filter (pp : Processor) (args : List Arg) (p : Option Pitch) (m : Option Mode) :
    keyLoop pp p m args = keyLoop pp p m (args.filter Arg.telling) := by
  induction args generalizing p m with
  | nil => rfl
  | cons a args ih =>
    cases a with
    | pitch nd =>
      simp only [List.filter_cons, Arg.telling, if_true, keyLoop]
      split
      · rfl
      · exact ih _ _
    | mode s => simp only [List.filter_cons, Arg.telling, if_true, keyLoop]; exact ih _ _
    | ref v => cases v <;> simp only [List.filter_cons, Arg.telling, if_true, keyLoop]; exact ih _ _
    | scheme ls => simp only [List.filter_cons, Arg.telling, if_true, keyLoop]; exact ih _ _
    | other => simp only [List.filter_cons, Arg.telling, Bool.false_eq_true, if_false, keyLoop]; exact ih _ _

/-- C98: for a statement with a pitch and the name of a mode, with comments or without, the signature is that of the pitch as
it is read in the language of the processor, in the mode.  Missing: a mode that is a variable (`C98_variable`), or given as pairs (`C98_pairs`). -/
theorem C98_pitch_mode_partial (pp : Processor) (args : List Arg) (nd : PNode) (m : String) (hm : m ≠ "")
    (ha : args.filter Arg.telling = [.pitch nd, .mode m]) :
    keySignature pp args = (pp.readNode nd).bind fun p => (KeySignature.make p.note.toNat p.alter (.name m) majorScale).map some := by
  unfold keySignature
  rw [keyLoop_filter, ha]
  simp only [keyLoop]
  cases pp.readNode nd with
  | error e => rfl
  | ok p =>
    have e : (m != "") = true := by simp [hm]
    simp only [truthy, e, if_true, Except.bind]
    cases KeySignature.make p.note.toNat p.alter (.name m) majorScale <;> rfl

/-- C98: for a Scheme list of numbers the signature is that of the pitch with these alterations.  Missing: as for
`C98_pitch_mode_partial`. -/
theorem C98_pitch_list_partial (pp : Processor) (args : List Arg) (nd : PNode) (l : List ℚ) (hl : l ≠ [])
    (ha : args.filter Arg.telling = [.pitch nd, .scheme [l]]) :
    keySignature pp args = (pp.readNode nd).bind fun p => (KeySignature.make p.note.toNat p.alter (.list l) majorScale).map some := by
  unfold keySignature
  rw [keyLoop_filter, ha]
  simp only [keyLoop]
  cases pp.readNode nd with
  | error e => rfl
  | ok p =>
    have e : (!l.isEmpty) = true := by simp [hl]
    simp only [List.getLast?_singleton, truthy, e, if_true, Except.bind]
    rfl

/-- C98 fails for a variable: whatever its value is, there is no signature. -/
theorem C98_variable (pp : Processor) (nd : PNode) (p : Pitch) (hp : pp.readNode nd = .ok p) (value : List Arg) :
    keySignature pp [.pitch nd, .ref (some value)] = .ok none := by
  simp only [keySignature, keyLoop, hp]

/-- C98 fails for a variable that is not defined: that raises TypeError. -/
theorem C98_undefined (pp : Processor) (nd : PNode) (p : Pitch) (hp : pp.readNode nd = .ok p) :
    keySignature pp [.pitch nd, .ref none] = .error .typeError := by
  simp only [keySignature, keyLoop, hp]

/-- C98 fails for the pairs of notes and alterations that LilyPond has for a mode, such as `#'((0 . 0) (1 . 0) …)`: the last pair is taken for the whole mode,
and the signature has two accidentals instead of seven. -/
theorem C98_pairs (pp : Processor) (nd : PNode) (p : Pitch) (hp : pp.readNode nd = .ok p) (ls : List (List ℚ)) (a b : ℚ) (s : KeySignature)
    (h : keySignature pp [.pitch nd, .scheme (ls ++ [[a, b]])] = .ok (some s)) : s.accidentals.length = 2 := by
  simp only [keySignature, keyLoop, hp, List.getLast?_append, List.getLast?_singleton, Option.some_or, truthy, List.isEmpty_cons,
    Bool.not_false, if_true, KeySignature.make] at h
  cases h
  have : ∀ (l : List ℚ) (n : ℤ), (sliceFrom l n ++ sliceTo l n).length = l.length := by
    intro l n
    unfold sliceFrom sliceTo
    split <;> simp <;> omega
  simp only [accidentals, this]
  simp [alterations, majorScale]

/-- C98: a key statement and a note that are transposed: the signature of the new statement is that of the old one transposed, so what is
in the one key is in the other. -/
theorem C98_transposed (pp : Processor) (t : Transposer) (ht : t.scale = some majorScale) (nd nd' : PNode) (m : String) (hm : m ≠ "")
    (T p p' : Pitch) (T' : Pitch) (hT : pp.readNode nd = .ok T) (hT' : pp.readNode nd' = .ok T') (U : Pitch) (hU : Yields t T U)
    (hn : SameName T' U) (hs : SameSteps t T U) (hp : Yields t p p') (vT : Valid T) (vp : Valid p)
    (s : KeySignature) (h : keySignature pp [.pitch nd, .mode m] = .ok (some s)) :
    ∃ s', keySignature pp [.pitch nd', .mode m] = .ok (some s') ∧ (Writable s' → InKey s p → InKey s' p') := by
  rw [C98_pitch_mode_partial pp _ nd m hm rfl, hT] at h
  rw [C98_pitch_mode_partial pp _ nd' m hm rfl, hT']
  simp only [Except.bind] at h ⊢
  cases hk : KeySignature.make T.note.toNat T.alter (.name m) majorScale with
  | error e => rw [hk] at h; cases h
  | ok s0 =>
    rw [hk] at h
    cases h
    obtain ⟨s', h'⟩ : ∃ s', KeySignature.make T'.note.toNat T'.alter (.name m) majorScale = .ok s' := by
      simp only [KeySignature.make] at hk ⊢
      split at hk
      · cases hk
      · exact ⟨_, rfl⟩
    refine ⟨s', by rw [h']; rfl, fun hw hi => ?_⟩
    rw [hn.1, hn.2] at h'
    exact C97_in_key t majorScale ht rfl (.name m) trivial T U p p' vT vp hU hp hs s s' hk h' hw hi

/-- `\key d %{%} \major` has two sharps. -/
example : ∃ s, keySignature (Relative.exPP []) [.pitch ⟨['d'], 0⟩, .other, .mode "major"] = .ok (some s) ∧
    s.accidentals = [1/2, 0, 0, 1/2, 0, 0, 0] := by
  rw [C98_pitch_mode_partial _ _ ⟨['d'], 0⟩ "major" (by decide) rfl, show (Relative.exPP []).readNode ⟨['d'], 0⟩ = .ok ⟨-1, 1, 0⟩ by decide +kernel]
  exact ⟨_, rfl, by decide +kernel⟩

end Quickly.TransposeKey
