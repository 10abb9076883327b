import Verif.TransposeKey.Lemmas
import Verif.TransposeDoc.Props

/-! # Property C97: transposing keeps notes in their key -/

namespace Quickly.TransposeKey

open Quickly.Pitch Quickly.Key Quickly.Transpose Quickly.Relative Quickly.Relative.Spec Quickly.TransposeKey.Spec
open Quickly.Transpose.Spec (Yields staff moves height interval Valid)
open Quickly.Pitch.Spec (IsDict)
open Quickly.TransposeDoc Quickly.TransposeDoc.Spec
open Quickly.Rel2abs (Doc Lab Id tn)

/-- C97: if the tonic of a key and a note are transposed, and neither gets another note name than the interval asks for, the note differs
as much from the new key signature as it did from the old one.  So it is printed with the same accidental relative to the key, or without. -/
theorem C97_same_accidental (t : Transposer) (scale : List ℚ) (ht : t.scale = some scale) (hs : scale.length = 7) (mode : Key.Mode) (hm : Full mode)
    (T T' p p' : Pitch) (vT : Valid T) (vp : Valid p) (hT : Yields t T T') (hp : Yields t p p') (sT : SameSteps t T T') (sp : SameSteps t p p')
    (s s' : KeySignature) (h : KeySignature.make T.note.toNat T.alter mode scale = .ok s)
    (h' : KeySignature.make T'.note.toNat T'.alter mode scale = .ok s') (x : ℚ) : Differs s p x ↔ Differs s' p' x := by
  obtain ⟨vT', eT⟩ := yields_spec t scale ht T T' hT
  obtain ⟨vp', ep⟩ := yields_spec t scale ht p p' hp
  unfold SameSteps at sT sp
  exact differs_iff scale hs mode hm T T' p p' vT vT' vp vp' s s' h h' (by omega) (by linarith) x

/-- C97: a note that is in the key is in the new key after transposing, if the tonic does not get another note name and the new signature has no
more than double sharps and flats. -/
theorem C97_in_key (t : Transposer) (scale : List ℚ) (ht : t.scale = some scale) (hs : scale.length = 7) (mode : Key.Mode) (hm : Full mode)
    (T T' p p' : Pitch) (vT : Valid T) (vp : Valid p) (hT : Yields t T T') (hp : Yields t p p') (sT : SameSteps t T T')
    (s s' : KeySignature) (h : KeySignature.make T.note.toNat T.alter mode scale = .ok s)
    (h' : KeySignature.make T'.note.toNat T'.alter mode scale = .ok s') (hw : Writable s') (hk : InKey s p) : InKey s' p' := by
  obtain ⟨vT', eT⟩ := yields_spec t scale ht T T' hT
  have vr := plain_valid scale t p
  have er := plain_height scale t p
  have sr := plain_staff scale t p
  unfold SameSteps at sT
  have k := (differs_iff scale hs mode hm T T' p (plain scale t p) vT vT' vp vr s s' h h' (by omega) (by linarith) 0).1 hk
  obtain ⟨a, ha, hx⟩ := k
  have b := hw a (List.mem_of_getElem? ha)
  have e := C22_respell_only_when_needed t scale ht p p' hp _ vr sr er (by linarith [b.1]) (by linarith [b.2])
  rw [e]
  exact ⟨a, ha, hx⟩

/-- C97 fails without the condition on the signature: from c to cis, `\key gis \major` becomes `\key gisis \major`, which has a triple sharp f;
the fisis of the one, which is in the key, becomes gis, which is not in the other. -/
theorem C97_respelled_leaves_key : ∃ (t : Transposer) (T T' p p' : Pitch) (s s' : KeySignature), Yields t T T' ∧ Yields t p p' ∧ SameSteps t T T' ∧
    KeySignature.make T.note.toNat T.alter (.name "major") majorScale = .ok s ∧
    KeySignature.make T'.note.toNat T'.alter (.name "major") majorScale = .ok s' ∧ InKey s p ∧ ¬ InKey s' p' ∧ p = ⟨0, 3, 1⟩ ∧ p' = ⟨0, 4, 1/2⟩ := by
  refine ⟨Transposer.make ⟨-1, 0, 0⟩ ⟨-1, 0, 1/2⟩ majorScale, ⟨0, 4, 1/2⟩, ⟨0, 4, 1⟩, ⟨0, 3, 1⟩, ⟨0, 4, 1/2⟩, _, _, ⟨5, by decide +kernel⟩,
    ⟨5, by decide +kernel⟩, ?_, rfl, rfl, ⟨1, by decide +kernel, by norm_num⟩, ?_, rfl, rfl⟩
  · unfold SameSteps
    decide +kernel
  · rintro ⟨a, ha, hx⟩
    have e : (accidentals ((4 : ℕ) : ℤ) 1 (some (alterations 0 majorScale)) majorScale)[4]? = some (1 : ℚ) := by decide +kernel
    have e2 : some a = some (1 : ℚ) := ha.symm.trans e
    cases e2
    norm_num at hx

/-- C97: in a transposed document every note, octave check, key, start pitch and argument is still there, in the same language, and is the transposed one
apart from the octave, or, if it is not selected, what it was. -/
theorem C97_names (pp : Langs) (hd : ∀ l, IsDict (pp l).table) (t : Transposer) (tr : Pitch → Pitch) (ht : Runs t tr) (firstAbs : Bool)
    (sel : Id → Bool) (L : Str) (d d' : Doc) (hc : Clear false d) (he : editRange ⟨pp, tr, t.octave, firstAbs⟩ sel L d = .ok d') :
    List.Forall₂ (Became pp tr) (partsL (mus sel L d)) (partsL (mus sel L d')) := by
  have h := C24_document _ sel L d d' hc he
  unfold transposeDoc at h
  split at h
  · cases h
  · rename_i e
    cases h
    exact became_list ⟨pp, tr, t.octave, firstAbs⟩ ⟨hd, runs_down t tr ht⟩ _ _ _ _ e

/-- C97 for documents: take the pitch of a `\key` in a document and a note, both selected.  After transposing the
document, the note is in the key that is written there now if it was in the key before.  If it does not get another note name it differs as much
from the key as before. -/
theorem C97_document (pp : Langs) (hd : ∀ l, IsDict (pp l).table) (t : Transposer) (scale : List ℚ) (hsc : t.scale = some scale) (hs : scale.length = 7)
    (tr : Pitch → Pitch) (ht : Runs t tr) (firstAbs : Bool) (sel : Id → Bool) (L : Str) (d d' : Doc) (hc : Clear false d)
    (he : editRange ⟨pp, tr, t.octave, firstAbs⟩ sel L d = .ok d') (mode : Key.Mode) (hm : Full mode)
    (i j : ℕ) (k n : Note) (kind : Kind) (hi : (partsL (mus sel L d))[i]? = some (.key, k)) (hj : (partsL (mus sel L d))[j]? = some (kind, n))
    (wk : k.writable = true) (wn : n.writable = true)
    (T p : Pitch) (hT : (pp k.lang).readNode k.node = .ok T) (hp : (pp n.lang).readNode n.node = .ok p) (vT : Valid T) (vp : Valid p)
    (s : KeySignature) (h : KeySignature.make T.note.toNat T.alter mode scale = .ok s) (sT : SameSteps t T (tr T)) :
    ∃ k' n' T' p' s', (partsL (mus sel L d'))[i]? = some (.key, k') ∧ (partsL (mus sel L d'))[j]? = some (kind, n') ∧
      (pp k'.lang).readNode k'.node = .ok T' ∧ (pp n'.lang).readNode n'.node = .ok p' ∧
      KeySignature.make T'.note.toNat T'.alter mode scale = .ok s' ∧ (Writable s' → InKey s p → InKey s' p') ∧
      (SameSteps t p (tr p) → ∀ x, Differs s p x ↔ Differs s' p' x) := by
  have hn := C97_names pp hd t tr ht firstAbs sel L d d' hc he
  have get : ∀ (i : ℕ) x, (partsL (mus sel L d))[i]? = some x → ∃ y, (partsL (mus sel L d'))[i]? = some y ∧ Became pp tr x y := by
    intro i x hx
    obtain ⟨hl, rfl⟩ := List.getElem?_eq_some_iff.1 hx
    have hl' : i < (partsL (mus sel L d')).length := by rw [← hn.length_eq]; exact hl
    exact ⟨_, List.getElem?_eq_getElem hl', hn.get hl hl'⟩
  obtain ⟨⟨a, k'⟩, hk', b1, b2, b3, b4, -⟩ := get i _ hi
  obtain ⟨⟨a2, n'⟩, hn', c1, c2, c3, c4, -⟩ := get j _ hj
  simp only at b1 b2 b3 b4 c1 c2 c3 c4
  subst b1 c1
  obtain ⟨T0, T', r1, r2, r3⟩ := b4 wk
  obtain ⟨p0, p', q1, q2, q3⟩ := c4 wn
  rw [hT] at r1; cases r1
  rw [hp] at q1; cases q1
  obtain ⟨s', h'⟩ : ∃ s', KeySignature.make T'.note.toNat T'.alter mode scale = .ok s' := by
    cases mode with
    | list l => exact ⟨_, rfl⟩
    | name nm =>
      simp only [KeySignature.make] at h ⊢
      split at h
      · cases h
      · exact ⟨_, rfl⟩
  have back : ∀ x, Differs s' (tr p) x ↔ Differs s' p' x := fun x => by
    unfold Differs
    rw [q3.1, q3.2]
  refine ⟨k', n', T', p', s', hk', hn', r2, q2, h', fun hw hk => ?_, fun sp x => ?_⟩
  · rw [r3.1, r3.2] at h'
    exact (back 0).1 (C97_in_key t scale hsc hs mode hm T (tr T) p (tr p) vT vp (ht T) (ht p) sT s s' h h' hw hk)
  · rw [r3.1, r3.2] at h'
    rw [← back]
    exact C97_same_accidental t scale hsc hs mode hm T (tr T) p (tr p) vT vp (ht T) (ht p) sT sp s s' h h' x

/-- `{ \key c \major \relative c' { e } }`. -/
def exKey : Doc := .node 0 .other [.node 1 (.skip .key) [tn 2 'c' 0], .node 3 .relative [tn 4 'c' 1, .node 5 .other [tn 6 'e' 0]]]

theorem exKey_clear : Clear false exKey := by
  simp only [exKey, Clear, ClearL, FlatL, Flat, DullL, tn, and_true, true_and, Front]
  intro s b rest h
  simp only [real, Doc.lab, List.filter_cons] at h
  simp at h
  exact .inl (by rw [← h.1]; simp [Plain, DullL])

/-- The hypotheses hold for the example, from c to d: the e, the third of c major, becomes a fis in d major. -/
example : ∃ tr d' k' n' T' p' s', Runs exT tr ∧ editRange ⟨exPP, tr, exT.octave, true⟩ (fun _ => true) [] exKey = .ok d' ∧
    (partsL (mus (fun _ => true) [] d'))[0]? = some (.key, k') ∧ (partsL (mus (fun _ => true) [] d'))[2]? = some (.note, n') ∧
    (exPP k'.lang).readNode k'.node = .ok T' ∧ (exPP n'.lang).readNode n'.node = .ok p' ∧
    KeySignature.make T'.note.toNat T'.alter (.name "major") majorScale = .ok s' ∧ (Writable s' → InKey s' p') := by
  obtain ⟨tr, ht⟩ := runs_exists exT majorScale rfl
  have at' : ∀ p q, exT.transpose 3 p = some (.ok q) → tr p = q :=
    fun p q h => C22_deterministic exT _ _ _ (ht p) ⟨3, h⟩
  have c1 := at' ⟨0, 0, 0⟩ ⟨0, 1, 0⟩ (by decide +kernel)
  have c0 := at' ⟨-1, 0, 0⟩ ⟨-1, 1, 0⟩ (by decide +kernel)
  have e0 := at' ⟨-1, 2, 0⟩ ⟨-1, 3, 1/2⟩ (by decide +kernel)
  obtain ⟨d', hd'⟩ := C90_succeeds exPP exDict exOne exT tr ht true (fun _ => true) [] exKey (by
    simp only [exKey, AllNotes, AllNotesL, tn, after, afterL, and_true, true_and, real, Doc.lab]
    refine ⟨?_, ?_, ?_, ?_⟩
    · exact ⟨⟨-1, 0, 0⟩, by decide +kernel, ['d'], -1, by rw [c0]; unfold Pitch.Spec.Means; decide +kernel⟩
    · intro i p nd chk gs h
      simp at h
      rw [h.2.2]
      trivial
    · exact ⟨⟨0, 0, 0⟩, by decide +kernel, ['d'], -1, by rw [c1]; unfold Pitch.Spec.Means; decide +kernel⟩
    · exact ⟨⟨-1, 2, 0⟩, by decide +kernel, ['f', 'i', 's'], -1, by rw [e0]; unfold Pitch.Spec.Means; decide +kernel⟩)
  obtain ⟨k', n', T', p', s', h1, h2, h3, h4, h5, h6, -⟩ := C97_document exPP exDict exT majorScale rfl rfl tr ht true (fun _ => true) [] exKey d'
    exKey_clear hd' (.name "major") trivial 0 2 (nt 'c' 0) (nt 'e' 0) .note rfl rfl rfl rfl ⟨-1, 0, 0⟩ ⟨-1, 2, 0⟩ (by decide +kernel) (by decide +kernel)
    (by unfold Valid; decide) (by unfold Valid; decide) _ rfl (by rw [c0]; unfold SameSteps; decide +kernel)
  exact ⟨tr, d', k', n', T', p', s', ht, hd', h1, h2, h3, h4, h5, fun hw => h6 hw ⟨0, by decide +kernel, by norm_num⟩⟩

end Quickly.TransposeKey
