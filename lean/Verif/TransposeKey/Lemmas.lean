import Verif.TransposeKey.Spec
import Verif.Relative.Lemmas
import Verif.Key.Props
import Verif.Transpose.Props

/-! # Lemmas for notes in a key -/

namespace Quickly.TransposeKey

open Quickly.Pitch Quickly.Key Quickly.Transpose Quickly.Relative Quickly.Relative.Spec Quickly.TransposeKey.Spec
open Quickly.Transpose.Spec (Yields staff moves height interval Valid)
open Quickly.Pitch.Spec (IsDict)

theorem yields_spec (t : Transposer) (scale : List ℚ) (ht : t.scale = some scale) (p q : Pitch) (h : Yields t p q) :
    Valid q ∧ height scale q = height scale p + interval t := by
  obtain ⟨n, hn⟩ := h
  simp only [Transposer.transpose, ht] at hn
  split at hn
  · exact absurd hn (by simp)
  · rename_i r hr
    simp only [Option.some.injEq, Except.ok.injEq] at hn
    subst hn
    obtain ⟨v, hh⟩ := respell_spec scale n _ _ (plain_valid _ _ _) hr
    exact ⟨v, by rw [hh, plain_height]⟩

/-- The accidental of any note of the signature. -/
theorem acc_at (n pn : ℕ) (hn : n < 7) (hp : pn < 7) (alter : ℚ) (mode scale : List ℚ) (hm : mode.length = 7) (hs : scale.length = 7) :
    ∃ (d : ℕ) (c : ℤ) (a m : ℚ), d < 7 ∧ (accidentals n alter (some mode) scale)[pn]? = some a ∧ mode[d]? = some m ∧
      7 * c = (n : ℤ) + d - pn ∧ sc scale pn + 6 * (c : ℚ) + a = sc scale n + alter + (sc scale d + m - sc scale 0) := by
  have hd : (pn + 7 - n) % 7 < scale.length := by omega
  obtain ⟨a, m, h1, h2, h3⟩ := C19_accidentals n alter mode scale (by rw [hm, hs]) (by omega) _ hd
  have e : (n + (pn + 7 - n) % 7) % scale.length = pn := by rw [hs]; omega
  refine ⟨(pn + 7 - n) % 7, ((n + (pn + 7 - n) % 7) / 7 : ℕ), a, m, by omega, by rw [← h1, e], h2, by push_cast; omega, ?_⟩
  rw [← h3, Key.Spec.degree, e, hs, Int.cast_natCast]

/-- What `make` gives for a mode with seven values. -/
theorem make_full (note : ℕ) (alter : ℚ) (mode : Key.Mode) (hm : Full mode) (scale : List ℚ) (s : KeySignature)
    (h : KeySignature.make note alter mode scale = .ok s) :
    ∃ l : List ℚ, l.length = 7 ∧ s.accidentals = accidentals note alter (some l) scale ∧
      ∀ note' alter' s', KeySignature.make note' alter' mode scale = .ok s' → s'.accidentals = accidentals note' alter' (some l) scale := by
  cases mode with
  | list l =>
    refine ⟨l, hm, ?_, ?_⟩
    · simp only [KeySignature.make] at h
      cases h
      rfl
    · intro n' a' s' h'
      simp only [KeySignature.make] at h'
      cases h'
      rfl
  | name nm =>
    simp only [KeySignature.make] at h
    split at h
    · cases h
    · rename_i off ho
      cases h
      refine ⟨alterations off majorScale, by simp [alterations, majorScale], rfl, ?_⟩
      intro n' a' s' h'
      simp only [KeySignature.make, ho] at h'
      cases h'
      rfl

theorem toNat_cast {x : ℤ} (h : 0 ≤ x) : ((x.toNat : ℕ) : ℤ) = x := Int.toNat_of_nonneg h

/-- How much a pitch differs from the key depends on where it is above the tonic only. -/
theorem differs_iff (scale : List ℚ) (hs : scale.length = 7) (mode : Key.Mode) (hm : Full mode) (T T' p p' : Pitch)
    (vT : Valid T) (vT' : Valid T') (vp : Valid p) (vp' : Valid p') (s s' : KeySignature)
    (h : KeySignature.make T.note.toNat T.alter mode scale = .ok s) (h' : KeySignature.make T'.note.toNat T'.alter mode scale = .ok s')
    (hst : staff p' - staff T' = staff p - staff T) (hh : height scale p' - height scale T' = height scale p - height scale T) (x : ℚ) :
    Differs s p x ↔ Differs s' p' x := by
  obtain ⟨l, hl, e, e'⟩ := make_full _ _ mode hm scale s h
  replace e' := e' _ _ _ h'
  unfold Valid at vT vT' vp vp'
  obtain ⟨d, c, a, m, h1, h2, h3, h4, h5⟩ := acc_at T.note.toNat p.note.toNat (by omega) (by omega) T.alter l scale hl hs
  obtain ⟨d', c', a', m', h1', h2', h3', h4', h5'⟩ := acc_at T'.note.toNat p'.note.toNat (by omega) (by omega) T'.alter l scale hl hs
  rw [toNat_cast vT.1, toNat_cast vp.1] at h4
  rw [toNat_cast vT'.1, toNat_cast vp'.1] at h4'
  unfold staff at hst
  have ed : d' = d := by omega
  subst ed
  rw [h3] at h3'
  cases h3'
  have ec : c' - p'.octave + T'.octave = c - p.octave + T.octave := by omega
  have ec' : (c' : ℚ) - p'.octave + T'.octave = c - p.octave + T.octave := by exact_mod_cast ec
  simp only [height, at'] at hh
  have key : p'.alter - a' = p.alter - a := by linarith
  constructor
  · rintro ⟨b, hb, hx⟩
    rw [e, h2] at hb
    cases hb
    exact ⟨a', by rw [e', h2'], by linarith⟩
  · rintro ⟨b, hb, hx⟩
    rw [e', h2'] at hb
    cases hb
    exact ⟨a, by rw [e, h2], by linarith⟩

/-! ## Documents -/

/-- What is needed of the surroundings. -/
structure Fine (c : Ctx) : Prop where
  dict : ∀ l, IsDict (c.pp l).table
  octaves : ∀ k p, c.tr (down k p) = down k (c.tr p)

theorem name_octave (c : Ctx) (g : Fine c) (p : Pitch) (o : ℤ) : SameName (c.tr { p with octave := o }) (c.tr p) := by
  have e : ({ p with octave := o } : Pitch) = down (p.octave - o) p := by simp [down]
  rw [e, g.octaves]
  exact ⟨rfl, rfl⟩

theorem became_process (c : Ctx) (g : Fine c) (k : Kind) (n : Note) (nd : PNode) (f : Pitch → Pitch) (hf : ∀ p, SameName (f p) (c.tr p))
    (h : (c.pp n.lang).process n.node n.writable f = .ok nd) : Became c.pp c.tr (k, n) (k, { n with node := nd }) := by
  refine ⟨rfl, rfl, rfl, fun hw => ?_, fun hw => ?_⟩
  · simp only at hw
    rw [hw] at h
    obtain ⟨p, h1, h2⟩ := (C16_process _ (g.dict _) n.node nd f).1 h
    exact ⟨p, f p, h1, h2, hf p⟩
  · simp only at hw
    rw [hw] at h
    rw [(C16_process _ (g.dict _) n.node nd f).2 h]

theorem became_abs (c : Ctx) (g : Fine c) (k : Kind) (o : ℤ) (n n' : Note) (h : transposeAbs c o n = .ok n') :
    Became c.pp c.tr (k, n) (k, n') := by
  unfold transposeAbs at h
  split at h
  · rename_i nd e
    cases h
    refine became_process c g k n nd _ ?_ e
    exact fun p => ⟨rfl, rfl⟩
  · cases h

theorem became_key (c : Ctx) (g : Fine c) (k : Kind) (n n' : Note) (h : transposeKey c n = .ok n') :
    Became c.pp c.tr (k, n) (k, n') := by
  unfold transposeKey at h
  split at h
  · rename_i nd e
    cases h
    refine became_process c g k n nd _ ?_ e
    exact fun p => ⟨rfl, rfl⟩
  · cases h

theorem became_note (c : Ctx) (g : Fine c) (k : Kind) (n n' : Note) (l l' : Last) (h : transposeNote c n l = .ok (l', n')) :
    Became c.pp c.tr (k, n) (k, n') := by
  unfold transposeNote at h
  split at h
  · cases h
  · rename_i p hp
    simp only at h
    cases hw : n.writable with
    | false =>
      simp only [hw, Bool.not_false, if_true] at h
      cases h
      exact ⟨rfl, rfl, rfl, fun e => by simp only [hw, Bool.false_eq_true] at e, fun _ => rfl⟩
    | true =>
      simp only [hw, Bool.not_true, Bool.false_eq_true, if_false] at h
      split at h
      · cases h
      · rename_i nd e
        cases h
        refine ⟨rfl, rfl, hw.symm, fun _ => ⟨p, _, hp, C16_write_read _ (g.dict _) _ _ _ e, ?_⟩, fun e => by simp only [hw, Bool.true_eq_false] at e⟩
        exact name_octave c g p _

theorem became_check (c : Ctx) (g : Fine c) (k : Kind) (n n' : Note) (l' : Last) (h : transposeCheck c n = .ok (l', n')) :
    Became c.pp c.tr (k, n) (k, n') := by
  unfold transposeCheck at h
  split at h
  · cases h
  · rename_i p hp
    cases hw : n.writable with
    | false =>
      simp only [hw, Bool.false_eq_true, if_false] at h
      cases h
      exact ⟨rfl, rfl, rfl, fun e => by simp only [hw, Bool.false_eq_true] at e, fun _ => rfl⟩
    | true =>
      simp only [hw, if_true] at h
      split at h
      · cases h
      · rename_i nd e
        cases h
        exact ⟨rfl, rfl, hw.symm, fun _ => ⟨p, _, hp, C16_write_read _ (g.dict _) _ _ _ e, rfl, rfl⟩, fun e => by simp only [hw, Bool.true_eq_false] at e⟩

theorem became_start (c : Ctx) (g : Fine c) (k : Kind) (n n' : Note) (l' : Last) (h : transposeStart c n = .ok (l', n')) :
    Became c.pp c.tr (k, n) (k, n') := by
  unfold transposeStart at h
  split at h
  · cases h
  · rename_i p hp
    cases hw : n.writable with
    | false =>
      simp only [hw, Bool.false_eq_true, if_false] at h
      cases h
      exact ⟨rfl, rfl, rfl, fun e => by simp only [hw, Bool.false_eq_true] at e, fun _ => rfl⟩
    | true =>
      simp only [hw, if_true] at h
      split at h
      · cases h
      · rename_i nd e
        cases h
        exact ⟨rfl, rfl, hw.symm, fun _ => ⟨p, _, hp, C16_write_read _ (g.dict _) _ _ _ e, rfl, rfl⟩, fun e => by simp only [hw, Bool.true_eq_false] at e⟩

theorem became_stack (c : Ctx) (g : Fine c) (k : Kind) : ∀ (ns : List Note) (l : Last) (rs : List (Last × Note)), transposeStack c l ns = .ok rs →
    List.Forall₂ (Became c.pp c.tr) (ns.map fun n => (k, n)) ((rs.map Prod.snd).map fun n => (k, n))
  | [], l, rs, h => by
    rw [transposeStack] at h
    cases h
    exact .nil
  | n :: ns, l, rs, h => by
    rw [transposeStack] at h
    split at h
    · cases h
    · rename_i r e
      split at h
      · cases h
      · rename_i rs' e'
        cases h
        exact .cons (became_note c g k n r.2 l r.1 e) (became_stack c g k ns _ _ e')

theorem became_all (c : Ctx) (g : Fine c) (k : Kind) (o : ℤ) (ns ns' : List Note) (h : ns.mapM (transposeAbs c o) = .ok ns') :
    List.Forall₂ (Became c.pp c.tr) (ns.map fun n => (k, n)) (ns'.map fun n => (k, n)) := by
  have := mapM_ok _ (fun a b => Became c.pp c.tr (k, a) (k, b)) ns ns' (fun a _ b hb => became_abs c g k o a b hb) h
  rw [List.forall₂_map_left_iff, List.forall₂_map_right_iff]
  exact this

mutual
theorem became_mus (c : Ctx) (g : Fine c) : ∀ (m : Mus) (w w' : Walk) (m' : Mus), transposeMus c w m = .ok (w', m') →
    List.Forall₂ (Became c.pp c.tr) (parts m) (parts m')
  | .note n, w, w', m', h => by
    cases w with
    | pitches o =>
      simp only [transposeMus] at h
      split at h
      · cases h
      · rename_i e; cases h; exact .cons (became_abs c g _ _ _ _ e) .nil
    | relative l flat =>
      simp only [transposeMus] at h
      split at h
      · cases h
      · rename_i e; cases h; exact .cons (became_note c g _ _ _ _ _ e) .nil
  | .chord ns, w, w', m', h => by
    cases w with
    | pitches o =>
      simp only [transposeMus] at h
      split at h
      · cases h
      · rename_i e; cases h; exact became_all c g _ _ _ _ e
    | relative l flat =>
      cases flat with
      | false =>
        simp only [transposeMus] at h
        split at h
        · cases h
        · rename_i l' ns' e
          cases h
          unfold transposeChord at e
          split at e
          · cases e
          · rename_i e2; cases e; exact became_stack c g .note ns l [] e2
          · rename_i r rs e2; cases e; exact became_stack c g .note ns l (r :: rs) e2
      | true =>
        simp only [transposeMus] at h
        split at h
        · cases h
        · rename_i e; cases h; exact became_stack c g .note ns l _ e
  | .check n, w, w', m', h => by
    cases w with
    | pitches o =>
      simp only [transposeMus] at h
      split at h
      · cases h
      · rename_i e; cases h; exact .cons (became_abs c g _ _ _ _ e) .nil
    | relative l flat =>
      cases flat with
      | false =>
        simp only [transposeMus] at h
        split at h
        · cases h
        · rename_i e; cases h; exact .cons (became_check c g _ _ _ _ e) .nil
      | true =>
        simp only [transposeMus] at h
        split at h
        · cases h
        · rename_i e; cases h; exact .cons (became_note c g _ _ _ _ _ e) .nil
  | .key n, w, w', m', h => by
    simp only [transposeMus] at h
    split at h
    · cases h
    · rename_i e; cases h; exact .cons (became_key c g _ _ _ e) .nil
  | .group ms, w, w', m', h => by
    simp only [transposeMus] at h
    split at h
    · cases h
    · rename_i e; cases h; exact became_list c g ms _ _ _ e
  | .relative none ms, w, w', m', h => by
    simp only [transposeMus] at h
    split at h
    · cases h
    · rename_i e; cases h; exact became_list c g ms _ _ _ e
  | .relative (some s) ms, w, w', m', h => by
    simp only [transposeMus] at h
    split at h
    · cases h
    · rename_i e1
      split at h
      · cases h
      · rename_i e; cases h; exact .cons (became_start c g _ _ _ _ e1) (became_list c g ms _ _ _ e)
  | .fixed s ms, w, w', m', h => by
    simp only [transposeMus] at h
    split at h
    · cases h
    · rename_i s' e1
      split at h
      · cases h
      · rename_i e
        cases h
        refine .cons ?_ (became_list c g ms _ _ _ e)
        cases hw : s.writable with
        | true =>
          simp only [hw, if_true] at e1
          exact became_abs c g _ _ _ _ e1
        | false =>
          simp only [hw, Bool.false_eq_true, if_false] at e1
          cases e1
          exact ⟨rfl, rfl, rfl, fun e => by simp only [hw, Bool.false_eq_true] at e, fun _ => rfl⟩
  | .absolute ms, w, w', m', h => by
    simp only [transposeMus] at h
    split at h
    · cases h
    · rename_i e; cases h; exact became_list c g ms _ _ _ e
  | .apart kind as ms, w, w', m', h => by
    simp only [transposeMus] at h
    split at h
    · cases h
    · rename_i e1
      split at h
      · cases h
      · rename_i e; cases h; exact forall₂_append (became_all c g _ _ _ _ e1) (became_list c g ms _ _ _ e)
theorem became_list (c : Ctx) (g : Fine c) : ∀ (ms : List Mus) (w w' : Walk) (ms' : List Mus), transposeList c w ms = .ok (w', ms') →
    List.Forall₂ (Became c.pp c.tr) (partsL ms) (partsL ms')
  | [], w, w', ms', h => by
    rw [transposeList] at h
    cases h
    exact .nil
  | m :: ms, w, w', ms', h => by
    obtain ⟨w1, m1, ms1, h1, h2, rfl⟩ := transposeList_cons c w w' m ms ms' h
    exact forall₂_append (became_mus c g m _ _ _ h1) (became_list c g ms _ _ _ h2)
end

end Quickly.TransposeKey
