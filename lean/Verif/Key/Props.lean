import Verif.Key.Lemmas
import Mathlib.Data.List.Sublists

/-!
# Properties C19 and C20: key signatures
-/

namespace Quickly.Key

open Spec Quickly.Pitch

/-! ## C19 -/

/-- C19: `alterations(offset)` turns the scale into the mode that starts at
`offset`: altered step `d` is as far above the first step as step `offset + d`
is above step `offset`. -/
theorem C19_alterations (offset : ℕ) (scale : List ℚ) (h : offset < scale.length) (d : ℕ)
    (hd : d < scale.length) :
    ∃ a, (alterations offset scale)[d]? = some a ∧
      sc scale d + a - sc scale 0 = degree scale (offset + d) - degree scale offset := by
  refine ⟨_, alterations_get _ _ _ hd, ?_⟩
  have e : (offset : ℤ) % (scale.length : ℤ) = offset := Int.emod_eq_of_lt (by omega) (by omega)
  rw [e]
  simp only [Int.toNat_natCast]
  have e2 : degree scale offset = sc scale offset := by
    simp [degree, Nat.mod_eq_of_lt h, Nat.div_eq_of_lt h]
  rw [e2]
  ring

/-- C19: for any scale, tonic and mode, the note `d` steps above the tonic, with
the accidental of the signature, sounds exactly as far above the tonic as step
`d` of the mode above its first step. -/
theorem C19_accidentals (note : ℕ) (alter : ℚ) (mode : List ℚ) (scale : List ℚ)
    (h : mode.length = scale.length) (hn : note < scale.length) (d : ℕ) (hd : d < scale.length) :
    ∃ acc m, (accidentals note alter (some mode) scale)[(note + d) % scale.length]? = some acc ∧
      mode[d]? = some m ∧
      degree scale (note + d) + acc = (sc scale note + alter) + (sc scale d + m - sc scale 0) := by
  obtain ⟨m, hm⟩ : ∃ m, mode[d]? = some m := ⟨mode[d]'(by omega), List.getElem?_eq_getElem _⟩
  exact ⟨_, m, accidentals_get note alter mode scale h hn d hd m hm, hm, by ring⟩

example : accidentals 2 (-(1/2)) (some (alterations 5 majorScale)) majorScale =
    [-(1/2), -(1/2), -(1/2), 0, -(1/2), -(1/2), -(1/2)] := by decide +kernel

/-- C19: `tonic(sf + 1)` is a fifth above `tonic(sf)`: 4 staff steps and 3.5 whole
tones, up to octaves, in any scale. -/
theorem C19_tonic_fifth (sf : ℤ) (scale : List ℚ) (hs : 0 < scale.length) :
    ∃ k : ℤ, ((tonic (sf + 1) scale).1 : ℤ) + scale.length * k = (tonic sf scale).1 + 4 ∧
      sc scale (tonic (sf + 1) scale).1 + (tonic (sf + 1) scale).2 + 6 * k =
        sc scale (tonic sf scale).1 + (tonic sf scale).2 + 7/2 := by
  rcases lt_or_ge sf 0 with h | h
  · obtain ⟨n, rfl⟩ : ∃ n : ℕ, sf = -(n : ℤ) - 1 := ⟨(-sf - 1).toNat, by omega⟩
    rw [tonic_neg_succ, show -(n : ℤ) - 1 + 1 = -(n : ℤ) by ring]
    obtain ⟨k, h1, h2⟩ := tonicStep_spec (-1) scale hs (tonic (-(n : ℤ)) scale)
    refine ⟨-k, by linarith, ?_⟩
    push_cast at *
    linarith
  · obtain ⟨n, rfl⟩ : ∃ n : ℕ, sf = n := ⟨sf.toNat, by omega⟩
    rw [tonic_pos_succ]
    obtain ⟨k, h1, h2⟩ := tonicStep_spec 1 scale hs (tonic (n : ℤ) scale)
    refine ⟨k, by linarith, ?_⟩
    push_cast at *
    linarith

theorem zipWith_shift (a c : ℚ) (xs ys : List ℚ) :
    List.zipWith (fun m s => m - s + (a + c)) xs ys = (List.zipWith (fun m s => m - s + a) xs ys).map (· + c) := by
  rw [List.map_zipWith]
  congr 1
  funext m s
  ring

/-- Shifting the tonic shifts every accidental. -/
theorem accidentals_shift (note : ℤ) (a c : ℚ) (mode : Option (List ℚ)) (scale : List ℚ) :
    accidentals note (a + c) mode scale = (accidentals note a mode scale).map (· + c) := by
  simp only [accidentals, zipWith_shift, sliceFrom, sliceTo, List.length_map]
  split <;> simp [List.map_drop, List.map_take]

/-- C19: the major key on `tonic(sf)` has `sf` sharps (or flats), given in the
order in which a signature adds them, for every integer `sf`. -/
theorem C19_circle (sf : ℤ) :
    accidentals (tonic sf majorScale).1 (tonic sf majorScale).2 none majorScale =
      (List.range 7).map (signature sf) := by
  obtain ⟨h1, h2⟩ := tonic_major sf
  obtain ⟨q, r, hr, rfl⟩ : ∃ (q : ℤ) (r : ℕ), r < 7 ∧ sf = 7 * q + r :=
    ⟨sf / 7, (sf % 7).toNat, by omega, by omega⟩
  have e1 : ((tonic (7 * q + r) majorScale).1 : ℤ) = ((4 * r % 7 : ℕ) : ℤ) := by rw [h1]; omega
  have e2 : (tonic (7 * q + r) majorScale).2 = (((r + 1) / 7 : ℕ) : ℚ) / 2 + (q : ℚ) / 2 := by
    rw [h2]
    have : ((7 * q + r + 1) / 7 : ℤ) = (((r + 1) / 7 : ℕ) : ℤ) + q := by omega
    rw [this, Int.cast_add, Int.cast_natCast]
    ring
  rw [e1, e2, accidentals_shift]
  have base : ∀ r : Fin 7, accidentals ((4 * r.val % 7 : ℕ) : ℤ) ((((r.val + 1) / 7 : ℕ) : ℚ) / 2) none majorScale
      = (List.range 7).map (signature (r.val : ℤ)) := by decide +kernel
  rw [base ⟨r, hr⟩, List.map_map]
  apply List.map_congr_left
  intro i hi
  simp only [Function.comp_apply, signature]
  have : ((7 * q + r + 6 - sharpOrder.getD i 0) / 7 : ℤ) = ((r + 6 - sharpOrder.getD i 0) / 7 : ℤ) + q := by
    omega
  rw [this]
  push_cast
  ring

/-- The names are the names the model knows. -/
theorem modes_names (s : String) : s ∈ modes.map Prod.fst ↔ s ∈ modeOffset.map Prod.fst := by
  simp only [modes, modeOffset, List.map_cons, List.map_nil, List.mem_cons, List.not_mem_nil, or_false]
  tauto

/-- C19: a key signature in a mode that has no accidentals `k` fifths above C, on the tonic that is `sf + k` fifths above
C, has `sf` sharps (or flats): D dorian has none, F sharp minor has three sharps. -/
theorem C19_modes (sf : ℤ) (mode : String) (k : ℤ) (hm : (mode, k) ∈ modes) :
    ∃ sig, KeySignature.make (tonic (sf + k) majorScale).1 (tonic (sf + k) majorScale).2 (.name mode) majorScale = .ok sig ∧
      sig.accidentals = (List.range 7).map (signature sf) := by
  have hoff : ∃ o : Fin 7, modeOffset.lookup mode = some ((o.val : ℕ) : ℤ) ∧ k = (2 * (o : ℤ) + 1) % 7 - 1 := by
    have : ∀ x ∈ modes, ∃ o : Fin 7, modeOffset.lookup x.1 = some ((o.val : ℕ) : ℤ) ∧ x.2 = (2 * (o : ℤ) + 1) % 7 - 1 := by
      decide +kernel
    exact this _ hm
  obtain ⟨o, ho, hk⟩ := hoff
  refine ⟨_, by rw [KeySignature.make, ho], ?_⟩
  simp only
  obtain ⟨h1, h2⟩ := tonic_major (sf + k)
  obtain ⟨q, r, hr, rfl⟩ : ∃ (q : ℤ) (r : ℕ), r < 7 ∧ sf = 7 * q + r :=
    ⟨sf / 7, (sf % 7).toNat, by omega, by omega⟩
  have e1 : ((tonic (7 * q + r + k) majorScale).1 : ℤ) = 4 * (r + k) % 7 := by rw [h1]; omega
  have e2 : (tonic (7 * q + r + k) majorScale).2 = (((r + k + 1) / 7 : ℤ) : ℚ) / 2 + (q : ℚ) / 2 := by
    rw [h2]
    have : ((7 * q + r + k + 1) / 7 : ℤ) = ((r + k + 1) / 7 : ℤ) + q := by omega
    rw [this, Int.cast_add]
    ring
  rw [e1, e2, accidentals_shift]
  have base : ∀ (r o : Fin 7), accidentals (4 * ((r.val : ℤ) + ((2 * (o : ℤ) + 1) % 7 - 1)) % 7)
      ((((r.val : ℤ) + ((2 * (o : ℤ) + 1) % 7 - 1) + 1) / 7 : ℤ) / 2)
      (some (alterations ((o.val : ℕ) : ℤ) majorScale)) majorScale
      = (List.range 7).map (signature (r.val : ℤ)) := by decide +kernel
  rw [hk, base ⟨r, hr⟩ o, List.map_map]
  apply List.map_congr_left
  intro i hi
  simp only [Function.comp_apply, signature]
  have : ((7 * q + r + 6 - sharpOrder.getD i 0) / 7 : ℤ) = ((r + 6 - sharpOrder.getD i 0) / 7 : ℤ) + q := by
    omega
  rw [this]
  push_cast
  ring

/-- C19: a name that is not the name of a mode is refused. -/
theorem C19_no_mode (note : ℕ) (alter : ℚ) (mode : String) (scale : List ℚ) (hm : mode ∉ modes.map Prod.fst) :
    KeySignature.make note alter (.name mode) scale = .error .keyError := by
  have : modeOffset.lookup mode = none := by
    rw [List.lookup_eq_none_iff]
    intro x hx
    rw [modes_names, List.mem_map] at hm
    simp only [bne_iff_ne, ne_eq]
    rintro rfl
    exact hm ⟨x, hx, rfl⟩
  rw [KeySignature.make, this]

example : ("dorian", 2) ∈ modes ∧ tonic (0 + 2) majorScale = (1, 0) := by decide +kernel
example : "blues" ∉ modes.map Prod.fst := by decide

/-- C19: so the accidentals of the major key on `tonic(sf)` add up to `sf`
semitones. -/
theorem C19_sum (sf : ℤ) :
    (accidentals (tonic sf majorScale).1 (tonic sf majorScale).2 none majorScale).sum = (sf : ℚ) / 2 := by
  rw [C19_circle]
  have : ((sf + 5) / 7 + (sf + 3) / 7 + (sf + 1) / 7 + (sf + 6) / 7 + (sf + 4) / 7 + (sf + 2) / 7 + sf / 7 : ℤ) = sf := by
    obtain ⟨q, r, hr0, hr1, rfl⟩ : ∃ q r : ℤ, 0 ≤ r ∧ r < 7 ∧ sf = 7 * q + r :=
      ⟨sf / 7, sf % 7, by omega, by omega, by omega⟩
    have h : ∀ c : ℤ, (7 * q + r + c) / 7 = q + (r + c) / 7 := fun c => by
      rw [show 7 * q + r + c = r + c + q * 7 by ring, Int.add_mul_ediv_right _ _ (by norm_num)]; ring
    have h' : (7 * q + r) / 7 = q + r / 7 := by simpa using h 0
    rw [h, h, h, h, h, h, h']
    interval_cases r <;> norm_num <;> ring
  have h : ((List.range 7).map (signature sf)).sum = (((sf + 6 - 1) / 7 : ℤ) : ℚ) / 2 + ((((sf + 6 - 3) / 7 : ℤ) : ℚ) / 2 +
      ((((sf + 6 - 5) / 7 : ℤ) : ℚ) / 2 + ((((sf + 6 - 0) / 7 : ℤ) : ℚ) / 2 + ((((sf + 6 - 2) / 7 : ℤ) : ℚ) / 2 +
      ((((sf + 6 - 4) / 7 : ℤ) : ℚ) / 2 + ((((sf + 6 - 6) / 7 : ℤ) : ℚ) / 2 + 0)))))) := by
    rw [show List.range 7 = [0, 1, 2, 3, 4, 5, 6] by decide]
    simp only [List.map_cons, List.map_nil, List.sum_cons, List.sum_nil, signature, sharpOrder,
      List.getD_cons_zero, List.getD_cons_succ]
  rw [h]
  have e1 : sf + 6 - 1 = sf + 5 := by ring
  have e3 : sf + 6 - 3 = sf + 3 := by ring
  have e5 : sf + 6 - 5 = sf + 1 := by ring
  have e0 : sf + 6 - 0 = sf + 6 := by ring
  have e2 : sf + 6 - 2 = sf + 4 := by ring
  have e4 : sf + 6 - 4 = sf + 2 := by ring
  have e6 : sf + 6 - 6 = sf := by ring
  rw [e1, e3, e5, e0, e2, e4, e6]
  have c : (((sf + 5) / 7 : ℤ) : ℚ) + ((sf + 3) / 7 : ℤ) + ((sf + 1) / 7 : ℤ) + ((sf + 6) / 7 : ℤ) +
      ((sf + 4) / 7 : ℤ) + ((sf + 2) / 7 : ℤ) + (sf / 7 : ℤ) = sf := by exact_mod_cast this
  linarith

example : tonic (-4 + 3) majorScale = (3, 0) := by
  have := tonic_major (-1)
  norm_num at this
  exact Prod.ext (by exact_mod_cast this.1) this.2
example : signature 3 3 = 1/2 ∧ signature (-2) 6 = -(1/2) ∧ signature 9 0 = 1 := by decide +kernel

/-! ## C20 -/

/-- The accidentals of a signature: seven, none with quarter tones. -/
theorem accidentals_half (note : ℕ) (hn : note < 7) (alter : ℚ) (ha : Half alter) (mode : List ℚ)
    (hl : mode.length = 7) (hm : ∀ x ∈ mode, Half x) :
    (accidentals note alter (some mode) majorScale).length = 7 ∧
    ∀ j (hj : j < (majorScale.zip (accidentals note alter (some mode) majorScale)).length), 0 + j < 7 ∧
      ((majorScale.zip (accidentals note alter (some mode) majorScale))[j]).1 = sc majorScale (0 + j) ∧
      Half (((majorScale.zip (accidentals note alter (some mode) majorScale))[j]).1 +
        ((majorScale.zip (accidentals note alter (some mode) majorScale))[j]).2) := by
  have hlen := accidentals_length note alter mode majorScale hl (by decide)
  refine ⟨hlen, ?_⟩
  intro j hj
  have hl7 : majorScale.length = 7 := rfl
  rw [List.length_zip, hlen, hl7] at hj
  have hj7 : j < 7 := by omega
  have hsc : ∀ h : j < majorScale.length, majorScale[j]'h = sc majorScale j := by
    intro h
    simp [sc, List.getD, h]
  refine ⟨by omega, ?_, ?_⟩
  · rw [List.getElem_zip, Nat.zero_add]; exact hsc _
  · rw [List.getElem_zip]
    simp only
    have hd : (j + 7 - note) % 7 < 7 := Nat.mod_lt _ (by norm_num)
    have hm' : mode[(j + 7 - note) % 7]? = some (mode[(j + 7 - note) % 7]'(by omega)) := List.getElem?_eq_getElem _
    have hget := accidentals_get note alter mode majorScale hl hn _ hd _ hm'
    have hidx : (note + (j + 7 - note) % 7) % majorScale.length = j := by rw [hl7]; omega
    rw [hidx] at hget
    have hacc := List.getElem?_eq_some_iff.1 hget
    obtain ⟨_, hacc⟩ := hacc
    rw [hacc, hsc]
    obtain ⟨ka, hka⟩ := ha
    obtain ⟨km, hkm⟩ := hm _ (List.getElem_mem (by omega : (j + 7 - note) % 7 < mode.length))
    rw [hka, hkm]
    have f1 := sc_major j hj7
    have f2 := sc_major note hn
    have f3 := sc_major _ hd
    have hdeg : degree majorScale (note + (j + 7 - note) % 7) = sc majorScale j +
        6 * (((note + (j + 7 - note) % 7) / 7 : ℕ) : ℚ) := by
      rw [degree, hidx]; rfl
    rw [hdeg, sc_major_zero]
    generalize (note + (j + 7 - note) % 7) / 7 = o
    clear hget hacc hm' hidx hdeg hkm
    generalize (j + 7 - note) % 7 = d at *
    refine ⟨km - 12 * o + (2 * d - (if d < 3 then 0 else 1)) + (2 * note - (if note < 3 then 0 else 1)) + ka, ?_⟩
    push_cast
    linear_combination (1/2) * f2 + (1/2) * f3

theorem mode_offsets : ∀ x ∈ modeOffset, 0 ≤ x.2 ∧ x.2 < 7 ∧
    (alterations x.2 majorScale).all (fun v => v == 0 || v == 1/2 || v == -(1/2)) = true := by
  decide +kernel

theorem lookup_mem (l : List (String × ℤ)) (s : String) (o : ℤ) (h : l.lookup s = some o) : (s, o) ∈ l := by
  induction l with
  | nil => simp at h
  | cons x l ih =>
    obtain ⟨t, v⟩ := x
    simp only [List.lookup] at h
    split at h
    · rename_i hst; cases h; rw [beq_iff_eq] at hst; rw [hst]; exact List.mem_cons_self
    · exact List.mem_cons_of_mem _ (ih h)

/-- Every signature that can be made has the accidentals of a good mode. -/
theorem make_good (note : ℕ) (alter : ℚ) (mode : Mode) (hm : GoodMode mode) (sig : KeySignature)
    (h : KeySignature.make note alter mode majorScale = .ok sig) :
    ∃ m : List ℚ, m.length = 7 ∧ (∀ x ∈ m, Half x) ∧ sig.note = note ∧ sig.alter = alter ∧
      sig.scale = majorScale ∧ sig.accidentals = accidentals note alter (some m) majorScale ∧
      sig.flats = majorFlats ∧
      ((∃ s, mode = .name s) → ∀ x ∈ m, x = 0 ∨ x = 1/2 ∨ x = -(1/2)) := by
  cases mode with
  | list m =>
    simp only [KeySignature.make] at h
    cases h
    exact ⟨m, hm.1, hm.2, rfl, rfl, rfl, rfl, rfl, fun ⟨s, hs⟩ => by cases hs⟩
  | name s =>
    simp only [KeySignature.make] at h
    split at h
    · exact absurd h (by simp)
    · rename_i off hoff
      cases h
      obtain ⟨_, _, h3⟩ := mode_offsets _ (lookup_mem _ _ _ hoff)
      rw [List.all_eq_true] at h3
      have h4 : ∀ x ∈ alterations off majorScale, x = 0 ∨ x = 1/2 ∨ x = -(1/2) := by
        intro x hx
        have := h3 x hx
        simpa [or_assoc] using this
      refine ⟨_, alterations_length _ _, ?_, rfl, rfl, rfl, rfl, rfl, fun _ => h4⟩
      intro x hx
      rcases h4 x hx with rfl | rfl | rfl
      · exact ⟨0, by norm_num⟩
      · exact ⟨1, by norm_num⟩
      · exact ⟨-1, by norm_num⟩

/-- C20: the pitch returned for a MIDI key sounds as that key, octaves aside,
and in the right octave when its alteration lies between -3 and 4; for any
tonic whose height is at most an octave (see `C20_far_tonic_is_wrong` for why),
any mode without quarter tones and any flats.  Partial: the full statement is
without the bounds. -/
theorem C20_sounds_partial (note : ℕ) (hn : note < 7) (alter : ℚ) (ha : Half alter) (mode : Mode) (hm : GoodMode mode)
    (hb : |sc majorScale note + alter| ≤ 6) (sig : KeySignature)
    (h : KeySignature.make note alter mode majorScale = .ok sig) (key : ℤ) (flats : Option (List ℚ)) :
    ∃ p k, sig.pitch key flats = .ok p ∧ 0 ≤ p.note ∧ p.note < 7 ∧
      p.toMidi majorScale = .ok (key + 12 * k) ∧ (-3 < p.alter → p.alter < 4 → k = 0) := by
  obtain ⟨m, hl, hmh, e1, e2, e3, e4, _, _⟩ := make_good note alter mode hm sig h
  obtain ⟨hlen, hacc⟩ := accidentals_half note hn alter ha m hl hmh
  have hchrom : Sounds (chromaticScale note alter majorScale (flats.getD sig.flats)) := by
    obtain ⟨ka, hka⟩ := ha
    have f2 := sc_major note hn
    have hS : 2 * (alter + sc majorScale note) =
        ((ka + (2 * note - (if note < 3 then 0 else 1)) : ℤ) : ℚ) := by
      push_cast
      rw [hka]
      linear_combination f2
    rw [abs_le] at hb
    intro i hi
    apply chromaticScale_get note hn alter _ _ hS _ _ i hi
    · have : ((ka + (2 * note - (if note < 3 then 0 else 1)) : ℤ) : ℚ) ≤ 12 := by rw [← hS]; linarith
      exact_mod_cast this
    · have : (-12 : ℚ) ≤ ((ka + (2 * note - (if note < 3 then 0 else 1)) : ℤ) : ℚ) := by rw [← hS]; linarith
      exact_mod_cast this
  have hs := fillIn_sounds _ hchrom 0 _ hacc
  have hk0 := Int.emod_nonneg key (b := 12) (by norm_num)
  have hk1 := Int.emod_lt_of_pos key (b := 12) (by norm_num)
  obtain ⟨n, a, g1, g2, k, g3⟩ := hs (key % 12).toNat (by omega)
  unfold KeySignature.pitch
  simp only [e1, e2, e3, e4, g1]
  have hsn : pyGet majorScale (n : ℤ) = .ok (sc majorScale n) := by
    interval_cases n <;> decide +kernel
  have hkey : ((key % 12).toNat : ℤ) = key % 12 := by omega
  have hkeyq : ((key : ℤ) : ℚ) = 12 * ((key / 12 : ℤ) : ℚ) + (((key % 12).toNat : ℕ) : ℚ) := by
    have : key = 12 * (key / 12) + ((key % 12).toNat : ℤ) := by omega
    exact_mod_cast this
  refine ⟨_, octaveOf ((n : ℚ) + a) + k, rfl, by simp, by simpa using g2, ?_, ?_⟩
  · simp only [Pitch.toMidi, hsn]
    congr 1
    rw [← trunc_intCast (key + 12 * _)]
    congr 1
    push_cast
    rw [hkeyq]
    linear_combination g3
  · intro h1 h2
    have := octaveOf_right n g2 a _ (by omega) k g3 h1 h2
    omega

/-- C20: a key that is on the scale of the signature is spelled as a note of
the signature with the signature's own accidental; when only one note `i` of
the signature sounds as that key, it is that note. -/
theorem C20_own_accidentals (note : ℕ) (hn : note < 7) (alter : ℚ) (ha : Half alter) (mode : Mode)
    (hm : GoodMode mode) (sig : KeySignature)
    (h : KeySignature.make note alter mode majorScale = .ok sig) (key : ℤ) (flats : Option (List ℚ))
    (i : ℕ) (a : ℚ) (hi : sig.accidentals[i]? = some a) (k : ℤ)
    (hkey : 2 * (sc majorScale i + a) = key + 12 * k) :
    ∃ (j : ℕ) (b : ℚ) (p : Pitch), sig.accidentals[j]? = some b ∧
      (∃ k', 2 * (sc majorScale j + b) = key + 12 * (k' : ℤ)) ∧
      sig.pitch key flats = .ok p ∧ p.note = j ∧ p.alter = b := by
  obtain ⟨m, hl, hmh, e1, e2, e3, e4, _, _⟩ := make_good note alter mode hm sig h
  obtain ⟨hlen, hacc⟩ := accidentals_half note hn alter ha m hl hmh
  have hk0 := Int.emod_nonneg key (b := 12) (by norm_num)
  have hk1 := Int.emod_lt_of_pos key (b := 12) (by norm_num)
  have hclen : 12 ≤ (chromaticScale note alter majorScale (flats.getD sig.flats)).length := by
    rw [chromaticScale_length _ _ _ _ _ rfl]
  rw [e4] at hi
  obtain ⟨hilt, hia⟩ := List.getElem?_eq_some_iff.1 hi
  have hl7 : majorScale.length = 7 := rfl
  have hzl : (majorScale.zip (accidentals note alter (some m) majorScale)).length = 7 := by
    rw [List.length_zip, hlen, hl7]; rfl
  unfold KeySignature.pitch
  simp only [e1, e2, e3, e4]
  rcases fillIn_get (chromaticScale note alter majorScale (flats.getD sig.flats)) 0
      (majorScale.zip (accidentals note alter (some m) majorScale)) (key % 12).toNat (by omega) with
    ⟨j, hj, h1, h2⟩ | ⟨h1, _⟩
  · obtain ⟨g1, g2, kk, g3⟩ := hacc j hj
    rw [h2]
    have hz : ((majorScale.zip (accidentals note alter (some m) majorScale))[j]).2 =
        (accidentals note alter (some m) majorScale)[j]'(by omega) := by rw [List.getElem_zip]
    refine ⟨j, (accidentals note alter (some m) majorScale)[j]'(by omega), _,
      List.getElem?_eq_getElem _, ?_, rfl, by simp, hz⟩
    rw [Nat.zero_add] at g2
    rw [g3, show (kk : ℚ) / 2 * 2 = kk by ring, trunc_intCast] at h1
    refine ⟨kk / 12 - key / 12, ?_⟩
    rw [← hz, ← g2, g3]
    have : kk = key + 12 * (kk / 12 - key / 12) := by omega
    have c : (kk : ℚ) = key + 12 * ((kk / 12 - key / 12 : ℤ) : ℚ) := by exact_mod_cast this
    rw [← c]
    ring
  · exfalso
    have hi7 : i < (majorScale.zip (accidentals note alter (some m) majorScale)).length := by omega
    apply h1 i hi7
    obtain ⟨g1, g2, kk, g3⟩ := hacc i hi7
    rw [g3, show (kk : ℚ) / 2 * 2 = kk by ring, trunc_intCast]
    rw [Nat.zero_add] at g2
    have hz : ((majorScale.zip (accidentals note alter (some m) majorScale))[i]).2 = a := by
      rw [List.getElem_zip]; exact hia
    rw [g2, hz] at g3
    have : (kk : ℚ) = ((key + 12 * k : ℤ) : ℚ) := by push_cast; linarith
    have : kk = key + 12 * k := by exact_mod_cast this
    omega

/-- C20: without the bound on the tonic it is false: in B double sharp major the
slice-based rotation of the chromatic scale runs past its length, and MIDI key
62 comes back as a pitch that sounds as 63. -/
theorem C20_far_tonic_is_wrong :
    (KeySignature.make 6 1 (.name "major") majorScale).bind (fun sig =>
      (sig.pitch 62 none).bind (fun p => p.toMidi majorScale)) = .ok 63 := by
  decide +kernel

/-! ### The usual signatures -/

theorem chromLoop_congr (scale flats flats' : List ℚ) (h : ∀ x, x ∈ flats ↔ x ∈ flats') (c s n : ℕ) :
    chromLoop scale flats c s n = chromLoop scale flats' c s n := by
  induction c generalizing s n with
  | zero => rfl
  | succ c ih => simp only [chromLoop, h, ih]

theorem chrom_black : ∀ f ∈ black.sublists, ∀ x ∈ chromLoop majorScale f 12 0 0,
    x.1 < 7 ∧ -(1/2) ≤ x.2 ∧ x.2 ≤ 1/2 := by decide +kernel

theorem fold_bound : ∀ m n : Fin 7,
    -(1/2) ≤ sc majorScale m + sc majorScale n - (((m.val + n.val) / 7 : ℕ) : ℚ) * 6
      - sc majorScale ((m.val + n.val) % 7) ∧
    sc majorScale m + sc majorScale n - (((m.val + n.val) / 7 : ℕ) : ℚ) * 6
      - sc majorScale ((m.val + n.val) % 7) ≤ 1/2 := by decide +kernel

theorem slices_mem {α : Type} (xs : List α) (S : ℤ) (x : α) (h : x ∈ sliceFrom xs S ++ sliceTo xs S) : x ∈ xs := by
  unfold sliceFrom sliceTo at h
  rcases List.mem_append.1 h with h | h
  · split at h
    · exact List.mem_of_mem_drop h
    · exact List.mem_of_mem_drop h
  · split at h
    · exact List.mem_of_mem_take h
    · exact List.mem_of_mem_take h

/-- C20: for every tonic note with an alteration of at most a double accidental
(B double sharp excepted), every standard mode and all flats that are black
keys, the pitch for a MIDI key has exactly that MIDI number. -/
theorem C20_usual_signatures (note : ℕ) (hn : note < 7) (alter : ℚ) (ha : Half alter) (h1 : -1 ≤ alter)
    (h2 : alter ≤ 1) (hb : ¬ (note = 6 ∧ alter = 1)) (mode : String) (hm : mode ∈ modes.map Prod.fst)
    (sig : KeySignature) (h : KeySignature.make note alter (.name mode) majorScale = .ok sig)
    (key : ℤ) (flats : Option (List ℚ)) (hf : ∀ f, flats = some f → ∀ x ∈ f, x ∈ black) :
    ∃ p, sig.pitch key flats = .ok p ∧ p.toMidi majorScale = .ok key := by
  have hbound : |sc majorScale note + alter| ≤ 6 := by
    have f := sc_major note hn
    obtain ⟨k, hk⟩ := ha
    have g1 : (-2 : ℤ) ≤ k := by
      have : (-2 : ℚ) ≤ k := by linarith
      exact_mod_cast this
    have g2 : k ≤ 2 := by
      have : (k : ℚ) ≤ 2 := by linarith
      exact_mod_cast this
    have hw : 2 * (sc majorScale note + alter) = ((2 * note - (if note < 3 then 0 else 1) + k : ℤ) : ℚ) := by
      push_cast; rw [hk]; linear_combination f
    have hz : (2 * note - (if note < 3 then 0 else 1) + k : ℤ) ≤ 12 := by
      have : ¬ (note = 6 ∧ k = 2) := by
        rintro ⟨a, b⟩; exact hb ⟨a, by rw [hk, b]; norm_num⟩
      split <;> omega
    have hz2 : (-12 : ℤ) ≤ (2 * note - (if note < 3 then 0 else 1) + k : ℤ) := by split <;> omega
    have c1 : 2 * (sc majorScale note + alter) ≤ 12 := by rw [hw]; exact_mod_cast hz
    have c2 : -12 ≤ 2 * (sc majorScale note + alter) := by rw [hw]; exact_mod_cast hz2
    rw [abs_le]; constructor <;> linarith
  obtain ⟨p, k, hp, _, _, hmidi, hk⟩ := C20_sounds_partial note hn alter ha (.name mode) hm hbound sig h key flats
  obtain ⟨m, hl, hmh, e1, e2, e3, e4, e5, hstd⟩ := make_good note alter (.name mode) hm sig h
  have hstd := hstd ⟨mode, rfl⟩
  obtain ⟨hlen, _⟩ := accidentals_half note hn alter ha m hl hmh
  -- the alteration is moderate
  have halter : -3 < p.alter ∧ p.alter < 4 := by
    have hk0 := Int.emod_nonneg key (b := 12) (by norm_num)
    have hk1 := Int.emod_lt_of_pos key (b := 12) (by norm_num)
    have hclen : 12 ≤ (chromaticScale note alter majorScale (flats.getD sig.flats)).length := by
      rw [chromaticScale_length _ _ _ _ _ rfl]
    unfold KeySignature.pitch at hp
    simp only [e1, e2, e3, e4] at hp
    rcases fillIn_get (chromaticScale note alter majorScale (flats.getD sig.flats)) 0
        (majorScale.zip (accidentals note alter (some m) majorScale)) (key % 12).toNat (by omega) with
      ⟨j, hj, g1, g2⟩ | ⟨_, g2⟩
    · rw [g2] at hp
      simp only [Except.ok.injEq] at hp
      rw [← hp]
      simp only [List.getElem_zip]
      rw [List.length_zip, hlen] at hj
      have hj7 : j < 7 := by omega
      have hd : (j + 7 - note) % 7 < 7 := Nat.mod_lt _ (by norm_num)
      have hm' : m[(j + 7 - note) % 7]? = some (m[(j + 7 - note) % 7]'(by omega)) := List.getElem?_eq_getElem _
      have hget := accidentals_get note alter m majorScale hl hn _ hd _ hm'
      have hl7 : majorScale.length = 7 := rfl
      have hidx : (note + (j + 7 - note) % 7) % majorScale.length = j := by rw [hl7]; omega
      rw [hidx] at hget
      obtain ⟨_, hacc⟩ := List.getElem?_eq_some_iff.1 hget
      rw [hacc]
      have hdeg : degree majorScale (note + (j + 7 - note) % 7) = sc majorScale ((note + (j + 7 - note) % 7) % 7) +
          6 * (((note + (j + 7 - note) % 7) / 7 : ℕ) : ℚ) := rfl
      rw [hdeg, sc_major_zero]
      have fb := fold_bound ⟨note, hn⟩ ⟨_, hd⟩
      simp only at fb
      have hmx := hstd _ (List.getElem_mem (by omega : (j + 7 - note) % 7 < m.length))
      generalize m[(j + 7 - note) % 7]'(by omega) = mx at *
      rcases hmx with rfl | rfl | rfl <;> constructor <;> linarith [fb.1, fb.2]
    · rw [g2] at hp
      split at hp
      · exact absurd hp (by simp)
      · rename_i n a hg
        simp only [Except.ok.injEq] at hp
        rw [← hp]
        have hmem := List.mem_of_getElem? hg
        unfold chromaticScale at hmem
        have hmem := slices_mem _ _ _ hmem
        rw [List.mem_map] at hmem
        obtain ⟨⟨n0, a0⟩, hx, he⟩ := hmem
        have hfl : ∀ x ∈ flats.getD sig.flats, x ∈ black := by
          cases flats with
          | none => rw [Option.getD_none, e5]; decide +kernel
          | some f => exact hf f rfl
        have hsub : black.filter (fun x => x ∈ flats.getD sig.flats) ∈ black.sublists :=
          List.mem_sublists.2 List.filter_sublist
        rw [chromLoop_congr majorScale _ (black.filter (fun x => x ∈ flats.getD sig.flats)) (by
          intro x
          simp only [List.mem_filter, decide_eq_true_eq]
          exact ⟨fun h => ⟨hfl x h, h⟩, fun h => h.2⟩)] at hx
        obtain ⟨c0, c1, c2⟩ := chrom_black _ hsub _ hx
        simp only [Prod.mk.injEq] at he c0 c1 c2
        have fb := fold_bound ⟨n0, c0⟩ ⟨note, hn⟩
        simp only at fb
        have hl7 : majorScale.length = 7 := rfl
        rw [hl7, sc_major_zero] at he
        rw [← he.2]
        constructor <;> linarith [fb.1, fb.2]
  have := hk halter.1 halter.2
  subst this
  exact ⟨p, hp, by simpa using hmidi⟩

-- B flat minor, MIDI key 66 is g flat
example : (KeySignature.make 6 (-(1/2)) (.name "minor") majorScale).bind (fun sig => sig.pitch 66 none)
    = .ok ⟨0, 4, -(1/2)⟩ := by decide +kernel

end Quickly.Key
