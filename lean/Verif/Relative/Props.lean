import Verif.Relative.Lemmas

/-!
# Properties C24, C25 and C56: relative music
-/

namespace Quickly.Relative

open Quickly.Pitch Quickly.Transpose Spec
open Quickly.Pitch.Spec (Means IsDict HasName)

/-! ## C24: transposing -/

/-- C24: when a whole document is transposed, every note that was heard is
transposed, whatever mixture of absolute, relative and fixed music the notes are in,
with and without start pitches, chords and octave checks.

Missing from the full property: the names of the language must all be in one
octave (`C24_mixed_octaves` shows what happens else), the edit must cover all the music
(`C24_selection`), transposing the pitch of a `\fixed` must change its octave as much as
the transposer says (`C56_fixed_wrong`), and in a `\relative` there must be no `\transpose`
(`C24_transpose_in_relative`) or `\chordmode` (`C24_chordmode_in_relative`). -/
theorem C24_transposes_partial (pp : Langs) (hd : ∀ l, IsDict (pp l).table) (h1 : ∀ l, OneOctave (pp l).table)
    (t : Transposer) (tr : Pitch → Pitch) (ht : Runs t tr) (firstAbs : Bool) (ms ms' : List Mus) (hs : List Heard)
    (hw : ∀ x ∈ partsL ms, x.2.writable = true)
    (hf : ∀ x ∈ partsL ms, x.1 = .fixed → ∀ q, AbsNote pp.tables x.2 q → (tr q).octave = q.octave + t.octave)
    (ha : ApartOkL (fun _ => False) false ms)
    (hs0 : Sounds pp.tables (reference firstAbs) ms hs)
    (he : transposeDoc ⟨pp, tr, t.octave, firstAbs⟩ ms = .ok ms') :
    ∃ hs', Sounds pp.tables (reference firstAbs) ms' hs' ∧ pitches hs' = (pitches hs).map tr := by
  obtain ⟨m, hh⟩ := hs0
  unfold transposeDoc at he
  split at he
  · cases he
  · rename_i w' ms2 h2
    cases he
    obtain ⟨m2, hs2, a1, _, a3⟩ := hears_transposed ⟨pp, tr, t.octave, firstAbs⟩ ⟨hd, h1, runs_down t tr ht⟩ False hh
      _ _ _ _ h2 (Fits.abs (k2 := 0) (by omega)) ⟨hw, hf, fun z => z.elim⟩ ha
    refine ⟨hs2, ⟨m2, a1⟩, ?_⟩
    clear a1 h2 hh
    induction a3 with
    | nil => rfl
    | cons h _ ih => simp only [pitches, List.map_cons, h.1] at ih ⊢; rw [ih]

/-- C24: transposing succeeds when the language has a name for every pitch of
the music once it is transposed. -/
theorem C24_succeeds (pp : Langs) (hd : ∀ l, IsDict (pp l).table) (h1 : ∀ l, OneOctave (pp l).table)
    (t : Transposer) (tr : Pitch → Pitch) (ht : Runs t tr) (firstAbs : Bool) (ms : List Mus)
    (hn : ∀ x ∈ partsL ms, ∃ p, (pp x.2.lang).readNode x.2.node = .ok p ∧
      ∃ name o, Means (pp x.2.lang).table name o (tr p).note (tr p).alter) :
    ∃ ms', transposeDoc ⟨pp, tr, t.octave, firstAbs⟩ ms = .ok ms' := by
  obtain ⟨r, hr⟩ := transposeList_succeeds ⟨pp, tr, t.octave, firstAbs⟩ ⟨hd, h1, runs_down t tr ht⟩ (.pitches 0) ms hn
  unfold transposeDoc
  rw [hr]
  exact ⟨_, rfl⟩

/-- C24: octave checks in relative music are rewritten so that they tell the
octave that is heard.  Missing: this needs that there is no start pitch, or that the
transposer does not change octaves (`C24_octave_check_wrong`). -/
theorem C24_octave_checks_partial (pp : Langs) (hd : ∀ l, IsDict (pp l).table) (h1 : ∀ l, OneOctave (pp l).table)
    (t : Transposer) (tr : Pitch → Pitch) (ht : Runs t tr) (firstAbs : Bool) (ms ms' : List Mus) (hs : List Heard)
    (hw : ∀ x ∈ partsL ms, x.2.writable = true)
    (hf : ∀ x ∈ partsL ms, x.1 = .fixed → ∀ q, AbsNote pp.tables x.2 q → (tr q).octave = q.octave + t.octave)
    (ho : t.octave = 0 ∨ ∀ x ∈ partsL ms, x.1 ≠ .start)
    (ha : ApartOkL (fun _ => False) false ms)
    (hs0 : Sounds pp.tables (reference firstAbs) ms hs)
    (he : transposeDoc ⟨pp, tr, t.octave, firstAbs⟩ ms = .ok ms') :
    ∃ hs', Sounds pp.tables (reference firstAbs) ms' hs' ∧
      hs'.map (fun h => h.check.isSome) = hs.map (fun h => h.check.isSome) ∧
      ∀ h ∈ hs', ∀ c, h.check = some c → c = h.pitch.octave := by
  obtain ⟨m, hh⟩ := hs0
  unfold transposeDoc at he
  split at he
  · cases he
  · rename_i w' ms2 h2
    cases he
    obtain ⟨m2, hs2, a1, _, a3⟩ := hears_transposed ⟨pp, tr, t.octave, firstAbs⟩ ⟨hd, h1, runs_down t tr ht⟩ True hh
      _ _ _ _ h2 (Fits.abs (k2 := 0) (by omega)) ⟨hw, hf, fun _ => ho⟩ ha
    refine ⟨hs2, ⟨m2, a1⟩, ?_⟩
    clear a1 h2 hh
    induction a3 with
    | nil => exact ⟨rfl, fun _ h => by cases h⟩
    | cons h _ ih =>
      refine ⟨by simp only [List.map_cons, h.2.1, ih.1], ?_⟩
      intro x hx
      rcases List.mem_cons.1 hx with rfl | hx
      · exact h.2.2 trivial
      · exact ih.2 x hx

/-- The names of the examples, all in the octave below middle c. -/
def exTable : Table :=
  [(['c'], (-1, 0, 0)), (['d'], (-1, 1, 0)), (['e'], (-1, 2, 0)), (['f'], (-1, 3, 0)), (['g'], (-1, 4, 0)),
   (['a'], (-1, 5, 0)), (['b'], (-1, 6, 0)), (['f', 'i', 's'], (-1, 3, 1/2)), (['c', 'i', 's'], (-1, 0, 1/2))]

/-- A processor for them. -/
def exPP : Langs := fun _ => { lang := .other, table := exTable }

/-- A note of the examples. -/
def nt (c : Char) (o : ℤ) (check : Option ℤ := none) : Note := { node := ⟨[c], o⟩, check := check }

/-- From c to d. -/
def exT : Transposer := Transposer.make ⟨-1, 0, 0⟩ ⟨-1, 1, 0⟩ majorScale

/-- `c' \relative c' { c <e g> \octaveCheck c' b }`. -/
def exDoc : List Mus :=
  [.note (nt 'c' 1), .relative (some (nt 'c' 1))
    [.group [.note (nt 'c' 0), .chord [nt 'e' 0, nt 'g' 0], .check (nt 'c' 1), .note (nt 'b' 0)]]]

theorem exDict (l : Str) : IsDict (exPP l).table := by
  have : IsDict exTable := by unfold IsDict; decide +kernel
  exact this

theorem exOne (l : Str) : OneOctave (exPP l).table := ⟨-1, by
  intro x hx
  simp only [exPP, exTable, List.mem_cons, List.not_mem_nil, or_false] at hx
  rcases hx with rfl | rfl | rfl | rfl | rfl | rfl | rfl | rfl | rfl <;> rfl⟩

/-- The example sounds c' c' e' g' b. -/
theorem exSounds (f : Pitch) : Sounds exPP.tables f exDoc
    [⟨⟨0, 0, 0⟩, none⟩, ⟨⟨0, 0, 0⟩, none⟩, ⟨⟨0, 2, 0⟩, none⟩, ⟨⟨0, 4, 0⟩, none⟩, ⟨⟨-1, 6, 0⟩, none⟩] := by
  rw [sounds_iff exPP exDict]
  rfl

/-- The hypotheses of C24 hold for the example, and it becomes d' d' fis' a' cis'. -/
example : ∃ tr ms' hs', Runs exT tr ∧ transposeDoc ⟨exPP, tr, exT.octave, true⟩ exDoc = .ok ms' ∧
    Sounds exPP.tables (reference true) ms' hs' ∧
    pitches hs' = [⟨0, 1, 0⟩, ⟨0, 1, 0⟩, ⟨0, 3, 1/2⟩, ⟨0, 5, 0⟩, ⟨0, 0, 1/2⟩] := by
  obtain ⟨tr, ht⟩ := runs_exists exT majorScale rfl
  have at' : ∀ p q, exT.transpose 3 p = some (.ok q) → tr p = q :=
    fun p q h => C22_deterministic exT _ _ _ (ht p) ⟨3, h⟩
  have c1 := at' ⟨0, 0, 0⟩ ⟨0, 1, 0⟩ (by decide +kernel)
  have c0 := at' ⟨-1, 0, 0⟩ ⟨-1, 1, 0⟩ (by decide +kernel)
  have e1 := at' ⟨0, 2, 0⟩ ⟨0, 3, 1/2⟩ (by decide +kernel)
  have e0 := at' ⟨-1, 2, 0⟩ ⟨-1, 3, 1/2⟩ (by decide +kernel)
  have g1 := at' ⟨0, 4, 0⟩ ⟨0, 5, 0⟩ (by decide +kernel)
  have g0 := at' ⟨-1, 4, 0⟩ ⟨-1, 5, 0⟩ (by decide +kernel)
  have b0 := at' ⟨-1, 6, 0⟩ ⟨0, 0, 1/2⟩ (by decide +kernel)
  obtain ⟨ms', hms⟩ := C24_succeeds exPP exDict exOne exT tr ht true exDoc (by
    intro x hx
    simp only [exDoc, partsL, parts, List.map_cons, List.map_nil, List.append_nil, List.cons_append, List.nil_append,
      List.mem_cons, List.not_mem_nil, or_false] at hx
    rcases hx with rfl | rfl | rfl | rfl | rfl | rfl | rfl
    · exact ⟨⟨0, 0, 0⟩, by decide +kernel, ['d'], -1, by rw [c1]; unfold Means; decide +kernel⟩
    · exact ⟨⟨0, 0, 0⟩, by decide +kernel, ['d'], -1, by rw [c1]; unfold Means; decide +kernel⟩
    · exact ⟨⟨-1, 0, 0⟩, by decide +kernel, ['d'], -1, by rw [c0]; unfold Means; decide +kernel⟩
    · exact ⟨⟨-1, 2, 0⟩, by decide +kernel, ['f', 'i', 's'], -1, by rw [e0]; unfold Means; decide +kernel⟩
    · exact ⟨⟨-1, 4, 0⟩, by decide +kernel, ['a'], -1, by rw [g0]; unfold Means; decide +kernel⟩
    · exact ⟨⟨0, 0, 0⟩, by decide +kernel, ['d'], -1, by rw [c1]; unfold Means; decide +kernel⟩
    · exact ⟨⟨-1, 6, 0⟩, by decide +kernel, ['c', 'i', 's'], -1, by rw [b0]; unfold Means; decide +kernel⟩)
  obtain ⟨hs', a1, a2⟩ := C24_transposes_partial exPP exDict exOne exT tr ht true exDoc ms' _
    (by
      intro x hx
      simp only [exDoc, partsL, parts, List.map_cons, List.map_nil, List.append_nil, List.cons_append, List.nil_append,
        List.mem_cons, List.not_mem_nil, or_false] at hx
      rcases hx with rfl | rfl | rfl | rfl | rfl | rfl | rfl <;> rfl)
    (by
      intro x hx
      simp only [exDoc, partsL, parts, List.map_cons, List.map_nil, List.append_nil, List.cons_append, List.nil_append,
        List.mem_cons, List.not_mem_nil, or_false] at hx
      rcases hx with rfl | rfl | rfl | rfl | rfl | rfl | rfl <;> (intro h; cases h))
    (by simp [exDoc, ApartOkL, ApartOk])
    (exSounds _) hms
  refine ⟨tr, ms', hs', ht, hms, a1, ?_⟩
  rw [a2]
  simp only [pitches, List.map_cons, List.map_nil, c1, e1, g1, b0]

/-- C24: a document sounds as one thing only, so "what is heard" is well defined. -/
theorem C24_sound_unique (pp : Langs) (hd : ∀ l, IsDict (pp l).table) (f : Pitch) (ms : List Mus) (hs hs' : List Heard)
    (h1 : Sounds pp.tables f ms hs) (h2 : Sounds pp.tables f ms hs') : hs = hs' := by
  rw [sounds_iff pp hd] at h1 h2
  rw [h1] at h2
  exact Option.some.inj h2

/-- From c to c' of the next octave. -/
def exOct : Transposer := Transposer.make ⟨-1, 0, 0⟩ ⟨0, 0, 0⟩ majorScale

/-- C24 fails for a selection: in `\relative c' { c g }` with only the first note
selected, transposing from c to a makes that note a', and the g after it, which the edit
does not touch, sounds an octave higher than before. -/
theorem C24_selection : ∃ (t : Transposer) (tr : Pitch → Pitch) (ms ms' : List Mus), Runs t tr ∧
    transposeDoc ⟨exPP, tr, t.octave, true⟩ ms = .ok ms' ∧
    Sounds exPP.tables (reference true) ms [⟨⟨0, 0, 0⟩, none⟩, ⟨⟨-1, 4, 0⟩, none⟩] ∧
    Sounds exPP.tables (reference true) ms' [⟨⟨0, 5, 0⟩, none⟩, ⟨⟨0, 4, 0⟩, none⟩] ∧
    ms = [.relative (some { node := ⟨['c'], 1⟩, writable := false })
      [.note (nt 'c' 0), .note { node := ⟨['g'], 0⟩, writable := false }]] := by
  let t := Transposer.make ⟨-1, 0, 0⟩ ⟨-1, 5, 0⟩ majorScale
  obtain ⟨tr, ht⟩ := runs_exists t majorScale rfl
  have c1 : tr ⟨0, 0, 0⟩ = ⟨0, 5, 0⟩ := C22_deterministic t _ _ _ (ht _) ⟨3, by decide +kernel⟩
  refine ⟨t, tr, _, [.relative (some { node := ⟨['c'], 1⟩, writable := false })
    [.note (nt 'a' 1), .note { node := ⟨['g'], 0⟩, writable := false }]], ht, ?_, ?_, ?_, rfl⟩
  · have r1 : (exPP []).readNode ⟨['c'], 1⟩ = .ok ⟨0, 0, 0⟩ := by decide +kernel
    have r2 : (exPP []).readNode ⟨['c'], 0⟩ = .ok ⟨-1, 0, 0⟩ := by decide +kernel
    have r3 : (exPP []).readNode ⟨['g'], 0⟩ = .ok ⟨-1, 4, 0⟩ := by decide +kernel
    have w1 : (exPP []).writeNode ⟨['c'], 0⟩ ⟨0, 5, 0⟩ = .ok ⟨['a'], 1⟩ := by decide +kernel
    simp [transposeDoc, transposeList, transposeMus, transposeStart, transposeNote, nt, r1, r2, r3,
      Pitch.makeAbsolute, Pitch.makeRelative, Last.prev, c1, w1]
  · rw [sounds_iff exPP exDict]; rfl
  · rw [sounds_iff exPP exDict]; rfl

/-- C24 fails for a `\transpose` in a `\relative`: `\relative c' { \transpose c c { g' } }`, where the note that
is written sounds g' because `\relative` does not affect it, becomes `\relative a' { \transpose a a { e' } }` when it is
transposed from c to a, where it sounds e' and not e''. -/
theorem C24_transpose_in_relative : ∃ (t : Transposer) (tr : Pitch → Pitch) (ms ms' : List Mus), Runs t tr ∧
    (∀ x ∈ partsL ms, x.2.writable = true) ∧
    transposeDoc ⟨exPP, tr, t.octave, true⟩ ms = .ok ms' ∧
    Sounds exPP.tables (reference true) ms [⟨⟨0, 4, 0⟩, none⟩] ∧
    Sounds exPP.tables (reference true) ms' [⟨⟨0, 2, 0⟩, none⟩] ∧
    tr ⟨0, 4, 0⟩ = ⟨1, 2, 0⟩ := by
  let t := Transposer.make ⟨-1, 0, 0⟩ ⟨-1, 5, 0⟩ majorScale
  obtain ⟨tr, ht⟩ := runs_exists t majorScale rfl
  have c1 : tr ⟨0, 0, 0⟩ = ⟨0, 5, 0⟩ := C22_deterministic t _ _ _ (ht _) ⟨3, by decide +kernel⟩
  have c0 : tr ⟨-1, 0, 0⟩ = ⟨-1, 5, 0⟩ := C22_deterministic t _ _ _ (ht _) ⟨3, by decide +kernel⟩
  have g1 : tr ⟨0, 4, 0⟩ = ⟨1, 2, 0⟩ := C22_deterministic t _ _ _ (ht _) ⟨3, by decide +kernel⟩
  refine ⟨t, tr, [.relative (some (nt 'c' 1)) [.apart .transpose [nt 'c' 0, nt 'c' 0] [.note (nt 'g' 1)]]],
    [.relative (some (nt 'a' 1)) [.apart .transpose [nt 'a' 0, nt 'a' 0] [.note (nt 'e' 1)]]], ht, ?_, ?_, ?_, ?_, g1⟩
  · intro x hx
    simp only [partsL, parts, List.append_nil, List.mem_cons, List.not_mem_nil, or_false, List.map_cons, List.map_nil,
      List.cons_append, List.nil_append] at hx
    rcases hx with rfl | rfl | rfl | rfl <;> rfl
  · have r1 : (exPP []).readNode ⟨['c'], 1⟩ = .ok ⟨0, 0, 0⟩ := by decide +kernel
    have r2 : (exPP []).readNode ⟨['c'], 0⟩ = .ok ⟨-1, 0, 0⟩ := by decide +kernel
    have r3 : (exPP []).readNode ⟨['g'], 1⟩ = .ok ⟨0, 4, 0⟩ := by decide +kernel
    have w1 : (exPP []).writeNode ⟨['c'], 1⟩ ⟨0, 5, 0⟩ = .ok ⟨['a'], 1⟩ := by decide +kernel
    have w2 : (exPP []).writeNode ⟨['c'], 0⟩ ⟨-1, 5, 0⟩ = .ok ⟨['a'], 0⟩ := by decide +kernel
    have w3 : (exPP []).writeNode ⟨['g'], 1⟩ ⟨0, 2, 0⟩ = .ok ⟨['e'], 1⟩ := by decide +kernel
    have o : t.octave = 0 := by decide +kernel
    simp [transposeDoc, transposeList, transposeMus, transposeStart, transposeNote, transposeAbs, Processor.process, nt,
      r1, r2, r3, down, o, Walk.enter, Walk.leave, List.mapM_cons, bind, Except.bind, pure, Except.pure,
      Pitch.makeAbsolute, Pitch.makeRelative, Last.prev, c1, c0, g1, w1, w2, w3]
  · rw [sounds_iff exPP exDict]; rfl
  · rw [sounds_iff exPP exDict]; rfl

/-- C24 fails for a `\chordmode` in a `\relative` for the same reason: `\relative c' { \chordmode { g' } }`. -/
theorem C24_chordmode_in_relative : ∃ (t : Transposer) (tr : Pitch → Pitch) (ms ms' : List Mus), Runs t tr ∧
    (∀ x ∈ partsL ms, x.2.writable = true) ∧
    transposeDoc ⟨exPP, tr, t.octave, true⟩ ms = .ok ms' ∧
    Sounds exPP.tables (reference true) ms [⟨⟨0, 4, 0⟩, none⟩] ∧
    Sounds exPP.tables (reference true) ms' [⟨⟨0, 2, 0⟩, none⟩] ∧
    tr ⟨0, 4, 0⟩ = ⟨1, 2, 0⟩ := by
  let t := Transposer.make ⟨-1, 0, 0⟩ ⟨-1, 5, 0⟩ majorScale
  obtain ⟨tr, ht⟩ := runs_exists t majorScale rfl
  have c1 : tr ⟨0, 0, 0⟩ = ⟨0, 5, 0⟩ := C22_deterministic t _ _ _ (ht _) ⟨3, by decide +kernel⟩
  have g1 : tr ⟨0, 4, 0⟩ = ⟨1, 2, 0⟩ := C22_deterministic t _ _ _ (ht _) ⟨3, by decide +kernel⟩
  refine ⟨t, tr, [.relative (some (nt 'c' 1)) [.apart .chordmode [] [.note (nt 'g' 1)]]],
    [.relative (some (nt 'a' 1)) [.apart .chordmode [] [.note (nt 'e' 1)]]], ht, ?_, ?_, ?_, ?_, g1⟩
  · intro x hx
    simp only [partsL, parts, List.append_nil, List.mem_cons, List.not_mem_nil, or_false, List.map_nil,
      List.nil_append] at hx
    rcases hx with rfl | rfl <;> rfl
  · have r1 : (exPP []).readNode ⟨['c'], 1⟩ = .ok ⟨0, 0, 0⟩ := by decide +kernel
    have r3 : (exPP []).readNode ⟨['g'], 1⟩ = .ok ⟨0, 4, 0⟩ := by decide +kernel
    have w1 : (exPP []).writeNode ⟨['c'], 1⟩ ⟨0, 5, 0⟩ = .ok ⟨['a'], 1⟩ := by decide +kernel
    have w3 : (exPP []).writeNode ⟨['g'], 1⟩ ⟨0, 2, 0⟩ = .ok ⟨['e'], 1⟩ := by decide +kernel
    have o : t.octave = 0 := by decide +kernel
    simp [transposeDoc, transposeList, transposeMus, transposeStart, transposeNote, nt,
      r1, r3, down, o, Walk.enter, Walk.leave, pure, Except.pure,
      Pitch.makeAbsolute, Pitch.makeRelative, Last.prev, c1, g1, w1, w3]
  · rw [sounds_iff exPP exDict]; rfl
  · rw [sounds_iff exPP exDict]; rfl

/-- C24: the two pitches of a `\transpose` outside `\relative` are transposed and lowered by the octaves of the transposer, both
by the same, so that the `\transpose` goes on meaning the same interval; and the notes in it are transposed. -/
theorem C24_transpose_arguments (pp : Langs) (hd : ∀ l, IsDict (pp l).table) (c : Ctx) (hc : c.pp = pp) (a b : Note) (ms : List Mus)
    (p q : Pitch) (hwa : a.writable = true) (hwb : b.writable = true) (hp : AbsNote pp.tables a p) (hq : AbsNote pp.tables b q)
    (ms' : List Mus) (he : transposeDoc c [.apart .transpose [a, b] ms] = .ok ms') :
    ∃ a' b' inner, ms' = [.apart .transpose [a', b'] inner] ∧ transposeDoc c ms = .ok inner ∧
      AbsNote pp.tables a' ⟨(c.tr p).octave - c.toct, (c.tr p).note, (c.tr p).alter⟩ ∧
      AbsNote pp.tables b' ⟨(c.tr q).octave - c.toct, (c.tr q).note, (c.tr q).alter⟩ := by
  subst hc
  unfold transposeDoc at he ⊢
  split at he
  · cases he
  · rename_i w ms1 h1
    cases he
    obtain ⟨w1, m1, ms2, e1, e2, rfl⟩ := transposeList_cons _ _ _ _ _ _ h1
    rw [transposeList] at e2
    cases e2
    simp only [transposeMus] at e1
    split at e1
    · cases e1
    · rename_i as has
      split at e1
      · cases e1
      · rename_i w2 inner hi
        cases e1
        have hi' : transposeList c (.pitches 0) ms = .ok (w2, inner) := hi
        rw [List.mapM_cons, List.mapM_cons, List.mapM_nil] at has
        cases ea : transposeAbs c c.toct a with
        | error x => rw [ea] at has; cases has
        | ok a' =>
          cases eb : transposeAbs c c.toct b with
          | error x => rw [ea, eb] at has; cases has
          | ok b' =>
            rw [ea, eb] at has
            cases has
            exact ⟨a', b', inner, rfl, by rw [hi'], transposeAbs_ok c hd _ a a' p hwa ea hp, transposeAbs_ok c hd _ b b' q hwb eb hq⟩

example : AbsNote exPP.tables (nt 'c' 0) ⟨-1, 0, 0⟩ ∧ AbsNote exPP.tables (nt 'd' 1) ⟨0, 1, 0⟩ ∧
    ∃ tr, Runs exT tr ∧ transposeDoc ⟨exPP, tr, exT.octave, true⟩ [.apart .transpose [nt 'c' 0, nt 'd' 1] [.note (nt 'c' 1)]] =
      .ok [.apart .transpose [nt 'd' 0, nt 'e' 1] [.note (nt 'd' 1)]] := by
  refine ⟨(absNote_iff exPP exDict _ _).2 (by decide +kernel), (absNote_iff exPP exDict _ _).2 (by decide +kernel), ?_⟩
  obtain ⟨tr, ht⟩ := runs_exists exT majorScale rfl
  have c1 : tr ⟨0, 0, 0⟩ = ⟨0, 1, 0⟩ := C22_deterministic exT _ _ _ (ht _) ⟨3, by decide +kernel⟩
  have c0 : tr ⟨-1, 0, 0⟩ = ⟨-1, 1, 0⟩ := C22_deterministic exT _ _ _ (ht _) ⟨3, by decide +kernel⟩
  have d1 : tr ⟨0, 1, 0⟩ = ⟨0, 2, 0⟩ := C22_deterministic exT _ _ _ (ht _) ⟨3, by decide +kernel⟩
  have r1 : (exPP []).readNode ⟨['c'], 1⟩ = .ok ⟨0, 0, 0⟩ := by decide +kernel
  have r2 : (exPP []).readNode ⟨['c'], 0⟩ = .ok ⟨-1, 0, 0⟩ := by decide +kernel
  have r3 : (exPP []).readNode ⟨['d'], 1⟩ = .ok ⟨0, 1, 0⟩ := by decide +kernel
  have w1 : (exPP []).writeNode ⟨['c'], 1⟩ ⟨0, 1, 0⟩ = .ok ⟨['d'], 1⟩ := by decide +kernel
  have w2 : (exPP []).writeNode ⟨['c'], 0⟩ ⟨-1, 1, 0⟩ = .ok ⟨['d'], 0⟩ := by decide +kernel
  have w3 : (exPP []).writeNode ⟨['d'], 1⟩ ⟨0, 2, 0⟩ = .ok ⟨['e'], 1⟩ := by decide +kernel
  have o : exT.octave = 0 := by decide +kernel
  exact ⟨tr, ht, by
    simp [transposeDoc, transposeList, transposeMus, transposeAbs, Processor.process, nt,
      r1, r2, r3, down, o, Walk.enter, Walk.leave, List.mapM_cons, bind, Except.bind, pure, Except.pure, c1, c0, d1, w1, w2, w3]⟩

/-- A language with a name in another octave, like the g and a of the bagpipe. -/
def mixedPP : Langs := fun _ => { lang := .other, table := [(['c'], (-1, 0, 0)), (['d'], (0, 1, 0))] }

/-- C24 fails for a language with names in different octaves: c' in `\relative` becomes
d instead of d' when it is transposed from c to d. -/
theorem C24_mixed_octaves : ∃ (t : Transposer) (tr : Pitch → Pitch) (ms ms' : List Mus), Runs t tr ∧
    (∀ l, IsDict (mixedPP l).table) ∧ (∀ x ∈ partsL ms, x.2.writable = true) ∧
    transposeDoc ⟨mixedPP, tr, t.octave, true⟩ ms = .ok ms' ∧
    Sounds mixedPP.tables (reference true) ms [⟨⟨0, 0, 0⟩, none⟩] ∧
    Sounds mixedPP.tables (reference true) ms' [⟨⟨-1, 1, 0⟩, none⟩] ∧
    tr ⟨0, 0, 0⟩ = ⟨0, 1, 0⟩ := by
  have hd : ∀ l, IsDict (mixedPP l).table := fun _ => by
    have : IsDict (mixedPP []).table := by unfold IsDict; decide +kernel
    exact this
  obtain ⟨tr, ht⟩ := runs_exists exT majorScale rfl
  have c1 : tr ⟨0, 0, 0⟩ = ⟨0, 1, 0⟩ := C22_deterministic exT _ _ _ (ht _) ⟨3, by decide +kernel⟩
  refine ⟨exT, tr, [.relative none [.note (nt 'c' 1)]], [.relative none [.note (nt 'd' 0)]],
    ht, hd, ?_, ?_, ?_, ?_, c1⟩
  · intro x hx
    simp only [partsL, parts, List.append_nil, List.mem_singleton] at hx
    subst hx; rfl
  · have r1 : (mixedPP []).readNode ⟨['c'], 1⟩ = .ok ⟨0, 0, 0⟩ := by decide +kernel
    have w1 : (mixedPP []).writeNode ⟨['c'], 1⟩ ⟨0, 1, 0⟩ = .ok ⟨['d'], 0⟩ := by decide +kernel
    simp [transposeDoc, transposeList, transposeMus, transposeNote, nt, r1, firstPitch,
      Pitch.makeAbsolute, Pitch.makeRelative, Last.prev, c1, w1]
  · rw [sounds_iff mixedPP hd]; rfl
  · rw [sounds_iff mixedPP hd]; rfl

/-- C24 fails for octave checks when there is a start pitch and the transposer
changes the octave: `\relative c' { c=' }` transposed an octave up becomes
`\relative c'' { c=' }` where the note is c'' and the check says c'. -/
theorem C24_octave_check_wrong : ∃ (t : Transposer) (tr : Pitch → Pitch) (ms ms' : List Mus), Runs t tr ∧
    (∀ x ∈ partsL ms, x.2.writable = true) ∧
    transposeDoc ⟨exPP, tr, t.octave, true⟩ ms = .ok ms' ∧
    Sounds exPP.tables (reference true) ms [⟨⟨0, 0, 0⟩, some 0⟩] ∧
    Sounds exPP.tables (reference true) ms' [⟨⟨1, 0, 0⟩, some 0⟩] := by
  obtain ⟨tr, ht⟩ := runs_exists exOct majorScale rfl
  have c1 : tr ⟨0, 0, 0⟩ = ⟨1, 0, 0⟩ := C22_deterministic exOct _ _ _ (ht _) ⟨3, by decide +kernel⟩
  have c0 : tr ⟨-1, 0, 0⟩ = ⟨0, 0, 0⟩ := C22_deterministic exOct _ _ _ (ht _) ⟨3, by decide +kernel⟩
  refine ⟨exOct, tr, [.relative (some (nt 'c' 1)) [.note (nt 'c' 0 (some 1))]],
    [.relative (some (nt 'c' 2)) [.note (nt 'c' 0 (some 1))]], ht, ?_, ?_, ?_, ?_⟩
  · intro x hx
    simp only [partsL, parts, List.append_nil, List.mem_cons, List.not_mem_nil, or_false] at hx
    rcases hx with rfl | rfl <;> rfl
  · have r1 : (exPP []).readNode ⟨['c'], 1⟩ = .ok ⟨0, 0, 0⟩ := by decide +kernel
    have r2 : (exPP []).readNode ⟨['c'], 0⟩ = .ok ⟨-1, 0, 0⟩ := by decide +kernel
    have w1 : (exPP []).writeNode ⟨['c'], 1⟩ ⟨1, 0, 0⟩ = .ok ⟨['c'], 2⟩ := by decide +kernel
    have w2 : (exPP []).writeNode ⟨['c'], 0⟩ ⟨-1, 0, 0⟩ = .ok ⟨['c'], 0⟩ := by decide +kernel
    have o : exOct.octave = 1 := by decide +kernel
    simp [transposeDoc, transposeList, transposeMus, transposeStart, transposeNote, nt, r1, r2, down, o,
      Pitch.makeAbsolute, Pitch.makeRelative, Last.prev, c1, c0, w1, w2]
  · rw [sounds_iff exPP exDict]; rfl
  · rw [sounds_iff exPP exDict]; rfl

/-! ## C56: `\fixed` and `\key` -/

/-- C56: music in `\fixed` sounds transposed when transposing the pitch of `\fixed`
changes its octave by what the transposer says, so when the note name does not
cross the c.  Missing: without that it is wrong (`C56_fixed_wrong`). -/
theorem C56_fixed_partial (pp : Langs) (hd : ∀ l, IsDict (pp l).table) (h1 : ∀ l, OneOctave (pp l).table)
    (t : Transposer) (tr : Pitch → Pitch) (ht : Runs t tr) (firstAbs : Bool) (s : Note) (q : Pitch) (ms ms' : List Mus) (hs : List Heard)
    (hw : ∀ x ∈ partsL [.fixed s ms], x.2.writable = true) (hq : AbsNote pp.tables s q)
    (hf : (tr q).octave = q.octave + t.octave) (hn : ∀ x ∈ partsL ms, x.1 ≠ .fixed)
    (ha : ApartOkL (fun _ => False) false ms)
    (hs0 : Sounds pp.tables (reference firstAbs) [.fixed s ms] hs)
    (he : transposeDoc ⟨pp, tr, t.octave, firstAbs⟩ [.fixed s ms] = .ok ms') :
    ∃ hs', Sounds pp.tables (reference firstAbs) ms' hs' ∧ pitches hs' = (pitches hs).map tr := by
  refine C24_transposes_partial pp hd h1 t tr ht firstAbs _ ms' hs hw ?_ (by simpa [ApartOkL, ApartOk] using ha) hs0 he
  intro x hx hx1 q' hq'
  simp only [partsL, parts, List.append_nil, List.mem_cons] at hx
  rcases hx with rfl | hx
  · have e1 := (absNote_iff pp hd _ _).1 hq
    have e2 := (absNote_iff pp hd _ _).1 hq'
    rw [e1] at e2
    cases e2
    exact hf
  · exact absurd hx1 (hn x hx)

/-- C56: transposing `\fixed c' { f }` (which sounds f') from f down to c gives
`\fixed g { c }`, which sounds c and not c'. -/
theorem C56_fixed_wrong : ∃ (t : Transposer) (tr : Pitch → Pitch) (ms ms' : List Mus), Runs t tr ∧
    (∀ x ∈ partsL ms, x.2.writable = true) ∧
    transposeDoc ⟨exPP, tr, t.octave, true⟩ ms = .ok ms' ∧
    Sounds exPP.tables (reference true) ms [⟨⟨0, 3, 0⟩, none⟩] ∧
    Sounds exPP.tables (reference true) ms' [⟨⟨-1, 0, 0⟩, none⟩] ∧
    tr ⟨0, 3, 0⟩ = ⟨0, 0, 0⟩ := by
  let t := Transposer.make ⟨-1, 3, 0⟩ ⟨-1, 0, 0⟩ majorScale
  obtain ⟨tr, ht⟩ := runs_exists t majorScale rfl
  have c1 : tr ⟨0, 0, 0⟩ = ⟨-1, 4, 0⟩ := C22_deterministic t _ _ _ (ht _) ⟨3, by decide +kernel⟩
  have f0 : tr ⟨-1, 3, 0⟩ = ⟨-1, 0, 0⟩ := C22_deterministic t _ _ _ (ht _) ⟨3, by decide +kernel⟩
  have f1 : tr ⟨0, 3, 0⟩ = ⟨0, 0, 0⟩ := C22_deterministic t _ _ _ (ht _) ⟨3, by decide +kernel⟩
  refine ⟨t, tr, [.fixed (nt 'c' 1) [.note (nt 'f' 0)]], [.fixed (nt 'g' 0) [.note (nt 'c' 0)]], ht, ?_, ?_, ?_, ?_, f1⟩
  · intro x hx
    simp only [partsL, parts, List.append_nil, List.mem_cons, List.not_mem_nil, or_false] at hx
    rcases hx with rfl | rfl <;> rfl
  · have r1 : (exPP []).readNode ⟨['c'], 1⟩ = .ok ⟨0, 0, 0⟩ := by decide +kernel
    have r2 : (exPP []).readNode ⟨['f'], 0⟩ = .ok ⟨-1, 3, 0⟩ := by decide +kernel
    have w1 : (exPP []).writeNode ⟨['c'], 1⟩ ⟨-1, 4, 0⟩ = .ok ⟨['g'], 0⟩ := by decide +kernel
    have w2 : (exPP []).writeNode ⟨['f'], 0⟩ ⟨-1, 0, 0⟩ = .ok ⟨['c'], 0⟩ := by decide +kernel
    have o : t.octave = 0 := by decide +kernel
    simp [transposeDoc, transposeList, transposeMus, transposeAbs, Processor.process, nt, r1, r2, down, o,
      c1, f0, w1, w2]
  · rw [sounds_iff exPP exDict]; rfl
  · rw [sounds_iff exPP exDict]; rfl

/-- C56: the pitch of `\key` is transposed but keeps its octave. -/
theorem C56_key (pp : Langs) (hd : ∀ l, IsDict (pp l).table) (tr : Pitch → Pitch) (toct : ℤ) (firstAbs : Bool) (n n' : Note) (p : Pitch)
    (hw : n.writable = true) (hp : AbsNote pp.tables n p)
    (he : transposeDoc ⟨pp, tr, toct, firstAbs⟩ [.key n] = .ok [.key n']) :
    AbsNote pp.tables n' ⟨p.octave, (tr p).note, (tr p).alter⟩ := by
  have hr := (absNote_iff pp hd _ _).1 hp
  simp only [transposeDoc, transposeList, transposeMus, transposeKey, Processor.process, hr, hw, if_true] at he
  split at he
  · cases he
  · rename_i w ms h
    cases he
    split at h
    · cases h
    · rename_i w2 m2 h2
      cases h
      split at h2
      · cases h2
      · rename_i n2 h3
        cases h2
        split at h3
        · rename_i nd hnd
          cases h3
          exact (absNote_iff pp hd _ _).2 (C16_write_read _ (hd _) _ _ _ hnd)
        · cases h3

example : ∃ tr n', Runs exT tr ∧ transposeDoc ⟨exPP, tr, exT.octave, true⟩ [.key (nt 'b' 0)] = .ok [.key n'] ∧
    AbsNote exPP.tables n' ⟨-1, 0, 1/2⟩ := by
  obtain ⟨tr, ht⟩ := runs_exists exT majorScale rfl
  have b0 : tr ⟨-1, 6, 0⟩ = ⟨0, 0, 1/2⟩ := C22_deterministic exT _ _ _ (ht _) ⟨3, by decide +kernel⟩
  have r1 : (exPP []).readNode ⟨['b'], 0⟩ = .ok ⟨-1, 6, 0⟩ := by decide +kernel
  have w1 : (exPP []).writeNode ⟨['b'], 0⟩ ⟨-1, 0, 1/2⟩ = .ok ⟨['c', 'i', 's'], 0⟩ := by decide +kernel
  have e : transposeDoc ⟨exPP, tr, exT.octave, true⟩ [.key (nt 'b' 0)] = .ok [.key { node := ⟨['c', 'i', 's'], 0⟩ }] := by
    simp only [one_div] at w1
    simp [transposeDoc, transposeList, transposeMus, transposeKey, Processor.process, nt, r1, b0, w1]
  refine ⟨tr, _, ht, e, ?_⟩
  have := C56_key exPP exDict tr _ true _ _ ⟨-1, 6, 0⟩ rfl ((absNote_iff exPP exDict _ _).2 r1) e
  rwa [b0] at this

/-! ## C25: relative to absolute and back -/

/-- C25: `rel2abs` succeeds on all music that can be read, and leaves the pitch
of every note, chord notes included, as it was.  Missing: no `\relative` may be inside a
`\fixed` (`C25_relative_in_fixed` shows what happens else), and no `\chordmode` in a `\relative`
(`C25_chordmode_in_relative`); and every node is visited once, in order, see `C25_document_partial` for the loops of the code. -/
theorem C25_rel2abs_partial (pp : Langs) (hd : ∀ l, IsDict (pp l).table) (firstAbs : Bool) (ms : List Mus) (hs : List Heard)
    (hs0 : Sounds pp.tables (reference firstAbs) ms hs) (hf : FixedPlainL ms)
    (ha : ApartOkL (· = .transpose) false ms) :
    ∃ l ms' hs', rel2absList pp firstAbs none ms = .ok (l, ms') ∧
      Sounds pp.tables (reference firstAbs) ms' hs' ∧ pitches hs' = pitches hs := by
  obtain ⟨m, hh⟩ := hs0
  obtain ⟨l', ms2, hs2, a1, a2, _, a4⟩ := hears_rel2abs pp hd firstAbs hh none (.abs 0) (.abs (.inl rfl)) hf ha
  exact ⟨l', ms2, hs2, a1, ⟨_, a2⟩, a4⟩

/-- C25: and there is no `\relative` any more. -/
theorem C25_no_relative_left (pp : Langs) (firstAbs : Bool) (ms ms' : List Mus) (l : Option Pitch)
    (h : rel2absList pp firstAbs none ms = .ok (l, ms')) : NoRelativeL ms' :=
  rel2absList_plain pp firstAbs ms none l ms' h

example : rel2absList exPP true none exDoc = .ok (none,
    [.note (nt 'c' 1), .group [.note (nt 'c' 1), .chord [nt 'e' 1, nt 'g' 1], .note (nt 'b' 0)]]) := by rfl
example : FixedPlainL exDoc := by simp [exDoc, FixedPlainL, FixedPlain]

/-- C25 fails for `\relative` in `\fixed`: `\fixed c' { \relative c' { c } }` sounds c' and is
turned into `\fixed c' { c' }`, which sounds c''. -/
theorem C25_relative_in_fixed :
    ∃ ms ms' : List Mus, rel2absList exPP true none ms = .ok (none, ms') ∧
      Sounds exPP.tables (reference true) ms [⟨⟨0, 0, 0⟩, none⟩] ∧
      Sounds exPP.tables (reference true) ms' [⟨⟨1, 0, 0⟩, none⟩] :=
  ⟨[.fixed (nt 'c' 1) [.relative (some (nt 'c' 1)) [.note (nt 'c' 0)]]], [.fixed (nt 'c' 1) [.note (nt 'c' 1)]], rfl,
    (sounds_iff exPP exDict _ _ _).2 rfl, (sounds_iff exPP exDict _ _ _).2 rfl⟩

/-- C25 fails for `\chordmode` in `\relative`: `\relative c' { c' \chordmode { c } }` sounds c'' and
the chord on c, which is taken for relative music and becomes one on c''. -/
theorem C25_chordmode_in_relative :
    ∃ ms ms' : List Mus, rel2absList exPP true none ms = .ok (none, ms') ∧
      Sounds exPP.tables (reference true) ms [⟨⟨1, 0, 0⟩, none⟩, ⟨⟨-1, 0, 0⟩, none⟩] ∧
      Sounds exPP.tables (reference true) ms' [⟨⟨1, 0, 0⟩, none⟩, ⟨⟨1, 0, 0⟩, none⟩] :=
  ⟨[.relative (some (nt 'c' 1)) [.group [.note (nt 'c' 1), .apart .chordmode [] [.group [.note (nt 'c' 0)]]]]],
    [.group [.note (nt 'c' 2), .apart .chordmode [] [.group [.note (nt 'c' 2)]]]], rfl,
    (sounds_iff exPP exDict _ _ _).2 rfl, (sounds_iff exPP exDict _ _ _).2 rfl⟩

/-- C25: `abs2rel` succeeds on all absolute music and leaves the pitch of every note
as it was, with and without a start pitch and for both meanings of the first
pitch.  Missing: there must be no chords (`C25_abs2rel_chord`), no octave checks
(`C25_abs2rel_check`), no `\relative` (`C25_abs2rel_nested`) and no `\chordmode` (`C25_abs2rel_chordmode`) in it. -/
theorem C25_abs2rel_partial (pp : Langs) (hd : ∀ l, IsDict (pp l).table) (st : Settings)
    (hc : st.startPitch = true → ∀ lang, ∃ name o, Means (pp lang).table name o 0 0) (ms : List Mus) (hs : List Heard)
    (hs0 : Sounds pp.tables (reference st.firstAbs) ms hs) (hm : MelodyL ms) :
    ∃ rel hs', makeRelative pp st ms = .ok rel ∧
      Sounds pp.tables (reference st.firstAbs) [rel] hs' ∧ pitches hs' = pitches hs := by
  obtain ⟨m, hh⟩ := hs0
  obtain ⟨s', ms2, a1, a2⟩ := hears_relList_first pp hd st hc _ hh rfl hm
  have key : ∃ hs2, Sounds pp.tables (reference st.firstAbs) [.relative s'.start [.group ms2]] hs2 ∧
      pitches hs2 = pitches hs := by
    rcases a2 with ⟨rfl, a2⟩ | ⟨ref, l', hs2, _, e2, a2, a3⟩
    · obtain ⟨hs2, x, y⟩ := a2 (reference st.firstAbs)
      exact ⟨_, ⟨_, .relative (.group x (.nil _)) (.nil _)⟩, by simpa using y⟩
    · unfold RefOk at e2
      split at e2
      · obtain ⟨n, hn, hr⟩ := e2
        rw [hn]
        exact ⟨_, ⟨_, .relativeFrom hr (.group a2 (.nil _)) (.nil _)⟩, by simpa using a3⟩
      · rw [e2.1]
        rw [e2.2] at a2
        exact ⟨_, ⟨_, .relative (.group a2 (.nil _)) (.nil _)⟩, by simpa using a3⟩
  obtain ⟨hs2, k1, k2⟩ := key
  refine ⟨_, hs2, ?_, k1, k2⟩
  unfold makeRelative
  rw [a1]

/-- C25: `abs2rel` followed by `rel2abs` gives back the same pitches, for every
choice of start pitch and first-pitch mode.  Missing: as for the two steps. -/
theorem C25_round_trip_partial (pp : Langs) (hd : ∀ l, IsDict (pp l).table) (st : Settings)
    (hc : st.startPitch = true → ∀ lang, ∃ name o, Means (pp lang).table name o 0 0) (ms : List Mus) (hs : List Heard)
    (hs0 : Sounds pp.tables (reference st.firstAbs) ms hs) (hm : MelodyL ms) (rel : Mus) (l : Option Pitch) (ms' : List Mus)
    (h1 : makeRelative pp st ms = .ok rel) (h2 : rel2absList pp st.firstAbs none [rel] = .ok (l, ms'))
    (hf : FixedPlain rel) (ha : ApartOk (· = .transpose) false rel) :
    ∃ hs', Sounds pp.tables (reference st.firstAbs) ms' hs' ∧ pitches hs' = pitches hs := by
  obtain ⟨rel', hs1, a1, a2, a3⟩ := C25_abs2rel_partial pp hd st hc ms hs hs0 hm
  rw [h1] at a1
  cases a1
  obtain ⟨l', ms2, hs2, b1, b2, b3⟩ := C25_rel2abs_partial pp hd st.firstAbs [rel] hs1 a2
    (by rw [FixedPlainL]; exact ⟨hf, by simp [FixedPlainL]⟩) (by rw [ApartOkL]; exact ⟨ha, by simp [ApartOkL]⟩)
  rw [h2] at b1
  cases b1
  exact ⟨hs2, b2, b3.trans a3⟩

/-- `{ c' { g' c'' } b }`. -/
def exMelody : List Mus := [.note (nt 'c' 1), .group [.note (nt 'g' 1), .note (nt 'c' 2)], .note (nt 'b' 0)]

example : makeRelative exPP ⟨true, true⟩ exMelody = .ok (.relative (some (nt 'c' 1))
    [.group [.note (nt 'c' 0), .group [.note (nt 'g' 1), .note (nt 'c' 0)], .note (nt 'b' (-1))]]) := by with_unfolding_all rfl
example : makeRelative exPP ⟨false, true⟩ exMelody = .ok (.relative none
    [.group [.note (nt 'c' 1), .group [.note (nt 'g' 1), .note (nt 'c' 0)], .note (nt 'b' (-1))]]) := by with_unfolding_all rfl
example : makeRelative exPP ⟨false, false⟩ exMelody = .ok (.relative none
    [.group [.note (nt 'c' 0), .group [.note (nt 'g' 1), .note (nt 'c' 0)], .note (nt 'b' (-1))]]) := by with_unfolding_all rfl
example : MelodyL exMelody := by simp [exMelody, MelodyL, Melody]
example (f : Pitch) : Sounds exPP.tables f exMelody
    [⟨⟨0, 0, 0⟩, none⟩, ⟨⟨0, 4, 0⟩, none⟩, ⟨⟨1, 0, 0⟩, none⟩, ⟨⟨-1, 6, 0⟩, none⟩] :=
  (sounds_iff exPP exDict _ _ _).2 rfl

/-- C25 fails for chords: `abs2rel` does not change the notes in them, so
`{ c' <e' g'> }` becomes `\relative c' { c <e' g'> }`, which sounds c' e'' and the g two octaves up. -/
theorem C25_abs2rel_chord :
    ∃ (ms : List Mus) (rel : Mus), makeRelative exPP ⟨true, true⟩ ms = .ok rel ∧
      Sounds exPP.tables (reference true) ms [⟨⟨0, 0, 0⟩, none⟩, ⟨⟨0, 2, 0⟩, none⟩, ⟨⟨0, 4, 0⟩, none⟩] ∧
      Sounds exPP.tables (reference true) [rel] [⟨⟨0, 0, 0⟩, none⟩, ⟨⟨1, 2, 0⟩, none⟩, ⟨⟨2, 4, 0⟩, none⟩] :=
  ⟨[.note (nt 'c' 1), .chord [nt 'e' 1, nt 'g' 1]],
    .relative (some (nt 'c' 1)) [.group [.note (nt 'c' 0), .chord [nt 'e' 1, nt 'g' 1]]], by with_unfolding_all rfl,
    (sounds_iff exPP exDict _ _ _).2 rfl, (sounds_iff exPP exDict _ _ _).2 rfl⟩

/-- C25 fails for `\octaveCheck`: its pitch is made relative like a note, but it is always
absolute, so the note after it is in the wrong octave. -/
theorem C25_abs2rel_check :
    ∃ (ms : List Mus) (rel : Mus), makeRelative exPP ⟨true, true⟩ ms = .ok rel ∧
      Sounds exPP.tables (reference true) ms [⟨⟨0, 0, 0⟩, none⟩, ⟨⟨0, 1, 0⟩, none⟩] ∧
      Sounds exPP.tables (reference true) [rel] [⟨⟨0, 0, 0⟩, none⟩, ⟨⟨-1, 1, 0⟩, none⟩] :=
  ⟨[.note (nt 'c' 1), .check (nt 'c' 1), .note (nt 'd' 1)],
    .relative (some (nt 'c' 1)) [.group [.note (nt 'c' 0), .check (nt 'c' 0), .note (nt 'd' 0)]], by with_unfolding_all rfl,
    (sounds_iff exPP exDict _ _ _).2 rfl, (sounds_iff exPP exDict _ _ _).2 rfl⟩

/-- C25 fails for a `\relative` in the absolute music: its notes, which are relative already, are
taken for absolute ones. -/
theorem C25_abs2rel_nested :
    ∃ (ms : List Mus) (rel : Mus), makeRelative exPP ⟨true, true⟩ ms = .ok rel ∧
      Sounds exPP.tables (reference true) ms [⟨⟨0, 0, 0⟩, none⟩, ⟨⟨0, 0, 0⟩, none⟩, ⟨⟨0, 1, 0⟩, none⟩] ∧
      Sounds exPP.tables (reference true) [rel] [⟨⟨0, 0, 0⟩, none⟩, ⟨⟨-2, 0, 0⟩, none⟩, ⟨⟨-2, 1, 0⟩, none⟩] :=
  ⟨[.note (nt 'c' 1), .relative (some (nt 'c' 1)) [.note (nt 'c' 0), .note (nt 'd' 0)]],
    .relative (some (nt 'c' 1)) [.group [.note (nt 'c' 0),
      .relative (some (nt 'c' 0)) [.note (nt 'c' (-1)), .note (nt 'd' 0)]]], by with_unfolding_all rfl,
    (sounds_iff exPP exDict _ _ _).2 rfl, (sounds_iff exPP exDict _ _ _).2 rfl⟩

/-- C25 fails for `\chordmode` in the absolute music: `{ c' \chordmode { c' } }` becomes `\relative c' { c \chordmode { c } }`, whose chord
is an octave lower. -/
theorem C25_abs2rel_chordmode :
    ∃ (ms : List Mus) (rel : Mus), makeRelative exPP ⟨true, true⟩ ms = .ok rel ∧
      Sounds exPP.tables (reference true) ms [⟨⟨0, 0, 0⟩, none⟩, ⟨⟨0, 0, 0⟩, none⟩] ∧
      Sounds exPP.tables (reference true) [rel] [⟨⟨0, 0, 0⟩, none⟩, ⟨⟨-1, 0, 0⟩, none⟩] :=
  ⟨[.note (nt 'c' 1), .apart .chordmode [] [.group [.note (nt 'c' 1)]]],
    .relative (some (nt 'c' 1)) [.group [.note (nt 'c' 0), .apart .chordmode [] [.group [.note (nt 'c' 0)]]]], by with_unfolding_all rfl,
    (sounds_iff exPP exDict _ _ _).2 rfl, (sounds_iff exPP exDict _ _ _).2 rfl⟩

end Quickly.Relative
