import Verif.Pitch.Lemmas

/-!
# Properties C11-C18: pitches, pitch names, languages
-/

namespace Quickly.Pitch

open Spec

/-! ## C11 -/

/-- C11: making absolute, then relative with the same arguments, gives the
pitch back. -/
theorem C11_relative_after_absolute (p prev : Pitch) (dflt : ℤ) (l : ℕ) :
    (p.makeAbsolute prev dflt l).makeRelative prev dflt l = p := by
  simp [Pitch.makeAbsolute, Pitch.makeRelative]

/-- C11: and the other way round. -/
theorem C11_absolute_after_relative (p prev : Pitch) (dflt : ℤ) (l : ℕ) :
    (p.makeRelative prev dflt l).makeAbsolute prev dflt l = p := by
  simp [Pitch.makeAbsolute, Pitch.makeRelative]

/-- C11: only the octave changes. -/
theorem C11_only_octave (p prev : Pitch) (dflt : ℤ) (l : ℕ) :
    (p.makeAbsolute prev dflt l).note = p.note ∧ (p.makeAbsolute prev dflt l).alter = p.alter ∧
    (p.makeRelative prev dflt l).note = p.note ∧ (p.makeRelative prev dflt l).alter = p.alter := by
  simp [Pitch.makeAbsolute, Pitch.makeRelative]

example : (Pitch.makeAbsolute ⟨0, 6, 1/2⟩ ⟨2, 0, 0⟩ (-1) 7) = ⟨2, 6, 1/2⟩ := by
  norm_num [Pitch.makeAbsolute]

/-! ## C12 -/

/-- C12: a name without octave marks (its octave is the default octave) made
absolute lies at most three staff steps from the previous pitch, and it is the
only octave of that note that does. -/
theorem C12_nearest (p prev : Pitch) (dflt : ℤ) (h : p.octave = dflt) :
    |staff 7 (p.makeAbsolute prev dflt 7) - staff 7 prev| ≤ 3 ∧
    ∀ q : Pitch, q.note = p.note → |staff 7 q - staff 7 prev| ≤ 3 →
      q.octave = (p.makeAbsolute prev dflt 7).octave := by
  simp only [staff, Pitch.makeAbsolute, h, abs_le]
  refine ⟨by push_cast; omega, ?_⟩
  intro q hq hb
  rw [hq] at hb
  push_cast at *
  omega

/-- C12: each octave mark moves the result by exactly one octave. -/
theorem C12_octave_marks (p prev : Pitch) (dflt marks : ℤ) (l : ℕ) :
    ({p with octave := dflt + marks} : Pitch).makeAbsolute prev dflt l =
      {p with octave := (({p with octave := dflt} : Pitch).makeAbsolute prev dflt l).octave + marks} := by
  simp only [Pitch.makeAbsolute, Pitch.mk.injEq, and_true]
  ring

/-- C12, for a scale of any positive length: the result lies from three steps
below to `l - 4` steps above the previous pitch. -/
theorem C12_any_scale (p prev : Pitch) (dflt : ℤ) (l : ℕ) (hl : 0 < l) (h : p.octave = dflt) :
    -3 ≤ staff l (p.makeAbsolute prev dflt l) - staff l prev ∧
    staff l (p.makeAbsolute prev dflt l) - staff l prev ≤ l - 4 := by
  have e : staff l (p.makeAbsolute prev dflt l) - staff l prev
      = (p.note - prev.note + 3) % (l : ℤ) - 3 := by
    rw [Int.emod_def]
    simp only [staff, Pitch.makeAbsolute, h]
    ring
  have h1 := Int.emod_nonneg (p.note - prev.note + 3) (b := (l : ℤ)) (by omega)
  have h2 := Int.emod_lt_of_pos (p.note - prev.note + 3) (b := (l : ℤ)) (by omega)
  omega

-- b after c'' goes down: b'
example : staff 7 (Pitch.makeAbsolute ⟨-1, 6, 0⟩ ⟨1, 0, 0⟩ (-1) 7) = staff 7 ⟨1, 0, 0⟩ - 1 := by
  norm_num [staff, Pitch.makeAbsolute]

/-! ## C13 -/

/-- C13: whatever scale and flats, if `from_midi` gives a pitch, that pitch has
the MIDI number it came from. -/
theorem C13_round_trip (key : ℤ) (scale flats : List ℚ) (p : Pitch)
    (h : fromMidi key scale flats = .ok p) : p.toMidi scale = .ok key := by
  unfold fromMidi at h
  dsimp only at h
  split at h
  · rename_i s hs
    cases h
    simp only [Pitch.toMidi, hs]
    have : ((((key / 12 - 5 + 5) * 12 : ℤ)) : ℚ) + (s + (((key % 12 : ℤ) : ℚ) / 2 - s)) * 2 = (key : ℚ) := by
      have e : key = (key / 12 - 5 + 5) * 12 + key % 12 := by omega
      conv_rhs => rw [e]
      push_cast
      ring
    rw [this, trunc_intCast]
  · exact absurd h (by simp)

/-- C13: with the default scale `from_midi` succeeds for every key and every
set of flats; naturals have no alteration, black keys get a flat when listed
in `flats` and a sharp otherwise. -/
theorem C13_spelling (key : ℤ) (flats : List ℚ) :
    ∃ p, fromMidi key majorScale flats = .ok p ∧ p.octave = key / 12 - 5 ∧
      0 ≤ p.note ∧ p.note ≤ 6 ∧
      p.alter = if key % 12 ∈ ([0, 2, 4, 5, 7, 9, 11] : List ℤ) then 0
        else if ((key % 12 : ℤ) : ℚ) / 2 ∈ flats then -(1/2) else 1/2 := by
  have h0 := Int.emod_nonneg key (b := 12) (by norm_num)
  have h1 := Int.emod_lt_of_pos key (b := 12) (by norm_num)
  obtain ⟨k, hk⟩ : ∃ k : ℕ, key % 12 = k := ⟨(key % 12).toNat, by omega⟩
  have hk12 : k < 12 := by omega
  unfold fromMidi
  simp only [hk, Int.cast_natCast]
  by_cases hf : ((k : ℚ) / 2) ∈ flats
  · obtain ⟨a1, a2, a3⟩ := midi_flat ⟨k, hk12⟩
    simp only at a1 a2 a3
    simp only [if_pos hf, a3]
    refine ⟨_, rfl, rfl, a1, a2, ?_⟩
    simp only
    split <;> ring
  · obtain ⟨a1, a2, a3⟩ := midi_sharp ⟨k, hk12⟩
    simp only at a1 a2 a3
    simp only [if_neg hf, a3]
    refine ⟨_, rfl, rfl, a1, a2, ?_⟩
    simp only
    split <;> ring

/-- C13: with the default flats only e flat and b flat are spelled with a flat. -/
theorem C13_default_flats (key : ℤ) :
    ∃ p, fromMidi key majorScale majorFlats = .ok p ∧ p.toMidi majorScale = .ok key ∧
      (p.alter < 0 ↔ key % 12 = 3 ∨ key % 12 = 10) := by
  obtain ⟨p, hp, _, _, _, ha⟩ := C13_spelling key majorFlats
  refine ⟨p, hp, C13_round_trip _ _ _ _ hp, ?_⟩
  rw [ha]
  have h0 := Int.emod_nonneg key (b := 12) (by norm_num)
  have h1 := Int.emod_lt_of_pos key (b := 12) (by norm_num)
  obtain ⟨k, hk⟩ : ∃ k : ℕ, key % 12 = k := ⟨(key % 12).toNat, by omega⟩
  rw [hk]
  have hk12 : k < 12 := by omega
  have : ∀ k : Fin 12, (if ((k.val : ℕ) : ℤ) ∈ ([0, 2, 4, 5, 7, 9, 11] : List ℤ) then (0 : ℚ)
      else if (((k.val : ℕ) : ℤ) : ℚ) / 2 ∈ majorFlats then -(1/2) else 1/2) < 0 ↔
      ((k.val : ℕ) : ℤ) = 3 ∨ ((k.val : ℕ) : ℤ) = 10 := by decide +kernel
  exact this ⟨k, hk12⟩

example : fromMidi 70 majorScale majorFlats = .ok ⟨0, 6, -(1/2)⟩ := by
  decide +kernel

/-! ## C14 -/

/-- C14: of `p < q`, `p == q`, `q < p` exactly one holds. -/
theorem C14_trichotomy (p q : Pitch) :
    (p.lt q = true ∧ p.eq q = false ∧ q.lt p = false) ∨
    (p.lt q = false ∧ p.eq q = true ∧ q.lt p = false) ∨
    (p.lt q = false ∧ p.eq q = false ∧ q.lt p = true) := by
  unfold Pitch.lt Pitch.eq
  rcases lt_trichotomy p.octave q.octave with h | h | h
  · left; simp [h, h.ne, h.ne', h.le]
  · rcases lt_trichotomy p.note q.note with h' | h' | h'
    · left; simp [h, h', h'.ne, h'.ne', h'.le]
    · rcases lt_trichotomy p.alter q.alter with h'' | h'' | h''
      · left; simp [h, h', h'', h''.ne, h''.le]
      · right; left; simp [h, h', h'']
      · right; right; simp [h, h', h'', h''.ne', h''.le]
    · right; right; simp [h, h', h'.ne, h'.ne', h'.le]
  · right; right; simp [h, h.ne, h.ne', h.le]

/-- C14: `<` is transitive. -/
theorem C14_transitive (p q r : Pitch) (h1 : p.lt q = true) (h2 : q.lt r = true) : p.lt r = true := by
  unfold Pitch.lt at *
  split at h1 <;> split at h2 <;> split <;> (try split at h1) <;> (try split at h2) <;> (try split) <;>
    simp only [decide_eq_true_eq, ne_eq, not_not] at * <;> (try omega) <;> (try exact lt_trans h1 h2) <;>
    exact absurd trivial (by simp_all; try omega)

/-- C14: `>` is `<` turned around, `<=` is "less or equal", `>=` is "greater or
equal", `!=` is the negation of `==`. -/
theorem C14_consistent (p q : Pitch) :
    p.gt q = q.lt p ∧ p.le q = (p.lt q || p.eq q) ∧ p.ge q = (q.lt p || p.eq q) ∧
    p.ne q = !(p.eq q) := by
  unfold Pitch.gt Pitch.lt Pitch.le Pitch.ge Pitch.eq Pitch.ne
  by_cases h : p.octave = q.octave
  · by_cases h' : p.note = q.note
    · simp only [h, h', ne_eq, not_true_eq_false, if_false, true_and, false_or]
      refine ⟨?_, ?_, ?_⟩
      · rw [Bool.eq_iff_iff]; simp [le_iff_lt_or_eq]
      · rw [Bool.eq_iff_iff]; simp only [decide_eq_true_eq, Bool.or_eq_true, le_iff_lt_or_eq,
          eq_comm (a := p.alter)]
      · simp
    · simp [h, h', Ne.symm h', eq_comm]
  · simp [h, Ne.symm h, eq_comm]

/-- C14: `==` is equality of the three attributes, and a copy compares equal. -/
theorem C14_eq_copy (p q : Pitch) : (p.eq q = true ↔ p = q) ∧ p.eq p.copy = true := by
  obtain ⟨a, b, c⟩ := p
  obtain ⟨d, e, f⟩ := q
  simp [Pitch.eq, Pitch.copy]

example : Pitch.lt ⟨0, 6, 1⟩ ⟨1, 0, -1⟩ = true := by decide

/-! ## C15 -/

/-- C15: the name and octave returned by `name_octave` read back as exactly the
pitch, and the octave of the name is the nearest one available for the note. -/
theorem C15_name_reads_back (pp : Processor) (hd : IsDict pp.table) (p : Pitch) (name : Str) (oct : ℤ)
    (h : pp.nameOctave p = .ok (name, oct)) :
    (∃ q, pp.pitch name = .ok q ∧ { q with octave := q.octave + oct } = p) ∧
    pp.readNode ⟨name, oct⟩ = .ok p ∧
    ∀ name' o', Means pp.table name' o' p.note p.alter → |oct| ≤ |p.octave - o'| := by
  rcases nameOctave_spec pp p with ⟨n, o, hm, he, hmin⟩ | ⟨_, he⟩
  · rw [he] at h
    cases h
    have hp : pp.pitch name = .ok ⟨o, p.note, p.alter⟩ := by
      simp only [Processor.pitch, Table.get_of_mem _ hd _ _ hm]
    have hq : (⟨o + (p.octave - o), p.note, p.alter⟩ : Pitch) = p := by
      rw [show o + (p.octave - o) = p.octave by ring]
    refine ⟨⟨_, hp, hq⟩, ?_, ?_⟩
    · simp only [Processor.readNode, hp]
      rw [hq]
    · intro n' o' hm'
      have := hmin n' o' hm'
      rwa [abs_sub_comm o, abs_sub_comm o'] at this
  · rw [he] at h; exact absurd h (by simp)

/-- C15: `name_octave` raises KeyError when the language has no name for the
note and alteration, and succeeds otherwise. -/
theorem C15_key_error (pp : Processor) (p : Pitch) :
    (pp.nameOctave p = .error .keyError ↔ ∀ name o, ¬ Means pp.table name o p.note p.alter) ∧
    ((∃ name o, Means pp.table name o p.note p.alter) → ∃ r, pp.nameOctave p = .ok r) := by
  rcases nameOctave_spec pp p with ⟨n, o, hm, he, _⟩ | ⟨hn, he⟩
  · rw [he]
    refine ⟨⟨fun h => absurd h (by simp), fun h => absurd hm (h _ _)⟩, fun _ => ⟨_, rfl⟩⟩
  · rw [he]
    exact ⟨⟨fun _ => hn, fun _ => rfl⟩, fun ⟨n, o, h⟩ => absurd h (hn n o)⟩

/-- C15: when several names are available, one that meets the preference of the
language is chosen if there is one. -/
theorem C15_preference (lang : Lang) (pr : Prefs) (names : List Str) (hn : [] ∉ names) (n : Str)
    (hm : n ∈ names) (hp : Preferred lang pr n) :
    ∃ r ∈ names, chooseName lang pr names = .ok r ∧ Preferred lang pr r := by
  obtain ⟨r, hr, hc⟩ := chooseName_mem lang pr names (List.ne_nil_of_mem hm)
  refine ⟨r, hr, hc, ?_⟩
  obtain ⟨r', hr', hs, hp'⟩ := suitable_preferred lang pr names n hm hp
  unfold chooseName at hc
  split at hc
  · cases hc
    rw [List.mem_singleton.1 hm] at hp
    exact hp
  · rw [hs] at hc
    cases r' with
    | nil => exact absurd hr' hn
    | cons c cs => cases hc; exact hp'

/-- C15: français and norsk have two preferences. A name that meets both is chosen if there
is one; if no name meets the first, one that meets the second; and the only name that meets
the first is chosen whatever the second asks. -/
theorem C15_two_preferences (lang : Lang) (hl : lang = .francais ∨ lang = .norsk) (pr : Prefs) (names : List Str)
    (hn : [] ∉ names) :
    (∀ n ∈ names, First lang pr n → Second lang pr n →
      ∃ r ∈ names, chooseName lang pr names = .ok r ∧ First lang pr r ∧ Second lang pr r) ∧
    (∀ n ∈ names, (∀ m ∈ names, ¬ First lang pr m) → Second lang pr n →
      ∃ r ∈ names, chooseName lang pr names = .ok r ∧ Second lang pr r) ∧
    (∀ a b n, names = a ++ n :: b → First lang pr n → (∀ m ∈ a ++ b, ¬ First lang pr m) →
      chooseName lang pr names = .ok n) := by
  obtain ⟨f, g, hs, hf, hg⟩ : ∃ f g : Str → Bool, suitable lang pr names = pickTwo f g names ∧
      (∀ m, f m = true ↔ First lang pr m) ∧ (∀ m, g m = true ↔ Second lang pr m) := by
    rcases hl with rfl | rfl
    · exact ⟨fun n => pr.accented == n.contains 'é', fun n => pr.x == endsWithChar 'x' n, rfl,
        fun m => beq_decide _ _ _ List.contains_iff_mem, fun m => beq_decide _ _ _ (endsWithChar_iff _ _)⟩
    · exact ⟨fun n => pr.doubleS == hasSub "ss".toList n,
        fun n => pr.classic == (hasSub "ee".toList n || hasSub "ae".toList n), rfl,
        fun m => beq_decide _ _ _ (hasSub_iff_infix _ _),
        fun m => beq_decide _ _ _ (by rw [Bool.or_eq_true, hasSub_iff_infix, hasSub_iff_infix])⟩
  have choose : ∀ r ∈ names, suitable lang pr names = some r → chooseName lang pr names = .ok r := by
    intro r hr h
    unfold chooseName
    split
    · rw [List.mem_singleton.1 hr]
    · rw [h]
      cases r with
      | nil => exact absurd hr hn
      | cons c cs => rfl
  obtain ⟨h1, h2, h3⟩ := pick_two f g names
  rw [← hs] at h1 h2 h3
  refine ⟨fun n hm a b => ?_, fun n hm a b => ?_, fun a b n e h1' h2' => ?_⟩
  · obtain ⟨r, hr, e, x, y⟩ := h1 n hm ((hf n).2 a) ((hg n).2 b)
    exact ⟨r, hr, choose r hr e, (hf r).1 x, (hg r).1 y⟩
  · obtain ⟨r, hr, e, y⟩ := h2 n hm (fun m hm => by rw [← Bool.not_eq_true, hf]; exact a m hm) ((hg n).2 b)
    exact ⟨r, hr, choose r hr e, (hg r).1 y⟩
  · refine choose n (by rw [e]; simp) (h3 n ?_)
    have no : ∀ l : List Str, (∀ m ∈ l, ¬ First lang pr m) → l.filter f = [] := fun l h =>
      List.filter_eq_nil_iff.2 fun m hm => by rw [hf]; exact h m hm
    rw [e, List.filter_append, List.filter_cons_of_pos ((hf n).2 h1'), no a (fun m hm => h2' m (by simp [hm])),
      no b (fun m hm => h2' m (by simp [hm]))]
    rfl

example : chooseName .francais { accented := true, x := true } ["redd".toList, "rédd".toList, "rex".toList, "réx".toList] = .ok "réx".toList ∧
    chooseName .norsk { doubleS := true, classic := false } ["eeses".toList, "eses".toList] = .ok "eses".toList := by decide +kernel

/-- C15: in norsk the preference is the wrong way round: the documentation of
`prefer_classic` says "prefer es above ees", but with it set `ees` is taken,
and without it `es`. -/
theorem C15_norsk_prefer_classic_inverted :
    chooseName .norsk { classic := true } ["ees".toList, "es".toList] = .ok "ees".toList ∧
    chooseName .norsk { classic := false } ["ees".toList, "es".toList] = .ok "es".toList := by
  decide +kernel

/-- A small table with two names for one pitch, and one name in two octaves. -/
def sampleTable : Table :=
  [("c".toList, (-1, 0, 0)), ("d".toList, (-1, 1, 0)), ("ees".toList, (-1, 2, -(1/2))),
   ("es".toList, (-1, 2, -(1/2))), ("hic".toList, (0, 0, 0))]

example : IsDict sampleTable := by unfold IsDict; decide +kernel
example : Processor.nameOctave ⟨.nederlands, sampleTable, {}⟩ ⟨3, 2, -(1/2)⟩ = .ok ("es".toList, 4) := by
  decide +kernel
example : Processor.nameOctave ⟨.nederlands, sampleTable, {}⟩ ⟨0, 0, 0⟩ = .ok ("hic".toList, 0) := by
  decide +kernel
example : Processor.nameOctave ⟨.nederlands, sampleTable, {}⟩ ⟨0, 0, 1⟩ = .error .keyError := by
  decide +kernel

/-! ## C16 -/

/-- C16: after `write_node` the node reads as the pitch that was written. -/
theorem C16_write_read (pp : Processor) (hd : IsDict pp.table) (n n' : PNode) (p : Pitch)
    (h : pp.writeNode n p = .ok n') : pp.readNode n' = .ok p := by
  unfold Processor.writeNode at h
  split at h
  · exact absurd h (by simp)
  · rename_i q hq
    split at h
    · rename_i hna
      cases h
      simp only [Processor.readNode, hq]
      obtain ⟨a, b, c⟩ := p
      simp only at hna
      rw [hna.1, hna.2]
      simp
    · split at h
      · rename_i name oct hno
        cases h
        exact (C15_name_reads_back pp hd p name oct hno).2.1
      · exact absurd h (by simp)

/-- C16: `write_node` succeeds whenever the language knows the node's name and
can name the pitch. -/
theorem C16_write_succeeds (pp : Processor) (n : PNode) (p : Pitch) (hn : HasName pp.table n.head)
    (hp : ∃ name o, Means pp.table name o p.note p.alter) : ∃ n', pp.writeNode n p = .ok n' := by
  rw [← Table.get_isSome] at hn
  obtain ⟨v, hv⟩ := Option.isSome_iff_exists.1 hn
  obtain ⟨r, hr⟩ := (C15_key_error pp p).2 hp
  simp only [Processor.writeNode, Processor.pitch, hv, hr]
  split
  · exact ⟨_, rfl⟩
  · exact ⟨_, rfl⟩

/-- C16: writing back the pitch that was read leaves name and octave as they
were, so `process` without a change does nothing. -/
theorem C16_unchanged (pp : Processor) (n : PNode) (p : Pitch) (h : pp.readNode n = .ok p) :
    pp.writeNode n p = .ok n ∧ pp.process n true id = .ok n := by
  have key : pp.writeNode n p = .ok n := by
    unfold Processor.readNode at h
    unfold Processor.writeNode
    split at h
    · rename_i q hq
      cases h
      simp only [hq, and_self, if_true]
      obtain ⟨hd, o⟩ := n
      simp
    · exact absurd h (by simp)
  refine ⟨key, ?_⟩
  simp only [Processor.process, h, if_true, id_eq]
  exact key

/-- C16: the name is kept when only the octave changes. -/
theorem C16_name_kept (pp : Processor) (n n' : PNode) (p q : Pitch) (h : pp.readNode n = .ok p)
    (hn : q.note = p.note) (ha : q.alter = p.alter) (hw : pp.writeNode n q = .ok n') :
    n'.head = n.head ∧ n'.octave = n.octave + (q.octave - p.octave) := by
  unfold Processor.readNode at h
  unfold Processor.writeNode at hw
  split at h
  · rename_i r hr
    cases h
    simp only [hr, hn, ha, and_self, if_true] at hw
    cases hw
    refine ⟨rfl, ?_⟩
    simp only
    ring
  · exact absurd h (by simp)

/-- C16: `process` writes what the body of the with statement makes of the
pitch; with `write=False` the node never changes. -/
theorem C16_process (pp : Processor) (hd : IsDict pp.table) (n n' : PNode) (f : Pitch → Pitch) :
    (pp.process n true f = .ok n' → ∃ p, pp.readNode n = .ok p ∧ pp.readNode n' = .ok (f p)) ∧
    (pp.process n false f = .ok n' → n' = n) := by
  unfold Processor.process
  constructor
  · intro h
    split at h
    · exact absurd h (by simp)
    · rename_i p hp
      exact ⟨p, hp, C16_write_read pp hd n n' _ (by simpa using h)⟩
  · intro h
    split at h
    · exact absurd h (by simp)
    · simp at h; exact h.symm

/-- C16: a new node made with `pitchable` reads as the pitch. -/
theorem C16_pitchable (pp : Processor) (hd : IsDict pp.table) (p : Pitch) (n : PNode)
    (h : pp.pitchable p = .ok n) : pp.readNode n = .ok p := by
  unfold Processor.pitchable at h
  split at h
  · rename_i name oct hno
    cases h
    exact (C15_name_reads_back pp hd p name oct hno).2.1
  · exact absurd h (by simp)

example : Processor.writeNode ⟨.nederlands, sampleTable, {}⟩ ⟨"c".toList, 1⟩ ⟨2, 2, -(1/2)⟩
    = .ok ⟨"es".toList, 3⟩ := by decide +kernel
example : Processor.writeNode ⟨.nederlands, sampleTable, {}⟩ ⟨"ees".toList, 1⟩ ⟨2, 2, -(1/2)⟩
    = .ok ⟨"ees".toList, 3⟩ := by decide +kernel

/-! ## C17 -/

/-- C17: an octave string reads back as the number. -/
theorem C17_round_trip (n : ℤ) : octaveFromString (octaveToString n) = n := by
  unfold octaveToString octaveFromString
  split <;> simp [List.count_replicate] <;> omega

/-- C17: only apostrophes or only commas are used, and no string for the same
octave is shorter. -/
theorem C17_minimal (n : ℤ) :
    ((∀ c ∈ octaveToString n, c = '\'') ∨ (∀ c ∈ octaveToString n, c = ',')) ∧
    ∀ s : Str, octaveFromString s = n → (octaveToString n).length ≤ s.length := by
  constructor
  · unfold octaveToString
    split
    · exact Or.inr fun c hc => List.eq_of_mem_replicate hc
    · exact Or.inl fun c hc => List.eq_of_mem_replicate hc
  · intro s hs
    unfold octaveFromString at hs
    have h1 := List.count_le_length (a := '\'') (l := s)
    have h2 := List.count_le_length (a := ',') (l := s)
    unfold octaveToString
    split <;> simp <;> omega

/-- C17: reading concatenated octave strings adds their octaves. -/
theorem C17_additive (s t : Str) : octaveFromString (s ++ t) = octaveFromString s + octaveFromString t := by
  simp only [octaveFromString, List.count_append]
  push_cast
  ring

/-- C17: the text of a pitch is its name followed by the octave marks that
bring it to the right octave. -/
theorem C17_to_string (pp : Processor) (hd : IsDict pp.table) (p : Pitch) (s : Str)
    (h : pp.toString p = .ok s) :
    ∃ name marks q, s = name ++ marks ∧ pp.pitch name = .ok q ∧
      { q with octave := q.octave + octaveFromString marks } = p := by
  unfold Processor.toString at h
  split at h
  · rename_i name oct hno
    cases h
    obtain ⟨⟨q, h1, h2⟩, _⟩ := C15_name_reads_back pp hd p name oct hno
    exact ⟨name, octaveToString oct, q, rfl, h1, by rw [C17_round_trip]; exact h2⟩
  · exact absurd h (by simp)

example : octaveToString 2 = "''".toList ∧ octaveToString (-3) = ",,,".toList ∧
    octaveFromString "'',".toList = 1 := by decide

/-! ## C18 -/

/-- C18: `determine_language` yields only languages that know all names; every
language that does is yielded itself or through exactly one synonym; no
language comes twice; the order is: the ubiquitous ones, the others sorted, the
exotic ones. -/
theorem C18_exact (pn : Names) (wf : WellFormed pn) (names out : List Str)
    (h : determineLanguage pn names = .ok out) :
    (∀ lang ∈ out, Knows pn names lang) ∧
    (∀ lang, Knows pn names lang → ∃! rep, rep ∈ out ∧ Synonyms pn lang rep) ∧
    out.Nodup ∧
    ∃ mid : List Str, mid.Pairwise (· ≤ ·) ∧ (∀ m ∈ mid, m ∉ ubiquitous ++ exotic) ∧
      List.Sublist out (ubiquitous ++ mid ++ exotic) ∧
      ∀ lang ∈ ubiquitous ++ exotic, Knows pn names lang → lang ∈ out := by
  unfold determineLanguage langs at h
  split at h
  rotate_left
  · exact absurd h (by simp)
  rename_i ls hls
  cases h
  split at hls
  rotate_left
  · exact absurd hls (by simp)
  rename_i seen hseen
  cases hls
  obtain ⟨s1, s2⟩ := seenIds_spec pn _ _ hseen
  have seen_main : ∀ i, i ∈ seen ↔ ∃ n ∈ ubiquitous ++ exotic, ∃ t, (n, i, t) ∈ pn := by
    intro i
    rw [s1]
    constructor
    · rintro ⟨n, hn, t, ht⟩; exact ⟨n, hn, t, Names.get_some _ _ _ ht⟩
    · rintro ⟨n, hn, t, ht⟩; exact ⟨n, hn, t, Names.get_of_mem _ wf.nodup _ _ ht⟩
  have key_unique : ∀ n i t j u, (n, i, t) ∈ pn → (n, j, u) ∈ pn → i = j := by
    intro n i t j u h1 h2
    have e := Names.get_of_mem pn wf.nodup _ _ h1
    rw [Names.get_of_mem pn wf.nodup _ _ h2] at e
    cases e; rfl
  have mid_not_main : ∀ m ∈ othersLoop pn seen, m ∉ ubiquitous ++ exotic := by
    intro m hm hmain
    obtain ⟨i, t, h1, h2⟩ := othersLoop_mem _ _ _ hm
    exact h2 ((seen_main i).2 ⟨m, hmain, t, h1⟩)
  have mem_langs : ∀ l, l ∈ ubiquitous ++ (othersLoop pn seen).mergeSort strLe ++ exotic ↔
      l ∈ ubiquitous ++ exotic ∨ l ∈ othersLoop pn seen := by
    intro l
    simp only [List.mem_append, List.mem_mergeSort]
    tauto
  refine ⟨?_, ?_, ?_, (othersLoop pn seen).mergeSort strLe, ?_, ?_, List.filter_sublist, ?_⟩
  · intro lang hl
    exact (knowsAll_iff pn wf.nodup names lang).1 (List.mem_filter.1 hl).2
  · rintro lang ⟨i, t, hmem, hk⟩
    have transfer : ∀ rep u, (rep, i, u) ∈ pn → Knows pn names rep := by
      intro rep u hu
      refine ⟨i, u, hu, ?_⟩
      have := wf.ident _ hmem _ hu rfl
      simp only at this
      rwa [← this]
    have uniq : ∀ rep rep', rep ∈ ubiquitous ++ exotic ∨ rep ∈ othersLoop pn seen →
        rep' ∈ ubiquitous ++ exotic ∨ rep' ∈ othersLoop pn seen →
        ∀ u u', (rep, i, u) ∈ pn → (rep', i, u') ∈ pn → rep = rep' := by
      intro a b ha hb u u' hu hu'
      rcases ha with ha | ha <;> rcases hb with hb | hb
      · exact wf.main _ hu _ hu' ha hb rfl
      · obtain ⟨j, w, h1, h2⟩ := othersLoop_mem _ _ _ hb
        rw [key_unique _ _ _ _ _ h1 hu'] at h2
        exact absurd ((seen_main i).2 ⟨a, ha, u, hu⟩) h2
      · obtain ⟨j, w, h1, h2⟩ := othersLoop_mem _ _ _ ha
        rw [key_unique _ _ _ _ _ h1 hu] at h2
        exact absurd ((seen_main i).2 ⟨b, hb, u', hu'⟩) h2
      · exact othersLoop_unique pn wf.nodup seen a b i u u' ha hb hu hu'
    have ex : ∃ rep u, (rep ∈ ubiquitous ++ exotic ∨ rep ∈ othersLoop pn seen) ∧ (rep, i, u) ∈ pn := by
      by_cases hi : i ∈ seen
      · obtain ⟨n, hn, u, hu⟩ := (seen_main i).1 hi
        exact ⟨n, u, Or.inl hn, hu⟩
      · obtain ⟨m, u, hm, hu⟩ := othersLoop_covers pn seen lang i t hmem hi
        exact ⟨m, u, Or.inr hm, hu⟩
    obtain ⟨rep, u, hrep, hu⟩ := ex
    refine ⟨rep, ⟨?_, i, t, u, hmem, hu⟩, ?_⟩
    · rw [List.mem_filter, mem_langs]
      exact ⟨hrep, (knowsAll_iff pn wf.nodup names rep).2 (transfer rep u hu)⟩
    · rintro rep' ⟨hr', j, t', u', ht', hu'⟩
      rw [List.mem_filter, mem_langs] at hr'
      have hji : j = i := key_unique _ _ _ _ _ ht' hmem
      subst hji
      exact uniq _ _ hr'.1 hrep _ _ hu' hu
  · apply List.Nodup.filter
    have hp : (ubiquitous ++ (othersLoop pn seen).mergeSort strLe ++ exotic).Perm
        ((ubiquitous ++ exotic) ++ othersLoop pn seen) := by
      have := List.mergeSort_perm (othersLoop pn seen) strLe
      refine (List.Perm.append_right _ (List.Perm.append_left _ this)).trans ?_
      rw [List.append_assoc, List.append_assoc]
      exact List.Perm.append_left _ List.perm_append_comm
    rw [hp.nodup_iff, List.nodup_append]
    refine ⟨by decide +kernel, othersLoop_nodup pn wf.nodup seen, ?_⟩
    intro a ha b hb hab
    subst hab
    exact mid_not_main _ hb ha
  · have := List.pairwise_mergeSort strLe_trans strLe_total (othersLoop pn seen)
    exact this.imp (fun h => by simpa [strLe] using h)
  · intro m hm
    rw [List.mem_mergeSort] at hm
    exact mid_not_main m hm
  · intro lang hl hk
    rw [List.mem_filter, mem_langs]
    exact ⟨Or.inl hl, (knowsAll_iff pn wf.nodup names lang).2 hk⟩

/-- C18: it fails only when one of the languages named in the code is missing
from the tables, with a KeyError. -/
theorem C18_error (pn : Names) (hn : (pn.map Prod.fst).Nodup) (names : List Str) (e : PyErr)
    (h : determineLanguage pn names = .error e) :
    e = .keyError ∧ ∃ lang ∈ ubiquitous ++ exotic, ∀ i t, (lang, i, t) ∉ pn := by
  unfold determineLanguage langs at h
  split at h
  · exact absurd h (by simp)
  rename_i e' he
  cases h
  split at he
  · exact absurd he (by simp)
  rename_i e'' he'
  cases he
  obtain ⟨h1, n, h2, h3⟩ := seenIds_error _ _ _ he'
  refine ⟨h1, n, h2, ?_⟩
  intro i t hm
  rw [Names.get_of_mem pn hn _ _ hm] at h3
  exact absurd h3 (by simp)

/-- Tables for the eight languages of the code, with one synonym pair added. -/
def sampleNames : Names :=
  ((ubiquitous ++ exotic).zipIdx.map fun (x : Str × ℕ) =>
    (x.1, x.2, if x.2 = 0 then sampleTable else [("do".toList, (-1, 0, 0))])) ++
  [("español".toList, 20, [("do".toList, (-1, 0, 0)), ("c".toList, (-1, 0, 0))]),
   ("espanol".toList, 20, [("do".toList, (-1, 0, 0)), ("c".toList, (-1, 0, 0))])]

example : determineLanguage sampleNames ["c".toList, "r".toList]
    = .ok ["nederlands".toList, "español".toList] := by
  have h : langs sampleNames = .ok (ubiquitous ++ ["español".toList] ++ exotic) := by
    have e : (othersLoop sampleNames [0, 1, 2, 3, 4, 5, 6, 7]) = ["español".toList] := by decide +kernel
    have e2 : seenIds sampleNames (ubiquitous ++ exotic) = .ok [0, 1, 2, 3, 4, 5, 6, 7] := by decide +kernel
    simp only [langs, e2, e, List.mergeSort_singleton]
  simp only [determineLanguage, h]
  decide +kernel

example : WellFormed sampleNames :=
  ⟨by decide +kernel, by decide +kernel, by decide +kernel⟩

end Quickly.Pitch
