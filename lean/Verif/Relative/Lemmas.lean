import Verif.Relative.Spec
import Verif.Pitch.Props
import Verif.Transpose.Props

/-! # Helper lemmas for relative music -/

namespace Quickly.Relative

open Quickly.Pitch Quickly.Transpose Spec
open Quickly.Pitch.Spec (Means IsDict HasName)

/-! ## Transposing commutes with octaves -/

theorem loop_map {σ : Type} (cond : σ → Bool) (body g : σ → σ) (hc : ∀ s, cond (g s) = cond s)
    (hb : ∀ s, body (g s) = g (body s)) (n : ℕ) (s : σ) :
    loop cond body n (g s) = (loop cond body n s).map g := by
  induction n generalizing s with
  | zero => simp only [loop, hc]; split <;> rfl
  | succ n ih =>
    simp only [loop, hc, hb]
    split
    · exact ih _
    · rfl

theorem down_down (a b : ℤ) (p : Pitch) : down a (down b p) = down (a + b) p := by
  simp only [down, Pitch.mk.injEq, and_true]; ring

theorem down_zero (p : Pitch) : down 0 p = p := by simp [down]

theorem yields_down (t : Transposer) (p q : Pitch) (k : ℤ) (h : Transpose.Spec.Yields t p q) :
    Transpose.Spec.Yields t (down k p) (down k q) := by
  obtain ⟨n, hn⟩ := h
  refine ⟨n, ?_⟩
  unfold Transposer.transpose at hn ⊢
  split at hn
  · cases hn
  · rename_i scale hs
    have hp : plain scale t (down k p) = down k (plain scale t p) := by
      simp only [plain, down, Pitch.mk.injEq, and_true, true_and]; ring
    have hr : respell scale n (down k (plain scale t p)) = (respell scale n (plain scale t p)).map (down k) := by
      unfold respell
      rw [loop_map _ _ (down k) (fun _ => rfl) (fun p => by
        simp only [stepUp, down, Pitch.mk.injEq, and_true, true_and]; ring)]
      cases loop (fun p : Pitch => decide (p.alter > 1)) (stepUp scale) n (plain scale t p) with
      | none => rfl
      | some r =>
        simp only [Option.map_some]
        exact loop_map _ _ (down k) (fun _ => rfl) (fun p => by
          simp only [stepDown, down, Pitch.mk.injEq, and_true, true_and]; ring) n r
    rw [hp, hr]
    cases hrs : respell scale n (plain scale t p) with
    | none => simp only [hrs] at hn; cases hn
    | some r => simp only [hrs] at hn; cases hn; rfl

theorem runs_down (t : Transposer) (tr : Pitch → Pitch) (h : Runs t tr) (k : ℤ) (p : Pitch) :
    tr (down k p) = down k (tr p) :=
  C22_deterministic t _ _ _ (h _) (yields_down t p _ k (h p))

/-! ## Reading notes -/

theorem pitch_iff (pp : Processor) (hd : IsDict pp.table) (name : Str) (p : Pitch) :
    pp.pitch name = .ok p ↔ Means pp.table name p.octave p.note p.alter := by
  unfold Processor.pitch Means
  constructor
  · intro h
    split at h
    · rename_i o n a hg
      cases h
      exact Table.get_some _ _ _ hg
    · cases h
  · intro h
    rw [Table.get_of_mem _ hd _ _ h]

theorem readNode_iff (pp : Processor) (hd : IsDict pp.table) (n : PNode) (p : Pitch) :
    pp.readNode n = .ok p ↔ Means pp.table n.head (p.octave - n.octave) p.note p.alter := by
  unfold Processor.readNode
  constructor
  · intro h
    split at h
    · rename_i q hq
      cases h
      have := (pitch_iff pp hd _ _).1 hq
      simpa using this
    · cases h
  · intro h
    rw [(pitch_iff pp hd n.head ⟨p.octave - n.octave, p.note, p.alter⟩).2 h]
    simp

theorem absNote_iff (pp : Langs) (hd : ∀ l, IsDict (pp l).table) (n : Note) (q : Pitch) :
    AbsNote pp.tables n q ↔ (pp n.lang).readNode n.node = .ok q := by
  rw [readNode_iff _ (hd _), AbsNote]
  constructor
  · rintro ⟨o, h, e⟩
    rw [show q.octave - n.node.octave = o by omega]; exact h
  · intro h; exact ⟨_, h, by omega⟩

theorem means_unique (t : Table) (hd : IsDict t) (name : Str) (o o' n n' : ℤ) (a a' : ℚ)
    (h : Means t name o n a) (h' : Means t name o' n' a') : o = o' ∧ n = n' ∧ a = a' := by
  have h1 := Table.get_of_mem _ hd _ _ h
  have h2 := Table.get_of_mem _ hd _ _ h'
  rw [h1] at h2
  simp only [Option.some.injEq, Prod.mk.injEq] at h2
  exact h2

/-- Reading relative to a pitch is what `make_absolute` does. -/
theorem relNote_iff (pp : Langs) (hd : ∀ l, IsDict (pp l).table) (last : Pitch) (n : Note) (h : Heard) :
    RelNote pp.tables last n h ↔ ∃ p, (pp n.lang).readNode n.node = .ok p ∧
      h.pitch = p.makeAbsolute last (p.octave - n.node.octave) 7 ∧
      h.check = n.check.map (fun c => p.octave - n.node.octave + c) := by
  obtain ⟨q, ch⟩ := h
  obtain ⟨qo, qn, qa⟩ := q
  constructor
  · rintro ⟨o, hm, hb, hc⟩
    refine ⟨⟨o + n.node.octave, qn, qa⟩, (readNode_iff _ (hd _) _ _).2 (by simpa [Langs.tables] using hm), ?_, ?_⟩
    · simp only [Pitch.makeAbsolute, Pitch.mk.injEq, and_true]
      simp only [Pitch.Spec.staff, abs_le] at hb
      push_cast at *
      omega
    · simp only [add_sub_cancel_right]; exact hc
  · rintro ⟨p, hp, hq, hc⟩
    simp only [Pitch.makeAbsolute, Pitch.mk.injEq] at hq
    obtain ⟨h1, h2, h3⟩ := hq
    refine ⟨p.octave - n.node.octave, ?_, ?_, hc⟩
    · simp only [h2, h3]; exact (readNode_iff _ (hd _) _ _).1 hp
    · simp only [Pitch.Spec.staff, abs_le, h1, h2]
      push_cast
      omega

/-! ## Transposing -/

/-- How the walk over the old music and the mode for the new music belong to
the mode for the old: all octaves in the walk may be off by the same amount.  With `Z`
they are not. -/
inductive Fits (Z : Prop) : Mode → Walk → Mode → Prop
  | abs {k o k2 : ℤ} (h : k2 = k + o) : Fits Z (.abs k) (.pitches o) (.abs k2)
  | rel {last new : Pitch} {l : Last} (s : ℤ) (hz : Z → s = 0) (h1 : l.pitch = down s last)
      (h2 : l.prev = down s new) :
      Fits Z (.rel last) (.relative l) (.rel new)

/-- An old and a new note. -/
def Moved (tr : Pitch → Pitch) (Z : Prop) (a b : Heard) : Prop :=
  b.pitch = tr a.pitch ∧ b.check.isSome = a.check.isSome ∧ (Z → ∀ c, b.check = some c → c = b.pitch.octave)

/-- The conditions on the context. -/
structure Good (c : Ctx) : Prop where
  dict : ∀ l, IsDict (c.pp l).table
  one : ∀ l, OneOctave (c.pp l).table
  shift : ∀ k p, c.tr (down k p) = down k (c.tr p)

theorem transposeAbs_ok (c : Ctx) (hd : ∀ l, IsDict (c.pp l).table) (o : ℤ) (n n' : Note) (q : Pitch) (hw : n.writable = true)
    (h : transposeAbs c o n = .ok n') (hq : AbsNote c.pp.tables n q) :
    AbsNote c.pp.tables n' (down o (c.tr q)) := by
  rw [absNote_iff _ hd] at hq ⊢
  unfold transposeAbs Processor.process at h
  simp only [hq, hw, if_true] at h
  split at h
  · rename_i nd hnd
    cases h
    exact C16_write_read _ (hd _) _ _ _ hnd
  · cases h

theorem transposeNote_ok (c : Ctx) (g : Good c) (Z : Prop) (n n' : Note) (last new : Pitch) (l l' : Last) (h : Heard)
    (hw : n.writable = true) (s : ℤ) (hz : Z → s = 0) (h1 : l.pitch = down s last)
    (h2 : l.prev = down s new)
    (hh : RelNote c.pp.tables last n h) (ht : transposeNote c n l = .ok (l', n')) :
    ∃ h', RelNote c.pp.tables new n' h' ∧ Moved c.tr Z h h' ∧ l'.pitch = down s h.pitch ∧
      l'.prev = down s h'.pitch := by
  obtain ⟨p, hp, hq, hc⟩ := (relNote_iff c.pp g.dict _ _ _).1 hh
  unfold transposeNote at ht
  simp only [hp, hw, Bool.not_true, Bool.false_eq_true, if_false, h2] at ht
  split at ht
  · cases ht
  · rename_i nd hnd
    simp only [Except.ok.injEq, Prod.mk.injEq] at ht
    obtain ⟨rfl, rfl⟩ := ht
    have e : p.makeAbsolute l.pitch (p.octave - n.node.octave) 7 = down s h.pitch := by
      rw [h1, hq]
      simp only [Pitch.makeAbsolute, down, Pitch.mk.injEq, and_true]; ring
    rw [e, g.shift] at hnd ⊢
    have hr := C16_write_read _ (g.dict _) _ _ _ hnd
    obtain ⟨d, hdd⟩ := g.one n.lang
    have o1 : p.octave - n.node.octave = d := hdd _ ((readNode_iff _ (g.dict _) _ _).1 hp)
    have o2 := hdd _ ((readNode_iff _ (g.dict _) _ _).1 hr)
    simp only at o2
    rw [o1] at hr o2 ⊢
    refine ⟨⟨c.tr h.pitch, n.check.map (fun _ => (c.tr h.pitch).octave - s)⟩, ?_, ⟨rfl, ?_, ?_⟩, rfl, rfl⟩
    · rw [relNote_iff _ g.dict]
      refine ⟨_, hr, ?_, ?_⟩
      · simp only [o2]
        simp only [Pitch.makeAbsolute, Pitch.makeRelative, down]
        obtain ⟨a, b, f⟩ := c.tr h.pitch
        simp only [Pitch.mk.injEq, and_true]
        ring
      · simp only [o2]
        cases n.check with
        | none => rfl
        | some x => simp only [Option.map_some, down, Option.some.injEq]; ring
    · rw [hc]; simp
    · intro z x hx
      cases hn : n.check with
      | none => simp only [hn, Option.map_none] at hx; cases hx
      | some y =>
        simp only [hn, Option.map_some, Option.some.injEq] at hx
        have := hz z
        simp only; omega

theorem transposeStack_ok (c : Ctx) (g : Good c) (Z : Prop) (ns : List Note) (last new : Pitch) (l : Last)
    (rs : List (Last × Note)) (hs : List Heard)
    (hw : ∀ n ∈ ns, n.writable = true) (s : ℤ) (hz : Z → s = 0) (h1 : l.pitch = down s last)
    (h2 : l.prev = down s new)
    (hh : RelChord c.pp.tables last ns hs) (ht : transposeStack c l ns = .ok rs) :
    ∃ hs', RelChord c.pp.tables new (rs.map Prod.snd) hs' ∧ List.Forall₂ (Moved c.tr Z) hs hs' ∧
      (∀ r rs', rs = r :: rs' → ∃ h h' hs1 hs2, hs = h :: hs1 ∧ hs' = h' :: hs2 ∧ r.1.pitch = down s h.pitch ∧
      r.1.prev = down s h'.pitch) := by
  induction hh generalizing new l rs with
  | nil last =>
    simp only [transposeStack, Except.ok.injEq] at ht
    subst ht
    exact ⟨[], .nil _, .nil, fun _ _ h => by cases h⟩
  | @cons last n h ns hs hn hc ih =>
    simp only [transposeStack] at ht
    split at ht
    · cases ht
    · rename_i r hr
      split at ht
      · cases ht
      · rename_i rs' hrs
        cases ht
        obtain ⟨h', a1, a2, a3, a4⟩ := transposeNote_ok c g Z n r.2 last new l r.1 h (hw n (by simp)) s hz h1 h2 hn hr
        obtain ⟨hs', b1, b2, _⟩ := ih h'.pitch r.1 rs' (fun n hn => hw n (by simp [hn])) a3 a4 hrs
        refine ⟨h' :: hs', .cons a1 b1, .cons a2 b2, ?_⟩
        intro r2 rs2 e
        cases e
        exact ⟨h, h', hs, hs', rfl, rfl, a3, a4⟩

theorem transposeList_cons (c : Ctx) (w w' : Walk) (m : Mus) (ms ms2 : List Mus)
    (h : transposeList c w (m :: ms) = .ok (w', ms2)) :
    ∃ w1 m1 ms1, transposeMus c w m = .ok (w1, m1) ∧ transposeList c w1 ms = .ok (w', ms1) ∧ ms2 = m1 :: ms1 := by
  rw [transposeList] at h
  split at h
  · cases h
  · rename_i w1 m1 h1
    split at h
    · cases h
    · rename_i w2 ms1 h2
      cases h
      exact ⟨w1, m1, ms1, h1, h2, rfl⟩

theorem mapM_ok {α β : Type} (f : α → Py β) (P : α → β → Prop) (l : List α) (l' : List β)
    (hf : ∀ a ∈ l, ∀ b, f a = .ok b → P a b) (h : l.mapM f = .ok l') : List.Forall₂ P l l' := by
  induction l generalizing l' with
  | nil => simp only [List.mapM_nil] at h; cases h; exact .nil
  | cons a l ih =>
    rw [List.mapM_cons] at h
    cases ha : f a with
    | error e => rw [ha] at h; cases h
    | ok b =>
      rw [ha] at h
      cases hl : l.mapM f with
      | error e => simp only [hl] at h; cases h
      | ok bs =>
        rw [hl] at h
        cases h
        exact .cons (hf a (by simp) b ha) (ih bs (fun a h => hf a (by simp [h])) hl)

/-- The conditions on the music. -/
structure Able (c : Ctx) (Z : Prop) (xs : List (Kind × Note)) : Prop where
  writable : ∀ x ∈ xs, x.2.writable = true
  fixed : ∀ x ∈ xs, x.1 = .fixed → ∀ q, AbsNote c.pp.tables x.2 q → (c.tr q).octave = q.octave + c.toct
  start : Z → c.toct = 0 ∨ ∀ x ∈ xs, x.1 ≠ .start

theorem Able.left {c Z xs ys} (h : Able c Z (xs ++ ys)) : Able c Z xs where
  writable x hx := h.writable x (List.mem_append_left _ hx)
  fixed x hx := h.fixed x (List.mem_append_left _ hx)
  start z := (h.start z).imp id (fun h x hx => h x (List.mem_append_left _ hx))

theorem Able.right {c Z xs ys} (h : Able c Z (xs ++ ys)) : Able c Z ys where
  writable x hx := h.writable x (List.mem_append_right _ hx)
  fixed x hx := h.fixed x (List.mem_append_right _ hx)
  start z := (h.start z).imp id (fun h x hx => h x (List.mem_append_right _ hx))

theorem moved_abs (c : Ctx) (g : Good c) (Z : Prop) (q : Pitch) (k o : ℤ) :
    Moved c.tr Z ⟨{q with octave := q.octave + k}, none⟩
      ⟨{down o (c.tr q) with octave := (down o (c.tr q)).octave + (k + o)}, none⟩ := by
  refine ⟨?_, rfl, fun _ _ h => by cases h⟩
  have := g.shift (-k) q
  simp only [down, sub_neg_eq_add] at this
  rw [this]
  simp only [down, Pitch.mk.injEq, and_true]
  ring

theorem forall₂_chord (c : Ctx) (g : Good c) (Z : Prop) (o k : ℤ) (ns ns' : List Note) (qs : List Pitch)
    (hq : List.Forall₂ (AbsNote c.pp.tables) ns qs)
    (h : List.Forall₂ (fun n n' => ∀ q, AbsNote c.pp.tables n q → AbsNote c.pp.tables n' (down o (c.tr q))) ns ns') :
    ∃ qs', List.Forall₂ (AbsNote c.pp.tables) ns' qs' ∧
      List.Forall₂ (Moved c.tr Z) (qs.map (fun q => (⟨{q with octave := q.octave + k}, none⟩ : Heard)))
        (qs'.map (fun q => (⟨{q with octave := q.octave + (k + o)}, none⟩ : Heard))) := by
  induction h generalizing qs with
  | nil => cases hq; exact ⟨[], .nil, .nil⟩
  | cons hn _ ih =>
    cases hq with
    | cons q0 qt =>
      obtain ⟨qs', e1, e2⟩ := ih _ qt
      exact ⟨_ :: qs', .cons (hn _ q0) e1, .cons (moved_abs c g Z _ k o) e2⟩

theorem forall₂_append {α β : Type} {R : α → β → Prop} {a c : List α} {b d : List β}
    (h1 : List.Forall₂ R a b) (h2 : List.Forall₂ R c d) : List.Forall₂ R (a ++ c) (b ++ d) := by
  induction h1 with
  | nil => exact h2
  | cons h _ ih => exact .cons h ih

/-- Whether notes are read relative to each other is not changed by a piece of music. -/
theorem hears_isRel (t : Tables) (f : Pitch) {m ms m' hs} (h : Hears t f m ms m' hs) : m'.isRel = m.isRel := by
  induction h with
  | nil m => rfl
  | noteAbs _ _ ih => exact ih
  | noteRel _ _ ih => exact ih
  | chordAbs _ _ ih => exact ih
  | chordRel _ _ ih => exact ih
  | checkAbs _ _ ih => exact ih
  | checkRel _ _ ih => exact ih
  | key _ ih => exact ih
  | group _ _ ih1 ih2 => exact ih2.trans ih1
  | relativeFrom _ _ _ _ ih => exact ih
  | relative _ _ _ ih => exact ih
  | fixed _ _ _ _ ih => exact ih
  | absolute _ _ _ ih => exact ih
  | apartAbs _ _ _ ih => exact ih
  | apartRel _ _ _ ih => exact ih

/-- Transposing moves everything that is heard. -/
theorem hears_transposed (c : Ctx) (g : Good c) (Z : Prop) {m : Mode} {ms : List Mus} {m' : Mode} {hs : List Heard}
    (hh : Hears c.pp.tables (reference c.firstAbs) m ms m' hs) :
    ∀ (w : Walk) (ms2 : List Mus) (w' : Walk) (m2 : Mode), transposeList c w ms = .ok (w', ms2) → Fits Z m w m2 →
      Able c Z (partsL ms) → ApartOkL (fun _ => False) m.isRel ms →
      ∃ m2' hs2, Hears c.pp.tables (reference c.firstAbs) m2 ms2 m2' hs2 ∧ Fits Z m' w' m2' ∧
        List.Forall₂ (Moved c.tr Z) hs hs2 := by
  induction hh with
  | nil m =>
    intro w ms2 w' m2 ht hf _ _
    simp only [transposeList, Except.ok.injEq, Prod.mk.injEq] at ht
    obtain ⟨rfl, rfl⟩ := ht
    exact ⟨m2, [], .nil _, hf, .nil⟩
  | @noteAbs k n q ms m' hs hq _ ih =>
    intro w ms2 w' m2 ht hf ha hap
    rw [ApartOkL] at hap
    obtain ⟨w1, m1, ms1, h1, h2, rfl⟩ := transposeList_cons _ _ _ _ _ _ ht
    cases hf with
    | @abs k o k2 hk =>
      simp only [transposeMus] at h1
      split at h1
      · cases h1
      · rename_i n' hn'
        cases h1
        have hw : n.writable = true := ha.writable (.note, n) (by simp [partsL, parts])
        have e := transposeAbs_ok c g.dict o n n' q hw hn' hq
        obtain ⟨m2', hs2, a1, a2, a3⟩ := ih _ _ _ _ h2 (Fits.abs hk) ha.right hap.2
        subst hk
        exact ⟨m2', _, .noteAbs e a1, a2, .cons (moved_abs c g Z q k o) a3⟩
  | @noteRel last n h ms m' hs hn _ ih =>
    intro w ms2 w' m2 ht hf ha hap
    rw [ApartOkL] at hap
    obtain ⟨w1, m1, ms1, h1, h2, rfl⟩ := transposeList_cons _ _ _ _ _ _ ht
    cases hf with
    | @rel _ new l s hz e1 e2 =>
      simp only [transposeMus] at h1
      split at h1
      · cases h1
      · rename_i l' n' hn'
        cases h1
        have hw : n.writable = true := ha.writable (.note, n) (by simp [partsL, parts])
        obtain ⟨h', b1, b2, b3, b4⟩ := transposeNote_ok c g Z n n' last new l l' h hw s hz e1 e2 hn hn'
        obtain ⟨m2', hs2, a1, a2, a3⟩ := ih _ _ _ _ h2 (Fits.rel s hz b3 b4) ha.right hap.2
        exact ⟨m2', _, .noteRel b1 a1, a2, .cons b2 a3⟩
  | @chordAbs k ns qs ms m' hs hq _ ih =>
    intro w ms2 w' m2 ht hf ha hap
    rw [ApartOkL] at hap
    obtain ⟨w1, m1, ms1, h1, h2, rfl⟩ := transposeList_cons _ _ _ _ _ _ ht
    cases hf with
    | @abs k o k2 hk =>
      simp only [transposeMus] at h1
      split at h1
      · cases h1
      · rename_i ns' hn'
        cases h1
        have hw : ∀ n ∈ ns, n.writable = true := fun n hn => ha.writable (.note, n) (by simp [partsL, parts, hn])
        have e := mapM_ok _ _ _ _ (fun a ha' b hb q (hq : AbsNote c.pp.tables a q) =>
          transposeAbs_ok c g.dict o a b q (hw a ha') hb hq) hn'
        obtain ⟨qs', c1, c2⟩ := forall₂_chord c g Z o k ns ns' qs hq e
        obtain ⟨m2', hs2, a1, a2, a3⟩ := ih _ _ _ _ h2 (Fits.abs hk) ha.right hap.2
        subst hk
        exact ⟨m2', _, .chordAbs c1 a1, a2, forall₂_append c2 a3⟩
  | @chordRel last ns cs ms m' hs hn _ ih =>
    intro w ms2 w' m2 ht hf ha hap
    rw [ApartOkL] at hap
    obtain ⟨w1, m1, ms1, h1, h2, rfl⟩ := transposeList_cons _ _ _ _ _ _ ht
    cases hf with
    | @rel _ new l s hz e1 e2 =>
      simp only [transposeMus] at h1
      split at h1
      · cases h1
      · rename_i l' ns' hn'
        cases h1
        have hw : ∀ n ∈ ns, n.writable = true := fun n hn => ha.writable (.note, n) (by simp [partsL, parts, hn])
        unfold transposeChord at hn'
        split at hn'
        · cases hn'
        · rename_i hst
          cases hn'
          obtain ⟨hs', b1, b2, _⟩ := transposeStack_ok c g Z ns last new l [] cs hw s hz e1 e2 hn hst
          cases b1
          cases b2
          obtain ⟨m2', hs2, a1, a2, a3⟩ := ih _ _ _ _ h2 (Fits.rel (new := new) s hz e1 e2) ha.right hap.2
          exact ⟨m2', _, .chordRel (.nil _) a1, a2, a3⟩
        · rename_i r rs hst
          cases hn'
          obtain ⟨hs', b1, b2, b3⟩ := transposeStack_ok c g Z ns last new l (r :: rs) cs hw s hz e1 e2 hn hst
          obtain ⟨h, h', t1, t2, rfl, rfl, b4, b5⟩ := b3 r rs rfl
          obtain ⟨m2', hs2, a1, a2, a3⟩ := ih _ _ _ _ h2 (Fits.rel (new := h'.pitch) s hz b4 b5) ha.right hap.2
          exact ⟨m2', _, .chordRel b1 a1, a2, forall₂_append b2 a3⟩
  | @checkAbs k n q ms m' hs hq _ ih =>
    intro w ms2 w' m2 ht hf ha hap
    rw [ApartOkL] at hap
    obtain ⟨w1, m1, ms1, h1, h2, rfl⟩ := transposeList_cons _ _ _ _ _ _ ht
    cases hf with
    | @abs k o k2 hk =>
      simp only [transposeMus] at h1
      split at h1
      · cases h1
      · rename_i n' hn'
        cases h1
        have hw : n.writable = true := ha.writable (.octaveCheck, n) (by simp [partsL, parts])
        have e := transposeAbs_ok c g.dict o n n' q hw hn' hq
        obtain ⟨m2', hs2, a1, a2, a3⟩ := ih _ _ _ _ h2 (Fits.abs hk) ha.right hap.2
        exact ⟨m2', _, .checkAbs e a1, a2, a3⟩
  | @checkRel last n q ms m' hs hq _ ih =>
    intro w ms2 w' m2 ht hf ha hap
    rw [ApartOkL] at hap
    obtain ⟨w1, m1, ms1, h1, h2, rfl⟩ := transposeList_cons _ _ _ _ _ _ ht
    cases hf with
    | @rel _ new l s hz e1 e2 =>
      have hw : n.writable = true := ha.writable (.octaveCheck, n) (by simp [partsL, parts])
      have hr := (absNote_iff c.pp g.dict _ _).1 hq
      simp only [transposeMus, transposeCheck, hr, hw, if_true] at h1
      split at h1
      · cases h1
      · rename_i l' n' hn'
        cases h1
        split at hn'
        · cases hn'
        · rename_i nd hnd
          cases hn'
          obtain ⟨m2', hs2, a1, a2, a3⟩ := ih _ _ _ (.rel (c.tr q)) h2
            (Fits.rel 0 (fun _ => rfl) (down_zero _).symm (down_zero _).symm) ha.right hap.2
          exact ⟨m2', _, .checkRel ((absNote_iff c.pp g.dict _ _).2 (C16_write_read _ (g.dict _) _ _ _ hnd)) a1, a2, a3⟩
  | @key m n ms m' hs _ ih =>
    intro w ms2 w' m2 ht hf ha hap
    rw [ApartOkL] at hap
    obtain ⟨w1, m1, ms1, h1, h2, rfl⟩ := transposeList_cons _ _ _ _ _ _ ht
    simp only [transposeMus] at h1
    split at h1
    · cases h1
    · rename_i n' hn'
      cases h1
      obtain ⟨m2', hs2, a1, a2, a3⟩ := ih _ _ _ _ h2 hf ha.right hap.2
      exact ⟨m2', _, .key a1, a2, a3⟩
  | @group m inner mA is ms m' hs g1 _ ih1 ih2 =>
    intro w ms2 w' m2 ht hf ha hap
    rw [ApartOkL] at hap
    obtain ⟨w1, m1, ms1, h1, h2, rfl⟩ := transposeList_cons _ _ _ _ _ _ ht
    simp only [transposeMus] at h1
    split at h1
    · cases h1
    · rename_i w2 inner' hi
      cases h1
      obtain ⟨mm, hs1, b1, b2, b3⟩ := ih1 _ _ _ _ hi hf ha.left (by have := hap.1; rwa [ApartOk] at this)
      obtain ⟨m2', hs2, a1, a2, a3⟩ := ih2 _ _ _ _ h2 b2 ha.right (by rw [hears_isRel _ _ g1]; exact hap.2)
      exact ⟨m2', _, .group b1 a1, a2, forall₂_append b3 a3⟩
  | @relativeFrom m s q inner m1 is ms m' hs hq _ _ ih1 ih2 =>
    intro w ms2 w' m2 ht hf ha hap
    rw [ApartOkL] at hap
    obtain ⟨w1, m1, ms1, h1, h2, rfl⟩ := transposeList_cons _ _ _ _ _ _ ht
    have hw : s.writable = true := ha.writable (.start, s) (by simp [partsL, parts])
    have hr := (absNote_iff c.pp g.dict _ _).1 hq
    simp only [transposeMus] at h1
    split at h1
    · cases h1
    · rename_i l s' hs'
      split at h1
      · cases h1
      · rename_i w2 inner' hi
        cases h1
        simp only [transposeStart, hr, hw, if_true] at hs'
        split at hs'
        · cases hs'
        · rename_i nd hnd
          cases hs'
          have hb : Able c Z (partsL inner) := by
            have := ha.left
            simp only [parts] at this
            exact Able.right (xs := [(.start, s)]) this
          have hz : Z → c.toct = 0 := by
            intro z
            rcases ha.start z with h | h
            · exact h
            · exact absurd rfl (h (.start, s) (by simp [partsL, parts]))
          obtain ⟨mm, hs1, b1, b2, b3⟩ := ih1 _ _ _ (.rel (c.tr q)) hi (Fits.rel c.toct hz rfl rfl) hb (by have := hap.1; rwa [ApartOk] at this)
          obtain ⟨m2', hs2, a1, a2, a3⟩ := ih2 _ _ _ _ h2 hf ha.right hap.2
          exact ⟨m2', _, .relativeFrom ((absNote_iff c.pp g.dict _ _).2 (C16_write_read _ (g.dict _) _ _ _ hnd)) b1 a1, a2,
            forall₂_append b3 a3⟩
  | @relative m inner m1 is ms m' hs _ _ ih1 ih2 =>
    intro w ms2 w' m2 ht hf ha hap
    rw [ApartOkL] at hap
    obtain ⟨w1, m1, ms1, h1, h2, rfl⟩ := transposeList_cons _ _ _ _ _ _ ht
    simp only [transposeMus] at h1
    split at h1
    · cases h1
    · rename_i w2 inner' hi
      cases h1
      obtain ⟨mm, hs1, b1, b2, b3⟩ := ih1 _ _ _ (.rel (reference c.firstAbs)) hi
        (Fits.rel 0 (fun _ => rfl) (by rw [down_zero]; rfl) (by rw [down_zero]; rfl)) ha.left
        (by have := hap.1; rwa [ApartOk] at this)
      obtain ⟨m2', hs2, a1, a2, a3⟩ := ih2 _ _ _ _ h2 hf ha.right hap.2
      exact ⟨m2', _, .relative b1 a1, a2, forall₂_append b3 a3⟩
  | @fixed m s q inner m1 is ms m' hs hq _ _ ih1 ih2 =>
    intro w ms2 w' m2 ht hf ha hap
    rw [ApartOkL] at hap
    obtain ⟨w1, m1, ms1, h1, h2, rfl⟩ := transposeList_cons _ _ _ _ _ _ ht
    have hw : s.writable = true := ha.writable (.fixed, s) (by simp [partsL, parts])
    simp only [transposeMus, hw, if_true] at h1
    split at h1
    · cases h1
    · rename_i s' hs'
      split at h1
      · cases h1
      · rename_i w2 inner' hi
        cases h1
        have hb : Able c Z (partsL inner) := by
          have := ha.left
          simp only [parts] at this
          exact Able.right (xs := [(.fixed, s)]) this
        have e := transposeAbs_ok c g.dict 0 s s' q hw hs' hq
        rw [down_zero] at e
        have hk := ha.fixed (.fixed, s) (by simp [partsL, parts]) rfl q hq
        obtain ⟨mm, hs1, b1, b2, b3⟩ := ih1 _ _ _ (.abs ((c.tr q).octave + 1)) hi (Fits.abs (by omega)) hb (by have := hap.1; rwa [ApartOk] at this)
        obtain ⟨m2', hs2, a1, a2, a3⟩ := ih2 _ _ _ _ h2 hf ha.right hap.2
        exact ⟨m2', _, .fixed e b1 a1, a2, forall₂_append b3 a3⟩
  | @absolute m inner m1 is ms m' hs _ _ ih1 ih2 =>
    intro w ms2 w' m2 ht hf ha hap
    rw [ApartOkL] at hap
    obtain ⟨w1, m1, ms1, h1, h2, rfl⟩ := transposeList_cons _ _ _ _ _ _ ht
    simp only [transposeMus] at h1
    split at h1
    · cases h1
    · rename_i w2 inner' hi
      cases h1
      obtain ⟨mm, hs1, b1, b2, b3⟩ := ih1 _ _ _ (.abs 0) hi (Fits.abs (by omega)) ha.left (by have := hap.1; rwa [ApartOk] at this)
      obtain ⟨m2', hs2, a1, a2, a3⟩ := ih2 _ _ _ _ h2 hf ha.right hap.2
      exact ⟨m2', _, .absolute b1 a1, a2, forall₂_append b3 a3⟩
  | @apartAbs k kind as inner m1 is ms m' hs g1 _ ih1 ih2 =>
    intro w ms2 w' m2 ht hf ha hap
    rw [ApartOkL] at hap
    obtain ⟨w1, m1, ms1, h1, h2, rfl⟩ := transposeList_cons _ _ _ _ _ _ ht
    cases hf with
    | @abs k o k2 hk =>
      simp only [transposeMus] at h1
      split at h1
      · cases h1
      · rename_i as' has'
        split at h1
        · cases h1
        · rename_i w2 inner' hi
          cases h1
          have hb : Able c Z (partsL inner) := by
            have := ha.left
            simp only [parts] at this
            exact this.right
          have hi' : transposeList c (.pitches o) inner = .ok (w2, inner') := hi
          obtain ⟨mm, hs1, b1, b2, b3⟩ := ih1 _ _ _ _ hi' (Fits.abs hk) hb (by have := hap.1; rw [ApartOk] at this; exact this.2)
          obtain ⟨m2', hs2, a1, a2, a3⟩ := ih2 _ _ _ _ h2 (Fits.abs hk) ha.right hap.2
          exact ⟨m2', _, .apartAbs b1 a1, a2, forall₂_append b3 a3⟩
  | apartRel _ _ _ _ =>
    intro w ms2 w' m2 ht hf ha hap
    rw [ApartOkL, ApartOk] at hap
    exact (hap.1.1 rfl).elim

/-! ## Transposing succeeds -/

/-- The transposed pitch has a name. -/
def Nameable (c : Ctx) (n : Note) : Prop :=
  ∃ p, (c.pp n.lang).readNode n.node = .ok p ∧ ∃ name o, Means (c.pp n.lang).table name o (c.tr p).note (c.tr p).alter

theorem read_hasName (pp : Processor) (hd : IsDict pp.table) (n : PNode) (p : Pitch) (h : pp.readNode n = .ok p) :
    HasName pp.table n.head := ⟨_, (readNode_iff pp hd n p).1 h⟩

theorem transposeNote_succeeds (c : Ctx) (g : Good c) (n : Note) (l : Last) (h : Nameable c n) :
    ∃ r, transposeNote c n l = .ok r := by
  obtain ⟨p, hp, name, o, hm⟩ := h
  unfold transposeNote
  simp only [hp]
  split
  · exact ⟨_, rfl⟩
  · have e : ∃ k, p.makeAbsolute l.pitch (p.octave - n.node.octave) 7 = down k p :=
      ⟨p.octave - (p.makeAbsolute l.pitch (p.octave - n.node.octave) 7).octave, by simp only [down, Pitch.makeAbsolute, Pitch.mk.injEq, and_true]; ring⟩
    obtain ⟨k, hk⟩ := e
    obtain ⟨nd, hnd⟩ := C16_write_succeeds (c.pp n.lang) n.node
      ((c.tr (p.makeAbsolute l.pitch (p.octave - n.node.octave) 7)).makeRelative l.prev (p.octave - n.node.octave) 7)
      (read_hasName _ (g.dict _) _ _ hp) ⟨name, o, by rw [hk, g.shift]; exact hm⟩
    simp only [hnd]
    exact ⟨_, rfl⟩

theorem transposeStack_succeeds (c : Ctx) (g : Good c) (ns : List Note) (l : Last) (h : ∀ n ∈ ns, Nameable c n) :
    ∃ r, transposeStack c l ns = .ok r := by
  induction ns generalizing l with
  | nil => exact ⟨_, rfl⟩
  | cons n ns ih =>
    obtain ⟨r, hr⟩ := transposeNote_succeeds c g n l (h n (by simp))
    obtain ⟨rs, hrs⟩ := ih r.1 (fun n hn => h n (by simp [hn]))
    simp only [transposeStack, hr, hrs]
    exact ⟨_, rfl⟩

theorem process_succeeds (c : Ctx) (g : Good c) (n : Note) (f : Pitch → Pitch) (h : Nameable c n)
    (hf : ∀ p, (f p).note = (c.tr p).note ∧ (f p).alter = (c.tr p).alter) :
    ∃ r, (c.pp n.lang).process n.node n.writable f = .ok r := by
  obtain ⟨p, hp, name, o, hm⟩ := h
  unfold Processor.process
  simp only [hp]
  split
  · exact C16_write_succeeds (c.pp n.lang) n.node _ (read_hasName _ (g.dict _) _ _ hp)
      ⟨name, o, by rw [(hf p).1, (hf p).2]; exact hm⟩
  · exact ⟨_, rfl⟩

theorem transposeAbs_succeeds (c : Ctx) (g : Good c) (o : ℤ) (n : Note) (h : Nameable c n) :
    ∃ r, transposeAbs c o n = .ok r := by
  obtain ⟨r, hr⟩ := process_succeeds c g n (fun p => down o (c.tr p)) h (fun _ => ⟨rfl, rfl⟩)
  unfold transposeAbs
  rw [hr]
  exact ⟨_, rfl⟩

theorem transposeKey_succeeds (c : Ctx) (g : Good c) (n : Note) (h : Nameable c n) :
    ∃ r, transposeKey c n = .ok r := by
  obtain ⟨r, hr⟩ := process_succeeds c g n (fun p => { c.tr p with octave := p.octave }) h (fun _ => ⟨rfl, rfl⟩)
  unfold transposeKey
  rw [hr]
  exact ⟨_, rfl⟩

theorem mapM_succeeds {α β : Type} (f : α → Py β) (l : List α) (h : ∀ a ∈ l, ∃ b, f a = .ok b) :
    ∃ bs, l.mapM f = .ok bs := by
  induction l with
  | nil => exact ⟨[], rfl⟩
  | cons a l ih =>
    obtain ⟨b, hb⟩ := h a (by simp)
    obtain ⟨bs, hbs⟩ := ih (fun a h' => h a (by simp [h']))
    exact ⟨b :: bs, by rw [List.mapM_cons, hb, hbs]; rfl⟩

mutual
theorem transposeMus_succeeds (c : Ctx) (g : Good c) (w : Walk) (m : Mus)
    (h : ∀ x ∈ parts m, Nameable c x.2) : ∃ r, transposeMus c w m = .ok r := by
  cases m with
  | note n =>
    have hn := h (.note, n) (by simp [parts])
    cases w with
    | pitches o =>
      obtain ⟨r, hr⟩ := transposeAbs_succeeds c g o n hn
      simp only [transposeMus, hr]; exact ⟨_, rfl⟩
    | relative l =>
      obtain ⟨r, hr⟩ := transposeNote_succeeds c g n l hn
      simp only [transposeMus, hr]; exact ⟨_, rfl⟩
  | chord ns =>
    have hn : ∀ n ∈ ns, Nameable c n := fun n hn => h (.note, n) (by simp [parts, hn])
    cases w with
    | pitches o =>
      obtain ⟨r, hr⟩ := mapM_succeeds _ ns (fun n h => transposeAbs_succeeds c g o n (hn n h))
      simp only [transposeMus, hr]; exact ⟨_, rfl⟩
    | relative l flat =>
      obtain ⟨r, hr⟩ := transposeStack_succeeds c g ns l hn
      cases flat
      · simp only [transposeMus, transposeChord, hr]
        cases r <;> exact ⟨_, rfl⟩
      · simp only [transposeMus, hr]; exact ⟨_, rfl⟩
  | check n =>
    have hn := h (.octaveCheck, n) (by simp [parts])
    cases w with
    | pitches o =>
      obtain ⟨r, hr⟩ := transposeAbs_succeeds c g o n hn
      simp only [transposeMus, hr]; exact ⟨_, rfl⟩
    | relative l flat =>
      cases flat
      · obtain ⟨p, hp, name, o, hm⟩ := hn
        obtain ⟨nd, hnd⟩ := C16_write_succeeds (c.pp n.lang) n.node (c.tr p) (read_hasName _ (g.dict _) _ _ hp) ⟨name, o, hm⟩
        simp only [transposeMus, transposeCheck, hp, hnd]
        cases n.writable <;> exact ⟨_, rfl⟩
      · obtain ⟨r, hr⟩ := transposeNote_succeeds c g n l hn
        simp only [transposeMus, hr]; exact ⟨_, rfl⟩
  | key n =>
    obtain ⟨r, hr⟩ := transposeKey_succeeds c g n (h (.key, n) (by simp [parts]))
    simp only [transposeMus, hr]; exact ⟨_, rfl⟩
  | group ms =>
    obtain ⟨r, hr⟩ := transposeList_succeeds c g w ms (fun x hx => h x (by simpa [parts] using hx))
    simp only [transposeMus, hr]; exact ⟨_, rfl⟩
  | relative s ms =>
    cases s with
    | none =>
      obtain ⟨r, hr⟩ := transposeList_succeeds c g (.relative ⟨firstPitch c.firstAbs, none⟩) ms
        (fun x hx => h x (by simpa [parts] using hx))
      simp only [transposeMus, hr]; exact ⟨_, rfl⟩
    | some s =>
      have hs := h (.start, s) (by simp [parts])
      obtain ⟨p, hp, name, o, hm⟩ := hs
      obtain ⟨nd, hnd⟩ := C16_write_succeeds (c.pp s.lang) s.node (c.tr p) (read_hasName _ (g.dict _) _ _ hp) ⟨name, o, hm⟩
      have : ∃ r, transposeStart c s = .ok r := by
        simp only [transposeStart, hp, hnd]
        cases s.writable <;> exact ⟨_, rfl⟩
      obtain ⟨r0, hr0⟩ := this
      obtain ⟨r, hr⟩ := transposeList_succeeds c g (.relative r0.1) ms (fun x hx => h x (by simp [parts, hx]))
      simp only [transposeMus, hr0, hr]; exact ⟨_, rfl⟩
  | fixed s ms =>
    have hs := h (.fixed, s) (by simp [parts])
    obtain ⟨r, hr⟩ := transposeList_succeeds c g (.pitches (if s.writable then c.toct else 0)) ms
      (fun x hx => h x (by simp [parts, hx]))
    obtain ⟨s', hs'⟩ := transposeAbs_succeeds c g 0 s hs
    cases hw : s.writable with
    | true => rw [hw] at hr; simp only [transposeMus, hw, if_true] at hr ⊢; simp only [hs', hr]; exact ⟨_, rfl⟩
    | false =>
      rw [hw] at hr
      simp only [transposeMus, hw, Bool.false_eq_true, if_false] at hr ⊢
      simp only [hr]; exact ⟨_, rfl⟩
  | absolute ms =>
    obtain ⟨r, hr⟩ := transposeList_succeeds c g (.pitches 0) ms (fun x hx => h x (by simpa [parts] using hx))
    simp only [transposeMus, hr]; exact ⟨_, rfl⟩
  | apart kind as ms =>
    obtain ⟨ra, hra⟩ := mapM_succeeds _ as (fun n hn => transposeAbs_succeeds c g c.toct n
      (h (.argument, n) (by simp [parts, hn])))
    obtain ⟨r, hr⟩ := transposeList_succeeds c g (w.enter kind) ms (fun x hx => h x (by simp [parts, hx]))
    simp only [transposeMus, hra, hr]; exact ⟨_, rfl⟩
theorem transposeList_succeeds (c : Ctx) (g : Good c) (w : Walk) (ms : List Mus)
    (h : ∀ x ∈ partsL ms, Nameable c x.2) : ∃ r, transposeList c w ms = .ok r := by
  cases ms with
  | nil => exact ⟨_, by rw [transposeList]⟩
  | cons m ms =>
    obtain ⟨r, hr⟩ := transposeMus_succeeds c g w m (fun x hx => h x (by simp [partsL, hx]))
    obtain ⟨rs, hrs⟩ := transposeList_succeeds c g r.1 ms (fun x hx => h x (by simp [partsL, hx]))
    simp only [transposeList, hr, hrs]; exact ⟨_, rfl⟩
end

/-! ## Relative to absolute -/

theorem absNote_ok (pp : Langs) (hd : ∀ l, IsDict (pp l).table) (n : Note) (last : Pitch) (h : Heard)
    (hh : RelNote pp.tables last n h) :
    ∃ n', absNote pp n last = .ok (h.pitch, n') ∧ AbsNote pp.tables n' h.pitch := by
  obtain ⟨p, hp, hq, _⟩ := (relNote_iff pp hd _ _ _).1 hh
  obtain ⟨nd, hnd⟩ := C16_write_succeeds (pp n.lang) n.node h.pitch (read_hasName _ (hd _) _ _ hp)
    ⟨_, _, by rw [hq]; exact (readNode_iff _ (hd _) n.node p).1 hp⟩
  refine ⟨{ n with node := nd }, ?_, (absNote_iff pp hd _ _).2 (C16_write_read _ (hd _) _ _ _ hnd)⟩
  simp only [absNote, hp, ← hq, hnd]

theorem absStack_ok (pp : Langs) (hd : ∀ l, IsDict (pp l).table) (ns : List Note) (last : Pitch) (hs : List Heard)
    (hh : RelChord pp.tables last ns hs) :
    ∃ rs, absStack pp last ns = .ok rs ∧ rs.map Prod.fst = pitches hs ∧
      List.Forall₂ (AbsNote pp.tables) (rs.map Prod.snd) (pitches hs) := by
  induction hh with
  | nil last => exact ⟨[], rfl, rfl, .nil⟩
  | @cons last n h ns hs hn _ ih =>
    obtain ⟨n', a1, a2⟩ := absNote_ok pp hd n last h hn
    obtain ⟨rs, b1, b2, b3⟩ := ih
    refine ⟨(h.pitch, n') :: rs, ?_, ?_, .cons a2 b3⟩
    · simp only [absStack, a1, b1]
    · simp only [List.map_cons, b2, pitches]

theorem absChord_ok (pp : Langs) (hd : ∀ l, IsDict (pp l).table) (ns : List Note) (last : Pitch) (hs : List Heard)
    (hh : RelChord pp.tables last ns hs) :
    ∃ ns', absChord pp last ns = .ok (firstOf last hs, ns') ∧
      List.Forall₂ (AbsNote pp.tables) ns' (pitches hs) := by
  obtain ⟨rs, b1, b2, b3⟩ := absStack_ok pp hd ns last hs hh
  unfold absChord
  simp only [b1]
  cases rs with
  | nil =>
    cases hs with
    | nil => exact ⟨[], rfl, .nil⟩
    | cons h hs => cases b2
  | cons r rs =>
    cases hs with
    | nil => cases b2
    | cons h hs =>
      simp only [List.map_cons, pitches, List.cons.injEq] at b2
      exact ⟨_, by simp only [b2.1]; rfl, b3⟩

/-- The mode before and after the conversion, with what the conversion remembers. -/
inductive Fits2 : Mode → Option Pitch → Mode → List Mus → Prop
  | abs {k ms} (h : k = 0 ∨ NoRelativeL ms) : Fits2 (.abs k) none (.abs k) ms
  | rel {last ms} : Fits2 (.rel last) (some last) (.abs 0) ms

theorem Fits2.tail {m l m2 x ms} (h : Fits2 m l m2 (x :: ms)) : Fits2 m l m2 ms := by
  cases h with
  | abs h => exact .abs (h.imp id (fun h => by rw [NoRelativeL] at h; exact h.2))
  | rel => exact .rel

theorem hears_append (t : Tables) (f : Pitch) {m ms m1 hs ms' m2 hs'} (h1 : Hears t f m ms m1 hs)
    (h2 : Hears t f m1 ms' m2 hs') : Hears t f m (ms ++ ms') m2 (hs ++ hs') := by
  induction h1 with
  | nil m => exact h2
  | noteAbs a _ ih => exact .noteAbs a (ih h2)
  | noteRel a _ ih => exact .noteRel a (ih h2)
  | chordAbs a _ ih => rw [List.append_assoc]; exact .chordAbs a (ih h2)
  | chordRel a _ ih => rw [List.append_assoc]; exact .chordRel a (ih h2)
  | checkAbs a _ ih => exact .checkAbs a (ih h2)
  | checkRel a _ ih => exact .checkRel a (ih h2)
  | key _ ih => exact .key (ih h2)
  | group a _ _ ih => rw [List.append_assoc]; exact .group a (ih h2)
  | relativeFrom q a _ _ ih => rw [List.append_assoc]; exact .relativeFrom q a (ih h2)
  | relative a _ _ ih => rw [List.append_assoc]; exact .relative a (ih h2)
  | fixed q a _ _ ih => rw [List.append_assoc]; exact .fixed q a (ih h2)
  | absolute a _ _ ih => rw [List.append_assoc]; exact .absolute a (ih h2)
  | apartAbs a _ _ ih => rw [List.append_assoc]; exact .apartAbs a (ih h2)
  | apartRel a _ _ ih => rw [List.append_assoc]; exact .apartRel a (ih h2)

/-- Mode after a piece of absolute music. -/
theorem hears_abs_mode (t : Tables) (f : Pitch) {m ms m' hs} (h : Hears t f m ms m' hs) :
    ∀ k, m = .abs k → m' = .abs k := by
  induction h with
  | nil m => exact fun _ h => h
  | noteAbs _ _ ih => exact ih
  | noteRel _ _ ih => intro k hk; cases hk
  | chordAbs _ _ ih => exact ih
  | chordRel _ _ ih => intro k hk; cases hk
  | checkAbs _ _ ih => exact ih
  | checkRel _ _ ih => intro k hk; cases hk
  | key _ ih => exact ih
  | group _ _ ih1 ih2 => exact fun k hk => ih2 k (ih1 k hk)
  | relativeFrom _ _ _ _ ih => exact ih
  | relative _ _ _ ih => exact ih
  | fixed _ _ _ _ ih => exact ih
  | absolute _ _ _ ih => exact ih
  | apartAbs _ _ _ ih => exact ih
  | apartRel _ _ _ ih => intro k hk; cases hk

theorem pitches_append (a b : List Heard) : pitches (a ++ b) = pitches a ++ pitches b := List.map_append ..

mutual
theorem fixedPlain_of_noRelative (m : Mus) (h : NoRelative m) : FixedPlain m := by
  cases m with
  | note n => simp [FixedPlain]
  | chord n => simp [FixedPlain]
  | check n => simp [FixedPlain]
  | key n => simp [FixedPlain]
  | group ms => rw [NoRelative] at h; rw [FixedPlain]; exact fixedPlainL_of_noRelative ms h
  | relative s ms => rw [NoRelative] at h; exact h.elim
  | fixed s ms => rw [NoRelative] at h; rw [FixedPlain]; exact h
  | absolute ms => rw [NoRelative] at h; rw [FixedPlain]; exact fixedPlainL_of_noRelative ms h
  | apart k as ms => rw [NoRelative] at h; rw [FixedPlain]; exact fixedPlainL_of_noRelative ms h
theorem fixedPlainL_of_noRelative (ms : List Mus) (h : NoRelativeL ms) : FixedPlainL ms := by
  cases ms with
  | nil => simp [FixedPlainL]
  | cons m ms =>
    rw [NoRelativeL] at h
    rw [FixedPlainL]
    exact ⟨fixedPlain_of_noRelative m h.1, fixedPlainL_of_noRelative ms h.2⟩
end

theorem rel2absList_cons (pp : Langs) (fa : Bool) (l l1 l2 : Option Pitch) (m : Mus) (ms ms1 ms2 : List Mus)
    (h1 : rel2abs pp fa l m = .ok (l1, ms1)) (h2 : rel2absList pp fa l1 ms = .ok (l2, ms2)) :
    rel2absList pp fa l (m :: ms) = .ok (l2, ms1 ++ ms2) := by
  rw [rel2absList]
  simp only [h1, h2]

/-- Music without chord notes and so on keeps its sound. -/
theorem hears_rel2abs (pp : Langs) (hd : ∀ l, IsDict (pp l).table) (fa : Bool) {m : Mode} {ms : List Mus} {m' : Mode}
    {hs : List Heard} (hh : Hears pp.tables (reference fa) m ms m' hs) :
    ∀ (l : Option Pitch) (m2 : Mode), Fits2 m l m2 ms → FixedPlainL ms → ApartOkL (· = .transpose) m.isRel ms →
      ∃ l' ms2 hs2, rel2absList pp fa l ms = .ok (l', ms2) ∧
        Hears pp.tables (reference fa) m2 ms2 m2 hs2 ∧ (∀ ys, (∀ k, m = .abs k → k = 0 ∨ NoRelativeL ys) → Fits2 m' l' m2 ys) ∧
        pitches hs2 = pitches hs := by
  induction hh with
  | nil m =>
    intro l m2 hf _ _
    refine ⟨l, [], [], by rw [rel2absList], .nil _, ?_, rfl⟩
    intro ys hy
    cases hf with
    | @abs k _ h => exact .abs (hy k rfl)
    | rel => exact .rel
  | @noteAbs k n q ms m' hs hq _ ih =>
    intro l m2 hf hp hap
    rw [ApartOkL] at hap
    rw [FixedPlainL] at hp
    cases hf with
    | abs h =>
      obtain ⟨l', ms2, hs2, a1, a2, a3, a4⟩ := ih none _ (Fits2.tail (.abs h)) hp.2 hap.2
      refine ⟨l', _, _, rel2absList_cons _ _ _ _ _ _ _ _ _ (by rw [rel2abs]) a1, .noteAbs hq a2, a3, ?_⟩
      simp only [pitches, List.map_cons, List.cons.injEq, true_and]; exact a4
  | @noteRel last n h ms m' hs hn _ ih =>
    intro l m2 hf hp hap
    rw [ApartOkL] at hap
    rw [FixedPlainL] at hp
    cases hf with
    | rel =>
      obtain ⟨n', b1, b2⟩ := absNote_ok pp hd n last h hn
      obtain ⟨l', ms2, hs2, a1, a2, a3, a4⟩ := ih (some h.pitch) _ .rel hp.2 hap.2
      refine ⟨l', _, _, rel2absList_cons (ms1 := [.note n']) _ _ _ _ _ _ _ _ (by rw [rel2abs]; simp only [b1]) a1, .noteAbs b2 a2,
        (fun ys _ => a3 ys (fun k hk => by cases hk)), ?_⟩
      simp only [pitches, List.map_cons, List.cons.injEq]
      exact ⟨by simp, a4⟩
  | @chordAbs k ns qs ms m' hs hq _ ih =>
    intro l m2 hf hp hap
    rw [ApartOkL] at hap
    rw [FixedPlainL] at hp
    cases hf with
    | abs h =>
      obtain ⟨l', ms2, hs2, a1, a2, a3, a4⟩ := ih none _ (Fits2.tail (.abs h)) hp.2 hap.2
      refine ⟨l', _, _, rel2absList_cons _ _ _ _ _ _ _ _ _ (by rw [rel2abs]) a1, .chordAbs hq a2, a3, ?_⟩
      rw [pitches_append, pitches_append, a4]
  | @chordRel last ns cs ms m' hs hn _ ih =>
    intro l m2 hf hp hap
    rw [ApartOkL] at hap
    rw [FixedPlainL] at hp
    cases hf with
    | rel =>
      obtain ⟨ns', b1, b2⟩ := absChord_ok pp hd ns last cs hn
      obtain ⟨l', ms2, hs2, a1, a2, a3, a4⟩ := ih (some (firstOf last cs)) _ .rel hp.2 hap.2
      refine ⟨l', _, _, rel2absList_cons (ms1 := [.chord ns']) _ _ _ _ _ _ _ _ (by rw [rel2abs]; simp only [b1]) a1, .chordAbs b2 a2,
        (fun ys _ => a3 ys (fun k hk => by cases hk)), ?_⟩
      rw [pitches_append, pitches_append, a4]
      congr 1
      simp [pitches, Function.comp_def]
  | @checkAbs k n q ms m' hs hq _ ih =>
    intro l m2 hf hp hap
    rw [ApartOkL] at hap
    rw [FixedPlainL] at hp
    cases hf with
    | abs h =>
      obtain ⟨l', ms2, hs2, a1, a2, a3, a4⟩ := ih none _ (Fits2.tail (.abs h)) hp.2 hap.2
      exact ⟨l', _, _, rel2absList_cons _ _ _ _ _ _ _ _ _ (by rw [rel2abs]) a1, .checkAbs hq a2, a3, a4⟩
  | @checkRel last n q ms m' hs hq _ ih =>
    intro l m2 hf hp hap
    rw [ApartOkL] at hap
    rw [FixedPlainL] at hp
    cases hf with
    | rel =>
      have hr := (absNote_iff pp hd _ _).1 hq
      obtain ⟨l', ms2, hs2, a1, a2, a3, a4⟩ := ih (some q) _ .rel hp.2 hap.2
      exact ⟨l', _, _, rel2absList_cons (ms1 := []) _ _ _ _ _ _ _ _ (by rw [rel2abs]; simp only [hr]) a1, a2,
        (fun ys _ => a3 ys (fun k hk => by cases hk)), a4⟩
  | @key m n ms m' hs _ ih =>
    intro l m2 hf hp hap
    rw [ApartOkL] at hap
    rw [FixedPlainL] at hp
    obtain ⟨l', ms2, hs2, a1, a2, a3, a4⟩ := ih l _ hf.tail hp.2 hap.2
    exact ⟨l', _, _, rel2absList_cons _ _ _ _ _ _ _ _ _ (by rw [rel2abs]) a1, .key a2, a3, a4⟩
  | @group m inner m1 is ms m' hs g1 _ ih1 ih2 =>
    intro l m2 hf hp hap
    rw [ApartOkL] at hap
    rw [FixedPlainL] at hp
    have hf1 : Fits2 m l m2 inner := by
      cases hf with
      | abs h => exact .abs (h.imp id (fun h => by rw [NoRelativeL, NoRelative] at h; exact h.1))
      | rel => exact .rel
    obtain ⟨l1, in2, is2, b1, b2, b3, b4⟩ := ih1 l m2 hf1 (by have := hp.1; rwa [FixedPlain] at this)
      (by have := hap.1; rwa [ApartOk] at this)
    have hf2 : Fits2 m1 l1 m2 ms := by
      apply b3
      intro k hk
      subst hk
      cases hf with
      | abs h => exact h.imp id (fun h => by rw [NoRelativeL] at h; exact h.2)
    obtain ⟨l', ms2, hs2, a1, a2, a3, a4⟩ := ih2 l1 m2 hf2 hp.2 (by rw [hears_isRel _ _ g1]; exact hap.2)
    refine ⟨l', _, _, rel2absList_cons (ms1 := [.group in2]) _ _ _ _ _ _ _ _ (by rw [rel2abs]; simp only [b1]) a1, .group b2 a2, ?_, ?_⟩
    · intro ys hy
      apply a3
      intro k hk
      subst hk
      cases m with
      | abs k' =>
        have := hears_abs_mode _ _ g1 k' rfl
        cases this
        exact hy _ rfl
      | rel last =>
        cases hf2
        rename_i h
        cases b3 [] (fun k hk => by cases hk)
        rcases hf
        exact .inl rfl
    · rw [pitches_append, pitches_append, a4, b4]
  | @relativeFrom m s q inner m1 is ms m' hs hq _ _ ih1 ih2 =>
    intro l m2 hf hp hap
    rw [ApartOkL] at hap
    rw [FixedPlainL] at hp
    have hr := (absNote_iff pp hd _ _).1 hq
    obtain ⟨l1, in2, is2, b1, b2, b3, b4⟩ := ih1 (some q) _ .rel (by have := hp.1; rwa [FixedPlain] at this)
      (by have := hap.1; rwa [ApartOk] at this)
    obtain ⟨l', ms2, hs2, a1, a2, a3, a4⟩ := ih2 l m2 hf.tail hp.2 hap.2
    have e : m2 = .abs 0 := by
      cases hf with
      | abs h =>
        rcases h with rfl | h
        · rfl
        · rw [NoRelativeL, NoRelative] at h; exact h.1.elim
      | rel => rfl
    subst e
    refine ⟨l', _, _, rel2absList_cons (ms1 := in2) _ _ _ _ _ _ _ _ (by rw [rel2abs]; simp only [hr, b1]) a1,
      hears_append _ _ b2 a2, a3, ?_⟩
    rw [pitches_append, pitches_append, a4, b4]
  | @relative m inner m1 is ms m' hs _ _ ih1 ih2 =>
    intro l m2 hf hp hap
    rw [ApartOkL] at hap
    rw [FixedPlainL] at hp
    obtain ⟨l1, in2, is2, b1, b2, b3, b4⟩ := ih1 (some (reference fa)) _ .rel (by have := hp.1; rwa [FixedPlain] at this)
      (by have := hap.1; rwa [ApartOk] at this)
    obtain ⟨l', ms2, hs2, a1, a2, a3, a4⟩ := ih2 l m2 hf.tail hp.2 hap.2
    have e : m2 = .abs 0 := by
      cases hf with
      | abs h =>
        rcases h with rfl | h
        · rfl
        · rw [NoRelativeL, NoRelative] at h; exact h.1.elim
      | rel => rfl
    subst e
    have b1' : rel2absList pp fa (some (firstPitch fa)) inner = .ok (l1, in2) := b1
    refine ⟨l', _, _, rel2absList_cons (ms1 := in2) _ _ _ _ _ _ _ _ (by rw [rel2abs]; simp only [b1']) a1,
      hears_append _ _ b2 a2, a3, ?_⟩
    rw [pitches_append, pitches_append, a4, b4]
  | @fixed m s q inner m1 is ms m' hs hq _ _ ih1 ih2 =>
    intro l m2 hf hp hap
    rw [ApartOkL] at hap
    rw [FixedPlainL, FixedPlain] at hp
    obtain ⟨l1, in2, is2, b1, b2, b3, b4⟩ := ih1 none _ (.abs (.inr hp.1)) (fixedPlainL_of_noRelative _ hp.1)
      (by have := hap.1; rwa [ApartOk] at this)
    obtain ⟨l', ms2, hs2, a1, a2, a3, a4⟩ := ih2 l m2 hf.tail hp.2 hap.2
    refine ⟨l', _, _, rel2absList_cons (ms1 := [.fixed s in2]) _ _ _ _ _ _ _ _ (by rw [rel2abs]; simp only [b1]) a1,
      .fixed hq b2 a2, a3, ?_⟩
    rw [pitches_append, pitches_append, a4, b4]
  | @absolute m inner m1 is ms m' hs _ _ ih1 ih2 =>
    intro l m2 hf hp hap
    rw [ApartOkL] at hap
    rw [FixedPlainL, FixedPlain] at hp
    obtain ⟨l1, in2, is2, b1, b2, b3, b4⟩ := ih1 none _ (.abs (.inl rfl)) hp.1 (by have := hap.1; rwa [ApartOk] at this)
    obtain ⟨l', ms2, hs2, a1, a2, a3, a4⟩ := ih2 l m2 hf.tail hp.2 hap.2
    refine ⟨l', _, _, rel2absList_cons (ms1 := [.absolute in2]) _ _ _ _ _ _ _ _ (by rw [rel2abs]; simp only [b1]) a1,
      .absolute b2 a2, a3, ?_⟩
    rw [pitches_append, pitches_append, a4, b4]
  | @apartAbs k kind as inner m1 is ms m' hs g1 _ ih1 ih2 =>
    intro l m2 hf hp hap
    rw [FixedPlainL, FixedPlain] at hp
    rw [ApartOkL, ApartOk] at hap
    cases hf with
    | abs h =>
      obtain ⟨l1, in2, is2, b1, b2, b3, b4⟩ := ih1 none _
        (.abs (h.imp id (fun h => by rw [NoRelativeL, NoRelative] at h; exact h.1))) hp.1 hap.1.2
      obtain ⟨l', ms2, hs2, a1, a2, a3, a4⟩ := ih2 none _ (Fits2.tail (.abs h)) hp.2 hap.2
      have hl : l1 = none := by
        have e := hears_abs_mode _ _ g1 _ rfl
        subst e
        cases b3 [] (fun k _ => .inr (by simp [NoRelativeL]))
        rfl
      subst hl
      refine ⟨l', _, _, rel2absList_cons (ms1 := [.apart kind as in2]) _ _ _ _ _ _ _ _ ?_ a1, .apartAbs b2 a2, a3, ?_⟩
      · cases kind <;> (rw [rel2abs]; simp only [b1])
      · rw [pitches_append, pitches_append, a4, b4]
  | @apartRel last kind as inner m1 is ms m' hs _ _ ih1 ih2 =>
    intro l m2 hf hp hap
    rw [FixedPlainL, FixedPlain] at hp
    rw [ApartOkL, ApartOk] at hap
    obtain rfl := hap.1.1 rfl
    cases hf with
    | rel =>
      obtain ⟨l1, in2, is2, b1, b2, b3, b4⟩ := ih1 none _ (.abs (.inl rfl)) hp.1 hap.1.2
      obtain ⟨l', ms2, hs2, a1, a2, a3, a4⟩ := ih2 (some last) _ .rel hp.2 hap.2
      refine ⟨l', _, _, rel2absList_cons (ms1 := [.apart .transpose as in2]) _ _ _ _ _ _ _ _ (by rw [rel2abs]; simp only [b1]) a1,
        .apartAbs b2 a2, a3, ?_⟩
      rw [pitches_append, pitches_append, a4, b4]

theorem noRelativeL_append (a b : List Mus) (h1 : NoRelativeL a) (h2 : NoRelativeL b) : NoRelativeL (a ++ b) := by
  induction a with
  | nil => exact h2
  | cons x a ih =>
    rw [NoRelativeL] at h1
    rw [List.cons_append, NoRelativeL]
    exact ⟨h1.1, ih h1.2⟩

mutual
theorem rel2abs_plain (pp : Langs) (fa : Bool) (m : Mus) (l l' : Option Pitch) (ms : List Mus)
    (h : rel2abs pp fa l m = .ok (l', ms)) : NoRelativeL ms := by
  cases m with
  | note n =>
    cases l with
    | none => simp only [rel2abs] at h; cases h; simp [NoRelativeL, NoRelative]
    | some l =>
      simp only [rel2abs] at h
      split at h
      · cases h
      · cases h; simp [NoRelativeL, NoRelative]
  | chord n =>
    cases l with
    | none => simp only [rel2abs] at h; cases h; simp [NoRelativeL, NoRelative]
    | some l =>
      simp only [rel2abs] at h
      split at h
      · cases h
      · cases h; simp [NoRelativeL, NoRelative]
  | check n =>
    cases l with
    | none => simp only [rel2abs] at h; cases h; simp [NoRelativeL, NoRelative]
    | some l =>
      simp only [rel2abs] at h
      split at h
      · cases h
      · cases h; simp [NoRelativeL]
  | key n => simp only [rel2abs] at h; cases h; simp [NoRelativeL, NoRelative]
  | group ms =>
    simp only [rel2abs] at h
    split at h
    · cases h
    · rename_i e
      cases h
      have := rel2absList_plain pp fa ms _ _ _ e
      simp [NoRelativeL, NoRelative, this]
  | relative s ms =>
    cases s with
    | none =>
      simp only [rel2abs] at h
      split at h
      · cases h
      · rename_i e
        cases h
        exact rel2absList_plain pp fa ms _ _ _ e
    | some s =>
      simp only [rel2abs] at h
      split at h
      · cases h
      · split at h
        · cases h
        · rename_i e
          cases h
          exact rel2absList_plain pp fa ms _ _ _ e
  | fixed s ms =>
    simp only [rel2abs] at h
    split at h
    · cases h
    · rename_i e
      cases h
      have := rel2absList_plain pp fa ms _ _ _ e
      simp [NoRelativeL, NoRelative, this]
  | absolute ms =>
    simp only [rel2abs] at h
    split at h
    · cases h
    · rename_i e
      cases h
      have := rel2absList_plain pp fa ms _ _ _ e
      simp [NoRelativeL, NoRelative, this]
  | apart kind as ms =>
    cases kind <;>
    · simp only [rel2abs] at h
      split at h
      · cases h
      · rename_i e
        cases h
        have := rel2absList_plain pp fa ms _ _ _ e
        simp [NoRelativeL, NoRelative, this]
theorem rel2absList_plain (pp : Langs) (fa : Bool) (ms : List Mus) (l l' : Option Pitch) (ms' : List Mus)
    (h : rel2absList pp fa l ms = .ok (l', ms')) : NoRelativeL ms' := by
  cases ms with
  | nil => rw [rel2absList] at h; cases h; simp [NoRelativeL]
  | cons m ms =>
    simp only [rel2absList] at h
    split at h
    · cases h
    · rename_i e1
      split at h
      · cases h
      · rename_i e2
        cases h
        exact noRelativeL_append _ _ (rel2abs_plain pp fa m _ _ _ e1) (rel2absList_plain pp fa ms _ _ _ e2)
end

/-! ## Absolute to relative -/

theorem relNote_ok (pp : Langs) (hd : ∀ l, IsDict (pp l).table) (st : Settings) (n : Note) (q l : Pitch) (start : Option Note)
    (hq : AbsNote pp.tables n q) :
    ∃ n' h, relNote pp st ⟨some l, start⟩ n = .ok (⟨some q, start⟩, n') ∧ RelNote pp.tables l n' h ∧ h.pitch = q := by
  have hr := (absNote_iff pp hd _ _).1 hq
  have hm := (readNode_iff _ (hd _) _ _).1 hr
  obtain ⟨nd, hnd⟩ := C16_write_succeeds (pp n.lang) n.node (q.makeRelative l (q.octave - n.node.octave) 7)
    (read_hasName _ (hd _) _ _ hr) ⟨_, _, hm⟩
  obtain ⟨k1, k2⟩ := C16_name_kept (pp n.lang) n.node nd q (q.makeRelative l (q.octave - n.node.octave) 7) hr rfl rfl hnd
  refine ⟨{ n with node := nd }, ⟨q, n.check.map (fun c => q.octave - n.node.octave + c)⟩, ?_, ?_, rfl⟩
  · simp only [relNote, hr, hnd]
  · rw [relNote_iff pp hd]
    refine ⟨_, C16_write_read _ (hd _) _ _ _ hnd, ?_, ?_⟩
    · rw [k2]
      simp only [Pitch.makeRelative, Pitch.makeAbsolute]
      obtain ⟨a, b, c⟩ := q
      simp only [Pitch.mk.injEq, and_true]
      ring
    · simp only [k2, Pitch.makeRelative]
      congr 1
      funext c
      ring

theorem relList_cons (pp : Langs) (st : Settings) (s s1 s2 : RelState) (m m1 : Mus) (ms ms2 : List Mus)
    (h1 : relMus pp st s m = .ok (s1, m1)) (h2 : relList pp st s1 ms = .ok (s2, ms2)) :
    relList pp st s (m :: ms) = .ok (s2, m1 :: ms2) := by
  rw [relList]
  simp only [h1, h2]

/-- Once there is a last pitch. -/
theorem hears_relList (pp : Langs) (hd : ∀ l, IsDict (pp l).table) (st : Settings) (f : Pitch) {m : Mode} {ms : List Mus} {m' : Mode}
    {hs : List Heard} (hh : Hears pp.tables f m ms m' hs) (hm : m = .abs 0) (hme : MelodyL ms) :
    ∀ (l : Pitch) (start : Option Note), ∃ l' ms2 hs2, relList pp st ⟨some l, start⟩ ms = .ok (⟨some l', start⟩, ms2) ∧
      Hears pp.tables f (.rel l) ms2 (.rel l') hs2 ∧ pitches hs2 = pitches hs := by
  induction hh with
  | nil m =>
    intro l start
    exact ⟨l, [], [], by rw [relList], .nil _, rfl⟩
  | @noteAbs k n q ms m' hs hq _ ih =>
    intro l start
    rw [MelodyL] at hme
    obtain ⟨n', h, b1, b2, b3⟩ := relNote_ok pp hd st n q l start hq
    obtain ⟨l', ms2, hs2, a1, a2, a3⟩ := ih hm hme.2 q start
    refine ⟨l', _, h :: hs2, relList_cons (m1 := .note n') _ _ _ _ _ _ _ _ (by rw [relMus]; simp only [b1]) a1,
      .noteRel b2 (by rw [b3]; exact a2), ?_⟩
    cases hm
    simp only [pitches, List.map_cons, b3, List.cons.injEq]
    exact ⟨by simp, a3⟩
  | noteRel _ _ _ => cases hm
  | chordAbs _ _ _ => rw [MelodyL, Melody] at hme; exact hme.1.elim
  | chordRel _ _ _ => cases hm
  | checkAbs _ _ _ => rw [MelodyL, Melody] at hme; exact hme.1.elim
  | checkRel _ _ _ => cases hm
  | @key m n ms m' hs _ ih =>
    intro l start
    rw [MelodyL] at hme
    obtain ⟨l', ms2, hs2, a1, a2, a3⟩ := ih hm hme.2 l start
    exact ⟨l', _, hs2, relList_cons (m1 := .key n) _ _ _ _ _ _ _ _ (by rw [relMus]) a1, .key a2, a3⟩
  | @group m inner m1 is ms m' hs g1 _ ih1 ih2 =>
    intro l start
    rw [MelodyL, Melody] at hme
    obtain ⟨l1, in2, is2, b1, b2, b3⟩ := ih1 hm hme.1 l start
    obtain ⟨l', ms2, hs2, a1, a2, a3⟩ := ih2 (hears_abs_mode _ _ g1 0 hm) hme.2 l1 start
    refine ⟨l', _, _, relList_cons (m1 := .group in2) _ _ _ _ _ _ _ _ (by rw [relMus]; simp only [b1]) a1, .group b2 a2, ?_⟩
    rw [pitches_append, pitches_append, a3, b3]
  | relativeFrom _ _ _ _ _ => rw [MelodyL, Melody] at hme; exact hme.1.elim
  | relative _ _ _ _ => rw [MelodyL, Melody] at hme; exact hme.1.elim
  | @fixed m s q inner m1 is ms m' hs hq g1 _ _ ih2 =>
    intro l start
    rw [MelodyL] at hme
    obtain ⟨l', ms2, hs2, a1, a2, a3⟩ := ih2 hm hme.2 l start
    refine ⟨l', _, _, relList_cons (m1 := .fixed s inner) _ _ _ _ _ _ _ _ (by rw [relMus]) a1, .fixed hq g1 a2, ?_⟩
    rw [pitches_append, pitches_append, a3]
  | @absolute m inner m1 is ms m' hs g1 _ _ ih2 =>
    intro l start
    rw [MelodyL] at hme
    obtain ⟨l', ms2, hs2, a1, a2, a3⟩ := ih2 hm hme.2 l start
    refine ⟨l', _, _, relList_cons (m1 := .absolute inner) _ _ _ _ _ _ _ _ (by rw [relMus]) a1, .absolute g1 a2, ?_⟩
    rw [pitches_append, pitches_append, a3]
  | @apartAbs k kind as inner m1 is ms m' hs g1 _ _ ih2 =>
    intro l start
    rw [MelodyL, Melody] at hme
    obtain ⟨rfl, hme⟩ := hme
    obtain ⟨l', ms2, hs2, a1, a2, a3⟩ := ih2 hm hme l start
    cases hm
    refine ⟨l', _, _, relList_cons (m1 := .apart .transpose as inner) _ _ _ _ _ _ _ _ (by rw [relMus]) a1, .apartRel g1 a2, ?_⟩
    rw [pitches_append, pitches_append, a3]
  | apartRel _ _ _ _ => cases hm

/-- The start pitch says what the music is relative to. -/
def RefOk (t : Tables) (st : Settings) (start : Option Note) (ref : Pitch) : Prop :=
  if st.startPitch then ∃ n, start = some n ∧ AbsNote t n ref else start = none ∧ ref = reference st.firstAbs

theorem relNote_first (pp : Langs) (hd : ∀ l, IsDict (pp l).table) (st : Settings) (n : Note) (q : Pitch)
    (hc : st.startPitch = true → ∀ lang, ∃ name o, Means (pp lang).table name o 0 0) (hq : AbsNote pp.tables n q) :
    ∃ n' h ref start, relNote pp st {} n = .ok (⟨some q, start⟩, n') ∧ RefOk pp.tables st start ref ∧
      RelNote pp.tables ref n' h ∧ h.pitch = q := by
  have hr := (absNote_iff pp hd _ _).1 hq
  have key : ∃ ref start, getFirstPitch pp st n.lang q = .ok (ref, start) ∧ RefOk pp.tables st start ref := by
    unfold getFirstPitch RefOk
    cases hs : st.startPitch with
    | false => exact ⟨_, _, rfl, rfl, rfl⟩
    | true =>
      obtain ⟨r, hr⟩ := (C15_key_error (pp n.lang) ⟨if q.note > 3 then q.octave + 1 else q.octave, 0, 0⟩).2 (hc hs n.lang)
      have hp : ∃ nd, (pp n.lang).pitchable ⟨if q.note > 3 then q.octave + 1 else q.octave, 0, 0⟩ = .ok nd := by
        unfold Processor.pitchable
        rw [hr]
        exact ⟨_, rfl⟩
      obtain ⟨nd, hnd⟩ := hp
      simp only [if_true, hnd]
      exact ⟨_, _, rfl, _, rfl, (absNote_iff pp hd _ _).2 (C16_pitchable _ (hd _) _ _ hnd)⟩
  obtain ⟨ref, start, e1, e2⟩ := key
  obtain ⟨n', h, b1, b2, b3⟩ := relNote_ok pp hd st n q ref start hq
  refine ⟨n', h, ref, start, ?_, e2, b2, b3⟩
  simp only [relNote, hr, e1] at b1 ⊢
  exact b1

/-- The music up to and including the first note. -/
theorem hears_relList_first (pp : Langs) (hd : ∀ l, IsDict (pp l).table) (st : Settings)
    (hc : st.startPitch = true → ∀ lang, ∃ name o, Means (pp lang).table name o 0 0) (f : Pitch) {m : Mode} {ms : List Mus} {m' : Mode}
    {hs : List Heard} (hh : Hears pp.tables f m ms m' hs) (hm : m = .abs 0) (hme : MelodyL ms) :
    ∃ s' ms2, relList pp st {} ms = .ok (s', ms2) ∧
      ((s' = {} ∧ ∀ r, ∃ hs2, Hears pp.tables f (.rel r) ms2 (.rel r) hs2 ∧ pitches hs2 = pitches hs) ∨
       (∃ ref l' hs2, s'.last = some l' ∧ RefOk pp.tables st s'.start ref ∧
          Hears pp.tables f (.rel ref) ms2 (.rel l') hs2 ∧ pitches hs2 = pitches hs)) := by
  induction hh with
  | nil m => exact ⟨{}, [], by rw [relList], .inl ⟨rfl, fun r => ⟨[], .nil _, rfl⟩⟩⟩
  | @noteAbs k n q ms m' hs hq g1 ih =>
    rw [MelodyL] at hme
    obtain ⟨n', h, ref, start, b1, b0, b2, b3⟩ := relNote_first pp hd st n q hc hq
    obtain ⟨l', ms2, hs2, a1, a2, a3⟩ := hears_relList pp hd st f g1 hm hme.2 q start
    refine ⟨_, _, relList_cons (m1 := .note n') _ _ _ _ _ _ _ _ (by rw [relMus]; simp only [b1]) a1,
      .inr ⟨ref, l', h :: hs2, rfl, b0, .noteRel b2 (by rw [b3]; exact a2), ?_⟩⟩
    cases hm
    simp only [pitches, List.map_cons, b3, List.cons.injEq]
    exact ⟨by simp, a3⟩
  | noteRel _ _ _ => cases hm
  | chordAbs _ _ _ => rw [MelodyL, Melody] at hme; exact hme.1.elim
  | chordRel _ _ _ => cases hm
  | checkAbs _ _ _ => rw [MelodyL, Melody] at hme; exact hme.1.elim
  | checkRel _ _ _ => cases hm
  | @key m n ms m' hs _ ih =>
    rw [MelodyL] at hme
    obtain ⟨s', ms2, a1, a2⟩ := ih hm hme.2
    refine ⟨s', _, relList_cons (m1 := .key n) _ _ _ _ _ _ _ _ (by rw [relMus]) a1, ?_⟩
    rcases a2 with ⟨e, a2⟩ | ⟨ref, l', hs2, e1, e2, a2, a3⟩
    · exact .inl ⟨e, fun r => by obtain ⟨hs2, x, y⟩ := a2 r; exact ⟨hs2, .key x, y⟩⟩
    · exact .inr ⟨ref, l', hs2, e1, e2, .key a2, a3⟩
  | @group m inner m1 is ms m' hs g1 g2 ih1 ih2 =>
    rw [MelodyL, Melody] at hme
    obtain ⟨s1, in2, b1, b2⟩ := ih1 hm hme.1
    have hm1 := hears_abs_mode _ _ g1 0 hm
    rcases b2 with ⟨rfl, b2⟩ | ⟨ref, l1, is2, e1, e2, b2, b3⟩
    · obtain ⟨s', ms2, a1, a2⟩ := ih2 hm1 hme.2
      refine ⟨s', _, relList_cons (m1 := .group in2) _ _ _ _ _ _ _ _ (by rw [relMus]; simp only [b1]) a1, ?_⟩
      rcases a2 with ⟨e, a2⟩ | ⟨ref, l', hs2, e1, e2, a2, a3⟩
      · refine .inl ⟨e, fun r => ?_⟩
        obtain ⟨is2, x1, y1⟩ := b2 r
        obtain ⟨hs2, x, y⟩ := a2 r
        exact ⟨_, .group x1 x, by rw [pitches_append, pitches_append, y, y1]⟩
      · obtain ⟨is2, x1, y1⟩ := b2 ref
        exact .inr ⟨ref, l', _, e1, e2, .group x1 a2, by rw [pitches_append, pitches_append, a3, y1]⟩
    · obtain ⟨s1l, s1s⟩ := s1
      simp only at e1 e2
      subst e1
      obtain ⟨l', ms2, hs2, a1, a2, a3⟩ := hears_relList pp hd st f g2 hm1 hme.2 l1 s1s
      exact ⟨_, _, relList_cons (m1 := .group in2) _ _ _ _ _ _ _ _ (by rw [relMus]; simp only [b1]) a1,
        .inr ⟨ref, l', _, rfl, e2, .group b2 a2, by rw [pitches_append, pitches_append, a3, b3]⟩⟩
  | relativeFrom _ _ _ _ _ => rw [MelodyL, Melody] at hme; exact hme.1.elim
  | relative _ _ _ _ => rw [MelodyL, Melody] at hme; exact hme.1.elim
  | @fixed m s q inner m1 is ms m' hs hq g1 _ _ ih2 =>
    rw [MelodyL] at hme
    obtain ⟨s', ms2, a1, a2⟩ := ih2 hm hme.2
    refine ⟨s', _, relList_cons (m1 := .fixed s inner) _ _ _ _ _ _ _ _ (by rw [relMus]) a1, ?_⟩
    rcases a2 with ⟨e, a2⟩ | ⟨ref, l', hs2, e1, e2, a2, a3⟩
    · exact .inl ⟨e, fun r => by
        obtain ⟨hs2, x, y⟩ := a2 r
        exact ⟨_, .fixed hq g1 x, by rw [pitches_append, pitches_append, y]⟩⟩
    · exact .inr ⟨ref, l', _, e1, e2, .fixed hq g1 a2, by rw [pitches_append, pitches_append, a3]⟩
  | @absolute m inner m1 is ms m' hs g1 _ _ ih2 =>
    rw [MelodyL] at hme
    obtain ⟨s', ms2, a1, a2⟩ := ih2 hm hme.2
    refine ⟨s', _, relList_cons (m1 := .absolute inner) _ _ _ _ _ _ _ _ (by rw [relMus]) a1, ?_⟩
    rcases a2 with ⟨e, a2⟩ | ⟨ref, l', hs2, e1, e2, a2, a3⟩
    · exact .inl ⟨e, fun r => by
        obtain ⟨hs2, x, y⟩ := a2 r
        exact ⟨_, .absolute g1 x, by rw [pitches_append, pitches_append, y]⟩⟩
    · exact .inr ⟨ref, l', _, e1, e2, .absolute g1 a2, by rw [pitches_append, pitches_append, a3]⟩
  | @apartAbs k kind as inner m1 is ms m' hs g1 _ _ ih2 =>
    rw [MelodyL, Melody] at hme
    obtain ⟨rfl, hme⟩ := hme
    obtain ⟨s', ms2, a1, a2⟩ := ih2 hm hme
    cases hm
    refine ⟨s', _, relList_cons (m1 := .apart .transpose as inner) _ _ _ _ _ _ _ _ (by rw [relMus]) a1, ?_⟩
    rcases a2 with ⟨e, a2⟩ | ⟨ref, l', hs2, e1, e2, a2, a3⟩
    · exact .inl ⟨e, fun r => by
        obtain ⟨hs2, x, y⟩ := a2 r
        exact ⟨_, .apartRel g1 x, by rw [pitches_append, pitches_append, y]⟩⟩
    · exact .inr ⟨ref, l', _, e1, e2, .apartRel g1 a2, by rw [pitches_append, pitches_append, a3]⟩
  | apartRel _ _ _ _ => cases hm

theorem runs_exists (t : Transposer) (scale : List ℚ) (h : t.scale = some scale) : ∃ tr, Runs t tr := by
  have : ∀ p, ∃ q, Transpose.Spec.Yields t p q := fun p => by
    obtain ⟨N, q, hq⟩ := C22_terminates t scale h p
    exact ⟨q, N, hq N (le_refl _)⟩
  exact ⟨fun p => (this p).choose, fun p => (this p).choose_spec⟩

/-! ## Reading music is a function -/

/-- What a note relative to `last` sounds like. -/
def hearRel (pp : Langs) (last : Pitch) (n : Note) : Option Heard :=
  match (pp n.lang).readNode n.node with
  | .error _ => none
  | .ok p => some ⟨p.makeAbsolute last (p.octave - n.node.octave) 7,
      n.check.map (fun c => p.octave - n.node.octave + c)⟩

/-- What a chord relative to `last` sounds like. -/
def hearChord (pp : Langs) (last : Pitch) : List Note → Option (List Heard)
  | [] => some []
  | n :: ns => match hearRel pp last n with
    | none => none
    | some h => match hearChord pp h.pitch ns with
      | none => none
      | some hs => some (h :: hs)

/-- What absolute notes sound like. -/
def hearAbs (pp : Langs) : List Note → Option (List Pitch)
  | [] => some []
  | n :: ns => match (pp n.lang).readNode n.node with
    | .error _ => none
    | .ok p => match hearAbs pp ns with
      | none => none
      | some ps => some (p :: ps)

mutual
/-- What music sounds like, with the mode it leaves. -/
def hear (pp : Langs) (f : Pitch) (m : Mode) : Mus → Option (Mode × List Heard)
  | .note n => match m with
    | .abs k => match (pp n.lang).readNode n.node with
      | .error _ => none
      | .ok p => some (.abs k, [⟨{p with octave := p.octave + k}, none⟩])
    | .rel last => match hearRel pp last n with
      | none => none
      | some h => some (.rel h.pitch, [h])
  | .chord ns => match m with
    | .abs k => match hearAbs pp ns with
      | none => none
      | some ps => some (.abs k, ps.map (fun q => ⟨{q with octave := q.octave + k}, none⟩))
    | .rel last => match hearChord pp last ns with
      | none => none
      | some hs => some (.rel (firstOf last hs), hs)
  | .check n => match (pp n.lang).readNode n.node with
    | .error _ => none
    | .ok p => match m with
      | .abs k => some (.abs k, [])
      | .rel _ => some (.rel p, [])
  | .key _ => some (m, [])
  | .group ms => hearL pp f m ms
  | .relative none ms => match hearL pp f (.rel f) ms with
    | none => none
    | some (_, hs) => some (m, hs)
  | .relative (some s) ms => match (pp s.lang).readNode s.node with
    | .error _ => none
    | .ok p => match hearL pp f (.rel p) ms with
      | none => none
      | some (_, hs) => some (m, hs)
  | .fixed s ms => match (pp s.lang).readNode s.node with
    | .error _ => none
    | .ok p => match hearL pp f (.abs (p.octave + 1)) ms with
      | none => none
      | some (_, hs) => some (m, hs)
  | .absolute ms => match hearL pp f (.abs 0) ms with
    | none => none
    | some (_, hs) => some (m, hs)
  | .apart _ _ ms => match m with
    | .abs k => match hearL pp f (.abs k) ms with
      | none => none
      | some (_, hs) => some (.abs k, hs)
    | .rel last => match hearL pp f (.abs 0) ms with
      | none => none
      | some (_, hs) => some (.rel last, hs)
/-- The same for a list. -/
def hearL (pp : Langs) (f : Pitch) (m : Mode) : List Mus → Option (Mode × List Heard)
  | [] => some (m, [])
  | x :: xs => match hear pp f m x with
    | none => none
    | some (m1, hs) => match hearL pp f m1 xs with
      | none => none
      | some (m2, hs') => some (m2, hs ++ hs')
end

theorem hearRel_iff (pp : Langs) (hd : ∀ l, IsDict (pp l).table) (last : Pitch) (n : Note) (h : Heard) :
    hearRel pp last n = some h ↔ RelNote pp.tables last n h := by
  rw [relNote_iff pp hd]
  unfold hearRel
  constructor
  · intro e
    split at e
    · cases e
    · rename_i p hp
      cases e
      exact ⟨p, hp, rfl, rfl⟩
  · rintro ⟨p, hp, h1, h2⟩
    rw [hp]
    obtain ⟨a, b⟩ := h
    simp only at h1 h2
    rw [h1, h2]

theorem hearChord_iff (pp : Langs) (hd : ∀ l, IsDict (pp l).table) (ns : List Note) (last : Pitch) (hs : List Heard) :
    hearChord pp last ns = some hs ↔ RelChord pp.tables last ns hs := by
  induction ns generalizing last hs with
  | nil =>
    simp only [hearChord, Option.some.injEq]
    constructor
    · rintro rfl; exact .nil _
    · intro h; cases h; rfl
  | cons n ns ih =>
    simp only [hearChord]
    constructor
    · intro e
      split at e
      · cases e
      · rename_i h hh
        split at e
        · cases e
        · rename_i hs' hhs
          cases e
          exact .cons ((hearRel_iff pp hd _ _ _).1 hh) ((ih _ _).1 hhs)
    · intro h
      cases h with
      | cons h1 h2 => simp only [(hearRel_iff pp hd _ _ _).2 h1, (ih _ _).2 h2]

theorem hearAbs_iff (pp : Langs) (hd : ∀ l, IsDict (pp l).table) (ns : List Note) (ps : List Pitch) :
    hearAbs pp ns = some ps ↔ List.Forall₂ (AbsNote pp.tables) ns ps := by
  induction ns generalizing ps with
  | nil =>
    simp only [hearAbs, Option.some.injEq]
    constructor
    · rintro rfl; exact .nil
    · intro h; cases h; rfl
  | cons n ns ih =>
    simp only [hearAbs]
    constructor
    · intro e
      split at e
      · cases e
      · rename_i p hp
        split at e
        · cases e
        · rename_i ps' hps
          cases e
          exact .cons ((absNote_iff pp hd _ _).2 hp) ((ih _).1 hps)
    · intro h
      cases h with
      | cons h1 h2 => simp only [(absNote_iff pp hd _ _).1 h1, (ih _).2 h2]

mutual
theorem hear_sound (pp : Langs) (hd : ∀ l, IsDict (pp l).table) (f : Pitch) (m m' : Mode) (x : Mus) (hs : List Heard)
    (h : hear pp f m x = some (m', hs)) : Hears pp.tables f m [x] m' hs := by
  cases x with
  | note n =>
    cases m with
    | abs k =>
      simp only [hear] at h
      split at h
      · cases h
      · rename_i p hp
        cases h
        exact .noteAbs ((absNote_iff pp hd _ _).2 hp) (.nil _)
    | rel last =>
      simp only [hear] at h
      split at h
      · cases h
      · rename_i p hp
        cases h
        exact .noteRel ((hearRel_iff pp hd _ _ _).1 hp) (.nil _)
  | chord ns =>
    cases m with
    | abs k =>
      simp only [hear] at h
      split at h
      · cases h
      · rename_i p hp
        cases h
        have := Hears.chordAbs (f := f) (k := k) ((hearAbs_iff pp hd _ _).1 hp) (.nil _)
        rwa [List.append_nil] at this
    | rel last =>
      simp only [hear] at h
      split at h
      · cases h
      · rename_i p hp
        cases h
        have := Hears.chordRel (f := f) ((hearChord_iff pp hd _ _ _).1 hp) (.nil _)
        rwa [List.append_nil] at this
  | check n =>
    simp only [hear] at h
    split at h
    · cases h
    · rename_i p hp
      cases m with
      | abs k => cases h; exact .checkAbs ((absNote_iff pp hd _ _).2 hp) (.nil _)
      | rel last => cases h; exact .checkRel ((absNote_iff pp hd _ _).2 hp) (.nil _)
  | key n =>
    simp only [hear] at h
    cases h
    exact .key (.nil _)
  | group ms =>
    rw [hear] at h
    have := Hears.group (hearL_sound pp hd f m m' ms hs h) (.nil _)
    rwa [List.append_nil] at this
  | relative s ms =>
    cases s with
    | none =>
      simp only [hear] at h
      split at h
      · cases h
      · rename_i m1 hs' hl
        cases h
        have := Hears.relative (m := m) (hearL_sound pp hd f _ _ ms _ hl) (.nil _)
        rwa [List.append_nil] at this
    | some s =>
      simp only [hear] at h
      split at h
      · cases h
      · rename_i p hp
        split at h
        · cases h
        · rename_i m1 hs' hl
          cases h
          have := Hears.relativeFrom (m := m) ((absNote_iff pp hd _ _).2 hp) (hearL_sound pp hd f _ _ ms _ hl) (.nil _)
          rwa [List.append_nil] at this
  | fixed s ms =>
    simp only [hear] at h
    split at h
    · cases h
    · rename_i p hp
      split at h
      · cases h
      · rename_i m1 hs' hl
        cases h
        have := Hears.fixed (m := m) ((absNote_iff pp hd _ _).2 hp) (hearL_sound pp hd f _ _ ms _ hl) (.nil _)
        rwa [List.append_nil] at this
  | absolute ms =>
    simp only [hear] at h
    split at h
    · cases h
    · rename_i m1 hs' hl
      cases h
      have := Hears.absolute (m := m) (hearL_sound pp hd f _ _ ms _ hl) (.nil _)
      rwa [List.append_nil] at this
  | apart kind as ms =>
    cases m with
    | abs k =>
      simp only [hear] at h
      split at h
      · cases h
      · rename_i m1 hs' hl
        cases h
        have := Hears.apartAbs (kind := kind) (as := as) (hearL_sound pp hd f _ _ ms _ hl) (.nil _)
        rwa [List.append_nil] at this
    | rel last =>
      simp only [hear] at h
      split at h
      · cases h
      · rename_i m1 hs' hl
        cases h
        have := Hears.apartRel (last := last) (kind := kind) (as := as) (hearL_sound pp hd f _ _ ms _ hl) (.nil _)
        rwa [List.append_nil] at this
theorem hearL_sound (pp : Langs) (hd : ∀ l, IsDict (pp l).table) (f : Pitch) (m m' : Mode) (xs : List Mus) (hs : List Heard)
    (h : hearL pp f m xs = some (m', hs)) : Hears pp.tables f m xs m' hs := by
  cases xs with
  | nil => rw [hearL] at h; cases h; exact .nil _
  | cons x xs =>
    simp only [hearL] at h
    split at h
    · cases h
    · rename_i m1 h1 e1
      split at h
      · cases h
      · rename_i m2 h2 e2
        cases h
        exact hears_append _ _ (hear_sound pp hd f _ _ x _ e1) (hearL_sound pp hd f _ _ xs _ e2)
end

theorem hearL_complete (pp : Langs) (hd : ∀ l, IsDict (pp l).table) (f : Pitch) {m m' : Mode} {xs : List Mus} {hs : List Heard}
    (h : Hears pp.tables f m xs m' hs) : hearL pp f m xs = some (m', hs) := by
  induction h with
  | nil m => rw [hearL]
  | noteAbs a _ ih => simp only [hearL, hear, (absNote_iff pp hd _ _).1 a, ih]; rfl
  | noteRel a _ ih => simp only [hearL, hear, (hearRel_iff pp hd _ _ _).2 a, ih]; rfl
  | chordAbs a _ ih => simp only [hearL, hear, (hearAbs_iff pp hd _ _).2 a, ih]
  | chordRel a _ ih => simp only [hearL, hear, (hearChord_iff pp hd _ _ _).2 a, ih]
  | checkAbs a _ ih => simp only [hearL, hear, (absNote_iff pp hd _ _).1 a, ih]; rfl
  | checkRel a _ ih => simp only [hearL, hear, (absNote_iff pp hd _ _).1 a, ih]; rfl
  | key _ ih => simp only [hearL, hear, ih]; rfl
  | group _ _ ih1 ih2 => simp only [hearL, hear, ih1, ih2]
  | relativeFrom a _ _ ih1 ih2 => simp only [hearL, hear, (absNote_iff pp hd _ _).1 a, ih1, ih2]
  | relative _ _ ih1 ih2 => simp only [hearL, hear, ih1, ih2]
  | fixed a _ _ ih1 ih2 => simp only [hearL, hear, (absNote_iff pp hd _ _).1 a, ih1, ih2]
  | absolute _ _ ih1 ih2 => simp only [hearL, hear, ih1, ih2]
  | apartAbs _ _ ih1 ih2 => simp only [hearL, hear, ih1, ih2]
  | apartRel _ _ ih1 ih2 => simp only [hearL, hear, ih1, ih2]

theorem sounds_iff (pp : Langs) (hd : ∀ l, IsDict (pp l).table) (f : Pitch) (xs : List Mus) (hs : List Heard) :
    Sounds pp.tables f xs hs ↔ (hearL pp f (.abs 0) xs).map Prod.snd = some hs := by
  constructor
  · rintro ⟨m, h⟩
    rw [hearL_complete pp hd f h]
    rfl
  · intro h
    cases e : hearL pp f (.abs 0) xs with
    | none => rw [e] at h; cases h
    | some r =>
      rw [e] at h
      cases h
      exact ⟨r.1, hearL_sound pp hd f _ _ xs _ e⟩

end Quickly.Relative
