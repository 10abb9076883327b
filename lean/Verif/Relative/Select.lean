import Verif.Relative.Props

/-!
# C24 for a selection

Transposing a part of a document.
-/

namespace Quickly.Relative

open Quickly.Pitch Quickly.Transpose Spec
open Quickly.Pitch.Spec (Means IsDict HasName)

namespace Spec

/-- Which of the notes that are heard are in the selection. -/
def selected (ms : List Mus) : List Bool := ((partsL ms).filter fun x => x.1 = .note).map fun x => x.2.writable

/-- What comes after something selected is selected too. -/
def Onward (xs : List (Kind × Note)) : Prop := xs.Pairwise fun a b => a.2.writable = true → b.2.writable = true

mutual
/-- A selection that begins in a `\relative`, or contains the pitch of a `\fixed`, goes on
to the end of it. -/
def ToEnd : Mus → Prop
  | .note _ | .chord _ | .check _ | .key _ => True
  | .group ms => ToEndL ms
  | .relative none ms => Onward (partsL ms)
  | .relative (some s) ms => Onward ((.start, s) :: partsL ms)
  | .fixed s ms => (s.writable = true → ∀ x ∈ partsL ms, x.2.writable = true) ∧ ToEndL ms
  | .absolute ms => ToEndL ms
  | .apart _ _ ms => ToEndL ms
/-- The same for a list. -/
def ToEndL : List Mus → Prop
  | [] => True
  | m :: ms => ToEnd m ∧ ToEndL ms
end

end Spec

theorem selected_cons (m : Mus) (ms : List Mus) :
    selected (m :: ms) = ((parts m).filter fun x => x.1 = .note).map (fun x => x.2.writable) ++ selected ms := by
  simp [selected, partsL]

theorem onward_append {xs ys : List (Kind × Note)} (h : Onward (xs ++ ys)) :
    Onward xs ∧ Onward ys ∧ ((∃ x ∈ xs, x.2.writable = true) → ∀ y ∈ ys, y.2.writable = true) := by
  obtain ⟨h1, h2, h3⟩ := List.pairwise_append.mp h
  exact ⟨h1, h2, fun ⟨x, hx, hw⟩ y hy => h3 x hx y hy hw⟩

theorem onward_cons {x : Kind × Note} {ys : List (Kind × Note)} (h : Onward (x :: ys)) :
    Onward ys ∧ (x.2.writable = true → ∀ y ∈ ys, y.2.writable = true) := by
  obtain ⟨h1, h2⟩ := List.pairwise_cons.mp h
  exact ⟨h2, fun hw y hy => h1 y hy hw⟩

mutual
theorem onward_toEnd : ∀ m : Mus, Onward (parts m) → ToEnd m
  | .note _, _ => trivial
  | .chord _, _ => trivial
  | .check _, _ => trivial
  | .key _, _ => trivial
  | .group ms, h => onward_toEndL ms h
  | .relative none ms, h => h
  | .relative (some s) ms, h => h
  | .fixed s ms, h => ⟨(onward_cons h).2, onward_toEndL ms (onward_cons h).1⟩
  | .absolute ms, h => onward_toEndL ms h
  | .apart _ as ms, h => onward_toEndL ms (onward_append (xs := as.map fun n => (.argument, n)) h).2.1
theorem onward_toEndL : ∀ ms : List Mus, Onward (partsL ms) → ToEndL ms
  | [], _ => trivial
  | m :: ms, h => ⟨onward_toEnd m (onward_append h).1, onward_toEndL ms (onward_append h).2.1⟩
end

theorem relChord_length {t : Tables} {last : Pitch} {ns : List Note} {hs : List Heard} (h : RelChord t last ns hs) :
    hs.length = ns.length := by
  induction h with
  | nil => rfl
  | cons _ _ ih => simp [ih]

theorem filter_notes (ns : List Note) :
    ((ns.map fun n => (Kind.note, n)).filter fun x => x.1 = .note).map (fun x => x.2.writable) =
      ns.map (·.writable) := by
  induction ns with
  | nil => rfl
  | cons n ns ih => simpa using ih

theorem filter_arguments (ns : List Note) :
    ((ns.map fun n => (Kind.argument, n)).filter fun x => x.1 = .note).map (fun x => x.2.writable) = [] := by
  induction ns with
  | nil => rfl
  | cons n ns ih => simpa using ih

theorem selected_apart (kind : Apart) (as : List Note) (inner ms : List Mus) :
    selected (.apart kind as inner :: ms) = selected inner ++ selected ms := by
  rw [selected_cons, parts, List.filter_append, List.map_append, filter_arguments]
  rfl

theorem hears_length {t : Tables} {f : Pitch} {m m' : Mode} {ms : List Mus} {hs : List Heard}
    (h : Hears t f m ms m' hs) : hs.length = (selected ms).length := by
  induction h with
  | nil => rfl
  | noteAbs _ _ ih => simp [selected_cons, parts, ih]
  | noteRel _ _ ih => simp [selected_cons, parts, ih]
  | chordAbs hq _ ih => simp [selected_cons, parts, ih, filter_notes, hq.length_eq]
  | chordRel hc _ ih => simp [selected_cons, parts, ih, filter_notes, relChord_length hc]
  | checkAbs _ _ ih => simp [selected_cons, parts, ih]
  | checkRel _ _ ih => simp [selected_cons, parts, ih]
  | key _ ih => simp [selected_cons, parts, ih]
  | group _ _ ih1 ih2 => rw [selected_cons, List.length_append, List.length_append, ih1, ih2]; rfl
  | relativeFrom _ _ _ ih1 ih2 => rw [selected_cons, List.length_append, List.length_append, ih1, ih2]; simp [parts, selected]
  | relative _ _ ih1 ih2 => rw [selected_cons, List.length_append, List.length_append, ih1, ih2]; rfl
  | fixed _ _ _ ih1 ih2 => rw [selected_cons, List.length_append, List.length_append, ih1, ih2]; simp [parts, selected]
  | absolute _ _ ih1 ih2 => rw [selected_cons, List.length_append, List.length_append, ih1, ih2]; rfl
  | apartAbs _ _ ih1 ih2 => rw [selected_apart, List.length_append, List.length_append, ih1, ih2]
  | apartRel _ _ ih1 ih2 => rw [selected_apart, List.length_append, List.length_append, ih1, ih2]

theorem hears_abs {t : Tables} {f : Pitch} {m m' : Mode} {ms : List Mus} {hs : List Heard}
    (h : Hears t f m ms m' hs) : ∀ k, m = .abs k → m' = .abs k := by
  induction h with
  | nil => exact fun _ h => h
  | noteAbs _ _ ih => exact ih
  | noteRel _ _ ih => intro k h; cases h
  | chordAbs _ _ ih => exact ih
  | chordRel _ _ ih => intro k h; cases h
  | checkAbs _ _ ih => exact ih
  | checkRel _ _ ih => intro k h; cases h
  | key _ ih => exact ih
  | group _ _ ih1 ih2 => exact fun k h => ih2 k (ih1 k h)
  | relativeFrom _ _ _ _ ih2 => exact ih2
  | relative _ _ _ ih2 => exact ih2
  | fixed _ _ _ _ ih2 => exact ih2
  | absolute _ _ _ ih2 => exact ih2
  | apartAbs _ _ _ ih2 => exact ih2
  | apartRel _ _ _ ih2 => intro k h; cases h

theorem hears_rel {t : Tables} {f : Pitch} {m m' : Mode} {ms : List Mus} {hs : List Heard}
    (h : Hears t f m ms m' hs) : ∀ p, m = .rel p → ∃ p', m' = .rel p' := by
  induction h with
  | nil => exact fun p h => ⟨p, h⟩
  | noteAbs _ _ ih => intro k h; cases h
  | noteRel _ _ ih => exact fun _ _ => ih _ rfl
  | chordAbs _ _ ih => intro k h; cases h
  | chordRel _ _ ih => exact fun _ _ => ih _ rfl
  | checkAbs _ _ ih => intro k h; cases h
  | checkRel _ _ ih => exact fun _ _ => ih _ rfl
  | key _ ih => exact ih
  | group _ _ ih1 ih2 =>
    intro p h
    obtain ⟨q, hq⟩ := ih1 p h
    exact ih2 q hq
  | relativeFrom _ _ _ _ ih2 => exact ih2
  | relative _ _ _ ih2 => exact ih2
  | fixed _ _ _ _ ih2 => exact ih2
  | absolute _ _ _ ih2 => exact ih2
  | apartAbs _ _ _ ih2 => intro k h; cases h
  | apartRel _ _ _ ih2 => exact ih2

/-- What becomes of a note that is heard. -/
def Changed (tr : Pitch → Pitch) (a : Heard × Bool) (b : Heard) : Prop :=
  if a.2 then b.pitch = tr a.1.pitch else b = a.1

theorem changed_all (tr : Pitch → Pitch) {hs hs2 : List Heard} (h : List.Forall₂ (Moved tr False) hs hs2) :
    ∀ fs : List Bool, (∀ b ∈ fs, b = true) → fs.length = hs.length → List.Forall₂ (Changed tr) (hs.zip fs) hs2 := by
  induction h with
  | nil => intro fs _ hl; simp
  | cons hm _ ih =>
    intro fs hf hl
    cases fs with
    | nil => simp at hl
    | cons f fs =>
      refine .cons ?_ (ih fs (fun b hb => hf b (by simp [hb])) (by simpa using hl))
      simp only [Changed, hf f (by simp), if_true]
      exact hm.1

theorem selected_all {ms : List Mus} (h : ∀ x ∈ partsL ms, x.2.writable = true) : ∀ b ∈ selected ms, b = true := by
  intro b hb
  obtain ⟨x, hx, rfl⟩ := List.mem_map.mp hb
  exact h x (List.mem_of_mem_filter hx)

theorem changed_append (tr : Pitch → Pitch) {a b a2 b2 : List Heard} {fa fb : List Bool} (hl : a.length = fa.length)
    (h1 : List.Forall₂ (Changed tr) (a.zip fa) a2) (h2 : List.Forall₂ (Changed tr) (b.zip fb) b2) :
    List.Forall₂ (Changed tr) ((a ++ b).zip (fa ++ fb)) (a2 ++ b2) := by
  rw [List.zip_append hl]
  exact forall₂_append h1 h2

/-- Nothing was changed so far. -/
inductive Begins : Mode → Walk → Mode → Prop
  | abs (k : ℤ) : Begins (.abs k) (.pitches 0) (.abs k)
  | rel (last : Pitch) : Begins (.rel last) (.relative ⟨last, none⟩) (.rel last)

theorem Begins.fits {m m2 : Mode} {w : Walk} (h : Begins m w m2) : Fits False m w m2 := by
  cases h with
  | abs k => exact .abs (by omega)
  | rel last => exact .rel 0 (fun h => h.elim) (down_zero _).symm (down_zero _).symm

/-- The condition on the selection. -/
def SelOk (m : Mode) (ms : List Mus) : Prop :=
  match m with
  | .abs _ => ToEndL ms
  | .rel _ => Onward (partsL ms)

theorem SelOk.toEnd {m : Mode} {ms : List Mus} (h : SelOk m ms) : ToEndL ms := by
  cases m with
  | abs _ => exact h
  | rel _ => exact onward_toEndL ms h

theorem SelOk.tail {mo : Mode} {m : Mus} {ms : List Mus} (h : SelOk mo (m :: ms)) : SelOk mo ms := by
  cases mo with
  | abs _ => exact h.2
  | rel _ => exact (onward_append h).2.1

/-- The condition on selected `\fixed`. -/
def FixedOk (c : Ctx) (xs : List (Kind × Note)) : Prop :=
  ∀ x ∈ xs, x.1 = .fixed → x.2.writable = true → ∀ q, AbsNote c.pp.tables x.2 q → (c.tr q).octave = q.octave + c.toct

theorem FixedOk.able {c : Ctx} {xs : List (Kind × Note)} (h : FixedOk c xs) (hw : ∀ x ∈ xs, x.2.writable = true) :
    Able c False xs := ⟨hw, fun x hx hk => h x hx hk (hw x hx), fun h => h.elim⟩

theorem FixedOk.mono {c : Ctx} {xs ys : List (Kind × Note)} (h : FixedOk c ys) (hs : ∀ x ∈ xs, x ∈ ys) : FixedOk c xs :=
  fun x hx => h x (hs x hx)

theorem transposeAbs_selected (c : Ctx) (hd : ∀ l, IsDict (c.pp l).table) (n n' : Note) (q : Pitch)
    (h : transposeAbs c 0 n = .ok n') (hq : AbsNote c.pp.tables n q) :
    AbsNote c.pp.tables n' (if n.writable then c.tr q else q) := by
  cases hw : n.writable with
  | true =>
    have := transposeAbs_ok c hd 0 n n' q hw h hq
    rw [down_zero] at this
    exact this
  | false =>
    have hr := (absNote_iff _ hd _ _).1 hq
    unfold transposeAbs Processor.process at h
    simp only [hr, hw, Bool.false_eq_true, if_false] at h
    cases h
    simp only [Bool.false_eq_true, if_false]
    exact hq

theorem changed_abs (c : Ctx) (g : Good c) (q : Pitch) (k : ℤ) (b : Bool) :
    Changed c.tr (⟨{q with octave := q.octave + k}, none⟩, b)
      ⟨{(if b then c.tr q else q) with octave := (if b then c.tr q else q).octave + k}, none⟩ := by
  cases b with
  | true =>
    have := (moved_abs c g False q k 0).1
    simp only [down_zero, add_zero] at this
    simp only [Changed, if_true]
    exact this
  | false => simp [Changed]

theorem unselected_note (c : Ctx) (g : Good c) (n : Note) (last : Pitch) (r : Last × Note) (h : Heard)
    (hw : n.writable = false) (hh : RelNote c.pp.tables last n h) (ht : transposeNote c n ⟨last, none⟩ = .ok r) :
    r = (⟨h.pitch, none⟩, n) := by
  obtain ⟨p, hp, hq, hc⟩ := (relNote_iff c.pp g.dict _ _ _).1 hh
  unfold transposeNote at ht
  simp only [hp, hw, Bool.not_false, if_true, Except.ok.injEq] at ht
  rw [← ht, hq]

theorem stack_selected (c : Ctx) (g : Good c) (ns : List Note) (last : Pitch) (rs : List (Last × Note)) (hs : List Heard)
    (ho : ns.Pairwise fun a b => a.writable = true → b.writable = true)
    (hh : RelChord c.pp.tables last ns hs) (ht : transposeStack c ⟨last, none⟩ ns = .ok rs) :
    ∃ hs', RelChord c.pp.tables last (rs.map Prod.snd) hs' ∧
      List.Forall₂ (Changed c.tr) (hs.zip (ns.map (·.writable))) hs' := by
  induction hh generalizing rs with
  | nil last =>
    simp only [transposeStack, Except.ok.injEq] at ht
    subst ht
    exact ⟨[], .nil _, .nil⟩
  | @cons last n h ns hs hn hc ih =>
    obtain ⟨ho1, ho2⟩ := List.pairwise_cons.mp ho
    cases hw : n.writable with
    | true =>
      obtain ⟨hs', b1, b2, _⟩ := transposeStack_ok c g False (n :: ns) last last ⟨last, none⟩ rs (h :: hs)
        (by
          intro m hm
          rcases List.mem_cons.mp hm with rfl | hm
          · exact hw
          · exact ho1 m hm hw) 0 (fun h => h.elim) (down_zero _).symm (down_zero _).symm (.cons hn hc) ht
      refine ⟨hs', b1, changed_all c.tr b2 _ ?_ (by simp [relChord_length hc])⟩
      intro b hb
      obtain ⟨m, hm, rfl⟩ := List.mem_map.mp hb
      rcases List.mem_cons.mp hm with rfl | hm
      · exact hw
      · exact ho1 m hm hw
    | false =>
      simp only [transposeStack] at ht
      split at ht
      · cases ht
      · rename_i r hr
        have e := unselected_note c g n last r h hw hn hr
        subst e
        split at ht
        · cases ht
        · rename_i rs' hrs
          cases ht
          obtain ⟨hs', b1, b2⟩ := ih rs' ho2 hrs
          refine ⟨h :: hs', .cons hn b1, .cons ?_ b2⟩
          simp [Changed, hw]

theorem forall₂_chord_selected (c : Ctx) (g : Good c) (k : ℤ) (ns ns' : List Note) (qs : List Pitch)
    (hq : List.Forall₂ (AbsNote c.pp.tables) ns qs)
    (h : List.Forall₂ (fun n n' => ∀ q, AbsNote c.pp.tables n q →
      AbsNote c.pp.tables n' (if n.writable then c.tr q else q)) ns ns') :
    ∃ qs', List.Forall₂ (AbsNote c.pp.tables) ns' qs' ∧
      List.Forall₂ (Changed c.tr)
        ((qs.map (fun q => (⟨{q with octave := q.octave + k}, none⟩ : Heard))).zip (ns.map (·.writable)))
        (qs'.map (fun q => (⟨{q with octave := q.octave + k}, none⟩ : Heard))) := by
  induction h generalizing qs with
  | nil => cases hq; exact ⟨[], .nil, .nil⟩
  | cons hn _ ih =>
    cases hq with
    | cons q0 qt =>
      obtain ⟨qs', e1, e2⟩ := ih _ qt
      exact ⟨_ :: qs', .cons (hn _ q0) e1, .cons (changed_abs c g _ k _) e2⟩

/-- When everything is selected. -/
theorem hears_all (c : Ctx) (g : Good c) {m : Mode} {ms : List Mus} {m' : Mode} {hs : List Heard}
    (hh : Hears c.pp.tables (reference c.firstAbs) m ms m' hs) (w : Walk) (ms2 : List Mus) (w' : Walk) (m2 : Mode)
    (ht : transposeList c w ms = .ok (w', ms2)) (hf : Fits False m w m2) (hk : FixedOk c (partsL ms))
    (hw : ∀ x ∈ partsL ms, x.2.writable = true) (hap : ApartOkL (fun _ => False) m.isRel ms) :
    ∃ m2' hs2, Hears c.pp.tables (reference c.firstAbs) m2 ms2 m2' hs2 ∧ Fits False m' w' m2' ∧
      List.Forall₂ (Changed c.tr) (hs.zip (selected ms)) hs2 := by
  obtain ⟨m2', hs2, h1, h2, h3⟩ := hears_transposed c g False hh w ms2 w' m2 ht hf (hk.able hw) hap
  exact ⟨m2', hs2, h1, h2, changed_all c.tr h3 _ (selected_all hw) (hears_length hh).symm⟩

/-- After the music: nothing was changed, or something was, in relative music. -/
def Ends (ms : List Mus) (m : Mode) (w : Walk) (m2 : Mode) : Prop :=
  Begins m w m2 ∨ (∃ x ∈ partsL ms, x.2.writable = true) ∧ Fits False m w m2 ∧ ∃ p, m = .rel p

theorem Ends.cons {m : Mus} {ms : List Mus} {mo m2 : Mode} {w : Walk} (h : Ends ms mo w m2) : Ends (m :: ms) mo w m2 := by
  rcases h with h | ⟨⟨x, hx, hw⟩, h⟩
  · exact .inl h
  · exact .inr ⟨⟨x, by simp [partsL, hx], hw⟩, h⟩

/-- Transposing a selection. -/
theorem hears_selected (c : Ctx) (g : Good c) {m : Mode} {ms : List Mus} {m' : Mode} {hs : List Heard}
    (hh : Hears c.pp.tables (reference c.firstAbs) m ms m' hs) :
    ∀ (w : Walk) (ms2 : List Mus) (w' : Walk) (m2 : Mode), transposeList c w ms = .ok (w', ms2) → Begins m w m2 →
      SelOk m ms → FixedOk c (partsL ms) → ApartOkL (fun _ => False) m.isRel ms →
      ∃ m2' hs2, Hears c.pp.tables (reference c.firstAbs) m2 ms2 m2' hs2 ∧ Ends ms m' w' m2' ∧
        List.Forall₂ (Changed c.tr) (hs.zip (selected ms)) hs2 := by
  induction hh with
  | nil m =>
    intro w ms2 w' m2 ht hf _ _ _
    simp only [transposeList, Except.ok.injEq, Prod.mk.injEq] at ht
    obtain ⟨rfl, rfl⟩ := ht
    exact ⟨m2, [], .nil _, .inl hf, .nil⟩
  | @noteAbs k n q ms m' hs hq _ ih =>
    intro w ms2 w' m2 ht hf hs hk hap
    have hap2 := hap
    rw [ApartOkL] at hap2
    obtain ⟨w1, m1, ms1, h1, h2, rfl⟩ := transposeList_cons _ _ _ _ _ _ ht
    cases hf
    simp only [transposeMus] at h1
    split at h1
    · cases h1
    · rename_i n' hn'
      cases h1
      have e := transposeAbs_selected c g.dict n n' q hn' hq
      obtain ⟨m2', hs2, a1, a2, a3⟩ := ih _ _ _ _ h2 (.abs k) hs.tail (hk.mono (by simp +contextual [partsL])) hap2.2
      refine ⟨m2', _, .noteAbs e a1, a2.cons, ?_⟩
      rw [selected_cons]
      exact .cons (changed_abs c g q k _) a3
  | @noteRel last n h ms m' hs hn hr ih =>
    intro w ms2 w' m2 ht hf hs hk hap
    have hap2 := hap
    rw [ApartOkL] at hap2
    cases hf
    cases hw : n.writable with
    | true =>
      have hall : ∀ x ∈ partsL (.note n :: ms), x.2.writable = true := by
        intro x hx
        rcases List.mem_cons.mp (show x ∈ (Kind.note, n) :: partsL ms from hx) with rfl | hx
        · exact hw
        · exact (onward_cons hs).2 hw x hx
      obtain ⟨m2', hs2, a1, a2, a3⟩ := hears_all c g (.noteRel hn hr) _ _ _ _ ht (Begins.rel last).fits hk hall hap
      exact ⟨m2', hs2, a1, .inr ⟨⟨(.note, n), by simp [partsL, parts], hw⟩, a2, hears_rel (.noteRel hn hr) _ rfl⟩, a3⟩
    | false =>
      obtain ⟨w1, m1, ms1, h1, h2, rfl⟩ := transposeList_cons _ _ _ _ _ _ ht
      simp only [transposeMus] at h1
      split at h1
      · cases h1
      · rename_i l' n' hn'
        cases h1
        have e := unselected_note c g n last _ h hw hn hn'
        cases e
        obtain ⟨m2', hs2, a1, a2, a3⟩ := ih _ _ _ _ h2 (.rel h.pitch) hs.tail (hk.mono (by simp +contextual [partsL])) hap2.2
        refine ⟨m2', _, .noteRel hn a1, a2.cons, ?_⟩
        rw [selected_cons]
        exact .cons (by simp [Changed, hw]) a3
  | @chordAbs k ns qs ms m' hs hq _ ih =>
    intro w ms2 w' m2 ht hf hs hk hap
    have hap2 := hap
    rw [ApartOkL] at hap2
    obtain ⟨w1, m1, ms1, h1, h2, rfl⟩ := transposeList_cons _ _ _ _ _ _ ht
    cases hf
    simp only [transposeMus] at h1
    split at h1
    · cases h1
    · rename_i ns' hn'
      cases h1
      have e := mapM_ok _ _ _ _ (fun a ha' b hb q (hq : AbsNote c.pp.tables a q) =>
        transposeAbs_selected c g.dict a b q hb hq) hn'
      obtain ⟨qs', c1, c2⟩ := forall₂_chord_selected c g k ns ns' qs hq e
      obtain ⟨m2', hs2, a1, a2, a3⟩ := ih _ _ _ _ h2 (.abs k) hs.tail (hk.mono (by simp +contextual [partsL])) hap2.2
      refine ⟨m2', _, .chordAbs c1 a1, a2.cons, ?_⟩
      rw [selected_cons, parts, filter_notes]
      exact changed_append c.tr (by simp [hq.length_eq]) c2 a3
  | @chordRel last ns cs ms m' hs hn hr ih =>
    intro w ms2 w' m2 ht hf hs hk hap
    have hap2 := hap
    rw [ApartOkL] at hap2
    cases hf
    have hpw : ns.Pairwise fun a b => a.writable = true → b.writable = true := by
      have := (onward_append hs).1
      simp only [parts, Onward, List.pairwise_map] at this
      exact this
    cases hn with
    | nil =>
      obtain ⟨w1, m1, ms1, h1, h2, rfl⟩ := transposeList_cons _ _ _ _ _ _ ht
      simp only [transposeMus, transposeChord, transposeStack] at h1
      cases h1
      obtain ⟨m2', hs2, a1, a2, a3⟩ := ih _ _ _ _ h2 (.rel last) hs.tail (hk.mono (by simp +contextual [partsL])) hap2.2
      refine ⟨m2', _, .chordRel (.nil _) a1, a2.cons, ?_⟩
      rw [selected_cons]
      exact a3
    | @cons _ n h ns hs' hn hc =>
      cases hw : n.writable with
      | true =>
        have hall : ∀ x ∈ partsL (.chord (n :: ns) :: ms), x.2.writable = true := by
          intro x hx
          rcases List.mem_cons.mp (show x ∈ (Kind.note, n) :: (ns.map (fun n => (Kind.note, n)) ++ partsL ms) from hx) with rfl | hx
          · exact hw
          · exact (onward_cons (show Onward ((Kind.note, n) :: (ns.map (fun n => (Kind.note, n)) ++ partsL ms)) from hs)).2 hw x hx
        obtain ⟨m2', hs2, a1, a2, a3⟩ := hears_all c g (.chordRel (.cons hn hc) hr) _ _ _ _ ht (Begins.rel last).fits hk hall hap
        exact ⟨m2', hs2, a1, .inr ⟨⟨(.note, n), by simp [partsL, parts], hw⟩, a2,
          hears_rel (.chordRel (.cons hn hc) hr) _ rfl⟩, a3⟩
      | false =>
        obtain ⟨w1, m1, ms1, h1, h2, rfl⟩ := transposeList_cons _ _ _ _ _ _ ht
        simp only [transposeMus] at h1
        split at h1
        · cases h1
        · rename_i l' ns' hn'
          cases h1
          unfold transposeChord at hn'
          split at hn'
          · cases hn'
          · rename_i hst
            obtain ⟨hs2, b1, b2⟩ := stack_selected c g (n :: ns) last [] (h :: hs') hpw (.cons hn hc) hst
            cases b1
            cases b2
          · rename_i r rs hst
            cases hn'
            obtain ⟨hs2, b1, b2⟩ := stack_selected c g (n :: ns) last (r :: rs) (h :: hs') hpw (.cons hn hc) hst
            have hr1 : r = (⟨h.pitch, none⟩, n) := by
              simp only [transposeStack] at hst
              split at hst
              · cases hst
              · rename_i r' hr'
                split at hst
                · cases hst
                · cases hst
                  exact unselected_note c g n last _ h hw hn hr'
            subst hr1
            cases b2 with
            | @cons _ h2' _ hs3 b3 b4 =>
              have e : h2' = h := by simpa [Changed, hw] using b3
              subst e
              obtain ⟨m2', hs4, a1, a2, a3⟩ := ih _ _ _ _ h2 (.rel h2'.pitch) hs.tail (hk.mono (by simp +contextual [partsL])) hap2.2
              refine ⟨m2', _, .chordRel b1 a1, a2.cons, ?_⟩
              rw [selected_cons, parts, filter_notes]
              exact changed_append c.tr (by simp [relChord_length hc]) (.cons b3 b4) a3
  | @checkAbs k n q ms m' hs hq _ ih =>
    intro w ms2 w' m2 ht hf hs hk hap
    have hap2 := hap
    rw [ApartOkL] at hap2
    obtain ⟨w1, m1, ms1, h1, h2, rfl⟩ := transposeList_cons _ _ _ _ _ _ ht
    cases hf
    simp only [transposeMus] at h1
    split at h1
    · cases h1
    · rename_i n' hn'
      cases h1
      have e := transposeAbs_selected c g.dict n n' q hn' hq
      obtain ⟨m2', hs2, a1, a2, a3⟩ := ih _ _ _ _ h2 (.abs k) hs.tail (hk.mono (by simp +contextual [partsL])) hap2.2
      refine ⟨m2', _, .checkAbs e a1, a2.cons, ?_⟩
      rw [selected_cons]
      exact a3
  | @checkRel last n q ms m' hs hq hr ih =>
    intro w ms2 w' m2 ht hf hs hk hap
    have hap2 := hap
    rw [ApartOkL] at hap2
    cases hf
    cases hw : n.writable with
    | true =>
      have hall : ∀ x ∈ partsL (.check n :: ms), x.2.writable = true := by
        intro x hx
        rcases List.mem_cons.mp (show x ∈ (Kind.octaveCheck, n) :: partsL ms from hx) with rfl | hx
        · exact hw
        · exact (onward_cons (show Onward ((Kind.octaveCheck, n) :: partsL ms) from hs)).2 hw x hx
      obtain ⟨m2', hs2, a1, a2, a3⟩ := hears_all c g (.checkRel hq hr) _ _ _ _ ht (Begins.rel last).fits hk hall hap
      exact ⟨m2', hs2, a1, .inr ⟨⟨(.octaveCheck, n), by simp [partsL, parts], hw⟩, a2,
        hears_rel (.checkRel (last := last) hq hr) _ rfl⟩, a3⟩
    | false =>
      obtain ⟨w1, m1, ms1, h1, h2, rfl⟩ := transposeList_cons _ _ _ _ _ _ ht
      have hrd := (absNote_iff c.pp g.dict _ _).1 hq
      simp only [transposeMus, transposeCheck, hrd, hw, Bool.false_eq_true, if_false] at h1
      cases h1
      obtain ⟨m2', hs2, a1, a2, a3⟩ := ih _ _ _ _ h2 (.rel q) hs.tail (hk.mono (by simp +contextual [partsL])) hap2.2
      refine ⟨m2', _, .checkRel hq a1, a2.cons, ?_⟩
      rw [selected_cons]
      exact a3
  | @key m n ms m' hs _ ih =>
    intro w ms2 w' m2 ht hf hs hk hap
    have hap2 := hap
    rw [ApartOkL] at hap2
    obtain ⟨w1, m1, ms1, h1, h2, rfl⟩ := transposeList_cons _ _ _ _ _ _ ht
    simp only [transposeMus] at h1
    split at h1
    · cases h1
    · rename_i n' hn'
      cases h1
      obtain ⟨m2', hs2, a1, a2, a3⟩ := ih _ _ _ _ h2 hf hs.tail (hk.mono (by simp +contextual [partsL])) hap2.2
      refine ⟨m2', _, .key a1, a2.cons, ?_⟩
      rw [selected_cons]
      exact a3
  | @group m inner m1 is ms m' hs hi0 hr0 ih1 ih2 =>
    intro w ms2 w' m2 ht hf hs hk hap
    have hap2 := hap
    rw [ApartOkL] at hap2
    obtain ⟨w1, m1', ms1, h1, h2, rfl⟩ := transposeList_cons _ _ _ _ _ _ ht
    simp only [transposeMus] at h1
    split at h1
    · cases h1
    · rename_i w2 inner' hi
      cases h1
      have hsel : SelOk m inner := by
        cases m with
        | abs _ => exact hs.1
        | rel _ => exact (onward_append hs).1
      obtain ⟨mm, hs1, b1, b2, b3⟩ := ih1 _ _ _ _ hi hf hsel (hk.mono (by simp +contextual [partsL, parts]))
        (by have := hap2.1; rwa [ApartOk] at this)
      have hk2 : FixedOk c (partsL ms) := hk.mono (by simp +contextual [partsL])
      have hsc : selected (.group inner :: ms) = selected inner ++ selected ms := by rw [selected_cons]; rfl
      rcases b2 with b2 | ⟨bx, bf, p, bp⟩
      · have hs2 : SelOk m1 ms := by
          cases m with
          | abs k => rw [hears_abs hi0 k rfl]; exact hs.2
          | rel p =>
            obtain ⟨p', e⟩ := hears_rel hi0 p rfl
            rw [e]
            exact (onward_append hs).2.1
        obtain ⟨m2', hs2, a1, a2, a3⟩ := ih2 _ _ _ _ h2 b2 hs2 hk2 (by rw [hears_isRel _ _ hi0]; exact hap2.2)
        refine ⟨m2', _, .group b1 a1, a2.cons, ?_⟩
        rw [hsc]
        exact changed_append c.tr (hears_length hi0) b3 a3
      · cases m with
        | abs k =>
          have := hears_abs hi0 k rfl
          rw [bp] at this
          cases this
        | rel p0 =>
          have hall : ∀ x ∈ partsL ms, x.2.writable = true := (onward_append hs).2.2 bx
          obtain ⟨m2', hs2, a1, a2, a3⟩ := hears_all c g hr0 _ _ _ _ h2 bf hk2 hall (by rw [hears_isRel _ _ hi0]; exact hap2.2)
          refine ⟨m2', _, .group b1 a1, .inr ⟨?_, a2, hears_rel hr0 p bp⟩, ?_⟩
          · obtain ⟨x, hx, hxw⟩ := bx
            exact ⟨x, List.mem_append_left _ hx, hxw⟩
          · rw [hsc]
            exact changed_append c.tr (hears_length hi0) b3 a3
  | @relativeFrom m s q inner m1 is ms m' hs hq hi0 _ ih1 ih2 =>
    intro w ms2 w' m2 ht hf hs hk hap
    have hap2 := hap
    rw [ApartOkL] at hap2
    obtain ⟨w1, m1', ms1, h1, h2, rfl⟩ := transposeList_cons _ _ _ _ _ _ ht
    have hr := (absNote_iff c.pp g.dict _ _).1 hq
    have hon : Onward ((.start, s) :: partsL inner) := by
      have := hs.toEnd.1
      exact this
    have hk1 : FixedOk c (partsL inner) := hk.mono (by simp +contextual [partsL, parts])
    have hsc : selected (.relative (some s) inner :: ms) = selected inner ++ selected ms := by
      rw [selected_cons]; simp [parts, selected]
    simp only [transposeMus] at h1
    split at h1
    · cases h1
    · rename_i l s' hs'
      split at h1
      · cases h1
      · rename_i w2 inner' hi
        cases h1
        obtain ⟨m2', hs2, a1, a2, a3⟩ := ih2 _ _ _ _ h2 hf hs.tail (hk.mono (by simp +contextual [partsL])) hap2.2
        cases hw : s.writable with
        | true =>
          simp only [transposeStart, hr, hw, if_true] at hs'
          split at hs'
          · cases hs'
          · rename_i nd hnd
            cases hs'
            obtain ⟨mm, hs1, b1, b2, b3⟩ := hears_all c g hi0 _ _ _ (.rel (c.tr q)) hi
              (Fits.rel c.toct (fun h => h.elim) rfl rfl) hk1 ((onward_cons hon).2 hw)
              (by have := hap2.1; rwa [ApartOk] at this)
            refine ⟨m2', _, .relativeFrom ((absNote_iff c.pp g.dict _ _).2 (C16_write_read _ (g.dict _) _ _ _ hnd)) b1 a1,
              a2.cons, ?_⟩
            rw [hsc]
            exact changed_append c.tr (hears_length hi0) b3 a3
        | false =>
          simp only [transposeStart, hr, hw, Bool.false_eq_true, if_false] at hs'
          cases hs'
          obtain ⟨mm, hs1, b1, b2, b3⟩ := ih1 _ _ _ _ hi (.rel q) (onward_cons hon).1 hk1 (by have := hap2.1; rwa [ApartOk] at this)
          refine ⟨m2', _, .relativeFrom hq b1 a1, a2.cons, ?_⟩
          rw [hsc]
          exact changed_append c.tr (hears_length hi0) b3 a3
  | @relative m inner m1 is ms m' hs hi0 _ ih1 ih2 =>
    intro w ms2 w' m2 ht hf hs hk hap
    have hap2 := hap
    rw [ApartOkL] at hap2
    obtain ⟨w1, m1', ms1, h1, h2, rfl⟩ := transposeList_cons _ _ _ _ _ _ ht
    have hon : Onward (partsL inner) := by
      have := hs.toEnd.1
      exact this
    have hk1 : FixedOk c (partsL inner) := hk.mono (by simp +contextual [partsL, parts])
    simp only [transposeMus] at h1
    split at h1
    · cases h1
    · rename_i w2 inner' hi
      cases h1
      obtain ⟨m2', hs2, a1, a2, a3⟩ := ih2 _ _ _ _ h2 hf hs.tail (hk.mono (by simp +contextual [partsL])) hap2.2
      obtain ⟨mm, hs1, b1, b2, b3⟩ := ih1 _ _ _ _ hi (.rel (firstPitch c.firstAbs)) hon hk1 (by have := hap2.1; rwa [ApartOk] at this)
      refine ⟨m2', _, .relative b1 a1, a2.cons, ?_⟩
      rw [selected_cons]
      exact changed_append c.tr (hears_length hi0) b3 a3
  | @fixed m s q inner m1 is ms m' hs hq hi0 _ ih1 ih2 =>
    intro w ms2 w' m2 ht hf hs hk hap
    have hap2 := hap
    rw [ApartOkL] at hap2
    obtain ⟨w1, m1', ms1, h1, h2, rfl⟩ := transposeList_cons _ _ _ _ _ _ ht
    have hon := hs.toEnd.1
    rw [ToEnd] at hon
    have hk1 : FixedOk c (partsL inner) := hk.mono (by simp +contextual [partsL, parts])
    have hsc : selected (.fixed s inner :: ms) = selected inner ++ selected ms := by
      rw [selected_cons]; simp [parts, selected]
    simp only [transposeMus] at h1
    split at h1
    · cases h1
    · rename_i s' hs'
      split at h1
      · cases h1
      · rename_i w2 inner' hi
        cases h1
        obtain ⟨m2', hs2, a1, a2, a3⟩ := ih2 _ _ _ _ h2 hf hs.tail (hk.mono (by simp +contextual [partsL])) hap2.2
        cases hw : s.writable with
        | true =>
          simp only [hw, if_true] at hs' hi
          have e := transposeAbs_ok c g.dict 0 s s' q hw hs' hq
          rw [down_zero] at e
          have ho := hk (.fixed, s) (by simp [partsL, parts]) rfl hw q hq
          obtain ⟨mm, hs1, b1, b2, b3⟩ := hears_all c g hi0 _ _ _ (.abs ((c.tr q).octave + 1)) hi (Fits.abs (by omega))
            hk1 (hon.1 hw) (by have := hap2.1; rwa [ApartOk] at this)
          refine ⟨m2', _, .fixed e b1 a1, a2.cons, ?_⟩
          rw [hsc]
          exact changed_append c.tr (hears_length hi0) b3 a3
        | false =>
          simp only [hw, Bool.false_eq_true, if_false] at hs' hi
          cases hs'
          obtain ⟨mm, hs1, b1, b2, b3⟩ := ih1 _ _ _ _ hi (.abs (q.octave + 1)) hon.2 hk1 (by have := hap2.1; rwa [ApartOk] at this)
          refine ⟨m2', _, .fixed hq b1 a1, a2.cons, ?_⟩
          rw [hsc]
          exact changed_append c.tr (hears_length hi0) b3 a3
  | @absolute m inner m1 is ms m' hs hi0 _ ih1 ih2 =>
    intro w ms2 w' m2 ht hf hs hk hap
    have hap2 := hap
    rw [ApartOkL] at hap2
    obtain ⟨w1, m1', ms1, h1, h2, rfl⟩ := transposeList_cons _ _ _ _ _ _ ht
    have hk1 : FixedOk c (partsL inner) := hk.mono (by simp +contextual [partsL, parts])
    simp only [transposeMus] at h1
    split at h1
    · cases h1
    · rename_i w2 inner' hi
      cases h1
      have hon := hs.toEnd.1
      rw [ToEnd] at hon
      obtain ⟨m2', hs2, a1, a2, a3⟩ := ih2 _ _ _ _ h2 hf hs.tail (hk.mono (by simp +contextual [partsL])) hap2.2
      obtain ⟨mm, hs1, b1, b2, b3⟩ := ih1 _ _ _ _ hi (.abs 0) hon hk1 (by have := hap2.1; rwa [ApartOk] at this)
      refine ⟨m2', _, .absolute b1 a1, a2.cons, ?_⟩
      rw [selected_cons]
      exact changed_append c.tr (hears_length hi0) b3 a3
  | @apartAbs k kind as inner m1 is ms m' hs hi0 _ ih1 ih2 =>
    intro w ms2 w' m2 ht hf hs hk hap
    rw [ApartOkL, ApartOk] at hap
    obtain ⟨w1, m1', ms1, h1, h2, rfl⟩ := transposeList_cons _ _ _ _ _ _ ht
    have hk1 : FixedOk c (partsL inner) := hk.mono (by simp +contextual [partsL, parts])
    cases hf
    simp only [transposeMus] at h1
    split at h1
    · cases h1
    · rename_i as' has
      split at h1
      · cases h1
      · rename_i w2 inner' hi
        cases h1
        have hi' : transposeList c (.pitches 0) inner = .ok (w2, inner') := hi
        have hon := hs.toEnd.1
        rw [ToEnd] at hon
        obtain ⟨m2', hs2, a1, a2, a3⟩ := ih2 _ _ _ _ h2 (.abs k) hs.tail (hk.mono (by simp +contextual [partsL])) hap.2
        obtain ⟨mm, hs1, b1, b2, b3⟩ := ih1 _ _ _ _ hi' (.abs k) hon hk1 hap.1.2
        refine ⟨m2', _, .apartAbs b1 a1, a2.cons, ?_⟩
        rw [selected_apart]
        exact changed_append c.tr (hears_length hi0) b3 a3
  | apartRel _ _ _ _ =>
    intro w ms2 w' m2 ht hf hs hk hap
    rw [ApartOkL, ApartOk] at hap
    exact (hap.1.1 rfl).elim

/-- C24 for a selection: when a part of a document is transposed, every selected note that is heard is
transposed, and all others are heard as before.

Missing from the full property: a selection that begins in a `\relative`, or contains the pitch of a
`\fixed`, must go on to the end of that (`C24_selection`); and what is missing from
`C24_transposes_partial`. -/
theorem C24_selected_partial (pp : Langs) (hd : ∀ l, IsDict (pp l).table) (h1 : ∀ l, OneOctave (pp l).table)
    (t : Transposer) (tr : Pitch → Pitch) (ht : Runs t tr) (firstAbs : Bool) (ms ms' : List Mus) (hs : List Heard)
    (hsel : ToEndL ms)
    (hf : ∀ x ∈ partsL ms, x.1 = .fixed → x.2.writable = true → ∀ q, AbsNote pp.tables x.2 q →
      (tr q).octave = q.octave + t.octave)
    (ha : ApartOkL (fun _ => False) false ms)
    (hs0 : Sounds pp.tables (reference firstAbs) ms hs)
    (he : transposeDoc ⟨pp, tr, t.octave, firstAbs⟩ ms = .ok ms') :
    ∃ hs', Sounds pp.tables (reference firstAbs) ms' hs' ∧ hs'.length = hs.length ∧ (selected ms).length = hs.length ∧
      ∀ (i : ℕ) (p : Pitch), (pitches hs)[i]? = some p →
        (pitches hs')[i]? = some (if (selected ms)[i]? = some true then tr p else p) := by
  obtain ⟨m, hh⟩ := hs0
  unfold transposeDoc at he
  split at he
  · cases he
  · rename_i w' ms2 h2
    cases he
    obtain ⟨m2, hs2, a1, _, a3⟩ := hears_selected ⟨pp, tr, t.octave, firstAbs⟩ ⟨hd, h1, runs_down t tr ht⟩ hh
      _ _ _ _ h2 (.abs 0) hsel hf ha
    have hl := hears_length hh
    refine ⟨hs2, ⟨m2, a1⟩, ?_, hl.symm, ?_⟩
    · have := a3.length_eq
      rw [List.length_zip] at this
      omega
    · clear a1 h2 hh hf hsel
      generalize selected ms = fs at a3 hl
      induction hs generalizing fs hs2 with
      | nil => intro i p hp; simp [pitches] at hp
      | cons h hs ih =>
        cases fs with
        | nil => simp at hl
        | cons f fs =>
          rw [List.zip_cons_cons] at a3
          cases a3 with
          | @cons _ h' _ hs' b1 b2 =>
            intro i p hp
            cases i with
            | zero =>
              simp only [pitches, List.map_cons, List.getElem?_cons_zero, Option.some.injEq] at hp ⊢
              subst hp
              cases f with
              | true => simpa [Changed] using b1
              | false =>
                have : h' = h := by simpa [Changed] using b1
                simp [this]
            | succ i =>
              simp only [pitches, List.map_cons, List.getElem?_cons_succ] at hp ⊢
              exact ih _ fs b2 (by simpa using hl) i p hp

/-! ### What is not selected -/

/-- A note that is not selected is the same. -/
def Kept (a b : Kind × Note) : Prop :=
  b.1 = a.1 ∧ b.2.writable = a.2.writable ∧ (a.2.writable = false → b = a)

theorem kept_of {k : Kind} {n n' : Note} (h : n'.writable = n.writable ∧ (n.writable = false → n' = n)) :
    Kept (k, n) (k, n') := ⟨rfl, h.1, fun hw => by rw [h.2 hw]⟩

theorem process_false (pp : Processor) (n n' : PNode) (f : Pitch → Pitch) (h : pp.process n false f = .ok n') : n' = n := by
  unfold Processor.process at h
  split at h
  · cases h
  · simp only [Bool.false_eq_true, if_false] at h
    cases h
    rfl

theorem transposeAbs_same (c : Ctx) (o : ℤ) (n n' : Note) (h : transposeAbs c o n = .ok n') :
    n'.writable = n.writable ∧ (n.writable = false → n' = n) := by
  unfold transposeAbs at h
  split at h
  · rename_i nd hnd
    cases h
    refine ⟨rfl, fun hw => ?_⟩
    rw [hw] at hnd
    rw [process_false _ _ _ _ hnd]
  · cases h

theorem transposeKey_same (c : Ctx) (n n' : Note) (h : transposeKey c n = .ok n') :
    n'.writable = n.writable ∧ (n.writable = false → n' = n) := by
  unfold transposeKey at h
  split at h
  · rename_i nd hnd
    cases h
    refine ⟨rfl, fun hw => ?_⟩
    rw [hw] at hnd
    rw [process_false _ _ _ _ hnd]
  · cases h

theorem transposeNote_same (c : Ctx) (n : Note) (l : Last) (r : Last × Note) (h : transposeNote c n l = .ok r) :
    r.2.writable = n.writable ∧ (n.writable = false → r.2 = n) := by
  unfold transposeNote at h
  split at h
  · cases h
  · simp only at h
    cases hw : n.writable with
    | false =>
      simp only [hw, Bool.not_false, if_true] at h
      cases h
      exact ⟨hw, fun _ => rfl⟩
    | true =>
      simp only [hw, Bool.not_true, Bool.false_eq_true, if_false] at h
      split at h
      · cases h
      · cases h
        exact ⟨rfl, by simp⟩

theorem transposeStack_same (c : Ctx) (ns : List Note) :
    ∀ (l : Last) (rs : List (Last × Note)), transposeStack c l ns = .ok rs →
    List.Forall₂ Kept (ns.map fun n => (Kind.note, n)) ((rs.map Prod.snd).map fun n => (Kind.note, n)) := by
  induction ns with
  | nil => intro l rs h; simp only [transposeStack] at h; cases h; exact .nil
  | cons n ns ih =>
    intro l rs h
    simp only [transposeStack] at h
    split at h
    · cases h
    · rename_i r hr
      split at h
      · cases h
      · rename_i rs' hrs
        cases h
        exact .cons (kept_of (transposeNote_same c n l r hr)) (ih _ _ hrs)

theorem transposeCheck_same (c : Ctx) (n : Note) (r : Last × Note) (h : transposeCheck c n = .ok r) :
    r.2.writable = n.writable ∧ (n.writable = false → r.2 = n) := by
  unfold transposeCheck at h
  split at h
  · cases h
  · cases hw : n.writable with
    | false =>
      simp only [hw, Bool.false_eq_true, if_false] at h
      cases h
      exact ⟨hw, fun _ => rfl⟩
    | true =>
      simp only [hw, if_true] at h
      split at h
      · cases h
      · cases h
        exact ⟨rfl, by simp⟩

theorem transposeStart_same (c : Ctx) (n : Note) (r : Last × Note) (h : transposeStart c n = .ok r) :
    r.2.writable = n.writable ∧ (n.writable = false → r.2 = n) := by
  unfold transposeStart at h
  split at h
  · cases h
  · cases hw : n.writable with
    | false =>
      simp only [hw, Bool.false_eq_true, if_false] at h
      cases h
      exact ⟨hw, fun _ => rfl⟩
    | true =>
      simp only [hw, if_true] at h
      split at h
      · cases h
      · cases h
        exact ⟨rfl, by simp⟩

theorem kept_one {k : Kind} {n n' : Note} (h : n'.writable = n.writable ∧ (n.writable = false → n' = n)) :
    List.Forall₂ Kept [(k, n)] [(k, n')] := .cons (kept_of h) .nil

theorem mapM_same (c : Ctx) (o : ℤ) (k : Kind) (ns ns' : List Note) (h : ns.mapM (transposeAbs c o) = .ok ns') :
    List.Forall₂ Kept (ns.map fun n => (k, n)) (ns'.map fun n => (k, n)) := by
  have := mapM_ok _ (fun n n' => n'.writable = n.writable ∧ (n.writable = false → n' = n)) ns ns'
    (fun a _ b hb => transposeAbs_same c o a b hb) h
  clear h
  induction this with
  | nil => exact .nil
  | cons h _ ih => exact .cons (kept_of h) ih

mutual

theorem kept_mus (c : Ctx) : ∀ (m : Mus) (w w' : Walk) (m' : Mus), transposeMus c w m = .ok (w', m') →
    List.Forall₂ Kept (parts m) (parts m')
  | .note n, w, w', m', h => by
    cases w with
    | pitches o =>
      simp only [transposeMus] at h
      split at h
      · cases h
      · rename_i n' hn; cases h; exact kept_one (transposeAbs_same c o n n' hn)
    | relative l =>
      simp only [transposeMus] at h
      split at h
      · cases h
      · rename_i l' n' hn; cases h; exact kept_one (transposeNote_same c n l _ hn)
  | .chord ns, w, w', m', h => by
    cases w with
    | pitches o =>
      simp only [transposeMus] at h
      split at h
      · cases h
      · rename_i n' hn; cases h; exact mapM_same c o .note ns n' hn
    | relative l flat =>
      cases flat
      · simp only [transposeMus] at h
        split at h
        · cases h
        · rename_i l' n' hn
          cases h
          unfold transposeChord at hn
          split at hn
          · cases hn
          · rename_i hst; cases hn; exact transposeStack_same c ns l _ hst
          · rename_i r rs hst; cases hn; exact transposeStack_same c ns l _ hst
      · simp only [transposeMus] at h
        split at h
        · cases h
        · rename_i rs hst; cases h; exact transposeStack_same c ns l _ hst
  | .check n, w, w', m', h => by
    cases w with
    | pitches o =>
      simp only [transposeMus] at h
      split at h
      · cases h
      · rename_i n' hn; cases h; exact kept_one (transposeAbs_same c o n n' hn)
    | relative l flat =>
      cases flat
      · simp only [transposeMus] at h
        split at h
        · cases h
        · rename_i l' n' hn; cases h; exact kept_one (transposeCheck_same c n _ hn)
      · simp only [transposeMus] at h
        split at h
        · cases h
        · rename_i l' n' hn; cases h; exact kept_one (transposeNote_same c n l _ hn)
  | .key n, w, w', m', h => by
    simp only [transposeMus] at h
    split at h
    · cases h
    · rename_i n' hn; cases h; exact kept_one (transposeKey_same c n n' hn)
  | .group ms, w, w', m', h => by
    simp only [transposeMus] at h
    split at h
    · cases h
    · rename_i w2 ms' hm; cases h; exact kept_list c ms _ _ ms' hm
  | .relative none ms, w, w', m', h => by
    simp only [transposeMus] at h
    split at h
    · cases h
    · rename_i w2 ms' hm; cases h; exact kept_list c ms _ _ ms' hm
  | .relative (some s) ms, w, w', m', h => by
    simp only [transposeMus] at h
    split at h
    · cases h
    · rename_i l s' hs
      split at h
      · cases h
      · rename_i w2 ms' hm
        cases h
        exact .cons (kept_of (transposeStart_same c s _ hs)) (kept_list c ms _ _ ms' hm)
  | .fixed s ms, w, w', m', h => by
    simp only [transposeMus] at h
    split at h
    · cases h
    · rename_i s' hs
      split at h
      · cases h
      · rename_i w2 ms' hm
        cases h
        refine .cons (kept_of ?_) (kept_list c ms _ _ ms' hm)
        cases hw : s.writable with
        | true =>
          rw [hw, if_pos rfl] at hs
          rw [← hw]
          exact transposeAbs_same c 0 s s' hs
        | false =>
          simp only [hw, Bool.false_eq_true, if_false] at hs
          cases hs
          exact ⟨hw, fun _ => rfl⟩
  | .absolute ms, w, w', m', h => by
    simp only [transposeMus] at h
    split at h
    · cases h
    · rename_i w2 ms' hm; cases h; exact kept_list c ms _ _ ms' hm
  | .apart kind as ms, w, w', m', h => by
    simp only [transposeMus] at h
    split at h
    · cases h
    · rename_i as' has
      split at h
      · cases h
      · rename_i w2 ms' hm
        cases h
        exact forall₂_append (mapM_same c _ .argument as as' has) (kept_list c ms _ _ ms' hm)

theorem kept_list (c : Ctx) : ∀ (ms : List Mus) (w w' : Walk) (ms' : List Mus), transposeList c w ms = .ok (w', ms') →
    List.Forall₂ Kept (partsL ms) (partsL ms')
  | [], w, w', ms', h => by
    simp only [transposeList] at h
    cases h
    exact .nil
  | m :: ms, w, w', ms', h => by
    obtain ⟨w1, m1, ms1, h1, h2, rfl⟩ := transposeList_cons _ _ _ _ _ _ h
    exact forall₂_append (kept_mus c m w w1 m1 h1) (kept_list c ms w1 w' ms1 h2)

end

/-- C24: transposing keeps the structure of the music, and does not touch what is not selected. -/
theorem C24_unselected (c : Ctx) (ms ms' : List Mus) (h : transposeDoc c ms = .ok ms') :
    (partsL ms').length = (partsL ms).length ∧
    ∀ (i : ℕ) (k : Kind) (n : Note), (partsL ms)[i]? = some (k, n) → n.writable = false → (partsL ms')[i]? = some (k, n) := by
  unfold transposeDoc at h
  split at h
  · cases h
  · rename_i w' ms2 h2
    cases h
    have := kept_list c ms _ _ _ h2
    refine ⟨this.length_eq.symm, ?_⟩
    generalize partsL ms = xs at this ⊢
    generalize partsL ms' = ys at this ⊢
    clear h2
    induction this with
    | nil => intro i k n hi; simp at hi
    | cons hk _ ih =>
      intro i k n hi hw
      cases i with
      | zero =>
        simp only [List.getElem?_cons_zero, Option.some.injEq] at hi ⊢
        subst hi
        exact hk.2.2 hw
      | succ i =>
        simp only [List.getElem?_cons_succ] at hi ⊢
        exact ih i k n hi hw

/-- `\relative c' { c <e g> d }` of which the g and the d are selected. -/
def exSel : List Mus :=
  let off (n : Note) : Note := { n with writable := false }
  [.note (off (nt 'c' 1)), .relative (some (off (nt 'c' 1)))
    [.group [.note (off (nt 'c' 0)), .chord [off (nt 'e' 0), nt 'g' 0], .note (nt 'd' 0)]]]

/-- The hypotheses of C24 for selections hold for the example, and it becomes c' c' e' a' e'. -/
example : ∃ tr ms' hs', Runs exT tr ∧ ToEndL exSel ∧ selected exSel = [false, false, false, true, true] ∧
    transposeDoc ⟨exPP, tr, exT.octave, true⟩ exSel = .ok ms' ∧
    Sounds exPP.tables (reference true) ms' hs' ∧
    pitches hs' = [⟨0, 0, 0⟩, ⟨0, 0, 0⟩, ⟨0, 2, 0⟩, ⟨0, 5, 0⟩, ⟨0, 2, 0⟩] := by
  obtain ⟨tr, ht⟩ := runs_exists exT majorScale rfl
  have at' : ∀ p q, exT.transpose 3 p = some (.ok q) → tr p = q :=
    fun p q h => C22_deterministic exT _ _ _ (ht p) ⟨3, h⟩
  have g1 := at' ⟨0, 4, 0⟩ ⟨0, 5, 0⟩ (by decide +kernel)
  have d1 := at' ⟨0, 1, 0⟩ ⟨0, 2, 0⟩ (by decide +kernel)
  have r1 : (exPP []).readNode ⟨['c'], 1⟩ = .ok ⟨0, 0, 0⟩ := by decide +kernel
  have r2 : (exPP []).readNode ⟨['c'], 0⟩ = .ok ⟨-1, 0, 0⟩ := by decide +kernel
  have r3 : (exPP []).readNode ⟨['g'], 0⟩ = .ok ⟨-1, 4, 0⟩ := by decide +kernel
  have r4 : (exPP []).readNode ⟨['e'], 0⟩ = .ok ⟨-1, 2, 0⟩ := by decide +kernel
  have r5 : (exPP []).readNode ⟨['d'], 0⟩ = .ok ⟨-1, 1, 0⟩ := by decide +kernel
  have w1 : (exPP []).writeNode ⟨['g'], 0⟩ ⟨-1, 5, 0⟩ = .ok ⟨['a'], 0⟩ := by decide +kernel
  have w2 : (exPP []).writeNode ⟨['d'], 0⟩ ⟨-1, 2, 0⟩ = .ok ⟨['e'], 0⟩ := by decide +kernel
  let off (n : Note) : Note := { n with writable := false }
  refine ⟨tr, [.note (off (nt 'c' 1)), .relative (some (off (nt 'c' 1)))
    [.group [.note (off (nt 'c' 0)), .chord [off (nt 'e' 0), nt 'a' 0], .note (nt 'e' 0)]]],
    [⟨⟨0, 0, 0⟩, none⟩, ⟨⟨0, 0, 0⟩, none⟩, ⟨⟨0, 2, 0⟩, none⟩, ⟨⟨0, 5, 0⟩, none⟩, ⟨⟨0, 2, 0⟩, none⟩], ht, ?_, by decide, ?_, ?_, rfl⟩
  · simp [exSel, ToEndL, ToEnd, Onward, partsL, parts, nt]
  · simp [exSel, off, transposeDoc, transposeList, transposeMus, transposeStart, transposeNote, transposeChord, transposeStack,
      transposeAbs, Processor.process, nt, r1, r2, r3, r4, r5, Pitch.makeAbsolute, Pitch.makeRelative, Last.prev, g1, d1, w1, w2]
  · rw [sounds_iff exPP exDict]; rfl

end Quickly.Relative
