import Verif.Rhythm.Lemmas2

/-! # C46-C49: durations and rhythm editing -/

namespace Quickly.Rhythm

open Spec

/-! ## C47: explicit and implicit -/

theorem plainF_of (doc : List Mus) (h : Plain doc) : PlainF (flatL false [] doc) := by
  intro s hs hi hd
  rw [Plain, allNodes, nodesL_flat doc false []] at h
  exact h s.plain (List.mem_map.2 ⟨s, hs, rfl⟩) hi hd

/-- A process that does not use the preceding nodes. -/
def freeQ {σ : Type} (p : Proc σ) : σ → Site → σ × Option D := fun st s => p st [] s.right s.l

theorem free_scan {σ : Type} (p : Proc σ) (h : ∀ st b r l, p st b r l = p st [] r l)
    (st : σ) (a b : ℕ) (doc : List Mus) :
    edit p st a b doc = ((scan (freeQ p) (inRange a b) st 0 (flatL false [] doc)).1,
      refillL doc (scan (freeQ p) (inRange a b) st 0 (flatL false [] doc)).2) :=
  edit_scan (q := freeQ p) (fun _ => False) (fun st b _ r _ l _ => h st b r l)
    (fun _ _ h => h.elim) st a b doc

theorem free_nodes {σ : Type} (p : Proc σ) (h : ∀ st b r l, p st b r l = p st [] r l)
    (st : σ) (a b : ℕ) (doc : List Mus) :
    (allNodes (edit p st a b doc).2).length = (allNodes doc).length ∧
    ∀ (i : ℕ) (l : Label) (r : Option Kind) (n : Bool), (allNodes doc)[i]? = some (l, r, n) →
      ∃ st', (allNodes (edit p st a b doc).2)[i]? = some
        ({ l with dur := if inRange a b i l then (p st' [] r l).2 else l.dur }, r, n) := by
  obtain ⟨h1, h2⟩ := edit_nodes (q := freeQ p) (fun _ => False) (fun st b _ r _ l _ => h st b r l)
    (fun _ _ h => h.elim) st a b doc
  refine ⟨h1, fun i l r n hi => ?_⟩
  obtain ⟨st', bf, h'⟩ := h2 i l r n hi
  exact ⟨st', h'⟩

theorem free_durables {σ : Type} (p : Proc σ) (h : ∀ st b r l, p st b r l = p st [] r l)
    (hskip : ∀ st r l, l.kind = .skip → l.dur.isSome → (p st [] r l).2.isSome)
    (st : σ) (a b : ℕ) (doc : List Mus) :
    ∃ xs : List Site, durables a b doc = xs.map (fun s => (s.l, s.right)) ∧
      durables a b (edit p st a b doc).2 = (seq (freeQ p) st xs).2.map (fun s => (s.l, s.right)) ∧
      (edit p st a b doc).1 = (seq (freeQ p) st xs).1 :=
  ⟨_, edit_durables (q := freeQ p) (fun _ => False) (fun st b _ r _ l _ => h st b r l)
    (fun _ _ h => h.elim) (fun st s => hskip st s.right s.l) st a b doc⟩

theorem explicit_p : ∀ (st : Option D) (b b' : List Label) (r : Option Kind) (n : Bool) (l : Label),
    (st = none → b = b') → explicitProc st b r l = explicitQ st ⟨l, r, n, b'⟩ := by
  intro st b b' r n l h
  simp only [explicitQ, explicitProc]
  cases l.dur with
  | some d => rfl
  | none =>
    cases st with
    | some d => rfl
    | none => rw [h rfl]

theorem explicit_z : ∀ (st : Option D) (s : Site), (explicitQ st s).1 = none →
    st = none ∧ (explicitQ st s).2 = s.l.dur := by
  intro st s h
  simp only [explicitQ, explicitProc] at h ⊢
  cases hd : s.l.dur with
  | none => rw [hd] at h; simp at h
  | some d =>
    rw [hd] at h
    simp only at h ⊢
    split at h
    · cases h
    · exact ⟨h, trivial⟩

/-- **C47**: `explicit()` does not change the duration of any durable, for every range that does
not start inside a chord, in music where the notes of chords have no durations. -/
theorem C47_explicit_keeps (a b : ℕ) (doc : List Mus) (hp : Plain doc) (ha : StartsOutside a doc) :
    durations (explicit a b doc) = durations doc := by
  rw [durations, explicit, edit_scan (fun st => st = none) explicit_p explicit_z]
  have hl : (scan explicitQ (inRange a b) none 0 (flatL false [] doc)).2.length =
      (revL doc).length := by rw [scan_length, flatL_length]
  simp only
  rw [heardL_refill doc _ _ [] hl, durations, heardL_flat doc _ []]
  have hp' := plainF_of doc hp
  rw [explicit_heard a b (flatL false [] doc) (1/4, 1) none 0 false hp'
    (threadsL_flat doc [] hp').1 (linkedL_flat doc false false [] (by simp)) ?_
    (fun _ => ⟨fun _ => rfl, .inl rfl, fun h => by omega⟩)]
  intro k s hk he
  have := ha s.plain
  rw [allNodes, nodesL_flat doc false [], List.getElem?_map] at this
  rw [show a = k by omega, hk] at this
  exact this rfl

/-- **C47**: what `implicit()` does on every node of the music: it stays the same, or it is a
durable in the range with a duration that may be removed, and that one is removed. -/
theorem C47_implicit_removes (a b : ℕ) (doc : List Mus) :
    (allNodes (implicit a b doc)).length = (allNodes doc).length ∧
    ∀ (i : ℕ) (l : Label) (r : Option Kind) (n : Bool), (allNodes doc)[i]? = some (l, r, n) →
      ∃ l', (allNodes (implicit a b doc))[i]? = some (l', r, n) ∧
        (l' = l ∨ ((a ≤ i ∧ i < b) ∧ l.isDurable = true ∧ ¬ MustStay l r ∧
          l.dur ≠ none ∧ l' = { l with dur := none })) := by
  obtain ⟨h1, h2⟩ := free_nodes implicitProc (fun _ _ _ _ => rfl) none a b doc
  refine ⟨h1, fun i l r n h => ?_⟩
  obtain ⟨st', h'⟩ := h2 i l r n h
  refine ⟨_, h', ?_⟩
  by_cases hw : inRange a b i l = true
  · simp only [hw, if_true]
    obtain ⟨hab, hd⟩ := inRange_durable hw
    simp only [implicitProc]
    cases hdur : l.dur with
    | none => left; simp [← hdur]
    | some d =>
      simp only
      split
      · rename_i hc
        simp only [Bool.and_eq_true] at hc
        right
        exact ⟨hab, hd, (mayRemove_iff l r).1 hc.2, by simp, rfl⟩
      · left; simp [← hdur]
  · left
    simp [hw]

/-- **C47**: `implicit()` does not change the duration of any durable, for every range: only
repeated durations are removed. -/
theorem C47_implicit_keeps (a b : ℕ) (doc : List Mus) (hp : Plain doc) :
    durations (implicit a b doc) = durations doc := by
  rw [durations, implicit, free_scan implicitProc (fun _ _ _ _ => rfl)]
  simp only
  rw [heardL_refill doc _ _ [] (by rw [scan_length, flatL_length]), durations,
    heardL_flat doc _ []]
  rw [tracked_heard _ id a b ?_ ?_ (flatL false [] doc) (1/4, 1) none 0 (plainF_of doc hp)
    fun _ => ⟨fun _ => rfl, .inl rfl⟩]
  · intro st s p hst hdur hin
    simp only [freeQ, implicitProc, id]
    cases hd : s.l.dur with
    | none =>
      refine ⟨rfl, fun _ => rfl, ?_⟩
      split
      · exact hst
      · rfl
    | some d =>
      simp only
      split
      · rename_i hc
        simp only [Bool.and_eq_true, decide_eq_true_eq] at hc
        have hs := mayRemove_sets hc.2 (isDurable_durable hdur)
        have hpd : p = d := by
          have h := hc.1
          simp only [id] at hst
          rw [h] at hst
          simpa using eq_comm.1 (by simpa using hst)
        refine ⟨by simp [hpd], ?_, ?_⟩
        · intro hk; rw [hk] at hs; cases hs
        · simp only [hs, if_true]
          right
          simpa using hc.1
      · refine ⟨rfl, fun _ => rfl, ?_⟩
        split
        · right; simp
        · rfl
  · intro st s _ _ hd
    simp [freeQ, implicitProc, hd]

/-- **C47**: the same for `implicit(per_line=True)`, whatever the lines are. -/
theorem C47_per_line_keeps (block : ℕ → Option ℕ) (a b : ℕ) (doc : List Mus) (hp : Plain doc) :
    durations (implicitPerLine block a b doc) = durations doc := by
  rw [durations, implicitPerLine, free_scan (perLineProc block) (fun _ _ _ _ => rfl)]
  simp only
  rw [heardL_refill doc _ _ [] (by rw [scan_length, flatL_length]), durations,
    heardL_flat doc _ []]
  rw [tracked_heard _ (fun st => st.map Prod.fst) a b ?_ ?_ (flatL false [] doc) (1/4, 1) none 0
    (plainF_of doc hp) fun _ => ⟨fun _ => rfl, .inl rfl⟩]
  · intro st s p hst hdur hin
    simp only [freeQ, perLineProc]
    cases hd : s.l.dur with
    | none =>
      have hks : s.l.kind.sets = true := by
        apply durable_sets (isDurable_durable hdur)
        intro hk
        simp [Label.isDurable, hk, hd] at hdur
      have hk : s.l.kind ≠ .skip := by intro hk; rw [hk] at hks; cases hks
      simp only [hks, if_true, hk, false_imp_iff, true_and]
      cases hb : block s.l.id with
      | none => exact ⟨rfl, by simpa using hst⟩
      | some n =>
        cases hs : st with
        | none => exact ⟨rfl, .inl rfl⟩
        | some x =>
          obtain ⟨d, m⟩ := x
          have hpd : d = p := by simpa [hs] using hst
          simp only
          split
          · exact ⟨hpd, .inr (by simp [hpd])⟩
          · exact ⟨rfl, .inr (by simp [hpd])⟩
    | some d =>
      simp only
      split
      · rename_i hc
        simp only [Bool.and_eq_true, decide_eq_true_eq] at hc
        have hs := mayRemove_sets hc.2 (isDurable_durable hdur)
        have hpd : p = d := by
          have h := hc.1
          rw [h] at hst
          simpa using eq_comm.1 (by simpa using hst)
        refine ⟨by simp [hpd], ?_, ?_⟩
        · intro hk; rw [hk] at hs; cases hs
        · simp only [hs, if_true]
          right
          simp [hc.1]
      · refine ⟨rfl, fun _ => rfl, ?_⟩
        split
        · right; simp
        · rfl
  · intro st s _ _ hd
    simp only [freeQ, perLineProc, hd]
    split
    · split <;> rfl
    · rfl

/-- **C47**: without a document (`find_block()` is None) `per_line` makes no difference. -/
theorem C47_per_line_no_document (a b : ℕ) (doc : List Mus) :
    implicitPerLine (fun _ => none) a b doc = implicit a b doc := by
  rw [implicitPerLine, implicit, free_scan implicitProc (fun _ _ _ _ => rfl),
    free_scan (perLineProc fun _ => none) (fun _ _ _ _ => rfl)]
  simp only
  congr 1
  have key : ∀ (xs : List Site) (st : Option D) (i : ℕ),
      (scan (freeQ (perLineProc fun _ => none)) (inRange a b)
        (st.map fun d => (d, none)) i xs).2 =
      (scan (freeQ implicitProc) (inRange a b) st i xs).2 := by
    intro xs
    induction xs with
    | nil => intros; rfl
    | cons x xs ih =>
      intro st i
      simp only [scan]
      by_cases hw : inRange a b i x.l = true
      · simp only [hw, if_true]
        have : freeQ (perLineProc fun _ => none) (st.map fun d => (d, none)) x =
            ((freeQ implicitProc st x).1.map fun d => (d, none),
             (freeQ implicitProc st x).2) := by
          simp only [freeQ, perLineProc, implicitProc]
          cases x.l.dur with
          | none => rfl
          | some d =>
            have : (st.map (fun d => (d, (none : Option ℕ))) = some (d, none)) ↔ st = some d := by
              cases st <;> simp
            simp only [this]
            split
            · rfl
            · split <;> rfl
        rw [this, ih]
      · simp only [hw, Bool.false_eq_true, if_false, ih]
  exact key _ none 0

theorem explicit_skip : ∀ (st : Option D) (s : Site), s.l.kind = .skip → s.l.dur.isSome →
    (explicitQ st s).2.isSome := by
  intro st s hk hd
  obtain ⟨d, hd⟩ := Option.isSome_iff_exists.1 hd
  simp [explicitQ, explicitProc, hd]

/-- **C47**: after `explicit()` every durable in the range has a duration. -/
theorem C47_explicit_all (a b : ℕ) (doc : List Mus) :
    ∀ x ∈ durables a b (explicit a b doc), x.1.dur ≠ none := by
  obtain ⟨h1, h2, h3⟩ := edit_durables (fun st => st = none) explicit_p explicit_z
    explicit_skip none a b doc
  generalize pick (inRange a b) 0 (flatL false [] doc) = xs at h2
  rw [explicit, h2]
  have key : ∀ (xs : List Site) (st : Option D), ∀ s ∈ (seq explicitQ st xs).2, s.l.dur ≠ none := by
    intro xs
    induction xs with
    | nil => intro st s hs; cases hs
    | cons x xs ih =>
      intro st s hs
      simp only [seq, List.mem_cons] at hs
      rcases hs with rfl | hs
      · simp only [Site.set, explicitQ, explicitProc]
        cases x.l.dur <;> simp
      · exact ih _ s hs
  intro x hx
  obtain ⟨s, hs, rfl⟩ := List.mem_map.1 hx
  exact key xs none s hs

theorem scan_same {σ : Type} (q : σ → Site → σ × Option D) (which : ℕ → Label → Bool)
    (xs : List Site) : ∀ (st : σ) (i : ℕ),
    (∀ st k s, xs[k]? = some s → which (i + k) s.l = true → (q st s).2 = s.l.dur) →
    (scan q which st i xs).2 = xs.map (·.l.dur) := by
  induction xs with
  | nil => intros; rfl
  | cons x xs ih =>
    intro st i h
    simp only [scan, List.map_cons]
    rw [ih _ (i + 1) fun st k s hk hw => h st (k + 1) s (by simpa using hk)
      (by rw [show i + (k + 1) = i + 1 + k by omega]; exact hw)]
    congr 1
    split
    · rename_i hw
      exact h st 0 x rfl hw
    · rfl

/-- **C47**: `explicit()` a second time does nothing. -/
theorem C47_explicit_idempotent (a b : ℕ) (doc : List Mus) :
    explicit a b (explicit a b doc) = explicit a b doc := by
  have hall := C47_explicit_all a b doc
  generalize explicit a b doc = d at hall
  rw [explicit, edit_scan (fun st => st = none) explicit_p explicit_z]
  simp only
  rw [scan_same explicitQ (inRange a b) (flatL false [] d) none 0 ?_, refillL_id]
  intro st k s hk hw
  have hm : (s.l, s.right) ∈ durables a b d := by
    rw [durables, allNodes, nodesL_flat d false [], durables_pick, pick_range]
    refine List.mem_map.2 ⟨s, ?_, rfl⟩
    obtain ⟨⟨h1, h2⟩, h3⟩ := inRange_durable hw
    rw [List.mem_filter]
    refine ⟨?_, h3⟩
    rw [List.mem_iff_getElem?]
    refine ⟨k - a, ?_⟩
    rw [List.getElem?_drop, show a - 0 + (k - a) = k by omega, List.getElem?_take]
    rw [if_pos (by omega)]
    exact hk
  have := hall _ hm
  simp only [explicitQ, explicitProc]
  cases hd : s.l.dur with
  | none => exact absurd hd this
  | some d => rfl

mutual
theorem rev_refill : ∀ (m : Mus) (ds), (rev (refill m ds)).length = (rev m).length
  | .node l cs, ds => by simp [refill, rev, revL_refill cs]
theorem revL_refill : ∀ (cs : List Mus) (ds), (revL (refillL cs ds)).length = (revL cs).length
  | [], _ => rfl
  | c :: cs, ds => by simp [refillL, revL, rev_refill c, revL_refill cs]
end

mutual
theorem refill_refill : ∀ (m : Mus) (ds es : List (Option D)),
    es.length = (rev m).length → refill (refill m ds) es = refill m es
  | .node l cs, ds, es, h => by
    cases es with
    | nil => simp [rev] at h
    | cons e es =>
      simp only [rev, List.length_cons, Nat.add_right_cancel_iff] at h
      simp [refill, refillL_refillL cs _ es h]
theorem refillL_refillL : ∀ (cs : List Mus) (ds es : List (Option D)),
    es.length = (revL cs).length → refillL (refillL cs ds) es = refillL cs es
  | [], _, _, _ => rfl
  | c :: cs, ds, es, h => by
    simp only [revL, List.length_append] at h
    simp only [refillL, rev_refill]
    rw [refill_refill c _ _ (by rw [List.length_take]; omega),
      refillL_refillL cs _ _ (by rw [List.length_drop]; omega)]
end

/-- A process that does not use the preceding nodes only depends on `nodes`. -/
theorem scan_congr {σ : Type} (q : σ → Site → σ × Option D) (which : ℕ → Label → Bool)
    (hq : ∀ st s s', s.plain = s'.plain → q st s = q st s') (xs : List Site) :
    ∀ (ys : List Site) (st : σ) (i : ℕ), xs.map Site.plain = ys.map Site.plain →
    scan q which st i xs = scan q which st i ys := by
  induction xs with
  | nil =>
    intro ys st i h
    cases ys with
    | nil => rfl
    | cons y ys => simp at h
  | cons x xs ih =>
    intro ys st i h
    cases ys with
    | nil => simp at h
    | cons y ys =>
      simp only [List.map_cons, List.cons.injEq] at h
      have hl : x.l = y.l := congrArg Prod.fst h.1
      simp only [scan, hq st x y h.1, hl, ih ys _ _ h.2]

/-- **C47**: `implicit()` a second time does nothing. -/
theorem C47_implicit_idempotent (a b : ℕ) (doc : List Mus) :
    implicit a b (implicit a b doc) = implicit a b doc := by
  have e : ∀ d, implicit a b d = refillL d (scan (freeQ implicitProc) (inRange a b) none 0
      (flatL false [] d)).2 := by
    intro d
    rw [implicit, free_scan implicitProc (fun _ _ _ _ => rfl)]
  have hq : ∀ st s, freeQ implicitProc st s = implicitProc st [] s.right s.l := fun _ _ => rfl
  generalize freeQ implicitProc = q at e hq
  have hl := scan_length q (inRange a b) none 0 (flatL false [] doc)
  rw [flatL_length] at hl
  rw [e (implicit a b doc), e doc]
  have hn := nodesL_refill doc _ false [] hl
  rw [nodesL_flat _ false []] at hn
  rw [scan_congr q (inRange a b) (by
    intro st s s' h
    simp only [Site.plain, Prod.mk.injEq] at h
    rw [hq, hq, h.1, h.2.1]) _ _ none 0 hn]
  have key : ∀ (xs : List Site) (st : Option D) (i : ℕ),
      scan q (inRange a b) st i (List.zipWith Site.set xs (scan q (inRange a b) st i xs).2) =
        scan q (inRange a b) st i xs := by
    intro xs
    induction xs with
    | nil => intros; rfl
    | cons x xs ih =>
      intro st i
      simp only [scan, List.zipWith_cons_cons]
      by_cases hw : inRange a b i x.l = true
      · have h2 : inRange a b i (x.set (q st x).2).l = true ∧
            q st (x.set (q st x).2) = q st x := by
          obtain ⟨hab, hd⟩ := inRange_durable hw
          cases hdur : x.l.dur with
          | none =>
            have : (q st x).2 = x.l.dur := by rw [hq, implicitProc, hdur]
            rw [this, set_self]
            exact ⟨hw, rfl⟩
          | some d =>
            by_cases hc : (decide (st = some d) && mayRemove x.l x.right) = true
            · have h1 : q st x = (st, none) := by simp only [hq, implicitProc, hdur, if_pos hc]
              have h2 : q st (x.set none) = (st, none) := by
                simp only [hq, implicitProc, Site.set]
              rw [h1, h2]
              simp only [Bool.and_eq_true] at hc
              have hs := mayRemove_sets hc.2 (isDurable_durable hd)
              have : (x.set none).l.isDurable = true :=
                sets_isDurable (show (x.set none).l.kind.sets = true from hs)
              refine ⟨?_, rfl⟩
              simp [inRange, this, hab.1, hab.2]
            · have : (q st x).2 = x.l.dur := by simp only [hq, implicitProc, hdur, if_neg hc]
              rw [this, set_self]
              exact ⟨hw, rfl⟩
        simp only [hw, h2.1, h2.2, if_true, ih]
      · simp only [hw, Bool.false_eq_true, if_false, set_self, ih]
  rw [key, refillL_refillL doc _ _ hl]

section
variable {a b : ℕ}

theorem explicit_implicit_step (i : ℕ) (l : Label) (r : Option Kind) (pi pe : Option D)
    (bf bf' : List Label) (hb : pe = none → bf' = bf) (hinv : pi = none ∨ pe = pi) :
    let x := if inRange a b i l then implicitProc pi [] r l else (pi, l.dur)
    let y := if inRange a b i l then explicitProc pe bf r l else (pe, l.dur)
    let l1 := { l with dur := x.2 }
    (if inRange a b i l1 then explicitProc pe bf' r l1 else (pe, l1.dur)) = y ∧
    (x.1 = none ∨ y.1 = x.1) ∧ (y.1 = none → pe = none) := by
  by_cases hw : inRange a b i l = true
  · obtain ⟨hab, hd⟩ := inRange_durable hw
    simp only [hw, if_true, implicitProc]
    cases hdur : l.dur with
    | none =>
      have hl : { l with dur := none } = l := by rw [← hdur]
      simp only [hl, hw, if_true, explicitProc, hdur]
      cases pe with
      | none =>
        simp only [hb rfl, true_and]
        refine ⟨?_, fun h => by cases h⟩
        rcases hinv with h | h
        · exact .inl h
        · exact .inl h.symm
      | some d =>
        simp only [true_and]
        refine ⟨hinv, fun h => by cases h⟩
    | some d =>
      simp only
      split
      · rename_i hc
        simp only [Bool.and_eq_true, decide_eq_true_eq] at hc
        have hs := mayRemove_sets hc.2 (isDurable_durable hd)
        have hpe : pe = some d := by
          rcases hinv with h | h
          · rw [h] at hc; cases hc.1
          · rw [h, hc.1]
        have h1 : inRange a b i { l with dur := none } = true := by
          have : ({ l with dur := none } : Label).isDurable = true :=
            sets_isDurable (show ({ l with dur := none } : Label).kind.sets = true from hs)
          simp [inRange, this, hab.1, hab.2]
        simp only [h1, if_true, explicitProc, hdur, hs, hpe, hc.1]
        exact ⟨trivial, .inr trivial, fun h => by cases h⟩
      · have hl : { l with dur := some d } = l := by rw [← hdur]
        simp only [hl, hw, if_true, explicitProc, hdur]
        refine ⟨trivial, ?_, ?_⟩
        · split
          · exact .inr rfl
          · exact hinv
        · split
          · intro h; cases h
          · exact fun h => h
  · have hw0 : inRange a b i l = false := by simpa using hw
    simp only [hw0, Bool.false_eq_true, if_false]
    exact ⟨trivial, hinv, fun h => h⟩

theorem implicit_bf (st : Option D) (bf : List Label) (r l) :
    implicitProc st bf r l = implicitProc st [] r l := rfl

mutual
theorem walk_explicit_implicit : ∀ (m : Mus) (pi pe : Option D) (i : ℕ) (b1 bf bf' : List Label)
    (r : Option Kind), (pe = none → bf' = bf) → (pi = none ∨ pe = pi) →
    let x := walk implicitProc (inRange a b) pi i b1 r m
    let y := walk explicitProc (inRange a b) pe i bf r m
    walk explicitProc (inRange a b) pe i bf' r x.2.2 = y ∧ x.2.1 = y.2.1 ∧
    x.2.2.label.kind = m.label.kind ∧
    (x.1 = none ∨ y.1 = x.1) ∧ (y.1 = none → pe = none)
  | .node l cs, pi, pe, i, b1, bf, bf', r, hb, hinv => by
    have hs := explicit_implicit_step (a := a) (b := b) i l r pi pe bf bf' hb hinv
    simp only at hs
    simp only [walk, implicit_bf _ b1]
    generalize (if inRange a b i l then implicitProc pi [] r l else (pi, l.dur)) = x at hs ⊢
    generalize (if inRange a b i l then explicitProc pe bf r l else (pe, l.dur)) = y at hs ⊢
    obtain ⟨s1, s2, s3⟩ := hs
    rw [s1]
    obtain ⟨i1, i2, i3, i4, i5⟩ := walkL_explicit_implicit cs x.1 y.1 (i + 1) b1 bf bf'
      (fun h => hb (s3 h)) s2
    simp only [i1]
    exact ⟨trivial, i2, rfl, i4, fun h => s3 (i5 h)⟩
theorem walkL_explicit_implicit : ∀ (cs : List Mus) (pi pe : Option D) (i : ℕ)
    (b1 bf bf' : List Label), (pe = none → bf' = bf) → (pi = none ∨ pe = pi) →
    let x := walkL implicitProc (inRange a b) pi i b1 cs
    let y := walkL explicitProc (inRange a b) pe i bf cs
    walkL explicitProc (inRange a b) pe i bf' x.2.2 = y ∧ x.2.1 = y.2.1 ∧
    x.2.2.head?.map (·.label.kind) = cs.head?.map (·.label.kind) ∧
    (x.1 = none ∨ y.1 = x.1) ∧ (y.1 = none → pe = none)
  | [], pi, pe, i, b1, bf, bf', hb, hinv => ⟨rfl, rfl, rfl, hinv, fun h => h⟩
  | c :: cs, pi, pe, i, b1, bf, bf', hb, hinv => by
    obtain ⟨i1, i2, i3, i4, i5⟩ := walk_explicit_implicit c pi pe i b1 bf bf'
      (cs.head?.map (·.label.kind)) hb hinv
    simp only [walkL]
    generalize walk implicitProc (inRange a b) pi i b1 (cs.head?.map (·.label.kind)) c = x at i1 i2 i3 i4 i5 ⊢
    generalize walk explicitProc (inRange a b) pe i bf (cs.head?.map (·.label.kind)) c = y at i1 i2 i3 i4 i5 ⊢
    obtain ⟨j1, j2, j3, j4, j5⟩ := walkL_explicit_implicit cs x.1 y.1 x.2.1 (rev x.2.2 ++ b1)
      (rev y.2.2 ++ bf) (rev y.2.2 ++ bf') (fun h => by rw [hb (i5 h)]) i4
    rw [i2] at j1 j2 j3 j4 j5
    simp only [i2, j3, i1, j1]
    refine ⟨trivial, j2, ?_, j4, fun h => i5 (j5 h)⟩
    simp [i3]
end
end

/-- **C47**: `explicit(implicit(m))` is the same as `explicit(m)`, for every range and music. -/
theorem C47_explicit_implicit (a b : ℕ) (doc : List Mus) :
    explicit a b (implicit a b doc) = explicit a b doc := by
  have h := (walkL_explicit_implicit (a := a) (b := b) doc none none 0 [] [] [] (fun _ => rfl)
    (.inl rfl)).1
  rw [explicit, explicit, implicit, edit, edit, edit]
  simp only
  rw [h]

/-! Music for the examples. -/

/-- A note. -/
def nt (id : ℕ) (d : Option D) : Mus := .node ⟨id, .sounding, false, d⟩ []
/-- A chord of two notes. -/
def ch (id : ℕ) (d : Option D) : Mus :=
  .node ⟨id, .sounding, false, d⟩
    [.node ⟨id + 1, .other, false, none⟩ [nt (id + 2) none, nt (id + 3) none]]
/-- A music list. -/
def ml (id : ℕ) (cs : List Mus) : Mus := .node ⟨id, .other, false, none⟩ cs
/-- A `\skip`. -/
def sk (id : ℕ) (d : D) : Mus := .node ⟨id, .skip, false, some d⟩ []

/-- `{ c <d f>8 e \skip 2 f g4*1/3 { a4*1/3 } b4*1/3 <c e>4*1/3 4*1/3 }`; the last one is unpitched. -/
def exDoc : List Mus := [ml 0 [nt 1 none, ch 2 (some (1/8, 1)), nt 6 none, sk 7 (1/2, 1), nt 8 none,
  nt 9 (some (1/4, 1/3)), ml 10 [nt 11 (some (1/4, 1/3))], nt 12 (some (1/4, 1/3)), ch 13 (some (1/4, 1/3)),
  .node ⟨17, .unpitched, false, some (1/4, 1/3)⟩ []]]

example : Plain exDoc ∧ StartsOutside 0 exDoc ∧ StartsOutside 6 exDoc ∧ StartsOutside 8 exDoc := by
  have key : ∀ (n : ℕ) (x : Label × Option Kind × Bool), (allNodes exDoc)[n]? = some x → (∀ y ∈ (allNodes exDoc)[n]?, y.2.2 = false) →
      x.2.2 = false := fun n x h hy => hy x h
  refine ⟨by unfold Plain; decide +kernel, ?_, ?_, ?_⟩ <;>
  · intro x h
    refine key _ x h ?_
    decide +kernel

example : durations exDoc = [(1, (1/4, 1)), (2, (1/8, 1)), (6, (1/8, 1)), (7, (1/2, 1)),
    (8, (1/8, 1)), (9, (1/4, 1/3)), (11, (1/4, 1/3)), (12, (1/4, 1/3)), (13, (1/4, 1/3)),
    (17, (1/4, 1/3))] := by decide +kernel

example : (durables 0 100 (implicit 0 100 exDoc)).map (fun x => (x.1.id, x.1.dur)) =
    [(1, none), (2, some (1/8, 1)), (4, none), (5, none), (6, none), (7, some (1/2, 1)), (8, none),
     (9, some (1/4, 1/3)), (11, none), (12, none), (13, some (1/4, 1/3)), (15, none), (16, none),
     (17, some (1/4, 1/3))] := by decide +kernel

/-- **C47** and **C48** disagree with the code for chords: "add the current duration to all notes,
chords, rests" gives also the notes inside a chord a duration (`<c4 e4>4`, which LilyPond does not
accept), because `durables()` yields them. -/
theorem C47_explicit_inside_chord :
    (durables 0 10 (explicit 0 10 [ch 0 (some (1/4, 1))])).map (fun x => (x.1.id, x.1.dur)) =
      [(0, some (1/4, 1)), (2, some (1/4, 1)), (3, some (1/4, 1))] := by decide +kernel

/-- **C47** fails for a range that starts inside a chord, as `StartsOutside` excludes: in
`c4 <d f>8 e`, with a selection from `f`, `explicit()` changes the duration of `e`. -/
theorem C47_explicit_starts_inside :
    let doc := [nt 0 (some (1/4, 1)), ch 1 (some (1/8, 1)), nt 5 none]
    durations doc = [(0, (1/4, 1)), (1, (1/8, 1)), (5, (1/8, 1))] ∧
    durations (explicit 4 6 doc) = [(0, (1/4, 1)), (1, (1/8, 1)), (5, (1/4, 1))] := by
  decide +kernel

/-! ## C49: durations that have to stay -/

/-- **C49**: `remove()` removes the durations of the durables in the range, except those that have
to stay, and changes nothing else. -/
theorem C49_remove (a b : ℕ) (doc : List Mus) :
    (allNodes (remove a b doc)).length = (allNodes doc).length ∧
    ∀ (i : ℕ) (l : Label) (r : Option Kind) (n : Bool), (allNodes doc)[i]? = some (l, r, n) →
      ∃ l', (allNodes (remove a b doc))[i]? = some (l', r, n) ∧
        (l' = l ∨ l' = { l with dur := none }) ∧
        (MustStay l r → l' = l) ∧ (¬(a ≤ i ∧ i < b) → l' = l) ∧ (l.kind.durable = false → l' = l) ∧
        (¬ MustStay l r → a ≤ i → i < b → l.kind.durable = true → l'.dur = none) := by
  obtain ⟨h1, h2⟩ := free_nodes removeProc (fun _ _ _ _ => rfl) () a b doc
  refine ⟨h1, fun i l r n h => ?_⟩
  obtain ⟨st', h'⟩ := h2 i l r n h
  refine ⟨_, h', ?_⟩
  by_cases hw : inRange a b i l = true
  · obtain ⟨hab, hd⟩ := inRange_durable hw
    simp only [hw, if_true, removeProc]
    have hd' := isDurable_durable hd
    by_cases hm : mayRemove l r = true
    · have := (mayRemove_iff l r).1 hm
      simp only [hm, if_true]
      refine ⟨.inr trivial, fun h => absurd h this, fun h => absurd hab h, fun h => ?_,
        fun _ _ _ _ => trivial⟩
      rw [hd'] at h
      cases h
    · have hm' : MustStay l r := by
        by_contra hc
        exact hm ((mayRemove_iff l r).2 hc)
      simp only [hm, Bool.false_eq_true, if_false]
      exact ⟨.inl trivial, fun _ => trivial, fun _ => trivial, fun _ => trivial,
        fun h => absurd hm' h⟩
  · simp only [hw, Bool.false_eq_true, if_false]
    refine ⟨.inl trivial, fun _ => trivial, fun _ => trivial, fun _ => trivial, ?_⟩
    intro hm h1 h2 h3
    have hnd : l.isDurable = false := by
      cases hd : l.isDurable with
      | false => rfl
      | true => exact absurd (by simp [inRange, hd, h1, h2]) hw
    have hk : l.kind ≠ .skip := by
      intro hk
      exact hm (.inl (by rw [hk]; rfl))
    simp [Label.isDurable, h3, hk] at hnd

/-- **C49**: `implicit()`, with and without `per_line`, never removes a duration that has to
stay, and nothing else than durations of durables in the range is changed. -/
theorem C49_implicit (block : ℕ → Option ℕ) (a b : ℕ) (doc : List Mus) :
    ∀ (i : ℕ) (l : Label) (r : Option Kind) (n : Bool), (allNodes doc)[i]? = some (l, r, n) →
      ∃ l1 l2, (allNodes (implicit a b doc))[i]? = some (l1, r, n) ∧
        (allNodes (implicitPerLine block a b doc))[i]? = some (l2, r, n) ∧
        (MustStay l r → l.dur ≠ none → l1 = l ∧ l2 = l) ∧
        (¬(a ≤ i ∧ i < b) ∨ l.isDurable = false → l1 = l ∧ l2 = l) := by
  intro i l r n h
  obtain ⟨st1, h1⟩ := (free_nodes implicitProc (fun _ _ _ _ => rfl) none a b doc).2 i l r n h
  obtain ⟨st2, h2⟩ := (free_nodes (perLineProc block) (fun _ _ _ _ => rfl) none a b doc).2 i l r n h
  refine ⟨_, _, h1, h2, ?_, ?_⟩
  · intro hm hd
    have hm' : mayRemove l r = false := by
      cases hr : mayRemove l r with
      | false => rfl
      | true => exact absurd hm ((mayRemove_iff l r).1 hr)
    obtain ⟨d, hd⟩ := Option.ne_none_iff_exists'.1 hd
    simp only [implicitProc, perLineProc, hd, hm', Bool.and_false, Bool.false_eq_true, if_false,
      ite_self]
    simp [← hd]
  · intro ho
    have : inRange a b i l = false := by
      cases hw : inRange a b i l with
      | false => rfl
      | true =>
        obtain ⟨h1, h2⟩ := inRange_durable hw
        rcases ho with h | h
        · exact absurd h1 h
        · rw [h2] at h; cases h
    simp [this]

/-- **C49**: `paste()` never removes a duration that has to stay. -/
theorem C49_paste (durs : List (Option D)) (cycle : Bool) (a b : ℕ) (doc : List Mus) :
    ∀ (i : ℕ) (l : Label) (r : Option Kind) (n : Bool), (allNodes doc)[i]? = some (l, r, n) →
      ∃ l', (allNodes (paste durs cycle a b doc))[i]? = some (l', r, n) ∧
        (MustStay l r → l.dur ≠ none → l'.dur ≠ none) ∧
        (¬(a ≤ i ∧ i < b) ∨ l.isDurable = false → l' = l) := by
  intro i l r n h
  obtain ⟨st, h1⟩ := (free_nodes (pasteProc durs cycle) (fun _ _ _ _ => rfl) (0, none) a b doc).2 i l r n h
  refine ⟨_, h1, ?_, ?_⟩
  · intro hm hd
    have hm' : mayRemove l r = false := by
      cases hr : mayRemove l r with
      | false => rfl
      | true => exact absurd hm ((mayRemove_iff l r).1 hr)
    simp only
    split
    · simp only [pasteProc]
      split
      · exact hd
      · simp
      · simp only [hm', Bool.false_eq_true, if_false]
        split
        · simp
        · exact hd
    · exact hd
  · intro ho
    have : inRange a b i l = false := by
      cases hw : inRange a b i l with
      | false => rfl
      | true =>
        obtain ⟨h1, h2⟩ := inRange_durable hw
        rcases ho with h | h
        · exact absurd h1 h
        · rw [h2] at h; cases h
    simp [this]

/-- **C49**: removing scalings changes only the scaling of the durables in the range: it becomes 1,
or with `remove_fraction_scaling()` only if it is not a whole number. -/
theorem C49_scaling (a b : ℕ) (doc : List Mus) :
    ∀ (i : ℕ) (l : Label) (r : Option Kind) (n : Bool), (allNodes doc)[i]? = some (l, r, n) →
      ∃ l1 l2, (allNodes (removeScaling a b doc))[i]? = some (l1, r, n) ∧
        (allNodes (removeFraction a b doc))[i]? = some (l2, r, n) ∧
        (¬(a ≤ i ∧ i < b) ∨ l.isDurable = false → l1 = l ∧ l2 = l) ∧
        (a ≤ i → i < b → l.isDurable = true →
          l1 = { l with dur := l.dur.map fun d => (d.1, 1) } ∧
          l2 = { l with dur := l.dur.map fun d => (d.1, if d.2 = (⌊d.2⌋ : ℚ) then d.2 else 1) }) := by
  intro i l r n h
  obtain ⟨st1, h1⟩ := (free_nodes removeScalingProc (fun _ _ _ _ => rfl) () a b doc).2 i l r n h
  obtain ⟨st2, h2⟩ := (free_nodes removeFractionProc (fun _ _ _ _ => rfl) () a b doc).2 i l r n h
  refine ⟨_, _, h1, h2, ?_, ?_⟩
  · intro ho
    have : inRange a b i l = false := by
      cases hw : inRange a b i l with
      | false => rfl
      | true =>
        obtain ⟨h1, h2⟩ := inRange_durable hw
        rcases ho with h | h
        · exact absurd h1 h
        · rw [h2] at h; cases h
    simp [this]
  · intro h1 h2 h3
    have hw : inRange a b i l = true := by simp [inRange, h1, h2, h3]
    simp only [hw, if_true, removeScalingProc, removeFractionProc, true_and]
    have : ∀ d : D, (if d.2.den = 1 then d else (d.1, 1)) =
        (d.1, if d.2 = (⌊d.2⌋ : ℚ) then d.2 else 1) := by
      intro d
      have hd : d.2 = (⌊d.2⌋ : ℚ) ↔ d.2.den = 1 := by
        constructor
        · intro h; rw [h]; exact Rat.den_intCast _
        · intro h
          have h' : d.2 = (d.2.num : ℚ) := (Rat.den_eq_one_iff d.2).1 h |>.symm
          rw [h', Int.floor_intCast]
      by_cases h : d.2.den = 1
      · rw [if_pos h, if_pos (hd.2 h)]
      · rw [if_neg h, if_neg (fun hh => h (hd.1 hh))]
    simp [this]

/-- `{ c4 d8 8 \skip 2 e8-. 8 }`: the `d` is followed by an unpitched note, the `e` has an
articulation. -/
def exStay : List Mus := [nt 0 (some (1/4, 1)), nt 1 (some (1/8, 1)),
  .node ⟨2, .unpitched, false, some (1/8, 1)⟩ [], sk 3 (1/2, 1),
  .node ⟨4, .sounding, true, some (1/8, 2/3)⟩ [], .node ⟨5, .unpitched, false, some (1/8, 1)⟩ []]

example : (allNodes (remove 0 6 exStay)).map (fun x => (x.1.id, x.1.dur)) =
    [(0, none), (1, some (1/8, 1)), (2, some (1/8, 1)), (3, some (1/2, 1)), (4, none),
     (5, some (1/8, 1))] := by decide +kernel

example : MustStay ⟨1, .sounding, false, some (1/8, 1)⟩ (some .unpitched) ∧
    ¬ MustStay ⟨4, .sounding, true, some (1/8, 2/3)⟩ (some .unpitched) := by
  constructor
  · exact .inr ⟨rfl, trivial⟩
  · rintro (h | ⟨h, -⟩) <;> cases h

/-! ## C48: copy and paste -/

theorem copy_seq (xs : List Site) (acc : List (Option D)) :
    (seq (freeQ copyProc) acc xs).1 =
      (xs.map (·.l.dur)).reverse ++ acc ∧
    (seq (freeQ copyProc) acc xs).2 = xs := by
  induction xs generalizing acc with
  | nil => exact ⟨rfl, rfl⟩
  | cons x xs ih =>
    have hx : freeQ copyProc acc x = (x.l.dur :: acc, x.l.dur) := rfl
    simp only [seq, hx]
    obtain ⟨h1, h2⟩ := ih (x.l.dur :: acc)
    refine ⟨by rw [h1]; simp, by rw [h2, set_self]⟩

/-- **C48**: `copy()` gives the durations of the durables in the range, in order. -/
theorem C48_copy (a b : ℕ) (doc : List Mus) :
    copy a b doc = (durables a b doc).map (·.1.dur) := by
  obtain ⟨xs, h1, h2, h3⟩ := free_durables copyProc (fun _ _ _ _ => rfl) (fun _ _ _ _ h => h) [] a b doc
  rw [copy, h3, h1, (copy_seq xs []).1]
  simp

/-- The new duration of the `k`-th durable. -/
theorem paste_seq (durs : List (Option D)) (cycle : Bool) (xs : List Site) :
    ∀ (n : ℕ) (prev : Option D),
    (∀ k, nthDuration durs cycle n = none → nthDuration durs cycle (n + k) = none) →
    (seq (freeQ (pasteProc durs cycle)) (n, prev) xs).2.length =
      xs.length ∧
    ∀ k s, xs[k]? = some s → ∃ d', (seq (freeQ (pasteProc durs cycle))
        (n, prev) xs).2[k]? = some (s.set d') ∧
      (nthDuration durs cycle (n + k) = none → d' = s.l.dur) ∧
      (∀ d, nthDuration durs cycle (n + k) = some (some d) → d' = some d) ∧
      (nthDuration durs cycle (n + k) = some none → mayRemove s.l s.right = true → d' = none) ∧
      (nthDuration durs cycle (n + k) = some none → mayRemove s.l s.right = false →
        d' = s.l.dur ∨ ∃ d, some d ∈ prev :: durs ∧ d' = some d) := by
  induction xs with
  | nil => intro n prev _; exact ⟨rfl, fun k s h => by simp at h⟩
  | cons x xs ih =>
    intro n prev hend
    have hmem : ∀ d, nthDuration durs cycle n = some (some d) → some d ∈ durs := by
      intro d h
      rw [nthDuration] at h
      split at h
      · exact List.mem_of_getElem? h
      · exact List.mem_of_getElem? h
    by_cases hn : nthDuration durs cycle n = none
    · -- no more durations
      have hx : freeQ (pasteProc durs cycle) (n, prev) x = ((n, prev), x.l.dur) := by
        simp [freeQ, pasteProc, hn]
      simp only [seq, hx]
      obtain ⟨h1, h2⟩ := ih n prev hend
      refine ⟨by simp [h1], ?_⟩
      intro k s hk
      have hnk := hend k hn
      cases k with
      | zero =>
        simp only [List.getElem?_cons_zero, Option.some.injEq] at hk ⊢
        subst hk
        refine ⟨_, rfl, fun _ => rfl, ?_, ?_, ?_⟩
        · intro d h; rw [hnk] at h; cases h
        · intro h; rw [hnk] at h; cases h
        · intro h; rw [hnk] at h; cases h
      | succ k =>
        simp only [List.getElem?_cons_succ] at hk ⊢
        obtain ⟨d', e1, e2, -⟩ := h2 k s hk
        refine ⟨d', e1, fun _ => e2 (hend k hn), ?_, ?_, ?_⟩
        · intro d h; rw [hnk] at h; cases h
        · intro h; rw [hnk] at h; cases h
        · intro h; rw [hnk] at h; cases h
    · obtain ⟨o, ho⟩ := Option.ne_none_iff_exists'.1 hn
      have hend' : ∀ k, nthDuration durs cycle (n + 1) = none →
          nthDuration durs cycle (n + 1 + k) = none := by
        intro k h
        rw [nthDuration] at h ⊢
        split at h
        · rename_i hc
          simp only [hc, if_true, List.getElem?_eq_none_iff] at h ⊢
          by_cases h0 : durs.length = 0
          · omega
          · have := Nat.mod_lt (n + 1) (Nat.pos_of_ne_zero h0)
            omega
        · rename_i hc
          simp only [hc, Bool.false_eq_true, if_false, List.getElem?_eq_none_iff] at h ⊢
          omega
      obtain ⟨prev', hx, hprev⟩ : ∃ prev', (freeQ (pasteProc durs cycle) (n, prev) x).1 =
          (n + 1, prev') ∧ ∀ d, some d ∈ prev' :: durs → some d ∈ prev :: durs := by
        cases o with
        | some d =>
          refine ⟨some d, by simp [freeQ, pasteProc, ho], ?_⟩
          intro d' hd'
          rcases List.mem_cons.1 hd' with h | h
          · cases h; exact List.mem_cons_of_mem _ (hmem d ho)
          · exact List.mem_cons_of_mem _ h
        | none =>
          refine ⟨prev, ?_, fun d h => h⟩
          simp only [freeQ, pasteProc, ho]
          split
          · rfl
          · cases prev <;> rfl
      simp only [seq, hx]
      obtain ⟨h1, h2⟩ := ih (n + 1) prev' hend'
      refine ⟨by simp [h1], ?_⟩
      intro k s hk
      cases k with
      | zero =>
        simp only [List.getElem?_cons_zero, Option.some.injEq] at hk ⊢
        subst hk
        refine ⟨_, rfl, fun h => absurd h hn, ?_, ?_, ?_⟩
        · intro d h
          simp only [Nat.add_zero] at h
          simp [freeQ, pasteProc, h]
        · intro h hm
          simp only [Nat.add_zero] at h
          simp [freeQ, pasteProc, h, hm]
        · intro h hm
          simp only [Nat.add_zero] at h
          simp only [freeQ, pasteProc, h, hm, Bool.false_eq_true, if_false]
          cases prev with
          | none => exact .inl rfl
          | some d => exact .inr ⟨d, by simp, rfl⟩
      | succ k =>
        simp only [List.getElem?_cons_succ] at hk ⊢
        obtain ⟨d', e1, e2, e3, e4, e5⟩ := h2 k s hk
        rw [show n + 1 + k = n + (k + 1) by omega] at e2 e3 e4 e5
        refine ⟨d', e1, e2, e3, e4, ?_⟩
        intro h hm
        rcases e5 h hm with h' | ⟨d, h1, h2⟩
        · exact .inl h'
        · exact .inr ⟨d, hprev d h1, h2⟩

theorem nth_end (durs : List (Option D)) (cycle : Bool) :
    ∀ k, nthDuration durs cycle 0 = none → nthDuration durs cycle (0 + k) = none := by
  intro k h
  rw [nthDuration] at h ⊢
  split at h
  · rename_i hc
    simp only [hc, if_true, List.getElem?_eq_none_iff] at h ⊢
    rw [Nat.zero_mod] at h
    have := Nat.zero_le ((0 + k) % durs.length)
    omega
  · rename_i hc
    simp only [hc, Bool.false_eq_true, if_false, List.getElem?_eq_none_iff] at h ⊢
    omega

/-- **C48**: what `paste()` does on the `k`-th durable of the range. With `cycle` it gets the
duration `durations[k % len(durations)]`, without `cycle` `durations[k]`, if there is one,
otherwise it is not changed. A None removes the duration if it may be removed; if not, the
duration stays or becomes one of the pasted durations. -/
theorem C48_paste (durs : List (Option D)) (cycle : Bool) (a b : ℕ) (doc : List Mus) :
    (durables a b (paste durs cycle a b doc)).length = (durables a b doc).length ∧
    ∀ k l r, (durables a b doc)[k]? = some (l, r) →
      ∃ d', (durables a b (paste durs cycle a b doc))[k]? = some ({ l with dur := d' }, r) ∧
        match (if cycle then durs[k % durs.length]? else durs[k]?) with
        | none => d' = l.dur
        | some (some d) => d' = some d
        | some none => (¬ MustStay l r → d' = none) ∧
            (MustStay l r → d' = l.dur ∨ ∃ d, some d ∈ durs ∧ d' = some d) := by
  obtain ⟨xs, h1, h2, h3⟩ := free_durables (pasteProc durs cycle) (fun _ _ _ _ => rfl)
    (by
      intro st r l hk hd
      simp only [pasteProc]
      split
      · exact hd
      · rfl
      · have : mayRemove l r = false := by simp [mayRemove, hk, Kind.required]
        simp only [this, Bool.false_eq_true, if_false]
        split
        · rfl
        · exact hd) (0, none) a b doc
  obtain ⟨p1, p2⟩ := paste_seq durs cycle xs 0 none (nth_end durs cycle)
  rw [paste, h2, h1]
  refine ⟨by simp [p1], ?_⟩
  intro k l r hk
  rw [List.getElem?_map, Option.map_eq_some_iff] at hk
  obtain ⟨s, hs, he⟩ := hk
  simp only [Prod.mk.injEq] at he
  obtain ⟨rfl, rfl⟩ := he
  obtain ⟨d', e1, e2, e3, e4, e5⟩ := p2 k s hs
  refine ⟨d', by rw [List.getElem?_map, e1]; rfl, ?_⟩
  rw [Nat.zero_add] at e2 e3 e4 e5
  have hnth : nthDuration durs cycle k = if cycle then durs[k % durs.length]? else durs[k]? := rfl
  rw [← hnth]
  split
  · rename_i h; exact e2 h
  · rename_i d h; exact e3 d h
  · rename_i h
    refine ⟨fun hm => e4 h ((mayRemove_iff _ _).2 hm), fun hm => ?_⟩
    have hm' : mayRemove s.l s.right = false := by
      cases hr : mayRemove s.l s.right with
      | false => rfl
      | true => exact absurd hm ((mayRemove_iff _ _).1 hr)
    rcases e5 h hm' with h' | ⟨d, h1, h2⟩
    · exact .inl h'
    · exact .inr ⟨d, by simpa using h1, h2⟩

/-- **C48**: pasting what was copied changes nothing, with and without `cycle`; if every durable
in the range without a duration could be read back from text (it is not directly followed by
something that shows only a duration). -/
theorem C48_paste_copy (cycle : Bool) (a b : ℕ) (doc : List Mus)
    (h : ∀ x ∈ durables a b doc, x.1.dur = none → ¬ MustStay x.1 x.2) :
    paste (copy a b doc) cycle a b doc = doc := by
  rw [C48_copy]
  have hdx : durables a b doc = (pick (inRange a b) 0 (flatL false [] doc)).map
      (fun s => (s.l, s.right)) := by
    rw [durables, allNodes, nodesL_flat doc false [], durables_pick]
  rw [paste, free_scan (pasteProc _ cycle) (fun _ _ _ _ => rfl)]
  simp only
  have key : ∀ (xs : List Site) (durs : List (Option D)) (n : ℕ) (prev : Option D) (i : ℕ),
      durs.drop n = (pick (inRange a b) i xs).map (·.l.dur) →
      (∀ s ∈ pick (inRange a b) i xs, s.l.dur = none → mayRemove s.l s.right = true) →
      (scan (freeQ (pasteProc durs cycle)) (inRange a b)
        (n, prev) i xs).2 = xs.map (·.l.dur) := by
    intro xs
    induction xs with
    | nil => intros; rfl
    | cons x xs ih =>
      intro durs n prev i hd hm
      simp only [scan, List.map_cons]
      by_cases hw : inRange a b i x.l = true
      · simp only [pick, hw, if_true, List.map_cons] at hd hm ⊢
        have hlt : n < durs.length := by
          by_contra hc
          rw [List.drop_of_length_le (by omega)] at hd
          cases hd
        have hn : durs[n]? = some x.l.dur := by
          have := congrArg (·[0]?) hd
          simpa [List.getElem?_drop] using this
        have hnth : nthDuration durs cycle n = some x.l.dur := by
          rw [nthDuration, Nat.mod_eq_of_lt hlt]
          simp [hn]
        have hd' : durs.drop (n + 1) = (pick (inRange a b) (i + 1) xs).map (·.l.dur) := by
          have := congrArg List.tail hd
          simpa [List.tail_drop] using this
        have hq : ∃ prev', freeQ (pasteProc durs cycle) (n, prev) x =
            ((n + 1, prev'), x.l.dur) := by
          simp only [freeQ, pasteProc, hnth]
          cases hdur : x.l.dur with
          | some d => exact ⟨some d, rfl⟩
          | none =>
            have := hm x (by simp) hdur
            simp only [this, if_true]
            exact ⟨prev, rfl⟩
        obtain ⟨prev', hq⟩ := hq
        rw [hq]
        simp only
        rw [ih durs (n + 1) prev' (i + 1) hd' fun s hs => hm s (by simp [hs])]
      · simp only [pick, hw, Bool.false_eq_true, if_false] at hd hm ⊢
        rw [ih durs n prev (i + 1) hd hm]
  rw [key (flatL false [] doc) _ 0 none 0 (by rw [List.drop_zero, hdx, List.map_map]; rfl) ?_,
    refillL_id]
  intro s hs hd
  rw [mayRemove_iff]
  exact h (s.l, s.right) (by rw [hdx]; exact List.mem_map.2 ⟨s, hs, rfl⟩) hd

/-- **C48**: the condition of `C48_paste_copy` is needed: in music (that can't be written as text)
with a note without duration before an unpitched note, the note gets a duration. -/
theorem C48_paste_copy_unreadable :
    let doc := [nt 0 (some (1/4, 1)), nt 1 none, .node ⟨2, .unpitched, false, some (1/8, 1)⟩ []]
    copy 0 3 doc = [some (1/4, 1), none, some (1/8, 1)] ∧
    copy 0 3 (paste (copy 0 3 doc) true 0 3 doc) = [some (1/4, 1), some (1/4, 1), some (1/8, 1)] := by
  decide +kernel

example : (∀ x ∈ durables 0 100 exDoc, x.1.dur = none → ¬ MustStay x.1 x.2) := by
  intro x hx hd
  rw [← mayRemove_iff]
  revert x
  decide +kernel

example : copy 0 100 (paste [some (1/2, 1/2), none, none] true 0 100 [ml 0 [nt 1 (some (1/4, 1)),
    nt 2 none, nt 3 none, nt 4 none, nt 5 none]]) =
    [some (1/2, 1/2), none, none, some (1/2, 1/2), none] := by decide +kernel

/-! ## C57: copying explicit durations -/

/-- The process of `copyExplicit`, on sites. -/
def copyExplicitQ : Option D × List D → Site → (Option D × List D) × Option D :=
  fun st s => copyExplicitProc st s.before s.right s.l

theorem copyExplicit_seq (xs : List Site) (h : ∀ s ∈ xs, s.l.kind.sets = true) :
    ∀ (prev : Option D) (acc : List D),
    (((seq copyExplicitQ (prev, acc) xs).1.2.reverse).map some : List (Option D)) =
      (acc.reverse.map some) ++ (seq explicitQ prev xs).2.map (·.l.dur) := by
  induction xs with
  | nil => intros; simp [seq]
  | cons x xs ih =>
    intro prev acc
    have hx := h x (by simp)
    have hstep : ∃ d, copyExplicitQ (prev, acc) x = ((some d, d :: acc), x.l.dur) ∧
        explicitQ prev x = (some d, some d) := by
      simp only [copyExplicitQ, copyExplicitProc, explicitQ, explicitProc]
      cases x.l.dur with
      | some d => exact ⟨d, rfl, by simp [hx]⟩
      | none =>
        cases prev with
        | some d => exact ⟨d, rfl, rfl⟩
        | none => exact ⟨_, rfl, rfl⟩
    obtain ⟨d, h1, h2⟩ := hstep
    simp only [seq, h1, h2]
    rw [ih (fun s hs => h s (by simp [hs]))]
    simp [Site.set]

/-- **C57**: `copy(music, explicit=True)` gives the durations that the durables have after
`explicit(music)`, if there is no `\skip` in the range. -/
theorem C57_copy_explicit_partial (a b : ℕ) (doc : List Mus)
    (h : ∀ x ∈ durables a b doc, x.1.kind ≠ .skip) :
    (copyExplicit a b doc).map some = copy a b (explicit a b doc) := by
  obtain ⟨h1, h2, -⟩ := edit_durables (fun st => st = none) explicit_p explicit_z
    explicit_skip none a b doc
  obtain ⟨-, -, h3⟩ := edit_durables (p := copyExplicitProc) (q := copyExplicitQ) (fun _ => True)
    (fun st b b' r n l hb => by rw [hb trivial]; rfl) (fun st s _ => ⟨trivial, rfl⟩)
    (fun st s _ hd => hd) (none, []) a b doc
  rw [C48_copy, explicit, h2, copyExplicit, h3, copyExplicit_seq _ ?_ none []]
  · simp
  · intro s hs
    have hm : (s.l, s.right) ∈ durables a b doc := by
      rw [h1]; exact List.mem_map.2 ⟨s, hs, rfl⟩
    have hd : s.l.kind.durable = true := by
      rw [durables, List.mem_filterMap] at hm
      obtain ⟨y, -, hy⟩ := hm
      split at hy
      · rename_i hd
        have : y.1 = s.l := congrArg Prod.fst (Option.some.inj hy)
        rw [← this]
        exact isDurable_durable hd
      · cases hy
    exact durable_sets hd (h _ hm)

/-- **C57** fails after a `\skip`: in `c4 \skip 2 d` the `d` is a quarter note (and `explicit()`
makes it one), but it is copied as a half note. -/
theorem C57_after_skip :
    let doc := [nt 0 (some (1/4, 1)), sk 1 (1/2, 1), nt 2 none]
    copyExplicit 0 3 doc = [(1/4, 1), (1/2, 1), (1/2, 1)] ∧
    copy 0 3 (explicit 0 3 doc) = [some (1/4, 1), some (1/2, 1), some (1/4, 1)] ∧
    durations doc = [(0, (1/4, 1)), (1, (1/2, 1)), (2, (1/4, 1))] := by decide +kernel

example : (∀ x ∈ durables 5 100 [ml 0 [nt 1 (some (1/8, 1)), sk 2 (1/2, 1), nt 3 none, nt 4 none,
    nt 5 none, nt 6 (some (1/2, 1)), nt 7 none]], x.1.kind ≠ .skip) ∧
    copyExplicit 5 100 [ml 0 [nt 1 (some (1/8, 1)), sk 2 (1/2, 1), nt 3 none, nt 4 none, nt 5 none,
      nt 6 (some (1/2, 1)), nt 7 none]] = [(1/8, 1), (1/2, 1), (1/2, 1)] := by decide +kernel

/-! ## C58: transforming rhythm -/

section
variable {t : Duration.Transform} {b : ℕ}

theorem transform_stuck {e : PyErr} :
    (∀ (m : Mus) (i : ℕ) (bf : List Label) (r : Option Kind) (w : ℕ → Label → Bool),
      (walk (transformProc t) w (some e) i bf r m).1 = some e) ∧
    (∀ (cs : List Mus) (i : ℕ) (bf : List Label) (w : ℕ → Label → Bool),
      (walkL (transformProc t) w (some e) i bf cs).1 = some e) := by
  have key : ∀ n, (∀ (m : Mus) (i : ℕ) (bf : List Label) (r : Option Kind) (w : ℕ → Label → Bool),
      (rev m).length < n → (walk (transformProc t) w (some e) i bf r m).1 = some e) ∧
    (∀ (cs : List Mus) (i : ℕ) (bf : List Label) (w : ℕ → Label → Bool),
      (revL cs).length < n → (walkL (transformProc t) w (some e) i bf cs).1 = some e) := by
    intro n
    induction n with
    | zero => exact ⟨fun _ _ _ _ _ h => by omega, fun _ _ _ _ h => by omega⟩
    | succ n ih =>
      have h1 : ∀ (m : Mus) (i : ℕ) (bf : List Label) (r : Option Kind) (w : ℕ → Label → Bool),
          (rev m).length < n + 1 → (walk (transformProc t) w (some e) i bf r m).1 = some e := by
        rintro ⟨l, cs⟩ i bf r w hl
        simp only [rev, List.length_cons] at hl
        have : ∀ x : Option PyErr × Option D, x = (if w i l then transformProc t (some e) bf r l
            else (some e, l.dur)) → x.1 = some e := by
          intro x hx
          rw [hx]
          split
          · cases hd : l.dur <;> simp [transformProc]
          · rfl
        simp only [walk]
        rw [this _ rfl]
        exact ih.2 cs _ _ _ (by omega)
      refine ⟨h1, ?_⟩
      intro cs
      induction cs with
      | nil => intros; rfl
      | cons c cs ihc =>
        intro i bf w hl
        simp only [revL, List.length_append] at hl
        simp only [walkL]
        rw [h1 c _ _ _ _ (by omega)]
        exact ihc _ _ _ (by omega)
  exact ⟨fun m i bf r w => (key _).1 m i bf r w (Nat.lt_succ_self _),
    fun cs i bf w => (key _).2 cs i bf w (Nat.lt_succ_self _)⟩

/-- The duration after the transform. -/
def Becomes (t : Duration.Transform) (d d' : D) : Prop := t.transform d.1 d.2 = .ok d'

mutual
theorem walk_transform : ∀ (m : Mus) (i : ℕ) (bf : List Label) (r : Option Kind) (p p' : D),
    i + (rev m).length ≤ b → Becomes t p p' →
    let x := walk (transformProc t) (fun i l => decide (0 ≤ i ∧ i < b) && l.kind.handles) none i bf r m
    x.1 = none → x.2.1 = i + (rev m).length ∧
      List.Forall₂ (fun y z => y.1 = z.1 ∧ Becomes t y.2 z.2) (heard p m).1 (heard p' x.2.2).1 ∧
      Becomes t (heard p m).2 (heard p' x.2.2).2
  | .node l cs, i, bf, r, p, p', hb, hp => by
    simp only [rev, List.length_cons] at hb
    simp only [walk]
    have hi : (decide (0 ≤ i ∧ i < b) && l.kind.handles) = l.kind.handles := by
      have : i < b := by omega
      simp [this]
    obtain ⟨x, hx⟩ : ∃ x, x = (if (decide (0 ≤ i ∧ i < b) && l.kind.handles) = true then
      transformProc t none bf r l else (none, l.dur)) := ⟨_, rfl⟩
    rw [← hx]
    rw [hi] at hx
    intro h
    have hnone : x.1 = none := by
      cases h1 : x.1 with
      | none => rfl
      | some e => rw [h1, transform_stuck.2] at h; cases h
    rw [hnone] at h ⊢
    obtain ⟨j1, j2, j3⟩ := walkL_transform cs (i + 1) bf p p' (by omega) hp h
    have hdur : l.kind.durable = true → (l.dur = none ∧ x.2 = none) ∨
        ∃ d d', l.dur = some d ∧ x.2 = some d' ∧ Becomes t d d' := by
      intro hk
      have hh : l.kind.handles = true := by
        revert hk; cases l.kind <;> simp [Kind.durable, Kind.handles]
      rw [hh] at hx
      simp only [if_true, transformProc] at hx
      cases hd : l.dur with
      | none => rw [hd] at hx; left; rw [hx]; exact ⟨rfl, rfl⟩
      | some d =>
        right
        rw [hd] at hx
        simp only at hx
        cases ht : t.transform d.1 d.2 with
        | error e => rw [ht] at hx; simp only at hx; rw [hx] at hnone; cases hnone
        | ok d' =>
          rw [ht] at hx
          have : l.kind ≠ .tempo := by intro h; rw [h] at hk; cases hk
          simp only [this, if_false] at hx
          exact ⟨d, d', rfl, by rw [hx], ht⟩
    refine ⟨by rw [j1, rev, List.length_cons]; omega, ?_⟩
    simp only [heard]
    by_cases hs : l.kind.sets = true
    · simp only [hs, if_true]
      have : Becomes t (l.dur.getD p) (x.2.getD p') := by
        rcases hdur (sets_durable hs) with ⟨h1, h2⟩ | ⟨d, d', h1, h2, h3⟩
        · rw [h1, h2]; exact hp
        · rw [h1, h2]; exact h3
      exact ⟨.cons ⟨rfl, this⟩ .nil, this⟩
    · simp only [hs, Bool.false_eq_true, if_false]
      refine ⟨?_, j3⟩
      split
      · rename_i hk
        rcases hdur (by rw [hk]; rfl) with ⟨h1, h2⟩ | ⟨d, d', h1, h2, h3⟩
        · rw [h1, h2]; exact j2
        · rw [h1, h2]; exact .cons ⟨rfl, h3⟩ j2
      · exact j2
theorem walkL_transform : ∀ (cs : List Mus) (i : ℕ) (bf : List Label) (p p' : D),
    i + (revL cs).length ≤ b → Becomes t p p' →
    let x := walkL (transformProc t) (fun i l => decide (0 ≤ i ∧ i < b) && l.kind.handles) none i bf cs
    x.1 = none → x.2.1 = i + (revL cs).length ∧
      List.Forall₂ (fun y z => y.1 = z.1 ∧ Becomes t y.2 z.2) (heardL p cs).1 (heardL p' x.2.2).1 ∧
      Becomes t (heardL p cs).2 (heardL p' x.2.2).2
  | [], i, bf, p, p', hb, hp => fun _ => ⟨rfl, .nil, hp⟩
  | c :: cs, i, bf, p, p', hb, hp => by
    simp only [revL, List.length_append] at hb
    simp only [walkL]
    obtain ⟨x, hx⟩ : ∃ x, x = walk (transformProc t) (fun i l => decide (0 ≤ i ∧ i < b) &&
      l.kind.handles) none i bf (cs.head?.map (·.label.kind)) c := ⟨_, rfl⟩
    rw [← hx]
    intro h
    have hnone : x.1 = none := by
      cases h1 : x.1 with
      | none => rfl
      | some e => rw [h1, transform_stuck.2] at h; cases h
    have hc := walk_transform c i bf (cs.head?.map (·.label.kind)) p p' (by omega) hp
    simp only [← hx] at hc
    obtain ⟨i1, i2, i3⟩ := hc hnone
    rw [hnone] at h ⊢
    obtain ⟨j1, j2, j3⟩ := walkL_transform cs x.2.1 (rev x.2.2 ++ bf) _ _ (by omega) i3 h
    refine ⟨by rw [j1, i1, revL, List.length_append]; omega, ?_, j3⟩
    simp only [heardL]
    exact List.rel_append i2 j2
end
end

/-- **C58**: `transform()` on a whole document changes the duration of every durable as the
Transform says, also of those that have no duration of their own, provided that the duration that
is assumed at the start (a quarter note) is transformed as well. -/
theorem C58_transform_partial (t : Duration.Transform) (b : ℕ) (doc doc' : List Mus)
    (hb : (allNodes doc).length ≤ b) (start : D) (hs : t.transform (1/4) 1 = .ok start)
    (h : transform t 0 b doc = (none, doc')) :
    List.Forall₂ (fun x y => x.1 = y.1 ∧ t.transform x.2.1 x.2.2 = .ok y.2)
      (durations doc) (heardL start doc').1 := by
  have hlen : (revL doc).length ≤ b := by
    rw [allNodes, nodesL_flat doc false [], List.length_map, flatL_length] at hb
    exact hb
  have hw := walkL_transform (t := t) (b := b) doc 0 [] (1/4, 1) start (by omega) hs
  simp only [transform] at h
  simp only at hw
  have h1 := congrArg Prod.fst h
  have h2 := congrArg Prod.snd h
  simp only at h1 h2
  rw [← h2]
  exact (hw h1).2.1

/-- **C58**: the notes before the first duration are not transformed: `c d8 e` with the durations
doubled is `c d4 e`. -/
theorem C58_initial_not_transformed :
    let doc := [nt 0 none, nt 1 (some (1/8, 1)), nt 2 none]
    (transform { log := -1 } 0 3 doc).1 = none ∧
    durations doc = [(0, (1/4, 1)), (1, (1/8, 1)), (2, (1/8, 1))] ∧
    durations (transform { log := -1 } 0 3 doc).2 = [(0, (1/4, 1)), (1, (1/4, 1)), (2, (1/4, 1))] := by
  decide +kernel

/-! ## C46: duration_getter -/

mutual
/-- Inside a durable that has no duration there are no durations. -/
def quiet : Mus → Prop
  | .node l cs => (l.kind.sets = true → l.dur = none → ∀ x ∈ revL cs, x.kind.sets = true →
      x.dur = none) ∧ quietL cs
/-- The same for a list of nodes. -/
def quietL : List Mus → Prop
  | [] => True
  | c :: cs => quiet c ∧ quietL cs
end

/-- Every preceding durable without duration has the same preceding duration, where `f` gives
the preceding duration of a node. -/
def Good (f : ℕ → D) (before : List Label) : Prop :=
  ∀ xs l rest, before = xs ++ l :: rest → l.kind.sets = true → l.dur = none →
    f l.id = previousDuration rest

theorem good_tail {f : ℕ → D} {l : Label} {b : List Label} (h : Good f (l :: b)) : Good f b := by
  intro xs l' rest he
  exact h (l :: xs) l' rest (by rw [he]; rfl)

theorem good_append {f : ℕ → D} {xs b : List Label} (h : Good f b)
    (hx : ∀ ys l rest, xs = ys ++ l :: rest → l.kind.sets = true → l.dur = none →
      f l.id = previousDuration (rest ++ b)) : Good f (xs ++ b) := by
  induction xs with
  | nil => exact h
  | cons x xs ih =>
    have ih' := ih fun ys l rest he => hx (x :: ys) l rest (by rw [he]; rfl)
    intro ys l rest he hs hd
    cases ys with
    | nil =>
      simp only [List.cons_append, List.nil_append, List.cons.injEq] at he
      obtain ⟨rfl, rfl⟩ := he
      exact hx [] x xs rfl hs hd
    | cons y ys =>
      simp only [List.cons_append, List.cons.injEq] at he
      exact ih' ys l rest he.2 hs hd

theorem previousDuration_quiet (xs b : List Label)
    (h : ∀ l ∈ xs, l.kind.sets = true → l.dur = none) :
    previousDuration (xs ++ b) = previousDuration b := by
  induction xs with
  | nil => rfl
  | cons x xs ih =>
    have ih' := ih fun l hl => h l (by simp [hl])
    simp only [List.cons_append, previousDuration]
    split
    · rename_i hs
      simp only [Bool.and_eq_true] at hs
      rw [h x (by simp) hs.2]
      exact ih'
    · exact ih'

mutual
theorem good_rev (f : ℕ → D) : ∀ (m : Mus) (b : List Label), quiet m → Good f b →
    (∀ s ∈ sites b m, f s.1.id = previousDuration s.2) →
    Good f (rev m ++ b) ∧ ∀ s ∈ sites b m, Good f s.2
  | .node l cs, b, hq, hb, hf => by
    obtain ⟨h1, h2⟩ := good_revL f cs b hq.2 hb fun s hs => hf s (by simp [sites, hs])
    constructor
    · intro xs l' rest he hs hd
      cases xs with
      | nil =>
        simp only [rev, List.cons_append, List.nil_append, List.cons.injEq] at he
        obtain ⟨rfl, rfl⟩ := he
        rw [previousDuration_quiet _ _ (hq.1 hs hd)]
        exact hf (l, b) (by simp [sites])
      | cons x xs =>
        simp only [rev, List.cons_append, List.cons.injEq] at he
        exact h1 xs l' rest he.2 hs hd
    · intro s hs
      simp only [sites, List.mem_cons] at hs
      rcases hs with rfl | hs
      · exact hb
      · exact h2 s hs
theorem good_revL (f : ℕ → D) : ∀ (cs : List Mus) (b : List Label), quietL cs → Good f b →
    (∀ s ∈ sitesL b cs, f s.1.id = previousDuration s.2) →
    Good f (revL cs ++ b) ∧ ∀ s ∈ sitesL b cs, Good f s.2
  | [], b, _, hb, _ => ⟨hb, by simp [sitesL]⟩
  | c :: cs, b, hq, hb, hf => by
    obtain ⟨i1, i2⟩ := good_rev f c b hq.1 hb fun s hs => hf s (by simp [sitesL, hs])
    obtain ⟨j1, j2⟩ := good_revL f cs (rev c ++ b) hq.2 i1 fun s hs => hf s (by simp [sitesL, hs])
    refine ⟨by rw [revL, List.append_assoc]; exact j1, ?_⟩
    intro s hs
    simp only [sitesL, List.mem_append] at hs
    rcases hs with hs | hs
    · exact i2 s hs
    · exact j2 s hs
end

theorem getterSearch_spec (f : ℕ → D) (g : Getter) (hg : ∀ i ∈ g.durables, f i = g.duration)
    (before : List Label) : ∀ (new : List ℕ), Good f before →
    (∀ i ∈ new, f i = previousDuration before) →
    (getterSearch g new before).2 = previousDuration before ∧
    ∀ i ∈ (getterSearch g new before).1.durables, f i = (getterSearch g new before).1.duration := by
  induction before with
  | nil => intro new _ hn; exact ⟨rfl, hn⟩
  | cons l before ih =>
    intro new hgood hn
    have hg' := good_tail hgood
    rw [getterSearch]
    simp only [previousDuration] at hn ⊢
    split
    · rename_i hs
      simp only [hs, if_true] at hn
      have hsets : l.kind.sets = true := by
        simp only [Bool.and_eq_true] at hs; exact hs.2
      cases hd : l.dur with
      | some d =>
        rw [hd] at hn
        exact ⟨rfl, hn⟩
      | none =>
        rw [hd] at hn
        simp only at hn ⊢
        have hl := hgood [] l before rfl hsets hd
        split
        · rename_i hm
          have : g.duration = previousDuration before := (hg _ hm).symm.trans hl
          refine ⟨this, ?_⟩
          intro i hi
          rcases List.mem_append.1 hi with h | h
          · exact hg i h
          · exact (hn i h).trans this.symm
        · refine ih _ hg' ?_
          intro i hi
          rcases List.mem_cons.1 hi with rfl | h
          · exact hl
          · exact hn i h
    · rename_i hs
      simp only [hs, if_false] at hn
      exact ih _ hg' hn

/-- **C46**: a getter gives for every durable its own duration, or else what `previous_duration()`
gives, whatever the order in which it is asked, and however many times; in music where a durable
that has no duration does not contain durations (see `C46_wrong`). -/
theorem C46_getter_partial (doc : List Mus)
    (hid : ∀ s ∈ sitesL [] doc, ∀ s' ∈ sitesL [] doc, s.1.id = s'.1.id → s = s')
    (hq : quietL doc) (queries : List (Label × List Label))
    (h : ∀ s ∈ queries, s ∈ sitesL [] doc) :
    Getter.new.run queries = queries.map fun s => s.1.dur.getD (previousDuration s.2) := by
  classical
  obtain ⟨f, hf⟩ : ∃ f : ℕ → D, ∀ s ∈ sitesL [] doc, f s.1.id = previousDuration s.2 := by
    refine ⟨fun i => if hx : ∃ s ∈ sitesL [] doc, s.1.id = i then previousDuration hx.choose.2
      else (1/4, 1), ?_⟩
    intro s hs
    have hx : ∃ s' ∈ sitesL [] doc, s'.1.id = s.1.id := ⟨s, hs, rfl⟩
    simp only [hx, dif_pos]
    rw [hid _ hx.choose_spec.1 s hs hx.choose_spec.2]
  have hgood := (good_revL f doc [] hq (by intro xs l rest he; simp at he) hf).2
  have key : ∀ (queries : List (Label × List Label)) (g : Getter),
      (∀ i ∈ g.durables, f i = g.duration) → (∀ s ∈ queries, s ∈ sitesL [] doc) →
      g.run queries = queries.map fun s => s.1.dur.getD (previousDuration s.2) := by
    intro queries
    induction queries with
    | nil => intros; rfl
    | cons s queries ih =>
      intro g hg hm
      obtain ⟨l, before⟩ := s
      have hs := hm _ (List.mem_cons_self)
      have hstep : (g.get l before).2 = l.dur.getD (previousDuration before) ∧
          ∀ i ∈ (g.get l before).1.durables, f i = (g.get l before).1.duration := by
        rw [Getter.get]
        cases hd : l.dur with
        | some d => exact ⟨rfl, hg⟩
        | none =>
          simp only
          have hl : f l.id = previousDuration before := hf _ hs
          split
          · rename_i hmem
            exact ⟨(hg _ hmem).symm.trans hl, hg⟩
          · exact getterSearch_spec f g hg before [l.id] (hgood _ hs) (by simpa using hl)
      simp only [Getter.run, List.map_cons, hstep.1]
      rw [ih _ hstep.2 fun s hs => hm s (by simp [hs])]
  exact key queries Getter.new (by simp [Getter.new]) h

/-- **C46** fails without that condition: in `c^\markup \score { d8 } e`, a getter
tells that both are quarter notes when asked for `c` first, and that both are eighth notes when
asked for `e` first. -/
theorem C46_wrong :
    let doc := [Mus.node ⟨0, .sounding, true, none⟩ [nt 1 (some (1/8, 1))], nt 2 none]
    let c : Label × List Label := (⟨0, .sounding, true, none⟩, [])
    let e : Label × List Label := (⟨2, .sounding, false, none⟩,
      [⟨0, .sounding, true, none⟩, ⟨1, .sounding, false, some (1/8, 1)⟩])
    sitesL [] doc = [c, (⟨1, .sounding, false, some (1/8, 1)⟩, []), e] ∧
    Getter.new.run [c, e] = [(1/4, 1), (1/4, 1)] ∧ Getter.new.run [e, c] = [(1/8, 1), (1/8, 1)] ∧
    previousDuration c.2 = (1/4, 1) ∧ previousDuration e.2 = (1/8, 1) := by
  decide +kernel

example : quietL exDoc ∧ (∀ s ∈ sitesL [] exDoc, ∀ s' ∈ sitesL [] exDoc, s.1.id = s'.1.id → s = s') ∧
    Getter.new.run (sitesL [] exDoc).reverse ≠ Getter.new.run (sitesL [] exDoc) := by
  refine ⟨?_, by decide +kernel, by decide +kernel⟩
  simp [exDoc, ml, nt, ch, sk, quietL, quiet, revL, rev, Kind.sets]

end Quickly.Rhythm
