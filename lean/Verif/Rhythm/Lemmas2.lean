import Verif.Rhythm.Lemmas

/-! # Lemmas: the operations on the list of nodes -/

namespace Quickly.Rhythm

open Spec

theorem sets_durable {k : Kind} (h : k.sets = true) : k.durable = true := by
  cases k <;> simp_all [Kind.sets, Kind.durable]

theorem sets_isDurable {l : Label} (h : l.kind.sets = true) : l.isDurable = true := by
  have : l.kind ≠ .skip := by intro hk; rw [hk] at h; cases h
  simp [Label.isDurable, sets_durable h, this]

theorem isDurable_durable {l : Label} (h : l.isDurable = true) : l.kind.durable = true := by
  simp only [Label.isDurable, Bool.and_eq_true] at h
  exact h.1

theorem durable_sets {k : Kind} (h : k.durable = true) (hs : k ≠ .skip) : k.sets = true := by
  cases k <;> simp_all [Kind.sets, Kind.durable]

theorem mayRemove_sets {l : Label} {r} (h : mayRemove l r = true) (hd : l.kind.durable = true) :
    l.kind.sets = true := by
  apply durable_sets hd
  intro hk
  simp [mayRemove, hk, Kind.required] at h

theorem mayRemove_iff (l : Label) (r : Option Kind) : mayRemove l r = true ↔ ¬ MustStay l r := by
  rw [mayRemove.eq_def, MustStay]
  by_cases hr : l.kind.required = true
  · simp [hr]
  · by_cases ha : l.art = true
    · simp [hr, ha]
    · simp only [hr, ha, if_false, Bool.false_eq_true, false_or, not_and]
      cases r with
      | none => simp [OnlyDuration]
      | some k => cases k <;> simp [OnlyDuration, Kind.required]

theorem inRange_durable {a b i : ℕ} {l : Label} (h : inRange a b i l = true) :
    (a ≤ i ∧ i < b) ∧ l.isDurable = true := by
  simpa [inRange] using h

/-- The condition of `StartsOutside`, and that a node inside a durable follows on one that is
inside a durable, or on the durable itself. -/
def Linked (prev : Bool) : List Site → Prop
  | [] => True
  | s :: ss => (s.inside = true → prev = true) ∧ Linked (s.inside || s.l.kind.sets) ss

/-- The flag after a list. -/
def lastFlag (prev : Bool) : List Site → Bool
  | [] => prev
  | s :: ss => lastFlag (s.inside || s.l.kind.sets) ss

theorem linked_append (prev : Bool) (xs ys : List Site) :
    Linked prev (xs ++ ys) ↔ Linked prev xs ∧ Linked (lastFlag prev xs) ys := by
  induction xs generalizing prev with
  | nil => simp [Linked, lastFlag]
  | cons x xs ih => simp [Linked, lastFlag, ih, and_assoc]

theorem lastFlag_inside (xs : List Site) (h : ∀ s ∈ xs, s.inside = true) :
    lastFlag true xs = true := by
  induction xs with
  | nil => rfl
  | cons x xs ih =>
    rw [lastFlag, h x (by simp), Bool.true_or]
    exact ih fun s hs => h s (by simp [hs])

mutual
theorem linked_flat : ∀ (m : Mus) (prev n : Bool) (r b), (n = true → prev = true) →
    Linked prev (flat n r b m)
  | .node l cs, prev, n, r, b, h => by
    refine ⟨h, ?_⟩
    exact linkedL_flat cs _ _ b fun h => h
theorem linkedL_flat : ∀ (cs : List Mus) (prev n : Bool) (b), (n = true → prev = true) →
    Linked prev (flatL n b cs)
  | [], _, _, _, _ => trivial
  | c :: cs, prev, n, b, h => by
    rw [flatL, linked_append]
    refine ⟨linked_flat c prev n _ b h, linkedL_flat cs _ n _ ?_⟩
    intro hn
    subst hn
    rw [h rfl]
    exact lastFlag_inside _ (flat_inside c _ b)
end

/-- `explicit` on the list of nodes. -/
def explicitQ (prev : Option D) (s : Site) : Option D × Option D :=
  explicitProc prev s.before s.right s.l

/-- `explicit` on the list of nodes keeps what is heard. -/
theorem explicit_heard (a b : ℕ) (xs : List Site) : ∀ (p : D) (st : Option D) (i : ℕ) (prev : Bool),
    PlainF xs → Threads p xs → Linked prev xs →
    (∀ k s, xs[k]? = some s → i + k = a → s.inside = false) →
    (i < b → (i ≤ a → st = none) ∧ (st = none ∨ st = some p) ∧
      (a < i → prev = true → st ≠ none)) →
    heardF p (List.zipWith Site.set xs (scan explicitQ (inRange a b) st i xs).2) =
      heardF p xs := by
  induction xs with
  | nil => intros; rfl
  | cons x xs ih =>
    intro p st i prev hpl hth hli ha hinv
    obtain ⟨ht1, ht2⟩ := hth
    obtain ⟨hl1, hl2⟩ := hli
    have hpl' : PlainF xs := fun s hs => hpl s (by simp [hs])
    have ha' : ∀ k s, xs[k]? = some s → i + 1 + k = a → s.inside = false := fun k s hk he =>
      ha (k + 1) s (by simpa using hk) (by omega)
    simp only [scan, List.zipWith_cons_cons]
    by_cases hw : inRange a b i x.l = true
    · obtain ⟨⟨hai, hib⟩, hdur⟩ := inRange_durable hw
      obtain ⟨hst1, hst2, hst3⟩ := hinv hib
      simp only [hw, if_true]
      by_cases hin : x.inside = true
      · -- inside another durable
        have hne : i ≠ a := by
          intro hia
          have := ha 0 x rfl (by omega)
          rw [hin] at this; cases this
        have hnone := hpl x (by simp) hin (isDurable_durable hdur)
        have hst : st = some p := by
          rcases hst2 with h | h
          · exact absurd h (hst3 (by omega) (hl1 hin))
          · exact h
        have hq : explicitQ st x = (some p, some p) := by
          simp [explicitQ, explicitProc, hnone, hst]
        rw [hq]
        have hh : (heardF p [x]).2 = p := by simp [heardF, hin]
        rw [hh] at ht2
        have hin' : (x.set (some p)).inside = true := hin
        rw [heardF, if_pos hin', heardF, if_pos hin]
        refine ih p (some p) (i + 1) _ hpl' ht2 hl2 ha' ?_
        intro _
        exact ⟨by omega, .inr rfl, fun _ _ => by simp⟩
      · have hin0 : x.inside = false := by simpa using hin
        by_cases hs : x.l.kind.sets = true
        · have hh : (heardF p [x]).2 = x.l.dur.getD p := by simp [heardF, hin0, hs]
          rw [hh] at ht2
          have hq : explicitQ st x = (some (x.l.dur.getD p), some (x.l.dur.getD p)) := by
            cases hd : x.l.dur with
            | some d => simp [explicitQ, explicitProc, hd, hs]
            | none =>
              rcases hst2 with h | h
              · simp [explicitQ, explicitProc, hd, h, ht1 hin0]
              · simp [explicitQ, explicitProc, hd, h]
          rw [hq]
          have hin' : (x.set (some (x.l.dur.getD p))).inside = false := hin0
          have hs' : (x.set (some (x.l.dur.getD p))).l.kind.sets = true := hs
          have hdd : (x.set (some (x.l.dur.getD p))).l.dur.getD p = x.l.dur.getD p := rfl
          have hid : (x.set (some (x.l.dur.getD p))).l.id = x.l.id := rfl
          rw [heardF, heardF]
          simp only [hin0, hin', hs, hs', hdd, hid, Bool.false_eq_true, if_false, if_true]
          rw [ih (x.l.dur.getD p) (some (x.l.dur.getD p)) (i + 1) _ hpl' ht2 hl2 ha'
            (fun _ => ⟨by omega, .inr rfl, fun _ _ => by simp⟩)]
        · -- a skip
          have hs0 : x.l.kind.sets = false := by simpa using hs
          have hk : x.l.kind = .skip := by
            by_contra hk
            exact hs (durable_sets (isDurable_durable hdur) hk)
          have hsome : ∃ d, x.l.dur = some d := by
            cases hd : x.l.dur with
            | some d => exact ⟨d, rfl⟩
            | none => simp [Label.isDurable, hk, hd] at hdur
          obtain ⟨d, hd⟩ := hsome
          have hq : explicitQ st x = (st, some d) := by simp [explicitQ, explicitProc, hd, hs0]
          rw [hq]
          have hset : x.set (some d) = x := by rw [← hd]; exact set_self x
          rw [hset, heardF, heardF]
          have hh : (heardF p [x]).2 = p := by simp [heardF, hin0, hs0]
          rw [hh] at ht2
          simp only [hin0, hs0, Bool.false_eq_true, if_false]
          rw [ih p st (i + 1) _ hpl' ht2 hl2 ha' ?_]
          intro _
          refine ⟨by omega, hst2, ?_⟩
          intro _ hf
          simp [hin0, hs0] at hf
    · have hw0 : inRange a b i x.l = false := by simpa using hw
      simp only [hw0, Bool.false_eq_true, if_false]
      rw [set_self, heardF, heardF]
      have hout : x.l.isDurable = true → ¬(a ≤ i ∧ i < b) := by
        intro hd hab
        simp [inRange, hd, hab.1, hab.2] at hw0
      by_cases hin : x.inside = true
      · have hh : (heardF p [x]).2 = p := by simp [heardF, hin]
        rw [hh] at ht2
        simp only [hin, if_true]
        refine ih p st (i + 1) _ hpl' ht2 hl2 ha' ?_
        intro hib
        obtain ⟨h1, h2, h3⟩ := hinv (by omega)
        refine ⟨fun h => h1 (by omega), h2, ?_⟩
        intro hai _
        by_cases hia : i = a
        · have := ha 0 x rfl (by omega)
          rw [hin] at this; cases this
        · exact h3 (by omega) (hl1 hin)
      · have hin0 : x.inside = false := by simpa using hin
        simp only [hin0, Bool.false_eq_true, if_false]
        by_cases hs : x.l.kind.sets = true
        · have hh : (heardF p [x]).2 = x.l.dur.getD p := by simp [heardF, hin0, hs]
          rw [hh] at ht2
          have hab := hout (sets_isDurable hs)
          simp only [hs, if_true]
          rw [ih (x.l.dur.getD p) st (i + 1) _ hpl' ht2 hl2 ha' ?_]
          intro hib
          obtain ⟨h1, h2, h3⟩ := hinv (by omega)
          have : st = none := h1 (by omega)
          exact ⟨fun _ => this, .inl this, by omega⟩
        · have hs0 : x.l.kind.sets = false := by simpa using hs
          have hh : (heardF p [x]).2 = p := by simp [heardF, hin0, hs0]
          rw [hh] at ht2
          simp only [hs0, Bool.false_eq_true, if_false]
          rw [ih p st (i + 1) _ hpl' ht2 hl2 ha' ?_]
          intro hib
          obtain ⟨h1, h2, h3⟩ := hinv (by omega)
          refine ⟨fun h => h1 (by omega), h2, ?_⟩
          intro _ hf
          simp [hin0, hs0] at hf

/-- A process that leaves a durable with the duration that it is heard with, and keeps track of
the current duration (in `cur st`), keeps what is heard. -/
theorem tracked_heard {σ : Type} (q : σ → Site → σ × Option D) (cur : σ → Option D) (a b : ℕ)
    (hq : ∀ st s p, (cur st = none ∨ cur st = some p) → s.l.isDurable = true →
      s.inside = false →
      (q st s).2.getD p = s.l.dur.getD p ∧
      (s.l.kind = .skip → (q st s).2 = s.l.dur) ∧
      (if s.l.kind.sets then cur (q st s).1 = none ∨ cur (q st s).1 = some (s.l.dur.getD p)
        else cur (q st s).1 = cur st))
    (hin : ∀ st s, s.l.isDurable = true → s.inside = true → s.l.dur = none →
      cur (q st s).1 = cur st) (xs : List Site) :
    ∀ (p : D) (st : σ) (i : ℕ), PlainF xs →
    (i < b → (i ≤ a → cur st = none) ∧ (cur st = none ∨ cur st = some p)) →
    heardF p (List.zipWith Site.set xs (scan q (inRange a b) st i xs).2) = heardF p xs := by
  induction xs with
  | nil => intros; rfl
  | cons x xs ih =>
    intro p st i hpl hinv
    have hpl' : PlainF xs := fun s hs => hpl s (by simp [hs])
    simp only [scan, List.zipWith_cons_cons]
    by_cases hw : inRange a b i x.l = true
    · obtain ⟨⟨hai, hib⟩, hdur⟩ := inRange_durable hw
      obtain ⟨hst1, hst2⟩ := hinv hib
      simp only [hw, if_true]
      rw [heardF, heardF]
      have hin' : (x.set (q st x).2).inside = x.inside := rfl
      have hk' : (x.set (q st x).2).l.kind = x.l.kind := rfl
      have hid : (x.set (q st x).2).l.id = x.l.id := rfl
      have hd' : (x.set (q st x).2).l.dur = (q st x).2 := rfl
      rw [hin', hk', hid, hd']
      by_cases hi : x.inside = true
      · simp only [hi, if_true]
        have := hin st x hdur hi (hpl x (by simp) hi (isDurable_durable hdur))
        refine ih p _ (i + 1) hpl' ?_
        intro _
        rw [this]
        exact ⟨by omega, hst2⟩
      · have hi0 : x.inside = false := by simpa using hi
        obtain ⟨h1, h2, h3⟩ := hq st x p hst2 hdur hi0
        simp only [hi0, Bool.false_eq_true, if_false, h1]
        by_cases hs : x.l.kind.sets = true
        · simp only [hs, if_true] at h3 ⊢
          rw [ih (x.l.dur.getD p) _ (i + 1) hpl' fun _ => ⟨by omega, h3⟩]
        · have hs0 : x.l.kind.sets = false := by simpa using hs
          simp only [hs0, Bool.false_eq_true, if_false] at h3 ⊢
          have hk : x.l.kind = .skip := by
            by_contra hk
            exact hs (durable_sets (isDurable_durable hdur) hk)
          rw [h2 hk]
          rw [ih p _ (i + 1) hpl' fun _ => ⟨by omega, by rw [h3]; exact hst2⟩]
    · have hw0 : inRange a b i x.l = false := by simpa using hw
      simp only [hw0, Bool.false_eq_true, if_false]
      rw [set_self, heardF, heardF]
      by_cases hi : x.inside = true
      · simp only [hi, if_true]
        refine ih p _ (i + 1) hpl' ?_
        intro hib
        obtain ⟨h1, h2⟩ := hinv (by omega)
        exact ⟨fun h => h1 (by omega), h2⟩
      · have hi0 : x.inside = false := by simpa using hi
        simp only [hi0, Bool.false_eq_true, if_false]
        by_cases hs : x.l.kind.sets = true
        · have hab : ¬(a ≤ i ∧ i < b) := by
            intro hab
            simp [inRange, sets_isDurable hs, hab.1, hab.2] at hw0
          simp only [hs, if_true]
          rw [ih (x.l.dur.getD p) _ (i + 1) hpl' ?_]
          intro hib
          obtain ⟨h1, h2⟩ := hinv (by omega)
          have : cur st = none := h1 (by omega)
          exact ⟨fun _ => this, .inl this⟩
        · have hs0 : x.l.kind.sets = false := by simpa using hs
          simp only [hs0, Bool.false_eq_true, if_false]
          rw [ih p _ (i + 1) hpl' ?_]
          intro hib
          obtain ⟨h1, h2⟩ := hinv (by omega)
          exact ⟨fun h => h1 (by omega), h2⟩

/-! ## The durables in the range -/

/-- The nodes for which the process is called. -/
def pick (which : ℕ → Label → Bool) : ℕ → List Site → List Site
  | _, [] => []
  | i, s :: ss => if which i s.l then s :: pick which (i + 1) ss else pick which (i + 1) ss

/-- The work on these nodes. -/
def seq {σ : Type} (q : σ → Site → σ × Option D) : σ → List Site → σ × List Site
  | st, [] => (st, [])
  | st, s :: ss => ((seq q (q st s).1 ss).1, s.set (q st s).2 :: (seq q (q st s).1 ss).2)

theorem scan_seq {σ : Type} (q : σ → Site → σ × Option D) (which : ℕ → Label → Bool)
    (hw : ∀ st (s : Site) i, which i s.l = true → which i (s.set (q st s).2).l = true)
    (xs : List Site) : ∀ (st : σ) (i : ℕ),
    pick which i (List.zipWith Site.set xs (scan q which st i xs).2) =
      (seq q st (pick which i xs)).2 ∧
    (scan q which st i xs).1 = (seq q st (pick which i xs)).1 := by
  induction xs with
  | nil => intros; exact ⟨rfl, rfl⟩
  | cons x xs ih =>
    intro st i
    simp only [scan, List.zipWith_cons_cons, pick]
    by_cases h : which i x.l = true
    · simp only [h, if_true, hw st x i h, seq]
      exact ⟨by rw [(ih _ _).1], (ih _ _).2⟩
    · simp only [h, Bool.false_eq_true, if_false, set_self]
      exact ih _ _

theorem pick_outside (a b : ℕ) (xs : List Site) : ∀ i, b ≤ i → pick (inRange a b) i xs = [] := by
  induction xs with
  | nil => intros; rfl
  | cons x xs ih =>
    intro i h
    have : inRange a b i x.l = false := by simp [inRange]; omega
    simp only [pick, this, Bool.false_eq_true, if_false]
    exact ih _ (by omega)

theorem pick_range (a b : ℕ) (xs : List Site) : ∀ i, pick (inRange a b) i xs =
    ((xs.take (b - i)).drop (a - i)).filter (·.l.isDurable) := by
  induction xs with
  | nil => intros; simp [pick]
  | cons x xs ih =>
    intro i
    by_cases hb : b ≤ i
    · rw [pick_outside a b _ i hb, show b - i = 0 by omega]; simp
    · obtain ⟨k, hk⟩ : ∃ k, b - i = k + 1 := ⟨b - i - 1, by omega⟩
      have hk' : b - (i + 1) = k := by omega
      rw [hk, List.take_succ_cons, pick, ih (i + 1), hk']
      by_cases ha : a ≤ i
      · rw [show a - i = 0 by omega, show a - (i + 1) = 0 by omega, List.drop_zero, List.drop_zero,
          List.filter_cons]
        have : inRange a b i x.l = x.l.isDurable := by
          simp [inRange, ha]; omega
        rw [this]
      · obtain ⟨j, hj⟩ : ∃ j, a - i = j + 1 := ⟨a - i - 1, by omega⟩
        rw [hj, List.drop_succ_cons, show a - (i + 1) = j by omega]
        have : inRange a b i x.l = false := by simp [inRange]; omega
        rw [this]
        simp

theorem filterMap_filter {α β : Type} (c : α → Bool) (f : α → β) (l : List α) :
    l.filterMap (fun x => if c x = true then some (f x) else none) = (l.filter c).map f := by
  induction l with
  | nil => rfl
  | cons x l ih =>
    by_cases h : c x = true
    · simp [List.filterMap_cons, List.filter_cons, h, ih]
    · simp [List.filterMap_cons, List.filter_cons, h, ih]

theorem durables_pick (a b : ℕ) (xs : List Site) :
    (((xs.map Site.plain).take b).drop a).filterMap
      (fun x => if x.1.isDurable then some (x.1, x.2.1) else none) =
    (pick (inRange a b) 0 xs).map fun s => (s.l, s.right) := by
  rw [pick_range, ← List.map_take, ← List.map_drop, List.filterMap_map]
  exact filterMap_filter (fun s : Site => s.l.isDurable) (fun s => (s.l, s.right)) _

/-- The durables in the range after an edit. -/
theorem edit_durables {σ : Type} {p : Proc σ} {q : σ → Site → σ × Option D} (Z : σ → Prop)
    (hp : ∀ st b b' r n l, (Z st → b = b') → p st b r l = q st ⟨l, r, n, b'⟩)
    (hz : ∀ st s, Z (q st s).1 → Z st ∧ (q st s).2 = s.l.dur)
    (hskip : ∀ st s, s.l.kind = .skip → s.l.dur.isSome → (q st s).2.isSome)
    (st : σ) (a b : ℕ) (doc : List Mus) :
    let xs := pick (inRange a b) 0 (flatL false [] doc)
    durables a b doc = xs.map (fun s => (s.l, s.right)) ∧
      durables a b (edit p st a b doc).2 = (seq q st xs).2.map (fun s => (s.l, s.right)) ∧
      (edit p st a b doc).1 = (seq q st xs).1 := by
  refine ⟨?_, ?_, ?_⟩
  · rw [durables, allNodes, nodesL_flat doc false [], durables_pick]
  all_goals
    have hw : ∀ st (s : Site) i, inRange a b i s.l = true → inRange a b i (s.set (q st s).2).l = true := by
      intro st s i h
      obtain ⟨h1, h2⟩ := inRange_durable h
      have : (s.set (q st s).2).l.isDurable = true := by
        simp only [Label.isDurable, Site.set, Bool.and_eq_true] at h2 ⊢
        refine ⟨h2.1, ?_⟩
        by_cases hk : s.l.kind = .skip
        · have h3 : s.l.dur.isSome = true := by
            have := h2.2
            simp only [hk, decide_true, Bool.true_and, Bool.not_eq_true', Option.isNone_eq_false_iff] at this
            exact this
          have := hskip st s hk h3
          simp [hk, this]
        · simp [hk]
      simp [inRange, this, h1.1, h1.2]
    have hs := scan_seq q (inRange a b) hw (flatL false [] doc) st 0
    rw [edit_scan Z hp hz]
  · have hl : (scan q (inRange a b) st 0 (flatL false [] doc)).2.length = (revL doc).length := by
      rw [scan_length, flatL_length]
    rw [durables, allNodes]
    simp only
    rw [nodesL_refill doc _ false [] hl, durables_pick, hs.1]
  · exact hs.2

end Quickly.Rhythm
