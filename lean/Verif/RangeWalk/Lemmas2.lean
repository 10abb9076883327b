import Verif.RangeWalk.Lemmas

/-!
# Lemmas on walking with a range: what the generators yield
-/

namespace Quickly.RangeWalk

open Quickly.Node Quickly.Node.Spec Quickly.NodeRange Quickly.NodeRange.Spec Quickly.RangeWalk.Spec

variable {α : Type} {t : Tree α} {st en : Option Path}

/-! ## The stacks of a range -/

theorem chain_goto {b : Item α} {l : Level α} {ls : List (Level α)} (h : Chain t st en b (l :: ls)) (hl : l.index = none)
    (p : Path) {n : Tree α} (hn : l.node.2.get? p = some n) (hst : Steps st en l.node.1 p) {ls' : List (Level α)}
    (hg : gotoLoop (l :: ls) p = some ls') : Chain t st en b ls' := by
  induction p generalizing l ls with
  | nil => simp only [gotoLoop, Option.some.injEq] at hg; subst hg; exact h
  | cons i p ih =>
    obtain ⟨c, hc, hcn⟩ := get?_cons hn
    obtain ⟨h1, h2⟩ := steps_cons.mp hst
    have hlt : i < l.node.2.children.length := (List.getElem?_eq_some_iff.mp hc).1
    have hset := h.setIndex (some i) (by rintro j ⟨⟩; exact ⟨hlt, h1⟩)
    cases p with
    | nil => simp only [gotoLoop, Option.some.injEq] at hg; subst hg; exact hset
    | cons j p =>
      have hit : itemAt l.node i = some (l.node.1 ++ [i], c) := itemAt_some.mpr ⟨rfl, hc⟩
      obtain ⟨c', k1, k2, k3, k4⟩ := ok_child h.head.1.toOk hit
      simp only [gotoLoop, k1] at hg
      refine ih (l := c') (ls := { l with index := some i } :: ls) ?_ k4 ?_ ?_ hg
      · exact hset.push (i := i) rfl (by rw [k3]; exact hit) ⟨k2, by simp [k4]⟩ k4
      · rw [k3]; exact hcn
      · rw [k3]; exact h2

theorem chain_step {b : Item α} {rev : Bool} {l l' : Level α} {ls : List (Level α)} {n : Item α} (he : ValidEnd t en)
    (h : Chain t st en b (l :: ls)) (hs : l.step rev = some (n, l')) :
    Chain t st en b (l' :: ls) ∧ remain rev l = n :: remain rev l' ∧ PointsAt (l' :: ls) n := by
  have hf := h.head
  have := step_eq (rev := rev) he hf.1.toOk (fun i hi => Nat.le_of_lt (hf.1.idx i hi))
  rw [hs] at this
  obtain ⟨h1, i, rfl, h2⟩ := this
  have hn : n ∈ remain rev l := by rw [h1]; simp
  obtain ⟨j, k1, k2, -⟩ := (remain_inR hf.1 hf.2).mp hn
  have : j = i := by
    have a := (itemAt_some.mp k1).1
    have b := (itemAt_some.mp h2).1
    rw [a] at b
    simpa using b
  subst this
  refine ⟨h.setIndex (some j) ?_, h1, _, ls, j, rfl, rfl, h2⟩
  rintro k ⟨⟩
  exact ⟨lt_of_itemAt h2, k2⟩

theorem reached_chain (hp : Proper t st en) {ls : List (Level α)} (h : Reached t st en ls) :
    Chain t st en ([], t) ls := by
  have hnew : Chain t st en ([], t) (make t st en).stack := ⟨fine_make t st en, rfl, by simp [Level.make]⟩
  induction h with
  | new => exact hnew
  | @goto p n r h1 h2 h3 =>
    have hs := (touches_iff hp h1).mp h2
    unfold Range.gotoTrail at h3
    simp only [reset_make] at h3
    split at h3
    · rename_i ls' hg
      cases h3
      exact chain_goto (l := Level.make ([], t) st en 0) (ls := []) hnew rfl p h1 hs hg
    · cases h3
  | step _ h2 ih => exact (chain_step hp.2.1 ih h2).1
  | enter _ ih => exact chain_enter ih
  | @leave ls _ ih =>
    match ls, ih with
    | [l], ih => exact ih.setIndex none (by simp)
    | l :: m :: ms, ih => exact ih.tail

/-! ## forward and backward -/

/-- The walk with this argument ends when the levels down to that of `b` are done. -/
def Stops (upto : Option Path) (b : Item α) (rest : List (Level α)) : Prop :=
  (rest = [] ∧ (upto = none ∨ upto = some b.1)) ∨
  ∃ m ms n, rest = m :: ms ∧ m.current = some n ∧ n.1 = b.1 ∧ upto = some b.1

theorem advance_eq {rev : Bool} {upto : Option Path} {b : Item α} {top rest : List (Level α)} (h : Chain t st en b top)
    (hs : Stops upto b rest) :
    advance rev upto (top ++ rest) = (fwdAdvance rev top).map fun x => (x.1, x.2 ++ rest) := by
  induction top with
  | nil => exact h.elim
  | cons l ls ih =>
    simp only [List.cons_append]
    rw [advance, fwdAdvance]
    cases hst : l.step rev with
    | some x => rfl
    | none =>
      simp only
      cases ls with
      | nil =>
        rcases hs with ⟨rfl, -⟩ | ⟨m, ms, n, rfl, h1, h2, h3⟩
        · simp [leave, fwdAdvance]
        · simp [leave, isUpto, current, h1, h2, h3, fwdAdvance]
      | cons m ms =>
        have hno : isUpto upto (m :: (ms ++ rest)) = false := by
          obtain ⟨i, h1, h2⟩ := h.2.1
          obtain ⟨r, h3, -⟩ := h.tail.place
          have hc : m.current = some l.node := by simp [Level.current, h1, h2]
          have hu : upto = none ∨ upto = some b.1 := by
            rcases hs with ⟨-, h⟩ | ⟨-, -, -, -, -, -, h⟩
            · exact h
            · exact .inr h
          rcases hu with rfl | rfl
          · simp [isUpto]
          · simp only [isUpto, current, hc, decide_eq_false_iff_not]
            intro hb
            rw [(itemAt_some.mp h2).1, h3] at hb
            have := congrArg List.length hb
            simp at this
        simp only [List.cons_append, leave, List.length_cons, Nat.add_one_ne_zero, decide_false, hno, Bool.or_self,
          Bool.false_eq_true, if_false]
        simpa using ih h.tail

theorem sent_append {p : Option (Item α)} {ok : Bool} {top rest : List (Level α)} (hne : top ≠ []) :
    sent p ok (top ++ rest) = sent p ok top ++ rest := by
  cases top with
  | nil => exact absurd rfl hne
  | cons l ls =>
    cases p with
    | none => rfl
    | some n =>
      simp only [sent]
      split
      · simp only [List.cons_append, enter]
        cases l.index with
        | none => rfl
        | some i => cases hc : l.childAt i <;> simp [hc]
      · rfl

theorem chain_sent {b : Item α} {p : Option (Item α)} {ok : Bool} {ls : List (Level α)} (h : Chain t st en b ls) :
    Chain t st en b (sent p ok ls) := by
  cases p with
  | none => exact h
  | some n =>
    simp only [sent]
    split
    · exact chain_enter h
    · exact h

theorem chain_fwd {rev : Bool} {b : Item α} (he : ValidEnd t en) {ls ls' : List (Level α)} {n : Item α}
    (h : Chain t st en b ls) (ha : fwdAdvance rev ls = some (n, ls')) : Chain t st en b ls' := by
  induction ls with
  | nil => exact h.elim
  | cons l ls ih =>
    rw [fwdAdvance] at ha
    cases hs : l.step rev with
    | some x =>
      rw [hs] at ha
      simp only [Option.some.injEq, Prod.mk.injEq] at ha
      obtain ⟨-, rfl⟩ := ha
      exact (chain_step he h hs).1
    | none =>
      rw [hs] at ha
      cases ls with
      | nil => simp [fwdAdvance] at ha
      | cons m ms => exact ih h.tail ha

theorem chain_ne {b : Item α} {ls : List (Level α)} (h : Chain t st en b ls) : ls ≠ [] := by
  rintro rfl; exact h

/-- The walk with `upto` on the whole stack is the plain walk on the levels down to that node. -/
theorem walk_eq {rev : Bool} {upto : Option Path} {b : Item α} {rest : List (Level α)} (he : ValidEnd t en)
    (hs : Stops upto b rest) {dec : List (Item α) → Bool} {ok : Bool} {p : Option (Item α)} {top : List (Level α)}
    (h : Chain t st en b top) {hist out : List (Item α)} :
    Runs (walkResume rev upto) dec ok (p, top ++ rest) hist out ↔ Runs (NodeRange.fwdResume rev) dec ok (p, top) hist out := by
  have key : ∀ p ok (top : List (Level α)), Chain t st en b top → walkResume rev upto (p, top ++ rest) ok =
      (NodeRange.fwdResume rev (p, top) ok).map fun x => (x.1, (x.2.1, x.2.2 ++ rest)) := by
    intro p ok top h
    unfold walkResume NodeRange.fwdResume
    simp only
    rw [sent_append (chain_ne h), advance_eq (chain_sent h) hs]
    cases fwdAdvance rev (sent p ok top) <;> rfl
  constructor
  · intro hr
    generalize hs' : (p, top ++ rest) = s at hr
    induction hr generalizing p top with
    | @done ok s hist hn =>
      subst hs'
      rw [key _ _ _ h] at hn
      exact .done (by simpa using hn)
    | @step ok s hist n s' out hn _ ih =>
      subst hs'
      rw [key _ _ _ h] at hn
      cases hf : NodeRange.fwdResume rev (p, top) ok with
      | none => rw [hf] at hn; cases hn
      | some x =>
        obtain ⟨n', p', top'⟩ := x
        rw [hf] at hn
        simp only [Option.map_some, Option.some.injEq, Prod.mk.injEq] at hn
        obtain ⟨rfl, rfl⟩ := hn
        refine .step hf (ih ?_ rfl)
        unfold NodeRange.fwdResume at hf
        split at hf
        · rename_i a b ha
          simp only [Option.some.injEq, Prod.mk.injEq] at hf
          obtain ⟨-, -, rfl⟩ := hf
          exact chain_fwd he (chain_sent h) ha
        · cases hf
  · intro hr
    generalize hs' : (p, top) = s at hr
    induction hr generalizing p top with
    | @done ok s hist hn =>
      subst hs'
      exact .done (by rw [key _ _ _ h, hn]; rfl)
    | @step ok s hist n s' out hn _ ih =>
      subst hs'
      obtain ⟨p', top'⟩ := s'
      have h' : Chain t st en b top' := by
        unfold NodeRange.fwdResume at hn
        split at hn
        · rename_i a b ha
          simp only [Option.some.injEq, Prod.mk.injEq] at hn
          obtain ⟨-, -, rfl⟩ := hn
          exact chain_fwd he (chain_sent h) ha
        · cases hn
      refine .step (s' := (p', top' ++ rest)) ?_ (ih h' rfl)
      rw [key _ _ _ h, hn]; rfl

/-- The stack can be divided at each node on the way to its place. -/
theorem chain_split {l : Level α} {ls : List (Level α)} (h : Chain t st en ([], t) (l :: ls)) {u : Path}
    (hu : AboveOrSelf u l.node.1) :
    ∃ top rest n, l :: ls = (l :: top) ++ rest ∧ Chain t st en (u, n) (l :: top) ∧ Stops (some u) (u, n) rest := by
  induction ls generalizing l with
  | nil =>
    have h1 : l.node = ([], t) := h.2.1
    have : u = [] := by
      obtain ⟨r, hr⟩ := hu
      rw [h1] at hr
      simp only at hr
      cases u with
      | nil => rfl
      | cons => simp at hr
    subst this
    exact ⟨[], [], t, rfl, h, .inl ⟨rfl, .inr rfl⟩⟩
  | cons m ms ih =>
    obtain ⟨i, h1, h2⟩ := h.2.1
    by_cases he : u = l.node.1
    · subst he
      exact ⟨[], m :: ms, l.node.2, rfl, ⟨h.1, rfl, h.2.2.1⟩,
        .inr ⟨m, ms, l.node, rfl, by simp [Level.current, h1, h2], rfl, rfl⟩⟩
    · have : AboveOrSelf u m.node.1 := by
        obtain ⟨r, hr⟩ := hu
        rcases List.eq_nil_or_concat r with rfl | ⟨r', z, rfl⟩
        · simp only [List.append_nil] at hr; exact absurd hr.symm he
        · rw [(itemAt_some.mp h2).1] at hr
          have hr' : m.node.1 ++ [i] = (u ++ r') ++ [z] := by simpa using hr
          exact ⟨r', (List.append_inj' hr' rfl).1⟩
      obtain ⟨top, rest, n, k1, k2, k3⟩ := ih h.tail this
      exact ⟨m :: top, rest, n, by simpa using k1, ⟨h.1, h.2.1, h.2.2.1, k2⟩, k3⟩

/-- What a walk yields. -/
theorem walk_lists (hp : Proper t st en) (rev : Bool) {l : Level α} {ls : List (Level α)}
    (h : Chain t st en ([], t) (l :: ls)) (upto : Option Path) (hu : ∀ u, upto = some u → AboveOrSelf u l.node.1) :
    (∀ dec, ∃ out, Runs (walkResume rev upto) dec true (none, l :: ls) [] out) ∧
    ∀ dec out, Runs (walkResume rev upto) dec true (none, l :: ls) [] out →
      Lists rev (fun m => (NodeOf t m ∧ Rest rev l m.1 ∧ Touches t st en m.1 ∧ ∀ u, upto = some u → Above u m.1) ∧
        ∀ a ∈ out, Above a.1 m.1 → dec (upTo a.1 out) = true) out := by
  have hv : ValidEnd t en := hp.2.1
  obtain ⟨top, rest, b, e, hc, hs, hb⟩ : ∃ top rest b, l :: ls = (l :: top) ++ rest ∧ Chain t st en b (l :: top) ∧
      Stops upto b rest ∧ (upto = none ∧ b.1 = [] ∨ upto = some b.1) := by
    cases upto with
    | none => exact ⟨ls, [], ([], t), by simp, h, .inl ⟨rfl, .inl rfl⟩, .inl ⟨rfl, rfl⟩⟩
    | some u =>
      obtain ⟨top, rest, n, k1, k2, k3⟩ := chain_split h (hu u rfl)
      exact ⟨top, rest, _, k1, k2, k3, .inr rfl⟩
  have hg := gen_listsI (goes_K rev st en) (fwd_sim (rev := rev) (st := st) hv) (s := (none, l :: top))
    ⟨hc.fine, by simp⟩ (W := fv rev (l :: top)) rfl (chain_pairwise hc)
    (P := fun m => NodeOf t m ∧ Rest rev l m.1 ∧ Touches t st en m.1 ∧ ∀ u, upto = some u → Above u m.1) ?_
  · constructor
    · intro dec
      obtain ⟨out, ho⟩ := hg.1 dec
      exact ⟨out, by rw [e]; exact (walk_eq hv hs hc).mpr ho⟩
    · intro dec out ho
      rw [e] at ho
      exact hg.2 dec out ((walk_eq hv hs hc).mp ho)
  · intro m
    rw [chain_desc hc]
    -- the base is on the way to the place of the range
    have hbase : Steps st en [] b.1 := by
      rcases hb with ⟨-, hb⟩ | hb
      · rw [hb]; intro a k c hr; simp at hr
      · obtain ⟨r, hr⟩ := hu b.1 hb
        obtain ⟨r', k1, k2⟩ := h.place
        simp only [List.nil_append] at k1
        rw [k1] at hr
        rw [hr] at k2
        exact (steps_append.mp k2).1
    constructor
    · rintro ⟨k1, ⟨r, k2, k3, k4⟩, k5⟩
      refine ⟨k1, k5, (touches_iff hp k1).mpr (by rw [k2]; exact steps_append.mpr ⟨hbase, k4⟩), ?_⟩
      rintro u rfl
      rcases hb with ⟨hb, -⟩ | hb
      · cases hb
      · cases hb
        cases r with
        | nil => exact absurd rfl k3
        | cons i r => exact ⟨i, r, k2⟩
    · rintro ⟨k1, k2, k3, k4⟩
      have hst := (touches_iff hp k1).mp k3
      refine ⟨k1, ?_, k2⟩
      rcases hb with ⟨-, hb⟩ | hb
      · refine ⟨m.1, by simp [hb], ?_, by rw [hb]; exact hst⟩
        intro hm
        rw [hm] at k2
        rcases (rest_iff rev l []).mp k2 with ⟨j, r, k, -⟩ | k
        · simp at k
        · cases rev
          · obtain ⟨c, i, j, r, s, -, h2, -⟩ := k; simp at h2
          · obtain ⟨c, i, j, r, s, h2, -, -⟩ := k; simp at h2
      · obtain ⟨i, r, hr⟩ := k4 _ hb
        rw [hr] at hst
        exact ⟨i :: r, hr, by simp, (steps_append.mp hst).2⟩

end Quickly.RangeWalk
