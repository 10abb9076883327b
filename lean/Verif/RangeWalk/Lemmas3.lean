import Verif.RangeWalk.Lemmas2
import Verif.Query.Props

/-!
# Lemmas on walking with a range: children, ancestors, descendants
-/

namespace Quickly.RangeWalk

open Quickly.Node Quickly.Node.Spec Quickly.NodeRange Quickly.NodeRange.Spec Quickly.RangeWalk.Spec

variable {α : Type} {t : Tree α} {st en : Option Path}

/-! ## The place -/

theorem at_head {ls : List (Level α)} {b : Item α} (h : Chain t st en b ls) {p : Path} (hat : At ls p) :
    ∃ l ms i, ls = l :: ms ∧ l.index = some i ∧ p = l.node.1 ++ [i] := by
  obtain ⟨⟨n, h1, rfl⟩, l, ms, rfl, h2⟩ := hat
  cases hi : l.index with
  | none => exact absurd hi h2
  | some i =>
    simp only [current, Level.current, hi] at h1
    exact ⟨l, ms, i, rfl, hi, (itemAt_some.mp h1).1⟩

theorem in_head {ls : List (Level α)} {p : Path} (hin : In ls p) :
    ∃ l ms, ls = l :: ms ∧ l.index = none ∧ p = l.node.1 := by
  obtain ⟨⟨n, h1, rfl⟩, l, ms, rfl, h2⟩ := hin
  simp only [current, Level.current, h2, Option.some.injEq] at h1
  exact ⟨l, ms, rfl, h2, by rw [h1]⟩

/-- The level that is walked after `enter()`: that of the current node. -/
theorem enter_head {b : Item α} {ls : List (Level α)} (h : Chain t st en b ls) :
    ∃ c cs, enter ls = c :: cs ∧ c.index = none ∧ current ls = some c.node ∧ Chain t st en b (c :: cs) ∧
      (cs ≠ [] → current cs = current ls) := by
  have hc := chain_enter h
  cases ls with
  | nil => exact h.elim
  | cons l ls =>
    cases hi : l.index with
    | none =>
      refine ⟨l, ls, by simp [enter, hi], hi, by simp [current, Level.current, hi], h, ?_⟩
      intro hne
      cases ls with
      | nil => exact absurd rfl hne
      | cons m ms =>
        obtain ⟨i, h1, h2⟩ := h.2.1
        simp [current, Level.current, hi, h1, h2]
    | some i =>
      have hf := h.head.1
      have hlt := hf.idx i hi
      have hit : itemAt l.node i = some (l.node.1 ++ [i], l.node.2.children[i]) := itemAt_some.mpr ⟨rfl, by simp [hlt]⟩
      obtain ⟨c, k1, k2, k3, k4⟩ := ok_child hf.toOk hit
      have he : enter (l :: ls) = c :: l :: ls := by simp [enter, hi, k1]
      rw [he] at hc
      exact ⟨c, l :: ls, he, k4, by simp [current, Level.current, hi, hit, k3], hc, fun _ => rfl⟩

theorem current_touches (hp : Proper t st en) {b : Item α} {l : Level α} {ls : List (Level α)}
    (h : Chain t st en ([], t) (l :: ls)) (hb : b = l.node) : NodeOf t b ∧ Steps st en [] b.1 := by
  subst hb
  obtain ⟨r, h1, h2⟩ := h.place
  refine ⟨h.head.1.hnode, ?_⟩
  rw [h1]; exact h2

/-! ## children -/

theorem kids_runs {rev : Bool} {b : Item α} (he : ValidEnd t en) {dec : List (Item α) → Bool} {l : Level α}
    {ls : List (Level α)} (h : Chain t st en b (l :: ls)) (hist : List (Item α)) (ok : Bool) :
    Runs (kidsResume rev) dec ok (true, l :: ls) hist (remain rev l) := by
  generalize hk : remain rev l = w
  induction w generalizing l hist ok with
  | nil =>
    have hf := h.head
    have := step_eq (rev := rev) he hf.1.toOk (fun i hi => Nat.le_of_lt (hf.1.idx i hi))
    cases hs : l.step rev with
    | none => exact .done (by simp [kidsResume, kidsGo, hs])
    | some x => rw [hs] at this; rw [this.1] at hk; cases hk
  | cons n w ih =>
    have hf := h.head
    have := step_eq (rev := rev) he hf.1.toOk (fun i hi => Nat.le_of_lt (hf.1.idx i hi))
    cases hs : l.step rev with
    | none => rw [hs] at this; rw [this] at hk; cases hk
    | some x =>
      obtain ⟨n', l'⟩ := x
      obtain ⟨h1, h2, -⟩ := chain_step he h hs
      rw [hk, List.cons.injEq] at h2
      obtain ⟨rfl, h2⟩ := h2
      exact .step (by simp [kidsResume, kidsGo, hs]) (ih h1 _ _ h2.symm)

/-- What `children()` yields, from any place. -/
theorem kids_lists (hp : Proper t st en) (rev : Bool) {ls : List (Level α)} (h : Chain t st en ([], t) ls)
    (dec : List (Item α) → Bool) :
    ∃ n out, current ls = some n ∧ Runs (kidsResume rev) dec true (false, ls) [] out ∧
      out.Pairwise (fun a b => Branch rev a.1 b.1) ∧
      ∀ m, m ∈ out ↔ NodeOf t m ∧ (∃ k, m.1 = n.1 ++ [k]) ∧ Touches t st en m.1 := by
  obtain ⟨c, cs, h1, h2, h3, h4, -⟩ := enter_head h
  have hv : ValidEnd t en := hp.2.1
  refine ⟨c.node, remain rev c, h3, ?_, remain_pairwise rev c, ?_⟩
  · have hr := kids_runs (rev := rev) (dec := dec) hv h4 [] true
    have e : kidsResume rev (false, ls) true = kidsResume rev (true, c :: cs) true := by
      simp [kidsResume, kidsGo, h1]
    generalize remain rev c = w at hr ⊢
    cases hr with
    | done hd => exact .done (by rw [e]; exact hd)
    | step hd hrest => exact .step (by rw [e]; exact hd) hrest
  · intro m
    obtain ⟨hn, hs⟩ := current_touches hp h4 rfl
    rw [remain_inR h4.head.1 h4.head.2]
    simp only [h2, reduceCtorEq, false_implies, implies_true, and_true]
    constructor
    · rintro ⟨j, k1, k2⟩
      obtain ⟨k3, k4⟩ := itemAt_some.mp k1
      have hm : NodeOf t m := by unfold NodeOf; rw [k3]; exact get?_snoc' hn k4
      refine ⟨hm, ⟨j, k3⟩, (touches_iff hp hm).mpr ?_⟩
      rw [k3]
      exact steps_append.mpr ⟨hs, steps_cons.mpr ⟨k2, fun a k b h => by simp at h⟩⟩
    · rintro ⟨k1, ⟨j, k2⟩, k3⟩
      have k4 := (touches_iff hp k1).mp k3
      rw [k2] at k4
      refine ⟨j, itemAt_some.mpr ⟨k2, ?_⟩, (steps_cons.mp (steps_append.mp k4).2).1⟩
      have hn' : t.get? c.node.1 = some c.node.2 := hn
      have k1' : t.get? m.1 = some m.2 := k1
      rw [k2, get?_append, hn'] at k1'
      obtain ⟨d, hd, hd2⟩ := get?_cons k1'
      simp only [Tree.get?, Option.some.injEq] at hd2
      rw [← hd2]; exact hd

/-! ## ancestors -/

theorem up_lists {dec : List (Item α) → Bool} {l : Level α} {ls : List (Level α)}
    (h : Chain t st en ([], t) (l :: ls)) :
    ∃ out, (∀ hist ok, Runs upResume dec ok (l :: ls) hist out) ∧ out.Pairwise (fun a b => Above b.1 a.1) ∧
      ∀ m, m ∈ out ↔ NodeOf t m ∧ (l.index ≠ none ∨ l.node.1 ≠ []) ∧ AboveOrSelf m.1 l.node.1 := by
  induction ls generalizing l with
  | nil =>
    have hn : l.node = ([], t) := h.2.1
    cases hi : l.index with
    | none =>
      refine ⟨[], fun hist ok => .done (by simp [upResume, hi]), .nil, ?_⟩
      intro m
      simp [hn]
    | some i =>
      refine ⟨[l.node], fun hist ok => .step (s' := [{ l with index := none }]) (by simp [upResume, hi])
        (.done (by simp [upResume])), by simp, ?_⟩
      intro m
      simp only [List.mem_singleton, hn, ne_eq, reduceCtorEq, not_false_eq_true, not_true, or_false, true_and]
      constructor
      · rintro rfl; exact ⟨rfl, [], rfl⟩
      · rintro ⟨h1, r, hr⟩
        have : m.1 = [] := by
          cases hm : m.1 with
          | nil => rfl
          | cons x y => rw [hm] at hr; simp at hr
        unfold NodeOf at h1
        rw [this] at h1
        simp only [Tree.get?, Option.some.injEq] at h1
        exact Prod.ext this h1.symm
  | cons m ms ih =>
    obtain ⟨i, h1, h2⟩ := h.2.1
    obtain ⟨out, k1, k2, k3⟩ := ih h.tail
    have hc : current (m :: ms) = some l.node := by simp [current, Level.current, h1, h2]
    have hp := (itemAt_some.mp h2).1
    refine ⟨l.node :: out, fun hist ok => .step (s' := m :: ms) (by simp [upResume, hc]) (k1 _ _), ?_, ?_⟩
    · rw [List.pairwise_cons]
      refine ⟨fun x hx => ?_, k2⟩
      obtain ⟨-, -, r, hr⟩ := (k3 x).mp hx
      rw [hp, hr]
      cases r with
      | nil => exact ⟨i, [], by simp⟩
      | cons y r => exact ⟨y, r ++ [i], by simp⟩
    · intro x
      rw [List.mem_cons, k3 x]
      simp only [h1, ne_eq, reduceCtorEq, not_false_eq_true, true_or, true_and]
      have hne : l.node.1 ≠ [] := by rw [hp]; simp
      simp only [hne, not_false_eq_true, or_true, true_and]
      constructor
      · rintro (rfl | ⟨k4, r, k5⟩)
        · exact ⟨h.1.hnode, [], by simp⟩
        · exact ⟨k4, r ++ [i], by rw [hp, k5]; simp⟩
      · rintro ⟨k4, r, k5⟩
        rcases List.eq_nil_or_concat r with rfl | ⟨r', z, rfl⟩
        · left
          simp only [List.append_nil] at k5
          unfold NodeOf at k4
          rw [← k5, h.1.hnode] at k4
          simp only [Option.some.injEq] at k4
          exact Prod.ext k5.symm k4.symm
        · right
          rw [hp] at k5
          have k5' : m.node.1 ++ [i] = (x.1 ++ r') ++ [z] := by simpa using k5
          exact ⟨k4, r', (List.append_inj' k5' rfl).1⟩

/-! ## descendants -/

/-- What `descendants()` yields, from any place. -/
theorem desc_lists (hp : Proper t st en) (rev : Bool) {ls : List (Level α)} (h : Chain t st en ([], t) ls) :
    ∃ n, current ls = some n ∧ (∀ dec, ∃ out, Runs (NodeRange.descResume rev) dec true ⟨none, none, ls⟩ [] out) ∧
      ∀ dec out, Runs (NodeRange.descResume rev) dec true ⟨none, none, ls⟩ [] out →
        Lists rev (fun m => (NodeOf t m ∧ Above n.1 m.1 ∧ Touches t st en m.1) ∧
          ∀ a ∈ out, Above a.1 m.1 → dec (upTo a.1 out) = true) out := by
  have hv : ValidEnd t en := hp.2.1
  obtain ⟨c, cs, h1, h2, h3, h4, -⟩ := enter_head h
  obtain ⟨hn, hs⟩ := current_touches hp h4 rfl
  refine ⟨c.node, h3, ?_⟩
  have hrem : remain rev c = fv rev [c] := by simp [fv]
  refine gen_listsA (goes_K rev st en) (desc_sim (rev := rev) (st := st) hv) (s := ⟨none, none, ls⟩) (W := remain rev c)
    ?_ (remain_pairwise rev c) ?_
  · have h5 := descAdvance_eq (rev := rev) (as := [c]) (bs := cs) hv (by simpa using h4.fine) (by simp)
    simp only [List.singleton_append] at h5
    unfold NodeRange.descResume NodeRange.descGo
    simp only [h1, List.length_cons, Nat.add_sub_cancel]
    cases hd : descAdvance rev cs.length (c :: cs) with
    | inr ls' =>
      rw [hd] at h5
      simp only [Agree, wResume, kidsIf, List.nil_append]
      rw [hrem, h5.1]
    | inl x =>
      obtain ⟨n, ls'⟩ := x
      rw [hd] at h5
      obtain ⟨as', rfl, k1, k2, k3, k4⟩ := h5
      simp only [Agree, wResume, kidsIf, List.nil_append]
      rw [hrem, k2]
      refine ⟨?_, k3, as', cs, rfl, rfl, k1, n, rfl, k4⟩
      simp [dfv]
  · intro m
    rw [remain_desc' h4.head.1 h4.head.2]
    simp only [h2, reduceCtorEq, false_implies, implies_true, and_true]
    constructor
    · rintro ⟨k1, j, r, k2, k3⟩
      exact ⟨k1, ⟨j, r, k2⟩, (touches_iff hp k1).mpr (by rw [k2]; exact steps_append.mpr ⟨hs, k3⟩)⟩
    · rintro ⟨k1, ⟨j, r, k2⟩, k3⟩
      have k4 := (touches_iff hp k1).mp k3
      rw [k2] at k4
      exact ⟨k1, j, r, k2, (steps_append.mp k4).2⟩

/-! ## The place afterwards -/

theorem kids_back {rev : Bool} {b : Item α} (he : ValidEnd t en) {dec : List (Item α) → Bool} {l : Level α}
    {cs ls : List (Level α)} (h : Chain t st en b (l :: cs)) {ok : Bool} {hist : List (Item α)}
    (hr : EndsAt (kidsGo rev) dec ok (true, l :: cs) hist ls) :
    ls = (leave (l :: cs)).2 := by
  generalize hs : (true, l :: cs) = s at hr
  induction hr generalizing l with
  | done hd =>
    subst hs
    simp only [kidsGo, if_true] at hd
    cases hst : l.step rev with
    | none => rw [hst] at hd; simpa using hd.symm
    | some x => rw [hst] at hd; cases hd
  | @step ok s hist n s' ls hd _ ih =>
    subst hs
    simp only [kidsGo, if_true] at hd
    cases hst : l.step rev with
    | none => rw [hst] at hd; cases hd
    | some x =>
      obtain ⟨n', l'⟩ := x
      rw [hst] at hd
      simp only [Sum.inl.injEq, Prod.mk.injEq] at hd
      obtain ⟨-, rfl⟩ := hd
      have := ih (chain_step he h hst).1 rfl
      rw [this]
      cases cs with
      | cons => rfl
      | nil =>
        have hf := h.head
        have k := step_eq (rev := rev) he hf.1.toOk (fun i hi => Nat.le_of_lt (hf.1.idx i hi))
        rw [hst] at k
        obtain ⟨-, i, rfl, -⟩ := k
        rfl

/-- After the last child, the range is at the node where it was. -/
theorem kids_same {rev : Bool} (he : ValidEnd t en) {dec : List (Item α) → Bool} {ls ls' : List (Level α)}
    (h : Chain t st en ([], t) ls) {ok : Bool} {hist : List (Item α)} (hr : EndsAt (kidsGo rev) dec ok (false, ls) hist ls') :
    current ls' = current ls := by
  obtain ⟨c, cs, h1, h2, h3, h4, h5⟩ := enter_head h
  have e : ∀ ok, kidsGo rev (false, ls) ok = kidsGo rev (true, c :: cs) ok := fun ok => by simp [kidsGo, h1]
  have hr' : EndsAt (kidsGo rev) dec ok (true, c :: cs) hist ls' := by
    cases hr with
    | done hd => exact .done (by rw [← e]; exact hd)
    | step hd hrest => exact .step (by rw [← e]; exact hd) hrest
  rw [kids_back he h4 hr']
  cases cs with
  | nil => exact h3.symm
  | cons m ms => exact h5 (by simp)

theorem chain_desc_advance {rev : Bool} {c : Item α} (he : ValidEnd t en) {as bs : List (Level α)} (h : Chain t st en c as)
    (hf : ∀ l ∈ bs, Fine t st en l) :
    match descAdvance rev bs.length (as ++ bs) with
    | .inr ls => (bs ≠ [] → ls = bs) ∧ (bs = [] → ∃ l, ls = [l] ∧ l.index = none ∧ l.node = c)
    | .inl (_, ls) => ∃ as', ls = as' ++ bs ∧ Chain t st en c as' := by
  induction as with
  | nil => exact h.elim
  | cons l as ih =>
    simp only [List.cons_append]
    unfold descAdvance
    cases hs : l.step rev with
    | some x =>
      obtain ⟨n, l'⟩ := x
      exact ⟨l' :: as, rfl, (chain_step he h hs).1⟩
    | none =>
      simp only
      cases as with
      | nil =>
        cases bs with
        | nil => exact ⟨fun h => absurd rfl h, fun _ => ⟨_, rfl, rfl, h.2.1⟩⟩
        | cons m ms => simp
      | cons a as =>
        simp only [List.cons_append, List.length_append]
        rw [if_neg (by omega)]
        simpa using ih h.tail

theorem desc_back {rev : Bool} {c : Item α} (he : ValidEnd t en) {dec : List (Item α) → Bool} {as bs ls : List (Level α)}
    (h : Chain t st en c as) (hf : ∀ l ∈ bs, Fine t st en l) {ok : Bool} {pending : Option (Item α)} {hist : List (Item α)}
    (hr : EndsAt (NodeRange.descGo rev) dec ok ⟨some bs.length, pending, as ++ bs⟩ hist ls) :
    (bs ≠ [] → ls = bs) ∧ (bs = [] → ∃ l, ls = [l] ∧ l.index = none ∧ l.node = c) := by
  generalize hs : (⟨some bs.length, pending, as ++ bs⟩ : NodeRange.DState α) = s at hr
  induction hr generalizing as pending with
  | @done ok s hist ls hd =>
    subst hs
    simp only [NodeRange.descGo] at hd
    rw [sent_append (chain_ne h)] at hd
    have := chain_desc_advance (rev := rev) he (chain_sent (p := pending) (ok := ok) h) hf
    split at hd
    · cases hd
    · rename_i ls' hx
      rw [hx] at this
      cases hd
      exact this
  | @step ok s hist n s' ls hd _ ih =>
    subst hs
    simp only [NodeRange.descGo] at hd
    rw [sent_append (chain_ne h)] at hd
    have := chain_desc_advance (rev := rev) he (chain_sent (p := pending) (ok := ok) h) hf
    split at hd
    · rename_i n' ls' hx
      rw [hx] at this
      obtain ⟨as', rfl, h'⟩ := this
      cases hd
      exact ih h' rfl
    · cases hd

/-- After the last descendant, the range is at the node where it was. -/
theorem desc_same {rev : Bool} (he : ValidEnd t en) {dec : List (Item α) → Bool} {ls ls' : List (Level α)}
    (h : Chain t st en ([], t) ls) {ok : Bool} {hist : List (Item α)}
    (hr : EndsAt (NodeRange.descGo rev) dec ok ⟨none, none, ls⟩ hist ls') :
    current ls' = current ls := by
  obtain ⟨c, cs, h1, h2, h3, h4, h5⟩ := enter_head h
  have hb : Chain t st en c.node [c] := ⟨h4.head.1, rfl, h4.head.2⟩
  have hf : ∀ l ∈ cs, Fine t st en l := fun l hl => h4.fine l (by simp [hl])
  have key : (cs ≠ [] → ls' = cs) ∧ (cs = [] → ∃ l, ls' = [l] ∧ l.index = none ∧ l.node = c.node) := by
    cases hr with
    | done hd =>
      simp only [NodeRange.descGo, h1, List.length_cons, Nat.add_sub_cancel] at hd
      have := chain_desc_advance (rev := rev) he hb hf
      simp only [List.singleton_append] at this
      split at hd
      · cases hd
      · rename_i x hx
        rw [hx] at this
        cases hd
        exact this
    | step hd hrest =>
      simp only [NodeRange.descGo, h1, List.length_cons, Nat.add_sub_cancel] at hd
      have := chain_desc_advance (rev := rev) he hb hf
      simp only [List.singleton_append] at this
      split at hd
      · rename_i n' x hx
        rw [hx] at this
        obtain ⟨as', rfl, h'⟩ := this
        cases hd
        exact desc_back he h' hf hrest
      · cases hd
  cases cs with
  | nil =>
    obtain ⟨l, rfl, k1, k2⟩ := key.2 rfl
    simp [current, Level.current, k1, k2, ← h3]
  | cons m ms => rw [key.1 (by simp)]; exact h5 (by simp)

end Quickly.RangeWalk
