import Verif.Range.Props2

/-!
# C35: extracting a tree
-/

namespace Quickly.NodeRange

open Quickly.Node Quickly.Node.Spec Quickly.NodeRange.Spec

variable {α : Type}

mutual
theorem prune_congr {f : α → α} {P Q : Path → Prop} {p q : Path} (n : Tree α)
    (h : ∀ a m, n.get? a = some m → (P (p ++ a) ↔ Q (q ++ a))) : prune f P p n = prune f Q q n := by
  cases n with
  | node v cs =>
    simp only [prune]
    rw [kids_congr (P := P) (Q := Q) (p := p) (q := q) 0 cs (fun j a c m hc hm => by
      rw [Nat.zero_add]
      refine h (j :: a) m ?_
      simp only [Tree.get?, Tree.children, hc]
      exact hm)]
theorem kids_congr {f : α → α} {P Q : Path → Prop} {p q : Path} (i : ℕ) (cs : List (Tree α))
    (h : ∀ j a c m, cs[j]? = some c → c.get? a = some m → (P (p ++ (i + j) :: a) ↔ Q (q ++ (i + j) :: a))) :
    prune.kids f P p i cs = prune.kids f Q q i cs := by
  cases cs with
  | nil => rfl
  | cons c cs =>
    have h0 := h 0 [] c c rfl rfl
    have e1 : prune f P (p ++ [i]) c = prune f Q (q ++ [i]) c :=
      prune_congr c (fun a m hm => by simpa using h 0 a c m rfl hm)
    have e2 := kids_congr (f := f) (P := P) (Q := Q) (p := p) (q := q) (i + 1) cs (fun j a c m hc hm => by
      have := h (j + 1) a c m (by simpa using hc) hm
      have e : i + (j + 1) = i + 1 + j := by omega
      rw [e] at this
      exact this)
    simp only [prune.kids]
    rw [e1, e2]
    simp only [Nat.add_zero] at h0
    by_cases hp : P (p ++ [i])
    · rw [if_pos hp, if_pos (h0.mp hp)]
    · rw [if_neg hp, if_neg (fun hq => hp (h0.mpr hq))]
end

open Classical in
theorem kids_eq (f : α → α) (P : Path → Prop) (p : Path) (i : ℕ) (cs : List (Tree α)) :
    prune.kids f P p i cs = ((number p i cs).filter (fun m => P m.1)).map (fun m => prune f P m.1 m.2) := by
  induction cs generalizing i with
  | nil => rfl
  | cons c cs ih =>
    simp only [prune.kids, number, List.filter_cons]
    by_cases hp : P (p ++ [i])
    · simp [hp, ih]
    · simp [hp, ih]

open Classical in
theorem prune_eq (f : α → α) (P : Path → Prop) (n : Item α) :
    prune f P n.1 n.2 = .node (f n.2.val)
      (((number n.1 0 n.2.children).filter (fun m => P m.1)).map (fun m => prune f P m.1 m.2)) := by
  obtain ⟨p, ⟨v, cs⟩⟩ := n
  simp only [prune, kids_eq, Tree.val, Tree.children]

theorem sublist_ext {A B C : List (Item α)} {R : Path → Path → Prop} (hirr : ∀ p, ¬ R p p)
    (hasym : ∀ p q, R p q → ¬ R q p) (hC : C.Pairwise (fun a b => R a.1 b.1))
    (hA : A.Sublist C) (hB : B.Sublist C) (h : ∀ m, m ∈ A ↔ m ∈ B) : A = B := by
  have pA := hC.sublist hA
  have pB := hC.sublist hB
  clear hA hB hC
  induction A generalizing B with
  | nil =>
    cases B with
    | nil => rfl
    | cons b B => simpa using h b
  | cons a A ih =>
    cases B with
    | nil => simpa using h a
    | cons b B =>
      rw [List.pairwise_cons] at pA pB
      have hab : a = b := by
        have h1 := (h a).mp (by simp)
        have h2 := (h b).mpr (by simp)
        simp only [List.mem_cons] at h1 h2
        rcases h1 with h1 | h1
        · exact h1
        · rcases h2 with h2 | h2
          · exact h2.symm
          · exact absurd (pA.1 b h2) (hasym _ _ (pB.1 a h1))
      subst hab
      congr 1
      refine ih (fun m => ?_) pA.2 pB.2
      have := h m
      simp only [List.mem_cons] at this
      constructor
      · intro hm
        rcases this.mp (.inr hm) with rfl | h'
        · exact absurd (pA.1 _ hm) (hirr _)
        · exact h'
      · intro hm
        rcases this.mpr (.inr hm) with rfl | h'
        · exact absurd (pB.1 _ hm) (hirr _)
        · exact h'

theorem steps_snoc {st en : Option Path} {p : Path} {i : ℕ} (h : Steps st en [] p) :
    Steps st en [] (p ++ [i]) ↔ InR st en p i := by
  rw [steps_append, steps_cons]
  constructor
  · rintro ⟨-, h, -⟩; exact h
  · intro k; exact ⟨h, k, fun a k b h => by simp at h⟩

open Classical in
theorem K_filter {st en : Option Path} {n : Item α} (h : Steps st en [] n.1) :
    K false st en n = (number n.1 0 n.2.children).filter (fun m => Steps st en [] m.1) := by
  have hs : (K false st en n).Sublist (number n.1 0 n.2.children) := by
    have := goes_K false st en n
    simpa [iterate] using this
  have hpw := iterate_pairwise false n
  simp only [iterate, Bool.false_eq_true, if_false] at hpw
  refine sublist_ext (R := fun a b => Branch false a b) ?_ ?_ hpw hs (List.filter_sublist) ?_
  · intro p hp; exact left_irrefl _ (by simpa [Branch] using hp)
  · intro p q hp hq; exact left_asymm (by simpa [Branch] using hp) (by simpa [Branch] using hq)
  · intro m
    rw [mem_K, List.mem_filter]
    constructor
    · rintro ⟨i, hi, hr⟩
      refine ⟨?_, ?_⟩
      · rw [itemAt_eq] at hi; exact List.mem_of_getElem? hi
      · rw [decide_eq_true_eq, (itemAt_some.mp hi).1, steps_snoc h]; exact hr
    · rintro ⟨hm, hd⟩
      obtain ⟨i, hi⟩ := List.mem_iff_getElem?.mp hm
      rw [← itemAt_eq] at hi
      refine ⟨i, hi, ?_⟩
      rw [decide_eq_true_eq, (itemAt_some.mp hi).1, steps_snoc h] at hd
      exact hd

/-- What comes after the innermost level is done. -/
def After (f : α → α) (ls : List (Level α)) (fs : Frames α) (t : Tree α) : Prop :=
  match ls with
  | [] => plug fs = some t
  | m :: ms => Extracts f (m :: ms) (closeTop fs) t

theorem extracts_iff {f : α → α} {t : Tree α} {st en : Option Path} (he : ValidEnd t en) (k : ℕ) :
    ∀ (l : Level α) (ls : List (Level α)) (v : α) (cs : List (Tree α)) (fs : Frames α) (x : Tree α),
      wsize (remain false l) ≤ k → (∀ l' ∈ l :: ls, Fine t st en l') → (∀ m ∈ remain false l, Steps st en [] m.1) →
      (Extracts f (l :: ls) ((v, cs) :: fs) x ↔
        After f ls ((v, cs ++ (remain false l).map (fun m => prune f (Steps st en []) m.1 m.2)) :: fs) x) := by
  induction k with
  | zero =>
    intro l ls v cs fs x hk hf hr
    have hl := hf l (by simp)
    have hstep := step_eq (rev := false) he hl.toOk (fun i hi => Nat.le_of_lt (hl.idx i hi))
    have hnext : l.step false = l.next := rfl
    rw [hnext] at hstep
    cases hn : l.next with
    | some y =>
      obtain ⟨n, l'⟩ := y
      rw [hn] at hstep
      rw [hstep.1] at hk
      simp only [wsize, List.map_cons, List.sum_cons, size_eq] at hk
      omega
    | none =>
      rw [hn] at hstep
      simp only at hstep
      rw [hstep]
      simp only [List.map_nil, List.append_nil]
      constructor
      · intro h
        cases h with
        | leaf h1 => rw [hn] at h1; cases h1
        | descend h1 => rw [hn] at h1; cases h1
        | leave _ h2 => exact h2
        | done _ h2 => exact h2
      · intro h
        cases ls with
        | nil => exact .done hn h
        | cons m ms => exact .leave hn h
  | succ k ih =>
    intro l ls v cs fs x hk hf hr
    have hl := hf l (by simp)
    have hstep := step_eq (rev := false) he hl.toOk (fun i hi => Nat.le_of_lt (hl.idx i hi))
    have hnext : l.step false = l.next := rfl
    rw [hnext] at hstep
    cases hn : l.next with
    | none =>
      rw [hn] at hstep
      simp only at hstep
      rw [hstep]
      simp only [List.map_nil, List.append_nil]
      constructor
      · intro h
        cases h with
        | leaf h1 => rw [hn] at h1; cases h1
        | descend h1 => rw [hn] at h1; cases h1
        | leave _ h2 => exact h2
        | done _ h2 => exact h2
      · intro h
        cases ls with
        | nil => exact .done hn h
        | cons m ms => exact .leave hn h
    | some y =>
      obtain ⟨n, l'⟩ := y
      rw [hn] at hstep
      obtain ⟨h1, i, rfl, hit⟩ := hstep
      have hlt := lt_of_itemAt hit
      have hfine' : ∀ z ∈ { l with index := some i } :: ls, Fine t st en z := by
        intro z hz
        simp only [List.mem_cons] at hz
        rcases hz with rfl | hz
        · exact ⟨hl.toOk.withIndex _, by simp only [Option.some.injEq]; rintro _ rfl; exact hlt⟩
        · exact hf z (by simp [hz])
      have hsn : Steps st en [] n.1 := hr n (by rw [h1]; simp)
      have hsz : n.2.size + wsize (remain false { l with index := some i }) ≤ k + 1 := by
        rw [h1] at hk
        simpa [wsize] using hk
      have hpos : 1 ≤ n.2.size := by rw [size_eq]; omega
      have hr' : ∀ m ∈ remain false { l with index := some i }, Steps st en [] m.1 := fun m hm =>
        hr m (by rw [h1]; simp [hm])
      have ih1 := ih { l with index := some i } ls v (cs ++ [prune f (Steps st en []) n.1 n.2]) fs x (by omega) hfine' hr'
      rw [h1]
      simp only [List.map_cons]
      rw [List.append_cons, ← ih1]
      by_cases hc : n.2.children = []
      · have hpr : prune f (Steps st en []) n.1 n.2 = .node (f n.2.val) [] := by
          rw [prune_eq, hc]; rfl
        rw [hpr]
        constructor
        · intro h
          cases h with
          | leaf g1 g2 g3 => rw [hn] at g1; cases g1; exact g3
          | descend g1 g2 _ => rw [hn] at g1; cases g1; exact absurd hc g2
          | leave g1 _ => rw [hn] at g1; cases g1
          | done g1 _ => rw [hn] at g1; cases g1
        · intro h; exact .leaf hn hc h
      · obtain ⟨c, hc1, hc2, hc3, hc4, hc5⟩ := enter_eq (rev := false) hfine' (n := n)
          ⟨_, ls, i, rfl, rfl, hit⟩
        have hKs : wsize (K false st en n) < n.2.size := by
          have := wsize_iterate false n
          have := wsize_sublist (goes_K false st en n)
          omega
        have ih2 := ih c ({ l with index := some i } :: ls) (f n.2.val) [] ((v, cs) :: fs) x (by rw [hc5]; omega)
          (by
            intro z hz
            simp only [List.mem_cons] at hz
            rcases hz with rfl | hz
            · exact hc2
            · exact hfine' z (by simpa using hz))
          (by
            intro m hm
            rw [hc5, K_filter hsn, List.mem_filter] at hm
            simpa using hm.2)
        have hpr : prune f (Steps st en []) n.1 n.2 =
            .node (f n.2.val) ((K false st en n).map (fun m => prune f (Steps st en []) m.1 m.2)) := by
          rw [prune_eq, K_filter hsn]
        rw [hc5] at ih2
        simp only [After, closeTop, List.nil_append] at ih2
        rw [← hpr] at ih2
        rw [← ih2]
        constructor
        · intro h
          cases h with
          | leaf g1 g2 _ => rw [hn] at g1; cases g1; exact absurd g2 hc
          | descend g1 g2 g3 => rw [hn] at g1; cases g1; rw [hc1] at g3; exact g3
          | leave g1 _ => rw [hn] at g1; cases g1
          | done g1 _ => rw [hn] at g1; cases g1
        · intro h
          refine .descend hn hc ?_
          rw [hc1]
          exact h

/-- The trails of the range that starts here: what is below the node at `p`. -/
theorem inR_here {st en st' en' : Option Path} {p a : Path} {i : ℕ}
    (hs : ∀ s, st' = some s ↔ s ≠ [] ∧ st = some (p ++ s)) (he : ∀ e, en' = some e ↔ en = some (p ++ e)) :
    InR st' en' a i ↔ InR st en (p ++ a) i := by
  unfold InR
  constructor
  · rintro ⟨h1, h2⟩
    refine ⟨?_, ?_⟩
    · rintro s rfl j q rfl
      exact h1 (a ++ j :: q) ((hs _).mpr ⟨by simp, by simp⟩) j q rfl
    · rintro e rfl
      refine ⟨?_, ?_⟩
      · rintro rfl
        exact (h2 a ((he a).mpr rfl)).1 rfl
      · rintro j q rfl
        exact (h2 (a ++ j :: q) ((he _).mpr (by simp))).2 j q rfl
  · rintro ⟨h1, h2⟩
    refine ⟨?_, ?_⟩
    · rintro s hs' j q rfl
      exact h1 _ ((hs _).mp hs').2 j q (by simp)
    · intro e he'
      have := h2 _ ((he e).mp he')
      refine ⟨?_, ?_⟩
      · rintro rfl; exact this.1 rfl
      · rintro j q rfl; exact this.2 j q (by simp)

theorem fromHere_eq {t : Tree α} {st en : Option Path} {l l' : Level α} {ls : List (Level α)} (hl : l.here = some l')
    (hok : Ok t st en l') {p : Path} {n : Tree α} (hn : l'.node = (p, n)) :
    ∃ st' en', Range.fromHere ⟨t, st, en, l :: ls⟩ = some (make n st' en') ∧
      (∀ s, st' = some s ↔ s ≠ [] ∧ st = some (p ++ s)) ∧ (∀ e, en' = some e ↔ en = some (p ++ e)) := by
  refine ⟨l'.hereSt, l'.hereEn, by simp only [Range.fromHere, hl, hn], ?_, ?_⟩
  · intro s
    unfold Level.hereSt
    rw [hok.hst, hok.hdepth, hn]
    unfold keptS
    cases hs : truthy st with
    | none =>
      simp only [reduceCtorEq, false_iff, not_and]
      rintro hne rfl
      cases p with
      | nil => cases s with
        | nil => exact hne rfl
        | cons => simp [truthy] at hs
      | cons => simp [truthy] at hs
    | some s0 =>
      obtain ⟨rfl, h0⟩ := truthy_some hs
      by_cases hp : p <+: s0 ∧ p.length < s0.length
      · simp only [hp, and_self, if_true]
        obtain ⟨⟨q, rfl⟩, hlen⟩ := hp
        have hq : q ≠ [] := by rintro rfl; simp at hlen
        simp only [List.drop_left, truthy_of_ne hq, Option.some.injEq, List.append_cancel_left_eq]
        constructor
        · rintro rfl; exact ⟨hq, rfl⟩
        · rintro ⟨-, h⟩; exact h
      · simp only [if_neg hp, reduceCtorEq, false_iff, not_and, Option.some.injEq]
        rintro hne rfl
        exact hp ⟨⟨s, rfl⟩, by cases s; exact absurd rfl hne; simp⟩
  · intro e
    unfold Level.hereEn
    rw [hok.hen, hok.hdepth, hn]
    unfold keptE
    cases en with
    | none => simp
    | some e0 =>
      by_cases hp : p <+: e0
      · simp only [if_pos hp]
        obtain ⟨q, rfl⟩ := hp
        simp
      · simp only [if_neg hp, reduceCtorEq, false_iff, Option.some.injEq]
        rintro rfl
        exact hp ⟨e, rfl⟩

/-- C35: after going to a node of the range (the ancestor for an empty trail), `extract_tree()` ends,
and gives the copy of the node with exactly those nodes below it that touch the
range (they or a descendant are between the start and the end). -/
theorem C35_extract_tree (f : α → α) (t : Tree α) (st en : Option Path) (hp : Proper t st en) (p : Path) (n : Tree α)
    (hn : t.get? p = some n) (ht : Touches t st en p) :
    ∃ r, (make t st en).gotoTrail p = some r ∧ r.node = some (p, n) ∧
      ∀ x, ExtractTree f r x ↔ x = prune f (Touches t st en) p n := by
  have hs := (touches_iff hp hn).mp ht
  obtain ⟨ls, h1, h2, h3⟩ := gotoTrail_eq p hn hs
  obtain ⟨r, h4, h5, -⟩ := C33_descendants_send false t st en hp p n hn ht always
  rw [h1] at h4
  cases h4
  refine ⟨_, h1, h5, ?_⟩
  have key : ∃ l ms l', ls = l :: ms ∧ l.here = some l' ∧ Ok t st en l' ∧ l'.node = (p, n) := by
    rcases h3 with ⟨rfl, rfl⟩ | ⟨-, h3, -, -⟩
    · simp only [Tree.get?, Option.some.injEq] at hn
      subst hn
      exact ⟨_, _, _, rfl, rfl, ok_make t st en, rfl⟩
    · obtain ⟨l, ms, i, rfl, hi, hit⟩ := h3
      obtain ⟨c, hc, hok, hcn, -⟩ := ok_child (h2 l (by simp)).toOk hit
      exact ⟨l, ms, c, rfl, by simp [Level.here, hi, hc], hok, hcn⟩
  obtain ⟨l, ms, l', rfl, hh, hok, hln⟩ := key
  obtain ⟨st', en', hfh, hs', he'⟩ := fromHere_eq (ls := ms) hh hok hln
  have hve : ValidEnd n en' := by
    intro e h
    obtain ⟨m, hm⟩ := hp.2.1 _ ((he' e).mp h)
    rw [get?_append, hn] at hm
    exact ⟨m, hm⟩
  have hsteps : ∀ a, Steps st' en' [] a ↔ Steps st en [] (p ++ a) := by
    intro a
    rw [steps_append]
    have : Steps st' en' [] a ↔ Steps st en p a := by
      unfold Steps
      simp only [List.nil_append]
      exact forall_congr' fun b => forall_congr' fun k => forall_congr' fun d => imp_congr_right fun _ => inR_here hs' he'
    rw [this]
    exact ⟨fun h => ⟨hs, h⟩, fun h => h.2⟩
  have hnil : Steps st' en' [] [] := fun a k b h => by simp at h
  intro x
  have hfin := fine_make n st' en'
  have hrem : remain false (Level.make ([], n) st' en' 0) = K false st' en' ([], n) :=
    remain_none hfin.toOk rfl
  have hE := extracts_iff (f := f) hve _ (Level.make ([], n) st' en' 0) [] (f n.val) [] [] x (Nat.le_refl _)
    (by intro z hz; simp only [List.mem_singleton] at hz; subst hz; exact hfin)
    (by
      intro m hm
      rw [hrem, K_filter hnil, List.mem_filter] at hm
      simpa using hm.2)
  have hE' : ExtractTree f ⟨t, st, en, l :: ms⟩ x ↔
      Extracts f [Level.make ([], n) st' en' 0] [(f n.val, [])] x := by
    unfold ExtractTree
    rw [hfh]
    simp [make]
  rw [hE', hE, hrem, K_filter hnil]
  simp only [After, plug, List.nil_append, Option.some.injEq]
  rw [← prune_eq f (Steps st' en' []) ([], n), eq_comm]
  have : prune f (Steps st' en' []) [] n = prune f (Touches t st en) p n := by
    refine prune_congr n (fun a m hm => ?_)
    rw [List.nil_append, hsteps, touches_iff hp (n := m)]
    rw [get?_append, hn]
    exact hm
  rw [this]

/-- Extracting from A(B(C D) E(F G(H))) between D and E leaves A(B(D) E). -/
example : prune id (fun p => p = [0] ∨ p = [0, 1] ∨ p = [1]) [] exTree =
    .node 'A' [.node 'B' [leaf 'D'], leaf 'E'] := by
  simp [prune, prune.kids, exTree, leaf]

example : Proper exTree (some [0, 1]) (some [1]) ∧ Touches exTree (some [0, 1]) (some [1]) [] ∧
    ExtractTree id (make exTree (some [0, 1]) (some [1])) (.node 'A' [.node 'B' [leaf 'D'], leaf 'E']) := by
  refine ⟨⟨?_, ?_, ?_⟩, ⟨[1], exE, rfl, ?_, ?_⟩, ?_⟩
  · rintro s ⟨⟩; exact ⟨_, rfl⟩
  · rintro s ⟨⟩; exact ⟨_, rfl⟩
  · rintro s e ⟨⟩ ⟨⟩
    exact .inr (.inr ⟨[], 0, 1, [1], [], rfl, rfl, by decide⟩)
  · rintro s ⟨⟩
    exact .inr (.inr ⟨[], 0, 1, [1], [], rfl, rfl, by decide⟩)
  · rintro s ⟨⟩
    exact .inl rfl
  · refine ⟨_, rfl, ?_⟩
    refine .descend rfl (by simp [Tree.children]) ?_
    refine .leaf rfl rfl ?_
    refine .leave rfl ?_
    refine .descend rfl (by simp [Tree.children]) ?_
    refine .leave rfl ?_
    exact .done rfl (by simp [plug, closeTop, addLeaf, Tree.val, leaf, exTree, make, Level.make])

end Quickly.NodeRange
