import Verif.RhythmEdits.Labels

/-! # The edits of nodes are those of labels -/

namespace Quickly.RhythmEdits

open Quickly.Node Quickly.Signature Quickly.Length Quickly.RhythmTime Quickly.RhythmTime.Spec Spec
open Quickly.Rhythm (Mus)

mutual
/-- All Durations in a node have only scalings and comments. -/
def QuietT : Nd → Prop
  | .node _ cs => QuietL cs
/-- The same for all nodes of a list. -/
def QuietL : List Nd → Prop
  | [] => True
  | c :: cs => (c.val.1 = .Duration → DurTree c) ∧ (c.val.1 ≠ .Duration → QuietT c) ∧ QuietL cs
end

theorem quietL_iff (cs : List Nd) : QuietL cs ↔
    ∀ c ∈ cs, (c.val.1 = .Duration → DurTree c) ∧ (c.val.1 ≠ .Duration → QuietT c) := by
  induction cs with
  | nil => simp [QuietL]
  | cons c cs ih => simp [QuietL, ih, and_assoc]

/-- A change that only adds proper Durations. -/
def FineT (ch : RhythmTime.Change) : Prop := ∀ d, ch = .add d → DurTree d

theorem FineT.fine {ch : RhythmTime.Change} (h : FineT ch) : Fine ch := fun d e => (h d e).1

theorem quiet_apply (ch : RhythmTime.Change) (h : FineT ch) (c : Cls) (cs : List Nd) (hq : QuietL cs) :
    QuietL (ch.apply c cs) := by
  rw [quietL_iff] at hq ⊢
  intro x hx
  cases ch with
  | keep => exact hq x hx
  | del => exact hq x (List.eraseP_subset hx)
  | add d =>
    obtain ⟨a, b, h1, h2⟩ := Add.C40_keeps_children isAny (childOrder c) cs d
    simp only [Change.apply, h2, List.mem_append, List.mem_cons] at hx
    have hd := h d rfl
    rcases hx with hx | hx | hx
    · exact hq x (by simp [h1, hx])
    · subst hx; exact ⟨fun _ => hd, fun hn => (hn hd.1).elim⟩
    · exact hq x (by simp [h1, hx])
  | set q s =>
    rcases setFirst_split q s cs with e | ⟨xs, e, ys, h1, h2, h3⟩
    · simp only [Change.apply, e] at hx; exact hq x hx
    · simp only [Change.apply, h3, List.mem_append, List.mem_cons] at hx
      rcases hx with hx | hx | hx
      · exact hq x (by simp [h1, hx])
      · subst hx
        have := setDur_tree q s e ((hq e (by simp [h1])).1 h2)
        exact ⟨fun _ => this, fun hn => (hn this.1).elim⟩
      · exact hq x (by simp [h1, hx])

mutual
theorem previous_labels : ∀ (t : Nd) (i : ℕ) (b : List Nd) (b' : List Rhythm.Label), QuietT t →
    previousDuration b = Rhythm.previousDuration b' →
    previousDuration (rev t ++ b) = Rhythm.previousDuration (Rhythm.rev (labels i t) ++ b')
  | .node l cs, i, b, b', hq, hb => by
    have ih := previous_labelsL cs (if l.1 ∈ timed then i + 1 else i) b b' hq hb
    have hs : ((kindOf (.node l cs)).durable && (kindOf (.node l cs)).sets) = setsPrevious (.node l cs) := by
      rw [kind_sets, kind_durable]
      unfold setsPrevious
      cases isA .Durable (.node l cs) <;> rfl
    simp only [rev, labels, Rhythm.rev, List.cons_append, previousDuration, Rhythm.previousDuration, label, hs, ih]
    cases setsPrevious (.node l cs) <;> cases durationScaling (.node l cs) <;> rfl
theorem previous_labelsL : ∀ (ts : List Nd) (i : ℕ) (b : List Nd) (b' : List Rhythm.Label), QuietL ts →
    previousDuration b = Rhythm.previousDuration b' →
    previousDuration (revL ts ++ b) = Rhythm.previousDuration (Rhythm.revL (labelsL i ts) ++ b')
  | [], i, b, b', hq, hb => hb
  | t :: ts, i, b, b', hq, hb => by
    obtain ⟨h1, h2, h3⟩ := hq
    rw [revL, List.append_assoc, labelsL]
    by_cases hd : t.val.1 = .Duration
    · simp only [hd, if_true]
      exact previous_labelsL ts i _ b' h3 (((durTree_ok t (h1 hd)).2.1 b).trans hb)
    · simp only [hd, if_false, Rhythm.revL, List.append_assoc]
      exact previous_labelsL ts _ _ _ h3 (previous_labels t i b b' (h2 hd) hb)
end

/-- What is known of a node. -/
def Reg (x : Bool × Nd) : Prop :=
  (durs x.2).length ≤ 1 ∧ (x.2.val.1 = .Duration → WrittenDuration x.2) ∧ Apart x.2.children

theorem Reg.calm {xs : List (Bool × Nd)} (h : ∀ x ∈ xs, Reg x) : Calm xs :=
  fun x hx hd => durTree_of hd ((h x hx).2.1 hd)

variable {σ τ : Type}

/-- What is done with a node is what is done with its label. -/
def Step (P : Proc σ) (p : Rhythm.Proc τ) (which : ℕ → Nd → Bool) (R : σ → τ → Prop) : Prop :=
  ∀ st st' i before before' right right' n cs', R st st' → which i n = true →
    previousDuration before = Rhythm.previousDuration before' →
    (isA .Durable n = true → right' = right.map kindOf) → (durs n).length ≤ 1 → (∀ d ∈ durs n, WrittenDuration d) →
    durs (.node n.val cs') = durs n →
    R (P st i before right n).1 (p st' before' right' (label i n)).1 ∧ FineT (P st i before right n).2 ∧
      durationScaling (.node n.val ((P st i before right n).2.apply n.val.1 cs')) = (p st' before' right' (label i n)).2

variable {P : Proc σ} {p : Rhythm.Proc τ} {which : ℕ → Nd → Bool} {which' : ℕ → Rhythm.Label → Bool} {R : σ → τ → Prop}

theorem own_written {ins : Bool} {cs : List Nd} (h : ∀ x ∈ nodesL ins cs, Reg x) (l : Cls × Val) :
    ∀ d ∈ durs (.node l cs), WrittenDuration d := by
  intro d hd
  obtain ⟨h1, h2⟩ := List.mem_filter.1 hd
  exact (h _ (nodesL_mem ins cs d h1)).2.1 (of_decide_eq_true h2)

theorem head_labels (cs : List Nd) (i : ℕ) (h : ∀ d, cs.head? = some d → d.val.1 ≠ .Duration) :
    (labelsL i cs).head?.map (·.label.kind) = cs.head?.map kindOf := by
  cases cs with
  | nil => rfl
  | cons c cs =>
    have := h c rfl
    obtain ⟨l, xs⟩ := c
    simp only [labelsL, this, if_false, labels, List.head?_cons, Option.map_some, Rhythm.Mus.label, label]

theorem labelsL_solid (cs : List Nd) (i : ℕ) : labelsL i cs = labelsL i (cs.filter solid) := by
  induction cs generalizing i with
  | nil => rfl
  | cons c cs ih =>
    by_cases h : c.val.1 = .Duration
    · simp only [labelsL, h, if_true, List.filter_cons, solid, ne_eq, not_true_eq_false, decide_false, Bool.false_eq_true,
        if_false]
      exact ih i
    · simp only [labelsL, h, if_false, List.filter_cons, solid, ne_eq, not_false_eq_true, decide_true, if_true]
      rw [ih]

theorem labelsL_apply (ch : RhythmTime.Change) (h : Fine ch) (c : Cls) (cs : List Nd) (i : ℕ) :
    labelsL i (ch.apply c cs) = labelsL i cs := by
  rw [labelsL_solid, apply_solid ch h, ← labelsL_solid]

mutual
theorem walk_sim (hs : Step P p which R) (hw : ∀ i n, which i n = true → n.val.1 ∈ timed)
    (hl : ∀ i n j, which' j (label i n) = which i n) : ∀ (t : Nd) (ins : Bool) (st : σ) (st' : τ) (i j : ℕ)
    (before : List Nd) (before' : List Rhythm.Label) (right : Option Nd) (right' : Option Rhythm.Kind),
    (∀ x ∈ nodes ins t, Reg x) → t.val.1 ≠ .Duration → R st st' →
    previousDuration before = Rhythm.previousDuration before' →
    (isA .Durable t = true → right' = right.map kindOf) →
    R (walk P which st i before right t).1 (Rhythm.walk p which' st' j before' right' (labels i t)).1 ∧
      labels i (walk P which st i before right t).2.2 = (Rhythm.walk p which' st' j before' right' (labels i t)).2.2 ∧
      QuietT (walk P which st i before right t).2.2 ∧
      (owned (walk P which st i before right t).2.2).length = (owned t).length
  | .node l cs, ins, st, st', i, j, before, before', right, right', hr, hd, hR, hb, hright => by
    have hrc : ∀ x ∈ nodesL (ins || decide (l.1 ∈ sounding)) cs, Reg x := fun x hx => hr x (child_nodes x hx)
    obtain ⟨r1, -, r3⟩ := hr _ (node_mem ins (.node l cs))
    have hcalm := Reg.calm hrc
    have hst : ∀ (st1 : σ) (i1 : ℕ) (b1 : List Nd), durs (.node l (walkL P which st1 i1 b1 cs).2.2) = durs (.node l cs) :=
      fun st1 i1 b1 => walkL_durs hw cs _ st1 i1 b1 hcalm
    by_cases hwi : which i (.node l cs) = true
    · obtain ⟨s1, s2, s3⟩ := hs st st' i before before' right right' (.node l cs)
        (walkL P which (P st i before right (.node l cs)).1
          (if isA .HandleDuration (.node l cs) then i + 1 else i) before cs).2.2
        hR hwi hb hright r1 (own_written hrc l) (hst _ _ _)
      obtain ⟨i1, i2, i3, i4⟩ := walkL_sim hs hw hl cs _ _ _
        (if isA .HandleDuration (.node l cs) then i + 1 else i) (j + 1) before before' hrc r3 s1 hb
      simp only [walk, labels, Rhythm.walk, hl, hwi, if_true]
      have hi : (if isA .HandleDuration (.node l cs) = true then i + 1 else i) = if l.1 ∈ timed then i + 1 else i := by
        rw [handle_iff]; simp only [decide_eq_true_eq]; rfl
      refine ⟨by rw [← hi]; exact i1, ?_, quiet_apply _ s2 _ _ i3, ?_⟩
      · rw [label_apply l cs _ s2.fine, ← hi, ← i2]
        rw [labelsL_apply _ s2.fine]
        have s3' : durationScaling (.node l (Change.apply l.1 (walkL P which (P st i before right (.node l cs)).1
            (if isA .HandleDuration (.node l cs) = true then i + 1 else i) before cs).2.2
            (P st i before right (.node l cs)).2)) = _ := s3
        rw [s3']
      · simp only [owned, List.length_append]
        rw [ownedL_apply _ s2.fine, i4]
        split <;> rfl
    · have hwf : which i (.node l cs) = false := by simpa using hwi
      obtain ⟨i1, i2, i3, i4⟩ := walkL_sim hs hw hl cs _ st st'
        (if isA .HandleDuration (.node l cs) then i + 1 else i) (j + 1) before before' hrc r3 hR hb
      simp only [walk, labels, Rhythm.walk, hl, hwf, Bool.false_eq_true, if_false]
      have hi : (if isA .HandleDuration (.node l cs) = true then i + 1 else i) = if l.1 ∈ timed then i + 1 else i := by
        rw [handle_iff]; simp only [decide_eq_true_eq]; rfl
      have fk : FineT .keep := fun d e => by cases e
      refine ⟨by rw [← hi]; exact i1, ?_, quiet_apply _ fk _ _ i3, ?_⟩
      · rw [label_apply l cs _ fk.fine, ← hi, ← i2]
        have : durationScaling (.node l (Change.apply l.1 (walkL P which st
            (if isA .HandleDuration (.node l cs) = true then i + 1 else i) before cs).2.2 .keep)) =
            (label i (.node l cs)).dur := scaling_durs (hst _ _ _)
        rw [this]
        rfl
      · simp only [owned, List.length_append, Change.apply]
        rw [i4]
        split <;> rfl
theorem walkL_sim (hs : Step P p which R) (hw : ∀ i n, which i n = true → n.val.1 ∈ timed)
    (hl : ∀ i n j, which' j (label i n) = which i n) : ∀ (ts : List Nd) (ins : Bool) (st : σ) (st' : τ) (i j : ℕ)
    (before : List Nd) (before' : List Rhythm.Label),
    (∀ x ∈ nodesL ins ts, Reg x) → Apart ts → R st st' →
    previousDuration before = Rhythm.previousDuration before' →
    R (walkL P which st i before ts).1 (Rhythm.walkL p which' st' j before' (labelsL i ts)).1 ∧
      labelsL i (walkL P which st i before ts).2.2 = (Rhythm.walkL p which' st' j before' (labelsL i ts)).2.2 ∧
      QuietL (walkL P which st i before ts).2.2 ∧
      (ownedL (walkL P which st i before ts).2.2).length = (ownedL ts).length
  | [], ins, st, st', i, j, before, before', hr, ha, hR, hb => ⟨hR, rfl, trivial, rfl⟩
  | t :: ts, ins, st, st', i, j, before, before', hr, ha, hR, hb => by
    have hrt : ∀ x ∈ nodes ins t, Reg x := fun x hx => hr x (by simp [nodesL, hx])
    have hrs : ∀ x ∈ nodesL ins ts, Reg x := fun x hx => hr x (by simp [nodesL, hx])
    have has : Apart ts := by
      cases ts with
      | nil => trivial
      | cons d ts => exact ha.2
    by_cases hd : t.val.1 = .Duration
    · have hdt := Reg.calm hrt _ (node_mem ins t) hd
      have hwd := walk_duration (P := P) hw t hdt st i before ts.head?
      obtain ⟨i1, i2, i3, i4⟩ := walkL_sim hs hw hl ts ins st st' i j (rev t ++ before) before' hrs has hR
        (((durTree_ok t hdt).2.1 before).trans hb)
      simp only [walkL, hwd, labelsL, hd, if_true, QuietL, ownedL]
      exact ⟨i1, i2, ⟨fun _ => hdt, fun hn => (hn rfl).elim, i3⟩, i4⟩
    · have hright : isA .Durable t = true →
          (labelsL (i + (owned t).length) ts).head?.map (·.label.kind) = ts.head?.map kindOf := by
        intro hdur
        refine head_labels ts _ ?_
        intro d hd'
        cases ts with
        | nil => cases hd'
        | cons e ts =>
          cases hd'
          refine ha.1 ?_
          rw [isA, durable_cls] at hdur
          simpa using hdur
      obtain ⟨i1, i2, i3, i4⟩ := walk_sim hs hw hl t ins st st' i j before before' ts.head? _ hrt hd hR hb hright
      have hcount : (walk P which st i before ts.head? t).2.1 = i + (owned t).length := by
        rw [walk_count t ins, count_owned ins t (Reg.calm hrt) hd]
      obtain ⟨k1, k2, k3, k4⟩ := walkL_sim hs hw hl ts ins _ _ (i + (owned t).length)
        (Rhythm.walk p which' st' j before'
          ((labelsL (i + (owned t).length) ts).head?.map (·.label.kind)) (labels i t)).2.1
        (rev (walk P which st i before ts.head? t).2.2 ++ before)
        (Rhythm.rev (labels i (walk P which st i before ts.head? t).2.2) ++ before') hrs has i1
        (previous_labels _ i _ _ i3 hb)
      simp only [walkL, hcount, labelsL, hd, if_false, Rhythm.walkL, walk_val, QuietL, ownedL, List.length_append, i4]
      rw [i2] at k1 k2
      refine ⟨k1, ?_, ⟨fun h => h.elim, fun _ => i3, k3⟩, by rw [k4]⟩
      rw [i2, k2]
end

end Quickly.RhythmEdits
