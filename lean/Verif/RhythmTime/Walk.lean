import Verif.RhythmTime.Docs
import Verif.Add.Props

/-! # Walks that change Durations -/

namespace Quickly.RhythmTime

open Quickly.Node Quickly.Signature Quickly.Length Quickly.Length.Spec Spec
open Quickly.Duration (Transform)
open Quickly.Time (Mus Kind Remote)

variable {T : Transform → Prop} {E : D → D → Prop} {σ : Type} {P : Proc σ} {which : ℕ → Nd → Bool}

theorem exists_before (p : D) : ∃ b, previousDuration b = p := by
  refine ⟨[.node (.Note, .text "c") [fromDuration p]], ?_⟩
  have h1 : setsPrevious (.node (.Note, .text "c") [fromDuration p]) = true := by
    rw [sets_iff]; simp [Node.Tree.val, sounding, events]
  have h2 : isA .Duration (fromDuration p) = true := by rw [isA_duration]; rfl
  simp [previousDuration, h1, durationScaling, Node.Tree.children, h2, fromDuration_value]

/-! ## Numbers -/

/-- The nodes that can have a duration. -/
def timedNodes (xs : List (Bool × Nd)) : List (Bool × Nd) := xs.filter fun x => decide (x.2.val.1 ∈ timed)

theorem timedNodes_append (xs ys : List (Bool × Nd)) : timedNodes (xs ++ ys) = timedNodes xs ++ timedNodes ys :=
  List.filter_append ..

theorem timedNodes_node (ins : Bool) (l : Cls × Val) (cs : List Nd) (i : ℕ) :
    i + (timedNodes (nodes ins (.node l cs))).length =
      (if isA .HandleDuration (.node l cs) = true then i + 1 else i) +
        (timedNodes (nodesL (ins || decide (l.1 ∈ sounding)) cs)).length := by
  rw [handle_iff]
  simp only [nodes, timedNodes, List.filter_cons]
  change _ = (if decide (l.1 ∈ timed) = true then i + 1 else i) + _
  by_cases h : l.1 ∈ timed
  · simp only [Node.Tree.val, h, decide_true, if_true, List.length_cons]; omega
  · simp [Node.Tree.val, h]

mutual
theorem walk_count : ∀ (t : Nd) (ins : Bool) (st : σ) (i : ℕ) (before : List Nd) (right : Option Nd),
    (walk P which st i before right t).2.1 = i + (timedNodes (nodes ins t)).length
  | .node l cs, ins, st, i, before, right => by
    simp only [walk]
    rw [walkL_count cs (ins || decide (l.1 ∈ sounding)), timedNodes_node]
theorem walkL_count : ∀ (ts : List Nd) (ins : Bool) (st : σ) (i : ℕ) (before : List Nd),
    (walkL P which st i before ts).2.1 = i + (timedNodes (nodesL ins ts)).length
  | [], ins, st, i, before => rfl
  | t :: ts, ins, st, i, before => by
    simp only [walkL]
    rw [walkL_count ts ins, walk_count t ins, nodesL, timedNodes_append, List.length_append]
    omega
end

/-- All nodes have a property, and the nodes that can have a duration have one that depends on their number. -/
def Loc (Okn : Bool × Nd → Prop) (Sx : ℕ → Bool × Nd → Prop) (i : ℕ) (xs : List (Bool × Nd)) : Prop :=
  (∀ x ∈ xs, Okn x) ∧ ∀ (k : ℕ) (x : Bool × Nd), (timedNodes xs)[k]? = some x → Sx (i + k) x

variable {Okn : Bool × Nd → Prop} {Sx : ℕ → Bool × Nd → Prop}

theorem Loc.append {i : ℕ} {xs ys : List (Bool × Nd)} (h : Loc Okn Sx i (xs ++ ys)) :
    Loc Okn Sx i xs ∧ Loc Okn Sx (i + (timedNodes xs).length) ys := by
  obtain ⟨h1, h2⟩ := h
  rw [timedNodes_append] at h2
  refine ⟨⟨fun x hx => h1 x (by simp [hx]), fun k x hx => ?_⟩, ⟨fun x hx => h1 x (by simp [hx]), fun k x hx => ?_⟩⟩
  · refine h2 k x ?_
    rw [List.getElem?_append_left]
    · exact hx
    · exact (List.getElem?_eq_some_iff.1 hx).1
  · have := h2 ((timedNodes xs).length + k) x (by
      rw [List.getElem?_append_right (by omega)]
      simpa using hx)
    rw [Nat.add_assoc]
    exact this

theorem Loc.node {i : ℕ} {ins : Bool} {l : Cls × Val} {cs : List Nd} (h : Loc Okn Sx i (nodes ins (.node l cs))) :
    Okn (ins, .node l cs) ∧ (l.1 ∈ timed → Sx i (ins, .node l cs)) ∧
      Loc Okn Sx (if isA .HandleDuration (.node l cs) = true then i + 1 else i)
        (nodesL (ins || decide (l.1 ∈ sounding)) cs) := by
  simp only [nodes] at h
  have h' : Loc Okn Sx i ([(ins, .node l cs)] ++ nodesL (ins || decide (l.1 ∈ sounding)) cs) := h
  obtain ⟨h1, h2⟩ := h'.append
  refine ⟨h1.1 _ (by simp), ?_, ?_⟩
  · intro ht
    have := h1.2 0 (ins, .node l cs) (by simp [timedNodes, Node.Tree.val, ht])
    simpa using this
  · rw [handle_iff]
    by_cases ht : l.1 ∈ timed
    · simpa [timedNodes, Node.Tree.val, ht] using h2
    · simpa [timedNodes, Node.Tree.val, ht] using h2

mutual
/-- A walk that does nothing. -/
theorem walk_same (hw : ∀ i n, which i n = true → n.val.1 ∈ timed) : ∀ (t : Nd) (ins : Bool) (st : σ) (i : ℕ)
    (before : List Nd) (right : Option Nd),
    Loc (fun _ => True) (fun j x => which j x.2 = true → ∀ before right, P st j before right x.2 = (st, .keep)) i
      (nodes ins t) → walk P which st i before right t = (st, i + (timedNodes (nodes ins t)).length, t)
  | .node l cs, ins, st, i, before, right, h => by
    obtain ⟨-, h2, h3⟩ := h.node
    have ih := walkL_same hw cs _ st _ before h3
    have hp : (if which i (.node l cs) = true then P st i before right (.node l cs) else (st, .keep)) = (st, .keep) := by
      split
      · rename_i hwi
        exact h2 (hw _ _ hwi) hwi before right
      · rfl
    simp only [walk, hp, ih, Change.apply, timedNodes_node]
theorem walkL_same (hw : ∀ i n, which i n = true → n.val.1 ∈ timed) : ∀ (ts : List Nd) (ins : Bool) (st : σ) (i : ℕ)
    (before : List Nd),
    Loc (fun _ => True) (fun j x => which j x.2 = true → ∀ before right, P st j before right x.2 = (st, .keep)) i
      (nodesL ins ts) → walkL P which st i before ts = (st, i + (timedNodes (nodesL ins ts)).length, ts)
  | [], ins, st, i, before, h => rfl
  | t :: ts, ins, st, i, before, h => by
    rw [nodesL] at h
    obtain ⟨h1, h2⟩ := h.append
    have ih1 := walk_same hw t ins st i before ts.head? h1
    have ih2 := walkL_same hw ts ins st _ (rev t ++ before) h2
    simp only [walkL, ih1, ih2, nodesL, timedNodes_append, List.length_append, Nat.add_assoc]
end

/-! ## Durations are not visited -/

theorem nodes_leaves (ins : Bool) (xs : List Nd) (h : ∀ x ∈ xs, x.val.1 ∈ inDuration ∧ x.children = []) :
    timedNodes (nodesL ins xs) = [] := by
  induction xs with
  | nil => rfl
  | cons x xs ih =>
    obtain ⟨⟨c, v⟩, cs⟩ := x
    obtain ⟨h1, h2⟩ := h (.node (c, v) cs) (by simp)
    change c ∈ inDuration at h1
    change cs = [] at h2
    subst h2
    have := (inDuration_cls c h1).2.2.2.2.2.2.2
    rw [timed_cls] at this
    rw [nodesL, timedNodes_append, ih fun y hy => h y (by simp [hy])]
    have hc : c ∉ timed := of_decide_eq_false this.symm.symm
    simp [nodes, nodesL, timedNodes, Node.Tree.val, hc]

theorem nodes_duration (ins : Bool) (d : Nd) (h : DurTree d) : timedNodes (nodes ins d) = [] := by
  obtain ⟨⟨c, v⟩, cs⟩ := d
  obtain ⟨h1, h2⟩ := h
  change c = .Duration at h1
  change ∀ x ∈ cs, _ at h2
  subst h1
  have ht : decide (Cls.Duration ∈ timed) = false := by decide
  simp only [nodes, timedNodes, List.filter_cons, Node.Tree.val, ht, Bool.false_eq_true, if_false]
  exact nodes_leaves _ cs h2

theorem walk_duration (hw : ∀ i n, which i n = true → n.val.1 ∈ timed) (d : Nd) (h : DurTree d) (st : σ) (i : ℕ)
    (before : List Nd) (right : Option Nd) : walk P which st i before right d = (st, i, d) := by
  have := walk_same (P := P) hw d false st i before right ⟨fun _ _ => trivial, fun k x hx => by
    rw [nodes_duration false d h] at hx; simp at hx⟩
  rw [this, nodes_duration false d h]
  rfl

theorem walk_val (t : Nd) (st : σ) (i : ℕ) (before : List Nd) (right : Option Nd) :
    (walk P which st i before right t).2.2.val = t.val := by
  obtain ⟨l, cs⟩ := t
  rfl

theorem walkL_vals (ts : List Nd) : ∀ (st : σ) (i : ℕ) (before : List Nd),
    List.Forall₂ ValRel ts (walkL P which st i before ts).2.2 := by
  induction ts with
  | nil => intro st i before; exact .nil
  | cons t ts ih =>
    intro st i before
    simp only [walkL]
    exact .cons (.inl (walk_val ..)) (ih ..)

theorem walkL_durs (hw : ∀ i n, which i n = true → n.val.1 ∈ timed) (ts : List Nd)
    (hd : ∀ x ∈ ts, x.val.1 = .Duration → DurTree x) : ∀ (st : σ) (i : ℕ) (before : List Nd) (l : Cls × Val),
    durs (.node l (walkL P which st i before ts).2.2) = durs (.node l ts) := by
  induction ts with
  | nil => intro st i before l; rfl
  | cons t ts ih =>
    intro st i before l
    simp only [walkL]
    have h1 := ih (fun x hx => hd x (by simp [hx])) (walk P which st i before ts.head? t).1
      (walk P which st i before ts.head? t).2.1 (rev (walk P which st i before ts.head? t).2.2 ++ before) l
    simp only [durs, Node.Tree.children, List.filter_cons] at h1 ⊢
    rw [h1]
    rw [walk_val]
    by_cases ht : t.val.1 = .Duration
    · rw [walk_duration hw t (hd t (by simp) ht)]
    · simp only [ht, decide_false, Bool.false_eq_true, if_false]

theorem scaling_durs {n n' : Nd} (h : durs n' = durs n) : durationScaling n' = durationScaling n := by
  simp only [durationScaling, find_durs, h]

/-! ## Changes of the children -/

/-- A Duration with another value. -/
def setDur (v : ℚ) (s : Option ℚ) : Nd → Nd
  | .node l cs => .node (l.1, .value v) (match s with
    | some s => setScaling s cs
    | none => cs)

theorem setFirst_cons (v : ℚ) (s : Option ℚ) (t : Nd) (ts : List Nd) :
    setFirst v s (t :: ts) = if t.val.1 = .Duration then setDur v s t :: ts else t :: setFirst v s ts := by
  obtain ⟨l, cs⟩ := t
  simp only [setFirst, isA_duration, decide_eq_true_eq]
  rfl

theorem drain_sub (xs : List Nd) : (drain xs).Sublist xs := by
  induction xs using drain.induct with
  | case1 => simp [drain]
  | case2 x h => simp [drain, h]
  | case3 x h => simp [drain, h]
  | case4 x y rest h ih => simp only [drain, h, if_true]; exact (ih.cons_cons y).cons x
  | case5 x y rest h ih =>
    simp only [drain, h, Bool.false_eq_true, if_false]
    exact ih.cons_cons x

theorem setScaling_leaves (s : ℚ) (ds : List Nd) (h : ∀ x ∈ ds, x.val.1 ∈ inDuration ∧ x.children = []) :
    ∀ x ∈ setScaling s ds, x.val.1 ∈ inDuration ∧ x.children = [] := by
  have hsub := List.takeWhile_append_dropWhile (p := fun x => !isA .DurationScaling x) (l := ds)
  intro x hx
  simp only [setScaling] at hx
  split at hx
  · split at hx
    · exact h x hx
    · simp only [List.mem_cons] at hx
      rcases hx with rfl | hx
      · exact ⟨by simp [inDuration, Node.Tree.val], rfl⟩
      · exact h x hx
  · rename_i l xs rest hdrop
    rw [hdrop] at hsub
    have hl := h (.node l xs) (by rw [← hsub]; simp)
    have hrest : ∀ y ∈ rest, y ∈ ds := fun y hy => by rw [← hsub]; simp [hy]
    rw [List.mem_append] at hx
    rcases hx with hx | hx
    · exact h x (by rw [← hsub]; simp [hx])
    · split at hx
      · rw [List.mem_append] at hx
        rcases hx with hx | hx
        · exact h x (hrest x (List.mem_of_mem_take hx))
        · exact h x (hrest x (List.mem_of_mem_drop ((drain_sub _).subset hx)))
      · simp only [List.mem_cons] at hx
        rcases hx with rfl | hx
        · exact hl
        · exact h x (hrest x ((drain_sub _).subset hx))

theorem setDur_tree (v : ℚ) (s : Option ℚ) (d : Nd) (h : DurTree d) : DurTree (setDur v s d) := by
  obtain ⟨l, cs⟩ := d
  refine ⟨h.1, ?_⟩
  cases s with
  | none => exact h.2
  | some s => exact setScaling_leaves s cs h.2

theorem isSub_scaling (c : Cls) : isSub 5 c .DurationScaling = decide (c = .DurationScaling) := by
  cases c <;> decide +kernel

theorem drain_none (xs : List Nd) (h : ∀ x ∈ xs, isA .DurationScaling x = false) : drain xs = xs := by
  induction xs using drain.induct with
  | case1 => rfl
  | case2 x hx => rw [h x (by simp)] at hx; cases hx
  | case3 x hx => simp [drain, hx]
  | case4 x y rest hx ih => rw [h x (by simp)] at hx; cases hx
  | case5 x y rest hx ih =>
    simp only [drain, hx, Bool.false_eq_true, if_false]
    rw [ih fun z hz => h z (by simp [hz])]

theorem setDur_value (v s : ℚ) (d : Nd) (h : WrittenDuration d) : durationOf (setDur v (some s) d) = (v, s) := by
  obtain ⟨l, cs⟩ := d
  obtain ⟨-, h⟩ := h
  have hf : (fun x : Nd => decide (x.val.1 = Cls.DurationScaling)) = isA .DurationScaling :=
    funext fun x => (isSub_scaling x.val.1).symm
  rw [hf] at h
  change (cs.filter (isA .DurationScaling)).length ≤ 1 at h
  suffices hs : (((setScaling s cs).filter (isA .DurationScaling)).map headValue).foldl (· * ·) 1 = s by
    simp only [setDur, durationOf, Node.Tree.children, hs]
    rfl
  have hsub := List.takeWhile_append_dropWhile (p := fun x => !isA .DurationScaling x) (l := cs)
  have htake : (cs.takeWhile fun x => !isA .DurationScaling x).filter (isA .DurationScaling) = [] := by
    rw [List.filter_eq_nil_iff]
    intro x hx
    have := List.all_takeWhile (l := cs) (p := fun x => !isA .DurationScaling x)
    rw [List.all_eq_true] at this
    simpa using this x hx
  simp only [setScaling]
  split
  · rename_i hdrop
    rw [hdrop, List.append_nil] at hsub
    rw [hsub] at htake
    split
    · rename_i h1; simp [htake, h1]
    · have : isA .DurationScaling (.node (.DurationScaling, .value s) []) = true := by rw [isA_node]; decide +kernel
      simp [List.filter_cons, this, htake, headValue, Node.Tree.val]
  · rename_i l' xs rest hdrop
    rw [hdrop] at hsub
    have hl : isA .DurationScaling (.node l' xs) = true := by
      have := List.head_dropWhile_not (fun x => !isA .DurationScaling x) (l := cs) (by simp [hdrop])
      simpa [hdrop] using this
    rw [← hsub, List.filter_append, htake, List.nil_append, List.filter_cons, hl] at h
    simp only [if_true, List.length_cons] at h
    have hrest : rest.filter (isA .DurationScaling) = [] := by
      rw [← List.length_eq_zero_iff]; omega
    have hn : ∀ x ∈ rest, isA .DurationScaling x = false := by
      intro x hx
      have := List.filter_eq_nil_iff.1 hrest x hx
      simpa using this
    rw [List.filter_append, htake, List.nil_append]
    split
    · rename_i h1
      rw [drain_none _ fun x hx => hn x (List.mem_of_mem_drop hx), List.take_append_drop, hrest]
      simp [h1]
    · rw [drain_none _ hn, List.filter_cons]
      have : isA .DurationScaling (.node (l'.1, .value s) xs) = true := hl
      rw [this, hrest]
      simp [headValue, Node.Tree.val]

theorem setFirst_scaling (v s : ℚ) (l : Cls × Val) (cs : List Nd) (d : Nd) (ds : List Nd)
    (h : durs (.node l cs) = d :: ds) (hd : WrittenDuration d) :
    durationScaling (.node l (setFirst v (some s) cs)) = some (v, s) := by
  induction cs with
  | nil => cases h
  | cons t ts ih =>
    rw [setFirst_cons]
    simp only [durs, Node.Tree.children, List.filter_cons] at h
    by_cases ht : t.val.1 = .Duration
    · simp only [ht, decide_true, if_true, List.cons.injEq] at h
      obtain ⟨rfl, h⟩ := h
      rw [if_pos ht]
      have : isA .Duration (setDur v (some s) t) = true := by
        rw [isA_duration]
        obtain ⟨l', cs'⟩ := t
        exact decide_eq_true ht
      simp only [durationScaling, Node.Tree.children, List.find?_cons_of_pos this, Option.map_some, setDur_value v s t hd]
    · simp only [ht, decide_false, Bool.false_eq_true, if_false] at h
      rw [if_neg ht]
      have hn : ¬ isA .Duration t = true := by rw [isA_duration]; simpa using ht
      have := ih h
      simp only [durationScaling, Node.Tree.children] at this ⊢
      rw [List.find?_cons_of_neg hn, this]

theorem goodL_set {p p' q q' : D} (v : ℚ) (s : Option ℚ) {cs cs' : List Nd} (h : GoodL T E p p' cs cs' q q')
    (hd : ∀ x ∈ cs, x.val.1 = .Duration → DurTree x) (hd' : ∀ x ∈ cs', x.val.1 = .Duration → DurTree x) :
    GoodL T E p p' cs (setFirst v s cs') q q' := by
  induction h with
  | nil => exact .nil _ _
  | leaf p p' r r' q q' t t' ts ts' hc hg hl ih =>
    rw [setFirst_cons]
    by_cases ht : t'.val.1 = .Duration
    · rw [if_pos ht]
      have h1 := hd t (by simp) (hg.1.cls ▸ ht)
      have h2 := hd' t' (by simp) ht
      obtain ⟨b, hb⟩ := exists_before p
      obtain ⟨b', hb'⟩ := exists_before p'
      obtain ⟨-, e1, e2⟩ := hg.2 none b b' hb hb'
      rw [(durTree_ok t h1).2.1, hb] at e1
      rw [(durTree_ok t' h2).2.1, hb'] at e2
      subst e1; subst e2
      exact .leaf _ _ _ _ _ _ _ _ _ _ hc (good_duration h1 (setDur_tree v s t' h2)) hl
    · rw [if_neg ht]
      exact .leaf _ _ _ _ _ _ _ _ _ _ hc hg (ih (fun x hx => hd x (by simp [hx])) fun x hx => hd' x (by simp [hx]))
  | pass p p' r r' q q' l cs cs' ts ts' h1 h2 h3 h4 h5 ih1 ih2 =>
    rw [setFirst_cons]
    have : (Node.Tree.node l cs').val.1 ≠ .Duration := fun h => h1 (by
      change l.1 = .Duration at h
      simp [h])
    rw [if_neg this]
    exact .pass _ _ _ _ _ _ _ _ _ _ _ h1 h2 h3 h4 (ih2 (fun x hx => hd x (by simp [hx])) fun x hx => hd' x (by simp [hx]))

/-! ## Nodes in a durable -/

/-- A node in a durable: it is the same but for durations of the value `d`. -/
structure In (d : D) (t t' : Nd) : Prop where
  val : ValRel t t'
  err : err t' = err t
  notes : t'.children.any (isA .Note) = t.children.any (isA .Note)
  quiet : ∀ before, previousDuration before = d → previousDuration (rev t' ++ before) = d

theorem inL_vals {d : D} {cs cs' : List Nd} (h : List.Forall₂ (In d) cs cs') : List.Forall₂ ValRel cs cs' :=
  h.imp fun _ _ h => h.val

theorem inL_err {d : D} {cs cs' : List Nd} (h : List.Forall₂ (In d) cs cs') : errL cs' = errL cs := by
  induction h with
  | nil => rfl
  | cons h _ ih => simp only [errL, h.err, ih]

theorem inL_notes {d : D} {cs cs' : List Nd} (h : List.Forall₂ (In d) cs cs') :
    (cs'.any fun body => body.children.any (isA .Note)) = cs.any fun body => body.children.any (isA .Note) := by
  induction h with
  | nil => rfl
  | cons h _ ih => simp only [List.any_cons, h.notes, ih]

/-- The nodes leave the current duration as it is. -/
def Quiet (d : D) (cs : List Nd) : Prop :=
  ∀ before, previousDuration before = d → previousDuration (revL cs ++ before) = d

theorem inL_quiet {d : D} {cs cs' : List Nd} (h : List.Forall₂ (In d) cs cs') : Quiet d cs' := by
  induction h with
  | nil => exact fun _ h => h
  | cons h _ ih =>
    intro before hb
    rw [revL, List.append_assoc]
    exact ih _ (h.quiet _ hb)

theorem previous_append {b b' : List Nd} (h : previousDuration b = previousDuration b') (ys : List Nd) :
    previousDuration (ys ++ b) = previousDuration (ys ++ b') := by
  induction ys with
  | nil => exact h
  | cons y ys ih => simp only [List.cons_append, previousDuration, ih]

theorem revL_append (xs ys before : List Nd) : revL (xs ++ ys) ++ before = revL ys ++ (revL xs ++ before) := by
  induction xs generalizing before with
  | nil => rfl
  | cons x xs ih => rw [List.cons_append, revL, List.append_assoc, ih, revL, List.append_assoc]

theorem previous_insert (xs ys : List Nd) (e : Nd) (he : DurTree e) (before : List Nd) :
    previousDuration (revL (xs ++ e :: ys) ++ before) = previousDuration (revL (xs ++ ys) ++ before) := by
  rw [revL_append, revL, List.append_assoc, previous_append ((durTree_ok e he).2.1 _), ← revL_append]

/-- Other children of a durable. -/
structure Same (d : D) (cs cs' : List Nd) : Prop where
  err : errL cs' = errL cs
  notes : (cs'.any fun body => body.children.any (isA .Note)) = cs.any fun body => body.children.any (isA .Note)
  note : cs'.any (isA .Note) = cs.any (isA .Note)
  quiet : Quiet d cs'

theorem same_in {d : D} {cs cs' : List Nd} (h : List.Forall₂ (In d) cs cs') : Same d cs cs' :=
  ⟨inL_err h, inL_notes h, valRel_any _ (inL_vals h), inL_quiet h⟩

theorem dur_note (e : Nd) (he : DurTree e) : isA .Note e = false := by
  rw [isA, note_cls, he.1]
  rfl

theorem same_insert {d : D} {cs xs ys : List Nd} (e : Nd) (he : DurTree e) :
    Same d cs (xs ++ e :: ys) ↔ Same d cs (xs ++ ys) := by
  obtain ⟨h1, -, h3⟩ := durTree_ok e he
  have e1 : errL (xs ++ e :: ys) = errL (xs ++ ys) := by simp [errL_append, errL, h1]
  have e2 : ((xs ++ e :: ys).any fun body => body.children.any (isA .Note)) =
      (xs ++ ys).any fun body => body.children.any (isA .Note) := by
    rw [List.any_append, List.any_cons, h3, Bool.false_or, ← List.any_append]
  have e3 : (xs ++ e :: ys).any (isA .Note) = (xs ++ ys).any (isA .Note) := by
    rw [List.any_append, List.any_cons, dur_note e he, Bool.false_or, ← List.any_append]
  have e4 : Quiet d (xs ++ e :: ys) ↔ Quiet d (xs ++ ys) := by
    simp only [Quiet, previous_insert xs ys e he]
  constructor
  · rintro ⟨a, b, c, f⟩; exact ⟨e1 ▸ a, e2 ▸ b, e3 ▸ c, e4.1 f⟩
  · rintro ⟨a, b, c, f⟩; exact ⟨e1 ▸ a, e2 ▸ b, e3 ▸ c, e4.2 f⟩

theorem setFirst_split (v : ℚ) (s : Option ℚ) (cs : List Nd) : setFirst v s cs = cs ∨
    ∃ xs e ys, cs = xs ++ e :: ys ∧ e.val.1 = .Duration ∧ setFirst v s cs = xs ++ setDur v s e :: ys := by
  induction cs with
  | nil => exact .inl rfl
  | cons t ts ih =>
    rw [setFirst_cons]
    split
    · rename_i ht; exact .inr ⟨[], t, ts, rfl, ht, rfl⟩
    · rcases ih with ih | ⟨xs, e, ys, h1, h2, h3⟩
      · exact .inl (by rw [ih])
      · exact .inr ⟨t :: xs, e, ys, by rw [h1]; rfl, h2, by rw [h3]; rfl⟩

theorem setFirst_vals {cs cs' : List Nd} (v : ℚ) (s : Option ℚ) (h : List.Forall₂ ValRel cs cs') :
    List.Forall₂ ValRel cs (setFirst v s cs') := by
  induction h with
  | nil => exact .nil
  | @cons x x' xs xs' h hs ih =>
    rw [setFirst_cons]
    split
    · rename_i ht
      refine .cons (.inr ⟨h.cls ▸ ht, ?_⟩) hs
      obtain ⟨l, cs⟩ := x'
      exact ht
    · exact .cons h ih

theorem same_set {d : D} {cs cs' : List Nd} (h : Same d cs cs') (hd : ∀ x ∈ cs', x.val.1 = .Duration → DurTree x)
    (v : ℚ) (s : Option ℚ) : Same d cs (setFirst v s cs') := by
  rcases setFirst_split v s cs' with h1 | ⟨xs, e, ys, h1, h2, h3⟩
  · rw [h1]; exact h
  · have he := hd e (by rw [h1]; simp) h2
    rw [h3, same_insert _ (setDur_tree v s e he)]
    rw [h1, same_insert e he] at h
    exact h

theorem same_del {d : D} {cs cs' : List Nd} (h : Same d cs cs') (hd : ∀ x ∈ cs', x.val.1 = .Duration → DurTree x) :
    Same d cs (cs'.eraseP (isA .Duration)) := by
  rcases List.exists_or_eq_self_of_eraseP (isA .Duration) cs' with h1 | ⟨e, xs, ys, -, h2, h1, h3⟩
  · rw [h1]; exact h
  · rw [isA_duration] at h2
    have he := hd e (by rw [h1]; simp) (of_decide_eq_true h2)
    rw [h3]
    rw [h1, same_insert e he] at h
    exact h

theorem same_add {d : D} {cs cs' : List Nd} (h : Same d cs cs') (orders : List (List (List Cls))) (e : Nd)
    (he : DurTree e) : Same d cs (Add.add isAny orders cs' e) := by
  obtain ⟨xs, ys, h1, h2⟩ := Add.C40_keeps_children isAny orders cs' e
  rw [h2, same_insert e he, ← h1]
  exact h

theorem add_scaling (l : Cls × Val) (cs : List Nd) (orders : List (List (List Cls))) (e : Nd) (he : DurTree e)
    (h : durs (.node l cs) = []) : durationScaling (.node l (Add.add isAny orders cs e)) = some (durationOf e) := by
  obtain ⟨xs, ys, h1, h2⟩ := Add.C40_keeps_children isAny orders cs e
  rw [h2]
  have h3 : durs (.node l (xs ++ e :: ys)) = [e] := by
    have := he.1
    simp only [durs, Node.Tree.children, h1, List.filter_append, List.append_eq_nil_iff] at h
    simp only [durs, Node.Tree.children, List.filter_append, List.filter_cons, h.1, h.2, this, decide_true, if_true]
    rfl
  simp only [durationScaling, find_durs, h3, List.head?_cons, Option.map_some]

theorem del_scaling (l : Cls × Val) (cs : List Nd) (h : (durs (.node l cs)).length ≤ 1) :
    durationScaling (.node l (cs.eraseP (isA .Duration))) = none := by
  have : durs (.node l (cs.eraseP (isA .Duration))) = [] := by
    simp only [durs, Node.Tree.children] at h ⊢
    have hf : (fun x : Nd => decide (x.val.1 = Cls.Duration)) = isA .Duration := funext fun x => (isA_duration x).symm
    rw [hf] at h ⊢
    rcases List.exists_or_eq_self_of_eraseP (isA .Duration) cs with h1 | ⟨e, xs, ys, -, h2, h1, h3⟩
    · rw [h1]
      by_contra hn
      obtain ⟨x, hx⟩ := List.exists_mem_of_ne_nil _ hn
      rw [List.mem_filter] at hx
      have hlt := List.length_eraseP_of_mem hx.1 hx.2
      rw [h1] at hlt
      have := List.length_pos_of_mem hx.1
      omega
    · rw [h3]
      rw [h1, List.filter_append, List.filter_cons, h2] at h
      simp only [if_true, List.length_append, List.length_cons] at h
      rw [List.filter_append, ← List.length_eq_zero_iff, List.length_append]
      omega
  simp only [durationScaling, find_durs, this]
  rfl

/-- What is known about a node in a durable. -/
def OkIn (n : Nd) : Prop := (n.val.1 ∈ sounding → durs n = []) ∧ (n.val.1 = .Duration → DurTree n)

/-- What an edit may do with a node in a durable. -/
def InCh (d : D) (n : Nd) : Change → Prop
  | .keep => True
  | .add e => n.val.1 ∈ sounding ∧ DurTree e ∧ durationOf e = d
  | .set _ _ => n.val.1 ∉ sounding
  | .del => False

theorem nodesL_mem (ins : Bool) (cs : List Nd) (x : Nd) (h : x ∈ cs) : (ins, x) ∈ nodesL ins cs := by
  induction cs with
  | nil => cases h
  | cons c cs ih =>
    rw [nodesL, List.mem_append]
    rcases List.mem_cons.1 h with rfl | h
    · left
      obtain ⟨l, cs⟩ := x
      simp [nodes]
    · exact .inr (ih h)

theorem sounding_durable (l : Cls × Val) (cs : List Nd) (h : l.1 ∈ sounding) : isA .Durable (.node l cs) = true := by
  have : setsPrevious (.node l cs) = true := by rw [sets_iff]; exact decide_eq_true h
  simp only [setsPrevious, Bool.and_eq_true] at this
  exact this.1

theorem in_node {d : D} (l : Cls × Val) {cs cs' : List Nd} (hk : kindErr (.node l cs') = kindErr (.node l cs))
    (hs : Same d cs cs') (hd : l.1 ∈ sounding → (durationScaling (.node l cs')).getD d = d) :
    In d (.node l cs) (.node l cs') where
  val := .inl rfl
  err := by simp only [RhythmTime.err, hk, hs.err]
  notes := hs.note
  quiet := by
    intro before hb
    rw [rev, List.cons_append, previousDuration, sets_iff]
    change (if decide (l.1 ∈ sounding) = true then _ else _) = _
    by_cases h : l.1 ∈ sounding
    · have := hd h
      rw [if_pos (decide_eq_true h)]
      cases hx : durationScaling (.node l cs') with
      | none => exact hs.quiet _ hb
      | some x => rw [hx] at this; exact this
    · rw [if_neg (by simpa using h)]
      exact hs.quiet _ hb

theorem in_change {d : D} (l : Cls × Val) {cs cs1 : List Nd} (h : List.Forall₂ (In d) cs cs1)
    (hd : ∀ x ∈ cs1, x.val.1 = .Duration → DurTree x) (h0 : l.1 ∈ sounding → durs (.node l cs1) = []) (ch : Change)
    (hc : InCh d (.node l cs) ch) : In d (.node l cs) (.node l (ch.apply l.1 cs1)) := by
  cases ch with
  | keep =>
    refine in_node l (kindErr_same l (inL_vals h)) (same_in h) fun hl => ?_
    simp only [Change.apply, durationScaling, find_durs, h0 hl]
    rfl
  | del => exact hc.elim
  | add e =>
    obtain ⟨h1, h2, h3⟩ := hc
    refine in_node l (kindErr_durable l _ _ (sounding_durable l cs h1)) (same_add (same_in h) _ e h2) fun hl => ?_
    rw [Change.apply, add_scaling l cs1 _ e h2 (h0 hl)]
    exact h3
  | set v s =>
    exact in_node l (kindErr_same l (setFirst_vals v s (inL_vals h))) (same_set (same_in h) hd v s)
      fun hl => (hc hl).elim

mutual
/-- A walk over a node in a durable. -/
theorem walk_inside (hw : ∀ i n, which i n = true → n.val.1 ∈ timed) (d : D) (OkI : Nd → Prop)
    (hok : ∀ n, OkI n → OkIn n) (IInv : σ → Prop)
    (hin : ∀ st i before right n, IInv st → OkI n → which i n = true →
      IInv (P st i before right n).1 ∧ InCh d n (P st i before right n).2) :
    ∀ (t : Nd) (st : σ) (i : ℕ) (before : List Nd) (right : Option Nd), IInv st → (∀ x ∈ nodes true t, OkI x.2) →
      In d t (walk P which st i before right t).2.2 ∧ IInv (walk P which st i before right t).1
  | .node l cs, st, i, before, right, hi, ho => by
    simp only [nodes, Bool.true_or, List.mem_cons, forall_eq_or_imp] at ho
    have hd : ∀ x ∈ cs, x.val.1 = .Duration → DurTree x := fun x hx => (hok _ (ho.2 _ (nodesL_mem true cs x hx))).2
    have hp : IInv (if which i (.node l cs) = true then P st i before right (.node l cs) else (st, .keep)).1 ∧
        InCh d (.node l cs) (if which i (.node l cs) = true then P st i before right (.node l cs) else (st, .keep)).2 := by
      split
      · rename_i h; exact hin _ _ _ _ _ hi ho.1 h
      · exact ⟨hi, trivial⟩
    simp only [walk]
    obtain ⟨ih1, ih2⟩ := walkL_inside hw d OkI hok IInv hin cs _ (if isA .HandleDuration (.node l cs) = true then i + 1 else i)
      before hp.1 ho.2
    have hdurs := walkL_durs (P := P) hw cs hd
      (if which i (.node l cs) = true then P st i before right (.node l cs) else (st, .keep)).1
      (if isA .HandleDuration (.node l cs) = true then i + 1 else i) before l
    refine ⟨in_change l ih1 ?_ ?_ _ hp.2, ih2⟩
    · intro x hx hxd
      have : x ∈ durs (.node l cs) := by
        rw [← hdurs]
        exact List.mem_filter.2 ⟨hx, decide_eq_true hxd⟩
      exact hd x (List.mem_filter.1 this).1 hxd
    · intro hl
      rw [hdurs]
      exact (hok _ ho.1).1 hl
theorem walkL_inside (hw : ∀ i n, which i n = true → n.val.1 ∈ timed) (d : D) (OkI : Nd → Prop)
    (hok : ∀ n, OkI n → OkIn n) (IInv : σ → Prop)
    (hin : ∀ st i before right n, IInv st → OkI n → which i n = true →
      IInv (P st i before right n).1 ∧ InCh d n (P st i before right n).2) :
    ∀ (ts : List Nd) (st : σ) (i : ℕ) (before : List Nd), IInv st → (∀ x ∈ nodesL true ts, OkI x.2) →
      List.Forall₂ (In d) ts (walkL P which st i before ts).2.2 ∧ IInv (walkL P which st i before ts).1
  | [], st, i, before, hi, ho => ⟨.nil, hi⟩
  | t :: ts, st, i, before, hi, ho => by
    rw [nodesL] at ho
    simp only [walkL]
    obtain ⟨h1, h2⟩ := walk_inside hw d OkI hok IInv hin t st i before ts.head? hi fun x hx => ho x (List.mem_append_left _ hx)
    obtain ⟨h3, h4⟩ := walkL_inside hw d OkI hok IInv hin ts _ (walk P which st i before ts.head? t).2.1
      (rev (walk P which st i before ts.head? t).2.2 ++ before) h2 fun x hx => ho x (List.mem_append_right _ hx)
    exact ⟨.cons h1 h3, h4⟩
end

/-! ## Walks over a document -/

theorem GoodL.append {p p' r r' q q' : D} {as as' bs bs' : List Nd} (h : GoodL T E p p' as as' r r')
    (h2 : GoodL T E r r' bs bs' q q') : GoodL T E p p' (as ++ bs) (as' ++ bs') q q' := by
  induction h with
  | nil => exact h2
  | leaf p p' r r' q q' t t' ts ts' hc hg hl ih => exact .leaf _ _ _ _ _ _ _ _ _ _ hc hg (ih h2)
  | pass p p' r r' q q' l cs cs' ts ts' h1 hT h3 h4 h5 ih1 ih2 => exact .pass _ _ _ _ _ _ _ _ _ _ _ h1 hT h3 h4 (ih2 h2)

/-- What an edit may do with a node that is not a note, rest or chord, and not in one. -/
def PassCh (E : D → D → Prop) (n : Nd) : Change → Prop
  | .keep => n.val.1 = .Skip → ∀ d, durationScaling n = some d → E d d
  | .set q s => durs n ≠ [] ∧ (n.val.1 = .Skip → ∃ s', s = some s' ∧ ∀ d, durationScaling n = some d → E d (q, s'))
  | _ => False

section
variable (Inv : ℕ → σ → D → D → Prop)
  (hw : ∀ i n, which i n = true → n.val.1 ∈ timed)
  (hdur : ∀ x, Okn x → x.2.val.1 = .Duration → WrittenDuration x.2)
  (hsound : ∀ st i before right l cs p p', l.1 ∈ sounding → Inv i st p p' → previousDuration before = p' →
    Loc Okn Sx i (nodes false (.node l cs)) →
    ∃ q q', Good T E p p' (.node l cs) (walk P which st i before right (.node l cs)).2.2 q q' ∧
      Inv (walk P which st i before right (.node l cs)).2.1 (walk P which st i before right (.node l cs)).1 q q')
  (hpass : ∀ st i before right n p p', n.val.1 ∉ .Duration :: sounding → Inv i st p p' → Okn (false, n) →
    (n.val.1 ∈ timed → Sx i (false, n)) →
    Inv (if isA .HandleDuration n = true then i + 1 else i)
        (if which i n = true then P st i before right n else (st, .keep)).1 p p' ∧ TOk T n ∧
      PassCh E n (if which i n = true then P st i before right n else (st, .keep)).2)

include hw hdur hsound hpass

mutual
theorem walk_good : ∀ (t : Nd) (st : σ) (i : ℕ) (before : List Nd) (right : Option Nd) (p p' : D), Inv i st p p' →
    previousDuration before = p' → Loc Okn Sx i (nodes false t) →
    ∃ q q', GoodL T E p p' [t] [(walk P which st i before right t).2.2] q q' ∧
      Inv (walk P which st i before right t).2.1 (walk P which st i before right t).1 q q'
  | .node l cs, st, i, before, right, p, p', hi, hb, hl => by
    by_cases hs : l.1 ∈ sounding
    · obtain ⟨q, q', h1, h2⟩ := hsound st i before right l cs p p' hs hi hb hl
      exact ⟨q, q', .leaf _ _ _ _ _ _ _ _ _ _ (List.mem_cons_of_mem _ hs) h1 (.nil _ _), h2⟩
    · obtain ⟨l1, l2, l3⟩ := hl.node
      by_cases hd : l.1 = .Duration
      · have hd' : DurTree (.node l cs) := ⟨hd, (hdur _ l1 hd).1⟩
        rw [walk_duration hw _ hd']
        exact ⟨p, p', .leaf _ _ _ _ _ _ _ _ _ _ (by simp [Node.Tree.val, hd]) (good_duration hd' hd') (.nil _ _), hi⟩
      · have hn : l.1 ∉ .Duration :: sounding := by simp [hs, hd]
        obtain ⟨p1, p2, p3⟩ := hpass st i before right (.node l cs) p p' hn hi l1 l2
        simp only [hs, decide_false, Bool.false_or] at l3
        have hdc : ∀ x ∈ cs, x.val.1 = .Duration → WrittenDuration x :=
          fun x hx => hdur _ (l3.1 _ (nodesL_mem false cs x hx))
        have hdt : ∀ x ∈ cs, x.val.1 = .Duration → DurTree x := fun x hx h => ⟨h, (hdc x hx h).1⟩
        simp only [walk]
        obtain ⟨q, q', h1, h2⟩ := walkL_good cs
          (if which i (.node l cs) = true then P st i before right (.node l cs) else (st, .keep)).1
          (if isA .HandleDuration (.node l cs) = true then i + 1 else i) before p p' p1 hb l3
        have hdurs := walkL_durs (P := P) hw cs hdt
          (if which i (.node l cs) = true then P st i before right (.node l cs) else (st, .keep)).1
          (if isA .HandleDuration (.node l cs) = true then i + 1 else i) before l
        refine ⟨q, q', ?_, h2⟩
        revert p3
        generalize (if which i (.node l cs) = true then P st i before right (.node l cs) else (st, .keep)) = r at *
        obtain ⟨st', ch⟩ := r
        cases ch with
        | keep =>
          intro p3
          refine .pass _ _ _ _ _ _ _ _ _ _ _ hn p2 h1 ?_ (.nil _ _)
          intro hk d d' e1 e2
          rw [Change.apply, scaling_durs hdurs, e1] at e2
          cases e2
          exact p3 hk d e1
        | del => exact False.elim
        | add e => exact False.elim
        | set v s =>
          rintro ⟨p3, p4⟩
          refine .pass _ _ _ _ _ _ _ _ _ _ _ hn p2 (goodL_set v s h1 hdt ?_) ?_ (.nil _ _)
          · intro x hx hxd
            have : x ∈ durs (.node l cs) := by
              rw [← hdurs]
              exact List.mem_filter.2 ⟨hx, decide_eq_true hxd⟩
            exact hdt x (List.mem_filter.1 this).1 hxd
          · intro hk d d' e1 e2
            obtain ⟨s', rfl, p5⟩ := p4 hk
            obtain ⟨x, xs, hx⟩ := List.exists_cons_of_ne_nil p3
            have hxm : x ∈ durs (.node l cs) := by rw [hx]; simp
            have hxw := hdc x (List.mem_filter.1 hxm).1 (of_decide_eq_true (List.mem_filter.1 hxm).2)
            rw [Change.apply, setFirst_scaling v s' l _ x xs (hdurs.trans hx) hxw] at e2
            cases e2
            exact p5 d e1
theorem walkL_good : ∀ (ts : List Nd) (st : σ) (i : ℕ) (before : List Nd) (p p' : D), Inv i st p p' →
    previousDuration before = p' → Loc Okn Sx i (nodesL false ts) →
    ∃ q q', GoodL T E p p' ts (walkL P which st i before ts).2.2 q q' ∧
      Inv (walkL P which st i before ts).2.1 (walkL P which st i before ts).1 q q'
  | [], st, i, before, p, p', hi, hb, hl => ⟨p, p', .nil _ _, hi⟩
  | t :: ts, st, i, before, p, p', hi, hb, hl => by
    rw [nodesL] at hl
    obtain ⟨l1, l2⟩ := hl.append
    rw [← walk_count (P := P) (which := which) t false st i before ts.head?] at l2
    obtain ⟨r, r', h1, h2⟩ := walk_good t st i before ts.head? p p' hi hb l1
    obtain ⟨b0, hb0⟩ := exists_before p
    have h3 := (h1.music none b0 before hb0 hb).2.2
    simp only [revL, List.nil_append] at h3
    simp only [walkL]
    obtain ⟨q, q', h4, h5⟩ := walkL_good ts _ _ (rev (walk P which st i before ts.head? t).2.2 ++ before) r r' h2 h3 l2
    exact ⟨q, q', h1.append h4, h5⟩
end

end

end Quickly.RhythmTime
