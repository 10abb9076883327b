import Verif.RhythmEdits.Model
import Verif.RhythmEdits.Spec
import Verif.RhythmTime.Edits

/-! # Lemmas about edits of durations -/

namespace Quickly.RhythmEdits

open Quickly.Node Quickly.Signature Quickly.Length Quickly.RhythmTime Quickly.RhythmTime.Spec Spec

variable {σ : Type}

/-- Not a Duration. -/
def solid (n : Nd) : Bool := decide (n.val.1 ≠ .Duration)

theorem stripL_filter (cs : List Nd) : stripL cs = (cs.filter solid).map strip := by
  induction cs with
  | nil => rfl
  | cons c cs ih =>
    by_cases h : c.val.1 = .Duration
    · simp [stripL, solid, h, ih]
    · simp [stripL, solid, h, ih]

theorem ownedL_filter (cs : List Nd) : ownedL cs = (cs.filter solid).flatMap owned := by
  induction cs with
  | nil => rfl
  | cons c cs ih =>
    by_cases h : c.val.1 = .Duration
    · simp [ownedL, solid, h, ih]
    · simp [ownedL, solid, h, ih]

theorem erase_solid (cs : List Nd) : (cs.eraseP (isA .Duration)).filter solid = cs.filter solid := by
  induction cs with
  | nil => rfl
  | cons c cs ih =>
    by_cases h : c.val.1 = .Duration
    · have h' : isA .Duration c = true := by rw [isA_duration]; simp [h]
      simp [List.eraseP_cons, h', solid, h]
    · have h' : isA .Duration c = false := by rw [isA_duration]; simp [h]
      simp only [List.eraseP_cons, h', cond_false, List.filter_cons, ih]

theorem setFirst_solid (q : ℚ) (s : Option ℚ) (cs : List Nd) : (setFirst q s cs).filter solid = cs.filter solid := by
  induction cs with
  | nil => rfl
  | cons c cs ih =>
    obtain ⟨l, xs⟩ := c
    by_cases h : l.1 = .Duration
    · have h' : isA .Duration (.node l xs) = true := by rw [isA_duration]; simp [h, Node.Tree.val]
      simp [setFirst, h', solid, h, Node.Tree.val]
    · have h' : isA .Duration (.node l xs) = false := by rw [isA_duration]; simp [h, Node.Tree.val]
      simp only [setFirst, h', Bool.false_eq_true, if_false, List.filter_cons, ih]

/-- A change that only adds Durations. -/
def Fine (ch : RhythmTime.Change) : Prop := ∀ d, ch = .add d → d.val.1 = .Duration

theorem apply_solid (ch : RhythmTime.Change) (h : Fine ch) (c : Cls) (cs : List Nd) :
    (ch.apply c cs).filter solid = cs.filter solid := by
  cases ch with
  | keep => rfl
  | del => exact erase_solid cs
  | add d =>
    obtain ⟨a, b, h1, h2⟩ := Add.C40_keeps_children isAny (childOrder c) cs d
    have hd : solid d = false := by simp [solid, h d rfl]
    simp only [Change.apply, h2]
    rw [h1]
    simp [List.filter_append, List.filter_cons, hd]
  | set q s => exact setFirst_solid q s cs

/-- Edits that only add Durations, with an invariant of the state. -/
def FineProc (P : Proc σ) (Inv : σ → Prop) : Prop :=
  ∀ st i before right n, Inv st → Inv (P st i before right n).1 ∧ Fine (P st i before right n).2

variable {P : Proc σ} {which : ℕ → Nd → Bool} {Inv : σ → Prop}

theorem fine_step (h : FineProc P Inv) (st : σ) (i : ℕ) (before : List Nd) (right : Option Nd) (n : Nd) (hi : Inv st) :
    Inv (if which i n then P st i before right n else (st, .keep)).1 ∧
      Fine (if which i n then P st i before right n else (st, .keep)).2 := by
  split
  · exact h st i before right n hi
  · exact ⟨hi, fun d hd => by cases hd⟩

theorem walk_val (st : σ) (i : ℕ) (before : List Nd) (right : Option Nd) (t : Nd) :
    (walk P which st i before right t).2.2.val = t.val := by
  obtain ⟨l, cs⟩ := t
  simp only [walk]
  rfl

mutual
theorem walk_strip (h : FineProc P Inv) : ∀ (t : Nd) (st : σ) (i : ℕ) (before : List Nd) (right : Option Nd), Inv st →
    Inv (walk P which st i before right t).1 ∧ strip (walk P which st i before right t).2.2 = strip t
  | .node l cs, st, i, before, right, hi => by
    obtain ⟨h1, h2⟩ := fine_step (which := which) h st i before right (.node l cs) hi
    obtain ⟨h3, h4⟩ := walkL_strip h cs _ (if isA .HandleDuration (.node l cs) then i + 1 else i) before h1
    refine ⟨h3, ?_⟩
    simp only [walk, strip]
    rw [stripL_filter, apply_solid _ h2, ← stripL_filter, h4]
theorem walkL_strip (h : FineProc P Inv) : ∀ (ts : List Nd) (st : σ) (i : ℕ) (before : List Nd), Inv st →
    Inv (walkL P which st i before ts).1 ∧ stripL (walkL P which st i before ts).2.2 = stripL ts
  | [], st, i, before, hi => ⟨hi, rfl⟩
  | t :: ts, st, i, before, hi => by
    obtain ⟨h1, h2⟩ := walk_strip h t st i before ts.head? hi
    obtain ⟨h3, h4⟩ := walkL_strip h ts _ (walk P which st i before ts.head? t).2.1
      (rev (walk P which st i before ts.head? t).2.2 ++ before) h1
    refine ⟨h3, ?_⟩
    simp only [walkL, stripL, walk_val, h2, h4]
end

/-! ## Nodes outside of the range -/

theorem node_mem (ins : Bool) (t : Nd) : (ins, t) ∈ nodes ins t := by
  obtain ⟨l, cs⟩ := t
  simp [nodes]

theorem child_nodes {ins : Bool} {l : Cls × Val} {cs : List Nd} (x : Bool × Nd)
    (h : x ∈ nodesL (ins || decide (l.1 ∈ sounding)) cs) : x ∈ nodes ins (.node l cs) := by
  simp [nodes, h]

/-- `Written` for a list of nodes. -/
def Calm (xs : List (Bool × Nd)) : Prop := ∀ x ∈ xs, x.2.val.1 = .Duration → DurTree x.2

/-- Two lists are the same outside of a range, where the first element has number `i`. -/
def SameOut (a b i : ℕ) (xs ys : List (List Nd)) : Prop :=
  ys.length = xs.length ∧ ∀ k, ¬ (a ≤ i + k ∧ i + k < b) → ys[k]? = xs[k]?

theorem SameOut.refl (a b i : ℕ) (xs : List (List Nd)) : SameOut a b i xs xs := ⟨rfl, fun _ _ => rfl⟩

theorem SameOut.append {a b i : ℕ} {xs ys xs' ys' : List (List Nd)} (h : SameOut a b i xs ys)
    (h' : SameOut a b (i + xs.length) xs' ys') : SameOut a b i (xs ++ xs') (ys ++ ys') := by
  refine ⟨by simp [h.1, h'.1], fun k hk => ?_⟩
  by_cases hl : k < xs.length
  · rw [List.getElem?_append_left hl, List.getElem?_append_left (by rw [h.1]; exact hl)]
    exact h.2 k hk
  · have hlen := h.1
    rw [List.getElem?_append_right (by omega), List.getElem?_append_right (by omega), h.1]
    refine h'.2 _ ?_
    rw [show i + xs.length + (k - xs.length) = i + k by omega]
    exact hk

/-- The nodes that can have a duration, not those in a Duration. -/
theorem count_owned (ins : Bool) (t : Nd) (hc : Calm (nodes ins t)) (hd : t.val.1 ≠ .Duration) :
    (timedNodes (nodes ins t)).length = (owned t).length := by
  match t with
  | .node l cs =>
    have ih := countL cs (ins || decide (l.1 ∈ sounding)) fun x hx => hc x (child_nodes x hx)
    have h1 := timedNodes_node ins l cs 0
    rw [handle_iff] at h1
    simp only [owned, List.length_append]
    rw [← ih]
    by_cases ht : l.1 ∈ timed
    · simp [Node.Tree.val, ht] at h1 ⊢; omega
    · simp [Node.Tree.val, ht] at h1 ⊢; omega
where
  countL : ∀ (cs : List Nd) (ins : Bool), Calm (nodesL ins cs) →
      (timedNodes (nodesL ins cs)).length = (ownedL cs).length
  | [], ins, _ => rfl
  | c :: cs, ins, hc => by
    have ih := countL cs ins fun x hx => hc x (by simp [nodesL, hx])
    have hcc : Calm (nodes ins c) := fun x hx => hc x (by simp [nodesL, hx])
    rw [nodesL, timedNodes_append, List.length_append, ownedL, ih]
    by_cases hd : c.val.1 = .Duration
    · rw [nodes_duration ins c (hcc _ (node_mem ins c) hd)]
      simp [hd]
    · rw [count_owned ins c hcc hd]
      simp [hd]

theorem ownedL_apply (ch : RhythmTime.Change) (h : Fine ch) (c : Cls) (cs : List Nd) : ownedL (ch.apply c cs) = ownedL cs := by
  rw [ownedL_filter, apply_solid ch h, ← ownedL_filter]

/-- A walk over a Duration changes nothing. -/
theorem walk_duration (hw : ∀ i n, which i n = true → n.val.1 ∈ timed) (d : Nd) (hd : DurTree d) (st : σ) (i : ℕ)
    (before : List Nd) (right : Option Nd) : walk P which st i before right d = (st, i, d) := by
  have h := walk_same (P := P) hw d false st i before right ⟨fun _ _ => trivial, fun k x hx => by
    rw [nodes_duration false d hd] at hx; simp at hx⟩
  rw [nodes_duration false d hd] at h
  simpa using h

theorem walkL_durs (hw : ∀ i n, which i n = true → n.val.1 ∈ timed) : ∀ (ts : List Nd) (ins : Bool) (st : σ) (i : ℕ)
    (before : List Nd), Calm (nodesL ins ts) →
    (walkL P which st i before ts).2.2.filter (fun c => decide (c.val.1 = .Duration)) =
      ts.filter (fun c => decide (c.val.1 = .Duration))
  | [], ins, st, i, before, hc => rfl
  | t :: ts, ins, st, i, before, hc => by
    have hct : Calm (nodes ins t) := fun x hx => hc x (by simp [nodesL, hx])
    have ih := walkL_durs hw ts ins (walk P which st i before ts.head? t).1 (walk P which st i before ts.head? t).2.1
      (rev (walk P which st i before ts.head? t).2.2 ++ before) fun x hx => hc x (by simp [nodesL, hx])
    simp only [walkL, List.filter_cons, walk_val, ih]
    by_cases hd : t.val.1 = .Duration
    · rw [walk_duration hw t (hct _ (node_mem ins t) hd)]
    · simp [hd]

mutual
theorem walk_owned (h : FineProc P Inv) (hw : ∀ i n, which i n = true → n.val.1 ∈ timed) {a b : ℕ}
    (hr : ∀ i n, which i n = true → a ≤ i ∧ i < b) : ∀ (t : Nd) (ins : Bool) (st : σ) (i : ℕ) (before : List Nd)
    (right : Option Nd), Calm (nodes ins t) → t.val.1 ≠ .Duration → Inv st →
    SameOut a b i (owned t) (owned (walk P which st i before right t).2.2)
  | .node l cs, ins, st, i, before, right, hc, hd, hi => by
    have hcc : Calm (nodesL (ins || decide (l.1 ∈ sounding)) cs) := fun x hx => hc x (child_nodes x hx)
    obtain ⟨h1, h2⟩ := fine_step (which := which) h st i before right (.node l cs) hi
    have ih := walkL_owned h hw hr cs (ins || decide (l.1 ∈ sounding))
      (if which i (.node l cs) then P st i before right (.node l cs) else (st, .keep)).1
      (if isA .HandleDuration (.node l cs) then i + 1 else i) before hcc h1
    simp only [walk, owned]
    rw [ownedL_apply _ h2]
    rw [handle_iff] at ih ⊢
    by_cases ht : l.1 ∈ timed
    · simp only [ht, if_true, Node.Tree.val, decide_true] at ih ⊢
      refine SameOut.append ⟨rfl, fun k hk => ?_⟩ ih
      rcases k with _ | k
      · have hwf : which i (.node l cs) = false := by
          by_contra hne
          exact hk (by simpa using hr i _ (by simpa using hne))
        simp only [hwf, Bool.false_eq_true, if_false, Change.apply, durs, Node.Tree.children, List.getElem?_cons_zero]
        rw [walkL_durs hw cs _ _ _ _ hcc]
      · rfl
    · simp only [ht, if_false, Node.Tree.val, decide_false, Bool.false_eq_true, List.nil_append] at ih ⊢
      exact ih
theorem walkL_owned (h : FineProc P Inv) (hw : ∀ i n, which i n = true → n.val.1 ∈ timed) {a b : ℕ}
    (hr : ∀ i n, which i n = true → a ≤ i ∧ i < b) : ∀ (ts : List Nd) (ins : Bool) (st : σ) (i : ℕ) (before : List Nd),
    Calm (nodesL ins ts) → Inv st → SameOut a b i (ownedL ts) (ownedL (walkL P which st i before ts).2.2)
  | [], ins, st, i, before, hc, hi => SameOut.refl ..
  | t :: ts, ins, st, i, before, hc, hi => by
    have hct : Calm (nodes ins t) := fun x hx => hc x (by simp [nodesL, hx])
    have hcs : Calm (nodesL ins ts) := fun x hx => hc x (by simp [nodesL, hx])
    have hi' := (walk_strip (which := which) h t st i before ts.head? hi).1
    have ih := walkL_owned h hw hr ts ins (walk P which st i before ts.head? t).1
      (walk P which st i before ts.head? t).2.1 (rev (walk P which st i before ts.head? t).2.2 ++ before) hcs hi'
    simp only [walkL, ownedL, walk_val]
    rw [walk_count t ins] at ih ⊢
    by_cases hd : t.val.1 = .Duration
    · rw [nodes_duration ins t (hct _ (node_mem ins t) hd)] at ih ⊢
      simp only [hd, if_true]
      exact ih
    · rw [count_owned ins t hct hd] at ih ⊢
      simp only [hd, if_false]
      exact SameOut.append (walk_owned h hw hr t ins st i before ts.head? hct hd hi) ih
end

end Quickly.RhythmEdits
