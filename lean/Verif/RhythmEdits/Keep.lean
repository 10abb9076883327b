import Verif.RhythmEdits.Refine
import Verif.RhythmEdits.Order

/-! # Rhythm edits keep documents regular -/

namespace Quickly.RhythmEdits

open Quickly.Node Quickly.Signature Quickly.Length Quickly.RhythmTime Quickly.RhythmTime.Spec Spec
open Quickly.Rhythm (Mus)

/-- What a node of an orderly document is like. -/
structure Own (l : Cls × Val) (cs : List Nd) : Prop where
  one : (durs (.node l cs)).length ≤ 1
  written : l.1 = .Duration → WrittenDuration (.node l cs)
  apart : Apart cs
  placed : l.1 ∈ durables → InOrder l.1 cs
  concrete : l.1 ≠ .Durable

mutual
/-- All nodes are so. -/
def Tidy : Nd → Prop
  | .node l cs => Own l cs ∧ TidyL cs
/-- All nodes of a list are so. -/
def TidyL : List Nd → Prop
  | [] => True
  | c :: cs => Tidy c ∧ TidyL cs
end

theorem tidyL_iff (cs : List Nd) : TidyL cs ↔ ∀ c ∈ cs, Tidy c := by
  induction cs with
  | nil => simp [TidyL]
  | cons c cs ih => simp [TidyL, ih]

mutual
theorem tidy_nodes : ∀ (t : Nd) (ins : Bool), Tidy t ↔ ∀ x ∈ nodes ins t, Own x.2.val x.2.children
  | .node l cs, ins => by
    simp only [Tidy, nodes, List.mem_cons, forall_eq_or_imp, tidyL_nodes cs (ins || decide (l.1 ∈ sounding))]
    rfl
theorem tidyL_nodes : ∀ (ts : List Nd) (ins : Bool), TidyL ts ↔ ∀ x ∈ nodesL ins ts, Own x.2.val x.2.children
  | [], ins => by simp [TidyL, nodesL]
  | t :: ts, ins => by
    simp only [TidyL, nodesL, List.mem_append, or_imp, forall_and, tidy_nodes t ins, tidyL_nodes ts ins]
end

theorem node_eta (t : Nd) : Node.Tree.node t.val t.children = t := by cases t; rfl

theorem orderly_iff (doc : List Nd) : Orderly doc ↔ TidyL doc ∧ Apart doc := by
  rw [tidyL_nodes doc false]
  constructor
  · intro h
    refine ⟨fun x hx => ⟨?_, ?_, h.apart x hx, h.placed x hx, h.concrete x hx⟩, h.top⟩
    · rw [node_eta]; exact h.one x hx
    · rw [node_eta]; exact h.written x hx
  · rintro ⟨h, ht⟩
    refine ⟨⟨fun x hx => ?_, fun x hx => ?_, fun x hx => (h x hx).apart, ht⟩, fun x hx => (h x hx).placed,
      fun x hx => (h x hx).concrete⟩
    · have := (h x hx).one; rwa [node_eta] at this
    · have := (h x hx).written; rwa [node_eta] at this

/-! ## Durations -/

theorem duration_plain : (∀ c ∈ .DurationScaling :: Length.Spec.comments, c ≠ .Duration ∧ c ∉ durables ∧ c ≠ .Durable) ∧
    Cls.Duration ∉ durables ∧ Cls.Duration ≠ .Durable := by
  decide +kernel

theorem apart_free (cs : List Nd) (h : ∀ c ∈ cs, c.val.1 ≠ .Duration) : Apart cs := by
  induction cs with
  | nil => trivial
  | cons c cs ih =>
    cases cs with
    | nil => trivial
    | cons d cs => exact ⟨fun _ => h d (by simp), ih fun x hx => h x (by simp [hx])⟩

theorem durs_free (l : Cls × Val) (cs : List Nd) (h : ∀ c ∈ cs, c.val.1 ≠ .Duration) : durs (.node l cs) = [] := by
  simp only [durs, Node.Tree.children, List.filter_eq_nil_iff, decide_eq_true_eq]
  exact h

theorem tidy_duration (d : Nd) (h : d.val.1 = .Duration) (hw : WrittenDuration d) : Tidy d := by
  obtain ⟨l, cs⟩ := d
  obtain ⟨h1, h2, h3⟩ := duration_plain
  change l.1 = .Duration at h
  have hf : ∀ c ∈ cs, c.val.1 ≠ .Duration := fun c hc => (h1 _ (hw.1 c hc).1).1
  refine ⟨⟨?_, fun _ => hw, apart_free cs hf, fun hl => (h2 (h ▸ hl)).elim, h ▸ h3⟩, ?_⟩
  · rw [durs_free l cs hf]; exact Nat.zero_le _
  · rw [tidyL_iff]
    intro c hc
    obtain ⟨k1, k2⟩ := hw.1 c hc
    obtain ⟨kl, kcs⟩ := c
    change kl.1 ∈ _ at k1
    change kcs = [] at k2
    subst k2
    obtain ⟨p1, p2, p3⟩ := h1 _ k1
    exact ⟨⟨Nat.zero_le _, fun e => (p1 e).elim, trivial, fun e => (p2 e).elim, p3⟩, trivial⟩

/-- Scalings in a list. -/
def scalings (cs : List Nd) : List Nd := cs.filter fun x => decide (x.val.1 = .DurationScaling)

theorem setScaling_count (s : ℚ) (ds : List Nd) (h : (scalings ds).length ≤ 1) : (scalings (setScaling s ds)).length ≤ 1 := by
  have hp : ∀ x : Nd, isA .DurationScaling x = decide (x.val.1 = .DurationScaling) := fun x => isSub_scaling x.val.1
  have hsub := List.takeWhile_append_dropWhile (p := fun x => !isA .DurationScaling x) (l := ds)
  have htake : scalings (ds.takeWhile fun x => !isA .DurationScaling x) = [] := by
    simp only [scalings, List.filter_eq_nil_iff]
    intro x hx
    have := List.all_eq_true.1 (List.all_takeWhile (p := fun x => !isA .DurationScaling x) (l := ds)) x hx
    rw [hp] at this
    simpa using this
  simp only [setScaling]
  split
  · rename_i hdrop
    rw [hdrop, List.append_nil] at hsub
    rw [hsub] at htake
    split
    · exact h
    · simp only [scalings, List.filter_cons] at htake ⊢
      rw [htake]
      split <;> simp
  · rename_i l xs rest hdrop
    have hr : (scalings rest).length ≤ 0 := by
      rw [← hsub, hdrop] at h
      have hl : isA .DurationScaling (.node l xs) = true := by
        have := List.head?_dropWhile_not (fun x => !isA .DurationScaling x) ds
        rw [hdrop] at this
        simpa using this
      rw [hp] at hl
      simp only [scalings, List.filter_append, List.length_append, List.filter_cons, hl, if_true, List.length_cons] at h ⊢
      omega
    have hd : ∀ ys : List Nd, ys.Sublist rest → scalings ys = [] := by
      intro ys hy
      have := (hy.filter fun x => decide (x.val.1 = .DurationScaling)).length_le
      exact List.eq_nil_of_length_eq_zero (Nat.le_zero.1 (this.trans hr))
    have e : ∀ xs ys, scalings (xs ++ ys) = scalings xs ++ scalings ys := fun xs ys => List.filter_append _ _
    rw [e, htake, List.nil_append]
    split
    · rw [e, hd _ (List.take_sublist 1 rest), hd _ ((drain_sub _).trans (List.drop_sublist 1 rest))]
      simp
    · have := hd _ (drain_sub rest)
      simp only [scalings, List.filter_cons] at this ⊢
      rw [this]
      split <;> simp

theorem written_setDur (q : ℚ) (s : Option ℚ) (d : Nd) (h : d.val.1 = .Duration) (hw : WrittenDuration d) :
    WrittenDuration (setDur q s d) := by
  refine ⟨(setDur_tree q s d (durTree_of h hw)).2, ?_⟩
  obtain ⟨l, cs⟩ := d
  cases s with
  | none => exact hw.2
  | some s => exact setScaling_count s cs hw.2

theorem written_from (d : D) : WrittenDuration (fromDuration d) := by
  refine ⟨(fromDuration_tree d).2, ?_⟩
  simp only [fromDuration, Node.Tree.children]
  split
  · simp
  · exact (List.length_filter_le _ _).trans (by simp)

/-! ## Changes -/

/-- A change that adds a Duration only to a durable without one. -/
def Neat (n : Nd) (ch : RhythmTime.Change) : Prop :=
  ∀ d, ch = .add d → durs n = [] ∧ isA .Durable n = true ∧ d.val.1 = .Duration ∧ WrittenDuration d

/-- Edits with such changes. -/
def NeatProc (P : Proc σ) (which : ℕ → Nd → Bool) (Inv : σ → Prop) : Prop :=
  ∀ st i before right n, Inv st → which i n = true → (∀ d ∈ durs n, WrittenDuration d) →
    Inv (P st i before right n).1 ∧ Neat n (P st i before right n).2

theorem apart_cls : ∀ (cs cs' : List Nd), cs'.map (fun x => x.val.1) = cs.map (fun x => x.val.1) → Apart cs → Apart cs'
  | [], [], _, _ => trivial
  | [], _ :: _, h, _ => by simp at h
  | _ :: _, [], h, _ => by simp at h
  | [_], [_], _, _ => trivial
  | [_], _ :: _ :: _, h, _ => by simp at h
  | _ :: _ :: _, [_], h, _ => by simp at h
  | x :: y :: cs, x' :: y' :: cs', h, ha => by
    simp only [List.map_cons, List.cons.injEq] at h
    refine ⟨?_, apart_cls (y :: cs) (y' :: cs') (by simp [h]) ha.2⟩
    rw [h.1, h.2.1]; exact ha.1

theorem apart_erase : ∀ cs : List Nd, Apart cs → Apart (cs.eraseP (isA .Duration))
  | [], _ => trivial
  | [x], _ => by
    by_cases h : isA .Duration x = true
    · simp [h, Apart]
    · simp [h, Apart]
  | x :: y :: cs, ha => by
    by_cases h : isA .Duration x = true
    · simp only [List.eraseP_cons, h, cond_true]
      exact ha.2
    · have ih := apart_erase (y :: cs) ha.2
      simp only [Bool.not_eq_true] at h
      rw [List.eraseP_cons, h, cond_false]
      by_cases hy : isA .Duration y = true
      · rw [List.eraseP_cons, hy, cond_true] at ih ⊢
        have hy' : y.val.1 = .Duration := by rw [isA_duration] at hy; simpa using hy
        cases cs with
        | nil => trivial
        | cons z cs => exact ⟨fun hx => (ha.1 hx hy').elim, ih⟩
      · simp only [Bool.not_eq_true] at hy
        rw [List.eraseP_cons, hy, cond_false] at ih ⊢
        exact ⟨ha.1, ih⟩

theorem front_hard : ∀ c ∈ durables, ∀ k ∈ .Skip :: sounding, rank c k = 2 := by decide +kernel

theorem front_soft (c : Cls) (hc : c ∈ durables) (k : Cls) (h : rank c k ≤ 1) : k ≠ .Skip ∧ k ∉ sounding := by
  constructor
  · intro e; have := front_hard c hc k (by simp [e]); omega
  · intro e; have := front_hard c hc k (by simp [e]); omega

theorem inOrder_apart (c : Cls) (hc : c ∈ durables) : ∀ cs : List Nd, InOrder c cs → Apart cs
  | [], _ => trivial
  | [_], _ => trivial
  | x :: y :: cs, h => by
    have h' := h
    simp only [InOrder, List.map_cons, List.pairwise_cons] at h
    refine ⟨fun hx hy => ?_, inOrder_apart c hc (y :: cs) (by unfold InOrder at h' ⊢; exact (List.pairwise_cons.1 h').2)⟩
    have h1 := h.1 y.val.1 (by simp)
    rw [hy, rank_duration c hc] at h1
    have h2 := front_soft c hc _ h1
    rcases hx with hx | hx
    · exact h2.1 hx
    · exact h2.2 hx

theorem durable_of (n : Nd) (h : isA .Durable n = true) (hn : n.val.1 ≠ .Durable) : n.val.1 ∈ durables := by
  rw [isA, durable_cls] at h
  simp only [decide_eq_true_eq, sounding, List.mem_cons, hn, false_or] at h
  simpa [durables] using h

theorem own_apply (l : Cls × Val) (cs cs' : List Nd) (ch : RhythmTime.Change) (hn : Neat (.node l cs) ch)
    (ho : Own l cs) (hv : cs'.map Node.Tree.val = cs.map Node.Tree.val) (hd : durs (.node l cs') = durs (.node l cs))
    (hl : l.1 = .Duration → cs' = cs ∧ ch = .keep) : Own l (ch.apply l.1 cs') := by
  have hv' : cs'.map (fun x => x.val.1) = cs.map (fun x => x.val.1) := by
    have := congrArg (List.map Prod.fst) hv
    rwa [List.map_map, List.map_map] at this
  have hf : Fine ch := fun d e => (hn d e).2.2.1
  have hp : l.1 ∈ durables → InOrder l.1 (ch.apply l.1 cs') := by
    intro h
    refine inOrder_apply ch hf l.1 h cs' ?_
    have := ho.placed h
    unfold InOrder at this ⊢
    rw [hv']; exact this
  have ha := apart_cls cs cs' hv' ho.apart
  refine ⟨?_, ?_, ?_, hp, ho.concrete⟩
  · cases ch with
    | keep => rw [Change.apply, hd]; exact ho.one
    | del =>
      refine le_trans ?_ (hd ▸ ho.one)
      exact (List.eraseP_sublist.filter _).length_le
    | add d =>
      obtain ⟨a, b, h1, h2⟩ := Add.C40_keeps_children isAny (childOrder l.1) cs' d
      have h3 := hd.trans (hn d rfl).1
      simp only [Change.apply, h2]
      rw [h1] at h3
      simp only [durs, Node.Tree.children, List.filter_append, List.append_eq_nil_iff] at h3 ⊢
      rw [List.filter_cons, h3.1, h3.2]
      split <;> simp
    | set q s =>
      have : ∀ xs : List Nd, (durs (.node l xs)).length = ((xs.map fun x => x.val.1).filter fun k => decide (k = .Duration)).length := by
        intro xs
        rw [durs, Node.Tree.children, List.filter_map, List.length_map]
        rfl
      rw [this, Change.apply, setFirst_cls, ← this, hd]
      exact ho.one
  · intro h
    obtain ⟨rfl, rfl⟩ := hl h
    exact ho.written h
  · cases ch with
    | keep => exact ha
    | del => exact apart_erase cs' ha
    | add d =>
      have hc := durable_of (.node l cs) (hn d rfl).2.1 ho.concrete
      exact inOrder_apart l.1 hc _ (hp hc)
    | set q s => exact apart_cls cs' _ (setFirst_cls q s cs') ha

theorem tidy_apply (l : Cls × Val) (cs cs' : List Nd) (ch : RhythmTime.Change) (hn : Neat (.node l cs) ch)
    (ht : TidyL cs') : TidyL (ch.apply l.1 cs') := by
  rw [tidyL_iff] at ht ⊢
  intro x hx
  cases ch with
  | keep => exact ht x hx
  | del => exact ht x (List.eraseP_subset hx)
  | add d =>
    obtain ⟨a, b, h1, h2⟩ := Add.C40_keeps_children isAny (childOrder l.1) cs' d
    obtain ⟨-, -, h3, h4⟩ := hn d rfl
    simp only [Change.apply, h2, List.mem_append, List.mem_cons] at hx
    rcases hx with hx | rfl | hx
    · exact ht x (by simp [h1, hx])
    · exact tidy_duration _ h3 h4
    · exact ht x (by simp [h1, hx])
  | set q s =>
    rcases setFirst_split q s cs' with e | ⟨xs, e, ys, h1, h2, h3⟩
    · simp only [Change.apply, e] at hx; exact ht x hx
    · simp only [Change.apply, h3, List.mem_append, List.mem_cons] at hx
      rcases hx with hx | rfl | hx
      · exact ht x (by simp [h1, hx])
      · have he := ht e (by simp [h1])
        obtain ⟨el, ecs⟩ := e
        exact tidy_duration _ h2 (written_setDur q s _ h2 (he.1.written h2))
      · exact ht x (by simp [h1, hx])

variable {σ : Type} {P : Proc σ} {which : ℕ → Nd → Bool} {Inv : σ → Prop}

theorem tidy_calm (ts : List Nd) (ins : Bool) (h : TidyL ts) : Calm (nodesL ins ts) := by
  intro x hx hd
  have := ((tidyL_nodes ts ins).1 h x hx).written hd
  rw [node_eta] at this
  exact durTree_of hd this

theorem tidy_written (l : Cls × Val) (cs : List Nd) (h : TidyL cs) : ∀ d ∈ durs (.node l cs), WrittenDuration d := by
  intro d hd
  obtain ⟨h1, h2⟩ := List.mem_filter.1 hd
  have := (tidyL_iff cs).1 h d h1
  obtain ⟨dl, dcs⟩ := d
  exact this.1.written (of_decide_eq_true h2)

mutual
theorem walk_tidy (h : NeatProc P which Inv) (hw : ∀ i n, which i n = true → n.val.1 ∈ timed) : ∀ (t : Nd) (st : σ) (i : ℕ)
    (before : List Nd) (right : Option Nd), Inv st → Tidy t →
    Inv (walk P which st i before right t).1 ∧ Tidy (walk P which st i before right t).2.2
  | .node l cs, st, i, before, right, hi, ht => by
    by_cases hd : l.1 = .Duration
    · have := walk_duration (P := P) hw (.node l cs) (durTree_of hd (ht.1.written hd)) st i before right
      rw [this]
      exact ⟨hi, ht⟩
    · have hs : Inv (if which i (.node l cs) then P st i before right (.node l cs) else (st, .keep)).1 ∧
          Neat (.node l cs) (if which i (.node l cs) then P st i before right (.node l cs) else (st, .keep)).2 := by
        split
        · rename_i hwi
          exact h st i before right (.node l cs) hi hwi (tidy_written l cs ht.2)
        · exact ⟨hi, fun d e => by cases e⟩
      obtain ⟨i1, i2⟩ := walkL_tidy h hw cs _ (if isA .HandleDuration (.node l cs) then i + 1 else i) before hs.1 ht.2
      refine ⟨i1, ?_⟩
      simp only [walk, Tidy]
      refine ⟨own_apply l cs _ _ hs.2 ht.1 (walkL_val ..) ?_ (fun e => (hd e).elim), tidy_apply l cs _ _ hs.2 i2⟩
      exact walkL_durs hw cs false _ _ _ (tidy_calm cs false ht.2)
theorem walkL_tidy (h : NeatProc P which Inv) (hw : ∀ i n, which i n = true → n.val.1 ∈ timed) : ∀ (ts : List Nd) (st : σ)
    (i : ℕ) (before : List Nd), Inv st → TidyL ts →
    Inv (walkL P which st i before ts).1 ∧ TidyL (walkL P which st i before ts).2.2
  | [], st, i, before, hi, ht => ⟨hi, trivial⟩
  | t :: ts, st, i, before, hi, ht => by
    obtain ⟨h1, h2⟩ := walk_tidy h hw t st i before ts.head? hi ht.1
    obtain ⟨h3, h4⟩ := walkL_tidy h hw ts _ (walk P which st i before ts.head? t).2.1
      (rev (walk P which st i before ts.head? t).2.2 ++ before) h1 ht.2
    exact ⟨h3, h2, h4⟩
end

theorem walkL_orderly (h : NeatProc P which Inv) (hw : ∀ i n, which i n = true → n.val.1 ∈ timed) (doc : List Nd) (st : σ)
    (hi : Inv st) (ho : Orderly doc) : Orderly (walkL P which st 0 [] doc).2.2 := by
  rw [orderly_iff] at ho ⊢
  refine ⟨(walkL_tidy h hw doc st 0 [] hi ho.1).2, apart_cls doc _ ?_ ho.2⟩
  have := congrArg (List.map Prod.fst) (walkL_val (P := P) (which := which) doc st 0 [])
  rwa [List.map_map, List.map_map] at this

end Quickly.RhythmEdits
