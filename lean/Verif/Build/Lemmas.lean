import Verif.Build.Spec

/-! # Lemmas about `build_tree` -/

namespace Quickly.Build

open Quickly.Node Spec

variable {α κ : Type}

/-! ### Content -/

/-- What the loop keeps: the content of the stack (bottom first) and of the pending nodes. -/
theorem addLoop_content {β : Type} (e : Env α κ) (F : Tree α → List β)
    (hF : ∀ p n, F (e.addArg p n) = F p ++ F n) (st : List (Entry α κ)) (pending : List (Tree α)) :
    (e.addLoop st pending).2.flatMap F ++ (e.addLoop st pending).1.reverse.flatMap (fun x => F x.1) =
      st.reverse.flatMap (fun x => F x.1) ++ pending.flatMap F := by
  induction st, pending using Env.addLoop.induct e with
  | case1 pending => rw [Env.addLoop]; simp
  | case2 st h => rw [Env.addLoop]; simp; exact h
  | case3 parent ss st node pending h ih =>
    rw [Env.addLoop, if_pos h, ih]; simp [hF]
  | case4 parent ss st node pending h1 h2 ih =>
    rw [Env.addLoop, if_neg h1, if_pos h2, ih]; simp
  | case5 parent ss st node pending h1 h2 h3 ih =>
    rw [Env.addLoop, if_neg h1, if_neg h2, if_pos h3, ih]; simp [hF]
  | case6 parent ss st node pending h1 h2 h3 ih =>
    rw [Env.addLoop, if_neg h1, if_neg h2, if_neg h3, ih]; simp [hF]

/-- If the loop leaves a stack, it has yielded nothing. -/
theorem addLoop_out (e : Env α κ) (st : List (Entry α κ)) (pending : List (Tree α)) :
    (e.addLoop st pending).1 = [] ∨ (e.addLoop st pending).2 = [] := by
  induction st, pending using Env.addLoop.induct e with
  | case1 pending => rw [Env.addLoop]; simp
  | case2 st h => rw [Env.addLoop]; simp; exact h
  | case3 parent ss st node pending h ih => rw [Env.addLoop, if_pos h]; exact ih
  | case4 parent ss st node pending h1 h2 ih => rw [Env.addLoop, if_neg h1, if_pos h2]; exact ih
  | case5 parent ss st node pending h1 h2 h3 ih =>
    rw [Env.addLoop, if_neg h1, if_neg h2, if_pos h3]; exact ih
  | case6 parent ss st node pending h1 h2 h3 ih =>
    rw [Env.addLoop, if_neg h1, if_neg h2, if_neg h3]; exact ih

theorem finish_content {β : Type} (e : Env α κ) (F : Tree α → List β)
    (hF : ∀ p n, F (e.addArg p n) = F p ++ F n) (st : List (Entry α κ)) :
    (e.finish st).flatMap F = st.reverse.flatMap (fun x => F x.1) := by
  induction st using Env.finish.induct e with
  | case1 => rw [Env.finish]; simp
  | case2 n ss st ih =>
    rw [Env.finish, List.flatMap_append, ih, addLoop_content e F hF]
    simp

theorem main_content {β : Type} (e : Env α κ) (F : Tree α → List β)
    (hF : ∀ p n, F (e.addArg p n) = F p ++ F n) (nodes : List (Tree α)) :
    ∀ st, (e.main st nodes).flatMap F = st.reverse.flatMap (fun x => F x.1) ++ nodes.flatMap F := by
  induction nodes with
  | nil => intro st; rw [Env.main, finish_content e F hF]; simp
  | cons n nodes ih =>
    intro st
    have hstep : (e.step st n).2.flatMap F ++ (e.step st n).1.reverse.flatMap (fun x => F x.1) =
        st.reverse.flatMap (fun x => F x.1) ++ F n := by
      rw [Env.step]
      split
      · simpa using addLoop_content e F hF st [n]
      · split
        · simp
        · simpa using addLoop_content e F hF st [n]
    rw [Env.main, List.flatMap_append, ih, ← List.append_assoc, hstep]
    simp

/-! ### Content, if only some nodes can be arguments -/

theorem addLoop_content' {β : Type} (e : Env α κ) (F : Tree α → List β) (K : Tree α → Prop)
    (hF : ∀ p n, e.asks p.val = true → K n → F (e.addArg p n) = F p ++ F n)
    (hK : ∀ n, e.asks n.val = true → K n) (st : List (Entry α κ)) (pending : List (Tree α))
    (hs : ∀ x ∈ st, e.asks x.1.val = true) (hp : ∀ n ∈ pending, K n) :
    (e.addLoop st pending).2.flatMap F ++ (e.addLoop st pending).1.reverse.flatMap (fun x => F x.1) =
      st.reverse.flatMap (fun x => F x.1) ++ pending.flatMap F ∧
    ∀ x ∈ (e.addLoop st pending).1, e.asks x.1.val = true := by
  induction st, pending using Env.addLoop.induct e with
  | case1 pending => rw [Env.addLoop]; simp
  | case2 st h => rw [Env.addLoop]; simp; exact fun a b hx => hs (a, b) hx; exact h
  | case3 parent ss st node pending h ih =>
    have h1 := hs _ (List.mem_cons_self ..)
    have h2 : ∀ x ∈ st, e.asks x.1.val = true := fun x hx => hs x (by simp [hx])
    rw [Env.addLoop, if_pos h]
    obtain ⟨i1, i2⟩ := ih (by
      intro x hx
      rcases List.mem_cons.1 hx with rfl | hx
      · exact h1
      · exact h2 x hx) (fun n hn => hp n (by simp [hn]))
    refine ⟨?_, i2⟩
    rw [i1]
    simp [hF parent node h1 (hp node (by simp))]
  | case4 parent ss st node pending h1 h2 ih =>
    have h3 := hs _ (List.mem_cons_self ..)
    rw [Env.addLoop, if_neg h1, if_pos h2]
    obtain ⟨i1, i2⟩ := ih (fun x hx => hs x (by simp [hx])) (by
      intro n hn
      rcases List.mem_cons.1 hn with rfl | hn
      · exact hK _ h3
      · exact hp n hn)
    refine ⟨?_, i2⟩
    rw [i1]; simp
  | case5 parent ss st node pending h1 h2 h3 ih =>
    have h4 := hs _ (List.mem_cons_self ..)
    rw [Env.addLoop, if_neg h1, if_neg h2, if_pos h3]
    obtain ⟨i1, i2⟩ := ih (fun x hx => hs x (by simp [hx])) (by
      intro n hn
      rcases List.mem_cons.1 hn with rfl | hn
      · exact hK _ h4
      · exact hp n (by simp [hn]))
    refine ⟨?_, i2⟩
    rw [i1]; simp [hF parent node h4 (hp node (by simp))]
  | case6 parent ss st node pending h1 h2 h3 ih =>
    have h4 := hs _ (List.mem_cons_self ..)
    rw [Env.addLoop, if_neg h1, if_neg h2, if_neg h3]
    obtain ⟨i1, i2⟩ := ih (by
      intro x hx
      rcases List.mem_cons.1 hx with rfl | hx
      · exact h4
      · exact hs x (by simp [hx])) (fun n hn => hp n (by simp [hn]))
    refine ⟨?_, i2⟩
    rw [i1]; simp [hF parent node h4 (hp node (by simp))]

theorem finish_content' {β : Type} (e : Env α κ) (F : Tree α → List β) (K : Tree α → Prop)
    (hF : ∀ p n, e.asks p.val = true → K n → F (e.addArg p n) = F p ++ F n)
    (hK : ∀ n, e.asks n.val = true → K n) (st : List (Entry α κ))
    (hs : ∀ x ∈ st, e.asks x.1.val = true) :
    (e.finish st).flatMap F = st.reverse.flatMap (fun x => F x.1) := by
  induction st using Env.finish.induct e with
  | case1 => rw [Env.finish]; simp
  | case2 n ss st ih =>
    obtain ⟨i1, i2⟩ := addLoop_content' e F K hF hK st [n] (fun x hx => hs x (by simp [hx])) (by
      intro m hm
      rw [List.mem_singleton.1 hm]
      exact hK _ (hs _ (List.mem_cons_self ..)))
    rw [Env.finish, List.flatMap_append, ih i2, i1]
    simp

/-- The content is kept, if adding an argument keeps it for a parent that has signatures and an argument
that has the property `K`. -/
theorem main_content' {β : Type} (e : Env α κ) (F : Tree α → List β) (K : Tree α → Prop)
    (hF : ∀ p n, e.asks p.val = true → K n → F (e.addArg p n) = F p ++ F n)
    (hK : ∀ n, e.asks n.val = true → K n) (nodes : List (Tree α)) (hn : ∀ n ∈ nodes, K n) :
    ∀ st : List (Entry α κ), (∀ x ∈ st, e.asks x.1.val = true) →
      (e.main st nodes).flatMap F = st.reverse.flatMap (fun x => F x.1) ++ nodes.flatMap F := by
  induction nodes with
  | nil => intro st hs; rw [Env.main, finish_content' e F K hF hK st hs]; simp
  | cons n nodes ih =>
    intro st hs
    have ha := addLoop_content' e F K hF hK st [n] hs (by
      intro m hm
      rw [List.mem_singleton.1 hm]
      exact hn n (by simp))
    have hstep : ((e.step st n).2.flatMap F ++ (e.step st n).1.reverse.flatMap (fun x => F x.1) =
        st.reverse.flatMap (fun x => F x.1) ++ F n) ∧ ∀ x ∈ (e.step st n).1, e.asks x.1.val = true := by
      rw [Env.step]
      split
      · simpa using ha
      · rename_i hne
        split
        · refine ⟨by simp, ?_⟩
          intro x hx
          rcases List.mem_cons.1 hx with rfl | hx
          · simpa using hne
          · exact hs x hx
        · simpa using ha
    rw [Env.main, List.flatMap_append, ih (fun m hm => hn m (by simp [hm])) _ hstep.2,
      ← List.append_assoc, hstep.1]
    simp

/-! ### A measure that does not grow -/

theorem addLoop_le (e : Env α κ) (F : Tree α → ℕ) (hF : ∀ p n, F (e.addArg p n) ≤ F p + F n)
    (st : List (Entry α κ)) (pending : List (Tree α)) :
    ((e.addLoop st pending).2.map F).sum + ((e.addLoop st pending).1.map (fun x => F x.1)).sum ≤
      (st.map (fun x => F x.1)).sum + (pending.map F).sum := by
  induction st, pending using Env.addLoop.induct e with
  | case1 pending => rw [Env.addLoop]; simp
  | case2 st h => rw [Env.addLoop]; simp; exact h
  | case3 parent ss st node pending h ih =>
    rw [Env.addLoop, if_pos h]
    have := hF parent node
    simp only [List.map_cons, List.sum_cons] at ih ⊢
    omega
  | case4 parent ss st node pending h1 h2 ih =>
    rw [Env.addLoop, if_neg h1, if_pos h2]
    simp only [List.map_cons, List.sum_cons] at ih ⊢
    omega
  | case5 parent ss st node pending h1 h2 h3 ih =>
    rw [Env.addLoop, if_neg h1, if_neg h2, if_pos h3]
    have := hF parent node
    simp only [List.map_cons, List.sum_cons] at ih ⊢
    omega
  | case6 parent ss st node pending h1 h2 h3 ih =>
    rw [Env.addLoop, if_neg h1, if_neg h2, if_neg h3]
    have := hF parent node
    simp only [List.map_cons, List.sum_cons] at ih ⊢
    omega

theorem finish_le (e : Env α κ) (F : Tree α → ℕ) (hF : ∀ p n, F (e.addArg p n) ≤ F p + F n)
    (st : List (Entry α κ)) : ((e.finish st).map F).sum ≤ (st.map (fun x => F x.1)).sum := by
  induction st using Env.finish.induct e with
  | case1 => rw [Env.finish]; simp
  | case2 n ss st ih =>
    have := addLoop_le e F hF st [n]
    rw [Env.finish]
    simp only [List.map_cons, List.sum_cons, List.map_append, List.sum_append, List.map_nil, List.sum_nil]
      at this ⊢
    omega

/-- A measure that does not grow when an argument is added does not grow. -/
theorem main_le (e : Env α κ) (F : Tree α → ℕ) (hF : ∀ p n, F (e.addArg p n) ≤ F p + F n)
    (nodes : List (Tree α)) :
    ∀ st, ((e.main st nodes).map F).sum ≤ (st.map (fun x => F x.1)).sum + (nodes.map F).sum := by
  induction nodes with
  | nil => intro st; rw [Env.main]; simpa using finish_le e F hF st
  | cons n nodes ih =>
    intro st
    have ha := addLoop_le e F hF st [n]
    have hstep : ((e.step st n).2.map F).sum + ((e.step st n).1.map (fun x => F x.1)).sum ≤
        (st.map (fun x => F x.1)).sum + F n := by
      rw [Env.step]
      split
      · simpa using ha
      · split
        · simp [Nat.add_comm]
        · simpa using ha
    have := ih (e.step st n).1
    rw [Env.main]
    simp only [List.map_cons, List.sum_cons, List.map_append, List.sum_append] at this ⊢
    omega

/-! ### Signatures -/

/-- `Rem a args ss`: `ss` are the non-empty remainders of the signatures of a node with label
`a` after the arguments `args`. -/
def Rem (e : Env α κ) (a : α) (args : List α) (ss : List (List κ)) : Prop :=
  ∀ r, r ∈ ss ↔ r ≠ [] ∧ ∃ s ∈ e.sigs a, ∃ pre, s = pre ++ r ∧ Match e args pre

theorem match_snoc (e : Env α κ) (args : List α) (x : α) (pre : List κ) :
    Match e (args ++ [x]) pre ↔ ∃ p c, pre = p ++ [c] ∧ Match e args p ∧ e.isa x c = true := by
  simp only [Match]
  constructor
  · intro h
    rcases List.eq_nil_or_concat pre with rfl | ⟨p, c, rfl⟩
    · have := h.length_eq; simp at this
    · rw [List.concat_eq_append] at *
      have hl : args.length = p.length := by have := h.length_eq; simpa using this
      refine ⟨p, c, rfl, ?_, ?_⟩
      · have h2 := List.forall₂_take args.length h
        rw [List.take_left, hl, List.take_left] at h2
        exact h2
      · have h2 := List.forall₂_drop args.length h
        rw [List.drop_left, hl, List.drop_left] at h2
        cases h2; assumption
  · rintro ⟨p, c, rfl, h1, h2⟩
    exact List.rel_append h1 (.cons h2 .nil)

theorem match_append (e : Env α κ) (args more : List α) (pre : List κ)
    (h : Match e (args ++ more) pre) : ∃ p q, pre = p ++ q ∧ Match e args p := by
  refine ⟨pre.take args.length, pre.drop args.length, (List.take_append_drop _ _).symm, ?_⟩
  have h2 := List.forall₂_take args.length h
  rw [List.take_left] at h2
  exact h2

theorem mem_advance (e : Env α κ) (a : α) (ss : List (List κ)) (r : List κ) :
    r ∈ e.advance a ss ↔ ∃ c, c :: r ∈ ss ∧ e.isa a c = true := by
  simp only [Env.advance, List.mem_filterMap]
  constructor
  · rintro ⟨s, hs, h⟩
    cases s with
    | nil => cases h
    | cons c s =>
      simp only at h
      split at h
      · rename_i hc
        simp only [Option.some.injEq] at h
        subst h
        exact ⟨c, hs, hc⟩
      · cases h
  · rintro ⟨c, hs, hc⟩
    exact ⟨c :: r, hs, by simp [hc]⟩

theorem mem_nonEmpty (ss : List (List κ)) (r : List κ) : r ∈ nonEmpty ss ↔ r ∈ ss ∧ r ≠ [] := by
  simp [nonEmpty, List.isEmpty_iff]

theorem rem_advance (e : Env α κ) (a : α) (args : List α) (ss : List (List κ)) (x : α)
    (h : Rem e a args ss) : Rem e a (args ++ [x]) (nonEmpty (e.advance x ss)) := by
  intro r
  rw [mem_nonEmpty, mem_advance]
  constructor
  · rintro ⟨⟨c, h1, h2⟩, h3⟩
    obtain ⟨-, s, hs, pre, e1, e2⟩ := (h _).1 h1
    refine ⟨h3, s, hs, pre ++ [c], by simp [e1], ?_⟩
    rw [match_snoc]
    exact ⟨pre, c, rfl, e2, h2⟩
  · rintro ⟨h1, s, hs, pre, e1, e2⟩
    rw [match_snoc] at e2
    obtain ⟨p, c, rfl, e3, e4⟩ := e2
    exact ⟨⟨c, (h _).2 ⟨by simp, s, hs, p, by simp [e1], e3⟩, e4⟩, h1⟩

theorem rem_nil_append (e : Env α κ) (a : α) (args more : List α) (h : Rem e a args []) :
    Rem e a (args ++ more) [] := by
  intro r
  constructor
  · intro hr; cases hr
  · rintro ⟨h1, s, hs, pre, e1, e2⟩
    obtain ⟨p, q, rfl, e3⟩ := match_append e args more pre e2
    exact absurd ((h (q ++ r)).2 ⟨by simp [h1], s, hs, p, by simp [e1], e3⟩) List.not_mem_nil

theorem fit_some (e : Env α κ) (a : α) (cs : List (Tree α)) :
    ∀ args ss ss', Rem e a args ss → ss ≠ [] → e.fit cs ss = some ss' →
      Rem e a (args ++ cs.map Tree.val) ss' ∧ ss' ≠ [] := by
  induction cs with
  | nil =>
    intro args ss ss' h hne hf
    simp only [Env.fit, Option.some.injEq] at hf
    subst hf
    simpa using ⟨h, hne⟩
  | cons c cs ih =>
    intro args ss ss' h hne hf
    simp only [Env.fit] at hf
    split at hf
    · cases hf
    · rename_i hh
      have := ih (args ++ [c.val]) _ ss' (rem_advance e a args ss c.val h)
        (fun he => hh (by simp [Env.advance1, he])) hf
      simpa using this

theorem fit_none (e : Env α κ) (a : α) (cs : List (Tree α)) :
    ∀ args ss, Rem e a args ss → e.fit cs ss = none → Rem e a (args ++ cs.map Tree.val) [] := by
  induction cs with
  | nil => intro args ss h hf; cases hf
  | cons c cs ih =>
    intro args ss h hf
    simp only [Env.fit] at hf
    have hr := rem_advance e a args ss c.val h
    split at hf
    · rename_i hh
      rw [Env.advance1, List.isEmpty_iff] at hh
      rw [hh] at hr
      simpa using rem_nil_append e a (args ++ [c.val]) (cs.map Tree.val) hr
    · simpa using ih (args ++ [c.val]) _ hr hf

/-- The remainders of a node. -/
def RemOf (e : Env α κ) (p : Tree α) (ss : List (List κ)) : Prop := Rem e p.val (arguments e p) ss

theorem next_iff (e : Env α κ) (p : Tree α) (ss : List (List κ)) (h : RemOf e p ss) (c : κ) :
    Next e p c ↔ ∃ r, c :: r ∈ ss := by
  constructor
  · rintro ⟨s, hs, pre, post, e1, e2⟩
    exact ⟨post, (h _).2 ⟨by simp, s, hs, pre, e1, e2⟩⟩
  · rintro ⟨r, hr⟩
    obtain ⟨-, s, hs, pre, e1, e2⟩ := (h _).1 hr
    exact ⟨s, hs, pre, r, e1, e2⟩

theorem waits_iff (e : Env α κ) (p : Tree α) (ss : List (List κ)) (h : RemOf e p ss) :
    Waits e p ↔ ss ≠ [] ∨ Idle e p := by
  constructor
  · rintro (⟨c, hc⟩ | hi)
    · left
      intro he
      obtain ⟨r, hr⟩ := (next_iff e p ss h c).1 hc
      rw [he] at hr; cases hr
    · exact .inr hi
  · rintro (hne | hi)
    swap
    · exact .inr hi
    left
    obtain ⟨r, hr⟩ := List.exists_mem_of_ne_nil _ hne
    obtain ⟨h1, -⟩ := (h r).1 hr
    cases r with
    | nil => exact absurd rfl h1
    | cons c r => exact ⟨c, (next_iff e p ss h c).2 ⟨r, hr⟩⟩

theorem continues_iff (e : Env α κ) (p n : Tree α) (ss : List (List κ)) (h : RemOf e p ss) :
    Continues e p n ↔ e.advance n.val ss ≠ [] := by
  constructor
  · rintro ⟨c, hc, hi⟩ he
    obtain ⟨r, hr⟩ := (next_iff e p ss h c).1 hc
    have := (mem_advance e n.val ss r).2 ⟨c, hr, hi⟩
    rw [he] at this; cases this
  · intro hne
    obtain ⟨r, hr⟩ := List.exists_mem_of_ne_nil _ hne
    obtain ⟨c, hc, hi⟩ := (mem_advance e n.val ss r).1 hr
    exact ⟨c, (next_iff e p ss h c).2 ⟨r, hc⟩, hi⟩

/-- The default `add_argument`. -/
def Plain (e : Env α κ) : Prop := ∀ p n, e.conv p n = n

theorem arguments_addArg (e : Env α κ) (hp : Plain e) (p n : Tree α) :
    arguments e (e.addArg p n) =
      arguments e p ++ (if e.ignored n.val then [] else [n.val]) := by
  simp only [arguments, Env.addArg, Tree.children, hp p n, List.filter_append, List.map_append]
  congr 1
  by_cases h : e.ignored n.val = true
  · simp [h]
  · simp [h]

theorem remOf_ignored (e : Env α κ) (hp : Plain e) (p n : Tree α) (ss : List (List κ))
    (h : RemOf e p ss) (hi : e.ignored n.val = true) : RemOf e (e.addArg p n) ss := by
  rw [RemOf, arguments_addArg e hp, if_pos hi, List.append_nil]
  exact h

theorem remOf_addArg (e : Env α κ) (hp : Plain e) (p n : Tree α) (ss : List (List κ))
    (h : RemOf e p ss) (hi : ¬ e.ignored n.val = true) :
    RemOf e (e.addArg p n) (nonEmpty (e.advance n.val ss)) := by
  rw [RemOf, arguments_addArg e hp, if_neg hi]
  exact rem_advance e _ _ _ _ h

/-- The condition on stack entries. -/
def GoodEntry (e : Env α κ) (x : Entry α κ) : Prop := RemOf e x.1 x.2 ∧ (x.2 ≠ [] ∨ Idle e x.1)

theorem takes_ignored (e : Env α κ) (p n : Tree α) (ss : List (List κ)) (h : GoodEntry e (p, ss))
    (hi : e.ignored n.val = true) : Takes e p n :=
  .inl ⟨hi, (waits_iff e p ss h.1).2 h.2⟩

theorem takes_fit (e : Env α κ) (p n : Tree α) (ss : List (List κ)) (h : GoodEntry e (p, ss))
    (hi : ¬ e.ignored n.val = true) (ha : ¬ (e.advance n.val ss).isEmpty = true) : Takes e p n :=
  .inr ⟨by simpa using hi, (continues_iff e p n ss h.1).2 fun he => ha (by simp [he])⟩

theorem not_takes (e : Env α κ) (p n : Tree α) (ss : List (List κ)) (h : GoodEntry e (p, ss))
    (hi : ¬ e.ignored n.val = true) (ha : (e.advance n.val ss).isEmpty = true) : ¬ Takes e p n := by
  rintro (⟨h1, -⟩ | ⟨-, h2⟩)
  · exact hi h1
  · exact (continues_iff e p n ss h.1).1 h2 (List.isEmpty_iff.1 ha)

/-- A node that does not wait takes nothing. -/
theorem not_takes_of_not_waits (e : Env α κ) (p n : Tree α) (h : ¬ Waits e p) : ¬ Takes e p n := by
  rintro (⟨-, h2⟩ | ⟨-, c, hc, -⟩)
  · exact h h2
  · exact h (.inl ⟨c, hc⟩)

theorem idle_ignored (e : Env α κ) (hp : Plain e) (p n : Tree α) (h : Idle e p) (hi : e.ignored n.val = true) :
    Idle e (e.addArg p n) := by
  refine ⟨h.1, h.2.1, ?_⟩
  rw [arguments_addArg e hp, if_pos hi, List.append_nil]
  exact h.2.2

theorem goodEntry_ignored (e : Env α κ) (hp : Plain e) (p n : Tree α) (ss : List (List κ)) (h : GoodEntry e (p, ss))
    (hi : e.ignored n.val = true) : GoodEntry e (e.addArg p n, ss) :=
  ⟨remOf_ignored e hp p n ss h.1 hi, h.2.imp id fun h => idle_ignored e hp p n h hi⟩

end Quickly.Build
