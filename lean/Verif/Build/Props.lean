import Verif.Build.Lemmas
import Mathlib.Data.List.Chain

/-! # C39: build_tree keeps all nodes in order -/

namespace Quickly.Build

open Quickly.Node Spec

variable {α κ : Type}

/-- **C39**, general form: whatever content `F` nodes have (labels, tokens, ...), if attaching an
argument puts its content after that of the parent, then the content of the output is that of
the input, in the same order. This covers elements that convert their arguments while
keeping their content. -/
theorem C39_content {β : Type} (e : Env α κ) (F : Tree α → List β)
    (hF : ∀ p n, F (e.addArg p n) = F p ++ F n) (nodes : List (Tree α)) :
    (e.buildTree nodes).flatMap F = nodes.flatMap F := by
  rw [Env.buildTree, main_content e F hF]; simp

theorem listings_eq (ts : List (Tree α)) : listings ts = ts.flatMap listing := by
  induction ts with
  | nil => simp [listings]
  | cons t ts ih => simp [listings, ih]

/-- **C39**: every node is consumed once and the document order is kept: the listing of all nodes
of the output is that of the input. -/
theorem C39_listing (e : Env α κ) (hp : Plain e) (nodes : List (Tree α)) :
    listings (e.buildTree nodes) = listings nodes := by
  rw [listings_eq, listings_eq]
  apply C39_content
  intro p n
  obtain ⟨a, kids⟩ := p
  have := hp (.node a kids) n
  simp [Env.addArg, Tree.val, Tree.children, this, listing, listings_eq, List.flatMap_append]

theorem addLoop_built (e : Env α κ) (hp : Plain e) (input : List (Tree α)) (st : List (Entry α κ))
    (pending : List (Tree α)) (h1 : ∀ x ∈ st, GoodEntry e x ∧ Built e input x.1)
    (h2 : ∀ t ∈ pending, Built e input t) :
    (∀ x ∈ (e.addLoop st pending).1, GoodEntry e x ∧ Built e input x.1) ∧
    (∀ t ∈ (e.addLoop st pending).2, Built e input t) := by
  have hadd : ∀ p n, Built e input p → Built e input n → Takes e p n →
      Built e input (e.addArg p n) := by
    intro p n a b c
    rw [Env.addArg, hp]
    exact .attach p n a b c
  induction st, pending using Env.addLoop.induct e with
  | case1 pending => rw [Env.addLoop]; exact ⟨h1, h2⟩
  | case2 st h => rw [Env.addLoop]; exact ⟨h1, h2⟩; exact h
  | case3 parent ss st node pending h ih =>
    rw [Env.addLoop, if_pos h]
    have hg := h1 _ (List.mem_cons_self ..)
    refine ih ?_ fun t ht => h2 t (by simp [ht])
    intro x hx
    rcases List.mem_cons.1 hx with rfl | hx
    · exact ⟨goodEntry_ignored e hp parent node ss hg.1 h,
        hadd _ _ hg.2 (h2 _ (by simp)) (takes_ignored e parent node ss hg.1 h)⟩
    · exact h1 x (by simp [hx])
  | case4 parent ss st node pending h3 h4 ih =>
    rw [Env.addLoop, if_neg h3, if_pos h4]
    have hg := h1 _ (List.mem_cons_self ..)
    refine ih (fun x hx => h1 x (by simp [hx])) ?_
    intro t ht
    rcases List.mem_cons.1 ht with rfl | ht
    · exact hg.2
    · exact h2 t ht
  | case5 parent ss st node pending h3 h4 h5 ih =>
    rw [Env.addLoop, if_neg h3, if_neg h4, if_pos h5]
    have hg := h1 _ (List.mem_cons_self ..)
    refine ih (fun x hx => h1 x (by simp [hx])) ?_
    intro t ht
    rcases List.mem_cons.1 ht with rfl | ht
    · exact hadd _ _ hg.2 (h2 _ (by simp)) (takes_fit e parent node ss hg.1 h3 h4)
    · exact h2 t (by simp [ht])
  | case6 parent ss st node pending h3 h4 h5 ih =>
    rw [Env.addLoop, if_neg h3, if_neg h4, if_neg h5]
    have hg := h1 _ (List.mem_cons_self ..)
    refine ih ?_ fun t ht => h2 t (by simp [ht])
    intro x hx
    rcases List.mem_cons.1 hx with rfl | hx
    · exact ⟨⟨remOf_addArg e hp parent node ss hg.1.1 h3, .inl fun he => h5 (List.isEmpty_iff.2 he)⟩,
        hadd _ _ hg.2 (h2 _ (by simp)) (takes_fit e parent node ss hg.1 h3 h4)⟩
    · exact h1 x (by simp [hx])

/-- Signatures have at least one entry. -/
def Proper (e : Env α κ) : Prop := ∀ a, [] ∉ e.sigs a

theorem rem_start (e : Env α κ) (hs : Proper e) (a : α) : Rem e a [] (e.sigs a) := by
  intro r
  constructor
  · intro hr
    refine ⟨fun he => hs a (he ▸ hr), r, hr, [], rfl, .nil⟩
  · rintro ⟨-, s, hs', pre, e1, e2⟩
    cases e2
    rw [← show s = r from e1]
    exact hs'

/-- A node that comes in: pushed with its remainders, or it does not wait. -/
theorem step_cases (e : Env α κ) (hs : Proper e) (st : List (Entry α κ)) (n : Tree α) :
    (∃ ss, e.step st n = ((n, ss) :: st, []) ∧ GoodEntry e (n, ss)) ∨
    (e.step st n = e.addLoop st [n] ∧ ¬ Waits e n) := by
  have hargs : (e.childNodes n).map Tree.val = arguments e n := rfl
  rw [Env.step]
  split
  · rename_i h
    simp only [Env.asks, Bool.or_eq_false_iff, Bool.not_eq_false', List.isEmpty_iff] at h
    refine .inr ⟨rfl, ?_⟩
    rintro (⟨c, s, hm, -⟩ | hi)
    · rw [h.1] at hm
      cases hm
    · rw [hi.1] at h
      cases h.2
  · rename_i h
    cases hf : e.fit (e.childNodes n) (e.sigs n.val) with
    | some ss =>
      by_cases h0 : e.sigs n.val = []
      · rw [h0] at hf
        have hk : e.childNodes n = [] ∧ ss = [] := by
          cases hc : e.childNodes n with
          | nil => rw [hc] at hf; simpa [Env.fit] using hf.symm
          | cons c cs => rw [hc] at hf; simp [Env.fit, Env.advance1, Env.advance, nonEmpty] at hf
        have hg : e.gen n.val = true := by simpa [Env.asks, h0] using h
        have ha : arguments e n = [] := by rw [← hargs, hk.1]; rfl
        refine .inl ⟨ss, rfl, ?_, .inr ⟨hg, h0, ha⟩⟩
        have := rem_start e hs n.val
        rw [h0] at this
        rw [hk.2]
        simpa [RemOf, ha] using this
      have := fit_some e n.val (e.childNodes n) [] _ ss (rem_start e hs n.val)
        h0 hf
      rw [List.nil_append, hargs] at this
      exact .inl ⟨ss, rfl, this.1, .inl this.2⟩
    | none =>
      refine .inr ⟨rfl, ?_⟩
      have := fit_none e n.val (e.childNodes n) [] _ (rem_start e hs n.val) hf
      rw [List.nil_append, hargs] at this
      intro hw
      rcases (waits_iff e n [] this).1 hw with h1 | h1
      · exact h1 rfl
      · have h2 : e.childNodes n = [] := by
          have h3 := h1.2.2
          rw [← hargs, List.map_eq_nil_iff] at h3
          exact h3
        rw [h2] at hf
        cases hf

theorem finish_built (e : Env α κ) (hp : Plain e) (input : List (Tree α)) (st : List (Entry α κ))
    (h : ∀ x ∈ st, GoodEntry e x ∧ Built e input x.1) : ∀ t ∈ e.finish st, Built e input t := by
  induction st using Env.finish.induct e with
  | case1 => rw [Env.finish]; intro t ht; cases ht
  | case2 n ss st ih =>
    rw [Env.finish]
    obtain ⟨h1, h2⟩ := addLoop_built e hp input st [n] (fun x hx => h x (by simp [hx]))
      (fun t ht => by simp at ht; subst ht; exact (h _ (List.mem_cons_self ..)).2)
    intro t ht
    rcases List.mem_append.1 ht with ht | ht
    · exact h2 t ht
    · exact ih h1 t ht

/-- **C39**: every argument was attached for a reason: the output trees are made of input nodes by
attaching, one after another, nodes that continue a signature of the parent (or that are of
the ignored type, while the parent waits for arguments). -/
theorem C39_attached (e : Env α κ) (hp : Plain e) (hs : Proper e) (nodes : List (Tree α)) :
    ∀ t ∈ e.buildTree nodes, Built e nodes t := by
  suffices H : ∀ rest st, (∀ n ∈ rest, n ∈ nodes) →
      (∀ x ∈ st, GoodEntry e x ∧ Built e nodes x.1) →
      ∀ t ∈ e.main st rest, Built e nodes t from
    H nodes [] (fun n h => h) (fun x h => by cases h)
  intro rest
  induction rest with
  | nil => intro st _ h; rw [Env.main]; exact finish_built e hp nodes st h
  | cons n rest ih =>
    intro st hr h t ht
    have hn : Built e nodes n := .given n (hr n (by simp))
    have hr' : ∀ m ∈ rest, m ∈ nodes := fun m hm => hr m (by simp [hm])
    rw [Env.main] at ht
    rcases step_cases e hs st n with ⟨ss, h1, h2⟩ | ⟨h1, -⟩
    · rw [h1] at ht
      refine ih _ hr' ?_ t (by simpa using ht)
      intro x hx
      rcases List.mem_cons.1 hx with rfl | hx
      · exact ⟨h2, hn⟩
      · exact h x hx
    · rw [h1] at ht
      obtain ⟨h3, h4⟩ := addLoop_built e hp nodes st [n] h
        (fun t ht => by simp at ht; subst ht; exact hn)
      rcases List.mem_append.1 ht with ht | ht
      · exact h4 t ht
      · exact ih _ hr' h3 t ht

/-! ### Nothing that fits is left out -/

/-- Consecutive nodes where no node takes the next one. -/
def Apart (e : Env α κ) (ts : List (Tree α)) : Prop := ts.IsChain fun p n => ¬ Takes e p n

theorem addLoop_apart (e : Env α κ) (hp : Plain e) (st : List (Entry α κ)) (pending : List (Tree α))
    (h1 : ∀ x ∈ st, GoodEntry e x) (h2 : Apart e pending) :
    (∀ x ∈ (e.addLoop st pending).1, GoodEntry e x) ∧ Apart e (e.addLoop st pending).2 ∧
    ((∀ x ∈ pending.getLast?, ¬ Waits e x) → ∀ x ∈ (e.addLoop st pending).2.getLast?, ¬ Waits e x) := by
  have htail : ∀ (n : Tree α) (p : List (Tree α)), (∀ x ∈ (n :: p).getLast?, ¬ Waits e x) →
      ∀ x ∈ p.getLast?, ¬ Waits e x := by
    intro n p h x hx
    cases p with
    | nil => simp at hx
    | cons a p => exact h x (by simpa [List.getLast?_cons_cons] using hx)
  induction st, pending using Env.addLoop.induct e with
  | case1 pending => rw [Env.addLoop]; exact ⟨h1, h2, id⟩
  | case2 st h =>
    rw [Env.addLoop]
    · exact ⟨h1, h2, id⟩
    · exact h
  | case3 parent ss st node pending h ih =>
    rw [Env.addLoop, if_pos h]
    have hg := h1 _ (List.mem_cons_self ..)
    obtain ⟨a, b, c⟩ := ih (by
      intro x hx
      rcases List.mem_cons.1 hx with rfl | hx
      · exact goodEntry_ignored e hp parent node ss hg h
      · exact h1 x (by simp [hx])) h2.tail
    exact ⟨a, b, fun hl => c (htail _ _ hl)⟩
  | case4 parent ss st node pending h3 h4 ih =>
    rw [Env.addLoop, if_neg h3, if_pos h4]
    have hg := h1 _ (List.mem_cons_self ..)
    obtain ⟨a, b, c⟩ := ih (fun x hx => h1 x (by simp [hx]))
      (List.IsChain.cons_cons (not_takes e parent node ss hg h3 h4) h2)
    exact ⟨a, b, fun hl => c (by simpa [List.getLast?_cons_cons] using hl)⟩
  | case5 parent ss st node pending h3 h4 h5 ih =>
    rw [Env.addLoop, if_neg h3, if_neg h4, if_pos h5]
    have hg := h1 _ (List.mem_cons_self ..)
    have hw : ¬ Waits e (e.addArg parent node) := by
      have := remOf_addArg e hp parent node ss hg.1 h3
      rw [List.isEmpty_iff.1 h5] at this
      rintro hw
      rcases (waits_iff e _ _ this).1 hw with h1 | h1
      · exact h1 rfl
      · have h2 := h1.2.2
        rw [arguments_addArg e hp, if_neg h3] at h2
        simp at h2
    obtain ⟨a, b, c⟩ := ih (fun x hx => h1 x (by simp [hx])) (by
      cases pending with
      | nil => exact List.IsChain.singleton _
      | cons m pending => exact List.IsChain.cons_cons (not_takes_of_not_waits e _ _ hw) h2.tail)
    refine ⟨a, b, fun hl => c ?_⟩
    cases pending with
    | nil => intro x hx; simp at hx; subst hx; exact hw
    | cons m pending => simpa [List.getLast?_cons_cons] using hl
  | case6 parent ss st node pending h3 h4 h5 ih =>
    rw [Env.addLoop, if_neg h3, if_neg h4, if_neg h5]
    have hg := h1 _ (List.mem_cons_self ..)
    obtain ⟨a, b, c⟩ := ih (by
      intro x hx
      rcases List.mem_cons.1 hx with rfl | hx
      · exact ⟨remOf_addArg e hp parent node ss hg.1 h3, .inl fun he => h5 (List.isEmpty_iff.2 he)⟩
      · exact h1 x (by simp [hx])) h2.tail
    exact ⟨a, b, fun hl => c (htail _ _ hl)⟩

theorem finish_apart (e : Env α κ) (hp : Plain e) (st : List (Entry α κ))
    (h : ∀ x ∈ st, GoodEntry e x) : Apart e (e.finish st) := by
  induction st using Env.finish.induct e with
  | case1 => rw [Env.finish]; exact .nil
  | case2 n ss st ih =>
    rw [Env.finish]
    obtain ⟨h1, h2, -⟩ := addLoop_apart e hp st [n] (fun x hx => h x (by simp [hx])) (.singleton _)
    rcases addLoop_out e st [n] with h3 | h3
    · rw [h3, Env.finish, List.append_nil]; exact h2
    · rw [h3, List.nil_append]; exact ih h1

theorem apart_append (e : Env α κ) (a b : List (Tree α)) (ha : Apart e a) (hb : Apart e b)
    (hl : ∀ x ∈ a.getLast?, ¬ Waits e x) : Apart e (a ++ b) := by
  rw [Apart, List.isChain_append]
  exact ⟨ha, hb, fun x hx y _ => not_takes_of_not_waits e x y (hl x hx)⟩

/-- **C39**, completeness: "when a node specifies what child element types it can have, and those
element types follow indeed, they are added": in the output, no node could take the node that
follows it. -/
theorem C39_greedy (e : Env α κ) (hp : Plain e) (hs : Proper e) (nodes : List (Tree α)) :
    (e.buildTree nodes).IsChain fun p n => ¬ Takes e p n := by
  suffices H : ∀ rest st, (∀ x ∈ st, GoodEntry e x) → Apart e (e.main st rest) from
    H nodes [] (fun x h => by cases h)
  intro rest
  induction rest with
  | nil => intro st h; rw [Env.main]; exact finish_apart e hp st h
  | cons n rest ih =>
    intro st h
    rw [Env.main]
    rcases step_cases e hs st n with ⟨ss, h1, h2⟩ | ⟨h1, hw⟩
    · rw [h1, List.nil_append]
      apply ih
      intro x hx
      rcases List.mem_cons.1 hx with rfl | hx
      · exact h2
      · exact h x hx
    · rw [h1]
      obtain ⟨h3, h4, h5⟩ := addLoop_apart e hp st [n] h (.singleton _)
      exact apart_append e _ _ h4 (ih _ h3) (h5 (by intro x hx; simp at hx; subst hx; exact hw))

/-! ### Example: `\repeat unfold 2 % comment` music, with nested `\relative c' { }` -/

/-- Labels are class names: `\repeat` wants a symbol, an int and music, with an optional
alternative; `\relative` wants a pitch and music, or music alone. -/
def exEnv : Env String String where
  isa a c := a == c || (c == "Music" && (a == "Repeat" || a == "Relative" || a == "MusicList"))
  sigs a :=
    if a = "Repeat" then [["Symbol", "Int", "Music"], ["Symbol", "Int", "Music", "Alternative"]]
    else if a = "Relative" then [["Pitch", "Music"], ["Music"]] else []
  gen a := a == "Function"
  ignored a := a == "Comment"
  conv _ n := n

theorem exEnv_plain : Plain exEnv := fun _ _ => rfl

theorem exEnv_proper : Proper exEnv := by
  intro a
  simp only [exEnv]
  split
  · decide
  · split <;> decide

/-- The example: a leaf. -/
def leaf (a : String) : Tree String := .node a []

/-- Nodes in nested form. -/
example : exEnv.buildTree (["Repeat", "Symbol", "Comment", "Int", "Relative", "Pitch", "MusicList",
      "Rest"].map leaf) =
    [.node "Repeat" [leaf "Symbol", leaf "Comment", leaf "Int",
      .node "Relative" [leaf "Pitch", leaf "MusicList"]], leaf "Rest"] := by
  simp [Env.buildTree, Env.main, Env.step, Env.asks, exEnv, leaf, Tree.val, Env.childNodes, Tree.children,
    Env.fit, Env.addLoop, Env.advance, nonEmpty, Env.addArg, Env.finish]

example : exEnv.buildTree (["Repeat", "Symbol", "Int", "MusicList", "Alternative",
      "Rest"].map leaf) =
    [.node "Repeat" [leaf "Symbol", leaf "Int", leaf "MusicList", leaf "Alternative"],
      leaf "Rest"] := by
  simp [Env.buildTree, Env.main, Env.step, Env.asks, exEnv, leaf, Tree.val, Env.childNodes, Tree.children,
    Env.fit, Env.addLoop, Env.advance, nonEmpty, Env.addArg, Env.finish]

/-- A comment after a function that has no signatures. -/
example : exEnv.buildTree (["Function", "Comment", "MusicList"].map leaf) =
    [.node "Function" [leaf "Comment"], leaf "MusicList"] := by
  simp [Env.buildTree, Env.main, Env.step, Env.asks, exEnv, leaf, Tree.val, Env.childNodes, Tree.children,
    Env.fit, Env.addLoop, Env.advance, nonEmpty, Env.addArg, Env.finish]

end Quickly.Build
