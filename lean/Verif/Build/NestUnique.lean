import Verif.Build.Nest

/-! # Every input is a list of expressions in exactly one way -/

namespace Quickly.Build

open Quickly.Node Spec

variable {α κ : Type}

/-- What follows does not belong to the expression. -/
def Stops (e : Env α κ) (x : Ex α) (r : List (Tree α)) : Prop := ∀ t, r.head? = some t → Over e t.val x

theorem input_head (x : Ex α) (r : List (Tree α)) : (x.input ++ r).head? = some x.node := by
  cases x; rfl

theorem over_last (e : Env α κ) (b : α) (x : Ex α) (h : Over e b x) (y : Ex α) (hy : x.args.getLast? = some y) :
    Over e b y := by
  cases h with
  | mk n args _ h2 => exact h2 y hy

mutual

theorem unique_one (e : Env α κ) : ∀ (x y : Ex α) (r1 r2 : List (Tree α)), Good e x → Good e y →
    x.input ++ r1 = y.input ++ r2 → Stops e x r1 → Stops e y r2 → x = y ∧ r1 = r2
  | .mk n as, .mk m bs, r1, r2, hx, hy, he, h1, h2 => by
    rw [Ex.input, Ex.input, List.cons_append, List.cons_append] at he
    injection he with hn he
    subst hn
    have := unique_args e n as bs [] r1 r2 (by simpa using hx) (by simpa using hy) he (by simpa using h1)
      (by simpa using h2)
    exact ⟨by rw [this.1], this.2⟩

theorem unique_args (e : Env α κ) : ∀ (n : Tree α) (as bs pre : List (Ex α)) (r1 r2 : List (Tree α)),
    Good e (.mk n (pre ++ as)) → Good e (.mk n (pre ++ bs)) → inputs as ++ r1 = inputs bs ++ r2 →
    Stops e (.mk n (pre ++ as)) r1 → Stops e (.mk n (pre ++ bs)) r2 → as = bs ∧ r1 = r2
  | n, [], [], pre, r1, r2, _, _, he, _, _ => ⟨rfl, by simpa [inputs] using he⟩
  | n, [], b :: bs, pre, r1, r2, _, hy, he, h1, _ => by
    exfalso
    rw [inputs, inputs, List.nil_append, List.append_assoc] at he
    have h3 := h1 b.node (by rw [he, input_head])
    cases hy with
    | mk _ _ hacc _ _ =>
    cases h3 with
    | mk _ _ hna _ =>
    rw [List.append_nil] at hna
    exact hna (hacc pre b bs rfl)
  | n, a :: as, [], pre, r1, r2, hx, _, he, _, h2 => by
    exfalso
    rw [inputs, inputs, List.nil_append, List.append_assoc] at he
    have h3 := h2 a.node (by rw [← he, input_head])
    cases hx with
    | mk _ _ hacc _ _ =>
    cases h3 with
    | mk _ _ hna _ =>
    rw [List.append_nil] at hna
    exact hna (hacc pre a as rfl)
  | n, a :: as, b :: bs, pre, r1, r2, hx, hy, he, h1, h2 => by
    have hx0 := hx
    have hy0 := hy
    cases hx with
    | mk _ _ hacc hch hgood =>
    cases hy with
    | mk _ _ hacc' hch' hgood' =>
    rw [inputs, inputs, List.append_assoc, List.append_assoc] at he
    have ha : Stops e a (inputs as ++ r1) := by
      intro t ht
      cases as with
      | nil =>
        refine over_last e _ _ (h1 t (by simpa [inputs] using ht)) a ?_
        simp [Ex.args]
      | cons a' as =>
        rw [inputs, List.append_assoc, input_head] at ht
        injection ht with ht
        subst ht
        exact ((chain_append_last hch).2).rel_head
    have hb : Stops e b (inputs bs ++ r2) := by
      intro t ht
      cases bs with
      | nil =>
        refine over_last e _ _ (h2 t (by simpa [inputs] using ht)) b ?_
        simp [Ex.args]
      | cons b' bs =>
        rw [inputs, List.append_assoc, input_head] at ht
        injection ht with ht
        subst ht
        exact ((chain_append_last hch').2).rel_head
    obtain ⟨hab, hr⟩ := unique_one e a b _ _ (hgood a (by simp)) (hgood' b (by simp)) he ha hb
    subst hab
    have := unique_args e n as bs (pre ++ [a]) r1 r2 (by simpa using hx0) (by simpa using hy0) hr (by simpa using h1)
      (by simpa using h2)
    exact ⟨by rw [this.1], this.2⟩

end

/-- **C82**: an input is a list of proper expressions in one way at most. -/
theorem C82_unique (e : Env α κ) : ∀ (xs ys : List (Ex α)), GoodAll e xs → GoodAll e ys → inputs xs = inputs ys →
    xs = ys := by
  intro xs
  induction xs with
  | nil =>
    intro ys _ _ h
    cases ys with
    | nil => rfl
    | cons y ys => cases y; simp [inputs, Ex.input] at h
  | cons x xs ih =>
    intro ys hx hy h
    cases ys with
    | nil => cases x; simp [inputs, Ex.input] at h
    | cons y ys =>
      rw [inputs, inputs] at h
      have stop : ∀ (z : Ex α) (zs : List (Ex α)), GoodAll e (z :: zs) → Stops e z (inputs zs) := by
        intro z zs hz t ht
        cases zs with
        | nil => cases ht
        | cons w ws =>
          rw [inputs, input_head] at ht
          injection ht with ht
          subst ht
          exact hz.2.rel_head
      obtain ⟨h1, h2⟩ := unique_one e x y _ _ (hx.1 x (by simp)) (hy.1 y (by simp)) h (stop x xs hx) (stop y ys hy)
      rw [h1, ih ys ⟨fun z hz => hx.1 z (by simp [hz]), hx.2.tail⟩ ⟨fun z hz => hy.1 z (by simp [hz]), hy.2.tail⟩ h2]

/-! ## Every input is such a list -/

/-- Nothing can be added any more. -/
def Closed (e : Env α κ) (x : Ex α) : Prop := ∀ b, Over e b x

theorem inputs_nil_iff (xs : List (Ex α)) : inputs xs = [] ↔ xs = [] := by
  cases xs with
  | nil => simp [inputs]
  | cons x xs => cases x; simp [inputs, Ex.input]

/-- An entry of the stack is a proper expression that can get more arguments. -/
structure Held (e : Env α κ) (en : Entry α κ) (x : Ex α) : Prop where
  good : Good e x
  tree : en.1 = x.tree e
  rem : Rem e x.label (arguments e x.node ++ labels e x.args) en.2
  more : Live e x.label (arguments e x.node ++ labels e x.args) en.2

/-- The last argument of the expression does not take the first of what is pending. -/
def Ready (e : Env α κ) (x : Ex α) (zs : List (Ex α)) : Prop :=
  ∀ y, x.args.getLast? = some y → ∀ z, zs.head? = some z → Over e z.label y

theorem good_snoc (e : Env α κ) (x z : Ex α) (hx : Good e x) (hz : Good e z)
    (ha : Accepts e x.label (arguments e x.node ++ labels e x.args) z.label)
    (hl : ∀ y, x.args.getLast? = some y → Over e z.label y) : Good e (.mk x.node (x.args ++ [z])) := by
  cases hx with
  | mk n args hacc hch hgood =>
  refine .mk n _ ?_ ?_ ?_
  · intro pre w post he
    rcases List.eq_nil_or_concat post with rfl | ⟨post', v, rfl⟩
    · have h1 := List.append_inj' he (by simp)
      simp only [Ex.args] at h1
      obtain ⟨rfl, h2⟩ := h1
      injection h2 with h2
      subst h2
      exact ha
    · have h1 : args ++ [z] = (pre ++ w :: post') ++ [v] := by simpa [Ex.args] using he
      have h2 := List.append_inj' h1 (by simp)
      exact hacc pre w post' h2.1
  · rw [List.isChain_append]
    refine ⟨hch, .singleton _, ?_⟩
    intro y hy w hw
    simp only [List.head?_cons, Option.mem_def, Option.some.injEq] at hw
    subst hw
    exact hl y hy
  · intro w hw
    simp only [Ex.args, List.mem_append, List.mem_singleton] at hw
    rcases hw with hw | rfl
    · exact hgood w hw
    · exact hz

theorem tree_snoc (e : Env α κ) (x z : Ex α) :
    (Ex.mk x.node (x.args ++ [z])).tree e = e.addArg (x.tree e) (z.tree e) := by
  cases x with
  | mk n args => simp [Ex.tree, Ex.node, Ex.args, trees_append, trees]

/-- The entries of a stack, from the top, with their expressions. -/
def HeldAll (e : Env α κ) (st : List (Entry α κ)) (hs : List (Ex α)) : Prop := List.Forall₂ (Held e) st hs

/-- The last arguments of the expressions on the stack can get nothing more. -/
def LastClosed (e : Env α κ) (x : Ex α) : Prop := ∀ y, x.args.getLast? = some y → Closed e y

theorem input_snoc (x z : Ex α) : (Ex.mk x.node (x.args ++ [z])).input = x.input ++ z.input := by
  cases x with
  | mk n args => simp [Ex.input, Ex.node, Ex.args, inputs_append, inputs]

theorem labels_snoc_ignored (e : Env α κ) (xs : List (Ex α)) (z : Ex α) (h : e.ignored z.label = true) :
    labels e (xs ++ [z]) = labels e xs := by simp [labels, h]

theorem labels_snoc (e : Env α κ) (xs : List (Ex α)) (z : Ex α) (h : e.ignored z.label = false) :
    labels e (xs ++ [z]) = labels e xs ++ [z.label] := by simp [labels, h]

theorem over_mk (e : Env α κ) (b : α) (x : Ex α) (h : ¬ Accepts e x.label (arguments e x.node ++ labels e x.args) b)
    (hl : ∀ y, x.args.getLast? = some y → Over e b y) : Over e b x := by
  cases x; exact .mk _ _ h hl

/-- The inner loop, seen as work on expressions. -/
structure Work (e : Env α κ) (hs zs hs' os : List (Ex α)) (r : List (Entry α κ) × List (Tree α)) : Prop where
  held : HeldAll e r.1 hs'
  out : r.2 = trees e os
  good : GoodAll e os
  all : hs' ≠ [] → os = []
  same : inputs os ++ inputs hs'.reverse = inputs hs.reverse ++ inputs zs
  tail : ∀ x ∈ hs'.tail, LastClosed e x
  closed : (∀ z, zs.getLast? = some z → Closed e z) → (∀ x, zs = [] → hs.head? = some x → LastClosed e x) →
    (∀ x ∈ hs', LastClosed e x) ∧ (∀ o, os.getLast? = some o → Closed e o)

theorem addLoop_ex (e : Env α κ) : ∀ (m : ℕ) (st : List (Entry α κ)) (hs zs : List (Ex α)),
    2 * st.length + zs.length = m → HeldAll e st hs → GoodAll e zs →
    (∀ x, hs.head? = some x → Ready e x zs) → (∀ x ∈ hs.tail, LastClosed e x) →
    ∃ hs' os, Work e hs zs hs' os (e.addLoop st (trees e zs)) := by
  intro m
  induction m using Nat.strong_induction_on with
  | _ m ih =>
  intro st hs zs hm hh hg hr ht
  cases hh with
  | nil =>
    refine ⟨[], zs, ?_⟩
    rw [Env.addLoop]
    exact ⟨.nil, rfl, hg, fun h => absurd rfl h, by simp [inputs], by simp, fun h _ => ⟨by simp, h⟩⟩
  | @cons en x st hs hx hh =>
  obtain ⟨p, ss⟩ := en
  cases zs with
  | nil =>
    refine ⟨x :: hs, [], ?_⟩
    rw [trees, Env.addLoop]
    · refine ⟨.cons hx hh, rfl, hg, fun _ => rfl, by simp [inputs], ht, fun _ h => ⟨?_, by simp⟩⟩
      intro y hy
      rcases List.mem_cons.1 hy with rfl | hy
      · exact h _ rfl rfl
      · exact ht y hy
    · simp
  | cons z zs =>
    have hgz := hg.1 z (by simp)
    have hgzs : GoodAll e zs := ⟨fun w hw => hg.1 w (by simp [hw]), hg.2.tail⟩
    have hrx := hr x rfl
    have hlast : ∀ y, x.args.getLast? = some y → Over e z.label y := fun y hy => hrx y hy z rfl
    have hready : Ready e (.mk x.node (x.args ++ [z])) zs := by
      intro y hy w hw
      simp only [Ex.args, List.getLast?_append, List.getLast?_singleton, Option.some_or, Option.some.injEq] at hy
      subst hy
      cases zs with
      | nil => cases hw
      | cons v vs =>
        simp only [List.head?_cons, Option.some.injEq] at hw
        subst hw
        exact hg.2.rel_head
    have hlc : (∀ w, (z :: zs).getLast? = some w → Closed e w) → zs = [] →
        LastClosed e (.mk x.node (x.args ++ [z])) := by
      intro h hz y hy
      subst hz
      simp only [Ex.args, List.getLast?_append, List.getLast?_singleton, Option.some_or, Option.some.injEq] at hy
      subst hy
      exact h z rfl
    have hgl : (∀ w, (z :: zs).getLast? = some w → Closed e w) → ∀ w, zs.getLast? = some w → Closed e w := by
      intro h w hw
      cases zs with
      | nil => cases hw
      | cons v vs => exact h w (by rw [List.getLast?_cons_cons]; exact hw)
    have hhr : ∀ y, hs.head? = some y → LastClosed e y := by
      intro y hy
      exact ht y (by simpa using List.mem_of_mem_head? hy)
    have hvalid : Accepts e x.label (arguments e x.node ++ labels e x.args) z.label →
        Good e (.mk x.node (x.args ++ [z])) := fun h => good_snoc e x z hx.good hgz h hlast
    have htr : e.addArg p (z.tree e) = (Ex.mk x.node (x.args ++ [z])).tree e := by
      rw [tree_snoc, ← hx.tree]
    have hm1 : 2 * ((p, ss) :: st).length + zs.length < m := by simp only [List.length_cons] at hm ⊢; omega
    -- an argument was added, and more can be
    have key : ∀ ss', Rem e x.label (arguments e x.node ++ labels e (x.args ++ [z])) ss' →
        Live e x.label (arguments e x.node ++ labels e (x.args ++ [z])) ss' →
        Accepts e x.label (arguments e x.node ++ labels e x.args) z.label →
        ∃ hs' os, Work e (x :: hs) (z :: zs) hs' os
          (e.addLoop ((e.addArg p (z.tree e), ss') :: st) (trees e zs)) := by
      intro ss' h1 h2 h3
      obtain ⟨hs', os, hw⟩ := ih _ hm1 ((e.addArg p (z.tree e), ss') :: st) (.mk x.node (x.args ++ [z]) :: hs) zs rfl
        (.cons ⟨hvalid h3, htr, h1, h2⟩ hh) hgzs (by
          intro y hy
          simp only [List.head?_cons, Option.some.injEq] at hy
          subst hy
          exact hready) ht
      refine ⟨hs', os, hw.held, hw.out, hw.good, hw.all, ?_, hw.tail, ?_⟩
      · rw [hw.same]
        simp [inputs_append, inputs, input_snoc]
      · intro h4 _
        refine hw.closed (hgl h4) ?_
        intro y hz hy
        simp only [List.head?_cons, Option.some.injEq] at hy
        subst hy
        exact hlc h4 hz
    -- the expression on top is put with what is pending
    have key2 : ∀ (y : Ex α) (ws : List (Ex α)), GoodAll e (y :: ws) → ws.length ≤ zs.length + 1 →
        y.input ++ inputs ws = x.input ++ inputs (z :: zs) →
        ((∀ w, (z :: zs).getLast? = some w → Closed e w) → ∀ w, (y :: ws).getLast? = some w → Closed e w) →
        ∃ hs' os, Work e (x :: hs) (z :: zs) hs' os (e.addLoop st (trees e (y :: ws))) := by
      intro y ws h1 h2 h3 h4
      obtain ⟨hs', os, hw⟩ := ih (2 * st.length + (y :: ws).length)
        (by simp only [List.length_cons] at hm ⊢; omega) st hs (y :: ws) rfl hh h1
        (fun v hv u hu w _ => hhr v hv u hu w.label) (fun v hv => ht v (List.mem_of_mem_tail hv))
      refine ⟨hs', os, hw.held, hw.out, hw.good, hw.all, ?_, hw.tail, ?_⟩
      · rw [hw.same]
        simp only [inputs, List.reverse_cons, inputs_append, List.append_nil, List.append_assoc] at h3 ⊢
        rw [h3]
      · intro h5 _
        exact hw.closed (h4 h5) (fun _ h => by cases h)
    have hxr := hx.rem
    have hxm := hx.more
    simp only at hxr hxm
    rw [trees, Env.addLoop, tree_val]
    by_cases hi : e.ignored z.label = true
    · rw [if_pos hi]
      exact key ss (by rw [labels_snoc_ignored e _ _ hi]; exact hxr)
        (by rw [labels_snoc_ignored e _ _ hi]; exact hxm) (accepts_ignored e _ _ _ hxr hxm _ hi)
    · have hi' : e.ignored z.label = false := by simpa using hi
      rw [if_neg hi]
      by_cases ha : (e.advance z.label ss).isEmpty = true
      · rw [if_pos ha]
        have hna : ¬ Accepts e x.label (arguments e x.node ++ labels e x.args) z.label := by
          intro h
          exact advance_of_accepts e _ _ _ hxr _ hi' h (List.isEmpty_iff.1 ha)
        have := key2 x (z :: zs) ⟨by simpa using ⟨hx.good, hgz, hgzs.1⟩, ?_⟩ (by simp) rfl ?_
        · have hp : p = x.tree e := hx.tree
          rw [hp]
          simpa [trees] using this
        · exact .cons_cons (over_mk e _ x hna hlast) hg.2
        · intro h w hw
          exact h w (by rwa [List.getLast?_cons_cons] at hw)
      · rw [if_neg ha]
        have hacc := accepts_of_advance e _ _ _ hxr z.label (by simpa [List.isEmpty_iff] using ha)
        have hrem := rem_advance e _ _ _ z.label hxr
        by_cases hn : (nonEmpty (e.advance z.label ss)).isEmpty = true
        · rw [if_pos hn]
          rw [List.isEmpty_iff.1 hn] at hrem
          have hno : ∀ b, ¬ Accepts e x.label (arguments e x.node ++ labels e (x.args ++ [z])) b := by
            intro b
            rw [labels_snoc e _ _ hi', ← List.append_assoc]
            exact not_accepts_nil e _ _ hrem (by simp) b
          have := key2 (.mk x.node (x.args ++ [z])) zs ⟨by simpa using ⟨hvalid hacc, hgzs.1⟩, ?_⟩ (by omega)
            (by rw [input_snoc]; simp [inputs]) ?_
          · simpa [trees, htr] using this
          · cases zs with
            | nil => exact .singleton _
            | cons v vs =>
              refine .cons_cons (over_mk e _ _ (hno _) ?_) hgzs.2
              intro y hy
              exact hready y hy v rfl
          · intro h w hw
            cases zs with
            | nil =>
              simp only [List.getLast?_singleton, Option.some.injEq] at hw
              subst hw
              intro b
              exact over_mk e _ _ (hno _) (fun y hy => hlc h rfl y hy b)
            | cons v vs =>
              rw [List.getLast?_cons_cons] at hw
              exact hgl h w hw
        · rw [if_neg hn]
          refine key _ ?_ (.inl (by simpa [List.isEmpty_iff] using hn)) hacc
          rw [labels_snoc e _ _ hi', ← List.append_assoc]
          exact hrem

theorem goodAll_append (e : Env α κ) (xs ys : List (Ex α)) (hx : GoodAll e xs) (hy : GoodAll e ys)
    (hc : ∀ o, xs.getLast? = some o → Closed e o) : GoodAll e (xs ++ ys) := by
  refine ⟨?_, ?_⟩
  · intro z hz
    rcases List.mem_append.1 hz with hz | hz
    · exact hx.1 z hz
    · exact hy.1 z hz
  · rw [List.isChain_append]
    exact ⟨hx.2, hy.2, fun o ho z _ => hc o ho z.label⟩

theorem finish_ex (e : Env α κ) : ∀ (m : ℕ) (st : List (Entry α κ)) (hs : List (Ex α)), st.length = m →
    HeldAll e st hs → (∀ x ∈ hs.tail, LastClosed e x) →
    ∃ os, e.finish st = trees e os ∧ GoodAll e os ∧ inputs os = inputs hs.reverse := by
  intro m
  induction m using Nat.strong_induction_on with
  | _ m ih =>
  intro st hs hm hh ht
  cases hh with
  | nil => exact ⟨[], by rw [Env.finish]; rfl, ⟨by simp, .nil⟩, rfl⟩
  | @cons en x st hs hx hh =>
    obtain ⟨p, ss⟩ := en
    have hcl : ∀ y, hs.head? = some y → LastClosed e y := fun y hy => ht y (by simpa using List.mem_of_mem_head? hy)
    obtain ⟨hs', os, hw⟩ := addLoop_ex e _ st hs [x] rfl hh ⟨by simpa using hx.good, .singleton _⟩
      (fun y hy u hu w _ => hcl y hy u hu w.label) (fun y hy => ht y (List.mem_of_mem_tail hy))
    have hp : p = x.tree e := hx.tree
    have hlen := e.addLoop_length st [x.tree e]
    obtain ⟨os', h1, h2, h3⟩ := ih (e.addLoop st [x.tree e]).1.length
      (by simp only [List.length_cons] at hm; omega) _ hs' rfl hw.held hw.tail
    have hsame := hw.same
    rw [Env.finish, hp]
    have hout := hw.out
    simp only [trees] at hout h1
    cases hs' with
    | nil =>
      have hos' : os' = [] := (inputs_nil_iff os').1 h3
      subst hos'
      refine ⟨os, by rw [hout, h1]; simp [trees], hw.good, ?_⟩
      simpa [inputs, inputs_append] using hsame
    | cons y hs' =>
      have hos : os = [] := hw.all (by simp)
      subst hos
      refine ⟨os', by rw [hout, h1]; simp [trees], h2, ?_⟩
      rw [h3]
      simpa [inputs, inputs_append] using hsame

theorem main_ex (e : Env α κ) (hs0 : Proper e) (ns : List (Tree α)) : ∀ (st : List (Entry α κ)) (hs : List (Ex α)),
    HeldAll e st hs → (∀ x ∈ hs, LastClosed e x) →
    ∃ os, e.main st ns = trees e os ∧ GoodAll e os ∧ inputs os = inputs hs.reverse ++ ns := by
  induction ns with
  | nil =>
    intro st hs hh hc
    obtain ⟨os, h1, h2, h3⟩ := finish_ex e _ st hs rfl hh (fun x hx => hc x (List.mem_of_mem_tail hx))
    exact ⟨os, h1, h2, by simpa using h3⟩
  | cons n ns ih =>
    intro st hs hh hc
    have hg0 : Good e (.mk n []) := .mk n [] (by simp) .nil (by simp)
    rw [Env.main]
    rcases step_cases e hs0 st n with ⟨ss, h1, h2⟩ | ⟨h1, hw⟩
    · obtain ⟨os, h3, h4, h5⟩ := ih ((n, ss) :: st) (.mk n [] :: hs)
        (.cons ⟨hg0, rfl, by simpa [Ex.label, Ex.node, Ex.args, labels, RemOf] using h2.1,
          by simpa [Ex.label, Ex.node, Ex.args, labels, Live, Idle] using h2.2⟩ hh) (by
          intro x hx
          rcases List.mem_cons.1 hx with rfl | hx
          · intro y hy; cases hy
          · exact hc x hx)
      refine ⟨os, by rw [h1]; exact h3, h4, ?_⟩
      rw [h5]
      simp [inputs_append, inputs, Ex.input]
    · have hcl : Closed e (.mk n []) := by
        intro b
        refine .mk n [] ?_ (by simp)
        rintro (⟨c, h, -⟩ | h)
        · simp only [labels, List.map_nil, List.filter_nil, List.append_nil] at h
          exact hw (.inl ⟨c, h⟩)
        · simp only [labels, List.map_nil, List.filter_nil, List.append_nil] at h
          exact hw (.inr h.2)
      obtain ⟨hs', os, hk⟩ := addLoop_ex e _ st hs [.mk n []] rfl hh ⟨by simpa using hg0, .singleton _⟩
        (fun y hy u hu w _ => hc y (List.mem_of_mem_head? hy) u hu w.label)
        (fun y hy => hc y (List.mem_of_mem_tail hy))
      have hcc := hk.closed (by
        intro z hz
        simp only [List.getLast?_singleton, Option.some.injEq] at hz
        subst hz
        exact hcl) (fun _ h => by cases h)
      obtain ⟨os', h3, h4, h5⟩ := ih _ hs' hk.held hcc.1
      have hout := hk.out
      have hsame := hk.same
      simp only [trees, Ex.tree, List.foldl_nil] at hout h3
      rw [h1]
      refine ⟨os ++ os', by rw [hout, h3, trees_append], goodAll_append e os os' hk.good h4 hcc.2, ?_⟩
      rw [inputs_append, h5, ← List.append_assoc, hsame]
      simp [inputs, Ex.input]

/-- **C82**: every input is a list of proper expressions, and `build_tree` makes exactly these. -/
theorem C82_always (e : Env α κ) (hs : Proper e) (ns : List (Tree α)) :
    ∃! xs, GoodAll e xs ∧ inputs xs = ns ∧ e.buildTree ns = trees e xs := by
  obtain ⟨os, h1, h2, h3⟩ := main_ex e hs ns [] [] .nil (by simp)
  simp only [List.reverse_nil, inputs, List.nil_append] at h3
  refine ⟨os, ⟨h2, h3, h1⟩, ?_⟩
  rintro ys ⟨hy, he, -⟩
  exact C82_unique e ys os hy h2 (by rw [he, h3])

/-! ### Example: `\relative % comment` music, and a rest -/

/-- An expression without arguments. -/
def ex0 (a : String) : Ex String := .mk (leaf a) []

def exRelative : Ex String := .mk (leaf "Relative") [ex0 "Comment", ex0 "MusicList"]

theorem ex0_good (a : String) : Good exEnv (ex0 a) := .mk _ _ (by simp) .nil (by simp)

theorem ex0_over (a b : String) (h : exEnv.sigs a = []) (hg : exEnv.gen a = false) : Over exEnv b (ex0 a) := by
  refine .mk _ _ ?_ (by simp)
  rintro (⟨c, ⟨s, hs, -⟩, -⟩ | hc)
  · rw [show (leaf a).val = a from rfl, h] at hs
    cases hs
  · rw [show (leaf a).val = a from rfl, hg] at hc
    cases hc.2.1

theorem exRelative_good : GoodAll exEnv [exRelative, ex0 "Rest"] := by
  have h1 : Accepts exEnv "Relative" [] "Comment" :=
    .inl ⟨"Music", ⟨["Music"], by decide, [], [], rfl, .nil⟩, .inl rfl⟩
  have h2 : Accepts exEnv "Relative" [] "MusicList" :=
    .inl ⟨"Music", ⟨["Music"], by decide, [], [], rfl, .nil⟩, .inr (by decide)⟩
  have hg : Good exEnv exRelative := by
    refine .mk _ _ ?_ ?_ ?_
    · intro pre z post he
      rcases pre with _ | ⟨p, pre⟩
      · injection he with he _
        subst he
        exact h1
      · rcases pre with _ | ⟨q, pre⟩
        · injection he with hp he
          injection he with he _
          subst hp he
          exact h2
        · simp at he
    · exact .cons_cons (ex0_over _ _ (by decide) (by decide)) (.singleton _)
    · intro x hx
      rcases List.mem_cons.1 hx with rfl | hx
      · exact ex0_good _
      · rw [List.mem_singleton.1 hx]; exact ex0_good _
  refine ⟨?_, .cons_cons ?_ (.singleton _)⟩
  · intro x hx
    rcases List.mem_cons.1 hx with rfl | hx
    · exact hg
    · rw [List.mem_singleton.1 hx]; exact ex0_good _
  · refine .mk _ _ ?_ ?_
    · rintro (⟨c, ⟨s, hs, pre, post, hs', hm⟩, -⟩ | hc)
      · have hl : arguments exEnv (leaf "Relative") ++ labels exEnv [ex0 "Comment", ex0 "MusicList"] =
            ["MusicList"] := by decide
        rw [hl] at hm
        have hss : exEnv.sigs (leaf "Relative").val = [["Pitch", "Music"], ["Music"]] := by decide
        rw [hss] at hs
        rcases hm with _ | ⟨h3, hm⟩
        cases hm
        simp only [List.mem_cons, List.not_mem_nil, or_false] at hs
        rcases hs with rfl | rfl
        · simp only [List.cons_append, List.nil_append, List.cons.injEq] at hs'
          rw [← hs'.1] at h3
          revert h3; decide
        · simp at hs'
      · exact absurd hc.1 (by decide)
    · intro y hy
      simp only [List.getLast?_cons_cons, List.getLast?_singleton, Option.some.injEq] at hy
      subst hy
      exact ex0_over _ _ (by decide) (by decide)

example : exEnv.buildTree (["Relative", "Comment", "MusicList", "Rest"].map leaf) =
    [.node "Relative" [leaf "Comment", leaf "MusicList"], leaf "Rest"] :=
  C82_nesting exEnv exEnv_proper _ exRelative_good

end Quickly.Build
