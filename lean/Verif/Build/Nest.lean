import Verif.Build.NestSpec
import Verif.Build.Props

/-! # `build_tree` finds the arguments of commands -/

namespace Quickly.Build

open Quickly.Node Spec

variable {α κ : Type}

theorem canHave_iff (e : Env α κ) (a : α) (ls : List α) (ss : List (List κ)) (h : Rem e a ls ss) (c : κ) :
    CanHave e a ls c ↔ ∃ r, c :: r ∈ ss := by
  constructor
  · rintro ⟨s, hs, pre, post, e1, e2⟩
    exact ⟨post, (h _).2 ⟨by simp, s, hs, pre, e1, e2⟩⟩
  · rintro ⟨r, hr⟩
    obtain ⟨-, s, hs, pre, e1, e2⟩ := (h _).1 hr
    exact ⟨s, hs, pre, r, e1, e2⟩

theorem accepts_of_advance (e : Env α κ) (a : α) (ls : List α) (ss : List (List κ)) (h : Rem e a ls ss) (b : α)
    (hb : e.advance b ss ≠ []) : Accepts e a ls b := by
  obtain ⟨r, hr⟩ := List.exists_mem_of_ne_nil _ hb
  obtain ⟨c, hc, hi⟩ := (mem_advance e b ss r).1 hr
  exact .inl ⟨c, (canHave_iff e a ls ss h c).2 ⟨r, hc⟩, .inr hi⟩

theorem advance_of_accepts (e : Env α κ) (a : α) (ls : List α) (ss : List (List κ)) (h : Rem e a ls ss) (b : α)
    (hi : e.ignored b = false) (hb : Accepts e a ls b) : e.advance b ss ≠ [] := by
  rw [Accepts, hi] at hb
  obtain ⟨c, hc, hc'⟩ | hb := hb
  swap
  · cases hb.1
  obtain ⟨r, hr⟩ := (canHave_iff e a ls ss h c).1 hc
  intro he
  have := (mem_advance e b ss r).2 ⟨c, hr, by simpa using hc'⟩
  rw [he] at this; cases this

/-- Remaining signatures, or none at all while there could be. -/
def Live (e : Env α κ) (a : α) (ls : List α) (ss : List (List κ)) : Prop :=
  ss ≠ [] ∨ (e.gen a = true ∧ e.sigs a = [] ∧ ls = [])

theorem accepts_ignored (e : Env α κ) (a : α) (ls : List α) (ss : List (List κ)) (h : Rem e a ls ss)
    (hs : Live e a ls ss) (b : α) (hi : e.ignored b = true) : Accepts e a ls b := by
  rcases hs with hs | hs
  swap
  · exact .inr ⟨hi, hs⟩
  obtain ⟨r, hr⟩ := List.exists_mem_of_ne_nil _ hs
  have h1 := ((h r).1 hr).1
  cases r with
  | nil => exact absurd rfl h1
  | cons c r => exact .inl ⟨c, (canHave_iff e a ls ss h c).2 ⟨r, hr⟩, .inl hi⟩

theorem not_accepts_nil (e : Env α κ) (a : α) (ls : List α) (h : Rem e a ls []) (hl : ls ≠ []) (b : α) :
    ¬ Accepts e a ls b := by
  rintro (⟨c, hc, -⟩ | hc)
  · obtain ⟨r, hr⟩ := (canHave_iff e a ls [] h c).1 hc
    cases hr
  · exact hl hc.2.2.2

theorem foldl_val (e : Env α κ) (ts : List (Tree α)) : ∀ n : Tree α, (ts.foldl e.addArg n).val = n.val := by
  induction ts with
  | nil => intro n; rfl
  | cons t ts ih => intro n; rw [List.foldl_cons, ih]; rfl

theorem tree_val (e : Env α κ) (x : Ex α) : (x.tree e).val = x.label := by
  cases x with
  | mk n args => rw [Ex.tree, foldl_val]; rfl

theorem trees_append (e : Env α κ) (xs ys : List (Ex α)) : trees e (xs ++ ys) = trees e xs ++ trees e ys := by
  induction xs with
  | nil => rfl
  | cons x xs ih => simp [trees, ih]

theorem inputs_append (xs ys : List (Ex α)) : inputs (xs ++ ys) = inputs xs ++ inputs ys := by
  induction xs with
  | nil => rfl
  | cons x xs ih => simp [inputs, ih]

theorem labels_append (e : Env α κ) (xs ys : List (Ex α)) : labels e (xs ++ ys) = labels e xs ++ labels e ys := by
  simp [labels]

/-- Adding arguments that fit. -/
theorem feed (e : Env α κ) (a : α) (st : List (Entry α κ)) (pend : List (Tree α)) (zs : List (Ex α)) :
    ∀ (p : Tree α) (ls : List α) (ss : List (List κ)), Rem e a ls ss → Live e a ls ss →
    (∀ pre z post, zs = pre ++ z :: post → Accepts e a (ls ++ labels e pre) z.label) →
    (∃ ss', Live e a (ls ++ labels e zs) ss' ∧ Rem e a (ls ++ labels e zs) ss' ∧
      e.addLoop ((p, ss) :: st) (trees e zs ++ pend) = e.addLoop (((trees e zs).foldl e.addArg p, ss') :: st) pend) ∨
    (Rem e a (ls ++ labels e zs) [] ∧ ls ++ labels e zs ≠ [] ∧
      e.addLoop ((p, ss) :: st) (trees e zs ++ pend) = e.addLoop st ((trees e zs).foldl e.addArg p :: pend)) := by
  induction zs with
  | nil =>
    intro p ls ss h hs _
    exact .inl ⟨ss, by simpa [labels] using hs, by simpa [labels] using h, rfl⟩
  | cons z zs ih =>
    intro p ls ss h hs hacc
    have hz := hacc [] z zs rfl
    simp only [labels, List.map_nil, List.filter_nil, List.append_nil] at hz
    have hacc' : ∀ pre z' post, zs = pre ++ z' :: post → Accepts e a (ls ++ labels e [z] ++ labels e pre) z'.label := by
      intro pre z' post he
      have := hacc (z :: pre) z' post (by rw [he]; rfl)
      rwa [List.append_assoc, ← labels_append]
    simp only [trees, List.cons_append, List.foldl_cons]
    rw [Env.addLoop, tree_val]
    by_cases hi : e.ignored z.label = true
    · rw [if_pos hi]
      have hl : labels e [z] = [] := by simp [labels, hi]
      rw [hl, List.append_nil] at hacc'
      have hl' : labels e (z :: zs) = labels e zs := by simp [labels, hi]
      rw [hl']
      exact ih _ ls ss h hs hacc'
    · have hi' : e.ignored z.label = false := by simpa using hi
      have hl : labels e [z] = [z.label] := by simp [labels, hi']
      have hl' : labels e (z :: zs) = z.label :: labels e zs := by simp [labels, hi']
      have hadv := advance_of_accepts e a ls ss h z.label hi' hz
      rw [if_neg hi, if_neg (by simpa using hadv)]
      have hr := rem_advance e a ls ss z.label h
      rw [hl] at hacc'
      by_cases hn : (nonEmpty (e.advance z.label ss)).isEmpty = true
      · rw [if_pos hn]
        rw [List.isEmpty_iff] at hn
        rw [hn] at hr
        cases zs with
        | nil =>
          right
          rw [hl']
          exact ⟨hr, by simp, rfl⟩
        | cons z' zs =>
          have := hacc' [] z' zs rfl
          simp only [labels, List.map_nil, List.filter_nil, List.append_nil] at this
          exact absurd this (not_accepts_nil e a _ hr (by simp) _)
      · rw [if_neg hn]
        have := ih (e.addArg p (z.tree e)) (ls ++ [z.label]) _ hr (.inl (by simpa [List.isEmpty_iff] using hn)) hacc'
        rw [hl']
        simpa [List.append_assoc] using this

mutual
/-- The expression has been read, and it or its last argument can still get arguments: the stack `S` has it on top of
`st`. -/
inductive Open (e : Env α κ) : Ex α → List (Entry α κ) → List (Entry α κ) → Prop
  | mk (n : Tree α) (done ys : List (Ex α)) (ss : List (List κ)) (S st : List (Entry α κ)) :
      Rem e n.val (arguments e n ++ labels e done) ss → Live e n.val (arguments e n ++ labels e done) ss →
      Pile e ys S (((trees e done).foldl e.addArg n, ss) :: st) → Open e (.mk n (done ++ ys)) S st
/-- The same for expressions one after another. -/
inductive Pile (e : Env α κ) : List (Ex α) → List (Entry α κ) → List (Entry α κ) → Prop
  | nil (st : List (Entry α κ)) : Pile e [] st st
  | cons (x : Ex α) (xs : List (Ex α)) (S1 S st : List (Entry α κ)) : Open e x S1 st → Pile e xs S S1 →
      Pile e (x :: xs) S st
end

theorem pile_snoc (e : Env α κ) (z : Ex α) (S S' : List (Entry α κ)) (hz : Open e z S' S) :
    ∀ (ys : List (Ex α)) (st : List (Entry α κ)), Pile e ys S st → Pile e (ys ++ [z]) S' st
  | _, _, .nil _ => .cons z [] S' S' _ hz (.nil _)
  | _, _, .cons x xs S1 _ st h1 h2 => .cons x _ S1 S' st h1 (pile_snoc e z S S' hz xs S1 h2)

theorem chain_append_last {β : Type} {R : β → β → Prop} {xs ys : List β} (h : (xs ++ ys).IsChain R) :
    xs.IsChain R ∧ ys.IsChain R := by
  rw [List.isChain_append] at h
  exact ⟨h.1, h.2.1⟩

mutual

theorem open_offer (e : Env α κ) (n : Tree α) (pend : List (Tree α)) :
    ∀ (x : Ex α) (S st : List (Entry α κ)), Open e x S st → Good e x → Over e n.val x →
      e.addLoop S (n :: pend) = e.addLoop st (x.tree e :: n :: pend)
  | _, S, st, .mk m done ys ss _ _ hr hs hp, hg, ho => by
    cases hg with
    | mk _ _ hacc hch hgood =>
    cases ho with
    | mk _ _ hna hlast =>
    have hch' := chain_append_last hch
    have h1 := pile_offer e n pend ys S _ hp (fun y hy => hgood y (by simp [hy])) hch'.2 (by
      intro y hy
      refine hlast y ?_
      rw [List.getLast?_append, hy]
      rfl)
    rw [h1]
    have hacc' : ∀ pre z post, ys = pre ++ z :: post →
        Accepts e m.val (arguments e m ++ labels e done ++ labels e pre) z.label := by
      intro pre z post he
      have := hacc (done ++ pre) z post (by rw [he]; simp)
      rwa [labels_append, ← List.append_assoc] at this
    have hv : ((trees e ys).foldl e.addArg ((trees e done).foldl e.addArg m)) = (Ex.mk m (done ++ ys)).tree e := by
      rw [Ex.tree, trees_append, List.foldl_append]
    rcases feed e m.val st (n :: pend) ys ((trees e done).foldl e.addArg m) _ ss hr hs hacc' with
      ⟨ss', hs', hr', h2⟩ | ⟨hr', hl', h2⟩
    · rw [h2, hv, Env.addLoop]
      rw [List.append_assoc, ← labels_append] at hr' hs'
      have hi : ¬ e.ignored n.val = true := fun hi => hna (accepts_ignored e _ _ _ hr' hs' _ hi)
      have ha : e.advance n.val ss' = [] := by
        by_contra ha
        exact hna (accepts_of_advance e _ _ _ hr' _ ha)
      rw [if_neg hi, if_pos (by simp [ha])]
    · rw [h2, hv]

theorem pile_offer (e : Env α κ) (n : Tree α) (pend : List (Tree α)) :
    ∀ (xs : List (Ex α)) (S st : List (Entry α κ)), Pile e xs S st → (∀ x ∈ xs, Good e x) →
      xs.IsChain (fun x y => Over e y.label x) → (∀ y, xs.getLast? = some y → Over e n.val y) →
      e.addLoop S (n :: pend) = e.addLoop st (trees e xs ++ n :: pend)
  | _, _, _, .nil _, _, _, _ => rfl
  | _, S, st, .cons x xs S1 _ _ hx hxs, hg, hch, hlast => by
    have h1 := pile_offer e n pend xs S S1 hxs (fun y hy => hg y (by simp [hy])) hch.tail (by
      intro y hy
      refine hlast y ?_
      cases xs with
      | nil => cases hy
      | cons z zs => rw [List.getLast?_cons_cons]; exact hy)
    rw [h1]
    cases xs with
    | nil => exact open_offer e n pend x S1 st hx (hg x (by simp)) (hlast x rfl)
    | cons z zs =>
      have h2 : Over e z.label x := hch.rel_head
      rw [← tree_val e z] at h2
      simpa [trees] using open_offer e (z.tree e) (trees e zs ++ n :: pend) x S1 st hx (hg x (by simp)) h2

end

mutual

theorem open_finish (e : Env α κ) :
    ∀ (x : Ex α) (S st : List (Entry α κ)), Open e x S st → Good e x →
      e.finish S = (e.addLoop st [x.tree e]).2 ++ e.finish (e.addLoop st [x.tree e]).1
  | _, S, st, .mk m done ys ss _ _ hr hs hp, hg => by
    cases hg with
    | mk _ _ hacc hch hgood =>
    have hch' := chain_append_last hch
    have h1 := pile_finish e ys S _ hp (fun y hy => hgood y (by simp [hy])) hch'.2
    have hacc' : ∀ pre z post, ys = pre ++ z :: post →
        Accepts e m.val (arguments e m ++ labels e done ++ labels e pre) z.label := by
      intro pre z post he
      have := hacc (done ++ pre) z post (by rw [he]; simp)
      rwa [labels_append, ← List.append_assoc] at this
    have hv : ((trees e ys).foldl e.addArg ((trees e done).foldl e.addArg m)) = (Ex.mk m (done ++ ys)).tree e := by
      rw [Ex.tree, trees_append, List.foldl_append]
    rw [h1]
    rcases feed e m.val st [] ys ((trees e done).foldl e.addArg m) _ ss hr hs hacc' with
      ⟨ss', hs', hr', h2⟩ | ⟨hr', hl', h2⟩
    · rw [List.append_nil] at h2
      rw [h2, hv, Env.addLoop]
      · simp only [List.nil_append]
        rw [Env.finish]
      · simp
    · rw [List.append_nil] at h2
      rw [h2, hv]

theorem pile_finish (e : Env α κ) :
    ∀ (xs : List (Ex α)) (S st : List (Entry α κ)), Pile e xs S st → (∀ x ∈ xs, Good e x) →
      xs.IsChain (fun x y => Over e y.label x) →
      e.finish S = (e.addLoop st (trees e xs)).2 ++ e.finish (e.addLoop st (trees e xs)).1
  | _, _, st, .nil _, _, _ => by
    have : e.addLoop st [] = (st, []) := by cases st <;> simp [Env.addLoop]
    rw [trees, this]
    rfl
  | _, S, st, .cons x xs S1 _ _ hx hxs, hg, hch => by
    have h1 := pile_finish e xs S S1 hxs (fun y hy => hg y (by simp [hy])) hch.tail
    rw [h1]
    cases xs with
    | nil =>
      have : e.addLoop S1 [] = (S1, []) := by cases S1 <;> simp [Env.addLoop]
      rw [trees, this]
      simpa [trees] using open_finish e x S1 st hx (hg x (by simp))
    | cons z zs =>
      have h2 : Over e z.label x := hch.rel_head
      rw [← tree_val e z] at h2
      have := open_offer e (z.tree e) (trees e zs) x S1 st hx (hg x (by simp)) h2
      simp only [trees]
      rw [this]

end

/-- The main loop without its end. -/
def run (e : Env α κ) : List (Entry α κ) → List (Tree α) → List (Entry α κ) × List (Tree α)
  | st, [] => (st, [])
  | st, n :: ns => ((run e (e.step st n).1 ns).1, (e.step st n).2 ++ (run e (e.step st n).1 ns).2)

theorem run_append (e : Env α κ) (ns ms : List (Tree α)) : ∀ st,
    run e st (ns ++ ms) = ((run e (run e st ns).1 ms).1, (run e st ns).2 ++ (run e (run e st ns).1 ms).2) := by
  induction ns with
  | nil => intro st; simp [run]
  | cons n ns ih => intro st; simp [run, ih]

theorem main_run (e : Env α κ) (ns rest : List (Tree α)) : ∀ st,
    e.main st (ns ++ rest) = (run e st ns).2 ++ e.main (run e st ns).1 rest := by
  induction ns with
  | nil => intro st; simp [run]
  | cons n ns ih => intro st; simp [run, Env.main, ih]

/-- Reading an expression. -/
def Reads (e : Env α κ) (x : Ex α) : Prop :=
  ∀ st, run e st x.input = e.addLoop st [x.tree e] ∨ ∃ S, run e st x.input = (S, []) ∧ Open e x S st

theorem reads_args (e : Env α κ) (n : Tree α) (args : List (Ex α)) (st : List (Entry α κ))
    (hacc : ∀ pre z post, args = pre ++ z :: post → Accepts e n.val (arguments e n ++ labels e pre) z.label)
    (hch : args.IsChain (fun x y => Over e y.label x)) (hgood : ∀ x ∈ args, Good e x)
    (hr : ∀ x ∈ args, Reads e x) (zs : List (Ex α)) :
    ∀ (done ys : List (Ex α)) (ss : List (List κ)) (S : List (Entry α κ)), args = done ++ ys ++ zs →
      Rem e n.val (arguments e n ++ labels e done) ss → Live e n.val (arguments e n ++ labels e done) ss →
      Pile e ys S (((trees e done).foldl e.addArg n, ss) :: st) →
      run e S (inputs zs) = e.addLoop st [(Ex.mk n args).tree e] ∨
        ∃ S', run e S (inputs zs) = (S', []) ∧ Open e (.mk n args) S' st := by
  induction zs with
  | nil =>
    intro done ys ss S he h1 h2 h3
    right
    refine ⟨S, rfl, ?_⟩
    rw [he, List.append_nil]
    exact .mk n done ys ss S st h1 h2 h3
  | cons z zs ih =>
    intro done ys ss S he h1 h2 h3
    rw [inputs, run_append]
    rcases hr z (by rw [he]; simp) S with h4 | ⟨S1, h4, h5⟩
    · have hch1 : (ys ++ z :: zs).IsChain (fun x y => Over e y.label x) := by
        rw [he, List.append_assoc] at hch
        exact (chain_append_last hch).2
      have hlast : ∀ y, ys.getLast? = some y → Over e (z.tree e).val y := by
        intro y hy
        rw [List.isChain_append] at hch1
        rw [tree_val]
        exact hch1.2.2 y hy z (by simp)
      have h5 := pile_offer e (z.tree e) [] ys S _ h3 (fun y hy => hgood y (by rw [he]; simp [hy]))
        (chain_append_last hch1).1 hlast
      have hacc' : ∀ pre w post, ys ++ [z] = pre ++ w :: post →
          Accepts e n.val (arguments e n ++ labels e done ++ labels e pre) w.label := by
        intro pre w post hw
        have := hacc (done ++ pre) w (post ++ zs) (by
          rw [he]
          have : done ++ ys ++ z :: zs = done ++ (ys ++ [z]) ++ zs := by simp
          rw [this, hw]; simp)
        rwa [labels_append, ← List.append_assoc] at this
      have h6 := feed e n.val st [] (ys ++ [z]) ((trees e done).foldl e.addArg n) _ ss h1 h2 hacc'
      have ht : trees e (ys ++ [z]) = trees e ys ++ [z.tree e] := by rw [trees_append]; rfl
      have hf : (trees e (ys ++ [z])).foldl e.addArg ((trees e done).foldl e.addArg n) =
          (trees e (done ++ ys ++ [z])).foldl e.addArg n := by
        rw [List.append_assoc, trees_append e done, List.foldl_append]
      rw [List.append_nil, hf, List.append_assoc, ← labels_append, ← List.append_assoc] at h6
      rw [h4, h5, ← ht]
      rcases h6 with ⟨ss', h7, h8, h9⟩ | ⟨h8, h10, h9⟩
      · rw [h9]
        have : e.addLoop (((trees e (done ++ ys ++ [z])).foldl e.addArg n, ss') :: st) [] =
          (((trees e (done ++ ys ++ [z])).foldl e.addArg n, ss') :: st, []) := by simp [Env.addLoop]
        rw [this]
        simp only [List.nil_append]
        exact ih (done ++ ys ++ [z]) [] ss' _ (by rw [he]; simp) h8 h7 (.nil _)
      · have hz : zs = [] := by
          cases zs with
          | nil => rfl
          | cons w zs =>
            have := hacc (done ++ ys ++ [z]) w zs (by rw [he]; simp)
            exact absurd this (not_accepts_nil e _ _ h8 h10 _)
        subst hz
        left
        rw [h9, inputs]
        simp only [run, List.append_nil]
        rw [Ex.tree, he]
    · rw [h4]
      simp only [List.nil_append]
      exact ih done (ys ++ [z]) ss S1 (by rw [he]; simp) h1 h2 (pile_snoc e z S S1 h5 ys _ h3)

theorem reads_good (e : Env α κ) (hs : Proper e) (x : Ex α) (h : Good e x) : Reads e x := by
  induction h with
  | mk n args hacc hch hgood ih =>
    intro st
    rw [Ex.input]
    simp only [run]
    rcases step_cases e hs st n with ⟨ss, h1, h2⟩ | ⟨h1, hw⟩
    · rw [h1]
      simp only [List.nil_append]
      exact reads_args e n args st hacc hch hgood ih args [] [] ss _ (by simp)
        (by simpa [labels, RemOf] using h2.1) (by simpa [labels, Live, Idle] using h2.2) (.nil _)
    · have ha : args = [] := by
        cases args with
        | nil => rfl
        | cons z zs =>
          refine absurd ?_ hw
          obtain ⟨c, hc, -⟩ | hc := hacc [] z zs rfl
          · simp only [labels, List.map_nil, List.filter_nil, List.append_nil] at hc
            exact .inl ⟨c, hc⟩
          · simp only [labels, List.map_nil, List.filter_nil, List.append_nil] at hc
            exact .inr hc.2
      subst ha
      left
      rw [h1]
      simp [inputs, run, Ex.tree, trees]

theorem main_good (e : Env α κ) (hs : Proper e) (zs : List (Ex α)) :
    ∀ (ys : List (Ex α)) (S : List (Entry α κ)), GoodAll e (ys ++ zs) → Pile e ys S [] →
      e.main S (inputs zs) = trees e (ys ++ zs) := by
  induction zs with
  | nil =>
    intro ys S hg hp
    rw [List.append_nil] at hg ⊢
    rw [inputs, Env.main, pile_finish e ys S [] hp hg.1 hg.2]
    simp [Env.addLoop, Env.finish]
  | cons z zs ih =>
    intro ys S hg hp
    rw [inputs, main_run]
    have hch := hg.2
    rcases reads_good e hs z (hg.1 z (by simp)) S with h4 | ⟨S1, h4, h5⟩
    · have hlast : ∀ y, ys.getLast? = some y → Over e (z.tree e).val y := by
        intro y hy
        rw [List.isChain_append] at hch
        rw [tree_val]
        exact hch.2.2 y hy z (by simp)
      have h5 := pile_offer e (z.tree e) [] ys S _ hp (fun y hy => hg.1 y (by simp [hy]))
        (chain_append_last hch).1 hlast
      rw [h4, h5]
      have h6 := ih [] [] ⟨fun x hx => hg.1 x (by simp at hx; simp [hx]), (chain_append_last hch).2.tail⟩ (.nil _)
      simp only [Env.addLoop]
      rw [h6]
      simp [trees, trees_append]
    · rw [h4]
      simp only [List.nil_append]
      have := ih (ys ++ [z]) S1 (by simpa using hg) (pile_snoc e z S S1 h5 ys _ hp)
      rw [this]
      simp

/-- **C82**: every node gets its arguments, to any depth: of proper expressions that are written one after another,
`build_tree` makes exactly these expressions. -/
theorem C82_nesting (e : Env α κ) (hs : Proper e) (xs : List (Ex α)) (h : GoodAll e xs) :
    e.buildTree (inputs xs) = trees e xs := by
  simpa [Env.buildTree] using main_good e hs xs [] [] (by simpa using h) (.nil _)

end Quickly.Build
