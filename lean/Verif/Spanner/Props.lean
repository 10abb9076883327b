import Verif.Spanner.Spec
import Verif.Node.Props

/-!
# C77: the other end of a spanner
-/

namespace Quickly.Spanner

open Quickly.Node Quickly.Node.Spec Spec

/-! ### Searching -/

/-- The nodes that are looked at. -/
def takeArg : Option ℕ → List (Item Val) → List (Item Val)
  | none, out => out
  | some k, out => out.take k

theorem first_of_runs {σ : Type} {resume : Resume σ Val} (pred : Item Val → Bool) {ok : Bool} {s : σ}
    {hist out : List (Item Val)} (h : Runs resume always ok s hist out) (hok : ok = true) (l : Option ℕ) :
    First resume pred l s ((takeArg l out).find? pred) := by
  induction h generalizing l with
  | done h =>
    subst hok
    by_cases hl : l = some 0
    · subst hl; exact .limit
    · have : (takeArg l ([] : List (Item Val))).find? pred = none := by cases l <;> simp [takeArg]
      rw [this]; exact .done hl h
  | @step ok s hist n s' out h1 h2 ih =>
    subst hok
    by_cases hl : l = some 0
    · subst hl; simp only [takeArg, List.take_zero, List.find?_nil]; exact .limit
    · have ht : takeArg l (n :: out) = n :: takeArg (l.map (· - 1)) out := by
        cases l with
        | none => rfl
        | some k => cases k with
          | zero => exact absurd rfl hl
          | succ k => rfl
      rw [ht]
      cases hp : pred n with
      | true => rw [List.find?_cons_of_pos hp]; exact .hit hl h1 hp
      | false => rw [List.find?_cons_of_neg (by simp [hp])]; exact .skip hl h1 hp (ih rfl _)

theorem first_unique {σ : Type} {resume : Resume σ Val} {pred : Item Val → Bool} {l : Option ℕ} {s : σ}
    {a b : Option (Item Val)} (h1 : First resume pred l s a) (h2 : First resume pred l s b) : a = b := by
  induction h1 generalizing b with
  | limit =>
    cases h2 with
    | limit => rfl
    | done h _ => exact absurd rfl h
    | hit h _ _ => exact absurd rfl h
    | skip h _ _ _ => exact absurd rfl h
  | done hl h =>
    cases h2 with
    | limit => exact absurd rfl hl
    | done _ _ => rfl
    | hit _ h' _ => rw [h] at h'; cases h'
    | skip _ h' _ _ => rw [h] at h'; cases h'
  | hit hl h hp =>
    cases h2 with
    | limit => exact absurd rfl hl
    | done _ h' => rw [h] at h'; cases h'
    | hit _ h' _ => rw [h] at h'; cases h'; rfl
    | skip _ h' hq _ => rw [h] at h'; cases h'; rw [hp] at hq; cases hq
  | skip hl h hp _ ih =>
    cases h2 with
    | limit => exact absurd rfl hl
    | done _ h' => rw [h] at h'; cases h'
    | hit _ h' hq => rw [h] at h'; cases h'; rw [hp] at hq; cases hq
    | skip _ h' _ h'' => rw [h] at h'; cases h'; exact ih h''

/-! ### The scope -/

theorem boundaryAt_iff (t : Tree Val) (u : Path) : boundaryAt t u = true ↔ Border t u := by
  unfold boundaryAt Border
  cases h : t.get? u with
  | none => simp
  | some n =>
    simp only [Option.some.injEq, exists_eq_left']
    cases n.val <;> simp [isBoundary]

theorem upto_scope (t : Tree Val) (p : Path) : Scope t p (upto t p) := by
  have hmem : ∀ q, q ∈ (Ref.ancestors ⟨0, p⟩).map Ref.path ↔ Above q p := by
    intro q
    rw [List.mem_map]
    constructor
    · rintro ⟨r, hr, rfl⟩; exact (mem_ancestors.mp hr).2
    · intro h; exact ⟨⟨0, q⟩, mem_ancestors.mpr ⟨rfl, h⟩, rfl⟩
  have hpw : ((Ref.ancestors ⟨0, p⟩).map Ref.path).Pairwise (fun a b => Above b a) := by
    rw [List.pairwise_map]; exact ancestors_pairwise _
  cases h : upto t p with
  | none =>
    intro v hv hb
    have := List.find?_eq_none.mp h v ((hmem v).mpr hv)
    exact this ((boundaryAt_iff t v).mpr hb)
  | some u =>
    obtain ⟨hb, as, bs, he, has⟩ := List.find?_eq_some_iff_append.mp h
    refine ⟨(hmem u).mp (by rw [he]; simp), (boundaryAt_iff t u).mp hb, fun v hv hvb => ?_⟩
    have hv' := (hmem v).mpr hv
    rw [he] at hv' hpw
    rcases List.mem_append.mp hv' with h' | h'
    · have := has v h'
      rw [(boundaryAt_iff t v).mpr hvb] at this
      cases this
    · rcases List.mem_cons.mp h' with rfl | h'
      · exact .inl rfl
      · exact .inr ((List.pairwise_cons.mp (List.pairwise_append.mp hpw).2.1).1 v h')

theorem scope_unique {t : Tree Val} {p : Path} {a b : Option Path} (ha : Scope t p a) (hb : Scope t p b) : a = b := by
  cases a with
  | none =>
    cases b with
    | none => rfl
    | some v => exact absurd hb.2.1 (ha v hb.1)
  | some u =>
    cases b with
    | none => exact absurd ha.2.1 (hb u ha.1)
    | some v =>
      rcases ha.2.2 v hb.1 hb.2.1 with rfl | h
      · rfl
      · rcases hb.2.2 u ha.1 ha.2.1 with rfl | h'
        · rfl
        · exact absurd (Above.trans h h') (not_above_self _)

/-! ### The id -/

mutual
theorem equals_iff : (a b : Tree Val) → (a.equals (fun v w => decide (v = w)) b = true ↔ a = b)
  | .node v cs, .node w ds => by
    unfold Tree.equals
    simp only [Bool.and_eq_true, beq_iff_eq, decide_eq_true_eq, Tree.node.injEq]
    constructor
    · rintro ⟨⟨h1, h2⟩, h3⟩; exact ⟨h2, (all_iff cs ds h1).mp h3⟩
    · rintro ⟨rfl, rfl⟩; exact ⟨⟨rfl, rfl⟩, (all_iff cs cs rfl).mpr rfl⟩
theorem all_iff : (cs ds : List (Tree Val)) → cs.length = ds.length →
    (Tree.equals.all (fun v w => decide (v = w)) cs ds = true ↔ cs = ds)
  | [], [], _ => by simp [Tree.equals.all]
  | [], _ :: _, h => by simp at h
  | _ :: _, [], h => by simp at h
  | c :: cs, d :: ds, h => by
    unfold Tree.equals.all
    rw [Bool.and_eq_true, equals_iff c d, all_iff cs ds (by simpa using h), List.cons.injEq]
end

theorem inSpannerId_iff (t : Tree Val) (p : Path) : inSpannerId t p = true ↔ Within t p := by
  unfold inSpannerId parent
  rcases List.eq_nil_or_concat p with rfl | ⟨q, i, rfl⟩
  · simp [Within]
  · simp only [List.concat_eq_append, List.append_eq_nil_iff, List.cons_ne_nil, and_false, if_false, List.dropLast_concat]
    constructor
    · intro h
      cases hu : t.get? q with
      | none => simp [hu] at h
      | some u => simp only [hu, decide_eq_true_eq] at h; exact ⟨q, i, u, rfl, hu, h⟩
    · rintro ⟨q', i', u, h1, h2, h3⟩
      obtain ⟨rfl, h⟩ := List.append_inj' h1 rfl
      simp [h2, h3]

theorem hasId_iff (t : Tree Val) (p : Path) (x : Tree Val) (h : Within t p) : leftSibling t p = some x ↔ HasId t p x := by
  obtain ⟨q, i, u, rfl, hu, hv⟩ := h
  simp only [leftSibling, List.getLast?_append_of_ne_nil _ (List.cons_ne_nil i []), List.getLast?_singleton, List.dropLast_concat, hu]
  constructor
  · intro h
    cases i with
    | zero => simp at h
    | succ i =>
      rw [if_neg (by omega), Nat.add_sub_cancel] at h
      exact ⟨q, i, u, rfl, hu, hv, h⟩
  · rintro ⟨q', i', u', h1, h2, h3, h4⟩
    obtain ⟨rfl, h⟩ := List.append_inj' h1 rfl
    simp only [List.cons.injEq, and_true] at h
    subst h
    rw [hu] at h2
    cases h2
    simpa using h4

theorem hasId_within {t : Tree Val} {p : Path} {x : Tree Val} (h : HasId t p x) : Within t p := by
  obtain ⟨q, i, u, h1, h2, h3, -⟩ := h
  exact ⟨q, i + 1, u, h1, h2, h3⟩

theorem hasId_unique {t : Tree Val} {p : Path} {x y : Tree Val} (h : HasId t p x) (k : HasId t p y) : x = y := by
  have hx := (hasId_iff t p x (hasId_within h)).mpr h
  have hy := (hasId_iff t p y (hasId_within h)).mpr k
  rw [hx] at hy
  exact Option.some.inj hy

theorem sameId_symm {t : Tree Val} {p q : Path} (h : SameId t p q) : SameId t q p := by
  rcases h with ⟨x, a, b⟩ | ⟨a, b⟩
  · exact .inl ⟨x, b, a⟩
  · exact .inr ⟨b, a⟩

theorem sameId_trans {t : Tree Val} {p q r : Path} (h : SameId t p q) (k : SameId t q r) : SameId t p r := by
  rcases h with ⟨x, a, b⟩ | ⟨a, b⟩ <;> rcases k with ⟨y, c, d⟩ | ⟨c, d⟩
  · cases hasId_unique b c; exact .inl ⟨x, a, d⟩
  · exact absurd (hasId_within b) c
  · exact absurd (hasId_within c) b
  · exact .inr ⟨a, d⟩

theorem spannerOk_iff (t : Tree Val) (p q : Path) (hid : Within t p → ∃ x, HasId t p x) :
    spannerOk t p q = true ↔ SameId t p q := by
  unfold spannerOk spannerIdOf
  by_cases hp : Within t p
  · obtain ⟨x, hx⟩ := hid hp
    rw [if_pos ((inSpannerId_iff t p).mpr hp), (hasId_iff t p x hp).mpr hx]
    simp only [Bool.and_eq_true, inSpannerId_iff]
    constructor
    · rintro ⟨hq, he⟩
      cases hl : leftSibling t q with
      | none => rw [hl] at he; cases he
      | some y =>
        rw [hl] at he
        cases (equals_iff x y).mp he
        exact .inl ⟨x, hx, (hasId_iff t q x hq).mp hl⟩
    · rintro (⟨y, h1, h2⟩ | ⟨h1, -⟩)
      · cases hasId_unique hx h1
        have hq := hasId_within h2
        refine ⟨hq, ?_⟩
        rw [(hasId_iff t q x hq).mpr h2]
        exact (equals_iff x x).mpr rfl
      · exact absurd hp h1
  · rw [if_neg (fun h => hp ((inSpannerId_iff t p).mp h))]
    simp only [Bool.not_eq_true', ← Bool.not_eq_true, inSpannerId_iff]
    constructor
    · intro h; exact .inr ⟨hp, h⟩
    · rintro (⟨y, h1, -⟩ | ⟨-, h⟩)
      · exact absurd (hasId_within h1) hp
      · exact h

theorem test_iff (t : Tree Val) (p : Path) (k : ℕ) (stop : Bool) (m : Item Val) (hid : Within t p → ∃ x, HasId t p x) :
    test t p (.spanner k stop) m = true ↔ m.2.val = .spanner k (!stop) ∧ SameId t p m.1 := by
  unfold test
  rw [Bool.and_eq_true, spannerOk_iff t p m.1 hid]
  refine and_congr_left' ?_
  cases m.2.val <;> simp only [parallel, reduceCtorEq, Bool.false_eq_true, Bool.and_eq_true, decide_eq_true_eq, Val.spanner.injEq]
  rename_i k' s'
  cases s' <;> cases stop <;> simp

/-! ### The search -/

/-- What the search looks at, in order. -/
theorem source (t n : Tree Val) (p : Path) (k : ℕ) (stop : Bool) (hv : n.val = .spanner k stop) :
    ∃ out : List (Item Val), Lists stop (fun m => NodeOf t m ∧ Toward stop p m.1 ∧ ∀ u, Scope t p (some u) → Above u m.1) out ∧
      ∀ limit r, FindParallel t p n limit r ↔ r = (takeArg (limitArg limit) out).find? (test t p (.spanner k stop)) := by
  have hsc := upto_scope t p
  have hu : ∀ u, upto t p = some u → AboveOrSelf u p := by
    intro u h
    rw [h] at hsc
    exact aboveOrSelf_iff.mpr (.inr hsc.1)
  have huu : ∀ u, upto t p = some u ↔ Scope t p (some u) := by
    intro u
    constructor
    · intro h; rw [← h]; exact hsc
    · intro h; exact scope_unique hsc h
  obtain ⟨⟨out, ho⟩, h⟩ := C28_forward_send stop t (upto t p) p hu always
  have h2 := h out ho
  refine ⟨out, ⟨h2.1, fun m => (h2.2 m).trans ?_⟩, fun limit r => ?_⟩
  · simp only [always, implies_true, and_true, huu]
    cases stop <;> simp [Toward]
  · have hf := first_of_runs (test t p (.spanner k stop)) ho rfl (limitArg limit)
    have hi : FindParallel t p n limit r ↔
        First (fwdResume stop t (upto t p)) (test t p (.spanner k stop)) (limitArg limit) (fwdStart stop t (upto t p) p) r := by
      unfold FindParallel
      rw [hv]
      cases stop <;> simp [isStart]
    rw [hi]
    exact ⟨fun h => first_unique h hf, fun h => h ▸ hf⟩

theorem node_unique {t : Tree Val} {a b : Item Val} (ha : NodeOf t a) (hb : NodeOf t b) (h : a.1 = b.1) : a = b := by
  obtain ⟨p, x⟩ := a
  obtain ⟨q, y⟩ := b
  simp only [NodeOf] at ha hb h
  subst h
  rw [ha] at hb
  cases hb
  rfl

/-- C77: for every spanner in every tree, `find_parallel()` returns the nearest spanner, ahead of a start and before
a stop, that has the same class, the same id (or both have none) and is the opposite end, and that is inside
the nearest assignment, `\new`, document or `\score` around it; None is returned only if there is none. -/
theorem C77_nearest (t n : Tree Val) (p : Path) (hn : t.get? p = some n) (k : ℕ) (stop : Bool)
    (hv : n.val = .spanner k stop) (hid : Ids t) :
    ∃ r, FindParallel t p n 0 r ∧ (∀ r', FindParallel t p n 0 r' → r' = r) ∧ Nearest t p k stop r := by
  obtain ⟨out, ⟨h1, h2⟩, h3⟩ := source t n p k stop hv
  have hi : Within t p → ∃ x, HasId t p x := hid (p, n) hn k stop hv
  have hc : ∀ m, m ∈ out ∧ test t p (.spanner k stop) m = true ↔ Candidate t p k stop m := by
    intro m
    rw [h2 m, test_iff t p k stop m hi]
    unfold Candidate
    tauto
  refine ⟨_, (h3 0 _).mpr rfl, fun r' h => (h3 0 r').mp h, ?_⟩
  have hl : takeArg (limitArg 0) out = out := rfl
  rw [hl]
  cases hf : out.find? (test t p (.spanner k stop)) with
  | none =>
    intro m hm
    have := (hc m).mpr hm
    exact List.find?_eq_none.mp hf m this.1 this.2
  | some m =>
    obtain ⟨hb, as, bs, he, has⟩ := List.find?_eq_some_iff_append.mp hf
    refine ⟨(hc m).mp ⟨by rw [he]; simp, hb⟩, fun m' hm' => ?_⟩
    obtain ⟨hm1, hm2⟩ := (hc m').mpr hm'
    rw [he] at hm1 h1
    rcases List.mem_append.mp hm1 with h' | h'
    · have := has m' h'
      rw [hm2] at this
      cases this
    · rcases List.mem_cons.mp h' with rfl | h'
      · exact .inl rfl
      · exact .inr ((List.pairwise_cons.mp (List.pairwise_append.mp h1).2.1).1 m' h')

theorem lists_prefix {stop : Bool} {P : Item Val → Prop} {as bs : List (Item Val)} {m : Item Val}
    (h : Lists stop P (as ++ m :: bs)) : Lists stop (fun n => P n ∧ Order stop n.1 m.1) as := by
  obtain ⟨h1, h2⟩ := h
  have hp := List.pairwise_append.mp h1
  refine ⟨hp.1, fun n => ⟨fun hn => ⟨(h2 n).mp (by simp [hn]), hp.2.2 n hn m (by simp)⟩, fun ⟨hn, ho⟩ => ?_⟩⟩
  have asymm : ∀ a b : Path, Order stop a b → ¬ Order stop b a := by
    intro a b h k
    rw [order_iff] at h k
    rcases h with h | h <;> rcases k with k | k
    · exact not_above_self _ (Above.trans h k)
    · cases stop
      · exact (left_not_above k).2 h
      · exact (left_not_above k).1 h
    · cases stop
      · exact (left_not_above h).2 k
      · exact (left_not_above h).1 k
    · cases stop <;> exact left_asymm h k
  rcases List.mem_append.mp ((h2 n).mpr hn) with h' | h'
  · exact h'
  · rcases List.mem_cons.mp h' with rfl | h'
    · exact absurd ho (asymm _ _ ho)
    · exact absurd ho (asymm _ _ ((List.pairwise_cons.mp hp.2.1).1 n h'))

/-- C77: with a limit the same node is returned if fewer nodes than that are passed before it, otherwise None: a
limit never makes that another node is found. -/
theorem C77_limit (t n : Tree Val) (p : Path) (k : ℕ) (stop : Bool)
    (hv : n.val = .spanner k stop) (limit : ℕ) (hl : 0 < limit) :
    (FindParallel t p n 0 none → ∀ r, FindParallel t p n limit r ↔ r = none) ∧
    ∀ m, FindParallel t p n 0 (some m) → ∃ ns, Lists stop (Passed t p stop m) ns ∧
      ∀ r, FindParallel t p n limit r ↔ r = if ns.length < limit then some m else none := by
  obtain ⟨out, hls, h3⟩ := source t n p k stop hv
  have h0 : takeArg (limitArg 0) out = out := rfl
  have h4 : takeArg (limitArg limit) out = out.take limit := by
    rw [limitArg, if_neg (by omega)]; rfl
  simp only [h3, h0, h4]
  constructor
  · intro h r
    have : (out.take limit).find? (test t p (.spanner k stop)) = none := by
      rw [List.find?_eq_none]
      intro x hx
      exact List.find?_eq_none.mp h.symm x (List.mem_of_mem_take hx)
    rw [this]
  · intro m h
    obtain ⟨hb, as, bs, he, has⟩ := List.find?_eq_some_iff_append.mp h.symm
    rw [he] at hls
    refine ⟨as, ⟨(lists_prefix hls).1, fun x => ((lists_prefix hls).2 x).trans ?_⟩, fun r => ?_⟩
    · unfold Passed; tauto
    · have has' : as.find? (test t p (.spanner k stop)) = none := by
        rw [List.find?_eq_none]; intro x hx; have := has x hx; simpa using this
      have : (out.take limit).find? (test t p (.spanner k stop)) = if as.length < limit then some m else none := by
        rw [he, List.take_append, List.find?_append]
        by_cases hlt : as.length < limit
        · rw [if_pos hlt, List.take_of_length_le (by omega), has']
          obtain ⟨d, hd⟩ : ∃ d, limit - as.length = d + 1 := ⟨limit - as.length - 1, by omega⟩
          rw [hd, List.take_succ_cons, List.find?_cons_of_pos hb]
          rfl
        · rw [if_neg hlt]
          have h5 : limit - as.length = 0 := by omega
          rw [h5, List.take_zero, List.find?_nil, Option.or_none]
          rw [List.find?_eq_none]
          intro x hx
          exact List.find?_eq_none.mp has' x (List.mem_of_mem_take hx)
      rw [this]

/-! ### From the other end -/

theorem left_cons {i j : ℕ} {a b : Path} : Left (i :: a) (j :: b) ↔ i < j ∨ (i = j ∧ Left a b) := by
  constructor
  · rintro ⟨c, i', j', r, s, h1, h2, hij⟩
    cases c with
    | nil =>
      simp only [List.nil_append, List.cons.injEq] at h1 h2
      left; omega
    | cons x c =>
      simp only [List.cons_append, List.cons.injEq] at h1 h2
      exact .inr ⟨by omega, c, i', j', r, s, h1.2, h2.2, hij⟩
  · rintro (h | ⟨rfl, c, i', j', r, s, h1, h2, hij⟩)
    · exact ⟨[], i, j, a, b, rfl, rfl, h⟩
    · exact ⟨i :: c, i', j', r, s, by simp [h1], by simp [h2], hij⟩

theorem not_left_nil {a : Path} : ¬ Left a [] ∧ ¬ Left [] a := by
  constructor
  · rintro ⟨c, i, j, r, s, -, h, -⟩; simp at h
  · rintro ⟨c, i, j, r, s, h, -, -⟩; simp at h

theorem above_cons {i j : ℕ} {a b : Path} : Above (i :: a) (j :: b) ↔ i = j ∧ Above a b := by
  constructor
  · rintro ⟨x, r, h⟩
    simp only [List.cons_append, List.cons.injEq] at h
    exact ⟨h.1.symm, x, r, h.2⟩
  · rintro ⟨rfl, x, r, rfl⟩; exact ⟨x, r, by simp⟩

theorem above_between {u a x b : Path} (ha : Above u a) (hb : Above u b) (h1 : Left a x) (h2 : Left x b) : Above u x := by
  induction u generalizing a x b with
  | nil =>
    cases x with
    | nil => exact absurd h1 not_left_nil.1
    | cons i x => exact ⟨i, x, rfl⟩
  | cons i u ih =>
    cases a with
    | nil => exact absurd h1 not_left_nil.2
    | cons j a => cases b with
      | nil => exact absurd h2 not_left_nil.1
      | cons l b => cases x with
        | nil => exact absurd h1 not_left_nil.1
        | cons y x =>
          rw [above_cons] at ha hb ⊢
          rw [left_cons] at h1 h2
          obtain ⟨rfl, ha⟩ := ha
          obtain ⟨rfl, hb⟩ := hb
          rcases h1 with h1 | ⟨rfl, h1⟩
          · rcases h2 with h2 | ⟨h2, -⟩ <;> omega
          · rcases h2 with h2 | ⟨-, h2⟩
            · omega
            · exact ⟨rfl, ih ha hb h1 h2⟩

theorem leaf_above {t : Tree Val} {a b : Item Val} (ha : NodeOf t a) (hb : NodeOf t b) (h : a.2.children = []) :
    ¬ Above a.1 b.1 := by
  rintro ⟨i, r, he⟩
  simp only [NodeOf] at ha hb
  rw [he, get?_append, ha] at hb
  simp [Tree.get?, h] at hb

/-- C77: when `find_parallel()` of a spanner returns a node, then that node's `find_parallel()` returns the spanner exactly if
both have the same border around them and no spanner of the same class and id that is the same end as the first
one stands between them. -/
theorem C77_from_other_end (t n : Tree Val) (p : Path) (hn : t.get? p = some n) (k : ℕ) (stop : Bool)
    (hv : n.val = .spanner k stop) (hid : Ids t) (hleaf : Leaves t) (m : Item Val) (hm : FindParallel t p n 0 (some m)) :
    FindParallel t m.1 m.2 0 (some (p, n)) ↔
      (∃ u, Scope t p u ∧ Scope t m.1 u) ∧
      ∀ x, NodeOf t x → x.2.val = .spanner k stop → SameId t p x.1 → ¬ Between stop p m.1 x.1 := by
  obtain ⟨r, h1, h2, h3⟩ := C77_nearest t n p hn k stop hv hid
  cases h2 _ hm
  obtain ⟨⟨hc1, hc2, hc3, hc4, hc5⟩, -⟩ := h3
  obtain ⟨r, h4, h5, h6⟩ := C77_nearest t m.2 m.1 hc1 k (!stop) hc2 hid
  have hnn : NodeOf t (p, n) := hn
  have htw : Toward (!stop) m.1 p := by cases stop <;> simpa [Toward] using hc4
  constructor
  · intro h
    cases h5 _ h
    obtain ⟨⟨-, -, -, -, hd5⟩, hd6⟩ := h6
    have hs : ∃ u, Scope t p u ∧ Scope t m.1 u := by
      have hp := upto_scope t p
      have hq := upto_scope t m.1
      refine ⟨upto t p, hp, ?_⟩
      cases hu : upto t p with
      | none =>
        rw [hu] at hp
        cases hu' : upto t m.1 with
        | none => rw [hu'] at hq; exact hq
        | some u =>
          rw [hu'] at hq
          exact absurd hq.2.1 (hp u (hd5 u hq))
      | some u =>
        rw [hu] at hp
        have hau := hc5 u hp
        cases hu' : upto t m.1 with
        | none =>
          rw [hu'] at hq
          exact absurd hp.2.1 (hq u hau)
        | some u' =>
          rw [hu'] at hq
          rcases hq.2.2 u hau hp.2.1 with rfl | h'
          · exact hq
          · rcases hp.2.2 u' (hd5 u' hq) hq.2.1 with rfl | h''
            · exact hq
            · exact absurd (Above.trans h' h'') (not_above_self _)
    refine ⟨hs, fun x hx1 hx2 hx3 hb => ?_⟩
    obtain ⟨s, hs1, hs2⟩ := hs
    have hcx : Candidate t m.1 k (!stop) x := by
      refine ⟨hx1, by rw [hx2, Bool.not_not], sameId_trans (sameId_symm hc3) hx3, ?_, fun u hu => ?_⟩
      · cases stop <;> simp only [Between, Toward, if_true, if_false, Bool.not_true, Bool.not_false, Bool.false_eq_true] at hb ⊢
        · exact hb.2
        · exact hb.1
      · have := scope_unique hs2 hu
        subst this
        have hau := hc5 u hs1
        cases stop <;> simp only [Between, if_true, if_false, Bool.false_eq_true] at hb
        · exact above_between hs1.1 hau hb.1 hb.2
        · exact above_between hau hs1.1 hb.1 hb.2
    rcases hd6 x hcx with rfl | ho
    · cases stop <;> simp only [Between, if_true, if_false, Bool.false_eq_true] at hb
      · exact left_irrefl _ hb.1
      · exact left_irrefl _ hb.2
    · rw [order_iff] at ho
      cases stop <;> simp only [Between, if_true, if_false, Bool.false_eq_true] at hb
      · rcases ho with ho | ho
        · exact (left_not_above hb.1).1 ho
        · exact left_asymm hb.1 ho
      · rcases ho with ho | ho
        · exact (left_not_above hb.2).2 ho
        · exact left_asymm hb.2 ho
  · rintro ⟨⟨s, hs1, hs2⟩, hno⟩
    have hcp : Candidate t m.1 k (!stop) (p, n) := by
      refine ⟨hnn, by simpa using hv, sameId_symm hc3, htw, fun u hu => ?_⟩
      have := scope_unique hs2 hu
      subst this
      exact hs1.1
    cases r with
    | none => exact absurd hcp (h6 _)
    | some x =>
      rcases h6.2 _ hcp with he | ho
      · rw [he]; exact h4
      · exfalso
        obtain ⟨hx1, hx2, hx3, hx4, hx5⟩ := h6.1
        rw [Bool.not_not] at hx2
        refine hno x hx1 hx2 (sameId_trans hc3 hx3) ?_
        rw [order_iff] at ho
        rcases ho with ho | ho
        · exact absurd ho (leaf_above hx1 hnn (hleaf x hx1 k stop hx2))
        · cases stop <;> simp only [Between, Toward, if_true, if_false, Bool.not_true, Bool.not_false, Bool.false_eq_true] at hx4 ho ⊢
          · exact ⟨ho, hx4⟩
          · exact ⟨hx4, ho⟩

/-! ### Examples -/

/-- A note with an articulation. -/
def note (x : Tree Val) : Tree Val := .node (.other 0 "c") [.node (.other 1 "") [x]]

/-- A slur with the spanner id `i`. -/
def withId (i : String) (x : Tree Val) : Tree Val := .node .spannerId [.node (.other 2 i) [], x]

/-- A slur. -/
def slur (stop : Bool) : Tree Val := .node (.spanner 0 stop) []

/-- `{ c\=1( d( e\=2) f) g\=1) }`. -/
def exIds : Tree Val :=
  .node (.other 3 "") [note (withId "1" (slur false)), note (slur false), note (withId "2" (slur true)), note (slur true),
    note (withId "1" (slur true))]

/-- Running the search, with a bound on the steps: only for the examples. -/
def firstRun {σ : Type} (resume : Resume σ Val) (pred : Item Val → Bool) : ℕ → Option ℕ → σ → Option (Option (Item Val))
  | 0, _, _ => none
  | fuel + 1, l, s =>
    if l = some 0 then some none
    else match resume s true with
      | none => some none
      | some (n, s') => if pred n then some (some n) else firstRun resume pred fuel (l.map (· - 1)) s'

theorem firstRun_first {σ : Type} (resume : Resume σ Val) (pred : Item Val → Bool) (fuel : ℕ) (l : Option ℕ) (s : σ)
    (r : Option (Item Val)) (h : firstRun resume pred fuel l s = some r) : First resume pred l s r := by
  induction fuel generalizing l s with
  | zero => cases h
  | succ fuel ih =>
    unfold firstRun at h
    split at h
    · next hl => cases h; subst hl; exact .limit
    · next hl =>
      split at h
      · next hr => cases h; exact .done hl hr
      · next n s' hr =>
        split at h
        · next hp => cases h; exact .hit hl hr hp
        · next hp => exact .skip hl hr (by simpa using hp) (ih _ _ h)

/-- The place of the node that `find_parallel` returns. -/
def placeOf (t : Tree Val) (p : Path) (v : Val) (limit : ℕ) : Option (Option Path) :=
  (firstRun (fwdResume (!isStart v) t (upto t p)) (test t p v) 100 (limitArg limit) (fwdStart (!isStart v) t (upto t p) p)).map
    (·.map (·.1))

theorem placeOf_find {t n : Tree Val} {p : Path} {limit : ℕ} {r : Option Path} (h : placeOf t p n.val limit = some r) :
    ∃ m, FindParallel t p n limit m ∧ m.map (·.1) = r := by
  unfold placeOf at h
  obtain ⟨m, hm, he⟩ := Option.map_eq_some_iff.mp h
  refine ⟨m, ?_, he⟩
  have := firstRun_first _ _ _ _ _ _ hm
  unfold FindParallel
  cases hs : isStart n.val <;> simpa [hs] using this

/-- The slur with id 1 is found past the others, in both directions; the slur with id 2 has no other end; with a limit of
10 nodes the slur with id 1 is not found. -/
example : placeOf exIds [0, 0, 0, 1] (.spanner 0 false) 0 = some (some [4, 0, 0, 1]) ∧
    placeOf exIds [4, 0, 0, 1] (.spanner 0 true) 0 = some (some [0, 0, 0, 1]) ∧
    placeOf exIds [2, 0, 0, 1] (.spanner 0 true) 0 = some none ∧
    placeOf exIds [1, 0, 0] (.spanner 0 false) 0 = some (some [3, 0, 0]) ∧
    placeOf exIds [0, 0, 0, 1] (.spanner 0 false) 10 = some none := by decide +kernel

/-- All nodes of a tree with their places: only for the examples. -/
def nodesOf : Tree Val → List (Item Val)
  | .node v cs => ([], .node v cs) :: go 0 cs
where
  /-- The nodes below a list of children. -/
  go : ℕ → List (Tree Val) → List (Item Val)
    | _, [] => []
    | i, c :: cs => (nodesOf c).map (fun m => (i :: m.1, m.2)) ++ go (i + 1) cs

theorem mem_go (cs : List (Tree Val)) (i j : ℕ) (c : Tree Val) (h : cs[i]? = some c) (m : Item Val) (hm : m ∈ nodesOf c) :
    ((j + i) :: m.1, m.2) ∈ nodesOf.go j cs := by
  induction cs generalizing i j with
  | nil => simp at h
  | cons d cs ih =>
    rw [nodesOf.go, List.mem_append]
    cases i with
    | zero =>
      simp only [List.getElem?_cons_zero, Option.some.injEq] at h
      subst h
      exact .inl (List.mem_map.mpr ⟨m, hm, rfl⟩)
    | succ i =>
      have := ih i (j + 1) (by simpa using h)
      rw [show j + (i + 1) = j + 1 + i by omega]
      exact .inr this

theorem mem_nodesOf (t : Tree Val) (m : Item Val) (h : NodeOf t m) : m ∈ nodesOf t := by
  obtain ⟨p, u⟩ := m
  simp only [NodeOf] at h
  induction p generalizing t with
  | nil =>
    simp only [Tree.get?, Option.some.injEq] at h
    subst h
    cases t
    simp [nodesOf]
  | cons i p ih =>
    obtain ⟨v, cs⟩ := t
    simp only [Tree.get?, Tree.children] at h
    cases hc : cs[i]? with
    | none => rw [hc] at h; cases h
    | some c =>
      rw [hc] at h
      have := mem_go cs i 0 c hc _ (ih c h)
      rw [nodesOf, List.mem_cons]
      right
      simpa using this

/-- The hypotheses of the theorems, checked for all nodes. -/
def wellFormed (t : Tree Val) : Bool :=
  (nodesOf t).all fun m => match m.2.val with
    | .spanner _ _ => m.2.children.isEmpty && (!inSpannerId t m.1 || (leftSibling t m.1).isSome)
    | _ => true

theorem wellFormed_sound (t : Tree Val) (h : wellFormed t = true) : Ids t ∧ Leaves t := by
  have key : ∀ m, NodeOf t m → ∀ k s, m.2.val = .spanner k s →
      m.2.children = [] ∧ (Within t m.1 → ∃ x, HasId t m.1 x) := by
    intro m hm k s hv
    have := List.all_eq_true.mp h m (mem_nodesOf t m hm)
    simp only [hv, Bool.and_eq_true, List.isEmpty_iff, Bool.or_eq_true, Bool.not_eq_true'] at this
    refine ⟨this.1, fun hw => ?_⟩
    rcases this.2 with h' | h'
    · rw [(inSpannerId_iff t m.1).mpr hw] at h'; cases h'
    · obtain ⟨x, hx⟩ := Option.isSome_iff_exists.mp h'
      exact ⟨x, (hasId_iff t m.1 x hw).mp hx⟩
  exact ⟨fun m hm k s hv => (key m hm k s hv).2, fun m hm k s hv => (key m hm k s hv).1⟩

/-- The hypotheses hold for `exIds`. -/
example : Ids exIds ∧ Leaves exIds := wellFormed_sound exIds (by decide +kernel)

/-- `{ c( \new Voice { d) } }`. -/
def exNew : Tree Val :=
  .node (.other 3 "") [note (slur false), .node .new [.node (.other 4 "Voice") [], .node (.other 3 "") [note (slur true)]]]

/-- C77, a finding: a search does not leave the `\new` it starts in, but it does look into another `\new`: in
`{ c( \new Voice { d) } }` the start finds the stop in the other voice, which itself finds nothing. -/
theorem C77_looks_into_other_context :
    (∃ m, FindParallel exNew [0, 0, 0] (slur false) 0 (some m) ∧ m.1 = [1, 1, 0, 0, 0]) ∧
    FindParallel exNew [1, 1, 0, 0, 0] (slur true) 0 none := by
  have h1 : placeOf exNew [0, 0, 0] (slur false).val 0 = some (some [1, 1, 0, 0, 0]) := by decide +kernel
  have h2 : placeOf exNew [1, 1, 0, 0, 0] (slur true).val 0 = some none := by decide +kernel
  obtain ⟨m, hm, he⟩ := placeOf_find h1
  obtain ⟨m', hm', he'⟩ := placeOf_find h2
  constructor
  · obtain ⟨m, rfl, h⟩ := Option.map_eq_some_iff.mp he
    exact ⟨m, hm, h⟩
  · rw [Option.map_eq_none_iff] at he'
    rwa [he'] at hm'

/-- `{ c( d( e) }`. -/
def exTwice : Tree Val := .node (.other 3 "") [note (slur false), note (slur false), note (slur true)]

/-- C77, a finding: of two starts before a stop both find the stop, which finds the second one. -/
theorem C77_two_starts :
    (∃ m, FindParallel exTwice [0, 0, 0] (slur false) 0 (some m) ∧ m.1 = [2, 0, 0]) ∧
    (∃ m, FindParallel exTwice [1, 0, 0] (slur false) 0 (some m) ∧ m.1 = [2, 0, 0]) ∧
    ∃ m, FindParallel exTwice [2, 0, 0] (slur true) 0 (some m) ∧ m.1 = [1, 0, 0] := by
  have h1 : placeOf exTwice [0, 0, 0] (slur false).val 0 = some (some [2, 0, 0]) := by decide +kernel
  have h2 : placeOf exTwice [1, 0, 0] (slur false).val 0 = some (some [2, 0, 0]) := by decide +kernel
  have h3 : placeOf exTwice [2, 0, 0] (slur true).val 0 = some (some [1, 0, 0]) := by decide +kernel
  obtain ⟨m, hm, he⟩ := placeOf_find h1
  obtain ⟨m', hm', he'⟩ := placeOf_find h2
  obtain ⟨m'', hm'', he''⟩ := placeOf_find h3
  obtain ⟨m, rfl, h⟩ := Option.map_eq_some_iff.mp he
  obtain ⟨m', rfl, h'⟩ := Option.map_eq_some_iff.mp he'
  obtain ⟨m'', rfl, h''⟩ := Option.map_eq_some_iff.mp he''
  exact ⟨⟨m, hm, h⟩, ⟨m', hm', h'⟩, m'', hm'', h''⟩

end Quickly.Spanner
