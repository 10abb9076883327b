import Verif.Node.Spec
import Mathlib.Data.List.Basic
import Mathlib.Tactic.Common

/-!
# Lemmas about trees and generators
-/

namespace Quickly.Node

open Spec

variable {α : Type} {σ : Type}

/-! ## Orders on places -/

theorem Above.trans {p q r : Path} (h : Above p q) (k : Above q r) : Above p r := by
  obtain ⟨i, a, rfl⟩ := h
  obtain ⟨j, b, rfl⟩ := k
  exact ⟨i, a ++ j :: b, by simp⟩

theorem Left.append {p q : Path} (h : Left p q) (a b : Path) : Left (p ++ a) (q ++ b) := by
  obtain ⟨c, i, j, r, s, rfl, rfl, hij⟩ := h
  exact ⟨c, i, j, r ++ a, s ++ b, by simp, by simp, hij⟩

theorem not_above_self (p : Path) : ¬ Above p p := by
  rintro ⟨i, r, h⟩
  have := congrArg List.length h
  simp at this
  
theorem left_ne_prefix {p q r s : Path} (h : Left p q) : p ++ r ≠ q ++ s := by
  obtain ⟨c, i, j, a, b, rfl, rfl, hij⟩ := h
  intro he
  simp only [List.append_assoc, List.append_cancel_left_eq, List.cons_append, List.cons.injEq] at he
  omega

theorem left_not_above {p q : Path} (h : Left p q) : ¬ Above p q ∧ ¬ Above q p := by
  constructor
  · rintro ⟨i, r, hr⟩
    exact left_ne_prefix (r := i :: r) (s := []) h (by simp [hr])
  · rintro ⟨i, r, hr⟩
    exact left_ne_prefix (r := []) (s := i :: r) h (by simp [hr])

theorem left_irrefl (p : Path) : ¬ Left p p := fun h => left_ne_prefix (r := []) (s := []) h rfl

theorem left_asymm {p q : Path} (h : Left p q) : ¬ Left q p := by
  obtain ⟨c, i, j, r, s, rfl, rfl, hij⟩ := h
  rintro ⟨c', i', j', r', s', h1, h2, hij'⟩
  induction c generalizing c' with
  | nil =>
    cases c' with
    | nil => simp at h1 h2; omega
    | cons x c' => simp at h1 h2; omega
  | cons x c ih =>
    cases c' with
    | nil => simp at h1 h2; omega
    | cons y c' =>
      simp only [List.cons_append, List.cons.injEq] at h1 h2
      exact ih c' h1.2 h2.2

/-- Any two places are equal, in line, or in different branches. -/
theorem place_cases (p q : Path) : p = q ∨ Above p q ∨ Above q p ∨ Left p q ∨ Left q p := by
  induction p generalizing q with
  | nil => cases q with
    | nil => exact .inl rfl
    | cons j q => exact .inr (.inl ⟨j, q, rfl⟩)
  | cons i p ih => cases q with
    | nil => exact .inr (.inr (.inl ⟨i, p, rfl⟩))
    | cons j q =>
      rcases Nat.lt_trichotomy i j with h | rfl | h
      · exact .inr (.inr (.inr (.inl ⟨[], i, j, p, q, rfl, rfl, h⟩)))
      · rcases ih q with rfl | ⟨k, r, rfl⟩ | ⟨k, r, rfl⟩ | ⟨c, a, b, r, s, rfl, rfl, h⟩ | ⟨c, a, b, r, s, rfl, rfl, h⟩
        · exact .inl rfl
        · exact .inr (.inl ⟨k, r, rfl⟩)
        · exact .inr (.inr (.inl ⟨k, r, rfl⟩))
        · exact .inr (.inr (.inr (.inl ⟨i :: c, a, b, r, s, rfl, rfl, h⟩)))
        · exact .inr (.inr (.inr (.inr ⟨i :: c, a, b, r, s, rfl, rfl, h⟩)))
      · exact .inr (.inr (.inr (.inr ⟨[], j, i, q, p, rfl, rfl, h⟩)))

/-- The branch order of a traversal. -/
def Branch (rev : Bool) (p q : Path) : Prop := if rev then Left q p else Left p q

theorem order_iff (rev : Bool) (p q : Path) : Order rev p q ↔ Above p q ∨ Branch rev p q := by
  cases rev <;> simp [Order, Branch, DocBefore, BackBefore]

theorem Branch.append {rev : Bool} {p q : Path} (h : Branch rev p q) (a b : Path) :
    Branch rev (p ++ a) (q ++ b) := by
  cases rev
  · exact Left.append (p := p) (q := q) h a b
  · exact Left.append (p := q) (q := p) h b a

theorem branch_ne {rev : Bool} {p q r s : Path} (h : Branch rev p q) : p ++ r ≠ q ++ s := by
  cases rev
  · exact left_ne_prefix (p := p) (q := q) h
  · exact (left_ne_prefix (p := q) (q := p) h).symm

theorem Order.irrefl {rev : Bool} (p : Path) : ¬ Order rev p p := by
  rw [order_iff]
  rintro (h | h)
  · exact not_above_self _ h
  · cases rev <;> exact left_irrefl p h

/-! ## Children -/

theorem mem_number {p : Path} {i : ℕ} {ts : List (Tree α)} {n : Item α} :
    n ∈ number p i ts ↔ ∃ k, n.1 = p ++ [i + k] ∧ ts[k]? = some n.2 := by
  induction ts generalizing i with
  | nil => simp [number]
  | cons t ts ih =>
    simp only [number, List.mem_cons, ih]
    constructor
    · rintro (rfl | ⟨k, h, hk⟩)
      · exact ⟨0, by simp, by simp⟩
      · exact ⟨k + 1, by rw [h]; congr 2; omega, by simpa using hk⟩
    · rintro ⟨k, h, hk⟩
      cases k with
      | zero =>
        left
        simp only [List.getElem?_cons_zero, Option.some.injEq] at hk
        exact Prod.ext (by simpa using h) hk.symm
      | succ k => exact .inr ⟨k, by rw [h]; congr 2; omega, by simpa using hk⟩

theorem number_pairwise (p : Path) (i : ℕ) (ts : List (Tree α)) :
    (number p i ts).Pairwise (fun a b => Left a.1 b.1) := by
  induction ts generalizing i with
  | nil => simp [number]
  | cons t ts ih =>
    simp only [number, List.pairwise_cons]
    refine ⟨fun n hn => ?_, ih _⟩
    obtain ⟨k, h, -⟩ := mem_number.mp hn
    exact ⟨p, i, i + 1 + k, [], [], rfl, h, by omega⟩

theorem number_eq_nil {p : Path} {i : ℕ} {ts : List (Tree α)} : number p i ts = [] ↔ ts = [] := by
  cases ts <;> simp [number]

theorem mem_iterate {rev : Bool} {m n : Item α} :
    n ∈ iterate rev m ↔ ∃ k, n.1 = m.1 ++ [k] ∧ m.2.children[k]? = some n.2 := by
  have : n ∈ iterate rev m ↔ n ∈ number m.1 0 m.2.children := by
    unfold iterate; split <;> simp
  rw [this, mem_number]
  simp

theorem iterate_pairwise (rev : Bool) (m : Item α) :
    (iterate rev m).Pairwise (fun a b => Branch rev a.1 b.1) := by
  unfold iterate
  cases rev
  · simpa [Branch] using number_pairwise m.1 0 m.2.children
  · simp only [if_true, List.pairwise_reverse]
    simpa [Branch] using number_pairwise m.1 0 m.2.children

theorem iterate_eq_nil {rev : Bool} {m : Item α} : iterate rev m = [] ↔ m.2.children = [] := by
  unfold iterate; split <;> simp [number_eq_nil]

/-! ## Being below an item -/

/-- `n` is `w` or below it. -/
def Under (w n : Item α) : Prop := ∃ r, n.1 = w.1 ++ r ∧ w.2.get? r = some n.2

theorem under_self (w : Item α) : Under w w := ⟨[], by simp, by simp [Tree.get?]⟩

theorem under_iff {rev : Bool} {w n : Item α} :
    Under w n ↔ n = w ∨ ∃ c ∈ iterate rev w, Under c n := by
  constructor
  · rintro ⟨r, h1, h2⟩
    cases r with
    | nil =>
      simp only [Tree.get?, Option.some.injEq] at h2
      exact .inl (Prod.ext (by simpa using h1) h2.symm)
    | cons i r =>
      simp only [Tree.get?] at h2
      split at h2
      · rename_i c hc
        refine .inr ⟨(w.1 ++ [i], c), mem_iterate.mpr ⟨i, rfl, hc⟩, r, by simp [h1], h2⟩
      · cases h2
  · rintro (rfl | ⟨c, hc, r, h1, h2⟩)
    · exact under_self _
    · obtain ⟨k, h3, h4⟩ := mem_iterate.mp hc
      exact ⟨k :: r, by simp [h1, h3], by simp only [Tree.get?, h4, h2]⟩

theorem get?_append (t : Tree α) (p q : Path) : t.get? (p ++ q) = (t.get? p).bind (·.get? q) := by
  induction p generalizing t with
  | nil => simp [Tree.get?]
  | cons i p ih =>
    simp only [List.cons_append, Tree.get?]
    split
    · exact ih _
    · rfl

/-- `K` goes through some of the children of a node, in the order of the traversal. -/
def Goes (rev : Bool) (K : Item α → List (Item α)) : Prop := ∀ n, (K n).Sublist (iterate rev n)

theorem goes_iterate (rev : Bool) : Goes rev (iterate (α := α) rev) := fun _ => List.Sublist.refl _

/-- `n` is `w`, or is reached from it through the children `K`. -/
inductive Desc (K : Item α → List (Item α)) : Item α → Item α → Prop
  | refl (w) : Desc K w w
  | step {w c n} : c ∈ K w → Desc K c n → Desc K w n

theorem desc_iff {K : Item α → List (Item α)} {w n : Item α} :
    Desc K w n ↔ n = w ∨ ∃ c ∈ K w, Desc K c n := by
  constructor
  · rintro (_ | ⟨h, k⟩)
    · exact .inl rfl
    · exact .inr ⟨_, h, k⟩
  · rintro (rfl | ⟨c, h, k⟩)
    · exact .refl _
    · exact .step h k

theorem desc_under_of {rev : Bool} {K : Item α → List (Item α)} (hK : Goes rev K) {w n : Item α} (h : Desc K w n) :
    Under w n := by
  induction h with
  | refl => exact under_self _
  | step h _ ih => exact (under_iff (rev := rev)).mpr (.inr ⟨_, (hK _).subset h, ih⟩)

theorem desc_path {rev : Bool} {K : Item α → List (Item α)} (hK : Goes rev K) {w n : Item α} (h : Desc K w n) :
    ∃ r, n.1 = w.1 ++ r := by
  obtain ⟨r, hr, -⟩ := desc_under_of hK h
  exact ⟨r, hr⟩

theorem desc_iterate {rev : Bool} {w n : Item α} : Desc (iterate rev) w n ↔ Under w n := by
  refine ⟨desc_under_of (goes_iterate rev), ?_⟩
  rintro ⟨r, h1, h2⟩
  induction r generalizing w with
  | nil =>
    simp only [Tree.get?, Option.some.injEq] at h2
    have : n = w := Prod.ext (by simpa using h1) h2.symm
    exact this ▸ .refl _
  | cons i r ih =>
    simp only [Tree.get?] at h2
    split at h2
    · rename_i c hc
      exact .step (c := (w.1 ++ [i], c)) (mem_iterate.mpr ⟨i, rfl, hc⟩) (ih (by simp [h1]) h2)
    · cases h2

/-! ## The work list of a generator -/

/-- The children that still come after a node was yielded. -/
def kidsIf (K : Item α → List (Item α)) (pending : Option (Item α)) (ok : Bool) : List (Item α) :=
  match pending with
  | some n => if ok then K n else []
  | none => []

/-- The plain generator: a list of nodes whose branches are to be gone through. -/
def wResume (K : Item α → List (Item α)) : Resume (Option (Item α) × List (Item α)) α := fun s ok =>
  match kidsIf K s.1 ok ++ s.2 with
  | [] => none
  | n :: W => some (n, (some n, W))

/-- `resume` behaves like the plain generator. -/
def Sim (K : Item α → List (Item α)) (resume : Resume σ α) (view : σ → Option (Item α) × List (Item α)) : Prop :=
  ∀ s ok, match resume s ok with
    | none => wResume K (view s) ok = none
    | some (n, s') => wResume K (view s) ok = some (n, view s')

theorem runs_sim {K : Item α → List (Item α)} {resume : Resume σ α} {view} (h : Sim K resume view) {dec ok s hist out}
    (hr : Runs resume dec ok s hist out) : Runs (wResume K) dec ok (view s) hist out := by
  induction hr with
  | @done ok s hist hn =>
    have := h s ok
    rw [hn] at this
    exact .done this
  | @step ok s hist n s' out hn _ ih =>
    have := h s ok
    rw [hn] at this
    exact .step this ih

theorem runs_of_sim {K : Item α → List (Item α)} {resume : Resume σ α} {view} (h : Sim K resume view) {dec ok s hist out}
    (hr : Runs (wResume K) dec ok (view s) hist out) : Runs resume dec ok s hist out := by
  generalize hv : view s = v at hr
  induction hr generalizing s with
  | @done ok v hist hn =>
    subst hv
    have := h s ok
    cases hs : resume s ok with
    | none => exact .done hs
    | some x => rw [hs] at this; simp [hn] at this
  | @step ok v hist n v' out hn _ ih =>
    subst hv
    have := h s ok
    cases hs : resume s ok with
    | none => rw [hs] at this; simp [hn] at this
    | some x =>
      obtain ⟨m, s'⟩ := x
      rw [hs] at this
      simp only [hn, Option.some.injEq, Prod.mk.injEq] at this
      obtain ⟨rfl, rfl⟩ := this
      exact .step hs (ih rfl)

theorem filters_sim {K : Item α → List (Item α)} {resume : Resume σ α} {view} (h : Sim K resume view) {pred ok s out}
    (hr : Filters resume pred ok s out) : Filters (wResume K) pred ok (view s) out := by
  induction hr with
  | @done ok s hn =>
    have := h s ok
    rw [hn] at this
    exact .done this
  | @yield ok s n s' out hn hp _ ih =>
    have := h s ok
    rw [hn] at this
    exact .yield this hp ih
  | @skip ok s n s' out hn hp _ ih =>
    have := h s ok
    rw [hn] at this
    exact .skip this hp ih

/-- A run is determined by the decisions. -/
theorem runs_unique {resume : Resume σ α} {dec ok s hist out out'}
    (h : Runs resume dec ok s hist out) (h' : Runs resume dec ok s hist out') : out = out' := by
  induction h generalizing out' with
  | done hn =>
    cases h' with
    | done => rfl
    | step hs => rw [hn] at hs; cases hs
  | step hn _ ih =>
    cases h' with
    | done hs => rw [hn] at hs; cases hs
    | step hs hr =>
      rw [hn] at hs
      cases hs
      rw [ih hr]

/-! ### Termination -/

/-- The number of nodes in a work list. -/
def wsize (W : List (Item α)) : ℕ := (W.map fun n => n.2.size).sum

theorem wsize_append (V W : List (Item α)) : wsize (V ++ W) = wsize V + wsize W := by
  simp [wsize]

theorem wsize_number (p : Path) (i : ℕ) (ts : List (Tree α)) : wsize (number p i ts) = Tree.size.go ts := by
  induction ts generalizing i with
  | nil => simp [number, wsize, Tree.size.go]
  | cons t ts ih =>
    have := ih (i + 1)
    simp only [number, wsize, List.map_cons, List.sum_cons, Tree.size.go] at this ⊢
    rw [this]

theorem size_eq (t : Tree α) : t.size = 1 + Tree.size.go t.children := by
  cases t; simp [Tree.size, Tree.children]

theorem wsize_iterate (rev : Bool) (n : Item α) : wsize (iterate rev n) + 1 = n.2.size := by
  have : wsize (iterate rev n) = wsize (number n.1 0 n.2.children) := by
    unfold iterate
    split
    · simp [wsize]
    · rfl
  rw [this, wsize_number, size_eq]
  omega

theorem wsize_sublist {V W : List (Item α)} (h : V.Sublist W) : wsize V ≤ wsize W := by
  induction h with
  | slnil => simp
  | cons _ _ ih => simp only [wsize, List.map_cons, List.sum_cons] at ih ⊢; omega
  | cons_cons _ _ ih => simp only [wsize, List.map_cons, List.sum_cons] at ih ⊢; omega

theorem wsize_kidsIf_le {rev : Bool} {K : Item α → List (Item α)} (hK : Goes rev K) (n : Item α) (ok : Bool) :
    wsize (kidsIf K (some n) ok) < n.2.size := by
  have := wsize_iterate rev n
  have := wsize_sublist (hK n)
  cases ok
  · simp only [kidsIf, Bool.false_eq_true, if_false, wsize, List.map_nil, List.sum_nil]; rw [size_eq]; omega
  · simp only [kidsIf, if_true]; omega

theorem wruns_exists {rev : Bool} {K : Item α → List (Item α)} (hK : Goes rev K) (dec : List (Item α) → Bool) (k : ℕ) :
    ∀ (p : Option (Item α)) (W : List (Item α)) (ok : Bool) (hist : List (Item α)),
      wsize (kidsIf K p ok ++ W) ≤ k → ∃ out, Runs (wResume K) dec ok (p, W) hist out := by
  induction k with
  | zero =>
    intro p W ok hist h
    refine ⟨[], .done ?_⟩
    unfold wResume
    cases hW : kidsIf K p ok ++ W with
    | nil => rfl
    | cons n V =>
      rw [hW] at h
      simp only [wsize, List.map_cons, List.sum_cons, size_eq] at h
      omega
  | succ k ih =>
    intro p W ok hist h
    cases hW : kidsIf K p ok ++ W with
    | nil => exact ⟨[], .done (by simp [wResume, hW])⟩
    | cons n V =>
      have h2 := wsize_kidsIf_le hK n (dec (hist ++ [n]))
      rw [hW] at h
      obtain ⟨out, ho⟩ := ih (some n) V (dec (hist ++ [n])) (hist ++ [n]) (by
        rw [wsize_append]
        simp only [wsize, List.map_cons, List.sum_cons] at h h2 ⊢
        omega)
      exact ⟨n :: out, .step (s' := (some n, V)) (by simp [wResume, hW]) ho⟩

theorem wfilters_exists {rev : Bool} {K : Item α → List (Item α)} (hK : Goes rev K) (pred : Item α → Bool) (k : ℕ) :
    ∀ (p : Option (Item α)) (W : List (Item α)) (ok : Bool),
      wsize (kidsIf K p ok ++ W) ≤ k → ∃ out, Filters (wResume K) pred ok (p, W) out := by
  induction k with
  | zero =>
    intro p W ok h
    refine ⟨[], .done ?_⟩
    unfold wResume
    cases hW : kidsIf K p ok ++ W with
    | nil => rfl
    | cons n V =>
      rw [hW] at h
      simp only [wsize, List.map_cons, List.sum_cons, size_eq] at h
      omega
  | succ k ih =>
    intro p W ok h
    cases hW : kidsIf K p ok ++ W with
    | nil => exact ⟨[], .done (by simp [wResume, hW])⟩
    | cons n V =>
      rw [hW] at h
      have key : ∀ b, ∃ out, Filters (wResume K) pred b (some n, V) out := fun b => ih (some n) V b (by
        have h2 := wsize_kidsIf_le hK n b
        rw [wsize_append]
        simp only [wsize, List.map_cons, List.sum_cons] at h h2 ⊢
        omega)
      cases hp : pred n with
      | true =>
        obtain ⟨out, ho⟩ := key false
        exact ⟨n :: out, .yield (s' := (some n, V)) (by simp [wResume, hW]) hp ho⟩
      | false =>
        obtain ⟨out, ho⟩ := key true
        exact ⟨out, .skip (s' := (some n, V)) (by simp [wResume, hW]) hp ho⟩

theorem filters_of_sim {K : Item α → List (Item α)} {resume : Resume σ α} {view} (h : Sim K resume view) {pred ok s out}
    (hr : Filters (wResume K) pred ok (view s) out) : Filters resume pred ok s out := by
  generalize hv : view s = v at hr
  have key : ∀ {ok n v'} {s : σ}, wResume K (view s) ok = some (n, v') → ∃ s', resume s ok = some (n, s') ∧ view s' = v' := by
    intro ok n v' s hn
    have := h s ok
    cases hs : resume s ok with
    | none => rw [hs] at this; simp [hn] at this
    | some x =>
      obtain ⟨m, s'⟩ := x
      rw [hs] at this
      simp only [hn, Option.some.injEq, Prod.mk.injEq] at this
      obtain ⟨rfl, rfl⟩ := this
      exact ⟨s', rfl, rfl⟩
  induction hr generalizing s with
  | @done ok v hn =>
    subst hv
    have := h s ok
    cases hs : resume s ok with
    | none => exact .done hs
    | some x => rw [hs] at this; simp [hn] at this
  | @yield ok v n v' out hn hp _ ih =>
    subst hv
    obtain ⟨s', h1, h2⟩ := key hn
    exact .yield h1 hp (ih h2)
  | @skip ok v n v' out hn hp _ ih =>
    subst hv
    obtain ⟨s', h1, h2⟩ := key hn
    exact .skip h1 hp (ih h2)

/-! ### What a run yields -/

theorem pairwise_expand {rev : Bool} {K : Item α → List (Item α)} (hK : Goes rev K) {n : Item α} {W : List (Item α)} (ok : Bool)
    (h : (n :: W).Pairwise (fun a b => Branch rev a.1 b.1)) :
    (kidsIf K (some n) ok ++ W).Pairwise (fun a b => Branch rev a.1 b.1) := by
  rw [List.pairwise_cons] at h
  cases ok
  · simpa [kidsIf] using h.2
  · simp only [kidsIf, if_true, List.pairwise_append]
    refine ⟨(iterate_pairwise rev n).sublist (hK n), h.2, fun c hc w hw => ?_⟩
    obtain ⟨k, h3, -⟩ := mem_iterate.mp ((hK _).subset hc)
    rw [h3]
    simpa using Branch.append (h.1 w hw) [k] []

theorem under_order {rev : Bool} {K : Item α → List (Item α)} (hK : Goes rev K) {n m : Item α} {W : List (Item α)} {ok : Bool}
    (h : (n :: W).Pairwise (fun a b => Branch rev a.1 b.1))
    (hm : ∃ w ∈ kidsIf K (some n) ok ++ W, Desc K w m) : Order rev n.1 m.1 := by
  rw [order_iff]
  rw [List.pairwise_cons] at h
  obtain ⟨w, hw, hd⟩ := hm
  obtain ⟨r, h1⟩ := desc_path hK hd
  rw [List.mem_append] at hw
  rcases hw with hw | hw
  · cases ok
    · simp [kidsIf] at hw
    · obtain ⟨k, h3, -⟩ := mem_iterate.mp ((hK _).subset (show w ∈ K n from hw))
      exact .inl ⟨k, r, by rw [h1, h3]; simp⟩
  · right
    rw [h1]
    simpa using Branch.append (h.1 w hw) [] r

theorem wruns_mem {rev : Bool} {K : Item α → List (Item α)} (hK : Goes rev K) {dec ok v hist out} (h : Runs (wResume (α := α) K) dec ok v hist out)
    (hv : (kidsIf K v.1 ok ++ v.2).Pairwise (fun a b => Branch rev a.1 b.1)) :
    out.Pairwise (fun a b => Order rev a.1 b.1) ∧
    (∀ m ∈ out, ∃ w ∈ kidsIf K v.1 ok ++ v.2, Desc K w m) ∧
    ∀ m, (∃ w ∈ kidsIf K v.1 ok ++ v.2, Desc K w m) →
      (m ∈ out ↔ ∀ a ∈ out, Above a.1 m.1 → dec (hist ++ upTo a.1 out) = true) := by
  induction h with
  | @done ok v hist hn =>
    have : kidsIf K v.1 ok ++ v.2 = [] := by
      unfold wResume at hn
      split at hn
      · assumption
      · cases hn
    simp [this]
  | @step ok v hist n v' out hn _ ih =>
    obtain ⟨W, hW, rfl⟩ : ∃ W, kidsIf K v.1 ok ++ v.2 = n :: W ∧ v' = (some n, W) := by
      unfold wResume at hn
      split at hn
      · cases hn
      · rename_i m W hW
        simp only [Option.some.injEq, Prod.mk.injEq] at hn
        exact ⟨W, by rw [hW, hn.1], hn.2 ▸ hn.1 ▸ rfl⟩
    rw [hW] at hv ⊢
    obtain ⟨i1, i2, i3⟩ := ih (pairwise_expand hK _ hv)
    simp only at i2 i3
    have hord : ∀ m ∈ out, Order rev n.1 m.1 := fun m hm => under_order hK hv (i2 m hm)
    have hne : ∀ m ∈ out, n.1 ≠ m.1 := fun m hm he => Order.irrefl (rev := rev) m.1 (he ▸ hord m hm)
    have hup : ∀ a ∈ out, hist ++ upTo a.1 (n :: out) = hist ++ [n] ++ upTo a.1 out := by
      intro a ha
      simp [upTo, hne a ha]
    refine ⟨List.pairwise_cons.mpr ⟨hord, i1⟩, ?_, ?_⟩
    · intro m hm
      rcases List.mem_cons.mp hm with rfl | hm
      · exact ⟨m, by simp, .refl _⟩
      · obtain ⟨w, hw, hu⟩ := i2 m hm
        rw [List.mem_append] at hw
        rcases hw with hw | hw
        · refine ⟨n, by simp, desc_iff.mpr (.inr ⟨w, ?_, hu⟩)⟩
          unfold kidsIf at hw
          simp only at hw
          split at hw
          · exact hw
          · simp at hw
        · exact ⟨w, by simp [hw], hu⟩
    · intro m ⟨w, hw, hu⟩
      have hnn : upTo n.1 (n :: out) = [n] := by simp [upTo]
      by_cases hmn : m = n
      · subst hmn
        refine ⟨fun _ a ha hab => ?_, fun _ => by simp⟩
        rcases List.mem_cons.mp ha with rfl | ha
        · exact absurd hab (not_above_self _)
        · exfalso
          rcases (order_iff rev _ _).mp (hord a ha) with h | h
          · exact not_above_self _ (Above.trans h hab)
          · obtain ⟨i, r, hr⟩ := hab
            exact branch_ne (r := []) (s := i :: r) h (by simp [hr])
      · rcases List.mem_cons.mp hw with rfl | hw
        · -- below the head
          rcases desc_iff.mp hu with rfl | ⟨c, hc, hcm⟩
          · exact absurd rfl hmn
          have habove : Above w.1 m.1 := by
            obtain ⟨k, h3, -⟩ := mem_iterate.mp ((hK _).subset hc)
            obtain ⟨r, h4⟩ := desc_path hK hcm
            exact ⟨k, r, by rw [h4, h3]; simp⟩
          cases hd : dec (hist ++ [w]) with
          | true =>
            rw [hd] at i3
            rw [List.mem_cons, or_iff_right hmn, i3 m ⟨c, by simp [kidsIf, hc], hcm⟩]
            constructor
            · intro h a ha hab
              rcases List.mem_cons.mp ha with rfl | ha
              · rw [hnn, hd]
              · rw [hup a ha]; exact h a ha hab
            · intro h a ha hab
              rw [← hup a ha]
              exact h a (by simp [ha]) hab
          | false =>
            constructor
            · intro hm
              exfalso
              rcases List.mem_cons.mp hm with h | hm
              · exact hmn h
              obtain ⟨x, hx, hxd⟩ := i2 m hm
              obtain ⟨r, h1⟩ := desc_path hK hxd
              rw [hd] at hx
              simp only [kidsIf, Bool.false_eq_true, if_false, List.nil_append] at hx
              rw [List.pairwise_cons] at hv
              obtain ⟨i, s, hs⟩ := habove
              exact branch_ne (r := i :: s) (s := r) (hv.1 x hx) (by rw [← hs, ← h1])
            · intro h
              have := h w (by simp) habove
              rw [hnn, hd] at this
              cases this
        · have hwW := hw
          rw [List.mem_cons, or_iff_right hmn, i3 m ⟨w, by simp [hw], hu⟩]
          constructor
          · intro h a ha hab
            rcases List.mem_cons.mp ha with rfl | ha
            · exfalso
              rw [List.pairwise_cons] at hv
              obtain ⟨i, s, hs⟩ := hab
              obtain ⟨r, hr⟩ := desc_path hK hu
              exact branch_ne (r := i :: s) (s := r) (hv.1 w hwW) (by rw [← hs, ← hr])
            · rw [hup a ha]; exact h a ha hab
          · intro h a ha hab
            rw [← hup a ha]
            exact h a (by simp [ha]) hab

theorem upTo_getLast {a : Item α} {out : List (Item α)} (ha : a ∈ out)
    (h : out.Pairwise (fun a b => a.1 ≠ b.1)) (hist : List (Item α)) :
    (hist ++ upTo a.1 out).getLast? = some a := by
  induction out generalizing hist with
  | nil => simp at ha
  | cons n out ih =>
    rw [List.pairwise_cons] at h
    by_cases hn : n.1 = a.1
    · rcases List.mem_cons.mp ha with rfl | ha
      · simp [upTo]
      · exact absurd hn (h.1 a ha)
    · rcases List.mem_cons.mp ha with rfl | ha
      · exact absurd rfl hn
      · have := ih ha h.2 (hist ++ [n])
        simpa [upTo, hn] using this

/-- The decisions of `filter_descendants`. -/
def filterDec (pred : Item α → Bool) (hist : List (Item α)) : Bool :=
  match hist.getLast? with
  | some n => !pred n
  | none => true

theorem filters_runs {resume : Resume σ α} {pred ok s out} (h : Filters resume pred ok s out)
    (hist : List (Item α)) : ∃ all, Runs resume (filterDec pred) ok s hist all ∧ out = all.filter pred := by
  induction h generalizing hist with
  | done hn => exact ⟨[], .done hn, rfl⟩
  | @yield ok s n s' out hn hp _ ih =>
    obtain ⟨all, h1, h2⟩ := ih (hist ++ [n])
    refine ⟨n :: all, .step hn ?_, by simp [hp, h2]⟩
    simpa [filterDec, hp] using h1
  | @skip ok s n s' out hn hp _ ih =>
    obtain ⟨all, h1, h2⟩ := ih (hist ++ [n])
    refine ⟨n :: all, .step hn ?_, by simp [hp, h2]⟩
    simpa [filterDec, hp] using h1

/-! ## descendants -/

theorem advance_eq (gen : List (Item α)) (stack : List (List (Item α))) :
    match advance gen stack with
    | some (n, g, s) => gen ++ stack.flatten = n :: (g ++ s.flatten)
    | none => gen ++ stack.flatten = [] := by
  induction stack generalizing gen with
  | nil => cases gen <;> simp [advance]
  | cons g stack ih =>
    cases gen with
    | nil => simpa [advance] using ih g
    | cons n gen => simp [advance]

/-- The work list of `descendants`. -/
def dView (s : DState α) : Option (Item α) × List (Item α) := (s.pending, s.gen ++ s.stack.flatten)

theorem push_eq (rev : Bool) (s : DState α) (ok : Bool) :
    kidsIf (iterate rev) s.pending ok ++ (s.gen ++ s.stack.flatten) = (push rev s ok).1 ++ (push rev s ok).2.flatten := by
  obtain ⟨p, gen, stack⟩ := s
  cases p with
  | none => rfl
  | some n =>
    cases ok with
    | false => rfl
    | true =>
      cases hc : n.2.children with
      | nil => simp [push, kidsIf, hc, iterate_eq_nil.mpr hc]
      | cons c cs => simp [push, kidsIf, hc]

theorem desc_sim (rev : Bool) : Sim (iterate rev) (descResume (α := α) rev) dView := by
  intro s ok
  have h2 := push_eq rev s ok
  have h3 := advance_eq (push rev s ok).1 (push rev s ok).2
  unfold descResume
  cases ha : advance (push rev s ok).1 (push rev s ok).2 with
  | none =>
    rw [ha] at h3
    simp only [wResume, dView, h2, h3]
  | some x =>
    obtain ⟨n, g', s'⟩ := x
    rw [ha] at h3
    simp only [wResume, dView, h2, h3]

end Quickly.Node
