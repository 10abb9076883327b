import Verif.Add.Spec
import Mathlib.Data.List.Perm.Basic
import Mathlib.Data.List.Sort

/-! # C40: ordered insertion of children -/

namespace Quickly.Add

open Spec

variable {ν κ : Type}

theorem insertAfter_spec (isa : ν → κ → Bool) (skip : List κ) (node : ν) (l : List ν) :
    insertAfter isa skip node l =
      if l.all (isaAny isa · skip) then none
      else some (l.takeWhile (isaAny isa · skip) ++ node :: l.dropWhile (isaAny isa · skip)) := by
  induction l with
  | nil => simp [insertAfter]
  | cons n l ih =>
    by_cases h : isaAny isa n skip = true
    · simp only [insertAfter, h, if_true, ih, List.all_cons, Bool.true_and, List.takeWhile_cons,
        List.dropWhile_cons]
      by_cases h' : l.all (isaAny isa · skip) = true
      · simp [h']
      · simp [h']
    · simp [insertAfter, h]

/-- The result of `add` is the children with the node inserted somewhere. -/
def Inserted (node : ν) (l r : List ν) : Prop := ∃ a b, l = a ++ b ∧ r = a ++ node :: b

theorem insertAfter_inserted (isa : ν → κ → Bool) (skip : List κ) (node : ν) (l r : List ν)
    (h : insertAfter isa skip node l = some r) : Inserted node l r := by
  rw [insertAfter_spec] at h
  split at h
  · cases h
  · simp only [Option.some.injEq] at h
    exact ⟨_, _, (List.takeWhile_append_dropWhile).symm, h.symm⟩

theorem tryOrder_inserted (isa : ν → κ → Bool) (node : ν) (l : List ν) (order : List κ) :
    ∀ done r, tryOrder isa node l done order = some r → Inserted node l r := by
  induction order with
  | nil => intro done r h; cases h
  | cons c order ih =>
    intro done r h
    simp only [tryOrder] at h
    split at h
    · cases hi : insertAfter isa done node l with
      | some l' =>
        rw [hi] at h; simp only [Option.some.injEq] at h; subst h
        exact insertAfter_inserted _ _ _ _ _ hi
      | none => rw [hi] at h; exact ih _ _ h
    · exact ih _ _ h

/-- **C40**: `add` puts the node at one place between the existing children, which stay as
they are and in the same order; for every child order. -/
theorem C40_keeps_children (isa : ν → κ → Bool) (orders : List (List κ)) (children : List ν)
    (node : ν) : ∃ a b, children = a ++ b ∧ add isa orders children node = a ++ node :: b := by
  have h : ∀ orders r, tryOrders isa node children orders = some r → Inserted node children r := by
    intro orders
    induction orders with
    | nil => intro r h; cases h
    | cons o orders ih =>
      intro r h
      simp only [tryOrders] at h
      cases ht : tryOrder isa node children [] o with
      | some l =>
        rw [ht] at h; simp only [Option.some.injEq] at h; subst h
        exact tryOrder_inserted _ _ _ _ _ _ ht
      | none => rw [ht] at h; exact ih _ h
  rw [add]
  cases ht : tryOrders isa node children orders with
  | some l => exact h _ _ ht
  | none => exact ⟨children, [], by simp, rfl⟩

theorem tryOrder_unlisted (isa : ν → κ → Bool) (node : ν) (l : List ν) (order : List κ)
    (h : ¬ Listed isa order node) : ∀ done, tryOrder isa node l done order = none := by
  induction order with
  | nil => intro done; rfl
  | cons c order ih =>
    intro done
    have hc : isa node c = false := by
      cases hc : isa node c with
      | false => rfl
      | true => exact absurd ⟨c, by simp, hc⟩ h
    have ho : ¬ Listed isa order node := fun ⟨c', h1, h2⟩ => h ⟨c', by simp [h1], h2⟩
    simp only [tryOrder, hc, Bool.false_eq_true, if_false]
    exact ih ho _

theorem tryOrders_unlisted (isa : ν → κ → Bool) (node : ν) (l : List ν) (orders : List (List κ))
    (h : ∀ o ∈ orders, ¬ Listed isa o node) : tryOrders isa node l orders = none := by
  induction orders with
  | nil => rfl
  | cons o orders ih =>
    simp only [tryOrders, tryOrder_unlisted isa node l o (h o (by simp)) []]
    exact ih fun o' h' => h o' (by simp [h'])

/-- **C40**: "If the proper place can't be found, the node is appended at the end". -/
theorem C40_unlisted (isa : ν → κ → Bool) (orders : List (List κ)) (children : List ν) (node : ν)
    (h : ∀ o ∈ orders, ¬ Listed isa o node) :
    add isa orders children node = children ++ [node] := by
  rw [add, tryOrders_unlisted isa node children orders h]

theorem all_skip_append (isa : ν → κ → Bool) (node : ν) (l : List ν) (order : List κ) :
    ∀ done, l.all (isaAny isa · done) = true → tryOrder isa node l done order = none := by
  induction order with
  | nil => intro done _; rfl
  | cons c order ih =>
    intro done h
    have h' : l.all (isaAny isa · (done ++ [c])) = true := by
      rw [List.all_eq_true] at h ⊢
      intro x hx
      have := h x hx
      simp only [isaAny, List.any_append, Bool.or_eq_true] at this ⊢
      exact .inl this
    simp only [tryOrder, insertAfter_spec, h, if_true]
    rw [ih _ h']
    simp

theorem tryOrder_listed (isa : ν → κ → Bool) (node : ν) (l : List ν) (order : List κ) :
    ∀ done, Listed isa order node →
      tryOrder isa node l done order =
        insertAfter isa (done ++ order.take (place isa order node)) node l := by
  induction order with
  | nil => rintro done ⟨c, h, -⟩; cases h
  | cons c order ih =>
    rintro done hl
    by_cases hc : isa node c = true
    · have hp : place isa (c :: order) node = 0 := by simp [place, List.findIdx_cons, hc]
      rw [hp]
      simp only [tryOrder, hc, if_true, List.take_zero, List.append_nil]
      cases hi : insertAfter isa done node l with
      | some l' => rfl
      | none =>
        have hall : l.all (isaAny isa · done) = true := by
          rw [insertAfter_spec] at hi
          split at hi
          · assumption
          · cases hi
        simp only
        apply all_skip_append
        rw [List.all_eq_true] at hall ⊢
        intro x hx
        have := hall x hx
        simp only [isaAny, List.any_append, Bool.or_eq_true] at this ⊢
        exact .inl this
    · have hl' : Listed isa order node := by
        obtain ⟨c', h1, h2⟩ := hl
        rcases List.mem_cons.1 h1 with rfl | h1
        · exact absurd h2 hc
        · exact ⟨c', h1, h2⟩
      have hp : place isa (c :: order) node = place isa order node + 1 := by
        simp [place, List.findIdx_cons, hc]
      have hc' : isa node c = false := by simpa using hc
      simp only [tryOrder, hc', Bool.false_eq_true, if_false]
      rw [ih _ hl', hp, List.take_succ_cons]
      simp

theorem isaAny_take (isa : ν → κ → Bool) (order : List κ) (n : ν) (k : ℕ) (hk : k ≤ order.length) :
    isaAny isa n (order.take k) = decide (place isa order n < k) := by
  rw [Bool.eq_iff_iff, decide_eq_true_iff]
  simp only [isaAny, place, List.any_eq_true]
  constructor
  · rintro ⟨c, hc, hi⟩
    obtain ⟨i, hi', rfl⟩ := List.mem_iff_getElem.1 hc
    rw [List.getElem_take] at hi
    rw [List.length_take] at hi'
    by_contra hcon
    have : i < order.findIdx (isa n) := by omega
    rw [List.not_of_lt_findIdx this] at hi
    cases hi
  · intro h
    have hlt : order.findIdx (isa n) < order.length := by omega
    refine ⟨order[order.findIdx (isa n)], ?_, List.findIdx_getElem⟩
    rw [List.mem_iff_getElem]
    exact ⟨order.findIdx (isa n), by rw [List.length_take]; omega, List.getElem_take⟩

theorem takeWhile_append_node {l : List ν} {p : ν → Bool} (h : l.all p = true) (node : ν) :
    l ++ [node] = l.takeWhile p ++ node :: l.dropWhile p := by
  induction l with
  | nil => rfl
  | cons a l ih =>
    rw [List.all_cons, Bool.and_eq_true] at h
    simp [h.1, ih h.2]

/-- **C40**: the exact place. With a child order that is the only one that mentions the node
(all elements of the library have at most one order), the node is put before the first child
whose place in the order is not earlier than that of the node. -/
theorem C40_place (isa : ν → κ → Bool) (before after : List (List κ)) (order : List κ)
    (children : List ν) (node : ν) (hb : ∀ o ∈ before, ¬ Listed isa o node)
    (ha : ∀ o ∈ after, ¬ Listed isa o node) (h : Listed isa order node) :
    let earlier := fun c => decide (place isa order c < place isa order node)
    add isa (before ++ order :: after) children node =
      children.takeWhile earlier ++ node :: children.dropWhile earlier := by
  intro earlier
  have hk : place isa order node ≤ order.length := List.findIdx_le_length
  have hskip : tryOrders isa node children (before ++ order :: after) =
      tryOrders isa node children (order :: after) := by
    induction before with
    | nil => rfl
    | cons o before ih =>
      simp only [List.cons_append, tryOrders,
        tryOrder_unlisted isa node children o (hb o (by simp)) []]
      exact ih fun o' h' => hb o' (by simp [h'])
  have hfun : (fun x => isaAny isa x (order.take (place isa order node))) = earlier := by
    funext x
    exact isaAny_take isa order x _ hk
  rw [add, hskip]
  simp only [tryOrders, tryOrder_listed isa node children order [] h, List.nil_append,
    insertAfter_spec, hfun, tryOrders_unlisted isa node children after ha]
  by_cases hall : children.all earlier = true
  · simp only [hall, if_true]
    exact takeWhile_append_node hall node
  · simp only [hall, Bool.false_eq_true, if_false]

/-- **C40**: if the existing children respect the order, they do so after `add`, whether the
new node occurs in the order or not. -/
theorem C40_respects (isa : ν → κ → Bool) (order : List κ) (children : List ν) (node : ν)
    (h : Respects isa order children) : Respects isa order (add isa [order] children node) := by
  by_cases hl : Listed isa order node
  · rw [show ([order] : List (List κ)) = [] ++ order :: [] from rfl,
      C40_place isa [] [] order children node (by simp) (by simp) hl]
    simp only [Respects] at h ⊢
    induction children with
    | nil => simp
    | cons c children ih =>
      rw [List.pairwise_cons] at h
      by_cases hc : place isa order c < place isa order node
      · simp only [List.takeWhile_cons, hc, decide_true, if_true, List.dropWhile_cons,
          List.cons_append, List.pairwise_cons]
        refine ⟨fun b hb => ?_, ih h.2⟩
        rcases List.mem_append.1 hb with hb | hb
        · exact h.1 b (List.takeWhile_subset _ hb)
        · rcases List.mem_cons.1 hb with rfl | hb
          · exact Nat.le_of_lt hc
          · exact h.1 b ((List.dropWhile_sublist _).subset hb)
      · simp only [List.takeWhile_cons, hc, decide_false, Bool.false_eq_true, if_false,
          List.dropWhile_cons, List.nil_append, List.pairwise_cons]
        refine ⟨fun b hb => ?_, h.1, h.2⟩
        rcases List.mem_cons.1 hb with rfl | hb
        · omega
        · have := h.1 b hb
          omega
  · rw [C40_unlisted isa [order] children node (by simpa using hl)]
    simp only [Respects] at h ⊢
    rw [List.pairwise_append]
    refine ⟨h, by simp, fun a _ b hb => ?_⟩
    simp at hb; subst hb
    have : place isa order b = order.length := by
      rw [place, List.findIdx_eq_length]
      intro c hc
      cases hi : isa b c with
      | false => rfl
      | true => exact absurd ⟨c, hc, hi⟩ hl
    rw [this]
    exact List.findIdx_le_length

/-- **C40**, histories: an element that starts without children (or with children in order) and
gets children with `add` always has all its children, in the child order. -/
theorem C40_history (isa : ν → κ → Bool) (order : List κ) (children added : List ν)
    (h : Respects isa order children) :
    Respects isa order (added.foldl (add isa [order]) children) ∧
    (added.foldl (add isa [order]) children).Perm (children ++ added) := by
  induction added generalizing children with
  | nil => exact ⟨h, by simp⟩
  | cons n added ih =>
    obtain ⟨h1, h2⟩ := ih (add isa [order] children n) (C40_respects isa order children n h)
    refine ⟨h1, h2.trans ?_⟩
    obtain ⟨a, b, e1, e2⟩ := C40_keeps_children isa [order] children n
    rw [e2, e1]
    have : (a ++ n :: b).Perm (a ++ b ++ [n]) := by
      rw [List.append_assoc]
      exact List.Perm.append_left _ (List.perm_append_comm (l₁ := [n]) (l₂ := b))
    simpa using this.append_right added

/-- **C40**, histories: nodes of different places can be added in any order, the result is the
same. -/
theorem C40_any_order (isa : ν → κ → Bool) (order : List κ) (added added' : List ν)
    (hp : added.Perm added')
    (hd : ∀ a ∈ added, ∀ b ∈ added, place isa order a = place isa order b → a = b) :
    added.foldl (add isa [order]) [] = added'.foldl (add isa [order]) [] := by
  obtain ⟨s1, p1⟩ := C40_history isa order [] added List.Pairwise.nil
  obtain ⟨s2, p2⟩ := C40_history isa order [] added' List.Pairwise.nil
  simp only [List.nil_append] at p1 p2
  refine List.Perm.eq_of_pairwise ?_ s1 s2 (p1.trans (hp.trans p2.symm))
  intro a b ha hb h1 h2
  exact hd a (p1.subset ha) b (hp.symm.subset (p2.subset hb)) (by omega)

/-! A note: order Octave, Accidental, OctCheck, Duration, Articulations, Comment
(`quickly/dom/lily.py` L1482-1483); nodes are pairs of a class number and a text. -/

/-- The example's `isinstance`: class `6` (Beam) is not in the order. -/
def exIsa (n : ℕ × String) (c : ℕ) : Bool := n.1 == c

example : [(3, "4."), (5, "% hi"), (0, "'"), (6, "["), (1, "!"), (3, "8")].foldl
      (add exIsa [[0, 1, 2, 3, 4, 5]]) [] =
    [(0, "'"), (1, "!"), (3, "8"), (3, "4."), (5, "% hi"), (6, "[")] := by decide

example : Listed exIsa [0, 1, 2, 3, 4, 5] (3, "4.") ∧ ¬ Listed exIsa [0, 1, 2, 3, 4, 5] (6, "[") := by
  constructor
  · exact ⟨3, by decide, rfl⟩
  · rintro ⟨c, hc, h⟩
    simp [exIsa] at h
    subst h
    simp at hc

end Quickly.Add
