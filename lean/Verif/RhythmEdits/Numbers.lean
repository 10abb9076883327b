import Verif.RhythmEdits.Steps

/-! # Numbers of nodes: among all nodes, and among those that can have a duration -/

namespace Quickly.RhythmEdits

open Quickly.Node Quickly.Signature Quickly.Length Quickly.RhythmTime Quickly.RhythmTime.Spec Spec
open Quickly.Rhythm (Mus)

variable {τ : Type} {p : Rhythm.Proc τ} {w1 w2 : ℕ → Rhythm.Label → Bool}

mutual
theorem lwalk_count : ∀ (m : Mus) (w : ℕ → Rhythm.Label → Bool) (st : τ) (j : ℕ) (before : List Rhythm.Label)
    (right right2 : Option Rhythm.Kind) (ins : Bool),
    (Rhythm.walk p w st j before right m).2.1 = j + (Rhythm.Spec.nodes ins right2 m).length
  | .node l cs, w, st, j, before, right, right2, ins => by
    simp only [Rhythm.walk, Rhythm.Spec.nodes, List.length_cons]
    rw [lwalkL_count cs w _ _ _ (ins || l.kind.sets)]
    omega
theorem lwalkL_count : ∀ (ms : List Mus) (w : ℕ → Rhythm.Label → Bool) (st : τ) (j : ℕ) (before : List Rhythm.Label)
    (ins : Bool), (Rhythm.walkL p w st j before ms).2.1 = j + (Rhythm.Spec.nodesL ins ms).length
  | [], w, st, j, before, ins => rfl
  | m :: ms, w, st, j, before, ins => by
    simp only [Rhythm.walkL, Rhythm.Spec.nodesL, List.length_append]
    rw [lwalkL_count ms w _ _ _ ins, lwalk_count m w _ _ _ _ (ms.head?.map (·.label.kind)) ins]
    omega
end

/-- Two conditions that agree on the nodes of a list, where the first one has number `j`. -/
def Agree (w1 w2 : ℕ → Rhythm.Label → Bool) (j : ℕ) (xs : List (Rhythm.Label × Option Rhythm.Kind × Bool)) : Prop :=
  ∀ k x, xs[k]? = some x → w1 (j + k) x.1 = w2 (j + k) x.1

theorem Agree.append {j : ℕ} {xs ys : List (Rhythm.Label × Option Rhythm.Kind × Bool)} (h : Agree w1 w2 j (xs ++ ys)) :
    Agree w1 w2 j xs ∧ Agree w1 w2 (j + xs.length) ys := by
  refine ⟨fun k x hx => h k x ?_, fun k x hx => ?_⟩
  · rw [List.getElem?_append_left (List.getElem?_eq_some_iff.1 hx).1]; exact hx
  · have := h (xs.length + k) x (by rw [List.getElem?_append_right (by omega)]; simpa using hx)
    rw [Nat.add_assoc]; exact this

mutual
theorem lwalk_agree : ∀ (m : Mus) (st : τ) (j : ℕ) (before : List Rhythm.Label) (right right2 : Option Rhythm.Kind)
    (ins : Bool), Agree w1 w2 j (Rhythm.Spec.nodes ins right2 m) →
    Rhythm.walk p w1 st j before right m = Rhythm.walk p w2 st j before right m
  | .node l cs, st, j, before, right, right2, ins, h => by
    have h0 := h 0 (l, right2, ins) (by simp [Rhythm.Spec.nodes])
    simp only [Nat.add_zero] at h0
    have h1 : Agree w1 w2 (j + 1) (Rhythm.Spec.nodesL (ins || l.kind.sets) cs) := by
      intro k x hx
      have := h (k + 1) x (by simpa [Rhythm.Spec.nodes] using hx)
      rw [show j + 1 + k = j + (k + 1) by omega]; exact this
    simp only [Rhythm.walk, h0]
    rw [lwalkL_agree cs _ _ _ (ins || l.kind.sets) h1]
theorem lwalkL_agree : ∀ (ms : List Mus) (st : τ) (j : ℕ) (before : List Rhythm.Label) (ins : Bool),
    Agree w1 w2 j (Rhythm.Spec.nodesL ins ms) → Rhythm.walkL p w1 st j before ms = Rhythm.walkL p w2 st j before ms
  | [], st, j, before, ins, h => rfl
  | m :: ms, st, j, before, ins, h => by
    obtain ⟨h1, h2⟩ := h.append
    simp only [Rhythm.walkL]
    rw [lwalk_agree m st j before _ _ ins h1]
    rw [lwalkL_agree ms _ _ _ ins (by rw [lwalk_count m w2 st j before _ (ms.head?.map (·.label.kind)) ins]; exact h2)]
end

/-! ## The numbers are increasing -/

/-- The numbers are increasing, between two numbers. -/
def Rising (i k : ℕ) (xs : List (Rhythm.Label × Option Rhythm.Kind × Bool)) : Prop :=
  xs.Pairwise (fun x y => x.1.id ≤ y.1.id) ∧ ∀ x ∈ xs, i ≤ x.1.id ∧ x.1.id ≤ k

theorem Rising.append {i k l : ℕ} {xs ys : List (Rhythm.Label × Option Rhythm.Kind × Bool)} (hx : Rising i k xs)
    (hy : Rising k l ys) (h1 : i ≤ k) (h2 : k ≤ l) : Rising i l (xs ++ ys) := by
  refine ⟨List.pairwise_append.2 ⟨hx.1, hy.1, fun x hx' y hy' => (hx.2 x hx').2.trans (hy.2 y hy').1⟩, fun x h => ?_⟩
  rcases List.mem_append.1 h with h | h
  · exact ⟨(hx.2 x h).1, (hx.2 x h).2.trans h2⟩
  · exact ⟨h1.trans (hy.2 x h).1, (hy.2 x h).2⟩

mutual
theorem rising : ∀ (t : Nd) (i : ℕ) (right : Option Rhythm.Kind) (ins : Bool),
    Rising i (i + (owned t).length) (Rhythm.Spec.nodes ins right (labels i t))
  | .node l cs, i, right, ins => by
    simp only [labels, Rhythm.Spec.nodes]
    have ih := risingL cs (if l.1 ∈ timed then i + 1 else i) (ins || (label i (.node l cs)).kind.sets)
    have hlen : i + (owned (.node l cs)).length = (if l.1 ∈ timed then i + 1 else i) + (ownedL cs).length := by
      simp only [owned, List.length_append]
      split <;> simp <;> omega
    rw [hlen]
    have hle : i ≤ if l.1 ∈ timed then i + 1 else i := by split <;> omega
    refine ⟨List.pairwise_cons.2 ⟨fun y hy => ?_, ih.1⟩, fun x hx => ?_⟩
    · exact hle.trans (ih.2 y hy).1
    · rcases List.mem_cons.1 hx with rfl | hx
      · exact ⟨le_rfl, hle.trans (Nat.le_add_right _ _)⟩
      · exact ⟨hle.trans (ih.2 x hx).1, (ih.2 x hx).2⟩
theorem risingL : ∀ (ts : List Nd) (i : ℕ) (ins : Bool),
    Rising i (i + (ownedL ts).length) (Rhythm.Spec.nodesL ins (labelsL i ts))
  | [], i, ins => ⟨List.Pairwise.nil, fun x hx => by cases hx⟩
  | t :: ts, i, ins => by
    by_cases hd : t.val.1 = .Duration
    · simp only [labelsL, ownedL, hd, if_true]
      exact risingL ts i ins
    · simp only [labelsL, ownedL, hd, if_false, List.length_append, Rhythm.Spec.nodesL]
      have h2 := risingL ts (i + (owned t).length) ins
      rw [Nat.add_assoc] at h2
      exact (rising t i _ ins).append h2 (by omega) (by omega)
end

/-- The number among all nodes of the first node that can have a duration and has at least a given number among those. -/
def place (ms : List Mus) (a : ℕ) : ℕ :=
  (Rhythm.Spec.allNodes ms).findIdx fun x => x.1.kind.handles && decide (a ≤ x.1.id)

theorem place_le (doc : List Nd) (a j : ℕ) (x : Rhythm.Label × Option Rhythm.Kind × Bool)
    (hx : (Rhythm.Spec.allNodes (labelsL 0 doc))[j]? = some x) (hh : x.1.kind.handles = true) :
    place (labelsL 0 doc) a ≤ j ↔ a ≤ x.1.id := by
  obtain ⟨hj, rfl⟩ := List.getElem?_eq_some_iff.1 hx
  constructor
  · intro h
    have hlt : place (labelsL 0 doc) a < (Rhythm.Spec.allNodes (labelsL 0 doc)).length := lt_of_le_of_lt h hj
    have hp := List.findIdx_getElem (w := hlt)
    simp only [Bool.and_eq_true, decide_eq_true_eq] at hp
    refine hp.2.trans ?_
    rcases Nat.lt_or_ge (place (labelsL 0 doc) a) j with hl | hl
    · exact List.pairwise_iff_getElem.1 (risingL doc 0 false).1 _ _ hlt hj hl
    · have : place (labelsL 0 doc) a = j := le_antisymm h hl
      simp only [place] at this
      simp only [this]
      exact le_rfl
  · intro h
    by_contra hlt
    have := List.not_of_lt_findIdx (Nat.lt_of_not_le hlt)
    simp [hh, h] at this

/-- The nodes in a range, by their number among all nodes or among those that can have a duration. -/
theorem agree_range (doc : List Nd) (a b : ℕ) (q : Rhythm.Label → Bool) (hq : ∀ l, q l = true → l.kind.handles = true) :
    Agree (fun _ l => decide (a ≤ l.id ∧ l.id < b) && q l)
      (fun j l => decide (place (labelsL 0 doc) a ≤ j ∧ j < place (labelsL 0 doc) b) && q l) 0
      (Rhythm.Spec.nodesL false (labelsL 0 doc)) := by
  intro k x hx
  simp only [Nat.zero_add]
  cases hql : q x.1 with
  | false => simp
  | true =>
    have ha := place_le doc a k x hx (hq _ hql)
    have hb := place_le doc b k x hx (hq _ hql)
    have : (a ≤ x.1.id ∧ x.1.id < b) ↔ (place (labelsL 0 doc) a ≤ k ∧ k < place (labelsL 0 doc) b) := by
      rw [ha, ← Nat.not_le, ← Nat.not_le, hb]
    simp only [this, Bool.and_true]

theorem durable_handles (l : Rhythm.Label) (h : l.isDurable = true) : l.kind.handles = true := by
  rw [Rhythm.Label.isDurable, Bool.and_eq_true] at h
  have := h.1
  cases hk : l.kind <;> simp_all [Rhythm.Kind.durable, Rhythm.Kind.handles]

end Quickly.RhythmEdits
