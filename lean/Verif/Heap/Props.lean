import Verif.Heap.Spec
import Mathlib.Tactic.Common
import Mathlib.Data.List.Basic
import Mathlib.Data.List.Nodup
import Mathlib.Logic.Basic

/-!
# Property C30: parent links stay consistent
-/

namespace Quickly.Heap

open Spec

/-! ## Lemmas -/

theorem setParents_eq (h : Heap) (nodes : List ℕ) (self : ℕ) :
    setParents h nodes self = { h with par := fun n => if n ∈ nodes then some self else h.par n } := by
  unfold setParents
  induction nodes generalizing h with
  | nil => simp
  | cons x xs ih =>
    rw [List.foldl_cons, ih]
    simp only [setParent]
    congr 1
    funext n
    by_cases h1 : n ∈ xs <;> by_cases h2 : n = x <;> simp [h1, h2]

/-- What is kept true: children's parents, each node listed once, no cycles, and
only nodes that were made are used. -/
structure Good (h : Heap) : Prop where
  linked : ∀ n c, Lists h n c → h.par c = some n
  nodup : ∀ n, (h.kids n).Nodup
  acyclic : ∀ n, ¬ Below h n n
  made : ∀ n c, Lists h n c → n < h.next ∧ c < h.next

/-- Cycles can't arise by putting nodes in `s` that do not contain `s`. -/
theorem acyclic_of {h h' : Heap} {s : ℕ} {xs : List ℕ} (ha : ∀ n, ¬ Below h n n)
    (hk : ∀ n c, Lists h' n c → Lists h n c ∨ (n = s ∧ c ∈ xs))
    (hx : ∀ x ∈ xs, x ≠ s ∧ ¬ Below h x s) : ∀ n, ¬ Below h' n n := by
  have key : ∀ a b, Below h' a b → Below h a b ∨
      ∃ x ∈ xs, (a = s ∨ Below h a s) ∧ (b = x ∨ Below h x b) := by
    intro a b hab
    induction hab with
    | single hb =>
      rcases hk _ _ hb with h1 | ⟨rfl, h1⟩
      · exact .inl (.single h1)
      · exact .inr ⟨_, h1, .inl rfl, .inl rfl⟩
    | @tail y z _ hyz ih =>
      rcases hk _ _ hyz with h1 | ⟨rfl, h1⟩
      · rcases ih with h2 | ⟨x, hx1, h2, h3⟩
        · exact .inl (.tail h2 h1)
        · refine .inr ⟨x, hx1, h2, .inr ?_⟩
          rcases h3 with rfl | h3
          · exact .single h1
          · exact .tail h3 h1
      · rcases ih with h2 | ⟨x, hx1, h2, h3⟩
        · exact .inr ⟨_, h1, .inr h2, .inl rfl⟩
        · exact .inr ⟨_, h1, h2, .inl rfl⟩
  intro n hn
  rcases key n n hn with h1 | ⟨x, hx1, h2, h3⟩
  · exact ha n h1
  · obtain ⟨h4, h5⟩ := hx x hx1
    rcases h2 with rfl | h2 <;> rcases h3 with rfl | h3
    · exact h4 rfl
    · exact h5 h3
    · exact h5 h2
    · exact h5 (h3.trans h2)

/-- Replacing a part of the children. -/
theorem good_splice {h h' : Heap} {s : ℕ} {A cut B xs : List ℕ} (hg : Good h)
    (hA : h.kids s = A ++ cut ++ B) (hs : s < h.next) (hm : ∀ n ∈ xs, n < h.next)
    (hf : AllFree h s cut xs)
    (hn : h'.next = h.next) (hk : h'.kids = fun n => if n = s then A ++ xs ++ B else h.kids n)
    (hp : h'.par = fun n => if n ∈ xs then some s else h.par n) : Good h' := by
  have hl : ∀ n c, Lists h' n c → Lists h n c ∨ (n = s ∧ c ∈ xs) := by
    intro n c hc
    simp only [Lists, hk] at hc ⊢
    by_cases hns : n = s
    · subst hns
      simp only [if_true, List.mem_append] at hc
      rw [hA]
      simp only [List.mem_append]
      tauto
    · simp only [hns, if_false] at hc
      exact .inl hc
  have hnd := hg.nodup s
  rw [hA, List.append_assoc, List.nodup_append] at hnd
  obtain ⟨nA, nCB, dA⟩ := hnd
  rw [List.nodup_append] at nCB
  obtain ⟨nC, nB, dC⟩ := nCB
  have hcut : ∀ x ∈ xs, x ∉ A ∧ x ∉ B := by
    intro x hx
    obtain ⟨h1, -, -⟩ := hf.2 x hx
    constructor
    · intro hxA
      have hc := (h1 s (by simp [Lists, hA, hxA])).2
      exact dA x hxA x (by simp [hc]) rfl
    · intro hxB
      have hc := (h1 s (by simp [Lists, hA, hxB])).2
      exact dC x hc x hxB rfl
  constructor
  · intro n c hc
    rw [hp]
    by_cases hcx : c ∈ xs
    · simp only [hcx, if_true]
      by_cases hns : n = s
      · rw [hns]
      · have : Lists h n c := by
          simp only [Lists, hk, hns, if_false] at hc
          exact hc
        exact absurd ((hf.2 c hcx).1 n this).1 hns
    · simp only [hcx, if_false]
      rcases hl n c hc with h1 | ⟨-, h1⟩
      · exact hg.linked n c h1
      · exact absurd h1 hcx
  · intro n
    rw [hk]
    by_cases hns : n = s
    · simp only [hns, if_true, List.append_assoc]
      rw [List.nodup_append, List.nodup_append]
      refine ⟨nA, ⟨hf.1, nB, fun a ha b hb he => (hcut a ha).2 (he ▸ hb)⟩, fun a ha b hb he => ?_⟩
      subst he
      rcases List.mem_append.mp hb with hb | hb
      · exact (hcut a hb).1 ha
      · exact dA a ha a (by simp [hb]) rfl
    · simpa [hns] using hg.nodup n
  · exact acyclic_of hg.acyclic hl fun x hx => (hf.2 x hx).2
  · intro n c hc
    rw [hn]
    rcases hl n c hc with h1 | ⟨rfl, h1⟩
    · exact hg.made n c h1
    · exact ⟨hs, hm c h1⟩

/-- Only the parent link of a node that is not listed changes. -/
theorem good_parent {h : Heap} (hg : Good h) (node : ℕ) (p : Option ℕ) (hf : ∀ q, ¬ Lists h q node) :
    Good (setParent h node p) := by
  constructor
  · intro n c hc
    have hc' : Lists h n c := hc
    simp only [setParent]
    by_cases h1 : c = node
    · subst h1; exact absurd hc' (hf n)
    · simp only [h1, if_false]; exact hg.linked n c hc'
  · exact hg.nodup
  · exact hg.acyclic
  · exact hg.made

theorem free_nil {h : Heap} {s x : ℕ} : Free h s [] x ↔ (∀ p, ¬ Lists h p x) ∧ x ≠ s ∧ ¬ Below h x s := by
  simp [Free]

theorem allFree_one {h : Heap} {s x : ℕ} {cut : List ℕ} (hf : Free h s cut x) : AllFree h s cut [x] := by
  simpa [AllFree] using hf

theorem itemIndex_lt {len : ℕ} {k : ℤ} {i : ℕ} (h : itemIndex len k = some i) : i < len := by
  unfold itemIndex at h
  generalize (if k < 0 then k + (len : ℤ) else k) = j at h
  simp only at h
  by_cases hc : 0 ≤ j ∧ j < len
  · rw [if_pos hc] at h
    simp only [Option.some.injEq] at h
    omega
  · rw [if_neg hc] at h
    cases h

theorem setItem_good {h : Heap} (hg : Good h) (self : ℕ) (k : ℤ) (node : ℕ) (h1 : self < h.next) (h2 : node < h.next)
    (hf : Free h self (match itemIndex (h.kids self).length k with
        | some i => ((h.kids self).drop i).take 1
        | none => []) node) : Good (setItem h self k node).1 := by
  unfold setItem
  have e : (setParent h node (some self)).kids = h.kids := rfl
  simp only [e]
  cases hi : itemIndex (h.kids self).length k with
  | none =>
    rw [hi] at hf
    exact good_parent hg _ _ (free_nil.mp hf).1
  | some i =>
    rw [hi] at hf
    have hlt : i < (h.kids self).length := itemIndex_lt hi
    have hd : (h.kids self).drop i = (h.kids self)[i] :: (h.kids self).drop (i + 1) := List.drop_eq_getElem_cons hlt
    refine good_splice (A := (h.kids self).take i) (cut := ((h.kids self).drop i).take 1)
      (B := (h.kids self).drop (i + 1)) (xs := [node]) hg ?_ h1 (by simpa using h2) (allFree_one hf) rfl ?_ ?_
    · rw [hd]
      simp only [List.take_succ_cons, List.take_zero, List.append_assoc, List.cons_append, List.nil_append]
      rw [← hd, List.take_append_drop]
    · funext n
      simp only [setKids, e]
      split
      · rw [List.set_eq_take_append_cons_drop, if_pos hlt]
        simp
      · rfl
    · funext n
      simp [setKids, setParent]

theorem sliceBounds_le (len : ℕ) (a b : Option ℤ) : (sliceBounds len a b).1 ≤ (sliceBounds len a b).2 := by
  simp only [sliceBounds]; omega

theorem split_slice (l : List ℕ) {a b : ℕ} (h : a ≤ b) : l = l.take a ++ (l.take b).drop a ++ l.drop b := by
  conv_lhs => rw [← List.take_append_drop b l]
  congr 1
  conv_lhs => rw [← List.take_append_drop a (l.take b)]
  rw [List.take_take, Nat.min_eq_left h]

theorem good_run {h : Heap} (hg : Good h) (op : Op) (ha : Allowed h op) : Good (run h op).1 := by
  have none_free : ∀ s cut, AllFree h s cut [] := fun s cut => by simp [AllFree]
  cases op with
  | new cs =>
    obtain ⟨h1, h2⟩ := ha
    simp only [run, setParents_eq]
    have hl : ∀ n c, Lists ⟨h.next + 1, fun n => if n = h.next then cs else h.kids n,
        fun n => if n ∈ cs then some h.next else if n = h.next then none else h.par n⟩ n c →
        Lists h n c ∨ (n = h.next ∧ c ∈ cs) := by
      intro n c hc
      simp only [Lists] at hc ⊢
      by_cases hn : n = h.next
      · simp only [hn, if_true] at hc; exact .inr ⟨hn, hc⟩
      · simp only [hn, if_false] at hc; exact .inl hc
    constructor
    · intro n c hc
      simp only
      rcases hl n c hc with h3 | ⟨rfl, h3⟩
      · have : c ∉ cs := fun hcs => (h2 c hcs).2 n h3
        have h4 := (hg.made n c h3).2
        have : c ≠ h.next := by omega
        simp only [*, if_false]
        exact hg.linked n c h3
      · simp only [h3, if_true]
    · intro n
      simp only
      split
      · exact h1
      · exact hg.nodup n
    · refine acyclic_of hg.acyclic hl fun x hx => ⟨?_, fun hb => ?_⟩
      · have := (h2 x hx).1; omega
      · cases hb with
        | single hb => have := (hg.made _ _ hb).2; omega
        | tail _ hb => have := (hg.made _ _ hb).2; omega
    · intro n c hc
      simp only
      rcases hl n c hc with h3 | ⟨rfl, h3⟩
      · have := hg.made n c h3; omega
      · have := (h2 c h3).1; omega
  | append self node =>
    obtain ⟨h1, h2, h3⟩ := ha
    refine good_splice (A := h.kids self) (cut := []) (B := []) (xs := [node]) hg (by simp) h1 (by simpa using h2)
      (allFree_one h3) rfl ?_ ?_
    · funext n; simp [run, setKids, setParent]
    · funext n; simp [run, setKids, setParent]
  | extend self nodes =>
    obtain ⟨h1, h2, h3⟩ := ha
    refine good_splice (A := h.kids self) (cut := []) (B := []) (xs := nodes) hg (by simp) h1 h2 h3 ?_ ?_ ?_
    · simp [run, setParents_eq, setKids]
    · funext n; simp [run, setParents_eq, setKids]
    · funext n; simp [run, setParents_eq, setKids]
  | insert self index node =>
    obtain ⟨h1, h2, h3⟩ := ha
    refine good_splice (A := (h.kids self).take (clamp (h.kids self).length index)) (cut := [])
      (B := (h.kids self).drop (clamp (h.kids self).length index)) (xs := [node]) hg (by simp) h1 (by simpa using h2)
      (allFree_one h3) rfl ?_ ?_
    · funext n; simp [run, setKids, setParent]
    · funext n; simp [run, setKids, setParent]
  | setItem self k node => exact setItem_good hg self k node ha.1 ha.2.1 ha.2.2
  | setSlice self start stop nodes =>
    obtain ⟨h1, h2, h3⟩ := ha
    refine good_splice (B := (h.kids self).drop (sliceBounds (h.kids self).length start stop).2) hg
      (split_slice _ (sliceBounds_le _ start stop)) h1 h2 h3 ?_ ?_ ?_
    · simp [run, setParents_eq, setKids]
    · funext n; simp [run, setParents_eq, setKids]
    · funext n; simp [run, setParents_eq, setKids]
  | replaceWith self node =>
    obtain ⟨h1, h2, h3, h4, h5⟩ := ha
    have hg' : Good (setParent h node (some self)) := good_parent hg _ _ h3
    simp only [run]
    split
    · exact hg'
    · rename_i p hp
      split
      · rename_i hin
        have hin' : Lists h p self := hin
        refine setItem_good hg' p _ node (hg.made p self hin').1 h2 ?_
        refine ⟨fun q hq => absurd hq (h3 q), ?_, ?_⟩
        · rintro rfl
          exact h5 (.single hin')
        · intro hb
          exact h5 (Relation.TransGen.tail (show Below h node p from hb) hin')
      · exact hg'
  | take self start stop =>
    refine good_splice (B := (h.kids self).drop (sliceBounds (h.kids self).length start stop).2) (xs := []) hg
      (split_slice _ (sliceBounds_le _ start stop)) ha (by simp) (none_free _ _) ?_ ?_ ?_
    · simp [run, setKids]
    · funext n; simp [run, setKids]
    · funext n; simp [run, setKids]
  | delItem self k =>
    simp only [run]
    split
    · rename_i i hi
      have hlt : i < (h.kids self).length := itemIndex_lt hi
      refine good_splice (A := (h.kids self).take i) (B := (h.kids self).drop (i + 1)) (xs := []) hg
        (split_slice _ (Nat.le_succ i)) ha (by simp) (none_free _ _) rfl ?_ ?_
      · funext n
        simp [setKids, List.eraseIdx_eq_take_drop_succ]
      · funext n; simp [setKids]
    · exact hg
  | remove self node =>
    simp only [run]
    split
    · rename_i hin
      obtain ⟨A, B, hA, hAB, hE⟩ := List.exists_erase_eq hin
      refine good_splice (A := A) (cut := [node]) (B := B) (xs := []) hg (by simp [hAB]) ha (by simp)
        (none_free _ _) rfl ?_ ?_
      · funext n
        simp [setKids, hE]
      · funext n; simp [setKids]
    · exact hg
  | clear self =>
    refine good_splice (A := []) (cut := h.kids self) (B := []) (xs := []) hg (by simp) ha (by simp)
      (none_free _ _) rfl ?_ ?_
    · funext n; simp [run, setKids]
    · funext n; simp [run, setKids]
  | clearParent node => exact good_parent hg _ _ ha.2

theorem good_reachable {h : Heap} (hr : Reachable h) : Good h := by
  induction hr with
  | start =>
    refine ⟨?_, ?_, ?_, ?_⟩
    · intro n c hc; simp [Lists, empty] at hc
    · intro n; simp [empty]
    · intro n hb
      cases hb with
      | single hb => simp [Lists, empty] at hb
      | tail _ hb => simp [Lists, empty] at hb
    · intro n c hc; simp [Lists, empty] at hc
  | step op _ ha ih => exact good_run ih op ha

/-! ## C30 -/

/-- C30: after any history of changes, the parent of every child of every node is
the node that lists it. -/
theorem C30_parent_links (h : Heap) (hr : Reachable h) (n c : ℕ) (hc : c ∈ h.kids n) : h.par c = some n :=
  (good_reachable hr).linked n c hc

/-- C30: so a node is a child of at most one node, and only once: the index that
`parent.index(node)` finds is the place of the node. -/
theorem C30_one_place (h : Heap) (hr : Reachable h) (n m c : ℕ) (i j : ℕ)
    (hi : (h.kids n)[i]? = some c) (hj : (h.kids m)[j]? = some c) :
    n = m ∧ i = j ∧ (h.kids n).idxOf c = i := by
  have hg := good_reachable hr
  have h1 := hg.linked n c (List.mem_of_getElem? hi)
  have h2 := hg.linked m c (List.mem_of_getElem? hj)
  have hnm : n = m := by rw [h1] at h2; exact Option.some.inj h2
  subst hnm
  obtain ⟨hil, hic⟩ := List.getElem?_eq_some_iff.mp hi
  obtain ⟨hjl, hjc⟩ := List.getElem?_eq_some_iff.mp hj
  refine ⟨rfl, ?_, ?_⟩
  · exact (List.Nodup.getElem_inj_iff (hg.nodup n)).mp (by rw [hic, hjc])
  · have := List.Nodup.idxOf_getElem (hg.nodup n) i hil
    rwa [hic] at this

/-- C30: no node is ever below itself, so the nodes form trees. -/
theorem C30_no_cycles (h : Heap) (hr : Reachable h) (n : ℕ) : ¬ Below h n n :=
  (good_reachable hr).acyclic n

/-- C30: `take` returns the nodes it takes out: the new children and the result
together are the old children, and the result is free to be added elsewhere. -/
theorem C30_take (h : Heap) (hr : Reachable h) (self : ℕ) (start stop : Option ℤ) :
    ∃ A cut B, h.kids self = A ++ cut ++ B ∧ (run h (.take self start stop)).2 = .ok cut ∧
      (run h (.take self start stop)).1.kids self = A ++ B ∧
      ∀ c ∈ cut, ∀ p, ¬ Lists (run h (.take self start stop)).1 p c := by
  have hg := good_reachable hr
  have hs := split_slice (h.kids self) (sliceBounds_le (h.kids self).length start stop)
  refine ⟨_, _, _, hs, rfl, by simp [run, setKids], fun c hc p hp => ?_⟩
  have hnd := hg.nodup self
  have hpar : h.par c = some self := hg.linked self c (by rw [Lists, hs]; simp [hc])
  simp only [run, Lists, setKids] at hp
  split at hp
  · rw [hs, List.nodup_append, List.nodup_append] at hnd
    rcases List.mem_append.mp hp with hp | hp
    · exact hnd.1.2.2 c hp c hc rfl
    · exact hnd.2.2 c (by simp [hc]) c hp rfl
  · rename_i hne
    have := hg.linked p c hp
    rw [hpar] at this
    exact hne (Option.some.inj this).symm

/-- A history with all kinds of nodes: a root with three children; the first is put
below the second, the third is replaced. -/
def exHistory : List Op :=
  [.new [], .new [], .new [], .new [0, 1, 2], .take 3 none (some 1), .append 1 0, .new [], .replaceWith 2 4,
   .setSlice 3 (some 0) none [4, 1], .setItem 3 (-1) 1]

/-- The state after some changes. -/
def runAll (ops : List Op) : Heap := ops.foldl (fun h op => (run h op).1) empty

example : (runAll exHistory).kids 3 = [4, 1] ∧ (runAll exHistory).kids 1 = [0] ∧
    (runAll exHistory).par 4 = some 3 ∧ (runAll exHistory).par 0 = some 1 := by decide

theorem below_iff_false {h : Heap} {a b : ℕ} (ha : h.kids a = []) : ¬ Below h a b := by
  intro hb
  induction hb with
  | single hb => simp [Lists, ha] at hb
  | tail _ _ ih => exact ih

/-- The first changes of the history are allowed: the hypothesis of C30 is met by
real states. -/
example : Reachable (runAll [.new [], .new [], .new [0], .append 2 1]) := by
  have h1 : Reachable (runAll [.new []]) := .step _ .start ⟨by simp, by simp⟩
  have h2 : Reachable (runAll [.new [], .new []]) := .step _ h1 ⟨by simp, by simp⟩
  have h3 : Reachable (runAll [.new [], .new [], .new [0]]) := .step _ h2
    ⟨by simp, by
      intro n hn
      simp only [List.mem_singleton] at hn
      subst hn
      refine ⟨by decide, fun p hp => ?_⟩
      simp only [Lists, run, empty, setParents_eq] at hp
      split at hp
      · first | (simp at hp; done) | (by_cases h0 : p = 0 <;> simp [h0] at hp)
      · first | (simp at hp; done) | (by_cases h0 : p = 0 <;> simp [h0] at hp)⟩
  refine .step (.append 2 1) h3 ⟨by decide, by decide, free_nil.mpr ⟨fun p hp => ?_, by decide, below_iff_false (by decide)⟩⟩
  simp only [Lists, run, empty, setParents_eq] at hp
  split at hp
  · first | (simp at hp; done) | (by_cases h0 : p = 0 <;> simp [h0] at hp)
  · split at hp
    · first | (simp at hp; done) | (by_cases h0 : p = 0 <;> simp [h0] at hp)
    · first | (simp at hp; done) | (by_cases h0 : p = 0 <;> simp [h0] at hp)

/-- The hypothesis that added nodes are free is needed: without taking the node out
first, it is listed by two nodes and the first has a child with another parent (the
documentation says so, L157-160). -/
theorem C30_not_taken_out : ∃ h, Reachable h ∧ ∃ n c, c ∈ ((run h (.append 1 0)).1).kids n ∧
    ((run h (.append 1 0)).1).par c ≠ some n := by
  refine ⟨runAll [.new [], .new [], .new [0]], ?_, 2, 0, by decide, by decide⟩
  have h1 : Reachable (runAll [.new []]) := .step _ .start ⟨by simp, by simp⟩
  have h2 : Reachable (runAll [.new [], .new []]) := .step _ h1 ⟨by simp, by simp⟩
  refine .step (.new [0]) h2 ⟨by simp, ?_⟩
  intro n hn
  simp only [List.mem_singleton] at hn
  subst hn
  refine ⟨by decide, fun p hp => ?_⟩
  simp only [Lists, run, empty, setParents_eq] at hp
  split at hp
  · first | (simp at hp; done) | (by_cases h0 : p = 0 <;> simp [h0] at hp)
  · first | (simp at hp; done) | (by_cases h0 : p = 0 <;> simp [h0] at hp)

end Quickly.Heap
