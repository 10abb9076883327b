import Verif.Files.Timed
import Verif.Scope.Props

/-! # Searching on from the place where a variable was found -/

namespace Quickly.Files

open Quickly.Node Quickly.Signature Quickly.Length Spec
open Quickly.Scope (Config Level Scope Doc precedingNodes findAssignment visit visitWith)

theorem seenAll_length : ∀ (ts : List Nd) (i : ℕ), (seenAll i ts).length = ts.length
  | [], _ => rfl
  | _ :: ts, i => by simp [seenAll, seenAll_length ts]

theorem seenAll_get : ∀ (ts : List Nd) (i j : ℕ), (seenAll i ts)[j]? = (ts[j]?).map (seen (i + j))
  | [], _, _ => by simp [seenAll]
  | t :: ts, i, 0 => by simp [seenAll]
  | t :: ts, i, j + 1 => by
    simp only [seenAll, List.getElem?_cons_succ, seenAll_get ts]
    rw [show i + 1 + j = i + (j + 1) by omega]

theorem placeOf_succ (src : Source) (s : Scope) (j : ℕ) :
    placeOf src s (j + 1) = match (src s.top.doc)[j]? with
      | some t => seen j t :: placeOf src s j
      | none => placeOf src s j := by
  have h := seenAll_get (src s.top.doc) 0 j
  rw [Nat.zero_add] at h
  rw [placeOf, List.take_add_one, h, List.reverse_append, placeOf]
  cases (src s.top.doc)[j]? <;> rfl

theorem seen_assign (i j : ℕ) (t : Nd) (name : String) (h : seen i t = .assign name j) : j = i := by
  unfold seen at h
  split at h
  · split at h <;> cases h
  · split at h
    · split at h <;> cases h
      rfl
    · cases h

theorem seen_other (i j : ℕ) (t : Nd) (h : seen i t = .other j) : j = i := by
  unfold seen at h
  split at h
  · split at h <;> cases h
    rfl
  · split at h
    · split at h <;> cases h
      rfl
    · cases h
      rfl

/-- The documents of a scope and its parents are those the nodes are given for, and the includes are in them. -/
def Good (src : Source) : Level → List Level → Prop
  | top, parents =>
    (∀ dom, top.doc.dom = some dom → dom = seenAll 0 (src top.doc)) ∧
    match parents, top.node with
    | p :: ps, some place => Good src p ps ∧ ∃ j, place = placeOf src ⟨p, ps⟩ j
    | _, _ => True

/-- What is yielded after the nodes in the document of the scope. -/
def cont (cfg : Config) (depth : ℕ) (s : Scope) : Option (List (Scope.Node × Scope)) :=
  match s.parents, s.top.node with
  | p :: ps, some place => precedingNodes cfg depth p ps place
  | _, _ => some []

theorem preceding_eq (cfg : Config) (depth : ℕ) (s : Scope) (place : List Scope.Node)
    (here rest : List (Scope.Node × Scope)) (h : visit cfg depth s place = some here) (hr : cont cfg depth s = some rest) :
    precedingNodes cfg depth s.top s.parents place = some (here ++ rest) := by
  obtain ⟨top, parents⟩ := s
  unfold precedingNodes
  unfold cont at hr
  rw [h]
  simp only [Option.bind_eq_bind, Option.bind_some, Option.pure_def]
  cases parents with
  | nil => simp only [Option.some.injEq] at hr; simp [← hr]
  | cons p ps =>
    cases hn : top.node with
    | none => simp only [hn, Option.some.injEq] at hr; simp [← hr]
    | some pl => simp only [hn] at hr; simp [hr]

theorem preceding_parts (cfg : Config) (depth : ℕ) (s : Scope) (place : List Scope.Node) (ys : List (Scope.Node × Scope))
    (h : precedingNodes cfg depth s.top s.parents place = some ys) :
    ∃ here rest, visit cfg depth s place = some here ∧ cont cfg depth s = some rest ∧ ys = here ++ rest := by
  obtain ⟨top, parents⟩ := s
  unfold precedingNodes at h
  simp only [Option.bind_eq_bind, Option.bind_eq_some_iff, Option.pure_def] at h
  obtain ⟨x, hx, h⟩ := h
  refine ⟨x, ?_⟩
  unfold cont
  cases parents with
  | nil => simp only [Option.some.injEq] at h; exact ⟨[], hx, rfl, by simp [h]⟩
  | cons p ps =>
    cases hn : top.node with
    | none => simp only [hn, Option.some.injEq] at h; exact ⟨[], hx, by simp only [hn], by simp [h]⟩
    | some pl =>
      simp only [hn, Option.bind_eq_some_iff, Option.some.injEq] at h
      obtain ⟨y, hy, h⟩ := h
      exact ⟨y, hx, by simpa only [hn] using hy, h.symm⟩

theorem visitWith_mono (cfg : Config) (f g : Scope → List Scope.Node → Option (List (Scope.Node × Scope)))
    (hfg : ∀ s ns ys, f s ns = some ys → g s ns = some ys) (s : Scope) : ∀ (ns : List Scope.Node) (ys),
    visitWith cfg f s ns = some ys → visitWith cfg g s ns = some ys := by
  intro ns
  induction ns with
  | nil => intro ys h; exact h
  | cons n ns ih =>
    intro ys h
    simp only [visitWith, Option.bind_eq_bind, Option.bind_eq_some_iff, Option.pure_def] at h ⊢
    obtain ⟨rest, hr, h⟩ := h
    refine ⟨rest, ih rest hr, ?_⟩
    cases n with
    | incl f' =>
      simp only at h ⊢
      cases hi : s.includeScope cfg f' (some ns) with
      | none => rw [hi] at h; exact h
      | some s' =>
        rw [hi] at h
        simp only at h ⊢
        cases hd : s'.top.doc.dom with
        | none => rw [hd] at h; exact h
        | some dom =>
          rw [hd] at h
          simp only [Option.bind_eq_some_iff] at h ⊢
          obtain ⟨z, hz, h⟩ := h
          exact ⟨z, hfg _ _ _ hz, h⟩
    | assign a v => exact h
    | other i => exact h

theorem visit_succ (cfg : Config) : ∀ (k : ℕ) (s : Scope) (ns : List Scope.Node) (ys),
    visit cfg k s ns = some ys → visit cfg (k + 1) s ns = some ys
  | 0, s, ns, ys, h => visitWith_mono cfg _ _ (fun _ _ _ h => by cases h) s ns ys h
  | k + 1, s, ns, ys, h => visitWith_mono cfg _ _ (visit_succ cfg k) s ns ys h

theorem visit_mono (cfg : Config) (k k' : ℕ) (hk : k ≤ k') (s : Scope) (ns : List Scope.Node) (ys)
    (h : visit cfg k s ns = some ys) : visit cfg k' s ns = some ys := by
  induction k', hk using Nat.le_induction with
  | base => exact h
  | succ k' _ ih => exact visit_succ cfg k' s ns ys ih

/-- The nodes that are yielded are in their documents. -/
def Valid (src : Source) (y : Scope.Node × Scope) : Prop :=
  (∃ f, y.1 = .incl f) ∨ ∃ i t, (src y.2.top.doc)[i]? = some t ∧ y.1 = seen i t

/-- What holds for a node that is yielded before `zs`. -/
def Found (cfg : Config) (depth : ℕ) (src : Source) (y : Scope.Node × Scope) (zs : List (Scope.Node × Scope)) : Prop :=
  Valid src y ∧ ∀ name i, y.1 = .assign name i → Good src y.2.top y.2.parents ∧
    precedingNodes cfg depth y.2.top y.2.parents (placeOf src y.2 i) = some zs

/-- All nodes of a list. -/
def AllFound (cfg : Config) (depth : ℕ) (src : Source) : List (Scope.Node × Scope) → List (Scope.Node × Scope) → Prop
  | [], _ => True
  | y :: ys, rest => Found cfg depth src y (ys ++ rest) ∧ AllFound cfg depth src ys rest

theorem allFound_append (cfg : Config) (depth : ℕ) (src : Source) (xs ys rest : List (Scope.Node × Scope))
    (h : AllFound cfg depth src xs (ys ++ rest)) (h' : AllFound cfg depth src ys rest) :
    AllFound cfg depth src (xs ++ ys) rest := by
  induction xs with
  | nil => exact h'
  | cons x xs ih => exact ⟨by have := h.1; rw [← List.append_assoc] at this; exact this, ih h.2⟩

theorem valid_seen (src : Source) (s : Scope) (j : ℕ) (t : Nd) (h : (src s.top.doc)[j]? = some t) :
    Valid src (seen j t, s) := .inr ⟨j, t, h, rfl⟩

/-- What is yielded from a document. -/
theorem visit_found (cfg : Config) (depth : ℕ) (src : Source) (hsrc : Sources cfg src) : ∀ (k : ℕ), k ≤ depth →
    ∀ (s : Scope) (j : ℕ) (ys rest : List (Scope.Node × Scope)), Good src s.top s.parents →
      visit cfg k s (placeOf src s j) = some ys → cont cfg depth s = some rest → AllFound cfg depth src ys rest := by
  intro k
  induction k with
  | zero =>
    intro hk s j
    induction j with
    | zero =>
      intro ys rest _ h _
      simp only [placeOf, List.take_zero, List.reverse_nil, visit, visitWith, Option.some.injEq] at h
      rw [← h]; trivial
    | succ j ih =>
      intro ys rest hg h hr
      rw [placeOf_succ] at h
      cases ht : (src s.top.doc)[j]? with
      | none => rw [ht] at h; exact ih ys rest hg h hr
      | some t =>
        rw [ht] at h
        simp only [visit, visitWith, Option.bind_eq_bind, Option.bind_eq_some_iff, Option.pure_def] at h
        obtain ⟨zs, hz, h⟩ := h
        have hrest := ih zs rest hg hz hr
        have hv := valid_seen src s j t ht
        have hp := preceding_eq cfg depth s (placeOf src s j) zs rest (visit_mono cfg 0 depth hk _ _ _ hz) hr
        cases hs : seen j t with
        | incl f =>
          rw [hs] at h
          simp only at h
          cases hi : s.includeScope cfg f (some (placeOf src s j)) with
          | none =>
            rw [hi] at h
            simp only [Option.some.injEq] at h
            rw [← h]
            exact ⟨⟨.inl ⟨f, rfl⟩, fun _ _ e => by cases e⟩, hrest⟩
          | some s' =>
            rw [hi] at h
            simp only at h
            cases hd : s'.top.doc.dom with
            | none =>
              rw [hd] at h
              simp only [Option.some.injEq] at h
              rw [← h]
              exact ⟨⟨.inl ⟨f, rfl⟩, fun _ _ e => by cases e⟩, hrest⟩
            | some dom =>
              rw [hd] at h
              simp at h
        | assign name i =>
          rw [hs] at h
          simp only [Option.some.injEq] at h
          rw [← h]
          obtain rfl := seen_assign _ _ _ _ hs
          refine ⟨⟨hs ▸ hv, fun name' i' e => ?_⟩, hrest⟩
          simp only [Scope.Node.assign.injEq] at e
          rw [← e.2]
          exact ⟨hg, hp⟩
        | other i =>
          rw [hs] at h
          simp only [Option.some.injEq] at h
          rw [← h]
          exact ⟨⟨hs ▸ hv, fun _ _ e => by cases e⟩, hrest⟩
  | succ k ihk =>
    intro hk s j
    induction j with
    | zero =>
      intro ys rest _ h _
      simp only [placeOf, List.take_zero, List.reverse_nil, visit, visitWith, Option.some.injEq] at h
      rw [← h]; trivial
    | succ j ih =>
      intro ys rest hg h hr
      rw [placeOf_succ] at h
      cases ht : (src s.top.doc)[j]? with
      | none => rw [ht] at h; exact ih ys rest hg h hr
      | some t =>
        rw [ht] at h
        simp only [visit, visitWith, Option.bind_eq_bind, Option.bind_eq_some_iff, Option.pure_def] at h
        obtain ⟨zs, hz, h⟩ := h
        have hrest := ih zs rest hg hz hr
        have hv := valid_seen src s j t ht
        have hp := preceding_eq cfg depth s (placeOf src s j) zs rest (visit_mono cfg (k + 1) depth hk _ _ _ hz) hr
        cases hs : seen j t with
        | incl f =>
          rw [hs] at h
          simp only at h
          cases hi : s.includeScope cfg f (some (placeOf src s j)) with
          | none =>
            rw [hi] at h
            simp only [Option.some.injEq] at h
            rw [← h]
            exact ⟨⟨.inl ⟨f, rfl⟩, fun _ _ e => by cases e⟩, hrest⟩
          | some s' =>
            rw [hi] at h
            simp only at h
            cases hd : s'.top.doc.dom with
            | none =>
              rw [hd] at h
              simp only [Option.some.injEq] at h
              rw [← h]
              exact ⟨⟨.inl ⟨f, rfl⟩, fun _ _ e => by cases e⟩, hrest⟩
            | some dom =>
              rw [hd] at h
              simp only [Option.bind_eq_some_iff, Option.some.injEq] at h
              obtain ⟨inner, hin, h⟩ := h
              rw [← h]
              refine allFound_append cfg depth src _ _ _ ?_ hrest
              obtain ⟨hpar, hnode, u, -, hu⟩ := Scope.include_spec cfg s s' f _ hi
              have hdom := hsrc _ _ _ hu hd
              have hg' : Good src s'.top s'.parents := by
                rw [hpar, Scope.Scope.levels]
                unfold Good
                refine ⟨fun dom' hd' => hsrc _ _ _ hu hd', ?_⟩
                rw [hnode]
                exact ⟨hg, j, rfl⟩
              have hcont : cont cfg depth s' = some (zs ++ rest) := by
                unfold cont
                rw [hpar, hnode, Scope.Scope.levels]
                exact hp
              have hpl : dom.reverse = placeOf src s' (src s'.top.doc).length := by
                rw [hdom, placeOf, ← seenAll_length (src s'.top.doc) 0, List.take_length]
              rw [hpl] at hin
              exact ihk (by omega) s' _ inner (zs ++ rest) hg' hin hcont
        | assign name i =>
          rw [hs] at h
          simp only [Option.some.injEq] at h
          rw [← h]
          obtain rfl := seen_assign _ _ _ _ hs
          refine ⟨⟨hs ▸ hv, fun name' i' e => ?_⟩, hrest⟩
          simp only [Scope.Node.assign.injEq] at e
          rw [← e.2]
          exact ⟨hg, hp⟩
        | other i =>
          rw [hs] at h
          simp only [Option.some.injEq] at h
          rw [← h]
          exact ⟨⟨hs ▸ hv, fun _ _ e => by cases e⟩, hrest⟩

/-- What is yielded from a place. -/
theorem preceding_found (cfg : Config) (depth : ℕ) (src : Source) (hsrc : Sources cfg src) :
    ∀ (parents : List Level) (top : Level) (j : ℕ) (ys : List (Scope.Node × Scope)), Good src top parents →
      precedingNodes cfg depth top parents (placeOf src ⟨top, parents⟩ j) = some ys → AllFound cfg depth src ys [] := by
  intro parents
  induction parents with
  | nil =>
    intro top j ys hg h
    obtain ⟨here, rest, h1, h2, rfl⟩ := preceding_parts cfg depth ⟨top, []⟩ _ ys h
    have := visit_found cfg depth src hsrc depth (Nat.le_refl _) ⟨top, []⟩ j here rest hg h1 h2
    refine allFound_append cfg depth src here rest [] (by simpa using this) ?_
    simp only [cont, Option.some.injEq] at h2
    rw [← h2]; trivial
  | cons p ps ih =>
    intro top j ys hg h
    obtain ⟨here, rest, h1, h2, rfl⟩ := preceding_parts cfg depth ⟨top, p :: ps⟩ _ ys h
    have := visit_found cfg depth src hsrc depth (Nat.le_refl _) ⟨top, p :: ps⟩ j here rest hg h1 h2
    refine allFound_append cfg depth src here rest [] (by simpa using this) ?_
    unfold Good at hg
    cases hn : top.node with
    | none =>
      simp only [cont, hn, Option.some.injEq] at h2
      rw [← h2]; trivial
    | some pl =>
      simp only [cont, hn] at h2
      simp only [hn] at hg
      obtain ⟨-, hgp, j', rfl⟩ := hg
      exact ih p j' rest hgp h2

end Quickly.Files
