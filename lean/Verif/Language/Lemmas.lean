import Verif.Language.Spec
import Verif.Query.Props

namespace Quickly.Language

open Quickly.Pitch Quickly.Node Quickly.Node.Spec Quickly.Query Spec

theorem stem_some (f l : Str) : stem f = some l ↔ f = l ++ ".ly".toList := by
  unfold stem
  constructor
  · intro h
    split at h
    · rename_i hs
      obtain ⟨a, ha⟩ := List.isSuffixOf_iff_suffix.1 hs
      simp only [Option.some.injEq] at h
      subst h
      rw [← ha]
      simp
    · cases h
  · rintro rfl
    have : ".ly".toList.isSuffixOf (l ++ ".ly".toList) = true :=
      List.isSuffixOf_iff_suffix.2 (List.suffix_append _ _)
    rw [if_pos this]
    simp

theorem knows_iff (pn : Names) (l : Str) : knows pn l = true ↔ ∃ t, pn.get l = some t := by
  simp [knows, Option.isSome_iff_exists]

/-- A language is set exactly when the node selects one. -/
theorem sets_some (pn : Names) (n : Nd) (l : Str) : sets pn n = .ok (some l) ↔ Chooses pn n l := by
  unfold sets Chooses
  rw [← knows_iff]
  cases n with
  | language s =>
    rcases s with _ | (_ | ⟨c, s⟩)
    · simp [Nd.lang]
    · simp [Nd.lang]; rintro h - rfl; exact h rfl
    · simp only [Nd.lang]
      by_cases hk : knows pn (c :: s) = true
      · simp [hk]
        constructor
        · rintro rfl; simp [hk]
        · rintro ⟨-, -, h⟩; exact h
      · simp [hk]
        rintro h h' rfl; exact hk h'
  | incl s =>
    rcases s with _ | f
    · simp [Nd.lang]
    · simp only [Nd.lang]
      rcases hs : stem f with _ | l'
      · simp only [reduceCtorEq, Except.ok.injEq, false_iff, Option.some.injEq, Nd.incl.injEq, false_or, not_and]
        intro _ _ h
        have := (stem_some f l).2 h
        rw [hs] at this; cases this
      · have hf := (stem_some f l').1 hs
        have key : f = l ++ ".ly".toList ↔ l' = l := by
          rw [hf]
          constructor
          · intro h; exact List.append_cancel_right h
          · rintro rfl; rfl
        by_cases hk : knows pn l' = true
        · rcases l' with _ | ⟨c, l'⟩
          · simp only [hk, if_true, Except.ok.injEq, reduceCtorEq, Option.some.injEq, Nd.incl.injEq, false_or, key, false_iff]
            rintro ⟨h, -, h'⟩; exact h h'.symm
          · simp only [hk, if_true, Except.ok.injEq, Option.some.injEq, Nd.incl.injEq, reduceCtorEq, false_or, key]
            constructor
            · rintro rfl; simp [hk]
            · rintro ⟨-, -, h⟩; exact h
        · simp only [hk, Except.ok.injEq, Option.some.injEq, Nd.incl.injEq, reduceCtorEq, false_or, key]
          simp
          rintro h h' rfl; exact hk h'
  | other i => simp [Nd.lang]

theorem sets_total (pn : Names) (t : Node.Tree Nd) (hv : Valid pn t) (m : Item Nd) (hm : NodeOf t m) :
    ∃ r, sets pn m.2.val = .ok r := by
  obtain ⟨h1, h2⟩ := hv m hm
  unfold sets
  rcases hval : m.2.val with s | s | i
  · rcases s with _ | (_ | ⟨c, s⟩)
    · simp [Nd.lang]
    · simp [Nd.lang]
    · have := (knows_iff pn (c :: s)).2 (h2 (c :: s) hval (by simp))
      simp [Nd.lang, this]
  · rcases s with _ | f
    · exact absurd hval h1
    · simp only [Nd.lang]
      rcases stem f with _ | (_ | ⟨c, l⟩)
      · simp
      · by_cases hk : knows pn [] = true <;> simp [hk]
      · by_cases hk : knows pn (c :: l) = true <;> simp [hk]
  · simp [Nd.lang]

theorem docBefore_irrefl (p : Path) : ¬ DocBefore p p := by
  intro h
  exact List.lt_irrefl p ((lt_iff_docBefore p p).2 h)

theorem docBefore_trans {p q r : Path} (h : DocBefore p q) (k : DocBefore q r) : DocBefore p r :=
  (lt_iff_docBefore _ _).1 (List.lt_trans ((lt_iff_docBefore _ _).2 h) ((lt_iff_docBefore _ _).2 k))

/-- There is one language at a place. -/
theorem at_unique (pn : Names) (t : Node.Tree Nd) (l0 : Str) (p : Path) (l l' : Str) (h : At pn t l0 p l)
    (h' : At pn t l0 p l') : l = l' := by
  rcases h with ⟨m, a1, a2, a3, a4⟩ | ⟨rfl, a⟩ <;> rcases h' with ⟨m', b1, b2, b3, b4⟩ | ⟨rfl, b⟩
  · have e : m'.1 = m.1 := by
      rcases a4 m' l' b1 b2 b3 with h | h
      · exact h
      · rcases b4 m l a1 a2 a3 with h'' | h''
        · exact h''.symm
        · exact absurd (docBefore_trans h h'') (docBefore_irrefl _)
    have e2 : m'.2 = m.2 := by
      have : t.get? m'.1 = some m'.2 := b1
      rw [e, show t.get? m.1 = some m.2 from a1] at this
      exact (Option.some.inj this).symm
    rw [e2] at b3
    have := (sets_some pn _ l).2 a3
    rw [(sets_some pn _ l').2 b3] at this
    simpa using this.symm
  · exact absurd a3 (b m l a1 a2)
  · exact absurd b3 (a m' l' b1 b2)
  · rfl

theorem findLoop_ok (pn : Names) (cur l : Str) (ns : List Nd) :
    findLoop pn cur ns = .ok l ↔
      (∃ a n b, ns = a ++ n :: b ∧ (∀ x ∈ a, sets pn x = .ok none) ∧ sets pn n = .ok (some l)) ∨
      ((∀ x ∈ ns, sets pn x = .ok none) ∧ l = cur) := by
  induction ns with
  | nil => simp [findLoop, eq_comm]
  | cons n ns ih =>
    simp only [findLoop]
    rcases h : sets pn n with e | (_ | l')
    · simp only [reduceCtorEq, false_iff, not_or, not_exists, not_and]
      constructor
      · intro a m b hab ha hm
        cases a with
        | nil => simp at hab; rw [hab.1] at h; simp [h] at hm
        | cons x a => simp at hab; have := ha x (by simp); rw [← hab.1, h] at this; simp at this
      · intro hx; have := hx n (by simp); rw [h] at this; simp at this
    · simp only [ih]
      constructor
      · rintro (⟨a, m, b, rfl, ha, hm⟩ | ⟨ha, rfl⟩)
        · exact .inl ⟨n :: a, m, b, rfl, by simpa [h] using ha, hm⟩
        · exact .inr ⟨by simpa [h] using ha, rfl⟩
      · rintro (⟨a, m, b, hab, ha, hm⟩ | ⟨ha, rfl⟩)
        · cases a with
          | nil => simp at hab; rw [hab.1] at h; simp [h] at hm
          | cons x a =>
            simp at hab
            exact .inl ⟨a, m, b, hab.2, fun y hy => ha y (by simp [hy]), hm⟩
        · exact .inr ⟨fun y hy => ha y (by simp [hy]), rfl⟩
    · simp only [Except.ok.injEq]
      constructor
      · rintro rfl; exact .inl ⟨[], n, ns, rfl, by simp, h⟩
      · rintro (⟨a, m, b, hab, ha, hm⟩ | ⟨ha, rfl⟩)
        · cases a with
          | nil => simp at hab; rw [← hab.1, h] at hm; simpa using hm
          | cons x a => simp at hab; have := ha x (by simp); rw [← hab.1, h] at this; simp at this
        · have := ha n (by simp); rw [h] at this; simp at this

/-- The language after some nodes. -/
def after (pn : Names) (cur : Str) : List (Item Nd) → Str
  | [] => cur
  | n :: ns =>
    match sets pn n.2.val with
    | .ok (some l) => after pn l ns
    | _ => after pn cur ns

theorem follow_mem (pn : Names) (cur : Str) (ns : List (Item Nd)) (h : ∀ n ∈ ns, ∃ r, sets pn n.2.val = .ok r)
    (m : Item Nd) (l : Str) :
    (m, l) ∈ (follow pn cur ns).1 ↔ ∃ a b, ns = a ++ m :: b ∧ sets pn m.2.val = .ok none ∧ l = after pn cur a := by
  induction ns generalizing cur with
  | nil => simp [follow]
  | cons n ns ih =>
    have ih' := fun cur => ih cur (fun x hx => h x (by simp [hx]))
    obtain ⟨r, hr⟩ := h n (by simp)
    rcases r with _ | l'
    · simp only [follow, hr, List.mem_cons, Prod.mk.injEq, ih']
      constructor
      · rintro (⟨rfl, rfl⟩ | ⟨a, b, rfl, h1, h2⟩)
        · exact ⟨[], ns, rfl, hr, rfl⟩
        · exact ⟨n :: a, b, rfl, h1, by simpa [after, hr] using h2⟩
      · rintro ⟨a, b, hab, h1, h2⟩
        cases a with
        | nil => simp at hab; exact .inl ⟨hab.1.symm, by simpa [after] using h2⟩
        | cons x a =>
          simp at hab
          obtain ⟨rfl, rfl⟩ := hab
          exact .inr ⟨a, b, rfl, h1, by simpa [after, hr] using h2⟩
    · simp only [follow, hr, ih']
      constructor
      · rintro ⟨a, b, rfl, h1, h2⟩
        exact ⟨n :: a, b, rfl, h1, by simpa [after, hr] using h2⟩
      · rintro ⟨a, b, hab, h1, h2⟩
        cases a with
        | nil => simp at hab; rw [hab.1] at hr; rw [hr] at h1; simp at h1
        | cons x a =>
          simp at hab
          obtain ⟨rfl, rfl⟩ := hab
          exact ⟨a, b, rfl, h1, by simpa [after, hr] using h2⟩

theorem follow_nodes (pn : Names) (cur : Str) (ns : List (Item Nd)) (h : ∀ n ∈ ns, ∃ r, sets pn n.2.val = .ok r) :
    (follow pn cur ns).1.map Prod.fst = ns.filter (fun n => decide (sets pn n.2.val = .ok none)) ∧
    (follow pn cur ns).2 = .ok (after pn cur ns) := by
  induction ns generalizing cur with
  | nil => simp [follow, after]
  | cons n ns ih =>
    have ih' := fun cur => ih cur (fun x hx => h x (by simp [hx]))
    obtain ⟨r, hr⟩ := h n (by simp)
    rcases r with _ | l' <;> simp [follow, after, hr, ih']

theorem after_eq (pn : Names) (cur : Str) (ns : List (Item Nd)) :
    (∃ a m b l, ns = a ++ m :: b ∧ sets pn m.2.val = .ok (some l) ∧ (∀ x ∈ b, ∀ l', sets pn x.2.val ≠ .ok (some l')) ∧
      after pn cur ns = l) ∨
    ((∀ x ∈ ns, ∀ l', sets pn x.2.val ≠ .ok (some l')) ∧ after pn cur ns = cur) := by
  induction ns generalizing cur with
  | nil => simp [after]
  | cons n ns ih =>
    by_cases hn : ∃ l, sets pn n.2.val = .ok (some l)
    · obtain ⟨l, hl⟩ := hn
      rcases ih l with ⟨a, m, b, l', rfl, h1, h2, h3⟩ | ⟨h1, h2⟩
      · exact .inl ⟨n :: a, m, b, l', rfl, h1, h2, by simpa [after, hl] using h3⟩
      · exact .inl ⟨[], n, ns, l, rfl, hl, h1, by simpa [after, hl] using h2⟩
    · have e : after pn cur (n :: ns) = after pn cur ns := by
        simp only [after]
        rcases hs : sets pn n.2.val with _ | (_ | l) <;> simp
        exact absurd ⟨l, hs⟩ hn
      rw [e]
      rcases ih cur with ⟨a, m, b, l', rfl, h1, h2, h3⟩ | ⟨h1, h2⟩
      · exact .inl ⟨n :: a, m, b, l', rfl, h1, h2, h3⟩
      · refine .inr ⟨?_, h2⟩
        intro x hx
        rcases List.mem_cons.1 hx with rfl | hx
        · intro l' hl'; exact hn ⟨l', hl'⟩
        · exact h1 x hx

end Quickly.Language
