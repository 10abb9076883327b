import Verif.Scheme.Lemmas

/-! # The text of Scheme elements, and reading it -/

namespace Quickly.Scheme

open Quickly.Text Quickly.Text.Spec

/-! ## The text -/

/-- The text of fragments without space before them, and with text. -/
def run : List Frag → Str
  | [] => []
  | [f] => f.text
  | f :: g :: fs => f.text ++ f.after ++ run (g :: fs)

theorem collapse_after (s : Str) (h : s = [] ∨ s = [' ']) : collapse [s, []] = s := by
  rcases h with rfl | rfl <;> decide

theorem layout_run (fs : List Frag) (h : ∀ f ∈ fs, f.text ≠ [] ∧ f.before = [] ∧ (f.after = [] ∨ f.after = [' '])) :
    Text.Spec.join (Text.Spec.layout fs).2 = run fs ∧
    (fs ≠ [] → (Text.Spec.layout fs).1 = [[]] ∧ (Text.Spec.layout fs).2 ≠ [] ∧
      lastWishes (Text.Spec.layout fs).2 = (fs.getLast?.map fun f => [f.after]).getD []) := by
  induction fs with
  | nil => simp [Text.Spec.layout, Text.Spec.join, run]
  | cons f fs ih =>
    obtain ⟨h1, h2, h3⟩ := h f (by simp)
    have ih := ih fun g hg => h g (by simp [hg])
    simp only [Text.Spec.layout, if_neg h1, h2]
    cases fs with
    | nil => simp [Text.Spec.layout, Text.Spec.join, run, lastWishes]
    | cons g fs =>
      obtain ⟨ih1, ih2⟩ := ih
      obtain ⟨i1, i2, i3⟩ := ih2 (by simp)
      refine ⟨?_, fun _ => ⟨trivial, by simp, ?_⟩⟩
      · cases hl : (Text.Spec.layout (g :: fs)).2 with
        | nil => exact absurd hl i2
        | cons u us =>
          rw [hl] at ih1
          obtain ⟨a, b⟩ := u
          simp only [Text.Spec.join, i1, run, collapse_after f.after h3]
          rw [← ih1]
      · cases hl : (Text.Spec.layout (g :: fs)).2 with
        | nil => exact absurd hl i2
        | cons u us =>
          rw [hl] at i3
          simp only [lastWishes, List.getLast?_cons_cons]
          exact i3

theorem combine_run (fs : List Frag) (hne : fs ≠ [])
    (h : ∀ f ∈ fs, f.text ≠ [] ∧ f.before = [] ∧ (f.after = [] ∨ f.after = [' '])) (hl : fs.getLast?.map Frag.after = some []) :
    combine fs = ⟨[], run fs, []⟩ := by
  obtain ⟨h1, h2⟩ := layout_run fs h
  obtain ⟨i1, i2, i3⟩ := h2 hne
  rw [combine_eq, h1, if_neg i2, if_neg i2, i1, i3]
  cases hg : fs.getLast? with
  | none => rw [hg] at hl; simp at hl
  | some f =>
    rw [hg] at hl
    simp only [Option.map_some, Option.some.injEq] at hl
    simp [hl, collapse, pyMax]

/-- The text of a tree of elements. -/
def tx : Node.Tree El → Str
  | .node e cs => match e with
    | .list => ['('] ++ spaced cs ++ [')']
    | e => e.head.toOption.getD [] ++ tight cs
where
  /-- With spaces between. -/
  spaced : List (Node.Tree El) → Str
    | [] => []
    | c :: cs => tx c ++ (if cs = [] then [] else ' ' :: spaced cs)
  /-- Without. -/
  tight : List (Node.Tree El) → Str
    | [] => []
    | c :: cs => tx c ++ tight cs

/-- All heads have text. -/
def Heads : Node.Tree El → Prop
  | .node e cs => e.head.toOption.getD [] ≠ [] ∧ go cs
where
  /-- Of these. -/
  go : List (Node.Tree El) → Prop
    | [] => True
    | c :: cs => Heads c ∧ go cs

theorem elem_sp (e : El) : e.elem.sp.before = [] ∧ e.elem.sp.afterHead = [] ∧ e.elem.sp.beforeTail = [] ∧ e.elem.sp.after = [] ∧
    (e.elem.sp.between = [] ∨ e.elem.sp.between = [' ']) := by
  cases e <;> simp [El.elem]

theorem plain_toText (t : Node.Tree El) : allPlain defaultConcat (toText t) := by
  intro w h
  have key : ∀ u w, Wish defaultConcat u w → ∀ t, u = toText t → Plain w := by
    intro u w h
    have p0 : Plain ([] : Str) := by simp [Plain]
    have p1 : Plain [' '] := by simp [Plain]
    induction h with
    | before =>
      rintro ⟨e', cs'⟩ hu
      simp only [toText, Node.Tree.node.injEq] at hu
      rw [hu.1, (elem_sp e').1]; exact p0
    | afterHead =>
      rintro ⟨e', cs'⟩ hu
      simp only [toText, Node.Tree.node.injEq] at hu
      rw [hu.1, (elem_sp e').2.1]; exact p0
    | beforeTail =>
      rintro ⟨e', cs'⟩ hu
      simp only [toText, Node.Tree.node.injEq] at hu
      rw [hu.1, (elem_sp e').2.2.1]; exact p0
    | after =>
      rintro ⟨e', cs'⟩ hu
      simp only [toText, Node.Tree.node.injEq] at hu
      rw [hu.1, (elem_sp e').2.2.2.1]; exact p0
    | between =>
      rintro ⟨e', cs'⟩ hu
      simp only [toText, Node.Tree.node.injEq] at hu
      unfold defaultConcat
      rw [hu.1]
      rcases (elem_sp e').2.2.2.2 with h | h <;> rw [h]
      · exact p0
      · exact p1
    | child hc _ ih =>
      rename_i e cs c w _
      rintro ⟨e', cs'⟩ hu
      simp only [toText, Node.Tree.node.injEq] at hu
      have : ∀ cs', c ∈ toText.go cs' → ∃ c', c = toText c' := by
        intro cs'
        induction cs' with
        | nil => simp [toText.go]
        | cons d cs' ih =>
          simp only [toText.go, List.mem_cons]
          rintro (h | h)
          · exact ⟨d, h⟩
          · exact ih h
      obtain ⟨c', hc'⟩ := this cs' (hu.2 ▸ hc)
      exact ih c' hc'
  exact key _ w h t rfl

theorem hasPoint_toText (t : Node.Tree El) : hasPoint (toText t) = true := by
  obtain ⟨e, cs⟩ := t
  unfold toText hasPoint
  cases e <;> simp [El.elem]

theorem headFrag_elem (e : El) (n : ℕ) : headFrag e.elem n = [⟨[], e.elem.head, []⟩] := by
  obtain ⟨h1, h2, -, h4, -⟩ := elem_sp e
  unfold headFrag
  have : e.elem.kind ≠ .plain := by cases e <;> simp [El.elem]
  rw [if_neg this, h1, h2, h4]
  split_ifs <;> rfl

theorem elem_head (e : El) : e.elem.head = e.head.toOption.getD [] := by
  cases e <;> simp [El.elem, El.head, Except.toOption]

/-- The fragments of the children, when these have just their text. -/
def kidFrags (sep : Str) : List (Node.Tree El) → List Frag
  | [] => []
  | c :: cs => ⟨[], tx c, if cs = [] then [] else sep⟩ :: kidFrags sep cs

theorem childFrags_eq' (e : El) (cs : List (Node.Tree El))
    (ih : ∀ c ∈ cs, out defaultConcat (toText c) = ⟨[], tx c, []⟩) :
    childFrags defaultConcat (out defaultConcat) e.elem (toText.go cs) = kidFrags e.elem.sp.between cs := by
  obtain ⟨h1, h2, h3, h4, h5⟩ := elem_sp e
  induction cs with
  | nil => rfl
  | cons c cs ihc =>
    have hc := ih c (by simp)
    have := ihc fun d hd => ih d (by simp [hd])
    have hcol : collapse [[], e.elem.sp.between] = e.elem.sp.between := by
      rcases h5 with h | h <;> rw [h] <;> decide
    simp only [toText.go, childFrags, hasPoint_toText, if_true, this, kidFrags]
    cases cs with
    | nil =>
      simp only [toText.go, hc, h4, if_true, List.singleton_append, List.cons.injEq, and_true]
      split_ifs <;> simp [collapse, pyMax]
    | cons d cs =>
      simp only [toText.go, hc, defaultConcat, hcol, List.cons_ne_nil, if_false, List.singleton_append]

theorem kidFrags_ok (sep : Str) (hs : sep = [] ∨ sep = [' ']) (cs : List (Node.Tree El)) (h : ∀ c ∈ cs, tx c ≠ []) :
    (∀ f ∈ kidFrags sep cs, f.text ≠ [] ∧ f.before = [] ∧ (f.after = [] ∨ f.after = [' '])) ∧
    (cs ≠ [] → (kidFrags sep cs).getLast?.map Frag.after = some []) := by
  induction cs with
  | nil => simp [kidFrags]
  | cons c cs ih =>
    obtain ⟨i1, i2⟩ := ih fun d hd => h d (by simp [hd])
    refine ⟨?_, fun _ => ?_⟩
    · intro f hf
      simp only [kidFrags, List.mem_cons] at hf
      rcases hf with rfl | hf
      · refine ⟨h c (by simp), rfl, ?_⟩
        simp only
        split_ifs
        · exact .inl rfl
        · exact hs
      · exact i1 f hf
    · cases cs with
      | nil => simp [kidFrags]
      | cons d cs =>
        have := i2 (by simp)
        simp only [kidFrags, List.getLast?_cons_cons] at this ⊢
        exact this

theorem run_append (fs : List Frag) (g : Frag) (hl : fs ≠ [] → fs.getLast?.map Frag.after = some []) :
    run (fs ++ [g]) = run fs ++ g.text := by
  induction fs with
  | nil => rfl
  | cons f fs ih =>
    cases fs with
    | nil =>
      simp at hl
      simp [run, hl]
    | cons f' fs =>
      have := ih (fun _ => by simpa using hl (by simp))
      simp only [List.cons_append, run, List.append_assoc] at this ⊢
      rw [this]

theorem run_kids (cs : List (Node.Tree El)) :
    run (kidFrags [' '] cs) = tx.spaced cs ∧ run (kidFrags [] cs) = tx.tight cs := by
  induction cs with
  | nil => exact ⟨rfl, rfl⟩
  | cons c cs ih =>
    cases cs with
    | nil => simp [kidFrags, run, tx.spaced, tx.tight]
    | cons d cs =>
      obtain ⟨i1, i2⟩ := ih
      simp only [kidFrags, tx.spaced, tx.tight, run, List.cons_ne_nil, if_false] at i1 i2 ⊢
      rw [i1, i2]
      simp

theorem tx_ne (t : Node.Tree El) (h : Heads t) : tx t ≠ [] := by
  obtain ⟨e, cs⟩ := t
  simp only [Heads] at h
  cases e <;> simp [tx] <;> intro hh <;> exact absurd hh h.1

theorem out_toText (t : Node.Tree El) (h : Heads t) : out defaultConcat (toText t) = ⟨[], tx t, []⟩ := by
  match t, h with
  | .node e cs, h =>
    have hgo : ∀ cs, Heads.go cs → ∀ c ∈ cs, Heads c := by
      intro cs
      induction cs with
      | nil => simp
      | cons d cs ih =>
        rintro ⟨h1, h2⟩ c hc
        rcases List.mem_cons.1 hc with rfl | hc
        · exact h1
        · exact ih h2 c hc
    simp only [Heads] at h
    have hk := hgo cs h.2
    have ih : ∀ c ∈ cs, out defaultConcat (toText c) = ⟨[], tx c, []⟩ := fun c hc => out_toText c (hk c hc)
    have hp := plain_toText (.node e cs)
    rw [toText] at hp ⊢
    rw [C37_compositional _ _ _ hp, headFrag_elem, childFrags_eq' e cs ih, elem_head]
    have hsep := (elem_sp e).2.2.2.2
    obtain ⟨k1, k2⟩ := kidFrags_ok e.elem.sp.between hsep cs (fun c hc => tx_ne c (hk c hc))
    have hrun : ∀ h : Str, run (⟨[], h, []⟩ :: kidFrags e.elem.sp.between cs) = h ++ run (kidFrags e.elem.sp.between cs) := by
      intro h
      cases hf : kidFrags e.elem.sp.between cs with
      | nil => simp [run]
      | cons a b => simp [run]
    have hlast : (⟨[], e.head.toOption.getD [], []⟩ :: kidFrags e.elem.sp.between cs : List Frag).getLast?.map Frag.after
        = some [] := by
      cases cs with
      | nil => simp [kidFrags]
      | cons c cs =>
        have := k2 (by simp)
        simp only [kidFrags, List.getLast?_cons_cons] at this ⊢
        exact this
    have hall : ∀ f ∈ (⟨[], e.head.toOption.getD [], []⟩ :: kidFrags e.elem.sp.between cs : List Frag),
        f.text ≠ [] ∧ f.before = [] ∧ (f.after = [] ∨ f.after = [' ']) := by
      intro f hf
      rcases List.mem_cons.1 hf with rfl | hf
      · exact ⟨h.1, rfl, .inl rfl⟩
      · exact k1 f hf
    by_cases he : e = .list
    · subst he
      have ht : tailFrag El.list.elem = [⟨[], [')'], []⟩] := rfl
      rw [ht, combine_run]
      · congr 1
        rw [List.singleton_append, run_append _ _ (fun _ => hlast), hrun]
        have := (run_kids cs).1
        simp only [El.elem] at this ⊢
        rw [this]
        simp [tx, El.head, Except.toOption]
      · simp
      · intro f hf
        simp only [List.singleton_append, List.mem_append, List.mem_singleton] at hf
        rcases hf with hf | rfl
        · exact hall f hf
        · exact ⟨by simp, rfl, .inl rfl⟩
      · rw [List.getLast?_concat]; rfl
    · have ht : tailFrag e.elem = [] := by cases e <;> simp [El.elem, tailFrag] at he ⊢
      have hb : e.elem.sp.between = [] := by cases e <;> simp [El.elem] at he ⊢
      rw [ht, List.append_nil, List.singleton_append, combine_run _ (by simp) hall hlast, hrun, hb, (run_kids cs).2]
      congr 1
      cases e <;> simp [tx] at he ⊢
termination_by sizeOf t
decreasing_by
  simp_wf
  have := List.sizeOf_lt_of_mem hc
  omega

theorem write_tx (t : Node.Tree El) (h : Heads t) : Scheme.write t = tx t := by
  unfold Scheme.write
  rw [write_eq, out_toText t h]

end Quickly.Scheme
