import Verif.DumpTree.Lemmas2

/-!
# Property C103: `dump()` shows the tree
-/

namespace Quickly.DumpTree

open Quickly.Node Quickly.Node.Spec Quickly.DumpTree.Spec

variable {α β : Type}

/-- C103: `node.dump(style=…)` prints one line for the node and each node below it, in document order: a column for every
ancestor below the node that was asked for, a branch, and the node's `repr`. -/
theorem C103_lines (t : Tree α) (repr : Tree α → Str) {style : Option Str} {bar gap branch lastBranch : Str}
    (hs : getStyle style = some (bar, gap, branch, lastBranch)) {p : Path} {n : Tree α} (hn : t.get? p = some n) :
    ∃ items, Lists false (fun m => NodeOf t m ∧ AboveOrSelf p m.1) items ∧
      dumpText t repr style p = some (text (items.map fun m =>
        (columns t bar gap branch lastBranch p (m.1.drop p.length)).flatten ++ repr m.2)) := by
  refine ⟨pre p n, pre_lists hn, ?_⟩
  simp only [dumpText, hs, hn]
  have h := dump_eq t (bar, gap, branch, lastBranch) repr p.length n p (Nat.le_refl _)
  rw [Nat.sub_self] at h
  rw [h]
  refine congrArg some (congrArg text (List.map_congr_left fun m hm => ?_))
  obtain ⟨r, hr⟩ := mem_pre_prefix hm
  have h2 := loop_columns t (bar, gap, branch, lastBranch) p r
  simp only at h2
  rw [line, hr, List.drop_left, ← h2]
  simp

/-- C103: every style there is (and None and the empty string, that mean the default one) can be used; another name is
KeyError. -/
theorem C103_styles (t : Tree α) (repr : Tree α → Str) (style : Option Str) {p : Path} {n : Tree α} (hn : t.get? p = some n) :
    (dumpText t repr style p).isSome ↔ style = none ∨ style = some [] ∨ ∃ s ∈ styles, style = some s.1 := by
  have key : ∀ (s : Str) (l : List (Str × Style)), (l.lookup s).isSome ↔ ∃ x ∈ l, s = x.1 := by
    intro s l
    rw [List.lookup_isSome_iff]
    simp
  have h1 : (dumpText t repr style p).isSome ↔ (getStyle style).isSome := by
    unfold dumpText
    rw [hn]
    cases getStyle style <;> simp
  rw [h1]
  unfold getStyle
  cases style with
  | none =>
    simp only [true_or, iff_true]
    decide +kernel
  | some s =>
    by_cases h : s = []
    · subst h
      simp only [if_true, true_or, or_true, iff_true]
      decide +kernel
    · simp only [if_neg h, key]
      simp [h]

/-- C103: the tree can be read back from what is printed. If two nodes print the same text in the same style, the trees below
them have the same shape, and show the same at every place. -/
theorem C103_readable {t : Tree α} {u : Tree β} {repr : Tree α → Str} {repr' : Tree β → Str} (hr : Plain repr) (hr' : Plain repr')
    {style : Option Str} {p q : Path} {n : Tree α} {m : Tree β} (hn : t.get? p = some n) (hm : u.get? q = some m)
    (hs : (getStyle style).isSome) (h : dumpText t repr style p = dumpText u repr' style q) : shown repr n = shown repr' m := by
  obtain ⟨d, hd⟩ := Option.isSome_iff_exists.1 hs
  obtain ⟨w, hw, he⟩ := style_even hd
  simp only [dumpText, hd, hn, hm, Option.some.injEq] at h
  have h1 := dump_decodes he hr t n p 0
  have h2 := dump_decodes he hr' u m q 0
  rw [text_inj (forall2_newline h1) (forall2_newline h2) h] at h1
  have h3 := forall2_unique hw h1 h2
  refine (flat_inj _ 0 _ [] [] ?_ ?_ (by simpa using h3)).1
  · intro x hx
    cases hx
  · intro x hx
    cases hx

/-! ## A concrete case -/

/-- A tree with a node in the middle that has children. -/
def sample : Tree Str :=
  .node "<Document>".toList
    [.node "<Header>".toList [.node "<Title>".toList [], .node "<Composer>".toList []], .node "<Music>".toList [.node "<Note>".toList []]]

example : (dumpText sample Tree.val none []).map String.ofList = some
    "<Document>\n ├╴<Header>\n │  ├╴<Title>\n │  ╰╴<Composer>\n ╰╴<Music>\n    ╰╴<Note>\n" := by
  decide +kernel

example : (dumpText sample Tree.val (some "ascii".toList) [0]).map String.ofList = some
    "<Header>\n |-<Title>\n `-<Composer>\n" := by
  decide +kernel

example : Last sample [1, 0] ∧ ¬ Last sample [0] := by
  refine ⟨⟨[1], 0, .node "<Music>".toList [.node "<Note>".toList []], rfl, rfl, rfl⟩, ?_⟩
  rintro ⟨q, i, u, h1, h2, h3⟩
  rcases q with _ | ⟨a, q⟩
  · obtain rfl : 0 = i := by simpa using h1
    simp only [Tree.get?, Option.some.injEq] at h2
    subst h2
    exact absurd h3 (by decide)
  · simp at h1

/-- A `repr` that shows nodes in one line that begins with `<` can be had for all values. -/
example : Plain (fun n : Tree Bool => if n.val then "<Note>".toList else "<Rest>".toList) := by
  intro v
  cases h : v.val <;> simp [h]

end Quickly.DumpTree
