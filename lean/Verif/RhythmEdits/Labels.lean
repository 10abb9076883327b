import Verif.RhythmEdits.Props
import Verif.Rhythm.Props

/-!
# Documents as music with durations

`Verif.Rhythm` (C47, C48, C49, C57, C58) has the duration of a node as a field.  Here the nodes of a document are mapped to
these labels, and the edits of the nodes are shown to be those of the labels.
-/

namespace Quickly.RhythmEdits

open Quickly.Node Quickly.Signature Quickly.Length Quickly.RhythmTime Quickly.RhythmTime.Spec Spec
open Quickly.Rhythm (Mus)

/-- What has to be visible of a LyricItem without a duration, `quickly/dom/lily.py` L1826-1828. -/
def visible (n : Nd) : Bool := n.children.any fun c => isAny c [.Scheme, .String, .Symbol, .Markup]

/-- The type of a node. -/
def kindOf (n : Nd) : Rhythm.Kind :=
  if n.val.1 = .Unpitched then .unpitched
  else if n.val.1 = .Skip then .skip
  else if n.val.1 = .LyricItem then .lyricItem (visible n)
  else if n.val.1 ∈ sounding then .sounding
  else if n.val.1 = .Tempo then .tempo
  else if n.val.1 ∈ timed then .timed
  else .other

/-- What `Verif.Rhythm` knows of a node; its identity is its number among the nodes that can have a duration. -/
def label (i : ℕ) (n : Nd) : Rhythm.Label := ⟨i, kindOf n, n.children.any (isA .Articulations), durationScaling n⟩

mutual
/-- A node for `Verif.Rhythm`; `i` is the number of nodes before it that can have a duration. -/
def labels (i : ℕ) : Nd → Mus
  | .node l cs => .node (label i (.node l cs)) (labelsL (if l.1 ∈ timed then i + 1 else i) cs)
/-- Nodes for `Verif.Rhythm`: Durations are left out. -/
def labelsL (i : ℕ) : List Nd → List Mus
  | [] => []
  | c :: cs => if c.val.1 = .Duration then labelsL i cs else labels i c :: labelsL (i + (owned c).length) cs
end

/-! ## Classes -/

theorem unpitched_cls : ∀ c : Cls, isSub 5 c .Unpitched = decide (c = .Unpitched) := by
  intro c; cases c <;> decide +kernel

theorem lyricItem_cls : ∀ c : Cls, isSub 5 c .LyricItem = decide (c = .LyricItem) := by
  intro c; cases c <;> decide +kernel

theorem durable_cls : ∀ c : Cls, isSub 5 c .Durable = decide (c = .Skip ∨ c ∈ sounding) := by
  intro c; cases c <;> decide +kernel

theorem duration_other : isSub 5 .Duration .Articulations = false ∧ isSub 5 .Duration .Scheme = false ∧
    isSub 5 .Duration .String = false ∧ isSub 5 .Duration .Symbol = false ∧ isSub 5 .Duration .Markup = false := by
  decide +kernel

theorem kind_durable (n : Nd) : (kindOf n).durable = isA .Durable n := by
  rw [isA, durable_cls, kindOf]
  generalize n.val.1 = c
  have h1 : Cls.Unpitched ∈ sounding := by decide
  have h2 : Cls.LyricItem ∈ sounding := by decide
  split
  · rename_i h; subst h; simp [Rhythm.Kind.durable, h1]
  split
  · rename_i h; subst h; simp [Rhythm.Kind.durable]
  split
  · rename_i h; subst h; simp [Rhythm.Kind.durable, h2]
  split
  · rename_i h; simp [Rhythm.Kind.durable, h]
  split
  · rename_i h1 h2 h; subst h; decide
  split
  · simp [Rhythm.Kind.durable, *]
  · simp [Rhythm.Kind.durable, *]

theorem kind_sets (n : Nd) : (kindOf n).sets = setsPrevious n := by
  rw [sets_iff, kindOf]
  generalize n.val.1 = c
  split
  · rename_i h; subst h; decide
  split
  · rename_i h; subst h; decide
  split
  · rename_i h; subst h; simp [Rhythm.Kind.sets]; decide
  split
  · rename_i h; simp [Rhythm.Kind.sets, h]
  split
  · rename_i h1 h2 h; subst h; decide
  split
  · simp [Rhythm.Kind.sets, *]
  · simp [Rhythm.Kind.sets, *]

theorem kind_handles (n : Nd) : (kindOf n).handles = decide (n.val.1 ∈ timed) := by
  rw [kindOf]
  generalize n.val.1 = c
  split
  · rename_i h; subst h; decide
  split
  · rename_i h; subst h; decide
  split
  · rename_i h; subst h; simp [Rhythm.Kind.handles]; decide
  split
  · rename_i h; simp [Rhythm.Kind.handles, h, timed]
  split
  · rename_i h1 h2 h; subst h; decide
  split
  · simp [Rhythm.Kind.handles, *]
  · simp [Rhythm.Kind.handles, *]

theorem kind_tempo (n : Nd) : decide (kindOf n = .tempo) = isA .Tempo n := by
  rw [isA, tempo_cls, kindOf]
  generalize n.val.1 = c
  split
  · rename_i h; subst h; decide
  split
  · rename_i h; subst h; decide
  split
  · rename_i h; subst h; simp
  split
  · rename_i h; have : c ≠ .Tempo := fun e => tempo_not (e ▸ h)
    simp [this]
  split
  · rename_i h; simp [h]
  split
  · simp [*]
  · simp [*]

theorem kind_skip (n : Nd) : decide (kindOf n = .skip) = isA .Skip n := by
  rw [isA, skip_cls, kindOf]
  generalize n.val.1 = c
  split
  · rename_i h; subst h; decide
  split
  · rename_i h; simp [h]
  split
  · rename_i h; subst h; simp
  split
  · simp [*]
  split
  · simp [*]
  split
  · simp [*]
  · simp [*]

theorem kind_required (n : Nd) : (kindOf n).required = required n := by
  rw [required, isA, isA, isA, unpitched_cls, skip_cls, lyricItem_cls, kindOf]
  rw [show (n.children.any fun c => isAny c [.Scheme, .String, .Symbol, .Markup]) = visible n from rfl]
  generalize n.val.1 = c
  split
  · rename_i h; subst h; rfl
  split
  · rename_i h; subst h; rfl
  split
  · rename_i h; subst h; simp [Rhythm.Kind.required]
  split
  · simp [Rhythm.Kind.required, *]
  split
  · simp [Rhythm.Kind.required, *]
  split
  · simp [Rhythm.Kind.required, *]
  · simp [Rhythm.Kind.required, *]

theorem kind_mayRemove (i : ℕ) (n : Nd) (right : Option Nd) :
    Rhythm.mayRemove (label i n) (right.map kindOf) = mayRemove n right := by
  unfold Rhythm.mayRemove mayRemove
  simp only [label, kind_required]
  by_cases hr : required n = true
  · simp only [hr, if_true]
  by_cases ha : n.children.any (isA .Articulations) = true
  · simp only [hr, ha, if_true]
  simp only [hr, ha, if_false]
  rcases right with _ | r
  · rfl
  simp only [Option.map_some]
  rw [← kind_required r, isA, isA, unpitched_cls, lyricItem_cls]
  by_cases h1 : r.val.1 = .Unpitched
  · simp [kindOf, h1]
  by_cases h3 : r.val.1 = .LyricItem
  · have : kindOf r = .lyricItem (visible r) := by simp [kindOf, h3]
    rw [this]
    simp [h3, Rhythm.Kind.required]
  · simp only [h1, h3, decide_false, Bool.false_and, Bool.false_eq_true, if_false]
    rw [kindOf]
    simp only [h1, h3, if_false]
    split_ifs <;> rfl

theorem scaling_isNone (n : Nd) : (durationScaling n).isNone = !n.children.any (isA .Duration) := by
  unfold durationScaling
  rw [Option.isNone_map]
  cases h : n.children.find? (isA .Duration) with
  | none =>
    rw [List.find?_eq_none] at h
    simp only [Option.isNone_none]
    symm
    rw [Bool.not_eq_true', List.any_eq_false]
    exact h
  | some d =>
    have h1 := List.mem_of_find?_eq_some h
    have h2 := List.find?_some h
    simp only [Option.isNone_some]
    symm
    rw [Bool.not_eq_false', List.any_eq_true]
    exact ⟨d, h1, h2⟩

theorem label_durable (i : ℕ) (n : Nd) : (label i n).isDurable = isDurable n := by
  change ((kindOf n).durable && !(decide (kindOf n = .skip) && (durationScaling n).isNone)) = _
  rw [kind_durable, kind_skip, scaling_isNone]
  rfl

/-! ## Edited nodes -/

theorem any_solid (q : Nd → Bool) (hq : ∀ x : Nd, x.val.1 = .Duration → q x = false) (cs : List Nd) :
    cs.any q = (cs.filter solid).any q := by
  induction cs with
  | nil => rfl
  | cons c cs ih =>
    by_cases h : c.val.1 = .Duration
    · simp [h, hq c h, solid, ih]
    · simp [h, solid, ih]

theorem any_vals (q : Nd → Bool) (hq : ∀ x y : Nd, x.val = y.val → q x = q y) {cs cs' : List Nd}
    (h : cs'.map Node.Tree.val = cs.map Node.Tree.val) : cs'.any q = cs.any q := by
  induction cs generalizing cs' with
  | nil => simp at h; subst h; rfl
  | cons c cs ih =>
    rcases cs' with _ | ⟨c', cs'⟩
    · simp at h
    · simp only [List.map_cons, List.cons.injEq] at h
      simp [ih h.2, hq c' c h.1]

variable {σ τ : Type} {P : Proc σ} {p : Rhythm.Proc τ} {which : ℕ → Nd → Bool} {R : σ → τ → Prop}

theorem walkL_val (ts : List Nd) : ∀ (st : σ) (i : ℕ) (before : List Nd),
    (walkL P which st i before ts).2.2.map Node.Tree.val = ts.map Node.Tree.val := by
  induction ts with
  | nil => intro st i before; rfl
  | cons t ts ih =>
    intro st i before
    simp only [walkL, List.map_cons, walk_val, ih]

theorem isAny_val (x y : Nd) (h : x.val = y.val) (ks : List Cls) : isAny x ks = isAny y ks := by
  simp only [isAny, isA, h]

theorem any_apply (q : Nd → Bool) (hq : ∀ x : Nd, x.val.1 = .Duration → q x = false)
    (hv : ∀ x y : Nd, x.val = y.val → q x = q y) (ch : RhythmTime.Change) (h : Fine ch) (c : Cls) (cs : List Nd) (st : σ)
    (i : ℕ) (before : List Nd) : (ch.apply c (walkL P which st i before cs).2.2).any q = cs.any q := by
  rw [any_solid q hq, apply_solid ch h, ← any_solid q hq, any_vals q hv (walkL_val ..)]

/-- The label of an edited node. -/
theorem label_apply (l : Cls × Val) (cs : List Nd) (ch : RhythmTime.Change) (h : Fine ch) (k : ℕ) (st : σ) (i : ℕ)
    (before : List Nd) : label k (.node l (ch.apply l.1 (walkL P which st i before cs).2.2)) =
      { label k (.node l cs) with
        dur := durationScaling (.node l (ch.apply l.1 (walkL P which st i before cs).2.2)) } := by
  have hd := duration_other
  have h1 : (ch.apply l.1 (walkL P which st i before cs).2.2).any (isA .Articulations) = cs.any (isA .Articulations) :=
    any_apply (isA .Articulations) (fun x hx => by rw [isA, hx]; exact hd.1) (fun x y e => by simp only [isA, e]) ch h ..
  have h2 : visible (.node l (ch.apply l.1 (walkL P which st i before cs).2.2)) = visible (.node l cs) :=
    any_apply (fun c => isAny c [.Scheme, .String, .Symbol, .Markup])
      (fun x hx => by simp only [isAny, isA, hx, List.any_cons, List.any_nil, hd.2.1, hd.2.2.1, hd.2.2.2.1, hd.2.2.2.2]; rfl)
      (fun x y e => isAny_val x y e _) ch h ..
  have h3 : kindOf (.node l (ch.apply l.1 (walkL P which st i before cs).2.2)) = kindOf (.node l cs) := by
    simp only [kindOf, h2, Node.Tree.val]
    rfl
  simp only [label, h3, Node.Tree.children, h1]

end Quickly.RhythmEdits
