import Verif.RhythmTime.Walk

/-! # The edits that do not change the music -/

namespace Quickly.RhythmTime

open Quickly.Node Quickly.Signature Quickly.Length Quickly.Length.Spec Spec
open Quickly.Duration (Transform)
open Quickly.Time (Mus Kind Remote)

/-- All transforms. -/
abbrev AnyT : Transform → Prop := fun _ => True

theorem scales_one : Scales AnyT Eq 1 := by
  rintro d d' rfl tr -
  cases tr.length d.1 d.2 <;> simp [Except.map]

/-- What is known of the nodes of a normal document. -/
def NormalNode (x : Bool × Nd) : Prop :=
  (durs x.2).length ≤ 1 ∧ (x.2.val.1 = .Duration → WrittenDuration x.2) ∧
    (x.1 = true → x.2.val.1 ∈ sounding → durs x.2 = [])

theorem normal_nodes {doc : List Nd} (h : Normal doc) (x : Bool × Nd) (hx : x ∈ nodesL false doc) : NormalNode x :=
  ⟨h.one x hx, h.written x hx, h.plain x hx⟩

theorem durTree_of {d : Nd} (h1 : d.val.1 = .Duration) (h : WrittenDuration d) : DurTree d := ⟨h1, h.1⟩

mutual
theorem nodes_true (t : Nd) : ∀ x ∈ nodes true t, x.1 = true := by
  obtain ⟨l, cs⟩ := t
  simp only [nodes, Bool.true_or, List.mem_cons, forall_eq_or_imp, true_and]
  exact nodesL_true cs
theorem nodesL_true (ts : List Nd) : ∀ x ∈ nodesL true ts, x.1 = true := by
  cases ts with
  | nil => simp [nodesL]
  | cons t ts =>
    intro x hx
    rw [nodesL, List.mem_append] at hx
    rcases hx with hx | hx
    · exact nodes_true t x hx
    · exact nodesL_true ts x hx
end

/-- The nodes in a durable. -/
theorem sound_loc {Sx : ℕ → Bool × Nd → Prop} {i : ℕ} {l : Cls × Val} {cs : List Nd} (hs : l.1 ∈ sounding)
    (h : Loc NormalNode Sx i (nodes false (.node l cs))) :
    NormalNode (false, .node l cs) ∧ ∀ x ∈ nodesL true cs, OkIn x.2 := by
  obtain ⟨h1, -, h3⟩ := h.node
  refine ⟨h1, ?_⟩
  simp only [hs, decide_true, Bool.false_or] at h3
  intro x hx
  obtain ⟨-, a2, a3⟩ := h3.1 x hx
  exact ⟨a3 (nodesL_true cs x hx), fun h => durTree_of h (a2 h)⟩

theorem own_durs {cs : List Nd} (h : ∀ x ∈ nodesL true cs, OkIn x.2) :
    ∀ x ∈ cs, x.val.1 = .Duration → DurTree x := fun x hx => (h _ (nodesL_mem true cs x hx)).2

theorem inL_refl (d : D) (cs : List Nd) (h : ∀ x ∈ nodesL true cs, OkIn x.2) : List.Forall₂ (In d) cs cs := by
  have h1 := walkL_inside (P := fun (st : Unit) _ _ _ _ => (st, .keep)) (which := fun _ _ => false)
    (fun _ _ h => by cases h) d OkIn (fun _ h => h) (fun _ => True) (fun _ _ _ _ _ _ _ h => by cases h) cs () 0 [] trivial h
  have h2 := walkL_same (P := fun (st : Unit) _ _ _ _ => (st, .keep)) (which := fun _ _ => false)
    (fun _ _ h => by cases h) cs true () 0 [] ⟨fun _ _ => trivial, fun _ _ _ h => by cases h⟩
  rw [h2] at h1
  exact h1.1

theorem sound_handle {l : Cls × Val} (cs : List Nd) (hs : l.1 ∈ sounding) : isA .HandleDuration (.node l cs) = true := by
  rw [handle_iff]
  refine decide_eq_true ?_
  change l.1 ∈ timed
  simp [timed, hs]

section
variable {T : Transform → Prop} {E : D → D → Prop} {σ : Type} {P : Proc σ} {which : ℕ → Nd → Bool}

theorem walk_sound {l : Cls × Val} {cs : List Nd} (hs : l.1 ∈ sounding) {st st1 : σ} {i : ℕ} {before : List Nd}
    {right : Option Nd} {ch : Change}
    (h : (if which i (.node l cs) = true then P st i before right (.node l cs) else (st, .keep)) = (st1, ch)) :
    walk P which st i before right (.node l cs) =
      ((walkL P which st1 (i + 1) before cs).1, (walkL P which st1 (i + 1) before cs).2.1,
        .node l (ch.apply l.1 (walkL P which st1 (i + 1) before cs).2.2)) := by
  simp only [walk, h, sound_handle cs hs, if_true]

theorem good_keep {p p' d : D} (l : Cls × Val) {cs cs1 : List Nd} (hs : l.1 ∈ sounding)
    (ho : ∀ x ∈ nodesL true cs, OkIn x.2) (hsame : Same d cs cs1) (hdurs : durs (.node l cs1) = durs (.node l cs))
    (hd : durationScaling (.node l cs) = none → d = p')
    (hE : E ((durationScaling (.node l cs)).getD p) ((durationScaling (.node l cs)).getD p')) :
    Good T E p p' (.node l cs) (.node l cs1) ((durationScaling (.node l cs)).getD p)
      ((durationScaling (.node l cs)).getD p') := by
  have := good_sound (T := T) (E := E) (p := p) (p' := p') l (cs := cs) (cs' := cs1)
    (by rw [sets_iff]; exact decide_eq_true hs) (by rw [scaling_durs hdurs]; exact hE) hsame.notes hsame.err
    (fun _ => inL_quiet (inL_refl p cs ho)) (fun h => by
      rw [scaling_durs hdurs] at h
      rw [← hd h]
      exact hsame.quiet)
  rw [scaling_durs hdurs] at this
  exact this

theorem good_change {p p' d d' : D} (l : Cls × Val) {cs cs' : List Nd} (hs : l.1 ∈ sounding)
    (ho : ∀ x ∈ nodesL true cs, OkIn x.2) (hsame : Same p' cs cs')
    (h1 : (durationScaling (.node l cs)).getD p = d) (h2 : (durationScaling (.node l cs')).getD p' = d') (hE : E d d') :
    Good T E p p' (.node l cs) (.node l cs') d d' := by
  have := good_sound (T := T) (E := E) (p := p) (p' := p') l (cs := cs) (cs' := cs')
    (by rw [sets_iff]; exact decide_eq_true hs) (by rw [h1, h2]; exact hE) hsame.notes hsame.err
    (fun _ => inL_quiet (inL_refl p cs ho)) (fun _ => hsame.quiet)
  rw [h1, h2] at this
  exact this

end

theorem isDurable_cases {n : Nd} (h : isDurable n = true) : n.val.1 ∈ sounding ∨ (n.val.1 = .Skip ∧ durs n ≠ []) := by
  simp only [isDurable, Bool.and_eq_true, Bool.not_eq_true', Bool.and_eq_false_iff, Bool.not_eq_false'] at h
  obtain ⟨h1, h2⟩ := h
  by_cases hs : isA .Skip n = true
  · right
    refine ⟨?_, ?_⟩
    · rw [isA, skip_cls] at hs; exact of_decide_eq_true hs
    · rw [hs] at h2
      simp only [Bool.true_eq_false, false_or, List.any_eq_true] at h2
      obtain ⟨x, hx1, hx2⟩ := h2
      rw [isA_duration] at hx2
      intro h0
      have : x ∈ durs n := List.mem_filter.2 ⟨hx1, hx2⟩
      rw [h0] at this
      cases this
  · left
    have : setsPrevious n = true := by simp [setsPrevious, h1, hs]
    rw [sets_iff] at this
    exact of_decide_eq_true this

theorem skip_not : Cls.Skip ∉ sounding := by decide

theorem isDurable_sound {l : Cls × Val} (cs : List Nd) (h : l.1 ∈ sounding) : isDurable (.node l cs) = true := by
  have : setsPrevious (.node l cs) = true := by rw [sets_iff]; exact decide_eq_true h
  simp only [setsPrevious, Bool.and_eq_true, Bool.not_eq_true'] at this
  simp [isDurable, this.1, this.2]

theorem inRange_timed (a b : ℕ) (i : ℕ) (n : Nd) (h : inRange a b i n = true) : n.val.1 ∈ timed := by
  simp only [inRange, Bool.and_eq_true, isDurable] at h
  exact durable_timed _ h.2.1

theorem inRange_cases {a b i : ℕ} {n : Nd} (h : inRange a b i n = true) :
    (a ≤ i ∧ i < b) ∧ (n.val.1 ∈ sounding ∨ (n.val.1 = .Skip ∧ durs n ≠ [])) := by
  simp only [inRange, Bool.and_eq_true, decide_eq_true_eq] at h
  exact ⟨h.1, isDurable_cases h.2⟩

theorem inRange_sound {l : Cls × Val} (cs : List Nd) (h : l.1 ∈ sounding) (a b i : ℕ) :
    inRange a b i (.node l cs) = decide (a ≤ i ∧ i < b) := by
  simp [inRange, isDurable_sound cs h]

theorem not_sets {n : Nd} (h : n.val.1 ∉ sounding) : setsPrevious n = false := by
  rw [sets_iff]; exact decide_eq_false h

theorem find_none {n : Nd} (h : durs n = []) : n.children.find? (isA .Duration) = none := by
  rw [find_durs, h]; rfl

theorem find_some {n : Nd} {d : Nd} {ds : List Nd} (h : durs n = d :: ds) :
    n.children.find? (isA .Duration) = some d := by
  rw [find_durs, h]; rfl

theorem scaling_none {n : Nd} (h : durs n = []) : durationScaling n = none := by
  rw [durationScaling, find_none h]; rfl

theorem scaling_some {n : Nd} {d : Nd} {ds : List Nd} (h : durs n = d :: ds) :
    durationScaling n = some (durationOf d) := by
  rw [durationScaling, find_some h]; rfl

theorem durs_mem {n d : Nd} {ds : List Nd} (h : durs n = d :: ds) : d ∈ n.children ∧ d.val.1 = .Duration := by
  have : d ∈ durs n := by rw [h]; simp
  rw [durs, List.mem_filter, decide_eq_true_eq] at this
  exact this

/-- Children that are walked have the same Durations. -/
theorem walked_durs {σ : Type} {P : Proc σ} {which : ℕ → Nd → Bool} (hw : ∀ i n, which i n = true → n.val.1 ∈ timed)
    {cs : List Nd} (ho : ∀ x ∈ nodesL true cs, OkIn x.2) (st : σ) (i : ℕ) (before : List Nd) (l : Cls × Val) :
    durs (.node l (walkL P which st i before cs).2.2) = durs (.node l cs) ∧
      ∀ x ∈ (walkL P which st i before cs).2.2, x.val.1 = .Duration → DurTree x := by
  have hd := own_durs ho
  have h := walkL_durs (P := P) hw cs hd st i before l
  refine ⟨h, fun x hx hxd => ?_⟩
  have : x ∈ durs (.node l cs) := by
    rw [← h]
    exact List.mem_filter.2 ⟨hx, decide_eq_true hxd⟩
  exact hd x (List.mem_filter.1 this).1 hxd

/-! ## explicit -/

/-- The state of `explicit` and the current duration. -/
def ExplicitInv (a b : ℕ) (i : ℕ) (st : Option Nd) (p p' : D) : Prop :=
  p' = p ∧ (i < b → ∀ e, st = some e → DurTree e ∧ durationOf e = p) ∧ (i ≤ a → st = none)

theorem explicit_inside (a b : ℕ) (d0 : Nd) (hd0 : DurTree d0) : ∀ (st : Option Nd) (i : ℕ) (before : List Nd)
    (right : Option Nd) (n : Nd), st = some d0 → OkIn n → inRange a b i n = true →
      (explicitProc st i before right n).1 = some d0 ∧ InCh (durationOf d0) n (explicitProc st i before right n).2 := by
  rintro st i before right n rfl ho hw
  obtain ⟨-, hc⟩ := inRange_cases hw
  cases hds : durs n with
  | nil =>
    rcases hc with hc | ⟨-, hc⟩
    · simp only [explicitProc, find_none hds]
      exact ⟨trivial, hc, hd0, rfl⟩
    · exact (hc hds).elim
  | cons d ds =>
    have hn : n.val.1 ∉ sounding := fun h => by rw [ho.1 h] at hds; cases hds
    simp [explicitProc, find_some hds, not_sets hn, InCh]

theorem explicit_sound (a b : ℕ) : ∀ (st : Option Nd) i before right l cs p p', l.1 ∈ sounding →
    ExplicitInv a b i st p p' → previousDuration before = p' →
    Loc NormalNode (fun j x => j = a → x.1 = false) i (nodes false (.node l cs)) →
    ∃ q q', Good AnyT Eq p p' (.node l cs) (walk explicitProc (inRange a b) st i before right (.node l cs)).2.2 q q' ∧
      ExplicitInv a b (walk explicitProc (inRange a b) st i before right (.node l cs)).2.1
        (walk explicitProc (inRange a b) st i before right (.node l cs)).1 q q' := by
  rintro st i before right l cs p p' hs ⟨rfl, hst, hna⟩ hb hl
  obtain ⟨⟨-, -, -⟩, ho⟩ := sound_loc hs hl
  have hcount := timedNodes_node false l cs i
  rw [sound_handle cs hs, if_pos rfl] at hcount
  by_cases hr : a ≤ i ∧ i < b
  · have hwt : inRange a b i (.node l cs) = true := by rw [inRange_sound cs hs]; exact decide_eq_true hr
    cases hds : durs (.node l cs) with
    | nil =>
      obtain ⟨d0, h1, h2, h3⟩ : ∃ d0, explicitProc st i before right (.node l cs) = (some d0, .add d0) ∧ DurTree d0 ∧
          durationOf d0 = p' := by
        simp only [explicitProc, find_none hds]
        cases st with
        | none => exact ⟨_, rfl, fromDuration_tree _, by rw [fromDuration_value, hb]⟩
        | some e => exact ⟨e, rfl, hst hr.2 e rfl⟩
      rw [walk_sound (P := explicitProc) (which := inRange a b) hs (st1 := some d0) (ch := .add d0) (by rw [if_pos hwt, h1])]
      obtain ⟨i1, i2⟩ := walkL_inside (inRange_timed a b) (durationOf d0) OkIn (fun _ h => h) (fun st => st = some d0)
        (explicit_inside a b d0 h2) cs (some d0) (i + 1) before rfl ho
      obtain ⟨w1, w2⟩ := walked_durs (P := explicitProc) (inRange_timed a b) ho (some d0) (i + 1) before l
      rw [h3] at i1
      refine ⟨p', p', good_change l hs ho (same_add (same_in i1) _ d0 h2) ?_ ?_ rfl, rfl, ?_, ?_⟩
      · rw [scaling_none hds]; rfl
      · rw [Change.apply, add_scaling l _ _ d0 h2 (by rw [w1, hds]), h3]; rfl
      · intro _ e he
        rw [i2] at he
        cases he
        exact ⟨h2, h3⟩
      · intro hle
        rw [walkL_count cs true] at hle
        omega
    | cons d0 ds =>
      obtain ⟨m1, m2⟩ := durs_mem hds
      have h2 : DurTree d0 := own_durs ho d0 m1 m2
      have hset : setsPrevious (.node l cs) = true := by rw [sets_iff]; exact decide_eq_true hs
      have h1 : explicitProc st i before right (.node l cs) = (some d0, .keep) := by
        simp [explicitProc, find_some hds, hset]
      rw [walk_sound (P := explicitProc) (which := inRange a b) hs (st1 := some d0) (ch := .keep) (by rw [if_pos hwt, h1])]
      obtain ⟨i1, i2⟩ := walkL_inside (inRange_timed a b) (durationOf d0) OkIn (fun _ h => h) (fun st => st = some d0)
        (explicit_inside a b d0 h2) cs (some d0) (i + 1) before rfl ho
      obtain ⟨w1, w2⟩ := walked_durs (P := explicitProc) (inRange_timed a b) ho (some d0) (i + 1) before l
      have hsc := scaling_some hds
      refine ⟨_, _, good_keep l hs ho (same_in i1) w1 (fun h => by rw [hsc] at h; cases h) (by rw [hsc]), by rw [hsc], ?_, ?_⟩
      · intro _ e he
        rw [i2] at he
        cases he
        rw [hsc]
        exact ⟨h2, rfl⟩
      · intro hle
        rw [walkL_count cs true] at hle
        omega
  · have hlt : i < a → i + (timedNodes (nodes false (.node l cs))).length ≤ a := by
      intro hia
      by_contra hlen
      have hk : a - i < (timedNodes (nodes false (.node l cs))).length := by omega
      have h1 := hl.2 (a - i) _ (List.getElem?_eq_getElem hk) (by omega)
      have h2 : timedNodes (nodes false (.node l cs)) = (false, .node l cs) :: timedNodes (nodesL true cs) := by
        have : l.1 ∈ timed := by simp [timed, hs]
        simp [nodes, timedNodes, Node.Tree.val, this, hs]
      have h3 : (timedNodes (nodes false (.node l cs)))[a - i] ∈ timedNodes (nodesL true cs) := by
        have h4 : ∀ (xs : List (Bool × Nd)) x ys (_ : xs = x :: ys) (k : ℕ) (hk : k < xs.length), 0 < k → xs[k] ∈ ys := by
          rintro xs x ys rfl k hk h0
          obtain ⟨k, rfl⟩ := Nat.exists_eq_succ_of_ne_zero (by omega : k ≠ 0)
          exact List.getElem_mem _
        exact h4 _ _ _ h2 _ hk (by omega)
      have := nodesL_true cs _ (List.mem_filter.1 h3).1
      rw [this] at h1
      cases h1
    have hsame := walk_same (P := explicitProc) (inRange_timed a b) (.node l cs) false st i before right
      ⟨fun _ _ => trivial, fun k x hx hwk => by
        obtain ⟨⟨r1, r2⟩, -⟩ := inRange_cases hwk
        have hk := (List.getElem?_eq_some_iff.1 hx).1
        by_cases hia : i < a
        · have := hlt hia; omega
        · omega⟩
    rw [hsame]
    refine ⟨_, _, good_keep l hs ho (same_in (inL_refl p' cs ho)) rfl (fun _ => rfl) rfl, rfl, ?_, ?_⟩
    · intro h e he
      by_cases hia : i < a
      · rw [hna (by omega)] at he; cases he
      · have : b ≤ i := by omega
        simp only at h
        omega
    · intro h
      simp only at h
      exact hna (by omega)

theorem explicit_pass (a b : ℕ) : ∀ (st : Option Nd) i before right (n : Nd) p p', n.val.1 ∉ .Duration :: sounding →
    ExplicitInv a b i st p p' → NormalNode (false, n) → (n.val.1 ∈ timed → (i = a → false = false)) →
    ExplicitInv a b (if isA .HandleDuration n = true then i + 1 else i)
        (if inRange a b i n = true then explicitProc st i before right n else (st, .keep)).1 p p' ∧ TOk AnyT n ∧
      PassCh Eq n (if inRange a b i n = true then explicitProc st i before right n else (st, .keep)).2 := by
  rintro st i before right n p p' hn ⟨rfl, hst, hna⟩ - -
  have hr : (if inRange a b i n = true then explicitProc st i before right n else (st, .keep)) = (st, .keep) := by
    split
    · rename_i h
      simp only [List.mem_cons, not_or] at hn
      obtain ⟨-, h | ⟨-, h⟩⟩ := inRange_cases h
      · exact (hn.2 h).elim
      · obtain ⟨d, ds, hds⟩ := List.exists_cons_of_ne_nil h
        simp [explicitProc, find_some hds, not_sets hn.2]
    · rfl
  rw [hr]
  refine ⟨⟨rfl, ?_, ?_⟩, fun _ _ _ _ => trivial, fun _ _ _ => rfl⟩
  · intro h; exact hst (by split at h <;> omega)
  · intro h; exact hna (by split at h <;> omega)

theorem explicit_good (a b : ℕ) (doc : List Nd) (h : Normal doc) (ha : StartsOutside a doc) :
    ∃ q q', GoodL AnyT Eq (1/4, 1) (1/4, 1) doc (explicit a b doc) q q' := by
  obtain ⟨q, q', h1, -⟩ := walkL_good (ExplicitInv a b) (inRange_timed a b) (fun x hx => hx.2.1) (explicit_sound a b)
    (explicit_pass a b) doc none 0 [] (1/4, 1) (1/4, 1) ⟨rfl, fun _ _ h => (Option.some_ne_none _ h.symm).elim, fun _ => rfl⟩ rfl
    ⟨normal_nodes h, fun k x hx hk => by
      rw [Nat.zero_add] at hk
      subst hk
      exact ha x hx⟩
  exact ⟨q, q', h1⟩

/-! ## implicit -/

/-- The state of `implicit` and the current duration. -/
def ImplicitInv (a b : ℕ) (i : ℕ) (st : Option D) (p p' : D) : Prop :=
  p' = p ∧ (i < b → ∀ e, st = some e → e = p) ∧ (i ≤ a → st = none)

theorem skip_mayRemove {n : Nd} (h : n.val.1 = .Skip) (right : Option Nd) : mayRemove n right = false := by
  have : required n = true := by
    have : isA .Skip n = true := by rw [isA, h]; decide +kernel
    simp [required, this]
  simp [mayRemove, this]

theorem implicit_inside (a b : ℕ) (d : D) (st0 : Option D) : ∀ (st : Option D) (i : ℕ) (before : List Nd)
    (right : Option Nd) (n : Nd), st = st0 → OkIn n → inRange a b i n = true →
      (implicitProc st i before right n).1 = st0 ∧ InCh d n (implicitProc st i before right n).2 := by
  rintro st i before right n rfl ho hw
  obtain ⟨-, hc⟩ := inRange_cases hw
  cases hds : durs n with
  | nil => simp [implicitProc, scaling_none hds, InCh]
  | cons d ds =>
    have hn : n.val.1 ∉ sounding := fun h => by rw [ho.1 h] at hds; cases hds
    rcases hc with hc | ⟨hc, -⟩
    · exact (hn hc).elim
    · simp [implicitProc, scaling_some hds, not_sets hn, InCh, skip_mayRemove hc]

theorem implicit_sound (a b : ℕ) : ∀ (st : Option D) i before right l cs p p', l.1 ∈ sounding →
    ImplicitInv a b i st p p' → previousDuration before = p' →
    Loc NormalNode (fun _ _ => True) i (nodes false (.node l cs)) →
    ∃ q q', Good AnyT Eq p p' (.node l cs) (walk implicitProc (inRange a b) st i before right (.node l cs)).2.2 q q' ∧
      ImplicitInv a b (walk implicitProc (inRange a b) st i before right (.node l cs)).2.1
        (walk implicitProc (inRange a b) st i before right (.node l cs)).1 q q' := by
  rintro st i before right l cs p p' hs ⟨rfl, hst, hna⟩ hb hl
  obtain ⟨⟨hone, -, -⟩, ho⟩ := sound_loc hs hl
  have inner : ∀ (st1 : Option D) (d : D), _ := fun st1 d => walkL_inside (inRange_timed a b) d OkIn (fun _ h => h) (fun st => st = st1)
    (implicit_inside a b d st1) cs st1 (i + 1) before rfl ho
  have wd : ∀ st1 : Option D, _ := fun st1 => walked_durs (P := implicitProc) (inRange_timed a b) ho st1 (i + 1) before l
  by_cases hr : a ≤ i ∧ i < b
  · have hwt : inRange a b i (.node l cs) = true := by rw [inRange_sound cs hs]; exact decide_eq_true hr
    have late : ∀ st1, ((walkL implicitProc (inRange a b) st1 (i + 1) before cs).2.1 ≤ a → 
        (walkL implicitProc (inRange a b) st1 (i + 1) before cs).1 = none) := by
      intro st1 hle
      rw [walkL_count cs true] at hle
      omega
    cases hds : durs (.node l cs) with
    | nil =>
      rw [walk_sound (P := implicitProc) (which := inRange a b) hs (st1 := st) (ch := .keep)
        (by rw [if_pos hwt]; simp only [implicitProc, scaling_none hds])]
      obtain ⟨i1, i2⟩ := inner st p'
      refine ⟨_, _, good_keep l hs ho (same_in i1) (wd st).1 (fun _ => rfl) rfl, rfl, ?_, late st⟩
      intro _ e he
      rw [i2] at he
      rw [scaling_none hds]
      exact hst hr.2 e he
    | cons d0 ds =>
      have hset : setsPrevious (.node l cs) = true := by rw [sets_iff]; exact decide_eq_true hs
      have hsc := scaling_some hds
      by_cases hrem : (decide (st = some (durationOf d0)) && mayRemove (.node l cs) right) = true
      · rw [walk_sound (P := implicitProc) (which := inRange a b) hs (st1 := st) (ch := .del)
          (by rw [if_pos hwt]; simp only [implicitProc, hsc, hrem, if_true])]
        rw [Bool.and_eq_true, decide_eq_true_eq] at hrem
        have hd := hst hr.2 _ hrem.1
        obtain ⟨i1, i2⟩ := inner st p'
        refine ⟨p', p', good_change l hs ho (same_del (same_in i1) (wd st).2) ?_ ?_ rfl, rfl, ?_, late st⟩
        · rw [hsc, hd]; rfl
        · rw [Change.apply, del_scaling l _ (by rw [(wd st).1]; exact hone)]; rfl
        · intro _ e he
          rw [i2] at he
          exact hst hr.2 e he
      · rw [walk_sound (P := implicitProc) (which := inRange a b) hs (st1 := some (durationOf d0)) (ch := .keep)
          (by rw [if_pos hwt]; simp only [implicitProc, hsc, hrem, Bool.false_eq_true, if_false, hset, if_true])]
        obtain ⟨i1, i2⟩ := inner (some (durationOf d0)) p'
        refine ⟨_, _, good_keep l hs ho (same_in i1) (wd _).1 (fun _ => rfl) (by rw [hsc]), by rw [hsc], ?_, late _⟩
        intro _ e he
        rw [i2] at he
        cases he
        rw [hsc]
        rfl
  · have hwf : ¬ inRange a b i (.node l cs) = true := by rw [inRange_sound cs hs]; simpa using hr
    rw [walk_sound (P := implicitProc) (which := inRange a b) hs (st1 := st) (ch := .keep) (by rw [if_neg hwf])]
    obtain ⟨i1, i2⟩ := inner st p'
    refine ⟨_, _, good_keep l hs ho (same_in i1) (wd _).1 (fun _ => rfl) rfl, rfl, ?_, ?_⟩
    · intro h e he
      rw [i2] at he
      rw [walkL_count cs true] at h
      rw [hna (by omega)] at he
      cases he
    · intro h
      rw [i2]
      rw [walkL_count cs true] at h
      exact hna (by omega)

theorem implicit_pass (a b : ℕ) : ∀ (st : Option D) i before right (n : Nd) p p', n.val.1 ∉ .Duration :: sounding →
    ImplicitInv a b i st p p' → NormalNode (false, n) → (n.val.1 ∈ timed → True) →
    ImplicitInv a b (if isA .HandleDuration n = true then i + 1 else i)
        (if inRange a b i n = true then implicitProc st i before right n else (st, .keep)).1 p p' ∧ TOk AnyT n ∧
      PassCh Eq n (if inRange a b i n = true then implicitProc st i before right n else (st, .keep)).2 := by
  rintro st i before right n p p' hn ⟨rfl, hst, hna⟩ - -
  have hr : (if inRange a b i n = true then implicitProc st i before right n else (st, .keep)) = (st, .keep) := by
    split
    · rename_i h
      simp only [List.mem_cons, not_or] at hn
      obtain ⟨-, h | ⟨hk, h⟩⟩ := inRange_cases h
      · exact (hn.2 h).elim
      · obtain ⟨d, ds, hds⟩ := List.exists_cons_of_ne_nil h
        simp [implicitProc, scaling_some hds, not_sets hn.2, skip_mayRemove hk]
    · rfl
  rw [hr]
  refine ⟨⟨rfl, ?_, ?_⟩, fun _ _ _ _ => trivial, fun _ _ _ => rfl⟩
  · intro h; exact hst (by split at h <;> omega)
  · intro h; exact hna (by split at h <;> omega)

theorem implicit_good (a b : ℕ) (doc : List Nd) (h : Normal doc) :
    ∃ q q', GoodL AnyT Eq (1/4, 1) (1/4, 1) doc (implicit a b doc) q q' := by
  obtain ⟨q, q', h1, -⟩ := walkL_good (ImplicitInv a b) (inRange_timed a b) (fun x hx => hx.2.1) (implicit_sound a b)
    (implicit_pass a b) doc none 0 [] (1/4, 1) (1/4, 1)
    ⟨rfl, fun _ _ h => (Option.some_ne_none _ h.symm).elim, fun _ => rfl⟩ rfl ⟨normal_nodes h, fun _ _ _ => trivial⟩
  exact ⟨q, q', h1⟩

/-! ## implicit per line -/

/-- The state of `implicit(per_line=True)` and the current duration. -/
def PerLineInv (a b : ℕ) (i : ℕ) (st : Option (D × Option ℕ)) (p p' : D) : Prop :=
  p' = p ∧ (i < b → ∀ e m, st = some (e, m) → e = p) ∧ (i ≤ a → st = none)

theorem perLine_inside (block : ℕ → Option ℕ) (a b : ℕ) (d : D) (st0 : Option (D × Option ℕ)) :
    ∀ (st : Option (D × Option ℕ)) (i : ℕ) (before : List Nd) (right : Option Nd) (n : Nd),
      (∀ e m, st = some (e, m) → e = d) ∧ (st0 = none → st = none) → OkIn n → inRange a b i n = true →
      ((∀ e m, (perLineProc block st i before right n).1 = some (e, m) → e = d) ∧
        (st0 = none → (perLineProc block st i before right n).1 = none)) ∧
      InCh d n (perLineProc block st i before right n).2 := by
  rintro st i before right n hst ho hw
  obtain ⟨-, hc⟩ := inRange_cases hw
  cases hds : durs n with
  | nil =>
    rcases hc with hc | ⟨-, hc⟩
    · simp only [perLineProc, scaling_none hds]
      split
      · rename_i k d' m hblock
        obtain rfl := hst.1 d' m rfl
        split
        · refine ⟨⟨?_, ?_⟩, hc, fromDuration_tree _, fromDuration_value _⟩
          · rintro e m ⟨⟩; rfl
          · intro h; cases hst.2 h
        · exact ⟨hst, trivial⟩
      · exact ⟨hst, trivial⟩
    · exact (hc hds).elim
  | cons d ds =>
    have hn : n.val.1 ∉ sounding := fun h => by rw [ho.1 h] at hds; cases hds
    rcases hc with hc | ⟨hc, -⟩
    · exact (hn hc).elim
    · have : perLineProc block st i before right n = (st, .keep) := by
        simp [perLineProc, scaling_some hds, not_sets hn, skip_mayRemove hc]
      rw [this]
      exact ⟨hst, trivial⟩

theorem perLine_sound (block : ℕ → Option ℕ) (a b : ℕ) : ∀ (st : Option (D × Option ℕ)) i before right l cs p p',
    l.1 ∈ sounding → PerLineInv a b i st p p' → previousDuration before = p' →
    Loc NormalNode (fun _ _ => True) i (nodes false (.node l cs)) →
    ∃ q q', Good AnyT Eq p p' (.node l cs) (walk (perLineProc block) (inRange a b) st i before right (.node l cs)).2.2 q q' ∧
      PerLineInv a b (walk (perLineProc block) (inRange a b) st i before right (.node l cs)).2.1
        (walk (perLineProc block) (inRange a b) st i before right (.node l cs)).1 q q' := by
  rintro st i before right l cs p p' hs ⟨rfl, hst, hna⟩ hb hl
  obtain ⟨⟨hone, -, -⟩, ho⟩ := sound_loc hs hl
  have inner : ∀ (st1 : Option (D × Option ℕ)) (d : D), (∀ e m, st1 = some (e, m) → e = d) → _ := fun st1 d hst1 =>
    walkL_inside (inRange_timed a b) d OkIn (fun _ h => h) (fun st => (∀ e m, st = some (e, m) → e = d) ∧ (st1 = none → st = none))
    (perLine_inside block a b d st1) cs st1 (i + 1) before ⟨hst1, id⟩ ho
  have wd : ∀ st1 : Option (D × Option ℕ), _ := fun st1 =>
    walked_durs (P := perLineProc block) (inRange_timed a b) ho st1 (i + 1) before l
  by_cases hr : a ≤ i ∧ i < b
  · have hwt : inRange a b i (.node l cs) = true := by rw [inRange_sound cs hs]; exact decide_eq_true hr
    have late : ∀ st1, ((walkL (perLineProc block) (inRange a b) st1 (i + 1) before cs).2.1 ≤ a → 
        (walkL (perLineProc block) (inRange a b) st1 (i + 1) before cs).1 = none) := by
      intro st1 hle
      rw [walkL_count cs true] at hle
      omega
    cases hds : durs (.node l cs) with
    | nil =>
      have hstp := hst hr.2
      have hsc := scaling_none hds
      obtain ⟨st1, ch, h1, h2, h3⟩ : ∃ st1 ch, perLineProc block st i before right (.node l cs) = (st1, ch) ∧
          (∀ e m, st1 = some (e, m) → e = p') ∧ (ch = .keep ∨ ch = .add (fromDuration p')) := by
        simp only [perLineProc, hsc]
        split
        · rename_i k d' m hblock
          obtain rfl := hstp d' m rfl
          split
          · exact ⟨_, _, rfl, by rintro e m ⟨⟩; rfl, .inr rfl⟩
          · exact ⟨_, _, rfl, hstp, .inl rfl⟩
        · exact ⟨_, _, rfl, hstp, .inl rfl⟩
      rw [walk_sound (P := perLineProc block) (which := inRange a b) hs (st1 := st1) (ch := ch) (by rw [if_pos hwt, h1])]
      obtain ⟨i1, i2⟩ := inner st1 p' h2
      rcases h3 with rfl | rfl
      · refine ⟨p', p', good_change l hs ho (same_in i1) (by rw [hsc]; rfl) ?_ rfl, rfl, fun _ => i2.1, late st1⟩
        rw [Change.apply, scaling_durs (wd st1).1, hsc]; rfl
      · refine ⟨p', p', good_change l hs ho (same_add (same_in i1) _ _ (fromDuration_tree _)) (by rw [hsc]; rfl) ?_ rfl,
          rfl, fun _ => i2.1, late st1⟩
        rw [Change.apply, add_scaling l _ _ _ (fromDuration_tree _) (by rw [(wd st1).1, hds]), fromDuration_value]
        rfl
    | cons d0 ds =>
      have hset : setsPrevious (.node l cs) = true := by rw [sets_iff]; exact decide_eq_true hs
      have hsc := scaling_some hds
      by_cases hrem : (decide (st = some (durationOf d0, block i)) && mayRemove (.node l cs) right) = true
      · rw [walk_sound (P := perLineProc block) (which := inRange a b) hs (st1 := st) (ch := .del)
          (by rw [if_pos hwt]; simp only [perLineProc, hsc, hrem, if_true])]
        rw [Bool.and_eq_true, decide_eq_true_eq] at hrem
        have hd := hst hr.2 _ _ hrem.1
        obtain ⟨i1, i2⟩ := inner st p' (hst hr.2)
        refine ⟨p', p', good_change l hs ho (same_del (same_in i1) (wd st).2) ?_ ?_ rfl, rfl, fun _ => i2.1, late st⟩
        · rw [hsc, hd]; rfl
        · rw [Change.apply, del_scaling l _ (by rw [(wd st).1]; exact hone)]; rfl
      · rw [walk_sound (P := perLineProc block) (which := inRange a b) hs (st1 := some (durationOf d0, block i)) (ch := .keep)
          (by rw [if_pos hwt]; simp only [perLineProc, hsc, hrem, Bool.false_eq_true, if_false, hset, if_true])]
        obtain ⟨i1, i2⟩ := inner (some (durationOf d0, block i)) (durationOf d0) (by rintro e m ⟨⟩; rfl)
        refine ⟨_, _, good_keep l hs ho (same_in i1) (wd _).1 (fun h => by rw [hsc] at h; cases h) (by rw [hsc]),
          by rw [hsc], fun _ => ?_, late _⟩
        rw [hsc]
        exact i2.1
  · by_cases hia : i < a
    · have hwf : ¬ inRange a b i (.node l cs) = true := by rw [inRange_sound cs hs]; simpa using hr
      obtain rfl := hna (by omega)
      rw [walk_sound (P := perLineProc block) (which := inRange a b) hs (st1 := none) (ch := .keep) (by rw [if_neg hwf])]
      obtain ⟨i1, i2⟩ := inner none p' (fun _ _ h => by cases h)
      have hn := i2.2 rfl
      refine ⟨_, _, good_keep l hs ho (same_in i1) (wd _).1 (fun _ => rfl) rfl, rfl, ?_, fun _ => hn⟩
      intro _ e m he
      rw [hn] at he
      cases he
    · have hsame := walk_same (P := perLineProc block) (inRange_timed a b) (.node l cs) false st i before right
        ⟨fun _ _ => trivial, fun k x hx hwk => by
          obtain ⟨⟨r1, r2⟩, -⟩ := inRange_cases hwk
          omega⟩
      rw [hsame]
      refine ⟨_, _, good_keep l hs ho (same_in (inL_refl p' cs ho)) rfl (fun _ => rfl) rfl, rfl, ?_, ?_⟩
      · intro h e he
        simp only at h
        omega
      · intro h
        simp only at h
        exact hna (by omega)

theorem perLine_pass (block : ℕ → Option ℕ) (a b : ℕ) : ∀ (st : Option (D × Option ℕ)) i before right (n : Nd) p p',
    n.val.1 ∉ .Duration :: sounding →
    PerLineInv a b i st p p' → NormalNode (false, n) → (n.val.1 ∈ timed → True) →
    PerLineInv a b (if isA .HandleDuration n = true then i + 1 else i)
        (if inRange a b i n = true then perLineProc block st i before right n else (st, .keep)).1 p p' ∧ TOk AnyT n ∧
      PassCh Eq n (if inRange a b i n = true then perLineProc block st i before right n else (st, .keep)).2 := by
  rintro st i before right n p p' hn ⟨rfl, hst, hna⟩ - -
  have hr : (if inRange a b i n = true then perLineProc block st i before right n else (st, .keep)) = (st, .keep) := by
    split
    · rename_i h
      simp only [List.mem_cons, not_or] at hn
      obtain ⟨-, h | ⟨hk, h⟩⟩ := inRange_cases h
      · exact (hn.2 h).elim
      · obtain ⟨d, ds, hds⟩ := List.exists_cons_of_ne_nil h
        simp [perLineProc, scaling_some hds, not_sets hn.2, skip_mayRemove hk]
    · rfl
  rw [hr]
  refine ⟨⟨rfl, ?_, ?_⟩, fun _ _ _ _ => trivial, fun _ _ _ => rfl⟩
  · intro h; exact hst (by split at h <;> omega)
  · intro h; exact hna (by split at h <;> omega)

theorem perLine_good (block : ℕ → Option ℕ) (a b : ℕ) (doc : List Nd) (h : Normal doc) :
    ∃ q q', GoodL AnyT Eq (1/4, 1) (1/4, 1) doc (implicitPerLine block a b doc) q q' := by
  obtain ⟨q, q', h1, -⟩ := walkL_good (PerLineInv a b) (inRange_timed a b) (fun x hx => hx.2.1)
    (perLine_sound block a b) (perLine_pass block a b) doc none 0 [] (1/4, 1) (1/4, 1)
    ⟨rfl, fun _ _ _ h => (Option.some_ne_none _ h.symm).elim, fun _ => rfl⟩ rfl ⟨normal_nodes h, fun _ _ _ => trivial⟩
  exact ⟨q, q', h1⟩

end Quickly.RhythmTime
