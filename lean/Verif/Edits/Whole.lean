import Verif.Edits.Props

/-!
# Trees that have all tokens of a text

Lemmas for reading: a tree is made of the tokens of a whole text, each text of it of one or more tokens in a row.
-/

namespace Quickly.Edits

open Quickly.Node Quickly.Text Quickly.Edits.Spec

/-- From the position of the first token to the end of the last one. -/
def span : List Tok → Option (ℕ × ℕ)
  | [] => none
  | a :: l => some (a.1, ((a :: l).getLast (by simp)).2)

/-- The context of all tokens. -/
def whole (ts : List Tok) : Context := ⟨(ts.head?.map Prod.fst).getD 0, (ts.getLast?.map Prod.snd).getD 0, ts⟩

/-- What is needed of a point. -/
def seen (p : Point) : Option (ℕ × ℕ) × Bool := (p.range, p.modified)

theorem seen_collapse (ps : List Point) (w : Str) : (collapseLast ps w).map seen = ps.map seen := by
  induction ps with
  | nil => rfl
  | cons p ps ih =>
    cases ps with
    | nil => rfl
    | cons q ps => rw [collapseLast, List.map_cons, List.map_cons, ih]

theorem seen_kids (cc : Concat) (e : Elem) (cs : List (Node.Tree Elem)) :
    (points.kids cc e cs).map seen = cs.flatMap fun c => (points cc c).map seen := by
  induction cs with
  | nil => rfl
  | cons c cs ih =>
    simp only [points.kids, List.map_append, List.flatMap_cons, ih]
    congr 1
    cases cs with
    | nil => simp only; split <;> simp [seen_collapse]
    | cons d cs => simp [seen_collapse]

theorem span_some (b : List Tok) (hb : b ≠ []) : ∃ x ∈ b.head?, ∃ y ∈ b.getLast?, span b = some (x.1, y.2) := by
  cases b with
  | nil => exact absurd rfl hb
  | cons a b => exact ⟨a, by simp, _, by rw [List.getLast?_eq_some_getLast (by simp)]; rfl, rfl⟩

theorem span_bounds (ts : List Tok) (h1 : ∀ t ∈ ts, t.1 < t.2) (h2 : ts.Pairwise fun a b => a.2 ≤ b.1) (x y : Tok)
    (hx : x ∈ ts.head?) (hy : y ∈ ts.getLast?) (k : Tok) (hk : k ∈ ts) : x.1 ≤ k.1 ∧ k.2 ≤ y.2 := by
  constructor
  · cases ts with
    | nil => cases hk
    | cons a ts =>
      cases hx
      rcases List.mem_cons.mp hk with rfl | hk
      · exact Nat.le_refl _
      · have := (List.pairwise_cons.mp h2).1 k hk
        have := h1 x (by simp)
        omega
  · obtain ⟨zs, rfl⟩ := List.getLast?_eq_some_iff.mp hy
    rcases List.mem_append.mp hk with hk' | hk'
    · have := (List.pairwise_append.mp h2).2.2 k hk' y (by simp)
      have := h1 y (by simp)
      omega
    · simp at hk'; subst hk'; exact Nat.le_refl _

theorem blocks_facts (bs : List (List Tok)) (hb : ∀ b ∈ bs, b ≠ []) (h1 : ∀ t ∈ bs.flatten, t.1 < t.2)
    (h2 : bs.flatten.Pairwise fun a b => a.2 ≤ b.1) :
    (∀ b ∈ bs, ∃ x ∈ bs.flatten, ∃ y ∈ bs.flatten, span b = some (x.1, y.2) ∧ x.1 < y.2) ∧
    (bs.Pairwise fun b c => ∀ p e q f, span b = some (p, e) → span c = some (q, f) → e ≤ q) ∧
    (∀ k ∈ bs.flatten, ∃ b ∈ bs, ∃ p e, span b = some (p, e) ∧ p ≤ k.1 ∧ k.2 ≤ e) := by
  refine ⟨?_, ?_, ?_⟩
  · intro b hbm
    obtain ⟨x, hx, y, hy, e⟩ := span_some b (hb b hbm)
    have hxm := List.mem_of_mem_head? hx
    have hym := List.mem_of_mem_getLast? hy
    have hxf : x ∈ bs.flatten := List.mem_flatten.mpr ⟨b, hbm, hxm⟩
    have hs : b.Sublist bs.flatten := List.sublist_flatten_of_mem hbm
    have := span_bounds b (fun t ht => h1 t (hs.subset ht)) (h2.sublist hs) x y hx hy x hxm
    have := h1 x hxf
    exact ⟨x, hxf, y, hs.subset hym, e, by omega⟩
  · induction bs with
    | nil => exact .nil
    | cons b bs ih =>
      rw [List.flatten_cons] at h1 h2
      obtain ⟨p1, p2, p3⟩ := List.pairwise_append.mp h2
      refine List.pairwise_cons.mpr ⟨fun c hc => ?_, ih (fun b hb' => hb b (List.mem_cons_of_mem _ hb'))
        (fun t ht => h1 t (by simp [ht])) p2⟩
      intro p e q f hp hq
      obtain ⟨x, hx, y, hy, e1⟩ := span_some b (hb b (by simp))
      obtain ⟨u, hu, w, hw, e2⟩ := span_some c (hb c (by simp [hc]))
      rw [e1] at hp
      rw [e2] at hq
      cases hp
      cases hq
      exact p3 y (List.mem_of_mem_getLast? hy) u (List.mem_flatten.mpr ⟨c, hc, List.mem_of_mem_head? hu⟩)
  · intro k hk
    obtain ⟨b, hbm, hkb⟩ := List.mem_flatten.mp hk
    obtain ⟨x, hx, y, hy, e⟩ := span_some b (hb b hbm)
    have hs : b.Sublist bs.flatten := List.sublist_flatten_of_mem hbm
    have := span_bounds b (fun t ht => h1 t (hs.subset ht)) (h2.sublist hs) x y hx hy k hkb
    exact ⟨b, hbm, _, _, e, this⟩

/-- If the points of a tree are blocks of tokens, and together all tokens, `edits()` only inserts whitespace, between two tokens
that have nothing between them or before the first one. -/
theorem unchanged_blocks (isSpace : Char → Bool) (cc : Concat) (doc : Str) (bs : List (List Tok)) (hb : ∀ b ∈ bs, b ≠ [])
    (t : Tree Elem) (hm : (points cc t).map seen = bs.map fun b => (span b, false)) (hp : Parsed isSpace doc bs.flatten)
    (hd : ∀ k ∈ bs.flatten, k.2 ≤ doc.length) (hsp : spacesOnly isSpace (points cc t)) :
    ∀ x ∈ edits cc (whole bs.flatten) none none t, x.1 = x.2.1 ∧ x.2.2 ≠ [] ∧ (∀ c ∈ x.2.2, isSpace c = true) ∧
      (∃ k ∈ bs.flatten, k.1 = x.1) ∧ (x.1 = (whole bs.flatten).pos ∨ ∃ k ∈ bs.flatten, k.2 = x.1) := by
  obtain ⟨c1, c2, c3⟩ := blocks_facts bs hb hp.nonempty hp.sorted
  have hbd : ∀ k ∈ bs.flatten, (whole bs.flatten).pos ≤ k.1 ∧ k.2 ≤ (whole bs.flatten).stop := by
    intro k hk
    cases ha : bs.flatten.head? with
    | none => rw [List.head?_eq_none_iff] at ha; rw [ha] at hk; cases hk
    | some x =>
      cases hl : bs.flatten.getLast? with
      | none => rw [List.getLast?_eq_none_iff] at hl; rw [hl] at hk; cases hk
      | some y =>
        have := span_bounds _ hp.nonempty hp.sorted x y ha hl k hk
        simpa [whole, ha, hl] using this
  have hfw : ∀ pt ∈ points cc t, ∃ b ∈ bs, pt.range = span b ∧ pt.modified = false := by
    intro pt hpt
    have : seen pt ∈ (points cc t).map seen := List.mem_map_of_mem hpt
    rw [hm] at this
    obtain ⟨b, hbm, e⟩ := List.mem_map.mp this
    exact ⟨b, hbm, (congrArg Prod.fst e).symm, (congrArg Prod.snd e).symm⟩
  have hbw : ∀ b ∈ bs, ∃ pt ∈ points cc t, pt.range = span b := by
    intro b hbm
    have : ((span b, false) : Option (ℕ × ℕ) × Bool) ∈ bs.map fun b => ((span b, false) : Option (ℕ × ℕ) × Bool) :=
      List.mem_map_of_mem (f := fun b => ((span b, false) : Option (ℕ × ℕ) × Bool)) hbm
    rw [← hm] at this
    obtain ⟨pt, hpt, e⟩ := List.mem_map.mp this
    exact ⟨pt, hpt, congrArg Prod.fst e⟩
  have := C38_unchanged isSpace cc doc (whole bs.flatten) none none t hp
    (fun k hk => .inr (hbd k hk).1)
    ⟨by
      intro pt hpt p e hr
      obtain ⟨b, hbm, h1, _⟩ := hfw pt hpt
      obtain ⟨x, hx, y, hy, e1, hlt⟩ := c1 b hbm
      rw [h1, e1] at hr
      cases hr
      exact ⟨(hbd x hx).1, hlt, hd y hy, ⟨x, hx, rfl⟩, ⟨y, hy, rfl⟩⟩,
     by
      have : ((points cc t).map seen).Pairwise fun a b => ∀ p e q f, a.1 = some (p, e) → b.1 = some (q, f) → e ≤ q := by
        rw [hm, List.pairwise_map]
        exact c2
      rw [List.pairwise_map] at this
      exact this⟩
    hsp
    (by
      intro pt hpt
      obtain ⟨b, hbm, h1, h2⟩ := hfw pt hpt
      obtain ⟨x, hx, y, hy, e1, hlt⟩ := c1 b hbm
      exact ⟨by rw [h1, e1]; rfl, h2⟩)
    (by
      intro k hk _
      obtain ⟨b, hbm, p, e, h1, h2⟩ := c3 k hk
      obtain ⟨pt, hpt, h3⟩ := hbw b hbm
      exact ⟨pt, hpt, p, e, by rw [h3, h1], h2⟩)
    (by
      cases hl : bs.flatten.getLast? with
      | none =>
        rw [List.getLast?_eq_none_iff] at hl
        left
        simp [whole, hl, startOf]
      | some y => exact .inr ⟨y, List.mem_of_mem_getLast? hl, by simp [whole, hl]⟩)
  intro x hx
  obtain ⟨h1, h2, h3, ⟨pt, hpt, e, h4⟩, h5⟩ := this x hx
  refine ⟨h1, h2, h3, ?_, ?_⟩
  · obtain ⟨b, hbm, h6, _⟩ := hfw pt hpt
    obtain ⟨u, hu, w, hw, e1, _⟩ := c1 b hbm
    rw [h6, e1] at h4
    simp only [Option.some.injEq, Prod.mk.injEq] at h4
    exact ⟨u, hu, h4.1⟩
  · rcases h5 with h5 | ⟨pt, hpt, p, h5⟩
    · exact .inl h5
    · obtain ⟨b, hbm, h6, _⟩ := hfw pt hpt
      obtain ⟨u, hu, w, hw, e1, _⟩ := c1 b hbm
      rw [h6, e1] at h5
      simp only [Option.some.injEq, Prod.mk.injEq] at h5
      exact .inr ⟨w, hw, h5.2⟩

/-! ## Only whitespace is asked for -/

/-- A text of whitespace. -/
def white (isSpace : Char → Bool) (s : Str) : Prop := ∀ c ∈ s, isSpace c = true

/-- All spacing of an element is whitespace. -/
def spWhite (isSpace : Char → Bool) (e : Elem) : Prop :=
  white isSpace e.sp.before ∧ white isSpace e.sp.afterHead ∧ white isSpace e.sp.beforeTail ∧ white isSpace e.sp.after

/-- The same for all elements. -/
def allWhite (isSpace : Char → Bool) : Tree Elem → Prop
  | .node e cs => spWhite isSpace e ∧ go cs
where
  /-- All trees. -/
  go : List (Tree Elem) → Prop
    | [] => True
    | c :: cs => allWhite isSpace c ∧ go cs

theorem spaces_collapse (isSpace : Char → Bool) (ps : List Point) (w : Str) (h : spacesOnly isSpace ps) (hw : white isSpace w) :
    spacesOnly isSpace (collapseLast ps w) := by
  induction ps with
  | nil => exact h
  | cons p ps ih =>
    cases ps with
    | nil =>
      intro q hq
      simp only [collapseLast, List.mem_singleton] at hq
      subst hq
      obtain ⟨h1, h2⟩ := h p (by simp)
      refine ⟨h1, ?_⟩
      show ∀ c ∈ collapse [p.after, w], isSpace c = true
      simp only [collapse, pyMax]
      split <;> assumption
    | cons q ps =>
      rw [collapseLast]
      intro x hx
      rcases List.mem_cons.mp hx with rfl | hx
      · exact h x (by simp)
      · exact ih (fun y hy => h y (List.mem_cons_of_mem _ hy)) x hx

mutual
theorem spaces_points (isSpace : Char → Bool) (cc : Concat) (hcc : ∀ e a b, white isSpace (cc e a b)) :
    (t : Tree Elem) → allWhite isSpace t → spacesOnly isSpace (points cc t)
  | .node e cs, h => by
    obtain ⟨⟨h1, h2, h3, h4⟩, hc⟩ := h
    rw [points]
    intro p hp
    rcases List.mem_append.mp hp with hp | hp
    · rcases List.mem_append.mp hp with hp | hp
      · unfold headPoint at hp
        split at hp
        · simp at hp
        · simp only [Option.toList_some, List.mem_singleton] at hp
          subst hp
          refine ⟨h1, ?_⟩
          simp only
          split <;> assumption
      · exact spaces_kids isSpace cc hcc e h4 cs hc p hp
    · unfold tailPoint at hp
      split at hp
      · simp only [Option.toList_some, List.mem_singleton] at hp
        subst hp
        exact ⟨h3, h4⟩
      · simp at hp
theorem spaces_kids (isSpace : Char → Bool) (cc : Concat) (hcc : ∀ e a b, white isSpace (cc e a b)) (e : Elem)
    (he : white isSpace e.sp.after) : (cs : List (Tree Elem)) → allWhite.go isSpace cs → spacesOnly isSpace (points.kids cc e cs)
  | [], _ => by intro p hp; simp [points.kids] at hp
  | c :: cs, h => by
    have hc := spaces_points isSpace cc hcc c h.1
    have ih := spaces_kids isSpace cc hcc e he cs h.2
    simp only [points.kids]
    intro p hp
    rcases List.mem_append.mp hp with hp | hp
    · cases cs with
      | nil =>
        simp only at hp
        split at hp
        · exact hc p hp
        · exact spaces_collapse isSpace _ _ hc he p hp
      | cons d cs => exact spaces_collapse isSpace _ _ hc (hcc e c d) p hp
    · exact ih p hp
end

end Quickly.Edits
