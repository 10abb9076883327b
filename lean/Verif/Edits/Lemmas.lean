import Verif.Edits.Spec
import Verif.Text.Lemmas

/-! # Lemmas about edits -/

namespace Quickly.Edits

open Quickly.Node Quickly.Text Spec

/-! ### Slices -/

theorem slice_eq (doc : Str) (a b : ℕ) : slice doc a b = (doc.drop a).take (b - a) := by
  rw [slice, List.drop_take]

theorem slice_append (doc : Str) {a b c : ℕ} (h1 : a ≤ b) (h2 : b ≤ c) :
    slice doc a b ++ slice doc b c = slice doc a c := by
  rw [slice_eq, slice_eq, slice_eq, show c - a = (b - a) + (c - b) by omega, List.take_add, List.drop_drop,
    show a + (b - a) = b by omega]

theorem slice_drop (doc : Str) {a b : ℕ} (h1 : a ≤ b) : slice doc a b ++ doc.drop b = doc.drop a := by
  have h := List.take_append_drop (b - a) (doc.drop a)
  rw [List.drop_drop, show a + (b - a) = b by omega] at h
  rw [slice_eq, h]

theorem slice_self (doc : Str) (a : ℕ) : slice doc a a = [] := by
  rw [slice_eq]; simp

theorem slice_zero (doc : Str) (a : ℕ) : slice doc 0 a = doc.take a := by
  rw [slice]; rfl

/-! ### Tokens -/

/-- There is no part of a token between `a` and `b`. -/
def NoTok (tokens : List Tok) (a b : ℕ) : Prop := ∀ t ∈ tokens, t.2 ≤ a ∨ b ≤ t.1

theorem tok_cases {l : List Tok} (h : l.Pairwise fun a b => a.2 ≤ b.1) {a b : Tok} (ha : a ∈ l) (hb : b ∈ l) :
    a = b ∨ a.2 ≤ b.1 ∨ b.2 ≤ a.1 := by
  induction l with
  | nil => cases ha
  | cons x l ih =>
    rw [List.pairwise_cons] at h
    rcases List.mem_cons.1 ha with h1 | ha <;> rcases List.mem_cons.1 hb with h2 | hb
    · exact .inl (h1.trans h2.symm)
    · exact .inr (.inl (h1 ▸ h.1 b hb))
    · exact .inr (.inr (h2 ▸ h.1 a ha))
    · exact ih h.2 ha hb

variable {isSpace : Char → Bool} {doc : Str} {tokens : List Tok}

/-- No token goes over the start of a token. -/
theorem noTok_start (hp : Parsed isSpace doc tokens) {p : ℕ} (h : ∃ t ∈ tokens, t.1 = p) : NoTok tokens p p := by
  obtain ⟨k, hk, rfl⟩ := h
  intro t ht
  have h1 := hp.nonempty k hk
  have h2 := hp.nonempty t ht
  rcases tok_cases hp.sorted ht hk with rfl | h | h <;> omega

/-- No token goes over the end of a token. -/
theorem noTok_end (hp : Parsed isSpace doc tokens) {p : ℕ} (h : ∃ t ∈ tokens, t.2 = p) : NoTok tokens p p := by
  obtain ⟨k, hk, rfl⟩ := h
  intro t ht
  have h1 := hp.nonempty k hk
  have h2 := hp.nonempty t ht
  rcases tok_cases hp.sorted ht hk with rfl | h | h <;> omega

theorem slice_space (hp : Parsed isSpace doc tokens) {a b : ℕ} (h : NoTok tokens a b) :
    ∀ c ∈ slice doc a b, isSpace c = true := by
  intro c hc
  rw [slice_eq] at hc
  obtain ⟨j, hj⟩ := List.getElem?_of_mem hc
  rw [List.getElem?_take] at hj
  split at hj
  · rw [List.getElem?_drop] at hj
    refine hp.space (a + j) c hj fun t ht => ?_
    rcases h t ht with h | h <;> omega
  · cases hj

/-- Where the loop is: the tokens that are left are the last ones, those that are gone start before `pos`,
and no token goes over `pos`. -/
structure At (tokens : List Tok) (pos : ℕ) (rest : List Tok) : Prop where
  split : ∃ used, tokens = used ++ rest ∧ ∀ t ∈ used, t.1 < pos
  clear : NoTok tokens pos pos

theorem scan_spec (p : ℕ) (rest : List Tok) (hs : rest.Pairwise fun a b => a.2 ≤ b.1) (hn : ∀ t ∈ rest, t.1 < t.2)
    (hk : ∃ t ∈ rest, t.1 = p) (pos d : ℕ) :
    ∃ mid k rest', rest = mid ++ k :: rest' ∧ k.1 = p ∧ (∀ t ∈ mid, t.1 < p) ∧
      scan p pos d rest = (p, (mid.getLast?.map Prod.snd).getD d, rest') := by
  induction rest generalizing d with
  | nil => obtain ⟨t, ht, -⟩ := hk; cases ht
  | cons t ts ih =>
    rw [scan]
    rw [List.pairwise_cons] at hs
    obtain ⟨k, hk, hkp⟩ := hk
    by_cases h : t.1 ≥ p
    · have ht : t = k := by
        rcases List.mem_cons.1 hk with rfl | hk
        · rfl
        · have := hs.1 k hk
          have := hn t (by simp)
          omega
      subst ht
      refine ⟨[], t, ts, rfl, hkp, by simp, ?_⟩
      rw [if_pos h, hkp]; rfl
    · have hk' : k ∈ ts := by
        rcases List.mem_cons.1 hk with rfl | hk
        · omega
        · exact hk
      obtain ⟨mid, k', rest', h1, h2, h3, h4⟩ := ih hs.2 (fun t ht => hn t (by simp [ht])) ⟨k, hk', hkp⟩ t.2
      refine ⟨t :: mid, k', rest', by rw [h1]; rfl, h2, ?_, ?_⟩
      · intro x hx
        rcases List.mem_cons.1 hx with rfl | hx
        · omega
        · exact h3 x hx
      · rw [if_neg h, h4]
        cases mid with
        | nil => rfl
        | cons m ms =>
          rw [List.getLast?_cons_cons]
          cases hl : (m :: ms).getLast? with
          | none => simp at hl
          | some l => rfl

theorem before_spec (hp : Parsed isSpace doc tokens) {p pos : ℕ} {rest : List Tok} (hat : At tokens pos rest)
    (hpos : pos ≤ p) (hk : ∃ t ∈ tokens, t.1 = p) (space : Str) :
    (∃ used, tokens = used ++ (before p pos space rest).2 ∧ ∀ t ∈ used, t.1 ≤ p) ∧
    (((before p pos space rest).1 = [] ∧ NoTok tokens pos p ∧ (pos < p ∨ space = [])) ∨
      ∃ d, (before p pos space rest).1 = [(pos, d, space)] ∧ pos ≤ d ∧ d ≤ p ∧ NoTok tokens d p ∧
        ((d = pos ∧ pos = p ∧ space ≠ []) ∨ ∃ t ∈ tokens, pos ≤ t.1 ∧ t.2 ≤ p)) := by
  obtain ⟨used, hu, hlt⟩ := hat.split
  by_cases h : p > pos
  · have hk' : ∃ t ∈ rest, t.1 = p := by
      obtain ⟨k, hk, hkp⟩ := hk
      rw [hu, List.mem_append] at hk
      rcases hk with hk | hk
      · have := hlt k hk; omega
      · exact ⟨k, hk, hkp⟩
    have hsorted := hp.sorted
    rw [hu, List.pairwise_append] at hsorted
    obtain ⟨mid, k, rest', h1, h2, h3, h4⟩ := scan_spec p rest hsorted.2.1
      (fun t ht => hp.nonempty t (by rw [hu]; simp [ht])) hk' pos pos
    rw [before, if_pos h]
    simp only [h4]
    have hused : tokens = (used ++ mid ++ [k]) ++ rest' := by rw [hu, h1]; simp
    refine ⟨⟨_, hused, ?_⟩, ?_⟩
    · intro t ht
      simp only [List.mem_append, List.mem_singleton] at ht
      rcases ht with (ht | ht) | rfl
      · have := hlt t ht; omega
      · have := h3 t ht; omega
      · omega
    -- tokens that start at `p` or later
    have hlate : ∀ t ∈ k :: rest', p ≤ t.1 := by
      intro t ht
      rcases List.mem_cons.1 ht with rfl | ht
      · omega
      · have h5 := hp.sorted
        rw [hused, List.pairwise_append] at h5
        have := h5.2.2 k (by simp) t ht
        have := hp.nonempty k (by rw [hused]; simp)
        omega
    have hearly : ∀ t ∈ used, t.2 ≤ pos := by
      intro t ht
      have := hlt t ht
      rcases hat.clear t (by rw [hu]; simp [ht]) with h | h <;> omega
    have hstart := noTok_start hp hk
    rcases List.eq_nil_or_concat mid with rfl | ⟨ms, m, rfl⟩
    · left
      refine ⟨by simp, ?_, .inl h⟩
      intro t ht
      rw [hu, h1, List.mem_append] at ht
      rcases ht with ht | ht
      · exact .inl (hearly t ht)
      · exact .inr (hlate t ht)
    · have hm : m ∈ tokens := by rw [hused]; simp
      have hmp : m.2 ≤ p := by
        have := h3 m (by simp)
        rcases hstart m hm with h | h <;> omega
      -- tokens are before the end of the last one before `p`, or start at `p` or later
      have hno : ∀ d, m.2 ≤ d → pos ≤ d → NoTok tokens d p := by
        intro d hd hd2 t ht
        rw [hu, h1, List.mem_append, List.mem_append] at ht
        rcases ht with ht | ht | ht
        · have := hearly t ht; omega
        · left
          have h5 := hp.sorted
          rw [hu, h1, List.pairwise_append, List.pairwise_append] at h5
          have h6 := h5.2.1.1
          rw [List.concat_eq_append] at h6 ht
          rw [List.pairwise_append] at h6
          rcases List.mem_append.1 ht with ht | ht
          · have := h6.2.2 t ht m (by simp)
            have := hp.nonempty m hm
            omega
          · simp only [List.mem_singleton] at ht
            subst ht; omega
        · exact .inr (hlate t ht)
      have hlast : ((ms.concat m).getLast?.map Prod.snd).getD pos = m.2 := by
        simp
      simp only [hlast]
      by_cases hd : m.2 > pos
      · right
        rw [if_pos hd]
        have hmpos : pos ≤ m.1 := by
          rcases hat.clear m hm with h | h <;> omega
        by_cases hsp : space ≠ [] ∧ m.2 < p
        · exact ⟨p, by rw [if_pos hsp], by omega, Nat.le_refl _, hno p hmp (by omega), .inr ⟨m, hm, hmpos, hmp⟩⟩
        · exact ⟨m.2, by rw [if_neg hsp], by omega, hmp, hno m.2 (Nat.le_refl _) (by omega), .inr ⟨m, hm, hmpos, hmp⟩⟩
      · left
        rw [if_neg hd]
        exact ⟨rfl, hno pos (by omega) (Nat.le_refl _), .inl h⟩
  · have hpp : p = pos := by omega
    subst hpp
    rw [before, if_neg h]
    refine ⟨⟨used, hu, fun t ht => Nat.le_of_lt (hlt t ht)⟩, ?_⟩
    by_cases hsp : space = []
    · left
      simp only [hsp, ne_eq, not_true_eq_false, if_false]
      exact ⟨trivial, hat.clear, .inr trivial⟩
    · right
      refine ⟨p, by simp [hsp], Nat.le_refl _, Nat.le_refl _, hat.clear, .inl ⟨rfl, rfl, hsp⟩⟩

theorem Spec.Kept.tail {pos : ℕ} {pt : Point} {pts : List Point} (h : Kept doc tokens pos (pt :: pts)) :
    Kept doc tokens pos pts :=
  ⟨fun q hq => h.origin q (by simp [hq]), (List.pairwise_cons.1 h.inOrder).2⟩

theorem Spec.Kept.next {pos p e : ℕ} {pt : Point} {pts : List Point} (h : Kept doc tokens pos (pt :: pts))
    (hr : pt.range = some (p, e)) : Kept doc tokens e pts := by
  refine ⟨fun q hq p' e' hr' => ?_, (List.pairwise_cons.1 h.inOrder).2⟩
  obtain ⟨-, h2, h3, h4⟩ := h.origin q (by simp [hq]) p' e' hr'
  exact ⟨(List.pairwise_cons.1 h.inOrder).1 q hq p e p' e' hr hr', h2, h3, h4⟩

theorem at_next (hp : Parsed isSpace doc tokens) {p e : ℕ} {rest : List Tok} (hpe : p < e)
    (h : ∃ used, tokens = used ++ rest ∧ ∀ t ∈ used, t.1 ≤ p) (he : ∃ t ∈ tokens, t.2 = e) : At tokens e rest := by
  obtain ⟨used, h1, h2⟩ := h
  exact ⟨⟨used, h1, fun t ht => by have := h2 t ht; omega⟩, noTok_end hp he⟩

/-! ### The edits are in order -/

/-- Every edit starts at or after the end of the one before it, the first at or after `i`. -/
def SortedFrom : ℕ → List Edit → Prop
  | _, [] => True
  | i, (p, e, _) :: es => i ≤ p ∧ p ≤ e ∧ SortedFrom e es

theorem SortedFrom.mono {i j : ℕ} (h : i ≤ j) {es : List Edit} (hs : SortedFrom j es) : SortedFrom i es := by
  cases es with
  | nil => trivial
  | cons x es => exact ⟨by have := hs.1; omega, hs.2⟩

theorem SortedFrom.mem {i : ℕ} {es : List Edit} (hs : SortedFrom i es) {x : Edit} (hx : x ∈ es) :
    i ≤ x.1 ∧ x.1 ≤ x.2.1 := by
  induction es generalizing i with
  | nil => cases hx
  | cons y es ih =>
    obtain ⟨h1, h2, h3⟩ := hs
    rcases List.mem_cons.1 hx with rfl | hx
    · exact ⟨h1, h2⟩
    · have := ih h3 hx; exact ⟨by omega, this.2⟩

theorem SortedFrom.pairwise {i : ℕ} {es : List Edit} (hs : SortedFrom i es) :
    es.Pairwise fun a b => a.2.1 ≤ b.1 := by
  induction es generalizing i with
  | nil => exact List.Pairwise.nil
  | cons y es ih =>
    obtain ⟨h1, h2, h3⟩ := hs
    exact List.pairwise_cons.2 ⟨fun b hb => (h3.mem hb).1, ih h3⟩

/-- Edits of an existing point. -/
def modEdit (pt : Point) (p e : ℕ) : List Edit := if pt.modified then [(p, e, pt.text)] else []

theorem sorted_loop (hp : Parsed isSpace doc tokens) (stop : ℕ) (pts : List Point) :
    ∀ (pos : ℕ) (rest : List Tok) (ins : Str), At tokens pos rest → Kept doc tokens pos pts →
      SortedFrom pos (loop stop pos rest ins pts) := by
  induction pts with
  | nil =>
    intro pos rest ins _ _
    rw [loop]
    split
    · exact ⟨Nat.le_refl _, by omega, trivial⟩
    · trivial
  | cons pt pts ih =>
    intro pos rest ins hat hk
    rw [loop.eq_def]
    dsimp only
    cases hr : pt.range with
    | none =>
      dsimp only
      split
      · exact ⟨Nat.le_refl _, Nat.le_refl _, ih pos rest pt.after hat hk.tail⟩
      · exact ih pos rest ins hat hk.tail
    | some pe =>
      obtain ⟨p, e⟩ := pe
      obtain ⟨h1, h2, h3, h4, h5⟩ := hk.origin pt (by simp) p e hr
      obtain ⟨hb1, hb2⟩ := before_spec hp hat h1 h4 (collapse [ins, pt.before])
      have ih := ih e _ pt.after (at_next hp h2 hb1 h5) (hk.next hr)
      dsimp only
      have hmod : SortedFrom p ((if pt.modified then [(p, e, pt.text)] else []) ++
          loop stop e (before p pos (collapse [ins, pt.before]) rest).2 pt.after pts) := by
        split
        · exact ⟨Nat.le_refl _, by omega, ih⟩
        · exact ih.mono (by omega)
      rw [List.append_assoc]
      rcases hb2 with ⟨hb, -⟩ | ⟨d, hb, hd1, hd2, -⟩
      · rw [hb]; exact hmod.mono h1
      · rw [hb]; exact ⟨Nat.le_refl _, hd1, hmod.mono hd2⟩

/-! ### The text after the edits -/

/-- The end of the last existing point. -/
def lastEnd : ℕ → List Point → ℕ
  | pos, [] => pos
  | pos, pt :: pts => match pt.range with
    | some (_, e) => lastEnd e pts
    | none => lastEnd pos pts

theorem applyFrom_eq (i p e : ℕ) (x : Str) (es : List Edit) :
    applyFrom doc i ((p, e, x) :: es) = slice doc i p ++ x ++ applyFrom doc e es := rfl

theorem collapse_space {isSpace : Char → Bool} {a b : Str} (ha : ∀ c ∈ a, isSpace c = true)
    (hb : ∀ c ∈ b, isSpace c = true) : ∀ c ∈ collapse [a, b], isSpace c = true := by
  simp only [collapse, pyMax]
  split
  · exact hb
  · exact ha

theorem apply_loop (hp : Parsed isSpace doc tokens) (stop : ℕ) (pts : List Point) (hsp : spacesOnly isSpace pts) :
    ∀ (pos : ℕ) (rest : List Tok) (ins : Str), At tokens pos rest → Kept doc tokens pos pts →
      (∀ c ∈ ins, isSpace c = true) → ∀ i ≤ pos,
      ∃ gaps, gaps.length = (visible pts).length ∧ (∀ g ∈ gaps, ∀ c ∈ g, isSpace c = true) ∧
        applyFrom doc i (loop stop pos rest ins pts) =
          slice doc i pos ++ interleave gaps ((visible pts).map (shown doc)) ++ doc.drop (max (lastEnd pos pts) stop) := by
  induction pts with
  | nil =>
    intro pos rest ins _ _ _ i hi
    refine ⟨[], rfl, by simp, ?_⟩
    rw [loop]
    split
    · rw [applyFrom_eq, lastEnd, applyFrom, show max pos stop = stop by omega]
      simp [visible, interleave]
    · rw [applyFrom, lastEnd, show max pos stop = pos by omega, ← slice_drop doc hi]
      simp [visible, interleave]
  | cons pt pts ih =>
    intro pos rest ins hat hk hins i hi
    have ih := ih fun q hq => hsp q (by simp [hq])
    obtain ⟨hbef, haft⟩ := hsp pt (by simp)
    have hcol := collapse_space hins hbef
    rw [loop.eq_def]
    dsimp only
    cases hr : pt.range with
    | none =>
      dsimp only
      rw [lastEnd, hr]
      split
      · rename_i htext
        obtain ⟨gaps, g1, g2, g3⟩ := ih pos rest pt.after hat hk.tail haft pos (Nat.le_refl _)
        have hv : visible (pt :: pts) = pt :: visible pts := by
          simp [visible, htext]
        refine ⟨collapse [ins, pt.before] :: gaps, by rw [hv]; simp [g1], ?_, ?_⟩
        · intro g hg
          rcases List.mem_cons.1 hg with rfl | hg
          · exact hcol
          · exact g2 g hg
        · rw [applyFrom_eq, g3, slice_self, hv, List.map_cons, interleave]
          simp [shown, hr]
      · rename_i htext
        have hv : visible (pt :: pts) = visible pts := by
          simp only [ne_eq, not_not] at htext
          simp [visible, htext, hr]
        obtain ⟨gaps, g1, g2, g3⟩ := ih pos rest ins hat hk.tail hins i hi
        exact ⟨gaps, by rw [hv]; exact g1, g2, by rw [hv]; exact g3⟩
    | some pe =>
      obtain ⟨p, e⟩ := pe
      obtain ⟨h1, h2, h3, h4, h5⟩ := hk.origin pt (by simp) p e hr
      obtain ⟨hb1, hb2⟩ := before_spec hp hat h1 h4 (collapse [ins, pt.before])
      have hv : visible (pt :: pts) = pt :: visible pts := by simp [visible, hr]
      have hat' := at_next hp h2 hb1 h5
      have hk' := hk.next hr
      dsimp only
      rw [lastEnd, hr, List.append_assoc]
      -- the point and what comes after it, from `j`
      have hrest : ∀ j ≤ p, ∃ gaps, gaps.length = (visible pts).length ∧ (∀ g ∈ gaps, ∀ c ∈ g, isSpace c = true) ∧
          applyFrom doc j ((if pt.modified then [(p, e, pt.text)] else []) ++
            loop stop e (before p pos (collapse [ins, pt.before]) rest).2 pt.after pts) =
          slice doc j p ++ shown doc pt ++ interleave gaps ((visible pts).map (shown doc)) ++
            doc.drop (max (lastEnd e pts) stop) := by
        intro j hj
        by_cases hm : pt.modified = true
        · obtain ⟨gaps, g1, g2, g3⟩ := ih e _ pt.after hat' hk' haft e (Nat.le_refl _)
          refine ⟨gaps, g1, g2, ?_⟩
          rw [if_pos hm, List.singleton_append, applyFrom_eq, g3, slice_self]
          simp [shown, hr, hm]
        · obtain ⟨gaps, g1, g2, g3⟩ := ih e _ pt.after hat' hk' haft j (by omega)
          refine ⟨gaps, g1, g2, ?_⟩
          rw [if_neg hm, List.nil_append, g3, ← slice_append doc hj (Nat.le_of_lt h2)]
          simp [shown, hr, hm]
      rcases hb2 with ⟨hb, hno, -⟩ | ⟨d, hb, hd1, hd2, hno, -⟩
      · obtain ⟨gaps, g1, g2, g3⟩ := hrest i (by omega)
        refine ⟨slice doc pos p :: gaps, by rw [hv]; simp [g1], ?_, ?_⟩
        · intro g hg
          rcases List.mem_cons.1 hg with rfl | hg
          · exact slice_space hp hno
          · exact g2 g hg
        · rw [hb, List.nil_append, g3, hv, List.map_cons, interleave, ← slice_append doc hi h1]
          simp
      · obtain ⟨gaps, g1, g2, g3⟩ := hrest d hd2
        refine ⟨(collapse [ins, pt.before] ++ slice doc d p) :: gaps, by rw [hv]; simp [g1], ?_, ?_⟩
        · intro g hg
          rcases List.mem_cons.1 hg with rfl | hg
          · intro c hc
            rcases List.mem_append.1 hc with hc | hc
            · exact hcol c hc
            · exact slice_space hp hno c hc
          · exact g2 g hg
        · rw [hb, List.singleton_append, applyFrom_eq, g3, hv, List.map_cons, interleave]
          simp

/-! ### What is not touched, and what is deleted -/

theorem untouched_loop (hp : Parsed isSpace doc tokens) (stop : ℕ) (pts : List Point) :
    ∀ (pos : ℕ) (rest : List Tok) (ins : Str), At tokens pos rest → Kept doc tokens pos pts →
      ∀ pt ∈ pts, pt.modified = false → ∀ p e, pt.range = some (p, e) →
        ∀ x ∈ loop stop pos rest ins pts, x.2.1 ≤ p ∨ e ≤ x.1 := by
  induction pts with
  | nil => intro pos rest ins _ _ pt hpt; cases hpt
  | cons pt pts ih =>
    intro pos rest ins hat hk q hq hmod p' e' hq' x hx
    rw [loop.eq_def] at hx
    dsimp only at hx
    have hpos : pos ≤ p' := (hk.origin q hq p' e' hq').1
    cases hr : pt.range with
    | none =>
      have hqt : q ∈ pts := by
        rcases List.mem_cons.1 hq with rfl | hq
        · rw [hr] at hq'; cases hq'
        · exact hq
      rw [hr] at hx
      dsimp only at hx
      split at hx
      · rcases List.mem_cons.1 hx with rfl | hx
        · exact .inl hpos
        · exact ih pos rest pt.after hat hk.tail q hqt hmod p' e' hq' x hx
      · exact ih pos rest ins hat hk.tail q hqt hmod p' e' hq' x hx
    | some pe =>
      obtain ⟨p, e⟩ := pe
      obtain ⟨h1, h2, h3, h4, h5⟩ := hk.origin pt (by simp) p e hr
      obtain ⟨hb1, hb2⟩ := before_spec hp hat h1 h4 (collapse [ins, pt.before])
      have hat' := at_next hp h2 hb1 h5
      have hk' := hk.next hr
      have hs := sorted_loop hp stop pts e _ pt.after hat' hk'
      rw [hr] at hx
      dsimp only at hx
      -- the point itself, or a later one
      have hqq : p ≤ p' := by
        rcases List.mem_cons.1 hq with rfl | hq
        · rw [hr] at hq'; cases hq'; exact Nat.le_refl _
        · have := (List.pairwise_cons.1 hk.inOrder).1 q hq p e p' e' hr hq'; omega
      rw [List.append_assoc, List.mem_append, List.mem_append] at hx
      rcases hx with hx | hx | hx
      · rcases hb2 with ⟨hb, -⟩ | ⟨d, hb, hd1, hd2, -⟩
        · rw [hb] at hx; cases hx
        · rw [hb, List.mem_singleton] at hx
          subst hx
          left; show d ≤ p'; omega
      · split at hx
        · rename_i hm
          rw [List.mem_singleton] at hx
          subst hx
          left
          rcases List.mem_cons.1 hq with rfl | hq
          · rw [hmod] at hm; cases hm
          · exact (List.pairwise_cons.1 hk.inOrder).1 q hq p e p' e' hr hq'
        · cases hx
      · rcases List.mem_cons.1 hq with rfl | hq
        · rw [hr] at hq'; cases hq'
          exact .inr (hs.mem hx).1
        · exact ih e _ pt.after hat' hk' q hq hmod p' e' hq' x hx

theorem removed_loop (hp : Parsed isSpace doc tokens) (stop : ℕ) (pts : List Point) :
    ∀ (pos : ℕ) (rest : List Tok) (ins : Str), At tokens pos rest → Kept doc tokens pos pts →
      ∀ t ∈ tokens, pos ≤ t.1 → t.2 ≤ stop →
        (∃ pt ∈ pts, ∃ p e, pt.range = some (p, e) ∧ p ≤ t.1 ∧ t.2 ≤ e) ∨
        ∃ x ∈ loop stop pos rest ins pts, x.1 ≤ t.1 ∧ t.2 ≤ x.2.1 := by
  induction pts with
  | nil =>
    intro pos rest ins _ _ t ht h1 h2
    right
    have := hp.nonempty t ht
    rw [loop, if_pos (by omega)]
    exact ⟨_, List.mem_singleton.2 rfl, h1, h2⟩
  | cons pt pts ih =>
    intro pos rest ins hat hk t ht ht1 ht2
    rw [loop.eq_def]
    dsimp only
    cases hr : pt.range with
    | none =>
      dsimp only
      split
      · rcases ih pos rest pt.after hat hk.tail t ht ht1 ht2 with ⟨q, hq, h⟩ | ⟨x, hx, h⟩
        · exact .inl ⟨q, by simp [hq], h⟩
        · exact .inr ⟨x, by simp [hx], h⟩
      · rcases ih pos rest ins hat hk.tail t ht ht1 ht2 with ⟨q, hq, h⟩ | ⟨x, hx, h⟩
        · exact .inl ⟨q, by simp [hq], h⟩
        · exact .inr ⟨x, hx, h⟩
    | some pe =>
      obtain ⟨p, e⟩ := pe
      obtain ⟨h1, h2, h3, h4, h5⟩ := hk.origin pt (by simp) p e hr
      obtain ⟨hb1, hb2⟩ := before_spec hp hat h1 h4 (collapse [ins, pt.before])
      have hat' := at_next hp h2 hb1 h5
      have hk' := hk.next hr
      have hne := hp.nonempty t ht
      dsimp only
      rcases noTok_end hp h5 t ht with hte | hte
      · rcases noTok_start hp h4 t ht with htp | htp
        · -- before the point
          right
          rcases hb2 with ⟨hb, hno, -⟩ | ⟨d, hb, hd1, hd2, hno, -⟩
          · rcases hno t ht with h | h <;> omega
          · refine ⟨(pos, d, collapse [ins, pt.before]), by rw [hb]; simp, ht1, ?_⟩
            show t.2 ≤ d
            rcases hno t ht with h | h <;> omega
        · exact .inl ⟨pt, by simp, p, e, hr, htp, hte⟩
      · rcases ih e _ pt.after hat' hk' t ht hte ht2 with ⟨q, hq, h⟩ | ⟨x, hx, h⟩
        · exact .inl ⟨q, by simp [hq], h⟩
        · exact .inr ⟨x, by simp [hx], h⟩

/-! ### An unmodified tree -/

theorem unchanged_loop (hp : Parsed isSpace doc tokens) (stop : ℕ) (pts : List Point) (hsp : spacesOnly isSpace pts) :
    ∀ (pos : ℕ) (rest : List Tok) (ins : Str), At tokens pos rest → Kept doc tokens pos pts →
      (∀ c ∈ ins, isSpace c = true) →
      (∀ pt ∈ pts, pt.range.isSome = true ∧ pt.modified = false) →
      (∀ t ∈ tokens, pos ≤ t.1 → ∃ pt ∈ pts, ∃ p e, pt.range = some (p, e) ∧ p ≤ t.1 ∧ t.2 ≤ e) →
      (stop ≤ pos ∨ ∃ t ∈ tokens, t.2 = stop) →
      ∀ x ∈ loop stop pos rest ins pts, x.1 = x.2.1 ∧ x.2.2 ≠ [] ∧ (∀ c ∈ x.2.2, isSpace c = true) ∧
        (∃ pt ∈ pts, ∃ e, pt.range = some (x.1, e)) ∧ (x.1 = pos ∨ ∃ pt ∈ pts, ∃ p, pt.range = some (p, x.1)) := by
  induction pts with
  | nil =>
    intro pos rest ins hat _ _ _ hcov hstop x hx
    rw [loop] at hx
    split at hx
    · rename_i hlt
      rcases hstop with h | ⟨t, ht, hts⟩
      · omega
      · rcases hat.clear t ht with h | h
        · omega
        · obtain ⟨pt, hpt, -⟩ := hcov t ht h
          cases hpt
    · cases hx
  | cons pt pts ih =>
    intro pos rest ins hat hk hins hall hcov hstop x hx
    have ih := ih fun q hq => hsp q (by simp [hq])
    obtain ⟨hbef, haft⟩ := hsp pt (by simp)
    have hcol := collapse_space hins hbef
    rw [loop.eq_def] at hx
    dsimp only at hx
    obtain ⟨hs, hm⟩ := hall pt (by simp)
    cases hr : pt.range with
    | none => rw [hr] at hs; cases hs
    | some pe =>
      obtain ⟨p, e⟩ := pe
      obtain ⟨h1, h2, h3, h4, h5⟩ := hk.origin pt (by simp) p e hr
      obtain ⟨hb1, hb2⟩ := before_spec hp hat h1 h4 (collapse [ins, pt.before])
      have hat' := at_next hp h2 hb1 h5
      have hk' := hk.next hr
      rw [hr] at hx
      dsimp only at hx
      rw [hm] at hx
      simp only [Bool.false_eq_true, if_false, List.append_nil] at hx
      rcases List.mem_append.1 hx with hx | hx
      · rcases hb2 with ⟨hb, -⟩ | ⟨d, hb, hd1, hd2, hno, hd⟩
        · rw [hb] at hx; cases hx
        · rw [hb, List.mem_singleton] at hx
          subst hx
          rcases hd with ⟨rfl, rfl, hne⟩ | ⟨t, ht, ht1, ht2⟩
          · exact ⟨rfl, hne, hcol, ⟨pt, by simp, e, hr⟩, .inl rfl⟩
          · exfalso
            have := hp.nonempty t ht
            obtain ⟨q, hq, p', e', hr', ha, hb⟩ := hcov t ht ht1
            rcases List.mem_cons.1 hq with rfl | hq
            · rw [hr] at hr'; cases hr'; omega
            · have := (List.pairwise_cons.1 hk.inOrder).1 q hq p e p' e' hr hr'; omega
      · obtain ⟨a1, a2, a3, ⟨q, hq, a4⟩, a5⟩ := ih e _ pt.after hat' hk' haft (fun q hq => hall q (by simp [hq]))
          (by
            intro t ht hte
            obtain ⟨q, hq, p', e', hr', ha, hb⟩ := hcov t ht (by omega)
            rcases List.mem_cons.1 hq with rfl | hq
            · rw [hr] at hr'; cases hr'
              have := hp.nonempty t ht
              omega
            · exact ⟨q, hq, p', e', hr', ha, hb⟩)
          (by
            rcases hstop with h | h
            · exact .inl (by omega)
            · exact .inr h) x hx
        refine ⟨a1, a2, a3, ⟨q, by simp [hq], a4⟩, .inr ?_⟩
        rcases a5 with h | ⟨q', hq', h⟩
        · exact ⟨pt, by simp, p, by rw [h]; exact hr⟩
        · exact ⟨q', by simp [hq'], h⟩

end Quickly.Edits
