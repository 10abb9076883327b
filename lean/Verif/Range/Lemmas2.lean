import Verif.Range.Lemmas

/-!
# Which nodes are in a range
-/

namespace Quickly.NodeRange

open Quickly.Node Quickly.Node.Spec Spec

variable {α : Type}

/-! ## Order -/

theorem docBefore_trans {p q r : Path} (h : DocBefore p q) (k : DocBefore q r) : DocBefore p r := by
  rw [← lt_iff_docBefore] at *
  exact List.lt_trans h k

theorem docBefore_irrefl (p : Path) : ¬ DocBefore p p := by
  rintro (h | h)
  · exact not_above_self _ h
  · exact left_irrefl _ h

theorem docBefore_total (p q : Path) : p = q ∨ DocBefore p q ∨ DocBefore q p := by
  rcases place_cases p q with h | h | h | h | h
  · exact .inl h
  · exact .inr (.inl (.inl h))
  · exact .inr (.inr (.inl h))
  · exact .inr (.inl (.inr h))
  · exact .inr (.inr (.inr h))

theorem notBefore_iff (p q : Path) : NotBefore p q ↔ ¬ DocBefore p q := by
  constructor
  · rintro (rfl | h) k
    · exact docBefore_irrefl _ k
    · exact docBefore_irrefl _ (docBefore_trans h k)
  · intro h
    rcases docBefore_total p q with k | k | k
    · exact .inl k
    · exact absurd k h
    · exact .inr k

theorem notBefore_trans {p q r : Path} (h : NotBefore p q) (k : NotBefore q r) : NotBefore p r := by
  rcases h with rfl | h
  · exact k
  · rcases k with rfl | k
    · exact .inr h
    · exact .inr (docBefore_trans k h)

theorem notBefore_append (p r : Path) : NotBefore (p ++ r) p := by
  cases r with
  | nil => exact .inl (by simp)
  | cons i r => exact .inr (.inl ⟨i, r, rfl⟩)

theorem notBefore_nil (p : Path) : NotBefore p [] := notBefore_append [] p

theorem pyLt_iff (p q : Path) : pyLt p q = true ↔ DocBefore p q := by
  rw [← lt_iff_docBefore]
  induction p generalizing q with
  | nil => cases q <;> simp [pyLt]
  | cons i p ih =>
    cases q with
    | nil => simp [pyLt]
    | cons j q =>
      rw [pyLt, List.cons_lt_cons_iff]
      by_cases h : i = j
      · simp [h, ih]
      · simp [h]

/-! ## The nodes that are gone through -/

/-- The child with index `i` of the node at `p` is not cut off. -/
def InR (st en : Option Path) (p : Path) (i : ℕ) : Prop :=
  (∀ s, st = some s → ∀ j q, s = p ++ j :: q → j ≤ i) ∧
  (∀ e, en = some e → e ≠ p ∧ ∀ j q, e = p ++ j :: q → i ≤ j)

theorem lo_le {st : Option Path} {p : Path} {i : ℕ} :
    lo st p ≤ i ↔ ∀ s, st = some s → ∀ j q, s = p ++ j :: q → j ≤ i := by
  unfold lo
  cases hs : truthy st with
  | none =>
    simp only [Nat.zero_le, true_iff]
    rintro s rfl j q rfl
    cases p <;> simp [truthy] at hs
  | some s =>
    obtain ⟨rfl, -⟩ := truthy_some hs
    simp only [Option.some.injEq, forall_eq']
    by_cases hp : p <+: s
    · rw [if_pos hp]
      obtain ⟨r, rfl⟩ := hp
      cases r with
      | nil => simp
      | cons k r =>
        simp only [List.getElem?_append_right (Nat.le_refl _), Nat.sub_self, List.getElem?_cons_zero, Option.getD_some,
          List.append_cancel_left_eq, List.cons.injEq]
        constructor
        · rintro h j q ⟨rfl, rfl⟩; exact h
        · intro h; exact h k r ⟨rfl, rfl⟩
    · rw [if_neg hp]
      simp only [Nat.zero_le, true_iff]
      rintro j q rfl
      exact absurd ⟨j :: q, rfl⟩ hp

theorem le_hi {en : Option Path} {p : Path} {i len : ℕ} (hl : i < len) :
    (i : ℤ) ≤ hi en p len ↔ ∀ e, en = some e → e ≠ p ∧ ∀ j q, e = p ++ j :: q → i ≤ j := by
  unfold hi
  cases en with
  | none => simp only [reduceCtorEq, false_implies, implies_true, iff_true]; omega
  | some e =>
    simp only [Option.some.injEq, forall_eq']
    by_cases hp : p <+: e
    · rw [if_pos hp]
      obtain ⟨r, rfl⟩ := hp
      unfold trailIndex
      cases r with
      | nil => simp; omega
      | cons k r =>
        simp only [List.getElem?_append_right (Nat.le_refl _), Nat.sub_self, List.getElem?_cons_zero,
          List.append_cancel_left_eq, List.cons.injEq]
        constructor
        · intro h
          refine ⟨by simp, ?_⟩
          rintro j q ⟨rfl, rfl⟩
          exact_mod_cast h
        · rintro ⟨-, h⟩
          exact_mod_cast h k r ⟨rfl, rfl⟩
    · rw [if_neg hp]
      constructor
      · intro _
        refine ⟨?_, ?_⟩
        · rintro rfl; exact hp (List.prefix_refl _)
        · rintro j q rfl; exact absurd ⟨j :: q, rfl⟩ hp
      · intro _; omega

theorem mem_K {rev : Bool} {st en : Option Path} {n c : Item α} :
    c ∈ K rev st en n ↔ ∃ i, itemAt n i = some c ∧ InR st en n.1 i := by
  unfold K
  rw [mem_slice]
  constructor
  · rintro ⟨i, h1, h2, h3⟩
    have hl := lt_of_itemAt h3
    exact ⟨i, h3, lo_le.mp h1, (le_hi hl).mp (by omega)⟩
  · rintro ⟨i, h3, h1, h2⟩
    have hl := lt_of_itemAt h3
    have := (le_hi hl).mpr h2
    exact ⟨i, lo_le.mpr h1, by omega, h3⟩

/-- No step from `base` along `r` is cut off. -/
def Steps (st en : Option Path) (base r : Path) : Prop := ∀ a k b, r = a ++ k :: b → InR st en (base ++ a) k

theorem steps_cons {st en : Option Path} {base r : Path} {i : ℕ} :
    Steps st en base (i :: r) ↔ InR st en base i ∧ Steps st en (base ++ [i]) r := by
  constructor
  · intro h
    refine ⟨by simpa using h [] i r rfl, fun a k b hr => ?_⟩
    have := h (i :: a) k b (by simp [hr])
    simpa using this
  · rintro ⟨h1, h2⟩ a k b hr
    cases a with
    | nil => simp at hr; obtain ⟨rfl, rfl⟩ := hr; simpa using h1
    | cons x a =>
      simp at hr
      obtain ⟨rfl, hr⟩ := hr
      simpa using h2 a k b hr

theorem desc_K {rev : Bool} {st en : Option Path} {w m : Item α} :
    Desc (K rev st en) w m ↔ ∃ r, m.1 = w.1 ++ r ∧ w.2.get? r = some m.2 ∧ Steps st en w.1 r := by
  constructor
  · intro h
    induction h with
    | refl w => exact ⟨[], by simp, by simp [Tree.get?], fun a k b h => by simp at h⟩
    | step h _ ih =>
      obtain ⟨r, h1, h2, h3⟩ := ih
      obtain ⟨i, h4, h5⟩ := mem_K.mp h
      obtain ⟨h6, h7⟩ := itemAt_some.mp h4
      refine ⟨i :: r, by simp [h1, h6], by simp only [Tree.get?, h7]; exact h2, steps_cons.mpr ⟨h5, h6 ▸ h3⟩⟩
  · rintro ⟨r, h1, h2, h3⟩
    induction r generalizing w with
    | nil =>
      simp only [Tree.get?, Option.some.injEq] at h2
      have : m = w := Prod.ext (by simpa using h1) h2.symm
      exact this ▸ .refl _
    | cons i r ih =>
      simp only [Tree.get?] at h2
      split at h2
      · rename_i c hc
        rw [steps_cons] at h3
        refine .step (c := (w.1 ++ [i], c)) (mem_K.mpr ⟨i, itemAt_some.mpr ⟨rfl, hc⟩, h3.1⟩) (ih (by simp [h1]) h2 h3.2)
      · cases h2

theorem steps_iff {st en : Option Path} {m : Path} :
    Steps st en [] m ↔ (∀ s, st = some s → ¬ Left m s) ∧ (∀ e, en = some e → NotBefore e m) := by
  constructor
  · intro h
    constructor
    · rintro s hs ⟨c, i, j, r, q, rfl, rfl, hij⟩
      have := (h c i r rfl).1 _ hs j q (by simp)
      omega
    · intro e he
      rw [notBefore_iff]
      rintro (⟨i, r, rfl⟩ | ⟨c, i, j, r, q, rfl, rfl, hij⟩)
      · exact ((h e i r rfl).2 _ he).1 (by simp)
      · have := ((h c j q rfl).2 _ he).2 i r (by simp)
        omega
  · rintro ⟨h1, h2⟩ a k b rfl
    simp only [List.nil_append]
    constructor
    · rintro s hs j q rfl
      by_contra hlt
      exact h1 _ hs ⟨a, k, j, b, q, rfl, rfl, by omega⟩
    · intro e he
      have := (notBefore_iff _ _).mp (h2 e he)
      constructor
      · rintro rfl
        exact this (.inl ⟨k, b, rfl⟩)
      · rintro j q rfl
        by_contra hlt
        exact this (.inr ⟨a, j, k, q, b, rfl, rfl, by omega⟩)

theorem steps_append {st en : Option Path} {p r : Path} :
    Steps st en [] (p ++ r) ↔ Steps st en [] p ∧ Steps st en p r := by
  constructor
  · intro h
    refine ⟨fun a k b hp => h a k (b ++ r) (by simp [hp]), fun a k b hr => ?_⟩
    simpa using h (p ++ a) k b (by simp [hr])
  · rintro ⟨h1, h2⟩ a k b h
    rcases List.append_eq_append_iff.mp h with ⟨a', rfl, hr⟩ | ⟨c', rfl, hb⟩
    · simpa using h2 a' k b hr
    · cases c' with
      | nil => simp at hb; simpa using h2 [] k b hb.symm
      | cons x c' =>
        simp at hb
        obtain ⟨rfl, rfl⟩ := hb
        exact h1 a k c' rfl

theorem touches_iff {t : Tree α} {st en : Option Path} (hp : Proper t st en) {p : Path} {n : Tree α}
    (hn : t.get? p = some n) :
    Touches t st en p ↔ Steps st en [] p := by
  rw [steps_iff]
  constructor
  · rintro ⟨r, m, hm, h1, h2⟩
    constructor
    · intro s hs hl
      have := (notBefore_iff _ _).mp (h1 s hs)
      exact this (.inr (by simpa using Left.append hl r []))
    · intro e he
      exact notBefore_trans (h2 e he) (notBefore_append p r)
  · rintro ⟨h1, h2⟩
    obtain ⟨hs, he, hse⟩ := hp
    cases st with
    | none => exact ⟨[], n, by simpa using hn, (fun s hs => by cases hs), by simpa using h2⟩
    | some s =>
      by_cases hb : NotBefore p s
      · exact ⟨[], n, by simpa using hn, fun s' h => by cases h; simpa using hb, by simpa using h2⟩
      · rw [notBefore_iff, not_not] at hb
        rcases hb with ⟨i, r, rfl⟩ | hb
        · obtain ⟨m, hm⟩ := hs _ rfl
          exact ⟨i :: r, m, hm, fun s' h => by cases h; exact .inl rfl, fun e he => hse _ e rfl he⟩
        · exact absurd hb (h1 s rfl)

theorem within_steps {st en : Option Path} {p : Path} (h : Within st en p) :
    Steps st en [] p := by
  rw [steps_iff]
  refine ⟨fun s hs hl => ?_, h.2⟩
  exact (notBefore_iff _ _).mp (h.1 s hs) (.inr hl)

/-! ## Going to a node -/

theorem get?_cons {t : Tree α} {i : ℕ} {p : Path} {n : Tree α} (h : t.get? (i :: p) = some n) :
    ∃ c, t.children[i]? = some c ∧ c.get? p = some n := by
  simp only [Tree.get?] at h
  split at h
  · exact ⟨_, by assumption, h⟩
  · cases h

theorem left_cons {i : ℕ} {p m : Path} :
    Left (i :: p) m ↔ (∃ j r, m = j :: r ∧ i < j) ∨ ∃ r, m = i :: r ∧ Left p r := by
  constructor
  · rintro ⟨c, a, b, r, q, h1, rfl, hab⟩
    cases c with
    | nil => simp at h1; exact .inl ⟨b, q, rfl, by omega⟩
    | cons x c =>
      simp at h1
      obtain ⟨rfl, rfl⟩ := h1
      exact .inr ⟨_, rfl, c, a, b, r, q, rfl, rfl, hab⟩
  · rintro (⟨j, r, rfl, h⟩ | ⟨r, rfl, c, a, b, r, q, rfl, rfl, hab⟩)
    · exact ⟨[], i, j, p, r, rfl, rfl, h⟩
    · exact ⟨i :: c, a, b, r, q, rfl, rfl, hab⟩

theorem not_left_nil (m : Path) : ¬ Left [] m := by
  rintro ⟨c, a, b, r, q, h1, -, -⟩
  simp at h1

/-- What still comes in a level that points at the child `i`. -/
theorem remain_desc {t : Tree α} {st en : Option Path} {l : Level α} (hl : Fine t st en l) {i : ℕ}
    (hin : InR st en l.node.1 i) (m : Item α) :
    (∃ w ∈ remain false { l with index := some i }, Desc (K false st en) w m) ↔
      t.get? m.1 = some m.2 ∧ ∃ j r, m.1 = l.node.1 ++ j :: r ∧ i < j ∧ Steps st en l.node.1 (j :: r) := by
  simp only [remain, Bool.false_eq_true, if_false]
  constructor
  · rintro ⟨w, hw, hd⟩
    obtain ⟨j, h1, h2, h3⟩ := mem_slice.mp hw
    obtain ⟨h4, h5⟩ := itemAt_some.mp h3
    obtain ⟨r, h6, h7, h8⟩ := desc_K.mp hd
    refine ⟨?_, j, r, by rw [h6, h4]; simp, by omega, steps_cons.mpr ⟨?_, h4 ▸ h8⟩⟩
    · rw [h6, h4, get?_append, get?_snoc' hl.hnode h5]
      exact h7
    · have hlen := lt_of_itemAt h3
      rw [hl.hstop] at h2
      refine ⟨fun s hs j' q hq => ?_, (le_hi hlen).mp (by omega)⟩
      have := hin.1 s hs j' q hq
      omega
  · rintro ⟨h1, j, r, h2, h3, h4⟩
    rw [steps_cons] at h4
    obtain ⟨d, hd1, hd2⟩ : ∃ d, l.node.2.children[j]? = some d ∧ d.get? r = some m.2 := by
      rw [h2, get?_append, hl.hnode] at h1
      exact get?_cons h1
    have hit' : itemAt l.node j = some (l.node.1 ++ [j], d) := itemAt_some.mpr ⟨rfl, hd1⟩
    refine ⟨(l.node.1 ++ [j], d), mem_slice.mpr ⟨j, by omega, ?_, hit'⟩, desc_K.mpr ⟨r, by simp [h2], hd2, h4.2⟩⟩
    have := (le_hi (lt_of_itemAt hit')).mpr h4.1.2
    rw [hl.hstop]
    omega

/-- After going along `p` from the innermost level: the stack points at the node,
and what still comes in the new levels is right of `p`. -/
theorem gotoLoop_eq {t : Tree α} {st en : Option Path} {l : Level α} {ls : List (Level α)}
    (h : ∀ x ∈ l :: ls, Fine t st en x) (p : Path) (hne : p ≠ []) {n : Tree α} (hn : l.node.2.get? p = some n)
    (hst : Steps st en l.node.1 p) :
    ∃ ls', gotoLoop (l :: ls) p = some ls' ∧ (∀ x ∈ ls', Fine t st en x) ∧ PointsAt ls' (l.node.1 ++ p, n) ∧
      ∀ m : Item α, (∃ w ∈ fv false ls', Desc (K false st en) w m) ↔
        (∃ w ∈ fv false ls, Desc (K false st en) w m) ∨
        t.get? m.1 = some m.2 ∧ ∃ m', m.1 = l.node.1 ++ m' ∧ Left p m' ∧ Steps st en l.node.1 m' := by
  induction p generalizing l ls with
  | nil => exact absurd rfl hne
  | cons i p ih =>
    obtain ⟨c, hc, hcn⟩ := get?_cons hn
    have hit : itemAt l.node i = some (l.node.1 ++ [i], c) := itemAt_some.mpr ⟨rfl, hc⟩
    have hl := h l (by simp)
    have hl' : Fine t st en { l with index := some i } := by
      refine ⟨hl.toOk.withIndex _, ?_⟩
      intro j hj
      simp only [Option.some.injEq] at hj
      subst hj
      exact lt_of_itemAt hit
    rw [steps_cons] at hst
    have hrem := remain_desc hl hst.1
    cases p with
    | nil =>
      refine ⟨_, rfl, ?_, ⟨_, ls, i, rfl, rfl, by simpa [Tree.get?] using (by simpa [Tree.get?] using hcn : c = n) ▸ hit⟩, ?_⟩
      · intro x hx
        rcases List.mem_cons.mp hx with rfl | hx
        · exact hl'
        · exact h x (by simp [hx])
      · intro m
        simp only [fv_cons, List.mem_append, or_and_right, exists_or]
        rw [hrem m, or_comm]
        refine or_congr Iff.rfl (and_congr Iff.rfl ?_)
        constructor
        · rintro ⟨j, r, h1, h2, h3⟩
          exact ⟨j :: r, h1, left_cons.mpr (.inl ⟨j, r, rfl, h2⟩), h3⟩
        · rintro ⟨m', h1, h2, h3⟩
          rcases left_cons.mp h2 with ⟨j, r, rfl, h4⟩ | ⟨r, rfl, h4⟩
          · exact ⟨j, r, h1, h4, h3⟩
          · exact absurd h4 (not_left_nil _)
    | cons i2 p =>
      obtain ⟨d, hd, hok, hdn, hdi⟩ := ok_child hl.toOk hit
      have hfd : Fine t st en d := ⟨hok, by simp [hdi]⟩
      obtain ⟨ls', h1, h2, h3, h4⟩ := ih (l := d) (ls := { l with index := some i } :: ls) (by
        intro x hx
        rcases List.mem_cons.mp hx with rfl | hx
        · exact hfd
        · rcases List.mem_cons.mp hx with rfl | hx
          · exact hl'
          · exact h x (by simp [hx])) (by simp) (by rw [hdn]; exact hcn) (by rw [hdn]; exact hst.2)
      rw [hdn] at h3 h4
      refine ⟨ls', by simp only [gotoLoop, hd]; exact h1, h2, by simpa using h3, ?_⟩
      intro m
      rw [h4 m]
      simp only [fv_cons, List.mem_append, or_and_right, exists_or]
      rw [hrem m, or_comm (b := ∃ x ∈ fv false ls, _), or_assoc]
      refine or_congr Iff.rfl ?_
      rw [← and_or_left]
      refine and_congr Iff.rfl ?_
      constructor
      · rintro (⟨j, r, h5, h6, h7⟩ | ⟨m', h5, h6, h7⟩)
        · exact ⟨j :: r, h5, left_cons.mpr (.inl ⟨j, r, rfl, h6⟩), h7⟩
        · exact ⟨i :: m', by simpa using h5, left_cons.mpr (.inr ⟨m', rfl, h6⟩), steps_cons.mpr ⟨hst.1, h7⟩⟩
      · rintro ⟨m', h5, h6, h7⟩
        rcases left_cons.mp h6 with ⟨j, r, rfl, h8⟩ | ⟨r, rfl, h8⟩
        · exact .inl ⟨j, r, h5, h8, h7⟩
        · exact .inr ⟨r, by simpa using h5, h8, (steps_cons.mp h7).2⟩

theorem gotoLoop_pairwise {t : Tree α} {st en : Option Path} {l : Level α} {ls : List (Level α)}
    (h : ∀ x ∈ l :: ls, Fine t st en x) (p : Path) (hne : p ≠ []) {n : Tree α} (hn : l.node.2.get? p = some n)
    (h1 : (fv false ls).Pairwise (fun a b => Branch false a.1 b.1)) (h2 : ∀ w ∈ fv false ls, Left l.node.1 w.1)
    {ls'} (hls : gotoLoop (l :: ls) p = some ls') :
    (fv false ls').Pairwise (fun a b => Branch false a.1 b.1) := by
  induction p generalizing l ls with
  | nil => exact absurd rfl hne
  | cons i p ih =>
    obtain ⟨c, hc, hcn⟩ := get?_cons hn
    have hit : itemAt l.node i = some (l.node.1 ++ [i], c) := itemAt_some.mpr ⟨rfl, hc⟩
    have hl := h l (by simp)
    have hl' : Fine t st en { l with index := some i } := by
      refine ⟨hl.toOk.withIndex _, ?_⟩
      intro j hj
      simp only [Option.some.injEq] at hj
      subst hj
      exact lt_of_itemAt hit
    have hmem : ∀ w ∈ remain false { l with index := some i }, ∃ j, i < j ∧ w.1 = l.node.1 ++ [j] := by
      intro w hw
      simp only [remain, Bool.false_eq_true, if_false] at hw
      obtain ⟨j, h3, -, h4⟩ := mem_slice.mp hw
      exact ⟨j, by omega, (itemAt_some.mp h4).1⟩
    have hpw : (fv false ({ l with index := some i } :: ls)).Pairwise (fun a b => Branch false a.1 b.1) := by
      rw [fv_cons, List.pairwise_append]
      refine ⟨slice_pairwise false _ _ _, h1, fun a ha b hb => ?_⟩
      obtain ⟨j, -, h4⟩ := hmem a ha
      rw [h4]
      have := Left.append (h2 b hb) [j] []
      simpa [Branch] using this
    cases p with
    | nil =>
      simp only [gotoLoop, Option.some.injEq] at hls
      exact hls ▸ hpw
    | cons i2 p =>
      obtain ⟨d, hd, hok, hdn, hdi⟩ := ok_child hl.toOk hit
      have hfd : Fine t st en d := ⟨hok, by simp [hdi]⟩
      simp only [gotoLoop, hd] at hls
      refine ih (l := d) (by
        intro x hx
        rcases List.mem_cons.mp hx with rfl | hx
        · exact hfd
        · rcases List.mem_cons.mp hx with rfl | hx
          · exact hl'
          · exact h x (by simp [hx])) (by simp) (by rw [hdn]; exact hcn) hpw ?_ hls
      intro w hw
      rw [hdn]
      rw [fv_cons, List.mem_append] at hw
      rcases hw with hw | hw
      · obtain ⟨j, h3, h4⟩ := hmem w hw
        exact ⟨l.node.1, i, j, [], [], rfl, h4, h3⟩
      · simpa using Left.append (h2 w hw) [i] []

theorem fine_make (t : Tree α) (st en : Option Path) : Fine t st en (Level.make ([], t) st en 0) :=
  ⟨ok_make t st en, by simp [Level.make]⟩

theorem reset_make (t : Tree α) (st en : Option Path) : (make t st en).reset = make t st en := rfl

/-- Going to the node at `p`. -/
theorem gotoTrail_eq {t : Tree α} {st en : Option Path} (p : Path) {n : Tree α} (hn : t.get? p = some n)
    (hst : Steps st en [] p) :
    ∃ ls, (make t st en).gotoTrail p = some ⟨t, st, en, ls⟩ ∧ (∀ x ∈ ls, Fine t st en x) ∧
      ((p = [] ∧ ls = [Level.make ([], t) st en 0]) ∨ (p ≠ [] ∧ PointsAt ls (p, n) ∧
        (fv false ls).Pairwise (fun a b => Branch false a.1 b.1) ∧
        ∀ m : Item α, (∃ w ∈ fv false ls, Desc (K false st en) w m) ↔
          t.get? m.1 = some m.2 ∧ Left p m.1 ∧ Steps st en [] m.1)) := by
  by_cases hp : p = []
  · subst hp
    refine ⟨[Level.make ([], t) st en 0], rfl, by simpa using fine_make t st en, .inl ⟨rfl, rfl⟩⟩
  · obtain ⟨ls', h1, h2, h3, h4⟩ := gotoLoop_eq (t := t) (st := st) (en := en) (l := Level.make ([], t) st en 0) (ls := [])
      (by simpa using fine_make t st en) p hp hn hst
    refine ⟨ls', ?_, h2, .inr ⟨hp, h3, gotoLoop_pairwise (t := t) (st := st) (en := en)
      (by simpa using fine_make t st en) p hp hn (by simp [fv]) (by simp [fv]) h1, ?_⟩⟩
    · unfold Range.gotoTrail
      rw [reset_make]
      simp only [make, h1]
    · intro m
      rw [h4 m]
      simp [fv, Level.make]

end Quickly.NodeRange
