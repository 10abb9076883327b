import Verif.Signature.Tables

/-! # C83: The commands of LilyPond get the arguments that LilyPond documents -/

namespace Quickly.Signature

open Quickly.Node Quickly.Build Quickly.Build.Spec Spec

/-! ## One argument -/

theorem isa_of (z : Label) (c : Entry) : lily.isa z c = c.any fun k => isSub 5 z.1 k := rfl

theorem match_of_covers (a : Cls) (ks : List Kind) :
    ∀ (rest : List Kind) (s : List Entry) (ls : List Label), covers a (ks ++ rest) s = true →
      List.Forall₂ (fun (k : Kind) (l : Label) => takes a k l.1 = true) ks ls →
      ∃ pre post, s = pre ++ post ∧ Match lily ls pre ∧ rest.length ≤ post.length := by
  induction ks with
  | nil =>
    intro rest s ls hc hf
    cases hf
    simp only [covers, List.nil_append, Bool.and_eq_true, decide_eq_true_eq] at hc
    exact ⟨[], s, rfl, .nil, hc.1⟩
  | cons k ks ih =>
    intro rest s ls hc hf
    cases hf with
    | @cons _ l _ ls h hf =>
      rcases s with _ | ⟨c, s⟩
      · simp [covers] at hc
      · simp only [covers, List.cons_append, List.length_cons, List.zip_cons_cons, List.all_cons, Bool.and_eq_true,
          decide_eq_true_eq, Nat.add_le_add_iff_right] at hc
        obtain ⟨pre, post, rfl, hm, hl⟩ := ih rest s ls (by
          rw [covers, Bool.and_eq_true, decide_eq_true_eq]; exact ⟨hc.1, hc.2.2⟩) hf
        refine ⟨c :: pre, post, rfl, .cons ?_ hm, hl⟩
        have := List.all_eq_true.1 hc.2.1 l.1 (mem_allCls _)
        simpa [h, isa_of] using this

theorem fits_taken (a : Cls) (ks rest : List Kind) (n : ℕ) (hn : ks.length = n)
    (hi : ∀ i < n, ignores a i = false) : ∃ r, taken a (ks ++ rest) = ks ++ r ∧
      (rest ≠ [] → ignores a n = false → r ≠ []) := by
  unfold taken
  by_cases h : ignores a 2 = true
  · rw [if_pos h]
    have hl : n ≤ 2 := by
      by_contra hc
      rw [hi 2 (by omega)] at h
      cases h
    refine ⟨rest.take (2 - ks.length), by rw [List.take_append, List.take_of_length_le (by omega)], ?_⟩
    intro hr hg
    have : n ≠ 2 := by
      rintro rfl
      rw [h] at hg
      cases hg
    rcases rest with _ | ⟨x, rest⟩
    · exact absurd rfl hr
    · rw [show 2 - ks.length = (1 - ks.length) + 1 by omega]
      simp
  · rw [if_neg h]
    exact ⟨rest, rfl, fun hr _ => hr⟩

theorem canHave_of_fits (a : Label) (form : List Kind) (ls : List Label) (hf : form ∈ formsOf a) (h : Begins a form ls)
    (hl : ls.length < form.length) (hi : ignores a.1 ls.length = false) : ∃ c, CanHave lily a ls c := by
  obtain ⟨ks, rest, rfl, h1, h2⟩ := h
  obtain ⟨s, hs, hc⟩ := covers_of a _ hf
  obtain ⟨r, hr, hr'⟩ := fits_taken a.1 ks rest ls.length h1.length_eq h2
  rw [hr] at hc
  obtain ⟨pre, post, rfl, hm, hp⟩ := match_of_covers a.1 ks r s ls hc h1
  have hne : rest ≠ [] := by
    rintro rfl
    simp [h1.length_eq] at hl
  have := List.length_pos_iff.2 (hr' hne hi)
  rcases post with _ | ⟨c, post⟩
  · simp at hp
    exact absurd hp (hr' hne hi)
  · exact ⟨c, _, hs, pre, post, rfl, hm⟩

theorem forall₂_concat {α β : Type} {R : α → β → Prop} (ls : List α) (z : α) :
    ∀ m, List.Forall₂ R (ls ++ [z]) m → ∃ m1 c, m = m1 ++ [c] ∧ List.Forall₂ R ls m1 ∧ R z c := by
  induction ls with
  | nil =>
    intro m h
    rcases h with _ | ⟨h1, h⟩
    cases h
    exact ⟨[], _, rfl, .nil, h1⟩
  | cons l ls ih =>
    intro m h
    rcases h with _ | ⟨h1, h⟩
    obtain ⟨m1, c, rfl, h2, h3⟩ := ih _ h
    exact ⟨_ :: m1, c, rfl, .cons h1 h2, h3⟩

theorem begins_of_fits (a : Label) (form : List Kind) (ls : List Label) (h : Fits a form ls) : Begins a form ls := by
  obtain ⟨ks, rest, rfl, h1, h2⟩ := h
  refine ⟨ks, rest, rfl, h1.imp ?_, h2⟩
  intro k l h
  simp [takes, h.1, h.2]

theorem accepts_of_begins (a : Label) (form : List Kind) (ls : List Label) (z : Label) (hf : form ∈ formsOf a)
    (h : Begins a form (ls ++ [z])) : Accepts lily a ls z := by
  obtain ⟨ks, rest, rfl, h1, h2⟩ := h
  obtain ⟨s, hs, hc⟩ := covers_of a _ hf
  obtain ⟨r, hr, -⟩ := fits_taken a.1 ks rest _ h1.length_eq h2
  rw [hr] at hc
  obtain ⟨pre, post, rfl, hm, hp⟩ := match_of_covers a.1 ks r s _ hc h1
  obtain ⟨p1, c, rfl, hm1, hz⟩ := forall₂_concat ls z pre hm
  exact .inl ⟨c, ⟨_, hs, p1, post, by simp, hm1⟩, .inr hz⟩

/-- A documented argument is taken, if it is not one that the library does not take. -/
theorem C83_takes_partial (a : Label) (form : List Kind) (ls : List Label) (z : Label) (hf : form ∈ formsOf a)
    (h : Fits a form (ls ++ [z])) : Accepts lily a ls z :=
  accepts_of_begins a form ls z hf (begins_of_fits _ _ _ h)

/-- The arguments that the library is said not to take are not taken, whatever is before them. -/
theorem C83_refused (a : Label) (ks rest : List Kind) (k : Kind) (ls : List Label) (z : Label)
    (hf : ks ++ k :: rest ∈ formsOf a) (hl : ls.length = ks.length) (hz : z.1 ∈ k.members)
    (h : refuses a.1 k z.1 = true ∨ ignores a.1 ks.length = true) : ¬ Accepts lily a ls z := by
  have hd := declines_of a _ hf
  have hm : (k, ks.length) ∈ (ks ++ k :: rest).zipIdx := by
    rw [List.mem_zipIdx_iff_getElem?]
    simp
  have := List.all_eq_true.1 (List.all_eq_true.1 hd _ hm) z.1 hz
  simp only [Bool.and_eq_true, Bool.or_eq_true, Bool.not_eq_true'] at this
  obtain ⟨hc, hd⟩ := this
  have hi : lily.ignored z = false := by rw [ignored_eq]; exact hc
  have hd := hd.resolve_left (by rw [Bool.or_eq_false_iff]; rintro ⟨h1, h2⟩; rcases h with h | h <;> simp_all)
  rintro (⟨c, ⟨s, hs, pre, post, rfl, hmat⟩, hzc⟩ | ⟨hc', -⟩)
  · have h1 := List.all_eq_true.1 hd _ hs
    have hpl : pre.length = ks.length := by rw [← hl]; exact (List.Forall₂.length_eq hmat).symm
    rw [List.getElem?_append_right (by omega), hpl, Nat.sub_self, List.getElem?_cons_zero] at h1
    simp only [Bool.not_eq_true'] at h1
    rcases hzc with h | h
    · rw [hi] at h
      cases h
    · rw [isa_of, h1] at h
      cases h
  · rw [hi] at hc'
    cases hc'

theorem begins_of_match (a : Cls) (pre : List Entry) :
    ∀ (form : List Kind) (post : List Entry) (ls : List Label), within a form (pre ++ post) = true →
      Match lily ls pre → (∀ l ∈ ls, l.1 ∉ inner) →
      ∃ ks rest, form = ks ++ rest ∧ post.length ≤ rest.length ∧
        List.Forall₂ (fun (k : Kind) (l : Label) => takes a k l.1 = true) ks ls := by
  induction pre with
  | nil =>
    intro form post ls hw hm _
    cases hm
    simp only [within, List.nil_append, Bool.and_eq_true, decide_eq_true_eq] at hw
    exact ⟨[], form, rfl, hw.1, .nil⟩
  | cons c pre ih =>
    intro form post ls hw hm hin
    cases hm with
    | @cons l _ ls _ h hm =>
      rcases form with _ | ⟨k, form⟩
      · simp [within] at hw
      · simp only [within, List.cons_append, List.length_cons, List.zip_cons_cons, List.all_cons, Bool.and_eq_true,
          decide_eq_true_eq, Nat.add_le_add_iff_right] at hw
        obtain ⟨ks, rest, rfl, hl, hf⟩ := ih form post ls
          (by rw [within, Bool.and_eq_true, decide_eq_true_eq]; exact ⟨hw.1, hw.2.2⟩) hm
          (fun l hl => hin l (List.mem_cons_of_mem _ hl))
        refine ⟨k :: ks, rest, rfl, hl, .cons ?_ hf⟩
        have := List.all_eq_true.1 hw.2.1 l.1 (mem_allCls l.1)
        have hli := hin l (by simp)
        rw [isa_of] at h
        simpa [hli, h, -List.any_eq_true] using this

theorem taken_append (a : Cls) (form ks rest : List Kind) (h : taken a form = ks ++ rest) :
    (∃ r, form = ks ++ r ∧ rest.length ≤ r.length) ∧ ∀ i < ks.length, ignores a i = false := by
  unfold taken at h
  by_cases h2 : ignores a 2 = true
  · rw [if_pos h2] at h
    refine ⟨⟨rest ++ form.drop 2, ?_, by simp⟩, ?_⟩
    · rw [← List.append_assoc, ← h, List.take_append_drop]
    · intro i hi
      have : (form.take 2).length ≤ 2 := List.length_take_le _ _
      rw [h, List.length_append] at this
      simp only [ignores, decide_eq_false_iff_not]
      omega
  · rw [if_neg h2] at h
    refine ⟨⟨rest, h, Nat.le_refl _⟩, ?_⟩
    intro i hi
    simp only [ignores, decide_eq_true_eq, decide_eq_false_iff_not] at h2 ⊢
    rintro ⟨h3, rfl⟩
    exact h2 ⟨h3, trivial⟩

/-- Nothing else is taken: an argument that is taken is the next one of a documented form, up to the three mistakes. -/
theorem C83_only (a : Label) (ls : List Label) (z : Label) (ha : a.1 ∉ inner) (hls : ∀ l ∈ ls, l.1 ∉ inner)
    (hz : z.1 ∉ inner) (hc : isComment z.1 = false) (h : Accepts lily a ls z) :
    ∃ form ∈ formsOf a, Begins a form (ls ++ [z]) := by
  have hi : lily.ignored z = false := by rw [ignored_eq]; exact hc
  rcases h with ⟨c, ⟨s, hs, pre, post, rfl, hmat⟩, hzc⟩ | ⟨hc', -⟩
  · rw [hi] at hzc
    have hzc := hzc.resolve_left (by simp)
    obtain ⟨form, hf, hw⟩ := within_of a ha _ hs
    obtain ⟨ks, rest, h1, -, h2⟩ := begins_of_match a.1 (pre ++ [c]) _ post (ls ++ [z]) (by simpa using hw)
      (List.rel_append hmat (.cons hzc .nil)) (by
        intro l hl
        rcases List.mem_append.1 hl with hl | hl
        · exact hls l hl
        · rw [List.mem_singleton.1 hl]; exact hz)
    obtain ⟨⟨r, h3, -⟩, h4⟩ := taken_append a.1 form ks rest h1
    exact ⟨form, hf, ks, r, h3, h2, by rw [← h2.length_eq]; exact h4⟩
  · rw [hi] at hc'
    cases hc'

/-- Exactly: what the tables say. -/
theorem C83_accepts (a : Label) (ls : List Label) (z : Label) (ha : a.1 ∉ inner) (hls : ∀ l ∈ ls, l.1 ∉ inner)
    (hz : z.1 ∉ inner) (hc : isComment z.1 = false) :
    Accepts lily a ls z ↔ ∃ form ∈ formsOf a, Begins a form (ls ++ [z]) :=
  ⟨C83_only a ls z ha hls hz hc, fun ⟨form, hf, h⟩ => accepts_of_begins a form ls z hf h⟩

/-! ## Expressions -/

theorem room_of_accepts (a : Label) (ls : List Label) (b : Label) (ha : a.1 ∉ inner) (hls : ∀ l ∈ ls, l.1 ∉ inner)
    (hb : b.1 ∉ inner) (h : Accepts lily a ls b) : Room a ls b := by
  by_cases hc : isComment b.1 = true
  · rcases h with ⟨c, ⟨s, hs, pre, post, rfl, hmat⟩, -⟩ | ⟨-, hg, hs, hl⟩
    · obtain ⟨form, hf, hw⟩ := within_of a ha _ hs
      obtain ⟨ks, rest, h1, hlen, h2⟩ := begins_of_match a.1 pre _ (c :: post) ls hw hmat hls
      rcases rest with _ | ⟨k, rest⟩
      · simp at hlen
      obtain ⟨⟨r, h3, h5⟩, h4⟩ := taken_append a.1 form ks (k :: rest) h1
      obtain ⟨-, h6⟩ := taken_append a.1 form (ks ++ [k]) rest (by simpa using h1)
      refine .inl ⟨form, hf, ?_⟩
      rw [if_pos hc]
      have := h2.length_eq
      refine ⟨⟨ks, r, h3, h2, by rw [← this]; exact h4⟩, ?_, h6 _ (by simp [this])⟩
      subst h3
      simp only [List.length_cons, List.length_append] at h5 ⊢
      omega
    · exact .inr ⟨hc, silent a hg hs, hl⟩
  · obtain ⟨form, hf, h⟩ := C83_only a ls b ha hls hb (by simpa using hc) h
    exact .inl ⟨form, hf, by rw [if_neg hc]; exact h⟩

theorem labels_eq (xs : List (Ex Label)) : labels lily xs = words xs := by
  simp only [labels, words, ignored_eq]

theorem trees_map (e : Env Label Entry) (xs : List (Ex Label)) : trees e xs = xs.map (Ex.tree e) := by
  induction xs with
  | nil => rfl
  | cons x xs ih => rw [trees, ih]; rfl

theorem fits_append (a : Label) (form : List Kind) (l1 l2 : List Label) (h : Fits a form (l1 ++ l2)) :
    Fits a form l1 := by
  obtain ⟨ks, rest, rfl, h1, h2⟩ := h
  refine ⟨ks.take l1.length, ks.drop l1.length ++ rest, by rw [← List.append_assoc, List.take_append_drop], ?_, ?_⟩
  · have := List.forall₂_take l1.length h1
    simpa using this
  · intro i hi
    exact h2 i (by simp; omega)

theorem fits_length (a : Label) (form : List Kind) (ls : List Label) (h : Fits a form ls) :
    ls.length ≤ form.length := by
  obtain ⟨ks, rest, rfl, h1, -⟩ := h
  simp [h1.length_eq]

theorem words_append (xs ys : List (Ex Label)) : words (xs ++ ys) = words xs ++ words ys := by simp [words]

theorem fits_accepts (a : Label) (form : List Kind) (args : List (Ex Label)) (hf : form ∈ formsOf a)
    (h : Fits a form (words args))
    (hlast : ∀ y, args.getLast? = some y → isComment y.label.1 = true →
        (words args).length < form.length ∧ ignores a.1 (words args).length = false)
    (pre : List (Ex Label)) (z : Ex Label) (post : List (Ex Label)) (he : args = pre ++ z :: post) :
    Accepts lily a (words pre) z.label := by
  subst he
  have hw : words (pre ++ z :: post) = words pre ++ words (z :: post) := words_append _ _
  by_cases hc : isComment z.label.1 = true
  · have hz : words (z :: post) = words post := by simp [words, hc]
    have hcan : ∃ c, CanHave lily a (words pre) c := by
      rcases hp : words post with _ | ⟨w, ws⟩
      · have hall : ∀ x ∈ z :: post, isComment x.label.1 = true := by
          intro x hx
          by_contra hxc
          have : x.label ∈ words (z :: post) := by
            simp only [words, List.mem_filter, List.mem_map]
            exact ⟨⟨x, hx, rfl⟩, by simpa using hxc⟩
          rw [hz, hp] at this
          cases this
        obtain ⟨y, hy⟩ : ∃ y, (pre ++ z :: post).getLast? = some y :=
          ⟨_, List.getLast?_eq_getLast_of_ne_nil (by simp)⟩
        have hym : y ∈ z :: post := by
          rw [List.getLast?_append_of_ne_nil _ (by simp)] at hy
          exact List.mem_of_getLast? hy
        have := hlast y hy (hall y hym)
        rw [hw, hz, hp, List.append_nil] at this h
        exact canHave_of_fits a form _ hf (begins_of_fits _ _ _ h) this.1 this.2
      · rw [hw, hz, hp] at h
        have h1 : Fits a form (words pre ++ [w]) := fits_append a form _ ws (by simpa using h)
        obtain ⟨_, _, _, _, hi⟩ := h1
        refine canHave_of_fits a form _ hf (begins_of_fits _ _ _ (fits_append _ _ _ _ h)) ?_ (hi _ (by simp))
        have := fits_length _ _ _ h
        simp at this
        omega
    obtain ⟨c, hc'⟩ := hcan
    exact .inl ⟨c, hc', .inl (by rw [ignored_eq]; exact hc)⟩
  · have hz : words (z :: post) = z.label :: words post := by simp [words, hc]
    rw [hw, hz] at h
    exact C83_takes_partial a form _ _ hf (fits_append a form _ (words post) (by simpa using h))

end Quickly.Signature
