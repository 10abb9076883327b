import Verif.Signature.Props

/-! # C83: The tree of a text of commands and arguments -/

namespace Quickly.Signature

open Quickly.Node Quickly.Build Quickly.Build.Spec Spec

/-! ## The conversion of arguments -/

theorem asArgument_id (k : Kind) (n : Tree Label) (h1 : k ≠ .pitch) (h2 : k ≠ .duration)
    (h3 : numeric k = true → n.val.1 ≠ .Unpitched) : asArgument k n = n := by
  obtain ⟨⟨c, s⟩, cs⟩ := n
  have hn : c ≠ .Unpitched → asNumber (.node (c, s) cs) = .node (c, s) cs := by
    intro hc
    unfold asNumber
    split
    · rename_i heq
      injection heq with heq
      injection heq with heq
      exact absurd heq hc
    · rfl
  cases k <;> first | rfl | exact absurd rfl h1 | exact absurd rfl h2 | exact hn (h3 rfl)

theorem isInt_eq (s : String) : isInt s = decide (s ≠ "" ∧ s.toList.all Char.isDigit = true) := by
  have : s.toList = [] ↔ s = "" := by simp
  unfold isInt
  by_cases h : s = ""
  · subst h; rfl
  · have h' : s.toList.isEmpty = false := by simpa using h
    rw [h', Bool.eq_iff_iff]
    simp [h]

theorem unpitchedToInt_eq (t : Tree Label) (hw : Whole t) (ht : t.val.1 = .Unpitched) :
    unpitchedToInt t = asNumber t := by
  obtain ⟨s, ks, rest, hc⟩ := hw ht
  obtain ⟨⟨c, h⟩, cs⟩ := t
  simp only [Tree.val, Tree.children] at ht hc
  subst ht hc
  have h1 : isSub 5 Cls.Unpitched Cls.Unpitched = true := by decide +kernel
  have h2 : isSub 5 Cls.Duration Cls.Duration = true := by decide +kernel
  simp only [unpitchedToInt, Tree.val, Tree.children, h1, if_true, List.find?_cons, h2, durationToInt, asNumber,
    isInt_eq, decide_eq_true_eq]
  by_cases hs : s ≠ "" ∧ s.toList.all Char.isDigit = true
  · rw [if_pos hs, if_pos hs]; rfl
  · rw [if_neg hs, if_neg hs]; rfl

theorem unpitchedToDuration_eq (t : Tree Label) (hw : Whole t) (ht : t.val.1 = .Unpitched) :
    unpitchedToDuration t = asDuration t := by
  obtain ⟨s, ks, rest, hc⟩ := hw ht
  obtain ⟨⟨c, h⟩, cs⟩ := t
  simp only [Tree.val, Tree.children] at ht hc
  subst ht hc
  have h1 : isSub 5 Cls.Unpitched Cls.Unpitched = true := by decide +kernel
  simp [unpitchedToDuration, Tree.val, Tree.children, h1, asDuration]

theorem conv_ok (a : Label) (ks1 ks2 : List Kind) (k : Kind) (cs : List (Tree Label)) (t : Tree Label)
    (hc : converts a.1 (ks1 ++ k :: ks2) = true) (hm : t.val.1 ∈ k.members) (hr : refuses a.1 k t.val.1 = false)
    (hf : confuses a.1 k t.val.1 = false) (hw : Whole t)
    (hp : (∀ x ∈ ks1, x = Kind.pitch) → pitches (.node a cs) = ks1.length) :
    lily.conv (.node a cs) t = asArgument k t := by
  show conv (.node a cs) t = _
  have hmem : (k, ks1.length) ∈ (ks1 ++ k :: ks2).zipIdx := by
    rw [List.mem_zipIdx_iff_getElem?]
    simp
  have h := List.all_eq_true.1 (List.all_eq_true.1 hc _ hmem) t.val.1 hm
  simp only [hr, hf, Bool.false_or] at h
  simp only [conv]
  rw [show (Tree.node a cs).val = a from rfl]
  rcases hpa : pitchArgs a.1 with _ | m
  · rw [hpa] at h
    simp only [Bool.and_eq_true, decide_eq_true_eq] at h ⊢
    obtain ⟨hkp, h⟩ := h
    by_cases h1 : isSub 5 a.1 .ConvertUnpitchedToDuration = true
    · rw [if_pos h1] at h ⊢
      by_cases hk : k = .duration
      · rw [if_pos hk, decide_eq_true_eq] at h
        rw [unpitchedToDuration_eq t hw h, hk]
        rfl
      · rw [if_neg hk] at h
        simp only [Bool.and_eq_true, Bool.not_eq_true', decide_eq_true_eq] at h
        rw [asArgument_id k t hkp hk (fun _ => h.2), unpitchedToDuration, h.1]
        rfl
    · rw [if_neg h1] at h ⊢
      rw [Bool.and_eq_true, decide_eq_true_eq] at h
      obtain ⟨hkd, h⟩ := h
      by_cases h2 : isSub 5 a.1 .ConvertUnpitchedToInt = true
      · rw [if_pos h2] at h ⊢
        by_cases h3 : isSub 5 t.val.1 .Unpitched = true
        · rw [if_pos h3, Bool.and_eq_true, decide_eq_true_eq] at h
          rw [unpitchedToInt_eq t hw h.2]
          have hk := h.1
          simp only [numeric, decide_eq_true_eq] at hk
          rcases hk with rfl | rfl | rfl <;> rfl
        · rw [if_neg h3, decide_eq_true_eq] at h
          rw [asArgument_id k t hkp hkd (fun _ => h), unpitchedToInt, if_neg h3]
      · rw [if_neg h2] at h ⊢
        rw [asArgument_id k t hkp hkd]
        intro hn
        simpa [hn] using h
  · rw [hpa] at h
    simp only [Bool.and_eq_true, List.take_left] at h ⊢
    have hp := hp (by simpa using h.1)
    rw [hp]
    by_cases hk : k = .pitch
    · have h2 := h.2
      rw [if_pos hk, Bool.and_eq_true] at h2
      rw [if_pos h2, hk]
      rfl
    · have h2 := h.2
      rw [if_neg hk, Bool.and_eq_true, Bool.not_eq_true'] at h2
      rw [if_neg (by rw [← Bool.and_eq_true, h2.2]; simp)]
      have h3 := h2.1
      rw [decide_eq_true_eq] at h3
      rcases h3 with rfl | rfl <;> rfl

theorem conv_comment (a : Label) (cs : List (Tree Label)) (t : Tree Label) (h : isComment t.val.1 = true) :
    lily.conv (.node a cs) t = t := by
  show conv (.node a cs) t = _
  have hn : isSub 5 t.val.1 .Note = false ∧ isSub 5 t.val.1 .Unpitched = false := by
    have : (allCls.all fun z => !isComment z || (!isSub 5 z .Note && !isSub 5 z .Unpitched)) = true := by
      decide +kernel
    have := List.all_eq_true.1 this t.val.1 (mem_allCls _)
    simpa [h] using this
  simp only [conv, unpitchedToDuration, unpitchedToInt, hn.1, hn.2]
  split
  · rfl
  · simp

theorem place_comment (ks : List Kind) (t : Tree Label) (ts : List (Tree Label)) (h : isComment t.val.1 = true) :
    place ks (t :: ts) = t :: place ks ts := by
  cases ks <;> simp [place, h]

theorem place_arg (k : Kind) (ks : List Kind) (t : Tree Label) (ts : List (Tree Label))
    (h : ¬ isComment t.val.1 = true) : place (k :: ks) (t :: ts) = asArgument k t :: place ks ts := by
  simp [place, h]

theorem foldl_place (a : Label) (form : List Kind) (hc : converts a.1 form = true) (ts : List (Tree Label)) :
    ∀ (ks1 ks2 rest : List Kind) (cs : List (Tree Label)), form = ks1 ++ (ks2 ++ rest) →
      List.Forall₂ (fun (k : Kind) (l : Label) => l.1 ∈ k.members ∧ refuses a.1 k l.1 = false ∧
        confuses a.1 k l.1 = false) ks2 ((ts.map Tree.val).filter fun l => !isComment l.1) →
      (∀ t ∈ ts, Whole t) →
      ((∀ x ∈ ks1, x = Kind.pitch) → pitches (.node a cs) = ks1.length) →
      ts.foldl lily.addArg (.node a cs) = .node a (cs ++ place (ks2 ++ rest) ts) := by
  induction ts with
  | nil => intro ks1 ks2 rest cs _ _ _ _; simp [place]
  | cons t ts ih =>
    intro ks1 ks2 rest cs hform hf hw hp
    rw [List.foldl_cons]
    have hadd : lily.addArg (.node a cs) t = .node a (cs ++ [lily.conv (.node a cs) t]) := rfl
    rw [hadd]
    by_cases h : isComment t.val.1 = true
    · rw [place_comment _ _ _ h, conv_comment a cs t h]
      rw [List.map_cons, List.filter_cons_of_neg (by simp [h])] at hf
      rw [ih ks1 ks2 rest _ hform hf (fun t ht => hw t (List.mem_cons_of_mem _ ht))]
      · simp
      · intro hx
        rw [← hp hx]
        have := List.all_eq_true.1 pitchable_all t.val.1 (mem_allCls _)
        simp only [h, Bool.not_true, Bool.false_or, Bool.not_eq_true'] at this
        simp [pitches, Tree.children, List.filter_append, this]
    · rw [List.map_cons, List.filter_cons_of_pos (by simpa using h)] at hf
      cases hf with
      | @cons k _ ks _ hk hf =>
        rw [List.cons_append, place_arg _ _ _ _ h, conv_ok a ks1 (ks ++ rest) k cs t (by rw [← List.cons_append, ← hform]; exact hc) hk.1 hk.2.1 hk.2.2
          (hw t (by simp)) hp]
        rw [ih (ks1 ++ [k]) ks rest _ (by simp [hform]) hf (fun t ht => hw t (List.mem_cons_of_mem _ ht))]
        · simp
        · intro hx
          have hkp : k = .pitch := hx k (by simp)
          have hx' := hp (fun x hx' => hx x (by simp [hx']))
          subst hkp
          have hpp : isSub 5 Cls.Pitch .Pitchable = true := by decide +kernel
          simp only [pitches, Tree.children] at hx' ⊢
          rw [List.filter_append, List.length_append, hx']
          simp [asArgument, asPitch, Tree.val, hpp]

/-! ## Texts -/

theorem unpitched_leaf (a : Label) (h : a.1 = .Unpitched) : formsOf a = [] := by
  simp [formsOf, h, forms]

theorem words_inner (a : Label) (form : List Kind) (ls : List Label) (h : Fits a form ls) :
    ∀ l ∈ ls, l.1 ∉ inner := by
  obtain ⟨ks, rest, rfl, h1, -⟩ := h
  intro l hl
  obtain ⟨i, hi, rfl⟩ := List.getElem_of_mem hl
  have := h1.get (by rw [h1.length_eq]; exact hi) hi
  exact members_inner _ _ this.1

theorem reads_good (x : Ex Label) (t : Tree Label) (h : Spec.Reads x t) :
    Good lily x ∧ x.tree lily = t ∧ t.val = x.label ∧ x.label.1 ∉ inner ∧ Whole t ∧
      ∀ b : Label, b.1 ∉ inner → Ends b x → Over lily b x := by
  induction h with
  | leaf n hf hi hw =>
    refine ⟨.mk _ _ (by simp) .nil (by simp), rfl, rfl, hi, hw, ?_⟩
    intro b hb he
    cases he with
    | mk _ _ hr _ =>
      refine .mk _ _ ?_ (by simp)
      rintro (⟨c, ⟨s, hs, -⟩, -⟩ | ⟨hc, hg, hs, hl⟩)
      · obtain ⟨form, hform, -⟩ := within_of n.val hi s hs
        rw [hf] at hform
        cases hform
      · rw [ignored_eq] at hc
        exact hr (.inr ⟨hc, silent _ hg hs, rfl⟩)
  | command a form args ts hform hi hfit hconf hlast hch hlen hr ih =>
    have hwords : words args = (ts.map Tree.val).filter fun l => !isComment l.1 := by
      unfold words
      congr 1
      apply List.ext_getElem (by simpa using hlen)
      intro i h1 h2
      simp only [List.length_map] at h1 h2
      have := (ih (args[i], ts[i]) (by
        rw [List.mem_iff_getElem]; exact ⟨i, by simp; omega, by simp⟩)).2.2.1
      simpa using this.symm
    have hih : ∀ x ∈ args, ∃ t, Good lily x ∧ x.tree lily = t ∧ t.val = x.label ∧ x.label.1 ∉ inner ∧ Whole t ∧
        ∀ b : Label, b.1 ∉ inner → Ends b x → Over lily b x := by
      intro x hx
      obtain ⟨i, hi, rfl⟩ := List.getElem_of_mem hx
      exact ⟨ts[i]'(by omega), ih (args[i], ts[i]'(by omega)) (by
        rw [List.mem_iff_getElem]; exact ⟨i, by simp; omega, by simp⟩)⟩
    refine ⟨.mk _ _ ?_ ?_ ?_, ?_, rfl, hi, ?_, ?_⟩
    · intro pre z post he
      have harg : arguments lily (.node a []) = [] := rfl
      rw [harg, List.nil_append, labels_eq]
      exact fits_accepts a form args hform hfit hlast pre z post he
    · refine hch.imp_of_mem_imp ?_
      intro x y hx hy hxy
      obtain ⟨_, _, _, _, _, _, ho⟩ := hih x hx
      obtain ⟨_, _, _, _, hyi, _, _⟩ := hih y hy
      exact ho _ hyi hxy
    · intro x hx
      obtain ⟨_, h, _⟩ := hih x hx
      exact h
    · rw [Ex.tree, trees_map]
      have htree : args.map (Ex.tree lily) = ts := by
        apply List.ext_getElem (by simpa using hlen)
        intro i h1 h2
        simp only [List.length_map] at h1
        have := (ih (args[i], ts[i]) (by
          rw [List.mem_iff_getElem]; exact ⟨i, by simp; omega, by simp⟩)).2.1
        simpa using this
      rw [htree]
      obtain ⟨ks, rest, rfl, h1, h2⟩ := hfit
      have := foldl_place a (ks ++ rest) (converts_of a _ hform) ts [] ks rest [] rfl ?_ ?_ (fun _ => rfl)
      · simpa using this
      · rw [← hwords]
        rw [List.forall₂_iff_get] at h1 ⊢
        refine ⟨h1.1, fun i hi1 hi2 => ⟨(h1.2 i hi1 hi2).1, (h1.2 i hi1 hi2).2, ?_⟩⟩
        refine hconf ((ks.get ⟨i, hi1⟩), ((words args).get ⟨i, hi2⟩)) ?_
        rw [List.mem_iff_getElem]
        exact ⟨i, by simp; omega, by simp [List.getElem_append_left hi1]⟩
      · intro t ht
        obtain ⟨i, hi, rfl⟩ := List.getElem_of_mem ht
        exact (ih (args[i]'(by omega), ts[i]) (by
          rw [List.mem_iff_getElem]; exact ⟨i, by simp; omega, by simp⟩)).2.2.2.2.1
    · intro hu
      rw [unpitched_leaf a hu] at hform
      cases hform
    · intro b hb he
      cases he with
      | mk _ _ hroom hends =>
        refine .mk _ _ ?_ ?_
        · intro hacc
          apply hroom
          rw [labels_eq] at hacc
          exact room_of_accepts a _ b hi (words_inner a form _ hfit) hb hacc
        · intro y hy
          obtain ⟨_, _, _, _, _, _, ho⟩ := hih y (List.mem_of_getLast? hy)
          exact ho b hb (hends y hy)

/-- Documented commands with their arguments, in any nesting, with comments between them: `build_tree` gives the tree
of every expression. -/
theorem C83_text_partial (xs : List (Ex Label)) (ts : List (Tree Label)) (h : ReadsAll xs ts) :
    lily.buildTree (inputs xs) = ts := by
  have hg : GoodAll lily xs := by
    have hx : ∀ x ∈ xs, ∃ t, Spec.Reads x t := by
      intro x hx
      obtain ⟨i, hi, rfl⟩ := List.getElem_of_mem hx
      exact ⟨_, h.1.get hi (by rw [← h.1.length_eq]; exact hi)⟩
    refine ⟨fun x hx' => (reads_good x _ (hx x hx').choose_spec).1, h.2.imp_of_mem_imp ?_⟩
    intro x y hx' hy' hxy
    exact (reads_good x _ (hx x hx').choose_spec).2.2.2.2.2 _
      (reads_good y _ (hx y hy').choose_spec).2.2.2.1 hxy
  rw [C82_nesting lily lily_proper xs hg, trees_map]
  have := h.1
  clear hg h
  induction this with
  | nil => rfl
  | cons h _ ih => rw [List.map_cons, ih, (reads_good _ _ h).2.1]

end Quickly.Signature
