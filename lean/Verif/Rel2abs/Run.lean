import Verif.Rel2abs.Machine

/-! # The conversion ends, and how -/

namespace Quickly.Rel2abs

open Quickly.Pitch Quickly.Relative Spec

/-- With enough room for nested calls the result is `r`. -/
def Ends {α : Type} (x : ℕ → Option α) (r : α) : Prop := ∃ N, ∀ f ≥ N, x f = some r

namespace Fr

theorem notes_union (F : Fr) (A B : Set Id) : F.notes (A ∪ B) = F.notes A ∪ F.notes B := by
  ext i
  simp only [Fr.notes, Set.mem_setOf_eq, Set.mem_union]
  constructor
  · rintro ⟨r, hr, h | h, hi⟩
    · exact .inl ⟨r, hr, h, hi⟩
    · exact .inr ⟨r, hr, h, hi⟩
  · rintro (⟨r, hr, h, hi⟩ | ⟨r, hr, h, hi⟩)
    · exact ⟨r, hr, .inl h, hi⟩
    · exact ⟨r, hr, .inr h, hi⟩

theorem checks_union (F : Fr) (A B : Set Id) : F.checks (A ∪ B) = F.checks A ∪ F.checks B := by
  ext i
  simp only [Fr.checks, Set.mem_setOf_eq, Set.mem_union]
  constructor
  · rintro ⟨r, hr, h | h, hi⟩
    · exact .inl ⟨r, hr, h, hi⟩
    · exact .inr ⟨r, hr, h, hi⟩
  · rintro (⟨r, hr, h, hi⟩ | ⟨r, hr, h, hi⟩)
    · exact ⟨r, hr, .inl h, hi⟩
    · exact ⟨r, hr, .inr h, hi⟩

theorem notes_empty (F : Fr) : F.notes ∅ = ∅ := by ext i; simp [Fr.notes]
theorem checks_empty (F : Fr) : F.checks ∅ = ∅ := by ext i; simp [Fr.checks]

theorem add_add (F : Fr) (s : St) (A B : Set Id) : F.add (F.add s A) B = F.add s (A ∪ B) := by
  simp only [Fr.add, notes_union, checks_union, Set.union_assoc]

theorem add_empty (F : Fr) (s : St) : F.add s ∅ = s := by
  simp only [Fr.add, notes_empty, checks_empty, Set.union_empty]

theorem WF.add {F : Fr} {s : St} (w : F.WF s) {A : Set Id} (h : A ⊆ F.todo s) : F.WF (F.add s A) where
  D i hi := by
    rcases hi with hi | hi
    · exact w.D i hi
    · exact (h hi).1
  V i hi := by
    simp only [Fr.add, notes_union]
    rcases hi with hi | hi
    · exact .inl (w.V hi)
    · exact .inr hi
  X i hi := by
    simp only [Fr.add, checks_union]
    rcases hi with hi | hi
    · exact .inl (w.X hi)
    · exact .inr hi

theorem todo_add {F : Fr} {s : St} {A B : Set Id} (hA : A ⊆ F.todo s) (hB : B ⊆ F.todo (F.add s A)) : A ∪ B ⊆ F.todo s := by
  intro i hi
  rcases hi with hi | hi
  · exact hA hi
  · exact ⟨(hB hi).1, fun h => (hB hi).2 (.inl h)⟩

theorem count_mono {F : Fr} {s s' : St} (h : s.D ⊆ s'.D) : F.count s' ≤ F.count s := by
  unfold Fr.count
  refine List.Sublist.length_le (List.monotone_filter_right _ ?_)
  intro r hr
  simp only [decide_eq_true_eq] at hr ⊢
  exact fun h' => hr (h h')

theorem count_lt {F : Fr} {s s' : St} (h : s.D ⊆ s'.D) {r : Doc} (hr : r ∈ relsOf F.T) (h1 : r.id ∉ s.D) (h2 : r.id ∈ s'.D) :
    F.count s' < F.count s := by
  classical
  unfold Fr.count
  have gen : ∀ l : List Doc, r ∈ l → (l.filter fun r => decide (r.id ∉ s'.D)).length < (l.filter fun r => decide (r.id ∉ s.D)).length := by
    intro l
    induction l with
    | nil => intro h; simp at h
    | cons a l ih =>
      intro hm
      have mono : (l.filter fun r => decide (r.id ∉ s'.D)).length ≤ (l.filter fun r => decide (r.id ∉ s.D)).length := by
        refine List.Sublist.length_le (List.monotone_filter_right _ ?_)
        intro r hr
        simp only [decide_eq_true_eq] at hr ⊢
        exact fun h' => hr (h h')
      by_cases ha : r = a
      · subst ha
        rw [List.filter_cons_of_neg (by simpa using h2), List.filter_cons_of_pos (by simpa using h1), List.length_cons]
        omega
      · have hm : r ∈ l := by
          rcases List.mem_cons.1 hm with h | h
          · exact absurd h ha
          · exact h
        have := ih hm
        by_cases ha' : a.id ∈ s'.D
        · rw [List.filter_cons_of_neg (by simpa using ha')]
          by_cases ha2 : a.id ∈ s.D
          · rw [List.filter_cons_of_neg (by simpa using ha2)]; exact this
          · rw [List.filter_cons_of_pos (by simpa using ha2), List.length_cons]; omega
        · have ha2 : a.id ∉ s.D := fun h' => ha' (h h')
          rw [List.filter_cons_of_pos (by simpa using ha'), List.filter_cons_of_pos (by simpa using ha2), List.length_cons, List.length_cons]
          omega
  convert gen _ hr

end Fr

/-- `make_absolute` of a `\relative` that is still there, when there are not more than `k`. -/
def MA (F : Fr) (k : ℕ) : Prop := ∀ s r, F.WF s → r ∈ relsOf F.T → r.id ∉ s.D → F.count s ≤ k →
  ∃ A ⊆ F.todo s, r.id ∈ A ∧ Ends (fun f => makeAbsolute F.c F.T.id f (F.H s) r.id) (.ok (F.H (F.add s A)))

variable {F : Fr} (g : F.Good)
include g

/-- Looking through a list for `\relative` nodes. -/
theorem ca_list {k : ℕ} (hm : MA F k) : ∀ (n : ℕ) (ts : List Doc) (o : Id) (pre : List Id) (s : St), sizeOf ts < n → F.WF s → F.count s ≤ k →
    F.h0.kids o = pre ++ ts.map Doc.id → ShowsL F.h0 ts → NiceL ts → (∀ r ∈ relsOfL ts, r ∈ relsOf F.T) →
    ∃ A ⊆ F.todo s, (∀ r ∈ relsOfL ts, r.id ∈ s.D ∪ A) ∧
      Ends (fun f => convertAll F.c F.T.id f (F.H s) o pre.length) (.ok (F.H (F.add s A)))
  | 0, _, _, _, _, hn, _, _, _, _, _, _ => absurd hn (Nat.not_lt_zero _)
  | n + 1, [], o, pre, s, _, w, _, he, _, _, _ => by
    refine ⟨∅, Set.empty_subset _, by simp [relsOfL], 1, fun f hf => ?_⟩
    obtain ⟨f, rfl⟩ : ∃ f', f = f' + 1 := ⟨f - 1, by omega⟩
    beta_reduce
    rw [convertAll, g.get_end (by simpa using he), F.add_empty]
  | n + 1, t :: ts, o, pre, s, hn, w, hk, he, hs, hc, hr => by
    rw [ShowsL] at hs
    rw [NiceL] at hc
    rw [List.map_cons] at he
    simp only [List.cons.sizeOf_spec] at hn
    by_cases hx : t.id ∈ s.X
    · -- it has been removed
      obtain ⟨e1, e2⟩ := g.get_removed w he hx
      have e1 : ts = [] := by simpa using e1
      subst e1
      refine ⟨∅, Set.empty_subset _, ?_, 1, fun f hf => ?_⟩
      · have hl : t.lab = .check := by rw [← hs.1.lab]; exact g.X_lab w hx
        intro r hr
        exfalso
        rw [relsOfL, relsOfL, List.append_nil] at hr
        cases t with
        | node i l ks =>
          have hl : l = .check := hl
          subst hl
          have := (nice_other hc.1 (by simp)).1 rfl
          rw [relsOf, if_neg (by simp), relsOfL_noRel _ this] at hr
          simp at hr
      · obtain ⟨f, rfl⟩ : ∃ f', f = f' + 1 := ⟨f - 1, by omega⟩
        beta_reduce
        rw [convertAll, e2, F.add_empty]
    · have hget := g.get w he hx
      -- what is done with the node
      have step : ∃ A ⊆ F.todo s, (∀ r ∈ relsOf t, r.id ∈ s.D ∪ A) ∧
          Ends (fun f => if (F.H s).lab (F.sub s.D t.id) = .relative then makeAbsolute F.c F.T.id f (F.H s) (F.sub s.D t.id)
            else convertAll F.c F.T.id f (F.H s) (F.sub s.D t.id) 0) (.ok (F.H (F.add s A))) := by
        by_cases hl : t.lab = .relative
        · have ht : relsOf t = [t] := by
            cases t with
            | node i l ks => have hl : l = .relative := hl; rw [relsOf, if_pos hl]
          have htr : t ∈ relsOf F.T := hr t (by rw [relsOfL, ht]; simp)
          by_cases hd : t.id ∈ s.D
          · have hsub : F.sub s.D t.id = (bodyOf t).id := by rw [Fr.sub, if_pos hd, g.body_id htr]
            obtain ⟨hb1, _, hb3, _⟩ := relOk_body (g.relOk htr)
            have hbs := g.body_shows htr
            have hlab : (F.H s).lab (bodyOf t).id ≠ .relative := fun h => g.body_lab htr ((g.lab_rel w).1 h).1
            have hsz : sizeOf (bodyOf t).kids < n := by
              have h1 := List.sizeOf_lt_of_mem hb1
              have h2 : sizeOf t.kids < sizeOf t := by cases t; simp [Doc.kids]
              have h3 : sizeOf (bodyOf t).kids < sizeOf (bodyOf t) := by cases bodyOf t; simp [Doc.kids]
              omega
            obtain ⟨A, hA, _, hE⟩ := ca_list hm n (bodyOf t).kids (bodyOf t).id [] s hsz w hk
              (by simpa using hbs.kids) hbs.showsL (niceL_noRel _ hb3.kids) (by rw [relsOfL_noRel _ hb3.kids]; simp)
            refine ⟨A, hA, ?_, ?_⟩
            · rw [ht]; intro r hr; rw [List.mem_singleton] at hr; subst hr; exact .inl hd
            · simp only [hsub, if_neg hlab]
              exact hE
          · have hsub : F.sub s.D t.id = t.id := by rw [Fr.sub, if_neg hd]
            have hlab : (F.H s).lab t.id = .relative := by
              refine (g.lab_rel w).2 ⟨by rw [hs.1.lab, hl], ?_⟩
              intro hv
              obtain ⟨r, hr, hrd, hi⟩ := w.V hv
              have := g.same hr htr (g.body_mem hr _ (notesOf_sub _ hi)) (id_mem_ids t)
              subst this
              exact hd hrd
            obtain ⟨A, hA, hA2, hE⟩ := hm s t w htr hd hk
            refine ⟨A, hA, ?_, ?_⟩
            · rw [ht]; intro r hr; rw [List.mem_singleton] at hr; subst hr; exact .inr hA2
            · simp only [hsub, if_pos hlab]
              exact hE
        · have hsub : F.sub s.D t.id = t.id := g.sub_id w (by rw [hs.1.lab]; exact hl)
          have hlab : (F.H s).lab t.id ≠ .relative := fun h => hl (by rw [← hs.1.lab]; exact ((g.lab_rel w).1 h).1)
          have hsz : sizeOf t.kids < n := by
            have h2 : sizeOf t.kids < sizeOf t := by cases t; simp [Doc.kids]
            omega
          have hrt : relsOf t = relsOfL t.kids := by
            cases t with
            | node i l ks => have hl : ¬ l = .relative := hl; rw [relsOf, if_neg hl]; rfl
          have hcn : NiceL t.kids := by
            cases t with
            | node i l ks => exact (nice_other hc.1 hl).2.2
          obtain ⟨A, hA, hA2, hE⟩ := ca_list hm n t.kids t.id [] s hsz w hk (by simpa using hs.1.kids) hs.1.showsL hcn
            (by rw [← hrt]; intro r h; exact hr r (by rw [relsOfL]; exact List.mem_append_left _ h))
          refine ⟨A, hA, by rw [hrt]; exact hA2, ?_⟩
          simp only [hsub, if_neg hlab]
          exact hE
      obtain ⟨A, hA, hA2, N1, hE1⟩ := step
      have hk2 : F.count (F.add s A) ≤ k := le_trans (Fr.count_mono (by simp [Fr.add])) hk
      obtain ⟨B, hB, hB2, N2, hE2⟩ := ca_list hm n ts o (pre ++ [t.id]) (F.add s A) (by omega) (w.add hA) hk2
        (by rw [he]; simp) hs.2 hc.2 (fun r h => hr r (by rw [relsOfL]; exact List.mem_append_right _ h))
      refine ⟨A ∪ B, Fr.todo_add hA hB, ?_, max N1 N2 + 1, fun f hf => ?_⟩
      · intro r h
        rw [relsOfL, List.mem_append] at h
        rcases h with h | h
        · rcases hA2 r h with h | h
          · exact .inl h
          · exact .inr (.inl h)
        · rcases hB2 r h with (h | h) | h
          · exact .inl h
          · exact .inr (.inl h)
          · exact .inr (.inr h)
      · obtain ⟨f, rfl⟩ : ∃ f', f = f' + 1 := ⟨f - 1, by omega⟩
        have h1 := hE1 f (by omega)
        have h2 := hE2 f (by omega)
        beta_reduce
        rw [convertAll, hget]
        simp only [h1]
        rw [F.add_add, List.length_append, List.length_singleton] at h2
        exact h2

/-- Looking through the whole document. -/
theorem ca_root {k : ℕ} (hm : MA F k) (s : St) (w : F.WF s) (hk : F.count s ≤ k) :
    ∃ A ⊆ F.todo s, (∀ r ∈ relsOf F.T, r.id ∈ s.D ∪ A) ∧
      Ends (fun f => convertAll F.c F.T.id f (F.H s) F.T.id 0) (.ok (F.H (F.add s A))) := by
  have hT : relsOf F.T = relsOfL F.T.kids := by
    have := g.root
    cases hT : F.T with
    | node i l ks => rw [hT] at this; have hl : ¬ l = .relative := this; rw [relsOf, if_neg hl]; rfl
  have hN : NiceL F.T.kids := by
    have h1 := g.root
    have h2 := g.nice
    cases hT : F.T with
    | node i l ks => rw [hT] at h1 h2; exact (nice_other h2 h1).2.2
  obtain ⟨A, hA, hA2, hE⟩ := ca_list g hm _ F.T.kids F.T.id [] s (Nat.lt_succ_self _) w hk (by simpa using g.shows.kids) g.shows.showsL hN
    (by rw [← hT]; intro r h; exact h)
  exact ⟨A, hA, by rw [hT]; exact hA2, hE⟩

end Quickly.Rel2abs
