import Verif.Rel2abs.Loop

/-! # `make_absolute`, and the whole edit -/

namespace Quickly.Rel2abs

open Quickly.Pitch Quickly.Relative Spec

mutual
theorem oneLang_rels {L : Str} : ∀ t : Doc, OneLang L t → ∀ r ∈ relsOf t, OneLang L r
  | .node i l ks, hs, r, hr => by
    rw [relsOf] at hr
    split_ifs at hr with hl
    · rw [List.mem_singleton] at hr; subst hr; exact hs
    · rw [OneLang] at hs; exact oneLangL_rels ks hs.2 r hr
theorem oneLangL_rels {L : Str} : ∀ ts : List Doc, OneLangL L ts → ∀ r ∈ relsOfL ts, OneLang L r
  | [], _, r, hr => by simp [relsOfL] at hr
  | t :: ts, hs, r, hr => by
    rw [relsOfL, List.mem_append] at hr
    rw [OneLangL] at hs
    rcases hr with hr | hr
    · exact oneLang_rels t hs.1 r hr
    · exact oneLangL_rels ts hs.2 r hr
end

theorem oneLang_mem {L : Str} : ∀ {ts : List Doc}, OneLangL L ts → ∀ t ∈ ts, OneLang L t
  | t :: ts, hs, u, hu => by
    rw [OneLangL] at hs
    rcases List.mem_cons.1 hu with rfl | hu
    · exact hs.1
    · exact oneLang_mem hs.2 u hu

theorem Spec.OneLang.kids {L : Str} {t : Doc} (h : OneLang L t) : OneLangL L t.kids := by cases t; rw [OneLang] at h; exact h.2

theorem nodup_mem : ∀ {ts : List Doc}, (idsL ts).Nodup → ∀ t ∈ ts, (ids t).Nodup
  | t :: ts, hs, u, hu => by
    rw [idsL, List.nodup_append] at hs
    rcases List.mem_cons.1 hu with rfl | hu
    · exact hs.1
    · exact nodup_mem hs.2.1 u hu

variable {F : Fr} (g : F.Good)
include g

open Classical in
/-- The `\relative` node is replaced. -/
theorem Fr.Good.splice {s : St} (w : F.WF s) {r : Doc} (hr : r ∈ relsOf F.T) (hd : r.id ∉ s.D) :
    ∃ p i, (F.H s).parent r.id = some p ∧ ((F.H s).kids p).idxOf? r.id = some i ∧
      (F.H s).splice p i [(bodyOf r).id] = F.H ⟨s.D ∪ {r.id}, s.V, s.X⟩ := by
  obtain ⟨p, hp1, hp2⟩ := g.rel_parent hr
  have hpar : F.h0.parent r.id = some p := g.linked.parent p _ hp2
  obtain ⟨a, b, hab⟩ := List.append_of_mem hp2
  have hn := g.linked.nodup p
  rw [hab] at hn
  have hrx : r.id ∉ s.X := by
    intro h
    have := g.X_lab w h
    rw [g.rel_lab hr] at this
    simp at this
  have hbodyne : ∀ k ∈ s.D, F.body k ≠ r.id := by
    intro k hk h
    obtain ⟨r', hr', rfl⟩ := w.D k hk
    rw [g.body_id hr'] at h
    exact g.body_lab hr' (by rw [h]; exact g.rel_lab hr)
  have hsub : ∀ k, k ≠ r.id → F.sub s.D k ≠ r.id := by
    intro k hk
    rw [Fr.sub]
    split_ifs with h
    · exact hbodyne k h
    · exact hk
  have hkids : (F.H s).kids p = ((a.filter fun k => k ∉ s.X).map (F.sub s.D)) ++ r.id :: ((b.filter fun k => k ∉ s.X).map (F.sub s.D)) := by
    simp only [Fr.H]
    rw [hab, List.filter_append, List.filter_cons_of_pos (by simpa using hrx), List.map_append, List.map_cons,
      show F.sub s.D r.id = r.id by rw [Fr.sub, if_neg hd]]
  have hna : r.id ∉ (a.filter fun k => k ∉ s.X).map (F.sub s.D) := by
    rw [List.mem_map]
    rintro ⟨k, hk, hk2⟩
    refine hsub k ?_ hk2
    rintro rfl
    rw [List.nodup_append] at hn
    exact hn.2.2 _ (List.mem_filter.1 hk).1 _ (by simp) rfl
  have hsubs : ∀ j k, k ∈ F.h0.kids j → k ≠ r.id → F.sub (s.D ∪ {r.id}) k = F.sub s.D k := by
    intro j k _ hk
    simp only [Fr.sub, Set.mem_union, Set.mem_singleton_iff, hk, or_false]
  refine ⟨p, ((a.filter fun k => k ∉ s.X).map (F.sub s.D)).length, ?_, ?_, ?_⟩
  · simp only [Fr.H, Fr.par]
    rw [hpar]
    simp only
    rw [if_neg]
    intro h
    exact hbodyne p h.1 h.2
  · rw [hkids, List.idxOf?, List.findIdx?_append]
    have : List.findIdx? (fun x => x == r.id) ((a.filter fun k => k ∉ s.X).map (F.sub s.D)) = none := by
      rw [List.findIdx?_eq_none_iff]
      intro x hx
      simp only [beq_eq_false_iff_ne]
      rintro rfl
      exact hna hx
    rw [this]
    simp [List.findIdx?_cons]
  · simp only [Heap.splice]
    rw [show F.H ⟨s.D ∪ {r.id}, s.V, s.X⟩ = ⟨(F.H s).lab, fun j => ((F.h0.kids j).filter fun k => k ∉ s.X).map (F.sub (s.D ∪ {r.id})),
      F.par (s.D ∪ {r.id}), (F.H s).lang⟩ from rfl]
    congr 1
    · funext j
      by_cases hj : j = p
      · subst hj
        rw [if_pos rfl, hkids, hab, List.filter_append, List.filter_cons_of_pos (by simpa using hrx), List.map_append, List.map_cons]
        rw [List.take_left', List.drop_append, List.drop_eq_nil_of_le (by simp)]
        · simp only [List.nil_append]
          rw [show F.sub (s.D ∪ {r.id}) r.id = (bodyOf r).id by
            rw [Fr.sub, if_pos (by simp), g.body_id hr]]
          rw [List.append_assoc]
          have ea : ∀ k ∈ a.filter fun k => k ∉ s.X, F.sub s.D k = F.sub (s.D ∪ {r.id}) k := by
            intro k hk
            rw [List.nodup_append] at hn
            refine (hsubs j k (by rw [hab]; simp [(List.mem_filter.1 hk).1]) ?_).symm
            rintro rfl
            exact hn.2.2 _ (List.mem_filter.1 hk).1 _ (by simp) rfl
          have eb : ∀ k ∈ b.filter fun k => k ∉ s.X, F.sub s.D k = F.sub (s.D ∪ {r.id}) k := by
            intro k hk
            rw [List.nodup_append, List.nodup_cons] at hn
            refine (hsubs j k (by rw [hab]; simp [(List.mem_filter.1 hk).1]) ?_).symm
            rintro rfl
            exact hn.2.1.1 (List.mem_filter.1 hk).1
          rw [List.map_congr_left ea, List.map_congr_left eb]
          simp
        · rfl
      · rw [if_neg hj]
        simp only [Fr.H]
        refine List.map_congr_left fun k hk => ?_
        refine (hsubs j k (List.mem_filter.1 hk).1 ?_).symm
        rintro rfl
        have := g.linked.parent j _ (List.mem_filter.1 hk).1
        rw [hpar] at this
        exact hj (Option.some.inj this).symm
    · funext j
      simp only [List.mem_singleton, Fr.H]
      by_cases hj : j = (bodyOf r).id
      · subst hj
        rw [if_pos rfl, Fr.par, g.body_parent hr]
        simp only
        rw [if_pos ⟨by simp, g.body_id hr⟩, hpar]
      · rw [if_neg hj]
        simp only [Fr.par]
        cases hpj : F.h0.parent j with
        | none => rfl
        | some q =>
          simp only
          by_cases hq : q = r.id
          · subst hq
            rw [if_neg (by rintro ⟨h, _⟩; exact hd h), if_neg]
            rintro ⟨_, h⟩
            rw [g.body_id hr] at h
            exact hj h.symm
          · simp only [Set.mem_union, Set.mem_singleton_iff, hq, or_false]

/-- The start pitch is found. -/
theorem Fr.Good.start {s : St} (w : F.WF s) {r : Doc} (hr : r ∈ relsOf F.T) (hd : r.id ∉ s.D) {p : Pitch} (hp : startOf F.c F.L r.kids = .ok p) :
    startPitch F.c (F.H s) (((F.H s).kids r.id).filter fun k => (F.H s).lab k ≠ .comment) = .ok (p, [(bodyOf r).id]) := by
  classical
  have hs := shows_rel _ g.shows r hr
  have ok := g.relOk hr
  have hlab : ∀ k ∈ r.kids, (F.H s).lab k.id = k.lab := by
    intro k hk
    simp only [Fr.H]
    rw [if_neg, (shows_mem hs.showsL k hk).lab]
    intro h
    obtain ⟨r', hr', hrd, hi⟩ := w.V h
    have hk2 : k.id ∈ ids r := by
      cases r with
      | node i l ks => rw [ids]; exact List.mem_cons_of_mem _ (mem_idsL.2 ⟨k, hk, id_mem_ids k⟩)
    have := g.same hr' hr (g.body_mem hr' _ (notesOf_sub _ hi)) hk2
    subst this
    exact hd hrd
  have hkids : (F.H s).kids r.id = r.kids.map Doc.id := by
    simp only [Fr.H]
    rw [hs.kids]
    have h1 : (r.kids.map Doc.id).filter (fun k => decide (k ∉ s.X)) = r.kids.map Doc.id := by
      rw [List.filter_eq_self]
      intro k hk
      simp only [decide_eq_true_eq]
      intro hx
      obtain ⟨r', hr', hrd, hi⟩ := w.X hx
      obtain ⟨u, hu, rfl⟩ := List.mem_map.1 hk
      have hk2 : u.id ∈ ids r := by
        cases r with
        | node i l ks => rw [ids]; exact List.mem_cons_of_mem _ (mem_idsL.2 ⟨u, hu, id_mem_ids u⟩)
      have := g.same hr' hr (g.body_mem hr' _ (checksOf_sub _ hi)) hk2
      subst this
      exact hd hrd
    rw [h1]
    conv_rhs => rw [← List.map_id (r.kids.map Doc.id)]
    refine List.map_congr_left fun k hk => ?_
    obtain ⟨u, hu, rfl⟩ := List.mem_map.1 hk
    refine g.sub_id w ?_
    rw [(shows_mem hs.showsL u hu).lab]
    exact (noRel_mem ok.plain u hu).lab
  have hfil : (((F.H s).kids r.id).filter fun k => (F.H s).lab k ≠ .comment) = (real r.kids).map Doc.id := by
    rw [hkids, real, List.filter_map]
    congr 1
    refine List.filter_congr fun k hk => ?_
    rw [Function.comp, hlab k hk]
  rw [hfil]
  rcases ok.shape with ⟨b, hb, _⟩ | ⟨st, b, hb, hst, _⟩
  · have : bodyOf r = b := by rw [bodyOf, hb]; rfl
    rw [hb, this]
    simp only [startOf, start?, hb] at hp
    simpa [startPitch] using hp
  · have : bodyOf r = b := by rw [bodyOf, hb]; rfl
    rw [hb, this]
    have hm : st ∈ r.kids := by
      have : st ∈ real r.kids := by rw [hb]; simp
      exact (List.mem_filter.1 this).1
    have hl := hlab st hm
    simp only [startOf, start?, hb, hst, if_true] at hp
    simp only [startPitch, List.map_cons, List.map_nil, hl]
    cases st with
    | node i l ks =>
      cases l with
      | note pt nd chk =>
        have : pt = true := hst
        subst this
        simp only [Doc.lab]
        simp only [note?] at hp
        rw [show (F.H s).lang = F.L from rfl, hp]
      | _ => simp [Doc.lab, Lab.isPitch] at hst

/-- `make_absolute` works, however many `\relative` nodes there still are. -/
theorem ma_all : ∀ k, MA F k
  | 0 => by
    intro s r w hr hd hk
    exfalso
    have := Fr.count_lt (F := F) (s := s) (s' := ⟨s.D ∪ {r.id}, s.V, s.X⟩) (by simp) hr hd (by simp)
    omega
  | k + 1 => by
    intro s r w hr hd hk
    have ih := ma_all k
    obtain ⟨p, sk, ts, hp, hw, hf⟩ := g.conv r hr
    obtain ⟨pa, i, e1, e2, e3⟩ := g.splice w hr hd
    obtain ⟨hb1, hb2, hb3, _⟩ := relOk_body (g.relOk hr)
    have w2 : F.WF ⟨s.D ∪ {r.id}, s.V, s.X⟩ := by
      refine ⟨?_, ?_, ?_⟩
      · intro j hj
        rcases hj with hj | hj
        · exact w.D j hj
        · exact ⟨r, hr, hj.symm⟩
      · intro j hj
        obtain ⟨r', a, b, c⟩ := w.V hj
        exact ⟨r', a, .inl b, c⟩
      · intro j hj
        obtain ⟨r', a, b, c⟩ := w.X hj
        exact ⟨r', a, .inl b, c⟩
    have hcount := Fr.count_lt (F := F) (s := s) (s' := ⟨s.D ∪ {r.id}, s.V, s.X⟩) (by simp) hr hd (by simp)
    have e : idsL [bodyOf r] = ids (bodyOf r) := by simp [idsL]
    have hnodup : (ids (bodyOf r)).Nodup := by
      have := nodup_rel _ g.nodup r hr
      have h2 : (idsL r.kids).Nodup := by
        cases r with
        | node i l ks => rw [ids, List.nodup_cons] at this; exact this.2
      exact nodup_mem h2 _ hb1
    have part : Part F r ⟨s.D ∪ {r.id}, s.V, s.X⟩ (.music p) [bodyOf r] := by
      refine ⟨by simp [ShowsL, g.body_shows hr], by simp [NoRelL, hb3], ?_, by rw [e]; exact hnodup, ?_, ?_, ?_, ?_, ?_⟩
      · have := oneLang_mem (oneLang_rels _ g.lang r hr).kids _ hb1
        simp [OneLangL, this]
      · rw [e]; exact g.body_mem hr
      · intro j hj
        simpa [notesOfL] using hj.2
      · intro j hj
        simpa [checksOfL] using hj
      · rw [e]
        intro j hj hv
        obtain ⟨r', hr', hrd, hi⟩ := w.V hv
        have := g.same hr' hr (g.body_mem hr' _ (notesOf_sub _ hi)) (g.body_mem hr _ hj)
        subst this
        exact hd hrd
      · rw [e]
        intro j hj hv
        obtain ⟨r', hr', hrd, hi⟩ := w.X hv
        have := g.same hr' hr (g.body_mem hr' _ (checksOf_sub _ hi)) (g.body_mem hr _ hj)
        subst this
        exact hd hrd
    obtain ⟨A, hA, N, hE⟩ := (walk_run g ih r hr _).1 (bodyOf r) _ (.music p) sk ts (Nat.lt_succ_self _) w2 (.inr rfl) (by omega) part hw
      (fun _ => hf) (fun h => absurd h hb2)
    refine ⟨{r.id} ∪ A, ?_, by simp, N + 3, fun f hf => ?_⟩
    · intro j hj
      rcases hj with hj | hj
      · rw [Set.mem_singleton_iff] at hj; subst hj; exact ⟨⟨r, hr, rfl⟩, hd⟩
      · exact ⟨(hA hj).1, fun h => (hA hj).2 (.inl h)⟩
    · obtain ⟨f, rfl⟩ : ∃ f', f = f' + 3 := ⟨f - 3, by omega⟩
      beta_reduce
      have h1 := hE (f + 1) (by omega)
      have hfin : F.add (St.step ⟨s.D ∪ {r.id}, s.V, s.X⟩ (.music p) [bodyOf r]) A = F.add s ({r.id} ∪ A) := by
        have hn1 : F.notes {r.id} = notesOf (bodyOf r) := by
          ext j
          constructor
          · rintro ⟨r', hr', h, hj⟩
            have := g.same_id hr' hr h
            subst this
            exact hj
          · intro hj; exact ⟨r, hr, rfl, hj⟩
        have hn2 : F.checks {r.id} = checksOf (bodyOf r) := by
          ext j
          constructor
          · rintro ⟨r', hr', h, hj⟩
            have := g.same_id hr' hr h
            subst this
            exact hj
          · intro hj; exact ⟨r, hr, rfl, hj⟩
        simp only [Fr.add, St.step, Fr.notes_union, Fr.checks_union, hn1, hn2, notesOfL, checksOfL, St.mk.injEq]
        refine ⟨by rw [Set.union_assoc], ?_, by simp only [Set.union_empty, Set.union_assoc]⟩
        ext j
        simp [Sink.marks, Sink.isCheck, or_assoc]
      rw [hfin] at h1
      rw [makeAbsolute]
      simp only [e1, e2, g.start w hr hd hp, e3]
      rw [loop]
      simp only [Src.items, List.getElem?_cons_zero, h1]
      rw [loop]
      simp [Src.items]

omit g in
mutual
theorem parent_in {h : Heap} (r : Doc) : ∀ t : Doc, Shows h t → ∀ i ∈ ids t, i ≠ t.id → ∃ p ∈ ids t, h.parent i = some p
  | .node j l ks, hs, i, hi, hne => by
    rw [Shows] at hs
    rw [ids] at hi
    rcases List.mem_cons.1 hi with h | h
    · exact absurd h hne
    · obtain ⟨p, hp, e⟩ := parentL_in r j ks hs.2.2.1 hs.2.2.2 i h
      refine ⟨p, ?_, e⟩
      rw [ids]
      exact List.mem_cons.2 hp
theorem parentL_in {h : Heap} (r : Doc) (j : Id) : ∀ ks : List Doc, (∀ k ∈ ks, h.parent k.id = some j) → ShowsL h ks → ∀ i ∈ idsL ks,
    ∃ p, (p = j ∨ p ∈ idsL ks) ∧ h.parent i = some p
  | [], _, _, i, hi => by simp [idsL] at hi
  | t :: ts, hp, hs, i, hi => by
    rw [ShowsL] at hs
    rw [idsL, List.mem_append] at hi
    rcases hi with hi | hi
    · by_cases h : i = t.id
      · subst h; exact ⟨j, .inl rfl, hp t (List.mem_cons_self ..)⟩
      · obtain ⟨p, hp2, e⟩ := parent_in r t hs.1 i hi h
        exact ⟨p, .inr (by rw [idsL]; exact List.mem_append_left _ hp2), e⟩
    · obtain ⟨p, hp2, e⟩ := parentL_in r j ts (fun k hk => hp k (List.mem_cons_of_mem _ hk)) hs.2 i hi
      exact ⟨p, hp2.imp id (fun h => by rw [idsL]; exact List.mem_append_right _ h), e⟩
end

/-- The node is not inside a `\relative` that is still there. -/
def Outside (F : Fr) (s : St) (o : Id) : Prop := ∀ r ∈ relsOf F.T, r.id ∉ s.D → o ∉ ids r

omit g in
theorem Outside.add {s : St} {o : Id} (h : Outside F s o) (A : Set Id) : Outside F (F.add s A) o :=
  fun r hr hd => h r hr (fun h' => hd (.inl h'))

/-- A child of such a node. -/
theorem Outside.kid {s : St} {o : Id} (h : Outside F s o) {t : Id} (ht : t ∈ F.h0.kids o) (hl : F.h0.lab t ≠ .relative) : Outside F s t := by
  intro r hr hd hm
  have hne : t ≠ r.id := by rintro rfl; exact hl (g.rel_lab hr)
  obtain ⟨p, hp, e⟩ := parent_in r r (shows_rel _ g.shows r hr) t hm hne
  rw [g.linked.parent o t ht] at e
  cases e
  exact h r hr hd hp

open Classical in
/-- The list of such a node does not get shorter. -/
theorem Outside.length {s : St} {o : Id} (h : Outside F s o) {A : Set Id} (hA : A ⊆ F.todo s) :
    ((F.H (F.add s A)).kids o).length = ((F.H s).kids o).length := by
  simp only [Fr.H, List.length_map]
  congr 1
  refine List.filter_congr fun k hk => ?_
  have : k ∉ F.checks A := by
    intro hx
    have hx' := hx
    obtain ⟨r, hr, hra, hi⟩ := hx'
    obtain ⟨_, h2, h3, h4⟩ := relOk_body (g.relOk hr)
    rcases (checks_last _ _ (Nat.lt_succ_self _) (g.body_shows hr) h4 h3 k hi).2 with ⟨a, _⟩ | ⟨p, hp, pre, hpk, _⟩
    · exact h2 a
    · have e := g.linked.parent p k (by rw [hpk]; simp)
      rw [g.linked.parent o k hk] at e
      cases e
      exact h r hr (hA hra).2 (g.body_mem hr _ hp)
  simp [Fr.add, this]

/-- The main loop. -/
theorem edit_list {k : ℕ} (hm : MA F k) : ∀ (n : ℕ) (ts : List Doc) (o : Id) (pre : List Id) (s : St), sizeOf ts < n → F.WF s →
    F.count s ≤ k → F.h0.kids o = pre ++ ts.map Doc.id → ShowsL F.h0 ts → NiceL ts → OneLangL F.L ts → (∀ r ∈ relsOfL ts, r ∈ relsOf F.T) →
    Outside F s o →
    ∃ A ⊆ F.todo s, (∀ r ∈ relsOfL ts, r.id ∈ s.D ∪ A) ∧
      Ends (fun f => editLoop F.c {} F.T.id f (F.H s) o ((F.H s).kids o).length pre.length) (.ok (F.H (F.add s A)))
  | 0, _, _, _, _, hn, _, _, _, _, _, _, _, _ => absurd hn (Nat.not_lt_zero _)
  | n + 1, [], o, pre, s, _, w, _, he, _, _, _, _, _ => by
    refine ⟨∅, Set.empty_subset _, by simp [relsOfL], 1, fun f hf => ?_⟩
    obtain ⟨f, rfl⟩ : ∃ f', f = f' + 1 := ⟨f - 1, by omega⟩
    beta_reduce
    have : ¬ pre.length < ((F.H s).kids o).length := by
      have := g.get_end (s := s) (o := o) (pre := pre) (by simpa using he)
      rw [List.getElem?_eq_none_iff] at this
      omega
    rw [editLoop, if_neg this, F.add_empty]
  | n + 1, t :: ts, o, pre, s, hn, w, hk, he, hs, hc, hl, hr, hout => by
    rw [ShowsL] at hs
    rw [NiceL] at hc
    rw [OneLangL] at hl
    rw [List.map_cons] at he
    simp only [List.cons.sizeOf_spec] at hn
    have hto : t.id ∈ F.h0.kids o := by rw [he]; simp
    by_cases hx : t.id ∈ s.X
    · -- it has been removed
      obtain ⟨e1, e2⟩ := g.get_removed w he hx
      have e1 : ts = [] := by simpa using e1
      subst e1
      refine ⟨∅, Set.empty_subset _, ?_, 1, fun f hf => ?_⟩
      · have hl : t.lab = .check := by rw [← hs.1.lab]; exact g.X_lab w hx
        intro r hr
        exfalso
        rw [relsOfL, relsOfL, List.append_nil] at hr
        cases t with
        | node i l ks =>
          have hl : l = .check := hl
          subst hl
          have := (nice_other hc.1 (by simp)).1 rfl
          rw [relsOf, if_neg (by simp), relsOfL_noRel _ this] at hr
          simp at hr
      · obtain ⟨f, rfl⟩ : ∃ f', f = f' + 1 := ⟨f - 1, by omega⟩
        beta_reduce
        rw [List.getElem?_eq_none_iff] at e2
        rw [editLoop, if_neg (by omega), F.add_empty]
    · have hget := g.get w he hx
      -- a node that is not a `\relative`
      have plain : ∀ d : Doc, Shows F.h0 d → Nice d → d.lab ≠ .relative → OneLang F.L d → (∀ r ∈ relsOf d, r ∈ relsOf F.T) →
          Outside F s d.id → sizeOf d.kids < n → ∃ A ⊆ F.todo s, (∀ r ∈ relsOf d, r.id ∈ s.D ∪ A) ∧
          Ends (fun f => editNode F.c {} F.T.id f (F.H s) d.id (editLoop F.c {} F.T.id f (F.H s) d.id ((F.H s).kids d.id).length 0)) (.ok (F.H (F.add s A))) := by
        intro d ds dn dl dla dr dout dsz
        have hlab : (F.H s).lab d.id ≠ .relative := fun h => dl (by rw [← ds.lab]; exact ((g.lab_rel w).1 h).1)
        have hrd : relsOf d = relsOfL d.kids := by
          cases d with
          | node i l ks => have dl : ¬ l = .relative := dl; rw [relsOf, if_neg dl]; rfl
        have hnk : NiceL d.kids := by
          cases d with
          | node i l ks => exact (nice_other dn dl).2.2
        by_cases hlan : ∃ l, (F.H s).lab d.id = .language l
        · obtain ⟨l, hlan⟩ := hlan
          have hdl : d.lab = .language l := by
            rw [← ds.lab]
            simp only [Fr.H] at hlan
            split_ifs at hlan with h
            exact hlan
          refine ⟨∅, Set.empty_subset _, ?_, 0, fun f hf => ?_⟩
          · cases d with
            | node i l' ks =>
              have hdl : l' = .language l := hdl
              subst hdl
              have hz : relsOfL ks = [] := relsOfL_noRel _ ((nice_other dn (by simp)).1 rfl)
              rw [hrd, show (Doc.node i (.language l) ks).kids = ks from rfl, hz]
              simp
          · have : l = F.L := by
              cases d with
              | node i l' ks =>
                rw [OneLang] at dla
                exact dla.1 l hdl
            simp only [editNode, hlan, F.add_empty, this, if_true]
            rfl
        · obtain ⟨A, hA, hA2, N, hE⟩ := edit_list hm n d.kids d.id [] s dsz w hk (by simpa using ds.kids) ds.showsL hnk dla.kids
            (by rw [← hrd]; exact dr) dout
          refine ⟨A, hA, by rw [hrd]; exact hA2, N, fun f hf => ?_⟩
          have hE := hE f hf
          simp only [List.length_nil] at hE
          simp only [editNode, if_true]
          split
          · rename_i l h; exact absurd ⟨l, h⟩ hlan
          · rename_i h; exact absurd h hlab
          · exact hE
      have step : ∃ A ⊆ F.todo s, (∀ r ∈ relsOf t, r.id ∈ s.D ∪ A) ∧
          Ends (fun f => editNode F.c {} F.T.id f (F.H s) (F.sub s.D t.id)
            (editLoop F.c {} F.T.id f (F.H s) (F.sub s.D t.id) ((F.H s).kids (F.sub s.D t.id)).length 0)) (.ok (F.H (F.add s A))) := by
        by_cases hl' : t.lab = .relative
        · have ht : relsOf t = [t] := by
            cases t with
            | node i l ks => have hl : l = .relative := hl'; rw [relsOf, if_pos hl]
          have htr : t ∈ relsOf F.T := hr t (by rw [relsOfL, ht]; simp)
          by_cases hd : t.id ∈ s.D
          · have hsub : F.sub s.D t.id = (bodyOf t).id := by rw [Fr.sub, if_pos hd, g.body_id htr]
            obtain ⟨hb1, _, hb3, _⟩ := relOk_body (g.relOk htr)
            have hsz : sizeOf (bodyOf t).kids < n := by
              have h1 := List.sizeOf_lt_of_mem hb1
              have h2 : sizeOf t.kids < sizeOf t := by cases t; simp [Doc.kids]
              have h3 : sizeOf (bodyOf t).kids < sizeOf (bodyOf t) := by cases bodyOf t; simp [Doc.kids]
              omega
            have hbo : Outside F s (bodyOf t).id := by
              intro r hr hrd hm
              have := g.same hr htr hm (g.body_mem htr _ (id_mem_ids _))
              subst this
              exact hrd hd
            obtain ⟨A, hA, _, hE⟩ := plain (bodyOf t) (g.body_shows htr) (nice_noRel _ hb3) hb3.lab (oneLang_mem hl.1.kids _ hb1)
              (by rw [relsOf_noRel _ hb3]; simp) hbo hsz
            rw [hsub]
            refine ⟨A, hA, ?_, hE⟩
            rw [ht]; intro r hr; rw [List.mem_singleton] at hr; subst hr; exact .inl hd
          · have hsub : F.sub s.D t.id = t.id := by rw [Fr.sub, if_neg hd]
            have hlab : (F.H s).lab t.id = .relative := by
              refine (g.lab_rel w).2 ⟨by rw [hs.1.lab, hl'], ?_⟩
              intro hv
              obtain ⟨r, hr, hrd, hi⟩ := w.V hv
              have := g.same hr htr (g.body_mem hr _ (notesOf_sub _ hi)) (id_mem_ids t)
              subst this
              exact hd hrd
            obtain ⟨A, hA, hA2, hE⟩ := hm s t w htr hd hk
            refine ⟨A, hA, ?_, ?_⟩
            · rw [ht]; intro r hr; rw [List.mem_singleton] at hr; subst hr; exact .inr hA2
            · simp only [editNode, hsub, hlab, if_true]
              exact hE
        · have hsub : F.sub s.D t.id = t.id := g.sub_id w (by rw [hs.1.lab]; exact hl')
          have hsz : sizeOf t.kids < n := by
            have h2 : sizeOf t.kids < sizeOf t := by cases t; simp [Doc.kids]
            omega
          rw [hsub]
          exact plain t hs.1 hc.1 hl' hl.1 (fun r h => hr r (by rw [relsOfL]; exact List.mem_append_left _ h))
            (hout.kid g hto (by rw [hs.1.lab]; exact hl')) hsz
      obtain ⟨A, hA, hA2, N1, hE1⟩ := step
      have hk2 : F.count (F.add s A) ≤ k := le_trans (Fr.count_mono (by simp [Fr.add])) hk
      obtain ⟨B, hB, hB2, N2, hE2⟩ := edit_list hm n ts o (pre ++ [t.id]) (F.add s A) (by omega) (w.add hA) hk2
        (by rw [he]; simp) hs.2 hc.2 hl.2 (fun r h => hr r (by rw [relsOfL]; exact List.mem_append_right _ h)) (hout.add A)
      refine ⟨A ∪ B, Fr.todo_add hA hB, ?_, max N1 N2 + 1, fun f hf => ?_⟩
      · intro r h
        rw [relsOfL, List.mem_append] at h
        rcases h with h | h
        · rcases hA2 r h with h | h
          · exact .inl h
          · exact .inr (.inl h)
        · rcases hB2 r h with (h | h) | h
          · exact .inl h
          · exact .inr (.inl h)
          · exact .inr (.inr h)
      · obtain ⟨f, rfl⟩ : ∃ f', f = f' + 1 := ⟨f - 1, by omega⟩
        have h1 := hE1 f (by omega)
        have h2 := hE2 f (by omega)
        beta_reduce at h1 h2 ⊢
        have hlt : pre.length < ((F.H s).kids o).length := by
          by_contra hge
          rw [List.getElem?_eq_none (by omega)] at hget
          simp at hget
        rw [editLoop, if_pos hlt, hget]
        simp only [h1]
        rw [F.add_add, List.length_append, List.length_singleton, hout.length g hA] at h2
        exact h2

/-- The whole edit. -/
theorem edit_run : ∃ A ⊆ F.todo ⟨∅, ∅, ∅⟩, (∀ r ∈ relsOf F.T, r.id ∈ A) ∧
    Ends (fun f => editRange F.c {} f F.h0 F.T.id) (.ok (F.H (F.add ⟨∅, ∅, ∅⟩ A))) := by
  have hT : relsOf F.T = relsOfL F.T.kids := by
    have := g.root
    cases hT : F.T with
    | node i l ks => rw [hT] at this; have hl : ¬ l = .relative := this; rw [relsOf, if_neg hl]; rfl
  have hN : NiceL F.T.kids := by
    have h1 := g.root
    have h2 := g.nice
    cases hT : F.T with
    | node i l ks => rw [hT] at h1 h2; exact (nice_other h2 h1).2.2
  have w : F.WF ⟨∅, ∅, ∅⟩ := ⟨by simp, by simp, by simp⟩
  have hH : F.H ⟨∅, ∅, ∅⟩ = F.h0 := by
    have hsub : F.sub ∅ = id := by funext k; simp [Fr.sub]
    have hpar : F.par ∅ = F.h0.parent := by
      funext k
      rw [Fr.par]
      cases F.h0.parent k <;> simp
    simp only [Fr.H, hsub, hpar]
    simp
  have hout : Outside F ⟨∅, ∅, ∅⟩ F.T.id := by
    intro r hr _ hm
    rw [hT] at hr
    have h1 := (relsOfL_rel _ r hr).2 _ hm
    have h2 := g.nodup
    cases hT2 : F.T with
    | node i l ks =>
      rw [hT2] at h1 h2
      rw [ids, List.nodup_cons] at h2
      exact h2.1 h1
  obtain ⟨A, hA, hA2, hE⟩ := edit_list g (ma_all g _) _ F.T.kids F.T.id [] ⟨∅, ∅, ∅⟩ (Nat.lt_succ_self _) w le_rfl (by simpa using g.shows.kids)
    g.shows.showsL hN g.lang.kids (by rw [← hT]; intro r h; exact h) hout
  refine ⟨A, hA, ?_, ?_⟩
  · intro r hr
    rw [hT] at hr
    rcases hA2 r hr with h | h
    · exact absurd h (by simp)
    · exact h
  · rw [hH] at hE
    exact hE

end Quickly.Rel2abs
