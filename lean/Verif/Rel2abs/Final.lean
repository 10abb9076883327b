import Verif.Rel2abs.Edit

/-! # What the document is like in the end -/

namespace Quickly.Rel2abs

open Quickly.Pitch Quickly.Relative Spec

mutual
theorem walk_ids (c : Cfg) (L : Str) : ∀ (t : Doc) (s s' : Sink) (ts : List Doc), walk c L s t = .ok (s', ts) → (idsL ts).Sublist (ids t)
  | .node i l ks, s, s', ts, h => by
    have hk := walkL_ids c L ks
    have same : ∀ l', idsL [Doc.node i l' ks] = ids (.node i l ks) := by intro l'; simp [idsL, ids]
    have inner : ∀ us, (idsL us).Sublist (idsL ks) → (idsL [Doc.node i l us]).Sublist (ids (.node i l ks)) := by
      intro us hu; simp only [idsL, ids, List.append_nil]; exact hu.cons_cons i
    cases l with
    | note p nd chk =>
      cases s <;> simp only [walk] at h <;> split at h
      all_goals first
        | (simp at h; done)
        | (simp only [Except.ok.injEq, Prod.mk.injEq] at h; rw [← h.2, same])
    | chord =>
      cases s with
      | music last =>
        simp only [walk] at h
        split at h
        · simp at h
        · rename_i us h1
          simp only [Except.ok.injEq, Prod.mk.injEq] at h
          rw [← h.2]; exact inner us (hk _ _ _ h1)
        · simp at h
      | _ => simp [walk] at h
    | check =>
      cases s with
      | music last =>
        simp only [walk] at h
        split at h
        · simp at h
        · simp only [Except.ok.injEq, Prod.mk.injEq] at h
          rw [← h.2]; simp [idsL]
        · simp at h
      | _ => simp [walk] at h
    | relative => simp [walk] at h
    | skip k => simp only [walk, Except.ok.injEq, Prod.mk.injEq] at h; rw [← h.2, same]
    | language l => simp only [walk, Except.ok.injEq, Prod.mk.injEq] at h; rw [← h.2, same]
    | comment =>
      simp only [walk] at h
      split at h
      · simp at h
      · rename_i us h1
        simp only [Except.ok.injEq, Prod.mk.injEq] at h
        rw [← h.2]; exact inner us (hk _ _ _ h1)
    | chordmode =>
      simp only [walk] at h
      split at h
      · simp at h
      · rename_i us h1
        simp only [Except.ok.injEq, Prod.mk.injEq] at h
        rw [← h.2]; exact inner us (hk _ _ _ h1)
    | other =>
      simp only [walk] at h
      split at h
      · simp at h
      · rename_i us h1
        simp only [Except.ok.injEq, Prod.mk.injEq] at h
        rw [← h.2]; exact inner us (hk _ _ _ h1)
theorem walkL_ids (c : Cfg) (L : Str) : ∀ (ts : List Doc) (s s' : Sink) (us : List Doc), walkL c L s ts = .ok (s', us) → (idsL us).Sublist (idsL ts)
  | [], s, s', us, h => by simp only [walkL, Except.ok.injEq, Prod.mk.injEq] at h; rw [← h.2]
  | t :: ts, s, s', us, h => by
    simp only [walkL] at h
    split at h
    · simp at h
    · rename_i s1 a h1
      split at h
      · simp at h
      · rename_i s2 b h2
        simp only [Except.ok.injEq, Prod.mk.injEq] at h
        rw [← h.2, idsL_append, idsL]
        exact (walk_ids c L t _ _ _ h1).append (walkL_ids c L ts _ _ _ h2)
end

theorem ids_sub_idsL {t : Doc} : ∀ {ts : List Doc}, t ∈ ts → (ids t).Sublist (idsL ts)
  | u :: ts, h => by
    rw [idsL]
    rcases List.mem_cons.1 h with rfl | h
    · exact List.sublist_append_left _ _
    · exact (ids_sub_idsL h).trans (List.sublist_append_right _ _)

mutual
theorem out_ids (c : Cfg) (L : Str) : ∀ (t : Doc) (ts : List Doc), Nice t → out c L t = .ok ts → (idsL ts).Sublist (ids t)
  | .node i l ks, ts, hn, h => by
    rw [out] at h
    split_ifs at h with hl
    · subst hl
      split at h
      · simp at h
      · split at h
        · simp at h
        · rename_i us h1
          simp only [Except.ok.injEq] at h
          rw [← h]
          have hb := (relOk_body (r := .node i .relative ks) (nice_rel hn)).1
          refine (walk_ids c L _ _ _ _ h1).trans ?_
          rw [ids]
          exact (ids_sub_idsL hb).trans (List.sublist_cons_self ..)
    · split at h
      · simp at h
      · rename_i us h1
        simp only [Except.ok.injEq] at h
        rw [← h]
        simp only [idsL, ids, List.append_nil]
        exact (outL_ids c L ks us (nice_other hn hl).2.2 h1).cons_cons i
theorem outL_ids (c : Cfg) (L : Str) : ∀ (ts us : List Doc), NiceL ts → outL c L ts = .ok us → (idsL us).Sublist (idsL ts)
  | [], us, _, h => by simp only [outL, Except.ok.injEq] at h; rw [← h]
  | t :: ts, us, hn, h => by
    rw [NiceL] at hn
    simp only [outL] at h
    split at h
    · simp at h
    · rename_i a h1
      split at h
      · simp at h
      · rename_i b h2
        simp only [Except.ok.injEq] at h
        rw [← h, idsL_append, idsL]
        exact (out_ids c L t a hn.1 h1).append (outL_ids c L ts b hn.2 h2)
end

/-! ## The labels of the notes -/

mutual
theorem finOk_congr (f f' : Id → Bool × PNode × Option ℤ) : ∀ t : Doc, (∀ i ∈ ids t, f i = f' i) → FinOk f t → FinOk f' t
  | .node i l ks, h, hf => by
    rw [FinOk] at hf ⊢
    refine ⟨fun p nd chk e => by rw [← h i (by simp [ids])]; exact hf.1 p nd chk e, finOkL_congr f f' ks (fun j hj => h j (by simp [ids, hj])) hf.2⟩
theorem finOkL_congr (f f' : Id → Bool × PNode × Option ℤ) : ∀ ts : List Doc, (∀ i ∈ idsL ts, f i = f' i) → FinOkL f ts → FinOkL f' ts
  | [], _, _ => by simp [FinOkL]
  | t :: ts, h, hf => by
    rw [FinOkL] at hf ⊢
    exact ⟨finOk_congr f f' t (fun j hj => h j (by simp [idsL, hj])) hf.1, finOkL_congr f f' ts (fun j hj => h j (by simp [idsL, hj])) hf.2⟩
end

mutual
theorem fin_exists : ∀ t : Doc, (ids t).Nodup → ∃ f, FinOk f t
  | .node i l ks, hn => by
    classical
    rw [ids, List.nodup_cons] at hn
    obtain ⟨f, hf⟩ := finL_exists ks hn.2
    have hne : ∀ j ∈ idsL ks, j ≠ i := by rintro j hj rfl; exact hn.1 hj
    cases l with
    | note p nd chk =>
      refine ⟨fun j => if j = i then (p, nd, chk) else f j, ?_⟩
      rw [FinOk]
      refine ⟨fun p' nd' chk' e => by simp only [if_true]; injection e with a b c; rw [a, b, c], finOkL_congr f _ ks (fun j hj => ?_) hf⟩
      simp [hne j hj]
    | _ => exact ⟨f, by rw [FinOk]; exact ⟨by simp, hf⟩⟩
theorem finL_exists : ∀ ts : List Doc, (idsL ts).Nodup → ∃ f, FinOkL f ts
  | [], _ => ⟨fun _ => (true, ⟨[], 0⟩, none), by simp [FinOkL]⟩
  | t :: ts, hn => by
    classical
    rw [idsL, List.nodup_append] at hn
    obtain ⟨f, hf⟩ := fin_exists t hn.1
    obtain ⟨f', hf'⟩ := finL_exists ts hn.2.1
    refine ⟨fun j => if j ∈ ids t then f j else f' j, ?_⟩
    rw [FinOkL]
    refine ⟨finOk_congr f _ t (fun j hj => by simp [hj]) hf, finOkL_congr f' _ ts (fun j hj => ?_) hf'⟩
    have : j ∉ ids t := fun h => hn.2.2 j h j hj rfl
    simp [this]
end

mutual
theorem out_conv (c : Cfg) (L : Str) (fin : Id → Bool × PNode × Option ℤ) : ∀ (t : Doc) (ts : List Doc), out c L t = .ok ts → FinOkL fin ts →
    ∀ r ∈ relsOf t, ∃ p s us, startOf c L r.kids = .ok p ∧ walk c L (.music p) (bodyOf r) = .ok (s, us) ∧ FinOkL fin us
  | .node i l ks, ts, h, hf, r, hr => by
    rw [out] at h
    rw [relsOf] at hr
    split_ifs at h hr with hl
    · rw [List.mem_singleton] at hr
      subst hr
      split at h
      · simp at h
      · rename_i p hp
        split at h
        · simp at h
        · rename_i s us h1
          simp only [Except.ok.injEq] at h
          exact ⟨p, s, us, hp, h1, by rw [h]; exact hf⟩
    · split at h
      · simp at h
      · rename_i us h1
        simp only [Except.ok.injEq] at h
        rw [← h, FinOkL, FinOk] at hf
        exact outL_conv c L fin ks us h1 hf.1.2 r hr
theorem outL_conv (c : Cfg) (L : Str) (fin : Id → Bool × PNode × Option ℤ) : ∀ (ts us : List Doc), outL c L ts = .ok us → FinOkL fin us →
    ∀ r ∈ relsOfL ts, ∃ p s vs, startOf c L r.kids = .ok p ∧ walk c L (.music p) (bodyOf r) = .ok (s, vs) ∧ FinOkL fin vs
  | [], us, _, _, r, hr => by simp [relsOfL] at hr
  | t :: ts, us, h, hf, r, hr => by
    simp only [outL] at h
    rw [relsOfL, List.mem_append] at hr
    split at h
    · simp at h
    · rename_i a h1
      split at h
      · simp at h
      · rename_i b h2
        simp only [Except.ok.injEq] at h
        rw [← h] at hf
        obtain ⟨hf1, hf2⟩ := finL_append _ _ _ hf
        rcases hr with hr | hr
        · exact out_conv c L fin t a h1 hf1 r hr
        · exact outL_conv c L fin ts b h2 hf2 r hr
end

/-! ## The tree in memory -/

variable {F : Fr}

theorem Fr.Good.par_id (g : F.Good) {s : St} (w : F.WF s) {i k : Id} (hk : k ∈ F.h0.kids i) (hl : F.h0.lab i ≠ .relative) : (F.H s).parent k = some i := by
  simp only [Fr.H, Fr.par]
  rw [g.linked.parent i k hk]
  simp only
  rw [if_neg]
  intro h
  exact hl (g.rel_of w h.1)

theorem lab_out {s : St} {i : Id} (h : i ∉ s.V) : (F.H s).lab i = F.h0.lab i := by simp only [Fr.H]; rw [if_neg h]

open Classical in
theorem map_sub (g : F.Good) {s : St} (w : F.WF s) (l : List Id) (h : ∀ k ∈ l, F.h0.lab k ≠ .relative) : l.map (F.sub s.D) = l := by
  conv_rhs => rw [← List.map_id l]
  exact List.map_congr_left fun k hk => g.sub_id w (h k hk)

mutual
/-- Where nothing happens, nothing changes. -/
theorem shows_same (g : F.Good) {s : St} (w : F.WF s) : ∀ t : Doc, Shows F.h0 t → NoRel t → (∀ i ∈ ids t, i ∉ s.V) → (∀ i ∈ ids t, i ∉ s.X) →
    Shows (F.H s) t
  | .node i l ks, hs, hn, hv, hx => by
    rw [Shows] at hs ⊢
    rw [NoRel] at hn
    have hil : F.h0.lab i ≠ .relative := by rw [hs.1]; exact hn.1
    have hk : (F.H s).kids i = ks.map Doc.id := by
      simp only [Fr.H]
      rw [hs.2.1]
      have h1 : ∀ k ∈ ks.map Doc.id, k ∈ idsL ks := by
        intro k hk
        obtain ⟨u, hu, rfl⟩ := List.mem_map.1 hk
        exact mem_idsL.2 ⟨u, hu, id_mem_ids u⟩
      rw [List.filter_eq_self.2 (fun k hk => by simpa using hx k (by rw [ids]; exact List.mem_cons_of_mem _ (h1 k hk)))]
      refine map_sub g w _ fun k hk => ?_
      obtain ⟨u, hu, rfl⟩ := List.mem_map.1 hk
      rw [(shows_mem hs.2.2.2 u hu).lab]
      exact (noRel_mem hn.2 u hu).lab
    refine ⟨by rw [lab_out (hv i (by simp [ids])), hs.1], hk, ?_, ?_⟩
    · intro k hk2
      exact g.par_id w (by rw [hs.2.1]; exact List.mem_map_of_mem hk2) hil
    · exact showsL_same g w ks hs.2.2.2 hn.2 (fun j hj => hv j (by rw [ids]; exact List.mem_cons_of_mem _ hj))
        (fun j hj => hx j (by rw [ids]; exact List.mem_cons_of_mem _ hj))
theorem showsL_same (g : F.Good) {s : St} (w : F.WF s) : ∀ ts : List Doc, ShowsL F.h0 ts → NoRelL ts → (∀ i ∈ idsL ts, i ∉ s.V) → (∀ i ∈ idsL ts, i ∉ s.X) →
    ShowsL (F.H s) ts
  | [], _, _, _, _ => by simp [ShowsL]
  | t :: ts, hs, hn, hv, hx => by
    rw [ShowsL] at hs ⊢
    rw [NoRelL] at hn
    exact ⟨shows_same g w t hs.1 hn.1 (fun j hj => hv j (by simp [idsL, hj])) (fun j hj => hx j (by simp [idsL, hj])),
      showsL_same g w ts hs.2 hn.2 (fun j hj => hv j (by simp [idsL, hj])) (fun j hj => hx j (by simp [idsL, hj]))⟩
end

/-- A part of the music of a `\relative` where the walk has been. -/
structure Done (F : Fr) (s : St) (ts : List Doc) : Prop where
  shows : ShowsL F.h0 ts
  noRel : NoRelL ts
  nodup : (idsL ts).Nodup
  notes : ∀ i ∈ idsL ts, i ∈ s.V ↔ i ∈ notesOfL ts
  checks : ∀ i ∈ idsL ts, i ∈ s.X ↔ i ∈ checksOfL ts

theorem Done.head {s : St} {t : Doc} {ts : List Doc} (p : Done F s (t :: ts)) : Done F s [t] := by
  have hsh := p.shows
  have hnr := p.noRel
  have hnd := p.nodup
  rw [ShowsL] at hsh
  rw [NoRelL] at hnr
  rw [idsL, List.nodup_append] at hnd
  have e : idsL [t] = ids t := by simp [idsL]
  refine ⟨by simp [ShowsL, hsh.1], by simp [NoRelL, hnr.1], by rw [e]; exact hnd.1, ?_, ?_⟩
  · intro i hi
    rw [e] at hi
    rw [p.notes i (by rw [idsL]; exact List.mem_append_left _ hi)]
    simp only [notesOfL, Set.mem_union, Set.mem_empty_iff_false, or_false]
    exact ⟨fun h => h.resolve_right fun h => hnd.2.2 i hi i (notesOfL_sub _ h) rfl, .inl⟩
  · intro i hi
    rw [e] at hi
    rw [p.checks i (by rw [idsL]; exact List.mem_append_left _ hi)]
    simp only [checksOfL, Set.mem_union, Set.mem_empty_iff_false, or_false]
    exact ⟨fun h => h.resolve_right fun h => hnd.2.2 i hi i (checksOfL_sub _ h) rfl, .inl⟩

theorem Done.tail {s : St} {t : Doc} {ts : List Doc} (p : Done F s (t :: ts)) : Done F s ts := by
  have hsh := p.shows
  have hnr := p.noRel
  have hnd := p.nodup
  rw [ShowsL] at hsh
  rw [NoRelL] at hnr
  rw [idsL, List.nodup_append] at hnd
  refine ⟨hsh.2, hnr.2, hnd.2.1, ?_, ?_⟩
  · intro i hi
    rw [p.notes i (by rw [idsL]; exact List.mem_append_right _ hi)]
    simp only [notesOfL, Set.mem_union]
    exact ⟨fun h => h.resolve_left fun h => hnd.2.2 i (notesOf_sub _ h) i hi rfl, .inr⟩
  · intro i hi
    rw [p.checks i (by rw [idsL]; exact List.mem_append_right _ hi)]
    simp only [checksOfL, Set.mem_union]
    exact ⟨fun h => h.resolve_left fun h => hnd.2.2 i (checksOf_sub _ h) i hi rfl, .inr⟩

theorem Done.kids {s : St} {i : Id} {l : Lab} {ks : List Doc} (p : Done F s [.node i l ks])
    (hn : notesOf (.node i l ks) = notesOfL ks) (hc : checksOf (.node i l ks) = checksOfL ks) : Done F s ks := by
  have hsh := p.shows
  have hnr := p.noRel
  have hnd := p.nodup
  rw [ShowsL, Shows] at hsh
  rw [NoRelL, NoRel] at hnr
  have e : ∀ j ∈ idsL ks, j ∈ idsL [.node i l ks] := by intro j hj; simp [idsL, ids, hj]
  simp only [idsL, ids, List.append_nil, List.nodup_cons] at hnd
  refine ⟨hsh.1.2.2.2, hnr.1.2, hnd.2, ?_, ?_⟩
  · intro j hj; rw [p.notes j (e j hj)]; simp [notesOfL, hn]
  · intro j hj; rw [p.checks j (e j hj)]; simp [checksOfL, hc]

open Classical in
mutual
/-- After the walk the nodes in memory form the tree that it gives. -/
theorem walk_shows (g : F.Good) {s : St} (w : F.WF s) : ∀ (t : Doc) (sink sink' : Sink) (ts : List Doc), sink.isCheck = false →
    walk F.c F.L sink t = .ok (sink', ts) → Done F s [t] → FinOkL F.fin ts →
    ts.map Doc.id = [t.id].filter (fun k => k ∉ s.X) ∧ ShowsL (F.H s) ts
  | .node i l ks, sink, sink', ts, hck, hw, d, hf => by
    have hsh := d.shows
    have hnr := d.noRel
    have hnd := d.nodup
    rw [ShowsL, Shows] at hsh
    rw [NoRelL, NoRel] at hnr
    have hi : i ∈ idsL [.node i l ks] := by simp [idsL, ids]
    have e : ∀ j ∈ idsL ks, j ∈ idsL [.node i l ks] := by intro j hj; simp [idsL, ids, hj]
    simp only [idsL, ids, List.append_nil, List.nodup_cons] at hnd
    have hil : F.h0.lab i ≠ .relative := by rw [hsh.1.1]; exact hnr.1.1
    -- no change in the node
    have same : ts = [.node i l ks] → notesOf (.node i l ks) = ∅ → checksOf (.node i l ks) = ∅ →
        ts.map Doc.id = [i].filter (fun k => k ∉ s.X) ∧ ShowsL (F.H s) ts := by
      intro h1 h2 h3
      have hx : ∀ j ∈ idsL [.node i l ks], j ∉ s.X := by intro j hj h; rw [d.checks j hj] at h; simp [checksOfL, h3] at h
      have hv : ∀ j ∈ idsL [.node i l ks], j ∉ s.V := by intro j hj h; rw [d.notes j hj] at h; simp [notesOfL, h2] at h
      rw [h1]
      refine ⟨by simp [Doc.id, hx i hi], ?_⟩
      exact showsL_same g w _ d.shows d.noRel hv hx
    -- the nodes in it
    have inner : ∀ (sk sk' : Sink) (us : List Doc), sk.isCheck = false → walkL F.c F.L sk ks = .ok (sk', us) → ts = [.node i l us] →
        notesOf (.node i l ks) = notesOfL ks → checksOf (.node i l ks) = checksOfL ks →
        ts.map Doc.id = [i].filter (fun k => k ∉ s.X) ∧ ShowsL (F.H s) ts := by
      intro sk sk' us h1 h2 h3 h4 h5
      subst h3
      rw [FinOkL, FinOk] at hf
      obtain ⟨e1, e2⟩ := walkL_shows g w ks sk sk' us h1 h2 (d.kids h4 h5) hf.1.2
      have hv : i ∉ s.V := by
        intro h
        rw [d.notes i hi] at h
        simp only [notesOfL, h4, Set.union_empty] at h
        exact hnd.1 (notesOfL_sub _ h)
      have hx : i ∉ s.X := by
        intro h
        rw [d.checks i hi] at h
        simp only [checksOfL, h5, Set.union_empty] at h
        exact hnd.1 (checksOfL_sub _ h)
      have hmap : (F.H s).kids i = us.map Doc.id := by
        simp only [Fr.H]
        rw [e1, hsh.1.2.1]
        refine map_sub g w _ fun k hk => ?_
        obtain ⟨u, hu, rfl⟩ := List.mem_map.1 (List.mem_filter.1 hk).1
        rw [(shows_mem hsh.1.2.2.2 u hu).lab]
        exact (noRel_mem hnr.1.2 u hu).lab
      refine ⟨by simp [Doc.id, hx], ?_⟩
      rw [ShowsL, Shows]
      refine ⟨⟨by rw [lab_out hv, hsh.1.1], hmap, ?_, e2⟩, by simp [ShowsL]⟩
      intro k hk
      refine g.par_id w ?_ hil
      have : k.id ∈ us.map Doc.id := List.mem_map_of_mem hk
      rw [e1] at this
      rw [hsh.1.2.1]
      exact (List.mem_filter.1 this).1
    show ts.map Doc.id = [i].filter (fun k => k ∉ s.X) ∧ ShowsL (F.H s) ts
    cases l with
    | note p nd chk =>
      have note : ∀ nd' chk', ts = [.node i (.note p nd' chk') ks] → ts.map Doc.id = [i].filter (fun k => k ∉ s.X) ∧ ShowsL (F.H s) ts := by
        intro nd' chk' h1
        subst h1
        rw [FinOkL, FinOk] at hf
        have hfi := hf.1.1 p nd' chk' rfl
        have hv : i ∈ s.V := by rw [d.notes i hi]; simp [notesOfL, notesOf]
        have hx : ∀ j ∈ idsL [.node i (.note p nd chk) ks], j ∉ s.X := by
          intro j hj h; rw [d.checks j hj] at h; simp [checksOfL, checksOf] at h
        have hkv : ∀ j ∈ idsL ks, j ∉ s.V := by
          intro j hj h
          rw [d.notes j (e j hj)] at h
          simp only [notesOfL, notesOf, Set.union_empty, Set.mem_singleton_iff] at h
          subst h
          exact hnd.1 hj
        have hmap : (F.H s).kids i = ks.map Doc.id := by
          simp only [Fr.H]
          rw [hsh.1.2.1, List.filter_eq_self.2 (fun k hk => ?_)]
          · refine map_sub g w _ fun k hk => ?_
            obtain ⟨u, hu, rfl⟩ := List.mem_map.1 hk
            rw [(shows_mem hsh.1.2.2.2 u hu).lab]
            exact (noRel_mem hnr.1.2 u hu).lab
          · obtain ⟨u, hu, rfl⟩ := List.mem_map.1 hk
            simpa using hx _ (e _ (mem_idsL.2 ⟨u, hu, id_mem_ids u⟩))
        refine ⟨by simp [Doc.id, hx i hi], ?_⟩
        rw [ShowsL, Shows]
        refine ⟨⟨by simp only [Fr.H]; rw [if_pos hv, hfi], hmap, ?_, ?_⟩, by simp [ShowsL]⟩
        · intro k hk
          exact g.par_id w (by rw [hsh.1.2.1]; exact List.mem_map_of_mem hk) hil
        · exact showsL_same g w ks hsh.1.2.2.2 hnr.1.2 hkv (fun j hj => hx j (e j hj))
      cases sink with
      | music last =>
        simp only [walk] at hw
        split at hw
        · simp at hw
        · rename_i q m ha
          simp only [Except.ok.injEq, Prod.mk.injEq] at hw
          exact note _ _ hw.2.symm
      | chord top first =>
        simp only [walk] at hw
        split at hw
        · simp at hw
        · rename_i q m ha
          simp only [Except.ok.injEq, Prod.mk.injEq] at hw
          exact note _ _ hw.2.symm
      | check last => simp [Sink.isCheck] at hck
    | chord =>
      cases sink with
      | music last =>
        simp only [walk] at hw
        split at hw
        · simp at hw
        · rename_i us h1
          simp only [Except.ok.injEq, Prod.mk.injEq] at hw
          exact inner _ _ us (by rfl) h1 hw.2.symm (by simp [notesOf]) (by simp [checksOf])
        · simp at hw
      | _ => simp [walk] at hw
    | check =>
      cases sink with
      | music last =>
        simp only [walk] at hw
        split at hw
        · simp at hw
        · simp only [Except.ok.injEq, Prod.mk.injEq] at hw
          have hx : i ∈ s.X := by rw [d.checks i hi]; simp [checksOfL, checksOf]
          rw [← hw.2]
          simp [hx, ShowsL]
        · simp at hw
      | _ => simp [walk] at hw
    | relative => simp [walk] at hw
    | skip k =>
      simp only [walk, Except.ok.injEq, Prod.mk.injEq] at hw
      exact same hw.2.symm (by simp [notesOf]) (by simp [checksOf])
    | language l =>
      simp only [walk, Except.ok.injEq, Prod.mk.injEq] at hw
      exact same hw.2.symm (by simp [notesOf]) (by simp [checksOf])
    | comment =>
      simp only [walk] at hw
      split at hw
      · simp at hw
      · rename_i us h1
        simp only [Except.ok.injEq, Prod.mk.injEq] at hw
        exact inner _ _ us hck h1 hw.2.symm (by simp [notesOf]) (by simp [checksOf])
    | chordmode =>
      simp only [walk] at hw
      split at hw
      · simp at hw
      · rename_i us h1
        simp only [Except.ok.injEq, Prod.mk.injEq] at hw
        exact inner _ _ us hck h1 hw.2.symm (by simp [notesOf]) (by simp [checksOf])
    | other =>
      simp only [walk] at hw
      split at hw
      · simp at hw
      · rename_i us h1
        simp only [Except.ok.injEq, Prod.mk.injEq] at hw
        exact inner _ _ us hck h1 hw.2.symm (by simp [notesOf]) (by simp [checksOf])
theorem walkL_shows (g : F.Good) {s : St} (w : F.WF s) : ∀ (ts : List Doc) (sink sink' : Sink) (us : List Doc), sink.isCheck = false →
    walkL F.c F.L sink ts = .ok (sink', us) → Done F s ts → FinOkL F.fin us →
    us.map Doc.id = (ts.map Doc.id).filter (fun k => k ∉ s.X) ∧ ShowsL (F.H s) us
  | [], sink, sink', us, hck, hw, d, hf => by
    simp only [walkL, Except.ok.injEq, Prod.mk.injEq] at hw
    rw [← hw.2]
    simp [ShowsL]
  | t :: ts, sink, sink', us, hck, hw, d, hf => by
    simp only [walkL] at hw
    split at hw
    · simp at hw
    · rename_i s1 a h1
      split at hw
      · simp at hw
      · rename_i s2 b h2
        simp only [Except.ok.injEq, Prod.mk.injEq] at hw
        rw [← hw.2] at hf ⊢
        obtain ⟨hf1, hf2⟩ := finL_append _ _ _ hf
        obtain ⟨a1, a2⟩ := walk_shows g w t sink s1 a hck h1 d.head hf1
        obtain ⟨b1, b2⟩ := walkL_shows g w ts s1 s2 b (by rw [walk_isCheck _ _ _ _ _ _ h1]; exact hck) h2 d.tail hf2
        refine ⟨?_, ?_⟩
        · rw [List.map_append, a1, b1, List.map_cons, ← List.filter_append]; rfl
        · clear hf hf1 hf2 a1 h1 hw
          induction a with
          | nil => exact b2
          | cons x a ih => rw [ShowsL] at a2; rw [List.cons_append, ShowsL]; exact ⟨a2.1, ih a2.2⟩
end

/-- A part of the document when the edit is finished. -/
structure Over (F : Fr) (s : St) (ts : List Doc) : Prop where
  shows : ShowsL F.h0 ts
  nice : NiceL ts
  nodup : (idsL ts).Nodup
  rels : ∀ r ∈ relsOfL ts, r ∈ relsOf F.T ∧ r.id ∈ s.D
  notes : ∀ i ∈ idsL ts, i ∈ s.V ↔ ∃ r ∈ relsOfL ts, i ∈ notesOf (bodyOf r)
  checks : ∀ i ∈ idsL ts, i ∈ s.X ↔ ∃ r ∈ relsOfL ts, i ∈ checksOf (bodyOf r)

theorem Over.head (g : F.Good) {s : St} {t : Doc} {ts : List Doc} (p : Over F s (t :: ts)) : Over F s [t] := by
  have hsh := p.shows
  have hni := p.nice
  have hnd := p.nodup
  rw [ShowsL] at hsh
  rw [NiceL] at hni
  rw [idsL, List.nodup_append] at hnd
  have e : idsL [t] = ids t := by simp [idsL]
  have er : relsOfL [t] = relsOf t := by simp [relsOfL]
  have hsub : ∀ r ∈ relsOf t, r ∈ relsOfL (t :: ts) := fun r hr => by rw [relsOfL]; exact List.mem_append_left _ hr
  have hT : ∀ r ∈ relsOfL (t :: ts), r ∈ relsOf F.T := fun r hr => (p.rels r hr).1
  have split : ∀ r ∈ relsOfL (t :: ts), ∀ i ∈ ids t, i ∈ ids (bodyOf r) → r ∈ relsOf t := by
    intro r hr i hi hb
    have := g.body_mem (hT r hr) i hb
    rw [relsOfL, List.mem_append] at hr
    exact hr.resolve_right fun hr => hnd.2.2 i hi i ((relsOfL_rel _ r hr).2 i this) rfl
  refine ⟨by simp [ShowsL, hsh.1], by simp [NiceL, hni.1], by rw [e]; exact hnd.1, ?_, ?_, ?_⟩
  · rw [er]; exact fun r hr => p.rels r (hsub r hr)
  · intro i hi
    rw [e] at hi
    rw [p.notes i (by rw [idsL]; exact List.mem_append_left _ hi), er]
    exact ⟨fun ⟨r, hr, h⟩ => ⟨r, split r hr i hi (notesOf_sub _ h), h⟩, fun ⟨r, hr, h⟩ => ⟨r, hsub r hr, h⟩⟩
  · intro i hi
    rw [e] at hi
    rw [p.checks i (by rw [idsL]; exact List.mem_append_left _ hi), er]
    exact ⟨fun ⟨r, hr, h⟩ => ⟨r, split r hr i hi (checksOf_sub _ h), h⟩, fun ⟨r, hr, h⟩ => ⟨r, hsub r hr, h⟩⟩

theorem Over.tail (g : F.Good) {s : St} {t : Doc} {ts : List Doc} (p : Over F s (t :: ts)) : Over F s ts := by
  have hsh := p.shows
  have hni := p.nice
  have hnd := p.nodup
  rw [ShowsL] at hsh
  rw [NiceL] at hni
  rw [idsL, List.nodup_append] at hnd
  have hsub : ∀ r ∈ relsOfL ts, r ∈ relsOfL (t :: ts) := fun r hr => by rw [relsOfL]; exact List.mem_append_right _ hr
  have hT : ∀ r ∈ relsOfL (t :: ts), r ∈ relsOf F.T := fun r hr => (p.rels r hr).1
  have split : ∀ r ∈ relsOfL (t :: ts), ∀ i ∈ idsL ts, i ∈ ids (bodyOf r) → r ∈ relsOfL ts := by
    intro r hr i hi hb
    have := g.body_mem (hT r hr) i hb
    rw [relsOfL, List.mem_append] at hr
    exact hr.resolve_left fun hr => hnd.2.2 i ((relsOf_rel _ r hr).2 i this) i hi rfl
  refine ⟨hsh.2, hni.2, hnd.2.1, fun r hr => p.rels r (hsub r hr), ?_, ?_⟩
  · intro i hi
    rw [p.notes i (by rw [idsL]; exact List.mem_append_right _ hi)]
    exact ⟨fun ⟨r, hr, h⟩ => ⟨r, split r hr i hi (notesOf_sub _ h), h⟩, fun ⟨r, hr, h⟩ => ⟨r, hsub r hr, h⟩⟩
  · intro i hi
    rw [p.checks i (by rw [idsL]; exact List.mem_append_right _ hi)]
    exact ⟨fun ⟨r, hr, h⟩ => ⟨r, split r hr i hi (checksOf_sub _ h), h⟩, fun ⟨r, hr, h⟩ => ⟨r, hsub r hr, h⟩⟩

/-- What is shown at the place of the nodes. -/
def Placed (F : Fr) (s : St) (o : Id) (ts : List Doc) : Prop := ∀ k ∈ ts, (F.H s).parent k.id = some o

open Classical in
mutual
/-- In the end the nodes in memory form the tree that `out` gives. -/
theorem out_shows (g : F.Good) {s : St} (w : F.WF s) : ∀ (t : Doc) (ts : List Doc) (o : Id), out F.c F.L t = .ok ts → Over F s [t] → FinOkL F.fin ts →
    t.id ∈ F.h0.kids o → F.h0.lab o ≠ .relative →
    ts.map Doc.id = [F.sub s.D t.id] ∧ ShowsL (F.H s) ts ∧ Placed F s o ts
  | .node i l ks, ts, o, ho, p, hf, hto, hol => by
    have hsh := p.shows
    have hni := p.nice
    have hnd := p.nodup
    rw [ShowsL] at hsh
    rw [NiceL] at hni
    have hi : i ∈ idsL [.node i l ks] := by simp [idsL, ids]
    have e : ∀ j ∈ idsL ks, j ∈ idsL [.node i l ks] := by intro j hj; simp [idsL, ids, hj]
    have er : relsOfL [.node i l ks] = relsOf (.node i l ks) := by simp [relsOfL]
    simp only [idsL, ids, List.append_nil, List.nodup_cons] at hnd
    rw [out] at ho
    split_ifs at ho with hl
    · -- a `\relative`
      have hrt : relsOf (.node i l ks) = [.node i l ks] := by rw [relsOf, if_pos hl]
      obtain ⟨hr, hd⟩ := p.rels (.node i l ks) (by rw [er, hrt]; simp)
      obtain ⟨hb1, hb2, hb3, hb4⟩ := relOk_body (g.relOk hr)
      have hbi := g.body_id hr
      split at ho
      · simp at ho
      · split at ho
        · simp at ho
        · rename_i q _ sk us hw
          simp only [Except.ok.injEq] at ho
          subst ho
          have eb : idsL [bodyOf (.node i l ks)] = ids (bodyOf (.node i l ks)) := by simp [idsL]
          have hin : ∀ j ∈ ids (bodyOf (.node i l ks)), j ∈ idsL [.node i l ks] := by
            intro j hj
            have := g.body_mem hr j hj
            simpa [idsL] using this
          have d : Done F s [bodyOf (.node i l ks)] := by
            refine ⟨by simp [ShowsL, g.body_shows hr], by simp [NoRelL, hb3], by rw [eb]; exact nodup_mem hnd.2 _ hb1, ?_, ?_⟩
            · intro j hj
              rw [eb] at hj
              rw [p.notes j (hin j hj), er, hrt]
              simp [notesOfL]
            · intro j hj
              rw [eb] at hj
              rw [p.checks j (hin j hj), er, hrt]
              simp [checksOfL]
          obtain ⟨a1, a2⟩ := walk_shows g w _ _ _ _ rfl hw d hf
          have hnx : (bodyOf (.node i l ks)).id ∉ s.X := by
            intro h
            have h2 := g.X_lab w h
            rw [(g.body_shows hr).lab] at h2
            exact hb2 h2
          have a1' : us.map Doc.id = [(bodyOf (.node i l ks)).id] := by rw [a1]; simp [hnx]
          refine ⟨?_, a2, ?_⟩
          · rw [a1', Fr.sub, if_pos hd, hbi]
          · intro k hk
            have : k.id = (bodyOf (.node i l ks)).id := by
              have : k.id ∈ us.map Doc.id := List.mem_map_of_mem hk
              rw [a1'] at this
              simpa using this
            rw [this]
            simp only [Fr.H, Fr.par, g.body_parent hr]
            rw [if_pos ⟨hd, hbi⟩]
            exact g.linked.parent o _ hto
    · -- another node
      split at ho
      · simp at ho
      · rename_i us h1
        simp only [Except.ok.injEq] at ho
        subst ho
        have hs1 := hsh.1
        rw [Shows] at hs1
        rw [FinOkL, FinOk] at hf
        have hrt : relsOf (.node i l ks) = relsOfL ks := by rw [relsOf, if_neg hl]
        have hil : F.h0.lab i ≠ .relative := by rw [hs1.1]; exact hl
        have hov : Over F s ks := by
          refine ⟨hs1.2.2.2, (nice_other hni.1 hl).2.2, hnd.2, ?_, ?_, ?_⟩
          · intro r hr; exact p.rels r (by rw [er, hrt]; exact hr)
          · intro j hj; rw [p.notes j (e j hj), er, hrt]
          · intro j hj; rw [p.checks j (e j hj), er, hrt]
        obtain ⟨e1, e2, e3⟩ := outL_shows g w ks us i h1 hov hf.1.2 (fun t ht => by rw [hs1.2.1]; exact List.mem_map_of_mem ht) hil
        have hv : i ∉ s.V := by
          intro h
          rw [p.notes i hi, er, hrt] at h
          obtain ⟨r, hr, h⟩ := h
          exact hnd.1 ((relsOfL_rel _ r hr).2 i (g.body_mem (hov.rels r hr).1 _ (notesOf_sub _ h)))
        have hnx : ∀ k ∈ F.h0.kids i, k ∉ s.X := by
          intro k hk hx
          have hx2 : k ∈ idsL ks := by
            rw [hs1.2.1] at hk
            obtain ⟨u, hu, rfl⟩ := List.mem_map.1 hk
            exact mem_idsL.2 ⟨u, hu, id_mem_ids u⟩
          rw [hov.checks k hx2] at hx
          obtain ⟨r, hr, hx⟩ := hx
          have hrT := (hov.rels r hr).1
          obtain ⟨_, b2, b3, b4⟩ := relOk_body (g.relOk hrT)
          rcases (checks_last _ _ (Nat.lt_succ_self _) (g.body_shows hrT) b4 b3 k hx).2 with ⟨a, _⟩ | ⟨q, hq, pre, hpk, _⟩
          · exact b2 a
          · have e' := g.linked.parent q k (by rw [hpk]; simp)
            rw [g.linked.parent i k hk] at e'
            cases e'
            exact hnd.1 ((relsOfL_rel _ r hr).2 i (g.body_mem hrT _ hq))
        have hmap : (F.H s).kids i = us.map Doc.id := by
          simp only [Fr.H]
          rw [List.filter_eq_self.2 (fun k hk => by simpa using hnx k hk), e1, hs1.2.1, List.map_map]
          rfl
        refine ⟨?_, ?_, ?_⟩
        · rw [show F.sub s.D (Doc.node i l ks).id = i from g.sub_id w hil]; rfl
        · rw [ShowsL, Shows]
          exact ⟨⟨by rw [lab_out hv, hs1.1], hmap, e3, e2⟩, by simp [ShowsL]⟩
        · intro k hk
          rw [List.mem_singleton] at hk
          subst hk
          exact g.par_id w hto hol
theorem outL_shows (g : F.Good) {s : St} (w : F.WF s) : ∀ (ts us : List Doc) (o : Id), outL F.c F.L ts = .ok us → Over F s ts → FinOkL F.fin us →
    (∀ t ∈ ts, t.id ∈ F.h0.kids o) → F.h0.lab o ≠ .relative →
    us.map Doc.id = ts.map (fun t => F.sub s.D t.id) ∧ ShowsL (F.H s) us ∧ Placed F s o us
  | [], us, o, ho, p, hf, hto, hol => by
    simp only [outL, Except.ok.injEq] at ho
    rw [← ho]
    simp [ShowsL, Placed]
  | t :: ts, us, o, ho, p, hf, hto, hol => by
    simp only [outL] at ho
    split at ho
    · simp at ho
    · rename_i a h1
      split at ho
      · simp at ho
      · rename_i b h2
        simp only [Except.ok.injEq] at ho
        rw [← ho] at hf ⊢
        obtain ⟨hf1, hf2⟩ := finL_append _ _ _ hf
        obtain ⟨a1, a2, a3⟩ := out_shows g w t a o h1 (p.head g) hf1 (hto t (List.mem_cons_self ..)) hol
        obtain ⟨b1, b2, b3⟩ := outL_shows g w ts b o h2 (p.tail g) hf2 (fun u hu => hto u (List.mem_cons_of_mem _ hu)) hol
        refine ⟨?_, ?_, ?_⟩
        · rw [List.map_append, a1, b1]; rfl
        · clear hf hf1 hf2 a1 h1 ho a3
          induction a with
          | nil => exact b2
          | cons x a ih => rw [ShowsL] at a2; rw [List.cons_append, ShowsL]; exact ⟨a2.1, ih a2.2⟩
        · intro k hk
          rcases List.mem_append.1 hk with hk | hk
          · exact a3 k hk
          · exact b3 k hk
end

theorem map_sub' {D : Set Id} {l : List Id} (h : ∀ k ∈ l, k ∉ D) : l.map (F.sub D) = l := by
  conv_rhs => rw [← List.map_id l]
  exact List.map_congr_left fun k hk => by rw [Fr.sub, if_neg (h k hk)]; rfl

/-- Nodes that are not in the document keep their parent, and its root does. -/
theorem Fr.Good.frame_parent (g : F.Good) {s : St} (w : F.WF s) (j : Id) (hj : j ∉ ids F.T ∨ j = F.T.id) : (F.H s).parent j = F.h0.parent j := by
  simp only [Fr.H, Fr.par]
  cases hp : F.h0.parent j with
  | none => rfl
  | some r =>
    simp only
    rw [if_neg]
    rintro ⟨hd, hb⟩
    obtain ⟨r', hr', rfl⟩ := w.D r hd
    rw [g.body_id hr'] at hb
    have hin := (relsOf_rel _ r' hr').2 _ (g.body_mem hr' _ (id_mem_ids _))
    rw [hb] at hin
    rcases hj with hj | hj
    · exact hj hin
    · have hroot := g.root
      have hn := g.nodup
      have h1 := g.body_mem hr' _ (id_mem_ids _)
      rw [hb, hj] at h1
      generalize hT : F.T = T at hroot hn h1 hr'
      obtain ⟨i, l, ks⟩ := T
      rw [relsOf, if_neg (show l ≠ .relative from hroot)] at hr'
      rw [ids, List.nodup_cons] at hn
      exact hn.1 ((relsOfL_rel _ r' hr').2 i h1)

/-- Nodes that are not in the document do not change. -/
theorem Fr.Good.frame (g : F.Good) {s : St} (w : F.WF s) (j : Id) (hj : j ∉ ids F.T) :
    (F.H s).lab j = F.h0.lab j ∧ (F.H s).kids j = F.h0.kids j ∧ (F.H s).parent j = F.h0.parent j := by
  have hin : ∀ r ∈ relsOf F.T, ∀ k ∈ ids (bodyOf r), k ∈ ids F.T := fun r hr k hk => (relsOf_rel _ r hr).2 _ (g.body_mem hr _ hk)
  have up : ∀ k ∈ F.h0.kids j, k ∈ ids F.T → k = F.T.id := by
    intro k hk hT
    by_contra hne
    obtain ⟨p, hp, e⟩ := parent_in F.T F.T g.shows k hT hne
    rw [g.linked.parent j k hk] at e
    cases e
    exact hj hp
  refine ⟨lab_out ?_, ?_, g.frame_parent w j (.inl hj)⟩
  · intro h
    obtain ⟨r, hr, _, h⟩ := w.V h
    exact hj (hin r hr j (notesOf_sub _ h))
  · simp only [Fr.H]
    rw [List.filter_eq_self.2]
    · refine map_sub' fun k hk hd => ?_
      obtain ⟨r, hr, e⟩ := w.D k hd
      have := up k hk (e ▸ (relsOf_rel _ r hr).2 _ (id_mem_ids _))
      have hl := g.rel_lab hr
      rw [e, this, g.shows.lab] at hl
      exact g.root hl
    · intro k hk
      have : k ∉ s.X := by
        intro h
        obtain ⟨r, hr, _, h⟩ := w.X h
        obtain ⟨_, b2, b3, b4⟩ := relOk_body (g.relOk hr)
        rcases (checks_last _ _ (Nat.lt_succ_self _) (g.body_shows hr) b4 b3 k h).2 with ⟨a, _⟩ | ⟨q, hq, pre, hpk, _⟩
        · exact b2 a
        · have e' := g.linked.parent q k (by rw [hpk]; simp)
          rw [g.linked.parent j k hk] at e'
          cases e'
          exact hj (hin r hr _ hq)
      simpa using this

/-- The edit of a document. -/
theorem edit_document (c : Cfg) (h : Heap) (hl : Linked h) (i : Id) (l : Lab) (ks ks' : List Doc) (hlab : l ≠ .relative)
    (hs : Shows h (.node i l ks)) (hn : (ids (.node i l ks)).Nodup) (hni : Nice (.node i l ks)) (hla : OneLang h.lang (.node i l ks))
    (ho : outL c h.lang ks = .ok ks') :
    ∃ h', Ends (fun f => editRange c {} f h i) (.ok h') ∧ Shows h' (.node i l ks') ∧ h'.lang = h.lang ∧ h'.parent i = h.parent i ∧
      ∀ j ∉ ids (.node i l ks), h'.lab j = h.lab j ∧ h'.kids j = h.kids j ∧ h'.parent j = h.parent j := by
  have hout : out c h.lang (.node i l ks) = .ok [.node i l ks'] := by rw [out, if_neg hlab, ho]
  have hsub := out_ids c h.lang _ _ hni hout
  obtain ⟨fin, hfin⟩ := finL_exists _ (hn.sublist hsub)
  let F : Fr := ⟨c, .node i l ks, h, fin⟩
  have g : F.Good := ⟨hl, hs, hn, hni, hlab, hla, out_conv c h.lang fin _ _ hout hfin⟩
  obtain ⟨A, hA, hA2, hE⟩ := edit_run g
  have w0 : F.WF ⟨∅, ∅, ∅⟩ := ⟨by simp, by simp, by simp⟩
  have w := w0.add hA
  refine ⟨_, hE, ?_, rfl, g.frame_parent w i (.inr rfl), fun j hj => g.frame w j hj⟩
  have hrt : relsOf (.node i l ks) = relsOfL ks := by rw [relsOf, if_neg hlab]
  have hs1 := hs
  rw [Shows] at hs1
  have hn1 := hn
  rw [ids, List.nodup_cons] at hn1
  have hmemD : ∀ r ∈ relsOfL ks, r ∈ relsOf F.T ∧ r.id ∈ (F.add ⟨∅, ∅, ∅⟩ A).D := by
    intro r hr
    have : r ∈ relsOf F.T := by show r ∈ relsOf (.node i l ks); rw [hrt]; exact hr
    exact ⟨this, .inr (hA2 r this)⟩
  have hov : Over F (F.add ⟨∅, ∅, ∅⟩ A) ks := by
    refine ⟨hs1.2.2.2, (nice_other hni hlab).2.2, hn1.2, hmemD, ?_, ?_⟩
    · intro j hj
      constructor
      · rintro (h | ⟨r, hr, _, h⟩)
        · exact absurd h (by simp)
        · exact ⟨r, by rw [← hrt]; exact hr, h⟩
      · rintro ⟨r, hr, h⟩
        exact .inr ⟨r, (hmemD r hr).1, hA2 r (hmemD r hr).1, h⟩
    · intro j hj
      constructor
      · rintro (h | ⟨r, hr, _, h⟩)
        · exact absurd h (by simp)
        · exact ⟨r, by rw [← hrt]; exact hr, h⟩
      · rintro ⟨r, hr, h⟩
        exact .inr ⟨r, (hmemD r hr).1, hA2 r (hmemD r hr).1, h⟩
  rw [FinOkL, FinOk] at hfin
  have hil : F.h0.lab i ≠ .relative := by show h.lab i ≠ _; rw [hs1.1]; exact hlab
  obtain ⟨e1, e2, e3⟩ := outL_shows g w ks ks' i ho hov hfin.1.2 (fun t ht => by
    show t.id ∈ h.kids i; rw [hs1.2.1]; exact List.mem_map_of_mem ht) hil
  have hv : i ∉ (F.add ⟨∅, ∅, ∅⟩ A).V := by
    rintro (h | ⟨r, hr, _, h⟩)
    · exact absurd h (by simp)
    · have hr' : r ∈ relsOfL ks := by rw [← hrt]; exact hr
      exact hn1.1 ((relsOfL_rel _ r hr').2 i (g.body_mem hr _ (notesOf_sub _ h)))
  have hnx : ∀ k ∈ F.h0.kids i, k ∉ (F.add ⟨∅, ∅, ∅⟩ A).X := by
    intro k hk hx
    rcases hx with hx | ⟨r, hrT, _, hx⟩
    · exact absurd hx (by simp)
    · have hr : r ∈ relsOfL ks := by rw [← hrt]; exact hrT
      obtain ⟨_, b2, b3, b4⟩ := relOk_body (g.relOk hrT)
      rcases (checks_last _ _ (Nat.lt_succ_self _) (g.body_shows hrT) b4 b3 k hx).2 with ⟨a, _⟩ | ⟨q, hq, pre, hpk, _⟩
      · exact b2 a
      · have e' := g.linked.parent q k (by rw [hpk]; simp)
        rw [g.linked.parent i k hk] at e'
        cases e'
        exact hn1.1 ((relsOfL_rel _ r hr).2 i (g.body_mem hrT _ hq))
  rw [Shows]
  refine ⟨by rw [lab_out hv]; exact hs1.1, ?_, e3, e2⟩
  simp only [Fr.H]
  rw [List.filter_eq_self.2 (fun k hk => by simpa using hnx k hk), e1, show F.h0.kids i = ks.map Doc.id from hs1.2.1, List.map_map]
  rfl

/-! ## What stays -/

theorem absNote_keeps {pp : Langs} {n n' : Note} {last q : Pitch} (h : absNote pp n last = .ok (q, n')) : n'.check = n.check := by
  rw [absNote] at h
  split at h
  · simp at h
  · simp only at h
    split at h
    · simp at h
    · simp only [Except.ok.injEq, Prod.mk.injEq] at h
      rw [← h.2]

mutual
theorem shows_kept {h : Heap} : ∀ t : Doc, Shows h t → Kept h t
  | .node i l ks, hs => by
    rw [Shows] at hs
    rw [Kept]
    exact ⟨.inl hs.1, showsL_kept ks hs.2.2.2⟩
theorem showsL_kept {h : Heap} : ∀ ts : List Doc, ShowsL h ts → KeptL h ts
  | [], _ => by simp [KeptL]
  | t :: ts, hs => by rw [ShowsL] at hs; rw [KeptL]; exact ⟨shows_kept t hs.1, showsL_kept ts hs.2⟩
end

theorem keptL_append {h : Heap} (a b : List Doc) (ha : KeptL h a) (hb : KeptL h b) : KeptL h (a ++ b) := by
  induction a with
  | nil => exact hb
  | cons t a ih => rw [KeptL] at ha; rw [List.cons_append, KeptL]; exact ⟨ha.1, ih ha.2⟩

theorem noRelL_append (a b : List Doc) (ha : NoRelL a) (hb : NoRelL b) : NoRelL (a ++ b) := by
  induction a with
  | nil => exact hb
  | cons t a ih => rw [NoRelL] at ha; rw [List.cons_append, NoRelL]; exact ⟨ha.1, ih ha.2⟩

mutual
theorem walk_kept (c : Cfg) (L : Str) {h : Heap} : ∀ (t : Doc) (s s' : Sink) (ts : List Doc), walk c L s t = .ok (s', ts) → Shows h t → NoRel t →
    KeptL h ts ∧ NoRelL ts
  | .node i l ks, s, s', ts, hw, hs, hn => by
    have hst := shows_kept _ hs
    have hnt : NoRel (.node i l ks) := hn
    rw [Shows] at hs
    rw [NoRel] at hn
    have ih := fun a b d e => walkL_kept c L (h := h) ks a b d e hs.2.2.2 hn.2
    have same : KeptL h [.node i l ks] ∧ NoRelL [.node i l ks] := by
      simp only [KeptL, NoRelL, and_true]; exact ⟨hst, hnt⟩
    have inner : ∀ us, KeptL h us ∧ NoRelL us → KeptL h [.node i l us] ∧ NoRelL [.node i l us] := by
      rintro us ⟨h1, h2⟩
      simp only [KeptL, Kept, NoRelL, NoRel, and_true]; exact ⟨⟨.inl hs.1, h1⟩, hn.1, h2⟩
    cases l with
    | note p nd chk =>
      have note : ∀ nd', KeptL h [.node i (.note p nd' chk) ks] ∧ NoRelL [.node i (.note p nd' chk) ks] := by
        intro nd'
        simp only [KeptL, Kept, NoRelL, NoRel, and_true]
        exact ⟨⟨.inr ⟨p, nd, nd', chk, hs.1, rfl⟩, showsL_kept ks hs.2.2.2⟩, by simp, hn.2⟩
      cases s with
      | check last =>
        simp only [walk] at hw
        split at hw
        · simp at hw
        · simp only [Except.ok.injEq, Prod.mk.injEq] at hw
          rw [← hw.2]; exact same
      | _ =>
        simp only [walk] at hw
        split at hw
        · simp at hw
        · rename_i q n hq
          simp only [Except.ok.injEq, Prod.mk.injEq] at hw
          rw [← hw.2, absNote_keeps hq]; exact note _
    | chord =>
      cases s with
      | music last =>
        simp only [walk] at hw
        split at hw
        · simp at hw
        · rename_i us h1
          simp only [Except.ok.injEq, Prod.mk.injEq] at hw
          rw [← hw.2]; exact inner us (ih _ _ _ h1)
        · simp at hw
      | _ => simp [walk] at hw
    | check =>
      cases s with
      | music last =>
        simp only [walk] at hw
        split at hw
        · simp at hw
        · simp only [Except.ok.injEq, Prod.mk.injEq] at hw
          rw [← hw.2]; simp [KeptL, NoRelL]
        · simp at hw
      | _ => simp [walk] at hw
    | relative => simp [walk] at hw
    | skip k => simp only [walk, Except.ok.injEq, Prod.mk.injEq] at hw; rw [← hw.2]; exact same
    | language l => simp only [walk, Except.ok.injEq, Prod.mk.injEq] at hw; rw [← hw.2]; exact same
    | comment | chordmode | other =>
      simp only [walk] at hw
      split at hw
      · simp at hw
      · rename_i us h1
        simp only [Except.ok.injEq, Prod.mk.injEq] at hw
        rw [← hw.2]; exact inner us (ih _ _ _ h1)
theorem walkL_kept (c : Cfg) (L : Str) {h : Heap} : ∀ (ts : List Doc) (s s' : Sink) (us : List Doc), walkL c L s ts = .ok (s', us) → ShowsL h ts → NoRelL ts →
    KeptL h us ∧ NoRelL us
  | [], s, s', us, hw, _, _ => by simp only [walkL, Except.ok.injEq, Prod.mk.injEq] at hw; rw [← hw.2]; simp [KeptL, NoRelL]
  | t :: ts, s, s', us, hw, hs, hn => by
    rw [ShowsL] at hs
    rw [NoRelL] at hn
    simp only [walkL] at hw
    split at hw
    · simp at hw
    · rename_i s1 a h1
      split at hw
      · simp at hw
      · rename_i s2 b h2
        simp only [Except.ok.injEq, Prod.mk.injEq] at hw
        rw [← hw.2]
        obtain ⟨a1, a2⟩ := walk_kept c L t _ _ _ h1 hs.1 hn.1
        obtain ⟨b1, b2⟩ := walkL_kept c L ts _ _ _ h2 hs.2 hn.2
        exact ⟨keptL_append _ _ a1 b1, noRelL_append _ _ a2 b2⟩
end

mutual
theorem out_kept (c : Cfg) (L : Str) {h : Heap} : ∀ (t : Doc) (ts : List Doc), out c L t = .ok ts → Shows h t → Nice t → KeptL h ts ∧ NoRelL ts
  | .node i l ks, ts, ho, hs, hn => by
    have hs' := hs
    rw [out] at ho
    rw [Shows] at hs
    split_ifs at ho with hl
    · subst hl
      obtain ⟨hb1, _, hb3, _⟩ := relOk_body (r := .node i .relative ks) (nice_rel hn)
      split at ho
      · simp at ho
      · split at ho
        · simp at ho
        · rename_i us h1
          simp only [Except.ok.injEq] at ho
          rw [← ho]
          exact walk_kept c L _ _ _ _ h1 (shows_mem hs.2.2.2 _ hb1) hb3
    · split at ho
      · simp at ho
      · rename_i us h1
        simp only [Except.ok.injEq] at ho
        rw [← ho]
        obtain ⟨a1, a2⟩ := outL_kept c L ks us h1 hs.2.2.2 (nice_other hn hl).2.2
        simp only [KeptL, Kept, NoRelL, NoRel, and_true]
        exact ⟨⟨.inl hs.1, a1⟩, hl, a2⟩
theorem outL_kept (c : Cfg) (L : Str) {h : Heap} : ∀ (ts us : List Doc), outL c L ts = .ok us → ShowsL h ts → NiceL ts → KeptL h us ∧ NoRelL us
  | [], us, ho, _, _ => by simp only [outL, Except.ok.injEq] at ho; rw [← ho]; simp [KeptL, NoRelL]
  | t :: ts, us, ho, hs, hn => by
    rw [ShowsL] at hs
    rw [NiceL] at hn
    simp only [outL] at ho
    split at ho
    · simp at ho
    · rename_i a h1
      split at ho
      · simp at ho
      · rename_i b h2
        simp only [Except.ok.injEq] at ho
        rw [← ho]
        obtain ⟨a1, a2⟩ := out_kept c L t _ h1 hs.1 hn.1
        obtain ⟨b1, b2⟩ := outL_kept c L ts _ h2 hs.2 hn.2
        exact ⟨keptL_append _ _ a1 b1, noRelL_append _ _ a2 b2⟩
end

end Quickly.Rel2abs
