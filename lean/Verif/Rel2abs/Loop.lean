import Verif.Rel2abs.Run

/-! # The loop over the music of a `\relative` -/

namespace Quickly.Rel2abs

open Quickly.Pitch Quickly.Relative Spec

/-- Whether an `\octaveCheck` is read. -/
def Sink.isCheck : Sink → Bool
  | .check _ => true
  | _ => false

/-- The notes that are changed: none in an `\octaveCheck`. -/
def Sink.marks (s : Sink) (A : Set Id) : Set Id := {i | s.isCheck = false ∧ i ∈ A}

mutual
theorem walk_isCheck (c : Cfg) (L : Str) : ∀ (t : Doc) (s s' : Sink) (ts : List Doc), walk c L s t = .ok (s', ts) → s'.isCheck = s.isCheck
  | .node i l ks, s, s', ts, h => by
    have hk := walkL_isCheck c L ks
    cases l with
    | note p nd chk =>
      cases s <;> simp only [walk] at h <;> split at h <;> simp_all <;> obtain ⟨rfl, _⟩ := h <;> rfl
    | chord =>
      cases s with
      | music last =>
        simp only [walk] at h
        split at h <;> simp_all
        obtain ⟨rfl, _⟩ := h; rfl
      | _ => simp [walk] at h
    | check =>
      cases s with
      | music last =>
        simp only [walk] at h
        split at h <;> simp_all
        obtain ⟨rfl, _⟩ := h; rfl
      | _ => simp [walk] at h
    | relative => simp [walk] at h
    | skip k => simp only [walk, Except.ok.injEq, Prod.mk.injEq] at h; rw [h.1]
    | language l => simp only [walk, Except.ok.injEq, Prod.mk.injEq] at h; rw [h.1]
    | comment =>
      simp only [walk] at h
      split at h
      · simp at h
      · rename_i h1
        simp only [Except.ok.injEq, Prod.mk.injEq] at h
        rw [← h.1]; exact hk _ _ _ h1
    | chordmode =>
      simp only [walk] at h
      split at h
      · simp at h
      · rename_i h1
        simp only [Except.ok.injEq, Prod.mk.injEq] at h
        rw [← h.1]; exact hk _ _ _ h1
    | other =>
      simp only [walk] at h
      split at h
      · simp at h
      · rename_i h1
        simp only [Except.ok.injEq, Prod.mk.injEq] at h
        rw [← h.1]; exact hk _ _ _ h1
theorem walkL_isCheck (c : Cfg) (L : Str) : ∀ (ts : List Doc) (s s' : Sink) (us : List Doc), walkL c L s ts = .ok (s', us) → s'.isCheck = s.isCheck
  | [], s, s', us, h => by simp only [walkL, Except.ok.injEq, Prod.mk.injEq] at h; rw [h.1]
  | t :: ts, s, s', us, h => by
    simp only [walkL] at h
    split at h
    · simp at h
    · rename_i s1 a h1
      split at h
      · simp at h
      · rename_i s2 b h2
        simp only [Except.ok.injEq, Prod.mk.injEq] at h
        rw [← h.1, walkL_isCheck c L ts _ _ _ h2, walk_isCheck c L t _ _ _ h1]
end

/-- A part of the music of the `\relative` `r0`, where the walk has not yet been. -/
structure Part (F : Fr) (r0 : Doc) (s : St) (sink : Sink) (ts : List Doc) : Prop where
  shows : ShowsL F.h0 ts
  noRel : NoRelL ts
  lang : OneLangL F.L ts
  nodup : (idsL ts).Nodup
  sub : ∀ i ∈ idsL ts, i ∈ ids r0
  notes : sink.marks (notesOfL ts) ⊆ notesOf (bodyOf r0)
  checks : checksOfL ts ⊆ checksOf (bodyOf r0)
  freshV : ∀ i ∈ idsL ts, i ∉ s.V
  freshX : ∀ i ∈ idsL ts, i ∉ s.X

/-- The state after the walk over these nodes. -/
def St.step (s : St) (sink : Sink) (ts : List Doc) : St := ⟨s.D, s.V ∪ sink.marks (notesOfL ts), s.X ∪ checksOfL ts⟩

theorem step_nil (s : St) (sink : Sink) : s.step sink [] = s := by
  simp [St.step, Sink.marks, notesOfL, checksOfL]

theorem finL_append (fin : Id → Bool × PNode × Option ℤ) (a b : List Doc) (h : FinOkL fin (a ++ b)) : FinOkL fin a ∧ FinOkL fin b := by
  induction a with
  | nil => exact ⟨by simp [FinOkL], h⟩
  | cons t a ih => rw [List.cons_append, FinOkL] at h; obtain ⟨x, y⟩ := ih h.2; exact ⟨by rw [FinOkL]; exact ⟨h.1, x⟩, y⟩

variable {F : Fr} (g : F.Good)

theorem step_add (s : St) (sink sink1 : Sink) (hs : sink1.isCheck = sink.isCheck) (t : Doc) (ts : List Doc) (A B : Set Id) :
    F.add ((F.add (s.step sink [t]) A).step sink1 ts) B = F.add (s.step sink (t :: ts)) (A ∪ B) := by
  simp only [Fr.add, St.step, Fr.notes_union, Fr.checks_union, notesOfL, checksOfL, St.mk.injEq]
  have hm : sink1.marks (notesOfL ts) = sink.marks (notesOfL ts) := by simp [Sink.marks, hs]
  rw [hm]
  refine ⟨by rw [Set.union_assoc], ?_, ?_⟩
  · ext i
    simp only [Set.mem_union, Sink.marks, Set.mem_setOf_eq, Set.mem_empty_iff_false]
    tauto
  · ext i
    simp only [Set.mem_union, Set.mem_empty_iff_false]
    tauto

theorem step_D {s : St} {sink : Sink} {ts : List Doc} : (s.step sink ts).D = s.D := rfl

include g

theorem Part.wf {r0 : Doc} {s : St} {sink : Sink} {ts : List Doc} (p : Part F r0 s sink ts) (w : F.WF s) (h0 : r0 ∈ relsOf F.T)
    (hd : r0.id ∈ s.D) : F.WF (s.step sink ts) where
  D := w.D
  V i hi := by
    rcases hi with hi | hi
    · exact w.V hi
    · exact ⟨r0, h0, hd, p.notes hi⟩
  X i hi := by
    rcases hi with hi | hi
    · exact w.X hi
    · exact ⟨r0, h0, hd, p.checks hi⟩

/-- What other `\relative` nodes have is not in this one. -/
theorem Fr.Good.apart {r0 : Doc} (h0 : r0 ∈ relsOf F.T) {s : St} (hd : r0.id ∈ s.D) {A : Set Id} (hA : A ⊆ F.todo s) {i : Id}
    (hi : i ∈ ids r0) : i ∉ F.notes A ∧ i ∉ F.checks A := by
  constructor
  · rintro ⟨r, hr, hra, hi'⟩
    have := g.same hr h0 (g.body_mem hr _ (notesOf_sub _ hi')) hi
    subst this
    exact (hA hra).2 hd
  · rintro ⟨r, hr, hra, hi'⟩
    have := g.same hr h0 (g.body_mem hr _ (checksOf_sub _ hi')) hi
    subst this
    exact (hA hra).2 hd

/-- The nodes that come next, after a node. -/
theorem Part.next {r0 : Doc} {s : St} {sink sink1 : Sink} {t : Doc} {ts : List Doc} (p : Part F r0 s sink (t :: ts)) (h0 : r0 ∈ relsOf F.T)
    (hd : r0.id ∈ s.D) (hs : sink1.isCheck = sink.isCheck) {A : Set Id} (hA : A ⊆ F.todo (s.step sink [t])) :
    Part F r0 (F.add (s.step sink [t]) A) sink1 ts := by
  have hsh := p.shows
  have hnr := p.noRel
  have hla := p.lang
  have hnd := p.nodup
  rw [ShowsL] at hsh
  rw [NoRelL] at hnr
  rw [OneLangL] at hla
  rw [idsL, List.nodup_append] at hnd
  have hA' : A ⊆ F.todo s := hA
  refine ⟨hsh.2, hnr.2, hla.2, hnd.2.1, fun i hi => p.sub i (by rw [idsL]; exact List.mem_append_right _ hi), ?_,
    fun i hi => p.checks (.inr hi), ?_, ?_⟩
  · intro i hi
    exact p.notes ⟨by rw [← hs]; exact hi.1, .inr hi.2⟩
  · intro i hi
    have hi2 : i ∈ idsL (t :: ts) := by rw [idsL]; exact List.mem_append_right _ hi
    have ha := (g.apart h0 hd hA' (p.sub i hi2)).1
    rintro ((h | h) | h)
    · exact p.freshV i hi2 h
    · rcases h.2 with h | h
      · exact hnd.2.2 i (notesOf_sub _ h) i hi rfl
      · exact h
    · exact ha h
  · intro i hi
    have hi2 : i ∈ idsL (t :: ts) := by rw [idsL]; exact List.mem_append_right _ hi
    have ha := (g.apart h0 hd hA' (p.sub i hi2)).2
    rintro ((h | h) | h)
    · exact p.freshX i hi2 h
    · rcases h with h | h
      · exact hnd.2.2 i (checksOf_sub _ h) i hi rfl
      · exact h
    · exact ha h

omit g in
theorem Part.head {r0 : Doc} {s : St} {sink : Sink} {t : Doc} {ts : List Doc} (p : Part F r0 s sink (t :: ts)) : Part F r0 s sink [t] := by
  have hsh := p.shows
  have hnr := p.noRel
  have hla := p.lang
  have hnd := p.nodup
  rw [ShowsL] at hsh
  rw [NoRelL] at hnr
  rw [OneLangL] at hla
  rw [idsL, List.nodup_append] at hnd
  have e : idsL [t] = ids t := by simp [idsL]
  refine ⟨by simp [ShowsL, hsh.1], by simp [NoRelL, hnr.1], by simp [OneLangL, hla.1], by rw [e]; exact hnd.1, ?_, ?_, ?_, ?_, ?_⟩
  · intro i hi; rw [e] at hi; exact p.sub i (by rw [idsL]; exact List.mem_append_left _ hi)
  · intro i hi
    rcases hi.2 with h | h
    · exact p.notes ⟨hi.1, .inl h⟩
    · exact absurd h (by simp [notesOfL])
  · intro i hi
    rcases hi with h | h
    · exact p.checks (.inl h)
    · exact absurd h (by simp [checksOfL])
  · intro i hi; rw [e] at hi; exact p.freshV i (by rw [idsL]; exact List.mem_append_left _ hi)
  · intro i hi; rw [e] at hi; exact p.freshX i (by rw [idsL]; exact List.mem_append_left _ hi)

omit g in
/-- The nodes in a node. -/
theorem Part.kids {r0 : Doc} {s : St} {sink sink1 : Sink} {i : Id} {l : Lab} {ks : List Doc} (p : Part F r0 s sink [.node i l ks])
    (hn : sink1.marks (notesOfL ks) ⊆ sink.marks (notesOf (.node i l ks))) (hc : checksOfL ks ⊆ checksOf (.node i l ks)) :
    Part F r0 s sink1 ks := by
  have hsh := p.shows
  have hnr := p.noRel
  have hla := p.lang
  have hnd := p.nodup
  rw [ShowsL, Shows] at hsh
  rw [NoRelL, NoRel] at hnr
  rw [OneLangL, OneLang] at hla
  have e : ∀ j ∈ idsL ks, j ∈ idsL [.node i l ks] := by intro j hj; simp [idsL, ids, hj]
  simp only [idsL, ids, List.append_nil, List.nodup_cons] at hnd
  refine ⟨hsh.1.2.2.2, hnr.1.2, hla.1.2, hnd.2, fun j hj => p.sub j (e j hj), ?_, ?_, fun j hj => p.freshV j (e j hj),
    fun j hj => p.freshX j (e j hj)⟩
  · intro j hj
    have := hn hj
    exact p.notes ⟨this.1, .inl this.2⟩
  · intro j hj
    exact p.checks (.inl (hc hj))

open Classical in
omit g in
/-- A note is written. -/
theorem setNote_eq (s : St) (i : Id) (p : Bool) (n : Note) (h : F.fin i = (p, n.node, n.check)) :
    (F.H s).setNote i p n = F.H ⟨s.D, s.V ∪ {i}, s.X⟩ := by
  simp only [Heap.setNote, Fr.H]
  congr 1
  funext j
  by_cases hj : j = i
  · subst hj; simp [h]
  · simp [hj]

open Classical in
/-- An `\octaveCheck` is removed. -/
theorem Fr.Good.remove {s : St} (w : F.WF s) {o x : Id} (ho : x ∈ F.h0.kids o) (hk : ∀ k ∈ F.h0.kids o, F.h0.lab k ≠ .relative)
    (hx : x ∉ s.X) : x ∈ (F.H s).kids o ∧ (F.H s).remove o x = F.H ⟨s.D, s.V, s.X ∪ {x}⟩ := by
  have hmap : ∀ Y : Set Id, ((F.h0.kids o).filter fun k => k ∉ Y).map (F.sub s.D) = (F.h0.kids o).filter fun k => k ∉ Y := by
    intro Y
    conv_rhs => rw [← List.map_id ((F.h0.kids o).filter fun k => k ∉ Y)]
    refine List.map_congr_left fun k hk2 => ?_
    exact g.sub_id w (hk k (List.mem_filter.1 hk2).1)
  constructor
  · simp only [Fr.H]
    rw [hmap]
    simp [ho, hx]
  · simp only [Heap.remove, Fr.H]
    congr 1
    funext j
    by_cases hj : j = o
    · subst hj
      rw [if_pos rfl, hmap, hmap, ((g.linked.nodup j).filter _).erase_eq_filter, List.filter_filter]
      refine List.filter_congr fun k _ => ?_
      simp only [Set.mem_union, Set.mem_singleton_iff]
      by_cases h1 : k = x <;> by_cases h2 : k ∈ s.X <;> simp [h1, h2]
    · rw [if_neg hj]
      congr 1
      refine List.filter_congr fun k hk2 => ?_
      have : k ≠ x := by
        rintro rfl
        have e1 := g.linked.parent j k hk2
        have e2 := g.linked.parent o k ho
        rw [e1] at e2
        exact hj (Option.some.inj e2)
      simp [this]

/-- The nodes from `pre.length` on in the list of `o`, or a single node, are gone through. -/
theorem walk_run {k : ℕ} (hm : MA F k) (r0 : Doc) (h0 : r0 ∈ relsOf F.T) : ∀ n : ℕ,
    (∀ (t : Doc) (s : St) (sink sink' : Sink) (us : List Doc) , sizeOf t < n → F.WF s → r0.id ∈ s.D → F.count s ≤ k →
      Part F r0 s sink [t] → walk F.c F.L sink t = .ok (sink', us) → (sink.isCheck = false → FinOkL F.fin us) →
      (t.lab = .check → ∃ o, t.id ∈ F.h0.kids o ∧ F.h0.lab o ≠ .relative ∧ ∀ k ∈ F.h0.kids o, F.h0.lab k ≠ .relative) →
      ∃ A ⊆ F.todo s, Ends (fun f => visit F.c F.T.id f (F.H s) sink t.id) (.ok (F.H (F.add (s.step sink [t]) A), sink'))) ∧
    (∀ (ts : List Doc) (o : Id) (pre : List Id) (s : St) (sink sink' : Sink) (us : List Doc), sizeOf ts < n → F.WF s → r0.id ∈ s.D →
      F.count s ≤ k → Part F r0 s sink ts → walkL F.c F.L sink ts = .ok (sink', us) →
      (sink.isCheck = false → FinOkL F.fin us) →
      F.h0.kids o = pre ++ ts.map Doc.id → F.h0.lab o ≠ .relative → (∀ k ∈ F.h0.kids o, F.h0.lab k ≠ .relative) →
      ∃ A ⊆ F.todo s, Ends (fun f => loop F.c F.T.id f (F.H s) sink (.live o) pre.length) (.ok (F.H (F.add (s.step sink ts) A), sink')))
  | 0 => ⟨fun _ _ _ _ _ hn => absurd hn (Nat.not_lt_zero _), fun _ _ _ _ _ _ _ hn => absurd hn (Nat.not_lt_zero _)⟩
  | n + 1 => by
    obtain ⟨ihV, ihL⟩ := walk_run hm r0 h0 n
    refine ⟨?_, ?_⟩
    · intro t s sink sink' us hn w hd hk hp hw hf hc
      obtain ⟨i, l, ks⟩ := t
      have hsh := hp.shows
      have hnr := hp.noRel
      rw [ShowsL, Shows] at hsh
      rw [NoRelL, NoRel] at hnr
      have hi : i ∈ idsL [Doc.node i l ks] := by simp [idsL, ids]
      have hlab : (F.H s).lab i = l := by
        simp only [Fr.H]
        rw [if_neg (hp.freshV i hi)]
        exact hsh.1.1
      have hkl : ∀ k ∈ F.h0.kids i, F.h0.lab k ≠ .relative := by
        intro k hk
        rw [hsh.1.2.1, List.mem_map] at hk
        obtain ⟨u, hu, rfl⟩ := hk
        rw [(shows_mem hsh.1.2.2.2 u hu).lab]
        exact (noRel_mem hnr.1.2 u hu).lab
      have hil : F.h0.lab i ≠ .relative := by rw [hsh.1.1]; exact hnr.1.1
      have hsz : sizeOf ks < n := by simp only [Doc.node.sizeOf_spec] at hn; omega
      have hD : (s.step sink [Doc.node i l ks]).D = s.D := rfl
      show ∃ A ⊆ F.todo s, Ends (fun f => visit F.c F.T.id f (F.H s) sink i) _
      -- nodes with just other nodes in them
      have inner : ∀ us', walkL F.c F.L sink ks = .ok (sink', us') → (sink.isCheck = false → FinOkL F.fin us') →
          (∀ f, visit F.c F.T.id (f + 1) (F.H s) sink i = loop F.c F.T.id f (F.H s) sink (.live i) 0) →
          notesOf (.node i l ks) = notesOfL ks → checksOf (.node i l ks) = checksOfL ks →
          ∃ A ⊆ F.todo s, Ends (fun f => visit F.c F.T.id f (F.H s) sink i)
            (.ok (F.H (F.add (s.step sink [Doc.node i l ks]) A), sink')) := by
        intro us' h1 h2 h3 h4 h5
        have hst : s.step sink [Doc.node i l ks] = s.step sink ks := by
          simp only [St.step, notesOfL, checksOfL, h4, h5, Set.union_empty]
        obtain ⟨A, hA, N, hE⟩ := ihL ks i [] s sink sink' us' hsz w hd hk
          (hp.kids (by rw [h4]) (by rw [h5])) h1 h2 (by simpa using hsh.1.2.1) hil hkl
        refine ⟨A, hA, N + 1, fun f hf => ?_⟩
        obtain ⟨f, rfl⟩ : ∃ f', f = f' + 1 := ⟨f - 1, by omega⟩
        beta_reduce
        rw [h3, hst]
        exact hE f (by omega)
      cases l with
      | note p nd chk =>
        -- a changed note
        have changed : ∀ (q : Pitch) (m : Note) (sk : Sink), sink.isCheck = false →
            consume F.c (F.H s) i p nd chk sink = .ok ((F.H s).setNote i p m, sk) → F.fin i = (p, m.node, m.check) → sink' = sk →
            ∃ A ⊆ F.todo s, Ends (fun f => visit F.c F.T.id f (F.H s) sink i)
              (.ok (F.H (F.add (s.step sink [Doc.node i (.note p nd chk) ks]) A), sink')) := by
          intro q m sk hch hcon hfin hsk
          have hst : s.step sink [Doc.node i (.note p nd chk) ks] = ⟨s.D, s.V ∪ {i}, s.X⟩ := by
            simp only [St.step, notesOfL, checksOfL, notesOf, checksOf, Set.union_empty, Sink.marks, hch, true_and, Set.setOf_mem_eq]
          have w2 := hp.wf g w h0 hd
          obtain ⟨A, hA, _, N, hE⟩ := ca_root g hm _ w2 (le_trans (Fr.count_mono (by rw [hD])) hk)
          refine ⟨A, hA, N + 1, fun f hf => ?_⟩
          obtain ⟨f, rfl⟩ : ∃ f', f = f' + 1 := ⟨f - 1, by omega⟩
          beta_reduce
          rw [visit.eq_def]
          simp only [hlab, hcon, setNote_eq s i p m hfin]
          have := hE f (by omega)
          rw [hst] at this
          simp only [this, hst, hsk]
        have hno : ∀ q m, absNote F.c.pp (noteOf (F.H s) nd chk) q = .ok m → absNote F.c.pp (mkNote F.L nd chk) q = .ok m := fun _ _ h => h
        cases sink with
        | music last =>
          simp only [walk] at hw
          split at hw
          · simp at hw
          · rename_i q m ha
            simp only [Except.ok.injEq, Prod.mk.injEq] at hw
            have hf := hf rfl
            rw [← hw.2, FinOkL, FinOk] at hf
            refine changed q m (.music q) rfl ?_ (hf.1.1 _ _ _ rfl) hw.1.symm
            simp only [consume]
            have : absNote F.c.pp (noteOf (F.H s) nd chk) last = .ok (q, m) := ha
            rw [this]
        | chord top first =>
          simp only [walk] at hw
          split at hw
          · simp at hw
          · rename_i q m ha
            simp only [Except.ok.injEq, Prod.mk.injEq] at hw
            have hf := hf rfl
            rw [← hw.2, FinOkL, FinOk] at hf
            refine changed q m (.chord q (some (first.getD q))) rfl ?_ (hf.1.1 _ _ _ rfl) hw.1.symm
            simp only [consume]
            have : absNote F.c.pp (noteOf (F.H s) nd chk) top = .ok (q, m) := ha
            rw [this]
        | check last =>
          simp only [walk] at hw
          split at hw
          · simp at hw
          · rename_i q ha
            simp only [Except.ok.injEq, Prod.mk.injEq] at hw
            have hst : s.step (.check last) [Doc.node i (.note p nd chk) ks] = s := by
              simp [St.step, notesOfL, checksOfL, notesOf, checksOf, Sink.marks, Sink.isCheck]
            obtain ⟨A, hA, _, N, hE⟩ := ca_root g hm s w hk
            refine ⟨A, hA, N + 1, fun f hf => ?_⟩
            obtain ⟨f, rfl⟩ : ∃ f', f = f' + 1 := ⟨f - 1, by omega⟩
            beta_reduce
            have hr : (F.c.pp (F.H s).lang).readNode nd = .ok q := ha
            have hE' := hE f (by omega)
            simp only [visit, hlab, consume, hr, hE', hst, hw.1]
      | chord =>
        cases sink with
        | music last =>
          simp only [walk] at hw
          split at hw
          · simp at hw
          · rename_i top first us' ha
            simp only [Except.ok.injEq, Prod.mk.injEq] at hw
            have hf := hf rfl
            rw [← hw.2, FinOkL, FinOk] at hf
            have hst : s.step (.music last) [Doc.node i .chord ks] = s.step (.chord last none) ks := by
              simp only [St.step, notesOfL, checksOfL, notesOf, checksOf, Set.union_empty, Sink.marks, Sink.isCheck]
            obtain ⟨A, hA, N, hE⟩ := ihL ks i [] s (.chord last none) (.chord top first) us' hsz w hd hk
              (hp.kids (by simp [Sink.marks, Sink.isCheck, notesOf]) (by simp [checksOf])) ha (fun _ => hf.1.2) (by simpa using hsh.1.2.1) hil hkl
            refine ⟨A, hA, N + 1, fun f hf => ?_⟩
            obtain ⟨f, rfl⟩ : ∃ f', f = f' + 1 := ⟨f - 1, by omega⟩
            beta_reduce
            have := hE f (by omega)
            simp only [List.length_nil] at this
            simp only [visit, hlab]
            simp only [this, hst, hw.1]
          · simp at hw
        | _ => simp [walk] at hw
      | check =>
        cases sink with
        | music last =>
          simp only [walk] at hw
          split at hw
          · simp at hw
          · rename_i last' us' ha
            simp only [Except.ok.injEq, Prod.mk.injEq] at hw
            obtain ⟨o, ho1, ho2, ho3⟩ := hc rfl
            have hpk : Part F r0 s (.check last) ks :=
              hp.kids (by intro j hj; simp [Sink.marks, Sink.isCheck] at hj) (by intro j hj; exact .inr hj)
            obtain ⟨A, hA, N, hE⟩ := ihL ks i [] s (.check last) (.check last') us' hsz w hd hk hpk ha (by simp [Sink.isCheck]) (by simpa using hsh.1.2.1) hil hkl
            have w2 := (hpk.wf g w h0 hd).add (A := A) hA
            have hnx : i ∉ (F.add (s.step (.check last) ks) A).X := by
              rintro ((h | h) | h)
              · exact hp.freshX i hi h
              · have := hp.nodup
                simp only [idsL, ids, List.append_nil, List.nodup_cons] at this
                exact this.1 (checksOfL_sub _ h)
              · exact (g.apart h0 hd hA (hp.sub i hi)).2 h
            obtain ⟨e1, e2⟩ := g.remove w2 ho1 ho3 hnx
            have hpar : (F.H (F.add (s.step (.check last) ks) A)).parent i = some o := by
              simp only [Fr.H, Fr.par]
              rw [g.linked.parent o i ho1]
              simp only
              rw [if_neg]
              intro h
              exact ho2 (g.rel_of w2 h.1)
            refine ⟨A, hA, N + 1, fun f hf => ?_⟩
            obtain ⟨f, rfl⟩ : ∃ f', f = f' + 1 := ⟨f - 1, by omega⟩
            beta_reduce
            have := hE f (by omega)
            simp only [List.length_nil] at this
            simp only [visit, hlab]
            simp only [this, hpar]
            have e3 : i ∈ (F.H (F.add (s.step (.check last) ks) A)).kids o := e1
            rw [if_pos e3]
            have e4 : (F.H (F.add (s.step (.check last) ks) A)).remove o i = F.H (F.add (s.step (.music last) [Doc.node i .check ks]) A) := by
              rw [show (F.H (F.add (s.step (.check last) ks) A)).remove o i = _ from e2]
              congr 1
              simp only [Fr.add, St.step, notesOfL, checksOfL, notesOf, checksOf, St.mk.injEq, true_and]
              constructor
              · ext j; simp [Sink.marks, Sink.isCheck]
              · ext j; simp only [Set.mem_union, Set.mem_singleton_iff, Set.mem_empty_iff_false]; tauto
            rw [e4, hw.1]
          · simp at hw
        | _ => simp [walk] at hw
      | relative => exact absurd rfl hnr.1.1
      | skip kd =>
        simp only [walk, Except.ok.injEq, Prod.mk.injEq] at hw
        refine ⟨∅, Set.empty_subset _, 1, fun f hf => ?_⟩
        obtain ⟨f, rfl⟩ : ∃ f', f = f' + 1 := ⟨f - 1, by omega⟩
        beta_reduce
        have hst : s.step sink [Doc.node i (.skip kd) ks] = s := by
          simp [St.step, notesOfL, checksOfL, notesOf, checksOf, Sink.marks]
        rw [F.add_empty, hst, ← hw.1, visit.eq_def]
        simp only [hlab]
      | language l' =>
        simp only [walk, Except.ok.injEq, Prod.mk.injEq] at hw
        refine ⟨∅, Set.empty_subset _, 1, fun f hf => ?_⟩
        obtain ⟨f, rfl⟩ : ∃ f', f = f' + 1 := ⟨f - 1, by omega⟩
        beta_reduce
        have hst : s.step sink [Doc.node i (.language l') ks] = s := by
          simp [St.step, notesOfL, checksOfL, notesOf, checksOf, Sink.marks]
        have hl := hp.lang
        rw [OneLangL, OneLang] at hl
        have hl := hl.1.1 l' rfl
        rw [F.add_empty, hst, ← hw.1, visit.eq_def]
        simp only [hlab]
        subst hl
        rfl
      | comment =>
        simp only [walk] at hw
        split at hw
        · simp at hw
        · rename_i s1 us' ha
          simp only [Except.ok.injEq, Prod.mk.injEq] at hw
          rw [← hw.2, FinOkL, FinOk] at hf
          exact inner us' (by rw [ha, hw.1]) (fun h => (hf h).1.2) (fun f => by rw [visit.eq_def]; simp only [hlab]) (by simp [notesOf]) (by simp [checksOf])
      | chordmode =>
        simp only [walk] at hw
        split at hw
        · simp at hw
        · rename_i s1 us' ha
          simp only [Except.ok.injEq, Prod.mk.injEq] at hw
          rw [← hw.2, FinOkL, FinOk] at hf
          exact inner us' (by rw [ha, hw.1]) (fun h => (hf h).1.2) (fun f => by rw [visit.eq_def]; simp only [hlab]) (by simp [notesOf]) (by simp [checksOf])
      | other =>
        simp only [walk] at hw
        split at hw
        · simp at hw
        · rename_i s1 us' ha
          simp only [Except.ok.injEq, Prod.mk.injEq] at hw
          rw [← hw.2, FinOkL, FinOk] at hf
          exact inner us' (by rw [ha, hw.1]) (fun h => (hf h).1.2) (fun f => by rw [visit.eq_def]; simp only [hlab]) (by simp [notesOf]) (by simp [checksOf])
    · intro ts o pre s sink sink' us hn w hd hk hp hw hf he hol hok
      cases ts with
      | nil =>
        simp only [walkL, Except.ok.injEq, Prod.mk.injEq] at hw
        refine ⟨∅, Set.empty_subset _, 1, fun f hf => ?_⟩
        obtain ⟨f, rfl⟩ : ∃ f', f = f' + 1 := ⟨f - 1, by omega⟩
        beta_reduce
        rw [loop, show Src.items (F.H s) (.live o) = (F.H s).kids o from rfl, g.get_end (by simpa using he), F.add_empty, step_nil, hw.1]
      | cons t ts =>
        simp only [walkL] at hw
        split at hw
        · simp at hw
        · rename_i s1 a h1
          split at hw
          · simp at hw
          · rename_i s2 b h2
            simp only [Except.ok.injEq, Prod.mk.injEq] at hw
            rw [← hw.2] at hf
            have hf1 : sink.isCheck = false → FinOkL F.fin a := fun h => (finL_append _ _ _ (hf h)).1
            have hf2 : sink.isCheck = false → FinOkL F.fin b := fun h => (finL_append _ _ _ (hf h)).2
            rw [List.map_cons] at he
            simp only [List.cons.sizeOf_spec] at hn
            have htx : t.id ∉ s.X := hp.freshX _ (by rw [idsL]; exact List.mem_append_left _ (id_mem_ids t))
            have hto : t.id ∈ F.h0.kids o := by rw [he]; simp
            obtain ⟨A, hA, N1, hE1⟩ := ihV t s sink s1 a (by omega) w hd hk hp.head h1 hf1 (fun _ => ⟨o, hto, hol, hok⟩)
            have hck := walk_isCheck _ _ _ _ _ _ h1
            have hp2 := hp.next g h0 hd hck (A := A) hA
            have w2 := (hp.head.wf g w h0 hd).add (A := A) hA
            obtain ⟨B, hB, N2, hE2⟩ := ihL ts o (pre ++ [t.id]) _ s1 s2 b (by omega) w2 (.inl hd)
              (le_trans (Fr.count_mono (by simp [Fr.add, St.step])) hk) hp2 h2 (by rw [hck]; exact hf2) (by rw [he]; simp) hol hok
            refine ⟨A ∪ B, Fr.todo_add (s := s.step sink [t]) hA hB, max N1 N2 + 1, fun f hf => ?_⟩
            obtain ⟨f, rfl⟩ : ∃ f', f = f' + 1 := ⟨f - 1, by omega⟩
            beta_reduce
            rw [loop, show Src.items (F.H s) (.live o) = (F.H s).kids o from rfl, g.get w he htx, g.sub_id w (hok _ hto)]
            have e1 := hE1 f (by omega)
            have e2 := hE2 f (by omega)
            beta_reduce at e2
            simp only [e1]
            rw [step_add s sink s1 hck, List.length_append, List.length_singleton] at e2
            rw [e2, hw.1]

end Quickly.Rel2abs
