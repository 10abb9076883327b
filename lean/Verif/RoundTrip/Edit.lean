import Verif.RoundTrip.Lemmas

/-! # The whole document, converted and converted back -/

namespace Quickly.RoundTrip

open Quickly.Pitch Quickly.Relative Quickly.Abs2rel Quickly.RoundTrip.Spec
open Quickly.Abs2rel.Spec (Still StillL toDoc toDocs)
open Quickly.Rel2abs.Spec (NoRel NoRelL OneLang OneLangL Nice NiceL)
open Quickly.Rel2abs (Cfg out outL)
open Quickly.Pitch.Spec (IsDict)

/-- The children of a node of the document that was converted. -/
def ReturnsL (pp : Langs) (st : Settings) (L : Str) (ks ks' : List Doc) : Prop :=
  ∀ ts, eraseL ts = toDocs ks' → NiceL ts ∧ OneLangL L ts ∧ (∃ ts', outL (back pp st) L ts = .ok ts' ∧ eraseL ts' = toDocs ks) ∧
    (StillL ks → NoRelL ts) ∧ ∀ n, (∀ k ∈ firsts n ks, Still k) → NoRelL (Rel2abs.Spec.firsts n ts)

theorem nice_mk {i : Rel2abs.Id} {l : Rel2abs.Lab} {ts : List Rel2abs.Doc} (hl : l ≠ .relative) (h1 : Rel2abs.Spec.Lab.closed l = true → NoRelL ts)
    (h2 : NoRelL (Rel2abs.Spec.firsts (Rel2abs.Spec.Lab.args l) ts)) (h3 : NiceL ts) : Nice (.node i l ts) := by
  cases l <;> first | exact absurd rfl hl | (rw [Nice]; exact ⟨h1, h2, h3⟩; simp)

theorem firsts_zero (ts : List Rel2abs.Doc) : NoRelL (Rel2abs.Spec.firsts 0 ts) := by simp [Rel2abs.Spec.firsts, NoRelL]

theorem whole_child (len i : ℕ) : Rng.child {} len i = {} := by
  simp [Rng.child]

theorem whole_inRange (len i : ℕ) (d : Doc) : Rng.inRange {} len i d = true := by
  simp [Rng.inRange, whole_child, Rng.whole, endIn]

theorem lab_comment {d : Doc} {T : Rel2abs.Doc} (h : erase T = toDoc d) : T.lab = .comment ↔ d.lab = .lab .comment := by
  obtain ⟨l, ks⟩ := d
  obtain ⟨i, ts, rfl, _⟩ := erase_node h
  cases l with
  | list => simp [Abs2rel.Spec.Lab.plain, Rel2abs.Doc.lab, Doc.lab]
  | lab l => simp [Abs2rel.Spec.Lab.plain, Rel2abs.Doc.lab, Doc.lab]

mutual
theorem edit_back (pp : Langs) (hd : ∀ l, IsDict (pp l).table) (st : Settings) (L : Str) : ∀ (d d' : Doc) (L' : Str),
    edit pp st {} true L d = .ok (L', d') → Ready d → NoRel (toDoc d) → OneLang L (toDoc d) →
    L' = L ∧ Returns pp st L d d' ∧ (d'.lab = .lab .comment ↔ d.lab = .lab .comment)
  | .node l ks, d', L', h, hy, hr, ho => by
    rw [toDoc, NoRel] at hr
    rw [toDoc, OneLang] at ho
    -- a node whose children are converted
    have inside : ((match editL pp st {} ks.length 0 L ks with | .error e => .error e | .ok (L, ks) => .ok (L, .node l ks)) : Py (Str × Doc)) = .ok (L', d') → ReadyL ks →
        (Rel2abs.Spec.Lab.closed (Abs2rel.Spec.Lab.plain l) = true → StillL ks) →
        (∀ k ∈ firsts (Rel2abs.Spec.Lab.args (Abs2rel.Spec.Lab.plain l)) ks, Still k) →
        L' = L ∧ Returns pp st L (.node l ks) d' ∧ (d'.lab = .lab .comment ↔ (Doc.node l ks).lab = .lab .comment) := by
      intro h hk h1 h2
      split at h
      · cases h
      · rename_i L1 ks1 e1
        cases h
        obtain ⟨a, b⟩ := editL_back pp hd st L ks ks1 L' ks.length 0 e1 (by omega) hk hr.2 ho.2
        refine ⟨a, fun T hT => ?_, by simp [Doc.lab]⟩
        obtain ⟨i, ts, rfl, h3⟩ := erase_node hT
        obtain ⟨b1, b2, ⟨ts', b3, b4⟩, b5, b6⟩ := b ts h3
        refine ⟨nice_mk hr.1 (fun x => b5 (h1 x)) (b6 _ h2) b1, by rw [OneLang]; exact ⟨ho.1, b2⟩, [.node i (Abs2rel.Spec.Lab.plain l) ts'], ?_, ?_⟩
        · rw [out, if_neg hr.1, b3]
        · rw [eraseL, eraseL, erase_mk rfl b4]
    cases l with
    | list =>
      rw [Ready] at hy
      rw [edit] at h
      split at h
      · rename_i hn
        simp only [Bool.and_true, List.any_eq_true] at hn
        obtain ⟨a, b, c⟩ := make_back pp hd st L .list ks d' L' (.inl rfl) h (hy.1 hn) hr.2 ho.2
        exact ⟨a, b, ⟨fun x => (c x).elim, fun x => by cases x⟩⟩
      · rename_i hn
        simp only [Bool.and_true, List.any_eq_true, not_exists, not_and, Bool.not_eq_true] at hn
        refine inside ?_ (hy.2 hn) (by simp [Abs2rel.Spec.Lab.plain, Rel2abs.Spec.Lab.closed]) (by simp [Abs2rel.Spec.Lab.plain, Rel2abs.Spec.Lab.args, firsts])
        rw [← h]
        cases editL pp st {} ks.length 0 L ks <;> rfl
    | lab l =>
      by_cases hcm : l = .chordmode
      · subst hcm
        rw [Ready] at hy
        rw [edit] at h
        obtain ⟨a, b, c⟩ := make_back pp hd st L _ ks d' L' (.inr rfl) h hy hr.2 ho.2
        exact ⟨a, b, ⟨fun x => (c x).elim, fun x => by cases x⟩⟩
      · have hre : l ≠ .relative := hr.1
        rw [Ready] at hy
        · rw [edit] at h
          · refine inside ?_ hy.2.2 hy.1 hy.2.1
            rw [← h]
            cases editL pp st {} ks.length 0 L ks <;> rfl
          all_goals simp [hcm, hre]
        · simp [hcm]
theorem editL_back (pp : Langs) (hd : ∀ l, IsDict (pp l).table) (st : Settings) (L : Str) : ∀ (ks ks' : List Doc) (L' : Str) (len i : ℕ),
    editL pp st {} len i L ks = .ok (L', ks') → i + ks.length = len → ReadyL ks → NoRelL (toDocs ks) → OneLangL L (toDocs ks) →
    L' = L ∧ ReturnsL pp st L ks ks'
  | [], ks', L', len, i, h, _, _, _, _ => by
    rw [editL] at h
    cases h
    refine ⟨rfl, fun ts hT => ?_⟩
    rw [toDocs] at hT
    rw [eraseL_nil hT]
    exact ⟨by simp [NiceL], by simp [OneLangL], ⟨[], by rw [outL], by rw [eraseL, toDocs]⟩, fun _ => by simp [NoRelL],
      fun n _ => by simp [Rel2abs.Spec.firsts, Rel2abs.Spec.real, NoRelL]⟩
  | k :: ks, ks', L', len, i, h, hlen, hy, hr, ho => by
    rw [ReadyL] at hy
    rw [toDocs, NoRelL] at hr
    rw [toDocs, OneLangL] at ho
    rw [editL] at h
    have hin : (Rng.start {} ≤ i ∧ (i : ℤ) ≤ Rng.stop {} len) := by
      simp only [List.length_cons] at hlen
      simp only [Rng.start, Rng.stop, List.head?_nil, Option.getD_none]
      omega
    rw [if_pos hin, whole_child, whole_inRange] at h
    split at h
    · cases h
    · rename_i L1 k1 e1
      obtain ⟨rfl, b1, b2⟩ := edit_back pp hd st L k k1 L1 e1 hy.1 hr.1 ho.1
      have hst : Still k → k1 = k := by
        intro hs
        rw [edit_still pp st k _ _ _ hs] at e1
        cases e1
        rfl
      split at h
      · cases h
      · rename_i L2 ks2 e2
        cases h
        obtain ⟨rfl, c⟩ := editL_back pp hd st _ ks ks2 L' len (i + 1) e2 (by simp only [List.length_cons] at hlen; omega) hy.2 hr.2 ho.2
        refine ⟨rfl, fun ts hT => ?_⟩
        rw [toDocs] at hT
        obtain ⟨t, ts, rfl, h1, h2⟩ := eraseL_cons hT
        obtain ⟨x1, x2, us, x3, x4⟩ := b1 t h1
        obtain ⟨y1, y2, ⟨vs, y3, y4⟩, y5, y6⟩ := c ts h2
        have hnr : Still k → NoRel t := fun hs => noRel_of h1 (by rw [hst hs]; exact hr.1)
        refine ⟨by rw [NiceL]; exact ⟨x1, y1⟩, by rw [OneLangL]; exact ⟨x2, y2⟩, ⟨us ++ vs, ?_, ?_⟩, ?_, ?_⟩
        · rw [outL, x3]
          simp only
          rw [y3]
        · rw [eraseL_append, x4, y4, toDocs]
          rfl
        · intro hs
          rw [StillL] at hs
          rw [NoRelL]
          exact ⟨hnr hs.1, y5 hs.2⟩
        · intro n hs
          have hcm := (lab_comment h1).trans b2
          by_cases e : k.lab = .lab .comment
          · have e' := hcm.2 e
            have f1 : firsts n (k :: ks) = firsts n ks := by simp [firsts, e]
            have f2 : Rel2abs.Spec.firsts n (t :: ts) = Rel2abs.Spec.firsts n ts := by simp [Rel2abs.Spec.firsts, Rel2abs.Spec.real, e']
            rw [f1] at hs
            rw [f2]
            exact y6 n hs
          · have e' : ¬ t.lab = .comment := fun x => e (hcm.1 x)
            cases n with
            | zero => exact firsts_zero _
            | succ n =>
              have f1 : firsts (n + 1) (k :: ks) = k :: firsts n ks := by simp [firsts, e]
              have f2 : Rel2abs.Spec.firsts (n + 1) (t :: ts) = t :: Rel2abs.Spec.firsts n ts := by simp [Rel2abs.Spec.firsts, Rel2abs.Spec.real, e']
              rw [f1] at hs
              rw [f2, NoRelL]
              exact ⟨hnr (hs k (List.mem_cons_self ..)), y6 n (fun x hx => hs x (List.mem_cons_of_mem _ hx))⟩
end

end Quickly.RoundTrip
