import Verif.TransposeAbs.Lemmas
import Verif.TransposeBack.Lemmas

/-! # The walks over a document: converting and then transposing, transposing and then converting -/

namespace Quickly.TransposeAbs

open Quickly.Pitch Quickly.Relative Quickly.TransposeDoc Spec
open Quickly.TransposeDoc.Spec (Same SameL LabSame)
open Quickly.Rel2abs (Doc Lab Id Cfg walk walkL out outL startOf bodyOf mkNote out_noRel outL_noRel nice_other relOk_body tidyL_mem noRel_mem)
open Quickly.Rel2abs.Spec (NoRel NoRelL Nice NiceL RelOk OneLang OneLangL Tidy TidyL ids idsL real firsts)
open Quickly.TransposeBack (first_none)

/-- The settings of the conversion. -/
abbrev cfg (c : Ctx) : Cfg := ⟨c.pp, c.firstAbs⟩

/-! ## Notes -/

theorem transposeNote_form (c : Ctx) (L : Str) (nd : PNode) (last last' : Last) (n2 : Note)
    (h : transposeNote c (mkNote L nd none) last = .ok (last', n2)) : n2 = mkNote L n2.node none := by
  unfold transposeNote mkNote at h
  simp only at h
  split at h
  · cases h
  · simp only [Bool.not_true, Bool.false_eq_true, if_false] at h
    split at h
    · cases h
    · cases h; rfl

theorem absNote_form (pp : Langs) (L : Str) (nd : PNode) (l q : Pitch) (n1 : Note) (h : absNote pp (mkNote L nd none) l = .ok (q, n1)) :
    n1 = mkNote L n1.node none := by
  unfold absNote mkNote at h
  simp only at h
  split at h
  · cases h
  · split at h
    · cases h
    · cases h; rfl

theorem note_conv' {c : Ctx} (g : Good c) (L : Str) (nd : PNode) (last last' : Last) (l l2 : Pitch) (n2 : Note) (hl : Conv l last l2)
    (h : transposeNote c (mkNote L nd none) last = .ok (last', n2)) : ∃ q q2 nd1 nd2 nd3, n2 = mkNote L nd2 none ∧
      absNote c.pp (mkNote L nd none) l = .ok (q, mkNote L nd1 none) ∧ absNote c.pp (mkNote L nd2 none) l2 = .ok (q2, mkNote L nd3 none) ∧
      transposeAbs c 0 (mkNote L nd1 none) = .ok (mkNote L nd3 none) ∧ Conv q last' q2 := by
  obtain ⟨q, q2, n1, n3, a, b, d, e⟩ := note_conv g (mkNote L nd none) n2 last last' l l2 rfl rfl hl h
  have f2 := transposeNote_form _ _ _ _ _ _ h
  have f1 := absNote_form _ _ _ _ _ _ a
  rw [f2] at b
  have f3 := absNote_form _ _ _ _ _ _ b
  exact ⟨q, q2, n1.node, n2.node, n3.node, f2, by rw [← f1]; exact a, by rw [← f3]; exact b, by rw [← f1, ← f3]; exact d, e⟩

theorem check_conv {c : Ctx} (g : Good c) (L : Str) (nd : PNode) (last' : Last) (n2 : Note) (chk : Option ℤ)
    (h : transposeCheck c (mkNote L nd chk) = .ok (last', n2)) : ∃ p nd2, n2 = mkNote L nd2 chk ∧ (c.pp L).readNode nd = .ok p ∧
      (c.pp L).readNode nd2 = .ok (c.tr p) ∧ Conv p last' (c.tr p) := by
  unfold transposeCheck mkNote at h
  simp only [if_true] at h
  split at h
  · cases h
  · rename_i p hp
    split at h
    · cases h
    · rename_i nd2 e
      cases h
      refine ⟨p, nd2, rfl, hp, C16_write_read _ (g.dict _) _ _ _ e, 0, ?_, ?_⟩
      · simp only [down_zero]
      · simp only [Last.prev, down_zero]

theorem start_conv {c : Ctx} (g : Good c) (L : Str) (nd : PNode) (last' : Last) (n2 : Note) (chk : Option ℤ)
    (h : transposeStart c (mkNote L nd chk) = .ok (last', n2)) : ∃ p, (c.pp L).readNode nd = .ok p ∧
      (c.pp L).readNode n2.node = .ok (c.tr p) ∧ Conv p last' (c.tr p) := by
  unfold transposeStart mkNote at h
  simp only [if_true] at h
  split at h
  · cases h
  · rename_i p hp
    split at h
    · cases h
    · rename_i nd2 e
      cases h
      exact ⟨p, hp, C16_write_read _ (g.dict _) _ _ _ e, c.toct, rfl, rfl⟩

/-! ## The language and the loop of absolute music -/

mutual
theorem visit_lang (c : Ctx) (sel : Id → Bool) : ∀ (t : Doc) (rm : Bool) (s s' : Sink) (L L' : Str) (t' : Doc), OneLang L t →
    visit c sel rm s L t = .ok (s', L', t') → L' = L
  | .node i l ks, rm, s, s', L, L', t', ho, h => by
    rw [OneLang] at ho
    obtain ⟨hl, hk⟩ := ho
    have A : ∀ rm n s s' L' ks', list c sel rm n s L ks = .ok (s', L', ks') → L' = L := fun rm n s s' L' ks' => list_lang c sel ks rm n s s' L L' ks' hk
    have B : ∀ st rm s s' L' ks', skip c sel st rm s L ks = .ok (s', L', ks') → L' = L := fun st rm s s' L' ks' => skip_lang c sel ks st rm s s' L L' ks' hk
    cases l with
    | note p nd chk =>
      rw [visit] at h
      split at h
      · cases h
      · split at h
        · cases h
        · rename_i e; cases h; exact A _ _ _ _ _ _ e
    | relative =>
      rw [visit] at h
      split at h
      · cases h
      · rename_i e; cases h; exact B _ _ _ _ _ _ e
    | language l =>
      rw [visit] at h
      cases h
      exact hl _ rfl
    | skip k =>
      cases k with
      | silent => rw [visit] at h; cases h; rfl
      | fixed =>
        rw [visit] at h
        split at h
        · cases h
        · rename_i e; cases h; exact B _ _ _ _ _ _ e
      | _ =>
        rw [visit] at h
        split at h
        · cases h
        · rename_i e; cases h; exact A _ _ _ _ _ _ e
    | chord =>
      rw [visit] at h
      split at h
      · split at h
        · cases h
        · rename_i e; cases h; exact A _ _ _ _ _ _ e
        · cases h
      · split at h
        · cases h
        · rename_i e; cases h; exact A _ _ _ _ _ _ e
    | check =>
      rw [visit] at h
      split at h
      · split at h
        · cases h
        · rename_i e; cases h; exact A _ _ _ _ _ _ e
        · cases h
      · split at h
        · cases h
        · rename_i e; cases h; exact A _ _ _ _ _ _ e
    | _ =>
      rw [visit] at h
      · split at h
        · cases h
        · rename_i e; cases h; exact A _ _ _ _ _ _ e
      all_goals simp
theorem list_lang (c : Ctx) (sel : Id → Bool) : ∀ (ks : List Doc) (rm : Bool) (n : ℕ) (s s' : Sink) (L L' : Str) (ks' : List Doc), OneLangL L ks →
    list c sel rm n s L ks = .ok (s', L', ks') → L' = L
  | [], rm, n, s, s', L, L', ks', _, h => by
    rw [list] at h
    cases h; rfl
  | k :: ks, rm, 0, s, s', L, L', ks', ho, h => by
    rw [OneLangL] at ho
    rw [list] at h
    split at h
    · cases h
    · rename_i e1
      split at h
      · cases h
      · rename_i e2
        cases h
        have := visit_lang c sel k _ _ _ _ _ _ ho.1 e1
        subst this
        exact list_lang c sel ks _ _ _ _ _ _ _ ho.2 e2
  | k :: ks, rm, n + 1, s, s', L, L', ks', ho, h => by
    rw [OneLangL] at ho
    rw [list] at h
    split at h
    · cases h
    · rename_i e1
      split at h
      · cases h
      · rename_i e2
        cases h
        have := visit_lang c sel k _ _ _ _ _ _ ho.1 e1
        subst this
        exact list_lang c sel ks _ _ _ _ _ _ _ ho.2 e2
theorem skip_lang (c : Ctx) (sel : Id → Bool) : ∀ (ks : List Doc) (st : Option Start) (rm : Bool) (s s' : Sink) (L L' : Str) (ks' : List Doc), OneLangL L ks →
    skip c sel st rm s L ks = .ok (s', L', ks') → L' = L
  | [], st, rm, s, s', L, L', ks', _, h => by
    rw [skip] at h
    cases h; rfl
  | k :: ks, st, rm, s, s', L, L', ks', ho, h => by
    rw [OneLangL] at ho
    rw [skip] at h
    split at h
    · split at h
      · cases h
      · rename_i e
        cases h
        exact skip_lang c sel ks _ _ _ _ _ _ _ ho.2 e
    · split at h
      · cases h
      · split at h
        · cases h
        · rename_i e
          cases h
          exact skip_lang c sel ks _ _ _ _ _ _ _ ho.2 e
      · split at h
        · cases h
        · rename_i e1
          split at h
          · cases h
          · rename_i e2
            cases h
            have := visit_lang c sel k _ _ _ _ _ _ ho.1 e1
            subst this
            exact skip_lang c sel ks _ _ _ _ _ _ _ ho.2 e2
end

mutual
/-- The loop that gets the notes of absolute music stays as it is. -/
theorem visit_pitches (c : Ctx) (sel : Id → Bool) (o : ℤ) : ∀ (t : Doc) (rm : Bool) (s' : Sink) (L L' : Str) (t' : Doc),
    visit c sel rm (.pitches o) L t = .ok (s', L', t') → s' = .pitches o
  | .node i l ks, rm, s', L, L', t', h => by
    have A : ∀ rm n s' L' ks', list c sel rm n (.pitches o) L ks = .ok (s', L', ks') → s' = .pitches o :=
      fun rm n s' L' ks' => list_pitches c sel o ks rm n s' L L' ks'
    have hr : relLast rm (.pitches o) = none := by cases rm <;> rfl
    cases l with
    | note p nd chk =>
      rw [visit] at h
      split at h
      · cases h
      · rename_i e1
        split at h
        · cases h
        · cases h
          rw [consume] at e1
          split at e1
          · cases e1
          · cases e1; rfl
    | relative =>
      rw [visit] at h
      split at h
      · cases h
      · cases h; rfl
    | language l => rw [visit] at h; cases h; rfl
    | skip k =>
      cases k with
      | silent => rw [visit] at h; cases h; rfl
      | transpose =>
        rw [visit] at h
        split at h
        · cases h
        · rename_i e; cases h; exact A _ _ _ _ _ e
      | _ =>
        rw [visit] at h
        split at h
        · cases h
        · cases h; rfl
    | chord =>
      rw [visit, hr] at h
      simp only at h
      split at h
      · cases h
      · rename_i e; cases h; exact A _ _ _ _ _ e
    | check =>
      rw [visit, hr] at h
      simp only at h
      split at h
      · cases h
      · rename_i e; cases h; exact A _ _ _ _ _ e
    | _ =>
      rw [visit] at h
      · split at h
        · cases h
        · rename_i e; cases h; exact A _ _ _ _ _ e
      all_goals simp
theorem list_pitches (c : Ctx) (sel : Id → Bool) (o : ℤ) : ∀ (ks : List Doc) (rm : Bool) (n : ℕ) (s' : Sink) (L L' : Str) (ks' : List Doc),
    list c sel rm n (.pitches o) L ks = .ok (s', L', ks') → s' = .pitches o
  | [], rm, n, s', L, L', ks', h => by
    rw [list] at h
    cases h; rfl
  | k :: ks, rm, 0, s', L, L', ks', h => by
    rw [list] at h
    split at h
    · cases h
    · rename_i e1
      split at h
      · cases h
      · rename_i e2
        cases h
        have := visit_pitches c sel o k _ _ _ _ _ e1
        subst this
        exact list_pitches c sel o ks _ _ _ _ _ _ e2
  | k :: ks, rm, n + 1, s', L, L', ks', h => by
    rw [list] at h
    split at h
    · cases h
    · split at h
      · cases h
      · rename_i e2
        cases h
        exact list_pitches c sel o ks _ _ _ _ _ _ e2
end

theorem list_append (c : Ctx) : ∀ (as as' bs bs' : List Doc) (s s1 s2 : Sink) (L L1 L2 : Str), list c whole false 0 s L as = .ok (s1, L1, as') →
    list c whole false 0 s1 L1 bs = .ok (s2, L2, bs') → list c whole false 0 s L (as ++ bs) = .ok (s2, L2, as' ++ bs')
  | [], as', bs, bs', s, s1, s2, L, L1, L2, h, h2 => by
    rw [list] at h
    cases h
    exact h2
  | a :: as, as', bs, bs', s, s1, s2, L, L1, L2, h, h2 => by
    obtain ⟨s3, L3, k1, s4, L4, ks2, e1, e2, e3⟩ := list_cons _ _ _ _ _ _ _ _ h
    cases e3
    rw [List.cons_append, list, e1]
    simp only
    rw [list_append c as ks2 bs bs' _ _ _ _ _ _ e2 h2]
    rfl

/-! ## In `\relative` -/

/-- The loops: the one that transposes, and the two that convert the music before and after it is transposed.  `rm` tells whether chords and octave
checks are yielded. -/
def Rel (rm : Bool) : Sink → Rel2abs.Sink → Rel2abs.Sink → Prop
  | .relative last, .music l, .music l2 => rm = true ∧ Conv l last l2
  | .chord t none, .chord a none, .chord a2 none => rm = false ∧ Conv a t a2
  | .chord t (some f), .chord a (some b), .chord a2 (some b2) => rm = false ∧ Conv a t a2 ∧ Conv b f b2
  | .check last, .check l, .check l2 => rm = false ∧ Conv l last l2
  | _, _, _ => False

/-- The loop over the notes of an `\octaveCheck`. -/
def isCheck : Rel2abs.Sink → Bool
  | .check _ => true
  | _ => false

/-- One note: the loops stay related, and the note is transposed as absolute music. -/
theorem consume_conv {c : Ctx} (g : Good c) (rm : Bool) (S S' : Sink) (R1 R2 : Rel2abs.Sink) (L : Str) (nd : PNode) (n2 : Note) (i : Id) (p : Bool) (ks gs : List Doc)
    (hR : Rel rm S R1 R2) (h : consume c (mkNote L nd none) S = .ok (S', n2)) :
    ∃ R1' R2' nd1 nd2 nd3, n2 = mkNote L nd2 none ∧ walk (cfg c) L R1 (.node i (.note p nd none) ks) = .ok (R1', [.node i (.note p nd1 none) ks]) ∧
      walk (cfg c) L R2 (.node i (.note p nd2 none) gs) = .ok (R2', [.node i (.note p nd3 none) gs]) ∧ Rel rm S' R1' R2' ∧ isCheck R1' = isCheck R1 ∧
      (isCheck R1 = false → transposeAbs c 0 (mkNote L nd1 none) = .ok (mkNote L nd3 none)) := by
  cases S with
  | pitches o => simp [Rel] at hR
  | key => simp [Rel] at hR
  | relative last =>
    rw [consume] at h
    split at h
    · cases h
    · rename_i last' n e
      cases h
      cases R1 <;> simp only [Rel] at hR
      cases R2 <;> simp only [Rel] at hR
      obtain ⟨hrm, hc⟩ := hR
      obtain ⟨q, q2, nd1, nd2, nd3, a, b, d, e2, f⟩ := note_conv' g L nd _ _ _ _ _ hc e
      refine ⟨.music q, .music q2, nd1, nd2, nd3, a, ?_, ?_, ⟨hrm, f⟩, rfl, fun _ => e2⟩
      · rw [walk]; simp only [b]; rfl
      · rw [walk]; simp only [d]; rfl
  | chord t f0 =>
    rw [consume] at h
    split at h
    · cases h
    · rename_i last' n e
      cases h
      cases R1 with
      | chord a b0 =>
        cases R2 with
        | chord a2 b20 =>
          have hc : rm = false ∧ Conv a t a2 := by
            cases f0 <;> cases b0 <;> cases b20 <;> simp only [Rel] at hR
            · exact hR
            · exact ⟨hR.1, hR.2.1⟩
          obtain ⟨q, q2, nd1, nd2, nd3, x, b, d, e2, f⟩ := note_conv' g L nd _ _ _ _ _ hc.2 e
          refine ⟨.chord q (some (b0.getD q)), .chord q2 (some (b20.getD q2)), nd1, nd2, nd3, x, ?_, ?_, ?_, rfl, fun _ => e2⟩
          · rw [walk]; simp only [b]; rfl
          · rw [walk]; simp only [d]; rfl
          · cases f0 <;> cases b0 <;> cases b20 <;> simp only [Rel] at hR
            · exact ⟨hc.1, f, f⟩
            · exact ⟨hc.1, f, hR.2.2⟩
        | _ => cases f0 <;> cases b0 <;> simp [Rel] at hR
      | _ => cases f0 <;> simp [Rel] at hR
  | check last =>
    rw [consume] at h
    split at h
    · cases h
    · rename_i last' n e
      cases h
      cases R1 <;> simp only [Rel] at hR
      cases R2 <;> simp only [Rel] at hR
      obtain ⟨q, nd2, a, b, d, f⟩ := check_conv g L nd _ _ _ e
      refine ⟨.check q, .check (c.tr q), nd, nd2, nd2, a, ?_, ?_, ⟨hR.1, f⟩, rfl, by simp [isCheck]⟩
      · rw [walk]; simp only [b]
      · rw [walk]; simp only [d]

theorem list_one {c : Ctx} {L : Str} {a b : Doc} (h : visit c whole false (.pitches 0) L a = .ok (.pitches 0, L, b)) :
    list c whole false 0 (.pitches 0) L [a] = .ok (.pitches 0, L, [b]) := by
  rw [list, h]
  simp only
  rw [list]

theorem rel_music {S : Sink} {R1 R2 : Rel2abs.Sink} (h : Rel true S R1 R2) : ∃ last l l2, S = .relative last ∧ R1 = .music l ∧ R2 = .music l2 ∧ Conv l last l2 := by
  cases S with
  | relative last =>
    cases R1 <;> simp only [Rel] at h
    cases R2 <;> simp only [Rel] at h
    exact ⟨_, _, _, rfl, rfl, rfl, h.2⟩
  | chord t f => rcases f with _ | f <;> rcases R1 with _ | ⟨_, _ | _⟩ | _ <;> rcases R2 with _ | ⟨_, _ | _⟩ | _ <;> simp [Rel] at h
  | check last => cases R1 <;> cases R2 <;> simp [Rel] at h
  | _ => simp [Rel] at h

theorem rel_chord {t : Last} {f : Option Last} {R1 R2 : Rel2abs.Sink} (h : Rel false (.chord t f) R1 R2) : ∃ a b a2 b2, R1 = .chord a b ∧ R2 = .chord a2 b2 ∧
    ∀ last l l2, Conv l last l2 → Conv (b.getD l) (f.getD last) (b2.getD l2) := by
  cases R1 with
  | chord a b =>
    cases R2 with
    | chord a2 b2 =>
      refine ⟨_, _, _, _, rfl, rfl, fun last l l2 hc => ?_⟩
      cases f <;> cases b <;> cases b2 <;> simp only [Rel] at h
      · exact hc
      · exact h.2.2
    | _ => cases f <;> cases b <;> simp [Rel] at h
  | _ => cases f <;> simp [Rel] at h

theorem rel_check {last : Last} {R1 R2 : Rel2abs.Sink} (h : Rel false (.check last) R1 R2) : ∃ l l2, R1 = .check l ∧ R2 = .check l2 ∧ Conv l last l2 := by
  cases R1 <;> simp only [Rel] at h
  cases R2 <;> simp only [Rel] at h
  exact ⟨_, _, rfl, rfl, h.2⟩

mutual
theorem walk_conv {c : Ctx} (g : Good c) : ∀ (t : Doc) (rm : Bool) (S S' : Sink) (R1 R2 : Rel2abs.Sink) (L L' : Str) (t2 : Doc), NoRel t → Tidy (!rm) t →
    Apt true t → OneLang L t → Rel rm S R1 R2 → visit c whole rm S L t = .ok (S', L', t2) →
    ∃ R1' as R2' bs, walk (cfg c) L R1 t = .ok (R1', as) ∧ walk (cfg c) L R2 t2 = .ok (R2', bs) ∧ Rel rm S' R1' R2' ∧ isCheck R1' = isCheck R1 ∧
      (isCheck R1 = false → list c whole false 0 (.pitches 0) L as = .ok (.pitches 0, L, bs))
  | .node i l ks, rm, S, S', R1, R2, L, L', t2, hn, ht, hf, ho, hR, h => by
    have hlang := visit_lang c whole _ _ _ _ _ _ _ ho h
    subst hlang
    rw [NoRel] at hn
    rw [OneLang] at ho
    cases l with
    | note p nd chk =>
      simp only [Apt, true_implies] at hf
      obtain ⟨rfl, -⟩ := hf
      rw [visit] at h
      split at h
      · cases h
      · rename_i s1 n e1
        split at h
        · cases h
        · rename_i s2 gs e2
          cases h
          obtain ⟨R1', R2', nd1, nd2, nd3, rfl, a, b, d, e, f⟩ := consume_conv g rm S _ R1 R2 _ nd n i p ks gs hR e1
          refine ⟨R1', _, R2', _, a, b, d, e, fun hc => list_one ?_⟩
          rw [visit]
          have f := f hc
          simp only [mkNote] at f
          simp only [consume, f, e2, setNote]
    | relative => exact absurd rfl hn.1
    | language l =>
      rw [visit] at h
      cases h
      refine ⟨R1, _, R2, _, by rw [walk], by rw [walk], hR, rfl, fun _ => list_one ?_⟩
      rw [visit]
    | skip k =>
      cases k with
      | transpose => simp [Apt] at hf
      | silent =>
        rw [visit] at h
        cases h
        refine ⟨R1, _, R2, _, by rw [walk], by rw [walk], hR, rfl, fun _ => list_one ?_⟩
        rw [visit]
      | _ =>
        rw [visit] at h
        split at h
        · cases h
        · rename_i e
          cases h
          refine ⟨R1, _, R2, _, by rw [walk], by rw [walk], hR, rfl, fun _ => list_one ?_⟩
          rw [visit, e]
    | chord =>
      simp only [Tidy, Bool.not_eq_false'] at ht
      obtain ⟨rfl, ht⟩ := ht
      simp only [Apt] at hf
      obtain ⟨last, l, l2, rfl, rfl, rfl, hc⟩ := rel_music hR
      rw [visit] at h
      simp only [relLast] at h
      split at h
      · cases h
      · rename_i e
        cases h
        obtain ⟨R1', as, R2', bs, a, b, d, x, f⟩ := walkL_conv g ks false (.chord last none) _ (.chord l none) (.chord l2 none) _ _ _ hn.2 ht hf ho.2 ⟨rfl, hc⟩ e
        obtain ⟨y1, y2, y3, y4, rfl, rfl, hg⟩ := rel_chord d
        refine ⟨.music (y2.getD l), [.node i .chord as], .music (y4.getD l2), [.node i .chord bs], ?_, ?_, ⟨rfl, hg _ _ _ hc⟩, rfl, fun _ => list_one ?_⟩
        · rw [walk, a]
        · rw [walk, b]
        · rw [visit]
          simp only [relLast]
          rw [f rfl]
      · cases h
    | check =>
      simp only [Tidy, Bool.not_eq_false'] at ht
      obtain ⟨rfl, ht⟩ := ht
      simp only [Apt] at hf
      obtain ⟨last, l, l2, rfl, rfl, rfl, hc⟩ := rel_music hR
      rw [visit] at h
      simp only [relLast] at h
      split at h
      · cases h
      · rename_i e
        cases h
        obtain ⟨R1', as, R2', bs, a, b, d, x, f⟩ := walkL_conv g ks false (.check last) _ (.check l) (.check l2) _ _ _ hn.2 ht hf ho.2 ⟨rfl, hc⟩ e
        obtain ⟨y1, y2, rfl, rfl, hg⟩ := rel_check d
        refine ⟨.music y1, [], .music y2, [], ?_, ?_, ⟨rfl, hg⟩, rfl, fun _ => by rw [list]⟩
        · rw [walk, a]
        · rw [walk, b]
      · cases h
    | comment =>
      simp only [Tidy] at ht
      subst ht
      rw [visit] at h
      · rw [list] at h
        cases h
        refine ⟨R1, _, R2, _, by rw [walk, walkL], by rw [walk, walkL], hR, rfl, fun _ => list_one ?_⟩
        rw [visit, list]
        all_goals simp
      all_goals simp
    | chordmode =>
      simp only [Tidy] at ht
      simp only [Apt] at hf
      rw [visit] at h
      · split at h
        · cases h
        · rename_i e
          cases h
          obtain ⟨R1', as, R2', bs, a, b, d, x, f⟩ := walkL_conv g ks rm _ _ R1 R2 _ _ _ hn.2 ht hf ho.2 hR e
          refine ⟨R1', _, R2', _, by rw [walk, a], by rw [walk, b], d, x, fun hc => list_one ?_⟩
          rw [visit, f hc]
          all_goals simp
      all_goals simp
    | other =>
      simp only [Tidy] at ht
      simp only [Apt] at hf
      rw [visit] at h
      · split at h
        · cases h
        · rename_i e
          cases h
          obtain ⟨R1', as, R2', bs, a, b, d, x, f⟩ := walkL_conv g ks rm _ _ R1 R2 _ _ _ hn.2 ht hf ho.2 hR e
          refine ⟨R1', _, R2', _, by rw [walk, a], by rw [walk, b], d, x, fun hc => list_one ?_⟩
          rw [visit, f hc]
          all_goals simp
      all_goals simp
theorem walkL_conv {c : Ctx} (g : Good c) : ∀ (ks : List Doc) (rm : Bool) (S S' : Sink) (R1 R2 : Rel2abs.Sink) (L L' : Str) (ks2 : List Doc), NoRelL ks →
    TidyL (!rm) ks → AptL true ks → OneLangL L ks → Rel rm S R1 R2 → list c whole rm 0 S L ks = .ok (S', L', ks2) →
    ∃ R1' as R2' bs, walkL (cfg c) L R1 ks = .ok (R1', as) ∧ walkL (cfg c) L R2 ks2 = .ok (R2', bs) ∧ Rel rm S' R1' R2' ∧ isCheck R1' = isCheck R1 ∧
      (isCheck R1 = false → list c whole false 0 (.pitches 0) L as = .ok (.pitches 0, L, bs))
  | [], rm, S, S', R1, R2, L, L', ks2, _, _, _, _, hR, h => by
    rw [list] at h
    cases h
    exact ⟨R1, [], R2, [], by rw [walkL], by rw [walkL], hR, rfl, fun _ => by rw [list]⟩
  | k :: ks, rm, S, S', R1, R2, L, L', ks2, hn, ht, hf, ho, hR, h => by
    rw [NoRelL] at hn
    rw [TidyL] at ht
    rw [AptL] at hf
    rw [OneLangL] at ho
    obtain ⟨s1, L1, k1, s2, L2, gs, e1, e2, e3⟩ := list_cons _ _ _ _ _ _ _ _ h
    cases e3
    have hlang := visit_lang c whole _ _ _ _ _ _ _ ho.1 e1
    subst hlang
    obtain ⟨R1', as, R2', bs, a, b, d, x, f⟩ := walk_conv g k rm _ _ R1 R2 _ _ _ hn.1 ht.1 hf.1 ho.1 hR e1
    obtain ⟨R1'', as', R2'', bs', a', b', d', x', f'⟩ := walkL_conv g ks rm _ _ R1' R2' _ _ _ hn.2 ht.2 hf.2 ho.2 d e2
    refine ⟨R1'', as ++ as', R2'', bs ++ bs', ?_, ?_, d', x'.trans x, fun hc => ?_⟩
    · rw [walkL, a]; simp only; rw [a']
    · rw [walkL, b]; simp only; rw [b']
    · exact list_append c _ _ _ _ _ _ _ _ _ _ (f hc) (f' (x.trans hc))
end

end Quickly.TransposeAbs
