import Verif.TransposeTrip.Spec
import Verif.RoundTrip.Edit
import Verif.TransposeAbs.Doc
import Verif.Abs2rel.Frame

/-! # Transposing does not depend on identities; what the converted document is like -/

namespace Quickly.TransposeTrip

open Quickly.Pitch Quickly.Relative
open Quickly.TransposeDoc (Sink Start visit list skip first setNote consume)
open Quickly.RoundTrip.Spec (erase eraseL)
open Quickly.RoundTrip (erase_node eraseL_nil eraseL_cons eraseL_append)
open Quickly.Rel2abs (Doc Lab Id)
open Quickly.Rel2abs.Spec (NoRel NoRelL Tidy TidyL)
open Quickly.TransposeAbs.Spec (Apt AptL)
open Quickly.TransposeTrip.Spec (Meet MeetL)
open Quickly.Abs2rel.Spec (Octaves OctavesL toDoc toDocs Still StillL)

/-- Everything is selected. -/
def whole : Id → Bool := fun _ => true

theorem erase_lab (t : Doc) : (erase t).lab = t.lab := by
  obtain ⟨i, l, ks⟩ := t
  rfl

theorem eraseL_filter : ∀ ks : List Doc, ((eraseL ks).filter fun k => k.lab ≠ .comment).length = (ks.filter fun k => k.lab ≠ .comment).length
  | [] => by rw [eraseL]
  | k :: ks => by
    have := eraseL_filter ks
    by_cases hk : k.lab = .comment
    · rw [eraseL, List.filter_cons_of_neg (by simpa [erase_lab] using hk), List.filter_cons_of_neg (by simpa using hk), this]
    · rw [eraseL, List.filter_cons_of_pos (by simpa [erase_lab] using hk), List.filter_cons_of_pos (by simpa using hk), List.length_cons, List.length_cons, this]

theorem first_erase (c : Ctx) (st : Option Start) (L : Str) (k : Doc) (r : Option (Sink × Doc)) (h : first c whole st L k = .ok r) :
    first c whole st L (erase k) = .ok (r.map fun x => (x.1, erase x.2)) := by
  obtain ⟨i, l, ks⟩ := k
  rw [erase]
  cases l with
  | note p nd chk =>
    cases st with
    | none => rw [first] at h ⊢; cases h; rfl
    | some st =>
      cases st with
      | relative =>
        rw [first] at h ⊢
        simp only [whole] at h ⊢
        split at h
        · cases h
        · cases h; rfl
      | fixed =>
        rw [first] at h ⊢
        simp only [whole, if_true] at h ⊢
        split at h
        · cases h
        · cases h; rfl
  | _ =>
    cases st with
    | none => cases h; rfl
    | some st => cases st <;> (cases h; rfl)

mutual
theorem visit_erase (c : Ctx) : ∀ (t : Doc) (rm : Bool) (s s' : Sink) (L L' : Str) (t' : Doc),
    visit c whole rm s L t = .ok (s', L', t') → visit c whole rm s L (erase t) = .ok (s', L', erase t')
  | .node i l ks, rm, s, s', L, L', t', h => by
    rw [erase]
    cases l with
    | note p nd chk =>
      rw [visit] at h ⊢
      simp only [whole] at h ⊢
      split at h
      · cases h
      · rename_i e1
        split at h
        · cases h
        · rename_i e2; cases h; rw [list_erase c ks _ _ _ _ _ _ _ e2]; rfl
    | chord =>
      rw [visit] at h ⊢
      split at h
      · split at h
        · cases h
        · rename_i e; cases h; rw [list_erase c ks _ _ _ _ _ _ _ e]; rfl
        · cases h
      · split at h
        · cases h
        · rename_i e; cases h; rw [list_erase c ks _ _ _ _ _ _ _ e]; rfl
    | check =>
      rw [visit] at h ⊢
      split at h
      · split at h
        · cases h
        · rename_i e; cases h; rw [list_erase c ks _ _ _ _ _ _ _ e]; rfl
        · cases h
      · split at h
        · cases h
        · rename_i e; cases h; rw [list_erase c ks _ _ _ _ _ _ _ e]; rfl
    | relative =>
      rw [visit] at h ⊢
      split at h
      · cases h
      · rename_i e; cases h; rw [eraseL_filter, skip_erase c ks _ _ _ _ _ _ _ e]; rfl
    | language l => rw [visit] at h ⊢; cases h; rfl
    | skip k =>
      cases k with
      | silent => rw [visit] at h ⊢; cases h; rfl
      | fixed =>
        rw [visit] at h ⊢
        split at h
        · cases h
        · rename_i e; cases h; rw [skip_erase c ks _ _ _ _ _ _ _ e]; rfl
      | _ =>
        rw [visit] at h ⊢
        split at h
        · cases h
        · rename_i e; cases h; rw [list_erase c ks _ _ _ _ _ _ _ e]; rfl
    | _ =>
      rw [visit] at h ⊢ <;> try simp
      split at h
      · cases h
      · rename_i e; cases h; rw [list_erase c ks _ _ _ _ _ _ _ e]; rfl
theorem list_erase (c : Ctx) : ∀ (ts : List Doc) (rm : Bool) (n : ℕ) (s s' : Sink) (L L' : Str) (ts' : List Doc),
    list c whole rm n s L ts = .ok (s', L', ts') → list c whole rm n s L (eraseL ts) = .ok (s', L', eraseL ts')
  | [], rm, n, s, s', L, L', ts', h => by
    rw [list] at h
    cases h
    rw [eraseL, list]
  | t :: ts, rm, n, s, s', L, L', ts', h => by
    rw [eraseL]
    cases n with
    | zero =>
      rw [list] at h ⊢
      split at h
      · cases h
      · rename_i e1
        split at h
        · cases h
        · rename_i e2; cases h
          rw [visit_erase c t _ _ _ _ _ _ e1]; simp only; rw [list_erase c ts _ _ _ _ _ _ _ e2]; rfl
    | succ n =>
      rw [list] at h ⊢
      split at h
      · cases h
      · rename_i e1
        split at h
        · cases h
        · rename_i e2; cases h
          rw [visit_erase c t _ _ _ _ _ _ e1]; simp only; rw [list_erase c ts _ _ _ _ _ _ _ e2]; rfl
theorem skip_erase (c : Ctx) : ∀ (ts : List Doc) (st : Option Start) (rm : Bool) (s s' : Sink) (L L' : Str) (ts' : List Doc),
    skip c whole st rm s L ts = .ok (s', L', ts') → skip c whole st rm s L (eraseL ts) = .ok (s', L', eraseL ts')
  | [], st, rm, s, s', L, L', ts', h => by
    rw [skip] at h
    cases h
    rw [eraseL, skip]
  | t :: ts, st, rm, s, s', L, L', ts', h => by
    rw [eraseL]
    rw [skip] at h ⊢
    rw [erase_lab]
    split at h
    · rename_i hk
      rw [if_pos hk]
      split at h
      · cases h
      · rename_i e; cases h; rw [skip_erase c ts _ _ _ _ _ _ _ e]; rfl
    · rename_i hk
      rw [if_neg hk]
      split at h
      · cases h
      · rename_i e1
        rw [first_erase _ _ _ _ _ e1]
        split at h
        · cases h
        · rename_i e; cases h; simp only [Option.map_some]; rw [skip_erase c ts _ _ _ _ _ _ _ e]; rfl
      · rename_i e1
        rw [first_erase _ _ _ _ _ e1]
        simp only [Option.map_none]
        split at h
        · cases h
        · rename_i e2
          rw [visit_erase c t _ _ _ _ _ _ e2]
          simp only
          split at h
          · cases h
          · rename_i e; cases h; rw [skip_erase c ts _ _ _ _ _ _ _ e]; rfl
end

/-! ## Identities do not matter for the kinds of documents -/

mutual
theorem noRel_erase : ∀ t : Doc, NoRel (erase t) ↔ NoRel t
  | .node i l ks => by rw [erase, NoRel, NoRel, noRelL_erase ks]
theorem noRelL_erase : ∀ ts : List Doc, NoRelL (eraseL ts) ↔ NoRelL ts
  | [] => by rw [eraseL]
  | t :: ts => by rw [eraseL, NoRelL, NoRelL, noRel_erase t, noRelL_erase ts]
end

mutual
theorem apt_erase : ∀ (t : Doc) (b : Bool), Apt b (erase t) ↔ Apt b t
  | .node i l ks, b => by
    have h := aptL_erase ks
    rw [erase]
    cases l with
    | skip k => cases k <;> simp only [Apt, h, noRelL_erase ks]
    | _ => simp only [Apt, h]
theorem aptL_erase : ∀ (ts : List Doc) (b : Bool), AptL b (eraseL ts) ↔ AptL b ts
  | [], b => by rw [eraseL]
  | t :: ts, b => by rw [eraseL, AptL, AptL, apt_erase t, aptL_erase ts]
end

mutual
theorem tidy_erase : ∀ (t : Doc) (b : Bool), Tidy b (erase t) ↔ Tidy b t
  | .node i l ks, b => by
    have h := tidyL_erase ks
    rw [erase]
    cases l with
    | comment =>
      rw [Tidy, Tidy]
      cases ks <;> simp [eraseL]
    | _ => simp only [Tidy, h]
theorem tidyL_erase : ∀ (ts : List Doc) (b : Bool), TidyL b (eraseL ts) ↔ TidyL b ts
  | [], b => by rw [eraseL]
  | t :: ts, b => by rw [eraseL, TidyL, TidyL, tidy_erase t, tidyL_erase ts]
end

/-! ## Notes in other octaves -/

mutual
theorem apt_octaves : ∀ (d d' : Abs2rel.Doc) (b : Bool), Octaves d d' → Apt b (toDoc d) → Apt b (toDoc d')
  | .node l ks, d', b, ho, h => by
    have rest : (∃ ks', d' = .node l ks' ∧ OctavesL ks ks') → (∀ i b ks, Apt b (.node i (Abs2rel.Spec.Lab.plain l) ks) ↔ AptL b ks ∨ AptL true ks ∧ Abs2rel.Spec.Lab.plain l = .relative) → Apt b (toDoc d') := by
      rintro ⟨ks', rfl, o⟩ hk
      rw [toDoc] at h ⊢
      rw [hk] at h ⊢
      rcases h with h | ⟨h, e⟩
      · exact .inl (aptL_octaves ks ks' _ o h)
      · exact .inr ⟨aptL_octaves ks ks' _ o h, e⟩
    cases l with
    | list => rw [Octaves] at ho; exact rest ho (fun i b ks => by simp [Abs2rel.Spec.Lab.plain, Apt]); all_goals simp
    | lab l =>
      cases l with
      | note p nd chk =>
        rw [Octaves] at ho
        obtain ⟨o, rfl⟩ := ho
        simpa only [toDoc, Abs2rel.Spec.Lab.plain, Apt] using h
      | chord => rw [Octaves] at ho; rw [ho]; exact h
      | skip k => rw [Octaves] at ho; rw [ho]; exact h
      | language l => rw [Octaves] at ho; rw [ho]; exact h
      | relative =>
        rw [Octaves] at ho
        · obtain ⟨ks', rfl, o⟩ := ho
          simp only [toDoc, Abs2rel.Spec.Lab.plain, Apt] at h ⊢
          exact aptL_octaves ks ks' _ o h
        all_goals simp
      | _ => rw [Octaves] at ho; exact rest ho (fun i b ks => by simp [Abs2rel.Spec.Lab.plain, Apt]); all_goals simp
theorem aptL_octaves : ∀ (ks ks' : List Abs2rel.Doc) (b : Bool), OctavesL ks ks' → AptL b (toDocs ks) → AptL b (toDocs ks')
  | [], ks', b, ho, h => by rw [OctavesL] at ho; rw [ho]; exact h
  | k :: ks, ks', b, ho, h => by
    rw [OctavesL] at ho
    obtain ⟨g, gs, rfl, o1, o2⟩ := ho
    rw [toDocs, AptL] at h ⊢
    exact ⟨apt_octaves k g b o1 h.1, aptL_octaves ks gs b o2 h.2⟩
end

mutual
theorem tidy_octaves : ∀ (d d' : Abs2rel.Doc) (b : Bool), Octaves d d' → Tidy b (toDoc d) → Tidy b (toDoc d')
  | .node l ks, d', b, ho, h => by
    have rest : (∃ ks', d' = .node l ks' ∧ OctavesL ks ks') → (∀ i b ks, Tidy b (.node i (Abs2rel.Spec.Lab.plain l) ks) ↔ TidyL b ks) → Tidy b (toDoc d') := by
      rintro ⟨ks', rfl, o⟩ hk
      rw [toDoc, hk] at h ⊢
      exact tidyL_octaves ks ks' _ o h
    cases l with
    | list => rw [Octaves] at ho; exact rest ho (fun i b ks => by simp [Abs2rel.Spec.Lab.plain, Tidy]); all_goals simp
    | lab l =>
      cases l with
      | note p nd chk =>
        rw [Octaves] at ho
        obtain ⟨o, rfl⟩ := ho
        simpa only [toDoc, Abs2rel.Spec.Lab.plain, Tidy] using h
      | chord => rw [Octaves] at ho; rw [ho]; exact h
      | skip k => rw [Octaves] at ho; rw [ho]; exact h
      | language l => rw [Octaves] at ho; rw [ho]; exact h
      | check =>
        rw [Octaves] at ho
        · obtain ⟨ks', rfl, o⟩ := ho
          simp only [toDoc, Abs2rel.Spec.Lab.plain, Tidy] at h ⊢
          exact ⟨h.1, tidyL_octaves ks ks' _ o h.2⟩
        all_goals simp
      | comment =>
        rw [Octaves] at ho
        · obtain ⟨ks', rfl, o⟩ := ho
          simp only [toDoc, Abs2rel.Spec.Lab.plain, Tidy] at h ⊢
          cases ks with
          | nil => rw [OctavesL] at o; rw [o, toDocs]
          | cons k ks => rw [toDocs] at h; cases h
        all_goals simp
      | _ => rw [Octaves] at ho; exact rest ho (fun i b ks => by simp [Abs2rel.Spec.Lab.plain, Tidy]); all_goals simp
theorem tidyL_octaves : ∀ (ks ks' : List Abs2rel.Doc) (b : Bool), OctavesL ks ks' → TidyL b (toDocs ks) → TidyL b (toDocs ks')
  | [], ks', b, ho, h => by rw [OctavesL] at ho; rw [ho]; exact h
  | k :: ks, ks', b, ho, h => by
    rw [OctavesL] at ho
    obtain ⟨g, gs, rfl, o1, o2⟩ := ho
    rw [toDocs, TidyL] at h ⊢
    exact ⟨tidy_octaves k g b o1 h.1, tidyL_octaves ks gs b o2 h.2⟩
end

/-! ## The converted document -/

theorem toDocs_append (a b : List Abs2rel.Doc) : toDocs (a ++ b) = toDocs a ++ toDocs b := by
  induction a with
  | nil => simp [toDocs]
  | cons t a ih => simp [toDocs, ih]

theorem make_kind (pp : Langs) (st : Settings) (L L' : Str) (l : Abs2rel.Lab) (ks : List Abs2rel.Doc) (d' : Abs2rel.Doc) (b : Bool)
    (hl : l = .list ∨ l = .lab .chordmode) (h : Abs2rel.make pp st L (.node l ks) = .ok (L', d')) (ha : AptL true (toDocs ks)) (ht : TidyL b (toDocs ks)) :
    Apt false (toDoc d') ∧ Tidy b (toDoc d') := by
  rw [Abs2rel.make] at h
  split at h
  · cases h
  · rename_i s L1 ks1 e
    cases h
    obtain ⟨o, -, -⟩ := Abs2rel.notesL_frame pp st ks _ _ _ _ _ e
    have a1 := aptL_octaves ks ks1 true o ha
    have t1 := tidyL_octaves ks ks1 b o ht
    have a2 : Apt true (toDoc (.node l ks1)) := by rcases hl with rfl | rfl <;> simpa only [toDoc, Abs2rel.Spec.Lab.plain, Apt] using a1
    have t2 : Tidy b (toDoc (.node l ks1)) := by rcases hl with rfl | rfl <;> simpa only [toDoc, Abs2rel.Spec.Lab.plain, Tidy] using t1
    rw [toDoc]
    simp only [Abs2rel.Spec.Lab.plain, Apt, Tidy, toDocs_append]
    cases s.start with
    | none => simp [toDocs, AptL, TidyL, a2, t2]
    | some n =>
      have a3 : Apt true (toDoc (Abs2rel.startNode n)) := by simp only [Abs2rel.startNode, toDoc, toDocs, Abs2rel.Spec.Lab.plain, Apt, AptL]; simp
      have t3 : Tidy b (toDoc (Abs2rel.startNode n)) := by simp only [Abs2rel.startNode, toDoc, toDocs, Abs2rel.Spec.Lab.plain, Tidy, TidyL]
      simp [toDocs, AptL, TidyL, a2, t2, a3, t3]

mutual
theorem edit_kind (pp : Langs) (st : Settings) : ∀ (d d' : Abs2rel.Doc) (L L' : Str) (b : Bool), Abs2rel.edit pp st {} true L d = .ok (L', d') → Meet d →
    NoRel (toDoc d) → Tidy b (toDoc d) → Apt false (toDoc d') ∧ Tidy b (toDoc d')
  | .node l ks, d', L, L', b, h, hm, hr, ht => by
    rw [toDoc, NoRel] at hr
    have inside : ((match Abs2rel.editL pp st {} ks.length 0 L ks with | .error e => .error e | .ok (L, ks) => .ok (L, .node l ks)) : Py (Str × Abs2rel.Doc)) = .ok (L', d') →
        MeetL ks → ∀ b', TidyL b' (toDocs ks) → ∃ ks', d' = .node l ks' ∧ AptL false (toDocs ks') ∧ TidyL b' (toDocs ks') := by
      intro h hm b' ht
      split at h
      · cases h
      · rename_i L1 ks1 e
        cases h
        obtain ⟨a1, a2⟩ := editL_kind pp st ks ks1 L _ _ 0 b' e (by omega) hm hr.2 ht
        exact ⟨ks1, rfl, a1, a2⟩
    cases l with
    | list =>
      rw [Meet] at hm
      rw [Abs2rel.edit] at h
      simp only [toDoc, Abs2rel.Spec.Lab.plain, Tidy] at ht
      split at h
      · rename_i hn
        simp only [Bool.and_true, List.any_eq_true] at hn
        exact make_kind pp st L L' .list ks d' b (.inl rfl) h (hm.1 hn) ht
      · rename_i hn
        simp only [Bool.and_true, List.any_eq_true, not_exists, not_and, Bool.not_eq_true] at hn
        obtain ⟨ks', rfl, a, t⟩ := inside (by rw [← h]; cases Abs2rel.editL pp st {} ks.length 0 L ks <;> rfl) (hm.2 hn) b ht
        simp only [toDoc, Abs2rel.Spec.Lab.plain, Tidy, Apt]
        exact ⟨a, t⟩
    | lab l =>
      have hre : l ≠ .relative := hr.1
      have go : l ≠ .chordmode → ((match Abs2rel.editL pp st {} ks.length 0 L ks with | .error e => .error e | .ok (L, ks) => .ok (L, .node (.lab l) ks)) : Py (Str × Abs2rel.Doc)) = .ok (L', d') := by
        intro hcm
        rw [Abs2rel.edit] at h
        · rw [← h]; cases Abs2rel.editL pp st {} ks.length 0 L ks <;> rfl
        all_goals simp [hcm, hre]
      cases l with
      | relative => exact absurd rfl hre
      | chordmode =>
        rw [Meet] at hm
        rw [Abs2rel.edit] at h
        simp only [toDoc, Abs2rel.Spec.Lab.plain, Tidy] at ht
        exact make_kind pp st L L' _ ks d' b (.inr rfl) h hm ht
      | comment =>
        simp only [toDoc, Abs2rel.Spec.Lab.plain, Tidy] at ht
        have : ks = [] := by
          cases ks with
          | nil => rfl
          | cons k ks => rw [toDocs] at ht; cases ht
        subst this
        have g := go (by simp)
        rw [Abs2rel.editL] at g
        cases g
        simp [toDoc, toDocs, Abs2rel.Spec.Lab.plain, Tidy, Apt, AptL]
      | note p nd chk =>
        simp only [toDoc, Abs2rel.Spec.Lab.plain, Tidy] at ht
        rw [Meet] at hm <;> try simp
        obtain ⟨ks', rfl, a, t⟩ := inside (go (by simp)) hm _ ht
        simp only [toDoc, Abs2rel.Spec.Lab.plain, Tidy, Apt]
        exact ⟨⟨by simp, a⟩, t⟩
      | chord =>
        simp only [toDoc, Abs2rel.Spec.Lab.plain, Tidy] at ht
        rw [Meet] at hm <;> try simp
        obtain ⟨ks', rfl, a, t⟩ := inside (go (by simp)) hm _ ht.2
        simp only [toDoc, Abs2rel.Spec.Lab.plain, Tidy, Apt]
        exact ⟨a, ht.1, t⟩
      | check =>
        simp only [toDoc, Abs2rel.Spec.Lab.plain, Tidy] at ht
        rw [Meet] at hm <;> try simp
        obtain ⟨ks', rfl, a, t⟩ := inside (go (by simp)) hm _ ht.2
        simp only [toDoc, Abs2rel.Spec.Lab.plain, Tidy, Apt]
        exact ⟨a, ht.1, t⟩
      | skip k =>
        simp only [toDoc, Abs2rel.Spec.Lab.plain, Tidy] at ht
        cases k with
        | fixed =>
          rw [Meet] at hm
          have g := go (by simp)
          rw [Abs2rel.editL_still pp st ks _ _ _ _ hm] at g
          cases g
          simp only [toDoc, Abs2rel.Spec.Lab.plain, Tidy, Apt]
          exact ⟨hr.2, ht⟩
        | _ =>
          rw [Meet] at hm <;> try simp
          obtain ⟨ks', rfl, a, t⟩ := inside (go (by simp)) hm _ ht
          simp only [toDoc, Abs2rel.Spec.Lab.plain, Tidy, Apt, true_and]
          exact ⟨a, t⟩
      | _ =>
        simp only [toDoc, Abs2rel.Spec.Lab.plain, Tidy] at ht
        rw [Meet] at hm <;> try simp
        obtain ⟨ks', rfl, a, t⟩ := inside (go (by simp)) hm _ ht
        simp only [toDoc, Abs2rel.Spec.Lab.plain, Tidy, Apt]
        exact ⟨a, t⟩
theorem editL_kind (pp : Langs) (st : Settings) : ∀ (ks ks' : List Abs2rel.Doc) (L L' : Str) (len i : ℕ) (b : Bool),
    Abs2rel.editL pp st {} len i L ks = .ok (L', ks') → i + ks.length = len → MeetL ks → NoRelL (toDocs ks) → TidyL b (toDocs ks) →
    AptL false (toDocs ks') ∧ TidyL b (toDocs ks')
  | [], ks', L, L', len, i, b, h, _, _, _, _ => by
    rw [Abs2rel.editL] at h
    cases h
    simp [toDocs, AptL, TidyL]
  | k :: ks, ks', L, L', len, i, b, h, hlen, hm, hr, ht => by
    rw [MeetL] at hm
    rw [toDocs, NoRelL] at hr
    rw [toDocs, TidyL] at ht
    rw [Abs2rel.editL] at h
    have hin : (Abs2rel.Rng.start {} ≤ i ∧ (i : ℤ) ≤ Abs2rel.Rng.stop {} len) := by
      simp only [List.length_cons] at hlen
      simp only [Abs2rel.Rng.start, Abs2rel.Rng.stop, List.head?_nil, Option.getD_none]
      omega
    rw [if_pos hin, RoundTrip.whole_child, RoundTrip.whole_inRange] at h
    split at h
    · cases h
    · rename_i L1 k1 e1
      split at h
      · cases h
      · rename_i L2 ks2 e2
        cases h
        have x := edit_kind pp st k k1 L L1 b e1 hm.1 hr.1 ht.1
        have y := editL_kind pp st ks ks2 L1 L' len (i + 1) b e2 (by simp only [List.length_cons] at hlen; omega) hm.2 hr.2 ht.2
        rw [toDocs, AptL, TidyL]
        exact ⟨⟨x.1, y.1⟩, x.2, y.2⟩
end

end Quickly.TransposeTrip
