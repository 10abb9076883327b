import Verif.Read.Spec
import Mathlib.Data.List.Basic

/-!
# Counting tokens
-/

namespace Quickly.Read

open Spec

theorem toksL_append (a b : List Elem) : toksL (a ++ b) = toksL a ++ toksL b := by
  induction a with
  | nil => simp [toksL]
  | cons x xs ih => simp [toksL, ih]

theorem itemsToks_append (a b : List Item) : itemsToks (a ++ b) = itemsToks a ++ itemsToks b := by
  induction a with
  | nil => simp [itemsToks]
  | cons x xs ih => simp [itemsToks, ih]

/-- Number of times a token is in an element. -/
def cnt (t : Tok) (e : Elem) : ℕ := (toks e).count t
def cntL (t : Tok) (l : List Elem) : ℕ := (toksL l).count t
def cntI (t : Tok) (l : List Item) : ℕ := (itemsToks l).count t
def cnt1 (t : Tok) (i : Item) : ℕ := (itemToks i).count t

@[simp] theorem cntL_nil (t : Tok) : cntL t [] = 0 := rfl
@[simp] theorem cntL_cons (t : Tok) (e : Elem) (l : List Elem) : cntL t (e :: l) = cnt t e + cntL t l := by
  simp [cntL, cnt, toksL]
@[simp] theorem cntL_append (t : Tok) (a b : List Elem) : cntL t (a ++ b) = cntL t a + cntL t b := by
  simp [cntL, toksL_append]
@[simp] theorem cntI_nil (t : Tok) : cntI t [] = 0 := rfl
@[simp] theorem cntI_cons (t : Tok) (e : Item) (l : List Item) : cntI t (e :: l) = cnt1 t e + cntI t l := by
  simp [cntI, cnt1, itemsToks]
@[simp] theorem cntI_append (t : Tok) (a b : List Item) : cntI t (a ++ b) = cntI t a + cntI t b := by
  simp [cntI, itemsToks_append]
@[simp] theorem cnt_mk (t : Tok) (c : Cls) (h tl : List Tok) (ks : List Elem) :
    cnt t (.mk c h tl ks) = h.count t + cntL t ks + tl.count t := by
  simp [cnt, cntL, toks]; omega
@[simp] theorem cnt_make (t u : Tok) (c : Cls) : cnt t (make c u) = [u].count t := by
  simp [make]
@[simp] theorem cnt_append (t : Tok) (e x : Elem) : cnt t (e.append x) = cnt t e + cnt t x := by
  cases e; simp [Elem.append]; omega
@[simp] theorem cnt_extend (t : Tok) (e : Elem) (l : List Elem) :
    cnt t (e.extend l) = cnt t e + cntL t l := by
  cases e; simp [Elem.extend]; omega
@[simp] theorem cnt1_tok (t u : Tok) : cnt1 t (.tok u) = [u].count t := by simp [cnt1, itemToks]
@[simp] theorem cnt1_elem (t : Tok) (c : Ctx) (e : Elem) : cnt1 t (.elem c e) = cnt t e := by
  simp [cnt1, itemToks, cnt]
@[simp] theorem cnt1_flat (t : Tok) (l : List Elem) : cnt1 t (.flat l) = cntL t l := by
  simp [cnt1, itemToks, cntL]
@[simp] theorem cnt1_pitch (t : Tok) (l : List Elem) : cnt1 t (.pitch l) = cntL t l := by
  simp [cnt1, itemToks, cntL]
@[simp] theorem cnt1_modifier (t : Tok) (l : List Elem) : cnt1 t (.modifier l) = cntL t l := by
  simp [cnt1, itemToks, cntL]
@[simp] theorem cnt1_dur (t : Tok) (d : List Tok) (s : Option Elem) :
    cnt1 t (.dur d s) = d.count t + cntL t s.toList := by
  simp [cnt1, itemToks, cntL]
@[simp] theorem cnt1_markup (t : Tok) (l : List Item) : cnt1 t (.markup l) = cntI t l := by
  simp [cnt1, itemToks, cntI]

mutual

theorem cnt_popComments (t : Tok) (e : Elem) :
    cnt t (popComments e).1 + cntL t (popComments e).2 = cnt t e := by
  cases e with
  | mk c h tl ks =>
    have := cnt_popList t ks
    simp [popComments]; omega

theorem cnt_popList (t : Tok) (l : List Elem) :
    cntL t (popList l).1 + cntL t (popList l).2 = cntL t l := by
  cases l with
  | nil => simp [popList]
  | cons k ks =>
    have h1 := cnt_popList t ks
    have h2 := cnt_popComments t k
    rw [popList]
    by_cases h : (popList ks).1.isEmpty = true
    · have h0 : (popList ks).1 = [] := by simpa using h
      rw [h0] at h1
      by_cases hk : k.isComment = true
      · simp only [if_pos h, if_pos hk]; simp at h1 ⊢; omega
      · simp only [if_pos h, if_neg hk]; simp at h1 ⊢; omega
    · simp only [if_neg h]; simp; omega

end

/-- The tokens in a state. -/
def cntS (t : Tok) (s : St) : ℕ :=
  cntL t s.music.toList + (s.duration.getD []).count t + cntL t s.scaling.toList
    + cntL t s.modifier.toList + cntL t s.articulations.toList + cntL t s.events + cntL t s.comments

theorem cntL_filter (t : Tok) (p : Elem → Bool) (l : List Elem) : cntL t (l.filter p) ≤ cntL t l := by
  induction l with
  | nil => simp
  | cons x xs ih =>
    by_cases h : p x = true
    · simp [h]; omega
    · simp [h]; omega

theorem cnt_withDuration (t : Tok) (s : St) :
    cntL t (withDuration s).1.toList + cntL t (withDuration s).2
      ≤ cntL t s.music.toList + (s.duration.getD []).count t + cntL t s.scaling.toList + cntL t s.comments := by
  unfold withDuration
  rcases hd : s.duration with _ | d <;> rcases hm : s.music with _ | m
  · simp
  · have := cnt_popComments t m
    simp; omega
  · simp
  · simp; omega

theorem cnt_withPart (t : Tok) (m : Elem) (cs : List Elem) (p : Option Elem) :
    cnt t (withPart m cs p).1 + cntL t (withPart m cs p).2 = cnt t m + cntL t cs + cntL t p.toList := by
  cases p with
  | none => simp [withPart]
  | some p =>
    have := cnt_popComments t p
    simp [withPart]; omega

theorem cnt_pendingMusic (t : Tok) (s : St) : cntL t (pendingMusic s) ≤ cntS t s := by
  have h1 := cnt_withDuration t s
  have h2 := cntL_filter t isPrefix s.events
  unfold pendingMusic cntS
  rcases hr : (withDuration s).1 with _ | m
  · simp [hr] at h1 ⊢; omega
  · have h3 := cnt_withPart t m (withDuration s).2 s.modifier
    have h4 := cnt_withPart t (withPart m (withDuration s).2 s.modifier).1
      (withPart m (withDuration s).2 s.modifier).2 s.articulations
    simp [hr] at h1 h3 h4 ⊢; omega

theorem cnt_chain (t : Tok) (l : List Elem) (a : Elem) : cnt t (chain l a) = cntL t l + cnt t a := by
  induction l with
  | nil => simp [chain]
  | cons x xs ih => simp [chain, ih]; omega

theorem cnt_addArticulation (t : Tok) (s : St) (a : Elem) :
    cntS t (addArticulation s a) ≤ cntS t s + cnt t a := by
  unfold addArticulation
  split
  · have := cnt_chain t s.events a
    rcases ha : s.articulations with _ | x <;> simp [cntS, ha, this] <;> omega
  · omega

theorem cnt_addModifier (t : Tok) (s : St) (a : Elem) :
    cntS t (token.addModifier s a) ≤ cntS t s + cnt t a := by
  unfold token.addModifier
  split
  · rcases ha : s.modifier with _ | x <;> simp [cntS, ha] <;> omega
  · omega

theorem cnt_toLast (t : Tok) (s : St) (a : Elem) : cntS t (toLast s a) ≤ cntS t s + cnt t a := by
  unfold toLast
  rcases h : s.events.getLast? with _ | l
  · simp
  · have h2 : s.events = s.events.dropLast ++ [l] := by
      exact (List.dropLast_append_getLast? l h).symm
    have h3 : cntL t s.events = cntL t s.events.dropLast + cnt t l := by
      conv => lhs; rw [h2]
      simp
    simp [cntS, h3]; omega

theorem cnt_lyricWord (t : Tok) (items : List Item) (r : List Tok × List Item)
    (h : lyricWord items = .ok r) : r.1.count t + cntI t r.2 = cntI t items := by
  induction items generalizing r with
  | nil => simp [lyricWord] at h; subst h; simp
  | cons i is ih =>
    cases i with
    | tok u =>
      simp only [lyricWord] at h
      rcases hg : u.group with _ | g
      · simp [hg] at h
      · simp only [hg] at h
        split at h
        · injection h with h; subst h; simp
        · rcases hl : lyricWord is with e | r'
          · simp [hl, bind, Except.bind] at h
          · simp [hl, bind, Except.bind] at h
            subst h
            have := ih r' hl
            simp [List.count_cons] at this ⊢; omega
    | _ => simp [lyricWord] at h

/-! ## Markup -/

mutual

theorem cnt_readOne (nargs : Counts) (t : Tok) (n : ℕ) (items : List Item) (e : Elem) (items' : List Item)
    (h : readOne nargs n items = some (e, items')) : cnt t e + cntI t items' ≤ cntI t items := by
  match n, items with
  | _, [] => simp [readOne] at h
  | 0, i :: is => simp [readOne] at h
  | n + 1, .tok u :: is =>
    simp only [readOne] at h
    split at h
    · simp at h; obtain ⟨rfl, rfl⟩ := h; simp
    · split at h
      · have := cnt_readArgs nargs t n (nargs u) is
        simp at h; obtain ⟨rfl, rfl⟩ := h
        simp; omega
      · have := cnt_readOne nargs t n is e items' h
        simp; omega
  | n + 1, .elem c x :: is =>
    simp only [readOne] at h
    simp at h; obtain ⟨rfl, rfl⟩ := h; simp
  | n + 1, .flat l :: is =>
    have := cnt_readOne nargs t n is e items' (by simpa only [readOne] using h)
    simp; omega
  | n + 1, .pitch l :: is =>
    have := cnt_readOne nargs t n is e items' (by simpa only [readOne] using h)
    simp; omega
  | n + 1, .modifier l :: is =>
    have := cnt_readOne nargs t n is e items' (by simpa only [readOne] using h)
    simp; omega
  | n + 1, .dur l s :: is =>
    have := cnt_readOne nargs t n is e items' (by simpa only [readOne] using h)
    simp; omega
  | n + 1, .markup l :: is =>
    have := cnt_readOne nargs t n is e items' (by simpa only [readOne] using h)
    simp; omega

theorem cnt_readArgs (nargs : Counts) (t : Tok) (n k : ℕ) (items : List Item) :
    cntL t (readArgs nargs n k items).1 + cntI t (readArgs nargs n k items).2 ≤ cntI t items := by
  match n, k with
  | _, 0 => simp [readArgs]
  | 0, k + 1 => simp [readArgs]
  | n + 1, k + 1 =>
    rw [readArgs]
    rcases h : readOne nargs n items with _ | ⟨a, items'⟩
    · simp
    · have h1 := cnt_readOne nargs t n items a items' h
      have h2 := cnt_readArgs nargs t n (if a.isComment then k + 1 else k) items'
      simp; omega

end

mutual

/-- What `read_markup_arguments` leaves is a suffix of the items. -/
theorem suffix_readOne (nargs : Counts) (n : ℕ) (items : List Item) (e : Elem) (items' : List Item)
    (h : readOne nargs n items = some (e, items')) :
    items' <:+ items ∧ items'.length < items.length := by
  match n, items with
  | _, [] => simp [readOne] at h
  | 0, i :: is => simp [readOne] at h
  | n + 1, .tok u :: is =>
    simp only [readOne] at h
    split at h
    · simp at h; obtain ⟨rfl, rfl⟩ := h; exact ⟨List.suffix_cons _ _, by simp⟩
    · split at h
      · have := suffix_readArgs nargs n (nargs u) is
        simp at h; obtain ⟨rfl, rfl⟩ := h
        exact ⟨this.trans (List.suffix_cons _ _), by have := this.length_le; simp; omega⟩
      · obtain ⟨h1, h2⟩ := suffix_readOne nargs n is e items' h
        exact ⟨h1.trans (List.suffix_cons _ _), by simp; omega⟩
  | n + 1, .elem c x :: is =>
    simp only [readOne] at h
    simp at h; obtain ⟨rfl, rfl⟩ := h; exact ⟨List.suffix_cons _ _, by simp⟩
  | n + 1, .flat l :: is =>
    obtain ⟨h1, h2⟩ := suffix_readOne nargs n is e items' (by simpa only [readOne] using h)
    exact ⟨h1.trans (List.suffix_cons _ _), by simp; omega⟩
  | n + 1, .pitch l :: is =>
    obtain ⟨h1, h2⟩ := suffix_readOne nargs n is e items' (by simpa only [readOne] using h)
    exact ⟨h1.trans (List.suffix_cons _ _), by simp; omega⟩
  | n + 1, .modifier l :: is =>
    obtain ⟨h1, h2⟩ := suffix_readOne nargs n is e items' (by simpa only [readOne] using h)
    exact ⟨h1.trans (List.suffix_cons _ _), by simp; omega⟩
  | n + 1, .dur l s :: is =>
    obtain ⟨h1, h2⟩ := suffix_readOne nargs n is e items' (by simpa only [readOne] using h)
    exact ⟨h1.trans (List.suffix_cons _ _), by simp; omega⟩
  | n + 1, .markup l :: is =>
    obtain ⟨h1, h2⟩ := suffix_readOne nargs n is e items' (by simpa only [readOne] using h)
    exact ⟨h1.trans (List.suffix_cons _ _), by simp; omega⟩

theorem suffix_readArgs (nargs : Counts) (n k : ℕ) (items : List Item) :
    (readArgs nargs n k items).2 <:+ items := by
  match n, k with
  | _, 0 => simp [readArgs]
  | 0, k + 1 => simp [readArgs]
  | n + 1, k + 1 =>
    rw [readArgs]
    rcases h : readOne nargs n items with _ | ⟨a, items'⟩
    · simp
    · exact (suffix_readArgs nargs n _ items').trans (suffix_readOne nargs n items a items' h).1

end

theorem cnt_createMarkup (nargs : Counts) (t : Tok) (m items : List Item) :
    cntL t (createMarkup nargs m items).1.toList + cntI t (createMarkup nargs m items).2
      ≤ cntI t m + cntI t items := by
  unfold createMarkup
  rcases h : readOne nargs (fuel (m.drop 1 ++ items)) (m.drop 1 ++ items) with _ | ⟨a, items'⟩
  · simp
  · have h1 := cnt_readOne nargs t _ _ a items' h
    have h0 := (suffix_readOne nargs _ _ a items' h).1
    have h2 : ((m.take 1).filterMap tokOf).count t
        + cntI t (m.drop 1) ≤ cntI t m := by
      cases m with
      | nil => simp
      | cons x xs => cases x <;> simp [tokOf, List.filterMap]
    simp only [Option.toList_some, cntL_cons, cntL_nil, cnt_mk, List.count_nil]
    simp only [cntI_append] at h1
    split
    · omega
    · rename_i hlen
      have hs : items <:+ items' := by
        obtain ⟨w, hw⟩ := h0
        have := List.suffix_or_suffix_of_suffix (l₁ := items') (l₂ := items) (l₃ := m.drop 1 ++ items)
          ⟨w, hw⟩ (List.suffix_append _ _)
        rcases this with h | h
        · have := h.length_le; omega
        · exact h
      obtain ⟨w, hw⟩ := hs
      rw [← hw, cntI_append] at h1
      omega

theorem length_createMarkup (nargs : Counts) (m items : List Item) :
    (createMarkup nargs m items).2.length ≤ items.length := by
  unfold createMarkup
  split
  · simp
  · simp only; split <;> omega

/-! ## The builder -/

theorem cnt_start (t : Tok) (s : St) (m : Elem) (items : List Item) (r : List Elem × St × List Item)
    (h : start s m items = .ok r) :
    cntL t r.1 + cntS t r.2.1 + cntI t r.2.2 ≤ cntS t s + cnt t m + cntI t items := by
  injection h with h; subst h
  have := cnt_pendingMusic t s
  simp [cntS] at this ⊢; omega

theorem cnt_yields (t : Tok) (s : St) (es : List Elem) (items : List Item) (r : List Elem × St × List Item)
    (h : yields s es items = .ok r) :
    cntL t r.1 + cntS t r.2.1 + cntI t r.2.2 ≤ cntS t s + cntL t es + cntI t items := by
  injection h with h; subst h
  have := cnt_pendingMusic t s
  simp [cntS] at this ⊢; omega

theorem cnt_silent (t : Tok) (s : St) (items : List Item) (r : List Elem × St × List Item)
    (h : silent s items = .ok r) :
    cntL t r.1 + cntS t r.2.1 + cntI t r.2.2 ≤ cntS t s + cntI t items := by
  injection h with h; subst h
  simp [cntS]

theorem cnt_token (t : Tok) (s : St) (u : Tok) (items : List Item) (r : List Elem × St × List Item)
    (h : token s u items = .ok r) :
    cntL t r.1 + cntS t r.2.1 + cntI t r.2.2 ≤ cntS t s + [u].count t + cntI t items := by
  unfold token at h
  have hE : ∀ e : Elem, cntS t { s with events := s.events ++ [e] } = cntS t s + cnt t e := by
    intro e; simp [cntS]; omega
  have hA := cnt_addArticulation t s
  have hM := cnt_addModifier t s
  have hL := cnt_toLast t s
  split at h
  case h_7 =>
    split at h
    · rename_i hm
      have := cnt_silent t _ _ _ h
      simp [cntS, hm] at this ⊢; omega
    · have := cnt_silent t _ _ _ h; omega
  all_goals first
    | (have := cnt_start t _ _ _ _ h; simp at this ⊢; omega)
    | (have := cnt_silent t _ _ _ h; simp [hE] at this ⊢; omega)
    | (have := cnt_yields t _ _ _ _ h; simp at this ⊢; omega)
    | (have h1 := cnt_silent t _ _ _ h; have h2 := hA (make (.made u.kind) u); simp at h1 h2 ⊢; omega)
    | skip
  case h_21 =>
    split at h
    · injection h with h; subst h
      have := cnt_pendingMusic t s
      simp [cntS] at this ⊢; omega
    · rename_i hn
      have hd : s.duration = none := by
        cases hd : s.duration <;> simp [hd] at hn ⊢
      have := cnt_silent t _ _ _ h
      simp [cntS, hd] at this ⊢; omega
  case h_29 =>
    split at h
    · split at h
      · rename_i d items'
        have h1 := cnt_silent t _ _ _ h
        have h2 := hA (.mk (.made .tremolo) [u] [] [make .duration d])
        simp at h1 h2 ⊢; omega
      · cases h
      · cases h
    · have h1 := cnt_silent t _ _ _ h
      have h2 := hA (make (.made .tremolo) u)
      simp at h1 h2 ⊢; omega
  case h_30 =>
    split at h
    · split at h
      · rename_i d items'
        have h1 := cnt_silent t _ _ _ h
        have h2 := hM (.mk (.made .chordMod) [u] [] [make .pitch d])
        simp at h1 h2 ⊢; omega
      · cases h
      · cases h
    · have h1 := cnt_silent t _ _ _ h
      have h2 := hM (make (.made .chordMod) u)
      simp at h1 h2 ⊢; omega
  case h_35 =>
    split at h
    · rcases hl : lyricWord items with e | r'
      · simp [hl, bind, Except.bind] at h
      · simp only [hl, bind, Except.bind] at h
        have h1 := cnt_start t _ _ _ _ h
        have h2 := cnt_lyricWord t _ _ hl
        simp [List.count_cons] at h1 h2 ⊢; omega
    · have := cnt_start t _ _ _ _ h; simp at this ⊢; omega
  all_goals
    split at h
    all_goals first
      | (have := cnt_start t _ _ _ _ h; simp at this ⊢; omega)
      | (have h1 := cnt_silent t _ _ _ h; have h2 := hL (make (.made u.kind) u); simp at h1 h2 ⊢; omega)
      | (have h1 := cnt_silent t _ _ _ h; have h2 := hL (make .symbol u); simp at h1 h2 ⊢; omega)
      | (have h1 := cnt_silent t _ _ _ h; have h2 := hL (make (.made .float) u); simp at h1 h2 ⊢; omega)
      | (have := cnt_silent t _ _ _ h; simp at this ⊢; omega)
      | (have := cnt_yields t _ _ _ _ h; simp at this ⊢; omega)

theorem cnt_extendLast (t : Tok) (ks l ks' : List Elem) (h : extendLast ks l = .ok ks') :
    cntL t ks' = cntL t ks + cntL t l := by
  unfold extendLast at h
  rcases hk : ks.getLast? with _ | k
  · simp [hk] at h
  · simp only [hk] at h
    injection h with h
    subst h
    have h2 : ks = ks.dropLast ++ [k] := (List.dropLast_append_getLast? k hk).symm
    have h3 : cntL t ks = cntL t ks.dropLast + cnt t k := by
      conv => lhs; rw [h2]
      simp
    simp [h3]; omega

theorem cnt_context (nargs : Counts) (t : Tok) (s : St) (i : Item) (items : List Item)
    (r : List Elem × St × List Item) (h : context nargs s i items = .ok r) :
    cntL t r.1 + cntS t r.2.1 + cntI t r.2.2 ≤ cntS t s + cnt1 t i + cntI t items := by
  have hA := cnt_addArticulation t s
  have hL := cnt_toLast t s
  unfold context at h
  split at h
  · have := cnt_silent t _ _ _ h; omega
  · injection h with h; subst h; simp; omega
  · split at h
    · rename_i hm
      have := cnt_silent t _ _ _ h
      simp [cntS, hm] at this ⊢; omega
    · have := cnt_yields t _ _ _ _ h
      simp at this ⊢; omega
  · rename_i l
    split at h
    · cases h
    · rename_i c hd tl ks hm
      rcases hl : extendLast ks l with e | r'
      · simp [hl, bind, Except.bind] at h
      · simp only [hl, bind, Except.bind] at h
        have h1 := cnt_silent t _ _ _ h
        have h2 := cnt_extendLast t _ _ _ hl
        simp [cntS, hm] at h1 h2 ⊢; omega
  · split at h
    · cases h
    · rename_i hd
      have h1 := cnt_silent t _ _ _ h
      simp [cntS, hd] at h1 ⊢; omega
  · rename_i m
    have hc := cnt_createMarkup nargs t m items
    split at h
    · rename_i he
      rw [he] at hc
      have h1 := cnt_silent t _ _ _ h
      simp at h1 hc ⊢; omega
    · rename_i e items' he
      rw [he] at hc
      split at h
      · have h1 := cnt_yields t _ _ _ _ h
        simp at h1 hc ⊢; omega
      · have h1 := cnt_silent t _ _ _ h
        have h2 := hA e
        simp at h1 h2 hc ⊢; omega
  · have := cnt_start t _ _ _ _ h; simp at this ⊢; omega
  · rename_i e
    have h1 := cnt_silent t _ _ _ h
    have h2 := hA e
    simp at h1 h2 ⊢; omega
  · rename_i e
    have h2 := hA e
    have h3 := hL e
    split at h
    · have h1 := cnt_yields t _ _ _ _ h
      simp at h1 ⊢; omega
    · split at h
      · have h1 := cnt_silent t _ _ _ h
        simp at h1 ⊢; omega
      · have h1 := cnt_silent t _ _ _ h
        simp at h1 ⊢; omega
  · rename_i e
    have h2 := hA e
    split at h
    · have h1 := cnt_yields t _ _ _ _ h
      simp at h1 ⊢; omega
    · have h1 := cnt_silent t _ _ _ h
      simp at h1 ⊢; omega
  · rename_i e
    have h3 := hL e
    split at h
    · rename_i hm
      have h1 := cnt_silent t _ _ _ h
      simp [cntS, hm] at h1 ⊢; omega
    · split at h
      · have h1 := cnt_silent t _ _ _ h
        simp at h1 ⊢; omega
      · split at h
        · rename_i ha
          have h1 := cnt_silent t _ _ _ h
          simp [cntS, ha] at h1 ⊢; omega
        · split at h
          · injection h with h; subst h; simp; omega
          · have h1 := cnt_silent t _ _ _ h
            simp [cntS] at h1 ⊢; omega
  · have h1 := cnt_yields t _ _ _ _ h
    simp at h1 ⊢; omega

theorem cnt_step (nargs : Counts) (t : Tok) (s : St) (i : Item) (items : List Item)
    (r : List Elem × St × List Item) (h : step nargs s i items = .ok r) :
    cntL t r.1 + cntS t r.2.1 + cntI t r.2.2 ≤ cntS t s + cnt1 t i + cntI t items := by
  unfold step at h
  split at h
  · have := cnt_token t _ _ _ _ h
    simp at this ⊢; omega
  · exact cnt_context nargs t s _ items r h

theorem cnt_run (nargs : Counts) (t : Tok) (n : ℕ) (s : St) (items : List Item) (out : List Elem)
    (h : run nargs n s items = .ok out) : cntL t out ≤ cntS t s + cntI t items := by
  induction n generalizing s items out with
  | zero =>
    cases items with
    | nil =>
      simp only [run] at h; injection h with h; subst h
      have := cnt_pendingMusic t s; omega
    | cons i is => simp only [run] at h; injection h with h; subst h; simp
  | succ n ih =>
    cases items with
    | nil =>
      simp only [run] at h; injection h with h; subst h
      have := cnt_pendingMusic t s; omega
    | cons i is =>
      simp only [run, bind, Except.bind] at h
      rcases hs : step nargs s i is with e | r
      · simp [hs] at h
      · simp only [hs] at h
        rcases hr : run nargs n r.2.1 r.2.2 with e | o
        · simp [hr] at h
        · simp only [hr] at h
          injection h with h; subst h
          have h1 := cnt_step nargs t s i is r hs
          have h2 := ih r.2.1 r.2.2 o hr
          simp; omega

end Quickly.Read
