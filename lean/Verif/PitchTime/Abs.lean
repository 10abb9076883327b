import Verif.PitchTime.Edits
import Verif.Abs2rel.Props

/-! # What converting to relative music does, in terms of `Edit` -/

namespace Quickly.PitchTime.Spec

mutual
/-- The document without numbers. -/
def plain : Rel2abs.Doc → Rel2abs.Doc
  | .node _ l ks => .node 0 l (plains ks)
/-- The same for a list. -/
def plains : List Rel2abs.Doc → List Rel2abs.Doc
  | [] => []
  | k :: ks => plain k :: plains ks
end

end Quickly.PitchTime.Spec

namespace Quickly.PitchTime

open Spec
open Quickly.Rel2abs (Doc Id)
open Quickly.Rel2abs.Spec (ids idsL)
open Quickly.Abs2rel.Spec

theorem plain_cases {T : Doc} {l : Abs2rel.Lab} {ks : List Abs2rel.Doc} (h : plain T = toDoc (.node l ks)) :
    ∃ i ts, T = .node i (Lab.plain l) ts ∧ plains ts = toDocs ks := by
  cases T with
  | node i m ts =>
    rw [plain, toDoc] at h
    injection h with _ h1 h2
    exact ⟨i, ts, by rw [h1], h2⟩

theorem plains_nil {ts : List Doc} (h : plains ts = []) : ts = [] := by
  cases ts with
  | nil => rfl
  | cons t ts => simp [plains] at h

theorem plains_cons {ts : List Doc} {k : Abs2rel.Doc} {ks : List Abs2rel.Doc} (h : plains ts = toDocs (k :: ks)) :
    ∃ t us, ts = t :: us ∧ plain t = toDoc k ∧ plains us = toDocs ks := by
  cases ts with
  | nil => simp [plains, toDocs] at h
  | cons t us =>
    rw [plains, toDocs] at h
    injection h with h1 h2
    exact ⟨t, us, rfl, h1, h2⟩

mutual
theorem octaves_edit : ∀ (d d' : Abs2rel.Doc) (T : Doc), Octaves d d' → plain T = toDoc d →
    ∃ U, plain U = toDoc d' ∧ Edit [U] [T] ∧ ids U = ids T ∧ U.id = T.id ∧ (d.lab = .list ∨ d.lab = .lab .chordmode → U.lab = T.lab)
  | .node l ks, d', T, ho, hT => by
    have same : d' = .node l ks → ∃ U, plain U = toDoc d' ∧ Edit [U] [T] ∧ ids U = ids T ∧ U.id = T.id ∧
        ((Abs2rel.Doc.node l ks).lab = .list ∨ (Abs2rel.Doc.node l ks).lab = .lab .chordmode → U.lab = T.lab) := by
      rintro rfl
      exact ⟨T, hT, edit_one_refl T, rfl, rfl, fun _ => rfl⟩
    obtain ⟨i, ts, rfl, hts⟩ := plain_cases hT
    have inner : (∀ b n chk, Lab.plain l ≠ .note b n chk) → (∃ ks', d' = .node l ks' ∧ OctavesL ks ks') →
        ∃ U, plain U = toDoc d' ∧ Edit [U] [.node i (Lab.plain l) ts] ∧ ids U = ids (.node i (Lab.plain l) ts) ∧
        U.id = (Rel2abs.Doc.node i (Lab.plain l) ts).id ∧
        ((Abs2rel.Doc.node l ks).lab = .list ∨ (Abs2rel.Doc.node l ks).lab = .lab .chordmode →
          U.lab = (Rel2abs.Doc.node i (Lab.plain l) ts).lab) := by
      rintro hl ⟨ks', rfl, hk⟩
      obtain ⟨us, e1, e2, e3⟩ := octavesL_edit ks ks' ts hk hts
      exact ⟨.node i (Lab.plain l) us, by rw [plain, toDoc, e1], .node _ _ _ _ _ _ hl e2 .nil, by rw [ids, ids, e3], rfl, fun _ => rfl⟩
    match l, ho, same, inner with
    | .list, ho, same, inner => rw [Octaves] at ho <;> first | exact inner (by simp [Lab.plain]) ho | simp
    | .lab .check, ho, same, inner => rw [Octaves] at ho <;> first | exact inner (by simp [Lab.plain]) ho | simp
    | .lab .relative, ho, same, inner => rw [Octaves] at ho <;> first | exact inner (by simp [Lab.plain]) ho | simp
    | .lab .comment, ho, same, inner => rw [Octaves] at ho <;> first | exact inner (by simp [Lab.plain]) ho | simp
    | .lab .chordmode, ho, same, inner => rw [Octaves] at ho <;> first | exact inner (by simp [Lab.plain]) ho | simp
    | .lab .other, ho, same, inner => rw [Octaves] at ho <;> first | exact inner (by simp [Lab.plain]) ho | simp
    | .lab .chord, ho, same, inner => rw [Octaves] at ho; exact same ho
    | .lab (.skip _), ho, same, inner => rw [Octaves] at ho; exact same ho
    | .lab (.language _), ho, same, inner => rw [Octaves] at ho; exact same ho
    | .lab (.note b n chk), ho, same, inner =>
      rw [Octaves] at ho
      obtain ⟨o, rfl⟩ := ho
      refine ⟨.node i (.note b ⟨n.head, o⟩ chk) ts, by rw [plain, toDoc, hts]; rfl, .note _ _ _ _ _ _ _ _ _ _ (edit_refl ts) .nil, by rw [ids, ids], rfl, ?_⟩
      rintro (h | h) <;> cases h
theorem octavesL_edit : ∀ (ks ks' : List Abs2rel.Doc) (ts : List Doc), OctavesL ks ks' → plains ts = toDocs ks →
    ∃ us, plains us = toDocs ks' ∧ Edit us ts ∧ idsL us = idsL ts
  | [], ks', ts, ho, hT => by
    rw [OctavesL] at ho
    subst ho
    have := plains_nil hT
    subst this
    exact ⟨[], rfl, .nil, rfl⟩
  | k :: ks, ks', ts, ho, hT => by
    rw [OctavesL] at ho
    obtain ⟨g, gs, rfl, h1, h2⟩ := ho
    obtain ⟨t, us, rfl, ht, hu⟩ := plains_cons hT
    obtain ⟨U, a1, a2, a3, -⟩ := octaves_edit k g t h1 ht
    obtain ⟨Us, b1, b2, b3⟩ := octavesL_edit ks gs us h2 hu
    exact ⟨U :: Us, by rw [plains, toDocs, a1, b1], edit_append a2 b2, by rw [idsL, idsL, a3, b3]⟩
end

/-- The second document, with the numbers of the first one and new ones from `N` on. -/
def Numbers (d d' : Abs2rel.Doc) : Prop :=
  ∀ (T : Doc) (N : ℕ), plain T = toDoc d → (ids T).Nodup → (∀ i : ℕ, i ∈ ids T → i < N) →
    ∃ U M, plain U = toDoc d' ∧ N ≤ M ∧ Edit [U] [T] ∧ (ids U).Nodup ∧ (∀ i ∈ ids T, i ∈ ids U) ∧ ∀ i : ℕ, i ∈ ids U → i ∈ ids T ∨ (N ≤ i ∧ i < M)

theorem numbers_refl (d : Abs2rel.Doc) : Numbers d d :=
  fun T N h hn _ => ⟨T, N, h, le_refl _, edit_one_refl T, hn, fun _ h => h, fun _ h => .inl h⟩

theorem numbers_wrapped {s : Bool} {d d' : Abs2rel.Doc} (hl : d.lab = .list ∨ d.lab = .lab .chordmode) (h : Wrapped s d d') : Numbers d d' := by
  intro T N hT hn hN
  obtain ⟨start, d1, rfl, ho, h1, h2⟩ := h
  obtain ⟨U, a1, a2, a3, -, a5⟩ := octaves_edit d d1 T ho hT
  have hc : U.lab ≠ .comment := by
    rw [a5 hl]
    cases d with
    | node l ks =>
      obtain ⟨i, ts, rfl, -⟩ := plain_cases hT
      rcases hl with h | h
      · cases h; simp [Lab.plain, Rel2abs.Doc.lab]
      · cases h; simp [Lab.plain, Rel2abs.Doc.lab]
  by_cases hs : s = true ∧ HasNoteL d.kids
  · obtain ⟨nd, rfl⟩ := h1 hs
    refine ⟨.node N .relative ([.node (N + 1) (.note true nd none) []] ++ U :: []), N + 2, ?_, by omega,
      .relative _ _ _ _ _ _ _ hc (by simp) a2 .nil, ?_, ?_, ?_⟩
    · simp only [List.cons_append, List.nil_append, plain, plains, a1, toDoc, toDocs, Lab.plain]
    · simp only [List.cons_append, List.nil_append, ids, idsL, a3, List.append_nil, List.nodup_cons, List.mem_cons]
      refine ⟨?_, fun h => absurd (hN _ h) (by omega), hn⟩
      rintro (h | h)
      · exact absurd h (Nat.ne_of_lt (Nat.lt_succ_self N))
      · exact absurd (hN _ h) (by omega)
    · intro i hi
      simp [ids, idsL, a3, hi]
    · intro i hi
      simp only [List.cons_append, List.nil_append, ids, idsL, a3, List.append_nil, List.mem_cons] at hi
      rcases hi with rfl | rfl | hi
      · exact .inr ⟨le_refl _, by omega⟩
      · exact .inr ⟨by omega, by omega⟩
      · exact .inl hi
  · have := h2 hs
    subst this
    refine ⟨.node N .relative ([] ++ U :: []), N + 1, ?_, by omega, .relative _ _ _ _ _ _ _ hc (by simp) a2 .nil, ?_, ?_, ?_⟩
    · simp only [List.nil_append, plain, plains, a1, toDoc, toDocs, Lab.plain]
    · simp only [List.nil_append, ids, idsL, a3, List.append_nil, List.nodup_cons]
      exact ⟨fun h => absurd (hN _ h) (by omega), hn⟩
    · intro i hi
      simp [ids, idsL, a3, hi]
    · intro i hi
      simp only [List.nil_append, ids, idsL, a3, List.append_nil, List.mem_cons] at hi
      rcases hi with rfl | hi
      · exact .inr ⟨le_refl _, by omega⟩
      · exact .inl hi

theorem numbersL : ∀ (ks ks' : List Abs2rel.Doc), ks'.length = ks.length →
    (∀ (i : ℕ) (h : i < ks.length) (h' : i < ks'.length), Numbers ks[i] ks'[i]) →
    ∀ (ts : List Doc) (N : ℕ), plains ts = toDocs ks → (idsL ts).Nodup → (∀ i : ℕ, i ∈ idsL ts → i < N) →
    ∃ us M, plains us = toDocs ks' ∧ N ≤ M ∧ Edit us ts ∧ (idsL us).Nodup ∧ (∀ i ∈ idsL ts, i ∈ idsL us) ∧
      ∀ i : ℕ, i ∈ idsL us → i ∈ idsL ts ∨ (N ≤ i ∧ i < M)
  | [], [], _, _, ts, N, hT, _, _ => by
    have := plains_nil hT
    subst this
    exact ⟨[], N, rfl, le_refl _, .nil, by simp [idsL], by simp, by simp [idsL]⟩
  | [], _ :: _, h, _, _, _, _, _, _ => by simp at h
  | _ :: _, [], h, _, _, _, _, _, _ => by simp at h
  | k :: ks, g :: gs, hlen, h, ts, N, hT, hn, hN => by
    obtain ⟨t, us, rfl, ht, hu⟩ := plains_cons hT
    rw [idsL, List.nodup_append] at hn
    have hN' : ∀ i : ℕ, i ∈ ids t ∨ i ∈ idsL us → i < N := fun i hi => hN i (by rw [idsL, List.mem_append]; exact hi)
    obtain ⟨U, M, a1, a2, a3, a4, a5, a6⟩ := h 0 (by simp) (by simp) t N ht hn.1 fun i hi => hN' i (.inl hi)
    obtain ⟨Us, M', b1, b2, b3, b4, b5, b6⟩ := numbersL ks gs (by simpa using hlen)
      (fun i hi hi' => h (i + 1) (by simpa using hi) (by simpa using hi')) us M hu hn.2.1
      fun i hi => lt_of_lt_of_le (hN' i (.inr hi)) a2
    refine ⟨U :: Us, M', by rw [plains, toDocs, a1, b1]; rfl, a2.trans b2, edit_append a3 b3, ?_, ?_, ?_⟩
    · rw [idsL, List.nodup_append]
      refine ⟨a4, b4, fun i hi j hj e => ?_⟩
      subst e
      rcases a6 i hi with h1 | ⟨h1, h2⟩
      · rcases b6 i hj with h3 | ⟨h3, h4⟩
        · exact hn.2.2 i h1 i h3 rfl
        · have := hN' i (.inl h1); omega
      · rcases b6 i hj with h3 | ⟨h3, h4⟩
        · have := hN' i (.inr h3); omega
        · omega
    · intro i hi
      rw [idsL, List.mem_append] at hi ⊢
      exact hi.imp (a5 i) (b5 i)
    · intro i hi
      rw [idsL, List.mem_append] at hi ⊢
      rcases hi with hi | hi
      · rcases a6 i hi with h1 | ⟨h1, h2⟩
        · exact .inl (.inl h1)
        · exact .inr ⟨h1, lt_of_lt_of_le h2 b2⟩
      · rcases b6 i hi with h1 | ⟨h1, h2⟩
        · exact .inl (.inr h1)
        · exact .inr ⟨a2.trans h1, h2⟩

theorem edited_numbers {s : Bool} {st : Node.Path} {en : Option Node.Path} {p : Node.Path} {d d' : Abs2rel.Doc} (h : Edited s st en p d d') :
    Numbers d d' := by
  induction h with
  | outside _ => exact numbers_refl _
  | relative _ => exact numbers_refl _
  | tune _ ht _ hw => exact numbers_wrapped (.inl ht.1) hw
  | chordmode _ hl hw => exact numbers_wrapped (.inr hl) hw
  | @inside p l ks ks' _ hr _ _ hlen _ ih =>
    intro T N hT hn hN
    obtain ⟨i, ts, rfl, hts⟩ := plain_cases hT
    rw [ids, List.nodup_cons] at hn
    have hN' : ∀ j : ℕ, j ∈ idsL ts → j < N := fun j hj => hN j (by rw [ids]; exact List.mem_cons_of_mem _ hj)
    have hi : @LT.lt ℕ _ i N := hN i (by rw [ids]; exact List.mem_cons_self)
    obtain ⟨us, M, b1, b2, b3, b4, b5, b6⟩ := numbersL ks ks' hlen ih ts N hts hn.2 hN'
    refine ⟨.node i (Lab.plain l) us, M, by rw [plain, toDoc, b1], b2, ?_, ?_, ?_, ?_⟩
    · generalize Lab.plain l = m
      cases m with
      | note b n chk => exact .note _ _ _ _ _ _ _ _ _ _ b3 .nil
      | _ => exact .node _ _ _ _ _ _ (by simp) b3 .nil
    · rw [ids, List.nodup_cons]
      refine ⟨fun h => ?_, b4⟩
      rcases b6 i h with h | h
      · exact hn.1 h
      · exact absurd hi (Nat.not_lt.2 h.1)
    · intro j hj
      rw [ids, List.mem_cons] at hj ⊢
      exact hj.imp id (b5 j)
    · intro j hj
      rw [ids, List.mem_cons] at hj ⊢
      rcases hj with rfl | hj
      · exact .inl (.inl rfl)
      · exact (b6 j hj).imp (.inr ·) id

end Quickly.PitchTime
