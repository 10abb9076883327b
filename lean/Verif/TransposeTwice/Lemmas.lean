import Verif.TransposeTwice.Spec
import Verif.TransposeBack.Walk

/-! # What the three transpositions do with one note -/

namespace Quickly.TransposeTwice

open Quickly.Pitch Quickly.Relative Quickly.TransposeDoc Quickly.TransposeDoc.Spec Spec
open Quickly.Rel2abs (Doc Lab Id)
open Quickly.Pitch.Spec (IsDict Means)
open Quickly.Relative.Spec (OneOctave)
open Quickly.TransposeBack (readNode_head eq_down)

/-! ## Names -/

theorem nearest_same (o : ℤ) : ∀ (d : OctaveDict) (t : ℤ), (∀ x ∈ d, x.1 = o) → nearest t d = d.head?
  | [], _, _ => rfl
  | x :: d, t, h => by
    rw [nearest, nearest_same o d t fun y hy => h y (List.mem_cons_of_mem _ hy)]
    cases d with
    | nil => rfl
    | cons y d =>
      simp only [List.head?_cons]
      rw [h x (by simp), h y (by simp), if_neg (lt_irrefl _)]

/-- The name does not depend on the octave. -/
theorem name_shift (pp : Processor) (h1 : OneOctave pp.table) (q q' : Pitch) (hn : q'.note = q.note) (ha : q'.alter = q.alter) (s : Str) (o : ℤ)
    (h : pp.nameOctave q = .ok (s, o)) : pp.nameOctave q' = .ok (s, o + (q'.octave - q.octave)) := by
  obtain ⟨d0, h1⟩ := h1
  unfold Processor.nameOctave at h ⊢
  rw [hn, ha]
  split at h
  · cases h
  · rename_i d hd
    have good := reverse_good _ _ _ hd
    have hsame : ∀ x ∈ d, x.1 = d0 := by
      rintro ⟨x, ns⟩ hx
      have hne := good.2 _ hx
      obtain ⟨m, hm⟩ := List.exists_mem_of_ne_nil _ hne
      have := (reverse_has pp.table (q.note, q.alter) x m).1 ⟨d, hd, ns, hx, hm⟩
      exact h1 _ this
    rw [nearest_same d0 d _ hsame] at h
    rw [nearest_same d0 d _ hsame]
    split at h
    · cases h
    · rename_i x ns hx
      split at h
      · rename_i nm hc
        cases h
        congr 2
        ring
      · cases h

/-- Writing one pitch and then another is writing the other one. -/
theorem write_twice (pp : Processor) (hd : IsDict pp.table) (h1 : OneOctave pp.table) (nd nd1 nd2 : PNode) (p q1 q2 : Pitch) (hr : pp.readNode nd = .ok p)
    (hp : pp.pitchable p = .ok nd) (hw1 : pp.writeNode nd q1 = .ok nd1) (hw2 : pp.writeNode nd1 q2 = .ok nd2) : pp.writeNode nd q2 = .ok nd2 := by
  have g0 := readNode_head _ _ _ hr
  have g1 := readNode_head _ _ _ (C16_write_read pp hd _ _ _ hw1)
  have hname : pp.nameOctave p = .ok (nd.head, nd.octave) := by
    unfold Processor.pitchable at hp
    split at hp
    · rename_i e; cases hp; exact e
    · cases hp
  have hkeep : ∀ q, p.note = q.note ∧ p.alter = q.alter → pp.writeNode nd q = .ok ⟨nd.head, q.octave - (p.octave - nd.octave)⟩ := by
    intro q hq
    unfold Processor.writeNode
    rw [g0]
    simp only
    rw [if_pos hq]
  have hother : ∀ q, ¬ (p.note = q.note ∧ p.alter = q.alter) → ∀ s o, pp.nameOctave q = .ok (s, o) → pp.writeNode nd q = .ok ⟨s, o⟩ := by
    intro q hq s o e
    unfold Processor.writeNode
    rw [g0]
    simp only
    rw [if_neg hq, e]
  unfold Processor.writeNode at hw2
  rw [g1] at hw2
  simp only at hw2
  by_cases h12 : q1.note = q2.note ∧ q1.alter = q2.alter
  · rw [if_pos h12] at hw2
    cases hw2
    by_cases h02 : p.note = q2.note ∧ p.alter = q2.alter
    · have h01 : p.note = q1.note ∧ p.alter = q1.alter := ⟨h02.1.trans h12.1.symm, h02.2.trans h12.2.symm⟩
      rw [hkeep q1 h01] at hw1
      cases hw1
      rw [hkeep q2 h02]
      congr 2
      ring
    · have h01 : ¬ (p.note = q1.note ∧ p.alter = q1.alter) := fun e => h02 ⟨e.1.trans h12.1, e.2.trans h12.2⟩
      unfold Processor.writeNode at hw1
      rw [g0] at hw1
      simp only at hw1
      rw [if_neg h01] at hw1
      split at hw1
      · rename_i s o e
        cases hw1
        rw [hother q2 h02 _ _ (name_shift pp h1 q1 q2 h12.1.symm h12.2.symm _ _ e)]
        congr 2
        ring
      · cases hw1
  · rw [if_neg h12] at hw2
    split at hw2
    · rename_i s o e
      cases hw2
      by_cases h02 : p.note = q2.note ∧ p.alter = q2.alter
      · have := name_shift pp h1 p q2 h02.1.symm h02.2.symm _ _ hname
        rw [e] at this
        cases this
        rw [hkeep q2 h02]
        congr 2
        ring
      · exact hother q2 h02 _ _ e
    · cases hw2

/-! ## The loops -/

/-- The contexts of two transpositions and of the one that does both. -/
structure Trip (c c2 c3 : Ctx) : Prop where
  good : Good c
  good2 : Good c2
  good3 : Good c3
  pp2 : c2.pp = c.pp
  pp3 : c3.pp = c.pp
  toct : c3.toct = c.toct + c2.toct
  fa2 : c2.firstAbs = c.firstAbs
  fa3 : c3.firstAbs = c.firstAbs

/-- The second loop begins with what the first one writes; the third has the pitches of the first one and writes those of the second; all of them may be
off by octaves. -/
def TriLast (l l2 l3 : Last) : Prop := ∃ k j, l2.pitch = down k l.prev ∧ l3.pitch = down j l.pitch ∧ l3.prev = down (j - k) l2.prev

/-- The loops belong together. -/
def Tri : Sink → Sink → Sink → Prop
  | .pitches o, .pitches o2, .pitches o3 => o3 = o + o2
  | .key, .key, .key => True
  | .relative l, .relative l2, .relative l3 => TriLast l l2 l3
  | .chord t f, .chord t2 f2, .chord t3 f3 => TriLast t t2 t3 ∧ match f, f2, f3 with
    | none, none, none => True
    | some l, some l2, some l3 => TriLast l l2 l3
    | _, _, _ => False
  | .check l, .check l2, .check l3 => TriLast l l2 l3
  | _, _, _ => False

/-- A note as it should be, if it is selected. -/
def Ret (c c2 c3 : Ctx) (n : Note) : Prop := n.writable = true → Follows c.pp c.tr c2.tr c3.tr n.lang n.node n.check

theorem process_twice {c c2 c3 : Ctx} (P : Trip c c2 c3) (n : Note) (nd nd2 : PNode) (f f2 f3 : Pitch → Pitch)
    (hr : Ret c c2 c3 n) (hf : ∀ p, c3.tr p = c2.tr (c.tr p) → f3 p = f2 (f p))
    (h : (c.pp n.lang).process n.node n.writable f = .ok nd) (h2 : (c2.pp n.lang).process nd n.writable f2 = .ok nd2) :
    (c3.pp n.lang).process n.node n.writable f3 = .ok nd2 := by
  rw [P.pp2] at h2
  rw [P.pp3]
  unfold Processor.process at h h2 ⊢
  split at h
  · cases h
  · rename_i p hp
    cases hw : n.writable with
    | false =>
      rw [hw] at h h2
      simp only [Bool.false_eq_true, if_false, Except.ok.injEq] at h
      subst h
      rw [hp] at h2
      simpa [hp] using h2
    | true =>
      rw [hw] at h h2
      simp only [if_true] at h h2
      obtain ⟨-, p0, a1, a2, a3⟩ := hr hw
      rw [hp] at a1
      cases a1
      rw [C16_write_read _ (P.good.dict _) _ _ _ h] at h2
      simp only at h2
      simp only [if_true]
      rw [hf p a3]
      exact write_twice _ (P.good.dict _) (P.good.one _) _ _ _ _ _ _ hp a2 h h2

theorem abs_twice {c c2 c3 : Ctx} (P : Trip c c2 c3) (n n1 n2 : Note) (o o2 : ℤ) (hr : Ret c c2 c3 n) (h : transposeAbs c o n = .ok n1)
    (h2 : transposeAbs c2 o2 n1 = .ok n2) : transposeAbs c3 (o + o2) n = .ok n2 := by
  unfold transposeAbs at h h2
  split at h
  · rename_i nd e
    cases h
    simp only at h2
    split at h2
    · rename_i nd2 e2
      cases h2
      have := process_twice P n nd nd2 _ _ (fun p => down (o + o2) (c3.tr p)) hr (fun p hp => by
        rw [P.good2.shift, hp, down_down]
        congr 1
        ring) e e2
      unfold transposeAbs
      simp only [this]
    · cases h2
  · cases h

theorem key_twice {c c2 c3 : Ctx} (P : Trip c c2 c3) (n n1 n2 : Note) (hr : Ret c c2 c3 n) (h : transposeKey c n = .ok n1)
    (h2 : transposeKey c2 n1 = .ok n2) : transposeKey c3 n = .ok n2 := by
  unfold transposeKey at h h2
  split at h
  · rename_i nd e
    cases h
    simp only at h2
    split at h2
    · rename_i nd2 e2
      cases h2
      have := process_twice P n nd nd2 _ _ (fun p => { c3.tr p with octave := p.octave }) hr (fun p hp => by
        simp only
        have := eq_down ⟨p.octave, (c.tr p).note, (c.tr p).alter⟩ (c.tr p) rfl rfl
        rw [this, P.good2.shift, hp]
        rfl) e e2
      unfold transposeKey
      simp only [this]
    · cases h2
  · cases h

theorem check_twice {c c2 c3 : Ctx} (P : Trip c c2 c3) (n n1 n2 : Note) (l l2 : Last) (hr : Ret c c2 c3 n) (h : transposeCheck c n = .ok (l, n1))
    (h2 : transposeCheck c2 n1 = .ok (l2, n2)) : ∃ l3, transposeCheck c3 n = .ok (l3, n2) ∧ TriLast l l2 l3 := by
  unfold transposeCheck at h
  split at h
  · cases h
  · rename_i p hp
    split at h
    · rename_i hw
      obtain ⟨-, p0, a1, a2, a3⟩ := hr hw
      rw [hp] at a1
      cases a1
      split at h
      · cases h
      · rename_i nd e
        cases h
        unfold transposeCheck at h2
        simp only [P.pp2] at h2
        rw [C16_write_read _ (P.good.dict _) _ _ _ e] at h2
        simp only [hw, if_true] at h2
        split at h2
        · cases h2
        · rename_i nd2 e2
          cases h2
          refine ⟨⟨p, some (c3.tr p)⟩, ?_, 0, 0, by simp [down_zero, Last.prev], by simp [down_zero], by simp [down_zero, Last.prev, a3]⟩
          unfold transposeCheck
          simp only [P.pp3, hp, hw, if_true]
          rw [a3, write_twice _ (P.good.dict _) (P.good.one _) _ _ _ _ _ _ hp a2 e e2]
    · rename_i hw
      cases h
      unfold transposeCheck at h2
      simp only [P.pp2, hp, hw] at h2
      simp only [Bool.false_eq_true, if_false] at h2
      cases h2
      refine ⟨⟨p, none⟩, ?_, 0, 0, by simp [down_zero, Last.prev], by simp [down_zero], by simp [down_zero, Last.prev]⟩
      unfold transposeCheck
      simp only [P.pp3, hp, hw]
      simp

theorem start_twice {c c2 c3 : Ctx} (P : Trip c c2 c3) (n n1 n2 : Note) (l l2 : Last) (hr : Ret c c2 c3 n) (h : transposeStart c n = .ok (l, n1))
    (h2 : transposeStart c2 n1 = .ok (l2, n2)) : ∃ l3, transposeStart c3 n = .ok (l3, n2) ∧ TriLast l l2 l3 := by
  unfold transposeStart at h
  split at h
  · cases h
  · rename_i p hp
    split at h
    · rename_i hw
      obtain ⟨-, p0, a1, a2, a3⟩ := hr hw
      rw [hp] at a1
      cases a1
      split at h
      · cases h
      · rename_i nd e
        cases h
        unfold transposeStart at h2
        simp only [P.pp2] at h2
        rw [C16_write_read _ (P.good.dict _) _ _ _ e] at h2
        simp only [hw, if_true] at h2
        split at h2
        · cases h2
        · rename_i nd2 e2
          cases h2
          refine ⟨⟨down c3.toct p, some (down c3.toct (c3.tr p))⟩, ?_, c2.toct - c.toct, c2.toct, ?_, ?_, ?_⟩
          · unfold transposeStart
            simp only [P.pp3, hp, hw, if_true]
            rw [a3, write_twice _ (P.good.dict _) (P.good.one _) _ _ _ _ _ _ hp a2 e e2]
          · simp only [Last.prev, down_down]; congr 1; ring
          · simp only [down_down, P.toct]; congr 1; ring
          · simp only [Last.prev, down_down, P.toct, a3]; congr 1; ring
    · rename_i hw
      cases h
      unfold transposeStart at h2
      simp only [P.pp2, hp, hw] at h2
      simp only [Bool.false_eq_true, if_false] at h2
      cases h2
      refine ⟨⟨p, none⟩, ?_, 0, 0, by simp [down_zero, Last.prev], by simp [down_zero], by simp [down_zero, Last.prev]⟩
      unfold transposeStart
      simp only [P.pp3, hp, hw]
      simp

theorem note_twice {c c2 c3 : Ctx} (P : Trip c c2 c3) (n n1 n2 : Note) (l l2 l3 l' l2' : Last) (hr : Ret c c2 c3 n) (hl : TriLast l l2 l3)
    (h : transposeNote c n l = .ok (l', n1)) (h2 : transposeNote c2 n1 l2 = .ok (l2', n2)) :
    ∃ l3', transposeNote c3 n l3 = .ok (l3', n2) ∧ TriLast l' l2' l3' := by
  obtain ⟨k, j, hl1, hl2, hl3⟩ := hl
  unfold transposeNote at h
  split at h
  · cases h
  · rename_i p hp
    simp only at h
    split at h
    · rename_i hw
      cases h
      unfold transposeNote at h2
      simp only [P.pp2, hp, hw, if_true] at h2
      cases h2
      refine ⟨⟨p.makeAbsolute l3.pitch (p.octave - n.node.octave) 7, none⟩, ?_, ?_⟩
      · unfold transposeNote
        simp only [P.pp3, hp, hw, if_true]
      · refine ⟨(p.makeAbsolute l.pitch (p.octave - n.node.octave) 7).octave - (p.makeAbsolute l2.pitch (p.octave - n.node.octave) 7).octave,
          (p.makeAbsolute l.pitch (p.octave - n.node.octave) 7).octave - (p.makeAbsolute l3.pitch (p.octave - n.node.octave) 7).octave,
          eq_down _ _ rfl rfl, eq_down _ _ rfl rfl, ?_⟩
        simp only [Last.prev]
        rw [eq_down (p.makeAbsolute l3.pitch (p.octave - n.node.octave) 7) (p.makeAbsolute l2.pitch (p.octave - n.node.octave) 7) rfl rfl]
        congr 1
        simp only [down]
        ring
    · rename_i hw
      simp only [Bool.not_eq_true, Bool.not_eq_false'] at hw
      obtain ⟨hc, p0, a1, a2, a3⟩ := hr hw
      rw [hp] at a1
      cases a1
      split at h
      · cases h
      · rename_i nd e
        cases h
        have hw2 := C16_write_read _ (P.good.dict _) _ _ _ e
        obtain ⟨d, hdd⟩ := P.good.one n.lang
        have o1 : p.octave - n.node.octave = d := hdd _ ((readNode_iff _ (P.good.dict _) _ _).1 hp)
        have o2 := hdd _ ((readNode_iff _ (P.good.dict _) _ _).1 hw2)
        simp only at o2
        rw [o1] at e hw2 o2
        have ea : p.makeAbsolute l.pitch d 7 = down (p.octave - (p.makeAbsolute l.pitch d 7).octave) p := eq_down _ _ rfl rfl
        have et : c3.tr (p.makeAbsolute l.pitch d 7) = c2.tr (c.tr (p.makeAbsolute l.pitch d 7)) := by
          rw [ea, P.good3.shift, P.good.shift, P.good2.shift, a3]
        -- what the second one reads, and what the third one reads and writes
        have e1 : ((c.tr (p.makeAbsolute l.pitch d 7)).makeRelative l.prev d 7).makeAbsolute l2.pitch d 7 = down k (c.tr (p.makeAbsolute l.pitch d 7)) := by
          rw [hl1]
          simp only [Pitch.makeAbsolute, Pitch.makeRelative, down, Pitch.mk.injEq, and_true]
          ring
        have e3 : p.makeAbsolute l3.pitch d 7 = down j (p.makeAbsolute l.pitch d 7) := by
          rw [hl2]
          simp only [Pitch.makeAbsolute, down, Pitch.mk.injEq, and_true]
          ring
        unfold transposeNote at h2
        simp only [P.pp2, o1] at h2
        rw [hw2] at h2
        simp only [hw, o2, e1, hc, Bool.not_true, Bool.false_eq_true, if_false] at h2
        rw [P.good2.shift] at h2
        split at h2
        · cases h2
        · rename_i nd2 e2
          cases h2
          have e4 : (down j (c2.tr (c.tr (p.makeAbsolute l.pitch d 7)))).makeRelative l3.prev d 7 =
              (down k (c2.tr (c.tr (p.makeAbsolute l.pitch d 7)))).makeRelative l2.prev d 7 := by
            rw [hl3]
            simp only [Pitch.makeRelative, down, Pitch.mk.injEq, and_true]
            ring
          have hwt := write_twice _ (P.good.dict _) (P.good.one _) _ _ _ _ _ _ hp a2 e e2
          refine ⟨⟨down j (p.makeAbsolute l.pitch d 7), some (down j (c2.tr (c.tr (p.makeAbsolute l.pitch d 7))))⟩, ?_, k, j, ?_, ?_, ?_⟩
          · unfold transposeNote
            simp only [P.pp3]
            rw [hp]
            simp only [hw, o1, e3, P.good3.shift, et, e4, hwt, hc, Bool.not_true, Bool.false_eq_true, if_false]
          · simp only [Last.prev, o1]
          · simp only [o1]
          · simp only [Last.prev, down_down]
            congr 1
            ring

theorem consume_twice {c c2 c3 : Ctx} (P : Trip c c2 c3) (n n1 n2 : Note) (s s' s2 s2' s3 : Sink) (hr : Ret c c2 c3 n) (hs : Tri s s2 s3)
    (h : consume c n s = .ok (s', n1)) (h2 : consume c2 n1 s2 = .ok (s2', n2)) : ∃ s3', consume c3 n s3 = .ok (s3', n2) ∧ Tri s' s2' s3' := by
  cases s with
  | pitches o =>
    cases s2 <;> cases s3 <;> simp only [Tri] at hs
    subst hs
    simp only [consume] at h h2
    split at h
    · cases h
    · rename_i e
      cases h
      split at h2
      · cases h2
      · rename_i e2
        cases h2
        exact ⟨.pitches _, by rw [consume, abs_twice P n _ _ _ _ hr e e2], rfl⟩
  | key =>
    cases s2 <;> cases s3 <;> simp only [Tri] at hs
    simp only [consume] at h h2
    split at h
    · cases h
    · rename_i e
      cases h
      split at h2
      · cases h2
      · rename_i e2
        cases h2
        exact ⟨.key, by rw [consume, key_twice P n _ _ hr e e2], trivial⟩
  | relative l =>
    cases s2 <;> cases s3 <;> simp only [Tri] at hs
    simp only [consume] at h h2
    split at h
    · cases h
    · rename_i e
      cases h
      split at h2
      · cases h2
      · rename_i e2
        cases h2
        obtain ⟨l3', a, b⟩ := note_twice P n _ _ _ _ _ _ _ hr hs e e2
        exact ⟨.relative l3', by rw [consume, a], b⟩
  | chord t f =>
    cases s2 with
    | chord t2 f2 =>
      cases s3 with
      | chord t3 f3 =>
        simp only [Tri] at hs
        simp only [consume] at h h2
        split at h
        · cases h
        · rename_i e
          cases h
          split at h2
          · cases h2
          · rename_i e2
            cases h2
            obtain ⟨l3', a, b⟩ := note_twice P n _ _ _ _ _ _ _ hr hs.1 e e2
            refine ⟨.chord l3' (some (f3.getD l3')), by rw [consume, a], b, ?_⟩
            cases f <;> cases f2 <;> cases f3 <;> simp only at hs ⊢ <;> first | exact b | exact hs.2 | exact hs.2.elim
      | _ => simp only [Tri] at hs
    | _ => simp only [Tri] at hs
  | check l =>
    cases s2 <;> cases s3 <;> simp only [Tri] at hs
    simp only [consume] at h h2
    split at h
    · cases h
    · rename_i e
      cases h
      split at h2
      · cases h2
      · rename_i e2
        cases h2
        obtain ⟨l3', a, b⟩ := check_twice P n _ _ _ _ hr e e2
        exact ⟨.check l3', by rw [consume, a], b⟩

end Quickly.TransposeTwice
