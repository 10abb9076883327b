import Verif.TransposeBack.Spec
import Verif.TransposeDoc.Frame
import Verif.TransposeDoc.Sim

/-! # The second transposition does what the first one did, the other way round -/

namespace Quickly.TransposeBack

open Quickly.Pitch Quickly.Relative Quickly.TransposeDoc Quickly.TransposeDoc.Spec Spec
open Quickly.Rel2abs (Doc Lab Id)
open Quickly.Pitch.Spec (IsDict)

/-! ## Names -/

theorem readNode_head (pp : Processor) (nd : PNode) (p : Pitch) (h : pp.readNode nd = .ok p) :
    pp.pitch nd.head = .ok ⟨p.octave - nd.octave, p.note, p.alter⟩ := by
  unfold Processor.readNode at h
  split at h
  · rename_i q hq
    cases h
    rw [hq]
    simp
  · cases h

theorem write_back (pp : Processor) (hd : IsDict pp.table) (nd nd' : PNode) (p q : Pitch) (hr : pp.readNode nd = .ok p) (hp : pp.pitchable p = .ok nd)
    (hw : pp.writeNode nd q = .ok nd') : pp.writeNode nd' p = .ok nd := by
  have hq := readNode_head _ _ _ (C16_write_read pp hd _ _ _ hw)
  have h0 := readNode_head _ _ _ hr
  unfold Processor.writeNode at hw ⊢
  simp only [h0] at hw
  simp only [hq]
  by_cases hk : p.note = q.note ∧ p.alter = q.alter
  · rw [if_pos hk] at hw
    cases hw
    rw [if_pos ⟨hk.1.symm, hk.2.symm⟩]
    simp
  · rw [if_neg hk] at hw
    rw [if_neg (fun e => hk ⟨e.1.symm, e.2.symm⟩)]
    unfold Processor.pitchable at hp
    split at hp
    · rename_i e
      cases hp
      simp only [e]
    · cases hp

/-! ## The loops -/

/-- The contexts of a transposition and of the one that undoes it. -/
structure Pair (c c2 : Ctx) : Prop where
  good : Good c
  good2 : Good c2
  pp : c2.pp = c.pp
  toct : c2.toct = -c.toct
  fa : c2.firstAbs = c.firstAbs

/-- The second loop has the pitches of the first one the other way round, all of them off by the same octaves. -/
def RevLast (l l2 : Last) : Prop := ∃ k, l2.pitch = down k l.prev ∧ l2.prev = down k l.pitch

/-- The loops belong together. -/
def Rev : Sink → Sink → Prop
  | .pitches o, .pitches o2 => o2 = -o
  | .key, .key => True
  | .relative l, .relative l2 => RevLast l l2
  | .chord t f, .chord t2 f2 => RevLast t t2 ∧ match f, f2 with
    | none, none => True
    | some l, some l2 => RevLast l l2
    | _, _ => False
  | .check l, .check l2 => RevLast l l2
  | _, _ => False

/-- A note as it should be, if it is selected. -/
def Ret (c c2 : Ctx) (n : Note) : Prop := n.writable = true → Returns c.pp c.tr c2.tr n.lang n.node n.check

theorem eq_down (p q : Pitch) (hn : p.note = q.note) (ha : p.alter = q.alter) : p = down (q.octave - p.octave) q := by
  obtain ⟨a, b, d⟩ := p
  obtain ⟨x, y, z⟩ := q
  simp only at hn ha
  subst hn ha
  simp [down]

theorem tr_back {c c2 : Ctx} (P : Pair c c2) {p : Pitch} (h : c2.tr (c.tr p) = p) (k j : ℤ) : c2.tr (down k (c.tr (down j p))) = down k (down j p) := by
  rw [P.good.shift, P.good2.shift, P.good2.shift, h]

theorem process_back {c c2 : Ctx} (P : Pair c c2) (n : Note) (nd : PNode) (f f2 : Pitch → Pitch)
    (hr : Ret c c2 n) (hf : ∀ p, c2.tr (c.tr p) = p → f2 (f p) = p)
    (h : (c.pp n.lang).process n.node n.writable f = .ok nd) : (c2.pp n.lang).process nd n.writable f2 = .ok n.node := by
  rw [P.pp]
  unfold Processor.process at h ⊢
  split at h
  · cases h
  · rename_i p hp
    cases hw : n.writable with
    | false =>
      rw [hw] at h
      simp only [Bool.false_eq_true, if_false, Except.ok.injEq] at h
      subst h
      rw [hp]
      simp
    | true =>
      rw [hw] at h
      simp only [if_true] at h
      obtain ⟨-, p0, h1, h2, h3⟩ := hr hw
      rw [hp] at h1
      cases h1
      rw [C16_write_read _ (P.good.dict _) _ _ _ h]
      simp only [if_true]
      rw [hf p h3]
      exact write_back _ (P.good.dict _) _ _ _ _ hp h2 h

theorem abs_back {c c2 : Ctx} (P : Pair c c2) (n n' : Note) (o : ℤ) (hr : Ret c c2 n) (h : transposeAbs c o n = .ok n') : transposeAbs c2 (-o) n' = .ok n := by
  unfold transposeAbs at h
  split at h
  · rename_i nd e
    cases h
    have := process_back P n nd _ (fun p => down (-o) (c2.tr p)) hr (fun p hp => by
      rw [P.good2.shift, hp, down_down]
      simp [down]) e
    unfold transposeAbs
    simp only [this]
  · cases h

theorem key_back {c c2 : Ctx} (P : Pair c c2) (n n' : Note) (hr : Ret c c2 n) (h : transposeKey c n = .ok n') : transposeKey c2 n' = .ok n := by
  unfold transposeKey at h
  split at h
  · rename_i nd e
    cases h
    have := process_back P n nd _ (fun p => { c2.tr p with octave := p.octave }) hr (fun p hp => by
      simp only
      have := eq_down ⟨p.octave, (c.tr p).note, (c.tr p).alter⟩ (c.tr p) rfl rfl
      have e2 : c2.tr ⟨p.octave, (c.tr p).note, (c.tr p).alter⟩ = down ((c.tr p).octave - p.octave) p := by rw [this, P.good2.shift, hp]
      rw [e2]
      rfl) e
    unfold transposeKey
    simp only [this]
  · cases h

theorem check_back {c c2 : Ctx} (P : Pair c c2) (n n' : Note) (l : Last) (hr : Ret c c2 n) (h : transposeCheck c n = .ok (l, n')) :
    ∃ l2, transposeCheck c2 n' = .ok (l2, n) ∧ RevLast l l2 := by
  unfold transposeCheck at h
  split at h
  · cases h
  · rename_i p hp
    split at h
    · rename_i hw
      obtain ⟨-, p0, h1, h2, h3⟩ := hr hw
      rw [hp] at h1
      cases h1
      split at h
      · cases h
      · rename_i nd e
        cases h
        refine ⟨⟨c.tr p, some p⟩, ?_, 0, by simp [down_zero, Last.prev], by simp [down_zero, Last.prev]⟩
        unfold transposeCheck
        simp only [P.pp]
        rw [C16_write_read _ (P.good.dict _) _ _ _ e]
        simp only [hw, if_true, h3]
        rw [write_back _ (P.good.dict _) _ _ _ _ hp h2 e]
        simp only [← hw]
    · rename_i hw
      cases h
      refine ⟨⟨p, none⟩, ?_, 0, by simp [down_zero, Last.prev], by simp [down_zero, Last.prev]⟩
      unfold transposeCheck
      simp only [P.pp, hp, hw]
      simp

theorem start_back {c c2 : Ctx} (P : Pair c c2) (n n' : Note) (l : Last) (hr : Ret c c2 n) (h : transposeStart c n = .ok (l, n')) :
    ∃ l2, transposeStart c2 n' = .ok (l2, n) ∧ RevLast l l2 := by
  unfold transposeStart at h
  split at h
  · cases h
  · rename_i p hp
    split at h
    · rename_i hw
      obtain ⟨-, p0, h1, h2, h3⟩ := hr hw
      rw [hp] at h1
      cases h1
      split at h
      · cases h
      · rename_i nd e
        cases h
        refine ⟨⟨down (-c.toct) (c.tr p), some (down (-c.toct) p)⟩, ?_, -(2 * c.toct), ?_, ?_⟩
        · unfold transposeStart
          simp only [P.pp]
          rw [C16_write_read _ (P.good.dict _) _ _ _ e]
          simp only [hw, if_true, h3, P.toct]
          rw [write_back _ (P.good.dict _) _ _ _ _ hp h2 e]
          simp only [← hw]
        · simp only [Last.prev, down_down]; congr 1; ring
        · simp only [Last.prev, down_down]; congr 1; ring
    · rename_i hw
      cases h
      refine ⟨⟨p, none⟩, ?_, 0, by simp [down_zero, Last.prev], by simp [down_zero, Last.prev]⟩
      unfold transposeStart
      simp only [P.pp, hp, hw]
      simp

theorem note_back {c c2 : Ctx} (P : Pair c c2) (n n' : Note) (l l' l2 : Last) (hr : Ret c c2 n) (hl : RevLast l l2)
    (h : transposeNote c n l = .ok (l', n')) : ∃ l2', transposeNote c2 n' l2 = .ok (l2', n) ∧ RevLast l' l2' := by
  obtain ⟨k, hl1, hl2⟩ := hl
  unfold transposeNote at h
  split at h
  · cases h
  · rename_i p hp
    simp only at h
    split at h
    · rename_i hw
      cases h
      refine ⟨⟨p.makeAbsolute l2.pitch (p.octave - n.node.octave) 7, none⟩, ?_, ?_⟩
      · unfold transposeNote
        simp only [P.pp, hp, hw, if_true]
      · refine ⟨(p.makeAbsolute l.pitch (p.octave - n.node.octave) 7).octave - (p.makeAbsolute l2.pitch (p.octave - n.node.octave) 7).octave, ?_, ?_⟩ <;>
          exact eq_down _ _ rfl rfl
    · rename_i hw
      simp only [Bool.not_eq_true, Bool.not_eq_false'] at hw
      obtain ⟨hc, p0, h1, h2, h3⟩ := hr hw
      rw [hp] at h1
      cases h1
      split at h
      · cases h
      · rename_i nd e
        cases h
        have hw2 := C16_write_read _ (P.good.dict _) _ _ _ e
        obtain ⟨d, hdd⟩ := P.good.one n.lang
        have o1 : p.octave - n.node.octave = d := hdd _ ((readNode_iff _ (P.good.dict _) _ _).1 hp)
        have o2 := hdd _ ((readNode_iff _ (P.good.dict _) _ _).1 hw2)
        simp only at o2
        rw [o1] at e hw2 o2
        have ea : p.makeAbsolute l.pitch d 7 = down (p.octave - (p.makeAbsolute l.pitch d 7).octave) p := eq_down _ _ rfl rfl
        have et := tr_back P h3 k (p.octave - (p.makeAbsolute l.pitch d 7).octave)
        rw [← ea] at et
        -- what the second one reads, and what it writes
        have e1 : ((c.tr (p.makeAbsolute l.pitch d 7)).makeRelative l.prev d 7).makeAbsolute l2.pitch d 7 = down k (c.tr (p.makeAbsolute l.pitch d 7)) := by
          rw [hl1]
          simp only [Pitch.makeAbsolute, Pitch.makeRelative, down, Pitch.mk.injEq, and_true]
          ring
        have e2 : (down k (p.makeAbsolute l.pitch d 7)).makeRelative l2.prev d 7 = p := by
          rw [hl2]
          obtain ⟨a, b, f⟩ := p
          simp only [Pitch.makeAbsolute, Pitch.makeRelative, down, Pitch.mk.injEq, and_true]
          ring
        have hwb := write_back _ (P.good.dict _) _ _ _ _ hp h2 e
        refine ⟨⟨down k (c.tr (p.makeAbsolute l.pitch d 7)), some (down k (p.makeAbsolute l.pitch d 7))⟩, ?_, k, ?_, ?_⟩
        · unfold transposeNote
          simp only [P.pp, o1]
          rw [hw2]
          simp only [hw, o2, e1, et, e2, hwb, hc, Bool.not_true, Bool.false_eq_true, if_false]
          simp only [← hc, ← hw]
        · simp only [Last.prev, o1]
        · simp only [Last.prev, o1]

theorem consume_back {c c2 : Ctx} (P : Pair c c2) (n n' : Note) (s s' s2 : Sink) (hr : Ret c c2 n) (hs : Rev s s2)
    (h : consume c n s = .ok (s', n')) : ∃ s2', consume c2 n' s2 = .ok (s2', n) ∧ Rev s' s2' := by
  cases s with
  | pitches o =>
    cases s2 <;> simp only [Rev] at hs
    subst hs
    simp only [consume] at h
    split at h
    · cases h
    · rename_i e
      cases h
      exact ⟨.pitches (-o), by rw [consume, abs_back P n _ o hr e], rfl⟩
  | key =>
    cases s2 <;> simp only [Rev] at hs
    simp only [consume] at h
    split at h
    · cases h
    · rename_i e
      cases h
      exact ⟨.key, by rw [consume, key_back P n _ hr e], trivial⟩
  | relative l =>
    cases s2 <;> simp only [Rev] at hs
    simp only [consume] at h
    split at h
    · cases h
    · rename_i e
      cases h
      obtain ⟨l2', a, b⟩ := note_back P n _ _ _ _ hr hs e
      exact ⟨.relative l2', by rw [consume, a], b⟩
  | chord t f =>
    cases s2 with
    | chord t2 f2 =>
      simp only [Rev] at hs
      simp only [consume] at h
      split at h
      · cases h
      · rename_i e
        cases h
        obtain ⟨l2', a, b⟩ := note_back P n _ _ _ _ hr hs.1 e
        refine ⟨.chord l2' (some (f2.getD l2')), by rw [consume, a], b, ?_⟩
        cases f <;> cases f2 <;> simp only at hs ⊢
        · exact b
        · exact hs.2.elim
        · exact hs.2.elim
        · exact hs.2
    | _ => simp only [Rev] at hs
  | check l =>
    cases s2 <;> simp only [Rev] at hs
    simp only [consume] at h
    split at h
    · cases h
    · rename_i e
      cases h
      obtain ⟨l2', a, b⟩ := check_back P n _ _ hr e
      exact ⟨.check l2', by rw [consume, a], b⟩

end Quickly.TransposeBack
