import Verif.RhythmEdits.Chain

/-! # Edits of the rhythm that look only at the node and its right sibling -/

namespace Quickly.RhythmParts

open Quickly.Rhythm

mutual
/-- Gives every node another duration, depending on its number, its right sibling and itself. -/
def each (g : ℕ → Option Kind → Label → Option D) (i : ℕ) (right : Option Kind) : Mus → ℕ × Mus
  | .node l cs => ((eachL g (i + 1) cs).1, .node { l with dur := g i right l } (eachL g (i + 1) cs).2)
/-- The same for a list of siblings. -/
def eachL (g : ℕ → Option Kind → Label → Option D) (i : ℕ) : List Mus → ℕ × List Mus
  | [] => (i, [])
  | c :: cs =>
    ((eachL g (each g i (cs.head?.map (·.label.kind)) c).1 cs).1,
      (each g i (cs.head?.map (·.label.kind)) c).2 :: (eachL g (each g i (cs.head?.map (·.label.kind)) c).1 cs).2)
end

/-- The edit gives a node the duration `f`, and has no state. -/
def Local (p : Proc Unit) (f : Option Kind → Label → Option D) : Prop := ∀ st bf r l, (p st bf r l).2 = f r l

/-- What is done in a range. -/
def within (f : Option Kind → Label → Option D) (a b : ℕ) : ℕ → Option Kind → Label → Option D :=
  fun i r l => if inRange a b i l then f r l else l.dur

mutual
theorem walk_each {p : Proc Unit} {f : Option Kind → Label → Option D} (h : Local p f) (a b : ℕ) :
    ∀ (m : Mus) (st : Unit) (i : ℕ) (bf : List Label) (r : Option Kind), (walk p (inRange a b) st i bf r m).2 = each (within f a b) i r m
  | .node l cs, st, i, bf, r => by
    have h1 : (if inRange a b i l = true then p st bf r l else (st, l.dur)).2 = within f a b i r l := by
      unfold within
      split
      · exact h st bf r l
      · rfl
    have h2 := fun st => walkL_each h a b cs st (i + 1) bf
    simp only [walk, each, h1, h2]
theorem walkL_each {p : Proc Unit} {f : Option Kind → Label → Option D} (h : Local p f) (a b : ℕ) :
    ∀ (cs : List Mus) (st : Unit) (i : ℕ) (bf : List Label), (walkL p (inRange a b) st i bf cs).2 = eachL (within f a b) i cs
  | [], st, i, bf => rfl
  | c :: cs, st, i, bf => by
    have h1 := walk_each h a b c st i bf (cs.head?.map (·.label.kind))
    have h2 := fun st i bf => walkL_each h a b cs st i bf
    simp only [walkL, eachL, h1, h2]
end

theorem each_kind (g : ℕ → Option Kind → Label → Option D) (i : ℕ) (r : Option Kind) (m : Mus) :
    (each g i r m).2.label.kind = m.label.kind := by cases m; simp [each, Mus.label]

theorem eachL_head (g : ℕ → Option Kind → Label → Option D) (i : ℕ) (cs : List Mus) :
    (eachL g i cs).2.head?.map (·.label.kind) = cs.head?.map (·.label.kind) := by
  cases cs with
  | nil => rfl
  | cons c cs => simp [eachL, each_kind]

mutual
theorem each_each (g g' : ℕ → Option Kind → Label → Option D) : ∀ (m : Mus) (i : ℕ) (r : Option Kind),
    each g' i r (each g i r m).2 = each (fun i r l => g' i r { l with dur := g i r l }) i r m ∧
      (each g i r m).1 = (each (fun i r l => g' i r { l with dur := g i r l }) i r m).1
  | .node l cs, i, r => by
    obtain ⟨h1, h2⟩ := eachL_each g g' cs (i + 1)
    simp only [each, h1, h2, and_self]
theorem eachL_each (g g' : ℕ → Option Kind → Label → Option D) : ∀ (cs : List Mus) (i : ℕ),
    eachL g' i (eachL g i cs).2 = eachL (fun i r l => g' i r { l with dur := g i r l }) i cs ∧
      (eachL g i cs).1 = (eachL (fun i r l => g' i r { l with dur := g i r l }) i cs).1
  | [], i => ⟨rfl, rfl⟩
  | c :: cs, i => by
    obtain ⟨h1, h2⟩ := each_each g g' c i (cs.head?.map (·.label.kind))
    have h3 := eachL_each g g' cs
    simp only [eachL, eachL_head, h1, h2, (h3 _).1, (h3 _).2, and_self]
end

/-- The edit does not make a durable of something else, or the other way round. -/
def Steady (f : Option Kind → Label → Option D) : Prop :=
  ∀ (r : Option Kind) (l : Label), l.isDurable = true → ({ l with dur := f r l } : Label).isDurable = true

theorem edit_local {p : Proc Unit} {f : Option Kind → Label → Option D} (h : Local p f) (a b : ℕ) (doc : List Mus) :
    (edit p () a b doc).2 = (eachL (within f a b) 0 doc).2 := by
  show (walkL p (inRange a b) () 0 [] doc).2.2 = _
  rw [walkL_each h]

theorem inRange_set {a b i : ℕ} {l : Label} {d : Option D} (h : ({ l with dur := d } : Label).isDurable = l.isDurable) :
    inRange a b i { l with dur := d } = inRange a b i l := by
  simp only [inRange, h]

theorem steady_within {f : Option Kind → Label → Option D} (hf : Steady f) (a b i : ℕ) (r : Option Kind) (l : Label) :
    ({ l with dur := within f a b i r l } : Label).isDurable = l.isDurable := by
  unfold within
  split
  · rename_i h
    have hl : l.isDurable = true := by
      simp only [inRange, Bool.and_eq_true] at h; exact h.2
    rw [hl]; exact hf r l hl
  · rfl

theorem inRange_isDurable {a b i : ℕ} {l : Label} (h : inRange a b i l = true) : l.isDurable = true := by
  simp only [inRange, Bool.and_eq_true] at h; exact h.2

theorem within_in {f : Option Kind → Label → Option D} {a b i : ℕ} {r : Option Kind} {l : Label} (h : inRange a b i l = true) :
    within f a b i r l = f r l := if_pos h

theorem within_out {f : Option Kind → Label → Option D} {a b i : ℕ} {r : Option Kind} {l : Label} (h : ¬ inRange a b i l = true) :
    within f a b i r l = l.dur := if_neg h

/-- Two edits of which each makes no difference for the other. -/
theorem within_comm {f g : Option Kind → Label → Option D} (hf : Steady f) (hg : Steady g)
    (h : ∀ (r : Option Kind) (l : Label), l.isDurable = true → g r { l with dur := f r l } = f r { l with dur := g r l })
    (a b c d i : ℕ) (r : Option Kind) (l : Label) :
    within g c d i r { l with dur := within f a b i r l } = within f a b i r { l with dur := within g c d i r l } := by
  have e1 : inRange c d i { l with dur := within f a b i r l } = inRange c d i l := inRange_set (steady_within hf a b i r l)
  have e2 : inRange a b i { l with dur := within g c d i r l } = inRange a b i l := inRange_set (steady_within hg c d i r l)
  by_cases ha : inRange a b i l = true
  · by_cases hc : inRange c d i l = true
    · rw [within_in (e1.trans hc), within_in (e2.trans ha), within_in ha, within_in hc]
      exact h r l (inRange_isDurable ha)
    · rw [within_out (fun x => hc (e1.symm.trans x)), within_in (e2.trans ha), within_in ha, within_out hc]
  · by_cases hc : inRange c d i l = true
    · rw [within_in (e1.trans hc), within_out (fun x => ha (e2.symm.trans x)), within_in hc, within_out ha]
    · rw [within_out (fun x => hc (e1.symm.trans x)), within_out (fun x => ha (e2.symm.trans x))]
      exact (within_out ha).trans (within_out hc).symm

/-- The two parts of a range. -/
theorem within_parts {f : Option Kind → Label → Option D} (hf : Steady f) {a b c : ℕ} (hab : a ≤ b) (hbc : b ≤ c) (i : ℕ)
    (r : Option Kind) (l : Label) : within f b c i r { l with dur := within f a b i r l } = within f a c i r l := by
  have e1 : inRange b c i { l with dur := within f a b i r l } = inRange b c i l := inRange_set (steady_within hf a b i r l)
  rcases Nat.lt_or_ge i b with h | h
  · have h1 : inRange b c i l = false := by simp [inRange]; omega
    have h2 : inRange a b i l = inRange a c i l := by
      have : (a ≤ i ∧ i < b) ↔ (a ≤ i ∧ i < c) := by omega
      simp only [inRange, this]
    rw [within_out (by rw [e1, h1]; decide)]
    show within f a b i r l = _
    simp only [within, h2]
  · have h1 : inRange a b i l = false := by simp [inRange]; omega
    have h2 : inRange b c i l = inRange a c i l := by
      have : (b ≤ i ∧ i < c) ↔ (a ≤ i ∧ i < c) := by omega
      simp only [inRange, this]
    have h3 : within f a b i r l = l.dur := within_out (by rw [h1]; decide)
    rw [h3]
    simp only [within, h2]

end Quickly.RhythmParts
