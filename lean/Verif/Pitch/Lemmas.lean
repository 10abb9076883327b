import Verif.Pitch.Spec
import Mathlib.Tactic.Linarith
import Mathlib.Tactic.Ring
import Mathlib.Tactic.NormNum
import Mathlib.Data.List.Nodup
import Mathlib.Data.List.Sort

/-! # Helper lemmas for pitches -/

namespace Quickly.Pitch

open Spec

theorem trunc_intCast (n : ℤ) : trunc (n : ℚ) = n := by
  unfold trunc
  split
  · rw [← Int.cast_neg, Int.floor_intCast]; omega
  · rw [Int.floor_intCast]

/-! ## Reversed tables -/

/-- The names an octave dict has for an octave. -/
def OctaveDict.names (d : OctaveDict) (o : ℤ) : List Str :=
  match d with
  | [] => []
  | (o', ns) :: d => if o' = o then ns else OctaveDict.names d o

/-- Everything in the octave dict is a pair of an octave and a name of it. -/
def OctaveDict.Has (d : OctaveDict) (o : ℤ) (n : Str) : Prop := ∃ ns, (o, ns) ∈ d ∧ n ∈ ns

theorem OctaveDict.has_append (d : OctaveDict) (o : ℤ) (name : Str) (o' : ℤ) (n : Str) :
    (d.append o name).Has o' n ↔ d.Has o' n ∨ (o' = o ∧ n = name) := by
  induction d with
  | nil =>
    simp only [OctaveDict.append, OctaveDict.Has, List.mem_singleton, Prod.mk.injEq, List.not_mem_nil,
      false_and, exists_false, false_or]
    constructor
    · rintro ⟨ns, ⟨h1, h2⟩, h3⟩; subst h2; simp_all
    · rintro ⟨h1, h2⟩; exact ⟨[name], ⟨h1, rfl⟩, by simp [h2]⟩
  | cons x d ih =>
    obtain ⟨ox, ns⟩ := x
    simp only [OctaveDict.append]
    split
    · rename_i h
      subst h
      simp only [OctaveDict.Has, List.mem_cons, Prod.mk.injEq]
      constructor
      · rintro ⟨m, ⟨h1, h2⟩ | hm, h3⟩
        · subst h1 h2
          rcases List.mem_append.1 h3 with h | h
          · exact Or.inl ⟨ns, Or.inl ⟨rfl, rfl⟩, h⟩
          · exact Or.inr ⟨rfl, List.mem_singleton.1 h⟩
        · exact Or.inl ⟨m, Or.inr hm, h3⟩
      · rintro (⟨m, ⟨h1, h2⟩ | hm, h3⟩ | ⟨h1, h2⟩)
        · subst h1 h2; exact ⟨m ++ [name], Or.inl ⟨rfl, rfl⟩, List.mem_append_left _ h3⟩
        · exact ⟨m, Or.inr hm, h3⟩
        · subst h1 h2; exact ⟨ns ++ [n], Or.inl ⟨rfl, rfl⟩, by simp⟩
    · simp only [OctaveDict.Has, List.mem_cons] at ih ⊢
      constructor
      · rintro ⟨m, h | hm, h3⟩
        · exact Or.inl ⟨m, Or.inl h, h3⟩
        · rcases ih.1 ⟨m, hm, h3⟩ with ⟨m', h4, h5⟩ | h
          · exact Or.inl ⟨m', Or.inr h4, h5⟩
          · exact Or.inr h
      · rintro (⟨m, h | hm, h3⟩ | h)
        · exact ⟨m, Or.inl h, h3⟩
        · obtain ⟨m', h4, h5⟩ := ih.2 (Or.inl ⟨m, hm, h3⟩); exact ⟨m', Or.inr h4, h5⟩
        · obtain ⟨m', h4, h5⟩ := ih.2 (Or.inr h); exact ⟨m', Or.inr h4, h5⟩

/-- Every octave of the dict has at least one name. -/
def OctaveDict.Good (d : OctaveDict) : Prop := d ≠ [] ∧ ∀ x ∈ d, x.2 ≠ []

theorem OctaveDict.good_append (d : OctaveDict) (o : ℤ) (name : Str) (h : ∀ x ∈ d, x.2 ≠ []) :
    (d.append o name).Good := by
  induction d with
  | nil => simp [OctaveDict.append, OctaveDict.Good]
  | cons x d ih =>
    obtain ⟨ox, ns⟩ := x
    simp only [OctaveDict.append]
    split
    · refine ⟨by simp, ?_⟩
      intro y hy
      rcases List.mem_cons.1 hy with rfl | hy
      · simp
      · exact h y (List.mem_cons_of_mem _ hy)
    · refine ⟨by simp, ?_⟩
      intro y hy
      rcases List.mem_cons.1 hy with rfl | hy
      · exact h _ List.mem_cons_self
      · exact (ih (fun x hx => h x (List.mem_cons_of_mem _ hx))).2 y hy

theorem RevTable.get_add (r : RevTable) (na : ℤ × ℚ) (o : ℤ) (name : Str) (na' : ℤ × ℚ) :
    (r.add na o name).get na' =
      if na' = na then some (match r.get na with
        | none => [(o, [name])]
        | some d => d.append o name) else r.get na' := by
  induction r with
  | nil =>
    simp only [RevTable.add, RevTable.get]
    by_cases h : na' = na
    · simp [h]
    · rw [if_neg (Ne.symm h), if_neg h]
  | cons x r ih =>
    obtain ⟨k, d⟩ := x
    by_cases hk : k = na
    · subst hk
      by_cases h : na' = k
      · subst h; simp [RevTable.add, RevTable.get]
      · simp [RevTable.add, RevTable.get, h, Ne.symm h]
    · simp only [RevTable.add, if_neg hk, RevTable.get]
      by_cases h : k = na'
      · subst h; simp [hk]
      · simp only [if_neg h, ih]

/-- What a reversed table says: which names there are for a note, alteration
and octave. -/
def RevTable.Has (r : RevTable) (na : ℤ × ℚ) (o : ℤ) (n : Str) : Prop :=
  ∃ d, r.get na = some d ∧ d.Has o n

theorem reverse_aux (t : Table) (r : RevTable) :
    (∀ na d, r.get na = some d → d.Good) →
    (∀ na d, (t.foldl (fun r item => r.add (item.2.2.1, item.2.2.2) item.2.1 item.1) r).get na = some d → d.Good) ∧
    (∀ na o n, (t.foldl (fun r item => r.add (item.2.2.1, item.2.2.2) item.2.1 item.1) r).Has na o n ↔
      r.Has na o n ∨ (n, (o, na.1, na.2)) ∈ t) := by
  induction t generalizing r with
  | nil => intro h; exact ⟨h, by simp⟩
  | cons x t ih =>
    obtain ⟨name, o, nt, al⟩ := x
    intro h
    have good : ∀ na d, (r.add (nt, al) o name).get na = some d → d.Good := by
      intro na d hd
      rw [RevTable.get_add] at hd
      split at hd
      · split at hd
        · cases hd; simp [OctaveDict.Good]
        · rename_i d' hd'
          cases hd
          exact OctaveDict.good_append _ _ _ (h _ _ hd').2
      · exact h _ _ hd
    obtain ⟨i1, i2⟩ := ih (r.add (nt, al) o name) good
    refine ⟨i1, ?_⟩
    intro na o' n
    simp only [List.foldl_cons]
    rw [i2 na o' n]
    have key : (r.add (nt, al) o name).Has na o' n ↔ r.Has na o' n ∨ (n, (o', na.1, na.2)) = (name, o, nt, al) := by
      unfold RevTable.Has
      rw [RevTable.get_add]
      by_cases hna : na = (nt, al)
      · subst hna
        simp only [if_true, Option.some.injEq, exists_eq_left', Prod.mk.injEq, and_true]
        cases hr : r.get (nt, al) with
        | none =>
          simp only [OctaveDict.Has, List.mem_singleton, Prod.mk.injEq, reduceCtorEq, false_and,
            exists_false, false_or]
          constructor
          · rintro ⟨ns, ⟨h1, h2⟩, h3⟩; subst h2; simp_all
          · rintro ⟨h1, h2⟩; exact ⟨[name], ⟨h2, rfl⟩, by simp [h1]⟩
        | some d =>
          simp only [Option.some.injEq, exists_eq_left']
          rw [OctaveDict.has_append]
          tauto
      · rw [if_neg hna]
        constructor
        · exact Or.inl
        · rintro (h | h)
          · exact h
          · exact absurd (by simp only [Prod.mk.injEq] at h; exact Prod.ext h.2.2.1 h.2.2.2) hna
    rw [key, List.mem_cons]
    tauto

theorem reverse_has (t : Table) (na : ℤ × ℚ) (o : ℤ) (n : Str) :
    (reverse t).Has na o n ↔ (n, (o, na.1, na.2)) ∈ t := by
  have := (reverse_aux t [] (by simp [RevTable.get])).2 na o n
  unfold reverse
  rw [this]
  simp [RevTable.Has, RevTable.get]

theorem reverse_good (t : Table) (na : ℤ × ℚ) (d : OctaveDict) (h : (reverse t).get na = some d) :
    d.Good := (reverse_aux t [] (by simp [RevTable.get])).1 na d h

theorem nearest_some (target : ℤ) (d : OctaveDict) (h : d ≠ []) :
    ∃ x ∈ d, nearest target d = some x ∧ ∀ y ∈ d, |x.1 - target| ≤ |y.1 - target| := by
  induction d with
  | nil => exact absurd rfl h
  | cons x d ih =>
    by_cases hd : d = []
    · subst hd
      exact ⟨x, List.mem_cons_self, by simp [nearest], by simp⟩
    · obtain ⟨y, hy, hn, hmin⟩ := ih hd
      simp only [nearest, hn]
      split
      · rename_i hlt
        refine ⟨y, List.mem_cons_of_mem _ hy, rfl, ?_⟩
        intro z hz
        rcases List.mem_cons.1 hz with rfl | hz
        · exact hlt.le
        · exact hmin z hz
      · rename_i hlt
        refine ⟨x, List.mem_cons_self, rfl, ?_⟩
        intro z hz
        rcases List.mem_cons.1 hz with rfl | hz
        · exact le_refl _
        · exact (not_lt.1 hlt).trans (hmin z hz)

theorem suitable_mem (lang : Lang) (pr : Prefs) (names : List Str) (n : Str)
    (h : suitable lang pr names = some n) : n ∈ names := by
  have fs : ∀ (f g : Str → Bool) (l : List Str), (l.filter f).find? g = some n → n ∈ l :=
    fun f g l h => (List.mem_filter.1 (List.mem_of_find?_eq_some h)).1
  cases lang <;> simp only [suitable] at h
  case nederlands => exact List.mem_of_find?_eq_some h
  case catalan => exact List.mem_of_find?_eq_some h
  case deutsch => exact List.mem_of_find?_eq_some h
  case english =>
    split at h
    · rename_i m hm
      cases h
      split at hm
      · exact List.mem_of_find?_eq_some hm
      · exact absurd hm (by simp)
    · exact List.mem_of_find?_eq_some h
  case espanol => exact List.mem_of_find?_eq_some h
  case francais =>
    split at h
    · rename_i m hm
      cases h
      have : n ∈ names.filter (fun n => pr.accented == n.contains 'é') := by rw [hm]; simp
      exact (List.mem_filter.1 this).1
    · exact List.mem_of_find?_eq_some h
    · exact fs _ _ _ h
  case norsk =>
    split at h
    · rename_i m hm
      cases h
      have : n ∈ names.filter (fun n => pr.doubleS == hasSub "ss".toList n) := by rw [hm]; simp
      exact (List.mem_filter.1 this).1
    · exact List.mem_of_find?_eq_some h
    · exact fs _ _ _ h
  case suomi => exact List.mem_of_find?_eq_some h
  case other => exact absurd h (by simp)

theorem chooseName_mem (lang : Lang) (pr : Prefs) (names : List Str) (h : names ≠ []) :
    ∃ n ∈ names, chooseName lang pr names = .ok n := by
  unfold chooseName
  split
  · exact ⟨_, by simp, rfl⟩
  · split
    · rename_i c cs hs
      exact ⟨_, suitable_mem _ _ _ _ hs, rfl⟩
    · rw [List.getLast?_eq_some_getLast h]
      exact ⟨_, List.getLast_mem h, rfl⟩

theorem Table.get_some (t : Table) (n : Str) (v) (h : t.get n = some v) : (n, v) ∈ t := by
  induction t with
  | nil => simp [Table.get] at h
  | cons x t ih =>
    obtain ⟨m, w⟩ := x
    simp only [Table.get] at h
    split at h
    · rename_i hm; cases h; subst hm; exact List.mem_cons_self
    · exact List.mem_cons_of_mem _ (ih h)

theorem Table.get_of_mem (t : Table) (ht : IsDict t) (n : Str) (v) (h : (n, v) ∈ t) :
    t.get n = some v := by
  induction t with
  | nil => simp at h
  | cons x t ih =>
    obtain ⟨m, w⟩ := x
    simp only [IsDict, List.map_cons, List.nodup_cons] at ht
    simp only [Table.get]
    rcases List.mem_cons.1 h with h | h
    · cases h; simp
    · rw [if_neg, ih ht.2 h]
      rintro rfl
      exact ht.1 (List.mem_map.2 ⟨_, h, rfl⟩)

theorem Table.get_isSome (t : Table) (n : Str) : (t.get n).isSome = true ↔ HasName t n := by
  induction t with
  | nil => simp [Table.get, HasName]
  | cons x t ih =>
    obtain ⟨m, w⟩ := x
    simp only [Table.get, HasName, List.mem_cons, Prod.mk.injEq]
    split
    · rename_i h; subst h; simp
    · rename_i h
      rw [ih]
      constructor
      · rintro ⟨v, hv⟩; exact ⟨v, Or.inr hv⟩
      · rintro ⟨v, ⟨h1, _⟩ | hv⟩
        · exact absurd h1.symm h
        · exact ⟨v, hv⟩

/-- The central fact about `name_octave`. -/
theorem nameOctave_spec (pp : Processor) (p : Pitch) :
    (∃ name o, Means pp.table name o p.note p.alter ∧
      pp.nameOctave p = .ok (name, p.octave - o) ∧
      ∀ name' o', Means pp.table name' o' p.note p.alter → |o - p.octave| ≤ |o' - p.octave|) ∨
    ((∀ name o, ¬ Means pp.table name o p.note p.alter) ∧ pp.nameOctave p = .error .keyError) := by
  unfold Processor.nameOctave
  cases hg : (reverse pp.table).get (p.note, p.alter) with
  | none =>
    right
    refine ⟨?_, rfl⟩
    intro name o hm
    have := (reverse_has pp.table (p.note, p.alter) o name).2 hm
    obtain ⟨d, hd, _⟩ := this
    rw [hg] at hd
    exact absurd hd (by simp)
  | some d =>
    left
    have good := reverse_good _ _ _ hg
    obtain ⟨⟨o, ns⟩, hx, hn, hmin⟩ := nearest_some p.octave d good.1
    obtain ⟨name, hname, hc⟩ := chooseName_mem pp.lang pp.prefs ns (good.2 _ hx)
    refine ⟨name, o, ?_, ?_, ?_⟩
    · exact (reverse_has pp.table (p.note, p.alter) o name).1 ⟨d, hg, ns, hx, hname⟩
    · simp only [hn, hc]
    · intro name' o' hm
      obtain ⟨d', hd', ns', hmem, _⟩ := (reverse_has pp.table (p.note, p.alter) o' name').2 hm
      rw [hg] at hd'
      cases hd'
      exact hmin _ hmem

/-! ## Languages -/

theorem Names.get_some (pn : Names) (n : Str) (v) (h : pn.get n = some v) : (n, v) ∈ pn := by
  induction pn with
  | nil => simp [Names.get] at h
  | cons x t ih =>
    obtain ⟨m, w⟩ := x
    simp only [Names.get] at h
    split at h
    · rename_i hm; cases h; subst hm; exact List.mem_cons_self
    · exact List.mem_cons_of_mem _ (ih h)

theorem Names.get_of_mem (pn : Names) (ht : (pn.map Prod.fst).Nodup) (n : Str) (v) (h : (n, v) ∈ pn) :
    pn.get n = some v := by
  induction pn with
  | nil => simp at h
  | cons x t ih =>
    obtain ⟨m, w⟩ := x
    simp only [List.map_cons, List.nodup_cons] at ht
    simp only [Names.get]
    rcases List.mem_cons.1 h with h | h
    · cases h; simp
    · rw [if_neg, ih ht.2 h]
      rintro rfl
      exact ht.1 (List.mem_map.2 ⟨_, h, rfl⟩)

theorem knowsAll_iff (pn : Names) (hn : (pn.map Prod.fst).Nodup) (names : List Str) (lang : Str) :
    knowsAll pn names lang = true ↔ Knows pn names lang := by
  unfold knowsAll Knows
  constructor
  · intro h
    split at h
    · exact absurd h (by simp)
    · rename_i i t hg
      refine ⟨i, t, Names.get_some _ _ _ hg, ?_⟩
      intro n hn' ha
      rw [List.all_eq_true] at h
      rw [← Table.get_isSome]
      apply h
      rw [List.mem_filter]
      refine ⟨hn', ?_⟩
      simp only [Spec.agnostic] at ha
      simpa using ha
  · rintro ⟨i, t, hm, h⟩
    rw [Names.get_of_mem pn hn _ _ hm]
    simp only [List.all_eq_true, List.mem_filter]
    rintro n ⟨hn', ha⟩
    rw [Table.get_isSome]
    apply h n hn'
    simp only [Spec.agnostic]
    simpa using ha

theorem othersLoop_mem (pn : Names) (seen : List ℕ) (n : Str) (h : n ∈ othersLoop pn seen) :
    ∃ i t, (n, i, t) ∈ pn ∧ i ∉ seen := by
  induction pn generalizing seen with
  | nil => simp [othersLoop] at h
  | cons x pn ih =>
    obtain ⟨m, i, t⟩ := x
    simp only [othersLoop] at h
    split at h
    · obtain ⟨j, u, h1, h2⟩ := ih _ h; exact ⟨j, u, List.mem_cons_of_mem _ h1, h2⟩
    · rename_i hi
      rcases List.mem_cons.1 h with rfl | h
      · exact ⟨i, t, List.mem_cons_self, hi⟩
      · obtain ⟨j, u, h1, h2⟩ := ih _ h
        exact ⟨j, u, List.mem_cons_of_mem _ h1, fun hj => h2 (List.mem_cons_of_mem _ hj)⟩

/-- Every table that was not seen has a representative. -/
theorem othersLoop_covers (pn : Names) (seen : List ℕ) (n : Str) (i : ℕ) (t : Table)
    (h : (n, i, t) ∈ pn) (hi : i ∉ seen) : ∃ m u, m ∈ othersLoop pn seen ∧ (m, i, u) ∈ pn := by
  induction pn generalizing seen with
  | nil => simp at h
  | cons x pn ih =>
    obtain ⟨m, j, u⟩ := x
    simp only [othersLoop]
    by_cases hji : j = i
    · subst hji
      rw [if_neg hi]
      exact ⟨m, u, List.mem_cons_self, List.mem_cons_self⟩
    · have h' : (n, i, t) ∈ pn := by
        rcases List.mem_cons.1 h with h | h
        · cases h; exact absurd rfl hji
        · exact h
      split
      · obtain ⟨m', u', h1, h2⟩ := ih seen h' hi
        exact ⟨m', u', h1, List.mem_cons_of_mem _ h2⟩
      · obtain ⟨m', u', h1, h2⟩ := ih (j :: seen) h' (by
          intro hm
          rcases List.mem_cons.1 hm with hm | hm
          · exact hji hm.symm
          · exact hi hm)
        exact ⟨m', u', List.mem_cons_of_mem _ h1, List.mem_cons_of_mem _ h2⟩

/-- No two representatives share a table. -/
theorem othersLoop_unique (pn : Names) (hn : (pn.map Prod.fst).Nodup) (seen : List ℕ) (a b : Str) (i : ℕ) (t u : Table)
    (ha : a ∈ othersLoop pn seen) (hb : b ∈ othersLoop pn seen)
    (hta : (a, i, t) ∈ pn) (htb : (b, i, u) ∈ pn) : a = b := by
  induction pn generalizing seen with
  | nil => simp at hta
  | cons x pn ih =>
    obtain ⟨m, j, w⟩ := x
    simp only [List.map_cons, List.nodup_cons] at hn
    have nk : ∀ y, (m, y) ∉ pn := fun y hy => hn.1 (List.mem_map.2 ⟨_, hy, rfl⟩)
    -- an element of the tail's loop has an id outside `seen`
    have out : ∀ s c k v, c ∈ othersLoop pn s → (c, k, v) ∈ pn → k ∉ s := by
      intro s c k v hc hk
      obtain ⟨k', v', h1, h2⟩ := othersLoop_mem _ _ _ hc
      have e := Names.get_of_mem pn hn.2 _ _ h1
      rw [Names.get_of_mem pn hn.2 _ _ hk] at e
      cases e; exact h2
    have inTail : ∀ s c, c ∈ othersLoop pn s → ∀ k v, (c, k, v) ∈ ((m, j, w) :: pn : Names) → (c, k, v) ∈ pn := by
      intro s c hc k v hk
      rcases List.mem_cons.1 hk with hk | hk
      · cases hk
        obtain ⟨k', v', h1, _⟩ := othersLoop_mem _ _ _ hc
        exact absurd h1 (nk _)
      · exact hk
    simp only [othersLoop] at ha hb
    split at ha
    · rw [if_pos (by assumption)] at hb
      exact ih hn.2 seen ha hb (inTail _ _ ha _ _ hta) (inTail _ _ hb _ _ htb)
    · rw [if_neg (by assumption)] at hb
      rcases List.mem_cons.1 ha with rfl | ha'
      · have hij : (i, t) = (j, w) := by
          rcases List.mem_cons.1 hta with h | h
          · cases h; rfl
          · exact absurd h (nk _)
        cases hij
        rcases List.mem_cons.1 hb with rfl | hb'
        · rfl
        · exact absurd List.mem_cons_self (out _ _ _ _ hb' (inTail _ _ hb' _ _ htb))
      · rcases List.mem_cons.1 hb with rfl | hb'
        · have hij : (i, u) = (j, w) := by
            rcases List.mem_cons.1 htb with h | h
            · cases h; rfl
            · exact absurd h (nk _)
          cases hij
          exact absurd List.mem_cons_self (out _ _ _ _ ha' (inTail _ _ ha' _ _ hta))
        · exact ih hn.2 _ ha' hb' (inTail _ _ ha' _ _ hta) (inTail _ _ hb' _ _ htb)

theorem othersLoop_nodup (pn : Names) (hn : (pn.map Prod.fst).Nodup) (seen : List ℕ) :
    (othersLoop pn seen).Nodup := by
  induction pn generalizing seen with
  | nil => simp [othersLoop]
  | cons x pn ih =>
    obtain ⟨m, j, w⟩ := x
    simp only [List.map_cons, List.nodup_cons] at hn
    simp only [othersLoop]
    split
    · exact ih hn.2 _
    · refine List.nodup_cons.2 ⟨?_, ih hn.2 _⟩
      intro hm
      obtain ⟨i, t, h1, _⟩ := othersLoop_mem _ _ _ hm
      exact hn.1 (List.mem_map.2 ⟨_, h1, rfl⟩)

theorem seenIds_spec (pn : Names) (ns : List Str) (l : List ℕ) (h : seenIds pn ns = .ok l) :
    (∀ i, i ∈ l ↔ ∃ n ∈ ns, ∃ t, pn.get n = some (i, t)) ∧ (∀ n ∈ ns, ∃ i t, (n, i, t) ∈ pn) := by
  induction ns generalizing l with
  | nil => simp only [seenIds] at h; cases h; simp
  | cons n ns ih =>
    simp only [seenIds] at h
    split at h
    · exact absurd h (by simp)
    · rename_i i t hg
      split at h
      · rename_i l' hl
        cases h
        obtain ⟨i1, i2⟩ := ih l' hl
        constructor
        · intro j
          simp only [List.mem_cons, i1]
          constructor
          · rintro (rfl | ⟨m, hm, u, hu⟩)
            · exact ⟨n, Or.inl rfl, t, hg⟩
            · exact ⟨m, Or.inr hm, u, hu⟩
          · rintro ⟨m, rfl | hm, u, hu⟩
            · rw [hg] at hu; cases hu; exact Or.inl rfl
            · exact Or.inr ⟨m, hm, u, hu⟩
        · intro m hm
          rcases List.mem_cons.1 hm with rfl | hm
          · exact ⟨i, t, Names.get_some _ _ _ hg⟩
          · exact i2 m hm
      · exact absurd h (by simp)

theorem seenIds_error (pn : Names) (ns : List Str) (e : PyErr) (h : seenIds pn ns = .error e) :
    e = .keyError ∧ ∃ n ∈ ns, pn.get n = none := by
  induction ns with
  | nil => simp [seenIds] at h
  | cons n ns ih =>
    simp only [seenIds] at h
    split at h
    · rename_i hg; cases h; exact ⟨rfl, n, List.mem_cons_self, hg⟩
    · split at h
      · exact absurd h (by simp)
      · rename_i e' he
        cases h
        obtain ⟨h1, m, h2, h3⟩ := ih he
        exact ⟨h1, m, List.mem_cons_of_mem _ h2, h3⟩

theorem strLe_trans (a b c : Str) (h1 : strLe a b = true) (h2 : strLe b c = true) : strLe a c = true := by
  simp only [strLe, decide_eq_true_eq] at *
  exact List.le_trans h1 h2

theorem strLe_total (a b : Str) : (strLe a b || strLe b a) = true := by
  simp only [strLe, Bool.or_eq_true, decide_eq_true_eq]
  exact List.le_total a b

end Quickly.Pitch

namespace Quickly.Pitch

open Spec

theorem midi_flat (k : Fin 12) : 0 ≤ bisectLeft majorScale ((k.val : ℚ) / 2) ∧
    bisectLeft majorScale ((k.val : ℚ) / 2) ≤ 6 ∧
    pyGet majorScale (bisectLeft majorScale ((k.val : ℚ) / 2)) =
      .ok ((k.val : ℚ) / 2 - if ((k.val : ℕ) : ℤ) ∈ ([0, 2, 4, 5, 7, 9, 11] : List ℤ) then 0 else -(1/2)) := by
  revert k; decide +kernel

theorem midi_sharp (k : Fin 12) : 0 ≤ bisectRight majorScale ((k.val : ℚ) / 2) - 1 ∧
    bisectRight majorScale ((k.val : ℚ) / 2) - 1 ≤ 6 ∧
    pyGet majorScale (bisectRight majorScale ((k.val : ℚ) / 2) - 1) =
      .ok ((k.val : ℚ) / 2 - if ((k.val : ℕ) : ℤ) ∈ ([0, 2, 4, 5, 7, 9, 11] : List ℤ) then 0 else 1/2) := by
  revert k; decide +kernel

theorem endsWithChar_iff (c : Char) (n : Str) : endsWithChar c n = true ↔ ∃ stem, n = stem ++ [c] := by
  unfold endsWithChar
  rw [beq_iff_eq, List.getLast?_eq_some_iff]

theorem beq_decide (b : Bool) (P : Prop) (f : Bool) (h : f = true ↔ P) :
    (b == f) = true ↔ (b = true ↔ P) := by
  rw [← h]; cases b <;> cases f <;> simp

/-- `find?` finds something that meets the test when there is such a thing. -/
theorem find_meets (f : Str → Bool) (names : List Str) (n : Str) (hm : n ∈ names) (hf : f n = true) :
    ∃ r ∈ names, names.find? f = some r ∧ f r = true := by
  cases h : names.find? f with
  | none => exact absurd hf (by simpa using List.find?_eq_none.1 h n hm)
  | some r => exact ⟨r, List.mem_of_find?_eq_some h, rfl, List.find?_some h⟩

theorem suitable_preferred (lang : Lang) (pr : Prefs) (names : List Str) (n : Str)
    (hm : n ∈ names) (hp : Preferred lang pr n) :
    ∃ r ∈ names, suitable lang pr names = some r ∧ Preferred lang pr r := by
  have key : ∀ (f : Str → Bool), (∀ m, f m = true ↔ Preferred lang pr m) →
      ∃ r ∈ names, names.find? f = some r ∧ Preferred lang pr r := by
    intro f hf
    obtain ⟨r, h1, h2, h3⟩ := find_meets f names n hm ((hf n).2 hp)
    exact ⟨r, h1, h2, (hf r).1 h3⟩
  cases lang <;> simp only [suitable]
  case nederlands => exact key _ fun m => beq_decide _ _ _ List.contains_iff_mem
  case catalan => exact key _ fun m => beq_decide _ _ _ (endsWithChar_iff _ _)
  case deutsch => exact key _ fun m => beq_decide _ _ _ List.contains_iff_mem
  case suomi => exact key _ fun m => beq_decide _ _ _ List.contains_iff_mem
  case espanol => exact key _ fun m => beq_decide _ _ _ (endsWithChar_iff _ _)
  case english =>
    cases hl : pr.long
    · simp only [Bool.false_eq_true, if_false]
      refine key _ fun m => ?_
      simp only [Preferred, hl, Bool.false_eq_true, if_false, Bool.and_eq_true, Bool.not_eq_true']
      rw [beq_decide _ _ _ (endsWithChar_iff 'x' m), ← Bool.not_eq_true, List.contains_iff_mem]
    · simp only [if_true]
      obtain ⟨r, h1, h2, h3⟩ := key (fun n => n.contains '-') (fun m => by
        simp only [Preferred, hl, if_true]; exact List.contains_iff_mem)
      rw [h2]
      exact ⟨r, h1, rfl, h3⟩
  case francais => exact absurd hp (by simp [Preferred])
  case norsk => exact absurd hp (by simp [Preferred])
  case other => exact absurd hp (by simp [Preferred])

theorem mem_tails_iff (t name : Str) : t ∈ name.tails ↔ t <:+ name := by
  induction name with
  | nil => simp
  | cons c name ih => rw [show (c :: name).tails = (c :: name) :: name.tails from rfl, List.mem_cons, ih, List.suffix_cons_iff]

/-- Substrings, as the code tests for them with `in`. -/
theorem hasSub_iff_infix (sub name : Str) : hasSub sub name = true ↔ ∃ a b, name = a ++ sub ++ b := by
  unfold hasSub
  simp only [List.any_eq_true, mem_tails_iff, List.isPrefixOf_iff_prefix]
  constructor
  · rintro ⟨t, ⟨a, ha⟩, b, hb⟩
    exact ⟨a, b, by rw [List.append_assoc, hb, ha]⟩
  · rintro ⟨a, b, rfl⟩
    exact ⟨sub ++ b, ⟨a, by simp⟩, b, rfl⟩

/-- The way `_suitable` of français and norsk chooses with two tests. -/
def pickTwo (f g : Str → Bool) (names : List Str) : Option Str :=
  match names.filter f with
  | [n] => some n
  | [] => names.find? g
  | subset => subset.find? g

theorem pick_two (f g : Str → Bool) (names : List Str) :
    (∀ n ∈ names, f n = true → g n = true → ∃ r ∈ names, pickTwo f g names = some r ∧ f r = true ∧ g r = true) ∧
    (∀ n ∈ names, (∀ m ∈ names, f m = false) → g n = true → ∃ r ∈ names, pickTwo f g names = some r ∧ g r = true) ∧
    (∀ n, names.filter f = [n] → pickTwo f g names = some n) := by
  refine ⟨fun n hm hf hg => ?_, fun n hm hf hg => ?_, fun n h => by rw [pickTwo, h]⟩
  · have hn : n ∈ names.filter f := List.mem_filter.2 ⟨hm, hf⟩
    unfold pickTwo
    split
    · rename_i m h
      rw [h, List.mem_singleton] at hn
      subst hn
      exact ⟨n, hm, rfl, hf, hg⟩
    · rename_i h
      rw [h] at hn
      exact absurd hn (by simp)
    · obtain ⟨r, h1, h2, h3⟩ := find_meets g _ n hn hg
      exact ⟨r, (List.mem_filter.1 h1).1, h2, (List.mem_filter.1 h1).2, h3⟩
  · have h : names.filter f = [] := List.filter_eq_nil_iff.2 fun m hm => by simp [hf m hm]
    rw [pickTwo, h]
    exact find_meets g names n hm hg

end Quickly.Pitch
