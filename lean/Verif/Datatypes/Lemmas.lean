import Verif.Datatypes.Spec

/-! # Helper lemmas for Properties -/

namespace Quickly.Datatypes

variable {κ β : Type} [DecidableEq κ]

theorem lookup_set (d : Dict κ β) (k : κ) (v : Option β) (k' : κ) :
    Dict.lookup k' (Dict.set k v d) = if k' = k then some v else Dict.lookup k' d := by
  induction d with
  | nil => simp only [Dict.set, Dict.lookup]; by_cases h : k' = k
           · simp [h]
           · simp [h, Ne.symm h]
  | cons p d ih =>
    obtain ⟨a, w⟩ := p
    simp only [Dict.set]
    by_cases h : a = k
    · subst h
      simp only [if_true, Dict.lookup]
      by_cases h2 : a = k'
      · simp [h2]
      · simp [h2, Ne.symm h2]
    · simp only [h, if_false, Dict.lookup, ih]
      by_cases h2 : a = k'
      · subst h2; simp [h]
      · simp [h2]

/-- Keys of a dict. -/
def keys (d : Dict κ β) : List κ := d.map Prod.fst

theorem lookup_none_iff (d : Dict κ β) (k : κ) : Dict.lookup k d = none ↔ k ∉ keys d := by
  induction d with
  | nil => simp [Dict.lookup, keys]
  | cons p d ih =>
    obtain ⟨a, w⟩ := p
    simp only [Dict.lookup, keys, List.map_cons, List.mem_cons, not_or]
    by_cases h : a = k
    · simp [h]
    · simp only [h, if_false, ih]
      exact ⟨fun hh => ⟨Ne.symm h, hh⟩, fun hh => hh.2⟩

theorem keys_set (d : Dict κ β) (k : κ) (v : Option β) :
    keys (Dict.set k v d) = if k ∈ keys d then keys d else keys d ++ [k] := by
  induction d with
  | nil => simp [Dict.set, keys]
  | cons p d ih =>
    obtain ⟨a, w⟩ := p
    simp only [Dict.set]
    by_cases h : a = k
    · subst h; simp [keys]
    · simp only [h, if_false]
      have : keys ((a, w) :: Dict.set k v d) = a :: keys (Dict.set k v d) := rfl
      rw [this, ih]
      have h2 : keys ((a, w) :: d) = a :: keys d := rfl
      rw [h2]
      by_cases h3 : k ∈ keys d
      · simp [h3]
      · simp [h3, Ne.symm h]

theorem nodup_set (d : Dict κ β) (k : κ) (v : Option β) (h : (keys d).Nodup) :
    (keys (Dict.set k v d)).Nodup := by
  rw [keys_set]
  by_cases h2 : k ∈ keys d
  · simp [h2, h]
  · simp only [h2, if_false]
    rw [List.nodup_append]
    refine ⟨h, by simp, ?_⟩
    intro a ha b hb
    simp at hb
    subst hb
    exact fun e => h2 (e ▸ ha)

theorem nodup_union (a b : Dict κ β) (h : (keys a).Nodup) : (keys (Dict.union a b)).Nodup := by
  unfold Dict.union
  induction b generalizing a with
  | nil => exact h
  | cons p b ih => exact ih _ (nodup_set a _ _ h)

theorem lookup_union (a b : Dict κ β) (k : κ) :
    Dict.lookup k (Dict.union a b) =
      match Spec.ofList b k with
      | some v => some v
      | none => Dict.lookup k a := by
  unfold Dict.union
  induction b generalizing a with
  | nil => simp [Spec.ofList]
  | cons p b ih =>
    obtain ⟨c, w⟩ := p
    simp only [List.foldl_cons, ih, lookup_set, Spec.ofList]
    cases Spec.ofList b k with
    | some v => rfl
    | none => by_cases h : k = c <;> simp [h]

theorem ofList_eq_lookup (d : Dict κ β) (h : (keys d).Nodup) (k : κ) :
    Spec.ofList d k = Dict.lookup k d := by
  induction d with
  | nil => rfl
  | cons p d ih =>
    obtain ⟨a, w⟩ := p
    have hn : a ∉ keys d ∧ (keys d).Nodup := by simpa [keys] using h
    simp only [Spec.ofList, ih hn.2, Dict.lookup]
    by_cases h2 : a = k
    · subst h2
      rw [(lookup_none_iff d a).mpr hn.1]
      try simp
    · simp only [h2, if_false]
      cases Dict.lookup k d with
      | some v => rfl
      | none => simp [Ne.symm h2]

theorem lookup_init (kw : Dict κ β) (k : κ) : Dict.lookup k (init kw) = Spec.ofList kw k := by
  unfold init
  rw [lookup_union]
  cases Spec.ofList kw k <;> simp [Dict.lookup]

theorem lookup_add (a b : Dict κ β) (ha : (keys a).Nodup) (hb : (keys b).Nodup) (k : κ) :
    Dict.lookup k (add a b) = if (Dict.lookup k b).isSome then Dict.lookup k b else Dict.lookup k a := by
  unfold add
  rw [lookup_init, ofList_eq_lookup _ (nodup_union a b ha), lookup_union, ofList_eq_lookup b hb]
  cases Dict.lookup k b <;> simp

theorem keys_erase (d d' : Dict κ β) (k : κ) (h : Dict.erase k d = some d') :
    ∃ l1 l2, keys d = l1 ++ k :: l2 ∧ keys d' = l1 ++ l2 := by
  induction d generalizing d' with
  | nil => simp [Dict.erase] at h
  | cons p d ih =>
    obtain ⟨a, w⟩ := p
    simp only [Dict.erase] at h
    by_cases h2 : a = k
    · subst h2
      simp at h; subst h
      exact ⟨[], keys d, rfl, rfl⟩
    · simp only [h2, if_false] at h
      split at h
      · cases h
      · rename_i d'' he
        injection h with h; subst h
        obtain ⟨l1, l2, e1, e2⟩ := ih _ he
        refine ⟨a :: l1, l2, ?_, ?_⟩
        · show a :: keys d = _; rw [e1]; rfl
        · show a :: keys d'' = _; rw [e2]; rfl

theorem erase_none_iff (d : Dict κ β) (k : κ) : Dict.erase k d = none ↔ k ∉ keys d := by
  induction d with
  | nil => simp [Dict.erase, keys]
  | cons p d ih =>
    obtain ⟨a, w⟩ := p
    simp only [Dict.erase, keys, List.map_cons, List.mem_cons, not_or]
    by_cases h : a = k
    · simp [h]
    · simp only [h, if_false]
      cases he : Dict.erase k d with
      | none => simp only [true_iff]; exact ⟨Ne.symm h, ih.mp he⟩
      | some d' =>
        simp only [reduceCtorEq, false_iff, not_and]
        intro _ hh
        rw [ih.mpr hh] at he; cases he

theorem lookup_erase_ne (d d' : Dict κ β) (k k' : κ) (h : Dict.erase k d = some d') (hne : k' ≠ k) :
    Dict.lookup k' d' = Dict.lookup k' d := by
  induction d generalizing d' with
  | nil => simp [Dict.erase] at h
  | cons p d ih =>
    obtain ⟨a, w⟩ := p
    simp only [Dict.erase] at h
    by_cases h2 : a = k
    · subst h2
      simp at h; subst h
      simp [Dict.lookup, Ne.symm hne]
    · simp only [h2, if_false] at h
      split at h
      · cases h
      · rename_i d'' he
        injection h with h; subst h
        simp only [Dict.lookup, ih _ he]

theorem nodup_delattr (d : Dict κ β) (k : κ) (h : (keys d).Nodup) : (keys (delattr d k)).Nodup := by
  unfold delattr
  split
  · rename_i d' he
    obtain ⟨l1, l2, e1, e2⟩ := keys_erase _ _ _ he
    rw [e1] at h; rw [e2]
    rw [List.nodup_append] at h ⊢
    exact ⟨h.1, (List.nodup_cons.mp h.2.1).2, fun a ha b hb => h.2.2 a ha b (List.mem_cons_of_mem _ hb)⟩
  · exact h

theorem lookup_delattr (d : Dict κ β) (k k' : κ) (h : (keys d).Nodup) :
    Dict.lookup k' (delattr d k) = if k' = k then none else Dict.lookup k' d := by
  unfold delattr
  split
  · rename_i d' he
    by_cases hk : k' = k
    · subst hk
      simp only [if_true]
      rw [lookup_none_iff]
      obtain ⟨l1, l2, e1, e2⟩ := keys_erase _ _ _ he
      rw [e1, List.nodup_append] at h
      rw [e2, List.mem_append, not_or]
      exact ⟨fun hh => h.2.2 k' hh k' List.mem_cons_self rfl, (List.nodup_cons.mp h.2.1).1⟩
    · simp only [hk, if_false]
      exact lookup_erase_ne _ _ _ _ he hk
  · rename_i he
    by_cases hk : k' = k
    · subst hk
      simp only [if_true]
      rw [lookup_none_iff]; exact (erase_none_iff d k').mp he
    · simp [hk]

theorem nodup_init (kw : Dict κ β) : (keys (init kw)).Nodup :=
  nodup_union [] kw (by simp [keys])

theorem modify_getElem? {γ : Type} (i : Nat) (f : γ → γ) (l : List γ) (j : Nat) :
    (modify i f l)[j]? = if j = i then l[j]?.map f else l[j]? := by
  induction l generalizing i j with
  | nil => cases i <;> simp [modify]
  | cons x xs ih =>
    cases i with
    | zero => cases j <;> simp [modify]
    | succ i => cases j <;> simp [modify, ih]

theorem modify_length {γ : Type} (i : Nat) (f : γ → γ) (l : List γ) :
    (modify i f l).length = l.length := by
  induction l generalizing i with
  | nil => cases i <;> simp [modify]
  | cons x xs ih => cases i <;> simp [modify, ih]

/-- Relation between a heap and its specification. -/
structure Rel (h : List (Dict κ β)) (s : List (Spec.Props κ β)) : Prop where
  len : h.length = s.length
  nodup : ∀ d ∈ h, (keys d).Nodup
  val : ∀ (i : Nat) (d : Dict κ β) (p : Spec.Props κ β), h[i]? = some d → s[i]? = some p →
    ∀ k, Dict.lookup k d = p k

theorem rel_append {h : List (Dict κ β)} {s : List (Spec.Props κ β)} (r : Rel h s)
    (d : Dict κ β) (p : Spec.Props κ β) (hn : (keys d).Nodup) (hv : ∀ k, Dict.lookup k d = p k) :
    Rel (h ++ [d]) (s ++ [p]) := by
  refine ⟨by simp [r.len], ?_, ?_⟩
  · intro d' hd'
    rcases List.mem_append.mp hd' with hh | hh
    · exact r.nodup d' hh
    · simp at hh; subst hh; exact hn
  · intro i d' p' h1 h2
    by_cases hi : i < h.length
    · rw [List.getElem?_append_left hi] at h1
      rw [List.getElem?_append_left (by rw [← r.len]; exact hi)] at h2
      exact r.val i d' p' h1 h2
    · rw [List.getElem?_append_right (by omega)] at h1
      rw [List.getElem?_append_right (by rw [← r.len]; omega)] at h2
      have : i - h.length = 0 := by
        have := (List.getElem?_eq_some_iff.mp h1).1
        simpa using this
      have h2l : i - s.length = 0 := by rw [← r.len]; exact this
      rw [this] at h1
      rw [h2l] at h2
      simp at h1 h2
      subst h1; subst h2
      exact hv

theorem rel_modify {h : List (Dict κ β)} {s : List (Spec.Props κ β)} (r : Rel h s) (o : Nat)
    (f : Dict κ β → Dict κ β) (g : Spec.Props κ β → Spec.Props κ β)
    (hn : ∀ d, (keys d).Nodup → (keys (f d)).Nodup)
    (hv : ∀ d p, (keys d).Nodup → (∀ k, Dict.lookup k d = p k) → ∀ k, Dict.lookup k (f d) = g p k) :
    Rel (modify o f h) (s.mapIdx (fun i p => if i = o then g p else p)) := by
  refine ⟨by simp [modify_length, r.len], ?_, ?_⟩
  · intro d hd
    obtain ⟨i, hi⟩ := List.mem_iff_getElem?.mp hd
    rw [modify_getElem?] at hi
    by_cases h2 : i = o
    · simp only [h2, if_true] at hi
      cases ho : h[o]? with
      | none => simp [ho] at hi
      | some d' =>
        simp [ho] at hi; subst hi
        exact hn _ (r.nodup _ (List.mem_of_getElem? ho))
    · simp only [h2, if_false] at hi
      exact r.nodup _ (List.mem_of_getElem? hi)
  · intro i d p h1 h2
    rw [modify_getElem?] at h1
    rw [List.getElem?_mapIdx] at h2
    cases hs : s[i]? with
    | none => simp [hs] at h2
    | some p' =>
      cases hh : h[i]? with
      | none => simp [hh] at h1
      | some d' =>
        have hval := r.val i d' p' hh hs
        simp only [hs, Option.map_some, Option.some.injEq] at h2
        by_cases hio : i = o
        · simp only [hio, if_true] at h1 h2
          rw [hio] at hh
          simp only [hh, Option.map_some, Option.some.injEq] at h1
          subst h1; subst h2
          exact hv d' p' (r.nodup _ (List.mem_of_getElem? hh)) hval
        · simp only [hio, if_false] at h1 h2
          rw [hh] at h1
          injection h1 with h1
          subst h1; subst h2
          exact hval

theorem rel_step {h : List (Dict κ β)} {s : List (Spec.Props κ β)} (r : Rel h s) (op : Op κ β) :
    Rel (step h op) (Spec.step s op) := by
  cases op with
  | new kw => exact rel_append r _ _ (nodup_init kw) (lookup_init kw)
  | set o k v =>
    exact rel_modify r o (fun d => setattr d k v) (fun p k' => if k' = k then some v else p k')
      (fun d hd => nodup_set d k v hd)
      (fun d p _ hp k' => by simp only [setattr, lookup_set]; by_cases h : k' = k <;> simp [h, hp])
  | del o k =>
    exact rel_modify r o (fun d => delattr d k) (fun p k' => if k' = k then none else p k')
      (fun d hd => nodup_delattr d k hd)
      (fun d p hd hp k' => by simp only [lookup_delattr d k k' hd]; by_cases h : k' = k <;> simp [h, hp])
  | add a b =>
    simp only [step, Spec.step]
    cases ha : h[a]? with
    | none =>
      have : s[a]? = none := by
        rw [List.getElem?_eq_none_iff] at ha ⊢; rw [← r.len]; exact ha
      simp only [this]; exact r
    | some x =>
      cases hb : h[b]? with
      | none =>
        have : s[b]? = none := by
          rw [List.getElem?_eq_none_iff] at hb ⊢; rw [← r.len]; exact hb
        rw [this]
        cases s[a]? <;> exact r
      | some y =>
        have hla : a < s.length := by rw [← r.len]; exact (List.getElem?_eq_some_iff.mp ha).1
        have hlb : b < s.length := by rw [← r.len]; exact (List.getElem?_eq_some_iff.mp hb).1
        simp only [List.getElem?_eq_getElem hla, List.getElem?_eq_getElem hlb]
        have hx := r.val a x _ ha (List.getElem?_eq_getElem hla)
        have hy := r.val b y _ hb (List.getElem?_eq_getElem hlb)
        have nx := r.nodup _ (List.mem_of_getElem? ha)
        have ny := r.nodup _ (List.mem_of_getElem? hb)
        refine rel_append r _ _ ?_ ?_
        · exact nodup_init _
        · intro k
          rw [lookup_add x y nx ny k, hx, hy]

theorem lookup_mem (d : Dict κ β) (h : (keys d).Nodup) (k : κ) (v : Option β) :
    Dict.lookup k d = some v ↔ (k, v) ∈ d := by
  induction d with
  | nil => simp [Dict.lookup]
  | cons p d ih =>
    obtain ⟨a, w⟩ := p
    have hn : a ∉ keys d ∧ (keys d).Nodup := by simpa [keys] using h
    simp only [Dict.lookup, List.mem_cons, Prod.mk.injEq]
    by_cases h2 : a = k
    · subst h2
      simp only [if_true, Option.some.injEq, true_and]
      constructor
      · intro e; exact .inl e.symm
      · rintro (e | e)
        · exact e.symm
        · exact absurd (List.mem_map.mpr ⟨_, e, rfl⟩) hn.1
    · simp only [h2, if_false, ih hn.2]
      constructor
      · exact .inr
      · rintro (⟨e, _⟩ | e)
        · exact absurd e.symm h2
        · exact e

/-- A duplicate-free list inside another of at most the same length covers it. -/
theorem covers {α : Type} [DecidableEq α] : ∀ (a b : List α), a.Nodup → (∀ x ∈ a, x ∈ b) →
    b.length ≤ a.length → b.Nodup → ∀ x ∈ b, x ∈ a := by
  intro a
  induction a with
  | nil =>
    intro b _ _ hl _ x hx
    have : b = [] := List.eq_nil_of_length_eq_zero (by simpa using hl)
    subst this; exact hx
  | cons c a ih =>
    intro b hn hs hl hb x hx
    have hc : c ∈ b := hs c List.mem_cons_self
    by_cases hxc : x = c
    · subst hxc; exact List.mem_cons_self
    · refine List.mem_cons_of_mem _ (ih (b.erase c) (List.nodup_cons.mp hn).2 ?_ ?_ (hb.erase c) x ?_)
      · intro y hy
        have hyc : y ≠ c := fun e => (List.nodup_cons.mp hn).1 (e ▸ hy)
        exact (List.mem_erase_of_ne hyc).mpr (hs y (List.mem_cons_of_mem _ hy))
      · rw [List.length_erase_of_mem hc]; simp at hl; omega
      · exact (List.mem_erase_of_ne hxc).mpr hx

theorem length_le_of_subset {α : Type} [DecidableEq α] : ∀ (a b : List α), a.Nodup →
    (∀ x ∈ a, x ∈ b) → a.length ≤ b.length := by
  intro a
  induction a with
  | nil => intro b _ _; simp
  | cons c a ih =>
    intro b hn hs
    have hc : c ∈ b := hs c List.mem_cons_self
    have := ih (b.erase c) (List.nodup_cons.mp hn).2 (by
      intro y hy
      have hyc : y ≠ c := fun e => (List.nodup_cons.mp hn).1 (e ▸ hy)
      exact (List.mem_erase_of_ne hyc).mpr (hs y (List.mem_cons_of_mem _ hy)))
    rw [List.length_erase_of_mem hc] at this
    have : 0 < b.length := List.length_pos_of_mem hc
    simp; omega

theorem eq_iff [DecidableEq β] (a b : Dict κ β) (ha : (keys a).Nodup) (hb : (keys b).Nodup) :
    eq a b = true ↔ ∀ k, Dict.lookup k a = Dict.lookup k b := by
  have la : (keys a).length = a.length := by simp [keys]
  have lb : (keys b).length = b.length := by simp [keys]
  unfold eq
  simp only [Bool.and_eq_true, beq_iff_eq, List.all_eq_true]
  constructor
  · rintro ⟨hl, hall⟩ k
    cases hk : Dict.lookup k a with
    | some v => exact (hall (k, v) ((lookup_mem a ha k v).mp hk)).symm
    | none =>
      symm
      rw [lookup_none_iff] at hk ⊢
      intro hkb
      apply hk
      refine covers (keys a) (keys b) ha ?_ (by omega) hb k hkb
      intro x hx
      obtain ⟨⟨x', v⟩, hm, rfl⟩ := List.mem_map.mp hx
      have := hall (x', v) hm
      exact List.mem_map.mpr ⟨_, (lookup_mem b hb _ _).mp this, rfl⟩
  · intro h
    refine ⟨?_, ?_⟩
    · have key : ∀ a b : Dict κ β, (keys a).Nodup → (keys b).Nodup →
          (∀ k, Dict.lookup k a = Dict.lookup k b) → a.length ≤ b.length := by
        intro a b ha hb h
        have hs : ∀ x ∈ keys a, x ∈ keys b := by
          intro x hx
          apply Classical.byContradiction
          intro hnb
          rw [← lookup_none_iff, ← h x, lookup_none_iff] at hnb
          exact hnb hx
        have : (keys a).length ≤ (keys b).length :=
          length_le_of_subset _ _ ha hs
        simpa [keys] using this
      exact Nat.le_antisymm (key a b ha hb h) (key b a hb ha (fun k => (h k).symm))
    · rintro ⟨k, v⟩ hm
      rw [← h k]
      exact (lookup_mem a ha k v).mpr hm

end Quickly.Datatypes
