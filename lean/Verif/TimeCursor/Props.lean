import Verif.TimeCursor.Spec
import Verif.Find.Props
import Verif.Time.Props

/-! # C84: The musical time at the cursor -/

namespace Quickly.TimeCursor

open Quickly.Node Quickly.Node.Spec Quickly.Find Quickly.Time Quickly.Find.Spec Spec

/-! ## The two views of a tree -/

theorem orgs_go (cs : List (Node.Tree Label)) : orgs.go cs = cs.map orgs := by
  induction cs with
  | nil => rfl
  | cons c cs ih => rw [orgs.go, ih]; rfl

theorem music_go (cs : List (Node.Tree Label)) : music.go cs = cs.map music := by
  induction cs with
  | nil => rfl
  | cons c cs ih => rw [music.go, ih]; rfl

theorem orgs_children (t : Node.Tree Label) : (orgs t).children = t.children.map orgs := by
  cases t; exact orgs_go _

theorem music_children (t : Node.Tree Label) : (music t).children = t.children.map music := by
  cases t; exact music_go _

theorem music_kind (t : Node.Tree Label) : (music t).kind = t.val.2 := by
  cases t; rfl

theorem orgs_get (p : List ℕ) : ∀ t : Node.Tree Label, (orgs t).get? p = (t.get? p).map orgs := by
  induction p with
  | nil => intro t; rfl
  | cons i p ih =>
    intro t
    rw [Node.Tree.get?, Node.Tree.get?, orgs_children, List.getElem?_map]
    cases t.children[i]? with
    | none => rfl
    | some c => exact ih c

theorem music_get (p : List ℕ) : ∀ t : Node.Tree Label, Time.get (music t) p = (t.get? p).map music := by
  induction p with
  | nil => intro t; rfl
  | cons i p ih =>
    intro t
    rw [Time.get, Node.Tree.get?, music_children, List.getElem?_map]
    cases t.children[i]? with
    | none => rfl
    | some c => exact ih c

theorem get_append (t : Node.Tree Org) (p q : List ℕ) (m : Node.Tree Org) (h : t.get? p = some m) :
    t.get? (p ++ q) = m.get? q := by
  induction p generalizing t with
  | nil => simp only [Node.Tree.get?, Option.some.injEq] at h; subst h; rfl
  | cons i p ih =>
    rw [Node.Tree.get?] at h
    rw [List.cons_append, Node.Tree.get?]
    split at h
    · rename_i c hc
      exact ih c h
    · cases h

theorem get_take (t : Node.Tree Org) (p q : List ℕ) (m : Node.Tree Org) (h : t.get? (p ++ q) = some m) :
    ∃ w, t.get? p = some w := by
  induction p generalizing t with
  | nil => exact ⟨t, rfl⟩
  | cons i p ih =>
    rw [List.cons_append, Node.Tree.get?] at h
    rw [Node.Tree.get?]
    split at h
    · rename_i c hc
      exact ih c h
    · cases h

theorem left_sep (t : Node.Tree Org) (h : Ordered t) (p q : List ℕ) (a b : Node.Tree Org) (ha : t.get? p = some a)
    (hb : t.get? q = some b) (hl : Left p q) : Sep a b := by
  obtain ⟨c, i, j, r, s, rfl, rfl, hij⟩ := hl
  obtain ⟨w, hw⟩ := get_take t c _ a ha
  rw [get_append t c _ w hw, Node.Tree.get?] at ha hb
  split at ha
  case h_2 => cases ha
  rename_i ci hci
  split at hb
  case h_2 => cases hb
  rename_i cj hcj
  have ho := (toks_get t c w hw).2 h
  have hsep := iterate_sep (([] : Path), w) ho
  intro k hk k' hk'
  have hk := (toks_get _ _ _ ha).1.subset hk
  have hk' := (toks_get _ _ _ hb).1.subset hk'
  have h1 : w.children = w.children.take j ++ cj :: w.children.drop (j + 1) := by
    obtain ⟨hj, hcj⟩ := List.getElem?_eq_some_iff.1 hcj
    rw [← hcj, List.getElem_cons_drop, List.take_append_drop]
  have ho1 := ho.inOrder
  rw [toks_eq, h1, go_append, toks.go, List.pairwise_append, List.pairwise_append] at ho1
  have hmem : ci ∈ w.children.take j := by
    rw [List.mem_iff_getElem?]
    exact ⟨i, by rw [List.getElem?_take_of_lt hij]; exact hci⟩
  obtain ⟨as, bs, hab⟩ := List.append_of_mem hmem
  have ho2 := ho1.1.2.1
  rw [List.pairwise_append] at ho2
  refine ho2.2.2 k ?_ k' (List.mem_append_left _ hk')
  rw [hab, go_append, toks.go]
  exact List.mem_append_right _ (List.mem_append_left _ hk)

theorem starts_unique {t : Node.Tree Org} {a b : ℤ} (ha : Starts t a) (hb : Starts t b) : a = b := by
  obtain ⟨k, ks, h1, rfl⟩ := ha
  obtain ⟨k', ks', h2, rfl⟩ := hb
  rw [h1] at h2
  injection h2 with h2
  rw [h2]

theorem ends_unique {t : Node.Tree Org} {a b : ℤ} (ha : Ends t a) (hb : Ends t b) : a = b := by
  rw [ends_iff] at ha hb
  rw [ha] at hb
  exact Option.some.inj hb

/-! ## The node at the cursor -/

theorem getElem_get (t : Node.Tree Label) (p : List ℕ) (l c : Node.Tree Label) (i : ℕ) (h : t.get? p = some l)
    (hc : l.children[i]? = some c) : (orgs t).get? (p ++ [i]) = some (orgs c) := by
  rw [get_append (orgs t) p [i] (orgs l) (by rw [orgs_get, h]; rfl), Node.Tree.get?, orgs_children, List.getElem?_map, hc]
  rfl

theorem findRight_list (t : Node.Tree Label) (ho : Ordered (orgs t)) (p : List ℕ) (l : Node.Tree Label)
    (hp : t.get? p = some l) (i : ℕ) (x : ℤ) (hx : Before l i x) :
    ∃ n, findRight x ([], orgs t) = .ok (some n) ∧ n.1 = p ++ [i] := by
  obtain ⟨⟨a, ha, hax⟩, ⟨c, hc, b, hb, hxb⟩, haft⟩ := hx
  have hpo : (orgs t).get? p = some (orgs l) := by rw [orgs_get, hp]; rfl
  have hco : (orgs t).get? (p ++ [i]) = some (orgs c) := getElem_get t p l c i hp hc
  have hcd : Descendant (orgs t) (p ++ [i], orgs c) := ⟨hco, by simp⟩
  obtain ⟨r, h1, h2⟩ := C43_find_right (orgs t) ho x
  rcases r with _ | n
  · exact absurd (h2 _ b hcd hb) (by omega)
  refine ⟨n, h1, ?_⟩
  obtain ⟨hn, ⟨q, hq, hxq⟩, h3⟩ := h2
  rcases h3 _ b hcd hb hxb with h | h | h
  · rw [← h]
  · exfalso
    obtain ⟨j, r, hjr⟩ := h
    simp only at hjr
    -- the node is the list or an ancestor of it
    obtain ⟨s, hs⟩ : ∃ s, p = n.1 ++ s := by
      rcases List.eq_nil_or_concat (j :: r) with h | ⟨s, z, h⟩
      · cases h
      · rw [h, List.concat_eq_append, ← List.append_assoc] at hjr
        exact ⟨s, (List.append_inj' hjr rfl).1⟩
    have hget := hpo
    rw [hs, get_append (orgs t) n.1 s n.2 hn.1] at hget
    obtain ⟨k, hk, hka⟩ := starts_mem ha
    have := starts_le ((toks_get _ _ _ hn.1).2 ho) hq ((toks_get _ _ _ hget).1.subset hk)
    omega
  · exfalso
    obtain ⟨e, j, j', r, s, hn1, hps, hjj⟩ := h
    simp only at hps
    obtain ⟨k, hk, hkq⟩ := starts_mem hq
    have hke : k.pos < k.stop := ho.nonempty k ((toks_get _ _ _ hn.1).1.subset hk)
    rcases List.eq_nil_or_concat s with rfl | ⟨s', z, rfl⟩
    · -- in an earlier item of the list
      obtain ⟨rfl, hi⟩ := List.append_inj' hps rfl
      injection hi with hi
      subst hi
      have hget := hn.1
      unfold NodeOf at hget
      rw [hn1, get_append (orgs t) p (j :: r) (orgs l) hpo, Node.Tree.get?] at hget
      split at hget
      case h_2 => cases hget
      rename_i w hw
      rw [orgs_children, List.getElem?_map] at hw
      obtain ⟨w', hw', rfl⟩ := Option.map_eq_some_iff.1 hw
      have hkw := (toks_get _ _ _ hget).1.subset hk
      obtain ⟨-, e, he⟩ := spans hkw
      have h4 := haft j hjj w' hw' e he
      have ho' : Ordered (orgs w') := (toks_get _ _ _ (getElem_get t p l w' j hp hw')).2 ho
      have h5 := le_ends ho' he hkw
      omega
    · -- left of the list
      have hpe : p = e ++ j' :: s' := by
        rw [List.concat_eq_append, ← List.cons_append, ← List.append_assoc] at hps
        exact (List.append_inj' hps rfl).1
      obtain ⟨k', hk', hka⟩ := starts_mem ha
      have := left_sep (orgs t) ho n.1 p n.2 (orgs l) hn.1 hpo ⟨e, j, j', r, s', hn1, hpe, hjj⟩ k hk k' hk'
      omega

theorem findLeft_list (t : Node.Tree Label) (ho : Ordered (orgs t)) (p : List ℕ) (l : Node.Tree Label)
    (hp : t.get? p = some l) (i : ℕ) (x : ℤ) (hx : After l i x) :
    ∃ n, findLeft x ([], orgs t) = .ok (some n) ∧ n.1 = p ++ [i] := by
  obtain ⟨⟨a, ha, hax⟩, ⟨c, hc, b, hb, hxb⟩, haft⟩ := hx
  have hpo : (orgs t).get? p = some (orgs l) := by rw [orgs_get, hp]; rfl
  have hco : (orgs t).get? (p ++ [i]) = some (orgs c) := getElem_get t p l c i hp hc
  have hcd : Descendant (orgs t) (p ++ [i], orgs c) := ⟨hco, by simp⟩
  obtain ⟨r, h1, h2⟩ := C43_find_left (orgs t) ho x
  rcases r with _ | n
  · exact absurd (h2 _ b hcd hb) (by omega)
  refine ⟨n, h1, ?_⟩
  obtain ⟨hn, q, hq, hxq, h3⟩ := h2
  rcases (h3 _ b hcd hb hxb).2 with h | h | h
  · rw [← h]
  · exfalso
    obtain ⟨j, r, hjr⟩ := h
    simp only at hjr
    obtain ⟨s, hs⟩ : ∃ s, p = n.1 ++ s := by
      rcases List.eq_nil_or_concat (j :: r) with h | ⟨s, z, h⟩
      · cases h
      · rw [h, List.concat_eq_append, ← List.append_assoc] at hjr
        exact ⟨s, (List.append_inj' hjr rfl).1⟩
    have hget := hpo
    rw [hs, get_append (orgs t) n.1 s n.2 hn.1] at hget
    obtain ⟨k, hk, hka⟩ := ends_mem ha
    have := le_ends ((toks_get _ _ _ hn.1).2 ho) hq ((toks_get _ _ _ hget).1.subset hk)
    omega
  · exfalso
    obtain ⟨e, j, j', s, r, hps, hn1, hjj⟩ := h
    simp only at hps
    obtain ⟨k, hk, hkq⟩ := ends_mem hq
    have hke : k.pos < k.stop := ho.nonempty k ((toks_get _ _ _ hn.1).1.subset hk)
    rcases List.eq_nil_or_concat s with rfl | ⟨s', z, rfl⟩
    · obtain ⟨rfl, hi⟩ := List.append_inj' hps rfl
      injection hi with hi
      subst hi
      have hget := hn.1
      unfold NodeOf at hget
      rw [hn1, get_append (orgs t) p (j' :: r) (orgs l) hpo, Node.Tree.get?] at hget
      split at hget
      case h_2 => cases hget
      rename_i w hw
      rw [orgs_children, List.getElem?_map] at hw
      obtain ⟨w', hw', rfl⟩ := Option.map_eq_some_iff.1 hw
      have hkw := (toks_get _ _ _ hget).1.subset hk
      obtain ⟨⟨e, he⟩, -⟩ := spans hkw
      have h4 := haft j' hjj w' hw' e he
      have ho' : Ordered (orgs w') := (toks_get _ _ _ (getElem_get t p l w' j' hp hw')).2 ho
      have h5 := starts_le ho' he hkw
      omega
    · have hpe : p = e ++ j :: s' := by
        rw [List.concat_eq_append, ← List.cons_append, ← List.append_assoc] at hps
        exact (List.append_inj' hps rfl).1
      obtain ⟨k', hk', hka⟩ := ends_mem ha
      have := left_sep (orgs t) ho p n.1 (orgs l) n.2 hpo hn.1 ⟨e, j, j', s', r, hpe, hn1, hjj⟩ k' hk' k hk
      omega

theorem chordAt_false (t : Node.Tree Label) (q : List ℕ)
    (h : ∀ m, t.get? q = some m → ∀ b d s, m.val.2 ≠ .chord b d s) : chordAt (music t) q = false := by
  unfold chordAt
  rw [music_get]
  rcases hq : t.get? q with _ | m
  · rfl
  · have := h m hq
    obtain ⟨l, cs⟩ := m
    simp only [Option.map_some, music]
    split
    · rename_i heq
      simp only [Option.some.injEq, Mus.node.injEq] at heq
      exact absurd heq.1 (this _ _ _)
    · rfl

theorem musicChild_list (t : Node.Tree Label) (p : List ℕ) (l : Node.Tree Label) (hl : InList t p l) (i : ℕ) :
    musicChild (music t) (p ++ [i]) = some (p ++ [i]) := by
  unfold musicChild
  by_cases hc : chordAt (music t) (p ++ [i]) = true
  · rw [if_pos hc]
  rw [if_neg hc]
  have habove : ∀ k ≤ p.length + 1, chordAbove (music t) (p ++ [i]) k = none := by
    intro k
    induction k with
    | zero => intro _; rfl
    | succ k ih =>
      intro hk
      have htake : (p ++ [i]).take k = p.take k := by rw [List.take_append_of_le_length (by omega)]
      rw [chordAbove, htake, chordAt_false t _ (hl.no_chord k (by omega))]
      exact ih (by omega)
  rw [habove _ (by simp)]
  have htr := hl.sequential
  have hm : musicAt (music t) p = true := by
    unfold musicAt
    rw [music_get, hl.at_path, Option.map_some]
    simp only [music_kind, htr]
    rfl
  simp only [List.length_append, List.length_singleton]
  rw [childLoop, List.take_left, hm, Bool.or_true, if_pos rfl, List.take_of_length_le (by simp)]

/-! ## The properties -/

/-- **C84**: between the items of a music list, the position is the moment at which the next item starts. -/
theorem C84_position (rem : Remote) (t : Node.Tree Label) (ho : Ordered (orgs t)) (p : List ℕ) (l : Node.Tree Label)
    (hl : InList t p l) (i : ℕ) (x : ℤ) (hx : Before l i x) :
    ∃ mp trail m, p = mp ++ trail ∧ Time.get (music t) mp = some m ∧
      (∀ j, mp.length ≤ j → j ≤ p.length → musicAt (music t) (p.take j) = true) ∧
      (∀ q i, mp = q ++ [i] → musicAt (music t) q = false) ∧
      cursorPosition rem (some t) x = (Time.Spec.onset rem {} 0 m (trail ++ [i])).map fun y => some (mp, y) := by
  obtain ⟨n, h1, h2⟩ := findRight_list t ho p l hl.at_path i x hx
  obtain ⟨-, ⟨c, hc, -⟩, -⟩ := hx
  have htr := hl.sequential
  have hgp : Time.get (music t) p = some (music l) := by rw [music_get, hl.at_path]; rfl
  have hmus : (music l).kind.isMusic = true := by rw [music_kind, htr]; rfl
  have hm : musicAt (music t) p = true := by
    unfold musicAt
    rw [hgp]
    exact hmus
  have hch : (music l).children[i]? = some (music c) := by rw [music_children, List.getElem?_map, hc]; rfl
  obtain ⟨mp, m, trail, hpre, hmp, hg, hpi, -, -⟩ := position_child rem (music t) p i _ _ hgp hmus hch
  obtain ⟨hpt, ht1, ht2⟩ := C52_topmost _ _ _ _ hpre
  refine ⟨mp, trail, m, hpt, hmp, ?_, ht2, ?_⟩
  · intro j hj1 hj2
    by_cases hj : j < p.length
    · exact ht1 j hj1 hj
    · rw [List.take_of_length_le (by omega)]
      exact hm
  · have hsome : (Time.get m (trail ++ [i])).isSome := by
      rw [Time.get_append, hg]
      simp [Time.get, hch]
    have hpos := C52_position rem (music t) mp (trail ++ [i]) m
      (by rw [← List.append_assoc, ← hpt]; exact hpi) hmp hsome
    rw [← List.append_assoc, ← hpt] at hpos
    simp only [cursorPosition, h1, h2, musicChild_list t p l hl i, hpos]
    cases Time.Spec.onset rem {} 0 m (trail ++ [i]) <;> rfl

theorem positions (rem : Remote) (root : Mus) (p : List ℕ) (m : Mus) (hp : Time.get root p = some m)
    (hs : m.kind.isSequential = true) (i : ℕ) (mp : List ℕ) (a : ℚ)
    (ha : position rem root (p ++ [i]) false = .ok (mp, a)) (xs : ℕ → ℚ) (n : ℕ) (hn : i + n < m.children.length)
    (hx : ∀ k, i ≤ k → k < i + n → lengthAt rem root (p ++ [k]) = .ok (xs k)) :
    position rem root (p ++ [i + n]) false = .ok (mp, a + ((List.range' i n).map xs).sum) := by
  induction n with
  | zero => simpa using ha
  | succ n ih =>
    have ih := ih (by omega) (fun k h1 h2 => hx k h1 (by omega))
    rw [← Nat.add_assoc, C52_right_sibling rem root p (i + n) m _ _ hp hs (List.getElem?_eq_getElem (by omega))
      (List.getElem?_eq_getElem (by omega)), ih, hx (i + n) (by omega) (by omega)]
    simp only [bind, Except.bind, pure, Except.pure, List.range'_concat, List.map_append, List.sum_append]
    simp [add_assoc]

/-- **C84**: the duration of a selection of items in a music list is the sum of their lengths. -/
theorem C84_selection (rem : Remote) (t : Node.Tree Label) (ho : Ordered (orgs t)) (p : List ℕ) (l : Node.Tree Label)
    (hl : InList t p l) (i n : ℕ) (x y : ℤ) (hx : Before l i x) (hy : After l (i + n) y) (mp : List ℕ) (a : ℚ)
    (ha : position rem (music t) (p ++ [i]) false = .ok (mp, a)) (xs : ℕ → ℚ)
    (hlen : ∀ k, i ≤ k → k ≤ i + n → lengthAt rem (music t) (p ++ [k]) = .ok (xs k))
    (h0 : 0 ≤ ((List.range' i (n + 1)).map xs).sum) :
    cursorDuration rem (some t) (some (x, y)) = .ok (some (mp, ((List.range' i (n + 1)).map xs).sum)) := by
  obtain ⟨n1, h1, h2⟩ := findRight_list t ho p l hl.at_path i x hx
  obtain ⟨n2, h3, h4⟩ := findLeft_list t ho p l hl.at_path (i + n) y hy
  obtain ⟨-, ⟨c, hc, -⟩, -⟩ := hx
  obtain ⟨-, ⟨c', hc', -⟩, -⟩ := hy
  have htr := hl.sequential
  have hgp : Time.get (music t) p = some (music l) := by rw [music_get, hl.at_path]; rfl
  have hlt : i + n < (music l).children.length := by
    rw [music_children, List.length_map]
    exact (List.getElem?_eq_some_iff.1 hc').1
  have hseq : (music l).kind.isSequential = true := by rw [music_kind, htr]; rfl
  have hg : ∀ k, k ≤ i + n → (Time.get (music t) (p ++ [k])).isSome := by
    intro k hk
    rw [Time.get_append, hgp]
    simp [Time.get, List.getElem?_eq_getElem (show k < (music l).children.length by omega)]
  have hpos := positions rem (music t) p _ hgp hseq i mp a ha xs n hlt (fun k hk1 hk2 => hlen k hk1 (by omega))
  have hb : position rem (music t) (p ++ [i + n]) true =
      .ok (mp, a + ((List.range' i (n + 1)).map xs).sum) := by
    rw [C52_position_include rem _ _ (hg _ (Nat.le_refl _)), hpos, hlen (i + n) (by omega) (Nat.le_refl _)]
    simp only [bind, Except.bind, pure, Except.pure, List.range'_concat, List.map_append, List.sum_append]
    simp [add_assoc]
  have hdur := C52_duration_partial rem (music t) (p ++ [i]) (p ++ [i + n]) mp a _ (hg i (by omega))
    (hg _ (Nat.le_refl _)) ?_ ha hb
  · simp only [cursorDuration, h1, h2, h3, h4, musicChild_list t p l hl, hdur]
    rw [add_sub_cancel_left, if_pos h0]
  · intro q j j' r r' hq hq' hjj
    refine ⟨music l, ?_, by rw [music_kind, htr]; rfl⟩
    have hqp : q = p := by
      rcases List.eq_nil_or_concat r with rfl | ⟨s, z, rfl⟩
      · exact (List.append_inj' hq rfl).1.symm
      · exfalso
        rw [List.concat_eq_append, ← List.cons_append, ← List.append_assoc] at hq
        obtain ⟨rfl, -⟩ := List.append_inj' hq rfl
        rw [List.append_assoc, List.append_cancel_left_eq, List.cons_append] at hq'
        injection hq' with hq'
        exact hjj hq'
    rw [hqp]
    exact hgp

/-- **C84** (defect): with nothing at or after the cursor, `cursor_position` raises TypeError. -/
theorem C84_end_of_text (rem : Remote) (t : Node.Tree Label) (ho : Ordered (orgs t)) (x : ℤ)
    (h : ∀ d p, Descendant (orgs t) d → Starts d.2 p → p < x) :
    cursorPosition rem (some t) x = .error .typeError := by
  obtain ⟨r, h1, h2⟩ := C43_find_right (orgs t) ho x
  rcases r with _ | n
  · simp only [cursorPosition, h1]
  · obtain ⟨hn, ⟨q, hq, hxq⟩, -⟩ := h2
    exact absurd (h n q hn hq) (by omega)

theorem position_list (rem : Remote) (t : Node.Tree Label) (p : List ℕ) (l : Node.Tree Label)
    (hl : InList t p l) (i : ℕ) (c : Node.Tree Label) (hc : l.children[i]? = some c) :
    ∃ mp trail m, p = mp ++ trail ∧ Time.get (music t) mp = some m ∧
      (∀ j, mp.length ≤ j → j ≤ p.length → musicAt (music t) (p.take j) = true) ∧
      (∀ q i, mp = q ++ [i] → musicAt (music t) q = false) ∧
      position rem (music t) (p ++ [i]) false = (Time.Spec.onset rem {} 0 m (trail ++ [i])).map fun y => (mp, y) := by
  have htr := hl.sequential
  have hgp : Time.get (music t) p = some (music l) := by rw [music_get, hl.at_path]; rfl
  have hmus : (music l).kind.isMusic = true := by rw [music_kind, htr]; rfl
  have hm : musicAt (music t) p = true := by
    unfold musicAt
    rw [hgp]
    exact hmus
  have hch : (music l).children[i]? = some (music c) := by rw [music_children, List.getElem?_map, hc]; rfl
  obtain ⟨mp, m, trail, hpre, hmp, hg, hpi, -, -⟩ := position_child rem (music t) p i _ _ hgp hmus hch
  obtain ⟨hpt, ht1, ht2⟩ := C52_topmost _ _ _ _ hpre
  refine ⟨mp, trail, m, hpt, hmp, ?_, ht2, ?_⟩
  · intro j hj1 hj2
    by_cases hj : j < p.length
    · exact ht1 j hj1 hj
    · rw [List.take_of_length_le (by omega)]
      exact hm
  · have hsome : (Time.get m (trail ++ [i])).isSome := by
      rw [Time.get_append, hg]
      simp [Time.get, hch]
    have hpos := C52_position rem (music t) mp (trail ++ [i]) m
      (by rw [← List.append_assoc, ← hpt]; exact hpi) hmp hsome
    rwa [← List.append_assoc, ← hpt] at hpos

/-- **C84**: with the cursor in a chord that is item `k` of a list, between the pitches, the moment is that at which the
chord starts. -/
theorem C84_in_chord (rem : Remote) (t : Node.Tree Label) (ho : Ordered (orgs t)) (p : List ℕ) (l c n : Node.Tree Label)
    (hl : InList t p l) (k i : ℕ) (hk : l.children[k]? = some c) (b : Bool) (d s : ℚ) (hc : c.val.2 = .chord b d s)
    (hn : c.children[i]? = some n) (hnc : ∀ b d s, n.val.2 ≠ .chord b d s) (x : ℤ) (hx : Before c i x) :
    ∃ mp trail m, p = mp ++ trail ∧ Time.get (music t) mp = some m ∧
      (∀ j, mp.length ≤ j → j ≤ p.length → musicAt (music t) (p.take j) = true) ∧
      (∀ q i, mp = q ++ [i] → musicAt (music t) q = false) ∧
      cursorPosition rem (some t) x = (Time.Spec.onset rem {} 0 m (trail ++ [k])).map fun y => some (mp, y) := by
  have hget : t.get? (p ++ [k]) = some c := by
    rw [Node.get?_append, hl.at_path]
    simp [Node.Tree.get?, hk]
  have hget' : t.get? (p ++ [k] ++ [i]) = some n := by
    rw [Node.get?_append, hget]
    simp [Node.Tree.get?, hn]
  obtain ⟨m, h1, h2⟩ := findRight_list t ho (p ++ [k]) c hget i x hx
  have hchord : chordAt (music t) (p ++ [k]) = true := by
    unfold chordAt
    rw [music_get, hget]
    obtain ⟨v, cs⟩ := c
    obtain ⟨o, v⟩ := v
    simp only [Node.Tree.val] at hc
    subst hc
    rfl
  have hmc : musicChild (music t) (p ++ [k] ++ [i]) = some (p ++ [k]) := by
    unfold musicChild
    rw [if_neg (by rw [chordAt_false t _ (by rw [hget']; rintro m ⟨⟩; exact hnc)]; simp)]
    have : (p ++ [k] ++ [i]).length = (p ++ [k]).length + 1 := by simp
    rw [this, chordAbove, List.take_left, if_pos hchord]
  obtain ⟨mp, trail, m', g1, g2, g3, g4, g5⟩ := position_list rem t p l hl k c hk
  refine ⟨mp, trail, m', g1, g2, g3, g4, ?_⟩
  simp only [cursorPosition, h1, h2, hmc, g5]
  cases Time.Spec.onset rem {} 0 m' (trail ++ [k]) <;> rfl

theorem musicChild_outside (t : Node.Tree Label) (p : List ℕ) (h : Outside t p) : musicChild (music t) p = none := by
  have hch : ∀ k, chordAt (music t) (p.take k) = false := fun k => chordAt_false t _ fun m hm => (h k m hm).2
  have hmu : ∀ k, musicAt (music t) (p.take k) = false := by
    intro k
    unfold musicAt
    rw [music_get]
    cases hk : t.get? (p.take k) with
    | none => rfl
    | some m =>
      have := (h k m hk).1
      simp only [Option.map_some, music_kind]
      exact this
  unfold musicChild
  have h0 := hch p.length
  rw [List.take_length] at h0
  rw [if_neg (by rw [h0]; simp)]
  have habove : ∀ k, chordAbove (music t) p k = none := by
    intro k
    induction k with
    | zero => rfl
    | succ k ih => rw [chordAbove, if_neg (by rw [hch k]; simp), ih]
  have hloop : ∀ k, childLoop (music t) p k = none := by
    intro k
    induction k with
    | zero =>
      have := hmu 0
      rw [List.take_zero] at this
      rw [childLoop, if_neg (by rw [this]; simp)]
    | succ k ih => rw [childLoop, hmu, hmu, if_neg (by simp), ih]
  rw [habove, hloop]

/-- **C84**: with the cursor before an item of something that is not music, and not in music or a chord, the result is None; the
same if a selection starts or ends there. -/
theorem C84_outside (rem : Remote) (t : Node.Tree Label) (ho : Ordered (orgs t)) (p : List ℕ) (l : Node.Tree Label)
    (hp : t.get? p = some l) (i : ℕ) (hout : Outside t (p ++ [i])) :
    (∀ x, Before l i x → cursorPosition rem (some t) x = .ok none ∧
      ∀ y, cursorDuration rem (some t) (some (x, y)) = .ok none) ∧
    ∀ x y, After l i y → (∃ r, findRight x ([], orgs t) = .ok r) →
      cursorDuration rem (some t) (some (x, y)) = .ok none := by
  have hm := musicChild_outside t _ hout
  constructor
  · intro x hx
    obtain ⟨n, h1, h2⟩ := findRight_list t ho p l hp i x hx
    refine ⟨?_, fun y => ?_⟩
    · simp only [cursorPosition, h1, h2, hm]
    · simp only [cursorDuration, h1, h2, hm]
  · rintro x y hy ⟨r, hr⟩
    obtain ⟨n, h1, h2⟩ := findLeft_list t ho p l hp i y hy
    cases r with
    | none => simp only [cursorDuration, hr]
    | some m =>
      simp only [cursorDuration, hr, h1, h2, hm]
      cases musicChild (music t) m.1 <;> rfl

/-- Without a document, and without a selection, there is no result. -/
theorem C84_none (rem : Remote) (dom : Option (Node.Tree Label)) (x : ℤ) (sel : Option (ℤ × ℤ)) :
    cursorPosition rem none x = .ok none ∧ cursorDuration rem dom none = .ok none ∧
      cursorDuration rem none sel = .ok none := by
  refine ⟨rfl, ?_, ?_⟩
  · cases dom <;> rfl
  · cases sel <;> rfl

/-! ## A text -/

/-- A node with one token. -/
def tok (a b : ℤ) (k : Time.Kind) : Node.Tree Label := .node ({ head := [⟨a, b⟩] }, k) []

/-- `{ c4 d8 e4 } { f4 }`, with the notes at 2, 5 and 8. -/
def exDoc : Node.Tree Label :=
  .node ({}, .other)
    [.node ({ head := [⟨0, 1⟩], tail := [⟨11, 12⟩] }, .music true none)
      [tok 2 4 (.durable (1/4) 1), tok 5 7 (.durable (1/8) 1), tok 8 10 (.durable (1/4) 1)],
     .node ({ head := [⟨13, 14⟩], tail := [⟨18, 19⟩] }, .music true none) [tok 15 17 (.durable (1/4) 1)]]

theorem exDoc_ordered : Ordered (orgs exDoc) := ⟨by decide +kernel, by decide +kernel, headed_of (by decide)⟩

theorem exDoc_list : ∃ l, InList exDoc [0] l ∧ Before l 1 5 ∧ After l 2 10 := by
  refine ⟨_, ⟨rfl, rfl, ?_⟩, ⟨⟨0, ⟨_, _, rfl, rfl⟩, by decide⟩, ⟨_, rfl, 5, ⟨_, _, rfl, rfl⟩, by decide⟩, ?_⟩,
    ⟨⟨12, ⟨[_, _, _, _], _, rfl, rfl⟩, by decide⟩, ⟨_, rfl, 10, ⟨[], _, rfl, rfl⟩, by decide⟩, ?_⟩⟩
  · intro k hk m hm b d s
    simp only [List.length_singleton] at hk
    rcases k with _ | _ | k
    · injection hm with hm
      subst hm
      simp [exDoc, Node.Tree.val]
    · injection hm with hm
      subst hm
      simp [Node.Tree.val]
    · omega
  · intro j hj c hc b hb
    obtain rfl : j = 0 := by omega
    injection hc with hc
    subst hc
    rw [ends_iff] at hb
    have hb : (4 : ℤ) = b := Option.some.inj hb
    omega
  · intro j hj c hc a _
    rcases j with _ | _ | _ | j
    · omega
    · omega
    · omega
    · simp [Node.Tree.children] at hc

/-- Selecting the last two notes. -/
example : cursorDuration (remoteLength []) (some exDoc) (some (5, 10)) = .ok (some ([0], 3/8)) := by
  obtain ⟨l, h1, h2, h3⟩ := exDoc_list
  have := C84_selection (remoteLength []) exDoc exDoc_ordered [0] l h1 1 1 5 10 h2 h3 [0] (1/4) (by decide +kernel)
    (fun k => if k = 1 then 1/8 else 1/4) (by
      intro k h4 h5
      obtain rfl | rfl : k = 1 ∨ k = 2 := by omega
      all_goals decide +kernel) (by decide +kernel)
  rw [this]
  decide +kernel

/-- **C84** (defect): after the last note in the first list (at 10), the position is that of the second list. -/
theorem C84_after_last : cursorPosition (remoteLength []) (some exDoc) 10 = .ok (some ([1], 0)) := by
  have h : ∃ n, findRight 10 ([], orgs exDoc) = .ok (some n) ∧ n.1 = [1] := by
    simp [findRight, walk, iterate, number, lookRight, exDoc, orgs, orgs.go, tok, stop, stop.kids, pos, headPos,
      Node.Tree.val, Node.Tree.children]
  obtain ⟨n, h1, h2⟩ := h
  simp only [cursorPosition, h1, h2]
  decide +kernel

/-- `{ c4-.-> d4 }`: a note at 2 with two articulations, from 4 to 6 and from 6 to 8. -/
def exNote : Node.Tree Label :=
  .node ({}, .other)
    [.node ({ head := [⟨0, 1⟩], tail := [⟨12, 13⟩] }, .music true none)
      [.node ({ head := [⟨2, 3⟩] }, .durable (1/4) 1)
        [tok 3 4 .other, .node ({}, .other) [tok 4 6 .other, tok 6 8 .other]],
       tok 9 11 (.durable (1/4) 1)]]

/-- **C84** (defect): selecting the note with the first articulation only (from 2 to 6) gives a duration of 0. -/
theorem C84_part_of_note : cursorDuration (remoteLength []) (some exNote) (some (2, 6)) = .ok (some ([0], 0)) ∧
    cursorDuration (remoteLength []) (some exNote) (some (2, 8)) = .ok (some ([0], 1/4)) := by
  have h : ∃ n, findRight 2 ([], orgs exNote) = .ok (some n) ∧ n.1 = [0, 0] := by
    simp [findRight, walk, iterate, number, lookRight, exNote, orgs, orgs.go, tok, stop, stop.kids, pos, headPos,
      Node.Tree.val, Node.Tree.children]
  have h' : ∃ n, findLeft 6 ([], orgs exNote) = .ok (some n) ∧ n.1 = [0, 0, 1, 0] := by
    simp [findLeft, walk, iterate, number, lookLeft, exNote, orgs, orgs.go, tok, stop, stop.kids, pos, headPos,
      Node.Tree.val, Node.Tree.children, descendants, descendants.go, List.findSome?_cons]
  have h'' : ∃ n, findLeft 8 ([], orgs exNote) = .ok (some n) ∧ n.1 = [0, 0] := by
    simp [findLeft, walk, iterate, number, lookLeft, exNote, orgs, orgs.go, tok, stop, stop.kids, pos, headPos,
      Node.Tree.val, Node.Tree.children]
  obtain ⟨n, h1, h2⟩ := h
  obtain ⟨n', h3, h4⟩ := h'
  obtain ⟨n'', h5, h6⟩ := h''
  simp only [cursorDuration, h1, h2, h3, h4, h5, h6]
  decide +kernel

/-- `\layout { x } { c4 <e g>4 }`, where the block is not music. -/
def exChord : Node.Tree Label :=
  .node ({}, .other)
    [.node ({ head := [⟨0, 7⟩, ⟨8, 9⟩], tail := [⟨12, 13⟩] }, .other) [tok 10 11 .other],
     .node ({ head := [⟨14, 15⟩], tail := [⟨26, 27⟩] }, .music true none)
      [tok 16 18 (.durable (1/4) 1),
       .node ({ head := [⟨19, 20⟩], tail := [⟨23, 24⟩] }, .chord true (1/4) 1) [tok 20 21 .other, tok 22 23 .other]]]

example : ∃ l c n, InList exChord [1] l ∧ l.children[1]? = some c ∧ c.val.2 = .chord true (1/4) 1 ∧
    c.children[1]? = some n ∧ Before c 1 21 ∧ Outside exChord [0, 0] ∧
    ∃ b, exChord.get? [0] = some b ∧ Before b 0 9 := by
  refine ⟨_, _, _, ⟨rfl, rfl, ?_⟩, rfl, rfl, rfl, ⟨⟨19, ⟨_, _, rfl, rfl⟩, by decide⟩, ⟨_, rfl, 22, ⟨_, _, rfl, rfl⟩, by decide⟩, ?_⟩, ?_,
    _, rfl, ⟨⟨0, ⟨_, _, rfl, rfl⟩, by decide⟩, ⟨_, rfl, 10, ⟨_, _, rfl, rfl⟩, by decide⟩, ?_⟩⟩
  · intro k hk m hm b d s
    match k, hk with
    | 0, _ => simp [exChord, Node.Tree.get?] at hm; subst hm; simp [Node.Tree.val]
    | 1, _ => simp [exChord, Node.Tree.get?, Node.Tree.children] at hm; subst hm; simp [Node.Tree.val]
  · intro j hj c hc b hb
    have : j = 0 := by omega
    subst this
    simp only [Node.Tree.children, List.getElem?_cons_zero, Option.some.injEq] at hc
    subst hc
    rw [ends_iff] at hb
    have : (21 : ℤ) = b := Option.some.inj hb
    omega
  · intro k m hm
    match k with
    | 0 => simp [exChord, Node.Tree.get?] at hm; subst hm; simp [Node.Tree.val, Kind.isMusic]
    | 1 => simp [exChord, Node.Tree.get?, Node.Tree.children] at hm; subst hm; simp [Node.Tree.val, Kind.isMusic]
    | k + 2 => simp [exChord, Node.Tree.get?, Node.Tree.children, tok] at hm; subst hm; simp [Node.Tree.val, Kind.isMusic]
  · intro j hj; omega

end Quickly.TimeCursor
