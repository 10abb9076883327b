import Verif.Rhythm.Spec

/-! # Lemmas: music as the list of its nodes -/

namespace Quickly.Rhythm

open Spec

/-- A node in the list of all nodes. -/
structure Site where
  l : Label
  right : Option Kind
  inside : Bool
  before : List Label

mutual
/-- All nodes. -/
def flat (inside : Bool) (right : Option Kind) (before : List Label) : Mus → List Site
  | .node l cs => ⟨l, right, inside, before⟩ :: flatL (inside || l.kind.sets) before cs
/-- All nodes of a list. -/
def flatL (inside : Bool) (before : List Label) : List Mus → List Site
  | [] => []
  | c :: cs => flat inside (cs.head?.map (·.label.kind)) before c ++
      flatL inside (rev c ++ before) cs
end

mutual
/-- Put a list of durations in the nodes. -/
def refill : Mus → List (Option D) → Mus
  | .node l cs, ds => .node { l with dur := ds.headD l.dur } (refillL cs ds.tail)
/-- Put a list of durations in the nodes of a list. -/
def refillL : List Mus → List (Option D) → List Mus
  | [], _ => []
  | c :: cs, ds => refill c (ds.take (rev c).length) :: refillL cs (ds.drop (rev c).length)
end

/-- The work on the list of nodes. -/
def scan {σ : Type} (q : σ → Site → σ × Option D) (which : ℕ → Label → Bool) :
    σ → ℕ → List Site → σ × List (Option D)
  | st, _, [] => (st, [])
  | st, i, s :: ss =>
    let r := if which i s.l then q st s else (st, s.l.dur)
    let r' := scan q which r.1 (i + 1) ss
    (r'.1, r.2 :: r'.2)

theorem scan_append {σ : Type} (q : σ → Site → σ × Option D) (which : ℕ → Label → Bool)
    (st : σ) (i : ℕ) (xs ys : List Site) :
    scan q which st i (xs ++ ys) =
      ((scan q which (scan q which st i xs).1 (i + xs.length) ys).1,
       (scan q which st i xs).2 ++ (scan q which (scan q which st i xs).1 (i + xs.length) ys).2) := by
  induction xs generalizing st i with
  | nil => simp [scan]
  | cons x xs ih =>
    simp only [List.cons_append, scan, List.length_cons]
    rw [ih]
    rw [show i + 1 + xs.length = i + (xs.length + 1) by omega]

theorem scan_length {σ : Type} (q : σ → Site → σ × Option D) (which : ℕ → Label → Bool)
    (st : σ) (i : ℕ) (xs : List Site) : (scan q which st i xs).2.length = xs.length := by
  induction xs generalizing st i with
  | nil => rfl
  | cons x xs ih => simp [scan, ih]

mutual
theorem flat_length : ∀ (m : Mus) (n r b), (flat n r b m).length = (rev m).length
  | .node l cs, n, r, b => by
    simp only [flat, rev, List.length_cons, flatL_length cs]
theorem flatL_length : ∀ (cs : List Mus) (n b), (flatL n b cs).length = (revL cs).length
  | [], _, _ => rfl
  | c :: cs, n, b => by
    simp only [flatL, revL, List.length_append, flat_length c, flatL_length cs]
    omega
end

section
variable {σ : Type} {p : Proc σ} {q : σ → Site → σ × Option D} {which : ℕ → Label → Bool}
  {Z : σ → Prop}

mutual
/-- The walk is the work on the list of nodes.  `Z` tells that nothing is changed yet, so that the
preceding nodes are the original ones. -/
theorem walk_scan
    (hp : ∀ st b b' r n l, (Z st → b = b') → p st b r l = q st ⟨l, r, n, b'⟩)
    (hz : ∀ st s, Z (q st s).1 → Z st ∧ (q st s).2 = s.l.dur) :
    ∀ (m : Mus) (st : σ) (i : ℕ) (b b' : List Label) (r : Option Kind) (n : Bool),
      (Z st → b = b') →
      walk p which st i b r m = ((scan q which st i (flat n r b' m)).1, i + (rev m).length,
        refill m (scan q which st i (flat n r b' m)).2) ∧
      (Z (scan q which st i (flat n r b' m)).1 →
        Z st ∧ refill m (scan q which st i (flat n r b' m)).2 = m)
  | .node l cs, st, i, b, b', r, n, hb => by
    obtain ⟨x, hx⟩ : ∃ x, x = if which i l then q st ⟨l, r, n, b'⟩ else (st, l.dur) := ⟨_, rfl⟩
    have hx' : (if which i l = true then p st b r l else (st, l.dur)) = x := by
      rw [hx, hp st b b' r n l hb]
    have hxz : Z x.1 → Z st ∧ x.2 = l.dur := by
      intro h
      rw [hx] at h ⊢
      split
      · rename_i hw
        rw [if_pos hw] at h
        exact hz _ _ h
      · rename_i hw
        rw [if_neg hw] at h
        exact ⟨h, rfl⟩
    have hx2 : (if which i l = true then q st ⟨l, r, n, b'⟩ else (st, l.dur)) = x := hx.symm
    obtain ⟨ih1, ih2⟩ := walkL_scan hp hz cs x.1 (i + 1) b b' (n || l.kind.sets)
      (fun h => hb (hxz h).1)
    simp only [walk, hx', flat, scan, hx2, ih1, refill, List.headD_cons, List.tail_cons, rev,
      List.length_cons]
    refine ⟨by rw [show i + 1 + (revL cs).length = i + ((revL cs).length + 1) by omega], ?_⟩
    intro h
    obtain ⟨h1, h2⟩ := ih2 h
    obtain ⟨h3, h4⟩ := hxz h1
    exact ⟨h3, by rw [h2, h4]⟩
theorem walkL_scan
    (hp : ∀ st b b' r n l, (Z st → b = b') → p st b r l = q st ⟨l, r, n, b'⟩)
    (hz : ∀ st s, Z (q st s).1 → Z st ∧ (q st s).2 = s.l.dur) :
    ∀ (cs : List Mus) (st : σ) (i : ℕ) (b b' : List Label) (n : Bool),
      (Z st → b = b') →
      walkL p which st i b cs = ((scan q which st i (flatL n b' cs)).1, i + (revL cs).length,
        refillL cs (scan q which st i (flatL n b' cs)).2) ∧
      (Z (scan q which st i (flatL n b' cs)).1 →
        Z st ∧ refillL cs (scan q which st i (flatL n b' cs)).2 = cs)
  | [], st, i, b, b', n, hb => ⟨rfl, fun h => ⟨h, rfl⟩⟩
  | c :: cs, st, i, b, b', n, hb => by
    obtain ⟨i1, i2⟩ := walk_scan hp hz c st i b b' (cs.head?.map (·.label.kind)) n hb
    have hlen := scan_length q which st i (flat n (cs.head?.map (·.label.kind)) b' c)
    have hf := flat_length c n (cs.head?.map (·.label.kind)) b'
    obtain ⟨x, hx⟩ : ∃ x, x = scan q which st i (flat n (cs.head?.map (·.label.kind)) b' c) :=
      ⟨_, rfl⟩
    rw [← hx] at i1 i2 hlen
    obtain ⟨j1, j2⟩ := walkL_scan hp hz cs x.1 (i + (rev c).length) (rev (refill c x.2) ++ b)
      (rev c ++ b') n (by
        intro h
        obtain ⟨h1, h2⟩ := i2 h
        rw [h2, hb h1])
    have hl : x.2.length = (rev c).length := hlen.trans hf
    simp only [walkL, i1, j1, flatL, scan_append, ← hx, hf, refillL, revL, List.length_append]
    rw [List.take_left' hl, List.drop_left' hl]
    refine ⟨by rw [show i + (rev c).length + (revL cs).length =
      i + ((revL cs).length + (rev c).length) by omega], ?_⟩
    intro h
    obtain ⟨h1, h2⟩ := j2 h
    obtain ⟨h3, h4⟩ := i2 h1
    exact ⟨h3, by rw [h2, h4]⟩
end
end

/-- A node with another duration. -/
def Site.set (s : Site) (d : Option D) : Site := { s with l := { s.l with dur := d } }

/-- What `nodes` gives of a site. -/
def Site.plain (s : Site) : Label × Option Kind × Bool := (s.l, s.right, s.inside)

theorem label_refill (m : Mus) (ds) : (refill m ds).label.kind = m.label.kind := by
  cases m; rfl

theorem head_refillL (cs : List Mus) (ds) :
    (refillL cs ds).head?.map (·.label.kind) = cs.head?.map (·.label.kind) := by
  cases cs with
  | nil => rfl
  | cons c cs => simp [refillL, label_refill]

mutual
theorem nodes_flat : ∀ (m : Mus) (n r b), nodes n r m = (flat n r b m).map Site.plain
  | .node l cs, n, r, b => by simp [nodes, flat, Site.plain, nodesL_flat cs _ b]
theorem nodesL_flat : ∀ (cs : List Mus) (n b), nodesL n cs = (flatL n b cs).map Site.plain
  | [], _, _ => rfl
  | c :: cs, n, b => by
    simp only [nodesL, flatL, List.map_append, ← nodes_flat c n _ b, ← nodesL_flat cs n]
end

mutual
theorem nodes_refill : ∀ (m : Mus) (ds : List (Option D)) (n r b), ds.length = (rev m).length →
    nodes n r (refill m ds) = (List.zipWith Site.set (flat n r b m) ds).map Site.plain
  | .node l cs, ds, n, r, b, h => by
    cases ds with
    | nil => simp [rev] at h
    | cons d ds =>
      simp only [rev, List.length_cons, Nat.add_right_cancel_iff] at h
      simp only [refill, List.headD_cons, List.tail_cons, nodes, flat, List.zipWith_cons_cons,
        List.map_cons, nodesL_refill cs ds _ b h]
      rfl
theorem nodesL_refill : ∀ (cs : List Mus) (ds : List (Option D)) (n b),
    ds.length = (revL cs).length →
    nodesL n (refillL cs ds) = (List.zipWith Site.set (flatL n b cs) ds).map Site.plain
  | [], _, _, _, _ => by simp [refillL, nodesL, flatL]
  | c :: cs, ds, n, b, h => by
    simp only [revL, List.length_append] at h
    have h1 : (ds.take (rev c).length).length = (rev c).length := by
      rw [List.length_take]; omega
    have h2 : (ds.drop (rev c).length).length = (revL cs).length := by
      rw [List.length_drop]; omega
    simp only [refillL, nodesL, flatL, head_refillL, nodes_refill c _ n _ b h1,
      nodesL_refill cs _ n (rev c ++ b) h2]
    rw [← List.map_append, ← List.zipWith_append, List.take_append_drop]
    rw [h1, flat_length]
end

/-! ## Durations that are heard -/

/-- `heard` on the list of nodes. -/
def heardF (p : D) : List Site → List (ℕ × D) × D
  | [] => ([], p)
  | s :: ss =>
    if s.inside then heardF p ss
    else if s.l.kind.sets then
      ((s.l.id, s.l.dur.getD p) :: (heardF (s.l.dur.getD p) ss).1, (heardF (s.l.dur.getD p) ss).2)
    else
      ((if s.l.kind = .skip then s.l.dur.toList.map fun d => (s.l.id, d) else []) ++
        (heardF p ss).1, (heardF p ss).2)

theorem heardF_append (p : D) (xs ys : List Site) : heardF p (xs ++ ys) =
    ((heardF p xs).1 ++ (heardF (heardF p xs).2 ys).1, (heardF (heardF p xs).2 ys).2) := by
  induction xs generalizing p with
  | nil => rfl
  | cons x xs ih =>
    simp only [List.cons_append, heardF, ih]
    split
    · rfl
    · split
      · rfl
      · simp

theorem heardF_inside (p : D) (xs : List Site) (h : ∀ s ∈ xs, s.inside = true) :
    heardF p xs = ([], p) := by
  induction xs with
  | nil => rfl
  | cons x xs ih =>
    rw [heardF, if_pos (h x (by simp)), ih fun s hs => h s (by simp [hs])]

mutual
theorem flat_inside : ∀ (m : Mus) (r b), ∀ s ∈ flat true r b m, s.inside = true
  | .node l cs, r, b => by
    intro s hs
    simp only [flat, Bool.true_or, List.mem_cons] at hs
    rcases hs with rfl | hs
    · rfl
    · exact flatL_inside cs b s hs
theorem flatL_inside : ∀ (cs : List Mus) (b), ∀ s ∈ flatL true b cs, s.inside = true
  | [], _ => by simp [flatL]
  | c :: cs, b => by
    intro s hs
    simp only [flatL, List.mem_append] at hs
    rcases hs with hs | hs
    · exact flat_inside c _ b s hs
    · exact flatL_inside cs _ s hs
end

theorem zipWith_inside (xs : List Site) (ds : List (Option D)) (h : ∀ s ∈ xs, s.inside = true) :
    ∀ s ∈ List.zipWith Site.set xs ds, s.inside = true := by
  intro s hs
  obtain ⟨i, hi, rfl⟩ := List.mem_iff_getElem.1 hs
  rw [List.getElem_zipWith]
  have hi' : i < xs.length := by rw [List.length_zipWith] at hi; omega
  exact h xs[i] (List.getElem_mem hi')

mutual
theorem heard_refill : ∀ (m : Mus) (ds : List (Option D)) (p : D) (r b),
    ds.length = (rev m).length →
    heard p (refill m ds) = heardF p (List.zipWith Site.set (flat false r b m) ds)
  | .node l cs, ds, p, r, b, h => by
    cases ds with
    | nil => simp [rev] at h
    | cons d ds =>
      simp only [rev, List.length_cons, Nat.add_right_cancel_iff] at h
      simp only [refill, List.headD_cons, List.tail_cons, flat, List.zipWith_cons_cons,
        Bool.false_or]
      rw [heard, heardF]
      simp only [Site.set, Bool.false_eq_true, if_false]
      by_cases hs : l.kind.sets = true
      · simp only [hs, if_true]
        rw [heardF_inside _ _ (zipWith_inside _ _ (flatL_inside cs b))]
      · have hs' : l.kind.sets = false := by simpa using hs
        simp only [hs', Bool.false_eq_true, if_false]
        rw [heardL_refill cs ds p b h]
        by_cases hk : l.kind = .skip
        · simp only [hk, if_true]
        · simp only [hk, if_false, List.nil_append]
theorem heardL_refill : ∀ (cs : List Mus) (ds : List (Option D)) (p : D) (b),
    ds.length = (revL cs).length →
    heardL p (refillL cs ds) = heardF p (List.zipWith Site.set (flatL false b cs) ds)
  | [], ds, p, b, h => by simp [refillL, heardL, flatL, heardF]
  | c :: cs, ds, p, b, h => by
    simp only [revL, List.length_append] at h
    have h1 : (ds.take (rev c).length).length = (rev c).length := by
      rw [List.length_take]; omega
    have h2 : (ds.drop (rev c).length).length = (revL cs).length := by
      rw [List.length_drop]; omega
    have hz : List.zipWith Site.set (flatL false b (c :: cs)) ds =
        List.zipWith Site.set (flat false (cs.head?.map (·.label.kind)) b c)
          (ds.take (rev c).length) ++
        List.zipWith Site.set (flatL false (rev c ++ b) cs) (ds.drop (rev c).length) := by
      rw [← List.zipWith_append, List.take_append_drop]
      · rfl
      · rw [h1, flat_length]
    rw [hz, heardF_append]
    simp only [refillL, heardL]
    rw [heard_refill c _ p (cs.head?.map (·.label.kind)) b h1, heardL_refill cs _ _ (rev c ++ b) h2]
end

theorem set_self (s : Site) : s.set s.l.dur = s := rfl

theorem zipWith_self (xs : List Site) : List.zipWith Site.set xs (xs.map (·.l.dur)) = xs := by
  induction xs with
  | nil => rfl
  | cons x xs ih => simp [ih, set_self]

mutual
theorem refill_id : ∀ (m : Mus) (n r b), refill m ((flat n r b m).map (·.l.dur)) = m
  | .node l cs, n, r, b => by
    simp only [flat, List.map_cons, refill, List.headD_cons, List.tail_cons, refillL_id cs]
theorem refillL_id : ∀ (cs : List Mus) (n b), refillL cs ((flatL n b cs).map (·.l.dur)) = cs
  | [], _, _ => rfl
  | c :: cs, n, b => by
    have h : ((flat n (cs.head?.map (·.label.kind)) b c).map (·.l.dur)).length =
        (rev c).length := by rw [List.length_map, flat_length]
    simp only [flatL, List.map_append, refillL]
    rw [List.take_left' h, List.drop_left' h, refill_id c, refillL_id cs]
end

theorem heardL_flat (cs : List Mus) (p : D) (b) : heardL p cs = heardF p (flatL false b cs) := by
  have := heardL_refill cs ((flatL false b cs).map (·.l.dur)) p b (by
    rw [List.length_map, flatL_length])
  rw [refillL_id, zipWith_self] at this
  exact this

/-- The preceding duration of every node that is not inside a durable is the one that is heard. -/
def Threads (p : D) : List Site → Prop
  | [] => True
  | s :: ss => (s.inside = false → previousDuration s.before = p) ∧ Threads (heardF p [s]).2 ss

theorem threads_append (p : D) (xs ys : List Site) :
    Threads p (xs ++ ys) ↔ Threads p xs ∧ Threads (heardF p xs).2 ys := by
  induction xs generalizing p with
  | nil => simp [Threads, heardF]
  | cons x xs ih =>
    simp only [List.cons_append, Threads, ih, and_assoc]
    rw [show x :: xs = [x] ++ xs from rfl, heardF_append]

theorem threads_inside (p : D) (xs : List Site) (h : ∀ s ∈ xs, s.inside = true) : Threads p xs := by
  induction xs with
  | nil => trivial
  | cons x xs ih =>
    refine ⟨by simp [h x (by simp)], ?_⟩
    rw [heardF_inside p [x] (by simpa using h x (by simp))]
    exact ih fun s hs => h s (by simp [hs])

/-- No durations in a list of nodes. -/
theorem previousDuration_skip (xs b : List Label)
    (h : ∀ l ∈ xs, l.kind.durable = true → l.dur = none) :
    previousDuration (xs ++ b) = previousDuration b := by
  induction xs with
  | nil => rfl
  | cons x xs ih =>
    have ih' := ih fun l hl => h l (by simp [hl])
    simp only [List.cons_append, previousDuration]
    split
    · rename_i hs
      simp only [Bool.and_eq_true] at hs
      rw [h x (by simp) hs.1]
      exact ih'
    · exact ih'

mutual
theorem rev_perm : ∀ (m : Mus) (n r b) (l : Label), l ∈ rev m ↔ ∃ s ∈ flat n r b m, s.l = l
  | .node l cs, n, r, b, l' => by
    simp only [rev, flat, List.mem_cons, exists_eq_or_imp, revL_perm cs (n || l.kind.sets) b l']
    constructor
    · rintro (h | h)
      · exact .inl h.symm
      · exact .inr h
    · rintro (h | h)
      · exact .inl h.symm
      · exact .inr h
theorem revL_perm : ∀ (cs : List Mus) (n b) (l : Label),
    l ∈ revL cs ↔ ∃ s ∈ flatL n b cs, s.l = l
  | [], _, _, _ => by simp [revL, flatL]
  | c :: cs, n, b, l => by
    simp only [revL, flatL, List.mem_append]
    rw [rev_perm c n (cs.head?.map (·.label.kind)) b l, revL_perm cs n (rev c ++ b) l]
    constructor
    · rintro (⟨s, h, e⟩ | ⟨s, h, e⟩)
      · exact ⟨s, .inr h, e⟩
      · exact ⟨s, .inl h, e⟩
    · rintro ⟨s, h | h, e⟩
      · exact .inr ⟨s, h, e⟩
      · exact .inl ⟨s, h, e⟩
end

/-- The condition of `Plain` on the list of nodes. -/
def PlainF (xs : List Site) : Prop :=
  ∀ s ∈ xs, s.inside = true → s.l.kind.durable = true → s.l.dur = none

mutual
theorem threads_flat : ∀ (m : Mus) (r b), PlainF (flat false r b m) →
    Threads (previousDuration b) (flat false r b m) ∧
    (heardF (previousDuration b) (flat false r b m)).2 = previousDuration (rev m ++ b)
  | .node l cs, r, b, h => by
    simp only [flat, Bool.false_or]
    by_cases hs : l.kind.sets = true
    · have hd : l.kind.durable = true := by
        cases hk : l.kind <;> simp_all [Kind.sets, Kind.durable]
      rw [hs]
      have hin := flatL_inside cs b
      have hcs : previousDuration (revL cs ++ b) = previousDuration b := by
        apply previousDuration_skip
        intro l' hl' hd'
        obtain ⟨s, hs', rfl⟩ := (revL_perm cs true b l').1 hl'
        exact h s (by simp [flat, hs, hs']) (hin s hs') hd'
      refine ⟨⟨fun _ => rfl, threads_inside _ _ hin⟩, ?_⟩
      rw [heardF]
      simp only [Bool.false_eq_true, if_false, hs, if_true]
      rw [heardF_inside _ _ hin]
      simp only [rev, List.cons_append, previousDuration, hd, hs, Bool.and_true, if_true]
      cases l.dur with
      | some d => rfl
      | none => exact hcs.symm
    · have hs' : l.kind.sets = false := by simpa using hs
      rw [hs']
      have h' : PlainF (flatL false b cs) := by
        intro s hs1
        exact h s (by simp [flat, hs', hs1])
      obtain ⟨i1, i2⟩ := threadsL_flat cs b h'
      have he : (heardF (previousDuration b) [(⟨l, r, false, b⟩ : Site)]).2 =
          previousDuration b := by
        simp [heardF, hs']
      refine ⟨⟨fun _ => rfl, ?_⟩, ?_⟩
      · rw [he]; exact i1
      · rw [heardF]
        simp only [Bool.false_eq_true, if_false, hs', rev, List.cons_append, previousDuration,
          Bool.and_false]
        exact i2
theorem threadsL_flat : ∀ (cs : List Mus) (b), PlainF (flatL false b cs) →
    Threads (previousDuration b) (flatL false b cs) ∧
    (heardF (previousDuration b) (flatL false b cs)).2 = previousDuration (revL cs ++ b)
  | [], _, _ => ⟨trivial, rfl⟩
  | c :: cs, b, h => by
    obtain ⟨i1, i2⟩ := threads_flat c (cs.head?.map (·.label.kind)) b
      fun s hs => h s (by simp [flatL, hs])
    obtain ⟨j1, j2⟩ := threadsL_flat cs (rev c ++ b) fun s hs => h s (by simp [flatL, hs])
    simp only [flatL]
    rw [threads_append, heardF_append]
    simp only [i2]
    exact ⟨⟨i1, j1⟩, by rw [j2, revL, List.append_assoc]⟩
end

/-! ## Results of edits -/

theorem edit_scan {σ : Type} {p : Proc σ} {q : σ → Site → σ × Option D} (Z : σ → Prop)
    (hp : ∀ st b b' r n l, (Z st → b = b') → p st b r l = q st ⟨l, r, n, b'⟩)
    (hz : ∀ st s, Z (q st s).1 → Z st ∧ (q st s).2 = s.l.dur) (st : σ) (a b : ℕ)
    (doc : List Mus) :
    edit p st a b doc = ((scan q (inRange a b) st 0 (flatL false [] doc)).1,
      refillL doc (scan q (inRange a b) st 0 (flatL false [] doc)).2) := by
  have := (walkL_scan (which := inRange a b) hp hz doc st 0 [] [] false fun _ => rfl).1
  rw [edit, this]

theorem scan_getElem {σ : Type} (q : σ → Site → σ × Option D) (which : ℕ → Label → Bool)
    (st : σ) (i : ℕ) (xs : List Site) (k : ℕ) (s : Site) (h : xs[k]? = some s) :
    ∃ st', (scan q which st i xs).2[k]? =
      some (if which (i + k) s.l then (q st' s).2 else s.l.dur) := by
  induction xs generalizing st i k with
  | nil => simp at h
  | cons x xs ih =>
    cases k with
    | zero =>
      simp only [List.getElem?_cons_zero, Option.some.injEq] at h
      subst h
      refine ⟨st, ?_⟩
      simp only [scan, List.getElem?_cons_zero, Nat.add_zero]
      split <;> rfl
    | succ k =>
      simp only [List.getElem?_cons_succ] at h
      obtain ⟨st', h'⟩ := ih (if which i x.l then q st x else (st, x.l.dur)).1 (i + 1) k h
      refine ⟨st', ?_⟩
      simp only [scan, List.getElem?_cons_succ]
      rw [h', show i + 1 + k = i + (k + 1) by omega]

/-- An edit changes only durations of durables in the range, each by one call of the process. -/
theorem edit_nodes {σ : Type} {p : Proc σ} {q : σ → Site → σ × Option D} (Z : σ → Prop)
    (hp : ∀ st b b' r n l, (Z st → b = b') → p st b r l = q st ⟨l, r, n, b'⟩)
    (hz : ∀ st s, Z (q st s).1 → Z st ∧ (q st s).2 = s.l.dur) (st : σ) (a b : ℕ)
    (doc : List Mus) :
    (allNodes (edit p st a b doc).2).length = (allNodes doc).length ∧
    ∀ (i : ℕ) (l : Label) (r : Option Kind) (n : Bool), (allNodes doc)[i]? = some (l, r, n) →
      ∃ st' before, (allNodes (edit p st a b doc).2)[i]? = some
        ({ l with dur := if inRange a b i l then (q st' ⟨l, r, n, before⟩).2 else l.dur }, r, n) := by
  rw [edit_scan Z hp hz]
  have hl : (scan q (inRange a b) st 0 (flatL false [] doc)).2.length = (revL doc).length := by
    rw [scan_length, flatL_length]
  simp only [allNodes]
  rw [nodesL_refill doc _ false [] hl, nodesL_flat doc false []]
  refine ⟨by simp [scan_length], ?_⟩
  intro i l r n h
  rw [List.getElem?_map, Option.map_eq_some_iff] at h
  obtain ⟨s, hs, he⟩ := h
  obtain ⟨st', h'⟩ := scan_getElem q (inRange a b) st 0 _ i s hs
  cases s with
  | mk l' r' n' bf =>
    simp only [Site.plain, Prod.mk.injEq] at he
    obtain ⟨rfl, rfl, rfl⟩ := he
    refine ⟨st', bf, ?_⟩
    rw [List.getElem?_map, List.getElem?_zipWith, hs, h']
    simp [Site.set, Site.plain]

end Quickly.Rhythm
