import Verif.Time.Lemmas

/-! # C52: the time of music -/

namespace Quickly.Time

open Quickly.Duration (Transform)
open Spec

/-- **C52**: the length of every music expression is the time from its start to its end. -/
theorem C52_length (rem : Remote) (tr : Transform) (m : Mus) (t : ℚ) :
    finish rem tr t m = (length rem tr m).map (t + ·) := finish_length rem m tr t

/-- **C52**: the length of sequential music is the sum of the lengths of its parts, and of
simultaneous music the maximum. -/
theorem C52_sum_max (rem : Remote) (tr : Transform) (f : Option Transform) (cs : List Mus)
    (xs : List ℚ) (h : cs.map (length rem (under tr f)) = xs.map .ok) :
    length rem tr (.node (.music true f) cs) = .ok xs.sum ∧
    ∃ x, length rem tr (.node (.music false f) cs) = .ok x ∧ (∀ y ∈ xs, y ≤ x) ∧
      (x ∈ xs ∨ (xs = [] ∧ x = 0)) := by
  have hl : (lengths rem (under tr f) cs).map (·.2) = xs.map .ok := by
    rw [lengths_eq, List.map_map]; exact h
  constructor
  · simp only [length, Kind.isMusic, if_true, timeLength, enter_under, upto, hl]
    have : ∀ (xs : List ℚ) (a : ℚ), pySum a (xs.map .ok) = .ok (a + xs.sum) := by
      intro xs
      induction xs with
      | nil => intro a; simp [pySum]
      | cons x xs ih => intro a; simp [pySum, ih, add_assoc]
    rw [this, zero_add]
  · simp only [length, Kind.isMusic, if_true, timeLength, enter_under, hl, pyMax_eq,
      Bool.false_eq_true, if_false]
    clear h hl
    induction xs with
    | nil => exact ⟨0, rfl, by simp, .inr ⟨rfl, rfl⟩⟩
    | cons y ys ih =>
      obtain ⟨x, h1, h2, h3⟩ := ih
      cases ys with
      | nil => exact ⟨y, rfl, by simp, .inl (by simp)⟩
      | cons z zs =>
        refine ⟨max y x, ?_, ?_, .inl ?_⟩
        · simp only [List.map_cons, maxR] at h1 ⊢
          rw [h1]; rfl
        · intro w hw
          rcases List.mem_cons.1 hw with rfl | hw
          · exact le_max_left _ _
          · exact (h2 w hw).trans (le_max_right _ _)
        · rcases h3 with h3 | ⟨h3, -⟩
          · rcases max_choice y x with h | h
            · rw [h]; simp
            · rw [h]; exact List.mem_cons_of_mem _ h3
          · cases h3

/-- **C52**: a scale around music multiplies its length, whatever is in it; this is how `\times`,
`\tuplet`, `\scaleDurations` and `\grace` work. -/
theorem C52_scale (env : Env) (tr : Transform) (s : ℚ) (hs : 0 ≤ s) (m : Mus)
    (cs : List Mus) (hcs : ∀ c ∈ cs, c.kind = .other) (hl : ∀ x, length (remoteLength env) tr m = .ok x → 0 ≤ x) :
    length (remoteLength env) tr (.node (.music false (some { scale := s })) (cs ++ [m])) =
      (length (remoteLength env) tr m).map (s * ·) := by
  have e : enter tr (.music false (some { scale := s })) = times s tr := by
    rw [enter_under]
    simp [under, times, Transform.add, mul_comm]
  have hm : length (remoteLength env) (times s tr) m =
      (length (remoteLength env) tr m).map (s * ·) := length_scale hs (remote_scale hs env) m tr
  simp only [length, Kind.isMusic, if_true, timeLength, e, Bool.false_eq_true, if_false, pyMax_eq,
    lengths_eq, List.map_append, List.map_map, List.map_cons, List.map_nil, Function.comp_def, hm]
  have hz : ∀ c ∈ cs, length (remoteLength env) (times s tr) c = .ok 0 := by
    intro c hc
    have := hcs c hc
    obtain ⟨k, ds⟩ := c
    simp only [Mus.kind] at this
    subst this
    rfl
  induction cs with
  | nil => rfl
  | cons c cs ih =>
    have ih' := ih (fun c hc => hcs c (by simp [hc])) (fun c hc => hz c (by simp [hc]))
    have hne : ∃ y ys, (cs.map fun x => length (remoteLength env) (times s tr) x) ++
        [(length (remoteLength env) tr m).map (s * ·)] = y :: ys := by
      cases cs with
      | nil => exact ⟨_, _, rfl⟩
      | cons d ds => exact ⟨_, _, rfl⟩
    obtain ⟨y, ys, hy⟩ := hne
    rw [hy] at ih'
    simp only [List.map_cons, List.cons_append, hy, maxR, ih', hz c (by simp)]
    cases hx : length (remoteLength env) tr m with
    | error e => rfl
    | ok x =>
      have := mul_nonneg hs (hl x hx)
      simp [latest, Except.map, bind, Except.bind, pure, Except.pure, this]

/-- **C52**: in a transform that is scaled everything is scaled, also the value of variables. -/
theorem C52_scale_context (env : Env) (tr : Transform) (s : ℚ) (hs : 0 ≤ s) (m : Mus) :
    length (remoteLength env) { tr with scale := s * tr.scale } m =
      (length (remoteLength env) tr m).map (s * ·) :=
  length_scale hs (remote_scale hs env) m tr

/-- **C52**: a variable has the length its value would have at that place; in music where no
argument of an `\afterGrace` is a variable (see `C52_after_grace_variable`). -/
theorem C52_variables_partial (env : Env) (tr : Transform) (m m' : Mus) (rem : Remote)
    (hm : directGrace m) (hg : ∀ x ∈ env, directGrace x.2) (h : expand (value env) m = some m') :
    length (remoteLength env) tr m = length rem tr m' :=
  length_expand (remote_value env hg rem) m m' tr hm h

theorem climb_spec (root : Mus) (path : List ℕ) : ∀ k, climb root path k ≤ k ∧
    (∀ j, climb root path k ≤ j → j < k → musicAt root (path.take j) = true) ∧
    (∀ j, climb root path k = j + 1 → musicAt root (path.take j) = false) := by
  intro k
  induction k with
  | zero => exact ⟨le_refl _, fun j _ h => by omega, fun j h => by simp [climb] at h⟩
  | succ k ih =>
    rw [climb]
    split
    · rename_i hm
      obtain ⟨h1, h2, h3⟩ := ih
      refine ⟨by omega, ?_, h3⟩
      intro j hj hk
      by_cases h : j = k
      · rw [h]; exact hm
      · exact h2 j hj (by omega)
    · rename_i hm
      refine ⟨le_refl _, fun j h1 h2 => by omega, ?_⟩
      intro j hj
      have : j = k := by omega
      rw [this]
      simpa using hm

/-- **C52**: the music and the trail that are used to compute a position: the music is the topmost
music expression that contains the node without anything that is no music in between. -/
theorem C52_topmost (root : Mus) (path : List ℕ) (mp trail : List ℕ)
    (h : precedingMusic root path = (mp, trail)) :
    path = mp ++ trail ∧
    (∀ j, mp.length ≤ j → j < path.length → musicAt root (path.take j) = true) ∧
    (∀ q i, mp = q ++ [i] → musicAt root q = false) := by
  obtain ⟨h1, h2, h3⟩ := climb_spec root path path.length
  simp only [precedingMusic, Prod.mk.injEq] at h
  obtain ⟨rfl, rfl⟩ := h
  have hlen : (path.take (climb root path path.length)).length = climb root path path.length := by
    rw [List.length_take]; omega
  refine ⟨(List.take_append_drop _ _).symm, fun j hj hk => h2 j (by omega) hk, ?_⟩
  intro q i hq
  have hl : climb root path path.length = q.length + 1 := by
    rw [← hlen, hq]; simp
  have := h3 q.length hl
  have hq' : path.take q.length = q := by
    have := congrArg (List.take q.length) hq
    rw [List.take_take, List.take_left' rfl, hl] at this
    simpa using this
  rwa [hq'] at this

/-- **C52**: the position of every node is the moment it starts in the topmost music expression. -/
theorem C52_position (rem : Remote) (root : Mus) (mp trail : List ℕ) (music : Mus)
    (h : precedingMusic root (mp ++ trail) = (mp, trail)) (hm : get root mp = some music)
    (hg : (get music trail).isSome) :
    position rem root (mp ++ trail) false = (onset rem {} 0 music trail).map fun x => (mp, x) := by
  simp only [position, h, hm]
  rw [follow_onset rem trail {} music 0 hg]
  cases onset rem {} 0 music trail <;> rfl

/-- **C52**: with `include`, the length of the node is added. -/
theorem C52_position_include (rem : Remote) (root : Mus) (path : List ℕ)
    (hg : (get root path).isSome) :
    position rem root path true = (do
      let (mp, t) ← position rem root path false
      let x ← lengthAt rem root path
      pure (mp, t + x)) := by
  obtain ⟨node, hn⟩ := Option.isSome_iff_exists.1 hg
  rcases hp : precedingMusic root path with ⟨mp, trail⟩
  obtain ⟨h1, -, -⟩ := C52_topmost root path mp trail hp
  rw [h1, get_append, Option.bind_eq_some_iff] at hn
  obtain ⟨music, hm, hn'⟩ := hn
  simp only [position, lengthAt, hp, hm]
  rw [follow_onset rem trail {} music 0 (by rw [hn']; rfl), h1, get_append, hm]
  simp only [Option.bind_some, hn', Option.getD_some]
  cases onset rem {} 0 music trail with
  | error e => rfl
  | ok x =>
    simp only [Except.map, bind, Except.bind, if_true, Bool.false_eq_true, if_false, pure, Except.pure]
    obtain ⟨k, cs⟩ := node
    cases k <;> rfl

/-- The trail of a child of music. -/
theorem climb_child (root : Mus) (p : List ℕ) (i : ℕ) (hm : musicAt root p = true) :
    precedingMusic root (p ++ [i]) = ((precedingMusic root p).1, (precedingMusic root p).2 ++ [i]) := by
  have h1 : ∀ k, k ≤ p.length → climb root (p ++ [i]) k = climb root p k := by
    intro k
    induction k with
    | zero => intro; rfl
    | succ k ih =>
      intro hk
      rw [climb, climb, ih (by omega), List.take_append_of_le_length (by omega)]
  have h2 : climb root (p ++ [i]) (p ++ [i]).length = climb root p p.length := by
    rw [List.length_append, List.length_singleton, climb, List.take_left' rfl, if_pos hm,
      h1 _ (le_refl _)]
  have h3 := (climb_spec root p p.length).1
  simp only [precedingMusic, h2]
  rw [List.take_append_of_le_length h3, List.drop_append_of_le_length h3]

theorem follow_append (rem : Remote) : ∀ (t1 t2 : List ℕ) (tr : Transform) (m : Mus) (a : ℚ),
    followTrail rem tr m a (t1 ++ t2) = (do
      let (tr, m, a) ← followTrail rem tr m a t1
      followTrail rem tr m a t2) := by
  intro t1
  induction t1 with
  | nil => intros; rfl
  | cons i t1 ih =>
    intro t2 tr m a
    simp only [List.cons_append, followTrail]
    split
    · cases timeLength (enter tr m.kind) m.kind (lengths rem (enter tr m.kind) m.children) (some i) with
      | error e => rfl
      | ok x =>
        simp only [bind, Except.bind, pure, Except.pure]
        cases child m i with
        | error e => rfl
        | ok c => exact ih _ _ _ _
    · simp only [bind, Except.bind, pure, Except.pure]
      cases child m i with
      | error e => rfl
      | ok c => exact ih _ _ _ _

/-- The position of a child, from that of the parent. -/
theorem position_child (rem : Remote) (root : Mus) (p : List ℕ) (i : ℕ) (m c : Mus)
    (hp : get root p = some m) (hm : m.kind.isMusic = true) (hc : m.children[i]? = some c) :
    ∃ mp music trail, precedingMusic root p = (mp, trail) ∧ get root mp = some music ∧
      get music trail = some m ∧
      precedingMusic root (p ++ [i]) = (mp, trail ++ [i]) ∧
      position rem root p false = (onset rem {} 0 music trail).map (fun x => (mp, x)) ∧
      position rem root (p ++ [i]) false = (do
        let t ← onset rem {} 0 music trail
        let x ← followTrail rem (enterAll {} music trail) m t [i]
        pure (mp, x.2.2)) := by
  rcases hq : precedingMusic root p with ⟨mp, trail⟩
  have hmp : musicAt root p = true := by simp [musicAt, hp, hm]
  obtain ⟨h1, -, -⟩ := C52_topmost root p mp trail hq
  have hp' := hp
  rw [h1, get_append, Option.bind_eq_some_iff] at hp'
  obtain ⟨music, hmu, hn⟩ := hp'
  have hq2 := climb_child root p i hmp
  rw [hq] at hq2
  have hs : (get music trail).isSome := by rw [hn]; rfl
  refine ⟨mp, music, trail, rfl, hmu, hn, hq2, ?_, ?_⟩
  · simp only [position, hq, hmu]
    rw [follow_onset rem trail {} music 0 hs]
    cases onset rem {} 0 music trail <;> rfl
  · simp only [position, hq2, hmu]
    rw [follow_append, follow_onset rem trail {} music 0 hs, hn]
    cases onset rem {} 0 music trail with
    | error e => rfl
    | ok x =>
      simp only [Except.map, bind, Except.bind, Option.getD_some]
      cases followTrail rem (enterAll {} music trail) m x [i] <;> rfl

theorem follow_one (rem : Remote) (tr : Transform) (m c : Mus) (t : ℚ) (i : ℕ)
    (hc : m.children[i]? = some c) :
    followTrail rem tr m t [i] =
      if m.kind.isSequential then
        (pySum t ((lengths rem (enter tr m.kind) (m.children.take i)).map (·.2))).map
          fun x => (enter tr m.kind, c, x)
      else .ok (enter tr m.kind, c, t) := by
  rw [follow_onset rem [i] tr m t (by simp [get, hc])]
  obtain ⟨k, cs⟩ := m
  simp only [Mus.children] at hc
  cases k with
  | music s f =>
    cases s <;>
      simp [onset, Mus.children, hc, Kind.isSequential, Mus.kind, enterAll, get, Except.map,
        enter_under, sequential_length, pure, Except.pure]
    cases pySum t ((lengths rem (under tr f) (cs.take i)).map (·.2)) <;> rfl
  | _ => simp [onset, Mus.children, hc, Kind.isSequential, Mus.kind, enterAll, get, Except.map,
        pure, Except.pure]

/-- **C52**: in sequential music the position of a node plus its length is the position of its
right sibling. -/
theorem C52_right_sibling (rem : Remote) (root : Mus) (p : List ℕ) (i : ℕ) (m c c' : Mus)
    (hp : get root p = some m) (hm : m.kind.isSequential = true)
    (hc : m.children[i]? = some c) (hc' : m.children[i + 1]? = some c') :
    position rem root (p ++ [i + 1]) false = (do
      let (mp, t) ← position rem root (p ++ [i]) false
      let x ← lengthAt rem root (p ++ [i])
      pure (mp, t + x)) := by
  have hmus : m.kind.isMusic = true := by
    revert hm; cases m.kind <;> simp [Kind.isSequential, Kind.isMusic]
  obtain ⟨mp, music, trail, h1, h2, h3, h4, -, h6⟩ := position_child rem root p i m c hp hmus hc
  obtain ⟨mp', music', trail', g1, g2, g3, g4, -, g6⟩ :=
    position_child rem root p (i + 1) m c' hp hmus hc'
  rw [h1] at g1
  cases g1
  rw [h2] at g2
  cases g2
  rw [h6, g6]
  have hget : get root (p ++ [i]) = some c := by
    rw [get_append, hp]
    simp [get, hc]
  have hla : lengthAt rem root (p ++ [i]) = length rem (enter (enterAll {} music trail) m.kind) c := by
    have key : ∀ (trail : List ℕ) (tr : Transform) (music : Mus), get music trail = some m →
        enterAll tr music (trail ++ [i]) = enter (enterAll tr music trail) m.kind := by
      intro trail
      induction trail with
      | nil =>
        intro tr music h
        simp only [get, Option.some.injEq] at h
        subst h
        simp [enterAll, hc]
      | cons j trail ih =>
        intro tr music h
        simp only [get] at h
        simp only [List.cons_append, enterAll]
        cases hx : music.children[j]? with
        | none => rw [hx] at h; cases h
        | some d => rw [hx] at h; exact ih _ _ h
    simp only [lengthAt, h4, h2, hget]
    rw [key trail {} music h3]
    split
    · rename_i hk
      obtain ⟨k, cs⟩ := c
      simp only [Mus.kind] at hk
      subst hk
      rfl
    · rfl
  rw [hla]
  cases onset rem {} 0 music trail with
  | error e => rfl
  | ok t =>
    simp only [bind, Except.bind]
    rw [follow_one rem _ m c' t (i + 1) hc', follow_one rem _ m c t i hc, if_pos hm, if_pos hm]
    have htake : m.children.take (i + 1) = m.children.take i ++ [c] := by
      rw [List.take_add_one, hc]; rfl
    rw [htake, lengths_eq, lengths_eq]
    simp only [List.map_append, List.map_cons, List.map_nil, List.map_map, pySum_append]
    cases pySum t (List.map _ (m.children.take i)) with
    | error e => rfl
    | ok x =>
      simp only [Except.bind, Except.map, pure, Except.pure]
      cases length rem (enter (enterAll {} music trail) m.kind) c <;> rfl

/-- **C52**: in other music (simultaneous, or with one music argument) every node starts
at the position of the parent, and so does the first node in sequential music. -/
theorem C52_start_together (rem : Remote) (root : Mus) (p : List ℕ) (i : ℕ) (m c : Mus)
    (hp : get root p = some m) (hm : m.kind.isMusic = true) (hc : m.children[i]? = some c)
    (hi : i = 0 ∨ m.kind.isSequential = false) :
    position rem root (p ++ [i]) false = position rem root p false := by
  obtain ⟨mp, music, trail, h1, h2, h3, h4, h5, h6⟩ := position_child rem root p i m c hp hm hc
  rw [h5, h6]
  cases onset rem {} 0 music trail with
  | error e => rfl
  | ok t =>
    simp only [bind, Except.bind, Except.map]
    rw [follow_one rem _ m c t i hc]
    rcases hi with rfl | hi
    · by_cases hs : m.kind.isSequential = true
      · rw [if_pos hs]; rfl
      · rw [if_neg hs]; rfl
    · rw [if_neg (by simp [hi])]
      rfl

/-- **C52**: the duration of a selection is the difference of the positions, if the node where
the paths of the first and the last node part has no transform (see `C52_duration_wrong`). -/
theorem C52_duration_partial (rem : Remote) (root : Mus) (start stop mp : List ℕ) (a b : ℚ)
    (hs : (get root start).isSome) (ht : (get root stop).isSome)
    (hpart : ∀ q i j r r', start = q ++ i :: r → stop = q ++ j :: r' → i ≠ j →
      ∃ m, get root q = some m ∧ transformOf m.kind = none)
    (ha : position rem root start false = .ok (mp, a))
    (hb : position rem root stop true = .ok (mp, b)) :
    duration rem root start stop = .ok (some (mp, b - a)) := by
  rcases h1 : precedingMusic root start with ⟨mp1, st⟩
  rcases h2 : precedingMusic root stop with ⟨mp2, et⟩
  have e1 := (C52_topmost root start mp1 st h1).1
  have e2 := (C52_topmost root stop mp2 et h2).1
  obtain ⟨x, hx⟩ := Option.isSome_iff_exists.1 hs
  obtain ⟨y, hy⟩ := Option.isSome_iff_exists.1 ht
  rw [e1, get_append, Option.bind_eq_some_iff] at hx
  rw [e2, get_append, Option.bind_eq_some_iff] at hy
  obtain ⟨music, hm1, hx⟩ := hx
  obtain ⟨music', hm2, hy⟩ := hy
  simp only [position, h1, hm1, bind, Except.bind, Bool.false_eq_true, if_false, pure, Except.pure] at ha
  simp only [position, h2, hm2, bind, Except.bind, if_true, pure, Except.pure] at hb
  cases hfa : followTrail rem {} music 0 st with
  | error e => rw [hfa] at ha; cases ha
  | ok fa =>
    rw [hfa] at ha
    simp only [Except.ok.injEq, Prod.mk.injEq] at ha
    obtain ⟨rfl, rfl⟩ := ha
    cases hfb : followTrail rem {} music' 0 et with
    | error e => rw [hfb] at hb; cases hb
    | ok fb =>
      rw [hfb] at hb
      simp only at hb
      cases hl : length rem fb.1 fb.2.1 with
      | error e => rw [hl] at hb; cases hb
      | ok lx =>
        rw [hl] at hb
        simp only [Except.ok.injEq, Prod.mk.injEq] at hb
        obtain ⟨rfl, rfl⟩ := hb
        rw [hm1] at hm2
        cases hm2
        simp only [duration, h1, h2, ne_eq, not_true_eq_false, if_false, hm1]
        -- the common part
        have key : ∀ (st et : List ℕ) (tr : Transform) (m : Mus) (c : ℚ) (fa fb : Transform × Mus × ℚ),
            (∀ q i j r r', st = q ++ i :: r → et = q ++ j :: r' → i ≠ j →
              ∃ m', get m q = some m' ∧ transformOf m'.kind = none) →
            followTrail rem tr m c st = .ok fa → followTrail rem tr m c et = .ok fb →
            ∃ tr' m' st' et' c' fa' fb', common tr m st et = .ok (tr', m', st', et') ∧
              followTrail rem tr' m' 0 st' = .ok fa' ∧ followTrail rem tr' m' 0 et' = .ok fb' ∧
              fa = (fa'.1, fa'.2.1, c' + fa'.2.2) ∧ fb = (fb'.1, fb'.2.1, c' + fb'.2.2) := by
          intro st
          induction st with
          | nil =>
            intro et tr m c fa fb _ h1 h2
            have s2 := follow_shift rem et tr m c 0
            rw [add_zero, h2] at s2
            cases h3 : followTrail rem tr m 0 et with
            | error e => rw [h3] at s2; cases s2
            | ok fb' =>
              rw [h3] at s2
              simp only [followTrail, Except.ok.injEq] at h1
              refine ⟨tr, m, [], et, c, (tr, m, 0), fb', ?_, rfl, h3, ?_, ?_⟩
              · cases et <;> rfl
              · rw [← h1]; simp
              · exact Except.ok.inj s2
          | cons i st ih =>
            intro et
            cases et with
            | nil =>
              intro tr m c fa fb _ h1 h2
              have s2 := follow_shift rem (i :: st) tr m c 0
              rw [add_zero, h1] at s2
              cases h3 : followTrail rem tr m 0 (i :: st) with
              | error e => rw [h3] at s2; cases s2
              | ok fa' =>
                rw [h3] at s2
                simp only [followTrail, Except.ok.injEq] at h2
                refine ⟨tr, m, i :: st, [], c, fa', (tr, m, 0), rfl, h3, rfl, ?_, ?_⟩
                · exact Except.ok.inj s2
                · rw [← h2]; simp
            | cons j et =>
              intro tr m c fa fb hd h1 h2
              by_cases hij : i = j
              · subst hij
                simp only [common, ne_eq, not_true_eq_false, if_false]
                simp only [followTrail] at h1 h2
                obtain ⟨c2, h1', h2'⟩ : ∃ c2, (child m i).bind (fun n =>
                      followTrail rem (enter tr m.kind) n c2 st) = .ok fa ∧
                    (child m i).bind (fun n =>
                      followTrail rem (enter tr m.kind) n c2 et) = .ok fb := by
                  split at h1
                  · rename_i hc
                    rw [if_pos hc] at h2
                    cases hT : timeLength (enter tr m.kind) m.kind
                        (lengths rem (enter tr m.kind) m.children) (some i) with
                    | error e => rw [hT] at h1; cases h1
                    | ok z =>
                      rw [hT] at h1 h2
                      exact ⟨c + z, h1, h2⟩
                  · rename_i hc
                    rw [if_neg hc] at h2
                    exact ⟨c, h1, h2⟩
                cases hch : child m i with
                | error e => rw [hch] at h1'; cases h1'
                | ok n =>
                  rw [hch] at h1' h2'
                  simp only [Except.bind] at h1' h2'
                  have hn : m.children[i]? = some n := by
                    unfold child at hch
                    cases hz : m.children[i]? with
                    | none => rw [hz] at hch; cases hch
                    | some w => rw [hz] at hch; cases hch; rfl
                  refine ih et (enter tr m.kind) n c2 fa fb ?_ h1' h2'
                  intro q i' j' r r' hq hq' hne
                  obtain ⟨m', hm', ht'⟩ := hd (i :: q) i' j' r r' (by rw [hq]; rfl) (by rw [hq']; rfl) hne
                  refine ⟨m', ?_, ht'⟩
                  simpa [get, hn] using hm'
              · obtain ⟨m', hm', ht'⟩ := hd [] i j st et rfl rfl hij
                simp only [get, Option.some.injEq] at hm'
                subst hm'
                have henter : enter tr m.kind = tr := by
                  revert ht'
                  cases m.kind with
                  | music s f => intro h; simp only [transformOf] at h; subst h; rfl
                  | _ => intro; rfl
                have s1 := follow_shift rem (i :: st) tr m c 0
                rw [add_zero, h1] at s1
                have s2 := follow_shift rem (j :: et) tr m c 0
                rw [add_zero, h2] at s2
                cases h3 : followTrail rem tr m 0 (i :: st) with
                | error e => rw [h3] at s1; cases s1
                | ok fa' =>
                  cases h4 : followTrail rem tr m 0 (j :: et) with
                  | error e => rw [h4] at s2; cases s2
                  | ok fb' =>
                    rw [h3] at s1
                    rw [h4] at s2
                    exact ⟨tr, m, i :: st, j :: et, c, fa', fb', by
                      simp [common, hij, henter], h3, h4, Except.ok.inj s1, Except.ok.inj s2⟩
        obtain ⟨tr', m', st', et', c', fa', fb', k1, k2, k3, rfl, rfl⟩ :=
          key st et {} music 0 fa fb (by
            intro q i j r r' hq hq' hne
            obtain ⟨m', hm', ht'⟩ := hpart (mp2 ++ q) i j r r' (by rw [e1, hq, List.append_assoc])
              (by rw [e2, hq', List.append_assoc]) hne
            rw [get_append, hm1] at hm'
            exact ⟨m', by simpa using hm', ht'⟩) hfa hfb
        simp only at hl
        simp only [k1, k2, k3, hl, bind, Except.bind, pure, Except.pure]
        congr 3
        ring

/-! Music for the examples. -/

/-- A note. -/
def nt (d : ℚ) : Mus := .node (.durable d 1) []
/-- A music list. -/
def ml (cs : List Mus) : Mus := .node (.music true none) cs
/-- A `\tuplet 3/2`. -/
def tuplet (m : Mus) : Mus := .node (.music false (some { scale := 2/3 })) [.node .other [], m]

/-- `{ c4 << { d8 e } { f2 } >> \tuplet 3/2 { g8 a \x } b4 }`. -/
def exMusic : Mus := .node .other [ml [nt (1/4),
  .node (.music false none) [ml [nt (1/8), nt (1/8)], ml [nt (1/2)]],
  tuplet (ml [nt (1/8), nt (1/8), .node (.reference "x") []]), nt (1/4)]]

/-- `x = { c8 }`. -/
def exEnv : Env := [("x", ml [nt (1/8)])]

example : lengthAt (remoteLength exEnv) exMusic [0] = .ok (5/4) ∧
    position (remoteLength exEnv) exMusic [0, 2, 1, 2] false = .ok ([0], 11/12) ∧
    position (remoteLength exEnv) exMusic [0, 3] false = .ok ([0], 1) ∧
    duration (remoteLength exEnv) exMusic [0, 1, 0, 1] [0, 2, 1, 0] = .ok (some ([0], 11/24)) := by
  decide +kernel

example : (get exMusic [0]).isSome ∧ musicAt exMusic [0] = true ∧
    precedingMusic exMusic [0, 2, 1, 2] = ([0], [2, 1, 2]) := by decide +kernel

example : directGrace exMusic ∧ (∀ x ∈ exEnv, directGrace x.2) ∧
    (expand (value exEnv) exMusic).isSome := by
  simp [exMusic, exEnv, directGrace, directGraceL, ml, nt, tuplet, expand]

/-- **C52** fails for `duration` when the selection starts with the fraction of a tuplet: the
scale is applied twice. -/
theorem C52_duration_wrong :
    let music := tuplet (ml [nt (1/8), nt (1/8), nt (1/8)])
    position (remoteLength []) music [0] false = .ok ([], 0) ∧
    position (remoteLength []) music [1] true = .ok ([], 1/4) ∧
    duration (remoteLength []) music [0] [1] = .ok (some ([], 1/6)) := by decide +kernel

/-- **C52** fails for `\afterGrace \x { d16 }`: the length is that of the grace notes. -/
theorem C52_after_grace_variable :
    length (remoteLength [("x", ml [nt 1])]) {} (.node .afterGrace [.node (.reference "x") [],
      ml [nt (1/16)]]) = .ok (1/16) ∧
    length (remoteLength []) {} (.node .afterGrace [ml [nt 1], ml [nt (1/16)]]) = .ok 1 := by
  decide +kernel

/-- **C52** and the documentation ("Returns 0 if the node can't be found") disagree with the
code: for a variable that is not defined, a TypeError is raised. -/
theorem C52_undefined_variable (tr : Transform) (n : String) (cs : List Mus) :
    length (remoteLength []) tr (.node (.reference n) cs) = .error .typeError := rfl

end Quickly.Time
