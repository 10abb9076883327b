import Verif.PitchTime.Core
import Verif.PitchTime.Place
import Verif.RhythmTime.Spec

/-! # The time in documents with other pitches -/

namespace Quickly.PitchTime

open Quickly.Node Quickly.Signature Quickly.Length Quickly.Length.Spec Spec
open Quickly.Duration (Transform)
open Quickly.Time (Mus Kind)
open Quickly.RhythmTime (PyRel)
open Quickly.RhythmTime.Spec (lengthAt positionAt music assigned)

theorem RL_one {m m' : Mus} (h : RL [m] [m']) : R m m' := by
  have key : m.kind = .other → m'.kind = .other → R m m' := by
    intro h h'
    refine ⟨by rw [h, h'], fun n => by rw [h, h'], ?_, ?_⟩
    · intro rem rem' tr _ _
      rw [length_of_other h, length_of_other h']
    · intro rem rem' tr q _ _ e
      rw [length_of_other h] at e
      cases e
      exact le_refl _
  cases h with
  | keep h _ => exact h
  | drop h g =>
    cases g with
    | add h' _ => exact key h h'
  | add h' g =>
    cases g with
    | drop h _ => exact key h h'

theorem one_main {p : Option Cls} {x y : Nd} (h : Like p [x] [y]) (p' : Option Cls) (before before' : List Nd) (hp : sim p' = sim p)
    (hb : previousDuration before' = previousDuration before) (hn : ND (previousDuration before)) :
    PyRel R (toMus p before x) (toMus p' before' y) ∧ previousDuration (rev y ++ before') = previousDuration (rev x ++ before) ∧
      ND (previousDuration (rev x ++ before)) := by
  obtain ⟨h1, h2, h3⟩ := like_main h p' before before' hp hb hn
  simp only [revL, List.nil_append] at h2 h3
  refine ⟨?_, h2, h3⟩
  simp only [toMusL] at h1
  cases e1 : toMus p before x <;> cases e2 : toMus p' before' y <;> rw [e1, e2] at h1
  · exact h1
  · exact h1.elim
  · exact h1.elim
  · exact RL_one h1

theorem like_append {p : Option Cls} {a b a' b' : List Nd} (h : Like p a a') (g : Like p b b') : Like p (a ++ b) (a' ++ b') := by
  induction h with
  | nil p => exact g
  | node p l cs ds ts us hf h _ _ ih => exact .node _ _ _ _ _ _ hf h (ih g)
  | pitch p c v w cs ds ts us hc h _ _ ih => exact .pitch _ _ _ _ _ _ _ _ hc h (ih g)
  | left c y ts us hc hs hy _ ih => exact .left _ _ _ _ hc hs hy (ih g)
  | right c y ts us hc hs hy _ ih => exact .right _ _ _ _ hc hs hy (ih g)
  | check p v cs ts us hp hs _ ih => exact .check _ _ _ _ _ hp hs (ih g)
  | relative p v pre x post y ts us h1 h2 h3 h4 h5 h6 _ _ ih => exact .relative _ _ _ _ _ _ _ _ h1 h2 h3 h4 h5 h6 (ih g)

/-! ## Variables -/

theorem toEnv_app (a b : List Assigned) : toEnv (a ++ b) = (match toEnv a with
      | .error e => .error e
      | .ok x => match toEnv b with
        | .error e => .error e
        | .ok y => .ok (x ++ y)) := by
  induction a with
  | nil =>
    simp only [List.nil_append, toEnv]
    cases toEnv b <;> rfl
  | cons x a ih =>
    obtain ⟨n, before, v⟩ := x
    simp only [List.cons_append, toEnv, ih]
    cases toMus (some .Assignment) before v with
    | error e => rfl
    | ok m =>
      cases toEnv a with
      | error e => rfl
      | ok x =>
        simp only
        cases toEnv b <;> rfl

theorem EnvR.append {a b a' b' : Time.Env} (h : EnvR a a') (g : EnvR b b') : EnvR (a ++ b) (a' ++ b') := by
  induction h with
  | nil => exact g
  | cons h _ ih => exact .cons h ih

theorem head_like {p : Option Cls} {ts us : List Nd} (h : Like p ts us) : p = some .Assignment →
    (ts = [] ∧ us = []) ∨ ∃ x y ts' us', ts = x :: ts' ∧ us = y :: us' ∧ Like p [x] [y] := by
  intro hp
  cases h with
  | nil p => exact .inl ⟨rfl, rfl⟩
  | node p l cs ds ts us hf h _ => exact .inr ⟨_, _, _, _, rfl, rfl, .node _ _ _ _ _ _ hf h (.nil _)⟩
  | pitch p c v w cs ds ts us hc h _ => exact .inr ⟨_, _, _, _, rfl, rfl, .pitch _ _ _ _ _ _ _ _ hc h (.nil _)⟩
  | left c y ts us hc _ _ _ => cases hp; exact absurd hc (by decide)
  | right c y ts us hc _ _ _ => cases hp; exact absurd hc (by decide)
  | check p v cs ts us h _ _ => exact absurd hp h
  | relative p v pre x post y ts us h1 h2 h3 h4 h5 h6 _ => exact .inr ⟨_, _, _, _, rfl, rfl, .relative _ _ _ _ _ _ _ _ h1 h2 h3 h4 h5 h6 (.nil _)⟩

theorem value_like {p : Option Cls} {ts us : List Nd} (h : Like p ts us) : p = some .Assignment → ∀ before before' : List Nd,
    previousDuration before' = previousDuration before → ND (previousDuration before) →
    (assignedValue before ts = none ∧ assignedValue before' us = none) ∨
      ∃ b v b' v', assignedValue before ts = some (b, v) ∧ assignedValue before' us = some (b', v') ∧
        previousDuration b' = previousDuration b ∧ ND (previousDuration b) ∧ Like (some .Assignment) [v] [v'] := by
  have music_equal : ∀ n : Nd, isA .Music n = true → isA .EqualSign n = false := fun n hn => (music_cls _ hn).2.2.2.2.2.2.2.1
  induction h with
  | nil p => intro _ before before' _ _; exact .inl ⟨rfl, rfl⟩
  | node p l cs ds ts us hf h ht _ ih =>
    intro hp before before' hb hn
    obtain ⟨-, a2, a3⟩ := one_main (.node p l cs ds [] [] hf h (.nil _)) p before before' rfl hb hn
    simp only [assignedValue]
    have e : isA .EqualSign (.node l ds) = isA .EqualSign (.node l cs) := rfl
    rw [e]
    split
    · subst hp
      rcases head_like ht rfl with ⟨rfl, rfl⟩ | ⟨x, y, ts', us', rfl, rfl, hxy⟩
      · exact .inl ⟨rfl, rfl⟩
      · exact .inr ⟨_, _, _, _, rfl, rfl, a2, a3, hxy⟩
    · exact ih hp _ _ a2 a3
  | pitch p c v w cs ds ts us hc h _ _ ih =>
    intro hp before before' hb hn
    obtain ⟨-, a2, a3⟩ := one_main (.pitch p c v w cs ds [] [] hc h (.nil _)) p before before' rfl hb hn
    have hm := (pitched_cls c hc).1
    simp only [assignedValue, music_equal (.node (c, v) cs) hm, music_equal (.node (c, w) ds) hm]
    exact ih hp _ _ a2 a3
  | left c y ts us hc _ _ _ => intro hp; cases hp; exact absurd hc (by decide)
  | right c y ts us hc _ _ _ => intro hp; cases hp; exact absurd hc (by decide)
  | check p v cs ts us h _ _ => intro hp; exact absurd hp h
  | relative p v pre x post y ts us h1 h2 h3 h4 h5 h6 _ _ ih =>
    intro hp before before' hb hn
    have hr : Like p [.node (.Relative, v) (pre ++ x :: post)] [y] := .relative p v pre x post y [] [] h1 h2 h3 h4 h5 h6 (.nil _)
    obtain ⟨-, a2, a3⟩ := one_main hr p before before' rfl hb hn
    have hm : isA .Music (.node (.Relative, v) (pre ++ x :: post)) = true := by rw [isA_node]; decide +kernel
    simp only [assignedValue, music_equal _ hm, music_equal _ (music_one hr hm)]
    exact ih hp _ _ a2 a3

/-- The assignment of one node at the toplevel. -/
def assignment (before : List Nd) (t : Nd) : List Assigned :=
  if isA .Assignment t then
    match assignedName t, assignedValue before t.children with
    | some name, some (b, v) => [(name, b, v)]
    | _, _ => []
  else []

theorem assignment_music (before : List Nd) (n : Nd) (h : isA .Music n = true) : assignment before n = [] := by
  simp [assignment, isA, (music_cls _ h).2.2.2.2.2.2.2.2.1]

theorem assignment_node {l : Cls × Val} {cs ds : List Nd} (h : Like (some l.1) cs ds) (before before' : List Nd)
    (hb : previousDuration before' = previousDuration before) (hn : ND (previousDuration before)) :
    PyRel EnvR (toEnv (assignment before (.node l cs))) (toEnv (assignment before' (.node l ds))) := by
  unfold assignment
  have e : isA .Assignment (.node l ds) = isA .Assignment (.node l cs) := rfl
  rw [e]
  by_cases ha : isA .Assignment (.node l cs) = true
  · rw [if_pos ha, if_pos ha]
    rw [isA, assignment_cls, decide_eq_true_iff] at ha
    have ha : l.1 = .Assignment := ha
    have hname : assignedName (.node l ds) = assignedName (.node l cs) := identifier_like h
    rw [hname]
    rw [ha] at h
    simp only [Node.Tree.children]
    cases assignedName (.node l cs) with
    | none => exact .nil
    | some name =>
      rcases value_like h rfl before before' hb hn with ⟨e1, e2⟩ | ⟨b, v, b', v', e1, e2, e3, e4, e5⟩
      · rw [e1, e2]; exact .nil
      · rw [e1, e2]
        have := (one_main e5 (some .Assignment) b b' rfl e3 e4).1
        simp only [toEnv]
        cases f1 : toMus (some .Assignment) b v <;> cases f2 : toMus (some .Assignment) b' v' <;> rw [f1, f2] at this
        · exact this
        · exact this.elim
        · exact this.elim
        · exact .cons this .nil
  · rw [if_neg ha, if_neg ha]
    exact .nil

theorem env_app {a b a' b' : List Assigned} (h : PyRel EnvR (toEnv a) (toEnv a')) (g : PyRel EnvR (toEnv b) (toEnv b')) :
    PyRel EnvR (toEnv (a ++ b)) (toEnv (a' ++ b')) := by
  rw [toEnv_app, toEnv_app]
  cases f1 : toEnv a <;> cases f2 : toEnv a' <;> rw [f1, f2] at h
  · exact h
  · exact h.elim
  · exact h.elim
  · simp only
    cases g1 : toEnv b <;> cases g2 : toEnv b' <;> rw [g1, g2] at g
    · exact g
    · exact g.elim
    · exact g.elim
    · exact EnvR.append h g

/-- The variables have the same music. -/
theorem env_like {p : Option Cls} {ts us : List Nd} (h : Like p ts us) : ∀ before before' : List Nd,
    previousDuration before' = previousDuration before → ND (previousDuration before) →
    PyRel EnvR (toEnv (assignments before ts)) (toEnv (assignments before' us)) := by
  have eq : ∀ (before : List Nd) (t : Nd) (ts : List Nd), assignments before (t :: ts) = assignments (rev t ++ before) ts ++ assignment before t :=
    fun _ _ _ => rfl
  induction h with
  | nil p => intro before before' _ _; exact .nil
  | node p l cs ds ts us hf h ht _ ih =>
    intro before before' hb hn
    obtain ⟨-, a2, a3⟩ := one_main (.node p l cs ds [] [] hf h (.nil _)) p before before' rfl hb hn
    rw [eq, eq]
    exact env_app (ih _ _ a2 a3) (assignment_node h before before' hb hn)
  | pitch p c v w cs ds ts us hc h _ _ ih =>
    intro before before' hb hn
    obtain ⟨-, a2, a3⟩ := one_main (.pitch p c v w cs ds [] [] hc h (.nil _)) p before before' rfl hb hn
    have hm := (pitched_cls c hc).1
    rw [eq, eq, assignment_music _ (.node (c, v) cs) hm, assignment_music _ (.node (c, w) ds) hm]
    exact env_app (ih _ _ a2 a3) .nil
  | left c y ts us hc hs hy _ ih =>
    intro before before' hb hn
    have hpd := (silent_ok y hs (some c) before).2
    have : assignment before y = [] := by
      unfold assignment
      rw [if_neg]
      rw [isA, (show ∀ c ∈ parts, isSub 5 c .Assignment = false by decide +kernel) _ hy]
      decide
    rw [eq, this, List.append_nil]
    exact ih _ _ (hb.trans hpd.symm) (hpd ▸ hn)
  | right c y ts us hc hs hy _ ih =>
    intro before before' hb hn
    have hpd := (silent_ok y hs (some c) before').2
    have : assignment before' y = [] := by
      unfold assignment
      rw [if_neg]
      rw [isA, (show ∀ c ∈ parts, isSub 5 c .Assignment = false by decide +kernel) _ hy]
      decide
    rw [eq, this, List.append_nil]
    exact ih _ _ (hpd.trans hb) hn
  | check p v cs ts us _ hs _ ih =>
    intro before before' hb hn
    have hpd := (silent_ok _ (.mk .OctaveCheck v cs (by decide) hs) p before).2
    have : assignment before (.node (.OctaveCheck, v) cs) = [] := by
      unfold assignment
      rw [if_neg]
      rw [isA_node]
      decide +kernel
    rw [eq, this, List.append_nil]
    exact ih _ _ (hb.trans hpd.symm) (hpd ▸ hn)
  | relative p v pre x post y ts us h1 h2 h3 h4 h5 h6 _ _ ih =>
    intro before before' hb hn
    have hr : Like p [.node (.Relative, v) (pre ++ x :: post)] [y] := .relative p v pre x post y [] [] h1 h2 h3 h4 h5 h6 (.nil _)
    obtain ⟨-, a2, a3⟩ := one_main hr p before before' rfl hb hn
    have hm : isA .Music (.node (.Relative, v) (pre ++ x :: post)) = true := by rw [isA_node]; decide +kernel
    rw [eq, eq, assignment_music _ _ hm, assignment_music _ _ (music_one hr hm)]
    exact env_app (ih _ _ a2 a3) .nil

/-! ## Places -/

theorem place_like {p : Option Cls} {ts us : List Nd} {i j : List ℕ} (h : Place p ts us i j) : Like p ts us := by
  cases h with
  | here p ts us x y ts' us' h1 h2 h3 => exact like_append h1 (like_append h2 h3)
  | node p ts us c v w cs ds ts' us' i j h1 h2 _ _ h3 => exact like_append h1 (like_append h2 h3)
  | relative p ts us v pre x post y ts' us' i j h1 h2 _ _ _ _ h3 => exact like_append h1 (like_append h2 h3)

theorem toMusL_length (p : Option Cls) (ts : List Nd) : ∀ (before : List Nd) (ms : List Mus), toMusL p before ts = .ok ms → ms.length = ts.length := by
  induction ts with
  | nil => intro before ms h; cases h; rfl
  | cons t ts ih =>
    intro before ms h
    rw [toMusL] at h
    split at h
    · cases h
    · split at h
      · cases h
      · rename_i h1 _ _ h2
        cases h
        simp [ih _ _ h2]

/-- The parts of a list of nodes. -/
theorem split_ok {p : Option Cls} {before ts : List Nd} {x : Nd} {ts' : List Nd} {ms : List Mus} (h : toMusL p before (ts ++ x :: ts') = .ok ms) :
    ∃ a m b, ms = a ++ m :: b ∧ a.length = ts.length ∧ toMusL p before ts = .ok a ∧ toMus p (revL ts ++ before) x = .ok m ∧
      toMusL p (rev x ++ (revL ts ++ before)) ts' = .ok b := by
  rw [toMusL_app] at h
  cases h1 : toMusL p before ts with
  | error e => rw [h1] at h; cases h
  | ok a =>
    rw [h1] at h
    simp only [toMusL] at h
    cases h2 : toMus p (revL ts ++ before) x with
    | error e => rw [h2] at h; cases h
    | ok m =>
      rw [h2] at h
      simp only at h
      cases h3 : toMusL p (rev x ++ (revL ts ++ before)) ts' with
      | error e => rw [h3] at h; cases h
      | ok b =>
        rw [h3] at h
        cases h
        exact ⟨a, m, b, rfl, toMusL_length _ _ _ _ h1, rfl, rfl, rfl⟩

theorem node_ok {p : Option Cls} {before : List Nd} {l : Cls × Val} {cs : List Nd} {m : Mus} (h : toMus p before (.node l cs) = .ok m) :
    ∃ k ms, m = .node k ms ∧ kindOf p before (.node l cs) = .ok k ∧ toMusL (some l.1) before cs = .ok ms := by
  rw [toMus] at h
  split at h
  · cases h
  · rename_i k hk
    split at h
    · cases h
    · rename_i ms hms
      cases h
      exact ⟨k, ms, rfl, hk, hms⟩

theorem forward_like {p : Option Cls} {ts us : List Nd} (h : Like p ts us) : ∀ n ∈ ts, ∀ t, transform n = .ok (some t) → 0 ≤ t.scale := by
  have none : ∀ (n : Nd), (isSub 5 n.val.1 .Times = false ∧ isSub 5 n.val.1 .Tuplet = false ∧ isSub 5 n.val.1 .ScaleDurations = false ∧
      isSub 5 n.val.1 .ShiftDurations = false ∧ isSub 5 n.val.1 .Grace = false) → ∀ t, transform n = .ok (some t) → 0 ≤ t.scale := by
    rintro ⟨⟨c, v⟩, cs⟩ h t ht
    rw [transform_none c v cs h] at ht
    cases ht
  induction h with
  | nil p => intro n hn; cases hn
  | node p l cs ds ts us hf _ _ _ ih =>
    intro n hn
    rcases List.mem_cons.1 hn with rfl | hn
    · exact hf.2
    · exact ih n hn
  | pitch p c v w cs ds ts us hc _ _ _ ih =>
    intro n hn
    rcases List.mem_cons.1 hn with rfl | hn
    · obtain ⟨-, a1, a2, a3, a4, a5, -⟩ := pitched_cls c hc
      exact none _ ⟨a1, a2, a3, a4, a5⟩
    · exact ih n hn
  | left c y ts us hc hs hy _ ih =>
    intro n hn
    rcases List.mem_cons.1 hn with rfl | hn
    · exact none _ ((show ∀ c ∈ parts, isSub 5 c .Times = false ∧ isSub 5 c .Tuplet = false ∧ isSub 5 c .ScaleDurations = false ∧
          isSub 5 c .ShiftDurations = false ∧ isSub 5 c .Grace = false by decide +kernel) _ hy)
    · exact ih n hn
  | right c y ts us hc hs hy _ ih => exact ih
  | check p v cs ts us _ hs _ ih =>
    intro n hn
    rcases List.mem_cons.1 hn with rfl | hn
    · exact none _ (by simp only [Node.Tree.val]; decide +kernel)
    · exact ih n hn
  | relative p v pre x post y ts us _ _ _ _ _ _ _ _ ih =>
    intro n hn
    rcases List.mem_cons.1 hn with rfl | hn
    · exact none _ (by simp only [Node.Tree.val]; decide +kernel)
    · exact ih n hn

theorem place_main {p : Option Cls} {ts us : List Nd} {i j : List ℕ} (h : Place p ts us i j) : ∀ (p' : Option Cls) (before before' : List Nd)
    (ms ms' : List Mus), sim p' = sim p → previousDuration before' = previousDuration before → ND (previousDuration before) →
    toMusL p before ts = .ok ms → toMusL p' before' us = .ok ms' →
    ∃ a x b a' x' b' i' j', ms = a ++ x :: b ∧ ms' = a' ++ x' :: b' ∧ i = a.length :: i' ∧ j = a'.length :: j' ∧ RL a a' ∧ PR x x' i' j' ∧ RL b b' := by
  induction h with
  | here p ts us x y ts' us' h1 h2 h3 =>
    intro p' before before' ms ms' hp hb hn e e'
    obtain ⟨a, m, b, rfl, l1, f1, f2, f3⟩ := split_ok e
    obtain ⟨a', m', b', rfl, l1', f1', f2', f3'⟩ := split_ok e'
    obtain ⟨r1, q1, n1⟩ := like_main h1 p' before before' hp hb hn
    obtain ⟨r2, q2, n2⟩ := one_main h2 p' _ _ hp q1 n1
    obtain ⟨r3, -, -⟩ := like_main h3 p' _ _ hp q2 n2
    rw [f1, f1'] at r1
    rw [f2, f2'] at r2
    rw [f3, f3'] at r3
    exact ⟨a, m, b, a', m', b', [], [], rfl, rfl, by rw [l1], by rw [l1'], r1, .here r2, r3⟩
  | node p ts us c v w cs ds ts' us' i j h1 h2 hv hpl h3 ih =>
    intro p' before before' ms ms' hp hb hn e e'
    obtain ⟨a, m, b, rfl, l1, f1, f2, f3⟩ := split_ok e
    obtain ⟨a', m', b', rfl, l1', f1', f2', f3'⟩ := split_ok e'
    obtain ⟨r1, q1, n1⟩ := like_main h1 p' before before' hp hb hn
    obtain ⟨r2, q2, n2⟩ := one_main h2 p' _ _ hp q1 n1
    obtain ⟨r3, -, -⟩ := like_main h3 p' _ _ hp q2 n2
    rw [f1, f1'] at r1
    rw [f2, f2'] at r2
    rw [f3, f3'] at r3
    obtain ⟨k, ns, rfl, hk, g⟩ := node_ok f2
    obtain ⟨k', ns', rfl, hk', g'⟩ := node_ok f2'
    have hlike := place_like hpl
    have hkk : k' = k := by
      rw [kind_like hlike hv p p' _ _ hp q1, hk] at hk'
      cases hk'; rfl
    subst hkk
    obtain ⟨a2, x2, b2, a2', x2', b2', i', j', rfl, rfl, rfl, rfl, s1, s2, s3⟩ := ih (some c) _ _ ns ns' rfl q1 n1 g g'
    have hnn : NN k' := by
      refine kind_nonneg hlike p _ n1 ?_ k' hk
      intro t ht
      exact forward_like h2 _ (by simp) t ht
    exact ⟨a, _, b, a', _, b', _, _, rfl, rfl, by rw [l1], by rw [l1'], r1, .down hnn s1 s2 s3, r3⟩
  | relative p ts us v pre x post y ts' us' i j h1 h2 hsim hz hx hpl h3 ih =>
    intro p' before before' ms ms' hp hb hn e e'
    obtain ⟨a, m, b, rfl, l1, f1, f2, f3⟩ := split_ok e
    obtain ⟨a', m', b', rfl, l1', f1', f2', f3'⟩ := split_ok e'
    obtain ⟨r1, q1, n1⟩ := like_main h1 p' before before' hp hb hn
    obtain ⟨r2, q2, n2⟩ := one_main h2 p' _ _ hp q1 n1
    obtain ⟨r3, -, -⟩ := like_main h3 p' _ _ hp q2 n2
    rw [f1, f1'] at r1
    rw [f3, f3'] at r3
    obtain ⟨k, ns, rfl, hk, g⟩ := node_ok f2
    have hk2 : k = .music false none := by
      rw [kindOf_music p _ .Relative v _ none (by decide +kernel) (transform_none _ _ _ (by decide +kernel)),
        isSequential_false _ _ _ _ (by decide +kernel)] at hk
      cases hk; rfl
    subst hk2
    obtain ⟨zs, mx, zs2, rfl, lz, g1, g2, g3⟩ := split_ok g
    obtain ⟨⟨zs', e1, zero⟩, hpd⟩ := silents pre (fun z h => (hz z (by simp [h])).1) (some .Relative) (revL ts ++ before)
    rw [g1] at e1
    cases e1
    obtain ⟨⟨zs2', e2, zero2⟩, -⟩ := silents post (fun z h => (hz z (by simp [h])).1) (some .Relative) (rev x ++ (revL pre ++ (revL ts ++ before)))
    rw [g3] at e2
    cases e2
    have hsp : sim p' = sim (some .Relative) := by
      rw [hp]
      cases p with
      | none => exact (show false = isSub 5 .Relative .Simultaneous by decide +kernel)
      | some c =>
        simp only [sim, simultaneous_cls]
        have : c ≠ .Simultaneous := fun e => hsim (by rw [e])
        rw [decide_eq_false this]
        decide
    obtain ⟨a2, x2, b2, a2', x2', b2', i', j', t1, t2, t3, t4, s1, s2, s3⟩ := ih p' (revL pre ++ (revL ts ++ before)) (revL us ++ before') [mx] [m'] hsp
      (q1.trans hpd.symm) (hpd ▸ n1) (by simp [toMusL, g2]) (by simp [toMusL, f2'])
    simp only [List.cons.injEq] at t3 t4
    have ha2 : a2 = [] := List.length_eq_zero_iff.1 t3.1.symm
    have ha2' : a2' = [] := List.length_eq_zero_iff.1 t4.1.symm
    subst ha2 ha2'
    simp only [List.nil_append, List.cons.injEq] at t1 t2
    obtain ⟨rfl, -⟩ := t1
    obtain ⟨rfl, -⟩ := t2
    obtain ⟨-, rfl⟩ := t3
    obtain ⟨-, rfl⟩ := t4
    have hmu : mx.kind.isMusic = true := by
      obtain ⟨lx, cx⟩ := x
      obtain ⟨kx, nx, rfl, hkx, -⟩ := node_ok g2
      exact kind_music hkx hx
    exact ⟨a, _, b, a', _, b', _, _, rfl, rfl, by rw [l1, lz], by rw [l1'], r1, .hoist zero zero2 hmu s2, r3⟩

/-- `Time.position(node)` for the node at a path: the time in the outermost music it is in. -/
def timeAt (doc : List Nd) (path : List ℕ) (incl : Bool) : Py ℚ := (positionAt doc path incl).map (·.2)

theorem place_take {p : Option Cls} {doc doc' : List Nd} {i j : List ℕ} (h : Place p doc doc' i j) :
    ∃ ts us i' j', Like p ts us ∧ i = ts.length :: i' ∧ j = us.length :: j' ∧ doc.take ts.length = ts ∧ doc'.take us.length = us := by
  cases h with
  | here p ts us x y ts' us' h1 h2 h3 => exact ⟨ts, us, _, _, h1, rfl, rfl, by simp, by simp⟩
  | node p ts us c v w cs ds ts' us' i j h1 h2 _ _ h3 => exact ⟨ts, us, _, _, h1, rfl, rfl, by simp, by simp⟩
  | relative p ts us v pre x post y ts' us' i j h1 h2 _ _ _ _ h3 => exact ⟨ts, us, _, _, h1, rfl, rfl, by simp, by simp⟩

/-- The node at a path, with other pitches, takes the same time, at the same time. -/
theorem doc_place {doc doc' : List Nd} {i j : List ℕ} (h : Place (some .Document) doc doc' i j) :
    lengthAt doc' j = lengthAt doc i ∧ ∀ incl, timeAt doc' j incl = timeAt doc i incl := by
  have hn : ND (previousDuration []) := by simp only [ND, previousDuration]; norm_num
  have hl := (like_main (place_like h) (some .Document) [] [] rfl rfl hn).1
  cases e : toMusL (some .Document) [] doc <;> cases e' : toMusL (some .Document) [] doc' <;> rw [e, e'] at hl
  · cases hl
    refine ⟨by simp only [lengthAt, music, e, e', Except.map], fun incl => by simp only [timeAt, positionAt, music, e, e', Except.map]⟩
  · exact hl.elim
  · exact hl.elim
  · rename_i ms ms'
    obtain ⟨a, x, b, a', x', b', i', j', rfl, rfl, rfl, rfl, s1, s2, s3⟩ := place_main h (some .Document) [] [] ms ms' rfl rfl hn e e'
    have hpr : PR (.node .other (a ++ x :: b)) (.node .other (a' ++ x' :: b')) (a.length :: i') (a'.length :: j') := .down trivial s1 s2 s3
    obtain ⟨ts, us, i2, j2, hts, hi, hj, ht, ht'⟩ := place_take h
    have ht : doc.take a.length = ts := by rw [(List.cons.inj hi).1]; exact ht
    have ht' : doc'.take a'.length = us := by rw [(List.cons.inj hj).1]; exact ht'
    have henv := env_like hts [] [] rfl hn
    simp only [lengthAt, timeAt, positionAt, music, e, e', Except.map, assigned, List.headD_cons, ht, ht']
    cases f : toEnv (assignments [] ts) <;> cases f' : toEnv (assignments [] us) <;> rw [f, f'] at henv
    · cases henv; exact ⟨rfl, fun _ => rfl⟩
    · exact henv.elim
    · exact henv.elim
    · obtain ⟨-, -, r1, r2⟩ := place_rel hpr _ _ (env_rel henv)
      exact ⟨r1, fun incl => (r2 incl).2⟩

end Quickly.PitchTime
