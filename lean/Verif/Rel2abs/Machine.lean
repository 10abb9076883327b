import Verif.Rel2abs.Walk

/-! # The states that the conversion runs through -/

namespace Quickly.Rel2abs

open Quickly.Pitch Quickly.Relative Spec

open Classical in
/-- How far the conversion is: the `\relative` nodes that have been replaced, the notes that have been
changed, and the `\octaveCheck` nodes that have been removed. -/
structure St where
  D : Set Id
  V : Set Id
  X : Set Id

/-- What does not change: the document, how it was in memory, and what becomes of the notes. -/
structure Fr where
  c : Cfg
  T : Doc
  h0 : Heap
  fin : Id → Bool × PNode × Option ℤ

/-- The music of a `\relative`. -/
def Fr.body (F : Fr) (r : Id) : Id := ((F.h0.kids r).filter fun k => F.h0.lab k ≠ .comment).getLast?.getD r

open Classical in
/-- What is in the list instead of the node. -/
noncomputable def Fr.sub (F : Fr) (D : Set Id) (k : Id) : Id := if k ∈ D then F.body k else k

open Classical in
/-- The parent. -/
noncomputable def Fr.par (F : Fr) (D : Set Id) (i : Id) : Option Id :=
  match F.h0.parent i with
  | none => none
  | some r => if r ∈ D ∧ F.body r = i then F.h0.parent r else some r

open Classical in
/-- The nodes in memory in the state. -/
noncomputable def Fr.H (F : Fr) (s : St) : Heap where
  lab i := if i ∈ s.V then .note (F.fin i).1 (F.fin i).2.1 (F.fin i).2.2 else F.h0.lab i
  kids i := ((F.h0.kids i).filter fun k => k ∉ s.X).map (F.sub s.D)
  parent := F.par s.D
  lang := F.h0.lang

/-- All notes that change in these `\relative` nodes. -/
def Fr.notes (F : Fr) (A : Set Id) : Set Id := {i | ∃ r ∈ relsOf F.T, r.id ∈ A ∧ i ∈ notesOf (bodyOf r)}
/-- All nodes that are removed in these `\relative` nodes. -/
def Fr.checks (F : Fr) (A : Set Id) : Set Id := {i | ∃ r ∈ relsOf F.T, r.id ∈ A ∧ i ∈ checksOf (bodyOf r)}

/-- When these `\relative` nodes have been converted. -/
def Fr.add (F : Fr) (s : St) (A : Set Id) : St := ⟨s.D ∪ A, s.V ∪ F.notes A, s.X ∪ F.checks A⟩

/-- The `\relative` nodes that are still there. -/
def Fr.todo (F : Fr) (s : St) : Set Id := {i | (∃ r ∈ relsOf F.T, r.id = i) ∧ i ∉ s.D}

open Classical in
/-- How many they are. -/
noncomputable def Fr.count (F : Fr) (s : St) : ℕ := ((relsOf F.T).filter fun r => r.id ∉ s.D).length

mutual
/-- What becomes of the notes in the tree is as `fin` says. -/
def FinOk (fin : Id → Bool × PNode × Option ℤ) : Doc → Prop
  | .node i l ks => (∀ p nd chk, l = .note p nd chk → fin i = (p, nd, chk)) ∧ FinOkL fin ks
/-- The same for a list. -/
def FinOkL (fin : Id → Bool × PNode × Option ℤ) : List Doc → Prop
  | [] => True
  | k :: ks => FinOk fin k ∧ FinOkL fin ks
end

/-- The language. -/
def Fr.L (F : Fr) : Str := F.h0.lang

/-- What is needed. -/
structure Fr.Good (F : Fr) : Prop where
  linked : Linked F.h0
  shows : Shows F.h0 F.T
  nodup : (ids F.T).Nodup
  nice : Nice F.T
  root : F.T.lab ≠ .relative
  lang : OneLang F.L F.T
  conv : ∀ r ∈ relsOf F.T, ∃ p s ts, startOf F.c F.L r.kids = .ok p ∧ walk F.c F.L (.music p) (bodyOf r) = .ok (s, ts) ∧ FinOkL F.fin ts

/-- The state is possible. -/
structure Fr.WF (F : Fr) (s : St) : Prop where
  D : ∀ i ∈ s.D, ∃ r ∈ relsOf F.T, r.id = i
  V : s.V ⊆ F.notes s.D
  X : s.X ⊆ F.checks s.D

variable {F : Fr} (g : F.Good)
include g

namespace Fr

theorem Good.rel_lab {r : Doc} (hr : r ∈ relsOf F.T) : F.h0.lab r.id = .relative := by
  rw [(shows_rel _ g.shows r hr).lab, (relsOf_rel _ r hr).1]

theorem Good.relOk {r : Doc} (hr : r ∈ relsOf F.T) : RelOk r.kids := nice_rels _ g.nice r hr

theorem Good.same {r r' : Doc} (hr : r ∈ relsOf F.T) (hr' : r' ∈ relsOf F.T) {i : Id} (h : i ∈ ids r) (h' : i ∈ ids r') : r = r' :=
  rel_disjoint _ g.nodup r hr r' hr' i h h'

theorem Good.same_id {r r' : Doc} (hr : r ∈ relsOf F.T) (hr' : r' ∈ relsOf F.T) (h : r.id = r'.id) : r = r' :=
  g.same hr hr' (id_mem_ids r) (by rw [h]; exact id_mem_ids r')

theorem Good.body_id {r : Doc} (hr : r ∈ relsOf F.T) : F.body r.id = (bodyOf r).id := by
  have hs := shows_rel _ g.shows r hr
  rw [Fr.body, hs.kids, bodyOf, real]
  have : ∀ ks : List Doc, ShowsL F.h0 ks →
      (ks.map Doc.id).filter (fun k => decide (F.h0.lab k ≠ .comment)) = (ks.filter fun k => decide (k.lab ≠ .comment)).map Doc.id := by
    intro ks hk
    rw [List.filter_map]
    congr 1
    refine List.filter_congr fun k hk2 => ?_
    rw [Function.comp, (shows_mem hk k hk2).lab]
  rw [this _ hs.showsL, List.getLast?_map]
  cases ((List.filter (fun k => decide (k.lab ≠ Lab.comment)) r.kids).getLast?) <;> rfl

theorem Good.body_mem {r : Doc} (hr : r ∈ relsOf F.T) : ∀ i ∈ ids (bodyOf r), i ∈ ids r := by
  intro i hi
  have := (relOk_body (g.relOk hr)).1
  cases r with
  | node j l ks => rw [ids]; exact List.mem_cons_of_mem _ (mem_idsL.2 ⟨_, this, hi⟩)

theorem Good.body_shows {r : Doc} (hr : r ∈ relsOf F.T) : Shows F.h0 (bodyOf r) :=
  shows_mem (shows_rel _ g.shows r hr).showsL _ (relOk_body (g.relOk hr)).1

theorem Good.body_parent {r : Doc} (hr : r ∈ relsOf F.T) : F.h0.parent (bodyOf r).id = some r.id := by
  refine g.linked.parent _ _ ?_
  rw [(shows_rel _ g.shows r hr).kids]
  exact List.mem_map_of_mem (relOk_body (g.relOk hr)).1

theorem Good.body_lab {r : Doc} (hr : r ∈ relsOf F.T) : F.h0.lab (bodyOf r).id ≠ .relative := by
  rw [(g.body_shows hr).lab]; exact (relOk_body (g.relOk hr)).2.2.1.lab

theorem Good.rel_parent {r : Doc} (hr : r ∈ relsOf F.T) : ∃ p, F.h0.lab p ≠ .relative ∧ r.id ∈ F.h0.kids p := by
  have h1 := g.root
  have h2 := g.shows
  cases hT : F.T with
  | node i l ks =>
    rw [hT] at h1 h2 hr
    have hl : l ≠ .relative := h1
    rw [relsOf, if_neg hl] at hr
    exact Quickly.Rel2abs.rel_parent i l ks hl h2 r hr

theorem Good.checks_lab {A : Set Id} {x : Id} (h : x ∈ F.checks A) : F.h0.lab x = .check := by
  obtain ⟨r, hr, _, hx⟩ := h
  obtain ⟨_, _, h3, h4⟩ := relOk_body (g.relOk hr)
  exact (checks_last _ _ (Nat.lt_succ_self _) (g.body_shows hr) h4 h3 x hx).1

theorem Good.checks_end {A : Set Id} {x : Id} (h : x ∈ F.checks A) {o : Id} (ho : x ∈ F.h0.kids o) : ∃ pre, F.h0.kids o = pre ++ [x] := by
  obtain ⟨r, hr, _, hx⟩ := h
  obtain ⟨_, h2, h3, h4⟩ := relOk_body (g.relOk hr)
  rcases (checks_last _ _ (Nat.lt_succ_self _) (g.body_shows hr) h4 h3 x hx).2 with ⟨a, _⟩ | ⟨p, _, pre, hp, _⟩
  · exact absurd a h2
  · have e1 := g.linked.parent o x ho
    have e2 := g.linked.parent p x (by rw [hp]; simp)
    rw [e1] at e2
    cases e2
    exact ⟨pre, hp⟩

theorem Good.rel_of {i : Id} {s : St} (w : F.WF s) (h : i ∈ s.D) : F.h0.lab i = .relative := by
  obtain ⟨r, hr, rfl⟩ := w.D i h
  exact g.rel_lab hr

theorem Good.sub_id {s : St} (w : F.WF s) {k : Id} (h : F.h0.lab k ≠ .relative) : F.sub s.D k = k := by
  rw [Fr.sub, if_neg]
  exact fun hk => h (g.rel_of w hk)

theorem Good.X_lab {s : St} (w : F.WF s) {x : Id} (h : x ∈ s.X) : F.h0.lab x = .check := g.checks_lab (w.X h)

theorem Good.lab_rel {s : St} (w : F.WF s) {i : Id} : (F.H s).lab i = .relative ↔ (F.h0.lab i = .relative ∧ i ∉ s.V) := by
  simp only [Fr.H]
  by_cases h : i ∈ s.V
  · simp [h]
  · simp [h]

/-- In a list the nodes before a certain node have not been removed. -/
theorem Good.filter_pre {s : St} (w : F.WF s) {o : Id} {pre suf : List Id} {t : Id} (e : F.h0.kids o = pre ++ t :: suf) :
    ∀ k ∈ pre, k ∉ s.X := by
  intro k hk hx
  obtain ⟨p, hp⟩ := g.checks_end (w.X hx) (o := o) (by rw [e]; simp [hk])
  have hn := g.linked.nodup o
  rw [hp] at hn
  have e2 : pre ++ t :: suf = p ++ [k] := by rw [← e, hp]
  -- the last of the list is in the second part
  have hl : k ∈ t :: suf := by
    have h1 : (pre ++ t :: suf).getLast (by simp) = k := by simp only [e2]; simp
    rw [List.getLast_append_of_ne_nil _ (by simp)] at h1
    rw [← h1]
    exact List.getLast_mem _
  have hn2 := g.linked.nodup o
  rw [e, List.nodup_append] at hn2
  exact hn2.2.2 k hk k hl rfl

open Classical in
theorem Good.get {s : St} (w : F.WF s) {o : Id} {pre suf : List Id} {t : Id} (e : F.h0.kids o = pre ++ t :: suf) (ht : t ∉ s.X) :
    ((F.H s).kids o)[pre.length]? = some (F.sub s.D t) := by
  have h1 : pre.filter (fun k => decide (k ∉ s.X)) = pre := by
    rw [List.filter_eq_self]
    intro k hk
    simpa using g.filter_pre w e k hk
  simp only [Fr.H]
  rw [e, List.filter_append, h1, List.filter_cons_of_pos (by simpa using ht), List.map_append, List.map_cons,
    List.getElem?_append_right (by simp)]
  simp

theorem Good.get_end {s : St} {o : Id} {pre : List Id} (e : F.h0.kids o = pre) : ((F.H s).kids o)[pre.length]? = none := by
  rw [List.getElem?_eq_none]
  simp only [Fr.H, List.length_map]
  rw [e]
  exact List.length_filter_le _ _

open Classical in
theorem Good.get_removed {s : St} (w : F.WF s) {o : Id} {pre suf : List Id} {t : Id} (e : F.h0.kids o = pre ++ t :: suf) (ht : t ∈ s.X) :
    suf = [] ∧ ((F.H s).kids o)[pre.length]? = none := by
  obtain ⟨p, hp⟩ := g.checks_end (w.X ht) (o := o) (by rw [e]; simp)
  have hs : suf = [] := by
    by_contra hne
    obtain ⟨a, y, rfl⟩ : ∃ a y, suf = a ++ [y] := ⟨suf.dropLast, suf.getLast hne, (List.dropLast_append_getLast _).symm⟩
    have e2 : (pre ++ t :: a) ++ [y] = p ++ [t] := by rw [← hp, e]; simp
    have e3 := List.append_inj' e2 rfl
    have hn := g.linked.nodup o
    rw [hp, ← e3.1, List.nodup_append] at hn
    exact hn.2.2 t (by simp) t (by simp) rfl
  refine ⟨hs, ?_⟩
  subst hs
  rw [List.getElem?_eq_none]
  simp only [Fr.H, List.length_map]
  rw [e, List.filter_append, List.length_append, List.filter_cons_of_neg (by simpa using ht)]
  simpa using List.length_filter_le _ _

end Fr

end Quickly.Rel2abs
