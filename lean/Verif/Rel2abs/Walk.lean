import Verif.Rel2abs.Spec
import Mathlib.Tactic.Linarith
import Mathlib.Data.List.Nodup
import Mathlib.Data.Set.Basic
import Mathlib.Tactic.Tauto

/-! # What the walk over a `\relative` does to the tree, and the sets of nodes it works on -/

namespace Quickly.Rel2abs

open Quickly.Pitch Quickly.Relative Spec

/-- A note in the language. -/
def mkNote (L : Str) (nd : PNode) (chk : Option ℤ) : Note := { node := nd, check := chk, lang := L }

mutual
/-- The loop of `make_absolute`, as a function on trees: the node, if it stays. -/
def walk (c : Cfg) (L : Str) : Sink → Doc → Py (Sink × List Doc)
  | s, .node i (.note p nd chk) ks => match s with
    | .music last => match absNote c.pp (mkNote L nd chk) last with
      | .error e => .error e
      | .ok (q, n) => .ok (.music q, [.node i (.note p n.node n.check) ks])
    | .chord top first => match absNote c.pp (mkNote L nd chk) top with
      | .error e => .error e
      | .ok (q, n) => .ok (.chord q (some (first.getD q)), [.node i (.note p n.node n.check) ks])
    | .check _ => match (c.pp L).readNode nd with
      | .error e => .error e
      | .ok q => .ok (.check q, [.node i (.note p nd chk) ks])
  | s, .node i .chord ks => match s with
    | .music last => match walkL c L (.chord last none) ks with
      | .error e => .error e
      | .ok (.chord _ first, ks') => .ok (.music (first.getD last), [.node i .chord ks'])
      | .ok (_, _) => .error .runtimeError
    | _ => .error .attributeError
  | s, .node _ .check ks => match s with
    | .music last => match walkL c L (.check last) ks with
      | .error e => .error e
      | .ok (.check last, _) => .ok (.music last, [])
      | .ok (_, _) => .error .runtimeError
    | _ => .error .attributeError
  | _, .node _ .relative _ => .error .runtimeError
  | s, .node i (.skip k) ks => .ok (s, [.node i (.skip k) ks])
  | s, .node i (.language l) ks => .ok (s, [.node i (.language l) ks])
  | s, .node i .comment ks => match walkL c L s ks with
    | .error e => .error e
    | .ok (s, ks') => .ok (s, [.node i .comment ks'])
  | s, .node i .chordmode ks => match walkL c L s ks with
    | .error e => .error e
    | .ok (s, ks') => .ok (s, [.node i .chordmode ks'])
  | s, .node i .other ks => match walkL c L s ks with
    | .error e => .error e
    | .ok (s, ks') => .ok (s, [.node i .other ks'])
/-- The nodes one after another. -/
def walkL (c : Cfg) (L : Str) : Sink → List Doc → Py (Sink × List Doc)
  | s, [] => .ok (s, [])
  | s, t :: ts => match walk c L s t with
    | .error e => .error e
    | .ok (s, a) => match walkL c L s ts with
      | .error e => .error e
      | .ok (s, b) => .ok (s, a ++ b)
end

/-- The music of a `\relative`. -/
def bodyOf (r : Doc) : Doc := (real r.kids).getLast?.getD r

/-- The pitch that the music of a `\relative` is relative to. -/
def startOf (c : Cfg) (L : Str) (ks : List Doc) : Py Pitch :=
  match start? L ks with
  | some n => (c.pp L).readNode n.node
  | none => .ok (firstPitch c.firstAbs)

mutual
/-- `Rel2abs` as a function on trees. -/
def out (c : Cfg) (L : Str) : Doc → Py (List Doc)
  | .node i l ks => if l = .relative then match startOf c L ks with
      | .error e => .error e
      | .ok p => match walk c L (.music p) (bodyOf (.node i l ks)) with
        | .error e => .error e
        | .ok (_, ts) => .ok ts
    else match outL c L ks with
      | .error e => .error e
      | .ok ks' => .ok [.node i l ks']
/-- The nodes one after another. -/
def outL (c : Cfg) (L : Str) : List Doc → Py (List Doc)
  | [] => .ok []
  | t :: ts => match out c L t with
    | .error e => .error e
    | .ok a => match outL c L ts with
      | .error e => .error e
      | .ok b => .ok (a ++ b)
end

mutual
/-- The outermost `\relative` nodes. -/
def relsOf : Doc → List Doc
  | .node i l ks => if l = .relative then [.node i l ks] else relsOfL ks
/-- The same for a list. -/
def relsOfL : List Doc → List Doc
  | [] => []
  | t :: ts => relsOf t ++ relsOfL ts
end

mutual
/-- The notes that the walk changes. -/
def notesOf : Doc → Set Id
  | .node i (.note _ _ _) _ => {i}
  | .node _ .chord ks => notesOfL ks
  | .node _ .comment ks => notesOfL ks
  | .node _ .chordmode ks => notesOfL ks
  | .node _ .other ks => notesOfL ks
  | _ => ∅
/-- The same for a list. -/
def notesOfL : List Doc → Set Id
  | [] => ∅
  | t :: ts => notesOf t ∪ notesOfL ts
end

mutual
/-- The `\octaveCheck` nodes that the walk removes. -/
def checksOf : Doc → Set Id
  | .node i .check ks => {i} ∪ checksOfL ks
  | .node _ .chord ks => checksOfL ks
  | .node _ .comment ks => checksOfL ks
  | .node _ .chordmode ks => checksOfL ks
  | .node _ .other ks => checksOfL ks
  | _ => ∅
/-- The same for a list. -/
def checksOfL : List Doc → Set Id
  | [] => ∅
  | t :: ts => checksOf t ∪ checksOfL ts
end

/-! ## Simple facts about trees -/

theorem id_mem_ids (t : Doc) : t.id ∈ ids t := by cases t; simp [ids, Doc.id]

theorem mem_idsL {i : Id} : ∀ {ts : List Doc}, i ∈ idsL ts ↔ ∃ t ∈ ts, i ∈ ids t
  | [] => by simp [idsL]
  | t :: ts => by simp [idsL, mem_idsL (ts := ts)]

theorem mem_checksOfL {i : Id} : ∀ {ts : List Doc}, i ∈ checksOfL ts ↔ ∃ t ∈ ts, i ∈ checksOf t
  | [] => by simp [checksOfL]
  | t :: ts => by simp [checksOfL, mem_checksOfL (ts := ts)]

theorem mem_notesOfL {i : Id} : ∀ {ts : List Doc}, i ∈ notesOfL ts ↔ ∃ t ∈ ts, i ∈ notesOf t
  | [] => by simp [notesOfL]
  | t :: ts => by simp [notesOfL, mem_notesOfL (ts := ts)]

theorem idsL_append (a b : List Doc) : idsL (a ++ b) = idsL a ++ idsL b := by
  induction a with
  | nil => rfl
  | cons t a ih => simp [idsL, ih]

mutual
theorem notesOf_sub : ∀ t : Doc, notesOf t ⊆ {i | i ∈ ids t}
  | .node i l ks => by
    have := notesOfL_sub ks
    intro j hj
    cases l <;> simp only [notesOf, Set.mem_singleton_iff, Set.mem_empty_iff_false] at hj <;>
      simp only [Set.mem_setOf_eq, ids, List.mem_cons] <;> first | exact .inl hj | exact .inr (this hj)
theorem notesOfL_sub : ∀ ts : List Doc, notesOfL ts ⊆ {i | i ∈ idsL ts}
  | [] => by simp [notesOfL]
  | t :: ts => by
    have h1 := notesOf_sub t
    have h2 := notesOfL_sub ts
    intro j hj
    simp only [Set.mem_setOf_eq, idsL, List.mem_append]
    rcases hj with hj | hj
    · exact .inl (h1 hj)
    · exact .inr (h2 hj)
end

mutual
theorem checksOf_sub : ∀ t : Doc, checksOf t ⊆ {i | i ∈ ids t}
  | .node i l ks => by
    have := checksOfL_sub ks
    intro j hj
    simp only [Set.mem_setOf_eq, ids, List.mem_cons]
    cases l <;> simp only [checksOf, Set.singleton_union, Set.mem_insert_iff, Set.mem_empty_iff_false] at hj <;>
      first | exact .inr (this hj) | exact hj.imp id (fun h => this h)
theorem checksOfL_sub : ∀ ts : List Doc, checksOfL ts ⊆ {i | i ∈ idsL ts}
  | [] => by simp [checksOfL]
  | t :: ts => by
    have h1 := checksOf_sub t
    have h2 := checksOfL_sub ts
    intro j hj
    simp only [Set.mem_setOf_eq, idsL, List.mem_append]
    rcases hj with hj | hj
    · exact .inl (h1 hj)
    · exact .inr (h2 hj)
end

/-- A node is in the own set only if it is an `\octaveCheck` itself. -/
theorem id_check (t : Doc) (hn : (ids t).Nodup) (h : t.id ∈ checksOf t) : t.lab = .check := by
  obtain ⟨i, l, ks⟩ := t
  have hk := checksOfL_sub ks
  simp only [ids, List.nodup_cons] at hn
  cases l <;> simp only [checksOf, Set.mem_empty_iff_false, Doc.id] at h <;> first | rfl | exact absurd (hk h) hn.1

theorem shows_mem {h : Heap} : ∀ {ts : List Doc}, ShowsL h ts → ∀ t ∈ ts, Shows h t
  | t :: ts, hs, u, hu => by
    rw [ShowsL] at hs
    rcases List.mem_cons.1 hu with rfl | hu
    · exact hs.1
    · exact shows_mem hs.2 u hu

theorem Spec.Shows.lab {h : Heap} {t : Doc} (hs : Shows h t) : h.lab t.id = t.lab := by
  cases t; rw [Shows] at hs; exact hs.1

theorem Spec.Shows.kids {h : Heap} {t : Doc} (hs : Shows h t) : h.kids t.id = t.kids.map Doc.id := by
  cases t; rw [Shows] at hs; exact hs.2.1

theorem Spec.Shows.showsL {h : Heap} {t : Doc} (hs : Shows h t) : ShowsL h t.kids := by
  cases t; rw [Shows] at hs; exact hs.2.2.2

theorem noRel_mem : ∀ {ts : List Doc}, NoRelL ts → ∀ t ∈ ts, NoRel t
  | t :: ts, hs, u, hu => by
    rw [NoRelL] at hs
    rcases List.mem_cons.1 hu with rfl | hu
    · exact hs.1
    · exact noRel_mem hs.2 u hu

theorem Spec.NoRel.lab {t : Doc} (h : NoRel t) : t.lab ≠ .relative := by cases t; rw [NoRel] at h; exact h.1
theorem Spec.NoRel.kids {t : Doc} (h : NoRel t) : NoRelL t.kids := by cases t; rw [NoRel] at h; exact h.2

theorem lastChecks_mem : ∀ {ts : List Doc}, LastChecksL ts → ∀ t ∈ ts, LastChecks t
  | t :: ts, hs, u, hu => by
    rw [LastChecksL] at hs
    rcases List.mem_cons.1 hu with rfl | hu
    · exact hs.1
    · exact lastChecks_mem hs.2 u hu

mutual
theorem relsOf_noRel : ∀ t : Doc, NoRel t → relsOf t = []
  | .node i l ks, h => by
    rw [NoRel] at h
    rw [relsOf, if_neg h.1]
    exact relsOfL_noRel ks h.2
theorem relsOfL_noRel : ∀ ts : List Doc, NoRelL ts → relsOfL ts = []
  | [], _ => rfl
  | t :: ts, h => by
    rw [NoRelL] at h
    rw [relsOfL, relsOf_noRel t h.1, relsOfL_noRel ts h.2]; rfl
end

theorem noRelL_filter (p : Doc → Bool) : ∀ ts : List Doc, NoRelL ts → NoRelL (ts.filter p)
  | [], _ => by simp [NoRelL]
  | t :: ts, h => by
    rw [NoRelL] at h
    by_cases hp : p t = true
    · rw [List.filter_cons_of_pos hp, NoRelL]; exact ⟨h.1, noRelL_filter p ts h.2⟩
    · rw [List.filter_cons_of_neg hp]; exact noRelL_filter p ts h.2

theorem noRelL_take (n : ℕ) : ∀ (ts : List Doc), NoRelL ts → NoRelL (ts.take n) := by
  induction n with
  | zero => intro ts _; simp [NoRelL]
  | succ n ih =>
    intro ts h
    cases ts with
    | nil => simp [NoRelL]
    | cons t ts => rw [NoRelL] at h; rw [List.take_succ_cons, NoRelL]; exact ⟨h.1, ih ts h.2⟩

mutual
theorem nice_noRel : ∀ t : Doc, NoRel t → Nice t
  | .node i l ks, h => by
    rw [NoRel] at h
    have := niceL_noRel ks h.2
    have h2 : NoRelL (firsts (Lab.args l) ks) := noRelL_take _ _ (noRelL_filter _ _ h.2)
    cases l <;> first | exact absurd rfl h.1 | (rw [Nice]; exact ⟨fun _ => h.2, h2, this⟩; simp)
theorem niceL_noRel : ∀ ts : List Doc, NoRelL ts → NiceL ts
  | [], _ => by simp [NiceL]
  | t :: ts, h => by
    rw [NoRelL] at h
    rw [NiceL]
    exact ⟨nice_noRel t h.1, niceL_noRel ts h.2⟩
end

theorem nice_other {i : Id} {l : Lab} {ks : List Doc} (h : Nice (.node i l ks)) (hl : l ≠ .relative) :
    (Lab.closed l = true → NoRelL ks) ∧ NoRelL (firsts (Lab.args l) ks) ∧ NiceL ks := by
  cases l <;> first | exact absurd rfl hl | (rw [Nice] at h; exact h; simp)

theorem nice_rel {i : Id} {ks : List Doc} (h : Nice (.node i .relative ks)) : RelOk ks := by
  rw [Nice] at h; exact h

/-- What is known of the music of a `\relative`. -/
theorem relOk_body {r : Doc} (h : RelOk r.kids) : bodyOf r ∈ r.kids ∧ (bodyOf r).lab ≠ .check ∧ NoRel (bodyOf r) ∧
    LastChecks (bodyOf r) := by
  have hm : bodyOf r ∈ r.kids ∧ (bodyOf r).lab ≠ .check := by
    rcases h.shape with ⟨b, hb, hc⟩ | ⟨s, b, hb, _, hc⟩
    · have : b ∈ real r.kids := by rw [hb]; simp
      rw [bodyOf, hb]
      exact ⟨(List.mem_filter.1 this).1, hc⟩
    · have : b ∈ real r.kids := by rw [hb]; simp
      rw [bodyOf, hb]
      exact ⟨(List.mem_filter.1 this).1, hc⟩
  exact ⟨hm.1, hm.2, noRel_mem h.plain _ hm.1, lastChecks_mem h.checks _ hm.1⟩

mutual
theorem relsOf_rel : ∀ t : Doc, ∀ r ∈ relsOf t, r.lab = .relative ∧ (∀ i ∈ ids r, i ∈ ids t)
  | .node i l ks, r, hr => by
    rw [relsOf] at hr
    split_ifs at hr with hl
    · rw [List.mem_singleton] at hr
      subst hr
      exact ⟨hl, fun i hi => hi⟩
    · obtain ⟨a, b⟩ := relsOfL_rel ks r hr
      exact ⟨a, fun j hj => by rw [ids]; exact List.mem_cons_of_mem _ (b j hj)⟩
theorem relsOfL_rel : ∀ ts : List Doc, ∀ r ∈ relsOfL ts, r.lab = .relative ∧ (∀ i ∈ ids r, i ∈ idsL ts)
  | [], r, hr => by simp [relsOfL] at hr
  | t :: ts, r, hr => by
    rw [relsOfL, List.mem_append] at hr
    rcases hr with hr | hr
    · obtain ⟨a, b⟩ := relsOf_rel t r hr
      exact ⟨a, fun j hj => by rw [idsL]; exact List.mem_append_left _ (b j hj)⟩
    · obtain ⟨a, b⟩ := relsOfL_rel ts r hr
      exact ⟨a, fun j hj => by rw [idsL]; exact List.mem_append_right _ (b j hj)⟩
end

mutual
theorem nodup_rel : ∀ t : Doc, (ids t).Nodup → ∀ r ∈ relsOf t, (ids r).Nodup
  | .node i l ks, hn, r, hr => by
    rw [relsOf] at hr
    split_ifs at hr with hl
    · rw [List.mem_singleton] at hr; subst hr; exact hn
    · rw [ids, List.nodup_cons] at hn; exact nodupL_rel ks hn.2 r hr
theorem nodupL_rel : ∀ ts : List Doc, (idsL ts).Nodup → ∀ r ∈ relsOfL ts, (ids r).Nodup
  | [], _, r, hr => by simp [relsOfL] at hr
  | t :: ts, hn, r, hr => by
    rw [relsOfL, List.mem_append] at hr
    rw [idsL, List.nodup_append] at hn
    rcases hr with hr | hr
    · exact nodup_rel t hn.1 r hr
    · exact nodupL_rel ts hn.2.1 r hr
end

mutual
theorem rel_disjoint : ∀ t : Doc, (ids t).Nodup → ∀ r ∈ relsOf t, ∀ r' ∈ relsOf t, ∀ i ∈ ids r, i ∈ ids r' → r = r'
  | .node i l ks, hn, r, hr, r', hr', j, h1, h2 => by
    rw [relsOf] at hr hr'
    split_ifs at hr hr' with hl
    · rw [List.mem_singleton] at hr hr'; rw [hr, hr']
    · rw [ids, List.nodup_cons] at hn; exact relL_disjoint ks hn.2 r hr r' hr' j h1 h2
theorem relL_disjoint : ∀ ts : List Doc, (idsL ts).Nodup → ∀ r ∈ relsOfL ts, ∀ r' ∈ relsOfL ts, ∀ i ∈ ids r, i ∈ ids r' → r = r'
  | [], _, r, hr, _, _, _, _, _ => by simp [relsOfL] at hr
  | t :: ts, hn, r, hr, r', hr', j, h1, h2 => by
    rw [relsOfL, List.mem_append] at hr hr'
    rw [idsL, List.nodup_append] at hn
    rcases hr with hr | hr <;> rcases hr' with hr' | hr'
    · exact rel_disjoint t hn.1 r hr r' hr' j h1 h2
    · exact absurd rfl (hn.2.2 j ((relsOf_rel t r hr).2 j h1) j ((relsOfL_rel ts r' hr').2 j h2))
    · exact absurd rfl (hn.2.2 j ((relsOf_rel t r' hr').2 j h2) j ((relsOfL_rel ts r hr).2 j h1))
    · exact relL_disjoint ts hn.2.1 r hr r' hr' j h1 h2
end

mutual
theorem shows_rel {h : Heap} : ∀ t : Doc, Shows h t → ∀ r ∈ relsOf t, Shows h r
  | .node i l ks, hs, r, hr => by
    rw [relsOf] at hr
    split_ifs at hr with hl
    · rw [List.mem_singleton] at hr; subst hr; exact hs
    · rw [Shows] at hs; exact showsL_rel ks hs.2.2.2 r hr
theorem showsL_rel {h : Heap} : ∀ ts : List Doc, ShowsL h ts → ∀ r ∈ relsOfL ts, Shows h r
  | [], _, r, hr => by simp [relsOfL] at hr
  | t :: ts, hs, r, hr => by
    rw [relsOfL, List.mem_append] at hr
    rw [ShowsL] at hs
    rcases hr with hr | hr
    · exact shows_rel t hs.1 r hr
    · exact showsL_rel ts hs.2 r hr
end

mutual
theorem nice_rels : ∀ t : Doc, Nice t → ∀ r ∈ relsOf t, RelOk r.kids
  | .node i l ks, hs, r, hr => by
    rw [relsOf] at hr
    split_ifs at hr with hl
    · rw [List.mem_singleton] at hr; subst hr; subst hl; exact nice_rel hs
    · exact niceL_rels ks (nice_other hs hl).2.2 r hr
theorem niceL_rels : ∀ ts : List Doc, NiceL ts → ∀ r ∈ relsOfL ts, RelOk r.kids
  | [], _, r, hr => by simp [relsOfL] at hr
  | t :: ts, hs, r, hr => by
    rw [relsOfL, List.mem_append] at hr
    rw [NiceL] at hs
    rcases hr with hr | hr
    · exact nice_rels t hs.1 r hr
    · exact niceL_rels ts hs.2 r hr
end

mutual
/-- A `\relative` is in the list of a node that is not a `\relative`. -/
theorem rel_parent {h : Heap} : ∀ (i : Id) (l : Lab) (ks : List Doc), l ≠ .relative → Shows h (.node i l ks) →
    ∀ r ∈ relsOfL ks, ∃ p, h.lab p ≠ .relative ∧ r.id ∈ h.kids p
  | i, l, ks, hl, hs, r, hr => by
    rw [Shows] at hs
    exact relL_parent i ks ks (by rw [hs.1]; exact hl) (by rw [hs.2.1]; intro t ht; exact List.mem_map_of_mem ht) hs.2.2.2 r hr
  termination_by i l ks => (sizeOf ks, 1)
theorem relL_parent {h : Heap} : ∀ (i : Id) (all ks : List Doc), h.lab i ≠ .relative → (∀ t ∈ ks, t.id ∈ h.kids i) → ShowsL h ks →
    ∀ r ∈ relsOfL ks, ∃ p, h.lab p ≠ .relative ∧ r.id ∈ h.kids p
  | i, _, [], _, _, _, r, hr => by simp [relsOfL] at hr
  | i, all, .node j l ks :: ts, hl, hk, hs, r, hr => by
    rw [relsOfL, List.mem_append] at hr
    rw [ShowsL] at hs
    rcases hr with hr | hr
    · rw [relsOf] at hr
      split_ifs at hr with hl2
      · rw [List.mem_singleton] at hr
        subst hr
        exact ⟨i, hl, hk _ (List.mem_cons_self ..)⟩
      · exact rel_parent j l ks hl2 hs.1 r hr
    · exact relL_parent i all ts hl (fun t ht => hk t (List.mem_cons_of_mem _ ht)) hs.2 r hr
  termination_by i all ks => (sizeOf ks, 0)
end

/-- Where the removed nodes are: at the end of a list. -/
theorem checks_last {h : Heap} : ∀ (n : ℕ) (t : Doc), sizeOf t < n → Shows h t → LastChecks t → NoRel t → ∀ x ∈ checksOf t,
    h.lab x = .check ∧ ((t.lab = .check ∧ x = t.id) ∨ ∃ p ∈ ids t, ∃ pre, h.kids p = pre ++ [x] ∧ h.lab p ≠ .relative)
  | 0, t, hn, _, _, _, _, _ => absurd hn (Nat.not_lt_zero _)
  | n + 1, .node i l ks, hn, hs, hl, hr, x, hx => by
    have key : x ∈ checksOfL ks → h.lab x = .check ∧ ∃ p ∈ ids (.node i l ks), ∃ pre, h.kids p = pre ++ [x] ∧ h.lab p ≠ .relative := by
      intro hx
      obtain ⟨t, ht, hx⟩ := mem_checksOfL.1 hx
      have hsz : sizeOf t < n := by
        have := List.sizeOf_lt_of_mem ht
        simp only [Doc.node.sizeOf_spec] at hn
        omega
      rw [Shows] at hs
      rw [LastChecks] at hl
      rw [NoRel] at hr
      obtain ⟨a, b⟩ := checks_last n t hsz (shows_mem hs.2.2.2 t ht) (lastChecks_mem hl.2 t ht) (noRel_mem hr.2 t ht) x hx
      refine ⟨a, ?_⟩
      rcases b with ⟨b1, b2⟩ | ⟨p, hp, b⟩
      · refine ⟨i, by simp [ids], ?_⟩
        obtain ⟨pre, y, e⟩ : ∃ pre y, ks = pre ++ [y] := ⟨ks.dropLast, ks.getLast (List.ne_nil_of_mem ht), (List.dropLast_append_getLast _).symm⟩
        have hty : t = y := by
          rw [e, List.mem_append, List.mem_singleton] at ht
          rcases ht with ht | ht
          · exfalso
            refine hl.1 t ?_ b1
            rw [e, List.dropLast_concat]
            exact ht
          · exact ht
        refine ⟨pre.map Doc.id, ?_, by rw [hs.1]; exact hr.1⟩
        rw [hs.2.1, e, List.map_append, b2, hty]
        rfl
      · exact ⟨p, by rw [ids]; exact List.mem_cons_of_mem _ (mem_idsL.2 ⟨t, ht, hp⟩), b⟩
    rw [Shows] at hs
    cases l <;> simp only [checksOf, Set.mem_empty_iff_false, Set.singleton_union, Set.mem_insert_iff] at hx <;>
      first
        | exact ⟨(key hx).1, .inr (key hx).2⟩
        | (rcases hx with hx | hx
           · exact ⟨by rw [hx]; exact hs.1, .inl ⟨rfl, hx⟩⟩
           · exact ⟨(key hx).1, .inr (key hx).2⟩)

end Quickly.Rel2abs
