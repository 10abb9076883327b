import Verif.Html.ReadProps
import Verif.Html.Lemmas

/-!
# C76: what `edit()` does with a tree that is read
-/

namespace Quickly.Html

open Quickly.Node Quickly.Text Quickly.Html.Spec Quickly.Edits Quickly.Edits.Spec

/-- The places of the texts in a tree, in order. -/
def spans : Dom → List (ℕ × ℕ)
  | .node v cs => (range v.head).toList ++ go cs ++ (range v.tail).toList
where
  /-- All nodes. -/
  go : List Dom → List (ℕ × ℕ)
    | [] => []
    | c :: cs => spans c ++ go cs

/-- The places cover the tokens, in order, but those in the last list. -/
inductive Cov : List Tok → List (ℕ × ℕ) → List Tok → Prop where
  | nil : Cov [] [] []
  | block (b : List Tok) (r : ℕ × ℕ) {ts ss sk} : range b = some r → Cov ts ss sk → Cov (b ++ ts) (r :: ss) sk
  | skip (t : Tok) {ts ss sk} : Cov ts ss sk → Cov (t :: ts) ss (t :: sk)

theorem Cov.append {a b : List Tok} {s s' : List (ℕ × ℕ)} {k k' : List Tok} (h : Cov a s k) (h' : Cov b s' k') :
    Cov (a ++ b) (s ++ s') (k ++ k') := by
  induction h with
  | nil => exact h'
  | block b r hr _ ih => rw [List.append_assoc]; exact .block b r hr ih
  | skip t _ ih => exact .skip t ih

theorem Cov.one {b : List Tok} {r : ℕ × ℕ} (h : range b = some r) : Cov b [r] [] := by
  have := Cov.block b r h .nil
  rwa [List.append_nil] at this

theorem cov_range (l : List Tok) : Cov l (range l).toList [] := by
  cases l with
  | nil => exact .nil
  | cons a l =>
    obtain ⟨r, hr⟩ : ∃ r, range (a :: l) = some r := by
      unfold range
      rw [List.getLast?_eq_some_getLast (by simp)]
      exact ⟨_, rfl⟩
    rw [hr]
    exact .one hr

mutual
/-- The tokens in a tree are covered. -/
theorem cov_dom : (t : Dom) → Cov (domToks t) (spans t) []
  | .node v cs => by
    rw [domToks, spans]
    exact ((cov_range v.head).append (cov_doms cs)).append (cov_range v.tail)
theorem cov_doms : (cs : List Dom) → Cov (domToks.go cs) (spans.go cs) []
  | [] => .nil
  | c :: cs => (cov_dom c).append (cov_doms cs)
end

theorem spans_append (a b : List Dom) : spans.go (a ++ b) = spans.go a ++ spans.go b := by
  induction a with
  | nil => rfl
  | cons x a ih => rw [List.cons_append, spans.go, spans.go, ih, List.append_assoc]

theorem toks_append (a b : List Raw) : rawToks.go (a ++ b) = rawToks.go a ++ rawToks.go b := by
  induction a with
  | nil => rfl
  | cons x a ih => rw [List.cons_append, rawToks.go, rawToks.go, ih, List.append_assoc]

theorem domToks_append (a b : List Dom) : domToks.go (a ++ b) = domToks.go a ++ domToks.go b := by
  induction a with
  | nil => rfl
  | cons x a ih => rw [List.cons_append, domToks.go, domToks.go, ih, List.append_assoc]

theorem range_ends (a b : Tok) (ts : List Tok) : range (a :: (ts ++ [b])) = range [a, b] := by
  unfold range
  rw [← List.cons_append, List.getLast?_concat]
  rfl

theorem piece_toks (ms : List Tok) : domToks.go (ms.map piece) = ms := by
  induction ms with
  | nil => rfl
  | cons m ms ih =>
    rw [List.map_cons, domToks.go, ih]
    unfold piece
    split <;> rfl

/-- The region from one token to another. -/
theorem cov_unknown (a b : Tok) (ts : List Tok) : Cov (a :: (ts ++ [b])) (spans (.node ⟨.unknown, [a, b], []⟩ [])) [] := by
  rw [spans, spans.go]
  have : Cov (a :: (ts ++ [b])) (range (a :: (ts ++ [b]))).toList [] := cov_range _
  rw [range_ends] at this
  simpa [range] using this

theorem cov_v (v : V) : Cov (rawToks.go v.raw) (spans.go v.tree) [] := by
  cases v with
  | style e q ts l =>
    have := (cov_dom (leaf .equalSign e)).append (cov_unknown q l ts)
    simpa [V.raw, V.tree, rawToks.go, rawToks, spans.go, leaf, domToks, domToks.go] using this
  | str e single f ms l =>
    have := cov_doms (V.str e single f ms l).tree
    have e : rawToks.go (V.str e single f ms l).raw = domToks.go (V.str e single f ms l).tree := by
      simp [V.raw, V.tree, rawToks.go, rawToks, leaf, domToks, domToks.go, piece_toks]
    rwa [e]
  | none => exact .nil
  | eq e => exact cov_doms (V.eq e).tree
  | number e n => exact cov_doms (V.number e n).tree
  | measure e n u => exact cov_doms (V.measure e n u).tree

theorem cov_a (a : A) : Cov (rawToks.go a.raw) (spans a.tree) [] := by
  have := (cov_dom (leaf (.attrName a.name.text) a.name)).append (cov_v a.value)
  simpa [A.raw, A.tree, rawToks.go, rawToks, spans, spans.go, leaf, domToks, domToks.go, range] using this

theorem cov_as (as : List A) : Cov (rawToks.go (as.flatMap A.raw)) (spans.go (as.map A.tree)) [] := by
  induction as with
  | nil => exact .nil
  | cons a as ih =>
    rw [List.flatMap_cons, toks_append]
    exact (cov_a a).append ih

theorem end_toks (e : End) : rawToks e.raw = rawToks.go (e.as.flatMap A.raw) ++ [e.gt] := by
  cases e <;> simp [End.raw, rawToks, End.as, End.gt, attrsRaw, toks_append, rawToks.go]

theorem cov_leaf (c : Cls) (t : Tok) : Cov [t] (spans (leaf c t)) [] := cov_dom (leaf c t)

theorem cov_tag (c : Cls) (lt gt : Tok) (l : List Dom) (ts : List Tok) (h : Cov ts (spans.go l) []) :
    Cov ([lt] ++ ts ++ [gt]) (spans (.node ⟨c, [lt], [gt]⟩ l)) [] :=
  ((cov_range [lt]).append h).append (cov_range [gt])

theorem cov_start (lt name : Tok) (e : End) : Cov (lt :: name :: rawToks e.raw) (spans (tagTree lt name e)) [] := by
  have := cov_tag (if '/' ∈ e.gt.text then .singleTag else .openTag) lt e.gt (leaf (.tagName name.text) name :: e.as.map A.tree) _
    ((cov_leaf (.tagName name.text) name).append (cov_as e.as))
  rw [end_toks, tagTree]
  simpa using this

theorem cov_close (close : Option (Tok × Tok × Tok)) : Cov (rawToks.go (closeRaw close)) (spans.go (closeTree close)) [] := by
  cases close with
  | none => exact .nil
  | some c =>
    have := cov_tag .closeTag c.1 c.2.2 _ _ (cov_doms [leaf (.tagName c.2.1.text) c.2.1])
    simpa [closeRaw, closeTree, rawToks.go, rawToks, spans.go, domToks.go, domToks, leaf] using this

theorem spans_element (l : List Dom) : spans (element l) = spans.go l := by simp [element, spans, range]

theorem cov_skip (ts : List Tok) : Cov ts [] ts := by
  induction ts with
  | nil => exact .nil
  | cons t ts ih => exact .skip t ih

mutual
theorem cov_d : (d : D) → Cov (rawToks.go d.raw) (spans.go d.tree) d.comments
  | .text t => cov_doms [leaf _ t]
  | .entity t => cov_doms [leaf _ t]
  | .comment n ts => by
    simpa [D.raw, rawToks.go, rawToks, D.tree, spans.go, D.comments] using cov_skip ts
  | .start lt name e => by
    simpa [D.raw, rawToks.go, rawToks, D.tree, spans.go, D.comments, spans_element] using cov_start lt name e
  | .elem lt name e kids close => by
    have := ((cov_start lt name e).append (cov_ds kids)).append (cov_close close)
    simpa [D.raw, rawToks.go, rawToks, D.tree, spans.go, D.comments, spans_element, toks_append, spans_append] using this
  | .region lt a b ts l => by
    simpa [D.raw, rawToks.go, rawToks, D.tree, spans.go, D.comments, spans_element] using cov_unknown lt l (a :: b :: ts)
  | .regionAttrs lt name as gt ts l => by
    have := cov_unknown lt l (name :: rawToks.go (attrsRaw as gt) ++ ts)
    simpa [D.raw, rawToks.go, rawToks, D.tree, spans.go, D.comments, spans_element] using this
  | .lily lt name e ns => by
    have := (cov_start lt name e).append (cov_doms ns)
    simpa [D.raw, rawToks.go, rawToks, D.tree, spans.go, D.comments, spans_element] using this
  | .short lt name as colon ns gt => by
    have := cov_tag .singleTag lt gt
      (leaf (.tagName name.text) name :: (as.map A.tree ++ (leaf .colon colon :: ns))) _ (by
        rw [spans.go, spans_append, spans.go, ← List.append_assoc]
        exact ((cov_leaf (.tagName name.text) name).append (cov_as as)).append
          ((cov_leaf .colon colon).append (cov_doms ns)))
    simpa [D.raw, rawToks.go, rawToks, D.tree, spans, spans.go, D.comments, spans_element, attrsRaw, toks_append, spans_append] using this
theorem cov_ds : (ds : List D) → Cov (rawToks.go (D.raw.go ds)) (spans.go (D.tree.go ds)) (D.comments.go ds)
  | [] => .nil
  | d :: ds => by
    rw [D.raw.go, toks_append, D.tree.go, spans_append, D.comments.go]
    exact (cov_d d).append (cov_ds ds)
end

/-! ## The points of a tree -/

/-- What is needed of a point. -/
def mark (p : Point) : Option (ℕ × ℕ) × Bool := (p.range, p.modified)

theorem mark_collapse (ps : List Point) (w : Str) : (collapseLast ps w).map mark = ps.map mark := by
  induction ps with
  | nil => rfl
  | cons p ps ih =>
    cases ps with
    | nil => rfl
    | cons q ps => rw [collapseLast, List.map_cons, List.map_cons, ih]

theorem mark_kids (cc : Concat) (e : Elem) (cs : List (Node.Tree Elem)) :
    (points.kids cc e cs).map mark = cs.flatMap fun c => (points cc c).map mark := by
  induction cs with
  | nil => rfl
  | cons c cs ih =>
    simp only [points.kids, List.map_append, List.flatMap_cons, ih]
    congr 1
    cases cs with
    | nil => simp only; split <;> simp [mark_collapse]
    | cons d cs => simp [mark_collapse]

theorem placed_node (v : Val) (cs : List Dom) : placed (.node v cs) =
    .node { v.cls.elem with headOrigin := range v.head, tailOrigin := range v.tail } (cs.map placed) := by
  have : ∀ ds : List Dom, placed.go ds = ds.map placed := by
    intro ds
    induction ds with
    | nil => rfl
    | cons d ds ih => rw [placed.go, ih, List.map_cons]
  rw [placed, this]

theorem range_some (l : List Tok) (h : l ≠ []) : ∃ r, range l = some r := by
  cases l with
  | nil => exact absurd rfl h
  | cons a l =>
    unfold range
    rw [List.getLast?_eq_some_getLast (by simp)]
    exact ⟨_, rfl⟩

/-- No element is modified. -/
theorem elem_flags (c : Cls) : c.elem.headModified = false ∧ c.elem.tailModified = false := by cases c <;> exact ⟨rfl, rfl⟩

mutual
theorem mark_points (cc : Concat) : (t : Dom) → full t → (points cc (placed t)).map mark = (spans t).map fun r => (some r, false)
  | .node v cs, h => by
    obtain ⟨h1, h2⟩ := h
    have hc := mark_pointss cc cs h2
    obtain ⟨f1, f2⟩ := elem_flags v.cls
    rw [placed_node, points, List.map_append, List.map_append, mark_kids, hc, spans, List.map_append, List.map_append]
    cases hk : v.cls.elem.kind with
    | plain =>
      rw [hk] at h1
      simp [headPoint, tailPoint, hk, h1.1, h1.2, range]
    | head =>
      rw [hk] at h1
      obtain ⟨r, hr⟩ := range_some _ h1.1
      simp [headPoint, tailPoint, hk, h1.2, hr, mark, f1]
      rfl
    | block =>
      rw [hk] at h1
      obtain ⟨r, hr⟩ := range_some _ h1.1
      obtain ⟨r', hr'⟩ := range_some _ h1.2
      simp [headPoint, tailPoint, hk, hr, hr', mark, f1, f2]
theorem mark_pointss (cc : Concat) : (cs : List Dom) → full.go cs →
    ((cs.map placed).flatMap fun c => (points cc c).map mark) = (spans.go cs).map fun r => (some r, false)
  | [], _ => rfl
  | c :: cs, h => by
    rw [List.map_cons, List.flatMap_cons, mark_points cc c h.1, mark_pointss cc cs h.2, spans.go, List.map_append]
end

/-! ## All texts have tokens -/

theorem full_append (a b : List Dom) : full.go (a ++ b) ↔ full.go a ∧ full.go b := by
  induction a with
  | nil => simp [full.go]
  | cons x a ih => simp [full.go, ih, and_assoc]

theorem full_leaf (c : Cls) (t : Tok) (h : c.elem.kind = .head) : full (leaf c t) := by
  rw [leaf, full, h]
  exact ⟨⟨by simp, rfl⟩, trivial⟩

theorem full_v (v : V) : full.go v.tree := by
  cases v with
  | none => trivial
  | eq e => exact ⟨full_leaf _ _ rfl, trivial⟩
  | number e n => exact ⟨full_leaf _ _ rfl, full_leaf _ _ rfl, trivial⟩
  | measure e n u => exact ⟨full_leaf _ _ rfl, full_leaf _ _ rfl, full_leaf _ _ rfl, trivial⟩
  | style e q ts l => exact ⟨full_leaf _ _ rfl, ⟨⟨by simp, rfl⟩, trivial⟩, trivial⟩
  | str e single f ms l =>
    have : full.go (ms.map piece) := by
      induction ms with
      | nil => trivial
      | cons m ms ih =>
        refine ⟨?_, ih⟩
        unfold piece
        split <;> exact full_leaf _ _ rfl
    refine ⟨full_leaf _ _ rfl, ⟨?_, this⟩, trivial⟩
    cases single <;> exact ⟨by simp, by simp⟩

theorem full_as (as : List A) : full.go (as.map A.tree) := by
  induction as with
  | nil => trivial
  | cons a as ih => exact ⟨⟨⟨rfl, rfl⟩, full_leaf _ _ rfl, full_v a.value⟩, ih⟩

theorem full_tag (lt name : Tok) (e : End) : full (tagTree lt name e) := by
  refine ⟨?_, full_leaf _ _ rfl, full_as _⟩
  by_cases h : '/' ∈ e.gt.text
  · rw [if_pos h]; exact ⟨by simp, by simp⟩
  · rw [if_neg h]; exact ⟨by simp, by simp⟩

theorem full_close (close : Option (Tok × Tok × Tok)) : full.go (closeTree close) := by
  cases close with
  | none => trivial
  | some c => exact ⟨⟨⟨by simp, by simp⟩, full_leaf _ _ rfl, trivial⟩, trivial⟩

theorem full_element (l : List Dom) (h : full.go l) : full (element l) := ⟨⟨rfl, rfl⟩, h⟩

mutual
theorem full_d : (d : D) → d.lilyFull → full.go d.tree
  | .text t, _ => ⟨full_leaf _ _ rfl, trivial⟩
  | .entity t, _ => ⟨full_leaf _ _ rfl, trivial⟩
  | .comment n ts, _ => trivial
  | .start lt name e, _ => ⟨full_element _ ⟨full_tag _ _ _, trivial⟩, trivial⟩
  | .elem lt name e kids close, h =>
    ⟨full_element _ ⟨full_tag _ _ _, (full_append _ _).mpr ⟨full_ds kids h, full_close close⟩⟩, trivial⟩
  | .region lt a b ts l, _ => ⟨⟨⟨by simp, rfl⟩, trivial⟩, trivial⟩
  | .regionAttrs lt name as gt ts l, _ => ⟨⟨⟨by simp, rfl⟩, trivial⟩, trivial⟩
  | .lily lt name e ns, h => ⟨full_element _ ⟨full_tag _ _ _, h⟩, trivial⟩
  | .short lt name as colon ns gt, h =>
    ⟨full_element _ ⟨⟨⟨by simp, by simp⟩, (full_append _ _).mpr ⟨(full_append (leaf (.tagName name.text) name :: as.map A.tree) _).mpr
      ⟨⟨full_leaf _ _ rfl, full_as as⟩, full_leaf _ _ rfl, trivial⟩, h⟩⟩, trivial⟩, trivial⟩
theorem full_ds : (ds : List D) → D.lilyFull.go ds → full.go (D.tree.go ds)
  | [], _ => trivial
  | d :: ds, h => (full_append _ _).mpr ⟨full_d d h.1, full_ds ds h.2⟩
end

/-! ## Spaces -/

/-- Only one space is asked for, and only after a text. -/
def Spaced (ps : List Point) : Prop := ∀ p ∈ ps, p.before = [] ∧ (p.after = [] ∨ p.after = [' '])

theorem spaced_collapse (ps : List Point) (w : Str) (h : Spaced ps) (hw : w = [] ∨ w = [' ']) : Spaced (collapseLast ps w) := by
  induction ps with
  | nil => exact h
  | cons p ps ih =>
    cases ps with
    | nil =>
      intro q hq
      simp only [collapseLast, List.mem_singleton] at hq
      subst hq
      obtain ⟨h1, h2⟩ := h p (by simp)
      refine ⟨h1, ?_⟩
      have := collapse_mem (xs := [p.after, w]) (by simp)
      simp only [List.mem_cons, List.not_mem_nil, or_false] at this
      rcases this with e | e <;> rw [e] <;> assumption
    | cons q ps =>
      rw [collapseLast]
      intro x hx
      rcases List.mem_cons.mp hx with rfl | hx
      · exact h x (by simp)
      · exact ih (fun y hy => h y (List.mem_cons_of_mem _ hy)) x hx

theorem sp_cases (c : Cls) : c.elem.sp = {} ∨ c.elem.sp = { between := [' '] } := by
  cases c <;> first | exact .inl rfl | exact .inr rfl

theorem spaced_kids (e : Elem) (he : e.sp = {} ∨ e.sp = { between := [' '] }) (cs : List (Node.Tree Elem))
    (h : ∀ c ∈ cs, Spaced (points defaultConcat c)) : Spaced (points.kids defaultConcat e cs) := by
  induction cs with
  | nil => intro p hp; simp [points.kids] at hp
  | cons c cs ih =>
    simp only [points.kids]
    intro p hp
    rcases List.mem_append.mp hp with hp | hp
    · have hc := h c (by simp)
      cases cs with
      | nil =>
        simp only at hp
        split at hp
        · exact hc p hp
        · exact spaced_collapse _ _ hc (by rcases he with he | he <;> rw [he] <;> exact .inl rfl) p hp
      | cons d cs =>
        exact spaced_collapse _ _ hc (by unfold defaultConcat; rcases he with he | he <;> rw [he] <;> simp) p hp
    · exact ih (fun x hx => h x (List.mem_cons_of_mem _ hx)) p hp

theorem spaced : (t : Dom) → Spaced (points defaultConcat (placed t))
  | .node v cs => by
    have hk := spaced_kids { v.cls.elem with headOrigin := range v.head, tailOrigin := range v.tail } (sp_cases v.cls) (cs.map placed) (by
      intro c hc
      obtain ⟨d, hd, rfl⟩ := List.mem_map.mp hc
      exact spaced d)
    rw [placed_node, points]
    intro p hp
    rcases List.mem_append.mp hp with hp | hp
    · rcases List.mem_append.mp hp with hp | hp
      · unfold headPoint at hp
        split at hp
        · simp at hp
        · simp only [Option.toList_some, List.mem_singleton] at hp
          subst hp
          rcases sp_cases v.cls with he | he <;> simp [he]
      · exact hk p hp
    · unfold tailPoint at hp
      split at hp
      · simp only [Option.toList_some, List.mem_singleton] at hp
        subst hp
        rcases sp_cases v.cls with he | he <;> simp [he]
      · simp at hp
termination_by t => t
decreasing_by
  have := List.sizeOf_lt_of_mem hd
  simp_wf
  omega

/-! ## Covered tokens -/

/-- The tokens come after each other and are not empty. -/
def Ordered (ts : List Tok) : Prop := (∀ t ∈ ts, t.pos < t.stop) ∧ ts.Pairwise fun a b => a.stop ≤ b.pos

theorem range_mem (b : List Tok) (r : ℕ × ℕ) (h : range b = some r) :
    ∃ x ∈ b.head?, ∃ y ∈ b.getLast?, r = (x.pos, y.stop) := by
  cases b with
  | nil => cases h
  | cons a b =>
    unfold range at h
    rw [List.getLast?_eq_some_getLast (by simp)] at h ⊢
    cases h
    exact ⟨a, by simp, _, rfl, rfl⟩

theorem ordered_bounds (ts : List Tok) (h : Ordered ts) (x y : Tok) (hx : x ∈ ts.head?) (hy : y ∈ ts.getLast?) (k : Tok) (hk : k ∈ ts) :
    x.pos ≤ k.pos ∧ k.stop ≤ y.stop := by
  obtain ⟨h1, h2⟩ := h
  constructor
  · cases ts with
    | nil => cases hk
    | cons a ts =>
      cases hx
      rcases List.mem_cons.mp hk with rfl | hk
      · exact Nat.le_refl _
      · have := (List.pairwise_cons.mp h2).1 k hk
        have := h1 x (by simp)
        omega
  · obtain ⟨zs, rfl⟩ := List.getLast?_eq_some_iff.mp hy
    rcases List.mem_append.mp hk with hk' | hk'
    · have := (List.pairwise_append.mp h2).2.2 k hk' y (by simp)
      have := h1 y (by simp)
      omega
    · simp at hk'; subst hk'; exact Nat.le_refl _

theorem Cov.facts {ts : List Tok} {ss : List (ℕ × ℕ)} {sk : List Tok} (h : Cov ts ss sk) (ho : Ordered ts) :
    (∀ r ∈ ss, ∃ x ∈ ts, ∃ y ∈ ts, r = (x.pos, y.stop) ∧ r.1 < r.2) ∧
    (ss.Pairwise fun r s => r.2 ≤ s.1) ∧
    (∀ k ∈ ts, k ∈ sk ∨ ∃ r ∈ ss, r.1 ≤ k.pos ∧ k.stop ≤ r.2) ∧
    (∀ k ∈ sk, k ∈ ts ∧ ∀ r ∈ ss, ¬ (r.1 ≤ k.pos ∧ k.stop ≤ r.2)) := by
  induction h with
  | nil => exact ⟨by simp, .nil, by simp, by simp⟩
  | block b r hr hc ih =>
    rename_i ts ss sk
    obtain ⟨h1, h2⟩ := ho
    obtain ⟨p1, p2, p3⟩ := List.pairwise_append.mp h2
    have hob : Ordered b := ⟨fun t ht => h1 t (by simp [ht]), p1⟩
    obtain ⟨i1, i2, i3, i4⟩ := ih ⟨fun t ht => h1 t (by simp [ht]), p2⟩
    obtain ⟨x, hx, y, hy, rfl⟩ := range_mem b r hr
    have hxm : x ∈ b := List.mem_of_mem_head? hx
    have hym : y ∈ b := List.mem_of_mem_getLast? hy
    have hb := ordered_bounds b hob x y hx hy
    have hlt := h1 x (by simp [hxm])
    have hxy := (hb x hxm).2
    refine ⟨?_, ?_, ?_, ?_⟩
    · intro s hs
      rcases List.mem_cons.mp hs with rfl | hs
      · exact ⟨x, by simp [hxm], y, by simp [hym], rfl, by simp only; omega⟩
      · obtain ⟨u, hu, w, hw, e⟩ := i1 s hs
        exact ⟨u, by simp [hu], w, by simp [hw], e⟩
    · refine List.pairwise_cons.mpr ⟨fun s hs => ?_, i2⟩
      obtain ⟨u, hu, w, hw, e, _⟩ := i1 s hs
      rw [e]
      exact p3 y hym u hu
    · intro k hk
      rcases List.mem_append.mp hk with hk | hk
      · exact .inr ⟨(x.pos, y.stop), List.mem_cons_self .., hb k hk⟩
      · rcases i3 k hk with h | ⟨s, hs, h⟩
        · exact .inl h
        · exact .inr ⟨s, by simp [hs], h⟩
    · intro k hk
      obtain ⟨hm, hn⟩ := i4 k hk
      refine ⟨by simp [hm], fun s hs => ?_⟩
      rcases List.mem_cons.mp hs with rfl | hs
      · have := p3 y hym k hm
        have := h1 k (by simp [hm])
        intro hh
        simp only at hh
        omega
      · exact hn s hs
  | skip t hc ih =>
    rename_i ts ss sk
    obtain ⟨h1, h2⟩ := ho
    obtain ⟨p1, p2⟩ := List.pairwise_cons.mp h2
    obtain ⟨i1, i2, i3, i4⟩ := ih ⟨fun t ht => h1 t (by simp [ht]), p2⟩
    refine ⟨?_, i2, ?_, ?_⟩
    · intro s hs
      obtain ⟨u, hu, w, hw, e⟩ := i1 s hs
      exact ⟨u, by simp [hu], w, by simp [hw], e⟩
    · intro k hk
      rcases List.mem_cons.mp hk with rfl | hk
      · exact .inl (by simp)
      · rcases i3 k hk with h | h
        · exact .inl (by simp [h])
        · exact .inr h
    · intro k hk
      rcases List.mem_cons.mp hk with rfl | hk
      · refine ⟨by simp, fun s hs => ?_⟩
        obtain ⟨u, hu, w, hw, e, _⟩ := i1 s hs
        have := p1 u hu
        have := h1 k (by simp)
        rw [e]
        intro hh
        simp only at hh
        omega
      · obtain ⟨hm, hn⟩ := i4 k hk
        exact ⟨by simp [hm], hn⟩

/-! ## Editing -/

theorem ordered_of_parsed {isSpace : Char → Bool} {doc : Str} {ts : List Tok} (h : Parsed isSpace doc (ts.map place)) : Ordered ts := by
  refine ⟨fun t ht => h.nonempty (place t) (List.mem_map_of_mem ht), ?_⟩
  have := h.sorted
  rw [List.pairwise_map] at this
  exact this

theorem points_facts (ds : List D) (hf : D.lilyFull.go ds) :
    (points defaultConcat (placed (element (D.tree.go ds)))).map mark = (spans.go (D.tree.go ds)).map fun r => (some r, false) := by
  rw [mark_points _ _ (full_element _ (full_ds ds hf)), spans_element]

theorem kept_facts {isSpace : Char → Bool} {doc : Str} (ds : List D) (hf : D.lilyFull.go ds)
    (hp : Parsed isSpace doc (context ds).tokens) (hd : ∀ t ∈ allToks ds, t.stop ≤ doc.length) :
    Kept doc (context ds).tokens (context ds).pos (points defaultConcat (placed (element (D.tree.go ds)))) ∧
    (∀ k ∈ allToks ds, (context ds).pos ≤ k.pos ∧ k.stop ≤ (context ds).stop) ∧
    (∀ pt ∈ points defaultConcat (placed (element (D.tree.go ds))), ∃ r ∈ spans.go (D.tree.go ds), pt.range = some r ∧ pt.modified = false) ∧
    (∀ r ∈ spans.go (D.tree.go ds), ∃ pt ∈ points defaultConcat (placed (element (D.tree.go ds))), pt.range = some r) := by
  have ho : Ordered (allToks ds) := ordered_of_parsed hp
  obtain ⟨c1, c2, c3, c4⟩ := (cov_ds ds).facts ho
  have hm := points_facts ds hf
  have hb : ∀ k ∈ allToks ds, (context ds).pos ≤ k.pos ∧ k.stop ≤ (context ds).stop := by
    intro k hk
    cases ha : (allToks ds).head? with
    | none => rw [List.head?_eq_none_iff] at ha; rw [ha] at hk; cases hk
    | some x =>
      cases hl : (allToks ds).getLast? with
      | none => rw [List.getLast?_eq_none_iff] at hl; rw [hl] at hk; cases hk
      | some y =>
        have := ordered_bounds _ ho x y ha hl k hk
        simpa [context, ha, hl] using this
  have hfw : ∀ pt ∈ points defaultConcat (placed (element (D.tree.go ds))), ∃ r ∈ spans.go (D.tree.go ds),
      pt.range = some r ∧ pt.modified = false := by
    intro pt hpt
    have : mark pt ∈ (points defaultConcat (placed (element (D.tree.go ds)))).map mark := List.mem_map_of_mem hpt
    rw [hm] at this
    obtain ⟨r, hr, e⟩ := List.mem_map.mp this
    have e1 := congrArg Prod.fst e
    have e2 := congrArg Prod.snd e
    exact ⟨r, hr, e1.symm, e2.symm⟩
  refine ⟨⟨?_, ?_⟩, hb, hfw, ?_⟩
  · intro pt hpt p e hr
    obtain ⟨r, hr', h1, _⟩ := hfw pt hpt
    rw [hr] at h1
    cases h1
    obtain ⟨x, hx, y, hy, e1, hlt⟩ := c1 _ hr'
    cases e1
    exact ⟨(hb x hx).1, hlt, hd y hy, ⟨place x, List.mem_map_of_mem hx, rfl⟩, ⟨place y, List.mem_map_of_mem hy, rfl⟩⟩
  · have : ((points defaultConcat (placed (element (D.tree.go ds)))).map mark).Pairwise
        fun a b => ∀ p e q f, a.1 = some (p, e) → b.1 = some (q, f) → e ≤ q := by
      rw [hm, List.pairwise_map]
      refine c2.imp ?_
      intro r s h p e q f h1 h2
      cases h1
      cases h2
      exact h
    rw [List.pairwise_map] at this
    exact this
  · intro r hr
    have : ((some r, false) : Option (ℕ × ℕ) × Bool) ∈ (spans.go (D.tree.go ds)).map fun r => ((some r, false) : Option (ℕ × ℕ) × Bool) :=
      List.mem_map_of_mem (f := fun r => ((some r, false) : Option (ℕ × ℕ) × Bool)) hr
    rw [← hm] at this
    obtain ⟨pt, hpt, e⟩ := List.mem_map.mp this
    exact ⟨pt, hpt, congrArg Prod.fst e⟩

/-- **C76**: a document without comments that is read and written back with `edit()` stays as it is: no text is removed, and all
that is inserted is a whitespace between two texts that had none between them. -/
theorem C76_edit_partial (isSpace : Char → Bool) (hsp : isSpace ' ' = true) (doc : Str) (ds : List D) (h : ∀ d ∈ ds, d.wf) (hf : D.lilyFull.go ds)
    (hn : D.comments.go ds = []) (hp : Parsed isSpace doc (context ds).tokens) (hd : ∀ t ∈ allToks ds, t.stop ≤ doc.length) :
    ∃ t, root (D.raw.go ds) = .ok t ∧ ∀ x ∈ edits defaultConcat (context ds) none none (placed t),
      x.1 = x.2.1 ∧ x.2.2 ≠ [] ∧ (∀ c ∈ x.2.2, isSpace c = true) ∧
      (∃ k ∈ allToks ds, k.pos = x.1) ∧ (x.1 = (context ds).pos ∨ ∃ k ∈ allToks ds, k.stop = x.1) := by
  refine ⟨_, C76_read ds h, ?_⟩
  obtain ⟨hk, hb, hfw, hbw⟩ := kept_facts ds hf hp hd
  obtain ⟨c1, c2, c3, c4⟩ := (cov_ds ds).facts (ordered_of_parsed hp)
  rw [hn] at c3
  have := C38_unchanged isSpace defaultConcat doc (context ds) none none _ hp
    (by
      intro k hk
      obtain ⟨t, ht, rfl⟩ := List.mem_map.mp hk
      exact .inr (hb t ht).1)
    hk
    (by
      intro pt hpt
      obtain ⟨h1, h2⟩ := spaced (element (D.tree.go ds)) pt hpt
      rw [h1]
      refine ⟨by simp, ?_⟩
      rcases h2 with h2 | h2 <;> rw [h2] <;> simp [hsp])
    (by
      intro pt hpt
      obtain ⟨r, _, h1, h2⟩ := hfw pt hpt
      exact ⟨by rw [h1]; rfl, h2⟩)
    (by
      intro k hk _
      obtain ⟨t, ht, rfl⟩ := List.mem_map.mp hk
      rcases c3 t ht with hh | ⟨r, hr, h1, h2⟩
      · cases hh
      · obtain ⟨pt, hpt, e⟩ := hbw r hr
        exact ⟨pt, hpt, r.1, r.2, e, h1, h2⟩)
    (by
      cases hl : (allToks ds).getLast? with
      | none => rw [List.getLast?_eq_none_iff] at hl; left; simp [context, hl, startOf]
      | some y =>
        right
        exact ⟨place y, List.mem_map_of_mem (List.mem_of_mem_getLast? hl), by simp [context, hl, place]⟩)
  intro x hx
  obtain ⟨h1, h2, h3, ⟨pt, hpt, e, he⟩, h5⟩ := this x hx
  refine ⟨h1, h2, h3, ?_, ?_⟩
  · obtain ⟨_, _, _, ⟨t, ht, e⟩, _⟩ := hk.origin pt hpt _ _ he
    obtain ⟨k, hk, rfl⟩ := List.mem_map.mp ht
    exact ⟨k, hk, e⟩
  · rcases h5 with h5 | ⟨pt, hpt, p, hp⟩
    · exact .inl h5
    · obtain ⟨_, _, _, _, ⟨t, ht, e⟩⟩ := hk.origin pt hpt _ _ hp
      obtain ⟨k, hk, rfl⟩ := List.mem_map.mp ht
      exact .inr ⟨k, hk, e⟩

/-- **C76**: but every token of a comment, a CDATA section or a processing instruction is deleted from the document, although
nothing was changed in the tree. -/
theorem C76_comments_deleted (isSpace : Char → Bool) (doc : Str) (ds : List D) (h : ∀ d ∈ ds, d.wf) (hf : D.lilyFull.go ds)
    (hp : Parsed isSpace doc (context ds).tokens) (hd : ∀ t ∈ allToks ds, t.stop ≤ doc.length) :
    ∃ t, root (D.raw.go ds) = .ok t ∧ ∀ k ∈ D.comments.go ds, ∃ x ∈ edits defaultConcat (context ds) none none (placed t),
      x.1 ≤ k.pos ∧ k.stop ≤ x.2.1 := by
  refine ⟨_, C76_read ds h, fun k hk' => ?_⟩
  obtain ⟨hk, hb, hfw, hbw⟩ := kept_facts ds hf hp hd
  obtain ⟨c1, c2, c3, c4⟩ := (cov_ds ds).facts (ordered_of_parsed hp)
  obtain ⟨hm, hn⟩ := c4 k hk'
  exact C38_removed_partial isSpace defaultConcat doc (context ds) none none _ hp
    (by
      intro k hk
      obtain ⟨t, ht, rfl⟩ := List.mem_map.mp hk
      exact .inr (hb t ht).1)
    hk (place k) (List.mem_map_of_mem hm) (hb k hm).1 (hb k hm).2
    (by
      intro pt hpt p e hr hh
      obtain ⟨r, hr', h1, _⟩ := hfw pt hpt
      rw [hr] at h1
      cases h1
      exact hn _ hr' hh)

/-! ### Example: `<p a="x"b>1</p>`, and with a comment -/

/-- A token of the example. -/
def tk (a : Action) (s : String) (p : ℕ) : Tok := ⟨a, s.toList, p, true⟩

/-- `<p a="x"b>1</p>`, with some contents before the closing tag. -/
def exHtml (more : List D) (p : ℕ) : List D :=
  [.elem (tk .delimiter "<" 0) (tk .nameTag "p" 1)
    (.attrs [⟨tk .nameAttribute "a" 3, .str (tk .operator "=" 4) false (tk .stringText "\"" 5) [tk .stringText "x" 6] (tk .stringText "\"" 7)⟩,
      ⟨tk .nameAttribute "b" 8, .none⟩] (tk .delimiter ">" 9))
    (.text (tk .text "1" 10) :: more) (some (tk .delimiter "</" p, tk .nameTag "p" (p + 2), tk .delimiter ">" (p + 3)))]

def exText : Str := "<p a=\"x\"b>1</p>".toList

theorem exHtml_wf : ∀ d ∈ exHtml [] 11, d.wf := by
  simp [exHtml, D.wf, D.wf.go, ltWf, End.wf, End.as, End.gt, gtWf, A.wf, V.wf, closeWf, tk]

theorem exHtml_parsed : Parsed Edits.exSpace exText (context (exHtml [] 11)).tokens := by
  refine ⟨by decide +kernel, by decide +kernel, ?_⟩
  have : ∀ i : Fin exText.length, (∀ t ∈ (context (exHtml [] 11)).tokens, i.1 < t.1 ∨ t.2 ≤ i.1) → Edits.exSpace exText[i] = true := by
    decide +kernel
  intro i c h1 h2
  obtain ⟨hi, rfl⟩ := List.getElem?_eq_some_iff.mp h1
  exact this ⟨i, hi⟩ h2

example : D.lilyFull.go (exHtml [] 11) ∧ D.comments.go (exHtml [] 11) = [] ∧ ∀ t ∈ allToks (exHtml [] 11), t.stop ≤ exText.length :=
  ⟨by simp [exHtml, D.lilyFull.go, D.lilyFull], rfl, by decide⟩

/-- A space is inserted between the attributes. -/
example : edits defaultConcat (context (exHtml [] 11)) none none (placed (element (D.tree.go (exHtml [] 11)))) = [(8, 8, [' '])] := by
  decide +kernel

/-- With a comment: `<p a="x"b>1<!---></p>`. -/
example : D.comments.go (exHtml [.comment (new .unknown []) [tk .text "<!--" 11, tk .text "->" 15]] 17) ≠ [] ∧
    edits defaultConcat (context (exHtml [.comment (new .unknown []) [tk .text "<!--" 11, tk .text "->" 15]] 17)) none none
      (placed (element (D.tree.go (exHtml [.comment (new .unknown []) [tk .text "<!--" 11, tk .text "->" 15]] 17)))) =
    [(8, 8, [' ']), (11, 17, [])] := by decide +kernel

/-- **C76**: a string at the end of a document that only has its first quote gets that quote as its end, too. -/
theorem C76_lone_quote (f : Tok) (h : f.text = ['"']) : readString .dqString ['"'] f [] = .node ⟨.dqString, [f], [f]⟩ [] := by
  simp [readString, h, factory]

end Quickly.Html
