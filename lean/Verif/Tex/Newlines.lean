import Verif.Tex.Props

/-! # What `edit()` of a LaTeX document inserts -/

namespace Quickly.Tex

open Quickly.Text Quickly.Node Quickly.Edits Quickly.Edits.Spec Quickly.Tex.Spec

/-- The whitespace for a mark. -/
def nl (f : Bool) : Str := if f then ['\n'] else []

/-- The points are blocks of the tokens, and ask for a newline where it is marked. -/
inductive Match : List Point → List (Tok × Bool) → Prop
  | nil : Match [] []
  | cons {pt : Point} {pts : List Point} {init : List Tok} {z : Tok} {f : Bool} {l : List (Tok × Bool)} : pt.range = range (init ++ [z]) → pt.modified = false → pt.before = [] →
      pt.after = nl f → Match pts l → Match (pt :: pts) (init.map (·, false) ++ (z, f) :: l)

theorem Match.append {a b : List Point} {l m : List (Tok × Bool)} (h : Match a l) (h' : Match b m) : Match (a ++ b) (l ++ m) := by
  induction h with
  | nil => exact h'
  | cons h1 h2 h3 h4 _ ih =>
    rw [List.cons_append, List.append_assoc, List.cons_append]
    exact .cons h1 h2 h3 h4 ih

theorem markLast_append (a : List (Tok × Bool)) (x : Tok × Bool) (b : List (Tok × Bool)) : markLast (a ++ x :: b) = a ++ markLast (x :: b) := by
  induction a with
  | nil => rfl
  | cons y a ih =>
    cases a with
    | nil => rfl
    | cons z a => rw [List.cons_append, List.cons_append, markLast, ← List.cons_append, ih]; rfl

theorem collapse_nil (w : Str) : collapse [w, []] = w := by
  simp [collapse, pyMax, keyLt, key]

theorem Match.collapse_nil {a : List Point} {l : List (Tok × Bool)} (h : Match a l) : Match (collapseLast a []) l := by
  induction h with
  | nil => exact .nil
  | @cons pt pts init z f l h1 h2 h3 h4 hm ih =>
    cases pts with
    | nil =>
      cases hm
      rw [collapseLast]
      exact .cons h1 h2 h3 (by simp only [Tex.collapse_nil, h4]) .nil
    | cons q qs => rw [collapseLast]; exact .cons h1 h2 h3 h4 ih

theorem collapse_nl (f : Bool) : collapse [nl f, ['\n']] = nl true := by cases f <;> decide

theorem Match.collapse_nl {a : List Point} {l : List (Tok × Bool)} (h : Match a l) : Match (collapseLast a ['\n']) (markLast l) := by
  induction h with
  | nil => exact .nil
  | @cons pt pts init z f l h1 h2 h3 h4 hm ih =>
    rw [markLast_append]
    cases pts with
    | nil =>
      cases hm
      rw [collapseLast]
      exact .cons (pt := { pt with after := collapse [pt.after, ['\n']] }) (f := true) h1 h2 h3 (by simp only [h4, Tex.collapse_nl]) .nil
    | cons q qs =>
      rw [collapseLast]
      have : ∃ y l', l = y :: l' := by
        cases hm with
        | @cons _ _ init _ _ _ => cases init <;> exact ⟨_, _, rfl⟩
      obtain ⟨y, l', rfl⟩ := this
      rw [markLast]
      exact .cons h1 h2 h3 h4 ih

theorem Match.one {pt : Point} {ts : List Tok} (f : Bool) (hn : ts ≠ []) (h1 : pt.range = range ts) (h2 : pt.modified = false) (h3 : pt.before = []) (h4 : pt.after = nl f) :
    Match [pt] (if f then markLast (ts.map (·, false)) else ts.map (·, false)) := by
  obtain ⟨init, z, rfl⟩ : ∃ init z, ts = init ++ [z] := ⟨ts.dropLast, ts.getLast hn, (List.dropLast_concat_getLast hn).symm⟩
  have := Match.cons (l := []) h1 h2 h3 h4 .nil
  cases f with
  | false => simpa using this
  | true =>
    simp only [if_true, List.map_append, List.map_cons, List.map_nil]
    rw [markLast_append]
    exact this

/-- What there is at least between two children (`concat_space()`): nothing, or a newline after a comment, which asks for one itself. That is so in
LaTeX, `quickly/dom/base.py` L44-47 and `quickly/dom/tex.py` L39-41, and not for music of more than one node, which is in a `lily.Document`. -/
def Modest (cc : Concat) : Dom → Prop
  | .node v cs => go { v.cls.elem with headOrigin := range v.head, tailOrigin := range v.tail } cs
where
  /-- All children. -/
  go (e : Elem) : List Dom → Prop
    | [] => True
    | n :: ns => Modest cc n ∧ (∀ m ∈ ns.head?, cc e (placedOk n) (placedOk m) = [] ∨ cc e (placedOk n) (placedOk m) = ['\n'] ∧ ∃ s, n.val.cls = .comment s ∧ n.children = []) ∧ go e ns

theorem elem_spaces (c : Cls) : c.elem.sp.before = [] ∨ c.elem.kind = .plain := by cases c <;> simp [Cls.elem]

theorem elem_after (c : Cls) : c.elem.sp.after = nl (asks c) ∧ c.elem.sp.afterHead = [] ∧ c.elem.sp.beforeTail = [] := by
  cases c <;> simp [Cls.elem, asks, nl]

theorem elem_block (c : Cls) (h : c.elem.kind = .block) : asks c = false ∧ c.elem.tail ≠ [] := by
  cases c with
  | math m => cases m <;> simp [Cls.elem, asks, Math.tail]
  | _ => simp_all [Cls.elem, asks]

theorem markLast_markLast (l : List (Tok × Bool)) : markLast (markLast l) = markLast l := by
  induction l with
  | nil => rfl
  | cons x l ih =>
    cases l with
    | nil => rfl
    | cons y l =>
      rw [markLast]
      cases hl : markLast (y :: l) with
      | nil => cases l <;> simp [markLast] at hl
      | cons z zs => rw [hl] at ih; rw [markLast, ih]

mutual
theorem match_tree (cc : Concat) : (t : Dom) → full t → Modest cc t → Match (points cc (placedOk t)) (flags t)
  | .node v cs, h, hcc => by
    rw [Modest] at hcc
    obtain ⟨h1, h2⟩ := h
    obtain ⟨f1, f2⟩ := elem_flags v.cls
    obtain ⟨a1, a2, a3⟩ := elem_after v.cls
    have hsp := elem_spaces v.cls
    have hbl := elem_block v.cls
    rw [placedOk, points, flags]
    have hlen : (placedOk.go cs).length = 0 ↔ cs = [] := by cases cs <;> simp [placedOk.go]
    revert hcc
    generalize he : ({ v.cls.elem with headOrigin := range v.head, tailOrigin := range v.tail } : Elem) = e
    intro hcc
    have o1 : e.headOrigin = range v.head := by rw [← he]
    have o2 : e.tailOrigin = range v.tail := by rw [← he]
    have o3 : e.kind = v.cls.elem.kind := by rw [← he]
    have o4 : e.sp = v.cls.elem.sp := by rw [← he]
    have o5 : e.headModified = v.cls.elem.headModified := by rw [← he]
    have o6 : e.tailModified = v.cls.elem.tailModified := by rw [← he]
    have o7 : e.tail = v.cls.elem.tail := by rw [← he]
    clear he
    rw [← o5] at f1
    rw [← o6] at f2
    rw [← o4] at a1 a2 a3 hsp
    rw [← o3] at h1 hsp hbl
    rw [← o7] at hbl
    have hkid := match_kids cc (asks v.cls) e a1 (fun hk => (hbl hk).1) cs h2 hcc
    cases hk : e.kind with
    | plain =>
      rw [hk] at h1
      rw [headPoint, tailPoint, if_pos hk, if_neg (by simp [hk]), h1.1, h1.2]
      simpa [markLast] using hkid
    | head =>
      rw [hk] at h1
      have hb := hsp.resolve_right (by rw [hk]; simp)
      have ht : e.hasTail = false := by simp [Elem.hasTail, hk]
      have hp : headPoint e (placedOk.go cs).length = some ⟨e.headOrigin, e.head, e.headModified, e.sp.before,
          if (placedOk.go cs).length ≠ 0 || e.hasTail then e.sp.afterHead else e.sp.after⟩ := by rw [headPoint, if_neg (by simp [hk])]
      have htp : tailPoint e = none := by rw [tailPoint, if_neg (by simp [hk])]
      rw [hp, htp, h1.2, ht]
      refine Match.append (Match.append ?_ hkid) .nil
      by_cases hcs : cs = []
      · subst hcs
        have := Match.one (pt := ⟨e.headOrigin, e.head, e.headModified, e.sp.before, e.sp.after⟩) (asks v.cls) h1.1 o1 f1 hb a1
        simpa [placedOk.go] using this
      · have h0 : (placedOk.go cs).length ≠ 0 := fun x => hcs (hlen.1 x)
        have := Match.one (pt := ⟨e.headOrigin, e.head, e.headModified, e.sp.before, e.sp.afterHead⟩) false h1.1 o1 f1 hb (by simp [a2, nl])
        simpa [h0, hcs] using this
    | block =>
      rw [hk] at h1
      obtain ⟨b1, b2⟩ := hbl hk
      have hb := hsp.resolve_right (by rw [hk]; simp)
      have ht : e.hasTail = true := by simp [Elem.hasTail, hk, b2]
      rw [headPoint, tailPoint, if_neg (by simp [hk]), if_pos hk, ht]
      refine Match.append (Match.append ?_ hkid) ?_
      · have := Match.one (pt := ⟨e.headOrigin, e.head, e.headModified, e.sp.before, e.sp.afterHead⟩) false h1.1 o1 f1 hb (by simp [a2, nl])
        simpa [b1] using this
      · have := Match.one (pt := ⟨e.tailOrigin, e.tail, e.tailModified, e.sp.beforeTail, e.sp.after⟩) false h1.2 o2 f2 a3 (by rw [a1, b1])
        simpa using this
theorem match_kids (cc : Concat) (b : Bool) (e : Elem) (ha : e.sp.after = nl b) (hb : e.kind = .block → b = false) : (cs : List Dom) → full.go cs →
    Modest.go cc e cs → Match (points.kids cc e (placedOk.go cs)) (flags.go b cs)
  | [], _, _ => .nil
  | n :: ns, h, hcc => by
    have h1 := match_tree cc n h.1 hcc.1
    have h2 := match_kids cc b e ha hb ns h.2 hcc.2.2
    rw [placedOk.go, flags.go]
    unfold points.kids
    refine Match.append ?_ h2
    cases ns with
    | cons m ms =>
      simp only [placedOk.go, List.isEmpty_cons, Bool.and_false, Bool.false_eq_true, if_false]
      rcases hcc.2.1 m rfl with q | ⟨q, w, e1, e2⟩
      · rw [q]; exact h1.collapse_nil
      · rw [q]
        obtain ⟨v, us⟩ := n
        simp only [Node.Tree.val, Node.Tree.children] at e1 e2
        subst e2
        have ha : asks v.cls = true := by rw [e1]; rfl
        have e2 : v.cls.elem.kind = .head := by rw [e1]; rfl
        have hf := h.1.1
        rw [e2] at hf
        have := h1.collapse_nl
        have hm : markLast (flags (.node v [])) = flags (.node v []) := by
          rw [flags, ha, hf.2]
          simp only [List.isEmpty_nil, Bool.and_self, if_true, flags.go, List.map_nil, List.append_nil]
          exact markLast_markLast _
        rw [hm] at this
        exact this
    | nil =>
      simp only [placedOk.go, List.isEmpty_nil, Bool.and_true]
      by_cases hk : e.kind = .block
      · rw [hb hk]
        simpa [tailPoint, hk] using h1
      · rw [tailPoint, if_neg hk, ha]
        cases b with
        | true => simpa [nl] using h1.collapse_nl
        | false => simpa [nl] using h1.collapse_nil
end

/-! ## The edits -/

/-- Newlines, with the end of the token before and its mark. -/
def newlinesFrom : ℕ → Bool → List (Tok × Bool) → List Edit
  | _, _, [] => []
  | p, f, x :: l => (if f = true ∧ p = x.1.pos then [(x.1.pos, x.1.pos, ['\n'])] else []) ++ newlinesFrom x.1.stop x.2 l

theorem newlinesFrom_eq (x : Tok × Bool) (l : List (Tok × Bool)) : newlinesFrom x.1.stop x.2 l = newlines (x :: l) := by
  induction l generalizing x with
  | nil => rfl
  | cons y l ih => rw [newlinesFrom, newlines, ih]

theorem range_concat (a : Tok) (init : List Tok) (z : Tok) : range (a :: (init ++ [z])) = some (a.pos, z.stop) := by
  have : (a :: (init ++ [z])).getLast? = some z := by rw [← List.cons_append, List.getLast?_append]; rfl
  simp only [range, this]

theorem newlinesFrom_init (p : ℕ) (f : Bool) (init : List Tok) (z : Tok) (g : Bool) (l : List (Tok × Bool)) (q e : ℕ) (h : range (init ++ [z]) = some (q, e)) :
    newlinesFrom p f (init.map (·, false) ++ (z, g) :: l) = (if f = true ∧ p = q then [(q, q, ['\n'])] else []) ++ newlinesFrom e g l ∧ e = z.stop := by
  have he : ∀ init : List Tok, ∀ q e, range (init ++ [z]) = some (q, e) → e = z.stop := by
    intro init q e h
    cases init with
    | nil => simp [range] at h; exact h.2.symm
    | cons a init =>
      rw [List.cons_append, range_concat] at h
      simp at h
      exact h.2.symm
  refine ⟨?_, he _ _ _ h⟩
  have hmid : ∀ (init : List Tok) (p : ℕ), newlinesFrom p false (init.map (·, false) ++ (z, g) :: l) = newlinesFrom z.stop g l := by
    intro init
    induction init with
    | nil => intro p; simp [newlinesFrom]
    | cons a init ih => intro p; rw [List.map_cons, List.cons_append, newlinesFrom, ih]; simp
  rw [he _ _ _ h]
  cases init with
  | nil =>
    simp [range] at h
    rw [List.map_nil, List.nil_append, newlinesFrom, h.1]
  | cons a init =>
    have hq : a.pos = q := by
      rw [List.cons_append, range_concat] at h
      simp at h
      exact h.1
    rw [List.map_cons, List.cons_append, newlinesFrom, hmid, hq]

/-- Tokens that are passed over. -/
theorem scan_over (p pos : ℕ) (d : ℕ) (rest left : List Edits.Tok) (hl : ∀ t ∈ left, t.2 ≤ pos ∧ t.1 < t.2) (hp : pos < p) (hd : d ≤ pos) (x : Edits.Tok) (hx : x.1 = p) :
    ∃ d', d' ≤ pos ∧ scan p pos d (left ++ x :: rest) = (p, d', rest) := by
  induction left generalizing d with
  | nil => exact ⟨d, hd, by rw [List.nil_append, scan, if_pos (by omega), hx]⟩
  | cons t left ih =>
    have := hl t (by simp)
    rw [List.cons_append, scan, if_neg (by omega)]
    exact ih t.2 (fun u hu => hl u (List.mem_cons_of_mem _ hu)) this.1

theorem loop_match (stop : ℕ) {pts : List Point} {l : List (Tok × Bool)} (h : Match pts l) : ∀ (pos : ℕ) (f : Bool) (left : List Edits.Tok),
    (∀ t ∈ left, t.2 ≤ pos ∧ t.1 < t.2) → (∀ x ∈ l, pos ≤ x.1.pos ∧ x.1.pos < x.1.stop) → (l.map fun x => place x.1).Pairwise (fun a b => a.2 ≤ b.1) →
    (∀ x ∈ l.getLast?, x.1.stop = stop) → (l = [] → stop ≤ pos) →
    loop stop pos (left ++ l.map fun x => place x.1) (nl f) pts = newlinesFrom pos f l := by
  induction h with
  | nil =>
    intro pos f left _ _ _ _ hs
    rw [loop, if_neg (by have := hs rfl; omega)]
    rfl
  | @cons pt pts init z g l h1 h2 h3 h4 hm ih =>
    intro pos f left hleft hpos hsort hlast hstop
    obtain ⟨q, e, hqe⟩ : ∃ q e, range (init ++ [z]) = some (q, e) := by
      rw [range_span]
      obtain ⟨x, _, y, _, e⟩ := span_some ((init ++ [z]).map place) (by simp)
      exact ⟨_, _, e⟩
    obtain ⟨n1, n2⟩ := newlinesFrom_init pos f init z g l q e hqe
    rw [n1, loop, h1, hqe]
    simp only [h2, Bool.false_eq_true, if_false, List.append_nil, h3]
    -- the first token of the block
    obtain ⟨a, tl, hab⟩ : ∃ a tl, init ++ [z] = a :: tl := by cases init <;> exact ⟨_, _, rfl⟩
    have hq : a.pos = q := by
      rw [hab] at hqe
      simp only [range] at hqe
      cases hg : (a :: tl).getLast? with
      | none => rw [hg] at hqe; cases hqe
      | some b => rw [hg] at hqe; simp at hqe; exact hqe.1
    have htoks : (init.map (·, false) ++ (z, g) :: l).map (fun x => place x.1) = place a :: (tl.map place ++ l.map fun x => place x.1) := by
      have : (init ++ [z]).map place = place a :: tl.map place := by rw [hab]; rfl
      simp only [List.map_append, List.map_cons, List.map_nil, List.map_map] at this ⊢
      rw [show (init.map ((fun x : Tok × Bool => place x.1) ∘ fun x => (x, false))) = init.map place from rfl,
        show place z :: l.map (fun x => place x.1) = [place z] ++ l.map (fun x => place x.1) from rfl, ← List.append_assoc, this]
      rfl
    have hblock : ∀ t ∈ a :: tl, t.stop ≤ e ∧ t.pos < t.stop ∧ pos ≤ t.pos := by
      intro t ht
      rw [← hab] at ht
      have hin : ∃ f, (t, f) ∈ init.map (·, false) ++ (z, g) :: l := by
        rcases List.mem_append.1 ht with ht | ht
        · exact ⟨false, by simp [ht]⟩
        · simp at ht; subst ht; exact ⟨g, by simp⟩
      obtain ⟨f', hin⟩ := hin
      have hp := hpos _ hin
      refine ⟨?_, hp.2, hp.1⟩
      rcases List.mem_append.1 ht with ht | ht
      · rw [List.map_append, List.pairwise_append] at hsort
        have := hsort.2.2 (place t) (by simp only [List.map_map]; exact List.mem_map.2 ⟨t, ht, rfl⟩) (place z) (by simp)
        have hz := (hpos (z, g) (by simp)).2
        simp only [place] at this
        rw [n2]; simp only at hz; omega
      · simp at ht; subst ht; rw [n2]; exact Nat.le_refl _
    have hpa : pos ≤ q := by rw [← hq]; exact (hblock a (by simp)).2.2
    -- the rest
    have hrest : ∀ left', (∀ t ∈ left', t.2 ≤ e ∧ t.1 < t.2) → loop stop e (left' ++ l.map fun x => place x.1) pt.after pts = newlinesFrom e g l := by
      intro left' hl'
      rw [h4]
      refine ih e g left' hl' ?_ ?_ ?_ ?_
      · intro x hx
        refine ⟨?_, (hpos x (by simp [hx])).2⟩
        rw [List.map_append, List.pairwise_append, List.map_cons, List.pairwise_cons] at hsort
        have := hsort.2.1.1 (place x.1) (List.mem_map.2 ⟨x, hx, rfl⟩)
        rw [n2]
        exact this
      · rw [List.map_append, List.pairwise_append, List.map_cons, List.pairwise_cons] at hsort
        exact hsort.2.1.2
      · intro x hx
        apply hlast
        rw [List.getLast?_append]
        cases l with
        | nil => cases hx
        | cons y l => rw [List.getLast?_cons_cons, hx]; rfl
      · intro hl
        have := hlast (z, g) (by rw [hl]; simp)
        simp only at this
        omega
    rw [htoks]
    by_cases hlt : pos < q
    · obtain ⟨d', hd', hsc⟩ := scan_over q pos pos (tl.map place ++ l.map fun x => place x.1) left hleft hlt (Nat.le_refl _) (place a) hq
      rw [before, if_pos hlt, hsc]
      simp only
      rw [if_neg (by omega), if_neg (by rintro ⟨_, h⟩; omega), List.nil_append, List.nil_append]
      exact hrest _ (by
        intro t ht
        obtain ⟨u, hu, rfl⟩ := List.mem_map.1 ht
        have := hblock u (List.mem_cons_of_mem _ hu)
        exact ⟨this.1, this.2.1⟩)
    · have hpq : pos = q := by omega
      rw [before, if_neg (by omega)]
      have hsp : collapse [nl f, []] = nl f := collapse_nil _
      rw [hsp]
      have := hrest (left ++ place a :: tl.map place) (by
        intro t ht
        rcases List.mem_append.1 ht with ht | ht
        · have h1 := hleft t ht
          have h2 := hblock a (by simp)
          exact ⟨by omega, h1.2⟩
        · rw [← List.map_cons] at ht
          obtain ⟨u, hu, rfl⟩ := List.mem_map.1 ht
          have := hblock u hu
          exact ⟨this.1, this.2.1⟩)
      rw [List.append_assoc, List.cons_append] at this
      simp only
      rw [this]
      cases f <;> simp [nl, hpq]

theorem markLast_fst (l : List (Tok × Bool)) : (markLast l).map Prod.fst = l.map Prod.fst := by
  induction l with
  | nil => rfl
  | cons x l ih =>
    cases l with
    | nil => rfl
    | cons y l => rw [markLast, List.map_cons, ih]; rfl

mutual
/-- They are all tokens, in order. -/
theorem flags_toks : (t : Dom) → (flags t).map Prod.fst = domToks t
  | .node v cs => by
    have : ∀ (b : Bool), (if b = true then markLast (v.head.map (·, false)) else v.head.map (·, false)).map Prod.fst = v.head := by
      intro b
      have h0 : (v.head.map fun x => (x, false)).map Prod.fst = v.head := by rw [List.map_map]; exact List.map_id _
      cases b with
      | false => simpa using h0
      | true => simp only [if_true]; rw [markLast_fst, h0]
    rw [flags, domToks, List.map_append, List.map_append, this, flags_toksL (asks v.cls) cs]
    congr 1
    rw [List.map_map]; exact List.map_id _
theorem flags_toksL (b : Bool) : (cs : List Dom) → (flags.go b cs).map Prod.fst = domToks.go cs
  | [] => rfl
  | c :: cs => by
    rw [flags.go, domToks.go, List.map_append, flags_toksL b cs]
    congr 1
    split
    · rw [markLast_fst, flags_toks c]
    · exact flags_toks c
end

/-- **C79**: what `edit()` of a document in which nothing is missing inserts, exactly: a newline after each comment and each
environment that is directly followed by something, and nothing else. -/
theorem C79_newlines (isSpace : Char → Bool) (cc : Concat) (doc : Str) (ds : List D) (hcc : Modest cc (docTree ds)) (h : body ds) (hc : D.complete.go ds)
    (hp : Parsed isSpace doc ((allToks ds).map place)) :
    ∃ t e, root (D.raw.go ds) = .ok t ∧ placed t = .ok e ∧ (flags t).map Prod.fst = allToks ds ∧
      edits cc (whole ((allToks ds).map place)) none none e = newlines (flags t) := by
  have hf : full (docTree ds) := full_plain _ _ rfl (full_ds ds hc)
  obtain ⟨t, ht, htk⟩ := C79_tokens ds h
  have e := C79_read ds h
  rw [e] at ht
  cases ht
  have hfl := (flags_toks (docTree ds)).trans htk
  refine ⟨_, _, e, placed_full _ hf, hfl, ?_⟩
  have hm := match_tree cc _ hf hcc
  have hmap : (flags (docTree ds)).map (fun x => place x.1) = (allToks ds).map place := by rw [← hfl, List.map_map]; rfl
  generalize flags (docTree ds) = l at hm hmap hfl ⊢
  generalize hpts : placedOk (docTree ds) = t at hm ⊢
  rw [← hmap] at hp ⊢
  rw [edits]
  generalize points cc t = pts at hm ⊢
  cases l with
  | nil =>
    have : pts = [] := by
      generalize hl : ([] : List (Tok × Bool)) = l at hm
      cases hm with
      | nil => rfl
      | @cons _ _ init => cases init <;> cases hl
    rw [this]
    simp [whole, loop, newlines]
  | cons x l =>
    have hs := hp.sorted
    have hx : ∀ y ∈ x :: l, x.1.pos ≤ y.1.pos ∧ y.1.pos < y.1.stop := by
      intro y hy
      have h1 := hp.nonempty (place y.1) (List.mem_map.2 ⟨y, hy, rfl⟩)
      have h2 := hp.nonempty (place x.1) (List.mem_map.2 ⟨x, by simp, rfl⟩)
      refine ⟨?_, h1⟩
      rcases List.mem_cons.1 hy with rfl | hy
      · exact Nat.le_refl _
      · rw [List.map_cons, List.pairwise_cons] at hs
        have h3 := hs.1 (place y.1) (List.mem_map.2 ⟨y, hy, rfl⟩)
        simp only [place] at h2 h3
        omega
    have := loop_match (whole ((x :: l).map fun x => place x.1)).stop hm x.1.pos false [] (by simp) hx hs
      (by
        intro y hy
        simp only [whole, List.getLast?_map]
        rw [Option.mem_def.1 hy]
        rfl)
      (by simp)
    simp only [Option.getD_none]
    have hpos : (whole ((x :: l).map fun x => place x.1)).pos = x.1.pos := rfl
    rw [hpos]
    refine this.trans ?_
    rw [newlinesFrom]
    simp [newlinesFrom_eq]

/-- What LaTeX has between the children of a document: a newline after a comment. -/
def texConcat : Concat := fun _ n _ => match n with
  | .node x [] => if x.kind = .head ∧ x.sp.after = ['\n'] then ['\n'] else []
  | _ => []

theorem exDoc_modest : Modest texConcat (docTree exDoc) := by
  simp [docTree, exDoc, D.tree.go, D.tree, Modest, Modest.go, placedOk, placedOk.go, texConcat, Cls.elem, exMusic, Node.Tree.val, Node.Tree.children, cmdTree, musicTree, Name.tree, End.tree]

theorem exDoc_parsed : Parsed (fun _ => true) [] ((allToks exDoc).map place) := ⟨by decide +kernel, by decide +kernel, by simp⟩

/-- In the example that is only after the comment `%c`, as there is nothing after the environment. -/
theorem C79_newlines_nontrivial : newlines (flags (docTree exDoc)) = [(27, 27, ['\n'])] := by decide +kernel

example : ∃ t e, root (D.raw.go exDoc) = .ok t ∧ placed t = .ok e ∧
    edits texConcat (whole ((allToks exDoc).map place)) none none e = [(27, 27, ['\n'])] := by
  obtain ⟨t, e, h1, h2, _, h3⟩ := C79_newlines (fun _ => true) _ [] exDoc exDoc_modest exDoc_body exDoc_complete exDoc_parsed
  rw [C79_read exDoc exDoc_body] at h1
  cases h1
  exact ⟨_, _, C79_read exDoc exDoc_body, h2, h3.trans C79_newlines_nontrivial⟩

/-- **C79**: of a brace that is not closed, `edit()` inserts the closing brace at the end. -/
theorem C79_open_brace (cc : Concat) (op u : Tok) (ho : op.action = .delimiter) (ht : op.text = ['{']) (h : op.stop = u.pos)
    (hu : u.action = .text) (hu' : u.text ∉ enders) :
    ∃ tree e, root (D.raw.go [.brace op [.text u []] none]) = .ok tree ∧ placed tree = .ok e ∧
      edits cc (whole [place op, place u]) none none e = [(u.stop, u.stop, ['}'])] := by
  have hb : body [.brace op [.text u []] none] :=
    ⟨⟨by simp [D.wf, D.wf.all, ho, ht, hu, hu', contents, chain, D.isOption, D.isText], trivial⟩, rfl, by simp [D.isOption]⟩
  refine ⟨_, _, C79_read _ hb, rfl, ?_⟩
  have e3 : collapse [[], []] = ([] : Str) := by decide
  simp only [edits, whole, D.tree.go, D.tree, placed.go, points, points.kids, headPoint, tailPoint, Cls.elem,
    collapseLast, range, Elem.hasTail, place]
  simp [loop, before, collapseLast, h, e3, scan]

end Quickly.Tex
