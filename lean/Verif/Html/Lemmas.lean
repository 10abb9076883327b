import Verif.Html.Spec
import Verif.Text.Props

/-!
# Lemmas: texts without whitespace around them
-/

namespace Quickly.Html

open Quickly.Node Quickly.Text

/-- The texts with what comes after each. -/
def flat (ps : List Point) : Str := ps.flatMap fun p => p.text ++ p.after

/-- No whitespace is asked for before a text, and after an empty one neither. -/
def Good (ps : List Point) : Prop := ∀ p ∈ ps, p.before = [] ∧ (p.text = [] → p.after = [])

/-- Nothing is asked for after the last. -/
def LastNil (ps : List Point) : Prop := ∀ p ∈ ps.getLast?, p.after = []

/-- The last has text. -/
def LastText (ps : List Point) : Prop := ∃ p ∈ ps.getLast?, p.text ≠ []

theorem flat_append (as bs : List Point) : flat (as ++ bs) = flat as ++ flat bs := by simp [flat]

theorem pyMax_nil (a : Str) (z : List Str) (hz : ∀ x ∈ z, x = []) : pyMax a z = a := by
  induction z with
  | nil => rfl
  | cons x z ih =>
    have hx := hz x (by simp)
    subst hx
    rw [pyMax, if_neg, ih (fun y hy => hz y (by simp [hy]))]
    simp [keyLt, key]

theorem collapse_nil (a : Str) (z : List Str) (hz : ∀ x ∈ z, x = []) : collapse (a :: z) = a := pyMax_nil a z hz

/-- What is asked for after the last text. -/
def lastAfter : Str → List Point → Str
  | a, [] => a
  | a, p :: ps => lastAfter (if p.text = [] then a else p.after) ps

theorem loop_flat (ps : List Point) (hg : Good ps) (result : List Str) (a : Str) (z : List Str) (hz : ∀ x ∈ z, x = []) :
    (combineLoop result (a :: z) (ps.map Point.frag)).1.flatten ++ lastAfter a ps = result.flatten ++ a ++ flat ps := by
  induction ps generalizing result a z with
  | nil => simp [combineLoop, lastAfter, flat]
  | cons p ps ih =>
    obtain ⟨h1, h2⟩ := hg p (by simp)
    have hg' : Good ps := fun q hq => hg q (by simp [hq])
    rw [List.map_cons, combineLoop]
    by_cases ht : p.text = []
    · have ha := h2 ht
      rw [if_pos (by exact ht)]
      have := ih hg' result a (z ++ [p.frag.before] ++ [p.frag.after]) (by
        intro x hx
        simp only [List.mem_append, List.mem_singleton] at hx
        rcases hx with (h | h) | h
        · exact hz x h
        · rw [h]; exact h1
        · rw [h]; exact ha)
      simp only [List.cons_append] at this ⊢
      rw [lastAfter, if_pos ht, this]
      simp [flat, ht, ha]
    · rw [if_neg (by exact ht), lastAfter, if_neg ht]
      have := ih hg' (result ++ [collapse ((a :: z) ++ [p.frag.before])] ++ [p.frag.text]) p.frag.after [] (by simp)
      rw [show p.frag.after = p.after from rfl] at this ⊢
      rw [this, List.cons_append, collapse_nil a (z ++ [p.frag.before])]
      · simp [flat, Point.frag]
      · intro x hx
        simp only [List.mem_append, List.mem_singleton] at hx
        rcases hx with h | h
        · exact hz x h
        · rw [h]; exact h1

theorem combineLoop_head (x : Str) (rs ws : List Str) (fs : List Frag) : ∃ ys, (combineLoop (x :: rs) ws fs).1 = x :: ys := by
  induction fs generalizing rs ws with
  | nil => exact ⟨rs, rfl⟩
  | cons f fs ih =>
    rw [combineLoop]
    split
    · exact ih _ _
    · exact ih _ _

theorem first_nil (ps : List Point) (hg : Good ps) (ws : List Str) (hw : ∀ x ∈ ws, x = []) :
    ((combineLoop [] ws (ps.map Point.frag)).1.take 1).flatten = [] := by
  induction ps generalizing ws with
  | nil => rfl
  | cons p ps ih =>
    obtain ⟨h1, h2⟩ := hg p (by simp)
    have hg' : Good ps := fun q hq => hg q (by simp [hq])
    rw [List.map_cons, combineLoop]
    have hb : ∀ x ∈ ws ++ [p.frag.before], x = [] := by
      intro x hx
      simp only [List.mem_append, List.mem_singleton] at hx
      rcases hx with h | h
      · exact hw x h
      · rw [h]; exact h1
    by_cases ht : p.text = []
    · rw [if_pos (by exact ht)]
      apply ih hg'
      intro x hx
      rw [List.mem_append, List.mem_singleton] at hx
      rcases hx with h | h
      · exact hb x h
      · rw [h]; exact h2 ht
    · rw [if_neg (by exact ht), List.nil_append, List.singleton_append]
      obtain ⟨ys, hy⟩ := combineLoop_head (collapse (ws ++ [p.frag.before])) [p.frag.text] [p.frag.after] (ps.map Point.frag)
      rw [hy]
      have : collapse (ws ++ [p.frag.before]) = [] := hb _ (collapse_mem (by simp))
      simp [this]

theorem lastAfter_last (a : Str) (ps : List Point) (p : Point) (hp : ps.getLast? = some p) (ht : p.text ≠ []) : lastAfter a ps = p.after := by
  induction ps generalizing a with
  | nil => simp at hp
  | cons q ps ih =>
    rw [lastAfter]
    cases ps with
    | nil =>
      simp only [List.getLast?_singleton, Option.some.injEq] at hp
      subst hp
      rw [if_neg ht]
      rfl
    | cons r rs =>
      rw [List.getLast?_cons_cons] at hp
      exact ih _ hp

/-- Then the texts are written without anything else. -/
theorem write_flat (cc : Concat) (t : Node.Tree Elem) (hg : Good (points cc t)) (hn : LastNil (points cc t)) (hl : LastText (points cc t)) :
    Text.write cc t = flat (points cc t) := by
  obtain ⟨p, hp, ht⟩ := hl
  have key : (combineLoop [] [] ((points cc t).map Point.frag)).1.flatten ++ lastAfter [] (points cc t) = flat (points cc t) := by
    cases hps : points cc t with
    | nil => rfl
    | cons q qs =>
      rw [hps] at hg
      obtain ⟨h1, h2⟩ := hg q (by simp)
      have hg' : Good qs := fun r hr => hg r (by simp [hr])
      rw [List.map_cons, combineLoop, lastAfter]
      by_cases hq : q.text = []
      · rw [if_pos (by exact hq), if_pos hq]
        have := loop_flat qs hg' [] q.frag.before [q.frag.after] (by simpa [Point.frag] using h2 hq)
        have hb : q.frag.before = [] := h1
        simp only [List.nil_append, List.singleton_append, List.cons_append] at this ⊢
        rw [hb] at this ⊢
        rw [this]
        simp [flat, hq, h2 hq]
      · rw [if_neg (by exact hq), if_neg hq]
        have := loop_flat qs hg' ([] ++ [collapse ([] ++ [q.frag.before])] ++ [q.frag.text]) q.frag.after [] (by simp)
        rw [show q.frag.after = q.after from rfl] at this ⊢
        rw [this]
        have hb : collapse ([] ++ [q.frag.before]) = [] := h1
        rw [hb]
        simp [flat, Point.frag]
  have h2 := first_nil (points cc t) hg [] (by simp)
  rw [lastAfter_last _ _ p hp ht, hn p hp, List.append_nil] at key
  unfold Text.write combine
  simp only
  rw [← key]
  have h3 := congrArg List.flatten (List.take_append_drop 1 (combineLoop [] [] ((points cc t).map Point.frag)).1)
  rw [List.flatten_append, h2, List.nil_append] at h3
  exact h3

theorem collapseLast_getLast (ps : List Point) (w : Str) :
    (collapseLast ps w).getLast? = ps.getLast?.map fun p => { p with after := collapse [p.after, w] } := by
  induction ps with
  | nil => rfl
  | cons p ps ih =>
    cases ps with
    | nil => rfl
    | cons q qs =>
      rw [collapseLast, List.getLast?_cons_cons, ← ih]
      cases h : collapseLast (q :: qs) w with
      | nil => cases qs <;> simp [collapseLast] at h
      | cons r rs => rw [List.getLast?_cons_cons]

theorem collapseLast_nil (ps : List Point) (h : LastNil ps) : collapseLast ps [] = ps := by
  induction ps with
  | nil => rfl
  | cons p ps ih =>
    cases ps with
    | nil =>
      have := h p rfl
      obtain ⟨r, x, m, b, a⟩ := p
      simp only at this
      subst this
      rfl
    | cons q qs =>
      rw [collapseLast, ih]
      intro r hr
      exact h r (by rw [List.getLast?_cons_cons]; exact hr)

theorem collapse_space : collapse [[], [' ']] = [' '] := by decide

theorem flat_collapse (ps : List Point) (hne : ps ≠ []) (h : LastNil ps) : flat (collapseLast ps [' ']) = flat ps ++ [' '] := by
  induction ps with
  | nil => exact absurd rfl hne
  | cons p ps ih =>
    cases ps with
    | nil =>
      have := h p rfl
      simp [collapseLast, flat, this, collapse_space]
    | cons q qs =>
      have := ih (by simp) (fun r hr => h r (by rw [List.getLast?_cons_cons]; exact hr))
      rw [collapseLast]
      unfold flat at this ⊢
      rw [List.flatMap_cons, this, List.flatMap_cons (x := p)]
      simp only [List.append_assoc]

theorem good_collapse (ps : List Point) (w : Str) (hg : Good ps) (hl : LastText ps) : Good (collapseLast ps w) := by
  induction ps with
  | nil => exact hg
  | cons p ps ih =>
    cases ps with
    | nil =>
      obtain ⟨q, hq, ht⟩ := hl
      simp only [List.getLast?_singleton, Option.mem_def, Option.some.injEq] at hq
      subst hq
      intro r hr
      simp only [collapseLast, List.mem_singleton] at hr
      subst hr
      exact ⟨(hg p (by simp)).1, fun h => absurd h ht⟩
    | cons q qs =>
      rw [collapseLast]
      intro r hr
      rw [List.mem_cons] at hr
      rcases hr with rfl | hr
      · exact hg r (by simp)
      · refine ih (fun x hx => hg x (by simp [hx])) ?_ r hr
        obtain ⟨x, hx, ht⟩ := hl
        exact ⟨x, by rw [List.getLast?_cons_cons] at hx; exact hx, ht⟩

/-- Both. -/
def Nice (t : Node.Tree Elem) : Prop := Good (points defaultConcat t) ∧ LastNil (points defaultConcat t)

/-- What a tree writes. -/
def out (t : Node.Tree Elem) : Str := flat (points defaultConcat t)

theorem kids_zero (e : Elem) (cs : List (Node.Tree Elem)) (hb : e.sp.between = []) (ha : e.sp.after = []) (h : ∀ c ∈ cs, Nice c) :
    points.kids defaultConcat e cs = (cs.map (points defaultConcat)).flatten := by
  induction cs with
  | nil => rfl
  | cons c cs ih =>
    have hc := h c (by simp)
    simp only [points.kids, List.map_cons, List.flatten_cons]
    rw [ih (fun x hx => h x (by simp [hx]))]
    congr 1
    cases cs with
    | nil =>
      simp only
      split
      · rfl
      · rw [ha]; exact collapseLast_nil _ hc.2
    | cons d ds =>
      simp only [defaultConcat, hb]
      exact collapseLast_nil _ hc.2

/-- The head that is written. -/
def headOf (e : Elem) : Str := if e.kind = .plain then [] else e.head

/-- The tail that is written. -/
def tailOf (e : Elem) : Str := if e.kind = .block then e.tail else []

theorem headPoint_facts (e : Elem) (n : ℕ) (ha : e.sp.after = []) (hh : e.sp.afterHead = []) (hb : e.sp.before = []) :
    Good (headPoint e n).toList ∧ flat (headPoint e n).toList = headOf e ∧ ∀ p ∈ headPoint e n, p.after = [] := by
  unfold headPoint headOf
  by_cases h : e.kind = .plain
  · simp [h, Good, flat]
  · simp [h, Good, flat, ha, hh, hb]

theorem tailPoint_facts (e : Elem) (ha : e.sp.after = []) (hb : e.sp.beforeTail = []) :
    Good (tailPoint e).toList ∧ flat (tailPoint e).toList = tailOf e ∧ ∀ p ∈ tailPoint e, p.after = [] := by
  unfold tailPoint tailOf
  by_cases h : e.kind = .block
  · simp [h, Good, flat, ha, hb]
  · simp [h, Good, flat]

theorem good_append {as bs : List Point} (h : Good as) (k : Good bs) : Good (as ++ bs) := by
  intro p hp
  rw [List.mem_append] at hp
  exact hp.elim (h p) (k p)

theorem lastNil_append {as bs : List Point} (h : LastNil as) (k : LastNil bs) : LastNil (as ++ bs) := by
  intro p hp
  rw [List.getLast?_append] at hp
  cases hb : bs.getLast? with
  | none => rw [hb] at hp; exact h p hp
  | some q => rw [hb] at hp; exact k p (by rw [hb]; simpa using hp)

theorem lastNil_toList {o : Option Point} (h : ∀ p ∈ o, p.after = []) : LastNil o.toList := by
  cases o with
  | none => intro p hp; simp at hp
  | some q => intro p hp; simp at hp; subst hp; exact h _ rfl

theorem flatten_facts (pss : List (List Point)) (h : ∀ ps ∈ pss, Good ps ∧ LastNil ps) : Good pss.flatten ∧ LastNil pss.flatten ∧ flat pss.flatten = (pss.map flat).flatten := by
  induction pss with
  | nil => exact ⟨by simp [Good], by simp [LastNil], rfl⟩
  | cons ps pss ih =>
    obtain ⟨h1, h2, h3⟩ := ih (fun x hx => h x (by simp [hx]))
    have h4 := h ps (by simp)
    rw [List.flatten_cons]
    exact ⟨good_append h4.1 h1, lastNil_append h4.2 h2, by rw [flat_append, h3]; rfl⟩

/-- An element without spacing. -/
theorem node_zero (e : Elem) (cs : List (Node.Tree Elem)) (hs : e.sp = {}) (h : ∀ c ∈ cs, Nice c) :
    Nice (.node e cs) ∧ out (.node e cs) = headOf e ++ (cs.map out).flatten ++ tailOf e := by
  have hk := kids_zero e cs (by rw [hs]) (by rw [hs]) h
  obtain ⟨a1, a2, a3⟩ := headPoint_facts e cs.length (by rw [hs]) (by rw [hs]) (by rw [hs])
  obtain ⟨b1, b2, b3⟩ := tailPoint_facts e (by rw [hs]) (by rw [hs])
  obtain ⟨c1, c2, c3⟩ := flatten_facts (cs.map (points defaultConcat)) (by
    intro ps hps
    obtain ⟨c, hc, rfl⟩ := List.mem_map.mp hps
    exact h c hc)
  unfold Nice out
  rw [points, hk]
  refine ⟨⟨good_append (good_append a1 c1) b1, lastNil_append (lastNil_append (lastNil_toList a3) c2) (lastNil_toList b3)⟩, ?_⟩
  rw [flat_append, flat_append, a2, b2, c3, List.map_map]
  rfl

theorem kids_tag (e : Elem) (c : Node.Tree Elem) (cs : List (Node.Tree Elem)) (hk : e.kind = .block) (hb : e.sp.between = [' '])
    (h : ∀ x ∈ c :: cs, Nice x ∧ LastText (points defaultConcat x)) :
    Good (points.kids defaultConcat e (c :: cs)) ∧
      flat (points.kids defaultConcat e (c :: cs)) = out c ++ (cs.map fun x => [' '] ++ out x).flatten := by
  induction cs generalizing c with
  | nil =>
    have hc := h c (by simp)
    have ht : (tailPoint e).isSome = true := by simp [tailPoint, hk]
    simp only [points.kids, ht, if_true, List.append_nil, List.map_nil, List.flatten_nil]
    exact ⟨hc.1.1, rfl⟩
  | cons d ds ih =>
    have hc := h c (by simp)
    obtain ⟨h1, h2⟩ := ih d (fun x hx => h x (by simp only [List.mem_cons] at hx ⊢; exact .inr hx))
    rw [points.kids]
    simp only [defaultConcat, hb]
    have hne : points defaultConcat c ≠ [] := by
      obtain ⟨p, hp, _⟩ := hc.2
      intro h0
      rw [h0] at hp
      simp at hp
    refine ⟨good_append (good_collapse _ _ hc.1.1 hc.2) h1, ?_⟩
    rw [flat_append, h2, flat_collapse _ hne hc.1.2, List.map_cons, List.flatten_cons]
    simp [out]

/-- A tag. -/
theorem node_tag (e : Elem) (c : Node.Tree Elem) (cs : List (Node.Tree Elem)) (hk : e.kind = .block) (hs : e.sp = { between := [' '] })
    (h : ∀ x ∈ c :: cs, Nice x ∧ LastText (points defaultConcat x)) :
    Nice (.node e (c :: cs)) ∧ out (.node e (c :: cs)) = e.head ++ out c ++ (cs.map fun x => [' '] ++ out x).flatten ++ e.tail := by
  obtain ⟨h1, h2⟩ := kids_tag e c cs hk (by rw [hs]) h
  obtain ⟨a1, a2, a3⟩ := headPoint_facts e (c :: cs).length (by rw [hs]) (by rw [hs]) (by rw [hs])
  obtain ⟨b1, b2, b3⟩ := tailPoint_facts e (by rw [hs]) (by rw [hs])
  unfold Nice out
  rw [points]
  refine ⟨⟨good_append (good_append a1 h1) b1, ?_⟩, ?_⟩
  · intro p hp
    rw [List.getLast?_append, show tailPoint e = some _ from if_pos hk] at hp
    simp only [Option.toList_some, List.getLast?_singleton, Option.some_or, Option.mem_def, Option.some.injEq] at hp
    subst hp
    rw [hs]
  · rw [flat_append, flat_append, a2, b2, h2]
    simp [headOf, tailOf, hk, out]

end Quickly.Html
