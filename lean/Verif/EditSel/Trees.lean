import Verif.EditSel.Lemmas
import Verif.Edits.Whole
import Verif.Find.Props
import Verif.Range.Props

/-! # The places of a tree in the text -/

namespace Quickly.EditSel

open Quickly.Node Quickly.Text Quickly.Edits Quickly.Edits.Spec Quickly.Find Quickly.Find.Spec Quickly.Cursor
  Quickly.NodeRange Spec

/-- The place of a point as a token. -/
def mark (pt : Point) : Option Find.Tok := pt.range.map tok

theorem marks_of_seen {as bs : List Point} (h : as.map seen = bs.map seen) : as.filterMap mark = bs.filterMap mark := by
  have : ∀ l : List Point, l.filterMap mark = (l.map seen).filterMap fun x => x.1.map tok := by
    intro l
    rw [List.filterMap_map]
    rfl
  rw [this, this, h]

theorem marks_kids (cc : Concat) (v : Elem) (cs : List (Node.Tree Elem)) :
    (points.kids cc v cs).filterMap mark = cs.flatMap fun c => (points cc c).filterMap mark := by
  have : ∀ l : List Point, l.filterMap mark = (l.map seen).filterMap fun x => x.1.map tok := by
    intro l
    rw [List.filterMap_map]
    rfl
  rw [this, seen_kids, List.filterMap_flatMap]
  simp only [this]

mutual

/-- The tokens of a tree are the places of its points. -/
theorem toks_orgs (cc : Concat) (t : Node.Tree Elem) : toks (orgs t) = (points cc t).filterMap mark := by
  cases t with
  | node v cs =>
    rw [orgs, toks, points, List.filterMap_append, List.filterMap_append, marks_kids, toks_orgs_go cc cs]
    congr 1
    · congr 1
      unfold orgOf headPoint
      split
      · rfl
      · cases v.headOrigin <;> simp [mark]
    · show (if v.kind = .block then (v.tailOrigin.map tok).toList else []) = _
      unfold tailPoint
      split
      · cases v.tailOrigin <;> simp [mark]
      · rfl

theorem toks_orgs_go (cc : Concat) (cs : List (Node.Tree Elem)) :
    toks.go (orgs.go cs) = cs.flatMap fun c => (points cc c).filterMap mark := by
  cases cs with
  | nil => rfl
  | cons c cs => rw [orgs.go, toks.go, toks_orgs cc c, toks_orgs_go cc cs, List.flatMap_cons]

end

theorem orgs_go (cs : List (Node.Tree Elem)) : orgs.go cs = cs.map orgs := by
  induction cs with
  | nil => rfl
  | cons c cs ih => rw [orgs.go, ih]; rfl

theorem orgs_get (p : Path) : ∀ t : Node.Tree Elem, (orgs t).get? p = (t.get? p).map orgs := by
  induction p with
  | nil => intro t; rfl
  | cons i p ih =>
    intro t
    cases t with
    | node v cs =>
      rw [Tree.get?, Tree.get?]
      simp only [orgs, Tree.children, orgs_go, List.getElem?_map]
      cases cs[i]? with
      | none => rfl
      | some c => exact ih c

/-- What a node in a tree has, is together in what the tree has. -/
theorem points_get (cc : Concat) (p : Path) : ∀ t a : Node.Tree Elem, t.get? p = some a →
    ∃ us ws, (points cc t).map seen = us ++ (points cc a).map seen ++ ws := by
  induction p with
  | nil =>
    intro t a h
    cases h
    exact ⟨[], [], by simp⟩
  | cons i p ih =>
    intro t a h
    cases t with
    | node v cs =>
      rw [Tree.get?] at h
      simp only [Tree.children] at h
      cases hc : cs[i]? with
      | none => rw [hc] at h; cases h
      | some c =>
        rw [hc] at h
        obtain ⟨us, ws, e⟩ := ih c a h
        obtain ⟨xs, ys, exy⟩ := List.append_of_mem (List.mem_of_getElem? hc)
        refine ⟨(headPoint v cs.length).toList.map seen ++ (xs.flatMap fun c => (points cc c).map seen) ++ us,
          ws ++ (ys.flatMap fun c => (points cc c).map seen) ++ (tailPoint v).toList.map seen, ?_⟩
        rw [points, List.map_append, List.map_append, seen_kids, exy, List.flatMap_append, List.flatMap_cons, e]
        simp

/-- The tree of a text is in order. -/
theorem ordered_of_intact {doc : Str} {tokens : List Edits.Tok} (cc : Concat) (d : Node.Tree Elem)
    (h : Intact doc tokens (points cc d)) : Ordered (orgs d) := by
  have hm : ∀ k ∈ toks (orgs d), ∃ pt ∈ points cc d, ∃ p e, pt.range = some (p, e) ∧ k = tok (p, e) := by
    intro k hk
    rw [toks_orgs cc d, List.mem_filterMap] at hk
    obtain ⟨pt, hpt, hk⟩ := hk
    unfold mark at hk
    cases hr : pt.range with
    | none => rw [hr] at hk; cases hk
    | some pe => rw [hr] at hk; cases hk; exact ⟨pt, hpt, pe.1, pe.2, hr, rfl⟩
  refine ⟨?_, ?_, ?_⟩
  · intro k hk
    obtain ⟨pt, hpt, p, e, hr, rfl⟩ := hm k hk
    have := (h.kept.origin pt hpt p e hr).2.1
    simp only [tok]
    omega
  · rw [toks_orgs cc d, List.pairwise_filterMap]
    refine h.kept.inOrder.imp ?_
    intro a b hab x hx y hy
    unfold mark at hx hy
    cases hr : a.range with
    | none => rw [hr] at hx; cases hx
    | some pe =>
      cases hr' : b.range with
      | none => rw [hr'] at hy; cases hy
      | some qf =>
        rw [hr] at hx; rw [hr'] at hy; cases hx; cases hy
        have := hab pe.1 pe.2 qf.1 qf.2 hr hr'
        simp only [tok]
        omega
  · rintro ⟨p, n⟩ hn ht hhd
    unfold Node.Spec.NodeOf at hn
    dsimp only at hn ht hhd
    rw [orgs_get] at hn
    cases hx : d.get? p with
    | none => rw [hx] at hn; cases hn
    | some x =>
      rw [hx] at hn
      cases hn
      obtain ⟨us, ws, e⟩ := points_get cc p d x hx
      cases x with
      | node v cs =>
        simp only [orgs, Tree.val, orgOf] at ht hhd
        have hb : v.kind = .block := by
          by_contra hb
          rw [if_neg hb] at ht
          exact ht rfl
        rw [if_neg (by rw [hb]; decide)] at hhd
        have hh : (v.headOrigin, v.headModified) ∈ (points cc d).map seen := by
          rw [e, points, headPoint, if_neg (by rw [hb]; decide)]
          simp [seen]
        obtain ⟨pt, hpt, e⟩ := List.mem_map.1 hh
        have := (h.there pt hpt).1
        rw [show pt.range = v.headOrigin from congrArg Prod.fst e] at this
        cases ho : v.headOrigin with
        | none => rw [ho] at this; cases this
        | some r => rw [ho] at hhd; cases hhd

/-- The start and the end that are given to `edit()` are those of nodes in the ancestor of the range. -/
theorem job_facts (t : Tree Org) (h : Ordered t) (c : Cursor) (fr fc : Bool) (j : Job) (hj : job t c fr fc = .ok j) :
    (∀ s, j.start = some s → ∃ r n, t.get? (j.ancestor.path ++ r) = some n ∧ Starts n s) ∧
    (∀ e, j.stop = some e → ∃ r n, t.get? (j.ancestor.path ++ r) = some n ∧ Ends n e) := by
  obtain ⟨ra, hra, hra'⟩ := C43_find_right t h c.pos
  obtain ⟨rb, hrb, hrb'⟩ := C43_find_left t h c.stop
  have hwhole : (∀ s, Cursor.whole.start = some s → ∃ r n, t.get? (Cursor.whole.ancestor.path ++ r) = some n ∧ Starts n s) ∧
      (∀ e, Cursor.whole.stop = some e → ∃ r n, t.get? (Cursor.whole.ancestor.path ++ r) = some n ∧ Ends n e) :=
    ⟨(fun s hs => by cases hs), (fun s hs => by cases hs)⟩
  have hS : ∀ n s, ra = some n → Find.pos n.2 = some s → t.get? n.1 = some n.2 ∧ Starts n.2 s := by
    rintro n s rfl hs
    exact ⟨hra'.1.1, ((C43_pos_end t h n hra'.1.1 s 0).1).1 hs⟩
  have hE : ∀ n e, rb = some n → Find.stop n.2 = some e → t.get? n.1 = some n.2 ∧ Ends n.2 e := by
    rintro n e rfl hs
    exact ⟨hrb'.1.1, ((C43_pos_end t h n hrb'.1.1 0 e).2).1 hs⟩
  rw [job] at hj
  split at hj
  · rw [hra, hrb] at hj
    dsimp only at hj
    split at hj
    · split at hj
      · cases hj
      · rename_i a st en hf
        cases hj
        dsimp only
        -- the ancestor is above both nodes
        have hpre : (∀ n, ra = some n → ∃ r, n.1 = a.path ++ r) ∧ ∀ n, rb = some n → ∃ r, n.1 = a.path ++ r := by
          cases ra with
          | none =>
            cases rb with
            | none => simp [fromNodes] at hf
            | some b =>
              simp [fromNodes, C32_root] at hf
              obtain ⟨rfl, -⟩ := hf
              exact ⟨by simp, by rintro n ⟨⟩; exact ⟨b.1, rfl⟩⟩
          | some x =>
            cases rb with
            | none =>
              simp [fromNodes, C32_root] at hf
              obtain ⟨rfl, -⟩ := hf
              exact ⟨by rintro n ⟨⟩; exact ⟨x.1, rfl⟩, by simp⟩
            | some b =>
              simp only [fromNodes, Option.map_some] at hf
              split at hf
              · have hc := C29_with_trail (refOf x) (refOf b)
                cases hca : (refOf x).commonAncestor (refOf b) with
                | none => rw [hca] at hc; simp only at hc; rw [hc] at hf; cases hf
                | some cn =>
                  rw [hca] at hc
                  obtain ⟨ta, tb, e1, e2, e3⟩ := hc
                  rw [e1] at hf
                  cases hf
                  exact ⟨by rintro n ⟨⟩; exact ⟨ta, e2⟩, by rintro n ⟨⟩; exact ⟨tb, e3⟩⟩
              · split at hf
                · simp only [C32_root, Except.ok.injEq, Prod.mk.injEq] at hf
                  obtain ⟨rfl, -⟩ := hf
                  exact ⟨by rintro n ⟨⟩; exact ⟨x.1, rfl⟩, by rintro n ⟨⟩; exact ⟨b.1, rfl⟩⟩
                · cases hf
        constructor
        · intro s hs
          cases hx : ra with
          | none => rw [hx] at hs; cases hs
          | some n =>
            rw [hx] at hs
            obtain ⟨h1, h2⟩ := hS n s hx hs
            obtain ⟨r, hr⟩ := hpre.1 n hx
            exact ⟨r, n.2, by rw [← hr]; exact h1, h2⟩
        · intro s hs
          cases hx : rb with
          | none => rw [hx] at hs; cases hs
          | some n =>
            rw [hx] at hs
            obtain ⟨h1, h2⟩ := hE n s hx hs
            obtain ⟨r, hr⟩ := hpre.2 n hx
            exact ⟨r, n.2, by rw [← hr]; exact h1, h2⟩
    · cases hj
      exact hwhole
  · split at hj
    · rw [hra] at hj
      cases ra with
      | none => cases hj; exact hwhole
      | some n =>
        dsimp only at hj
        split at hj
        · cases hj
        · cases hj
          exact ⟨(fun s hs => by cases hs), (fun s hs => by cases hs)⟩
    · cases hj
      exact hwhole

end Quickly.EditSel
