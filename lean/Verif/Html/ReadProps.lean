import Verif.Html.ReadSpec
import Verif.Edits.Props

/-!
# C76: reading Html
-/

namespace Quickly.Html

open Quickly.Node Quickly.Text Quickly.Html.Spec

/-! ## The tree that is read -/

theorem appendLast_append (as : List Dom) (v : Val) (cs : List Dom) (n : Dom) :
    appendLast (as ++ [.node v cs]) n = as ++ [.node v (cs ++ [n])] := by
  induction as with
  | nil => rfl
  | cons a as ih =>
    cases as with
    | nil => simp [appendLast]
    | cons b as => simp only [List.cons_append, appendLast] at ih ⊢; rw [ih]

theorem lastLen_append (as : List Dom) (v : Val) (cs : List Dom) : lastLen (as ++ [.node v cs]) = cs.length := by
  simp [lastLen]

theorem extendLast_append (as : List Dom) (v : Val) (cs ns : List Dom) :
    extendLast (as ++ [.node v cs]) ns = .ok (as ++ [.node v (cs ++ ns)]) := by
  induction as with
  | nil => rfl
  | cons a as ih =>
    cases as with
    | nil => simp [extendLast, Except.map]
    | cons b as => simp only [List.cons_append, extendLast] at ih ⊢; rw [ih]; rfl

theorem slash_iff (s : Str) : slash s = true ↔ '/' ∈ s := by simp [slash]

theorem slash_false (s : Str) (h : ¬ '/' ∈ s) : slash s = false := by
  rw [← slash_iff] at h
  simpa using h

/-- The items of a value. -/
def vItems : V → List Item
  | .none => []
  | .eq e => [.tok e]
  | .str e single f ms l => [.tok e, .string (.node ⟨if single then .sqString else .dqString, [f], [l]⟩ (ms.map piece))]
  | .number e n => [.tok e, .tok n]
  | .measure e n u => [.tok e, .tok n, .tok u]
  | .style e q _ l => [.tok e, .tok q, .untransformed l]

def aItems (a : A) : List Item := .tok a.name :: vItems a.value

theorem stringItem_eq (t : Tok) : stringItem t = piece t := rfl

theorem go_append (a b : List Raw) (x y : List Item) (ha : item.go a = .ok x) (hb : item.go b = .ok y) :
    item.go (a ++ b) = .ok (x ++ y) := by
  induction a generalizing x with
  | nil =>
    cases ha
    exact hb
  | cons r a ih =>
    rw [item.go] at ha
    cases hr : item r with
    | error e => rw [hr] at ha; cases ha
    | ok i =>
      cases hg : item.go a with
      | error e => rw [hr, hg] at ha; cases ha
      | ok is =>
        rw [hr, hg] at ha
        cases ha
        rw [List.cons_append, item.go, hr, ih is hg]
        rfl

theorem v_items (v : V) (h : v.wf) : item.go v.raw = .ok (vItems v) := by
  cases v with
  | str e single f ms l =>
    have hl : l.text = [if single then '\'' else '"'] := h.2
    cases single
    · have e : readString .dqString ['"'] f (ms ++ [l]) = .node ⟨.dqString, [f], [l]⟩ (ms.map piece) := by
        simp only [readString, ← List.cons_append, List.getLast?_concat, List.dropLast_concat, Option.map_some, hl]
        rfl
      simp only [V.raw, item.go, item, e]
      rfl
    · have e : readString .sqString ['\''] f (ms ++ [l]) = .node ⟨.sqString, [f], [l]⟩ (ms.map piece) := by
        simp only [readString, ← List.cons_append, List.getLast?_concat, List.dropLast_concat, Option.map_some, hl]
        rfl
      simp only [V.raw, item.go, item, e]
      rfl
  | _ => rfl

theorem as_items (as : List A) (h : ∀ a ∈ as, a.wf) : item.go (as.flatMap A.raw) = .ok (as.flatMap aItems) := by
  induction as with
  | nil => rfl
  | cons a as ih =>
    rw [List.flatMap_cons, List.flatMap_cons]
    refine go_append _ _ _ _ ?_ (ih fun b hb => h b (List.mem_cons_of_mem _ hb))
    have := go_append [.tok a.name] _ [.tok a.name] _ rfl (v_items a.value (h a (List.mem_cons_self ..)).2.2)
    exact this

theorem readAttrs_a (acc : List Dom) (a : A) (h : a.wf) (rest : List Item) :
    readAttrs acc (aItems a ++ rest) = readAttrs (acc ++ [a.tree]) rest := by
  obtain ⟨n, v⟩ := a
  obtain ⟨h1, h2, h3⟩ := h
  have first : ∀ its, readAttrs acc (.tok n :: its) = readAttrs (acc ++ [.node ⟨.attribute, [], []⟩ [leaf (.attrName n.text) n]]) its := by
    intro its
    simp only at h1 h2
    rw [readAttrs.eq_def]
    rcases h1 with h1 | h1
    · simp only [h1, if_true]; rfl
    · simp [h1, h2]; rfl
  rw [aItems, List.cons_append, first]
  have eq : ∀ (e : Tok) its, e.text = ['='] → e.action = .operator →
      readAttrs (acc ++ [.node ⟨.attribute, [], []⟩ [leaf (.attrName n.text) n]]) (.tok e :: its) =
      readAttrs (acc ++ [.node ⟨.attribute, [], []⟩ [leaf (.attrName n.text) n, leaf .equalSign e]]) its := by
    intro e its h h'
    rw [readAttrs.eq_def]
    simp [h, h', lastLen_append, appendLast_append]
    rfl
  cases v with
  | none => rfl
  | eq e => exact eq e _ h3.1 h3.2
  | str e single f ms l =>
    simp only [vItems, List.cons_append, List.nil_append]
    rw [eq e _ h3.1.1 h3.1.2, readAttrs.eq_def]
    simp [lastLen_append, appendLast_append, A.tree, V.tree]
  | number e n =>
    simp only [vItems, List.cons_append, List.nil_append]
    rw [eq e _ h3.1.1 h3.1.2, readAttrs.eq_def]
    simp [lastLen_append, appendLast_append, A.tree, V.tree, h3.2.1, h3.2.2, factory, leaf]
  | measure e n u =>
    simp only [vItems, List.cons_append, List.nil_append]
    rw [eq e _ h3.1.1 h3.1.2, readAttrs.eq_def]
    simp only [h3.2.1.1, h3.2.1.2]
    simp [lastLen_append, appendLast_append]
    rw [readAttrs.eq_def]
    simp only [h3.2.2.1, h3.2.2.2]
    simp [lastLen_append, appendLast_append, A.tree, V.tree, factory, leaf]
  | style e q ts l =>
    simp only [vItems, List.cons_append, List.nil_append]
    rw [eq e _ h3.1.1 h3.1.2, readAttrs.eq_def]
    simp [lastLen_append, appendLast_append, A.tree, V.tree, h3.2.1, h3.2.2, factory, leaf]

theorem readAttrs_as (as : List A) (gt : Tok) (h : ∀ a ∈ as, a.wf) (hg : gt.action = .delimiter) (hg' : gt.text ≠ ['=']) (acc : List Dom) :
    readAttrs acc (as.flatMap aItems ++ [.tok gt]) = (acc ++ as.map A.tree, [gt]) := by
  induction as generalizing acc with
  | nil =>
    rw [readAttrs.eq_def]
    simp [hg, hg']
  | cons a as ih =>
    rw [List.flatMap_cons, List.append_assoc, readAttrs_a _ _ (h a (List.mem_cons_self ..)), ih fun b hb => h b (List.mem_cons_of_mem _ hb)]
    simp

theorem attrs_items (as : List A) (gt : Tok) (h : ∀ a ∈ as, a.wf) : item.go (attrsRaw as gt) = .ok (as.flatMap aItems ++ [.tok gt]) :=
  go_append _ _ _ _ (as_items as h) rfl

/-- The item of the end of a tag. -/
def endItem : End → Item
  | .plain gt => .tok gt
  | .attrs as gt => .attrs (as.map A.tree) [gt]
  | .options as gt => .options (as.map A.tree) [gt]

theorem end_item (e : End) (h : e.wf) : item e.raw = .ok (endItem e) := by
  cases e with
  | plain gt => rfl
  | attrs as gt =>
    rw [End.raw, item, attrs_items as gt h.1]
    simp only [bind, Except.bind, readAttrs_as as gt h.1 h.2.1 h.2.2.1, List.nil_append]
    rfl
  | options as gt =>
    rw [End.raw, item, attrs_items as gt h.1]
    simp only [bind, Except.bind, readAttrs_as as gt h.1 h.2.1 h.2.2.1, List.nil_append]
    rfl

/-- The items of a piece of a document. -/
def dItems : D → List Item
  | .text t => [.tok t]
  | .entity t => [.tok t]
  | .comment n _ => [.rest n]
  | .start lt name e => [.tok lt, .tok name, endItem e]
  | .elem lt name e kids close => [.tok lt, .tok name, endItem e, .tag (D.tree.go kids ++ closeTree close)]
  | .region lt a b _ l => [.tok lt, .tok a, .tok b, .untransformed l]
  | .regionAttrs lt name as gt _ l => [.tok lt, .tok name, .attrs (as.map A.tree) [gt], .untransformed l]
  | .lily lt name e ns => [.tok lt, .tok name, endItem e, .lily ns []]
  | .short lt name as colon ns gt => [.tok lt, .tok name, .options (as.map A.tree) [colon], .lily ns [gt]]

/-- The items do not start with a context that belongs to what is before them. -/
def Calm : List Item → Prop
  | .untransformed _ :: _ => False
  | .lily _ _ :: _ => False
  | _ => True

theorem calm_d (d : D) (rest : List Item) : Calm (dItems d ++ rest) := by cases d <;> trivial

theorem unknown_start (name : Tok) (e : End) (rest : List Item) (hc : Calm rest) :
    isUnknown (.tok name :: endItem e :: rest) = none := by
  cases rest with
  | nil => cases e <;> rfl
  | cons r rest => cases r <;> first | exact hc.elim | (cases e <;> rfl)

theorem unknown_lily (name : Tok) (e : End) (ns : List Dom) (tl : List Tok) (rest : List Item) :
    isUnknown (.tok name :: endItem e :: .lily ns tl :: rest) = none := by
  cases e <;> rfl

theorem read_lt (fuel : ℕ) (nodes : List Dom) (lt name : Tok) (e : End) (rest : List Item) (h : ltWf lt name) (he : e.wf)
    (hu : isUnknown (.tok name :: endItem e :: rest) = none) :
    readTag (fuel + 1) nodes (.tok lt :: .tok name :: endItem e :: rest) = readTag fuel (nodes ++ [element [tagTree lt name e]]) rest := by
  obtain ⟨h1, h2, h3⟩ := h
  obtain ⟨h4, h5, h6, h7, h8⟩ := he
  rw [readTag.eq_def]
  simp only [h1, hu, slash_false _ h2]
  have hs : ∀ t : Tok, (slash t.text = true ∧ '/' ∈ t.text) ∨ (slash t.text = false ∧ ¬ '/' ∈ t.text) := by
    intro t
    by_cases h : '/' ∈ t.text
    · exact .inl ⟨(slash_iff _).mpr h, h⟩
    · exact .inr ⟨slash_false _ h, h⟩
  cases e with
  | plain gt =>
    simp only [End.gt] at h8
    rcases hs gt with hs | hs <;>
      simp [endItem, h8, tagTree, End.gt, End.as, element, factory, tagName, leaf, new, hs]
  | attrs as gt =>
    rcases hs gt with hs | hs <;>
      simp [endItem, tagTree, End.gt, End.as, element, factory, tagName, leaf, new, tagClass, hs]
  | options as gt =>
    simp only [End.gt] at h7
    cases rest with
    | nil => rcases hs gt with hs | hs <;> simp [endItem, tagTree, End.gt, End.as, element, factory, tagName, leaf, new, tagClass, hs]
    | cons r rest =>
      rcases hs gt with hs | hs <;> cases r <;>
        simp [endItem, tagTree, End.gt, End.as, element, factory, tagName, leaf, new, tagClass, hs, h7]

/-- Reading one piece of a document. -/
theorem read_d (d : D) (h : d.wf) (rest : List Item) (hc : Calm rest) (nodes : List Dom) :
    ∃ k, ∀ fuel, readTag (fuel + (dItems d).length) nodes (dItems d ++ rest) = readTag (fuel + k) (nodes ++ d.tree) rest := by
  cases d with
  | text t =>
    refine ⟨0, fun fuel => ?_⟩
    simp only [dItems, List.cons_append, List.nil_append, List.length_cons, List.length_nil]
    have h : t.action = .text := h
    rw [readTag.eq_def]
    simp [h, D.tree, leaf, factory]
  | entity t =>
    refine ⟨0, fun fuel => ?_⟩
    simp only [dItems, List.cons_append, List.nil_append, List.length_cons, List.length_nil]
    have h : t.action = .escape := h
    rw [readTag.eq_def]
    simp [h, D.tree, leaf, factory]
  | comment n ts =>
    refine ⟨0, fun fuel => ?_⟩
    simp only [dItems, List.cons_append, List.nil_append, List.length_cons, List.length_nil]
    rw [readTag.eq_def]
    simp [D.tree]
  | start lt name e =>
    refine ⟨2, fun fuel => ?_⟩
    simp only [dItems, List.cons_append, List.nil_append, List.length_cons, List.length_nil]
    exact read_lt (fuel + 2) nodes lt name e rest h.1 h.2 (unknown_start _ _ _ hc)
  | elem lt name e kids close =>
    refine ⟨2, fun fuel => ?_⟩
    simp only [dItems, List.cons_append, List.nil_append, List.length_cons, List.length_nil]
    refine (read_lt (fuel + 3) nodes lt name e _ h.1 h.2.1 (unknown_start _ _ _ (by trivial))).trans ?_
    rw [readTag, element, extendLast_append]
    simp [bind, Except.bind, D.tree, element]
  | region lt a b ts l =>
    refine ⟨3, fun fuel => ?_⟩
    simp only [dItems, List.cons_append, List.nil_append, List.length_cons, List.length_nil]
    have hu : isUnknown (.tok a :: .tok b :: .untransformed l :: rest) = some l := by rw [isUnknown]; exact if_pos h.2
    rw [readTag.eq_def]
    simp [h.1, hu, D.tree, factory]
  | regionAttrs lt name as gt ts l =>
    refine ⟨3, fun fuel => ?_⟩
    simp only [dItems, List.cons_append, List.nil_append, List.length_cons, List.length_nil]
    have hu : isUnknown (.tok name :: .attrs (as.map A.tree) [gt] :: .untransformed l :: rest) = some l := by
      rw [isUnknown]; exact if_pos h.1.2.2
    rw [readTag.eq_def]
    simp [h.1.1, hu, D.tree, factory]
  | lily lt name e ns =>
    refine ⟨2, fun fuel => ?_⟩
    simp only [dItems, List.cons_append, List.nil_append, List.length_cons, List.length_nil]
    refine (read_lt (fuel + 3) nodes lt name e _ h.1 h.2 (unknown_lily _ _ _ _ _)).trans ?_
    rw [readTag, element, extendLast_append]
    simp [bind, Except.bind, D.tree, element]
  | short lt name as colon ns gt =>
    refine ⟨3, fun fuel => ?_⟩
    obtain ⟨⟨h1, h2, h3⟩, h4, h5, h6⟩ := h
    simp only [dItems, List.cons_append, List.nil_append, List.length_cons, List.length_nil]
    rw [readTag.eq_def]
    simp [h1, isUnknown, slash_false _ h2, h6, D.tree, factory, element, leaf, new, tagName]

theorem read_ds (ds : List D) (h : ∀ d ∈ ds, d.wf) (rest : List Item) (hc : Calm rest) (nodes : List Dom) :
    ∃ k, ∀ fuel, readTag (fuel + (ds.flatMap dItems).length) nodes (ds.flatMap dItems ++ rest) =
      readTag (fuel + k) (nodes ++ D.tree.go ds) rest := by
  induction ds generalizing nodes with
  | nil => exact ⟨0, fun fuel => by simp [D.tree.go]⟩
  | cons d ds ih =>
    have hc' : Calm (ds.flatMap dItems ++ rest) := by
      cases ds with
      | nil => exact hc
      | cons d ds => rw [List.flatMap_cons, List.append_assoc]; exact calm_d _ _
    obtain ⟨k1, h1⟩ := read_d d (h d (List.mem_cons_self ..)) (ds.flatMap dItems ++ rest) hc' nodes
    obtain ⟨k2, h2⟩ := ih (fun d hd => h d (List.mem_cons_of_mem _ hd)) (nodes ++ d.tree)
    refine ⟨k1 + k2, fun fuel => ?_⟩
    rw [List.flatMap_cons, List.append_assoc, List.length_append, D.tree.go, ← List.append_assoc nodes,
      show fuel + ((dItems d).length + (ds.flatMap dItems).length) = (fuel + (ds.flatMap dItems).length) + (dItems d).length by omega, h1,
      show fuel + (ds.flatMap dItems).length + k1 = (fuel + k1) + (ds.flatMap dItems).length by omega, h2,
      Nat.add_assoc]

/-- The items of the closing tag. -/
def closeItems : Option (Tok × Tok × Tok) → List Item
  | none => []
  | some (a, b, c) => [.tok a, .tok b, .tok c]

theorem read_close (close : Option (Tok × Tok × Tok)) (h : closeWf close) (nodes : List Dom) (fuel : ℕ) :
    readTag (fuel + (closeItems close).length) nodes (closeItems close) = .ok (nodes ++ closeTree close) := by
  cases close with
  | none => cases fuel <;> simp [closeItems, closeTree, readTag]
  | some c =>
    obtain ⟨a, b, c⟩ := c
    obtain ⟨h1, h2⟩ := h
    simp only [closeItems, List.length_cons, List.length_nil]
    rw [readTag.eq_def]
    have : ∀ n, readTag (fuel + 2) n [] = .ok n := fun n => by rw [readTag]
    simp [h1, isUnknown, (slash_iff _).mpr h2, factory, closeTree, tagName, leaf, this]

theorem tag_ds (ds : List D) (h : ∀ d ∈ ds, d.wf) (close : Option (Tok × Tok × Tok)) (hc : closeWf close) :
    tag (ds.flatMap dItems ++ closeItems close) = .ok (D.tree.go ds ++ closeTree close) := by
  have calm : Calm (closeItems close) := by cases close <;> trivial
  obtain ⟨k, hk⟩ := read_ds ds h (closeItems close) calm []
  rw [tag, List.length_append, Nat.add_comm, hk, Nat.add_comm, read_close close hc]
  rfl

theorem wf_go (ds : List D) : D.wf.go ds ↔ ∀ d ∈ ds, d.wf := by
  induction ds with
  | nil => simp [D.wf.go]
  | cons d ds ih => simp [D.wf.go, ih]

theorem d_items : (d : D) → d.wf → item.go d.raw = .ok (dItems d)
  | .text t, _ => rfl
  | .entity t, _ => rfl
  | .comment n ts, _ => rfl
  | .start lt name e, h => by
    simp only [D.raw, item.go, item, end_item e h.2, bind, Except.bind, dItems]
  | .region lt a b ts l, _ => rfl
  | .regionAttrs lt name as gt ts l, h => by
    have := end_item (.attrs as gt) ⟨h.2.1, h.2.2⟩
    simp only [End.raw] at this
    simp only [D.raw, item.go, this, item.eq_1, bind, Except.bind, dItems]
    rfl
  | .lily lt name e ns, h => by
    simp only [D.raw, item.go, item, end_item e h.2, bind, Except.bind, dItems]
  | .short lt name as colon ns gt, h => by
    have : item (.options (attrsRaw as colon)) = .ok (.options (as.map A.tree) [colon]) := by
      rw [item, attrs_items as colon h.2.1]
      simp only [bind, Except.bind, readAttrs_as as colon h.2.1 h.2.2.1 (by rw [h.2.2.2]; decide), List.nil_append]
    simp only [D.raw, item.go, this, item.eq_1, bind, Except.bind, dItems]
    rfl
  | .elem lt name e kids close, h => by
    obtain ⟨h1, h2, h3, h4⟩ := h
    rw [wf_go] at h3
    have hk : item.go (D.raw.go kids) = .ok (kids.flatMap dItems) := by
      have : ∀ ks : List D, (∀ k ∈ ks, k ∈ kids) → item.go (D.raw.go ks) = .ok (ks.flatMap dItems) := by
        intro ks
        induction ks with
        | nil => intro _; rfl
        | cons k ks ih =>
          intro hm
          have hkm : k ∈ kids := hm k (List.mem_cons_self ..)
          exact go_append _ _ _ _ (d_items k (h3 k hkm)) (ih fun x hx => hm x (List.mem_cons_of_mem _ hx))
      exact this kids fun _ h => h
    have hcl : item.go (closeRaw close) = .ok (closeItems close) := by
      cases close with
      | none => rfl
      | some c => rfl
    have ht : item (.tag (D.raw.go kids ++ closeRaw close)) = .ok (.tag (D.tree.go kids ++ closeTree close)) := by
      rw [item, go_append _ _ _ _ hk hcl]
      simp only [bind, Except.bind, tag_ds kids h3 close h4]
    simp only [D.raw, item.go, ht, end_item e h2, item.eq_1, bind, Except.bind, dItems]
termination_by d => d
decreasing_by
  have := List.sizeOf_lt_of_mem hkm
  simp_wf
  omega

theorem ds_items (ds : List D) (h : ∀ d ∈ ds, d.wf) : item.go (D.raw.go ds) = .ok (ds.flatMap dItems) := by
  induction ds with
  | nil => rfl
  | cons d ds ih =>
    exact go_append _ _ _ _ (d_items d (h d (List.mem_cons_self ..))) (ih fun x hx => h x (List.mem_cons_of_mem _ hx))

/-- **C76**: reading an Html document gives its tree: an element for every tag, in which are the tag with its name and its attributes,
the contents and the closing tag; every node with its tokens. -/
theorem C76_read (ds : List D) (h : ∀ d ∈ ds, d.wf) : root (D.raw.go ds) = .ok (element (D.tree.go ds)) := by
  have := tag_ds ds h none trivial
  simp only [closeItems, closeTree, List.append_nil] at this
  rw [root, ds_items ds h]
  simp only [bind, Except.bind, this]
  rfl

end Quickly.Html
