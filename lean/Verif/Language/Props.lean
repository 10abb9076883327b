import Verif.Language.Lemmas

/-!
# C65: the language of pitch names
-/

namespace Quickly.Language

open Quickly.Pitch Quickly.Node Quickly.Node.Spec Quickly.Query Spec

/-- C65: `find_language(node)` sets the language of the last command before the node. Missing: documents with unknown
languages or `\include` without a name, where it raises, and nested commands. -/
theorem C65_find_partial (pn : Names) (t n : Node.Tree Nd) (l0 : Str) (p : Path) (hn : t.get? p = some n)
    (hv : Valid pn t) (hf : Flat t) (hp : ∀ m, NodeOf t m → Above m.1 p → m.2.val.cls = .other) (r : Py Str) :
    FindLanguage pn l0 t p n r ↔ ∃ l, r = .ok l ∧ At pn t l0 p l := by
  obtain ⟨out, hy, hu, hord, hmem⟩ := C61_operators env t n p hn .lt (.classes [.language, .incl]) (by simp)
  have hmem' : ∀ m, m ∈ out ↔ NodeOf t m ∧ (DocBefore m.1 p ∧ ¬ Above m.1 p) ∧ m.2.val.cls ≠ .other := by
    intro m
    rw [hmem]
    have : Selected env .lt (.classes [.language, .incl]) m.2.val ↔ m.2.val.cls ≠ .other := by
      simp only [Selected, Matches, env, if_neg (show ¬ Op.lt = .xor by decide)]
      rcases m.2.val with s | s | i <;> simp [Nd.cls]
    rw [this]; rfl
  have hchoose : ∀ m l, NodeOf t m → DocBefore m.1 p → Chooses pn m.2.val l → m ∈ out := by
    intro m l hm hb hc
    have hk : m.2.val.cls ≠ .other := by
      rcases hc.2.2 with h | h <;> rw [h] <;> simp [Nd.cls]
    exact (hmem' m).2 ⟨hm, ⟨hb, fun ha => hk (hp m hm ha)⟩, hk⟩
  have hall : ∀ x ∈ out, ∃ r, sets pn x.2.val = .ok r := fun x hx => sets_total pn t hv x ((hmem' x).1 hx).1
  have hex : ∃ l, findLoop pn l0 (out.map fun m => m.2.val) = .ok l := by
    clear hy hu hord hmem hmem' hchoose
    induction out with
    | nil => exact ⟨l0, rfl⟩
    | cons x xs ih =>
      obtain ⟨r, hr⟩ := hall x (by simp)
      rcases r with _ | l
      · simpa [findLoop, hr] using ih (fun y hy => hall y (by simp [hy]))
      · exact ⟨l, by simp [findLoop, hr]⟩
  have key : ∀ l, findLoop pn l0 (out.map fun m => m.2.val) = .ok l → At pn t l0 p l := by
    intro l hl
    rcases (findLoop_ok pn l0 l _).1 hl with ⟨a, v, b, hab, ha, hv'⟩ | ⟨hno, rfl⟩
    · obtain ⟨a', mb, rfl, ha', hmb⟩ := List.map_eq_append_iff.1 hab
      obtain ⟨m, b', rfl, hm, hb'⟩ := List.map_eq_cons_iff.1 hmb
      subst ha' hm
      have hm := (hmem' m).1 (by simp)
      refine .inl ⟨m, hm.1, hm.2.1.1, (sets_some pn _ l).1 hv', ?_⟩
      intro m' l' h1 h2 h3
      have hin := hchoose m' l' h1 h2 h3
      have hs := (sets_some pn _ l').2 h3
      rcases List.mem_append.1 hin with hin | hin
      · have := ha m'.2.val (List.mem_map.2 ⟨m', hin, rfl⟩)
        rw [hs] at this; simp at this
      · rcases List.mem_cons.1 hin with rfl | hin
        · exact .inl rfl
        · have hm' := (hmem' m').1 (by simp [hin])
          have ho := (List.pairwise_cons.1 (List.pairwise_append.1 hord).2.1).1 m' hin
          rcases ho with ho | ho
          · exact absurd (hf m m' hm.1 h1 ho hm.2.2) hm'.2.2
          · exact .inr (.inr ho)
    · refine .inr ⟨rfl, fun m l' h1 h2 h3 => ?_⟩
      have := hno m.2.val (List.mem_map.2 ⟨m, hchoose m l' h1 h2 h3, rfl⟩)
      rw [(sets_some pn _ l').2 h3] at this; simp at this
  constructor
  · rintro ⟨out', hy', rfl⟩
    rw [hu out' hy']
    obtain ⟨l, hl⟩ := hex
    exact ⟨l, hl, key l hl⟩
  · rintro ⟨l, rfl, ha⟩
    obtain ⟨l', hl'⟩ := hex
    exact ⟨out, hy, by rw [hl', at_unique pn t l0 p l' l (key l' hl') ha]⟩

/-- C65: a loop over `follow_language(root.descendants())` yields all nodes but the commands that select a
language, in document order, and while a node is handled the language is the one at that node. Missing: documents that are not `Valid`. -/
theorem C65_follow_partial (pn : Names) (t : Node.Tree Nd) (l0 : Str) (hv : Valid pn t) (nodes : List (Item Nd))
    (hr : Runs (descResume false) always true (descStart false ([], t)) [] nodes)
    (hroot : ∀ l, ¬ Chooses pn t.val l) :
    (follow pn l0 nodes).1.map Prod.fst = nodes.filter (fun n => decide (sets pn n.2.val = .ok none)) ∧
    (∀ m, m ∈ (follow pn l0 nodes).1.map Prod.fst ↔ m ∈ nodes ∧ ∀ l, ¬ Chooses pn m.2.val l) ∧
    ∀ m l, (m, l) ∈ (follow pn l0 nodes).1 → At pn t l0 m.1 l := by
  obtain ⟨hord, hmem⟩ := (C26_descendants false t t [] rfl).2 nodes hr
  have hall : ∀ x ∈ nodes, ∃ r, sets pn x.2.val = .ok r := fun x hx => sets_total pn t hv x ((hmem x).1 hx).1
  have hf := (follow_nodes pn l0 nodes hall).1
  refine ⟨hf, ?_, ?_⟩
  · intro m
    rw [hf, List.mem_filter]
    refine and_congr_right fun hm => ?_
    obtain ⟨r, hr⟩ := hall m hm
    simp only [← sets_some, hr]
    cases r <;> simp
  · intro m l hml
    obtain ⟨a, b, rfl, h1, rfl⟩ := (follow_mem pn l0 nodes hall m l).1 hml
    have hpm := List.pairwise_append.1 hord
    have hbefore : ∀ x l', NodeOf t x → DocBefore x.1 m.1 → Chooses pn x.2.val l' → x ∈ a := by
      intro x l' hx hd hc
      have hab : Above [] x.1 := by
        rcases hx1 : x.1 with _ | ⟨i, r⟩
        · exfalso
          have : t.get? x.1 = some x.2 := hx
          rw [hx1] at this
          have : t = x.2 := Option.some.inj this
          rw [← this] at hc
          exact hroot l' hc
        · exact ⟨i, r, rfl⟩
      have hin := (hmem x).2 ⟨hx, hab⟩
      rcases List.mem_append.1 hin with h | h
      · exact h
      · exfalso
        rcases List.mem_cons.1 h with rfl | h
        · exact docBefore_irrefl _ hd
        · have := (List.pairwise_cons.1 hpm.2.1).1 x h
          exact docBefore_irrefl _ (docBefore_trans hd this)
    have hina : ∀ x ∈ a, NodeOf t x ∧ DocBefore x.1 m.1 := fun x hx =>
      ⟨((hmem x).1 (by simp [hx])).1, hpm.2.2 x hx m (by simp)⟩
    rcases after_eq pn l0 a with ⟨a1, x, a2, l', rfl, hs, hno, he⟩ | ⟨hno, he⟩
    · rw [he]
      have hx := hina x (by simp)
      refine .inl ⟨x, hx.1, hx.2, (sets_some pn _ l').1 hs, ?_⟩
      intro m' l'' h2 h3 h4
      have hin := hbefore m' l'' h2 h3 h4
      rcases List.mem_append.1 hin with hin | hin
      · exact .inr ((List.pairwise_append.1 hpm.1).2.2 m' hin x (by simp))
      · rcases List.mem_cons.1 hin with rfl | hin
        · exact .inl rfl
        · exact absurd ((sets_some pn _ l'').2 h4) (hno m' hin l'')
    · rw [he]
      exact .inr ⟨rfl, fun x l' h2 h3 h4 => hno x (hbefore x l' h2 h3 h4) l' ((sets_some pn _ l').2 h4)⟩

/-- C65: both agree: starting anywhere in a document with `find_language` gives the language that is reached by
following the document from its beginning. -/
theorem C65_agree (pn : Names) (t : Node.Tree Nd) (l0 : Str) (hv : Valid pn t) (hf : Flat t) (nodes : List (Item Nd))
    (hr : Runs (descResume false) always true (descStart false ([], t)) [] nodes)
    (hroot : t.val.cls = .other) (m : Item Nd) (l : Str) (hm : (m, l) ∈ (follow pn l0 nodes).1)
    (hp : ∀ m', NodeOf t m' → Above m'.1 m.1 → m'.2.val.cls = .other) (r : Py Str) :
    FindLanguage pn l0 t m.1 m.2 r ↔ r = .ok l := by
  have hroot' : ∀ l, ¬ Chooses pn t.val l := by
    intro l hc
    rcases hc.2.2 with h | h <;> rw [h] at hroot <;> simp [Nd.cls] at hroot
  have h1 := C65_follow_partial pn t l0 hv nodes hr hroot'
  have hat := h1.2.2 m l hm
  obtain ⟨-, hmem⟩ := (C26_descendants false t t [] rfl).2 nodes hr
  have hnode : t.get? m.1 = some m.2 :=
    ((hmem m).1 ((h1.2.1 m).1 (List.mem_map.2 ⟨_, hm, rfl⟩)).1).1
  rw [C65_find_partial pn t m.2 l0 m.1 hnode hv hf hp]
  constructor
  · rintro ⟨l', rfl, h⟩; rw [at_unique pn t l0 m.1 l' l h hat]
  · rintro rfl; exact ⟨l, rfl, hat⟩

/-- C65 fails for a language that does not exist: the documentation says only valid languages are set, but
both raise KeyError. -/
theorem C65_unknown_raises (pn : Names) (cur l : Str) (hl : l ≠ []) (hk : pn.get l = none) (rest : List Nd)
    (q : Path) (restI : List (Item Nd)) :
    findLoop pn cur (.language (some l) :: rest) = .error .keyError ∧
    follow pn cur ((q, .node (.language (some l)) []) :: restI) = ([], .error .keyError) := by
  rcases l with _ | ⟨c, l⟩
  · exact absurd rfl hl
  · have hs : sets pn (.language (some (c :: l))) = .error .keyError := by simp [sets, Nd.lang, knows, hk]
    simp [findLoop, follow, Node.Tree.val, hs]

/-- C65 fails for an `\include` without a file name. -/
theorem C65_include_raises (pn : Names) (cur : Str) (rest : List Nd) :
    findLoop pn cur (.incl none :: rest) = .error .attributeError := rfl

/-! ### A concrete case -/

/-- `\language "english" { c \include "deutsch.ly" d }`. -/
def exDoc : Node.Tree Nd :=
  .node (.other 0) [.node (.language (some "english".toList)) [.node (.other 1) []],
    .node (.other 2) [.node (.other 3) [], .node (.incl (some "deutsch.ly".toList)) [.node (.other 4) []], .node (.other 5) []]]

def exNames : Names := [("english".toList, 0, []), ("deutsch".toList, 1, [])]

example : (follow exNames "nederlands".toList
    (runFor (descResume false) always 20 true (descStart false ([], exDoc)) [])).1.map (fun x => (x.1.1, String.ofList x.2)) =
    [([0, 0], "english"), ([1], "english"), ([1, 0], "english"), ([1, 1, 0], "deutsch"), ([1, 2], "deutsch")] := by
  decide +kernel

/-- Its nodes. -/
theorem exDoc_nodes (m : Item Nd) (h : NodeOf exDoc m) :
    (m.1, m.2.val) ∈ [([], Nd.other 0), ([0], .language (some "english".toList)), ([0, 0], .other 1), ([1], .other 2),
      ([1, 0], .other 3), ([1, 1], .incl (some "deutsch.ly".toList)), ([1, 1, 0], .other 4), ([1, 2], .other 5)] := by
  obtain ⟨p, n⟩ := m
  simp only [NodeOf, exDoc] at h
  rcases p with _ | ⟨_ | _ | i, p⟩
  · simp [Node.Tree.get?] at h; simp [← h, Node.Tree.val]
  · rcases p with _ | ⟨_ | i, p⟩
    · simp [Node.Tree.get?, Node.Tree.children] at h; simp [← h, Node.Tree.val]
    · rcases p with _ | ⟨i, p⟩
      · simp [Node.Tree.get?, Node.Tree.children] at h; simp [← h, Node.Tree.val]
      · simp [Node.Tree.get?, Node.Tree.children] at h
    · simp [Node.Tree.get?, Node.Tree.children] at h
  · rcases p with _ | ⟨_ | _ | _ | i, p⟩
    · simp [Node.Tree.get?, Node.Tree.children] at h; simp [← h, Node.Tree.val]
    · rcases p with _ | ⟨i, p⟩ <;> simp [Node.Tree.get?, Node.Tree.children] at h
      simp [← h, Node.Tree.val]
    · rcases p with _ | ⟨_ | i, p⟩
      · simp [Node.Tree.get?, Node.Tree.children] at h; simp [← h, Node.Tree.val]
      · rcases p with _ | ⟨i, p⟩ <;> simp [Node.Tree.get?, Node.Tree.children] at h
        simp [← h, Node.Tree.val]
      · simp [Node.Tree.get?, Node.Tree.children] at h
    · rcases p with _ | ⟨i, p⟩ <;> simp [Node.Tree.get?, Node.Tree.children] at h
      simp [← h, Node.Tree.val]
    · simp [Node.Tree.get?, Node.Tree.children] at h
  · simp [Node.Tree.get?, Node.Tree.children] at h

example : Valid exNames exDoc := by
  intro m hm
  have := exDoc_nodes m hm
  simp only [List.mem_cons, Prod.mk.injEq, List.not_mem_nil, or_false] at this
  rcases this with h | h | h | h | h | h | h | h <;> rw [h.2] <;> simp
  exact ⟨0, [], by decide +kernel⟩

example : Flat exDoc := by
  intro m m' hm hm' hab hc
  have h1 := exDoc_nodes m hm
  have h2 := exDoc_nodes m' hm'
  obtain ⟨i, r, he⟩ := hab
  simp only [List.mem_cons, Prod.mk.injEq, List.not_mem_nil, or_false] at h1 h2
  rcases h1 with h | h | h | h | h | h | h | h <;> rw [h.2] at hc <;> simp [Nd.cls] at hc <;>
    rcases h2 with k | k | k | k | k | k | k | k <;> rw [k.2] <;> simp [Nd.cls] <;> rw [h.1, k.1] at he <;> simp at he

end Quickly.Language
