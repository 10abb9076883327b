import Verif.Lily.Lemmas2

/-!
# C81: reading a LilyPond text

Every token of a text is in the Document that is read from it, once and in the same order.
-/

namespace Quickly.Lily

open Quickly.Read
open Quickly.Read.Spec
open Spec

variable {κ : Type}

/-- Whatever the text is, correct or not: no token is used twice. -/
theorem C81_no_token_twice (e : Env κ) (hf : Fair e) (rs : List Raw) (ho : OpenedL e rs) (d : Elem)
    (h : e.document rs = .ok d) (t : Tok) : (toks d).count t ≤ (rawToksL rs).count t := by
  obtain ⟨items, hi, h⟩ := bind_ok h
  obtain ⟨nodes, hn, h⟩ := bind_ok h
  injection h with h
  subst h
  have h1 := cnt_items e hf t rs items ho hi
  have h2 := cnt_createMusic e hf t items nodes hn
  have h3 := cnt_handleAssignments t nodes
  have h4 := cnt_mk t (.other "Document") [] [] (handleAssignments nodes)
  simp only [cnt, List.count_nil, Nat.zero_add, Nat.add_zero] at h4
  rw [h4]
  omega

/-- A correct text is read as it should: every block, list, chord, figure and so on becomes an element of
its class, with the delimiters as its head and tail, and the contents as its children.  (Partial: the
contents are correct music in the sense of C63.) -/
theorem C81_read_partial (P : Phrase → Prop) (K : Elem → Prop) (e : Env κ) (rs : List Raw) (d : Elem)
    (h : Document P K e rs d) : e.document rs = .ok d := by
  obtain ⟨is, nodes, out, h1, h2, h3, rfl⟩ := h
  have h4 := assigned_ok true _ out h3
  simp only [if_true] at h4
  unfold Env.document
  rw [reads_items P K e rs is h1]
  simp only [bind, Except.bind, createMusic_ok P K e is nodes h2, h4]

/-! ## Tokens -/

theorem toks_buildTree (e : Env κ) (hr : Regular e) (nodes : List Elem) (h : ∀ x ∈ nodes, Keeps e x) :
    toksL (e.buildTree nodes) = toksL nodes := by
  have := Build.main_content' e.build (fun n => toks (ofTree n))
    (fun n => ∀ p, toks (ofTree (e.build.conv p n)) = toks (ofTree n))
    (by
      rintro ⟨⟨c, hd, tl⟩, ks⟩ n hs hk
      have ht : tl = [] := hr.tail (c, hd, tl) hs
      subst ht
      have := hk (.node (c, hd, []) ks)
      simp [Build.Env.addArg, Node.Tree.val, Node.Tree.children, ofTree, ofTrees_map, toks, toksL_append, toksL,
        this])
    (by
      intro n hn p
      rw [hr.conv p n hn])
    (toTrees nodes)
    (by
      intro n hn p
      rw [toTrees_map] at hn
      obtain ⟨x, hx, rfl⟩ := List.mem_map.1 hn
      rw [h x hx p, ofTree_toTree]) [] (by simp)
  rw [toksL_flatMap, toksL_flatMap, Env.buildTree, ofTrees_map, List.flatMap_map]
  rw [toTrees_map, List.flatMap_map] at this
  rw [toTrees_map]
  simpa [Build.Env.buildTree] using this

theorem toks_nameParts (x : Elem) (h : Bare x) : toksL (nameParts x) = toks x := by
  obtain ⟨c, hd, tl, ks⟩ := x
  simp only [nameParts]
  by_cases hc : c = .other "List"
  · rw [if_pos hc]
    obtain ⟨rfl, rfl⟩ := h hc
    simp [toks]
  · rw [if_neg hc]; simp [toksL]

theorem toks_assigned (a : Bool) (nodes out : List Elem) (h : Assigned a nodes out) :
    toksL out = toksL nodes := by
  cases a with
  | false =>
    have h' : out = nodes := h
    rw [h']
  | true =>
    obtain ⟨es, h1, rfl, rfl⟩ := (h : ∃ es : List Entry, _)
    induction es with
    | nil => rfl
    | cons x es ih =>
      have ih' := ih (fun y hy => h1 y (by simp [hy]))
      have hx := h1 x (by simp)
      cases x with
      | other x => simp [Entry.elem, Entry.source, toksL, ih']
      | assign name cs eq cs' value =>
        simp [Entry.elem, Entry.source, toksL, ih', toksL_append, toks, toks_nameParts name hx.2.1]

theorem toks_sung (l : Bool) (nodes out : List Elem) (h : Sung l nodes out) : toksL out = toksL nodes := by
  cases l with
  | false =>
    have h' : out = nodes := h
    rw [h']
  | true =>
    obtain ⟨ss, -, -, rfl, rfl⟩ := (h : ∃ ss : List Syllable, _)
    induction ss with
    | nil => rfl
    | cons s ss ih =>
      cases s with
      | item x d => cases d <;> simp [Syllable.elem, Syllable.source, toksL, toks, ih]
      | dur d => simp [Syllable.elem, Syllable.source, toksL, toks, ih]
      | other x => simp [Syllable.elem, Syllable.source, toksL, ih]

theorem toks_common (K : Elem → Prop) (e : Env κ) (items : List Item) (nodes : List Elem)
    (h : Common K e items nodes) : toksL nodes = itemsToks items := by
  obtain ⟨cs, -, rfl, rfl, -⟩ := h
  induction cs with
  | nil => rfl
  | cons c cs ih =>
    cases c with
    | tok t c => simp [Com.node, Com.items, toksL, toks, ih, itemsToks, itemToks]
    | elem c x => simp [Com.node, Com.items, toksL, ih, itemsToks, itemToks]
    | markup m => simp [Com.node, Com.items, toksL, ih, itemsToks_append, markup_toks]

theorem itemsToks_toks (ts : List Tok) : itemsToks (ts.map .tok) = ts := by
  induction ts with
  | nil => rfl
  | cons t ts ih => simp [itemsToks, itemToks, ih]

theorem toks_fig (e : Env κ) (fs : List Fig) : toksL (fs.map (Fig.node e)) = itemsToks (fs.flatMap Fig.items) := by
  induction fs with
  | nil => rfl
  | cons f fs ih =>
    cases f with
    | step t alts =>
      have : toksL (alts.map (altNode e)) = alts := by
        clear ih
        induction alts with
        | nil => rfl
        | cons a alts ih => simp [toksL, altNode, toks, ih]
      simp [Fig.node, Fig.items, toksL, toks, ih, itemsToks, itemToks, itemsToks_append, itemsToks_toks, this]
    | elem c x => simp [Fig.node, Fig.items, toksL, ih, itemsToks, itemToks]
    | markup m => simp [Fig.node, Fig.items, toksL, ih, itemsToks_append, markup_toks]

theorem toks_inList (e : Env κ) (p : Part) : toks (p.inList e) = itemToks p.item := by
  cases p <;> simp [Part.inList, Part.item, toks, itemToks]

theorem toks_inLists (e : Env κ) (ps : List Part) :
    toksL (ps.map (Part.inList e)) = itemsToks (ps.map Part.item) := by
  induction ps with
  | nil => rfl
  | cons p ps ih => simp [toksL, itemsToks, ih, toks_inList]

theorem toks_pitch (e : Env κ) (ps : List Part) (nodes : List Elem) (h : List.Forall₂ (AfterPitch e) ps nodes) :
    toksL nodes = itemsToks (ps.map Part.item) := by
  induction h with
  | nil => rfl
  | cons h1 h2 ih => cases h1 <;> simp [toksL, toks, itemsToks, itemToks, Part.item, ih]

theorem toks_modifiers (ms : List Modifier) :
    toksL (ms.map Modifier.node) = itemsToks (ms.flatMap Modifier.items) := by
  induction ms with
  | nil => rfl
  | cons m ms ih =>
    cases m with
    | step t alt => cases alt <;> simp [Modifier.node, Modifier.items, toksL, toks, itemsToks, itemToks, ih]
    | _ => simp [Modifier.node, Modifier.items, toksL, toks, itemsToks, itemToks, ih]

theorem toks_markupItems (items : List Item) : itemsToks (markupItems items) = itemsToks items := by
  induction items with
  | nil => rfl
  | cons i items ih =>
    rw [markupItems, List.flatMap_cons, itemsToks_append, ← markupItems, ih]
    cases i <;> simp [itemsToks, itemToks]

theorem keptL_append (text : Tok → String) (a b : List Raw) : keptL text (a ++ b) = keptL text a ++ keptL text b := by
  induction a with
  | nil => rfl
  | cons r a ih => simp [keptL, ih]

theorem keptL_raws (text : Tok → String) (ts : List Tok) : keptL text (raws ts) = ts := by
  induction ts with
  | nil => rfl
  | cons t ts ih =>
    simp only [raws, List.map_cons] at ih ⊢
    simp [keptL, kept, ih]

theorem keptScore_cons (text : Tok → String) (r r' : Raw) (rs : List Raw) :
    keptScore text (r :: r' :: rs) = kept text r ++ keptScore text (r' :: rs) := by
  rw [keptScore]; intro t h1 h2; cases h2

theorem keptScore_closed (text : Tok → String) (rs : List Raw) (z : Tok) (hz : text z = "}") :
    keptScore text (rs ++ [.tok z]) = keptL text rs := by
  induction rs with
  | nil => simp [keptScore, hz, keptL]
  | cons r rs ih =>
    cases rs with
    | nil =>
      rw [List.cons_append, List.nil_append, keptScore_cons]
      simp [keptScore, hz, keptL]
    | cons r' rs => rw [List.cons_append, List.cons_append, keptScore_cons, ← List.cons_append, ih]; rfl

theorem keptScore_open (text : Tok → String) (rs : List Raw)
    (h : ∀ t, rs.getLast? = some (.tok t) → text t ≠ "}") : keptScore text rs = keptL text rs := by
  induction rs with
  | nil => rfl
  | cons r rs ih =>
    cases rs with
    | nil =>
      cases r with
      | tok t => simp [keptScore, h t rfl, keptL, kept]
      | ctx n rs => simp [keptScore, keptL]
      | given c x => simp [keptScore, keptL]
    | cons r' rs =>
      rw [keptScore_cons, ih (by intro t ht; exact h t (by rw [List.getLast?_cons_cons]; exact ht))]
      rfl

theorem kept_block {n : Name} {s c : String} {m a : Bool} (h : Block n s c m a) (text : Tok → String)
    (rs : List Raw) : kept text (.ctx n rs) = keptL text rs := by
  cases h <;> rfl

theorem kept_musicList {n : Name} {s c : String} {l : Bool} (h : MusicList n s c l) (text : Tok → String)
    (rs : List Raw) : kept text (.ctx n rs) = keptL text rs := by
  cases h with
  | seq _ hmem | sim _ _ hmem =>
    simp only [List.mem_cons, List.not_mem_nil, or_false] at hmem
    rcases hmem with rfl | rfl | rfl | rfl <;> rfl
  | _ => rfl

/-- A way to compare tokens: the same list, or the same tokens in any order. -/
structure Same (R : List Tok → List Tok → Prop) : Prop where
  refl : ∀ a, R a a
  trans : ∀ a b c, R a b → R b c → R a c
  append : ∀ a b c d, R a b → R c d → R (a ++ c) (b ++ d)

theorem Same.wrap {R : List Tok → List Tok → Prop} (hR : Same R) (a b c d : List Tok) (h : R b c) :
    R (a ++ b ++ d) (a ++ c ++ d) :=
  hR.append _ _ _ _ (hR.append _ _ _ _ (hR.refl a) h) (hR.refl d)

theorem readsL_last (P : Phrase → Prop) (K : Elem → Prop) (e : Env κ) (rs : List Raw) (is : List Item)
    (h : ReadsL P K e rs is) (t : Tok) (ht : rs.getLast? = some (.tok t)) : is.getLast? = some (.tok t) := by
  induction rs generalizing is with
  | nil => cases ht
  | cons r rs ih =>
    cases h with
    | cons _ i _ is h1 h2 =>
      cases rs with
      | nil =>
        cases h2
        simp only [List.getLast?_singleton, Option.some.injEq] at ht
        subst ht
        cases h1
        rfl
      | cons r' rs =>
        cases h2 with
        | cons _ i' _ is h2 h3 =>
          rw [List.getLast?_cons_cons] at ht ⊢
          exact ih _ (.cons _ _ _ _ h2 h3) ht

mutual

theorem reads_toks {R : List Tok → List Tok → Prop} (hR : Same R) (P : Phrase → Prop) (K : Elem → Prop)
    (e : Env κ) (hr : Regular e) (hK : ∀ x, K x → Keeps e x)
    (hm : ∀ items nodes, Music P K e.nargs items nodes → R (toksL nodes) (itemsToks items)) :
    ∀ (r : Raw) (i : Item), Reads P K e r i → R (itemToks i) (kept e.text r)
  | _, _, .tok t => by simpa [itemToks, kept] using hR.refl [t]
  | _, _, .given c x => by simpa [itemToks, kept] using hR.refl (toks x)
  | _, _, .block n cls music as a o rs is tail nodes out hb hrs hc ha hcl => by
    have h1 := reads_toksL hR P K e hr hK hm rs is hrs
    have h2 : R (toksL nodes) (itemsToks is) ∧ ∀ x ∈ nodes, K x := by
      cases music with
      | true =>
        have hc' : Music P K e.nargs is nodes := hc
        exact ⟨hm is nodes hc', hc'.choose_spec.2.2.2.2⟩
      | false =>
        have hc' : Common K e is nodes := hc
        exact ⟨by rw [toks_common K e is nodes hc']; exact hR.refl _, hc'.choose_spec.2.2.2⟩
    have h3 : toksL out = toksL nodes := by
      rw [toks_assigned as _ out ha, toks_buildTree e hr nodes (fun x hx => hK x (h2.2 x hx))]
    have h4 : kept e.text (.ctx n (.tok a :: .tok o :: rs ++ raws tail.toList)) =
        [a, o] ++ keptL e.text rs ++ tail.toList := by
      have : kept e.text (.ctx n (.tok a :: .tok o :: rs ++ raws tail.toList)) =
          keptL e.text (.tok a :: .tok o :: rs ++ raws tail.toList) := kept_block hb _ _
      rw [this, keptL_append, keptL_raws]
      rfl
    rw [h4, itemToks, toks, h3]
    exact hR.wrap _ _ _ _ (hR.trans _ _ _ h2.1 h1)
  | _, _, .score a o rs is tail nodes hrs hmu hlast htail => by
    have h1 := reads_toksL hR P K e hr hK hm rs is hrs
    have h2 := hm is nodes hmu
    have h3 := toks_buildTree e hr nodes (fun x hx => hK x (hmu.choose_spec.2.2.2.2 x hx))
    have h4 : kept e.text (.ctx .score (.tok a :: .tok o :: rs ++ raws tail.toList)) =
        [a, o] ++ keptL e.text rs := by
      cases tail with
      | some z =>
        rw [show kept e.text (.ctx .score (.tok a :: .tok o :: rs ++ raws (some z).toList)) =
          keptScore e.text ((.tok a :: .tok o :: rs) ++ [.tok z]) from rfl,
          keptScore_closed e.text _ z (htail z rfl)]
        rfl
      | none =>
        rw [show kept e.text (.ctx .score (.tok a :: .tok o :: rs ++ raws (none : Option Tok).toList)) =
          keptScore e.text (.tok a :: .tok o :: rs ++ []) from rfl, List.append_nil, keptScore_open]
        · rfl
        · intro t ht
          refine hlast t ?_
          have hc : ReadsL P K e (.tok a :: .tok o :: rs) (.tok a :: .tok o :: is) :=
            .cons _ _ _ _ (.tok a) (.cons _ _ _ _ (.tok o) hrs)
          exact readsL_last P K e _ _ hc t ht
    rw [h4, itemToks, toks, h3]
    simpa using hR.wrap [a, o] _ _ [] (hR.trans _ _ _ h2 h1)
  | _, _, .musiclist n cls lyrics o rs is tail nodes out hn hrs hmu hs hcl => by
    have h1 := reads_toksL hR P K e hr hK hm rs is hrs
    have h2 := hm is nodes hmu
    have h3 : toksL out = toksL nodes := by
      rw [toks_sung lyrics _ out hs,
        toks_buildTree e hr nodes (fun x hx => hK x (hmu.choose_spec.2.2.2.2 x hx))]
    have h4 : kept e.text (.ctx n (.tok o :: rs ++ raws tail.toList)) =
        [o] ++ keptL e.text rs ++ tail.toList := by
      have : kept e.text (.ctx n (.tok o :: rs ++ raws tail.toList)) =
          keptL e.text (.tok o :: rs ++ raws tail.toList) := kept_musicList hn _ _
      rw [this, keptL_append, keptL_raws]
      rfl
    rw [h4, itemToks, toks, h3]
    exact hR.wrap _ _ _ _ (hR.trans _ _ _ h2 h1)
  | _, _, .chord o rs is tail nodes hrs hmu hcl => by
    have h1 := reads_toksL hR P K e hr hK hm rs is hrs
    have h2 := hm is nodes hmu
    have h3 := toks_buildTree e hr nodes (fun x hx => hK x (hmu.choose_spec.2.2.2.2 x hx))
    rw [show kept e.text (.ctx .chord (.tok o :: rs ++ raws tail.toList)) =
      keptL e.text (.tok o :: rs ++ raws tail.toList) from rfl, keptL_append, keptL_raws]
    simp only [itemToks, toks, toksL, h3, List.nil_append, List.append_nil]
    exact hR.wrap [o] _ _ _ (hR.trans _ _ _ h2 h1)
  | _, _, .schemelily o rs is tail nodes hrs hmu hcl => by
    have h1 := reads_toksL hR P K e hr hK hm rs is hrs
    have h2 := hm is nodes hmu
    have h3 := toks_buildTree e hr nodes (fun x hx => hK x (hmu.choose_spec.2.2.2.2 x hx))
    rw [show kept e.text (.ctx .schemelily (.tok o :: rs ++ raws tail.toList)) =
      keptL e.text (.tok o :: rs ++ raws tail.toList) from rfl, keptL_append, keptL_raws]
    simp only [itemToks, toks, h3]
    exact hR.wrap [o] _ _ _ (hR.trans _ _ _ h2 h1)
  | _, _, .figure o rs is tail fs hrs hi hf ho hcl => by
    have h1 := reads_toksL hR P K e hr hK hm rs is hrs
    rw [show kept e.text (.ctx .figure (.tok o :: rs ++ raws tail.toList)) =
      keptL e.text (.tok o :: rs ++ raws tail.toList) from rfl, keptL_append, keptL_raws]
    simp only [itemToks, toks, toksL, toks_fig, ← hi, List.nil_append, List.append_nil]
    exact hR.wrap [o] _ _ _ h1
  | _, _, .figurebracket o rs is tail fs hrs hi hf ho hcl => by
    have h1 := reads_toksL hR P K e hr hK hm rs is hrs
    rw [show kept e.text (.ctx .figurebracket (.tok o :: rs ++ raws tail.toList)) =
      keptL e.text (.tok o :: rs ++ raws tail.toList) from rfl, keptL_append, keptL_raws]
    simp only [itemToks, toks, toks_fig, ← hi]
    exact hR.wrap [o] _ _ _ h1
  | _, _, .inline n rs is nodes hn hrs hc => by
    have h1 := reads_toksL hR P K e hr hK hm rs is hrs
    rw [itemToks, toks_common _ e is nodes hc]
    simp only [List.mem_cons, List.not_mem_nil, or_false] at hn
    rcases hn with rfl | rfl <;> exact h1
  | _, _, .mode n rs is nodes hn hrs hmu => by
    have h1 := reads_toksL hR P K e hr hK hm rs is hrs
    have h2 := hm is nodes hmu
    have h3 := toks_buildTree e hr nodes (fun x hx => hK x (hmu.choose_spec.2.2.2.2 x hx))
    rw [itemToks, h3]
    simp only [List.mem_cons, List.not_mem_nil, or_false] at hn
    rcases hn with rfl | rfl | rfl | rfl | rfl <;> exact hR.trans _ _ _ h2 h1
  | _, _, .fingering t ts ht => by
    rw [show kept e.text (.ctx .script (raws (t :: ts))) = keptL e.text (raws (t :: ts)) from rfl, keptL_raws]
    simpa [itemToks, toks, toksL] using hR.refl (t :: ts)
  | _, _, .articulation t ts ht => by
    rw [show kept e.text (.ctx .script (raws (t :: ts))) = keptL e.text (raws (t :: ts)) from rfl, keptL_raws]
    simpa [itemToks, toks, toksL] using hR.refl (t :: ts)
  | _, _, .pitch rs is ps nodes hrs hi hp => by
    have h1 := reads_toksL hR P K e hr hK hm rs is hrs
    rw [itemToks, toks_pitch e ps nodes hp, ← hi]
    exact h1
  | _, _, .duration rs dots scaling hrs hd hs => by
    have h1 := reads_toksL hR P K e hr hK hm rs _ hrs
    have : itemToks (.dur dots (scaling.map Prod.snd)) =
        itemsToks (dots.map .tok ++ scaling.toList.map fun p => .elem p.1 p.2) := by
      rw [itemsToks_append, itemsToks_toks]
      cases scaling <;> simp [itemToks, itemsToks, toksL]
    rw [this]
    exact h1
  | _, _, .scaling ts => by
    rw [show kept e.text (.ctx .durationScaling (raws ts)) = keptL e.text (raws ts) from rfl, keptL_raws]
    simpa [itemToks, toks, toksL] using hR.refl ts
  | _, _, .chordModifier rs is ms hrs hi hmo => by
    have h1 := reads_toksL hR P K e hr hK hm rs is hrs
    rw [itemToks, toks_modifiers, ← hi]
    exact h1
  | _, _, .single rs is p hrs hi => by
    have h1 := reads_toksL hR P K e hr hK hm rs is hrs
    rw [itemToks, toks_inList]
    rw [hi] at h1
    simpa [itemsToks, kept] using h1
  | _, _, .list rs is ps hrs hi hl => by
    have h1 := reads_toksL hR P K e hr hK hm rs is hrs
    rw [itemToks, toks, toks_inLists, ← hi]
    simpa [kept] using h1
  | _, _, .identifierRef o rs is ps hrs hi => by
    have h1 := reads_toksL hR P K e hr hK hm rs is hrs
    rw [itemToks, toks, toks_inLists, ← hi]
    simpa [kept, keptL] using hR.append [o] [o] _ _ (hR.refl _) h1
  | _, _, .markup rs is hrs => by
    have h1 := reads_toksL hR P K e hr hK hm rs is hrs
    rw [itemToks, toks_markupItems]
    exact h1
  | _, _, .markuplist o rs is tail args hrs hi ha hcl => by
    have h1 := reads_toksL hR P K e hr hK hm rs is hrs
    rw [show kept e.text (.ctx .markuplist (.tok o :: rs ++ raws tail.toList)) =
      keptL e.text (.tok o :: rs ++ raws tail.toList) from rfl, keptL_append, keptL_raws]
    simp only [itemToks, toks, mks_toks, ← hi]
    exact hR.wrap [o] _ _ _ h1
  | _, _, .string ts => by
    rw [show kept e.text (.ctx .string (raws ts)) = keptL e.text (raws ts) from rfl, keptL_raws]
    simpa [itemToks, toks, toksL] using hR.refl ts
  | _, _, .comment n ts hn => by
    simp only [List.mem_cons, List.not_mem_nil, or_false] at hn
    rw [show kept e.text (.ctx n (raws ts)) = keptL e.text (raws ts) by rcases hn with rfl | rfl <;> rfl,
      keptL_raws]
    simpa [itemToks, toks, toksL] using hR.refl ts

theorem reads_toksL {R : List Tok → List Tok → Prop} (hR : Same R) (P : Phrase → Prop) (K : Elem → Prop)
    (e : Env κ) (hr : Regular e) (hK : ∀ x, K x → Keeps e x)
    (hm : ∀ items nodes, Music P K e.nargs items nodes → R (toksL nodes) (itemsToks items)) :
    ∀ (rs : List Raw) (is : List Item), ReadsL P K e rs is → R (itemsToks is) (keptL e.text rs)
  | _, _, .nil => hR.refl []
  | _, _, .cons r i rs is h1 h2 => by
    rw [itemsToks, keptL]
    exact hR.append _ _ _ _ (reads_toks hR P K e hr hK hm r i h1) (reads_toksL hR P K e hr hK hm rs is h2)

end

theorem same_eq : Same (fun a b => a = b) :=
  ⟨fun _ => rfl, fun _ _ _ h1 h2 => h1.trans h2, fun _ _ _ _ h1 h2 => by rw [h1, h2]⟩

theorem same_count : Same (fun a b => ∀ t, a.count t = b.count t) :=
  ⟨fun _ _ => rfl, fun _ _ _ h1 h2 t => (h1 t).trans (h2 t), fun _ _ _ _ h1 h2 t => by
    rw [List.count_append, List.count_append, h1, h2]⟩

theorem document_toks {R : List Tok → List Tok → Prop} (hR : Same R) (P : Phrase → Prop) (e : Env κ)
    (hr : Regular e)
    (hm : ∀ items nodes, Music P (Keeps e) e.nargs items nodes → R (toksL nodes) (itemsToks items))
    (rs : List Raw) (d : Elem) (h : Document P (Keeps e) e rs d) : R (toks d) (keptL e.text rs) := by
  obtain ⟨is, nodes, out, h1, h2, h3, rfl⟩ := h
  have h4 := reads_toksL hR P (Keeps e) e hr (fun _ h => h) hm rs is h1
  have h5 := hm is nodes h2
  simp only [toks, List.nil_append, List.append_nil]
  rw [toks_assigned true _ out h3, toks_buildTree e hr nodes h2.choose_spec.2.2.2.2]
  exact hR.trans _ _ _ h5 h4

/-- A correct text is read without losing a token or using one twice, except for the brace that ends a
`\score` block. -/
theorem C81_nothing_lost_partial (e : Env κ) (hr : Regular e) (rs : List Raw) (d : Elem)
    (h : Document (fun _ => True) (Keeps e) e rs d) (t : Tok) :
    (toks d).count t = (keptL e.text rs).count t := by
  refine document_toks same_count _ e hr ?_ rs d h t
  rintro items nodes ⟨ps, h1, -, rfl, rfl, -⟩ t
  exact C63_nothing_lost_partial e.nargs ps {} h1 t

/-- If there is no comment between a note and its duration, the tokens are in the same order. -/
theorem C81_order_partial (e : Env κ) (hr : Regular e) (rs : List Raw) (d : Elem)
    (h : Document Phrase.Plain (Keeps e) e rs d) : toks d = keptL e.text rs := by
  refine document_toks same_eq _ e hr ?_ rs d h
  rintro items nodes ⟨ps, h1, h2, rfl, rfl, -⟩
  exact C63_order_partial e.nargs ps {} h1 h2

/-! ## What is lost

The following are defects of the code: tokens that are in the text but not in the tree. -/

/-- The brace that ends a `\score` block is not in the tree, for all correct contents. -/
theorem C81_score_brace_lost_partial (P : Phrase → Prop) (K : Elem → Prop) (e : Env κ) (a o z : Tok)
    (rs : List Raw) (is : List Item) (nodes : List Elem) (h1 : ReadsL P K e rs is)
    (h2 : Music P K e.nargs is nodes)
    (h3 : ∀ t, (Item.tok a :: .tok o :: is).getLast? = some (.tok t) → e.text t ≠ "}") (hz : e.text z = "}") :
    e.item (.ctx .score (.tok a :: .tok o :: rs ++ [.tok z]))
      = .ok (.elem .other (.mk (.other "Score") [a, o] [] (e.buildTree nodes))) :=
  reads_item P K e _ _ (.score a o rs is (some z) nodes h1 h2 h3 (by rintro _ ⟨⟩; exact hz))

/-- A comment in a figure takes the accidentals and alterations after it as its own children. -/
theorem C81_figure_comment (e : Env κ) (o s a z : Tok) (c : Ctx) (k : Cls) (h t : List Tok) (ks : List Elem)
    (ho : e.act o = .other) (hs : e.act s = .figure) (hs' : e.text s ≠ "_") (ha : e.act a = .alteration)
    (hz : e.text z = ">") :
    e.item (.ctx .figure [.tok o, .tok s, .given c (.mk k h t ks), .tok a, .tok z])
      = .ok (.elem .music (.mk (.other "Figure") [] [] [.mk (.other "FigureBody") [o] [z]
          [.mk (.other "FigureStep") [s] [] [],
            .mk k h t (ks ++ [.mk (.other "FigureAlteration") [a] [] []])]])) := by
  simp [Env.item, Env.items, Env.method, Env.delimited, Env.popTail, hz, bind, Except.bind, origin,
    Read.tokOf, Env.figures, ho, hs, ha, hs', Read.make, Read.Elem.append]

/-- A comment in the dots of a duration is lost. -/
theorem C81_duration_comment_lost (e : Env κ) (d d' : Tok) (x : Elem) (hd : e.text d = ".")
    (hd' : e.text d' = ".") (hx : x.cls = .comment) :
    e.item (.ctx .duration [.tok d, .given .comment x, .tok d']) = .ok (.dur [d, d'] none) := by
  simp [Env.item, Env.items, Env.method, Env.durationParts, hd, hd', hx, bind, Except.bind]

/-! ## An example

    \header { title = "a" }
    \score { { c4 } }
-/

def exText (t : Tok) : String :=
  match t.id with
  | 1 => "\\header" | 2 => "{" | 3 => "title" | 4 => "=" | 5 => "\"a\"" | 6 => "}"
  | 7 => "\\score" | 8 => "{" | 9 => "{" | 10 => "c" | 11 => "4" | 12 => "}" | _ => "}"

def exEnv : Env Cls where
  text := exText
  act := fun t => if t.id = 4 then .assignment else .other
  nargs := fun _ => 1
  build :=
    { isa := fun a c => a.1 = c
      sigs := fun a => if a.1 = .other "Relative" ∧ a.2.2 = [] then [[.other "MusicList"]] else []
      gen := fun _ => false
      ignored := fun a => a.1 = .comment
      conv := fun _ n => n }

def tk (i : ℕ) (k : Kind := .unknown) : Tok := ⟨i, k, none⟩

def exText1 : List Raw :=
  [.ctx .header [.tok (tk 1), .tok (tk 2), .ctx .list [.tok (tk 3)], .tok (tk 4), .ctx .string [.tok (tk 5)],
    .tok (tk 6)],
   .ctx .score [.tok (tk 7), .tok (tk 8), .ctx .musiclist [.tok (tk 9), .tok (tk 10 .pitch),
    .tok (tk 11 .duration), .tok (tk 12)], .tok (tk 13)]]

def exMusicList : Elem :=
  .mk (.other "MusicList") [tk 9] [tk 12] [.mk .note [tk 10 .pitch] [] [.mk .duration [tk 11 .duration] [] []]]

def exHeader : Elem :=
  .mk (.other "Header") [tk 1, tk 2] [tk 6]
    [.mk (.other "Assignment") [] [] [.mk (.other "Identifier") [] [] [.mk .symbol [tk 3] [] []],
      .mk (.other "EqualSign") [tk 4] [] [], .mk (.other "String") [tk 5] [] []]]

def exDocument : Elem :=
  .mk (.other "Document") [] [] [exHeader, .mk (.other "Score") [tk 7, tk 8] [] [exMusicList]]

theorem exRegular : Regular exEnv where
  tail := by
    intro a h
    by_contra hne
    simp [Build.Env.asks, exEnv, hne] at h
  conv := by intro p n _; rfl

theorem exKeeps (x : Elem) : Keeps exEnv x := by intro p; simp [exEnv, ofTree_toTree]

theorem exBuild (nodes : List Elem) (h : ∀ x ∈ nodes, x.cls ≠ .other "Relative") :
    exEnv.buildTree nodes = nodes := by
  have : ∀ ns : List Elem, (∀ x ∈ ns, x.cls ≠ .other "Relative") →
      exEnv.build.main [] (toTrees ns) = toTrees ns := by
    intro ns
    induction ns with
    | nil => intro _; simp [toTrees, Build.Env.main, Build.Env.finish]
    | cons x ns ih =>
      intro hx
      obtain ⟨c, hd, tl, ks⟩ := x
      have hc : c ≠ .other "Relative" := hx (.mk c hd tl ks) (by simp)
      have := ih (fun y hy => hx y (by simp [hy]))
      simp [toTrees, toTree, Build.Env.main, Build.Env.step, Build.Env.asks, exEnv, Node.Tree.val, hc, Build.Env.addLoop] at this ⊢
      exact this
  rw [Env.buildTree, Build.Env.buildTree, this nodes h, toTrees_map, ofTrees_map, List.map_map]
  simp [Function.comp_def, ofTree_toTree]

theorem exDocument_correct : Document Phrase.Plain (Keeps exEnv) exEnv exText1 exDocument := by
  refine ⟨[.elem .other exHeader, .elem .other (.mk (.other "Score") [tk 7, tk 8] [] [exMusicList])],
    [exHeader, .mk (.other "Score") [tk 7, tk 8] [] [exMusicList]],
    [exHeader, .mk (.other "Score") [tk 7, tk 8] [] [exMusicList]], ?_, ?_, ?_, rfl⟩
  · refine .cons _ _ _ _ ?_ (.cons _ _ _ _ ?_ .nil)
    · refine .block .header "Header" false true (tk 1) (tk 2)
        [.ctx .list [.tok (tk 3)], .tok (tk 4), .ctx .string [.tok (tk 5)]]
        [.elem .string (.mk .symbol [tk 3] [] []), .tok (tk 4), .elem .string (.mk (.other "String") [tk 5] [] [])]
        (some (tk 6))
        [.mk .symbol [tk 3] [] [], .mk (.other "EqualSign") [tk 4] [] [], .mk (.other "String") [tk 5] [] []] _
        (.header _) ?_ ?_ ?_ (by simp [Closed, exEnv, exText, tk])
      · exact .cons _ _ _ _ (.single [.tok (tk 3)] _ (.tok (tk 3)) (.cons _ _ _ _ (.tok _) .nil) rfl)
          (.cons _ _ _ _ (.tok _) (.cons _ _ _ _ (.string [tk 5]) .nil))
      · refine ⟨[.elem .string _, .tok (tk 4) (.other "EqualSign"), .elem .string _], ?_, rfl, rfl,
          fun x _ => exKeeps x⟩
        intro c hc
        simp only [List.mem_cons, List.not_mem_nil, or_false] at hc
        rcases hc with rfl | rfl | rfl
        · trivial
        · exact TokenClass.equal _
        · trivial
      · rw [exBuild _ (by simp [Read.Elem.cls])]
        refine ⟨[.assign (.mk .symbol [tk 3] [] []) [] (.mk (.other "EqualSign") [tk 4] [] []) []
          (.mk (.other "String") [tk 5] [] [])], ?_, rfl, rfl⟩
        simp [Entry.Ok, NameClass, EqualClass, Bare, Read.Elem.cls]
    · have h := Reads.score (P := Phrase.Plain) (K := Keeps exEnv) (e := exEnv) (tk 7) (tk 8)
        [.ctx .musiclist [.tok (tk 9), .tok (tk 10 .pitch), .tok (tk 11 .duration), .tok (tk 12)]]
        [.elem .other exMusicList] (some (tk 13)) [exMusicList] ?_ ?_ (by simp) (by rintro _ ⟨⟩; rfl)
      · rw [exBuild _ (by simp [Read.Elem.cls, exMusicList])] at h
        exact h
      · refine .cons _ _ _ _ ?_ .nil
        refine .musiclist .musiclist "MusicList" false (tk 9) [.tok (tk 10 .pitch), .tok (tk 11 .duration)]
          [.tok (tk 10 .pitch), .tok (tk 11 .duration)] (some (tk 12))
          [.mk .note [tk 10 .pitch] [] [.mk .duration [tk 11 .duration] [] []]] _ (.seq _ (by simp))
          (.cons _ _ _ _ (.tok _) (.cons _ _ _ _ (.tok _) .nil)) ?_ ?_ (by simp [Closed, exEnv, exText, tk])
        · refine ⟨[.sound { start := some (.tok (tk 10 .pitch)), dur := some { tok := tk 11 .duration } }],
            ⟨⟨?_, by simp⟩, trivial⟩, by simp [Phrase.Plain], rfl, rfl, fun x _ => exKeeps x⟩
          constructor <;> simp [Start.Ok, AllComments, tk]
        · rw [exBuild _ (by simp [Read.Elem.cls])]
          rfl
      · exact ⟨[.elem .other exMusicList], ⟨Or.inl rfl, trivial⟩, by simp [Phrase.Plain], rfl, rfl,
          fun x _ => exKeeps x⟩
  · exact ⟨[.elem .other _, .elem .other _], ⟨Or.inl rfl, Or.inl rfl, trivial⟩, by simp [Phrase.Plain], rfl, rfl,
      fun x _ => exKeeps x⟩
  · rw [exBuild _ (by simp [Read.Elem.cls, exHeader])]
    refine ⟨[.other exHeader, .other _], ?_, rfl, rfl⟩
    simp [Entry.Ok, NameClass, Read.Elem.cls, exHeader]

example : exEnv.document exText1 = .ok exDocument := C81_read_partial _ _ exEnv exText1 _ exDocument_correct

/-- All tokens but the last one, the brace that ends the score. -/
example : (toks exDocument).map (·.id) = [1, 2, 3, 4, 5, 6, 7, 8, 9, 10, 11, 12] := by
  rw [C81_order_partial exEnv exRegular exText1 _ exDocument_correct]
  decide

example (t : Tok) : (toks exDocument).count t ≤ (rawToksL exText1).count t := by
  refine C81_no_token_twice exEnv (fun p n t => Nat.le_refl _) exText1 ?_ _
    (C81_read_partial _ _ exEnv exText1 _ exDocument_correct) t
  simp [exText1, OpenedL, Opened, closers]

end Quickly.Lily
