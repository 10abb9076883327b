import Verif.Lily.Lemmas

/-! # Lemmas about reading correct LilyPond -/

namespace Quickly.Lily

open Quickly.Read
open Quickly.Read.Spec
open Spec

variable {κ : Type}

/-! ## Assignments -/

theorem groupNode_comment (x : Elem) (h : x.cls = .comment) : groupNode x = .comment x := by
  unfold groupNode; rw [h]

theorem groupNode_equal (x : Elem) (h : EqualClass x.cls) : groupNode x = .equalSign x := by
  unfold groupNode; rcases h with h | h <;> (rw [h]; try rfl)

theorem groupNode_name (x : Elem) (h : NameClass x.cls) : Group.Spec.Named (groupNode x) := by
  unfold groupNode
  rcases h with h | h | h | h <;> rw [h]
  · exact .inl ⟨_, rfl⟩
  · exact .inr (.inl ⟨_, rfl⟩)
  · exact .inr (.inl ⟨_, rfl⟩)
  · exact .inr (.inr ⟨_, rfl⟩)

theorem groupNode_other (x : Elem) (h : ¬ NameClass x.cls) :
    ¬ Group.Spec.Named (groupNode x) ∧ ungroup (groupNode x) = x := by
  simp only [NameClass, not_or] at h
  unfold groupNode
  split <;> simp_all [Group.Spec.Named, ungroup]

theorem ungroup_groupNode (x : Elem) (h : Bare x) : ungroup (groupNode x) = x := by
  obtain ⟨c, hd, tl, ks⟩ := x
  unfold groupNode
  split
  · rename_i hc
    simp only [Elem.cls] at hc
    obtain ⟨rfl, rfl⟩ := h hc
    rw [hc]; rfl
  all_goals rfl

theorem groupNode_noComment (x : Elem) (h : x.cls ≠ .comment) : Group.Spec.NoComment (groupNode x) := by
  unfold groupNode
  intro i
  split <;> simp_all

theorem ungroup_comments (cs : List Elem) (h : ∀ c ∈ cs, c.cls = .comment) :
    cs.map groupNode = cs.map .comment := by
  apply List.map_congr_left
  intro c hc
  exact groupNode_comment c (h c hc)

theorem map_ungroup_comment (cs : List Elem) : (cs.map Group.Node.comment).map ungroup = cs := by
  rw [List.map_map]
  have : (ungroup ∘ Group.Node.comment) = id := by funext x; rfl
  rw [this, List.map_id]

theorem outElem_make (name : Elem) (hn : NameClass name.cls) (rest : List (Group.Node Elem)) :
    outElem (Group.Spec.makeAssignment (groupNode name) rest) =
      .mk (.other "Assignment") [] []
        (.mk (.other "Identifier") [] [] (nameParts name) :: rest.map ungroup) := by
  obtain ⟨c, hd, tl, ks⟩ := name
  simp only [Elem.cls] at hn
  unfold groupNode
  rcases hn with rfl | rfl | rfl | rfl <;>
    simp [Elem.cls, Group.Spec.makeAssignment, outElem, assignment, nameParts, ungroup, Elem.kids]

theorem handle_entries (es : List Entry) (h : ∀ x ∈ es, x.Ok) :
    handleAssignments (es.flatMap Entry.source) = es.map Entry.elem := by
  induction es with
  | nil => rfl
  | cons x es ih =>
    have ih' := ih (fun y hy => h y (by simp [hy]))
    have hx := h x (by simp)
    cases x with
    | other x =>
      obtain ⟨h1, h2⟩ := groupNode_other x hx
      simp only [handleAssignments, List.flatMap_cons, Entry.source, List.map_append, List.map_cons,
        List.map_nil, List.cons_append, List.nil_append] at ih' ⊢
      rw [Group.C55_other _ _ h1, List.map_cons, ih']
      simp [outElem, h2, Entry.elem]
    | assign name cs eq cs' value =>
      obtain ⟨h1, h2, h3, h4, h5, h6, h7⟩ := hx
      simp only [handleAssignments] at ih' ⊢
      have hsrc : (((Entry.assign name cs eq cs' value :: es).flatMap Entry.source).map groupNode) =
          groupNode name :: cs.map .comment ++ .equalSign eq :: cs'.map .comment ++
            groupNode value :: (es.flatMap Entry.source).map groupNode := by
        simp [Entry.source, ungroup_comments cs h3, ungroup_comments cs' h5, groupNode_equal eq h4]
      have hcom : ∀ l : List Elem, Group.Spec.Comments (l.map Group.Node.comment) := by
        intro l n hn
        obtain ⟨y, -, rfl⟩ := List.mem_map.1 hn
        exact ⟨y, rfl⟩
      rw [hsrc, Group.C55_assignment _ _ _ _ _ _ (groupNode_name name h1) (hcom cs) (hcom cs')
        (groupNode_noComment value h6), List.map_cons, ih', outElem_make name h1]
      simp only [List.map_cons, List.map_append, List.map_nil, ungroup_groupNode value h7, Entry.elem,
        map_ungroup_comment]
      simp [ungroup]

theorem assigned_ok (a : Bool) (nodes out : List Elem) (h : Assigned a nodes out) :
    (if a then handleAssignments nodes else nodes) = out := by
  cases a with
  | false => simp only [Assigned, Bool.false_eq_true, if_false] at h ⊢; exact h.symm
  | true =>
    simp only [Assigned, if_true] at h ⊢
    obtain ⟨es, h1, rfl, rfl⟩ := h
    exact handle_entries es h1

/-! ## Lyrics -/

theorem lyricNode_lyric (x : Elem) (h : LyricClass x.cls) : lyricNode x = .lyric x := by
  unfold lyricNode
  rcases h with h | h | h | h | h <;> (rw [h]; try rfl)

theorem lyricNode_other (x : Elem) (h : x.cls ≠ .unpitched) (h' : ¬ LyricClass x.cls) :
    lyricNode x = .other x := by
  simp only [LyricClass, not_or] at h'
  unfold lyricNode
  split <;> simp_all

theorem lyricNode_unpitched (d : List Elem) : lyricNode (.mk .unpitched [] [] d) = .unpitched d := rfl

theorem loop_syllables (ss : List Syllable) (h : ∀ x ∈ ss, x.Ok) (hc : ss.IsChain Apart) :
    (Group.lyricsLoop none ((ss.flatMap Syllable.source).map lyricNode)).map lyricElem =
        ss.map Syllable.elem ∧
    ∀ x, (∀ d, ss.head? ≠ some (.dur d)) →
      (Group.lyricsLoop (some [x]) ((ss.flatMap Syllable.source).map lyricNode)).map lyricElem =
        .mk (.other "LyricItem") [] [] [x] :: ss.map Syllable.elem := by
  induction ss with
  | nil => simp [Group.lyricsLoop, lyricElem]
  | cons s ss ih =>
    obtain ⟨i1, i2⟩ := ih (fun y hy => h y (by simp [hy])) hc.tail
    have hs := h s (by simp)
    have hsong : ∀ x, s = .item x none → ∀ d, ss.head? ≠ some (.dur d) := by
      rintro x rfl d hd
      cases ss with
      | nil => cases hd
      | cons y ss =>
        rw [List.head?_cons, Option.some.injEq] at hd
        subst hd
        have := hc.rel
        exact this
    cases s with
    | item x d =>
      have hx : LyricClass x.cls := hs
      cases d with
      | none =>
        have i3 := i2 x (hsong x rfl)
        simp [Syllable.source, lyricNode_lyric x hx, Group.lyricsLoop, lyricElem, Syllable.elem, i3]
      | some d =>
        simp [Syllable.source, lyricNode_lyric x hx, Group.lyricsLoop, lyricElem, Syllable.elem, i1,
          lyricNode_unpitched]
    | dur d =>
      simp [Syllable.source, Group.lyricsLoop, lyricElem, Syllable.elem, i1, lyricNode_unpitched]
    | other x =>
      simp [Syllable.source, lyricNode_other x hs.1 hs.2, Group.lyricsLoop, lyricElem, Syllable.elem, i1]

theorem sung_ok (l : Bool) (nodes out : List Elem) (h : Sung l nodes out) :
    (if l then postprocessLyrics nodes else nodes) = out := by
  cases l with
  | false => simp only [Sung, Bool.false_eq_true, if_false] at h ⊢; exact h.symm
  | true =>
    simp only [Sung, if_true] at h ⊢
    obtain ⟨ss, h1, h2, rfl, rfl⟩ := h
    exact (loop_syllables ss h1 h2).1

/-! ## Helpers -/

theorem popTail_closed (e : Env κ) (cl : List String) (before : List Item) (tail : Option Tok)
    (hb : before ≠ []) (h : Closed e.text cl before tail) :
    e.popTail cl (before ++ tail.toList.map .tok) = .ok (before, tail.toList) := by
  cases tail with
  | some z =>
    have hz : e.text z ∈ cl := h
    simp [Env.popTail, hz]
  | none =>
    have hn : ∀ t, before.getLast? = some (.tok t) → e.text t ∉ cl := h
    simp only [Option.toList_none, List.map_nil, List.append_nil, Env.popTail]
    rcases hl : before.getLast? with _ | i
    · exact absurd (List.getLast?_eq_none_iff.1 hl) hb
    · cases i with
      | tok t => simp [hn t hl]
      | _ => rfl

theorem createMusic_ok (P : Phrase → Prop) (K : Elem → Prop) (e : Env κ) (items : List Item) (nodes : List Elem)
    (h : Music P K e.nargs items nodes) : e.createMusic items = .ok (e.buildTree nodes) := by
  obtain ⟨ps, h1, -, rfl, rfl, -⟩ := h
  rw [Env.createMusic, C63_correct_partial e.nargs ps h1]
  rfl

theorem actionClass_ok (e : Env κ) (t : Tok) (c : Cls) (h : TokenClass (e.act t) (e.text t) c) :
    e.actionClass t = some c := by
  unfold Env.actionClass
  generalize e.act t = a at h
  generalize e.text t = s at h
  cases h <;> first | rfl | decide

theorem common_ok (e : Env κ) (cs : List Com) (h : ∀ c ∈ cs, c.Ok e) (n : ℕ)
    (hn : (cs.flatMap Com.items).length ≤ n) : e.common n (cs.flatMap Com.items) = cs.map Com.node := by
  induction cs generalizing n with
  | nil => cases n <;> rfl
  | cons c cs ih =>
    have ih' := ih (fun x hx => h x (by simp [hx]))
    have hc := h c (by simp)
    cases c with
    | tok t c =>
      obtain ⟨n, rfl⟩ : ∃ m, n = m + 1 := ⟨n - 1, by simp [Com.items] at hn; omega⟩
      have := ih' n (by simp [Com.items] at hn ⊢; omega)
      simp [Com.items, Env.common, actionClass_ok e t c hc, this, Com.node, make]
    | elem c x =>
      obtain ⟨n, rfl⟩ : ∃ m, n = m + 1 := ⟨n - 1, by simp [Com.items] at hn; omega⟩
      have := ih' n (by simp [Com.items] at hn ⊢; omega)
      simp [Com.items, Env.common, this, Com.node]
    | markup m =>
      obtain ⟨n, rfl⟩ : ∃ m, n = m + 1 := ⟨n - 1, by simp [Com.items, Markup.items] at hn; omega⟩
      have := ih' n (by simp [Com.items, Markup.items] at hn ⊢; omega)
      have hm := createMarkup_ok e.nargs m (cs.flatMap Com.items) hc.1
      simp only [List.flatMap_cons, Com.items, Markup.items, List.cons_append, Env.common, hm,
        Option.toList_some, this, List.map_cons, Com.node, List.nil_append]

theorem common_ok' (K : Elem → Prop) (e : Env κ) (items : List Item) (nodes : List Elem)
    (h : Common K e items nodes) : e.common items.length items = nodes := by
  obtain ⟨cs, h1, rfl, rfl, -⟩ := h
  exact common_ok e cs h1 _ (Nat.le_refl _)

theorem blockNodes_ok (P : Phrase → Prop) (K : Elem → Prop) (e : Env κ) (m : Bool) (items : List Item)
    (nodes : List Elem) (h : Contents P K e m items nodes) :
    e.blockNodes m items = .ok (e.buildTree nodes) := by
  cases m with
  | true => exact createMusic_ok P K e items nodes h
  | false =>
    have h' : Common K e items nodes := h
    simp only [Env.blockNodes, Bool.false_eq_true, if_false, common_ok' K e items nodes h']

theorem figures_alts (e : Env κ) (alts : List Tok)
    (h : ∀ a ∈ alts, e.act a = .accidental ∨ e.act a = .alteration) (n : ℕ) (x : Elem) (rest : List Item) :
    e.figures (alts.length + n) (some x) (alts.map .tok ++ rest) =
      e.figures n (some (x.extend (alts.map (altNode e)))) rest := by
  induction alts generalizing x with
  | nil => simp [extend_nil]
  | cons a alts ih =>
    have ih' := ih (fun b hb => h b (by simp [hb]))
    have hlen : (a :: alts).length + n = (alts.length + n) + 1 := by simp; omega
    rw [hlen]
    simp only [List.map_cons, List.cons_append, Env.figures]
    rcases h a (by simp) with ha | ha <;> rw [ha]
    · simp only [Option.map_some]
      rw [ih', append_eq_extend, extend_extend]
      simp [altNode, ha, make]
    · simp only [Option.map_some]
      rw [ih', append_eq_extend, extend_extend]
      simp [altNode, ha, make]

theorem figures_ok (e : Env κ) (fs : List Fig) (h : ∀ f ∈ fs, f.Ok e) (n : ℕ) (step : Option Elem)
    (hn : (fs.flatMap Fig.items).length ≤ n) :
    e.figures n step (fs.flatMap Fig.items) = step.toList ++ fs.map (Fig.node e) := by
  induction fs generalizing n step with
  | nil => cases n <;> simp [Env.figures]
  | cons f fs ih =>
    have ih' := ih (fun x hx => h x (by simp [hx]))
    have hf := h f (by simp)
    cases f with
    | step t alts =>
      obtain ⟨n, rfl⟩ : ∃ m, n = (alts.length + m) + 1 :=
        ⟨n - alts.length - 1, by simp [Fig.items] at hn; omega⟩
      obtain ⟨h1, h2⟩ := hf
      simp only [List.flatMap_cons, Fig.items, List.cons_append, Env.figures, h1]
      rw [figures_alts e alts h2, ih' n _ (by simp [Fig.items] at hn ⊢; omega)]
      simp [Fig.node, make, Elem.extend]
    | elem c x =>
      obtain ⟨n, rfl⟩ : ∃ m, n = m + 1 := ⟨n - 1, by simp [Fig.items] at hn; omega⟩
      have := ih' n (some x) (by simp [Fig.items] at hn ⊢; omega)
      simp [Fig.items, Env.figures, this, Fig.node]
    | markup m =>
      obtain ⟨n, rfl⟩ : ∃ m, n = m + 1 := ⟨n - 1, by simp [Fig.items, Markup.items] at hn; omega⟩
      have := ih' n (some m.node) (by simp [Fig.items, Markup.items] at hn ⊢; omega)
      have hm := createMarkup_ok e.nargs m (fs.flatMap Fig.items) hf.1
      simp only [List.flatMap_cons, Fig.items, Markup.items, List.cons_append, Env.figures, hm, this,
        List.map_cons, Fig.node, Option.toList_some, List.nil_append]

theorem listNodes_ok (e : Env κ) (ps : List Part) :
    e.listNodes (ps.map Part.item) = .ok (ps.map (Part.inList e)) := by
  induction ps with
  | nil => rfl
  | cons p ps ih =>
    cases p with
    | tok t =>
      simp only [List.map_cons, Part.item, Env.listNodes, ih, Part.inList, Env.idClass, make]
      simp only [bind, Except.bind]
      cases e.act t <;> rfl
    | elem c x => simp only [List.map_cons, Part.item, Env.listNodes, ih]; rfl

theorem pitchNodes_ok (e : Env κ) (ps : List Part) (nodes : List Elem)
    (h : List.Forall₂ (AfterPitch e) ps nodes) : e.pitchNodes (ps.map Part.item) = .ok nodes := by
  induction h with
  | nil => rfl
  | cons h1 h2 ih =>
    cases h1 with
    | octave t ht | check t ht | accidental t ht =>
      simp only [List.map_cons, Part.item, Env.pitchNodes, Env.pitchClass, ht, ih]; rfl
    | comment c x => simp only [List.map_cons, Part.item, Env.pitchNodes, ih]; rfl

theorem modifiers_ok (e : Env κ) (ms : List Modifier) (h : ∀ m ∈ ms, m.Ok e) :
    e.modifiers (ms.flatMap Modifier.items) = .ok (ms.map Modifier.node) := by
  induction ms with
  | nil => rfl
  | cons m ms ih =>
    have ih' := ih (fun x hx => h x (by simp [hx]))
    have hm := h m (by simp)
    cases m with
    | qualifier t =>
      have ht : e.act t = .symbol := hm
      simp only [List.flatMap_cons, Modifier.items, List.cons_append, List.nil_append]
      rw [Env.modifiers.eq_def]
      simp only [ht, if_true, ih']; rfl
    | dot t =>
      have ht : e.act t = .dot := hm
      simp only [List.flatMap_cons, Modifier.items, List.cons_append, List.nil_append]
      rw [Env.modifiers.eq_def]
      simp [ht, ih']; rfl
    | comment c x =>
      simp only [List.flatMap_cons, Modifier.items, List.cons_append, List.nil_append]
      rw [Env.modifiers.eq_def]
      simp only [ih']; rfl
    | step t alt =>
      obtain ⟨ht, hg⟩ := hm
      cases alt with
      | none =>
        have hg' : t.group ≠ some 0 := fun h0 => by simpa using hg.1 h0
        simp only [List.flatMap_cons, Modifier.items, List.cons_append, List.nil_append, Option.toList_none,
          List.map_nil]
        rw [Env.modifiers.eq_def]
        simp [ht, hg', ih']; rfl
      | some a =>
        have hg' : t.group = some 0 := hg.2 rfl
        simp only [List.flatMap_cons, Modifier.items, List.cons_append, List.nil_append, Option.toList_some,
          List.map_cons, List.map_nil]
        rw [Env.modifiers.eq_def]
        simp [ht, hg', ih']; rfl

theorem durationParts_ok (e : Env κ) (dots : List Tok) (scaling : Option (Ctx × Elem))
    (hd : ∀ d ∈ dots, e.text d = ".") (hs : ∀ p, scaling = some p → p.2.cls = .other "DurationScaling") :
    e.durationParts (dots.map .tok ++ scaling.toList.map fun p => .elem p.1 p.2) =
      (dots, scaling.map Prod.snd) := by
  induction dots with
  | nil =>
    cases scaling with
    | none => rfl
    | some p => simp [Env.durationParts, hs p rfl]
  | cons d dots ih =>
    have := ih (fun x hx => hd x (by simp [hx]))
    simp only [List.map_cons, List.cons_append, Env.durationParts, hd d (by simp), if_true, this]

theorem flatten_eq (items : List Item) : flatten items = markupItems items := by
  induction items with
  | nil => rfl
  | cons i items ih => cases i <;> simp [flatten, ih, markupItems]

theorem items_append (e : Env κ) (rs ss : List Raw) (is js : List Item) (h1 : e.items rs = .ok is)
    (h2 : e.items ss = .ok js) : e.items (rs ++ ss) = .ok (is ++ js) := by
  induction rs generalizing is with
  | nil => injection h1 with h1; subst h1; exact h2
  | cons r rs ih =>
    obtain ⟨i, hi, h1⟩ := bind_ok h1
    obtain ⟨is', his, h1⟩ := bind_ok h1
    injection h1 with h1
    subst h1
    simp only [List.cons_append, Env.items, hi, ih is' his]; rfl

theorem items_raws (e : Env κ) (ts : List Tok) : e.items (raws ts) = .ok (ts.map .tok) := by
  induction ts with
  | nil => rfl
  | cons t ts ih =>
    simp only [raws, List.map_cons] at ih ⊢
    simp only [Env.items, Env.item, ih]; rfl

theorem origin_toks (ts : List Tok) : origin (ts.map .tok) = ts := by
  induction ts with
  | nil => rfl
  | cons t ts ih => simp only [origin, List.map_cons, List.filterMap_cons, tokOf] at ih ⊢; rw [ih]

theorem firstIs_tok (e : Env κ) (s : String) (t : Tok) (items : List Item) :
    e.firstIs s (.tok t :: items) = .ok (e.text t == s) := rfl

theorem delimited_ok (e : Env κ) (cl : String) (o : Tok) (is : List Item) (tail : Option Tok)
    (h : Closed e.text [cl] (.tok o :: is) tail) :
    e.delimited cl ((.tok o :: is) ++ tail.toList.map .tok) = .ok ([o], .tok o :: is, tail.toList) := by
  unfold Env.delimited
  rw [popTail_closed e [cl] (.tok o :: is) tail (by simp) h]
  rfl

theorem createBlock_ok (e : Env κ) (cls : Cls) (m as : Bool) (a o : Tok) (is : List Item)
    (tail : Option Tok) (nodes : List Elem) (h : Closed e.text ["}"] (.tok a :: .tok o :: is) tail)
    (hn : e.blockNodes m is = .ok nodes) :
    e.createBlock cls m as ((.tok a :: .tok o :: is) ++ tail.toList.map .tok) =
      .ok (.elem .other (.mk cls [a, o] tail.toList (if as then handleAssignments nodes else nodes))) := by
  unfold Env.createBlock
  rw [popTail_closed e ["}"] _ tail (by simp) h]
  simp only [bind, Except.bind, List.drop_succ_cons, List.drop_zero, hn]
  rfl

theorem figures_head (e : Env κ) (o : Tok) (ho : e.act o = .other) (fs : List Fig) (h : ∀ f ∈ fs, f.Ok e) :
    e.figures (Item.tok o :: fs.flatMap Fig.items).length none (.tok o :: fs.flatMap Fig.items) =
      fs.map (Fig.node e) := by
  simp only [List.length_cons, Env.figures, ho]
  rw [figures_ok e fs h _ none (Nat.le_refl _)]; rfl

/-! ## Contexts -/

mutual

/-- Correct contexts are read as they should. -/
theorem reads_item (P : Phrase → Prop) (K : Elem → Prop) (e : Env κ) :
    ∀ (r : Raw) (i : Item), Reads P K e r i → e.item r = .ok i
  | _, _, .tok t => rfl
  | _, _, .given c x => rfl
  | _, _, .block n cls music as a o rs is tail nodes out hb hr hc ha hcl => by
    have h1 := reads_items P K e rs is hr
    have h2 : e.items (.tok a :: .tok o :: rs ++ raws tail.toList) =
        .ok (.tok a :: .tok o :: is ++ tail.toList.map .tok) :=
      items_append e _ _ (.tok a :: .tok o :: is) _
        (by simp only [Env.items, Env.item, h1]; rfl) (items_raws e tail.toList)
    have h3 := blockNodes_ok P K e music is nodes hc
    have h4 := fun c => createBlock_ok e c music as a o is tail _ hcl h3
    rw [assigned_ok as _ out ha] at h4
    rw [Env.item, h2]
    simp only [bind, Except.bind]
    generalize hs : e.text a = s at hb
    cases hb with
    | header | paper | layout | midi => exact h4 _
    | bookpart | book _ hne | «with» | context _ hne | lines | score _ hne =>
      simp only [Env.method, Env.either, List.cons_append, firstIs_tok, bind, Except.bind, hs]
      first
        | exact h4 _
        | (rw [beq_eq_false_iff_ne.2 hne]; exact h4 _)
  | _, _, .score a o rs is tail nodes hr hm hlast htail => by
    have h1 := reads_items P K e rs is hr
    have h2 : e.items (.tok a :: .tok o :: rs ++ raws tail.toList) =
        .ok (.tok a :: .tok o :: is ++ tail.toList.map .tok) :=
      items_append e _ _ (.tok a :: .tok o :: is) _
        (by simp only [Env.items, Env.item, h1]; rfl) (items_raws e tail.toList)
    have h3 : e.blockNodes true is = .ok (e.buildTree nodes) := createMusic_ok P K e is nodes hm
    have h4 := createBlock_ok e (.other "Score") true false a o is none _
      (by intro t ht; simpa using hlast t ht) h3
    have h5 := popTail_closed e ["}"] (.tok a :: .tok o :: is) tail (by simp) (by
      cases tail with
      | some z => simpa [Closed] using htail z rfl
      | none => intro t ht; simpa using hlast t ht)
    rw [Env.item, h2]
    simp only [bind, Except.bind, Env.method]
    rw [h5]
    simpa using h4
  | _, _, .musiclist n cls lyrics o rs is tail nodes out hn hr hm hs hcl => by
    have h1 := reads_items P K e rs is hr
    have h2 : e.items (.tok o :: rs ++ raws tail.toList) = .ok (.tok o :: is ++ tail.toList.map .tok) :=
      items_append e _ _ (.tok o :: is) _
        (by simp only [Env.items, Env.item, h1]; rfl) (items_raws e tail.toList)
    have h3 := createMusic_ok P K e is nodes hm
    have h5 := popTail_closed e ["}", ">>"] (.tok o :: is) tail (by simp) hcl
    have h6 : e.musiclist (.tok o :: is ++ tail.toList.map .tok) =
        .ok (.other (if e.text o == "{" then "MusicList" else "SimultaneousMusicList"), [o], tail.toList,
          e.buildTree nodes) := by
      unfold Env.musiclist
      rw [h5]
      simp only [bind, Except.bind, firstIs_tok, List.drop_succ_cons, List.drop_zero, h3]
      rfl
    have h7 := sung_ok lyrics _ out hs
    rw [Env.item, h2]
    simp only [bind, Except.bind]
    generalize ht : e.text o = s at hn h6
    cases hn with
    | seq _ hmem =>
      simp only [Bool.false_eq_true, if_false] at h7
      subst h7
      simp only [List.mem_cons, List.not_mem_nil, or_false] at hmem
      rcases hmem with rfl | rfl | rfl | rfl <;> (simp only [Env.method]; rw [h6]; rfl)
    | sim _ _ hmem hne =>
      simp only [Bool.false_eq_true, if_false] at h7
      subst h7
      rw [beq_eq_false_iff_ne.2 hne] at h6
      simp only [List.mem_cons, List.not_mem_nil, or_false] at hmem
      rcases hmem with rfl | rfl | rfl | rfl <;> (simp only [Env.method]; rw [h6]; rfl)
    | lyrics =>
      simp only [if_true] at h7
      simp only [Env.method]
      rw [h6]
      simp only [bind, Except.bind, h7]
      rfl
    | simLyrics _ hne =>
      simp only [if_true] at h7
      rw [beq_eq_false_iff_ne.2 hne] at h6
      simp only [Env.method]
      rw [h6]
      simp only [bind, Except.bind, h7]
      rfl
  | _, _, .chord o rs is tail nodes hr hm hcl => by
    have h1 := reads_items P K e rs is hr
    have h2 : e.items (.tok o :: rs ++ raws tail.toList) = .ok (.tok o :: is ++ tail.toList.map .tok) :=
      items_append e _ _ (.tok o :: is) _
        (by simp only [Env.items, Env.item, h1]; rfl) (items_raws e tail.toList)
    have h3 := createMusic_ok P K e is nodes hm
    rw [Env.item, h2]
    simp only [bind, Except.bind, Env.method]
    rw [delimited_ok e _ o is tail hcl]
    simp only [List.drop_succ_cons, List.drop_zero, h3]
  | _, _, .schemelily o rs is tail nodes hr hm hcl => by
    have h1 := reads_items P K e rs is hr
    have h2 : e.items (.tok o :: rs ++ raws tail.toList) = .ok (.tok o :: is ++ tail.toList.map .tok) :=
      items_append e _ _ (.tok o :: is) _
        (by simp only [Env.items, Env.item, h1]; rfl) (items_raws e tail.toList)
    have h3 := createMusic_ok P K e is nodes hm
    rw [Env.item, h2]
    simp only [bind, Except.bind, Env.method]
    rw [delimited_ok e _ o is tail hcl]
    simp only [List.drop_succ_cons, List.drop_zero, h3]
  | _, _, .figure o rs is tail fs hr hi hf ho hcl => by
    have h1 := reads_items P K e rs is hr
    have h2 : e.items (.tok o :: rs ++ raws tail.toList) = .ok (.tok o :: is ++ tail.toList.map .tok) :=
      items_append e _ _ (.tok o :: is) _
        (by simp only [Env.items, Env.item, h1]; rfl) (items_raws e tail.toList)
    rw [Env.item, h2]
    simp only [bind, Except.bind, Env.method]
    rw [delimited_ok e _ o is tail hcl]
    simp only
    rw [hi, figures_head e o ho fs hf]
  | _, _, .figurebracket o rs is tail fs hr hi hf ho hcl => by
    have h1 := reads_items P K e rs is hr
    have h2 : e.items (.tok o :: rs ++ raws tail.toList) = .ok (.tok o :: is ++ tail.toList.map .tok) :=
      items_append e _ _ (.tok o :: is) _
        (by simp only [Env.items, Env.item, h1]; rfl) (items_raws e tail.toList)
    rw [Env.item, h2]
    simp only [bind, Except.bind, Env.method]
    rw [delimited_ok e _ o is tail hcl]
    simp only
    rw [hi, figures_head e o ho fs hf]
  | _, _, .inline n rs is nodes hn hr hc => by
    have h1 := reads_items P K e rs is hr
    rw [Env.item, h1]
    simp only [List.mem_cons, List.not_mem_nil, or_false] at hn
    rcases hn with rfl | rfl <;>
      simp only [bind, Except.bind, Env.method, common_ok' _ e is nodes hc]
  | _, _, .mode n rs is nodes hn hr hm => by
    have h1 := reads_items P K e rs is hr
    have h3 := createMusic_ok P K e is nodes hm
    rw [Env.item, h1]
    simp only [List.mem_cons, List.not_mem_nil, or_false] at hn
    rcases hn with rfl | rfl | rfl | rfl | rfl <;>
      simp only [bind, Except.bind, Env.method, h3]
  | _, _, .fingering t ts ht => by
    rw [Env.item, items_raws]
    simp only [bind, Except.bind, Env.method, List.map_cons, ht, if_true]
    rw [← List.map_cons, origin_toks]
  | _, _, .articulation t ts ht => by
    rw [Env.item, items_raws]
    simp only [bind, Except.bind, Env.method, List.map_cons, ht, if_false]
    rw [← List.map_cons, origin_toks]
  | _, _, .pitch rs is ps nodes hr hi hp => by
    have h1 := reads_items P K e rs is hr
    rw [Env.item, h1, hi]
    simp only [bind, Except.bind, Env.method, pitchNodes_ok e ps nodes hp]
  | _, _, .duration rs dots scaling hr hd hs => by
    have h1 := reads_items P K e rs _ hr
    rw [Env.item, h1]
    simp only [bind, Except.bind, Env.method, durationParts_ok e dots scaling hd hs]
  | _, _, .scaling ts => by
    rw [Env.item, items_raws]
    simp only [bind, Except.bind, Env.method, origin_toks]
  | _, _, .chordModifier rs is ms hr hi hm => by
    have h1 := reads_items P K e rs is hr
    rw [Env.item, h1, hi]
    simp only [bind, Except.bind, Env.method, modifiers_ok e ms hm]
  | _, _, .single rs is p hr hi => by
    have h1 := reads_items P K e rs is hr
    have h2 := listNodes_ok e [p]
    rw [Env.item, h1, hi]
    simp only [List.map_cons, List.map_nil] at h2
    simp only [bind, Except.bind, Env.method, h2]
  | _, _, .list rs is ps hr hi hl => by
    have h1 := reads_items P K e rs is hr
    rw [Env.item, h1, hi]
    simp only [bind, Except.bind, Env.method, listNodes_ok e ps]
    rcases ps with _ | ⟨p, _ | ⟨q, ps⟩⟩
    · rfl
    · exact absurd rfl hl
    · rfl
  | _, _, .identifierRef o rs is ps hr hi => by
    have h1 := reads_items P K e rs is hr
    rw [Env.item, Env.items, h1, hi]
    simp only [Env.item, bind, Except.bind, Env.method, List.drop_succ_cons, List.drop_zero, listNodes_ok e ps]
    rfl
  | _, _, .markup rs is hr => by
    have h1 := reads_items P K e rs is hr
    rw [Env.item, h1]
    simp only [bind, Except.bind, Env.method, flatten_eq]
  | _, _, .markuplist o rs is tail args hr hi ha hcl => by
    have h1 := reads_items P K e rs is hr
    have h2 : e.items (.tok o :: rs ++ raws tail.toList) = .ok (.tok o :: is ++ tail.toList.map .tok) :=
      items_append e _ _ (.tok o :: is) _
        (by simp only [Env.items, Env.item, h1]; rfl) (items_raws e tail.toList)
    rw [Env.item, h2]
    simp only [bind, Except.bind, Env.method]
    rw [delimited_ok e _ o is tail hcl]
    simp only [List.drop_succ_cons, List.drop_zero]
    rw [hi, C64_markup_list e.nargs args ha]
  | _, _, .string ts => by
    rw [Env.item, items_raws]
    simp only [bind, Except.bind, Env.method, origin_toks]
  | _, _, .comment n ts hn => by
    rw [Env.item, items_raws]
    simp only [List.mem_cons, List.not_mem_nil, or_false] at hn
    rcases hn with rfl | rfl <;> simp only [bind, Except.bind, Env.method, origin_toks]

theorem reads_items (P : Phrase → Prop) (K : Elem → Prop) (e : Env κ) :
    ∀ (rs : List Raw) (is : List Item), ReadsL P K e rs is → e.items rs = .ok is
  | _, _, .nil => rfl
  | _, _, .cons r i rs is h1 h2 => by
    rw [Env.items, reads_item P K e r i h1, reads_items P K e rs is h2]; rfl

end

end Quickly.Lily
