import Verif.PitchTime.Abs
import Verif.PitchTime.Ends
import Verif.Rel2abs.Props

/-! # C106: pitch edits do not change the time -/

namespace Quickly.PitchTime

open Quickly.Node Quickly.Signature Quickly.Length Quickly.Length.Spec Spec
open Quickly.Pitch (PNode)
open Quickly.Pitch.Spec (IsDict)
open Quickly.Relative Quickly.Relative.Spec
open Quickly.Rel2abs
open Quickly.Rel2abs.Spec
open Quickly.RhythmTime.Spec (lengthAt)

/-- C106: transposing does not change the length of any node, nor its time, whatever is selected. -/
theorem C106_transpose (c : Relative.Ctx) (sel : Rel2abs.Id → Bool) (L : Pitch.Str) (i : Rel2abs.Id) (l : Lab) (ks : List Doc) (t' : Doc)
    (h : TransposeDoc.editRange c sel L (.node i l ks) = .ok t') (w : View) (hn : (idsL ks).Nodup) (hf : FitsL w (some .Document) ks)
    (path : List ℕ) (x : Doc) (hx : at? ks path = some x) :
    lengthAt (nds w t'.kids) path = lengthAt (nds w ks) path ∧ ∀ incl, timeAt (nds w t'.kids) path incl = timeAt (nds w ks) path incl := by
  have hs := TransposeDoc.C90_only_pitches c sel L _ t' h
  cases t' with
  | node j m gs =>
    rw [TransposeDoc.Spec.Same] at hs
    obtain ⟨-, -, hs⟩ := hs
    obtain ⟨y, hy, e⟩ := same_at sel hs hx
    exact edit_time w (sameL_edit sel _ _ hs) hn hf hx hy e

/-- C89: `rel2abs` always comes to an end, for all documents, languages and selections, although the loops go over lists that they change:
with enough steps there is one result or one exception, and with fewer there is the same or none. -/
theorem C89_ends (c : Cfg) (sel : Sel) (h : Heap) (i : Rel2abs.Id) (l : Lab) (ks : List Doc) (hs : Shows h (.node i l ks))
    (hn : (ids (.node i l ks)).Nodup) :
    ∃ N r, (∀ f, N ≤ f → editRange c sel f h i = some r) ∧ ∀ f r', editRange c sel f h i = some r' → r' = r := by
  obtain ⟨N, r, hN⟩ := range_ends c sel h i l ks hs hn
  refine ⟨N, r, hN, fun f r' e => ?_⟩
  have h1 := range_more c sel h i r' f e N
  rw [hN (f + N) (by omega), Option.some.injEq] at h1
  exact h1.symm

/-- C89, C106: what `rel2abs` does when it comes to an end without an exception, for all documents, languages and selections: notes get another name or octave, but the same octave check;
and `\relative` nodes are replaced by the music in them, and `\octaveCheck` nodes are taken out (`Edit`).  Nodes outside the document stay as they are, and the root where
it is.  `ShapeL` means that every `\relative` has one node of music, with or without a start pitch. -/
theorem C89_selection (c : Cfg) (sel : Sel) (f : ℕ) (h h' : Heap) (i : Rel2abs.Id) (l : Lab) (ks : List Doc) (hs : Shows h (.node i l ks))
    (hn : (ids (.node i l ks)).Nodup) (hk : ShapeL ks) (he : editRange c sel f h i = some (.ok h')) :
    ∃ ks', Shows h' (.node i l ks') ∧ Edit ks ks' ∧ Kept h (.node i l ks') ∧ h'.parent i = h.parent i ∧
      ∀ j ∉ ids (.node i l ks), h'.lab j = h.lab j ∧ h'.kids j = h.kids j ∧ h'.parent j = h.parent j :=
  rel2abs_edit c sel f h h' i l ks hs hn hk he

/-- C106: `rel2abs` does not change the length of any node that stays, nor its time, whatever is selected.  `Fits` does not allow a `\relative` directly
in `\simultaneous`, which LilyPond does not allow either. -/
theorem C106_rel2abs (c : Cfg) (sel : Sel) (f : ℕ) (h h' : Heap) (i : Rel2abs.Id) (l : Lab) (ks : List Doc) (hs : Shows h (.node i l ks))
    (hn : (ids (.node i l ks)).Nodup) (hk : ShapeL ks) (he : editRange c sel f h i = some (.ok h')) (w : View) (hf : FitsL w (some .Document) ks) :
    ∃ ks', Shows h' (.node i l ks') ∧ (∀ b y, at? ks' b = some y → ∃ a x, at? ks a = some x ∧ x.id = y.id) ∧
      ∀ a b x y, at? ks a = some x → at? ks' b = some y → x.id = y.id →
        lengthAt (nds w ks') b = lengthAt (nds w ks) a ∧ ∀ incl, timeAt (nds w ks') b incl = timeAt (nds w ks) a incl := by
  obtain ⟨ks', h1, hed, -⟩ := rel2abs_edit c sel f h h' i l ks hs hn hk he
  have hn2 : (idsL ks).Nodup := by rw [ids, List.nodup_cons] at hn; exact hn.2
  refine ⟨ks', h1, ?_, fun a b x y ha hb e => edit_time w hed hn2 hf ha hb e⟩
  intro b y hb
  obtain ⟨a, x, h1, h2, -⟩ := edit_place w hed _ b y hf hb
  exact ⟨a, x, h1, h2⟩

/-- C106: converting to relative music does not change the length of any node, nor its time, whatever is selected.  The nodes of the document have numbers here (`ts`), and
so have those of the result (`us`): the numbers stay, and the nodes that are new have new ones.  `Fits` means that, in the result, no `\relative` is directly in
`\simultaneous`; see `C106_simultaneous`. -/
theorem C106_abs2rel (pp : Langs) (se : Settings) (st : Node.Path) (en : Option Node.Path) (L : Pitch.Str) (l : Abs2rel.Lab) (ks : List Abs2rel.Doc)
    (d' : Abs2rel.Doc) (hv : Abs2rel.Spec.Proper st en (.node l ks)) (h : Abs2rel.editRange pp se ⟨st, en⟩ L (.node l ks) = .ok d')
    (ts : List Doc) (ht : plains ts = Abs2rel.Spec.toDocs ks) (hn : (idsL ts).Nodup) :
    ∃ us, plains us = Abs2rel.Spec.toDocs d'.kids ∧ (idsL us).Nodup ∧ (∀ i ∈ idsL ts, i ∈ idsL us) ∧
      ∀ w, FitsL w (some .Document) us → (∀ b y, at? ts b = some y → ∃ a x, at? us a = some x ∧ x.id = y.id) ∧
        ∀ a b x y, at? us a = some x → at? ts b = some y → x.id = y.id →
          lengthAt (nds w us) a = lengthAt (nds w ts) b ∧ ∀ incl, timeAt (nds w us) a incl = timeAt (nds w ts) b incl := by
  obtain ⟨ks', rfl, hlen, he⟩ := Abs2rel.C91_edited pp se st en L l ks d' hv h
  obtain ⟨us, M, h1, -, h2, h3, h4, -⟩ := numbersL ks ks' hlen (fun i a b => edited_numbers (he i a b)) ts ((idsL ts).foldr max 0 + 1) ht hn (by
    intro i hi
    have : ∀ (xs : List ℕ), i ∈ xs → i ≤ xs.foldr max 0 := by
      intro xs
      induction xs with
      | nil => simp
      | cons x xs ih =>
        intro h
        rw [List.mem_cons] at h
        rcases h with rfl | h
        · simp
        · exact le_trans (ih h) (by simp)
    exact Nat.lt_succ_of_le (this _ hi))
  refine ⟨us, h1, h3, h4, fun w hf => ⟨?_, ?_⟩⟩
  · intro b y hb
    obtain ⟨a, x, e1, e2, -⟩ := edit_place w h2 _ b y hf hb
    exact ⟨a, x, e1, e2⟩
  · intro a b x y ha hb e
    obtain ⟨r1, r2⟩ := edit_time w h2 h3 hf ha hb e
    exact ⟨r1.symm, fun incl => (r2 incl).symm⟩

/-! ## Examples -/

/-- `\relative c' { c2 d \octaveCheck d' } { e'4 }` -/
def exKids : List Doc :=
  [.node 1 .relative [tn 2 'c' 1, .node 3 .other [.node 4 (.note true ⟨['c'], 0⟩ none) [.node 5 .other []], tn 6 'd' 0, .node 7 .check [tn 8 'd' 1]]],
    .node 9 .other [.node 10 (.note true ⟨['e'], 1⟩ none) [.node 11 .other []]]]

/-- Its classes and durations. -/
def exView : View where
  lab i := match i with
    | 1 => (.Relative, .text "\\relative")
    | 2 | 8 => (.Pitch, .text "")
    | 3 | 9 => (.MusicList, .text "{")
    | 5 => (.Duration, .value (1/2))
    | 7 => (.OctaveCheck, .text "\\octaveCheck")
    | 11 => (.Duration, .value (1/4))
    | _ => (.Note, .text "")
  name _ n := .text (String.ofList n.head)
  parts _ n _ := if n.octave = 0 then [] else [.node (.Octave, .num (.int n.octave)) []]

/-- What is left: `{ c'2 d' } { e'4 }` -/
def exResult : List Doc :=
  [.node 3 .other [.node 4 (.note true ⟨['c'], 1⟩ none) [.node 5 .other []], tn 6 'd' 1],
    .node 9 .other [.node 10 (.note true ⟨['e'], 1⟩ none) [.node 11 .other []]]]

example : result {} (.node 0 .other exKids) = some (.ok (.node 0 .other exResult)) := by with_unfolding_all rfl

example : (at? exKids [0, 1, 1]).map Doc.id = some 6 ∧ (at? exResult [0, 1]).map Doc.id = some 6 ∧
    timeAt (nds exView exKids) [0, 1, 1] false = .ok (1/2) ∧ timeAt (nds exView exResult) [0, 1] false = .ok (1/2) ∧
    lengthAt (nds exView exKids) [0, 1] = .ok 1 ∧ lengthAt (nds exView exResult) [0] = .ok 1 := by
  refine ⟨rfl, rfl, ?_, ?_, ?_, ?_⟩ <;> decide +kernel

theorem around_two (w : View) (s b : Doc) (hs : Silent (nd w s) ∧ (nd w s).val.1 ∈ .Pitch :: comments) (hb : b.lab ≠ .comment)
    (hm : isA .Music (nd w b) = true) (hp : (nd w b).val.1 ∉ pitched) : Around w [s, b] := by
  intro pre b' post e h1 h2
  match pre with
  | [] =>
    simp only [List.nil_append, List.cons.injEq] at e
    obtain ⟨rfl, rfl⟩ := e
    exact absurd (h2 b (by simp)) hb
  | [x] =>
    simp only [List.cons_append, List.nil_append, List.cons.injEq] at e
    obtain ⟨rfl, rfl, rfl⟩ := e
    exact ⟨by simpa using hs, hm, hp⟩
  | _ :: _ :: _ => simp at e

theorem exParts (i : Rel2abs.Id) (n : PNode) (chk : Option ℤ) : ∀ y ∈ exView.parts i n chk, Silent y ∧ y.val.1 ∈ Spec.parts := by
  intro y hy
  simp only [exView] at hy
  split at hy
  · simp at hy
  · simp only [List.mem_singleton] at hy
    subst hy
    exact ⟨.mk _ _ _ (by decide) (by simp), by show Cls.Octave ∈ Spec.parts; decide⟩

theorem forward_of (n : Nd) (h1 : n.val.1 ∈ [.Duration, .DurationScaling] → 0 ≤ headValue n) (h2 : transform n = .ok none) : Forward n :=
  ⟨h1, fun t h => by rw [h2] at h; cases h⟩

theorem exFits : FitsL exView (some .Document) exKids := by
  have hd : ∀ y ∈ nds exView [tn 8 'd' 1], Silent y := by
    intro y hy
    simp only [nds, List.mem_singleton] at hy
    subst hy
    refine .mk _ _ _ (by decide) ?_
    intro x hx
    rw [List.mem_append] at hx
    rcases hx with hx | hx
    · exact (exParts _ _ _ x hx).1
    · simp [nds] at hx
  have hs : Silent (nd exView (tn 2 'c' 1)) := by
    refine .mk _ _ _ (by decide) ?_
    intro x hx
    rw [List.mem_append] at hx
    rcases hx with hx | hx
    · exact (exParts _ _ _ x hx).1
    · simp [nds] at hx
  have ha : Around exView [tn 2 'c' 1, .node 3 .other [.node 4 (.note true ⟨['c'], 0⟩ none) [.node 5 .other []], tn 6 'd' 0, .node 7 .check [tn 8 'd' 1]]] :=
    around_two _ _ _ ⟨hs, by decide⟩ (by simp [Doc.lab]) (by decide +kernel) (by decide)
  simp only [tn] at hd ha
  simp only [exKids, FitsL, Spec.Fits, tn, and_true]
  refine ⟨⟨by simp, by simp, fun _ => ⟨rfl, by simp, by simp, ha⟩, forward_of _ (by decide) (by decide +kernel),
    ⟨fun _ _ _ _ => ⟨by decide, exParts _⟩, by simp, by simp, forward_of _ (by decide) (by decide +kernel)⟩,
    by simp, by simp, by simp, forward_of _ (by decide) (by decide +kernel),
    ⟨fun _ _ _ _ => ⟨by decide, exParts _⟩, by simp, by simp, forward_of _ (by decide) (by decide +kernel),
      by simp, by simp, by simp, forward_of _ (by decide +kernel) (by decide +kernel)⟩,
    ⟨fun _ _ _ _ => ⟨by decide, exParts _⟩, by simp, by simp, forward_of _ (by decide) (by decide +kernel)⟩,
    by simp, fun _ => ⟨rfl, by decide, hd⟩, by simp, forward_of _ (by decide) (by decide +kernel),
    fun _ _ _ _ => ⟨by decide, exParts _⟩, by simp, by simp, forward_of _ (by decide) (by decide +kernel)⟩,
    by simp, by simp, by simp, forward_of _ (by decide) (by decide +kernel),
    fun _ _ _ _ => ⟨by decide, exParts _⟩, by simp, by simp, forward_of _ (by decide) (by decide +kernel),
    by simp, by simp, by simp, forward_of _ (by decide +kernel) (by decide +kernel)⟩

theorem exNodup : (ids (.node 0 .other exKids)).Nodup := by decide

theorem exShape : ShapeL exKids := by
  simp [exKids, ShapeL, Shape, Shaped, tn, real, Doc.lab, Lab.isPitch]

/-- The memory after the edit shows a document in which nothing takes longer or shorter, or is earlier or later. -/
example (sel : Sel) (f : ℕ) (h' : Heap) (he : editRange exCfg sel f (store [] (.node 0 .other exKids)) 0 = some (.ok h')) :
    ∃ ks', Shows h' (.node 0 .other ks') ∧ (∀ b y, at? ks' b = some y → ∃ a x, at? exKids a = some x ∧ x.id = y.id) ∧
      ∀ a b x y, at? exKids a = some x → at? ks' b = some y → x.id = y.id →
        lengthAt (nds exView ks') b = lengthAt (nds exView exKids) a ∧
          ∀ incl, timeAt (nds exView ks') b incl = timeAt (nds exView exKids) a incl :=
  C106_rel2abs exCfg sel f _ h' 0 .other _ (store_shows _ _ exNodup) exNodup exShape he exView exFits

/-- A `\relative` in a `\relative`, with a check that is not at the end, and where just the first of two commands is selected. -/
def exNest : List Doc :=
  [.node 1 .relative [tn 2 'c' 1, .node 3 .other [tn 4 'c' 0, .node 5 .check [tn 6 'd' 1], tn 7 'd' 0,
      .node 8 .relative [.node 12 .comment [], .node 9 .other [tn 10 'e' 0]], tn 11 'e' 0]],
    .node 13 .relative [.node 14 .other [tn 15 'e' 0]]]

example : ShapeL exNest ∧ (ids (.node 0 .other exNest)).Nodup := by
  refine ⟨?_, by decide⟩
  simp [exNest, ShapeL, Shape, Shaped, tn, real, Doc.lab, Lab.isPitch]

example : (match editRange exCfg { inside := fun i => i = 1 } 100 (store [] (.node 0 .other exNest)) 0 with
    | some (.ok h) => [h.kids 0, h.kids 3, h.kids 9, h.kids 13]
    | _ => []) = [[3, 14], [4, 7, 9, 11], [10], [14]] := by decide +kernel

/-- The edit of `exNest` comes to an end. -/
example (sel : Sel) : ∃ N r, (∀ f, N ≤ f → editRange exCfg sel f (store [] (.node 0 .other exNest)) 0 = some r) ∧
    ∀ f r', editRange exCfg sel f (store [] (.node 0 .other exNest)) 0 = some r' → r' = r :=
  C89_ends exCfg sel _ 0 .other exNest (store_shows _ _ (by decide)) (by decide)

/-- Transposing it one octave up changes the document, but not the time. -/
example (t' : Doc) (h : TransposeDoc.editRange ⟨exPP, fun p => ⟨p.octave + 1, p.note, p.alter⟩, 1, true⟩ (fun _ => true) [] (.node 0 .other exKids) = .ok t') :
    timeAt (nds exView t'.kids) [0, 1, 1] false = .ok (1/2) := by
  rw [(C106_transpose _ _ _ 0 .other exKids t' h exView (by decide) exFits [0, 1, 1] _ rfl).2]
  decide +kernel

example : (TransposeDoc.editRange ⟨exPP, fun p => ⟨p.octave + 1, p.note, p.alter⟩, 1, true⟩ (fun _ => true) [] (.node 0 .other exKids)).map
    (fun t => at? t.kids [1, 0]) = .ok (some (.node 10 (.note true ⟨['e'], 2⟩ none) [.node 11 .other []])) := by with_unfolding_all rfl

/-- `{ c' d' }` becomes `\relative c' { c d }`, and whatever numbers the nodes have, there is a view that fits. -/
example (a b c d e : Rel2abs.Id) (hn : [a, b, c, d, e].Nodup) :
    Abs2rel.editRange exPP ⟨true, true⟩ {} [] (Abs2rel.grp [Abs2rel.lst [Abs2rel.tn 'c' 1, Abs2rel.tn 'd' 1]]) =
      .ok (Abs2rel.grp [Abs2rel.rel [Abs2rel.tn 'c' 1, Abs2rel.lst [Abs2rel.tn 'c' 0, Abs2rel.tn 'd' 0]]]) ∧
    plains [.node a .relative [tn b 'c' 1, .node c .other [tn d 'c' 0, tn e 'd' 0]]] =
      Abs2rel.Spec.toDocs [Abs2rel.rel [Abs2rel.tn 'c' 1, Abs2rel.lst [Abs2rel.tn 'c' 0, Abs2rel.tn 'd' 0]]] ∧
    ∃ w, FitsL w (some .Document) [.node a .relative [tn b 'c' 1, .node c .other [tn d 'c' 0, tn e 'd' 0]]] := by
  simp only [List.nodup_cons, List.mem_cons, List.not_mem_nil, or_false, not_or, not_false_eq_true, List.nodup_nil, and_true] at hn
  obtain ⟨⟨h1, h2, h3, h4⟩, ⟨h5, h6, h7⟩, ⟨h8, h9⟩, h10⟩ := hn
  let w : View := ⟨fun i => if i = a then (.Relative, .text "") else if i = b then (.Pitch, .text "") else if i = c then (.MusicList, .text "{")
    else (.Note, .text ""), fun _ _ => .text "", fun _ _ _ => []⟩
  have ha : w.lab a = (.Relative, .text "") := by simp [w]
  have hb : w.lab b = (.Pitch, .text "") := by simp [w, Ne.symm h1]
  have hc : w.lab c = (.MusicList, .text "{") := by simp [w, Ne.symm h2, Ne.symm h5]
  have hd : w.lab d = (.Note, .text "") := by simp [w, Ne.symm h3, Ne.symm h6, Ne.symm h8]
  have he : w.lab e = (.Note, .text "") := by simp [w, Ne.symm h4, Ne.symm h7, Ne.symm h9]
  have e1 : nd w (tn b 'c' 1) = .node (.Pitch, .text "") [] := by simp only [tn, nd, nds, hb]; rfl
  have e3 : nd w (tn d 'c' 0) = .node (.Note, .text "") [] := by simp only [tn, nd, nds, hd]; rfl
  have e4 : nd w (tn e 'd' 0) = .node (.Note, .text "") [] := by simp only [tn, nd, nds, he]; rfl
  have e2 : nd w (.node c .other [tn d 'c' 0, tn e 'd' 0]) = .node (.MusicList, .text "{") [.node (.Note, .text "") [], .node (.Note, .text "") []] := by
    rw [nd, hc, nds, nds, nds, e3, e4]; simp
  have e0 : nd w (.node a .relative [tn b 'c' 1, .node c .other [tn d 'c' 0, tn e 'd' 0]]) = .node (.Relative, .text "") [.node (.Pitch, .text "") [],
      .node (.MusicList, .text "{") [.node (.Note, .text "") [], .node (.Note, .text "") []]] := by
    rw [nd, ha, nds, nds, nds, e1, e2]; simp
  refine ⟨by with_unfolding_all rfl, rfl, w, ?_⟩
  have np : ∀ i n chk, ∀ y ∈ w.parts i n chk, Silent y ∧ y.val.1 ∈ Spec.parts := by simp [w]
  have har : Around w [tn b 'c' 1, .node c .other [tn d 'c' 0, tn e 'd' 0]] := by
    refine around_two _ _ _ ?_ (by simp [Doc.lab]) ?_ ?_
    · rw [e1]; exact ⟨.mk _ _ _ (by decide) (by simp), by decide⟩
    · rw [e2]; decide +kernel
    · rw [e2]; decide
  have fb : Spec.Fits w (some .Relative) (tn b 'c' 1) := by
    rw [tn, Spec.Fits, ← tn, hb]
    exact ⟨fun _ _ _ _ => ⟨by decide, np _⟩, by simp, by simp, by rw [e1]; exact forward_of _ (by decide) (by decide +kernel), trivial⟩
  have fd : Spec.Fits w (some .MusicList) (tn d 'c' 0) := by
    rw [tn, Spec.Fits, ← tn, hd]
    exact ⟨fun _ _ _ _ => ⟨by decide, np _⟩, by simp, by simp, by rw [e3]; exact forward_of _ (by decide) (by decide +kernel), trivial⟩
  have fe : Spec.Fits w (some .MusicList) (tn e 'd' 0) := by
    rw [tn, Spec.Fits, ← tn, he]
    exact ⟨fun _ _ _ _ => ⟨by decide, np _⟩, by simp, by simp, by rw [e4]; exact forward_of _ (by decide) (by decide +kernel), trivial⟩
  have fc : Spec.Fits w (some .Relative) (.node c .other [tn d 'c' 0, tn e 'd' 0]) := by
    rw [Spec.Fits, hc]
    exact ⟨by simp, by simp, by simp, by rw [e2]; exact forward_of _ (by decide) (by decide +kernel), fd, fe, trivial⟩
  refine ⟨?_, trivial⟩
  rw [Spec.Fits, ha]
  exact ⟨by simp, by simp, fun _ => ⟨rfl, by simp, by simp, har⟩, by rw [e0]; exact forward_of _ (by decide) (by decide +kernel), fb, fc, trivial⟩

/-- C106 fails for `abs2rel` in `\\simultaneous`: `\\simultaneous { c' d' }` is as long as one note, and it becomes `\\simultaneous \\relative c' { c d }`, where the notes are
one after another. -/
theorem C106_simultaneous : ∃ d d' : Abs2rel.Doc, Abs2rel.editRange exPP ⟨true, true⟩ {} [] d = .ok d' ∧ ∃ (ts us : List Doc) (w : View),
    plains ts = Abs2rel.Spec.toDocs d.kids ∧ plains us = Abs2rel.Spec.toDocs d'.kids ∧ (∀ i ∈ idsL ts, i ∈ idsL us) ∧ (idsL us).Nodup ∧
      lengthAt (nds w ts) [0] = .ok (1/4) ∧ lengthAt (nds w us) [0] = .ok (1/2) :=
  ⟨.node (.lab .other) [.node (.lab .other) [.node .list [.node (.lab (.note true ⟨['c'], 1⟩ none)) [], .node (.lab (.note true ⟨['d'], 1⟩ none)) []]]],
    .node (.lab .other) [.node (.lab .other) [.node (.lab .relative) [.node (.lab (.note true ⟨['c'], 1⟩ none)) [],
      .node .list [.node (.lab (.note true ⟨['c'], 0⟩ none)) [], .node (.lab (.note true ⟨['d'], 0⟩ none)) []]]]],
    by with_unfolding_all rfl,
    [.node 1 .other [.node 2 .other [tn 3 'c' 1, tn 4 'd' 1]]],
    [.node 1 .other [.node 5 .relative [tn 6 'c' 1, .node 2 .other [tn 3 'c' 0, tn 4 'd' 0]]]],
    ⟨fun i => match i with
        | 1 => (.Simultaneous, .text "\\simultaneous")
        | 2 => (.MusicList, .text "{")
        | 5 => (.Relative, .text "\\relative")
        | 6 => (.Pitch, .text "")
        | _ => (.Note, .text ""), fun _ _ => .text "", fun _ _ _ => []⟩,
    rfl, rfl, by decide, by decide, by decide +kernel, by decide +kernel⟩

end Quickly.PitchTime
