import Verif.Group.Spec

/-! # C55: grouping assignments and lyrics -/

namespace Quickly.Group

variable {α : Type}

open Spec

theorem outContents_assignment (v : List (Node α)) (h : v ≠ []) :
    outContents (assignment v) = v.flatMap contents := by
  cases v with
  | nil => exact absurd rfl h
  | cons n v => cases n <;> rfl

theorem flatMap_node (v : List (Node α)) : (v.map Out.node).flatMap outContents = v.flatMap contents := by
  rw [List.flatMap_map]; rfl

mutual

/-- **C55**: all nodes are kept, in the same order. -/
theorem C55_keeps_nodes : ∀ nodes : List (Node α),
    (handleAssignments nodes).flatMap outContents = nodes.flatMap contents
  | [] => rfl
  | n :: nodes => by
    rw [handleAssignments]
    split
    · rw [readName_contents [n] false (by simp) nodes]; simp
    · rw [List.flatMap_cons, C55_keeps_nodes nodes]; rfl

theorem readName_contents (v : List (Node α)) (e : Bool) (h : v ≠ []) : ∀ nodes : List (Node α),
    (readName v e nodes).flatMap outContents = v.flatMap contents ++ nodes.flatMap contents
  | [] => by rw [readName, flatMap_node]; simp
  | n :: nodes => by
    have hassign : (assignment (v ++ [n]) :: handleAssignments nodes).flatMap outContents =
        v.flatMap contents ++ (n :: nodes).flatMap contents := by
      rw [List.flatMap_cons, outContents_assignment _ (by simp), C55_keeps_nodes nodes]
      simp
    have hplain : ((v ++ [n]).map Out.node ++ handleAssignments nodes).flatMap outContents =
        v.flatMap contents ++ (n :: nodes).flatMap contents := by
      rw [List.flatMap_append, flatMap_node, C55_keeps_nodes nodes]
      simp
    have hmore : ∀ e, (readName (v ++ [n]) e nodes).flatMap outContents =
        v.flatMap contents ++ (n :: nodes).flatMap contents := by
      intro e
      rw [readName_contents (v ++ [n]) e (by simp) nodes]
      simp
    rw [readName]
    cases n with
    | comment i => exact hmore e
    | equalSign i => cases e <;> first | exact hassign | exact hmore true
    | list is => cases e <;> first | exact hassign | exact hplain
    | symbol i => cases e <;> first | exact hassign | exact hplain
    | string i => cases e <;> first | exact hassign | exact hplain
    | other i => cases e <;> first | exact hassign | exact hplain

end

theorem readName_comments (cs : List (Node α)) (hc : Comments cs) (v : List (Node α)) (e : Bool)
    (nodes : List (Node α)) : readName v e (cs ++ nodes) = readName (v ++ cs) e nodes := by
  induction cs generalizing v with
  | nil => simp
  | cons c cs ih =>
    obtain ⟨i, rfl⟩ := hc c (by simp)
    rw [List.cons_append, readName, if_pos (show isComment (.comment i) = true from rfl), ih (fun n hn => hc n (by simp [hn]))]
    simp

theorem isName_iff (n : Node α) : isName n = true ↔ Named n := by
  cases n <;> simp [isName, Named]

theorem assignment_eq (n : Node α) (rest : List (Node α)) :
    assignment (n :: rest) = makeAssignment n rest := by
  cases n <;> rfl

/-- **C55**: a name, an equal sign and a value, with comments in between, become an Assignment. -/
theorem C55_assignment (name value : Node α) (cs cs' : List (Node α)) (i : α) (nodes : List (Node α))
    (hn : Named name) (hc : Comments cs) (hc' : Comments cs') (hv : NoComment value) :
    handleAssignments (name :: cs ++ .equalSign i :: cs' ++ value :: nodes) =
      makeAssignment name (cs ++ .equalSign i :: cs' ++ [value]) :: handleAssignments nodes := by
  rw [List.append_assoc, List.cons_append, handleAssignments, if_pos ((isName_iff name).2 hn),
    readName_comments cs hc, show (Node.equalSign i :: cs') ++ value :: nodes =
      .equalSign i :: (cs' ++ value :: nodes) from rfl, readName]
  simp only [isComment, isEqualSign, Bool.false_eq_true, if_false, if_true]
  rw [readName_comments cs' hc', readName]
  cases value with
  | comment j => exact absurd rfl (hv j)
  | _ => simp [assignment_eq, isComment]

/-- **C55**: a name that is followed by something else than an equal sign is no variable. -/
theorem C55_no_assignment (name other : Node α) (cs : List (Node α)) (nodes : List (Node α))
    (hn : Named name) (hc : Comments cs) (ho : NoComment other) (he : ∀ i, other ≠ .equalSign i) :
    handleAssignments (name :: cs ++ other :: nodes) =
      (name :: cs ++ [other]).map .node ++ handleAssignments nodes := by
  rw [List.cons_append, handleAssignments, if_pos ((isName_iff name).2 hn),
    readName_comments cs hc, readName]
  cases other with
  | comment j => exact absurd rfl (ho j)
  | equalSign j => exact absurd rfl (he j)
  | _ => simp [isComment, isEqualSign]

/-- **C55**: a name at the end, with or without equal sign, is no variable. -/
theorem C55_at_end (name : Node α) (cs cs' : List (Node α)) (i : α) (hn : Named name) (hc : Comments cs)
    (hc' : Comments cs') :
    handleAssignments (name :: cs) = (name :: cs).map .node ∧
    handleAssignments (name :: cs ++ .equalSign i :: cs') =
      (name :: cs ++ .equalSign i :: cs').map .node := by
  constructor
  · have := readName_comments cs hc [name] false []
    rw [List.append_nil] at this
    rw [handleAssignments, if_pos ((isName_iff name).2 hn), this, readName]
    rfl
  · have := readName_comments cs' hc' ([name] ++ cs ++ [.equalSign i]) true []
    rw [List.append_nil] at this
    rw [List.cons_append, handleAssignments, if_pos ((isName_iff name).2 hn),
      readName_comments cs hc, readName]
    simp only [isComment, isEqualSign, Bool.false_eq_true, if_false, if_true]
    rw [this, readName]
    simp

/-- **C55**: other nodes are kept as they are. -/
theorem C55_other (n : Node α) (nodes : List (Node α)) (hn : ¬ Named n) :
    handleAssignments (n :: nodes) = .node n :: handleAssignments nodes := by
  rw [handleAssignments, if_neg (fun h => hn ((isName_iff n).1 h))]

theorem comments_rest (cs nodes : List (Node α)) (hc : Comments cs) :
    handleAssignments (cs ++ nodes) = cs.map .node ++ handleAssignments nodes := by
  induction cs with
  | nil => rfl
  | cons c cs ih =>
    obtain ⟨i, rfl⟩ := hc c (by simp)
    rw [List.cons_append, handleAssignments, if_neg (by simp [isName]),
      ih (fun n hn => hc n (by simp [hn]))]
    rfl

mutual

theorem handle_other (i : α) (nodes : List (Node α)) : ∀ xs : List (Node α),
    handleAssignments (xs ++ .other i :: nodes) =
      handleAssignments (xs ++ [.other i]) ++ handleAssignments nodes
  | [] => by simp [handleAssignments, isName]
  | x :: xs => by
    rw [List.cons_append, List.cons_append, handleAssignments, handleAssignments]
    split
    · exact readName_other i nodes [x] false xs
    · rw [handle_other i nodes xs]; rfl

theorem readName_other (i : α) (nodes : List (Node α)) (v : List (Node α)) (e : Bool) : ∀ xs : List (Node α),
    readName v e (xs ++ .other i :: nodes) =
      readName v e (xs ++ [.other i]) ++ handleAssignments nodes
  | [] => by cases e <;> simp [readName, handleAssignments, isComment, isEqualSign]
  | x :: xs => by
    have hmore := fun e => readName_other i nodes (v ++ [x]) e xs
    have hh := handle_other i nodes xs
    rw [List.cons_append, List.cons_append, readName, readName]
    cases x with
    | comment j => exact hmore e
    | equalSign j =>
      cases e
      · exact hmore true
      · simp [hh, isComment]
    | list is => cases e <;> simp [hh, isComment, isEqualSign]
    | symbol j => cases e <;> simp [hh, isComment, isEqualSign]
    | string j => cases e <;> simp [hh, isComment, isEqualSign]
    | other j => cases e <;> simp [hh, isComment, isEqualSign]

end

/-- **C55**: wherever the stream is at rest, that is after a node that is no name and no equal
sign, the pattern `name = value` becomes an Assignment. -/
theorem C55_everywhere_partial (before : List (Node α)) (hb : AtRest before) (name value : Node α)
    (cs cs' : List (Node α)) (i : α) (nodes : List (Node α)) (hn : Named name) (hc : Comments cs)
    (hc' : Comments cs') (hv : NoComment value) :
    handleAssignments (before ++ (name :: cs ++ .equalSign i :: cs' ++ value :: nodes)) =
      handleAssignments before ++
        makeAssignment name (cs ++ .equalSign i :: cs' ++ [value]) :: handleAssignments nodes := by
  have key : ∀ ns, handleAssignments (before ++ ns) =
      handleAssignments before ++ handleAssignments ns := by
    intro ns
    rcases hb with hb | ⟨xs, j, ds, rfl, hd⟩
    · have h0 := comments_rest before [] hb
      rw [List.append_nil] at h0
      rw [comments_rest before ns hb, h0]
      simp [handleAssignments]
    · have h0 := comments_rest ds [] hd
      rw [List.append_nil] at h0
      rw [List.append_assoc, List.cons_append, handle_other j (ds ++ ns) xs,
        handle_other j ds xs, comments_rest ds ns hd, h0]
      simp [handleAssignments]
  rw [key, C55_assignment name value cs cs' i nodes hn hc hc' hv]

mutual

/-- **C55**: every Assignment has a name, an equal sign and a single value, and comments. -/
theorem C55_only : ∀ (nodes : List (Node α)) (o : Out α), o ∈ handleAssignments nodes →
    (∃ n, o = .node n) ∨ ∃ name cs i cs' value, Named name ∧ Comments cs ∧ Comments cs' ∧
      NoComment value ∧ o = makeAssignment name (cs ++ .equalSign i :: cs' ++ [value])
  | [], o, h => by simp [handleAssignments] at h
  | n :: nodes, o, h => by
    rw [handleAssignments] at h
    split at h
    · rename_i hn
      have hn' := (isName_iff n).1 hn
      exact readName_only nodes [n] false o h
        ⟨n, [], hn', by intro _ n hn; simp at hn, rfl⟩ (fun h => by cases h)
    · rcases List.mem_cons.1 h with rfl | h
      · exact .inl ⟨n, rfl⟩
      · exact C55_only nodes o h

theorem readName_only : ∀ (nodes : List (Node α)) (v : List (Node α)) (e : Bool) (o : Out α),
    o ∈ readName v e nodes →
    (∃ name cs, Named name ∧ (e = false → Comments cs) ∧ v = name :: cs) →
    (e = true → ∃ name cs i cs', Named name ∧ Comments cs ∧ Comments cs' ∧
      v = name :: (cs ++ .equalSign i :: cs')) →
    (∃ n, o = .node n) ∨ ∃ name cs i cs' value, Named name ∧ Comments cs ∧ Comments cs' ∧
      NoComment value ∧ o = makeAssignment name (cs ++ .equalSign i :: cs' ++ [value])
  | [], v, e, o, h, _, _ => by
    rw [readName] at h
    obtain ⟨n, -, rfl⟩ := List.mem_map.1 h
    exact .inl ⟨n, rfl⟩
  | n :: nodes, v, e, o, h, h1, h2 => by
    have hassign : e = true → NoComment n → o ∈ assignment (v ++ [n]) :: handleAssignments nodes →
        (∃ n, o = .node n) ∨ ∃ name cs i cs' value, Named name ∧ Comments cs ∧ Comments cs' ∧
          NoComment value ∧ o = makeAssignment name (cs ++ .equalSign i :: cs' ++ [value]) := by
      intro he hn ho
      rcases List.mem_cons.1 ho with rfl | ho
      · obtain ⟨name, cs, i, cs', g1, g2, g3, rfl⟩ := h2 he
        refine .inr ⟨name, cs, i, cs', n, g1, g2, g3, hn, ?_⟩
        rw [List.cons_append, assignment_eq]
      · exact C55_only nodes o ho
    have hplain : o ∈ (v ++ [n]).map .node ++ handleAssignments nodes →
        (∃ n, o = .node n) ∨ ∃ name cs i cs' value, Named name ∧ Comments cs ∧ Comments cs' ∧
          NoComment value ∧ o = makeAssignment name (cs ++ .equalSign i :: cs' ++ [value]) := by
      intro ho
      rcases List.mem_append.1 ho with ho | ho
      · obtain ⟨m, -, rfl⟩ := List.mem_map.1 ho
        exact .inl ⟨m, rfl⟩
      · exact C55_only nodes o ho
    rw [readName] at h
    cases n with
    | comment j =>
      refine readName_only nodes (v ++ [Node.comment j]) e o h ?_ ?_
      · obtain ⟨name, cs, g1, g2, rfl⟩ := h1
        refine ⟨name, cs ++ [.comment j], g1, ?_, by simp⟩
        intro he m hm
        rcases List.mem_append.1 hm with hm | hm
        · exact g2 he m hm
        · exact ⟨j, List.mem_singleton.1 hm⟩
      · intro he
        obtain ⟨name, cs, i, cs', g1, g2, g3, rfl⟩ := h2 he
        refine ⟨name, cs, i, cs' ++ [.comment j], g1, g2, ?_, by simp⟩
        intro m hm
        rcases List.mem_append.1 hm with hm | hm
        · exact g3 m hm
        · exact ⟨j, List.mem_singleton.1 hm⟩
    | equalSign j =>
      cases e with
      | true => exact hassign rfl (fun i hi => by cases hi) h
      | false =>
        obtain ⟨name, cs, g1, g2, rfl⟩ := h1
        refine readName_only nodes (name :: cs ++ [Node.equalSign j]) true o h
          ⟨name, cs ++ [.equalSign j], g1, (fun h => by cases h), rfl⟩ ?_
        intro _
        exact ⟨name, cs, j, [], g1, g2 rfl, (fun m hm => by simp at hm), rfl⟩
    | list is =>
      cases e with
      | true => exact hassign rfl (fun i hi => by cases hi) h
      | false => exact hplain h
    | symbol j =>
      cases e with
      | true => exact hassign rfl (fun i hi => by cases hi) h
      | false => exact hplain h
    | string j =>
      cases e with
      | true => exact hassign rfl (fun i hi => by cases hi) h
      | false => exact hplain h
    | other j =>
      cases e with
      | true => exact hassign rfl (fun i hi => by cases hi) h
      | false => exact hplain h

end

/-- **C55** fails for a variable after another name: `a b = 5` has no Assignment. -/
theorem C55_after_name (a b i v : α) :
    handleAssignments [.symbol a, .symbol b, .equalSign i, .other v] =
      [.node (.symbol a), .node (.symbol b), .node (.equalSign i), .node (.other v)] := rfl

example : handleAssignments [.other 1, .list [2, 3], .comment 4, .equalSign 5, .symbol 6, .symbol 7,
    .other 8, .string 9, .equalSign 10, .comment 11] =
    [.node (.other 1), .assignList [2, 3] [.comment 4, .equalSign 5, .symbol 6], .node (.symbol 7),
      .node (.other 8), .node (.string 9), .node (.equalSign 10), .node (.comment 11)] := rfl

example : AtRest [.symbol 0, .other 1, .comment 2] ∧ Named (.list [3]) ∧ Comments [.comment 4] :=
  ⟨.inr ⟨[.symbol 0], 1, [.comment 2], rfl, by simp [Comments]⟩, .inl ⟨_, rfl⟩, by simp [Comments]⟩

/-! Lyrics. -/

theorem lyricsLoop_contents (p : Option (List α)) (nodes : List (LNode α)) :
    (lyricsLoop p nodes).flatMap loutContents = p.getD [] ++ nodes.flatMap lcontents := by
  induction nodes generalizing p with
  | nil => cases p <;> simp [lyricsLoop, loutContents]
  | cons n nodes ih =>
    cases n with
    | unpitched cs => simp [lyricsLoop, loutContents, ih, lcontents]
    | lyric i => cases p <;> simp [lyricsLoop, loutContents, ih, lcontents]
    | other i => cases p <;> simp [lyricsLoop, loutContents, ih, lcontents]

/-- **C55**: all syllables, durations and other nodes are kept, in the same order. -/
theorem C55_lyrics_keep (nodes : List (LNode α)) :
    (postprocessLyrics nodes).flatMap loutContents = nodes.flatMap lcontents :=
  lyricsLoop_contents none nodes

theorem lyricsLoop_append (xs ys : List (LNode α)) (p : Option (List α)) (hne : xs ≠ [])
    (h : ∀ i zs, xs ≠ zs ++ [.lyric i]) :
    lyricsLoop p (xs ++ ys) = lyricsLoop p xs ++ lyricsLoop none ys := by
  induction xs generalizing p with
  | nil => exact absurd rfl hne
  | cons x xs ih =>
    cases xs with
    | nil =>
      cases x with
      | lyric i => exact absurd rfl (h i [])
      | unpitched cs => simp [lyricsLoop]
      | other i => simp [lyricsLoop]
    | cons x' xs =>
      have h' : ∀ i zs, x' :: xs ≠ zs ++ [.lyric i] := by
        intro i zs he
        exact h i (x :: zs) (by rw [he]; rfl)
      have ih' := fun p => ih p (by simp) h'
      rw [List.cons_append]
      cases x with
      | lyric i => simp only [lyricsLoop, ih', List.append_assoc]
      | unpitched cs => simp only [lyricsLoop, ih']; rfl
      | other i => simp only [lyricsLoop, ih', List.append_assoc]; rfl

/-- **C55**: a syllable takes over the duration that follows it, wherever it is. -/
theorem C55_lyric_duration (before : List (LNode α)) (i : α) (cs : List α) (nodes : List (LNode α)) :
    postprocessLyrics (before ++ .lyric i :: .unpitched cs :: nodes) =
      postprocessLyrics before ++ .item (i :: cs) :: postprocessLyrics nodes := by
  have key : ∀ p, lyricsLoop p (before ++ .lyric i :: .unpitched cs :: nodes) =
      lyricsLoop p before ++ .item (i :: cs) :: lyricsLoop none nodes := by
    induction before with
    | nil => intro p; simp [lyricsLoop]
    | cons b before ih =>
      intro p
      rw [List.cons_append]
      cases b <;> simp only [lyricsLoop, ih, List.append_assoc, List.cons_append]
  exact key none

/-- **C55**: a syllable that is not followed by a duration becomes a LyricItem without duration. -/
theorem C55_lyric_alone (before : List (LNode α)) (i : α) (nodes : List (LNode α))
    (h : ∀ cs ns, nodes ≠ .unpitched cs :: ns) :
    postprocessLyrics (before ++ .lyric i :: nodes) =
      postprocessLyrics before ++ .item [i] :: postprocessLyrics nodes := by
  have h0 : lyricsLoop (some [i]) nodes = .item [i] :: lyricsLoop none nodes := by
    cases nodes with
    | nil => simp [lyricsLoop]
    | cons n ns =>
      cases n with
      | unpitched cs => exact absurd rfl (h cs ns)
      | lyric j => simp [lyricsLoop]
      | other j => simp [lyricsLoop]
  have key : ∀ p, lyricsLoop p (before ++ .lyric i :: nodes) =
      lyricsLoop p before ++ .item [i] :: lyricsLoop none nodes := by
    induction before with
    | nil => intro p; simp [lyricsLoop, h0]
    | cons b before ih =>
      intro p
      rw [List.cons_append]
      cases b <;> simp only [lyricsLoop, ih, List.append_assoc, List.cons_append]
  exact key none

/-- **C55**: a duration without syllable becomes a LyricItem without text. -/
theorem C55_duration_alone (before : List (LNode α)) (cs : List α) (nodes : List (LNode α))
    (h : ∀ i zs, before ≠ zs ++ [.lyric i]) :
    postprocessLyrics (before ++ .unpitched cs :: nodes) =
      postprocessLyrics before ++ .item cs :: postprocessLyrics nodes := by
  cases before with
  | nil => simp [postprocessLyrics, lyricsLoop]
  | cons b before =>
    rw [postprocessLyrics, lyricsLoop_append _ _ _ (by simp) h]
    simp [postprocessLyrics, lyricsLoop]

/-- **C55**: other nodes are kept as they are. -/
theorem C55_lyric_other (before : List (LNode α)) (i : α) (nodes : List (LNode α)) :
    postprocessLyrics (before ++ .other i :: nodes) =
      postprocessLyrics before ++ .node i :: postprocessLyrics nodes := by
  have key : ∀ p, lyricsLoop p (before ++ .other i :: nodes) =
      lyricsLoop p before ++ .node i :: lyricsLoop none nodes := by
    induction before with
    | nil => intro p; simp [lyricsLoop]
    | cons b before ih =>
      intro p
      rw [List.cons_append]
      cases b <;> simp only [lyricsLoop, ih, List.append_assoc, List.cons_append]
  exact key none

/-- **C55**: a comment between a syllable and its duration separates them: the duration goes to an
empty LyricItem of its own. -/
theorem C55_lyric_comment (syllable comment duration : α) :
    postprocessLyrics [.lyric syllable, .other comment, .unpitched [duration]] =
      [.item [syllable], .node comment, .item [duration]] := rfl

example : postprocessLyrics [.lyric 1, .unpitched [2, 3], .unpitched [4], .lyric 5, .other 6,
    .lyric 7] = [.item [1, 2, 3], .item [4], .item [5], .node 6, .item [7]] := rfl

end Quickly.Group
