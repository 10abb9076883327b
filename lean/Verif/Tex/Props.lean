import Verif.Tex.Lemmas

/-!
# C79: reading LaTeX
-/

namespace Quickly.Tex

open Quickly.Text Quickly.Node Quickly.Tex.Spec Quickly.Edits Quickly.Edits.Spec

/-- **C79**: reading a LaTeX document gives the tree with text, braces, math, commands with their options and argument,
environments and LilyPond music in them, as they are in the document. -/
theorem C79_read (ds : List D) (h : body ds) : root (D.raw.go ds) = .ok (docTree ds) := by
  rw [root, item_ds ds h.1]
  simp only [bind, Except.bind, common_ok ds h]
  rfl

/-! ## Tokens -/

theorem domToks_append (a b : List Dom) : domToks.go (a ++ b) = domToks.go a ++ domToks.go b := by
  induction a with
  | nil => rfl
  | cons x a ih => rw [List.cons_append, domToks.go, domToks.go, ih, List.append_assoc]

theorem rawToks_append (a b : List Raw) : rawToks.go (a ++ b) = rawToks.go a ++ rawToks.go b := by
  induction a with
  | nil => rfl
  | cons x a ih => rw [List.cons_append, rawToks.go, rawToks.go, ih, List.append_assoc]

theorem toks_map (ts : List Tok) : rawToks.go (ts.map .tok) = ts := by
  induction ts with
  | nil => rfl
  | cons t ts ih => rw [List.map_cons, rawToks.go, ih]; rfl

theorem toks_tok (cl : Option Tok) : rawToks.go (tokRaw cl) = cl.toList := by cases cl <;> rfl

theorem toks_name (name : Option Name) : rawToks.go (nameRaw name) = domToks.go (name.toList.map Name.tree) := by cases name <;> rfl

theorem toks_end (e : Option End) : rawToks.go (endRaw e) = domToks.go (e.toList.map End.tree) := by cases e <;> rfl

theorem toks_music (ns : List Dom) : rawToks.go (musicRaw ns) = domToks (musicTree ns) := by
  cases ns <;> simp [musicRaw, musicTree, rawToks, rawToks.go, domToks, domToks.go]

theorem toks_opts (os : List Raw) : rawToks.go (optsRaw os) = rawToks.go os := by
  cases os <;> simp [optsRaw, rawToks.go, rawToks]

theorem toks_head (os : List Raw) (name : Option Name) : rawToks.go (headRaw os name) = rawToks.go os ++ rawToks.go (nameRaw name) := by
  cases os <;> simp [headRaw, rawToks.go, rawToks, rawToks_append]

theorem toks_short (os : List Raw) (op : Tok) : rawToks.go (shortRaw os op) = rawToks.go os ++ [op] := by
  cases os <;> simp [shortRaw, rawToks.go, rawToks, rawToks_append]

theorem toks_ctx (os : List Raw) : rawToks.go (ctxRaw .option os) = rawToks.go os := by
  cases os <;> simp [ctxRaw, rawToks.go, rawToks]

mutual
theorem toks_d : (d : D) → rawToks.go d.raw = domToks d.tree
  | .text t ts => by
    have := toks_map (t :: ts)
    rw [List.map_cons] at this
    simp [D.raw, this, D.tree, domToks, domToks.go]
  | .brace op kids cl => by
    simp [D.raw, rawToks.go, rawToks, rawToks_append, toks_ds kids, toks_tok, D.tree, domToks]
  | .math m op kids cl => by
    simp [D.raw, rawToks.go, rawToks, rawToks_append, toks_ds kids, toks_tok, D.tree, domToks]
  | .comment t ts => by simp [D.raw, rawToks.go, rawToks, D.tree, domToks, domToks.go]
  | .option op kids cl => by simp [D.raw, rawToks.go, rawToks, rawToks_append, toks_ds kids, D.tree, domToks]
  | .command t opts arg => by
    simp [D.raw, rawToks.go, rawToks, rawToks_append, toks_ds arg, toks_ds opts, toks_opts, D.tree, domToks, domToks_append, cmdTree]
  | .env t opts name kids stop => by
    simp [D.raw, rawToks.go, rawToks, rawToks_append, toks_ds kids, toks_ds opts, toks_head, toks_name, toks_end, D.tree, domToks,
      domToks.go, domToks_append, cmdTree]
  | .lilyEnv t opts name opts' music stop => by
    simp [D.raw, rawToks.go, rawToks, rawToks_append, toks_ds opts', toks_ds opts, toks_head, toks_name, toks_end, toks_ctx, toks_music,
      D.tree, domToks, domToks.go, domToks_append, cmdTree]
  | .lilypond t opts op music cl => by
    simp [D.raw, rawToks.go, rawToks, rawToks_append, toks_ds opts, toks_short, toks_music, toks_tok,
      D.tree, domToks, domToks.go, domToks_append, cmdTree]
  | .lilyStart t opts => by
    simp [D.raw, rawToks.go, rawToks, toks_ds opts, toks_opts, D.tree, domToks, cmdTree]
theorem toks_ds : (ds : List D) → rawToks.go (D.raw.go ds) = domToks.go (D.tree.go ds)
  | [] => rfl
  | d :: ds => by rw [D.raw.go, rawToks_append, toks_d d, toks_ds ds, D.tree.go, domToks.go]
end

/-- **C79**: all tokens of the document are in the tree, each one once and in the same order. -/
theorem C79_tokens (ds : List D) (h : body ds) : ∃ t, root (D.raw.go ds) = .ok t ∧ domToks t = allToks ds := by
  refine ⟨_, C79_read ds h, ?_⟩
  rw [allToks, toks_ds, docTree, domToks]
  simp

/-! ## Editing -/

/-- The tokens of every text of a tree. -/
def blocks : Dom → List (List Tok)
  | .node v cs => (if v.head = [] then [] else [v.head]) ++ go cs ++ (if v.tail = [] then [] else [v.tail])
where
  /-- All nodes. -/
  go : List Dom → List (List Tok)
    | [] => []
    | c :: cs => blocks c ++ go cs

mutual
theorem blocks_flatten : (t : Dom) → (blocks t).flatten = domToks t
  | .node v cs => by
    rw [blocks, domToks, List.flatten_append, List.flatten_append, blocks_flattens cs]
    by_cases h1 : v.head = [] <;> by_cases h2 : v.tail = [] <;> simp [h1, h2]
theorem blocks_flattens : (cs : List Dom) → (blocks.go cs).flatten = domToks.go cs
  | [] => rfl
  | c :: cs => by rw [blocks.go, List.flatten_append, blocks_flatten c, blocks_flattens cs, domToks.go]
end

mutual
theorem blocks_ne : (t : Dom) → ∀ b ∈ blocks t, b ≠ []
  | .node v cs => by
    intro b hb
    rw [blocks] at hb
    rcases List.mem_append.mp hb with hb | hb
    · rcases List.mem_append.mp hb with hb | hb
      · split at hb
        · cases hb
        · simp only [List.mem_singleton] at hb; subst hb; assumption
      · exact blocks_nes cs b hb
    · split at hb
      · cases hb
      · simp only [List.mem_singleton] at hb; subst hb; assumption
theorem blocks_nes : (cs : List Dom) → ∀ b ∈ blocks.go cs, b ≠ []
  | [] => by intro b hb; cases hb
  | c :: cs => by
    intro b hb
    rw [blocks.go] at hb
    rcases List.mem_append.mp hb with hb | hb
    · exact blocks_ne c b hb
    · exact blocks_nes cs b hb
end

theorem range_span (l : List Tok) : range l = span (l.map place) := by
  cases l with
  | nil => rfl
  | cons a l =>
    unfold range
    rw [List.getLast?_eq_some_getLast (by simp)]
    simp only [List.map_cons, span, place]
    have : ∀ h, ((a.pos, a.stop) :: l.map place).getLast h = place ((a :: l).getLast (by simp)) := by
      intro h
      have := List.getLast_map (f := place) (l := a :: l) (by simp)
      simpa [place] using this
    rw [this]
    rfl

/-- The tree with places, if there are no errors. -/
def placedOk : Dom → Tree Elem
  | .node v cs => .node { v.cls.elem with headOrigin := range v.head, tailOrigin := range v.tail } (go cs)
where
  /-- The children. -/
  go : List Dom → List (Tree Elem)
    | [] => []
    | c :: cs => placedOk c :: go cs

mutual
theorem placed_full : (t : Dom) → full t → placed t = .ok (placedOk t)
  | .node v cs, h => by
    obtain ⟨h1, h2⟩ := h
    rw [placed, if_neg, placed_fulls cs h2]
    · rfl
    · rintro ⟨hk, he⟩
      cases e : v.cls.elem.kind with
      | plain => exact hk e
      | head => rw [e] at h1; exact h1.1 he
      | block => rw [e] at h1; exact h1.1 he
theorem placed_fulls : (cs : List Dom) → full.go cs → placed.go cs = .ok (placedOk.go cs)
  | [], _ => rfl
  | c :: cs, h => by rw [placed.go, placed_full c h.1, placed_fulls cs h.2]; rfl
end

theorem elem_flags (c : Cls) : c.elem.headModified = false ∧ c.elem.tailModified = false := by cases c <;> exact ⟨rfl, rfl⟩

mutual
theorem seen_points (cc : Concat) : (t : Dom) → full t →
    (points cc (placedOk t)).map seen = ((blocks t).map (List.map place)).map fun b => (span b, false)
  | .node v cs, h => by
    obtain ⟨h1, h2⟩ := h
    have hc := seen_pointss cc cs h2
    obtain ⟨f1, f2⟩ := elem_flags v.cls
    rw [placedOk, points, List.map_append, List.map_append, seen_kids, hc, blocks, List.map_append, List.map_append, List.map_append,
      List.map_append]
    cases hk : v.cls.elem.kind with
    | plain =>
      rw [hk] at h1
      simp [headPoint, tailPoint, hk, h1.1, h1.2]
    | head =>
      rw [hk] at h1
      simp [headPoint, tailPoint, hk, h1.1, h1.2, seen, f1, range_span]
    | block =>
      rw [hk] at h1
      simp [headPoint, tailPoint, hk, h1.1, h1.2, seen, f1, f2, range_span]
theorem seen_pointss (cc : Concat) : (cs : List Dom) → full.go cs →
    ((placedOk.go cs).flatMap fun c => (points cc c).map seen) =
      ((blocks.go cs).map (List.map place)).map fun b => (span b, false)
  | [], _ => rfl
  | c :: cs, h => by
    rw [placedOk.go, List.flatMap_cons, seen_points cc c h.1, seen_pointss cc cs h.2, blocks.go, List.map_append, List.map_append]
end

mutual
theorem white_placed (isSpace : Char → Bool) (hn : isSpace '\n' = true) : (t : Dom) → allWhite isSpace (placedOk t)
  | .node v cs => by
    rw [placedOk]
    refine ⟨?_, white_placeds isSpace hn cs⟩
    cases v.cls <;> simp [Cls.elem, spWhite, white, hn]
theorem white_placeds (isSpace : Char → Bool) (hn : isSpace '\n' = true) : (cs : List Dom) → allWhite.go isSpace (placedOk.go cs)
  | [] => trivial
  | c :: cs => ⟨white_placed isSpace hn c, white_placeds isSpace hn cs⟩
end

theorem full_append (a b : List Dom) : full.go (a ++ b) ↔ full.go a ∧ full.go b := by
  induction a with
  | nil => simp [full.go]
  | cons x a ih => simp [full.go, ih, and_assoc]

theorem full_names (name : Option Name) : full.go (name.toList.map Name.tree) := by
  cases name with
  | none => trivial
  | some n => exact ⟨⟨⟨by simp, rfl⟩, trivial⟩, trivial⟩

theorem full_ends (e : Option End) : full.go (e.toList.map End.tree) := by
  cases e with
  | none => trivial
  | some n => exact ⟨⟨⟨by simp, rfl⟩, ⟨⟨by simp, rfl⟩, trivial⟩, trivial⟩, trivial⟩

theorem full_cmd (t : Tok) (cs : List Dom) (h : full.go cs) : full (cmdTree t cs) := ⟨⟨by simp, rfl⟩, h⟩

theorem full_plain (c : Cls) (cs : List Dom) (hc : c.elem.kind = .plain) (h : full.go cs) : full (.node ⟨c, [], []⟩ cs) := by
  refine ⟨?_, h⟩
  simp [hc]

theorem some_ne {cl : Option Tok} (h : cl.isSome) : cl.toList ≠ [] := by cases cl <;> simp at h ⊢

mutual
theorem full_d : (d : D) → d.complete → full d.tree
  | .text t ts, _ => ⟨⟨by simp, rfl⟩, trivial⟩
  | .brace op kids cl, h => ⟨⟨by simp, some_ne h.2⟩, full_ds kids h.1⟩
  | .math m op kids cl, h => ⟨⟨by simp, some_ne h.2⟩, full_ds kids h.1⟩
  | .comment t ts, _ => ⟨⟨by simp, rfl⟩, trivial⟩
  | .option op kids cl, h => ⟨⟨by simp, by simp⟩, full_ds kids h⟩
  | .command t opts arg, h => full_cmd _ _ ((full_append _ _).mpr ⟨full_ds opts h.1, full_ds arg h.2⟩)
  | .env t opts name kids stop, h =>
    full_plain _ _ rfl ⟨full_cmd _ _ ((full_append _ _).mpr ⟨full_ds opts h.1, full_names name⟩),
      (full_append _ _).mpr ⟨full_ds kids h.2, full_ends stop⟩⟩
  | .lilyEnv t opts name opts' music stop, h =>
    full_plain _ _ rfl ⟨full_cmd _ _ ((full_append _ _).mpr ⟨(full_append _ _).mpr ⟨full_ds opts h.1, full_names name⟩, full_ds opts' h.2.1⟩),
      full_plain _ _ rfl h.2.2, full_ends stop⟩
  | .lilypond t opts op music cl, h =>
    full_cmd _ _ ((full_append _ _).mpr ⟨full_ds opts h.1,
      ⟨⟨by simp, some_ne h.2.2⟩, full_plain _ _ rfl h.2.1, trivial⟩, trivial⟩)
  | .lilyStart t opts, h => full_cmd _ _ (full_ds opts h)
theorem full_ds : (ds : List D) → D.complete.go ds → full.go (D.tree.go ds)
  | [], _ => trivial
  | d :: ds, h => ⟨full_d d h.1, full_ds ds h.2⟩
end

/-- **C79**: if a document in which nothing is missing is read and written back with `edit()`, no text is removed, and all that is
inserted is whitespace where two tokens had nothing between them. What that is exactly: `C79_newlines`. -/
theorem C79_edit (isSpace : Char → Bool) (hn : isSpace '\n' = true) (cc : Concat) (hcc : ∀ e a b, ∀ c ∈ cc e a b, isSpace c = true)
    (doc : Str) (ds : List D) (h : body ds) (hc : D.complete.go ds) (hp : Parsed isSpace doc ((allToks ds).map place))
    (hd : ∀ t ∈ allToks ds, t.stop ≤ doc.length) :
    ∃ t e, root (D.raw.go ds) = .ok t ∧ placed t = .ok e ∧
      ∀ x ∈ edits cc (whole ((allToks ds).map place)) none none e,
        x.1 = x.2.1 ∧ x.2.2 ≠ [] ∧ (∀ c ∈ x.2.2, isSpace c = true) ∧
        (∃ k ∈ allToks ds, k.pos = x.1) ∧ (x.1 = (whole ((allToks ds).map place)).pos ∨ ∃ k ∈ allToks ds, k.stop = x.1) := by
  have hf : full (docTree ds) := full_plain _ _ rfl (full_ds ds hc)
  obtain ⟨t, ht, htk⟩ := C79_tokens ds h
  have e := C79_read ds h
  rw [e] at ht
  cases ht
  refine ⟨_, _, e, placed_full _ hf, ?_⟩
  have hfl : ((blocks (docTree ds)).map (List.map place)).flatten = (allToks ds).map place := by
    rw [← List.map_flatten, blocks_flatten, htk]
  have := unchanged_blocks isSpace cc doc ((blocks (docTree ds)).map (List.map place))
    (by
      intro b hb
      obtain ⟨l, hl, rfl⟩ := List.mem_map.mp hb
      simpa using blocks_ne _ l hl)
    (placedOk (docTree ds)) (seen_points cc _ hf) (by rw [hfl]; exact hp)
    (by
      rw [hfl]
      intro k hk
      obtain ⟨t, ht, rfl⟩ := List.mem_map.mp hk
      exact hd t ht)
    (spaces_points isSpace cc hcc _ (white_placed isSpace hn _))
  rw [hfl] at this
  intro x hx
  obtain ⟨h1, h2, h3, ⟨k, hk, h4⟩, h5⟩ := this x hx
  refine ⟨h1, h2, h3, ?_, ?_⟩
  · obtain ⟨t, ht, rfl⟩ := List.mem_map.mp hk
    exact ⟨t, ht, h4⟩
  · rcases h5 with h5 | ⟨k, hk, h5⟩
    · exact .inl h5
    · obtain ⟨t, ht, rfl⟩ := List.mem_map.mp hk
      exact .inr ⟨t, ht, h5⟩

/-! ## Where the code does not do what it should -/

/-- **C79**: a comment that is directly followed by text (that starts with the newline) gets one more newline from `edit()`, so
that the text after it is in a new paragraph. -/
theorem C79_comment_newline (cc : Concat) (hcc : ∀ e a b, cc e a b = [] ∨ cc e a b = ['\n']) (t : Tok) (u : Tok)
    (h : t.stop = u.pos) (hu : u.action = .text) (hu' : u.text ∉ enders) :
    ∃ tree e, root (D.raw.go [.comment t [], .text u []]) = .ok tree ∧ placed tree = .ok e ∧
      edits cc (whole [place t, place u]) none none e = [(u.pos, u.pos, ['\n'])] := by
  have hb : body [.comment t [], .text u []] :=
    ⟨⟨trivial, by simpa [D.wf] using ⟨hu, hu'⟩, trivial⟩, rfl, by simp [D.isOption]⟩
  refine ⟨_, _, C79_read _ hb, rfl, ?_⟩
  have e1 : ∀ w : Str, w = [] ∨ w = ['\n'] → collapse [['\n'], w] = ['\n'] := by
    rintro w (rfl | rfl) <;> decide
  have e2 : collapse [['\n'], []] = ['\n'] := by decide
  have e3 : collapse [[], []] = ([] : Str) := by decide
  simp only [edits, whole, D.tree.go, D.tree, placed.go, points, points.kids, headPoint, tailPoint, Cls.elem,
    collapseLast, range, Elem.hasTail, place]
  simp [loop, before, collapseLast, h, e1 _ (hcc _ _ _), e2, e3, scan]

theorem split_none (s : Str) (items : List Item) (h : lacks s items) : split s items = none := by
  induction items with
  | nil => rfl
  | cons i items ih =>
    have hi := ih (fun t ht => h t (List.mem_cons_of_mem _ ht))
    cases i with
    | tok t => rw [split, if_neg (h t (by simp)), hi]
    | _ => rw [split, hi]; simp

/-- **C79**: an option that starts in its own context (as after `\lilypond`) and is not closed keeps its `[`
and all that follows, also when nothing follows. -/
theorem C79_open_bracket (op : Tok) (ho : op.action = .bracket) (ht : op.text = ['[']) (kids : List D) (hk : body kids) :
    optionNodes (.tok op :: D.its.go kids) = .ok [.node (factory .option [op] [] (D.tree.go kids))] := by
  rw [optionNodes, if_pos ⟨ho, ht⟩, List.length_cons, optionLoop, split_none _ _ (its_lacks_all kids hk)]
  simp only [common_ok kids hk]
  rfl

example (op : Tok) (ho : op.action = .bracket) (ht : op.text = ['[']) :
    optionNodes [.tok op] = .ok [.node (factory .option [op] [] [])] :=
  C79_open_bracket op ho ht [] ⟨trivial, rfl, by simp⟩

/-- **C79**: of an option that is not closed, the `[` is lost, and `edit()` raises IndexError. -/
theorem C79_open_option (t op : Tok) (kids : List D) (ht : t.action = .command) (ho : op.action = .bracket) (hk : body kids) :
    ∃ tree, root [.tok t, .tok op, .option (D.raw.go kids)] = .ok tree ∧ domToks tree = t :: rawToks.go (D.raw.go kids) ∧
      placed tree = .error .indexError := by
  have hs : split [']'] (D.its.go kids) = none := split_none _ _ (its_lacks_all kids hk)
  have hl : ∀ n, optionLoop (n + 1) [] (D.its.go kids) = .ok [.node (factory .option [] [] (D.tree.go kids))] := by
    intro n
    rw [optionLoop, hs]
    simp only [common_ok kids hk]
    rfl
  have hn : optionNodes (D.its.go kids) = .ok [.node (factory .option [] [] (D.tree.go kids))] := by
    unfold optionNodes
    split
    · rename_i x rest e
      rw [if_neg, hl]
      rintro ⟨h1, -⟩
      exact its_noBracket kids hk x _ e h1
    · exact hl _
  have hopt : option (D.its.go kids) = .ok ([.node (factory .option [] [] (D.tree.go kids))], []) := by
    unfold option
    split
    · rename_i x e
      rw [if_neg, hn]
      · rfl
      · intro hx
        rcases (its_lastSafe_all kids hk x e).1 with h | h <;> rw [h] at hx <;> cases hx
    · rw [hn]; rfl
  have hr : root [.tok t, .tok op, .option (D.raw.go kids)] =
      .ok (.node ⟨.document, [], []⟩ [cmdTree t [factory .option [] [] (D.tree.go kids)]]) := by
    simp [root, item.go, item, item_ds kids hk.1, hopt, common, commonLoop, ht, command, commandOptions, ho, getOptions, nodes,
      bind, Except.bind, commandNode, factory, cmdTree, flush]
  refine ⟨_, hr, ?_, rfl⟩
  rw [toks_ds]
  simp [domToks, domToks.go, cmdTree, factory]

/-- **C79**: `\begin{lilypond}` with options after it, and nothing else, raises IndexError. -/
theorem C79_open_lilypond (t : Tok) (n : Name) (hn : n.wf) (opts : List D) (ho : D.wf.all opts ∧ options opts) (h : opts ≠ [])
    (rest : List Raw) :
    root ([.tok t] ++ n.raw ++ .lily [.option (D.raw.go opts)] :: rest) = .error .indexError := by
  obtain ⟨op, kids, cl, os, rfl, -⟩ := (options_cases opts ho).resolve_left h
  have e : item (.option (D.raw.go (.option op kids cl :: os))) =
      .ok (.option ((D.option op kids cl :: os).map fun o => .node o.tree) []) := by
    rw [item, item_ds _ ho.1]
    simp only [bind, Except.bind, option_full op kids cl os ho]
  have e2 : item (.lily [.option (D.raw.go (.option op kids cl :: os))]) = .error .indexError := by
    rw [item, go_one _ _ e]
    rfl
  simp only [Name.raw, root, List.cons_append, List.nil_append, item.go, e2]
  rfl

/-- **C79**: in an environment that only has the start of another one, that start is taken for the end. -/
theorem C79_begin_taken_for_end (t : Tok) (n : Name) (t' : Tok) (n' : Name) (ht : t.action = .builtin) (htt : t.text = "\\begin".toList)
    (hn : n.wf) (ht' : t'.action = .builtin) (hn' : n'.wf) :
    root ([.tok t] ++ n.raw ++ [.env (.tok t' :: n'.raw)]) =
      .ok (docTree [.env t [] (some n) [] (some (t', n'))]) :=
  C79_read [.env t [] (some n) [] (some (t', n'))]
    ⟨⟨⟨ht, htt, ⟨trivial, by simp [options]⟩, by simp, by simpa using hn, ⟨trivial, rfl, by simp⟩, by simpa using ⟨ht', hn'⟩⟩, trivial⟩,
      rfl, by simp [D.isOption]⟩

/-! ### Examples: `$x+2$`, and the other LaTeX texts in the tests, `tests/test_dom.py` L86-143 -/

def tk (a : Action) (s : String) (p : ℕ) : Tok := ⟨a, s.toList, p⟩

def exMusic : List Dom := [.node ⟨.other "{ c }".toList, [tk .text "{" 13, tk .text "c" 15, tk .text "}" 17], []⟩ []]

/-- `\lilypond[a]{ { c } }text.%c`, and then `\begin[opts]{x}\a{b}$y$\end{x}`. -/
def exDoc : List D :=
  [.lilypond (tk .builtin "\\lilypond" 0) [.option (tk .bracket "[" 9) [.text (tk .text "a" 10) []] (tk .bracket "]" 11)] (tk .brace "{" 12)
      exMusic (some (tk .brace "}" 19)),
    .text (tk .text "text" 20) [tk .text "." 24], .comment (tk .text "%" 25) [tk .text "c" 26],
    .env (tk .builtin "\\begin" 27) [.option (tk .bracket "[" 33) [.text (tk .text "opts" 34) []] (tk .bracket "]" 38)]
      (some (tk .delimiter "{" 39, tk .nameTag "x" 40, tk .delimiter "}" 41))
      [.command (tk .command "\\a" 42) [] [.brace (tk .delimiter "{" 44) [.text (tk .text "b" 45) []] (some (tk .delimiter "}" 46))],
        .math .inlineDollar (tk .delimiter "$" 47) [.text (tk .text "y" 48) []] (some (tk .delimiter "$" 49))]
      (some (tk .builtin "\\end" 50, tk .delimiter "{" 54, tk .nameTag "x" 55, tk .delimiter "}" 56))]

theorem exDoc_body : body exDoc := by
  refine ⟨?_, rfl, by simp [exDoc, D.isOption]⟩
  simp [exDoc, D.wf, D.wf.all, tk, contents, options, chain, follows, D.isText, D.isBrace, D.open, D.isOption, enders, Name.wf, End.wf,
    Action.isDelimiter, delimiters]

theorem exDoc_complete : D.complete.go exDoc := by
  simp [exDoc, D.complete, D.complete.go, exMusic, full, full.go, Cls.elem]

example : root (D.raw.go exDoc) = .ok (docTree exDoc) := C79_read exDoc exDoc_body

/-- Writing the whole document gives its text again; not the tokens in LilyPond, and with newlines around environments. -/
example : (match root (D.raw.go exDoc) with
    | .ok t => write defaultConcat (placedOk t)
    | .error _ => []) = "\\lilypond[a]{{ c }}text.%c\n\\begin[opts]{x}\\a{b}$y$\\end{x}".toList := by
  rw [C79_read exDoc exDoc_body]
  decide +kernel

/-- `\lilypond[a]\[y`: the music and the end of the math have not been written yet. -/
def exStart : List D :=
  [.lilyStart (tk .builtin "\\lilypond" 0) [.option (tk .bracket "[" 9) [.text (tk .text "a" 10) []] (tk .bracket "]" 11)],
    .math .displayBracket (tk .delimiter "\\[" 12) [.text (tk .text "y" 14) []] none]

example : root (D.raw.go exStart) = .ok (docTree exStart) := by
  refine C79_read exStart ⟨?_, rfl, by simp [exStart, D.isOption]⟩
  simp [exStart, D.wf, D.wf.all, tk, contents, options, chain, D.isOption, enders, delimiters]

/-- `\frac{a}{b}`: only the first brace is below the command. -/
def exFrac : List D :=
  [.command (tk .command "\\frac" 0) [] [.brace (tk .delimiter "{" 5) [.text (tk .text "a" 6) []] (some (tk .delimiter "}" 7))],
    .brace (tk .delimiter "{" 8) [.text (tk .text "b" 9) []] (some (tk .delimiter "}" 10))]

example : body exFrac := by
  refine ⟨?_, rfl, by simp [exFrac, D.isOption]⟩
  simp [exFrac, D.wf, D.wf.all, tk, contents, options, chain, D.isOption, D.isBrace, enders]

end Quickly.Tex
