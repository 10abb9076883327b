import Verif.Read.Lemmas3

/-!
# C63 and C64: reading music and markup
-/

namespace Quickly.Read

open Spec

/-! ## Tokens of correct music -/

@[simp] theorem toks_mk (c : Cls) (h t : List Tok) (ks : List Elem) :
    toks (.mk c h t ks) = h ++ toksL ks ++ t := by simp [toks]

@[simp] theorem toksL_nil : toksL [] = [] := by simp [toksL]
@[simp] theorem toksL_cons (e : Elem) (es : List Elem) : toksL (e :: es) = toks e ++ toksL es := by simp [toksL]
@[simp] theorem itemsToks_nil : itemsToks [] = [] := by simp [itemsToks]
@[simp] theorem itemsToks_cons (i : Item) (is : List Item) :
    itemsToks (i :: is) = itemToks i ++ itemsToks is := by simp [itemsToks]

mutual

theorem mk_toks (m : Mk) : toks m.node = itemsToks m.items := by
  cases m with
  | word t => simp [Mk.node, Mk.items, itemToks]
  | elem c e => simp [Mk.node, Mk.items, itemToks]
  | cmd t args =>
    have := mks_toks args
    simp [Mk.node, Mk.items, itemToks, this]

theorem mks_toks (l : List Mk) : toksL (Mk.nodes l) = itemsToks (Mk.itemsL l) := by
  cases l with
  | nil => simp [Mk.nodes, Mk.itemsL]
  | cons a as =>
    have h1 := mk_toks a
    have h2 := mks_toks as
    simp [Mk.nodes, Mk.itemsL, itemsToks_append, h1, h2]

end

theorem markup_toks (m : Markup) : toks m.node = itemsToks m.items := by
  have h := itemsToks_append (m.arg.items.take m.split) (m.arg.items.drop m.split)
  rw [List.take_append_drop] at h
  simp [Markup.node, Markup.items, itemToks, mk_toks, h]

theorem arg_toks (a : Arg) : toks a.node = itemToks a.item := by
  cases a <;> simp [Arg.node, Arg.item, itemToks]

theorem ev_toks (ev : Ev) : toks ev.node = itemsToks ev.items := by
  cases ev <;> simp [Ev.node, Ev.items, itemToks, arg_toks]

theorem append_toks (c : Cls) (h : List Tok) (ks : List Elem) (e : Elem) :
    toks ((Elem.mk c h [] ks).append e) = toks (.mk c h [] ks) ++ toks e := by
  simp [Elem.append, toksL_append]

theorem ev_append_toks (ev : Ev) (e : Elem) : toks (ev.node.append e) = toks ev.node ++ toks e := by
  cases ev <;> exact append_toks _ _ _ _

theorem art_toks (a : Art) : toks a.node = itemsToks a.items := by
  cases a <;> simp [Art.node, Art.items, itemToks, markup_toks]

theorem nest_toks (evs : List Ev) (a : Elem) :
    toks (nest evs a) = itemsToks (evs.flatMap Ev.items) ++ toks a := by
  induction evs with
  | nil => simp [nest]
  | cons e es ih => simp [nest, ev_append_toks, ih, ev_toks, itemsToks_append]

theorem artItem_toks (a : ArtItem) : toks a.node = itemsToks a.items := by
  cases a <;> simp [ArtItem.node, ArtItem.items, nest_toks, itemsToks_append, art_toks, itemToks]

theorem artItems_toks (l : List ArtItem) :
    toksL (l.map ArtItem.node) = itemsToks (l.flatMap ArtItem.items) := by
  induction l with
  | nil => simp
  | cons a as ih => simp [artItem_toks, ih, itemsToks_append]

theorem comments_toks (l : List Elem) : itemsToks (comments l) = toksL l := by
  induction l with
  | nil => simp [comments]
  | cons a as ih => simpa [comments, itemToks] using ih

theorem dur_toks (d : Dur) : itemsToks d.items = toksL d.before ++ toks d.node := by
  rcases h : d.rest with _ | r <;>
    simp [Dur.items, Dur.node, h, itemsToks_append, comments_toks, itemToks]

theorem chordMod_toks (c : ChordMod) : toks c.node = itemsToks c.items := by
  rcases h : c.pitch with _ | p <;> rcases h' : c.steps with _ | l <;>
    simp [ChordMod.items, ChordMod.node, h, h', itemToks]

theorem mods_toks (m : Mods) : toks m.node = itemsToks m.items := by
  cases m with
  | rest t => simp [Mods.node, Mods.items, itemToks]
  | chord c cs =>
    have : toksL (cs.map ChordMod.node) = itemsToks (cs.flatMap ChordMod.items) := by
      induction cs with
      | nil => simp
      | cons a as ih => simp [chordMod_toks, ih, itemsToks_append]
    simp [Mods.node, Mods.items, this, chordMod_toks, itemsToks_append]

theorem start_toks (st : Start) : toks st.node = itemsToks st.items := by
  cases st with
  | tok t => simp [Start.node, Start.items, itemToks]
  | elem e => simp [Start.node, Start.items, itemToks]
  | word t more last =>
    have : itemsToks (more.map .tok) = more := by
      induction more with
      | nil => simp
      | cons a as ih => simp [itemToks, ih]
    simp [Start.node, Start.items, itemToks, itemsToks_append, this]

theorem base_tail (nargs : Counts) (s : Sound) (hs : s.Ok nargs) :
    ∃ c h ks, s.base = .mk c h [] ks ∧ h ++ toksL ks = (s.start.map fun x => itemsToks x.items).getD [] := by
  rcases hst : s.start with _ | st
  · exact ⟨.unpitched, [], [], by simp [Sound.base, hst]⟩
  · have hok := hs.start st hst
    have ht := start_toks st
    cases st with
    | tok t =>
      rcases hm : s.mods with _ | (u | ⟨c, cs⟩)
      · exact ⟨soundClass t.kind, [t], [], by simp [Sound.base, hst, hm, Start.node], by simp [Start.items, itemToks]⟩
      · exact ⟨.pitchedRest, [t], [], by simp [Sound.base, hst, hm], by simp [Start.items, itemToks]⟩
      · exact ⟨soundClass t.kind, [t], [], by simp [Sound.base, hst, hm, Start.node], by simp [Start.items, itemToks]⟩
    | word t more last =>
      refine ⟨.made .lyricText, t :: (more ++ [last]), [], by simp [Sound.base, hst, Start.node], ?_⟩
      simpa [Start.node] using ht
    | elem e =>
      cases e with
      | mk c h tl ks =>
        simp only [Start.Ok] at hok
        subst hok
        refine ⟨c, h, ks, by simp [Sound.base, hst, Start.node], ?_⟩
        simpa [Start.node] using ht

theorem sound_items_toks (s : Sound) :
    itemsToks s.items = (s.start.map fun x => itemsToks x.items).getD []
      ++ toksL ((s.pitch.map fun p => p.1 ++ p.2).getD [])
      ++ (s.dur.map fun d => toksL d.before ++ toks d.node).getD [] ++ toksL s.durComments
      ++ (s.mods.map fun m => toks m.node).getD [] ++ toksL s.modComments
      ++ toksL (s.arts.map ArtItem.node) ++ toksL s.artComments := by
  have h1 : itemsToks ((s.start.map Start.items).getD []) = (s.start.map fun x => itemsToks x.items).getD [] := by
    cases s.start <;> simp
  have h2 : itemsToks (s.pitch.toList.map fun p => Item.pitch (p.1 ++ p.2))
      = toksL ((s.pitch.map fun p => p.1 ++ p.2).getD []) := by
    cases s.pitch <;> simp [itemToks]
  have h3 : itemsToks ((s.dur.map Dur.items).getD []) = (s.dur.map fun d => toksL d.before ++ toks d.node).getD [] := by
    cases s.dur <;> simp [dur_toks]
  have h4 : itemsToks ((s.mods.map Mods.items).getD []) = (s.mods.map fun m => toks m.node).getD [] := by
    cases s.mods <;> simp [mods_toks]
  simp only [Sound.items, itemsToks_append, h1, h2, h3, h4, comments_toks, artItems_toks]

theorem sound_nodes_toks (nargs : Counts) (s : Sound) (hs : s.Ok nargs) :
    toksL s.nodes = (s.start.map fun x => itemsToks x.items).getD []
      ++ toksL ((s.pitch.map fun p => p.1 ++ p.2).getD [])
      ++ (s.dur.map fun d => toks d.node ++ toksL d.before).getD [] ++ toksL s.durComments
      ++ (s.mods.map fun m => toks m.node).getD [] ++ toksL s.modComments
      ++ toksL (s.arts.map ArtItem.node) ++ toksL s.artComments := by
  obtain ⟨c, h, ks, hb, ht⟩ := base_tail nargs s hs
  rw [← ht]
  clear ht
  have hmc := hs.modComments
  have hdc := hs.durComments
  have hac := hs.artComments
  have harts : ∀ {q : Bool}, s.arts.isEmpty = q → (q = true ↔ s.arts = []) := by
    intro q hq; subst hq; simp
  rcases hp : s.pitch with _ | p <;> rcases hd : s.dur with _ | d <;> rcases hm : s.mods with _ | m <;>
    rcases hz : s.arts.isEmpty with _ | _ <;>
    simp_all [Sound.nodes, Sound.children, Sound.comments0, Sound.comments1, Sound.comments2, Elem.extend,
      toksL_append]

theorem phrase_toks (nargs : Counts) (b : Before) (p : Phrase) (hp : p.Ok nargs b) (hpl : p.Plain) :
    toksL p.nodes = itemsToks p.items := by
  cases p with
  | sound s =>
    rw [show (Phrase.sound s).nodes = s.nodes from rfl, show (Phrase.sound s).items = s.items from rfl,
      sound_items_toks, sound_nodes_toks nargs s hp.1]
    rcases hd : s.dur with _ | d
    · simp
    · simp [hpl d hd]
  | before ev => simp [Phrase.nodes, Phrase.items, ev_toks]
  | plain t => simp [Phrase.nodes, Phrase.items, itemToks]
  | elem c e => simp [Phrase.nodes, Phrase.items, itemToks]
  | markup m => simp [Phrase.nodes, Phrase.items, markup_toks]
  | comment e => simp [Phrase.nodes, Phrase.items, itemToks]
  | flat l => simp [Phrase.nodes, Phrase.items, itemToks]

theorem phrase_count (nargs : Counts) (b : Before) (p : Phrase) (hp : p.Ok nargs b) (t : Tok) :
    (toksL p.nodes).count t = (itemsToks p.items).count t := by
  by_cases h : ∃ s, p = .sound s
  · obtain ⟨s, rfl⟩ := h
    rw [show (Phrase.sound s).nodes = s.nodes from rfl, show (Phrase.sound s).items = s.items from rfl,
      sound_items_toks, sound_nodes_toks nargs s hp.1]
    rcases hd : s.dur with _ | d
    · simp
    · simp only [Option.map_some, Option.getD_some, List.count_append]; omega
  · rw [phrase_toks nargs b p hp (by cases p <;> simp_all [Phrase.Plain])]

/-! ## C63 -/

/-- Whatever the input is: no token is in the nodes more often than in the source. -/
theorem C63_no_token_twice (nargs : Counts) (items : List Item) (out : List Elem)
    (h : music nargs items = .ok out) (t : Tok) : (toksL out).count t ≤ (itemsToks items).count t := by
  have := cnt_run nargs t _ _ _ _ h
  simpa [cntS, cntL, cntI] using this

/-- Correct music is read as it should: every sound becomes one node that has everything that belongs to
it, and everything else becomes a node of its own.  (Partial: the definition of `Sound` leaves out some
comments, and `Phrase.Ok` leaves out variables, strings and markup after a tag.) -/
theorem C63_correct_partial (nargs : Counts) (ps : List Phrase) (h : Correct nargs {} ps) :
    music nargs (ps.flatMap Phrase.items) = .ok (ps.flatMap Phrase.nodes) := by
  have := read_correct nargs ps {} {} pend_idle h
  simpa [read, music, pendingMusic, withDuration] using this

/-- All tokens of correct music are in the nodes, exactly as often as in the source. -/
theorem C63_nothing_lost_partial (nargs : Counts) (ps : List Phrase) (b : Before) (h : Correct nargs b ps) (t : Tok) :
    (toksL (ps.flatMap Phrase.nodes)).count t = (itemsToks (ps.flatMap Phrase.items)).count t := by
  induction ps generalizing b with
  | nil => simp
  | cons p ps ih =>
    obtain ⟨h1, h2⟩ := h
    simp [toksL_append, itemsToks_append, phrase_count nargs b p h1 t, ih _ h2]

/-- If there is no comment between a note and its duration, the tokens are in the same order. -/
theorem C63_order_partial (nargs : Counts) (ps : List Phrase) (b : Before) (h : Correct nargs b ps)
    (hpl : ∀ p ∈ ps, p.Plain) :
    toksL (ps.flatMap Phrase.nodes) = itemsToks (ps.flatMap Phrase.items) := by
  induction ps generalizing b with
  | nil => simp
  | cons p ps ih =>
    obtain ⟨h1, h2⟩ := h
    simp [toksL_append, itemsToks_append, phrase_toks nargs b p h1 (hpl p (by simp)),
      ih _ h2 (fun x hx => hpl x (by simp [hx]))]

/-! ### Where tokens are lost -/

/-- A comment element. -/
def exComment (n : ℕ) : Elem := .mk .comment [⟨n, .unknown, none⟩] [] []

/-- A comment after a rest without duration is lost: `r %{ comment %} c`. -/
theorem C63_comment_lost (nargs : Counts) (r c : Tok) (e : Elem) (hr : r.kind = .rest) (hc : c.kind = .pitch) :
    music nargs [.tok r, .elem .comment e, .tok c]
      = .ok [.mk (.made .rest) [r] [] [], .mk .note [c] [] []] := by
  simp [music, run, step, token, context, hr, hc, start, silent, pendingMusic, withDuration, popComments,
    popList, withPart, make, wants, bind, Except.bind]

/-- A variable after a tag is lost, if there is no music before it: `{ \tag #'a \music }`. -/
theorem C63_tag_variable_lost (nargs : Counts) (g : Tok) (name v : Elem) (hg : g.kind = .tag) :
    music nargs [.tok g, .elem .string name, .elem .identifierRef v]
      = .ok [.mk .tag [g] [] [name]] := by
  simp [music, run, step, token, context, hg, silent, pendingMusic, withDuration, make, wants, toLast,
    addArticulation, isPrefix, Elem.cls, Elem.kids, Elem.append, bind, Except.bind]

/-- A comment before the arguments of a tweak makes that the last argument is lost:
`{ \tweak %{ comment %} color #red c }`. -/
theorem C63_tweak_comment_lost (nargs : Counts) (w p c : Tok) (e v : Elem) (hw : w.kind = .tweak)
    (hp : p.kind = .symbol) (hc : c.kind = .pitch) :
    music nargs [.tok w, .elem .comment e, .tok p, .elem .string v, .tok c]
      = .ok [.mk .tweak [w] [] [e, .mk (.made .symbol) [p] [] []], .mk .note [c] [] []] := by
  simp [music, run, step, token, context, hw, hp, hc, start, silent, pendingMusic, withDuration, make, wants,
    toLast, addArticulation, isPrefix, Elem.cls, Elem.kids, Elem.append, bind, Except.bind, popComments, popList, withPart]

/-- A chord modifier without a note before it, or after an articulation, makes reading fail:
`\chordmode { :7 }`. -/
theorem C63_chord_modifier_fails (nargs : Counts) (m : Tok) (l : List Elem) (hm : m.kind = .chordMod)
    (hg : m.group = none) : music nargs [.tok m, .modifier l] = .error .typeError := by
  simp [music, run, step, token, context, hm, hg, silent, token.addModifier, bind, Except.bind]

/-- A comment at the end of a chord without duration is moved out of it: `< c %{ comment %} >`. -/
theorem C63_chord_comment_moved (nargs : Counts) (o c : Tok) (note comment : List Tok) :
    music nargs [.elem .music (.mk (.other "Chord") [] [] [.mk (.other "ChordBody") [o] [c]
        [.mk .note note [] [], .mk .comment comment [] []]])]
      = .ok [.mk (.other "Chord") [] [] [.mk (.other "ChordBody") [o] [c] [.mk .note note [] []]], .mk .comment comment [] []] := by
  simp [music, run, step, context, start, pendingMusic, withDuration, popComments, popList, withPart,
      Elem.isComment, Elem.cls, bind, Except.bind]

/-! ### A concrete case -/

/-- ``\tag #'a c'4 %{ %} -\tweak color #red ^\markup \bold hi r \rest | \lyricmode { ... }``: hypotheses are met. -/
def exSounds : List Phrase :=
  [.before (.tag ⟨0, .tag, none⟩ (.mk (.other "Symbol") [⟨1, .symbol, none⟩] [] [])),
   .sound { start := some (.tok ⟨2, .pitch, none⟩)
            pitch := some ([.mk (.other "Octave") [⟨3, .unknown, none⟩] [] []], [])
            dur := some { tok := ⟨4, .duration, none⟩, rest := some ([⟨5, .unknown, none⟩], none) }
            durComments := [exComment 6]
            arts := [.art [.tweak ⟨7, .tweak, none⟩ (.tok ⟨8, .symbol, none⟩) (.elem (exElem 9)),
                .direction ⟨10, .direction, none⟩]
              (.markup { command := ⟨11, .keyword, none⟩, arg := .cmd ⟨12, .function, none⟩ [.word ⟨13, .word, none⟩], split := 1 })] },
   .sound { start := some (.tok ⟨14, .pitch, none⟩), mods := some (.rest ⟨15, .restMark, none⟩) },
   .plain ⟨16, .pipe, none⟩,
   .flat [exElem 17],
   .sound { start := none, dur := some { tok := ⟨18, .duration, none⟩ } }]
where exElem (n : ℕ) : Elem := .mk (.other "Scheme") [⟨n, .unknown, none⟩] [] []

theorem exSounds_correct : Correct (fun _ => 1) {} exSounds := by
  refine ⟨?_, ?_, ?_, ?_, ?_, ?_, trivial⟩
  · simp [Phrase.Ok, Ev.Ok]
  · refine ⟨?_, by simp⟩
    constructor <;> simp [Start.Ok, AllComments, exComment, Elem.isComment, Elem.cls, ArtItem.Ok, Ev.Ok, Arg.ForTweak,
      Art.Ok, Markup.Ok, Mk.Ok, Mk.OkL, Mk.isComment]
    exact Settled.last _ _ _ [] _ (by simp [ArtItem.node, nest, Ev.node, Elem.append, Elem.isComment, Elem.cls]) (by
      simp only [ArtItem.node, nest, Ev.node, Elem.append, Art.node, Markup.node, Mk.node, Mk.nodes]
      exact Settled.last _ _ _ [_, _] _ rfl (.last _ _ _ [] _ rfl (.last _ _ _ [] _ rfl (.last _ _ _ [] _ rfl (.leaf _ _ _)))))
  · refine ⟨?_, by simp⟩
    constructor <;> simp [Start.Ok, AllComments]
    · simp [Sound.base, Elem.extend]; exact .leaf _ _ _
    · exact .leaf _ _ _
  · simp [Phrase.Ok]
  · simp [Phrase.Ok, Phrase.next]
  · refine ⟨?_, by simp [Phrase.next]⟩
    constructor <;> simp [AllComments]

example : ∃ out, music (fun _ => 1) (exSounds.flatMap Phrase.items) = .ok out ∧ out.length = 6 :=
  ⟨_, C63_correct_partial _ _ exSounds_correct, by decide +kernel⟩

example (t : Tok) : (toksL (exSounds.flatMap Phrase.nodes)).count t
    = (itemsToks (exSounds.flatMap Phrase.items)).count t := C63_nothing_lost_partial _ _ _ exSounds_correct t

example : toksL (exSounds.flatMap Phrase.nodes) = itemsToks (exSounds.flatMap Phrase.items) :=
  C63_order_partial _ _ _ exSounds_correct (by simp [exSounds, Phrase.Plain])

/-! ## C64: markup -/

/-- A markup with its argument becomes one node, with every command having its own arguments; what
follows is untouched. -/
theorem C64_markup_partial (nargs : Counts) (m : Markup) (rest : List Item) (h : m.Ok nargs) :
    createMarkup nargs (.tok m.command :: m.arg.items.take m.split) (m.arg.items.drop m.split ++ rest)
      = (some m.node, rest) := createMarkup_ok nargs m rest h.1

theorem readAll_fuel (nargs : Counts) (args : List Mk) (h : Mk.OkL nargs args) (n : ℕ) (hn : (Mk.itemsL args).length ≤ n) :
    readAll nargs n (Mk.itemsL args) = Mk.nodes args := by
  induction args generalizing n with
  | nil => cases n <;> simp [readAll, Mk.itemsL, Mk.nodes, readOne]
  | cons a as ih =>
    have hlen : 1 ≤ a.items.length := by cases a <;> simp [Mk.items]
    simp only [Mk.OkL] at h
    simp only [Mk.itemsL, List.length_append] at hn
    obtain ⟨n, rfl⟩ : ∃ k, n = k + 1 := ⟨n - 1, by omega⟩
    simp only [readAll, Mk.itemsL, Mk.nodes]
    rw [readOne_ok nargs _ a _ h.1 (by simp [fuel]; omega)]
    simp [ih h.2 n (by omega)]

/-- A list of markup: the commands and their arguments, and comments anywhere between them. -/
theorem C64_markup_list (nargs : Counts) (args : List Mk) (h : Mk.OkL nargs args) :
    readAll nargs (Mk.itemsL args).length (Mk.itemsL args) = Mk.nodes args :=
  readAll_fuel nargs args h _ (Nat.le_refl _)

/-- All tokens of a markup expression are in the node, in the same order. -/
theorem C64_order (m : Markup) : toks m.node = itemsToks m.items := markup_toks m

/-- Also when arguments are missing, no token is used twice. -/
theorem C64_no_token_twice (nargs : Counts) (n : ℕ) (items : List Item) (t : Tok) :
    (toksL (readAll nargs n items)).count t ≤ (itemsToks items).count t := by
  induction n generalizing items with
  | zero => simp [readAll]
  | succ n ih =>
    simp only [readAll]
    rcases h : readOne nargs (fuel items) items with _ | ⟨a, items'⟩
    · simp
    · have h1 := cnt_readOne nargs t _ items a items' h
      have h2 := ih items'
      simp only [cnt, cntI] at h1
      simp; omega

/-- A comment before the argument replaces it, the argument is lost: `\markup %{ comment %} "text"`. -/
theorem C64_comment_replaces (nargs : Counts) (m : Tok) (c s : Elem) (rest : List Item) :
    createMarkup nargs [.tok m, .elem .comment c, .elem .string s] rest = (some (.mk .markup [m] [] [c]), rest) := by
  simp [createMarkup, readOne, fuel, tokOf]

/-- `\line { a \bold b }` etc.: the hypotheses are met. -/
def exMk : List Mk :=
  [.word ⟨0, .word, none⟩, .elem .comment (exComment 1),
    .cmd ⟨2, .function, none⟩ [.elem .comment (exComment 3), .cmd ⟨4, .function, none⟩ [.word ⟨5, .word, none⟩]],
    .elem .other (.mk (.other "MarkupList") [⟨6, .unknown, none⟩] [] [])]

example : readAll (fun _ => 1) 6 (Mk.itemsL exMk) = Mk.nodes exMk :=
  C64_markup_list (fun _ => 1) exMk (by simp [exMk, Mk.OkL, Mk.Ok, Mk.isComment, exComment, Elem.isComment, Elem.cls])

end Quickly.Read
