import Verif.Indent.Lemmas

/-! # C42: indented output keeps the text -/

namespace Quickly.Indent

open Quickly.Node Quickly.Text Spec

/-- **C42**: writing indented text does not fail, for any tree, indent settings and hints. -/
theorem C42_no_error (isSpace : Char → Bool) (cc : Concat) (cfg : Config) (t : Tree Elem) :
    ∃ out, writeIndented isSpace cc cfg t = .ok out := by
  have h := inv_outputNode cc cfg (-1) 0 t (initial cfg)
    ⟨Nat.le_refl _, Nat.le_refl _, rfl⟩
  exact ⟨_, by rw [writeIndented, h.2.2]; rfl⟩

theorem writeIndented_eq (isSpace : Char → Bool) (cc : Concat) (cfg : Config) (t : Tree Elem)
    (out : Str) (h : writeIndented isSpace cc cfg t = .ok out) :
    out = (blocks isSpace cc cfg t).flatMap Block.output := by
  rw [writeIndented] at h
  split at h
  · cases h
  · exact (Except.ok.inj h).symm

/-- **C42**: the output consists of lines, each with an indent of a number of spaces and a newline at the
end. The lines without the indents are, apart from whitespace at the start of the output, all
texts in document order, with between two texts the most important of the wishes
between them. -/
theorem C42_lines (isSpace : Char → Bool) (hn : isSpace '\n' = true) (cc : Concat) (cfg : Config)
    (t : Tree Elem) (out : Str) (h : writeIndented isSpace cc cfg t = .ok out) :
    ∃ lines : List (ℕ × Str),
      out = (lines.flatMap fun l => List.replicate l.1 ' ' ++ l.2 ++ ['\n']) ∧
      ∃ lead, (∀ c ∈ lead, isSpace c = true) ∧
        render [] (stream cc t) = lead ++ joinLines (lines.map Prod.snd) := by
  rw [writeIndented_eq isSpace cc cfg t out h]
  refine ⟨(blocks isSpace cc cfg t).map fun b => (b.indent.toNat, b.text), ?_, ?_⟩
  · rw [List.flatMap_map]; rfl
  · rw [← content_output cc cfg t, List.map_map]
    have e : (Prod.snd ∘ fun b : Block => (b.indent.toNat, b.text)) = Block.text := rfl
    rw [e]
    rcases strip_spec isSpace hn ((outputNode cc cfg (-1) t (initial cfg)).done ++
        [(outputNode cc cfg (-1) t (initial cfg)).cur]) with ⟨h1, h2⟩ | ⟨lead, h1, -, h3⟩
    · refine ⟨_, h2, ?_⟩
      rw [blocks, h1]
      simp [joinLines, content]
    · exact ⟨lead, h1, h3⟩

/-- A whitespace character at the start of the output is that of an indent (or of a text that starts
with whitespace): the first line is never blank. -/
theorem C42_first_line (isSpace : Char → Bool) (cc : Concat) (cfg : Config) (t : Tree Elem)
    (b : Block) (bs : List Block) (h : blocks isSpace cc cfg t = b :: bs) :
    ∃ x xs, b.line = x :: xs ∧ strIsSpace isSpace x = false := by
  have key : ∀ l : List Block, strip isSpace l = b :: bs →
      ∃ x xs, b.line = x :: xs ∧ strIsSpace isSpace x = false := by
    intro l
    induction l with
    | nil => intro h; cases h
    | cons a l ih =>
      intro h
      rw [strip] at h
      cases hd : a.line.dropWhile (strIsSpace isSpace) with
      | nil => rw [hd] at h; exact ih h
      | cons x xs =>
        rw [hd] at h
        simp only [List.cons.injEq] at h
        refine ⟨x, xs, by rw [← h.1], ?_⟩
        have : (a.line.dropWhile (strIsSpace isSpace)).head? = some x := by rw [hd]; rfl
        have := List.head?_dropWhile_not (strIsSpace isSpace) a.line
        rw [hd] at this
        simpa using this
  exact key _ h

/-- **C42**: the text ends with a newline (if there is any). -/
theorem C42_newline (isSpace : Char → Bool) (hn : isSpace '\n' = true) (cc : Concat) (cfg : Config)
    (t : Tree Elem) (out : Str) (h : writeIndented isSpace cc cfg t = .ok out) :
    out = [] ∨ ∃ r, out = r ++ ['\n'] := by
  obtain ⟨lines, e, -⟩ := C42_lines isSpace hn cc cfg t out h
  rcases List.eq_nil_or_concat lines with rfl | ⟨ls, l, rfl⟩
  · exact .inl e
  · refine .inr ⟨(ls.flatMap fun l => List.replicate l.1 ' ' ++ l.2 ++ ['\n']) ++
      (List.replicate l.1 ' ' ++ l.2), ?_⟩
    rw [e]; simp

/-! ### Visible text -/

theorem visible_append (f : Char → Bool) (a b : Str) : visible f (a ++ b) = visible f a ++ visible f b := by
  simp [visible]

theorem visible_space (f : Char → Bool) (a : Str) (h : ∀ c ∈ a, f c = true) : visible f a = [] := by
  simp only [visible, List.filter_eq_nil_iff]
  intro c hc
  simp [h c hc]

theorem visible_flatten (f : Char → Bool) (l : List Str) :
    visible f l.flatten = (l.map (visible f)).flatten := by
  induction l with
  | nil => rfl
  | cons a l ih => rw [List.flatten_cons, visible_append, ih]; rfl

theorem visible_joinLines (f : Char → Bool) (hn : f '\n' = true) (ls : List Str) :
    visible f (joinLines ls) = visible f ls.flatten := by
  induction ls with
  | nil => rfl
  | cons a ls ih =>
    cases ls with
    | nil => simp [joinLines]
    | cons b ls =>
      rw [joinLines, List.flatten_cons, visible_append, visible_append, ← ih]
      simp [visible, hn]

/-- The texts of a stream. -/
def itemTexts : List Item → List Str
  | [] => []
  | .wish _ :: is => itemTexts is
  | .text x :: is => x :: itemTexts is

theorem itemTexts_append (a b : List Item) : itemTexts (a ++ b) = itemTexts a ++ itemTexts b := by
  induction a with
  | nil => rfl
  | cons i a ih => cases i <;> simp [itemTexts, ih]

theorem visible_render (f : Char → Bool) (is : List Item) (h : ∀ w, .wish w ∈ is → ∀ c ∈ w, f c = true) :
    ∀ ws : List Str, (∀ w ∈ ws, ∀ c ∈ w, f c = true) →
      visible f (render ws is) = visible f (itemTexts is).flatten := by
  induction is with
  | nil => intro ws _; rfl
  | cons i is ih =>
    have ih := ih fun w hw => h w (by simp [hw])
    intro ws hws
    cases i with
    | wish w =>
      rw [render, itemTexts]
      apply ih
      intro v hv
      rcases List.mem_append.1 hv with hv | hv
      · exact hws v hv
      · simp at hv; subst hv; exact h v (by simp)
    | text x =>
      rw [render, itemTexts, visible_append, visible_append, ih [] (by simp), List.flatten_cons,
        visible_append]
      have : visible f (collapse ws) = [] := by
        apply visible_space
        cases ws with
        | nil => simp [collapse]
        | cons w ws => exact hws _ (collapse_mem (by simp))
      rw [this]; rfl

theorem itemTexts_between (cc : Concat) (e : Elem) (p : Option (Tree Elem)) (m : Tree Elem) :
    itemTexts (between cc e p m) = [] := by cases p <;> rfl

mutual

theorem stream_texts (cc : Concat) (t : Tree Elem) : itemTexts (stream cc t) = Text.Spec.texts t := by
  cases t with
  | node e cs =>
    rw [stream_eq, itemTexts_append, itemTexts_append, kids_texts cc e none cs, Text.Spec.texts]
    congr 1
    · congr 1
      simp only [headItems, itemTexts_append, itemTexts, List.nil_append, Text.Spec.some?]
      by_cases h1 : e.kind = .plain
      · simp [h1, itemTexts]
      · by_cases h2 : e.head = []
        · simp [h1, h2, itemTexts]
        · simp only [h1, h2, not_false_eq_true, and_self, if_true, if_false, itemTexts, ne_eq]
          split <;> rfl
    · simp only [tailItems, itemTexts_append, itemTexts, List.append_nil, Text.Spec.some?, Elem.hasTail]
      by_cases h1 : e.kind = .block
      · by_cases h2 : e.tail = []
        · simp [h1, h2, itemTexts]
        · simp [h1, h2, itemTexts]
      · have : (e.kind == Kind.block) = false := by simpa using h1
        simp [h1, itemTexts]

theorem kids_texts (cc : Concat) (e : Elem) (p : Option (Tree Elem)) (cs : List (Tree Elem)) :
    itemTexts (stream.kids cc e p cs) = Text.Spec.texts.go cs := by
  cases cs with
  | nil => rfl
  | cons m ms =>
    rw [stream.kids, itemTexts_append, itemTexts_append, itemTexts_between, stream_texts cc m,
      kids_texts cc e (some m) ms]
    rfl

end

theorem mem_headItems (e : Elem) (b : Bool) (w : Str) (h : .wish w ∈ headItems e b) :
    w = e.sp.before ∨ w = e.sp.afterHead := by
  simp only [headItems, List.mem_append, List.mem_singleton, Item.wish.injEq] at h
  rcases h with h | h
  · exact .inl h
  · split at h
    · rcases List.mem_cons.1 h with h | h
      · cases h
      · split at h
        · simp only [List.mem_singleton, Item.wish.injEq] at h; exact .inr h
        · cases h
    · cases h

theorem mem_tailItems (e : Elem) (w : Str) (h : .wish w ∈ tailItems e) :
    w = e.sp.beforeTail ∨ w = e.sp.after := by
  simp only [tailItems, List.mem_append, List.mem_singleton, Item.wish.injEq] at h
  rcases h with h | h
  · split at h
    · rcases List.mem_cons.1 h with h | h
      · exact .inl (Item.wish.inj h)
      · simp at h
    · cases h
  · exact .inr h

mutual

theorem stream_wish (cc : Concat) (t : Tree Elem) (w : Str) (h : .wish w ∈ stream cc t) :
    Text.Spec.Wish cc t w := by
  cases t with
  | node e cs =>
    rw [stream_eq, List.mem_append, List.mem_append] at h
    rcases h with (h | h) | h
    · rcases mem_headItems e _ w h with rfl | rfl
      · exact .before
      · exact .afterHead
    · exact kids_wish cc e none cs [] (by simp) w h
    · rcases mem_tailItems e w h with rfl | rfl
      · exact .beforeTail
      · exact .after

theorem kids_wish (cc : Concat) (e : Elem) (p : Option (Tree Elem)) (cs as : List (Tree Elem))
    (hp : ∀ n ∈ p, ∃ as', as = as' ++ [n]) (w : Str) (h : .wish w ∈ stream.kids cc e p cs) :
    Text.Spec.Wish cc (.node e (as ++ cs)) w := by
  cases cs with
  | nil => cases h
  | cons m ms =>
    rw [stream.kids, List.mem_append, List.mem_append] at h
    rcases h with (h | h) | h
    · cases p with
      | none => cases h
      | some n =>
        obtain ⟨as', rfl⟩ := hp n rfl
        simp only [between, List.mem_singleton, Item.wish.injEq] at h
        subst h
        rw [List.append_assoc, List.singleton_append]
        exact .between
    · exact .child (by simp) (stream_wish cc m w h)
    · have := kids_wish cc e (some m) ms (as ++ [m]) (by rintro n ⟨⟩; exact ⟨as, rfl⟩) w h
      simpa using this

end

/-- **C42**: apart from whitespace, the output is all texts of the tree in document order. -/
theorem C42_texts (isSpace : Char → Bool) (hn : isSpace '\n' = true) (hs : isSpace ' ' = true)
    (cc : Concat) (cfg : Config) (t : Tree Elem) (out : Str)
    (h : writeIndented isSpace cc cfg t = .ok out) (hw : wishesAreSpace isSpace cc t) :
    visible isSpace out = visible isSpace (Text.Spec.texts t).flatten := by
  obtain ⟨lines, e1, lead, e2, e3⟩ := C42_lines isSpace hn cc cfg t out h
  have h1 : visible isSpace out = visible isSpace (lines.map Prod.snd).flatten := by
    rw [e1]
    clear e1 e3
    induction lines with
    | nil => rfl
    | cons l lines ih =>
      rw [List.flatMap_cons, visible_append, ih, List.map_cons, List.flatten_cons, visible_append,
        visible_append, visible_append, visible_space isSpace (List.replicate l.1 ' ')
          (fun c hc => by rw [List.eq_of_mem_replicate hc]; exact hs)]
      simp [visible, hn]
  rw [h1, ← visible_joinLines isSpace hn, ← stream_texts cc t,
    ← visible_render isSpace _ (fun w hm => hw w (stream_wish cc t w hm)) [] (by simp), e3,
    visible_append, visible_space isSpace lead e2]
  rfl

theorem visible_weave (f : Char → Bool) (ts gs : List Str) (hl : gs.length = ts.length - 1)
    (h : ∀ g ∈ gs, ∀ c ∈ g, f c = true) : visible f (Text.Spec.weave ts gs) = visible f ts.flatten := by
  induction ts generalizing gs with
  | nil => cases gs <;> rfl
  | cons t ts ih =>
    cases ts with
    | nil =>
      cases gs with
      | nil => simp [Text.Spec.weave]
      | cons g gs => simp [Text.Spec.weave]
    | cons u ts =>
      cases gs with
      | nil => simp at hl
      | cons g gs =>
        rw [Text.Spec.weave, visible_append, visible_append, visible_space f g (h g (by simp)),
          ih gs (by simpa using hl) (fun g hg => h g (by simp [hg])), List.flatten_cons,
          visible_append]
        simp [visible_append]

/-- **C42**: apart from whitespace the indented output equals that of `write()`. -/
theorem C42_equals_write (isSpace : Char → Bool) (hn : isSpace '\n' = true) (hs : isSpace ' ' = true)
    (cc : Concat) (cfg : Config) (t : Tree Elem) (out : Str)
    (h : writeIndented isSpace cc cfg t = .ok out) (hw : wishesAreSpace isSpace cc t) :
    visible isSpace out = visible isSpace (write cc t) := by
  obtain ⟨gaps, h1, h2, h3⟩ := C37_texts cc t
  rw [C42_texts isSpace hn hs cc cfg t out h hw, h3,
    visible_weave isSpace _ _ h1 (fun g hg => hw g (h2 g hg))]

/-! ### Example -/

/-- Python's whitespace in ASCII. -/
def asciiSpace (c : Char) : Bool := c == ' ' || (9 ≤ c.toNat && c.toNat ≤ 13) || (28 ≤ c.toNat && c.toNat ≤ 31)

/-- A block in a block: `{ a { b } }` with newlines after `{` and before `}`. -/
def exBlocks : Tree Elem :=
  let blk : Elem :=
    { kind := .block, head := ['{'], tail := ['}'], indent := true,
      sp := { afterHead := ['\n'], between := ['\n'], beforeTail := ['\n'], before := [' '] } }
  .node blk [.node { kind := .head, head := ['a'] } [],
    .node blk [.node { kind := .head, head := ['b'] } []]]

/-- The output as a string. -/
def exOut (cfg : Config) : Option String :=
  match writeIndented asciiSpace defaultConcat cfg exBlocks with
  | .ok s => some (String.ofList s)
  | .error _ => none

example : exOut {} = some "{\n  a\n  {\n    b\n  }\n}\n" := by decide +kernel
example : exOut { indentWidth := 4, startIndent := 1 } =
    some " {\n     a\n     {\n         b\n     }\n }\n" := by decide +kernel

example : wishesAreSpace asciiSpace defaultConcat exBlocks := by
  have key : ∀ (e : Elem) cs w, Text.Spec.Wish defaultConcat (.node e cs) w →
      (w = e.sp.before ∨ w = e.sp.afterHead ∨ w = e.sp.between ∨
      w = e.sp.beforeTail ∨ w = e.sp.after) ∨ ∃ c ∈ cs, Text.Spec.Wish defaultConcat c w := by
    intro e cs w h
    cases h with
    | before => exact .inl (.inl rfl)
    | afterHead => exact .inl (.inr (.inl rfl))
    | beforeTail => exact .inl (.inr (.inr (.inr (.inl rfl))))
    | after => exact .inl (.inr (.inr (.inr (.inr rfl))))
    | between => exact .inl (.inr (.inr (.inl rfl)))
    | child hc hw => exact .inr ⟨_, hc, hw⟩
  intro w h
  suffices H : w = [] ∨ w = [' '] ∨ w = ['\n'] by
    rcases H with rfl | rfl | rfl
    · simp
    · intro c hc; simp at hc; subst hc; decide
    · intro c hc; simp at hc; subst hc; decide
  unfold exBlocks at h
  rcases key _ _ _ h with h | ⟨c, hc, h⟩
  · rcases h with rfl | rfl | rfl | rfl | rfl <;> simp
  · simp only [List.mem_cons, List.not_mem_nil, or_false] at hc
    rcases hc with rfl | rfl
    · rcases key _ _ _ h with h | ⟨c, hc, h⟩
      · rcases h with rfl | rfl | rfl | rfl | rfl <;> simp
      · simp at hc
    · rcases key _ _ _ h with h | ⟨c, hc, h⟩
      · rcases h with rfl | rfl | rfl | rfl | rfl <;> simp
      · simp only [List.mem_singleton] at hc
        subst hc
        rcases key _ _ _ h with h | ⟨c, hc, h⟩
        · rcases h with rfl | rfl | rfl | rfl | rfl <;> simp
        · simp at hc

end Quickly.Indent
