import Verif.Indent.Spec
import Verif.Text.Props

/-! # Lemmas about the indenter -/

namespace Quickly.Indent

open Quickly.Node Quickly.Text Spec

/-! ### Content -/

theorem joinLines_snoc (ls : List Str) (l : Str) :
    joinLines (ls ++ [l]) = (ls.flatMap fun x => x ++ ['\n']) ++ l := by
  induction ls with
  | nil => rfl
  | cons a ls ih =>
    cases ls with
    | nil => simp [joinLines]
    | cons b ls => simp only [List.cons_append, joinLines]; rw [← List.cons_append, ih]; simp

/-- The text of a line. -/
def Block.text (b : Block) : Str := b.line.flatten

/-- All output so far, without indents. -/
def content (s : St) : Str := joinLines ((s.done ++ [s.cur]).map Block.text)

theorem content_eq (s : St) :
    content s = (s.done.flatMap fun b => b.text ++ ['\n']) ++ s.cur.text := by
  simp [content, joinLines_snoc, List.flatMap_map]

/-- Reading a stream: output so far and wishes since the last text. -/
def feed : Str × List Str → List Item → Str × List Str
  | p, [] => p
  | p, .wish w :: is => feed (p.1, p.2 ++ [w]) is
  | p, .text x :: is => feed (p.1 ++ collapse p.2 ++ x, []) is

theorem feed_append (p : Str × List Str) (a b : List Item) : feed p (a ++ b) = feed (feed p a) b := by
  induction a generalizing p with
  | nil => rfl
  | cons i a ih => cases i <;> simp [feed, ih]

theorem feed_render (p : Str × List Str) (is : List Item) :
    (feed p is).1 = p.1 ++ render p.2 is := by
  induction is generalizing p with
  | nil => simp [feed, render]
  | cons i is ih => cases i <;> simp [feed, ih, render]

/-- What of the state decides the content. -/
def proj (s : St) : Str × List Str := (content s, s.whitespace)

theorem proj_addWhitespace (w : Str) (s : St) : proj (addWhitespace w s) = feed (proj s) [.wish w] := rfl

theorem proj_enter (e : Elem) (s : St) : proj (enterIndent e s) = proj s := rfl

theorem proj_leave (s : St) : proj (leaveIndent s) = proj s := by
  rw [leaveIndent]; split <;> rfl

theorem content_put (x : Str) (s : St) : content (put x s) = content s ++ x := by
  simp [content_eq, put, Block.text]

theorem content_new (cfg : Config) (s : St) : content (createNewBlock cfg s) = content s ++ ['\n'] := by
  simp [content_eq, createNewBlock, Block.text]

theorem content_spaceLoop (cfg : Config) (cs : Str) (s : St) :
    content (spaceLoop cfg cs s) = content s ++ cs := by
  induction cs generalizing s with
  | nil => simp [spaceLoop]
  | cons c cs ih =>
    rw [spaceLoop, ih]
    split
    · rename_i h; rw [content_new, h]; simp
    · rw [content_put]; simp

theorem content_outputSpace (cfg : Config) (s : St) :
    content (outputSpace cfg s) = content s ++ collapse s.whitespace :=
  content_spaceLoop cfg _ s

theorem content_congr (s t : St) (h1 : s.done = t.done) (h2 : s.cur.line = t.cur.line) :
    content s = content t := by
  simp [content_eq, h1, Block.text, h2]

theorem proj_outputHead (cfg : Config) (x : Str) (i : ℤ) (o : Option ℤ) (s : St) :
    proj (outputHead cfg x i o s) = feed (proj s) [.text x] := by
  have : content (outputHead cfg x i o s) = content s ++ collapse s.whitespace ++ x := by
    rw [outputHead.eq_def, content_put, ← content_outputSpace cfg s]
    congr 1
    apply content_congr
    · rfl
    · cases o with
      | none => rfl
      | some n => simp only; split <;> rfl
  simp only [proj, this, feed]
  rfl

theorem proj_outputTail (cfg : Config) (x : Str) (s : St) :
    proj (outputTail cfg x s) = feed (proj s) [.text x] := by
  have : content (outputTail cfg x s) = content s ++ collapse s.whitespace ++ x := by
    rw [outputTail, content_put, ← content_outputSpace cfg s]
    congr 1
    split
    · exact content_congr _ _ rfl rfl
    · rfl
  have hw : (outputTail cfg x s).whitespace = [] := by
    simp only [outputTail, put]
    split <;> rfl
  simp only [proj, this, feed, hw]

/-- The first part of `stream`. -/
def headItems (e : Elem) (hasChildren : Bool) : List Item :=
  [.wish e.sp.before] ++ (if e.kind ≠ .plain ∧ e.head ≠ [] then
    .text e.head :: (if e.hasTail || hasChildren then [.wish e.sp.afterHead] else []) else [])

/-- The last part of `stream`. -/
def tailItems (e : Elem) : List Item :=
  (if e.hasTail then [.wish e.sp.beforeTail, .text e.tail] else []) ++ [.wish e.sp.after]

theorem stream_eq (cc : Concat) (e : Elem) (cs : List (Tree Elem)) :
    stream cc (.node e cs) = headItems e (!cs.isEmpty) ++ stream.kids cc e none cs ++ tailItems e := by
  have h1 : (e.hasTail = true) ↔ (e.kind = .block ∧ e.tail ≠ []) := by simp [Elem.hasTail]
  have h2 : (e.hasTail || !cs.isEmpty) = true ↔ (e.kind = .block ∧ e.tail ≠ []) ∨ cs ≠ [] := by
    rw [Bool.or_eq_true, h1]; simp [List.isEmpty_iff]
  simp only [stream, headItems, tailItems, h1, h2, List.append_assoc]

theorem proj_nodeStart (cfg : Config) (e : Elem) (i : ℤ) (b : Bool) (s : St) :
    proj (nodeStart cfg e i b s) = feed (proj s) (headItems e b) := by
  have hind : ∀ s : St, proj (if e.indent then enterIndent e s else s) = proj s := by
    intro s; split <;> rfl
  rw [nodeStart, hind, headItems, feed_append, ← proj_addWhitespace]
  split
  · rw [← List.singleton_append, feed_append, ← proj_outputHead cfg e.head i e.override]
    split
    · rw [proj_addWhitespace]
    · rfl
  · rfl

theorem proj_nodeEnd (cfg : Config) (e : Elem) (s : St) :
    proj (nodeEnd cfg e s) = feed (proj s) (tailItems e) := by
  have hind : proj (if e.indent then leaveIndent s else s) = proj s := by
    split
    · exact proj_leave s
    · rfl
  rw [nodeEnd, proj_addWhitespace, tailItems, feed_append]
  congr 1
  split
  · rw [proj_outputTail, proj_addWhitespace, hind]; rfl
  · rw [hind]; rfl

mutual

theorem proj_outputNode (cc : Concat) (cfg : Config) (i : ℤ) (t : Tree Elem) (s : St) :
    proj (outputNode cc cfg i t s) = feed (proj s) (stream cc t) := by
  cases t with
  | node e cs =>
    rw [outputNode, proj_nodeEnd, proj_kids cc cfg e none 0 cs, proj_nodeStart, stream_eq, feed_append,
      feed_append]

theorem proj_kids (cc : Concat) (cfg : Config) (e : Elem) (prev : Option (Tree Elem)) (i : ℤ)
    (cs : List (Tree Elem)) (s : St) :
    proj (outputNode.kids cc cfg e prev i cs s) = feed (proj s) (stream.kids cc e prev cs) := by
  cases cs with
  | nil => rfl
  | cons m ms =>
    rw [outputNode.kids, proj_kids cc cfg e (some m) (i + 1) ms, proj_outputNode cc cfg i m,
      stream.kids, feed_append, feed_append]
    cases prev <;> rfl

end

theorem content_output (cc : Concat) (cfg : Config) (t : Tree Elem) :
    content (outputNode cc cfg (-1) t (initial cfg)) = render [] (stream cc t) := by
  have h := congrArg Prod.fst (proj_outputNode cc cfg (-1) t (initial cfg))
  rw [feed_render] at h
  simpa [proj, content, initial, joinLines, Block.text] using h

/-! ### Stripping -/

theorem dropWhile_space (isSpace : Char → Bool) (line : List Str) :
    ∃ lead, line = lead ++ line.dropWhile (strIsSpace isSpace) ∧
      ∀ c ∈ lead.flatten, isSpace c = true := by
  refine ⟨line.takeWhile (strIsSpace isSpace), (List.takeWhile_append_dropWhile).symm, ?_⟩
  intro c hc
  obtain ⟨x, hx, hc⟩ := List.mem_flatten.1 hc
  have := List.all_eq_true.1 (List.all_takeWhile (l := line) (p := strIsSpace isSpace)) x hx
  simp only [strIsSpace, Bool.and_eq_true, List.all_eq_true] at this
  exact this.2 c hc

/-- Stripping removes whitespace from the start. -/
theorem strip_spec (isSpace : Char → Bool) (hn : isSpace '\n' = true) (bs : List Block) :
    (strip isSpace bs = [] ∧ ∀ c ∈ joinLines (bs.map Block.text), isSpace c = true) ∨
    (∃ lead, (∀ c ∈ lead, isSpace c = true) ∧ strip isSpace bs ≠ [] ∧
      joinLines (bs.map Block.text) = lead ++ joinLines ((strip isSpace bs).map Block.text)) := by
  induction bs with
  | nil => exact .inl ⟨rfl, by simp [joinLines]⟩
  | cons b bs ih =>
    obtain ⟨lead, h1, h2⟩ := dropWhile_space isSpace b.line
    cases hd : b.line.dropWhile (strIsSpace isSpace) with
    | nil =>
      rw [hd, List.append_nil] at h1
      have hs : strip isSpace (b :: bs) = strip isSpace bs := by rw [strip, hd]
      rw [hs]
      have hb : ∀ c ∈ b.text, isSpace c = true := by rw [Block.text, h1]; exact h2
      cases bs with
      | nil =>
        refine .inl ⟨rfl, ?_⟩
        simpa [joinLines] using hb
      | cons b' bs =>
        simp only [List.map_cons, joinLines] at ih ⊢
        rcases ih with ⟨e, h⟩ | ⟨lead', l1, l2, l3⟩
        · refine .inl ⟨e, ?_⟩
          intro c hc
          rcases List.mem_append.1 hc with hc | hc
          · exact hb c hc
          · rcases List.mem_cons.1 hc with rfl | hc
            · exact hn
            · exact h c hc
        · refine .inr ⟨b.text ++ '\n' :: lead', ?_, l2, ?_⟩
          · intro c hc
            rcases List.mem_append.1 hc with hc | hc
            · exact hb c hc
            · rcases List.mem_cons.1 hc with rfl | hc
              · exact hn
              · exact l1 c hc
          · rw [l3]; simp
    | cons x xs =>
      rw [hd] at h1
      have hs : strip isSpace (b :: bs) = { b with line := x :: xs } :: bs := by rw [strip, hd]
      rw [hs]
      refine .inr ⟨lead.flatten, h2, by simp, ?_⟩
      have e : b.text = lead.flatten ++ (x :: xs).flatten := by rw [Block.text, h1, List.flatten_append]
      cases bs with
      | nil =>
        simp only [List.map_cons, List.map_nil, joinLines, e]
        rfl
      | cons b' bs =>
        simp only [List.map_cons, joinLines, e, List.append_assoc]
        rfl

/-! ### No failure -/

/-- Enough levels are on the stack: with `d` levels entered and not left. -/
def Inv (d : ℕ) (s : St) : Prop :=
  d + s.dedenters ≤ s.stack.length + s.indenters.length ∧ s.dedenters ≤ s.stack.length ∧
    s.failed = false

theorem addLevels_length (cfg : Config) (last : Block) (current : ℤ) (ls : List Level) :
    ∀ new stack, (addLevels cfg last current new ls stack).length = stack.length + ls.length := by
  induction ls with
  | nil => intro new stack; rfl
  | cons l ls ih => intro new stack; rw [addLevels, ih]; simp; omega

theorem inv_new (cfg : Config) (d : ℕ) (s : St) (h : Inv d s) : Inv d (createNewBlock cfg s) := by
  obtain ⟨h1, h2, h3⟩ := h
  refine ⟨?_, Nat.zero_le _, h3⟩
  simp only [createNewBlock, newStack, addLevels_length, List.length_drop, List.length_reverse,
    List.length_nil]
  omega

theorem inv_spaceLoop (cfg : Config) (d : ℕ) (cs : Str) (s : St) (h : Inv d s) :
    Inv d (spaceLoop cfg cs s) := by
  induction cs generalizing s with
  | nil => exact h
  | cons c cs ih =>
    rw [spaceLoop]
    apply ih
    split
    · exact inv_new cfg d s h
    · exact h

theorem inv_outputSpace (cfg : Config) (d : ℕ) (s : St) (h : Inv d s) : Inv d (outputSpace cfg s) :=
  inv_spaceLoop cfg d _ s h

theorem inv_outputHead (cfg : Config) (d : ℕ) (x : Str) (i : ℤ) (o : Option ℤ) (s : St) (h : Inv d s) :
    Inv d (outputHead cfg x i o s) := by
  obtain ⟨h1, h2, h3⟩ := inv_outputSpace cfg d s h
  refine ⟨?_, h2, h3⟩
  simp only [outputHead, put]
  cases hi : (outputSpace cfg s).indenters with
  | nil => simpa [hi] using h1
  | cons l ls =>
    rw [hi] at h1
    simp only
    split <;> simpa using h1

theorem inv_outputTail (cfg : Config) (d : ℕ) (x : Str) (s : St) (h : Inv d s) :
    Inv d (outputTail cfg x s) := by
  obtain ⟨h1, h2, h3⟩ := inv_outputSpace cfg d s h
  rw [outputTail]
  simp only
  split
  · rename_i hc
    simp only [Bool.and_eq_true, bne_iff_ne, ne_eq] at hc
    have hl : (outputSpace cfg s).dedenters - 1 < (outputSpace cfg s).stack.length := by omega
    refine ⟨?_, Nat.zero_le _, ?_⟩
    · simp only [put, List.length_eraseIdx_of_lt hl]; omega
    · simp only [put, h3, Bool.false_or, decide_eq_false_iff_not]; omega
  · exact ⟨h1, h2, h3⟩

theorem inv_enter (d : ℕ) (e : Elem) (s : St) (h : Inv d s) : Inv (d + 1) (enterIndent e s) := by
  obtain ⟨h1, h2, h3⟩ := h
  refine ⟨?_, h2, h3⟩
  simp only [enterIndent, List.length_cons]; omega

theorem inv_leave (d : ℕ) (s : St) (h : Inv (d + 1) s) : Inv d (leaveIndent s) := by
  obtain ⟨h1, h2, h3⟩ := h
  rw [leaveIndent]
  cases hi : s.indenters with
  | nil =>
    rw [hi] at h1
    simp only [List.length_nil] at h1
    refine ⟨?_, ?_, h3⟩
    · simp only [hi, List.length_nil]; omega
    · simp only; omega
  | cons l ls =>
    rw [hi] at h1
    simp only [List.length_cons] at h1
    refine ⟨?_, h2, h3⟩
    simp only; omega

mutual

theorem inv_outputNode (cc : Concat) (cfg : Config) (i : ℤ) (d : ℕ) (t : Tree Elem) (s : St)
    (h : Inv d s) : Inv d (outputNode cc cfg i t s) := by
  cases t with
  | node e cs =>
    rw [outputNode]
    have hs : Inv (d + (if e.indent then 1 else 0)) (nodeStart cfg e i (!cs.isEmpty) s) := by
      rw [nodeStart]
      have h0 : Inv d (addWhitespace e.sp.before s) := h
      have h1 : Inv d (if e.kind ≠ .plain ∧ e.head ≠ [] then
          if e.hasTail || !cs.isEmpty then
            addWhitespace e.sp.afterHead (outputHead cfg e.head i e.override (addWhitespace e.sp.before s))
          else outputHead cfg e.head i e.override (addWhitespace e.sp.before s)
        else addWhitespace e.sp.before s) := by
        split
        · split
          · exact inv_outputHead cfg d e.head i e.override _ h0
          · exact inv_outputHead cfg d _ _ _ _ h0
        · exact h0
      cases hi : e.indent with
      | true => exact inv_enter d e _ h1
      | false => exact h1
    have hk := inv_kids cc cfg e none 0 _ cs _ hs
    rw [nodeEnd]
    have hl : Inv d (if e.indent then leaveIndent (outputNode.kids cc cfg e none 0 cs
        (nodeStart cfg e i (!cs.isEmpty) s)) else outputNode.kids cc cfg e none 0 cs
        (nodeStart cfg e i (!cs.isEmpty) s)) := by
      cases hi : e.indent with
      | true => rw [hi] at hk; exact inv_leave d _ hk
      | false => rw [hi] at hk; exact hk
    have ht : Inv d (if e.hasTail then outputTail cfg e.tail (addWhitespace e.sp.beforeTail
        (if e.indent then leaveIndent (outputNode.kids cc cfg e none 0 cs
          (nodeStart cfg e i (!cs.isEmpty) s)) else outputNode.kids cc cfg e none 0 cs
          (nodeStart cfg e i (!cs.isEmpty) s))) else (if e.indent then leaveIndent
        (outputNode.kids cc cfg e none 0 cs (nodeStart cfg e i (!cs.isEmpty) s)) else
        outputNode.kids cc cfg e none 0 cs (nodeStart cfg e i (!cs.isEmpty) s))) := by
      split
      · exact inv_outputTail cfg d e.tail (addWhitespace e.sp.beforeTail _) hl
      · exact hl
    exact ht

theorem inv_kids (cc : Concat) (cfg : Config) (e : Elem) (prev : Option (Tree Elem)) (i : ℤ) (d : ℕ)
    (cs : List (Tree Elem)) (s : St) (h : Inv d s) : Inv d (outputNode.kids cc cfg e prev i cs s) := by
  cases cs with
  | nil => exact h
  | cons m ms =>
    rw [outputNode.kids]
    apply inv_kids cc cfg e (some m) (i + 1) d ms
    apply inv_outputNode cc cfg i d m
    cases prev <;> exact h

end

end Quickly.Indent
