import Verif.Scheme.Lemmas3
import Verif.Scheme.Read

/-! # C67, C68, C69 -/

namespace Quickly.Scheme.Read

open Spec

/-- The item is not a closing parenthesis. -/
def NotClose (i : Item) : Prop := ∀ t, i = .tok t → t.action ≠ .closeParen

theorem go_append (a b : List Src) (x y : List Item) (ha : transform.go a = .ok x) (hb : transform.go b = .ok y) :
    transform.go (a ++ b) = .ok (x ++ y) := by
  induction a generalizing x with
  | nil => simp [transform.go] at ha; subst ha; simpa using hb
  | cons s a ih =>
    simp only [transform.go, List.cons_append] at ha ⊢
    split at ha
    · simp at ha
    · rename_i i hi
      split at ha
      · simp at ha
      · rename_i is his
        simp only [Except.ok.injEq] at ha
        subst ha
        simp [hi, ih is his]

theorem go_toks (ts : List Tok) : transform.go (ts.map .tok) = .ok (ts.map .tok) := by
  induction ts with
  | nil => rfl
  | cons t ts ih => simp [transform.go, transform, ih]

theorem tokens_toks (ts : List Tok) : tokens (ts.map .tok) = ts := by
  induction ts with
  | nil => rfl
  | cons t ts ih => simpa [tokens] using ih

theorem mapping_isWord (a : Action) (h : (isWord a).isSome = true) : mapping a = .ok ((isWord a).getD .ident) ∧ a ≠ .quote ∧
    a ≠ .closeParen := by
  cases a <;> simp [isWord] at h <;> simp [mapping, isWord]

theorem splitTail_close (op : Item) (is : List Item) (t : Tok) (h : t.action = .closeParen) :
    splitTail (op :: is ++ [.tok t]) = (op :: is, [t]) := by
  unfold splitTail
  rw [List.getLast?_concat, List.dropLast_concat]
  simp [h]

theorem splitTail_open (op : Item) (is : List Item) (h : ∀ i, (op :: is).getLast? = some i → NotClose i) :
    splitTail (op :: is) = (op :: is, []) := by
  unfold splitTail
  split
  · rename_i t ht
    rw [if_neg (h _ ht t rfl)]
  · rfl

theorem block_eq (c : Cls) (op : Tok) (is : List Item) (cl : Option Tok) (ns : List (Node.Tree SNode))
    (hop : cl = none → op.action ≠ .closeParen) (hcl : ∀ c ∈ cl, c.action = .closeParen)
    (hl : ∀ i, is.getLast? = some i → NotClose i) (hc : common [] is = .ok ns) :
    block c (.tok op :: is ++ cl.toList.map .tok) = .ok (.node ⟨c, [op], cl.toList⟩ ns) := by
  unfold block
  cases cl with
  | none =>
    have : splitTail (.tok op :: is) = (.tok op :: is, []) := by
      apply splitTail_open
      intro i hi
      cases is with
      | nil =>
        simp only [List.getLast?_singleton, Option.some.injEq] at hi
        subst hi
        rintro t ⟨⟩
        exact hop rfl
      | cons j is => exact hl i (by simpa using hi)
    simp [headOf, this, hc]
  | some t =>
    have := splitTail_close (.tok op) is t (hcl t rfl)
    simp only [Option.toList, List.map_cons, List.map_nil]
    rw [this]
    simp [headOf, hc]

/-- The opening parentheses are opening parentheses. -/
def Opened : Sx → Prop
  | .quoted _ x => Opened x
  | .block _ op xs _ => op.action = .openParen ∧ go xs
  | _ => True
where
  /-- All of them. -/
  go : List Sx → Prop
    | [] => True
    | x :: xs => Opened x ∧ go xs

theorem sx_read (x : Sx) (h : x.Ok) (ho : Opened x) : ∃ is, transform.go x.src = .ok is ∧
    (∀ qs rest, common qs (is ++ rest) = match common [] rest with
      | .error e => .error e
      | .ok ns => .ok (wrap qs x.node :: ns)) ∧
    is ≠ [] ∧ ∀ i, is.getLast? = some i → NotClose i := by
  match x, h, ho with
  | .word t, h, _ =>
    obtain ⟨h1, h2, h3⟩ := mapping_isWord t.action (by simpa [Sx.Ok] using h)
    refine ⟨[.tok t], by simp [Sx.src, transform.go, transform], ?_, by simp, ?_⟩
    · intro qs rest
      simp only [common, List.cons_append, List.nil_append, h1, h2, if_false, Sx.node]
      cases common [] rest <;> rfl
    · intro i hi
      simp at hi
      subst hi
      rintro t' ⟨⟩
      exact h3
  | .leaf c ts, h, _ =>
    have hm : method c (ts.map .tok) = .ok (Sx.leaf c ts).node := by
      unfold Sx.Ok at h
      cases c with
      | list => exact absurd h (by simp)
      | vector => exact absurd h (by simp)
      | number r v =>
        simp only at h
        simp [method, numberCls, h, tokens_toks, Sx.node]
      | string => simp [method, tokens_toks, Sx.node]
      | multiline => simp [method, tokens_toks, Sx.node]
      | singleline => simp [method, tokens_toks, Sx.node]
    refine ⟨[.obj (some (Sx.leaf c ts).node)], by simp [Sx.src, transform.go, transform, go_toks, hm], ?_, by simp, ?_⟩
    · intro qs rest
      simp only [common, List.cons_append, List.nil_append]
      cases common [] rest <;> rfl
    · intro i hi
      simp at hi
      subst hi
      rintro t' ⟨⟩
  | .music n, _, _ =>
    refine ⟨[.obj (some n)], by simp [Sx.src, transform.go, transform], ?_, by simp, ?_⟩
    · intro qs rest
      simp only [common, List.cons_append, List.nil_append, Sx.node]
      cases common [] rest <;> rfl
    · intro i hi
      simp at hi
      subst hi
      rintro t' ⟨⟩
  | .quoted q x, h, ho =>
    have h' : q.action = .quote ∧ x.Ok := by simpa [Sx.Ok] using h
    obtain ⟨is, i1, i2, i3, i4⟩ := sx_read x h'.2 (by simpa [Opened] using ho)
    refine ⟨.tok q :: is, by simp [Sx.src, transform.go, transform, i1], ?_, by simp, ?_⟩
    · intro qs rest
      simp only [List.cons_append, common, h'.1, if_true, i2, Sx.node]
      have : wrap (qs ++ [q]) x.node = wrap qs (.node ⟨.quote, [q], []⟩ [x.node]) := by simp [wrap]
      rw [this]
    · intro i hi
      cases is with
      | nil => exact absurd rfl i3
      | cons j is => exact i4 i (by simpa using hi)
  | .block v op xs cl, h, ho =>
    have h' : Sx.Ok.go xs ∧ ∀ c ∈ cl, c.action = .closeParen := by simpa [Sx.Ok] using h
    have ho' : op.action = .openParen ∧ Opened.go xs := by simpa [Opened] using ho
    have hall : ∀ ys : List Sx, Sx.Ok.go ys → Opened.go ys → ∀ y ∈ ys, y.Ok ∧ Opened y := by
      intro ys
      induction ys with
      | nil => simp
      | cons z ys ih =>
        rintro ⟨a1, a2⟩ ⟨b1, b2⟩ y hy
        rcases List.mem_cons.1 hy with rfl | hy
        · exact ⟨a1, b1⟩
        · exact ih a2 b2 y hy
    have ih : ∀ y ∈ xs, ∃ is, transform.go y.src = .ok is ∧
        (∀ qs rest, common qs (is ++ rest) = match common [] rest with
          | .error e => .error e
          | .ok ns => .ok (wrap qs y.node :: ns)) ∧
        is ≠ [] ∧ ∀ i, is.getLast? = some i → NotClose i := fun y hy =>
      sx_read y (hall xs h'.1 ho'.2 y hy).1 (hall xs h'.1 ho'.2 y hy).2
    have key : ∀ ys : List Sx, (∀ y ∈ ys, ∃ is, transform.go y.src = .ok is ∧
        (∀ qs rest, common qs (is ++ rest) = match common [] rest with
          | .error e => .error e
          | .ok ns => .ok (wrap qs y.node :: ns)) ∧
        is ≠ [] ∧ ∀ i, is.getLast? = some i → NotClose i) →
        ∃ is, transform.go (Sx.src.go ys) = .ok is ∧ common [] is = .ok (Sx.node.go ys) ∧
          ∀ i, is.getLast? = some i → NotClose i := by
      intro ys
      induction ys with
      | nil => intro _; exact ⟨[], rfl, rfl, by simp⟩
      | cons y ys ihy =>
        intro hys
        obtain ⟨a, a1, a2, a3, a4⟩ := hys y (by simp)
        obtain ⟨b, b1, b2, b3⟩ := ihy fun z hz => hys z (by simp [hz])
        refine ⟨a ++ b, by simp only [Sx.src.go]; exact go_append _ _ _ _ a1 b1, ?_, ?_⟩
        · rw [a2, b2]; rfl
        · intro i hi
          cases b with
          | nil => exact a4 i (by simpa using hi)
          | cons j b => exact b3 i (by rw [List.getLast?_append_of_ne_nil _ (by simp)] at hi; exact hi)
    obtain ⟨is, k1, k2, k3⟩ := key xs ih
    have hb : ∀ c, block c (.tok op :: is ++ cl.toList.map .tok) = .ok (.node ⟨c, [op], cl.toList⟩ (Sx.node.go xs)) :=
      fun c => block_eq c op is cl _ (fun _ => by rw [ho'.1]; decide) h'.2 k3 k2
    have hgo : transform.go (.tok op :: Sx.src.go xs ++ cl.toList.map .tok) = .ok (.tok op :: is ++ cl.toList.map .tok) := by
      have h1 : transform.go (.tok op :: Sx.src.go xs) = .ok (.tok op :: is) := by simp [transform.go, transform, k1]
      exact go_append _ _ _ _ h1 (go_toks _)
    refine ⟨[.obj (some (Sx.block v op xs cl).node)], ?_, ?_, by simp, ?_⟩
    · have : transform (.ctx (if v then .vector else .list) (.tok op :: Sx.src.go xs ++ cl.toList.map .tok)) =
          .ok (.obj (some (Sx.block v op xs cl).node)) := by
        rw [transform, hgo]
        cases v <;> simp only [Bool.false_eq_true, if_true, if_false, method, hb, Sx.node]
      simp only [Sx.src, transform.go, this]
    · intro qs rest
      simp only [common, List.cons_append, List.nil_append]
      cases common [] rest <;> rfl
    · intro i hi
      simp at hi
      subst hi
      rintro t' ⟨⟩
termination_by sizeOf x
decreasing_by
  all_goals simp_wf
  all_goals have := List.sizeOf_lt_of_mem hy
  all_goals omega

theorem sx_toks (x : Sx) : toks x.node = srcToks.go x.src := by
  match x with
  | .word t => simp [Sx.node, toks, toks.go, Sx.src, srcToks.go, srcToks]
  | .leaf c ts =>
    have : ∀ ts : List Tok, srcToks.go (ts.map .tok) = ts := by
      intro ts
      induction ts with
      | nil => rfl
      | cons t ts ih => simp [srcToks.go, srcToks, ih]
    simp [Sx.node, toks, toks.go, Sx.src, srcToks.go, srcToks, this]
  | .music n => simp [Sx.node, Sx.src, srcToks.go, srcToks]
  | .quoted q x =>
    have := sx_toks x
    simp [Sx.node, toks, toks.go, Sx.src, srcToks.go, srcToks, this]
  | .block v op xs cl =>
    have happ : ∀ a b : List Src, srcToks.go (a ++ b) = srcToks.go a ++ srcToks.go b := by
      intro a b
      induction a with
      | nil => rfl
      | cons s a ih => simp [srcToks.go, ih]
    have ih : ∀ y ∈ xs, toks y.node = srcToks.go y.src := fun y hy => sx_toks y
    have key : ∀ ys : List Sx, (∀ y ∈ ys, toks y.node = srcToks.go y.src) →
        toks.go (Sx.node.go ys) = srcToks.go (Sx.src.go ys) := by
      intro ys
      induction ys with
      | nil => intro _; rfl
      | cons y ys ihy =>
        intro h
        simp only [Sx.node.go, toks.go, Sx.src.go, happ, h y (by simp), ihy fun z hz => h z (by simp [hz])]
    have k := key xs ih
    cases cl <;> simp [Sx.node, toks, Sx.src, srcToks.go, srcToks, k, happ]
termination_by sizeOf x
decreasing_by
  all_goals simp_wf
  all_goals have := List.sizeOf_lt_of_mem hy
  all_goals omega

theorem sxs_read (xs : List Sx) (h : Sx.Ok.go xs) (ho : Opened.go xs) :
    ∃ is, transform.go (Sx.src.go xs) = .ok is ∧ common [] is = .ok (Sx.node.go xs) := by
  induction xs with
  | nil => exact ⟨[], rfl, rfl⟩
  | cons x xs ih =>
    obtain ⟨a, a1, a2, -⟩ := sx_read x h.1 ho.1
    obtain ⟨b, b1, b2⟩ := ih h.2 ho.2
    refine ⟨a ++ b, by simp only [Sx.src.go]; exact go_append _ _ _ _ a1 b1, ?_⟩
    rw [a2, b2]; rfl

/-! ## C67 -/

/-- C67: every Scheme expression becomes one element: words, numbers, strings; lists and vectors with their data as children,
to any depth; quotes with the datum that follows as child; all tokens are in the elements, in the order of the text.
Missing: quotes before a comment or at the end, below. -/
theorem C67_read_partial (xs : List Sx) (h : Sx.Ok.go xs) (ho : Opened.go xs) :
    root (Sx.src.go xs) = .ok (Sx.node.go xs) ∧ toks.go (Sx.node.go xs) = srcToks.go (Sx.src.go xs) := by
  constructor
  · obtain ⟨is, h1, h2⟩ := sxs_read xs h ho
    simp only [root, h1, h2]
  · clear h ho
    have happ : ∀ a b : List Src, srcToks.go (a ++ b) = srcToks.go a ++ srcToks.go b := by
      intro a b
      induction a with
      | nil => rfl
      | cons s a ih => simp [srcToks.go, ih]
    induction xs with
    | nil => rfl
    | cons x xs ih => simp only [Sx.node.go, toks.go, Sx.src.go, happ, sx_toks, ih]

/-- C67: in LilyPond, a hash sign with an expression becomes a Scheme element with that expression. -/
theorem C67_scheme (t : Tok) (x : Sx) (h : x.Ok) (ho : Opened x) :
    scheme (.tok t :: x.src) = .ok ([t], [x.node]) := by
  obtain ⟨is, h1, h2, -⟩ := sx_read x h ho
  have := h2 [] []
  rw [List.append_nil] at this
  simp only [common] at this
  simp [scheme, transform.go, transform, h1, this, headOf, wrap]

/-- Lists and vectors begin with their opening parenthesis, as the lexer makes them. -/
def Lexed : Src → Prop
  | .ctx c items => (c = .list ∨ c = .vector → ∃ t r, items = .tok t :: r ∧ t.action = .openParen) ∧ go items
  | _ => True
where
  /-- All of them. -/
  go : List Src → Prop
    | [] => True
    | s :: ss => Lexed s ∧ go ss

/-- The tokens of items, also those inside. -/
def itToks : List Item → List Tok
  | [] => []
  | .tok t :: is => t :: itToks is
  | .obj (some n) :: is => toks n ++ itToks is
  | .obj none :: is => itToks is

theorem toks_wrap (qs : List Tok) (n : Node.Tree SNode) : toks (wrap qs n) = qs ++ toks n := by
  induction qs with
  | nil => rfl
  | cons q qs ih =>
    have : wrap (q :: qs) n = .node ⟨.quote, [q], []⟩ [wrap qs n] := rfl
    rw [this]
    simp [toks, toks.go, ih]

theorem common_sublist (qs : List Tok) (is : List Item) (ns : List (Node.Tree SNode)) (h : common qs is = .ok ns) :
    (toks.go ns).Sublist (qs ++ itToks is) := by
  induction is generalizing qs ns with
  | nil => simp [common] at h; subst h; simp [toks.go]
  | cons i is ih =>
    rcases i with t | (_ | n)
    · simp only [common] at h
      split_ifs at h with hq
      · have := ih _ _ h
        simpa [itToks] using this
      · split at h
        · simp at h
        · split at h
          · simp at h
          · rename_i ns' hns
            simp only [Except.ok.injEq] at h
            subst h
            have := ih _ _ hns
            simp only [toks.go, toks_wrap, itToks, toks, List.append_nil, List.append_assoc] at this ⊢
            exact List.Sublist.append_left (List.Sublist.cons_cons t (by simpa using this)) qs
    · exact ih _ _ h
    · simp only [common] at h
      split at h
      · simp at h
      · rename_i ns' hns
        simp only [Except.ok.injEq] at h
        subst h
        have := ih _ _ hns
        simp only [toks.go, toks_wrap, itToks, List.append_assoc]
        exact List.Sublist.append_left (List.Sublist.append_left (by simpa using this) _) _

theorem itToks_append (a b : List Item) : itToks (a ++ b) = itToks a ++ itToks b := by
  induction a with
  | nil => rfl
  | cons i a ih => rcases i with t | (_ | n) <;> simp [itToks, ih]

theorem tokens_sublist (is : List Item) : (tokens is).Sublist (itToks is) := by
  induction is with
  | nil => simp [tokens]
  | cons i is ih =>
    rcases i with t | (_ | n)
    · simpa [tokens, itToks] using ih
    · simpa [tokens, itToks] using ih
    · simp only [tokens, itToks, List.filterMap_cons]
      exact ih.trans (List.sublist_append_right _ _)

theorem block_sublist (c : Cls) (t : Tok) (is : List Item) (ht : t.action = .openParen) (n : Node.Tree SNode)
    (h : block c (.tok t :: is) = .ok n) : (toks n).Sublist (itToks (.tok t :: is)) := by
  unfold block at h
  simp only [headOf] at h
  cases hl : splitTail (.tok t :: is) with
  | mk a b =>
    rw [hl] at h
    simp only at h
    split at h
    · simp at h
    · rename_i ns hns
      simp only [Except.ok.injEq] at h
      subst h
      have hs := common_sublist _ _ _ hns
      have hsp : ∃ r, a = .tok t :: r ∧ itToks r ++ b = itToks is := by
        unfold splitTail at hl
        split at hl
        · rename_i u hu
          split_ifs at hl with hcl
          · simp only [Prod.mk.injEq] at hl
            obtain ⟨rfl, rfl⟩ := hl
            cases is with
            | nil =>
              simp only [List.getLast?_singleton, Option.some.injEq, Item.tok.injEq] at hu
              subst hu
              rw [ht] at hcl
              exact absurd hcl (by decide)
            | cons j is =>
              refine ⟨(j :: is).dropLast, by simp, ?_⟩
              have hu' : (j :: is).getLast? = some (.tok u) := by simpa using hu
              obtain ⟨pre, hpre⟩ := List.getLast?_eq_some_iff.1 hu'
              rw [hpre, List.dropLast_concat, itToks_append]
              rfl
          · simp only [Prod.mk.injEq] at hl
            obtain ⟨rfl, rfl⟩ := hl
            exact ⟨is, rfl, by simp⟩
        · simp only [Prod.mk.injEq] at hl
          obtain ⟨rfl, rfl⟩ := hl
          exact ⟨is, rfl, by simp⟩
      obtain ⟨r, rfl, hr⟩ := hsp
      simp only [List.drop_succ_cons, List.drop_zero, List.nil_append] at hs
      simp only [toks, itToks, ← hr, List.cons_append]
      exact List.Sublist.cons_cons t (List.Sublist.append_right hs b)

theorem transform_sublist (s : Src) (hl : Lexed s) (i : Item) (h : transform s = .ok i) : (itToks [i]).Sublist (srcToks s) := by
  match s, hl, h with
  | .tok t, _, h => simp [transform] at h; subst h; simp [itToks, srcToks]
  | .obj none, _, h => simp [transform] at h; subst h; simp [itToks, srcToks]
  | .obj (some n), _, h => simp [transform] at h; subst h; simp [itToks, srcToks]
  | .ctx c items, hl, h =>
    have hl' : (c = .list ∨ c = .vector → ∃ t r, items = .tok t :: r ∧ t.action = .openParen) ∧ Lexed.go items := by
      simpa [Lexed] using hl
    have hmem : ∀ ss : List Src, Lexed.go ss → ∀ s ∈ ss, Lexed s := by
      intro ss
      induction ss with
      | nil => simp
      | cons a ss ih =>
        rintro ⟨h1, h2⟩ s hs
        rcases List.mem_cons.1 hs with rfl | hs
        · exact h1
        · exact ih h2 s hs
    have ih : ∀ s ∈ items, ∀ i, transform s = .ok i → (itToks [i]).Sublist (srcToks s) := fun s hs i hi =>
      transform_sublist s (hmem items hl'.2 s hs) i hi
    have key : ∀ ss : List Src, (∀ s ∈ ss, ∀ i, transform s = .ok i → (itToks [i]).Sublist (srcToks s)) →
        ∀ is, transform.go ss = .ok is → (itToks is).Sublist (srcToks.go ss) := by
      intro ss
      induction ss with
      | nil => intro _ is h; simp [transform.go] at h; subst h; simp [itToks]
      | cons s ss ihs =>
        intro hss is h
        simp only [transform.go] at h
        split at h
        · simp at h
        · rename_i j hj
          split at h
          · simp at h
          · rename_i js hjs
            simp only [Except.ok.injEq] at h
            subst h
            have h1 := hss s (by simp) j hj
            have h2 := ihs (fun x hx => hss x (by simp [hx])) js hjs
            rw [show j :: js = [j] ++ js from rfl, itToks_append, srcToks.go]
            exact List.Sublist.append h1 h2
    simp only [transform] at h
    split at h
    · simp at h
    · rename_i is his
      split at h
      · simp at h
      · rename_i n hn
        simp only [Except.ok.injEq] at h
        subst h
        have hk := key items ih is his
        rw [srcToks]
        refine List.Sublist.trans ?_ hk
        simp only [itToks, List.append_nil]
        have hblock : ∀ cl, (c = .list ∨ c = .vector) → block cl is = .ok n → (toks n).Sublist (itToks is) := by
          intro cl hc hb
          obtain ⟨t, r, rfl, ht⟩ := hl'.1 hc
          simp only [transform.go, transform] at his
          split at his
          · simp at his
          · rename_i js hjs
            simp only [Except.ok.injEq] at his
            subst his
            exact block_sublist cl t js ht n hb
        cases c with
        | list => exact hblock _ (.inl rfl) hn
        | vector => exact hblock _ (.inr rfl) hn
        | number r v =>
          simp only [method] at hn
          split at hn
          · simp only [Except.ok.injEq] at hn
            subst hn
            simpa [toks, toks.go] using tokens_sublist is
          · simp at hn
        | string => simp only [method, Except.ok.injEq] at hn; subst hn; simpa [toks, toks.go] using tokens_sublist is
        | multiline => simp only [method, Except.ok.injEq] at hn; subst hn; simpa [toks, toks.go] using tokens_sublist is
        | singleline => simp only [method, Except.ok.injEq] at hn; subst hn; simpa [toks, toks.go] using tokens_sublist is
termination_by sizeOf s
decreasing_by
  all_goals simp_wf
  all_goals have := List.sizeOf_lt_of_mem hs
  all_goals omega

/-- C67: for all input, no token is used twice and the order of the text is kept. -/
theorem C67_order (items : List Src) (hl : Lexed.go items) (ns : List (Node.Tree SNode)) (h : root items = .ok ns) :
    (toks.go ns).Sublist (srcToks.go items) := by
  unfold root at h
  split at h
  · simp at h
  · rename_i is his
    have h1 := common_sublist [] is ns h
    refine List.Sublist.trans (by simpa using h1) ?_
    clear h h1
    induction items generalizing is with
    | nil => simp [transform.go] at his; subst his; simp [itToks]
    | cons s ss ih =>
      simp only [transform.go] at his
      split at his
      · simp at his
      · rename_i j hj
        split at his
        · simp at his
        · rename_i js hjs
          simp only [Except.ok.injEq] at his
          subst his
          rw [show j :: js = [j] ++ js from rfl, itToks_append, srcToks.go]
          exact List.Sublist.append (transform_sublist s hl.1 j hj) (ih hl.2 js hjs)

/-- C67 fails for a comment after a quote: the comment is quoted, and the datum is not. -/
theorem C67_comment_quoted (q c a : Tok) (hq : q.action = .quote) (ha : a.action = .name) :
    root [.tok q, .ctx .singleline [.tok c], .tok a] =
      .ok [.node ⟨.quote, [q], []⟩ [.node ⟨.singleline, [c], []⟩ []], .node ⟨.ident, [a], []⟩ []] := by
  simp [root, transform.go, transform, method, tokens, common, hq, ha, mapping, wrap]

/-- C67 fails for a quote at the end of a list: it is not in the result. -/
theorem C67_quote_lost (o a q c : Tok) (_ : o.action = .openParen) (ha : a.action = .name) (hq : q.action = .quote)
    (hc : c.action = .closeParen) :
    root [.ctx .list [.tok o, .tok a, .tok q, .tok c]] = .ok [.node ⟨.list, [o], [c]⟩ [.node ⟨.ident, [a], []⟩ []]] := by
  simp [root, transform.go, transform, method, block, splitTail, headOf, common, hq, ha, hc, mapping, wrap]

/-- C67 fails in LilyPond for a comment before the expression: only the comment is kept. -/
theorem C67_scheme_comment (t c a : Tok) (ha : a.action = .name) :
    scheme [.tok t, .ctx .singleline [.tok c], .tok a] = .ok ([t], [.node ⟨.singleline, [c], []⟩ []]) := by
  simp [scheme, transform.go, transform, method, tokens, common, ha, mapping, wrap, headOf]

/-- `'(a #(b) "c")`. -/
def exSx : Sx :=
  .quoted ⟨0, .quote⟩ (.block false ⟨1, .openParen⟩ [.word ⟨2, .name⟩, .block true ⟨3, .openParen⟩ [.word ⟨4, .name⟩] (some ⟨5, .closeParen⟩),
    .leaf .string [⟨6, .other⟩, ⟨7, .other⟩, ⟨8, .other⟩]] (some ⟨9, .closeParen⟩))

example : Sx.Ok.go [exSx] ∧ Opened.go [exSx] := by
  simp [exSx, Sx.Ok, Sx.Ok.go, Opened, Opened.go, isWord]
example : toks.go (Sx.node.go [exSx]) = (List.range 10).map fun i => ⟨i, if i = 0 then .quote else if i = 1 ∨ i = 3 then .openParen
    else if i = 2 ∨ i = 4 then .name else if i = 5 ∨ i = 9 then .closeParen else .other⟩ := by decide +kernel
example : Lexed.go exSx.src := by simp [exSx, Sx.src, Sx.src.go, Lexed, Lexed.go]

end Quickly.Scheme.Read

namespace Quickly.Scheme

open Spec

/-! ## C68 -/

/-- C68: whole numbers and fractions are written so that they read as the same number, with the prefix of the radix.
Missing: floats in other radixes than 10, and other nan objects, below. -/
theorem C68_exact_partial (r : Radix) (n : ℤ) (q : ℚ) :
    (∃ s, writeNum r (.int n) = .ok s ∧ number s = some (n : ℚ)) ∧ (∃ s, writeNum r (.frac q) = .ok s ∧ number s = some q) := by
  constructor
  · refine ⟨_, rfl, ?_⟩
    have := number_exact r (n : ℚ)
    simpa [exact] using this
  · refine ⟨r.pfx ++ exact r q, by simp [writeNum, exact], number_exact r q⟩

/-- C68: no other number is written the same way in this radix. -/
theorem C68_injective (r : Radix) (p q : ℚ) (h : writeNum r (.frac p) = writeNum r (.frac q)) : p = q := by
  obtain ⟨-, s, h1, h2⟩ := C68_exact_partial r 0 p
  obtain ⟨-, t, h3, h4⟩ := C68_exact_partial r 0 q
  rw [h1, h3] at h
  cases h
  rw [h2] at h4
  exact Option.some.inj h4

/-- C68: a decimal float is written as Python writes it; infinite ones and `math.nan` as Scheme does. -/
theorem C68_float (text : Str) (val : ℚ) :
    writeNum .dec (.float text val) = .ok text ∧ writeNum .dec .inf = .ok "+inf.0".toList ∧
    writeNum .dec .negInf = .ok "-inf.0".toList ∧ writeNum .dec .nan = .ok "+nan.0".toList := ⟨rfl, rfl, rfl, rfl⟩

/-- C68 fails for a float with another radix, unless it is a whole number: the part after the point is lost. -/
theorem C68_float_truncated (r : Radix) (hr : r ≠ .dec) (text : Str) (val : ℚ) :
    ∃ s, writeNum r (.float text val) = .ok s ∧ number s = some (trunc val : ℚ) ∧
      (number s = some val ↔ ∃ n : ℤ, val = n) := by
  obtain ⟨⟨s, h1, h2⟩, -⟩ := C68_exact_partial r (trunc val) 0
  refine ⟨s, ?_, h2, ?_⟩
  · cases r with
    | dec => exact absurd rfl hr
    | bin => exact h1
    | oct => exact h1
    | hex => exact h1
  · rw [h2]
    rw [Option.some.injEq]
    constructor
    · intro h; exact ⟨_, h.symm⟩
    · rintro ⟨n, rfl⟩
      unfold trunc
      split_ifs
      · have : (-(n : ℚ)) = ((-n : ℤ) : ℚ) := by simp
        rw [this, Int.floor_intCast]; simp
      · rw [Int.floor_intCast]

/-- C68 fails for a nan that is not the object `math.nan`: the text is the symbol `nan`, or ValueError is raised. -/
theorem C68_other_nan : writeNum .dec .otherNan = .ok "nan".toList ∧ writeNum .hex .otherNan = .error .valueError := ⟨rfl, rfl⟩

example : writeNum .hex (.frac (-31/4)) = .ok "#x-1f/4".toList ∧ writeNum .bin (.int 5) = .ok "#b101".toList := by decide +kernel
example : number "#x-1f/4".toList = some (-31/4) := by decide +kernel
example : trunc (-5/2) = -2 ∧ trunc (5/2) = 2 := by decide +kernel

/-! ## C69 -/

/-- C69: a Python value (numbers, strings, booleans, symbols and quotes, in lists and tuples to any depth) is converted to an
element whose text means that value in Scheme. -/
theorem C69_value (v : Val) (h : Ok v) : Means (Scheme.write (create v)) (denote v) := by
  obtain ⟨h1, -, N, hN⟩ := create_ok v h
  rw [write_tx _ h1]
  refine ⟨N, fun n hn => ?_⟩
  have := hN n hn [] rfl
  rwa [List.append_nil] at this

/-- C69: and nothing else: a text has one meaning. -/
theorem C69_unique (s : Str) (d d' : Datum) (h : Means s d) (h' : Means s d') : d = d' := by
  obtain ⟨N, hN⟩ := h
  obtain ⟨N', hN'⟩ := h'
  have h1 := hN (max N N') (le_max_left _ _)
  have h2 := hN' (max N N') (le_max_right _ _)
  rw [h1] at h2
  simp only [Option.some.injEq, Prod.mk.injEq, and_true] at h2
  exact h2

/-- C69: a tuple with one value is written with a dot that has nothing before it; a reader that accepts this reads the value. -/
theorem C69_single_tuple : Scheme.write (create (.tuple [.int 1])) = "(. 1)".toList ∧ Means "(. 1)".toList (.num 1) := by
  refine ⟨by decide +kernel, 3, fun n hn => ?_⟩
  obtain ⟨m, rfl⟩ : ∃ m, n = m + 3 := ⟨n - 3, by omega⟩
  have ha : atom ['1'] = some (.num 1) := by
    have := number_exact .dec 1
    have h1 : Radix.dec.pfx ++ exact .dec 1 = ['1'] := by decide +kernel
    rw [h1] at this
    simp [atom, this]
  simp [readDatum, readList, isSpace, isDelim, ha]

/-- C69: an empty tuple gives text that is not a datum. -/
theorem C69_empty_tuple : Scheme.write (create (.tuple [])) = "(.)".toList ∧ ∀ n d r, readDatum n "(.)".toList ≠ some (d, r) := by
  refine ⟨by decide +kernel, ?_⟩
  intro n d r
  match n with
  | 0 => simp [readDatum]
  | 1 => simp [readDatum, isSpace, readList]
  | 2 => simp [readDatum, isSpace, readList, isDelim]
  | n + 3 => simp [readDatum, isSpace, readList, isDelim]

/-- `'(if (< a 100) "small\"er" . -1/2)`. -/
def exVal : Val :=
  .quoted .quote (.tuple [.sym "if".toList, .list [.sym "<".toList, .sym "a".toList, .int 100], .str "small\"er".toList, .frac (-1/2)])

example : Scheme.write (create exVal) = "'(if (< a 100) \"small\\\"er\" . -1/2)".toList := by decide +kernel
example : Ok exVal := by
  have s1 : Symbol "if".toList := ⟨⟨'i', ['f'], rfl, by decide⟩, by decide, by decide, by decide⟩
  have s2 : Symbol "<".toList := ⟨⟨'<', [], rfl, by decide⟩, by decide, by decide, by decide⟩
  have s3 : Symbol "a".toList := ⟨⟨'a', [], rfl, by decide⟩, by decide, by decide, by decide⟩
  simp only [exVal, Ok, Ok.go]
  exact ⟨by decide, s1, ⟨s2, s3, trivial, trivial⟩, trivial, trivial, trivial⟩

end Quickly.Scheme
