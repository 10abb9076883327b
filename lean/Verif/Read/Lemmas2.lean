import Verif.Read.Lemmas
import Verif.Read.Grammar

/-!
# Reading correct music
-/

namespace Quickly.Read

open Spec

/-! ## The number of items that may be read is large enough -/

theorem lyricWord_length (items : List Item) (r : List Tok × List Item) (h : lyricWord items = .ok r) :
    r.2.length ≤ items.length := by
  induction items generalizing r with
  | nil => simp [lyricWord] at h; subst h; simp
  | cons i is ih =>
    cases i with
    | tok u =>
      simp only [lyricWord] at h
      rcases hg : u.group with _ | g
      · simp [hg] at h
      · simp only [hg] at h
        split at h
        · injection h with h; subst h; simp
        · rcases hl : lyricWord is with e | r'
          · simp [hl, bind, Except.bind] at h
          · simp [hl, bind, Except.bind] at h
            subst h
            have := ih r' hl
            simp; omega
    | _ => simp [lyricWord] at h

theorem token_length (s : St) (t : Tok) (items : List Item) (r : List Elem × St × List Item)
    (h : token s t items = .ok r) : r.2.2.length ≤ items.length := by
  have hs : ∀ {s m it} {r : List Elem × St × List Item}, start s m it = .ok r → r.2.2.length ≤ it.length := by
    intro s m it r h; injection h with h; subst h; exact Nat.le_refl _
  have hy : ∀ {s m it} {r : List Elem × St × List Item}, yields s m it = .ok r → r.2.2.length ≤ it.length := by
    intro s m it r h; injection h with h; subst h; exact Nat.le_refl _
  have hq : ∀ {s it} {r : List Elem × St × List Item}, silent s it = .ok r → r.2.2.length ≤ it.length := by
    intro s it r h; injection h with h; subst h; exact Nat.le_refl _
  unfold token at h
  split at h
  case h_35 =>
    split at h
    · rcases hl : lyricWord items with e | r'
      · simp [hl, bind, Except.bind] at h
      · simp only [hl, bind, Except.bind] at h
        exact Nat.le_trans (hs h) (lyricWord_length _ _ hl)
    · exact hs h
  all_goals first
    | (exact hs h)
    | (exact hy h)
    | (exact hq h)
    | skip
  all_goals
    split at h
    all_goals first
      | (exact hs h)
      | (exact hy h)
      | (exact hq h)
      | (injection h with h; subst h; simp; done)
      | skip
  all_goals
    split at h
    all_goals first
      | (have := hq h; simp at this ⊢; omega)
      | cases h

theorem context_length (nargs : Counts) (s : St) (i : Item) (items : List Item)
    (r : List Elem × St × List Item) (h : context nargs s i items = .ok r) :
    r.2.2.length ≤ items.length := by
  have hs : ∀ {s m it} {r : List Elem × St × List Item}, start s m it = .ok r → r.2.2.length ≤ it.length := by
    intro s m it r h; injection h with h; subst h; exact Nat.le_refl _
  have hy : ∀ {s m it} {r : List Elem × St × List Item}, yields s m it = .ok r → r.2.2.length ≤ it.length := by
    intro s m it r h; injection h with h; subst h; exact Nat.le_refl _
  have hq : ∀ {s it} {r : List Elem × St × List Item}, silent s it = .ok r → r.2.2.length ≤ it.length := by
    intro s it r h; injection h with h; subst h; exact Nat.le_refl _
  unfold context at h
  split at h
  case h_6 =>
    rename_i m
    have hl := length_createMarkup nargs m items
    split at h
    · rename_i he; rw [he] at hl; exact Nat.le_trans (hq h) hl
    · rename_i he
      rw [he] at hl
      split at h
      · exact Nat.le_trans (hy h) hl
      · exact Nat.le_trans (hq h) hl
  case h_4 =>
    rename_i l
    split at h
    · cases h
    · rename_i ks _
      rcases hl : extendLast ks l with e | r'
      · simp [hl, bind, Except.bind] at h
      · simp only [hl, bind, Except.bind] at h
        exact hq h
  all_goals first
    | (exact hs h)
    | (exact hy h)
    | (exact hq h)
    | (injection h with h; subst h; simp; done)
    | skip
  all_goals
    split at h
    all_goals first
      | (exact hs h)
      | (exact hy h)
      | (exact hq h)
      | (injection h with h; subst h; simp; done)
      | (cases h; done)
      | skip
  all_goals
    split at h
    all_goals first
      | (exact hs h)
      | (exact hy h)
      | (exact hq h)
      | skip
  all_goals
    split at h
    all_goals first
      | (exact hq h)
      | skip
  all_goals
    split at h
    all_goals first
      | (exact hq h)
      | (injection h with h; subst h; simp; done)

theorem step_length (nargs : Counts) (s : St) (i : Item) (items : List Item)
    (r : List Elem × St × List Item) (h : step nargs s i items = .ok r) :
    r.2.2.length ≤ items.length := by
  unfold step at h
  split at h
  · exact token_length _ _ _ _ h
  · exact context_length _ _ _ _ _ h

theorem run_fuel (nargs : Counts) (n m : ℕ) (s : St) (items : List Item) (hn : items.length ≤ n)
    (hm : items.length ≤ m) : run nargs n s items = run nargs m s items := by
  induction n generalizing m s items with
  | zero =>
    have : items = [] := by simpa using hn
    subst this
    simp [run]
  | succ n ih =>
    cases items with
    | nil => simp [run]
    | cons i is =>
      cases m with
      | zero => simp at hm
      | succ m =>
        simp only [List.length_cons] at hn hm
        simp only [run, bind, Except.bind]
        rcases h : step nargs s i is with e | r
        · rfl
        · have := step_length nargs s i is r h
          simp only
          rw [ih m r.2.1 r.2.2 (by omega) (by omega)]

/-- Reading from a state. -/
def read (nargs : Counts) (s : St) (items : List Item) : Py (List Elem) :=
  run nargs items.length s items

theorem read_nil (nargs : Counts) (s : St) : read nargs s [] = .ok (pendingMusic s) := by
  simp [read, run]

theorem read_cons (nargs : Counts) (s : St) (i : Item) (items : List Item)
    (r : List Elem × St × List Item) (h : step nargs s i items = .ok r) (out : List Elem)
    (ho : read nargs r.2.1 r.2.2 = .ok out) : read nargs s (i :: items) = .ok (r.1 ++ out) := by
  have := step_length nargs s i items r h
  unfold read at *
  rw [List.length_cons, run]
  simp only [bind, Except.bind, h]
  rw [run_fuel nargs _ _ _ _ this (Nat.le_refl _), ho]

/-- Reading these items from `s` yields `out` and leads to the state `s'`. -/
def Go (nargs : Counts) (s : St) (is : List Item) (out : List Elem) (s' : St) : Prop :=
  ∀ rest out', read nargs s' rest = .ok out' → read nargs s (is ++ rest) = .ok (out ++ out')

theorem Go.nil (nargs : Counts) (s : St) : Go nargs s [] [] s := by
  intro rest out' h; simpa using h

theorem Go.trans {nargs : Counts} {a b c : St} {is js : List Item} {o p : List Elem}
    (h : Go nargs a is o b) (k : Go nargs b js p c) : Go nargs a (is ++ js) (o ++ p) c := by
  intro rest out' hr
  have := h (js ++ rest) _ (k rest out' hr)
  simpa using this

theorem Go.trans0 {nargs : Counts} {a b c : St} {is js : List Item} {o : List Elem}
    (h : Go nargs a is o b) (k : Go nargs b js [] c) : Go nargs a (is ++ js) o c := by
  simpa using h.trans k

theorem Go.one {nargs : Counts} {s s' : St} {i : Item} {out : List Elem}
    (h : ∀ items, step nargs s i items = .ok (out, s', items)) : Go nargs s [i] out s' := by
  intro rest out' hr
  exact read_cons nargs s i rest _ (h rest) out' hr

theorem Go.cons {nargs : Counts} {s s' s'' : St} {i : Item} {is : List Item} {out : List Elem}
    (h : ∀ items, step nargs s i items = .ok ([], s', items)) (k : Go nargs s' is out s'') :
    Go nargs s (i :: is) out s'' := by
  have := (Go.one h).trans k
  simpa using this

/-! ## Markup -/

mutual

theorem readOne_ok (nargs : Counts) (n : ℕ) (m : Mk) (rest : List Item) (h : m.Ok nargs)
    (hn : 2 * m.items.length ≤ n) : readOne nargs n (m.items ++ rest) = some (m.node, rest) := by
  match n, m with
  | n, .word t =>
    match n with
    | 0 => simp [Mk.items] at hn
    | n + 1 =>
      simp only [Mk.Ok] at h
      simp [Mk.items, readOne, h, Mk.node, make]
  | n, .elem c e =>
    match n with
    | 0 => simp [Mk.items] at hn
    | n + 1 => simp [Mk.items, readOne, Mk.node]
  | n, .cmd t args =>
    match n with
    | 0 => simp [Mk.items] at hn
    | n + 1 =>
      simp only [Mk.Ok] at h
      obtain ⟨hk, ha, hc, hl⟩ := h
      simp only [Mk.items, List.length_cons] at hn
      have := readArgs_ok nargs n args rest ha hl (by omega)
      rw [hc] at this
      simp [Mk.items, readOne, hk, this, Mk.node]

theorem readArgs_ok (nargs : Counts) (n : ℕ) (args : List Mk) (rest : List Item) (h : Mk.OkL nargs args)
    (hl : ∀ a, args.getLast? = some a → a.isComment = false)
    (hn : 2 * (Mk.itemsL args).length + 1 ≤ n) :
    readArgs nargs n ((args.filter fun a => !a.isComment).length) (Mk.itemsL args ++ rest)
      = (Mk.nodes args, rest) := by
  match args with
  | [] => cases n <;> simp [readArgs, Mk.itemsL, Mk.nodes]
  | a :: as =>
    have hlen : 1 ≤ a.items.length := by cases a <;> simp [Mk.items]
    simp only [Mk.OkL] at h
    simp only [Mk.itemsL, List.length_append] at hn
    obtain ⟨n, rfl⟩ : ∃ k, n = k + 1 := ⟨n - 1, by omega⟩
    have hpos : ∃ k, ((a :: as).filter fun a => !a.isComment).length = k + 1 := by
      have hne : (a :: as) ≠ [] := by simp
      obtain ⟨l, hl'⟩ : ∃ l, (a :: as).getLast? = some l := by
        cases h' : (a :: as).getLast? with
        | none => simp at h'
        | some l => exact ⟨l, rfl⟩
      have hmem : l ∈ (a :: as).filter fun a => !a.isComment := by
        rw [List.mem_filter]
        exact ⟨List.mem_of_getLast? hl', by simp [hl l hl']⟩
      have := List.length_pos_of_mem hmem
      exact ⟨_, (Nat.succ_pred_eq_of_pos this).symm⟩
    obtain ⟨k, hk⟩ := hpos
    have h1 := readOne_ok nargs n a (Mk.itemsL as ++ rest) h.1 (by omega)
    have hc : a.node.isComment = a.isComment := by
      cases a <;> first | rfl | simp [Mk.node, Mk.isComment, Elem.isComment, Elem.cls]
    have hl2 : ∀ b, as.getLast? = some b → b.isComment = false := by
      intro b hb
      apply hl
      cases as with
      | nil => simp at hb
      | cons x xs => simpa using hb
    have h2 := readArgs_ok nargs n as rest h.2 hl2 (by omega)
    rw [hk, readArgs]
    simp only [Mk.itemsL, List.append_assoc, h1, hc]
    have hk2 : (if a.isComment = true then k + 1 else k) = (as.filter fun a => !a.isComment).length := by
      by_cases hac : a.isComment = true
      · simp [hac] at hk ⊢; omega
      · simp [hac] at hk ⊢; omega
    rw [hk2, h2]
    simp [Mk.nodes]

end

theorem createMarkup_ok (nargs : Counts) (m : Markup) (rest : List Item) (h : m.arg.Ok nargs) :
    createMarkup nargs (.tok m.command :: m.arg.items.take m.split) (m.arg.items.drop m.split ++ rest)
      = (some m.node, rest) := by
  unfold createMarkup
  have he : (List.drop 1 (Item.tok m.command :: m.arg.items.take m.split)
      ++ (m.arg.items.drop m.split ++ rest)) = m.arg.items ++ rest := by
    rw [← List.append_assoc]
    simp
  rw [he, readOne_ok nargs _ m.arg rest h (by simp [fuel]; omega)]
  simp [Markup.node, tokOf, List.filterMap]

/-! ## Articulations -/

/-- The last event has all its arguments. -/
def Full (s : St) : Prop :=
  wants s .spannerId 1 = false ∧ wants s .tweak 2 = false ∧ wants s .tag 1 = false ∧ wants s .shape 2 = false

theorem wants_last (s : St) (evs : List Elem) (e : Elem) (h : s.events = evs ++ [e]) (c : Cls) (n : ℕ) :
    wants s c n = (decide (e.cls = c) && decide (e.kids.length < n)) := by
  simp [wants, h]

theorem toLast_last (s : St) (evs : List Elem) (e x : Elem) (h : s.events = evs ++ [e]) :
    toLast s x = { s with events := evs ++ [e.append x] } := by
  simp [toLast, h]

theorem full_nil (s : St) (h : s.events = []) : Full s := by
  simp [Full, wants, h]

theorem full_ev (s : St) (evs : List Elem) (ev : Ev) (h : s.events = evs ++ [ev.node]) : Full s := by
  cases ev <;> simp [Full, wants_last s evs _ h, Ev.node, Elem.cls, Elem.kids]

theorem step_arg_tweak (nargs : Counts) (s : St) (evs : List Elem) (e : Elem) (a : Arg)
    (h : s.events = evs ++ [e]) (hc : e.cls = .tweak) (hk : e.kids.length < 2) (ha : a.ForTweak)
    (items : List Item) :
    step nargs s a.item items = .ok ([], { s with events := evs ++ [e.append a.node] }, items) := by
  have hw := wants_last s evs e h
  have hl := toLast_last s evs e a.node h
  cases a with
  | elem x =>
    simp [step, Arg.item, context, h, hw, hc, hk, silent, Arg.node] at hl ⊢
    exact hl
  | tok t =>
    simp only [Arg.ForTweak, List.mem_cons, List.not_mem_nil, or_false] at ha
    rcases ha with ha | ha | ha | ha | ha | ha <;>
      (simp [step, Arg.item, token, ha, hw, hc, hk, silent, Arg.node, make] at hl ⊢; exact hl)

theorem step_arg_spanner (nargs : Counts) (s : St) (evs : List Elem) (e : Elem) (a : Arg)
    (h : s.events = evs ++ [e]) (hc : e.cls = .spannerId) (hk : e.kids.length < 1) (ha : a.ForSpanner)
    (items : List Item) :
    step nargs s a.item items = .ok ([], { s with events := evs ++ [e.append a.node] }, items) := by
  have hw := wants_last s evs e h
  have hl := toLast_last s evs e a.node h
  have hk0 : e.kids = [] := by
    cases hkk : e.kids with
    | nil => rfl
    | cons x xs => simp [hkk] at hk
  cases a with
  | elem x =>
    simp [step, Arg.item, context, h, hw, hc, hk0, silent, Arg.node] at hl ⊢
    exact hl
  | tok t =>
    simp only [Arg.ForSpanner, List.mem_cons, List.not_mem_nil, or_false] at ha
    rcases ha with ha | ha <;>
      (simp [step, Arg.item, token, ha, hw, hc, hk0, silent, Arg.node, make] at hl ⊢; exact hl)

theorem step_arg_elem (nargs : Counts) (s : St) (evs : List Elem) (e x : Elem)
    (h : s.events = evs ++ [e]) (hc : (e.cls = .tag ∧ e.kids.length < 1) ∨ (e.cls = .shape ∧ e.kids.length < 2))
    (items : List Item) :
    step nargs s (.elem .string x) items = .ok ([], { s with events := evs ++ [e.append x] }, items) := by
  have hw := wants_last s evs e h
  have hl := toLast_last s evs e x h
  rcases hc with ⟨hc, hk⟩ | ⟨hc, hk⟩
  · have hk0 : e.kids = [] := by
      cases hkk : e.kids with
      | nil => rfl
      | cons x xs => simp [hkk] at hk
    simp [step, context, h, hw, hc, hk0, silent] at hl ⊢
    exact hl
  · simp [step, context, h, hw, hc, hk, silent] at hl ⊢
    exact hl

theorem go_ev (nargs : Counts) (s : St) (ev : Ev) (hev : ev.Ok) :
    Go nargs s ev.items [] { s with events := s.events ++ [ev.node] } := by
  cases ev with
  | direction t =>
    simp only [Ev.Ok] at hev
    exact Go.one (by intro items; simp [step, token, hev, silent, make, Ev.node])
  | tweak t a b =>
    simp only [Ev.Ok] at hev
    obtain ⟨hk, ha, hb⟩ := hev
    refine Go.cons (s' := { s with events := s.events ++ [make .tweak t] }) ?_ ?_
    · intro items; simp [step, token, hk, silent]
    refine Go.cons (step_arg_tweak nargs _ s.events _ a rfl rfl (by simp [make, Elem.kids]) ha) ?_
    refine Go.one ?_
    intro items
    rw [step_arg_tweak nargs _ s.events _ b rfl rfl (by simp [make, Elem.kids, Elem.append]) hb]
    simp [Ev.node, make, Elem.append]
  | tag t a =>
    simp only [Ev.Ok] at hev
    refine Go.cons (s' := { s with events := s.events ++ [make .tag t] }) ?_ ?_
    · intro items; simp [step, token, hev, silent]
    refine Go.one ?_
    intro items
    rw [step_arg_elem nargs _ s.events _ a rfl (.inl ⟨rfl, by simp [make, Elem.kids]⟩)]
    simp [Ev.node, make, Elem.append]
  | shape t a b =>
    simp only [Ev.Ok] at hev
    refine Go.cons (s' := { s with events := s.events ++ [make .shape t] }) ?_ ?_
    · intro items; rcases hev with hev | hev <;> simp [step, token, hev, silent]
    refine Go.cons (step_arg_elem nargs _ s.events _ a rfl (.inr ⟨rfl, by simp [make, Elem.kids]⟩)) ?_
    refine Go.one ?_
    intro items
    rw [step_arg_elem nargs _ s.events _ b rfl (.inr ⟨rfl, by simp [make, Elem.kids, Elem.append]⟩)]
    simp [Ev.node, make, Elem.append]
  | spannerId t a =>
    simp only [Ev.Ok] at hev
    obtain ⟨hk, ha⟩ := hev
    refine Go.cons (s' := { s with events := s.events ++ [make .spannerId t] }) ?_ ?_
    · intro items; simp [step, token, hk, silent]
    refine Go.one ?_
    intro items
    rw [step_arg_spanner nargs _ s.events _ a rfl rfl (by simp [make, Elem.kids]) ha]
    simp [Ev.node, make, Elem.append]

theorem go_evs (nargs : Counts) (s : St) (evs : List Ev) (hev : ∀ ev ∈ evs, ev.Ok) :
    Go nargs s (evs.flatMap Ev.items) [] { s with events := s.events ++ evs.map Ev.node } := by
  induction evs generalizing s with
  | nil => simpa using Go.nil nargs s
  | cons e es ih =>
    have h1 := go_ev nargs s e (hev e (by simp))
    have h2 := ih { s with events := s.events ++ [e.node] } (fun x hx => hev x (by simp [hx]))
    simpa using h1.trans0 h2

theorem chain_nest (evs : List Ev) (a : Elem) : chain (evs.map Ev.node) a = nest evs a := by
  induction evs with
  | nil => rfl
  | cons e es ih => simp [chain, nest, ih]

theorem full_evs (s : St) (evs : List Ev) (h : s.events = evs.map Ev.node) : Full s := by
  rcases List.eq_nil_or_concat evs with rfl | ⟨xs, x, rfl⟩
  · exact full_nil s (by simpa using h)
  · exact full_ev s (xs.map Ev.node) x (by simpa using h)

theorem go_art (nargs : Counts) (s : St) (evs : List Ev) (a : Art) (h : s.events = evs.map Ev.node)
    (ha : a.Ok nargs evs) : Go nargs s a.items [] (addArticulation s a.node) := by
  have hf := full_evs s evs h
  have hne : evs ≠ [] → s.events.isEmpty = false := by
    intro hne
    cases evs with
    | nil => exact absurd rfl hne
    | cons x xs => simp [h]
  cases a with
  | tok t =>
    simp only [Art.Ok, List.mem_cons, List.not_mem_nil, or_false] at ha
    refine Go.one ?_
    intro items
    rcases ha with (ha | ha | ha | ha) | ⟨ha, hg⟩ <;> simp [step, token, *, silent, Art.node, make]
  | tremolo t d =>
    obtain ⟨hk, hg⟩ := ha
    intro rest out' hr
    refine read_cons nargs s (.tok t) (.tok d :: rest)
      ([], addArticulation s (Art.tremolo t d).node, rest) ?_ out' hr
    simp [step, token, hk, hg, silent, Art.node, make]
  | script e =>
    refine Go.one ?_
    intro items
    simp [step, context, silent, Art.node]
  | text e =>
    refine Go.one ?_
    intro items
    simp [step, context, silent, Art.node, hne ha, hf.1, hf.2.1, hf.2.2.1, hf.2.2.2]
  | ident e =>
    refine Go.one ?_
    intro items
    simp [step, context, silent, Art.node, hne ha]
  | markup m =>
    obtain ⟨hne', hm⟩ := ha
    intro rest out' hr
    have := createMarkup_ok nargs m rest hm.1
    refine read_cons nargs s _ (m.arg.items.drop m.split ++ rest)
      ([], addArticulation s (Art.markup m).node, rest) ?_ out' hr
    simp [step, context, this, hne hne', silent, Art.node]

/-! ## Comments at the end -/

theorem popList_comments (cs : List Elem) (h : AllComments cs) : popList cs = ([], cs) := by
  induction cs with
  | nil => simp [popList]
  | cons c cs ih =>
    have := ih (fun e he => h e (by simp [he]))
    have hc := h c (by simp)
    simp [popList, this, hc]

theorem popList_append (ks cs : List Elem) (h : AllComments cs) :
    popList (ks ++ cs) = ((popList ks).1, (popList ks).2 ++ cs) := by
  induction ks with
  | nil => simp [popList_comments cs h, popList]
  | cons k ks ih =>
    simp only [List.cons_append, popList, ih]
    split
    · split <;> simp
    · simp

theorem popList_last (ks : List Elem) (k : Elem) (hk : k.isComment = false) (hp : popComments k = (k, [])) :
    popList (ks ++ [k]) = (ks ++ [k], []) := by
  induction ks with
  | nil => simp [popList, hk, hp]
  | cons x xs ih => simp [popList, ih]

theorem settled_pop {e : Elem} (h : Settled e) : popComments e = (e, []) := by
  induction h with
  | leaf c h t => simp [popComments, popList]
  | last c h t ks k hk _ ih => simp [popComments, popList_last ks k hk ih]

theorem settled_pop_extend {e : Elem} (h : Settled e) (cs : List Elem) (hc : AllComments cs) :
    popComments (e.extend cs) = (e, cs) := by
  have hp := settled_pop h
  cases e with
  | mk c hd t ks =>
    simp only [popComments, Prod.mk.injEq, Elem.mk.injEq, true_and] at hp
    simp [Elem.extend, popComments, popList_append ks cs hc, hp.1, hp.2]

/-! ## Sounds -/

theorem extend_nil (e : Elem) : e.extend [] = e := by cases e; simp [Elem.extend]

theorem extend_extend (e : Elem) (a b : List Elem) : (e.extend a).extend b = e.extend (a ++ b) := by
  cases e; simp [Elem.extend]

theorem append_eq_extend (e a : Elem) : e.append a = e.extend [a] := by
  cases e; simp [Elem.extend, Elem.append]

theorem addArticulation_pending (s : St) (a : Elem) (h : (s.music.isSome || s.duration.isSome) = true) :
    addArticulation s a = { s with
      articulations := some ((s.articulations.getD (.mk .articulations [] [] [])).append (chain s.events a))
      events := [] } := by
  simp only [addArticulation, if_pos h]

theorem go_artItem (nargs : Counts) (s : St) (a : ArtItem) (ha : a.Ok nargs) (he : s.events = [])
    (hp : (s.music.isSome || s.duration.isSome) = true)
    (hc : ∀ e, a = .comment e → s.modifier = none ∧ s.articulations.isSome = true) :
    Go nargs s a.items []
      { s with articulations := some ((s.articulations.getD (.mk .articulations [] [] [])).append a.node) } := by
  cases a with
  | comment e =>
    obtain ⟨hm, hs⟩ := hc e rfl
    obtain ⟨x, hx⟩ := Option.isSome_iff_exists.mp hs
    refine Go.one ?_
    intro items
    simp [step, context, hm, he, hx, silent, ArtItem.node]
  | art evs a =>
    have h1 := go_evs nargs s evs ha.1
    have h2 := go_art nargs { s with events := s.events ++ evs.map Ev.node } evs a (by simp [he]) ha.2
    have h3 := h1.trans0 h2
    rw [addArticulation_pending { s with events := s.events ++ evs.map Ev.node } a.node hp] at h3
    simp only [he, List.nil_append, chain_nest] at h3
    simp only [ArtItem.items, ArtItem.node, he]
    exact h3

theorem go_arts_more (nargs : Counts) (arts : List ArtItem) (s : St) (ks : List Elem)
    (ha : ∀ a ∈ arts, a.Ok nargs) (he : s.events = [])
    (hp : (s.music.isSome || s.duration.isSome) = true)
    (hs : s.articulations = some (.mk .articulations [] [] ks))
    (hc : ∀ e, ArtItem.comment e ∈ arts → s.modifier = none) :
    Go nargs s (arts.flatMap ArtItem.items) []
      { s with articulations := some (.mk .articulations [] [] (ks ++ arts.map ArtItem.node)) } := by
  induction arts generalizing s ks with
  | nil =>
    have : s = { s with articulations := some (.mk .articulations [] [] (ks ++ [])) } := by
      simp [← hs]
    simp only [List.flatMap_nil, List.map_nil]
    rw [← this]
    exact Go.nil nargs s
  | cons a as ih =>
    have h1 := go_artItem nargs s a (ha a (by simp)) he hp
      (fun e h => ⟨hc e (by simp [h]), by simp [hs]⟩)
    simp only [hs, Option.getD_some, Elem.append] at h1
    have h2 := ih { s with articulations := some (.mk .articulations [] [] (ks ++ [a.node])) }
      (ks ++ [a.node]) (fun x hx => ha x (by simp [hx])) he hp rfl
      (fun e h => hc e (by simp [h]))
    simpa using h1.trans0 h2

/-- The state after the articulations. -/
def artState (s : St) (arts : List ArtItem) : St :=
  if arts.isEmpty then s
  else { s with articulations := some (.mk .articulations [] [] (arts.map ArtItem.node)) }

theorem go_arts (nargs : Counts) (arts : List ArtItem) (s : St)
    (ha : ∀ a ∈ arts, a.Ok nargs) (he : s.events = [])
    (hp : (s.music.isSome || s.duration.isSome) = true) (hs : s.articulations = none)
    (hf : ∀ e, arts.head? ≠ some (.comment e))
    (hc : ∀ e, ArtItem.comment e ∈ arts → s.modifier = none) :
    Go nargs s (arts.flatMap ArtItem.items) [] (artState s arts) := by
  cases arts with
  | nil => simpa [artState] using Go.nil nargs s
  | cons a as =>
    have h1 := go_artItem nargs s a (ha a (by simp)) he hp
      (fun e h => absurd (by simp [h]) (hf e))
    simp only [hs, Option.getD_none, Elem.append] at h1
    have h2 := go_arts_more nargs as { s with articulations := some (.mk .articulations [] [] [a.node]) }
      [a.node] (fun x hx => ha x (by simp [hx])) he hp rfl
      (fun e h => hc e (by simp [h]))
    simpa [artState] using h1.trans0 h2

/-- Comments while there is music without modifier and articulations. -/
theorem go_comments (nargs : Counts) (s : St) (cs : List Elem) (hm : s.modifier = none) (he : s.events = [])
    (ha : s.articulations = none) (hp : (s.music.isSome || s.duration.isSome) = true) :
    Go nargs s (comments cs) [] { s with comments := s.comments ++ cs } := by
  induction cs generalizing s with
  | nil => simpa [comments] using Go.nil nargs s
  | cons c cs ih =>
    have h2 := ih { s with comments := s.comments ++ [c] } hm he ha hp
    have hp' : (s.music.isNone && s.duration.isNone) = false := by
      cases h1 : s.music <;> cases h2 : s.duration <;> simp [h1, h2] at hp ⊢
    have h1 : Go nargs s [.elem .comment c] [] { s with comments := s.comments ++ [c] } :=
      Go.one (by intro items; simp only [step, context, hm, he, ha, hp', silent]; simp)
    simpa [comments] using h1.trans0 h2

/-- Comments after a modifier. -/
theorem go_comments_mod (nargs : Counts) (s : St) (cs : List Elem) (m : Elem) (hm : s.modifier = some m) :
    Go nargs s (comments cs) [] { s with modifier := some (m.extend cs) } := by
  induction cs generalizing s m with
  | nil =>
    have : s = { s with modifier := some (m.extend []) } := by
      rw [extend_nil, ← hm]
    rw [← this]
    simpa [comments] using Go.nil nargs s
  | cons c cs ih =>
    have h2 := ih { s with modifier := some (m.append c) } (m.append c) rfl
    have h1 : Go nargs s [.elem .comment c] [] { s with modifier := some (m.append c) } :=
      Go.one (by intro items; simp [step, context, hm, silent])
    have := h1.trans0 h2
    rw [append_eq_extend, extend_extend] at this
    simpa [comments] using this

/-- Comments after articulations. -/
theorem go_comments_art (nargs : Counts) (s : St) (cs : List Elem) (a : Elem) (hm : s.modifier = none)
    (he : s.events = []) (ha : s.articulations = some a) :
    Go nargs s (comments cs) [] { s with articulations := some (a.extend cs) } := by
  induction cs generalizing s a with
  | nil =>
    have : s = { s with articulations := some (a.extend []) } := by
      rw [extend_nil, ← ha]
    rw [← this]
    simpa [comments] using Go.nil nargs s
  | cons c cs ih =>
    have h2 := ih { s with articulations := some (a.append c) } (a.append c) hm he rfl
    have h1 : Go nargs s [.elem .comment c] [] { s with articulations := some (a.append c) } :=
      Go.one (by intro items; simp [step, context, hm, he, ha, silent])
    have := h1.trans0 h2
    rw [append_eq_extend, extend_extend] at this
    simpa [comments] using this

/-- The start of a sound. -/
theorem lyricWord_ok (more : List Tok) (last : Tok) (rest : List Item)
    (hm : ∀ u ∈ more, ∃ g : ℤ, u.group = some g ∧ 0 ≤ g) (hl : ∃ g : ℤ, last.group = some g ∧ g < 0) :
    lyricWord (more.map .tok ++ .tok last :: rest) = .ok (more ++ [last], rest) := by
  induction more with
  | nil =>
    obtain ⟨g, hg, h0⟩ := hl
    simp [lyricWord, hg, h0]
  | cons u us ih =>
    obtain ⟨g, hg, h0⟩ := hm u (by simp)
    have := ih (fun x hx => hm x (by simp [hx]))
    simp [lyricWord, hg, this, bind, Except.bind, Int.not_lt.mpr h0]

theorem go_start (nargs : Counts) (s : St) (st : Start) (h : st.Ok) (hf : Full s) :
    Go nargs s st.items (pendingMusic s) { music := some st.node } := by
  cases st with
  | tok t =>
    simp only [Start.Ok, List.mem_cons, List.not_mem_nil, or_false] at h
    refine Go.one ?_
    intro items
    rcases h with (h | h | h | h | h | h | h | h | h) | ⟨h, hg⟩ <;>
      simp [step, token, *, start, Start.node, soundClass, make, hf.2.1]
  | word t more last =>
    obtain ⟨hk, hg, hm, hl⟩ := h
    intro rest out' hr
    have hw := lyricWord_ok more last rest hm hl
    have := read_cons nargs s (.tok t) (more.map .tok ++ .tok last :: rest)
      (pendingMusic s, { music := some (Start.word t more last).node }, rest) ?_ out' hr
    · simpa [Start.items] using this
    · simp [step, token, hk, hg, hw, bind, Except.bind, start, Start.node]
  | elem e =>
    refine Go.one ?_
    intro items
    simp [step, context, start, Start.node]

/-! ## Modifiers -/

theorem go_chordMod (nargs : Counts) (s : St) (c : ChordMod) (h : c.Ok) (hm : s.music.isSome = true)
    (ha : s.articulations = none) (ks : List Elem)
    (hk : s.modifier.getD (.mk .chordModifiers [] [] []) = .mk .chordModifiers [] [] ks) :
    Go nargs s c.items []
      { s with modifier := some (.mk .chordModifiers [] [] (ks ++ [c.node])) } := by
  obtain ⟨sep, pitch, steps⟩ := c
  obtain ⟨hs, hp⟩ := h
  simp only at hs hp
  have hadd : ∀ e, token.addModifier s e = { s with modifier := some (.mk .chordModifiers [] [] (ks ++ [e])) } := by
    intro e
    simp [token.addModifier, hm, ha, hk, Elem.append]
  -- the separator and the pitch
  have h1 : Go nargs s (.tok sep :: pitch.toList.map .tok) []
      { s with modifier := some (.mk .chordModifiers [] [] (ks ++
        [.mk (.made .chordMod) [sep] [] (pitch.toList.map fun p => .mk .pitch [p] [] [])])) } := by
    cases pitch with
    | none =>
      have hg : sep.group ≠ some 0 := by simpa using hp
      refine Go.one ?_
      intro items
      simp [step, token, hs, hg, hadd, silent, make]
    | some p =>
      have hg : sep.group = some 0 := by simpa using hp
      intro rest out' hr
      refine read_cons nargs s (.tok sep) (.tok p :: rest)
        ([], { s with modifier := some (.mk .chordModifiers [] [] (ks ++
          [.mk (.made .chordMod) [sep] [] [.mk .pitch [p] [] []]])) }, rest) ?_ out' hr
      simp [step, token, hs, hg, hadd, silent, make]
  cases steps with
  | none => simpa [ChordMod.items, ChordMod.node] using h1
  | some l =>
    have h2 : Go nargs { s with modifier := some (.mk .chordModifiers [] [] (ks ++
        [.mk (.made .chordMod) [sep] [] (pitch.toList.map fun p => .mk .pitch [p] [] [])])) }
        [.modifier l] []
        { s with modifier := some (.mk .chordModifiers [] [] (ks ++
          [.mk (.made .chordMod) [sep] [] ((pitch.toList.map fun p => .mk .pitch [p] [] []) ++ l)])) } := by
      refine Go.one ?_
      intro items
      simp [step, context, extendLast, bind, Except.bind, silent, Elem.extend]
    simpa [ChordMod.items, ChordMod.node] using h1.trans0 h2

theorem go_chordMods (nargs : Counts) (cs : List ChordMod) (s : St) (h : ∀ c ∈ cs, c.Ok)
    (hm : s.music.isSome = true) (ha : s.articulations = none) (ks : List Elem)
    (hk : s.modifier = some (.mk .chordModifiers [] [] ks)) :
    Go nargs s (cs.flatMap ChordMod.items) []
      { s with modifier := some (.mk .chordModifiers [] [] (ks ++ cs.map ChordMod.node)) } := by
  induction cs generalizing s ks with
  | nil =>
    have : s = { s with modifier := some (.mk .chordModifiers [] [] (ks ++ [])) } := by
      simp [← hk]
    simp only [List.flatMap_nil, List.map_nil]
    rw [← this]
    exact Go.nil nargs s
  | cons c cs ih =>
    have h1 := go_chordMod nargs s c (h c (by simp)) hm ha ks (by simp [hk])
    have h2 := ih { s with modifier := some (.mk .chordModifiers [] [] (ks ++ [c.node])) }
      (fun x hx => h x (by simp [hx])) hm ha (ks ++ [c.node]) rfl
    simpa using h1.trans0 h2

/-- The class after `\\rest`. -/
def asRest : Elem → Elem
  | .mk _ h t ks => .mk .pitchedRest h t ks

/-- The music after the modifiers. -/
def modMusic (mods : Option Mods) (m : Option Elem) : Option Elem :=
  match mods with
  | some (.rest _) => m.map asRest
  | _ => m

theorem go_mods (nargs : Counts) (s : St) (m : Mods)
    (hr : ∀ t, m = .rest t → t.kind = .restMark ∧ ∃ h tl ks, s.music = some (.mk .note h tl ks))
    (hc : ∀ c cs, m = .chord c cs → ∀ x ∈ c :: cs, x.Ok)
    (hm : s.music.isSome = true) (ha : s.articulations = none) (hn : s.modifier = none) :
    Go nargs s m.items [] { s with music := modMusic (some m) s.music, modifier := some m.node } := by
  cases m with
  | rest t =>
    obtain ⟨hk, h, tl, ks, hmu⟩ := hr t rfl
    refine Go.one ?_
    intro items
    simp [step, token, hk, hmu, silent, Mods.node, make, modMusic, asRest]
  | chord c cs =>
    have hok := hc c cs rfl
    have h1 := go_chordMod nargs s c (hok c (by simp)) hm ha [] (by simp [hn])
    have h2 := go_chordMods nargs cs { s with modifier := some (.mk .chordModifiers [] [] [c.node]) }
      (fun x hx => hok x (by simp [hx])) hm ha [c.node] rfl
    simpa [Mods.items, Mods.node, modMusic] using h1.trans0 h2

/-! ## The parts of a sound after the duration -/

/-- The final state of a sound, given the state after its duration. -/
def finalState (s : Sound) (t : St) : St :=
  { t with
    music := modMusic s.mods t.music
    modifier := s.mods.map fun m => m.node.extend s.modComments
    articulations :=
      if s.arts.isEmpty then none
      else some ((Elem.mk .articulations [] [] (s.arts.map ArtItem.node)).extend s.artComments)
    comments := t.comments ++ s.durComments }

theorem go_tail (nargs : Counts) (s : Sound) (hs : s.Ok nargs) (t : St) (he : t.events = [])
    (hn : t.modifier = none) (ha : t.articulations = none)
    (hp : (t.music.isSome || t.duration.isSome) = true)
    (hm : s.mods.isSome = true → t.music.isSome = true)
    (hr : ∀ u, s.mods = some (.rest u) → ∃ h tl ks, t.music = some (.mk .note h tl ks)) :
    Go nargs t (comments s.durComments ++ (s.mods.map Mods.items).getD [] ++ comments s.modComments ++
      s.arts.flatMap ArtItem.items ++ comments s.artComments) [] (finalState s t) := by
  have h1 := go_comments nargs t s.durComments hn he ha hp
  have h23 : Go nargs { t with comments := t.comments ++ s.durComments }
      ((s.mods.map Mods.items).getD [] ++ comments s.modComments) []
      { t with music := modMusic s.mods t.music,
               modifier := s.mods.map fun m => m.node.extend s.modComments,
               comments := t.comments ++ s.durComments } := by
    rcases hmods : s.mods with _ | m
    · rw [hs.modComments hmods]
      have : ({ t with comments := t.comments ++ s.durComments } : St) =
          { t with music := t.music, modifier := none, comments := t.comments ++ s.durComments } := by
        rw [← hn]
      simp only [Option.map_none, Option.getD_none, comments, List.map_nil, List.append_nil, modMusic]
      rw [← this]
      exact Go.nil nargs _
    · have h2 := go_mods nargs { t with comments := t.comments ++ s.durComments } m
        (fun u hu => ⟨(hs.restMark u (by rw [hmods, hu])).1, hr u (by rw [hmods, hu])⟩)
        (fun c cs hc => hs.chordMods c cs (by rw [hmods, hc])) (hm (by simp [hmods])) ha hn
      have h3 := go_comments_mod nargs { t with comments := t.comments ++ s.durComments, music := modMusic (some m) t.music, modifier := some m.node } s.modComments m.node rfl
      simpa using h2.trans0 h3
  have hp2 : ((modMusic s.mods t.music).isSome || t.duration.isSome) = true := by
    rw [← hp]
    unfold modMusic
    split <;> simp
  have h4 := go_arts nargs s.arts
    { t with music := modMusic s.mods t.music,
             modifier := s.mods.map fun m => m.node.extend s.modComments,
             comments := t.comments ++ s.durComments }
    hs.arts he hp2 ha hs.artFirst (by
      intro e hemem
      rcases hmods : s.mods with _ | m
      · rfl
      · exact absurd hemem ((hs.modArts (by simp [hmods])).2 e))
  have h5 : Go nargs (artState { t with music := modMusic s.mods t.music, modifier := s.mods.map fun m => m.node.extend s.modComments, comments := t.comments ++ s.durComments } s.arts) (comments s.artComments) [] (finalState s t) := by
    by_cases hz : s.arts = []
    · rw [hs.artComments hz]
      simp only [artState, finalState, hz, List.isEmpty_nil, if_true, comments, List.map_nil]
      have hst : ({ t with music := modMusic s.mods t.music, modifier := s.mods.map fun m => m.node.extend s.modComments, comments := t.comments ++ s.durComments } : St)
          = { t with music := modMusic s.mods t.music, modifier := s.mods.map fun m => m.node.extend s.modComments, articulations := none, comments := t.comments ++ s.durComments } := by
        rw [← ha]
      rw [← hst]
      exact Go.nil nargs _
    · have hz' : s.arts.isEmpty = false := by
        cases h : s.arts with
        | nil => exact absurd h hz
        | cons _ _ => rfl
      simp only [artState, finalState, hz', Bool.false_eq_true, if_false]
      rcases hmods : s.mods with _ | m
      · exact go_comments_art nargs _ s.artComments _ rfl he rfl
      · rw [(hs.modArts (by simp [hmods])).1]
        simp only [comments, List.map_nil, extend_nil]
        exact Go.nil nargs _
  have := ((h1.trans0 h23).trans0 h4).trans0 h5
  simpa [List.append_assoc] using this

end Quickly.Read
