import Verif.Dump.Spec
import Mathlib.Data.List.TakeWhile

/-! # C96: dumping elements as Python code -/

namespace Quickly.Dump

open Quickly.Node Quickly.Text Quickly.Dump.Spec

variable {κ η : Type}

/-! ## The text, written with recursion -/

mutual
/-- The text of a node without the closing parenthesis. -/
def body (N : Names κ η) (w : ℕ) : ℕ → Tree (Val κ η) → Str
  | d, .node v cs => opening N w d (.node v cs) ++ if cs.isEmpty then [] else '\n' :: bodies N w (d + 1) cs
/-- The text of the children. -/
def bodies (N : Names κ η) (w : ℕ) : ℕ → List (Tree (Val κ η)) → Str
  | _, [] => []
  | d, t :: ts => body N w d t ++ (if ts.isEmpty then [')'] else [')', ',', '\n']) ++ bodies N w d ts
end

/-- The text of what an iterator gives. -/
def genText (N : Names κ η) (w d : ℕ) (gen : List (Tree (Val κ η) × Bool)) : Str :=
  gen.flatMap fun x => body N w d x.1 ++ closing x.2

theorem genText_withLast (N : Names κ η) (w d : ℕ) : ∀ cs : List (Tree (Val κ η)),
    genText N w d (withLast cs) = bodies N w d cs
  | [] => by simp [withLast, genText, bodies]
  | [t] => by simp [withLast, genText, bodies, closing]
  | t :: u :: ts => by
    have := genText_withLast N w d (u :: ts)
    rw [withLast, bodies, ← this]
    · simp [genText, closing]
    · simp

/-- The text of what is on the stack. -/
def stackText (N : Names κ η) (w : ℕ) : List (List (Tree (Val κ η) × Bool) × Str) → Str
  | [] => []
  | (gen, text) :: stack => text ++ genText N w stack.length gen ++ stackText N w stack

theorem run_eq (N : Names κ η) (w : ℕ) (gen : List (Tree (Val κ η) × Bool)) (stack) :
    run N w gen stack = genText N w stack.length gen ++ stackText N w stack := by
  fun_induction run N w gen stack with
  | case1 => simp [genText, stackText]
  | case2 gen text stack ih => rw [ih]; simp [genText, stackText]
  | case3 n last gen stack ih1 ih2 =>
    obtain ⟨v, cs⟩ := n
    rw [show (Tree.node v cs).children = cs from rfl] at *
    by_cases hc : cs.isEmpty = true
    · rw [if_pos hc, ih1 hc]
      simp [genText, body, hc]
    · rw [if_neg hc, ih2 hc, genText_withLast]
      simp [genText, body, hc, stackText]

theorem pyDump_eq (N : Names κ η) (w : ℕ) (last : Bool) (t : Tree (Val κ η)) :
    pyDump N w last t = body N w 0 t ++ closing last := by
  simp [pyDump, run_eq, genText, stackText]

/-! ## Reading it -/

theorem each_cons {α : Type} {P : α → Prop} {v : α} {cs : List (Tree α)} (h : Each P (.node v cs)) :
    P v ∧ ∀ c ∈ cs, Each P c := by
  refine ⟨h [] _ rfl, fun c hc p n hn => ?_⟩
  obtain ⟨i, hi, rfl⟩ := List.mem_iff_getElem.1 hc
  refine h (i :: p) n ?_
  simp [Tree.get?, Tree.children, hi, hn]

theorem skip_spaces (n : ℕ) (s : Str) : skip (List.replicate n ' ' ++ s) = skip s := by
  induction n with
  | zero => rfl
  | succ n ih => rw [List.replicate_succ, List.cons_append, skip, List.dropWhile_cons_of_pos (by rfl)]; exact ih

theorem skip_newline (s : Str) : skip ('\n' :: s) = skip s := by
  rw [skip, List.dropWhile_cons_of_pos (by rfl)]; rfl

theorem skip_begins {s : Str} (h : Begins s) (r : Str) : skip (s ++ r) = s ++ r := by
  obtain ⟨c, q, rfl, h1, h2, -⟩ := h
  rw [List.cons_append, skip, List.dropWhile_cons_of_neg]
  simp [h1, h2]

theorem args_close (E : Env κ η) (n : ℕ) (r : Str) : args E (n + 1) (')' :: r) = some ([], r) := by
  rw [args]; rfl

theorem more_close (E : Env κ η) (n : ℕ) (r : Str) : more E (n + 1) (')' :: r) = some ([], r) := by
  rw [more]; rfl

theorem more_comma (E : Env κ η) (n : ℕ) (r : Str) : more E (n + 1) (',' :: r) = args E n r := by
  rw [more]; rfl

theorem args_call (E : Env κ η) (n : ℕ) {s q : Str} (hq : Begins q) (r : Str) (hs : skip s = q ++ r) {t : Tree (Val κ η)} {r' : Str}
    (hc : call E n (q ++ r) = some (t, r')) : args E (n + 1) s = (more E n r').map fun x => (t :: x.1, x.2) := by
  obtain ⟨c, q', rfl, -, -, h3⟩ := hq
  rw [args, hs]
  split
  · rename_i heq
    simp only [List.cons_append, List.cons.injEq] at heq
    exact absurd heq.1 h3
  · rw [hc]

theorem call_name (E : Env κ η) (N : Names κ η) (n : ℕ) {x : Val κ η} (h : Known N E x) (r : Str) :
    call E (n + 1) (N.name x.1 ++ '(' :: r) =
      if E.isText x.1 then
        match E.lit (skip r) with
        | none => none
        | some (v, r) => (more E n r).map fun y => (.node (x.1, some v) y.1, y.2)
      else (args E n r).map fun y => (.node (x.1, none) y.1, y.2) := by
  have hall : ∀ c ∈ N.name x.1, (c != '(') = true := by
    intro c hc
    simp only [bne_iff_ne, ne_eq]
    rintro rfl
    exact h.name.1 hc
  rw [call, List.dropWhile_append_of_pos hall, List.takeWhile_append_of_pos hall,
    List.dropWhile_cons_of_neg (by simp), List.takeWhile_cons_of_neg (by simp), List.append_nil]
  simp only [h.cls]
  rfl

mutual
theorem call_body (N : Names κ η) (E : Env κ η) (w : ℕ) : ∀ (t : Tree (Val κ η)), Each (Known N E) t → ∀ (d : ℕ) (r : Str) (n : ℕ),
    3 * size t ≤ n → ∃ q p, Begins q ∧ skip (body N w d t ++ ')' :: r) = q ++ p ∧ call E n (q ++ p) = some (t, r)
  | .node x cs, h, d, r, n, hn => by
    obtain ⟨hx, hcs⟩ := each_cons h
    obtain ⟨n, rfl⟩ : ∃ m, n = m + 3 := ⟨n - 3, by simp [size] at hn; omega⟩
    have hn' : 3 * size.sizes cs ≤ n := by simp [size] at hn; omega
    obtain ⟨k, v⟩ := x
    have hsk : ∀ u : Str, skip (List.replicate (d * w) ' ' ++ N.name k ++ '(' :: u) = N.name k ++ '(' :: u := by
      intro u
      rw [List.append_assoc, skip_spaces, skip_begins hx.name.2]
    have ht := hx.text
    cases cs with
    | nil =>
      cases v with
      | none =>
        refine ⟨N.name k, '(' :: ')' :: r, hx.name.2, ?_, ?_⟩
        · rw [← hsk]; simp [body, opening, Tree.val]
        · rw [call_name E N (n + 2) hx]
          have : E.isText k = false := ht
          simp [this, args_close]
      | some v =>
        obtain ⟨hb, hl⟩ := hx.repr v rfl
        refine ⟨N.name k, '(' :: (N.repr v ++ ')' :: r), hx.name.2, ?_, ?_⟩
        · rw [← hsk]; simp [body, opening, Tree.val, Tree.children]
        · rw [call_name E N (n + 2) hx]
          have : E.isText k = true := ht
          simp only [this, if_true]
          rw [skip_begins hb, hl _ ⟨_, _, rfl, .inr rfl⟩]
          simp [more_close]
    | cons c cs =>
      have ha := fun m (hm : 3 * size.sizes (c :: cs) + 1 ≤ m) =>
        args_bodies N E w c cs (hcs) (d + 1) r m hm
      cases v with
      | none =>
        refine ⟨N.name k, '(' :: '\n' :: (bodies N w (d + 1) (c :: cs) ++ ')' :: r), hx.name.2, ?_, ?_⟩
        · rw [← hsk]; simp [body, opening, Tree.val]
        · rw [call_name E N (n + 2) hx]
          have : E.isText k = false := ht
          simp only [this]
          rw [ha _ (by omega)]
          rfl
      | some v =>
        obtain ⟨hb, hl⟩ := hx.repr v rfl
        refine ⟨N.name k, '(' :: (N.repr v ++ ',' :: '\n' :: (bodies N w (d + 1) (c :: cs) ++ ')' :: r)), hx.name.2, ?_, ?_⟩
        · rw [← hsk]; simp [body, opening, Tree.val, Tree.children]
        · rw [call_name E N (n + 2) hx]
          have : E.isText k = true := ht
          simp only [this, if_true]
          rw [skip_begins hb, hl _ ⟨_, _, rfl, .inl rfl⟩]
          simp only [more_comma]
          rw [ha _ (by omega)]
          rfl
termination_by t => sizeOf t
theorem args_bodies (N : Names κ η) (E : Env κ η) (w : ℕ) : ∀ (c : Tree (Val κ η)) (cs : List (Tree (Val κ η))),
    (∀ x ∈ c :: cs, Each (Known N E) x) → ∀ (d : ℕ) (r : Str) (n : ℕ), 3 * size.sizes (c :: cs) + 1 ≤ n →
      args E n ('\n' :: (bodies N w d (c :: cs) ++ ')' :: r)) = some (c :: cs, r)
  | c, [], h, d, r, n, hn => by
    obtain ⟨n, rfl⟩ : ∃ m, n = m + 1 := ⟨n - 1, by omega⟩
    have h1 : 1 ≤ size c := by cases c; simp [size]
    simp only [size.sizes] at hn
    obtain ⟨q, p, hq, hs, hc⟩ := call_body N E w c (h c (by simp)) d (')' :: r) n (by omega)
    rw [args_call E n hq p (by rw [skip_newline, ← hs]; simp [bodies]) hc]
    obtain ⟨n, rfl⟩ : ∃ m, n = m + 1 := ⟨n - 1, by omega⟩
    rw [more_close]
    rfl
  | c, c' :: cs, h, d, r, n, hn => by
    obtain ⟨n, rfl⟩ : ∃ m, n = m + 1 := ⟨n - 1, by omega⟩
    have h1 : 1 ≤ size c := by cases c; simp [size]
    have hn' : 3 * size c + 3 * size.sizes (c' :: cs) ≤ n := by
      rw [size.sizes] at hn; omega
    obtain ⟨q, p, hq, hs, hc⟩ := call_body N E w c (h c (by simp)) d
      (',' :: '\n' :: (bodies N w d (c' :: cs) ++ ')' :: r)) n (by omega)
    rw [args_call E n hq p (by rw [skip_newline, ← hs, bodies]; simp) hc]
    obtain ⟨n, rfl⟩ : ∃ m, n = m + 1 := ⟨n - 1, by omega⟩
    rw [more_comma, args_bodies N E w c' cs (fun x hx => h x (List.mem_cons_of_mem _ hx)) d r n (by omega)]
    rfl
termination_by c cs => sizeOf (c :: cs)
end

mutual
theorem body_length (N : Names κ η) (E : Env κ η) (w : ℕ) : ∀ (t : Tree (Val κ η)), Each (Known N E) t → ∀ d : ℕ,
    2 * size t ≤ (body N w d t).length + 0
  | .node x cs, h, d => by
    obtain ⟨hx, hcs⟩ := each_cons h
    obtain ⟨c, q, hq, -⟩ := hx.name.2
    have hb := bodies_length N E w cs hcs (d + 1)
    rw [body]
    simp only [opening, Tree.val, List.length_append, hq, List.length_cons, size, List.length_nil]
    cases cs with
    | nil => simp [size.sizes]; omega
    | cons c cs => simp at hb ⊢; omega
theorem bodies_length (N : Names κ η) (E : Env κ η) (w : ℕ) : ∀ (cs : List (Tree (Val κ η))), (∀ c ∈ cs, Each (Known N E) c) →
    ∀ d : ℕ, 2 * size.sizes cs ≤ (bodies N w d cs).length
  | [], _, _ => by simp [size.sizes]
  | c :: cs, h, d => by
    have h1 := body_length N E w c (h c (by simp)) d
    have h2 := bodies_length N E w cs (fun x hx => h x (List.mem_cons_of_mem _ hx)) d
    rw [bodies, size.sizes]
    simp only [List.length_append]
    omega
end

/-- C96: the output of `py_dump`, read as Python code, makes the same elements: the same classes with the same head values
and the same children. -/
theorem C96_eval (N : Names κ η) (E : Env κ η) (w : ℕ) (t : Tree (Val κ η)) (h : Each (Known N E) t) :
    eval E (pyDump N w true t) = some t := by
  have hd : ∃ q p, pyDump N w true t = q ++ p ∧ Begins q := by
    obtain ⟨v, cs⟩ := t
    exact ⟨N.name v.1, _, by rw [pyDump_eq, body, opening]; simp [Tree.val]; rfl, (each_cons h).1.name.2⟩
  obtain ⟨q', p', hqp, hb⟩ := hd
  have hl := body_length N E w t h 0
  obtain ⟨q, p, -, hs, hc⟩ := call_body N E w t h 0 [] (2 * (pyDump N w true t).length + 2) (by
    rw [pyDump_eq]; simp [closing]; omega)
  unfold eval
  have : body N w 0 t ++ [')'] = pyDump N w true t := by rw [pyDump_eq]; rfl
  rw [this, hqp, skip_begins hb, ← hqp] at hs
  rw [← hs] at hc
  rw [hc]
  rfl

/-- C96: the code of a node that has a parent and is not its last child ends with a comma: alone, it is no expression for
the element (to Python it is a tuple). -/
theorem C96_not_last (N : Names κ η) (E : Env κ η) (w : ℕ) (t : Tree (Val κ η)) (h : Each (Known N E) t) :
    pyDump N w false t = pyDump N w true t ++ [',', '\n'] ∧ eval E (pyDump N w false t) = none := by
  refine ⟨by simp [pyDump_eq, closing], ?_⟩
  have hd : ∃ q p, pyDump N w false t = q ++ p ∧ Begins q := by
    obtain ⟨v, cs⟩ := t
    exact ⟨N.name v.1, _, by rw [pyDump_eq, body, opening]; simp [Tree.val]; rfl, (each_cons h).1.name.2⟩
  obtain ⟨q', p', hqp, hb⟩ := hd
  have hl := body_length N E w t h 0
  obtain ⟨q, p, -, hs, hc⟩ := call_body N E w t h 0 [',', '\n'] (2 * (pyDump N w false t).length + 2) (by
    rw [pyDump_eq]; simp [closing]; omega)
  unfold eval
  have : body N w 0 t ++ [')', ',', '\n'] = pyDump N w false t := by rw [pyDump_eq]; rfl
  rw [this, hqp, skip_begins hb, ← hqp] at hs
  rw [← hs] at hc
  rw [hc]
  rfl

/-! ## One line per node -/

mutual
theorem body_lines (N : Names κ η) (w : ℕ) (hn : ∀ k, '\n' ∉ N.name k) (hr : ∀ v, '\n' ∉ N.repr v) :
    ∀ (t : Tree (Val κ η)) (d : ℕ), (body N w d t).count '\n' + 1 = size t
  | .node x cs, d => by
    obtain ⟨k, v⟩ := x
    have h1 : (N.name k).count '\n' = 0 := List.count_eq_zero.2 (hn k)
    have hb := bodies_lines N w hn hr cs (d + 1)
    have h0 : (opening N w d (.node (k, v) cs)).count '\n' = 0 := by
      have h2 : (List.replicate (d * w) ' ').count '\n' = 0 := by
        rw [List.count_eq_zero]; intro h; have := List.eq_of_mem_replicate h; cases this
      cases v with
      | none => simp [opening, Tree.val, h1, h2]
      | some v =>
        have h3 : (N.repr v).count '\n' = 0 := List.count_eq_zero.2 (hr v)
        simp only [opening, Tree.val, List.count_append, h1, h2, h3]
        split <;> simp
    rw [body, List.count_append, h0, size]
    cases cs with
    | nil => simp [size.sizes]
    | cons c cs => simp at hb ⊢; omega
theorem bodies_lines (N : Names κ η) (w : ℕ) (hn : ∀ k, '\n' ∉ N.name k) (hr : ∀ v, '\n' ∉ N.repr v) :
    ∀ (cs : List (Tree (Val κ η))) (d : ℕ), (bodies N w d cs).count '\n' + (if cs.isEmpty then 0 else 1) = size.sizes cs
  | [], d => by simp [bodies, size.sizes]
  | c :: cs, d => by
    have h1 := body_lines N w hn hr c d
    have h2 := bodies_lines N w hn hr cs d
    rw [bodies, size.sizes]
    simp only [List.count_append]
    cases cs with
    | nil => simp at h2 ⊢; omega
    | cons c cs => simp at h2 ⊢; omega
end

/-- C96: there is one line for every node. -/
theorem C96_lines (N : Names κ η) (w : ℕ) (hn : ∀ k, '\n' ∉ N.name k) (hr : ∀ v, '\n' ∉ N.repr v) (t : Tree (Val κ η)) :
    (pyDump N w true t).count '\n' + 1 = size t := by
  rw [pyDump_eq, List.count_append]
  simpa [closing] using body_lines N w hn hr t 0

/-! ## An example -/

/-- Four classes of `lily` and `tex`. -/
inductive Cls
  | Document
  | MusicList
  | Note
  | Octave
deriving DecidableEq

/-- Their names; the head values are texts without quotes. -/
def names : Names Cls Str where
  name
    | .Document => "lily.Document".toList
    | .MusicList => "lily.MusicList".toList
    | .Note => "lily.Note".toList
    | .Octave => "lily.Octave".toList
  repr v := '\'' :: v ++ ['\'']

/-- Python with these classes, and texts between single quotes. -/
def env : Env Cls Str where
  cls s := [Cls.Document, .MusicList, .Note, .Octave].find? fun k => names.name k == s
  isText k := k == .Note || k == .Octave
  lit
    | '\'' :: s => match s.dropWhile (· != '\'') with
      | '\'' :: r => some (s.takeWhile (· != '\''), r)
      | _ => none
    | _ => none

/-- A document with notes. -/
def doc : Tree (Val Cls Str) :=
  .node (.Document, none) [.node (.MusicList, none)
    [.node (.Note, some ['c']) [.node (.Octave, some [',']) []], .node (.Note, some ['d']) [], .node (.MusicList, none) []]]

theorem known_all (k : Cls) (v : Option Str) (hk : env.isText k = v.isSome) (hv : ∀ s, v = some s → '\'' ∉ s) :
    Known names env (k, v) := by
  refine ⟨by show env.cls (names.name k) = some k; cases k <;> decide +kernel, ⟨?_, ?_⟩, hk, ?_⟩
  · show '(' ∉ names.name k
    cases k <;> decide +kernel
  · cases k <;> exact ⟨_, _, rfl, by decide, by decide, by decide⟩
  · rintro s rfl
    have hs := hv s rfl
    have hall : ∀ c ∈ s, (c != '\'') = true := by
      intro c hc
      simp only [bne_iff_ne, ne_eq]
      rintro rfl
      exact hs hc
    refine ⟨⟨_, _, rfl, by decide, by decide, by decide⟩, fun r _ => ?_⟩
    simp only [names, env, List.cons_append, List.append_assoc, List.nil_append]
    rw [List.dropWhile_append_of_pos hall, List.takeWhile_append_of_pos hall,
      List.dropWhile_cons_of_neg (by simp), List.takeWhile_cons_of_neg (by simp), List.append_nil]
    rfl

example : Each (Known names env) doc := by
  intro p n hn
  have : n.val ∈ [(Cls.Document, none), (.MusicList, none), (.Note, some ['c']), (.Octave, some [',']), (.Note, some ['d'])] := by
    match p, hn with
    | [], hn => cases hn; decide
    | [0], hn => cases hn; decide
    | [0, 0], hn => cases hn; decide
    | [0, 0, 0], hn => cases hn; decide
    | [0, 1], hn => cases hn; decide
    | [0, 2], hn => cases hn; decide
    | 0 :: 0 :: 0 :: _ :: _, hn => cases hn
    | 0 :: 0 :: (_ + 1) :: _, hn => cases hn
    | 0 :: 1 :: _ :: _, hn => cases hn
    | 0 :: 2 :: _ :: _, hn => cases hn
    | 0 :: (_ + 3) :: _, hn => cases hn
    | (_ + 1) :: _, hn => cases hn
  simp only [List.mem_cons, List.not_mem_nil, or_false] at this
  rcases this with h | h | h | h | h <;> rw [h] <;> exact known_all _ _ rfl (by simp)

example : String.ofList (pyDump names 4 true doc) = "lily.Document(\n    lily.MusicList(\n        lily.Note('c',\n            lily.Octave(',')),\n        lily.Note('d'),\n        lily.MusicList()))" := by
  decide +kernel

end Quickly.Dump
