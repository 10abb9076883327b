import Verif.Markup.Lemmas2

/-! # Constructing markup: the property -/

namespace Quickly.Markup

open Quickly.Scheme (Str)
open Quickly.Scheme.Spec hiding Means
open Quickly.Markup.Spec

variable {nargs : Str → Option ℕ} {isMarkup : Str → Bool}

/-- The value of an expression: converted, it means what the expression says. -/
def Fits (isMarkup : Str → Bool) (nargs : Str → Option ℕ) (x : Arg) (e : Expr) : Prop :=
  Said nargs (autoArg isMarkup x) (say e) ∧ match e with
    | .str s => x = .str s
    | .val v => x = .val v ∧ Spec.Plain v
    | .call _ _ => ∃ t, x = .el t

theorem said_args {xs : List Arg} {es : List Expr} (h : List.Forall₂ (Fits isMarkup nargs) xs es) :
    List.Forall₂ (Said nargs) (xs.map (autoArg isMarkup)) (say.all es) := by
  induction h with
  | nil => exact .nil
  | cons h _ ih => exact .cons h.1 ih

theorem all_length (es : List Expr) : (say.all es).length = es.length := by
  induction es with
  | nil => rfl
  | cons e es ih => simp [say.all, ih]

theorem all_drop (k : ℕ) (es : List Expr) : (say.all es).drop k = say.all (es.drop k) := by
  induction k generalizing es with
  | zero => rfl
  | succ k ih => cases es with
    | nil => rfl
    | cons e es => simpa [say.all] using ih es

theorem forall₂_drop {xs : List Arg} {es : List Expr} (k : ℕ) (h : List.Forall₂ (Fits isMarkup nargs) xs es) :
    List.Forall₂ (Fits isMarkup nargs) (xs.drop k) (es.drop k) := List.forall₂_drop k h

theorem said_createList {xs : List Arg} {es : List Expr} (h : List.Forall₂ (Fits isMarkup nargs) xs es) :
    Said nargs (createList isMarkup xs) (group (say.all es)) := by
  cases h with
  | nil => exact said_list [] [] .nil
  | cons h hs =>
    cases hs with
    | nil => exact h.1
    | cons h' hs => exact said_list _ _ (said_args (.cons h (.cons h' hs)))

/-- An argument that is used as it is. -/
theorem said_child {x : Arg} {e : Expr} (h : Fits isMarkup nargs x e) {t : Node.Tree El} (hc : child x = .ok t) :
    Said nargs t (say e) := by
  obtain ⟨h1, h2⟩ := h
  cases e with
  | str s => simp only at h2; subst h2; simp [child] at hc
  | val v =>
    obtain ⟨rfl, hp⟩ := h2
    cases v <;> simp [child, Spec.Plain] at hc hp
  | call f es =>
    obtain ⟨t', rfl⟩ := h2
    simp only [child, Except.ok.injEq] at hc
    subst hc
    exact h1

theorem said_duration {x : Arg} {e : Expr} (h : Fits isMarkup nargs x e) (hw : ∀ t, single [e] = some t → Word t)
    {t : Node.Tree El} (hc : duration x = .ok t) :
    List.Forall₂ (Said nargs) [t] (match single [e] with
      | some t => [.list [.text t]]
      | none => say.all [e]) := by
  cases e with
  | str s =>
    obtain ⟨-, h2⟩ := h
    simp only at h2
    subst h2
    simp only [duration, Except.ok.injEq] at hc
    subst hc
    exact .cons (said_list _ _ (.cons (said_word _ (hw s rfl)) .nil)) .nil
  | val v =>
    obtain ⟨rfl, hp⟩ := h.2
    cases v <;> simp [duration, child, Spec.Plain] at hc hp
  | call f es =>
    obtain ⟨t', rfl⟩ := h.2
    exact .cons (said_child h hc) .nil

theorem known_name : ∀ p ∈ known, ∀ c ∈ p.1.toList, isName c = true := by decide +kernel

theorem known_cmd (hk : Known nargs) (n : String) (k : ℕ) (hm : (n, k) ∈ known) {ts : List (Node.Tree El)} {ms : List M}
    (hl : ts.length = k) (h : List.Forall₂ (Said nargs) ts ms) : Said nargs (cmd n.toList ts) (.cmd n.toList ms) :=
  said_cmd _ (known_name _ hm) _ _ (by rw [← h.length_eq, hl]; exact hk _ hm) h

/-- A call. -/
theorem said_call (hk : Known nargs) (f : Fn) (xs : List Arg) (es : List Expr) (h : List.Forall₂ (Fits isMarkup nargs) xs es)
    (hp : Proper nargs f (single es)) (t : Node.Tree El) (hc : call isMarkup f xs = .ok t) :
    Said nargs t (command f (single es) (say.all es)) := by
  have ok : ∀ {x y : Node.Tree El}, (Except.ok x : Py (Node.Tree El)) = .ok y → x = y := fun h => by injection h
  have nm : ∀ {n : String} {k : ℕ}, (n, k) ∈ known → nargs n.toList = some k := fun {n k} h => hk (n, k) h
  have hl := said_createList h
  cases f with
  | markup => cases ok hc; exact said_markup _ (by decide) _ _ (nm (k := 1) (by decide)) (.cons hl .nil)
  | markuplist => cases ok hc; exact said_markup _ (by decide) _ _ (nm (k := 1) (by decide)) (.cons (said_list _ _ (said_args h)) .nil)
  | char n => cases h with
    | nil => cases ok hc; exact known_cmd hk "char" 1 (by decide) rfl (.cons (said_hex n) .nil)
    | cons _ _ => cases hc
  | tiedLyric u => cases h with
    | nil => cases ok hc; exact known_cmd hk "tied-lyric" 1 (by decide) rfl (.cons (said_scmString u) .nil)
    | cons _ _ => cases hc
  | fretDiagram u => cases h <;> cases hc
  | fretDiagramTerse u => cases h <;> cases hc
  | fretDiagramVerbose => cases h with
    | nil => cases hc
    | cons _ h => cases h <;> cases hc
  | fromproperty u => cases h with
    | nil => cases ok hc; exact known_cmd hk "fromproperty" 1 (by decide) rfl (.cons (said_sym u hp) .nil)
    | cons _ _ => cases hc
  | harpPedal u => cases h with
    | nil => cases ok hc; exact known_cmd hk "harp-pedal" 1 (by decide) rfl (.cons (said_str u) .nil)
    | cons _ _ => cases hc
  | justifyField u => cases h with
    | nil => cases ok hc; exact known_cmd hk "justify-field" 1 (by decide) rfl (.cons (said_sym u hp) .nil)
    | cons _ _ => cases hc
  | justifyString u => cases h with
    | nil => cases ok hc; exact known_cmd hk "justify-string" 1 (by decide) rfl (.cons (said_scmString u) .nil)
    | cons _ _ => cases hc
  | lookup u => cases h with
    | nil => cases ok hc; exact known_cmd hk "lookup" 1 (by decide) rfl (.cons (said_scmString u) .nil)
    | cons _ _ => cases hc
  | musicglyph u => cases h with
    | nil => cases ok hc; exact known_cmd hk "musicglyph" 1 (by decide) rfl (.cons (said_scmString u) .nil)
    | cons _ _ => cases hc
  | postscript => cases h with
    | nil => cases hc
    | @cons x e _ _ hx h => cases h with
      | cons _ _ => cases x <;> first | cases hc | (rename_i v; cases v <;> cases hc)
      | nil =>
        cases e with
        | str u =>
          have hx2 := hx.2
          simp only at hx2
          subst hx2
          cases ok hc; exact known_cmd hk "postscript" 1 (by decide) rfl (.cons (said_scmString u) .nil)
        | val v =>
          obtain ⟨rfl, hv⟩ := hx.2
          cases v <;> first | exact hv.elim | cases hc
        | call g gs =>
          obtain ⟨u, rfl⟩ := hx.2
          cases ok hc; exact known_cmd hk "postscript" 1 (by decide) rfl (.cons hx.1 .nil)
  | rest => cases h with
    | nil => cases hc
    | @cons x e _ _ hx h => cases h with
      | cons _ _ => cases hc
      | nil =>
        cases hd : duration x with
        | error er => simp only [call, hd] at hc; cases hc
        | ok d =>
          simp only [call, hd] at hc
          have := said_duration hx hp hd
          cases ok hc; exact known_cmd hk "rest" 1 (by decide) rfl this
  | verbatimFile u => cases h with
    | nil => cases ok hc; exact known_cmd hk "verbatim-file" 1 (by decide) rfl (.cons (said_scmString u) .nil)
    | cons _ _ => cases hc
  | wordwrapField u => cases h with
    | nil => cases ok hc; exact known_cmd hk "wordwrap-field" 1 (by decide) rfl (.cons (said_sym u hp) .nil)
    | cons _ _ => cases hc
  | wordwrapString u => cases h with
    | nil => cases ok hc; exact known_cmd hk "wordwrap-string" 1 (by decide) rfl (.cons (said_scmString u) .nil)
    | cons _ _ => cases hc
  | note dir => cases h with
    | nil => cases hc
    | @cons x e _ _ hx h => cases h with
      | cons _ _ => cases hc
      | nil =>
        cases hd : duration x with
        | error er => simp only [call, hd] at hc; cases hc
        | ok d =>
          simp only [call, hd] at hc
          have := said_duration hx hp hd
          have h2 : List.Forall₂ (Said nargs) ([d] ++ [s (scmNumber dir)]) _ :=
            List.rel_append this (.cons (said_scmNumber dir) .nil)
          cases ok hc; exact known_cmd hk "note" 2 (by decide) rfl h2
  | override p v =>
        cases ok hc
        exact known_cmd hk "override" 2 (by decide) rfl
          (.cons (said_pair _ _ (by simpa [Ok] using hp.1) hp.2) (.cons hl .nil))
  | overrideLines p v =>
        cases ok hc
        exact known_cmd hk "override-lines" 2 (by decide) rfl
          (.cons (said_pair _ _ (by simpa [Ok] using hp.1) hp.2) (.cons hl .nil))
  | translate x y => cases ok hc; exact known_cmd hk "translate" 2 (by decide) rfl (.cons (said_pair _ _ hp.1 hp.2) (.cons hl .nil))
  | translateScaled x y =>
    cases ok hc; exact known_cmd hk "translate-scaled" 2 (by decide) rfl (.cons (said_pair _ _ hp.1 hp.2) (.cons hl .nil))
  | withLink l => exact hp.elim
  | withUrl u => cases ok hc; exact known_cmd hk "with-url" 2 (by decide) rfl (.cons (said_scmString u) (.cons hl .nil))
  | woodwindDiagram i => cases h with
    | nil => cases hc
    | cons _ h => cases h <;> cases hc
  | drawSquiggleLine l x y e => cases h with
    | nil =>
        cases ok hc
        exact known_cmd hk "draw-squiggle-line" 3 (by decide) rfl
          (.cons (said_a _ hp.1) (.cons (said_pair _ _ hp.2.1 hp.2.2.1) (.cons (said_a _ hp.2.2.2) .nil)))
    | cons _ _ => cases hc
  | epsfile x z n => cases h with
    | nil =>
        cases ok hc
        exact known_cmd hk "epsfile" 3 (by decide) rfl
          (.cons (said_a _ hp.1) (.cons (said_a _ hp.2.1) (.cons (said_a _ hp.2.2) .nil)))
    | cons _ _ => cases hc
  | filledBox x1 y1 x2 y2 b => cases h with
    | nil =>
        cases ok hc
        exact known_cmd hk "filled-box" 3 (by decide) rfl
          (.cons (said_pair _ _ hp.1 hp.2.2.1) (.cons (said_pair _ _ hp.2.1 hp.2.2.2.1) (.cons (said_a _ hp.2.2.2.2) .nil)))
    | cons _ _ => cases hc
  | noteByNumber l d dir => cases h with
    | nil =>
        cases ok hc
        exact known_cmd hk "note-by-number" 3 (by decide) rfl
          (.cons (said_scmNumber l) (.cons (said_scmNumber d) (.cons (said_a _ hp) .nil)))
    | cons _ _ => cases hc
  | padToBox x1 y1 x2 y2 =>
        cases ok hc
        exact known_cmd hk "pad-to-box" 3 (by decide) rfl
          (.cons (said_pair _ _ hp.1 hp.2.2.1) (.cons (said_pair _ _ hp.2.1 hp.2.2.2) (.cons hl .nil)))
  | pageRef l => cases h with
    | nil => cases hc
    | @cons x e xs es hx h =>
        cases ok hc
        exact known_cmd hk "page-ref" 3 (by decide) rfl
          (.cons (said_sym l hp) (.cons hx.1 (.cons (said_createList h) .nil)))
  | withDimensions x1 y1 x2 y2 =>
        cases ok hc
        exact known_cmd hk "with-dimensions" 3 (by decide) rfl
          (.cons (said_pair _ _ hp.1 hp.2.2.1) (.cons (said_pair _ _ hp.2.1 hp.2.2.2) (.cons hl .nil)))
  | fillWithPattern sp d => cases h with
    | nil => cases hc
    | cons h1 h => cases h with
      | nil => cases hc
      | cons h2 h => cases h with
        | nil => cases hc
        | cons h3 h => cases h with
          | cons _ _ => cases hc
          | nil =>
        cases ok hc
        exact known_cmd hk "fill-with-pattern" 5 (by decide) rfl
          (.cons (said_a _ hp.1) (.cons (said_a _ hp.2) (.cons h1.1 (.cons h2.1 (.cons h3.1 .nil)))))
  | auto k name =>
    obtain ⟨-, p2, p3⟩ := hp
    simp only [call] at hc
    cases k with
    | zero =>
      simp only [factory] at hc
      split_ifs at hc with hx
      · exact ok hc ▸ said_cmd _ p2 _ _ p3 .nil
    | succ k =>
      simp only [factory] at hc
      split_ifs at hc with h3 hx
      have hlen := h.length_eq
      have ha := List.rel_append (List.forall₂_take k (said_args h)) (.cons (said_createList (forall₂_drop k h)) .nil)
      rw [← all_drop] at ha
      rw [← List.map_take] at ha
      refine ok hc ▸ said_cmd _ p2 _ _ ?_ ha
      rw [p3]
      simp [all_length]
      omega

theorem fits_eval (hk : Known nargs) (e : Expr) (h : ExprOk isMarkup nargs e) (x : Arg) (hx : eval isMarkup e = .ok x) :
    Fits isMarkup nargs x e := by
  match e, h with
  | .str u, h =>
    simp only [eval, Except.ok.injEq] at hx
    subst hx
    refine ⟨?_, rfl⟩
    simp only [autoArg, say]
    split_ifs with hm
    · exact said_word u (h hm)
    · exact said_str u
  | .val v, h =>
    simp only [eval, Except.ok.injEq] at hx
    subst hx
    have h : Spec.Plain v := h
    refine ⟨?_, rfl, h⟩
    cases v with
    | str _ => exact h.elim
    | sym _ => exact h.elim
    | quoted _ _ => exact h.elim
    | _ => exact said_a _ h
  | .call f es, h =>
    have key : ∀ e ∈ es, ∀ x, ExprOk isMarkup nargs e → eval isMarkup e = .ok x → Fits isMarkup nargs x e :=
      fun e he x h1 h2 => fits_eval hk e h1 x h2
    have all : ∀ ds : List Expr, (∀ e ∈ ds, e ∈ es) → ExprOk.all isMarkup nargs ds → ∀ xs, eval.all isMarkup ds = .ok xs →
        List.Forall₂ (Fits isMarkup nargs) xs ds := by
      intro ds
      induction ds with
      | nil => intro _ _ xs hxs; simp only [eval.all, Except.ok.injEq] at hxs; subst hxs; exact .nil
      | cons d ds ih =>
        intro hm ho xs hxs
        simp only [eval.all] at hxs
        cases hd : eval isMarkup d with
        | error er => rw [hd] at hxs; cases hxs
        | ok y =>
          rw [hd] at hxs
          simp only at hxs
          cases hds : eval.all isMarkup ds with
          | error er => rw [hds] at hxs; cases hxs
          | ok ys =>
            rw [hds] at hxs
            simp only [Except.ok.injEq] at hxs
            subst hxs
            exact .cons (key d (hm d (by simp)) y ho.1 hd) (ih (fun e he => hm e (by simp [he])) ho.2 ys hds)
    simp only [eval] at hx
    cases hes : eval.all isMarkup es with
    | error er => rw [hes] at hx; cases hx
    | ok xs =>
      rw [hes] at hx
      simp only at hx
      cases hcall : call isMarkup f xs with
      | error er => rw [hcall] at hx; cases hx
      | ok t =>
        rw [hcall] at hx
        simp only [Except.ok.injEq] at hx
        subst hx
        simp only [ExprOk] at h
        exact ⟨said_call hk f xs es (all es (fun _ h => h) h.2 xs hes) h.1 t hcall, t, rfl⟩
termination_by sizeOf e
decreasing_by
  simp_wf
  have := List.sizeOf_lt_of_mem he
  omega

/-- C80: an expression made with these functions, in any combination, is written as a text that means what the expression
says: a reader that knows how many arguments the commands have reads exactly these commands, words and values. -/
theorem C80_means (hk : Known nargs) (e : Expr) (h : ExprOk isMarkup nargs e) (x : Arg) (hx : eval isMarkup e = .ok x) :
    Means nargs (write (autoArg isMarkup x)) (say e) := by
  obtain ⟨t, h1, -, N, hN⟩ := (fits_eval hk e h x hx).1
  rw [write_gives h1]
  refine ⟨N, fun n hn => ⟨[], ?_, by simp⟩⟩
  have := hN n hn [] (.inl rfl)
  rwa [List.append_nil] at this

/-- C80: a text has one meaning. -/
theorem C80_unique (u : Str) (m m' : M) (h : Means nargs u m) (h' : Means nargs u m') : m = m' := by
  obtain ⟨N, hN⟩ := h
  obtain ⟨N', hN'⟩ := h'
  obtain ⟨r, h1, -⟩ := hN (max N N') (le_max_left _ _)
  obtain ⟨r', h2, -⟩ := hN' (max N N') (le_max_right _ _)
  rw [h1] at h2
  simp only [Option.some.injEq, Prod.mk.injEq] at h2
  exact h2.1

/-- A string and a value are themselves, a call gives an element. -/
def Shape (x : Arg) : Expr → Prop
  | .str s => x = .str s
  | .val v => x = .val v
  | .call _ _ => ∃ t, x = .el t

/-- C80: every expression with the right numbers of arguments can be evaluated, if it does not use one of the functions that
always fail. -/
theorem C80_evaluates (e : Expr) (h : Callable e) :
    ∃ x, eval isMarkup e = .ok x ∧ Shape x e := by
  match e, h with
  | .str u, _ => exact ⟨_, rfl, rfl⟩
  | .val v, _ => exact ⟨_, rfl, rfl⟩
  | .call f es, h =>
    have key : ∀ e ∈ es, Callable e → ∃ x, eval isMarkup e = .ok x ∧ Shape x e := fun e he h => C80_evaluates e h
    have all : ∀ ds : List Expr, (∀ e ∈ ds, e ∈ es) → Callable.all ds → ∃ xs, eval.all isMarkup ds = .ok xs ∧
        List.Forall₂ Shape xs ds := by
      intro ds
      induction ds with
      | nil => exact fun _ _ => ⟨[], rfl, .nil⟩
      | cons d ds ih =>
        intro hm ho
        obtain ⟨y, y1, y2⟩ := key d (hm d (by simp)) ho.1
        obtain ⟨ys, i1, i2⟩ := ih (fun e he => hm e (by simp [he])) ho.2
        exact ⟨y :: ys, by simp only [eval.all, y1, i1], .cons y2 i2⟩
    simp only [Callable] at h
    obtain ⟨hc, hv, ha⟩ := h
    obtain ⟨xs, h1, h2⟩ := all es (fun _ h => h) ha
    have hlen := h2.length_eq
    suffices hs : ∃ t, call isMarkup f xs = .ok t by
      obtain ⟨t, ht⟩ := hs
      exact ⟨.el t, by simp only [eval, h1, ht], t, rfl⟩
    rw [← hlen] at hc
    have nil : xs.length = 0 → xs = [] := List.length_eq_zero_iff.1
    have one : xs.length = 1 → (∀ v, es ≠ [.val v]) → ∃ x, xs = [x] ∧ ((∃ u, x = .str u) ∨ ∃ t, x = .el t) := by
      intro hx hne
      obtain ⟨x, rfl⟩ := List.length_eq_one_iff.1 hx
      refine ⟨x, rfl, ?_⟩
      cases h2 with
      | @cons _ e _ _ he hes =>
        cases hes
        cases e with
        | str u => exact .inl ⟨u, he⟩
        | val v => exact absurd rfl (hne v)
        | call g gs => exact .inr he
    cases f with
    | postscript =>
      obtain ⟨x, rfl, ⟨u, rfl⟩ | ⟨u, rfl⟩⟩ := one hc hv <;> exact ⟨_, rfl⟩
    | rest =>
      obtain ⟨x, rfl, ⟨u, rfl⟩ | ⟨u, rfl⟩⟩ := one hc hv <;> exact ⟨_, rfl⟩
    | note d =>
      obtain ⟨x, rfl, ⟨u, rfl⟩ | ⟨u, rfl⟩⟩ := one hc hv <;> exact ⟨_, rfl⟩
    | pageRef l =>
      cases xs with
      | nil => simp [Count] at hc
      | cons x xs => exact ⟨_, rfl⟩
    | fillWithPattern sp d =>
      match xs, hc with
      | [_, _, _], _ => exact ⟨_, rfl⟩
    | fretDiagram u => exact hc.elim
    | fretDiagramTerse u => exact hc.elim
    | fretDiagramVerbose => exact hc.elim
    | woodwindDiagram u => exact hc.elim
    | auto k name =>
      cases k with
      | zero => rw [nil hc]; exact ⟨_, rfl⟩
      | succ k =>
        obtain ⟨c1, c2⟩ := hc
        simp only [call, factory]
        rw [if_neg (by omega), if_neg (by omega)]
        exact ⟨_, rfl⟩
    | _ => first
      | exact ⟨_, rfl⟩
      | (rw [nil hc]; exact ⟨_, rfl⟩)
termination_by sizeOf e
decreasing_by
  simp_wf
  have := List.sizeOf_lt_of_mem he
  omega

/-- C80: `fret_diagram`, `fret_diagram_terse`, `fret_diagram_verbose` and `woodwind_diagram` raise NameError, whatever they get. -/
theorem C80_undefined (u : Str) (x : Arg) :
    call isMarkup (.fretDiagram u) [] = .error .nameError ∧ call isMarkup (.fretDiagramTerse u) [] = .error .nameError ∧
    call isMarkup .fretDiagramVerbose [x] = .error .nameError ∧ call isMarkup (.woodwindDiagram u) [x] = .error .nameError :=
  ⟨rfl, rfl, rfl, rfl⟩

/-- C80: there is no function for a command with more than four arguments, whatever it is called with. -/
theorem C80_five_arguments (k : ℕ) (name : Str) (xs : List Arg) :
    call isMarkup (.auto (k + 5) name) xs = .error .nameError := by
  simp [call, factory]

/-- C80: what is already a Scheme element (from `scm.i`, `scm.q` and so on) is used as it is, wherever an argument can be, so it is written as
in Scheme, without `#`; a string is the same wherever it comes from. -/
theorem C80_as_is (v : Scheme.Val) (w : Str) :
    (∀ q u, v = .quoted q u ∨ v = .sym w → autoArg isMarkup (.val v) = lift (Scheme.create v) ∧ child (.val v) = .ok (lift (Scheme.create v)) ∧
      duration (.val v) = .ok (lift (Scheme.create v))) ∧
    (v = .str w → autoArg isMarkup (.val v) = autoArg isMarkup (.str w) ∧ duration (.val v) = duration (.str w) ∧
      call isMarkup .postscript [.val v] = call isMarkup .postscript [.str w]) := by
  refine ⟨?_, ?_⟩
  · rintro q u (rfl | rfl) <;> exact ⟨rfl, rfl, rfl⟩
  · rintro rfl; exact ⟨rfl, rfl, rfl⟩

/-- C80: `with_link` makes the command `\with-color`; what is written never means `\with-link`. -/
theorem C80_with_link (hk : Known nargs) (l : Str) (hl : Symbol l) (es : List Expr) (h : ExprOk.all isMarkup nargs es) (x : Arg)
    (hx : eval isMarkup (.call (.withLink l) es) = .ok x) :
    Means nargs (write (autoArg isMarkup x)) (.cmd "with-color".toList [mSym l, group (say.all es)]) ∧
    ¬ Means nargs (write (autoArg isMarkup x)) (say (.call (.withLink l) es)) := by
  have h0 : ∀ ds : List Expr, ExprOk.all isMarkup nargs ds → ∀ xs, eval.all isMarkup ds = .ok xs →
      List.Forall₂ (Fits isMarkup nargs) xs ds := by
    intro ds
    induction ds with
    | nil => intro _ xs hxs; simp only [eval.all, Except.ok.injEq] at hxs; subst hxs; exact .nil
    | cons d ds ih =>
      intro ho xs hxs
      simp only [eval.all] at hxs
      cases hd : eval isMarkup d with
      | error er => rw [hd] at hxs; cases hxs
      | ok y =>
        rw [hd] at hxs
        simp only at hxs
        cases hds : eval.all isMarkup ds with
        | error er => rw [hds] at hxs; cases hxs
        | ok ys =>
          rw [hds] at hxs
          simp only [Except.ok.injEq] at hxs
          subst hxs
          exact .cons (fits_eval hk d ho.1 y hd) (ih ho.2 ys hds)
  have h1 : Means nargs (write (autoArg isMarkup x)) (.cmd "with-color".toList [mSym l, group (say.all es)]) := by
    simp only [eval] at hx
    cases hes : eval.all isMarkup es with
    | error er => rw [hes] at hx; cases hx
    | ok xs =>
      rw [hes] at hx
      simp only [call, Except.ok.injEq] at hx
      subst hx
      obtain ⟨t, g1, -, N, hN⟩ : Said nargs (cmd "with-color".toList [sym l, createList isMarkup xs])
          (.cmd "with-color".toList [mSym l, group (say.all es)]) :=
        known_cmd hk "with-color" 2 (by decide) rfl (.cons (said_sym l hl) (.cons (said_createList (h0 es h xs hes)) .nil))
      simp only [autoArg]
      rw [write_gives g1]
      refine ⟨N, fun n hn => ⟨[], ?_, by simp⟩⟩
      have := hN n hn [] (.inl rfl)
      rwa [List.append_nil] at this
  refine ⟨h1, fun h2 => ?_⟩
  have := C80_unique _ _ _ h1 h2
  simp only [say, command, M.cmd.injEq] at this
  exact absurd this.1 (by decide)

/-! ## The functions that are made -/

theorem pyName_injective (keyword : Str → Bool) (u v : Str) (hu : Cmd u) (hv : Cmd v) (h : pyName keyword u = pyName keyword v) :
    u = v := by
  have inj : ∀ u v : Str, '_' ∉ u → '_' ∉ v →
      (u.map fun x => if x = '-' then '_' else x) = (v.map fun x => if x = '-' then '_' else x) → u = v := by
    intro u
    induction u with
    | nil =>
      intro v _ _ h
      cases v with
      | nil => rfl
      | cons _ _ => simp at h
    | cons c u ih =>
      intro v h1 h2 h
      cases v with
      | nil => simp at h
      | cons d v =>
        simp only [List.map_cons, List.cons.injEq] at h
        simp only [List.mem_cons, not_or] at h1 h2
        rw [ih v h1.2 h2.2 h.2]
        congr 1
        have := h.1
        split_ifs at this with a b b
        · rw [a, b]
        · exact absurd this h2.1
        · exact absurd this.symm h1.1
        · exact this
  have last : ∀ u : Str, Cmd u → (u.map fun x => if x = '-' then '_' else x).getLast? ≠ some '_' := by
    intro u hu h
    rw [List.getLast?_map] at h
    cases hl : u.getLast? with
    | none => rw [hl] at h; simp at h
    | some c =>
      rw [hl] at h
      simp only [Option.map_some, Option.some.injEq] at h
      split_ifs at h with hc
      · exact hu.2 (by rw [hl, hc])
      · exact hu.1 (h ▸ List.mem_of_getLast? hl)
  unfold pyName at h
  simp only at h
  split_ifs at h with a b b
  · exact inj u v hu.1 hv.1 (List.append_inj_left' h rfl)
  · exact absurd (by rw [← h]; simp) (last v hv)
  · exact absurd (by rw [h]; simp) (last u hu)
  · exact inj u v hu.1 hv.1 h

theorem lookup_append_none (g : List (Str × Fn)) (name n : Str) (f : Fn) (h : g.lookup name = none) :
    (g ++ [(n, f)]).lookup name = if name = n then some f else none := by
  induction g with
  | nil =>
    simp only [List.nil_append, List.lookup]
    by_cases hn : name = n
    · subst hn; simp
    · have : (name == n) = false := by simpa using hn
      rw [this, if_neg hn]
  | cons p g ih =>
    obtain ⟨a, b⟩ := p
    simp only [List.cons_append, List.lookup] at h ⊢
    split at h
    · cases h
    · exact ih h

theorem lookup_append_some (g : List (Str × Fn)) (name n : Str) (f f' : Fn) (h : g.lookup name = some f') :
    (g ++ [(n, f)]).lookup name = some f' := by
  induction g with
  | nil => cases h
  | cons p g ih =>
    obtain ⟨a, b⟩ := p
    simp only [List.cons_append, List.lookup] at h ⊢
    split at h
    · exact h
    · exact ih h

theorem define_some (keyword : Str → Bool) (g : List (Str × Fn)) (k : ℕ) (u name : Str) (f : Fn) (h : g.lookup name = some f) :
    (define keyword g k u).lookup name = some f := by
  unfold define
  split_ifs
  · exact h
  · exact lookup_append_some g name _ _ f h
  · exact h

theorem define_none (keyword : Str → Bool) (g : List (Str × Fn)) (k : ℕ) (u name : Str) (h : g.lookup name = none) :
    (define keyword g k u).lookup name = if name = pyName keyword u ∧ k ≤ 4 then some (.auto k u) else none := by
  unfold define
  by_cases h1 : (g.lookup (pyName keyword u)).isSome = true
  · rw [if_pos h1, h, if_neg]
    rintro ⟨hn, -⟩
    rw [← hn, h] at h1
    cases h1
  · rw [if_neg h1]
    by_cases h2 : k ≤ 4
    · rw [if_pos h2, lookup_append_none _ _ _ _ h]
      by_cases hn : name = pyName keyword u
      · rw [if_pos hn, if_pos ⟨hn, h2⟩]
      · rw [if_neg hn, if_neg fun hh => hn hh.1]
    · rw [if_neg h2, h, if_neg fun hh => h2 hh.2]

theorem loop_some (keyword : Str → Bool) (k : ℕ) (us : List Str) (g : List (Str × Fn)) (name : Str) (f : Fn)
    (h : g.lookup name = some f) : (us.foldl (fun g u => define keyword g k u) g).lookup name = some f := by
  induction us generalizing g with
  | nil => exact h
  | cons u us ih => exact ih _ (define_some keyword g k u name f h)

theorem loop_other (keyword : Str → Bool) (k : ℕ) (us : List Str) (g : List (Str × Fn)) (name : Str) (h : g.lookup name = none)
    (hn : ∀ u ∈ us, name ≠ pyName keyword u) : (us.foldl (fun g u => define keyword g k u) g).lookup name = none := by
  induction us generalizing g with
  | nil => exact h
  | cons u us ih =>
    refine ih _ ?_ fun v hv => hn v (by simp [hv])
    rw [define_none _ _ _ _ _ h, if_neg fun hh => hn u (by simp) hh.1]

theorem main_some (keyword : Str → Bool) (table : List (List Str)) (k : ℕ) (g : List (Str × Fn)) (name : Str) (f : Fn)
    (h : g.lookup name = some f) : (main keyword g k table).lookup name = some f := by
  induction table generalizing g k with
  | nil => exact h
  | cons us table ih => exact ih _ _ (loop_some keyword k us g name f h)

theorem main_other (keyword : Str → Bool) (table : List (List Str)) (k : ℕ) (g : List (Str × Fn)) (name : Str)
    (h : g.lookup name = none) (hn : ∀ u ∈ table.flatten, name ≠ pyName keyword u) : (main keyword g k table).lookup name = none := by
  induction table generalizing g k with
  | nil => exact h
  | cons us table ih =>
    exact ih _ _ (loop_other keyword k us g name h fun u hu => hn u (by simp [hu])) fun u hu => hn u (by
      simp only [List.flatten_cons, List.mem_append]; exact .inr hu)

theorem main_new (keyword : Str → Bool) (table : List (List Str)) (k j : ℕ) (g : List (Str × Fn)) (us : List Str) (u : Str)
    (hu : table[j]? = some us) (hm : u ∈ us) (hc : ∀ v ∈ table.flatten, Cmd v) (hd : table.flatten.Nodup)
    (h : g.lookup (pyName keyword u) = none) :
    (main keyword g k table).lookup (pyName keyword u) = if k + j ≤ 4 then some (.auto (k + j) u) else none := by
  have loop : ∀ (vs : List Str) (g : List (Str × Fn)) (k : ℕ), u ∈ vs → (∀ v ∈ vs, Cmd v) → vs.Nodup →
      g.lookup (pyName keyword u) = none → (vs.foldl (fun g v => define keyword g k v) g).lookup (pyName keyword u) =
        if k ≤ 4 then some (.auto k u) else none := by
    intro vs
    induction vs with
    | nil => intro g k h; simp at h
    | cons v vs ih =>
      intro g k hm hc hd h
      rw [List.nodup_cons] at hd
      by_cases hv : u = v
      · subst hv
        have h1 := define_none keyword g k u (pyName keyword u) h
        simp only [true_and] at h1
        simp only [List.foldl_cons]
        split_ifs at h1 ⊢ with h4
        · exact loop_some keyword k vs _ _ _ h1
        · refine loop_other keyword k vs _ _ h1 fun w hw he => ?_
          exact hd.1 (pyName_injective keyword u w (hc u (by simp)) (hc w (by simp [hw])) he ▸ hw)
      · have hm' : u ∈ vs := by simpa [hv] using hm
        refine ih _ k hm' (fun w hw => hc w (by simp [hw])) hd.2 ?_
        rw [define_none keyword g k v _ h, if_neg]
        rintro ⟨he, -⟩
        exact hv (pyName_injective keyword u v (hc u (by simp [hm'])) (hc v (by simp)) he)
  induction table generalizing g k j with
  | nil => simp at hu
  | cons vs table ih =>
    simp only [List.flatten_cons, List.mem_append, List.nodup_append] at hc hd
    cases j with
    | zero =>
      simp only [List.getElem?_cons_zero, Option.some.injEq] at hu
      subst hu
      have h1 := loop vs g k hm (fun v hv => hc v (.inl hv)) hd.1 h
      simp only [main, Nat.add_zero]
      split_ifs at h1 ⊢ with h4
      · exact main_some keyword table _ _ _ _ h1
      · refine main_other keyword table _ _ _ h1 fun w hw he => ?_
        have := pyName_injective keyword u w (hc u (.inl hm)) (hc w (.inr hw)) he
        exact hd.2.2 u hm w hw this
    | succ j =>
      simp only [List.getElem?_cons_succ] at hu
      have hut : u ∈ table.flatten := List.mem_flatten.2 ⟨us, List.mem_of_getElem? hu, hm⟩
      have h1 : (vs.foldl (fun g v => define keyword g k v) g).lookup (pyName keyword u) = none := by
        refine loop_other keyword k vs g _ h fun w hw he => ?_
        have := pyName_injective keyword u w (hc u (.inr hut)) (hc w (.inl hw)) he
        exact hd.2.2 w hw u hut this.symm
      have := ih (k + 1) j _ hu (fun v hv => hc v (.inr hv)) hd.2.1 h1
      simp only [main]
      rw [this, Nat.add_right_comm, Nat.add_assoc]

/-- C80: the module has a function for every command with at most four arguments that has none of its own: it makes that command, with
that number of arguments. For a command with more arguments no function is made, and existing functions stay. -/
theorem C80_main (keyword : Str → Bool) (globals : List (Str × Fn)) (table : List (List Str)) (hc : ∀ v ∈ table.flatten, Cmd v)
    (hd : table.flatten.Nodup) (k : ℕ) (us : List Str) (hu : table[k]? = some us) (u : Str) (hm : u ∈ us) :
    (main keyword globals 0 table).lookup (pyName keyword u) = match globals.lookup (pyName keyword u) with
      | some f => some f
      | none => if k ≤ 4 then some (.auto k u) else none := by
  cases h : globals.lookup (pyName keyword u) with
  | some f => exact main_some keyword table 0 globals _ f h
  | none =>
    have := main_new keyword table 0 k globals us u hu hm hc hd h
    rw [Nat.zero_add] at this
    exact this

/-! ## Examples -/

/-- The characters that make a word. -/
def exIsMarkup (u : Str) : Bool := u ≠ [] && u.all isWord

/-- The commands of the example. -/
def exNargs (name : Str) : Option ℕ :=
  if name = "bold".toList then some 1 else if name = "fontsize".toList then some 2
  else if name = "null".toList then some 0 else (known.find? fun p => p.1.toList = name).map Prod.snd

/-- `markup(bold("a", 'b "c"'), fontsize(-3, "x", null()), pad_to_box(0, 1, 2, 3, "y"), note("4.", 1))`. -/
def exExpr : Expr :=
  .call .markup [.call (.auto 1 "bold".toList) [.str "a".toList, .str "b \"c\"".toList],
    .call (.auto 2 "fontsize".toList) [.val (.int (-3)), .str "x".toList, .call (.auto 0 "null".toList) []],
    .call (.padToBox (.int 0) (.int 1) (.int 2) (.int 3)) [.str "y".toList],
    .call (.note 1) [.str "4.".toList]]

example : ((eval exIsMarkup exExpr).toOption.map fun x => String.ofList (write (autoArg exIsMarkup x))) =
    some "\\markup { \\bold { a \"b \\\"c\\\"\" } \\fontsize #-3 { x \\null } \\pad-to-box #'(0 . 2) #'(1 . 3) y \\note { 4. } #1 }" := by
  decide +kernel

example : Known exNargs := by unfold Known; decide +kernel

theorem exIsMarkup_word (u : Str) (h : exIsMarkup u = true) : Word u := by
  simpa [exIsMarkup, Word] using h

theorem exExpr_ok : ExprOk exIsMarkup exNargs exExpr := by
  simp only [exExpr, ExprOk, ExprOk.all, Proper, Spec.Plain, Ok, single, and_true, true_and]
  refine ⟨⟨⟨by decide, by decide, by decide +kernel⟩, exIsMarkup_word _, exIsMarkup_word _⟩,
    ⟨⟨by decide, by decide, by decide +kernel⟩, exIsMarkup_word _, by decide, by decide, by decide +kernel⟩,
    exIsMarkup_word _, ?_, exIsMarkup_word _⟩
  intro t ht
  cases ht
  exact exIsMarkup_word _ (by decide +kernel)

example : Callable exExpr := by
  simp [exExpr, Callable, Callable.all, Count]

/-- Python keywords of the example. -/
def exKeyword (u : Str) : Bool := u = "lambda".toList

example : main exKeyword [("char".toList, .char 0)] 0 [["null".toList], ["char".toList, "lambda".toList], [], ["a-b".toList], [], ["five".toList]] =
    [("char".toList, .char 0), ("null".toList, .auto 0 "null".toList), ("lambda_".toList, .auto 1 "lambda".toList),
     ("a_b".toList, .auto 3 "a-b".toList)] := by
  simp [main, define, pyName, exKeyword]

end Quickly.Markup
