import Verif.Files.Lemmas

/-! # C104: the length of music with variables in other files -/

namespace Quickly.Files

open Quickly.Node Quickly.Signature Quickly.Length Spec
open Quickly.Length.Spec (Plays)
open Quickly.Scope (Config Level Scope precedingNodes findAssignment)
open Quickly.Time (Mus Kind)
open Quickly.Duration (Transform)

/-- The variables that are found, and the music they get in the text. -/
def Match (src : Source) : List (Scope.Node × Scope) → Time.Env → Prop
  | [], e => e = []
  | (.assign name i, s) :: ys, e => ∃ m m' b v e', e = (name, m) :: e' ∧ valueAt (src s.top.doc) i = some (b, v) ∧
      toMus (some .Assignment) b v = .ok m' ∧ trim m' = trim m ∧ Match src ys e'
  | (.incl _, _) :: ys, e => Match src ys e
  | (.other _, _) :: ys, e => Match src ys e

theorem match_none (src : Source) (name : String) (tr : Transform) : ∀ (ys : List (Scope.Node × Scope)) (e : Time.Env),
    Match src ys e → findAssignment name ys = none → Time.remoteLength e tr name = .error .typeError
  | [], e, h, _ => by rw [show e = [] from h]; rfl
  | (.assign name' i, s) :: ys, e, h, hf => by
    obtain ⟨m, m', b, v, e', rfl, -, -, -, h'⟩ := h
    rw [findAssignment] at hf
    split at hf
    · cases hf
    · rename_i hn
      rw [Time.remoteLength, if_neg hn]
      exact match_none src name tr ys e' h' hf
  | (.incl _, _) :: ys, e, h, hf => match_none src name tr ys e h hf
  | (.other _, _) :: ys, e, h, hf => match_none src name tr ys e h hf

theorem match_some (cfg : Config) (depth : ℕ) (src : Source) (name : String) (i : ℕ) (s : Scope) :
    ∀ (ys : List (Scope.Node × Scope)) (e : Time.Env),
    Match src ys e → AllFound cfg depth src ys [] → findAssignment name ys = some (i, s) →
    ∃ m m' b v e' zs, valueAt (src s.top.doc) i = some (b, v) ∧ toMus (some .Assignment) b v = .ok m' ∧ trim m' = trim m ∧
      Match src zs e' ∧ AllFound cfg depth src zs [] ∧ zs.length < ys.length ∧
      precedingNodes cfg depth s.top s.parents (placeOf src s i) = some zs ∧
      ∀ tr, Time.remoteLength e tr name = match m.kind with
        | .reference n' => Time.remoteLength e' tr n'
        | k => if k.isMusic then Time.length (Time.remoteLength e') tr m else .ok 0
  | [], e, h, _, hf => by cases hf
  | (.assign name' i', s') :: ys, e, h, ha, hf => by
    obtain ⟨m, m', b, v, e', rfl, h1, h2, h3, h'⟩ := h
    rw [findAssignment] at hf
    split at hf
    · rename_i hn
      simp only [Option.some.injEq, Prod.mk.injEq] at hf
      obtain ⟨rfl, rfl⟩ := hf
      have hp := (ha.1.2 name' i' rfl).2
      rw [List.append_nil] at hp
      refine ⟨m, m', b, v, e', ys, h1, h2, h3, h', ha.2, by simp, hp, fun tr => ?_⟩
      rw [Time.remoteLength, if_pos hn]
      cases m.kind <;> rfl
    · rename_i hn
      obtain ⟨m, m', b, v, e'', zs, g1, g2, g3, g4, g5, g6, g7, g8⟩ := match_some cfg depth src name i s ys e' h' ha.2 hf
      refine ⟨m, m', b, v, e'', zs, g1, g2, g3, g4, g5, by simp only [List.length_cons]; omega, g7, fun tr => ?_⟩
      rw [Time.remoteLength, if_neg hn, g8]
  | (.incl _, _) :: ys, e, h, ha, hf => by
    obtain ⟨m, m', b, v, e'', zs, g1, g2, g3, g4, g5, g6, g7⟩ := match_some cfg depth src name i s ys e h ha.2 hf
    exact ⟨m, m', b, v, e'', zs, g1, g2, g3, g4, g5, by simp only [List.length_cons]; omega, g7⟩
  | (.other _, _) :: ys, e, h, ha, hf => by
    obtain ⟨m, m', b, v, e'', zs, g1, g2, g3, g4, g5, g6, g7⟩ := match_some cfg depth src name i s ys e h ha.2 hf
    exact ⟨m, m', b, v, e'', zs, g1, g2, g3, g4, g5, by simp only [List.length_cons]; omega, g7⟩

/-- Following variables through files is following them in the text. -/
theorem remote_ok (cfg : Config) (depth : ℕ) (src : Source) : ∀ (k : ℕ) (s : Scope) (place : List Scope.Node)
    (ys : List (Scope.Node × Scope)) (e : Time.Env), precedingNodes cfg depth s.top s.parents place = some ys →
    Match src ys e → AllFound cfg depth src ys [] → ys.length < k →
    remoteLength cfg depth src k s place = Time.remoteLength e := by
  intro k
  induction k with
  | zero => intro s place ys e _ _ _ hk; omega
  | succ k ih =>
    intro s place ys e hp hm ha hk
    funext tr name
    rw [remoteLength, hp]
    simp only
    cases hf : findAssignment name ys with
    | none => exact (match_none src name tr ys e hm hf).symm
    | some x =>
      obtain ⟨i, s'⟩ := x
      obtain ⟨m, m', b, v, e', zs, h1, h2, h3, h4, h5, h6, h7, h8⟩ := match_some cfg depth src name i s' ys e hm ha hf
      have hih := ih s' _ zs e' h7 h4 h5 (by omega)
      have hkind : m'.kind = m.kind := by rw [← trim_kind m', h3, trim_kind]
      have hlen : Time.length (Time.remoteLength e') tr m' = Time.length (Time.remoteLength e') tr m := by
        rw [← length_trim, h3, length_trim]
      simp only [h1, h2, hih, hkind, hlen, h8]
      cases m.kind <;> rfl

theorem assignedValue_before (cs : List Nd) : ∀ (b b' : List Nd),
    (assignedValue b cs = none ∧ assignedValue b' cs = none) ∨
    ∃ x v, assignedValue b cs = some (x ++ b, v) ∧ assignedValue b' cs = some (x ++ b', v) := by
  induction cs with
  | nil => intro b b'; exact .inl ⟨rfl, rfl⟩
  | cons c cs ih =>
    intro b b'
    simp only [assignedValue]
    split
    · cases cs.head? with
      | none => exact .inl ⟨rfl, rfl⟩
      | some v => exact .inr ⟨rev c, v, rfl, rfl⟩
    · rcases ih (rev c ++ b) (rev c ++ b') with ⟨h1, h2⟩ | ⟨x, v, h1, h2⟩
      · exact .inl ⟨h1, h2⟩
      · exact .inr ⟨x ++ rev c, v, by simpa using h1, by simpa using h2⟩

theorem include_other : isSub 5 Cls.Include .Assignment = false := by decide +kernel

theorem isSub_include (c : Cls) (h : isSub 5 c .Include = true) : isSub 5 c .Assignment = false := by
  revert h; cases c <;> decide +kernel

/-- What is assigned by a node in the text. -/
theorem assignments_seen (b : List Nd) (i : ℕ) (t : Nd) :
    match seen i t with
    | .assign name _ => ∃ b' v, assignedValue b t.children = some (b', v) ∧ assignments b [t] = [(name, b', v)]
    | _ => assignments b [t] = [] := by
  unfold seen
  by_cases hi : isA .Include t = true
  · have ha : isA .Assignment t = false := isSub_include _ hi
    rw [if_pos hi]
    cases filename t <;> simp [assignments, ha]
  · rw [if_neg hi]
    by_cases ha : isA .Assignment t = true
    · rw [if_pos ha]
      rcases assignedValue_before t.children [] b with ⟨h1, h2⟩ | ⟨x, v, h1, h2⟩
      · cases hn : assignedName t <;> simp [assignments, ha, h1, h2, hn]
      · cases hn : assignedName t <;> simp [assignments, ha, h1, h2, hn]
    · rw [if_neg ha]
      simp [assignments, ha]

/-- The variables in the text. -/
theorem match_text (cfg : Config) (depth : ℕ) (src : Source) : ∀ (ys : List (Scope.Node × Scope)) (e : Time.Env),
    AllFound cfg depth src ys [] → AllSame src ys.reverse →
    toEnv (assignments [] (ys.reverse.map (nodeOf src))) = .ok e → Match src ys e
  | [], e, _, _, he => by
    simp only [List.reverse_nil, List.map_nil, assignments, toEnv, Except.ok.injEq] at he
    exact he.symm
  | y :: ys, e, ha, hs, he => by
    have hs' : AllSame src ys.reverse := by
      intro xs zs name i s h
      exact hs xs (zs ++ [y]) name i s (by rw [List.reverse_cons, h]; simp)
    rw [List.reverse_cons, List.map_append, List.map_singleton, assignments_append, List.append_nil] at he
    obtain ⟨n, s⟩ := y
    rcases ha.1.1 with ⟨f, hf⟩ | ⟨i, t, ht, hn⟩
    · simp only at hf
      subst hf
      have h0 : assignments (revL (ys.reverse.map (nodeOf src))) [nodeOf src (.incl f, s)] = [] :=
        assignments_other _ _ (by simp [nodeOf, Tree.val])
      rw [h0, List.nil_append] at he
      exact match_text cfg depth src ys e ha.2 hs' he
    · simp only at hn ht
      have key := assignments_seen (revL (ys.reverse.map (nodeOf src))) i t
      rw [← hn] at key
      cases n with
      | incl f =>
        have h0 : assignments (revL (ys.reverse.map (nodeOf src))) [nodeOf src (.incl f, s)] = [] :=
          assignments_other _ _ (by simp [nodeOf, Tree.val])
        rw [h0, List.nil_append] at he
        exact match_text cfg depth src ys e ha.2 hs' he
      | other j =>
        obtain rfl := seen_other _ _ _ hn.symm
        have hno : nodeOf src (.other j, s) = t := by simp [nodeOf, ht]
        simp only at key
        rw [hno, key, List.nil_append] at he
        exact match_text cfg depth src ys e ha.2 hs' he
      | assign name j =>
        obtain rfl := seen_assign _ _ _ _ hn.symm
        have hno : nodeOf src (.assign name j, s) = t := by simp [nodeOf, ht]
        obtain ⟨b', v, hb', hone⟩ := key
        rw [hno, hone, List.singleton_append, toEnv] at he
        rcases assignedValue_before t.children (revL (ys.reverse.map (nodeOf src))) (revL ((src s.top.doc).take j)) with
          ⟨h1, -⟩ | ⟨x, w, h1, h2⟩
        · rw [h1] at hb'; cases hb'
        · rw [h1] at hb'
          simp only [Option.some.injEq, Prod.mk.injEq] at hb'
          obtain ⟨rfl, rfl⟩ := hb'
          have hval : valueAt (src s.top.doc) j = some (x ++ revL ((src s.top.doc).take j), w) := by
            simp only [valueAt, ht, h2]
          have hsame := hs ys.reverse [] name j s (by simp) _ _ hval
          have heqv := same_ok (some .Assignment) w (x ++ revL ((src s.top.doc).take j))
            (x ++ revL (ys.reverse.map (nodeOf src))) (hsame.imp (previous_congr x _ _) id)
          rcases eqv_cases heqv with ⟨er, e1, e2⟩ | ⟨m', m, e1, e2, e3⟩
          · rw [e2] at he; cases he
          · rw [e2] at he
            cases hrest : toEnv (assignments [] (ys.reverse.map (nodeOf src))) with
            | error er => simp only [hrest] at he; cases he
            | ok e' =>
              simp only [hrest, Except.ok.injEq] at he
              exact ⟨m, m', _, w, e', he.symm, hval, e1, e3, match_text cfg depth src ys e' ha.2 hs' hrest⟩

/-- **C104**: with a scope, every variable has in every context (in `\tuplet` etc.) the length it has in the text that LilyPond
reads; so lengths, positions and durations that are computed from these are the same.

Missing: this holds if the current duration at the begin of the values is the same in their own files as in the text, or does
not matter as the first note has a written duration. -/
theorem C104_variables_partial (cfg : Config) (depth k : ℕ) (src : Source) (s : Scope) (i : ℕ) (e : Time.Env)
    (hsrc : Sources cfg src) (hroot : Scope.Spec.IsRoot s) (hdom : s.top.doc.dom = some (seenAll 0 (src s.top.doc)))
    (hends : (precedingNodes cfg depth s.top s.parents (placeOf src s i)).isSome)
    (hk : (Spec.textBefore cfg depth src s i).length < k) (hsame : AllSame src (Spec.textBefore cfg depth src s i))
    (he : toEnv (assignments [] ((Spec.textBefore cfg depth src s i).map (nodeOf src))) = .ok e) (tr : Transform)
    (name : String) : remoteLength cfg depth src k s (placeOf src s i) tr name = Time.remoteLength e tr name := by
  obtain ⟨ys, hys⟩ := Option.isSome_iff_exists.1 hends
  have htext : ys.reverse = Spec.textBefore cfg depth src s i := Scope.preceding_text cfg depth _ _ _ _ hys
  rw [← htext] at hk hsame he
  obtain ⟨top, parents⟩ := s
  obtain ⟨hpar, hnode⟩ := hroot
  simp only at hpar hnode
  subst hpar
  have hg : Good src top [] := by
    unfold Good
    refine ⟨fun dom hd => ?_, trivial⟩
    simp only at hdom
    rw [hdom] at hd
    exact (Option.some.inj hd).symm
  have ha := preceding_found cfg depth src hsrc [] top i ys hg hys
  have hm := match_text cfg depth src ys e ha hsame he
  rw [remote_ok cfg depth src k ⟨top, []⟩ _ ys e hys hm ha (by simpa using hk)]

/-- **C104**: an exception for the value of a variable, e.g. a ZeroDivisionError for `\times 2/0 { c }`, is not hidden by its being in
another file. -/
theorem C104_error (cfg : Config) (depth k : ℕ) (src : Source) (s s' : Scope) (place : List Scope.Node) (i : ℕ)
    (nodes : List (Scope.Node × Scope)) (b : List Nd) (v : Nd) (er : PyErr) (tr : Transform) (name : String)
    (hp : precedingNodes cfg depth s.top s.parents place = some nodes) (hf : findAssignment name nodes = some (i, s'))
    (hv : valueAt (src s'.top.doc) i = some (b, v)) (ht : toMus (some .Assignment) b v = .error er) :
    remoteLength cfg depth src (k + 1) s place tr name = .error er := by
  simp only [remoteLength, hp, hf, hv, ht]

/-- **C104**: the length of music in a document with a scope is the length it has in the text that LilyPond reads, with all
includes replaced with the text of the files, as a single document without a scope: variables in other files are found, and
those they refer to, wherever these are assigned.

Missing: this holds if the current duration at the begin of the values of the variables and of the music is the same in
their own files as in the text, or does not matter as the first note has a written duration.  See
`C104_include_duration` for what happens otherwise. -/
theorem C104_as_text_partial (cfg : Config) (depth k : ℕ) (src : Source) (s : Scope) (i : ℕ) (inner : List Nd)
    (p : Option Cls) (t : Nd) (e : Time.Env) (hsrc : Sources cfg src) (hroot : Scope.Spec.IsRoot s)
    (hdom : s.top.doc.dom = some (seenAll 0 (src s.top.doc)))
    (hends : (precedingNodes cfg depth s.top s.parents (placeOf src s i)).isSome)
    (hk : (Spec.textBefore cfg depth src s i).length < k) (hsame : AllSame src (Spec.textBefore cfg depth src s i))
    (ht : Same ((src s.top.doc).take i ++ inner) ((Spec.textBefore cfg depth src s i).map (nodeOf src) ++ inner) t)
    (he : toEnv (assignments [] ((Spec.textBefore cfg depth src s i).map (nodeOf src))) = .ok e) :
    timeLength cfg depth src k s i inner p t =
      Length.timeLength (assignments [] ((Spec.textBefore cfg depth src s i).map (nodeOf src))) p
        (revL ((Spec.textBefore cfg depth src s i).map (nodeOf src) ++ inner)) t := by
  have hrem : remoteLength cfg depth src k s (placeOf src s i) = Time.remoteLength e :=
    funext fun tr => funext fun name => C104_variables_partial cfg depth k src s i e hsrc hroot hdom hends hk hsame he tr name
  simp only [timeLength, Length.timeLength, he, hrem]
  rcases eqv_cases (same_ok p t _ _ ht) with ⟨er, e1, e2⟩ | ⟨m, m', e1, e2, e3⟩
  · simp only [e1, e2]
  · simp only [e1, e2]
    rw [← length_trim, e3, length_trim]

/-- **C104**: with a scope, the length that is returned for music is what LilyPond documents (see C87), with the values of
the variables that are assigned before it in the text with all includes replaced with the text of the files.

Missing: what is missing in C87, and what is missing in `C104_as_text_partial`. -/
theorem C104_length_partial (cfg : Config) (U : List String) (k : ℕ) (src : Source) (s : Scope) (i : ℕ) (inner : List Nd)
    (p : Option Cls) (t : Nd) (vars : List Length.Spec.Var) (d d1 d2 : D) (qs : List ℚ) (q : ℚ) (hf : Scope.Spec.Faithful cfg)
    (hU : Scope.Spec.AllUrls cfg U) (hsrc : Sources cfg src) (hroot : Scope.Spec.IsRoot s)
    (hdom : s.top.doc.dom = some (seenAll 0 (src s.top.doc)))
    (hk : (Spec.textBefore cfg U.length src s i).length < k) (hsame : AllSame src (Spec.textBefore cfg U.length src s i))
    (ht : Same ((src s.top.doc).take i ++ inner) ((Spec.textBefore cfg U.length src s i).map (nodeOf src) ++ inner) t)
    (hd : Length.Spec.Doc ((Spec.textBefore cfg U.length src s i).map (nodeOf src)) vars d)
    (hi : Plays vars [] d inner qs d1) (hp : p ≠ some .Simultaneous) (h : Plays vars [] d1 [t] [q] d2) :
    timeLength cfg U.length src k s i inner p t = .ok q := by
  obtain ⟨-, ⟨e, he⟩, -⟩ := doc_ok _ vars d hd
  rw [C104_as_text_partial cfg U.length k src s i inner p t e hsrc hroot hdom
    (Scope.C53_lookup_ends_partial cfg hf U hU s (.root s hroot) _) hk hsame ht he]
  exact C87_length_partial _ inner p t vars d d1 d2 qs q hd hi hp h

end Quickly.Files
