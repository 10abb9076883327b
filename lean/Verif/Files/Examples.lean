import Verif.Files.Props
import Verif.Length.Examples

/-! # C104: examples, and the current duration after an include -/

namespace Quickly.Files

open Quickly.Node Quickly.Signature Quickly.Length Spec
open Quickly.Length.Spec (Plays Sounds sounds events)
open Quickly.Scope (Config Level Scope)
open Quickly.Duration.Spec (value)

/-- It suffices that all values begin with a written duration. -/
theorem allSame_of_timed (src : Source) (text : List (Scope.Node × Scope))
    (h : ∀ y ∈ text, ∀ name i, y.1 = .assign name i → ∀ b v, valueAt (src y.2.top.doc) i = some (b, v) → Timed v) :
    AllSame src text := by
  intro xs zs name i s ht b v hv
  exact .inr (h (.assign name i, s) (by rw [ht]; simp) name i rfl b v hv)

/-- `name = t` -/
def exVar (name : String) (t : Nd) : Nd :=
  .node (.Assignment, .text "") [.node (.Identifier, .text name) [], .node (.EqualSign, .text "=") [], t]

/-- `\include "f"` -/
def exInclude (f : String) : Nd := .node (.Include, .text "\\include") [.node (.String, .text f) []]

/-- `\name` -/
def exRef (name : String) : Nd := .node (.IdentifierRef, .text name) []

/-- `music = { c4 \x }` in `a.ly` -/
def exA : List Nd := [exVar "music" (seq [dur .Note (1/4), exRef "x"])]

/-- `{ c2 \music }` -/
def exMusic : Nd := seq [dur .Note (1/2), exRef "music"]

/-- `x = { c8 }`, `\include "a.ly"` and `{ c2 \music }` in `main.ly` -/
def exMain : List Nd := [exVar "x" (seq [dur .Note (1/8)]), exInclude "a.ly", exMusic]

/-- The Document for `a.ly`. -/
def exDocA : Scope.Doc := ⟨some "a.ly", some (seenAll 0 exA)⟩

/-- The Document for `main.ly`. -/
def exDocMain : Scope.Doc := ⟨some "main.ly", some (seenAll 0 exMain)⟩

/-- The nodes of both. -/
def exSrc : Source := fun d => if d.url = some "a.ly" then exA else exMain

/-- The surroundings: there is one other file. -/
def exCfg : Config :=
  { join := fun _ u => u, path := id, factory := fun f => if f = "a.ly" then some exDocA else none, includePath := [],
    relativeInclude := true }

/-- The scope of `main.ly`. -/
def exScope : Scope := ⟨⟨exDocMain, none⟩, []⟩

/-- The scope of `a.ly`. -/
def exScopeA : Scope := ⟨⟨exDocA, some [.assign "x" 0]⟩, [⟨exDocMain, none⟩]⟩

theorem exText : Spec.textBefore exCfg 1 exSrc exScope 2 = [(.assign "x" 0, exScope), (.assign "music" 0, exScopeA)] := by
  decide +kernel

theorem exFlat : (Spec.textBefore exCfg 1 exSrc exScope 2).map (nodeOf exSrc) =
    [] ++ [exVar "x" (seq [dur .Note (1/8)])] ++ [exVar "music" (seq [dur .Note (1/4), exRef "x"])] := by
  rw [exText]; rfl

/-- `{ c2 \music }` is a half, a quarter and an eighth note: the value of `music` is in the other file, and the value of
`x`, which it refers to, is in the file that includes that file. -/
theorem C104_length_nontrivial : timeLength exCfg 1 exSrc 3 exScope 2 [] none exMusic = .ok (7/8) := by
  have h8 : Sounds [] (1/8, 1) (1/8) := ⟨3, 0, by norm_num, by norm_num, by norm_num [value], by norm_num, by norm_num [sounds, value]⟩
  have h4 : Sounds [] (1/4, 1) (1/4) := ⟨2, 0, by norm_num, by norm_num, by norm_num [value], by norm_num, by norm_num [sounds, value]⟩
  have h2 : Sounds [] (1/2, 1) (1/2) := ⟨1, 0, by norm_num, by norm_num, by norm_num [value], by norm_num, by norm_num [sounds, value]⟩
  have px : ∀ vars d, Plays vars [] d [seq [dur .Note (1/8)]] [1/8] (1/8, 1) := fun vars d => by
    have := Plays.list vars [] d _ (.text "{") _ _ (plays_dur vars [] d .Note (1/8) (1/8) (by decide) h8)
    rw [List.sum_singleton] at this
    exact this
  have pm : ∀ d, Plays [("x", (1/4, 1), seq [dur .Note (1/8)])] [] d [seq [dur .Note (1/4), exRef "x"]] [3/8] (1/4, 1) :=
    fun d => by
    have := Plays.list _ [] d _ (.text "{") _ _ (plays_two [("x", (1/4, 1), seq [dur .Note (1/8)])] [] d _ _ _ _ _ _
      (plays_dur _ [] d .Note (1/4) (1/4) (by decide) h4)
      (.variable _ [] [] (1/4, 1) (1/4, 1) (1/8, 1) "x" [] _ _ (by simp) (by simp) (by simp) (px [] (1/4, 1))))
    norm_num at this
    norm_num
    exact this
  refine C104_length_partial exCfg ["a.ly"] 3 exSrc exScope 2 [] none exMusic
    [("music", (1/8, 1), seq [dur .Note (1/4), exRef "x"]), ("x", (1/4, 1), seq [dur .Note (1/8)])] (1/4, 1) (1/4, 1) (1/2, 1) [] (7/8)
    ?_ ?_ ?_ ⟨rfl, rfl⟩ rfl ?_ ?_ ?_ ?_ (.nil _ _ _) (by simp) ?_
  · intro u d h
    simp only [exCfg, id] at h
    split at h
    · rename_i hu
      cases h
      rw [hu]; rfl
    · cases h
  · intro f d h
    simp only [exCfg] at h
    split at h
    · cases h
      exact ⟨"a.ly", by simp, rfl⟩
    · cases h
  · intro u d dom h hd
    simp only [exCfg] at h
    split at h
    · cases h
      simp only [exDocA, Option.some.injEq] at hd
      rw [← hd]; rfl
    · cases h
  · show (Spec.textBefore exCfg 1 exSrc exScope 2).length < 3
    rw [exText]; decide
  · show AllSame exSrc (Spec.textBefore exCfg 1 exSrc exScope 2)
    rw [exText]
    apply allSame_of_timed
    intro y hy name i hn b v hv
    simp only [List.mem_cons, List.not_mem_nil, or_false] at hy
    rcases hy with rfl | rfl
    · simp only [Scope.Node.assign.injEq] at hn
      obtain ⟨-, rfl⟩ := hn
      have : v = seq [dur .Note (1/8)] := by
        have h0 : valueAt (exSrc exScope.top.doc) 0 = some (_, seq [dur .Note (1/8)]) := rfl
        rw [h0] at hv
        simp only [Option.some.injEq, Prod.mk.injEq] at hv
        exact hv.2.symm
      subst this
      unfold Timed
      decide +kernel
    · simp only [Scope.Node.assign.injEq] at hn
      obtain ⟨-, rfl⟩ := hn
      have : v = seq [dur .Note (1/4), exRef "x"] := by
        have h0 : valueAt (exSrc exScopeA.top.doc) 0 = some (_, seq [dur .Note (1/4), exRef "x"]) := rfl
        rw [h0] at hv
        simp only [Option.some.injEq, Prod.mk.injEq] at hv
        exact hv.2.symm
      subst this
      unfold Timed
      decide +kernel
  · right
    unfold Timed
    decide +kernel
  · show Length.Spec.Doc ((Spec.textBefore exCfg 1 exSrc exScope 2).map (nodeOf exSrc)) _ _
    rw [exFlat]
    exact .assign _ _ _ _ _ (3/8) "music" _ _ [] (.assign [] [] _ _ _ (1/8) "x" _ _ [] .nil (by simp) (px _ _)) (by simp)
      (pm _)
  · have := Plays.list _ [] (1/4, 1) _ (.text "{") _ _ (plays_two
      [("music", (1/8, 1), seq [dur .Note (1/4), exRef "x"]), ("x", (1/4, 1), seq [dur .Note (1/8)])] [] (1/4, 1) _ _ _ _ _ _
      (plays_dur _ [] (1/4, 1) .Note (1/2) (1/2) (by decide) h2)
      (.variable _ _ [] (1/2, 1) (1/8, 1) (1/4, 1) "music" [] _ _ (by simp) (by simp) rfl (pm (1/8, 1))))
    norm_num at this
    norm_num
    exact this

/-- **C104**: after an include, the first music in a document, `{ c }`, is a quarter note long, whatever the included file
contains; LilyPond uses the current duration at the end of the text of that file, as is returned for the text in a single
document. -/
theorem C104_include_duration (cfg : Config) (depth k : ℕ) (src : Source) (s : Scope) (f : String)
    (vars : List Length.Spec.Var) (d : D) (q : ℚ) (hs : src s.top.doc = [exInclude f, seq [bare .Note]])
    (hd : Length.Spec.Doc ((Spec.textBefore cfg depth src s 1).map (nodeOf src)) vars d) (hq : Sounds [] d q) :
    timeLength cfg depth src k s 1 [] none (seq [bare .Note]) = .ok (1/4) ∧
      Length.timeLength (assignments [] ((Spec.textBefore cfg depth src s 1).map (nodeOf src))) none
        (revL ((Spec.textBefore cfg depth src s 1).map (nodeOf src) ++ [])) (seq [bare .Note]) = .ok q := by
  have play : Plays vars [] d [seq [bare .Note]] [q] d := by
    have := Plays.list vars [] d _ (.text "{") _ _ (plays_bare vars [] d .Note q (by decide) hq)
    rw [List.sum_singleton] at this
    exact this
  refine ⟨?_, C87_length_partial _ [] none _ vars d d d [] q hd (.nil _ _ _) (by simp) play⟩
  have hp : previousDuration (revL ((src s.top.doc).take 1 ++ [])) = previousDuration [] := by
    have h1 : setsPrevious (exInclude f) = false := by
      show (isSub 5 Cls.Include .Durable && _) = false
      rw [show isSub 5 Cls.Include .Durable = false by decide +kernel, Bool.false_and]
    have h2 : setsPrevious (.node (.String, .text f) []) = false := by
      show (isSub 5 Cls.String .Durable && _) = false
      rw [show isSub 5 Cls.String .Durable = false by decide +kernel, Bool.false_and]
    rw [hs]
    show previousDuration [exInclude f, .node (.String, .text f) []] = _
    rw [previous_skip _ _ h1, previous_skip _ _ h2]
  rw [timeLength, toMus_congr none _ _ [] hp]
  have k1 : kindOf none [] (.node (.MusicList, .text "{") [.node (.Note, .text "") []]) = .ok (.music true none) := by
    decide +kernel
  have k2 : kindOf (some .MusicList) [] (.node (.Note, .text "") []) = .ok (.durable (1/4) 1) := by decide +kernel
  have hm : toMus none [] (seq [bare .Note]) = .ok (.node (.music true none) [.node (.durable (1/4) 1) []]) := by
    simp only [seq, bare, toMus, toMusL, k1, k2]
  have h4 : (({} : Duration.Transform).length (1/4) 1) = .ok (1/4) := by decide +kernel
  rw [hm]
  simp only [Time.length, Time.Kind.isMusic, if_true, Time.timeLength, Time.lengths, Time.enter, Time.upto, List.map, h4,
    Time.pySum, zero_add]

/-- `v = \times 2/0 { c }` -/
def exC : List Nd := [exVar "v" (.node (.Times, .text "\\times") [.node (.Fraction, .pair 2 0) [], seq [bare .Note]])]

/-- The Document for the other file. -/
def exDocC : Scope.Doc := ⟨some "a.ly", some (seenAll 0 exC)⟩

/-- The nodes of both. -/
def exSrcC : Source := fun d => if d.url = some "a.ly" then exC else exMain

/-- The surroundings. -/
def exCfgC : Config := { exCfg with factory := fun f => if f = "a.ly" then some exDocC else none }

/-- The variable is in the file that is included. -/
theorem C104_error_nontrivial :
    remoteLength exCfgC 1 exSrcC 3 exScope (placeOf exSrcC exScope 2) {} "v" = .error .zeroDivisionError :=
  C104_error exCfgC 1 2 exSrcC exScope ⟨⟨exDocC, some [.assign "x" 0]⟩, [⟨exDocMain, none⟩]⟩ _ 0
    [(.assign "v" 0, ⟨⟨exDocC, some [.assign "x" 0]⟩, [⟨exDocMain, none⟩]⟩), (.assign "x" 0, exScope)] _ _ _ {} "v"
    (by decide +kernel) (by decide +kernel) rfl rfl

/-- `c8` in the other file. -/
def exDocB : Scope.Doc := ⟨some "b.ly", some (seenAll 0 [seq [dur .Note (1/8)]])⟩

/-- `\include "b.ly"` and `{ c }`. -/
def exMainB : List Nd := [exInclude "b.ly", seq [bare .Note]]

/-- The nodes of both files. -/
def exSrcB : Source := fun d => if d.url = some "b.ly" then [seq [dur .Note (1/8)]] else exMainB

/-- The surroundings. -/
def exCfgB : Config := { exCfg with factory := fun f => if f = "b.ly" then some exDocB else none }

/-- The scope of the file that includes the other one. -/
def exScopeB : Scope := ⟨⟨⟨some "main.ly", some (seenAll 0 exMainB)⟩, none⟩, []⟩

/-- `{ c }` is a quarter note long, and an eighth note in the text. -/
theorem C104_include_duration_nontrivial : timeLength exCfgB 1 exSrcB 3 exScopeB 1 [] none (seq [bare .Note]) = .ok (1/4) ∧
    Length.timeLength (assignments [] ((Spec.textBefore exCfgB 1 exSrcB exScopeB 1).map (nodeOf exSrcB))) none
      (revL ((Spec.textBefore exCfgB 1 exSrcB exScopeB 1).map (nodeOf exSrcB) ++ [])) (seq [bare .Note]) = .ok (1/8) := by
  have h8 : Sounds [] (1/8, 1) (1/8) :=
    ⟨3, 0, by norm_num, by norm_num, by norm_num [value], by norm_num, by norm_num [sounds, value]⟩
  have htext : Spec.textBefore exCfgB 1 exSrcB exScopeB 1 = [(.other 0, ⟨⟨exDocB, some []⟩, exScopeB.levels⟩)] := by
    decide +kernel
  refine C104_include_duration exCfgB 1 3 exSrcB exScopeB "b.ly" [] (1/8, 1) (1/8) rfl ?_ h8
  rw [htext]
  refine .music [] [] (1/4, 1) (1/8, 1) (seq [dur .Note (1/8)]) (1/8) .nil (by simp [seq, Tree.val]) ?_
  have := Plays.list [] [] (1/4, 1) _ (.text "{") _ _ (plays_dur [] [] (1/4, 1) .Note (1/8) (1/8) (by decide) h8)
  rw [List.sum_singleton] at this
  exact this

end Quickly.Files
