import Verif.Signature.Text

/-! # C83: examples, and what goes wrong -/

namespace Quickly.Signature

open Quickly.Node Quickly.Build Quickly.Build.Spec Spec

theorem begins_length (a : Label) (form : List Kind) (ls : List Label) (h : Begins a form ls) :
    ls.length ≤ form.length := by
  obtain ⟨ks, rest, rfl, h1, -⟩ := h
  simp [h1.length_eq]

/-- Whether the labels begin a form, computed. -/
def begins (a : Cls) : ℕ → List Kind → List Label → Bool
  | _, _, [] => true
  | _, [], _ :: _ => false
  | i, k :: ks, l :: ls => takes a k l.1 && !ignores a i && begins a (i + 1) ks ls

theorem begins_of (a : Label) (form : List Kind) (ls : List Label) (h : Begins a form ls) :
    begins a.1 0 form ls = true := by
  have key : ∀ (ls : List Label) (ks rest : List Kind) (i : ℕ),
      List.Forall₂ (fun (k : Kind) (l : Label) => takes a.1 k l.1 = true) ks ls →
      (∀ j < ls.length, ignores a.1 (i + j) = false) → begins a.1 i (ks ++ rest) ls = true := by
    intro ls
    induction ls with
    | nil => intro ks rest i h1 _; cases h1; unfold begins; cases rest <;> rfl
    | cons l ls ih =>
      intro ks rest i h1 h2
      cases h1 with
      | @cons k _ ks _ hk h1 =>
        simp only [List.cons_append, begins, Bool.and_eq_true, Bool.not_eq_true']
        refine ⟨⟨hk, by simpa using h2 0 (by simp)⟩, ih ks rest (i + 1) h1 ?_⟩
        intro j hj
        have := h2 (j + 1) (by simpa using hj)
        rwa [show i + 1 + j = i + (j + 1) by omega]
  obtain ⟨ks, rest, rfl, h1, h2⟩ := h
  exact key ls ks rest 0 h1 (by simpa using h2)

/-- Whether there is room, computed. -/
def room (a : Label) (ls : List Label) (b : Label) : Bool :=
  ((formsOf a).any fun form =>
    if isComment b.1 then begins a.1 0 form ls && decide (ls.length < form.length) else begins a.1 0 form (ls ++ [b])) ||
  (isComment b.1 && decide (a.1 = .MusicFunction ∧ ls = []))

theorem room_of (a : Label) (ls : List Label) (b : Label) (h : Room a ls b) : room a ls b = true := by
  unfold room
  rw [Bool.or_eq_true]
  rcases h with ⟨form, hf, h⟩ | ⟨h1, h2⟩
  · refine .inl (List.any_eq_true.2 ⟨form, hf, ?_⟩)
    by_cases hc : isComment b.1 = true
    · rw [if_pos hc] at h ⊢
      simp [begins_of _ _ _ h.1, h.2.1]
    · rw [if_neg hc] at h ⊢
      exact begins_of _ _ _ h
  · exact .inr (by simp [h1, h2])

theorem ends_of (b : Label) (n : Tree Label) (args : List (Ex Label)) (h : room n.val (words args) b = false)
    (hy : ∀ y, args.getLast? = some y → Ends b y) : Ends b (.mk n args) :=
  .mk _ _ (fun hr => by rw [room_of _ _ _ hr] at h; cases h) hy

/-- An element without arguments. -/
def el (c : Cls) (s : String) : Tree Label := .node (c, s) []

/-- A note or rest with a length. -/
def ev (c : Cls) (s d : String) : Tree Label := .node (c, s) [.node (.Duration, d) []]

/-- `\transpose c %x\n d { c4 } r4`, and the comment and the music are inside, the rest is not. -/
def exTranspose : List (Ex Label) :=
  [.mk (el .Transpose "transpose") [.mk (el .Note "c") [], .mk (el .SinglelineComment "x") [],
    .mk (el .Note "d") [], .mk (.node (.MusicList, "") [ev .Note "c" "4"]) []],
   .mk (ev .Rest "r" "4") []]

theorem el_reads (c : Cls) (s : String) (h : formsOf (c, s) = []) (hi : c ∉ inner) (hu : c ≠ .Unpitched) :
    Spec.Reads (.mk (el c s) []) (el c s) := .leaf _ h hi (fun h => absurd h hu)

theorem exTranspose_reads : ReadsAll exTranspose
    [.node (.Transpose, "transpose") [el .Pitch "c", el .SinglelineComment "x", el .Pitch "d",
      .node (.MusicList, "") [ev .Note "c" "4"]], ev .Rest "r" "4"] := by
  have hnote : ∀ s, Spec.Reads (.mk (el .Note s) []) (el .Note s) := fun s =>
    el_reads _ _ (by simp [formsOf, forms]) (by decide +kernel) (by decide)
  have hcom : Spec.Reads (.mk (el .SinglelineComment "x") []) (el .SinglelineComment "x") :=
    el_reads _ _ (by simp [formsOf, forms]) (by decide +kernel) (by decide)
  have hlist : Spec.Reads (.mk (.node (.MusicList, "") [ev .Note "c" "4"]) [])
      (.node (.MusicList, "") [ev .Note "c" "4"]) :=
    .leaf _ (by decide +kernel) (by decide +kernel) (fun h => by cases h)
  have hrest : Spec.Reads (.mk (ev .Rest "r" "4") []) (ev .Rest "r" "4") :=
    .leaf _ (by decide +kernel) (by decide +kernel) (fun h => by cases h)
  refine ⟨.cons ?_ (.cons hrest .nil), .cons_cons ?_ (.singleton _)⟩
  · refine Reads.command (.Transpose, "transpose") [.pitch, .pitch, .music] _
      [el .Note "c", el .SinglelineComment "x", el .Note "d", .node (.MusicList, "") [ev .Note "c" "4"]]
      ?_ ?_ ?_ ?_ ?_ ?_ rfl ?_
    · decide +kernel
    · decide +kernel
    · refine ⟨[.pitch, .pitch, .music], [], rfl, ?_, fun i _ => by simp [ignores, el]⟩
      refine .cons ?_ (.cons ?_ (.cons ?_ .nil)) <;> decide +kernel
    · decide +kernel
    · intro y hy hc
      simp only [List.getLast?_cons_cons, List.getLast?_singleton, Option.some.injEq] at hy
      subst hy
      revert hc
      decide +kernel
    · refine .cons_cons ?_ (.cons_cons ?_ (.cons_cons ?_ (.singleton _))) <;>
        exact ends_of _ _ _ (by decide +kernel) (by simp)
    · intro p hp
      simp only [List.zip_cons_cons, List.zip_nil_left, List.mem_cons, List.not_mem_nil, or_false] at hp
      rcases hp with rfl | rfl | rfl | rfl
      · exact hnote _
      · exact hcom
      · exact hnote _
      · exact hlist
  · refine ends_of _ _ _ (by decide +kernel) ?_
    intro y hy
    simp only [List.getLast?_cons_cons, List.getLast?_singleton, Option.some.injEq] at hy
    subst hy
    exact ends_of _ _ _ (by decide +kernel) (by simp)

example : lily.buildTree [el .Transpose "transpose", el .Note "c", el .SinglelineComment "x", el .Note "d",
      .node (.MusicList, "") [ev .Note "c" "4"], ev .Rest "r" "4"] =
    [.node (.Transpose, "transpose") [el .Pitch "c", el .SinglelineComment "x", el .Pitch "d",
      .node (.MusicList, "") [ev .Note "c" "4"]], ev .Rest "r" "4"] :=
  C83_text_partial _ _ exTranspose_reads

/-- `\tempo` can go on after a text; `\relative c'` can have music, and does not take `\tag`. -/
example : Accepts lily (.Tempo, "tempo") [(.String, "Lento")] (.Unpitched, "") ∧
    Accepts lily (.Relative, "relative") [(.Note, "c")] (.MusicList, "") ∧
    ¬ Accepts lily (.Relative, "relative") [(.Note, "c")] (.Tag, "tag") :=
  ⟨C83_takes_partial _ [.text, .duration, .equal, .count] _ _ (by decide +kernel)
      ⟨[.text, .duration], _, rfl, .cons (by decide +kernel) (.cons (by decide +kernel) .nil), by simp [ignores]⟩,
    C83_takes_partial _ [.pitch, .music] _ _ (by decide +kernel)
      ⟨[.pitch, .music], [], rfl, .cons (by decide +kernel) (.cons (by decide +kernel) .nil), by simp [ignores]⟩,
    C83_refused _ [.pitch] [] .music _ _ (by decide +kernel) rfl (by decide +kernel) (.inl (by decide +kernel))⟩

/-! ## What goes wrong -/

/-- `\relative c' \tag #'x { ... }`: the music is not in the `\relative`. -/
theorem C83_relative_tag (h t x p : String) (sc ms : List (Tree Label)) :
    lily.buildTree [el .Relative h, el .Note p, el .Tag t, .node (.Scheme, x) sc, .node (.MusicList, "") ms] =
      [.node (.Relative, h) [el .Pitch p], .node (.Tag, t) [.node (.Scheme, x) sc, .node (.MusicList, "") ms]] := by
  have hleaf : ∀ (c : Cls) (s : String) (ks : List (Tree Label)), formsOf (c, s) = [] → c ∉ inner → c ≠ .Unpitched →
      Spec.Reads (.mk (.node (c, s) ks) []) (.node (c, s) ks) := fun c s ks h hi hu =>
    .leaf _ h hi (fun h => absurd h hu)
  have h1 : Spec.Reads (.mk (el .Note p) []) (el .Note p) := hleaf _ _ _ rfl (by decide +kernel) (by decide)
  have h2 := hleaf .Scheme x sc rfl (by decide +kernel) (by decide)
  have h3 := hleaf .MusicList "" ms rfl (by decide +kernel) (by decide)
  refine C83_text_partial [.mk (el .Relative h) [.mk (el .Note p) []],
    .mk (el .Tag t) [.mk (.node (.Scheme, x) sc) [], .mk (.node (.MusicList, "") ms) []]] _
    ⟨.cons ?_ (.cons ?_ .nil), .cons_cons ?_ (.singleton _)⟩
  · refine Reads.command (.Relative, h) [.pitch, .music] _ [el .Note p] ?_
      (show Cls.Relative ∉ inner by decide +kernel) ?_ ?_ ?_
      (.singleton _) rfl ?_
    · exact List.mem_cons_self ..
    · exact ⟨[.pitch], [.music], rfl, .cons ⟨List.mem_cons_self .., rfl⟩ .nil, fun i _ => by simp [ignores]⟩
    · intro q hq
      simp only [words, List.map_cons, List.map_nil] at hq
      rw [List.filter_cons_of_pos rfl] at hq
      simp only [List.filter_nil, List.zip_cons_cons, List.zip_nil_right, List.mem_singleton] at hq
      subst hq
      rfl
    · intro y hy hc
      simp only [List.getLast?_singleton, Option.some.injEq] at hy
      subst hy
      cases hc
    · intro q hq
      simp only [List.zip_cons_cons, List.zip_nil_left, List.mem_singleton] at hq
      subst hq
      exact h1
  · refine Reads.command (.Tag, t) [.tag, .music] _ [.node (.Scheme, x) sc, .node (.MusicList, "") ms]
      ?_ (show Cls.Tag ∉ inner by decide +kernel) ?_ ?_ ?_ ?_ rfl ?_
    · exact List.mem_cons_self ..
    · refine ⟨[.tag, .music], [], rfl, .cons ⟨?_, ?_⟩ (.cons ⟨?_, ?_⟩ .nil), fun i _ => by simp [ignores]⟩
      · show Cls.Scheme ∈ _
        decide +kernel
      · rfl
      · show Cls.MusicList ∈ _
        decide +kernel
      · rfl
    · intro q hq
      simp only [words, List.map_cons, List.map_nil] at hq
      rw [List.filter_cons_of_pos rfl, List.filter_cons_of_pos rfl] at hq
      simp only [List.filter_nil, List.zip_cons_cons, List.zip_nil_right, List.mem_cons, List.not_mem_nil,
        or_false] at hq
      rcases hq with rfl | rfl <;> rfl
    · intro y hy hc
      simp only [List.getLast?_cons_cons, List.getLast?_singleton, Option.some.injEq] at hy
      subst hy
      cases hc
    · exact .cons_cons (ends_of _ _ _ rfl (by simp)) (.singleton _)
    · intro q hq
      simp only [List.zip_cons_cons, List.zip_nil_left, List.mem_cons, List.not_mem_nil, or_false] at hq
      rcases hq with rfl | rfl
      · exact h2
      · exact h3
  · refine ends_of _ _ _ rfl ?_
    intro y hy
    simp only [List.getLast?_singleton, Option.some.injEq] at hy
    subst hy
    exact ends_of _ _ _ rfl (by simp)

/-- What a command does with an argument that the library mistakes for another kind. -/
theorem C83_confused (h s d : String) (cs ks rest : List (Tree Label)) :
    -- `\relative c4`: the only note becomes the start pitch
    lily.addArg (el .Relative h) (.node (.Note, s) cs) = .node (.Relative, h) [.node (.Pitch, s) cs] ∧
    -- `\mark 4`: the number stays a length
    lily.addArg (el .Mark h) (.node (.Unpitched, s) (.node (.Duration, d) ks :: rest)) =
      .node (.Mark, h) [.node (.Unpitched, s) (.node (.Duration, d) ks :: rest)] ∧
    -- `\tuplet 3/2 4`: the music is a length only
    (∀ f, lily.addArg (.node (.Tuplet, h) [f]) (.node (.Unpitched, s) (.node (.Duration, d) ks :: rest)) =
      .node (.Tuplet, h) [f, .node (.Duration, d) ks]) ∧
    -- `\scaleDurations 2/3 4`: the music is a number
    (∀ f, isInt d = true →
      lily.addArg (.node (.ScaleDurations, h) [f]) (.node (.Unpitched, s) (.node (.Duration, d) ks :: rest)) =
        .node (.ScaleDurations, h) [f, .node (.Int, d) []]) := by
  refine ⟨rfl, rfl, fun f => rfl, fun f hd => ?_⟩
  have hu : ∀ n, lily.addArg (.node (.ScaleDurations, h) [f]) n =
      .node (.ScaleDurations, h) [f, unpitchedToInt n] := fun n => rfl
  rw [hu, unpitchedToInt_eq _ (fun _ => ⟨d, ks, rest, rfl⟩) rfl, asNumber]
  rw [isInt_eq, decide_eq_true_eq] at hd
  rw [if_pos hd]

/-- And what LilyPond means by them would be otherwise. -/
theorem C83_confuses : confuses .Relative .music .Note = true ∧ confuses .Mark .value .Unpitched = true ∧
    confuses .Tuplet .music .Unpitched = true ∧ confuses .ScaleDurations .music .Unpitched = true := by
  decide +kernel

end Quickly.Signature
