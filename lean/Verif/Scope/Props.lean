import Verif.Scope.Spec
import Mathlib.Data.List.Nodup
import Mathlib.Data.List.Perm.Subperm

/-! # C53, C59: includes -/

namespace Quickly.Scope

open Spec

theorem addUrl_spec (cfg : Config) (skip : List (Option String)) (url : String)
    (urls : List String) (base : Option String) (h : ∀ u ∈ urls, some u ∉ skip) (hn : urls.Nodup) :
    (∀ u ∈ addUrl cfg skip url urls base, some u ∉ skip) ∧ (addUrl cfg skip url urls base).Nodup := by
  unfold addUrl
  split
  · exact ⟨h, hn⟩
  · split
    · exact ⟨h, hn⟩
    · simp only
      split
      · rename_i b _ _ hc
        constructor
        · intro u hu
          rcases List.mem_append.1 hu with hu | hu
          · exact h u hu
          · rw [List.mem_singleton.1 hu]; exact hc.1
        · rw [List.nodup_append]
          refine ⟨hn, List.nodup_singleton _, ?_⟩
          intro a ha b hb hab
          rw [List.mem_singleton.1 hb] at hab
          exact hc.2 (hab ▸ ha)
      · exact ⟨h, hn⟩

/-- **C53**: a scope never offers the url of a document that is being included, and no url
twice. -/
theorem C53_urls (cfg : Config) (s : Scope) (url : String) :
    (∀ u ∈ s.urls cfg url, ∀ l ∈ s.levels, l.doc.url ≠ some u) ∧ (s.urls cfg url).Nodup := by
  have key : (∀ u ∈ s.urls cfg url, some u ∉ s.levels.map (·.doc.url)) ∧
      (s.urls cfg url).Nodup := by
    unfold Scope.urls
    simp only
    have h0 : (∀ u ∈ (if cfg.relativeInclude then
          addUrl cfg (s.levels.map (·.doc.url)) url [] s.top.doc.url else []),
          some u ∉ s.levels.map (·.doc.url)) ∧
        (if cfg.relativeInclude then
          addUrl cfg (s.levels.map (·.doc.url)) url [] s.top.doc.url else []).Nodup := by
      split
      · exact addUrl_spec cfg _ url [] _ (by simp) List.nodup_nil
      · simp
    have h1 := addUrl_spec cfg (s.levels.map (·.doc.url)) url _ s.root.doc.url h0.1 h0.2
    generalize addUrl cfg (s.levels.map (·.doc.url)) url (if cfg.relativeInclude then
      addUrl cfg (s.levels.map (·.doc.url)) url [] s.top.doc.url else []) s.root.doc.url = us at h1
    generalize (cfg.includePath.map fun u => if u.endsWith "/" then u else u ++ "/") = ps
    induction ps generalizing us with
    | nil => exact h1
    | cons p ps ih => exact ih _ (addUrl_spec cfg _ url us (some p) h1.1 h1.2)
  refine ⟨fun u hu l hl he => key.1 u hu ?_, key.2⟩
  rw [← he]
  exact List.mem_map.2 ⟨l, hl, rfl⟩

theorem firstDocument_mem (cfg : Config) (us : List String) (d : Doc)
    (h : firstDocument cfg us = some d) : ∃ u ∈ us, cfg.factory (cfg.path u) = some d := by
  induction us with
  | nil => cases h
  | cons u us ih =>
    rw [firstDocument] at h
    split at h
    · rename_i d' hd
      cases h
      exact ⟨u, by simp, hd⟩
    · obtain ⟨u', h1, h2⟩ := ih h
      exact ⟨u', by simp [h1], h2⟩

theorem include_spec (cfg : Config) (s s' : Scope) (url : String) (node : Option (List Node))
    (h : s.includeScope cfg url node = some s') : s'.parents = s.levels ∧ s'.top.node = node ∧
      ∃ u ∈ s.urls cfg url, cfg.factory (cfg.path u) = some s'.top.doc := by
  rw [Scope.includeScope, Option.map_eq_some_iff] at h
  obtain ⟨d, hd, rfl⟩ := h
  exact ⟨rfl, rfl, firstDocument_mem cfg _ d hd⟩

/-- **C53**: a document that is included is none of those that are being included, if the factory
gives documents with the url that was asked for (see `C53_circular`). -/
theorem C53_include_distinct_partial (cfg : Config) (hf : Faithful cfg) (s : Scope)
    (h : Reachable cfg s) : (s.levels.map (·.doc.url)).Nodup := by
  induction h with
  | root s hs => simp [Scope.levels, hs.1]
  | incl s s' url node _ hi ih =>
    obtain ⟨h1, -, u, hu, hd⟩ := include_spec cfg s s' url node hi
    rw [Scope.levels, h1, List.map_cons, List.nodup_cons]
    refine ⟨?_, ih⟩
    rw [hf u _ hd]
    intro hm
    obtain ⟨l, hl, he⟩ := List.mem_map.1 hm
    exact (C53_urls cfg s url).1 u hu l hl he

theorem reachable_urls (cfg : Config) (U : List String) (hU : AllUrls cfg U) (s : Scope)
    (h : Reachable cfg s) : ∀ l ∈ s.levels.dropLast, ∃ u ∈ U, l.doc.url = some u := by
  induction h with
  | root s hs => simp [Scope.levels, hs.1]
  | incl s s' url node _ hi ih =>
    obtain ⟨h1, -, u, -, hd⟩ := include_spec cfg s s' url node hi
    intro l hl
    rw [Scope.levels, h1, List.dropLast_cons_of_ne_nil (by simp [Scope.levels])] at hl
    rcases List.mem_cons.1 hl with rfl | hl
    · exact hU _ _ hd
    · exact ih l hl

/-- **C53**: the chain of scopes is finite: it is not longer than the number of documents (and the
root), whatever they include. -/
theorem C53_chain_finite_partial (cfg : Config) (hf : Faithful cfg) (U : List String)
    (hU : AllUrls cfg U) (s : Scope) (h : Reachable cfg s) : s.parents.length ≤ U.length := by
  have hn := C53_include_distinct_partial cfg hf s h
  have hm := reachable_urls cfg U hU s h
  have hd : (s.levels.dropLast.map (·.doc.url)).Nodup := by
    rw [List.map_dropLast]
    exact hn.sublist (List.dropLast_sublist _)
  have hs : s.levels.dropLast.map (·.doc.url) ⊆ U.map some := by
    intro x hx
    obtain ⟨l, hl, rfl⟩ := List.mem_map.1 hx
    obtain ⟨u, hu, he⟩ := hm l hl
    rw [he]
    exact List.mem_map.2 ⟨u, hu, rfl⟩
  have := (List.subperm_of_subset hd hs).length_le
  simpa [Scope.levels] using this

theorem visitWith_some (cfg : Config) (below : Scope → List Node → Option (List (Node × Scope)))
    (s : Scope) (h : ∀ f place s' dom, s.includeScope cfg f (some place) = some s' →
      s'.top.doc.dom = some dom → (below s' dom.reverse).isSome) (nodes : List Node) :
    (visitWith cfg below s nodes).isSome := by
  induction nodes with
  | nil => rfl
  | cons n nodes ih =>
    obtain ⟨rest, hr⟩ := Option.isSome_iff_exists.1 ih
    simp only [visitWith, hr, Option.bind_eq_bind, Option.bind_some, Option.pure_def]
    cases n with
    | incl f =>
      simp only
      split
      · rename_i s' hs
        split
        · rename_i dom hd
          obtain ⟨x, hx⟩ := Option.isSome_iff_exists.1 (h f nodes s' dom hs hd)
          simp [hx]
        · rfl
      · rfl
    | assign n v => rfl
    | other i => rfl

/-- **C53**: looking for preceding nodes always ends, from every place: no more includes are nested
than there are documents. -/
theorem C53_lookup_ends_partial (cfg : Config) (hf : Faithful cfg) (U : List String)
    (hU : AllUrls cfg U) (s : Scope) (h : Reachable cfg s) (place : List Node) :
    (precedingNodes cfg U.length s.top s.parents place).isSome := by
  have key : ∀ (k : ℕ) (s : Scope) (nodes : List Node), Reachable cfg s →
      U.length ≤ k + s.parents.length → (visit cfg k s nodes).isSome := by
    intro k
    induction k with
    | zero =>
      intro s nodes hs hk
      refine visitWith_some cfg _ s ?_ nodes
      intro f place s' dom hi hd
      have h1 := C53_chain_finite_partial cfg hf U hU s' (.incl s s' f _ hs hi)
      rw [(include_spec cfg s s' f _ hi).1, Scope.levels, List.length_cons] at h1
      omega
    | succ k ih =>
      intro s nodes hs hk
      refine visitWith_some cfg _ s ?_ nodes
      intro f place s' dom hi hd
      refine ih s' _ (.incl s s' f _ hs hi) ?_
      rw [(include_spec cfg s s' f _ hi).1, Scope.levels, List.length_cons]
      omega
  have hpar : ∀ s : Scope, Reachable cfg s → ∀ p ps, s.parents = p :: ps →
      Reachable cfg ⟨p, ps⟩ := by
    intro s hs p ps hp
    cases hs with
    | root _ h => rw [h.1] at hp; cases hp
    | incl s1 _ url node hr hi =>
      have := (include_spec cfg s1 s url node hi).1
      rw [hp, Scope.levels] at this
      cases this
      exact hr
  obtain ⟨top, parents⟩ := s
  simp only
  induction parents generalizing top place with
  | nil =>
    obtain ⟨x, hx⟩ := Option.isSome_iff_exists.1 (key U.length _ place h (by omega))
    unfold precedingNodes
    simp [hx]
  | cons p ps ih =>
    obtain ⟨x, hx⟩ := Option.isSome_iff_exists.1 (key U.length _ place h (by omega))
    unfold precedingNodes
    simp only [hx, Option.bind_eq_bind, Option.bind_some, Option.pure_def]
    cases top.node with
    | none => rfl
    | some place' =>
      obtain ⟨y, hy⟩ := Option.isSome_iff_exists.1 (ih place' p (hpar _ h p ps rfl))
      simp [hy]

theorem textWith_append (cfg : Config) (below) (s : Scope) : ∀ (xs ys before : List Node),
    textWith cfg below s before (xs ++ ys) =
      textWith cfg below s before xs ++ textWith cfg below s (xs.reverse ++ before) ys := by
  intro xs
  induction xs with
  | nil => intros; rfl
  | cons x xs ih =>
    intro ys before
    simp only [List.cons_append, textWith, ih, List.append_assoc, List.reverse_cons,
      List.nil_append, List.cons_append]

theorem visitWith_text (cfg : Config) (below : Scope → List Node → Option (List (Node × Scope)))
    (tbelow : Scope → List Node → List (Node × Scope))
    (h : ∀ s nodes ys, below s nodes = some ys → ys.reverse = tbelow s nodes.reverse) (s : Scope) :
    ∀ (nodes : List Node) (ys), visitWith cfg below s nodes = some ys →
      ys.reverse = textWith cfg tbelow s [] nodes.reverse := by
  intro nodes
  induction nodes with
  | nil => intro ys hy; simp only [visitWith, Option.some.injEq] at hy; rw [← hy]; rfl
  | cons n nodes ih =>
    intro ys hy
    simp only [visitWith, Option.bind_eq_bind, Option.bind_eq_some_iff, Option.pure_def] at hy
    obtain ⟨rest, hr, hy⟩ := hy
    rw [List.reverse_cons, textWith_append, ← ih rest hr]
    simp only [List.reverse_reverse, List.append_nil, textWith]
    cases n with
    | incl f =>
      simp only at hy ⊢
      cases hi : s.includeScope cfg f (some nodes) with
      | none =>
        rw [hi] at hy
        simp only [Option.some.injEq] at hy
        rw [← hy]; simp
      | some s' =>
        rw [hi] at hy
        simp only at hy ⊢
        cases hd : s'.top.doc.dom with
        | none =>
          rw [hd] at hy
          simp only [Option.some.injEq] at hy
          rw [← hy]; simp
        | some dom =>
          rw [hd] at hy
          simp only [Option.bind_eq_some_iff, Option.some.injEq] at hy
          obtain ⟨zs, hz, hy⟩ := hy
          rw [← hy, List.reverse_append, h s' dom.reverse zs hz, List.reverse_reverse]
    | assign a v =>
      simp only [Option.some.injEq] at hy
      rw [← hy]; simp
    | other i =>
      simp only [Option.some.injEq] at hy
      rw [← hy]; simp

theorem visit_text (cfg : Config) : ∀ (k : ℕ) (s : Scope) (nodes : List Node) (ys),
    visit cfg k s nodes = some ys → ys.reverse = text cfg k s nodes.reverse := by
  intro k
  induction k with
  | zero =>
    intro s nodes ys h
    exact visitWith_text cfg _ _ (fun _ _ _ h => by cases h) s nodes ys h
  | succ k ih =>
    intro s nodes ys h
    exact visitWith_text cfg _ _ ih s nodes ys h

theorem preceding_text (cfg : Config) (fuel : ℕ) : ∀ (parents : List Level) (top : Level)
    (place : List Node) (ys), precedingNodes cfg fuel top parents place = some ys →
      ys.reverse = textBefore cfg fuel top parents place := by
  intro parents
  induction parents with
  | nil =>
    intro top place ys h
    unfold precedingNodes at h
    simp only [Option.bind_eq_bind, Option.bind_eq_some_iff, Option.pure_def] at h
    obtain ⟨x, hx, h⟩ := h
    simp only [Option.some.injEq] at h
    subst h
    unfold textBefore
    simpa using visit_text cfg fuel _ place x hx
  | cons p ps ih =>
    intro top place ys h
    unfold precedingNodes at h
    simp only [Option.bind_eq_bind, Option.bind_eq_some_iff, Option.pure_def] at h
    obtain ⟨x, hx, h⟩ := h
    have hv := visit_text cfg fuel _ place x hx
    unfold textBefore
    cases hn : top.node with
    | none =>
      rw [hn] at h
      simp only [Option.some.injEq] at h
      subst h
      simpa using hv
    | some place' =>
      rw [hn] at h
      simp only [Option.bind_eq_some_iff, Option.some.injEq] at h
      obtain ⟨y, hy, h⟩ := h
      rw [← h, List.reverse_append, hv, ih p place' y hy]

theorem find_last (name : String) (ys : List (Node × Scope)) :
    match findAssignment name ys with
    | some (v, s') => ∃ xs zs, ys.reverse = xs ++ (.assign name v, s') :: zs ∧
        ∀ z ∈ zs, ∀ w, z.1 ≠ .assign name w
    | none => ∀ z ∈ ys.reverse, ∀ w, z.1 ≠ .assign name w := by
  induction ys with
  | nil => simp [findAssignment]
  | cons y ys ih =>
    obtain ⟨n, s1⟩ := y
    have hother : (∀ w, n ≠ .assign name w) → findAssignment name ((n, s1) :: ys) =
        findAssignment name ys := by
      intro hw
      cases n with
      | assign a v =>
        have : a ≠ name := fun h => hw v (by rw [h])
        simp [findAssignment, this]
      | incl f => rfl
      | other i => rfl
    by_cases hn : ∃ v, n = .assign name v
    · obtain ⟨v, rfl⟩ := hn
      simp only [findAssignment, if_true]
      exact ⟨ys.reverse, [], by simp, by simp⟩
    · have hw : ∀ w, n ≠ .assign name w := fun w h => hn ⟨w, h⟩
      rw [hother hw]
      split at ih
      · obtain ⟨xs, zs, h1, h2⟩ := ih
        refine ⟨xs, zs ++ [(n, s1)], by simp [h1], ?_⟩
        intro z hz
        rcases List.mem_append.1 hz with hz | hz
        · exact h2 z hz
        · rw [List.mem_singleton.1 hz]; exact hw
      · intro z hz
        rw [List.reverse_cons, List.mem_append] at hz
        rcases hz with hz | hz
        · exact ih z hz
        · rw [List.mem_singleton.1 hz]; exact hw

/-- **C59**: whenever the search ends (see `C59_ends`), a variable has the value that was last
assigned to it in the text that was read before that place, where every include command is replaced
by the text of the included file. -/
theorem C59_last_assignment (cfg : Config) (depth : ℕ) (s : Scope) (place : List Node)
    (name : String) (ys : List (Node × Scope))
    (h : precedingNodes cfg depth s.top s.parents place = some ys) :
    match findAssignment name ys with
    | some (v, s') => ∃ xs zs,
        textBefore cfg depth s.top s.parents place = xs ++ (.assign name v, s') :: zs ∧
        ∀ z ∈ zs, ∀ w, z.1 ≠ .assign name w
    | none => ∀ z ∈ textBefore cfg depth s.top s.parents place, ∀ w, z.1 ≠ .assign name w := by
  rw [← preceding_text cfg _ _ _ _ ys h]
  exact find_last name ys

/-- **C59**: it ends from every place in every scope, if the factory gives documents with the url
that was asked for. -/
theorem C59_ends (cfg : Config) (hf : Faithful cfg) (U : List String)
    (hU : AllUrls cfg U) (s : Scope) (h : Reachable cfg s) (place : List Node) :
    ∃ ys, precedingNodes cfg U.length s.top s.parents place = some ys :=
  Option.isSome_iff_exists.1 (C53_lookup_ends_partial cfg hf U hU s h place)

/-! Examples: three files that include each other. -/

/-- `urljoin` in a single directory, with urls that are paths. -/
def exConfig : Config where
  join _ u := "/d/" ++ u
  path u := u
  factory f :=
    if f = "/d/a.ly" then some ⟨some "/d/a.ly", some [.assign "x" 1, .incl "b.ly", .other 2]⟩
    else if f = "/d/b.ly" then some ⟨some "/d/b.ly", some [.incl "c.ly", .assign "y" 3, .incl "a.ly"]⟩
    else if f = "/d/c.ly" then some ⟨some "/d/c.ly", some [.incl "b.ly", .incl "c.ly", .assign "x" 4]⟩
    else none
  includePath := []
  relativeInclude := true

/-- The root scope of `a.ly`. -/
def exRoot : Scope := ⟨⟨⟨some "/d/a.ly", some [.assign "x" 1, .incl "b.ly", .other 2]⟩, none⟩, []⟩

example : Faithful exConfig ∧ AllUrls exConfig ["/d/a.ly", "/d/b.ly", "/d/c.ly"] ∧
    Reachable exConfig exRoot := by
  refine ⟨?_, ?_, .root _ ⟨rfl, rfl⟩⟩
  · intro u d h
    simp only [exConfig] at h
    split at h
    · rename_i he; cases h; rw [he]
    · split at h
      · rename_i he; cases h; rw [he]
      · split at h
        · rename_i he; cases h; rw [he]
        · cases h
  · intro f d h
    simp only [exConfig] at h
    split at h
    · cases h; exact ⟨_, by simp, rfl⟩
    · split at h
      · cases h; exact ⟨_, by simp, rfl⟩
      · split at h
        · cases h; exact ⟨_, by simp, rfl⟩
        · cases h

example : (precedingNodes exConfig 3 exRoot.top exRoot.parents [.incl "b.ly", .assign "x" 1]).map
    (fun ys => (ys.map (·.1), (findAssignment "x" ys).map (·.1))) =
    some ([.incl "a.ly", .assign "y" 3, .assign "x" 4, .incl "c.ly", .incl "b.ly", .assign "x" 1],
      some 4) := by decide +kernel

/-- What `urljoin`, `urlparse` and the default factory do when the url of the first document is a
`file:` url; `load` (`quickly/__init__.py` L38-52) makes documents whose url is a path. -/
def fileConfig : Config where
  join b u := if b = "file:///d/a.ly" then "file:///d/" ++ u else "/d/" ++ u
  path u := if u = "file:///d/b.ly" then "/d/b.ly" else u
  factory f := if f = "/d/b.ly" then some ⟨some "/d/b.ly", some [.incl "b.ly"]⟩ else none
  includePath := []
  relativeInclude := true

/-- **C53** fails then: with a `file:` url and the default factory, a file that includes itself is
included again and again. -/
theorem C53_circular (n : ℕ) :
    ∃ s : Scope, Reachable fileConfig s ∧ s.parents.length = n ∧
      ∀ l ∈ s.levels.dropLast, l.doc = ⟨some "/d/b.ly", some [.incl "b.ly"]⟩ := by
  suffices h : ∃ s : Scope, Reachable fileConfig s ∧ s.parents.length = n ∧
      s.root.doc.url = some "file:///d/a.ly" ∧
      ∀ l ∈ s.levels.dropLast, l.doc = ⟨some "/d/b.ly", some [.incl "b.ly"]⟩ by
    obtain ⟨s, h1, h2, -, h4⟩ := h
    exact ⟨s, h1, h2, h4⟩
  induction n with
  | zero =>
    refine ⟨⟨⟨⟨some "file:///d/a.ly", some []⟩, none⟩, []⟩, .root _ ⟨rfl, rfl⟩, rfl, rfl, ?_⟩
    simp [Scope.levels]
  | succ n ih =>
    obtain ⟨s, h1, h2, h3, h4⟩ := ih
    have hskip : some "file:///d/b.ly" ∉ s.levels.map (·.doc.url) := by
      intro hm
      obtain ⟨l, hl, he⟩ := List.mem_map.1 hm
      have hne : s.levels ≠ [] := by simp [Scope.levels]
      rw [← List.dropLast_append_getLast hne, List.mem_append] at hl
      rcases hl with hl | hl
      · rw [h4 l hl] at he
        revert he; decide +kernel
      · rw [List.mem_singleton.1 hl] at he
        have : s.levels.getLast hne = s.root := rfl
        rw [this, h3] at he
        revert he; decide +kernel
    have hurl : "file:///d/b.ly" ∈ s.urls fileConfig "b.ly" ∧
        ∀ u ∈ s.urls fileConfig "b.ly", u = "file:///d/b.ly" ∨ u = "/d/b.ly" := by
      have hj : ∀ b, fileConfig.join b "b.ly" = "file:///d/b.ly" ∨
          fileConfig.join b "b.ly" = "/d/b.ly" := by
        intro b
        simp only [fileConfig]
        split
        · left; decide +kernel
        · right; decide +kernel
      have hr : fileConfig.join "file:///d/a.ly" "b.ly" = "file:///d/b.ly" := by decide +kernel
      have hadd : ∀ (skip : List (Option String)) (us : List String) (base : Option String),
          (∀ u ∈ us, u = "file:///d/b.ly" ∨ u = "/d/b.ly") →
          ∀ u ∈ addUrl fileConfig skip "b.ly" us base, u = "file:///d/b.ly" ∨ u = "/d/b.ly" := by
        intro skip us base hus u hu
        unfold addUrl at hu
        split at hu
        · exact hus u hu
        · split at hu
          · exact hus u hu
          · simp only at hu
            split at hu
            · rcases List.mem_append.1 hu with hu | hu
              · exact hus u hu
              · rw [List.mem_singleton.1 hu]; exact hj _
            · exact hus u hu
      have he : s.urls fileConfig "b.ly" = addUrl fileConfig (s.levels.map (·.doc.url)) "b.ly"
          (addUrl fileConfig (s.levels.map (·.doc.url)) "b.ly" [] s.top.doc.url) s.root.doc.url := rfl
      rw [he]
      have h0 := hadd (s.levels.map (·.doc.url)) [] s.top.doc.url (by simp)
      refine ⟨?_, hadd _ _ _ h0⟩
      generalize addUrl fileConfig (s.levels.map (·.doc.url)) "b.ly" [] s.top.doc.url = us
      rw [h3]
      simp only [addUrl, hr]
      rw [if_neg (by decide +kernel)]
      split
      · simp
      · rename_i hc
        by_contra hm
        exact hc ⟨hskip, hm⟩
    have hfirst : ∀ us : List String, "file:///d/b.ly" ∈ us →
        (∀ u ∈ us, u = "file:///d/b.ly" ∨ u = "/d/b.ly") →
        firstDocument fileConfig us = some ⟨some "/d/b.ly", some [.incl "b.ly"]⟩ := by
      intro us hm hall
      cases us with
      | nil => cases hm
      | cons u us =>
        rw [firstDocument]
        rcases hall u (by simp) with rfl | rfl
        · have : getDocument fileConfig "file:///d/b.ly" =
            some ⟨some "/d/b.ly", some [.incl "b.ly"]⟩ := by decide +kernel
          rw [this]
        · have : getDocument fileConfig "/d/b.ly" =
            some ⟨some "/d/b.ly", some [.incl "b.ly"]⟩ := by decide +kernel
          rw [this]
    have hinc : s.includeScope fileConfig "b.ly" none =
        some ⟨⟨⟨some "/d/b.ly", some [.incl "b.ly"]⟩, none⟩, s.levels⟩ := by
      rw [Scope.includeScope, hfirst _ hurl.1 hurl.2]
      rfl
    refine ⟨_, .incl s _ "b.ly" none h1 hinc, ?_, ?_, ?_⟩
    · simp [Scope.levels, h2]
    · rw [← h3]
      simp [Scope.root, Scope.levels]
    · intro l hl
      rw [Scope.levels, List.dropLast_cons_of_ne_nil (by simp [Scope.levels])] at hl
      rcases List.mem_cons.1 hl with rfl | hl
      · rfl
      · exact h4 l hl

end Quickly.Scope
