import Verif.Access.Spec
import Verif.Scheme.Lemmas
import Verif.Query.Props
import Verif.Assign.Props

/-! # C85: attributes of LilyPond nodes -/

namespace Quickly.Access

open Spec Quickly.Node Quickly.Node.Spec Quickly.Query Quickly.Query.Spec

/-! ## The numbers in a text -/

theorem findInts_noDigit {dig : Char → Option ℕ} {a : Str} (h : NoDigit dig a) (t : Str) :
    findInts dig none (a ++ t) = findInts dig none t := by
  induction a with
  | nil => rfl
  | cons c a ih =>
    have hc := h c (by simp)
    rw [List.cons_append, findInts, hc]
    simpa using ih fun x hx => h x (by simp [hx])

theorem findInts_numeral {dig : Char → Option ℕ} {s : Str} {n : ℕ} (h : Numeral dig s n) (t : Str) :
    findInts dig none (s ++ t) = findInts dig (some n) t := by
  induction h generalizing t with
  | one c d hc => simp [findInts, hc]
  | more s c n d _ hc ih => rw [List.append_assoc, ih]; simp [findInts, hc]

theorem findInts_after {dig : Char → Option ℕ} {b : Str} (h : NoDigit dig b) (hb : b ≠ []) (n : ℕ) (t : Str) :
    findInts dig (some n) (b ++ t) = n :: findInts dig none t := by
  cases b with
  | nil => exact absurd rfl hb
  | cons c b =>
    rw [List.cons_append, findInts, h c (by simp)]
    simpa using findInts_noDigit (fun x hx => h x (by simp [hx])) t

/-- **C85**: `Version.version` has the numbers in the text of the version, for every text. -/
theorem C85_numbers (dig : Char → Option ℕ) (s : Str) (ns : List ℕ) :
    findInts dig none s = ns ↔ Numbers dig s ns := by
  have back : ∀ (s : Str) (ns : List ℕ), Numbers dig s ns → findInts dig none s = ns := by
    intro s ns h
    induction h with
    | none s h => simpa [findInts] using findInts_noDigit h []
    | last a s b n ha hs hb =>
      rw [List.append_assoc, findInts_noDigit ha, findInts_numeral hs]
      cases b with
      | nil => rfl
      | cons c b =>
        have := findInts_after hb (by simp) n []
        rw [List.append_nil] at this
        rw [this]; rfl
    | more a s b rest n m ns ha hs hb hne _ ih =>
      rw [List.append_assoc, List.append_assoc, findInts_noDigit ha, findInts_numeral hs, findInts_after hb hne, ih]
  have total : ∀ s : Str, ∃ ns, Numbers dig s ns := by
    have gen : ∀ s : Str, (∃ ns, Numbers dig s ns) ∧
        ∀ w n, Numeral dig w n → ∃ ns, Numbers dig (w ++ s) ns := by
      intro s
      induction s with
      | nil =>
        refine ⟨⟨[], .none [] (by simp [NoDigit])⟩, fun w n hw => ⟨[n], ?_⟩⟩
        have := Numbers.last (dig := dig) [] w [] n (by simp [NoDigit]) hw (by simp [NoDigit])
        simpa using this
      | cons c s ih =>
        cases hc : dig c with
        | some d =>
          constructor
          · obtain ⟨ns, h⟩ := ih.2 [c] d (.one c d hc)
            exact ⟨ns, h⟩
          · intro w n hw
            obtain ⟨ns, h⟩ := ih.2 (w ++ [c]) _ (.more w c n d hw hc)
            exact ⟨ns, by simpa using h⟩
        | none =>
          have h1 : NoDigit dig [c] := by intro x hx; rw [List.mem_singleton.1 hx]; exact hc
          obtain ⟨⟨ns, hn⟩, -⟩ := ih
          have shift : ∀ (s : Str) (ns : List ℕ), Numbers dig s ns → Numbers dig (c :: s) ns := by
            intro s ns h
            have hcons : ∀ a : Str, NoDigit dig a → NoDigit dig (c :: a) := by
              intro a ha x hx
              rcases List.mem_cons.1 hx with rfl | hx
              · exact hc
              · exact ha x hx
            cases h with
            | none _ h => exact .none _ (hcons _ h)
            | last a s b n ha hs hb => exact .last (c :: a) s b n (hcons a ha) hs hb
            | more a s b r n m ns ha hs hb hne hr => exact .more (c :: a) s b r n m ns (hcons a ha) hs hb hne hr
          refine ⟨⟨ns, shift s ns hn⟩, ?_⟩
          intro w n hw
          cases ns with
          | nil =>
            refine ⟨[n], ?_⟩
            cases hn with
            | none _ h =>
              have := Numbers.last (dig := dig) [] w (c :: s) n (by simp [NoDigit]) hw (by
                intro x hx
                rcases List.mem_cons.1 hx with rfl | hx
                · exact hc
                · exact h x hx)
              simpa using this
          | cons m ns =>
            refine ⟨n :: m :: ns, ?_⟩
            have := Numbers.more (dig := dig) [] w [c] s n m ns (by simp [NoDigit]) hw h1 (by simp) hn
            simpa using this
    exact fun s => (gen s).1
  constructor
  · intro h
    obtain ⟨ms, hm⟩ := total s
    rw [← h, back s ms hm]
    exact hm
  · exact back s ns

theorem numeral_fmt {dig : Char → Option ℕ} (hd : IsDigits dig) (n : ℕ) : Numeral dig (Scheme.fmtNat .dec n) n := by
  have hdig : ∀ i < 10, dig (Scheme.digitChar i) = some i := by
    intro i hi
    have := hd.ascii i hi
    have he : ∀ i < 10, "0123456789".toList.getD i '0' = Scheme.digitChar i := by decide
    rwa [he i hi] at this
  unfold Scheme.fmtNat
  by_cases h0 : n = 0
  · rw [if_pos h0, h0]; exact .one '0' 0 (hdig 0 (by omega))
  · rw [if_neg h0]
    have : ∀ l : List ℕ, l ≠ [] → (∀ d ∈ l, d < 10) → Numeral dig (l.reverse.map Scheme.digitChar) (Nat.ofDigits 10 l) := by
      intro l
      induction l with
      | nil => intro h; exact absurd rfl h
      | cons d l ih =>
        intro _ hl
        by_cases hn : l = []
        · subst hn
          simpa using Numeral.one _ d (hdig d (hl d (by simp)))
        · have := Numeral.more _ _ _ _ (ih hn fun x hx => hl x (by simp [hx])) (hdig d (hl d (by simp)))
          rw [List.reverse_cons, List.map_append, Nat.ofDigits_cons]
          rw [show (d : ℕ) + 10 * Nat.ofDigits 10 l = 10 * Nat.ofDigits 10 l + d by ring]
          simpa using this
    have h := this (Nat.digits 10 n) (by simp [Nat.digits_ne_nil_iff_ne_zero, h0]) fun d hd => Nat.digits_lt_base (by omega) hd
    rw [Nat.ofDigits_digits] at h
    exact h

theorem findInts_join {dig : Char → Option ℕ} (hd : IsDigits dig) (v : List ℕ) : findInts dig none (joinVersion v) = v := by
  have hdot : NoDigit dig ['.'] := by intro c hc; rw [List.mem_singleton.1 hc]; exact hd.dot
  induction v with
  | nil => rfl
  | cons n ns ih =>
    cases ns with
    | nil =>
      have := findInts_numeral (numeral_fmt hd n) []
      rw [List.append_nil] at this
      rw [joinVersion, this]; rfl
    | cons m ns =>
      rw [joinVersion]
      · rw [show Scheme.fmtNat .dec n ++ '.' :: joinVersion (m :: ns) =
            Scheme.fmtNat .dec n ++ (['.'] ++ joinVersion (m :: ns)) from rfl, findInts_numeral (numeral_fmt hd n),
          findInts_after hdot (by simp), ih]
      · simp

/-! ## The String of a node -/

theorem getString_iff (cs : List (Node.Tree Nd)) (s : Str) : getString cs = some s ↔ Shows cs s := by
  induction cs with
  | nil => simp [getString, Shows]
  | cons c cs ih =>
    obtain ⟨v, u⟩ := c
    by_cases hv : IsString (.node v u)
    · obtain ⟨s', hs⟩ := hv
      simp only [Node.Tree.val] at hs
      subst hs
      simp only [getString, Option.some.injEq]
      constructor
      · rintro rfl; exact ⟨[], u, cs, rfl, by simp⟩
      · rintro ⟨a, u', b, he, ha⟩
        cases a with
        | nil => simp at he; exact he.1.1
        | cons x a =>
          simp at he
          exact absurd ⟨s', by rw [← he.1]; rfl⟩ (ha x (by simp))
    · have hg : getString (.node v u :: cs) = getString cs := by
        cases v <;> first | rfl | exact absurd ⟨_, rfl⟩ hv
      rw [hg, ih]
      constructor
      · rintro ⟨a, u', b, rfl, ha⟩
        refine ⟨.node v u :: a, u', b, rfl, ?_⟩
        intro n hn
        rcases List.mem_cons.1 hn with rfl | hn
        · exact hv
        · exact ha n hn
      · rintro ⟨a, u', b, he, ha⟩
        cases a with
        | nil => simp at he; exact absurd ⟨s, he.1.1⟩ hv
        | cons x a =>
          simp at he
          exact ⟨a, u', b, he.2, fun n hn => ha n (by simp [hn])⟩

theorem getString_none (cs : List (Node.Tree Nd)) : getString cs = none ↔ ShowsNothing cs := by
  induction cs with
  | nil => simp [getString, ShowsNothing]
  | cons c cs ih =>
    obtain ⟨v, u⟩ := c
    have : ShowsNothing (.node v u :: cs) ↔ ¬ IsString (.node v u) ∧ ShowsNothing cs := by simp [ShowsNothing]
    rw [this, ← ih]
    cases v <;> simp [getString, IsString, Node.Tree.val]

theorem changed_setString (s : Str) (v : Nd) (cs : List (Node.Tree Nd)) :
    ∃ cs', setString s (.node v cs) = .node v cs' ∧ Changed s cs cs' := by
  refine ⟨_, rfl, ?_⟩
  have key : ∀ cs : List (Node.Tree Nd), (changeString s cs = none ∧ ShowsNothing cs) ∨
      ∃ a old u b, cs = a ++ .node (.string old) u :: b ∧ (∀ n ∈ a, ¬ IsString n) ∧
        changeString s cs = some (a ++ .node (.string s) u :: b) := by
    intro cs
    induction cs with
    | nil => left; exact ⟨rfl, by simp [ShowsNothing]⟩
    | cons c cs ih =>
      obtain ⟨w, u⟩ := c
      by_cases hv : IsString (.node w u)
      · obtain ⟨s', hs⟩ := hv
        simp only [Node.Tree.val] at hs
        subst hs
        exact .inr ⟨[], s', u, cs, rfl, by simp, rfl⟩
      · have hg : changeString s (.node w u :: cs) = (changeString s cs).map (.node w u :: ·) := by
          cases w <;> first | rfl | exact absurd ⟨_, rfl⟩ hv
        rw [hg]
        rcases ih with ⟨h1, h2⟩ | ⟨a, old, u', b, rfl, ha, h⟩
        · left
          refine ⟨by rw [h1]; rfl, ?_⟩
          intro n hn
          rcases List.mem_cons.1 hn with rfl | hn
          · exact hv
          · exact h2 n hn
        · right
          refine ⟨.node w u :: a, old, u', b, rfl, ?_, by rw [h]; rfl⟩
          intro n hn
          rcases List.mem_cons.1 hn with rfl | hn
          · exact hv
          · exact ha n hn
  rcases key cs with ⟨h1, h2⟩ | ⟨a, old, u, b, h1, h2, h3⟩
  · right; exact ⟨h2, by rw [h1]; rfl⟩
  · left; exact ⟨a, old, u, b, h1, h2, by rw [h3]; rfl⟩

theorem shows_of_changed {s : Str} {cs cs' : List (Node.Tree Nd)} (h : Changed s cs cs') : Shows cs' s := by
  rcases h with ⟨a, old, u, b, -, ha, rfl⟩ | ⟨-, rfl⟩
  · exact ⟨a, u, b, rfl, ha⟩
  · exact ⟨[], [], cs, rfl, by simp⟩

/-- **C85**: the attribute (`Language.language`, `Include.filename`) is the text of the first String; None if there is none. -/
theorem C85_string_get (cs : List (Node.Tree Nd)) :
    (∀ s, getString cs = some s ↔ Shows cs s) ∧ (getString cs = none ↔ ShowsNothing cs) :=
  ⟨getString_iff cs, getString_none cs⟩

/-- **C85**: setting the attribute changes the text of the first String and nothing else, or adds a String in front if there is
none; and the attribute then is what was set. -/
theorem C85_string_set (s : Str) (v : Nd) (cs : List (Node.Tree Nd)) :
    ∃ cs', setString s (.node v cs) = .node v cs' ∧ Changed s cs cs' ∧ getString cs' = some s := by
  obtain ⟨cs', h1, h2⟩ := changed_setString s v cs
  exact ⟨cs', h1, h2, (getString_iff cs' s).2 (shows_of_changed h2)⟩

example : setString ['a'] (.node .language [.node (.other 1) [], .node (.string ['x']) [.node (.other 2) []], .node (.string ['y']) []]) =
    .node .language [.node (.other 1) [], .node (.string ['a']) [.node (.other 2) []], .node (.string ['y']) []] ∧
    setString ['a'] (.node .language [.node (.other 1) []]) =
      .node .language [.node (.string ['a']) [], .node (.other 1) []] := ⟨rfl, rfl⟩

/-- **C85**: `Version.version` is the tuple that was set, of any length. -/
theorem C85_version (dig : Char → Option ℕ) (hd : IsDigits dig) (v : List ℕ) (n : Node.Tree Nd) :
    version dig (setVersion v n) = v := by
  obtain ⟨w, cs⟩ := n
  obtain ⟨cs', h1, -, h2⟩ := C85_string_set (joinVersion v) w cs
  rw [setVersion, h1, version, Node.Tree.children, h2]
  exact findInts_join hd v

/-- **C85**: `Include.language` is the language that was set, if it is one that is known; else None. -/
theorem C85_include_language (known : Str → Bool) (l : Str) (n : Node.Tree Nd) :
    inclLanguage known (setInclLanguage l n) = .ok (if known l then some l else none) := by
  obtain ⟨w, cs⟩ := n
  obtain ⟨cs', h1, -, h2⟩ := C85_string_set (l ++ ".ly".toList) w cs
  rw [setInclLanguage, h1, inclLanguage, Node.Tree.children, h2]
  have : ".ly".toList.isSuffixOf (l ++ ".ly".toList) = true := by
    rw [List.isSuffixOf_iff_suffix]; exact List.suffix_append _ _
  have ht : (l ++ ".ly".toList).take ((l ++ ".ly".toList).length - 3) = l := by
    rw [List.length_append]
    exact List.take_left' (by simp)
  simp only [this, if_true, ht]

/-- **C85** fails for `Include.language` without a file name: AttributeError, while the file name is None. -/
theorem C85_include_raises (known : Str → Bool) (cs : List (Node.Tree Nd)) (h : ShowsNothing cs) :
    getString cs = none ∧ inclLanguage known (.node .incl cs) = .error .attributeError := by
  have h := (getString_none cs).2 h
  exact ⟨h, by rw [inclLanguage, Node.Tree.children, h]⟩

/-! ## The version of a document -/

theorem above_nil {q : Path} : Above [] q ↔ q ≠ [] := by
  constructor
  · rintro ⟨i, r, rfl⟩; simp
  · intro h
    cases q with
    | nil => exact absurd rfl h
    | cons i r => exact ⟨i, r, rfl⟩

theorem yields_first (t : Node.Tree Nd) : ∃ out, Yields env t [] t .floordiv (.classes [.version]) out ∧
    (∀ out', Yields env t [] t .floordiv (.classes [.version]) out' → out' = out) ∧
    (out = [] ↔ ∀ p, ¬ VersionAt t p) ∧
    ∀ n rest, out = n :: rest → FirstVersion t n.1 ∧ t.get? n.1 = some n.2 := by
  obtain ⟨out, h1, h2, h3, h4⟩ := C61_operators env t t [] rfl .floordiv (.classes [.version]) (by simp)
  have hm : ∀ m : Item Nd, m ∈ out ↔ NodeOf t m ∧ m.1 ≠ [] ∧ m.2.val = .version := by
    intro m
    rw [h4]
    simp only [Place, above_nil, Selected, if_neg (show ¬ Op.floordiv = .xor by decide), Matches, List.mem_singleton,
      exists_eq_left, env, decide_eq_true_eq]
    have : m.2.val.cls = .version ↔ m.2.val = .version := by cases m.2.val <;> simp [Nd.cls]
    rw [this]
  have hv : ∀ q, VersionAt t q ↔ ∃ m ∈ out, m.1 = q := by
    intro q
    constructor
    · rintro ⟨hq, n, hn, hv⟩
      exact ⟨(q, n), (hm _).2 ⟨hn, hq, hv⟩, rfl⟩
    · rintro ⟨m, hmo, rfl⟩
      obtain ⟨a, b, c⟩ := (hm m).1 hmo
      exact ⟨b, m.2, a, c⟩
  refine ⟨out, h1, h2, ?_, ?_⟩
  · constructor
    · rintro rfl p hp
      obtain ⟨m, hm, -⟩ := (hv p).1 hp
      simp at hm
    · intro h
      cases out with
      | nil => rfl
      | cons m out => exact absurd ((hv m.1).2 ⟨m, by simp, rfl⟩) (h m.1)
  · rintro n rest rfl
    refine ⟨⟨(hv n.1).2 ⟨n, by simp, rfl⟩, ?_⟩, ((hm n).1 (by simp)).1⟩
    intro q hq
    obtain ⟨m, hmo, rfl⟩ := (hv q).1 hq
    rcases List.mem_cons.1 hmo with rfl | hmo
    · left; rfl
    · right; exact (List.pairwise_cons.1 h3).1 m hmo

theorem left_asymm {p q : Path} (h : DocBefore p q) (h' : DocBefore q p) : False := by
  have key : ∀ (p q : Path), DocBefore p q → DocBefore q p → False := by
    intro p
    induction p with
    | nil =>
      intro q _ h'
      rcases h' with ⟨i, r, h⟩ | ⟨c, i, j, r, s, h1, h2, -⟩
      · simp at h
      · simp at h2
    | cons a p ih =>
      intro q h h'
      cases q with
      | nil =>
        rcases h with ⟨i, r, h⟩ | ⟨c, i, j, r, s, h1, h2, -⟩
        · simp at h
        · simp at h2
      | cons b q =>
        have step : ∀ (a b : ℕ) (p q : Path), DocBefore (a :: p) (b :: q) → a < b ∨ (a = b ∧ DocBefore p q) := by
          intro a b p q h
          rcases h with ⟨i, r, h⟩ | ⟨c, i, j, r, s, h1, h2, hij⟩
          · simp at h
            exact .inr ⟨h.1.symm, .inl ⟨i, r, h.2⟩⟩
          · cases c with
            | nil => simp at h1 h2; left; omega
            | cons x c =>
              simp at h1 h2
              exact .inr ⟨h1.1.trans h2.1.symm, .inr ⟨c, i, j, r, s, h1.2, h2.2, hij⟩⟩
        rcases step a b p q h with h1 | ⟨h1, h2⟩ <;> rcases step b a q p h' with h3 | ⟨h3, h4⟩
        · omega
        · omega
        · omega
        · exact ih q h2 h4
  exact key p q h h'

theorem firstVersion_unique {t : Node.Tree Nd} {p q : Path} (hp : FirstVersion t p) (hq : FirstVersion t q) : p = q := by
  rcases hp.2 q hq.1 with h | h
  · exact h.symm
  · rcases hq.2 p hp.1 with h' | h'
    · exact h'
    · exact (left_asymm h h').elim

/-- **C85**: `Document.version`, and `lilypond_version` of every node in the document, is the version of the first `\version`
command of the document; and there always is one answer. -/
theorem C85_document_get (dig : Char → Option ℕ) (t : Node.Tree Nd) (p : Path) (n : Node.Tree Nd)
    (hp : FirstVersion t p) (hn : t.get? p = some n) (v : List ℕ) : DocVersion dig t v ↔ v = version dig n := by
  obtain ⟨out, h1, h2, h3, h4⟩ := yields_first t
  have ho : ∃ rest, out = (p, n) :: rest := by
    cases out with
    | nil => exact absurd hp.1 (h3.1 rfl p)
    | cons m rest =>
      obtain ⟨g1, g2⟩ := h4 m rest rfl
      have := firstVersion_unique g1 hp
      rw [this, hn] at g2
      exact ⟨rest, by rw [← this, Option.some.inj g2]⟩
  obtain ⟨rest, rfl⟩ := ho
  constructor
  · rintro ⟨out', g1, g2⟩
    rw [h2 out' g1] at g2
    exact g2
  · intro h; exact ⟨_, h1, h⟩

/-- **C85**: without a `\version` command it is the empty tuple. -/
theorem C85_document_none (dig : Char → Option ℕ) (t : Node.Tree Nd) (h : ∀ p, ¬ VersionAt t p) (v : List ℕ) :
    DocVersion dig t v ↔ v = [] := by
  obtain ⟨out, h1, h2, h3, -⟩ := yields_first t
  have := h3.2 h
  subst this
  constructor
  · rintro ⟨out', g1, g2⟩
    rw [h2 out' g1] at g2
    exact g2
  · intro h; exact ⟨_, h1, h⟩

theorem get?_modify_other (f : Node.Tree Nd → Node.Tree Nd) (p q : Path) (t : Node.Tree Nd) (h : ¬ AboveOrSelf p q) :
    ((modify f p t).get? q).map Tree.val = (t.get? q).map Tree.val := by
  induction p generalizing q t with
  | nil => exact absurd ⟨q, rfl⟩ h
  | cons i p ih =>
    obtain ⟨v, cs⟩ := t
    cases q with
    | nil => rfl
    | cons j q =>
      simp only [modify, Tree.get?, Tree.children, List.getElem?_modify]
      by_cases hij : i = j
      · subst hij
        have h' : ¬ AboveOrSelf p q := by
          rintro ⟨r, rfl⟩; exact h ⟨r, rfl⟩
        cases cs[i]? with
        | none => rfl
        | some c => simpa using ih q c h'
      · cases cs[j]? with
        | none => rfl
        | some c => simp [hij]

theorem get?_modify_self (f : Node.Tree Nd → Node.Tree Nd) (p : Path) (t n : Node.Tree Nd) (h : t.get? p = some n) :
    (modify f p t).get? p = some (f n) := by
  induction p generalizing t with
  | nil => simp only [Tree.get?, Option.some.injEq] at h; subst h; simp [modify, Tree.get?]
  | cons i p ih =>
    obtain ⟨v, cs⟩ := t
    simp only [modify, Tree.get?, Tree.children, List.getElem?_modify] at h ⊢
    cases hc : cs[i]? with
    | none => rw [hc] at h; cases h
    | some c =>
      rw [hc] at h
      simpa using ih c h

theorem firstVersion_modify (v : List ℕ) (t : Node.Tree Nd) (p : Path) (hp : FirstVersion t p) :
    FirstVersion (modify (setVersion v) p t) p := by
  obtain ⟨⟨hne, n, hn, hv⟩, hf⟩ := hp
  have hs := get?_modify_self (setVersion v) p t n hn
  refine ⟨⟨hne, _, hs, ?_⟩, ?_⟩
  · obtain ⟨w, cs⟩ := n
    exact hv
  · rintro q ⟨hq, m, hm, hmv⟩
    by_cases ha : AboveOrSelf p q
    · obtain ⟨r, rfl⟩ := ha
      cases r with
      | nil => left; simp
      | cons i r => right; exact .inl ⟨i, r, rfl⟩
    · have := get?_modify_other (setVersion v) p q t ha
      rw [hm] at this
      cases ht : t.get? q with
      | none => rw [ht] at this; simp at this
      | some m' =>
        rw [ht] at this
        simp only [Option.map_some, Option.some.injEq] at this
        exact hf q ⟨hq, m', ht, by rw [← this]; exact hmv⟩

/-- **C85**: setting `Document.version` changes the text of the first `\version` command and nothing else in the document;
the document then has the version that was set. -/
theorem C85_document_set (dig : Char → Option ℕ) (hd : IsDigits dig) (v : List ℕ) (t t' : Node.Tree Nd) (p : Path)
    (cs : List (Node.Tree Nd)) (hp : FirstVersion t p) (hn : t.get? p = some (.node .version cs))
    (h : SetDocVersion v t t') :
    (∃ cs', t'.get? p = some (.node .version cs') ∧ Changed (joinVersion v) cs cs') ∧
    (∀ q, ¬ AboveOrSelf p q → (t'.get? q).map Tree.val = (t.get? q).map Tree.val) ∧
    ∀ w, DocVersion dig t' w ↔ w = v := by
  obtain ⟨out, h1, h2⟩ := h
  obtain ⟨out', -, g2, g3, g4⟩ := yields_first t
  rw [g2 out h1] at h2
  cases out' with
  | nil => exact absurd hp.1 (g3.1 rfl p)
  | cons m rest =>
    obtain ⟨k1, -⟩ := g4 m rest rfl
    have he := firstVersion_unique k1 hp
    simp only [he] at h2
    subst h2
    have hs := get?_modify_self (setVersion v) p t _ hn
    refine ⟨?_, fun q hq => get?_modify_other _ p q t hq, ?_⟩
    · obtain ⟨cs', e1, e2⟩ := changed_setString (joinVersion v) .version cs
      exact ⟨cs', by rw [hs, setVersion, e1], e2⟩
    · intro w
      rw [C85_document_get dig _ p _ (firstVersion_modify v t p hp) hs, C85_version dig hd]

/-- **C85**: if there is no `\version` command, one is inserted before everything else, with a String; the document then has the
version that was set. -/
theorem C85_document_insert (dig : Char → Option ℕ) (hd : IsDigits dig) (v : List ℕ) (t t' : Node.Tree Nd)
    (hp : ∀ p, ¬ VersionAt t p) (h : SetDocVersion v t t') :
    t'.val = t.val ∧ t'.children = .node .version [.node (.string (joinVersion v)) []] :: t.children ∧
    ∀ w, DocVersion dig t' w ↔ w = v := by
  obtain ⟨out, h1, h2⟩ := h
  obtain ⟨out', -, g2, g3, -⟩ := yields_first t
  rw [g2 out h1, g3.2 hp] at h2
  simp only at h2
  subst h2
  refine ⟨rfl, rfl, ?_⟩
  intro w
  rw [C85_document_get dig _ [0] (setVersion v (.node .version [])) ?_ rfl, C85_version dig hd]
  refine ⟨⟨by simp, _, rfl, rfl⟩, ?_⟩
  rintro q ⟨hq, -⟩
  cases q with
  | nil => exact absurd rfl hq
  | cons i r =>
    by_cases hi : i = 0
    · subst hi
      cases r with
      | nil => left; rfl
      | cons j r => right; exact .inl ⟨j, r, rfl⟩
    · right; exact .inr ⟨[], 0, i, [], r, rfl, rfl, by omega⟩

/-- Setting the version never fails: there is one new document. -/
theorem C85_document_total (v : List ℕ) (t : Node.Tree Nd) : ∃ t', SetDocVersion v t t' ∧ ∀ u, SetDocVersion v t u → u = t' := by
  obtain ⟨out, h1, h2, -, -⟩ := yields_first t
  refine ⟨_, ⟨out, h1, rfl⟩, ?_⟩
  rintro u ⟨out', g1, g2⟩
  rw [g2, h2 out' g1]

/-- **C85**: whether the first pitch in `\relative` is absolute is decided by the version of the document: from 2.18. -/
theorem C85_first_pitch (dig : Char → Option ℕ) (t : Node.Tree Nd) (v : List ℕ) (hv : DocVersion dig t v) :
    FirstPitchAbsolute dig t true ↔ Since218 v := by
  have hu : ∀ w, DocVersion dig t w → w = v := by
    obtain ⟨out, h1, h2, -, -⟩ := yields_first t
    obtain ⟨o, a1, a2⟩ := hv
    rintro w ⟨o', b1, b2⟩
    rw [h2 o a1] at a2
    rw [h2 o' b1] at b2
    rw [a2, b2]
  have : FirstPitchAbsolute dig t true ↔ tupleGe v [2, 18] = true := by
    constructor
    · rintro ⟨w, h1, h2⟩; rw [← hu w h1, ← h2]
    · intro h; exact ⟨v, hv, h.symm⟩
  rw [this]
  match v with
  | [] => simp [tupleGe, Since218]
  | [a] =>
    simp only [tupleGe, Since218]
    by_cases h : a = 2
    · simp [h]
    · simp [h]
  | a :: b :: c =>
    simp only [tupleGe, Since218]
    by_cases h : a = 2
    · by_cases h' : b = 18
      · simp [h, h']
      · simp [h, h']; omega
    · simp [h]

/-! ## Variables as attributes -/

open Quickly.Assign in
/-- **C85**: for attributes like `Header.title` and `Paper.top_margin`: a number, a string or a number with a unit is got as it was
set, and the other attributes have the same value as before. (Not a boolean, C54.) -/
theorem C85_attribute_partial (isSymbol : String → Bool) (cs : List Child) (m : List (Name × Elem)) (h : Assign.Spec.Holds cs m)
    (attr : Str) (value : Val) (hv : Assign.Spec.Plain value) :
    ∃ cs', setAttr isSymbol cs attr (some value) = .ok cs' ∧ getAttr cs' attr = .ok (some value) ∧
      ∀ other : Str, '-' ∉ attr → '-' ∉ other → other ≠ attr → getAttr cs' other = getAttr cs other := by
  obtain ⟨cs', h1, h2, h3⟩ := C54_get_set_partial isSymbol cs m h (variableName attr) trivial value hv
  refine ⟨cs', h1, h2, ?_⟩
  intro other ha ho hne
  apply h3
  intro he
  apply hne
  simp only [variableName, Name.str.injEq, String.ofList_inj] at he
  have inj : ∀ a b : Str, '-' ∉ a → '-' ∉ b → (a.map fun c => if c = '_' then '-' else c) = (b.map fun c => if c = '_' then '-' else c) →
      a = b := by
    intro a
    induction a with
    | nil => intro b _ _ h; cases b <;> simp_all
    | cons c a ih =>
      intro b h1 h2 h
      cases b with
      | nil => simp at h
      | cons d b =>
        simp only [List.map_cons, List.cons.injEq] at h
        simp only [List.mem_cons, not_or] at h1 h2
        rw [ih b h1.2 h2.2 h.2]
        congr 1
        by_cases hc : c = '_'
        · by_cases hd : d = '_'
          · rw [hc, hd]
          · have := h.1; rw [if_pos hc, if_neg hd] at this; exact absurd this h2.1
        · by_cases hd : d = '_'
          · have := h.1; rw [if_neg hc, if_pos hd] at this; exact absurd this.symm h1.1
          · have := h.1; rwa [if_neg hc, if_neg hd] at this
  exact inj _ _ ho ha he

open Quickly.Assign in
/-- **C85**: setting such an attribute to None, or deleting it, removes the variable: it is None afterwards, the other attributes
have the same value as before, and the other nodes remain. -/
theorem C85_attribute_none (isSymbol : String → Bool) (cs : List Child) (m : List (Name × Elem)) (h : Assign.Spec.Holds cs m)
    (attr : Str) :
    setAttr isSymbol cs attr none = .ok (delAttr cs attr) ∧ getAttr (delAttr cs attr) attr = .ok none ∧
      Assign.Spec.others (delAttr cs attr) = Assign.Spec.others cs ∧
      ∀ other : Str, variableName other ≠ variableName attr → getAttr (delAttr cs attr) other = getAttr cs other := by
  obtain ⟨h1, h2⟩ := C54_unset cs m h (variableName attr)
  refine ⟨rfl, ?_, h2, ?_⟩
  · rw [getAttr, delAttr, C54_get _ _ h1, lookup_remove, Assign.Spec.update, if_pos rfl]
  · intro other ho
    rw [getAttr, getAttr, delAttr, C54_get _ _ h1, C54_get cs m h, lookup_remove, Assign.Spec.update, if_neg ho]

/-! ## Examples -/

/-- The digits of ASCII. -/
def asciiDigit (c : Char) : Option ℕ := if c.isDigit then some (c.toNat - 48) else none

theorem asciiDigit_is : IsDigits asciiDigit := ⟨by decide, by decide⟩

example : findInts asciiDigit none "v2.18.05-1".toList = [2, 18, 5, 1] ∧ joinVersion [2, 24, 0] = "2.24.0".toList := by
  constructor
  · decide +kernel
  · simp [joinVersion, Scheme.fmtNat, Scheme.Radix.base, Scheme.digitChar]

/-- A document with a `\version` command in a block and another one after it. -/
def exDoc : Node.Tree Nd :=
  .node (.other 0) [.node (.other 1) [.node (.other 2) [], .node .version [.node (.other 3) [], .node (.string "2.12".toList) []]],
    .node .version [.node (.string "2.24.1".toList) []]]

theorem exDoc_first : FirstVersion exDoc [0, 1] := by
  refine ⟨⟨by simp, _, rfl, rfl⟩, ?_⟩
  rintro q ⟨-, n, hn, hv⟩
  match q with
  | [] => simp [exDoc, Tree.get?] at hn; subst hn; cases hv
  | [0] => simp [exDoc, Tree.get?, Tree.children] at hn; subst hn; cases hv
  | 0 :: 0 :: r =>
    cases r with
    | nil => simp [exDoc, Tree.get?, Tree.children] at hn; subst hn; cases hv
    | cons i r => simp [exDoc, Tree.get?, Tree.children] at hn
  | [0, 1] => left; rfl
  | 0 :: 1 :: i :: r => right; exact .inl ⟨i, r, rfl⟩
  | 0 :: (k + 2) :: r => simp [exDoc, Tree.get?, Tree.children] at hn
  | (k + 1) :: r => right; exact .inr ⟨[], 0, k + 1, [1], r, rfl, rfl, by omega⟩

example : DocVersion asciiDigit exDoc [2, 12] ∧ ¬ FirstPitchAbsolute asciiDigit exDoc true := by
  have h : DocVersion asciiDigit exDoc [2, 12] :=
    (C85_document_get asciiDigit exDoc [0, 1] _ exDoc_first rfl _).2 (by decide +kernel)
  refine ⟨h, ?_⟩
  rw [C85_first_pitch asciiDigit exDoc _ h]
  simp [Spec.Since218]

end Quickly.Access
