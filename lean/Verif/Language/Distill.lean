import Verif.Pitch.Props

/-!
# C66: `distill_preferences`, `quickly/pitch.py` L480-557
-/

namespace Quickly.Language

open Quickly.Pitch Quickly.Pitch.Spec

/-! ## Model -/

/-- The local variables, L495-500. -/
structure Found where
  accented : Option Bool := none
  classic : Option Bool := none
  doubleS : Option Bool := none
  long : Option Bool := none
  x : Option Bool := none
  deprecated : Option Bool := none
deriving DecidableEq

/-- The pattern `if pos: v = True; elif not v and neg: v = False`. -/
def mark (v : Option Bool) (pos neg : Bool) : Option Bool :=
  if pos then some true else if v ≠ some true ∧ neg then some false else v

/-- `name.endswith(...)`. -/
def endsWith (suffix name : Str) : Bool := suffix.isSuffixOf name

/-- `name in {...}` -/
def oneOf (l : List String) (name : Str) : Bool := (l.map String.toList).contains name

/-- `pnames[name][1] in {-1, -0.5, 0.5, 1}`, L522: the item with index 1 is the note, not the alteration. -/
def noteIs (table : Table) (name : Str) : Bool :=
  match table.get name with
  | some (_, note, _) => decide (note = -1 ∨ note = 1)
  | none => false

/-- L505-539, for a name of the language. -/
def look (lang : Str) (table : Table) (f : Found) (name : Str) : Found :=
  let f :=
    if lang = "nederlands".toList ∨ lang = "norsk".toList then
      let f := { f with classic := mark f.classic (oneOf ["es", "as"] (name.take 2)) (oneOf ["ee", "ae"] (name.take 2)) }
      if lang = "norsk".toList then { f with doubleS := mark f.doubleS (hasSub "ss".toList name) (name.contains 's') }
      else f
    else if lang = "english".toList then
      { f with long := mark f.long (name.contains '-') (noteIs table name) }
    else if lang = "français".toList then
      { f with accented := mark f.accented (name.contains 'é') (name.contains 'e') }
    else if lang = "deutsch".toList then
      { f with
        deprecated := mark f.deprecated (oneOf ["eeh", "ases", "aseh", "aeh"] name)
          (oneOf ["eh", "asas", "asah", "ah"] name) }
    else if lang = "suomi".toList then
      { f with deprecated := mark f.deprecated (oneOf ["ases", "bb", "heses"] name) (oneOf ["asas", "bes"] name) }
    else f
  { f with
    x := mark f.x (endsWithChar 'x' name)
      ((endsWith "ss".toList name && oneOf ["english", "espanol", "español"] lang)
        || (endsWith "dd".toList name && decide (lang = "français".toList))) }

/-- The loop, L502-542. -/
def distillLoop (pn : Names) : Str → Table → Found → List Str → Found
  | _, _, f, [] => f
  | lang, table, f, name :: names =>
    if (table.get name).isSome then distillLoop pn lang table (look lang table f name) names
    else match pn.get name with
      | some (_, table') => distillLoop pn name table' f names
      | none => distillLoop pn lang table f names

/-- `distill_preferences(names)`, L480-557: the new preferences. -/
def distill (pn : Names) (lang : Str) (table : Table) (pr : Prefs) (names : List Str) : Prefs :=
  let f := distillLoop pn lang table {} names
  { accented := f.accented.getD pr.accented
    classic := f.classic.getD pr.classic
    doubleS := f.doubleS.getD pr.doubleS
    long := f.long.getD pr.long
    x := f.x.getD pr.x
    deprecated := f.deprecated.getD pr.deprecated }

/-! ## Specification -/

namespace Spec

/-- The preferences that can be seen from names. -/
inductive Style where
  | accented | classic | doubleS | long | x | deprecated
deriving DecidableEq

/-- The value of a preference. -/
def Style.of (s : Style) (pr : Prefs) : Bool :=
  match s with
  | .accented => pr.accented
  | .classic => pr.classic
  | .doubleS => pr.doubleS
  | .long => pr.long
  | .x => pr.x
  | .deprecated => pr.deprecated

/-- The language names and tables at every pitch name. -/
def pitches (pn : Names) : Str → Table → List Str → List (Str × Table × Str)
  | _, _, [] => []
  | lang, table, name :: names =>
    if (table.get name).isSome then (lang, table, name) :: pitches pn lang table names
    else match pn.get name with
      | some (_, table') => pitches pn name table' names
      | none => pitches pn lang table names

/-- The name shows the style. -/
def Shows (s : Style) (p : Str × Table × Str) : Prop :=
  match s with
  | .accented => p.1 = "français".toList ∧ 'é' ∈ p.2.2
  | .classic => p.1 ∈ ["nederlands".toList, "norsk".toList] ∧ (∃ r, p.2.2 = "es".toList ++ r ∨ p.2.2 = "as".toList ++ r)
  | .doubleS => p.1 = "norsk".toList ∧ ∃ a b, p.2.2 = a ++ "ss".toList ++ b
  | .long => p.1 = "english".toList ∧ '-' ∈ p.2.2
  | .x => ∃ a, p.2.2 = a ++ ['x']
  | .deprecated => (p.1 = "deutsch".toList ∧ p.2.2 ∈ ["eeh".toList, "ases".toList, "aseh".toList, "aeh".toList]) ∨
      (p.1 = "suomi".toList ∧ p.2.2 ∈ ["ases".toList, "bb".toList, "heses".toList])

/-- The name shows that another style is used. -/
def Avoids (s : Style) (p : Str × Table × Str) : Prop :=
  match s with
  | .accented => p.1 = "français".toList ∧ 'e' ∈ p.2.2
  | .classic => p.1 ∈ ["nederlands".toList, "norsk".toList] ∧ (∃ r, p.2.2 = "ee".toList ++ r ∨ p.2.2 = "ae".toList ++ r)
  | .doubleS => p.1 = "norsk".toList ∧ 's' ∈ p.2.2
  | .long => p.1 = "english".toList ∧ ∃ o n a, p.2.1.get p.2.2 = some (o, n, a) ∧ (n = -1 ∨ n = 1)
  | .x => (p.1 ∈ ["english".toList, "espanol".toList, "español".toList] ∧ ∃ a, p.2.2 = a ++ "ss".toList) ∨
      (p.1 = "français".toList ∧ ∃ a, p.2.2 = a ++ "dd".toList)
  | .deprecated => (p.1 = "deutsch".toList ∧ p.2.2 ∈ ["eh".toList, "asas".toList, "asah".toList, "ah".toList]) ∨
      (p.1 = "suomi".toList ∧ p.2.2 ∈ ["asas".toList, "bes".toList])

/-- The languages with one style that has two spellings, and that style. -/
def languages : List (Lang × Style) :=
  [(.nederlands, .classic), (.deutsch, .deprecated), (.suomi, .deprecated), (.espanol, .x)]

/-- The spelling that belongs to the style. -/
def Spelled (lang : Lang) (name : Str) : Prop :=
  match lang with
  | .nederlands => name ∈ ["es".toList, "eses".toList, "as".toList, "ases".toList]
  | .deutsch => name ∈ ["eeh".toList, "ases".toList, "aseh".toList, "aeh".toList]
  | .suomi => name ∈ ["ases".toList, "bb".toList, "heses".toList]
  | .espanol => ∃ stem, name = stem ++ ['x']
  | _ => False

/-- In the names the style is used (`on`), or the other spelling is used and never the style. -/
def Uses (s : Style) (on : Bool) (ps : List (Str × Table × Str)) : Prop :=
  if on then ∃ p ∈ ps, Shows s p else (¬ ∃ p ∈ ps, Shows s p) ∧ ∃ p ∈ ps, Avoids s p

end Spec

open Spec

/-! ## Lemmas -/

/-- The variable of a preference. -/
def Found.of (f : Found) (s : Style) : Option Bool :=
  match s with
  | .accented => f.accented
  | .classic => f.classic
  | .doubleS => f.doubleS
  | .long => f.long
  | .x => f.x
  | .deprecated => f.deprecated

/-- What `mark` does. -/
def Marked (v r : Option Bool) (P N : Prop) : Prop :=
  (P → r = some true) ∧ (¬ P → v = some true → r = some true) ∧
    (¬ P → v ≠ some true → N → r = some false) ∧ (¬ P → ¬ N → r = v)

theorem mark_spec (v : Option Bool) (pos neg : Bool) (P N : Prop) (hp : pos = true ↔ P) (hn : neg = true ↔ N) :
    Marked v (mark v pos neg) P N := by
  unfold Marked
  rw [← hp, ← hn]
  rcases v with _ | (_ | _) <;> cases pos <;> cases neg <;> simp [mark]

theorem marked_id (v : Option Bool) (P N : Prop) (hp : ¬ P) (hn : ¬ N) : Marked v v P N := by
  unfold Marked; simp [hp, hn]

theorem oneOf_iff (l : List String) (name : Str) : oneOf l name = true ↔ name ∈ l.map String.toList := by
  simp [oneOf]

theorem take_two (name : Str) (a b c d : Char) :
    name.take 2 ∈ [[a, b], [c, d]] ↔ ∃ r, name = [a, b] ++ r ∨ name = [c, d] ++ r := by
  constructor
  · intro h
    refine ⟨name.drop 2, ?_⟩
    have e := List.take_append_drop 2 name
    simp only [List.mem_cons, List.not_mem_nil, or_false] at h
    rcases h with h | h <;> rw [h] at e
    · exact .inl e.symm
    · exact .inr e.symm
  · rintro ⟨r, rfl | rfl⟩ <;> simp

theorem endsWith_iff (suffix name : Str) : endsWith suffix name = true ↔ ∃ a, name = a ++ suffix := by
  unfold endsWith
  rw [List.isSuffixOf_iff_suffix]
  constructor
  · rintro ⟨a, ha⟩; exact ⟨a, ha.symm⟩
  · rintro ⟨a, ha⟩; exact ⟨a, ha.symm⟩

theorem noteIs_iff (table : Table) (name : Str) :
    noteIs table name = true ↔ ∃ o n a, table.get name = some (o, n, a) ∧ (n = -1 ∨ n = 1) := by
  unfold noteIs
  rcases table.get name with _ | ⟨o, n, a⟩
  · simp
  · simp only [decide_eq_true_eq, Option.some.injEq, Prod.mk.injEq]
    constructor
    · intro h; exact ⟨o, n, a, ⟨rfl, rfl, rfl⟩, h⟩
    · rintro ⟨o', n', a', ⟨rfl, rfl, rfl⟩, h⟩; exact h

/-- The languages as cases. -/
theorem look_spec (lang : Str) (table : Table) (f : Found) (name : Str) (s : Style) :
    Marked (f.of s) ((look lang table f name).of s) (Shows s (lang, table, name)) (Avoids s (lang, table, name)) := by
  have n1 : ¬ "norsk".toList = "nederlands".toList := by decide
  cases s with
  | x =>
    have : (look lang table f name).x = mark f.x (endsWithChar 'x' name)
      ((endsWith "ss".toList name && oneOf ["english", "espanol", "español"] lang)
        || (endsWith "dd".toList name && decide (lang = "français".toList))) := by
      unfold look; split_ifs <;> rfl
    simp only [Found.of, this, Shows, Avoids]
    refine mark_spec _ _ _ _ _ (endsWithChar_iff _ _) ?_
    rw [Bool.or_eq_true, Bool.and_eq_true, Bool.and_eq_true, endsWith_iff, endsWith_iff, oneOf_iff, decide_eq_true_eq]
    simp only [List.map_cons, List.map_nil]
    rw [and_comm, and_comm (b := lang = _)]
  | accented =>
    simp only [Found.of, Shows, Avoids]
    by_cases h : lang = "français".toList
    · subst h
      have : (look "français".toList table f name).accented = mark f.accented (name.contains 'é') (name.contains 'e') := by
        unfold look; rw [if_neg (by decide), if_neg (by decide), if_pos rfl]
      rw [this]
      exact mark_spec _ _ _ _ _ (by simp) (by simp)
    · have : (look lang table f name).accented = f.accented := by
        unfold look; split_ifs <;> rfl
      rw [this]
      exact marked_id _ _ _ (fun h' => h h'.1) (fun h' => h h'.1)
  | classic =>
    simp only [Found.of, Shows, Avoids]
    by_cases h : lang = "nederlands".toList ∨ lang = "norsk".toList
    · have : (look lang table f name).classic =
          mark f.classic (oneOf ["es", "as"] (name.take 2)) (oneOf ["ee", "ae"] (name.take 2)) := by
        unfold look; rw [if_pos h]; split_ifs <;> rfl
      rw [this]
      have hm : lang ∈ ["nederlands".toList, "norsk".toList] := by simpa using h
      refine mark_spec _ _ _ _ _ ?_ ?_
      · rw [oneOf_iff]; simp only [hm, true_and]; exact take_two name 'e' 's' 'a' 's'
      · rw [oneOf_iff]; simp only [hm, true_and]; exact take_two name 'e' 'e' 'a' 'e'
    · have : (look lang table f name).classic = f.classic := by
        unfold look; rw [if_neg h]; split_ifs <;> rfl
      rw [this]
      exact marked_id _ _ _ (by rintro ⟨h', -⟩; exact h (by simpa using h')) (by rintro ⟨h', -⟩; exact h (by simpa using h'))
  | doubleS =>
    simp only [Found.of, Shows, Avoids]
    by_cases h : lang = "norsk".toList
    · have : (look lang table f name).doubleS = mark f.doubleS (hasSub "ss".toList name) (name.contains 's') := by
        unfold look; rw [if_pos (.inr h), if_pos h]
      rw [this]
      exact mark_spec _ _ _ _ _ (by rw [hasSub_iff_infix]; simp [h]) (by simp [h])
    · have : (look lang table f name).doubleS = f.doubleS := by
        unfold look; split_ifs <;> rfl
      rw [this]
      exact marked_id _ _ _ (fun h' => h h'.1) (fun h' => h h'.1)
  | long =>
    simp only [Found.of, Shows, Avoids]
    by_cases h : lang = "english".toList
    · subst h
      have : (look "english".toList table f name).long = mark f.long (name.contains '-') (noteIs table name) := by
        unfold look; rw [if_neg (by decide), if_pos rfl]
      rw [this]
      exact mark_spec _ _ _ _ _ (by simp) (by rw [noteIs_iff]; simp)
    · have : (look lang table f name).long = f.long := by
        unfold look; split_ifs <;> rfl
      rw [this]
      exact marked_id _ _ _ (fun h' => h h'.1) (fun h' => h h'.1)
  | deprecated =>
    simp only [Found.of, Shows, Avoids]
    by_cases h : lang = "deutsch".toList
    · subst h
      have : (look "deutsch".toList table f name).deprecated =
          mark f.deprecated (oneOf ["eeh", "ases", "aseh", "aeh"] name) (oneOf ["eh", "asas", "asah", "ah"] name) := by
        unfold look; rw [if_neg (by decide), if_neg (by decide), if_neg (by decide), if_pos rfl]
      rw [this]
      have hne : ¬ "deutsch".toList = "suomi".toList := by decide
      exact mark_spec _ _ _ _ _ (by rw [oneOf_iff]; simp) (by rw [oneOf_iff]; simp)
    · by_cases h' : lang = "suomi".toList
      · subst h'
        have : (look "suomi".toList table f name).deprecated =
            mark f.deprecated (oneOf ["ases", "bb", "heses"] name) (oneOf ["asas", "bes"] name) := by
          unfold look; rw [if_neg (by decide), if_neg (by decide), if_neg (by decide), if_neg (by decide), if_pos rfl]
        rw [this]
        exact mark_spec _ _ _ _ _ (by rw [oneOf_iff]; simp) (by rw [oneOf_iff]; simp)
      · have : (look lang table f name).deprecated = f.deprecated := by
          unfold look; split_ifs <;> rfl
        rw [this]
        exact marked_id _ _ _ (by rintro (g | g); exacts [h g.1, h' g.1]) (by rintro (g | g); exacts [h g.1, h' g.1])

theorem loop_spec (pn : Names) (lang : Str) (table : Table) (f : Found) (names : List Str) (s : Style) :
    Marked (f.of s) ((distillLoop pn lang table f names).of s)
      (∃ p ∈ pitches pn lang table names, Shows s p) (∃ p ∈ pitches pn lang table names, Avoids s p) := by
  induction names generalizing lang table f with
  | nil => exact marked_id _ _ _ (by simp [pitches]) (by simp [pitches])
  | cons name names ih =>
    simp only [distillLoop, pitches]
    split_ifs with h
    · obtain ⟨a1, a2, a3, a4⟩ := look_spec lang table f name s
      obtain ⟨b1, b2, b3, b4⟩ := ih lang table (look lang table f name)
      simp only [List.mem_cons, exists_eq_or_imp]
      by_cases hS : Shows s (lang, table, name)
      · have := a1 hS
        by_cases hB : ∃ p ∈ pitches pn lang table names, Shows s p
        · simp [Marked, hS, b1 hB]
        · simp [Marked, hS, b2 hB this]
      · by_cases hB : ∃ p ∈ pitches pn lang table names, Shows s p
        · simp [Marked, hB, b1 hB]
        · by_cases hv : f.of s = some true
          · simp [Marked, hS, hB, hv, b2 hB (a2 hS hv)]
          · by_cases hA : Avoids s (lang, table, name)
            · have h1 := a3 hS hv hA
              by_cases hC : ∃ p ∈ pitches pn lang table names, Avoids s p
              · simp [Marked, hS, hB, hv, b3 hB (by simp [h1]) hC, hA]
              · simp [Marked, hS, hB, hv, b4 hB hC, h1, hA]
            · have h1 := a4 hS hA
              by_cases hC : ∃ p ∈ pitches pn lang table names, Avoids s p
              · simp [Marked, hS, hB, hv, b3 hB (by simp [h1, hv]) hC, hA, hC]
              · simp [Marked, hS, hB, hv, b4 hB hC, h1, hA, hC]
    · rcases pn.get name with _ | ⟨i, t⟩
      · exact ih _ _ _
      · exact ih _ _ _

theorem distill_of (pn : Names) (lang : Str) (table : Table) (pr : Prefs) (names : List Str) (s : Style) :
    s.of (distill pn lang table pr names) = ((distillLoop pn lang table {} names).of s).getD (s.of pr) := by
  cases s <;> rfl

/-! ## C66 -/

/-- C66: a preference is switched on if one of the names shows that style; otherwise it is switched off if one shows
that the style is avoided; otherwise it stays as it was. -/
theorem C66_distill (pn : Names) (lang : Str) (table : Table) (pr : Prefs) (names : List Str) (s : Style) :
    let ps := pitches pn lang table names
    let now := s.of (distill pn lang table pr names)
    ((∃ p ∈ ps, Shows s p) → now = true) ∧
    ((¬ ∃ p ∈ ps, Shows s p) → (∃ p ∈ ps, Avoids s p) → now = false) ∧
    ((¬ ∃ p ∈ ps, Shows s p) → (¬ ∃ p ∈ ps, Avoids s p) → now = s.of pr) := by
  intro ps now
  obtain ⟨h1, -, h3, h4⟩ := loop_spec pn lang table {} names s
  have h0 : ({} : Found).of s = none := by cases s <;> rfl
  refine ⟨fun h => ?_, fun h h' => ?_, fun h h' => ?_⟩
  · simp only [now, distill_of, h1 h, Option.getD_some]
  · simp only [now, distill_of, h3 h (by simp [h0]) h', Option.getD_some]
  · simp only [now, distill_of, h4 h h', h0, Option.getD_none]

/-- C66: in one language the order of the names and repetitions do not matter. -/
theorem C66_order (pn : Names) (lang : Str) (table : Table) (pr : Prefs) (ns ns' : List Str)
    (hs : ∀ n, n ∈ ns ↔ n ∈ ns') (hl : ∀ n ∈ ns, (table.get n).isSome = true ∨ pn.get n = none) :
    distill pn lang table pr ns = distill pn lang table pr ns' := by
  have hp : ∀ l : List Str, (∀ n ∈ l, (table.get n).isSome = true ∨ pn.get n = none) →
      ∀ p, p ∈ pitches pn lang table l ↔ p.1 = lang ∧ p.2.1 = table ∧ p.2.2 ∈ l ∧ (table.get p.2.2).isSome = true := by
    intro l hl
    induction l with
    | nil => simp [pitches]
    | cons n l ih =>
      intro ⟨a, b, c⟩
      have ih' := ih (fun m hm => hl m (by simp [hm])) (a, b, c)
      simp only [pitches]
      by_cases hn : (table.get n).isSome = true
      · simp only [hn, if_true, List.mem_cons, ih', Prod.mk.injEq]
        constructor
        · rintro (⟨rfl, rfl, rfl⟩ | ⟨rfl, rfl, h1, h2⟩)
          · exact ⟨rfl, rfl, .inl rfl, hn⟩
          · exact ⟨rfl, rfl, .inr h1, h2⟩
        · rintro ⟨rfl, rfl, rfl | h1, h2⟩
          · exact .inl ⟨rfl, rfl, rfl⟩
          · exact .inr ⟨rfl, rfl, h1, h2⟩
      · have hk := (hl n (by simp)).resolve_left hn
        simp only [if_neg hn, hk, ih', List.mem_cons]
        constructor
        · rintro ⟨h1, h2, h3, h4⟩; exact ⟨h1, h2, .inr h3, h4⟩
        · rintro ⟨h1, h2, rfl | h3, h4⟩
          · exact absurd h4 hn
          · exact ⟨h1, h2, h3, h4⟩
  have hmem : ∀ p, p ∈ pitches pn lang table ns ↔ p ∈ pitches pn lang table ns' := by
    intro p
    rw [hp ns hl, hp ns' (fun n hn => hl n ((hs n).2 hn)), hs]
  have hof : ∀ s : Style, s.of (distill pn lang table pr ns) = s.of (distill pn lang table pr ns') := by
    intro s
    obtain ⟨a1, a2, a3⟩ := C66_distill pn lang table pr ns s
    obtain ⟨b1, b2, b3⟩ := C66_distill pn lang table pr ns' s
    simp only [hmem] at a1 a2 a3
    by_cases h : ∃ p ∈ pitches pn lang table ns', Shows s p
    · rw [a1 h, b1 h]
    · by_cases h' : ∃ p ∈ pitches pn lang table ns', Avoids s p
      · rw [a2 h h', b2 h h']
      · rw [a3 h h', b3 h h']
  have e1 := hof .accented
  have e2 := hof .classic
  have e3 := hof .doubleS
  have e4 := hof .long
  have e5 := hof .x
  have e6 := hof .deprecated
  simp only [Style.of] at e1 e2 e3 e4 e5 e6
  generalize distill pn lang table pr ns = a at *
  generalize distill pn lang table pr ns' = b at *
  cases a; cases b; simp_all

/-- C66: the style that was found in the music is used for new music: of the names of a pitch one with the same
spelling is written, if there is one. Missing: norsk, english and catalan, where it is false (below),
and français. -/
theorem C66_written_partial (lang : Lang) (s : Style) (hls : (lang, s) ∈ languages) (pn : Names) (l : Str) (table : Table)
    (pr : Prefs) (seen : List Str) (on : Bool) (hu : Uses s on (pitches pn l table seen)) (names : List Str)
    (hn : [] ∉ names) (n : Str) (hm : n ∈ names) (hs : Spelled lang n ↔ on = true) :
    ∃ r ∈ names, chooseName lang (distill pn l table pr seen) names = .ok r ∧ (Spelled lang r ↔ on = true) := by
  have hon : s.of (distill pn l table pr seen) = on := by
    obtain ⟨h1, h2, -⟩ := C66_distill pn l table pr seen s
    cases on with
    | true => exact h1 (by simpa [Uses] using hu)
    | false =>
      simp only [Uses, Bool.false_eq_true, if_false] at hu
      exact h2 hu.1 hu.2
  have hpref : ∀ m, Preferred lang (distill pn l table pr seen) m ↔ (Spelled lang m ↔ on = true) := by
    intro m
    simp only [languages, List.mem_cons, Prod.mk.injEq, List.not_mem_nil, or_false] at hls
    rcases hls with ⟨rfl, rfl⟩ | ⟨rfl, rfl⟩ | ⟨rfl, rfl⟩ | ⟨rfl, rfl⟩ <;>
      · simp only [Style.of] at hon
        simp only [Preferred, Spelled, hon]
        exact ⟨fun h => h.symm, fun h => h.symm⟩
  obtain ⟨r, hr, hc, hp⟩ := C15_preference lang (distill pn l table pr seen) names hn n hm ((hpref n).2 hs)
  exact ⟨r, hr, hc, (hpref r).1 hp⟩

/-- A small dictionary of languages. -/
def exNames2 : Names :=
  [("nederlands".toList, 0, [("c".toList, (-1, 0, 0)), ("ees".toList, (-1, 2, -(1/2))), ("es".toList, (-1, 2, -(1/2)))]),
   ("norsk".toList, 1, [("c".toList, (-1, 0, 0)), ("ees".toList, (-1, 2, -(1/2))), ("es".toList, (-1, 2, -(1/2)))]),
   ("english".toList, 2, [("c".toList, (-1, 0, 0)), ("cs".toList, (-1, 0, 1/2)), ("c-sharp".toList, (-1, 0, 1/2)),
     ("ds".toList, (-1, 1, 1/2)), ("d-sharp".toList, (-1, 1, 1/2)), ("ef".toList, (-1, 2, -(1/2))),
     ("e-flat".toList, (-1, 2, -(1/2))), ("cx".toList, (-1, 0, 1)), ("css".toList, (-1, 0, 1))])]

/-- The table of a language in it. -/
def exTable (l : String) : Table := ((exNames2.get l.toList).map Prod.snd).getD []

example : Uses .classic false (pitches exNames2 "nederlands".toList (exTable "nederlands") ["c".toList, "ees".toList]) := by
  have h : pitches exNames2 "nederlands".toList (exTable "nederlands") ["c".toList, "ees".toList] =
      [("nederlands".toList, exTable "nederlands", "c".toList), ("nederlands".toList, exTable "nederlands", "ees".toList)] := by
    rfl
  rw [h]
  refine ⟨?_, ?_⟩
  · rintro ⟨p, hp, -, r, hr⟩
    simp only [List.mem_cons, List.not_mem_nil, or_false] at hp
    rcases hp with rfl | rfl <;> simp at hr
  · exact ⟨_, by simp; exact .inr rfl, by simp, "s".toList, .inl (by decide)⟩

example : (distill exNames2 "nederlands".toList (exTable "nederlands") {} ["c".toList, "ees".toList]).classic = false ∧
    (distill exNames2 "nederlands".toList (exTable "nederlands") {} ["c".toList, "english".toList, "d-sharp".toList]).long
      = true := by decide +kernel

/-- C66: in norsk the other spelling is written than the one in the music: `es` was used, `ees` is written, and the
other way round. -/
theorem C66_norsk_other_spelling :
    chooseName .norsk (distill exNames2 "norsk".toList (exTable "norsk") {} ["es".toList]) ["ees".toList, "es".toList]
      = .ok "ees".toList ∧
    chooseName .norsk (distill exNames2 "norsk".toList (exTable "norsk") {} ["ees".toList]) ["ees".toList, "es".toList]
      = .ok "es".toList := by decide +kernel

/-- C66: in english the short names do not switch `prefer_long` off, unless the note is a d: the code looks at the note
instead of the alteration. `c` and `ef` without a hyphen change nothing, and with it still set the long names
are written; even the natural `d` switches it off. -/
theorem C66_english_short (pn : Names) (table : Table) (pr : Prefs) (seen : List Str)
    (hk : ∀ n ∈ seen, '-' ∉ n ∧ ∃ o note a, table.get n = some (o, note, a) ∧ note ≠ 1 ∧ note ≠ -1) :
    (distill pn "english".toList table pr seen).long = pr.long := by
  have hp : ∀ p ∈ pitches pn "english".toList table seen, p.2.1 = table ∧ p.2.2 ∈ seen := by
    clear pr
    induction seen with
    | nil => simp [pitches]
    | cons n seen ih =>
      obtain ⟨-, o, note, a, hg, -⟩ := hk n (by simp)
      simp only [pitches, hg, Option.isSome_some, if_true, List.mem_cons]
      rintro p (rfl | hp)
      · simp
      · obtain ⟨h1, h2⟩ := ih (fun m hm => hk m (by simp [hm])) p hp
        exact ⟨h1, .inr h2⟩
  refine (C66_distill pn "english".toList table pr seen .long).2.2 ?_ ?_
  · rintro ⟨p, hp', -, hd⟩
    exact (hk _ (hp p hp').2).1 hd
  · rintro ⟨p, hp', -, o, n, a, hg, hn⟩
    obtain ⟨-, o', n', a', hg', h1, h2⟩ := hk _ (hp p hp').2
    rw [(hp p hp').1, hg'] at hg
    simp only [Option.some.injEq, Prod.mk.injEq] at hg
    obtain ⟨-, rfl, -⟩ := hg
    rcases hn with rfl | rfl
    · exact h2 rfl
    · exact h1 rfl

/-- C66: so after music with only the short names `cs` and `ef`, the long ones are still written. -/
theorem C66_english_long_written :
    chooseName .english (distill exNames2 "english".toList (exTable "english") { long := true } ["cs".toList, "ef".toList])
      ["cs".toList, "c-sharp".toList] = .ok "c-sharp".toList := by decide +kernel

/-- C66: in catalan nothing is found out about the deprecated names that `prefer_deprecated` chooses between. -/
theorem C66_catalan_nothing (pn : Names) (table : Table) (pr : Prefs) (seen : List Str)
    (hk : ∀ n ∈ seen, (table.get n).isSome = true) :
    (distill pn "catalan".toList table pr seen).deprecated = pr.deprecated := by
  have hp : ∀ p ∈ pitches pn "catalan".toList table seen, p.1 = "catalan".toList := by
    clear pr
    induction seen with
    | nil => simp [pitches]
    | cons n seen ih =>
      simp only [pitches, hk n (by simp), if_true, List.mem_cons]
      rintro p (rfl | hp)
      · rfl
      · exact ih (fun m hm => hk m (by simp [hm])) p hp
  refine (C66_distill pn "catalan".toList table pr seen .deprecated).2.2 ?_ ?_
  · rintro ⟨p, hp', h | h⟩ <;>
    · have := h.1; rw [hp p hp'] at this; exact absurd this (by decide)
  · rintro ⟨p, hp', h | h⟩ <;>
    · have := h.1; rw [hp p hp'] at this; exact absurd this (by decide)

end Quickly.Language
