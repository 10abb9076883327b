import Verif.Read.Lemmas2

/-!
# Reading correct music: sounds and phrases
-/

namespace Quickly.Read

open Spec

/-- The tokens and the scaling of a duration. -/
def durToks (d : Dur) : List Tok := d.tok :: (d.rest.map Prod.fst).getD []
def durScaling (d : Dur) : Option Elem := (d.rest.map Prod.snd).getD none

theorem dur_node (d : Dur) : d.node = .mk .duration (durToks d) [] (durScaling d).toList := by
  rcases h : d.rest with _ | r <;> simp [Dur.node, durToks, durScaling, h]

theorem go_durTok (nargs : Counts) (t : St) (d : Dur) (hk : d.tok.kind = .duration) (hd : t.duration = none)
    (ha : t.articulations = none) (hs : t.scaling = none) :
    Go nargs t (.tok d.tok :: match d.rest with | none => [] | some r => [.dur r.1 r.2]) []
      { t with duration := some (durToks d), scaling := durScaling d } := by
  have h1 : ∀ items, step nargs t (.tok d.tok) items = .ok ([], { t with duration := some [d.tok] }, items) := by
    intro items; simp [step, token, hk, hd, ha, silent]
  rcases h : d.rest with _ | r
  · have := Go.one h1
    simpa [durToks, durScaling, h, hs] using this
  · refine Go.cons h1 ?_
    refine Go.one ?_
    intro items
    simp [step, context, silent, durToks, durScaling, h]

theorem go_dur (nargs : Counts) (t : St) (d : Dur) (hk : d.tok.kind = .duration) (hd : t.duration = none)
    (ha : t.articulations = none) (hs : t.scaling = none) (he : t.events = []) (hn : t.modifier = none)
    (hm : t.music.isSome = true) :
    Go nargs t d.items []
      { t with duration := some (durToks d), scaling := durScaling d, comments := t.comments ++ d.before } := by
  have h1 := go_comments nargs t d.before hn he ha (by simp [hm])
  have h2 := go_durTok nargs { t with comments := t.comments ++ d.before } d hk hd ha hs
  exact h1.trans0 h2

/-- The state after the duration. -/
def durState (s : Sound) : St :=
  { music := s.start.map fun st => st.node.extend ((s.pitch.map fun p => p.1 ++ p.2).getD [])
    duration := s.dur.map durToks
    scaling := (s.dur.map durScaling).getD none
    comments := (s.dur.map Dur.before).getD [] }

theorem go_sound (nargs : Counts) (s : Sound) (hs : s.Ok nargs) (st : St) (hf : Full st)
    (hu : s.start = none → st = {} ∨ (st.duration.isSome || st.articulations.isSome) = true) :
    Go nargs st s.items (pendingMusic st) (finalState s (durState s)) := by
  -- up to the duration
  have h1 : Go nargs st ((s.start.map Start.items).getD [] ++
      (s.pitch.toList.map fun p => Item.pitch (p.1 ++ p.2)) ++ (s.dur.map Dur.items).getD [])
      (pendingMusic st) (durState s) := by
    rcases hst : s.start with _ | x
    · obtain ⟨⟨d, hd, hb⟩, hp, _⟩ := hs.unpitched hst
      have hk := (hs.durTok d hd).1
      have hi : d.items = .tok d.tok :: (match d.rest with | none => [] | some r => [.dur r.1 r.2]) := by
        rcases h : d.rest with _ | r <;> simp [Dur.items, hb, comments, h]
      simp only [Option.map_none, Option.getD_none, hp, Option.toList_none, List.map_nil, List.nil_append,
        hd, Option.map_some, Option.getD_some, hi]
      have hds : durState s = { duration := some (durToks d), scaling := durScaling d } := by
        simp [durState, hst, hd, hb]
      rw [hds]
      rcases hu hst with h0 | h0
      · rw [h0]
        have := go_durTok nargs {} d hk rfl rfl rfl
        have hpend : pendingMusic {} = [] := by simp [pendingMusic, withDuration]
        rw [hpend]
        exact this
      · have h1 : ∀ items, step nargs st (.tok d.tok) items
            = .ok (pendingMusic st, { duration := some [d.tok] }, items) := by
          intro items; simp only [step, token, hk, h0, if_true]
        rcases h : d.rest with _ | r
        · have := Go.one h1
          simpa [durToks, durScaling, h] using this
        · have h2 : Go nargs { duration := some [d.tok] } [.dur r.1 r.2] []
              { duration := some (durToks d), scaling := durScaling d } := by
            refine Go.one ?_
            intro items
            simp [step, context, silent, durToks, durScaling, h]
          exact (Go.one h1).trans0 h2
    · have h1 := go_start nargs st x (hs.start x hst) hf
      have h2 : Go nargs { music := some x.node } (s.pitch.toList.map fun p => Item.pitch (p.1 ++ p.2)) []
          { music := some (x.node.extend ((s.pitch.map fun p => p.1 ++ p.2).getD [])) } := by
        rcases hp : s.pitch with _ | p
        · simp only [Option.toList_none, List.map_nil, Option.map_none, Option.getD_none, extend_nil]
          exact Go.nil nargs _
        · refine Go.one ?_
          intro items
          simp [step, context, silent]
      have h3 : Go nargs { music := some (x.node.extend ((s.pitch.map fun p => p.1 ++ p.2).getD [])) }
          ((s.dur.map Dur.items).getD []) [] (durState s) := by
        rcases hd : s.dur with _ | d
        · have : durState s = { music := some (x.node.extend ((s.pitch.map fun p => p.1 ++ p.2).getD [])) } := by
            simp [durState, hst, hd]
          rw [this]
          exact Go.nil nargs _
        · have := go_dur nargs { music := some (x.node.extend ((s.pitch.map fun p => p.1 ++ p.2).getD [])) } d
            (hs.durTok d hd).1 rfl rfl rfl rfl rfl rfl
          simpa [durState, hst, hd] using this
      exact (h1.trans0 h2).trans0 h3
  have h2 := go_tail nargs s hs (durState s) rfl rfl rfl (by
      rcases hst : s.start with _ | x
      · obtain ⟨⟨d, hd, _⟩, _⟩ := hs.unpitched hst
        simp [durState, hd]
      · simp [durState, hst])
    (by
      intro hm
      rcases hst : s.start with _ | x
      · obtain ⟨_, _, h⟩ := hs.unpitched hst
        simp [h] at hm
      · simp [durState, hst])
    (by
      intro u hmu
      obtain ⟨_, t, ht, hk⟩ := hs.restMark u hmu
      exact ⟨[t], [], _, by simp [durState, ht, Start.node, soundClass, hk, Elem.extend]; rfl⟩)
  have := h1.trans0 h2
  simpa [Sound.items, List.append_assoc] using this

theorem modMusic_base (nargs : Counts) (s : Sound) (hs : s.Ok nargs) (st : Start) (hst : s.start = some st)
    (l : List Elem) : modMusic s.mods (some (st.node.extend l)) = some (s.base.extend l) := by
  rcases hm : s.mods with _ | m
  · cases st <;> simp [modMusic, Sound.base, hst, hm]
  · cases m with
    | rest u =>
      obtain ⟨_, t, ht, hk⟩ := hs.restMark u hm
      rw [hst] at ht
      obtain rfl : st = .tok t := by simpa using ht
      simp [modMusic, Sound.base, hst, hm, Start.node, asRest, Elem.extend]
    | chord c cs => cases st <;> simp [modMusic, Sound.base, hst, hm]

theorem withDuration_sound (nargs : Counts) (s : Sound) (hs : s.Ok nargs) :
    withDuration (finalState s (durState s)) =
      (some (s.base.extend ((s.pitch.map Prod.fst).getD [] ++
        (match s.dur with
         | some d => (s.pitch.map Prod.snd).getD [] ++ [d.node]
         | none => []))), s.comments0) := by
  rcases hd : s.dur with _ | d
  · -- without duration
    rcases hst : s.start with _ | st
    · obtain ⟨⟨d, hd', _⟩, _⟩ := hs.unpitched hst
      rw [hd] at hd'; cases hd'
    · have hmm := modMusic_base nargs s hs st hst
      have hset := hs.settled hd
      have hcm : AllComments ((s.pitch.map Prod.snd).getD []) := by
        rcases hp : s.pitch with _ | p
        · intro e he; simp at he
        · exact hs.pitchComments p hp
      have hpop := settled_pop_extend hset _ hcm
      rw [extend_extend] at hpop
      have hpp : ((s.pitch.map fun p => p.1 ++ p.2).getD []) =
          (s.pitch.map Prod.fst).getD [] ++ (s.pitch.map Prod.snd).getD [] := by
        rcases s.pitch with _ | p <;> simp
      simp only [withDuration, finalState, durState, hd, hst, Option.map_none, Option.map_some, hmm, hpp, hpop,
        Sound.comments0, List.append_nil]
  · rcases hst : s.start with _ | st
    · obtain ⟨⟨d', hd', hb⟩, hp, hm⟩ := hs.unpitched hst
      simp [withDuration, finalState, durState, hd, hst, hm, hp, modMusic, Sound.base, Sound.comments0,
        Elem.extend, dur_node]
    · have hmm := modMusic_base nargs s hs st hst
      simp only [withDuration, finalState, durState, hd, hst, Option.map_some, hmm, Sound.comments0,
        append_eq_extend, extend_extend, dur_node, Option.getD_some]
      rcases s.pitch with _ | p <;> simp

theorem pending_sound (nargs : Counts) (s : Sound) (hs : s.Ok nargs) :
    pendingMusic (finalState s (durState s)) = s.nodes := by
  have hw := withDuration_sound nargs s hs
  have hmod : ∀ (m : Elem) (cs : List Elem), withPart m cs (finalState s (durState s)).modifier =
      (match s.mods with
       | none => (m, cs)
       | some x => (m.extend (cs ++ [x.node]), s.modComments)) := by
    intro m cs
    rcases hm : s.mods with _ | x
    · simp [finalState, hm, withPart]
    · simp [finalState, hm, withPart, settled_pop_extend (hs.modSettled x hm) _ hs.modAll,
        append_eq_extend, extend_extend]
  have hart : ∀ (m : Elem) (cs : List Elem), withPart m cs (finalState s (durState s)).articulations =
      (if s.arts.isEmpty then (m, cs)
       else (m.extend (cs ++ [.mk .articulations [] [] (s.arts.map ArtItem.node)]), s.artComments)) := by
    intro m cs
    by_cases hz : s.arts = []
    · simp [finalState, hz, withPart]
    · have hz' : s.arts.isEmpty = false := by
        cases h : s.arts with
        | nil => exact absurd h hz
        | cons _ _ => rfl
      simp [finalState, hz', withPart, settled_pop_extend (hs.artSettled hz) _ hs.artAll,
        append_eq_extend, extend_extend]
  have hev : (finalState s (durState s)).events = [] := rfl
  unfold pendingMusic
  simp only [hw, hmod, hart, hev, List.filter_nil, List.append_nil]
  rcases hd : s.dur with _ | d <;> rcases hm : s.mods with _ | x <;> by_cases hz : s.arts.isEmpty = true <;>
    simp [hz, Sound.nodes, Sound.children, Sound.comments2, Sound.comments1, hm, hd, extend_extend]

/-! ## Phrases -/

/-- How the state depends on what came before. -/
structure Pend (st : St) (b : Before) : Prop where
  full : Full st
  noEvent : b.event = false → st.events = []
  idle : b.sound = false → st = { events := st.events }
  closed : b.sound = true → b.bare = false → (st.duration.isSome || st.articulations.isSome) = true

theorem pend_idle : Pend {} {} :=
  ⟨full_nil _ rfl, fun _ => rfl, fun _ => rfl, fun h => by simp at h⟩

theorem go_phrase (nargs : Counts) (st : St) (b : Before) (p : Phrase) (hb : Pend st b) (hp : p.Ok nargs b) :
    ∃ out st', Go nargs st p.items out st' ∧ Pend st' (p.next b) ∧
      out ++ pendingMusic st' = pendingMusic st ++ p.nodes := by
  have h0 : pendingMusic {} = [] := by simp [pendingMusic, withDuration]
  cases p with
  | sound s =>
    obtain ⟨hs, hu⟩ := hp
    refine ⟨pendingMusic st, _, go_sound nargs s hs st hb.full ?_, ?_, ?_⟩
    · intro hst
      obtain ⟨h1, h2⟩ := hu hst
      rcases hbs : b.sound with _ | _
      · left
        rw [hb.idle hbs, hb.noEvent (h2 hbs)]
      · exact .inr (hb.closed hbs h1)
    · refine ⟨full_nil _ rfl, fun _ => rfl, fun h => by simp [Phrase.next] at h, ?_⟩
      intro _ hbare
      simp only [Phrase.next] at hbare
      rcases hd : s.dur with _ | d
      · have : s.arts.isEmpty = false := by simpa [hd] using hbare
        simp [finalState, this]
      · simp [finalState, durState, hd]
    · rw [pending_sound nargs s hs]
      rfl
  | before ev =>
    obtain ⟨hev, hk⟩ := hp
    refine ⟨[], _, go_ev nargs st ev hev, ?_, ?_⟩
    · refine ⟨full_ev _ st.events ev rfl, fun h => by simp [Phrase.next] at h, ?_, ?_⟩
      · intro h
        have := hb.idle h
        rw [this]
      · intro h1 h2
        exact hb.closed h1 h2
    · have hpre : isPrefix ev.node = true := by
        cases ev with
        | direction _ => exact absurd hk (by simp)
        | spannerId _ _ => exact absurd hk (by simp)
        | _ => rfl
      have : ∀ e : Elem, isPrefix e = true →
          pendingMusic { st with events := st.events ++ [e] } = pendingMusic st ++ [e] := by
        intro e he
        have hw : withDuration { st with events := st.events ++ [e] } = withDuration st := rfl
        unfold pendingMusic
        simp only [hw]
        simp [he]
      simp [Phrase.nodes, this _ hpre]
  | plain t =>
    refine ⟨pendingMusic st ++ [.mk (.made t.kind) [t] [] []], {}, Go.one ?_, pend_idle, by simp [h0, Phrase.nodes]⟩
    intro items
    simp only [Phrase.Ok, List.mem_cons, List.not_mem_nil, or_false] at hp
    rcases hp with (h | h | h | h | h | h | h) | ⟨h, he⟩
    on_goal 8 => simp [step, token, h, hb.noEvent he, yields, make]
    all_goals simp [step, token, h, yields, make, hb.full.2.1]
  | elem c e =>
    refine ⟨pendingMusic st ++ [e], {}, Go.one ?_, pend_idle, by simp [h0, Phrase.nodes]⟩
    intro items
    simp only [Phrase.Ok, List.mem_cons, List.not_mem_nil, or_false] at hp
    rcases hp with h | ⟨h | h, he⟩
    · simp [step, context, h, yields]
    · simp [step, context, h, yields, hb.noEvent he]
    · simp [step, context, h, yields, hb.noEvent he]
  | markup m =>
    obtain ⟨hm, he⟩ := hp
    refine ⟨pendingMusic st ++ [m.node], {}, ?_, pend_idle, by simp [h0, Phrase.nodes]⟩
    intro rest out' hr
    have := createMarkup_ok nargs m rest hm.1
    refine read_cons nargs st _ (m.arg.items.drop m.split ++ rest)
      (pendingMusic st ++ [m.node], {}, rest) ?_ out' hr
    simp [step, context, this, hb.noEvent he, yields]
  | comment e =>
    obtain ⟨h1, h2⟩ := hp
    have hst : st = {} := by rw [hb.idle h1, hb.noEvent h2]
    refine ⟨[e], st, Go.one ?_, hb, by simp [hst, h0, Phrase.nodes]⟩
    intro items
    simp [step, context, hst]
  | flat l =>
    obtain ⟨h1, h2⟩ := hp
    have hst : st = {} := by rw [hb.idle h1, hb.noEvent h2]
    refine ⟨l, st, Go.one ?_, hb, by simp [hst, h0, Phrase.nodes]⟩
    intro items
    simp [step, context]

theorem read_correct (nargs : Counts) (ps : List Phrase) (st : St) (b : Before) (hb : Pend st b)
    (hp : Correct nargs b ps) :
    read nargs st (ps.flatMap Phrase.items) = .ok (pendingMusic st ++ ps.flatMap Phrase.nodes) := by
  induction ps generalizing st b with
  | nil => simp [read_nil]
  | cons p ps ih =>
    obtain ⟨h1, h2⟩ := hp
    obtain ⟨out, st', hgo, hb', ho⟩ := go_phrase nargs st b p hb h1
    have := hgo _ _ (ih st' (p.next b) hb' h2)
    rw [← List.append_assoc, ho] at this
    simpa using this

end Quickly.Read
