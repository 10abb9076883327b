import Verif.Mapping.Data
import Mathlib.Data.List.Induction

/-! # C45: mapped heads are one-to-one -/

namespace Quickly.Mapping

variable {τ : Type} [DecidableEq τ] {η : Type} [DecidableEq η]

/-- A mapping as the documentation demands it: unique texts (it is a dict) mapped to unique
head values. -/
structure OneToOne (m : PyDict τ η) : Prop where
  texts : (m.map (·.1)).Nodup
  heads : (m.map (·.2)).Nodup

theorem get_iff (d : PyDict τ η) (h : (d.map (·.1)).Nodup) (k : τ) (v : η) :
    d.get k = some v ↔ (k, v) ∈ d := by
  induction d with
  | nil => simp [PyDict.get]
  | cons kv d ih =>
    obtain ⟨a, w⟩ := kv
    simp only [List.map_cons, List.nodup_cons] at h
    by_cases ha : a = k
    · subst ha
      simp only [PyDict.get, if_true, Option.some.injEq, List.mem_cons, Prod.mk.injEq, true_and]
      constructor
      · intro e; exact .inl e.symm
      · rintro (e | e)
        · exact e.symm
        · exact absurd (List.mem_map.2 ⟨_, e, rfl⟩) h.1
    · have : ¬ k = a := fun e => ha e.symm
      simp [PyDict.get, ha, this, ih h.2]

theorem get_foldl_set (items : List (τ × η)) (d : PyDict τ η) (k : τ)
    (h : (items.map (·.1)).Nodup) :
    (items.foldl (fun d kv => PyDict.set kv.1 kv.2 d) d).get k =
      match PyDict.get k items with | some v => some v | none => d.get k := by
  induction items generalizing d with
  | nil => simp [PyDict.get]
  | cons kv items ih =>
    obtain ⟨a, w⟩ := kv
    simp only [List.map_cons, List.nodup_cons] at h
    rw [List.foldl_cons, ih _ h.2]
    by_cases ha : a = k
    · subst ha
      have : PyDict.get a items = none := (PyDict.get_none_iff _ _).2 h.1
      simp [this, PyDict.get, PyDict.get_set]
    · have h' : ¬ k = a := fun e => ha e.symm
      simp [PyDict.get, ha, PyDict.get_set, h']

theorem inverted_iff (m : PyDict τ η) (hm : OneToOne m) (h : η) (t : τ) :
    (inverted m).get h = some t ↔ (t, h) ∈ m := by
  have hn : ((m.map fun kv => (kv.2, kv.1)).map (·.1)).Nodup := by
    simpa [List.map_map, Function.comp_def] using hm.heads
  rw [inverted, PyDict.ofItems, get_foldl_set _ _ _ hn]
  have := get_iff (m.map fun kv => (kv.2, kv.1)) hn h t
  cases hg : PyDict.get h (m.map fun kv => (kv.2, kv.1)) with
  | none =>
    rw [hg] at this
    simp only [reduceCtorEq, List.mem_map, Prod.mk.injEq, Prod.exists, false_iff] at this
    simp only [PyDict.get, reduceCtorEq, false_iff]
    intro hc
    exact this ⟨t, h, hc, rfl, rfl⟩
  | some t' =>
    rw [hg] at this
    simp only [Option.some.injEq] at this ⊢
    rw [this]
    constructor
    · intro hc
      obtain ⟨⟨a, b⟩, h1, h2⟩ := List.mem_map.1 hc
      simp at h2; obtain ⟨rfl, rfl⟩ := h2; exact h1
    · intro hc; exact List.mem_map.2 ⟨_, hc, rfl⟩

/-- **C45**: an element can be constructed exactly with the head values of its mapping; other
values raise TypeError. -/
theorem C45_construct (m : PyDict τ η) (hm : OneToOne m) (h : η) :
    (h ∈ m.map (·.2) → construct m h = .ok h) ∧
    (h ∉ m.map (·.2) → construct m h = .error .typeError) := by
  have key : checkHead m h = true ↔ h ∈ m.map (·.2) := by
    rw [checkHead, Option.isSome_iff_exists]
    constructor
    · rintro ⟨t, ht⟩
      exact List.mem_map.2 ⟨_, (inverted_iff m hm h t).1 ht, rfl⟩
    · intro hc
      obtain ⟨⟨t, b⟩, h1, rfl⟩ := List.mem_map.1 hc
      exact ⟨t, (inverted_iff m hm _ t).2 h1⟩
  constructor
  · intro hc; simp [construct, key.2 hc]
  · intro hc
    have : checkHead m h = false := by
      cases hk : checkHead m h with
      | false => rfl
      | true => exact absurd (key.1 hk) hc
    simp [construct, this]

/-- **C45**: reading the written text of a constructible element gives its head value. -/
theorem C45_read_write (m : PyDict τ η) (hm : OneToOne m) (h : η) (hc : construct m h = .ok h) :
    ∃ t, writeHead m h = .ok t ∧ readHead m t = .ok h := by
  by_cases hv : h ∈ m.map (·.2)
  · obtain ⟨⟨t, b⟩, h1, rfl⟩ := List.mem_map.1 hv
    refine ⟨t, ?_, ?_⟩
    · simp [writeHead, (inverted_iff m hm _ t).2 h1]
    · simp [readHead, (get_iff m hm.texts t b).2 h1]
  · rw [(C45_construct m hm h).2 hv] at hc; cases hc

/-- **C45**: a text of the mapping is read to a head that is written as the same text, and
`from_mapping` of the text constructs the element with that head. -/
theorem C45_write_read (m : PyDict τ η) (hm : OneToOne m) (t : τ) (ht : t ∈ m.map (·.1)) :
    ∃ h, readHead m t = .ok h ∧ writeHead m h = .ok t ∧ fromMapping m t = .ok h := by
  obtain ⟨⟨a, h⟩, h1, rfl⟩ := List.mem_map.1 ht
  have hg := (get_iff m hm.texts a h).2 h1
  refine ⟨h, by simp [readHead, hg], by simp [writeHead, (inverted_iff m hm h a).2 h1], ?_⟩
  simp only [fromMapping, hg]
  exact (C45_construct m hm h).1 (List.mem_map.2 ⟨_, h1, rfl⟩)

/-- **C45**: a text outside the mapping is not read. -/
theorem C45_other_text (m : PyDict τ η) (t : τ) (ht : t ∉ m.map (·.1)) :
    readHead m t = .error .keyError ∧ fromMapping m t = .error .keyError := by
  have : m.get t = none := (PyDict.get_none_iff t m).2 ht
  simp [readHead, fromMapping, this]

instance (m : Table) : Decidable (OneToOne m) :=
  decidable_of_iff ((m.map (·.1)).Nodup ∧ (m.map (·.2)).Nodup)
    ⟨fun h => ⟨h.1, h.2⟩, fun h => ⟨h.1, h.2⟩⟩

/-- **C45**: all mapping classes of the library have one-to-one tables. -/
theorem C45_tables : ∀ c ∈ Data.tables, OneToOne c.2 := by decide +kernel

/-- Two heads of one class are never written with the same text. -/
theorem C45_injective (c : String × Table) (hc : c ∈ Data.tables) (h h' : Head) (t : String)
    (h1 : writeHead c.2 h = .ok t) (h2 : writeHead c.2 h' = .ok t) : h = h' := by
  have hm := C45_tables c hc
  have key : ∀ h, writeHead c.2 h = .ok t → (t, h) ∈ c.2 := by
    intro h e
    rw [← inverted_iff c.2 hm]
    cases hg : (inverted c.2).get h with
    | none => simp [writeHead, hg] at e
    | some t' => simp [writeHead, hg] at e; rw [e]
  have e1 := (get_iff c.2 hm.texts t h).2 (key h h1)
  have e2 := (get_iff c.2 hm.texts t h').2 (key h' h2)
  rw [e1] at e2
  exact Option.some.inj e2

/-! ### head_mapping -/

theorem get_fold_keys (c : String) (ks : List String) (d : PyDict String String) (k : String) :
    (ks.foldl (fun d k => d.set k c) d).get k = if k ∈ ks then some c else d.get k := by
  induction ks generalizing d with
  | nil => simp
  | cons a ks ih =>
    rw [List.foldl_cons, ih, PyDict.get_set]
    by_cases h1 : k ∈ ks <;> by_cases h2 : k = a <;> simp [h1, h2]

/-- **C45**, `head_mapping`: a text is mapped to the last class in the argument list that has
this text; a text that no class has is not mapped. -/
theorem C45_head_mapping (types : List Cls) (text : String) :
    (headMapping types).get text =
      ((types.reverse.find? fun c => decide (text ∈ c.2.keys)).map (·.1)) := by
  induction types using List.reverseRecOn with
  | nil => simp [headMapping, PyDict.get]
  | append_singleton types c ih =>
    have e : headMapping (types ++ [c]) =
        c.2.keys.foldl (fun d k => d.set k c.1) (headMapping types) := by
      simp [headMapping]
    rw [e, get_fold_keys, ih]
    by_cases h : text ∈ c.2.keys <;> simp [h]

/-- In every `head_mapping` the library uses, no text belongs to two of the classes. -/
theorem C45_head_mapping_unique : ∀ types ∈ Data.headMappings,
    (types.flatMap fun c => c.2.keys).Nodup := by decide +kernel

theorem headMapping_of_nodup (types : List Cls)
    (h : (types.flatMap fun c => c.2.keys).Nodup) (c : Cls) (hc : c ∈ types) (text : String)
    (ht : text ∈ c.2.keys) : (headMapping types).get text = some c.1 := by
  rw [C45_head_mapping]
  have hu : ∀ types : List Cls, (types.flatMap fun c => c.2.keys).Nodup → ∀ c ∈ types,
      ∀ c' ∈ types, text ∈ c.2.keys → text ∈ c'.2.keys → c = c' := by
    intro types
    induction types with
    | nil => intro _ c hc; cases hc
    | cons a types ih =>
      intro h c hc c' hc' ht ht'
      rw [List.flatMap_cons, List.nodup_append] at h
      rcases List.mem_cons.1 hc with rfl | h1 <;> rcases List.mem_cons.1 hc' with rfl | h2
      · rfl
      · exact absurd rfl (h.2.2 _ ht _ (List.mem_flatMap.2 ⟨c', h2, ht'⟩))
      · exact absurd rfl (h.2.2 _ ht' _ (List.mem_flatMap.2 ⟨c, h1, ht⟩))
      · exact ih h.2.1 c h1 c' h2 ht ht'
  cases hf : types.reverse.find? fun c => decide (text ∈ c.2.keys) with
  | none =>
    rw [List.find?_eq_none] at hf
    have := hf c (by simpa using hc)
    simp [ht] at this
  | some c' =>
    have h1 := List.mem_of_find?_eq_some hf
    have h2 := List.find?_some hf
    simp only [List.mem_reverse] at h1
    rw [hu types h c hc c' h1 ht (by simpa using h2)]
    rfl

/-- **C45**, `head_mapping` as used: for every class in a lookup table of the library and
every head the class can have, looking up the written head gives that class. -/
theorem C45_head_mapping_used (types : List Cls) (h : types ∈ Data.headMappings) (c : Cls)
    (hc : c ∈ types) (text : String) (ht : text ∈ c.2.keys) :
    (headMapping types).get text = some c.1 :=
  headMapping_of_nodup types (C45_head_mapping_unique types h) c hc text ht

/-! ### What the heads mean -/

/-- A command: the name of a grob or property, which begins with a small letter, and what is done with it. -/
def command (name what : String) : List Char :=
  '\\' :: (match name.toList with
    | [] => []
    | c :: cs => c.toLower :: cs) ++ what.toList

/-- The entry is the command for the name and one of the values. -/
def means (values : List (Head × String)) (e : String × Head) : Bool :=
  match e.2 with
  | .pair name v => match values.lookup v with
    | some what => e.1.toList == command name what
    | none => false
  | _ => false

/-- **C45**: in all commands like `\slurUp`, `\slurDashed` or `\cadenzaOn` the value belongs to the command: 1 means up, -1 down and 0 neutral,
and on and off are true and false.  (Numbers are twice as large in the model, `True` is 1 and `False` is 0.) -/
theorem C45_commands :
    (∀ e ∈ Data.lilyGrobDirection, means [(.num 2, "Up"), (.num (-2), "Down"), (.num 0, "Neutral")] e = true) ∧
      (∀ e ∈ Data.lilyGrobStyle, means [(.str "dashed", "Dashed"), (.str "dotted", "Dotted"), (.str "half_dashed", "HalfDashed"),
        (.str "half_solid", "HalfSolid"), (.str "solid", "Solid")] e = true) ∧
      (∀ e ∈ Data.lilyToggle, means [(.num 2, "On"), (.num 0, "Off")] e = true) ∧
      (∀ e ∈ Data.lilyGrobDashPattern, ∃ name, e.2 = .str name ∧ e.1.toList = command name "DashPattern") := by
  refine ⟨by decide +kernel, by decide +kernel, by decide +kernel, ?_⟩
  intro e he
  simp only [Data.lilyGrobDashPattern, List.mem_cons, List.not_mem_nil, or_false] at he
  rcases he with rfl | rfl | rfl
  · exact ⟨_, rfl, by decide +kernel⟩
  · exact ⟨_, rfl, by decide +kernel⟩
  · exact ⟨_, rfl, by decide +kernel⟩

/-- **C45**: the values of `_`, `-` and `^` are those of down, neutral and up, and what is not to be done is false. -/
theorem C45_numbers :
    Data.lilyDirection = [("_", .num (-2)), ("-", .num 0), ("^", .num 2)] ∧
      Data.lilyBreak = [("\\break", .num 2), ("\\noBreak", .num 0)] ∧
      Data.lilyPageBreak = [("\\pageBreak", .num 2), ("\\noPageBreak", .num 0)] ∧
      Data.lilyVoiceN = [("One", 1), ("Two", 2), ("Three", 3), ("Four", 4), ("Five", 5), ("Six", 6)].map fun (n, i) =>
        ("\\voice" ++ n, .num (2 * i)) := by
  decide +kernel

example : construct Data.lilyGrobDirection (.pair "Slur" (.num 2)) =
      .ok (.pair "Slur" (.num 2)) ∧
    writeHead Data.lilyGrobDirection (.pair "Slur" (.num 2)) = .ok "\\slurUp" ∧
    readHead Data.lilyGrobDirection "\\slurUp" = .ok (.pair "Slur" (.num 2)) ∧
    construct Data.lilyGrobDirection (.pair "ArpeggioArrow" (.num 0)) = .error .typeError := by
  decide +kernel

example : (headMapping Data.builtinTypes).get "\\slurUp" = some "lily.GrobDirection" ∧
    (headMapping Data.builtinTypes).get "\\tempo" = some "lily.Tempo" ∧
    (headMapping Data.builtinTypes).get "\\foo" = none := by decide +kernel

end Quickly.Mapping
