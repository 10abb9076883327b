import Verif.Assign.Spec
import Mathlib.Data.List.Nodup

/-! # C54: assigned variables -/

namespace Quickly.Assign

open Spec

theorem getList_setListRest (isSymbol : String → Bool) (ps : List Part) :
    getList (setListRest isSymbol ps) = ps := by
  induction ps with
  | nil => rfl
  | cons p ps ih =>
    rw [getList] at ih
    cases p with
    | str s =>
      simp only [setListRest, makeListNode, getList, List.filterMap_cons]
      cases isSymbol s <;> simp [ih]
    | int i =>
      simp only [setListRest, makeListNode, getList, List.filterMap_cons]
      simp [ih]

theorem getList_setList (isSymbol : String → Bool) (ps : List Part) :
    getList (setList isSymbol ps) = ps := by
  cases ps with
  | nil => rfl
  | cons p ps =>
    have ih := getList_setListRest isSymbol ps
    rw [getList] at ih
    cases p with
    | str s =>
      simp only [setList, makeListNode, getList, List.filterMap_cons]
      cases isSymbol s <;> simp [ih]
    | int i =>
      simp only [setList, makeListNode, getList, List.filterMap_cons]
      simp [ih]

/-- **C54**: a proper name is read back as it was set. -/
theorem C54_name (isSymbol : String → Bool) (name : Name) (h : Proper name) :
    ∃ items, setName isSymbol name = .ok items ∧ getName items = name := by
  cases name with
  | str s =>
    refine ⟨_, rfl, ?_⟩
    simp only [getName, getList_setList]
  | int i => cases h
  | tuple ps =>
    refine ⟨_, rfl, ?_⟩
    simp only [getName, getList_setList]
    split
    · simp [Proper] at h
    · simp [Proper] at h
    · rfl

example : Proper (.tuple [.str "music", .int 1]) ∧
    setName (fun s => s == "music") (.tuple [.str "music", .int 1, .str "a b"]) =
      .ok [.symbol "music", .separator ",", .int 1, .separator ".", .string "a b"] := by
  constructor
  · show 2 ≤ 2; omega
  · rfl

theorem hasName_var (name : Name) (b : Binding) (hv : IsValue b.value) :
    hasName name [.identifier b.items, .equalSign, b.value] = decide (getName b.items = name) := by
  obtain ⟨items, v⟩ := b
  cases v <;> first | exact absurd hv id | simp [hasName]

/-- No entry has the name. -/
def Absent (name : Name) (es : List Entry) : Prop :=
  ∀ e ∈ es, ∀ b, e = .var b → getName b.items ≠ name

theorem find_absent (name : Name) (es : List Entry) (hv : ∀ e ∈ bindings es, IsValue e.2)
    (h : Absent name es) : findAssignment name (es.map Entry.node) = none := by
  induction es with
  | nil => rfl
  | cons e es ih =>
    have ha : Absent name es := fun e he => h e (by simp [he])
    cases e with
    | other i =>
      simp only [bindings, List.filterMap_cons] at hv
      simp [Entry.node, findAssignment, ih hv ha]
    | var b =>
      simp only [bindings, List.filterMap_cons, List.forall_mem_cons] at hv
      have hb := h (.var b) (by simp) b rfl
      simp [Entry.node, findAssignment, hasName_var name b hv.1, hb, ih hv.2 ha]

theorem find_split (name : Name) (xs ys : List Entry) (b : Binding)
    (hv : ∀ e ∈ bindings (xs ++ .var b :: ys), IsValue e.2) (h : Absent name xs)
    (hb : getName b.items = name) :
    findAssignment name ((xs ++ .var b :: ys).map Entry.node) =
      some (xs.length, [.identifier b.items, .equalSign, b.value]) := by
  induction xs with
  | nil =>
    simp only [bindings, List.nil_append, List.filterMap_cons, List.forall_mem_cons] at hv
    simp [Entry.node, findAssignment, hasName_var name b hv.1, hb]
  | cons e xs ih =>
    have ha : Absent name xs := fun e he => h e (by simp [he])
    cases e with
    | other i =>
      simp only [bindings, List.cons_append, List.filterMap_cons] at hv
      rw [List.cons_append, List.map_cons, Entry.node, findAssignment, ih hv ha]
      rfl
    | var c =>
      simp only [bindings, List.cons_append, List.filterMap_cons, List.forall_mem_cons] at hv
      have hc := h (.var c) (by simp) c rfl
      rw [List.cons_append, List.map_cons, Entry.node, findAssignment, ih hv.2 ha,
        hasName_var name c hv.1, decide_eq_false hc]
      rfl

theorem absent_or_split (name : Name) (es : List Entry) : Absent name es ∨
    ∃ xs b ys, es = xs ++ .var b :: ys ∧ Absent name xs ∧ getName b.items = name := by
  induction es with
  | nil => left; intro e he; simp at he
  | cons e es ih =>
    by_cases h : ∃ b, e = .var b ∧ getName b.items = name
    · obtain ⟨b, rfl, hb⟩ := h
      exact .inr ⟨[], b, es, rfl, fun e he => by simp at he, hb⟩
    · have he : ∀ b, e = .var b → getName b.items ≠ name := fun b h1 h2 => h ⟨b, h1, h2⟩
      rcases ih with ih | ⟨xs, b, ys, rfl, h1, h2⟩
      · left
        intro x hx
        rcases List.mem_cons.1 hx with rfl | hx
        · exact he
        · exact ih x hx
      · refine .inr ⟨e :: xs, b, ys, rfl, ?_, h2⟩
        intro x hx
        rcases List.mem_cons.1 hx with rfl | hx
        · exact he
        · exact h1 x hx

theorem absent_iff (name : Name) (es : List Entry) :
    Absent name es ↔ name ∉ (bindings es).map (·.1) := by
  induction es with
  | nil => simp [Absent, bindings]
  | cons e es ih =>
    have : Absent name (e :: es) ↔ (∀ b, e = .var b → getName b.items ≠ name) ∧ Absent name es := by
      simp [Absent]
    rw [this, ih]
    cases e with
    | other i => simp [bindings]
    | var b => simp [bindings, eq_comm]

theorem bindings_append (xs ys : List Entry) :
    bindings (xs ++ ys) = bindings xs ++ bindings ys := by simp [bindings]

theorem bindings_var (b : Binding) (ys : List Entry) :
    bindings (.var b :: ys) = (getName b.items, b.value) :: bindings ys := by simp [bindings]

theorem lookup_split (name : Name) (m1 m2 : List (Name × Elem)) (v : Elem)
    (h : name ∉ m1.map (·.1)) : lookup (m1 ++ (name, v) :: m2) name = some v := by
  induction m1 with
  | nil => simp [lookup]
  | cons e m1 ih =>
    simp only [List.map_cons, List.mem_cons, not_or] at h
    have := ih h.2
    simp only [lookup, List.cons_append, List.find?_cons] at this ⊢
    rw [decide_eq_false (fun he => h.1 he.symm)]
    exact this

theorem lookup_absent (name : Name) (m : List (Name × Elem)) (h : name ∉ m.map (·.1)) :
    lookup m name = none := by
  induction m with
  | nil => rfl
  | cons e m ih =>
    simp only [List.map_cons, List.mem_cons, not_or] at h
    have := ih h.2
    simp only [lookup, List.find?_cons] at this ⊢
    rw [decide_eq_false (fun he => h.1 he.symm)]
    exact this

/-- What is in the node after setting a variable: the value is changed or the variable is added,
at the end; the other variables and nodes are the same and have the same order. -/
theorem C54_set (isSymbol : String → Bool) (cs : List Child) (m : List (Name × Elem))
    (h : Holds cs m) (name : Name) (hp : Proper name) (value : Val) (node : Elem)
    (hn : fromValue value = .ok node) (hv : IsValue node) :
    ∃ cs', setVariable isSymbol cs name value = .ok cs' ∧ others cs' = others cs ∧
      if name ∈ m.map (·.1)
      then Holds cs' (m.map fun e => if e.1 = name then (name, node) else e)
      else Holds cs' (m ++ [(name, node)]) := by
  obtain ⟨es, rfl, rfl, hd, hvs⟩ := h
  rcases absent_or_split name es with ha | ⟨xs, b, ys, rfl, ha, hb⟩
  · obtain ⟨items, h1, h2⟩ := C54_name isSymbol name hp
    have hm := (absent_iff name es).1 ha
    refine ⟨(es ++ [Entry.var ⟨items, node⟩]).map Entry.node, ?_, ?_, ?_⟩
    · simp only [setVariable, hn, find_absent name es hvs ha, withName, h1]
      simp [Entry.node]
      rfl
    · simp [others, Entry.node]
    · rw [if_neg hm]
      have hbi : bindings (es ++ [.var ⟨items, node⟩]) = bindings es ++ [(name, node)] := by
        simp [bindings, h2]
      refine ⟨_, rfl, hbi, ?_, ?_⟩
      · rw [List.map_append, List.nodup_append]
        refine ⟨hd, by simp, ?_⟩
        intro a ha' c hc hac
        simp only [List.map_cons, List.map_nil, List.mem_singleton] at hc
        exact hm (by rw [← hc, ← hac]; exact ha')
      · intro e he
        rcases List.mem_append.1 he with he | he
        · exact hvs e he
        · rw [List.mem_singleton.1 he]; exact hv
  · have hx := (absent_iff name xs).1 ha
    have hy : name ∉ (bindings ys).map (·.1) := by
      rw [bindings_append, bindings_var, List.map_append, List.map_cons, hb] at hd
      have := (List.nodup_append.1 hd).2.1
      exact (List.nodup_cons.1 this).1
    refine ⟨(xs ++ .var ⟨b.items, node⟩ :: ys).map Entry.node, ?_, ?_, ?_⟩
    · simp only [setVariable, hn, find_split name xs ys b hvs ha hb]
      show Except.ok _ = Except.ok _
      congr 1
      simp [Entry.node, setLast]
    · simp [others, Entry.node]
    · rw [if_pos (by rw [bindings_append, bindings_var]; simp [hb])]
      have hbi : bindings (xs ++ .var ⟨b.items, node⟩ :: ys) =
          (bindings (xs ++ .var b :: ys)).map fun e => if e.1 = name then (name, node) else e := by
        rw [bindings_append, bindings_append, bindings_var, bindings_var, List.map_append,
          List.map_cons]
        have hid : ∀ m : List (Name × Elem), name ∉ m.map (·.1) →
            (m.map fun e => if e.1 = name then (name, node) else e) = m := by
          intro m hm
          conv => rhs; rw [← List.map_id m]
          apply List.map_congr_left
          intro e he
          rw [if_neg]
          · rfl
          · intro h; exact hm (List.mem_map.2 ⟨e, he, h⟩)
        rw [hid _ hx, hid _ hy]
        simp [hb]
      refine ⟨_, rfl, hbi, ?_, ?_⟩
      · rw [List.map_map]
        have : ((fun e : Name × Elem => e.1) ∘ fun e => if e.1 = name then (name, node) else e) =
            fun e => e.1 := by
          funext e
          simp only [Function.comp]
          split
          · rename_i h; exact h.symm
          · rfl
        rw [this]
        exact hd
      · intro e he
        obtain ⟨e', he', rfl⟩ := List.mem_map.1 he
        split
        · exact hv
        · exact hvs e' he'

/-- **C54**: unset removes the variable; the other variables and nodes remain. -/
theorem C54_unset (cs : List Child) (m : List (Name × Elem)) (h : Holds cs m) (name : Name) :
    Holds (unsetVariable cs name) (m.filter fun e => e.1 ≠ name) ∧
      others (unsetVariable cs name) = others cs := by
  obtain ⟨es, rfl, rfl, hd, hvs⟩ := h
  have hid : ∀ m : List (Name × Elem), name ∉ m.map (·.1) →
      (m.filter fun e => e.1 ≠ name) = m := by
    intro m hm
    rw [List.filter_eq_self]
    intro e he
    simp only [ne_eq, decide_not, Bool.not_eq_true', decide_eq_false_iff_not]
    intro h; exact hm (List.mem_map.2 ⟨e, he, h⟩)
  rcases absent_or_split name es with ha | ⟨xs, b, ys, rfl, ha, hb⟩
  · rw [unsetVariable, find_absent name es hvs ha]
    refine ⟨⟨es, rfl, ?_, ?_, ?_⟩, rfl⟩
    · rw [hid _ ((absent_iff name es).1 ha)]
    · rw [hid _ ((absent_iff name es).1 ha)]; exact hd
    · rw [hid _ ((absent_iff name es).1 ha)]; exact hvs
  · have hx := (absent_iff name xs).1 ha
    have hy : name ∉ (bindings ys).map (·.1) := by
      rw [bindings_append, bindings_var, List.map_append, List.map_cons, hb] at hd
      have := (List.nodup_append.1 hd).2.1
      exact (List.nodup_cons.1 this).1
    have he : unsetVariable ((xs ++ .var b :: ys).map Entry.node) name =
        (xs ++ ys).map Entry.node := by
      rw [unsetVariable, find_split name xs ys b hvs ha hb]
      simp [List.eraseIdx_append_of_length_le]
    have hbi : bindings (xs ++ ys) = (bindings (xs ++ .var b :: ys)).filter fun e => e.1 ≠ name := by
      rw [bindings_append, bindings_append, bindings_var, List.filter_append, List.filter_cons,
        hid _ hx, hid _ hy]
      simp [hb]
    rw [he]
    refine ⟨⟨xs ++ ys, rfl, hbi, ?_, ?_⟩, ?_⟩
    · exact hd.sublist (List.Sublist.map _ List.filter_sublist)
    · intro e he; exact hvs e (List.mem_filter.1 he).1
    · simp [others, Entry.node]

/-- **C54**: get returns the plain value of the variable if it has one, else the node; and None if
there is no such variable. -/
theorem C54_get (cs : List Child) (m : List (Name × Elem)) (h : Holds cs m) (name : Name) :
    getVariable cs name =
      match lookup m name with
      | none => .ok none
      | some node => (toValue node).map fun v => some (v.getD (.elem node)) := by
  obtain ⟨es, rfl, rfl, hd, hvs⟩ := h
  rcases absent_or_split name es with ha | ⟨xs, b, ys, rfl, ha, hb⟩
  · rw [lookup_absent name _ ((absent_iff name es).1 ha), getVariable, find_absent name es hvs ha]
    rfl
  · rw [bindings_append, bindings_var, hb,
      lookup_split name _ _ _ ((absent_iff name xs).1 ha), getVariable,
      find_split name xs ys b hvs ha hb]
    simp only [getValue, List.head?_cons]
    cases toValue b.value with
    | error e => rfl
    | ok v => cases v <;> rfl

/-- **C54**: the list of names is the list of the assigned variables. -/
theorem C54_variables (cs : List Child) (m : List (Name × Elem)) (h : Holds cs m) :
    variableNames cs = m.map (·.1) := by
  obtain ⟨es, rfl, rfl, hd, hvs⟩ := h
  clear hd
  induction es with
  | nil => rfl
  | cons e es ih =>
    cases e with
    | other i =>
      simp only [bindings, List.filterMap_cons] at hvs
      have := ih hvs
      simpa [variableNames, Entry.node, bindings] using this
    | var b =>
      simp only [bindings, List.filterMap_cons, List.forall_mem_cons] at hvs
      have := ih hvs.2
      obtain ⟨items, v⟩ := b
      simp only [variableNames, bindings] at this
      cases v <;> first | exact absurd hvs.1 id | simp [variableNames, Entry.node, bindings, this]

theorem lookup_replace (m : List (Name × Elem)) (name : Name) (node : Elem)
    (h : name ∈ m.map (·.1)) (n : Name) :
    lookup (m.map fun e => if e.1 = name then (name, node) else e) n =
      update (lookup m) name (some node) n := by
  induction m with
  | nil => simp at h
  | cons e m ih =>
    obtain ⟨a, v⟩ := e
    by_cases hm : name ∈ m.map (·.1)
    · have := ih hm
      simp only [lookup, update, List.map_cons, List.find?_cons] at this ⊢
      by_cases h1 : a = name
      · subst h1
        by_cases h2 : n = a
        · subst h2; simp
        · rw [if_neg h2] at this
          simp only [if_true, if_neg h2]
          rw [decide_eq_false (fun h => h2 h.symm)]
          exact this
      · rw [if_neg h1]
        by_cases h2 : a = n
        · subst h2; simp [h1]
        · simp only [h2, decide_false]
          exact this
    · have ha : a = name := by
        simp only [List.map_cons, List.mem_cons] at h
        exact (h.resolve_right hm).symm
      subst ha
      have hid : (m.map fun e => if e.1 = a then (a, node) else e) = m := by
        conv => rhs; rw [← List.map_id m]
        apply List.map_congr_left
        intro e he
        rw [if_neg]
        · rfl
        · intro h; exact hm (List.mem_map.2 ⟨e, he, h⟩)
      rw [List.map_cons, hid]
      simp only [lookup, update, List.find?_cons, if_true]
      by_cases h2 : n = a
      · subst h2; simp
      · rw [if_neg h2, decide_eq_false (fun h => h2 h.symm)]

theorem lookup_add (m : List (Name × Elem)) (name : Name) (node : Elem)
    (h : name ∉ m.map (·.1)) (n : Name) :
    lookup (m ++ [(name, node)]) n = update (lookup m) name (some node) n := by
  by_cases h2 : n = name
  · subst h2
    rw [lookup_split n m [] node h, update, if_pos rfl]
  · rw [update, if_neg h2, lookup, lookup, List.find?_append]
    have : List.find? (fun e : Name × Elem => decide (e.1 = n)) [(name, node)] = none := by
      simp; exact fun h => h2 h.symm
    rw [this, Option.or_none]

theorem lookup_remove (m : List (Name × Elem)) (name : Name) (n : Name) :
    lookup (m.filter fun e => e.1 ≠ name) n = update (lookup m) name none n := by
  induction m with
  | nil => simp [lookup, update]
  | cons e m ih =>
    obtain ⟨a, v⟩ := e
    simp only [lookup, update] at ih ⊢
    by_cases h1 : a = name
    · subst h1
      rw [List.filter_cons_of_neg (by simp), ih]
      by_cases h2 : n = a
      · simp [h2]
      · rw [if_neg h2, if_neg h2, List.find?_cons, decide_eq_false (fun h => h2 h.symm)]
    · rw [List.filter_cons_of_pos (by simp [h1]), List.find?_cons, List.find?_cons]
      by_cases h2 : a = n
      · subst h2; simp [h1]
      · simp only [h2, decide_false]
        exact ih

/-- A node that holds a list of variables has the values of a map. -/
theorem set_lookup (isSymbol : String → Bool) (cs : List Child) (m : List (Name × Elem))
    (h : Holds cs m) (name : Name) (hp : Proper name) (value : Val) (node : Elem)
    (hn : fromValue value = .ok node) (hv : IsValue node) :
    ∃ cs' m', setVariable isSymbol cs name value = .ok cs' ∧ Holds cs' m' ∧
      others cs' = others cs ∧ lookup m' = update (lookup m) name (some node) := by
  obtain ⟨cs', h1, h2, h3⟩ := C54_set isSymbol cs m h name hp value node hn hv
  split at h3
  · rename_i hm
    exact ⟨cs', _, h1, h3, h2, funext fun n => lookup_replace m name node hm n⟩
  · rename_i hm
    exact ⟨cs', _, h1, h3, h2, funext fun n => lookup_add m name node hm n⟩

/-- **C54**: a number, a string or a number with a unit is returned as it was set, and the other
variables have the same value as before. -/
theorem C54_get_set_partial (isSymbol : String → Bool) (cs : List Child) (m : List (Name × Elem))
    (h : Holds cs m) (name : Name) (hp : Proper name) (value : Val) (hv : Plain value) :
    ∃ cs', setVariable isSymbol cs name value = .ok cs' ∧
      getVariable cs' name = .ok (some value) ∧
      ∀ other, other ≠ name → getVariable cs' other = getVariable cs other := by
  have hnode : ∃ node, fromValue value = .ok node ∧ IsValue node ∧
      toValue node = .ok (some value) := by
    cases hv with
    | int v => exact ⟨_, rfl, trivial, rfl⟩
    | float v => exact ⟨_, rfl, trivial, rfl⟩
    | str v => exact ⟨_, rfl, trivial, rfl⟩
    | intUnit v u hu =>
      refine ⟨.int v (some u), ?_, trivial, rfl⟩
      have : isUnit u = true := by simpa [isUnit] using hu
      simp [fromValue, isNumber, this, fromPlain]; rfl
    | floatUnit v u hu =>
      refine ⟨.float v (some u), ?_, trivial, rfl⟩
      have : isUnit u = true := by simpa [isUnit] using hu
      simp [fromValue, isNumber, this, fromPlain]; rfl
  obtain ⟨node, hn, hiv, ht⟩ := hnode
  obtain ⟨cs', m', h1, h2, -, h4⟩ := set_lookup isSymbol cs m h name hp value node hn hiv
  refine ⟨cs', h1, ?_, ?_⟩
  · rw [C54_get cs' m' h2, h4, update, if_pos rfl]
    simp [ht, Except.map]
  · intro other ho
    rw [C54_get cs' m' h2, C54_get cs m h, h4, update, if_neg ho]

/-- **C54**: for every history of setting and unsetting variables the values are those of a map,
there is one node for every variable, and the other nodes are unchanged. -/
theorem C54_history_partial (isSymbol : String → Bool) (ops : List Op) (hok : ∀ op ∈ ops, op.Ok)
    (cs : List Child) (m : List (Name × Elem)) (h : Holds cs m) :
    ∃ cs' m', runAll isSymbol ops cs = .ok cs' ∧ Holds cs' m' ∧ others cs' = others cs ∧
      lookup m' = applyAll ops (lookup m) := by
  induction ops generalizing cs m with
  | nil => exact ⟨cs, m, rfl, h, rfl, rfl⟩
  | cons op ops ih =>
    have hstep : ∃ cs1 m1, op.run isSymbol cs = .ok cs1 ∧ Holds cs1 m1 ∧
        others cs1 = others cs ∧ lookup m1 = op.apply (lookup m) := by
      cases op with
      | set name node =>
        have := hok (.set name node) (by simp)
        exact set_lookup isSymbol cs m h name this.1 (.elem node) node rfl this.2
      | unset name =>
        have := C54_unset cs m h name
        exact ⟨_, _, rfl, this.1, this.2, funext fun n => lookup_remove m name n⟩
    obtain ⟨cs1, m1, h1, h2, h3, h4⟩ := hstep
    obtain ⟨cs', m', g1, g2, g3, g4⟩ := ih (fun op ho => hok op (by simp [ho])) cs1 m1 h2
    refine ⟨cs', m', ?_, g2, g3.trans h3, ?_⟩
    · simp only [runAll, h1]
      exact g1
    · rw [g4, h4]
      rfl

/-- The empty node, and every node without assignments, holds the empty map. -/
theorem holds_empty (is : List ℕ) : Holds (is.map .other) [] := by
  refine ⟨is.map .other, by simp [Entry.node], ?_, by simp, by simp⟩
  simp [bindings]

example : runAll (fun _ => true) [.set (.str "a") (.int 3 none), .set (.str "b") (.string "x"),
      .set (.str "a") (.other 9), .unset (.str "b"), .set (.tuple [.str "c", .int 2]) (.symbol "y")]
      [.other 1] =
    .ok [.other 1, .assignment [.identifier [.symbol "a"], .equalSign, .other 9],
      .assignment [.identifier [.symbol "c", .separator ",", .int 2], .equalSign, .symbol "y"]] := by
  rfl

example : ∀ op ∈ [Op.set (.str "a") (.int 3 none), .unset (.str "b"),
    .set (.tuple [.str "c", .int 2]) (.symbol "y")], op.Ok := by
  simp [Op.Ok, Proper, IsValue]

/-- **C54**: all other values are refused with ValueError: those that are not an element, a boolean (with or without a unit), a number, a
string or a number with a unit. -/
theorem C54_refused (isSymbol : String → Bool) (cs : List Child) (name : Name) (value : Val) (hp : ¬ Plain value)
    (he : ∀ e, value ≠ .elem e) (hb : ∀ b, value ≠ .bool b) (hu : ∀ b u, value ≠ .pair (.bool b) u) :
    setVariable isSymbol cs name value = .error .valueError := by
  have h : fromValue value = .error .valueError := by
    cases value with
    | int v => exact absurd (.int v) hp
    | float v => exact absurd (.float v) hp
    | str v => exact absurd (.str v) hp
    | bool b => exact absurd rfl (hb b)
    | elem e => exact absurd rfl (he e)
    | fraction v => rfl
    | other => rfl
    | pair v u =>
      rw [fromValue]
      split
      · rename_i h
        rw [Bool.and_eq_true] at h
        have hm : u ∈ ["mm", "cm", "in", "pt"] := by simpa [isUnit] using h.2
        cases v with
        | int v => exact absurd (.intUnit v u hm) hp
        | float v => exact absurd (.floatUnit v u hm) hp
        | bool b => exact absurd rfl (hu b u)
        | _ => exact absurd h.1 (by simp [isNumber])
      · rfl
  rw [setVariable, h]
  rfl

example : ¬ Plain (.pair (.str "a") "mm") ∧ ¬ Plain (.pair (.int 3) "km") := by
  refine ⟨?_, ?_⟩
  · intro h; cases h
  · intro h; cases h with | intUnit _ _ h => simp at h

/-- **C54** fails for a boolean: it can be set, but getting it raises AttributeError. -/
theorem C54_bool (isSymbol : String → Bool) (b : Bool) :
    ∃ cs, setVariable isSymbol [] (.str "x") (.bool b) = .ok cs ∧
      getVariable cs (.str "x") = .error .attributeError := by
  obtain ⟨items, h1, h2⟩ := C54_name isSymbol (.str "x") trivial
  refine ⟨[.assignment [.identifier items, .equalSign, .scheme [.bool b]]], ?_, ?_⟩
  · simp only [setVariable, fromValue, fromPlain, findAssignment, withName, h1]
    rfl
  · simp [getVariable, findAssignment, hasName, h2, getValue, toValue]
    rfl

/-- **C54** fails if there is a comment after the equal sign: that is returned, also after the
variable is set. -/
theorem C54_comment (isSymbol : String → Bool) (comment : ℕ) :
    let cs : List Child := [.assignment [.identifier [.symbol "x"], .equalSign, .other comment,
      .int 5 none]]
    ∃ cs', setVariable isSymbol cs (.str "x") (.int 6) = .ok cs' ∧
      getVariable cs (.str "x") = .ok (some (.elem (.other comment))) ∧
      getVariable cs' (.str "x") = .ok (some (.elem (.other comment))) :=
  ⟨_, rfl, rfl, rfl⟩

/-- **C54** fails for a name that is a tuple with one part: it is not found again, and setting it
twice makes two assignments. -/
theorem C54_single_tuple (isSymbol : String → Bool) :
    ∃ cs cs', setVariable isSymbol [] (.tuple [.str "x"]) (.int 1) = .ok cs ∧
      setVariable isSymbol cs (.tuple [.str "x"]) (.int 2) = .ok cs' ∧
      getVariable cs' (.tuple [.str "x"]) = .ok none ∧ cs'.length = 2 := by
  have h : ∀ v, hasName (.tuple [.str "x"])
      [.identifier (setList isSymbol [.str "x"]), .equalSign, .int v none] = false := by
    intro v
    simp [hasName, getName, getList_setList]
  refine ⟨_, [.assignment [.identifier (setList isSymbol [.str "x"]), .equalSign, .int 1 none],
    .assignment [.identifier (setList isSymbol [.str "x"]), .equalSign, .int 2 none]],
    rfl, ?_, ?_, ?_⟩
  · simp [setVariable, fromValue, fromPlain, findAssignment, withName, setName, h]
    rfl
  · simp [getVariable, findAssignment, h]
    rfl
  · rfl

/-- **C54** fails if a variable is assigned twice: get returns the first value (LilyPond uses the
last) and after unset it still has a value. -/
theorem C54_twice :
    let cs : List Child := [.assignment [.identifier [.symbol "x"], .equalSign, .int 1 none],
      .assignment [.identifier [.symbol "x"], .equalSign, .int 2 none]]
    getVariable cs (.str "x") = .ok (some (.int 1)) ∧
      getVariable (unsetVariable cs (.str "x")) (.str "x") = .ok (some (.int 2)) :=
  ⟨rfl, rfl⟩

/-- **C54**: get returns the number (with its unit), the fraction or the text that is written in the document. -/
theorem C54_get_plain (cs : List Child) (m : List (Name × Elem)) (h : Holds cs m) (name : Name) (node : Elem) (v : Val)
    (hm : lookup m name = some node) (hv : Reads node v) : getVariable cs name = .ok (some v) := by
  rw [C54_get cs m h name, hm]
  have : toValue node = .ok (some v) := by
    cases hv with
    | fraction n d q hd hq =>
      have hd' : (d : ℚ) ≠ 0 := by exact_mod_cast hd
      simp only [toValue, if_neg hd, ← hq, Rat.mul_div_cancel hd']
      rfl
    | _ => rfl
  simp [this, Except.map]

/-- **C54**: for music, blocks and longer Scheme get returns the node itself. -/
theorem C54_get_node (cs : List Child) (m : List (Name × Elem)) (h : Holds cs m) (name : Name) (node : Elem)
    (hm : lookup m name = some node) (hv : Opaque node) : getVariable cs name = .ok (some (.elem node)) := by
  rw [C54_get cs m h name, hm]
  have : toValue node = .ok none := by
    cases hv with
    | more a b l => cases a <;> rfl
    | _ => rfl
  simp [this, Except.map]

example : Reads (.fraction 3 4) (.fraction (3/4)) := .fraction 3 4 (3/4) (by decide) (by decide +kernel)

end Quickly.Assign
