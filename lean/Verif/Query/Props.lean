import Verif.Query.Spec
import Verif.Node.Props

/-!
# C61: the query operators
-/

namespace Quickly.Query

open Quickly.Node Quickly.Node.Spec Spec

variable {α κ : Type}

theorem selects_of_runs {σ : Type} {resume : Resume σ α} (pred : α → Bool) {ok : Bool} {s : σ} {hist out : List (Item α)}
    (h : Runs resume always ok s hist out) (hok : ok = true) :
    Selects resume pred s (out.filter fun n => pred n.2.val) := by
  induction h with
  | done h => subst hok; exact .done h
  | @step ok s hist n s' out h1 h2 ih =>
    subst hok
    cases hp : pred n.2.val with
    | true => rw [List.filter_cons_of_pos (by simpa using hp)]; exact .yield h1 hp (ih rfl)
    | false => rw [List.filter_cons_of_neg (by simp [hp])]; exact .skip h1 hp (ih rfl)

theorem selects_unique {σ : Type} {resume : Resume σ α} {pred : α → Bool} {s : σ} {xs ys : List (Item α)}
    (h1 : Selects resume pred s xs) (h2 : Selects resume pred s ys) : xs = ys := by
  induction h1 generalizing ys with
  | done h =>
    cases h2 with
    | done _ => rfl
    | yield h' _ _ => rw [h] at h'; cases h'
    | skip h' _ _ => rw [h] at h'; cases h'
  | yield h hp _ ih =>
    cases h2 with
    | done h' => rw [h] at h'; cases h'
    | yield h' _ h'' => rw [h] at h'; cases h'; rw [ih h'']
    | skip h' hq _ => rw [h] at h'; cases h'; rw [hp] at hq; cases hq
  | skip h hp _ ih =>
    cases h2 with
    | done h' => rw [h] at h'; cases h'
    | yield h' hq _ => rw [h] at h'; cases h'; rw [hp] at hq; cases hq
    | skip h' _ h'' => rw [h] at h'; cases h'; exact ih h''

theorem runs_list (xs : List (Item α)) (hist : List (Item α)) (ok : Bool) :
    Runs listResume always ok xs hist xs := by
  induction xs generalizing hist ok with
  | nil => exact .done rfl
  | cons x xs ih => exact .step rfl (ih _ _)

theorem runs_anc (t : Tree α) (ps : List Path) (h : ∀ p ∈ ps, (t.get? p).isSome) :
    ∃ out, (∀ hist ok, Runs (ancResume t) always ok ps hist out) ∧ out.map Prod.fst = ps ∧
      ∀ m ∈ out, t.get? m.1 = some m.2 := by
  induction ps with
  | nil => exact ⟨[], fun _ _ => .done rfl, rfl, by simp⟩
  | cons p ps ih =>
    obtain ⟨out, h1, h2, h3⟩ := ih fun q hq => h q (by simp [hq])
    obtain ⟨u, hu⟩ := Option.isSome_iff_exists.mp (h p (by simp))
    refine ⟨(p, u) :: out, fun hist ok => .step (s' := ps) (by simp [ancResume, hu]) (h1 _ _), by simp [h2], ?_⟩
    intro m hm
    rcases List.mem_cons.mp hm with rfl | hm
    · exact hu
    · exact h3 m hm

/-- The source of an operator. -/
theorem source (t n : Tree α) (p : Path) (hn : t.get? p = some n) (op : Op) :
    ∃ out : List (Item α), out.Pairwise (fun a b => InOrder op a.1 b.1) ∧
      (∀ m, m ∈ out ↔ NodeOf t m ∧ Place op p m.1) ∧
      ∀ pred : α → Bool, match op with
        | .lshift => Selects (ancResume t) pred ((Ref.ancestors ⟨0, p⟩).map Ref.path) (out.filter fun n => pred n.2.val)
        | .gt => Selects (fwdResume false t none) pred (fwdStart false t none p) (out.filter fun n => pred n.2.val)
        | .lt => Selects (fwdResume true t none) pred (fwdStart true t none p) (out.filter fun n => pred n.2.val)
        | .div | .xor => Selects listResume pred (iterate false (p, n)) (out.filter fun n => pred n.2.val)
        | .floordiv => Selects (descResume false) pred (descStart false (p, n)) (out.filter fun n => pred n.2.val) := by
  have kids : (iterate false (p, n)).Pairwise (fun a b => DocBefore a.1 b.1) ∧
      ∀ m, m ∈ iterate false (p, n) ↔ NodeOf t m ∧ ∃ k, m.1 = p ++ [k] := by
    constructor
    · have := number_pairwise p 0 n.children
      simp only [iterate, Bool.false_eq_true, if_false]
      exact this.imp fun h => .inr h
    · intro m
      rw [mem_iterate]
      constructor
      · rintro ⟨k, h1, h2⟩
        refine ⟨?_, k, h1⟩
        simp only [NodeOf, h1]
        rw [get?_snoc, hn]
        exact h2
      · rintro ⟨h1, k, h2⟩
        refine ⟨k, h2, ?_⟩
        simp only [NodeOf, h2] at h1
        rw [get?_snoc, hn] at h1
        exact h1
  cases op with
  | div => exact ⟨_, kids.1, kids.2, fun pred => selects_of_runs pred (runs_list _ [] true) rfl⟩
  | xor => exact ⟨_, kids.1, kids.2, fun pred => selects_of_runs pred (runs_list _ [] true) rfl⟩
  | floordiv =>
    obtain ⟨⟨out, ho⟩, h⟩ := C26_descendants false t n p hn
    exact ⟨out, (h out ho).1, (h out ho).2, fun pred => selects_of_runs pred ho rfl⟩
  | gt =>
    obtain ⟨⟨out, ho⟩, h⟩ := C28_forward t none p (by simp)
    refine ⟨out, (h out ho).1, fun m => ((h out ho).2 m).trans ?_, fun pred => selects_of_runs pred ho rfl⟩
    simp [Place]
  | lt =>
    obtain ⟨⟨out, ho⟩, h⟩ := C28_backward t none p (by simp)
    refine ⟨out, (h out ho).1, fun m => ((h out ho).2 m).trans ?_, fun pred => selects_of_runs pred ho rfl⟩
    simp [Place]
  | lshift =>
    have hsome : ∀ q, Above q p → (t.get? q).isSome := by
      rintro q ⟨i, r, rfl⟩
      rw [get?_append] at hn
      cases hq : t.get? q with
      | none => rw [hq] at hn; cases hn
      | some _ => rfl
    obtain ⟨out, h1, h2, h3⟩ := runs_anc t ((Ref.ancestors ⟨0, p⟩).map Ref.path) (by
      intro q hq
      obtain ⟨r, hr, rfl⟩ := List.mem_map.mp hq
      exact hsome _ (mem_ancestors.mp hr).2)
    have hpw : (out.map Prod.fst).Pairwise (fun a b => Above b a) := by
      rw [h2, List.pairwise_map]
      exact ancestors_pairwise _
    refine ⟨out, by rw [List.pairwise_map] at hpw; exact hpw, fun m => ?_, fun pred => selects_of_runs pred (h1 [] true) rfl⟩
    have hmem : ∀ q, q ∈ out.map Prod.fst ↔ Above q p := by
      intro q
      rw [h2, List.mem_map]
      constructor
      · rintro ⟨r, hr, rfl⟩; exact (mem_ancestors.mp hr).2
      · intro h; exact ⟨⟨0, q⟩, mem_ancestors.mpr ⟨rfl, h⟩, rfl⟩
    constructor
    · intro hm
      exact ⟨h3 m hm, (hmem m.1).mp (List.mem_map_of_mem hm)⟩
    · rintro ⟨hm, ha⟩
      obtain ⟨m', hm', he⟩ := List.mem_map.mp ((hmem m.1).mpr ha)
      have := h3 m' hm'
      rw [he] at this
      simp only [NodeOf] at hm
      rw [hm] at this
      cases m; cases m'
      simp_all

theorem predicate_iff [DecidableEq κ] (env : Env α κ) (arg : Arg α κ) (pred : α → Bool) (h : predicate env arg = some pred)
    (v : α) : pred v = true ↔ Matches env v arg := by
  cases arg with
  | node o => simp only [predicate, Option.some.injEq] at h; subst h; simp [Matches]
  | classes cs => simp only [predicate, Option.some.injEq] at h; subst h; simp [Matches]
  | other => cases h

/-- C61: for every node, operator and argument that is a node or classes, the operator yields
exactly the nodes at the places it looks at that match the argument (for `^`: that do not
match), each once and in its order; and it ends. -/
theorem C61_operators [DecidableEq κ] (env : Env α κ) (t n : Tree α) (p : Path) (hn : t.get? p = some n) (op : Op)
    (arg : Arg α κ) (harg : arg ≠ .other) :
    ∃ out, Yields env t p n op arg out ∧ (∀ out', Yields env t p n op arg out' → out' = out) ∧
      out.Pairwise (fun a b => InOrder op a.1 b.1) ∧
      ∀ m, m ∈ out ↔ NodeOf t m ∧ Place op p m.1 ∧ Selected env op arg m.2.val := by
  obtain ⟨src, h1, h2, h3⟩ := source t n p hn op
  obtain ⟨pred, hp⟩ : ∃ pred, predicate env arg = some pred := by
    cases arg with
    | node o => exact ⟨_, rfl⟩
    | classes cs => exact ⟨_, rfl⟩
    | other => exact absurd rfl harg
  have hm := predicate_iff env arg pred hp
  let sel : α → Bool := if op = .xor then (fun v => !pred v) else pred
  have hsel : ∀ v, sel v = true ↔ Selected env op arg v := by
    intro v
    by_cases hx : op = .xor
    · have hs : sel = fun v => !pred v := if_pos hx
      simp only [Selected, if_pos hx, ← hm v, hs]
      cases pred v <;> simp
    · have hs : sel = pred := if_neg hx
      simp only [Selected, if_neg hx, ← hm v, hs]
  have hy : Yields env t p n op arg (src.filter fun n => sel n.2.val) := by
    have := h3 sel
    unfold Yields
    rw [hp]
    cases op <;> exact this
  refine ⟨_, hy, ?_, h1.filter _, ?_⟩
  · intro out' h'
    unfold Yields at h' hy
    rw [hp] at h' hy
    cases op <;> exact selects_unique h' hy
  · intro m
    rw [List.mem_filter, h2 m, hsel, and_assoc]

/-- C61: other arguments are not accepted: nothing is yielded (NotImplemented, which
Python makes a TypeError). -/
theorem C61_not_implemented [DecidableEq κ] (env : Env α κ) (t n : Tree α) (p : Path) (op : Op) (out : List (Item α)) :
    ¬ Yields env t p n op .other out := fun h => h

/-- C61: `/` and `^` divide the children: `node[:] = node ^ cls` deletes exactly the children that
`node / cls` yields. -/
theorem C61_partition [DecidableEq κ] (env : Env α κ) (t n : Tree α) (p : Path) (hn : t.get? p = some n)
    (arg : Arg α κ) (xs ys : List (Item α))
    (hx : Yields env t p n .div arg xs) (hy : Yields env t p n .xor arg ys) (m : Item α) :
    (m ∈ xs ∨ m ∈ ys ↔ NodeOf t m ∧ ∃ k, m.1 = p ++ [k]) ∧ ¬ (m ∈ xs ∧ m ∈ ys) := by
  have harg : arg ≠ .other := by rintro rfl; exact hx
  obtain ⟨xs', -, h1, -, h2⟩ := C61_operators env t n p hn .div arg harg
  obtain ⟨ys', -, h3, -, h4⟩ := C61_operators env t n p hn .xor arg harg
  rw [h1 xs hx, h3 ys hy, h2, h4]
  simp only [Place, Selected, if_true, if_neg (show ¬ Op.div = .xor by decide)]
  constructor
  · constructor
    · rintro (⟨a, b, -⟩ | ⟨a, b, -⟩) <;> exact ⟨a, b⟩
    · rintro ⟨a, b⟩
      by_cases hm : Matches env m.2.val arg
      · exact .inl ⟨a, b, hm⟩
      · exact .inr ⟨a, b, hm⟩
  · rintro ⟨⟨-, -, a⟩, -, -, b⟩
    exact b a

/-- C61: `instances_of(cls)` yields, in document order, exactly the descendants that are instances
and have no ancestor below the node that is one. -/
theorem C61_instances_of [DecidableEq κ] (env : Env α κ) (t n : Tree α) (p : Path) (hn : t.get? p = some n) (cs : List κ) :
    (∃ out, InstancesOf env p n cs out) ∧ ∀ out, InstancesOf env p n cs out →
      out.Pairwise (fun a b => DocBefore a.1 b.1) ∧
      ∀ m, m ∈ out ↔ NodeOf t m ∧ Above p m.1 ∧ Matches env m.2.val (.classes cs) ∧
        ∀ a, NodeOf t a → Above p a.1 → Above a.1 m.1 → ¬ Matches env a.2.val (.classes cs) := by
  have h := C27_filter false t n p hn (fun m => cs.any fun c => env.isSub (env.cls m.2.val) c)
  refine ⟨h.1, fun out ho => ⟨(h.2 out ho).1, fun m => ((h.2 out ho).2 m).trans ?_⟩⟩
  have hm : ∀ v, (cs.any fun c => env.isSub (env.cls v) c) = true ↔ Matches env v (.classes cs) := by
    intro v; simp [Matches]
  have hm' : ∀ v, (cs.any fun c => env.isSub (env.cls v) c) = false ↔ ¬ Matches env v (.classes cs) := by
    intro v; rw [← hm]; simp
  simp only [hm, hm']
  constructor
  · rintro ⟨⟨a, b⟩, c, d⟩; exact ⟨a, b, c, fun x h1 h2 => d x ⟨h1, h2⟩⟩
  · rintro ⟨a, b, c, d⟩; exact ⟨⟨a, b⟩, c, fun x h => d x h.1 h.2⟩

/-! ### Examples -/

/-- Classes are numbers, a class inherits from its divisors; bodies are letters. -/
def exEnv : Env (ℕ × Char) ℕ := ⟨Prod.fst, fun a b => a % b == 0, fun a b => a.2 == b.2⟩

/-- A tree with nodes of the classes 1, 2, 4 and 3. -/
def exT : Tree (ℕ × Char) :=
  .node (1, 'r') [.node (2, 'a') [.node (4, 'b') [], .node (3, 'c') []], .node (3, 'd') [.node (6, 'e') []]]

example : ∃ out, Yields exEnv exT [] exT .floordiv (.classes [2]) out ∧ out.map (·.1) = [[0], [0, 0], [1, 0]] :=
  ⟨_, .yield rfl rfl (.yield rfl rfl (.skip rfl rfl (.skip rfl rfl (.yield rfl rfl (.done rfl))))), rfl⟩
example : ∃ out, InstancesOf exEnv [] exT [2] out ∧ out.map (·.1) = [[0], [1, 0]] :=
  ⟨_, .yield rfl rfl (.skip rfl rfl (.yield rfl rfl (.done rfl))), rfl⟩
example : ∃ out, Yields exEnv exT [] exT .div (.node (2, 'a')) out ∧ out.map (·.1) = [[0]] :=
  ⟨_, .yield rfl rfl (.skip rfl rfl (.done rfl)), rfl⟩
example : ∃ out, Yields exEnv exT [] exT .xor (.node (2, 'a')) out ∧ out.map (·.1) = [[1]] :=
  ⟨_, .skip rfl rfl (.yield rfl rfl (.done rfl)), rfl⟩

end Quickly.Query
