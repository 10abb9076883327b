import Verif.Tex.Spec

/-!
# Reading LaTeX: lemmas
-/

namespace Quickly.Tex

open Quickly.Text Quickly.Node Quickly.Tex.Spec

/-! ## The items of a piece -/

def optIts (f : List Opt → Item) : List D → List Item
  | .option op kids cl :: os => [.tok op, f (.tuple (D.tree.go kids) [cl] :: os.map fun o => .node o.tree)]
  | _ => []

def nameIts : Option Name → List Item
  | none => []
  | some n => [.tok n.1, .tok n.2.1, .tok n.2.2]

def headIts (opts : List D) (name : Option Name) : List Item :=
  if opts.isEmpty then nameIts name else optIts (fun o => .envOption o (name.map Name.tree)) opts

def shortIts (opts : List D) (op : Tok) : List Item :=
  if opts.isEmpty then [.tok op] else optIts (fun o => .option o [op]) opts

def D.its : D → List Item
  | .text t ts => .tok t :: ts.map .tok
  | .brace op kids cl => [.brace (D.tree (.brace op kids cl))]
  | .math m op kids cl => [.node (D.tree (.math m op kids cl))]
  | .comment t ts => [.node (D.tree (.comment t ts))]
  | .option op kids cl => .tok op :: (go kids ++ [.tok cl])
  | .command t opts arg => .tok t :: (optIts (fun o => .option o []) opts ++ arg.map fun d => .brace d.tree)
  | .env t opts name kids stop => .tok t :: (headIts opts name ++ [.env (D.tree.go kids ++ stop.toList.map End.tree)])
  | .lilyEnv t opts name opts' music stop =>
    .tok t :: (headIts opts name ++ [.lily (opts'.map fun o => .node o.tree) (musicTree music :: stop.toList.map End.tree) []])
  | .lilypond t opts op music cl => .tok t :: (shortIts opts op ++ [.lily [] [musicTree music] cl.toList])
  | .lilyStart t opts => .tok t :: optIts (fun o => .option o []) opts
where
  go : List D → List Item
    | [] => []
    | d :: ds => D.its d ++ go ds

theorem tree_map (ds : List D) : D.tree.go ds = ds.map D.tree := by
  induction ds with
  | nil => rfl
  | cons d ds ih => rw [D.tree.go, ih, List.map_cons]

theorem nodes_map (os : List D) : nodes (os.map fun o => Opt.node o.tree) = .ok (os.map D.tree) := by
  induction os with
  | nil => rfl
  | cons o os ih => rw [List.map_cons, nodes, ih]; rfl

theorem its_append (a b : List D) : D.its.go (a ++ b) = D.its.go a ++ D.its.go b := by
  induction a with
  | nil => rfl
  | cons x a ih => rw [List.cons_append, D.its.go, D.its.go, ih, List.append_assoc]

theorem all_mem (ds : List D) : D.wf.all ds ↔ ∀ d ∈ ds, d.wf := by
  induction ds with
  | nil => simp [D.wf.all]
  | cons d ds ih => simp [D.wf.all, ih]

/-! ## The main loop -/

theorem flush_nil : flush [] = [] := rfl

theorem flush_cons (t : Tok) (ts : List Tok) : flush (t :: ts) = [D.tree (.text t ts)] := rfl

theorem loop_text (ts : List Tok) (h : ∀ x ∈ ts, x.action = .text) (fuel : ℕ) (acc : List Tok) (rest : List Item) :
    commonLoop (fuel + ts.length) acc (ts.map .tok ++ rest) = commonLoop fuel (acc ++ ts) rest := by
  induction ts generalizing acc with
  | nil => simp
  | cons t ts ih =>
    have ht := h t (by simp)
    rw [List.length_cons, ← Nat.add_assoc, List.map_cons, List.cons_append, commonLoop]
    simp only [ht, reduceCtorEq, if_false]
    rw [ih (fun x hx => h x (List.mem_cons_of_mem _ hx))]
    simp

/-- The items do not start with options. -/
def noBracket (items : List Item) : Prop := ∀ t rest, items = .tok t :: rest → t.action ≠ .bracket

/-- The items do not start with a brace. -/
def noBrace (items : List Item) : Prop := ∀ n rest, items ≠ .brace n :: rest

theorem its_noBracket (ds : List D) (h : body ds) : noBracket (D.its.go ds) := by
  obtain ⟨h1, -, h3⟩ := h
  intro t rest e
  cases ds with
  | nil => cases e
  | cons d ds =>
    have hd := h1.1
    have ho := h3 d (by simp)
    rw [D.its.go] at e
    cases d <;> simp [D.its, D.isOption] at e ho <;> simp [D.wf] at hd <;> obtain ⟨rfl, _⟩ := e <;> simp_all

theorem its_noBrace (d : D) (ds : List D) (hc : chain (d :: ds)) (ho : d.open) : noBrace (D.its.go ds) := by
  cases ds with
  | nil => intro n rest e; cases e
  | cons e ds =>
    have : e.isBrace = false := by
      simp only [chain, follows, ho, Bool.and_eq_true, Bool.true_and, Bool.not_eq_true'] at hc
      exact hc.1.2
    intro n rest h
    rw [D.its.go] at h
    cases e <;> simp [D.its, D.isBrace] at h this

theorem getOptions_ok (op cl : Tok) (kids os : List D) :
    getOptions op (.tuple (D.tree.go kids) [cl] :: os.map fun o => Opt.node o.tree) =
      .ok (D.tree.go (.option op kids cl :: os)) := by
  rw [getOptions, nodes_map, tree_map (_ :: os)]
  rfl

theorem options_cases (opts : List D) (h : D.wf.all opts ∧ options opts) :
    opts = [] ∨ ∃ op kids cl os, opts = .option op kids cl :: os ∧ op.action = .bracket := by
  cases opts with
  | nil => exact .inl rfl
  | cons o os =>
    obtain ⟨h1, h2⟩ := h
    have := h2 o (by simp)
    cases o <;> simp [D.isOption] at this
    exact .inr ⟨_, _, _, _, rfl, h1.1.1⟩

theorem commandOptions_ok (opts : List D) (ho : D.wf.all opts ∧ options opts) (rest : List Item) (hk : noBracket rest) :
    commandOptions (optIts (fun o => .option o []) opts ++ rest) = .ok (D.tree.go opts, rest) := by
  rcases options_cases opts ho with rfl | ⟨op, kids, cl, os, rfl, hop⟩
  · rw [optIts, List.nil_append, D.tree.go]
    · unfold commandOptions
      split
      · rename_i b os _ r
        rw [if_neg (hk b _ rfl)]
      · rfl
    · simp
  · simp only [optIts, commandOptions, List.cons_append, List.nil_append, hop, if_true, getOptions_ok]
    rfl

theorem command_ok (t : Tok) (opts arg : List D) (h : D.wf (.command t opts arg)) (rest : List Item)
    (hb : arg = [] → noBrace rest) (hk : noBracket rest) :
    command t (optIts (fun o => .option o []) opts ++ (arg.map fun d => Item.brace d.tree) ++ rest) =
      .ok (D.tree (.command t opts arg), rest) := by
  obtain ⟨-, -, ho, -, hl, ha⟩ := h
  have hk' : noBracket ((arg.map fun d => Item.brace d.tree) ++ rest) := by
    cases arg with
    | nil => exact hk
    | cons d arg => intro t r e; simp at e
  rw [command, List.append_assoc, commandOptions_ok opts ho _ hk']
  match arg, hl, hb with
  | [], _, hb =>
    have := hb rfl
    simp only [List.map_nil, List.nil_append, bind, Except.bind, D.tree, D.tree.go, List.append_nil]
    split
    · exact absurd rfl (this _ _)
    · rfl
  | [d], _, _ => rfl

theorem envHead_ok (opts : List D) (name : Option Name) (ho : D.wf.all opts ∧ options opts) (hn : opts = [] → name.isSome)
    (hw : ∀ n ∈ name, n.wf) (rest : List Item) :
    envHead (headIts opts name ++ rest) = .ok (D.tree.go opts ++ name.toList.map Name.tree, rest) := by
  rcases options_cases opts ho with rfl | ⟨op, kids, cl, os, rfl, hop⟩
  · obtain ⟨n, rfl⟩ := Option.isSome_iff_exists.mp (hn rfl)
    obtain ⟨h1, h2, h3, h4, h5, h6⟩ := hw n rfl
    simp only [headIts, List.isEmpty_nil, if_true, nameIts, List.cons_append, List.nil_append, envHead, h1, h3, h5, and_self,
      D.tree.go, Option.toList_some, List.map_cons, List.map_nil]
    have : readName [n.1, n.2.1, n.2.2] = some n.2.1.text := by
      simp only [List.mem_cons, List.not_mem_nil, or_false, not_or] at h4
      obtain ⟨a, b, c, d, -⟩ := h4
      unfold readName
      rw [List.find?_cons_of_neg (by simp [h2]), List.find?_cons_of_pos (by simp [a, b, c, d])]
      rfl
    rw [envName, this]
    rfl
  · simp only [headIts, List.isEmpty_cons, if_false, Bool.false_eq_true, optIts, List.cons_append, List.nil_append, envHead, hop,
      if_true, getOptions_ok]
    cases name <;> rfl

theorem environment_ok (t : Tok) (opts : List D) (name : Option Name) (kids : List D) (stop : Option End)
    (h : D.wf (.env t opts name kids stop)) (rest : List Item) :
    environment t (headIts opts name ++ [.env (D.tree.go kids ++ stop.toList.map End.tree)] ++ rest) =
      .ok (D.tree (.env t opts name kids stop), rest) := by
  obtain ⟨-, -, ho, hn, hw, -, -⟩ := h
  rw [environment, List.append_assoc, envHead_ok opts name ho hn hw]
  rfl

theorem lilyEnv_ok (t : Tok) (opts : List D) (name : Option Name) (opts' : List D) (music : List Dom) (stop : Option End)
    (h : D.wf (.lilyEnv t opts name opts' music stop)) (rest : List Item) :
    environment t (headIts opts name ++
        [.lily (opts'.map fun o => .node o.tree) (musicTree music :: stop.toList.map End.tree) []] ++ rest) =
      .ok (D.tree (.lilyEnv t opts name opts' music stop), rest) := by
  obtain ⟨-, -, ho, hn, hw, -, -⟩ := h
  rw [environment, List.append_assoc, envHead_ok opts name ho hn hw]
  simp only [List.cons_append, List.nil_append, bind, Except.bind, nodes_map]
  rw [D.tree, tree_map opts']
  rfl

theorem lilypond_ok (t : Tok) (opts : List D) (op : Tok) (music : List Dom) (cl : Option Tok)
    (h : D.wf (.lilypond t opts op music cl)) (rest : List Item) :
    lilypondCommand t (shortIts opts op ++ [.lily [] [musicTree music] cl.toList] ++ rest) =
      .ok (D.tree (.lilypond t opts op music cl), rest) := by
  obtain ⟨-, -, ho, hb, -⟩ := h
  rcases options_cases opts ho with rfl | ⟨op', kids, cl', os, rfl, hop⟩
  · simp only [shortIts, List.isEmpty_nil, if_true, List.cons_append, List.nil_append, lilypondCommand, hb]
    rfl
  · simp only [shortIts, List.isEmpty_cons, Bool.false_eq_true, if_false, optIts, List.cons_append, List.nil_append, lilypondCommand,
      hop, Action.isDelimiter, if_true, getOptions_ok]
    rfl

/-- The items do not start with LilyPond music. -/
def noLily (items : List Item) : Prop := ∀ os ns ts rest, items ≠ .lily os ns ts :: rest

theorem its_noLily (ds : List D) : noLily (D.its.go ds) := by
  intro os ns ts rest e
  cases ds with
  | nil => cases e
  | cons d ds =>
    rw [D.its.go] at e
    cases d <;> simp [D.its] at e

theorem lilyStart_ok (t : Tok) (opts : List D) (h : D.wf (.lilyStart t opts)) (rest : List Item) (hr : noLily rest) :
    lilypondCommand t (optIts (fun o => .option o []) opts ++ rest) = .ok (D.tree (.lilyStart t opts), rest) := by
  obtain ⟨-, -, ho, hne⟩ := h
  rcases options_cases opts ho with rfl | ⟨op', kids, cl', os, rfl, hop⟩
  · exact absurd rfl hne
  · simp only [optIts, List.cons_append, List.nil_append, lilypondCommand,
      hop, Action.isDelimiter, if_true, getOptions_ok, bind, Except.bind]
    split
    · exact absurd rfl (hr _ _ _ _)
    · rfl

theorem chain_tail {d : D} {ds : List D} (h : chain (d :: ds)) : chain ds := by
  cases ds with
  | nil => rfl
  | cons e ds => simp only [chain, Bool.and_eq_true] at h; exact h.2

theorem body_tail {d : D} {ds : List D} (h : body (d :: ds)) : body ds :=
  ⟨h.1.2, chain_tail h.2.1, fun e he => h.2.2 e (List.mem_cons_of_mem _ he)⟩

/-- The first piece is not text. -/
def noText : List D → Prop
  | [] => True
  | d :: _ => d.isText = false

theorem text_next {t : Tok} {ts : List Tok} {ds : List D} (h : chain (.text t ts :: ds)) : noText ds := by
  cases ds with
  | nil => trivial
  | cons e ds => 
    simp only [chain, follows, D.isText, D.open, Bool.and_eq_true, Bool.true_and, Bool.not_eq_true'] at h
    exact h.1.1

theorem common_ds (ds : List D) (h : body ds) (acc : List Tok) (ha : acc = [] ∨ noText ds) (fuel : ℕ)
    (hf : (D.its.go ds).length ≤ fuel) : commonLoop fuel acc (D.its.go ds) = .ok (flush acc ++ D.tree.go ds) := by
  induction ds generalizing acc fuel with
  | nil =>
    rw [D.its.go, D.tree.go, List.append_nil]
    cases fuel <;> rfl
  | cons d ds ih =>
    have hw := h.1.1
    have ht := body_tail h
    have hop := h.2.2 d (by simp)
    have hbr := its_noBracket ds ht
    rw [D.its.go] at hf ⊢
    rw [D.tree.go]
    cases d with
    | text t ts =>
      rcases ha with rfl | ha
      · have e : D.its (.text t ts) = (t :: ts).map .tok := rfl
        rw [e] at hf ⊢
        rw [List.length_append, List.length_map] at hf
        obtain ⟨fuel, rfl⟩ : ∃ f, fuel = f + (t :: ts).length := ⟨fuel - (t :: ts).length, by omega⟩
        rw [loop_text _ (fun x hx => (hw x hx).1), ih ht _ (.inr (text_next h.2.1)) fuel (by omega), List.nil_append, flush_cons]
        rfl
      · simp [noText, D.isText] at ha
    | brace op kids cl =>
      simp only [D.its, List.cons_append, List.nil_append, List.length_cons] at hf ⊢
      obtain ⟨fuel, rfl⟩ : ∃ f, fuel = f + 1 := ⟨fuel - 1, by omega⟩
      rw [commonLoop, ih ht [] (.inl rfl) fuel (by omega)]
      rfl
    | math m op kids cl =>
      simp only [D.its, List.cons_append, List.nil_append, List.length_cons] at hf ⊢
      obtain ⟨fuel, rfl⟩ : ∃ f, fuel = f + 1 := ⟨fuel - 1, by omega⟩
      rw [commonLoop, ih ht [] (.inl rfl) fuel (by omega)]
      rfl
    | comment t ts =>
      simp only [D.its, List.cons_append, List.nil_append, List.length_cons] at hf ⊢
      obtain ⟨fuel, rfl⟩ : ∃ f, fuel = f + 1 := ⟨fuel - 1, by omega⟩
      rw [commonLoop, ih ht [] (.inl rfl) fuel (by omega)]
      rfl
    | option op kids cl => simp [D.isOption] at hop
    | command t opts arg =>
      simp only [D.its, List.cons_append, List.length_cons, List.length_append] at hf ⊢
      obtain ⟨fuel, rfl⟩ : ∃ f, fuel = f + 1 := ⟨fuel - 1, by omega⟩
      have := command_ok t opts arg hw (D.its.go ds) (by rintro rfl; exact its_noBrace _ ds h.2.1 rfl) hbr
      rw [commonLoop, if_neg (by rw [hw.1]; simp), if_pos hw.1, this]
      simp only [bind, Except.bind]
      rw [ih ht [] (.inl rfl) fuel (by omega)]
      rfl
    | env t opts name kids stop =>
      simp only [D.its, List.cons_append, List.length_cons, List.length_append] at hf ⊢
      obtain ⟨fuel, rfl⟩ : ∃ f, fuel = f + 1 := ⟨fuel - 1, by omega⟩
      have := environment_ok t opts name kids stop hw (D.its.go ds)
      rw [commonLoop, if_pos hw.1, if_neg (by rw [hw.2.1]; decide), this]
      simp only [bind, Except.bind]
      rw [ih ht [] (.inl rfl) fuel (by omega)]
      rfl
    | lilyEnv t opts name opts' music stop =>
      simp only [D.its, List.cons_append, List.length_cons, List.length_append] at hf ⊢
      obtain ⟨fuel, rfl⟩ : ∃ f, fuel = f + 1 := ⟨fuel - 1, by omega⟩
      have := lilyEnv_ok t opts name opts' music stop hw (D.its.go ds)
      rw [commonLoop, if_pos hw.1, if_neg (by rw [hw.2.1]; decide), this]
      simp only [bind, Except.bind]
      rw [ih ht [] (.inl rfl) fuel (by omega)]
      rfl
    | lilypond t opts op music cl =>
      simp only [D.its, List.cons_append, List.length_cons, List.length_append] at hf ⊢
      obtain ⟨fuel, rfl⟩ : ∃ f, fuel = f + 1 := ⟨fuel - 1, by omega⟩
      have := lilypond_ok t opts op music cl hw (D.its.go ds)
      rw [commonLoop, if_pos hw.1, if_pos hw.2.1, this]
      simp only [bind, Except.bind]
      rw [ih ht [] (.inl rfl) fuel (by omega)]
      rfl
    | lilyStart t opts =>
      simp only [D.its, List.cons_append, List.length_cons, List.length_append] at hf ⊢
      obtain ⟨fuel, rfl⟩ : ∃ f, fuel = f + 1 := ⟨fuel - 1, by omega⟩
      have := lilyStart_ok t opts hw (D.its.go ds) (its_noLily ds)
      rw [commonLoop, if_pos hw.1, if_pos hw.2.1, this]
      simp only [bind, Except.bind]
      rw [ih ht [] (.inl rfl) fuel (by omega)]
      rfl

theorem common_ok (ds : List D) (h : body ds) : common (D.its.go ds) = .ok (D.tree.go ds) :=
  common_ds ds h [] (.inl rfl) _ (Nat.le_refl _)

/-! ## Options -/

/-- No token of the items has this text. -/
def lacks (s : Str) (items : List Item) : Prop := ∀ t, Item.tok t ∈ items → t.text ≠ s

theorem split_at (s : Str) (items : List Item) (h : lacks s items) (c : Tok) (hc : c.text = s) (rest : List Item) :
    split s (items ++ .tok c :: rest) = some (items, c, rest) := by
  induction items with
  | nil => rw [List.nil_append, split, if_pos hc]
  | cons i items ih =>
    have hi := ih (fun t ht => h t (List.mem_cons_of_mem _ ht))
    rw [List.cons_append]
    cases i with
    | tok t => rw [split, if_neg (h t (by simp)), hi]
    | _ => rw [split, hi]; simp

theorem name_lacks (name : Option Name) (h : ∀ n ∈ name, n.wf) : lacks [']'] (nameIts name) := by
  intro t ht
  cases name with
  | none => cases ht
  | some n =>
    obtain ⟨h1, h2, h3, h4, h5, h6⟩ := h n rfl
    simp only [nameIts, List.mem_cons, Item.tok.injEq, List.not_mem_nil, or_false] at ht
    rcases ht with rfl | rfl | rfl
    · rw [h2]; decide
    · intro e; exact h4 (by simp [e])
    · rw [h6]; decide

theorem head_lacks (opts : List D) (ho : D.wf.all opts ∧ options opts) (name : Option Name) (h : ∀ n ∈ name, n.wf) :
    lacks [']'] (headIts opts name) := by
  rcases options_cases opts ho with rfl | ⟨op, kids, cl, os, rfl, hop⟩
  · exact name_lacks name h
  · intro t ht
    simp [headIts, optIts] at ht
    subst ht
    rw [ho.1.1.2.1]
    decide

theorem lacks_append (s : Str) (a b : List Item) (h : lacks s a) (h' : lacks s b) : lacks s (a ++ b) := by
  intro t ht
  rcases List.mem_append.mp ht with ht | ht
  · exact h t ht
  · exact h' t ht

theorem lacks_cons (s : Str) (t : Tok) (b : List Item) (h : t.text ≠ s) (h' : lacks s b) : lacks s (.tok t :: b) := by
  intro x ht
  rcases List.mem_cons.mp ht with ht | ht
  · cases ht; exact h
  · exact h' x ht

theorem optIts_lacks (f : List Opt → Item) (hf : ∀ o t, f o ≠ .tok t) (opts : List D) (ho : D.wf.all opts ∧ options opts) :
    lacks [']'] (optIts f opts) := by
  rcases options_cases opts ho with rfl | ⟨op, kids, cl, os, rfl, hop⟩
  · intro t ht; cases ht
  · rw [optIts]
    refine lacks_cons _ _ _ (by rw [ho.1.1.2.1]; decide) ?_
    intro t ht
    simp only [List.mem_singleton] at ht
    exact absurd ht.symm (hf _ _)

theorem its_lacks (d : D) (h : d.wf) (ho : d.isOption = false) : lacks [']'] (D.its d) := by
  cases d with
  | text t ts =>
    intro x hx
    have : x ∈ t :: ts := by
      simp only [D.its, List.mem_cons, Item.tok.injEq, List.mem_map] at hx
      rcases hx with rfl | ⟨y, hy, rfl⟩
      · simp
      · simp [hy]
    intro e
    exact (h x this).2 (by rw [e]; decide)
  | brace op kids cl => intro x hx; simp [D.its] at hx
  | math m op kids cl => intro x hx; simp [D.its] at hx
  | comment t ts => intro x hx; simp [D.its] at hx
  | option op kids cl => cases ho
  | command t opts arg =>
    obtain ⟨-, h2, h3, -⟩ := h
    refine lacks_cons _ _ _ (fun e => h2 (by rw [e]; decide)) (lacks_append _ _ _ (optIts_lacks _ (by simp) opts h3) ?_)
    intro x hx
    simp at hx
  | env t opts name kids stop =>
    obtain ⟨-, h2, h3, -, h5, -⟩ := h
    refine lacks_cons _ _ _ (by rw [h2]; decide) (lacks_append _ _ _ (head_lacks opts h3 name h5) ?_)
    intro x hx
    simp at hx
  | lilyEnv t opts name opts' music stop =>
    obtain ⟨-, h2, h3, -, h5, -⟩ := h
    refine lacks_cons _ _ _ (by rw [h2]; decide) (lacks_append _ _ _ (head_lacks opts h3 name h5) ?_)
    intro x hx
    simp at hx
  | lilypond t opts op music cl =>
    obtain ⟨-, h2, h3, -, h4, -⟩ := h
    refine lacks_cons _ _ _ (by rw [h2]; decide) (lacks_append _ _ _ ?_ (by intro x hx; simp at hx))
    unfold shortIts
    split
    · exact lacks_cons _ _ _ (by rw [h4]; decide) (by intro x hx; cases hx)
    · exact optIts_lacks _ (by simp) opts h3
  | lilyStart t opts =>
    obtain ⟨-, h2, h3, -⟩ := h
    exact lacks_cons _ _ _ (by rw [h2]; decide) (optIts_lacks _ (by simp) opts h3)

theorem its_lacks_all (ds : List D) (h : body ds) : lacks [']'] (D.its.go ds) := by
  induction ds with
  | nil => intro t ht; cases ht
  | cons d ds ih =>
    rw [D.its.go]
    exact lacks_append _ _ _ (its_lacks d h.1.1 (h.2.2 d (by simp))) (ih (body_tail h))

theorem optionLoop_ok (os : List D) (ho : D.wf.all os ∧ options os) (kids : List D) (hk : body kids) (cl : Tok) (hc : cl.text = [']'])
    (head : List Tok) (fuel : ℕ) (hf : os.length < fuel) :
    optionLoop fuel head (D.its.go kids ++ .tok cl :: D.its.go os) =
      .ok ((if head ≠ [] then Opt.node (factory .option head [cl] (D.tree.go kids)) else .tuple (D.tree.go kids) [cl]) ::
        os.map fun o => .node o.tree) := by
  induction os generalizing kids cl head fuel with
  | nil =>
    obtain ⟨fuel, rfl⟩ : ∃ f, fuel = f + 1 := ⟨fuel - 1, by simp at hf; omega⟩
    rw [optionLoop, split_at _ _ (its_lacks_all kids hk) cl hc]
    simp only [common_ok kids hk, bind, Except.bind]
    rfl
  | cons o os ih =>
    obtain ⟨fuel, rfl⟩ : ∃ f, fuel = f + 1 := ⟨fuel - 1, by simp at hf; omega⟩
    have h1 := ho.1.1
    have h2 := ho.2 o (by simp)
    cases o <;> simp [D.isOption] at h2
    rename_i op kids' cl'
    obtain ⟨w1, w2, w3, w4, w5⟩ := h1
    have e : D.its.go (.option op kids' cl' :: os) = .tok op :: (D.its.go kids' ++ .tok cl' :: D.its.go os) := by
      simp [D.its.go, D.its]
    rw [optionLoop, split_at _ _ (its_lacks_all kids hk) cl hc, e]
    have e2 : split ['['] (Item.tok op :: (D.its.go kids' ++ .tok cl' :: D.its.go os)) =
        some ([], op, D.its.go kids' ++ .tok cl' :: D.its.go os) := by rw [split, if_pos w2]
    have := ih ⟨ho.1.2, fun x hx => ho.2 x (List.mem_cons_of_mem _ hx)⟩ kids' w3 cl' w5 [op] fuel (by simpa using hf)
    simp only [common_ok kids hk, bind, Except.bind, e2, this]
    rfl

theorem its_length (os : List D) (h : options os) : os.length ≤ (D.its.go os).length := by
  induction os with
  | nil => simp
  | cons o os ih =>
    have h2 := h o (by simp)
    have := ih fun x hx => h x (List.mem_cons_of_mem _ hx)
    cases o <;> simp [D.isOption] at h2
    simp [D.its.go, D.its]
    omega

/-! ## The last item -/

/-- If the last item is a token, it is text or a command. -/
def lastSafe (items : List Item) : Prop :=
  ∀ t, items.getLast? = some (.tok t) → (t.action = .text ∨ t.action = .command) ∧ t.text ∉ enders

theorem lastSafe_append (a b : List Item) (ha : lastSafe a) (hb : lastSafe b) : lastSafe (a ++ b) := by
  intro t ht
  rw [List.getLast?_append] at ht
  cases h : b.getLast? with
  | none => rw [h] at ht; exact ha t (by simpa using ht)
  | some x => rw [h] at ht; exact hb t (by rw [h]; simpa using ht)

theorem lastSafe_nil : lastSafe [] := by intro t h; cases h

theorem lastSafe_concat (a : List Item) (i : Item) (h : ∀ t, i ≠ .tok t) : lastSafe (a ++ [i]) := by
  intro t ht
  rw [List.getLast?_concat] at ht
  cases ht
  exact absurd rfl (h t)

theorem its_lastSafe (d : D) (h : d.wf) (ho : d.isOption = false) : lastSafe (D.its d) := by
  cases d with
  | text t ts =>
    intro x hx
    have e : D.its (.text t ts) = (t :: ts).map .tok := rfl
    rw [e, List.getLast?_map] at hx
    cases hl : (t :: ts).getLast? with
    | none => rw [hl] at hx; cases hx
    | some y =>
      rw [hl] at hx
      cases hx
      have := h _ (List.mem_of_mem_getLast? hl)
      exact ⟨.inl this.1, this.2⟩
  | brace op kids cl => exact lastSafe_concat [] _ (by simp)
  | math m op kids cl => exact lastSafe_concat [] _ (by simp)
  | comment t ts => exact lastSafe_concat [] _ (by simp)
  | option op kids cl => cases ho
  | command t opts arg =>
    obtain ⟨h1, h2, h3, -, hl, -⟩ := h
    have e : D.its (.command t opts arg) = [.tok t] ++ (optIts (fun o => .option o []) opts ++ arg.map fun d => .brace d.tree) := rfl
    rw [e]
    refine lastSafe_append _ _ ?_ (lastSafe_append _ _ ?_ ?_)
    · intro x hx
      cases hx
      exact ⟨.inr h1, h2⟩
    · rcases options_cases opts h3 with rfl | ⟨op, kids, cl, os, rfl, hop⟩
      · exact lastSafe_nil
      · exact lastSafe_concat [.tok op] _ (by simp)
    · match arg, hl with
      | [], _ => exact lastSafe_nil
      | [d], _ => exact lastSafe_concat [] _ (by simp)
  | env t opts name kids stop => exact lastSafe_concat (.tok t :: headIts opts name) _ (by simp)
  | lilyEnv t opts name opts' music stop => exact lastSafe_concat (.tok t :: headIts opts name) _ (by simp)
  | lilypond t opts op music cl => exact lastSafe_concat (.tok t :: shortIts opts op) _ (by simp)
  | lilyStart t opts =>
    obtain ⟨-, -, h3, hne⟩ := h
    rcases options_cases opts h3 with rfl | ⟨op, kids, cl, os, rfl, hop⟩
    · exact absurd rfl hne
    · exact lastSafe_concat [.tok t, .tok op] _ (by simp)

theorem its_lastSafe_all (ds : List D) (h : body ds) : lastSafe (D.its.go ds) := by
  induction ds with
  | nil => exact lastSafe_nil
  | cons d ds ih => exact lastSafe_append _ _ (its_lastSafe d h.1.1 (h.2.2 d (by simp))) (ih (body_tail h))

/-- The last item is not a token with the name of an environment. -/
def noName (items : List Item) : Prop := ∀ t, items.getLast? = some (.tok t) → t.action ≠ .nameTag

theorem noName_append (a b : List Item) (ha : noName a) (hb : noName b) : noName (a ++ b) := by
  intro t ht
  rw [List.getLast?_append] at ht
  cases h : b.getLast? with
  | none => rw [h] at ht; exact ha t (by simpa using ht)
  | some x => rw [h] at ht; exact hb t (by rw [h]; simpa using ht)

theorem options_last (os : List D) (ho : D.wf.all os ∧ options os) (kids : List D) (hk : body kids) (cl : Tok) (hc : cl.action = .bracket) :
    ∃ pre t, D.its.go kids ++ .tok cl :: D.its.go os = pre ++ [.tok t] ∧ t.action = .bracket ∧ noName pre := by
  have hn : ∀ kids, body kids → noName (D.its.go kids) := by
    intro kids hk t ht
    rcases (its_lastSafe_all kids hk t ht).1 with h | h <;> rw [h] <;> simp
  induction os generalizing kids cl with
  | nil => exact ⟨_, cl, rfl, hc, hn kids hk⟩
  | cons o os ih =>
    have h1 := ho.1.1
    have h2 := ho.2 o (by simp)
    cases o <;> simp [D.isOption] at h2
    rename_i op kids' cl'
    obtain ⟨w1, w2, w3, w4, w5⟩ := h1
    obtain ⟨pre, t, e, ht, hp⟩ := ih ⟨ho.1.2, fun x hx => ho.2 x (List.mem_cons_of_mem _ hx)⟩ kids' w3 cl' w4
    refine ⟨D.its.go kids ++ [.tok cl, .tok op] ++ pre, t, ?_, ht, noName_append _ _ ?_ hp⟩
    · have e' : D.its.go (.option op kids' cl' :: os) = .tok op :: (D.its.go kids' ++ .tok cl' :: D.its.go os) := by
        simp [D.its.go, D.its]
      rw [e', e]
      simp
    · intro x hx
      simp at hx
      subst hx
      rw [w1]
      simp

/-! ## The contexts of options -/

theorem optionNodes_rest (os : List D) (ho : D.wf.all os ∧ options os) (kids : List D) (hk : body kids) (cl : Tok) (hc : cl.text = [']']) :
    optionNodes (D.its.go kids ++ .tok cl :: D.its.go os) =
      .ok (.tuple (D.tree.go kids) [cl] :: os.map fun o => .node o.tree) := by
  have hl := its_length os ho.2
  have h := optionLoop_ok os ho kids hk cl hc [] ((D.its.go kids ++ .tok cl :: D.its.go os).length + 1)
    (by rw [List.length_append, List.length_cons]; omega)
  rw [if_neg (by simp)] at h
  unfold optionNodes
  split
  · rename_i t rest e
    rw [if_neg, h]
    rintro ⟨h1, h2⟩
    cases hd : D.its.go kids with
    | nil =>
      rw [hd] at e
      cases e
      rw [h2] at hc
      revert hc
      decide
    | cons i its =>
      rw [hd] at e
      cases e
      exact its_noBracket kids hk t _ hd h1
  · exact h

theorem optionNodes_full (op : Tok) (kids : List D) (cl : Tok) (os : List D)
    (ho : D.wf.all (.option op kids cl :: os) ∧ options (.option op kids cl :: os)) :
    optionNodes (D.its.go (.option op kids cl :: os)) = .ok ((D.option op kids cl :: os).map fun o => .node o.tree) := by
  obtain ⟨w1, w2, w3, w4, w5⟩ := ho.1.1
  have hl := its_length os fun x hx => ho.2 x (List.mem_cons_of_mem _ hx)
  have e : D.its.go (.option op kids cl :: os) = .tok op :: (D.its.go kids ++ .tok cl :: D.its.go os) := by
    simp [D.its.go, D.its]
  rw [e, optionNodes, if_pos ⟨w1, w2⟩,
    optionLoop_ok os ⟨ho.1.2, fun x hx => ho.2 x (List.mem_cons_of_mem _ hx)⟩ kids w3 cl w5 [op] _
      (by simp only [List.length_append, List.length_cons]; omega)]
  rfl

theorem option_plain (items pre : List Item) (t : Tok) (h : items = pre ++ [.tok t]) (ht : t.action = .bracket) (os : List Opt)
    (ho : optionNodes items = .ok os) : option items = .ok (os, []) := by
  unfold option
  rw [h, List.getLast?_concat, ← h]
  simp only [ht, reduceCtorEq, if_false, ho]
  rfl

theorem option_brace (items : List Item) (t : Tok) (ht : t.action = .brace) (os : List Opt)
    (ho : optionNodes items = .ok os) : option (items ++ [.tok t]) = .ok (os, [t]) := by
  unfold option
  rw [List.getLast?_concat, List.dropLast_concat]
  simp only [ht, if_true, ho]
  rfl

theorem option_rest (os : List D) (ho : D.wf.all os ∧ options os) (kids : List D) (hk : body kids) (cl : Tok)
    (ha : cl.action = .bracket) (hc : cl.text = [']']) :
    option (D.its.go kids ++ .tok cl :: D.its.go os) =
      .ok (.tuple (D.tree.go kids) [cl] :: (os.map fun o => .node o.tree), []) := by
  obtain ⟨pre, t, e, ht, -⟩ := options_last os ho kids hk cl ha
  exact option_plain _ pre t e ht _ (optionNodes_rest os ho kids hk cl hc)

theorem option_full (op : Tok) (kids : List D) (cl : Tok) (os : List D)
    (ho : D.wf.all (.option op kids cl :: os) ∧ options (.option op kids cl :: os)) :
    option (D.its.go (.option op kids cl :: os)) = .ok ((D.option op kids cl :: os).map (fun o => .node o.tree), []) := by
  obtain ⟨w1, w2, w3, w4, w5⟩ := ho.1.1
  obtain ⟨pre, t, e, ht, -⟩ := options_last os ⟨ho.1.2, fun x hx => ho.2 x (List.mem_cons_of_mem _ hx)⟩ kids w3 cl w4
  have e' : D.its.go (.option op kids cl :: os) = .tok op :: (D.its.go kids ++ .tok cl :: D.its.go os) := by
    simp [D.its.go, D.its]
  exact option_plain _ (.tok op :: pre) t (by rw [e', e]; rfl) ht _ (optionNodes_full op kids cl os ho)

theorem readName_ok (n : Name) (h : n.wf) : envName [n.1, n.2.1, n.2.2] = n.tree := by
  obtain ⟨h1, h2, h3, h4, h5, h6⟩ := h
  have : readName [n.1, n.2.1, n.2.2] = some n.2.1.text := by
    simp only [List.mem_cons, List.not_mem_nil, or_false, not_or] at h4
    obtain ⟨a, b, c, d, -⟩ := h4
    unfold readName
    rw [List.find?_cons_of_neg (by simp [h2]), List.find?_cons_of_pos (by simp [a, b, c, d])]
    rfl
  rw [envName, this]
  rfl

theorem lastName_some (items : List Item) (n : Name) (h : n.wf) : lastName (items ++ nameIts (some n)) = some n := by
  obtain ⟨h1, h2, h3, h4, h5, h6⟩ := h
  have : (items ++ nameIts (some n)).drop ((items ++ nameIts (some n)).length - 3) = nameIts (some n) := by
    rw [List.length_append]
    simp [nameIts]
  unfold lastName
  rw [this]
  simp [nameIts, h1, h3, h5]

theorem lastName_none (items pre : List Item) (t : Tok) (h : items = pre ++ [.tok t]) (hn : noName pre) : lastName items = none := by
  unfold lastName
  split
  · rename_i a b c e
    have : items = items.take (items.length - 3) ++ [.tok a, .tok b] ++ [.tok c] := by
      rw [List.append_assoc]
      simp only [List.cons_append, List.nil_append]
      rw [← e, List.take_append_drop]
    rw [h] at this
    have hp := (List.append_inj' this rfl).1
    rw [if_neg]
    rintro ⟨-, hb, -⟩
    refine hn b ?_ hb
    rw [hp]
    simp
  · rfl

theorem envOption_ok (os : List D) (ho : D.wf.all os ∧ options os) (kids : List D) (hk : body kids) (cl : Tok)
    (ha : cl.action = .bracket) (hc : cl.text = [']']) (name : Option Name) (hw : ∀ n ∈ name, n.wf) :
    environmentOption (D.its.go kids ++ .tok cl :: D.its.go os ++ nameIts name) =
      .ok (.tuple (D.tree.go kids) [cl] :: (os.map fun o => .node o.tree), name.map Name.tree) := by
  have h := option_rest os ho kids hk cl ha hc
  cases name with
  | none =>
    obtain ⟨pre, t, e, ht, hn⟩ := options_last os ho kids hk cl ha
    rw [nameIts, List.append_nil, environmentOption, lastName_none _ pre t e hn, h]
    rfl
  | some n =>
    have : (D.its.go kids ++ .tok cl :: D.its.go os ++ nameIts (some n)).take
        ((D.its.go kids ++ .tok cl :: D.its.go os ++ nameIts (some n)).length - 3) = D.its.go kids ++ .tok cl :: D.its.go os := by
      have : (D.its.go kids ++ .tok cl :: D.its.go os ++ nameIts (some n)).length - 3 = (D.its.go kids ++ .tok cl :: D.its.go os).length := by
        rw [List.length_append]
        simp [nameIts]
      rw [this, List.take_left']
      rfl
    rw [environmentOption, lastName_some _ n (hw n rfl), this, h]
    simp only [bind, Except.bind, readName_ok n (hw n rfl)]
    rfl

/-! ## The other contexts -/

theorem lastIs_none (s : Str) (hs : s ∈ enders) (items : List Item) (h : lastSafe items) : lastIs s items = none := by
  unfold lastIs
  split
  · rename_i t e
    rw [if_neg]
    intro ht
    exact (h t e).2 (by rw [ht]; exact hs)
  · rfl

theorem lastIs_some (items : List Item) (t : Tok) (s : Str) (h : t.text = s) : lastIs s (items ++ [.tok t]) = some t := by
  simp [lastIs, h]

def tokIts : Option Tok → List Item
  | none => []
  | some t => [.tok t]

theorem brace_ok (op : Tok) (kids : List D) (cl : Option Tok) (h : D.wf (.brace op kids cl)) :
    brace (.tok op :: (D.its.go kids ++ tokIts cl)) = .ok (D.tree (.brace op kids cl)) := by
  obtain ⟨h1, h2, h3⟩ := h
  cases cl with
  | none =>
    have : lastIs ['}'] (.tok op :: D.its.go kids) = none := by
      cases hd : D.its.go kids with
      | nil => simp [lastIs, h1]
      | cons i its =>
        have := lastIs_none ['}'] (by decide) _ (its_lastSafe_all kids h2)
        rw [hd] at this
        simpa [lastIs] using this
    rw [tokIts, List.append_nil]
    simp only [brace, this, List.drop_succ_cons, List.drop_zero, common_ok kids h2]
    rfl
  | some c =>
    have : lastIs ['}'] (.tok op :: (D.its.go kids ++ [.tok c])) = some c := lastIs_some (.tok op :: D.its.go kids) c _ (h3 c rfl)
    have e : (Item.tok op :: (D.its.go kids ++ [.tok c])).dropLast = .tok op :: D.its.go kids :=
      List.dropLast_concat (l₁ := Item.tok op :: D.its.go kids) (b := Item.tok c)
    rw [tokIts]
    simp only [brace, this, e, List.drop_succ_cons, List.drop_zero, common_ok kids h2]
    rfl

theorem ofHead_head (m : Math) : Math.ofHead (delimiters m).1.toList = some m := by cases m <;> decide

theorem math_ok (m : Math) (op : Tok) (kids : List D) (cl : Option Tok) (h : D.wf (.math m op kids cl)) :
    math (.tok op :: (D.its.go kids ++ tokIts cl)) = .ok (D.tree (.math m op kids cl)) := by
  obtain ⟨h1, h2, h3⟩ := h
  have e : (delimiters m).2.toList = m.tail := by cases m <;> rfl
  rw [e] at h3
  rw [math, h1, ofHead_head]
  cases cl with
  | none =>
    have := lastIs_none m.tail (by cases m <;> decide) _ (its_lastSafe_all kids h2)
    rw [tokIts, List.append_nil]
    simp only [this, common_ok kids h2]
    rfl
  | some c =>
    rw [tokIts]
    simp only [lastIs_some _ c _ (h3 c rfl), List.dropLast_concat, common_ok kids h2]
    rfl

def endIts : Option End → List Item
  | none => []
  | some e => .tok e.1 :: nameIts (some e.2)

theorem lastEnd_some (items : List Item) (e : End) (h : e.wf) : lastEnd (items ++ endIts (some e)) = some e := by
  obtain ⟨h0, h1, h2, h3, h4, h5, h6⟩ := h
  have : (items ++ endIts (some e)).drop ((items ++ endIts (some e)).length - 4) = endIts (some e) := by
    rw [List.length_append]
    simp [endIts, nameIts]
  unfold lastEnd
  rw [this]
  simp [endIts, nameIts, h0, h1, h3, h5]

theorem lastEnd_none (items : List Item) (h : ∀ t, items.getLast? = some (.tok t) → t.action.isDelimiter = false) : lastEnd items = none := by
  unfold lastEnd
  split
  · rename_i a b c d e
    have : items.getLast? = some (.tok d) := by
      rw [← List.take_append_drop (items.length - 4) items, e]
      simp
    rw [if_neg]
    rintro ⟨-, -, -, hd⟩
    rw [h d this] at hd
    cases hd
  · rfl

theorem endNode_ok (e : End) (h : e.wf) : endNode e = e.tree := by
  rw [endNode, readName_ok e.2 h.2]
  rfl

theorem take_end (items : List Item) (e : End) : (items ++ endIts (some e)).take ((items ++ endIts (some e)).length - 4) = items := by
  rw [List.length_append, List.take_append_of_le_length] <;> simp [endIts, nameIts]

theorem envBody_ok (kids : List D) (hk : body kids) (stop : Option End) (h : ∀ e ∈ stop, e.wf) :
    environmentBody (D.its.go kids ++ endIts stop) = .ok (D.tree.go kids ++ stop.toList.map End.tree) := by
  cases stop with
  | none =>
    have := lastEnd_none (D.its.go kids) (by
      intro t ht
      rcases (its_lastSafe_all kids hk t ht).1 with h | h <;> rw [h] <;> rfl)
    rw [endIts, List.append_nil, environmentBody, this, common_ok kids hk]
    simp
  | some e =>
    rw [environmentBody, lastEnd_some _ e (h e rfl)]
    simp only [take_end, common_ok kids hk, endNode_ok e (h e rfl)]
    rfl

def musicIts (ns : List Dom) : List Item := if ns.isEmpty then [] else [.music ns]

theorem lilyDocument_ok (ns : List Dom) : lilyDocument (musicIts ns) = musicTree ns := by
  cases ns with
  | nil => rfl
  | cons n ns => simp [musicIts, lilyDocument, musicTree]

theorem lilyBody (os : List Opt) (music : List Dom) (stop : Option End) (hs : ∀ e ∈ stop, e.wf) (h : music ≠ [] ∨ stop.isSome) :
    lilypondBody os (musicIts music ++ endIts stop) = .ok (os, musicTree music :: stop.toList.map End.tree, []) := by
  unfold lilypondBody
  cases stop with
  | none =>
    obtain ⟨m, ms, rfl⟩ := List.exists_cons_of_ne_nil (h.resolve_right (by simp))
    have : lastEnd (musicIts (m :: ms) ++ endIts none) = none := lastEnd_none _ (by intro t; simp [musicIts, endIts])
    simp only [this]
    rw [endIts, List.append_nil, lilyDocument_ok]
    simp [musicIts]
  | some e =>
    simp only [lastEnd_some _ e (hs e rfl), take_end, lilyDocument_ok, endNode_ok e (hs e rfl)]
    rfl

theorem lily_env_ok (os : List Opt) (music : List Dom) (stop : Option End) (hs : ∀ e ∈ stop, e.wf) (h : music ≠ [] ∨ stop.isSome) :
    lilypondEnvironment (.option os [] :: (musicIts music ++ endIts stop)) = .ok (os, musicTree music :: stop.toList.map End.tree, []) :=
  lilyBody os music stop hs h

theorem lily_env_ok' (music : List Dom) (stop : Option End) (hs : ∀ e ∈ stop, e.wf) (h : music ≠ [] ∨ stop.isSome) :
    lilypondEnvironment (musicIts music ++ endIts stop) = .ok ([], musicTree music :: stop.toList.map End.tree, []) := by
  have : popOption (musicIts music ++ endIts stop) = ([], musicIts music ++ endIts stop) := by
    cases music <;> cases stop <;> rfl
  rw [lilypondEnvironment, this]
  exact lilyBody [] music stop hs h

theorem lily_short_ok (music : List Dom) (cl : Option Tok) (hc : ∀ t ∈ cl, t.action = .brace ∧ t.text = ['}'])
    (h : music ≠ [] ∨ cl.isSome) :
    lilypondEnvironment (musicIts music ++ tokIts cl) = .ok ([], [musicTree music], cl.toList) := by
  cases cl with
  | none =>
    have := lily_env_ok' music none (by simp) (by simpa using h)
    simpa [endIts, tokIts] using this
  | some c =>
    obtain ⟨h1, h2⟩ := hc c rfl
    cases music with
    | nil => simp [lilypondEnvironment, lilypondBody, popOption, musicIts, tokIts, lastEnd, h1, h2, lilyDocument, musicTree]
    | cons m ms => simp [lilypondEnvironment, lilypondBody, popOption, musicIts, tokIts, lastEnd, h1, h2, lilyDocument, musicTree]

/-! ## All contexts -/

theorem go_append (a b : List Raw) (x y : List Item) (ha : item.go a = .ok x) (hb : item.go b = .ok y) :
    item.go (a ++ b) = .ok (x ++ y) := by
  induction a generalizing x with
  | nil => cases ha; exact hb
  | cons r a ih =>
    rw [item.go] at ha
    cases hi : item r with
    | error e => rw [hi] at ha; cases ha
    | ok i =>
      rw [hi] at ha
      cases hg : item.go a with
      | error e => rw [hg] at ha; cases ha
      | ok z =>
        rw [hg] at ha
        cases ha
        rw [List.cons_append, item.go, hi, ih z hg]
        rfl

theorem go_toks (ts : List Tok) : item.go (ts.map .tok) = .ok (ts.map .tok) := by
  induction ts with
  | nil => rfl
  | cons t ts ih => rw [List.map_cons, item.go, ih]; rfl

theorem go_tok (t : Tok) (rs : List Raw) (is : List Item) (h : item.go rs = .ok is) : item.go (.tok t :: rs) = .ok (.tok t :: is) := by
  rw [item.go, h]
  rfl

theorem go_tok_inv (t : Tok) (rs : List Raw) (is : List Item) (h : item.go (.tok t :: rs) = .ok (.tok t :: is)) : item.go rs = .ok is := by
  rw [item.go] at h
  cases hg : item.go rs with
  | error e => rw [hg] at h; cases h
  | ok z => rw [hg] at h; cases h; rfl

theorem go_one (r : Raw) (i : Item) (h : item r = .ok i) : item.go [r] = .ok [i] := by
  rw [item.go, h]
  rfl

theorem go_name (name : Option Name) : item.go (nameRaw name) = .ok (nameIts name) := by cases name <;> rfl

theorem go_end (e : Option End) : item.go (endRaw e) = .ok (endIts e) := by cases e <;> rfl

theorem go_tokRaw (t : Option Tok) : item.go (tokRaw t) = .ok (tokIts t) := by cases t <;> rfl

theorem go_music (ns : List Dom) : item.go (musicRaw ns) = .ok (musicIts ns) := by cases ns <;> rfl

theorem opts_raw (op : Tok) (kids : List D) (cl : Tok) (os : List D) :
    D.raw.go (.option op kids cl :: os) = .tok op :: (D.raw.go kids ++ .tok cl :: D.raw.go os) := by
  simp [D.raw.go, D.raw]

theorem opts_its (op : Tok) (kids : List D) (cl : Tok) (os : List D) :
    D.its.go (.option op kids cl :: os) = .tok op :: (D.its.go kids ++ .tok cl :: D.its.go os) := by
  simp [D.its.go, D.its]

/-- The options of a command. -/
theorem go_opts (opts : List D) (ho : D.wf.all opts ∧ options opts) (h : item.go (D.raw.go opts) = .ok (D.its.go opts)) :
    item.go (optsRaw (D.raw.go opts)) = .ok (optIts (fun o => .option o []) opts) := by
  rcases options_cases opts ho with rfl | ⟨op, kids, cl, os, rfl, hop⟩
  · rfl
  · obtain ⟨w1, w2, w3, w4, w5⟩ := ho.1.1
    rw [opts_raw, opts_its] at h
    rw [opts_raw, optsRaw, optIts]
    refine go_tok _ _ _ (go_one _ _ ?_)
    rw [item, go_tok_inv _ _ _ h]
    simp only [bind, Except.bind, option_rest os ⟨ho.1.2, fun x hx => ho.2 x (List.mem_cons_of_mem _ hx)⟩ kids w3 cl w4 w5]

theorem go_short (opts : List D) (ho : D.wf.all opts ∧ options opts) (op : Tok) (hop : op.action = .brace)
    (h : item.go (D.raw.go opts) = .ok (D.its.go opts)) :
    item.go (shortRaw (D.raw.go opts) op) = .ok (shortIts opts op) := by
  rcases options_cases opts ho with rfl | ⟨op', kids, cl, os, rfl, -⟩
  · rfl
  · obtain ⟨w1, w2, w3, w4, w5⟩ := ho.1.1
    rw [opts_raw, opts_its] at h
    rw [opts_raw, shortRaw, shortIts, List.isEmpty_cons, if_neg (by simp), optIts]
    refine go_tok _ _ _ (go_one _ _ ?_)
    have hg : item.go [.tok op] = .ok [.tok op] := rfl
    rw [item, go_append _ _ _ _ (go_tok_inv _ _ _ h) hg]
    have := option_brace _ op hop _
      (optionNodes_rest os ⟨ho.1.2, fun x hx => ho.2 x (List.mem_cons_of_mem _ hx)⟩ kids w3 cl w5)
    simp only [bind, Except.bind, this]

theorem go_head (opts : List D) (ho : D.wf.all opts ∧ options opts) (name : Option Name) (hw : ∀ n ∈ name, n.wf)
    (h : item.go (D.raw.go opts) = .ok (D.its.go opts)) :
    item.go (headRaw (D.raw.go opts) name) = .ok (headIts opts name) := by
  rcases options_cases opts ho with rfl | ⟨op', kids, cl, os, rfl, -⟩
  · exact go_name name
  · obtain ⟨w1, w2, w3, w4, w5⟩ := ho.1.1
    rw [opts_raw, opts_its] at h
    rw [opts_raw, headRaw, headIts, List.isEmpty_cons, if_neg (by simp), optIts]
    refine go_tok _ _ _ (go_one _ _ ?_)
    rw [item, go_append _ _ _ _ (go_tok_inv _ _ _ h) (go_name name)]
    have := envOption_ok os ⟨ho.1.2, fun x hx => ho.2 x (List.mem_cons_of_mem _ hx)⟩ kids w3 cl w4 w5 name hw
    simp only [bind, Except.bind, this]

mutual
/-- The transform of the contexts of a piece. -/
theorem item_d : (d : D) → d.wf → item.go d.raw = .ok (D.its d)
  | .text t ts, _ => by
    exact go_toks (t :: ts)
  | .brace op kids cl, h => by
    rw [D.raw, D.its]
    refine go_one _ _ ?_
    rw [item, go_tok _ _ _ (go_append _ _ _ _ (item_ds kids h.2.1.1) (go_tokRaw cl))]
    simp only [bind, Except.bind, brace_ok op kids cl h]
  | .math m op kids cl, h => by
    rw [D.raw, D.its]
    refine go_one _ _ ?_
    rw [item, go_tok _ _ _ (go_append _ _ _ _ (item_ds kids h.2.1.1) (go_tokRaw cl))]
    simp only [bind, Except.bind, math_ok m op kids cl h]
  | .comment t ts, _ => rfl
  | .option op kids cl, h => by
    rw [D.raw, D.its]
    exact go_tok _ _ _ (go_append _ _ _ _ (item_ds kids h.2.2.1.1) (go_toks [cl]))
  | .command t opts arg, h => by
    rw [D.raw, D.its]
    have ha : D.its.go arg = arg.map fun d => .brace d.tree := by
      obtain ⟨-, -, -, -, hl, hb⟩ := h
      match arg, hl, hb with
      | [], _, _ => rfl
      | [d], _, hb =>
        have := hb d (by simp)
        cases d <;> simp [D.isBrace] at this
        rfl
    have := item_ds arg h.2.2.2.1.1
    rw [ha] at this
    exact go_tok _ _ _ (go_append _ _ _ _ (go_opts opts h.2.2.1 (item_ds opts h.2.2.1.1)) this)
  | .env t opts name kids stop, h => by
    rw [D.raw, D.its]
    obtain ⟨-, -, ho, -, hw, hk, hs⟩ := h
    refine go_tok _ _ _ (go_append _ _ _ _ (go_head opts ho name hw (item_ds opts ho.1)) (go_one _ _ ?_))
    rw [item, go_append _ _ _ _ (item_ds kids hk.1) (go_end stop)]
    simp only [bind, Except.bind, envBody_ok kids hk stop hs]
  | .lilyEnv t opts name opts' music stop, h => by
    rw [D.raw, D.its]
    obtain ⟨-, -, ho, -, hw, ho', hs, hm⟩ := h
    refine go_tok _ _ _ (go_append _ _ _ _ (go_head opts ho name hw (item_ds opts ho.1)) (go_one _ _ ?_))
    have hg := item_ds opts' ho'.1
    rcases options_cases opts' ho' with rfl | ⟨op', kids, cl, os, rfl, -⟩
    · have e : item.go (ctxRaw .option (D.raw.go []) ++ musicRaw music ++ endRaw stop) = .ok (musicIts music ++ endIts stop) :=
        go_append _ _ _ _ (go_music music) (go_end stop)
      rw [item, e]
      simp only [bind, Except.bind, lily_env_ok' music stop hs hm]
      rfl
    · have e : item (.option (D.raw.go (.option op' kids cl :: os))) =
          .ok (.option ((D.option op' kids cl :: os).map fun o => .node o.tree) []) := by
        rw [item, hg]
        simp only [bind, Except.bind, option_full op' kids cl os ho']
      have e2 : ctxRaw .option (D.raw.go (.option op' kids cl :: os)) = [.option (D.raw.go (.option op' kids cl :: os))] := by
        rw [ctxRaw, opts_raw]
        rfl
      rw [e2, item, go_append _ _ _ _ (go_append _ _ _ _ (go_one _ _ e) (go_music music)) (go_end stop), List.append_assoc]
      simp only [bind, Except.bind, List.cons_append, List.nil_append, lily_env_ok _ music stop hs hm]
  | .lilypond t opts op music cl, h => by
    rw [D.raw, D.its]
    obtain ⟨-, -, ho, hop, -, hc, hm⟩ := h
    refine go_tok _ _ _ (go_append _ _ _ _ (go_short opts ho op hop (item_ds opts ho.1)) (go_one _ _ ?_))
    rw [item, go_append _ _ _ _ (go_music music) (go_tokRaw cl)]
    simp only [bind, Except.bind, lily_short_ok music cl hc hm]
  | .lilyStart t opts, h => by
    rw [D.raw, D.its]
    exact go_tok _ _ _ (go_opts opts h.2.2.1 (item_ds opts h.2.2.1.1))
theorem item_ds : (ds : List D) → D.wf.all ds → item.go (D.raw.go ds) = .ok (D.its.go ds)
  | [], _ => rfl
  | d :: ds, h => go_append _ _ _ _ (item_d d h.1) (item_ds ds h.2)
end

end Quickly.Tex
