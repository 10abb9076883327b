import Verif.PitchTime.Start

/-! # `Rel2abs` always comes to an end -/

namespace Quickly.PitchTime

open Spec
open Quickly.Pitch (PNode)
open Quickly.Rel2abs
open Quickly.Rel2abs.Spec

open Classical in
/-- How many `\relative` nodes were not taken out yet. -/
noncomputable def left (B : Net) (D : Id → Prop) : ℕ := (B.S.filter fun j => decide (B.mem.lab j = .relative ∧ ¬ D j)).length

theorem left_le {B : Net} {D D' : Id → Prop} (h : ∀ j, D j → D' j) : left B D' ≤ left B D := by
  classical
  refine List.Sublist.length_le (List.monotone_filter_right _ fun j => ?_)
  simp only [decide_eq_true_eq]
  exact fun hj => ⟨hj.1, fun hd => hj.2 (h j hd)⟩

theorem filter_lt {α : Type} {p q : α → Bool} : ∀ {l : List α} {a : α}, (∀ j, p j = true → q j = true) → a ∈ l → p a = false → q a = true →
    (l.filter p).length < (l.filter q).length
  | b :: l, a, h, ha, hp, hq => by
    have hle : (l.filter p).length ≤ (l.filter q).length := (List.monotone_filter_right l h).length_le
    rcases List.mem_cons.1 ha with rfl | ha
    · rw [List.filter_cons_of_neg (by simp [hp]), List.filter_cons_of_pos hq, List.length_cons]
      omega
    · have ih := filter_lt h ha hp hq
      rw [List.filter_cons, List.filter_cons]
      by_cases hb : p b = true
      · rw [if_pos hb, if_pos (h b hb)]
        simpa using ih
      · rw [if_neg hb]
        split
        · rw [List.length_cons]; omega
        · exact ih

theorem left_lt {B : Net} {D : Id → Prop} {n : Id} (hn : n ∈ B.S) (hl : B.mem.lab n = .relative) (hd : ¬ D n) :
    left B (fun j => D j ∨ j = n) < left B D := by
  classical
  refine filter_lt (a := n) (fun j => ?_) hn ?_ ?_
  · simp only [decide_eq_true_eq]
    exact fun hj => ⟨hj.1, fun hd => hj.2 (.inl hd)⟩
  · simp
  · simp [hl, hd]

/-- The memory later on: unless a `\relative` was taken out no list has become longer. -/
structure Later (B : Net) (h : Heap) (D : Id → Prop) (h' : Heap) (D' : Id → Prop) : Prop where
  links : Links B h' D'
  more : ∀ j, D j → D' j
  short : left B D' = left B D → ∀ j, (h'.kids j).length ≤ (h.kids j).length

theorem Later.trans {B : Net} {h h1 h2 : Heap} {D D1 D2 : Id → Prop} (a : Later B h D h1 D1) (b : Later B h1 D1 h2 D2) : Later B h D h2 D2 := by
  refine ⟨b.links, fun j hj => b.more j (a.more j hj), fun e j => ?_⟩
  have h1 := left_le (B := B) a.more
  have h2 := left_le (B := B) b.more
  exact (b.short (by omega) j).trans (a.short (by omega) j)

theorem links_consume {B : Net} {h : Heap} {D : Id → Prop} (hi : Links B h D) {n : Id} (hn : n ∈ B.S) {b : Bool} {nd : PNode} {chk : Option ℤ}
    (hl : h.lab n = .note b nd chk) {c : Cfg} {s s' : Sink} {h' : Heap} (e : consume c h n b nd chk s = .ok (h', s')) : Later B h D h' D := by
  cases s with
  | music last =>
    simp only [consume] at e
    split at e
    · cases e
    · rename_i he; cases e; exact ⟨links_note hi hn hl _ (absNote_keeps he), fun _ => id, fun _ _ => le_rfl⟩
  | chord top first =>
    simp only [consume] at e
    split at e
    · cases e
    · rename_i he; cases e; exact ⟨links_note hi hn hl _ (absNote_keeps he), fun _ => id, fun _ _ => le_rfl⟩
  | check last =>
    simp only [consume] at e
    split at e
    · cases e
    · cases e; exact ⟨hi, fun _ => id, fun _ _ => le_rfl⟩

theorem links_lab {B : Net} {h : Heap} {D : Id → Prop} (hi : Links B h D) {n : Id} {l : Lab} (hl : h.lab n = l)
    (hn : ∀ b n chk, l ≠ .note b n chk) : B.mem.lab n = l := by
  rw [(hi.labs n).back (by rw [hl]; exact hn), hl]

theorem lab_links {B : Net} {h : Heap} {D : Id → Prop} (hi : Links B h D) {n : Id} {l : Lab} (hl : B.mem.lab n = l)
    (hn : ∀ b n chk, l ≠ .note b n chk) : h.lab n = l := by
  rw [← (hi.labs n).forth (by rw [hl]; exact hn), hl]

theorem later_refl {B : Net} {h : Heap} {D : Id → Prop} (hi : Links B h D) : Later B h D h D := ⟨hi, fun _ => id, fun _ _ => le_rfl⟩

theorem later_splice {B : Net} {h : Heap} {D : Id → Prop} (hi : Links B h D) {n p : Id} (hn : n ∈ B.S) (hr : n ≠ B.root) (hl : h.lab n = .relative)
    (hp : h.parent n = some p) {i : ℕ} (hi' : (h.kids p).idxOf? n = some i) {c : Cfg} {q : Pitch.Pitch} {nodes : List Id}
    (he : startPitch c h ((h.kids n).filter fun k => h.lab k ≠ .comment) = .ok (q, nodes)) :
    Later B h D (h.splice p i nodes) (fun j => D j ∨ j = n) ∧ left B (fun j => D j ∨ j = n) < left B D ∧ SrcOk B (.own nodes) := by
  have hsp := links_splice hi hn hr hl hp hi' he
  have hlt := left_lt hn (links_lab hi hl (by simp)) hsp.here
  exact ⟨⟨hsp.links, fun j hj => .inl hj, fun e => by omega⟩, hlt, fun k hk => ⟨(hsp.nodes_in k hk).1, (hsp.nodes_in k hk).2.1⟩⟩

theorem run_links (B : Net) (c : Cfg) : ∀ f : ℕ,
    (∀ h D s src i h' s', Links B h D → SrcOk B src → loop c B.root f h s src i = some (.ok (h', s')) → ∃ D', Later B h D h' D') ∧
    (∀ h D s n h' s', Links B h D → n ∈ B.S → n ≠ B.root → visit c B.root f h s n = some (.ok (h', s')) → ∃ D', Later B h D h' D') ∧
    (∀ h D n h', Links B h D → n ∈ B.S → n ≠ B.root → h.lab n = .relative → makeAbsolute c B.root f h n = some (.ok h') → ∃ D', Later B h D h' D') ∧
    (∀ h D o i h', Links B h D → o ∈ B.S → convertAll c B.root f h o i = some (.ok h') → ∃ D', Later B h D h' D')
  | 0 => by
    refine ⟨?_, ?_, ?_, ?_⟩
    · intro h D s src i h' s' _ _ e; simp [loop] at e
    · intro h D s n h' s' _ _ _ e; simp [visit] at e
    · intro h D n h' _ _ _ _ e; simp [makeAbsolute] at e
    · intro h D o i h' _ _ e; simp [convertAll] at e
  | f + 1 => by
    obtain ⟨ihL, ihV, ihM, ihC⟩ := run_links B c f
    refine ⟨?_, ?_, ?_, ?_⟩
    · intro h D s src i h' s' hs ho e
      rw [loop] at e
      split at e
      · cases e; exact ⟨D, later_refl hs⟩
      · rename_i n hn
        have hk := items_ok hs ho n (List.mem_of_getElem? hn)
        split at e
        · cases e
        · cases e
        · rename_i h1 s1 e1
          obtain ⟨D1, l1⟩ := ihV _ _ _ _ _ _ hs hk.1 hk.2 e1
          obtain ⟨D2, l2⟩ := ihL _ _ _ _ _ _ _ l1.links ho e
          exact ⟨D2, l1.trans l2⟩
    · intro h D s n h' s' hs hn hr e
      cases hl : h.lab n with
      | language l => rw [visit.eq_def] at e; simp only [hl] at e; cases e; exact ⟨D, links_lang hs _, fun _ => id, fun _ _ => le_rfl⟩
      | note b nd chk =>
        rw [visit.eq_def] at e; simp only [hl] at e
        split at e
        · cases e
        · rename_i h1 s1 e1
          have l1 := links_consume hs hn hl e1
          split at e
          · cases e
          · cases e
          · rename_i h2 e2
            cases e
            obtain ⟨D2, l2⟩ := ihC _ _ _ _ _ l1.links B.root_in e2
            exact ⟨D2, l1.trans l2⟩
      | chord =>
        rw [visit.eq_def] at e; simp only [hl] at e
        cases s with
        | music last =>
          simp only at e
          split at e
          · cases e
          · cases e
          · rename_i e1
            cases e
            exact ihL _ _ _ _ _ _ _ hs (show SrcOk B (.live n) from hn) e1
          · cases e
        | chord t fst => cases e
        | check last => cases e
      | check =>
        rw [visit.eq_def] at e; simp only [hl] at e
        cases s with
        | music last =>
          simp only at e
          split at e
          · cases e
          · cases e
          · rename_i h1 last1 e1
            obtain ⟨D1, l1⟩ := ihL _ _ _ _ _ _ _ hs (show SrcOk B (.live n) from hn) e1
            split at e
            · cases e
            · rename_i p hp
              split at e
              · rename_i hk
                cases e
                refine ⟨D1, l1.trans ⟨links_remove l1.links hn hr (lab_links l1.links (links_lab hs hl (by simp)) (by simp)) hp hk,
                  fun _ => id, fun _ j => ?_⟩⟩
                simp only [Heap.remove]
                split
                · rename_i ej; rw [ej]; exact List.erase_sublist.length_le
                · exact le_rfl
              · cases e
          · cases e
        | chord t fst => cases e
        | check last => cases e
      | relative =>
        rw [visit.eq_def] at e; simp only [hl] at e
        split at e
        · cases e
        · cases e
        · rename_i h1 e1
          cases e
          exact ihM _ _ _ _ hs hn hr hl e1
      | skip k => rw [visit.eq_def] at e; simp only [hl] at e; cases e; exact ⟨D, later_refl hs⟩
      | comment => rw [visit.eq_def] at e; simp only [hl] at e; exact ihL _ _ _ _ _ _ _ hs (show SrcOk B (.live n) from hn) e
      | chordmode => rw [visit.eq_def] at e; simp only [hl] at e; exact ihL _ _ _ _ _ _ _ hs (show SrcOk B (.live n) from hn) e
      | other => rw [visit.eq_def] at e; simp only [hl] at e; exact ihL _ _ _ _ _ _ _ hs (show SrcOk B (.live n) from hn) e
    · intro h D n h' hs hn hr hl e
      rw [makeAbsolute] at e
      split at e
      · cases e
      · rename_i p hp
        split at e
        · cases e
        · rename_i i hi
          split at e
          · cases e
          · rename_i last nodes he
            obtain ⟨l1, -, h2⟩ := later_splice hs hn hr hl hp hi he
            split at e
            · cases e
            · cases e
            · rename_i e1
              cases e
              obtain ⟨D2, l2⟩ := ihL _ _ _ _ _ _ _ l1.links h2 e1
              exact ⟨D2, l1.trans l2⟩
    · intro h D o i h' hs ho e
      rw [convertAll] at e
      split at e
      · cases e; exact ⟨D, later_refl hs⟩
      · rename_i n hn
        have hk := kids_ok hs ho n (List.mem_of_getElem? hn)
        split at e
        · cases e
        · cases e
        · rename_i h1 e1
          have : ∃ D1, Later B h D h1 D1 := by
            split at e1
            · rename_i hl; exact ihM _ _ _ _ hs hk.1 hk.2 hl e1
            · exact ihC _ _ _ _ _ hs hk.1 e1
          obtain ⟨D1, l1⟩ := this
          obtain ⟨D2, l2⟩ := ihC _ _ _ _ _ l1.links ho e
          exact ⟨D2, l1.trans l2⟩

/-- With enough steps there is a result. -/
def Ends {α : Type} (x : ℕ → Option α) : Prop := ∃ N r, ∀ f, N ≤ f → x f = some r

theorem ends_now {α : Type} {x : ℕ → Option α} {r : α} (h : ∀ f, x (f + 1) = some r) : Ends x :=
  ⟨1, r, fun f hf => by obtain ⟨f, rfl⟩ := Nat.exists_eq_add_of_le' hf; exact h f⟩

theorem ends_step {α : Type} {x y : ℕ → Option α} (h : ∀ f, x (f + 1) = y f) (hy : Ends y) : Ends x := by
  obtain ⟨N, r, hN⟩ := hy
  refine ⟨N + 1, r, fun f hf => ?_⟩
  obtain ⟨f, rfl⟩ : ∃ g, f = g + 1 := ⟨f - 1, by omega⟩
  rw [h]
  exact hN f (by omega)

/-- One thing after another. -/
theorem ends_then {α β : Type} {x : ℕ → Option (Py α)} {y : ℕ → Option (Py β)} {g : α → ℕ → Option (Py β)} (hx : Ends x)
    (h0 : ∀ f e, x f = some (.error e) → y (f + 1) = some (.error e)) (h1 : ∀ f a, x f = some (.ok a) → y (f + 1) = g a f)
    (hg : ∀ f a, x f = some (.ok a) → Ends (g a)) : Ends y := by
  obtain ⟨N, r, hN⟩ := hx
  cases r with
  | error e =>
    refine ⟨N + 1, .error e, fun f hf => ?_⟩
    obtain ⟨f, rfl⟩ : ∃ g, f = g + 1 := ⟨f - 1, by omega⟩
    exact h0 f e (hN f (by omega))
  | ok a =>
    obtain ⟨M, r, hM⟩ := hg N a (hN N le_rfl)
    refine ⟨max N M + 1, r, fun f hf => ?_⟩
    obtain ⟨f, rfl⟩ : ∃ g, f = g + 1 := ⟨f - 1, by omega⟩
    rw [h1 f a (hN f (by omega))]
    exact hM f (by omega)

/-- How deep the deepest node is, or more. -/
def deep (B : Net) : ℕ := (B.S.map B.rank).sum

theorem le_deep (B : Net) {n : Id} (h : n ∈ B.S) : B.rank n ≤ deep B := List.le_sum_of_mem (List.mem_map_of_mem h)

/-- Everything ends when `R` nodes are left. -/
structure All (B : Net) (c : Cfg) (R : ℕ) : Prop where
  loops : ∀ h D s src i, Links B h D → left B D = R → SrcOk B src → Ends fun f => loop c B.root f h s src i
  make : ∀ h D n, Links B h D → left B D = R → n ∈ B.S → n ≠ B.root → h.lab n = .relative → Ends fun f => makeAbsolute c B.root f h n
  convert : ∀ h D o i, Links B h D → left B D = R → o ∈ B.S → Ends fun f => convertAll c B.root f h o i

section
variable {B : Net} {c : Cfg} {R : ℕ} (ih : ∀ R' < R, All B c R')
include ih

theorem ends_make (h : Heap) (D : Id → Prop) (n : Id) (hs : Links B h D) (hR : left B D = R) (hn : n ∈ B.S) (hr : n ≠ B.root)
    (hl : h.lab n = .relative) : Ends fun f => makeAbsolute c B.root f h n := by
  cases hp : h.parent n with
  | none => exact ends_now (r := .error .attributeError) fun f => by rw [makeAbsolute]; simp only [hp]
  | some p =>
    cases hi : (h.kids p).idxOf? n with
    | none => exact ends_now (r := .error .valueError) fun f => by rw [makeAbsolute]; simp only [hp, hi]
    | some i =>
      cases he : startPitch c h ((h.kids n).filter fun k => h.lab k ≠ .comment) with
      | error e => exact ends_now (r := .error e) fun f => by rw [makeAbsolute]; simp only [hp, hi, he]
      | ok q =>
        obtain ⟨last, nodes⟩ := q
        obtain ⟨l1, hlt, h2⟩ := later_splice hs hn hr hl hp hi he
        have := (ih _ (hR ▸ hlt)).loops _ _ (.music last) (.own nodes) 0 l1.links rfl h2
        refine ends_then (g := fun a _ => some (.ok a.1)) this ?_ ?_ ?_
        · intro f e h0; rw [makeAbsolute]; simp only [hp, hi, he, h0]
        · intro f a h0; rw [makeAbsolute]; simp only [hp, hi, he, h0]
        · intro f a _; exact ⟨0, .ok a.1, fun _ _ => rfl⟩

theorem ends_convert : ∀ (m k : ℕ) (h : Heap) (D : Id → Prop) (o i : ℕ), Links B h D → left B D = R → o ∈ B.S → deep B - B.rank o ≤ m →
    (h.kids o).length - i ≤ k → Ends fun f => convertAll c B.root f h o i := by
  intro m
  induction m using Nat.strong_induction_on with
  | _ m ihm =>
  intro k
  induction k with
  | zero =>
    intro h D o i hs hR ho hm hk
    refine ends_now (r := .ok h) fun f => ?_
    rw [convertAll, List.getElem?_eq_none (by omega)]
  | succ k ihk =>
    intro h D o i hs hR ho hm hk
    cases hg : (h.kids o)[i]? with
    | none => exact ends_now (r := .ok h) fun f => by rw [convertAll]; simp only [hg]
    | some n =>
      have hlt : i < (h.kids o).length := by
        by_contra hc
        rw [List.getElem?_eq_none (by omega)] at hg
        cases hg
      have hmem := List.mem_of_getElem? hg
      have hk1 := kids_ok hs ho n hmem
      have hk2 := (hs.closed o ho n hmem).2
      have hk3 := le_deep B hk1.1
      have hx : Ends fun f => if h.lab n = .relative then makeAbsolute c B.root f h n else convertAll c B.root f h n 0 := by
        by_cases hl : h.lab n = .relative
        · simp only [hl, if_true]; exact ends_make ih h D n hs hR hk1.1 hk1.2 hl
        · simp only [hl, if_false]; exact ihm (deep B - B.rank n) (by omega) _ h D n 0 hs hR hk1.1 le_rfl le_rfl
      refine ends_then (g := fun a f => convertAll c B.root f a o (i + 1)) hx ?_ ?_ ?_
      · intro f e h0; rw [convertAll]; simp only [hg, h0]
      · intro f a h0; rw [convertAll]; simp only [hg, h0]
      · intro f a h0
        have : ∃ D1, Later B h D a D1 := by
          split at h0
          · rename_i hl; exact (run_links B c f).2.2.1 _ _ _ _ hs hk1.1 hk1.2 hl h0
          · exact (run_links B c f).2.2.2 _ _ _ _ _ hs hk1.1 h0
        obtain ⟨D1, l1⟩ := this
        have hle := left_le (B := B) l1.more
        by_cases e : left B D1 = left B D
        · have := l1.short e o
          exact ihk _ _ _ _ l1.links (e.trans hR) ho hm (by omega)
        · exact (ih (left B D1) (by omega)).convert _ _ _ _ l1.links rfl ho

theorem ends_loop (src : Src) (ho : SrcOk B src)
    (hv : ∀ h D, Links B h D → left B D = R → ∀ n ∈ src.items h, ∀ s, Ends fun f => visit c B.root f h s n) :
    ∀ (k : ℕ) (h : Heap) (D : Id → Prop) (s : Sink) (i : ℕ), Links B h D → left B D = R → (src.items h).length - i ≤ k →
      Ends fun f => loop c B.root f h s src i := by
  intro k
  induction k with
  | zero =>
    intro h D s i hs hR hk
    refine ends_now (r := .ok (h, s)) fun f => ?_
    rw [loop, List.getElem?_eq_none (by omega)]
  | succ k ihk =>
    intro h D s i hs hR hk
    cases hg : (src.items h)[i]? with
    | none => exact ends_now (r := .ok (h, s)) fun f => by rw [loop]; simp only [hg]
    | some n =>
      have hlt : i < (src.items h).length := by
        by_contra hc
        rw [List.getElem?_eq_none (by omega)] at hg
        cases hg
      have hmem := List.mem_of_getElem? hg
      have hk1 := items_ok hs ho n hmem
      refine ends_then (g := fun a f => loop c B.root f a.1 a.2 src (i + 1)) (hv h D hs hR n hmem s) ?_ ?_ ?_
      · intro f e h0; rw [loop]; simp only [hg, h0]
      · intro f a h0; rw [loop]; simp only [hg, h0]
      · intro f a h0
        obtain ⟨D1, l1⟩ := (run_links B c f).2.1 _ _ _ _ _ _ hs hk1.1 hk1.2 h0
        have hle := left_le (B := B) l1.more
        by_cases e : left B D1 = left B D
        · refine ihk _ _ _ _ l1.links (e.trans hR) ?_
          have : (src.items a.1).length ≤ (src.items h).length := by
            cases src with
            | live o => exact l1.short e o
            | own l => exact le_rfl
          omega
        · exact (ih (left B D1) (by omega)).loops _ _ _ _ _ l1.links rfl ho

theorem ends_visit : ∀ (m : ℕ) (h : Heap) (D : Id → Prop) (s : Sink) (n : Id), Links B h D → left B D = R → n ∈ B.S → n ≠ B.root →
    deep B - B.rank n ≤ m → Ends fun f => visit c B.root f h s n := by
  intro m
  induction m using Nat.strong_induction_on with
  | _ m ihm =>
  intro h D s n hs hR hn hr hm
  have hloop : ∀ s, Ends fun f => loop c B.root f h s (.live n) 0 := by
    intro s
    refine ends_loop ih (.live n) hn ?_ _ h D s 0 hs hR le_rfl
    intro h1 D1 hs1 hR1 k hk s1
    have hk1 := kids_ok hs1 hn k hk
    have hk2 := (hs1.closed n hn k hk).2
    have hk3 := le_deep B hk1.1
    exact ihm (deep B - B.rank k) (by omega) h1 D1 s1 k hs1 hR1 hk1.1 hk1.2 le_rfl
  cases hl : h.lab n with
  | language l => exact ends_now (r := .ok ({ h with lang := l }, s)) fun f => by rw [visit.eq_def]; simp only [hl]
  | note b nd chk =>
    cases he : consume c h n b nd chk s with
    | error e => exact ends_now (r := .error e) fun f => by rw [visit.eq_def]; simp only [hl, he]
    | ok q =>
      obtain ⟨h1, s1⟩ := q
      have l1 := links_consume hs hn hl he
      refine ends_then (g := fun a _ => some (.ok (a, s1))) (ends_convert ih _ _ h1 D B.root 0 l1.links hR B.root_in le_rfl le_rfl) ?_ ?_ ?_
      · intro f e h0; rw [visit.eq_def]; simp only [hl, he, h0]
      · intro f a h0; rw [visit.eq_def]; simp only [hl, he, h0]
      · intro f a _; exact ⟨0, _, fun _ _ => rfl⟩
  | chord =>
    cases s with
    | music last =>
      refine ends_then (g := fun a _ => match a with
        | (h, .chord _ first) => some (.ok (h, .music (first.getD last)))
        | (_, _) => some (.error .runtimeError)) (hloop (.chord last none)) ?_ ?_ ?_
      · intro f e h0; rw [visit.eq_def]; simp only [hl, h0]
      · rintro f ⟨a, s⟩ h0; rw [visit.eq_def]; simp only [hl, h0]; cases s <;> rfl
      · rintro f ⟨a, s⟩ _; cases s <;> exact ⟨0, _, fun _ _ => rfl⟩
    | chord t fst => exact ends_now (r := .error .attributeError) fun f => by rw [visit.eq_def]; simp only [hl]
    | check last => exact ends_now (r := .error .attributeError) fun f => by rw [visit.eq_def]; simp only [hl]
  | check =>
    cases s with
    | music last =>
      refine ends_then (g := fun a _ => match a with
        | (h, .check last) => match h.parent n with
          | none => some (.error .attributeError)
          | some p => if n ∈ h.kids p then some (.ok (h.remove p n, .music last)) else some (.error .valueError)
        | (_, _) => some (.error .runtimeError)) (hloop (.check last)) ?_ ?_ ?_
      · intro f e h0; rw [visit.eq_def]; simp only [hl, h0]
      · rintro f ⟨a, s⟩ h0; rw [visit.eq_def]; simp only [hl, h0]; cases s <;> rfl
      · rintro f ⟨a, s⟩ _
        cases s with
        | music l => exact ⟨0, _, fun _ _ => rfl⟩
        | chord t l => exact ⟨0, _, fun _ _ => rfl⟩
        | check l =>
          simp only
          cases a.parent n with
          | none => exact ⟨0, _, fun _ _ => rfl⟩
          | some p => simp only; split <;> exact ⟨0, _, fun _ _ => rfl⟩
    | chord t fst => exact ends_now (r := .error .attributeError) fun f => by rw [visit.eq_def]; simp only [hl]
    | check last => exact ends_now (r := .error .attributeError) fun f => by rw [visit.eq_def]; simp only [hl]
  | relative =>
    refine ends_then (g := fun a _ => some (.ok (a, s))) (ends_make ih h D n hs hR hn hr hl) ?_ ?_ ?_
    · intro f e h0; rw [visit.eq_def]; simp only [hl, h0]
    · intro f a h0; rw [visit.eq_def]; simp only [hl, h0]
    · intro f a _; exact ⟨0, _, fun _ _ => rfl⟩
  | skip k => exact ends_now (r := .ok (h, s)) fun f => by rw [visit.eq_def]; simp only [hl]
  | comment => exact ends_step (fun f => by rw [visit.eq_def]; simp only [hl]) (hloop s)
  | chordmode => exact ends_step (fun f => by rw [visit.eq_def]; simp only [hl]) (hloop s)
  | other => exact ends_step (fun f => by rw [visit.eq_def]; simp only [hl]) (hloop s)

end

theorem all_end (B : Net) (c : Cfg) (R : ℕ) : All B c R := by
  induction R using Nat.strong_induction_on with
  | _ R ih =>
  refine ⟨?_, fun h D n => ends_make ih h D n, fun h D o i hs hR ho => ends_convert ih _ _ h D o i hs hR ho le_rfl le_rfl⟩
  intro h D s src i hs hR ho
  refine ends_loop ih src ho ?_ _ h D s i hs hR le_rfl
  intro h1 D1 hs1 hR1 n hn s1
  have hk := items_ok hs1 ho n hn
  exact ends_visit ih _ h1 D1 s1 n hs1 hR1 hk.1 hk.2 le_rfl

theorem edit_links (B : Net) (c : Cfg) (sel : Sel) : ∀ (f : ℕ) (h : Heap) (D : Id → Prop) (o stop i : ℕ) (h' : Heap), Links B h D → o ∈ B.S →
    editLoop c sel B.root f h o stop i = some (.ok h') → ∃ D', Links B h' D'
  | 0, h, D, o, stop, i, h', _, _, e => by simp [editLoop] at e
  | f + 1, h, D, o, stop, i, h', hs, ho, e => by
    rw [editLoop] at e
    split at e
    · split at e
      · cases e
      · rename_i n hn
        have hk := kids_ok hs ho n (List.mem_of_getElem? hn)
        split at e
        · cases e
        · cases e
        · rename_i h1 e1
          have : ∃ D1, Links B h1 D1 := by
            rw [editNode] at e1
            split at e1
            · split at e1
              · cases e1; exact ⟨D, links_lang hs _⟩
              · rename_i hl
                split at e1
                · obtain ⟨D1, l1⟩ := (run_links B c f).2.2.1 _ _ _ _ hs hk.1 hk.2 hl e1
                  exact ⟨D1, l1.links⟩
                · cases e1; exact ⟨D, hs⟩
              · exact edit_links B c sel f _ _ _ _ _ _ hs hk.1 e1
            · cases e1; exact ⟨D, hs⟩
          obtain ⟨D1, l1⟩ := this
          exact edit_links B c sel f _ _ _ _ _ _ l1 ho e
    · cases e; exact ⟨D, hs⟩

theorem edit_ends (B : Net) (c : Cfg) (sel : Sel) : ∀ (m k : ℕ) (h : Heap) (D : Id → Prop) (o stop i : ℕ), Links B h D → o ∈ B.S →
    deep B - B.rank o ≤ m → stop - i ≤ k → Ends fun f => editLoop c sel B.root f h o stop i := by
  intro m
  induction m using Nat.strong_induction_on with
  | _ m ihm =>
  intro k
  induction k with
  | zero =>
    intro h D o stop i hs ho hm hk
    exact ends_now (r := .ok h) fun f => by rw [editLoop, if_neg (by omega)]
  | succ k ihk =>
    intro h D o stop i hs ho hm hk
    by_cases hlt : i < stop
    · cases hg : (h.kids o)[i]? with
      | none => exact ends_now (r := .error .indexError) fun f => by rw [editLoop, if_pos hlt]; simp only [hg]
      | some n =>
        have hmem := List.mem_of_getElem? hg
        have hk1 := kids_ok hs ho n hmem
        have hk2 := (hs.closed o ho n hmem).2
        have hk3 := le_deep B hk1.1
        have hin : Ends fun f => editLoop c sel B.root f h n (h.kids n).length 0 :=
          ihm (deep B - B.rank n) (by omega) _ h D n _ 0 hs hk1.1 le_rfl le_rfl
        have hx : Ends fun f => editNode c sel B.root f h n (editLoop c sel B.root f h n (h.kids n).length 0) := by
          simp only [editNode]
          split
          · split
            · exact ⟨0, _, fun _ _ => rfl⟩
            · rename_i hl
              split
              · exact (all_end B c _).make h D n hs rfl hk1.1 hk1.2 hl
              · exact ⟨0, _, fun _ _ => rfl⟩
            · exact hin
          · exact ⟨0, _, fun _ _ => rfl⟩
        refine ends_then (g := fun a f => editLoop c sel B.root f a o stop (i + 1)) hx ?_ ?_ ?_
        · intro f e h0; rw [editLoop, if_pos hlt]; simp only [hg, h0]
        · intro f a h0; rw [editLoop, if_pos hlt]; simp only [hg, h0]
        · intro f a h0
          have : ∃ D1, Links B a D1 := by
            rw [editNode] at h0
            split at h0
            · split at h0
              · cases h0; exact ⟨D, links_lang hs _⟩
              · rename_i hl
                split at h0
                · obtain ⟨D1, l1⟩ := (run_links B c f).2.2.1 _ _ _ _ hs hk1.1 hk1.2 hl h0
                  exact ⟨D1, l1.links⟩
                · cases h0; exact ⟨D, hs⟩
              · exact edit_links B c sel f _ _ _ _ _ _ hs hk1.1 h0
            · cases h0; exact ⟨D, hs⟩
          obtain ⟨D1, l1⟩ := this
          exact ihk _ _ _ _ _ l1 ho hm (by omega)
    · exact ends_now (r := .ok h) fun f => by rw [editLoop, if_neg hlt]

/-- More steps do not change the result. -/
theorem run_more (c : Cfg) (root : Id) : ∀ f : ℕ,
    (∀ h s src i r, loop c root f h s src i = some r → loop c root (f + 1) h s src i = some r) ∧
    (∀ h s n r, visit c root f h s n = some r → visit c root (f + 1) h s n = some r) ∧
    (∀ h n r, makeAbsolute c root f h n = some r → makeAbsolute c root (f + 1) h n = some r) ∧
    (∀ h o i r, convertAll c root f h o i = some r → convertAll c root (f + 1) h o i = some r)
  | 0 => by
    refine ⟨?_, ?_, ?_, ?_⟩
    · intro h s src i r e; simp [loop] at e
    · intro h s n r e; simp [visit] at e
    · intro h n r e; simp [makeAbsolute] at e
    · intro h o i r e; simp [convertAll] at e
  | f + 1 => by
    obtain ⟨ihL, ihV, ihM, ihC⟩ := run_more c root f
    refine ⟨?_, ?_, ?_, ?_⟩
    · intro h s src i r e
      rw [loop] at e ⊢
      split at e
      · exact e
      · rename_i n hg
        split at e
        · cases e
        · rename_i e1; rw [ihV _ _ _ _ e1]; exact e
        · rename_i e1; rw [ihV _ _ _ _ e1]; exact ihL _ _ _ _ _ e
    · intro h s n r e
      rw [visit.eq_def] at e ⊢
      cases hl : h.lab n with
      | note b nd chk =>
        simp only [hl] at e ⊢
        split at e
        · exact e
        · rename_i e1
          split at e
          · cases e
          · rename_i e2; rw [ihC _ _ _ _ e2]; exact e
          · rename_i e2; rw [ihC _ _ _ _ e2]; exact e
      | chord =>
        simp only [hl] at e ⊢
        cases s with
        | music last =>
          simp only at e ⊢
          cases e1 : loop c root f h (.chord last none) (.live n) 0 with
          | none => rw [e1] at e; cases e
          | some q => rw [ihL _ _ _ _ _ e1]; rw [e1] at e; exact e
        | chord t fst => exact e
        | check last => exact e
      | check =>
        simp only [hl] at e ⊢
        cases s with
        | music last =>
          simp only at e ⊢
          cases e1 : loop c root f h (.check last) (.live n) 0 with
          | none => rw [e1] at e; cases e
          | some q => rw [ihL _ _ _ _ _ e1]; rw [e1] at e; exact e
        | chord t fst => exact e
        | check last => exact e
      | relative =>
        simp only [hl] at e ⊢
        cases e1 : makeAbsolute c root f h n with
        | none => rw [e1] at e; cases e
        | some q => rw [ihM _ _ _ e1]; rw [e1] at e; exact e
      | language l => simp only [hl] at e ⊢; exact e
      | skip k => simp only [hl] at e ⊢; exact e
      | comment => simp only [hl] at e ⊢; exact ihL _ _ _ _ _ e
      | chordmode => simp only [hl] at e ⊢; exact ihL _ _ _ _ _ e
      | other => simp only [hl] at e ⊢; exact ihL _ _ _ _ _ e
    · intro h n r e
      rw [makeAbsolute] at e ⊢
      split at e
      · exact e
      · rename_i p hp
        split at e
        · exact e
        · rename_i i hi
          split at e
          · exact e
          · rename_i last nodes he
            cases e1 : loop c root f (h.splice p i nodes) (.music last) (.own nodes) 0 with
            | none => rw [e1] at e; cases e
            | some q => rw [ihL _ _ _ _ _ e1]; rw [e1] at e; exact e
    · intro h o i r e
      rw [convertAll] at e ⊢
      split at e
      · exact e
      · rename_i n hg
        have hx : ∀ q, (if h.lab n = .relative then makeAbsolute c root f h n else convertAll c root f h n 0) = some q →
            (if h.lab n = .relative then makeAbsolute c root (f + 1) h n else convertAll c root (f + 1) h n 0) = some q := by
          intro q hq
          split at hq
          · rename_i hl; rw [if_pos hl]; exact ihM _ _ _ hq
          · rename_i hl; rw [if_neg hl]; exact ihC _ _ _ _ hq
        split at e
        · cases e
        · rename_i e1; rw [hx _ e1]; exact e
        · rename_i e1; rw [hx _ e1]; exact ihC _ _ _ _ e

theorem edit_more (c : Cfg) (sel : Sel) (root : Id) : ∀ (f : ℕ) (h : Heap) (o stop i : ℕ) (r : Py Heap),
    editLoop c sel root f h o stop i = some r → editLoop c sel root (f + 1) h o stop i = some r
  | 0, h, o, stop, i, r, e => by simp [editLoop] at e
  | f + 1, h, o, stop, i, r, e => by
    rw [editLoop] at e ⊢
    split at e
    · rename_i hlt
      rw [if_pos hlt]
      split at e
      · exact e
      · rename_i n hg
        have hx : ∀ q, editNode c sel root f h n (editLoop c sel root f h n (h.kids n).length 0) = some q →
            editNode c sel root (f + 1) h n (editLoop c sel root (f + 1) h n (h.kids n).length 0) = some q := by
          intro q hq
          simp only [editNode] at hq ⊢
          by_cases ht : sel.touched n = true
          · rw [if_pos ht] at hq ⊢
            cases hl : h.lab n with
            | relative =>
              simp only [hl] at hq ⊢
              split at hq
              · rename_i hin; rw [if_pos hin]; exact (run_more c root f).2.2.1 _ _ _ hq
              · rename_i hin; rw [if_neg hin]; exact hq
            | language l => simp only [hl] at hq ⊢; exact hq
            | note b nd chk => simp only [hl] at hq ⊢; exact edit_more c sel root f _ _ _ _ _ hq
            | chord => simp only [hl] at hq ⊢; exact edit_more c sel root f _ _ _ _ _ hq
            | check => simp only [hl] at hq ⊢; exact edit_more c sel root f _ _ _ _ _ hq
            | skip k => simp only [hl] at hq ⊢; exact edit_more c sel root f _ _ _ _ _ hq
            | comment => simp only [hl] at hq ⊢; exact edit_more c sel root f _ _ _ _ _ hq
            | chordmode => simp only [hl] at hq ⊢; exact edit_more c sel root f _ _ _ _ _ hq
            | other => simp only [hl] at hq ⊢; exact edit_more c sel root f _ _ _ _ _ hq
          · rw [if_neg ht] at hq ⊢; exact hq
        split at e
        · cases e
        · rename_i e1; rw [hx _ e1]; exact e
        · rename_i e1; rw [hx _ e1]; exact edit_more c sel root f _ _ _ _ _ e
    · rename_i hlt; rw [if_neg hlt]; exact e

theorem range_more (c : Cfg) (sel : Sel) (h : Heap) (root : Id) (r : Py Heap) (f : ℕ) (e : editRange c sel f h root = some r) :
    ∀ k, editRange c sel (f + k) h root = some r
  | 0 => e
  | k + 1 => edit_more c sel root (f + k) _ _ _ _ _ (range_more c sel h root r f e k)

/-- The edit comes to an end. -/
theorem range_ends (c : Cfg) (sel : Sel) (h : Heap) (i : Id) (l : Lab) (ks : List Doc) (hs : Shows h (.node i l ks))
    (hn : (ids (.node i l ks)).Nodup) : ∃ N r, ∀ f, N ≤ f → editRange c sel f h i = some r := by
  obtain ⟨B, -, rfl, -, hl⟩ := net_of hs hn
  exact edit_ends B c sel _ _ h _ B.root _ 0 hl B.root_in le_rfl le_rfl

end Quickly.PitchTime
