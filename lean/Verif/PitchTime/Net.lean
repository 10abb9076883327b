import Verif.Rel2abs.Final

/-! # What is true of the links between the nodes, whatever `Rel2abs` does -/

namespace Quickly.PitchTime

open Quickly.Pitch (PNode)
open Quickly.Rel2abs

/-- The label of a node that was `l`: only the name and the octave of a note may be others. -/
def Almost (l l' : Lab) : Prop := l = l' ∨ ∃ b n n' chk, l = .note b n chk ∧ l' = .note b n' chk

theorem Almost.trans {a b c : Lab} (h1 : Almost a b) (h2 : Almost b c) : Almost a c := by
  rcases h1 with rfl | ⟨b1, n1, n2, c1, rfl, rfl⟩
  · exact h2
  · rcases h2 with rfl | ⟨b2, n3, n4, c2, e, rfl⟩
    · exact .inr ⟨_, _, _, _, rfl, rfl⟩
    · cases e; exact .inr ⟨_, _, _, _, rfl, rfl⟩

theorem Almost.back {l l' : Lab} (h : Almost l l') (hn : ∀ b n chk, l' ≠ .note b n chk) : l = l' := by
  rcases h with e | ⟨_, _, _, _, _, e⟩
  · exact e
  · exact absurd e (hn _ _ _)

theorem Almost.forth {l l' : Lab} (h : Almost l l') (hn : ∀ b n chk, l ≠ .note b n chk) : l = l' := by
  rcases h with e | ⟨_, _, _, _, e, _⟩
  · exact e
  · exact absurd e (hn _ _ _)

/-- What stays the same: the nodes `S` of the document that was given, its root, how deep the nodes are, and how the memory was. -/
structure Net where
  S : List Id
  root : Id
  rank : Id → ℕ
  mem : Heap
  root_in : root ∈ S
  root_le : ∀ j ∈ S, rank root ≤ rank j

/-- What is true all the time; `D` are the `\relative` nodes that were taken out. -/
structure Links (B : Net) (h : Heap) (D : Id → Prop) : Prop where
  closed : ∀ j ∈ B.S, ∀ k ∈ h.kids j, k ∈ B.S ∧ B.rank j < B.rank k
  up : ∀ k ∈ B.S, k ≠ B.root → ∃ j ∈ B.S, h.parent k = some j
  linked : ∀ j ∈ B.S, ¬ D j → (h.kids j).Nodup ∧ ∀ k ∈ h.kids j, h.parent k = some j ∧ ¬ D k
  dead : ∀ j, D j → ∀ k ∈ h.kids j, h.parent k = some j → h.lab k = .comment ∨ ∃ b n chk, h.lab k = .note b n chk
  labs : ∀ j, Almost (B.mem.lab j) (h.lab j)
  out : ∀ j ∉ B.S, h.lab j = B.mem.lab j ∧ h.kids j = B.mem.kids j ∧ h.parent j = B.mem.parent j
  top : h.parent B.root = B.mem.parent B.root

theorem links_note {B : Net} {h : Heap} {D : Id → Prop} (hi : Links B h D) {n : Id} (hnS : n ∈ B.S) {b : Bool} {nd : PNode} {chk : Option ℤ}
    (hl : h.lab n = .note b nd chk) (x : Relative.Note) (hx : x.check = chk) : Links B (h.setNote n b x) D := by
  have hd : ∀ j, D j → ∀ k ∈ (h.setNote n b x).kids j, (h.setNote n b x).parent k = some j →
      (h.setNote n b x).lab k = .comment ∨ ∃ b' n' chk', (h.setNote n b x).lab k = .note b' n' chk' := by
    intro j hj k hk hp
    by_cases e : k = n
    · exact .inr ⟨b, x.node, x.check, by simp [Heap.setNote, e]⟩
    · have : (h.setNote n b x).lab k = h.lab k := by simp [Heap.setNote, e]
      rw [this]
      exact hi.dead j hj k hk hp
  have hlb : ∀ j, Almost (B.mem.lab j) ((h.setNote n b x).lab j) := by
    intro j
    refine (hi.labs j).trans ?_
    by_cases e : j = n
    · subst e
      exact .inr ⟨b, nd, x.node, chk, hl, by simp [Heap.setNote, hx]⟩
    · exact .inl (by simp [Heap.setNote, e])
  have hout : ∀ j ∉ B.S, (h.setNote n b x).lab j = B.mem.lab j ∧ (h.setNote n b x).kids j = B.mem.kids j ∧ (h.setNote n b x).parent j = B.mem.parent j := by
    intro j hj
    have hne : j ≠ n := fun e => hj (e ▸ hnS)
    have := hi.out j hj
    exact ⟨by rw [← this.1]; simp [Heap.setNote, hne], this.2.1, this.2.2⟩
  exact ⟨hi.closed, hi.up, hi.linked, hd, hlb, hout, hi.top⟩

theorem links_lang {B : Net} {h : Heap} {D : Id → Prop} (hi : Links B h D) (L : Pitch.Str) : Links B { h with lang := L } D :=
  ⟨hi.closed, hi.up, hi.linked, hi.dead, hi.labs, hi.out, hi.top⟩

theorem erase_mid {a b : List ℕ} {n : ℕ} (h : (a ++ n :: b).Nodup) : (a ++ n :: b).erase n = a ++ b := by
  have : n ∉ a := by
    rw [List.nodup_append] at h
    exact fun hn => h.2.2 n hn n (by simp) rfl
  rw [List.erase_append_right _ this, List.erase_cons_head]

/-- The parent of a node that is in a list. -/
theorem parent_ok {B : Net} {h : Heap} {D : Id → Prop} (hi : Links B h D) {n p : Id} (hn : n ∈ B.S) (hr : n ≠ B.root)
    (hp : h.parent n = some p) (hk : n ∈ h.kids p) (hl : h.lab n = .check ∨ h.lab n = .relative) : p ∈ B.S ∧ ¬ D p ∧ ¬ D n := by
  obtain ⟨j, hj, e⟩ := hi.up n hn hr
  rw [hp, Option.some.injEq] at e
  subst e
  have hd : ¬ D p := by
    intro hd
    have := hi.dead p hd n hk hp
    rcases hl with hl | hl <;> simp [hl] at this
  exact ⟨hj, hd, ((hi.linked p hj hd).2 n hk).2⟩

theorem links_remove {B : Net} {h : Heap} {D : Id → Prop} (hi : Links B h D) {n p : Id} (hn : n ∈ B.S) (hr : n ≠ B.root) (hl : h.lab n = .check)
    (hp : h.parent n = some p) (hk : n ∈ h.kids p) : Links B (h.remove p n) D := by
  obtain ⟨hpS, hpD, hnD⟩ := parent_ok hi hn hr hp hk (.inl hl)
  have hsub : ∀ j, ((h.remove p n).kids j).Sublist (h.kids j) := by
    intro j
    simp only [Heap.remove]
    split
    · rename_i e; rw [e]; exact List.erase_sublist
    · exact List.Sublist.refl _
  have hc : ∀ j ∈ B.S, ∀ k ∈ (h.remove p n).kids j, k ∈ B.S ∧ B.rank j < B.rank k := fun j hj k hk => hi.closed j hj k ((hsub j).subset hk)
  have hli : ∀ j ∈ B.S, ¬ D j → ((h.remove p n).kids j).Nodup ∧ ∀ k ∈ (h.remove p n).kids j, (h.remove p n).parent k = some j ∧ ¬ D k :=
    fun j hj hd => ⟨(hi.linked j hj hd).1.sublist (hsub j), fun k hk => (hi.linked j hj hd).2 k ((hsub j).subset hk)⟩
  have hd : ∀ j, D j → ∀ k ∈ (h.remove p n).kids j, (h.remove p n).parent k = some j →
      (h.remove p n).lab k = .comment ∨ ∃ b' n' chk', (h.remove p n).lab k = .note b' n' chk' :=
    fun j hj k hk hp => hi.dead j hj k ((hsub j).subset hk) hp
  have hout : ∀ j ∉ B.S, (h.remove p n).lab j = B.mem.lab j ∧ (h.remove p n).kids j = B.mem.kids j ∧ (h.remove p n).parent j = B.mem.parent j := by
    intro j hj
    have hne : j ≠ p := fun e => hj (e ▸ hpS)
    have := hi.out j hj
    exact ⟨this.1, by rw [← this.2.1]; simp [Heap.remove, hne], this.2.2⟩
  exact ⟨hc, hi.up, hli, hd, hi.labs, hout, hi.top⟩

theorem start_sub {c : Cfg} {h : Heap} {ns : List Id} {q : Pitch.Pitch} {nodes : List Id} (e : startPitch c h ns = .ok (q, nodes)) :
    nodes.Sublist ns ∧ ∀ k ∈ ns, k ∉ nodes → ∃ b nd chk, h.lab k = .note b nd chk := by
  unfold startPitch at e
  split at e
  · rename_i s m ms
    split at e
    · rename_i nd chk hl
      split at e
      · cases e
      · cases e
        refine ⟨List.sublist_cons_self _ _, fun k hk hn => ?_⟩
        rcases List.mem_cons.1 hk with rfl | hk
        · exact ⟨_, _, _, hl⟩
        · exact absurd hk hn
    · cases e
      exact ⟨List.Sublist.refl _, fun k hk hn => absurd hk hn⟩
  · cases e
    exact ⟨List.Sublist.refl _, fun k hk hn => absurd hk hn⟩

theorem idx_split {xs : List ℕ} {n i : ℕ} (h : xs.idxOf? n = some i) : xs[i]? = some n := by
  rw [List.idxOf?_eq_some_iff] at h
  obtain ⟨hlt, e, -⟩ := h
  rw [List.getElem?_eq_getElem hlt]
  simpa using e

theorem split_mid {a b : List ℕ} {n i : ℕ} (hn : (a ++ n :: b).Nodup) (h : (a ++ n :: b)[i]? = some n) :
    (a ++ n :: b).take i = a ∧ (a ++ n :: b).drop (i + 1) = b := by
  have hlt : i < (a ++ n :: b).length := by
    by_contra hc
    rw [List.getElem?_eq_none (by omega)] at h
    cases h
  have e : (a ++ n :: b)[a.length]? = some n := by simp
  have : i = a.length := (List.getElem?_inj hlt hn).1 (h.trans e.symm)
  subst this
  simp

/-- A `\relative` is replaced by the nodes. -/
structure Spliced (B : Net) (h : Heap) (D : Id → Prop) (n p : Id) (i : ℕ) (nodes : List Id) : Prop where
  links : Links B (h.splice p i nodes) fun j => D j ∨ j = n
  here : ¬ D n
  parent_in : p ∈ B.S ∧ ¬ D p
  mem : n ∈ h.kids p
  nodes_in : ∀ k ∈ nodes, k ∈ B.S ∧ k ≠ B.root ∧ h.parent k = some n
  kids_ne : ∀ j, j ≠ p → (h.splice p i nodes).kids j = h.kids j
  parent_ne : ∀ j, j ∉ nodes → (h.splice p i nodes).parent j = h.parent j
  parent_nodes : ∀ j ∈ nodes, (h.splice p i nodes).parent j = some p
  kids : ∀ A C, h.kids p = A ++ n :: C → (h.splice p i nodes).kids p = A ++ (nodes ++ C)

theorem links_splice {B : Net} {h : Heap} {D : Id → Prop} (hi : Links B h D) {n p : Id} (hn : n ∈ B.S) (hr : n ≠ B.root) (hl : h.lab n = .relative)
    (hp : h.parent n = some p) {i : ℕ} (hi' : (h.kids p).idxOf? n = some i) {c : Cfg} {q : Pitch.Pitch} {nodes : List Id}
    (he : startPitch c h ((h.kids n).filter fun k => h.lab k ≠ .comment) = .ok (q, nodes)) : Spliced B h D n p i nodes := by
  have hix := idx_split hi'
  have hk : n ∈ h.kids p := List.mem_of_getElem? hix
  obtain ⟨hpS, hpD, hnD⟩ := parent_ok hi hn hr hp hk (.inr hl)
  obtain ⟨he1, he2⟩ := start_sub he
  have hsubn : nodes.Sublist (h.kids n) := he1.trans List.filter_sublist
  have hrank := (hi.closed p hpS n hk).2
  have hpn : p ≠ n := fun e => by rw [e] at hrank; exact lt_irrefl _ hrank
  have hnodes : ∀ k ∈ nodes, k ∈ B.S ∧ B.rank n < B.rank k ∧ h.parent k = some n ∧ ¬ D k := by
    intro k hk
    have h1 := hi.closed n hn k (hsubn.subset hk)
    have h2 := (hi.linked n hn hnD).2 k (hsubn.subset hk)
    exact ⟨h1.1, h1.2, h2.1, h2.2⟩
  have hnod := (hi.linked p hpS hpD).1
  obtain ⟨A, C, eAC⟩ : ∃ A C, h.kids p = A ++ n :: C := List.append_of_mem hk
  have hsp : (h.kids p).take i = A ∧ (h.kids p).drop (i + 1) = C := by
    rw [eAC] at hnod hix ⊢
    exact split_mid hnod hix
  have hkp : (h.splice p i nodes).kids p = A ++ (nodes ++ C) := by
    simp only [Heap.splice, if_true]
    rw [hsp.1, hsp.2, List.append_assoc]
  have hkj : ∀ j, j ≠ p → (h.splice p i nodes).kids j = h.kids j := fun j hj => by simp [Heap.splice, hj]
  have hpj : ∀ j, j ∉ nodes → (h.splice p i nodes).parent j = h.parent j := fun j hj => by simp [Heap.splice, hj]
  have hpk : ∀ j ∈ nodes, (h.splice p i nodes).parent j = some p := fun j hj => by simp [Heap.splice, hj]
  have hold : ∀ k, k ∈ A ∨ k ∈ C → k ∈ h.kids p ∧ k ≠ n ∧ k ∉ nodes := by
    intro k hac
    have h1 : k ∈ h.kids p := by rw [eAC]; simp only [List.mem_append, List.mem_cons]; tauto
    refine ⟨h1, ?_, ?_⟩
    · rintro rfl
      rw [eAC, List.nodup_append, List.nodup_cons] at hnod
      rcases hac with hac | hac
      · exact hnod.2.2 k hac k (by simp) rfl
      · exact hnod.2.1.1 hac
    · intro hc
      have := ((hi.linked p hpS hpD).2 k h1).1
      rw [(hnodes k hc).2.2.1, Option.some.injEq] at this
      exact hpn this.symm
  have hkp2 : ∀ k ∈ (h.splice p i nodes).kids p, (k ∈ nodes) ∨ (k ∈ h.kids p ∧ k ≠ n ∧ k ∉ nodes) := by
    intro k hk
    rw [hkp] at hk
    simp only [List.mem_append] at hk
    rcases hk with hk | hk | hk
    · exact .inr (hold k (.inl hk))
    · exact .inl hk
    · exact .inr (hold k (.inr hk))
  have hnn : n ∉ nodes := fun hc => lt_irrefl _ (hnodes n hc).2.1
  have hc : ∀ j ∈ B.S, ∀ k ∈ (h.splice p i nodes).kids j, k ∈ B.S ∧ B.rank j < B.rank k := by
    intro j hj k hk
    by_cases e : j = p
    · subst e
      rcases hkp2 k hk with hk | hk
      · exact ⟨(hnodes k hk).1, hrank.trans (hnodes k hk).2.1⟩
      · exact hi.closed j hj k hk.1
    · rw [hkj j e] at hk
      exact hi.closed j hj k hk
  have hup : ∀ k ∈ B.S, k ≠ B.root → ∃ j ∈ B.S, (h.splice p i nodes).parent k = some j := by
    intro k hk hkr
    by_cases e : k ∈ nodes
    · exact ⟨p, hpS, hpk k e⟩
    · rw [hpj k e]; exact hi.up k hk hkr
  have hli : ∀ j ∈ B.S, ¬ (D j ∨ j = n) → ((h.splice p i nodes).kids j).Nodup ∧
      ∀ k ∈ (h.splice p i nodes).kids j, (h.splice p i nodes).parent k = some j ∧ ¬ (D k ∨ k = n) := by
    intro j hj hd
    rw [not_or] at hd
    by_cases e : j = p
    · subst e
      refine ⟨?_, ?_⟩
      · rw [hkp]
        rw [eAC, List.nodup_append, List.nodup_cons] at hnod
        rw [List.nodup_append, List.nodup_append]
        refine ⟨hnod.1, ⟨(hi.linked n hn hnD).1.sublist hsubn, hnod.2.1.2, ?_⟩, ?_⟩
        · rintro a ha b hb rfl
          exact (hold a (.inr hb)).2.2 ha
        · rintro a ha b hb rfl
          rcases List.mem_append.1 hb with hb | hb
          · exact (hold a (.inl ha)).2.2 hb
          · exact hnod.2.2 a ha a (by simp [hb]) rfl
      · intro k hk
        rcases hkp2 k hk with hk | ⟨hk1, hk2, hk3⟩
        · exact ⟨hpk k hk, by rw [not_or]; exact ⟨(hnodes k hk).2.2.2, fun e => hnn (e ▸ hk)⟩⟩
        · have := (hi.linked j hj hd.1).2 k hk1
          exact ⟨by rw [hpj k hk3]; exact this.1, by rw [not_or]; exact ⟨this.2, hk2⟩⟩
    · rw [hkj j e]
      have := hi.linked j hj hd.1
      refine ⟨this.1, fun k hk => ?_⟩
      have h2 := this.2 k hk
      have h3 : k ∉ nodes := by
        intro hc
        rw [(hnodes k hc).2.2.1, Option.some.injEq] at h2
        exact hd.2 h2.1.symm
      refine ⟨by rw [hpj k h3]; exact h2.1, by
        rw [not_or]
        refine ⟨h2.2, fun e2 => ?_⟩
        rw [e2, hp, Option.some.injEq] at h2
        exact e h2.1.symm⟩
  have hd : ∀ j, (D j ∨ j = n) → ∀ k ∈ (h.splice p i nodes).kids j, (h.splice p i nodes).parent k = some j →
      (h.splice p i nodes).lab k = .comment ∨ ∃ b' n' chk', (h.splice p i nodes).lab k = .note b' n' chk' := by
    intro j hj k hkk hpa
    have hjp : j ≠ p := by
      rintro rfl
      rcases hj with hj | hj
      · exact hpD hj
      · exact hpn hj
    rw [hkj j hjp] at hkk
    have hkn : k ∉ nodes := by
      intro hc
      rw [hpk k hc, Option.some.injEq] at hpa
      exact hjp hpa.symm
    rw [hpj k hkn] at hpa
    show h.lab k = .comment ∨ ∃ b' n' chk', h.lab k = .note b' n' chk'
    rcases hj with hj | rfl
    · exact hi.dead j hj k hkk hpa
    · by_cases hcm : h.lab k = .comment
      · exact .inl hcm
      · exact .inr (he2 k (by simp [hkk, hcm]) hkn)
  have hrn : B.root ∉ nodes := by
    intro hc
    have h1 := (hnodes _ hc).2.1
    have h2 := B.root_le n hn
    omega
  have hout : ∀ j ∉ B.S, (h.splice p i nodes).lab j = B.mem.lab j ∧ (h.splice p i nodes).kids j = B.mem.kids j ∧
      (h.splice p i nodes).parent j = B.mem.parent j := by
    intro j hj
    have := hi.out j hj
    exact ⟨this.1, by rw [hkj j (fun e => hj (e ▸ hpS)), this.2.1], by rw [hpj j (fun hc => hj (hnodes j hc).1), this.2.2]⟩
  have htop : (h.splice p i nodes).parent B.root = B.mem.parent B.root := by rw [hpj _ hrn, hi.top]
  refine ⟨⟨hc, hup, hli, hd, hi.labs, hout, htop⟩, hnD, ⟨hpS, hpD⟩, hk, fun k hk => ⟨(hnodes k hk).1, fun e => hrn (e ▸ hk), (hnodes k hk).2.2.1⟩,
    hkj, hpj, hpk, fun A' C' e => ?_⟩
  have hsp' : (h.kids p).take i = A' ∧ (h.kids p).drop (i + 1) = C' := by
    rw [e] at hnod hix ⊢
    exact split_mid hnod hix
  rw [hkp, ← hsp.1, ← hsp.2, hsp'.1, hsp'.2]

/-- The nodes of an iteration. -/
def SrcOk (B : Net) : Src → Prop
  | .live o => o ∈ B.S
  | .own l => ∀ k ∈ l, k ∈ B.S ∧ k ≠ B.root

theorem kids_ok {B : Net} {h : Heap} {D : Id → Prop} (hi : Links B h D) {o : Id} (ho : o ∈ B.S) : ∀ k ∈ h.kids o, k ∈ B.S ∧ k ≠ B.root := by
  intro k hk
  have h1 := hi.closed o ho k hk
  refine ⟨h1.1, fun e => ?_⟩
  have h2 := B.root_le o ho
  rw [e] at h1
  omega

theorem items_ok {B : Net} {h : Heap} {D : Id → Prop} (hi : Links B h D) {src : Src} (ho : SrcOk B src) : ∀ k ∈ src.items h, k ∈ B.S ∧ k ≠ B.root := by
  cases src with
  | live o => exact kids_ok hi ho
  | own l => exact ho

end Quickly.PitchTime
