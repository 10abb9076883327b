import Verif.PitchTime.Hole
import Verif.PitchTime.Net

/-! # What `Rel2abs` does to the nodes in memory, whatever is selected -/

namespace Quickly.PitchTime

open Spec
open Quickly.Pitch (PNode)
open Quickly.Rel2abs
open Quickly.Rel2abs.Spec

/-- What stays the same; also what the root is, and its children at the start. -/
structure Base extends Net where
  lab : Lab
  ks : List Doc
  shape : ShapeL ks

/-- What is true all the time; `D` are the `\relative` nodes that were taken out. -/
structure Inv (B : Base) (h : Heap) (D : Id → Prop) (ks : List Doc) : Prop extends Links B.toNet h D where
  shows : Shows h (.node B.root B.lab ks)
  nodup : (ids (.node B.root B.lab ks)).Nodup
  edit : Edit B.ks ks

/-- The same, for some document. -/
def Safe (B : Base) (h : Heap) : Prop := ∃ D ks, Inv B h D ks

theorem ids_ne {B : Base} {ks : List Doc} (hn : (ids (.node B.root B.lab ks)).Nodup) {j : Id} (hj : j ∈ idsL ks) : j ≠ B.root := by
  rw [ids, List.nodup_cons] at hn
  exact fun e => hn.1 (e ▸ hj)

theorem safe_note {B : Base} {h : Heap} (hs : Safe B h) {n : Id} (hnS : n ∈ B.S) (hr : n ≠ B.root) {b : Bool} {nd : PNode} {chk : Option ℤ}
    (hl : h.lab n = .note b nd chk) (x : Relative.Note) (hx : x.check = chk) : Safe B (h.setNote n b x) := by
  obtain ⟨D, ks, hi⟩ := hs
  have hlk := links_note hi.toLinks hnS hl x hx
  by_cases hin : n ∈ ids (.node B.root B.lab ks)
  · obtain ⟨c, N, e, rfl, a1, a2, a3, a4, a5, a6⟩ := locate hi.shows hi.nodup hin hr
    cases N with
    | node n l gs =>
      simp only [Doc.id] at *
      have a1' := a1
      rw [Shows] at a1'
      have hn := a4
      rw [ids, List.nodup_cons] at hn
      obtain rfl : l = .note b nd chk := by rw [← a1'.1, hl]
      have hshow : Shows (h.setNote n b x) (.node n (.note b x.node x.check) gs) := by
        rw [Shows]
        refine ⟨by simp [Heap.setNote], a1'.2.1, a1'.2.2.1, ?_⟩
        refine agree_showsL (h := h) gs (fun j hj => ⟨?_, rfl⟩) (fun j hj => rfl) a1'.2.2.2
        have : j ≠ n := fun e => hn.1 (e ▸ hj)
        simp [Heap.setNote, this]
      obtain ⟨ks', r1, r2, r3⟩ := change (h' := h.setNote n b x) hi.shows hi.nodup c _ [.node n (.note b x.node x.check) gs] e
        (fun j hj => ⟨by
          have : j ≠ n := fun e => a5 n (by simp [ids]) (e ▸ hj)
          simp [Heap.setNote, this], rfl, fun _ => rfl⟩) (by simpa [Doc.id, Heap.setNote] using a2) (by simpa [Doc.id, Heap.setNote] using a3) ⟨hshow, trivial⟩
        (.note _ _ _ _ _ _ _ _ _ _ (edit_refl gs) .nil) (by simp [idsL, ids])
      exact ⟨D, ks', hlk, r1, r2, edit_trans hi.edit B.shape r3⟩
  · refine ⟨D, ks, hlk, agree_shows (h := h) _ (fun j hj => ⟨?_, rfl⟩) (fun _ _ => rfl) hi.shows, hi.nodup, hi.edit⟩
    have : j ≠ n := fun e => hin (e ▸ hj)
    simp [Heap.setNote, this]

theorem safe_lang {B : Base} {h : Heap} (hs : Safe B h) (L : Pitch.Str) : Safe B { h with lang := L } := by
  obtain ⟨D, ks, hi⟩ := hs
  exact ⟨D, ks, links_lang hi.toLinks L, agree_shows (h := h) _ (fun _ _ => ⟨rfl, rfl⟩) (fun _ _ => rfl) hi.shows, hi.nodup, hi.edit⟩

theorem safe_remove {B : Base} {h : Heap} (hs : Safe B h) {n p : Id} (hn : n ∈ B.S) (hr : n ≠ B.root) (hl : h.lab n = .check)
    (hp : h.parent n = some p) (hk : n ∈ h.kids p) : Safe B (h.remove p n) := by
  obtain ⟨D, ks, hi⟩ := hs
  obtain ⟨hpS, hpD, hnD⟩ := parent_ok hi.toLinks hn hr hp hk (.inl hl)
  have hlk := links_remove hi.toLinks hn hr hl hp hk
  by_cases hin : p ∈ ids (.node B.root B.lab ks)
  · have hin2 := kid_in hi.shows hin hk
    obtain ⟨c, N, e, rfl, a1, a2, a3, a4, a5, a6⟩ := locate hi.shows hi.nodup hin2 hr
    rw [hp, Option.some.injEq] at a3
    subst a3
    cases N with
    | node n l gs =>
      simp only [Doc.id] at *
      rw [Shows] at a1
      obtain rfl : l = .check := by rw [← a1.1, hl]
      have hnd := (hi.linked _ hpS hpD).1
      obtain ⟨ks', r1, r2, r3⟩ := change (h' := h.remove c.pid n) hi.shows hi.nodup c _ [] e
        (fun j hj => ⟨rfl, rfl, fun hne => by simp [Heap.remove, hne]⟩) (by
          simp only [Heap.remove, if_true, List.map_nil, List.nil_append]
          rw [a2] at hnd ⊢
          exact erase_mid hnd) (by simp) trivial (.check _ _ _ _ .nil) (by simp [idsL])
      exact ⟨D, ks', hlk, r1, r2, edit_trans hi.edit B.shape r3⟩
  · refine ⟨D, ks, hlk, agree_shows (h := h) _ (fun j hj => ⟨rfl, ?_⟩) (fun _ _ => rfl) hi.shows, hi.nodup, hi.edit⟩
    have : j ≠ p := fun e => hin (e ▸ hj)
    simp [Heap.remove, this]

theorem start_one {c : Cfg} {h : Heap} {b : Id} {q : Pitch.Pitch} {nodes : List Id} (e : startPitch c h [b] = .ok (q, nodes)) : nodes = [b] := by
  cases e; rfl

theorem start_two {c : Cfg} {h : Heap} {s b : Id} {q : Pitch.Pitch} {nodes : List Id} (hl : (h.lab s).isPitch = true)
    (e : startPitch c h [s, b] = .ok (q, nodes)) : nodes = [b] := by
  cases hs : h.lab s with
  | note p nd chk =>
    rw [hs, Lab.isPitch] at hl
    subst hl
    simp only [startPitch, hs] at e
    split at e
    · cases e
    · cases e; rfl
  | _ => rw [hs] at hl; cases hl

/-- The numbers of the children that are not a comment. -/
theorem real_ids {h : Heap} : ∀ ks : List Doc, ShowsL h ks → ((ks.map Doc.id).filter fun k => h.lab k ≠ .comment) = (real ks).map Doc.id
  | [], _ => rfl
  | k :: ks, hs => by
    rw [ShowsL] at hs
    have hl : h.lab k.id = k.lab := by
      cases k; rw [Shows] at hs; exact hs.1.1
    have ih := real_ids ks hs.2
    by_cases e : k.lab = .comment
    · have e2 : real (k :: ks) = real ks := by simp [real, e]
      rw [e2, ← ih]
      simp [hl, e]
    · have e2 : real (k :: ks) = k :: real ks := by simp [real, e]
      rw [e2, List.map_cons, List.map_cons, ← ih]
      simp [hl, e]

theorem kid_lab {h : Heap} {ks : List Doc} (hs : ShowsL h ks) {k : Doc} (hk : k ∈ ks) : h.lab k.id = k.lab := by
  have := subsL_shows ks hs k (top_subsL _ _ hk)
  cases k
  rw [Shows] at this
  exact this.1

theorem body_find {ks : List Doc} {b : Doc} (hb : b ∈ real ks) (hl : (real ks).getLast? = some b) :
    ∃ pre post, ks = pre ++ b :: post ∧ b.lab ≠ .comment ∧ ∀ z ∈ post, z.lab = .comment := by
  induction ks with
  | nil => simp [real] at hb
  | cons k ks ih =>
    by_cases hk : real ks = []
    · have hall : ∀ z ∈ ks, z.lab = .comment := by
        intro z hz
        rw [real, List.filter_eq_nil_iff] at hk
        simpa using hk z hz
      by_cases e : k.lab = .comment
      · have e2 : real (k :: ks) = real ks := by simp [real, e]
        rw [e2, hk] at hl
        cases hl
      · have e2 : real (k :: ks) = k :: real ks := by simp [real, e]
        rw [e2, hk] at hl
        simp at hl
        exact ⟨[], ks, by simp [hl], hl ▸ e, hall⟩
    · have hl2 : (real ks).getLast? = some b := by
        by_cases e : k.lab = .comment
        · have e2 : real (k :: ks) = real ks := by simp [real, e]
          rwa [e2] at hl
        · have e2 : real (k :: ks) = k :: real ks := by simp [real, e]
          rw [e2] at hl
          cases hr : real ks with
          | nil => exact absurd hr hk
          | cons z zs => rw [hr] at hl; rwa [List.getLast?_cons_cons] at hl
      obtain ⟨pre, post, rfl, h1, h2⟩ := ih (List.mem_of_getLast? hl2) hl2
      exact ⟨k :: pre, post, rfl, h1, h2⟩

theorem fill_sub : ∀ (c : Hole) (N : Doc), N ∈ subs (c.fill [N])
  | .top i l pre post, N => by
    rw [Hole.fill, subs]
    exact List.mem_cons_of_mem _ (top_subsL _ _ (by simp))
  | .down i l pre c post, N => by
    rw [Hole.fill, subs]
    refine List.mem_cons_of_mem _ ?_
    have h1 := fill_sub c N
    have key : ∀ xs : List Doc, c.fill [N] ∈ xs → N ∈ subsL xs := by
      intro xs
      induction xs with
      | nil => simp
      | cons x xs ih =>
        intro hx
        rw [subsL, List.mem_append]
        rcases List.mem_cons.1 hx with rfl | hx
        · exact .inl h1
        · exact .inr (ih hx)
    exact key _ (by simp)

mutual
theorem subs_shape : ∀ t : Doc, Shape t → ∀ u ∈ subs t, Shape u
  | .node i l ks, hs, u, hu => by
    rw [subs, List.mem_cons] at hu
    rcases hu with rfl | hu
    · exact hs
    · rw [Shape] at hs
      exact subsL_shape ks hs.2 u hu
theorem subsL_shape : ∀ ts : List Doc, ShapeL ts → ∀ u ∈ subsL ts, Shape u
  | [], _, u, hu => by simp [subsL] at hu
  | t :: ts, hs, u, hu => by
    rw [ShapeL] at hs
    rw [subsL, List.mem_append] at hu
    rcases hu with hu | hu
    · exact subs_shape t hs.1 u hu
    · exact subsL_shape ts hs.2 u hu
end

theorem safe_splice {B : Base} {h : Heap} (hs : Safe B h) {n p : Id} (hn : n ∈ B.S) (hr : n ≠ B.root) (hl : h.lab n = .relative)
    (hp : h.parent n = some p) {i : ℕ} (hi' : (h.kids p).idxOf? n = some i) {c : Cfg} {q : Pitch.Pitch} {nodes : List Id}
    (he : startPitch c h ((h.kids n).filter fun k => h.lab k ≠ .comment) = .ok (q, nodes)) :
    Safe B (h.splice p i nodes) ∧ ∀ k ∈ nodes, k ∈ B.S ∧ k ≠ B.root := by
  obtain ⟨D, ks, hi⟩ := hs
  have sp := links_splice hi.toLinks hn hr hl hp hi' he
  have hk := sp.mem
  have hkj := sp.kids_ne
  have hpj := sp.parent_ne
  have hpk := sp.parent_nodes
  refine ⟨?_, fun k hk => ⟨(sp.nodes_in k hk).1, (sp.nodes_in k hk).2.1⟩⟩
  · by_cases hin : p ∈ ids (.node B.root B.lab ks)
    · have hin2 := kid_in hi.shows hin hk
      obtain ⟨cc, N, e, rfl, a1, a2, a3, a4, a5, a6⟩ := locate hi.shows hi.nodup hin2 hr
      rw [hp, Option.some.injEq] at a3
      subst a3
      have hshape : Shape N := by
        have h1 : ShapeL ks := shape_edit hi.edit B.shape
        have h2 : N ∈ subsL ks := by
          have hm : N.id ∈ idsL ks := by
            rw [ids, List.mem_cons] at hin2
            exact hin2.resolve_left hr
          obtain ⟨u, hu, eu⟩ := idsL_subsL _ _ hm
          have hu2 : u ∈ subs (.node B.root B.lab ks) := by rw [subs]; exact List.mem_cons_of_mem _ hu
          have hN2 : N ∈ subs (.node B.root B.lab ks) := by rw [e]; exact fill_sub cc N
          have f1 := find_sub _ _ hi.nodup hu2
          have f2 := find_sub _ _ hi.nodup hN2
          rw [eu, f2] at f1
          cases f1
          exact hu
        exact subsL_shape ks h1 N h2
      cases N with
      | node n l gs =>
        simp only [Doc.id] at *
        rw [Shows] at a1
        obtain rfl : l = .relative := by rw [← a1.1, hl]
        rw [Shape] at hshape
        rw [a1.2.1, real_ids gs a1.2.2.2] at he
        have hbody : ∃ b ∈ real gs, (real gs).getLast? = some b ∧ nodes = [b.id] := by
          rcases hshape.1 rfl with ⟨b, eb, -⟩ | ⟨s, b, eb, hs, -⟩
          · rw [eb] at he ⊢
            exact ⟨b, by simp, by simp, start_one he⟩
          · have hsl : h.lab s.id = s.lab := kid_lab a1.2.2.2 (real_mem (by rw [eb]; simp))
            rw [eb] at he ⊢
            exact ⟨b, by simp, by simp, start_two (by rw [hsl]; exact hs) he⟩
        obtain ⟨b, hb1, hb2, hb3⟩ := hbody
        obtain ⟨pre, post, eg, h1, h2⟩ := body_find hb1 hb2
        have hbm : b ∈ gs := real_mem hb1
        have hbs : Shows h b := subsL_shows gs a1.2.2.2 b (top_subsL _ _ hbm)
        have hbi : ∀ j ∈ ids b, j ∈ ids (.node n .relative gs) := by
          intro j hj
          rw [ids]
          exact List.mem_cons_of_mem _ (mem_idsL.2 ⟨b, hbm, hj⟩)
        have hsub : (ids b).Sublist (ids (.node n .relative gs)) := by
          rw [ids, eg, idsL_app, idsL]
          exact ((List.sublist_append_left _ _).trans (List.sublist_append_right _ _)).cons _
        have hbn := a4.sublist hsub
        have hbs' : Shows (h.splice cc.pid i nodes) b := by
          refine agree_shows (h := h) b (fun j hj => ⟨rfl, hkj j ?_⟩) (fun j hj => hpj j ?_) hbs
          · rintro rfl
            exact a5 _ (hbi _ hj) (pid_mem cc)
          · rw [hb3]
            cases b with
            | node bi bl bks =>
              rw [ids, List.nodup_cons] at hbn
              simp only [Doc.id, Doc.kids, List.mem_singleton] at hj ⊢
              exact fun e => hbn.1 (e ▸ hj)
        obtain ⟨ks', r1, r2, r3⟩ := change (h' := h.splice cc.pid i nodes) hi.shows hi.nodup cc _ [b] e
          (fun j hj => ⟨rfl, hpj j (by
            rw [hb3, List.mem_singleton]
            rintro rfl
            exact a5 _ (hbi _ (id_mem_ids b)) hj), hkj j⟩) (by rw [sp.kids _ _ a2, hb3]; simp)
          (fun u hu => by
            simp only [List.mem_singleton] at hu
            subst hu
            exact hpk _ (by rw [hb3]; simp)) ⟨hbs', trivial⟩
          (by rw [eg]; exact .relative _ _ _ _ _ _ _ h1 h2 (edit_refl _) .nil) (by simpa [idsL] using hsub)
        exact ⟨fun j => D j ∨ j = n, ks', sp.links, r1, r2, edit_trans hi.edit B.shape r3⟩
    · have hnT : n ∉ ids (.node B.root B.lab ks) := by
        intro hc
        obtain ⟨cc, N, e, rfl, a1, a2, a3, a4, a5, a6⟩ := locate hi.shows hi.nodup hc hr
        rw [hp, Option.some.injEq] at a3
        exact hin (by rw [a3]; exact a6 _ (pid_mem cc))
      refine ⟨fun j => D j ∨ j = n, ks, sp.links, agree_shows (h := h) _ (fun j hj => ⟨rfl, hkj j (fun e => hin (e ▸ hj))⟩) (fun j hj => hpj j ?_) hi.shows,
        hi.nodup, hi.edit⟩
      intro hjn
      have hjr := ids_ne hi.nodup hj
      obtain ⟨cc, N, e, rfl, a1, a2, a3, a4, a5, a6⟩ := locate hi.shows hi.nodup (n := j) (by rw [ids]; exact List.mem_cons_of_mem _ hj) hjr
      rw [(sp.nodes_in _ hjn).2.2, Option.some.injEq] at a3
      exact hnT (by rw [a3]; exact a6 _ (pid_mem cc))

theorem safe_kids {B : Base} {h : Heap} (hs : Safe B h) {o : Id} (ho : o ∈ B.S) : ∀ k ∈ h.kids o, k ∈ B.S ∧ k ≠ B.root := by
  obtain ⟨_, _, hi⟩ := hs
  exact kids_ok hi.toLinks ho

theorem safe_items {B : Base} {h : Heap} (hs : Safe B h) {src : Src} (ho : SrcOk B.toNet src) : ∀ k ∈ src.items h, k ∈ B.S ∧ k ≠ B.root := by
  obtain ⟨_, _, hi⟩ := hs
  exact items_ok hi.toLinks ho

theorem safe_consume {B : Base} {h : Heap} (hs : Safe B h) {n : Id} (hn : n ∈ B.S) (hr : n ≠ B.root) {b : Bool} {nd : PNode} {chk : Option ℤ}
    (hl : h.lab n = .note b nd chk) {c : Cfg} {s s' : Sink} {h' : Heap} (e : consume c h n b nd chk s = .ok (h', s')) : Safe B h' := by
  cases s with
  | music last =>
    simp only [consume] at e
    split at e
    · cases e
    · rename_i he; cases e; exact safe_note hs hn hr hl _ (absNote_keeps he)
  | chord top first =>
    simp only [consume] at e
    split at e
    · cases e
    · rename_i he; cases e; exact safe_note hs hn hr hl _ (absNote_keeps he)
  | check last =>
    simp only [consume] at e
    split at e
    · cases e
    · cases e; exact hs

theorem same_lab {B : Base} {h h' : Heap} (hs : Safe B h) (hs' : Safe B h') {n : Id} {l : Lab} (hl : h.lab n = l)
    (hn : ∀ b n chk, l ≠ .note b n chk) : h'.lab n = l := by
  obtain ⟨_, _, hi⟩ := hs
  obtain ⟨_, _, hi'⟩ := hs'
  have h0 := (hi.labs n).back (by rw [hl]; exact hn)
  rw [hl] at h0
  rw [← (hi'.labs n).forth (by rw [h0]; exact hn), h0]

theorem run_safe (B : Base) (c : Cfg) : ∀ f : ℕ,
    (∀ h s src i h' s', Safe B h → SrcOk B.toNet src → loop c B.root f h s src i = some (.ok (h', s')) → Safe B h') ∧
    (∀ h s n h' s', Safe B h → n ∈ B.S → n ≠ B.root → visit c B.root f h s n = some (.ok (h', s')) → Safe B h') ∧
    (∀ h n h', Safe B h → n ∈ B.S → n ≠ B.root → h.lab n = .relative → makeAbsolute c B.root f h n = some (.ok h') → Safe B h') ∧
    (∀ h o i h', Safe B h → o ∈ B.S → convertAll c B.root f h o i = some (.ok h') → Safe B h')
  | 0 => by
    refine ⟨?_, ?_, ?_, ?_⟩
    · intro h s src i h' s' _ _ e; simp [loop] at e
    · intro h s n h' s' _ _ _ e; simp [visit] at e
    · intro h n h' _ _ _ _ e; simp [makeAbsolute] at e
    · intro h o i h' _ _ e; simp [convertAll] at e
  | f + 1 => by
    obtain ⟨ihL, ihV, ihM, ihC⟩ := run_safe B c f
    refine ⟨?_, ?_, ?_, ?_⟩
    · intro h s src i h' s' hs ho e
      rw [loop] at e
      split at e
      · cases e; exact hs
      · rename_i n hn
        have hk := safe_items hs ho n (List.mem_of_getElem? hn)
        split at e
        · cases e
        · cases e
        · rename_i h1 s1 e1
          exact ihL _ _ _ _ _ _ (ihV _ _ _ _ _ hs hk.1 hk.2 e1) ho e
    · intro h s n h' s' hs hn hr e
      cases hl : h.lab n with
      | language l => rw [visit.eq_def] at e; simp only [hl] at e; cases e; exact safe_lang hs _
      | note b nd chk =>
        rw [visit.eq_def] at e; simp only [hl] at e
        split at e
        · cases e
        · rename_i h1 s1 e1
          have hs1 := safe_consume hs hn hr hl e1
          split at e
          · cases e
          · cases e
          · rename_i h2 e2
            cases e
            exact ihC _ _ _ _ hs1 B.root_in e2
      | chord =>
        rw [visit.eq_def] at e; simp only [hl] at e
        cases s with
        | music last =>
          simp only at e
          split at e
          · cases e
          · cases e
          · rename_i e1
            cases e
            exact ihL _ _ _ _ _ _ hs (show SrcOk B.toNet (.live n) from hn) e1
          · cases e
        | chord t fst => cases e
        | check last => cases e
      | check =>
        rw [visit.eq_def] at e; simp only [hl] at e
        cases s with
        | music last =>
          simp only at e
          split at e
          · cases e
          · cases e
          · rename_i h1 last1 e1
            have hs1 := ihL _ _ _ _ _ _ hs (show SrcOk B.toNet (.live n) from hn) e1
            split at e
            · cases e
            · rename_i p hp
              split at e
              · rename_i hk
                cases e
                exact safe_remove hs1 hn hr (same_lab hs hs1 hl (by simp)) hp hk
              · cases e
          · cases e
        | chord t fst => cases e
        | check last => cases e
      | relative =>
        rw [visit.eq_def] at e; simp only [hl] at e
        split at e
        · cases e
        · cases e
        · rename_i h1 e1
          cases e
          exact ihM _ _ _ hs hn hr hl e1
      | skip k => rw [visit.eq_def] at e; simp only [hl] at e; cases e; exact hs
      | comment => rw [visit.eq_def] at e; simp only [hl] at e; exact ihL _ _ _ _ _ _ hs (show SrcOk B.toNet (.live n) from hn) e
      | chordmode => rw [visit.eq_def] at e; simp only [hl] at e; exact ihL _ _ _ _ _ _ hs (show SrcOk B.toNet (.live n) from hn) e
      | other => rw [visit.eq_def] at e; simp only [hl] at e; exact ihL _ _ _ _ _ _ hs (show SrcOk B.toNet (.live n) from hn) e
    · intro h n h' hs hn hr hl e
      rw [makeAbsolute] at e
      split at e
      · cases e
      · rename_i p hp
        split at e
        · cases e
        · rename_i i hi
          split at e
          · cases e
          · rename_i last nodes he
            obtain ⟨h1, h2⟩ := safe_splice hs hn hr hl hp hi he
            split at e
            · cases e
            · cases e
            · rename_i e1
              cases e
              exact ihL _ _ _ _ _ _ h1 (show SrcOk B.toNet (.own nodes) from h2) e1
    · intro h o i h' hs ho e
      rw [convertAll] at e
      split at e
      · cases e; exact hs
      · rename_i n hn
        have hk := safe_kids hs ho n (List.mem_of_getElem? hn)
        split at e
        · cases e
        · cases e
        · rename_i h1 e1
          refine ihC _ _ _ _ ?_ ho e
          split at e1
          · rename_i hl; exact ihM _ _ _ hs hk.1 hk.2 hl e1
          · exact ihC _ _ _ _ hs hk.1 e1

theorem edit_safe (B : Base) (c : Cfg) (sel : Sel) : ∀ (f : ℕ) (h : Heap) (o stop i : ℕ) (h' : Heap), Safe B h → o ∈ B.S →
    editLoop c sel B.root f h o stop i = some (.ok h') → Safe B h'
  | 0, h, o, stop, i, h', _, _, e => by simp [editLoop] at e
  | f + 1, h, o, stop, i, h', hs, ho, e => by
    rw [editLoop] at e
    split at e
    · split at e
      · cases e
      · rename_i n hn
        have hk := safe_kids hs ho n (List.mem_of_getElem? hn)
        split at e
        · cases e
        · cases e
        · rename_i h1 e1
          refine edit_safe B c sel f _ _ _ _ _ ?_ ho e
          rw [editNode] at e1
          split at e1
          · split at e1
            · cases e1; exact safe_lang hs _
            · rename_i hl
              split at e1
              · exact (run_safe B c f).2.2.1 _ _ _ hs hk.1 hk.2 hl e1
              · cases e1; exact hs
            · exact edit_safe B c sel f _ _ _ _ _ hs hk.1 e1
          · cases e1; exact hs
    · cases e; exact hs

end Quickly.PitchTime
