import Verif.PitchTime.Doc
import Verif.Rel2abs.Store

/-! # Documents as the pitch edits see them, and the time in them -/

namespace Quickly.PitchTime.Spec

open Quickly.Node Quickly.Signature Quickly.Length Quickly.Length.Spec
open Quickly.Pitch (PNode)
open Quickly.Rel2abs (Doc Id Lab)

/-- What the pitch edits do not look at: class and head of a node (the head of a note depends on its name), and the nodes that stand for its octave and
octave check. -/
structure View where
  lab : Id → Cls × Val
  name : Id → PNode → Val
  parts : Id → PNode → Option ℤ → List Nd

mutual
/-- The document as `Time` sees it. -/
def nd (w : View) : Doc → Nd
  | .node i (.note _ n chk) ks => .node ((w.lab i).1, w.name i n) (w.parts i n chk ++ nds w ks)
  | .node i _ ks => .node (w.lab i) (nds w ks)
/-- The same for a list. -/
def nds (w : View) : List Doc → List Nd
  | [] => []
  | k :: ks => nd w k :: nds w ks
end

/-- In a `\relative` there is music; what else there is, is a pitch before it and comments. -/
def Around (w : View) (ks : List Doc) : Prop :=
  ∀ pre b post, ks = pre ++ b :: post → b.lab ≠ .comment → (∀ z ∈ post, z.lab = .comment) →
    (∀ z ∈ pre ++ post, Silent (nd w z) ∧ (nd w z).val.1 ∈ .Pitch :: comments) ∧ isA .Music (nd w b) = true ∧ (nd w b).val.1 ∉ pitched

mutual
/-- The classes fit what the pitch edits take the nodes for, in a node of class `p`; no negative time is written; `\relative` is not directly in
`\simultaneous` or a chord, and the value of a variable is not just an `\octaveCheck`. -/
def Fits (w : View) (p : Option Cls) : Doc → Prop
  | .node i l ks =>
    (∀ b n chk, l = .note b n chk → (w.lab i).1 ∈ pitched ∧ ∀ n chk, ∀ y ∈ w.parts i n chk, Silent y ∧ y.val.1 ∈ parts) ∧
      (l = .check → (w.lab i).1 = .OctaveCheck ∧ p ≠ some .Assignment ∧ ∀ y ∈ nds w ks, Silent y) ∧
      (l = .relative → (w.lab i).1 = .Relative ∧ p ≠ some .Simultaneous ∧ p ≠ some .Chord ∧ Around w ks) ∧
      Forward (nd w (.node i l ks)) ∧ FitsL w (some (w.lab i).1) ks
/-- The same for a list. -/
def FitsL (w : View) (p : Option Cls) : List Doc → Prop
  | [] => True
  | k :: ks => Fits w p k ∧ FitsL w p ks
end

/-- The node at a path, which is not in a note. -/
def at? : List Doc → List ℕ → Option Doc
  | _, [] => none
  | ts, [i] => ts[i]?
  | ts, i :: j :: path => match ts[i]? with
    | some (.node _ (.note _ _ _) _) => none
    | some (.node _ _ ks) => at? ks (j :: path)
    | none => none

end Quickly.PitchTime.Spec

namespace Quickly.PitchTime

open Quickly.Node Quickly.Signature Quickly.Length Quickly.Length.Spec Spec
open Quickly.Pitch (PNode)
open Quickly.Rel2abs (Doc Id Lab)
open Quickly.Rel2abs.Spec (ids idsL)

/-- The second list is the first one, with other pitches, and without some of the `\relative` and `\octaveCheck` commands. -/
inductive Edit : List Doc → List Doc → Prop
  | nil : Edit [] []
  | node (i : Id) (l : Lab) (ks gs ts us : List Doc) : (∀ b n chk, l ≠ .note b n chk) → Edit ks gs → Edit ts us →
      Edit (.node i l ks :: ts) (.node i l gs :: us)
  | note (i : Id) (b : Bool) (n n' : PNode) (chk chk' : Option ℤ) (ks gs ts us : List Doc) : Edit ks gs → Edit ts us →
      Edit (.node i (.note b n chk) ks :: ts) (.node i (.note b n' chk') gs :: us)
  | check (i : Id) (ks ts us : List Doc) : Edit ts us → Edit (.node i .check ks :: ts) us
  | relative (i : Id) (pre : List Doc) (b : Doc) (post : List Doc) (y : Doc) (ts us : List Doc) : b.lab ≠ .comment → (∀ z ∈ post, z.lab = .comment) →
      Edit [b] [y] → Edit ts us → Edit (.node i .relative (pre ++ b :: post) :: ts) (y :: us)

theorem nd_other (w : View) (i : Id) (l : Lab) (ks : List Doc) (h : ∀ b n chk, l ≠ .note b n chk) : nd w (.node i l ks) = .node (w.lab i) (nds w ks) := by
  cases l with
  | note b n chk => exact absurd rfl (h b n chk)
  | _ => rfl

theorem nds_append (w : View) (a b : List Doc) : nds w (a ++ b) = nds w a ++ nds w b := by
  induction a with
  | nil => rfl
  | cons x a ih => simp only [List.cons_append, nds, ih]

theorem nds_mem (w : View) (ks : List Doc) (x : Nd) (h : x ∈ nds w ks) : ∃ k ∈ ks, x = nd w k := by
  induction ks with
  | nil => simp [nds] at h
  | cons k ks ih =>
    rw [nds, List.mem_cons] at h
    rcases h with rfl | h
    · exact ⟨k, by simp, rfl⟩
    · obtain ⟨g, hg, e⟩ := ih h
      exact ⟨g, by simp [hg], e⟩

theorem nds_length (w : View) (ks : List Doc) : (nds w ks).length = ks.length := by
  induction ks with
  | nil => rfl
  | cons k ks ih => simp only [nds, List.length_cons, ih]

theorem fitsL_append (w : View) (p : Option Cls) (a b : List Doc) : FitsL w p (a ++ b) ↔ FitsL w p a ∧ FitsL w p b := by
  induction a with
  | nil => simp [FitsL]
  | cons x a ih => simp only [List.cons_append, FitsL, ih, and_assoc]

theorem like_parts (c : Cls) (hc : c ∈ pitched) (xs ys ts us : List Nd) (hx : ∀ y ∈ xs, Silent y ∧ y.val.1 ∈ parts)
    (hy : ∀ y ∈ ys, Silent y ∧ y.val.1 ∈ parts) (h : Like (some c) ts us) : Like (some c) (xs ++ ts) (ys ++ us) := by
  induction xs with
  | nil =>
    induction ys with
    | nil => exact h
    | cons y ys ih => exact .right _ _ _ _ hc (hy y (by simp)).1 (hy y (by simp)).2 (ih fun z hz => hy z (by simp [hz]))
  | cons x xs ih => exact .left _ _ _ _ hc (hx x (by simp)).1 (hx x (by simp)).2 (ih fun z hz => hx z (by simp [hz]))

theorem edit_like (w : View) {ts us : List Doc} (h : Edit ts us) : ∀ p, FitsL w p ts → Like p (nds w ts) (nds w us) := by
  induction h with
  | nil => intro p _; exact .nil p
  | node i l ks gs ts us hl _ _ ih1 ih2 =>
    intro p hf
    rw [FitsL, Fits] at hf
    obtain ⟨⟨-, -, -, hfw, hk⟩, ht⟩ := hf
    rw [nd_other w i l ks hl] at hfw
    simp only [nds, nd_other w i l _ hl]
    exact .node _ _ _ _ _ _ hfw (ih1 _ hk) (ih2 _ ht)
  | note i b n n' chk chk' ks gs ts us _ _ ih1 ih2 =>
    intro p hf
    rw [FitsL, Fits] at hf
    obtain ⟨⟨h1, -, -, -, hk⟩, ht⟩ := hf
    obtain ⟨hc, hp⟩ := h1 _ _ _ rfl
    simp only [nds, nd]
    exact .pitch _ _ _ _ _ _ _ _ hc (like_parts _ hc _ _ _ _ (hp _ _) (hp _ _) (ih1 _ hk)) (ih2 _ ht)
  | check i ks ts us _ ih =>
    intro p hf
    rw [FitsL, Fits] at hf
    obtain ⟨⟨-, h2, -, -, -⟩, ht⟩ := hf
    obtain ⟨hc, hp, hs⟩ := h2 rfl
    simp only [nds, nd]
    have e : w.lab i = (.OctaveCheck, (w.lab i).2) := by rw [← hc]
    rw [e]
    exact .check _ _ _ _ _ hp hs (ih _ ht)
  | relative i pre b post y ts us hb hpost _ _ ih1 ih2 =>
    intro p hf
    rw [FitsL, Fits] at hf
    obtain ⟨⟨-, -, h3, -, hk⟩, ht⟩ := hf
    obtain ⟨hc, hp1, hp2, ha⟩ := h3 rfl
    obtain ⟨a1, a2, a3⟩ := ha _ _ _ rfl hb hpost
    simp only [nds, nd]
    have e : w.lab i = (.Relative, (w.lab i).2) := by rw [← hc]
    rw [e, nds_append, nds]
    rw [hc, fitsL_append, FitsL] at hk
    refine .relative _ _ _ _ _ _ _ _ hp1 hp2 ?_ a2 a3 (ih1 _ ⟨hk.2.1, trivial⟩) (ih2 _ ht)
    intro z hz
    rw [← nds_append] at hz
    obtain ⟨k, hk, rfl⟩ := nds_mem w _ z hz
    exact a1 k hk

/-! ## Places -/

/-- The path in a longer list. -/
def bump (n : ℕ) : List ℕ → List ℕ
  | [] => []
  | i :: path => (n + i) :: path

theorem place_prepend {p : Option Cls} {a b ts us : List Nd} {i j : List ℕ} (hl : Like p a b) (h : Place p ts us i j) :
    Place p (a ++ ts) (b ++ us) (bump a.length i) (bump b.length j) := by
  cases h with
  | here p ts us x y ts' us' h1 h2 h3 =>
    have := Place.here p (a ++ ts) (b ++ us) x y ts' us' (like_append hl h1) h2 h3
    simpa [bump] using this
  | node p ts us c v w cs ds ts' us' i j h1 h2 h3 h4 h5 =>
    have := Place.node p (a ++ ts) (b ++ us) c v w cs ds ts' us' i j (like_append hl h1) h2 h3 h4 h5
    simpa [bump] using this
  | relative p ts us v pre x post y ts' us' i j h1 h2 h3 h4 h5 h6 h7 =>
    have := Place.relative p (a ++ ts) (b ++ us) v pre x post y ts' us' i j (like_append hl h1) h2 h3 h4 h5 h6 h7
    simpa [bump] using this

theorem at_app (a ts : List Doc) (path : List ℕ) : at? (a ++ ts) (bump a.length path) = at? ts path := by
  match path with
  | [] => rfl
  | [i] => simp [bump, at?, List.getElem?_append_right]
  | i :: j :: path => simp [bump, at?, List.getElem?_append_right]

theorem at_other (i : Id) (l : Lab) (ks ts : List Doc) (path : List ℕ) (hl : ∀ b n chk, l ≠ .note b n chk) (hp : path ≠ []) :
    at? (.node i l ks :: ts) (0 :: path) = at? ks path := by
  match path with
  | [] => exact absurd rfl hp
  | j :: path =>
    cases l with
    | note b n chk => exact absurd rfl (hl b n chk)
    | _ => simp [at?]

theorem at_first (x : Doc) (ts us : List Doc) (path : List ℕ) : at? (x :: ts) (0 :: path) = at? (x :: us) (0 :: path) := by
  cases path with
  | nil => simp [at?]
  | cons j path => simp [at?]

theorem edit_place (w : View) {ts us : List Doc} (h : Edit ts us) : ∀ p j d', FitsL w p ts → at? us j = some d' →
    ∃ i d, at? ts i = some d ∧ d.id = d'.id ∧ Place p (nds w ts) (nds w us) i j := by
  induction h with
  | nil => intro p j d' _ ha; match j with | [] => simp [at?] at ha | [_] => simp [at?] at ha | _ :: _ :: _ => simp [at?] at ha
  | node i l ks gs ts us hl h1 h2 ih1 ih2 =>
    intro p j d' hf ha
    have hlike := edit_like w (Edit.node i l ks gs [] [] hl h1 .nil) p ⟨by rw [FitsL] at hf; exact hf.1, trivial⟩
    have hlike2 := edit_like w h2 p (by rw [FitsL] at hf; exact hf.2)
    match j with
    | [] => simp [at?] at ha
    | (k + 1) :: j =>
      have ha2 : at? us (k :: j) = some d' := by
        rw [← at_app [.node i l gs] us (k :: j)]; simpa [bump, Nat.add_comm] using ha
      obtain ⟨i', d, e1, e2, e3⟩ := ih2 p _ d' (by rw [FitsL] at hf; exact hf.2) ha2
      refine ⟨bump 1 i', d, by rw [← e1]; exact at_app [.node i l ks] ts i', e2, ?_⟩
      have := place_prepend hlike e3
      simpa [nds, bump, Nat.add_comm] using this
    | [0] =>
      simp only [at?, List.getElem?_cons_zero, Option.some.injEq] at ha
      subst ha
      exact ⟨[0], .node i l ks, by simp [at?], rfl, .here p [] [] _ _ _ _ (.nil _) hlike hlike2⟩
    | 0 :: k :: j =>
      rw [at_other i l gs us (k :: j) hl (by simp)] at ha
      obtain ⟨i', d, e1, e2, e3⟩ := ih1 (some (w.lab i).1) _ d' (by rw [FitsL, Fits] at hf; exact hf.1.2.2.2.2) ha
      have hi : i' ≠ [] := by rintro rfl; simp [at?] at e1
      refine ⟨0 :: i', d, by rw [at_other i l ks ts i' hl hi]; exact e1, e2, ?_⟩
      simp only [nds, nd_other w i l _ hl] at hlike ⊢
      exact .node p [] [] (w.lab i).1 (w.lab i).2 (w.lab i).2 _ _ _ _ _ _ (.nil _) hlike (.inl rfl) e3 hlike2
  | note i b n n' chk chk' ks gs ts us h1 h2 ih1 ih2 =>
    intro p j d' hf ha
    have hlike := edit_like w (Edit.note i b n n' chk chk' ks gs [] [] h1 .nil) p ⟨by rw [FitsL] at hf; exact hf.1, trivial⟩
    have hlike2 := edit_like w h2 p (by rw [FitsL] at hf; exact hf.2)
    match j with
    | [] => simp [at?] at ha
    | (k + 1) :: j =>
      have ha2 : at? us (k :: j) = some d' := by
        rw [← at_app [.node i (.note b n' chk') gs] us (k :: j)]; simpa [bump, Nat.add_comm] using ha
      obtain ⟨i', d, e1, e2, e3⟩ := ih2 p _ d' (by rw [FitsL] at hf; exact hf.2) ha2
      refine ⟨bump 1 i', d, by rw [← e1]; exact at_app [.node i (.note b n chk) ks] ts i', e2, ?_⟩
      have := place_prepend hlike e3
      simpa [nds, bump, Nat.add_comm] using this
    | [0] =>
      simp only [at?, List.getElem?_cons_zero, Option.some.injEq] at ha
      subst ha
      exact ⟨[0], .node i (.note b n chk) ks, by simp [at?], rfl, .here p [] [] _ _ _ _ (.nil _) hlike hlike2⟩
    | 0 :: k :: j => simp [at?] at ha
  | check i ks ts us h2 ih2 =>
    intro p j d' hf ha
    have hlike := edit_like w (Edit.check i ks [] [] .nil) p ⟨by rw [FitsL] at hf; exact hf.1, trivial⟩
    obtain ⟨i', d, e1, e2, e3⟩ := ih2 p _ d' (by rw [FitsL] at hf; exact hf.2) ha
    refine ⟨bump 1 i', d, by rw [← e1]; exact at_app [.node i .check ks] ts i', e2, ?_⟩
    have := place_prepend hlike e3
    have hj : bump 0 j = j := by cases j <;> simp [bump]
    simpa [nds, hj] using this
  | relative i pre b post y ts us hb hpost h1 h2 ih1 ih2 =>
    intro p j d' hf ha
    have hlike := edit_like w (Edit.relative i pre b post y [] [] hb hpost h1 .nil) p ⟨by rw [FitsL] at hf; exact hf.1, trivial⟩
    have hlike2 := edit_like w h2 p (by rw [FitsL] at hf; exact hf.2)
    match j with
    | [] => simp [at?] at ha
    | (k + 1) :: j =>
      have ha2 : at? us (k :: j) = some d' := by
        rw [← at_app [y] us (k :: j)]; simpa [bump, Nat.add_comm] using ha
      obtain ⟨i', d, e1, e2, e3⟩ := ih2 p _ d' (by rw [FitsL] at hf; exact hf.2) ha2
      refine ⟨bump 1 i', d, by rw [← e1]; exact at_app [.node i .relative (pre ++ b :: post)] ts i', e2, ?_⟩
      have := place_prepend hlike e3
      simpa [nds, bump, Nat.add_comm] using this
    | 0 :: j =>
      rw [at_first y us []] at ha
      rw [FitsL, Fits] at hf
      obtain ⟨⟨-, -, h3, -, hk⟩, ht⟩ := hf
      obtain ⟨hc, hp1, hp2, har⟩ := h3 rfl
      obtain ⟨a1, a2, a3⟩ := har _ _ _ rfl hb hpost
      rw [hc, fitsL_append, FitsL] at hk
      obtain ⟨i', d, e1, e2, e3⟩ := ih1 (some .Relative) (0 :: j) d' ⟨hk.2.1, trivial⟩ ha
      obtain ⟨r, rfl⟩ : ∃ r, i' = 0 :: r := by
        match i' with
        | [] => simp [at?] at e1
        | 0 :: r => exact ⟨r, rfl⟩
        | (k + 1) :: [] => simp [at?] at e1
        | (k + 1) :: _ :: _ => simp [at?] at e1
      refine ⟨0 :: pre.length :: r, d, ?_, e2, ?_⟩
      · rw [at_other i .relative _ ts _ (by simp) (by simp), ← e1, at_first b [] post]
        exact at_app pre (b :: post) (0 :: r)
      · have e : w.lab i = (.Relative, (w.lab i).2) := by rw [← hc]
        simp only [nds, nd] at hlike ⊢
        rw [e, nds_append, nds] at hlike ⊢
        rw [← nds_length w pre]
        refine .relative p [] [] (w.lab i).2 (nds w pre) (nd w b) (nds w post) (nd w y) _ _ _ _ (.nil _) hlike hp1 ?_ a2 e3 hlike2
        intro z hz
        rw [← nds_append] at hz
        obtain ⟨k, hk, rfl⟩ := nds_mem w _ z hz
        exact a1 k hk

/-! ## One node at a path -/

theorem id_mem (x : Doc) : x.id ∈ ids x := by cases x; simp [ids, Doc.id]

theorem idsL_get {ts : List Doc} {i : ℕ} {x : Doc} (h : ts[i]? = some x) : ∀ k ∈ ids x, k ∈ idsL ts := by
  induction ts generalizing i with
  | nil => simp at h
  | cons t ts ih =>
    intro k hk
    rw [idsL, List.mem_append]
    cases i with
    | zero => simp at h; subst h; exact .inl hk
    | succ i => exact .inr (ih (by simpa using h) k hk)

theorem get_disjoint {ts : List Doc} (hn : (idsL ts).Nodup) {i j : ℕ} {x y : Doc} (hx : ts[i]? = some x) (hy : ts[j]? = some y) {k : Id}
    (h1 : k ∈ ids x) (h2 : k ∈ ids y) : i = j := by
  induction ts generalizing i j with
  | nil => simp at hx
  | cons t ts ih =>
    rw [idsL, List.nodup_append] at hn
    cases i with
    | zero =>
      cases j with
      | zero => rfl
      | succ j =>
        simp at hx hy
        subst hx
        exact absurd rfl (hn.2.2 k h1 k (idsL_get hy k h2))
    | succ i =>
      cases j with
      | zero =>
        simp at hx hy
        subst hy
        exact absurd rfl (hn.2.2 k h2 k (idsL_get hx k h1))
      | succ j => exact congrArg (· + 1) (ih hn.2.1 (i := i) (j := j) (by simpa using hx) (by simpa using hy))

theorem get_nodup {ts : List Doc} (hn : (idsL ts).Nodup) {i : ℕ} {x : Doc} (hx : ts[i]? = some x) : (ids x).Nodup := by
  induction ts generalizing i with
  | nil => simp at hx
  | cons t ts ih =>
    rw [idsL, List.nodup_append] at hn
    cases i with
    | zero => simp at hx; subst hx; exact hn.1
    | succ i => exact ih hn.2.1 (by simpa using hx)

theorem at_cons {ts : List Doc} {i : ℕ} {path : List ℕ} {d : Doc} (h : at? ts (i :: path) = some d) : ∃ x, ts[i]? = some x ∧
    ((path = [] ∧ d = x) ∨ (path ≠ [] ∧ at? x.kids path = some d)) := by
  cases path with
  | nil => exact ⟨d, by simpa [at?] using h, .inl ⟨rfl, rfl⟩⟩
  | cons j path =>
    simp only [at?] at h
    split at h
    · cases h
    · rename_i e; exact ⟨_, e, .inr ⟨by simp, h⟩⟩
    · cases h

theorem at_mem {ts : List Doc} {path : List ℕ} {d : Doc} (h : at? ts path = some d) : d.id ∈ idsL ts := by
  induction path generalizing ts with
  | nil => simp [at?] at h
  | cons i path ih =>
    obtain ⟨x, hx, ⟨-, rfl⟩ | ⟨-, h⟩⟩ := at_cons h
    · exact idsL_get hx _ (id_mem _)
    · refine idsL_get hx _ ?_
      cases x with
      | node k l ks => rw [ids]; exact List.mem_cons_of_mem _ (ih h)

theorem at_inj {ts : List Doc} {i j : List ℕ} {a b : Doc} (hn : (idsL ts).Nodup) (ha : at? ts i = some a) (hb : at? ts j = some b)
    (h : a.id = b.id) : i = j := by
  induction i generalizing ts j with
  | nil => simp [at?] at ha
  | cons i r ih =>
    cases j with
    | nil => simp [at?] at hb
    | cons j r' =>
      have sub : ∀ (x : Doc) (p : List ℕ) (d : Doc), at? x.kids p = some d → d.id ∈ ids x := by
        intro x p d h
        cases x with
        | node k l ks => rw [ids]; exact List.mem_cons_of_mem _ (at_mem h)
      have no : ∀ (x d : Doc) (p : List ℕ), (ids x).Nodup → at? x.kids p = some d → d.id ≠ x.id := by
        intro x d p hn h e
        cases x with
        | node k l ks =>
          rw [ids, List.nodup_cons] at hn
          exact hn.1 (by have := at_mem h; rw [e] at this; exact this)
      obtain ⟨x, hx, hx2⟩ := at_cons ha
      obtain ⟨y, hy, hy2⟩ := at_cons hb
      have ma : a.id ∈ ids x := by
        rcases hx2 with ⟨-, rfl⟩ | ⟨-, h⟩
        · exact id_mem _
        · exact sub _ _ _ h
      have mb : a.id ∈ ids y := by
        rw [h]
        rcases hy2 with ⟨-, rfl⟩ | ⟨-, h⟩
        · exact id_mem _
        · exact sub _ _ _ h
      have e := get_disjoint hn hx hy ma mb
      subst e
      rw [hx] at hy
      cases hy
      have hnx := get_nodup hn hx
      rcases hx2 with ⟨rfl, rfl⟩ | ⟨_, h1⟩
      · rcases hy2 with ⟨rfl, rfl⟩ | ⟨_, h2⟩
        · rfl
        · exact absurd h.symm (no _ _ _ hnx h2)
      · rcases hy2 with ⟨rfl, rfl⟩ | ⟨_, h2⟩
        · exact absurd h (no _ _ _ hnx h1)
        · have hk : (idsL x.kids).Nodup := by
            cases x with
            | node k l ks => rw [ids, List.nodup_cons] at hnx; exact hnx.2
          rw [ih hk h1 h2]

/-- The node that is at `i` in the first document and at `j` in the second takes the same time, at the same time. -/
theorem edit_time (w : View) {ts us : List Doc} (h : Edit ts us) (hn : (idsL ts).Nodup) (hf : FitsL w (some .Document) ts) {i j : List ℕ} {a b : Doc}
    (ha : at? ts i = some a) (hb : at? us j = some b) (hab : a.id = b.id) :
    RhythmTime.Spec.lengthAt (nds w us) j = RhythmTime.Spec.lengthAt (nds w ts) i ∧
      ∀ incl, timeAt (nds w us) j incl = timeAt (nds w ts) i incl := by
  obtain ⟨i', d, e1, e2, e3⟩ := edit_place w h _ j b hf hb
  rw [at_inj hn ha e1 (by rw [hab, e2])]
  exact doc_place e3

end Quickly.PitchTime
