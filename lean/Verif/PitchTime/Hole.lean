import Verif.PitchTime.Trans
import Verif.Rel2abs.Store

/-! # A document with a hole in the list of children of some node -/

namespace Quickly.PitchTime

open Spec
open Quickly.Rel2abs
open Quickly.Rel2abs.Spec

/-- A document with a hole in the children of a node. -/
inductive Hole
  | top (i : Id) (l : Lab) (pre post : List Doc)
  | down (i : Id) (l : Lab) (pre : List Doc) (c : Hole) (post : List Doc)

/-- The hole is filled. -/
def Hole.fill : Hole → List Doc → Doc
  | .top i l pre post, ts => .node i l (pre ++ (ts ++ post))
  | .down i l pre c post, ts => .node i l (pre ++ c.fill ts :: post)

/-- The node with the hole. -/
def Hole.pid : Hole → Id
  | .top i _ _ _ => i
  | .down _ _ _ c _ => c.pid

/-- The children to the left of the hole. -/
def Hole.left : Hole → List Doc
  | .top _ _ pre _ => pre
  | .down _ _ _ c _ => c.left

/-- The children to the right of the hole. -/
def Hole.right : Hole → List Doc
  | .top _ _ _ post => post
  | .down _ _ _ c _ => c.right

/-- The nodes around the hole. -/
def Hole.cids : Hole → List Id
  | .top i _ pre post => i :: (idsL pre ++ idsL post)
  | .down i _ pre c post => i :: (idsL pre ++ (c.cids ++ idsL post))

/-- The root. -/
def Hole.root : Hole → Id × Lab
  | .top i l _ _ => (i, l)
  | .down i l _ _ _ => (i, l)

theorem fill_root (c : Hole) (ts : List Doc) : ((c.fill ts).id, (c.fill ts).lab) = c.root := by cases c <;> rfl

theorem pid_mem : ∀ c : Hole, c.pid ∈ c.cids
  | .top _ _ _ _ => by simp [Hole.pid, Hole.cids]
  | .down _ _ _ c _ => by simp [Hole.pid, Hole.cids, pid_mem c]

theorem root_mem (c : Hole) : c.root.1 ∈ c.cids := by cases c <;> simp [Hole.root, Hole.cids]

theorem idsL_app (a b : List Doc) : idsL (a ++ b) = idsL a ++ idsL b := by
  induction a with
  | nil => rfl
  | cons x a ih => simp [idsL, ih]

theorem fill_ids : ∀ (c : Hole) (ts : List Doc), (ids (c.fill ts)).Perm (c.cids ++ idsL ts)
  | .top i l pre post, ts => by
    simp only [Hole.fill, ids, Hole.cids, idsL_app, List.cons_append, List.append_assoc]
    exact ((List.perm_append_comm).append_left _).cons _
  | .down i l pre c post, ts => by
    simp only [Hole.fill, ids, Hole.cids, idsL_app, idsL, List.cons_append, List.append_assoc]
    refine List.Perm.cons _ (List.Perm.append_left _ ?_)
    refine ((fill_ids c ts).append_right _).trans ?_
    rw [List.append_assoc]
    exact (List.perm_append_comm).append_left _

theorem hole_of : ∀ (T u : Doc), u ∈ subsL T.kids → ∃ c : Hole, T = c.fill [u]
  | .node i l ks, u, h => by
    simp only [Doc.kids] at h
    obtain ⟨k, hk, hu⟩ := subsL_mem h
    obtain ⟨a, b, e⟩ := List.append_of_mem hk
    cases k with
    | node j m gs =>
      rw [subs, List.mem_cons] at hu
      rcases hu with rfl | hu
      · exact ⟨.top i l a b, by rw [Hole.fill, e]; rfl⟩
      · obtain ⟨c, ec⟩ := hole_of (.node j m gs) u hu
        exact ⟨.down i l a c b, by rw [Hole.fill, ← ec, e]⟩
termination_by T => sizeOf T
decreasing_by
  have := List.sizeOf_lt_of_mem hk
  simp only [Doc.node.sizeOf_spec] at this ⊢
  omega

mutual
theorem ids_subs (i : Id) : ∀ T : Doc, i ∈ ids T → ∃ u ∈ subs T, u.id = i
  | .node j l ks, h => by
    rw [ids, List.mem_cons] at h
    rcases h with rfl | h
    · exact ⟨_, subs_self _, rfl⟩
    · obtain ⟨u, h1, h2⟩ := idsL_subsL i ks h
      exact ⟨u, by rw [subs]; exact List.mem_cons_of_mem _ h1, h2⟩
theorem idsL_subsL (i : Id) : ∀ ts : List Doc, i ∈ idsL ts → ∃ u ∈ subsL ts, u.id = i
  | [], h => by simp [idsL] at h
  | t :: ts, h => by
    rw [idsL, List.mem_append] at h
    rcases h with h | h
    · obtain ⟨u, h1, h2⟩ := ids_subs i t h
      exact ⟨u, by rw [subsL]; exact List.mem_append_left _ h1, h2⟩
    · obtain ⟨u, h1, h2⟩ := idsL_subsL i ts h
      exact ⟨u, by rw [subsL]; exact List.mem_append_right _ h1, h2⟩
end

mutual
theorem agree_shows {h h' : Heap} : ∀ t : Doc, (∀ j ∈ ids t, h'.lab j = h.lab j ∧ h'.kids j = h.kids j) →
    (∀ j ∈ idsL t.kids, h'.parent j = h.parent j) → Shows h t → Shows h' t
  | .node i l ks, h1, h2, hs => by
    rw [Shows] at hs ⊢
    obtain ⟨a1, a2, a3, a4⟩ := hs
    have hi := h1 i (by simp [ids])
    refine ⟨by rw [hi.1, a1], by rw [hi.2, a2], fun k hk => ?_, ?_⟩
    · rw [h2 k.id (by exact mem_idsL.2 ⟨k, hk, id_mem_ids k⟩), a3 k hk]
    · exact agree_showsL ks (fun j hj => h1 j (by simp [ids, hj])) (fun j hj => h2 j hj) a4
theorem agree_showsL {h h' : Heap} : ∀ ts : List Doc, (∀ j ∈ idsL ts, h'.lab j = h.lab j ∧ h'.kids j = h.kids j) →
    (∀ j ∈ idsL ts, h'.parent j = h.parent j) → ShowsL h ts → ShowsL h' ts
  | [], _, _, _ => trivial
  | .node i l ks :: ts, h1, h2, hs => by
    rw [ShowsL] at hs ⊢
    exact ⟨agree_shows (.node i l ks) (fun j hj => h1 j (by simp [idsL, hj])) (fun j hj => h2 j (by
        simp only [Doc.kids] at hj
        simp [idsL, ids, hj])) hs.1,
      agree_showsL ts (fun j hj => h1 j (by simp [idsL, hj])) (fun j hj => h2 j (by simp [idsL, hj])) hs.2⟩
end

theorem showsL_app {h : Heap} (a b : List Doc) : ShowsL h (a ++ b) ↔ ShowsL h a ∧ ShowsL h b := by
  induction a with
  | nil => simp [ShowsL]
  | cons x a ih => simp only [List.cons_append, ShowsL, ih, and_assoc]

theorem fill_shows {h : Heap} : ∀ (c : Hole) (ts : List Doc), Shows h (c.fill ts) →
    ShowsL h ts ∧ h.kids c.pid = c.left.map Doc.id ++ (ts.map Doc.id ++ c.right.map Doc.id) ∧ ∀ t ∈ ts, h.parent t.id = some c.pid
  | .top i l pre post, ts, hs => by
    rw [Hole.fill, Shows, showsL_app, showsL_app] at hs
    obtain ⟨-, a2, a3, -, a4, -⟩ := hs
    exact ⟨a4, by simpa [Hole.pid, Hole.left, Hole.right] using a2, fun t ht => a3 t (by simp [ht])⟩
  | .down i l pre c post, ts, hs => by
    rw [Hole.fill, Shows, showsL_app, ShowsL] at hs
    exact fill_shows c ts hs.2.2.2.2.1

theorem refill_shows {h h' : Heap} : ∀ (c : Hole) (ts us : List Doc), Shows h (c.fill ts) → c.cids.Nodup →
    (∀ j ∈ c.cids, h'.lab j = h.lab j ∧ h'.parent j = h.parent j ∧ (j ≠ c.pid → h'.kids j = h.kids j)) →
    h'.kids c.pid = c.left.map Doc.id ++ (us.map Doc.id ++ c.right.map Doc.id) → (∀ u ∈ us, h'.parent u.id = some c.pid) → ShowsL h' us →
    Shows h' (c.fill us)
  | .top i l pre post, ts, us, hs, hn, ha, hk, hp, hu => by
    rw [Hole.fill, Shows, showsL_app, showsL_app] at hs ⊢
    obtain ⟨a1, -, a3, a4, -, a6⟩ := hs
    rw [Hole.cids, List.nodup_cons] at hn
    have hi := ha i (by simp [Hole.cids])
    have hne : ∀ j ∈ idsL pre ++ idsL post, j ≠ i := fun j hj e => hn.1 (e ▸ hj)
    have hin : ∀ j ∈ idsL pre ++ idsL post, j ∈ (Hole.top i l pre post).cids := fun j hj => by rw [Hole.cids]; exact List.mem_cons_of_mem _ hj
    have hmem : ∀ k ∈ pre ++ post, k.id ∈ idsL pre ++ idsL post := by
      intro k hk
      rw [← idsL_app]
      exact mem_idsL.2 ⟨k, hk, id_mem_ids k⟩
    refine ⟨by rw [hi.1, a1], by simpa [Hole.pid, Hole.left, Hole.right] using hk, ?_, ?_, hu, ?_⟩
    · intro k hk
      simp only [List.mem_append] at hk
      have hold : k ∈ pre ++ post → h'.parent k.id = some i := by
        intro hk
        rw [(ha k.id (hin _ (hmem k hk))).2.1]
        refine a3 k ?_
        simp only [List.mem_append] at hk ⊢
        tauto
      rcases hk with hk | hk | hk
      · exact hold (by simp [hk])
      · exact hp k hk
      · exact hold (by simp [hk])
    · refine agree_showsL pre (fun j hj => ?_) (fun j hj => ?_) a4
      · have := ha j (hin j (by simp [hj]))
        exact ⟨this.1, this.2.2 (hne j (by simp [hj]))⟩
      · exact (ha j (hin j (by simp [hj]))).2.1
    · refine agree_showsL post (fun j hj => ?_) (fun j hj => ?_) a6
      · have := ha j (hin j (by simp [hj]))
        exact ⟨this.1, this.2.2 (hne j (by simp [hj]))⟩
      · exact (ha j (hin j (by simp [hj]))).2.1
  | .down i l pre c post, ts, us, hs, hn, ha, hk, hp, hu => by
    rw [Hole.fill, Shows, showsL_app, ShowsL] at hs ⊢
    obtain ⟨a1, a2, a3, a4, a5, a6⟩ := hs
    rw [Hole.cids, List.nodup_cons, List.nodup_append, List.nodup_append] at hn
    obtain ⟨n1, n2, ⟨n3, n4, n5⟩, n6⟩ := hn
    have hpid : (Hole.down i l pre c post).pid = c.pid := rfl
    have hid : (c.fill us).id = (c.fill ts).id := by
      have h1 := fill_root c us
      have h2 := fill_root c ts
      rw [← h2] at h1
      exact congrArg Prod.fst h1
    have hidc : (c.fill ts).id ∈ c.cids := by
      have h2 := fill_root c ts
      have := root_mem c
      rwa [← h2] at this
    have hin : ∀ j ∈ idsL pre ++ (c.cids ++ idsL post), j ∈ (Hole.down i l pre c post).cids := fun j hj => by
      rw [Hole.cids]; exact List.mem_cons_of_mem _ hj
    have hi := ha i (by simp [Hole.cids])
    have hip : i ≠ c.pid := fun e => n1 (by simp [e, pid_mem c])
    refine ⟨by rw [hi.1, a1], ?_, ?_, ?_, ?_, ?_⟩
    · rw [hi.2.2 hip, a2]; simp [hid]
    · intro k hk
      simp only [List.mem_append, List.mem_cons] at hk
      rcases hk with hk | rfl | hk
      · rw [(ha k.id (hin _ (by simp [mem_idsL.2 ⟨k, hk, id_mem_ids k⟩]))).2.1]; exact a3 k (by simp [hk])
      · rw [hid, (ha _ (hin _ (by simp [hidc]))).2.1]; exact a3 _ (by simp)
      · rw [(ha k.id (hin _ (by simp [mem_idsL.2 ⟨k, hk, id_mem_ids k⟩]))).2.1]; exact a3 k (by simp [hk])
    · refine agree_showsL pre (fun j hj => ?_) (fun j hj => ?_) a4
      · have := ha j (hin j (by simp [hj]))
        refine ⟨this.1, this.2.2 ?_⟩
        rw [hpid]
        exact n6 j hj _ (by simp [pid_mem c])
      · exact (ha j (hin j (by simp [hj]))).2.1
    · exact refill_shows c ts us a5 n3 (fun j hj => ha j (hin j (by simp [hj]))) hk hp hu
    · refine agree_showsL post (fun j hj => ?_) (fun j hj => ?_) a6
      · have := ha j (hin j (by simp [hj]))
        refine ⟨this.1, this.2.2 ?_⟩
        rw [hpid]
        exact (n5 _ (pid_mem c) j hj).symm
      · exact (ha j (hin j (by simp [hj]))).2.1

theorem edit_in (i : Id) (l : Lab) {ks gs : List Doc} (h : Edit ks gs) : Edit [.node i l ks] [.node i l gs] := by
  cases l with
  | note b n chk => exact .note _ _ _ _ _ _ _ _ _ _ h .nil
  | _ => exact .node _ _ _ _ _ _ (by simp) h .nil

theorem edit_fill : ∀ (c : Hole) {ts us : List Doc}, Edit ts us → Edit (c.fill ts).kids (c.fill us).kids
  | .top i l pre post, ts, us, h => edit_append (edit_refl pre) (edit_append h (edit_refl post))
  | .down i l pre c post, ts, us, h => by
    have h1 := edit_fill c h
    have h2 : Edit [c.fill ts] [c.fill us] := by
      have e1 := fill_root c ts
      have e2 := fill_root c us
      revert h1 e1 e2
      cases c.fill ts
      cases c.fill us
      intro h1 e1 e2
      rw [← e1] at e2
      simp only [Doc.id, Doc.lab, Prod.mk.injEq] at e2
      obtain ⟨rfl, rfl⟩ := e2
      exact edit_in _ _ h1
    exact edit_append (edit_refl pre) (edit_append h2 (edit_refl post))

/-- What is in the hole is changed. -/
theorem change {h h' : Heap} {root : Id} {l : Lab} {ks : List Doc} (hs : Shows h (.node root l ks)) (hn : (ids (.node root l ks)).Nodup)
    (c : Hole) (N : Doc) (us : List Doc) (e : .node root l ks = c.fill [N])
    (h1 : ∀ j ∈ c.cids, h'.lab j = h.lab j ∧ h'.parent j = h.parent j ∧ (j ≠ c.pid → h'.kids j = h.kids j))
    (h2 : h'.kids c.pid = c.left.map Doc.id ++ (us.map Doc.id ++ c.right.map Doc.id)) (h3 : ∀ u ∈ us, h'.parent u.id = some c.pid)
    (h4 : ShowsL h' us) (h5 : Edit [N] us) (h6 : (idsL us).Sublist (ids N)) :
    ∃ ks', Shows h' (.node root l ks') ∧ (ids (.node root l ks')).Nodup ∧ Edit ks ks' := by
  rw [e] at hs hn
  have hperm := fill_ids c [N]
  have hn1 := hperm.nodup_iff.1 hn
  have hn2 : (c.cids ++ idsL us).Nodup := by
    refine hn1.sublist (List.Sublist.append_left ?_ _)
    simpa [idsL] using h6
  have hn3 := (fill_ids c us).nodup_iff.2 hn2
  have hs2 := refill_shows c [N] us hs (List.nodup_append.1 hn1).1 h1 h2 h3 h4
  have hed := edit_fill c h5
  have e1 := fill_root c [N]
  have e2 := fill_root c us
  rw [← e] at e1 hed
  revert hn3 hs2 hed e2
  cases c.fill us with
  | node r2 l2 ks2 =>
    intro hn3 hs2 hed e2
    rw [← e1] at e2
    simp only [Doc.id, Doc.lab, Prod.mk.injEq] at e2
    obtain ⟨rfl, rfl⟩ := e2
    exact ⟨ks2, hs2, hn3, hed⟩

/-- Every node of the document but the root is in a hole. -/
theorem locate {h : Heap} {root : Id} {l : Lab} {ks : List Doc} (hs : Shows h (.node root l ks)) (hn : (ids (.node root l ks)).Nodup)
    {n : Id} (hi : n ∈ ids (.node root l ks)) (hr : n ≠ root) : ∃ (c : Hole) (N : Doc), .node root l ks = c.fill [N] ∧ N.id = n ∧ Shows h N ∧
      h.kids c.pid = c.left.map Doc.id ++ (n :: c.right.map Doc.id) ∧ h.parent n = some c.pid ∧ (ids N).Nodup ∧ (∀ j ∈ ids N, j ∉ c.cids) ∧
      (∀ j ∈ c.cids, j ∈ ids (.node root l ks)) := by
  have hi2 : n ∈ idsL ks := by
    rw [ids, List.mem_cons] at hi
    exact hi.resolve_left hr
  obtain ⟨N, hN, rfl⟩ := idsL_subsL n ks hi2
  obtain ⟨c, e⟩ := hole_of (.node root l ks) N hN
  have hs1 := hs
  have hn1 := hn
  rw [e] at hs1 hn1
  obtain ⟨a1, a2, a3⟩ := fill_shows c [N] hs1
  have hn2 := (fill_ids c [N]).nodup_iff.1 hn1
  simp only [idsL, List.append_nil] at hn2
  rw [List.nodup_append] at hn2
  refine ⟨c, N, e, rfl, a1.1, by simpa using a2, a3 N (by simp), hn2.2.1, fun j hj hc => hn2.2.2 j hc j hj rfl, fun j hj => ?_⟩
  rw [e]
  exact (fill_ids c [N]).mem_iff.2 (List.mem_append_left _ hj)

mutual
theorem subs_shows {h : Heap} : ∀ t : Doc, Shows h t → ∀ u ∈ subs t, Shows h u
  | .node i l ks, hs, u, hu => by
    rw [subs, List.mem_cons] at hu
    rcases hu with rfl | hu
    · exact hs
    · rw [Shows] at hs
      exact subsL_shows ks hs.2.2.2 u hu
theorem subsL_shows {h : Heap} : ∀ ts : List Doc, ShowsL h ts → ∀ u ∈ subsL ts, Shows h u
  | [], _, u, hu => by simp [subsL] at hu
  | t :: ts, hs, u, hu => by
    rw [ShowsL] at hs
    rw [subsL, List.mem_append] at hu
    rcases hu with hu | hu
    · exact subs_shows t hs.1 u hu
    · exact subsL_shows ts hs.2 u hu
end

theorem kid_in {h : Heap} {root : Id} {l : Lab} {ks : List Doc} (hs : Shows h (.node root l ks)) {p n : Id} (hp : p ∈ ids (.node root l ks))
    (hk : n ∈ h.kids p) : n ∈ ids (.node root l ks) := by
  obtain ⟨u, hu, rfl⟩ := ids_subs p _ hp
  have hsu := subs_shows _ hs u hu
  cases u with
  | node j m gs =>
    rw [Shows] at hsu
    simp only [Doc.id] at hk
    rw [hsu.2.1] at hk
    simp only [List.mem_map] at hk
    obtain ⟨k, hk, rfl⟩ := hk
    have := subs_ids _ _ (kids_subs _ _ hu k hk)
    exact this.1

end Quickly.PitchTime
