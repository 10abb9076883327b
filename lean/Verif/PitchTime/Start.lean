import Verif.PitchTime.Run

/-! # `Rel2abs` on any document and any selection -/

namespace Quickly.PitchTime

open Spec
open Quickly.Rel2abs
open Quickly.Rel2abs.Spec

mutual
theorem shows_rank {h : Heap} : ∀ t : Doc, Shows h t → (ids t).Nodup → ∀ d : ℕ, ∃ rank : Id → ℕ, rank t.id = d ∧
    ∀ j ∈ ids t, d ≤ rank j ∧ ∀ k ∈ h.kids j, k ∈ ids t ∧ rank j < rank k
  | .node i l ks, hs, hn, d => by
    rw [Shows] at hs
    rw [ids, List.nodup_cons] at hn
    obtain ⟨r, h1, h2⟩ := showsL_rank ks hs.2.2.2 hn.2 (d + 1)
    have hne : ∀ j ∈ idsL ks, j ≠ i := fun j hj e => hn.1 (e ▸ hj)
    refine ⟨fun j => if j = i then d else r j, by simp [Doc.id], ?_⟩
    intro j hj
    rw [ids, List.mem_cons] at hj
    rcases hj with rfl | hj
    · refine ⟨by simp, fun k hk => ?_⟩
      rw [hs.2.1, List.mem_map] at hk
      obtain ⟨t, ht, rfl⟩ := hk
      have hm : t.id ∈ idsL ks := mem_idsL.2 ⟨t, ht, id_mem_ids t⟩
      refine ⟨by rw [ids]; exact List.mem_cons_of_mem _ hm, ?_⟩
      have := h1 t ht
      simp only [if_true, hne _ hm, if_false]
      omega
    · have := h2 j hj
      simp only [hne j hj, if_false]
      refine ⟨by omega, fun k hk => ?_⟩
      have h3 := this.2 k hk
      exact ⟨by rw [ids]; exact List.mem_cons_of_mem _ h3.1, by simp only [hne k h3.1, if_false]; exact h3.2⟩
theorem showsL_rank {h : Heap} : ∀ ts : List Doc, ShowsL h ts → (idsL ts).Nodup → ∀ d : ℕ, ∃ rank : Id → ℕ, (∀ t ∈ ts, rank t.id = d) ∧
    ∀ j ∈ idsL ts, d ≤ rank j ∧ ∀ k ∈ h.kids j, k ∈ idsL ts ∧ rank j < rank k
  | [], _, _, d => ⟨fun _ => d, by simp, by simp [idsL]⟩
  | t :: ts, hs, hn, d => by
    rw [ShowsL] at hs
    rw [idsL, List.nodup_append] at hn
    obtain ⟨r1, a1, a2⟩ := shows_rank t hs.1 hn.1 d
    obtain ⟨r2, b1, b2⟩ := showsL_rank ts hs.2 hn.2.1 d
    have hne : ∀ j ∈ idsL ts, j ∉ ids t := fun j hj hc => hn.2.2 j hc j hj rfl
    refine ⟨fun j => if j ∈ ids t then r1 j else r2 j, ?_, ?_⟩
    · intro u hu
      rcases List.mem_cons.1 hu with rfl | hu
      · simp only [id_mem_ids, if_true, a1]
      · simp only [hne _ (mem_idsL.2 ⟨u, hu, id_mem_ids u⟩), if_false, b1 u hu]
    · intro j hj
      rw [idsL, List.mem_append] at hj
      rcases hj with hj | hj
      · have := a2 j hj
        simp only [hj, if_true]
        refine ⟨this.1, fun k hk => ?_⟩
        have h3 := this.2 k hk
        exact ⟨by rw [idsL]; exact List.mem_append_left _ h3.1, by simp only [h3.1, if_true]; exact h3.2⟩
      · have := b2 j hj
        simp only [hne j hj, if_false]
        refine ⟨this.1, fun k hk => ?_⟩
        have h3 := this.2 k hk
        exact ⟨by rw [idsL]; exact List.mem_append_right _ h3.1, by simp only [hne k h3.1, if_false]; exact h3.2⟩
end

mutual
theorem kept_of {h h' : Heap} (hk : ∀ j, Almost (h.lab j) (h'.lab j)) : ∀ t : Doc, Shows h' t → Kept h t
  | .node i l ks, hs => by
    rw [Shows] at hs
    rw [Kept]
    refine ⟨?_, keptL_of hk ks hs.2.2.2⟩
    rcases hk i with e | ⟨b, n, n', chk, e1, e2⟩
    · exact .inl (by rw [e, hs.1])
    · exact .inr ⟨b, n, n', chk, e1, by rw [← hs.1, e2]⟩
theorem keptL_of {h h' : Heap} (hk : ∀ j, Almost (h.lab j) (h'.lab j)) : ∀ ts : List Doc, ShowsL h' ts → KeptL h ts
  | [], _ => trivial
  | t :: ts, hs => by
    rw [ShowsL] at hs
    rw [KeptL]
    exact ⟨kept_of hk t hs.1, keptL_of hk ts hs.2⟩
end

/-- How it is at the start. -/
theorem net_of {h : Heap} {i : Id} {l : Lab} {ks : List Doc} (hs : Shows h (.node i l ks)) (hn : (ids (.node i l ks)).Nodup) :
    ∃ B : Net, B.S = ids (.node i l ks) ∧ B.root = i ∧ B.mem = h ∧ Links B h fun _ => False := by
  obtain ⟨rank, r1, r2⟩ := shows_rank _ hs hn 0
  refine ⟨⟨ids (.node i l ks), i, rank, h, by simp [ids], fun j hj => by
    simp only [Doc.id] at r1
    rw [r1]; exact Nat.zero_le _⟩, rfl, rfl, rfl, fun j hj k hk => (r2 j hj).2 k hk, ?_, ?_, ?_, fun j => .inl rfl, fun j _ => ⟨rfl, rfl, rfl⟩, rfl⟩
  · intro k hk hr
    obtain ⟨c, N, e, rfl, a1, a2, a3, a4, a5, a6⟩ := locate hs hn hk hr
    exact ⟨c.pid, a6 _ (pid_mem c), a3⟩
  · intro j hj _
    obtain ⟨u, hu, rfl⟩ := ids_subs j _ hj
    have h1 := subs_shows _ hs u hu
    have h2 := subs_nodup _ u hn hu
    cases u with
    | node j m gs =>
      rw [Shows] at h1
      rw [ids, List.nodup_cons] at h2
      simp only [Doc.id]
      rw [h1.2.1]
      refine ⟨tops_nodup gs h2.2, fun k hk => ⟨?_, not_false⟩⟩
      rw [List.mem_map] at hk
      obtain ⟨t, ht, rfl⟩ := hk
      exact h1.2.2.1 t ht
  · intro j hj
    exact hj.elim

/-- What the edit does, whatever is selected. -/
theorem rel2abs_edit (c : Cfg) (sel : Sel) (f : ℕ) (h h' : Heap) (i : Id) (l : Lab) (ks : List Doc) (hs : Shows h (.node i l ks))
    (hn : (ids (.node i l ks)).Nodup) (hk : ShapeL ks) (he : editRange c sel f h i = some (.ok h')) :
    ∃ ks', Shows h' (.node i l ks') ∧ Edit ks ks' ∧ Kept h (.node i l ks') ∧ h'.parent i = h.parent i ∧
      ∀ j ∉ ids (.node i l ks), h'.lab j = h.lab j ∧ h'.kids j = h.kids j ∧ h'.parent j = h.parent j := by
  obtain ⟨N, e1, rfl, rfl, hl⟩ := net_of hs hn
  obtain ⟨D, ks', hi⟩ := edit_safe ⟨N, l, ks, hk⟩ c sel f N.mem N.root _ 0 h' ⟨_, ks, hl, hs, hn, edit_refl ks⟩ N.root_in he
  exact ⟨ks', hi.shows, hi.edit, kept_of hi.labs _ hi.shows, hi.top, fun j hj => hi.out j (by rw [e1]; exact hj)⟩

end Quickly.PitchTime
