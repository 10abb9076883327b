import Verif.Rel2abs.Music

/-! # Every tree can be in memory -/

namespace Quickly.Rel2abs

open Quickly.Pitch Quickly.Relative Spec

mutual
/-- All nodes of the tree, with what is in them. -/
def subs : Doc → List Doc
  | .node i l ks => .node i l ks :: subsL ks
/-- The same for a list. -/
def subsL : List Doc → List Doc
  | [] => []
  | t :: ts => subs t ++ subsL ts
end

theorem subs_self (t : Doc) : t ∈ subs t := by cases t; simp [subs]

mutual
theorem subs_ids : ∀ (u t : Doc), t ∈ subs u → t.id ∈ ids u ∧ ∀ x ∈ idsL t.kids, x ∈ idsL u.kids
  | .node i l ks, t, h => by
    rw [subs, List.mem_cons] at h
    rcases h with rfl | h
    · exact ⟨id_mem_ids _, fun _ h => h⟩
    · obtain ⟨a, b⟩ := subsL_ids ks t h
      refine ⟨by rw [ids]; exact List.mem_cons_of_mem _ a, b⟩
theorem subsL_ids : ∀ (us : List Doc) (t : Doc), t ∈ subsL us → t.id ∈ idsL us ∧ ∀ x ∈ idsL t.kids, x ∈ idsL us
  | [], t, h => by simp [subsL] at h
  | u :: us, t, h => by
    rw [subsL, List.mem_append] at h
    rw [idsL]
    rcases h with h | h
    · obtain ⟨a, b⟩ := subs_ids u t h
      refine ⟨List.mem_append_left _ a, fun x hx => List.mem_append_left _ ?_⟩
      have := b x hx
      cases u
      rw [ids]
      exact List.mem_cons_of_mem _ this
    · obtain ⟨a, b⟩ := subsL_ids us t h
      exact ⟨List.mem_append_right _ a, fun x hx => List.mem_append_right _ (b x hx)⟩
end

mutual
theorem find_none (i : Id) : ∀ t : Doc, i ∉ ids t → find i t = none
  | .node j l ks, h => by
    rw [ids, List.mem_cons, not_or] at h
    rw [find, if_neg h.1, findL_none i ks h.2]
theorem findL_none (i : Id) : ∀ ts : List Doc, i ∉ idsL ts → findL i ts = none
  | [], _ => by rw [findL]
  | t :: ts, h => by
    rw [idsL, List.mem_append, not_or] at h
    rw [findL, find_none i t h.1, findL_none i ts h.2]; rfl
end

mutual
theorem find_sub : ∀ (u t : Doc), (ids u).Nodup → t ∈ subs u → find t.id u = some t
  | .node i l ks, t, hn, h => by
    rw [ids, List.nodup_cons] at hn
    rw [subs, List.mem_cons] at h
    rcases h with rfl | h
    · simp [find, Doc.id]
    · rw [find, if_neg, findL_sub ks t hn.2 h]
      intro e
      exact hn.1 (e ▸ (subsL_ids ks t h).1)
theorem findL_sub : ∀ (us : List Doc) (t : Doc), (idsL us).Nodup → t ∈ subsL us → findL t.id us = some t
  | [], t, _, h => by simp [subsL] at h
  | u :: us, t, hn, h => by
    rw [idsL, List.nodup_append] at hn
    rw [subsL, List.mem_append] at h
    rw [findL]
    rcases h with h | h
    · rw [find_sub u t hn.1 h]; rfl
    · rw [find_none _ u (fun hu => hn.2.2 _ hu _ (subsL_ids us t h).1 rfl), findL_sub us t hn.2.1 h]; rfl
end

mutual
theorem parentOf_none (i : Id) : ∀ t : Doc, i ∉ idsL t.kids → parentOf i t = none
  | .node j l ks, h => by
    rw [Doc.kids] at h
    rw [parentOf, if_neg, parentOfL_none i ks h]
    intro hm
    obtain ⟨u, hu, e⟩ := List.mem_map.1 hm
    exact h (mem_idsL.2 ⟨u, hu, e ▸ id_mem_ids u⟩)
theorem parentOfL_none (i : Id) : ∀ ts : List Doc, i ∉ idsL ts → parentOfL i ts = none
  | [], _ => by rw [parentOfL]
  | t :: ts, h => by
    rw [idsL, List.mem_append, not_or] at h
    have h1 : i ∉ idsL t.kids := by intro hi; apply h.1; cases t; rw [ids]; exact List.mem_cons_of_mem _ hi
    rw [parentOfL, parentOf_none i t h1, parentOfL_none i ts h.2]; rfl
end

theorem inner_not_top {x : Id} : ∀ (ks : List Doc) (u : Doc), (idsL ks).Nodup → u ∈ ks → x ∈ idsL u.kids → x ∉ ks.map Doc.id
  | t :: ts, u, hn, hu, hx, hm => by
    rw [idsL, List.nodup_append] at hn
    have sub : ∀ v : Doc, x ∈ idsL v.kids → x ∈ ids v := by intro v hv; cases v; rw [ids]; exact List.mem_cons_of_mem _ hv
    have top : ∀ us : List Doc, x ∈ us.map Doc.id → x ∈ idsL us := by
      intro us h
      obtain ⟨v, hv, e⟩ := List.mem_map.1 h
      exact mem_idsL.2 ⟨v, hv, e ▸ id_mem_ids v⟩
    rw [List.map_cons, List.mem_cons] at hm
    rcases List.mem_cons.1 hu with rfl | hu
    · rcases hm with hm | hm
      · subst hm
        have := hn.1
        cases u
        rw [ids, List.nodup_cons] at this
        exact this.1 hx
      · exact hn.2.2 x (sub u hx) x (top ts hm) rfl
    · rcases hm with hm | hm
      · exact hn.2.2 x (hm ▸ id_mem_ids t) x (mem_idsL.2 ⟨u, hu, sub u hx⟩) rfl
      · exact inner_not_top ts u hn.2.1 hu hx hm

theorem subsL_mem {t : Doc} : ∀ {us : List Doc}, t ∈ subsL us → ∃ u ∈ us, t ∈ subs u
  | u :: us, h => by
    rw [subsL, List.mem_append] at h
    rcases h with h | h
    · exact ⟨u, List.mem_cons_self .., h⟩
    · obtain ⟨v, hv, h⟩ := subsL_mem h
      exact ⟨v, List.mem_cons_of_mem _ hv, h⟩

theorem kid_id {t k : Doc} (h : k ∈ t.kids) : k.id ∈ idsL t.kids := mem_idsL.2 ⟨k, h, id_mem_ids k⟩

mutual
theorem parentOf_sub : ∀ (u t k : Doc), (ids u).Nodup → t ∈ subs u → k ∈ t.kids → parentOf k.id u = some t.id
  | .node i l ks, t, k, hn, h, hk => by
    rw [ids, List.nodup_cons] at hn
    rw [subs, List.mem_cons] at h
    rcases h with rfl | h
    · rw [parentOf]; exact if_pos (List.mem_map_of_mem (f := Doc.id) hk)
    · obtain ⟨u, hu, htu⟩ := subsL_mem h
      rw [parentOf, if_neg (inner_not_top ks u hn.2 hu ((subs_ids u t htu).2 _ (kid_id hk))), parentOfL_sub ks t k hn.2 h hk]
theorem parentOfL_sub : ∀ (us : List Doc) (t k : Doc), (idsL us).Nodup → t ∈ subsL us → k ∈ t.kids → parentOfL k.id us = some t.id
  | [], t, k, _, h, _ => by simp [subsL] at h
  | u :: us, t, k, hn, h, hk => by
    rw [idsL, List.nodup_append] at hn
    rw [subsL, List.mem_append] at h
    rw [parentOfL]
    rcases h with h | h
    · rw [parentOf_sub u t k hn.1 h hk]; rfl
    · rw [parentOf_none, parentOfL_sub us t k hn.2.1 h hk]; · rfl
      intro hi
      refine hn.2.2 _ ?_ _ ((subsL_ids us t h).2 _ (kid_id hk)) rfl
      cases u
      rw [ids]
      exact List.mem_cons_of_mem _ hi
end

mutual
theorem kids_subs : ∀ u t : Doc, t ∈ subs u → ∀ k ∈ t.kids, k ∈ subs u
  | .node i l ks, t, h, k, hk => by
    rw [subs, List.mem_cons] at h ⊢
    rcases h with rfl | h
    · exact .inr (top_subsL ks k hk)
    · exact .inr (kids_subsL ks t h k hk)
theorem kids_subsL : ∀ (us : List Doc) (t : Doc), t ∈ subsL us → ∀ k ∈ t.kids, k ∈ subsL us
  | [], t, h, _, _ => by simp [subsL] at h
  | u :: us, t, h, k, hk => by
    rw [subsL, List.mem_append] at h ⊢
    exact h.imp (fun h => kids_subs u t h k hk) (fun h => kids_subsL us t h k hk)
theorem top_subsL : ∀ (us : List Doc) (k : Doc), k ∈ us → k ∈ subsL us
  | u :: us, k, h => by
    rw [subsL, List.mem_append]
    rcases List.mem_cons.1 h with rfl | h
    · exact .inl (subs_self k)
    · exact .inr (top_subsL us k h)
end

mutual
theorem store_shows_sub (L : Str) (T : Doc) (hn : (ids T).Nodup) : ∀ t : Doc, t ∈ subs T → Shows (store L T) t
  | .node i l ks, h => by
    have hf : find i T = some (.node i l ks) := find_sub T (.node i l ks) hn h
    rw [Shows]
    refine ⟨by simp [store, hf, Doc.lab], by simp [store, hf, Doc.kids], fun k hk => parentOf_sub T _ k hn h hk, ?_⟩
    exact store_showsL_sub L T hn ks fun k hk => kids_subs T _ h k hk
theorem store_showsL_sub (L : Str) (T : Doc) (hn : (ids T).Nodup) : ∀ ts : List Doc, (∀ t ∈ ts, t ∈ subs T) → ShowsL (store L T) ts
  | [], _ => by simp [ShowsL]
  | t :: ts, h => by
    rw [ShowsL]
    exact ⟨store_shows_sub L T hn t (h t (List.mem_cons_self ..)), store_showsL_sub L T hn ts fun u hu => h u (List.mem_cons_of_mem _ hu)⟩
end

theorem store_shows (L : Str) (T : Doc) (hn : (ids T).Nodup) : Shows (store L T) T := store_shows_sub L T hn T (subs_self T)

mutual
theorem find_mem (i : Id) : ∀ u t : Doc, find i u = some t → t ∈ subs u ∧ t.id = i
  | .node j l ks, t, h => by
    rw [find] at h
    split_ifs at h with e
    · simp only [Option.some.injEq] at h
      subst h
      exact ⟨subs_self _, e.symm⟩
    · obtain ⟨a, b⟩ := findL_mem i ks t h
      exact ⟨by rw [subs]; exact List.mem_cons_of_mem _ a, b⟩
theorem findL_mem (i : Id) : ∀ (us : List Doc) (t : Doc), findL i us = some t → t ∈ subsL us ∧ t.id = i
  | [], t, h => by simp [findL] at h
  | u :: us, t, h => by
    rw [findL] at h
    rw [subsL, List.mem_append]
    cases hu : find i u with
    | some v =>
      rw [hu] at h
      have e : v = t := by simpa using h
      subst e
      obtain ⟨a, b⟩ := find_mem i u v hu
      exact ⟨.inl a, b⟩
    | none =>
      rw [hu] at h
      obtain ⟨a, b⟩ := findL_mem i us t (by simpa using h)
      exact ⟨.inr a, b⟩
end

theorem tops_nodup : ∀ ks : List Doc, (idsL ks).Nodup → (ks.map Doc.id).Nodup
  | [], _ => by simp
  | t :: ts, h => by
    rw [idsL, List.nodup_append] at h
    rw [List.map_cons, List.nodup_cons]
    refine ⟨fun hm => ?_, tops_nodup ts h.2.1⟩
    obtain ⟨u, hu, e⟩ := List.mem_map.1 hm
    exact h.2.2 _ (id_mem_ids t) _ (mem_idsL.2 ⟨u, hu, e ▸ id_mem_ids u⟩) rfl

mutual
theorem subs_nodup : ∀ u t : Doc, (ids u).Nodup → t ∈ subs u → (ids t).Nodup
  | .node i l ks, t, hn, h => by
    rw [subs, List.mem_cons] at h
    rcases h with rfl | h
    · exact hn
    · rw [ids, List.nodup_cons] at hn
      exact subsL_nodup ks t hn.2 h
theorem subsL_nodup : ∀ (us : List Doc) (t : Doc), (idsL us).Nodup → t ∈ subsL us → (ids t).Nodup
  | [], t, _, h => by simp [subsL] at h
  | u :: us, t, hn, h => by
    rw [idsL, List.nodup_append] at hn
    rw [subsL, List.mem_append] at h
    exact h.elim (subs_nodup u t hn.1) (subsL_nodup us t hn.2.1)
end

theorem store_linked (L : Str) (T : Doc) (hn : (ids T).Nodup) : Linked (store L T) where
  parent j k hk := by
    cases hf : find j T with
    | none => simp [store, hf] at hk
    | some t =>
      obtain ⟨a, rfl⟩ := find_mem j T t hf
      simp only [store, hf, Option.map_some, Option.getD_some] at hk
      obtain ⟨u, hu, rfl⟩ := List.mem_map.1 hk
      exact parentOf_sub T t u hn a hu
  nodup j := by
    cases hf : find j T with
    | none => simp [store, hf]
    | some t =>
      obtain ⟨a, _⟩ := find_mem j T t hf
      simp only [store, hf, Option.map_some, Option.getD_some]
      have := subs_nodup T t hn a
      cases t
      rw [ids, List.nodup_cons] at this
      exact tops_nodup _ this.2

end Quickly.Rel2abs
