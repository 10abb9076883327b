import Verif.Html.Spec

/-!
# Html that is written is different for different Html
-/

namespace Quickly.Html

open Quickly.Text Quickly.Html.Spec

/-- One character of a text. -/
def ech (c : Char) : Str := match c with
  | '&' => "&amp;".toList
  | '<' => "&lt;".toList
  | '>' => "&gt;".toList
  | '"' => "&quot;".toList
  | '\'' => "&#x27;".toList
  | c => [c]

theorem esc_cons (c : Char) (s : Str) : esc (c :: s) = ech c ++ esc s := by
  simp only [esc, List.flatMap_cons]
  rfl

theorem ech_head (c : Char) : ∃ d t, ech c = d :: t ∧ d ≠ '<' ∧ d ≠ '"' := by
  unfold ech
  split <;> first | exact ⟨_, _, rfl, by decide, by decide⟩ | exact ⟨_, _, rfl, by assumption, by assumption⟩

theorem ech_inj (c c' : Char) (u u' : Str) (h : ech c ++ u = ech c' ++ u') : c = c' ∧ u = u' := by
  unfold ech at h
  split at h <;> split at h <;> simp_all <;> exact absurd h.1.symm (by assumption)

/-- Nothing, or it starts with a character that a text does not have. -/
def Stop (r : Str) : Prop := ∀ c, r.head? = some c → c = '<' ∨ c = '"'

theorem esc_inj (s s' r r' : Str) (hr : Stop r) (hr' : Stop r') (h : esc s ++ r = esc s' ++ r') : s = s' ∧ r = r' := by
  induction s generalizing s' with
  | nil =>
    cases s' with
    | nil => exact ⟨rfl, h⟩
    | cons c s' =>
      obtain ⟨d, t, hd, h1, h2⟩ := ech_head c
      rw [esc_cons, hd] at h
      have := hr d (by rw [show r = esc [] ++ r from rfl, h]; rfl)
      rcases this with e | e
      · exact absurd e h1
      · exact absurd e h2
  | cons c s ih =>
    cases s' with
    | nil =>
      obtain ⟨d, t, hd, h1, h2⟩ := ech_head c
      rw [esc_cons, hd] at h
      have := hr' d (by rw [show r' = esc [] ++ r' from rfl, ← h]; rfl)
      rcases this with e | e
      · exact absurd e h1
      · exact absurd e h2
    | cons c' s' =>
      rw [esc_cons, esc_cons, List.append_assoc, List.append_assoc] at h
      obtain ⟨rfl, g⟩ := ech_inj _ _ _ _ h
      obtain ⟨rfl, g'⟩ := ih _ g
      exact ⟨rfl, g'⟩

/-- A character that no name has. -/
def ends (c : Char) : Bool := [' ', '\n', '\t', '<', '>', '/', '=', '"', '\'', '&'].contains c

theorem name_inj (s s' : Str) (c c' : Char) (r r' : Str) (h1 : s.all (fun c => !ends c) = true) (h2 : s'.all (fun c => !ends c) = true)
    (hc : ends c = true) (hc' : ends c' = true) (h : s ++ c :: r = s' ++ c' :: r') : s = s' ∧ c = c' ∧ r = r' := by
  induction s generalizing s' with
  | nil =>
    cases s' with
    | nil => simpa using h
    | cons d s' =>
      simp only [List.nil_append, List.cons_append, List.cons.injEq] at h
      rw [h.1] at hc
      simp [hc] at h2
  | cons d s ih =>
    cases s' with
    | nil =>
      simp only [List.nil_append, List.cons_append, List.cons.injEq] at h
      rw [← h.1] at hc'
      simp [hc'] at h1
    | cons d' s' =>
      simp only [List.cons_append, List.cons.injEq] at h
      simp only [List.all_cons, Bool.and_eq_true] at h1 h2
      obtain ⟨h3, h4⟩ := ih s' h1.2 h2.2 h.2
      exact ⟨by rw [h.1, h3], h4⟩

theorem isName_iff (s : Str) : isName s = true ↔ s ≠ [] ∧ s.all (fun c => !ends c) = true := by
  simp [isName, ends]

theorem attrs_end (as : List (Str × Option Str)) (c : Char) (r : Str) (hc : ends c = true) :
    ∃ d r', (as.map serAttr).flatten ++ c :: r = d :: r' ∧ ends d = true ∧ (d = ' ' ∨ d = c) := by
  cases as with
  | nil => exact ⟨c, r, rfl, hc, .inr rfl⟩
  | cons a as => exact ⟨' ', _, rfl, rfl, .inl rfl⟩

theorem attrs_inj (as bs : List (Str × Option Str)) (c c' : Char) (r r' : Str) (ha : ∀ a ∈ as, isName a.1 = true)
    (hb : ∀ b ∈ bs, isName b.1 = true) (hc : c = '>' ∨ c = '/') (hc' : c' = '>' ∨ c' = '/')
    (h : (as.map serAttr).flatten ++ c :: r = (bs.map serAttr).flatten ++ c' :: r') : as = bs ∧ c = c' ∧ r = r' := by
  have hce : ends c = true := by rcases hc with rfl | rfl <;> rfl
  have hce' : ends c' = true := by rcases hc' with rfl | rfl <;> rfl
  induction as generalizing bs with
  | nil =>
    cases bs with
    | nil => simpa using h
    | cons b bs =>
      exfalso
      simp only [List.map_nil, List.flatten_nil, List.nil_append, List.map_cons, List.flatten_cons, serAttr, List.append_assoc,
        List.cons_append, List.cons.injEq] at h
      rcases hc with rfl | rfl <;> simp at h
  | cons a as ih =>
    cases bs with
    | nil =>
      exfalso
      simp only [List.map_nil, List.flatten_nil, List.nil_append, List.map_cons, List.flatten_cons, serAttr, List.append_assoc,
        List.cons_append, List.cons.injEq] at h
      rcases hc' with rfl | rfl <;> simp at h
    | cons b bs =>
      obtain ⟨k, v⟩ := a
      obtain ⟨k', v'⟩ := b
      obtain ⟨d, q, hd, hde, hdc⟩ := attrs_end as c r hce
      obtain ⟨d', q', hd', hde', hdc'⟩ := attrs_end bs c' r' hce'
      have hk := ((isName_iff k).mp (ha _ (List.mem_cons_self ..))).2
      have hk' := ((isName_iff k').mp (hb _ (List.mem_cons_self ..))).2
      have hne : d ≠ '=' := by
        rcases hdc with rfl | rfl
        · decide
        · rcases hc with rfl | rfl <;> decide
      have hne' : d' ≠ '=' := by
        rcases hdc' with rfl | rfl
        · decide
        · rcases hc' with rfl | rfl <;> decide
      have ih := ih bs (fun a h => ha a (List.mem_cons_of_mem _ h)) (fun a h => hb a (List.mem_cons_of_mem _ h))
      have e1 : ∀ (s : Str), "=\"".toList ++ esc s ++ "\"".toList = '=' :: ('"' :: (esc s ++ ['"'])) := fun s => rfl
      simp only [List.map_cons, List.flatten_cons, serAttr, List.append_assoc, List.cons_append, List.nil_append, List.cons.injEq, true_and] at h
      cases v with
      | none =>
        cases v' with
        | none =>
          simp only [List.nil_append] at h
          rw [hd, hd'] at h
          obtain ⟨rfl, rfl, rfl⟩ := name_inj _ _ _ _ _ _ hk hk' hde hde' h
          obtain ⟨rfl, h⟩ := ih (by rw [hd, hd'])
          exact ⟨rfl, h⟩
        | some v' =>
          simp only [List.nil_append, hd] at h
          obtain ⟨_, e, _⟩ := name_inj _ _ _ '=' _ _ hk hk' hde rfl h
          exact absurd e hne
      | some v =>
        cases v' with
        | none =>
          simp only [List.nil_append, hd'] at h
          obtain ⟨_, e, _⟩ := name_inj _ _ '=' _ _ _ hk hk' rfl hde' h
          exact absurd e.symm hne'
        | some v' =>
          obtain ⟨rfl, _, g⟩ := name_inj _ _ '=' '=' _ _ hk hk' rfl rfl h
          have st : ∀ t : Str, Stop ("\"".toList ++ t) := by
            intro t c hc
            exact .inr (by simpa using hc.symm)
          have g := List.append_cancel_left (as := ['"']) g
          change (esc v ++ "\"".toList) ++ _ = (esc v' ++ "\"".toList) ++ _ at g
          rw [List.append_assoc, List.append_assoc] at g
          obtain ⟨rfl, g1⟩ := esc_inj _ _ _ _ (st _) (st _) g
          obtain ⟨rfl, g2⟩ := ih (List.append_cancel_left g1)
          exact ⟨rfl, g2⟩

theorem go_named (xs : List X) : named.go xs = true ↔ ∀ x ∈ xs, named x = true := by
  induction xs with
  | nil => simp [named.go]
  | cons x xs ih => simp [named.go, ih]

theorem elem_split (n : Str) (as : List (Str × Option Str)) (ks : List X) (r : Str) :
    ∃ c t, ser (.elem n as ks) ++ r = '<' :: (n ++ ((as.map serAttr).flatten ++ c :: t)) ∧
      ((ks = [] ∧ c = '/' ∧ t = '>' :: r) ∨ (ks ≠ [] ∧ c = '>' ∧ t = ser.go ks ++ '<' :: '/' :: (n ++ '>' :: r))) := by
  cases ks with
  | nil => exact ⟨'/', '>' :: r, by simp [ser], .inl ⟨rfl, rfl, rfl⟩⟩
  | cons k ks => exact ⟨'>', ser.go (k :: ks) ++ '<' :: '/' :: (n ++ '>' :: r), by simp [ser], .inr ⟨by simp, rfl, rfl⟩⟩

theorem name_ne_slash (n : Str) (h : isName n = true) (t : Str) : ∃ d u, n ++ t = d :: u ∧ d ≠ '/' := by
  obtain ⟨h1, h2⟩ := (isName_iff n).mp h
  cases n with
  | nil => exact absurd rfl h1
  | cons d n =>
    refine ⟨d, n ++ t, rfl, ?_⟩
    rintro rfl
    simp [ends] at h2

/-- An element or a text that is not empty is not the end tag. -/
theorem ser_ne (x : X) (r t : Str) (hn : named x = true) (hm : normal x = true) : ser x ++ t ≠ [] ++ '<' :: '/' :: r := by
  intro h
  cases x with
  | text s =>
    rw [ser] at h
    cases s with
    | nil => simp [normal] at hm
    | cons c s =>
      obtain ⟨d, t, hd, h1, h2⟩ := ech_head c
      rw [esc_cons, hd] at h
      simp only [List.cons_append, List.nil_append, List.cons.injEq] at h
      exact h1 h.1
  | elem n as ks =>
    obtain ⟨c, t, e, -⟩ := elem_split n as ks t
    rw [e] at h
    simp only [named, Bool.and_eq_true] at hn
    obtain ⟨d, u, hd, hne⟩ := name_ne_slash n hn.1.1 ((as.map serAttr).flatten ++ c :: t)
    rw [hd] at h
    simp only [List.nil_append, List.cons.injEq, true_and] at h
    exact hne h.1

theorem go_stop (xs : List X) (r : Str) (h : (xs.head?.map isText).getD false = false) : Stop (ser.go xs ++ '<' :: '/' :: r) := by
  intro c hc
  cases xs with
  | nil => exact .inl (by simpa [ser.go] using hc.symm)
  | cons x xs =>
    cases x with
    | text s => simp [isText] at h
    | elem n as ks =>
      rw [ser.go, List.append_assoc] at hc
      obtain ⟨_, _, e, -⟩ := elem_split n as ks (ser.go xs ++ '<' :: '/' :: r)
      rw [e] at hc
      exact .inl (by simpa using hc.symm)

mutual

theorem ser_inj : (x y : X) → (r r' : Str) → named x = true → named y = true → normal x = true → normal y = true →
    (isText x = true → Stop r) → (isText y = true → Stop r') → ser x ++ r = ser y ++ r' → x = y ∧ r = r'
  | .text s, .text s', r, r', _, _, _, _, hr, hr', h => by
    rw [ser, ser] at h
    obtain ⟨rfl, g⟩ := esc_inj _ _ _ _ (hr rfl) (hr' rfl) h
    exact ⟨rfl, g⟩
  | .text s, .elem n as ks, r, r', _, _, hx, _, _, _, h => by
    exfalso
    obtain ⟨c, t, e, -⟩ := elem_split n as ks r'
    rw [e, ser] at h
    cases s with
    | nil => simp [normal] at hx
    | cons c s =>
      obtain ⟨d, t, hd, h1, h2⟩ := ech_head c
      rw [esc_cons, hd] at h
      simp only [List.cons_append, List.cons.injEq] at h
      exact h1 h.1
  | .elem n as ks, .text s, r, r', _, _, _, hy, _, _, h => by
    exfalso
    obtain ⟨c, t, e, -⟩ := elem_split n as ks r
    rw [e, ser] at h
    cases s with
    | nil => simp [normal] at hy
    | cons c s =>
      obtain ⟨d, t, hd, h1, h2⟩ := ech_head c
      rw [esc_cons, hd] at h
      simp only [List.cons_append, List.cons.injEq] at h
      exact h1 h.1.symm
  | .elem n as ks, .elem n' as' ks', r, r', nx, ny, mx, my, _, _, h => by
    obtain ⟨c, t, e, hc⟩ := elem_split n as ks r
    obtain ⟨c', t', e', hc'⟩ := elem_split n' as' ks' r'
    rw [e, e'] at h
    simp only [List.cons.injEq, true_and] at h
    simp only [named, Bool.and_eq_true, List.all_eq_true] at nx ny
    rw [normal] at mx my
    have q : c = '>' ∨ c = '/' := by rcases hc with hc | hc <;> simp [hc.2.1]
    have q' : c' = '>' ∨ c' = '/' := by rcases hc' with hc | hc <;> simp [hc.2.1]
    have f : ends c = true := by rcases q with rfl | rfl <;> rfl
    have f' : ends c' = true := by rcases q' with rfl | rfl <;> rfl
    obtain ⟨d, u, hd, hde, -⟩ := attrs_end as c t f
    obtain ⟨d', u', hd', hde', -⟩ := attrs_end as' c' t' f'
    rw [hd, hd'] at h
    obtain ⟨rfl, rfl, rfl⟩ := name_inj _ _ _ _ _ _ ((isName_iff n).mp nx.1.1).2 ((isName_iff n').mp ny.1.1).2 hde hde' h
    rw [← hd'] at hd
    obtain ⟨rfl, rfl, rfl⟩ := attrs_inj as as' c c' t t' nx.1.2 ny.1.2 q q' hd
    rcases hc with ⟨rfl, rfl, rfl⟩ | ⟨hk, rfl, rfl⟩
    · rcases hc' with ⟨rfl, _, h⟩ | ⟨_, h, _⟩
      · exact ⟨rfl, by simpa using h⟩
      · exact absurd h (by decide)
    · rcases hc' with ⟨_, h, _⟩ | ⟨_, _, h⟩
      · exact absurd h (by decide)
      · obtain ⟨rfl, g⟩ := go_inj ks ks' _ _ nx.2 ny.2 mx my h
        obtain ⟨_, _, g2⟩ := name_inj n n '>' '>' _ _ ((isName_iff n).mp nx.1.1).2 ((isName_iff n).mp nx.1.1).2 rfl rfl g
        exact ⟨rfl, g2⟩
termination_by x => sizeOf x

theorem go_inj : (xs ys : List X) → (r r' : Str) → named.go xs = true → named.go ys = true → normal.go xs = true → normal.go ys = true →
    ser.go xs ++ '<' :: '/' :: r = ser.go ys ++ '<' :: '/' :: r' → xs = ys ∧ r = r'
  | [], [], r, r', _, _, _, _, h => by simpa [ser.go] using h
  | x :: xs, [], r, r', nx, _, mx, _, h => by
    exfalso
    simp only [named.go, normal.go, Bool.and_eq_true] at nx mx
    rw [ser.go, ser.go, List.append_assoc] at h
    exact ser_ne x _ _ nx.1 mx.1.1 h
  | [], y :: ys, r, r', _, ny, _, my, h => by
    exfalso
    simp only [named.go, normal.go, Bool.and_eq_true] at ny my
    rw [ser.go, ser.go, List.append_assoc] at h
    exact ser_ne y _ _ ny.1 my.1.1 h.symm
  | x :: xs, y :: ys, r, r', nx, ny, mx, my, h => by
    simp only [named.go, normal.go, Bool.and_eq_true] at nx mx ny my
    rw [ser.go, ser.go, List.append_assoc, List.append_assoc] at h
    obtain ⟨rfl, g⟩ := ser_inj x y _ _ nx.1 ny.1 mx.1.1 my.1.1 (fun hx => go_stop xs r (by simpa [hx] using mx.1.2))
      (fun hy => go_stop ys r' (by simpa [hy] using my.1.2)) h
    obtain ⟨rfl, g2⟩ := go_inj xs ys _ _ nx.2 ny.2 mx.2 my.2 g
    exact ⟨rfl, g2⟩
termination_by xs => sizeOf xs

end

end Quickly.Html
