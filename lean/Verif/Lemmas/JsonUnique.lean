import Verif.Lemmas.JsonScan

/-!
# A JSON text has one reading

A value is determined by any text that begins with it, provided that the value ends where the text does
or at a character that cannot continue it.
-/
namespace Verif.Lemmas

open Verif.Spec Verif.Model

/-- The length of the text before the first quote that is not escaped. -/
def strLen : List Char → Nat
  | [] => 0
  | '"' :: _ => 0
  | ['\\'] => 1
  | '\\' :: _ :: cs => strLen cs + 2
  | _ :: cs => strLen cs + 1

theorem strLen_plain {c : Char} {cs : List Char} (h1 : c ≠ '"') (h2 : c ≠ '\\') :
    strLen (c :: cs) = strLen cs + 1 := by
  rw [strLen.eq_def]
  split
  · contradiction
  · rename_i e; exact absurd (List.cons.inj e).1 h1
  · rename_i e; exact absurd (List.cons.inj e).1 h2
  · rename_i e; exact absurd (List.cons.inj e).1 h2
  · rename_i e; rw [(List.cons.inj e).2]

theorem strLen_hex4 {h : List Char} {v : Nat} (hh : Hex4 h v) (cs : List Char) :
    strLen (h ++ cs) = strLen cs + 4 := by
  obtain ⟨a, b, c, d, x, y, z, u, rfl, h1, h2, h3, h4, rfl⟩ := hh
  simp only [List.cons_append, List.nil_append]
  rw [strLen_plain (hex_plain h1).1 (hex_plain h1).2, strLen_plain (hex_plain h2).1 (hex_plain h2).2,
    strLen_plain (hex_plain h3).1 (hex_plain h3).2, strLen_plain (hex_plain h4).1 (hex_plain h4).2]

theorem strLen_text {s w : List Char} (h : StrText s w) (r : List Char) :
    strLen (w ++ '"' :: r) = w.length := by
  induction h with
  | nil => rfl
  | plain h1 h2 _ _ ih => rw [List.cons_append, strLen_plain h1 h2, ih]; rfl
  | short _ _ ih => simp only [List.cons_append, List.length_cons]; rw [strLen, ih]
  | @unicode h n s w h1 _ _ ih =>
    have hl := hex4_length h1
    simp only [List.cons_append, List.append_assoc, List.length_cons, List.length_append]
    rw [strLen, strLen_hex4 h1, ih]
    omega
  | @surrogates h n h' n' s w h1 h2 _ _ _ _ _ ih =>
    have hl := hex4_length h1
    have hl' := hex4_length h2
    simp only [List.cons_append, List.append_assoc, List.length_cons, List.length_append]
    rw [strLen, strLen_hex4 h1, strLen, strLen_hex4 h2, ih]
    omega

theorem str_prefix {s w s' w' r r' : List Char} (h : StrText s w) (h' : StrText s' w')
    (e : w ++ '"' :: r = w' ++ '"' :: r') : s = s' ∧ w = w' ∧ r = r' := by
  have hl : w.length = w'.length := by rw [← strLen_text h r, e, strLen_text h' r']
  obtain ⟨rfl, e⟩ := List.append_inj e hl
  exact ⟨strText_unique h h', rfl, by simpa using e⟩

/-- Characters between values and around them. -/
def isMark (c : Char) : Prop := c = ' ' ∨ c = '\n' ∨ c = '\t' ∨ c = '\r' ∨ c = ',' ∨ c = ']' ∨ c = '}'

/-- The text is empty or starts with such a character. -/
def Ends (r : List Char) : Prop := r = [] ∨ ∃ c t, r = c :: t ∧ isMark c

/-- The text is empty or starts with a comma or a closing bracket. -/
def Stops (r : List Char) : Prop := r = [] ∨ ∃ c t, r = c :: t ∧ (c = ',' ∨ c = ']' ∨ c = '}')

theorem numeric_not_mark {c : Char} (h : ('0' ≤ c ∧ c ≤ '9') ∨ c ∈ ['-', '+', '.', 'e', 'E']) :
    ¬ isMark c := by
  simp only [List.mem_cons, List.not_mem_nil, or_false] at h
  rintro (rfl | rfl | rfl | rfl | rfl | rfl | rfl) <;> revert h <;> decide

theorem numeric_prefix {w w' r r' : List Char} (h : ∀ c ∈ w, ¬ isMark c) (h' : ∀ c ∈ w', ¬ isMark c)
    (hr : Ends r) (hr' : Ends r') (e : w ++ r = w' ++ r') : w = w' := by
  induction w generalizing w' with
  | nil =>
    cases w' with
    | nil => rfl
    | cons c w' =>
      rcases hr with rfl | ⟨d, t, rfl, hd⟩
      · simp at e
      · simp only [List.nil_append, List.cons_append, List.cons.injEq] at e
        exact absurd (e.1 ▸ hd) (h' c (by simp))
  | cons c w ih =>
    cases w' with
    | nil =>
      rcases hr' with rfl | ⟨d, t, rfl, hd⟩
      · simp at e
      · simp only [List.nil_append, List.cons_append, List.cons.injEq] at e
        exact absurd (e.1 ▸ hd) (h c (by simp))
    | cons c' w' =>
      simp only [List.cons_append, List.cons.injEq] at e
      rw [e.1, ih (fun d hd => h d (by simp [hd])) (fun d hd => h' d (by simp [hd])) e.2]

/-- A character that is no white space. -/
def isSolid (c : Char) : Prop := ¬ (c = ' ' ∨ c = '\n' ∨ c = '\t' ∨ c = '\r')

/-- The text is empty or starts with a character that is no white space. -/
def Solid (r : List Char) : Prop := ∀ c t, r = c :: t → isSolid c

theorem ws_prefix {a a' r r' : List Char} (h : Ws a) (h' : Ws a') (hr : Solid r) (hr' : Solid r')
    (e : a ++ r = a' ++ r') : a = a' ∧ r = r' := by
  induction a generalizing a' with
  | nil =>
    cases a' with
    | nil => exact ⟨rfl, e⟩
    | cons c a' => exact absurd (h' c (by simp)) (hr c (a' ++ r') e)
  | cons c a ih =>
    cases a' with
    | nil => exact absurd (h c (by simp)) (hr' c (a ++ r) e.symm)
    | cons c' a' =>
      simp only [List.cons_append, List.cons.injEq] at e
      obtain ⟨rfl, e2⟩ := ih (fun d hd => h d (by simp [hd])) (fun d hd => h' d (by simp [hd])) e.2
      exact ⟨by rw [e.1], e2⟩

theorem stops_solid {r : List Char} (h : Stops r) : Solid r := by
  intro c t e
  rcases h with rfl | ⟨d, u, rfl, hd⟩
  · cases e
  · cases e
    rcases hd with rfl | rfl | rfl <;> (unfold isSolid; decide)

theorem ends_of {b r : List Char} (hb : Ws b) (hr : Stops r) : Ends (b ++ r) := by
  cases b with
  | nil =>
    rcases hr with rfl | ⟨d, u, rfl, hd⟩
    · exact .inl rfl
    · exact .inr ⟨d, u, rfl, by unfold isMark; tauto⟩
  | cons c b => exact .inr ⟨c, b ++ r, rfl, by have := hb c (by simp); unfold isMark; tauto⟩

theorem value_head {j : Json} {w : List Char} (h : Value j w) :
    ∃ c t, w = c :: t ∧ isSolid c ∧ ¬ isMark c := by
  cases h with
  | str _ => exact ⟨_, _, rfl, by unfold isSolid; decide, by unfold isMark; decide⟩
  | num h =>
    obtain ⟨h1, h2⟩ := numText_chars h
    obtain ⟨c, t, rfl⟩ := List.exists_cons_of_ne_nil h1
    have := numeric_not_mark (h2 c (by simp))
    exact ⟨c, t, rfl, by unfold isMark at this; unfold isSolid; tauto, this⟩
  | arrEmpty _ => exact ⟨_, _, rfl, by unfold isSolid; decide, by unfold isMark; decide⟩
  | arr _ _ => exact ⟨_, _, rfl, by unfold isSolid; decide, by unfold isMark; decide⟩
  | objEmpty _ => exact ⟨_, _, rfl, by unfold isSolid; decide, by unfold isMark; decide⟩
  | obj _ _ => exact ⟨_, _, rfl, by unfold isSolid; decide, by unfold isMark; decide⟩

theorem value_solid {j : Json} {w : List Char} (h : Value j w) (r : List Char) : Solid (w ++ r) := by
  obtain ⟨c, t, rfl, h1, _⟩ := value_head h
  intro d u e
  cases e
  exact h1

theorem num_head {w : List Char} (h : NumText w) : ∃ c t, w = c :: t ∧ c ≠ '"' ∧ c ≠ '[' ∧ c ≠ '{' := by
  obtain ⟨h1, h2⟩ := numText_chars h
  obtain ⟨c, t, rfl⟩ := List.exists_cons_of_ne_nil h1
  have hc := h2 c (by simp)
  simp only [List.mem_cons, List.not_mem_nil, or_false] at hc
  refine ⟨c, t, rfl, ?_, ?_, ?_⟩ <;> (rintro rfl; revert hc; decide)

theorem num_not {w : List Char} (h : NumText w) {c : Char} {t r : List Char}
    (hc : c = '"' ∨ c = '[' ∨ c = '{') (e : w ++ r = c :: t) : False := by
  obtain ⟨d, u, rfl, h1, h2, h3⟩ := num_head h
  simp only [List.cons_append, List.cons.injEq] at e
  rcases hc with rfl | rfl | rfl
  · exact h1 e.1
  · exact h2 e.1
  · exact h3 e.1

/-- White space followed by a closing bracket is not the beginning of a value between white space. -/
theorem elem_not_closed {j : Json} {t a u r : List Char} {c : Char} (h : Elem j t) (ha : Ws a)
    (hc : c = ']' ∨ c = '}') (e : t ++ u = a ++ c :: r) : False := by
  cases h with
  | @mk _ b w b' h1 h2 h3 =>
    rw [List.append_assoc, List.append_assoc] at e
    have hs : Solid (c :: r) := by
      intro d t e
      cases e
      rcases hc with rfl | rfl <;> (unfold isSolid; decide)
    obtain ⟨_, e2⟩ := ws_prefix h1 ha (value_solid h2 _) hs e
    obtain ⟨d, v, rfl, _, h4⟩ := value_head h2
    simp only [List.cons_append, List.cons.injEq] at e2
    apply h4
    rw [e2.1]
    rcases hc with rfl | rfl <;> (unfold isMark; decide)

theorem member_not_closed {m : List Char × Json} {t a u r : List Char} (h : Member m t) (ha : Ws a)
    (e : t ++ u = a ++ '}' :: r) : False := by
  cases h with
  | @mk k j b w b' t h1 h2 h3 h4 =>
    simp only [List.append_assoc, List.cons_append] at e
    have hs : Solid ('}' :: r) := by
      intro d t e
      cases e
      unfold isSolid; decide
    have hq : Solid ('"' :: (w ++ '"' :: (b' ++ ':' :: (t ++ u)))) := by
      intro d t e
      cases e
      unfold isSolid; decide
    obtain ⟨_, e2⟩ := ws_prefix h1 ha hq hs e
    simp at e2

theorem more_stops {js : List Json} {u r : List Char} (h : MoreElems js u) (hr : Stops r) :
    Stops (u ++ r) := by
  cases h with
  | nil => exact hr
  | cons _ _ => exact .inr ⟨',', _, rfl, .inl rfl⟩

theorem moreMembers_stops {ms : List (List Char × Json)} {u r : List Char} (h : MoreMembers ms u)
    (hr : Stops r) : Stops (u ++ r) := by
  cases h with
  | nil => exact hr
  | cons _ _ => exact .inr ⟨',', _, rfl, .inl rfl⟩

theorem stops_close {c : Char} (r : List Char) (h : c = ']' ∨ c = '}') : Stops (c :: r) :=
  .inr ⟨c, r, rfl, .inr h⟩

mutual

theorem value_prefix : ∀ {j : Json} {w : List Char}, Value j w → ∀ {j' : Json} {w' r r' : List Char},
    Value j' w' → Ends r → Ends r' → w ++ r = w' ++ r' → j = j' ∧ w = w'
  | _, _, .str (w := v) h, _, _, r, r', h', hr, hr', e => by
    cases h' with
    | @str _ v' h' =>
      simp only [List.cons_append, List.append_assoc, List.nil_append, List.cons.injEq, true_and] at e
      obtain ⟨rfl, rfl, _⟩ := str_prefix h h' e
      exact ⟨rfl, rfl⟩
    | num h' => exact (num_not h' (.inl rfl) e.symm).elim
    | arrEmpty _ => simp at e
    | arr _ _ => simp at e
    | objEmpty _ => simp at e
    | obj _ _ => simp at e
  | _, _, .num h, _, _, r, r', h', hr, hr', e => by
    cases h' with
    | num h' =>
      have := numeric_prefix (fun c hc => numeric_not_mark ((numText_chars h).2 c hc))
        (fun c hc => numeric_not_mark ((numText_chars h').2 c hc)) hr hr' e
      exact ⟨by rw [this], this⟩
    | str _ => exact (num_not h (.inl rfl) e).elim
    | arrEmpty _ => exact (num_not h (.inr (.inl rfl)) e).elim
    | arr _ _ => exact (num_not h (.inr (.inl rfl)) e).elim
    | objEmpty _ => exact (num_not h (.inr (.inr rfl)) e).elim
    | obj _ _ => exact (num_not h (.inr (.inr rfl)) e).elim
  | _, _, .arrEmpty (a := a) h, _, _, r, r', h', hr, hr', e => by
    cases h' with
    | num h' => exact (num_not h' (.inr (.inl rfl)) e.symm).elim
    | @arrEmpty a' h' =>
      simp only [List.cons_append, List.append_assoc, List.nil_append, List.cons.injEq, true_and] at e
      obtain ⟨rfl, _⟩ := ws_prefix h h' (stops_solid (stops_close r (.inl rfl)))
        (stops_solid (stops_close r' (.inl rfl))) e
      exact ⟨rfl, rfl⟩
    | @arr _ _ t u h1 h2 =>
      simp only [List.cons_append, List.append_assoc, List.nil_append, List.cons.injEq, true_and] at e
      exact (elem_not_closed h1 h (.inl rfl) e.symm).elim
    | str _ => simp at e
    | objEmpty _ => simp at e
    | obj _ _ => simp at e
  | _, _, .arr (t := t) (u := u) h g, _, _, r, r', h', hr, hr', e => by
    cases h' with
    | num h' => exact (num_not h' (.inr (.inl rfl)) e.symm).elim
    | @arrEmpty a' h' =>
      simp only [List.cons_append, List.append_assoc, List.nil_append, List.cons.injEq, true_and] at e
      exact (elem_not_closed h h' (.inl rfl) e).elim
    | @arr _ _ t' u' h1 h2 =>
      simp only [List.cons_append, List.append_assoc, List.nil_append, List.cons.injEq, true_and] at e
      obtain ⟨rfl, rfl⟩ := elem_prefix h h1 (more_stops g (stops_close r (.inl rfl)))
        (more_stops h2 (stops_close r' (.inl rfl))) e
      obtain ⟨rfl, rfl⟩ := more_prefix g h2 (c := ']') (c' := ']') (by decide) (by decide)
        (.inr (.inl rfl)) (.inr (.inl rfl)) (by simpa using e)
      exact ⟨rfl, rfl⟩
    | str _ => simp at e
    | objEmpty _ => simp at e
    | obj _ _ => simp at e
  | _, _, .objEmpty (a := a) h, _, _, r, r', h', hr, hr', e => by
    cases h' with
    | num h' => exact (num_not h' (.inr (.inr rfl)) e.symm).elim
    | @objEmpty a' h' =>
      simp only [List.cons_append, List.append_assoc, List.nil_append, List.cons.injEq, true_and] at e
      obtain ⟨rfl, _⟩ := ws_prefix h h' (stops_solid (stops_close r (.inr rfl)))
        (stops_solid (stops_close r' (.inr rfl))) e
      exact ⟨rfl, rfl⟩
    | @obj _ _ t u h1 h2 =>
      simp only [List.cons_append, List.append_assoc, List.nil_append, List.cons.injEq, true_and] at e
      exact (member_not_closed h1 h e.symm).elim
    | str _ => simp at e
    | arrEmpty _ => simp at e
    | arr _ _ => simp at e
  | _, _, .obj (t := t) (u := u) h g, _, _, r, r', h', hr, hr', e => by
    cases h' with
    | num h' => exact (num_not h' (.inr (.inr rfl)) e.symm).elim
    | @objEmpty a' h' =>
      simp only [List.cons_append, List.append_assoc, List.nil_append, List.cons.injEq, true_and] at e
      exact (member_not_closed h h' e).elim
    | @obj _ _ t' u' h1 h2 =>
      simp only [List.cons_append, List.append_assoc, List.nil_append, List.cons.injEq, true_and] at e
      obtain ⟨rfl, rfl⟩ := member_prefix h h1 (moreMembers_stops g (stops_close r (.inr rfl)))
        (moreMembers_stops h2 (stops_close r' (.inr rfl))) e
      obtain ⟨rfl, rfl⟩ := moreMembers_prefix g h2 (by simpa using e)
      exact ⟨rfl, rfl⟩
    | str _ => simp at e
    | arrEmpty _ => simp at e
    | arr _ _ => simp at e

theorem elem_prefix : ∀ {j : Json} {t : List Char}, Elem j t → ∀ {j' : Json} {t' r r' : List Char},
    Elem j' t' → Stops r → Stops r' → t ++ r = t' ++ r' → j = j' ∧ t = t'
  | _, _, .mk (a := a) (w := w) (b := b) h1 h2 h3, _, _, r, r', h', hr, hr', e => by
    cases h' with
    | @mk _ a' w' b' g1 g2 g3 =>
      simp only [List.append_assoc] at e
      obtain ⟨rfl, e'⟩ := ws_prefix h1 g1 (value_solid h2 _) (value_solid g2 _) e
      obtain ⟨rfl, rfl⟩ := value_prefix h2 g2 (ends_of h3 hr) (ends_of g3 hr') e'
      obtain ⟨rfl, _⟩ := ws_prefix h3 g3 (stops_solid hr) (stops_solid hr') (by simpa using e)
      exact ⟨rfl, rfl⟩

theorem more_prefix : ∀ {js : List Json} {u : List Char}, MoreElems js u → ∀ {js' : List Json}
    {u' r r' : List Char} {c c' : Char}, MoreElems js' u' → c ≠ ',' → c' ≠ ',' →
    (c = ',' ∨ c = ']' ∨ c = '}') → (c' = ',' ∨ c' = ']' ∨ c' = '}') → u ++ c :: r = u' ++ c' :: r' →
    js = js' ∧ u = u'
  | _, _, .nil, _, _, r, r', c, c', h', hc, hc', hs, hs', e => by
    cases h' with
    | nil => exact ⟨rfl, rfl⟩
    | cons _ _ =>
      simp only [List.nil_append, List.cons_append, List.cons.injEq] at e
      exact absurd e.1 hc
  | _, _, .cons (t := t) (u := u) h g, _, _, r, r', c, c', h', hc, hc', hs, hs', e => by
    cases h' with
    | nil =>
      simp only [List.nil_append, List.cons_append, List.cons.injEq] at e
      exact absurd e.1.symm hc'
    | @cons _ _ t' u' h1 h2 =>
      simp only [List.cons_append, List.append_assoc, List.cons.injEq, true_and] at e
      obtain ⟨rfl, rfl⟩ := elem_prefix h h1 (more_stops g (.inr ⟨c, r, rfl, hs⟩))
        (more_stops h2 (.inr ⟨c', r', rfl, hs'⟩)) e
      obtain ⟨rfl, rfl⟩ := more_prefix g h2 hc hc' hs hs' (by simpa using e)
      exact ⟨rfl, rfl⟩

theorem member_prefix : ∀ {m : List Char × Json} {t : List Char}, Member m t →
    ∀ {m' : List Char × Json} {t' r r' : List Char}, Member m' t' → Stops r → Stops r' →
    t ++ r = t' ++ r' → m = m' ∧ t = t'
  | _, _, .mk (k := k) (a := a) (w := w) (b := b) (t := t) h1 h2 h3 h4, _, _, r, r', h', hr, hr', e => by
    cases h' with
    | @mk k' j' a' w' b' t' g1 g2 g3 g4 =>
      simp only [List.append_assoc, List.cons_append] at e
      have hq : ∀ u : List Char, Solid ('"' :: u) := by
        intro u d t e
        cases e
        unfold isSolid; decide
      have hc : ∀ u : List Char, Solid (':' :: u) := by
        intro u d t e
        cases e
        unfold isSolid; decide
      obtain ⟨rfl, e1⟩ := ws_prefix h1 g1 (hq _) (hq _) e
      obtain ⟨rfl, rfl, e2⟩ := str_prefix h2 g2 (List.cons.inj e1).2
      obtain ⟨rfl, e3⟩ := ws_prefix h3 g3 (hc _) (hc _) e2
      obtain ⟨rfl, rfl⟩ := elem_prefix h4 g4 hr hr' (List.cons.inj e3).2
      exact ⟨rfl, rfl⟩

theorem moreMembers_prefix : ∀ {ms : List (List Char × Json)} {u : List Char}, MoreMembers ms u →
    ∀ {ms' : List (List Char × Json)} {u' r r' : List Char}, MoreMembers ms' u' →
    u ++ '}' :: r = u' ++ '}' :: r' → ms = ms' ∧ u = u'
  | _, _, .nil, _, _, r, r', h', e => by
    cases h' with
    | nil => exact ⟨rfl, rfl⟩
    | cons _ _ => simp at e
  | _, _, .cons (t := t) (u := u) h g, _, _, r, r', h', e => by
    cases h' with
    | nil => simp at e
    | @cons _ _ t' u' h1 h2 =>
      simp only [List.cons_append, List.append_assoc, List.cons.injEq, true_and] at e
      obtain ⟨rfl, rfl⟩ := member_prefix h h1 (moreMembers_stops g (stops_close r (.inr rfl)))
        (moreMembers_stops h2 (stops_close r' (.inr rfl))) e
      obtain ⟨rfl, rfl⟩ := moreMembers_prefix g h2 (by simpa using e)
      exact ⟨rfl, rfl⟩

end

theorem elem_unique {j j' : Json} {w : List Char} (h : Elem j w) (h' : Elem j' w) : j = j' :=
  (elem_prefix h h' (r := []) (r' := []) (.inl rfl) (.inl rfl) rfl).1

end Verif.Lemmas
