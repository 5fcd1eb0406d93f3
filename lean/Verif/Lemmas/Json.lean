import Verif.Spec.Cli
import Mathlib.Data.List.Forall2
import Mathlib.Data.List.Basic

/-!
# Lemmas about JSON texts
-/
namespace Verif.Lemmas

open Verif.Spec Verif.Model

/-! ## Strings -/

theorem hex_unique {c : Char} {v v' : Nat} (h : Hex c v) (h' : Hex c v') : v = v' := by
  have le : ∀ a b : Char, a ≤ b → a.toNat ≤ b.toNat := fun a b hab => hab
  rcases h with ⟨h1, h2, h3⟩ | ⟨h1, h2, h3⟩ | ⟨h1, h2, h3⟩ <;>
    rcases h' with ⟨h4, h5, h6⟩ | ⟨h4, h5, h6⟩ | ⟨h4, h5, h6⟩ <;>
    (have := le _ _ h1; have := le _ _ h2; have := le _ _ h4; have := le _ _ h5
     simp only [show '0'.toNat = 48 from rfl, show '9'.toNat = 57 from rfl, show 'a'.toNat = 97 from rfl,
       show 'f'.toNat = 102 from rfl, show 'A'.toNat = 65 from rfl, show 'F'.toNat = 70 from rfl] at *
     omega)

theorem hex4_unique {w : List Char} {v v' : Nat} (h : Hex4 w v) (h' : Hex4 w v') : v = v' := by
  obtain ⟨a, b, c, d, x, y, z, u, rfl, h1, h2, h3, h4, rfl⟩ := h
  obtain ⟨a', b', c', d', x', y', z', u', he, g1, g2, g3, g4, rfl⟩ := h'
  cases he
  rw [hex_unique h1 g1, hex_unique h2 g2, hex_unique h3 g3, hex_unique h4 g4]

theorem hex4_length {w : List Char} {v : Nat} (h : Hex4 w v) : w.length = 4 := by
  obtain ⟨a, b, c, d, x, y, z, u, rfl, _⟩ := h
  rfl

/-- A string has one meaning. -/
theorem strText_unique {s s' w : List Char} (h : StrText s w) (h' : StrText s' w) : s = s' := by
  have short : ∀ {e c c' : Char}, (e, c) ∈ shortEscapes → (e, c') ∈ shortEscapes → c = c' := by
    intro e c c' h h'
    simp only [shortEscapes, List.mem_cons, Prod.mk.injEq, List.not_mem_nil, or_false] at h h'
    rcases h with ⟨rfl, rfl⟩ | ⟨rfl, rfl⟩ | ⟨rfl, rfl⟩ | ⟨rfl, rfl⟩ | ⟨rfl, rfl⟩ | ⟨rfl, rfl⟩ |
      ⟨rfl, rfl⟩ | ⟨rfl, rfl⟩ <;> simpa [eq_comm] using h'
  have nou : ∀ {c : Char}, ('u', c) ∉ shortEscapes := by
    intro c h
    simp [shortEscapes] at h
  induction h generalizing s' with
  | nil =>
    generalize hw : ([] : List Char) = w at h'
    cases h' <;> simp_all
  | @plain c s w h1 h2 h3 _ ih =>
    generalize hw : c :: w = w' at h'
    cases h' with
    | nil => cases hw
    | plain g1 g2 g3 g4 => cases hw; rw [ih g4]
    | short g1 g2 => cases hw; exact absurd rfl h2
    | unicode g1 g2 g3 => simp only [List.cons_append, List.cons.injEq] at hw; exact absurd hw.1 h2
    | surrogates => simp only [List.cons_append, List.cons.injEq] at hw; exact absurd hw.1 h2
  | @short e c s w h1 _ ih =>
    generalize hw : '\\' :: e :: w = w' at h'
    cases h' with
    | nil => cases hw
    | plain g1 g2 g3 g4 => cases hw; exact absurd rfl g2
    | short g1 g2 => cases hw; rw [ih g2, short h1 g1]
    | unicode g1 g2 g3 =>
      simp only [List.cons_append, List.cons.injEq] at hw
      rw [hw.2.1] at h1; exact absurd h1 nou
    | surrogates =>
      simp only [List.cons_append, List.cons.injEq] at hw
      rw [hw.2.1] at h1; exact absurd h1 nou
  | @unicode d n s w h1 h2 _ ih =>
    generalize hw : '\\' :: 'u' :: d ++ w = w' at h'
    cases h' with
    | nil => cases hw
    | plain g1 g2 g3 g4 =>
      simp only [List.cons_append, List.cons.injEq] at hw; exact absurd hw.1.symm g2
    | short g1 g2 =>
      simp only [List.cons_append, List.cons.injEq] at hw
      rw [← hw.2.1] at g1; exact absurd g1 nou
    | unicode g1 g2 g3 =>
      simp only [List.cons_append, List.cons.injEq, true_and] at hw
      obtain ⟨e1, e2⟩ := List.append_inj hw (by rw [hex4_length h1, hex4_length g1])
      subst e1 e2
      rw [ih g3, hex4_unique h1 g1]
    | surrogates g1 g2 g3 g4 =>
      simp only [List.cons_append, List.append_assoc, List.cons.injEq, true_and] at hw
      obtain ⟨e1, e2⟩ := List.append_inj hw (by rw [hex4_length h1, hex4_length g1])
      subst e1
      rw [hex4_unique h1 g1] at h2
      simp only [Nat.isValidChar] at h2
      omega
  | @surrogates d n d' n' s w h1 h1' h2 h3 h4 h5 _ ih =>
    generalize hw : '\\' :: 'u' :: d ++ '\\' :: 'u' :: d' ++ w = w' at h'
    cases h' with
    | nil => cases hw
    | plain g1 g2 g3 g4 =>
      simp only [List.cons_append, List.cons.injEq] at hw; exact absurd hw.1.symm g2
    | short g1 g2 =>
      simp only [List.cons_append, List.cons.injEq] at hw
      rw [← hw.2.1] at g1; exact absurd g1 nou
    | unicode g1 g2 g3 =>
      simp only [List.cons_append, List.append_assoc, List.cons.injEq, true_and] at hw
      obtain ⟨e1, e2⟩ := List.append_inj hw (by rw [hex4_length h1, hex4_length g1])
      subst e1
      rw [← hex4_unique h1 g1] at g2
      simp only [Nat.isValidChar] at g2
      omega
    | surrogates g1 g1' g2 g3 g4 g5 g6 =>
      simp only [List.cons_append, List.append_assoc, List.cons.injEq, true_and] at hw
      obtain ⟨e1, e2⟩ := List.append_inj hw (by rw [hex4_length h1, hex4_length g1])
      simp only [List.cons.injEq, true_and] at e2
      obtain ⟨e3, e4⟩ := List.append_inj e2 (by rw [hex4_length h1', hex4_length g1'])
      subst e1 e3 e4
      rw [ih g6, hex4_unique h1 g1, hex4_unique h1' g1']

theorem escapeQuotes_text {s : List Char} (h : Plain s) : StrText s (escapeQuotes s) := by
  induction s with
  | nil => exact .nil
  | cons c s ih =>
    have ih := ih fun d hd => h d (by simp [hd])
    rw [escapeQuotes]
    split
    · rename_i hc
      rw [hc]
      exact .short (by simp [shortEscapes]) ih
    · rename_i hc
      exact .plain hc (h c (by simp)).1 (h c (by simp)).2 ih

theorem plain_text {s : List Char} (h : Plain s) (hq : '"' ∉ s) : StrText s s := by
  induction s with
  | nil => exact .nil
  | cons c s ih =>
    simp only [List.mem_cons, not_or] at hq
    exact .plain (fun e => hq.1 e.symm) (h c (by simp)).1 (h c (by simp)).2
      (ih (fun d hd => h d (by simp [hd])) hq.2)

/-- Characters that take two or more characters in a string. -/
def special (c : Char) : Bool := c = '"' ∨ c = '\\' ∨ c.toNat < 0x20

theorem strText_length {s w : List Char} (h : StrText s w) :
    s.length + s.countP special ≤ w.length := by
  have le1 : ∀ c, (if special c then 1 else 0) ≤ 1 := by intro c; split <;> omega
  induction h with
  | nil => simp
  | @plain c s w h1 h2 h3 _ ih =>
    have : special c = false := by simp [special, h1, h2]; omega
    simp [List.countP_cons, this]; omega
  | @short e c s w h1 _ ih =>
    have := le1 c
    simp [List.countP_cons]; omega
  | @unicode d n s w h1 _ _ ih =>
    have := le1 (Char.ofNat n)
    have := hex4_length h1
    simp [List.countP_cons]; omega
  | @surrogates d n d' n' s w h1 h1' _ _ _ _ _ ih =>
    have := le1 (Char.ofNat (0x10000 + (n - 0xd800) * 1024 + (n' - 0xdc00)))
    have := hex4_length h1
    simp [List.countP_cons]; omega

theorem escapeQuotes_length (s : List Char) :
    (escapeQuotes s).length = s.length + s.countP (· == '"') := by
  induction s with
  | nil => rfl
  | cons c s ih =>
    rw [escapeQuotes]
    split
    · rename_i hc; simp [hc, ih]; omega
    · rename_i hc; simp [hc, ih]; omega

/-! ## Numbers -/

theorem showN_digits (n : Nat) : Digits (showN n) := by
  refine ⟨Nat.toDigits_ne_nil, fun c hc => ?_⟩
  have := Nat.isDigit_of_mem_toDigits (b := 10) (n := n) (by omega) (by omega) hc
  simp only [Char.isDigit, Bool.and_eq_true, decide_eq_true_eq] at this
  exact this

theorem showN_head (n : Nat) (h : (showN n).head? = some '0') : showN n = ['0'] := by
  have key : ∀ n, 0 < n → (Nat.toDigits 10 n).head? ≠ some '0' := by
    intro n
    induction n using Nat.strong_induction_on with
    | _ n ih =>
      intro hn
      by_cases hlt : n < 10
      · rw [Nat.toDigits_of_lt_base hlt]
        have : ∀ n < 10, 0 < n → [n.digitChar].head? ≠ some '0' := by decide
        exact this n hlt hn
      · rw [Nat.toDigits_of_base_le (by omega) (by omega)]
        have := ih (n / 10) (by omega) (by omega)
        cases hd : Nat.toDigits 10 (n / 10) with
        | nil => exact absurd hd Nat.toDigits_ne_nil
        | cons a l => rw [hd] at this; simpa using this
  by_cases hn : n = 0
  · rw [hn]; exact Nat.toDigits_zero 10
  · exact absurd h (key n (by omega))

theorem showN_num (n : Nat) : NumText (showN n) :=
  ⟨[], showN n, [], [], by simp, .inl rfl, ⟨showN_digits n, showN_head n⟩, .inl rfl, .inl rfl⟩

/-! ## Putting texts together -/

theorem ws_append {a b : List Char} (ha : Ws a) (hb : Ws b) : Ws (a ++ b) := by
  intro c hc
  rcases List.mem_append.mp hc with h | h
  · exact ha c h
  · exact hb c h

theorem ws_nil : Ws [] := by intro c hc; simp at hc

theorem elem_ws_right {j : Json} {t a : List Char} (h : Elem j t) (ha : Ws a) : Elem j (t ++ a) := by
  obtain ⟨h1, h2, h3⟩ := h
  rw [List.append_assoc]
  exact ⟨h1, h2, ws_append h3 ha⟩

theorem elem_ws_left {j : Json} {t a : List Char} (h : Elem j t) (ha : Ws a) : Elem j (a ++ t) := by
  obtain ⟨h1, h2, h3⟩ := h
  rw [← List.append_assoc, ← List.append_assoc]
  exact ⟨ws_append ha h1, h2, h3⟩

theorem value_elem {j : Json} {w : List Char} (h : Value j w) : Elem j w := by
  have := Elem.mk ws_nil h ws_nil
  simpa using this

theorem member_ws_right {m : List Char × Json} {t a : List Char} (h : Member m t) (ha : Ws a) :
    Member m (t ++ a) := by
  obtain ⟨h1, h2, h3, h4⟩ := h
  have := Member.mk h1 h2 h3 (elem_ws_right h4 ha)
  simpa using this

theorem moreMembers_append {ms ms' : List (List Char × Json)} {u u' : List Char}
    (h : MoreMembers ms u) (h' : MoreMembers ms' u') : MoreMembers (ms ++ ms') (u ++ u') := by
  induction ms generalizing u with
  | nil => cases h; exact h'
  | cons m ms ih =>
    cases h with
    | cons h1 h2 =>
      have := MoreMembers.cons h1 (ih h2)
      simpa using this

theorem moreMembers_ws {ms : List (List Char × Json)} {m : List Char × Json} {u a : List Char}
    (h : MoreMembers (m :: ms) u) (ha : Ws a) : MoreMembers (m :: ms) (u ++ a) := by
  induction ms generalizing m u with
  | nil =>
    cases h with
    | cons h1 h2 =>
      cases h2
      have := MoreMembers.cons (member_ws_right h1 ha) MoreMembers.nil
      simpa using this
  | cons m' ms ih =>
    cases h with
    | cons h1 h2 =>
      have := MoreMembers.cons h1 (ih h2)
      simpa using this

/-- An object with white space before the closing brace. -/
theorem value_obj_ws {m : List Char × Json} {ms : List (List Char × Json)} {t u a : List Char}
    (h : Member m t) (h' : MoreMembers ms u) (ha : Ws a) :
    Value (.obj (m :: ms)) ('{' :: t ++ u ++ a ++ ['}']) := by
  cases ms with
  | nil =>
    cases h'
    have := Value.obj (member_ws_right h ha) MoreMembers.nil
    simpa using this
  | cons m' ms =>
    have := Value.obj h (moreMembers_ws h' ha)
    simpa using this

theorem moreElems_append {js js' : List Json} {u u' : List Char}
    (h : MoreElems js u) (h' : MoreElems js' u') : MoreElems (js ++ js') (u ++ u') := by
  induction js generalizing u with
  | nil => cases h; exact h'
  | cons j js ih =>
    cases h with
    | cons h1 h2 =>
      have := MoreElems.cons h1 (ih h2)
      simpa using this

/-- Elements with separators that are white space, a comma and white space. -/
theorem moreElems_join {js : List Json} {ts : List (List Char)} {b : List Char}
    (h : List.Forall₂ Elem js ts) (hb : Ws b) :
    MoreElems js (ts.map fun t => ',' :: b ++ t).flatten := by
  induction h with
  | nil => exact .nil
  | cons h1 _ ih =>
    have := MoreElems.cons (elem_ws_left h1 hb) ih
    simpa using this

theorem value_arr_join {js : List Json} {ts : List (List Char)} {a b c : List Char}
    (h : List.Forall₂ Elem js ts) (ha : Ws a) (hb : Ws b) (hc : Ws c) :
    Value (.arr js) ('[' :: a ++ (',' :: b).intercalate ts ++ c ++ [']']) := by
  cases h with
  | nil => simpa [List.intercalate] using Value.arrEmpty (ws_append ha hc)
  | @cons j t js ts h1 h2 =>
    have hi : (',' :: b).intercalate (t :: ts) = t ++ (ts.map fun t => ',' :: b ++ t).flatten := by
      clear h1 h2
      induction ts generalizing t with
      | nil => simp [List.intercalate]
      | cons u ts ih =>
        have : (',' :: b).intercalate (t :: u :: ts) = t ++ (',' :: b) ++ (',' :: b).intercalate (u :: ts) := by
          simp [List.intercalate, List.intersperse]
        rw [this, ih]
        simp
    rw [hi]
    clear hi
    induction h2 generalizing j t with
    | nil =>
      have := Value.arr (elem_ws_right (elem_ws_left h1 ha) hc) MoreElems.nil
      simpa using this
    | @cons j' t' js ts h2 h3 _ =>
      have key : ∀ {js : List Json} {ts : List (List Char)}, List.Forall₂ Elem js ts → ∀ {j t}, Elem j t →
          MoreElems (j :: js) ((((t :: ts).map fun t => ',' :: b ++ t).flatten) ++ c) := by
        intro js ts h
        induction h with
        | nil =>
          intro j t h
          have := MoreElems.cons (elem_ws_right (elem_ws_left h hb) hc) MoreElems.nil
          simpa using this
        | cons g1 _ ih =>
          intro j t h
          have := MoreElems.cons (elem_ws_left h hb) (ih g1)
          simpa using this
      have := Value.arr (elem_ws_left h1 ha) (key h3 h2)
      simpa using this

end Verif.Lemmas
