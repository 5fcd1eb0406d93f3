import Verif.Lemmas.Json

/-!
# What cannot occur in a JSON text

A scanner that knows the last character outside of strings: no closing bracket follows a comma, and no
opening brace a closing one.
-/
namespace Verif.Lemmas

open Verif.Spec Verif.Model

/-- State of the scanner: outside of a string, with the last character there that is not white space;
inside; inside, after a backslash. -/
inductive Scan where
  | out (last : Char)
  | inside
  | escaped
  deriving DecidableEq

/-- Characters that do not follow each other. -/
def badPair (l c : Char) : Bool := (l = ',' ∧ (c = ']' ∨ c = '}')) ∨ (l = '}' ∧ c = '{')

/-- White space. -/
def isWs (c : Char) : Bool := c = ' ' ∨ c = '\n' ∨ c = '\t' ∨ c = '\r'

/-- One character. -/
def scan1 : Scan → Char → Option Scan
  | .out l, c => if c = '"' then some .inside else if isWs c then some (.out l)
    else if badPair l c then none else some (.out c)
  | .inside, c => if c = '"' then some (.out '"') else if c = '\\' then some .escaped else some .inside
  | .escaped, _ => some .inside

/-- All characters. -/
def scan : Scan → List Char → Option Scan
  | s, [] => some s
  | s, c :: cs => match scan1 s c with
    | none => none
    | some s => scan s cs

theorem scan_append (s : Scan) (a b : List Char) :
    scan s (a ++ b) = (scan s a).bind fun s => scan s b := by
  induction a generalizing s with
  | nil => rfl
  | cons c a ih =>
    simp only [List.cons_append, scan]
    cases scan1 s c with
    | none => rfl
    | some s => exact ih s

theorem scan_ws {a : List Char} (h : Ws a) (l : Char) : scan (.out l) a = some (.out l) := by
  induction a with
  | nil => rfl
  | cons c a ih =>
    have hc := h c (by simp)
    have : scan1 (.out l) c = some (.out l) := by
      rcases hc with rfl | rfl | rfl | rfl <;> simp [scan1, isWs]
    simp only [scan, this]
    exact ih fun d hd => h d (by simp [hd])

theorem hex_plain {c : Char} {v : Nat} (h : Hex c v) : c ≠ '"' ∧ c ≠ '\\' := by
  constructor <;>
    (rintro rfl; rcases h with ⟨h1, h2, _⟩ | ⟨h1, h2, _⟩ | ⟨h1, h2, _⟩ <;> revert h1 h2 <;> decide)

theorem scan_hex4 {w : List Char} {v : Nat} (h : Hex4 w v) : scan .inside w = some .inside := by
  obtain ⟨a, b, c, d, x, y, z, u, rfl, h1, h2, h3, h4, rfl⟩ := h
  simp [scan, scan1, hex_plain h1, hex_plain h2, hex_plain h3, hex_plain h4]

theorem scan_str {s w : List Char} (h : StrText s w) : scan .inside w = some .inside := by
  induction h with
  | nil => rfl
  | plain h1 h2 _ _ ih => simpa [scan, scan1, h1, h2] using ih
  | short _ _ ih => simpa [scan, scan1] using ih
  | unicode h1 _ _ ih =>
    rw [scan_append]
    simp [scan, scan1, scan_hex4 h1, ih]
  | surrogates h1 h2 _ _ _ _ _ ih =>
    rw [List.append_assoc, scan_append, List.cons_append, List.cons_append, scan]
    simp [scan, scan1, scan_hex4 h1, scan_hex4 h2, scan_append, ih]

/-- Characters of numbers. -/
theorem scan_numeric {w : List Char} (h : ∀ c ∈ w, ('0' ≤ c ∧ c ≤ '9') ∨ c ∈ ['-', '+', '.', 'e', 'E'])
    (hw : w ≠ []) (l : Char) : ∃ l', l' ≠ ',' ∧ scan (.out l) w = some (.out l') := by
  have one : ∀ l c : Char, (('0' ≤ c ∧ c ≤ '9') ∨ c ∈ ['-', '+', '.', 'e', 'E']) →
      scan1 (.out l) c = some (.out c) ∧ c ≠ ',' := by
    intro l c hc
    have hne : ∀ d ∈ ['"', ' ', '\n', '\t', '\r', ']', '}', '{', ','], c ≠ d := by
      rintro d hd rfl
      revert hd hc
      simp only [List.mem_cons, List.not_mem_nil, or_false]
      rintro h1 (rfl | rfl | rfl | rfl | rfl | rfl | rfl | rfl | rfl) <;> revert h1 <;> decide
    simp only [List.mem_cons, List.not_mem_nil, or_false, forall_eq_or_imp, forall_eq] at hne
    obtain ⟨n1, n2, n3, n4, n5, n6, n7, n8, n9⟩ := hne
    exact ⟨by simp [scan1, isWs, badPair, n1, n2, n3, n4, n5, n6, n7, n8], n9⟩
  induction w generalizing l with
  | nil => exact absurd rfl hw
  | cons c w ih =>
    obtain ⟨h1, h2⟩ := one l c (h c (by simp))
    simp only [scan, h1]
    by_cases hw' : w = []
    · subst hw'; exact ⟨c, h2, rfl⟩
    · exact ih (fun d hd => h d (by simp [hd])) hw' c

theorem numText_chars {w : List Char} (h : NumText w) :
    w ≠ [] ∧ ∀ c ∈ w, ('0' ≤ c ∧ c ≤ '9') ∨ c ∈ ['-', '+', '.', 'e', 'E'] := by
  obtain ⟨sign, int, frac, exp, rfl, h1, ⟨⟨h2, h3⟩, _⟩, h4, h5⟩ := h
  constructor
  · simp [h2]
  · intro c hc
    simp only [List.mem_append] at hc
    rcases hc with ((hc | hc) | hc) | hc
    · rcases h1 with rfl | rfl
      · simp at hc
      · simp at hc; simp [hc]
    · exact .inl (h3 c hc)
    · rcases h4 with rfl | ⟨d, hd, rfl⟩
      · simp at hc
      · rcases List.mem_cons.mp hc with rfl | hc
        · simp
        · exact .inl (hd.2 c hc)
    · rcases h5 with rfl | ⟨e, s, d, he, hs, hd, rfl⟩
      · simp at hc
      · simp only [List.cons_append, List.mem_cons, List.mem_append] at hc
        rcases hc with rfl | hc | hc
        · rcases he with rfl | rfl <;> simp
        · rcases hs with rfl | rfl | rfl <;> simp at hc <;> simp [hc]
        · exact .inl (hd.2 c hc)

theorem scan_num {w : List Char} (h : NumText w) (l : Char) :
    ∃ l', l' ≠ ',' ∧ scan (.out l) w = some (.out l') :=
  scan_numeric (numText_chars h).2 (numText_chars h).1 l

theorem scan_closed {s : Scan} {w : List Char} {l : Char} (h : scan s w = some (.out l)) (hl : l ≠ ',')
    {c : Char} (hc : c = ']' ∨ c = '}') : scan s (w ++ [c]) = some (.out c) := by
  rw [scan_append, h]
  rcases hc with rfl | rfl <;> simp [scan, scan1, isWs, badPair, hl]

theorem scan_quoted {k w : List Char} (h : StrText k w) (l : Char) (r : List Char) :
    scan (.out l) ('"' :: w ++ '"' :: r) = scan (.out '"') r := by
  rw [List.cons_append, scan]
  have : scan1 (.out l) '"' = some .inside := by simp [scan1]
  simp only [this]
  rw [scan_append, scan_str h]
  simp [scan, scan1]

mutual

theorem scan_value : ∀ {j : Json} {w : List Char}, Value j w → ∀ l : Char, l ≠ '}' →
    ∃ l', l' ≠ ',' ∧ scan (.out l) w = some (.out l')
  | _, _, .str h, l, _ => by
    refine ⟨'"', by decide, ?_⟩
    have := scan_quoted h l []
    simpa [scan] using this
  | _, _, .num h, l, _ => scan_num h l
  | _, _, .arrEmpty (a := a) h, l, _ => by
    refine ⟨']', by decide, ?_⟩
    have h1 : scan (.out l) ('[' :: a) = some (.out '[') := by
      have : scan1 (.out l) '[' = some (.out '[') := by simp [scan1, isWs, badPair]
      simp only [scan, this]
      exact scan_ws h _
    exact scan_closed h1 (by decide) (.inl rfl)
  | _, _, .arr (t := t) (u := u) h h', l, _ => by
    obtain ⟨l1, g1, g2⟩ := scan_elem h '[' (by decide)
    obtain ⟨l2, g3, g4⟩ := scan_moreElems h' l1 g1
    refine ⟨']', by decide, scan_closed (l := l2) ?_ g3 (.inl rfl)⟩
    have : scan1 (.out l) '[' = some (.out '[') := by simp [scan1, isWs, badPair]
    rw [List.cons_append, scan]
    simp only [this]
    rw [scan_append, g2]
    exact g4
  | _, _, .objEmpty (a := a) h, l, hl => by
    refine ⟨'}', by decide, ?_⟩
    have h1 : scan (.out l) ('{' :: a) = some (.out '{') := by
      have : scan1 (.out l) '{' = some (.out '{') := by simp [scan1, isWs, badPair, hl]
      simp only [scan, this]
      exact scan_ws h _
    exact scan_closed h1 (by decide) (.inr rfl)
  | _, _, .obj (t := t) (u := u) h h', l, hl => by
    obtain ⟨l1, g1, g2⟩ := scan_member h '{'
    obtain ⟨l2, g3, g4⟩ := scan_moreMembers h' l1 g1
    refine ⟨'}', by decide, scan_closed (l := l2) ?_ g3 (.inr rfl)⟩
    have : scan1 (.out l) '{' = some (.out '{') := by simp [scan1, isWs, badPair, hl]
    rw [List.cons_append, scan]
    simp only [this]
    rw [scan_append, g2]
    exact g4

theorem scan_elem : ∀ {j : Json} {w : List Char}, Elem j w → ∀ l : Char, l ≠ '}' →
    ∃ l', l' ≠ ',' ∧ scan (.out l) w = some (.out l')
  | _, _, .mk (a := a) (b := b) h1 h2 h3, l, hl => by
    obtain ⟨l', g1, g2⟩ := scan_value h2 l hl
    refine ⟨l', g1, ?_⟩
    rw [scan_append, scan_append, scan_ws h1]
    simp only [Option.bind]
    rw [g2]
    exact scan_ws h3 _

theorem scan_moreElems : ∀ {js : List Json} {w : List Char}, MoreElems js w → ∀ l : Char, l ≠ ',' →
    ∃ l', l' ≠ ',' ∧ scan (.out l) w = some (.out l')
  | _, _, .nil, l, hl => ⟨l, hl, rfl⟩
  | _, _, .cons (t := t) (u := u) h h', l, _ => by
    obtain ⟨l1, g1, g2⟩ := scan_elem h ',' (by decide)
    obtain ⟨l2, g3, g4⟩ := scan_moreElems h' l1 g1
    refine ⟨l2, g3, ?_⟩
    have : scan1 (.out l) ',' = some (.out ',') := by simp [scan1, isWs, badPair]
    rw [List.cons_append, scan]
    simp only [this]
    rw [scan_append, g2]
    exact g4

theorem scan_member : ∀ {m : List Char × Json} {w : List Char}, Member m w → ∀ l : Char,
    ∃ l', l' ≠ ',' ∧ scan (.out l) w = some (.out l')
  | _, _, .mk (k := k) (a := a) (w := w) (b := b) (t := t) h1 h2 h3 h4, l => by
    obtain ⟨l', g1, g2⟩ := scan_elem h4 ':' (by decide)
    refine ⟨l', g1, ?_⟩
    rw [show a ++ '"' :: w ++ '"' :: b ++ ':' :: t = a ++ ('"' :: w ++ '"' :: (b ++ ':' :: t)) by simp,
      scan_append, scan_ws h1]
    simp only [Option.bind]
    rw [scan_quoted h2, scan_append, scan_ws h3]
    have : scan1 (.out '"') ':' = some (.out ':') := by simp [scan1, isWs, badPair]
    simp only [Option.bind, scan, this]
    exact g2

theorem scan_moreMembers : ∀ {ms : List (List Char × Json)} {w : List Char}, MoreMembers ms w →
    ∀ l : Char, l ≠ ',' → ∃ l', l' ≠ ',' ∧ scan (.out l) w = some (.out l')
  | _, _, .nil, l, hl => ⟨l, hl, rfl⟩
  | _, _, .cons (t := t) (u := u) h h', l, _ => by
    obtain ⟨l1, g1, g2⟩ := scan_member h ','
    obtain ⟨l2, g3, g4⟩ := scan_moreMembers h' l1 g1
    refine ⟨l2, g3, ?_⟩
    have : scan1 (.out l) ',' = some (.out ',') := by simp [scan1, isWs, badPair]
    rw [List.cons_append, scan]
    simp only [this]
    rw [scan_append, g2]
    exact g4

end

/-- After an object comes a closing brace. -/
theorem scan_obj {ms : List (List Char × Json)} {w : List Char} (h : Elem (.obj ms) w) (l : Char)
    (hl : l ≠ '}') : scan (.out l) w = some (.out '}') := by
  obtain ⟨h1, h2, h3⟩ := h
  rename_i a v b
  obtain ⟨l', _, g⟩ := scan_value h2 l hl
  have : scan (.out l) v = some (.out '}') := by
    obtain ⟨v', rfl⟩ : ∃ v', v = v' ++ ['}'] := by
      cases h2 with
      | objEmpty => exact ⟨_, rfl⟩
      | obj => exact ⟨_, rfl⟩
    rw [scan_append] at g ⊢
    cases hs : scan (.out l) v' with
    | none => rw [hs] at g; cases g
    | some s =>
      rw [hs] at g
      cases s with
      | out x =>
        simp only [Option.bind, scan] at g ⊢
        cases hb : badPair x '}' <;> simp [scan1, isWs, hb] at g ⊢
      | inside => simp [scan, scan1] at g
      | escaped => simp [scan, scan1] at g
  rw [scan_append, scan_append, scan_ws h1]
  simp only [Option.bind]
  rw [this]
  exact scan_ws h3 _

end Verif.Lemmas
