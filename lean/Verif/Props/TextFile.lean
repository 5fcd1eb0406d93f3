import Verif.Spec.TextFile
import Verif.Props.RulesFile
import Verif.Props.RunTotal

/-!
# C125: the ends of lines do not matter

A run of the tool is the same whether lines end with a newline or with a carriage return and a newline, and whether
or not the last line has an end.  A byte order mark at the beginning of a file, however, becomes part of its first
line.
-/
namespace Verif.Props
open Verif.Model Verif.Spec Verif.Lemmas

theorem readUntil_append : ∀ (l t : RawText), some '\n' ∉ l →
    readUntilNewline (l ++ some '\n' :: t) = (l ++ [some '\n'], t)
  | [], t, _ => by simp [readUntilNewline]
  | c :: l, t, h => by
    have hc : c ≠ some '\n' := fun e => h (by simp [e])
    simp only [List.cons_append, readUntilNewline, hc, if_false]
    rw [readUntil_append l t fun hm => h (by simp [hm])]

theorem readUntil_last : ∀ (l : RawText), some '\n' ∉ l → readUntilNewline l = (l, [])
  | [], _ => rfl
  | c :: l, h => by
    have hc : c ≠ some '\n' := fun e => h (by simp [e])
    simp only [readUntilNewline, hc, if_false]
    rw [readUntil_last l fun hm => h (by simp [hm])]

theorem stripEnd_lf {l : RawText} (h : l.getLast? ≠ some (some '\r')) : stripEnd (l ++ [some '\n']) = l := by
  simp [stripEnd, popIf, h]

theorem stripEnd_crlf (l : RawText) : stripEnd (l ++ [some '\r', some '\n']) = l := by
  have : l ++ [some '\r', some '\n'] = (l ++ [some '\r']) ++ [some '\n'] := by simp
  rw [this]
  simp only [stripEnd, popIf, List.getLast?_concat, List.dropLast_concat, if_true]

theorem stripEnd_last {l : RawText} (h : some '\n' ∉ l) : stripEnd l = l := by
  have : l.getLast? ≠ some (some '\n') := fun e => h (List.mem_of_getLast? e)
  simp [stripEnd, popIf, this]

theorem textLinesLoop_written {ls : List RawText} {t : RawText} (h : Written ls t) :
    ∀ fuel, t.length ≤ fuel → textLinesLoop fuel t = ls.map validLine := by
  induction h with
  | nil => intro fuel _; cases fuel <;> simp [textLinesLoop, readUntilNewline]
  | last l hne hnl =>
    intro fuel hf
    cases fuel with
    | zero => cases l with
      | nil => exact absurd rfl hne
      | cons => simp at hf
    | succ fuel =>
      have : l.isEmpty = false := by cases l with
        | nil => exact absurd rfl hne
        | cons => rfl
      simp only [textLinesLoop, readUntil_last l hnl, this, stripEnd_last hnl]
      cases fuel <;> simp [textLinesLoop, readUntilNewline]
  | lf l ls t hnl hr _ ih =>
    intro fuel hf
    simp only [List.length_append, List.length_cons] at hf
    cases fuel with
    | zero => omega
    | succ fuel =>
      simp only [textLinesLoop, readUntil_append l t hnl, stripEnd_lf hr, ih fuel (by omega)]
      simp
  | crlf l ls t hnl _ ih =>
    intro fuel hf
    simp only [List.length_append, List.length_cons] at hf
    cases fuel with
    | zero => omega
    | succ fuel =>
      have e : l ++ some '\r' :: some '\n' :: t = (l ++ [some '\r']) ++ some '\n' :: t := by simp
      have hnl' : some '\n' ∉ l ++ [some '\r'] := by simp [hnl]
      have e' : l ++ [some '\r'] ++ [some '\n'] = l ++ [some '\r', some '\n'] := by simp
      simp only [textLinesLoop, e, readUntil_append _ t hnl', e', stripEnd_crlf, ih fuel (by omega)]
      simp

theorem textLines_written {ls : List RawText} {t : RawText} (h : Written ls t) : textLines t = ls.map validLine :=
  textLinesLoop_written h _ (Nat.le_refl _)

theorem validLine_readable : ∀ l : RawText, LineOf l (validLine l)
  | [] => .inl ⟨[], rfl, rfl⟩
  | none :: l => .inr ⟨rfl, by simp⟩
  | some c :: l => by
    rcases validLine_readable l with ⟨s, h1, h2⟩ | ⟨h1, h2⟩
    · exact .inl ⟨c :: s, by simp [validLine, h1], by simp [h2]⟩
    · exact .inr ⟨by simp [validLine, h1], by simp [h2]⟩

/-- Every text is written as lines in some way. -/
theorem exists_written : ∀ (n : Nat) (t : RawText), t.length ≤ n → ∃ ls, Written ls t
  | 0, [], _ => ⟨[], .nil⟩
  | n + 1, t, hn => by
    by_cases hm : some '\n' ∈ t
    · obtain ⟨l, u, rfl, hl⟩ := List.eq_append_cons_of_mem hm
      simp only [List.length_append, List.length_cons] at hn
      obtain ⟨ls, hls⟩ := exists_written n u (by omega)
      by_cases hr : l.getLast? = some (some '\r')
      · obtain ⟨l', rfl⟩ : ∃ l', l = l' ++ [some '\r'] := by
          rcases List.eq_nil_or_concat l with rfl | ⟨l', a, rfl⟩
          · simp at hr
          · simp at hr; exact ⟨l', by simp [hr]⟩
        have := Written.crlf l' ls u (fun h => hl (by simp [h])) hls
        exact ⟨l' :: ls, by simpa using this⟩
      · exact ⟨l :: ls, .lf l ls u hl hr hls⟩
    · by_cases ht : t = []
      · exact ⟨[], ht ▸ .nil⟩
      · exact ⟨[t], .last t ht hm⟩
  | 0, _ :: _, h => by simp at h

/-- The lines of every text are those it is written as, each if it can be read. -/
theorem lines_of_text (t : RawText) :
    (∃ ls, Written ls t) ∧ ∀ ls, Written ls t → List.Forall₂ LineOf ls (textLines t) := by
  refine ⟨exists_written t.length t (Nat.le_refl _), fun ls h => ?_⟩
  rw [textLines_written h, List.forall₂_map_right_iff, List.forall₂_same]
  exact fun l _ => validLine_readable l

/-- A run of the tool does not depend on how lines end in the files it reads, nor in its standard input. -/
theorem run_ignores_line_ends (x : ToolExt) (f g : List Char → Option RawText) (s t : RawText)
    (hf : AlikeFiles f g) (hs : AlikeLines s t) (c : CommandLine) (files : List (List Char)) :
    (x.onTexts f s).mainT c files = (x.onTexts g t).mainT c files := by
  have same : ∀ {t u : RawText}, AlikeLines t u → textLines t = textLines u := by
    rintro t u ⟨ls, h1, h2⟩
    rw [textLines_written h1, textLines_written h2]
  have : x.onTexts f s = x.onTexts g t := by
    have hfile : (fun name => (f name).map textLines) = fun name => (g name).map textLines := by
      funext name
      rcases hf name with ⟨h1, h2⟩ | ⟨t, u, h1, h2, h3⟩
      · rw [h1, h2]
      · rw [h1, h2, Option.map_some, Option.map_some, same h3]
    simp only [ToolExt.onTexts, hfile, same hs]
  rw [this]

/-- U+FEFF -/
def byteOrderMark : Char := '\uFEFF'

theorem validLine_map : ∀ w : List Char, validLine (w.map some) = some w
  | [] => rfl
  | c :: w => by simp [validLine, validLine_map w]

theorem written_word {w : List Char} (hn : '\n' ∉ w) (hr : w.getLast? ≠ some '\r') :
    Written [w.map some] (w.map some ++ [some '\n']) := by
  refine .lf _ [] [] (by simpa using hn) ?_ .nil
  rw [List.getLast?_map]
  cases h : w.getLast? with
  | none => simp
  | some a => simp only [Option.map_some, ne_eq, Option.some.injEq]; rintro rfl; exact hr h

/-- A byte order mark is not removed: the word on the first line of a lexicon is added with it, and without it remains
unknown; and a character on the first line of an alphabet is not a symbol of its own. -/
theorem byte_order_mark_is_read (m m' : Vm) (name w : List Char) (params : VocabParams)
    (hc : params.textColumn = 0) (hn : '\n' ∉ w) (ht : '\t' ∉ w) (hr : w.getLast? ≠ some '\r')
    (hw : m.encoder.get? w = none)
    (h : m.readVocabulary name params (textLines (some byteOrderMark :: w.map some ++ [some '\n'])) = .ok m') :
    m'.encoder.get? w = none ∧ (m'.encoder.get? (byteOrderMark :: w)).isSome := by
  have hbn : byteOrderMark ≠ '\n' := by decide
  have hbt : byteOrderMark ≠ '\t' := by decide
  have hlast : (byteOrderMark :: w).getLast? ≠ some '\r' := by
    cases w with
    | nil => decide
    | cons c w => simpa [List.getLast?_cons_cons] using hr
  have hnl : '\n' ∉ byteOrderMark :: w := by simp [hn, Ne.symm hbn]
  have htab : '\t' ∉ byteOrderMark :: w := by simp [ht, Ne.symm hbt]
  have hlines : textLines (some byteOrderMark :: w.map some ++ [some '\n']) = [some (byteOrderMark :: w)] := by
    have := textLines_written (written_word hnl hlast)
    rw [List.map_cons, List.map_cons, List.map_nil] at this
    rw [this, ← List.map_cons, validLine_map]
  rw [hlines] at h
  simp only [Vm.readVocabulary, Vm.readVocabLines, Vm.readVocabLine, List.isEmpty_cons, splitChar_none htab, hc,
    List.getElem?_cons_zero, Bool.false_eq_true, if_false] at h
  obtain ⟨m1, h1, h⟩ := bind_ok.mp h
  rw [← pure_ok.mp h]
  obtain ⟨m2, h2, h3⟩ := bind_ok.mp h1
  obtain rfl := Except.ok.inj h3
  obtain ⟨freq, _, h2⟩ := bind_ok.mp h2
  obtain ⟨⟨m3, id⟩, h4, h2⟩ := bind_ok.mp h2
  obtain rfl := pure_ok.mp h2
  have key : ∀ m0 : Vm, m0.encoder = m.encoder → m0.addToVocabulary (byteOrderMark :: w) (some freq)
      { params with index := m.lexicons.length % 256 } = .ok (m3, id) →
      m3.encoder.get? w = none ∧ (m3.encoder.get? (byteOrderMark :: w)).isSome := by
    intro m0 he h4
    unfold Vm.addToVocabulary at h4
    simp only at h4
    split at h4
    · rename_i v hv
      split at h4
      · cases h4
      · obtain ⟨_, _, h4⟩ := bind_ok.mp h4
        obtain ⟨_, _, h4⟩ := bind_ok.mp h4
        obtain ⟨rfl, rfl⟩ := Prod.mk.inj (pure_ok.mp h4)
        simp only
        rw [he] at hv ⊢
        exact ⟨hw, by rw [hv]; rfl⟩
    · obtain ⟨_, _, h4⟩ := bind_ok.mp h4
      obtain ⟨_, _, h4⟩ := bind_ok.mp h4
      split at h4
      · cases h4
      · obtain ⟨rfl, rfl⟩ := Prod.mk.inj (pure_ok.mp h4)
        have hne : byteOrderMark :: w ≠ w := fun e => by simpa using congrArg List.length e
        simp only [get?_insert, he]
        simp [hne, hw]
  refine key _ ?_ h4
  split <;> rfl

/-! ## Examples -/

-- one file with both ends, a line that is not UTF-8, and no end on the last line
example : textLines (("ab\r\nb".toList.map some) ++ [none, some '\n'] ++ ("b".toList.map some)) =
    [some "ab".toList, none, some "b".toList] := rfl

/-- A lexicon of two words with both ends of lines. -/
theorem exAlikeLines : AlikeLines ("ab\nb\n".toList.map some) ("ab\r\nb".toList.map some) :=
  ⟨["ab".toList.map some, "b".toList.map some],
    .lf ("ab".toList.map some) _ _ (by decide) (by decide) (.lf ("b".toList.map some) _ _ (by decide) (by decide) .nil),
    .crlf ("ab".toList.map some) _ _ (by decide) (.last ("b".toList.map some) (by decide) (by decide))⟩

-- the tool on a file system with one file, with either ends
example (c : CommandLine) (files : List (List Char)) :
    (exToolR.onTexts (fun f => if f = "lexicon".toList then some ("ab\nb\n".toList.map some) else none) []).mainT c files
    = (exToolR.onTexts (fun f => if f = "lexicon".toList then some ("ab\r\nb".toList.map some) else none) []).mainT c
      files := by
  refine run_ignores_line_ends exToolR _ _ [] [] (fun f => ?_) ⟨[], .nil, .nil⟩ c files
  by_cases hf : f = "lexicon".toList
  · exact .inr ⟨_, _, if_pos hf, if_pos hf, exAlikeLines⟩
  · exact .inl ⟨if_neg hf, if_neg hf⟩

/-- The alphabet of the example. -/
def exAbc : Alphabet := [["a".toList], ["b".toList]]

-- a lexicon that begins with a byte order mark
example (m' : Vm) (h : (Vm.new exAbc).readVocabulary "lexicon".toList {}
      (textLines (some byteOrderMark :: "ab".toList.map some ++ [some '\n'])) = .ok m') :
    m'.encoder.get? "ab".toList = none ∧ (m'.encoder.get? (byteOrderMark :: "ab".toList)).isSome :=
  byte_order_mark_is_read (Vm.new exAbc) m' "lexicon".toList "ab".toList {} rfl (by decide) (by decide) (by decide)
    rfl h

-- it can be read
example : ((Vm.new exAbc).readVocabulary "lexicon".toList {}
    (textLines (some byteOrderMark :: "ab".toList.map some ++ [some '\n']))).toOption.isSome := by decide +kernel

-- an alphabet that begins with one has no symbol for its first character
example : readAlphabet (· = ' ') [] (textLines (some byteOrderMark :: "a\tA\nb\n".toList.map some)) =
    [[[byteOrderMark, 'a'], ['A']], [['b']]] := by decide +kernel

end Verif.Props
