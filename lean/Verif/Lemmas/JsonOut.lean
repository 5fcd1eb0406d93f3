import Verif.Lemmas.Cli
import Mathlib.Data.List.Enum

/-!
# The JSON texts printed by the command line tool
-/
namespace Verif.Lemmas

open Verif.Spec Verif.Model

theorem lexiconsOf_ok {v : VocabValue} {i : Nat} {names l : List (List Char)} (hi : i ≤ 32)
    (h : lexiconsOf v i names = .ok l) :
    l = ((names.zipIdx i).filter fun n => v.lexindex.testBit n.2).map fun n => n.1 := by
  induction names generalizing i l with
  | nil => cases h; rfl
  | cons name names ih =>
    rw [lexiconsOf] at h
    obtain ⟨b, h1, h⟩ := bind_ok.mp h
    obtain ⟨r, h2, h⟩ := bind_ok.mp h
    rw [Nat.mod_eq_of_lt (by omega), VocabValue.inLexicon] at h1
    split at h1
    · cases h1
    · cases h1
      rename_i h3
      have := ih (by omega) h2
      subst this
      have hb : (decide (v.lexindex &&& (1 <<< i) = 1 <<< i)) = v.lexindex.testBit i := by
        have := bit_test v.lexindex i
        rw [← this]; rfl
      rw [← pure_ok.mp h, hb, List.zipIdx_cons, List.filter_cons]
      cases v.lexindex.testBit i <;> simp
where
  bit_test (n k : Nat) : (n &&& (1 <<< k) == 1 <<< k) = n.testBit k := by
    rw [Bool.eq_iff_iff, beq_iff_eq, Nat.one_shiftLeft]
    constructor
    · intro h
      have := congrArg (fun n => n.testBit k) h
      simpa [Nat.testBit_and, Nat.testBit_two_pow_self] using this
    · intro h
      refine Nat.eq_of_testBit_eq fun j => ?_
      rw [Nat.testBit_and, Nat.testBit_two_pow]
      by_cases e : k = j
      · subst e; simp [h]
      · simp [e]

theorem str_elem {s w : List Char} (h : StrText s w) : Elem (.str s) ("\"".toList ++ w ++ "\"".toList) := by
  have := value_elem (Value.str h)
  simpa using this

theorem num_elem {w : List Char} (h : NumText w) : Elem (.num w) w := value_elem (.num h)

/-- A member after a comma, with spaces as the tool prints it. -/
theorem more_one {pre key t : List Char} {j : Json} (h : Elem j t)
    (hpre : pre = ',' :: ' ' :: '"' :: key ++ ['"', ':', ' ']) (hk : Plain key) (hq : '"' ∉ key) :
    MoreMembers [(key, j)] (pre ++ t) := by
  have h1 : Member (key, j) ([' '] ++ '"' :: key ++ '"' :: [] ++ ':' :: ([' '] ++ t)) :=
    .mk (by intro c hc; simp at hc; simp [hc]) (plain_text hk hq) ws_nil
      (elem_ws_left h (by intro c hc; simp at hc; simp [hc]))
  have := MoreMembers.cons h1 .nil
  rw [hpre]
  simpa using this

/-- The first member, with spaces as the tool prints it. -/
theorem first_one {pre key t : List Char} {j : Json} (h : Elem j t)
    (hpre : pre = ' ' :: '"' :: key ++ ['"', ':', ' ']) (hk : Plain key) (hq : '"' ∉ key) :
    Member (key, j) (pre ++ t) := by
  have h1 : Member (key, j) ([' '] ++ '"' :: key ++ '"' :: [] ++ ':' :: ([' '] ++ t)) :=
    .mk (by intro c hc; simp at hc; simp [hc]) (plain_text hk hq) ws_nil
      (elem_ws_left h (by intro c hc; simp at hc; simp [hc]))
  rw [hpre]
  simpa using h1

theorem vocab_ok {o : Printer} {id : Nat} {v : VocabValue} (h : o.vocab id = .ok v) :
    o.vm.decoder[id]? = some v := by
  unfold Printer.vocab at h
  cases hv : o.vm.decoder[id]? <;> rw [hv] at h <;> cases h
  rfl

theorem ws_spaces {a : List Char} (h : a.all (fun c => c = ' ' ∨ c = '\n') = true) : Ws a := by
  intro c hc
  have := List.all_eq_true.mp h c hc
  simp only [decide_eq_true_eq] at this
  rcases this with h | h
  · exact .inl h
  · exact .inr (.inl h)

theorem resultJson_elem {o : Printer} (ho : PrinterOk o) {r : VariantResult} {s : List Char}
    (h : o.resultJson r = .ok s) : ∃ j, ResultValue o r j ∧ Elem j s := by
  unfold Printer.resultJson at h
  obtain ⟨v, h1, h⟩ := bind_ok.mp h
  obtain ⟨via, h2, h⟩ := bind_ok.mp h
  obtain ⟨lex, h3, h⟩ := bind_ok.mp h
  have h1 := vocab_ok h1
  have hv := ho.vocab v (List.mem_of_getElem? h1)
  -- the member `via`
  obtain ⟨jv, hv1, hv2⟩ : ∃ jv, ViaMember o r.via jv ∧ MoreMembers jv via := by
    cases hvia : r.via with
    | none => rw [hvia] at h2; cases h2; exact ⟨[], rfl, .nil⟩
    | some id =>
      rw [hvia] at h2
      obtain ⟨w, h4, h5⟩ := bind_ok.mp h2
      have h4 := vocab_ok h4
      cases pure_ok.mp h5
      refine ⟨[("via".toList, Json.str w.text)], ⟨w, h4, rfl⟩, ?_⟩
      have := more_one (pre := ", \"via\": ".toList) (key := "via".toList)
        (str_elem (escapeQuotes_text (ho.vocab w (List.mem_of_getElem? h4)))) (by decide +kernel)
        (by unfold Plain; decide +kernel) (by decide +kernel)
      simpa using this
  -- the member `lexicons`
  obtain ⟨jl, hl1, hl2⟩ : ∃ jl, (jl = if o.lexmatch then
        [("lexicons".toList, Json.arr (((o.vm.lexicons.zipIdx.filter fun n => v.lexindex.testBit n.2).map
          fun n => .str n.1)))] else []) ∧ MoreMembers jl lex := by
    unfold Printer.lexmatchJson at h3
    by_cases hm : o.lexmatch = true
    · rw [if_pos hm] at h3
      obtain ⟨names, h4, h5⟩ := bind_ok.mp h3
      have h4 := lexiconsOf_ok (by omega) h4
      cases pure_ok.mp h5
      rw [if_pos hm]
      refine ⟨_, rfl, ?_⟩
      have hmem : ∀ n ∈ names, n ∈ o.vm.lexicons := by
        intro n hn
        rw [h4] at hn
        obtain ⟨⟨n', k⟩, hn', rfl⟩ := List.mem_map.mp hn
        exact (List.mem_zipIdx (List.mem_of_mem_filter hn')).2.2 ▸ List.getElem_mem _
      have he : List.Forall₂ Elem (names.map Json.str)
          (names.map fun n => "\"".toList ++ escapeQuotes n ++ "\"".toList) := by
        rw [List.forall₂_map_left_iff, List.forall₂_map_right_iff, List.forall₂_same]
        intro n hn
        exact str_elem (escapeQuotes_text (ho.lexicons n (hmem n hn)))
      have ha := value_arr_join (a := [' ']) (b := [' ']) (c := [' ']) he (ws_spaces rfl) (ws_spaces rfl)
        (ws_spaces rfl)
      have := more_one (pre := ", \"lexicons\": ".toList) (key := "lexicons".toList)
        (value_elem ha) (by decide +kernel) (by unfold Plain; decide +kernel) (by decide +kernel)
      rw [h4, List.map_map] at this
      rw [h4]
      simpa [Function.comp_def] using this
    · rw [if_neg hm] at h3
      cases h3
      rw [if_neg hm]
      exact ⟨[], rfl, .nil⟩
  refine ⟨_, ⟨v, jv, h1, hv1, rfl⟩, ?_⟩
  rw [← hl1]
  have e1 := first_one (pre := " \"text\": ".toList) (key := "text".toList)
    (str_elem (escapeQuotes_text hv)) (by decide +kernel) (by unfold Plain; decide +kernel) (by decide +kernel)
  have e2 := more_one (pre := ", \"score\": ".toList) (key := "score".toList)
    (num_elem (ho.numbers (r.score o.f64 o.freqWeight))) (by decide +kernel)
    (by unfold Plain; decide +kernel) (by decide +kernel)
  have e3 := more_one (pre := ", \"dist_score\": ".toList) (key := "dist_score".toList)
    (num_elem (ho.numbers r.distScore)) (by decide +kernel)
    (by unfold Plain; decide +kernel) (by decide +kernel)
  have e4 := more_one (pre := ", \"freq_score\": ".toList) (key := "freq_score".toList)
    (num_elem (ho.numbers r.freqScore)) (by decide +kernel)
    (by unfold Plain; decide +kernel) (by decide +kernel)
  have e5 := moreMembers_append e2 (moreMembers_append e3 (moreMembers_append e4
    (moreMembers_append hv2 hl2)))
  have e6 := elem_ws_left (a := "        ".toList) (value_elem (value_obj_ws e1 e5 (a := [' ']) (ws_spaces rfl)))
    (ws_spaces (by decide +kernel))
  rw [← pure_ok.mp h]
  simpa using e6

theorem tagsLoop_ok {o : Printer} {l : List (Nat × Nat)} {i : Nat} {s : List Char}
    (h : o.tagsLoop i l = .ok s) :
    ∃ names, List.Forall₂ (fun t n => o.tags[t.1]? = some n) l names ∧
      s = if i > 0 then prefixed [','] (names.map fun n => "\"".toList ++ n ++ "\"".toList)
        else [','].intercalate (names.map fun n => "\"".toList ++ n ++ "\"".toList) := by
  induction l generalizing i s with
  | nil =>
    cases h
    exact ⟨[], .nil, by split <;> rfl⟩
  | cons t l ih =>
    obtain ⟨t, q⟩ := t
    rw [Printer.tagsLoop] at h
    cases ht : o.tags[t]? with
    | none => rw [ht] at h; cases h
    | some name =>
      rw [ht] at h
      obtain ⟨r, h1, h⟩ := bind_ok.mp h
      obtain ⟨names, h2, rfl⟩ := ih h1
      refine ⟨name :: names, .cons ht h2, ?_⟩
      rw [← pure_ok.mp h, if_pos (show i + 1 > 0 by omega)]
      by_cases hi : i > 0
      · rw [if_pos hi, if_pos hi]; simp [prefixed]
      · rw [if_neg hi, if_neg hi, List.map_cons, intercalate_cons_prefixed]; simp

theorem seqnrLoop_eq (l : List (Nat × Nat)) (i : Nat) :
    seqnrLoop i l = if i > 0 then prefixed [','] (l.map fun p => showN p.2)
      else [','].intercalate (l.map fun p => showN p.2) := by
  induction l generalizing i with
  | nil => simp [seqnrLoop, prefixed, List.intercalate]
  | cons t l ih =>
    obtain ⟨t, q⟩ := t
    rw [seqnrLoop, ih, if_pos (show i + 1 > 0 by omega)]
    by_cases hi : i > 0
    · rw [if_pos hi, if_pos hi]; simp [prefixed]
    · rw [if_neg hi, if_neg hi, List.map_cons, intercalate_cons_prefixed]; simp

theorem offsetJson_more (offset : Option (Nat × Nat)) :
    MoreMembers (offsetMembers offset) (offsetJson offset) := by
  cases offset with
  | none => exact MoreMembers.nil
  | some be =>
    obtain ⟨b, e⟩ := be
    have e1 := more_one (pre := ", \"begin\": ".toList) (key := "begin".toList)
      (num_elem (showN_num b)) (by decide +kernel) (by unfold Plain; decide +kernel) (by decide +kernel)
    have e2 := more_one (pre := ", \"end\": ".toList) (key := "end".toList)
      (num_elem (showN_num e)) (by decide +kernel) (by unfold Plain; decide +kernel) (by decide +kernel)
    have := moreMembers_append e1 e2
    have h1 : offsetJson (some (b, e)) =
        ", \"begin\": ".toList ++ showN b ++ ", \"end\": ".toList ++ showN e := rfl
    have h2 : offsetMembers (some (b, e)) =
        [("begin".toList, .num (showN b)), ("end".toList, .num (showN e))] := rfl
    rw [h1, h2]
    rw [← List.append_assoc] at this
    exact this

theorem tagJson_more {o : Printer} (ho : PrinterOk o) {tag seqnr : List Nat}
    (hlen : tag.length = seqnr.length) {tags : List Char} (h1 : o.tagJson tag seqnr = .ok tags) :
    ∃ jt, TagMembers o tag seqnr jt ∧ MoreMembers jt tags := by
  unfold Printer.tagJson at h1
  by_cases ht : tag = []
  · rw [if_pos (by simp [ht])] at h1
    cases h1
    exact ⟨[], .inl ⟨ht, rfl⟩, .nil⟩
  · rw [if_neg (by simpa using ht)] at h1
    obtain ⟨ns, h3, h4⟩ := bind_ok.mp h1
    obtain ⟨names, h5, h6⟩ := tagsLoop_ok h3
    rw [if_neg (by omega)] at h6
    have h7 : List.Forall₂ (fun t n => o.tags[t]? = some n) tag names := by
      have : tag = (tag.zip seqnr).map fun p => p.1 := by
        rw [List.map_fst_zip (by omega)]
      rw [this, List.forall₂_map_left_iff]
      exact h5
    refine ⟨[("tag".toList, Json.arr (names.map .str)),
          ("seqnr".toList, Json.arr (seqnr.map fun n => .num (Nat.toDigits 10 n)))], ?_, ?_⟩
    · exact .inr ⟨ht, names, h7, rfl⟩
    have hmem : ∀ n ∈ names, n ∈ o.tags := by
      intro n hn
      obtain ⟨i, hi, rfl⟩ := List.getElem_of_mem hn
      have := (List.forall₂_iff_get.mp h7).2 i (by rw [(List.forall₂_iff_get.mp h7).1]; exact hi) hi
      exact List.mem_of_getElem? this
    have he : List.Forall₂ Elem (names.map Json.str)
        (names.map fun n => "\"".toList ++ n ++ "\"".toList) := by
      rw [List.forall₂_map_left_iff, List.forall₂_map_right_iff, List.forall₂_same]
      intro n hn
      exact str_elem (plain_text (ho.tags n (hmem n hn)).1 (ho.tags n (hmem n hn)).2)
    have ha := value_arr_join (a := []) (b := []) (c := []) he ws_nil ws_nil ws_nil
    have hs : List.Forall₂ Elem (seqnr.map fun n => Json.num (Nat.toDigits 10 n))
        (seqnr.map fun n => showN n) := by
      rw [List.forall₂_map_left_iff, List.forall₂_map_right_iff, List.forall₂_same]
      intro n _
      exact num_elem (showN_num n)
    have hb := value_arr_join (a := [' ']) (b := []) (c := []) hs (ws_spaces rfl) ws_nil ws_nil
    have e1 := more_one (pre := ", \"tag\": ".toList) (key := "tag".toList)
      (value_elem ha) (by decide +kernel) (by unfold Plain; decide +kernel) (by decide +kernel)
    have e2 := more_one (pre := ", \"seqnr\": ".toList) (key := "seqnr".toList)
      (value_elem hb) (by decide +kernel) (by unfold Plain; decide +kernel) (by decide +kernel)
    have e3 := moreMembers_append e1 e2
    have hz : (tag.zip seqnr).map (fun p => showN p.2) = seqnr.map fun n => showN n := by
      have : seqnr = (tag.zip seqnr).map fun p => p.2 := by rw [List.map_snd_zip (by omega)]
      conv_rhs => rw [this, List.map_map]
      rfl
    rw [← pure_ok.mp h4, h6, seqnrLoop_eq, if_neg (by omega), hz]
    simpa using e3

theorem tailJson_more {o : Printer} (ho : PrinterOk o) {variants : Option (List VariantResult)}
    {selected : Option Nat} {tail : List Char} (h2 : o.tailJson variants selected = .ok tail) :
    ∃ jv, VariantsMember o selected variants jv ∧ ∃ u, MoreMembers jv u ∧ tail = u ++ " }\n".toList := by
  unfold Printer.tailJson at h2
  cases variants with
  | none => cases h2; exact ⟨[], rfl, [], .nil, rfl⟩
  | some vs =>
    obtain ⟨t, h3, h4⟩ := bind_ok.mp h2
    obtain ⟨l, parts, h5, h6, rfl⟩ := variantsJson_ok.mp h3
    obtain ⟨js, h7, h8⟩ : ∃ js, List.Forall₂ (ResultValue o) l js ∧ List.Forall₂ Elem js parts := by
      clear h5 h3 h4 h2
      induction h6 with
      | nil => exact ⟨[], .nil, .nil⟩
      | cons g1 _ ih =>
        obtain ⟨js, i1, i2⟩ := ih
        obtain ⟨j, i3, i4⟩ := resultJson_elem ho g1
        exact ⟨j :: js, .cons i3 i1, .cons i4 i2⟩
    refine ⟨[("variants".toList, Json.arr js)], ⟨l, js, h5, h7, rfl⟩, ?_⟩
    have ha := value_arr_join (a := [' ', '\n']) (b := ['\n']) (c := "\n    ".toList) h8 (ws_spaces rfl)
      (ws_spaces rfl) (ws_spaces (by decide +kernel))
    have e1 := more_one (pre := ", \"variants\": ".toList) (key := "variants".toList)
      (value_elem ha) (by decide +kernel) (by unfold Plain; decide +kernel) (by decide +kernel)
    refine ⟨_, e1, ?_⟩
    rw [← pure_ok.mp h4]
    simp

/-- What is printed for a match: white space, a comma unless it is the first, an object. -/
theorem matchesJson_elem {o : Printer} (ho : PrinterOk o) {input : List Char} (hin : Plain input)
    {variants : Option (List VariantResult)} {selected : Option Nat} {offset : Option (Nat × Nat)}
    {n : Nat} {tag seqnr : List Nat} (hlen : tag.length = seqnr.length) {s : List Char}
    (h : o.matchesJson input variants selected offset n tag seqnr = .ok s) :
    ∃ j t, MatchValue o input variants selected offset tag seqnr j ∧ Elem j t ∧
      s = "    ".toList ++ (if n > 1 then [','] else []) ++ t := by
  unfold Printer.matchesJson at h
  obtain ⟨tags, h1, h⟩ := bind_ok.mp h
  obtain ⟨tail, h2, h⟩ := bind_ok.mp h
  have ho2 := offsetJson_more offset
  obtain ⟨jt, ht1, ht2⟩ := tagJson_more ho hlen h1
  obtain ⟨jv, hv1, u, hv2, hv3⟩ := tailJson_more ho h2
  have e1 := first_one (pre := " \"input\": ".toList) (key := "input".toList)
    (str_elem (escapeQuotes_text hin)) (by decide +kernel) (by unfold Plain; decide +kernel) (by decide +kernel)
  have e2 := moreMembers_append ho2 (moreMembers_append ht2 hv2)
  have e3 := elem_ws_right (a := ['\n']) (value_elem (value_obj_ws e1 e2 (a := [' ']) (ws_spaces rfl)))
    (ws_spaces rfl)
  have hj : Json.obj (("input".toList, .str input) :: (offsetMembers offset ++ (jt ++ jv))) =
      .obj ([("input".toList, .str input)] ++ offsetMembers offset ++ jt ++ jv) := by simp
  rw [hj] at e3
  refine ⟨_, _, ⟨jt, jv, ht1, hv1, rfl⟩, e3, ?_⟩
  · rw [← pure_ok.mp h, hv3]
    split <;> simp

/-- White space and elements after the first. -/
def Tail (js : List Json) (t : List Char) : Prop := ∃ a u, Ws a ∧ MoreElems js u ∧ t = a ++ u

theorem tail_cons {j : Json} {js : List Json} {a t u : List Char} (ha : Ws a) (h : Elem j t)
    (hu : Tail js u) : Tail (j :: js) (a ++ ',' :: t ++ u) := by
  obtain ⟨b, v, h1, h2, rfl⟩ := hu
  refine ⟨a, ',' :: (t ++ b) ++ v, ha, .cons (elem_ws_right h h1) h2, by simp⟩

/-- Output that starts with an element if there is one. -/
def Items (js : List Json) (t : List Char) : Prop :=
  (js = [] ∧ Ws t) ∨ ∃ j js' a b, js = j :: js' ∧ Elem j a ∧ Tail js' b ∧ t = a ++ b

theorem items_document {js : List Json} {t : List Char} (h : Items js t) :
    Elem (.arr js) ("[\n".toList ++ t ++ "]\n".toList) := by
  rcases h with ⟨rfl, h⟩ | ⟨j, js', a, b, rfl, h1, ⟨c, u, h2, h3, rfl⟩, rfl⟩
  · have := elem_ws_right (a := ['\n']) (value_elem (Value.arrEmpty (ws_append (a := ['\n']) (ws_spaces rfl) h)))
      (ws_spaces rfl)
    simpa using this
  · have := elem_ws_right (a := ['\n']) (value_elem (Value.arr
      (elem_ws_left (a := ['\n']) (elem_ws_right h1 h2) (ws_spaces rfl)) h3)) (ws_spaces rfl)
    simpa using this

end Verif.Lemmas
