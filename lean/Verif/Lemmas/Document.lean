import Verif.Spec.Document
import Verif.Props.RunTotal

/-!
# Texts of a loaded model come from the files
-/
namespace Verif.Lemmas

open Verif.Model Verif.Spec Verif.Props

theorem forall₂_mem_right {α β : Type} {R : α → β → Prop} {l : List α} {l' : List β}
    (h : List.Forall₂ R l l') {b : β} (hb : b ∈ l') : ∃ a ∈ l, R a b := by
  induction h with
  | nil => cases hb
  | cons h1 _ ih =>
    rcases List.mem_cons.mp hb with rfl | hb
    · exact ⟨_, by simp, h1⟩
    · obtain ⟨a, ha, r⟩ := ih hb
      exact ⟨a, List.mem_cons_of_mem _ ha, r⟩

theorem mem_intercalate {sep : List Char} {fields : List (List Char)} {f : List Char} (hf : f ∈ fields)
    {c : Char} (hc : c ∈ f) : c ∈ sep.intercalate fields := by
  induction fields with
  | nil => cases hf
  | cons g gs ih =>
    rw [intercalate_flatMap]
    rcases List.mem_cons.mp hf with rfl | hf
    · exact List.mem_append_left _ hc
    · exact List.mem_append_right _ (List.mem_flatMap.mpr ⟨f, hf, List.mem_append_right _ hc⟩)

theorem field_chars {line : List Char} {fields : List (List Char)} (h : FieldsOf line fields)
    {f : List Char} (hf : f ∈ fields) : ∀ c ∈ f, c ∈ line ∧ c ≠ '\t' := by
  intro c hc
  obtain ⟨_, h1, rfl⟩ := h
  exact ⟨mem_intercalate hf hc, by rintro rfl; exact h1 f hf hc⟩

theorem plainFields_mem {g : List Char → Option Rat} {fs : List (List Char)}
    {vs : List (List Char × Rat × Option Nat)} (h : PlainFields g fs vs) : ∀ v ∈ vs, v.1 ∈ fs := by
  induction h with
  | nil => simp
  | one => simp
  | cons _ _ ih =>
    intro v hv
    rcases List.mem_cons.mp hv with rfl | hv
    · simp
    · exact List.mem_cons_of_mem _ (List.mem_cons_of_mem _ (ih v hv))

theorem freqFields_mem {g : List Char → Option Rat} {fs : List (List Char)}
    {vs : List (List Char × Rat × Option Nat)} (h : FreqFields g fs vs) : ∀ v ∈ vs, v.1 ∈ fs := by
  induction h with
  | nil => simp
  | one => simp
  | two => simp
  | cons _ _ _ ih =>
    intro v hv
    rcases List.mem_cons.mp hv with rfl | hv
    · simp
    · exact List.mem_cons_of_mem _ (List.mem_cons_of_mem _ (List.mem_cons_of_mem _ (ih v hv)))

theorem plainLine_mem {g : List Char → Option Rat} {line : List Char} {e : VariantEntry}
    (h : PlainLine g line e) : ∃ fields, FieldsOf line fields ∧ e.reference ∈ fields ∧
      ∀ v ∈ e.variants, v.1 ∈ fields := by
  cases h with
  | mk h1 h2 => exact ⟨_, h1, by simp, fun v hv => List.mem_cons_of_mem _ (plainFields_mem h2 v hv)⟩

theorem freqLine_mem {g : List Char → Option Rat} {line : List Char} {e : VariantEntry}
    (h : FreqLine g line e) : ∃ fields, FieldsOf line fields ∧ e.reference ∈ fields ∧
      ∀ v ∈ e.variants, v.1 ∈ fields := by
  cases h with
  | mk h1 _ h2 =>
    exact ⟨_, h1, by simp, fun v hv => List.mem_cons_of_mem _ (List.mem_cons_of_mem _
      (freqFields_mem h2 v hv))⟩

theorem variantLines_mem {g : List Char → Option Rat} {k : Option Bool} {lines : List (List Char)}
    {es : List VariantEntry} (h : VariantLines g k lines es) : ∀ e ∈ es, ∃ line ∈ lines, ∃ fields,
      FieldsOf line fields ∧ e.reference ∈ fields ∧ ∀ v ∈ e.variants, v.1 ∈ fields := by
  induction h with
  | nil => simp
  | unknown _ h _ ih =>
    intro e he
    rcases List.mem_cons.mp he with rfl | he
    · exact ⟨_, by simp, plainLine_mem h⟩
    · obtain ⟨l, hl, r⟩ := ih e he
      exact ⟨l, List.mem_cons_of_mem _ hl, r⟩
  | tells _ _ ih => exact ih
  | freq h _ ih =>
    intro e he
    rcases List.mem_cons.mp he with rfl | he
    · exact ⟨_, by simp, freqLine_mem h⟩
    · obtain ⟨l, hl, r⟩ := ih e he
      exact ⟨l, List.mem_cons_of_mem _ hl, r⟩
  | plain h _ ih =>
    intro e he
    rcases List.mem_cons.mp he with rfl | he
    · exact ⟨_, by simp, plainLine_mem h⟩
    · obtain ⟨l, hl, r⟩ := ih e he
      exact ⟨l, List.mem_cons_of_mem _ hl, r⟩

theorem nonEmpty_mem {lines : List (Option (List Char))} {l : List Char} (h : l ∈ nonEmpty lines) :
    some l ∈ lines := by
  simp only [nonEmpty, readable, List.mem_filter, List.mem_filterMap, id] at h
  obtain ⟨⟨a, h1, h2⟩, _⟩ := h
  rwa [h2] at h1

/-- A word is made of characters of a line of the source it is from, other than tabs. -/
theorem adds_chars {x : LoadExt} {i : Nat} {s : Source}
    {adds : List (List Char × Option Nat × VocabParams)} (h : Adds x i s adds)
    {a : List Char × Option Nat × VocabParams} (ha : a ∈ adds) :
    ∃ lines l, x.file s.name = some lines ∧ some l ∈ lines ∧ ∀ c ∈ a.1, c ∈ l ∧ c ≠ '\t' := by
  have vocab : ∀ (lines : List (Option (List Char))) (es : List (List Char × Nat)),
      List.Forall₂ (VocabLine {}) (nonEmpty lines) es → ∀ e ∈ es, ∃ l, some l ∈ lines ∧
        ∀ c ∈ e.1, c ∈ l ∧ c ≠ '\t' := by
    intro lines es h e he
    obtain ⟨l, hl, fields, h1, h2, _⟩ := forall₂_mem_right h he
    exact ⟨l, nonEmpty_mem hl, field_chars h1 (List.mem_of_getElem? h2)⟩
  have variants : ∀ (lines : List (Option (List Char))) (es : List VariantEntry),
      VariantLines x.parseF64 none (nonEmpty lines) es → ∀ e ∈ es, ∃ l, some l ∈ lines ∧
        (∀ c ∈ e.reference, c ∈ l ∧ c ≠ '\t') ∧ ∀ v ∈ e.variants, ∀ c ∈ v.1, c ∈ l ∧ c ≠ '\t' := by
    intro lines es h e he
    obtain ⟨l, hl, fields, h1, h2, h3⟩ := variantLines_mem h e he
    exact ⟨l, nonEmpty_mem hl, field_chars h1 h2, fun v hv => field_chars h1 (h3 v hv)⟩
  cases h with
  | lexicon h1 h2 =>
    obtain ⟨e, he, rfl⟩ := List.mem_map.mp ha
    obtain ⟨l, g1, g2⟩ := vocab _ _ h2 e he
    exact ⟨_, l, h1, g1, g2⟩
  | lm h1 h2 =>
    obtain ⟨e, he, rfl⟩ := List.mem_map.mp ha
    obtain ⟨l, g1, g2⟩ := vocab _ _ h2 e he
    exact ⟨_, l, h1, g1, g2⟩
  | variants h1 h2 =>
    obtain ⟨e, he, ha⟩ := List.mem_flatMap.mp ha
    obtain ⟨l, g1, g2, g3⟩ := variants _ _ h2 e he
    rcases List.mem_cons.mp ha with rfl | ha
    · exact ⟨_, l, h1, g1, g2⟩
    · obtain ⟨v, hv, rfl⟩ := List.mem_map.mp ha
      exact ⟨_, l, h1, g1, g3 v hv⟩
  | errors h1 h2 =>
    obtain ⟨e, he, ha⟩ := List.mem_flatMap.mp ha
    obtain ⟨l, g1, g2, g3⟩ := variants _ _ h2 e he
    rcases List.mem_cons.mp ha with rfl | ha
    · exact ⟨_, l, h1, g1, g2⟩
    · obtain ⟨v, hv, rfl⟩ := List.mem_map.mp ha
      exact ⟨_, l, h1, g1, g3 v hv⟩

theorem addsAll_chars {x : LoadExt} {ss : List Source} : ∀ {i : Nat}
    {as : List (List (List Char × Option Nat × VocabParams))}, AddsAll x i ss as →
    ∀ a ∈ as.flatten, ∃ s ∈ ss, ∃ lines l, x.file s.name = some lines ∧ some l ∈ lines ∧
      ∀ c ∈ a.1, c ∈ l ∧ c ≠ '\t' := by
  induction ss with
  | nil => intro i as h; cases h; simp
  | cons s ss ih =>
    intro i as h a ha
    cases h with
    | cons h1 h2 =>
      rw [List.flatten_cons] at ha
      rcases List.mem_append.mp ha with ha | ha
      · exact ⟨s, by simp, adds_chars h1 ha⟩
      · obtain ⟨s', hs, r⟩ := ih h2 a ha
        exact ⟨s', List.mem_cons_of_mem _ hs, r⟩

/-- A word that is not reserved is made of characters of a line of one of the sources. -/
theorem loaded_chars {x : LoadExt} {args : LoadArgs} {o : Orders} {L : Loaded}
    (h : x.load args o = .ok L) {v : VocabValue} (hv : v ∈ L.vm.decoder) :
    Reserved v.text ∨ ∃ s ∈ sourcesOf args, ∃ lines l, x.file s.name = some lines ∧ some l ∈ lines ∧
      ∀ c ∈ v.text, c ∈ l ∧ c ≠ '\t' := by
  by_cases hr : Reserved v.text
  · exact .inl hr
  · refine .inr ?_
    obtain ⟨_, ops, as, _, _, _, hrun, hl, _, has, hadd, _⟩ := loaded_history h
    have hinv : Inv L.vm := (inv_run (inv_new _) hrun).1
    obtain ⟨i, hi⟩ := List.mem_iff_getElem?.mp hv
    have he : L.vm.encoder.get? v.text = some i := (hinv.bij _ _).mpr (by unfold textAt; rw [hi]; rfl)
    have hent := entry_of_history hrun hl hr
    rw [hadd] at hent
    cases ha : addsOf v.text as.flatten with
    | nil =>
      rw [ha] at hent
      simp only [entry, he, Option.bind_some, hi] at hent
      cases hent
    | cons b bs =>
      have hm : b ∈ addsOf v.text as.flatten := by rw [ha]; simp
      obtain ⟨y, hy, e⟩ := List.mem_map.mp hm
      obtain ⟨hy1, hy2⟩ := List.mem_filter.mp hy
      have e2 : y.1 = v.text := by simpa using hy2
      rw [← e2]
      exact addsAll_chars has y hy1

/-! ## Tags -/

theorem splitChar_chars {sep : Char} {s f : List Char} (hf : f ∈ splitChar sep s) :
    ∀ c ∈ f, c ∈ s ∧ c ≠ sep := by
  intro c hc
  refine ⟨?_, by rintro rfl; exact splitChar_mem _ s f hf hc⟩
  rw [← intercalate_splitChar sep s]
  exact mem_intercalate hf hc

theorem trim_chars {isSpace : Char → Bool} {s : List Char} : ∀ c ∈ trim isSpace s, c ∈ s := by
  intro c hc
  unfold trim at hc
  rw [List.mem_reverse] at hc
  have := (List.dropWhile_sublist isSpace).subset hc
  rw [List.mem_reverse] at this
  exact (List.dropWhile_sublist isSpace).subset this

theorem listField_chars {isSpace : Char → Bool} {f : Option (List Char)} {t : List Char}
    (ht : t ∈ listField isSpace f) : ∃ s, f = some s ∧ ∀ c ∈ t, c ∈ s := by
  cases f with
  | none => cases ht
  | some s =>
    refine ⟨s, rfl, ?_⟩
    obtain ⟨h1, _⟩ := List.mem_filter.mp ht
    obtain ⟨u, hu, rfl⟩ := List.mem_map.mp h1
    intro c hc
    exact (splitChar_chars hu c (trim_chars c hc)).1

theorem tagIndices_mem {tags ts : List (List Char)} {t : List Char} (h : t ∈ (tagIndices tags ts).1) :
    t ∈ tags ∨ t ∈ ts := by
  induction ts generalizing tags with
  | nil => exact .inl h
  | cons u ts ih =>
    rw [tagIndices] at h
    rcases ih h with h | h
    · unfold tagIndex at h
      split at h
      · exact .inl h
      · rcases List.mem_append.mp h with h | h
        · exact .inl h
        · rw [List.mem_singleton] at h
          exact .inr (by simp [h])
    · exact .inr (by simp [h])

theorem add_tags {env : RuleEnv} {b b' : RuleBook} {pattern : List Char} {score : Rat}
    {tag tagoffset : List (List Char)} {ok : Bool}
    (h : b.add env pattern score tag tagoffset = .ok (b', ok)) : ∀ t ∈ b'.tags, t ∈ b.tags ∨ t ∈ tag := by
  intro t ht
  unfold RuleBook.add at h
  split at h
  · cases h; exact .inl ht
  · dsimp only at h
    split at h
    · cases h; exact tagIndices_mem ht
    · obtain ⟨os, _, h⟩ := bind_ok.mp h
      split at h
      · cases pure_ok.mp h; exact tagIndices_mem ht
      · split at h
        · cases pure_ok.mp h; exact tagIndices_mem ht
        · cases pure_ok.mp h; exact tagIndices_mem ht

theorem readLine_tags {env : RuleEnv} {g : List Char → Option Rat} {b b' : RuleBook} {line : List Char}
    {ok : Bool} (h : b.readLine env g line = .ok (b', ok)) :
    ∀ t ∈ b'.tags, t ∈ b.tags ∨ ∀ c ∈ t, c ∈ line ∧ c ≠ '\t' := by
  intro t ht
  unfold RuleBook.readLine at h
  split at h
  · cases h; exact .inl ht
  · split at h
    · rename_i pattern score rest hs
      split at h
      · cases h; exact .inl ht
      · split at h
        · cases h; exact .inl ht
        · dsimp only at h
          have key : t ∈ b.tags ∨ t ∈ listField env.isSpace rest[0]? := by
            split at h
            · exact add_tags h t ht
            · split at h
              · cases h; exact .inl ht
              · exact add_tags h t ht
          rcases key with h | h
          · exact .inl h
          · obtain ⟨s, e, hs'⟩ := listField_chars h
            refine .inr fun c hc => splitChar_chars (f := s) ?_ c (hs' c hc)
            rw [hs]
            exact List.mem_cons_of_mem _ (List.mem_cons_of_mem _ (List.mem_of_getElem? e))
    · cases h; exact .inl ht

theorem read_tags {env : RuleEnv} {g : List Char → Option Rat} {lines : List (Option (List Char))} :
    ∀ {b b' : RuleBook} {ok : Bool}, RuleBook.read env g b lines = .ok (b', ok) →
    ∀ t ∈ b'.tags, t ∈ b.tags ∨ ∃ l, some l ∈ lines ∧ ∀ c ∈ t, c ∈ l ∧ c ≠ '\t' := by
  induction lines with
  | nil => intro b b' ok h t ht; cases h; exact .inl ht
  | cons line lines ih =>
    intro b b' ok h t ht
    cases line with
    | none =>
      rw [RuleBook.read] at h
      rcases ih h t ht with h | ⟨l, hl, r⟩
      · exact .inl h
      · exact .inr ⟨l, List.mem_cons_of_mem _ hl, r⟩
    | some line =>
      rw [RuleBook.read] at h
      obtain ⟨⟨b1, ok1⟩, h1, h⟩ := bind_ok.mp h
      dsimp only at h
      have key : t ∈ b1.tags ∨ ∃ l, some l ∈ lines ∧ ∀ c ∈ t, c ∈ l ∧ c ≠ '\t' := by
        split at h
        · exact ih h t ht
        · cases pure_ok.mp h; exact .inl ht
      rcases key with h | ⟨l, hl, r⟩
      · rcases readLine_tags h1 t h with h | h
        · exact .inl h
        · exact .inr ⟨line, by simp, h⟩
      · exact .inr ⟨l, List.mem_cons_of_mem _ hl, r⟩

/-- The name of a tag is made of characters of a line of a file of rules. -/
theorem loaded_tags {x : LoadExt} {args : LoadArgs} {o : Orders} {L : Loaded}
    (h : x.load args o = .ok L) {t : List Char} (ht : t ∈ L.book.tags) :
    ∃ f ∈ args.contextrules, ∃ lines l, x.file f = some lines ∧ some l ∈ lines ∧
      ∀ c ∈ t, c ∈ l ∧ c ≠ '\t' := by
  obtain ⟨liness, h1, h2⟩ := loaded_rules h
  rcases read_tags h2 t ht with h | ⟨l, hl, r⟩
  · cases h
  · obtain ⟨lines, hm, hl⟩ := List.mem_flatten.mp hl
    obtain ⟨f, hf, e⟩ := forall₂_mem_right h1 hm
    exact ⟨f, hf, lines, l, e, hl, r⟩

end Verif.Lemmas
