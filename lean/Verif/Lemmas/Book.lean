import Verif.Props.RulesFile

/-!
# Lemmas: what all rules that were added satisfy
-/
namespace Verif.Lemmas

open Verif.Spec Verif.Model Verif.Props

/-- Tags of rules are in the table, and patterns mention the first 32 lexicons only. -/
structure BookOk (b : RuleBook) : Prop where
  tags : ∀ r ∈ b.rules, ∀ t ∈ r.tag, t < b.tags.length
  small : ∀ r ∈ b.rules, ∀ p ∈ r.pattern, Small p

theorem bookOk_empty : BookOk ⟨[], []⟩ := ⟨by simp, by simp⟩

theorem tagIndex_lt (tags : List (List Char)) (t : List Char) :
    tags.length ≤ (tagIndex tags t).1.length ∧ (tagIndex tags t).2 < (tagIndex tags t).1.length := by
  unfold tagIndex
  split
  · rename_i i h
    have := (List.findIdx?_eq_some_iff_getElem.mp h).1
    have := Nat.mod_le i 65536
    exact ⟨Nat.le_refl _, by simp only; omega⟩
  · have := Nat.mod_le tags.length 65536
    simp only [List.length_append, List.length_singleton]
    omega

theorem tagIndices_lt (ts : List (List Char)) : ∀ (tags : List (List Char)),
    tags.length ≤ (tagIndices tags ts).1.length ∧
      ∀ i ∈ (tagIndices tags ts).2, i < (tagIndices tags ts).1.length := by
  induction ts with
  | nil => intro tags; exact ⟨Nat.le_refl _, by simp [tagIndices]⟩
  | cons t ts ih =>
    intro tags
    obtain ⟨h1, h2⟩ := tagIndex_lt tags t
    obtain ⟨h3, h4⟩ := ih (tagIndex tags t).1
    refine ⟨Nat.le_trans h1 h3, ?_⟩
    intro i hi
    rcases List.mem_cons.mp (show i ∈ (tagIndex tags t).2 :: _ from hi) with rfl | hi
    · exact Nat.lt_of_lt_of_le h2 h3
    · exact h4 i hi

theorem findLexicon_lt {source : List Char} {ls : List (List Char)} : ∀ {i k : Nat},
    findLexicon source i ls = some k → k < i + ls.length := by
  induction ls with
  | nil => intro i k h; simp [findLexicon] at h
  | cons l ls ih =>
    intro i k h
    rw [findLexicon] at h
    rw [List.length_cons]
    split at h
    · cases h
      have := Nat.mod_le i 256
      omega
    · have := ih h
      omega

theorem mapM_small {f : List Char → Option PatternMatch} {ss : List (List Char)} :
    ∀ {ps : List PatternMatch}, ss.mapM f = some ps → (∀ s ∈ ss, ∀ p, f s = some p → Small p) →
    ∀ p ∈ ps, Small p := by
  induction ss with
  | nil => intro ps h _; cases h; simp
  | cons s ss ih =>
    intro ps h hs
    rw [List.mapM_cons] at h
    simp only [Option.bind_eq_bind, Option.bind_eq_some_iff, Option.pure_def, Option.some.injEq] at h
    obtain ⟨p, h1, ps', h2, rfl⟩ := h
    intro q hq
    rcases List.mem_cons.mp hq with rfl | hq
    · exact hs s (by simp) _ h1
    · exact ih h2 (fun s' hs' => hs s' (by simp [hs'])) q hq

theorem parse_small {isSpace : Char → Bool} {lexicons : List (List Char)}
    {encoder : HMap (List Char) Nat} (hl : lexicons.length ≤ 32) (fuel : Nat) :
    ∀ (s : List Char) (p : PatternMatch),
      PatternMatch.parseAux isSpace lexicons encoder fuel s = some p → Small p := by
  induction fuel with
  | zero => intro s p h; cases h
  | succ fuel ih =>
    intro s p h
    rw [PatternMatch.parseAux] at h
    split at h
    · cases h; simp [Small]
    split at h
    · cases h; simp [Small]
    split at h
    · obtain ⟨q, h1, rfl⟩ := Option.map_eq_some_iff.mp h
      rw [Small]
      exact ih _ _ h1
    split at h
    · obtain ⟨q, h1, rfl⟩ := Option.map_eq_some_iff.mp h
      rw [Small, smallAll_iff]
      exact mapM_small h1 fun s _ p hp => ih s p hp
    split at h
    · obtain ⟨q, h1, rfl⟩ := Option.map_eq_some_iff.mp h
      rw [Small]
      exact ih _ _ h1
    · obtain ⟨q, h1, rfl⟩ := Option.map_eq_some_iff.mp h
      rw [Small]
      have := findLexicon_lt h1
      omega
    · obtain ⟨q, h1, rfl⟩ := Option.map_eq_some_iff.mp h
      simp [Small]

theorem bookOk_add {env : RuleEnv} (hl : env.lexicons.length ≤ 32) {b b' : RuleBook}
    {pattern : List Char} {score : Rat} {tag tagoffset : List (List Char)} {ok : Bool} (hb : BookOk b)
    (h : b.add env pattern score tag tagoffset = .ok (b', ok)) : BookOk b' := by
  obtain ⟨t1, t2⟩ := tagIndices_lt tag b.tags
  have grow : BookOk { b with tags := (tagIndices b.tags tag).1 } :=
    ⟨fun r hr t ht => Nat.lt_of_lt_of_le (hb.tags r hr t ht) t1, hb.small⟩
  unfold RuleBook.add at h
  cases hp : ((splitChar ';' pattern).map (trim env.isSpace)).mapM
      (PatternMatch.parse env.isSpace env.lexicons env.encoder) with
  | none => rw [hp] at h; cases h; exact hb
  | some ps =>
    rw [hp] at h
    simp only at h
    split at h
    · cases h; exact grow
    · obtain ⟨⟨os, e⟩, _, h⟩ := bind_ok.mp h
      simp only at h
      cases e with
      | true => cases h; exact grow
      | false =>
        simp only [Bool.false_eq_true, if_false] at h
        split at h
        · cases h; exact grow
        · cases h
          constructor
          · intro r hr t ht
            rcases List.mem_append.mp hr with hr | hr
            · exact grow.tags r hr t ht
            · rw [List.mem_singleton] at hr
              rw [hr] at ht
              exact t2 t ht
          · intro r hr p hpr
            rcases List.mem_append.mp hr with hr | hr
            · exact hb.small r hr p hpr
            · rw [List.mem_singleton] at hr
              rw [hr] at hpr
              exact mapM_small hp (fun s _ p hp => parse_small hl _ s p hp) p hpr

theorem bookOk_readLine {env : RuleEnv} (hl : env.lexicons.length ≤ 32)
    {parseFloat : List Char → Option Rat} {b b' : RuleBook} {line : List Char} {ok : Bool} (hb : BookOk b)
    (h : b.readLine env parseFloat line = .ok (b', ok)) : BookOk b' := by
  unfold RuleBook.readLine at h
  split at h
  · cases h; exact hb
  · split at h
    · split at h
      · cases h; exact hb
      · split at h
        · cases h; exact hb
        · simp only at h
          split at h
          · exact bookOk_add hl hb h
          · split at h
            · cases h; exact hb
            · exact bookOk_add hl hb h
    · cases h; exact hb

theorem bookOk_read {env : RuleEnv} (hl : env.lexicons.length ≤ 32)
    {parseFloat : List Char → Option Rat} {lines : List (Option (List Char))} : ∀ {b b' : RuleBook}
    {ok : Bool}, BookOk b → b.read env parseFloat lines = .ok (b', ok) → BookOk b' := by
  induction lines with
  | nil => intro b b' ok hb h; cases h; exact hb
  | cons l lines ih =>
    intro b b' ok hb h
    cases l with
    | none => exact ih hb h
    | some line =>
      obtain ⟨⟨b1, ok1⟩, h1, h⟩ := bind_ok.mp h
      have hb1 := bookOk_readLine hl hb h1
      cases ok1 with
      | true => exact ih hb1 h
      | false => cases h; exact hb1

end Verif.Lemmas
