import Verif.Spec.Confusable
import Verif.Props.Rank

/-!
# Properties of confusable patterns (C38)
-/
namespace Verif.Props

open Verif.Spec Verif.Model Verif.Lemmas

theorem identityFits_iff {pos l : Nat} (hp : pos < l) (s t : List Char) :
    identityFits pos l s t = true ↔ TextMatches (pos = 0) (pos + 1 = l) s t := by
  unfold identityFits TextMatches
  have e : pos = l - 1 ↔ pos + 1 = l := by omega
  by_cases h0 : pos = 0 <;> by_cases h1 : pos + 1 = l <;>
    simp [h0, h1, e, beq_iff_eq, List.isSuffixOf_iff_suffix, List.isPrefixOf_iff_prefix] <;>
    (try simp_all)

theorem fits_iff {pos l : Nat} (hp : pos < l) (a b : EditInstr) :
    a.fits pos l b = true ↔ InstrMatches (pos = 0) (pos + 1 = l) a b := by
  constructor
  · intro h
    cases a <;> cases b <;> simp only [EditInstr.fits, List.any_eq_true, Bool.false_eq_true,
      List.isSuffixOf_iff_suffix, identityFits_iff hp] at h
    · exact .insertion h
    · exact .deletion h
    · exact .identity h
    · obtain ⟨s, hs, h⟩ := h; exact .insertionOptions hs h
    · obtain ⟨s, hs, h⟩ := h; exact .deletionOptions hs h
    · obtain ⟨s, hs, h⟩ := h; exact .identityOptions hs h
  · intro h
    cases h <;> simp only [EditInstr.fits, List.any_eq_true, List.isSuffixOf_iff_suffix,
      identityFits_iff hp]
    · assumption
    · assumption
    · assumption
    · exact ⟨_, ‹_›, ‹_›⟩
    · exact ⟨_, ‹_›, ‹_›⟩
    · exact ⟨_, ‹_›, ‹_›⟩

theorem foundLoop_none {c : Confusable} {n i pos : Nat} {l : List EditInstr}
    (h : c.script[pos]? = none) : c.foundLoop n i pos l = false := by
  induction l generalizing i with
  | nil => rfl
  | cons a l ih => simp only [Confusable.foundLoop, h]; exact ih

theorem foundLoop_sound {c : Confusable} {script : List EditInstr} :
    ∀ (rest : List EditInstr) (i pos : Nat), script.drop i = rest → pos ≤ i →
      MatchesAt c.script script (i - pos) pos → (c.strictbegin = true → pos = i) →
      c.foundLoop script.length i pos rest = true →
      ∃ k, MatchesAt c.script script k c.script.length ∧ c.script ≠ [] ∧
        k + c.script.length ≤ script.length ∧
        (c.strictbegin = true → k = 0) ∧
        (c.strictend = true → k + c.script.length = script.length) := by
  intro rest
  induction rest with
  | nil => intro i pos _ _ _ _ h; cases h
  | cons b rest ih =>
    intro i pos hd hpi hm hsb h
    have hb : script[i]? = some b := by
      have := congrArg List.head? hd
      rwa [List.head?_drop] at this
    have hd' : script.drop (i + 1) = rest := by
      rw [← List.tail_drop, hd]; rfl
    have hi : i < script.length := (List.getElem?_eq_some_iff.mp hb).1
    simp only [Confusable.foundLoop] at h
    split at h
    · next hn =>
      rw [foundLoop_none hn] at h; cases h
    · next a ha =>
      have hpos : pos < c.script.length := (List.getElem?_eq_some_iff.mp ha).1
      split at h
      · next hf =>
        have hm' : MatchesAt c.script script (i - pos) (pos + 1) := by
          intro j hj
          rcases Nat.lt_or_ge j pos with hlt | hge
          · exact hm j hlt
          · have : j = pos := by omega
            subst this
            refine ⟨a, b, ha, ?_, (fits_iff hpos a b).mp hf⟩
            rw [show i - j + j = i by omega]; exact hb
        split at h
        · next he =>
          have he : pos + 1 = c.script.length := by simpa using he
          refine ⟨i - pos, he ▸ hm', ?_, by omega, fun hs => ?_, fun hs => ?_⟩
          · intro e; rw [e] at hpos; simp at hpos
          · rw [hsb hs]; omega
          · rw [hs, if_pos rfl] at h
            have : i = script.length - 1 := by simpa using h
            omega
        · refine ih (i + 1) (pos + 1) hd' (by omega) ?_ (fun hs => by rw [hsb hs]) h
          rw [show i + 1 - (pos + 1) = i - pos by omega]
          exact hm'
      · split at h
        · cases h
        · next hs =>
          exact ih (i + 1) 0 hd' (by omega) (fun j hj => by omega) (fun h => absurd h hs) h

/-- **C38**: if a pattern is found, its instructions agree with a contiguous run of the script,
which starts at the beginning if the pattern starts with `^`, and finishes at the end if it finishes
with `$`. -/
theorem found_in_sound (c : Confusable) (script : List EditInstr) (h : c.foundIn script = true) :
    ∃ k, MatchesAt c.script script k c.script.length ∧ c.script ≠ [] ∧
      k + c.script.length ≤ script.length ∧ (c.strictbegin = true → k = 0) ∧
      (c.strictend = true → k + c.script.length = script.length) :=
  foundLoop_sound script 0 0 rfl (le_refl 0) (fun j hj => by omega) (fun _ => rfl) h

/-- `-[y]+[i]=[l]` in the script of `analysed` → `analised` -/
example : (⟨[.deletion ['y'], .insertion ['i'], .identity ['s']], 11/10, false, false⟩ :
    Confusable).foundIn [.identity "anal".toList, .deletion ['y'], .insertion ['i'],
      .identity "sed".toList] = true := by decide +kernel

theorem foundLoop_begin {c : Confusable} {script : List EditInstr} :
    ∀ (rest : List EditInstr) (i : Nat), script.drop i = rest → i < c.script.length →
      MatchesAt c.script script 0 c.script.length →
      (c.strictend = true → c.script.length = script.length) →
      c.foundLoop script.length i i rest = true := by
  intro rest
  induction rest with
  | nil =>
    intro i hd hi hm _
    obtain ⟨_, b, _, hb, _⟩ := hm i hi
    have := (List.getElem?_eq_some_iff.mp hb).1
    have h2 := congrArg List.length hd
    simp at h2
    omega
  | cons b rest ih =>
    intro i hd hi hm he
    obtain ⟨a, b', ha, hb', hf⟩ := hm i hi
    have hb : script[i]? = some b := by
      have := congrArg List.head? hd
      rwa [List.head?_drop] at this
    rw [Nat.zero_add, hb] at hb'
    cases hb'
    simp only [Confusable.foundLoop, ha, (fits_iff hi a b).mpr hf, if_true]
    split
    · next e =>
      have e : i + 1 = c.script.length := by simpa using e
      split
      · next hs =>
        have := he hs
        simp only [beq_iff_eq]
        omega
      · rfl
    · next e =>
      have e : i + 1 ≠ c.script.length := by simpa using e
      refine ih (i + 1) ?_ (by omega) hm he
      rw [← List.tail_drop, hd]; rfl

/-- A pattern that starts with `^` is found exactly if it agrees with the beginning of the script
(and with all of it, if it finishes with `$`). -/
theorem found_in_anchored_exact (c : Confusable) (script : List EditInstr)
    (hsb : c.strictbegin = true) :
    c.foundIn script = true ↔ c.script ≠ [] ∧ MatchesAt c.script script 0 c.script.length ∧
      (c.strictend = true → c.script.length = script.length) := by
  constructor
  · intro h
    obtain ⟨k, h1, h2, _, h4, h5⟩ := found_in_sound c script h
    have := h4 hsb
    subst this
    exact ⟨h2, h1, fun hs => by have := h5 hs; omega⟩
  · rintro ⟨h1, h2, h3⟩
    exact foundLoop_begin script 0 rfl (List.length_pos_iff.mpr h1) h2 h3

example : (⟨[.deletion ['y'], .insertion ['i']], 11/10, true, true⟩ : Confusable).foundIn
    [.deletion ['y'], .insertion ['i']] = true := by decide +kernel

/-- A pattern of one instruction, not anchored, is found exactly if it agrees with some instruction
of the script. -/
theorem found_in_single_exact (a : EditInstr) (w : Rat) (script : List EditInstr) :
    (⟨[a], w, false, false⟩ : Confusable).foundIn script = true ↔
      ∃ b ∈ script, InstrMatches True True a b := by
  have key : ∀ (l : List EditInstr) (n i : Nat),
      (⟨[a], w, false, false⟩ : Confusable).foundLoop n i 0 l = true ↔
        ∃ b ∈ l, InstrMatches True True a b := by
    intro l
    induction l with
    | nil => intro n i; simp [Confusable.foundLoop]
    | cons b l ih =>
      intro n i
      have hf := fits_iff (show 0 < 1 by omega) a b
      simp only [eq_self, Nat.zero_add] at hf
      simp only [Confusable.foundLoop, List.getElem?_cons_zero, List.length_singleton]
      by_cases h : a.fits 0 1 b = true
      · simp only [h, if_true]
        simp only [Nat.zero_add, beq_self_eq_true, if_true, Bool.false_eq_true, if_false, true_iff]
        exact ⟨b, List.mem_cons_self, hf.mp h⟩
      · simp only [h, Bool.false_eq_true, if_false]
        rw [ih]
        constructor
        · rintro ⟨b', hb', h'⟩; exact ⟨b', List.mem_cons_of_mem _ hb', h'⟩
        · rintro ⟨b', hb', h'⟩
          rcases List.mem_cons.mp hb' with rfl | hb'
          · exact absurd (hf.mpr h') h
          · exact ⟨b', hb', h'⟩
  exact key script _ 0

example : (⟨[.deletion ['y']], 11/10, false, false⟩ : Confusable).foundIn
    [.identity ['a'], .deletion "xy".toList, .identity ['b']] = true := by decide +kernel

/-- `found_in` does not find every occurrence: after a partial match that fails it goes on *after*
the failing instruction, so that a match starting there or within the partial match is missed. -/
theorem found_in_incomplete : ∃ (c : Confusable) (script : List EditInstr) (k : Nat),
    MatchesAt c.script script k c.script.length ∧ c.strictbegin = false ∧ c.strictend = false ∧
    c.foundIn script = false := by
  refine ⟨⟨[.deletion ['a'], .insertion ['b']], 1, false, false⟩,
    [.deletion ['a'], .deletion ['a'], .insertion ['b']], 1, ?_, rfl, rfl, by decide +kernel⟩
  intro j hj
  match j, hj with
  | 0, _ => exact ⟨_, _, rfl, rfl, .deletion (List.suffix_refl _)⟩
  | 1, _ => exact ⟨_, _, rfl, rfl, .insertion (List.suffix_refl _)⟩

/-- A pattern that must finish at the end is not found there if it also occurs before. -/
theorem found_in_end_incomplete : ∃ (c : Confusable) (script : List EditInstr) (k : Nat),
    MatchesAt c.script script k c.script.length ∧ c.strictbegin = false ∧
    k + c.script.length = script.length ∧ c.strictend = true ∧ c.foundIn script = false := by
  refine ⟨⟨[.deletion ['a']], 1, false, true⟩,
    [.deletion ['a'], .identity ['b'], .deletion ['a']], 2, ?_, rfl, rfl, rfl, by decide +kernel⟩
  intro j hj
  match j, hj with
  | 0, _ => exact ⟨_, _, rfl, rfl, .deletion (List.suffix_refl _)⟩

theorem matchesAt_drop {pattern script : List EditInstr} {i k n : Nat} :
    MatchesAt pattern (script.drop i) k n ↔ MatchesAt pattern script (i + k) n := by
  unfold MatchesAt
  simp only [List.getElem?_drop, Nat.add_assoc]

theorem foundLoop_iff {c : Confusable} {script : List EditInstr} :
    ∀ (rest : List EditInstr) (i pos : Nat), script.drop (i + pos) = rest → pos < c.script.length →
      MatchesAt c.script script i pos → (c.strictbegin = true → i = 0) →
      (c.foundLoop script.length (i + pos) pos rest = true ↔ Found c (script.drop i)) := by
  intro rest
  induction rest with
  | nil =>
    intro i pos hd hpos hm hsb
    simp only [Confusable.foundLoop, Bool.false_eq_true, false_iff]
    have hlen : script.length ≤ i + pos := List.drop_eq_nil_iff.mp hd
    intro h
    cases h with
    | here h1 h2 h3 =>
      obtain ⟨_, b, _, hb, _⟩ := h2 pos hpos
      have := (List.getElem?_eq_some_iff.mp hb).1
      simp at this
      omega
    | @later _ k a b h1 h2 h3 h4 h5 h6 =>
      have hk := (List.getElem?_eq_some_iff.mp h4).1
      simp at hk
      obtain ⟨a', b', ha', hb', hf⟩ := hm k (by omega)
      rw [h3] at ha'
      rw [List.getElem?_drop] at h4
      rw [h4] at hb'
      cases ha'
      cases hb'
      exact h5 hf
  | cons b rest ih =>
    intro i pos hd hpos hm hsb
    have hb : script[i + pos]? = some b := by
      have := congrArg List.head? hd
      rwa [List.head?_drop] at this
    have hd' : script.drop (i + pos + 1) = rest := by
      rw [← List.tail_drop, hd]; rfl
    have hi : i + pos < script.length := (List.getElem?_eq_some_iff.mp hb).1
    obtain ⟨a, ha⟩ : ∃ a, c.script[pos]? = some a := ⟨_, List.getElem?_eq_getElem hpos⟩
    have hm0 : ∀ n, MatchesAt c.script (script.drop i) 0 n ↔ MatchesAt c.script script i n :=
      fun n => matchesAt_drop
    -- a mismatch before `pos` is impossible
    have hbefore : ∀ {k a' b'}, c.script[k]? = some a' → (script.drop i)[k]? = some b' →
        ¬ InstrMatches (k = 0) (k + 1 = c.script.length) a' b' → pos ≤ k := by
      intro k a' b' h3 h4 h5
      by_contra hlt
      obtain ⟨a2, b2, e1, e2, e3⟩ := hm k (by omega)
      rw [h3] at e1
      rw [List.getElem?_drop] at h4
      rw [h4] at e2
      cases e1
      cases e2
      exact h5 e3
    simp only [Confusable.foundLoop, ha]
    by_cases hf : a.fits pos c.script.length b = true
    · rw [if_pos hf]
      have hm' : MatchesAt c.script script i (pos + 1) := by
        intro j hj
        rcases Nat.lt_or_ge j pos with hlt | hge
        · exact hm j hlt
        · have : j = pos := by omega
          subst this
          exact ⟨a, b, ha, hb, (fits_iff hpos a b).mp hf⟩
      by_cases he : pos + 1 = c.script.length
      · rw [if_pos (by simpa using he)]
        have hend : (if c.strictend = true then (i + pos == script.length - 1) else true) = true ↔
            (c.strictend = true → (script.drop i).length = c.script.length) := by
          rw [List.length_drop]
          split
          · next hs =>
            simp only [beq_iff_eq, hs, true_imp_iff]
            omega
          · next hs => simp [hs]
        rw [hend]
        constructor
        · intro h
          refine .here (fun e => ?_) ((hm0 _).mpr (he ▸ hm')) h
          rw [e] at hpos
          simp at hpos
        · intro h
          cases h with
          | here _ _ h3 => exact h3
          | @later _ k a' b' h1 h2 h3 h4 h5 h6 =>
            have hk := hbefore h3 h4 h5
            have hk' := (List.getElem?_eq_some_iff.mp h3).1
            have : k = pos := by omega
            subst this
            rw [ha] at h3
            rw [List.getElem?_drop, hb] at h4
            cases h3
            cases h4
            exact absurd ((fits_iff hpos a b).mp hf) h5
      · rw [if_neg (by simpa using he)]
        have := ih i (pos + 1) (by rw [← Nat.add_assoc]; exact hd') (by omega) hm' hsb
        rwa [← Nat.add_assoc] at this
    · rw [if_neg hf]
      have hno : ¬ InstrMatches (pos = 0) (pos + 1 = c.script.length) a b :=
        fun h => hf ((fits_iff hpos a b).mpr h)
      have hnot : ¬ MatchesAt c.script script i c.script.length := by
        intro h
        obtain ⟨a', b', e1, e2, e3⟩ := h pos hpos
        rw [ha] at e1
        rw [hb] at e2
        cases e1
        cases e2
        exact hno e3
      have hlater : Found c (script.drop i) ↔
          c.strictbegin = false ∧ Found c (script.drop (i + pos + 1)) := by
        constructor
        · intro h
          cases h with
          | here _ h2 _ => exact absurd ((hm0 _).mp h2) hnot
          | @later _ k a' b' h1 h2 h3 h4 h5 h6 =>
            have hk := hbefore h3 h4 h5
            have : k = pos := by
              by_contra hne
              obtain ⟨a2, b2, e1, e2, e3⟩ := (hm0 k).mp h2 pos (by omega)
              rw [ha] at e1
              rw [hb] at e2
              cases e1
              cases e2
              exact hno e3
            subst this
            rw [List.drop_drop] at h6
            exact ⟨h1, by rwa [Nat.add_assoc]⟩
        · rintro ⟨h1, h2⟩
          refine .later h1 ((hm0 pos).mpr hm) ha ?_ hno ?_
          · rw [List.getElem?_drop]; exact hb
          · rw [List.drop_drop, ← Nat.add_assoc]
            exact h2
      rw [hlater]
      split
      · next hs => simp [hs]
      · next hs =>
        have hs : c.strictbegin = false := by simpa using hs
        have := ih (i + pos + 1) 0 (by simpa using hd') (by omega) (fun j hj => by omega)
          (fun h => by rw [hs] at h; cases h)
        rw [Nat.add_zero] at this
        rw [this]
        simp [hs]

/-- **C38**, exactly: how `found_in` looks for a pattern. -/
theorem found_in_exact (c : Confusable) (script : List EditInstr) :
    c.foundIn script = true ↔ Found c script := by
  rcases Nat.eq_zero_or_pos c.script.length with h0 | hpos
  · have hn : c.script = [] := List.length_eq_zero_iff.mp h0
    unfold Confusable.foundIn
    rw [foundLoop_none (by rw [hn]; rfl)]
    simp only [Bool.false_eq_true, false_iff]
    intro h
    cases h with
    | here h1 => exact h1 hn
    | later _ _ h3 => rw [hn] at h3; cases h3
  · have := foundLoop_iff (c := c) (script := script) script 0 0 rfl hpos (fun j hj => by omega)
      (fun _ => rfl)
    simpa [Confusable.foundIn] using this

/-- found behind a mismatch: `-[a]+[b]` in `-[a]=[c]-[a]+[b]` -/
example : Found ⟨[.deletion ['a'], .insertion ['b']], 1, false, false⟩
    [.deletion ['a'], .identity ['c'], .deletion ['a'], .insertion ['b']] :=
  (found_in_exact _ _).mp (by decide +kernel)

/-- **C38**: the weight of a candidate is the product (rounded after each step) of the weights of
the patterns found, 1 if there are none. -/
theorem confusable_weight_product (m : Vm) (r : Rounding) (cfg : Config) (input : List Char)
    (id : Nat) (item : VocabValue) (h : m.decoder[id]? = some item) :
    m.confusableWeight r cfg input id = ((cfg.confusables.filter fun c =>
      c.foundIn (cfg.editScript input item.text)).map Confusable.weight).foldl
        (fun w x => r.rnd (w * x)) 1 := by
  unfold Vm.confusableWeight
  rw [h]
  simp only
  generalize (1 : Rat) = w0
  induction cfg.confusables generalizing w0 with
  | nil => rfl
  | cons c cs ih =>
    simp only [List.foldl_cons, List.filter_cons]
    split
    · next hf => simp only [List.map_cons, List.foldl_cons]; exact ih _
    · exact ih _

/-- two patterns, one of which is found -/
def confConfig : Config :=
  { exConfig with
    confusables := [⟨[.deletion ['b']], 3/2, false, false⟩, ⟨[.insertion ['x']], 7, false, false⟩]
    editScript := fun _ _ => [.identity ['a'], .deletion ['b']] }

example : plain.confusableWeight .exact confConfig ['a', 'b'] 3 = 3/2 := by decide +kernel

/-- **C38**: a pattern whose first or last character is not a single byte, and the empty pattern,
make the constructor panic. -/
theorem confusable_new_panics (parse : List Char → Option (List EditInstr)) (s : List Char)
    (w : Rat) : (Confusable.new parse s w = .error .expect) ↔
      (s = [] ∨ (∃ c, s.head? = some c ∧ 1 < c.utf8Size) ∨ ∃ c, s.getLast? = some c ∧
        1 < c.utf8Size) := by
  cases s with
  | nil => simp [Confusable.new]
  | cons a l =>
    obtain ⟨z, hz⟩ : ∃ z, (a :: l).getLast? = some z := ⟨_, List.getLast?_cons⟩
    simp only [Confusable.new, List.head?_cons, hz]
    by_cases h : a.utf8Size > 1 ∨ z.utf8Size > 1
    · simp only [h, if_true, true_iff]
      rcases h with h | h
      · exact .inr (.inl ⟨a, rfl, h⟩)
      · exact .inr (.inr ⟨z, rfl, h⟩)
    · simp only [h, if_false, reduceCtorEq, false_iff, Option.some.injEq]
      push Not at h
      rintro (h' | ⟨c, rfl, h'⟩ | ⟨c, rfl, h'⟩)
      · cases h'
      · omega
      · omega

example : Confusable.new (fun _ => none) ['é', '-'] 1 = .error .expect ∧
    Confusable.new (fun _ => some []) ['^', '-', '$'] 1 = .ok (some ⟨[], 1, true, true⟩) :=
  ⟨(confusable_new_panics _ _ _).mpr (.inr (.inl ⟨_, rfl, by decide⟩)), rfl⟩

end Verif.Props
