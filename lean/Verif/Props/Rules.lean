import Verif.Lemmas.Rules
import Verif.Props.Sequence

/-!
# Properties of patterns and context rules (C50–C53)
-/
namespace Verif.Props

open Verif.Spec Verif.Model Verif.Lemmas

/-! ## C50 -/

/-- **C50**: a pattern without lexicon index above 31 is tested without panic, and the test succeeds iff
the pattern holds (`holds_iff`). -/
theorem pattern_semantics (sequence : List (Nat × Nat)) (i : Nat) (p : PatternMatch) (h : Small p) :
    ∃ b, p.fits sequence i = .ok b ∧ (b = true ↔ Holds sequence i p) :=
  fits_ok sequence i p h

/-- **C50**: what it means that a pattern holds for a word with vocabulary id `w.1` and lexicons
`w.2`. -/
theorem holds_iff (sequence : List (Nat × Nat)) (i : Nat) (w : Nat × Nat) (hw : sequence[i]? = some w) :
    Holds sequence i .any ∧
    (Holds sequence i .noLexicon ↔ w.1 = 0 ∨ ∀ k, w.2.testBit k = false) ∧
    (∀ id, Holds sequence i (.vocab id) ↔ w.1 = id) ∧
    (∀ k, Holds sequence i (.fromLexicon k) ↔ w.2.testBit k = true) ∧
    (∀ p, Holds sequence i (.not p) ↔ ¬ Holds sequence i p) ∧
    (∀ ps, Holds sequence i (.disjunction ps) ↔ ∃ p ∈ ps, Holds sequence i p) := by
  simp [Holds, hw, holdsAny_iff]

/-- `!(@2 | 7)` for a word of lexicon 2, for word 7, and for another one. -/
example : let p : PatternMatch := .not (.disjunction [.fromLexicon 2, .vocab 7])
    Small p ∧ (p.fits [(5, 4), (7, 1), (6, 3)] 0).toOption = some false ∧
    (p.fits [(5, 4), (7, 1), (6, 3)] 1).toOption = some false ∧
    (p.fits [(5, 4), (7, 1), (6, 3)] 2).toOption = some true := by
  refine ⟨by simp [Small, SmallAll], ?_, ?_, ?_⟩ <;> decide +kernel

/-- **C50**: a pattern with a lexicon index above 31 panics. -/
theorem pattern_shift_panics (sequence : List (Nat × Nat)) (i k : Nat) (hk : 32 ≤ k)
    (hi : i < sequence.length) :
    (PatternMatch.fromLexicon k).fits sequence i = .error .overflow := by
  rw [PatternMatch.fits, List.getElem?_eq_getElem hi]
  simp [hk]

example : (PatternMatch.fromLexicon 32).fits [(5, 4)] 0 = .error .overflow :=
  pattern_shift_panics _ _ _ (by decide) (by decide)

/-- **C50**: a written pattern whose words and lexicons are known parses to a pattern with its meaning,
however blanks are used. -/
theorem parse_semantics_partial (isSpace : Char → Bool) (hm : MarksOk isSpace) (lexicons : List (List Char))
    (encoder : HMap (List Char) Nat) (e : Expr) (s : List Char) (h : Writes isSpace e s)
    (hk : KnownAll lexicons encoder e) :
    ∃ p, PatternMatch.parse isSpace lexicons encoder s = some p ∧ Small p ∧
      ∀ sequence i w, sequence[i]? = some w →
        (Holds sequence i p ↔ ExprFits lexicons encoder w.1 w.2 e) := by
  obtain ⟨p, h1, h2, h3⟩ := expr_parses hm h hk
  exact ⟨p, h1 _ (Nat.lt_succ_self _), h2, h3⟩

/-- ` !( a |! @y )` with a lexicon `x/y`. -/
example : let e : Expr := .notGroup (.parts (.word ['a']) [.not (.lexicon ['y'])])
    MarksOk (· == ' ') ∧ Writes (· == ' ') e " !( a |! @y )".toList ∧
    KnownAll ["z".toList, "x/y".toList] [(['a'], 3)] e := by
  have blank1 : Blank (· == ' ') [' '] := by unfold Blank; decide
  have blank0 : Blank (· == ' ') [] := by unfold Blank; decide
  refine ⟨by unfold MarksOk; decide, ?_, ?_⟩
  · refine Writes.notGroup (a := [' ']) (b := []) (s := " a |! @y ".toList) blank1 blank0 (.parts ?_)
    refine WritesParts.more (s := " a ".toList) (s' := "! @y ".toList) ?_ (.one ?_)
    · refine WritesTerm.word (a := [' ']) (b := [' ']) (w := ['a']) blank1 blank1 ?_
      refine ⟨by decide, ⟨by decide, by decide⟩, by decide, by decide, by decide, by decide, by decide, by decide⟩
    · refine WritesTerm.not (a := []) (s := " @y ".toList) blank0 ?_
      exact WritesTerm.lexicon (a := [' ']) (b := [' ']) (name := ['y']) blank1 blank1 (by decide)
        (by decide) (by decide)
  · intro u hu
    simp only [List.mem_cons, List.not_mem_nil, or_false] at hu
    rcases hu with rfl | rfl
    · exact ⟨3, rfl⟩
    · refine ⟨1, by decide, ⟨"x/y".toList, rfl, .inr ⟨['x'], rfl⟩⟩, ?_⟩
      intro j hj l hl
      obtain rfl : j = 0 := by omega
      cases hl
      refine ⟨by decide, ?_⟩
      rintro ⟨t, ht⟩
      have := congrArg List.length ht
      simp at this

/-- The fuel of the model suffices: more of it does not change the result. -/
theorem parse_fuel (isSpace : Char → Bool) (lexicons : List (List Char))
    (encoder : HMap (List Char) Nat) (fuel : Nat) : ∀ (s : List Char), s.length < fuel →
      PatternMatch.parseAux isSpace lexicons encoder fuel s =
        PatternMatch.parse isSpace lexicons encoder s := by
  have gen : ∀ (n : Nat) (s : List Char) (f : Nat), s.length < n → s.length < f →
      PatternMatch.parseAux isSpace lexicons encoder n s =
        PatternMatch.parseAux isSpace lexicons encoder f s := by
    intro n
    induction n with
    | zero => intro s f h; omega
    | succ n ih =>
      rintro s (_ | f) h1 h2
      · omega
      have hle := trim_length isSpace s
      rw [PatternMatch.parseAux, PatternMatch.parseAux]
      split
      · rfl
      split
      · rfl
      split
      · next h3 h4 h =>
        have hlen : ((trim isSpace s).drop 2).dropLast.length < (trim isSpace s).length := by
          have : 2 ≤ (trim isSpace s).length := by
            have := (List.isPrefixOf_iff_prefix.mp h.1).length_le
            simpa using this
          simp; omega
        rw [ih _ f (by omega) (by omega)]
      split
      · next h =>
        have hbar : '|' ∈ trim isSpace s := by simpa using h
        have hlt := splitChar_lt hbar
        congr 1
        have : ∀ (l : List (List Char)), (∀ w ∈ l, w.length < (trim isSpace s).length) →
            l.mapM (PatternMatch.parseAux isSpace lexicons encoder n) =
              l.mapM (PatternMatch.parseAux isSpace lexicons encoder f) := by
          intro l hl
          induction l with
          | nil => rfl
          | cons w l ihl =>
            have := hl w (by simp)
            rw [List.mapM_cons, List.mapM_cons, ih w f (by omega) (by omega),
              ihl fun v hv => hl v (by simp [hv])]
        exact this _ hlt
      split
      · next heq =>
        rw [heq] at hle
        simp only [List.length_cons] at hle
        rw [ih _ f (by omega) (by omega)]
      · rfl
      · rfl
  intro s h
  exact gen fuel s (s.length + 1) h (Nat.lt_succ_self _)

/-- **C50 is violated** for a disjunction of two negated groups: the text starts with `!(` and ends
with `)`, so that it is taken for one group. -/
theorem negated_groups_rejected :
    PatternMatch.parse (· == ' ') [] [(['a'], 3), (['b'], 4)] "!(a)".toList =
      some (.not (.vocab 3)) ∧
    PatternMatch.parse (· == ' ') [] [(['a'], 3), (['b'], 4)] "!(a)|!(b)".toList = none ∧
    PatternMatch.parse (· == ' ') [] [(['a'], 3), (['b'], 4)] "a|!(a|b)".toList = none ∧
    PatternMatch.parse (· == ' ') [] [(['a'], 3), (['b'], 4)] "!(a|b|)".toList = none := by
  refine ⟨?_, ?_, ?_, ?_⟩ <;> rfl

/-! ## C51 -/

/-- **C51**: a rule (without overflow) is applied iff it fits at the position and no position of its
range has a result; then exactly these positions get their results, and otherwise nothing changes. -/
theorem rule_application_partial (rule : ContextRule) (h : RuleOk rule) (sequence : List (Nat × Nat)) (b : Nat)
    (results : List (List PatternMatchResult)) (hl : sequence.length = results.length) :
    ∃ results' f, rule.apply sequence b results = .ok (results', f) ∧
      (f = true ↔ FitsAt rule sequence b ∧ ∀ i, Covers (b, rule) i → results[i]? = some []) ∧
      results'.length = results.length ∧
      (f = false → results' = results) ∧
      (f = true → ∀ i : Nat,
        (Covers (b, rule) i → results'[i]? = some (assigned rule (i - b))) ∧
        (¬ Covers (b, rule) i → results'[i]? = results[i]?)) := by
  obtain ⟨r, f, h1, h2, h3, h4, h5⟩ := apply_ok h (b := b) hl
  refine ⟨r, f, h1, h2, h3, h4, fun hf i => ⟨fun hc => ?_, fun hc => ?_⟩⟩
  · rw [h5 hf i]; exact if_pos hc
  · rw [h5 hf i]; exact if_neg hc

/-- A rule of three words with two overlapping tags. -/
def exRule : ContextRule :=
  { pattern := [.fromLexicon 0, .any, .not (.vocab 4)], score := 11/10, tag := [7, 8], tagoffset := [(0, 2), (1, 2)] }

theorem exRule_ok : RuleOk exRule := by
  refine ⟨?_, by decide, by decide⟩
  intro p hp
  simp only [exRule, List.mem_cons, List.not_mem_nil, or_false] at hp
  rcases hp with rfl | rfl | rfl <;> simp [Small]

example : RuleOk exRule ∧ (exRule.apply [(4, 2), (3, 1), (0, 0), (5, 0)] 1 [[], [], [], []]).toOption =
    some ([[], [⟨11/10, some 7, 0⟩], [⟨11/10, some 7, 1⟩, ⟨11/10, some 8, 0⟩], [⟨11/10, some 8, 1⟩]], true) :=
  ⟨exRule_ok, by decide +kernel⟩

/-- **C51 is violated** for patterns of more than 256 words: their positions are truncated to 8 bits, so
that the first tag, which is for the first word only, is given to word 256 as well. -/
theorem long_rule_wraps :
    ({ pattern := List.replicate 257 .any, score := 1, tag := [7], tagoffset := [(0, 1)] } :
      ContextRule).resultAt 256 = .ok [⟨1, some 7, 0⟩] := by decide +kernel

/-- **C51 is violated** for tags that end beyond position 255: the end of the tag overflows. -/
theorem tag_end_panics :
    (({ pattern := [.any], score := 1, tag := [7], tagoffset := [(0, 255), (0, 1)] } :
      ContextRule).apply [(3, 1)] 0 [[]]).toOption = some ([[⟨1, some 7, 0⟩]], true) ∧
    (({ pattern := [.any, .any], score := 1, tag := [7], tagoffset := [(1, 255)] } :
      ContextRule).apply [(3, 1), (3, 1)] 0 [[], []]) = .error .overflow := by
  constructor <;> decide +kernel

/-! ## C52 -/

theorem before_trans_irrefl (a b : Nat × Nat) : Before a b → ¬ Before b a := by
  unfold Before
  omega

/-- The conditions `Greedy` determine the applications. -/
theorem greedy_unique {takes : Nat × Nat → Nat → Prop} {rules : List ContextRule}
    {sequence : List (Nat × Nat)} {A A' : List (Nat × Nat)} (h : Greedy takes rules sequence A)
    (h' : Greedy takes rules sequence A') : A = A' := by
  have one : ∀ {B B' : List (Nat × Nat)}, Greedy takes rules sequence B →
      Greedy takes rules sequence B' → ∀ p, (∀ q, Before q p → (q ∈ B ↔ q ∈ B')) → p ∈ B → p ∈ B' := by
    intro B B' g g' p ih hp
    obtain ⟨h1, rule, h2, h3⟩ := g.fits p hp
    rcases g'.greedy p rule h1 h2 h3 with h4 | ⟨a, ha, hb, i, hi, hr⟩
    · exact h4
    · exact absurd hr (g.once a ((ih a hb).mpr ha) p hp hb i hi)
  have all : ∀ n m : Nat, ((n, m) ∈ A ↔ (n, m) ∈ A') := by
    intro n
    induction n using Nat.strong_induction_on with
    | _ n ihn =>
      intro m
      induction m using Nat.strong_induction_on with
      | _ m ihm =>
        have ih : ∀ q : Nat × Nat, Before q (n, m) → (q ∈ A ↔ q ∈ A') := by
          rintro ⟨q1, q2⟩ hq
          rcases hq with hq | ⟨hq, hq'⟩
          · exact ihn q1 hq q2
          · simp only at hq hq'
            subst hq
            exact ihm q2 hq'
        exact ⟨one h h' _ ih, one h' h _ fun q hq => (ih q hq).symm⟩
  have asymm : ∀ a b : Nat × Nat, Before a b → Before b a → a = b :=
    fun a b h1 h2 => absurd h2 (before_trans_irrefl a b h1)
  have nodup : ∀ {B : List (Nat × Nat)}, B.Pairwise Before → B.Nodup := by
    intro B hB
    refine hB.imp ?_
    rintro a b hab rfl
    exact before_trans_irrefl a a hab hab
  have perm : A.Perm A' :=
    (List.perm_ext_iff_of_nodup (nodup h.sorted) (nodup h'.sorted)).mpr fun p => all p.1 p.2
  exact perm.eq_of_pairwise (fun a b _ _ => asymm a b) h.sorted h'.sorted

/-- **C52**: rules that cannot overflow are applied greedily, from left to right and in their order,
where a word takes part in an application if that gives it a result (`Marked`).  Words have the result
of the application they take part in, and the score is the mean of their scores (1 for words that take
part in none). -/
theorem context_rules (vm : Vm) (x : TextExt) (rules : List ContextRule) (syms : List OutputSymbol)
    (hok : ∀ r ∈ rules, RuleOk r) :
    ∃ A score results, vm.testContextRules x rules syms = .ok (score, results) ∧
      Greedy (Marked rules) rules (syms.map vm.symbolLexindex) A ∧
      results.length = syms.length ∧
      (∀ a ∈ A, ∀ rule, rules[a.2]? = some rule → ∀ i, Marked rules a i →
        results[i]? = some (assigned rule (i - a.1))) ∧
      (∀ i < syms.length, (∀ a ∈ A, ¬ Marked rules a i) → results[i]? = some []) ∧
      (A = [] → score = 1) ∧
      (A ≠ [] → ∃ scores : List Rat, scores.length = syms.length ∧
        (∀ a ∈ A, ∀ rule, rules[a.2]? = some rule → ∀ i, Marked rules a i →
          scores[i]? = some rule.score) ∧
        (∀ i < syms.length, (∀ a ∈ A, ¬ Marked rules a i) → scores[i]? = some 1) ∧
        score = x.f64.rnd (scores.foldl (fun s y => x.f32.rnd (s + y)) 0 / syms.length)) := by
  obtain ⟨results, A, h1, h2⟩ := positionsLoop_ok hok (syms.map vm.symbolLexindex).length 0 [] _
    (rulesState_init rules (syms.map vm.symbolLexindex))
  rw [Nat.zero_add] at h2
  have hn : (syms.map vm.symbolLexindex).length = syms.length := List.length_map _
  have hg : Greedy (Marked rules) rules (syms.map vm.symbolLexindex) A := by
    refine ⟨?_, h2.sorted, ?_, ?_⟩
    · intro a ha
      refine ⟨?_, h2.fits a ha⟩
      have := h2.done a ha
      unfold Done at this
      omega
    · intro a ha a' ha' hb i hi hi'
      have both := List.Pairwise.and h2.sorted h2.disjoint
      clear h1 hn h2
      induction both with
      | nil => cases ha
      | cons hx _ ih =>
        rcases List.mem_cons.mp ha with rfl | ha
        · rcases List.mem_cons.mp ha' with rfl | ha'
          · exact before_trans_irrefl _ _ hb hb
          · exact (hx _ ha').2 i ⟨hi, hi'⟩
        · rcases List.mem_cons.mp ha' with rfl | ha'
          · exact before_trans_irrefl _ _ hb (hx _ (by assumption)).1
          · exact ih (by assumption) ha'
    · intro p rule hp hr hf
      exact h2.greedy p rule (.inl (by omega)) hr hf
  have hrun : vm.testContextRules x rules syms =
      if A = [] then .ok (1, results) else .ok (x.f64.rnd (sumScores x.f32 results / syms.length), results) := by
    unfold Vm.testContextRules
    rw [← List.range_eq_range'] at h1
    simp only [List.isEmpty_nil, Bool.not_true] at h1
    rw [hn] at h1
    simp only [hn, h1, bind, Except.bind]
    cases A <;> simp [pure, Except.pure]
  have hlen : results.length = syms.length := by rw [h2.len, hn]
  have hscore : ∃ scores : List Rat, scores.length = syms.length ∧
        (∀ a ∈ A, ∀ rule, rules[a.2]? = some rule → ∀ i, Marked rules a i →
          scores[i]? = some rule.score) ∧
        (∀ i < syms.length, (∀ a ∈ A, ¬ Marked rules a i) → scores[i]? = some 1) ∧
        sumScores x.f32 results = scores.foldl (fun s y => x.f32.rnd (s + y)) 0 := by
    refine ⟨results.map fun l => match l with
      | [] => 1
      | a :: _ => a.score, by simp [hlen], ?_, ?_, ?_⟩
    · intro a ha rule hr i hi
      rw [List.getElem?_map, h2.hit a ha rule hr i hi]
      obtain ⟨rule', hr', _, hne⟩ := hi
      rw [hr] at hr'
      cases hr'
      have hall : ∀ y ∈ assigned rule (i - a.1), y.score = rule.score := by
        intro y hy
        unfold assigned at hy
        split at hy
        · rw [List.mem_singleton] at hy; rw [hy]
        · obtain ⟨z, _, rfl⟩ := List.mem_map.mp hy; rfl
      cases he : assigned rule (i - a.1) with
      | nil => exact absurd he hne
      | cons y l =>
        rw [he] at hall
        simp [hall y (by simp)]
    · intro i hi hA
      rw [List.getElem?_map, h2.free i (by rw [hn]; exact hi) hA]
      rfl
    · unfold sumScores
      rw [List.foldl_map]
      rfl
  refine ⟨A, if A = [] then 1 else x.f64.rnd (sumScores x.f32 results / syms.length), results, ?_, hg,
    hlen, h2.hit, fun i hi hA => h2.free i (by rw [hn]; exact hi) hA, ?_, ?_⟩
  · rw [hrun]
    split <;> rfl
  · intro hA; rw [if_pos hA]
  · intro hA
    obtain ⟨scores, s1, s2, s3, s4⟩ := hscore
    exact ⟨scores, s1, s2, s3, by rw [if_neg hA, s4]⟩

/-- **C52**: if the rules give each word of their pattern a result, no word is in the range of two
applications, and a rule that fits is left out only because of such a word. -/
theorem one_rule_per_word_partial {rules : List ContextRule} {sequence : List (Nat × Nat)}
    {A : List (Nat × Nat)} (hfull : ∀ r ∈ rules, Full r) (h : Greedy (Marked rules) rules sequence A) :
    Greedy (InRange rules) rules sequence A ∧
    ∀ a ∈ A, ∀ a' ∈ A, ∀ i, InRange rules a i → InRange rules a' i → a = a' := by
  have heq : Marked rules = InRange rules := by
    funext a i
    refine propext ⟨fun ⟨r, h1, h2, _⟩ => ⟨r, h1, h2⟩, fun ⟨r, h1, h2⟩ => ⟨r, h1, h2, ?_⟩⟩
    refine hfull r (List.mem_of_getElem? h1) _ ?_
    have := h2.1
    have := h2.2
    simp only at *
    omega
  rw [heq] at h
  refine ⟨h, fun a ha a' ha' i hi hi' => ?_⟩
  by_contra hne
  have : Before a a' ∨ Before a' a := by
    have : a.1 ≠ a'.1 ∨ a.2 ≠ a'.2 := by
      by_contra hc
      push Not at hc
      exact hne (Prod.ext hc.1 hc.2)
    unfold Before
    omega
  rcases this with hb | hb
  · exact h.once a ha a' ha' hb i hi hi'
  · exact h.once a' ha' a ha hb i hi' hi

/-- A model with two words, `x` (id 3) and `y` (id 4). -/
def exWords : Vm :=
  { Vm.new [] with decoder := [reserved [], reserved [], reserved [],
      { reserved ['x'] with lexindex := 1 }, { reserved ['y'] with lexindex := 1 }] }

/-- A rule for single words `y`, without tags. -/
def exShort : ContextRule := { pattern := [.vocab 4], score := 2, tag := [], tagoffset := [] }

/-- Two rules that compete for the words of `x x x y y`. -/
example : let syms := [3, 3, 3, 4, 4].map fun i => (⟨i, 0, none, 0, 0⟩ : OutputSymbol)
    (∀ r ∈ [exRule, exShort], RuleOk r) ∧ (∀ r ∈ [exRule, exShort], Full r) ∧
    (exWords.testContextRules exText [exRule, exShort] syms).toOption =
      some (73/50, [[⟨11/10, some 7, 0⟩], [⟨11/10, some 7, 1⟩, ⟨11/10, some 8, 0⟩], [⟨11/10, some 8, 1⟩],
        [⟨2, none, 0⟩], [⟨2, none, 0⟩]]) := by
  refine ⟨?_, ?_, ?_⟩
  · intro r hr
    simp only [List.mem_cons, List.not_mem_nil, or_false] at hr
    rcases hr with rfl | rfl
    · exact exRule_ok
    · exact ⟨by simp [exShort, Small], by decide, by decide⟩
  · intro r hr
    simp only [List.mem_cons, List.not_mem_nil, or_false] at hr
    rcases hr with rfl | rfl
    · unfold Full; decide
    · unfold Full; decide
  · decide +kernel

/-- The rule of the README that tags only the second word, and another rule for the first word. -/
def exOffset : List ContextRule :=
  [{ pattern := [.vocab 3, .vocab 4], score := 11/10, tag := [0], tagoffset := [(1, 1)] },
   { pattern := [.vocab 3], score := 12/10, tag := [1], tagoffset := [(0, 1)] }]

/-- **C52 is violated** by the rule of the README that tags only the second word: the first word takes
part in another rule as well. -/
theorem untagged_word_reused :
    let syms := [3, 4].map fun i => (⟨i, 0, none, 0, 0⟩ : OutputSymbol)
    (exWords.testContextRules exText exOffset syms).toOption =
      some (23/20, [[⟨12/10, some 1, 0⟩], [⟨11/10, some 0, 0⟩]]) ∧
    InRange exOffset (0, 0) 0 ∧ InRange exOffset (0, 1) 0 ∧
    ∀ A, Greedy (Marked exOffset) exOffset (syms.map exWords.symbolLexindex) A →
      (0, 0) ∈ A ∧ (0, 1) ∈ A := by
  refine ⟨by decide +kernel, ⟨_, rfl, by decide, by decide⟩, ⟨_, rfl, by decide, by decide⟩, ?_⟩
  intro A hA
  have f0 : FitsAt exOffset[0] ([3, 4].map fun i =>
      exWords.symbolLexindex (⟨i, 0, none, 0, 0⟩ : OutputSymbol)) 0 := by
    refine ⟨by decide, fun j p hj => ?_⟩
    match j, hj with
    | 0, hj => cases hj; simp [Holds, exWords, Vm.symbolLexindex]
    | 1, hj => cases hj; simp [Holds, exWords, Vm.symbolLexindex]
    | j + 2, hj => simp [exOffset] at hj
  have f1 : FitsAt exOffset[1] ([3, 4].map fun i =>
      exWords.symbolLexindex (⟨i, 0, none, 0, 0⟩ : OutputSymbol)) 0 := by
    refine ⟨by decide, fun j p hj => ?_⟩
    match j, hj with
    | 0, hj => cases hj; simp [Holds, exWords, Vm.symbolLexindex]
    | j + 1, hj => simp [exOffset] at hj
  constructor
  · rcases hA.greedy (0, 0) _ (by decide) rfl f0 with h | ⟨a, _, hb, _⟩
    · exact h
    · unfold Before at hb
      simp at hb
  · rcases hA.greedy (0, 1) _ (by decide) rfl f1 with h | ⟨a, _, hb, i, hi, hr⟩
    · exact h
    · obtain ⟨a1, a2⟩ := a
      unfold Before at hb
      simp only [Nat.not_lt_zero, false_or, Nat.lt_one_iff] at hb
      obtain ⟨rfl, rfl⟩ := hb
      obtain ⟨_, h1, h2⟩ := hr
      cases h1
      obtain ⟨_, h1, _, h3⟩ := hi
      cases h1
      have : i = 0 := by
        have := h2.2
        simpa [exOffset] using this
      subst this
      exact absurd rfl h3

end Verif.Props
