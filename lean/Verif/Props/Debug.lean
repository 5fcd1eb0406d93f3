import Verif.Model.Debug
import Verif.Spec.Debug
import Verif.Props.Score

/-!
# C132: what the level of debugging does to a search
-/
namespace Verif.Props
open Verif.Model Verif.Spec Verif.Lemmas

/-! ## Decomposing a value -/

theorem firstString_ok {A : Alphabet} {i : Nat} {s : List Char} :
    firstString A i = .ok s ↔ LineBegins A i s := by
  unfold firstString LineBegins
  cases A[i]? with
  | none => simp
  | some line => cases line <;> simp [eq_comm]

theorem firstString_error {A : Alphabet} {i : Nat} {e : Panic} :
    firstString A i = .error e ↔ e = .expect ∧ ∀ s, ¬ LineBegins A i s := by
  unfold firstString LineBegins
  cases A[i]? with
  | none => simp [eq_comm]
  | some line => cases line <;> simp [eq_comm]

theorem decomposeLoop_ok {A : Alphabet} {l : List Nat} {d : Nat} {ss : List (List Char)} :
    decomposeLoop A (iterChain l d) = .ok ss ↔ List.Forall₂ (LineBegins A) l ss := by
  induction l generalizing d ss with
  | nil => simp [iterChain, decomposeLoop, eq_comm]
  | cons x l ih =>
    simp only [iterChain, decomposeLoop]
    rw [bind_ok]
    constructor
    · rintro ⟨s, h1, h2⟩
      obtain ⟨rest, h3, h4⟩ := bind_ok.mp h2
      cases pure_ok.mp h4
      exact .cons (firstString_ok.mp h1) (ih.mp h3)
    · rintro (_ | ⟨h1, h2⟩)
      exact ⟨_, firstString_ok.mpr h1, bind_ok.mpr ⟨_, ih.mpr h2, rfl⟩⟩

theorem decomposeLoop_error {A : Alphabet} {l : List Nat} {d : Nat} {e : Panic} :
    decomposeLoop A (iterChain l d) = .error e ↔
      e = .expect ∧ ∃ i ∈ l, ∀ s, ¬ LineBegins A i s := by
  induction l generalizing d with
  | nil => simp [iterChain, decomposeLoop]
  | cons x l ih =>
    simp only [iterChain, decomposeLoop]
    cases h : firstString A x with
    | error e' =>
      obtain ⟨rfl, h'⟩ := firstString_error.mp h
      constructor
      · intro he
        cases he
        exact ⟨rfl, x, by simp, h'⟩
      · rintro ⟨rfl, _⟩
        rfl
    | ok s =>
      have hs := firstString_ok.mp h
      have : (do let rest ← decomposeLoop A (iterChain l (d + 1)); return s :: rest :
          Res (List (List Char))) = .error e ↔ decomposeLoop A (iterChain l (d + 1)) = .error e := by
        cases decomposeLoop A (iterChain l (d + 1)) with
        | error e' => exact ⟨fun h => (by cases h; rfl), fun h => (by cases h; rfl)⟩
        | ok r => exact ⟨fun h => (by cases h), fun h => (by cases h)⟩
      refine this.trans (ih.trans ?_)
      constructor
      · rintro ⟨rfl, i, hi, h'⟩
        exact ⟨rfl, i, by simp [hi], h'⟩
      · rintro ⟨rfl, i, hi, h'⟩
        rcases List.mem_cons.mp hi with rfl | hi
        · exact absurd hs (h' s)
        · exact ⟨rfl, i, hi, h'⟩

/-- **C132**: decomposing the value of a bag of symbols gives the first strings of the lines of its symbols,
in descending order of the lines; it panics exactly if a symbol has no line or its line is empty. -/
theorem decompose_exact (m : Vm) (hlen : m.alphabet.length ≤ 167) (a : List Nat)
    (ha : ∀ i ∈ a, i ≤ m.alphabet.length) :
    (∀ ss, m.decomposeAnavalue (bagValue a) = .ok ss ↔ ShownAs m.alphabet a ss) ∧
    ∀ e, m.decomposeAnavalue (bagValue a) = .error e ↔
      e = .expect ∧ ∃ i ∈ a, ∀ s, ¬ LineBegins m.alphabet i s := by
  have hw : Within (m.alphabet.length + 1) a := fun i hi => by have := ha i hi; omega
  have hasz : m.alphabetSize = .ok (m.alphabet.length + 1) := by
    simp only [Vm.alphabetSize]
    rw [Nat.mod_eq_of_lt (by omega), if_neg (by omega)]
  have he : m.decomposeAnavalue (bagValue a) =
      decomposeLoop m.alphabet (iterChain (sortDesc a) 0) := by
    simp only [Vm.decomposeAnavalue, hasz, bind, Except.bind, iterAll_bag (by omega) hw]
  rw [he]
  refine ⟨fun ss => ?_, fun e => ?_⟩
  · rw [decomposeLoop_ok]
    constructor
    · exact fun h => ⟨_, sortDesc_perm a, sortDesc_sorted a, h⟩
    · rintro ⟨d, hp, hs, h⟩
      have : d = sortDesc a :=
        List.Perm.eq_of_pairwise (fun x y _ _ h1 h2 => Nat.le_antisymm h2 h1) hs (sortDesc_sorted a)
          (hp.trans (sortDesc_perm a).symm)
      rw [← this]
      exact h
  · rw [decomposeLoop_error]
    simp only [(sortDesc_perm a).mem_iff]

/-- `ab` and `bij`, and a bag with an unknown symbol. -/
example : (Vm.new exAlphabet).decomposeAnavalue (bagValue [0, 1]) = .ok [['b'], ['a']] ∧
    (Vm.new exAlphabet).decomposeAnavalue (bagValue [1, 2]) = .ok [['i', 'j'], ['b']] ∧
    (Vm.new exAlphabet).decomposeAnavalue (bagValue [0, 3]) = .error .expect := by decide +kernel

example : ShownAs exAlphabet [0, 1] [['b'], ['a']] :=
  ((decompose_exact (Vm.new exAlphabet) (by decide) [0, 1] (by decide)).1 _).mp (by decide +kernel)

/-! ## Reading an alphabet -/

theorem character_ok (i : Nat) : (∃ p, character i = .ok p) ↔ i < 168 := by
  have hl : PRIMES.length = 168 := by decide +kernel
  unfold character
  cases h : PRIMES[i]? with
  | none =>
    have := List.getElem?_eq_none_iff.mp h
    simp; omega
  | some p =>
    have := (List.getElem?_eq_some_iff.mp h).1
    simp; omega

theorem character_error {i : Nat} (h : 168 ≤ i) : character i = .error .index := by
  have hl : PRIMES.length = 168 := by decide +kernel
  unfold character
  rw [List.getElem?_eq_none_iff.mpr (by omega)]

theorem showLines_exact (A : Alphabet) : ∀ i, i ≤ 168 →
    showLines i A = if i + A.length ≤ 168 then .ok () else .error .index := by
  induction A with
  | nil => intro i hi; simp [showLines, hi]
  | cons l A ih =>
    intro i hi
    rw [showLines, Nat.mod_eq_of_lt (by omega)]
    by_cases h : i < 168
    · obtain ⟨p, hp⟩ := (character_ok i).mpr h
      rw [hp]
      show showLines (i + 1) A = _
      rw [ih (i + 1) (by omega), List.length_cons]
      congr 1
      exact propext ⟨fun _ => by omega, fun _ => by omega⟩
    · rw [character_error (by omega), if_neg (by rw [List.length_cons]; omega)]
      rfl

/-- **C132**: from level 2, reading an alphabet of more than 168 lines panics; otherwise the level does
not matter. -/
theorem alphabet_level (level : Nat) (A : Alphabet) :
    showAlphabet level A = if 2 ≤ level ∧ 168 < A.length then .error .index else .ok () := by
  unfold showAlphabet
  by_cases h : 2 ≤ level
  · rw [if_pos h, showLines_exact A 0 (by omega), Nat.zero_add]
    by_cases h' : A.length ≤ 168
    · rw [if_pos h', if_neg (by omega)]
    · rw [if_neg h', if_pos ⟨h, by omega⟩]
  · rw [if_neg h, if_neg (by omega)]

example : showAlphabet 2 exAlphabet = .ok () ∧ showAlphabet 1 (bigAlphabet 169) = .ok () ∧
    showAlphabet 2 (bigAlphabet 169) = .error .index := by decide +kernel

/-! ## The search -/

/-- The level matters only for showing the deletions. -/
theorem deletionLoopAt_same {m : Vm} {level cc k : Nat} :
    ∀ (items : List IterItem) (near : List Nat) (L : HMap Nat (List Nat)),
      (∀ x ∈ items, m.showDeletion level x.1.value = .ok ()) →
      m.deletionLoopAt level cc k items near L = deletionLoop m.index cc k items near L := by
  intro items
  induction items with
  | nil => intro near L _; rfl
  | cons x items ih =>
    intro near L h
    obtain ⟨deletion, distance⟩ := x
    have hd := h (deletion, distance) (by simp)
    dsimp only at hd
    rw [Vm.deletionLoopAt, deletionLoop, hd]
    simp only [bind, Except.bind]
    split
    · rfl
    · cases schedule deletion.value (cc - distance) 1 (k - distance) L with
      | error e => rfl
      | ok L' => exact ih _ _ fun y hy => h y (by simp [hy])

theorem deletionLoopAt_panics {m : Vm} {level cc k : Nat} (hcc : cc + k < 65536) :
    ∀ (items : List IterItem) (near : List Nat) (L : HMap Nat (List Nat)),
      (∀ x ∈ items, x.2 ≤ cc ∧ x.2 ≤ k) → (L.map Prod.fst).Nodup →
      (∀ x ∈ items, ∀ e, m.showDeletion level x.1.value = .error e → e = .expect) →
      (∃ x ∈ items, ∃ e, m.showDeletion level x.1.value = .error e) →
      m.deletionLoopAt level cc k items near L = .error .expect := by
  intro items
  induction items with
  | nil => rintro near L _ _ _ ⟨x, hx, _⟩; cases hx
  | cons x items ih =>
    intro near L hb hn hk hex
    obtain ⟨deletion, distance⟩ := x
    have hd := hb _ (by simp : (deletion, distance) ∈ (deletion, distance) :: items)
    dsimp only at hd
    rw [Vm.deletionLoopAt]
    cases h : m.showDeletion level deletion.value with
    | error e =>
      rw [hk (deletion, distance) (by simp) e h]
      rfl
    | ok u =>
      obtain ⟨L', h1, h2, _⟩ := schedule_ok (value := deletion.value) (cc := cc - distance)
        (k - distance) 1 L (by omega) hn
      simp only [bind, Except.bind]
      rw [if_neg (by omega), h1]
      refine ih _ _ (fun y hy => hb y (by simp [hy])) h2 (fun y hy => hk y (by simp [hy])) ?_
      obtain ⟨y, hy, e, he⟩ := hex
      rcases List.mem_cons.mp hy with rfl | hy
      · rw [h] at he; cases he
      · exact ⟨y, hy, e, he⟩

theorem exhaustiveSearchAt_low {m : Vm} {level : Nat} (h : level < 4) (o : LookupOrder)
    (focus k : Nat) (near : List Nat) :
    m.exhaustiveSearchAt level o focus k near = m.exhaustiveSearch o focus k near := by
  have hs : ∀ v, m.showDeletion level v = .ok () := fun v => by
    rw [Vm.showDeletion, if_neg (by omega)]
  unfold Vm.exhaustiveSearchAt Vm.exhaustiveSearch
  simp only [deletionLoopAt_same _ _ _ fun x _ => hs _]

theorem find_variants_unfolded (m : Vm) (x : Ext) (cfg : Config) (p : Params) (input : List Char) :
    m.findVariants x cfg p input =
      if m.index.isEmpty then .ok []
      else (do
        let normstring ← normalizeToAlphabet m.alphabet input
        let hash ← anahash m.alphabet input
        let anahashes ← m.findNearestAnahashes x.lookups hash
          (effectiveDistance x.f32 normstring.length p.maxAnagramDistance) p.stopCriterion
        let variants ← m.gatherInstances x.isLower cfg.weights normstring input
          (effectiveDistance x.f32 normstring.length p.maxEditDistance) anahashes
        m.scoreAndRank x.f64 cfg p input normstring.length variants) := by
  unfold Vm.findVariants Vm.findCandidates
  split
  · rfl
  · simp only [bind, Except.bind, pure, Except.pure]
    cases normalizeToAlphabet m.alphabet input with
    | error e => rfl
    | ok n =>
      dsimp only
      cases anahash m.alphabet input with
      | error e => rfl
      | ok hash =>
        dsimp only
        cases m.findNearestAnahashes x.lookups hash
            (effectiveDistance x.f32 n.length p.maxAnagramDistance) p.stopCriterion with
        | error e => rfl
        | ok l =>
          dsimp only
          cases m.gatherInstances x.isLower cfg.weights n input
            (effectiveDistance x.f32 n.length p.maxEditDistance) l <;> rfl

/-- **C132**: below level 4 the level makes no difference to the suggestions, not even to panics. -/
theorem low_levels_same (m : Vm) (level : Nat) (h : level < 4) (x : Ext) (cfg : Config) (p : Params)
    (input : List Char) : m.findVariantsAt level x cfg p input = m.findVariants x cfg p input := by
  rw [find_variants_unfolded]
  have hn : ∀ focus k, m.findNearestAt level x.lookups focus k p.stopCriterion =
      m.findNearestAnahashes x.lookups focus k p.stopCriterion := by
    intro focus k
    unfold Vm.findNearestAt Vm.findNearestAnahashes
    cases m.index.get? focus <;> simp only [exhaustiveSearchAt_low h]
  unfold Vm.findVariantsAt
  simp only [hn]

/-- What is looked at in the search for deletions. -/
theorem deletions_of {a : List Nat} (ha : Within 167 a) (k : Nat) :
    ∃ items, iterCollect (recursiveCfg (a.foldl max 0 + 2) (nearestParams k))
        (iterFuel (a.foldl max 0 + 2) (bagValue a)) (iterInit (bagValue a)) = some (.ok items) ∧
      (∀ x ∈ items, ∃ b : List Nat, b.Subperm a ∧ b.length + x.2 = a.length ∧
        x.1.value = bagValue b ∧ 1 ≤ x.2 ∧ x.2 ≤ k ∧ b ≠ []) ∧
      ∀ b : List Nat, b.Subperm a → b ≠ [] → b.length < a.length → a.length - b.length ≤ k →
        ∃ x ∈ items, x.1.value = bagValue b := by
  have hupper : a.foldl max 0 ≤ 166 := foldl_max_le a 0 166 (by omega) (fun x hx => by
    have := ha x hx; omega)
  have hwu : Within (a.foldl max 0 + 2) a := fun x hx => by
    have := (foldl_max_ge a 0).2 x hx; omega
  have hcfg : BfsCfg (recursiveCfg (a.foldl max 0 + 2) (nearestParams k)) :=
    ⟨rfl, rfl, rfl, rfl, by simp only [recursiveCfg]; omega⟩
  obtain ⟨items, i1, i2⟩ := bfs_all hcfg hwu _ le_rfl
  refine ⟨items, i1, fun x hx => ?_, fun b hb hne hl hk => ?_⟩
  · obtain ⟨C, hC, hl, hv, hd, hd1, hne⟩ := i2.sound _ hx
    exact ⟨C, hC, hl, hv, hd1, hd k rfl, hne⟩
  · rcases i2.complete b hb hne hl (by
      intro m hm
      simp only [recursiveCfg, nearestParams, Option.some.injEq] at hm
      omega) with h | h
    · cases h
    · exact h

theorem exhaustiveSearchAt_eq {m : Vm} (hlen : m.alphabet.length ≤ 166) {a : List Nat}
    (ha : Within (m.alphabet.length + 1) a) {k : Nat} (hal : a.length + k < 65536) (level : Nat)
    (o : LookupOrder) (near : List Nat) {items : List IterItem}
    (hitems : iterCollect (recursiveCfg (a.foldl max 0 + 2) (nearestParams k))
      (iterFuel (a.foldl max 0 + 2) (bagValue a)) (iterInit (bagValue a)) = some (.ok items)) :
    ∃ L, (L.map Prod.fst).Nodup ∧
      m.exhaustiveSearchAt level o (bagValue a) k near = (do
        let (nearest, lookups) ← m.deletionLoopAt level a.length k items near L
        lookupLoop m.sortedindex (o.order lookups) nearest) ∧
      m.exhaustiveSearch o (bagValue a) k near = (do
        let (nearest, lookups) ← deletionLoop m.index a.length k items near L
        lookupLoop m.sortedindex (o.order lookups) nearest) := by
  have hasz : m.alphabetSize = .ok (m.alphabet.length + 1) := by
    simp only [Vm.alphabetSize]
    rw [Nat.mod_eq_of_lt (by omega), if_neg (by omega)]
  have hub := alphabetUpperBound_bag (asz := m.alphabet.length + 1) (by omega) ha (by omega)
  have hupper : a.foldl max 0 ≤ 166 := foldl_max_le a 0 166 (by omega) (fun x hx => by
    have := ha x hx; omega)
  obtain ⟨L, s1, s2, s3⟩ := schedule_ok (value := bagValue a) (cc := a.length) k 1 [] (by omega)
    (by simp)
  refine ⟨L, s2, ?_, ?_⟩
  · unfold Vm.exhaustiveSearchAt
    simp only [hasz, hub, bind, Except.bind, s1]
    rw [if_neg (by omega), if_neg (by omega), hitems]
    rfl
  · unfold Vm.exhaustiveSearch
    simp only [hasz, hub, bind, Except.bind, s1]
    rw [if_neg (by omega), if_neg (by omega), hitems]
    rfl

/-- The symbols of a text that are in the alphabet have a line that is not empty. -/
theorem encoded_line {A : Alphabet} {unk : Nat} {text : List Char} {a : List Nat}
    (h : Encodes A unk text a) : ∀ i ∈ a, i = unk ∨ ∃ s, LineBegins A i s := by
  induction h with
  | nil => intro i hi; cases hi
  | hit hf _ _ ih =>
    intro i hi
    rcases List.mem_cons.mp hi with rfl | hi
    · right
      obtain ⟨⟨pre, post, h1, _⟩, _⟩ := hf
      cases pre with
      | nil => exact ⟨_, _, h1⟩
      | cons s more => exact ⟨s, _, h1⟩
    · exact ih i hi
  | miss _ _ ih =>
    intro i hi
    rcases List.mem_cons.mp hi with rfl | hi
    · exact .inl rfl
    · exact ih i hi

theorem no_line {A : Alphabet} (s : List Char) : ¬ LineBegins A A.length s := by
  rintro ⟨more, h⟩
  rw [List.getElem?_eq_none_iff.mpr le_rfl] at h
  cases h

theorem showDeletion_high {m : Vm} {level v : Nat} (h : 4 ≤ level) :
    (m.showDeletion level v = .ok () ↔ ∃ ss, m.decomposeAnavalue v = .ok ss) ∧
    ∀ e, m.showDeletion level v = .error e ↔ m.decomposeAnavalue v = .error e := by
  unfold Vm.showDeletion
  rw [if_pos h]
  cases m.decomposeAnavalue v with
  | error e =>
    exact ⟨⟨fun h => (by cases h), fun h => (by obtain ⟨_, h⟩ := h; cases h)⟩,
      fun e' => ⟨fun h => (by cases h; rfl), fun h => (by cases h; rfl)⟩⟩
  | ok ss => exact ⟨⟨fun _ => ⟨ss, rfl⟩, fun _ => rfl⟩, fun e' =>
      ⟨fun h => (by cases h), fun h => (by cases h)⟩⟩

/-- The search from level 4 on, for the symbols of a text. -/
theorem exhaustiveSearchAt_high {m : Vm} (hlen : m.alphabet.length ≤ 166) {text : List Char}
    {a : List Nat} (ha : Encodes m.alphabet m.alphabet.length text a) {k : Nat}
    (hal : a.length + k < 65536) {level : Nat} (hlevel : 4 ≤ level) (o : LookupOrder)
    (near : List Nat) :
    m.exhaustiveSearchAt level o (bagValue a) k near =
      if m.alphabet.length ∈ a ∧ 2 ≤ a.length ∧ 1 ≤ k then .error .expect
      else m.exhaustiveSearch o (bagValue a) k near := by
  have hw := encodes_within ha
  have hw' : Within 167 a := Within.mono hw (by omega)
  obtain ⟨items, i1, i2, i3⟩ := deletions_of hw' k
  obtain ⟨L, hL, e1, e2⟩ := exhaustiveSearchAt_eq hlen hw hal level o near i1
  have hdec : ∀ b : List Nat, b.Subperm a →
      ((∀ e, m.decomposeAnavalue (bagValue b) = .error e ↔ e = .expect ∧ m.alphabet.length ∈ b)) := by
    intro b hb e
    have hmem : ∀ i ∈ b, i ∈ a := fun i hi => hb.subset hi
    rw [(decompose_exact m (by omega) b fun i hi => by have := hw i (hmem i hi); omega).2]
    refine and_congr_right fun _ => ⟨?_, fun h => ⟨_, h, no_line⟩⟩
    rintro ⟨i, hi, hno⟩
    rcases encoded_line ha i (hmem i hi) with rfl | ⟨s, hs⟩
    · exact hi
    · exact absurd hs (hno s)
  by_cases hc : m.alphabet.length ∈ a ∧ 2 ≤ a.length ∧ 1 ≤ k
  · rw [if_pos hc, e1]
    have : m.deletionLoopAt level a.length k items near L = .error .expect := by
      refine deletionLoopAt_panics hal items near L ?_ hL ?_ ?_
      · intro x hx
        obtain ⟨b, _, h1, _, _, h2, _⟩ := i2 x hx
        omega
      · intro x hx e he
        obtain ⟨b, hb, _, hv, _⟩ := i2 x hx
        rw [hv] at he
        exact ((hdec b hb e).mp (((showDeletion_high hlevel).2 e).mp he)).1
      · obtain ⟨hu, h2, hk⟩ := hc
        have hp : a.Perm (m.alphabet.length :: a.erase m.alphabet.length) :=
          List.perm_cons_erase hu
        have hl := hp.length_eq
        rw [List.length_cons] at hl
        cases ht : a.erase m.alphabet.length with
        | nil => rw [ht] at hl; simp at hl; omega
        | cons y t =>
          rw [ht] at hp hl
          have hsub : (m.alphabet.length :: t).Subperm a := by
            refine List.Subperm.trans ?_ hp.symm.subperm
            exact ((List.sublist_cons_self y t).cons_cons _).subperm
          obtain ⟨x, hx, hv⟩ := i3 (m.alphabet.length :: t) hsub (by simp)
            (by simp at hl ⊢; omega) (by simp at hl ⊢; omega)
          refine ⟨x, hx, .expect, ((showDeletion_high hlevel).2 _).mpr ?_⟩
          rw [hv, hdec _ hsub]
          exact ⟨rfl, by simp⟩
    rw [this]
    rfl
  · rw [if_neg hc, e1, e2, deletionLoopAt_same]
    intro x hx
    obtain ⟨b, hb, h1, hv, h2, h3, hne⟩ := i2 x hx
    have hb1 := List.length_pos_of_ne_nil hne
    have hnu : m.alphabet.length ∉ b := fun hu =>
      hc ⟨hb.subset hu, by omega, by omega⟩
    rw [hv]
    cases hs : m.showDeletion level (bagValue b) with
    | ok u => rfl
    | error e =>
      exact absurd ((hdec b hb e).mp (((showDeletion_high hlevel).2 e).mp hs)).2 hnu

/-- **C132**: from level 4, `find_variants` panics exactly if it looks at a part of the text with a symbol
that is in no line of the alphabet; otherwise the level makes no difference. -/
theorem high_levels_exact (alphabet : Alphabet) (hne : NoEmpty alphabet)
    (hlen : alphabet.length ≤ 166) (ops : List Op) (o : Orders) (m : Vm)
    (h : (Vm.new alphabet).run (ops ++ [.build o]) = .ok m) (level : Nat) (hlevel : 4 ≤ level)
    (x : Ext) (cfg : Config) (p : Params) (input : List Char) (a : List Nat)
    (ha : Encodes alphabet alphabet.length input a)
    (hal : a.length + effectiveDistance x.f32 a.length p.maxAnagramDistance < 65536) :
    (MeetsUnknown alphabet m p.stopCriterion
        (effectiveDistance x.f32 a.length p.maxAnagramDistance) a →
      m.findVariantsAt level x cfg p input = .error .expect) ∧
    (¬ MeetsUnknown alphabet m p.stopCriterion
        (effectiveDistance x.f32 a.length p.maxAnagramDistance) a →
      m.findVariantsAt level x cfg p input = m.findVariants x cfg p input) := by
  have hb := built_of_run h
  have hal' : m.alphabet = alphabet := hb.alpha
  obtain ⟨qs, hqs⟩ := encodes_exists hne (alphabet.length + 1) input
  have hlens : a.length = qs.length := by
    rw [encodes_unique ha ((encodes_change hqs alphabet.length).resolve_right (by omega)),
      List.length_map]
  have hnorm := normalize_eq (by omega : alphabet.length ≤ 254) hqs
  have hhash := anahash_eq (by omega) ha
  have hw := encodes_within ha
  have hsome : (∃ v ∈ m.decoder, v.vocabtype.check .INDEXED = true) ↔ m.index.isEmpty = false := by
    constructor
    · rintro ⟨v, hv, hi⟩
      rw [check_indexed'] at hi
      obtain ⟨i, hi'⟩ := List.getElem?_of_mem hv
      obtain ⟨key, node, _, hg⟩ := hb.complete i v hi' hi
      cases hm : m.index with
      | nil => rw [hm] at hg; cases hg
      | cons _ _ => rfl
    · intro he
      cases hm : m.index with
      | nil => rw [hm] at he; cases he
      | cons y ys =>
        have hs : (m.index.get? y.1).isSome := by
          rw [hm]
          simp [HMap.get?]
        obtain ⟨c, ⟨v, hv, hi, _⟩, _⟩ := (index_isSome hb hne (by omega) _).mp hs
        exact ⟨v, hv, by rw [check_indexed']; exact hi⟩
  have hknown : (m.index.get? (bagValue a)).isSome ↔ AnagramKnown alphabet m a := by
    rw [index_isSome hb hne (by omega)]
    constructor
    · rintro ⟨c, ⟨v, hv, hi, hc⟩, e⟩
      exact ⟨v, hv, by rw [check_indexed']; exact hi, c, hc,
        (bagValue_inj (Within.mono (encodes_within hc) (by omega)) (Within.mono hw (by omega))).mp
          e.symm⟩
    · rintro ⟨v, hv, hi, c, hc, hp⟩
      rw [check_indexed'] at hi
      exact ⟨c, ⟨v, hv, hi, hc⟩, (bagValue_perm hp).symm⟩
  rw [find_variants_unfolded]
  unfold Vm.findVariantsAt
  rw [hal', hnorm, hhash]
  cases hempty : m.index.isEmpty with
  | true =>
    rw [if_pos rfl, if_pos rfl]
    refine ⟨fun hm => ?_, fun _ => rfl⟩
    have := hsome.mp hm.some
    rw [hempty] at this
    cases this
  | false =>
    simp only [Bool.false_eq_true, if_false, bind, Except.bind, ← hlens]
    generalize hk : effectiveDistance x.f32 a.length p.maxAnagramDistance = k at *
    have hsearch := fun near => exhaustiveSearchAt_high (m := m) (by rw [hal']; exact hlen)
      (by rw [hal']; exact ha) hal hlevel x.lookups near
    rw [hal'] at hsearch
    -- the search of the values
    have hnear : m.findNearestAt level x.lookups (bagValue a) k p.stopCriterion = .error .expect ∧
          MeetsUnknown alphabet m p.stopCriterion k a ∨
        m.findNearestAt level x.lookups (bagValue a) k p.stopCriterion =
            m.findNearestAnahashes x.lookups (bagValue a) k p.stopCriterion ∧
          ¬ MeetsUnknown alphabet m p.stopCriterion k a := by
      unfold Vm.findNearestAt Vm.findNearestAnahashes
      by_cases hc : alphabet.length ∈ a ∧ 2 ≤ a.length ∧ 1 ≤ k
      · cases hg : m.index.get? (bagValue a) with
        | none =>
          left
          refine ⟨by dsimp only; rw [hsearch, if_pos hc], hsome.mpr hempty, hc.1, hc.2.1, hc.2.2, ?_⟩
          rintro ⟨_, hkn⟩
          have := hknown.mpr hkn
          rw [hg] at this
          cases this
        | some node =>
          dsimp only
          by_cases hstop : p.stopCriterion = .stopAtExactMatch
          · right
            obtain ⟨h1, _, h2, _⟩ := hb.node _ node hg
            obtain ⟨id, hid⟩ := List.exists_mem_of_ne_nil _ h1
            obtain ⟨v, hv, _⟩ := (h2 id).mp hid
            have hse : stopsEarly m node p.stopCriterion = true := by
              rw [hstop]
              simp only [stopsEarly, decide_true, Bool.true_and, List.any_eq_true]
              exact ⟨id, hid, by rw [hv]; rfl⟩
            rw [if_pos hse, if_pos hse]
            exact ⟨rfl, fun hm => hm.goesOn ⟨hstop, hknown.mp (by rw [hg]; rfl)⟩⟩
          · left
            have hse : ¬ stopsEarly m node p.stopCriterion = true := by
              simp only [stopsEarly, hstop, decide_false, Bool.false_and, Bool.false_eq_true,
                not_false_iff]
            rw [if_neg hse, hsearch, if_pos hc]
            exact ⟨rfl, hsome.mpr hempty, hc.1, hc.2.1, hc.2.2, fun hh => hstop hh.1⟩
      · right
        simp only [hsearch, if_neg hc]
        exact ⟨rfl, fun hm => hc ⟨hm.unknown, hm.two, hm.distance⟩⟩
    rcases hnear with ⟨h1, h2⟩ | ⟨h1, h2⟩
    · rw [h1]
      exact ⟨fun _ => rfl, fun hn => absurd h2 hn⟩
    · rw [h1]
      exact ⟨fun hm => absurd hm h2, fun _ => rfl⟩

/-- From level 4 the search for `a?` panics, that for `ab` does not, and neither does that for `?`; at level 3
there is no panic. -/
theorem exLevels : ∃ m, (Vm.new exAlphabet).run (exOps ++ [.build exOrders]) = .ok m ∧
    m.findVariantsAt 4 exExt exConfig exParams ['a', '?'] = .error .expect ∧
    (m.findVariantsAt 3 exExt exConfig exParams ['a', '?']).toOption.isSome = true ∧
    (m.findVariantsAt 4 exExt exConfig exParams ['a', 'b']).toOption.isSome = true ∧
    (m.findVariantsAt 4 exExt exConfig exParams ['?']).toOption.isSome = true :=
  ⟨_, rfl, by decide +kernel, by decide +kernel, by decide +kernel, by decide +kernel⟩

example : ∃ m, (Vm.new exAlphabet).run (exOps ++ [.build exOrders]) = .ok m ∧
    MeetsUnknown exAlphabet m .exhaustive 2 [0, 3] :=
  ⟨_, rfl, by decide +kernel, by decide, by decide, by decide, fun h => by cases h.1⟩

end Verif.Props
