import Verif.Spec.Readers

/-!
# C124: reading line by line ends if the reader does

The loops that skip what cannot be read end when the reader reports its end, with the result that the model has
for the finite list of lines; if the reader goes on reporting errors, they do not end.  The loops of the learn
and search modes and of queries with threads end at the first error.
-/
namespace Verif.Props
open Verif.Model Verif.Spec

/-- A request as a line of a file. -/
def asLine (r : Reader) (i : Nat) : Option (List Char) :=
  match r i with | .line l => some l | _ => none

/-- The requests from `p` on, `k` of them. -/
def window (r : Reader) (p k : Nat) : List (Option (List Char)) := (List.range' p k).map (asLine r)

theorem window_succ (r : Reader) (p k : Nat) : window r p (k + 1) = asLine r p :: window r (p + 1) k := by
  simp [window, List.range'_succ]

theorem given_window (r : Reader) (n : Nat) : given r n = window r 0 n := by
  simp only [given, window, List.range_eq_range']; rfl

/-- The loop over lines that skips what cannot be read, for a list. -/
def foldReadable {σ : Type} (body : σ → List Char → Res (σ × Bool)) : σ → List (Option (List Char)) → Res (σ × Bool)
  | s, [] => .ok (s, true)
  | s, none :: ls => foldReadable body s ls
  | s, some l :: ls =>
    match body s l with
    | .error e => .error e
    | .ok (s, true) => foldReadable body s ls
    | .ok (s, false) => .ok (s, false)

theorem forReadable_window {σ : Type} (r : Reader) (body : σ → List Char → Res (σ × Bool)) :
    ∀ (k p : Nat) (s : σ) (fuel : Nat), (∀ i, p ≤ i → i < p + k → r i ≠ .eof) → r (p + k) = .eof → k < fuel →
      forReadable r body fuel p s = some (foldReadable body s (window r p k))
  | 0, p, s, fuel + 1, _, he, _ => by
    simp only [Nat.add_zero] at he
    simp [forReadable, he, window, foldReadable]
  | k + 1, p, s, fuel + 1, hb, he, hf => by
    have ih := fun s' => forReadable_window r body k (p + 1) s' fuel
      (fun i h1 h2 => hb i (by omega) (by omega)) (by rw [← he]; congr 1; omega) (by omega)
    rw [window_succ]
    cases hr : r p with
    | eof => exact absurd hr (hb p (by omega) (by omega))
    | failed => simp only [forReadable, hr, asLine, foldReadable]; exact ih s
    | line l =>
      simp only [forReadable, hr, asLine, foldReadable]
      rcases body s l with e | ⟨s', b⟩
      · rfl
      · cases b
        · rfl
        · exact ih s'

/-- If the loop ends, then because the reader reports its end, or because of a line. -/
theorem forReadable_ends {σ : Type} (r : Reader) (body : σ → List Char → Res (σ × Bool)) :
    ∀ (fuel p : Nat) (s : σ) (a : Res (σ × Bool)), forReadable r body fuel p s = some a →
      (∃ k, r (p + k) = .eof ∧ ∀ i, p ≤ i → i < p + k → r i ≠ .eof) ∨
      ∃ k, ∀ s', foldReadable body s (window r p k) ≠ .ok (s', true)
  | 0, _, _, _, h => by simp [forReadable] at h
  | fuel + 1, p, s, a, h => by
    have key : ∀ s' a, r p ≠ .eof → forReadable r body fuel (p + 1) s' = some a →
        (∀ k s'', foldReadable body s (window r p (k + 1)) = .ok (s'', true) →
          foldReadable body s' (window r (p + 1) k) = .ok (s'', true)) →
        (∃ k, r (p + k) = .eof ∧ ∀ i, p ≤ i → i < p + k → r i ≠ .eof) ∨
        ∃ k, ∀ s', foldReadable body s (window r p k) ≠ .ok (s', true) := by
      intro s' a hne h hk
      rcases forReadable_ends r body fuel (p + 1) s' a h with ⟨k, he, hb⟩ | ⟨k, hn⟩
      · refine .inl ⟨k + 1, by rw [← he]; congr 1; omega, fun i h1 h2 => ?_⟩
        rcases Nat.eq_or_lt_of_le h1 with rfl | h1
        · exact hne
        · exact hb i h1 (by omega)
      · exact .inr ⟨k + 1, fun s'' hs => hn s'' (hk k s'' hs)⟩
    cases hr : r p with
    | eof => exact .inl ⟨0, hr, fun i h1 h2 => by omega⟩
    | failed =>
      simp only [forReadable, hr] at h
      refine key s a (by simp [hr]) h fun k s'' hs => ?_
      rw [window_succ] at hs
      simpa only [asLine, hr, foldReadable] using hs
    | line l =>
      simp only [forReadable, hr] at h
      rcases hb : body s l with e | ⟨s', b⟩
      · refine .inr ⟨1, fun s' hs => ?_⟩
        rw [window_succ] at hs
        simp [asLine, hr, foldReadable, hb] at hs
      · cases b
        · refine .inr ⟨1, fun s'' hs => ?_⟩
          rw [window_succ] at hs
          simp [asLine, hr, foldReadable, hb] at hs
        · rw [hb] at h
          refine key s' a (by simp [hr]) h fun k s'' hs => ?_
          rw [window_succ] at hs
          simpa only [asLine, hr, foldReadable, hb] using hs

/-- If a line ends the loop, then it ends. -/
theorem forReadable_stops {σ : Type} (r : Reader) (body : σ → List Char → Res (σ × Bool)) :
    ∀ (k p : Nat) (s : σ), (∀ i, p ≤ i → r i ≠ .eof) →
      (∀ s', foldReadable body s (window r p k) ≠ .ok (s', true)) → ∃ fuel a, forReadable r body fuel p s = some a
  | 0, p, s, _, h => absurd rfl (h s)
  | k + 1, p, s, hb, h => by
    have ih := fun s' => forReadable_stops r body k (p + 1) s' (fun i hi => hb i (by omega))
    rw [window_succ] at h
    cases hr : r p with
    | eof => exact absurd hr (hb p (by omega))
    | failed =>
      simp only [asLine, hr, foldReadable] at h
      obtain ⟨fuel, a, ha⟩ := ih s h
      exact ⟨fuel + 1, a, by simp only [forReadable, hr]; exact ha⟩
    | line l =>
      simp only [asLine, hr, foldReadable] at h
      rcases hbd : body s l with e | ⟨s', b⟩
      · exact ⟨1, .error e, by simp [forReadable, hr, hbd]⟩
      · cases b
        · exact ⟨1, .ok (s', false), by simp [forReadable, hr, hbd]⟩
        · rw [hbd] at h
          obtain ⟨fuel, a, ha⟩ := ih s' h
          exact ⟨fuel + 1, a, by simp only [forReadable, hr, hbd]; exact ha⟩

theorem forReadable_endsWith {σ : Type} {r : Reader} {n : Nat} (h : EndsAt r n)
    (body : σ → List Char → Res (σ × Bool)) (s : σ) :
    EndsWith (fun fuel => forReadable r body fuel 0 s) n (foldReadable body s (given r n)) := by
  intro fuel hf
  rw [given_window]
  exact forReadable_window r body n 0 s fuel (fun i _ hi => h.2 i (by omega)) (by simpa using h.1) hf

theorem forReadable_iff {σ : Type} (r : Reader) (body : σ → List Char → Res (σ × Bool)) (s : σ) :
    Ends (fun fuel => forReadable r body fuel 0 s) ↔
      (∃ n, EndsAt r n) ∨ ∃ n, ∀ s', foldReadable body s (given r n) ≠ .ok (s', true) := by
  constructor
  · rintro ⟨fuel, a, h⟩
    rcases forReadable_ends r body fuel 0 s a h with ⟨k, he, hb⟩ | ⟨k, hn⟩
    · exact .inl ⟨k, by simpa using he, fun i hi => hb i (by omega) (by omega)⟩
    · exact .inr ⟨k, by rw [given_window]; exact hn⟩
  · intro h
    by_cases hc : ∃ n, EndsAt r n
    · obtain ⟨n, hn⟩ := hc
      exact ⟨n + 1, _, forReadable_endsWith hn body s (n + 1) (by omega)⟩
    · obtain ⟨n, hn⟩ := h.resolve_left hc
      rw [given_window] at hn
      refine forReadable_stops r body n 0 s (fun i _ hi => hc ?_) hn
      classical
      have hex : ∃ i, r i = .eof := ⟨i, hi⟩
      exact ⟨Nat.find hex, Nat.find_spec hex, fun j hj => Nat.find_min hex hj⟩

/-! ## The loops of the model -/

theorem readAlphabet_fold (isSpace : Char → Bool) : ∀ (ls : List (Option (List Char))) (a : Alphabet),
    foldReadable (fun alphabet line => .ok (if line.isEmpty then alphabet
      else alphabet ++ [(splitChar '\t' line).filterMap (alphabetField isSpace)], true)) a ls
      = .ok (readAlphabet isSpace a ls, true)
  | [], _ => rfl
  | none :: ls, a => by simp only [foldReadable, readAlphabet]; exact readAlphabet_fold isSpace ls a
  | some l :: ls, a => by simp only [foldReadable, readAlphabet]; exact readAlphabet_fold isSpace ls _

theorem readVocab_fold (params : VocabParams) : ∀ (ls : List (Option (List Char))) (m : Vm),
    foldReadable (fun m line => noReturn (m.readVocabLine params line)) m ls
      = (m.readVocabLines params ls).map fun m => (m, true)
  | [], _ => rfl
  | none :: ls, m => by simp only [foldReadable, Vm.readVocabLines]; exact readVocab_fold params ls m
  | some l :: ls, m => by
    simp only [foldReadable, Vm.readVocabLines, noReturn]
    rcases m.readVocabLine params l with e | m'
    · rfl
    · exact readVocab_fold params ls m'

theorem readVariant_fold (f : List Char → Option Rat) (params vp : VocabParams) :
    ∀ (ls : List (Option (List Char))) (s : Vm × Option Bool),
    (foldReadable (fun s line => noReturn (s.1.readVariantLine f params vp s.2 line)) s ls).map (fun s => (s.1.1, s.2))
      = (s.1.readVariantLines f params vp s.2 ls).map fun m => (m, true)
  | [], _ => rfl
  | none :: ls, s => by simp only [foldReadable, Vm.readVariantLines]; exact readVariant_fold f params vp ls s
  | some l :: ls, s => by
    simp only [foldReadable, Vm.readVariantLines, noReturn]
    rcases s.1.readVariantLine f params vp s.2 l with e | s'
    · rfl
    · exact readVariant_fold f params vp ls s'

theorem readConfusables_fold (x : LoadExt) : ∀ (ls : List (Option (List Char))) (cs : List Confusable),
    foldReadable (fun cs line =>
      if line.isEmpty then .ok (cs, true)
      else do
        let fields := splitChar '\t' line
        let weight ← confusableWeight x.parseF64 fields
        let c ← Confusable.new x.parseScript (fields[0]?.getD []) weight
        match c with
        | none => return (cs, false)
        | some c => return (cs ++ [c], true)) cs ls = readConfusables x cs ls
  | [], _ => rfl
  | none :: ls, cs => by simp only [foldReadable, readConfusables]; exact readConfusables_fold x ls cs
  | some l :: ls, cs => by
    simp only [foldReadable, readConfusables]
    by_cases hl : l.isEmpty
    · simp only [hl, if_true]; exact readConfusables_fold x ls cs
    · simp only [hl]
      rcases confusableWeight x.parseF64 (splitChar '\t' l) with e | w
      · rfl
      · rcases hc : Confusable.new x.parseScript ((splitChar '\t' l)[0]?.getD []) w with e | c
        · simp [bind, Except.bind, hc]
        · rcases c with _ | c
          · simp [bind, Except.bind, hc, pure, Except.pure]
          · simp only [bind, Except.bind, hc, pure, Except.pure]
            exact readConfusables_fold x ls _

theorem readRules_fold (env : RuleEnv) (f : List Char → Option Rat) :
    ∀ (ls : List (Option (List Char))) (b : RuleBook),
    foldReadable (fun b line => b.readLine env f line) b ls = b.read env f ls
  | [], _ => rfl
  | none :: ls, b => by simp only [foldReadable, RuleBook.read]; exact readRules_fold env f ls b
  | some l :: ls, b => by
    simp only [foldReadable, RuleBook.read]
    rcases b.readLine env f l with e | ⟨b', ok⟩
    · rfl
    · cases ok
      · rfl
      · exact readRules_fold env f ls b'

theorem process_fold (o : Printer) (find : List Char → Res (List VariantResult)) (json : Bool) :
    ∀ (ls : List (Option (List Char))) (k : Nat) (t : List Char),
    (foldReadable (fun s input => do
      let variants ← find input
      let u ← o.query json input variants (s.1 + 1)
      return ((s.1 + 1, s.2 ++ u), true)) (k, t) ls).map (fun s => (s.1.2, s.2))
      = (o.process find json k ls).map fun u => (t ++ u, true)
  | [], _, t => by simp [foldReadable, Printer.process, Except.map]
  | none :: ls, k, t => by simp only [foldReadable, Printer.process]; exact process_fold o find json ls k t
  | some l :: ls, k, t => by
    simp only [foldReadable, Printer.process]
    rcases find l with e | vs
    · rfl
    · rcases hq : o.query json l vs (k + 1) with e | u
      · simp [bind, Except.bind, hq, Except.map]
      · simp only [bind, Except.bind, hq, pure, Except.pure]
        have ih := process_fold o find json ls (k + 1) (t ++ u)
        simp only [bind, Except.bind, pure, Except.pure] at ih
        rw [ih]
        rcases o.process find json (k + 1) ls with e | v
        · rfl
        · simp [Except.map]

theorem testinput_fold (m : Vm) : ∀ (ls : List (Option (List Char))) (t : List Char),
    foldReadable (fun s input => do
      let u ← m.testinputLine input
      return (s ++ u, true)) t ls = (m.testinputLines ls).map fun u => (t ++ u, true)
  | [], t => by simp [foldReadable, Vm.testinputLines, Except.map]
  | none :: ls, t => by simp only [foldReadable, Vm.testinputLines]; exact testinput_fold m ls t
  | some l :: ls, t => by
    simp only [foldReadable, Vm.testinputLines]
    rcases m.testinputLine l with e | u
    · rfl
    · simp only [bind, Except.bind, pure, Except.pure]
      have ih := testinput_fold m ls (t ++ u)
      simp only [bind, Except.bind, pure, Except.pure] at ih
      rw [ih]
      rcases m.testinputLines ls with e | v
      · rfl
      · simp [Except.map]

/-! ## C124 -/

/-- A reader that reports its end is a file: every loop that skips what cannot be read ends after as many
requests, with the result that it has for the list of lines. -/
theorem reading_gives (r : Reader) (n : Nat) (h : EndsAt r n) (isSpace : Char → Bool) (a : Alphabet) (m : Vm)
    (params vp : VocabParams) (parseF64 parseF32 : List Char → Option Rat) (x : LoadExt) (cs : List Confusable)
    (env : RuleEnv) (b : RuleBook) (o : Printer) (find : List Char → Res (List VariantResult)) (json : Bool) :
    EndsWith (fun fuel => readAlphabetFrom r isSpace fuel a) n (.ok (readAlphabet isSpace a (given r n), true)) ∧
    EndsWith (fun fuel => m.readVocabLinesFrom r params fuel) n
      ((m.readVocabLines params (given r n)).map fun m => (m, true)) ∧
    EndsWith (fun fuel => (m.readVariantLinesFrom r parseF64 params vp fuel).map (Except.map fun s => (s.1.1, s.2))) n
      ((m.readVariantLines parseF64 params vp none (given r n)).map fun m => (m, true)) ∧
    EndsWith (fun fuel => readConfusablesFrom r x fuel cs) n (readConfusables x cs (given r n)) ∧
    EndsWith (fun fuel => b.readFrom r env parseF32 fuel) n (b.read env parseF32 (given r n)) ∧
    EndsWith (fun fuel => (o.processFrom r find json fuel).map (Except.map fun s => (s.1.2, s.2))) n
      ((o.process find json 0 (given r n)).map fun s => (s, true)) ∧
    EndsWith (fun fuel => m.testinputFrom r fuel) n ((m.testinputLines (given r n)).map fun s => (s, true)) := by
  refine ⟨?_, ?_, ?_, ?_, ?_, ?_, ?_⟩
  · rw [← readAlphabet_fold]; exact forReadable_endsWith h _ _
  · rw [← readVocab_fold]; exact forReadable_endsWith h _ _
  · intro fuel hf
    have := forReadable_endsWith h (fun (s : Vm × Option Bool) line =>
      noReturn (s.1.readVariantLine parseF64 params vp s.2 line)) (m, none) fuel hf
    simp only at this ⊢
    rw [Vm.readVariantLinesFrom, this, Option.map_some, readVariant_fold]
  · rw [← readConfusables_fold]; exact forReadable_endsWith h _ _
  · rw [← readRules_fold]; exact forReadable_endsWith h _ _
  · intro fuel hf
    have := forReadable_endsWith h (fun (s : Nat × List Char) input => do
      let variants ← find input
      let u ← o.query json input variants (s.1 + 1)
      return ((s.1 + 1, s.2 ++ u), true)) (0, []) fuel hf
    simp only at this ⊢
    rw [Printer.processFrom, this, Option.map_some, process_fold]
    simp
  · have := testinput_fold m (given r n) []
    simp only [List.nil_append] at this
    rw [← this]; exact forReadable_endsWith h _ _

theorem map_pair_ne {α : Type} (r : Res α) :
    (∀ s', r.map (fun m => (m, true)) ≠ .ok (s', true)) ↔ ∃ e, r = .error e := by
  rcases r with e | a
  · simp [Except.map]
  · simp only [Except.map, reduceCtorEq, exists_false, iff_false, not_forall, not_not]
    exact ⟨a, rfl⟩

theorem map_fst_ne {α β : Type} {q : Res (α × Bool)} {f : α → β} {t : Res (β × Bool)}
    (h : q.map (fun s => (f s.1, s.2)) = t) :
    (∀ s', q ≠ .ok (s', true)) ↔ ∀ s', t ≠ .ok (s', true) := by
  subst h
  rcases q with e | ⟨a, b⟩
  · simp [Except.map]
  · cases b <;> simp [Except.map]

/-- Exactly when the loops that skip what cannot be read end, for every reader: if it reports its end, or if a line
before makes the loop panic or return an error. -/
theorem reading_ends_iff (r : Reader) (isSpace : Char → Bool) (a : Alphabet) (m : Vm)
    (params vp : VocabParams) (parseF64 parseF32 : List Char → Option Rat) (x : LoadExt) (cs : List Confusable)
    (env : RuleEnv) (b : RuleBook) (o : Printer) (find : List Char → Res (List VariantResult)) (json : Bool) :
    (Ends (fun fuel => readAlphabetFrom r isSpace fuel a) ↔ ∃ n, EndsAt r n) ∧
    (Ends (fun fuel => m.readVocabLinesFrom r params fuel) ↔
      (∃ n, EndsAt r n) ∨ ∃ n e, m.readVocabLines params (given r n) = .error e) ∧
    (Ends (fun fuel => m.readVariantLinesFrom r parseF64 params vp fuel) ↔
      (∃ n, EndsAt r n) ∨ ∃ n e, m.readVariantLines parseF64 params vp none (given r n) = .error e) ∧
    (Ends (fun fuel => readConfusablesFrom r x fuel cs) ↔
      (∃ n, EndsAt r n) ∨ ∃ n, ∀ cs', readConfusables x cs (given r n) ≠ .ok (cs', true)) ∧
    (Ends (fun fuel => b.readFrom r env parseF32 fuel) ↔
      (∃ n, EndsAt r n) ∨ ∃ n, ∀ b', b.read env parseF32 (given r n) ≠ .ok (b', true)) ∧
    (Ends (fun fuel => o.processFrom r find json fuel) ↔
      (∃ n, EndsAt r n) ∨ ∃ n e, o.process find json 0 (given r n) = .error e) ∧
    (Ends (fun fuel => m.testinputFrom r fuel) ↔
      (∃ n, EndsAt r n) ∨ ∃ n e, m.testinputLines (given r n) = .error e) := by
  refine ⟨?_, ?_, ?_, ?_, ?_, ?_, ?_⟩
  · refine (forReadable_iff r _ _).trans ⟨?_, .inl⟩
    rintro (h | ⟨n, hn⟩)
    · exact h
    · exact absurd (readAlphabet_fold isSpace (given r n) a) (hn _)
  · refine (forReadable_iff r _ _).trans (or_congr_right (exists_congr fun n => ?_))
    rw [readVocab_fold]; exact map_pair_ne _
  · refine (forReadable_iff r _ _).trans (or_congr_right (exists_congr fun n => ?_))
    rw [map_fst_ne (f := Prod.fst) (readVariant_fold parseF64 params vp (given r n) (m, none))]
    exact map_pair_ne _
  · refine (forReadable_iff r _ _).trans (or_congr_right (exists_congr fun n => ?_))
    rw [← readConfusables_fold x (given r n) cs]; exact Iff.rfl
  · refine (forReadable_iff r _ _).trans (or_congr_right (exists_congr fun n => ?_))
    rw [readRules_fold]
  · refine (forReadable_iff r _ _).trans (or_congr_right (exists_congr fun n => ?_))
    rw [map_fst_ne (f := Prod.snd) (process_fold o find json (given r n) 0 [])]
    simp only [List.nil_append]
    exact map_pair_ne _
  · refine (forReadable_iff r _ _).trans (or_congr_right (exists_congr fun n => ?_))
    have := testinput_fold m (given r n) []
    simp only [List.nil_append] at this
    rw [this]; exact map_pair_ne _

theorem given_split (r : Reader) (n k : Nat) : given r (n + k) = given r n ++ window r n k := by
  simp only [given_window, window, ← List.map_append]
  congr 1
  have := List.range'_append_1 (s := 0) (m := n) (n := k)
  simp only [Nat.zero_add] at this
  exact this.symm

theorem window_failed {r : Reader} {n k : Nat} (h : ∀ i, n ≤ i → r i = .failed) :
    window r n k = List.replicate k none := by
  rw [List.eq_replicate_iff]
  refine ⟨by simp [window], fun b hb => ?_⟩
  obtain ⟨i, hi, rfl⟩ := List.mem_map.mp hb
  simp [asLine, h i (by simp at hi; omega)]

theorem foldReadable_none {σ : Type} (body : σ → List Char → Res (σ × Bool)) :
    ∀ (ls : List (Option (List Char))) (k : Nat) (s : σ),
      foldReadable body s (ls ++ List.replicate k none) = foldReadable body s ls
  | [], 0, s => rfl
  | [], k + 1, s => by
    rw [List.replicate_succ]; exact foldReadable_none body [] k s
  | none :: ls, k, s => by simpa only [List.cons_append, foldReadable] using foldReadable_none body ls k s
  | some l :: ls, k, s => by
    simp only [List.cons_append, foldReadable]
    rcases body s l with e | ⟨s', b⟩
    · rfl
    · cases b
      · rfl
      · exact foldReadable_none body ls k s'

theorem foldReadable_prefix {σ : Type} (body : σ → List Char → Res (σ × Bool)) :
    ∀ (ls ks : List (Option (List Char))) (s s' : σ),
      foldReadable body s (ls ++ ks) = .ok (s', true) → ∃ s'', foldReadable body s ls = .ok (s'', true)
  | [], _, s, _, _ => ⟨s, rfl⟩
  | none :: ls, ks, s, s', h => foldReadable_prefix body ls ks s s' (by simpa only [List.cons_append, foldReadable] using h)
  | some l :: ls, ks, s, s', h => by
    simp only [List.cons_append, foldReadable] at h ⊢
    rcases hb : body s l with e | ⟨t, b⟩
    · simp [hb] at h
    · cases b
      · simp [hb] at h
      · rw [hb] at h; exact foldReadable_prefix body ls ks t s' h

/-- A loop that skips what cannot be read does not end if the reader goes on failing and no line before ended it. -/
theorem forReadable_endless {σ : Type} {r : Reader} {n : Nat} (h : KeepsFailing r n)
    (body : σ → List Char → Res (σ × Bool)) (s s' : σ) (hs : foldReadable body s (given r n) = .ok (s', true)) :
    ¬ Ends (fun fuel => forReadable r body fuel 0 s) := by
  rw [forReadable_iff]
  rintro (⟨k, he, _⟩ | ⟨k, hk⟩)
  · rcases Nat.lt_or_ge k n with hlt | hge
    · exact h.1 k hlt he
    · rw [h.2 k hge] at he; exact absurd he (by simp)
  · rcases Nat.le_or_ge k n with hle | hge
    · obtain ⟨j, rfl⟩ := Nat.exists_eq_add_of_le hle
      rw [given_split] at hs
      obtain ⟨t, ht⟩ := foldReadable_prefix body _ _ s s' hs
      exact hk t ht
    · obtain ⟨j, rfl⟩ := Nat.exists_eq_add_of_le hge
      rw [given_split, window_failed h.2, foldReadable_none] at hk
      exact hk s' hs

/-- If the reader goes on failing, none of the loops that skip what cannot be read ends, unless a line before ended
it.  A directory given in place of a file makes the tool hang. -/
theorem failing_reader_hangs (r : Reader) (n : Nat) (h : KeepsFailing r n) (isSpace : Char → Bool) (a : Alphabet)
    (m : Vm) (params vp : VocabParams) (parseF64 parseF32 : List Char → Option Rat) (x : LoadExt)
    (cs : List Confusable) (env : RuleEnv) (b : RuleBook) (o : Printer)
    (find : List Char → Res (List VariantResult)) (json : Bool) :
    ¬ Ends (fun fuel => readAlphabetFrom r isSpace fuel a) ∧
    (∀ m', m.readVocabLines params (given r n) = .ok m' → ¬ Ends (fun fuel => m.readVocabLinesFrom r params fuel)) ∧
    (∀ m', m.readVariantLines parseF64 params vp none (given r n) = .ok m' →
      ¬ Ends (fun fuel => m.readVariantLinesFrom r parseF64 params vp fuel)) ∧
    (∀ cs', readConfusables x cs (given r n) = .ok (cs', true) → ¬ Ends (fun fuel => readConfusablesFrom r x fuel cs)) ∧
    (∀ b', b.read env parseF32 (given r n) = .ok (b', true) → ¬ Ends (fun fuel => b.readFrom r env parseF32 fuel)) ∧
    (∀ s, o.process find json 0 (given r n) = .ok s → ¬ Ends (fun fuel => o.processFrom r find json fuel)) ∧
    (∀ s, m.testinputLines (given r n) = .ok s → ¬ Ends (fun fuel => m.testinputFrom r fuel)) := by
  refine ⟨forReadable_endless h _ _ _ (readAlphabet_fold isSpace _ a), fun m' hm => ?_, fun m' hm => ?_,
    fun cs' hc => ?_, fun b' hb => ?_, fun s hs => ?_, fun s hs => ?_⟩
  · exact forReadable_endless h _ _ m' (by rw [readVocab_fold, hm]; rfl)
  · have := readVariant_fold parseF64 params vp (given r n) (m, none)
    rw [hm] at this
    rcases hq : foldReadable (fun (s : Vm × Option Bool) line =>
      noReturn (s.1.readVariantLine parseF64 params vp s.2 line)) (m, none) (given r n) with e | ⟨s, b⟩
    · simp [hq, Except.map] at this
    · simp only [hq, Except.map, Except.ok.injEq, Prod.mk.injEq] at this
      exact forReadable_endless h _ _ s (by rw [hq, this.2])
  · exact forReadable_endless h _ _ cs' ((readConfusables_fold x (given r n) cs).trans hc)
  · exact forReadable_endless h _ _ b' ((readRules_fold env parseF32 (given r n) b).trans hb)
  · have := process_fold o find json (given r n) 0 []
    rw [hs] at this
    rcases hq : foldReadable (fun (s : Nat × List Char) input => do
      let variants ← find input
      let u ← o.query json input variants (s.1 + 1)
      return ((s.1 + 1, s.2 ++ u), true)) (0, []) (given r n) with e | ⟨s, b⟩
    · rw [hq] at this; simp [Except.map] at this
    · rw [hq] at this
      simp only [Except.map, Except.ok.injEq, Prod.mk.injEq] at this
      exact forReadable_endless h _ _ s (by rw [hq, this.2])
  · have := testinput_fold m (given r n) []
    rw [hs] at this
    exact forReadable_endless h _ _ _ this

/-! ## The loops that end at an error -/

/-- The requests from `p` on up to the first that is not a line. -/
def tailTo (r : Reader) (p k : Nat) : List (Option (List Char)) :=
  window r p k ++ if r (p + k) = .failed then [none] else []

theorem tailTo_succ (r : Reader) (p k : Nat) : tailTo r p (k + 1) = asLine r p :: tailTo r (p + 1) k := by
  rw [tailTo, window_succ, tailTo]
  have : p + (k + 1) = p + 1 + k := by omega
  rw [this]; rfl

theorem upTo_tailTo (r : Reader) (n : Nat) : upTo r n = tailTo r 0 n := by
  rw [upTo, tailTo, given_window, Nat.zero_add]

theorem length_tailTo (r : Reader) (p k : Nat) : k ≤ (tailTo r p k).length := by simp [tailTo, window]

theorem linesFrom_tailTo (r : Reader) : ∀ (k p fuel : Nat) (acc : List (List Char)),
    (∀ i, p ≤ i → i < p + k → ∃ l, r i = .line l) → (∀ l, r (p + k) ≠ .line l) → k < fuel →
      linesFrom r fuel p acc = some (acc ++ linesUntilError (tailTo r p k))
  | 0, p, fuel + 1, acc, _, hn, _ => by
    simp only [Nat.add_zero] at hn
    cases hr : r p with
    | line l => exact absurd hr (hn l)
    | eof => simp [linesFrom, hr, tailTo, window, linesUntilError]
    | failed => simp [linesFrom, hr, tailTo, window, linesUntilError]
  | k + 1, p, fuel + 1, acc, hl, hn, hf => by
    obtain ⟨l, hr⟩ := hl p (by omega) (by omega)
    rw [tailTo_succ]
    simp only [linesFrom, hr, asLine, linesUntilError]
    rw [linesFrom_tailTo r k (p + 1) fuel (acc ++ [l]) (fun i h1 h2 => hl i (by omega) (by omega))
      (by have : p + 1 + k = p + (k + 1) := by omega
          rw [this]; exact hn) (by omega)]
    simp

/-- A batch of lines, from the reader and from the list. -/
theorem readBatchFrom_tailTo (r : Reader) : ∀ (n k p : Nat),
    (∀ i, p ≤ i → i < p + k → ∃ l, r i = .line l) → (∀ l, r (p + k) ≠ .line l) →
    (∃ e, readBatchFrom r n p = .error e ∧ readBatch n (tailTo r p k) = .error e) ∨
    (∃ b i rest, readBatchFrom r n p = .ok (b, i, true) ∧ readBatch n (tailTo r p k) = .ok (b, rest, true)) ∨
    (∃ b, n ≤ k ∧ readBatchFrom r n p = .ok (b, p + n, false) ∧
      readBatch n (tailTo r p k) = .ok (b, tailTo r (p + n) (k - n), false))
  | 0, k, p, _, _ => .inr (.inr ⟨[], by omega, rfl, by simp [readBatch]⟩)
  | n + 1, 0, p, _, hn => by
    simp only [Nat.add_zero] at hn
    cases hr : r p with
    | line l => exact absurd hr (hn l)
    | eof => exact .inr (.inl ⟨[], p + 1, [], by simp [readBatchFrom, hr], by simp [tailTo, window, hr, readBatch]⟩)
    | failed => exact .inl ⟨.expect, by simp [readBatchFrom, hr], by simp [tailTo, window, hr, readBatch]⟩
  | n + 1, k + 1, p, hl, hn => by
    obtain ⟨l, hr⟩ := hl p (by omega) (by omega)
    have ih := readBatchFrom_tailTo r n k (p + 1) (fun i h1 h2 => hl i (by omega) (by omega))
      (by have : p + 1 + k = p + (k + 1) := by omega
          rw [this]; exact hn)
    rw [tailTo_succ]
    simp only [readBatchFrom, hr, asLine, readBatch]
    rcases ih with ⟨e, h1, h2⟩ | ⟨b, i, rest, h1, h2⟩ | ⟨b, hle, h1, h2⟩
    · exact .inl ⟨e, by rw [h1]; rfl, by rw [h2]; rfl⟩
    · exact .inr (.inl ⟨l :: b, i, rest, by rw [h1]; rfl, by rw [h2]; rfl⟩)
    · refine .inr (.inr ⟨l :: b, by omega, by rw [h1]; simp [bind, Except.bind, pure, Except.pure]; omega, ?_⟩)
      rw [h2]
      have e1 : p + 1 + n = p + (n + 1) := by omega
      have e2 : k + 1 - (n + 1) = k - n := by omega
      rw [e1, e2]; rfl

theorem parFrom_tailTo (o : Printer) (r : Reader) (find : List Char → Res (List VariantResult))
    (sched : Nat → List Nat) (json : Bool) : ∀ (fuel fuel' k p seqnr : Nat) (t : List Char),
    (∀ i, p ≤ i → i < p + k → ∃ l, r i = .line l) → (∀ l, r (p + k) ≠ .line l) → k < fuel → k < fuel' →
      o.parFrom r find sched json fuel p seqnr t
        = some ((o.parLoop find sched json fuel' seqnr (tailTo r p k)).map fun s => t ++ s)
  | fuel + 1, fuel' + 1, k, p, seqnr, t, hl, hn, hf, hf' => by
    simp only [Printer.parFrom, Printer.parLoop]
    rcases readBatchFrom_tailTo r maxBatchsize k p hl hn with ⟨e, h1, h2⟩ | ⟨b, i, rest, h1, h2⟩ | ⟨b, hle, h1, h2⟩
    · rw [h1, h2]; rfl
    · rw [h1, h2]
      simp only [bind, Except.bind]
      rcases collectPar _ (sched b.length) b with e | out
      · rfl
      · simp only
        rcases o.printBatch json seqnr out with e | s
        · rfl
        · rfl
    · rw [h1, h2]
      simp only [bind, Except.bind]
      rcases collectPar _ (sched b.length) b with e | out
      · rfl
      · simp only
        rcases o.printBatch json seqnr out with e | s
        · rfl
        · simp only [pure, Except.pure]
          have hb : maxBatchsize = 1000 := rfl
          have ih := parFrom_tailTo o r find sched json fuel fuel' (k - maxBatchsize) (p + maxBatchsize)
            (seqnr + out.length) (t ++ s) (fun i h1 h2 => hl i (by omega) (by omega))
            (by have : p + maxBatchsize + (k - maxBatchsize) = p + k := by omega
                rw [this]; exact hn) (by omega) (by omega)
          simp only [Bool.false_eq_true, if_false]
          rw [ih]
          rcases o.parLoop find sched json fuel' (seqnr + out.length) _ with e | u
          · rfl
          · simp [Except.map]

/-- A batch of a search, from the reader and from the list. -/
theorem searchBatchFrom_tailTo (r : Reader) (sep : Char) (perLine : Bool) : ∀ (n j k p : Nat) (b : List Char),
    (∀ i, p ≤ i → i < p + k → ∃ l, r i = .line l) → (∀ l, r (p + k) ≠ .line l) →
    (∃ b' i rest, searchBatchFrom r sep perLine n j b p = (b', i, true) ∧
      searchBatch sep perLine n j b (tailTo r p k) = (b', rest, true)) ∨
    (∃ b' q, q ≤ k ∧ (0 < n → 0 < q) ∧ searchBatchFrom r sep perLine n j b p = (b', p + q, false) ∧
      searchBatch sep perLine n j b (tailTo r p k) = (b', tailTo r (p + q) (k - q), false))
  | 0, _, k, p, b, _, _ => .inr ⟨b, 0, by omega, by omega, rfl, by simp [searchBatch]⟩
  | n + 1, j, 0, p, b, _, hn => by
    simp only [Nat.add_zero] at hn
    cases hr : r p with
    | line l => exact absurd hr (hn l)
    | eof => exact .inl ⟨b, p + 1, [], by simp [searchBatchFrom, hr], by simp [tailTo, window, hr, searchBatch]⟩
    | failed => exact .inl ⟨b, p + 1, [], by simp [searchBatchFrom, hr], by simp [tailTo, window, hr, searchBatch]⟩
  | n + 1, j, k + 1, p, b, hl, hn => by
    obtain ⟨l, hr⟩ := hl p (by omega) (by omega)
    rw [tailTo_succ]
    simp only [searchBatchFrom, hr, asLine, searchBatch]
    by_cases hc : l.isEmpty = true ∨ perLine = true
    · simp only [hc, if_true]
      exact .inr ⟨_, 1, by omega, by omega, rfl, by simp⟩
    · simp only [hc, if_false]
      rcases searchBatchFrom_tailTo r sep perLine n (j + 1) k (p + 1)
        ((if j > 0 then b ++ [sep] else b) ++ l) (fun i h1 h2 => hl i (by omega) (by omega))
        (by have : p + 1 + k = p + (k + 1) := by omega
            rw [this]; exact hn) with ⟨b', i, rest, h1, h2⟩ | ⟨b', q, hq, _, h1, h2⟩
      · exact .inl ⟨b', i, rest, h1, h2⟩
      · refine .inr ⟨b', q + 1, by omega, by omega, ?_, ?_⟩
        · rw [h1]; congr 2; omega
        · rw [h2]
          have e1 : p + 1 + q = p + (q + 1) := by omega
          have e2 : k + 1 - (q + 1) = k - q := by omega
          rw [e1, e2]

theorem searchBatchesFrom_tailTo (r : Reader) (sep : Char) (perLine : Bool) :
    ∀ (fuel fuel' k p : Nat) (bs : List (List Char)),
    (∀ i, p ≤ i → i < p + k → ∃ l, r i = .line l) → (∀ l, r (p + k) ≠ .line l) → k < fuel → k < fuel' →
      ∃ bs', searchBatchesFrom r sep perLine fuel p bs = some (bs ++ bs') ∧
        searchBatches sep perLine fuel' (tailTo r p k) = some bs'
  | fuel + 1, fuel' + 1, k, p, bs, hl, hn, hf, hf' => by
    simp only [searchBatchesFrom, searchBatches]
    rcases searchBatchFrom_tailTo r sep perLine maxBatchsizeSearch 0 k p [] hl hn with
      ⟨b, i, rest, h1, h2⟩ | ⟨b, q, hq, hpos, h1, h2⟩
    · rw [h1, h2]; exact ⟨[b], rfl, rfl⟩
    · have hq0 := hpos (by decide)
      rw [h1, h2]
      obtain ⟨bs', e1, e2⟩ := searchBatchesFrom_tailTo r sep perLine fuel fuel' (k - q) (p + q) (bs ++ [b])
        (fun i h1 h2 => hl i (by omega) (by omega))
        (by have : p + q + (k - q) = p + k := by omega
            rw [this]; exact hn) (by omega) (by omega)
      refine ⟨b :: bs', ?_, ?_⟩
      · simp only [Bool.false_eq_true, if_false]; rw [e1]; simp
      · simp only [Bool.false_eq_true, if_false]; rw [e2]; rfl

/-- Learning, searching and queries with threads end at the first request that does not give a line, with the result
that the model has for the lines up to there, even if the reader would go on failing. -/
theorem first_failure_ends (r : Reader) (n : Nat) (h : FirstFailure r n) (o : Printer)
    (find : List Char → Res (List VariantResult)) (sched : Nat → List Nat) (json : Bool) (sep : Char) (perLine : Bool) :
    EndsWith (fun fuel => linesFrom r fuel 0 []) n (linesUntilError (upTo r n)) ∧
    EndsWith (fun fuel => o.parFrom r find sched json fuel 0 0 []) n (o.processPar find sched json (upTo r n)) ∧
    ∃ batches, EndsWith (fun fuel => searchBatchesFrom r sep perLine fuel 0 []) n batches ∧
      searchBatches sep perLine ((upTo r n).length + 1) (upTo r n) = some batches := by
  have hl : ∀ i, 0 ≤ i → i < 0 + n → ∃ l, r i = .line l := fun i _ hi => h.1 i (by omega)
  have hn : ∀ l, r (0 + n) ≠ .line l := by simpa using h.2
  have hlen := length_tailTo r 0 n
  rw [upTo_tailTo]
  refine ⟨fun fuel hf => ?_, fun fuel hf => ?_, ?_⟩
  · simpa using linesFrom_tailTo r n 0 fuel [] hl hn hf
  · have := parFrom_tailTo o r find sched json fuel ((tailTo r 0 n).length + 1) n 0 0 [] hl hn hf (by omega)
    simp only [List.nil_append] at this
    simp only [Printer.processPar]
    rw [this]
    rcases o.parLoop find sched json ((tailTo r 0 n).length + 1) 0 (tailTo r 0 n) with e | s <;> rfl
  · obtain ⟨bs, _, h2⟩ := searchBatchesFrom_tailTo r sep perLine (n + 1) ((tailTo r 0 n).length + 1) n 0 [] hl hn
      (by omega) (by omega)
    refine ⟨bs, fun fuel hf => ?_, h2⟩
    obtain ⟨bs', h1', h2'⟩ := searchBatchesFrom_tailTo r sep perLine fuel ((tailTo r 0 n).length + 1) n 0 [] hl hn
      hf (by omega)
    rw [h2] at h2'
    obtain rfl := Option.some.inj h2'
    simpa using h1'

/-! ## Examples -/

/-- A file with a line that cannot be read between two lines. -/
def exReader : Reader
  | 0 => .line "a\tA".toList
  | 1 => .failed
  | 2 => .line "b".toList
  | _ => .eof

/-- A directory. -/
def exDirectory : Reader := fun _ => .failed

/-- A disk that fails after two lines. -/
def exBroken : Reader
  | 0 => .line "ab".toList
  | 1 => .line "b".toList
  | _ => .failed

theorem exReader_ends : EndsAt exReader 3 := by
  refine ⟨rfl, fun i hi => ?_⟩
  match i, hi with
  | 0, _ | 1, _ | 2, _ => simp [exReader]

theorem exBroken_fails : KeepsFailing exBroken 2 := by
  refine ⟨fun i hi => ?_, fun i hi => ?_⟩
  · match i, hi with
    | 0, _ | 1, _ => simp [exBroken]
  · match i, hi with
    | i + 2, _ => rfl

theorem exBroken_first : FirstFailure exBroken 2 := by
  refine ⟨fun i hi => ?_, fun l => by simp [exBroken]⟩
  match i, hi with
  | 0, _ => exact ⟨_, rfl⟩
  | 1, _ => exact ⟨_, rfl⟩

-- the alphabet is read although a line of the file cannot be read
example : EndsWith (fun fuel => readAlphabetFrom exReader (· = ' ') fuel []) 3
    (.ok ([["a".toList, "A".toList], ["b".toList]], true)) :=
  (reading_gives exReader 3 exReader_ends (· = ' ') [] (Vm.new []) {} {} (fun _ => none) (fun _ => none)
    ⟨fun _ => none, (· = ' '), fun _ => none, fun _ => none, fun _ => none⟩ [] ⟨(· = ' '), [], []⟩ ⟨[], []⟩
    ⟨Vm.new [], [], Rounding.exact, fun _ => [], false, 0⟩ (fun _ => .ok []) false).1

-- reading an alphabet from a directory does not end
example (isSpace : Char → Bool) (a : Alphabet) : ¬ Ends (fun fuel => readAlphabetFrom exDirectory isSpace fuel a) := by
  rw [(reading_ends_iff exDirectory isSpace a (Vm.new []) {} {} (fun _ => none) (fun _ => none)
    ⟨fun _ => none, (· = ' '), fun _ => none, fun _ => none, fun _ => none⟩ [] ⟨(· = ' '), [], []⟩ ⟨[], []⟩
    ⟨Vm.new [], [], Rounding.exact, fun _ => [], false, 0⟩ (fun _ => .ok []) false).1]
  rintro ⟨n, h, _⟩
  exact absurd h (by simp [exDirectory])

-- reading a lexicon from a disk that fails does not end
example : ¬ Ends (fun fuel => Vm.readVocabLinesFrom exBroken {} fuel (Vm.new [["a".toList], ["b".toList]])) :=
  (failing_reader_hangs exBroken 2 exBroken_fails (· = ' ') [] (Vm.new [["a".toList], ["b".toList]]) {} {}
    (fun _ => none) (fun _ => none)
    ⟨fun _ => none, (· = ' '), fun _ => none, fun _ => none, fun _ => none⟩ [] ⟨(· = ' '), [], []⟩ ⟨[], []⟩
    ⟨Vm.new [], [], Rounding.exact, fun _ => [], false, 0⟩ (fun _ => .ok []) false).2.1 _ rfl

-- learning from it does: from the two lines
example : EndsWith (fun fuel => linesFrom exBroken fuel 0 []) 2 ["ab".toList, "b".toList] :=
  (first_failure_ends exBroken 2 exBroken_first ⟨Vm.new [], [], Rounding.exact, fun _ => [], false, 0⟩ (fun _ => .ok [])
    (fun n => List.range n) false ' ' false).1

end Verif.Props
