import Verif.Props.RunTotal
import Verif.Lemmas.LearnTotal

/-!
# Learning succeeds (C89)
-/
namespace Verif.Props

open Verif.Spec Verif.Model Verif.Lemmas

/-! ## Output -/

theorem variantsOf_total {o : Printer} (h : VariantsExist o.vm) {item : VocabValue}
    (hi : item ∈ o.vm.decoder) : ∃ vs, o.variantsOf (item.variants.getD []) = .ok vs := by
  have h := h item hi
  generalize item.variants.getD [] = refs at h
  induction refs with
  | nil => exact ⟨_, rfl⟩
  | cons r refs ih =>
    obtain ⟨vs, hvs⟩ := ih fun id s hs => h id s (List.mem_cons_of_mem _ hs)
    cases r with
    | variantOf _ _ => exact ⟨vs, hvs⟩
    | referenceFor id s =>
      obtain ⟨v, hv⟩ := vocab_total (h id s List.mem_cons_self)
      exact ⟨_, bind_ok.mpr ⟨v, hv, bind_ok.mpr ⟨vs, hvs, rfl⟩⟩⟩

theorem lexiconsTsv_total (b : Nat) : ∀ n i, i + n ≤ 64 → ∃ ls, lexiconsTsv b i n = .ok ls := by
  intro n
  induction n with
  | zero => intro i _; exact ⟨_, rfl⟩
  | succ n ih =>
    intro i h
    obtain ⟨ls, hl⟩ := ih (i + 1) (by omega)
    unfold lexiconsTsv
    rw [if_neg (by omega)]
    exact ⟨_, bind_ok.mpr ⟨ls, hl, rfl⟩⟩

theorem lexiconsJson_total (b : Nat) : ∀ n i, i + n ≤ 64 → ∃ ls, lexiconsJson b i n = .ok ls := by
  intro n
  induction n with
  | zero => intro i _; exact ⟨_, rfl⟩
  | succ n ih =>
    intro i h
    obtain ⟨ls, hl⟩ := ih (i + 1) (by omega)
    unfold lexiconsJson
    rw [if_neg (by omega)]
    exact ⟨_, bind_ok.mpr ⟨ls, hl, rfl⟩⟩

theorem writesAll_total {w : VocabValue → Rat → Res (List FileWrite)} (h : ∀ v s, ∃ l, w v s = .ok l)
    (vs : List (VocabValue × Rat)) : ∃ l, Printer.writesAll w vs = .ok l := by
  induction vs with
  | nil => exact ⟨_, rfl⟩
  | cons v vs ih =>
    obtain ⟨l, hl⟩ := h v.1 v.2
    obtain ⟨r, hr⟩ := ih
    exact ⟨_, bind_ok.mpr ⟨l, hl, bind_ok.mpr ⟨r, hr, rfl⟩⟩⟩

/-- What was learned can be printed or written to files. -/
theorem learned_total {o : Printer} (hl : o.vm.lexicons.length ≤ 32) (hv : VariantsExist o.vm)
    (json multi : Bool) : ∃ r, o.learned json multi = .ok r := by
  have vs : ∀ item ∈ o.vm.decoder, ∃ vs, o.variantsOf (item.variants.getD []) = .ok vs :=
    fun item hi => variantsOf_total hv hi
  have wt : ∀ v s, ∃ l, o.writesTsv v s = .ok l := by
    intro v s
    obtain ⟨ls, h⟩ := lexiconsTsv_total v.lexindex o.vm.lexicons.length 0 (by omega)
    exact ⟨_, bind_ok.mpr ⟨ls, h, rfl⟩⟩
  have wj : ∀ v s, ∃ l, o.writesJson v s = .ok l := by
    intro v s
    obtain ⟨ls, h⟩ := lexiconsJson_total v.lexindex o.vm.lexicons.length 0 (by omega)
    exact ⟨_, bind_ok.mpr ⟨ls, h, rfl⟩⟩
  clear hv
  have all : ∀ items : List VocabValue, (∀ item ∈ items, ∃ vs, o.variantsOf (item.variants.getD []) = .ok vs) →
      (∃ s, o.weightedTsv items = .ok s) ∧ (∃ s, o.weightedJsonLoop items = .ok s) ∧
      (∃ r, o.multiTsv items = .ok r) ∧ ∃ r, o.multiJsonLoop items = .ok r := by
    intro items
    induction items with
    | nil => intro _; exact ⟨⟨_, rfl⟩, ⟨_, rfl⟩, ⟨_, rfl⟩, ⟨_, rfl⟩⟩
    | cons item items ih =>
      intro h
      obtain ⟨us, hus⟩ := h item List.mem_cons_self
      obtain ⟨⟨a, ha⟩, ⟨b, hb⟩, ⟨c, hc⟩, ⟨d, hd⟩⟩ := ih fun i hi => h i (List.mem_cons_of_mem _ hi)
      obtain ⟨w1, hw1⟩ := writesAll_total wt us
      obtain ⟨w2, hw2⟩ := writesAll_total wj us
      exact ⟨⟨_, bind_ok.mpr ⟨us, hus, bind_ok.mpr ⟨a, ha, rfl⟩⟩⟩,
        ⟨_, bind_ok.mpr ⟨us, hus, bind_ok.mpr ⟨b, hb, rfl⟩⟩⟩,
        ⟨_, bind_ok.mpr ⟨us, hus, bind_ok.mpr ⟨w1, hw1, bind_ok.mpr ⟨c, hc, rfl⟩⟩⟩⟩,
        ⟨_, bind_ok.mpr ⟨us, hus, bind_ok.mpr ⟨w2, hw2, bind_ok.mpr ⟨d, hd, rfl⟩⟩⟩⟩⟩
  obtain ⟨⟨a, ha⟩, ⟨b, hb⟩, ⟨c, hc⟩, ⟨d, hd⟩⟩ := all _ vs
  cases json <;> cases multi
  · exact ⟨_, bind_ok.mpr ⟨a, ha, rfl⟩⟩
  · exact ⟨_, hc⟩
  · exact ⟨_, bind_ok.mpr ⟨_, bind_ok.mpr ⟨b, hb, rfl⟩, rfl⟩⟩
  · exact ⟨_, bind_ok.mpr ⟨d, hd, rfl⟩⟩

/-! ## Findings -/

/-- There are at most as many matches as bytes. -/
theorem matches_le_bytes {text : List Char} : ∀ {ms : List Match} (o : Nat),
    (∀ m ∈ ms, Faithful text m ∧ m.text ≠ [] ∧ o ≤ m.first) → ms.Pairwise (fun a b => a.last < b.first) →
    o ≤ byteLen text → ms.length + o ≤ byteLen text := by
  intro ms
  induction ms with
  | nil => intro o _ _ h; simpa using h
  | cons m ms ih =>
    intro o h hp _
    obtain ⟨⟨a, c, e1, e2, e3⟩, hne, ho⟩ := h m List.mem_cons_self
    obtain ⟨hp1, hp2⟩ := List.pairwise_cons.mp hp
    have hpos := byteLen_pos hne
    rw [byteLen_append] at e3
    have hlast : m.last ≤ byteLen text := by
      rw [e1, byteLen_append, byteLen_append]
      omega
    have := ih m.last (fun m' hm' => ⟨(h m' (List.mem_cons_of_mem _ hm')).1,
      (h m' (List.mem_cons_of_mem _ hm')).2.1, Nat.le_of_lt (hp1 m' hm')⟩) hp2 hlast
    rw [List.length_cons]
    omega

/-- What is known of a model during learning. -/
structure Learning (A : Alphabet) (o : Orders) (P : List Char → Prop) (S T : Nat) (m : Vm) : Prop where
  history : ∃ ops, (Vm.new A).run (ops ++ [.build o]) = .ok m ∧
    ∀ y ∈ (ops ++ [Op.build o]).flatMap opLinks, y.1 < m.decoder.length
  variants : VariantsExist m
  lexicons : m.lexicons.length ≤ 32
  texts : ∀ v ∈ m.decoder, P v.text
  freqs : freqTotal m.decoder ≤ S
  counts : ∀ g, count m.ngrams g ≤ T

theorem Learning.mono {A : Alphabet} {o : Orders} {P : List Char → Prop} {S T S' T' : Nat} {m : Vm}
    (h : Learning A o P S T m) (hS : S ≤ S') (hT : T ≤ T') : Learning A o P S' T' m :=
  ⟨h.history, h.variants, h.lexicons, h.texts, h.freqs.trans hS, fun g => (h.counts g).trans hT⟩

/-- One round of learning, if the search on each line succeeds. -/
theorem learning_round {A : Alphabet} (hne : NoEmpty A) (hlen : A.length ≤ 166) {o : Orders}
    {P : List Char → Prop} (hP : ∀ t, P t → spaces t % 256 < 255) {S T : Nat} {m : Vm}
    (hm : Learning A o P S T m) {x : TextExt} {cfg : TextConfig} {p : TextParams} {strict : Bool}
    {ls : List (List Char)}
    (hfind : ∀ l ∈ ls, ∃ fs, m.findForLearning x cfg p strict l = .ok fs ∧
      (∀ f ∈ fs, f.vocabId < m.decoder.length ∧ P f.input) ∧ ∀ prev, changes prev fs ≤ byteLen l)
    (hT : T + (S + (ls.map byteLen).sum) < 2 ^ 32) :
    ∃ m' k, m.learnFrom x cfg p ls strict true o = .ok (m', k) ∧
      Learning A o P (S + (ls.map byteLen).sum) (T + (S + (ls.map byteLen).sum)) m' := by
  obtain ⟨ops, hrun, hlinks⟩ := hm.history
  obtain ⟨hinv, hext⟩ := inv_run (inv_new A) hrun
  obtain ⟨fss, hfss⟩ := collectSeq_total (f := m.findForLearning x cfg p strict) (l := ls)
    fun l hl => (hfind l hl).imp fun _ h => h.1
  have hall := collectSeq_ok.mp hfss
  have hmem : ∀ fs ∈ fss, ∀ f ∈ fs, f.vocabId < m.decoder.length ∧ P f.input := by
    intro fs hfs
    obtain ⟨l, hl, e⟩ := mem_of_forall₂_right hall hfs
    obtain ⟨fs', h1, h2, _⟩ := hfind l hl
    rw [e] at h1
    cases h1
    exact h2
  have hch : changes none fss.flatten ≤ (ls.map byteLen).sum := by
    have : ∀ {ls : List (List Char)} {fss : List (List Finding)},
        List.Forall₂ (fun l fs => m.findForLearning x cfg p strict l = .ok fs) ls fss →
        (∀ l ∈ ls, ∃ fs, m.findForLearning x cfg p strict l = .ok fs ∧
          (∀ f ∈ fs, f.vocabId < m.decoder.length ∧ P f.input) ∧ ∀ prev, changes prev fs ≤ byteLen l) →
        List.Forall₂ (fun l fs => ∀ prev, changes prev fs ≤ byteLen l) ls fss := by
      intro ls fss h
      induction h with
      | nil => intro _; exact .nil
      | cons h _ ih =>
        intro hf
        obtain ⟨fs', h1, _, h2⟩ := hf _ List.mem_cons_self
        rw [h] at h1
        cases h1
        exact .cons h2 (ih fun l hl => hf l (List.mem_cons_of_mem _ hl))
    exact changes_flatten (this hall hfind) none
  have hfl : ∀ f ∈ fss.flatten, f.vocabId < m.decoder.length ∧ P f.input := by
    intro f hf
    obtain ⟨fs, hfs, hf⟩ := List.mem_flatten.mp hf
    exact hmem fs hfs f hf
  have hf0 := hm.freqs
  obtain ⟨m', k, h1, h2, h3, h4, ⟨m1, c1, h5, h5'⟩, h6⟩ := learnVariants_total hne hlen hinv hext.1
    (fs := fss.flatten) (S := S + (ls.map byteLen).sum) (T := T + (S + (ls.map byteLen).sum))
    (fun f hf => hP _ (hfl f hf).2) (by omega) (fun g => by have := hm.counts g; omega) (by omega) o
  have hv := variantsExist_learnVariants hinv hm.variants h1
  have hfrom : m.learnFrom x cfg p ls strict true o = .ok (m', k) := by
    have hc : (if p.singleThread then collectSeq (m.findForLearning x cfg p strict) ls
        else collectPar (m.findForLearning x cfg p strict) (x.sched ls.length) ls) = .ok fss := by
      cases p.singleThread
      · exact (collectPar_perm (x.sched_perm _)).mpr hfss
      · exact hfss
    have unf : m.learnFrom x cfg p ls strict true o =
        (if p.singleThread then collectSeq (m.findForLearning x cfg p strict) ls
          else collectPar (m.findForLearning x cfg p strict) (x.sched ls.length) ls) >>=
        fun all => m.learnVariants all.flatten true o := by
      unfold Vm.learnFrom
      cases p.singleThread <;> rfl
    rw [unf]
    rw [hc]
    exact h1
  refine ⟨m', k, hfrom, ⟨ops ++ [.build o, .learn fss.flatten false o], ?_, ?_⟩, hv,
    by rw [h4]; exact hm.lexicons, ?_, h2, h3⟩
  · have e : ops ++ [Op.build o, Op.learn fss.flatten false o] ++ [Op.build o] =
        (ops ++ [.build o]) ++ [.learn fss.flatten false o, .build o] := by simp
    rw [e]
    refine run_append_ok hrun (bind_ok.mpr ⟨m1, bind_ok.mpr ⟨_, h5, rfl⟩, bind_ok.mpr ⟨m', h5', rfl⟩⟩)
  · have hle : m.decoder.length ≤ m'.decoder.length := by
      obtain ⟨⟨m2, c2⟩, h7, h8⟩ := bind_ok.mp h5
      cases pure_ok.mp h8
      rw [(build_cases h5').1]
      exact extends_length (inv_learnLoop hinv h7).2
    intro y hy
    have e : (ops ++ [Op.build o, Op.learn fss.flatten false o] ++ [Op.build o]).flatMap opLinks =
        (ops ++ [Op.build o]).flatMap opLinks ++ opLinks (.learn fss.flatten false o) := by
      simp [opLinks]
    rw [e] at hy
    rcases List.mem_append.mp hy with hy | hy
    · exact Nat.lt_of_lt_of_le (hlinks y hy) hle
    · obtain ⟨f, hf, rfl⟩ := List.mem_map.mp hy
      exact Nat.lt_of_lt_of_le (hfl f hf).1 hle
  · intro v hv
    rcases h6 v hv with ⟨f, hf, e⟩ | ⟨w, hw, e⟩
    · rw [← e]; exact (hfl f hf).2
    · rw [← e]; exact hm.texts w hw

/-- The rounds of learning from one input. -/
theorem learning_rounds {A : Alphabet} {o : Orders} {P : List Char → Prop} {learn : Vm → Res (Vm × Nat)}
    {K : Nat}
    (hlearn : ∀ S T m, Learning A o P S T m → T + (S + K) < 2 ^ 32 →
      ∃ m' k, learn m = .ok (m', k) ∧ Learning A o P (S + K) (T + (S + K)) m') :
    ∀ (n : Nat) {S T : Nat} {m : Vm}, Learning A o P S T m → T + n * (S + n * K) < 2 ^ 32 →
      ∃ m' ks, learnRounds learn n m = .ok (m', ks) ∧
        Learning A o P (S + n * K) (T + n * (S + n * K)) m' := by
  intro n
  induction n with
  | zero => intro S T m hm _; exact ⟨m, [], rfl, by simpa using hm⟩
  | succ n ih =>
    intro S T m hm hT
    have e : T + (n + 1) * (S + (n + 1) * K) = T + (S + K) + n * (S + K + n * K) + n * K := by ring
    have e' : S + (n + 1) * K = S + K + n * K := by ring
    have h0 : 0 ≤ n * (S + K + n * K) := Nat.zero_le _
    obtain ⟨m1, k, h1, h2⟩ := hlearn S T m hm (by omega)
    by_cases hk : k = 0
    · refine ⟨m1, [k], bind_ok.mpr ⟨_, h1, ?_⟩, h2.mono (by omega) (by omega)⟩
      simp only [hk, if_true]
      rfl
    · obtain ⟨m2, ks, h3, h4⟩ := ih h2 (by omega)
      refine ⟨m2, k :: ks, bind_ok.mpr ⟨_, h1, ?_⟩, h4.mono (by omega) (by omega)⟩
      simp only [hk, if_false]
      exact bind_ok.mpr ⟨_, h3, rfl⟩

/-- Learning from all inputs. -/
theorem learning_inputs {A : Alphabet} {x : ToolExt} {P : List Char → Prop} {cfg : TextConfig} {p : TextParams}
    {strict : Bool} (pr : Printer) (n : Nat) (json multi : Bool) :
    ∀ {inputs : List (List (Option (List Char)))},
      (∀ lines ∈ inputs, ∀ S T m, Learning A x.orders P S T m → T + (S + bytesOf lines) < 2 ^ 32 →
        ∃ m' k, m.learnFrom x.text cfg p (linesUntilError lines) strict true x.orders = .ok (m', k) ∧
          Learning A x.orders P (S + bytesOf lines) (T + (S + bytesOf lines)) m') →
      ∀ {S T : Nat} {m : Vm}, Learning A x.orders P S T m →
        T + n * inputs.length * (S + n * (inputs.map bytesOf).sum) < 2 ^ 32 →
        ∃ r, x.learnInputs cfg p pr n json multi strict m inputs = .ok r := by
  intro inputs
  induction inputs with
  | nil => intro _ S T m _ _; exact ⟨_, rfl⟩
  | cons lines inputs ih =>
    intro h S T m hm hT
    rw [List.length_cons, List.map_cons, List.sum_cons] at hT
    generalize hM : S + n * (bytesOf lines + (inputs.map bytesOf).sum) = M at hT
    have hM' : S + n * bytesOf lines + n * (inputs.map bytesOf).sum = M := by rw [← hM]; ring
    have hle : n * (S + n * bytesOf lines) ≤ n * M := Nat.mul_le_mul_left _ (by omega)
    have e : T + n * (inputs.length + 1) * M = T + n * M + n * inputs.length * M := by ring
    obtain ⟨m1, ks, h1, h2⟩ := learning_rounds (h lines List.mem_cons_self) n hm (by omega)
    obtain ⟨⟨s, ws⟩, h3⟩ := learned_total (o := { pr with vm := m1 }) h2.lexicons h2.variants json multi
    obtain ⟨⟨s', ws'⟩, h4⟩ := ih (fun l hl => h l (List.mem_cons_of_mem _ hl)) h2 (by
      rw [hM']
      omega)
    exact ⟨_, bind_ok.mpr ⟨(m1, s, ws), bind_ok.mpr ⟨_, h1, bind_ok.mpr ⟨_, h3, rfl⟩⟩,
      bind_ok.mpr ⟨_, h4, rfl⟩⟩⟩

/-! ## Whole runs -/

theorem linesUntilError_eq (lines : List (Option (List Char))) : linesUntilError lines = untilError lines := by
  induction lines with
  | nil => rfl
  | cons l lines ih =>
    cases l with
    | none => rfl
    | some l => rw [linesUntilError, ih]; rfl

theorem tokens_length {t : List Char} {ws : List (List Char)} (h : TokensOf t ws) :
    ws.length = spaces t + 1 := by
  rw [tokensOf_unique h, splitSpaces_length]

theorem infix_length {a t c l : List Char} (h : l = a ++ t ++ c) : t.length ≤ l.length ∧ spaces t ≤ spaces l := by
  subst h
  constructor
  · simp only [List.length_append]; omega
  · simp only [spaces, List.countP_append]; omega

/-- **C89**: learning succeeds, with or without `--json`, `--multi-output` and `--strict`, if the files named
on the command line can be loaded, the numbers on it can be read, and the lines (up to one that cannot be
read) can be learned from; and if the counts stay below `2 ^ 32`: each round adds to the counts all
frequencies, of the words that were loaded and the at most as many as there are bytes that were learned. -/
theorem learn_succeeds {x : ToolExt} (hf : ∀ s, ';' ∈ s → x.parseF32 s = none) (hpos : StrictMono x.pos)
    (hmarks : MarksOk x.load.isSpace) (hsp : x.text.isAlpha ' ' = false) (hsolve : SolverOk x.text.solve)
    {c : CommandLine} (hc : Accepted c) (hsub : c.sub = .learn)
    {as : List (List (List Char × Option Nat × VocabParams))} {w : Weights} {p : TextParams}
    (hfiles : UsableFiles x c as) (hnum : UsableNumbers x c w p)
    (hlenient : ¬ Given c .strict → 1 ≤ p.maxSeq ∧
      (0 < p.lmWeight → ∀ a ∈ as.flatten, ∀ ws, TokensOf a.1 ws → ws.length ≤ 255))
    {v : List Char} {n : Nat} (hv : InForce c .iterations "1".toList v) (hn : NumberText 255 v n)
    {files : List (List Char)} {inputs : List (List (Option (List Char)))} (hin : InputsOf x files inputs)
    (hlines : ∀ lines ∈ inputs, ∀ l ∈ untilError lines, LearnLine x c p.maxNgram l)
    (hcount : (n * inputs.length + 1) *
      ((as.flatten.map fun a => a.2.1.getD 1).sum + n * (inputs.map bytesOf).sum) < 2 ^ 32) :
    ∃ s ws, x.main c files = .ok (.output s ws) := by
  obtain ⟨args, hnames, hld⟩ := hfiles.files
  obtain ⟨L, hL, ha, hlex, hrules, hS, hT⟩ := load_counts hmarks hld x.orders
  have hLF : LoadedFor x c L := ⟨args, hnames.alphabet, hnames.resources, hnames.lm, hnames.confusables,
    hnames.rules, hL⟩
  have asked : Asked x c L w p := ⟨hLF, hnum.weights, hnum.params, hnum.cutoff, hnum.debug⟩
  have hstr : c.isPresent .strict = true ↔ Given c .strict := isPresent_flag (by rw [hsub]; rfl)
  have hit : c.parsed .iterations (parseUnsigned 255) = .ok n := by
    rw [parsed_default (by rw [hsub]; rfl) (hc.2 _ (by decide))]
    exact ⟨v, hv, (parseUnsigned_iff _ _ _).mpr hn⟩
  suffices h : ∃ s ws, x.learn c L (x.config c L w) p inputs = .ok (.output s ws) by
    obtain ⟨s, ws, hs⟩ := h
    refine ⟨s, ws, (main_output hf hpos hc (by rw [hsub]; decide) (by rw [hsub]; decide) files s ws).mpr
      ⟨L, w, p, asked, ?_⟩⟩
    unfold ToolExt.modes
    rw [inputsOf_iff.mpr hin, hsub]
    exact hs
  obtain ⟨_, ops, _, _, _, hne, hrun, _, hrefs, _⟩ := loaded_history hL
  have hsrc := hld.sources
  -- what is known of the texts
  let P : List Char → Prop := fun t => t.length < 65536 ∧ spaces t % 256 < 255 ∧
    (c.isPresent .strict = false → 0 < p.lmWeight → spaces t + 1 ≤ 255)
  have hP0 : ∀ v ∈ L.vm.decoder, P v.text := by
    intro v hv
    rcases loaded_text hL (by omega) hld.words hv with hr | ⟨a, ha, e⟩
    · have : v.text.length < 100 ∧ spaces v.text = 0 := by
        rcases hr with e | e | e <;> rw [e] <;> decide
      exact ⟨by omega, by omega, fun _ _ => by omega⟩
    · rw [← e]
      refine ⟨hfiles.short a ha, ?_, fun h1 h2 => ?_⟩
      · have h1 := hld.spaces a ha
        have h2 := Nat.mod_lt (spaces a.1) (show 256 > 0 by omega)
        unfold spaces at h2 ⊢
        omega
      · have := (hlenient (by rw [← hstr, h1]; simp)).2 h2 a ha _ (splitSpaces_isTokens a.1)
        rw [splitSpaces_length] at this
        exact this
  have hvar : VariantsExist L.vm := loaded_variantsExist hL
  have hlearn0 : Learning L.vm.alphabet x.orders P (addTotal as.flatten) (addTotal as.flatten) L.vm :=
    ⟨⟨ops, hrun, hrefs⟩, hvar, hlex, hP0, hS, hT⟩
  have hround : ∀ lines ∈ inputs, ∀ S T m, Learning L.vm.alphabet x.orders P S T m →
      T + (S + bytesOf lines) < 2 ^ 32 →
      ∃ m' k, m.learnFrom x.text (x.config c L w) p (linesUntilError lines) (c.isPresent .strict) true
          x.orders = .ok (m', k) ∧
        Learning L.vm.alphabet x.orders P (S + bytesOf lines) (T + (S + bytesOf lines)) m' := by
    intro lines hli S T m hm hT
    rw [linesUntilError_eq]
    refine learning_round hne ha (fun t ht => ht.2.1) hm ?_ hT
    intro l hl
    have hline := hlines lines hli l hl
    obtain ⟨ops', hrun', hrefs'⟩ := hm.history
    have hshort : ∀ v ∈ m.decoder, v.text.length < 65536 := fun v hv => (hm.texts v hv).1
    cases hst : c.isPresent .strict with
    | true =>
      obtain ⟨hl0, hl1⟩ := hline.strict (hstr.mp hst)
      obtain ⟨rs, hrs⟩ := find_variants_total _ hne ha ops' x.orders m hrun' hrefs' hshort x.text.toExt
        (x.config c L w).toConfig p.variant hnum.nonzero l hl0 hl1
      refine ⟨_, bind_ok.mpr ⟨rs, hrs, rfl⟩, ?_, ?_⟩
      · intro f hf
        obtain ⟨r, hr, rfl⟩ := List.mem_map.mp hf
        refine ⟨find_variants_ids hnum.nonzero hrs r hr, ?_, ?_, fun h => by simp [hst] at h⟩
        · show l.length < 65536
          omega
        · show spaces l % 256 < 255
          have := hline.spaces
          unfold spaces
          omega
      · intro prev
        have h1 := (changes_same (t := l) (rs.map fun r => (⟨l, r.vocabId, r.distScore⟩ : Finding))
          (by intro f hf; obtain ⟨r, _, rfl⟩ := List.mem_map.mp hf; rfl) prev).1
        have := byteLen_pos hl0
        omega
    | false =>
      have hns : ¬ Given c .strict := by rw [← hstr, hst]; simp
      obtain ⟨hl0, hl1⟩ := hline.lenient hns
      obtain ⟨hseq, _⟩ := hlenient hns
      obtain ⟨ms, hms⟩ := search_total _ hne ha ops' x.orders m hrun' hrefs' hshort x.text
        (x.config c L w) p hnum.nonzero hsp hsolve hseq (by
          intro _ hlm v hv ws hws
          have h1 := (hm.texts v hv).2.2 hst hlm
          have h2 : ws.length = spaces v.text + 1 := tokens_length hws
          omega) hrules l hl0
      have hu : p.unicodeoffsets = false := by
        obtain ⟨q, _, h1, h2⟩ := hnum.params
        rw [h2.offsets, h1]
      obtain ⟨h1, h2⟩ := text_matches hsp hsolve hu hms
      have h3 := search_known hsp hsolve hnum.nonzero hrules hms
      have hmem : ∀ f ∈ (ms.filterMap fun a => match a.variants, a.selected with
          | some variants, some selected =>
            variants[selected]?.map fun r => (⟨a.text, r.vocabId, r.distScore⟩ : Finding)
          | _, _ => none), ∃ a ∈ ms, f.input = a.text ∧ ∃ r ∈ a.variants.getD [], f.vocabId = r.vocabId := by
        intro f hf
        obtain ⟨a, ha, hfa⟩ := List.mem_filterMap.mp hf
        refine ⟨a, ha, ?_⟩
        split at hfa
        · next vs sel hvs _ =>
          obtain ⟨r, hr, rfl⟩ := Option.map_eq_some_iff.mp hfa
          exact ⟨rfl, r, by rw [hvs]; exact List.mem_of_getElem? hr, rfl⟩
        · cases hfa
      refine ⟨_, bind_ok.mpr ⟨ms, hms, rfl⟩, ?_, ?_⟩
      · intro f hf
        obtain ⟨a, ha, e, r, hr, e'⟩ := hmem f hf
        obtain ⟨⟨a0, c0, e1, _, _⟩, _⟩ := h1 a ha
        obtain ⟨i1, i2⟩ := infix_length e1
        have := hline.spaces
        have i3 : spaces l < 255 := this
        rw [e', e]
        exact ⟨((h3 a ha).2 r hr).1, by omega, by omega, fun _ _ => by omega⟩
      · intro prev
        have i1 := matches_le_bytes (text := l) 0 (fun a ha => ⟨(h1 a ha).1, (h1 a ha).2.1, Nat.zero_le _⟩)
          h2 (Nat.zero_le _)
        refine (changes_le _ prev).trans ?_
        refine (List.length_filterMap_le _ _).trans ?_
        omega
  have hcount' : addTotal as.flatten + n * inputs.length *
      (addTotal as.flatten + n * (inputs.map bytesOf).sum) < 2 ^ 32 := by
    have e : (as.flatten.map fun a => a.2.1.getD 1).sum = addTotal as.flatten := rfl
    rw [e, Nat.add_mul, Nat.one_mul] at hcount
    omega
  obtain ⟨⟨s, ws⟩, h⟩ := learning_inputs (x.printer c L p) n (c.isPresent .json) (c.isPresent .multiOutput)
    hround hlearn0 hcount'
  exact ⟨_, ws, bind_ok.mpr ⟨n, hit, bind_ok.mpr ⟨_, h, rfl⟩⟩⟩

/-! ### Examples -/

/-- `learn --iterations 2 --alphabet a --errors e --lexicon l --variants v --lm m --confusables c
--contextrules r` -/
def exLearnR : CommandLine :=
  { sub := .learn, debug := none
    given := [(.iterations, ['2']), (.alphabet, ['a']), (.errors, ['e']), (.lexicon, ['l']),
      (.variants, ['v']), (.lm, ['m']), (.confusables, ['c']), (.contextrules, ['r'])] }

/-- Lines that are learned from, with one that cannot be read. -/
def exToolL : ToolExt := { exToolR with stdin := [some "aab bb".toList, some "bab".toList, none, some []] }

theorem exUsableLearn : UsableFiles exToolL exLearnR exAdded :=
  ⟨⟨exArgsR, by constructor <;> decide, exLoadable⟩, by decide⟩

theorem exNumbersLearn : UsableNumbers exToolL exLearnR ⟨1 / 2, 1 / 8, 1 / 8, 1 / 8, 1 / 8⟩
    (exNumbers exLearnR) := by
  have h : UsableNumbers exToolR exLearnR _ _ :=
    exUsableNumbers (accepted_of (by decide) (by decide)) rfl (by decide +kernel) rfl
      (exSome exTextParams (by decide +kernel)) (.inr (by decide +kernel))
  exact ⟨h.weights, h.nonzero, h.params, h.cutoff, h.debug⟩

/-- Two rounds of learning from two lines. -/
example : ∃ s ws, exToolL.main exLearnR [] = .ok (.output s ws) := by
  refine learn_succeeds (x := exToolL) (v := ['2']) (n := 2) ex_noSemicolon ex_pos ex_marks
    (by decide +kernel) refSolver_ok (accepted_of (by decide) (by decide)) rfl exUsableLearn exNumbersLearn
    (fun _ => ⟨by decide +kernel, ?_⟩) (.inl (by decide)) ((parseUnsigned_iff _ _ _).mp (by decide))
    (.inl ⟨rfl, rfl⟩) ?_ (by decide)
  · intro _ a ha ws hws
    have h : ∀ a ∈ exAdded.flatten, (splitSpaces a.1).length ≤ 255 := by decide
    rw [tokensOf_unique hws]
    exact h a ha
  · intro lines hl l h
    rw [List.mem_singleton] at hl
    subst hl
    have hs : l.length ≤ 255 ∧ l.countP (· == ' ') < 255 := by
      have h : l ∈ ["aab bb".toList, "bab".toList] := h
      simp only [List.mem_cons, List.not_mem_nil, or_false] at h
      rcases h with rfl | rfl <;> decide
    refine ⟨hs.2, fun h => absurd h (not_given (by decide)), fun _ => ⟨?_, by omega⟩⟩
    intro segs a r b h1 h2 _
    exact short_words (by omega) segs a r b h1 h2

example : exToolL.main exLearnR [] =
    .ok (.output "b\tbb\t0.5\nab\tba\t0.5\taab\t0.5\tbab\t0.5\n".toList [[]]) := by
  decide +kernel

/-- The same files, with a frequency of `2 ^ 31` in the language model. -/
def exFileO (f : List Char) : Option (List (Option (List Char))) :=
  if f = ['m'] then some [some "a b\t2147483648".toList] else exLoadR.file f

def exToolO : ToolExt := { exToolL with load := { exLoadR with file := exFileO } }

/-- **C89**: without a bound for the counts learning may fail: here everything can be loaded, and a search
succeeds, but the first round adds the frequency of `a b` to its count again. -/
theorem learn_overflow_fails :
    (∃ s, exToolO.main { exLearnR with sub := .search, given := exLearnR.given.tail } [] =
      .ok (.output s [])) ∧ exToolO.main exLearnR [] = .error .overflow := by
  refine ⟨⟨("aab\t0:3\tab\t0.5\t\nbb\t4:6\tb\t0.5\t\nbab\t7:10\tab\t0.5\t\tba\t0.5\t".toList ++
    "\tab\t0.5\t\n".toList), ?_⟩, ?_⟩ <;> decide +kernel

end Verif.Props
