import Verif.Lemmas.Trace
import Verif.Spec.Trace
import Verif.Props.Resources
import Verif.Props.RunTotal
import Verif.Props.Document

/-!
# What has been printed when a run panics (C114)
-/
namespace Verif.Props

open Verif.Spec Verif.Model Verif.Lemmas

/-! ## Runs without a panic -/

/-- The trace of a run that ends normally. -/
def shown : Outcome → Trace Ending
  | .output s ws => ⟨s, .ok (.done ws)⟩
  | .exit n => ⟨[], .ok (.exit n)⟩
  | .unmodelled => ⟨[], .ok .unmodelled⟩

theorem shown_inj {a b : Outcome} (h : shown a = shown b) : a = b := by
  cases a <;> cases b <;> simp_all [shown]

/-- The same run, with and without a trace. -/
def SameRun (t : Trace Ending) (r : Res Outcome) : Prop :=
  ∀ s e, t = ⟨s, .ok e⟩ ↔ ∃ out, r = .ok out ∧ shown out = ⟨s, .ok e⟩

theorem SameRun.quiet_bind {α : Type} {r : Res α} {f : α → Trace Ending} {g : α → Res Outcome}
    (h : ∀ a, SameRun (f a) (g a)) : SameRun (Trace.quiet r >>= f) (r >>= g) := by
  cases r with
  | ok a => rw [Lemmas.quiet_bind]; exact h a
  | error e =>
    intro s q
    constructor
    · intro h; cases h
    · rintro ⟨out, h, _⟩; cases h

theorem sameRun_pure (out : Outcome) {e : Ending} (h : shown out = ⟨[], .ok e⟩) :
    SameRun (pure e) (pure out) := by
  intro s e'
  constructor
  · intro h'
    obtain ⟨rfl, h2⟩ := pureT_eq.mp h'
    cases h2
    exact ⟨out, rfl, h⟩
  · rintro ⟨_, h1, h2⟩
    cases pure_ok.mp h1
    rw [h] at h2
    rw [← h2]
    rfl

theorem sameRun_whole (r : Res (List Char)) :
    SameRun (Trace.whole r) (r >>= fun s => (pure (Outcome.output s []) : Res Outcome)) := by
  refine .quiet_bind fun a => ?_
  intro s e
  simp only [bindT_ok, say_eq, pureT_eq, pure_ok]
  constructor
  · rintro ⟨_, _, _, ⟨rfl, _⟩, ⟨rfl, h⟩, rfl⟩
    exact ⟨_, rfl, by rw [h, List.append_nil]; rfl⟩
  · rintro ⟨_, rfl, h⟩
    cases h
    exact ⟨a, [], (), ⟨rfl, trivial⟩, ⟨rfl, rfl⟩, by simp⟩

theorem sameRun_modes (x : ToolExt) (c : CommandLine) (files : List (List Char)) (L : Loaded) (w : Weights)
    (p : TextParams) : SameRun (x.modesT c files L w p) (x.modes c files L w p) := by
  have key : ∀ inner ws, x.inputsT c files L (x.config c L w) p = ⟨inner, .ok ws⟩ ↔
      x.modes c files L w p = .ok (.output (bracketed (c.isPresent .json) inner) ws) := by
    intro inner ws
    unfold ToolExt.modes ToolExt.inputsT
    have hfs : (if files.isEmpty = true then ["-".toList] else files) ≠ [] := by
      cases files <;> simp
    generalize (if files.isEmpty = true then ["-".toList] else files) = fs at hfs
    have hb : ∀ a b, bracketed (c.isPresent .json) a = bracketed (c.isPresent .json) b ↔ a = b := by
      intro a b
      unfold bracketed
      constructor
      · intro h
        exact List.append_cancel_left (List.append_cancel_right h)
      · rintro rfl; rfl
    have stateful : ∀ {run : List (Option (List Char)) → Trace Unit}
        {run' : List (Option (List Char)) → Res (List Char)}
        (_ : ∀ lines s u, run lines = ⟨s, .ok u⟩ ↔ run' lines = .ok s),
        x.filesT (stateless run) false () fs = ⟨inner, .ok ws⟩ ↔
          (do let inputs ← x.inputs false fs
              let s ← runFiles (c.isPresent .json) run' inputs
              return .output s [] : Res Outcome) = .ok (.output (bracketed (c.isPresent .json) inner) ws) := by
      intro run run' h
      simp only [filesT_ok, runAll_stateless h, bind_ok, pure_ok, runFiles, Outcome.output.injEq]
      constructor
      · rintro ⟨inputs, h1, rfl, outs, h2, rfl⟩
        exact ⟨inputs, h1, _, ⟨outs, h2, rfl⟩, rfl, rfl⟩
      · rintro ⟨inputs, h1, _, ⟨outs, h2, rfl⟩, h3, rfl⟩
        exact ⟨inputs, h1, rfl, outs, h2, ((hb _ _).mp h3).symm⟩
    have q : x.filesT (stateless (if p.singleThread then (x.printer c L p).processT
          (L.vm.findVariants x.text.toExt (x.config c L w).toConfig p.variant) (c.isPresent .json) 0
        else (x.printer c L p).processParT
          (L.vm.findVariants x.text.toExt (x.config c L w).toConfig p.variant) x.text.sched
          (c.isPresent .json))) false () fs = ⟨inner, .ok ws⟩ ↔
        (do let inputs ← x.inputs false fs
            x.query c L (x.config c L w) p inputs : Res Outcome) =
          .ok (.output (bracketed (c.isPresent .json) inner) ws) := by
      refine stateful ?_
      intro lines s u
      cases p.singleThread with
      | true => exact processT_ok
      | false => exact parLoopT_ok
    cases hs : c.sub with
    | search =>
      simp only
      rw [stateful (fun lines s u => processSearchT_ok (u := u))]
      rfl
    | learn =>
      simp only [filesT_ok, ToolExt.learn, bind_ok]
      constructor
      · rintro ⟨inputs, h1, h2⟩
        obtain ⟨n, hn⟩ : ∃ n, c.parsed .iterations (parseUnsigned 255) = .ok n := by
          cases h2 with
          | nil =>
            have := (inputs_iff.mp h1).1
            cases fs with
            | nil => exact absurd rfl hfs
            | cons f fs => simp at this
          | cons h _ =>
            obtain ⟨_, _, n, hn, _⟩ := bindT_ok.mp h
            exact ⟨n, (quiet_eq.mp hn).2⟩
        exact ⟨inputs, h1, n, hn, (inner, ws), (runAll_learn hn).mp h2, rfl⟩
      · rintro ⟨inputs, h1, n, hn, ⟨s, w⟩, h2, h3⟩
        obtain ⟨h4, rfl⟩ := Outcome.output.inj (pure_ok.mp h3)
        cases (hb _ _).mp h4
        exact ⟨inputs, h1, (runAll_learn hn).mpr h2⟩
    | query => exact q
    | index => exact q
    | testinput => exact q
  intro s e
  unfold ToolExt.modesT
  simp only [bindT_ok, say_eq, pureT_eq]
  constructor
  · rintro ⟨_, _, _, ⟨rfl, _⟩, ⟨inner, _, ws, h1, ⟨_, _, _, ⟨rfl, _⟩, ⟨rfl, h⟩, rfl⟩, rfl⟩, rfl⟩
    cases h
    exact ⟨_, (key _ _).mp h1, by simp [shown, bracketed]⟩
  · rintro ⟨out, h1, h2⟩
    obtain ⟨inner, ws, rfl⟩ : ∃ inner ws, out = .output (bracketed (c.isPresent .json) inner) ws := by
      unfold ToolExt.modes at h1
      obtain ⟨inputs, _, h1⟩ := bind_ok.mp h1
      have q : x.query c L (x.config c L w) p inputs = .ok out →
          ∃ inner ws, out = .output (bracketed (c.isPresent .json) inner) ws := by
        intro h1
        obtain ⟨t, h3, h4⟩ := bind_ok.mp h1
        obtain ⟨outs, _, h5⟩ := bind_ok.mp h3
        rw [← pure_ok.mp h4, ← pure_ok.mp h5]
        exact ⟨_, _, rfl⟩
      cases hs : c.sub with
      | search =>
        rw [hs] at h1
        obtain ⟨t, h3, h4⟩ := bind_ok.mp h1
        obtain ⟨outs, _, h5⟩ := bind_ok.mp h3
        rw [← pure_ok.mp h4, ← pure_ok.mp h5]
        exact ⟨_, _, rfl⟩
      | learn =>
        rw [hs] at h1
        obtain ⟨n, _, h1⟩ := bind_ok.mp h1
        obtain ⟨⟨t, w⟩, _, h1⟩ := bind_ok.mp h1
        rw [← pure_ok.mp h1]
        exact ⟨_, _, rfl⟩
      | query => rw [hs] at h1; exact q h1
      | index => rw [hs] at h1; exact q h1
      | testinput => rw [hs] at h1; exact q h1
    cases h2
    refine ⟨_, _, (), ⟨rfl, trivial⟩, ⟨inner, _, ws, (key _ _).mpr h1, ⟨_, [], (), ⟨rfl, trivial⟩, ⟨rfl, rfl⟩, rfl⟩, rfl⟩, ?_⟩
    simp [bracketed]

theorem sameRun_main (x : ToolExt) (c : CommandLine) (files : List (List Char)) :
    SameRun (x.mainT c files) (x.main c files) := by
  unfold ToolExt.mainT ToolExt.main
  refine .quiet_bind fun ws => .quiet_bind fun _ => ?_
  by_cases ht : c.sub = .testinput
  · rw [if_pos ht, if_pos ht]
    exact .quiet_bind fun args => .quiet_bind fun m => sameRun_whole _
  · rw [if_neg ht, if_neg ht]
    unfold ToolExt.withModelT ToolExt.withModel
    refine .quiet_bind fun args => .quiet_bind fun L => .quiet_bind fun p => ?_
    by_cases hcut : (!cutoffAccepted p.cutoffThreshold) = true
    · rw [if_pos hcut, if_pos hcut]
      exact sameRun_pure _ rfl
    · rw [if_neg hcut, if_neg hcut]
      by_cases hidx : c.sub = .index
      · rw [if_pos hidx, if_pos hidx]
        exact sameRun_whole _
      · rw [if_neg hidx, if_neg hidx]
        cases finiteWeights ws with
        | none => exact sameRun_pure _ rfl
        | some w =>
          cases p.finite with
          | none => exact sameRun_pure _ rfl
          | some q => exact sameRun_modes x c files L w q

/-- **C114**: a run that does not panic prints its output; one that calls `exit` prints nothing. -/
theorem trace_complete (x : ToolExt) (c : CommandLine) (files : List (List Char)) :
    (∀ s ws, x.main c files = .ok (.output s ws) ↔ x.mainT c files = ⟨s, .ok (.done ws)⟩) ∧
    (∀ n, x.main c files = .ok (.exit n) ↔ x.mainT c files = ⟨[], .ok (.exit n)⟩) ∧
    ((∃ e, x.main c files = .error e) ↔ ∃ s, PanicsAfter (x.mainT c files) s) := by
  have h := sameRun_main x c files
  have out : ∀ o, x.main c files = .ok o ↔ x.mainT c files = shown o := by
    intro o
    constructor
    · intro ho
      have : ∃ s e, shown o = ⟨s, .ok e⟩ := by cases o <;> exact ⟨_, _, rfl⟩
      obtain ⟨s, e, he⟩ := this
      rw [he]
      exact (h s e).mpr ⟨o, ho, he⟩
    · intro ho
      have : ∃ s e, shown o = ⟨s, .ok e⟩ := by cases o <;> exact ⟨_, _, rfl⟩
      obtain ⟨s, e, he⟩ := this
      obtain ⟨o', h1, h2⟩ := (h s e).mp (ho.trans he)
      rw [h1, shown_inj (h2.trans he.symm)]
  refine ⟨fun s ws => out (.output s ws), fun n => out (.exit n), ?_, ?_⟩
  · rintro ⟨e, he⟩
    cases ht : x.mainT c files with
    | mk s r =>
      cases r with
      | error e' => exact ⟨s, e', rfl⟩
      | ok q =>
        obtain ⟨o, h1, _⟩ := (h s q).mp ht
        rw [he] at h1
        cases h1
  · rintro ⟨s, e, he⟩
    cases hm : x.main c files with
    | error e' => exact ⟨e', rfl⟩
    | ok o =>
      have := (out o).mp hm
      rw [he] at this
      cases o <;> cases this

/-! ## A file that cannot be opened -/

/-- A run with what the command line asks for. -/
theorem asked_mainT {x : ToolExt} (hf : ∀ s, ';' ∈ s → x.parseF32 s = none) (hpos : StrictMono x.pos)
    {c : CommandLine} (hc : Accepted c) (h1 : c.sub ≠ .index) (h2 : c.sub ≠ .testinput)
    {L : Loaded} {w : Weights} {p : TextParams} (ha : Asked x c L w p) (files : List (List Char)) :
    x.mainT c files = x.modesT c files L w p := by
  obtain ⟨a1, a2, ⟨q, r1, r2, hfp⟩, a4, a5⟩ := ha
  obtain ⟨args, ha, hL⟩ := (loadedFor_iff hpos hc).mp a1
  obtain ⟨d, hd⟩ := debugLevel_ok.mpr a5
  unfold ToolExt.mainT
  rw [(command_line_weights hc _ _ _ _ _).mpr a2, hd, quiet_bind, quiet_bind, if_neg h2]
  unfold ToolExt.withModelT
  rw [ha, quiet_bind, hL, quiet_bind, (command_line_parameters_partial hf hc q).mpr ⟨r1, r2⟩, quiet_bind,
    if_neg, if_neg h1, finiteWeights_iff.mpr rfl, params_finite_iff.mpr hfp]
  rw [hfp.cutoff]
  simp only [cutoffAccepted, Bool.not_not, Bool.and_eq_true, decide_eq_true_eq, not_and, not_not]
  intro hlt
  rcases a4 with e | e
  · exact e
  · exact absurd hlt (not_lt.mpr e)

theorem inputs_cons {x : ToolExt} {used : Bool} {f : List Char} {fs : List (List Char)}
    {ins : List (List (Option (List Char)))} (h : x.inputs used (f :: fs) = .ok ins) :
    ∃ u lines rest, ToolExt.inputT x used f = ⟨[], .ok (u, lines)⟩ ∧ x.inputs u fs = .ok rest ∧
      ins = lines :: rest := by
  rw [ToolExt.inputs] at h
  unfold ToolExt.inputT
  by_cases hf : isStdin f = true
  · rw [if_pos hf] at h ⊢
    obtain ⟨rest, h1, h2⟩ := bind_ok.mp h
    exact ⟨true, _, rest, rfl, h1, (pure_ok.mp h2).symm⟩
  · rw [if_neg hf] at h ⊢
    obtain ⟨lines, h0, h⟩ := bind_ok.mp h
    obtain ⟨rest, h1, h2⟩ := bind_ok.mp h
    refine ⟨used, lines, rest, ?_, h1, (pure_ok.mp h2).symm⟩
    rw [h0]
    rfl

/-- A file that cannot be opened after others that are processed. -/
theorem filesT_unopened {x : ToolExt} {σ : Type}
    {run : σ → List (Option (List Char)) → Trace (σ × List (List FileWrite))} {used : Bool} {m : σ}
    {fs1 fs2 : List (List Char)} {f : List Char} {done : List (List (Option (List Char)))} {s : List Char}
    {ws : List (List FileWrite)} (hin : x.inputs used fs1 = .ok done) (hrun : RunAll run m done s ws)
    (hf : isStdin f = false) {e : Panic} (he : x.load.open f = .error e) :
    x.filesT run used m (fs1 ++ f :: fs2) = ⟨s, .error e⟩ := by
  induction fs1 generalizing used m done s ws with
  | nil =>
    cases hin
    cases hrun
    rw [List.nil_append, filesT_cons]
    refine bindT_error ?_
    unfold ToolExt.inputT
    rw [hf, he]
    rfl
  | cons g fs1 ih =>
    obtain ⟨u, lines, rest, h1, h2, rfl⟩ := inputs_cons hin
    cases hrun with
    | cons h3 h4 =>
      rw [List.cons_append, filesT_cons, bindT_of h1]
      simp only
      rw [bindT_of h3]
      simp only
      rw [bindT_error (ih h2 h4)]
      simp

/-- An input that makes a run panic after others that are processed. -/
theorem filesT_panics {x : ToolExt} {run : List (Option (List Char)) → Trace Unit} {used : Bool}
    {fs1 fs2 : List (List Char)} {done : List (List (Option (List Char)))}
    {bad : List (Option (List Char))} {s t : List Char}
    {ws : List (List FileWrite)} (hin : x.inputs used fs1 = .ok (done ++ [bad]))
    (hrun : RunAll (stateless run) () done s ws) {e : Panic} (he : run bad = ⟨t, .error e⟩) :
    x.filesT (stateless run) used () (fs1 ++ fs2) = ⟨s ++ t, .error e⟩ := by
  induction fs1 generalizing used done s ws with
  | nil => simp [ToolExt.inputs] at hin
  | cons g fs1 ih =>
    obtain ⟨u, lines, rest, h1, h2, h5⟩ := inputs_cons hin
    rw [List.cons_append, filesT_cons, bindT_of h1]
    cases hrun with
    | nil =>
      rw [List.nil_append] at h5
      cases h5
      have : stateless run () bad = ⟨t, .error e⟩ := bindT_error he
      simp only [bindT_error this]
    | cons h3 h4 =>
      rw [List.cons_append] at h5
      cases h5
      simp only
      rw [bindT_of h3]
      simp only
      rw [bindT_error (ih h2 h4)]
      simp

/-- **C114**: when a file cannot be opened, what is printed for the files before it has been printed: with
`--json`, the array is not closed. -/
theorem unopened_file_after_output {x : ToolExt} (hf : ∀ s, ';' ∈ s → x.parseF32 s = none)
    (hpos : StrictMono x.pos) {c : CommandLine} (hc : Accepted c) (h1 : c.sub ≠ .index)
    (h2 : c.sub ≠ .testinput) {fs1 fs2 : List (List Char)} (hne : fs1 ≠ []) {s : List Char}
    {ws : List (List FileWrite)} (hrun : x.main c fs1 = .ok (.output s ws))
    {f : List Char} (hstd : ¬ StdinName f) (hopen : x.load.file f = none) :
    ∃ t, PanicsAfter (x.mainT c (fs1 ++ f :: fs2)) t ∧
      ((Given c .json ∧ s = t ++ "]\n".toList) ∨ (¬ Given c .json ∧ s = t)) := by
  obtain ⟨L, w, p, asked, hm⟩ := (main_output hf hpos hc h1 h2 fs1 s ws).mp hrun
  have hT := (sameRun_modes x c fs1 L w p s (.done ws)).mpr ⟨_, hm, rfl⟩
  unfold ToolExt.modesT at hT
  obtain ⟨a, b, _, g1, g2, rfl⟩ := bindT_ok.mp hT
  obtain ⟨inner, b', ws', g3, g4, rfl⟩ := bindT_ok.mp g2
  obtain ⟨z, b'', _, g5, g6, rfl⟩ := bindT_ok.mp g4
  obtain ⟨rfl, e6⟩ := pureT_eq.mp g6
  cases e6
  obtain ⟨rfl, _⟩ := say_eq.mp g1
  obtain ⟨rfl, _⟩ := say_eq.mp g5
  have hstd' : isStdin f = false := by
    rw [← Bool.not_eq_true, isStdin_iff]; exact hstd
  obtain ⟨e, he⟩ : ∃ e, x.load.open f = .error e := by
    unfold LoadExt.open
    rw [hopen]
    exact ⟨_, rfl⟩
  have he1 : (if fs1.isEmpty then ["-".toList] else fs1) = fs1 := by cases fs1 <;> simp_all
  have he2 : (if (fs1 ++ f :: fs2).isEmpty then ["-".toList] else fs1 ++ f :: fs2) = fs1 ++ f :: fs2 := by
    cases fs1 <;> simp
  have key : x.inputsT c (fs1 ++ f :: fs2) L (x.config c L w) p = ⟨inner, .error e⟩ := by
    unfold ToolExt.inputsT at g3 ⊢
    rw [he1] at g3
    rw [he2]
    cases hs : c.sub <;> rw [hs] at g3 <;> simp only at g3 ⊢ <;>
    · obtain ⟨ins, k1, k2⟩ := filesT_ok.mp g3
      exact filesT_unopened k1 k2 hstd' he
  refine ⟨(if c.isPresent .json then "[\n".toList else []) ++ inner, ⟨e, ?_⟩, ?_⟩
  · rw [asked_mainT hf hpos hc h1 h2 asked]
    unfold ToolExt.modesT
    rw [bindT_of (say_eq.mpr ⟨rfl, rfl⟩), bindT_error key]
  · by_cases hj : Given c .json
    · have : c.isPresent .json = true := (isPresent_iff rfl).mpr hj
      exact .inl ⟨hj, by rw [this]; simp⟩
    · have : c.isPresent .json = false := by rw [← Bool.not_eq_true, isPresent_iff rfl]; exact hj
      exact .inr ⟨hj, by rw [this]; simp⟩

/-! ## A line that makes a query panic -/

theorem processT_stops {o : Printer} {find : List Char → Res (List VariantResult)} {json : Bool} {n : Nat}
    {pre post : List (Option (List Char))} {s : List Char} (h : o.process find json n pre = .ok s)
    {l : List Char} {e : Panic} (he : find l = .error e) :
    o.processT find json n (pre ++ some l :: post) = ⟨s, .error e⟩ := by
  induction pre generalizing n s with
  | nil =>
    cases h
    rw [List.nil_append, Printer.processT, he]
    rfl
  | cons a pre ih =>
    cases a with
    | none => exact ih h
    | some a =>
      obtain ⟨vs, h1, h⟩ := bind_ok.mp h
      obtain ⟨t, h2, h⟩ := bind_ok.mp h
      obtain ⟨r, h3, h⟩ := bind_ok.mp h
      cases pure_ok.mp h
      rw [List.cons_append, Printer.processT, h1, quiet_bind, h2, quiet_bind,
        bindT_of (say_eq.mpr ⟨rfl, rfl⟩), ih h3]

theorem readBatch_full {n : Nat} {ls : List (List Char)} (h : n ≤ ls.length)
    (rest : List (Option (List Char))) :
    readBatch n (ls.map some ++ rest) = .ok (ls.take n, (ls.drop n).map some ++ rest, false) := by
  induction n generalizing ls with
  | zero => simp [readBatch]
  | succ n ih =>
    cases ls with
    | nil => simp at h
    | cons l ls =>
      rw [List.map_cons, List.cons_append, readBatch, ih (by simpa using h)]
      rfl

theorem readBatch_none {n : Nat} {ls : List (List Char)} (h : ls.length < n)
    (rest : List (Option (List Char))) : readBatch n (ls.map some ++ none :: rest) = .error .expect := by
  induction n generalizing ls with
  | zero => omega
  | succ n ih =>
    cases ls with
    | nil => rfl
    | cons l ls =>
      rw [List.map_cons, List.cons_append, readBatch, ih (by simpa using h)]
      rfl

theorem readBatch_mem {n : Nat} {ls : List (List Char)} (h : ls.length < n) {a : List Char}
    {rest rest' : List (Option (List Char))} {batch : List (List Char)} {eof : Bool}
    (hr : readBatch n (ls.map some ++ some a :: rest) = .ok (batch, rest', eof)) : a ∈ batch := by
  induction n generalizing ls batch rest' eof with
  | zero => omega
  | succ n ih =>
    cases ls with
    | nil =>
      obtain ⟨⟨b, r, e⟩, _, h2⟩ := bind_ok.mp hr
      cases pure_ok.mp h2
      simp
    | cons l ls =>
      rw [List.map_cons, List.cons_append, readBatch] at hr
      obtain ⟨⟨b, r, e⟩, h1, h2⟩ := bind_ok.mp hr
      cases pure_ok.mp h2
      exact List.mem_cons_of_mem _ (ih (by simpa using h) h1)

theorem readable_some (ls : List (List Char)) : readable (ls.map some) = ls := by
  simp [readable, List.filterMap_map]

/-- The parallel mode has printed all full batches before a bad line. -/
theorem parLoopT_stops {o : Printer} {find : List Char → Res (List VariantResult)} {sched : Nat → List Nat}
    (hs : ∀ n, (sched n).Perm (List.range n)) {json : Bool} {l : Option (List Char)}
    (hl : l = none ∨ ∃ a e, l = some a ∧ find a = .error e) {post : List (Option (List Char))} (k : Nat) :
    ∀ {fuel n : Nat} {ls : List (List Char)} {s : List Char}, k < fuel → ls.length / 1000 = k →
      o.process find json n ((ls.take (1000 * k)).map some) = .ok s →
      ∃ e, o.parLoopT find sched json fuel n (ls.map some ++ l :: post) = ⟨s, .error e⟩ := by
  induction k with
  | zero =>
    intro fuel n ls s hfuel hk h
    cases fuel with
    | zero => omega
    | succ fuel =>
    have hlen : ls.length < maxBatchsize := by
      have : maxBatchsize = 1000 := rfl
      omega
    rw [Nat.mul_zero, List.take_zero] at h
    cases h
    rw [Printer.parLoopT]
    rcases hl with rfl | ⟨a, e, rfl, he⟩
    · rw [readBatch_none hlen]
      exact ⟨_, bindT_error rfl⟩
    · cases hb : readBatch maxBatchsize (ls.map some ++ some a :: post) with
      | error e => exact ⟨_, bindT_error rfl⟩
      | ok r =>
        obtain ⟨batch, rest, eof⟩ := r
        rw [quiet_bind]
        simp only
        cases hc : collectPar (fun input => do let vs ← find input; return (input, vs)) (sched batch.length)
          batch with
        | error e => exact ⟨_, bindT_error rfl⟩
        | ok out =>
          exfalso
          have := collectSeq_ok.mp ((collectPar_perm (hs _)).mp hc)
          obtain ⟨b, _, hb⟩ := mem_of_forall₂_left this (readBatch_mem hlen hb)
          rw [he] at hb
          cases hb
  | succ k ih =>
    intro fuel n ls s hfuel hk h
    cases fuel with
    | zero => omega
    | succ fuel =>
    have hmax : maxBatchsize = 1000 := rfl
    have hlen : maxBatchsize ≤ ls.length := by omega
    rw [process_some, readable_some] at h
    obtain ⟨ps, h1, h2⟩ := h
    have hsplit : ls.take (1000 * (k + 1)) = ls.take 1000 ++ (ls.drop 1000).take (1000 * k) := by
      rw [show 1000 * (k + 1) = 1000 + 1000 * k by omega, List.take_add]
    rw [hsplit] at h1
    obtain ⟨qs, rs, h3, h4, rfl⟩ := collectSeq_append.mp h1
    obtain ⟨t, u, h5, h6, rfl⟩ := printBatch_append.mp h2
    rw [Printer.parLoopT, readBatch_full hlen, quiet_bind]
    simp only
    rw [hmax, show collectPar (fun input => do let vs ← find input; return (input, vs))
      (sched (ls.take 1000).length) (ls.take 1000) = .ok qs from (collectPar_perm (hs _)).mpr h3, quiet_bind,
      bindT_of (printBatchT_ok (u := ()).mpr h5)]
    obtain ⟨e, he⟩ := ih (fuel := fuel) (n := n + qs.length) (ls := ls.drop 1000) (s := u) (by omega)
      (by rw [List.length_drop]; omega) (process_some.mpr ⟨rs, by rw [readable_some]; exact h4, h6⟩)
    simp only [Bool.false_eq_true, if_false]
    rw [he]
    exact ⟨e, rfl⟩

/-- **C114**: an empty line makes a query panic (if some word that is not reserved is looked up), and so does,
without `--single-thread`, a line that cannot be read.  With `--single-thread` the rows for all lines before it
have been printed.  Otherwise the rows for all files before, and for the lines before it in the same file up to
the last multiple of 1000. -/
theorem query_prints_before_panic {x : ToolExt} (hf : ∀ s, ';' ∈ s → x.parseF32 s = none)
    (hpos : StrictMono x.pos) (hmarks : MarksOk x.load.isSpace) (hb : x.load.isSpace '\\' = false)
    {c : CommandLine} (hc : Accepted c) (hsub : c.sub = .query) (hj : ¬ Given c .json)
    {as : List (List (List Char × Option Nat × VocabParams))} {w : Weights} {p : TextParams}
    (hfiles : UsableFiles x c as) (hnum : UsableNumbers x c w p)
    (hfw : 0 ≤ p.variant.freqWeight)
    {afile : List Char} {alines : List (Option (List Char))} {alphabet : Alphabet}
    (ha : (.alphabet, afile) ∈ c.given) (hal : x.load.file afile = some alines)
    (hae : List.Forall₂ (AlphabetLine x.load.isSpace) (nonEmpty alines) alphabet)
    {kss : List (List (List Char × List Char × Rat))}
    (hk : List.Forall₂ (Gives x.load) (sourcesGiven c) kss) (hrefs : ∀ k ∈ kss.flatten, ¬ Reserved k.1)
    {cs : List Confusable} (hcs : ConfusablesGiven x c cs)
    {early : Bool} (hearly : early = true ↔ Given c .earlyConfusables)
    {t : List Char} (ht : ¬ Reserved t) {b : Option Nat × VocabParams} {bs : List (Option Nat × VocabParams)}
    (hadds : addsOf t as.flatten = b :: bs) (hbi : b.2.vocabType.indexed = true)
    {fs1 fs2 : List (List Char)} (hfs : fs1 = [] → fs2 = [])
    {done : List (List (Option (List Char)))} {pre post : List (Option (List Char))} {bad : Option (List Char)}
    (hin : InputsOf x fs1 (done ++ [pre ++ bad :: post]))
    (hbad : bad = some [] ∨ (bad = none ∧ ¬ OneThread c))
    (hread : ¬ OneThread c → none ∉ pre ∧ ∀ lines ∈ done, none ∉ lines)
    (hlines : ∀ l ∈ done.flatMap readable ++ readable pre, l ≠ [] ∧ ShortEnough x.text alphabet p.variant l) :
    ∃ n rows, (OneThread c → n = pre.length) ∧ (¬ OneThread c → n = 1000 * (pre.length / 1000)) ∧
      List.Forall₂ (SuggestionRow x c alphabet (lexisFrom (sourcesGiven c) as kss)
        ⟨w, cs, early, x.editScript⟩ as p.variant) (done.flatMap readable ++ readable (pre.take n)) rows ∧
      PanicsAfter (x.mainT c (fs1 ++ fs2)) rows.flatten := by
  obtain ⟨args, L, asked, hL, _, _, _, _, hcfg, _, _, find⟩ := resources_listed hmarks hb hc hfiles hnum hfw ha
    hal hae hk hrefs hcs hearly
  have hst : p.singleThread = true ↔ OneThread c := by
    obtain ⟨q, r1, _, r3⟩ := hnum.params
    rw [r3.single]
    exact r1.single
  have row : ∀ l ∈ done.flatMap readable ++ readable pre, ∃ row,
      (∃ vs, L.vm.findVariants x.text.toExt (x.config c L w).toConfig p.variant l = .ok vs ∧
        QueryRow x c L p l vs row) ∧
      SuggestionRow x c alphabet (lexisFrom (sourcesGiven c) as kss) ⟨w, cs, early, x.editScript⟩ as
        p.variant l row := by
    intro l hl
    obtain ⟨hne, hsh⟩ := hlines l hl
    obtain ⟨vs, us, h1, h2, h3⟩ := find l hne hsh
    obtain ⟨cols, h4, h5⟩ : ∃ cols, List.Forall₂ (VariantColumns x c L p) vs cols ∧
        List.Forall₂ (SuggestionColumn x c ((sourcesGiven c).map Source.name) as p.variant) us cols := by
      clear h1 h2
      induction h3 with
      | nil => exact ⟨[], .nil, .nil⟩
      | cons h _ ih =>
        obtain ⟨cols, i1, i2⟩ := ih
        obtain ⟨_, ⟨col, c1, c2⟩, _⟩ := h
        exact ⟨col :: cols, .cons c1 i1, .cons c2 i2⟩
    exact ⟨_, ⟨vs, by rw [hcfg]; exact h1, cols, h4, rfl⟩, us, cols, h2, h5, rfl⟩
  have hempty : ∃ e, L.vm.findVariants x.text.toExt (x.config c L w).toConfig p.variant [] = .error e := by
    obtain ⟨args', L', _, hld, hL', hLF, _⟩ := usable_loads hmarks hfiles
    have : L' = L := loadedFor_unique hpos hc hLF asked.loaded
    subst this
    have hs := hld.sources
    obtain ⟨id, v, hE, _, _, _, hvi, _⟩ := (loaded_entry hL' (by omega) hld.words t ht).2 b bs hadds
    have hidx := loaded_index hL' (by omega) (List.mem_of_getElem? hE.2.1) (hvi.trans hbi)
    exact empty_input_panics L'.vm x.text.toExt (x.config c L' w).toConfig p.variant hidx
  obtain ⟨n, hn1, hn2⟩ : ∃ n, (p.singleThread = true → n = pre.length) ∧
      (p.singleThread = false → n = 1000 * (pre.length / 1000)) := by
    cases p.singleThread with
    | true => exact ⟨pre.length, ⟨fun _ => rfl, fun h => by cases h⟩⟩
    | false => exact ⟨1000 * (pre.length / 1000), ⟨fun h => (by cases h), fun _ => rfl⟩⟩
  have hsubset : ∀ l ∈ readable (pre.take n), l ∈ readable pre := by
    intro l hl
    rw [readable, List.mem_filterMap] at hl ⊢
    obtain ⟨a, h1, h2⟩ := hl
    exact ⟨a, List.mem_of_mem_take h1, h2⟩
  obtain ⟨rows, h1, h2⟩ := forall₂_both (l := done.flatMap readable ++ readable (pre.take n)) fun l hl => row l (by
    rw [List.mem_append] at hl ⊢
    exact hl.imp id (hsubset l))
  refine ⟨n, rows, fun h => hn1 (hst.mpr h), fun h => hn2 (by rw [← Bool.not_eq_true, hst]; exact h), h2, ?_⟩
  obtain ⟨r1, r2, rfl, g1, g2⟩ := forall₂_split h1
  have hproc : (x.printer c L p).process (L.vm.findVariants x.text.toExt (x.config c L w).toConfig p.variant)
      (c.isPresent .json) 0 (pre.take n) = .ok r2.flatten := (process_rows hj).mpr ⟨r2, g2, rfl⟩
  have hjs : c.isPresent .json = false := by rw [← Bool.not_eq_true, isPresent_iff rfl]; exact hj
  have hin' := inputsOf_iff.mpr hin
  have hfs' : (if (fs1 ++ fs2).isEmpty then ["-".toList] else fs1 ++ fs2) =
      (if fs1.isEmpty then ["-".toList] else fs1) ++ fs2 := by
    cases fs1 with
    | nil => rw [hfs rfl]; rfl
    | cons f fs1 => rfl
  suffices ∃ e, x.inputsT c (fs1 ++ fs2) L (x.config c L w) p = ⟨(r1 ++ r2).flatten, .error e⟩ by
    obtain ⟨e, he⟩ := this
    refine ⟨e, ?_⟩
    rw [asked_mainT hf hpos hc (by rw [hsub]; decide) (by rw [hsub]; decide) asked]
    unfold ToolExt.modesT
    rw [bindT_of (say_eq.mpr ⟨rfl, rfl⟩), bindT_error he, hjs]
    rfl
  unfold ToolExt.inputsT
  rw [hfs', hsub]
  simp only
  have outs : ∃ outs, collectSeq (if p.singleThread then (x.printer c L p).process
        (L.vm.findVariants x.text.toExt (x.config c L w).toConfig p.variant) (c.isPresent .json) 0
      else (x.printer c L p).processPar
        (L.vm.findVariants x.text.toExt (x.config c L w).toConfig p.variant) x.text.sched
        (c.isPresent .json)) done = .ok outs ∧ outs.flatten = r1.flatten := by
    have hr : p.singleThread = false → ∀ lines ∈ done, none ∉ lines := fun h =>
      (hread (by rw [← hst, h]; decide)).2
    clear hin hin' hlines h1 h2 row hread
    induction done generalizing r1 with
    | nil => cases g1; exact ⟨[], rfl, rfl⟩
    | cons lines done ih =>
      rw [List.flatMap_cons] at g1
      obtain ⟨a, b, rfl, k1, k2⟩ := forall₂_split g1
      obtain ⟨outs, k3, k4⟩ := ih b k2 fun h ls hls => hr h ls (List.mem_cons_of_mem _ hls)
      have k5 : (x.printer c L p).process
          (L.vm.findVariants x.text.toExt (x.config c L w).toConfig p.variant)
          (c.isPresent .json) 0 lines = .ok a.flatten := (process_rows hj).mpr ⟨a, k1, rfl⟩
      refine ⟨a.flatten :: outs, bind_ok.mpr ⟨_, ?_, bind_ok.mpr ⟨outs, k3, rfl⟩⟩, by simp [k4]⟩
      cases hp : p.singleThread with
      | true => exact k5
      | false => exact (parallel_query _ _ _ x.text.sched_perm _ _ (hr hp lines (by simp)) _).mpr k5
  obtain ⟨outs, o1, o2⟩ := outs
  have hall : RunAll (stateless (if p.singleThread then (x.printer c L p).processT
        (L.vm.findVariants x.text.toExt (x.config c L w).toConfig p.variant) (c.isPresent .json) 0
      else (x.printer c L p).processParT
        (L.vm.findVariants x.text.toExt (x.config c L w).toConfig p.variant) x.text.sched
        (c.isPresent .json))) () done r1.flatten [] := by
    refine (runAll_stateless ?_).mpr ⟨rfl, outs, o1, o2.symm⟩
    intro lines s u
    cases p.singleThread with
    | true => exact processT_ok
    | false => exact parLoopT_ok
  suffices ∃ e, (if p.singleThread then (x.printer c L p).processT
        (L.vm.findVariants x.text.toExt (x.config c L w).toConfig p.variant) (c.isPresent .json) 0
      else (x.printer c L p).processParT
        (L.vm.findVariants x.text.toExt (x.config c L w).toConfig p.variant) x.text.sched
        (c.isPresent .json)) (pre ++ bad :: post) = ⟨r2.flatten, .error e⟩ by
    obtain ⟨e, he⟩ := this
    exact ⟨e, by rw [List.flatten_append]; exact filesT_panics hin' hall he⟩
  obtain ⟨e, he⟩ := hempty
  cases hp : p.singleThread with
  | true =>
    have hone := hst.mp hp
    rcases hbad with rfl | ⟨_, hno⟩
    · rw [hn1 hp, List.take_length] at hproc
      exact ⟨e, processT_stops hproc he⟩
    · exact absurd hone hno
  | false =>
    have hno : ¬ OneThread c := by rw [← hst, hp]; decide
    obtain ⟨ls, rfl⟩ : ∃ ls : List (List Char), pre = ls.map some := by
      refine ⟨readable pre, ?_⟩
      have := (hread hno).1
      clear * - this
      induction pre with
      | nil => rfl
      | cons l pre ih =>
        simp only [List.mem_cons, not_or] at this
        cases l with
        | none => exact absurd rfl this.1
        | some l => simpa [readable] using ih this.2
    rw [hn2 hp, ← List.map_take, List.length_map] at hproc
    refine parLoopT_stops x.text.sched_perm ?_ (ls.length / 1000) ?_ rfl hproc
    · rcases hbad with rfl | ⟨rfl, _⟩
      · exact .inr ⟨[], e, rfl, he⟩
      · exact .inl rfl
    · simp only [List.length_append, List.length_map, List.length_cons]
      omega

/-! ## With other numbers of threads, schedules and orders -/

theorem processLearnT_ahead {x x' : ToolExt} (h : SameSurroundings x x') {p p' : TextParams}
    (hp : SameParams p p') (cfg : TextConfig) (o : Printer) (n : Nat) (json multi strict : Bool)
    (lines : List (Option (List Char))) (s : HMap Nat (List Nat)) {m m' : Vm} (hm : SameVm m m') :
    Ahead (fun a b => SameVm a.1 b.1 ∧ a.2 = b.2) (x.processLearnT cfg p o n json multi strict m lines)
      (x'.processLearnT cfg p' (resorted o s) n json multi strict m' lines) := by
  unfold ToolExt.processLearnT
  refine Ahead.bind (R := fun r r' => SameVm r.1 r'.1 ∧ r.2 = r'.2) (.quiet ?_) ?_
  · unfold ToolExt.processLearn
    refine (learnRounds_rel (fun m m' hm => learnFrom_rel hm (sameExt_of_tables h.text) hp cfg
      (linesUntilError lines) strict x.orders x'.orders) n hm).bind ?_
    rintro ⟨m1, cs⟩ ⟨m1', cs'⟩ ⟨⟨s1, h1, h2⟩, _⟩
    have e : ({ resorted o s with vm := m1' } : Printer) =
        resorted ({ o with vm := m1 } : Printer) s1 := by
      rw [show m1' = _ from h1]
      rfl
    simp only at h1 ⊢
    rw [e, learned_sorted]
    refine .bind_same _ ?_
    rintro ⟨t, ws⟩
    exact ⟨⟨s1, h1, h2⟩, rfl⟩
  · rintro ⟨m1, t, ws⟩ ⟨m1', t', ws'⟩ ⟨h1, h2⟩
    cases h2
    refine .bind_same _ fun _ => ?_
    refine ⟨List.prefix_rfl, ?_⟩
    intro a ha
    cases ha
    exact ⟨_, rfl, h1, rfl⟩

theorem modesT_ahead {x x' : ToolExt} (h : SameSurroundings x x') {c c' : CommandLine}
    (hc : SameOptions c c') (files : List (List Char)) {L L' : Loaded} (hL : SameLoaded L L')
    (w : Weights) {p p' : TextParams} (hp : SameParams p p')
    (hst : p.singleThread = true → p'.singleThread = true) :
    Ahead Eq (x.modesT c files L w p) (x'.modesT c' files L' w p') := by
  have hcfg : x'.config c' L' w = x.config c L w := by
    rw [← config_same h c hL w]
    unfold ToolExt.config
    rw [hc.isPresent .earlyConfusables]
  obtain ⟨s, hpr⟩ : ∃ s, x'.printer c' L' p' = resorted (x.printer c L p) s := by
    obtain ⟨s, hs⟩ := printer_same h c hL p p' (by obtain ⟨b, rfl⟩ := hp; rfl)
    refine ⟨s, ?_⟩
    rw [← hs]
    unfold ToolExt.printer
    rw [hc.isPresent .outputLexmatch]
  unfold ToolExt.modesT ToolExt.inputsT
  rw [hcfg, hpr, hc.isPresent .json]
  refine .bind_same _ fun _ => ?_
  suffices Ahead Eq _ _ from this.bind fun a _ e => e ▸ .refl _
  generalize (if files.isEmpty = true then ["-".toList] else files) = fs
  rw [hc.1]
  have q : Ahead Eq
      (x.filesT (stateless (if p.singleThread then (x.printer c L p).processT
          (L.vm.findVariants x.text.toExt (x.config c L w).toConfig p.variant) (c.isPresent .json) 0
        else (x.printer c L p).processParT
          (L.vm.findVariants x.text.toExt (x.config c L w).toConfig p.variant) x.text.sched
          (c.isPresent .json))) false () fs)
      (x'.filesT (stateless (if p'.singleThread then (resorted (x.printer c L p) s).processT
          (L'.vm.findVariants x'.text.toExt (x.config c L w).toConfig p'.variant) (c.isPresent .json) 0
        else (resorted (x.printer c L p) s).processParT
          (L'.vm.findVariants x'.text.toExt (x.config c L w).toConfig p'.variant) x'.text.sched
          (c.isPresent .json))) false () fs) := by
    have hf : L'.vm.findVariants x'.text.toExt (x.config c L w).toConfig p'.variant =
        L.vm.findVariants x.text.toExt (x.config c L w).toConfig p.variant := by
      funext i
      rw [show p'.variant = p.variant by obtain ⟨b, rfl⟩ := hp; rfl]
      exact findVariants_same hL.1 (sameExt_of_tables h.text) _ _ _
    rw [hf]
    refine filesT_ahead h.load h.stdin (R := fun a b => a = b) (fun m m' lines e => stateless_ahead ?_ m m' lines)
      false rfl fs
    intro lines
    cases h1 : p.singleThread with
    | true =>
      rw [hst h1]
      simp only [if_true, processT_sorted]
      exact .refl _
    | false =>
      cases p'.singleThread with
      | true =>
        simp only [if_true, Bool.false_eq_true, if_false, processT_sorted]
        exact parLoopT_processT _ _ x.text.sched_perm _ _ _ _
      | false =>
        simp only [Bool.false_eq_true, if_false]
        exact parLoopT_ahead _ _ _ x.text.sched_perm x'.text.sched_perm _ _ _ _
  cases hs : c.sub with
  | query => exact q
  | index => exact q
  | testinput => exact q
  | search =>
    simp only
    rw [hc.isPresent .retainLinebreaks, hc.isPresent .perLine]
    exact filesT_ahead h.load h.stdin (R := fun a b => a = b) (fun m m' lines e => stateless_ahead
      (fun lines => processSearchT_ahead _ _
        (fun i => findAllMatches_rel hL.1 (sameExt_of_tables h.text) hp _ i) _ _ _ lines) m m' lines)
      false rfl fs
  | learn =>
    simp only
    rw [hc.isPresent .multiOutput, hc.isPresent .strict, hc.parsed .iterations]
    exact filesT_ahead h.load h.stdin (R := SameVm) (fun m m' lines hm => .bind_same _ fun n =>
      processLearnT_ahead h hp _ _ n _ _ _ lines s hm) false hL.1 fs

/-- **C114**: what a run has printed when it panics does not depend on the orders of hash maps nor on the schedule
of the threads.  With several threads, a beginning is printed of what is printed with a single thread; and if the
run with several threads does not panic, the same. -/
theorem threads_print_beginning {x x' : ToolExt} (h : SameSurroundings x x') (hpos : StrictMono x.pos)
    {c c' : CommandLine} (hc : Accepted c) (hc' : Accepted c') (hsub : c'.sub = c.sub)
    (hdebug : c'.debug = c.debug) (hsame : otherOptions c' = otherOptions c)
    (hthread : OneThread c → OneThread c') (hidx : c.sub ≠ .index) (files : List (List Char)) :
    (x.mainT c files).printed <+: (x'.mainT c' files).printed ∧
      ∀ e, (x.mainT c files).result = .ok e → x'.mainT c' files = x.mainT c files := by
  have hopt : SameOptions c c' := ⟨hsub, hdebug, valuesOf_otherOptions hsub hsame⟩
  suffices ha : Ahead Eq (x.mainT c files) (x'.mainT c' files) by
    refine ⟨ha.pre, ?_⟩
    intro e he
    obtain ⟨_, h1, rfl⟩ := ha.ok e he
    rw [h1, ← he]
  unfold ToolExt.mainT CommandLine.debugLevel
  rw [h.parseF64, weights_same hopt, hopt.2.1, hopt.1, h.pos, h.load, h.stdin]
  refine .bind_same _ fun ws => .bind_same _ fun _ => ?_
  have hargs := loadArgs_threads hpos hc hc' hopt hsame
  by_cases ht : c.sub = .testinput
  · rw [if_pos ht, if_pos ht]
    refine (Ahead.quiet hargs).bind ?_
    rintro a b ⟨e, _⟩
    rw [e]
    exact .refl _
  · rw [if_neg ht, if_neg ht]
    unfold ToolExt.withModelT
    rw [h.pos, h.load, h.parseF32, h.parseF64, hopt.1]
    refine (Ahead.quiet hargs).bind fun a b hab => ?_
    rw [load_args hab]
    refine (Ahead.quiet (load_rel x.load a x.orders x'.orders)).bind fun L L' hL => ?_
    have hp : Rel (fun p p' => ∃ b, p' = { p with singleThread := b } ∧ (p.singleThread = true → b = true))
        (c.searchParameters x.parseF32 x.parseF64) (c'.searchParameters x.parseF32 x.parseF64) := by
      have h0 := searchParameters_rel hopt x.parseF32 x.parseF64
      have hone : ∀ {c : CommandLine} {p}, c.searchParameters x.parseF32 x.parseF64 = .ok p →
          (p.singleThread = true ↔ OneThread c) := by
        intro c p hp
        have hdebug : c.isPresent .debug = false := isPresent_undeclared (by cases c.sub <;> rfl)
        unfold CommandLine.searchParameters at hp
        iterate 13 obtain ⟨_, _, hp⟩ := bind_ok.mp hp
        rw [← pure_ok.mp hp]
        simp only [hdebug, Bool.or_false, Bool.or_eq_true]
        exact or_congr (isPresent_iff rfl) (isPresent_iff rfl)
      cases hr : c.searchParameters x.parseF32 x.parseF64 with
      | error e =>
        cases hr' : c'.searchParameters x.parseF32 x.parseF64 with
        | error e' => trivial
        | ok p' => rw [hr, hr'] at h0; exact h0.elim
      | ok p =>
        cases hr' : c'.searchParameters x.parseF32 x.parseF64 with
        | error e' => rw [hr, hr'] at h0; exact h0.elim
        | ok p' =>
          rw [hr, hr'] at h0
          obtain ⟨b, rfl⟩ := h0
          refine ⟨b, rfl, fun e => ?_⟩
          exact (hone hr').mpr (hthread ((hone hr).mp e))
    refine (Ahead.quiet hp).bind ?_
    rintro p p' ⟨b, rfl, hb⟩
    by_cases hcut : (!cutoffAccepted p.cutoffThreshold) = true
    · rw [if_pos hcut, if_pos hcut]
      exact .refl _
    · rw [if_neg hcut, if_neg hcut, if_neg hidx, if_neg hidx, finite_rel p b]
      cases finiteWeights ws with
      | none => exact .refl _
      | some w =>
        cases hq : p.finite with
        | none => exact .refl _
        | some q =>
          refine modesT_ahead h hopt files hL w ⟨b, rfl⟩ ?_
          intro e
          refine hb ?_
          rw [← e]
          exact (params_finite_iff.mp hq).single.symm

/-! ## Examples -/

/-- `--single-thread` and the options of `exQueryE` -/
def exQueryE1 : CommandLine := { exQueryE with given := (.singleThread, []) :: exQueryE.given }


/-- A query for `ab` in a file, and then `ab b`, an empty line and `bb`: the rows before the empty line. -/
example : ∃ n rows, (OneThread exQueryE1 → n = 1) ∧ (¬ OneThread exQueryE1 → n = 0) ∧
    List.Forall₂ (SuggestionRow exToolE exQueryE1 [["a".toList, "A".toList], ["b".toList]]
        (lexisFrom [.errors ['e'], .lexicon ['l'], .variants ['v']] (exAdded.take 3) exLinksE)
        ⟨⟨1 / 2, 1 / 8, 1 / 8, 1 / 8, 1 / 8⟩, exLoaded.confusables, true, exToolR.editScript⟩
        (exAdded.take 3) (exNumbers exQueryE1).variant)
      ([[some "ab".toList]].flatMap readable ++ readable ([some "ab b".toList].take n)) rows ∧
      PanicsAfter (exToolE.mainT exQueryE1 ([['q'], ['-']] ++ [['n']])) rows.flatten := by
  obtain ⟨entries, e1, e2, _⟩ := read_alphabet_entries (isSpace := exToolR.load.isSpace) rfl []
    [some "a\tA".toList, some ['b']]
  have he : entries = [["a".toList, "A".toList], ["b".toList]] := by
    rw [List.nil_append] at e2
    rw [← e2]
    decide
  rw [he] at e1
  have hnum : UsableNumbers exToolR exQueryE1 ⟨1 / 2, 1 / 8, 1 / 8, 1 / 8, 1 / 8⟩ (exNumbers exQueryE1) :=
    exUsableNumbers (accepted_of (by decide) (by decide)) rfl (by decide +kernel) rfl
      (exSome exTextParams (by decide +kernel)) (.inl (by decide +kernel))
  have hone : OneThread exQueryE1 := .inl ⟨[], by decide⟩
  have short : ∀ l : List Char, l.length ≤ 4 →
      ShortEnough exText [["a".toList, "A".toList], ["b".toList]] (exNumbers exQueryE1).variant l := by
    intro l hl
    have := exShortS hl
    unfold ShortEnough at this ⊢
    rw [show (exNumbers exQueryE1).variant.maxAnagramDistance = .absolute 3 from rfl]
    exact this
  have hl4 : ∀ l ∈ [[some "ab".toList]].flatMap readable ++ readable [some "ab b".toList],
      l ≠ [] ∧ l.length ≤ 4 := by
    have e : [[some "ab".toList]].flatMap readable ++ readable [some "ab b".toList] =
        ["ab".toList, "ab b".toList] := by decide
    rw [e]
    decide
  exact query_prints_before_panic (x := exToolE) (c := exQueryE1) ex_noSemicolon ex_pos ex_marks rfl
    (accepted_of (by decide) (by decide)) rfl (not_given (by decide))
    ⟨⟨{ exArgs with lm := [] }, by constructor <;> decide, exLoadableQuery⟩, by decide⟩
    ⟨hnum.weights, hnum.nonzero, hnum.params, hnum.cutoff, hnum.debug⟩
    (by decide +kernel) (afile := ['a']) (by decide) rfl e1
    (kss := exLinksE) exGivesE (by unfold Reserved; decide) (exConfusablesE (by decide))
    (early := true) (by simp only [true_iff]; exact ⟨[], by decide⟩)
    (t := "ab".toList) (b := (some 3, { index := 1 })) (bs := [(none, { index := 2 })]) (by decide) (by decide)
    rfl (by decide) (done := [[some "ab".toList]]) (pre := [some "ab b".toList]) (bad := some [])
    (post := [some "bb".toList]) (inputsOf_iff.mp (by decide)) (.inl rfl) (fun h => absurd hone h)
    fun l hl => ⟨(hl4 l hl).1, short l (hl4 l hl).2⟩

/-- **C114**: with several threads, the finished line before the empty line is lost. -/
theorem threads_lose_lines : PanicsAfter (exToolE.mainT exQueryE1 [['q'], ['-']])
      ("ab\tab\t1\t\t\"l;v\"\tb\t0.5\t\t\"e;l\"\tba\t0.5\t\t\"v\"\tab\t0.5\t\t\"l;v\"\n".toList ++
        "ab b\tab\t0.5\t\t\"l;v\"\tb\t0.5\t\t\"e;l\"\n".toList) ∧
    PanicsAfter (exToolE.mainT exQueryE [['q'], ['-']])
      "ab\tab\t1\t\t\"l;v\"\tb\t0.5\t\t\"e;l\"\tba\t0.5\t\t\"v\"\tab\t0.5\t\t\"l;v\"\n".toList :=
  ⟨⟨.assertion, by decide +kernel⟩, ⟨.assertion, by decide +kernel⟩⟩

example : (exToolE.mainT exQueryE [['q'], ['-']]).printed <+: (exToolE.mainT exQueryE1 [['q'], ['-']]).printed :=
  (threads_print_beginning (x := exToolE) (x' := exToolE) (c := exQueryE) (c' := exQueryE1)
    ⟨rfl, ⟨rfl, rfl, rfl, rfl, rfl, rfl, rfl, rfl⟩, rfl, rfl, rfl, rfl, rfl, rfl⟩ ex_pos
    (accepted_of (by decide) (by decide)) (accepted_of (by decide) (by decide)) rfl rfl (by decide)
    (fun _ => .inl ⟨[], by decide⟩) (by decide) _).1

/-- The file `n` does not exist. -/
example : ∃ t, PanicsAfter (exToolR.mainT exQueryE ([['q']] ++ ['n'] :: [['-']])) t ∧
    ((Given exQueryE .json ∧ "ab\tab\t1\t\t\"l;v\"\tb\t0.5\t\t\"e;l\"\tba\t0.5\t\t\"v\"\tab\t0.5\t\t\"l;v\"\n".toList =
        t ++ "]\n".toList) ∨
      (¬ Given exQueryE .json ∧ "ab\tab\t1\t\t\"l;v\"\tb\t0.5\t\t\"e;l\"\tba\t0.5\t\t\"v\"\tab\t0.5\t\t\"l;v\"\n".toList =
        t)) :=
  unopened_file_after_output (x := exToolR) (c := exQueryE) (ws := []) ex_noSemicolon ex_pos
    (accepted_of (by decide) (by decide)) (by decide) (by decide) (by decide) (by decide +kernel)
    (by unfold StdinName; decide) rfl

example : (∀ s ws, exToolE.main exQueryE [] = .ok (.output s ws) ↔ exToolE.mainT exQueryE [] = ⟨s, .ok (.done ws)⟩) ∧
    ∃ s, PanicsAfter (exToolE.mainT exQueryE []) s :=
  ⟨(trace_complete exToolE exQueryE []).1, [], .assertion, by decide +kernel⟩

end Verif.Props
