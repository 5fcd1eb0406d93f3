import Verif.Lemmas.Run
import Verif.Model.Trace

/-!
# What a run has printed: lemmas
-/
namespace Verif.Lemmas

open Verif.Spec Verif.Model Verif.Props

theorem quiet_eq {α : Type} {r : Res α} {s : List Char} {q : Res α} :
    Trace.quiet r = ⟨s, q⟩ ↔ s = [] ∧ r = q := by
  simp [Trace.quiet, eq_comm]

theorem say_eq {s t : List Char} {q : Res Unit} : Trace.say s = ⟨t, q⟩ ↔ s = t ∧ q = .ok () := by
  simp [Trace.say, eq_comm]

theorem pureT_eq {α : Type} {a : α} {s : List Char} {q : Res α} :
    (pure a : Trace α) = ⟨s, q⟩ ↔ s = [] ∧ q = .ok a := by
  simp [pure, eq_comm]

theorem bindT_ok {α β : Type} {t : Trace α} {f : α → Trace β} {s : List Char} {b : β} :
    (t >>= f) = ⟨s, .ok b⟩ ↔ ∃ s1 s2 a, t = ⟨s1, .ok a⟩ ∧ f a = ⟨s2, .ok b⟩ ∧ s = s1 ++ s2 := by
  obtain ⟨p, r⟩ := t
  cases r with
  | error e => simp [bind, Trace.bind]
  | ok a =>
    simp only [bind, Trace.bind, Trace.mk.injEq, Except.ok.injEq]
    constructor
    · rintro ⟨h1, h2⟩
      exact ⟨p, (f a).printed, a, ⟨rfl, rfl⟩, by rw [← h2], h1.symm⟩
    · rintro ⟨s1, s2, a', ⟨rfl, rfl⟩, h2, rfl⟩
      rw [h2]
      exact ⟨rfl, rfl⟩

theorem bindT_of {α β : Type} {t : Trace α} {f : α → Trace β} {s : List Char} {a : α}
    (h : t = ⟨s, .ok a⟩) : (t >>= f) = ⟨s ++ (f a).printed, (f a).result⟩ := by
  rw [h]; rfl

theorem bindT_error {α β : Type} {t : Trace α} {f : α → Trace β} {s : List Char} {e : Panic}
    (h : t = ⟨s, .error e⟩) : (t >>= f) = ⟨s, .error e⟩ := by
  rw [h]; rfl

theorem bindT_assoc {α β γ : Type} (t : Trace α) (f : α → Trace β) (g : β → Trace γ) :
    ((t >>= f) >>= g) = (t >>= fun a => f a >>= g) := by
  obtain ⟨p, r⟩ := t
  cases r with
  | error e => rfl
  | ok a =>
    simp only [bind, Trace.bind]
    cases h : (f a).result with
    | error e => simp
    | ok b => simp [List.append_assoc]

theorem quiet_bind {α β : Type} (a : α) (f : α → Trace β) : (Trace.quiet (.ok a) >>= f) = f a := by
  simp [bind, Trace.bind, Trace.quiet]

theorem pureT_bind {α β : Type} (a : α) (f : α → Trace β) : ((pure a : Trace α) >>= f) = f a := by
  simp [bind, Trace.bind, pure]

/-! ## The same results as without the traces -/

theorem processT_ok {o : Printer} {find : List Char → Res (List VariantResult)} {json : Bool} {n : Nat}
    {lines : List (Option (List Char))} {s : List Char} {u : Unit} :
    o.processT find json n lines = ⟨s, .ok u⟩ ↔ o.process find json n lines = .ok s := by
  induction lines generalizing n s with
  | nil =>
    simp only [Printer.processT, Printer.process, pureT_eq, Except.ok.injEq]
    exact ⟨fun h => h.1.symm, fun h => ⟨h.symm, trivial⟩⟩
  | cons l lines ih =>
    cases l with
    | none => exact ih
    | some l =>
      simp only [Printer.processT, Printer.process, bindT_ok, bind_ok, quiet_eq, say_eq, ih, pure_ok]
      constructor
      · rintro ⟨_, _, vs, ⟨rfl, h1⟩, ⟨_, _, t, ⟨rfl, h2⟩, ⟨_, r, _, ⟨rfl, _⟩, h3, rfl⟩, rfl⟩, rfl⟩
        exact ⟨vs, h1, t, h2, r, h3, rfl⟩
      · rintro ⟨vs, h1, t, h2, r, h3, rfl⟩
        exact ⟨[], _, vs, ⟨rfl, h1⟩, ⟨[], _, t, ⟨rfl, h2⟩, ⟨t, r, (), ⟨rfl, trivial⟩, h3, rfl⟩, rfl⟩, rfl⟩

theorem printBatchT_ok {o : Printer} {json : Bool} {n : Nat} {ps : List (List Char × List VariantResult)}
    {s : List Char} {u : Unit} :
    o.printBatchT json n ps = ⟨s, .ok u⟩ ↔ o.printBatch json n ps = .ok s := by
  induction ps generalizing n s with
  | nil =>
    simp only [Printer.printBatchT, Printer.printBatch, pureT_eq, Except.ok.injEq]
    exact ⟨fun h => h.1.symm, fun h => ⟨h.symm, trivial⟩⟩
  | cons p ps ih =>
    obtain ⟨i, v⟩ := p
    simp only [Printer.printBatchT, Printer.printBatch, bindT_ok, bind_ok, quiet_eq, say_eq, ih, pure_ok]
    constructor
    · rintro ⟨_, _, t, ⟨rfl, h2⟩, ⟨_, r, _, ⟨rfl, _⟩, h3, rfl⟩, rfl⟩
      exact ⟨t, h2, r, h3, rfl⟩
    · rintro ⟨t, h2, r, h3, rfl⟩
      exact ⟨[], _, t, ⟨rfl, h2⟩, ⟨t, r, (), ⟨rfl, trivial⟩, h3, rfl⟩, rfl⟩

theorem parLoopT_ok {o : Printer} {find : List Char → Res (List VariantResult)} {sched : Nat → List Nat}
    {json : Bool} {fuel n : Nat} {lines : List (Option (List Char))} {s : List Char} {u : Unit} :
    o.parLoopT find sched json fuel n lines = ⟨s, .ok u⟩ ↔
      o.parLoop find sched json fuel n lines = .ok s := by
  induction fuel generalizing n lines s with
  | zero => simp [Printer.parLoopT, Printer.parLoop, quiet_eq]
  | succ fuel ih =>
    simp only [Printer.parLoopT, Printer.parLoop, bindT_ok, bind_ok, quiet_eq, printBatchT_ok]
    constructor
    · rintro ⟨_, _, ⟨b, r, eof⟩, ⟨rfl, h1⟩, ⟨_, _, out, ⟨rfl, h2⟩, ⟨t, t', _, h3, h4, rfl⟩, rfl⟩, rfl⟩
      refine ⟨(b, r, eof), h1, out, h2, t, h3, ?_⟩
      cases eof with
      | true =>
        obtain ⟨rfl, _⟩ := pureT_eq.mp h4
        simp [pure, Except.pure]
      | false =>
        simp only [Bool.false_eq_true, if_false] at h4 ⊢
        exact bind_ok.mpr ⟨t', ih.mp h4, rfl⟩
    · rintro ⟨⟨b, r, eof⟩, h1, out, h2, t, h3, h4⟩
      cases eof with
      | true =>
        cases pure_ok.mp h4
        exact ⟨[], s, (b, r, true), ⟨rfl, h1⟩, ⟨[], s, out, ⟨rfl, h2⟩,
          ⟨s, [], (), h3, pureT_eq.mpr ⟨rfl, rfl⟩, by simp⟩, rfl⟩, rfl⟩
      | false =>
        simp only [Bool.false_eq_true, if_false] at h4
        obtain ⟨t', h5, h6⟩ := bind_ok.mp h4
        cases pure_ok.mp h6
        exact ⟨[], _, (b, r, false), ⟨rfl, h1⟩, ⟨[], _, out, ⟨rfl, h2⟩,
          ⟨t, t', (), h3, ih.mpr h5, rfl⟩, rfl⟩, rfl⟩

theorem foundAllT_ok {o : Printer} {json : Bool} {n : Nat} {ms : List Match} {s : List Char} {u : Unit} :
    o.foundAllT json n ms = ⟨s, .ok u⟩ ↔ o.foundAll json n ms = .ok s := by
  induction ms generalizing n s with
  | nil =>
    simp only [Printer.foundAllT, Printer.foundAll, pureT_eq, Except.ok.injEq]
    exact ⟨fun h => h.1.symm, fun h => ⟨h.symm, trivial⟩⟩
  | cons a ms ih =>
    simp only [Printer.foundAllT, Printer.foundAll, bindT_ok, bind_ok, quiet_eq, say_eq, ih, pure_ok]
    constructor
    · rintro ⟨_, _, t, ⟨rfl, h2⟩, ⟨_, r, _, ⟨rfl, _⟩, h3, rfl⟩, rfl⟩
      exact ⟨t, h2, r, h3, rfl⟩
    · rintro ⟨t, h2, r, h3, rfl⟩
      exact ⟨[], _, t, ⟨rfl, h2⟩, ⟨t, r, (), ⟨rfl, trivial⟩, h3, rfl⟩, rfl⟩

theorem searchLoopT_ok {o : Printer} {find : List Char → Res (List Match)} {json : Bool} {n : Nat}
    {batches : List (List Char)} {s : List Char} {u : Unit} :
    o.searchLoopT find json n batches = ⟨s, .ok u⟩ ↔ o.searchLoop find json n batches = .ok s := by
  induction batches generalizing n s with
  | nil =>
    simp only [Printer.searchLoopT, Printer.searchLoop, pureT_eq, Except.ok.injEq]
    exact ⟨fun h => h.1.symm, fun h => ⟨h.symm, trivial⟩⟩
  | cons b batches ih =>
    simp only [Printer.searchLoopT, Printer.searchLoop, bindT_ok, bind_ok, quiet_eq, say_eq, foundAllT_ok, ih,
      pure_ok]
    constructor
    · rintro ⟨_, _, ms, ⟨rfl, h1⟩, ⟨_, _, _, ⟨rfl, _⟩, ⟨t, r, _, h2, h3, rfl⟩, rfl⟩, rfl⟩
      exact ⟨ms, h1, t, h2, r, h3, by simp⟩
    · rintro ⟨ms, h1, t, h2, r, h3, rfl⟩
      exact ⟨[], _, ms, ⟨rfl, h1⟩, ⟨_, _, (), ⟨rfl, trivial⟩, ⟨t, r, (), h2, h3, rfl⟩, rfl⟩, by simp⟩

theorem processSearchT_ok {o : Printer} {find : List Char → Res (List Match)} {json nl perLine : Bool}
    {lines : List (Option (List Char))} {s : List Char} {u : Unit} :
    o.processSearchT find json nl perLine lines = ⟨s, .ok u⟩ ↔
      o.processSearch find json nl perLine lines = .ok s := by
  unfold Printer.processSearchT Printer.processSearch
  cases searchBatches (if nl then ' ' else '\n') perLine (lines.length + 1) lines with
  | none => simp [quiet_eq]
  | some batches => exact searchLoopT_ok

theorem processLearnT_ok {x : ToolExt} {cfg : TextConfig} {p : TextParams} {o : Printer}
    {n : Nat} {json multi strict : Bool} {m m' : Vm} {lines : List (Option (List Char))} {s : List Char}
    {ws : List (List FileWrite)} :
    x.processLearnT cfg p o n json multi strict m lines = ⟨s, .ok (m', ws)⟩ ↔
      ∃ w, ws = [w] ∧ x.processLearn cfg p o n json multi strict m lines = .ok (m', s, w) := by
  unfold ToolExt.processLearnT
  simp only [bindT_ok, quiet_eq, say_eq, pureT_eq, Except.ok.injEq, Prod.mk.injEq]
  constructor
  · rintro ⟨_, _, ⟨a, b, d⟩, ⟨rfl, h1⟩, ⟨_, _, _, ⟨rfl, _⟩, ⟨rfl, rfl, rfl⟩, rfl⟩, rfl⟩
    exact ⟨d, rfl, by simpa using h1⟩
  · rintro ⟨w, rfl, h⟩
    exact ⟨[], s, (m', s, w), ⟨rfl, h⟩, ⟨s, [], (), ⟨rfl, trivial⟩, ⟨rfl, rfl, rfl⟩, by simp⟩, rfl⟩

/-- One input. -/
def ToolExt.inputT (x : ToolExt) (used : Bool) (f : List Char) : Trace (Bool × List (Option (List Char))) :=
  if isStdin f then .quiet (.ok (true, if used then [] else x.stdin))
  else do
    let lines ← .quiet (x.load.open f)
    return (used, lines)

/-- What processing the inputs in order gives. -/
inductive RunAll {σ : Type} (run : σ → List (Option (List Char)) → Trace (σ × List (List FileWrite))) :
    σ → List (List (Option (List Char))) → List Char → List (List FileWrite) → Prop
  | nil (m : σ) : RunAll run m [] [] []
  | cons {m m' : σ} {lines : List (Option (List Char))} {inputs : List (List (Option (List Char)))}
      {s s' : List Char} {ws ws' : List (List FileWrite)} (h : run m lines = ⟨s, .ok (m', ws)⟩)
      (h' : RunAll run m' inputs s' ws') : RunAll run m (lines :: inputs) (s ++ s') (ws ++ ws')

theorem filesT_cons {x : ToolExt} {σ : Type}
    {run : σ → List (Option (List Char)) → Trace (σ × List (List FileWrite))} {used : Bool} {m : σ}
    {f : List Char} {fs : List (List Char)} :
    x.filesT run used m (f :: fs) = (ToolExt.inputT x used f >>= fun i => run m i.2 >>= fun r =>
      x.filesT run i.1 r.1 fs >>= fun ws' => pure (r.2 ++ ws')) := by
  rw [ToolExt.filesT, ToolExt.inputT]

theorem filesT_ok {x : ToolExt} {σ : Type}
    {run : σ → List (Option (List Char)) → Trace (σ × List (List FileWrite))} {used : Bool} {m : σ}
    {files : List (List Char)} {s : List Char} {ws : List (List FileWrite)} :
    x.filesT run used m files = ⟨s, .ok ws⟩ ↔
      ∃ inputs, x.inputs used files = .ok inputs ∧ RunAll run m inputs s ws := by
  induction files generalizing used m s ws with
  | nil =>
    simp only [ToolExt.filesT, ToolExt.inputs, pureT_eq, Except.ok.injEq]
    constructor
    · rintro ⟨rfl, rfl⟩; exact ⟨[], rfl, .nil m⟩
    · rintro ⟨_, rfl, h⟩; cases h; exact ⟨rfl, rfl⟩
  | cons f fs ih =>
    rw [filesT_cons, ToolExt.inputs, ToolExt.inputT]
    by_cases hf : isStdin f = true
    · simp only [hf, if_true, quiet_bind, bindT_ok, ih, bind_ok, pure_ok, pureT_eq, Except.ok.injEq]
      constructor
      · rintro ⟨t, _, ⟨m', w⟩, h1, ⟨t', _, w', ⟨ins, h2, h3⟩, ⟨rfl, rfl⟩, rfl⟩, rfl⟩
        refine ⟨_, ⟨ins, h2, rfl⟩, ?_⟩
        rw [List.append_nil]
        exact .cons h1 h3
      · rintro ⟨_, ⟨ins, h2, rfl⟩, h⟩
        cases h with
        | @cons _ m' _ _ t t' w w' h1 h3 =>
          exact ⟨t, t', (m', w), h1, ⟨t', [], w', ⟨ins, h2, h3⟩, ⟨rfl, rfl⟩, by simp⟩, rfl⟩
    · simp only [hf, Bool.false_eq_true, if_false, bindT_ok, ih, bind_ok, pure_ok, pureT_eq, quiet_eq,
        Except.ok.injEq]
      constructor
      · rintro ⟨_, _, ⟨u, lines⟩, ⟨_, _, _, ⟨rfl, h0⟩, ⟨rfl, e⟩, rfl⟩, ⟨t, _, ⟨m', w⟩, h1, ⟨t', _, w', ⟨ins, h2, h3⟩,
          ⟨rfl, rfl⟩, rfl⟩, rfl⟩, rfl⟩
        cases e
        refine ⟨_, ⟨_, h0, ins, h2, rfl⟩, ?_⟩
        simp only [List.append_nil, List.nil_append]
        exact .cons h1 h3
      · rintro ⟨_, ⟨lines, h0, ins, h2, rfl⟩, h⟩
        cases h with
        | @cons _ m' _ _ t t' w w' h1 h3 =>
          exact ⟨[], _, (used, lines), ⟨[], [], lines, ⟨rfl, h0⟩, ⟨rfl, rfl⟩, rfl⟩, ⟨t, t', (m', w), h1,
            ⟨t', [], w', ⟨ins, h2, h3⟩, ⟨rfl, rfl⟩, by simp⟩, rfl⟩, rfl⟩

theorem runAll_stateless {run : List (Option (List Char)) → Trace Unit}
    {run' : List (Option (List Char)) → Res (List Char)}
    (h : ∀ lines s u, run lines = ⟨s, .ok u⟩ ↔ run' lines = .ok s) {u : Unit}
    {inputs : List (List (Option (List Char)))} {s : List Char} {ws : List (List FileWrite)} :
    RunAll (stateless run) u inputs s ws ↔
      ws = [] ∧ ∃ outs, collectSeq run' inputs = .ok outs ∧ s = outs.flatten := by
  induction inputs generalizing s ws with
  | nil =>
    constructor
    · intro h; cases h; exact ⟨rfl, [], rfl, rfl⟩
    · rintro ⟨rfl, outs, h, rfl⟩; cases h; exact .nil _
  | cons lines inputs ih =>
    simp only [collectSeq]
    constructor
    · intro hr
      cases hr with
      | @cons _ m' _ _ t t' w w' h1 h3 =>
        obtain ⟨rfl, outs, h4, rfl⟩ := ih.mp h3
        obtain ⟨t1, t2, _, h5, h6, rfl⟩ := bindT_ok.mp h1
        obtain ⟨rfl, e⟩ := pureT_eq.mp h6
        cases e
        exact ⟨rfl, t1 :: outs, bind_ok.mpr ⟨t1, (h _ _ _).mp h5, bind_ok.mpr ⟨outs, h4, rfl⟩⟩, by simp⟩
    · rintro ⟨rfl, outs, h1, rfl⟩
      obtain ⟨t, h2, h1⟩ := bind_ok.mp h1
      obtain ⟨ts, h3, h1⟩ := bind_ok.mp h1
      cases pure_ok.mp h1
      rw [List.flatten_cons]
      exact .cons (ws := []) (bindT_ok.mpr ⟨t, [], (), (h _ _ _).mpr h2, pureT_eq.mpr ⟨rfl, rfl⟩, by simp⟩)
        (ih.mpr ⟨rfl, ts, h3, rfl⟩)

theorem runAll_learn {x : ToolExt} {c : CommandLine} {cfg : TextConfig} {p : TextParams} {o : Printer}
    {json multi strict : Bool} {n : Nat} (hn : c.parsed .iterations (parseUnsigned 255) = .ok n) {m : Vm}
    {inputs : List (List (Option (List Char)))} {s : List Char} {ws : List (List FileWrite)} :
    RunAll (fun m lines => do
      let iterations ← .quiet (c.parsed .iterations (parseUnsigned 255))
      x.processLearnT cfg p o iterations json multi strict m lines) m inputs s ws ↔
      x.learnInputs cfg p o n json multi strict m inputs = .ok (s, ws) := by
  induction inputs generalizing m s ws with
  | nil =>
    simp only [ToolExt.learnInputs, Except.ok.injEq, Prod.mk.injEq]
    constructor
    · intro h; cases h; exact ⟨rfl, rfl⟩
    · rintro ⟨rfl, rfl⟩; exact .nil _
  | cons lines inputs ih =>
    simp only [ToolExt.learnInputs]
    constructor
    · intro hr
      cases hr with
      | @cons _ m' _ _ t t' w w' h1 h3 =>
        rw [hn, quiet_bind] at h1
        obtain ⟨w, rfl, h2⟩ := processLearnT_ok.mp h1
        exact bind_ok.mpr ⟨_, h2, bind_ok.mpr ⟨_, ih.mp h3, rfl⟩⟩
    · intro h
      obtain ⟨⟨m', t, w⟩, h1, h⟩ := bind_ok.mp h
      obtain ⟨⟨t', w'⟩, h2, h⟩ := bind_ok.mp h
      cases pure_ok.mp h
      refine .cons (ws := [w]) ?_ (ih.mpr h2)
      rw [hn, quiet_bind]
      exact processLearnT_ok.mpr ⟨w, rfl, h1⟩

/-! ## One run prints a beginning of what another prints -/

/-- The first prints a beginning of what the second prints; if it does not panic, the same, and the results
are related. -/
structure Ahead {α β : Type} (R : α → β → Prop) (t : Trace α) (u : Trace β) : Prop where
  pre : t.printed <+: u.printed
  ok : ∀ a, t.result = .ok a → ∃ b, u = ⟨t.printed, .ok b⟩ ∧ R a b

theorem Ahead.bind {α β γ δ : Type} {R : α → β → Prop} {Q : γ → δ → Prop} {t : Trace α} {u : Trace β}
    {f : α → Trace γ} {g : β → Trace δ} (h : Ahead R t u) (hf : ∀ a b, R a b → Ahead Q (f a) (g b)) :
    Ahead Q (t >>= f) (u >>= g) := by
  obtain ⟨p, r⟩ := t
  cases r with
  | error e =>
    refine ⟨?_, fun a ha => by cases ha⟩
    show p <+: _
    refine h.pre.trans ?_
    obtain ⟨q, r⟩ := u
    cases r with
    | error e' => exact List.prefix_rfl
    | ok b => exact List.prefix_append _ _
  | ok a =>
    obtain ⟨b, rfl, hab⟩ := h.ok a rfl
    have h2 := hf a b hab
    refine ⟨(List.prefix_append_right_inj _).mpr h2.pre, ?_⟩
    intro d hd
    obtain ⟨d', e1, e2⟩ := h2.ok d hd
    refine ⟨d', ?_, e2⟩
    show (⟨p ++ (g b).printed, (g b).result⟩ : Trace δ) = _
    rw [e1]
    rfl

theorem Ahead.rfl' {α : Type} {R : α → α → Prop} (hR : ∀ a, R a a) (t : Trace α) : Ahead R t t := by
  obtain ⟨p, r⟩ := t
  refine ⟨List.prefix_rfl, ?_⟩
  intro a ha
  exact ⟨a, by rw [show r = .ok a from ha], hR a⟩

theorem Ahead.refl {α : Type} (t : Trace α) : Ahead Eq t t := .rfl' (fun _ => rfl) t

theorem Ahead.trans {α : Type} {t u v : Trace α} (h : Ahead Eq t u) (h' : Ahead Eq u v) : Ahead Eq t v := by
  refine ⟨h.pre.trans h'.pre, ?_⟩
  intro a ha
  obtain ⟨b, rfl, rfl⟩ := h.ok a ha
  exact h'.ok a rfl

theorem Ahead.quiet {α β : Type} {R : α → β → Prop} {r : Res α} {r' : Res β} (h : Rel R r r') :
    Ahead R (Trace.quiet r) (Trace.quiet r') := by
  refine ⟨List.prefix_rfl, ?_⟩
  intro a ha
  rw [show r = .ok a from ha] at h
  cases r' with
  | error e => exact h.elim
  | ok b => exact ⟨b, rfl, h⟩

theorem Ahead.bind_same {α γ δ : Type} {Q : γ → δ → Prop} (t : Trace α) {f : α → Trace γ} {g : α → Trace δ}
    (hf : ∀ a, Ahead Q (f a) (g a)) : Ahead Q (t >>= f) (t >>= g) :=
  (Ahead.refl t).bind fun a _ e => e ▸ hf a

theorem Ahead.of_error {α β : Type} {R : α → β → Prop} {t : Trace α} {e : Panic} (h : t = ⟨[], .error e⟩)
    (u : Trace β) : Ahead R t u := by
  rw [h]
  exact ⟨List.nil_prefix, fun a ha => by cases ha⟩

variable (o : Printer) (s : HMap Nat (List Nat))

theorem processT_sorted (find : List Char → Res (List VariantResult)) (json : Bool) (n : Nat)
    (lines : List (Option (List Char))) :
    (resorted o s).processT find json n lines = o.processT find json n lines := by
  induction lines generalizing n with
  | nil => rfl
  | cons l lines ih =>
    cases l with
    | none => exact ih n
    | some l => simp only [Printer.processT, query_sorted, ih]

theorem printBatchT_sorted (json : Bool) (n : Nat) (ps : List (List Char × List VariantResult)) :
    (resorted o s).printBatchT json n ps = o.printBatchT json n ps := by
  induction ps generalizing n with
  | nil => rfl
  | cons p ps ih =>
    obtain ⟨i, v⟩ := p
    simp only [Printer.printBatchT, query_sorted, ih]

theorem parLoopT_ahead (find : List Char → Res (List VariantResult)) {sched sched' : Nat → List Nat}
    (hs : ∀ n, (sched n).Perm (List.range n)) (hs' : ∀ n, (sched' n).Perm (List.range n))
    (json : Bool) (fuel n : Nat) (lines : List (Option (List Char))) :
    Ahead Eq (o.parLoopT find sched json fuel n lines)
      ((resorted o s).parLoopT find sched' json fuel n lines) := by
  induction fuel generalizing n lines with
  | zero => exact .refl _
  | succ fuel ih =>
    simp only [Printer.parLoopT, printBatchT_sorted]
    refine .bind_same _ ?_
    rintro ⟨batch, rest, eof⟩
    refine Ahead.bind (R := Eq) (.quiet ?_) ?_
    · exact collectAny_rel (f := fun input => do let vs ← find input; return (input, vs))
        (g := fun input => do let vs ← find input; return (input, vs)) (fun a => .of_eq rfl) batch false false
        _ _ (hs _) (hs' _)
    · rintro out _ rfl
      refine .bind_same _ fun t => ?_
      cases eof with
      | true => exact .refl _
      | false => exact ih _ _

theorem readBatch_split {n : Nat} {lines rest : List (Option (List Char))} {batch : List (List Char)}
    {eof : Bool} (h : readBatch n lines = .ok (batch, rest, eof)) :
    lines = batch.map some ++ rest ∧ (eof = true → rest = []) := by
  induction n generalizing lines rest batch eof with
  | zero => cases h; exact ⟨rfl, by simp⟩
  | succ n ih =>
    cases lines with
    | nil => cases h; exact ⟨rfl, fun _ => rfl⟩
    | cons l lines =>
      cases l with
      | none => cases h
      | some l =>
        rw [readBatch] at h
        obtain ⟨⟨b, r, e⟩, h1, h2⟩ := bind_ok.mp h
        cases pure_ok.mp h2
        obtain ⟨h3, h4⟩ := ih h1
        exact ⟨by rw [h3]; rfl, h4⟩

/-- Lines whose variants are found are printed as in a batch. -/
theorem processT_batch {find : List Char → Res (List VariantResult)} {json : Bool} {n : Nat}
    {batch : List (List Char)} {out : List (List Char × List VariantResult)}
    (h : collectSeq (fun input => do let vs ← find input; return (input, vs)) batch = .ok out)
    (rest : List (Option (List Char))) :
    o.processT find json n (batch.map some ++ rest) =
      (o.printBatchT json n out >>= fun _ => o.processT find json (n + out.length) rest) := by
  induction batch generalizing n out with
  | nil => cases h; rw [Printer.printBatchT, pureT_bind]; rfl
  | cons l batch ih =>
    obtain ⟨q, h1, h⟩ := bind_ok.mp h
    obtain ⟨out, h2, h⟩ := bind_ok.mp h
    cases pure_ok.mp h
    obtain ⟨vs, h3, h4⟩ := bind_ok.mp h1
    cases pure_ok.mp h4
    simp only [List.map_cons, List.cons_append, Printer.processT, Printer.printBatchT, h3, quiet_bind,
      bindT_assoc, ih h2, List.length_cons, Nat.add_assoc, Nat.add_comm 1]

/-- The parallel mode prints a beginning of what the sequential mode prints. -/
theorem parLoopT_processT (find : List Char → Res (List VariantResult)) {sched : Nat → List Nat}
    (hs : ∀ n, (sched n).Perm (List.range n)) (json : Bool) (fuel n : Nat)
    (lines : List (Option (List Char))) :
    Ahead Eq (o.parLoopT find sched json fuel n lines) (o.processT find json n lines) := by
  induction fuel generalizing n lines with
  | zero => exact .of_error rfl _
  | succ fuel ih =>
    rw [Printer.parLoopT]
    cases hb : readBatch maxBatchsize lines with
    | error e => exact .of_error (bindT_error rfl) _
    | ok r =>
      obtain ⟨batch, rest, eof⟩ := r
      obtain ⟨rfl, heof⟩ := readBatch_split hb
      rw [quiet_bind]
      simp only
      cases hc : collectPar (fun input => do let vs ← find input; return (input, vs)) (sched batch.length) batch with
      | error e => exact .of_error (bindT_error rfl) _
      | ok out =>
        rw [quiet_bind, processT_batch o ((collectPar_perm (hs _)).mp hc)]
        refine .bind_same _ fun _ => ?_
        cases eof with
        | true => rw [heof rfl]; exact .refl _
        | false => exact ih _ _

theorem foundAllT_sorted (json : Bool) (n : Nat) (ms : List Match) :
    (resorted o s).foundAllT json n ms = o.foundAllT json n ms := by
  induction ms generalizing n with
  | nil => rfl
  | cons a ms ih => simp only [Printer.foundAllT, found_sorted, ih]

theorem searchLoopT_ahead {find find' : List Char → Res (List Match)} (h : ∀ i, Rel Eq (find i) (find' i))
    (json : Bool) (n : Nat) (batches : List (List Char)) :
    Ahead Eq (o.searchLoopT find json n batches) ((resorted o s).searchLoopT find' json n batches) := by
  induction batches generalizing n with
  | nil => exact .refl _
  | cons b batches ih =>
    simp only [Printer.searchLoopT, foundAllT_sorted]
    refine (Ahead.quiet (h b)).bind ?_
    rintro ms _ rfl
    exact .bind_same _ fun _ => .bind_same _ fun _ => ih _

theorem processSearchT_ahead {find find' : List Char → Res (List Match)} (h : ∀ i, Rel Eq (find i) (find' i))
    (json nl perLine : Bool) (lines : List (Option (List Char))) :
    Ahead Eq (o.processSearchT find json nl perLine lines)
      ((resorted o s).processSearchT find' json nl perLine lines) := by
  unfold Printer.processSearchT
  cases searchBatches (if nl then ' ' else '\n') perLine (lines.length + 1) lines with
  | none => exact .of_error rfl _
  | some batches => exact searchLoopT_ahead o s h json 0 batches

theorem inputT_same {x x' : ToolExt} (hl : x'.load = x.load) (hi : x'.stdin = x.stdin) (used : Bool)
    (f : List Char) : ToolExt.inputT x' used f = ToolExt.inputT x used f := by
  unfold ToolExt.inputT
  rw [hl, hi]

theorem filesT_ahead {x x' : ToolExt} (hl : x'.load = x.load) (hi : x'.stdin = x.stdin) {σ τ : Type}
    {R : σ → τ → Prop} {run : σ → List (Option (List Char)) → Trace (σ × List (List FileWrite))}
    {run' : τ → List (Option (List Char)) → Trace (τ × List (List FileWrite))}
    (h : ∀ m m' lines, R m m' → Ahead (fun a b => R a.1 b.1 ∧ a.2 = b.2) (run m lines) (run' m' lines))
    (used : Bool) {m : σ} {m' : τ} (hm : R m m') (files : List (List Char)) :
    Ahead Eq (x.filesT run used m files) (x'.filesT run' used m' files) := by
  induction files generalizing used m m' with
  | nil => exact .refl _
  | cons f files ih =>
    rw [filesT_cons, filesT_cons, inputT_same hl hi]
    refine .bind_same _ fun i => ?_
    refine (h m m' i.2 hm).bind ?_
    rintro ⟨a, ws⟩ ⟨b, ws'⟩ ⟨h1, h2⟩
    cases h2
    refine (ih i.1 h1).bind ?_
    rintro w _ rfl
    exact .refl _

theorem stateless_ahead {run run' : List (Option (List Char)) → Trace Unit}
    (h : ∀ lines, Ahead Eq (run lines) (run' lines)) (u u' : Unit) (lines : List (Option (List Char))) :
    Ahead (fun a b : Unit × List (List FileWrite) => a.1 = b.1 ∧ a.2 = b.2) (stateless run u lines)
      (stateless run' u' lines) :=
  (h lines).bind fun _ _ _ => .rfl' (fun _ => ⟨rfl, rfl⟩) _

end Verif.Lemmas
