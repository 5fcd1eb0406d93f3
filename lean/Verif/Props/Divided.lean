import Verif.Spec.Divided
import Verif.Props.Division
import Verif.Props.Rows

/-!
# What searches for stretches of words with lexicons print (C98)
-/
namespace Verif.Props

open Verif.Spec Verif.Model Verif.Lemmas

/-- A division stays one if the variants are replaced by others with the same scores. -/
theorem division_imp {α β : Type} {fa : List Char → List α → Prop} {fb : List Char → List β → Prop}
    {da sa : α → Rat} {db sb : β → Rat} {n : Nat} (hn : 1 ≤ n) {o : Nat} {g : List Seg}
    {l : List (Nat × List Char × Option Nat)} {c : Rat} (h : Division fa da sa n o g l c)
    (hfound : ∀ r, r <:+: g → r.length ≤ n → stretch r ≠ [] → ∀ vs, fa (stretch r) vs →
      ∃ us, fb (stretch r) us ∧ List.Forall₂ (fun v u => da v = db u ∧ sa v = sb u) vs us) :
    Division fb db sb n o g l c := by
  induction h with
  | done => exact .done
  | @skip o w s g l c _ ih =>
    exact .skip (ih fun r hr => hfound r (hr.trans (List.suffix_cons _ _).isInfix))
  | @variant o r g l c vs i v h1 h2 h3 h4 h5 _ ih =>
    obtain ⟨us, k1, k2⟩ := hfound r (List.prefix_append r g).isInfix h1 h2 vs h4
    obtain ⟨u, hu, _, hsu⟩ : ∃ u, us[i]? = some u ∧ da v = db u ∧ sa v = sb u := by
      obtain ⟨hi, rfl⟩ := List.getElem?_eq_some_iff.mp h5
      have hi' : i < us.length := k2.length_eq ▸ hi
      exact ⟨us[i], List.getElem?_eq_getElem hi', List.forall₂_iff_get.mp k2 |>.2 i hi hi'⟩
    rw [hsu]
    refine .variant h1 h2 ?_ k1 hu (ih fun r' hr => hfound r' (hr.trans (List.suffix_append r g).isInfix))
    rcases h3 with h3 | ⟨q, hq, hqw, vs', e1, e2⟩
    · exact .inl h3
    · obtain ⟨w, s⟩ := q
      have hin : [(w, s)] <:+: r ++ g := by
        obtain ⟨r1, r2, rfl⟩ := List.append_of_mem hq
        exact ⟨r1, r2 ++ g, by simp⟩
      obtain ⟨us', j1, j2⟩ := hfound [(w, s)] hin hn hqw vs' e1
      refine .inr ⟨(w, s), hq, hqw, us', j1, ?_⟩
      intro u hu
      cases j2 with
      | nil => cases hu
      | cons j _ =>
        cases hu
        rw [← j.1]
        exact e2 _ rfl
  | @unknown o w s g l c h1 h2 _ ih =>
    obtain ⟨us, k1, k2⟩ := hfound [(w, s)] (List.prefix_append [(w, s)] g).isInfix hn h1 [] h2
    cases k2
    exact .unknown h1 k1 (ih fun r hr => hfound r (hr.trans (List.suffix_cons _ _).isInfix))

theorem listed_map {α β : Type} {R : α → β → Prop} {vs : List α} {us : List β}
    (h : List.Forall₂ R vs us) {sel : Option Nat} {l : List α} (hl : Listed vs sel l) :
    ∃ l', Listed us sel l' ∧ List.Forall₂ R l l' := by
  rcases hl with ⟨i, r, h1, h2, rfl⟩ | ⟨h1, rfl⟩
  · obtain ⟨hi, rfl⟩ := List.getElem?_eq_some_iff.mp h2
    have hi' : i < us.length := h.length_eq ▸ hi
    refine ⟨us[i] :: us.eraseIdx i, .inl ⟨i, us[i], h1, List.getElem?_eq_getElem hi', rfl⟩,
      .cons (List.forall₂_iff_get.mp h |>.2 i hi hi') ?_⟩
    rw [List.eraseIdx_eq_take_drop_succ, List.eraseIdx_eq_take_drop_succ]
    exact List.rel_append (List.forall₂_take _ h) (List.forall₂_drop _ h)
  · refine ⟨us, .inr ⟨fun i hi => ?_, rfl⟩, h⟩
    have := h1 i hi
    rw [List.getElem?_eq_none_iff] at this ⊢
    rw [← h.length_eq]
    exact this

theorem listed_exists {α : Type} (vs : List α) (sel : Option Nat) : ∃ l, Listed vs sel l := by
  cases sel with
  | none => exact ⟨vs, .inr ⟨fun i h => (nomatch h), rfl⟩⟩
  | some i =>
    cases h : vs[i]? with
    | none => exact ⟨vs, .inr ⟨fun j e => (Option.some.inj e) ▸ h, rfl⟩⟩
    | some v => exact ⟨_, .inl ⟨i, v, rfl, h, rfl⟩⟩

/-- The stretches of a division are stretches. -/
theorem division_runs {α : Type} {fa : List Char → List α → Prop} {da sa : α → Rat} {n : Nat} (hn : 1 ≤ n)
    {o : Nat} {g : List Seg} {l : List (Nat × List Char × Option Nat)} {c : Rat}
    (h : Division fa da sa n o g l c) :
    ∀ u ∈ l, ∃ r, r <:+: g ∧ r.length ≤ n ∧ stretch r ≠ [] ∧ u.2.1 = stretch r := by
  induction h with
  | done => simp
  | skip _ ih =>
    intro u hu
    obtain ⟨r, h1, h2⟩ := ih u hu
    exact ⟨r, h1.trans (List.suffix_cons _ _).isInfix, h2⟩
  | @variant _ r g _ _ _ _ _ h1 h2 _ _ _ _ ih =>
    intro u hu
    rcases List.mem_cons.mp hu with rfl | hu
    · exact ⟨r, (List.prefix_append r g).isInfix, h1, h2, rfl⟩
    · obtain ⟨r', h1, h2⟩ := ih u hu
      exact ⟨r', h1.trans (List.suffix_append r g).isInfix, h2⟩
  | @unknown _ w s g _ _ h1 _ _ ih =>
    intro u hu
    rcases List.mem_cons.mp hu with rfl | hu
    · exact ⟨[(w, s)], (List.prefix_append [(w, s)] g).isInfix, hn, h1, rfl⟩
    · obtain ⟨r', h1, h2⟩ := ih u hu
      exact ⟨r', h1.trans (List.suffix_cons _ _).isInfix, h2⟩

theorem mem_placed {b : Nat × List Seg} (gs : List (List Seg)) : ∀ o, b ∈ placed o gs → b.2 ∈ gs := by
  induction gs with
  | nil => intro o h; cases h
  | cons g gs ih =>
    intro o h
    rcases List.mem_cons.mp h with rfl | h
    · exact List.mem_cons_self
    · exact List.mem_cons_of_mem _ (ih _ h)

theorem forall₂_mem_left {α β : Type} {R : α → β → Prop} {l : List α} {l' : List β}
    (h : List.Forall₂ R l l') : List.Forall₂ (fun a b => R a b ∧ a ∈ l) l l' := by
  induction h with
  | nil => exact .nil
  | cons h _ ih =>
    exact .cons ⟨h, List.mem_cons_self⟩ (ih.imp fun _ _ h => ⟨h.1, List.mem_cons_of_mem _ h.2⟩)

/-! ## What is printed for divided texts -/

/-- If the variants of all stretches are found, the matches in a text are those of a division, and
are short enough. -/
theorem text_divides_short {α : Type} {R : VariantResult → α → Prop} {dist score : α → Rat}
    {found : List Char → List α} {vm : Vm} {x : TextExt} {cfg : TextConfig} {p : TextParams}
    (hsp : x.isAlpha ' ' = false) {u : Rat} {d : Nat → Rat}
    (hx : Reckons x p.variant.freqWeight u d) (hz : cfg.weights.sum x.f64 ≠ 0)
    (hn : 2 ≤ p.maxNgram) (hseq : 1 ≤ p.maxSeq) (hu : p.unicodeoffsets = false)
    (hinv : Inv vm) (hlm : vm.haveLm = false) (hrb : cfg.contextRules = []) (hidx : vm.index.isEmpty = false)
    (hscore : ∀ t vs, vm.findVariants x.toExt cfg.toConfig p.variant t = .ok vs →
      ∀ v ∈ vs, 0 ≤ v.score x.f64 p.variant.freqWeight ∧ v.score x.f64 p.variant.freqWeight ≤ 191 / 100)
    (hR : ∀ v u, R v u → v.distScore = dist u ∧ v.score x.f64 p.variant.freqWeight = score u)
    {alphabet : Alphabet}
    (hfound : ∀ t, t ≠ [] → ShortEnough x alphabet p.variant t →
      ∃ vs, vm.findVariants x.toExt cfg.toConfig p.variant t = .ok vs ∧ List.Forall₂ R vs (found t))
    {text : List Char} (hshort : ShortRuns x alphabet p.variant p.maxNgram text) :
    ∃ ms, vm.findAllMatches x cfg p text = .ok ms ∧
      CheapestIn x (slack u d) dist score found p.maxNgram text (ms.map fun m => (m.first, m.text, m.selected)) ∧
      ∀ m ∈ ms, m.last = m.first + byteLen m.text ∧ m.tag = [] ∧
        (m.text ≠ [] ∧ ShortEnough x alphabet p.variant m.text) ∧
        ∃ vs, m.variants = some vs ∧ List.Forall₂ R vs (found m.text) := by
  obtain ⟨segs, hs, _⟩ := findBoundaries_eq x.isAlpha text
  obtain ⟨ms, hms⟩ : ∃ ms, vm.findAllMatches x cfg p text = .ok ms := by
    refine search_total_of_lookups hinv hz hsp hx.solver.ok (fun _ => ⟨hseq, ?_, ?_⟩) ?_
    · intro h
      rw [hlm] at h
      cases h
    · rw [hrb]
      simp
    · intro segs' a r b h1 h2 h3 h4
      obtain ⟨vs, h5, _⟩ := hfound (stretch r) h4 (hshort segs' r h1 ⟨a, b, h2.symm⟩ h3 h4)
      exact ⟨vs, h5⟩
  obtain ⟨⟨ls, h1, h2⟩, h3⟩ := search_cheapest_of_scores hsp hlm hrb hx hseq hn hu hscore
    hidx hs hms
  -- batches are parts of the text
  have hinfix : ∀ b ∈ placed 0 (batches [] segs), b.2 <:+: segs := by
    intro b hb
    have hb := mem_placed _ _ hb
    rcases (batches_of hs).2 with hflat | ⟨hflat, _⟩
    · obtain ⟨a', b', e⟩ := infix_of_mem_flatten hb
      rw [hflat] at e
      exact ⟨a', b', e.symm⟩
    · rw [hflat] at hb
      cases hb
  have hmem : ∀ m ∈ ms, m.text ≠ [] ∧ ShortEnough x alphabet p.variant m.text := by
    intro m hm
    have hk : (m.first, m.text, m.selected) ∈ ls.flatten := by
      rw [← h2]
      exact List.mem_map.mpr ⟨m, hm, rfl⟩
    obtain ⟨l, hl, hml⟩ := List.mem_flatten.mp hk
    obtain ⟨b, hb, cost, hd, _⟩ := mem_of_forall₂_right h1 hl
    obtain ⟨r, r1, r2, r3, r4⟩ := division_runs (by omega) hd _ hml
    have r4 : m.text = stretch r := r4
    rw [r4]
    exact ⟨r3, hshort segs r hs (r1.trans (hinfix b hb)) r2 r3⟩
  refine ⟨ms, hms, ⟨segs, ls, hs, ?_, h2⟩, ?_⟩
  · refine (forall₂_mem_left h1).imp ?_
    rintro b l ⟨⟨cost, hd, hbest⟩, hb⟩
    refine ⟨cost, division_imp (by omega) hd ?_, fun l' c' hd' => hbest l' c' (division_imp (by omega) hd' ?_)⟩
    · intro r k1 k2 k3 vs k4
      obtain ⟨vs', k5, k6⟩ := hfound (stretch r) k3 (hshort segs r hs (k1.trans (hinfix b hb)) k2 k3)
      have k4 : vm.findVariants x.toExt cfg.toConfig p.variant (stretch r) = .ok vs := k4
      rw [k4] at k5
      cases k5
      exact ⟨_, rfl, k6.imp fun _ _ h => hR _ _ h⟩
    · rintro r k1 k2 k3 us rfl
      obtain ⟨vs', k5, k6⟩ := hfound (stretch r) k3 (hshort segs r hs (k1.trans (hinfix b hb)) k2 k3)
      exact ⟨vs', k5, (List.Forall₂.flip k6).imp fun _ _ h => ⟨(hR _ _ h).1.symm, (hR _ _ h).2.symm⟩⟩
  · intro m hm
    obtain ⟨e1, vs, e2, e3⟩ := h3 m hm
    obtain ⟨hne, hsh⟩ := hmem m hm
    obtain ⟨vs', e4, e5⟩ := hfound m.text hne hsh
    rw [e3] at e4
    cases e4
    refine ⟨e1, ?_, ⟨hne, hsh⟩, vs, e2, e5⟩
    rw [List.eq_nil_iff_forall_not_mem]
    intro t ht
    obtain ⟨r, hr, _⟩ := (search_known hsp hx.solver.ok hz (by rw [hrb]; simp) hms m hm).1 t ht
    rw [hrb] at hr
    cases hr

/-- If the variants of all stretches are found, the matches in a text are those of a division. -/
theorem text_divides {α : Type} {R : VariantResult → α → Prop} {dist score : α → Rat}
    {found : List Char → List α} {vm : Vm} {x : TextExt} {cfg : TextConfig} {p : TextParams}
    (hsp : x.isAlpha ' ' = false) {u : Rat} {d : Nat → Rat}
    (hx : Reckons x p.variant.freqWeight u d) (hz : cfg.weights.sum x.f64 ≠ 0)
    (hn : 2 ≤ p.maxNgram) (hseq : 1 ≤ p.maxSeq) (hu : p.unicodeoffsets = false)
    (hinv : Inv vm) (hlm : vm.haveLm = false) (hrb : cfg.contextRules = []) (hidx : vm.index.isEmpty = false)
    (hscore : ∀ t vs, vm.findVariants x.toExt cfg.toConfig p.variant t = .ok vs →
      ∀ v ∈ vs, 0 ≤ v.score x.f64 p.variant.freqWeight ∧ v.score x.f64 p.variant.freqWeight ≤ 191 / 100)
    (hR : ∀ v u, R v u → v.distScore = dist u ∧ v.score x.f64 p.variant.freqWeight = score u)
    {alphabet : Alphabet}
    (hfound : ∀ t, t ≠ [] → ShortEnough x alphabet p.variant t →
      ∃ vs, vm.findVariants x.toExt cfg.toConfig p.variant t = .ok vs ∧ List.Forall₂ R vs (found t))
    {text : List Char} (hshort : ShortRuns x alphabet p.variant p.maxNgram text) :
    ∃ ms, vm.findAllMatches x cfg p text = .ok ms ∧
      CheapestIn x (slack u d) dist score found p.maxNgram text (ms.map fun m => (m.first, m.text, m.selected)) ∧
      ∀ m ∈ ms, m.last = m.first + byteLen m.text ∧ m.tag = [] ∧
        ∃ vs, m.variants = some vs ∧ List.Forall₂ R vs (found m.text) := by
  obtain ⟨ms, h1, h2, h3⟩ := text_divides_short hsp hx hz hn hseq hu hinv hlm hrb hidx hscore
    hR hfound hshort
  refine ⟨ms, h1, h2, fun m hm => ?_⟩
  obtain ⟨a, b, _, c⟩ := h3 m hm
  exact ⟨a, b, c⟩

/-- If the variants of all stretches are found, the rows of the search are those of a division. -/
theorem search_divides {α : Type} {dist score : α → Rat} {column : α → List Char → Prop}
    {found : List Char → List α} {x : ToolExt} (hf : ∀ s, ';' ∈ s → x.parseF32 s = none)
    (hpos : StrictMono x.pos)
    (hsp : x.text.isAlpha ' ' = false)
    {c : CommandLine} (hc : Accepted c) (hsub : c.sub = .search) (hj : ¬ Given c .json)
    {w : Weights} {p : TextParams} (hnum : UsableNumbers x c w p) {u : Rat} {d : Nat → Rat}
    (hx : Reckons x.text p.variant.freqWeight u d) (hn : 2 ≤ p.maxNgram) (hseq : 1 ≤ p.maxSeq)
    {L : Loaded} (asked : Asked x c L w p) (hinv : Inv L.vm) (hlm : L.vm.haveLm = false)
    (hrb : L.book.rules = []) (hidx : L.vm.index.isEmpty = false)
    (hscore : ∀ t vs, L.vm.findVariants x.text.toExt (x.config c L w).toConfig p.variant t = .ok vs →
      ∀ v ∈ vs, 0 ≤ v.score x.text.f64 p.variant.freqWeight ∧ v.score x.text.f64 p.variant.freqWeight ≤ 191 / 100)
    {alphabet : Alphabet}
    (hfound : ∀ t, t ≠ [] → ShortEnough x.text alphabet p.variant t →
      ∃ vs, L.vm.findVariants x.text.toExt (x.config c L w).toConfig p.variant t = .ok vs ∧
        List.Forall₂ (fun v u => (v.distScore = dist u ∧
            v.score x.text.f64 p.variant.freqWeight = score u) ∧
            ∃ col, VariantColumns x c L p v col ∧ column u col)
          vs (found t))
    {files : List (List Char)}
    {inputs : List (List (Option (List Char)))} (hin : InputsOf x files inputs)
    (hlines : ∀ lines ∈ inputs, ∀ text, SearchedIn c lines text →
      ShortRuns x.text alphabet p.variant p.maxNgram text) :
    ∃ texts, List.Forall₂ (DividedText x c (slack u d) dist score column p.maxNgram found) inputs texts ∧
      x.main c files = .ok (.output texts.flatten []) := by
  obtain ⟨q, hq, hqu, hqn⟩ := hnum.params
  have hu : p.unicodeoffsets = false := by rw [hqn.offsets, hqu]
  -- the matches in a text
  have one : ∀ text, ShortRuns x.text alphabet p.variant p.maxNgram text →
      ∃ rs ms rows, CheapestIn x.text (slack u d) dist score found p.maxNgram text rs ∧
        L.vm.findAllMatches x.text (x.config c L w) p text = .ok ms ∧
        List.Forall₂ (MatchRow x c L p) ms rows ∧
        List.Forall₂ (DividedRow column found) rs rows := by
    intro text hshort
    obtain ⟨ms, hms, h1, h3⟩ := text_divides (cfg := x.config c L w) hsp hx hnum.nonzero
      hn hseq hu hinv hlm hrb hidx hscore (fun _ _ h => h.1) hfound hshort
    have row : ∀ m ∈ ms, ∃ row, MatchRow x c L p m row ∧
        DividedRow column found (m.first, m.text, m.selected) row := by
      intro m hm
      obtain ⟨e1, _, vs, e2, e5⟩ := h3 m hm
      obtain ⟨l, hl⟩ := listed_exists vs m.selected
      obtain ⟨l', hl', hR⟩ := listed_map e5 hl
      obtain ⟨cols, c1, c2⟩ : ∃ cols, List.Forall₂ (VariantColumns x c L p) l cols ∧
          List.Forall₂ column l' cols := by
        clear hl hl'
        induction hR with
        | nil => exact ⟨[], .nil, .nil⟩
        | cons h _ ih =>
          obtain ⟨cols, i1, i2⟩ := ih
          obtain ⟨_, col, c1, c2⟩ := h
          exact ⟨col :: cols, .cons c1 i1, .cons c2 i2⟩
      refine ⟨_, ⟨cols, ?_, rfl⟩, l', cols, hl', c2, by rw [e1]⟩
      rw [e2]
      exact ⟨l, hl, c1⟩
    obtain ⟨rows, g1, g2⟩ := forall₂_both row
    refine ⟨_, ms, rows, h1, hms, g1, ?_⟩
    rw [List.forall₂_map_left_iff]
    exact g2
  -- the text for an input
  have input : ∀ lines ∈ inputs, ∃ text,
      SearchText x c L p (L.vm.findAllMatches x.text (x.config c L w) p) lines text ∧
      DividedText x c (slack u d) dist score column p.maxNgram found lines text := by
    intro lines hli
    obtain ⟨perLine, hper⟩ : ∃ b : Bool, b = true ↔ Given c .perLine := by
      classical
      exact ⟨decide (Given c .perLine), decide_eq_true_iff⟩
    obtain ⟨sep, hsep⟩ : ∃ sep, (Given c .retainLinebreaks ∧ sep = '\n') ∨
        (¬ Given c .retainLinebreaks ∧ sep = ' ') := by
      by_cases h : Given c .retainLinebreaks
      · exact ⟨_, .inl ⟨h, rfl⟩⟩
      · exact ⟨_, .inr ⟨h, rfl⟩⟩
    obtain ⟨gs, hg, _⟩ := search_output (x.printer c L p) (fun _ => .ok []) false false perLine lines
    have group : ∀ g ∈ gs, ∃ z : List (Nat × List Char × Option Nat) × List Match × List (List Char),
        (CheapestIn x.text (slack u d) dist score found p.maxNgram ([sep].intercalate g) z.1 ∧
          L.vm.findAllMatches x.text (x.config c L w) p ([sep].intercalate g) = .ok z.2.1) ∧
        List.Forall₂ (MatchRow x c L p) z.2.1 z.2.2 ∧
        List.Forall₂ (DividedRow column found) z.1 z.2.2 := by
      intro g hgm
      obtain ⟨rs, ms, rows, h1, h2, h3, h4⟩ := one ([sep].intercalate g)
        (hlines lines hli _ ⟨perLine, sep, gs, g, hper, hsep, hg, hgm, rfl⟩)
      exact ⟨(rs, ms, rows), ⟨h1, h2⟩, h3, h4⟩
    obtain ⟨zs, h1, h2⟩ := forall₂_both group
    refine ⟨_, ⟨perLine, sep, gs, zs.map fun z => z.2.1, zs.map fun z => z.2.2, hper, hsep, hg, ?_, ?_, rfl⟩,
      perLine, sep, gs, zs.map Prod.fst, zs.map fun z => z.2.2, hper, hsep, hg, ?_, ?_, rfl⟩
    · rw [List.forall₂_map_right_iff]
      exact h1.imp fun _ _ h => h.2
    · rw [List.forall₂_map_left_iff, List.forall₂_map_right_iff, List.forall₂_same]
      intro z hz
      obtain ⟨_, _, h, _⟩ := mem_of_forall₂_right h2 hz
      exact h
    · rw [List.forall₂_map_right_iff]
      exact h1.imp fun _ _ h => h.1
    · rw [List.forall₂_map_left_iff, List.forall₂_map_right_iff, List.forall₂_same]
      intro z hz
      obtain ⟨_, _, _, h⟩ := mem_of_forall₂_right h2 hz
      exact h
  obtain ⟨texts, h1, h2⟩ := forall₂_both input
  exact ⟨texts, h2, (search_run hf hpos hc hsub hj files _ _).mpr
    ⟨rfl, L, w, p, _, inputs, texts, asked, settings_iff.mpr rfl, hin, h1, rfl⟩⟩

/-! ## C98 -/

/-- **C98**: with lexicons only (no variant lists, error lists, confusables, language model and context
rules), and without `--json` and stop criterion, a search for stretches of several words ends normally and
prints, for each group of lines, the rows of a division of the text at least cost, with what is shown of the
ranking of the words of the lexicons that are similar to each stretch.  (The cost is least as far as sums in
floating point can tell, `Reckons`.) -/
theorem search_prints_cheapest {x : ToolExt} (hf : ∀ s, ';' ∈ s → x.parseF32 s = none)
    (hpos : StrictMono x.pos) (hmarks : MarksOk x.load.isSpace) (hb : x.load.isSpace '\\' = false)
    (hsp : x.text.isAlpha ' ' = false)
    {c : CommandLine} (hc : Accepted c) (hsub : c.sub = .search) (hj : ¬ Given c .json)
    (hplain : ∀ o ∈ [OptName.variants, .errors, .confusables, .lm, .contextrules, .stopExact], ¬ Given c o)
    {as : List (List (List Char × Option Nat × VocabParams))} {w : Weights} {p : TextParams}
    (hfiles : UsableFiles x c as) (hnum : UsableNumbers x c w p) {u : Rat} {d : Nat → Rat}
    (hx : Reckons x.text p.variant.freqWeight u d) (hwt : WeightsOk x.text.f64 w)
    (hfw : 0 ≤ p.variant.freqWeight) (hn : 2 ≤ p.maxNgram) (hseq : 1 ≤ p.maxSeq)
    (hwords : as.flatten ≠ []) (hr : ∀ a ∈ as.flatten, ¬ Reserved a.1)
    {afile : List Char} {alines : List (Option (List Char))} {alphabet : Alphabet}
    (ha : (.alphabet, afile) ∈ c.given) (hal : x.load.file afile = some alines)
    (hae : List.Forall₂ (AlphabetLine x.load.isSpace) (nonEmpty alines) alphabet)
    {files : List (List Char)}
    {inputs : List (List (Option (List Char)))} (hin : InputsOf x files inputs)
    (hlines : ∀ lines ∈ inputs, ∀ text, SearchedIn c lines text →
      ShortRuns x.text alphabet p.variant p.maxNgram text) :
    ∃ found, (∀ t, t ≠ [] → ShortEnough x.text alphabet p.variant t →
        Listing x.text alphabet as w p.variant t (found t)) ∧
      ∃ texts, List.Forall₂ (DividedHits x c (slack u d)
          (c.given.filterMap fun g => if g.1 = .lexicon then some g.2 else none) as p found) inputs texts ∧
        x.main c files = .ok (.output texts.flatten []) := by
  obtain ⟨args, L, asked, hL, hrules, hsz, hlex, has, hconf, hlinks, hinv, find⟩ := lexicons_listed hmarks hb hc
    (fun o ho => hplain o (by simp only [List.mem_cons, List.not_mem_nil, or_false] at ho ⊢; tauto))
    hfiles hnum hfw ha hal hae
  have hlm := noLm_load hL hlex has hr
  have hidx : L.vm.index.isEmpty = false := by
    rw [← Bool.not_eq_true, index_of_words hL (by omega) hlex has]
    obtain ⟨a, ha⟩ := List.exists_mem_of_ne_nil _ hwords
    exact fun h => hr a ha (h a ha)
  have hrb : L.book.rules = [] := by
    have h0 : args.contextrules = [] := by
      rw [hrules, List.filterMap_eq_nil_iff]
      intro g hg
      rw [if_neg]
      intro e
      exact hplain .contextrules (by simp) ⟨g.2, e ▸ hg⟩
    unfold LoadExt.load at hL
    obtain ⟨_, _, h⟩ := bind_ok.mp hL
    obtain ⟨_, _, h⟩ := bind_ok.mp h
    obtain ⟨_, _, h⟩ := bind_ok.mp h
    obtain ⟨_, _, h⟩ := bind_ok.mp h
    obtain ⟨bk, h4, h⟩ := bind_ok.mp h
    obtain ⟨_, _, h⟩ := bind_ok.mp h
    cases pure_ok.mp h
    rw [h0] at h4
    cases h4
    rfl
  -- what is shown for each text
  obtain ⟨found, hfound⟩ : ∃ found : List Char → List (Nat × Hit), ∀ t, t ≠ [] →
      ShortEnough x.text alphabet p.variant t →
      Listing x.text alphabet as w p.variant t (found t) ∧
      ∃ vs, L.vm.findVariants x.text.toExt (x.config c L w).toConfig p.variant t = .ok vs ∧
        List.Forall₂ (fun v u => (v.distScore = u.2.score ∧
            v.score x.text.f64 p.variant.freqWeight = u.2.overall x.text.f64 p.variant.freqWeight u.1) ∧
            ∃ col, VariantColumns x c L p v col ∧ HitColumn x c (lexiconNames c) as p.variant u.1 u.2 col)
          vs (found t) := by
    have : ∀ t, ∃ l : List (Nat × Hit), t ≠ [] → ShortEnough x.text alphabet p.variant t →
        Listing x.text alphabet as w p.variant t l ∧
        ∃ vs, L.vm.findVariants x.text.toExt (x.config c L w).toConfig p.variant t = .ok vs ∧
          List.Forall₂ (fun v u => (v.distScore = u.2.score ∧
              v.score x.text.f64 p.variant.freqWeight = u.2.overall x.text.f64 p.variant.freqWeight u.1) ∧
              ∃ col, VariantColumns x c L p v col ∧ HitColumn x c (lexiconNames c) as p.variant u.1 u.2 col)
            vs l := by
      intro t
      by_cases ht : t ≠ [] ∧ ShortEnough x.text alphabet p.variant t
      · obtain ⟨vs, top, hits, h1, h2, h3⟩ := find t ht.1 ht.2
        refine ⟨_, fun _ _ => ⟨⟨top, hits, h2, rfl⟩, vs, h1, ?_⟩⟩
        rw [List.forall₂_map_right_iff]
        exact h3.imp fun v u h => ⟨⟨h.1, h.2.1⟩, h.2.2⟩
      · exact ⟨[], fun h1 h2 => absurd ⟨h1, h2⟩ ht⟩
    choose found h using this
    exact ⟨found, h⟩
  refine ⟨found, fun t h1 h2 => (hfound t h1 h2).1, ?_⟩
  refine search_divides hf hpos hsp hc hsub hj hnum hx hn hseq asked hinv hlm hrb hidx ?_
    (fun t h1 h2 => (hfound t h1 h2).2) hin hlines
  intro t vs hv v hm
  refine variant_scores_le (cfg := x.config c L w) hx.close64 hx.unit hx.weight hwt ?_ ?_ hfw t vs hv v hm
  · show MildConfusables x.text.f64 L.confusables
    rw [hconf]
    exact mild_nil _
  · intro v hv t s h
    rw [hlinks v hv] at h
    cases h

/-! ### Examples -/

theorem exUsableN {ts : List (Option (List Char))} : UsableFiles (exToolT exLex6 ts) exSearchN
    [[("ab".toList, some 7, {}), ("ba".toList, some 16, {}), (['a'], some 1, {})]] := by
  have hes : List.Forall₂ (VocabLine {}) (nonEmpty exLex6) [("ab".toList, 7), ("ba".toList, 16), (['a'], 1)] :=
    .cons (exVocab (f := ['7']) (by decide) (by decide))
      (.cons (exVocab (f := "16".toList) (by decide) (by decide))
        (.cons (exVocab (f := ['1']) (by decide) (by decide)) .nil))
  obtain ⟨_, h2⟩ := exUsableW (ls := exLex6) (ts := ts) hes (by decide) (by decide)
  exact ⟨⟨⟨['a'], [(['l'], 3)], [], [], [], [], []⟩, by constructor <;> decide,
    ⟨[some "a\tA".toList, some ['b']], rfl, by decide⟩, .cons (Adds.lexicon rfl hes) .nil,
      by decide, by decide, by decide, fun f hf => (by cases hf), fun f hf => (by cases hf)⟩, h2⟩

theorem exNumbersN : UsableNumbers (exToolT exLex6 exText2) exSearchN ⟨1 / 2, 1 / 8, 1 / 8, 1 / 8, 1 / 8⟩
    (exNumbers exSearchN) := by
  have h := exUsableNumbers (c := exSearchN) (accepted_of (by decide) (by decide)) rfl (by decide +kernel) rfl
    (exSome exTextParams (by decide +kernel)) (.inl (by decide +kernel))
  exact ⟨h.weights, h.nonzero, h.params, h.cutoff, h.debug⟩

/-- The search of `exSearchN_prints`, with stretches of up to two words. -/
example : ∃ found, (∀ t, t ≠ [] → ShortEnough exText [["a".toList, "A".toList], ["b".toList]]
        (exNumbers exSearchN).variant t →
      Listing exText [["a".toList, "A".toList], ["b".toList]]
        [[("ab".toList, some 7, {}), ("ba".toList, some 16, {}), (['a'], some 1, {})]]
        ⟨1 / 2, 1 / 8, 1 / 8, 1 / 8, 1 / 8⟩ (exNumbers exSearchN).variant t (found t)) ∧
    ∃ texts, List.Forall₂ (DividedHits (exToolT exLex6 exText2) exSearchN (fun _ => 0) [['l']]
        [[("ab".toList, some 7, {}), ("ba".toList, some 16, {}), (['a'], some 1, {})]]
        (exNumbers exSearchN) found) [exText2] texts ∧
      (exToolT exLex6 exText2).main exSearchN [['t']] = .ok (.output texts.flatten []) := by
  obtain ⟨entries, e1, e2, _⟩ := read_alphabet_entries (isSpace := exToolR.load.isSpace) rfl []
    [some "a\tA".toList, some ['b']]
  have he : entries = [["a".toList, "A".toList], ["b".toList]] := by
    rw [List.nil_append] at e2
    rw [← e2]
    decide
  rw [he] at e1
  rw [← slack_zero]
  refine search_prints_cheapest (x := exToolT exLex6 exText2) ex_noSemicolon ex_pos ex_marks rfl rfl
    (accepted_of (by decide) (by decide)) rfl (not_given (by decide))
    (by
      have : ∀ o ∈ [OptName.variants, .errors, .confusables, .lm, .contextrules, .stopExact],
          ∀ g ∈ exSearchN.given, g.1 ≠ o := by decide
      exact fun o ho => not_given (this o ho))
    exUsableN exNumbersN (exText_reckons _) ?_ (by decide +kernel) (show 2 ≤ 2 by decide) (by decide +kernel)
    (by decide) (by decide) (afile := ['a']) (by decide) rfl e1 (inputsOf_iff.mp (by decide)) ?_
  · constructor <;> first | exact ⟨by norm_num, rfl⟩ | decide +kernel
  intro lines hl text ht segs r hs hr _ _
  cases List.mem_singleton.mp hl
  have h1 := searchedIn_length ht
  have h2 : (stretch r).length ≤ text.length := by
    obtain ⟨a, b, e⟩ := hr
    refine le_trans (stretch_prefix_flat r).length_le ?_
    rw [← hs.text_eq, ← e, flat_append, flat_append]
    simp
    omega
  have h3 : ((untilError exText2).map fun l => l.length + 1).sum ≤ 30 := by decide
  obtain ⟨qs, hqs⟩ := encodes_exists (alphabet := [["a".toList, "A".toList], ["b".toList]])
    (by unfold NoEmpty; decide) 3 (stretch r)
  have hlen := encodes_length hqs
  have ha : (exNumbers exSearchN).variant.maxAnagramDistance = .absolute 3 := rfl
  refine ⟨qs, _, hqs, (allowed_iff ?_).mpr rfl, ?_⟩
  · rw [ha]
    show 3 ≤ 255
    decide
  · have : effectiveDistance exText.f32 qs.length (.absolute 3) ≤ 3 :=
      (effective_absolute exText.f32 qs.length 3 (by decide)).1.1
    rw [ha]
    show qs.length + effectiveDistance exText.f32 qs.length (.absolute 3) ≤ 255
    omega

end Verif.Props
