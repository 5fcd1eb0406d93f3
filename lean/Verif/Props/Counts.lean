import Verif.Lemmas.Counts

/-!
# C108: the language model that the files of a command line give
-/
namespace Verif.Props

open Verif.Model Verif.Spec Verif.Lemmas

/-! ## Entries -/

theorem greatest_eq {adds : Additions} {t : List Char} :
    greatest adds t = (frequencies (addsOf t adds)).foldr max 0 := by
  unfold greatest frequencies addsOf
  rw [List.map_map]
  rfl

/-- The entries of a loaded model: those that sources have, and the markers; with the frequencies given, and
in the language model as the sources say. -/
theorem loaded_has {x : LoadExt} {args : LoadArgs} {o : Orders} {L : Loaded}
    (h : x.load args o = .ok L) (hcount : (sourcesOf args).length ≤ 256)
    {as : List Additions} (has : AddsAll x 0 (sourcesOf args) as) (t : List Char) :
    (HasEntry as.flatten t ↔ ∃ v ∈ L.vm.decoder, v.text = t) ∧
    ∀ v ∈ L.vm.decoder, v.text = t → v.frequency = greatest as.flatten t ∧
      (v.vocabtype.lm = true ↔ InLm as.flatten t) := by
  obtain ⟨lines, ops, as', _, _, _, hrun, hl, _, has', hadd, _⟩ := loaded_history h
  cases addsAll_unique has has'
  have hinv : Inv L.vm := (inv_run (inv_new _) hrun).1
  have hpar : ∀ y ∈ as.flatten, y.2.2.freqHandling = .max := by
    intro y hy
    obtain ⟨a, ha, hy⟩ := List.mem_flatten.mp hy
    obtain ⟨k, hk⟩ := List.mem_iff_getElem?.mp ha
    exact ((addsAll_params has k a hk).2 y hy).2
  have hmem : ∀ {v}, v ∈ L.vm.decoder → v.text = t → ∃ id, L.vm.encoder.get? t = some id ∧
      L.vm.decoder[id]? = some v := by
    intro v hv ht
    obtain ⟨id, hid⟩ := List.getElem?_of_mem hv
    exact ⟨id, (hinv.bij _ _).mpr (by simp [textAt, hid, ht]), hid⟩
  by_cases hr : Reserved t
  · have hbase : entryCore (Vm.new L.vm.alphabet) t = some ⟨0, .NONE, 0⟩ := by
      rcases hr with rfl | rfl | rfl <;> rfl
    have hent := entry_run (inv_new L.vm.alphabet) (fun op hop => by
      cases op with
      | learn f ab o => exact absurd hop (hl f ab o)
      | _ => rfl) hrun t
    rw [← additions_eq, hadd, hbase, (isReserved_iff t).mpr hr] at hent
    obtain ⟨c, c1, c2, c3⟩ := fold_reserved (addsOf t as.flatten) (by
      intro a ha
      exact hpar _ (mem_addsOf.mp ha)) ⟨0, .NONE, 0⟩
    rw [c1] at hent
    unfold entryCore entry at hent
    obtain ⟨v, hv, hc⟩ := Option.map_eq_some_iff.mp hent
    obtain ⟨id, hid, hv⟩ := Option.bind_eq_some_iff.mp hv
    have htx : v.text = t := by
      have := (hinv.bij _ _).mp hid
      simpa [textAt, hv] using this
    refine ⟨⟨fun _ => ⟨v, List.mem_of_getElem? hv, htx⟩, fun _ => .inl hr⟩, ?_⟩
    intro v' hv' ht'
    obtain ⟨id', k1, k2⟩ := hmem hv' ht'
    rw [hid] at k1
    cases k1
    rw [hv] at k2
    cases k2
    constructor
    · have : v.frequency = c.freq := by rw [← hc]; rfl
      rw [this, c2, foldl_max_foldr, greatest_eq, Nat.zero_max]
      rfl
    · have : v.vocabtype = c.type := by rw [← hc]; rfl
      rw [this, c3]
      unfold InLm
      cases hb : addsOf t as.flatten with
      | nil =>
        rw [if_pos rfl]
        constructor
        · intro h; cases h
        · rintro ⟨a, ha, _⟩
          have hat : a.1 = t := by simpa using List.find?_some ha
          have : a.2 ∈ addsOf t as.flatten :=
            mem_addsOf.mpr (by rw [← hat]; exact List.mem_of_find?_eq_some ha)
          rw [hb] at this
          cases this
      | cons b bs =>
        rw [if_neg (by simp)]
        exact ⟨fun _ => ⟨_, addsOf_head hb, .inl hr⟩, fun _ => rfl⟩
  · obtain ⟨hno, hyes⟩ := loaded_entry h hcount has t hr
    constructor
    · constructor
      · rintro (h | ⟨a, ha, rfl⟩)
        · exact absurd h hr
        · have : a.2 ∈ addsOf a.1 as.flatten := mem_addsOf.mpr ha
          cases hb : addsOf a.1 as.flatten with
          | nil => rw [hb] at this; cases this
          | cons b bs =>
            obtain ⟨id, v, ⟨e1, e2, e3⟩, _⟩ := hyes b bs hb
            exact ⟨v, List.mem_of_getElem? e2, e3⟩
      · rintro ⟨v, hv, ht⟩
        obtain ⟨id, hid, _⟩ := hmem hv ht
        cases hb : addsOf t as.flatten with
        | nil => rw [hno hb] at hid; cases hid
        | cons b bs =>
          have : b ∈ addsOf t as.flatten := by rw [hb]; simp
          exact .inr ⟨_, mem_addsOf.mp this, rfl⟩
    · intro v hv ht
      obtain ⟨id, hid, hv'⟩ := hmem hv ht
      cases hb : addsOf t as.flatten with
      | nil => rw [hno hb] at hid; cases hid
      | cons b bs =>
        obtain ⟨id', v', ⟨e1, e2, e3⟩, e4, _, _, _, e7⟩ := hyes b bs hb
        rw [hid] at e1
        cases e1
        rw [hv'] at e2
        cases e2
        refine ⟨?_, ?_⟩
        · rw [greatest_eq, hb]
          exact (foldr_max e4.1 fun k hk => e4.2 k hk).symm
        · rw [e7]
          constructor
          · intro h
            exact ⟨_, addsOf_head hb, .inr h⟩
          · rintro ⟨a, ha, h⟩
            rw [addsOf_head hb] at ha
            cases ha
            exact h.resolve_left hr

/-! ## Counts -/

theorem lmCount_unique {adds : Additions} {ws : List (List Char)} {c c' : Option Nat}
    (h : LmCount adds ws c) (h' : LmCount adds ws c') : c = c' := by
  obtain ⟨ts, h1, h2, rfl⟩ := h
  obtain ⟨ts', h1', h2', rfl⟩ := h'
  have hp : ts.Perm ts' := (List.perm_ext_iff_of_nodup h1 h1').mpr fun t => (h2 t).trans (h2' t).symm
  by_cases e : ts = []
  · subst e
    have := hp.symm.eq_nil
    subst this
    rfl
  · rw [if_neg e, if_neg (fun e' => e (by subst e'; exact hp.eq_nil))]
    rw [(hp.map _).sum_eq]

theorem inLm_hasEntry {adds : Additions} {t : List Char} (h : InLm adds t) : HasEntry adds t := by
  obtain ⟨a, ha, _⟩ := h
  exact .inr ⟨a, List.mem_of_find?_eq_some ha, by simpa using List.find?_some ha⟩

/-- Every list of tokens has a count, or none. -/
theorem lmCount_exists (adds : Additions) (ws : List (List Char)) : ∃ c, LmCount adds ws c := by
  classical
  refine ⟨_, ((adds.map Prod.fst).dedup.filter fun t => decide (InLm adds t ∧ ∃ us, TokensOf t us ∧
    us.length ≤ 5 ∧ List.Forall₂ (Stands adds) us ws)), (List.nodup_dedup _).filter _, fun t => ?_, rfl⟩
  rw [List.mem_filter, decide_eq_true_eq, List.mem_dedup]
  constructor
  · exact fun h => h.2
  · intro h
    refine ⟨?_, h⟩
    obtain ⟨a, ha, _⟩ := h.1
    exact List.mem_map.mpr ⟨a, List.mem_of_find?_eq_some ha, by simpa using List.find?_some ha⟩

theorem loaded_inv {x : LoadExt} {args : LoadArgs} {o : Orders} {L : Loaded}
    (h : x.load args o = .ok L) : Inv L.vm := by
  obtain ⟨_, _, _, _, _, _, hrun, _⟩ := loaded_history h
  exact (inv_run (inv_new _) hrun).1

theorem loaded_knows {x : LoadExt} {args : LoadArgs} {o : Orders} {L : Loaded}
    (h : x.load args o = .ok L) (hcount : (sourcesOf args).length ≤ 256)
    {as : List Additions} (has : AddsAll x 0 (sourcesOf args) as) (u : List Char) :
    HasEntry as.flatten u ↔ ∃ i, L.vm.encoder.get? u = some i := by
  have hinv := loaded_inv h
  rw [(loaded_has h hcount has u).1]
  constructor
  · rintro ⟨v, hv, ht⟩
    obtain ⟨i, hi⟩ := List.getElem?_of_mem hv
    exact ⟨i, (hinv.bij _ _).mpr (by simp [textAt, hi, ht])⟩
  · rintro ⟨i, hi⟩
    have := (hinv.bij _ _).mp hi
    obtain ⟨v, hv, ht⟩ := Option.map_eq_some_iff.mp this
    exact ⟨v, List.mem_of_getElem? hv, ht⟩

theorem loaded_spaces {x : LoadExt} {args : LoadArgs} {o : Orders} {L : Loaded}
    (h : x.load args o = .ok L) (hcount : (sourcesOf args).length ≤ 256)
    {as : List Additions} (has : AddsAll x 0 (sourcesOf args) as)
    (hshort : ∀ a ∈ as.flatten, ∀ us, TokensOf a.1 us → us.length ≤ 255) :
    ∀ v ∈ L.vm.decoder, spaces v.text < 255 := by
  intro v hv
  have h1 := splitSpaces_length v.text
  rcases (loaded_has h hcount has v.text).1.mpr ⟨v, hv, rfl⟩ with hr | ⟨a, ha, e⟩
  · rcases hr with e | e | e <;> rw [e] <;> decide
  · have := hshort a ha _ (splitSpaces_isTokens a.1)
    rw [e] at this
    omega

/-- The id of a token is that of what it stands for. -/
theorem stands_id {x : LoadExt} {args : LoadArgs} {o : Orders} {L : Loaded}
    (h : x.load args o = .ok L) (hcount : (sourcesOf args).length ≤ 256)
    {as : List Additions} (has : AddsAll x 0 (sourcesOf args) as) {u w : List Char} {id : Nat}
    (hw : L.vm.encoder.get? w = some id) :
    Stands as.flatten u w ↔ (L.vm.encoder.get? u).getD 2 = id := by
  have hinv := loaded_inv h
  have hk := loaded_knows h hcount has u
  have hunk : L.vm.encoder.get? "<unk>".toList = some 2 := (hinv.bij _ _).mpr hinv.unk
  have hinj : ∀ {a b i}, L.vm.encoder.get? a = some i → L.vm.encoder.get? b = some i → a = b := by
    intro a b i ha hb
    have h1 := (hinv.bij _ _).mp ha
    have h2 := (hinv.bij _ _).mp hb
    rw [h1] at h2
    exact Option.some.inj h2
  unfold Stands
  rw [hk]
  cases hu : L.vm.encoder.get? u with
  | none =>
    simp only [reduceCtorEq, exists_false, false_and, not_false_eq_true, true_and, false_or, Option.getD_none]
    constructor
    · rintro rfl
      rw [hunk] at hw
      exact Option.some.inj hw
    · rintro rfl
      exact hinj hw hunk
  | some i =>
    simp only [Option.some.injEq, exists_eq', true_and, not_true_eq_false, false_and, or_false,
      Option.getD_some]
    constructor
    · rintro rfl
      rw [hu] at hw
      exact Option.some.inj hw
    · rintro rfl
      exact hinj hw hu

/-- **C108**: after loading, the count of the entries with ids `ids` is that of their texts in the files. -/
theorem loaded_counts {x : LoadExt} {args : LoadArgs} {o : Orders} {L : Loaded}
    (h : x.load args o = .ok L) (hcount : (sourcesOf args).length ≤ 256)
    {as : List Additions} (has : AddsAll x 0 (sourcesOf args) as)
    (hshort : ∀ a ∈ as.flatten, ∀ us, TokensOf a.1 us → us.length ≤ 255)
    {ids : List Nat} {ws : List (List Char)} (hlen : ids.length ≤ 5)
    (hids : List.Forall₂ (fun id w => L.vm.encoder.get? w = some id) ids ws) :
    LmCount as.flatten ws ((NGram.fromList ids).bind L.vm.ngrams.get?) := by
  have hinv' := loaded_inv h
  obtain ⟨m, hinv, hnil, hb⟩ := loaded_build h
  obtain ⟨_, _, hd, he⟩ := inv_build hinv hb
  have hs := loaded_spaces h hcount has hshort
  rw [hd] at hs
  obtain ⟨g, hg, hvec⟩ := (ngram_fromList ids).1 hlen
  rw [hg]
  show LmCount as.flatten ws (L.vm.ngrams.get? g)
  have hc := (build_counts hinv hs hb).1 g
  have hsome := build_isSome hinv hs hb g
  rw [hnil] at hc hsome
  have htok : ∀ v, tokenIds m v = tokenIds L.vm v := fun v => (tokenIds_congr he v).symm
  simp only [htok] at hsome
  rw [← hd] at hc hsome
  let p : VocabValue → Bool := fun v => v.vocabtype.lm && decide (tokenIds L.vm v = g.toVec)
  have hsum : (L.vm.ngrams.get? g).getD 0 = ((L.vm.decoder.filter p).map VocabValue.frequency).sum := by
    change count L.vm.ngrams g = _
    rw [hc, ← sum_map_ite]
    show 0 + _ = _
    rw [Nat.zero_add]
    congr 1
    apply List.map_congr_left
    intro v _
    simp only [contrib, htok, p, Bool.and_eq_true, decide_eq_true_eq]
  have htokens : ∀ v, tokenIds L.vm v = g.toVec ↔ ∃ us, TokensOf v.text us ∧ us.length ≤ 5 ∧
      List.Forall₂ (Stands as.flatten) us ws := by
    intro v
    have key : ∀ us : List (List Char), us.map (fun t => (L.vm.encoder.get? t).getD 2) = ids ↔
        List.Forall₂ (Stands as.flatten) us ws := by
      intro us
      clear hg hvec hlen
      induction hids generalizing us with
      | nil =>
        cases us with
        | nil => simp
        | cons => simp
      | @cons id w ids ws h1 h2 ih =>
        cases us with
        | nil => simp
        | cons u us =>
          rw [List.map_cons, List.cons.injEq, List.forall₂_cons, ← ih us, stands_id h hcount has h1]
    rw [hvec]
    constructor
    · intro e
      refine ⟨_, splitSpaces_isTokens v.text, ?_, (key _).mp e⟩
      have := congrArg List.length e
      rw [tokenIds, List.length_map] at this
      omega
    · rintro ⟨us, h1, _, h3⟩
      have := tokensOf_unique h1
      subst this
      exact (key _).mpr h3
  have hfil : ∀ v, v ∈ L.vm.decoder.filter p ↔ v ∈ L.vm.decoder ∧ InLm as.flatten v.text ∧
      ∃ us, TokensOf v.text us ∧ us.length ≤ 5 ∧ List.Forall₂ (Stands as.flatten) us ws := by
    intro v
    rw [List.mem_filter]
    refine and_congr_right fun hv => ?_
    rw [← htokens, ← ((loaded_has h hcount has v.text).2 v hv rfl).2]
    simp [p]
  refine ⟨(L.vm.decoder.filter p).map VocabValue.text, ?_, ?_, ?_⟩
  · have hn : (L.vm.decoder.map VocabValue.text).Nodup := by
      rw [List.nodup_iff_getElem?_ne_getElem?]
      intro i j hij hj e
      rw [List.length_map] at hj
      rw [List.getElem?_map, List.getElem?_map, List.getElem?_eq_getElem hj] at e
      have h1 : textAt L.vm j = some (L.vm.decoder[j].text) := by simp [textAt, hj]
      have h2 : textAt L.vm i = some (L.vm.decoder[j].text) := e
      have e1 := (hinv'.bij _ _).mpr h1
      have e2 := (hinv'.bij _ _).mpr h2
      rw [e1] at e2
      have := Option.some.inj e2
      omega
    exact hn.sublist (List.filter_sublist.map _)
  · intro t
    rw [List.mem_map]
    constructor
    · rintro ⟨v, hv, rfl⟩
      exact ((hfil v).mp hv).2
    · rintro ⟨h1, h2⟩
      obtain ⟨v, hv, rfl⟩ := (loaded_has h hcount has t).1.mp (inLm_hasEntry h1)
      exact ⟨v, (hfil v).mpr ⟨hv, h1, h2⟩, rfl⟩
  · have hempty : (L.vm.decoder.filter p).map VocabValue.text = [] ↔ L.vm.ngrams.get? g = none := by
      rw [List.map_eq_nil_iff, List.filter_eq_nil_iff, ← Option.not_isSome_iff_eq_none]
      rw [hsome]
      show _ ↔ ¬ ((none : Option Nat).isSome = true ∨ _)
      simp [p]
    by_cases e : (L.vm.decoder.filter p).map VocabValue.text = []
    · rw [if_pos e, hempty.mp e]
    · rw [if_neg e]
      cases hq : L.vm.ngrams.get? g with
      | none => exact absurd (hempty.mpr hq) e
      | some n =>
        rw [hq] at hsum
        rw [List.map_map]
        rw [show n = _ from hsum]
        congr 2
        apply List.map_congr_left
        intro v hv
        exact ((loaded_has h hcount has v.text).2 v (List.mem_of_mem_filter hv) rfl).1

/-- **C108**: there is a language model exactly if a text of at most five tokens is part of it. -/
theorem loaded_haveLm {x : LoadExt} {args : LoadArgs} {o : Orders} {L : Loaded}
    (h : x.load args o = .ok L) (hcount : (sourcesOf args).length ≤ 256)
    {as : List Additions} (has : AddsAll x 0 (sourcesOf args) as)
    (hshort : ∀ a ∈ as.flatten, ∀ us, TokensOf a.1 us → us.length ≤ 255) :
    L.vm.haveLm = true ↔ ∃ t us, InLm as.flatten t ∧ TokensOf t us ∧ us.length ≤ 5 := by
  obtain ⟨m, hinv, hnil, hb⟩ := loaded_build h
  obtain ⟨_, _, hd, he⟩ := inv_build hinv hb
  have hs := loaded_spaces h hcount has hshort
  rw [hd] at hs
  rw [build_haveLm hb]
  constructor
  · rintro ⟨g, hg⟩
    rcases (build_isSome hinv hs hb g).mp hg with hg | ⟨v, hv, h1, h2⟩
    · rw [hnil] at hg; cases hg
    · rw [← hd] at hv
      refine ⟨v.text, _, (((loaded_has h hcount has v.text).2 v hv rfl).2).mp h1, splitSpaces_isTokens _, ?_⟩
      have := congrArg List.length h2
      rw [tokenIds, List.length_map, toVec_length] at this
      have h5 : g.len ≤ 5 := by cases g <;> simp [NGram.len]
      omega
  · rintro ⟨t, us, h1, h2, h3⟩
    obtain ⟨v, hv, rfl⟩ := (loaded_has h hcount has t).1.mp (inLm_hasEntry h1)
    have := tokensOf_unique h2
    subst this
    obtain ⟨g, _, hvec⟩ := (ngram_fromList (tokenIds m v)).1 (by rw [tokenIds, List.length_map]; exact h3)
    exact ⟨g, (build_isSome hinv hs hb g).mpr (.inr ⟨v, hd ▸ hv,
      ((loaded_has h hcount has v.text).2 v hv rfl).2.mpr h1, hvec.symm⟩)⟩

/-- **C108**: the count of a single token is the frequency of the word, if that is part of the language
model. -/
theorem single_count {adds : Additions} {t : List Char} (hs : ' ' ∉ t) :
    (InLm adds t → LmCount adds [t] (some (greatest adds t))) ∧ (¬ InLm adds t → LmCount adds [t] none) := by
  have htok : TokensOf t [t] := ⟨by simp, by simpa using hs, by simp [List.intercalate]⟩
  have key : ∀ t', (InLm adds t' ∧ ∃ us, TokensOf t' us ∧ us.length ≤ 5 ∧ List.Forall₂ (Stands adds) us [t]) ↔
      InLm adds t ∧ t' = t := by
    intro t'
    constructor
    · rintro ⟨h1, us, h2, _, h4⟩
      cases h4 with
      | @cons u _ us _ h5 h6 =>
        cases h6
        have e : t' = u := by rw [← h2.2.2]; simp [List.intercalate]
        subst e
        rcases h5 with ⟨_, rfl⟩ | ⟨h5, _⟩
        · exact ⟨h1, rfl⟩
        · exact absurd (inLm_hasEntry h1) h5
    · rintro ⟨h1, rfl⟩
      exact ⟨h1, [t'], htok, by simp, .cons (.inl ⟨inLm_hasEntry h1, rfl⟩) .nil⟩
  constructor
  · intro h
    exact ⟨[t], by simp, fun t' => by rw [key, List.mem_singleton]; exact ⟨fun e => ⟨h, e⟩, fun e => e.2⟩,
      by simp⟩
  · intro h
    exact ⟨[], by simp, fun t' => by rw [key]; simp [h], by simp⟩

/-- The words of lexicons, variant lists and error lists are not part of the language model, even if a
language model has them, too. -/
theorem listed_not_lm {x : LoadExt} {args : LoadArgs} {as : List Additions}
    (has : AddsAll x 0 (sourcesOf args) as) {k : Nat} (hk : k < args.resources.length) {a : Additions}
    (ha : as[k]? = some a) {t : List Char} (ht : ∃ b ∈ a, b.1 = t) (hr : ¬ Reserved t) :
    ¬ InLm as.flatten t := by
  unfold sourcesOf at has
  obtain ⟨as1, as2, rfl, h1, _⟩ := addsAll_split has
  have hlen : ∀ {i : Nat} {ss as}, AddsAll x i ss as → as.length = ss.length := by
    intro i ss as h
    induction h with
    | nil => rfl
    | cons _ _ ih => simp [ih]
  have hl := hlen h1
  rw [List.length_map] at hl
  rw [List.getElem?_append_left (by omega)] at ha
  have hmem : ∃ b ∈ as1.flatten, b.1 = t := by
    obtain ⟨b, hb, e⟩ := ht
    exact ⟨b, List.mem_flatten.mpr ⟨a, List.mem_of_getElem? ha, hb⟩, e⟩
  have hnot : ∀ b ∈ as1.flatten, b.2.2.vocabType.lm = false := by
    clear has hl ha hmem ht
    suffices H : ∀ (i : Nat) (ss : List Source) (as : List Additions), AddsAll x i ss as →
        (∀ s ∈ ss, ∀ f, s ≠ .lm f) → ∀ b ∈ as.flatten, b.2.2.vocabType.lm = false by
      refine H 0 _ _ h1 ?_
      intro s hs f e
      obtain ⟨r, _, rfl⟩ := List.mem_map.mp hs
      cases r <;> cases e
    intro i ss as h
    induction h with
    | nil => intro _ b hb; cases hb
    | @cons i s ss a as h2 h3 ih =>
      intro hs b hb
      rw [List.flatten_cons] at hb
      rcases List.mem_append.mp hb with hb | hb
      · cases h2 with
        | lexicon _ _ => obtain ⟨e, _, rfl⟩ := List.mem_map.mp hb; rfl
        | variants _ _ =>
          obtain ⟨e, _, hb⟩ := List.mem_flatMap.mp hb
          rcases List.mem_cons.mp hb with rfl | hb
          · rfl
          · obtain ⟨v, _, rfl⟩ := List.mem_map.mp hb; rfl
        | errors _ _ =>
          obtain ⟨e, _, hb⟩ := List.mem_flatMap.mp hb
          rcases List.mem_cons.mp hb with rfl | hb
          · rfl
          · obtain ⟨v, _, rfl⟩ := List.mem_map.mp hb; rfl
        | lm _ _ => exact absurd rfl (hs _ List.mem_cons_self _)
      · exact ih (fun s h => hs s (by simp [h])) b hb
  rintro ⟨b, hb, h⟩
  rw [List.flatten_append, List.find?_append] at hb
  obtain ⟨c, hc, e⟩ := hmem
  have hsome : (as1.flatten.find? fun b => b.1 = t).isSome = true :=
    List.find?_isSome.mpr ⟨c, hc, by simpa using e⟩
  obtain ⟨d, hd⟩ := Option.isSome_iff_exists.mp hsome
  rw [hd] at hb
  cases hb
  rw [hnot _ (List.mem_of_find?_eq_some hd)] at h
  exact h.elim hr (by simp)

/-- **C108**: the transition from a word of a lexicon, variant list or error list to a token is scored by the
number of times the pair was counted, as if that were a probability; whatever the language model says about
the word itself. -/
theorem listed_transition {x : LoadExt} {args : LoadArgs} {as : List Additions}
    (has : AddsAll x 0 (sourcesOf args) as) {k : Nat} (hk : k < args.resources.length) {a : Additions}
    (ha : as[k]? = some a) {t u : List Char} (ht : ∃ b ∈ a, b.1 = t) (hr : ¬ Reserved t) (hs : ' ' ∉ t)
    {y : TextExt} (h32 : y.f32 = Rounding.exact)
    {count : List (List Char) → Option Nat} (hc : ∀ ws, LmCount as.flatten ws (count ws)) {joint : Nat}
    (hj : count [t, u] = some joint) (hpos : 0 < joint) :
    transition count y (some t) (some u) = .fin (y.ln32 joint) := by
  have hn : count [t] = none := lmCount_unique (hc [t]) ((single_count hs).2 (listed_not_lm has hk ha ht hr))
  have hq : (0 : Rat) < joint := by exact_mod_cast hpos
  unfold transition
  simp only [hj, hn, Option.getD_none, h32]
  split
  · next h1 =>
    have : joint = 1 := by omega
    subst this
    simp [EFloat.div, EFloat.log, Rounding.exact]
  · simp only [EFloat.log, Rounding.exact, id, gt_iff_lt, hq, if_true]

/-! ## Tokens and perplexity -/

/-- The token is the entry of the text, or both are unknown. -/
def SameToken (vm : Vm) (a : Option Nat) (b : Option (List Char)) : Prop :=
  (a = none ∧ b = none) ∨ ∃ i w, a = some i ∧ b = some w ∧ vm.encoder.get? w = some i

/-- The part of a reading, with the chosen variant as a suggestion. -/
structure SamePart (vm : Vm) (a : Part VariantResult) (b : Part Suggestion) : Prop where
  offset : a.offset = b.offset
  text : a.text = b.text
  sep : a.sep = b.sep
  choice : (a.choice = none ∧ b.choice = none) ∨ ∃ i v u, a.choice = some (i, v) ∧ b.choice = some (i, u) ∧
    SuggestedBy vm v u

theorem stands_of {x : LoadExt} {args : LoadArgs} {o : Orders} {L : Loaded}
    (h : x.load args o = .ok L) (hcount : (sourcesOf args).length ≤ 256)
    {as : List Additions} (has : AddsAll x 0 (sourcesOf args) as) (u : List Char) :
    (∃ w, Stands as.flatten u w) ∧ ∀ w, Stands as.flatten u w →
      L.vm.encoder.get? w = some ((L.vm.encoder.get? u).getD 2) := by
  have hk := loaded_knows h hcount has u
  have hinv := loaded_inv h
  constructor
  · by_cases e : HasEntry as.flatten u
    · exact ⟨u, .inl ⟨e, rfl⟩⟩
    · exact ⟨_, .inr ⟨e, rfl⟩⟩
  · rintro w (⟨h1, rfl⟩ | ⟨h1, rfl⟩)
    · obtain ⟨i, hi⟩ := hk.mp h1
      rw [hi]
      rfl
    · cases hu : L.vm.encoder.get? u with
      | some i => exact absurd (hk.mpr ⟨i, hu⟩) h1
      | none => exact (hinv.bij _ _).mpr hinv.unk

theorem word_tokens {x : LoadExt} {args : LoadArgs} {o : Orders} {L : Loaded}
    (h : x.load args o = .ok L) (hcount : (sourcesOf args).length ≤ 256)
    {as : List Additions} (has : AddsAll x 0 (sourcesOf args) as) {id : Nat} {v : VocabValue}
    (hv : L.vm.decoder[id]? = some v) :
    (∀ l, ItemTokens L.vm id l → ∃ l', WordTokens as.flatten v.text l' ∧ List.Forall₂ (SameToken L.vm) l l') ∧
    ∀ l', WordTokens as.flatten v.text l' → ∃ l, ItemTokens L.vm id l ∧ List.Forall₂ (SameToken L.vm) l l' := by
  have hst := stands_of h hcount has
  have key : ∀ {us ws : List (List Char)}, List.Forall₂ (Stands as.flatten) us ws →
      List.Forall₂ (SameToken L.vm) (us.map fun w => some ((L.vm.encoder.get? w).getD 2)) (ws.map some) := by
    intro us ws h
    induction h with
    | nil => exact .nil
    | cons h1 _ ih => exact .cons (.inr ⟨_, _, rfl, rfl, (hst _).2 _ h1⟩) ih
  constructor
  · rintro l ⟨v', us, h1, h2, rfl⟩
    rw [hv] at h1
    cases h1
    obtain ⟨ws, hws⟩ : ∃ ws, List.Forall₂ (Stands as.flatten) us ws := by
      clear h2
      induction us with
      | nil => exact ⟨[], .nil⟩
      | cons u us ih =>
        obtain ⟨ws, hws⟩ := ih
        obtain ⟨w, hw⟩ := (hst u).1
        exact ⟨w :: ws, .cons hw hws⟩
    refine ⟨_, ⟨us, ws, h2, hws, rfl⟩, ?_⟩
    split
    · exact key hws
    · exact .nil
  · rintro l' ⟨us, ws, h2, hws, rfl⟩
    refine ⟨_, ⟨v, us, hv, h2, rfl⟩, ?_⟩
    split
    · exact key hws
    · exact .nil

theorem sep_tokens {x : LoadExt} {args : LoadArgs} {o : Orders} {L : Loaded}
    (h : x.load args o = .ok L) (hcount : (sourcesOf args).length ≤ 256)
    {as : List Additions} (has : AddsAll x 0 (sourcesOf args) as) {isSpace : Char → Bool} {text : List Char} :
    (∀ l, BoundaryTokens L.vm isSpace text l →
      ∃ l', SepTokens as.flatten isSpace text l' ∧ List.Forall₂ (SameToken L.vm) l l') ∧
    ∀ l', SepTokens as.flatten isSpace text l' →
      ∃ l, BoundaryTokens L.vm isSpace text l ∧ List.Forall₂ (SameToken L.vm) l l' := by
  have hinv := loaded_inv h
  have hnone : List.Forall₂ (SameToken L.vm) [none] [none] := .cons (.inl ⟨rfl, rfl⟩) .nil
  have hat : ∀ {s : List Char} {i : Nat}, L.vm.encoder.get? s = some i →
      ∃ v, L.vm.decoder[i]? = some v ∧ v.text = s := by
    intro s i hi
    exact Option.map_eq_some_iff.mp ((hinv.bij _ _).mp hi)
  constructor
  · rintro l (⟨h1, rfl⟩ | ⟨a, s, b, h1, h2, h3, h4, h5, h6⟩)
    · exact ⟨[], .inl ⟨h1, rfl⟩, .nil⟩
    · have hk := loaded_knows h hcount has s
      rcases h6 with ⟨h6, rfl⟩ | ⟨i, h6, h7⟩
      · refine ⟨_, .inr ⟨a, s, b, h1, h2, h3, h4, h5, .inl ⟨?_, rfl⟩⟩, hnone⟩
        rw [hk, h6]
        simp
      · obtain ⟨v, hv, rfl⟩ := hat h6
        obtain ⟨l', k1, k2⟩ := (word_tokens h hcount has hv).1 l h7
        exact ⟨l', .inr ⟨a, _, b, h1, h2, h3, h4, h5, .inr ⟨hk.mpr ⟨i, h6⟩, k1⟩⟩, k2⟩
  · rintro l (⟨h1, rfl⟩ | ⟨a, s, b, h1, h2, h3, h4, h5, h6⟩)
    · exact ⟨[], .inl ⟨h1, rfl⟩, .nil⟩
    · have hk := loaded_knows h hcount has s
      rcases h6 with ⟨h6, rfl⟩ | ⟨h6, h7⟩
      · refine ⟨_, .inr ⟨a, s, b, h1, h2, h3, h4, h5, .inl ⟨?_, rfl⟩⟩, hnone⟩
        rw [← Option.not_isSome_iff_eq_none, Option.isSome_iff_exists]
        exact fun e => h6 (hk.mpr e)
      · obtain ⟨i, hi⟩ := hk.mp h6
        obtain ⟨v, hv, rfl⟩ := hat hi
        obtain ⟨l', k1, k2⟩ := (word_tokens h hcount has hv).2 l h7
        exact ⟨l', .inr ⟨a, _, b, h1, h2, h3, h4, h5, .inr ⟨i, hi, k1⟩⟩, k2⟩

theorem part_tokens {x : LoadExt} {args : LoadArgs} {o : Orders} {L : Loaded}
    (h : x.load args o = .ok L) (hcount : (sourcesOf args).length ≤ 256)
    {as : List Additions} (has : AddsAll x 0 (sourcesOf args) as) {isSpace : Char → Bool}
    {a : Part VariantResult} {b : Part Suggestion} (hab : SamePart L.vm a b) :
    (∀ l, PartTokens L.vm isSpace a l →
      ∃ l', StretchTokens as.flatten isSpace b l' ∧ List.Forall₂ (SameToken L.vm) l l') ∧
    ∀ l', StretchTokens as.flatten isSpace b l' →
      ∃ l, PartTokens L.vm isSpace a l ∧ List.Forall₂ (SameToken L.vm) l l' := by
  have hinv := loaded_inv h
  have hnone : List.Forall₂ (SameToken L.vm) [none] [none] := .cons (.inl ⟨rfl, rfl⟩) .nil
  have hst := sep_tokens h hcount has (isSpace := isSpace) (text := b.sep)
  have hid : ∀ {v : VariantResult} {u : Suggestion}, SuggestedBy L.vm v u →
      (v.vocabId = 0 ↔ u.word = "<bos>".toList) := by
    intro v u hvu
    obtain ⟨w, hw, ht⟩ := hvu.word
    have h0 := hinv.bos
    constructor
    · intro e
      rw [e] at hw
      simp only [textAt, hw, Option.map_some, Option.some.injEq] at h0
      rw [← ht, h0]
      rfl
    · intro e
      have h1 := (hinv.bij _ _).mpr h0
      have h2 : L.vm.encoder.get? bosText = some v.vocabId := (hinv.bij _ _).mpr (by
        simp only [textAt, hw, Option.map_some, Option.some.injEq]
        rw [ht, e]
        rfl)
      rw [h1] at h2
      exact (Option.some.inj h2).symm
  constructor
  · rintro l ⟨l1, l2, rfl, h1, h2⟩
    rw [hab.sep] at h1
    obtain ⟨l2', k1, k2⟩ := hst.1 l2 h1
    rcases hab.choice with ⟨e1, e2⟩ | ⟨i, v, u, e1, e2, e3⟩
    · rcases h2 with ⟨_, rfl⟩ | ⟨c, hc, _⟩
      · exact ⟨_, ⟨[none], l2', rfl, k1, .inl ⟨by rw [e2]; simp, rfl⟩⟩, List.rel_append hnone k2⟩
      · rw [e1] at hc; cases hc
    · rcases h2 with ⟨h2, rfl⟩ | ⟨c, hc, h3, h2⟩
      · refine ⟨_, ⟨[none], l2', rfl, k1, .inl ⟨?_, rfl⟩⟩, List.rel_append hnone k2⟩
        rw [e2]
        rintro c ⟨⟩
        exact (hid e3).mp (h2 _ e1)
      · rw [e1] at hc
        cases hc
        obtain ⟨w, hw, ht⟩ := e3.word
        obtain ⟨l1', j1, j2⟩ := (word_tokens h hcount has hw).1 l1 h2
        exact ⟨_, ⟨l1', l2', rfl, k1, .inr ⟨_, e2, fun e => h3 ((hid e3).mpr e), by rw [← ht]; exact j1⟩⟩,
          List.rel_append j2 k2⟩
  · rintro l ⟨l1, l2, rfl, h1, h2⟩
    obtain ⟨l2', k1, k2⟩ := hst.2 l2 h1
    rw [← hab.sep] at k1
    rcases hab.choice with ⟨e1, e2⟩ | ⟨i, v, u, e1, e2, e3⟩
    · rcases h2 with ⟨_, rfl⟩ | ⟨c, hc, _⟩
      · exact ⟨_, ⟨[none], l2', rfl, k1, .inl ⟨by rw [e1]; simp, rfl⟩⟩, List.rel_append hnone k2⟩
      · rw [e2] at hc; cases hc
    · rcases h2 with ⟨h2, rfl⟩ | ⟨c, hc, h3, h2⟩
      · refine ⟨_, ⟨[none], l2', rfl, k1, .inl ⟨?_, rfl⟩⟩, List.rel_append hnone k2⟩
        rw [e1]
        rintro c ⟨⟩
        exact (hid e3).mpr (h2 _ e2)
      · rw [e2] at hc
        cases hc
        obtain ⟨w, hw, ht⟩ := e3.word
        obtain ⟨l1', j1, j2⟩ := (word_tokens h hcount has hw).2 l1 (by rw [ht]; exact h2)
        exact ⟨_, ⟨l1', l2', rfl, k1, .inr ⟨_, e1, fun e => h3 ((hid e3).mp e), j1⟩⟩, List.rel_append j2 k2⟩

theorem same_transition {x : LoadExt} {args : LoadArgs} {o : Orders} {L : Loaded}
    (h : x.load args o = .ok L) (hcount : (sourcesOf args).length ≤ 256)
    {as : List Additions} (has : AddsAll x 0 (sourcesOf args) as)
    (hshort : ∀ a ∈ as.flatten, ∀ us, TokensOf a.1 us → us.length ≤ 255)
    {count : List (List Char) → Option Nat} (hc : ∀ ws, LmCount as.flatten ws (count ws)) {y : TextExt}
    {a a' : Option Nat} {b b' : Option (List Char)} (h1 : SameToken L.vm a b) (h2 : SameToken L.vm a' b') :
    transition (fun l => (NGram.fromList l).bind L.vm.ngrams.get?) y a a' = transition count y b b' := by
  rcases h1 with ⟨rfl, rfl⟩ | ⟨i, w, rfl, rfl, h1⟩
  · rfl
  · rcases h2 with ⟨rfl, rfl⟩ | ⟨i', w', rfl, rfl, h2⟩
    · rfl
    · unfold transition
      have e1 := lmCount_unique (hc [w, w']) (loaded_counts h hcount has hshort (ids := [i, i']) (by simp)
        (.cons h1 (.cons h2 .nil)))
      have e2 := lmCount_unique (hc [w]) (loaded_counts h hcount has hshort (ids := [i]) (by simp)
        (.cons h1 .nil))
      simp only [e1, e2]

/-- The scores of the transitions of a reading are what the files say: with their counts, tokens and words. -/
theorem loaded_transitions {x : LoadExt} {args : LoadArgs} {o : Orders} {L : Loaded}
    (h : x.load args o = .ok L) (hcount : (sourcesOf args).length ≤ 256)
    {as : List Additions} (has : AddsAll x 0 (sourcesOf args) as)
    (hshort : ∀ a ∈ as.flatten, ∀ us, TokensOf a.1 us → us.length ≤ 255)
    {y : TextExt} {l : List (Part VariantResult)} {l' : List (Part Suggestion)}
    (hl : List.Forall₂ (SamePart L.vm) l l') (F : List EFloat → Prop) :
    (∃ ls tokens, List.Forall₂ (PartTokens L.vm y.isSpace) l ls ∧ tokens = some 0 :: ls.flatten ++ [some 1] ∧
      F (List.zipWith (transition (fun l => (NGram.fromList l).bind L.vm.ngrams.get?) y) tokens tokens.tail)) ↔
    ∃ count : List (List Char) → Option Nat, (∀ ws, LmCount as.flatten ws (count ws)) ∧
      ∃ ls tokens, List.Forall₂ (StretchTokens as.flatten y.isSpace) l' ls ∧
        tokens = some "<bos>".toList :: ls.flatten ++ [some "<eos>".toList] ∧
        F (List.zipWith (transition count y) tokens tokens.tail) := by
  have hinv := loaded_inv h
  have hbos : SameToken L.vm (some 0) (some "<bos>".toList) :=
    .inr ⟨_, _, rfl, rfl, (hinv.bij _ _).mpr hinv.bos⟩
  have heos : SameToken L.vm (some 1) (some "<eos>".toList) :=
    .inr ⟨_, _, rfl, rfl, (hinv.bij _ _).mpr hinv.eos⟩
  have hzip : ∀ {count : List (List Char) → Option Nat}, (∀ ws, LmCount as.flatten ws (count ws)) →
      ∀ {ts : List (Option Nat)} {ts' : List (Option (List Char))}, List.Forall₂ (SameToken L.vm) ts ts' →
      List.zipWith (transition (fun l => (NGram.fromList l).bind L.vm.ngrams.get?) y) ts ts.tail =
        List.zipWith (transition count y) ts' ts'.tail := by
    intro count hc ts ts' h1
    induction h1 with
    | nil => rfl
    | cons h1 h2 ih =>
      cases h2 with
      | nil => rfl
      | cons h3 h4 =>
        simp only [List.tail_cons, List.zipWith_cons_cons] at ih ⊢
        rw [ih, same_transition h hcount has hshort hc h1 h3]
  have hfl : ∀ {ls : List (List (Option Nat))} {ls' : List (List (Option (List Char)))},
      List.Forall₂ (List.Forall₂ (SameToken L.vm)) ls ls' → List.Forall₂ (SameToken L.vm)
        (some 0 :: ls.flatten ++ [some 1]) (some "<bos>".toList :: ls'.flatten ++ [some "<eos>".toList]) := by
    intro ls ls' h1
    refine .cons hbos (List.rel_append ?_ (.cons heos .nil))
    induction h1 with
    | nil => exact .nil
    | cons h1 _ ih => exact List.rel_append h1 ih
  constructor
  · rintro ⟨ls, tokens, h1, rfl, h3⟩
    choose count hc using lmCount_exists as.flatten
    obtain ⟨ls', k1, k2⟩ : ∃ ls', List.Forall₂ (StretchTokens as.flatten y.isSpace) l' ls' ∧
        List.Forall₂ (List.Forall₂ (SameToken L.vm)) ls ls' := by
      clear h3
      induction hl generalizing ls with
      | nil => cases h1; exact ⟨[], .nil, .nil⟩
      | cons h4 _ ih =>
        cases h1 with
        | cons h5 h6 =>
          obtain ⟨ls', i1, i2⟩ := ih _ h6
          obtain ⟨l2, i3, i4⟩ := (part_tokens h hcount has h4).1 _ h5
          exact ⟨l2 :: ls', .cons i3 i1, .cons i4 i2⟩
    exact ⟨count, hc, ls', _, k1, rfl, by rw [← hzip hc (hfl k2)]; exact h3⟩
  · rintro ⟨count, hc, ls', tokens, h1, rfl, h3⟩
    obtain ⟨ls, k1, k2⟩ : ∃ ls, List.Forall₂ (PartTokens L.vm y.isSpace) l ls ∧
        List.Forall₂ (List.Forall₂ (SameToken L.vm)) ls ls' := by
      clear h3
      induction hl generalizing ls' with
      | nil => cases h1; exact ⟨[], .nil, .nil⟩
      | cons h4 _ ih =>
        cases h1 with
        | cons h5 h6 =>
          obtain ⟨ls, i1, i2⟩ := ih _ h6
          obtain ⟨l2, i3, i4⟩ := (part_tokens h hcount has h4).2 _ h5
          exact ⟨l2 :: ls, .cons i3 i1, .cons i4 i2⟩
    exact ⟨ls, _, k1, rfl, by rw [hzip hc (hfl k2)]; exact h3⟩

/-- **C108**: the perplexity of a reading is what the files say: with their counts, tokens and words. -/
theorem loaded_perplexity {x : LoadExt} {args : LoadArgs} {o : Orders} {L : Loaded}
    (h : x.load args o = .ok L) (hcount : (sourcesOf args).length ≤ 256)
    {as : List Additions} (has : AddsAll x 0 (sourcesOf args) as)
    (hshort : ∀ a ∈ as.flatten, ∀ us, TokensOf a.1 us → us.length ≤ 255)
    {y : TextExt} {l : List (Part VariantResult)} {l' : List (Part Suggestion)}
    (hl : List.Forall₂ (SamePart L.vm) l l') {v : Rat} :
    Perplexity L.vm y l v ↔ WordPerplexity as.flatten y l' v := by
  have key := loaded_transitions h hcount has hshort (y := y) hl
    (fun steps => ∃ ts : List Rat, steps = ts.map .fin ∧ v = -(ts.sum / ts.length))
  constructor
  · rintro ⟨ls, tokens, ts, h1, h2, h3, h4⟩
    obtain ⟨count, hc, ls', tokens', k1, k2, ts', k3, k4⟩ := key.mp ⟨ls, tokens, h1, h2, ts, h3, h4⟩
    exact ⟨count, hc, ls', tokens', ts', k1, k2, k3, k4⟩
  · rintro ⟨count, hc, ls', tokens', ts', k1, k2, k3, k4⟩
    obtain ⟨ls, tokens, h1, h2, ts, h3, h4⟩ := key.mpr ⟨count, hc, ls', tokens', k1, k2, ts', k3, k4⟩
    exact ⟨ls, tokens, ts, h1, h2, h3, h4⟩

/-! ## An example -/

/-- A lexicon with `ab` and `b`, and a language model with `ab b` and `ab`. -/
def exLoadC : LoadExt :=
  { exLoadR with file := fun f => if f = ['m'] then some [some "ab b\t2".toList, some "ab\t7".toList]
    else exLoadR.file f }

def exArgsC : LoadArgs :=
  { alphabet := ['a'], lexicons := [(['l'], 3)], variants := [], errors := [], lm := [['m']], confusables := []
    contextrules := [] }

def exAddedC : List Additions :=
  [[("ab".toList, some 3, {}), ("b".toList, some 1, {})],
    [("ab b".toList, some 2, { index := 1, vocabType := .LM }),
      ("ab".toList, some 7, { index := 1, vocabType := .LM })]]

theorem exAddsC : AddsAll exLoadC 0 (sourcesOf exArgsC) exAddedC := by
  have vocab : ∀ {l t f : List Char} {n : Nat}, splitChar '\t' l = [t, f] →
      parseUnsigned (2 ^ 32 - 1) f = some n → VocabLine {} l (t, n) := by
    intro l t f n h1 h2
    exact ⟨[t, f], (fieldsOf_iff _ _).mpr h1, rfl,
      .inr ⟨1, rfl, .inr ⟨f, rfl, (parseUnsigned_iff _ _ _).mp h2⟩⟩⟩
  refine .cons (s := .lexicon ['l']) (ss := [.lm ['m']]) ?_ (.cons ?_ .nil)
  · exact Adds.lexicon (x := exLoadC) (f := ['l']) (es := [("ab".toList, 3), (['b'], 1)]) rfl
      (.cons (vocab (f := ['3']) (by decide) (by decide)) (.cons (vocab (f := ['1']) (by decide) (by decide)) .nil))
  · exact Adds.lm (x := exLoadC) (f := ['m']) (es := [("ab b".toList, 2), ("ab".toList, 7)]) rfl
      (.cons (vocab (f := ['2']) (by decide) (by decide)) (.cons (vocab (f := ['7']) (by decide) (by decide)) .nil))

def exLoadedC : Loaded :=
  match exLoadC.load exArgsC exOrders with
  | .ok l => l
  | .error _ => ⟨Vm.new [], [], ⟨[], []⟩⟩

theorem exLoadedC_ok : exLoadC.load exArgsC exOrders = .ok exLoadedC := rfl

theorem exShortC : ∀ a ∈ exAddedC.flatten, ∀ us, TokensOf a.1 us → us.length ≤ 255 := by
  intro a ha us hus
  have := tokensOf_unique hus
  subst this
  have hall : ∀ a ∈ exAddedC.flatten, (splitSpaces a.1).length ≤ 255 := by decide +kernel
  exact hall a ha

/-- `ab` has an entry with frequency 7, and is not part of the language model. -/
example : ∃ v ∈ exLoadedC.vm.decoder, v.text = "ab".toList ∧ v.frequency = 7 ∧ v.vocabtype.lm = false := by
  have h := loaded_has exLoadedC_ok (by decide) exAddsC "ab".toList
  obtain ⟨v, hv, ht⟩ := h.1.mp (.inr ⟨_, List.mem_cons_self, rfl⟩)
  obtain ⟨h1, h2⟩ := h.2 v hv ht
  refine ⟨v, hv, ht, h1.trans (by decide), ?_⟩
  cases hlm : v.vocabtype.lm with
  | false => rfl
  | true =>
    exact absurd (h2.mp hlm) (listed_not_lm exAddsC (k := 0) (by decide) rfl ⟨_, List.mem_cons_self, rfl⟩
      (by unfold Reserved; decide))

example : exLoadedC.vm.haveLm = true :=
  (loaded_haveLm exLoadedC_ok (by decide) exAddsC exShortC).mpr ⟨"ab b".toList, ["ab".toList, "b".toList],
    ⟨_, rfl, .inr rfl⟩, ⟨by simp, by decide, by decide⟩, by decide⟩

/-- The pair `ab b` counts 2; `ab` is not counted, though the language model has it 7 times. -/
theorem exCountsC {count : List (List Char) → Option Nat} (hc : ∀ ws, LmCount exAddedC.flatten ws (count ws)) :
    count ["ab".toList, "b".toList] = some 2 ∧ count ["ab".toList] = none := by
  refine ⟨(lmCount_unique (hc _) (loaded_counts exLoadedC_ok (by decide) exAddsC exShortC (ids := [3, 4])
    (by decide) (.cons (by decide +kernel) (.cons (by decide +kernel) .nil)))).trans (by decide +kernel),
    lmCount_unique (hc _) ((single_count (by decide)).2 (listed_not_lm exAddsC (k := 0) (by decide) rfl
      ⟨_, List.mem_cons_self, rfl⟩ (by unfold Reserved; decide)))⟩

/-- So the transition scores the logarithm of 2, and not that of 2/7. -/
example {count : List (List Char) → Option Nat} (hc : ∀ ws, LmCount exAddedC.flatten ws (count ws)) :
    transition count exText (some "ab".toList) (some "b".toList) = .fin 1 := by
  rw [listed_transition exAddsC (k := 0) (by decide) rfl ⟨_, List.mem_cons_self, rfl⟩
    (by unfold Reserved; decide) (by decide) (y := exText) rfl hc (exCountsC hc).1 (by decide)]
  decide +kernel

/-- The reading of `ab b` with both words as they are. -/
example : ∃ v, Perplexity exLoadedC.vm exText
      [⟨0, "ab".toList, some (0, ⟨3, 1, 1, none⟩), " ".toList⟩, ⟨3, "b".toList, some (0, ⟨4, 1, 1, none⟩), []⟩] v ∧
    WordPerplexity exAddedC.flatten exText
      [⟨0, "ab".toList, some (0, ⟨"ab".toList, 1, 1, none⟩), " ".toList⟩,
        ⟨3, "b".toList, some (0, ⟨"b".toList, 1, 1, none⟩), []⟩] v := by
  have h : List.Forall₂ (SamePart exLoadedC.vm)
      [⟨0, "ab".toList, some (0, ⟨3, 1, 1, none⟩), " ".toList⟩, ⟨3, "b".toList, some (0, ⟨4, 1, 1, none⟩), []⟩]
      [⟨0, "ab".toList, some (0, ⟨"ab".toList, 1, 1, none⟩), " ".toList⟩,
        ⟨3, "b".toList, some (0, ⟨"b".toList, 1, 1, none⟩), []⟩] :=
    .cons ⟨rfl, rfl, rfl, .inr ⟨0, _, _, rfl, rfl, ⟨⟨_, rfl, rfl⟩, rfl, rfl, .inl ⟨rfl, rfl⟩⟩⟩⟩
      (.cons ⟨rfl, rfl, rfl, .inr ⟨0, _, _, rfl, rfl, ⟨⟨_, rfl, rfl⟩, rfl, rfl, .inl ⟨rfl, rfl⟩⟩⟩⟩ .nil)
  have hp : Perplexity exLoadedC.vm exText [⟨0, "ab".toList, some (0, ⟨3, 1, 1, none⟩), " ".toList⟩,
      ⟨3, "b".toList, some (0, ⟨4, 1, 1, none⟩), []⟩] (-(([SMOOTHING, 1, SMOOTHING] : List Rat).sum / 3)) := by
    refine ⟨[[some 3], [some 4]], [some 0, some 3, some 4, some 1], [SMOOTHING, 1, SMOOTHING], ?_, rfl,
      by decide +kernel, by simp⟩
    refine .cons ⟨[some 3], [], rfl, .inl ⟨by unfold Blank; decide, rfl⟩, .inr ⟨_, rfl, by decide, ?_⟩⟩
      (.cons ⟨[some 4], [], rfl, .inl ⟨by unfold Blank; decide, rfl⟩, .inr ⟨_, rfl, by decide, ?_⟩⟩ .nil)
    · exact ⟨_, ["ab".toList], rfl, ⟨by simp, by decide, by decide⟩, by decide +kernel⟩
    · exact ⟨_, ["b".toList], rfl, ⟨by simp, by decide, by decide⟩, by decide +kernel⟩
  exact ⟨_, hp, (loaded_perplexity exLoadedC_ok (by decide) exAddsC exShortC h).mp hp⟩

end Verif.Props
