import Verif.Spec.RulesFile
import Verif.Props.Rules

/-!
# Properties of adding context rules (C53, C69, C70)
-/
namespace Verif.Props

open Verif.Spec Verif.Model Verif.Lemmas

/-! ## C53 -/

theorem splitChar_ne_nil (sep : Char) (s : List Char) : splitChar sep s ≠ [] := by
  cases s with
  | nil => simp [splitChar]
  | cons c s =>
    rw [splitChar]
    split
    · simp
    · split <;> simp

theorem tagIndex_spec {tags : List (List Char)} (hn : tags.Nodup) (tag : List Char) :
    (tagIndex tags tag).1.Nodup ∧ tags <+: (tagIndex tags tag).1 ∧
      ((tagIndex tags tag).1.length ≤ 65536 →
        Resolves (tagIndex tags tag).1 (tagIndex tags tag).2 tag) := by
  unfold tagIndex Resolves
  cases h : tags.findIdx? (· == tag) with
  | none =>
    have hne : tag ∉ tags := by
      intro hm
      have := List.findIdx?_eq_none_iff.mp h tag hm
      simp at this
    refine ⟨?_, List.prefix_append _ _, ?_⟩
    · rw [List.nodup_append]
      refine ⟨hn, List.nodup_singleton _, ?_⟩
      intro a ha b hb
      rw [List.mem_singleton] at hb
      subst hb
      exact fun e => hne (e ▸ ha)
    · intro hl
      simp only [List.length_append, List.length_singleton] at hl
      have hmod : tags.length % 65536 = tags.length := Nat.mod_eq_of_lt (by omega)
      simp only [hmod]
      simp
  | some i =>
    refine ⟨hn, List.prefix_refl _, ?_⟩
    intro hl
    simp only at hl
    obtain ⟨hi, hp, _⟩ := List.findIdx?_eq_some_iff_getElem.mp h
    have hmod : i % 65536 = i := Nat.mod_eq_of_lt (by omega)
    simp only [hmod, List.getElem?_eq_getElem hi]
    simpa using hp

theorem resolves_mono {tags tags' : List (List Char)} (h : tags <+: tags') {i : Nat} {name : List Char}
    (hr : Resolves tags i name) : Resolves tags' i name := by
  obtain ⟨t, rfl⟩ := h
  unfold Resolves at *
  have := (List.getElem?_eq_some_iff.mp hr).1
  rw [List.getElem?_append_left this]
  exact hr

theorem tagIndices_spec (ts : List (List Char)) : ∀ {tags : List (List Char)}, tags.Nodup →
    (tagIndices tags ts).1.Nodup ∧ tags <+: (tagIndices tags ts).1 ∧
      ((tagIndices tags ts).1.length ≤ 65536 →
        List.Forall₂ (Resolves (tagIndices tags ts).1) (tagIndices tags ts).2 ts) := by
  induction ts with
  | nil => intro tags hn; exact ⟨hn, List.prefix_refl _, fun _ => .nil⟩
  | cons t ts ih =>
    intro tags hn
    obtain ⟨a1, a2, a3⟩ := tagIndex_spec hn t
    obtain ⟨b1, b2, b3⟩ := ih a1
    refine ⟨b1, a2.trans b2, fun hl => ?_⟩
    exact .cons (resolves_mono b2 (a3 (Nat.le_trans b2.length_le hl))) (b3 hl)

theorem tagIndices_length (ts : List (List Char)) : ∀ (tags : List (List Char)),
    (tagIndices tags ts).2.length = ts.length := by
  induction ts with
  | nil => intro tags; rfl
  | cons t ts ih =>
    intro tags
    show (_ :: (tagIndices (tagIndex tags t).1 ts).2).length = _
    rw [List.length_cons, ih, List.length_cons]

/-- One addition: names of tags are never changed, and an accepted rule has the tags of the request. -/
theorem add_tags {env : RuleEnv} {b b' : RuleBook} {c : RuleCall} {ok : Bool} (hn : b.tags.Nodup)
    (h : b.add env c.pattern c.score c.tag c.tagoffset = .ok (b', ok)) :
    b'.tags.Nodup ∧ b.tags <+: b'.tags ∧
      (ok = false → b'.rules = b.rules) ∧
      (ok = true → ∃ rule, b'.rules = b.rules ++ [rule] ∧ rule.score = c.score ∧
        (b'.tags.length ≤ 65536 → List.Forall₂ (Resolves b'.tags) rule.tag c.tag)) := by
  obtain ⟨t1, t2, t3⟩ := tagIndices_spec c.tag hn
  unfold RuleBook.add at h
  cases hp : ((splitChar ';' c.pattern).map (trim env.isSpace)).mapM
      (PatternMatch.parse env.isSpace env.lexicons env.encoder) with
  | none =>
    rw [hp] at h
    cases h
    exact ⟨hn, List.prefix_refl _, fun _ => rfl, fun h => by cases h⟩
  | some ps =>
    rw [hp] at h
    simp only at h
    split at h
    · cases h
      exact ⟨t1, t2, fun _ => rfl, fun h => by cases h⟩
    · obtain ⟨⟨os, e⟩, _, h⟩ := bind_ok.mp h
      simp only at h
      cases e with
      | true =>
        cases h
        exact ⟨t1, t2, fun _ => rfl, fun h => by cases h⟩
      | false =>
        have hne : ps ≠ [] := by
          rintro rfl
          have hlen := congrArg (Option.map List.length) hp
          cases hs : splitChar ';' c.pattern with
          | nil => exact absurd hs (splitChar_ne_nil _ _)
          | cons w ws =>
            rw [hs, List.map_cons, List.mapM_cons] at hp
            simp only [Option.bind_eq_bind, Option.bind_eq_some_iff, Option.pure_def] at hp
            obtain ⟨_, _, _, _, hp⟩ := hp
            cases hp
        have he : ps.isEmpty = false := by simpa using hne
        simp only [he, Bool.false_eq_true, if_false] at h
        cases h
        exact ⟨t1, t2, (fun h => by cases h), fun _ => ⟨_, rfl, rfl, t3⟩⟩

/-- **C53**: after any sequence of additions, the rules are those of the accepted ones, in their order,
and the tags of each of them resolve to the names given (for up to 65536 names); the names are distinct,
so that equal names share an index. -/
theorem tags_resolve {env : RuleEnv} (calls : List RuleCall) : ∀ {b : RuleBook} {flags : List Bool}
    (_ : addAll env ⟨[], []⟩ calls = .ok (b, flags)),
    b.tags.Nodup ∧ flags.length = calls.length ∧
      (b.tags.length ≤ 65536 → List.Forall₂
        (fun rule call => rule.score = call.score ∧ List.Forall₂ (Resolves b.tags) rule.tag call.tag)
        b.rules (accepted calls flags)) := by
  have gen : ∀ (calls : List RuleCall) {b0 b : RuleBook} {flags : List Bool}, b0.tags.Nodup →
      addAll env b0 calls = .ok (b, flags) →
      b.tags.Nodup ∧ b0.tags <+: b.tags ∧ flags.length = calls.length ∧ ∃ new, b.rules = b0.rules ++ new ∧
        (b.tags.length ≤ 65536 → List.Forall₂
          (fun rule call => rule.score = call.score ∧ List.Forall₂ (Resolves b.tags) rule.tag call.tag)
          new (accepted calls flags)) := by
    intro calls
    induction calls with
    | nil =>
      intro b0 b flags hn h
      cases h
      exact ⟨hn, List.prefix_refl _, rfl, [], by simp, fun _ => .nil⟩
    | cons c cs ih =>
      intro b0 b flags hn h
      rw [addAll] at h
      obtain ⟨⟨b1, ok⟩, h1, h⟩ := bind_ok.mp h
      obtain ⟨⟨b2, oks⟩, h2, h⟩ := bind_ok.mp h
      cases h
      obtain ⟨a1, a2, a3, a4⟩ := add_tags hn h1
      obtain ⟨c1, c2, c3, new, c4, c5⟩ := ih a1 h2
      refine ⟨c1, a2.trans c2, by simp [c3], ?_⟩
      cases ok with
      | false =>
        refine ⟨new, by rw [c4, a3 rfl], fun hl => ?_⟩
        simpa [accepted] using c5 hl
      | true =>
        obtain ⟨rule, r1, r2, r3⟩ := a4 rfl
        refine ⟨rule :: new, by rw [c4, r1]; simp, fun hl => ?_⟩
        have : accepted (c :: cs) (true :: oks) = c :: accepted cs oks := by simp [accepted]
        rw [this]
        refine .cons ⟨r2, ?_⟩ (c5 hl)
        refine (r3 (Nat.le_trans c2.length_le hl)).imp fun i n hi => resolves_mono c2 hi
  intro b flags h
  obtain ⟨h1, _, h2, new, h3, h4⟩ := gen calls List.nodup_nil h
  rw [List.nil_append] at h3
  exact ⟨h1, h2, by rw [h3]; exact h4⟩

/-- **C53**: indices never change their meaning, and rules never change. -/
theorem tags_stable {env : RuleEnv} (calls : List RuleCall) : ∀ {b b' : RuleBook} {flags : List Bool}
    (_ : b.tags.Nodup) (_ : addAll env b calls = .ok (b', flags)),
    b.tags <+: b'.tags ∧ b.rules <+: b'.rules := by
  induction calls with
  | nil => intro b b' flags _ h; cases h; exact ⟨List.prefix_refl _, List.prefix_refl _⟩
  | cons c cs ih =>
    intro b b' flags hn h
    rw [addAll] at h
    obtain ⟨⟨b1, ok⟩, h1, h⟩ := bind_ok.mp h
    obtain ⟨⟨b2, oks⟩, h2, h⟩ := bind_ok.mp h
    cases h
    obtain ⟨a1, a2, a3, a4⟩ := add_tags hn h1
    obtain ⟨c1, c2⟩ := ih a1 h2
    refine ⟨a2.trans c1, .trans ?_ c2⟩
    cases ok with
    | false => rw [a3 rfl]
    | true =>
      obtain ⟨rule, r1, _⟩ := a4 rfl
      rw [r1]
      exact List.prefix_append _ _

/-- What rules are parsed with in the examples. -/
def exEnv : RuleEnv := ⟨(· == ' '), ["x/y".toList], [(['a'], 3), (['b'], 4)]⟩

/-- Requests of which the second is not accepted (but leaves its tag behind). -/
def exCalls : List RuleCall :=
  [⟨"a ; !@y".toList, 11/10, ["p".toList, "q".toList], ["0:2".toList, "1".toList]⟩,
   ⟨"b".toList, 1, ["r".toList], ["0:x".toList]⟩,
   ⟨"b|^".toList, 9/10, ["s".toList, "q".toList], []⟩]

example : ∃ b, addAll exEnv ⟨[], []⟩ exCalls = .ok (b, [true, false, true]) ∧
    b.tags = ["p".toList, "q".toList, "r".toList, "s".toList] ∧
    b.rules.map (fun r => (r.tag, r.tagoffset)) =
      [([0, 1], [(0, 2), (1, 1)]), ([3, 1], [(0, 1), (0, 1)])] := ⟨_, rfl, rfl, rfl⟩

/-- **C53 is violated** beyond 65536 names: the next name gets index 0. -/
theorem tag_index_wraps {tags : List (List Char)} (hl : tags.length = 65536) {tag : List Char}
    (hn : tag ∉ tags) : (tagIndex tags tag).2 = 0 ∧ ¬ Resolves (tagIndex tags tag).1 0 tag := by
  have h : tags.findIdx? (· == tag) = none := by
    rw [List.findIdx?_eq_none_iff]
    intro x hx
    simp only [beq_eq_false_iff_ne]
    exact fun e => hn (e ▸ hx)
  unfold tagIndex Resolves
  rw [h]
  refine ⟨by simp [hl], fun h0 => ?_⟩
  rw [List.getElem?_append_left (by omega)] at h0
  exact hn (List.mem_of_getElem? h0)

example : ∃ tags : List (List Char), tags.length = 65536 ∧ ['b'] ∉ tags ∧ tags.Nodup := by
  refine ⟨(List.range 65536).map fun i => List.replicate i 'a', by simp, ?_, ?_⟩
  · intro h
    obtain ⟨i, _, hi⟩ := List.mem_map.mp h
    have : 'b' ∈ List.replicate i 'a' := by rw [hi]; simp
    have := List.eq_of_mem_replicate this
    exact absurd this (by decide)
  · refine (List.nodup_range).map ?_
    intro i j hij
    simpa using congrArg List.length hij

/-! ## C69 -/

theorem digit_digitChar {d : Nat} (h : d < 10) : digit? (Nat.digitChar d) = some d := by
  have : ∀ d < 10, digit? (Nat.digitChar d) = some d := by decide
  exact this d h

theorem digitChar_ne {d : Nat} (h : d < 10) : Nat.digitChar d ≠ ':' ∧ Nat.digitChar d ≠ '+' := by
  have : ∀ d < 10, Nat.digitChar d ≠ ':' ∧ Nat.digitChar d ≠ '+' := by decide
  exact this d h

theorem parseDigits_ok (max : Nat) (ds : List Nat) : ∀ (v : Nat), (∀ d ∈ ds, d < 10) →
    ds.foldl (fun a d => a * 10 + d) v ≤ max →
    parseDigits max v (ds.map Nat.digitChar) = some (ds.foldl (fun a d => a * 10 + d) v) := by
  have grow : ∀ (ds : List Nat) (v : Nat), v ≤ ds.foldl (fun a d => a * 10 + d) v := by
    intro ds
    induction ds with
    | nil => intro v; exact Nat.le_refl _
    | cons d ds ih => intro v; have := ih (v * 10 + d); simp only [List.foldl_cons]; omega
  induction ds with
  | nil => intro v _ _; rfl
  | cons d ds ih =>
    intro v hd hv
    have h1 := grow ds (v * 10 + d)
    rw [List.foldl_cons] at hv ⊢
    rw [List.map_cons, parseDigits, digit_digitChar (hd d (by simp))]
    simp only
    rw [if_pos (by omega)]
    exact ih _ (fun e he => hd e (by simp [he])) hv

theorem ofDigits_foldl (ds : List Nat) :
    Nat.ofDigits 10 ds.reverse = ds.foldl (fun a d => a * 10 + d) 0 := by
  induction ds using List.reverseRecOn with
  | nil => rfl
  | append_singleton ds d ih =>
    rw [List.reverse_append, List.foldl_append, List.reverse_singleton, List.singleton_append,
      Nat.ofDigits_cons, ih]
    simp only [List.foldl_cons, List.foldl_nil]
    omega

theorem parseUnsigned_decimal {s : List Char} {v : Nat} (h : Decimal s v) :
    parseUnsigned 255 s = some v ∧ ':' ∉ s ∧ s ≠ [] := by
  obtain ⟨ds, h1, h2, rfl, h3, h4⟩ := h
  rw [ofDigits_foldl] at h3
  have hd := parseDigits_ok 255 ds 0 h2 (by omega)
  refine ⟨?_, ?_, by simpa using h1⟩
  · cases ds with
    | nil => exact absurd rfl h1
    | cons d ds =>
      have hne := (digitChar_ne (h2 d (by simp))).2
      rw [List.map_cons] at hd ⊢
      rw [h3]
      unfold parseUnsigned
      split
      · next heq => cases heq
      · next heq => exact absurd (List.cons.inj heq).1 hne
      · next heq => exact absurd (List.cons.inj heq).1 hne
      · exact hd
  · intro hm
    obtain ⟨d, hd, he⟩ := List.mem_map.mp hm
    exact (digitChar_ne (h2 d hd)).1 he

theorem parseOffset_ok {n : Nat} (hn : n < 256) {s : List Char} {o : Nat × Nat}
    (h : OffsetText n s o) : parseOffset n s = .ok (o, false) := by
  have hmod : n % 256 = n := Nat.mod_eq_of_lt hn
  cases h with
  | both h1 h2 =>
    obtain ⟨a1, a2, a3⟩ := parseUnsigned_decimal h1
    obtain ⟨b1, b2, b3⟩ := parseUnsigned_decimal h2
    unfold parseOffset
    rw [splitChar_sep a2, splitChar_none b2]
    simp only [List.getElem?_cons_zero, List.getElem?_cons_succ, a1, b1]
  | begin h1 h2 =>
    obtain ⟨a1, a2, a3⟩ := parseUnsigned_decimal h1
    unfold parseOffset
    rw [splitChar_sep a2, splitChar]
    simp only [List.getElem?_cons_zero, List.getElem?_cons_succ, a1, hmod]
    rw [if_neg (by omega)]
  | beginOnly h1 h2 =>
    obtain ⟨a1, a2, a3⟩ := parseUnsigned_decimal h1
    unfold parseOffset
    rw [splitChar_none a2]
    simp only [List.getElem?_cons_zero, List.getElem?_cons_succ, a1, hmod, List.getElem?_nil]
    rw [if_neg (by omega)]
  | length h1 =>
    obtain ⟨a1, a2, a3⟩ := parseUnsigned_decimal h1
    unfold parseOffset
    rw [splitChar, if_pos rfl, splitChar_none a2]
    simp only [List.getElem?_cons_zero, List.getElem?_cons_succ, a1]
  | neither =>
    unfold parseOffset
    simp [splitChar, hmod]

theorem parseOffsets_ok {n : Nat} (hn : n < 256) {ss : List (List Char)} {os : List (Nat × Nat)}
    (h : List.Forall₂ (OffsetText n) ss os) : parseOffsets n ss = .ok (os, false) := by
  induction h with
  | nil => rfl
  | cons h1 _ ih =>
    rw [parseOffsets, parseOffset_ok hn h1, ih]
    rfl

theorem trim_trim (isSpace : Char → Bool) (s : List Char) :
    trim isSpace (trim isSpace s) = trim isSpace s := by
  rw [trim_eq isSpace s, trim_trimEnd, trim_left, trim_eq]

/-- Blanks around a pattern do not matter. -/
theorem parse_trim (isSpace : Char → Bool) (lexicons : List (List Char))
    (encoder : HMap (List Char) Nat) (s : List Char) :
    PatternMatch.parse isSpace lexicons encoder (trim isSpace s) =
      PatternMatch.parse isSpace lexicons encoder s := by
  rw [← parse_fuel isSpace lexicons encoder (s.length + 1) (trim isSpace s)
    (by have := trim_length isSpace s; omega)]
  unfold PatternMatch.parse
  rw [PatternMatch.parseAux, PatternMatch.parseAux, trim_trim]

theorem splitChar_intercalate {sep : Char} (ss : List (List Char)) (hne : ss ≠ [])
    (h : ∀ s ∈ ss, sep ∉ s) : splitChar sep ([sep].intercalate ss) = ss := by
  induction ss with
  | nil => exact absurd rfl hne
  | cons s ss ih =>
    cases ss with
    | nil => simpa [List.intercalate] using splitChar_none (h s (by simp))
    | cons s' ss =>
      have : [sep].intercalate (s :: s' :: ss) = s ++ sep :: [sep].intercalate (s' :: ss) := by
        simp [List.intercalate]
      rw [this, splitChar_sep (h s (by simp)), ih (by simp) fun t ht => h t (by simp [ht])]

/-- **C69**: a request whose pattern is a list of written patterns separated by `;` (all names known,
fewer than 256 words), whose tags are not empty, and whose offsets are written as documented, adds one
rule, with the meaning of the patterns, the score, the tags and the offsets; missing offsets stand for
the whole rule. -/
theorem rule_added {env : RuleEnv} (hm : MarksOk env.isSpace) (b : RuleBook) (hb : b.tags.Nodup)
    {es : List Expr} {ss : List (List Char)} (hw : List.Forall₂ (Writes env.isSpace) es ss)
    (hne : es ≠ []) (hlen : es.length < 256) (hs : ∀ s ∈ ss, ';' ∉ s)
    (hk : ∀ e ∈ es, KnownAll env.lexicons env.encoder e) (score : Rat) {tag : List (List Char)}
    (ht : ∀ t ∈ tag, t ≠ []) {offs : List (List Char)} {os : List (Nat × Nat)}
    (ho : List.Forall₂ (OffsetText es.length) offs os) :
    ∃ rule b', b.add env ([';'].intercalate ss) score tag offs = .ok (b', true) ∧
      b'.rules = b.rules ++ [rule] ∧ b.tags <+: b'.tags ∧
      List.Forall₂ (Means env) rule.pattern es ∧ rule.score = score ∧
      (b'.tags.length ≤ 65536 → List.Forall₂ (Resolves b'.tags) rule.tag tag) ∧
      rule.tagoffset = os ++ List.replicate (tag.length - os.length) (0, es.length) := by
  have hss : ss ≠ [] := by
    rintro rfl
    cases hw
    exact hne rfl
  have hps : ∃ ps, (ss.map (trim env.isSpace)).mapM
      (PatternMatch.parse env.isSpace env.lexicons env.encoder) = some ps ∧
      List.Forall₂ (Means env) ps es := by
    clear hne hlen hs ho hss
    induction hw with
    | nil => exact ⟨[], rfl, .nil⟩
    | cons h1 _ ih =>
      obtain ⟨ps, h2, h3⟩ := ih fun e he => hk e (by simp [he])
      obtain ⟨p, p1, p2, p3⟩ := parse_semantics_partial env.isSpace hm env.lexicons env.encoder _ _ h1
        (hk _ (by simp))
      refine ⟨p :: ps, ?_, .cons ⟨p2, p3⟩ h3⟩
      rw [List.map_cons, List.mapM_cons, parse_trim, p1, h2]
      rfl
  obtain ⟨ps, hp, hM⟩ := hps
  have hpl : ps.length = es.length := hM.length_eq
  obtain ⟨t1, t2, t3⟩ := tagIndices_spec tag hb
  have hany : tag.any (·.isEmpty) = false := by
    rw [List.any_eq_false]
    intro t htm
    simpa using ht t htm
  have hpe : ps.isEmpty = false := by
    cases ps with
    | nil =>
      cases es with
      | nil => exact absurd rfl hne
      | cons => cases hpl
    | cons => rfl
  unfold RuleBook.add
  rw [splitChar_intercalate ss hss hs, hp]
  simp only [hany, Bool.false_eq_true, if_false, hpl, parseOffsets_ok hlen ho, bind, Except.bind, hpe,
    tagIndices_length, Nat.mod_eq_of_lt hlen]
  exact ⟨_, _, rfl, rfl, t2, hM, rfl, t3, rfl⟩

/-- `a ; !b` with offsets `0:2` and `1`. -/
example : let es : List Expr := [.parts (.word ['a']) [], .parts (.not (.word ['b'])) []]
    MarksOk exEnv.isSpace ∧ (∀ e ∈ es, KnownAll exEnv.lexicons exEnv.encoder e) ∧
    List.Forall₂ (Writes exEnv.isSpace) es ["a ".toList, " !b".toList] ∧
    [';'].intercalate ["a ".toList, " !b".toList] = "a ; !b".toList ∧
    List.Forall₂ (OffsetText es.length) ["0:2".toList, "1".toList] [(0, 2), (1, 1)] := by
  have blank1 : Blank exEnv.isSpace [' '] := by unfold Blank; decide
  have blank0 : Blank exEnv.isSpace [] := by unfold Blank; decide
  refine ⟨by unfold MarksOk; decide, ?_, .cons (.parts (.one ?_)) (.cons (.parts (.one ?_)) .nil), rfl,
    .cons ?_ (.cons ?_ .nil)⟩
  · intro e he
    simp only [List.mem_cons, List.not_mem_nil, or_false] at he
    rcases he with rfl | rfl
    · intro u hu
      rw [List.mem_singleton] at hu
      subst hu
      exact ⟨3, rfl⟩
    · intro u hu
      rw [List.mem_singleton] at hu
      subst hu
      exact ⟨4, rfl⟩
  · refine WritesTerm.word (a := []) (b := [' ']) (w := ['a']) blank0 blank1 ?_
    exact ⟨by decide, ⟨by decide, by decide⟩, by decide, by decide, by decide, by decide, by decide, by decide⟩
  · refine WritesTerm.not (a := [' ']) (s := ['b']) blank1 ?_
    refine WritesTerm.word (a := []) (b := []) (w := ['b']) blank0 blank0 ?_
    exact ⟨by decide, ⟨by decide, by decide⟩, by decide, by decide, by decide, by decide, by decide, by decide⟩
  · exact OffsetText.both (s := ['0']) (t := ['2']) ⟨[0], by decide, by decide, rfl, rfl, by decide⟩
      ⟨[2], by decide, by decide, rfl, rfl, by decide⟩
  · exact OffsetText.beginOnly (s := ['1']) (b := 1) ⟨[1], by decide, by decide, rfl, rfl, by decide⟩
      (by decide)

/-- **C69 is violated** if a tag is to start after the end of the rule: instead of an error, the default
length overflows. -/
theorem offset_beyond_rule_panics (b : RuleBook) :
    b.add exEnv ['a'] 1 [['t']] [['2', ':']] = .error .overflow := by
  rfl

/-! ## C70 -/

theorem listField_ok {isSpace : Char → Bool} {s : List Char} {ns : List (List Char)}
    (h : ListText isSpace s ns) : listField isSpace (some s) = ns := by
  have trim_blank : ∀ {a : List Char}, Blank isSpace a → trim isSpace a = [] := by
    intro a ha
    have h1 : a.dropWhile isSpace = [] := by
      rw [List.dropWhile_eq_nil_iff]
      exact ha
    unfold trim
    rw [h1]
    rfl
  simp only [listField]
  induction h with
  | blank h1 h2 => simp [splitChar_none h2, trim_blank h1]
  | name h1 h2 h3 h4 h5 =>
    rw [splitChar_none h5, List.map_cons, trim_pad h1 h2 h3 h4]
    simp [h4]
  | blankMore h1 h2 _ ih =>
    rw [splitChar_sep h2, List.map_cons, trim_blank h1, ← ih]
    simp
  | nameMore h1 h2 h3 h4 h5 _ ih =>
    rw [splitChar_sep h5, List.map_cons, trim_pad h1 h2 h3 h4, List.filter_cons, ih]
    simp [h4]

theorem columns_ok {isSpace : Char → Bool} {cols tag off : List (List Char)}
    (h : Columns isSpace cols tag off) :
    listField isSpace cols[0]? = tag ∧ listField isSpace cols[1]? = off := by
  cases h with
  | none => exact ⟨rfl, rfl⟩
  | tags h => exact ⟨listField_ok h, rfl⟩
  | both h h' => exact ⟨listField_ok h, listField_ok h'⟩

theorem readLine_ok {env : RuleEnv} {parseFloat : List Char → Option Rat} {line : List Char}
    {call : Option RuleCall} (h : LineFor env.isSpace parseFloat line call) (b : RuleBook) :
    b.readLine env parseFloat line = match call with
      | none => .ok (b, true)
      | some c => b.add env c.pattern c.score c.tag c.tagoffset := by
  have start : ∀ {pattern score : List Char} {cols : List (List Char)} {v : Rat}, pattern ≠ [] →
      '\t' ∉ pattern → pattern.head? ≠ some '#' → '\t' ∉ score → parseFloat score = some v →
      (∀ c ∈ cols, '\t' ∉ c) →
      b.readLine env parseFloat (['\t'].intercalate (pattern :: score :: cols)) =
        (let tag := listField env.isSpace cols[0]?
          let tagoffset := listField env.isSpace cols[1]?
          if tag.length = 1 ∧ tagoffset.length = 0 then b.add env pattern v tag [['0', ':']]
          else if tag.length ≠ tagoffset.length then .ok (b, false)
          else b.add env pattern v tag tagoffset) := by
    intro pattern score cols v h1 h2 h3 h4 h5 h6
    have hhead : (['\t'].intercalate (pattern :: score :: cols)).head? = pattern.head? := by
      cases pattern with
      | nil => exact absurd rfl h1
      | cons c p => simp [List.intercalate]
    have hne : (['\t'].intercalate (pattern :: score :: cols)).isEmpty = false := by
      cases pattern with
      | nil => exact absurd rfl h1
      | cons c p => simp [List.intercalate]
    have hpe : pattern.isEmpty = false := by simpa using h1
    unfold RuleBook.readLine
    rw [hne, hhead, if_neg (by simpa using h3), splitChar_intercalate _ (by simp)]
    · simp only [hpe, Bool.false_eq_true, if_false, h5]
    · intro t ht
      simp only [List.mem_cons] at ht
      rcases ht with rfl | rfl | ht
      · exact h2
      · exact h4
      · exact h6 t ht
  cases h with
  | empty => rfl
  | comment => rfl
  | rule h1 h2 h3 h4 h5 h6 h7 h8 =>
    obtain ⟨c1, c2⟩ := columns_ok h7
    rw [start h1 h2 h3 h4 h5 h6]
    simp only [c1, c2]
    rw [if_neg (by omega), if_neg (by omega)]
  | oneTag h1 h2 h3 h4 h5 h6 h7 =>
    obtain ⟨c1, c2⟩ := columns_ok h7
    rw [start h1 h2 h3 h4 h5 h6]
    simp only [c1, c2]
    rfl

/-- **C70**: reading a file of well-formed lines amounts to the requests that its lines stand for, in
their order, up to the first that is not accepted; empty lines, comments and lines that are not text
are skipped. -/
theorem read_rules {env : RuleEnv} {parseFloat : List Char → Option Rat}
    {lines : List (Option (List Char))} {calls : List (Option RuleCall)}
    (h : List.Forall₂ (fun line call => match line with
      | none => call = none
      | some line => LineFor env.isSpace parseFloat line call) lines calls) :
    ∀ (b : RuleBook), b.read env parseFloat lines = addUntilError env b (calls.filterMap id) := by
  induction h with
  | nil => intro b; rfl
  | @cons line call _ _ h1 _ ih =>
    intro b
    cases line with
    | none =>
      simp only at h1
      subst h1
      rw [RuleBook.read, ih]
      rfl
    | some line =>
      simp only at h1
      rw [RuleBook.read, readLine_ok h1]
      cases call with
      | none =>
        simp only [bind, Except.bind, if_true]
        rw [ih]
        rfl
      | some c =>
        simp only [List.filterMap_cons, id]
        rw [addUntilError]
        congr 1
        funext y
        obtain ⟨b', ok⟩ := y
        cases ok with
        | true => exact ih b'
        | false => rfl

/-- A comment, a rule of the README, and one with two tags. -/
example : let f : List Char → Option Rat := fun s => if s = ['1'] then some 1 else none
    LineFor exEnv.isSpace f "# c".toList none ∧
    LineFor exEnv.isSpace f "a;b\t1\tg".toList (some ⟨"a;b".toList, 1, [['g']], [['0', ':']]⟩) ∧
    LineFor exEnv.isSpace f "a\t1\tg; h\t0:1;0".toList
      (some ⟨['a'], 1, [['g'], ['h']], ["0:1".toList, ['0']]⟩) := by
  have blank1 : Blank exEnv.isSpace [' '] := by unfold Blank; decide
  have blank0 : Blank exEnv.isSpace [] := by unfold Blank; decide
  refine ⟨.comment, ?_, ?_⟩
  · refine LineFor.oneTag (pattern := "a;b".toList) (score := ['1']) (cols := [['g']]) (by decide)
      (by decide) (by decide) (by decide) (by decide) (by decide) (.tags ?_)
    exact ListText.name (a := []) (b := []) (n := ['g']) blank0 blank0 ⟨by decide, by decide⟩
      (by decide) (by decide)
  · refine LineFor.rule (pattern := ['a']) (score := ['1']) (cols := ["g; h".toList, "0:1;0".toList])
      (by decide) (by decide) (by decide) (by decide) (by decide) (by decide) (.both ?_ ?_) rfl
    · refine ListText.nameMore (a := []) (b := []) (n := ['g']) (s := [' ', 'h']) blank0 blank0
        ⟨by decide, by decide⟩ (by decide) (by decide) ?_
      exact ListText.name (a := [' ']) (b := []) (n := ['h']) blank1 blank0 ⟨by decide, by decide⟩
        (by decide) (by decide)
    · refine ListText.nameMore (a := []) (b := []) (n := "0:1".toList) (s := ['0']) blank0 blank0
        ⟨by decide, by decide⟩ (by decide) (by decide) ?_
      exact ListText.name (a := []) (b := []) (n := ['0']) blank0 blank0 ⟨by decide, by decide⟩
        (by decide) (by decide)

end Verif.Props
