import Verif.Spec.Weighed
import Verif.Lemmas.Reading

/-!
# Lemmas: readings with the costs that are computed
-/
namespace Verif.Lemmas

open Verif.Spec Verif.Model Verif.Props

theorem walk_priced {x : TextExt} {fw : Rat}
    {found : List Char → List VariantResult → Prop} {n o : Nat} {g : List Seg} {all : List Match}
    (hg : IsBatch x.isAlpha g) (hall : Stretches found n o g all) {syms : List OutputSymbol} {trs : List Tr}
    (ht : ∀ t ∈ trs, TrOk x fw o g all syms t) (ts : List Tr) : ∀ q,
      Walk (trs ++ epsilonTrs g.length) q ts g.length →
      ∃ os, lookupSymbols syms (outputs ts) = .ok os ∧
        Priced x.f32 found VariantResult.distScore (VariantResult.score x.f64 fw) n (o + byteLen (flat (g.take q)))
          (g.drop q) (os.map (partOf all (boundariesFrom o g))) (ts.map Tr.cost) := by
  induction ts with
  | nil =>
    intro q h
    cases h
    refine ⟨[], rfl, ?_⟩
    rw [List.drop_length]
    exact .done
  | cons t ts ih =>
    intro q hw
    obtain ⟨h1, h2, h3⟩ := hw
    obtain ⟨os, h4, h5⟩ := ih t.dst h3
    rw [List.mem_append] at h1
    rcases h1 with h1 | h1
    · obtain ⟨sym, m, a1, a2, a3, a4, a5, a6⟩ := ht t h1
      have ho : outputs (t :: ts) = t.olabel :: outputs ts := by
        simp [outputs, a1]
      refine ⟨sym :: os, ?_, ?_⟩
      · rw [ho, lookupSymbols, a2]
        simp only [bind, Except.bind, h4, pure, Except.pure]
      · obtain ⟨r, w, s, k1, k2, k3, k4, k5, k6, k7⟩ := stretches_words hg hall (List.mem_of_getElem? a3) a4
        rw [h2] at k1 k2 k5 a6
        have hql : (g.take q).length = q := by
          rw [List.length_take]
          have := a4.le
          have := a4.lt
          omega
        have hsep := boundary_text (o := o) (k := sym.boundaryIndex) k1 (by rw [hql]; omega)
        have hd : g.drop q = (r ++ [(w, s)]) ++ g.drop t.dst := by
          have := congrArg (List.drop q) k1
          rw [List.append_assoc, List.drop_left' hql] at this
          exact this
        have htk : g.take t.dst = g.take q ++ (r ++ [(w, s)]) := by
          have := congrArg (List.take t.dst) k1
          rwa [List.take_left' (by rw [List.length_append, hql]; simp; omega)] at this
        rw [htk, flat_append, byteLen_append, ← Nat.add_assoc] at h5
        rw [List.map_cons, List.map_cons, hd]
        rcases a6 with ⟨vi, vs, v, c1, c2, c3, _, c5⟩ | ⟨c1, c2, _, c4, c5⟩
        · rcases k7 with ⟨vs', k7, k8, k9⟩ | ⟨k7, _⟩
          · rw [k7] at c2
            cases c2
            have hp : partOf all (boundariesFrom o g) sym =
                ⟨o + byteLen (flat (g.take q)), stretch (r ++ [(w, s)]), some (vi, v), s⟩ := by
              unfold partOf
              rw [a3]
              simp only [c1, k7, hsep, k5, k6, Option.bind_some, c3, Option.map_some]
            rw [hp, c5]
            rw [show t.dst - q = r.length + 1 by omega]
            exact .variant k3 k4 k9 k8 c3 h5
          · rw [k7] at c2
            cases c2
        · have hr : r = [] := List.eq_nil_of_length_eq_zero (by omega)
          subst hr
          rcases k7 with ⟨vs', k7, k8, k9⟩ | ⟨_, k7⟩
          · have hnil := isEmpty_variants c2 k7
            subst hnil
            have hp : partOf all (boundariesFrom o g) sym =
                ⟨o + byteLen (flat (g.take q)), w, none, s⟩ := by
              unfold partOf
              rw [a3]
              simp only [c1, hsep, k5, k6, Option.bind_none]
              rfl
            rw [hp, c5]
            simp only [List.nil_append, flat, List.append_nil] at h5
            exact .unknown k4 k8 h5
          · exact absurd rfl k7
    · unfold epsilonTrs at h1
      rw [List.mem_map] at h1
      obtain ⟨j, hj, rfl⟩ := h1
      rw [List.mem_range] at hj
      simp only at h2 h5
      subst h2
      have ho : outputs (({ src := j, ilabel := 0, olabel := 0, cost := 100, dst := j + 1 } : Tr) :: ts) =
          outputs ts := by simp [outputs]
      rw [ho, List.map_cons, List.drop_eq_getElem_cons hj]
      rw [← List.take_concat_get' g j hj, flat_append, byteLen_append, ← Nat.add_assoc] at h5
      refine ⟨os, h4, ?_⟩
      generalize g[j] = p at h5 ⊢
      obtain ⟨w, s⟩ := p
      simp only [flat, List.append_nil] at h5
      exact .skip h5

theorem priced_walk {x : TextExt} {fw : Rat}
    {found : List Char → List VariantResult → Prop} (hfun : ∀ t a b, found t a → found t b → a = b)
    {n o : Nat} (hn : 1 ≤ n) {g : List Seg} {all : List Match} (hall : Stretches found n o g all)
    {syms : List OutputSymbol} {trs : List Tr} (ht : ∀ t ∈ trs, TrOk x fw o g all syms t)
    (hh : ∀ (j : Nat) m s e, all[j]? = some m → Span o g s e m → HasTrs syms trs j s e m)
    {o' : Nat} {g' : List Seg} {l : List (Part VariantResult)} {cs : List Rat}
    (h : Priced x.f32 found VariantResult.distScore (VariantResult.score x.f64 fw) n o' g' l cs)
    {a : List Seg} (ha : g = a ++ g') (ho : o' = o + byteLen (flat a)) :
    ∃ ts os, Walk (trs ++ epsilonTrs g.length) a.length ts g.length ∧ ts.map Tr.cost = cs ∧
      lookupSymbols syms (outputs ts) = .ok os ∧ os.map (partOf all (boundariesFrom o g)) = l := by
  induction h generalizing a with
  | done =>
    rw [List.append_nil] at ha
    subst ha
    exact ⟨[], [], rfl, rfl, rfl, rfl⟩
  | @skip o' w s g' l cs _ ih =>
    obtain ⟨ts, os, i1, i2, i3, i4⟩ := ih (a := a ++ [(w, s)]) (by rw [ha]; simp)
      (by rw [ho, flat_append a, byteLen_append (flat a), Nat.add_assoc]; simp [flat])
    rw [List.length_append, List.length_singleton] at i1
    refine ⟨{ src := a.length, ilabel := 0, olabel := 0, cost := 100, dst := a.length + 1 } :: ts, os,
      ⟨?_, rfl, i1⟩, ?_, ?_, i4⟩
    · rw [List.mem_append]; right
      unfold epsilonTrs
      rw [List.mem_map]
      exact ⟨a.length, List.mem_range.mpr (by rw [ha]; simp), rfl⟩
    · rw [List.map_cons, i2]
    · exact i3
  | @variant o' r w s g' l cs vs i v k1 k2 k3 k4 k5 _ ih =>
    obtain ⟨ts, os, i1, i2, i3, i4⟩ := ih (a := a ++ (r ++ [(w, s)])) (by rw [ha]; simp)
      (by rw [ho, flat_append a, byteLen_append (flat a), Nat.add_assoc])
    rw [List.length_append] at i1
    have hgr : g = a ++ (r ++ [(w, s)]) ++ g' := by rw [ha]; simp
    obtain ⟨vs', h1, h2⟩ := hall.complete a _ g' hgr (by simpa using k1) k2 k3
    obtain rfl := hfun _ _ _ h1 k4
    have hs := span_of_run (o := o) hgr k2
    obtain ⟨j, hj⟩ := List.mem_iff_getElem?.mp h2
    obtain ⟨t, t1, sym, t2, t3, t4, t5, t6⟩ := (hh j _ _ _ hj
      ⟨hs.lt, hs.le, hs.text, hs.first, hs.last, hs.ne, hs.n⟩).1 vs' i v rfl k5
    obtain ⟨sym', m', b1, b2, b3, _, b5, b6⟩ := ht t t1
    rw [t2] at b2; cases b2
    rw [t3, hj] at b3; cases b3
    have hot : outputs (t :: ts) = t.olabel :: outputs ts := by
      simp [outputs, b1]
    refine ⟨t :: ts, sym :: os, ⟨by simp [t1], t5, by rw [t6]; exact i1⟩, ?_, ?_, ?_⟩
    · rw [List.map_cons, i2]
      rcases b6 with ⟨vi, vs', v', c1, c2, c3, _, c5⟩ | ⟨c1, _⟩
      · rw [t4] at c1; cases c1
        cases c2
        rw [k5] at c3; cases c3
        rw [c5, t5, t6]
        rw [show a.length + (r ++ [(w, s)]).length - a.length = r.length + 1 by simp]
      · rw [t4] at c1; cases c1
    · rw [hot, lookupSymbols, t2]
      simp only [bind, Except.bind, i3, pure, Except.pure]
    · rw [List.map_cons, i4]
      congr 1
      have hsep := boundary_text (o := o) (k := sym.boundaryIndex) hgr (by
        rw [t6] at b5
        simp at b5
        omega)
      unfold partOf
      rw [t3, hj]
      simp only [t4, hsep, Option.bind_some, k5, Option.map_some]
      rw [ho]
      rfl
  | @unknown o' w s g' l cs k1 k2 _ ih =>
    obtain ⟨ts, os, i1, i2, i3, i4⟩ := ih (a := a ++ [(w, s)]) (by rw [ha]; simp)
      (by rw [ho, flat_append a, byteLen_append (flat a), Nat.add_assoc]; simp [flat])
    rw [List.length_append, List.length_singleton] at i1
    have hgr : g = a ++ ([] ++ [(w, s)]) ++ g' := by rw [ha]; simp
    obtain ⟨vs', h1, h2⟩ := hall.complete a [(w, s)] g' hgr hn k1 (.inl rfl)
    obtain rfl := hfun _ _ _ h1 k2
    have hs := span_of_run (o := o) (r := [(w, s)]) hgr k1
    obtain ⟨j, hj⟩ := List.mem_iff_getElem?.mp h2
    obtain ⟨t, t1, sym, t2, t3, t4, t5, t6⟩ := (hh j _ _ _ hj
      ⟨hs.lt, hs.le, hs.text, hs.first, hs.last, hs.ne, hs.n⟩).2 rfl rfl
    obtain ⟨sym', m', b1, b2, b3, _, b5, b6⟩ := ht t t1
    rw [t2] at b2; cases b2
    rw [t3, hj] at b3; cases b3
    have hot : outputs (t :: ts) = t.olabel :: outputs ts := by
      simp [outputs, b1]
    refine ⟨t :: ts, sym :: os, ⟨by simp [t1], t5, by rw [t6]; exact i1⟩, ?_, ?_, ?_⟩
    · rw [List.map_cons, i2]
      rcases b6 with ⟨vi, vs', v', c1, c2, c3, _, c5⟩ | ⟨_, _, _, _, c5⟩
      · rw [t4] at c1; cases c1
      · rw [c5]
    · rw [hot, lookupSymbols, t2]
      simp only [bind, Except.bind, i3, pure, Except.pure]
    · rw [List.map_cons, i4]
      congr 1
      have hsep := boundary_text (o := o) (k := sym.boundaryIndex) hgr (by
        rw [t6] at b5
        simp at b5
        simpa using b5)
      unfold partOf
      rw [t3, hj]
      simp only [t4, hsep, Option.bind_none]
      rw [ho]
      rfl


end Verif.Lemmas
