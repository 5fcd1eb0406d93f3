import Verif.Spec.Edit
import Mathlib.Order.Nat
import Mathlib.Data.Nat.Lattice
import Mathlib.Data.List.Basic

/-!
# Alignments: the combinatorial core of the edit distances
-/
namespace Verif.Lemmas

open Verif.Spec

/-- Alignments of cost `n`, read from the front.  `trans` consumes a block in which a swapped
pair is separated by deleted symbols `w` and inserted symbols `v`. -/
inductive Al {α : Type} (sw : Prop) : List α → List α → Nat → Prop
  | nil : Al sw [] [] 0
  | del (a : α) {s t : List α} {n : Nat} (h : Al sw s t n) : Al sw (a :: s) t (n + 1)
  | ins (b : α) {s t : List α} {n : Nat} (h : Al sw s t n) : Al sw s (b :: t) (n + 1)
  | sub (a b : α) {s t : List α} {n : Nat} (h : Al sw s t n) : Al sw (a :: s) (b :: t) (n + 1)
  | mat (a : α) {s t : List α} {n : Nat} (h : Al sw s t n) : Al sw (a :: s) (a :: t) n
  | trans (hs : sw) (a b : α) (w v : List α) {s t : List α} {n : Nat} (h : Al sw s t n) :
      Al sw (a :: (w ++ b :: s)) (b :: (v ++ a :: t)) (n + w.length + 1 + v.length)

section
variable {α : Type} {sw : Prop}

theorem Al.refl : ∀ s : List α, Al sw s s 0
  | [] => .nil
  | _ :: s => .mat _ (Al.refl s)

theorem Al.dels {s t : List α} {n : Nat} (h : Al sw s t n) :
    ∀ w : List α, Al sw (w ++ s) t (n + w.length)
  | [] => h
  | a :: w => by
    have := Al.del a (h.dels w)
    simpa [Nat.add_assoc] using this

theorem Al.inss {s t : List α} {n : Nat} (h : Al sw s t n) :
    ∀ w : List α, Al sw s (w ++ t) (n + w.length)
  | [] => h
  | a :: w => by
    have := Al.ins a (h.inss w)
    simpa [Nat.add_assoc] using this

theorem Al.cast {s t : List α} {n m : Nat} (h : Al sw s t n) (e : n = m) : Al sw s t m := e ▸ h

theorem Al.symm {s t : List α} {n : Nat} (h : Al sw s t n) : Al sw t s n := by
  induction h with
  | nil => exact .nil
  | del a _ ih => exact .ins a ih
  | ins b _ ih => exact .del b ih
  | sub a b _ ih => exact .sub b a ih
  | mat a _ ih => exact .mat a ih
  | trans hs a b w v _ ih => exact (Al.trans hs b a v w ih).cast (by omega)

theorem Al.cons_mat (a : α) {s t : List α} {n : Nat} (h : Al sw s t n) :
    Al sw (a :: s) (a :: t) n := .mat a h

theorem Al.append_left (p : List α) {s t : List α} {n : Nat} (h : Al sw s t n) :
    Al sw (p ++ s) (p ++ t) n := by
  induction p with
  | nil => exact h
  | cons a p ih => exact .mat a ih

theorem Al.append {s t s' t' : List α} {n m : Nat} (h : Al sw s t n) (h' : Al sw s' t' m) :
    Al sw (s ++ s') (t ++ t') (n + m) := by
  induction h with
  | nil => simpa using h'
  | del a _ ih => exact (Al.del a ih).cast (by omega)
  | ins a _ ih => exact (Al.ins a ih).cast (by omega)
  | sub a b _ ih => exact (Al.sub a b ih).cast (by omega)
  | mat a _ ih => exact Al.mat a ih
  | trans hs a b w v _ ih =>
    have := Al.trans hs a b w v ih
    simp only [List.cons_append, List.append_assoc]
    exact this.cast (by omega)

/-- alignments can be read from the back -/
theorem Al.reverse {s t : List α} {n : Nat} (h : Al sw s t n) : Al sw s.reverse t.reverse n := by
  induction h with
  | nil => exact .nil
  | del a _ ih =>
    simpa using ih.append (Al.del a Al.nil)
  | ins a _ ih =>
    simpa using ih.append (Al.ins a Al.nil)
  | sub a b _ ih =>
    simpa using ih.append (Al.sub a b Al.nil)
  | mat a _ ih =>
    simpa using ih.append (Al.mat a Al.nil)
  | trans hs a b w v _ ih =>
    have := ih.append (Al.trans hs b a w.reverse v.reverse Al.nil)
    simp only [List.reverse_cons, List.reverse_append, List.append_assoc, List.cons_append,
      List.nil_append, List.length_reverse] at this ⊢
    exact this.cast (by omega)

/-- moving a symbol in front across the head of the target -/
theorem Al.swap_head (hs : sw) (a : α) {s t : List α} {n : Nat} (h : Al sw s t n) :
    ∀ (d : α) (u : List α), t = d :: u → ∀ w : List α,
      ∃ m, m ≤ n + 1 + w.length ∧ Al sw (a :: (w ++ s)) (d :: a :: u) m := by
  induction h with
  | nil => intro d u h; cases h
  | @del x s t n h ih =>
    intro d u e w
    obtain ⟨m, hm, hA⟩ := ih d u e (w ++ [x])
    refine ⟨m, ?_, ?_⟩
    · simp only [List.length_append, List.length_singleton] at hm; omega
    · simpa using hA
  | @ins b s t n h ih =>
    intro d u e w
    cases e
    exact ⟨_, by omega, Al.ins _ (Al.mat a (h.dels w))⟩
  | @sub x y s t n h ih =>
    intro d u e w
    cases e
    exact ⟨_, by omega, Al.ins _ (Al.mat a ((Al.del x h).dels w))⟩
  | @mat x s t n h ih =>
    intro d u e w
    cases e
    refine ⟨_, ?_, Al.trans hs a x w [] h⟩
    simp only [List.length_nil]; omega
  | @trans _ x y w' v s t n h ih =>
    intro d u e w
    cases e
    refine ⟨_, ?_, Al.ins _ (Al.mat a ((((Al.mat x ((Al.del y h).dels w')).inss v).dels w)))⟩
    omega

theorem step_append_cases {v u t : List α} {a : α} (h : EditStep sw (v ++ a :: u) t) :
    (∃ v', v'.length ≤ v.length + 1 ∧ t = v' ++ a :: u) ∨
    (t = v ++ u) ∨
    (∃ d, t = v ++ d :: u) ∨
    (∃ v'' x, v = v'' ++ [x] ∧ t = v'' ++ a :: x :: u) ∨
    (∃ d u', u = d :: u' ∧ t = v ++ d :: a :: u') ∨
    (∃ u', EditStep sw u u' ∧ t = v ++ a :: u') := by
  induction v generalizing t with
  | nil =>
    cases h with
    | ins c => exact .inl ⟨[c], by simp, rfl⟩
    | del => exact .inr (.inl rfl)
    | sub _ d => exact .inr (.inr (.inl ⟨d, rfl⟩))
    | swap hs c d s => exact .inr (.inr (.inr (.inr (.inl ⟨d, s, rfl, rfl⟩))))
    | cons _ h => exact .inr (.inr (.inr (.inr (.inr ⟨_, h, rfl⟩))))
  | cons x v ih =>
    rw [List.cons_append] at h
    generalize hz : v ++ a :: u = z at h
    cases h with
    | ins c => subst hz; exact .inl ⟨c :: x :: v, by simp, rfl⟩
    | del => subst hz; exact .inl ⟨v, by simp; omega, rfl⟩
    | sub _ d => subst hz; exact .inl ⟨d :: v, by simp, rfl⟩
    | swap hs c d s =>
      cases v with
      | nil =>
        simp only [List.nil_append, List.cons.injEq] at hz
        obtain ⟨rfl, rfl⟩ := hz
        exact .inr (.inr (.inr (.inl ⟨[], x, rfl, rfl⟩)))
      | cons y v =>
        simp only [List.cons_append, List.cons.injEq] at hz
        obtain ⟨rfl, rfl⟩ := hz
        exact .inl ⟨y :: x :: v, by simp, rfl⟩
    | cons _ h =>
      subst hz
      rcases ih h with ⟨v', hl, rfl⟩ | rfl | ⟨d, rfl⟩ | ⟨v'', y, rfl, rfl⟩ | ⟨d, u', rfl, rfl⟩ |
        ⟨u', hu, rfl⟩
      · exact .inl ⟨x :: v', by simpa using hl, rfl⟩
      · exact .inr (.inl rfl)
      · exact .inr (.inr (.inl ⟨d, rfl⟩))
      · exact .inr (.inr (.inr (.inl ⟨x :: v'', y, rfl, rfl⟩)))
      · exact .inr (.inr (.inr (.inr (.inl ⟨d, u', rfl, rfl⟩))))
      · exact .inr (.inr (.inr (.inr (.inr ⟨u', hu, rfl⟩))))

/-- one more edit costs at most one more in the alignment -/
theorem Al.step {s u : List α} {n : Nat} (h : Al sw s u n) :
    ∀ t, EditStep sw u t → ∃ m, m ≤ n + 1 ∧ Al sw s t m := by
  induction h with
  | nil =>
    intro t h
    cases h with
    | ins c => exact ⟨_, by omega, Al.ins c Al.nil⟩
  | @del a s u n h ih =>
    intro t ht
    obtain ⟨m, hm, hA⟩ := ih t ht
    exact ⟨_, by omega, Al.del a hA⟩
  | @ins b s u n h ih =>
    intro t ht
    cases ht with
    | ins c => exact ⟨_, by omega, Al.ins c (Al.ins b h)⟩
    | del => exact ⟨_, by omega, h⟩
    | sub _ d => exact ⟨_, by omega, Al.ins d h⟩
    | swap hs _ d u' =>
      obtain ⟨m, hm, hA⟩ := ih (d :: b :: u') (.cons d (.ins b u'))
      exact ⟨_, by omega, hA⟩
    | cons _ h' =>
      obtain ⟨m, hm, hA⟩ := ih _ h'
      exact ⟨_, by omega, Al.ins b hA⟩
  | @sub a b s u n h ih =>
    intro t ht
    cases ht with
    | ins c => exact ⟨_, by omega, Al.ins c (Al.sub a b h)⟩
    | del => exact ⟨_, by omega, Al.del a h⟩
    | sub _ d => exact ⟨_, by omega, Al.sub a d h⟩
    | swap hs _ d u' =>
      obtain ⟨m, hm, hA⟩ := ih (d :: b :: u') (.cons d (.ins b u'))
      exact ⟨_, by omega, Al.del a hA⟩
    | cons _ h' =>
      obtain ⟨m, hm, hA⟩ := ih _ h'
      exact ⟨_, by omega, Al.sub a b hA⟩
  | @mat a s u n h ih =>
    intro t ht
    cases ht with
    | ins c => exact ⟨_, by omega, Al.ins c (Al.mat a h)⟩
    | del => exact ⟨_, by omega, Al.del a h⟩
    | sub _ d => exact ⟨_, by omega, Al.sub a d h⟩
    | swap hs _ d u' =>
      obtain ⟨m, hm, hA⟩ := h.swap_head hs a d u' rfl []
      exact ⟨_, by simpa using hm, hA⟩
    | cons _ h' =>
      obtain ⟨m, hm, hA⟩ := ih _ h'
      exact ⟨_, by omega, Al.mat a hA⟩
  | @trans hs a b w v s u n h ih =>
    intro t ht
    generalize hz : v ++ a :: u = z at ht
    cases ht with
    | ins c => subst hz; exact ⟨_, by omega, Al.ins c (Al.trans hs a b w v h)⟩
    | del => subst hz; exact ⟨_, by omega, (Al.mat a ((Al.del b h).dels w)).inss v⟩
    | sub _ d => subst hz; exact ⟨_, by omega, Al.ins d ((Al.mat a ((Al.del b h).dels w)).inss v)⟩
    | swap _ _ d z' =>
      cases v with
      | nil =>
        simp only [List.nil_append, List.cons.injEq] at hz
        obtain ⟨rfl, rfl⟩ := hz
        exact ⟨_, by simp only [List.length_nil]; omega, Al.mat a ((Al.mat b h).dels w)⟩
      | cons y v =>
        simp only [List.cons_append, List.cons.injEq] at hz
        obtain ⟨rfl, rfl⟩ := hz
        exact ⟨_, by simp only [List.length_cons]; omega, Al.ins y (Al.trans hs a b w v h)⟩
    | cons _ h' =>
      subst hz
      rcases step_append_cases h' with ⟨v', hl, rfl⟩ | rfl | ⟨d, rfl⟩ | ⟨v'', y, rfl, rfl⟩ |
        ⟨d, u', rfl, rfl⟩ | ⟨u', hu, rfl⟩
      · exact ⟨_, by omega, Al.trans hs a b w v' h⟩
      · exact ⟨_, by omega, Al.del a ((Al.mat b (h.inss v)).dels w)⟩
      · exact ⟨_, by omega, Al.del a ((Al.mat b ((Al.ins d h).inss v)).dels w)⟩
      · refine ⟨_, ?_, Al.trans hs a b w v'' (Al.ins y h)⟩
        simp only [List.length_append, List.length_singleton]; omega
      · obtain ⟨m, hm, hA⟩ := ih (d :: a :: u') (.cons d (.ins a u'))
        exact ⟨_, by omega, Al.del a ((Al.mat b (hA.inss v)).dels w)⟩
      · obtain ⟨m, hm, hA⟩ := ih _ hu
        exact ⟨_, by omega, Al.trans hs a b w v hA⟩

theorem al_of_edits {s t : List α} {n : Nat} (h : Edits sw n s t) : ∃ m, m ≤ n ∧ Al sw s t m := by
  induction h with
  | refl s => exact ⟨0, le_refl _, Al.refl s⟩
  | tail _ h' ih =>
    obtain ⟨m, hm, hA⟩ := ih
    obtain ⟨k, hk, hB⟩ := hA.step _ h'
    exact ⟨k, by omega, hB⟩

theorem edits_trans {s u t : List α} {n m : Nat} (h : Edits sw n s u) (h' : Edits sw m u t) :
    Edits sw (n + m) s t := by
  induction h' with
  | refl => exact h
  | tail _ h2 ih => exact .tail (ih h) h2

theorem edits_cons (c : α) {s t : List α} {n : Nat} (h : Edits sw n s t) :
    Edits sw n (c :: s) (c :: t) := by
  induction h with
  | refl s => exact .refl _
  | tail _ h' ih => exact .tail ih (.cons c h')

theorem edits_append_left (p : List α) {s t : List α} {n : Nat} (h : Edits sw n s t) :
    Edits sw n (p ++ s) (p ++ t) := by
  induction p with
  | nil => exact h
  | cons c p ih => exact edits_cons c ih

theorem edits_one {s t : List α} (h : EditStep sw s t) : Edits sw 1 s t := .tail (.refl s) h

theorem edits_dels (w s : List α) : Edits sw w.length (w ++ s) s := by
  induction w with
  | nil => exact .refl _
  | cons c w ih =>
    have := edits_trans (edits_one (sw := sw) (.del c (w ++ s))) ih
    rwa [Nat.add_comm] at this

theorem edits_inss (w s : List α) : Edits sw w.length s (w ++ s) := by
  induction w with
  | nil => exact .refl _
  | cons c w ih => exact .tail ih (.ins c _)

theorem edits_of_al {s t : List α} {n : Nat} (h : Al sw s t n) : Edits sw n s t := by
  induction h with
  | nil => exact .refl _
  | del a _ ih =>
    have := edits_trans (edits_one (sw := sw) (.del a _)) ih
    rwa [Nat.add_comm] at this
  | ins b _ ih => exact .tail ih (.ins b _)
  | @sub a b s t n _ ih =>
    exact .tail (edits_cons a ih) (.sub a b t)
  | mat a _ ih => exact edits_cons a ih
  | @trans hs a b w v s t n _ ih =>
    have h1 : Edits sw w.length (a :: (w ++ b :: s)) (a :: b :: s) := edits_cons a (edits_dels _ _)
    have h2 := edits_trans h1 (edits_one (.swap hs a b s))
    have h3 := edits_trans h2 (edits_cons b (edits_inss v (a :: s)))
    have h4 := edits_trans h3 (edits_cons b (edits_append_left v (edits_cons a ih)))
    have e : w.length + 1 + v.length + n = n + w.length + 1 + v.length := by omega
    exact e ▸ h4

theorem Al.exists (s t : List α) : ∃ n, Al sw s t n :=
  ⟨_, by simpa using ((Al.nil (sw := sw)).inss t).dels s⟩

/-- The least cost of an alignment. -/
noncomputable def dist (sw : Prop) (s t : List α) : Nat := sInf {n | Al sw s t n}

theorem dist_le {s t : List α} {n : Nat} (h : Al sw s t n) : dist sw s t ≤ n := Nat.sInf_le h

theorem dist_al (s t : List α) : Al sw s t (dist sw s t) :=
  Nat.sInf_mem (s := {n | Al sw s t n}) (Al.exists s t)

theorem le_dist {s t : List α} {k : Nat} (h : ∀ n, Al sw s t n → k ≤ n) : k ≤ dist sw s t :=
  h _ (dist_al s t)

theorem dist_isLeast (s t : List α) : IsLeast {n | Edits sw n s t} (dist sw s t) := by
  refine ⟨edits_of_al (dist_al s t), ?_⟩
  intro n hn
  obtain ⟨m, hm, hA⟩ := al_of_edits hn
  exact (dist_le hA).trans hm

theorem isLeast_iff_dist {s t : List α} {d : Nat} :
    IsLeast {n | Edits sw n s t} d ↔ dist sw s t = d :=
  ⟨fun h => (dist_isLeast s t).unique h, fun h => h ▸ dist_isLeast s t⟩

theorem dist_symm (s t : List α) : dist sw s t = dist sw t s :=
  le_antisymm (dist_le (dist_al t s).symm) (dist_le (dist_al s t).symm)

theorem dist_reverse (s t : List α) : dist sw s.reverse t.reverse = dist sw s t := by
  refine le_antisymm (dist_le (dist_al s t).reverse) ?_
  have := dist_le (dist_al (sw := sw) s.reverse t.reverse).reverse
  simpa using this

theorem dist_triangle (s u t : List α) : dist sw s t ≤ dist sw s u + dist sw u t :=
  (dist_isLeast s t).2 (edits_trans (dist_isLeast s u).1 (dist_isLeast u t).1)

theorem al_nil_left : ∀ {t : List α} {n : Nat}, Al sw [] t n → n = t.length
  | _, _, .nil => rfl
  | _, _, .ins _ h => by have := al_nil_left h; simp [this]

theorem al_nil_right : ∀ {t : List α} {n : Nat}, Al sw t [] n → n = t.length
  | _, _, .nil => rfl
  | _, _, .del _ h => by have := al_nil_right h; simp [this]

theorem dist_nil_left (t : List α) : dist sw [] t = t.length := al_nil_left (dist_al [] t)
theorem dist_nil_right (s : List α) : dist sw s [] = s.length := al_nil_right (dist_al s [])

theorem al_length {s t : List α} {n : Nat} (h : Al sw s t n) :
    s.length ≤ t.length + n ∧ t.length ≤ s.length + n := by
  induction h <;> simp <;> omega

theorem dist_length (s t : List α) :
    s.length ≤ t.length + dist sw s t ∧ t.length ≤ s.length + dist sw s t :=
  al_length (dist_al s t)

theorem dist_le_max (s t : List α) : dist sw s t ≤ max s.length t.length := by
  induction s generalizing t with
  | nil => rw [dist_nil_left]; simp
  | cons a s ih =>
    cases t with
    | nil => rw [dist_nil_right]; simp
    | cons b t =>
      have h1 := dist_le (Al.sub a b (dist_al (sw := sw) s t))
      have h2 := ih t
      simp only [List.length_cons]
      omega

theorem al_zero {s t : List α} {n : Nat} (h : Al sw s t n) : n = 0 → s = t := by
  induction h with
  | nil => intro _; rfl
  | mat a _ ih => intro h; rw [ih h]
  | _ => intro h; omega

theorem dist_eq_zero {s t : List α} : dist sw s t = 0 ↔ s = t := by
  constructor
  · intro h; exact al_zero (dist_al s t) h
  · rintro rfl; exact Nat.le_zero.mp (dist_le (Al.refl s))

theorem dist_dels_inss (w v s t : List α) :
    dist sw (w ++ s) (v ++ t) ≤ dist sw s t + w.length + v.length := by
  have := dist_le (((dist_al (sw := sw) s t).dels w).inss v)
  exact this

theorem dist_cons_cons_le [DecidableEq α] (a b : α) (s t : List α) :
    dist sw (a :: s) (b :: t) ≤ dist sw (a :: s) t + 1 ∧
    dist sw (a :: s) (b :: t) ≤ dist sw s (b :: t) + 1 ∧
    dist sw (a :: s) (b :: t) ≤ dist sw s t + (if a = b then 0 else 1) := by
  refine ⟨dist_le (Al.ins b (dist_al _ _)), dist_le (Al.del a (dist_al _ _)), ?_⟩
  split
  · next h => subst h; exact dist_le (Al.mat a (dist_al _ _))
  · exact dist_le (Al.sub a b (dist_al _ _))

/-- splitting at the first occurrence -/
theorem first_occ {b : α} {w s' w1 s1 : List α} (h1 : b ∉ w1)
    (h : w ++ b :: s' = w1 ++ b :: s1) :
    ∃ w2 : List α, w.length = w1.length + w2.length ∧ ∃ z, s1 = z ++ s' ∧ z.length = w2.length := by
  rcases List.append_eq_append_iff.mp h with ⟨x, hx, hy⟩ | ⟨x, hx, hy⟩
  · cases x with
    | nil =>
      simp only [List.append_nil, List.nil_append, List.cons.injEq, true_and] at hx hy
      subst hx; subst hy
      exact ⟨[], by simp, [], rfl, rfl⟩
    | cons y x =>
      exfalso
      simp only [List.cons_append, List.cons.injEq] at hy
      obtain ⟨rfl, _⟩ := hy
      exact h1 (by rw [hx]; simp)
  · cases x with
    | nil =>
      simp only [List.append_nil, List.nil_append, List.cons.injEq, true_and] at hx hy
      subst hx; subst hy
      exact ⟨[], by simp, [], rfl, rfl⟩
    | cons y x =>
      simp only [List.cons_append, List.cons.injEq] at hy
      obtain ⟨rfl, rfl⟩ := hy
      exact ⟨b :: x, by rw [hx]; simp, x ++ [b], by simp, by simp⟩

/-- Case distinction on a least alignment, without swaps. -/
theorem dist_cons_cons_lev [DecidableEq α] (hsw : ¬ sw) (a b : α) (s t : List α) :
    dist sw (a :: s) (b :: t) =
      min (min (dist sw (a :: s) t + 1) (dist sw s (b :: t) + 1))
        (dist sw s t + (if a = b then 0 else 1)) := by
  apply le_antisymm
  · have := dist_cons_cons_le (sw := sw) a b s t
    simp only [le_min_iff]; exact ⟨⟨this.1, this.2.1⟩, this.2.2⟩
  · refine le_dist fun n h => ?_
    cases h with
    | del _ h => have := dist_le h; omega
    | ins _ h => have := dist_le h; omega
    | sub _ _ h => have := dist_le h; split <;> omega
    | mat _ h => have := dist_le h; simp; omega
    | trans hs => exact absurd hs hsw

/-- The transposition term: cost of the block that pairs the nearest earlier occurrences. -/
theorem dist_trans_le (hs : sw) {a b : α} {w s' v t' : List α} :
    dist sw (a :: (w ++ b :: s')) (b :: (v ++ a :: t')) ≤
      dist sw s' t' + w.length + 1 + v.length :=
  dist_le (Al.trans hs a b w v (dist_al _ _))

/-- Case distinction on a least alignment, both heads occurring in the other tail. -/
theorem dist_cons_cons_occ [DecidableEq α] (hs : sw) (a b : α) {w s' v t' : List α}
    (hw : b ∉ w) (hv : a ∉ v) :
    dist sw (a :: (w ++ b :: s')) (b :: (v ++ a :: t')) =
      min (min (min (dist sw (a :: (w ++ b :: s')) (v ++ a :: t') + 1)
        (dist sw (w ++ b :: s') (b :: (v ++ a :: t')) + 1))
        (dist sw (w ++ b :: s') (v ++ a :: t') + (if a = b then 0 else 1)))
        (dist sw s' t' + w.length + 1 + v.length) := by
  apply le_antisymm
  · have := dist_cons_cons_le (sw := sw) a b (w ++ b :: s') (v ++ a :: t')
    simp only [le_min_iff]
    exact ⟨⟨⟨this.1, this.2.1⟩, this.2.2⟩, dist_trans_le hs⟩
  · refine le_dist fun n h => ?_
    generalize hz : w ++ b :: s' = z at h
    generalize hy : v ++ a :: t' = y at h
    cases h with
    | del _ h => have := dist_le h; omega
    | ins _ h => have := dist_le h; omega
    | sub _ _ h => have := dist_le h; split <;> omega
    | mat _ h => have := dist_le h; simp; omega
    | @trans _ _ _ w0 v0 s0 t0 n0 h =>
      obtain ⟨w2, hw2, z2, hz2, hzl⟩ := first_occ hw hz.symm
      obtain ⟨v2, hv2, y2, hy2, hyl⟩ := first_occ hv hy.symm
      have h1 := dist_le h
      have h2 := dist_dels_inss (sw := sw) z2 y2 s0 t0
      rw [← hz2, ← hy2] at h2
      omega

/-- Case distinction on a least alignment, one head not occurring in the other tail. -/
theorem dist_cons_cons_noocc [DecidableEq α] (a b : α) {s t : List α}
    (hno : b ∉ s ∨ a ∉ t) :
    dist sw (a :: s) (b :: t) =
      min (min (dist sw (a :: s) t + 1) (dist sw s (b :: t) + 1))
        (dist sw s t + (if a = b then 0 else 1)) := by
  apply le_antisymm
  · have := dist_cons_cons_le (sw := sw) a b s t
    simp only [le_min_iff]; exact ⟨⟨this.1, this.2.1⟩, this.2.2⟩
  · refine le_dist fun n h => ?_
    cases h with
    | del _ h => have := dist_le h; omega
    | ins _ h => have := dist_le h; omega
    | sub _ _ h => have := dist_le h; split <;> omega
    | mat _ h => have := dist_le h; simp; omega
    | trans hs => exfalso; rcases hno with h | h <;> simp at h

end

end Verif.Lemmas
