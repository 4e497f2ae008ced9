import Verif.Model.Stationary
import Verif.Lemmas.Primitive
import Mathlib.Tactic.LinearCombination
import Mathlib.Tactic.FieldSimp

/-!
# Lemmas: elimination for stationary distributions
-/

set_option linter.unusedSectionVars false

namespace Verif

open Finset

variable {K : Type} [Field K] [LinearOrder K] [IsStrictOrderedRing K]

/-- The block of the array from position `i` on is a nonnegative irreducible matrix. -/
structure RateBlock (n i : ℕ) (a : ℕ → ℕ → K) : Prop where
  nonneg : ∀ j ∈ Ico i n, ∀ k ∈ Ico i n, 0 ≤ a j k
  irred : ∀ S : ℕ → Prop, (∃ j ∈ Ico i n, S j) →
    (∀ j ∈ Ico i n, ∀ k ∈ Ico i n, S j → 0 < a j k → S k) → ∀ j ∈ Ico i n, S j

/-- The block of the array from position `i` on is an irreducible stochastic matrix. -/
structure GoodBlock (n i : ℕ) (a : ℕ → ℕ → K) : Prop extends RateBlock n i a where
  sum : ∀ j ∈ Ico i n, ∑ k ∈ Ico i n, a j k = 1

theorem sum_Ico_first {n i : ℕ} (h : i < n) (f : ℕ → K) :
    ∑ k ∈ Ico i n, f k = f i + ∑ k ∈ Ico (i + 1) n, f k := sum_eq_sum_Ico_succ_bot h f

theorem mem_Ico_of_succ {n i k : ℕ} (h : k ∈ Ico (i + 1) n) : k ∈ Ico i n := by
  rw [mem_Ico] at h ⊢
  omega

/-- The scale is positive. -/
theorem RateBlock.scale_pos {n i : ℕ} {a : ℕ → ℕ → K} (h : RateBlock n i a) (hi : i + 1 < n) :
    0 < ∑ k ∈ Ico (i + 1) n, a i k := by
  have hii : i ∈ Ico i n := by rw [mem_Ico]; omega
  have h0 : ∀ k ∈ Ico (i + 1) n, 0 ≤ a i k := fun k hk => h.nonneg i hii k (mem_Ico_of_succ hk)
  refine lt_of_le_of_ne (sum_nonneg h0) fun hs => ?_
  have hz := (sum_eq_zero_iff_of_nonneg h0).1 hs.symm
  have := h.irred (fun j => j = i) ⟨i, hii, rfl⟩ ?_ (i + 1) (by rw [mem_Ico]; omega)
  · omega
  · rintro j hj k hk rfl hjk
    by_contra hne
    have hk' : k ∈ Ico (j + 1) n := by rw [mem_Ico] at hk ⊢; omega
    rw [hz k hk'] at hjk
    exact lt_irrefl _ hjk

theorem gthStep_block {n i : ℕ} {a : ℕ → ℕ → K} {s : K} {j k : ℕ} (hj : j ∈ Ico (i + 1) n)
    (hk : k ∈ Ico (i + 1) n) : gthStep n a i s j k = a j k + a j i / s * a i k := by
  rw [mem_Ico] at hj hk
  unfold gthStep
  rw [if_pos (by omega), if_neg (by omega), if_pos (by omega)]

theorem gthStep_col {n i : ℕ} {a : ℕ → ℕ → K} {s : K} {j : ℕ} (hj : j ∈ Ico (i + 1) n) :
    gthStep n a i s j i = a j i / s := by
  rw [mem_Ico] at hj
  unfold gthStep
  rw [if_pos (by omega), if_pos rfl]

theorem gthStep_before {n i : ℕ} {a : ℕ → ℕ → K} {s : K} {j k : ℕ} (hk : k < i) :
    gthStep n a i s j k = a j k := by
  unfold gthStep
  split
  · rw [if_neg (by omega), if_neg (by omega)]
  · rfl

/-- The next block is again nonnegative and irreducible. -/
theorem RateBlock.step {n i : ℕ} {a : ℕ → ℕ → K} (h : RateBlock n i a) (hi : i + 1 < n) :
    RateBlock n (i + 1) (gthStep n a i (∑ k ∈ Ico (i + 1) n, a i k)) := by
  have hs := h.scale_pos hi
  have hii : i ∈ Ico i n := by rw [mem_Ico]; omega
  generalize hsc : ∑ k ∈ Ico (i + 1) n, a i k = s at hs
  refine ⟨?_, ?_⟩
  · intro j hj k hk
    rw [gthStep_block hj hk]
    have h1 := h.nonneg j (mem_Ico_of_succ hj) k (mem_Ico_of_succ hk)
    have h2 := h.nonneg j (mem_Ico_of_succ hj) i hii
    have h3 := h.nonneg i hii k (mem_Ico_of_succ hk)
    positivity
  · rintro S ⟨j0, hj0, hS0⟩ hcl
    have hpos : ∀ j ∈ Ico (i + 1) n, ∀ k ∈ Ico (i + 1) n, (0 < a j k ∨ (0 < a j i ∧ 0 < a i k)) →
        0 < gthStep n a i s j k := by
      intro j hj k hk hor
      rw [gthStep_block hj hk]
      have h1 := h.nonneg j (mem_Ico_of_succ hj) k (mem_Ico_of_succ hk)
      have h2 := h.nonneg j (mem_Ico_of_succ hj) i hii
      have h3 := h.nonneg i hii k (mem_Ico_of_succ hk)
      rcases hor with h4 | ⟨h4, h5⟩ <;> positivity
    by_cases hex : ∃ j ∈ Ico (i + 1) n, S j ∧ 0 < a j i
    · obtain ⟨j1, hj1, hS1, hp1⟩ := hex
      have hall := h.irred (fun j => j = i ∨ (j ∈ Ico (i + 1) n ∧ S j)) ⟨i, hii, Or.inl rfl⟩ ?_
      · intro j hj
        rcases hall j (mem_Ico_of_succ hj) with rfl | h'
        · rw [mem_Ico] at hj; omega
        · exact h'.2
      · intro j hj k hk hT hjk
        by_cases hki : k = i
        · exact Or.inl hki
        have hk' : k ∈ Ico (i + 1) n := by rw [mem_Ico] at hk ⊢; omega
        refine Or.inr ⟨hk', ?_⟩
        rcases hT with rfl | ⟨hj', hSj⟩
        · exact hcl j1 hj1 k hk' hS1 (hpos j1 hj1 k hk' (Or.inr ⟨hp1, hjk⟩))
        · exact hcl j hj' k hk' hSj (hpos j hj' k hk' (Or.inl hjk))
    · exfalso
      push Not at hex
      have hall := h.irred (fun j => j ∈ Ico (i + 1) n ∧ S j)
        ⟨j0, mem_Ico_of_succ hj0, hj0, hS0⟩ ?_ i hii
      · have := hall.1
        rw [mem_Ico] at this
        omega
      · rintro j hj k hk ⟨hj', hSj⟩ hjk
        by_cases hki : k = i
        · subst hki
          exact absurd hjk (not_lt.2 (hex j hj' hSj))
        · have hk' : k ∈ Ico (i + 1) n := by rw [mem_Ico] at hk ⊢; omega
          exact ⟨hk', hcl j hj' k hk' hSj (hpos j hj' k hk' (Or.inl hjk))⟩

/-- The next block of a stochastic matrix is stochastic (the censored chain). -/
theorem GoodBlock.step {n i : ℕ} {a : ℕ → ℕ → K} (h : GoodBlock n i a) (hi : i + 1 < n) :
    GoodBlock n (i + 1) (gthStep n a i (∑ k ∈ Ico (i + 1) n, a i k)) := by
  have hs := h.scale_pos hi
  refine ⟨h.toRateBlock.step hi, ?_⟩
  generalize hsc : ∑ k ∈ Ico (i + 1) n, a i k = s at hs
  intro j hj
  rw [sum_congr rfl fun k hk => gthStep_block (s := s) (a := a) hj hk, sum_add_distrib,
      ← mul_sum, hsc, div_mul_cancel₀ _ hs.ne']
  have := h.sum j (mem_Ico_of_succ hj)
  rw [sum_Ico_first (by omega)] at this
  rw [add_comm]
  exact this

/-- An invariant vector of the censored chain extends to the larger block. -/
theorem GoodBlock.extend {n i : ℕ} {a : ℕ → ℕ → K} (h : GoodBlock n i a) (hi : i + 1 < n)
    {x : ℕ → K} (hx : ∀ k ∈ Ico (i + 1) n, 0 < x k)
    (hinv : ∀ k ∈ Ico (i + 1) n,
      ∑ l ∈ Ico (i + 1) n, x l * gthStep n a i (∑ k ∈ Ico (i + 1) n, a i k) l k = x k)
    (hxi : x i = ∑ l ∈ Ico (i + 1) n, x l * (a l i / ∑ k ∈ Ico (i + 1) n, a i k)) :
    0 < x i ∧ ∀ k ∈ Ico i n, ∑ l ∈ Ico i n, x l * a l k = x k := by
  have hs := h.scale_pos hi
  have hii : i ∈ Ico i n := by rw [mem_Ico]; omega
  have hrow := h.sum i hii
  rw [sum_Ico_first (by omega)] at hrow
  generalize hsc : ∑ k ∈ Ico (i + 1) n, a i k = s at hs hinv hxi hrow
  have hterm : ∀ l ∈ Ico (i + 1) n, 0 ≤ x l * (a l i / s) := fun l hl =>
    mul_nonneg (hx l hl).le (div_nonneg (h.nonneg l (mem_Ico_of_succ hl) i hii) hs.le)
  constructor
  · rw [hxi]
    by_contra hle
    have h0 := le_antisymm (not_lt.1 hle) (sum_nonneg hterm)
    have hz := (sum_eq_zero_iff_of_nonneg hterm).1 h0
    have := h.irred (fun j => j ∈ Ico (i + 1) n)
      ⟨i + 1, by rw [mem_Ico]; omega, by rw [mem_Ico]; omega⟩ ?_ i hii
    · rw [mem_Ico] at this; omega
    · intro j hj k hk hj' hjk
      by_contra hk'
      have hki : k = i := by rw [mem_Ico] at hk hk'; omega
      subst hki
      rcases mul_eq_zero.1 (hz j hj') with h1 | h1
      · exact absurd h1 (hx j hj').ne'
      · exact absurd h1 (div_pos hjk hs).ne'
  · intro k hk
    rw [sum_Ico_first (by omega)]
    by_cases hki : k = i
    · subst hki
      have h1 : ∑ l ∈ Ico (k + 1) n, x l * a l k = s * x k := by
        rw [hxi, mul_sum]
        refine sum_congr rfl fun l _ => ?_
        field_simp
      rw [h1]
      linear_combination x k * hrow
    · have hk' : k ∈ Ico (i + 1) n := by rw [mem_Ico] at hk ⊢; omega
      have h1 : ∑ l ∈ Ico (i + 1) n, x l * gthStep n a i s l k =
          ∑ l ∈ Ico (i + 1) n, x l * a l k + (∑ l ∈ Ico (i + 1) n, x l * (a l i / s)) * a i k := by
        rw [sum_mul, ← sum_add_distrib]
        refine sum_congr rfl fun l hl => ?_
        rw [gthStep_block hl hk']
        ring
      rw [← hinv k hk', h1, ← hxi]
      ring

/-- The elimination runs to the end, leaves the columns before `i` alone, and every vector that
satisfies the substitution equations is invariant. -/
theorem gthForward_spec {n : ℕ} (m i : ℕ) (a : ℕ → ℕ → K) (h : GoodBlock n i a)
    (hi : i + m + 1 = n) :
    (gthForward n m i a).1 = n ∧
    (∀ l k, k < i → (gthForward n m i a).2 l k = a l k) ∧
    ∀ x : ℕ → K, 0 < x (n - 1) →
      (∀ k, i ≤ k → k < n - 1 → x k = ∑ l ∈ Ico (k + 1) n, x l * (gthForward n m i a).2 l k) →
      (∀ k ∈ Ico i n, 0 < x k) ∧ ∀ k ∈ Ico i n, ∑ l ∈ Ico i n, x l * a l k = x k := by
  induction m generalizing i a with
  | zero =>
    refine ⟨rfl, fun _ _ _ => rfl, fun x hx _ => ?_⟩
    have hI : Ico i n = {i} := by
      rw [show n = i + 1 by omega]
      exact Nat.Ico_succ_singleton i
    have hsum := h.sum i (by rw [hI]; simp)
    rw [hI] at hsum ⊢
    rw [show n - 1 = i by omega] at hx
    simp only [mem_singleton, forall_eq, sum_singleton] at hsum ⊢
    exact ⟨hx, by rw [hsum, mul_one]⟩
  | succ m ih =>
    have hs := h.scale_pos (by omega)
    have hfw : gthForward n (m + 1) i a =
        gthForward n m (i + 1) (gthStep n a i (∑ k ∈ Ico (i + 1) n, a i k)) := by
      rw [gthForward]
      exact if_neg (not_le.2 hs)
    rw [hfw]
    obtain ⟨g1, g2, g3⟩ := ih (i + 1) _ (h.step (by omega)) (by omega)
    refine ⟨g1, fun l k hk => ?_, fun x hx heq => ?_⟩
    · rw [g2 l k (by omega), gthStep_before hk]
    · obtain ⟨k1, k2⟩ := g3 x hx fun k h1 h2 => heq k (by omega) h2
      have hxi : x i = ∑ l ∈ Ico (i + 1) n, x l * (a l i / ∑ k ∈ Ico (i + 1) n, a i k) := by
        rw [heq i le_rfl (by omega)]
        refine sum_congr rfl fun l hl => ?_
        rw [g2 l i (by omega), gthStep_col hl]
      obtain ⟨e1, e2⟩ := h.extend (by omega) k1 k2 hxi
      refine ⟨fun k hk => ?_, e2⟩
      by_cases hki : k = i
      · rw [hki]; exact e1
      · exact k1 k (by rw [mem_Ico] at hk ⊢; omega)

theorem gthBack_spec (n : ℕ) (a : ℕ → ℕ → K) (m : ℕ) (x : ℕ → K) :
    (∀ k, m ≤ k → gthBack n a m x k = x k) ∧
    ∀ k, k < m → gthBack n a m x k = ∑ l ∈ Ico (k + 1) n, gthBack n a m x l * a l k := by
  induction m generalizing x with
  | zero => exact ⟨fun _ _ => rfl, fun k hk => absurd hk (Nat.not_lt_zero k)⟩
  | succ m ih =>
    rw [gthBack]
    obtain ⟨g1, g2⟩ := ih (Function.update x m (∑ l ∈ Ico (m + 1) n, x l * a l m))
    constructor
    · intro k hk
      rw [g1 k (by omega), Function.update_of_ne (by omega)]
    · intro k hk
      by_cases hkm : k = m
      · subst hkm
        rw [g1 k le_rfl, Function.update_self]
        refine sum_congr rfl fun l hl => ?_
        rw [mem_Ico] at hl
        rw [g1 l (by omega), Function.update_of_ne (by omega)]
      · exact g2 k (by omega)

/-- `gth_solve` on an irreducible stochastic array. -/
theorem gthSolve_spec {n : ℕ} {a : ℕ → ℕ → K} (hn : 1 ≤ n) (h : GoodBlock n 0 a) :
    (gthSolve n a).1 = n ∧ (∀ k < n, 0 < (gthSolve n a).2 k) ∧
      ∑ k ∈ range n, (gthSolve n a).2 k = 1 ∧
      ∀ k < n, ∑ l ∈ range n, (gthSolve n a).2 l * a l k = (gthSolve n a).2 k := by
  obtain ⟨f1, -, f3⟩ := gthForward_spec (n - 1) 0 a h (by omega)
  unfold gthSolve
  simp only
  rw [f1]
  set A := (gthForward n (n - 1) 0 a).2
  obtain ⟨b1, b2⟩ := gthBack_spec n A (n - 1) fun k => if k = n - 1 then 1 else 0
  set x := gthBack n A (n - 1) fun k => if k = n - 1 then 1 else 0
  obtain ⟨p1, p2⟩ := f3 x (by rw [b1 _ le_rfl, if_pos rfl]; exact one_pos) fun k _ hk => b2 k hk
  rw [Nat.Ico_zero_eq_range] at p1 p2
  have hpos : 0 < ∑ l ∈ range n, x l := sum_pos p1 ⟨0, by rw [mem_range]; omega⟩
  refine ⟨rfl, fun k hk => div_pos (p1 k (mem_range.2 hk)) hpos, ?_, fun k hk => ?_⟩
  · rw [← sum_div, div_self hpos.ne']
  · rw [← p2 k (mem_range.2 hk), sum_div]
    refine sum_congr rfl fun l _ => ?_
    ring

theorem toArray_apply {n : ℕ} (P : Matrix (Fin n) (Fin n) K) (i j : Fin n) :
    toArray P i j = P i j := by
  unfold toArray
  rw [dif_pos ⟨i.2, j.2⟩]

theorem goodBlock_toArray {n : ℕ} {P : Matrix (Fin n) (Fin n) K} (hP : IsStochastic P)
    (hirr : Irreducible P) : GoodBlock n 0 (toArray P) := by
  refine ⟨⟨?_, ?_⟩, ?_⟩
  · intro j hj k hk
    rw [mem_Ico] at hj hk
    exact le_of_le_of_eq (hP.1 ⟨j, hj.2⟩ ⟨k, hk.2⟩) (toArray_apply P ⟨j, hj.2⟩ ⟨k, hk.2⟩).symm
  · rintro S ⟨j, hj, hS⟩ hcl k hk
    rw [mem_Ico] at hj hk
    refine closedSet_reach (P := fun i j => P i j) (S := fun i => S i.val) ?_ hS
      (hirr ⟨j, hj.2⟩ ⟨k, hk.2⟩)
    intro a b ha hab
    refine hcl a (by simp) b (by simp) ha ?_
    rw [toArray_apply]
    exact hab
  · intro j hj
    rw [mem_Ico] at hj
    rw [Nat.Ico_zero_eq_range, Finset.sum_range]
    exact (sum_congr rfl fun k _ => toArray_apply P ⟨j, hj.2⟩ k).trans (hP.2 ⟨j, hj.2⟩)

/-- `gth_solve` returns a positive stationary distribution of an irreducible chain. -/
theorem gthSolve_stationary {n : ℕ} (hn : 1 ≤ n) {P : Matrix (Fin n) (Fin n) K}
    (hP : IsStochastic P) (hirr : Irreducible P) :
    (gthSolve n (toArray P)).1 = n ∧
    (∀ i : Fin n, 0 < (gthSolve n (toArray P)).2 i) ∧
    IsStationary P fun i : Fin n => (gthSolve n (toArray P)).2 i := by
  obtain ⟨h1, h2, h3, h4⟩ := gthSolve_spec hn (goodBlock_toArray hP hirr)
  refine ⟨h1, fun i => h2 i i.2, ⟨fun i => (h2 i i.2).le, ?_⟩, fun j => ?_⟩
  · rw [Finset.sum_range] at h3
    exact h3
  · refine Eq.trans ?_ (h4 j j.2)
    rw [Finset.sum_range]
    exact sum_congr rfl fun i _ => congrArg _ (toArray_apply P i j).symm

/-! ## Uniqueness -/

/-- The support of an invariant nonnegative vector is closed. -/
theorem support_closed {ι : Type} [Fintype ι] {P : ι → ι → K} (hP : IsStochastic P) {y : ι → K}
    (hy : ∀ i, 0 ≤ y i) (hinv : IsInvariant P y) : ClosedSet P fun i => 0 < y i := by
  intro i j hi hij
  rw [← hinv j]
  exact lt_of_lt_of_le (mul_pos hi hij)
    (single_le_sum (f := fun i => y i * P i j) (fun k _ => mul_nonneg (hy k) (hP.1 k j)) (mem_univ i))

/-- On an irreducible chain every invariant nonnegative vector is a multiple of a positive invariant
vector. -/
theorem invariant_proportional {ι : Type} [Fintype ι] [Nonempty ι] {P : ι → ι → K}
    (hP : IsStochastic P) (hirr : Irreducible P) {x y : ι → K} (hx : ∀ i, 0 < x i)
    (hxinv : IsInvariant P x) (hy : IsInvariant P y) : ∃ t, ∀ i, y i = t * x i := by
  obtain ⟨i0, -, hmin⟩ := exists_min_image univ (fun i => y i / x i) univ_nonempty
  refine ⟨y i0 / x i0, fun i => ?_⟩
  set t := y i0 / x i0
  have hz : ∀ i, 0 ≤ y i - t * x i := by
    intro i
    have := hmin i (mem_univ i)
    rw [le_div_iff₀ (hx i)] at this
    exact sub_nonneg.2 this
  have hzinv : IsInvariant P fun i => y i - t * x i := by
    intro j
    have h1 := hy j
    have h2 := hxinv j
    simp only [sub_mul, sum_sub_distrib, mul_assoc, ← mul_sum]
    rw [h1, h2]
  have hz0 : y i0 - t * x i0 = 0 := by
    rw [div_mul_cancel₀ _ (hx i0).ne', sub_self]
  by_contra hne
  have hpos : 0 < y i - t * x i := lt_of_le_of_ne (hz i) (fun h => hne (sub_eq_zero.1 h.symm))
  have := closedSet_reach (support_closed hP hz hzinv) hpos (hirr i i0)
  exact absurd this (by rw [hz0]; exact lt_irrefl _)

/-- An irreducible chain has at most one stationary distribution. -/
theorem stationary_unique {ι : Type} [Fintype ι] [Nonempty ι] {P : ι → ι → K}
    (hP : IsStochastic P) (hirr : Irreducible P) {x y : ι → K} (hx : IsStationary P x)
    (hxpos : ∀ i, 0 < x i) (hy : IsStationary P y) : y = x := by
  obtain ⟨t, ht⟩ := invariant_proportional hP hirr hxpos hx.2 hy.2
  have h1 : t = 1 := by
    have := hy.1.2
    simp only [ht, ← mul_sum, hx.1.2, mul_one] at this
    exact this
  funext i
  rw [ht, h1, one_mul]

end Verif
