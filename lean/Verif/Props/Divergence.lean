import Verif.Model.Divergence
import Verif.Props.Aggregate

/-!
# The divergence of an aggregation (C98)
-/

set_option linter.unusedSectionVars false

namespace Verif

open Finset

/-- The excess of `p * log (p / q)` over the difference. -/
theorem log_excess {p q : ℝ} (hp : 0 ≤ p) (hq : 0 ≤ q) (hpq : 0 < p → 0 < q) :
    0 ≤ p * Real.log (p / q) - p + q ∧ (p * Real.log (p / q) - p + q = 0 ↔ p = q) := by
  rcases hp.eq_or_lt with rfl | hp
  · simp only [zero_mul, sub_zero, zero_add]
    exact ⟨hq, eq_comm⟩
  · have hq' := hpq hp
    have h1 : Real.log (p / q) = - Real.log (q / p) := by rw [← Real.log_inv, inv_div]
    have h2 : p * (q / p - 1) = q - p := by field_simp
    constructor
    · have h3 := mul_le_mul_of_nonneg_left (Real.log_le_sub_one_of_pos (div_pos hq' hp)) hp.le
      rw [h1]
      linarith
    · constructor
      · intro h
        by_contra hne
        have h3 := mul_lt_mul_of_pos_left (Real.log_lt_sub_one_of_pos (div_pos hq' hp) (by
          intro h4
          exact hne ((div_eq_one_iff_eq hp.ne').1 h4).symm)) hp
        rw [h1] at h
        linarith
      · rintro rfl
        rw [div_self hp.ne', Real.log_one]
        ring

variable {n z : ℕ} {P : Matrix (Fin n) (Fin n) ℝ} {x : Fin n → ℝ} {f : Fin n → Fin z}

theorem lifted_stochastic (hP : IsStochastic fun i j => P i j) (hx : ∀ i, 0 < x i)
    (hf : Function.Surjective f) : IsStochastic (lifted (fun i j => P i j) x f) := by
  have h1 := aggregated_stochastic (P := P) hP hx hf
  refine ⟨fun i j => mul_nonneg (h1.1 _ _) (div_nonneg (hx j).le (groupMass_pos hx hf _).le), fun i => ?_⟩
  have h2 : ∀ j, lifted (fun i j => P i j) x f i j = ∑ b, if f j = b then
      aggregated (fun i j => P i j) x f (f i) b * (x j / groupMass x f b) else 0 := by
    intro j
    rw [Finset.sum_ite_eq univ (f j) fun b => aggregated (fun i j => P i j) x f (f i) b *
      (x j / groupMass x f b), if_pos (mem_univ _)]
    rfl
  rw [Finset.sum_congr rfl fun j _ => h2 j, Finset.sum_comm, ← h1.2 (f i)]
  refine Finset.sum_congr rfl fun b _ => ?_
  have h3 : ∀ j ∈ univ, (if f j = b then aggregated (fun i j => P i j) x f (f i) b *
      (x j / groupMass x f b) else 0) = aggregated (fun i j => P i j) x f (f i) b *
      ((if f j = b then x j else 0) / groupMass x f b) := by
    intro j _
    split
    · rfl
    · rw [zero_div, mul_zero]
  rw [Finset.sum_congr rfl h3, ← Finset.mul_sum, ← Finset.sum_div]
  change _ * (groupMass x f b / groupMass x f b) = _
  rw [div_self (groupMass_pos hx hf b).ne', mul_one]

theorem aggregated_pos (hP : IsStochastic fun i j => P i j) (hx : ∀ i, 0 < x i)
    (hf : Function.Surjective f) {i j : Fin n} (h : 0 < P i j) :
    0 < aggregated (fun i j => P i j) x f (f i) (f j) := by
  refine div_pos (Finset.sum_pos' (fun k _ => Finset.sum_nonneg fun l _ => ?_) ⟨i, mem_univ i,
    Finset.sum_pos' (fun l _ => ?_) ⟨j, mem_univ j, ?_⟩⟩) (groupMass_pos hx hf _)
  · split
    · exact mul_nonneg (hx k).le (hP.1 k l)
    · exact le_rfl
  · split
    · exact mul_nonneg (hx i).le (hP.1 i l)
    · exact le_rfl
  · rw [if_pos ⟨rfl, rfl⟩]
    exact mul_pos (hx i) h

theorem sum_groups_of {phi : List (Group n)} {f : Fin n → Fin phi.length}
    (hf : ∀ a i, phi.get a i = true ↔ f i = a) (i : Fin n) (g : Fin phi.length → ℝ) :
    (∑ a, if phi.get a i = true then g a else 0) = g (f i) := by
  rw [Finset.sum_congr rfl fun a _ => if_congr (hf a i) rfl rfl,
    Finset.sum_ite_eq univ (f i) g, if_pos (mem_univ _)]

theorem superPi_eq {phi : List (Group n)} {f : Fin n → Fin phi.length}
    (hf : ∀ a i, phi.get a i = true ↔ f i = a) (j : Fin n) :
    superPi x phi j = groupMass x f (f j) := by
  unfold superPi
  rw [sum_groups_of hf j fun a => groupDen x (phi.get a)]
  unfold groupDen groupMass
  exact Finset.sum_congr rfl fun i _ => if_congr (hf _ i) rfl rfl

theorem superQ_eq {phi : List (Group n)} {f : Fin n → Fin phi.length}
    (hf : ∀ a i, phi.get a i = true ↔ f i = a) (hsurj : Function.Surjective f)
    (hx : ∀ i, 0 < x i) (i j : Fin n) :
    superQ phi (calculateQ P x phi) i j = .fin (aggregated (fun i j => P i j) x f (f i) (f j)) := by
  have h1 : ∀ a b, calculateQ P x phi a b = .fin (aggregated (fun i j => P i j) x f a b) :=
    fun a b => groupEntry_eq hf hsurj hx a b
  unfold superQ
  rw [if_pos (fun a b => by rw [h1 a b]; rfl)]
  congr 1
  have h2 : ∀ a ∈ univ, (∑ b, if phi.get a i = true ∧ phi.get b j = true then
      (calculateQ P x phi a b).val else 0) = if phi.get a i = true then
        aggregated (fun i j => P i j) x f a (f j) else 0 := by
    intro a _
    by_cases h3 : phi.get a i = true
    · rw [if_pos h3, ← sum_groups_of hf j fun b => aggregated (fun i j => P i j) x f a b]
      refine Finset.sum_congr rfl fun b _ => ?_
      rw [h1 a b]
      exact if_congr (and_iff_right h3) rfl rfl
    · rw [if_neg h3]
      exact Finset.sum_eq_zero fun b _ => if_neg fun h4 => h3 h4.1
  rw [Finset.sum_congr rfl h2, sum_groups_of hf i fun a => aggregated (fun i j => P i j) x f a (f j)]

/-- C98. For groups that cover the states without overlap, the divergence compares the chain with the
one that moves between the groups like the aggregation and chooses the state in the group in
equilibrium: it is the relative entropy of a step, it is not negative, and it is zero exactly if the two
chains are the same. -/
theorem C98_divergence (big : ℝ) (hP : IsStochastic fun i j => P i j)
    (hs : IsStationary (fun i j => P i j) x) (hx : ∀ i, 0 < x i) {phi : List (Group n)}
    (hphi : IsGroups phi) :
    ∃ f : Fin n → Fin phi.length, (∀ a i, phi.get a i = true ↔ f i = a) ∧
      IsStochastic (lifted (fun i j => P i j) x f) ∧
      groupDivergence big P x phi =
        ∑ i, x i * ∑ j, P i j * Real.logb 2 (P i j / lifted (fun i j => P i j) x f i j) ∧
      0 ≤ groupDivergence big P x phi ∧
      (groupDivergence big P x phi = 0 ↔ ∀ i j, P i j = lifted (fun i j => P i j) x f i j) := by
  obtain ⟨f, hsurj, hf⟩ := hphi.assign
  have hl := lifted_stochastic (P := P) hP hx hsurj
  have hm := fun a => groupMass_pos hx hsurj a
  have hpos : ∀ i j, 0 < P i j → 0 < lifted (fun i j => P i j) x f i j := fun i j h =>
    mul_pos (aggregated_pos hP hx hsurj h) (div_pos (hx j) (hm _))
  have e1 : ∀ i j, P i j * log2Ratio big (P i j) (superQ phi (calculateQ P x phi) i j) =
      P i j * Real.logb 2 (P i j / aggregated (fun i j => P i j) x f (f i) (f j)) := by
    intro i j
    rw [superQ_eq hf hsurj hx]
    rcases (hP.1 i j).eq_or_lt with h0 | h0
    · change 0 = P i j at h0
      rw [← h0, zero_mul, zero_mul]
    · unfold log2Ratio
      simp only
      rw [if_neg (aggregated_pos hP hx hsurj h0).ne', if_neg (ne_of_gt h0)]
  have e2 : ∀ j, log2Ratio big (x j) (.fin (superPi x phi j)) = Real.logb 2 (x j / groupMass x f (f j)) := by
    intro j
    rw [superPi_eq hf]
    unfold log2Ratio
    simp only
    rw [if_neg (hm _).ne', if_neg (hx j).ne']
  have e3 : ∑ j, x j * Real.logb 2 (x j / groupMass x f (f j)) =
      ∑ i, x i * ∑ j, P i j * Real.logb 2 (x j / groupMass x f (f j)) := by
    simp only [Finset.mul_sum]
    rw [Finset.sum_comm]
    refine Finset.sum_congr rfl fun j _ => ?_
    have h2 : ∑ i, x i * P i j = x j := hs.2 j
    conv_lhs => rw [← h2, Finset.sum_mul]
    refine Finset.sum_congr rfl fun i _ => ?_
    rw [h2, mul_assoc]
  have e4 : groupDivergence big P x phi =
      ∑ i, x i * ∑ j, P i j * Real.logb 2 (P i j / lifted (fun i j => P i j) x f i j) := by
    have e6 : ∑ j, x j * log2Ratio big (x j) (.fin (superPi x phi j)) =
        ∑ i, x i * ∑ j, P i j * Real.logb 2 (x j / groupMass x f (f j)) := by
      rw [← e3]
      exact Finset.sum_congr rfl fun j _ => by rw [e2 j]
    unfold groupDivergence kullbackLeibler
    rw [e6, ← Finset.sum_sub_distrib]
    refine Finset.sum_congr rfl fun i _ => ?_
    rw [← mul_sub, ← Finset.sum_sub_distrib]
    congr 1
    refine Finset.sum_congr rfl fun j _ => ?_
    rw [e1, ← mul_sub]
    rcases (hP.1 i j).eq_or_lt with h0 | h0
    · change 0 = P i j at h0
      rw [← h0, zero_mul, zero_mul]
    · change 0 < P i j at h0
      have h3 := aggregated_pos hP hx hsurj h0
      have h4 := div_pos (hx j) (hm (f j))
      rw [← Real.logb_div (div_pos h0 h3).ne' h4.ne', div_div]
      rfl
  have e5 : Real.log 2 * groupDivergence big P x phi = ∑ i, x i * ∑ j,
      (P i j * Real.log (P i j / lifted (fun i j => P i j) x f i j) - P i j +
        lifted (fun i j => P i j) x f i j) := by
    rw [e4, Finset.mul_sum]
    refine Finset.sum_congr rfl fun i _ => ?_
    rw [Finset.sum_add_distrib, Finset.sum_sub_distrib, hl.2 i]
    have h2 : ∑ j, P i j = 1 := hP.2 i
    rw [h2, sub_add_cancel, mul_left_comm, Finset.mul_sum]
    congr 1
    refine Finset.sum_congr rfl fun j _ => ?_
    unfold Real.logb
    have := (Real.log_pos one_lt_two).ne'
    field_simp
  have hterm := fun i j => log_excess (hP.1 i j) (hl.1 i j) (hpos i j)
  have hlog := Real.log_pos (one_lt_two (α := ℝ))
  have hnn : 0 ≤ Real.log 2 * groupDivergence big P x phi := by
    rw [e5]
    exact Finset.sum_nonneg fun i _ => mul_nonneg (hx i).le (Finset.sum_nonneg fun j _ => (hterm i j).1)
  refine ⟨f, hf, hl, e4, nonneg_of_mul_nonneg_right hnn hlog, ?_⟩
  constructor
  · intro h0 i j
    rw [h0, mul_zero] at e5
    have h1 := (Finset.sum_eq_zero_iff_of_nonneg (fun i _ => mul_nonneg (hx i).le
      (Finset.sum_nonneg fun j _ => (hterm i j).1))).1 e5.symm i (mem_univ i)
    have h2 := (mul_eq_zero.1 h1).resolve_left (hx i).ne'
    have h3 := (Finset.sum_eq_zero_iff_of_nonneg (fun j _ => (hterm i j).1)).1 h2 j (mem_univ j)
    exact (hterm i j).2.1 h3
  · intro h
    have h1 : Real.log 2 * groupDivergence big P x phi = 0 := by
      rw [e5]
      refine Finset.sum_eq_zero fun i _ => ?_
      rw [Finset.sum_eq_zero fun j _ => (hterm i j).2.2 (h i j), mul_zero]
    exact (mul_eq_zero.1 h1).resolve_left hlog.ne'

/-- C98, selection. Of the splits that are considered in a pass, the one with the smallest divergence is
taken, if all vectors have both signs on the groups: no other candidate is closer to the given chain. -/
theorem C98_best_split (big : ℝ) (P : Matrix (Fin n) (Fin n) ℝ) (x : Fin n → ℝ)
    (vec : Group n → Fin n → ℝ) {phi psi : List (Group n)}
    (h : bottomUpStep vec (groupDivergence big P x) (some phi) = some psi)
    (hlarge : ∃ a : Fin phi.length, 2 ≤ groupSize (phi.get a)) :
    (∃ i, bipartition vec phi i = some psi) ∧
      ∀ i c, i < phi.length → bipartition vec phi i = some c →
        groupDivergence big P x psi ≤ groupDivergence big P x c := by
  obtain ⟨h1, h2⟩ := bestBipartition_spec (vec := vec) (divergence := groupDivergence big P x) phi
  unfold bottomUpStep at h
  rw [Option.getD_some] at h
  cases hb : bestBipartition vec (groupDivergence big P x) phi with
  | none =>
    obtain ⟨a, ha⟩ := hlarge
    have h3 := bipartition_isSome (vec := vec) ha
    rw [h2 hb a.val a.isLt] at h3
    cases h3
  | some b =>
    rw [hb] at h
    injection h with h
    subst h
    obtain ⟨e1, e2, e3⟩ := h1 b hb
    exact ⟨e2, fun i c hi hc => e1 ▸ e3 i c hi hc⟩

/-- C98 fails for lists with an empty group, which `C96_nan` produces: the transitions do not matter any
more, the result is the one for a chain without any dependence on the groups. -/
theorem C98_empty_group (big : ℝ) (P : Matrix (Fin n) (Fin n) ℝ) (x : Fin n → ℝ)
    {phi : List (Group n)} {v : Group n} (hv : v ∈ phi) (he : ∀ i, v i = false) :
    groupDivergence big P x phi = - ∑ j, x j * log2Ratio big (x j) (.fin (superPi x phi j)) := by
  obtain ⟨a, ha⟩ := List.get_of_mem hv
  have h1 : ∀ i j, superQ phi (calculateQ P x phi) i j = .nan := by
    intro i j
    unfold superQ
    rw [if_neg]
    intro h2
    have h3 := h2 a a
    unfold calculateQ groupEntry at h3
    rw [ha, if_pos] at h3
    · cases h3
    · unfold groupDen
      exact Finset.sum_eq_zero fun i _ => by rw [he i]; rfl
  unfold groupDivergence kullbackLeibler
  rw [Finset.sum_eq_zero, zero_sub]
  intro i _
  rw [Finset.sum_eq_zero, mul_zero]
  intro j _
  rw [h1 i j]
  exact mul_zero _

/-- The hypotheses of `C98_divergence` can be met. -/
example : IsStochastic (fun i j : Fin 4 => (exQuartetP.map (Rat.cast : ℚ → ℝ)) i j) ∧
    IsStationary (fun i j : Fin 4 => (exQuartetP.map (Rat.cast : ℚ → ℝ)) i j) (fun _ => 1 / 4) ∧
    IsGroups [firstPair, secondPair] := by
  refine ⟨⟨fun i j => ?_, fun i => ?_⟩, ⟨⟨fun _ => by norm_num, by norm_num⟩, fun j => ?_⟩, ?_⟩
  · fin_cases i <;> fin_cases j <;> norm_num [exQuartetP]
  · rw [Fin.sum_univ_four]
    fin_cases i <;> simp [exQuartetP] <;> norm_num
  · rw [Fin.sum_univ_four]
    fin_cases j <;> simp [exQuartetP] <;> norm_num
  · unfold IsGroups
    decide

end Verif
