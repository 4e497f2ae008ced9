import Verif.Lemmas.Growth
import Verif.Props.Entropy
import Verif.Props.Spectral
import Mathlib.NumberTheory.Real.GoldenRatio

/-!
# Topological entropy (C91) and the normalised entropy rate (C52)
-/

set_option linter.unusedSectionVars false

namespace Verif

open Finset Filter Topology

/-- The last element of the sorted moduli is the largest one. -/
theorem sorted_last {ev : List ℂ} (h : ev ≠ []) :
    ∃ m, (eigenvaluesSorted ev).getLast? = some m ∧ (∃ z ∈ ev, ‖z‖ = m) ∧ ∀ z ∈ ev, ‖z‖ ≤ m := by
  have hp := List.perm_insertionSort (· ≤ ·) (ev.map fun z => ‖z‖)
  have hs := List.pairwise_insertionSort (· ≤ ·) (ev.map fun z => ‖z‖)
  change (eigenvaluesSorted ev).Perm _ at hp
  change (eigenvaluesSorted ev).Pairwise _ at hs
  have hne : eigenvaluesSorted ev ≠ [] := by
    intro h0
    have := hp.length_eq
    rw [h0, List.length_map, List.length_nil] at this
    exact h (List.length_eq_zero_iff.1 this.symm)
  refine ⟨(eigenvaluesSorted ev).getLast hne, List.getLast?_eq_getLast_of_ne_nil hne, ?_, ?_⟩
  · have := hp.subset (List.getLast_mem hne)
    obtain ⟨z, hz, he⟩ := List.mem_map.1 this
    exact ⟨z, hz, he⟩
  · intro z hz
    have h1 : ‖z‖ ∈ eigenvaluesSorted ev := hp.symm.subset (List.mem_map_of_mem hz)
    rw [← List.dropLast_append_getLast hne] at hs h1
    rcases List.mem_append.1 h1 with h2 | h2
    · exact (List.pairwise_append.1 hs).2.2 _ h2 _ (List.mem_singleton.2 rfl)
    · exact (List.mem_singleton.1 h2).le

theorem adjacency_map (c : MC ℝ) :
    ((adjacencyMatrix c).map fun k => (k : ℝ)) = edgeMatrix c.p := by
  funext i j
  change ((if c.p i j > 0 then 1 else 0 : ℕ) : ℝ) = edgeMatrix c.p i j
  unfold edgeMatrix
  by_cases h : c.p i j > 0
  · rw [if_pos h, if_pos (show Edge c.p i j from h), Nat.cast_one]
  · rw [if_neg h, if_neg (show ¬ Edge c.p i j from h), Nat.cast_zero]

theorem total_ge {c : MC ℝ} (hc : c.Valid) (t : ℕ) : (c.n : ℝ) ≤ total (edgeMatrix c.p ^ t) := by
  have hs : ∀ i, ∃ j, Edge c.p i j := hc.2.1.exists_edge
  have := Finset.sum_le_sum fun i (_ : i ∈ univ) => rowSum_ge_one hs t i
  rw [Finset.sum_const, Finset.card_univ, Fintype.card_fin, nsmul_eq_mul, mul_one] at this
  exact this

/-- The largest modulus of the eigenvalues of the adjacency matrix and what it means. -/
theorem adjacency_growth {c : MC ℝ} (hc : c.Valid) {ev : List ℂ} (hev : AdjacencyEigvals c ev) :
    ∃ m, (eigenvaluesSorted ev).getLast? = some m ∧ 1 ≤ m ∧
      Tendsto (fun t : ℕ => Real.log (total (edgeMatrix c.p ^ t)) / t) atTop (𝓝 (Real.log m)) := by
  unfold AdjacencyEigvals EigvalsSound at hev
  rw [adjacency_map] at hev
  have h0 : 0 < c.n := by have := hc.1; omega
  have hne : ev ≠ [] := by
    intro h
    have h1 := card_roots (P := edgeMatrix c.p)
    rw [hev, h] at h1
    simp at h1
    omega
  obtain ⟨m, hm, ⟨z, hz, hzm⟩, hle⟩ := sorted_last hne
  refine ⟨m, hm, growth_rate (edgeMatrix_nonneg _) (total_ge hc) h0 ?_ ?_⟩
  · intro z hz
    rw [hev] at hz
    exact hle z hz
  · exact ⟨z, by rw [hev]; exact hz, hzm⟩

/-- C91. The topological entropy is the exponential growth rate of the number of possible paths. It is
between zero and the logarithm of the number of states. -/
theorem C91_topological_entropy {c : MC ℝ} (hc : c.Valid) {ev : List ℂ}
    (hev : AdjacencyEigvals c ev) :
    ∃ h, topologicalEntropy ev = .ok h ∧ 0 ≤ h ∧ h ≤ Real.log c.n ∧
      Tendsto (fun t : ℕ => Real.log (walks c.p t).card / t) atTop (𝓝 h) := by
  obtain ⟨m, hm, h1, ht⟩ := adjacency_growth hc hev
  have h0 : 0 < c.n := by have := hc.1; omega
  have hn : (0 : ℝ) < c.n := by exact_mod_cast h0
  refine ⟨Real.log m, ?_, Real.log_nonneg h1, ?_, ?_⟩
  · unfold topologicalEntropy
    rw [hm]
    rfl
  · have hu : Tendsto (fun t : ℕ => Real.log c.n + Real.log c.n / t) atTop
        (𝓝 (Real.log c.n + 0)) :=
      tendsto_const_nhds.add (tendsto_const_div_atTop_nhds_zero_nat _)
    rw [add_zero] at hu
    refine le_of_tendsto_of_tendsto ht hu ?_
    filter_upwards [eventually_gt_atTop 0] with t ht0
    have htp : (0 : ℝ) < t := by exact_mod_cast ht0
    have h2 : total (edgeMatrix c.p ^ t) ≤ c.n * (c.n : ℝ) ^ t := by
      refine (Finset.sum_le_sum fun i _ => rowSum_le c.p t i).trans ?_
      rw [Finset.sum_const, Finset.card_univ, Fintype.card_fin, nsmul_eq_mul]
    have h3 := Real.log_le_log (lt_of_lt_of_le hn (total_ge hc t)) h2
    rw [Real.log_mul hn.ne' (pow_pos hn t).ne', Real.log_pow] at h3
    rw [div_le_iff₀ htp, add_mul, div_mul_cancel₀ _ htp.ne']
    linarith
  · refine ht.congr fun t => ?_
    exact congrArg (fun y : ℝ => Real.log y / t) (card_walks c.p t).symm

/-- One step of the comparison of entropy rate and topological entropy. -/
theorem gibbs_step {ι : Type*} [Fintype ι] {p : ι → ℝ} (hp : IsDist p) {v : ι → ℝ}
    (hv : ∀ j, 0 < v j) :
    entropy p + ∑ j, p j * Real.log (v j) ≤ Real.log (∑ j, if 0 < p j then v j else 0) := by
  obtain ⟨S, hS⟩ : ∃ S, S = ∑ j, if 0 < p j then v j else 0 := ⟨_, rfl⟩
  have hSp : 0 < S := by
    obtain ⟨j, hj⟩ : ∃ j, 0 < p j := by
      by_contra hcon
      push Not at hcon
      have h0 : ∑ j, p j ≤ 0 := Finset.sum_nonpos fun j _ => hcon j
      have := hp.2
      linarith
    rw [hS]
    refine Finset.sum_pos' (fun j _ => ?_) ⟨j, mem_univ j, ?_⟩
    · split
      · exact (hv j).le
      · exact le_rfl
    · rw [if_pos hj]; exact hv j
  rw [← hS]
  have h1 : ∀ j ∈ univ, Real.negMulLog (p j) + p j * Real.log (v j) - p j * Real.log S ≤
      (if 0 < p j then v j else 0) / S - p j := by
    intro j _
    rcases (hp.1 j).eq_or_lt with h0 | h0
    · rw [← h0]; simp
    · rw [if_pos h0]
      have h2 := Real.log_le_sub_one_of_pos (x := v j / (p j * S)) (by have := hv j; positivity)
      rw [Real.log_div (hv j).ne' (by positivity), Real.log_mul h0.ne' hSp.ne'] at h2
      have h3 := mul_le_mul_of_nonneg_left h2 h0.le
      have h4 : p j * (v j / (p j * S) - 1) = v j / S - p j := by field_simp
      rw [h4] at h3
      unfold Real.negMulLog
      linarith
  have h5 := Finset.sum_le_sum h1
  rw [Finset.sum_sub_distrib, Finset.sum_add_distrib, ← Finset.sum_mul, hp.2, one_mul,
    Finset.sum_sub_distrib, hp.2, ← Finset.sum_div, ← hS, div_self hSp.ne'] at h5
  unfold entropy
  linarith

/-- The entropy rate is at most the topological entropy. -/
theorem rate_le {c : MC ℝ} (hc : c.Valid) {x : Fin c.n → ℝ} (hx : IsStationary c.p x) {L : ℝ}
    (hL : Tendsto (fun t : ℕ => Real.log (total (edgeMatrix c.p ^ t)) / t) atTop (𝓝 L)) :
    rate c x ≤ L := by
  have hrow : ∀ i, IsDist (c.p i) := fun i => ⟨hc.2.1.1 i, hc.2.1.2 i⟩
  have hs : ∀ i, ∃ j, Edge c.p i j := hc.2.1.exists_edge
  obtain ⟨v, hv⟩ : ∃ v : ℕ → Fin c.n → ℝ, v = fun t i => ∑ j, (edgeMatrix c.p ^ t) i j := ⟨_, rfl⟩
  have hv1 : ∀ t i, 1 ≤ v t i := fun t i => by rw [hv]; exact rowSum_ge_one hs t i
  have hstep : ∀ t, rate c x + ∑ i, x i * Real.log (v t i) ≤ ∑ i, x i * Real.log (v (t + 1) i) := by
    intro t
    have h1 : ∀ i ∈ univ, x i * (entropy (c.p i) + ∑ j, c.p i j * Real.log (v t j)) ≤
        x i * Real.log (v (t + 1) i) := by
      intro i _
      refine mul_le_mul_of_nonneg_left ?_ (hx.1.1 i)
      refine (gibbs_step (hrow i) fun j => lt_of_lt_of_le one_pos (hv1 t j)).trans (le_of_eq ?_)
      congr 1
      rw [hv]
      refine Eq.trans ?_ (rowSum_succ (edgeMatrix c.p) t i).symm
      refine Finset.sum_congr rfl fun j _ => ?_
      unfold edgeMatrix
      by_cases he : 0 < c.p i j
      · rw [if_pos he, if_pos (show Edge c.p i j from he), one_mul]
      · rw [if_neg he, if_neg (show ¬ Edge c.p i j from he), zero_mul]
    have h2 := Finset.sum_le_sum h1
    simp only [mul_add, Finset.sum_add_distrib] at h2
    have h3 : ∑ i, x i * ∑ j, c.p i j * Real.log (v t j) = ∑ i, x i * Real.log (v t i) := by
      simp only [Finset.mul_sum]
      rw [Finset.sum_comm]
      refine Finset.sum_congr rfl fun j _ => ?_
      rw [← hx.2 j, Finset.sum_mul]
      exact Finset.sum_congr rfl fun i _ => by ring
    rw [h3] at h2
    exact h2
  have hT : ∀ t : ℕ, t * rate c x ≤ ∑ i, x i * Real.log (v t i) := by
    intro t
    induction t with
    | zero =>
      have : ∀ i, v 0 i = 1 := fun i => by
        rw [hv]
        change ∑ j, (edgeMatrix c.p ^ 0) i j = 1
        rw [pow_zero]
        simp [Matrix.one_apply]
      simp [this]
    | succ t ih =>
      have := hstep t
      push_cast
      linarith
  refine ge_of_tendsto hL ?_
  filter_upwards [eventually_gt_atTop 0] with t ht0
  have htp : (0 : ℝ) < t := by exact_mod_cast ht0
  rw [le_div_iff₀ htp, mul_comm]
  refine (hT t).trans ?_
  have h1 : ∀ i ∈ univ, x i * Real.log (v t i) ≤
      x i * Real.log (total (edgeMatrix c.p ^ t)) := by
    intro i _
    refine mul_le_mul_of_nonneg_left (Real.log_le_log (lt_of_lt_of_le one_pos (hv1 t i)) ?_)
      (hx.1.1 i)
    rw [hv]
    exact Finset.single_le_sum (f := fun i => ∑ j, (edgeMatrix c.p ^ t) i j)
      (fun i _ => zero_le_one.trans (rowSum_ge_one hs t i)) (mem_univ i)
  refine (Finset.sum_le_sum h1).trans ?_
  rw [← Finset.sum_mul, hx.1.2, one_mul]

/-- The topological entropy is an upper bound of the entropy rate of every stationary distribution. -/
theorem C91_exceeds_rate {c : MC ℝ} (hc : c.Valid) {ev : List ℂ} (hev : AdjacencyEigvals c ev) :
    ∃ h, topologicalEntropy ev = .ok h ∧ ∀ x, IsStationary c.p x → rate c x ≤ h := by
  obtain ⟨m, hm, h1, ht⟩ := adjacency_growth hc hev
  refine ⟨Real.log m, ?_, fun x hx => rate_le hc hx ht⟩
  unfold topologicalEntropy
  rw [hm]
  rfl

/-- The normalised entropy rate is the quotient of the entropy rate and the topological entropy, which
is between zero and one, if the entropy rate exceeds `1e-8`, and zero otherwise. The truncation to the
interval has no effect. -/
theorem C52_normalized {c : MC ℝ} (hc : c.Valid) {sccs : List (List (Fin c.n))}
    (h : IsClasses c.p sccs) {x : Fin c.n → ℝ} (hx : IsStationary c.p x)
    (huniq : ∀ y, IsStationary c.p y → y = x) {ev : List ℂ} (hev : AdjacencyEigvals c ev) :
    ∃ r e, entropyRateNormalized c sccs ev = .ok (some r) ∧ topologicalEntropy ev = .ok e ∧
      0 ≤ r ∧ r ≤ 1 ∧
      r = if rate c x ≤ 1 / 10 ^ 8 then 0 else rate c x / e := by
  obtain ⟨m, hm, h1, ht⟩ := adjacency_growth hc hev
  have hle := rate_le hc hx ht
  have hr0 := (rate_bounds hc hx.1).1
  have he : topologicalEntropy ev = .ok (Real.log m) := by
    unfold topologicalEntropy
    rw [hm]
    rfl
  unfold entropyRateNormalized
  rw [entropyRate_run hc h hx huniq]
  change ∃ r e, normalizeRate _ ev = _ ∧ _
  unfold normalizeRate
  have hic : ∀ v : ℝ, isclose v 0 = true ↔ |v| ≤ 1 / 10 ^ 8 := fun v => by
    unfold isclose
    rw [decide_eq_true_eq, sub_zero, abs_zero, mul_zero, add_zero]
  by_cases h8 : rate c x ≤ 1 / 10 ^ 8
  · rw [if_pos h8, if_pos ((hic _).2 (by rw [abs_neg, abs_of_nonneg hr0]; exact h8))]
    exact ⟨0, _, rfl, he, le_rfl, zero_le_one, by rw [if_pos h8]⟩
  · rw [if_neg h8, if_neg (fun h9 => h8 (by
      have := (hic _).1 h9
      rwa [abs_of_nonneg hr0] at this)), hm]
    have hpos : 0 < rate c x := lt_trans (by norm_num) (not_le.1 h8)
    have hlog : 0 < Real.log m := lt_of_lt_of_le hpos hle
    have hq0 : 0 ≤ rate c x / Real.log m := div_nonneg hr0 hlog.le
    have hq1 : rate c x / Real.log m ≤ 1 := (div_le_one hlog).2 hle
    refine ⟨rate c x / Real.log m, _, ?_, he, hq0, hq1, by rw [if_neg h8]⟩
    change Except.ok (some (min 1 (max 0 (rate c x / Real.log m)))) = _
    rw [max_eq_right hq0, min_eq_right hq1]

/-! ## The golden mean chain -/

/-- A chain that never stays in its second state. -/
noncomputable def goldenP : Matrix (Fin 2) (Fin 2) ℝ := !![1 / 2, 1 / 2; 1, 0]

/-- The chain of the matrix. -/
noncomputable def exGolden : MC ℝ := ⟨2, goldenP, ["a", "b"]⟩

theorem exGolden_valid : exGolden.Valid := by
  refine ⟨by decide, ?_, by decide, by decide⟩
  constructor
  · intro i j
    change 0 ≤ goldenP i j
    revert i j
    intro (i : Fin 2) (j : Fin 2)
    fin_cases i <;> fin_cases j <;> simp [goldenP]
  · intro i
    change ∑ j : Fin 2, goldenP i j = 1
    revert i
    intro (i : Fin 2)
    rw [Fin.sum_univ_two]
    fin_cases i <;> norm_num [goldenP]

theorem exGolden_eigvals :
    AdjacencyEigvals exGolden [(Real.goldenRatio : ℂ), (Real.goldenConj : ℂ)] := by
  obtain ⟨A, hA⟩ : ∃ A : Matrix (Fin 2) (Fin 2) ℝ, A = !![1, 1; 1, 0] := ⟨_, rfl⟩
  have hadj : ((adjacencyMatrix exGolden).map fun k => (k : ℝ)) = A := by
    rw [hA]
    have key : ∀ i j : Fin 2, ((if goldenP i j > 0 then 1 else 0 : ℕ) : ℝ) =
        (!![1, 1; 1, 0] : Matrix (Fin 2) (Fin 2) ℝ) i j := by
      intro i j
      fin_cases i <;> fin_cases j <;> simp [goldenP]
    funext i j
    exact key i j
  unfold AdjacencyEigvals
  rw [hadj]
  change (A.map (algebraMap ℝ ℂ)).charpoly.roots = _
  have hs : ((Real.goldenRatio : ℂ)) + (Real.goldenConj : ℂ) = 1 := by
    rw [← Complex.ofReal_add, Real.goldenRatio_add_goldenConj, Complex.ofReal_one]
  have hm : ((Real.goldenRatio : ℂ)) * (Real.goldenConj : ℂ) = -1 := by
    rw [← Complex.ofReal_mul, Real.goldenRatio_mul_goldenConj, Complex.ofReal_neg,
      Complex.ofReal_one]
  have h1 : (A.map (algebraMap ℝ ℂ)).charpoly
      = (Polynomial.X - Polynomial.C (Real.goldenRatio : ℂ)) *
        (Polynomial.X - Polynomial.C (Real.goldenConj : ℂ)) := by
    rw [Matrix.charpoly_fin_two, Matrix.trace_fin_two, Matrix.det_fin_two]
    have e1 : ∀ i j, (A.map (algebraMap ℝ ℂ)) i j = ((A i j : ℝ) : ℂ) := fun i j => rfl
    rw [e1, e1, e1, e1, hA]
    have f1 : ((!![1, 1; 1, 0] : Matrix (Fin 2) (Fin 2) ℝ) 0 0) = 1 := rfl
    have f2 : ((!![1, 1; 1, 0] : Matrix (Fin 2) (Fin 2) ℝ) 0 1) = 1 := rfl
    have f3 : ((!![1, 1; 1, 0] : Matrix (Fin 2) (Fin 2) ℝ) 1 0) = 1 := rfl
    have f4 : ((!![1, 1; 1, 0] : Matrix (Fin 2) (Fin 2) ℝ) 1 1) = 0 := rfl
    rw [f1, f2, f3, f4]
    have h2 : (Polynomial.X - Polynomial.C (Real.goldenRatio : ℂ)) *
        (Polynomial.X - Polynomial.C (Real.goldenConj : ℂ)) = Polynomial.X ^ 2
        - Polynomial.C ((Real.goldenRatio : ℂ) + (Real.goldenConj : ℂ)) * Polynomial.X
        + Polynomial.C ((Real.goldenRatio : ℂ) * (Real.goldenConj : ℂ)) := by
      simp only [map_add, map_mul]
      ring
    rw [h2, hs, hm]
    simp
  rw [h1, Polynomial.roots_mul, Polynomial.roots_X_sub_C, Polynomial.roots_X_sub_C]
  · rfl
  · exact mul_ne_zero (Polynomial.X_sub_C_ne_zero _) (Polynomial.X_sub_C_ne_zero _)

/-- The topological entropy of the example is the logarithm of the golden ratio: the number of paths
grows like the Fibonacci numbers. -/
theorem C91_golden_mean : topologicalEntropy [(Real.goldenRatio : ℂ), (Real.goldenConj : ℂ)]
      = .ok (Real.log Real.goldenRatio) ∧
    Tendsto (fun t : ℕ => Real.log (walks exGolden.p t).card / t) atTop
      (𝓝 (Real.log Real.goldenRatio)) := by
  have hlt : ‖(Real.goldenConj : ℂ)‖ ≤ ‖(Real.goldenRatio : ℂ)‖ := by
    rw [Complex.norm_real, Complex.norm_real, Real.norm_of_nonneg Real.goldenRatio_pos.le,
      Real.norm_of_nonpos Real.goldenConj_neg.le]
    have h1 := Real.neg_one_lt_goldenConj
    have h2 := Real.one_lt_goldenRatio
    linarith
  have h1 : topologicalEntropy [(Real.goldenRatio : ℂ), (Real.goldenConj : ℂ)]
      = .ok (Real.log Real.goldenRatio) := by
    obtain ⟨m, hm, ⟨z, hz, hzm⟩, hle⟩ :=
      sorted_last (ev := [(Real.goldenRatio : ℂ), (Real.goldenConj : ℂ)]) (by simp)
    have h2 : m = Real.goldenRatio := by
      have h3 := hle (Real.goldenRatio : ℂ) (by simp)
      have h4 : m ≤ ‖(Real.goldenRatio : ℂ)‖ := by
        rw [← hzm]
        rcases List.mem_cons.1 hz with rfl | hz
        · exact le_rfl
        · rw [List.mem_singleton.1 hz]
          exact hlt
      rw [le_antisymm h4 h3, Complex.norm_real, Real.norm_of_nonneg Real.goldenRatio_pos.le]
    unfold topologicalEntropy
    rw [hm, h2]
    rfl
  refine ⟨h1, ?_⟩
  obtain ⟨h, h2, -, -, h3⟩ := C91_topological_entropy exGolden_valid exGolden_eigvals
  rw [h1] at h2
  injection h2 with h2
  rw [h2]
  exact h3

end Verif
