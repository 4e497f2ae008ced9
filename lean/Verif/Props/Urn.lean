import Verif.Lemmas.Generators
import Verif.Lemmas.Chain
import Mathlib.Data.Nat.Choose.Vandermonde
import Mathlib.Data.Nat.Choose.Sum
import Mathlib.Tactic.NormNum

/-!
# Properties C08-C10: urn and population genetics models
-/

set_option linter.unusedSectionVars false
set_option linter.unusedSimpArgs false

namespace Verif

variable {K : Type} [Field K] [LinearOrder K] [IsStrictOrderedRing K]

/-! ## C08 -/

/-- Detailed balance with a distribution makes it stationary. -/
theorem stationary_of_balance {n : ℕ} {P : Matrix (Fin n) (Fin n) K} {d : Fin n → K}
    (hP : IsStochastic P) (hd : IsDist d) (h : DetailedBalance P d) : IsStationary P d := by
  refine ⟨hd, fun j => ?_⟩
  rw [Finset.sum_congr rfl fun i _ => h i j, ← Finset.mul_sum, hP.2 j, mul_one]

theorem ehrenfest_eq {n : ℕ} (hn : 1 ≤ n) (i j : Fin (2 * n + 1)) :
    ehrenfestMatrix n i j = if (j : ℕ) = i + 1 then 1 - (i : ℕ) / ((2 * n : ℕ) : K)
      else if (j : ℕ) + 1 = i then (i : ℕ) / ((2 * n : ℕ) : K) else 0 := by
  have hn0 : ((2 * n : ℕ) : K) ≠ 0 := by
    have : 2 * n ≠ 0 := by omega
    exact_mod_cast this
  unfold ehrenfestMatrix
  simp only
  by_cases h0 : (i : ℕ) = 0
  · simp [h0]
  by_cases h1 : (i : ℕ) = 2 * n
  · have e1 : ¬ (2 * n = 0) := by omega
    have e2 : ((j : ℕ) = 2 * n - 1) ↔ ((j : ℕ) + 1 = 2 * n) := by omega
    have e3 : ¬ ((j : ℕ) = 2 * n + 1) := by have := j.isLt; omega
    simp only [h1, e1, e2, e3, if_true, if_false]
    rw [div_self hn0]
  · have e2 : ((j : ℕ) = i - 1) ↔ ((j : ℕ) + 1 = i) := by omega
    simp only [h0, h1, e2, if_false]

theorem bernoulliLaplace_eq {n : ℕ} (hn : 1 ≤ n) (i j : Fin (2 * n + 1)) :
    bernoulliLaplaceMatrix n i j = if (j : ℕ) = i + 1 then (1 - (i : ℕ) / ((2 * n : ℕ) : K)) ^ 2
      else if (j : ℕ) = i then 2 * ((i : ℕ) / ((2 * n : ℕ) : K)) * (1 - (i : ℕ) / ((2 * n : ℕ) : K))
      else if (j : ℕ) + 1 = i then ((i : ℕ) / ((2 * n : ℕ) : K)) ^ 2 else 0 := by
  have hn0 : ((2 * n : ℕ) : K) ≠ 0 := by
    have : 2 * n ≠ 0 := by omega
    exact_mod_cast this
  unfold bernoulliLaplaceMatrix
  simp only
  by_cases h0 : (i : ℕ) = 0
  · simp [h0]
  by_cases h1 : (i : ℕ) = 2 * n
  · have e1 : ¬ (2 * n = 0) := by omega
    have e2 : ((j : ℕ) = 2 * n - 1) ↔ ((j : ℕ) + 1 = 2 * n) := by omega
    have e3 : ¬ ((j : ℕ) = 2 * n + 1) := by have := j.isLt; omega
    simp only [h1, e1, e2, e3, if_true, if_false]
    rw [div_self hn0]
    by_cases e4 : (j : ℕ) = 2 * n
    · have e5 : ¬ ((j : ℕ) + 1 = 2 * n) := by omega
      simp only [e4, e5, if_true, if_false]
      simp
    · simp only [e4, if_false, one_pow]
  · have e2 : ((j : ℕ) = i - 1) ↔ ((j : ℕ) + 1 = i) := by omega
    simp only [h0, h1, e2, if_false]

/-- Fraction of balls, between zero and one. -/
theorem urn_frac {n : ℕ} (hn : 1 ≤ n) (i : Fin (2 * n + 1)) :
    0 ≤ ((i : ℕ) : K) / ((2 * n : ℕ) : K) ∧ ((i : ℕ) : K) / ((2 * n : ℕ) : K) ≤ 1 := by
  refine ⟨by positivity, ?_⟩
  have : (0 : K) < ((2 * n : ℕ) : K) := by
    have : 0 < 2 * n := by omega
    exact_mod_cast this
  rw [div_le_one this]
  have := i.isLt
  exact_mod_cast (by omega : (i : ℕ) ≤ 2 * n)

theorem ehrenfest_stochastic {n : ℕ} (hn : 1 ≤ n) :
    IsStochastic (ehrenfestMatrix n : Matrix _ _ K) := by
  constructor
  · intro i j
    have := urn_frac (K := K) hn i
    rw [ehrenfest_eq hn]
    split_ifs <;> linarith
  · intro i
    unfold ehrenfestMatrix
    simp only
    by_cases hi : (i : ℕ) = 0
    · simp only [hi, if_true]; exact sum_single (by omega) _
    by_cases hi' : (i : ℕ) = 2 * n
    · have e : ¬ (2 * n = 0) := by omega
      simp only [hi', e, if_true, if_false]; exact sum_single (by omega) _
    · simp only [hi, hi', if_false]
      rw [sum_two (by omega) (by omega) (by omega)]
      ring

theorem bernoulliLaplace_stochastic {n : ℕ} (hn : 1 ≤ n) :
    IsStochastic (bernoulliLaplaceMatrix n : Matrix _ _ K) := by
  constructor
  · intro i j
    have h := urn_frac (K := K) hn i
    have h' : 0 ≤ 1 - ((i : ℕ) : K) / ((2 * n : ℕ) : K) := by linarith
    rw [bernoulliLaplace_eq hn]
    split_ifs
    · positivity
    · exact mul_nonneg (mul_nonneg zero_le_two h.1) h'
    · exact pow_nonneg h.1 _
    · exact le_rfl
  · intro i
    unfold bernoulliLaplaceMatrix
    simp only
    by_cases hi : (i : ℕ) = 0
    · simp only [hi, if_true]; exact sum_single (by omega) _
    by_cases hi' : (i : ℕ) = 2 * n
    · have e : ¬ (2 * n = 0) := by omega
      simp only [hi', e, if_true, if_false]; exact sum_single (by omega) _
    · simp only [hi, hi', if_false]
      rw [sum_three (by omega) (by omega) (by omega) (by omega) (by omega) (by omega)]
      ring

/-- `C(2n,i) (1 - i/2n) = C(2n,i+1) (i+1)/2n`. -/
theorem choose_step {n i : ℕ} (hn : 1 ≤ n) (hi : i ≤ 2 * n) :
    ((2 * n).choose i : K) * (1 - (i : K) / ((2 * n : ℕ) : K)) =
      ((2 * n).choose (i + 1) : K) * (((i + 1 : ℕ) : K) / ((2 * n : ℕ) : K)) := by
  have hn0 : ((2 * n : ℕ) : K) ≠ 0 := by
    have : 2 * n ≠ 0 := by omega
    exact_mod_cast this
  have h := Nat.choose_succ_right_eq (2 * n) i
  have h' : ((2 * n).choose (i + 1) : K) * ((i + 1 : ℕ) : K) =
      ((2 * n).choose i : K) * (((2 * n : ℕ) : K) - (i : K)) := by
    rw [← Nat.cast_sub hi]
    exact_mod_cast h
  rw [← mul_div_assoc, h', mul_div_assoc, sub_div, div_self hn0]

/-- A birth-death matrix balances weights as soon as neighbouring states do. -/
theorem balance_of_neighbours {n : ℕ} {P : Matrix (Fin n) (Fin n) K} {d : Fin n → K}
    (hP : ∀ i j : Fin n, (j : ℕ) ≠ i + 1 → (j : ℕ) ≠ i → (j : ℕ) + 1 ≠ i → P i j = 0)
    (h : ∀ i j : Fin n, (j : ℕ) = i + 1 → d i * P i j = d j * P j i) : DetailedBalance P d := by
  intro i j
  by_cases h1 : (j : ℕ) = i + 1
  · exact h i j h1
  by_cases h2 : (j : ℕ) = i
  · have : j = i := Fin.ext h2
    rw [this]
  by_cases h3 : (j : ℕ) + 1 = i
  · exact (h j i h3.symm).symm
  · rw [hP i j h1 h2 h3, hP j i (by omega) (by omega) (by omega)]; ring

/-- Binomial(2n, 1/2) probabilities. -/
def ehrenfestLaw (n : ℕ) (i : Fin (2 * n + 1)) : K := ((2 * n).choose i : K) / 2 ^ (2 * n)

/-- Squared binomial probabilities. -/
def bernoulliLaplaceLaw (n : ℕ) (i : Fin (2 * n + 1)) : K :=
  ((2 * n).choose i : K) ^ 2 / ((2 * (2 * n)).choose (2 * n) : K)

theorem ehrenfestLaw_dist (n : ℕ) : IsDist (ehrenfestLaw n : _ → K) := by
  refine ⟨fun i => by unfold ehrenfestLaw; positivity, ?_⟩
  unfold ehrenfestLaw
  rw [← Finset.sum_div, Fin.sum_univ_eq_sum_range (fun i => ((2 * n).choose i : K)),
    ← Nat.cast_sum, Nat.sum_range_choose]
  push_cast
  exact div_self (by positivity)

theorem bernoulliLaplaceLaw_dist (n : ℕ) : IsDist (bernoulliLaplaceLaw n : _ → K) := by
  refine ⟨fun i => by unfold bernoulliLaplaceLaw; positivity, ?_⟩
  unfold bernoulliLaplaceLaw
  rw [← Finset.sum_div, Fin.sum_univ_eq_sum_range (fun i => ((2 * n).choose i : K) ^ 2)]
  have h := Nat.sum_range_choose_sq (2 * n)
  have h' : ∑ i ∈ Finset.range (2 * n + 1), ((2 * n).choose i : K) ^ 2 =
      ((2 * (2 * n)).choose (2 * n) : K) := by
    rw [← h]; push_cast; rfl
  rw [h']
  have : 0 < (2 * (2 * n)).choose (2 * n) := Nat.choose_pos (by omega)
  exact div_self (by exact_mod_cast this.ne')

theorem ehrenfest_balance {n : ℕ} (hn : 1 ≤ n) :
    DetailedBalance (ehrenfestMatrix n : Matrix _ _ K) (ehrenfestLaw n) := by
  apply balance_of_neighbours
  · intro i j h1 h2 h3
    rw [ehrenfest_eq hn, if_neg h1, if_neg h3]
  · intro i j h
    rw [ehrenfest_eq hn, ehrenfest_eq hn, if_pos h, if_neg (by omega), if_pos (by omega)]
    unfold ehrenfestLaw
    rw [h, div_mul_eq_mul_div, div_mul_eq_mul_div, choose_step hn (by omega)]

theorem bernoulliLaplace_balance {n : ℕ} (hn : 1 ≤ n) :
    DetailedBalance (bernoulliLaplaceMatrix n : Matrix _ _ K) (bernoulliLaplaceLaw n) := by
  apply balance_of_neighbours
  · intro i j h1 h2 h3
    rw [bernoulliLaplace_eq hn, if_neg h1, if_neg h2, if_neg h3]
  · intro i j h
    rw [bernoulliLaplace_eq hn, bernoulliLaplace_eq hn, if_pos h, if_neg (by omega),
      if_neg (by omega), if_pos (by omega)]
    unfold bernoulliLaplaceLaw
    rw [h, div_mul_eq_mul_div, div_mul_eq_mul_div, ← mul_pow, choose_step hn (by omega), mul_pow]

/-- C08. `urn_model` returns a valid birth-death chain on `2n + 1` states with the transition
probabilities of the model (Ehrenfest: one of the `2n` balls moves; Bernoulli-Laplace: one ball of
each urn is exchanged), in detailed balance
with (and stationary for) the binomial law for the Ehrenfest model and the squared binomial law for
the Bernoulli-Laplace model. -/
theorem C08_urn_models {model n states : PyVal K} {c : MC K} (h : urnModel model n states = .ok c) :
    ∃ k : ℕ, 1 ≤ k ∧ n = .int k ∧ ∃ hc : c.n = 2 * k + 1, c.Valid ∧
      (∀ i j : Fin c.n, (j : ℕ) ≠ i + 1 → (j : ℕ) ≠ i → (j : ℕ) + 1 ≠ i → c.p i j = 0) ∧
      (model = .str "ehrenfest" →
        (∀ i j : Fin c.n, ((j : ℕ) = i + 1 → c.p i j = 1 - (i : ℕ) / ((2 * k : ℕ) : K)) ∧
          ((j : ℕ) + 1 = i → c.p i j = (i : ℕ) / ((2 * k : ℕ) : K))) ∧
        DetailedBalance c.p (fun i => ehrenfestLaw k (i.cast hc)) ∧
        IsStationary c.p (fun i => ehrenfestLaw k (i.cast hc))) ∧
      (model = .str "bernoulli-laplace" →
        (∀ i j : Fin c.n, ((j : ℕ) = i + 1 → c.p i j = (1 - (i : ℕ) / ((2 * k : ℕ) : K)) ^ 2) ∧
          ((j : ℕ) + 1 = i → c.p i j = ((i : ℕ) / ((2 * k : ℕ) : K)) ^ 2)) ∧
        DetailedBalance c.p (fun i => bernoulliLaplaceLaw k (i.cast hc)) ∧
        IsStationary c.p (fun i => bernoulliLaplaceLaw k (i.cast hc))) := by
  unfold urnModel at h
  rw [R.bind_ok] at h
  obtain ⟨mo, h1, h⟩ := h
  rw [R.bind_ok] at h
  obtain ⟨z, h2, h⟩ := h
  rw [R.bind_ok] at h
  obtain ⟨l, h3, h⟩ := h
  rw [R.pure_ok] at h
  subst h
  obtain ⟨rfl, hz⟩ := validateInteger_ge h2
  have hk : 1 ≤ z.toNat := by omega
  have hmo : model = .str mo ∧ (mo = "bernoulli-laplace" ∨ mo = "ehrenfest") := by
    rw [validateEnumerator_ok] at h1
    exact ⟨h1.1, by simpa using h1.2.2⟩
  obtain ⟨rfl, hmo⟩ := hmo
  refine ⟨z.toNat, hk, by simp only [PyVal.int.injEq]; omega, rfl, ?_⟩
  have hl := labelsOrDefault_sound h3
  rcases hmo with rfl | rfl
  · have hs := bernoulliLaplace_stochastic (K := K) hk
    have hb := bernoulliLaplace_balance (K := K) hk
    simp only [if_true]
    refine ⟨⟨by simp only; omega, hs, hl⟩, ?_, ?_, ?_⟩
    · intro i j h1 h2 h3
      rw [bernoulliLaplace_eq hk, if_neg h1, if_neg h2, if_neg h3]
    · intro h; simp at h
    · intro _
      refine ⟨fun i j => ⟨fun e => ?_, fun e => ?_⟩, hb,
        stationary_of_balance hs (bernoulliLaplaceLaw_dist _) hb⟩
      · rw [bernoulliLaplace_eq hk, if_pos e]
      · rw [bernoulliLaplace_eq hk, if_neg (by omega), if_neg (by omega), if_pos e]
  · have hs := ehrenfest_stochastic (K := K) hk
    have hb := ehrenfest_balance (K := K) hk
    have hne : ¬ ("ehrenfest" = "bernoulli-laplace") := by decide
    simp only [if_neg hne]
    refine ⟨⟨by simp only; omega, hs, hl⟩, ?_, ?_, ?_⟩
    · intro i j h1 h2 h3
      rw [ehrenfest_eq hk, if_neg h1, if_neg h3]
    · intro _
      refine ⟨fun i j => ⟨fun e => ?_, fun e => ?_⟩, hb,
        stationary_of_balance hs (ehrenfestLaw_dist _) hb⟩
      · rw [ehrenfest_eq hk, if_pos e]
      · rw [ehrenfest_eq hk, if_neg (by omega), if_pos e]
    · intro h; simp at h

/-- Both models are accepted for every positive number of elements. -/
theorem C08_accepts {k : ℕ} (hk : 1 ≤ k) :
    (∃ c, urnModel (.str "ehrenfest" : PyVal K) (.int k) .none = .ok c) ∧
    ∃ c, urnModel (.str "bernoulli-laplace" : PyVal K) (.int k) .none = .ok c := by
  have h1 : validateEnumerator (.str "ehrenfest" : PyVal K) ["bernoulli-laplace", "ehrenfest"] =
      .ok "ehrenfest" := by
    rw [validateEnumerator_ok]
    exact ⟨rfl, by decide, by decide⟩
  have h2 : validateEnumerator (.str "bernoulli-laplace" : PyVal K)
      ["bernoulli-laplace", "ehrenfest"] = .ok "bernoulli-laplace" := by
    rw [validateEnumerator_ok]
    exact ⟨rfl, by decide, by decide⟩
  have h3 := validateInteger_of_ge (K := K) (b := 1) (z := k) (by omega)
  constructor
  · unfold urnModel; rw [h1]
    exact ⟨_, by
      rw [R.ok_bind, h3]; rfl⟩
  · unfold urnModel; rw [h2]
    exact ⟨_, by
      rw [R.ok_bind, h3]; rfl⟩

/-! ## C09 -/

theorem moran_bounds {n i : ℕ} (h1 : 1 ≤ i) (h2 : i < n) {s u v : K} (hs : s ≤ 1)
    (hu0 : 0 ≤ u) (hu1 : u ≤ 1) (hv0 : 0 ≤ v) (hv1 : v ≤ 1) :
    0 ≤ moranDown n i s v ∧ 0 ≤ moranUp n i s u v ∧ moranDown n i s v + moranUp n i s u v ≤ 1 := by
  have hi : (1 : K) ≤ i := by exact_mod_cast h1
  have hin : (i : K) < n := by exact_mod_cast h2
  have hn : (0 : K) < n := by linarith
  have hr : 0 ≤ (1 - s) * (i : K) := mul_nonneg (by linarith) (by linarith)
  have hm : 0 < (n : K) - i := by linarith
  have hd : 0 < (1 - s) * (i : K) + ((n : K) - i) := by linarith
  unfold moranDown moranUp
  simp only
  set ri := (1 - s) * (i : K)
  set nmi := (n : K) - i
  have a1 : 0 ≤ (ri * v + nmi * (1 - v)) / (ri + nmi) :=
    div_nonneg (add_nonneg (mul_nonneg hr hv0) (mul_nonneg hm.le (by linarith))) hd.le
  have a2 : (ri * v + nmi * (1 - v)) / (ri + nmi) ≤ 1 := by
    rw [div_le_one hd]
    nlinarith [mul_nonneg hr (sub_nonneg.2 hv1), mul_nonneg hm.le hv0]
  have b1 : 0 ≤ (ri * (1 - u) + nmi * v) / (ri + nmi) :=
    div_nonneg (add_nonneg (mul_nonneg hr (by linarith)) (mul_nonneg hm.le hv0)) hd.le
  have b2 : (ri * (1 - u) + nmi * v) / (ri + nmi) ≤ 1 := by
    rw [div_le_one hd]
    nlinarith [mul_nonneg hr hu0, mul_nonneg hm.le (sub_nonneg.2 hv1)]
  have c1 : 0 ≤ (i : K) / n := div_nonneg (by linarith) hn.le
  have c2 : 0 ≤ nmi / n := div_nonneg hm.le hn.le
  have c3 : (i : K) / n + nmi / n = 1 := by
    rw [← add_div, add_sub_cancel, div_self hn.ne']
  refine ⟨mul_nonneg c1 a1, mul_nonneg c2 b1, ?_⟩
  calc _ ≤ (i : K) / n * 1 + nmi / n * 1 :=
        add_le_add (mul_le_mul_of_nonneg_left a2 c1) (mul_le_mul_of_nonneg_left b2 c2)
    _ = 1 := by rw [mul_one, mul_one, c3]

theorem moranRaw_sum {n : ℕ} (hn : 1 ≤ n) (s u v : K) (i : Fin (n + 1)) :
    ∑ j, moranRaw n s u v i j = 1 := by
  unfold moranRaw
  by_cases hi : (i : ℕ) = 0
  · simp only [hi, if_true]; exact sum_single (by omega) _
  by_cases hi' : (i : ℕ) = n
  · have e : ¬ (n = 0) := by omega
    simp only [hi', e, if_true, if_false]; exact sum_single (by omega) _
  · simp only [hi, hi', if_false]
    rw [sum_three (by omega) (by omega) (by omega) (by omega) (by omega) (by omega)]
    ring

theorem moranRaw_stochastic {n : ℕ} (hn : 1 ≤ n) {s u v : K} (hs : s ≤ 1)
    (hu0 : 0 ≤ u) (hu1 : u ≤ 1) (hv0 : 0 ≤ v) (hv1 : v ≤ 1) : IsStochastic (moranRaw n s u v) := by
  refine ⟨fun i j => ?_, moranRaw_sum hn s u v⟩
  unfold moranRaw
  by_cases hi : (i : ℕ) = 0
  · simp only [hi, if_true]; split_ifs <;> simp
  by_cases hi' : (i : ℕ) = n
  · rw [if_neg hi, if_pos hi']; split_ifs <;> simp
  · have := i.isLt
    obtain ⟨h1, h2, h3⟩ := moran_bounds (n := n) (i := i) (by omega) (by omega) hs hu0 hu1 hv0 hv1
    simp only [hi, hi', if_false]
    split_ifs <;> linarith

/-- C09 for selection intensities up to one: a valid tri-diagonal chain with absorbing ends whose
inner rows have the rates of the Moran model. With `i` individuals of the first type of fitness
`1 - s`, an individual of the second type is replaced by an offspring of the first type, which does
not mutate (rate `u`) or comes from the second type by mutation (rate `v`). The rate downwards uses
`v` also for the mutation from the first type, see `C09_mutation_rates_disagree`. (The
code accepts every `s ≥ -1`; see `C09_negative_probabilities` for `s > 1`.) -/
theorem C09_moran_partial {n s u v states : PyVal K} {c : MC K}
    (h : populationGenetics (.str "moran") n s u v states = .ok c)
    (hs : ∀ x, s = .float (.fin x) → x ≤ 1) :
    c.Valid ∧ n = .int ((c.n : ℤ) - 1) ∧
      (∃ s' u' v' : K, s = .float (.fin s') ∧ u = .float (.fin u') ∧ v = .float (.fin v') ∧
        ∀ N : ℕ, n = .int N → ∀ i j : Fin c.n, 0 < (i : ℕ) → (i : ℕ) < N →
          ((j : ℕ) = i + 1 → c.p i j * (N * ((1 - s') * i + (N - i))) =
            (N - i) * ((1 - s') * i * (1 - u') + (N - i) * v')) ∧
          ((j : ℕ) + 1 = i → c.p i j * (N * ((1 - s') * i + (N - i))) =
            i * ((1 - s') * i * v' + (N - i) * (1 - v')))) ∧
      (∀ i j : Fin c.n, (j : ℕ) ≠ i + 1 → (j : ℕ) ≠ i → (j : ℕ) + 1 ≠ i → c.p i j = 0) ∧
      (∀ i : Fin c.n, ((i : ℕ) = 0 ∨ (i : ℕ) = c.n - 1) → AbsorbingState c.p i) := by
  unfold populationGenetics at h
  rw [R.bind_ok] at h
  obtain ⟨mo, h0, h⟩ := h
  rw [R.bind_ok] at h
  obtain ⟨z, h1, h⟩ := h
  rw [R.bind_ok] at h
  obtain ⟨s', h2, h⟩ := h
  rw [R.bind_ok] at h
  obtain ⟨u', h3, h⟩ := h
  rw [R.bind_ok] at h
  obtain ⟨v', h4, h⟩ := h
  rw [R.bind_ok] at h
  obtain ⟨l, h5, h⟩ := h
  have hmo : mo = "moran" := by
    rw [validateEnumerator_ok] at h0
    simpa using h0.1.symm
  subst hmo
  rw [R.ite_throw, if_pos rfl, R.ite_throw, R.pure_ok] at h
  obtain ⟨-, -, rfl⟩ := h
  rw [C03_integer_limits] at h1
  obtain ⟨rfl, -, hz, -⟩ := h1
  have hz := hz 2 rfl
  rw [C03_float_limits] at h2
  obtain ⟨rfl, -⟩ := h2
  obtain ⟨rfl, hu0, hu1⟩ := validateFloat_closed h3
  obtain ⟨rfl, hv0, hv1⟩ := validateFloat_closed h4
  have hst := moranRaw_stochastic (n := z.toNat) (by omega) (hs s' rfl) hu0 hu1 hv0 hv1
  rw [normalizeRows_of_sum_one (moranRaw_sum (n := z.toNat) (by omega) s' u' v')]
  refine ⟨⟨by simp only; omega, hst, labelsOrDefault_sound h5⟩, ?_,
    ⟨s', u', v', rfl, rfl, rfl, ?_⟩, ?_, ?_⟩
  · simp only [PyVal.int.injEq]; omega
  · intro N hN i j hi0 hiN
    simp only [PyVal.int.injEq] at hN
    subst hN
    have hs1 := hs s' rfl
    have hi' : (0 : K) < (i : ℕ) := by exact_mod_cast hi0
    have hin' : ((i : ℕ) : K) < N := by exact_mod_cast hiN
    have hd : (0 : K) < (1 - s') * (i : ℕ) + (N - (i : ℕ)) := by
      have := mul_nonneg (sub_nonneg.2 hs1) hi'.le
      linarith
    have hN0 : (N : K) ≠ 0 := by linarith
    change (_ → moranRaw N s' u' v' i j * _ = _) ∧ (_ → moranRaw N s' u' v' i j * _ = _)
    constructor
    · intro e
      have : moranRaw N s' u' v' i j = moranUp N i s' u' v' := by
        unfold moranRaw
        rw [if_neg (by omega), if_neg (by omega), if_pos e]
      rw [this]
      unfold moranUp
      simp only
      generalize (1 - s') * ((i : ℕ) : K) = ri at hd ⊢
      have := hd.ne'
      field_simp
    · intro e
      have : moranRaw N s' u' v' i j = moranDown N i s' v' := by
        unfold moranRaw
        rw [if_neg (by omega), if_neg (by omega), if_neg (by omega), if_neg (by omega),
          if_pos (by omega)]
      rw [this]
      unfold moranDown
      simp only
      generalize (1 - s') * ((i : ℕ) : K) = ri at hd ⊢
      have := hd.ne'
      field_simp
  · intro i j h1 h2 h3
    change moranRaw z.toNat s' u' v' i j = 0
    unfold moranRaw
    split_ifs <;> first | rfl | omega
  · intro i hi
    change moranRaw z.toNat s' u' v' i i = 1
    simp only [Nat.add_sub_cancel] at hi
    unfold moranRaw
    rcases hi with hi | hi
    · simp [hi]
    · have e : ¬ (z.toNat = 0) := by omega
      simp [hi, e]

/-- C09 is violated for accepted selection intensities above one: with three individuals and
`s = 2`, two rows contain a negative entry. -/
theorem C09_negative_probabilities :
    ∃ c : MC ℚ, populationGenetics (.str "moran") (.int 3) (.float (.fin 2)) (.float (.fin 0))
      (.float (.fin 0)) .none = .ok c ∧ ∃ i j, c.p i j < 0 := by
  have h0 : validateEnumerator (.str "moran" : PyVal ℚ) ["moran", "wright-fisher"] =
      .ok "moran" := by decide +kernel
  have h1 : validateInteger (.int 3 : PyVal ℚ) (some (2, false)) (some (500, false)) = .ok 3 := by
    decide +kernel
  have h2 : validateFloat (.float (.fin 2) : PyVal ℚ) (some (-1, false)) none = .ok 2 := by
    decide +kernel
  have h3 : validateFloat (.float (.fin 0) : PyVal ℚ) (some (0, false)) (some (1, false)) =
      .ok 0 := by decide +kernel
  refine ⟨⟨4, normalizeRows (moranRaw 3 2 0 0), createLabels 4 ""⟩, ?_, 2, 1, ?_⟩
  · unfold populationGenetics
    rw [h0]
    rw [R.ok_bind, h1, R.ok_bind, h2, R.ok_bind, h3, R.ok_bind, R.ok_bind]
    change (if _ then _ else _) = _
    rw [if_neg (by decide +kernel)]
    rfl
  · decide +kernel

/-- C09, disagreement. In the Moran model the individual that dies (of the first type with
probability `i / n`) and the type of the offspring are independent, so the two rates divided by the
probabilities of the type that dies add up to one. The downward rate uses the forward mutation rate
`v` where the backward rate `u` belongs, and the sum is not one for `u ≠ v`. -/
theorem C09_mutation_rates_disagree :
    ∃ c : MC ℚ, populationGenetics (.str "moran") (.int 2) (.float (.fin 0)) (.float (.fin (1 / 2)))
      (.float (.fin 0)) .none = .ok c ∧ ∃ i j k : Fin c.n, (i : ℕ) = 1 ∧ (j : ℕ) = 0 ∧ (k : ℕ) = 2 ∧
        c.p i j / (1 / 2) + c.p i k / (1 - 1 / 2) ≠ 1 := by
  have h0 : validateEnumerator (.str "moran" : PyVal ℚ) ["moran", "wright-fisher"] =
      .ok "moran" := by decide +kernel
  have h1 : validateInteger (.int 2 : PyVal ℚ) (some (2, false)) (some (500, false)) = .ok 2 := by
    decide +kernel
  have h2 : validateFloat (.float (.fin 0) : PyVal ℚ) (some (-1, false)) none = .ok 0 := by
    decide +kernel
  have h3 : validateFloat (.float (.fin (1 / 2)) : PyVal ℚ) (some (0, false)) (some (1, false)) =
      .ok (1 / 2) := by decide +kernel
  have h4 : validateFloat (.float (.fin 0) : PyVal ℚ) (some (0, false)) (some (1, false)) =
      .ok 0 := by decide +kernel
  refine ⟨⟨3, normalizeRows (moranRaw 2 0 (1 / 2) 0), createLabels 3 ""⟩, ?_, 1, 0, 2, rfl, rfl,
    rfl, ?_⟩
  · unfold populationGenetics
    rw [h0]
    rw [R.ok_bind, h1, R.ok_bind, h2, R.ok_bind, h3, R.ok_bind, h4, R.ok_bind]
    change (if _ then _ else _) = _
    rw [if_neg (by decide +kernel)]
    rfl
  · decide +kernel

/-- The hypotheses of `C09_moran_partial` are met, e.g. by the neutral model. -/
example : ∃ c : MC ℚ, populationGenetics (.str "moran") (.int 3) (.float (.fin 0))
    (.float (.fin (1 / 10))) (.float (.fin (1 / 10))) .none = .ok c := by
  have h0 : validateEnumerator (.str "moran" : PyVal ℚ) ["moran", "wright-fisher"] =
      .ok "moran" := by decide +kernel
  have h1 : validateInteger (.int 3 : PyVal ℚ) (some (2, false)) (some (500, false)) = .ok 3 := by
    decide +kernel
  have h2 : validateFloat (.float (.fin 0) : PyVal ℚ) (some (-1, false)) none = .ok 0 := by
    decide +kernel
  have h3 : validateFloat (.float (.fin (1 / 10)) : PyVal ℚ) (some (0, false)) (some (1, false)) =
      .ok (1 / 10) := by decide +kernel
  refine ⟨⟨4, normalizeRows (moranRaw 3 0 (1 / 10) (1 / 10)), createLabels 4 ""⟩, ?_⟩
  unfold populationGenetics
  rw [h0, R.ok_bind, h1, R.ok_bind, h2, R.ok_bind, h3, R.ok_bind, R.ok_bind]
  change (if _ then _ else _) = _
  rw [if_neg (by decide +kernel)]
  rfl

/-! ## C10 -/

theorem binomPmf_sum (n : ℕ) (p : K) : ∑ j : Fin (n + 1), binomPmf n p j = 1 := by
  rw [Fin.sum_univ_eq_sum_range (fun j => binomPmf n p j)]
  have h := add_pow p (1 - p) n
  rw [add_sub_cancel, one_pow] at h
  rw [h]
  refine Finset.sum_congr rfl fun j _ => ?_
  unfold binomPmf
  ring

theorem wfProb_mem {n i : ℕ} (h1 : 1 ≤ i) (h2 : i < n) {s u v : K} (hs : -1 ≤ s)
    (hu0 : 0 ≤ u) (hu1 : u ≤ 1) (hv0 : 0 ≤ v) (hv1 : v < 1) :
    0 ≤ wfProb n i s u v ∧ wfProb n i s u v ≤ 1 ∧
      wfProb n i s u v * (1 + s * ((i : K) / n * (1 - u) + (1 - (i : K) / n) * v)) =
        (1 + s) * ((i : K) / n * (1 - u) + (1 - (i : K) / n) * v) := by
  have hi : (1 : K) ≤ i := by exact_mod_cast h1
  have hin : (i : K) < n := by exact_mod_cast h2
  have hn : (0 : K) < n := by linarith
  have hk0 : 0 < (i : K) / n := div_pos (by linarith) hn
  have hk1 : (i : K) / n < 1 := (div_lt_one hn).2 hin
  unfold wfProb
  simp only
  set k := (i : K) / n
  set pm := k * (1 - u) + (1 - k) * v with hpm
  have hp0 : 0 ≤ pm := add_nonneg (mul_nonneg hk0.le (by linarith)) (mul_nonneg (by linarith) hv0)
  have hp1 : pm < 1 := by
    have a1 : k * (1 - u) ≤ k * 1 := mul_le_mul_of_nonneg_left (by linarith) hk0.le
    have a2 : (1 - k) * v < (1 - k) * 1 := mul_lt_mul_of_pos_left hv1 (by linarith)
    rw [hpm]; linarith
  have hd : 0 < pm * (1 + s) - pm + 1 := by
    have : 0 ≤ pm * (1 + s) := mul_nonneg hp0 (by linarith)
    linarith
  have hle : pm * (1 + s) / (pm * (1 + s) - pm + 1) ≤ 1 := by
    rw [div_le_one hd]; linarith
  rw [min_eq_left hle]
  refine ⟨div_nonneg (mul_nonneg hp0 (by linarith)) hd.le, hle, ?_⟩
  have e : 1 + s * pm = pm * (1 + s) - pm + 1 := by ring
  rw [e, div_mul_cancel₀ _ hd.ne']
  ring

theorem wrightFisherRaw_sum (n : ℕ) (s u v : K) (i : Fin (n + 1)) :
    ∑ j, wrightFisherRaw n s u v i j = 1 := by
  unfold wrightFisherRaw
  by_cases hi : (i : ℕ) = 0
  · simp only [hi, if_true]; exact sum_single (by omega) _
  by_cases hi' : (i : ℕ) = n
  · simp only [if_neg hi, if_pos hi']
    exact sum_single (by omega) _
  · simp only [hi, hi', if_false]
    exact binomPmf_sum _ _

/-- C10. For every accepted choice of parameters the Wright-Fisher model is a valid chain with
absorbing ends, and row `i` is the binomial law of `n` trials whose success probability `q` is the
frequency after mutation (`pm`) and selection: `q (1 + s pm) = (1 + s) pm`. -/
theorem C10_wright_fisher {n s u v states : PyVal K} {c : MC K}
    (h : populationGenetics (.str "wright-fisher") n s u v states = .ok c) :
    ∃ (N : ℕ) (s' u' v' : K), n = .int N ∧ s = .float (.fin s') ∧ u = .float (.fin u') ∧
      v = .float (.fin v') ∧ 2 ≤ N ∧ c.n = N + 1 ∧ c.Valid ∧
      (∀ i : Fin c.n, ((i : ℕ) = 0 ∨ (i : ℕ) = N) → AbsorbingState c.p i) ∧
      (∀ i : Fin c.n, 0 < (i : ℕ) → (i : ℕ) < N → ∃ q : K, 0 ≤ q ∧ q ≤ 1 ∧
        (q * (1 + s' * ((i : ℕ) / N * (1 - u') + (1 - (i : ℕ) / N) * v')) =
          (1 + s') * ((i : ℕ) / N * (1 - u') + (1 - (i : ℕ) / N) * v')) ∧
        ∀ j : Fin c.n, c.p i j = (N.choose j : K) * q ^ (j : ℕ) * (1 - q) ^ (N - j)) := by
  unfold populationGenetics at h
  rw [R.bind_ok] at h
  obtain ⟨mo, h0, h⟩ := h
  rw [R.bind_ok] at h
  obtain ⟨z, h1, h⟩ := h
  rw [R.bind_ok] at h
  obtain ⟨s', h2, h⟩ := h
  rw [R.bind_ok] at h
  obtain ⟨u', h3, h⟩ := h
  rw [R.bind_ok] at h
  obtain ⟨v', h4, h⟩ := h
  rw [R.bind_ok] at h
  obtain ⟨l, h5, h⟩ := h
  have hmo : mo = "wright-fisher" := by
    rw [validateEnumerator_ok] at h0
    simpa using h0.1.symm
  subst hmo
  rw [R.ite_throw, if_neg (by decide), R.pure_ok] at h
  obtain ⟨h6, rfl⟩ := h
  rw [C03_integer_limits] at h1
  obtain ⟨rfl, -, hz, -⟩ := h1
  have hz := hz 2 rfl
  rw [C03_float_limits] at h2
  obtain ⟨rfl, -, hs, -⟩ := h2
  have hs := hs (-1) rfl
  obtain ⟨rfl, hu0, hu1⟩ := validateFloat_closed h3
  obtain ⟨rfl, hv0, hv1⟩ := validateFloat_closed h4
  have hv1' : v' < 1 := by
    simp only [true_and, not_lt, gt_iff_lt] at h6
    have hN : (2 : K) ≤ (z.toNat : K) := by exact_mod_cast (by omega : 2 ≤ z.toNat)
    have hm : v' ≤ max u' v' := le_max_right _ _
    nlinarith [mul_le_mul hN hm hv0 (by linarith : (0 : K) ≤ (z.toNat : K))]
  rw [normalizeRows_of_sum_one (wrightFisherRaw_sum z.toNat s' u' v')]
  have hrow := fun (i : Fin (z.toNat + 1)) (h1 : 0 < (i : ℕ)) (h2 : (i : ℕ) < z.toNat) =>
    wfProb_mem (n := z.toNat) (i := i) h1 h2 hs hu0 hu1 hv0 hv1'
  have hst : IsStochastic (wrightFisherRaw z.toNat s' u' v') := by
    refine ⟨fun i j => ?_, wrightFisherRaw_sum _ _ _ _⟩
    unfold wrightFisherRaw
    by_cases hi : (i : ℕ) = 0
    · simp only [hi, if_true]; split_ifs <;> simp
    by_cases hi' : (i : ℕ) = z.toNat
    · rw [if_neg hi, if_pos hi']; split_ifs <;> simp
    · have := i.isLt
      obtain ⟨q0, q1, -⟩ := hrow i (by omega) (by omega)
      simp only [hi, hi', if_false]
      unfold binomPmf
      have : 0 ≤ 1 - wfProb z.toNat i s' u' v' := by linarith
      positivity
  refine ⟨z.toNat, s', u', v', by simp only [PyVal.int.injEq]; omega, rfl, rfl, rfl, by omega, rfl,
    ⟨by simp only; omega, hst, labelsOrDefault_sound h5⟩, ?_, ?_⟩
  · intro i hi
    change wrightFisherRaw z.toNat s' u' v' i i = 1
    unfold wrightFisherRaw
    rcases hi with hi | hi
    · simp [hi]
    · have e : ¬ (z.toNat = 0) := by omega
      simp [hi, e]
  · intro i hi0 hi1
    obtain ⟨q0, q1, q2⟩ := hrow i hi0 hi1
    refine ⟨_, q0, q1, q2, fun j => ?_⟩
    change wrightFisherRaw z.toNat s' u' v' i j = _
    unfold wrightFisherRaw
    rw [if_neg (by omega), if_neg (by omega)]
    rfl

example : ∃ c : MC ℚ, populationGenetics (.str "wright-fisher") (.int 3) (.float (.fin (1 / 2)))
    (.float (.fin (1 / 100))) (.float (.fin (1 / 100))) .none = .ok c := by
  have h0 : validateEnumerator (.str "wright-fisher" : PyVal ℚ) ["moran", "wright-fisher"] =
      .ok "wright-fisher" := by decide +kernel
  have h1 : validateInteger (.int 3 : PyVal ℚ) (some (2, false)) (some (500, false)) = .ok 3 := by
    decide +kernel
  have h2 : validateFloat (.float (.fin (1 / 2)) : PyVal ℚ) (some (-1, false)) none =
      .ok (1 / 2) := by decide +kernel
  have h3 : validateFloat (.float (.fin (1 / 100)) : PyVal ℚ) (some (0, false))
      (some (1, false)) = .ok (1 / 100) := by decide +kernel
  refine ⟨⟨4, normalizeRows (wrightFisherRaw 3 (1 / 2) (1 / 100) (1 / 100)), createLabels 4 ""⟩, ?_⟩
  unfold populationGenetics
  rw [h0, R.ok_bind, h1, R.ok_bind, h2, R.ok_bind, h3, R.ok_bind, R.ok_bind]
  change (if _ then _ else _) = _
  rw [if_neg (by decide +kernel)]
  rfl

end Verif
