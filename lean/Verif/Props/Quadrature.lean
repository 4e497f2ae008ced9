import Verif.Props.Fitting
import Verif.Lemmas.LegendreRule
import Mathlib.Analysis.Real.Pi.Bounds

/-!
# Fitting from functions (C72)
-/

set_option linter.unusedSectionVars false
set_option linter.unusedSimpArgs false

namespace Verif

theorem linspace_step {a b : ℝ} {n : ℕ} :
    linspace a b n 1 - linspace a b n 0 = (b - a) / ((n : ℝ) - 1) := by
  simp [linspace]

theorem linspace_mem {a b : ℝ} (hab : a < b) {n : ℕ} (hn : 2 ≤ n) (j : Fin n) :
    a ≤ linspace a b n j ∧ linspace a b n j ≤ b := by
  have h1 : (0:ℝ) < (n : ℝ) - 1 := by
    have : (2:ℝ) ≤ n := by exact_mod_cast hn
    linarith
  have hj : ((j : ℕ) : ℝ) ≤ (n : ℝ) - 1 := by
    have : (j : ℕ) + 1 ≤ n := j.isLt
    have : ((j : ℕ) : ℝ) + 1 ≤ n := by exact_mod_cast this
    linarith
  have hq : 0 ≤ (b - a) / ((n : ℝ) - 1) := div_nonneg (by linarith) h1.le
  unfold linspace
  constructor
  · have := mul_nonneg (Nat.cast_nonneg (α := ℝ) (j : ℕ)) hq
    linarith
  · have h2 := mul_le_mul_of_nonneg_right hj hq
    have h3 : ((n : ℝ) - 1) * ((b - a) / ((n : ℝ) - 1)) = b - a := mul_div_cancel₀ _ h1.ne'
    linarith

theorem simpson_base (m : ℕ) :
    ∑ j ∈ Finset.range (2 * m + 1), (if j % 2 = 0 then (2:ℝ) else 4) = 6 * m + 2 := by
  induction m with
  | zero => simp
  | succ m ih =>
    rw [show 2 * (m + 1) + 1 = 2 * m + 1 + 1 + 1 by ring, Finset.sum_range_succ,
      Finset.sum_range_succ, ih, if_neg (by omega), if_pos (by omega)]
    push_cast
    ring

theorem simpson_sum {m : ℕ} (hm : 1 ≤ m) :
    ∑ j ∈ Finset.range (2 * m + 1), (if j = 0 ∨ j = 2 * m then (1:ℝ) else
      if j % 2 = 0 then 2 else 4) = 6 * m := by
  have : ∀ j ∈ Finset.range (2 * m + 1), (if j = 0 ∨ j = 2 * m then (1:ℝ) else
      if j % 2 = 0 then 2 else 4) = (if j % 2 = 0 then (2:ℝ) else 4) - (if j = 0 then 1 else 0) -
        (if j = 2 * m then 1 else 0) := by
    intro j _
    by_cases h0 : j = 0
    · subst h0
      rw [if_pos (Or.inl rfl), if_pos rfl, if_pos rfl, if_neg (by omega)]; norm_num
    · by_cases h1 : j = 2 * m
      · subst h1
        rw [if_pos (Or.inr rfl), if_pos (by omega), if_neg h0, if_pos rfl]; norm_num
      · rw [if_neg (by tauto), if_neg h0, if_neg h1]; ring
  rw [Finset.sum_congr rfl this, Finset.sum_sub_distrib, Finset.sum_sub_distrib, simpson_base]
  simp
  ring

theorem trapezoid_sum {n : ℕ} (hn : 2 ≤ n) :
    ∑ j ∈ Finset.range n, (if j = 0 ∨ j = n - 1 then (1 / 2 : ℝ) else 1) = n - 1 := by
  have : ∀ j ∈ Finset.range n, (if j = 0 ∨ j = n - 1 then (1 / 2 : ℝ) else 1) =
      1 - (if j = 0 then 1 / 2 else 0) - (if j = n - 1 then 1 / 2 else 0) := by
    intro j _
    by_cases h0 : j = 0
    · subst h0
      rw [if_pos (Or.inl rfl), if_pos rfl, if_neg (by omega)]; norm_num
    · by_cases h1 : j = n - 1
      · rw [if_pos (Or.inr h1), if_neg h0, if_pos h1]; norm_num
      · rw [if_neg (by tauto), if_neg h0, if_neg h1]; ring
  rw [Finset.sum_congr rfl this, Finset.sum_sub_distrib, Finset.sum_sub_distrib]
  have h1 : 0 < n := by omega
  simp [h1]
  ring

/-! ### Gauss-Chebyshev -/

theorem cos_odd_sum (n : ℕ) (x : ℝ) :
    2 * Real.sin x * ∑ j ∈ Finset.range n, Real.cos ((2 * j + 1) * x) = Real.sin (2 * n * x) := by
  induction n with
  | zero => simp
  | succ n ih =>
    rw [Finset.sum_range_succ, mul_add, ih]
    have h1 : (2 * ((n + 1 : ℕ) : ℝ) * x) = (2 * n + 1) * x + x := by push_cast; ring
    have h2 : 2 * (n : ℝ) * x = (2 * n + 1) * x - x := by ring
    rw [h1, h2, Real.sin_add, Real.sin_sub]
    ring

theorem cos_sum_zero {n m : ℕ} (hm : 0 < m) (hmn : m < n) :
    ∑ j ∈ Finset.range n, Real.cos (Real.pi / n * ((j + 1 / 2) * (2 * m))) = 0 := by
  have hn : (0:ℝ) < n := by exact_mod_cast (by omega : 0 < n)
  have hm' : (0:ℝ) < m := by exact_mod_cast hm
  set x : ℝ := m * Real.pi / n with hx
  have hsin : 0 < Real.sin x := by
    apply Real.sin_pos_of_pos_of_lt_pi
    · exact div_pos (mul_pos hm' Real.pi_pos) hn
    · rw [hx, div_lt_iff₀ hn, mul_comm Real.pi]
      exact mul_lt_mul_of_pos_right (by exact_mod_cast hmn) Real.pi_pos
  have h := cos_odd_sum n x
  have h2 : Real.sin (2 * n * x) = 0 := by
    have : 2 * (n : ℝ) * x = ((2 * m : ℕ) : ℝ) * Real.pi := by
      rw [hx]; push_cast; field_simp
    rw [this]
    exact Real.sin_nat_mul_pi _
  rw [h2] at h
  have h3 : ∑ j ∈ Finset.range n, Real.cos ((2 * j + 1) * x) = 0 := by
    rcases mul_eq_zero.1 h with h | h
    · linarith
    · exact h
  rw [← h3]
  refine Finset.sum_congr rfl fun j _ => ?_
  congr 1
  rw [hx]
  field_simp

theorem chebyshev_sum {a b : ℝ} {n : ℕ} (hn : 2 ≤ n) :
    ∑ j ∈ Finset.range n, chebyshevWeight a b n j = b - a := by
  have hn0 : (n : ℝ) ≠ 0 := by positivity
  unfold chebyshevWeight
  rw [Finset.sum_comm, Finset.sum_eq_single 0]
  · simp [chebyshevCoeff]
    field_simp
  · intro m hm hm0
    rw [Finset.mem_range] at hm
    rw [← Finset.sum_mul, ← Finset.mul_sum, cos_sum_zero (by omega) (by omega)]
    simp
  · intro h
    simp at h
    omega

theorem chebyshev_tail (m : ℕ) :
    ∑ k ∈ Finset.range m, (2:ℝ) / ((2 * ((k + 1 : ℕ) : ℝ) - 1) * (2 * ((k + 1 : ℕ) : ℝ) + 1)) =
      1 - 1 / (2 * m + 1) := by
  induction m with
  | zero => simp
  | succ m ih =>
    rw [Finset.sum_range_succ, ih]
    push_cast
    have h1 : (2 * ((m : ℝ) + 1) - 1) ≠ 0 := by have : (0:ℝ) ≤ m := Nat.cast_nonneg m; intro h; linarith
    have h2 : (2 * ((m : ℝ) + 1) + 1) ≠ 0 := by positivity
    have h3 : (2 * (m : ℝ) + 1) ≠ 0 := by positivity
    have h4 : (2 * ((m : ℝ) + 1) - 1) = 2 * m + 1 := by ring
    rw [h4]
    field_simp
    ring

theorem chebyshev_pos {a b : ℝ} (hab : a < b) {n : ℕ} (hn : 2 ≤ n) (j : ℕ) :
    0 < chebyshevWeight a b n j := by
  have hn0 : (0:ℝ) < n := by exact_mod_cast (by omega : 0 < n)
  have hw : 0 < (b - a) / n := div_pos (by linarith) hn0
  obtain ⟨m, hm⟩ : ∃ m, (n + 1) / 2 = m + 1 := ⟨(n + 1) / 2 - 1, by omega⟩
  have hlow : ∀ k ∈ Finset.range m, (b - a) / n *
      -((2:ℝ) / ((2 * ((k + 1 : ℕ) : ℝ) - 1) * (2 * ((k + 1 : ℕ) : ℝ) + 1))) ≤
      (b - a) / n * Real.cos (Real.pi / n * ((j + 1 / 2) * (2 * ((k + 1 : ℕ) : ℝ)))) *
        chebyshevCoeff (k + 1) := by
    intro k _
    have hd : (0:ℝ) < (2 * ((k + 1 : ℕ) : ℝ) - 1) * (2 * ((k + 1 : ℕ) : ℝ) + 1) := by
      have : (0:ℝ) ≤ k := Nat.cast_nonneg k
      push_cast
      exact mul_pos (by linarith) (by linarith)
    rw [chebyshevCoeff, if_neg (Nat.succ_ne_zero k), mul_assoc]
    refine mul_le_mul_of_nonneg_left ?_ hw.le
    have hc := Real.cos_le_one (Real.pi / n * ((j + 1 / 2) * (2 * ((k + 1 : ℕ) : ℝ))))
    rw [neg_div, mul_neg]
    exact neg_le_neg (mul_le_of_le_one_left (div_nonneg zero_le_two hd.le) hc)
  unfold chebyshevWeight
  rw [hm, Finset.sum_range_succ']
  have h := Finset.sum_le_sum hlow
  rw [← Finset.mul_sum, Finset.sum_neg_distrib, chebyshev_tail] at h
  have h0 : (b - a) / n * Real.cos (Real.pi / n * ((j + 1 / 2) * (2 * ((0 : ℕ) : ℝ)))) *
      chebyshevCoeff 0 = (b - a) / n := by simp [chebyshevCoeff]
  rw [h0]
  have h1 : 0 < (b - a) / n * (1 / (2 * (m : ℝ) + 1)) := mul_pos hw (by positivity)
  have h2 : (b - a) / n * -(1 - 1 / (2 * (m : ℝ) + 1)) =
      (b - a) / n * (1 / (2 * (m : ℝ) + 1)) - (b - a) / n := by ring
  rw [h2] at h
  linarith

/-! ### Statements -/

/-- C72, weights. For every rule except Gauss-Legendre, every interval and every number of states
(odd for Simpson's rule), the weights are positive and sum to the length of the interval. -/
theorem C72_weights_partial {r : Rule} (hr : r ≠ .legendre) {a b : ℝ} (hab : a < b) {n : ℕ}
    (hn : 2 ≤ n) (hodd : r = .simpson → n % 2 = 1) :
    ∃ x w, quadrature r a b n = some (x, w) ∧ (∀ j, 0 < w j) ∧ ∑ j, w j = b - a := by
  have hn1 : (0:ℝ) < (n : ℝ) - 1 := by
    have : (2:ℝ) ≤ n := by exact_mod_cast hn
    linarith
  have hn0 : (0:ℝ) < n := by linarith
  have hstep : 0 < (b - a) / ((n : ℝ) - 1) := div_pos (by linarith) hn1
  cases r with
  | legendre => exact absurd rfl hr
  | chebyshev =>
    refine ⟨_, _, rfl, fun j => chebyshev_pos hab hn j, ?_⟩
    exact (Fin.sum_univ_eq_sum_range (fun j => chebyshevWeight a b n j) n).trans (chebyshev_sum hn)
  | niederreiter =>
    refine ⟨_, _, rfl, fun j => ?_, ?_⟩
    · exact mul_pos (div_pos (by linarith) hn0) one_pos
    · simp; field_simp
  | newtonCotes =>
    refine ⟨_, _, rfl, fun j => div_pos (by linarith) hn0, ?_⟩
    simp; field_simp
  | simpson =>
    refine ⟨_, _, rfl, fun j => ?_, ?_⟩
    · simp only [linspace_step]
      refine mul_pos (div_pos hstep (by norm_num)) ?_
      split
      · norm_num
      · split <;> norm_num
    · obtain ⟨m, rfl⟩ : ∃ m, n = 2 * m + 1 := ⟨n / 2, by have := hodd rfl; omega⟩
      simp only [linspace_step]
      rw [← Finset.mul_sum, Fin.sum_univ_eq_sum_range (fun j => if j = 0 ∨ j = 2 * m + 1 - 1 then
        (1:ℝ) else if j % 2 = 0 then 2 else 4)]
      rw [Nat.add_sub_cancel, simpson_sum (by omega)]
      push_cast
      have : (m : ℝ) ≠ 0 := by
        have : m ≠ 0 := by omega
        exact_mod_cast this
      field_simp
      ring
  | trapezoid =>
    refine ⟨_, _, rfl, fun j => ?_, ?_⟩
    · simp only [linspace_step]
      refine mul_pos hstep ?_
      split <;> norm_num
    · simp only [linspace_step]
      rw [← Finset.mul_sum, Fin.sum_univ_eq_sum_range (fun j => if j = 0 ∨ j = n - 1 then
        (1 / 2 : ℝ) else 1), trapezoid_sum hn]
      field_simp

/-- C72, nodes. For every rule except Gauss-Legendre and Newton-Cotes the nodes lie in the
interval; for Newton-Cotes this holds when the interval starts at zero. -/
theorem C72_nodes_partial {r : Rule} (hr : r ≠ .legendre) {a b : ℝ} (hab : a < b) {n : ℕ}
    (hn : 2 ≤ n) (hnc : r = .newtonCotes → a = 0) :
    ∃ x w, quadrature r a b n = some (x, w) ∧ ∀ j, a ≤ x j ∧ x j ≤ b := by
  have hn0 : (0:ℝ) < n := by exact_mod_cast (by omega : 0 < n)
  cases r with
  | legendre => exact absurd rfl hr
  | chebyshev =>
    refine ⟨_, _, rfl, fun j => ?_⟩
    have h1 := Real.cos_le_one (Real.pi / n * ((j : ℕ) + 1 / 2))
    have h2 := Real.neg_one_le_cos (Real.pi / n * ((j : ℕ) + 1 / 2))
    constructor <;> nlinarith
  | niederreiter =>
    refine ⟨_, _, rfl, fun j => ?_⟩
    have h1 := Int.floor_le ((((j : ℕ) : ℝ) + 1) * Real.sqrt 2)
    have h2 := Int.lt_floor_add_one ((((j : ℕ) : ℝ) + 1) * Real.sqrt 2)
    constructor <;> nlinarith
  | simpson => exact ⟨_, _, rfl, fun j => linspace_mem hab hn j⟩
  | trapezoid => exact ⟨_, _, rfl, fun j => linspace_mem hab hn j⟩
  | newtonCotes =>
    have ha := hnc rfl
    subst ha
    refine ⟨_, _, rfl, fun j => ?_⟩
    have hj : ((j : ℕ) : ℝ) + 1 ≤ n := by exact_mod_cast j.isLt
    have hq : 0 < (b - 0) / n := div_pos (by linarith) hn0
    constructor
    · positivity
    · have : (((j : ℕ) : ℝ) + 1 / 2) * ((b - 0) / n) ≤ n * ((b - 0) / n) :=
        mul_le_mul_of_nonneg_right (by linarith) hq.le
      rw [mul_div_cancel₀ _ hn0.ne'] at this
      linarith

/-- C72, disagreement. The nodes of the Newton-Cotes rule do not depend on where the interval
starts, so they can lie outside it. -/
theorem C72_newton_cotes_nodes_outside : ∃ x w, quadrature .newtonCotes 1 2 2 = some (x, w) ∧
    ∀ j, x j < 1 := by
  refine ⟨_, _, rfl, fun j => ?_⟩
  have hj : ((j : ℕ) : ℝ) ≤ 1 := by
    have : (j : ℕ) ≤ 1 := by have := j.isLt; omega
    exact_mod_cast this
  push_cast
  nlinarith

/-- C72, Gauss-Legendre. When the iteration ends with roots inside the open interval, the nodes lie
in the interval, the weights are nonnegative, and both are symmetric around the middle. -/
theorem C72_legendre_partial {a b : ℝ} (hab : a < b) {n : ℕ}
    {z pp : Fin ((n + 1) / 2) → ℝ} (hz : legendreLoop n 99 (legendreStart n) = some (z, pp))
    (hin : ∀ i, z i ^ 2 < 1) :
    ∃ x w, quadrature .legendre a b n = some (x, w) ∧ (∀ j, 0 ≤ w j) ∧
      (∀ j, a ≤ x j ∧ x j ≤ b) ∧ (∀ j, w j.rev = w j) ∧
      ∀ j : Fin n, 2 * (j : ℕ) + 1 ≠ n → x j + x j.rev = a + b := by
  simp only [quadrature, legendreRule, hz, Option.map_some, legendrePlace]
  have hmin : ∀ j : Fin n, min (j.rev : ℕ) (n - 1 - j.rev) = min (j : ℕ) (n - 1 - j) := by
    intro j
    have := j.isLt
    rw [Fin.val_rev]
    omega
  refine ⟨_, _, rfl, fun j => ?_, fun j => ?_, fun j => ?_, fun j hj => ?_⟩
  · have := hin ⟨_, legendreIndex_lt j⟩
    exact div_nonneg (by linarith) (mul_nonneg (by linarith) (sq_nonneg _))
  · have h := hin ⟨_, legendreIndex_lt j⟩
    have h1 : -1 < z ⟨_, legendreIndex_lt j⟩ := by nlinarith
    have h2 : z ⟨_, legendreIndex_lt j⟩ < 1 := by nlinarith
    split <;> constructor <;> nlinarith
  · simp only [hmin]
  · have := j.isLt
    have hr : (j.rev : ℕ) = n - (j + 1) := Fin.val_rev j
    simp only [hmin]
    by_cases h : n - 1 - (j : ℕ) ≤ j
    · rw [if_pos h, if_neg (by omega)]; ring
    · rw [if_neg h, if_pos (by omega)]; ring

/-- C72, Gauss-Legendre. Up to 463 nodes the rule, when it is returned, has nodes inside the interval and positive
weights. -/
theorem C72_legendre {a b : ℝ} (hab : a < b) {n : ℕ} (hn : 0 < n) (hle : n ≤ 463) {x w : Fin n → ℝ}
    (h : quadrature .legendre a b n = some (x, w)) : (∀ j, 0 < w j) ∧ ∀ j, a < x j ∧ x j < b := by
  simp only [quadrature, legendreRule, Option.map_eq_some_iff, Prod.exists] at h
  obtain ⟨z, pp, hz, h⟩ := h
  simp only [legendrePlace, Prod.mk.injEq] at h
  obtain ⟨rfl, rfl⟩ := h
  obtain ⟨y, hy⟩ := legendreLoop_some hz
  refine ⟨fun j => ?_, fun j => ?_⟩
  · have h1 := legendreLoop_inside hn hle hz ⟨_, legendreIndex_lt j⟩
    obtain ⟨-, h2, -, h3, -⟩ := hy ⟨_, legendreIndex_lt j⟩
    rw [← h3] at h2
    exact div_pos (by linarith) (mul_pos (by linarith) (by positivity))
  · have h1 := legendreLoop_inside hn hle hz ⟨_, legendreIndex_lt j⟩
    have h2 : -1 < z ⟨_, legendreIndex_lt j⟩ := by nlinarith
    have h3 : z ⟨_, legendreIndex_lt j⟩ < 1 := by nlinarith
    beta_reduce
    split <;> constructor <;> nlinarith

/-- C72. When the function is nonnegative, the result is a valid chain over the given states, for
every rule (for Gauss-Legendre, up to 463 states). -/
theorem C72_fit_function_partial {r : Rule} {possible : PyVal ℝ} {f : ℕ → ℝ → ℕ → ℝ → Option ℝ}
    {a b : ℝ} (hab : a < b) (hf : ∀ i x j y v, f i x j y = some v → 0 ≤ v)
    {c : MC ℝ} (hleg : r = .legendre → c.n ≤ 463) (h : fitFunction r possible f a b = .ok c) :
    c.Valid ∧ ∃ x w, quadrature r a b c.n = some (x, w) ∧ ∀ v : Fin c.n → Fin c.n → ℝ,
      (∀ i j : Fin c.n, f i (x i) j (x j) = some (v i j)) →
      ∀ i, ((∃ l, v i l * w l ≠ 0) → ∀ j, c.p i j = v i j * w j / ∑ l, v i l * w l) ∧
        ((∀ l, v i l * w l = 0) → ∀ j, c.p i j = 1 / c.n) := by
  unfold fitFunction at h
  rw [R.bind_ok] at h
  obtain ⟨labels, hl, h⟩ := h
  obtain ⟨h2, hv⟩ := validateLabelsInput_none hl
  rw [R.ite_throw] at h
  obtain ⟨hs, h⟩ := h
  rw [R.bind_ok] at h
  obtain ⟨p, hp, h⟩ := h
  rw [R.pure_ok] at h
  subst h
  unfold fitFunctionMatrix at hp
  have hw : ∀ x w, quadrature r a b labels.length = some (x, w) → ∀ j, 0 ≤ w j := by
    intro x w hq j
    by_cases hr : r = .legendre
    · subst hr
      exact ((C72_legendre hab (Nat.lt_of_lt_of_le Nat.two_pos h2) (hleg rfl) hq).1 j).le
    · obtain ⟨x', w', hq', h0, -⟩ := C72_weights_partial hr hab h2 (fun e => by
        by_contra hne; exact hs ⟨e, by omega⟩)
      rw [hq'] at hq
      simp only [Option.some.injEq, Prod.mk.injEq] at hq
      rw [← hq.2]
      exact (h0 j).le
  split at hp
  · simp [throw, throwThe, MonadExceptOf.throw] at hp
  · next x w hq =>
    rw [R.ite_throw] at hp
    obtain ⟨-, hp⟩ := hp
    rw [R.pure_ok] at hp
    subst hp
    refine ⟨⟨h2, ?_, hv⟩, x, w, hq, ?_⟩
    · refine fill_normalize_stochastic (show 0 < labels.length by omega) fun i j => mul_nonneg ?_ (hw x w hq j)
      cases hfv : f i (x i) j (x j) with
      | none => simp
      | some v => simpa using hf _ _ _ _ _ hfv
    · intro v hval i
      have e : ∀ j : Fin labels.length, (f i (x i) j (x j)).getD 0 * w j = v i j * w j := by
        intro j; rw [hval i j]; rfl
      constructor
      · rintro ⟨l, hl⟩ j
        refine (normalize_fill_row ⟨l, by rw [e]; exact hl⟩ j).trans ?_
        simp only [e]
      · intro hz j
        exact normalize_fill_null (fun l => by rw [e]; exact hz l) j

/-- C72, calls are accepted. -/
theorem C72_accepts (r : Rule) (hr : r ≠ .legendre) (hr' : r ≠ .simpson) :
    ∃ c, fitFunction r (.list [.str "a", .str "b"]) (fun _ _ _ _ => some 1) 0 1 = .ok c := by
  obtain ⟨x, w, hq, -⟩ := C72_weights_partial hr (a := 0) (b := 1) one_pos (n := 2) le_rfl
    (fun h => absurd h hr')
  have hl : validateLabelsInput (.list [.str "a", .str "b"] : PyVal ℝ) none = .ok ["a", "b"] := rfl
  unfold fitFunction fitFunctionMatrix
  rw [hl, R.ok_bind, if_neg (fun h => hr' h.1)]
  simp only [List.length_cons, List.length_nil, Nat.zero_add, Nat.reduceAdd, hq]
  rw [if_neg (by simp)]
  exact ⟨_, rfl⟩

/-- C72, disagreement. Negative function values are accepted and give negative probabilities. -/
theorem C72_negative_probabilities : ∃ c,
    fitFunctionMatrix .trapezoid 0 1 2 (fun _ _ j _ => if j = 0 then some (-1) else some 2) = .ok c ∧
      c 0 0 < 0 := by
  unfold fitFunctionMatrix
  simp only [quadrature]
  rw [if_neg]
  · refine ⟨_, rfl, ?_⟩
    have : ∃ l : Fin 2, ((if ((l : ℕ) = 0) then some (-1 : ℝ) else some 2).getD 0 *
        ((linspace 0 1 2 1 - linspace 0 1 2 0) *
          if (l : ℕ) = 0 ∨ (l : ℕ) = 2 - 1 then 1 / 2 else 1)) ≠ 0 := ⟨0, by
      simp [linspace_step]; norm_num⟩
    refine (normalize_fill_row (M := fun _ l => ((if ((l : ℕ) = 0) then some (-1 : ℝ) else
      some 2).getD 0 * ((linspace 0 1 2 1 - linspace 0 1 2 0) *
          if (l : ℕ) = 0 ∨ (l : ℕ) = 2 - 1 then 1 / 2 else 1))) (i := (0 : Fin 2)) this 0).trans_lt ?_
    rw [Fin.sum_univ_two]
    simp [linspace_step]
    norm_num
  · push Not
    intro i j
    split <;> simp

end Verif
