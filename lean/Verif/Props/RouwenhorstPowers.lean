import Verif.Props.Rouwenhorst
import Verif.Props.Monotone
import Verif.Props.Transform
import Verif.Props.Textbook
import Mathlib.Order.Interval.Set.Infinite

/-!
# Property C155: Rouwenhorst chains over several steps
-/

set_option linter.unusedSectionVars false
set_option linter.unusedSimpArgs false

namespace Verif

open Polynomial

variable {K : Type} [Field K] [LinearOrder K] [IsStrictOrderedRing K]

theorem rowPoly_coeff (z : K) {n b : ℕ} (a : ℕ) (hb : b < n + 2) :
    (rowPoly z n a).coeff b = rwN z n a b := by
  unfold rowPoly
  simp only [finsetSum_coeff, coeff_C_mul, coeff_X_pow]
  rw [Finset.sum_eq_single b]
  · simp
  · intro c _ hc
    simp [Ne.symm hc]
  · intro h
    exact absurd (Finset.mem_range.2 hb) h

/-- The generating function of a row with two variables. -/
theorem rwN_homogeneous (z : K) {n a : ℕ} (ha : a < n + 2) {x y : K} (hy : y ≠ 0) :
    ∑ b ∈ Finset.range (n + 2), rwN z n a b * (y ^ (n + 1 - b) * x ^ b) =
      (z * y + (1 - z) * x) ^ (n + 1 - a) * ((1 - z) * y + z * x) ^ a := by
  have h := congrArg (fun q => y ^ (n + 1) * q.eval (x / y)) (rowPoly_eq z n a ha)
  simp only [rowPoly, upPoly, downPoly, eval_finsetSum, eval_mul, eval_C, eval_pow, eval_X,
    eval_add, Finset.mul_sum] at h
  have e : y ^ (n + 1) = y ^ (n + 1 - a) * y ^ a := by
    rw [← pow_add]; congr 1; omega
  have l : ∀ b ∈ Finset.range (n + 2), rwN z n a b * (y ^ (n + 1 - b) * x ^ b) =
      y ^ (n + 1) * (rwN z n a b * (x / y) ^ b) := by
    intro b hb
    have hb := Finset.mem_range.1 hb
    have : y ^ (n + 1) = y ^ (n + 1 - b) * y ^ b := by
      rw [← pow_add]; congr 1; omega
    rw [this, div_pow]
    field_simp
  rw [Finset.sum_congr rfl l, h, e]
  have u : (z * y + (1 - z) * x) = y * (z + (1 - z) * (x / y)) := by field_simp
  have v : ((1 - z) * y + z * x) = y * (1 - z + z * (x / y)) := by field_simp
  rw [u, v, mul_pow, mul_pow]
  ring

/-- The product of two Rouwenhorst matrices of the same size. -/
theorem rouwenhorst_mul {z w : K} (n : ℕ) (h0 : 0 ≤ w) (h1 : w ≤ 1) :
    rouwenhorst z n * rouwenhorst w n = rouwenhorst (z * w + (1 - z) * (1 - w)) n := by
  ext a c
  rw [Matrix.mul_apply, rwN_fin]
  simp only [rwN_fin]
  rw [Fin.sum_univ_eq_sum_range (fun b => rwN z n a b * rwN w n b c)]
  rw [← rowPoly_coeff _ _ c.isLt]
  have key : ∑ b ∈ Finset.range (n + 2), C (rwN z n a b) * rowPoly w n b =
      rowPoly (z * w + (1 - z) * (1 - w)) n a := by
    refine eq_of_infinite_eval_eq _ _ ((Set.Ioi_infinite (0 : K)).mono fun x hx => ?_)
    have hx : 0 < x := hx
    have hy : w + (1 - w) * x ≠ 0 := by
      rcases h0.eq_or_lt with rfl | h
      · simp [hx.ne']
      · have := mul_nonneg (sub_nonneg.2 h1) hx.le
        linarith
    change eval x _ = eval x _
    rw [rowPoly_eq _ n a a.isLt, eval_finsetSum]
    rw [Finset.sum_congr rfl (g := fun b => rwN z n a b *
        ((w + (1 - w) * x) ^ (n + 1 - b) * ((1 - w) + w * x) ^ b))]
    · rw [rwN_homogeneous z a.isLt hy]
      simp only [upPoly, downPoly, eval_mul, eval_pow, eval_add, eval_C, eval_X]
      congr 2 <;> ring
    · intro b hb
      rw [rowPoly_eq _ n b (Finset.mem_range.1 hb)]
      simp [upPoly, downPoly]
  rw [← key]
  simp only [finsetSum_coeff, coeff_C_mul]
  exact Finset.sum_congr rfl fun b _ => by rw [rowPoly_coeff _ _ c.isLt]

theorem rouwenhorst_pow {r : K} (n : ℕ) (h0 : -1 ≤ r) (h1 : r ≤ 1) (t : ℕ) :
    rouwenhorst ((1 + r) / 2) n ^ (t + 1) = rouwenhorst ((1 + r ^ (t + 1)) / 2) n := by
  induction t with
  | zero => simp
  | succ t ih =>
    rw [pow_succ, ih, rouwenhorst_mul n (by linarith) (by linarith)]
    congr 1
    ring

/-- The variance of a row. -/
theorem rw_row_square (z : K) (n a : ℕ) (ha : a < n + 2) :
    ∑ b ∈ Finset.range (n + 2), rwN z n a b *
        ((b : K) - (((n + 1 - a : ℕ) : K) * (1 - z) + a * z)) ^ 2 =
      ((n : K) + 1) * (z * (1 - z)) := by
  have h1 : (derivative (X * derivative (rowPoly z n a))).eval 1 =
      ∑ b ∈ Finset.range (n + 2), rwN z n a b * (b : K) ^ 2 := by
    have e : X * derivative (rowPoly z n a) =
        ∑ b ∈ Finset.range (n + 2), C (rwN z n a b * b) * X ^ b := by
      simp only [rowPoly, derivative_sum, Finset.mul_sum]
      refine Finset.sum_congr rfl fun b _ => ?_
      rw [derivative_C_mul_X_pow]
      cases b with
      | zero => simp
      | succ b => simp only [Nat.add_sub_cancel, pow_succ]; ring
    rw [e]
    simp only [derivative_sum, derivative_C_mul_X_pow, eval_finsetSum, eval_mul, eval_C, eval_pow,
      eval_X, one_pow, mul_one]
    exact Finset.sum_congr rfl fun b _ => by ring
  have h2 := rw_row_mean z n a ha
  have h3 := rw_row_sum z n a ha
  have hN : ((n + 1 - a : ℕ) : K) = (n : K) + 1 - a := by
    rw [Nat.cast_sub (by omega)]; push_cast; ring
  obtain ⟨m, hm⟩ : ∃ m, m = ((n + 1 - a : ℕ) : K) * (1 - z) + a * z := ⟨_, rfl⟩
  rw [← hm] at h2 ⊢
  have e : ∀ b : ℕ, rwN z n a b * ((b : K) - m) ^ 2 =
      rwN z n a b * (b : K) ^ 2 - 2 * m * (rwN z n a b * b) + m ^ 2 * rwN z n a b := fun b => by ring
  simp only [e, Finset.sum_add_distrib, Finset.sum_sub_distrib, ← Finset.mul_sum]
  rw [h2, h3, ← h1, rowPoly_eq z n a ha]
  obtain ⟨k, hk⟩ : ∃ k, k = n + 1 - a := ⟨_, rfl⟩
  rw [← hk] at hm hN ⊢
  have key : ∀ k a : ℕ, (derivative (X * derivative (upPoly z ^ k * downPoly z ^ a))).eval 1 =
      (k * (1 - z) + a * z) ^ 2 + ((k : K) + a) * (z * (1 - z)) := by
    intro k a
    have pw : ∀ (m : ℕ), (m : K) * ((m - 1 : ℕ) : K) = (m : K) * (m - 1) := by
      intro m
      cases m <;> simp
    have pk := pw k
    have pa := pw a
    simp only [upPoly, downPoly, derivative_mul, derivative_pow, derivative_add, derivative_C,
      derivative_X, eval_mul, eval_add, eval_pow, eval_C, eval_X, eval_natCast, derivative_natCast,
      zero_mul, zero_add, mul_one, one_mul, map_natCast, eval_zero, eval_one, mul_zero, add_zero,
      sub_add_cancel, add_sub_cancel, one_pow, derivative_one]
    linear_combination (1 - z) ^ 2 * pk + z ^ 2 * pa
  rw [key, hm, hN]
  ring

/-- Detailed balance with the binomial law. -/
theorem rwN_balance (z : K) {n a b : ℕ} (ha : a < n + 2) (hb : b < n + 2) :
    ((n + 1).choose a : K) * rwN z n a b = ((n + 1).choose b : K) * rwN z n b a := by
  have gen : ∀ x y : K, ∑ a ∈ Finset.range (n + 2),
      ((n + 1).choose a : K) * y ^ a * (rowPoly z n a).eval x =
        ((z + (1 - z) * x) + y * ((1 - z) + z * x)) ^ (n + 1) := by
    intro x y
    rw [add_comm (z + (1 - z) * x), add_pow]
    refine Finset.sum_congr rfl fun a ha => ?_
    rw [rowPoly_eq z n a (Finset.mem_range.1 ha)]
    simp only [upPoly, downPoly, eval_mul, eval_pow, eval_add, eval_C, eval_X, mul_pow]
    ring
  have sym : ∀ x y : K, ∑ a ∈ Finset.range (n + 2),
      ((n + 1).choose a : K) * y ^ a * (rowPoly z n a).eval x =
      ∑ a ∈ Finset.range (n + 2), ((n + 1).choose a : K) * x ^ a * (rowPoly z n a).eval y := by
    intro x y
    rw [gen, gen]
    congr 1
    ring
  have coefs : ∀ y : K, ∑ a ∈ Finset.range (n + 2), ((n + 1).choose a : K) * y ^ a * rwN z n a b =
      ((n + 1).choose b : K) * (rowPoly z n b).eval y := by
    intro y
    have : ∑ a ∈ Finset.range (n + 2), C (((n + 1).choose a : K) * y ^ a) * rowPoly z n a =
        ∑ a ∈ Finset.range (n + 2), C (((n + 1).choose a : K) * (rowPoly z n a).eval y) * X ^ a := by
      refine Polynomial.funext fun x => ?_
      simp only [eval_finsetSum, eval_mul, eval_C, eval_pow, eval_X]
      rw [sym x y]
      exact Finset.sum_congr rfl fun a _ => by ring
    have hc := congrArg (fun q => q.coeff b) this
    simp only [finsetSum_coeff, coeff_C_mul, coeff_X_pow] at hc
    rw [Finset.sum_congr rfl fun a _ => by rw [rowPoly_coeff _ _ hb]] at hc
    rw [hc, Finset.sum_eq_single b]
    · simp
    · intro c _ hc
      simp [Ne.symm hc]
    · intro h
      exact absurd (Finset.mem_range.2 hb) h
  have poly : ∑ a ∈ Finset.range (n + 2), C (((n + 1).choose a : K) * rwN z n a b) * X ^ a =
      C ((n + 1).choose b : K) * rowPoly z n b := by
    refine Polynomial.funext fun y => ?_
    simp only [eval_finsetSum, eval_mul, eval_C, eval_pow, eval_X]
    rw [← coefs y]
    exact Finset.sum_congr rfl fun a _ => by ring
  have hc := congrArg (fun q => q.coeff a) poly
  simp only [finsetSum_coeff, coeff_C_mul, coeff_X_pow] at hc
  rw [rowPoly_coeff _ _ ha] at hc
  rw [← hc, Finset.sum_eq_single a]
  · simp
  · intro c _ hc
    simp [Ne.symm hc]
  · intro h
    exact absurd (Finset.mem_range.2 ha) h

/-- The parts of an accepted call. -/
theorem approximationRouwenhorst_ok {size alpha sigma states : PyVal K} {r : K} {c : MC K}
    (h : approximationRouwenhorst size alpha sigma (.float (.fin r)) states = .ok c) :
    ∃ (n : ℕ) (l : List String), c = ⟨n + 2, rouwenhorst ((1 + r) / 2) n, l⟩ ∧ -1 ≤ r ∧ r ≤ 1 ∧
      ∀ r' : K, -1 ≤ r' → r' ≤ 1 →
        approximationRouwenhorst size alpha sigma (.float (.fin r')) states =
          .ok ⟨n + 2, rouwenhorst ((1 + r') / 2) n, l⟩ := by
  unfold approximationRouwenhorst at h
  rw [R.bind_ok] at h
  obtain ⟨z, hz, h⟩ := h
  rw [R.bind_ok] at h
  obtain ⟨a, ha, h⟩ := h
  rw [R.bind_ok] at h
  obtain ⟨s, hs, h⟩ := h
  rw [R.bind_ok] at h
  obtain ⟨r', hr, h⟩ := h
  rw [R.bind_ok] at h
  obtain ⟨l, hl, h⟩ := h
  rw [R.pure_ok] at h
  obtain ⟨hr', r0, r1⟩ := validateFloat_closed hr
  have e := Flt.fin.inj (PyVal.float.inj hr')
  subst e
  refine ⟨z.toNat - 2, l, h.symm, r0, r1, fun r' h0 h1 => ?_⟩
  unfold approximationRouwenhorst
  rw [hz, R.ok_bind, ha, R.ok_bind, hs, R.ok_bind, validateFloat_of_closed h0 h1, R.ok_bind, hl,
    R.ok_bind]
  rfl

theorem pow_mem_unit {r : K} (h0 : -1 ≤ r) (h1 : r ≤ 1) (t : ℕ) : -1 ≤ r ^ t ∧ r ^ t ≤ 1 := by
  have : |r ^ t| ≤ 1 := by
    rw [abs_pow]
    exact pow_le_one₀ (abs_nonneg r) (abs_le.2 ⟨h0, h1⟩)
  exact abs_le.1 this

/-- C155, several steps. The chain of order `t` of a Rouwenhorst chain is the Rouwenhorst chain whose
autocorrelation is the power of the given one, with the same states: `to_nth_order` returns what
`approximation` returns for `rho ** t`. -/
theorem C155_nth_order {size alpha sigma states order : PyVal K} {r : K} {c d : MC K}
    (h : approximationRouwenhorst size alpha sigma (.float (.fin r)) states = .ok c)
    (hd : toNthOrder c order = .ok d) :
    ∃ t : ℕ, order = .int t ∧ 2 ≤ t ∧
      approximationRouwenhorst size alpha sigma (.float (.fin (r ^ t))) states = .ok d := by
  obtain ⟨n, l, rfl, h0, h1, hall⟩ := approximationRouwenhorst_ok h
  unfold toNthOrder at hd
  rw [R.bind_ok] at hd
  obtain ⟨z, hz, hd⟩ := hd
  rw [R.pure_ok] at hd
  obtain ⟨rfl, hz⟩ := validateInteger_ge hz
  obtain ⟨t, rfl⟩ : ∃ t : ℕ, z = t := ⟨z.toNat, by omega⟩
  refine ⟨t, rfl, by omega, ?_⟩
  obtain ⟨p0, p1⟩ := pow_mem_unit h0 h1 t
  rw [hall _ p0 p1, ← hd]
  obtain ⟨u, rfl⟩ : ∃ u, t = u + 1 := ⟨t - 1, by omega⟩
  simp only [Int.toNat_natCast]
  rw [rouwenhorst_pow n h0 h1 u]

/-- C155, spread. After `t` steps the grid value `2 i / (n - 1) - 1` has the variance
`(1 - rho ^ (2 t)) / (n - 1)` from whatever state the chain starts in, as the autoregressive process
has around its conditional mean. -/
theorem C155_variance {size alpha sigma states : PyVal K} {r : K} {c : MC K}
    (h : approximationRouwenhorst size alpha sigma (.float (.fin r)) states = .ok c) (t : ℕ)
    (i : Fin c.n) :
    ∑ j : Fin c.n, (c.p ^ t) i j * ((2 * ((j : ℕ) : K) / ((c.n - 1 : ℕ) : K) - 1) -
        r ^ t * (2 * ((i : ℕ) : K) / ((c.n - 1 : ℕ) : K) - 1)) ^ 2 =
      (1 - (r ^ t) ^ 2) / ((c.n - 1 : ℕ) : K) := by
  obtain ⟨n, l, rfl, h0, h1, hall⟩ := approximationRouwenhorst_ok h
  have hN : (((n + 2 - 1 : ℕ) : K)) = (n : K) + 1 := by
    have : n + 2 - 1 = n + 1 := by omega
    rw [this]; push_cast; ring
  have hN0 : (n : K) + 1 ≠ 0 := by positivity
  cases t with
  | zero =>
    simp [Matrix.one_apply]
  | succ t =>
    change ∑ j : Fin (n + 2), (rouwenhorst ((1 + r) / 2) n ^ (t + 1)) i j *
      ((2 * ((j : ℕ) : K) / ((n + 2 - 1 : ℕ) : K) - 1) -
        r ^ (t + 1) * (2 * ((i : ℕ) : K) / ((n + 2 - 1 : ℕ) : K) - 1)) ^ 2 =
      (1 - (r ^ (t + 1)) ^ 2) / ((n + 2 - 1 : ℕ) : K)
    rw [rouwenhorst_pow n h0 h1 t]
    generalize r ^ (t + 1) = s
    simp only [rwN_fin, hN]
    rw [Fin.sum_univ_eq_sum_range (fun j => rwN ((1 + s) / 2) n i j *
      ((2 * (j : K) / ((n : K) + 1) - 1) - s * (2 * ((i : ℕ) : K) / ((n : K) + 1) - 1)) ^ 2)]
    have hs := rw_row_square ((1 + s) / 2) n i i.isLt
    have hi : ((n + 1 - (i : ℕ) : ℕ) : K) = (n : K) + 1 - (i : ℕ) := by
      have hi : (i : ℕ) < n + 2 := i.isLt
      rw [Nat.cast_sub (by omega)]
      push_cast
      ring
    rw [hi] at hs
    have e : ∀ j : ℕ, rwN ((1 + s) / 2) n i j *
        ((2 * (j : K) / ((n : K) + 1) - 1) - s * (2 * ((i : ℕ) : K) / ((n : K) + 1) - 1)) ^ 2 =
        (2 / ((n : K) + 1)) ^ 2 * (rwN ((1 + s) / 2) n i j *
          ((j : K) - (((n : K) + 1 - (i : ℕ)) * (1 - (1 + s) / 2) + (i : ℕ) * ((1 + s) / 2))) ^ 2) := by
      intro j
      field_simp
      ring
    rw [Finset.sum_congr rfl fun j _ => e j, ← Finset.mul_sum, hs]
    field_simp
    ring

/-- C155, reversibility. The chain is in detailed balance with the binomial law, and `is_reversible`
is true whenever the autocorrelation is strictly between `-1` and `1`. -/
theorem C155_reversible {size alpha sigma states : PyVal K} {r : K} {c : MC K}
    (h : approximationRouwenhorst size alpha sigma (.float (.fin r)) states = .ok c) :
    DetailedBalance c.p (binomialHalf c.n) ∧
      (-1 < r → r < 1 → ∀ sccs : List (List (Fin c.n)), IsClasses c.p sccs →
        isReversible c sccs = .ok true) := by
  have hb : DetailedBalance c.p (binomialHalf c.n) := by
    obtain ⟨n, l, rfl, h0, h1, hall⟩ := approximationRouwenhorst_ok h
    intro i j
    change (((n + 2 - 1).choose i : ℕ) : K) / 2 ^ (n + 2 - 1) * rouwenhorst ((1 + r) / 2) n i j =
      (((n + 2 - 1).choose j : ℕ) : K) / 2 ^ (n + 2 - 1) * rouwenhorst ((1 + r) / 2) n j i
    rw [rwN_fin, rwN_fin, div_mul_eq_mul_div, div_mul_eq_mul_div]
    congr 1
    exact rwN_balance _ i.isLt j.isLt
  refine ⟨hb, fun h0 h1 sccs hsc => ?_⟩
  obtain ⟨-, hc, -, hst, -⟩ := C18_rouwenhorst h
  have hpos := rouwenhorst_pos h h0 h1
  have hirr : Irreducible fun i j => c.p i j := fun i j => Relation.ReflTransGen.single (hpos i j)
  obtain ⟨x, -, -, -, hx⟩ := C34_stationary hc hsc hirr
  obtain ⟨b, hb1, -, hb2⟩ := (C37_reversible_partial hc hsc).1 _ hst
    (fun y hy => (hx y hy).trans (hx _ hst).symm)
  rw [hb1, hb2 hb]

/-! ## Concrete cases -/

/-- Three states with autocorrelation one half, over two steps. -/
example : ∃ c d : MC ℚ, approximationRouwenhorst (.int 3) (.float (.fin 0)) (.float (.fin 1))
      (.float (.fin (1 / 2))) .none = .ok c ∧ toNthOrder c (.int 2) = .ok d ∧
    approximationRouwenhorst (.int 3) (.float (.fin 0)) (.float (.fin 1))
      (.float (.fin (1 / 4))) .none = .ok d := by
  obtain ⟨c, hc⟩ := C18_accepts (n := 3) (r := (1 / 2 : ℚ)) (s := 1) (by norm_num) (by norm_num)
    (by norm_num) (by norm_num)
  have hd : toNthOrder c (.int 2) = .ok ⟨c.n, c.p ^ 2, c.states⟩ := by
    unfold toNthOrder
    rw [show (PyVal.int 2 : PyVal ℚ) = .int ((2 : ℕ) : ℤ) from rfl, validateInteger_of_ge (by norm_num)]
    rfl
  obtain ⟨t, ht, -, h⟩ := C155_nth_order hc hd
  have : t = 2 := by
    have := PyVal.int.inj ht
    omega
  subst this
  refine ⟨c, _, hc, hd, ?_⟩
  rw [show (1 / 4 : ℚ) = (1 / 2) ^ 2 by norm_num]
  exact h

end Verif
