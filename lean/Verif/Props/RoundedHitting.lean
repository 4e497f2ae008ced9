import Verif.Model.RoundedHitting
import Verif.Props.Hitting
import Verif.Props.RoundedSolve

/-!
# Hitting probabilities and times with routines that round

C171: if the targets are reached from every state, `hitting_probabilities` returns numbers close to one and
`hitting_times` finite numbers close to the mean times, when the differences, the sums and `scipy.optimize.nnls` are
not exact. The largest mean time is the condition number.
-/

namespace Verif

variable {K : Type} [Field K] [LinearOrder K] [IsStrictOrderedRing K]

open Finset

/-! ## The contracts -/

/-- If some nonnegative vector solves the system, the result is nonnegative and its residuals are small compared with
the norms of the matrix and of the result. -/
def Nnls.Stable (nnls : Nnls K) (e : K) : Prop := ∀ (m : ℕ) (A : Matrix (Fin m) (Fin m) K) (b : Fin m → K),
  (∃ y : Fin m → K, (∀ i, 0 ≤ y i) ∧ A.mulVec y = b) → (∀ i, 0 ≤ nnls m A b i) ∧
    ∀ N X, (∀ i, ∑ j, |A i j| ≤ N) → (∀ j, |nnls m A b j| ≤ X) → ∀ i, |A.mulVec (nnls m A b) i - b i| ≤ e * (N * X)

/-- The error of a sum is small compared with the sum of the absolute values. -/
def StableSum (sum : List K → K) (w : K) : Prop := ∀ l, |sum l - l.sum| ≤ w * (l.map fun x => |x|).sum

/-! ## The computed system has a nonnegative solution -/

/-- A matrix with nonpositive entries off the diagonal that maps a positive vector to a positive one is monotone. -/
theorem monotone_of_positive {m : ℕ} {B : Matrix (Fin m) (Fin m) K} (hoff : ∀ a b, a ≠ b → B a b ≤ 0) {v : Fin m → K}
    (hv : ∀ a, 0 < v a) (hBv : ∀ a, 0 < B.mulVec v a) {y : Fin m → K} (hy : ∀ a, 0 ≤ B.mulVec y a) (a : Fin m) :
    0 ≤ y a := by
  have : Nonempty (Fin m) := ⟨a⟩
  obtain ⟨a0, ha0⟩ := Finite.exists_min fun a => y a / v a
  by_contra hneg
  push Not at hneg
  obtain ⟨t, ht⟩ : ∃ t, t = -(y a0 / v a0) := ⟨_, rfl⟩
  have ht0 : 0 < t := by
    have h1 := ha0 a
    have h2 := div_neg_of_neg_of_pos hneg (hv a)
    rw [ht]
    linarith
  have hz : ∀ b, 0 ≤ y b + t * v b := fun b => by
    have h1 := ha0 b
    have h2 : -t ≤ y b / v b := by rw [ht, neg_neg]; exact h1
    rw [le_div_iff₀ (hv b)] at h2
    linarith
  have hz0 : y a0 + t * v a0 = 0 := by
    rw [ht]
    field_simp [(hv a0).ne']
    ring
  have h1 : B.mulVec (fun b => y b + t * v b) a0 = B.mulVec y a0 + t * B.mulVec v a0 := by
    change ∑ b, B a0 b * (y b + t * v b) = ∑ b, B a0 b * y b + t * ∑ b, B a0 b * v b
    rw [mul_sum, ← sum_add_distrib]
    exact sum_congr rfl fun b _ => by ring
  have h2 : B.mulVec (fun b => y b + t * v b) a0 ≤ 0 := by
    change ∑ b, B a0 b * (y b + t * v b) ≤ 0
    refine sum_nonpos fun b _ => ?_
    by_cases hb : a0 = b
    · rw [← hb, hz0, mul_zero]
    · exact mul_nonpos_of_nonpos_of_nonneg (hoff a0 b hb) (hz b)
  have h3 := mul_pos ht0 (hBv a0)
  linarith [hy a0]

/-- Such a matrix has an inverse, and nonnegative right-hand sides have nonnegative solutions. -/
theorem exists_nonneg_solution {m : ℕ} {B : Matrix (Fin m) (Fin m) K} (hoff : ∀ a b, a ≠ b → B a b ≤ 0) {v : Fin m → K}
    (hv : ∀ a, 0 < v a) (hBv : ∀ a, 0 < B.mulVec v a) {b : Fin m → K} (hb : ∀ a, 0 ≤ b a) :
    ∃ y : Fin m → K, (∀ a, 0 ≤ y a) ∧ B.mulVec y = b := by
  have hd : B.det ≠ 0 := by
    intro h0
    obtain ⟨y, hy, hy0⟩ := Matrix.exists_mulVec_eq_zero_iff.2 h0
    apply hy
    funext a
    have h1 := monotone_of_positive hoff hv hBv (y := y) (fun a => by rw [hy0]; exact le_rfl) a
    have h2 := monotone_of_positive hoff hv hBv (y := -y) (fun a => by rw [Matrix.mulVec_neg, hy0, neg_zero]; exact le_rfl) a
    rw [Pi.neg_apply] at h2
    exact le_antisymm (by rw [Pi.zero_apply]; linarith) h1
  have hs : B.mulVec (B⁻¹.mulVec b) = b := by
    rw [Matrix.mulVec_mulVec, Matrix.mul_nonsing_inv _ (isUnit_iff_ne_zero.2 hd), Matrix.one_mulVec]
  exact ⟨_, monotone_of_positive hoff hv hBv (fun a => by rw [hs]; exact hb a), hs⟩

/-! ## The error of a solution -/

/-- The differences `P - I` of a block of the stored probabilities. -/
theorem minusEye_error {fl : K → K} {u δ e : K} (hr : Rounds fl u δ e) {n : ℕ} {M P : Matrix (Fin n) (Fin n) K}
    (hP : IsStochastic fun i j => P i j) (h : RoundedFrom δ M P) {N : List (Fin n)} (hN : N.Nodup) (a : Fin N.length) :
    ∑ b, |minusEyeF fl (subMatrix M N) a b - (P (N.get a) (N.get b) - if a = b then 1 else 0)| ≤ 3 * u + δ := by
  have hn : ∀ z, |-fl (-z) - z| ≤ u * |z| := fun z => by
    have := hr.near (-z)
    rwa [abs_neg, show fl (-z) - -z = -(-fl (-z) - z) by ring, abs_neg] at this
  have hinj : Function.Injective N.get := List.nodup_iff_injective_get.1 hN
  refine le_of_eq_of_le (sum_congr rfl fun b _ => ?_)
    (row_error (fl := fun z => -fl (-z)) hr.unit hr.data hr.lt.le hn hP h hinj a)
  unfold minusEyeF subMatrix
  rw [show -fl (-((if a = b then 1 else 0) - M (N.get a) (N.get b))) - ((if a = b then 1 else 0) - P (N.get a) (N.get b))
    = -(fl (M (N.get a) (N.get b) - if a = b then 1 else 0) - (P (N.get a) (N.get b) - if a = b then 1 else 0)) by
      rw [neg_sub]; ring, abs_neg]

/-- Entries off the diagonal are not negative. -/
theorem minusEye_off {fl : K → K} {u δ e : K} (hr : Rounds fl u δ e) {n : ℕ} {M P : Matrix (Fin n) (Fin n) K}
    (hP : IsStochastic fun i j => P i j) (h : RoundedFrom δ M P) {N : List (Fin n)} {a b : Fin N.length} (hab : a ≠ b) :
    0 ≤ minusEyeF fl (subMatrix M N) a b := by
  unfold minusEyeF subMatrix
  rw [if_neg hab, sub_zero]
  have h0 := hP.1 (N.get a) (N.get b)
  have hM : 0 ≤ M (N.get a) (N.get b) := by
    have h1 := (abs_le.1 (h (N.get a) (N.get b))).1
    have h2 := mul_le_mul_of_nonneg_right hr.lt.le h0
    dsimp only at h0 h2
    linarith
  have h1 := (abs_le.1 (hr.near (M (N.get a) (N.get b)))).1
  rw [abs_of_nonneg hM] at h1
  have h2 : u * M (N.get a) (N.get b) ≤ 1 * M (N.get a) (N.get b) :=
    mul_le_mul_of_nonneg_right (by linarith [hr.small, hr.unit, hr.data]) hM
  change 0 ≤ fl (M (N.get a) (N.get b))
  linarith

/-- The general bound. The values `d` on the targets are known, `x` solves the first-step equations with the terms `c`,
and `ρ` bounds the errors of the right-hand sides. -/
theorem nnls_error {fl : K → K} {u δ e : K} (hr : Rounds fl u δ e) {n : ℕ} {M P : Matrix (Fin n) (Fin n) K}
    (hP : IsStochastic fun i j => P i j) (hM : RoundedFrom δ M P) {S N : List (Fin n)} (hnd : N.Nodup)
    (hmem : ∀ i, i ∈ N ↔ i ∉ S) (hS : ∀ i, ∃ b, b ∈ S ∧ Reach (fun i j => P i j) i b) {m : Fin n → K}
    (hm : IsPassageTime (fun i j => P i j) (· ∈ S) m) {nnls : Nnls K} (hs : nnls.Stable e)
    {rhs : Fin N.length → K} (hrhs : ∀ a, rhs a ≤ 0) {d c x : Fin n → K} {ρ : K} (hρ : 0 ≤ ρ)
    (hb : ∀ a, |rhs a + ∑ j with j ∉ N, P (N.get a) j * d j + c (N.get a)| ≤ ρ)
    (hx : ∀ i, i ∈ S → x i = d i) (hx2 : ∀ i, i ∉ S → x i - ∑ j, P i j * x j = c i) {V T : K} (hV : ∀ i, |x i| ≤ V)
    (hT : ∀ i, m i ≤ T) (hη : (3 * e + (3 * u + δ)) * (T + 1) ≤ 1 / 2) (i : Fin n) :
    |assignAt N (nnls _ (minusEyeF fl (subMatrix M N)) rhs) d i - x i| ≤
      (2 * (3 * e + (3 * u + δ)) * (V + ρ * (T + 1)) + ρ) * (m i + 1) := by
  have : Nonempty (Fin n) := ⟨i⟩
  have hm0 := passageTime_ge_zero hP hS hm
  obtain ⟨A, hA⟩ : ∃ A, A = minusEyeF fl (subMatrix M N) := ⟨_, rfl⟩
  have hrow : ∀ a, ∑ b, |A a b - (P (N.get a) (N.get b) - if a = b then 1 else 0)| ≤ 3 * u + δ := by
    rw [hA]
    exact minusEye_error hr hP hM hnd
  have hoff : ∀ a b, a ≠ b → 0 ≤ A a b := by
    rw [hA]
    exact fun a b hab => minusEye_off hr hP hM hab
  obtain ⟨κ, hκ⟩ : ∃ κ, κ = 3 * u + δ := ⟨_, rfl⟩
  have hκ0 : 0 ≤ κ := by rw [hκ]; linarith [hr.unit, hr.data]
  have hκ1 : κ ≤ 1 := by rw [hκ]; exact hr.small
  rw [← hκ] at hrow hη ⊢
  have he := hr.solver
  have hη0 : 0 ≤ 3 * e + κ := by linarith
  /- The exact block applied to a vector on the block. -/
  have hblock : ∀ (g : Fin n → K) a, ∑ b, (P (N.get a) (N.get b) - if a = b then 1 else 0) * g (N.get b) =
      ∑ j, P (N.get a) j * g j - ∑ j with j ∉ N, P (N.get a) j * g j - g (N.get a) := by
    intro g a
    have h1 : ∀ b, (P (N.get a) (N.get b) - if a = b then 1 else 0) * g (N.get b) =
        P (N.get a) (N.get b) * g (N.get b) - (if a = b then 1 else 0) * g (N.get b) := fun b => by ring
    rw [sum_congr rfl fun b _ => h1 b, sum_sub_distrib, sum_split hnd fun j => P (N.get a) j * g j]
    simp
  /- The computed system has a nonnegative solution. -/
  have hT1 : 0 < T + 1 := by linarith [hm0 i, hT i]
  have hsol : ∃ y : Fin N.length → K, (∀ a, 0 ≤ y a) ∧ A.mulVec y = rhs := by
    have hpos : ∀ a, 0 < (-A).mulVec (fun a => m (N.get a) + 1) a := fun a => by
      rw [Matrix.neg_mulVec, Pi.neg_apply]
      change 0 < -∑ b, A a b * (m (N.get b) + 1)
      have h1 := row_apply (x := fun b => m (N.get b) + 1) (X := T + 1) (hrow a)
        (fun b => by rw [abs_of_nonneg (by linarith [hm0 (N.get b)])]; linarith [hT (N.get b)]) hT1.le
      have h2 := hblock (fun j => m j + 1) a
      have h3 := hm.2 (N.get a) ((hmem _).1 (List.get_mem N a))
      have h4 : ∑ j, P (N.get a) j * (m j + 1) = ∑ j, P (N.get a) j * m j + 1 := by
        have h8 := hP.2 (N.get a)
        dsimp only at h8
        simp only [mul_add, mul_one, sum_add_distrib, h8]
      have h5 : 0 ≤ ∑ j with j ∉ N, P (N.get a) j * (m j + 1) :=
        sum_nonneg fun j _ => mul_nonneg (hP.1 _ j) (by linarith [hm0 j])
      have h6 := (abs_le.1 h1).2
      have h7 : κ * (T + 1) ≤ (3 * e + κ) * (T + 1) := mul_le_mul_of_nonneg_right (by linarith) hT1.le
      dsimp only at h2 h3 h4 h6
      linarith
    obtain ⟨y, hy, hy2⟩ := exists_nonneg_solution (B := -A) (v := fun a => m (N.get a) + 1) (b := fun a => -rhs a)
      (fun a b hab => by rw [Matrix.neg_apply]; linarith [hoff a b hab]) (fun a => by linarith [hm0 (N.get a)])
      hpos (fun a => by linarith [hrhs a])
    refine ⟨y, hy, ?_⟩
    rw [Matrix.neg_mulVec] at hy2
    funext a
    have := congrFun hy2 a
    rw [Pi.neg_apply] at this
    linarith
  obtain ⟨-, hres⟩ := hs _ A rhs hsol
  rw [← hA]
  obtain ⟨z, hz⟩ : ∃ z, z = nnls N.length A rhs := ⟨_, rfl⟩
  rw [← hz] at hres ⊢
  obtain ⟨x', hx'⟩ : ∃ x', x' = assignAt N z d := ⟨_, rfl⟩
  rw [← hx']
  have hget : ∀ a, x' (N.get a) = z a := fun a => by rw [hx']; exact assignAt_get hnd z d a
  have hout : ∀ j, j ∉ N → x' j = d j := fun j hj => by rw [hx']; exact assignAt_notMem z d hj
  obtain ⟨j0, hj0⟩ := Finite.exists_max fun j => |x' j|
  obtain ⟨X, hX⟩ : ∃ X, X = |x' j0| := ⟨_, rfl⟩
  have hxX : ∀ j, |x' j| ≤ X := fun j => by rw [hX]; exact hj0 j
  have hX0 : 0 ≤ X := by rw [hX]; exact abs_nonneg _
  have hnorm : ∀ a, ∑ b, |A a b| ≤ 3 := fun a => by
    have h1 := row_norm hP (List.nodup_iff_injective_get.1 hnd) a
    calc ∑ b, |A a b| ≤ ∑ b, (|A a b - (P (N.get a) (N.get b) - if a = b then 1 else 0)| +
          |(if a = b then 1 else 0) - P (N.get a) (N.get b)|) := by
          refine sum_le_sum fun b _ => ?_
          have := abs_add_le (A a b - (P (N.get a) (N.get b) - if a = b then 1 else 0))
            (P (N.get a) (N.get b) - if a = b then 1 else 0)
          rwa [sub_add_cancel, abs_sub_comm (P (N.get a) (N.get b))] at this
      _ ≤ 3 := by
          rw [sum_add_distrib]
          linarith [hrow a]
  have hzX : ∀ a, |z a| ≤ X := fun a => by rw [← hget a]; exact hxX _
  have herr : ∀ i, |x' i - x i| ≤ ((3 * e + κ) * X + ρ) * (m i + 1) := by
    refine residual_error hP hS hm (b := fun i => if i ∈ S then d i else c i) (fun i hi => ?_) (fun i hi => ?_)
      (fun i hi => ?_) (fun i hi => ?_)
    · rw [if_pos hi]
      exact hx i hi
    · rw [if_neg hi]
      exact hx2 i hi
    · rw [if_pos hi, hout i fun h => (hmem i).1 h hi, sub_self, abs_zero]
      exact add_nonneg (mul_nonneg hη0 hX0) hρ
    · rw [if_neg hi]
      obtain ⟨a, rfl⟩ := List.get_of_mem ((hmem i).2 hi)
      have h1 := hres 3 X hnorm hzX a
      have h2 := row_apply (hrow a) hzX hX0
      have h3 := hblock x' a
      have h4 : ∑ j with j ∉ N, P (N.get a) j * x' j = ∑ j with j ∉ N, P (N.get a) j * d j :=
        sum_congr rfl fun j hj => by rw [hout j (mem_filter.1 hj).2]
      simp only [hget] at h3
      rw [h4] at h3
      change |∑ b, A a b * z b - rhs a| ≤ _ at h1
      have h5 := abs_le.1 h1
      have h6 := abs_le.1 h2
      have h7 := abs_le.1 (hb a)
      rw [hget]
      rw [abs_le]
      constructor <;> linarith
  have hXV : X ≤ 2 * (V + ρ * (T + 1)) := by
    have h1 := herr j0
    have h2 : X ≤ |x j0| + |x' j0 - x j0| := by
      have := abs_add_le (x j0) (x' j0 - x j0)
      rwa [add_sub_cancel, ← hX] at this
    have h3 : ((3 * e + κ) * X + ρ) * (m j0 + 1) ≤ ((3 * e + κ) * X + ρ) * (T + 1) :=
      mul_le_mul_of_nonneg_left (by linarith [hT j0]) (add_nonneg (mul_nonneg hη0 hX0) hρ)
    have h4 : (3 * e + κ) * X * (T + 1) ≤ 1 / 2 * X := by
      have := mul_le_mul_of_nonneg_right hη hX0
      linarith
    linarith [hV j0]
  refine (herr i).trans (mul_le_mul_of_nonneg_right ?_ (by linarith [hm0 i]))
  have := mul_le_mul_of_nonneg_left hXV hη0
  linarith

/-! ## Hitting probabilities and times -/

/-- The targets of an accepted argument are distinct. -/
theorem hittingTargets_nodup {c : MC K} (hc : c.states.Nodup) {targets : Option (PyVal K)} {S : List (Fin c.n)}
    (h : hittingTargets c targets = .ok S) : S.Nodup := by
  cases targets with
  | none =>
    cases h
    exact List.nodup_finRange _
  | some v =>
    change (validateLabelsCurrent v c.states false none >>= _) = _ at h
    rw [R.bind_ok] at h
    obtain ⟨l, hl, h⟩ := h
    cases h
    obtain ⟨h1, -, -⟩ := labelsCurrent_sound hc hl
    exact toStates_nodup (h1.imp fun h => ne_of_lt h)

/-- The right-hand sides of the system of the hitting probabilities. -/
theorem rhs_error {fl : K → K} {u δ e w : K} (hr : Rounds fl u δ e) {n : ℕ} {M P : Matrix (Fin n) (Fin n) K}
    (hP : IsStochastic fun i j => P i j) (hM : RoundedFrom δ M P) {S : List (Fin n)} (hS : S.Nodup)
    {sum : List K → K} (hw0 : 0 ≤ w) (hw1 : w ≤ 1) (hw : StableSum sum w) (i : Fin n) :
    sum (S.map fun j => -M i j) ≤ 0 ∧ |sum (S.map fun j => -M i j) + ∑ j ∈ S.toFinset, P i j| ≤ 2 * w + δ := by
  have hM0 : ∀ j, 0 ≤ M i j := fun j => by
    have h0 := hP.1 i j
    have h1 := (abs_le.1 (hM i j)).1
    have h2 := mul_le_mul_of_nonneg_right hr.lt.le h0
    dsimp only at h0 h2
    linarith
  have h1 : (S.map fun j => -M i j).sum = -∑ j ∈ S.toFinset, M i j := by
    rw [List.sum_toFinset _ hS]
    exact sum_map_neg _ _
  have h2 : ((S.map fun j => -M i j).map fun x => |x|).sum = ∑ j ∈ S.toFinset, M i j := by
    rw [List.sum_toFinset _ hS, List.map_map]
    congr 1
    refine List.map_congr_left fun j _ => ?_
    change |(-M i j)| = M i j
    rw [abs_neg, abs_of_nonneg (hM0 j)]
  have h3 := hw (S.map fun j => -M i j)
  rw [h1, h2] at h3
  have hP1 : ∑ j ∈ S.toFinset, P i j ≤ 1 :=
    (sum_le_univ_sum_of_nonneg fun j => hP.1 i j).trans_eq (hP.2 i)
  have h4 : |∑ j ∈ S.toFinset, M i j - ∑ j ∈ S.toFinset, P i j| ≤ δ * ∑ j ∈ S.toFinset, P i j := by
    rw [← sum_sub_distrib, mul_sum]
    exact (abs_sum_le_sum_abs _ _).trans (sum_le_sum fun j _ => hM i j)
  have h5 : 0 ≤ ∑ j ∈ S.toFinset, M i j := sum_nonneg fun j _ => hM0 j
  generalize ∑ j ∈ S.toFinset, M i j = a at h3 h4 h5
  generalize ∑ j ∈ S.toFinset, P i j = b at h4 hP1 ⊢
  generalize sum (S.map fun j => -M i j) = s at h3 ⊢
  have h6 := abs_le.1 h3
  have h7 := abs_le.1 h4
  have h8 := mul_le_mul_of_nonneg_right hw1 h5
  have h9 := mul_le_mul_of_nonneg_left hP1 hr.data
  have h10 : a ≤ 2 := by linarith [hr.lt]
  have h11 := mul_le_mul_of_nonneg_left h10 hw0
  refine ⟨by linarith, ?_⟩
  rw [abs_le]
  constructor <;> linarith

/-- C171. **Hitting probabilities with rounding.** If the targets are reached from every state, all the probabilities
are one. The stored probabilities have the relative error `δ`, differences `u`, sums `w`, and `nnls` has the
constant `e`: the returned numbers differ from one by at most a multiple of the mean time until the targets are
visited. -/
theorem C171_probabilities {c : MC K} {P : Matrix (Fin c.n) (Fin c.n) K} (hP : IsStochastic fun i j => P i j)
    (hl : c.states.Nodup) {fl : K → K} {u δ e w : K} (hr : Rounds fl u δ e) (hw0 : 0 ≤ w) (hw1 : w ≤ 1)
    (hc : RoundedFrom δ c.p P) {nnls : Nnls K} (hs : nnls.Stable e) {sum : List K → K} (hw : StableSum sum w)
    {targets : Option (PyVal K)} {S : List (Fin c.n)} (hS : hittingTargets c targets = .ok S)
    (hreach : ∀ i, ∃ b, b ∈ S ∧ Reach (fun i j => P i j) i b) {m : Fin c.n → K}
    (hm : IsPassageTime (fun i j => P i j) (· ∈ S) m) {T : K} (hT : ∀ i, m i ≤ T)
    (hη : (3 * e + 3 * u + 2 * δ + 2 * w) * (T + 1) ≤ 1 / 4) {h : Fin c.n → K}
    (hh : hittingProbabilitiesF fl nnls sum c targets = .ok h) (i : Fin c.n) :
    |h i - 1| ≤ 3 * (3 * e + 3 * u + 2 * δ + 2 * w) * (m i + 1) ∧ (i ∈ S → h i = 1) := by
  have hnd := hittingTargets_nodup hl hS
  unfold hittingProbabilitiesF at hh
  rw [hS, R.ok_bind, R.pure_ok] at hh
  have hm0 := passageTime_ge_zero hP hreach hm i
  have hT1 : 0 ≤ T + 1 := by linarith [hT i]
  have hu := hr.unit
  have hd := hr.data
  have he := hr.solver
  have hbound : 0 ≤ 3 * (3 * e + 3 * u + 2 * δ + 2 * w) * (m i + 1) :=
    mul_nonneg (by linarith) (by linarith)
  rw [← hh]
  unfold mcHittingProbabilitiesF
  split
  · have hfil : univ.filter (fun j => j ∉ complementIdx S) = S.toFinset := by
      ext j
      simp [mem_complementIdx]
    have key := nnls_error hr hP hc (complementIdx_nodup S) (fun i => mem_complementIdx) hreach hm hs
      (rhs := fun a => sum (S.map fun j => -c.p ((complementIdx S).get a) j)) (fun a => (rhs_error hr hP hc hnd hw0 hw1 hw _).1)
      (d := fun _ => 1) (c := fun _ => 0) (x := fun _ => 1) (ρ := 2 * w + δ) (by linarith)
      (fun a => by
        rw [add_zero, hfil]
        simp only [mul_one]
        exact (rhs_error hr hP hc hnd hw0 hw1 hw _).2)
      (fun i _ => rfl)
      (fun i _ => by
        have := hP.2 i
        dsimp only at this
        simp only [mul_one]
        rw [this, sub_self])
      (V := 1) (fun i => abs_one.le) hT
      ((mul_le_mul_of_nonneg_right (by linarith) hT1).trans (hη.trans (by norm_num))) i
    refine ⟨key.trans (mul_le_mul_of_nonneg_right ?_ (by linarith)), fun hi => assignAt_notMem _ _ fun h => mem_complementIdx.1 h hi⟩
    have h1 : (2 * w + δ) * (T + 1) ≤ 1 / 4 :=
      (mul_le_mul_of_nonneg_right (by linarith) hT1).trans hη
    have h2 : 2 * (3 * e + (3 * u + δ)) * (1 + (2 * w + δ) * (T + 1)) ≤ 2 * (3 * e + (3 * u + δ)) * (5 / 4) :=
      mul_le_mul_of_nonneg_left (by linarith) (by linarith)
    linarith
  · rw [sub_self, abs_zero]
    exact ⟨hbound, fun _ => rfl⟩

/-- C171. **Hitting times with rounding.** Under the same hypotheses no time is reported as infinite, and the error at a
state is at most `2 (3 e + 3 u + 2 δ + 2 w) T` times one more than the mean time there. -/
theorem C171_times {c : MC K} {P : Matrix (Fin c.n) (Fin c.n) K} (hP : IsStochastic fun i j => P i j)
    (hl : c.states.Nodup) {fl : K → K} {u δ e w : K} (hr : Rounds fl u δ e) (hw0 : 0 ≤ w) (hw1 : w ≤ 1)
    (hc : RoundedFrom δ c.p P) {nnls : Nnls K} (hs : nnls.Stable e) {sum : List K → K} (hw : StableSum sum w)
    {targets : Option (PyVal K)} {S : List (Fin c.n)} (hS : hittingTargets c targets = .ok S)
    (hreach : ∀ i, ∃ b, b ∈ S ∧ Reach (fun i j => P i j) i b) {m : Fin c.n → K}
    (hm : IsPassageTime (fun i j => P i j) (· ∈ S) m) {T : K} (hT : ∀ i, m i ≤ T)
    (hη : (3 * e + 3 * u + 2 * δ + 2 * w) * (T + 1) ≤ 1 / 4) {t : Fin c.n → Option K}
    (ht : hittingTimesF fl nnls sum c targets = .ok t) (i : Fin c.n) :
    ∃ x, t i = some x ∧ (i ∈ S → x = 0) ∧ |x - m i| ≤ 2 * (3 * e + 3 * u + 2 * δ + 2 * w) * T * (m i + 1) := by
  have hm0 := passageTime_ge_zero hP hreach hm
  have hT0 : 0 ≤ T := (hm0 i).trans (hT i)
  have hu := hr.unit
  have hd := hr.data
  have he := hr.solver
  have hη0 : 0 ≤ 3 * e + 3 * u + 2 * δ + 2 * w := by linarith
  unfold hittingTimesF at ht
  rw [hS, R.ok_bind, R.pure_ok] at ht
  have hempty : (univ.filter fun i => isclose (mcHittingProbabilitiesF fl nnls sum c.p S i) 0 = true) = ∅ := by
    rw [filter_eq_empty_iff]
    intro j _ hj
    have h1 := (C171_probabilities hP hl hr hw0 hw1 hc hs hw hS hreach hm hT hη
      (h := mcHittingProbabilitiesF fl nnls sum c.p S) (by unfold hittingProbabilitiesF; rw [hS]; rfl) j).1
    have h2 : (3 * e + 3 * u + 2 * δ + 2 * w) * (m j + 1) ≤ 1 / 4 :=
      (mul_le_mul_of_nonneg_left (by linarith [hT j]) hη0).trans hη
    unfold isclose at hj
    rw [decide_eq_true_eq, abs_zero, mul_zero, add_zero, sub_zero] at hj
    have h3 := (abs_le.1 h1).1
    have h4 := (abs_le.1 hj).2
    have h5 : (1 : K) / 10 ^ 8 < 1 / 4 := by norm_num
    linarith
  have hI : infinityLoop c.p S (c.n + 2) 0 ∅ = ∅ := by
    unfold infinityLoop
    rw [if_neg]
    rw [card_empty]
    exact fun h => h rfl
  unfold mcHittingTimesF at ht
  dsimp only at ht
  rw [hempty, hI] at ht
  obtain ⟨N, hN⟩ : ∃ N, N = (List.finRange c.n).filter fun i => decide (i ∉ S ∧ i ∉ (∅ : Finset (Fin c.n))) := ⟨_, rfl⟩
  have hmem : ∀ i, i ∈ N ↔ i ∉ S := fun i => by rw [hN]; simp
  have hnd : N.Nodup := by rw [hN]; exact (List.nodup_finRange _).filter _
  rw [← hN] at ht
  have key := nnls_error hr hP hc hnd hmem hreach hm hs (rhs := fun _ => -1) (fun a => by linarith [zero_lt_one' K])
    (d := fun _ => 0) (c := fun _ => 1) (x := m) (ρ := 0) le_rfl (fun a => by simp) (fun i hi => hm.1 i hi)
    (fun i hi => by linarith [hm.2 i hi]) (V := T) (fun i => by rw [abs_of_nonneg (hm0 i)]; exact hT i) hT
    ((mul_le_mul_of_nonneg_right (by linarith) (by linarith)).trans (hη.trans (by norm_num))) i
  have hti : t i = some (assignAt N (nnls _ (minusEyeF fl (subMatrix c.p N)) fun _ => -1) (fun _ => 0) i) := by
    rw [← ht]
    unfold assignAt
    split
    · rfl
    · exact if_neg (notMem_empty i)
  refine ⟨_, hti, fun hi => assignAt_notMem _ _ fun h => (hmem i).1 h hi, key.trans ?_⟩
  refine mul_le_mul_of_nonneg_right ?_ (by linarith [hm0 i])
  rw [zero_mul, add_zero, add_zero]
  exact mul_le_mul_of_nonneg_right (by linarith) hT0

/-- C171. With doubles, residuals and sums with at least thirteen correct digits and mean times of at most one thousand
steps, nine digits of the hitting times are right. -/
theorem C171_digits {c : MC K} {P : Matrix (Fin c.n) (Fin c.n) K} (hP : IsStochastic fun i j => P i j)
    (hl : c.states.Nodup) {fl : K → K} (hfl : ∀ z, |fl z - z| ≤ 1 / 2 ^ 53 * |z|) (hc : RoundedFrom (1 / 2 ^ 53) c.p P)
    {nnls : Nnls K} (hs : nnls.Stable (1 / 2 ^ 45)) {sum : List K → K} (hw : StableSum sum (1 / 2 ^ 45))
    {targets : Option (PyVal K)} {S : List (Fin c.n)} (hS : hittingTargets c targets = .ok S)
    (hreach : ∀ i, ∃ b, b ∈ S ∧ Reach (fun i j => P i j) i b) {m : Fin c.n → K}
    (hm : IsPassageTime (fun i j => P i j) (· ∈ S) m) (hT : ∀ i, m i ≤ 1000) {t : Fin c.n → Option K}
    (ht : hittingTimesF fl nnls sum c targets = .ok t) (i : Fin c.n) :
    ∃ x, t i = some x ∧ |x - m i| ≤ 1 / 10 ^ 9 * m i := by
  have hr : Rounds fl (1 / 2 ^ 53 : K) (1 / 2 ^ 53) (1 / 2 ^ 45) :=
    ⟨by positivity, by positivity, by positivity, by norm_num, by norm_num, hfl⟩
  obtain ⟨x, hx, hx0, hx1⟩ := C171_times hP hl hr (by positivity) (by norm_num) hc hs hw hS hreach hm hT (by norm_num) ht i
  refine ⟨x, hx, ?_⟩
  by_cases hi : i ∈ S
  · rw [hx0 hi, hm.1 i hi]
    simp
  · have h2 : 1 ≤ m i := by
      have h3 : 0 ≤ ∑ j, P i j * m j :=
        sum_nonneg fun j _ => mul_nonneg (hP.1 i j) (passageTime_ge_zero hP hreach hm j)
      linarith [hm.2 i hi]
    refine hx1.trans ?_
    norm_num
    linarith

/-! ## Exact arithmetic, and routines that round -/

set_option linter.unusedSectionVars false in
/-- C171. Without rounding the programs are those of `Model/Measures.lean`. -/
theorem C171_exact (nnls : Nnls K) (c : MC K) (targets : Option (PyVal K)) :
    hittingProbabilitiesF id nnls List.sum c targets = hittingProbabilities nnls c targets ∧
    hittingTimesF id nnls List.sum c targets = hittingTimes nnls c targets := by
  have h : ∀ {m : ℕ} (A : Matrix (Fin m) (Fin m) K), minusEyeF id A = A - 1 := fun A => by
    funext i j
    rw [Matrix.sub_apply, Matrix.one_apply]
    rfl
  have h2 : ∀ S, mcHittingProbabilitiesF id nnls List.sum c.p S = mcHittingProbabilities nnls c.p S := fun S => by
    unfold mcHittingProbabilitiesF mcHittingProbabilities
    simp only [h]
  refine ⟨?_, ?_⟩
  · unfold hittingProbabilitiesF hittingProbabilities
    simp only [h2]
  · unfold hittingTimesF hittingTimes
    refine congrArg _ (funext fun S => congrArg pure ?_)
    unfold mcHittingTimesF mcHittingTimes
    rw [h2 S]
    simp only [h]

/-- Exact results that are rounded meet the contract. -/
theorem roundedNnls_stable {nnls : Nnls K} (hnn : nnls.Sound) {fl : K → K} {u : K} (hu : 0 ≤ u) (hu2 : u ≤ 1 / 2)
    (hfl : ∀ z, |fl z - z| ≤ u * |z|) : Nnls.Stable (fun m A b i => fl (nnls m A b i)) (2 * u) := by
  intro m A b hsol
  have hAy := hnn.solves m A b hsol
  have hy := hnn.nonneg m A b
  obtain ⟨y, hy'⟩ : ∃ y, y = nnls m A b := ⟨_, rfl⟩
  rw [← hy'] at hAy
  simp only [← hy'] at hy ⊢
  refine ⟨fun i => ?_, fun N X hN hX i => ?_⟩
  · have h1 := (abs_le.1 (hfl (y i))).1
    rw [abs_of_nonneg (hy i)] at h1
    have := mul_le_mul_of_nonneg_right hu2 (hy i)
    linarith [hy i]
  · have hX0 : 0 ≤ X := (abs_nonneg _).trans (hX i)
    have hyX : ∀ j, |fl (y j) - y j| ≤ 2 * u * X := fun j => by
      have h1 : |y j| ≤ |fl (y j)| + |fl (y j) - y j| := by
        have := abs_sub (fl (y j)) (fl (y j) - y j)
        rwa [sub_sub_cancel] at this
      have h2 := hfl (y j)
      have h3 := hX j
      have h4 := mul_le_mul_of_nonneg_right hu2 (abs_nonneg (y j))
      have h5 : |y j| ≤ 2 * X := by linarith
      have h6 := mul_le_mul_of_nonneg_left h5 hu
      linarith
    rw [← hAy]
    change |∑ j, A i j * fl (y j) - ∑ j, A i j * y j| ≤ _
    rw [← sum_sub_distrib]
    refine (abs_sum_le_sum_abs _ _).trans ?_
    calc ∑ j, |A i j * fl (y j) - A i j * y j| ≤ ∑ j, |A i j| * (2 * u * X) := sum_le_sum fun j _ => by
          rw [← mul_sub, abs_mul]
          exact mul_le_mul_of_nonneg_left (hyX j) (abs_nonneg _)
      _ = (∑ j, |A i j|) * (2 * u * X) := (sum_mul _ _ _).symm
      _ ≤ N * (2 * u * X) := mul_le_mul_of_nonneg_right (hN i) (mul_nonneg (by linarith) hX0)
      _ = 2 * u * (N * X) := by ring

theorem roundedSum_stable {fl : K → K} {u : K} (hu : 0 ≤ u) (hfl : ∀ z, |fl z - z| ≤ u * |z|) :
    StableSum (fun l => fl l.sum) u := by
  intro l
  refine (hfl l.sum).trans (mul_le_mul_of_nonneg_left ?_ hu)
  induction l with
  | nil => simp
  | cons a l ih =>
    rw [List.sum_cons, List.map_cons, List.sum_cons]
    exact (abs_add_le _ _).trans (by linarith)

/-- The hypotheses of `C171_digits` can be met. -/
theorem C171_instance : ∃ (nnls : Nnls ℚ) (t : Fin exThird.n → Option ℚ), nnls.Stable (1 / 2 ^ 52) ∧
    StableSum (fun l => binary64 l.sum) (1 / 2 ^ 53) ∧ RoundedFrom (1 / 2 ^ 53) exThird.p !![1 / 3, 2 / 3; 1, 0] ∧
    exThird.states.Nodup ∧ hittingTargets exThird (some (.list [.int 1])) = .ok ([1] : List (Fin 2)) ∧
    hittingTimesF binary64 nnls (fun l => binary64 l.sum) exThird (some (.list [.int 1])) = .ok t ∧
    IsPassageTime (fun i j : Fin 2 => (!![1 / 3, 2 / 3; 1, 0] : Matrix (Fin 2) (Fin 2) ℚ) i j) (· ∈ ([1] : List (Fin 2)))
      ![3 / 2, 0] := by
  obtain ⟨nnls, hnn⟩ := exists_nnls (K := ℚ)
  have hS : hittingTargets exThird (some (.list [.int 1])) = .ok ([1] : List (Fin 2)) := by rfl
  refine ⟨fun m A b i => binary64 (nnls m A b i), mcHittingTimesF binary64 (fun m A b i => binary64 (nnls m A b i))
    (fun l => binary64 l.sum) exThird.p ([1] : List (Fin 2)), ?_, roundedSum_stable (by positivity) binary64_near, C170_instance.2.2.1, by decide, hS,
    by unfold hittingTimesF; rw [hS]; rfl, C170_instance.2.2.2.1⟩
  have := roundedNnls_stable hnn (fl := binary64) (u := 1 / 2 ^ 53) (by positivity) (by norm_num) binary64_near
  norm_num at this ⊢
  exact this

end Verif
