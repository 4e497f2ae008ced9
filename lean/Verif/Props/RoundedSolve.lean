import Verif.Model.RoundedSolve
import Verif.Props.Absorption
import Verif.Props.Passage
import Verif.Props.RoundedMeasures

/-!
# Passage times, committors and absorption with a solver that rounds (C170)

The exact quantities are those of a stochastic matrix `P`; the program sees a matrix whose entries differ from those of
`P` by a small relative error, and uses a solver that is only backward stable.
-/

namespace Verif

variable {K : Type} [Field K] [LinearOrder K] [IsStrictOrderedRing K]

open Finset

/-! ## The contracts -/

/-- The residuals of a backward stable solver are small compared with the norms of the matrix and of the solution. -/
def Solver.Stable (s : Solver K) (e : K) : Prop := ∀ (m : ℕ) (A : Matrix (Fin m) (Fin m) K) (b x : Fin m → K),
  s m A b = some x → ∀ N X, (∀ i, ∑ j, |A i j| ≤ N) → (∀ j, |x j| ≤ X) → ∀ i, |∑ j, A i j * x j - b i| ≤ e * (N * X)

/-- The same for every column of an inverse. -/
def Inverter.Stable (s : Inverter K) (e : K) : Prop := ∀ (m : ℕ) (A Z : Matrix (Fin m) (Fin m) K),
  s m A = some Z → ∀ N X j, (∀ i, ∑ k, |A i k| ≤ N) → (∀ i, |Z i j| ≤ X) →
    ∀ i, |∑ k, A i k * Z k j - (if i = j then 1 else 0)| ≤ e * (N * X)

/-- The error of a product of vectors is small compared with the product of the absolute values. -/
def DotProduct.Stable (d : DotProduct K) (w : K) : Prop := ∀ (m : ℕ) (a b : Fin m → K),
  |d m a b - ∑ i, a i * b i| ≤ w * ∑ i, |a i| * |b i|

/-- The entries of `M` are those of `P` up to the relative error `δ`, as after rounding. -/
def RoundedFrom {n : ℕ} (δ : K) (M P : Matrix (Fin n) (Fin n) K) : Prop := ∀ i j, |M i j - P i j| ≤ δ * P i j

/-- The hypotheses on the arithmetic: differences have the relative error `u`, the stored probabilities `δ`, and `e` is
the constant of the solver. -/
structure Rounds (fl : K → K) (u δ e : K) : Prop where
  unit : 0 ≤ u
  data : 0 ≤ δ
  solver : 0 ≤ e
  small : 3 * u + δ ≤ 1
  lt : δ < 1
  near : ∀ z, |fl z - z| ≤ u * |z|

/-! ## The equations -/

/-- One entry of the computed matrix. -/
theorem entry_error {fl : K → K} {u δ : K} (hu : 0 ≤ u) (hfl : ∀ z, |fl z - z| ≤ u * |z|) {a m p : K} (h : |m - p| ≤ δ * p)
    (hp : 0 ≤ p) : |fl (a - m) - (a - p)| ≤ u * (|a| + p) + (u + 1) * (δ * p) := by
  have h1 := hfl (a - m)
  have h2 : |fl (a - m) - (a - p)| ≤ |fl (a - m) - (a - m)| + |m - p| := by
    have := abs_sub_le (fl (a - m)) (a - m) (a - p)
    rwa [show a - m - (a - p) = -(m - p) by ring, abs_neg] at this
  have h3 : |a - m| ≤ |a| + p + δ * p := by
    have h4 : |a - m| ≤ |a| + |m| := abs_sub a m
    have h5 : |m| ≤ |p| + |m - p| := by
      have := abs_add_le p (m - p)
      rwa [add_sub_cancel] at this
    rw [abs_of_nonneg hp] at h5
    linarith
  have h4 := mul_le_mul_of_nonneg_left h3 hu
  calc |fl (a - m) - (a - p)| ≤ u * |a - m| + δ * p := h2.trans (add_le_add h1 h)
    _ ≤ u * (|a| + p + δ * p) + δ * p := by linarith
    _ = u * (|a| + p) + (u + 1) * (δ * p) := by ring

/-- A row of the computed matrix. -/
theorem row_error {fl : K → K} {u δ : K} (hu : 0 ≤ u) (hδ : 0 ≤ δ) (hδ1 : δ ≤ 1) (hfl : ∀ z, |fl z - z| ≤ u * |z|)
    {n m : ℕ} {M P : Matrix (Fin n) (Fin n) K} (hP : IsStochastic fun i j => P i j) (h : RoundedFrom δ M P)
    {g : Fin m → Fin n} (hg : Function.Injective g) (a : Fin m) :
    ∑ b, |fl ((if a = b then 1 else 0) - M (g a) (g b)) - ((if a = b then 1 else 0) - P (g a) (g b))| ≤ 3 * u + δ := by
  have hsum : ∑ b, P (g a) (g b) ≤ 1 := by
    refine le_of_le_of_eq ?_ (hP.2 (g a))
    have e : ∑ b, P (g a) (g b) = ∑ j ∈ univ.map ⟨g, hg⟩, P (g a) j := by rw [sum_map]; rfl
    rw [e]
    exact sum_le_univ_sum_of_nonneg fun j => hP.1 (g a) j
  have hone : ∑ b, |(if a = b then 1 else 0 : K)| = 1 := by
    rw [sum_eq_single a]
    · rw [if_pos rfl, abs_one]
    · intro b _ hb
      rw [if_neg (Ne.symm hb), abs_zero]
    · intro ha
      exact absurd (mem_univ a) ha
  calc _ ≤ ∑ b, (u * (|(if a = b then 1 else 0 : K)| + P (g a) (g b)) + (u + 1) * (δ * P (g a) (g b))) :=
        sum_le_sum fun b _ => entry_error hu hfl (h _ _) (hP.1 _ _)
    _ = u * (1 + ∑ b, P (g a) (g b)) + (u + 1) * (δ * ∑ b, P (g a) (g b)) := by
        rw [sum_add_distrib, ← mul_sum, ← mul_sum, ← mul_sum, sum_add_distrib, hone]
    _ ≤ u * (1 + 1) + (u + 1) * (δ * 1) := by
        have h1 := mul_le_mul_of_nonneg_left hsum hu
        have h2 := mul_le_mul_of_nonneg_left hsum hδ
        have h3 := mul_le_mul_of_nonneg_left h2 (by linarith : 0 ≤ u + 1)
        linarith
    _ ≤ 3 * u + δ := by
        have := mul_le_mul_of_nonneg_left hδ1 hu
        linarith

/-- The absolute values in a row of `I - P`. -/
theorem row_norm {n m : ℕ} {P : Matrix (Fin n) (Fin n) K} (hP : IsStochastic fun i j => P i j) {g : Fin m → Fin n}
    (hg : Function.Injective g) (a : Fin m) : ∑ b, |(if a = b then 1 else 0) - P (g a) (g b)| ≤ 2 := by
  have hsum : ∑ b, P (g a) (g b) ≤ 1 := by
    refine le_of_le_of_eq ?_ (hP.2 (g a))
    have e : ∑ b, P (g a) (g b) = ∑ j ∈ univ.map ⟨g, hg⟩, P (g a) j := by rw [sum_map]; rfl
    rw [e]
    exact sum_le_univ_sum_of_nonneg fun j => hP.1 (g a) j
  have hone : ∑ b, (if a = b then 1 else 0 : K) = 1 := by simp
  calc _ ≤ ∑ b, ((if a = b then 1 else 0 : K) + P (g a) (g b)) := sum_le_sum fun b _ => by
        have h0 : (0 : K) ≤ if a = b then 1 else 0 := by split_ifs <;> norm_num
        have := abs_sub (if a = b then 1 else 0 : K) (P (g a) (g b))
        rwa [abs_of_nonneg h0, abs_of_nonneg (hP.1 (g a) (g b))] at this
    _ ≤ 2 := by
        rw [sum_add_distrib, hone]
        linarith

/-- A row product with the computed matrix and with the exact one. -/
theorem row_apply {m : ℕ} {a' a x : Fin m → K} {κ X : K} (h : ∑ j, |a' j - a j| ≤ κ) (hx : ∀ j, |x j| ≤ X) (hX : 0 ≤ X) :
    |∑ j, a' j * x j - ∑ j, a j * x j| ≤ κ * X := by
  rw [← sum_sub_distrib]
  refine (abs_sum_le_sum_abs _ _).trans ?_
  refine le_trans ?_ (mul_le_mul_of_nonneg_right h hX)
  rw [sum_mul]
  refine sum_le_sum fun j _ => ?_
  rw [← sub_mul, abs_mul]
  exact mul_le_mul_of_nonneg_left (hx j) (abs_nonneg _)

/-- Solutions of the first-step equations up to residuals: the error at a state is at most the residual times one
more than the mean time until the boundary is visited. -/
theorem residual_error {n : ℕ} {P : Fin n → Fin n → K} (hP : IsStochastic P) {B : Fin n → Prop}
    (hB : ∀ i, ∃ b, B b ∧ Reach P i b) {m : Fin n → K} (hm : IsPassageTime P B m) {x x' b : Fin n → K} {r : K}
    (hx : ∀ i, B i → x i = b i) (hx2 : ∀ i, ¬ B i → x i - ∑ j, P i j * x j = b i)
    (h1 : ∀ i, B i → |x' i - b i| ≤ r) (h2 : ∀ i, ¬ B i → |x' i - ∑ j, P i j * x' j - b i| ≤ r) (i : Fin n) :
    |x' i - x i| ≤ r * (m i + 1) := by
  have key : ∀ s : K, (s = 1 ∨ s = -1) → ∀ i, 0 ≤ r * (m i + 1) + s * (x' i - x i) := by
    intro s hs
    refine min_principle hP hB (fun i hi => ?_) (fun i hi => ?_)
    · have := abs_le.1 (h1 i hi)
      rw [hm.1 i hi, hx i hi]
      rcases hs with rfl | rfl <;> linarith
    · have := abs_le.1 (h2 i hi)
      have e : ∑ j, P i j * (r * (m j + 1) + s * (x' j - x j)) = r * (∑ j, P i j * m j) + r * ∑ j, P i j
          + s * (∑ j, P i j * x' j) - s * ∑ j, P i j * x j := by
        simp only [mul_sum, ← sum_add_distrib, ← sum_sub_distrib]
        exact sum_congr rfl fun j _ => by ring
      rw [e, hP.2 i]
      have e2 := hm.2 i hi
      have e3 := hx2 i hi
      have e4 : r * (∑ j, P i j * m j) = r * m i - r := by rw [e2]; ring
      rw [e4]
      rcases hs with rfl | rfl <;> linarith
  rw [abs_le]
  have h3 := key 1 (Or.inl rfl) i
  have h4 := key (-1) (Or.inr rfl) i
  constructor <;> linarith

theorem passageTime_ge_zero {n : ℕ} {P : Fin n → Fin n → K} (hP : IsStochastic P) {B : Fin n → Prop}
    (hB : ∀ i, ∃ b, B b ∧ Reach P i b) {m : Fin n → K} (hm : IsPassageTime P B m) (i : Fin n) : 0 ≤ m i :=
  min_principle hP hB (fun i hi => (hm.1 i hi).ge) (fun i hi => by rw [hm.2 i hi]; linarith) i

/-- The general bound: `s` is the sign of the equations. -/
theorem solve_error {n : ℕ} (hn : 0 < n) {P : Matrix (Fin n) (Fin n) K} (hP : IsStochastic fun i j => P i j)
    {S : List (Fin n)} (hS : ∀ i, ∃ b, b ∈ S ∧ Reach (fun i j => P i j) i b) {m : Fin n → K}
    (hm : IsPassageTime (fun i j => P i j) (· ∈ S) m) {solve : Solver K} {e κ s : K} (he : 0 ≤ e) (hκ0 : 0 ≤ κ)
    (hκ : κ ≤ 1) (hs : solve.Stable e) (hs1 : |s| = 1) {A : Matrix (Fin n) (Fin n) K}
    (hA : ∀ i, i ∉ S → ∑ j, |A i j - s * ((if i = j then 1 else 0) - P i j)| ≤ κ) {b x x' : Fin n → K}
    (hsol : solve n (unitRows A S) (fun i => if i ∈ S then b i else s * b i) = some x')
    (hx : ∀ i, i ∈ S → x i = b i) (hx2 : ∀ i, i ∉ S → x i - ∑ j, P i j * x j = b i) {V T : K} (hV : ∀ i, |x i| ≤ V)
    (hT : ∀ i, m i ≤ T) (hη : (3 * e + κ) * (T + 1) ≤ 1 / 2) (i : Fin n) :
    |x' i - x i| ≤ 2 * (3 * e + κ) * V * (m i + 1) := by
  have : Nonempty (Fin n) := ⟨⟨0, hn⟩⟩
  obtain ⟨j0, hj0⟩ := Finite.exists_max fun j => |x' j|
  obtain ⟨X, hX⟩ : ∃ X, X = |x' j0| := ⟨_, rfl⟩
  have hxX : ∀ j, |x' j| ≤ X := fun j => by rw [hX]; exact hj0 j
  have hX0 : 0 ≤ X := by rw [hX]; exact abs_nonneg _
  have hrow : ∀ i, i ∉ S → ∑ j, |A i j| ≤ 3 := fun i hi => by
    have h1 := row_norm hP Function.injective_id i
    calc ∑ j, |A i j| ≤ ∑ j, (|A i j - s * ((if i = j then 1 else 0) - P i j)| + |(if i = j then 1 else 0) - P i j|) := by
          refine sum_le_sum fun j _ => ?_
          have := abs_add_le (A i j - s * ((if i = j then 1 else 0) - P i j)) (s * ((if i = j then 1 else 0) - P i j))
          rwa [sub_add_cancel, abs_mul s, hs1, one_mul] at this
      _ ≤ 3 := by
          rw [sum_add_distrib]
          have := hA i hi
          simp only [id_eq] at h1
          linarith
  have hN : ∀ i, ∑ j, |unitRows A S i j| ≤ 3 := fun i => by
    unfold unitRows
    by_cases hi : i ∈ S
    · simp only [if_pos hi]
      rw [sum_eq_single i]
      · rw [if_pos rfl, abs_one]
        norm_num
      · intro j _ hj
        rw [if_neg (Ne.symm hj), abs_zero]
      · intro h
        exact absurd (mem_univ i) h
    · simp only [if_neg hi]
      exact hrow i hi
  have hres := hs n _ _ _ hsol 3 X hN hxX
  have hr : ∀ i, |(if i ∈ S then x' i else ∑ j, A i j * x' j) - (if i ∈ S then b i else s * b i)| ≤ 3 * e * X :=
    fun i => by
      have h1 := hres i
      have h2 := unitRows_mulVec A S x' i
      have h3 : ∑ j, unitRows A S i j * x' j = (unitRows A S).mulVec x' i := rfl
      rw [h3, h2] at h1
      linarith
  have herr : ∀ i, |x' i - x i| ≤ (3 * e + κ) * X * (m i + 1) := by
    refine residual_error hP hS hm hx hx2 (fun i hi => ?_) (fun i hi => ?_)
    · have := hr i
      rw [if_pos hi, if_pos hi] at this
      have := mul_nonneg hκ0 hX0
      linarith
    · have h1 := hr i
      rw [if_neg hi, if_neg hi] at h1
      have h2 := row_apply (hA i hi) hxX hX0
      have h3 : ∑ j, s * ((if i = j then 1 else 0) - P i j) * x' j = s * (x' i - ∑ j, P i j * x' j) := by
        have h4 : ∀ j, s * ((if i = j then 1 else 0) - P i j) * x' j =
            s * ((if i = j then 1 else 0) * x' j) - s * (P i j * x' j) := fun j => by ring
        rw [sum_congr rfl fun j _ => h4 j, sum_sub_distrib, ← mul_sum, ← mul_sum, mul_sub]
        simp
      rw [h3] at h2
      have h5 : |x' i - ∑ j, P i j * x' j - b i| = |s * (x' i - ∑ j, P i j * x' j) - s * b i| := by
        rw [← mul_sub, abs_mul, hs1, one_mul]
      rw [h5]
      have h6 := abs_sub_le (s * (x' i - ∑ j, P i j * x' j)) (∑ j, A i j * x' j) (s * b i)
      rw [abs_sub_comm] at h2
      linarith
  have hη0 : 0 ≤ 3 * e + κ := by linarith
  have hXV : X ≤ 2 * V := by
    have h1 := herr j0
    have h2 : X ≤ |x j0| + |x' j0 - x j0| := by
      have := abs_add_le (x j0) (x' j0 - x j0)
      rwa [add_sub_cancel, ← hX] at this
    have h3 : (3 * e + κ) * X * (m j0 + 1) ≤ (3 * e + κ) * X * (T + 1) :=
      mul_le_mul_of_nonneg_left (by linarith [hT j0]) (mul_nonneg hη0 hX0)
    have h4 : (3 * e + κ) * X * (T + 1) ≤ 1 / 2 * X := by
      have := mul_le_mul_of_nonneg_right hη hX0
      linarith
    linarith [hV j0]
  refine (herr i).trans (mul_le_mul_of_nonneg_right ?_ (by linarith [passageTime_ge_zero hP hS hm i]))
  have := mul_le_mul_of_nonneg_left hXV hη0
  linarith

/-! ## Mean first passage times and committors -/

theorem orRaise_ok {α : Type} {o : Option α} {x : α} (h : orRaise o = .ok x) : o = some x := by
  cases o with
  | none => cases h
  | some y => cases h; rfl

/-- C170. **Mean first passage times with rounding.** The stored probabilities are those of an irreducible chain `P` up
to a relative error `δ`, differences are rounded with a relative error `u`, and the solver is backward stable with the
constant `e`. If the largest mean first passage time `T` is not too large, the returned times have a relative error of
about `2 (3 e + 3 u + δ) T`: the largest time is the condition number. -/
theorem C170_passage_times {c : MC K} {P : Matrix (Fin c.n) (Fin c.n) K} (hP : IsStochastic fun i j => P i j)
    (hirr : Irreducible fun i j => P i j) {fl : K → K} {u δ e : K} (hr : Rounds fl u δ e)
    (hc : RoundedFrom δ c.p P) {solve : Solver K}
    (hs : solve.Stable e) {nx : Nx c.n} {S : List (Fin c.n)} (hS : ∃ i, i ∈ S) {t' m : Fin c.n → K}
    (h : mfptToF fl solve c nx S = .ok (some t')) (hm : IsPassageTime (fun i j => P i j) (· ∈ S) m) {T : K}
    (hT : ∀ i, m i ≤ T) (hη : (3 * e + (3 * u + δ)) * (T + 1) ≤ 1 / 2) (i : Fin c.n) :
    |t' i - m i| ≤ 2 * (3 * e + (3 * u + δ)) * T * (m i + 1) := by
  obtain ⟨i0, hi0⟩ := hS
  have hreach : ∀ i, ∃ b, b ∈ S ∧ Reach (fun i j => P i j) i b := fun i => ⟨i0, hi0, hirr i i0⟩
  unfold mfptToF at h
  split at h
  · rw [R.bind_ok] at h
    obtain ⟨t, ht, h⟩ := h
    rw [R.pure_ok, Option.some.injEq] at h
    rw [h] at ht
    refine solve_error (s := 1) (A := eyeMinusF fl c.p) (b := fun i => if i ∈ S then 0 else 1) (Fin.pos i0) hP hreach hm hr.solver
      (by linarith [hr.unit, hr.data]) hr.small hs abs_one (fun i hi => ?_) ?_ (fun i hi => ?_) (fun i hi => ?_) (fun i => ?_) hT hη i
    · have := row_error hr.unit hr.data hr.lt.le hr.near hP hc Function.injective_id i
      simp only [one_mul]
      exact this
    · rw [← orRaise_ok ht]
      congr 1
      funext i
      split <;> simp
    · rw [if_pos hi]
      exact hm.1 i hi
    · rw [if_neg hi]
      linarith [hm.2 i hi]
    · rw [abs_of_nonneg (passageTime_ge_zero hP hreach hm i)]
      exact hT i
  · rw [R.pure_ok] at h
    cases h

set_option linter.unusedSectionVars false in
theorem oneOn_eq {n : ℕ} (A B : List (Fin n)) :
    (oneOn B : Fin n → K) = fun i => if i ∈ A ++ B then oneOn B i else -1 * oneOn B i := by
  funext i
  by_cases hi : i ∈ A ++ B
  · rw [if_pos hi]
  · rw [if_neg hi]
    unfold oneOn
    rw [if_neg fun hB => hi (List.mem_append.2 (Or.inr hB)), mul_zero]

/-- C170. The forward committor probabilities with rounding: the error at a state is about `2 (3 e + 3 u + δ)` times the
mean time until one of the sets is visited. Values that are close to zero are replaced by zero. -/
theorem C170_committor {c : MC K} {P : Matrix (Fin c.n) (Fin c.n) K} (hP : IsStochastic fun i j => P i j)
    (hirr : Irreducible fun i j => P i j) {fl : K → K} {u δ e : K} (hr : Rounds fl u δ e)
    (hc : RoundedFrom δ c.p P) {solve : Solver K}
    (hs : solve.Stable e) {nx : Nx c.n} {A B : List (Fin c.n)} (hA : ∃ i, i ∈ A)
    {q' q m : Fin c.n → K} (h : mcCommittorF fl solve c nx A B = .ok (some q'))
    (hq : IsCommittor (fun i j => P i j) (· ∈ A) (· ∈ B) q)
    (hm : IsPassageTime (fun i j => P i j) (fun i => i ∈ A ∨ i ∈ B) m) {T : K}
    (hT : ∀ i, m i ≤ T) (hη : (3 * e + (3 * u + δ)) * (T + 1) ≤ 1 / 2) (i : Fin c.n) :
    |q' i - q i| ≤ 2 * (3 * e + (3 * u + δ)) * (m i + 1) + 1 / 10 ^ 8 := by
  obtain ⟨i0, hi0⟩ := hA
  have hm' : IsPassageTime (fun i j => P i j) (· ∈ A ++ B) m :=
    ⟨fun i hi => hm.1 i (List.mem_append.1 hi), fun i hi => hm.2 i fun h => hi (List.mem_append.2 h)⟩
  have hreach : ∀ i, ∃ b, b ∈ A ++ B ∧ Reach (fun i j => P i j) i b :=
    fun i => ⟨i0, List.mem_append.2 (Or.inl hi0), hirr i i0⟩
  unfold mcCommittorF at h
  split at h
  · rw [R.bind_ok] at h
    obtain ⟨x, ht, h⟩ := h
    rw [R.pure_ok, Option.some.injEq] at h
    have key : |x i - q i| ≤ 2 * (3 * e + (3 * u + δ)) * 1 * (m i + 1) := by
      refine solve_error (s := -1) (A := minusEyeF fl c.p) (b := oneOn B) (Fin.pos i0) hP hreach hm' hr.solver
        (by linarith [hr.unit, hr.data]) hr.small hs (by simp) (fun i hi => ?_) ?_ (fun i hi => ?_) (fun i hi => ?_) (fun i => ?_) hT hη i
      · have := row_error (fl := fun z => -fl (-z)) hr.unit hr.data hr.lt.le (fun z => by
          have := hr.near (-z)
          rw [abs_neg] at this
          rwa [← abs_neg, neg_sub, sub_neg_eq_add, add_comm, ← sub_neg_eq_add]) hP hc Function.injective_id i
        refine le_of_eq_of_le (sum_congr rfl fun j _ => ?_) this
        unfold minusEyeF
        rw [neg_sub, ← abs_neg]
        simp only [id_eq]
        congr 1
        ring
      · rw [← orRaise_ok ht, unitRows_unitRows, ← oneOn_eq A B]
      · unfold oneOn
        split
        · next hB => exact hq.2.1 i hB
        · next hB => exact hq.1 i ((List.mem_append.1 hi).resolve_right hB)
      · have hA' : i ∉ A := fun h => hi (List.mem_append.2 (Or.inl h))
        have hB' : i ∉ B := fun h => hi (List.mem_append.2 (Or.inr h))
        unfold oneOn
        rw [if_neg hB', sub_eq_zero]
        exact hq.2.2.2 i hA' hB'
      · rw [abs_of_nonneg (hq.2.2.1 i).1]
        exact (hq.2.2.1 i).2
    rw [mul_one] at key
    rw [← h]
    dsimp only
    split
    · next hz =>
      unfold isclose at hz
      rw [decide_eq_true_eq, sub_zero, abs_zero, mul_zero, add_zero] at hz
      have h2 := abs_sub_le (0 : K) (x i) (q i)
      rw [zero_sub, abs_neg] at h2
      norm_num at hz h2 ⊢
      linarith
    · have : (0 : K) ≤ 1 / 10 ^ 8 := by positivity
      linarith
  · rw [R.pure_ok] at h
    cases h

/-! ## Absorption -/

theorem RoundedFrom.edge {n : ℕ} {δ : K} (hδ : δ < 1) {M P : Matrix (Fin n) (Fin n) K} (hP : ∀ i j, 0 ≤ P i j)
    (h : RoundedFrom δ M P) : (fun i j => Edge (fun i j => M i j) i j) = fun i j => Edge (fun i j => P i j) i j := by
  funext i j
  have h1 := abs_le.1 (h i j)
  refine propext ⟨fun hM => ?_, fun hp => ?_⟩
  · change 0 < M i j at hM
    change 0 < P i j
    refine lt_of_le_of_ne (hP i j) fun h0 => ?_
    rw [← h0, mul_zero] at h1
    linarith [h1.2]
  · change 0 < P i j at hp
    change 0 < M i j
    have := mul_lt_mul_of_pos_right hδ hp
    linarith [h1.1]

theorem RoundedFrom.reach {n : ℕ} {δ : K} (hδ : δ < 1) {M P : Matrix (Fin n) (Fin n) K} (hP : ∀ i j, 0 ≤ P i j)
    (h : RoundedFrom δ M P) (i j : Fin n) : Reach (fun i j => M i j) i j ↔ Reach (fun i j => P i j) i j := by
  have := h.edge hδ hP
  unfold Reach
  change Edge (fun i j => M i j) = Edge (fun i j => P i j) at this
  rw [this]

/-- Errors of a solution of the equations of a block. -/
theorem block_error {n : ℕ} {P : Matrix (Fin n) (Fin n) K} (hP : IsStochastic fun i j => P i j) {idx : List (Fin n)}
    (hnd : idx.Nodup) (hesc : Escapes P idx) {N : Matrix (Fin idx.length) (Fin idx.length) K}
    (hN : (1 - subMatrix P idx) * N = 1) {d : Fin idx.length → K} {r : K}
    (hd : ∀ a, |((1 - subMatrix P idx).mulVec d) a| ≤ r) (a : Fin idx.length) : |d a| ≤ r * ∑ b, N a b := by
  have ht : (1 - subMatrix P idx).mulVec (fun a => ∑ b, N a b) = fun _ => 1 := by
    have e : (fun a => ∑ b, N a b) = N.mulVec fun _ => 1 := by
      funext a
      change _ = ∑ b, N a b * 1
      simp
    rw [e, Matrix.mulVec_mulVec, hN, Matrix.one_mulVec]
  have key : ∀ s : K, (s = 1 ∨ s = -1) → ∀ a, 0 ≤ (r • (fun a => ∑ b, N a b) + s • d) a := by
    intro s hs
    refine sub_nonneg_solution hP hnd hesc fun a => ?_
    rw [Matrix.mulVec_add, Matrix.mulVec_smul, Matrix.mulVec_smul, ht]
    have := abs_le.1 (hd a)
    simp only [Pi.add_apply, Pi.smul_apply, smul_eq_mul]
    rcases hs with rfl | rfl <;> linarith
  have h1 := key 1 (Or.inl rfl) a
  have h2 := key (-1) (Or.inr rfl) a
  simp only [Pi.add_apply, Pi.smul_apply, smul_eq_mul] at h1 h2
  rw [abs_le]
  constructor <;> linarith

/-- One column of the computed inverse. -/
theorem inverse_error {n : ℕ} {P : Matrix (Fin n) (Fin n) K} (hP : IsStochastic fun i j => P i j) {idx : List (Fin n)}
    (hnd : idx.Nodup) (hesc : Escapes P idx) {N : Matrix (Fin idx.length) (Fin idx.length) K}
    (hN : (1 - subMatrix P idx) * N = 1) (hN0 : ∀ a b, 0 ≤ N a b) {fl : K → K} {u δ e : K} (hu : 0 ≤ u) (hδ : 0 ≤ δ)
    (he : 0 ≤ e) (h1 : 3 * u + δ ≤ 1) (hfl : ∀ z, |fl z - z| ≤ u * |z|) {M : Matrix (Fin n) (Fin n) K}
    (hc : RoundedFrom δ M P) {inv : Inverter K} (hs : inv.Stable e) {Z : Matrix (Fin idx.length) (Fin idx.length) K}
    (h : inv _ (eyeMinusF fl (subMatrix M idx)) = some Z) {T V : K} (hT : ∀ a, ∑ b, N a b ≤ T)
    (hη : (3 * e + (3 * u + δ)) * T ≤ 1 / 2) (b : Fin idx.length) (hV : ∀ a, N a b ≤ V) (a : Fin idx.length) :
    |Z a b - N a b| ≤ 2 * (3 * e + (3 * u + δ)) * V * ∑ b, N a b := by
  have hinj := hnd.injective_get
  have : Nonempty (Fin idx.length) := ⟨a⟩
  obtain ⟨j0, hj0⟩ := Finite.exists_max fun j => |Z j b|
  obtain ⟨X, hX⟩ : ∃ X, X = |Z j0 b| := ⟨_, rfl⟩
  have hxX : ∀ j, |Z j b| ≤ X := fun j => by rw [hX]; exact hj0 j
  have hX0 : 0 ≤ X := by rw [hX]; exact abs_nonneg _
  have hA : ∀ a, ∑ k, |eyeMinusF fl (subMatrix M idx) a k - ((if a = k then 1 else 0) - P (idx.get a) (idx.get k))|
      ≤ 3 * u + δ := fun a => row_error hu hδ (by linarith) hfl hP hc hinj a
  have hrow : ∀ a, ∑ k, |eyeMinusF fl (subMatrix M idx) a k| ≤ 3 := fun a => by
    have h2 := row_norm hP hinj a
    have h3 := hA a
    calc ∑ k, |eyeMinusF fl (subMatrix M idx) a k| ≤
        ∑ k, (|eyeMinusF fl (subMatrix M idx) a k - ((if a = k then 1 else 0) - P (idx.get a) (idx.get k))|
          + |(if a = k then 1 else 0) - P (idx.get a) (idx.get k)|) := by
          refine sum_le_sum fun k _ => ?_
          have := abs_add_le (eyeMinusF fl (subMatrix M idx) a k - ((if a = k then 1 else 0) - P (idx.get a) (idx.get k)))
            ((if a = k then 1 else 0) - P (idx.get a) (idx.get k))
          rwa [sub_add_cancel] at this
      _ ≤ 3 := by
          rw [sum_add_distrib]
          linarith
  have hres := hs _ _ _ h 3 X b hrow hxX
  have hη0 : 0 ≤ 3 * e + (3 * u + δ) := by linarith
  have herr : ∀ a, |Z a b - N a b| ≤ (3 * e + (3 * u + δ)) * X * ∑ b, N a b := by
    refine block_error hP hnd hesc hN fun a => ?_
    have h2 : ((1 - subMatrix P idx).mulVec fun a => N a b) a = if a = b then 1 else 0 := by
      have := congrFun (congrFun hN a) b
      rw [Matrix.one_apply] at this
      exact this
    have h3 : ((1 - subMatrix P idx).mulVec fun a => Z a b) a =
        ∑ k, ((if a = k then 1 else 0) - P (idx.get a) (idx.get k)) * Z k b := by
      change ∑ k, (1 - subMatrix P idx) a k * Z k b = _
      refine sum_congr rfl fun k _ => ?_
      rw [Matrix.sub_apply, Matrix.one_apply]
      rfl
    have h4 : (1 - subMatrix P idx).mulVec (fun a => Z a b - N a b) a =
        ((1 - subMatrix P idx).mulVec fun a => Z a b) a - ((1 - subMatrix P idx).mulVec fun a => N a b) a := by
      have : (fun a => Z a b - N a b) = (fun a => Z a b) - fun a => N a b := rfl
      rw [this, Matrix.mulVec_sub]
      rfl
    rw [h4, h2, h3]
    have h5 := row_apply (hA a) hxX hX0
    have h6 := hres a
    rw [abs_sub_comm] at h5
    have h7 := abs_sub_le (∑ k, ((if a = k then 1 else 0) - P (idx.get a) (idx.get k)) * Z k b)
      (∑ k, eyeMinusF fl (subMatrix M idx) a k * Z k b) (if a = b then 1 else 0)
    linarith
  have hXV : X ≤ 2 * V := by
    have h2 := herr j0
    have h3 : X ≤ |N j0 b| + |Z j0 b - N j0 b| := by
      have := abs_add_le (N j0 b) (Z j0 b - N j0 b)
      rwa [add_sub_cancel, ← hX] at this
    rw [abs_of_nonneg (hN0 j0 b)] at h3
    have h4 := mul_le_mul_of_nonneg_left (hT j0) (mul_nonneg hη0 hX0)
    have h5 := mul_le_mul_of_nonneg_right hη hX0
    linarith [hV j0]
  refine (herr a).trans (mul_le_mul_of_nonneg_right ?_ (sum_nonneg fun b _ => hN0 a b))
  have := mul_le_mul_of_nonneg_left hXV hη0
  linarith

/-- The exact quantities: expected numbers of visits to the transient states of `P`. -/
structure Visited {c : MC K} (P : Matrix (Fin c.n) (Fin c.n) K) (sccs : List (List (Fin c.n)))
    (N : Matrix (Fin (transientStatesIdx c.p sccs).length) (Fin (transientStatesIdx c.p sccs).length) K) : Prop where
  states : ∀ i, i ∈ transientStatesIdx c.p sccs ↔ TransientState (fun i j => P i j) i
  nonneg : ∀ a b, 0 ≤ N a b
  right : (1 - subMatrix P (transientStatesIdx c.p sccs)) * N = 1
  left : N * (1 - subMatrix P (transientStatesIdx c.p sccs)) = 1

theorem exists_visited {c : MC K} {P : Matrix (Fin c.n) (Fin c.n) K} (hP : IsStochastic fun i j => P i j) {δ : K}
    (hδ : δ < 1) (hc : RoundedFrom δ c.p P) {sccs : List (List (Fin c.n))} (h : IsClasses c.p sccs) :
    Escapes P (transientStatesIdx c.p sccs) ∧ ∃ N, Visited P sccs N := by
  have hr := hc.reach hδ hP.1
  have hesc : Escapes P (transientStatesIdx c.p sccs) := fun i => by
    obtain ⟨b, h1, h2⟩ := transient_escapes h i
    exact ⟨b, h1, (hr i b).1 h2⟩
  obtain ⟨N, -, h2, h3, h4⟩ := sub_inverse hP (transient_nodup h) hesc
  refine ⟨hesc, N, fun i => ?_, h4, h2, h3⟩
  rw [mem_transientStatesIdx h]
  unfold TransientState RecurrentState
  simp only [hr]

theorem fundamentalMatrixF_error {c : MC K} {P : Matrix (Fin c.n) (Fin c.n) K} (hP : IsStochastic fun i j => P i j)
    {fl : K → K} {u δ e : K} (hr : Rounds fl u δ e) (hc : RoundedFrom δ c.p P) {inv : Inverter K} (hs : inv.Stable e)
    {sccs : List (List (Fin c.n))} (h : IsClasses c.p sccs)
    {Z : Matrix (Fin (transientStatesIdx c.p sccs).length) (Fin (transientStatesIdx c.p sccs).length) K}
    (hf : fundamentalMatrixF fl inv c sccs = .ok (some Z)) :
    ∃ N, Visited P sccs N ∧ ∀ T V b, (∀ a, ∑ b, N a b ≤ T) → (3 * e + (3 * u + δ)) * T ≤ 1 / 2 → (∀ a, N a b ≤ V) →
      ∀ a, |Z a b - N a b| ≤ 2 * (3 * e + (3 * u + δ)) * V * ∑ b, N a b := by
  obtain ⟨hesc, N, hN⟩ := exists_visited hP hr.lt hc h
  refine ⟨N, hN, fun T V b hT hη hV a => ?_⟩
  unfold fundamentalMatrixF at hf
  split at hf
  · rw [R.pure_ok] at hf
    cases hf
  · rw [R.bind_ok] at hf
    obtain ⟨x, hx, hf⟩ := hf
    rw [R.pure_ok, Option.some.injEq] at hf
    rw [hf] at hx
    exact inverse_error hP (transient_nodup h) hesc hN.right hN.nonneg hr.unit hr.data hr.solver hr.small hr.near hc hs
      (orRaise_ok hx) hT hη b hV a

/-- C170. **The fundamental matrix with rounding**: the error of the expected number of visits to a state is about
`2 (3 e + 3 u + δ)` times the largest expected number of visits to that state times the mean time to absorption. -/
theorem C170_fundamental {c : MC K} {P : Matrix (Fin c.n) (Fin c.n) K} (hP : IsStochastic fun i j => P i j)
    {fl : K → K} {u δ e : K} (hr : Rounds fl u δ e) (hc : RoundedFrom δ c.p P) {inv : Inverter K} (hs : inv.Stable e)
    {sccs : List (List (Fin c.n))} (h : IsClasses c.p sccs)
    {Z : Matrix (Fin (transientStatesIdx c.p sccs).length) (Fin (transientStatesIdx c.p sccs).length) K}
    (hf : fundamentalMatrixF fl inv c sccs = .ok (some Z)) :
    ∃ N, Visited P sccs N ∧ ∀ T V b, (∀ a, ∑ b, N a b ≤ T) → (3 * e + (3 * u + δ)) * T ≤ 1 / 2 → (∀ a, N a b ≤ V) →
      ∀ a, |Z a b - N a b| ≤ 2 * (3 * e + (3 * u + δ)) * V * ∑ b, N a b :=
  fundamentalMatrixF_error hP hr hc hs h hf

/-- C170. **Mean absorption times with rounding**: the relative error is bounded by the number of transient states times
the largest expected number of visits. -/
theorem C170_absorption_times {c : MC K} {P : Matrix (Fin c.n) (Fin c.n) K} (hP : IsStochastic fun i j => P i j)
    {fl : K → K} {u δ e w : K} (hr : Rounds fl u δ e) (hw : 0 ≤ w) (hc : RoundedFrom δ c.p P) {inv : Inverter K}
    (hs : inv.Stable e) {dot : DotProduct K} (hd : dot.Stable w) {sccs : List (List (Fin c.n))} (h : IsClasses c.p sccs)
    {t' : Fin (transientStatesIdx c.p sccs).length → K}
    (hf : meanAbsorptionTimesF fl inv dot c sccs = .ok (some t')) :
    ∃ N, Visited P sccs N ∧ ∀ T V E, (∀ a, ∑ b, N a b ≤ T) → (3 * e + (3 * u + δ)) * T ≤ 1 / 2 → (∀ a b, N a b ≤ V) →
      E = 2 * (3 * e + (3 * u + δ)) * V * (transientStatesIdx c.p sccs).length →
      ∀ a, |t' a - ∑ b, N a b| ≤ (E + w * (1 + E)) * ∑ b, N a b := by
  unfold meanAbsorptionTimesF at hf
  split at hf
  · rw [R.pure_ok] at hf
    cases hf
  · rw [R.bind_ok] at hf
    obtain ⟨m, hm, hf⟩ := hf
    rw [R.bind_ok] at hf
    obtain ⟨Z, hZ, hf⟩ := hf
    rw [R.pure_ok, Option.some.injEq] at hf
    rw [orRaise_ok hZ] at hm
    obtain ⟨N, hN, herr⟩ := fundamentalMatrixF_error hP hr hc hs h hm
    refine ⟨N, hN, fun T V E hT hη hV hE a => ?_⟩
    have h1 : ∑ b, |Z a b - N a b| ≤ E * ∑ b, N a b := by
      refine (sum_le_sum fun b _ => herr T V b hT hη (fun a => hV a b) a).trans (le_of_eq ?_)
      rw [sum_const, card_univ, Fintype.card_fin, nsmul_eq_mul, hE]
      ring
    have h2 : |∑ b, Z a b - ∑ b, N a b| ≤ E * ∑ b, N a b := by
      rw [← sum_sub_distrib]
      exact (abs_sum_le_sum_abs _ _).trans h1
    have h3 : ∑ b, |Z a b| ≤ (1 + E) * ∑ b, N a b := by
      have : ∑ b, |Z a b| ≤ ∑ b, (N a b + |Z a b - N a b|) := sum_le_sum fun b _ => by
        have := abs_add_le (N a b) (Z a b - N a b)
        rwa [add_sub_cancel, abs_of_nonneg (hN.nonneg a b)] at this
      rw [sum_add_distrib] at this
      linarith
    have h4 := hd _ (Z a) fun _ => 1
    simp only [mul_one, abs_one] at h4
    have h5 := mul_le_mul_of_nonneg_left h3 hw
    have h6 := abs_sub_le (dot _ (Z a) fun _ => 1) (∑ b, Z a b) (∑ b, N a b)
    rw [← hf]
    dsimp only
    linarith

/-- C170. **Absorption probabilities with rounding**: the absolute error is proportional to the mean time to absorption. -/
theorem C170_absorption_probabilities {c : MC K} {P : Matrix (Fin c.n) (Fin c.n) K}
    (hP : IsStochastic fun i j => P i j) {fl : K → K} {u δ e w : K} (hr : Rounds fl u δ e) (hw : 0 ≤ w)
    (hc : RoundedFrom δ c.p P) {inv : Inverter K} (hs : inv.Stable e) {dot : DotProduct K} (hd : dot.Stable w)
    {sccs : List (List (Fin c.n))} (h : IsClasses c.p sccs)
    {B' : Fin (absorbingIdx c.p).length → Fin (transientStatesIdx c.p sccs).length → K}
    (hf : absorptionProbabilitiesF fl inv dot c sccs = .ok (some B')) :
    ∃ N, Visited P sccs N ∧ ∀ T V E, (∀ a, ∑ b, N a b ≤ T) → (3 * e + (3 * u + δ)) * T ≤ 1 / 2 → (∀ a b, N a b ≤ V) →
      E = 2 * (3 * e + (3 * u + δ)) * V * (transientStatesIdx c.p sccs).length →
      ∀ a i, |B' a i - ∑ k, N i k * P ((transientStatesIdx c.p sccs).get k) ((absorbingIdx c.p).get a)| ≤
        (2 * E + 2 * w * (1 + E) + δ) * ∑ b, N i b := by
  unfold absorptionProbabilitiesF at hf
  split at hf
  · rw [R.pure_ok] at hf
    cases hf
  · rw [R.bind_ok] at hf
    obtain ⟨m, hm, hf⟩ := hf
    rw [R.bind_ok] at hf
    obtain ⟨Z, hZ, hf⟩ := hf
    rw [R.pure_ok, Option.some.injEq] at hf
    rw [orRaise_ok hZ] at hm
    obtain ⟨N, hN, herr⟩ := fundamentalMatrixF_error hP hr hc hs h hm
    refine ⟨N, hN, fun T V E hT hη hV hE a i => ?_⟩
    have h1 : ∑ b, |Z i b - N i b| ≤ E * ∑ b, N i b := by
      refine (sum_le_sum fun b _ => herr T V b hT hη (fun a => hV a b) i).trans (le_of_eq ?_)
      rw [sum_const, card_univ, Fintype.card_fin, nsmul_eq_mul, hE]
      ring
    have hle : ∀ i j, P i j ≤ 1 := fun i j => (single_le_sum (fun k _ => hP.1 i k) (mem_univ j)).trans (hP.2 i).le
    have hM : ∀ i j, |c.p i j| ≤ 2 := fun i j => by
      have h2 := abs_add_le (P i j) (c.p i j - P i j)
      rw [add_sub_cancel, abs_of_nonneg (hP.1 i j)] at h2
      have h3 := hc i j
      have h4 := mul_le_mul hr.lt.le (hle i j) (hP.1 i j) zero_le_one
      linarith [hle i j]
    obtain ⟨r, hr1⟩ : ∃ r : Fin (transientStatesIdx c.p sccs).length → K, r = fun k =>
      c.p ((transientStatesIdx c.p sccs).get k) ((absorbingIdx c.p).get a) := ⟨_, rfl⟩
    obtain ⟨s, hs1⟩ : ∃ s : Fin (transientStatesIdx c.p sccs).length → K, s = fun k =>
      P ((transientStatesIdx c.p sccs).get k) ((absorbingIdx c.p).get a) := ⟨_, rfl⟩
    have hr2 : ∀ k, |r k| ≤ 2 := fun k => by rw [hr1]; exact hM _ _
    have hrs : ∀ k, |r k - s k| ≤ δ := fun k => by
      rw [hr1, hs1]
      refine (hc _ _).trans ?_
      have := mul_le_mul_of_nonneg_left (hle ((transientStatesIdx c.p sccs).get k) ((absorbingIdx c.p).get a)) hr.data
      linarith
    have h3 : ∑ b, |Z i b| ≤ (1 + E) * ∑ b, N i b := by
      have : ∑ b, |Z i b| ≤ ∑ b, (N i b + |Z i b - N i b|) := sum_le_sum fun b _ => by
        have := abs_add_le (N i b) (Z i b - N i b)
        rwa [add_sub_cancel, abs_of_nonneg (hN.nonneg i b)] at this
      rw [sum_add_distrib] at this
      linarith
    have h4 := hd _ (Z i) r
    have h5 : ∑ k, |Z i k| * |r k| ≤ 2 * ((1 + E) * ∑ b, N i b) := by
      refine (sum_le_sum fun k _ => mul_le_mul_of_nonneg_left (hr2 k) (abs_nonneg _)).trans ?_
      rw [← sum_mul]
      linarith
    have h6 := mul_le_mul_of_nonneg_left h5 hw
    have h7 : |∑ k, Z i k * r k - ∑ k, N i k * s k| ≤ 2 * (E * ∑ b, N i b) + δ * ∑ b, N i b := by
      have e1 : ∑ k, Z i k * r k - ∑ k, N i k * s k = ∑ k, (Z i k - N i k) * r k + ∑ k, N i k * (r k - s k) := by
        rw [← sum_sub_distrib, ← sum_add_distrib]
        exact sum_congr rfl fun k _ => by ring
      rw [e1]
      refine (abs_add_le _ _).trans (add_le_add ?_ ?_)
      · refine (abs_sum_le_sum_abs _ _).trans ?_
        refine (sum_le_sum fun k _ => ?_).trans (le_of_eq_of_le (sum_mul univ (fun k => |Z i k - N i k|) 2).symm ?_)
        · rw [abs_mul]
          exact mul_le_mul_of_nonneg_left (hr2 k) (abs_nonneg _)
        · linarith
      · refine (abs_sum_le_sum_abs _ _).trans ?_
        rw [mul_sum]
        refine sum_le_sum fun k _ => ?_
        rw [abs_mul, abs_of_nonneg (hN.nonneg i k), mul_comm]
        exact mul_le_mul_of_nonneg_right (hrs k) (hN.nonneg i k)
    have h8 := abs_sub_le (dot _ (Z i) r) (∑ k, Z i k * r k) (∑ k, N i k * s k)
    rw [← hf]
    rw [hr1] at h8 h4 h7 h6
    rw [hs1] at h8 h7
    dsimp only at h4 h6 h7 h8 ⊢
    linarith

/-- C170. With doubles, a solver whose residuals have at least thirteen correct digits and passage times of at most one
thousand steps, nine digits of the mean first passage times are right. -/
theorem C170_digits {c : MC K} {P : Matrix (Fin c.n) (Fin c.n) K} (hP : IsStochastic fun i j => P i j)
    (hirr : Irreducible fun i j => P i j) {fl : K → K} (hfl : ∀ z, |fl z - z| ≤ 1 / 2 ^ 53 * |z|)
    (hc : RoundedFrom (1 / 2 ^ 53) c.p P) {solve : Solver K} (hs : solve.Stable (1 / 2 ^ 45)) {nx : Nx c.n}
    {S : List (Fin c.n)} (hS : ∃ i, i ∈ S) {t' m : Fin c.n → K}
    (h : mfptToF fl solve c nx S = .ok (some t')) (hm : IsPassageTime (fun i j => P i j) (· ∈ S) m)
    (hT : ∀ i, m i ≤ 1000) {i : Fin c.n} (hi : i ∉ S) : |t' i - m i| ≤ 1 / 10 ^ 9 * m i := by
  have hr : Rounds fl (1 / 2 ^ 53 : K) (1 / 2 ^ 53) (1 / 2 ^ 45) :=
    ⟨by positivity, by positivity, by positivity, by norm_num, by norm_num, hfl⟩
  obtain ⟨i0, hi0⟩ := hS
  have hreach : ∀ i, ∃ b, b ∈ S ∧ Reach (fun i j => P i j) i b := fun i => ⟨i0, hi0, hirr i i0⟩
  have h1 := C170_passage_times hP hirr hr hc hs ⟨i0, hi0⟩ h hm hT (by norm_num) i
  have h2 : 1 ≤ m i := by
    have h3 : 0 ≤ ∑ j, P i j * m j :=
      sum_nonneg fun j _ => mul_nonneg (hP.1 i j) (passageTime_ge_zero hP hreach hm j)
    linarith [hm.2 i hi]
  refine h1.trans ?_
  norm_num
  linarith

/-! ## Exact arithmetic, and a solver that rounds -/

set_option linter.unusedSectionVars false in
theorem eyeMinusF_id {n : ℕ} (P : Matrix (Fin n) (Fin n) K) : eyeMinusF id P = 1 - P := by
  funext i j
  rw [Matrix.sub_apply, Matrix.one_apply]
  rfl

/-- C170. Without rounding the programs are those of C38, C39, C40 and C44. -/
theorem C170_exact (c : MC K) (nx : Nx c.n) (S : List (Fin c.n)) (sccs : List (List (Fin c.n))) :
    mfptToF id (fun _ => npSolve) c nx S = mfptTo c nx S ∧
    fundamentalMatrixF id (fun _ => npInv) c sccs = fundamentalMatrix c sccs ∧
    meanAbsorptionTimesF id (fun _ => npInv) (fun _ a b => ∑ i, a i * b i) c sccs = meanAbsorptionTimes c sccs ∧
    absorptionProbabilitiesF id (fun _ => npInv) (fun _ a b => ∑ i, a i * b i) c sccs =
      absorptionProbabilities c sccs := by
  have h : fundamentalMatrixF id (fun _ => npInv) c sccs = fundamentalMatrix c sccs := by
    unfold fundamentalMatrixF fundamentalMatrix
    rw [eyeMinusF_id]
  refine ⟨?_, h, ?_, ?_⟩
  · unfold mfptToF mfptTo
    rw [eyeMinusF_id]
  · unfold meanAbsorptionTimesF meanAbsorptionTimes
    rw [h]
    rfl
  · unfold absorptionProbabilitiesF absorptionProbabilities
    rw [h]

/-- C170. The contracts hold without rounding, with all constants zero. -/
theorem C170_exact_stable : Solver.Stable (K := K) (fun _ => npSolve) 0 ∧ Inverter.Stable (K := K) (fun _ => npInv) 0 ∧
    DotProduct.Stable (K := K) (fun _ a b => ∑ i, a i * b i) 0 ∧ Rounds (K := K) id 0 0 0 := by
  refine ⟨fun m A b x hx N X _ _ i => ?_, fun m A Z hZ N X j _ _ i => ?_, fun m a b => by simp,
    le_rfl, le_rfl, le_rfl, by norm_num, by norm_num, fun z => by simp⟩
  · change npSolve A b = some x at hx
    unfold npSolve at hx
    split at hx
    · cases hx
    · next hd =>
      rw [Option.some.injEq] at hx
      have : A.mulVec x = b := by
        rw [← hx, Matrix.mulVec_mulVec, Matrix.mul_nonsing_inv _ (isUnit_iff_ne_zero.2 hd), Matrix.one_mulVec]
      have h2 : ∑ j, A i j * x j = b i := congrFun this i
      rw [h2, sub_self, abs_zero, zero_mul]
  · change npInv A = some Z at hZ
    unfold npInv at hZ
    split at hZ
    · cases hZ
    · next hd =>
      rw [Option.some.injEq] at hZ
      have : A * Z = 1 := by rw [← hZ, Matrix.mul_nonsing_inv _ (isUnit_iff_ne_zero.2 hd)]
      have h2 := congrFun (congrFun this i) j
      rw [Matrix.one_apply] at h2
      have h3 : ∑ k, A i k * Z k j = (A * Z) i j := rfl
      rw [h3, h2, sub_self, abs_zero, zero_mul]

/-- The exact solver followed by a rounding of the solution. -/
noncomputable def roundedSolver (fl : K → K) : Solver K := fun _ A b => (npSolve A b).map fun x i => fl (x i)

/-- The contract of the solver holds for rounded exact solutions. -/
theorem roundedSolver_stable {fl : K → K} {u : K} (hu : 0 ≤ u) (hu2 : u ≤ 1 / 2) (hfl : ∀ z, |fl z - z| ≤ u * |z|) :
    (roundedSolver fl).Stable (2 * u) := by
  intro m A b x hx N X hN hX i
  unfold roundedSolver at hx
  rw [Option.map_eq_some_iff] at hx
  obtain ⟨y, hy, rfl⟩ := hx
  have hAy : ∑ j, A i j * y j = b i := by
    unfold npSolve at hy
    split at hy
    · cases hy
    · next hd =>
      rw [Option.some.injEq] at hy
      have : A.mulVec y = b := by
        rw [← hy, Matrix.mulVec_mulVec, Matrix.mul_nonsing_inv _ (isUnit_iff_ne_zero.2 hd), Matrix.one_mulVec]
      exact congrFun this i
  have hX0 : 0 ≤ X := (abs_nonneg _).trans (hX i)
  have hyX : ∀ j, |fl (y j) - y j| ≤ 2 * u * X := fun j => by
    have h1 : |y j| ≤ |fl (y j)| + |fl (y j) - y j| := by
      have := abs_sub (fl (y j)) (fl (y j) - y j)
      rwa [sub_sub_cancel] at this
    have h2 := hfl (y j)
    have h3 := hX j
    have h4 := mul_le_mul_of_nonneg_right hu2 (abs_nonneg (y j))
    have h5 : |y j| ≤ 2 * X := by linarith
    have h6 := mul_le_mul_of_nonneg_left h5 hu
    linarith
  rw [← hAy, ← sum_sub_distrib]
  refine (abs_sum_le_sum_abs _ _).trans ?_
  calc ∑ j, |A i j * fl (y j) - A i j * y j| ≤ ∑ j, |A i j| * (2 * u * X) := sum_le_sum fun j _ => by
        rw [← mul_sub, abs_mul]
        exact mul_le_mul_of_nonneg_left (hyX j) (abs_nonneg _)
    _ = (∑ j, |A i j|) * (2 * u * X) := (sum_mul _ _ _).symm
    _ ≤ N * (2 * u * X) := mul_le_mul_of_nonneg_right (hN i) (mul_nonneg (by linarith) hX0)
    _ = 2 * u * (N * X) := by ring

set_option linter.unusedSectionVars false in
theorem roundedSolver_some (fl : K → K) {n : ℕ} {A : Matrix (Fin n) (Fin n) K} (hd : A.det ≠ 0) (b : Fin n → K) :
    ∃ t, roundedSolver fl n A b = some t := by
  unfold roundedSolver npSolve
  rw [if_neg hd]
  exact ⟨_, rfl⟩

/-- A chain with probabilities 1/3 and 2/3, rounded to doubles. -/
def exThird : MC ℚ := ⟨2, !![binary64 (1 / 3), binary64 (2 / 3); 1, 0], ["a", "b"]⟩

def exThirdNx : Nx 2 := Nx.ofClasses (fun i j => exThird.p i j) [[0, 1]] true

/-- The hypotheses of `C170_digits` can be met: the solver rounds to doubles, the program returns a result for an
ergodic chain, and the mean passage times are small. -/
theorem C170_instance : (∀ z : ℚ, |binary64 z - z| ≤ 1 / 2 ^ 53 * |z|) ∧
    (roundedSolver binary64).Stable (1 / 2 ^ 52) ∧ RoundedFrom (1 / 2 ^ 53) exThird.p !![1 / 3, 2 / 3; 1, 0] ∧
    IsPassageTime (fun i j : Fin 2 => (!![1 / 3, 2 / 3; 1, 0] : Matrix (Fin 2) (Fin 2) ℚ) i j) (· ∈ ([1] : List (Fin 2)))
      ![3 / 2, 0] ∧
    ∃ t, mfptToF binary64 (roundedSolver binary64) exThird exThirdNx ([1] : List (Fin 2)) = .ok (some t) := by
  refine ⟨binary64_near, ?_, ?_, ?_, ?_⟩
  · have := roundedSolver_stable (fl := binary64) (u := 1 / 2 ^ 53) (by positivity) (by norm_num) binary64_near
    norm_num at this ⊢
    exact this
  · change ∀ i j : Fin 2, |(fun i j : Fin 2 => exThird.p i j) i j -
      (fun i j : Fin 2 => (!![1 / 3, 2 / 3; 1, 0] : Matrix (Fin 2) (Fin 2) ℚ) i j) i j| ≤
      1 / 2 ^ 53 * (fun i j : Fin 2 => (!![1 / 3, 2 / 3; 1, 0] : Matrix (Fin 2) (Fin 2) ℚ) i j) i j
    decide +kernel
  · change (∀ i : Fin 2, i ∈ ([1] : List (Fin 2)) → (![3 / 2, 0] : Fin 2 → ℚ) i = 0) ∧
      ∀ i : Fin 2, i ∉ ([1] : List (Fin 2)) → (![3 / 2, 0] : Fin 2 → ℚ) i =
        1 + ∑ j, (fun i j : Fin 2 => (!![1 / 3, 2 / 3; 1, 0] : Matrix (Fin 2) (Fin 2) ℚ) i j) i j * (![3 / 2, 0] : Fin 2 → ℚ) j
    decide +kernel
  · have he : isErgodic exThird exThirdNx = true := by decide +kernel
    have hd : (unitRows (eyeMinusF binary64 exThird.p) ([1] : List (Fin 2)) : Matrix (Fin 2) (Fin 2) ℚ).det ≠ 0 := by
      rw [Matrix.det_fin_two]
      change (fun i j : Fin 2 => unitRows (eyeMinusF binary64 exThird.p) ([1] : List (Fin 2)) i j) 0 0 *
        (fun i j : Fin 2 => unitRows (eyeMinusF binary64 exThird.p) ([1] : List (Fin 2)) i j) 1 1 -
        (fun i j : Fin 2 => unitRows (eyeMinusF binary64 exThird.p) ([1] : List (Fin 2)) i j) 0 1 *
        (fun i j : Fin 2 => unitRows (eyeMinusF binary64 exThird.p) ([1] : List (Fin 2)) i j) 1 0 ≠ 0
      decide +kernel
    have hsol : ∀ b, ∃ t, roundedSolver binary64 exThird.n
        (unitRows (eyeMinusF binary64 exThird.p) ([1] : List (Fin 2))) b = some t := fun b => roundedSolver_some binary64 hd b
    have hok : ∀ o : Option (Fin exThird.n → ℚ), (∃ t, o = some t) →
        ∃ t, (if isErgodic exThird exThirdNx then (orRaise o >>= fun t => pure (some t) : R (Option (Fin exThird.n → ℚ)))
          else pure none) = .ok (some t) := by
      rintro o ⟨t, rfl⟩
      rw [if_pos he]
      exact ⟨t, rfl⟩
    exact hok _ (hsol _)

end Verif
