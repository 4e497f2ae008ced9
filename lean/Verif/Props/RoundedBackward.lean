import Verif.Model.RoundedBackward
import Verif.Props.RoundedPassage

/-!
# Backward committors and the Kemeny constant with inexact solvers

C174: the equations of the backward committor are multiplied by the stationary probabilities, so that the error of the
solver is divided by the smallest of them; the other errors are not. The Kemeny constant has a small relative error.
-/

namespace Verif

variable {K : Type} [Field K] [LinearOrder K] [IsStrictOrderedRing K]

open Finset

/-- The equations of a chain, multiplied by positive numbers `d i`, with an inexact solver. -/
theorem scaled_solve_error {n : ℕ} (hn : 0 < n) {P : Matrix (Fin n) (Fin n) K} (hP : IsStochastic fun i j => P i j)
    {S : List (Fin n)} (hS : ∀ i, ∃ b, b ∈ S ∧ Reach (fun i j => P i j) i b) {m : Fin n → K}
    (hm : IsPassageTime (fun i j => P i j) (· ∈ S) m) {solve : Solver K} {e κ ξ : K} (he : 0 ≤ e) (hκ0 : 0 ≤ κ)
    (hκ : κ ≤ 1) (hs : solve.Stable e) {d : Fin n → K} (hξ : 0 < ξ) (hd : ∀ i, ξ ≤ d i) (hd1 : ∀ i, d i ≤ 1)
    {A : Matrix (Fin n) (Fin n) K} (hA : ∀ i, i ∉ S → ∑ j, |A i j - d i * (P i j - (if i = j then 1 else 0))| ≤ κ * d i)
    {b x x' : Fin n → K} (hb : ∀ i, i ∉ S → b i = 0) (hsol : solve n (unitRows A S) b = some x')
    (hx : ∀ i, i ∈ S → x i = b i) (hx2 : ∀ i, i ∉ S → x i = ∑ j, P i j * x j) {V T : K} (hV : ∀ i, |x i| ≤ V)
    (hT : ∀ i, m i ≤ T) (hη : (3 * e / ξ + κ) * (T + 1) ≤ 1 / 2) (i : Fin n) :
    |x' i - x i| ≤ 2 * (3 * e / ξ + κ) * V * (m i + 1) := by
  have : Nonempty (Fin n) := ⟨⟨0, hn⟩⟩
  obtain ⟨j0, hj0⟩ := Finite.exists_max fun j => |x' j|
  obtain ⟨X, hX⟩ : ∃ X, X = |x' j0| := ⟨_, rfl⟩
  have hxX : ∀ j, |x' j| ≤ X := fun j => by rw [hX]; exact hj0 j
  have hX0 : 0 ≤ X := by rw [hX]; exact abs_nonneg _
  have hd0 : ∀ i, 0 < d i := fun i => hξ.trans_le (hd i)
  have hrow : ∀ i, i ∉ S → ∑ j, |A i j| ≤ 3 := fun i hi => by
    have h1 := row_norm hP Function.injective_id i
    simp only [id_eq] at h1
    calc ∑ j, |A i j| ≤ ∑ j, (|A i j - d i * (P i j - (if i = j then 1 else 0))| +
          d i * |(if i = j then 1 else 0) - P i j|) := by
          refine sum_le_sum fun j _ => ?_
          have := abs_add_le (A i j - d i * (P i j - (if i = j then 1 else 0))) (d i * (P i j - (if i = j then 1 else 0)))
          rwa [sub_add_cancel, abs_mul (d i), abs_of_pos (hd0 i), abs_sub_comm (P i j)] at this
      _ ≤ 3 := by
          rw [sum_add_distrib, ← mul_sum]
          have h2 := hA i hi
          have h3 := mul_le_mul_of_nonneg_left h1 (hd0 i).le
          have h4 := mul_le_mul_of_nonneg_right hκ (hd0 i).le
          linarith [hd1 i]
  have hN : ∀ i, ∑ j, |unitRows A S i j| ≤ 3 := fun i => by
    unfold unitRows
    by_cases hi : i ∈ S
    · simp only [if_pos hi]
      rw [sum_eq_single i]
      · rw [if_pos rfl, abs_one]
        norm_num
      · intro j _ hj
        rw [if_neg (Ne.symm hj), abs_zero]
      · intro h
        exact absurd (mem_univ i) h
    · simp only [if_neg hi]
      exact hrow i hi
  have hres := hs n _ _ _ hsol 3 X hN hxX
  have hr : ∀ i, |(if i ∈ S then x' i else ∑ j, A i j * x' j) - b i| ≤ 3 * e * X := fun i => by
    have h1 := hres i
    have h2 := unitRows_mulVec A S x' i
    have h3 : ∑ j, unitRows A S i j * x' j = (unitRows A S).mulVec x' i := rfl
    rw [h3, h2] at h1
    linarith
  have hq0 : 0 ≤ 3 * e / ξ := by positivity
  have hξ1 : ξ ≤ 1 := (hd ⟨0, hn⟩).trans (hd1 _)
  have hscale : 3 * e ≤ 3 * e / ξ * 1 := by
    rw [mul_one, le_div_iff₀ hξ]
    have := mul_le_mul_of_nonneg_left hξ1 (by linarith : 0 ≤ 3 * e)
    linarith
  have herr : ∀ i, |x' i - x i| ≤ (3 * e / ξ + κ) * X * (m i + 1) := by
    refine residual_error hP hS hm (b := b) hx (fun i hi => ?_) (fun i hi => ?_) (fun i hi => ?_)
    · rw [hb i hi, sub_eq_zero]
      exact hx2 i hi
    · have h1 := hr i
      rw [if_pos hi] at h1
      have h2 := mul_nonneg hκ0 hX0
      have h3 := mul_le_mul_of_nonneg_right hscale hX0
      linarith
    · have h1 := hr i
      rw [if_neg hi, hb i hi, sub_zero] at h1
      have h2 := row_apply (hA i hi) hxX hX0
      have h3 : ∑ j, d i * (P i j - (if i = j then 1 else 0)) * x' j = -(d i * (x' i - ∑ j, P i j * x' j)) := by
        have h4 : ∀ j, d i * (P i j - (if i = j then 1 else 0)) * x' j =
            d i * (P i j * x' j) - d i * ((if i = j then 1 else 0) * x' j) := fun j => by ring
        rw [sum_congr rfl fun j _ => h4 j, sum_sub_distrib, ← mul_sum, ← mul_sum]
        simp only [ite_mul, one_mul, zero_mul, sum_ite_eq, mem_univ, if_true]
        ring
      rw [h3, sub_neg_eq_add] at h2
      have h5 : d i * |x' i - ∑ j, P i j * x' j| ≤ 3 * e * X + κ * d i * X := by
        have h6 := abs_sub (∑ j, A i j * x' j + d i * (x' i - ∑ j, P i j * x' j)) (∑ j, A i j * x' j)
        rw [add_sub_cancel_left, abs_mul, abs_of_pos (hd0 i)] at h6
        linarith
      have h6 : 3 * e * X ≤ d i * (3 * e / ξ * X) := by
        have h7 : 3 * e / ξ * X * ξ = 3 * e * X := by field_simp
        have h8 := mul_le_mul_of_nonneg_left (hd i) (mul_nonneg hq0 hX0)
        linarith
      rw [hb i hi, sub_zero]
      refine le_of_mul_le_mul_left ?_ (hd0 i)
      linarith
  have hη0 : 0 ≤ 3 * e / ξ + κ := by linarith
  have hXV : X ≤ 2 * V := by
    have h1 := herr j0
    have h2 : X ≤ |x j0| + |x' j0 - x j0| := by
      have := abs_add_le (x j0) (x' j0 - x j0)
      rwa [add_sub_cancel, ← hX] at this
    have h3 : (3 * e / ξ + κ) * X * (m j0 + 1) ≤ (3 * e / ξ + κ) * X * (T + 1) :=
      mul_le_mul_of_nonneg_left (by linarith [hT j0]) (mul_nonneg hη0 hX0)
    have h4 : (3 * e / ξ + κ) * X * (T + 1) ≤ 1 / 2 * X := by
      have := mul_le_mul_of_nonneg_right hη hX0
      linarith
    linarith [hV j0]
  refine (herr i).trans (mul_le_mul_of_nonneg_right ?_ (by linarith [passageTime_ge_zero hP hS hm i]))
  have := mul_le_mul_of_nonneg_left hXV hη0
  linarith

/-- A row of the computed matrix. -/
theorem backward_row_error {fl : K → K} {u δ e ψ : K} (hr : Rounds fl u δ e) {n : ℕ} {M P : Matrix (Fin n) (Fin n) K}
    (hP : IsStochastic fun i j => P i j) (hM : RoundedFrom δ M P) {x x' : Fin n → K}
    (hx : IsStationary (fun i j => P i j) x) (hψ0 : 0 ≤ ψ) (hψ : ψ ≤ 1) (hx' : ∀ j, |x' j - x j| ≤ ψ * x j) (i : Fin n) :
    ∑ j, |backwardMatrixF fl M x' i j - x j * (P j i - (if j = i then 1 else 0))| ≤ (12 * u + 2 * δ + 4 * ψ) * x i := by
  have hu := hr.unit
  have hδ := hr.data
  have hsum : ∑ j, x j * (P j i + (if j = i then 1 else 0)) = 2 * x i := by
    simp only [mul_add, sum_add_distrib, mul_ite, mul_one, mul_zero, sum_ite_eq', mem_univ, if_true]
    have := hx.2 i
    dsimp only at this
    rw [this]
    ring
  have hentry : ∀ j, |backwardMatrixF fl M x' i j - x j * (P j i - (if j = i then 1 else 0))| ≤
      (6 * u + δ + 2 * ψ) * (x j * (P j i + (if j = i then 1 else 0))) := fun j => by
    unfold backwardMatrixF
    have hp := hP.1 j i
    dsimp only at hp
    obtain ⟨a, ha⟩ : ∃ a : K, a = if j = i then 1 else 0 := ⟨_, rfl⟩
    have ha0 : 0 ≤ a := by rw [ha]; split_ifs <;> norm_num
    rw [← ha]
    have hx0 := hx.1.1 j
    have h1 := entry_error (fl := fun z => -fl (-z)) (a := a) hu (fun z => by
      have := hr.near (-z)
      rw [abs_neg] at this
      rwa [← abs_neg, neg_sub, sub_neg_eq_add, add_comm, ← sub_neg_eq_add]) (hM j i) hp
    rw [neg_sub, abs_of_nonneg ha0] at h1
    obtain ⟨g, hg⟩ : ∃ g, g = fl (M j i - a) := ⟨_, rfl⟩
    obtain ⟨h, hh⟩ : ∃ h, h = P j i + a := ⟨_, rfl⟩
    rw [← hg] at h1 ⊢
    have h0 : 0 ≤ h := by rw [hh]; linarith
    have h2 : |g - (P j i - a)| ≤ (2 * u + δ) * h := by
      have h3 : |g - (P j i - a)| = |(-g) - (a - P j i)| := by
        rw [← abs_neg]
        congr 1
        ring
      have h4 := mul_le_mul_of_nonneg_left hr.lt.le (mul_nonneg hu hp)
      have h5 := mul_nonneg hu ha0
      have h6 := mul_nonneg hδ ha0
      rw [h3, hh]
      linarith
    have h3 : |P j i - a| ≤ h := by
      rw [hh, abs_le]
      constructor <;> linarith
    have hs := hr.small
    have h4 : |g| ≤ 2 * h := by
      have h5 := abs_add_le (P j i - a) (g - (P j i - a))
      rw [add_sub_cancel] at h5
      have h6 := mul_le_mul_of_nonneg_right (by linarith : 2 * u + δ ≤ 1) h0
      linarith
    have h5 : |x' j| ≤ 2 * x j := by
      have h6 := abs_add_le (x j) (x' j - x j)
      rw [add_sub_cancel, abs_of_nonneg hx0] at h6
      have h7 := mul_le_mul_of_nonneg_right hψ hx0
      linarith [hx' j]
    have h6 := hr.near (x' j * g)
    have h7 : |x' j * g| ≤ 4 * (x j * h) := by
      rw [abs_mul]
      have := mul_le_mul h5 h4 (abs_nonneg _) (by linarith)
      linarith
    have h8 : |x' j * g - x j * (P j i - a)| ≤ (2 * u + δ + 2 * ψ) * (x j * h) := by
      have h9 := abs_add_le ((x' j - x j) * g) (x j * (g - (P j i - a)))
      rw [show (x' j - x j) * g + x j * (g - (P j i - a)) = x' j * g - x j * (P j i - a) by ring, abs_mul, abs_mul,
        abs_of_nonneg hx0] at h9
      have h10 := mul_le_mul (hx' j) h4 (abs_nonneg _) (mul_nonneg hψ0 hx0)
      have h11 := mul_le_mul_of_nonneg_left h2 hx0
      linarith
    have h9 := mul_le_mul_of_nonneg_left h7 hu
    have h10 := abs_sub_le (fl (x' j * g)) (x' j * g) (x j * (P j i - a))
    rw [← hh]
    linarith
  refine (sum_le_sum fun j _ => hentry j).trans (le_of_eq ?_)
  rw [← mul_sum, hsum]
  ring

/-- C174. **Backward committor probabilities with rounding**: `m` are the mean times until the chain that runs backward
visits one of the sets. The error of the solver is divided by the smallest stationary probability. -/
theorem C174_backward {c : MC K} {P : Matrix (Fin c.n) (Fin c.n) K} (hP : IsStochastic fun i j => P i j)
    (hirr : Irreducible fun i j => P i j) {fl : K → K} {u δ e : K} (hr : Rounds fl u δ e) (hc : RoundedFrom δ c.p P)
    {solve : Solver K} (hs : solve.Stable e) {F : Arith K} {nx : Nx c.n} {x' x : Fin c.n → K} {ls : List (Fin c.n → K)}
    (hpi : piF F c nx.sccs = .ok (x' :: ls)) (hx : IsStationary (fun i j => P i j) x) {ψ : K} (hψ : 0 ≤ ψ)
    (hx' : ∀ j, |x' j - x j| ≤ ψ * x j) {A B : List (Fin c.n)} (hB : ∃ i, i ∈ B) {q' q m : Fin c.n → K}
    (h : mcBackwardF fl F solve c nx A B = .ok (some q'))
    (hq : IsCommittor (reversal (fun i j => P i j) x) (· ∈ B) (· ∈ A) q)
    (hm : IsPassageTime (reversal (fun i j => P i j) x) (fun i => i ∈ A ∨ i ∈ B) m) {T ξ : K} (hξ : 0 < ξ)
    (hξx : ∀ i, ξ ≤ x i) (hT : ∀ i, m i ≤ T) (hη : (3 * e / ξ + (12 * u + 2 * δ + 4 * ψ)) * (T + 1) ≤ 1 / 2) (i : Fin c.n) :
    |q' i - q i| ≤ 2 * (3 * e / ξ + (12 * u + 2 * δ + 4 * ψ)) * (m i + 1) + 1 / 10 ^ 8 := by
  obtain ⟨i0, hi0⟩ := hB
  have hpos := irreducible_stationary_pos hP hirr hx
  have hR : IsStochastic (reversal (fun i j => P i j) x) := reversal_stochastic hP hx.2 hpos
  have hm' : IsPassageTime (reversal (fun i j => P i j) x) (· ∈ A ++ B) m :=
    ⟨fun i hi => hm.1 i (List.mem_append.1 hi), fun i hi => hm.2 i fun h => hi (List.mem_append.2 h)⟩
  have hreach : ∀ i, ∃ b, b ∈ A ++ B ∧ Reach (reversal (fun i j => P i j) x) i b :=
    fun i => ⟨i0, List.mem_append.2 (Or.inr hi0), reversal_reach hpos (hirr i0 i)⟩
  have hu := hr.unit
  have hδ := hr.data
  have he := hr.solver
  have hq0 : 0 ≤ 3 * e / ξ := by positivity
  have hκ0 : 0 ≤ 12 * u + 2 * δ + 4 * ψ := by linarith
  have hT0 : 0 ≤ T := (passageTime_ge_zero hR hreach hm' i0).trans (hT i0)
  have hκ : 12 * u + 2 * δ + 4 * ψ ≤ 1 := by
    have h1 := mul_nonneg (add_nonneg hq0 hκ0) hT0
    linarith
  unfold mcBackwardF at h
  split at h
  swap
  · rw [R.pure_ok] at h
    cases h
  rw [R.bind_ok] at h
  obtain ⟨l, hl, h⟩ := h
  rw [hpi] at hl
  cases hl
  rw [R.bind_ok] at h
  obtain ⟨y, hy, h⟩ := h
  have hy := orRaise_ok hy
  rw [List.head?_cons, Option.some.injEq] at hy
  rw [← hy, R.bind_ok] at h
  obtain ⟨z, hz, h⟩ := h
  have hz := orRaise_ok hz
  rw [R.pure_ok, Option.some.injEq] at h
  rw [unitRows_unitRows] at hz
  have hx1 : ∀ i, x i ≤ 1 := fun i => by
    rw [← hx.1.2]
    exact single_le_sum (fun j _ => hx.1.1 j) (mem_univ i)
  have key : |z i - q i| ≤ 2 * (3 * e / ξ + (12 * u + 2 * δ + 4 * ψ)) * 1 * (m i + 1) := by
    refine scaled_solve_error (P := Matrix.of (reversal (fun i j => P i j) x)) (Fin.pos i0) hR hreach hm' he hκ0 hκ hs hξ hξx
      hx1 (A := backwardMatrixF fl c.p x') (b := oneOn A) (fun i _ => ?_) (fun i hi => ?_) hz (fun i hi => ?_)
      (fun i hi => ?_) (fun i => ?_) hT hη i
    · refine le_of_eq_of_le (sum_congr rfl fun j _ => ?_)
        (backward_row_error hr hP hc hx hψ (by linarith) hx' i)
      congr 2
      change x i * (x j * P j i / x i - (if i = j then 1 else 0)) = x j * (P j i - (if j = i then 1 else 0))
      have := (hpos i).ne'
      by_cases hij : i = j
      · rw [if_pos hij, if_pos hij.symm, hij]
        rw [hij] at this
        field_simp
      · rw [if_neg hij, if_neg (Ne.symm hij), sub_zero, sub_zero]
        field_simp
    · unfold oneOn
      rw [if_neg fun hA => hi (List.mem_append.2 (Or.inl hA))]
    · unfold oneOn
      split
      · next hA => exact hq.2.1 i hA
      · next hA => exact hq.1 i ((List.mem_append.1 hi).resolve_left hA)
    · exact hq.2.2.2 i (fun h => hi (List.mem_append.2 (Or.inr h))) fun h => hi (List.mem_append.2 (Or.inl h))
    · rw [abs_of_nonneg (hq.2.2.1 i).1]
      exact (hq.2.2.1 i).2
  rw [mul_one] at key
  rw [← h]
  dsimp only
  split
  · next hz =>
    unfold isclose at hz
    rw [decide_eq_true_eq, sub_zero, abs_zero, mul_zero, add_zero] at hz
    have h2 := abs_sub_le (0 : K) (z i) (q i)
    rw [zero_sub, abs_neg] at h2
    norm_num at hz h2 ⊢
    linarith
  · have : (0 : K) ≤ 1 / 10 ^ 8 := by positivity
    linarith

/-- C174. **The Kemeny constant with rounding** has a small relative error. -/
theorem C174_kemeny {c : MC K} {P : Matrix (Fin c.n) (Fin c.n) K} (hP : IsStochastic fun i j => P i j)
    {fl : K → K} {u δ e w : K} (hr : Rounds fl u δ e) (hw0 : 0 ≤ w) (hc : RoundedFrom δ c.p P) {inv : Inverter K}
    (hs : inv.Stable e) {sum : List K → K} (hw : StableSum sum w) {sccs : List (List (Fin c.n))} (h : IsClasses c.p sccs)
    {k' : K} (hf : kemenyF fl inv sum c sccs = .ok (some k')) :
    ∃ N, Visited P sccs N ∧ ∀ T V E, (∀ a, ∑ b, N a b ≤ T) → (3 * e + (3 * u + δ)) * T ≤ 1 / 2 → (∀ a b, N a b ≤ V) →
      E = 2 * (3 * e + (3 * u + δ)) * V * T → |k' - N.trace| ≤ (E + w * (1 + E)) * N.trace := by
  unfold kemenyF at hf
  rw [R.bind_ok] at hf
  obtain ⟨o, ho, hf⟩ := hf
  rw [R.pure_ok, Option.map_eq_some_iff] at hf
  obtain ⟨Z, rfl, hk⟩ := hf
  obtain ⟨N, hN, hZ⟩ := C170_fundamental hP hr hc hs h ho
  refine ⟨N, hN, fun T V E hT hη hV hE => ?_⟩
  have hN1 : ∀ a, 1 ≤ N a a := fun a => by
    have h1 := congrFun (congrFun hN.right a) a
    rw [Matrix.one_apply_eq, Matrix.sub_mul, Matrix.one_mul, Matrix.sub_apply, Matrix.mul_apply] at h1
    have h2 : 0 ≤ ∑ b, subMatrix P (transientStatesIdx c.p sccs) a b * N b a :=
      sum_nonneg fun b _ => mul_nonneg (hP.1 _ _) (hN.nonneg b a)
    linarith
  have hη0 : 0 ≤ 3 * e + (3 * u + δ) := by linarith [hr.unit, hr.data, hr.solver]
  have hd : ∀ a, |Z a a - N a a| ≤ E * N a a := fun a => by
    have h1 := hZ T V a hT hη (fun b => hV b a) a
    have hV0 : 0 ≤ V := (hN.nonneg a a).trans (hV a a)
    have h2 := mul_le_mul_of_nonneg_left (hT a) (mul_nonneg (mul_nonneg zero_le_two hη0) hV0)
    have hE0 : 0 ≤ E := by
      rw [hE]
      exact mul_nonneg (mul_nonneg (mul_nonneg zero_le_two hη0) hV0) ((sum_nonneg fun b _ => hN.nonneg a b).trans (hT a))
    have h3 := mul_le_mul_of_nonneg_left (hN1 a) hE0
    rw [← hE] at h2
    linarith
  have h1 := hw (List.ofFn fun a => Z a a)
  rw [hk, List.map_ofFn, List.sum_ofFn, List.sum_ofFn] at h1
  have h2 : |∑ a, Z a a - ∑ a, N a a| ≤ E * ∑ a, N a a := by
    rw [← sum_sub_distrib, mul_sum]
    exact (abs_sum_le_sum_abs _ _).trans (sum_le_sum fun a _ => hd a)
  have h3 : ∑ a, |Z a a| ≤ (1 + E) * ∑ a, N a a := by
    rw [mul_sum]
    refine sum_le_sum fun a _ => ?_
    have h4 := abs_add_le (N a a) (Z a a - N a a)
    rw [add_sub_cancel, abs_of_nonneg (hN.nonneg a a)] at h4
    linarith [hd a]
  have h4 := mul_le_mul_of_nonneg_left h3 hw0
  have h5 := abs_sub_le k' (∑ a, Z a a) (∑ a, N a a)
  simp only [Function.comp_def] at h1
  change |k' - ∑ a, N a a| ≤ (E + w * (1 + E)) * ∑ a, N a a
  linarith

/-- C174. Without rounding and with exact solvers these are the programs of the exact model. -/
theorem C174_exact (c : MC K) (nx : Nx c.n) (A B : List (Fin c.n)) (sccs : List (List (Fin c.n))) :
    mcBackwardF id Arith.exact (fun _ => npSolve) c nx A B = mcCommittor c nx true A B ∧
    kemenyF id (fun _ => npInv) List.sum c sccs = kemenyConstant c sccs := by
  constructor
  · unfold mcBackwardF mcCommittor pi0
    rw [piF_exact, bind_assoc]
    rfl
  · unfold kemenyF kemenyConstant
    rw [(C170_exact c nx A sccs).2.1]
    congr 1
    funext m
    congr 2
    funext m
    rw [List.sum_ofFn]
    rfl

/-- A chain with three states whose probabilities are rounded thirds. -/
def exCycleThirds : MC ℚ :=
  ⟨3, !![0, binary64 (1 / 3), binary64 (2 / 3); binary64 (2 / 3), 0, binary64 (1 / 3); binary64 (1 / 3), binary64 (2 / 3), 0],
    ["a", "b", "c"]⟩

def exCycleThirdsNx : Nx 3 := Nx.ofClasses (fun i j => exCycleThirds.p i j) [[0, 1, 2]] true

/-- The stationary distribution that the program computes for `exCycleThirds`. -/
def exCycleThirdsPi : Fin 3 → ℚ := match piF (Arith.rounded double) exCycleThirds exCycleThirdsNx.sccs with
  | .ok (x :: _) => x
  | _ => fun _ => 0

/-- The exact probabilities of `exCycleThirds`. -/
def exCycleThirdsP : Matrix (Fin 3) (Fin 3) ℚ := !![0, 1 / 3, 2 / 3; 2 / 3, 0, 1 / 3; 1 / 3, 2 / 3, 0]

/-- The hypotheses of `C174_backward` can be met: the program returns a result, and the probability of the third state is
2/3. -/
theorem C174_instance : RoundedFrom (1 / 2 ^ 53) exCycleThirds.p exCycleThirdsP ∧
    piF (Arith.rounded double) exCycleThirds exCycleThirdsNx.sccs = .ok [exCycleThirdsPi] ∧
    IsStationary (fun i j : Fin 3 => exCycleThirdsP i j) (fun _ => 1 / 3) ∧ Irreducible (fun i j : Fin 3 => exCycleThirdsP i j) ∧
    (∀ j : Fin 3, |exCycleThirdsPi j - 1 / 3| ≤ 1 / 2 ^ 45 * (1 / 3)) ∧
    IsCommittor (reversal (fun i j : Fin 3 => exCycleThirdsP i j) fun _ => 1 / 3) (· ∈ ([1] : List (Fin 3)))
      (· ∈ ([0] : List (Fin 3))) ![1, 0, 2 / 3] ∧
    IsPassageTime (reversal (fun i j : Fin 3 => exCycleThirdsP i j) fun _ => 1 / 3)
      (fun i => i ∈ ([0] : List (Fin 3)) ∨ i ∈ ([1] : List (Fin 3))) ![0, 0, 1] ∧
    ∃ q, mcBackwardF binary64 (Arith.rounded double) (roundedSolver binary64) exCycleThirds exCycleThirdsNx ([0] : List (Fin 3))
      ([1] : List (Fin 3)) = .ok (some q) := by
  have hpi : piF (Arith.rounded double) exCycleThirds exCycleThirdsNx.sccs = .ok [exCycleThirdsPi] := by
    unfold exCycleThirdsPi piF
    rw [if_pos (by decide +kernel)]
    dsimp only
    rw [if_pos (by decide +kernel)]
    rfl
  refine ⟨?_, hpi, ?_, ?_, ?_, ?_, ?_, ?_⟩
  · change ∀ i j : Fin 3, |(fun i j : Fin 3 => exCycleThirds.p i j) i j - (fun i j : Fin 3 => exCycleThirdsP i j) i j| ≤
      1 / 2 ^ 53 * (fun i j : Fin 3 => exCycleThirdsP i j) i j
    decide +kernel
  · change ((∀ i : Fin 3, (0 : ℚ) ≤ 1 / 3) ∧ ∑ _i : Fin 3, (1 / 3 : ℚ) = 1) ∧
      ∀ j : Fin 3, ∑ i, 1 / 3 * (fun i j : Fin 3 => exCycleThirdsP i j) i j = 1 / 3
    decide +kernel
  · have h : ∀ i j : Fin 3, i ≠ j → 0 < (fun i j : Fin 3 => exCycleThirdsP i j) i j := by decide +kernel
    intro i j
    by_cases hij : i = j
    · rw [hij]
      exact Relation.ReflTransGen.refl
    · exact Relation.ReflTransGen.single (h i j hij)
  · decide +kernel
  · change (∀ i : Fin 3, i ∈ ([1] : List (Fin 3)) → (![1, 0, 2 / 3] : Fin 3 → ℚ) i = 0) ∧
      (∀ i : Fin 3, i ∈ ([0] : List (Fin 3)) → (![1, 0, 2 / 3] : Fin 3 → ℚ) i = 1) ∧
      (∀ i : Fin 3, 0 ≤ (![1, 0, 2 / 3] : Fin 3 → ℚ) i ∧ (![1, 0, 2 / 3] : Fin 3 → ℚ) i ≤ 1) ∧
      ∀ i : Fin 3, i ∉ ([1] : List (Fin 3)) → i ∉ ([0] : List (Fin 3)) → (![1, 0, 2 / 3] : Fin 3 → ℚ) i =
        ∑ j : Fin 3, reversal (fun i j : Fin 3 => exCycleThirdsP i j) (fun _ => 1 / 3) i j * (![1, 0, 2 / 3] : Fin 3 → ℚ) j
    decide +kernel
  · change (∀ i : Fin 3, i ∈ ([0] : List (Fin 3)) ∨ i ∈ ([1] : List (Fin 3)) → (![0, 0, 1] : Fin 3 → ℚ) i = 0) ∧
      ∀ i : Fin 3, ¬ (i ∈ ([0] : List (Fin 3)) ∨ i ∈ ([1] : List (Fin 3))) → (![0, 0, 1] : Fin 3 → ℚ) i =
        1 + ∑ j : Fin 3, reversal (fun i j : Fin 3 => exCycleThirdsP i j) (fun _ => 1 / 3) i j * (![0, 0, 1] : Fin 3 → ℚ) j
    decide +kernel
  · have he : isErgodic exCycleThirds exCycleThirdsNx = true := by decide +kernel
    obtain ⟨D, hD⟩ : ∃ D : Matrix (Fin 3) (Fin 3) ℚ,
      D = unitRows (unitRows (backwardMatrixF binary64 exCycleThirds.p exCycleThirdsPi) ([0] : List (Fin 3))) ([1] : List (Fin 3)) := ⟨_, rfl⟩
    have hd : D.det ≠ 0 := by
      rw [Matrix.det_fin_three, hD]
      have h : ∀ M : Matrix (Fin 3) (Fin 3) ℚ, M = (unitRows (unitRows (backwardMatrixF binary64 exCycleThirds.p exCycleThirdsPi)
          ([0] : List (Fin 3))) ([1] : List (Fin 3))) → M 0 0 = 1 ∧ M 0 1 = 0 ∧ M 0 2 = 0 ∧ M 1 0 = 0 ∧ M 1 1 = 1 ∧ M 1 2 = 0 ∧ M 2 2 ≠ 0 := by
        rintro M rfl
        decide +kernel
      obtain ⟨h1, h2, h3, h4, h5, h6, h7⟩ := h _ rfl
      rw [h1, h2, h3, h4, h5, h6]
      simpa using h7
    have hsol : ∃ t, roundedSolver binary64 3 D (oneOn ([0] : List (Fin 3))) = some t := roundedSolver_some binary64 hd _
    rw [hD] at hsol
    obtain ⟨t, ht⟩ := hsol
    unfold mcBackwardF
    rw [if_pos he, hpi, R.ok_bind]
    have hok : ∀ (o : Option (Fin exCycleThirds.n → ℚ)) (f : (Fin exCycleThirds.n → ℚ) → Fin exCycleThirds.n → ℚ), o = some t →
        ∃ q, (orRaise o >>= fun z => pure (some (f z)) : R (Option (Fin exCycleThirds.n → ℚ))) = .ok (some q) := by
      rintro o f rfl
      exact ⟨_, rfl⟩
    exact hok _ _ ht

/-- A chain with one transient state. -/
def exLeave : MC ℚ := ⟨2, !![binary64 (1 / 3), binary64 (2 / 3); 0, 1], ["a", "b"]⟩

/-- `C174_kemeny` applies to the chain: the program returns a result. -/
theorem C174_kemeny_instance : IsClasses exLeave.p ([[0], [1]] : List (List (Fin 2))) ∧
    RoundedFrom (1 / 2 ^ 53) exLeave.p !![1 / 3, 2 / 3; 0, 1] ∧
    ∃ k, kemenyF binary64 (roundedInverter binary64) (fun l => binary64 l.sum) exLeave ([[0], [1]] : List (List (Fin 2))) =
      .ok (some k) := by
  refine ⟨?_, ?_, ?_⟩
  · change IsClasses (fun i j : Fin 2 => exLeave.p i j) ([[0], [1]] : List (List (Fin 2)))
    decide +kernel
  · change ∀ i j : Fin 2, |(fun i j : Fin 2 => exLeave.p i j) i j -
      (fun i j : Fin 2 => (!![1 / 3, 2 / 3; 0, 1] : Matrix (Fin 2) (Fin 2) ℚ) i j) i j| ≤
      1 / 2 ^ 53 * (fun i j : Fin 2 => (!![1 / 3, 2 / 3; 0, 1] : Matrix (Fin 2) (Fin 2) ℚ) i j) i j
    decide +kernel
  · have hdet : ∀ (k : ℕ) (D : Matrix (Fin k) (Fin k) ℚ), k = 1 → (∀ a, D a a ≠ 0) → D.det ≠ 0 := by
      rintro k D rfl h
      rw [Matrix.det_fin_one]
      exact h 0
    have hd := hdet _ (eyeMinusF binary64 (subMatrix exLeave.p (transientStatesIdx exLeave.p ([[0], [1]] : List (List (Fin 2))))))
      (by decide +kernel) (by decide +kernel)
    obtain ⟨Z, hZ⟩ := roundedInverter_some binary64 hd
    unfold kemenyF fundamentalMatrixF
    rw [if_neg (by decide +kernel), hZ]
    exact ⟨_, rfl⟩

/-- A chain that is in its third state with probability `1 / (2 ^ 52 + 1)`. -/
def exSeldom : MC ℚ :=
  ⟨3, !![(1 - 1 / 2 ^ 52) / 2, (1 - 1 / 2 ^ 52) / 2, 1 / 2 ^ 52; (1 - 1 / 2 ^ 52) / 2, (1 - 1 / 2 ^ 52) / 2, 1 / 2 ^ 52;
    1 / 2, 1 / 2, 0], ["a", "b", "c"]⟩

def exSeldomNx : Nx 3 := Nx.ofClasses (fun i j => exSeldom.p i j) [[0, 1, 2]] true

/-- The stationary distribution of `exSeldom`. -/
def exSeldomPi : Fin 3 → ℚ := ![2 ^ 51 / (2 ^ 52 + 1), 2 ^ 51 / (2 ^ 52 + 1), 1 / (2 ^ 52 + 1)]

/-- The stationary distribution that the program computes for `exSeldom`. -/
def exSeldomComputed : Fin 3 → ℚ := match piF (Arith.rounded double) exSeldom exSeldomNx.sccs with
  | .ok (x :: _) => x
  | _ => fun _ => 0

open Classical in
/-- A solver that prefers zeros and ones when the residual allows them. -/
noncomputable def coarseSolver (e : ℚ) : Solver ℚ := fun n A b =>
  if h : ∃ t : Fin n → ℚ, (∀ i, t i = 0 ∨ t i = 1) ∧ ∀ N X, (∀ i, ∑ j, |A i j| ≤ N) → (∀ j, |t j| ≤ X) →
    ∀ i, |∑ j, A i j * t j - b i| ≤ e * (N * X) then some h.choose else none

/-- C174. The smallest stationary probability cannot be left out of `C174_backward`: a solver that leaves residuals of the
size of the rounding errors can return a probability that is wrong by 1/2. -/
theorem C174_scale : (coarseSolver (1 / 2 ^ 52)).Stable (1 / 2 ^ 52) ∧ exSeldom.Valid ∧
    IsStationary (fun i j : Fin 3 => exSeldom.p i j) exSeldomPi ∧
    IsCommittor (reversal (fun i j : Fin 3 => exSeldom.p i j) exSeldomPi) (· ∈ ([1] : List (Fin 3)))
      (· ∈ ([0] : List (Fin 3))) ![1, 0, 1 / 2] ∧
    ∃ q : Fin 3 → ℚ, mcBackwardF binary64 (Arith.rounded double) (coarseSolver (1 / 2 ^ 52)) exSeldom exSeldomNx
      ([0] : List (Fin 3)) ([1] : List (Fin 3)) = .ok (some q) ∧ |q 2 - 1 / 2| = 1 / 2 := by
  have hpi : piF (Arith.rounded double) exSeldom exSeldomNx.sccs = .ok [exSeldomComputed] := by
    unfold exSeldomComputed piF
    rw [if_pos (by decide +kernel)]
    dsimp only
    rw [if_pos (by decide +kernel)]
    rfl
  refine ⟨?_, by decide +kernel, ?_, ?_, ?_⟩
  · intro n A b x hx
    unfold coarseSolver at hx
    split at hx
    · next h =>
      rw [Option.some.injEq] at hx
      rw [← hx]
      exact h.choose_spec.2
    · cases hx
  · change ((∀ i : Fin 3, 0 ≤ exSeldomPi i) ∧ ∑ i : Fin 3, exSeldomPi i = 1) ∧
      ∀ j : Fin 3, ∑ i, exSeldomPi i * (fun i j : Fin 3 => exSeldom.p i j) i j = exSeldomPi j
    decide +kernel
  · change (∀ i : Fin 3, i ∈ ([1] : List (Fin 3)) → (![1, 0, 1 / 2] : Fin 3 → ℚ) i = 0) ∧
      (∀ i : Fin 3, i ∈ ([0] : List (Fin 3)) → (![1, 0, 1 / 2] : Fin 3 → ℚ) i = 1) ∧
      (∀ i : Fin 3, 0 ≤ (![1, 0, 1 / 2] : Fin 3 → ℚ) i ∧ (![1, 0, 1 / 2] : Fin 3 → ℚ) i ≤ 1) ∧
      ∀ i : Fin 3, i ∉ ([1] : List (Fin 3)) → i ∉ ([0] : List (Fin 3)) → (![1, 0, 1 / 2] : Fin 3 → ℚ) i =
        ∑ j : Fin 3, reversal (fun i j : Fin 3 => exSeldom.p i j) exSeldomPi i j * (![1, 0, 1 / 2] : Fin 3 → ℚ) j
    decide +kernel
  · have he : isErgodic exSeldom exSeldomNx = true := by decide +kernel
    obtain ⟨D, hD⟩ : ∃ D : Matrix (Fin 3) (Fin 3) ℚ,
      D = unitRows (unitRows (backwardMatrixF binary64 exSeldom.p exSeldomComputed) ([0] : List (Fin 3))) ([1] : List (Fin 3)) :=
      ⟨_, rfl⟩
    have hres : (∀ i : Fin 3, |∑ j, (fun i j : Fin 3 => D i j) i j * (![1, 0, 1] : Fin 3 → ℚ) j -
        oneOn ([0] : List (Fin 3)) i| ≤ 1 / 2 ^ 52) ∧ ∑ j, |(fun i j : Fin 3 => D i j) 0 j| = 1 := by
      rw [hD]
      decide +kernel
    have hsol : ∃ t, coarseSolver (1 / 2 ^ 52) 3 D (oneOn ([0] : List (Fin 3))) = some t ∧ (t 2 = 0 ∨ t 2 = 1) := by
      have h : ∃ t : Fin 3 → ℚ, (∀ i, t i = 0 ∨ t i = 1) ∧ ∀ N X, (∀ i, ∑ j, |D i j| ≤ N) → (∀ j, |t j| ≤ X) →
          ∀ i, |∑ j, D i j * t j - oneOn ([0] : List (Fin 3)) i| ≤ 1 / 2 ^ 52 * (N * X) := by
        refine ⟨![1, 0, 1], by decide +kernel, fun N X hN hX i => ?_⟩
        have h1 : 1 ≤ N := le_of_eq_of_le hres.2.symm (hN 0)
        have h2 : 1 ≤ X := by
          have := hX 0
          simpa using this
        have h3 : 1 ≤ N * X := one_le_mul_of_one_le_of_one_le h1 h2
        refine (hres.1 i).trans ?_
        exact le_mul_of_one_le_right (by positivity) h3
      refine ⟨h.choose, ?_, h.choose_spec.1 2⟩
      unfold coarseSolver
      rw [dif_pos h]
    rw [hD] at hsol
    obtain ⟨t, ht, ht2⟩ := hsol
    unfold mcBackwardF
    rw [if_pos he, hpi, R.ok_bind]
    refine ⟨fun i => if isclose (t i) 0 then 0 else t i, ?_, ?_⟩
    · have hok : ∀ (o : Option (Fin exSeldom.n → ℚ)) (f : (Fin exSeldom.n → ℚ) → Fin exSeldom.n → ℚ), o = some t →
          (orRaise o >>= fun z => pure (some (f z)) : R (Option (Fin exSeldom.n → ℚ))) = .ok (some (f t)) := by
        rintro o f rfl
        rfl
      exact hok _ (fun t i => if isclose (t i) 0 then 0 else t i) ht
    · have h0 : isclose (0 : ℚ) 0 = true := by decide +kernel
      have h1 : isclose (1 : ℚ) 0 = false := by decide +kernel
      dsimp only
      rcases ht2 with ht2 | ht2
      · rw [ht2, if_pos h0]
        norm_num
      · rw [ht2, h1]
        norm_num

end Verif
