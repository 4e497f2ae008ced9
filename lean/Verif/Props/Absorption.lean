import Verif.Model.Measures
import Verif.Lemmas.Harmonic
import Verif.Props.Absorbing
import Verif.Props.Subchain
import Verif.Lemmas.Cast
import Mathlib.Topology.Algebra.InfiniteSum.Real
import Mathlib.Topology.Instances.Matrix
import Mathlib.LinearAlgebra.Matrix.Trace

/-!
# Absorption (C38, C39, C40, C51)
-/

set_option linter.unusedSectionVars false

namespace Verif

open Finset

variable {K : Type} [Field K] [LinearOrder K] [IsStrictOrderedRing K]

/-! ## The inverse of `I - Q` -/

section Block

variable {n : ℕ} {P : Matrix (Fin n) (Fin n) K} {T : List (Fin n)}

/-- Powers of a block whose complement is closed are blocks of powers. -/
theorem subMatrix_pow (hn : T.Nodup) (h0 : ∀ i j, 0 ≤ P i j)
    (hcl : ClosedSet (fun i j => P i j) (· ∉ T)) (k : ℕ) (a b : Fin T.length) :
    (subMatrix P T ^ k) a b = (P ^ k) (T.get a) (T.get b) := by
  have hz : ∀ k i, i ∉ T → ∀ b : Fin T.length, (P ^ k) i (T.get b) = 0 := by
    intro k
    induction k with
    | zero =>
      intro i hi b
      rw [pow_zero]
      exact Matrix.one_apply_ne fun h => hi (h ▸ List.get_mem T b)
    | succ k ih =>
      intro i hi b
      rw [pow_succ']
      refine (Matrix.mul_apply).trans (Finset.sum_eq_zero fun j _ => ?_)
      by_cases hj : j ∈ T
      · have : ¬ 0 < P i j := fun h => hcl i j hi h hj
        rw [le_antisymm (not_lt.1 this) (h0 i j), zero_mul]
      · rw [ih j hj b, mul_zero]
  induction k generalizing a b with
  | zero =>
    rw [pow_zero, pow_zero, Matrix.one_apply, Matrix.one_apply]
    simp only [(List.Nodup.injective_get hn).eq_iff]
  | succ k ih =>
    rw [pow_succ', pow_succ']
    refine (Matrix.mul_apply).trans (Eq.trans ?_ (Matrix.mul_apply).symm)
    have h1 : ∑ j, P (T.get a) j * (P ^ k) j (T.get b) =
        ∑ j with j ∈ T, P (T.get a) j * (P ^ k) j (T.get b) := by
      rw [Finset.sum_filter]
      refine Finset.sum_congr rfl fun j _ => ?_
      split
      · rfl
      · rename_i hj; rw [hz k j hj b, mul_zero]
    rw [h1, ← sum_get hn fun j => P (T.get a) j * (P ^ k) j (T.get b)]
    refine Finset.sum_congr rfl fun d _ => ?_
    rw [ih]
    rfl

/-- The inverse of `I - Q` for a block that every state can leave. -/
theorem sub_inverse (hP : IsStochastic fun i j => P i j) (hn : T.Nodup) (he : Escapes P T) :
    ∃ N : Matrix (Fin T.length) (Fin T.length) K, npInv (1 - subMatrix P T) = some N ∧
      (1 - subMatrix P T) * N = 1 ∧ N * (1 - subMatrix P T) = 1 ∧ ∀ a b, 0 ≤ N a b := by
  have hd := sub_det_ne_zero hP hn he
  have hu : IsUnit (1 - subMatrix P T).det := isUnit_iff_ne_zero.2 hd
  refine ⟨(1 - subMatrix P T)⁻¹, if_neg hd, Matrix.mul_nonsing_inv _ hu,
    Matrix.nonsing_inv_mul _ hu, ?_⟩
  intro a b
  refine sub_nonneg_solution hP hn he (x := fun a => (1 - subMatrix P T)⁻¹ a b) ?_ a
  intro a
  have h1 := congrFun (congrFun (Matrix.mul_nonsing_inv _ hu) a) b
  have h2 : ((1 - subMatrix P T).mulVec fun a => (1 - subMatrix P T)⁻¹ a b) a =
      (1 : Matrix (Fin T.length) (Fin T.length) K) a b := (Matrix.mul_apply).symm.trans h1
  rw [h2, Matrix.one_apply]
  split
  · exact zero_le_one
  · exact le_rfl

/-- The partial sums of the powers of `Q`. -/
theorem geom_remainder {m : ℕ} {Q N : Matrix (Fin m) (Fin m) K}
    (h' : (1 - Q) * N = 1) (k : ℕ) : ∑ l ∈ range k, Q ^ l + Q ^ k * N = N := by
  induction k with
  | zero => simp
  | succ k ih =>
    rw [Finset.sum_range_succ]
    have h1 : Q ^ k + Q ^ (k + 1) * N = Q ^ k * N := by
      have h2 : Q * N = N - 1 := by rw [sub_mul, one_mul] at h'; rw [← h']; abel
      rw [pow_succ, mul_assoc, h2, mul_sub, mul_one]
      abel
    rw [add_assoc, h1, ih]

end Block

/-! ## Transient states -/

theorem transient_escapes {c : MC K} {sccs : List (List (Fin c.n))} (h : IsClasses c.p sccs) :
    Escapes c.p (transientStatesIdx c.p sccs) := by
  intro i
  obtain ⟨j, hj, hr⟩ := exists_recurrent_reach (fun i j => c.p i j) i
  exact ⟨j, fun hm => (mem_transientStatesIdx h j).1 hm hr, hj⟩

theorem transient_closed {c : MC K} {sccs : List (List (Fin c.n))} (h : IsClasses c.p sccs) :
    ClosedSet (fun i j => c.p i j) (· ∉ transientStatesIdx c.p sccs) := by
  intro i j hi he hj
  refine (mem_transientStatesIdx h j).1 hj ?_
  have hi' : RecurrentState (fun i j => c.p i j) i := by
    by_contra hcon
    exact hi ((mem_transientStatesIdx h i).2 hcon)
  exact hi'.of_reach (.single he)

theorem transient_nodup {c : MC K} {sccs : List (List (Fin c.n))} (h : IsClasses c.p sccs) :
    (transientStatesIdx c.p sccs).Nodup :=
  (transientStatesIdx_strict h).imp fun hab => ne_of_lt hab

theorem isAbsorbing_of {c : MC K} (ha : AbsorbingChain c.p) : isAbsorbing c = true := by
  rw [isAbsorbing_iff]
  have key : ∀ i, AbsorbingState c.p i → isclose (c.p i i) 1 = true := fun i h => by
    rw [show c.p i i = 1 from h]; exact isclose_self 1
  obtain ⟨⟨a, h1⟩, h2⟩ := ha
  refine ⟨⟨a, key a h1⟩, fun i => ?_⟩
  obtain ⟨b, hb, hr⟩ := h2 i
  exact ⟨b, key b hb, hr⟩

/-- The test at the beginning of the functions. -/
theorem absorbing_guard {c : MC K} {sccs : List (List (Fin c.n))} (h : IsClasses c.p sccs)
    (ha : AbsorbingChain c.p) (ht : ∃ i, TransientState c.p i) :
    ¬ (isAbsorbing c = false ∨ (transientStates c sccs).length = 0) := by
  rintro (h1 | h1)
  · rw [isAbsorbing_of ha] at h1; cases h1
  · obtain ⟨i, hi⟩ := ht
    have := (mem_transientStatesIdx h i).2 hi
    unfold transientStates at h1
    rw [List.length_map, List.length_eq_zero_iff] at h1
    rw [h1] at this
    cases this

/-- What `fundamental_matrix` returns for an absorbing chain with transient states. -/
theorem fundamentalMatrix_spec {c : MC K} (hc : c.Valid) {sccs : List (List (Fin c.n))}
    (h : IsClasses c.p sccs) (ha : AbsorbingChain c.p) (ht : ∃ i, TransientState c.p i) :
    ∃ N, fundamentalMatrix c sccs = .ok (some N) ∧
      (1 - subMatrix c.p (transientStatesIdx c.p sccs)) * N = 1 ∧
      N * (1 - subMatrix c.p (transientStatesIdx c.p sccs)) = 1 ∧ ∀ a b, 0 ≤ N a b := by
  obtain ⟨N, h1, h2, h3, h4⟩ := sub_inverse hc.2.1 (transient_nodup h) (transient_escapes h)
  refine ⟨N, ?_, h2, h3, h4⟩
  unfold fundamentalMatrix
  rw [if_neg (absorbing_guard h ha ht), h1]
  rfl

/-- The sum over all `k` of the powers of the block. -/
theorem block_hasSum {n : ℕ} {P : Matrix (Fin n) (Fin n) ℝ} {T : List (Fin n)} (hn : T.Nodup)
    (h0 : ∀ i j, 0 ≤ P i j) (hcl : ClosedSet (fun i j => P i j) (· ∉ T))
    {N : Matrix (Fin T.length) (Fin T.length) ℝ} (h2 : (1 - subMatrix P T) * N = 1)
    (h4 : ∀ a b, 0 ≤ N a b) (a b : Fin T.length) :
    HasSum (fun k => (subMatrix P T ^ k) a b) (N a b) := by
  have hq := subMatrix_pow hn h0 hcl
  have hpos : ∀ k a b, 0 ≤ (subMatrix P T ^ k) a b := by
    intro k a b
    rw [hq]
    exact nonneg_pow h0 k _ _
  have hrem : ∀ k a b, ∑ l ∈ range k, (subMatrix P T ^ l) a b +
      ∑ d, (subMatrix P T ^ k) a d * N d b = N a b := by
    intro k a b
    have h5 := congrFun (congrFun (geom_remainder h2 k) a) b
    rw [Matrix.add_apply, Matrix.sum_apply, Matrix.mul_apply] at h5
    exact h5
  have hsum : ∀ a b, Summable fun k => (subMatrix P T ^ k) a b := by
    intro a b
    refine summable_of_sum_range_le (c := N a b) (fun k => hpos k a b) fun k => ?_
    have h5 := hrem k a b
    have h6 : 0 ≤ ∑ d, (subMatrix P T ^ k) a d * N d b :=
      Finset.sum_nonneg fun d _ => mul_nonneg (hpos k a d) (h4 d b)
    linarith
  rw [hasSum_iff_tendsto_nat_of_nonneg (fun k => hpos k a b)]
  have h5 : Filter.Tendsto (fun k => N a b - ∑ d, (subMatrix P T ^ k) a d * N d b) Filter.atTop
      (nhds (N a b - ∑ d, 0 * N d b)) := by
    refine Filter.Tendsto.sub tendsto_const_nhds (tendsto_finsetSum _ fun d _ => ?_)
    exact ((hsum a d).tendsto_atTop_zero).mul_const _
  simp only [zero_mul, Finset.sum_const_zero, sub_zero] at h5
  refine h5.congr fun k => ?_
  have := hrem k a b
  linarith

/-- C38. For an absorbing chain with transient states `fundamental_matrix` exists, and its entry at
two transient states is the sum over all `k` of the `k`-step probabilities between them (the
expected number of visits). -/
theorem C38_fundamental_matrix {c : MC ℝ} (hc : c.Valid) {sccs : List (List (Fin c.n))}
    (h : IsClasses c.p sccs) (ha : AbsorbingChain c.p) (ht : ∃ i, TransientState c.p i) :
    ∃ N, fundamentalMatrix c sccs = .ok (some N) ∧
      (∀ i, i ∈ transientStatesIdx c.p sccs ↔ TransientState c.p i) ∧
      ∀ a b, HasSum (fun k => (c.p ^ k) ((transientStatesIdx c.p sccs).get a)
        ((transientStatesIdx c.p sccs).get b)) (N a b) := by
  obtain ⟨N, h1, h2, h3, h4⟩ := fundamentalMatrix_spec hc h ha ht
  refine ⟨N, h1, fun i => mem_transientStatesIdx h i, ?_⟩
  intro a b
  have h5 := block_hasSum (transient_nodup h) hc.2.1.1 (transient_closed h) h2 h4 a b
  simpa only [subMatrix_pow (transient_nodup h) hc.2.1.1 (transient_closed h)] using h5

/-- C40. `mean_absorption_times` of an absorbing chain with transient states is the unique solution
of the first-step equations, and all its entries are at least one. -/
theorem C40_mean_absorption_times {c : MC K} (hc : c.Valid) {sccs : List (List (Fin c.n))}
    (h : IsClasses c.p sccs) (ha : AbsorbingChain c.p) (ht : ∃ i, TransientState c.p i) :
    ∃ t, meanAbsorptionTimes c sccs = .ok (some t) ∧ (∀ i, 1 ≤ t i) ∧
      ∀ s : Fin (transientStatesIdx c.p sccs).length → K,
        (∀ i, s i = 1 + ∑ j, c.p ((transientStatesIdx c.p sccs).get i)
          ((transientStatesIdx c.p sccs).get j) * s j) ↔ s = t := by
  obtain ⟨N, h1, h2, h3, h4⟩ := fundamentalMatrix_spec hc h ha ht
  have heq : ∀ s : Fin (transientStatesIdx c.p sccs).length → K,
      (∀ i, s i = 1 + ∑ j, c.p ((transientStatesIdx c.p sccs).get i)
          ((transientStatesIdx c.p sccs).get j) * s j) ↔
        (1 - subMatrix c.p (transientStatesIdx c.p sccs)).mulVec s = fun _ => 1 := by
    intro s
    rw [Matrix.sub_mulVec, Matrix.one_mulVec, funext_iff]
    refine forall_congr' fun i => ?_
    rw [Pi.sub_apply, sub_eq_iff_eq_add]
    exact Iff.rfl
  have hun : ∀ s, (1 - subMatrix c.p (transientStatesIdx c.p sccs)).mulVec s = (fun _ => 1) ↔
      s = N.mulVec fun _ => 1 := by
    intro s
    constructor
    · intro hs
      rw [← hs, Matrix.mulVec_mulVec, h3, Matrix.one_mulVec]
    · rintro rfl
      rw [Matrix.mulVec_mulVec, h2, Matrix.one_mulVec]
  refine ⟨N.mulVec fun _ => 1, ?_, ?_, fun s => (heq s).trans (hun s)⟩
  · unfold meanAbsorptionTimes
    rw [if_neg (absorbing_guard h ha ht), h1]
    rfl
  · intro i
    rw [((heq _).trans (hun _)).2 rfl i]
    have : 0 ≤ ∑ j, c.p ((transientStatesIdx c.p sccs).get i)
        ((transientStatesIdx c.p sccs).get j) * (N.mulVec fun _ => 1) j :=
      Finset.sum_nonneg fun j _ => mul_nonneg (hc.2.1.1 _ _)
        (by
          change 0 ≤ ∑ k, N j k * 1
          exact Finset.sum_nonneg fun k _ => mul_nonneg (h4 j k) zero_le_one)
    linarith

theorem one_add_mul {m : ℕ} {Q N : Matrix (Fin m) (Fin m) K} (h2 : (1 - Q) * N = 1)
    (a b : Fin m) : N a b = (1 : Matrix (Fin m) (Fin m) K) a b + ∑ d, Q a d * N d b := by
  have h5 := congrFun (congrFun h2 a) b
  rw [sub_mul, one_mul, Matrix.sub_apply, Matrix.mul_apply] at h5
  rw [← h5]
  ring

/-- C51. `kemeny_constant` of an absorbing chain with transient states is the trace of
`fundamental_matrix`, and it is at least the number of transient states. -/
theorem C51_kemeny_constant {c : MC K} (hc : c.Valid) {sccs : List (List (Fin c.n))}
    (h : IsClasses c.p sccs) (ha : AbsorbingChain c.p) (ht : ∃ i, TransientState c.p i) :
    ∃ N, fundamentalMatrix c sccs = .ok (some N) ∧
      kemenyConstant c sccs = .ok (some (∑ i, N i i)) ∧
      ((transientStates c sccs).length : K) ≤ ∑ i, N i i := by
  obtain ⟨N, h1, h2, h3, h4⟩ := fundamentalMatrix_spec hc h ha ht
  refine ⟨N, h1, ?_, ?_⟩
  · unfold kemenyConstant
    rw [h1]
    rfl
  · have key : ∀ i, 1 ≤ N i i := by
      intro i
      rw [one_add_mul h2 i i, Matrix.one_apply_eq]
      have : 0 ≤ ∑ d, subMatrix c.p (transientStatesIdx c.p sccs) i d * N d i :=
        Finset.sum_nonneg fun d _ => mul_nonneg (hc.2.1.1 _ _) (h4 _ _)
      linarith
    have := Finset.sum_le_sum fun i (_ : i ∈ univ) => key i
    simpa [transientStates] using this

/-! ## Absorption probabilities -/

theorem absorbing_of_recurrent {c : MC K} (hc : c.Valid) (ha : AbsorbingChain c.p) {i : Fin c.n}
    (hi : RecurrentState c.p i) : AbsorbingState c.p i := by
  obtain ⟨b, hb, hr⟩ := ha.2 i
  have hcl : ClosedSet (fun i j => c.p i j) (· = b) := by
    rintro x y rfl hxy
    by_contra hne
    have h1 := hc.2.1.2 x
    have h2 : c.p x x + c.p x y ≤ ∑ j, c.p x j := by
      rw [← Finset.sum_pair (f := fun j => c.p x j) (Ne.symm hne)]
      exact Finset.sum_le_univ_sum_of_nonneg fun j => hc.2.1.1 x j
    have h3 : (0 : K) < c.p x y := hxy
    have h4 : c.p x x = 1 := hb
    have h5 : ∑ j, c.p x j = 1 := h1
    linarith
  have := closedSet_reach hcl rfl (hi b hr)
  rw [this]
  exact hb

theorem absorbing_row {c : MC K} (hc : c.Valid) {b : Fin c.n} (hb : AbsorbingState c.p b)
    (j : Fin c.n) : c.p b j = if b = j then 1 else 0 := by
  split
  · rename_i h; rw [← h]; exact hb
  · rename_i hne
    have h1 : ∑ j, c.p b j = 1 := hc.2.1.2 b
    have h2 : c.p b b + c.p b j ≤ ∑ j, c.p b j := by
      rw [← Finset.sum_pair (f := fun j => c.p b j) hne]
      exact Finset.sum_le_univ_sum_of_nonneg fun j => hc.2.1.1 b j
    have h4 : c.p b b = 1 := hb
    have h5 : 0 ≤ c.p b j := hc.2.1.1 b j
    linarith

/-- The time of absorption: being in the absorbing state `b` at time `k` means having entered it at
some earlier step. -/
theorem pow_absorbing {c : MC K} (hc : c.Valid) {T : List (Fin c.n)} (hn : T.Nodup)
    (hT : ∀ i, i ∉ T → AbsorbingState c.p i) {b : Fin c.n} (hb : b ∉ T) (k : ℕ)
    (a : Fin T.length) : (c.p ^ k) (T.get a) b =
      ∑ l ∈ range k, ∑ d, (c.p ^ l) (T.get a) (T.get d) * c.p (T.get d) b := by
  induction k with
  | zero =>
    rw [Finset.sum_range_zero, pow_zero]
    exact Matrix.one_apply_ne fun h => hb (h ▸ List.get_mem T a)
  | succ k ih =>
    rw [Finset.sum_range_succ, ← ih, pow_succ]
    refine (Matrix.mul_apply).trans ?_
    rw [← Finset.sum_filter_add_sum_filter_not univ (· ∈ T), add_comm,
      ← sum_get hn fun j => (c.p ^ k) (T.get a) j * c.p j b]
    congr 1
    refine (Finset.sum_eq_single_of_mem b (by simp [hb]) ?_).trans ?_
    · intro j hj hne
      rw [absorbing_row hc (hT j (by simpa using hj)), if_neg hne, mul_zero]
    · rw [absorbing_row hc (hT b hb), if_pos rfl, mul_one]

/-- C39 for absorbing chains in which no transient state has a probability of staying within the
tolerance of one: for every transient state the absorption probabilities are nonnegative, sum to
one over the absorbing states, and are the limits of the `k`-step probabilities.
Missing: the other absorbing chains, see `C39_sticky`. -/
theorem C39_absorption_probabilities_partial {c : MC ℝ} (hc : c.Valid)
    {sccs : List (List (Fin c.n))} (h : IsClasses c.p sccs) (ha : AbsorbingChain c.p)
    (ht : ∃ i, TransientState c.p i) (htol : ∀ i, isclose (c.p i i) 1 = true → c.p i i = 1) :
    ∃ B, absorptionProbabilities c sccs = .ok (some B) ∧
      (∀ i, i ∈ transientStatesIdx c.p sccs ↔ TransientState c.p i) ∧
      (∀ i, i ∈ absorbingIdx c.p ↔ AbsorbingState c.p i) ∧
      (∀ a i, 0 ≤ B a i) ∧ (∀ i, ∑ a, B a i = 1) ∧
      ∀ a i, Filter.Tendsto (fun k => (c.p ^ k) ((transientStatesIdx c.p sccs).get i)
        ((absorbingIdx c.p).get a)) Filter.atTop (nhds (B a i)) := by
  obtain ⟨N, h1, h2, h3, h4⟩ := fundamentalMatrix_spec hc h ha ht
  have hT : ∀ i, i ∈ transientStatesIdx c.p sccs ↔ TransientState c.p i :=
    fun i => mem_transientStatesIdx h i
  have hA : ∀ i, i ∈ absorbingIdx c.p ↔ AbsorbingState c.p i := fun i => by
    rw [mem_absorbingIdx]
    exact ⟨htol i, fun h => by rw [show c.p i i = 1 from h]; exact isclose_self 1⟩
  have hnT : ∀ i, i ∉ transientStatesIdx c.p sccs ↔ i ∈ absorbingIdx c.p := by
    intro i
    rw [hT, hA]
    unfold TransientState
    rw [not_not]
    refine ⟨absorbing_of_recurrent hc ha, fun hi j hj => ?_⟩
    have hcl : ClosedSet (fun i j => c.p i j) (· = i) := by
      rintro x y rfl hxy
      by_contra hne
      have := absorbing_row hc hi y
      rw [if_neg (Ne.symm hne)] at this
      exact absurd this (ne_of_gt hxy)
    rw [closedSet_reach hcl rfl hj]
    exact .refl i
  have hnodA : (absorbingIdx c.p).Nodup := (List.nodup_finRange _).filter _
  refine ⟨fun a i => ∑ k, N i k *
      c.p ((transientStatesIdx c.p sccs).get k) ((absorbingIdx c.p).get a), ?_, hT, hA, ?_, ?_, ?_⟩
  · unfold absorptionProbabilities
    rw [if_neg (absorbing_guard h ha ht), h1]
    rfl
  · exact fun a i => Finset.sum_nonneg fun k _ => mul_nonneg (h4 i k) (hc.2.1.1 _ _)
  · intro i
    rw [Finset.sum_comm]
    have h5 : ∀ k, ∑ a, N i k * c.p ((transientStatesIdx c.p sccs).get k)
        ((absorbingIdx c.p).get a) =
        N i k * ((1 - subMatrix c.p (transientStatesIdx c.p sccs)).mulVec fun _ => 1) k := by
      intro k
      rw [← Finset.mul_sum, sum_get hnodA fun j => c.p ((transientStatesIdx c.p sccs).get k) j]
      congr 1
      rw [Matrix.sub_mulVec, Matrix.one_mulVec, Pi.sub_apply]
      have h6 : (subMatrix c.p (transientStatesIdx c.p sccs)).mulVec (fun _ => 1) k =
          ∑ b, c.p ((transientStatesIdx c.p sccs).get k) ((transientStatesIdx c.p sccs).get b) :=
        (show _ = ∑ b, subMatrix c.p (transientStatesIdx c.p sccs) k b * 1 from rfl).trans
          (Finset.sum_congr rfl fun b _ => mul_one _)
      rw [h6, sum_get (transient_nodup h) fun j => c.p ((transientStatesIdx c.p sccs).get k) j,
        eq_sub_iff_add_eq]
      have h7 : ∑ j, c.p ((transientStatesIdx c.p sccs).get k) j = 1 := hc.2.1.2 _
      rw [← h7, ← Finset.sum_filter_add_sum_filter_not univ (· ∈ absorbingIdx c.p)]
      congr 1
      refine Finset.sum_congr (Finset.filter_congr fun j _ => ?_) fun _ _ => rfl
      rw [← hnT j, not_not]
    rw [Finset.sum_congr rfl fun k _ => h5 k]
    have h8 : (N.mulVec ((1 - subMatrix c.p (transientStatesIdx c.p sccs)).mulVec fun _ => 1)) i
        = 1 := by rw [Matrix.mulVec_mulVec, h3, Matrix.one_mulVec]
    exact h8
  · intro a i
    have hb : (absorbingIdx c.p).get a ∉ transientStatesIdx c.p sccs :=
      (hnT _).2 (List.get_mem _ a)
    have h5 := pow_absorbing hc (transient_nodup h)
      (fun i hi => (hA i).1 ((hnT i).1 hi)) hb
    have h6 : HasSum (fun l => ∑ d, (c.p ^ l) ((transientStatesIdx c.p sccs).get i)
        ((transientStatesIdx c.p sccs).get d) * c.p ((transientStatesIdx c.p sccs).get d)
          ((absorbingIdx c.p).get a))
        (∑ k, N i k * c.p ((transientStatesIdx c.p sccs).get k) ((absorbingIdx c.p).get a)) := by
      refine hasSum_sum fun d _ => HasSum.mul_right _ ?_
      have h7 := block_hasSum (transient_nodup h) hc.2.1.1 (transient_closed h) h2 h4 i d
      simpa only [subMatrix_pow (transient_nodup h) hc.2.1.1 (transient_closed h)] using h7
    refine h6.tendsto_sum_nat.congr fun k => ?_
    exact (h5 k i).symm

/-- C39, disagreement: in an absorbing chain with a transient state whose probability of staying is
within the tolerance of one, that state is listed among the absorbing states too and the reported
"probability" of being absorbed there exceeds one. -/
theorem C39_sticky {c : MC K} (hc : c.Valid) {sccs : List (List (Fin c.n))}
    (h : IsClasses c.p sccs) (ha : AbsorbingChain c.p) {i : Fin c.n} (hi : TransientState c.p i)
    (htol : isclose (c.p i i) 1 = true) :
    ∃ B, absorptionProbabilities c sccs = .ok (some B) ∧
      ∃ a b, (absorbingIdx c.p).get a = i ∧ (transientStatesIdx c.p sccs).get b = i ∧
        1 < B a b := by
  obtain ⟨N, h1, h2, h3, h4⟩ := fundamentalMatrix_spec hc h ha ⟨i, hi⟩
  obtain ⟨a, hai⟩ := List.get_of_mem (mem_absorbingIdx.2 htol)
  obtain ⟨b, hbi⟩ := List.get_of_mem ((mem_transientStatesIdx h i).2 hi)
  refine ⟨fun a i => ∑ k, N i k *
      c.p ((transientStatesIdx c.p sccs).get k) ((absorbingIdx c.p).get a), ?_, a, b, hai, hbi, ?_⟩
  · unfold absorptionProbabilities
    rw [if_neg (absorbing_guard h ha ⟨i, hi⟩), h1]
    rfl
  · have h5 : N b b * c.p i i ≤ ∑ k, N b k *
        c.p ((transientStatesIdx c.p sccs).get k) ((absorbingIdx c.p).get a) := by
      have := Finset.single_le_sum (s := univ) (f := fun k => N b k *
        c.p ((transientStatesIdx c.p sccs).get k) ((absorbingIdx c.p).get a))
        (fun k _ => mul_nonneg (h4 b k) (hc.2.1.1 _ _)) (mem_univ b)
      simp only [hbi, hai] at this ⊢
      exact this
    have h6 : 1 + c.p i i * N b b ≤ N b b := by
      conv_rhs => rw [one_add_mul h2 b b, Matrix.one_apply_eq]
      have := Finset.single_le_sum (s := univ)
        (f := fun d => subMatrix c.p (transientStatesIdx c.p sccs) b d * N d b)
        (fun k _ => mul_nonneg (hc.2.1.1 _ _) (h4 k b)) (mem_univ b)
      have h7 : subMatrix c.p (transientStatesIdx c.p sccs) b b = c.p i i := by
        unfold subMatrix; rw [hbi]
      simp only [h7] at this
      linarith
    have h8 : 9 / 10 < c.p i i := by
      unfold isclose at htol
      rw [decide_eq_true_eq, abs_one, mul_one] at htol
      have := (abs_le.1 htol).1
      norm_num at this
      linarith
    have h9 : c.p i i ≤ 1 := IsStochastic.le_one hc.2.1 i i
    refine lt_of_lt_of_le ?_ h5
    nlinarith

/-- The hypotheses of `C38_fundamental_matrix`, `C39_absorption_probabilities_partial`,
`C40_mean_absorption_times` and `C51_kemeny_constant` are met by a real chain. -/
theorem exDrunkard_meets : exDrunkard.toReal.Valid ∧
    IsClasses exDrunkard.toReal.p ([[0], [1], [2]] : List (List (Fin 3))) ∧
    AbsorbingChain exDrunkard.toReal.p ∧ (∃ i, TransientState exDrunkard.toReal.p i) ∧
    ∀ i, isclose (exDrunkard.toReal.p i i) 1 = true → exDrunkard.toReal.p i i = 1 := by
  refine ⟨toReal_valid (by decide +kernel), toReal_isClasses (c := exDrunkard) ?_,
    toReal_absorbingChain (c := exDrunkard) ?_, ⟨(1 : Fin 3), toReal_transientState
      (c := exDrunkard) ?_⟩, ?_⟩
  · change IsClasses (fun i j : Fin 3 => exDrunkard.p i j) [[0], [1], [2]]
    decide +kernel
  · change AbsorbingChain (fun i j : Fin 3 => exDrunkard.p i j)
    decide +kernel
  · change TransientState (fun i j : Fin 3 => exDrunkard.p i j) 1
    decide +kernel
  · intro i hi
    have key : ∀ i : Fin 3, isclose (exDrunkard.p i i) 1 = true → exDrunkard.p i i = 1 := by
      decide +kernel
    have h1 : exDrunkard.p i i = 1 := by
      refine key i ?_
      rw [← isclose_cast, Rat.cast_one]
      exact hi
    change ((exDrunkard.p i i : ℚ) : ℝ) = 1
    exact_mod_cast h1

/-- The middle state is visited once, for one step. -/
example : ∃ t, meanAbsorptionTimes exDrunkard ([[0], [1], [2]] : List (List (Fin 3))) =
    .ok (some t) ∧ ∀ i, t i = 1 := by
  have hcl : IsClasses (fun i j : Fin 3 => exDrunkard.p i j) [[0], [1], [2]] := by decide +kernel
  have hab : AbsorbingChain (fun i j : Fin 3 => exDrunkard.p i j) := by decide +kernel
  have htr : TransientState (fun i j : Fin 3 => exDrunkard.p i j) 1 := by decide +kernel
  obtain ⟨t, h1, -, h2⟩ := C40_mean_absorption_times (c := exDrunkard) (by decide +kernel) hcl hab
    ⟨(1 : Fin 3), htr⟩
  refine ⟨t, h1, fun i => ?_⟩
  rw [← (h2 fun _ => 1).1 ?_]
  have key : ∀ i j : Fin (transientStatesIdx exDrunkard.p
      ([[0], [1], [2]] : List (List (Fin 3)))).length,
      exDrunkard.p ((transientStatesIdx exDrunkard.p ([[0], [1], [2]] : List (List (Fin 3)))).get i)
        ((transientStatesIdx exDrunkard.p ([[0], [1], [2]] : List (List (Fin 3)))).get j) = 0 := by
    decide +kernel
  intro i
  rw [Finset.sum_eq_zero fun j _ => by rw [key i j, zero_mul], add_zero]

/-- A transient state that is left once in a million steps. -/
def exSticky : MC ℚ := ⟨2, !![999999 / 1000000, 1 / 1000000; 0, 1], ["a", "b"]⟩

/-- The hypotheses of `C39_sticky` are met. -/
example : exSticky.Valid ∧ IsClasses (fun i j : Fin 2 => exSticky.p i j) [[0], [1]] ∧
    AbsorbingChain (fun i j : Fin 2 => exSticky.p i j) ∧
    TransientState (fun i j : Fin 2 => exSticky.p i j) 0 ∧
    isclose (exSticky.p (0 : Fin 2) (0 : Fin 2)) 1 = true := by decide +kernel

end Verif
