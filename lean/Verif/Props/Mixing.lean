import Verif.Props.Passage
import Verif.Props.Arguments
import Verif.Lemmas.Cast

/-!
# Mixing time (C50)

The distance which the code calls total variation distance is the sum of the absolute differences,
without the factor one half of the textbook definition; the theorems below are about that sum.
-/

set_option linter.unusedSectionVars false

namespace Verif

open Finset

variable {K : Type} [Field K] [LinearOrder K] [IsStrictOrderedRing K]

/-- The distance between the law after `k` steps and `x`. -/
def distAt {n : ℕ} (P : Matrix (Fin n) (Fin n) K) (x d : Fin n → K) (k : ℕ) : K :=
  ∑ i, |Matrix.vecMul d (P ^ k) i - x i|

section Loop

variable {n : ℕ} {P : Matrix (Fin n) (Fin n) K}

/-- The distance never grows. -/
theorem distAt_antitone (hP : IsStochastic fun i j => P i j) {x : Fin n → K}
    (hx : IsInvariant (fun i j => P i j) x) (d : Fin n → K) {a b : ℕ} (h : a ≤ b) :
    distAt P x d b ≤ distAt P x d a := by
  induction b, h using Nat.le_induction with
  | base => exact le_rfl
  | succ b _ ih =>
    refine le_trans ?_ ih
    unfold distAt
    have h1 : ∀ j, Matrix.vecMul d (P ^ (b + 1)) j - x j =
        ∑ i, (Matrix.vecMul d (P ^ b) i - x i) * P i j := by
      intro j
      rw [pow_succ, ← Matrix.vecMul_vecMul]
      have h2 : ∑ i, x i * P i j = x j := hx j
      simp only [sub_mul, Finset.sum_sub_distrib]
      rw [h2]
      rfl
    simp only [h1]
    refine le_trans (Finset.sum_le_sum fun j _ => Finset.abs_sum_le_sum_abs _ _) ?_
    rw [Finset.sum_comm]
    refine Finset.sum_le_sum fun i _ => le_of_eq ?_
    have h3 : ∀ j, |(Matrix.vecMul d (P ^ b) i - x i) * P i j| =
        |Matrix.vecMul d (P ^ b) i - x i| * P i j := fun j => by
      rw [abs_mul, abs_of_nonneg (hP.1 i j)]
    simp only [h3]
    rw [← Finset.mul_sum]
    exact (congrArg (_ * ·) (hP.2 i)).trans (mul_one _)

/-- The loop finds the first distance within the cutoff. -/
theorem mixingLoop_spec (x d : Fin n → K) (cutoff : K) (jump : ℤ) (T : ℕ → K)
    (hT : ∀ k, 1 ≤ k → T k = distAt P x d k) (fuel m : ℕ) :
    (∃ k, m ≤ k ∧ k < m + fuel ∧ T k ≤ cutoff ∧ (∀ j, m ≤ j → j < k → cutoff < T j) ∧
      mixingLoop P x cutoff jump fuel (T m) (Matrix.vecMul d (P ^ (m + 1))) (m * jump) =
        (m + fuel - k, k * jump)) ∨
    ((∀ j, m ≤ j → j < m + fuel → cutoff < T j) ∧
      (mixingLoop P x cutoff jump fuel (T m) (Matrix.vecMul d (P ^ (m + 1))) (m * jump)).1 = 0) := by
  induction fuel generalizing m with
  | zero => exact Or.inr ⟨fun j h1 h2 => by omega, rfl⟩
  | succ fuel ih =>
    unfold mixingLoop
    by_cases h : T m > cutoff
    · rw [if_pos h]
      have h1 : ∑ i, |Matrix.vecMul d (P ^ (m + 1)) i - x i| = T (m + 1) :=
        (hT (m + 1) (by omega)).symm
      have h2 : (fun j => ∑ i, Matrix.vecMul d (P ^ (m + 1)) i * P i j) =
          Matrix.vecMul d (P ^ (m + 1 + 1)) := by
        rw [pow_succ P (m + 1), ← Matrix.vecMul_vecMul]
        rfl
      have h3 : (m * jump + jump : ℤ) = ((m + 1 : ℕ) : ℤ) * jump := by push_cast; ring
      rw [h1, h2, h3]
      rcases ih (m + 1) with ⟨k, k1, k2, k3, k4, k5⟩ | ⟨k1, k2⟩
      · refine Or.inl ⟨k, by omega, by omega, k3, fun j j1 j2 => ?_, ?_⟩
        · by_cases hj : j = m
          · rw [hj]; exact h
          · exact k4 j (by omega) j2
        · rw [k5, show m + 1 + fuel - k = m + (fuel + 1) - k by omega]
      · refine Or.inr ⟨fun j j1 j2 => ?_, k2⟩
        by_cases hj : j = m
        · rw [hj]; exact h
        · exact k1 j (by omega) (by omega)
    · rw [if_neg h]
      exact Or.inl ⟨m, le_rfl, by omega, not_lt.1 h, fun j j1 j2 => by omega, by
        rw [show m + (fuel + 1) - m = fuel + 1 by omega]⟩

end Loop

/-- What `mc_mixing_time` returns for an ergodic chain: `k * jump` for the first `k` from 1 to 99
after which the distance is within the cutoff, `None` if there is no such `k`. -/
theorem mcMixingTime_spec {c : MC K} (hc : c.Valid) {nx : Nx c.n} (hx : nx.Sound c.p)
    (herg : Ergodic c.p) (d : Fin c.n → K) (jump : ℤ) {cutoff : K} (hcut : cutoff < 1) :
    ∃ x, IsStationary c.p x ∧
      ((∃ k : ℕ, 1 ≤ k ∧ k ≤ 99 ∧ mcMixingTime c nx d jump cutoff = .ok (some (k * jump)) ∧
          distAt c.p x d k ≤ cutoff ∧ ∀ j, 1 ≤ j → j < k → cutoff < distAt c.p x d j) ∨
        (mcMixingTime c nx d jump cutoff = .ok none ∧
          ∀ j, 1 ≤ j → j ≤ 99 → cutoff < distAt c.p x d j)) := by
  obtain ⟨x, hx1, hx2, -, -⟩ := pi0_spec hc hx.sccs herg.1
  refine ⟨x, hx2, ?_⟩
  obtain ⟨T, hT⟩ : ∃ T : ℕ → K, T = fun k => if k = 0 then 1 else distAt c.p x d k := ⟨_, rfl⟩
  have hT0 : T 0 = 1 := by rw [hT]; rfl
  have hT1 : ∀ k, 1 ≤ k → T k = distAt c.p x d k := fun k hk => by
    rw [hT]; exact if_neg (by omega)
  have hrun : mcMixingTime c nx d jump cutoff =
      .ok (if (mixingLoop c.p x cutoff jump 100 (T 0) (Matrix.vecMul d (c.p ^ (0 + 1)))
        ((0 : ℕ) * jump)).1 = 0 then none else
        some (mixingLoop c.p x cutoff jump 100 (T 0) (Matrix.vecMul d (c.p ^ (0 + 1)))
        ((0 : ℕ) * jump)).2) := by
    unfold mcMixingTime
    rw [if_pos ((isErgodic_iff hc hx).2 herg), hx1, hT0, zero_add, pow_one, Nat.cast_zero, zero_mul]
    rfl
  rw [hrun]
  rcases mixingLoop_spec (P := c.p) x d cutoff jump T hT1 100 0 with
    ⟨k, k1, k2, k3, k4, k5⟩ | ⟨k1, k2⟩
  · have hk0 : k ≠ 0 := by
      rintro rfl
      rw [hT0] at k3
      exact absurd k3 (not_le.2 hcut)
    left
    refine ⟨k, by omega, by omega, ?_, ?_, fun j j1 j2 => ?_⟩
    · rw [k5, if_neg (by simp only; omega)]
    · rw [← hT1 k (by omega)]; exact k3
    · rw [← hT1 j j1]; exact k4 j (by omega) j2
  · right
    refine ⟨by rw [if_pos k2], fun j j1 j2 => ?_⟩
    rw [← hT1 j j1]
    exact k1 j (by omega) (by omega)

/-- The cutoff of the enumerated argument. -/
theorem mixingTime_run {c : MC K} {nx : Nx c.n} {natural : K} {d : Option (PyVal K)}
    {jump kind : PyVal K} {y : Fin c.n → K} {z : ℤ} {k : String}
    (hd : initialDistribution c.n d = .ok y)
    (hj : validateInteger jump (some (0, true)) none = .ok z)
    (hk : validateEnumerator kind ["natural", "traditional"] = .ok k) :
    mixingTime c nx natural d jump kind =
      mcMixingTime c nx y z (if k = "traditional" then 1 / 4 else natural) := by
  unfold mixingTime
  rw [hd]
  change (validateInteger jump (some (0, true)) none >>= _) = _
  rw [hj]
  change (validateEnumerator kind ["natural", "traditional"] >>= _) = _
  rw [hk]
  rfl

/-- C50 (partial). For an ergodic chain and jumps of one step the result is the least `k ≥ 1` after
which the distance is at most the cutoff, and the distance stays within it. `None` is returned if
the distance exceeds the cutoff after each of the first 99 steps. -/
theorem C50_single_jump_partial {c : MC K} (hc : c.Valid) {nx : Nx c.n} (hx : nx.Sound c.p)
    (herg : Ergodic c.p) {natural : K} (hnat : natural < 1) {d : Option (PyVal K)}
    {jump kind : PyVal K} {y : Fin c.n → K} {k : String}
    (hd : initialDistribution c.n d = .ok y)
    (hj : validateInteger jump (some (0, true)) none = .ok 1)
    (hk : validateEnumerator kind ["natural", "traditional"] = .ok k) :
    ∃ x, IsStationary c.p x ∧ ∃ r, mixingTime c nx natural d jump kind = .ok r ∧
      (∀ m, r = some m → ∃ t : ℕ, m = t ∧ 1 ≤ t ∧
        (∀ s, t ≤ s → distAt c.p x y s ≤ if k = "traditional" then 1 / 4 else natural) ∧
        ∀ s, 1 ≤ s → s < t → (if k = "traditional" then 1 / 4 else natural) < distAt c.p x y s) ∧
      (r = none → ∀ s, 1 ≤ s → s ≤ 99 →
        (if k = "traditional" then 1 / 4 else natural) < distAt c.p x y s) := by
  have hcut : (if k = "traditional" then 1 / 4 else natural) < 1 := by
    split
    · norm_num
    · exact hnat
  obtain ⟨x, hx1, hx2⟩ := mcMixingTime_spec hc hx herg y 1 hcut
  refine ⟨x, hx1, ?_⟩
  rw [mixingTime_run hd hj hk]
  rcases hx2 with ⟨t, t1, -, t3, t4, t5⟩ | ⟨t1, t2⟩
  · refine ⟨_, t3, fun m hm => ⟨t, ?_, t1, fun s hs => ?_, t5⟩, fun h => by cases h⟩
    · cases hm; ring
    · exact le_trans (distAt_antitone (P := c.p) hc.2.1 hx1.2 y hs) t4
  · exact ⟨_, t1, ⟨fun m hm => (by cases hm), fun _ => t2⟩⟩

/-- A chain that is not ergodic has no mixing time. -/
theorem C50_not_ergodic {c : MC K} (hc : c.Valid) {nx : Nx c.n} (hx : nx.Sound c.p)
    (herg : ¬ Ergodic c.p) (natural : K) {d : Option (PyVal K)}
    {jump kind : PyVal K} {y : Fin c.n → K} {z : ℤ} {k : String}
    (hd : initialDistribution c.n d = .ok y)
    (hj : validateInteger jump (some (0, true)) none = .ok z)
    (hk : validateEnumerator kind ["natural", "traditional"] = .ok k) :
    mixingTime c nx natural d jump kind = .ok none := by
  rw [mixingTime_run hd hj hk]
  unfold mcMixingTime
  rw [if_neg]
  · rfl
  · rw [isErgodic_iff hc hx]; exact herg

/-! ## Failures -/

/-- A chain that is stationary after one step. -/
def exFair : MC ℚ := ⟨2, !![1 / 2, 1 / 2; 1 / 2, 1 / 2], ["a", "b"]⟩

/-- A slowly mixing chain; the distance after `k` steps from the first state is `0.9861 ^ k`. -/
def exSlow : MC ℚ :=
  ⟨2, !![19861 / 20000, 139 / 20000; 139 / 20000, 19861 / 20000], ["a", "b"]⟩

theorem ergodic_of_pos {c : MC ℚ} (hpos : ∀ i j, 0 < c.p i j) : Ergodic c.p :=
  ⟨fun i j => .single (hpos i j), fun i => ⟨fun k _ => one_dvd k, fun _ he =>
    (he 1 (ReachIn.single (hpos i i)))⟩⟩

/-- What the code uses of networkx, for the two chains. -/
def exNx (c : MC ℚ) (hn : c.n = 2) : Nx c.n :=
  Nx.ofClasses c.p [[⟨0, by omega⟩, ⟨1, by omega⟩]] true

/-- C50 fails for larger jumps: the chain is stationary after one step, but two is returned. -/
theorem C50_jump : exFair.Valid ∧ Ergodic exFair.p ∧ (exNx exFair rfl).Sound exFair.p ∧
    mixingTime exFair (exNx exFair rfl) 0 none (.int 2) (.str "traditional") = .ok (some 2) ∧
    distAt exFair.p (fun _ => 1 / 2) (fun _ => 1 / 2) 1 = 0 ∧
    IsStationary exFair.p (fun _ => 1 / 2) := by
  have hpos : ∀ i j : Fin 2, Edge (fun i j : Fin 2 => exFair.p i j) i j := by decide +kernel
  refine ⟨by decide +kernel, ergodic_of_pos hpos, ?_, ?_, ?_, ?_⟩
  · refine Nx.ofClasses_sound true ?_
    change IsClasses (fun i j : Fin 2 => exFair.p i j) [[0, 1]]
    decide +kernel
  · have : (mixingTime exFair (exNx exFair rfl) 0 none (.int 2) (.str "traditional")).toOption =
        some (some 2) := by decide +kernel
    revert this
    cases mixingTime exFair (exNx exFair rfl) 0 none (.int 2) (.str "traditional") with
    | ok v => intro h; simpa [Except.toOption] using h
    | error e => intro h; cases h
  · change distAt (n := 2) exFair.p (fun _ => 1 / 2) (fun _ => 1 / 2) 1 = 0
    unfold distAt
    decide +kernel
  · change IsStationary (fun i j : Fin 2 => exFair.p i j) (fun _ => 1 / 2)
    decide +kernel

/-- C50 fails at the iteration limit: the cutoff is met after 100 steps, which the loop of 100
iterations does find out, but `None` is returned. -/
theorem C50_last_iteration : exSlow.Valid ∧ Ergodic exSlow.p ∧ (exNx exSlow rfl).Sound exSlow.p ∧
    mixingTime exSlow (exNx exSlow rfl) 0 (some (.list [.int 1, .int 0])) (.int 1)
      (.str "traditional") = .ok none ∧
    distAt (n := 2) exSlow.p (fun _ => 1 / 2) ![1, 0] 100 ≤ 1 / 4 ∧
    IsStationary exSlow.p (fun _ => 1 / 2) := by
  have hpos : ∀ i j : Fin 2, Edge (fun i j : Fin 2 => exSlow.p i j) i j := by decide +kernel
  refine ⟨by decide +kernel, ergodic_of_pos hpos, ?_, ?_, ?_, ?_⟩
  · refine Nx.ofClasses_sound true ?_
    change IsClasses (fun i j : Fin 2 => exSlow.p i j) [[0, 1]]
    decide +kernel
  · have : (mixingTime exSlow (exNx exSlow rfl) 0 (some (.list [.int 1, .int 0])) (.int 1)
      (.str "traditional")).toOption = some none := by decide +kernel
    revert this
    cases mixingTime exSlow (exNx exSlow rfl) 0 (some (.list [.int 1, .int 0])) (.int 1)
      (.str "traditional") with
    | ok v => intro h; simpa [Except.toOption] using h
    | error e => intro h; cases h
  · unfold distAt
    decide +kernel
  · change IsStationary (fun i j : Fin 2 => exSlow.p i j) (fun _ => 1 / 2)
    decide +kernel

/-- `C50_single_jump_partial` has instances. -/
example : mixingTime exFair (exNx exFair rfl) 0 none (.int 1) (.str "traditional") = .ok (some 1) := by
  have : (mixingTime exFair (exNx exFair rfl) 0 none (.int 1) (.str "traditional")).toOption =
      some (some 1) := by decide +kernel
  revert this
  cases mixingTime exFair (exNx exFair rfl) 0 none (.int 1) (.str "traditional") with
  | ok v => intro h; simpa [Except.toOption] using h
  | error e => intro h; cases h

end Verif
