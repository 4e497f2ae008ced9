import Verif.Model.RoundedReversible
import Verif.Props.Monotone
import Verif.Props.RecurrenceDouble

/-!
# The test of reversibility in double arithmetic

C172: `is_reversible` gives in double arithmetic the answer of exact arithmetic, unless the difference between some flow
and the opposite one is within one percent of the tolerance.
-/

namespace Verif

open Finset

/-! ## Comparisons -/

/-- The error of rounding a nonnegative number. -/
theorem double_error {x : ℚ} (h0 : 0 ≤ x) : |double x - x| ≤ 1 / 2 ^ 53 * x + 1 / 2 ^ 1075 := by
  have h1 := double_le h0
  have h2 : (1 - 1 / 2 ^ 53) * x - 1 / 2 ^ 1075 ≤ double x := by
    rcases lt_or_ge x (1 / 2 ^ 1022) with h | h
    · rw [double_small h0 h]
      have h1 := (abs_le.1 (roundEven_near (x * 2 ^ 1074))).1
      have h2 : (x * 2 ^ 1074 - 1 / 2) / 2 ^ 1074 ≤ (roundEven (x * 2 ^ 1074) : ℚ) / 2 ^ 1074 :=
        div_le_div_of_nonneg_right (by linarith) (by positivity)
      refine le_trans ?_ h2
      rw [sub_div, mul_div_assoc, div_self (by positivity), mul_one, div_div,
        show (2 : ℚ) * 2 ^ 1074 = 2 ^ 1075 by rw [pow_succ 2 1074, mul_comm]]
      have h3 : 0 ≤ 1 / 2 ^ 53 * x := by positivity
      rw [sub_mul, one_mul]
      generalize (1 : ℚ) / 2 ^ 1075 = g
      linarith
    · rw [double_large h]
      have h1 := (abs_le.1 (binary64_near x)).1
      rw [abs_of_nonneg h0] at h1
      have h2 : (0 : ℚ) ≤ 1 / 2 ^ 1075 := by positivity
      generalize (1 : ℚ) / 2 ^ 1075 = g at *
      rw [sub_mul, one_mul]
      linarith
  generalize (1 : ℚ) / 2 ^ 1075 = g at *
  rw [abs_le]
  constructor <;> linarith

/-- The comparison of two numbers that are known with eight digits. -/
theorem iscloseF_margin {a b a' b' : ℚ} (hb : 0 ≤ b) (hb' : 0 ≤ b')
    (h1 : |a' - a| ≤ 11 / 10 ^ 9 * a + 1 / 2 ^ 1075) (h2 : |b' - b| ≤ 11 / 10 ^ 9 * b + 1 / 2 ^ 1075) :
    (|a - b| ≤ 99 / 100 * (1 / 10 ^ 8 + 1 / 10 ^ 5 * b) → iscloseF double a' b' = true) ∧
    (iscloseF double a' b' = true → |a - b| ≤ 101 / 100 * (1 / 10 ^ 8 + 1 / 10 ^ 5 * b)) := by
  have hg : (1 : ℚ) / 2 ^ 1075 ≤ 1 / 2 ^ 100 :=
    one_div_le_one_div_of_le (by positivity) (pow_le_pow_right₀ (by norm_num) (by norm_num))
  have hg0 : (0 : ℚ) ≤ 1 / 2 ^ 1075 := by positivity
  have ht : |double (1 / 10 ^ 8) - 1 / 10 ^ 8| ≤ 1 / 10 ^ 20 := by decide +kernel
  have hr : |double (1 / 10 ^ 5) - 1 / 10 ^ 5| ≤ 1 / 10 ^ 20 := by decide +kernel
  obtain ⟨t, hte⟩ : ∃ t, t = double (1 / 10 ^ 8) := ⟨_, rfl⟩
  obtain ⟨r, hre⟩ : ∃ r, r = double (1 / 10 ^ 5) := ⟨_, rfl⟩
  rw [← hte] at ht
  rw [← hre] at hr
  have ht' := abs_le.1 ht
  have hr' := abs_le.1 hr
  have hr0 : 0 ≤ r := by norm_num at hr' ⊢; linarith
  have hD := abs_le.1 (double_error (abs_nonneg (a' - b')))
  have hs := abs_le.1 (double_error (mul_nonneg hr0 hb'))
  have hs0 : 0 ≤ double (r * b') := double_nonneg (mul_nonneg hr0 hb')
  have hR := abs_le.1 (double_error (add_nonneg (by norm_num at ht' ⊢; linarith : 0 ≤ t) hs0))
  have hrb1 : r * b' ≤ (1 / 10 ^ 5 + 1 / 10 ^ 20) * b' := mul_le_mul_of_nonneg_right (by linarith) hb'
  have hrb2 : (1 / 10 ^ 5 - 1 / 10 ^ 20) * b' ≤ r * b' := mul_le_mul_of_nonneg_right (by linarith) hb'
  unfold iscloseF
  rw [decide_eq_true_eq, ← hte, ← hre, abs_of_nonneg hb']
  have h1' := abs_le.1 h1
  have h2' := abs_le.1 h2
  have hab := abs_sub_le a' a b'
  have hab2 := abs_sub_le a b b'
  have hab3 := abs_sub_le a a' b
  have hab4 := abs_sub_le a' b' b
  rw [abs_sub_comm b b'] at hab2
  rw [abs_sub_comm a a'] at hab3
  have hle := le_abs_self (a - b)
  generalize double |a' - b'| = D at *
  generalize double (r * b') = s at *
  generalize double (t + s) = R at *
  generalize r * b' = q at *
  generalize |a' - b'| = y at *
  generalize |a - b| = z at *
  generalize |a' - a| = α at *
  generalize |b' - b| = β at *
  generalize |a - b'| = γ at *
  generalize |a' - b| = ω at *
  generalize (1 : ℚ) / 2 ^ 1075 = g at *
  norm_num at hg h1 h2 h1' h2' ht' hr' hD hs hR hrb1 hrb2
  refine ⟨fun h => ?_, fun h => ?_⟩
  · norm_num at h ⊢
    linarith
  · norm_num
    linarith

/-! ## Reversibility -/

/-- The rounded flow from a state to another. -/
theorem flow_error {x' x p ψ : ℚ} (hx : 0 ≤ x) (hp : 0 ≤ p) (hψ : ψ ≤ 105 / 10 ^ 10) (h : |x' - x| ≤ ψ * x) :
    0 ≤ double (x' * p) ∧ |double (x' * p) - x * p| ≤ 11 / 10 ^ 9 * (x * p) + 1 / 2 ^ 1075 := by
  have h' := abs_le.1 (h.trans (mul_le_mul_of_nonneg_right hψ hx))
  have hx' : 0 ≤ x' := by norm_num at h'; linarith
  have h0 := mul_nonneg hx' hp
  refine ⟨double_nonneg h0, ?_⟩
  have h1 := abs_le.1 (double_error h0)
  have h2 := mul_le_mul_of_nonneg_right h'.1 hp
  have h3 := mul_le_mul_of_nonneg_right h'.2 hp
  have h4 := mul_nonneg hx hp
  rw [sub_mul] at h2 h3
  have e1 : -(105 / 10 ^ 10 * x) * p = -(105 / 10 ^ 10) * (x * p) := by ring
  have e2 : (105 / 10 ^ 10 * x) * p = (105 / 10 ^ 10) * (x * p) := by ring
  rw [e1] at h2
  rw [e2] at h3
  generalize x * p = y at *
  generalize x' * p = y' at *
  generalize (1 : ℚ) / 2 ^ 1075 = g at *
  rw [abs_le]
  norm_num at h1 h2 h3 ⊢
  constructor <;> linarith

/-- C172. **The test of reversibility in double arithmetic** for all accepted matrices whose positive entries are not too
small: with more than one recurrent class the answer is no. Otherwise let `x` be the weights that are balanced for
the stored probabilities: if all flows agree with the opposite ones within 99 percent of the tolerance the answer is yes,
and it is yes only if they agree within 101 percent. -/
theorem C172_reversible_partial {c : MC ℚ} (hc : AcceptedMatrix c.p) {d : ℕ} (hn : (d + 2) * c.n ≤ 500)
    (hd : ∀ i j, 0 < c.p i j → 1 / 2 ^ d ≤ c.p i j) {sccs : List (List (Fin c.n))} (h : IsClasses c.p sccs) :
    ∃ b, isReversibleF double c sccs = .ok b ∧ ((recurrentIdx c.p sccs).length ≠ 1 → b = false) ∧
      ∀ C, recurrentIdx c.p sccs = [C] → ∃ x, BalancedOn c.p C x ∧
        ((∀ i j, |x i * c.p i j - x j * c.p j i| ≤ 99 / 100 * (1 / 10 ^ 8 + 1 / 10 ^ 5 * (x j * c.p j i))) → b = true) ∧
        (b = true → ∀ i j, |x i * c.p i j - x j * c.p j i| ≤ 101 / 100 * (1 / 10 ^ 8 + 1 / 10 ^ 5 * (x j * c.p j i))) := by
  obtain ⟨l, h1, h2⟩ := C169_accuracy_partial hc hn hd h
  have hn250 : c.n ≤ 250 := by
    have : 2 * c.n ≤ (d + 2) * c.n := Nat.mul_le_mul_right _ (by omega)
    omega
  have hψ : 6 * (c.n : ℚ) ^ 3 / 2 ^ 53 ≤ 105 / 10 ^ 10 := by
    have h3 : (c.n : ℚ) ^ 3 ≤ 250 ^ 3 := pow_le_pow_left₀ (by positivity) (by exact_mod_cast hn250) 3
    generalize (c.n : ℚ) ^ 3 = N at h3
    rw [div_le_iff₀ (by positivity)]
    norm_num at h3 ⊢
    linarith
  have hlen := h2.length_eq
  by_cases hone : (recurrentIdx c.p sccs).length = 1
  · obtain ⟨C, hC⟩ := List.length_eq_one_iff.1 hone
    rw [hC] at h2
    obtain ⟨x', rfl, x, hx, hacc⟩ := forall2_singleton h2
    refine ⟨_, by unfold isReversibleF; rw [h1, R.ok_bind]; rfl, fun h => absurd hone h, fun C' hC' => ?_⟩
    rw [hC, List.singleton_inj] at hC'
    subst hC'
    have key : ∀ i j, _ := fun i j => iscloseF_margin
      (mul_nonneg (hx.nonneg j) (hc.2.1 j i).1) (flow_error (hx.nonneg j) (hc.2.1 j i).1 hψ (hacc j).2).1
      (flow_error (hx.nonneg i) (hc.2.1 i j).1 hψ (hacc i).2).2 (flow_error (hx.nonneg j) (hc.2.1 j i).1 hψ (hacc j).2).2
    refine ⟨x, hx, fun hb => ?_, fun hb i j => ?_⟩
    · rw [decide_eq_true_eq]
      exact fun i j => (key i j).1 (hb i j)
    · rw [decide_eq_true_eq] at hb
      exact (key i j).2 (hb i j)
  · refine ⟨false, ?_, fun _ => rfl, fun C hC => absurd (by rw [hC]; rfl) hone⟩
    unfold isReversibleF
    rw [h1, R.ok_bind]
    match l, hlen with
    | [], _ => rfl
    | [_], hlen => exact absurd hlen.symm hone
    | _ :: _ :: _, _ => rfl

/-- The number of distributions that `pi` returns. -/
theorem pi_length {c : MC ℚ} (hc : c.Valid) {sccs : List (List (Fin c.n))} (h : IsClasses c.p sccs) {xs : List (Fin c.n → ℚ)}
    (hxs : pi c sccs = .ok xs) : xs.length = (recurrentIdx c.p sccs).length := by
  by_cases hirr : Irreducible c.p
  · obtain ⟨x, h1, -⟩ := C34_stationary hc h hirr
    obtain ⟨C, hC, -⟩ := recurrentIdx_irreducible hc.1 h hirr
    rw [h1] at hxs
    cases hxs
    rw [hC]
    rfl
  · obtain ⟨-, -, f, h1, -⟩ := C35_reducible hc h hirr
    rw [h1] at hxs
    cases hxs
    rw [List.length_map]

theorem valid_accepted {c : MC ℚ} (hc : c.Valid) : AcceptedMatrix c.p :=
  ⟨hc.1, fun i j => ⟨hc.2.1.1 i j, (single_le_sum (fun k _ => hc.2.1.1 i k) (mem_univ j)).trans (hc.2.1.2 i).le⟩,
    fun i => by rw [hc.2.1.2 i, sub_self, abs_zero]; positivity⟩

/-- C172. For stochastic matrices the answer is the one of exact arithmetic (C37), unless the difference between some
flow and the opposite one is within one percent of the tolerance. -/
theorem C172_agrees_partial {c : MC ℚ} (hc : c.Valid) {d : ℕ} (hn : (d + 2) * c.n ≤ 500)
    (hd : ∀ i j, 0 < c.p i j → 1 / 2 ^ d ≤ c.p i j) {sccs : List (List (Fin c.n))} (h : IsClasses c.p sccs)
    (hgap : ∀ x, IsStationary c.p x → ∀ i j,
      |x i * c.p i j - x j * c.p j i| ≤ 99 / 100 * (1 / 10 ^ 8 + 1 / 10 ^ 5 * (x j * c.p j i)) ∨
      101 / 100 * (1 / 10 ^ 8 + 1 / 10 ^ 5 * (x j * c.p j i)) < |x i * c.p i j - x j * c.p j i|) :
    isReversibleF double c sccs = isReversible c sccs := by
  obtain ⟨b, hb, hmany, hone⟩ := C172_reversible_partial (valid_accepted hc) hn hd h
  rw [hb]
  rcases pi_cases hc h with ⟨z, hz, hst, huniq⟩ | ⟨xs, u, v, hxs, hlen, hu, hv, hne⟩
  · have hl := pi_length hc h hz
    obtain ⟨C, hC⟩ := List.length_eq_one_iff.1 hl.symm
    obtain ⟨x, hx, h1, h2⟩ := hone C hC
    have hxs := balancedOn_stationary hc.2.1 hx
    obtain ⟨b0, hb0, hiff, -⟩ := (C37_reversible_partial hc h).1 x hxs fun y hy => by rw [huniq y hy, huniq x hxs]
    rw [hb0]
    congr 1
    have hpos : ∀ i j, 0 ≤ (1 / 10 ^ 8 + 1 / 10 ^ 5 * (x j * c.p j i) : ℚ) := fun i j => by
      have := mul_nonneg (hx.nonneg j) (hc.2.1.1 j i)
      positivity
    rw [Bool.eq_iff_iff, hiff]
    constructor
    · intro hbt i j
      rcases hgap x hxs i j with hg | hg
      · linarith [hpos i j]
      · linarith [h2 hbt i j]
    · intro hall
      refine h1 fun i j => ?_
      rcases hgap x hxs i j with hg | hg
      · exact hg
      · linarith [hall i j, hpos i j]
  · rw [(C37_reversible_partial hc h).2 u v hu hv hne, hmany]
    have := pi_length hc h hxs
    omega

/-- C172. Reversible chains are recognised. -/
theorem C172_detailed_balance_partial {c : MC ℚ} (hc : c.Valid) {d : ℕ} (hn : (d + 2) * c.n ≤ 500)
    (hd : ∀ i j, 0 < c.p i j → 1 / 2 ^ d ≤ c.p i j) {sccs : List (List (Fin c.n))} (h : IsClasses c.p sccs)
    {x : Fin c.n → ℚ} (hx : IsStationary c.p x) (hu : ∀ y, IsStationary c.p y → y = x) (hdb : DetailedBalance c.p x) :
    isReversibleF double c sccs = .ok true := by
  obtain ⟨b, hb, -, hone⟩ := C172_reversible_partial (valid_accepted hc) hn hd h
  rcases pi_cases hc h with ⟨z, hz, hst, huniq⟩ | ⟨xs, u, v, hxs, hlen, hu', hv, hne⟩
  · obtain ⟨C, hC⟩ := List.length_eq_one_iff.1 (pi_length hc h hz).symm
    obtain ⟨y, hy, h1, -⟩ := hone C hC
    have hys := balancedOn_stationary hc.2.1 hy
    rw [hb, h1 fun i j => ?_]
    have : y = x := hu y hys
    rw [this, hdb i j, sub_self, abs_zero]
    have := mul_nonneg (hx.1.1 j) (hc.2.1.1 j i)
    positivity
  · exact absurd ((hu u hu').trans (hu v hv).symm) hne

/-- A reversible chain and one that is not, with the answers in double arithmetic. -/
theorem C172_instance : ∃ c e : MC ℚ, c.Valid ∧ e.Valid ∧ (∃ sccs, IsClasses c.p sccs ∧ isReversibleF double c sccs = .ok true) ∧
    ∃ sccs, IsClasses e.p sccs ∧ isReversibleF double e sccs = .ok false := by
  refine ⟨⟨3, !![1 / 2, 1 / 2, 0; 1 / 4, 1 / 2, 1 / 4; 0, 1 / 2, 1 / 2], ["a", "b", "c"]⟩,
    ⟨3, !![0, 3 / 4, 1 / 4; 1 / 4, 0, 3 / 4; 3 / 4, 1 / 4, 0], ["a", "b", "c"]⟩, by decide +kernel, by decide +kernel,
    ⟨([[0, 1, 2]] : List (List (Fin 3))), ?_, ?_⟩, ([[0, 1, 2]] : List (List (Fin 3))), ?_, ?_⟩
  · change IsClasses (fun i j : Fin 3 => (!![1 / 2, 1 / 2, 0; 1 / 4, 1 / 2, 1 / 4; 0, 1 / 2, 1 / 2] : Matrix _ _ ℚ) i j) [[0, 1, 2]]
    decide +kernel
  · decide +kernel
  · change IsClasses (fun i j : Fin 3 => (!![0, 3 / 4, 1 / 4; 1 / 4, 0, 3 / 4; 3 / 4, 1 / 4, 0] : Matrix _ _ ℚ) i j) [[0, 1, 2]]
    decide +kernel
  · decide +kernel

end Verif
