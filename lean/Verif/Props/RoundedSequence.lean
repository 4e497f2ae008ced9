import Mathlib.Analysis.Complex.ExponentialBounds
import Verif.Model.RoundedSequence
import Verif.Props.Mixing
import Verif.Props.RoundedMeasures
import Verif.Props.Simulation

/-!
# The probability of a sequence in floating point (C168)
-/

namespace Verif

/-- Sums, the logarithm of probabilities and the exponential function of numbers that are not positive have a relative
error of at most `u`, except that the exponential function is zero if the exact value is at most one half of the least
positive double; nothing is said between this and the least normal double. -/
structure Elementary (fl ln ex : ℝ → ℝ) (u : ℝ) : Prop where
  unit_nonneg : 0 ≤ u
  unit_le : u ≤ 1 / 2
  sum : ∀ z, |fl z - z| ≤ u * |z|
  log : ∀ x, 0 < x → x ≤ 1 → |ln x - Real.log x| ≤ u * |Real.log x|
  exp : ∀ x, 1 / 2 ^ 1022 ≤ Real.exp x → |ex x - Real.exp x| ≤ u * Real.exp x
  underflow : ∀ x, Real.exp x ≤ 1 / 2 ^ 1075 → ex x = 0

variable {fl ln ex : ℝ → ℝ} {u : ℝ}

/-- The contract is satisfied by exact functions with underflow. -/
theorem elementary_exact {u : ℝ} (h0 : 0 ≤ u) (h1 : u ≤ 1 / 2) :
    Elementary id Real.log (fun x => if Real.exp x ≤ 1 / 2 ^ 1075 then 0 else Real.exp x) u where
  unit_nonneg := h0
  unit_le := h1
  sum := fun z => by simpa using mul_nonneg h0 (abs_nonneg z)
  log := fun x _ _ => by simpa using mul_nonneg h0 (abs_nonneg _)
  exp := fun x hx => by
    have : ¬ Real.exp x ≤ 1 / 2 ^ 1075 := by
      refine not_le.2 (lt_of_lt_of_le ?_ hx)
      exact one_div_lt_one_div_of_lt (by positivity) (pow_lt_pow_right₀ (by norm_num) (by norm_num))
    rw [if_neg this, sub_self, abs_zero]
    exact mul_nonneg h0 (Real.exp_pos x).le
  underflow := fun x hx => if_pos hx

/-- Both loops reach `-inf`, or both give numbers that agree up to one rounding per transition and logarithm. -/
theorem sequenceLoopF_acc (hE : Elementary fl ln ex u) {n : ℕ} {P : Matrix (Fin n) (Fin n) ℝ} (hP : ∀ i j, P i j ≤ 1)
    (w : List (Fin n)) (wp' wp : ℝ) (N : ℕ) (hN : 1 ≤ N) (hw : Acc (1 / (1 - u)) N (-wp') (-wp)) :
    (sequenceLoopF fl ln P wp' w = none ∧ sequenceLoop P wp w = none) ∨
    ∃ x' x, sequenceLoopF fl ln P wp' w = some x' ∧ sequenceLoop P wp w = some x ∧
      Acc (1 / (1 - u)) (N + (w.length - 1)) (-x') (-x) := by
  have hu1 : u < 1 := by have := hE.unit_le; linarith
  have hF : (Arith.rounded fun z => -fl (-z)).Sound u := rounded_sound hE.unit_nonneg hu1 fun z => by
    have h := hE.sum (-z)
    rw [abs_neg z] at h
    rw [show -fl (-z) - z = -(fl (-z) - -z) by ring, abs_neg]
    exact h
  have h1 := hF.one_le
  induction w generalizing wp' wp N with
  | nil => exact Or.inr ⟨wp', wp, rfl, rfl, hw⟩
  | cons i w ih =>
    cases w with
    | nil => exact Or.inr ⟨wp', wp, rfl, rfl, hw⟩
    | cons j t =>
      by_cases h : 0 < P i j
      · rw [sequenceLoopF, sequenceLoop, if_pos h, if_pos h]
        have hlog : Real.log (P i j) ≤ 0 := Real.log_nonpos h.le (hP i j)
        have e1 : Acc (1 / (1 - u)) 1 (-ln (P i j)) (-Real.log (P i j)) := by
          refine ⟨by linarith, ?_⟩
          rw [pow_one]
          refine near_of_relative hu1 hE.unit_nonneg (by linarith) ?_
          have := hE.log _ h (hP i j)
          rw [abs_of_nonpos hlog] at this
          rw [show -ln (P i j) - -Real.log (P i j) = -(ln (P i j) - Real.log (P i j)) by ring, abs_neg]
          exact this
        have e2 := Acc.add hF hw (e1.mono h1 hN)
        have e3 : Acc (1 / (1 - u)) (N + 1) (-fl (wp' + ln (P i j))) (-(wp + Real.log (P i j))) := by
          have a1 : (Arith.rounded fun z => -fl (-z)).add (-wp') (-ln (P i j)) = -fl (wp' + ln (P i j)) := by
            change -fl (-(-wp' + -ln (P i j))) = _
            congr 2
            ring
          have a2 : -wp + -Real.log (P i j) = -(wp + Real.log (P i j)) := by ring
          rw [a1, a2] at e2
          exact e2
        rcases ih _ _ (N + 1) (by omega) e3 with h | ⟨x', x, b1, b2, b3⟩
        · exact Or.inl h
        · refine Or.inr ⟨x', x, b1, b2, ?_⟩
          have : N + ((i :: j :: t).length - 1) = N + 1 + ((j :: t).length - 1) := by simp; omega
          rw [this]
          exact b3
      · left
        rw [sequenceLoopF, sequenceLoop, if_neg h, if_neg h]
        exact ⟨rfl, rfl⟩

/-- What the loop hands over to the exponential function. -/
theorem mcSequenceF_spec (hE : Elementary fl ln ex u) {n : ℕ} {P : Matrix (Fin n) (Fin n) ℝ} (hP : IsStochastic P)
    {w : List (Fin n)} (hw : 2 ≤ w.length) (hu : w.length * u ≤ 1 / 2) :
    (walkProb P w = 0 → mcSequenceProbabilityF fl ln ex P w = 0) ∧
    (0 < walkProb P w → ∃ x, mcSequenceProbabilityF fl ln ex P w = ex x ∧
      |x - Real.log (walkProb P w)| ≤ 2 * (w.length * u) * -Real.log (walkProb P w)) := by
  have hu1 : u < 1 := by have := hE.unit_le; linarith
  have hF : (Arith.rounded fl).Sound u := rounded_sound hE.unit_nonneg hu1 hE.sum
  have hle : ∀ i j, P i j ≤ 1 := fun i j => by
    rw [← hP.2 i]
    exact Finset.single_le_sum (f := fun j => P i j) (fun j _ => hP.1 i j) (Finset.mem_univ j)
  have e := sequenceLoop_eq (P := P) hP.1 0 w
  rw [Real.exp_zero, one_mul] at e
  rcases sequenceLoopF_acc hE hle w 0 0 1 le_rfl ((Acc.refl (by simp)).mono hF.one_le (by omega)) with
    ⟨h1, h2⟩ | ⟨x', x, h1, h2, h3⟩
  · rw [h2] at e
    refine ⟨fun _ => ?_, fun h => absurd e h.ne⟩
    unfold mcSequenceProbabilityF
    rw [h1]
  · rw [h2] at e
    change Real.exp x = walkProb P w at e
    refine ⟨fun h => absurd (e.trans h) (Real.exp_pos x).ne', fun _ => ⟨x', ?_, ?_⟩⟩
    · unfold mcSequenceProbabilityF
      rw [h1]
    · rw [← e, Real.log_exp]
      rw [show 1 + (w.length - 1) = w.length by omega] at h3
      have := h3.relative hF hu
      rw [show -x' - -x = -(x' - x) by ring, abs_neg] at this
      exact this

theorem sequenceProbabilityF_run {c : MC ℝ} (hc : c.Valid) {sequence : PyVal ℝ} {l : List ℕ}
    (hl : validateSequence sequence c.states = .ok l) :
    ∃ w : List (Fin c.n), w.map Fin.val = l ∧ 2 ≤ w.length ∧
      sequenceProbability c sequence = .ok (walkProb c.p w) ∧
      sequenceProbabilityF fl ln ex c sequence = .ok (mcSequenceProbabilityF fl ln ex c.p w) := by
  obtain ⟨w, h1, h2, h3⟩ := C55_sequence_probability hc hl
  refine ⟨w, h1, h2, h3, ?_⟩
  unfold sequenceProbabilityF
  rw [hl, R.ok_bind, ← h1]
  have : toStates c.n (w.map Fin.val) = w := by
    unfold toStates
    rw [List.filterMap_map]
    have : ((fun k => if h : k < c.n then some (⟨k, h⟩ : Fin c.n) else none) ∘ Fin.val :
        Fin c.n → Option (Fin c.n)) = some := by
      funext i
      simp
    rw [this, List.filterMap_some]
  rw [this]
  rfl

/-- C168 (partial: not too small probabilities). **The probability of a sequence in floating point.** Sequences of
probability zero have the result zero. If the probability `p` of a sequence of `m` states is at least `2 ^ -1021`, the
relative error of the result is at most `4 m u |log p| + 2 u`, as long as `2 m u |log p|` is at most one half. -/
theorem C168_relative_partial (hE : Elementary fl ln ex u) {c : MC ℝ} (hc : c.Valid) {sequence : PyVal ℝ} {l : List ℕ}
    (hl : validateSequence sequence c.states = .ok l) (hu : l.length * u ≤ 1 / 2) :
    ∃ p r, sequenceProbability c sequence = .ok p ∧ sequenceProbabilityF fl ln ex c sequence = .ok r ∧
      (p = 0 → r = 0) ∧
      (1 / 2 ^ 1021 ≤ p → 2 * (l.length * u) * -Real.log p ≤ 1 / 2 →
        |r - p| ≤ (4 * (l.length * u) * -Real.log p + 2 * u) * p) := by
  obtain ⟨w, rfl, h2, h3, h4⟩ := sequenceProbabilityF_run (fl := fl) (ln := ln) (ex := ex) hc hl
  rw [List.length_map] at hu ⊢
  refine ⟨_, _, h3, h4, (mcSequenceF_spec hE hc.2.1 h2 hu).1, fun hp hd => ?_⟩
  have hp0 : 0 < walkProb c.p w := lt_of_lt_of_le (by positivity) hp
  obtain ⟨x, hx, hx'⟩ := (mcSequenceF_spec hE hc.2.1 h2 hu).2 hp0
  rw [hx]
  obtain ⟨p, hpe⟩ : ∃ p, p = walkProb c.p w := ⟨_, rfl⟩
  rw [← hpe] at hp hd hp0 hx' ⊢
  obtain ⟨d, hde⟩ : ∃ d, d = 2 * (w.length * u) * -Real.log p := ⟨_, rfl⟩
  rw [← hde] at hd hx'
  have hxe : Real.exp x = p * Real.exp (x - Real.log p) := by
    rw [Real.exp_sub, Real.exp_log hp0]
    field_simp
  have h5 : |Real.exp (x - Real.log p) - 1| ≤ 2 * d :=
    (Real.abs_exp_sub_one_le (by linarith)).trans (by linarith)
  have h6 : 1 / 2 ≤ Real.exp (x - Real.log p) := by
    have := Real.add_one_le_exp (x - Real.log p)
    have := (abs_le.1 hx').1
    linarith
  have h7 : 1 / 2 ^ 1022 ≤ Real.exp x := by
    rw [hxe]
    have : (1 : ℝ) / 2 ^ 1022 = 1 / 2 ^ 1021 * (1 / 2) := by rw [pow_succ]; field_simp
    rw [this]
    exact mul_le_mul hp h6 (by norm_num) hp0.le
  have h8 := hE.exp x h7
  have h9 : |Real.exp x - p| ≤ 2 * d * p := by
    rw [hxe, show p * Real.exp (x - Real.log p) - p = (Real.exp (x - Real.log p) - 1) * p by ring, abs_mul,
      abs_of_pos hp0]
    exact mul_le_mul_of_nonneg_right h5 hp0.le
  have h10 : Real.exp x ≤ 2 * p := by
    have a1 := (abs_le.1 h9).2
    have a2 : 2 * d * p ≤ 1 * p := mul_le_mul_of_nonneg_right (by linarith) hp0.le
    linarith
  have h11 : u * Real.exp x ≤ u * (2 * p) := mul_le_mul_of_nonneg_left h10 hE.unit_nonneg
  have h12 := abs_sub_le (ex x) (Real.exp x) p
  have h13 : (4 * (w.length * u) * -Real.log p + 2 * u) * p = 2 * d * p + u * (2 * p) := by rw [hde]; ring
  linarith

/-- C168, digits. With an error of four units in the last place of doubles, the probability of a sequence of at most
1000 states has eight correct digits, if it is at least `2 ^ -1021`. -/
theorem C168_digits (hE : Elementary fl ln ex (1 / 2 ^ 50)) {c : MC ℝ} (hc : c.Valid) {sequence : PyVal ℝ} {l : List ℕ}
    (hl : validateSequence sequence c.states = .ok l) (hlen : l.length ≤ 1000) :
    ∃ p r, sequenceProbability c sequence = .ok p ∧ sequenceProbabilityF fl ln ex c sequence = .ok r ∧
      (1 / 2 ^ 1021 ≤ p → |r - p| ≤ 1 / 10 ^ 8 * p) := by
  have hlen' : (l.length : ℝ) ≤ 1000 := by exact_mod_cast hlen
  have hlu : (l.length : ℝ) * (1 / 2 ^ 50) ≤ 1000 * (1 / 2 ^ 50) := mul_le_mul_of_nonneg_right hlen' (by positivity)
  obtain ⟨p, r, h1, h2, -, h3⟩ := C168_relative_partial hE hc hl (hlu.trans (by norm_num))
  refine ⟨p, r, h1, h2, fun hp => ?_⟩
  have hp0 : 0 < p := lt_of_lt_of_le (by positivity) hp
  have hlog : -Real.log p ≤ 1021 * Real.log 2 := by
    have := Real.log_le_log (by positivity) hp
    rw [one_div, Real.log_inv, Real.log_pow] at this
    push_cast at this
    linarith
  have hlog2 := Real.log_two_lt_d9
  have hL : -Real.log p ≤ 708 := by linarith
  have hm : (l.length : ℝ) * (1 / 2 ^ 50) * -Real.log p ≤ 1000 * (1 / 2 ^ 50) * 708 := by
    rcases le_or_gt 0 (-Real.log p) with h | h
    · exact mul_le_mul hlu hL h (by positivity)
    · exact (mul_nonpos_of_nonneg_of_nonpos (by positivity) h.le).trans (by positivity)
  have hb : (1000 : ℝ) * (1 / 2 ^ 50) * 708 ≤ 1 / 10 ^ 9 * (7 / 10) := by norm_num
  refine (h3 hp (by linarith)).trans (mul_le_mul_of_nonneg_right ?_ hp0.le)
  have hb2 : 2 * ((1 : ℝ) / 2 ^ 50) ≤ 1 / 10 ^ 9 := by norm_num
  linarith

/-- The hypotheses of `C168_digits` and `C168_possible_zero` can be met. -/
example : (∃ fl ln ex, Elementary fl ln ex (1 / 2 ^ 50)) ∧ exLoop.toReal.Valid ∧
    validateSequence (.list [.int 0, .int 1, .int 1] : PyVal ℝ) exLoop.toReal.states = .ok [0, 1, 1] ∧
    sequenceProbability exLoop.toReal (.list [.int 0, .int 1, .int 1]) = .ok (1 / 2) := by
  have hv : exLoop.toReal.Valid := toReal_valid (by decide +kernel)
  refine ⟨⟨_, _, _, elementary_exact (by positivity) (by norm_num)⟩, hv, rfl, ?_⟩
  obtain ⟨w, h1, -, h2⟩ := C55_sequence_probability (sequence := .list [.int 0, .int 1, .int 1]) (l := [0, 1, 1]) hv rfl
  rw [h2]
  have hw : w = ([0, 1, 1] : List (Fin 2)) := List.map_injective_iff.2 Fin.val_injective h1
  subst hw
  congr 1
  have q0 : exLoop.p (0 : Fin 2) (1 : Fin 2) = 1 := by decide +kernel
  have q1 : exLoop.p (1 : Fin 2) (1 : Fin 2) = 1 / 2 := by decide +kernel
  change ((exLoop.p (0 : Fin 2) (1 : Fin 2) : ℚ) : ℝ) * (((exLoop.p (1 : Fin 2) (1 : Fin 2) : ℚ) : ℝ) * 1) = _
  rw [q0, q1]
  norm_num

/-- C168, underflow. A possible sequence whose probability is at most `2 ^ -1076` gets the probability zero. -/
theorem C168_underflow (hE : Elementary fl ln ex u) {c : MC ℝ} (hc : c.Valid) {sequence : PyVal ℝ} {l : List ℕ}
    (hl : validateSequence sequence c.states = .ok l) (hu : l.length * u ≤ 1 / 2) :
    ∃ p, sequenceProbability c sequence = .ok p ∧
      (0 < p → p ≤ 1 / 2 ^ 1076 → 2 * (l.length * u) * -Real.log p ≤ 1 / 2 →
        sequenceProbabilityF fl ln ex c sequence = .ok 0) := by
  obtain ⟨w, rfl, h2, h3, h4⟩ := sequenceProbabilityF_run (fl := fl) (ln := ln) (ex := ex) hc hl
  rw [List.length_map] at hu ⊢
  refine ⟨_, h3, fun hp0 hp hd => ?_⟩
  obtain ⟨x, hx, hx'⟩ := (mcSequenceF_spec hE hc.2.1 h2 hu).2 hp0
  rw [h4, hx, hE.underflow x ?_]
  have h5 : x - Real.log (walkProb c.p w) ≤ Real.log 2 := by
    have := (abs_le.1 hx').2
    have := Real.log_two_gt_d9
    linarith
  have h6 : Real.exp x ≤ walkProb c.p w * 2 := by
    have := Real.exp_le_exp.2 h5
    rw [Real.exp_sub, Real.exp_log hp0, Real.exp_log (by norm_num), div_le_iff₀ hp0] at this
    linarith
  refine h6.trans ((mul_le_mul_of_nonneg_right hp (by norm_num)).trans (le_of_eq ?_))
  rw [pow_succ]
  field_simp

theorem walkProb_const {n : ℕ} (P : Matrix (Fin n) (Fin n) ℝ) (i : Fin n) (m : ℕ) :
    walkProb (fun i j => P i j) (List.replicate (m + 1) i) = P i i ^ m := by
  induction m with
  | zero => simp [walkProb]
  | succ m ih =>
    change P i i * walkProb (fun i j => P i j) (List.replicate (m + 1) i) = _
    rw [ih, pow_succ']

/-- Disagreement with C168: for a fair coin, a sequence of 1077 equal results is possible, but gets the probability
zero. -/
theorem C168_possible_zero (hE : Elementary fl ln ex (1 / 2 ^ 50)) : exFair.toReal.Valid ∧
    sequenceProbability exFair.toReal (.list (List.replicate 1077 (.int 0))) = .ok (1 / 2 ^ 1076) ∧
    sequenceProbabilityF fl ln ex exFair.toReal (.list (List.replicate 1077 (.int 0))) = .ok 0 := by
  have hv : exFair.toReal.Valid := toReal_valid (by decide +kernel)
  have hl : validateSequence (.list (List.replicate 1077 (.int 0)) : PyVal ℝ) exFair.toReal.states =
      .ok (List.replicate 1077 0) := by
    rw [C04_sequences hv.2.2.2.1]
    refine ⟨_, rfl, by rw [List.length_replicate]; norm_num, Or.inl fun v h => ⟨0, List.eq_of_mem_replicate h⟩, ?_⟩
    have key : ∀ m : ℕ, List.Forall₂ (Names exFair.toReal.states) (List.replicate m (.int 0 : PyVal ℝ))
        (List.replicate m 0) := fun m => by
      induction m with
      | zero => exact .nil
      | succ m ih => exact .cons (Or.inl ⟨rfl, by decide⟩) ih
    exact key 1077
  obtain ⟨p, h1, h2⟩ := C168_underflow hE hv hl (by rw [List.length_replicate]; norm_num)
  obtain ⟨w, e1, -, e2⟩ := C55_sequence_probability hv hl
  have hw : w = List.replicate (1076 + 1) (0 : Fin 2) := by
    have : List.replicate 1077 0 = (List.replicate (1076 + 1) (0 : Fin 2)).map Fin.val := by
      rw [List.map_replicate]; rfl
    rw [this] at e1
    exact List.map_injective_iff.2 Fin.val_injective e1
  have hp : p = 1 / 2 ^ 1076 := by
    rw [h1] at e2
    cases e2
    rw [hw]
    refine (walkProb_const (fun i j : Fin 2 => exFair.toReal.p i j) 0 1076).trans ?_
    have : exFair.toReal.p (0 : Fin 2) (0 : Fin 2) = 1 / 2 := by
      change (((1 / 2 : ℚ)) : ℝ) = 1 / 2
      norm_num
    rw [← one_div_pow]
    exact congrArg (· ^ 1076) this
  rw [hp] at h1 h2
  refine ⟨hv, h1, h2 (by positivity) le_rfl ?_⟩
  rw [List.length_replicate, one_div (2 ^ 1076), Real.log_inv, Real.log_pow, neg_neg]
  have := Real.log_two_lt_d9
  push_cast
  have e : (1077 : ℝ) * (1 / 2 ^ 50) * 1076 * 2 ≤ 1 / 2 := by norm_num
  have e0 : (0 : ℝ) ≤ 1077 * (1 / 2 ^ 50) * 1076 * 2 := by positivity
  nlinarith

end Verif
