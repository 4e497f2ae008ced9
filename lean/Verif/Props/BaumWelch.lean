import Verif.Props.HiddenFit

/-!
# The iteration of Baum and Welch does not decrease the likelihood (C76)
-/

set_option linter.unusedSectionVars false

namespace Verif

open Finset

variable {n k : ℕ}

/-- Jensen's inequality for the logarithm. -/
theorem jensen_log {ι : Type} [Fintype ι] {q r g : ι → ℝ} {b : ℝ} (h0 : ∀ i, 0 ≤ q i) (h1 : ∑ i, q i = 1)
    (hr : ∀ i, 0 < q i → 0 < r i ∧ g i ≤ Real.log (r i)) (hb : ∑ i, q i * r i ≤ b) :
    0 < b ∧ ∑ i, q i * g i ≤ Real.log b := by
  have hnn : ∀ i, 0 ≤ q i * r i := by
    intro i
    rcases (h0 i).eq_or_lt with h | h
    · rw [← h, zero_mul]
    · exact mul_nonneg (h0 i) (hr i h).1.le
  have hpos : 0 < b := by
    refine lt_of_lt_of_le ?_ hb
    by_contra hc
    have hz : ∑ i, q i * r i = 0 := le_antisymm (not_lt.1 hc) (Finset.sum_nonneg fun i _ => hnn i)
    rw [Finset.sum_eq_zero_iff_of_nonneg fun i _ => hnn i] at hz
    have : ∀ i, q i = 0 := by
      intro i
      by_contra hq
      have hq' := lt_of_le_of_ne (h0 i) (Ne.symm hq)
      exact (mul_pos hq' (hr i hq').1).ne' (hz i (Finset.mem_univ i))
    simp [this] at h1
  refine ⟨hpos, ?_⟩
  have key : ∀ i, q i * g i ≤ q i * r i / b - q i + q i * Real.log b := by
    intro i
    rcases (h0 i).eq_or_lt with h | h
    · rw [← h]; simp
    · obtain ⟨h2, h3⟩ := hr i h
      have h4 : Real.log (r i) ≤ r i / b - 1 + Real.log b := by
        have h5 := Real.log_le_sub_one_of_pos (div_pos h2 hpos)
        rw [Real.log_div h2.ne' hpos.ne'] at h5
        linarith
      have h6 := mul_le_mul_of_nonneg_left (h3.trans h4) h.le
      have h7 : q i * (r i / b - 1 + Real.log b) = q i * r i / b - q i + q i * Real.log b := by ring
      linarith
  calc ∑ i, q i * g i ≤ ∑ i, (q i * r i / b - q i + q i * Real.log b) := Finset.sum_le_sum fun i _ => key i
    _ = (∑ i, q i * r i) / b - 1 + Real.log b := by
        rw [Finset.sum_add_distrib, Finset.sum_sub_distrib, ← Finset.sum_div, ← Finset.sum_mul, h1,
          one_mul]
    _ ≤ Real.log b := by
        have := (div_le_one hpos).2 hb
        linarith

/-- The expected gain of the logarithm of the likelihood along the path from a state. -/
noncomputable def gain (P : Matrix (Fin n) (Fin n) ℝ) (E : Matrix (Fin n) (Fin k) ℝ)
    (ρ : Fin n → Fin n → ℝ) (ε : Fin n → Fin k → ℝ) : List (Fin k) → Fin n → ℝ
  | [], _ => 0
  | y :: ys, s => ∑ j, P s j * (E j y * beta (fun i j => P i j) (fun i j => E i j) ys j) /
      beta (fun i j => P i j) (fun i j => E i j) (y :: ys) s * (ρ s j + ε j y + gain P E ρ ε ys j)

/-- The probability of the symbols together with the hidden states `u` and `v` before and at the symbol
number `w`. -/
noncomputable def jointPair (P : Matrix (Fin n) (Fin n) ℝ) (E : Matrix (Fin n) (Fin k) ℝ)
    (f : Fin n → ℝ) (ys : List (Fin k)) (w : Fin ys.length) (u v : Fin n) : ℝ :=
  alpha P E f (ys.take w) u * P u v * E v ys[w] *
    beta (fun i j => P i j) (fun i j => E i j) (ys.drop (w + 1)) v

theorem gain_bound {P P' : Matrix (Fin n) (Fin n) ℝ} {E E' : Matrix (Fin n) (Fin k) ℝ}
    (hP : ∀ i j, 0 ≤ P i j) (hE : ∀ i j, 0 ≤ E i j) (hP' : ∀ i j, 0 ≤ P' i j)
    (hE' : ∀ i j, 0 ≤ E' i j) (ys : List (Fin k)) (f : Fin n → ℝ) (hf : ∀ i, 0 ≤ f i)
    (hs : ∀ w u v, 0 < jointPair P E f ys w u v → 0 < P' u v ∧ 0 < E' v ys[w]) (x : Fin n)
    (hx : 0 < f x) (hb : 0 < beta (fun i j => P i j) (fun i j => E i j) ys x) :
    0 < beta (fun i j => P' i j) (fun i j => E' i j) ys x ∧
    gain P E (fun u v => Real.log (P' u v / P u v)) (fun v y => Real.log (E' v y / E v y)) ys x ≤
      Real.log (beta (fun i j => P' i j) (fun i j => E' i j) ys x /
        beta (fun i j => P i j) (fun i j => E i j) ys x) := by
  induction ys generalizing f x with
  | nil =>
    rw [beta_nil, beta_nil]
    simp [gain]
  | cons y ys ih =>
    have hnn := fun s => beta_nonneg hP hE ys s
    have hnn' := fun s => beta_nonneg hP' hE' ys s
    have step : ∀ j, 0 < P x j * (E j y * beta (fun i j => P i j) (fun i j => E i j) ys j) →
        0 < P x j ∧ 0 < E j y ∧ 0 < beta (fun i j => P i j) (fun i j => E i j) ys j ∧ 0 < P' x j ∧
        0 < E' j y ∧ 0 < beta (fun i j => P' i j) (fun i j => E' i j) ys j ∧
        gain P E (fun u v => Real.log (P' u v / P u v)) (fun v y => Real.log (E' v y / E v y)) ys j ≤
          Real.log (beta (fun i j => P' i j) (fun i j => E' i j) ys j /
            beta (fun i j => P i j) (fun i j => E i j) ys j) := by
      intro j hj
      have p1 : 0 < P x j := lt_of_le_of_ne (hP x j) fun h => by rw [← h, zero_mul] at hj; exact lt_irrefl _ hj
      have p2 : 0 < E j y := lt_of_le_of_ne (hE j y) fun h => by
        rw [← h, zero_mul, mul_zero] at hj; exact lt_irrefl _ hj
      have p3 : 0 < beta (fun i j => P i j) (fun i j => E i j) ys j := lt_of_le_of_ne (hnn j) fun h => by
        rw [← h, mul_zero, mul_zero] at hj; exact lt_irrefl _ hj
      have hnf : ∀ i, 0 ≤ forwardStep P E f y i := fun i =>
        mul_nonneg (hE _ _) (Finset.sum_nonneg fun l _ => mul_nonneg (hf l) (hP _ _))
      have hfj : 0 < forwardStep P E f y j := by
        refine mul_pos p2 (Finset.sum_pos' (fun l _ => mul_nonneg (hf l) (hP _ _)) ⟨x, mem_univ x, ?_⟩)
        exact mul_pos hx p1
      have hs0 := hs ⟨0, by simp⟩ x j (mul_pos (mul_pos (mul_pos hx p1) p2) p3)
      obtain ⟨i1, i2⟩ := ih (forwardStep P E f y) hnf (fun w u v hw => hs w.succ u v hw) j hfj p3
      exact ⟨p1, p2, p3, hs0.1, hs0.2, i1, i2⟩
    have hb0 := hb
    rw [beta_cons] at hb
    have e0 : beta (fun i j => P i j) (fun i j => E i j) (y :: ys) x =
        ∑ j, P x j * (E j y * beta (fun i j => P i j) (fun i j => E i j) ys j) := beta_cons _ _ _ _ _
    have e0' : beta (fun i j => P' i j) (fun i j => E' i j) (y :: ys) x =
        ∑ j, P' x j * (E' j y * beta (fun i j => P' i j) (fun i j => E' i j) ys j) :=
      beta_cons _ _ _ _ _
    obtain ⟨B, hB⟩ : ∃ B, B = beta (fun i j => P i j) (fun i j => E i j) (y :: ys) x := ⟨_, rfl⟩
    have hBpos : 0 < B := hB ▸ hb0
    have J := jensen_log (q := fun j => P x j * (E j y * beta (fun i j => P i j) (fun i j => E i j) ys j) / B)
      (r := fun j => (P' x j / P x j) * (E' j y / E j y) *
        (beta (fun i j => P' i j) (fun i j => E' i j) ys j /
          beta (fun i j => P i j) (fun i j => E i j) ys j))
      (g := fun j => Real.log (P' x j / P x j) + Real.log (E' j y / E j y) +
        gain P E (fun u v => Real.log (P' u v / P u v)) (fun v y => Real.log (E' v y / E v y)) ys j)
      (b := beta (fun i j => P' i j) (fun i j => E' i j) (y :: ys) x / B)
      (fun j => div_nonneg (mul_nonneg (hP _ _) (mul_nonneg (hE _ _) (hnn j))) hBpos.le)
      (by rw [← Finset.sum_div, ← e0, ← hB]; exact div_self hBpos.ne')
      (by
        intro j hj
        have hj' : 0 < P x j * (E j y * beta (fun i j => P i j) (fun i j => E i j) ys j) := by
          have := mul_pos hj hBpos
          simpa only [div_mul_cancel₀ _ hBpos.ne'] using this
        obtain ⟨p1, p2, p3, p4, p5, p6, p7⟩ := step j hj'
        have r1 := div_pos p4 p1
        have r2 := div_pos p5 p2
        have r3 := div_pos p6 p3
        refine ⟨mul_pos (mul_pos r1 r2) r3, ?_⟩
        rw [Real.log_mul (mul_pos r1 r2).ne' r3.ne', Real.log_mul r1.ne' r2.ne']
        linarith)
      (by
        rw [e0', Finset.sum_div]
        refine Finset.sum_le_sum fun j _ => ?_
        rcases (mul_nonneg (hP x j) (mul_nonneg (hE j y) (hnn j))).eq_or_lt with h | h
        · rw [← h, zero_div, zero_mul]
          exact div_nonneg (mul_nonneg (hP' _ _) (mul_nonneg (hE' _ _) (hnn' j))) hBpos.le
        · obtain ⟨p1, p2, p3, -⟩ := step j h
          have p1' := p1.ne'
          have p2' := p2.ne'
          have p3' := p3.ne'
          have p4' := hBpos.ne'
          refine le_of_eq ?_
          field_simp)
    refine ⟨?_, ?_⟩
    · have := mul_pos J.1 hBpos
      rwa [div_mul_cancel₀ _ hBpos.ne'] at this
    · rw [← hB]
      refine le_trans (le_of_eq ?_) J.2
      rw [gain, ← hB]

theorem sum_gain {P : Matrix (Fin n) (Fin n) ℝ} {E : Matrix (Fin n) (Fin k) ℝ}
    (hP : ∀ i j, 0 ≤ P i j) (hE : ∀ i j, 0 ≤ E i j) (ρ : Fin n → Fin n → ℝ)
    (ε : Fin n → Fin k → ℝ) (ys : List (Fin k)) (f : Fin n → ℝ) :
    ∑ x, f x * beta (fun i j => P i j) (fun i j => E i j) ys x * gain P E ρ ε ys x =
      ∑ w, ∑ u, ∑ v, jointPair P E f ys w u v * (ρ u v + ε v ys[w]) := by
  induction ys generalizing f with
  | nil => simp [gain]
  | cons y ys ih =>
    have h1 : ∀ x, f x * beta (fun i j => P i j) (fun i j => E i j) (y :: ys) x * gain P E ρ ε (y :: ys) x =
        ∑ j, f x * P x j * E j y * beta (fun i j => P i j) (fun i j => E i j) ys j * (ρ x j + ε j y) +
        ∑ j, E j y * (f x * P x j) * (beta (fun i j => P i j) (fun i j => E i j) ys j *
          gain P E ρ ε ys j) := by
      intro x
      have e0 : beta (fun i j => P i j) (fun i j => E i j) (y :: ys) x =
        ∑ j, P x j * (E j y * beta (fun i j => P i j) (fun i j => E i j) ys j) := beta_cons _ _ _ _ _
      rw [gain, ← Finset.sum_add_distrib, Finset.mul_sum]
      refine Finset.sum_congr rfl fun j _ => ?_
      by_cases hB : beta (fun i j => P i j) (fun i j => E i j) (y :: ys) x = 0
      · have hz : P x j * (E j y * beta (fun i j => P i j) (fun i j => E i j) ys j) = 0 := by
          rw [e0, Finset.sum_eq_zero_iff_of_nonneg fun j _ =>
            mul_nonneg (hP _ _) (mul_nonneg (hE _ _) (beta_nonneg hP hE _ _))] at hB
          exact hB j (mem_univ j)
        rw [hB]
        linear_combination (-(f x * (ρ x j + ε j y)) - f x * gain P E ρ ε ys j) * hz
      · field_simp
    rw [Finset.sum_congr rfl fun x _ => h1 x, Finset.sum_add_distrib]
    refine Eq.trans ?_ (Fin.sum_univ_succ (n := ys.length) fun w =>
      ∑ u, ∑ v, jointPair P E f (y :: ys) w u v * (ρ u v + ε v (y :: ys)[w])).symm
    refine congrArg₂ (· + ·) rfl ?_
    refine Eq.trans ?_ (ih (forwardStep P E f y))
    rw [Finset.sum_comm]
    refine Finset.sum_congr rfl fun j _ => ?_
    rw [← Finset.sum_mul]
    have : forwardStep P E f y j = ∑ i, E j y * (f i * P i j) := by
      unfold forwardStep
      rw [Finset.mul_sum]
    rw [this, mul_assoc]

theorem jointPair_nonneg {P : Matrix (Fin n) (Fin n) ℝ} {E : Matrix (Fin n) (Fin k) ℝ}
    (hP : ∀ i j, 0 ≤ P i j) (hE : ∀ i j, 0 ≤ E i j) {f : Fin n → ℝ} (hf : ∀ i, 0 ≤ f i)
    (ys : List (Fin k)) (w : Fin ys.length) (u v : Fin n) : 0 ≤ jointPair P E f ys w u v :=
  mul_nonneg (mul_nonneg (mul_nonneg (alpha_nonneg hP hE hf _ _) (hP _ _)) (hE _ _))
    (beta_nonneg hP hE _ _)

theorem alpha_take_succ (P : Matrix (Fin n) (Fin n) ℝ) (E : Matrix (Fin n) (Fin k) ℝ)
    (f : Fin n → ℝ) (ys : List (Fin k)) (w : Fin ys.length) (v : Fin n) :
    alpha P E f (ys.take (w + 1)) v = E v ys[w] * ∑ u, alpha P E f (ys.take w) u * P u v := by
  have : ys.take (w + 1) = ys.take w ++ [ys[w]] := by simp
  unfold alpha
  rw [this, List.foldl_append]
  rfl

/-- The last state of a pair is the hidden state at the symbol. -/
theorem sum_jointPair (P : Matrix (Fin n) (Fin n) ℝ) (E : Matrix (Fin n) (Fin k) ℝ)
    (f : Fin n → ℝ) (ys : List (Fin k)) (w : Fin ys.length) (v : Fin n) :
    ∑ u, jointPair P E f ys w u v = alpha P E f (ys.take (w + 1)) v *
      beta (fun i j => P i j) (fun i j => E i j) (ys.drop (w + 1)) v := by
  rw [alpha_take_succ, Finset.mul_sum, Finset.sum_mul]
  refine Finset.sum_congr rfl fun u _ => ?_
  unfold jointPair
  ring

/-- For one sequence, the gain is at least that of the expected counts. -/
theorem em_bound {P P' : Matrix (Fin n) (Fin n) ℝ} {E E' : Matrix (Fin n) (Fin k) ℝ}
    (hP : ∀ i j, 0 ≤ P i j) (hE : ∀ i j, 0 ≤ E i j) (hP' : ∀ i j, 0 ≤ P' i j)
    (hE' : ∀ i j, 0 ≤ E' i j) {ys : List (Fin k)} (hys : ys ≠ []) {f : Fin n → ℝ}
    (hf : ∀ i, 0 ≤ f i) {x : ℝ × Matrix (Fin n) (Fin n) ℝ × Matrix (Fin n) (Fin k) ℝ}
    (h : baumWelch P E f ys = some x) (h1 : ∀ u v, 0 < x.2.1 u v → 0 < P' u v)
    (h2 : ∀ v y, 0 < x.2.2 v y → 0 < E' v y) :
    0 < likelihood (fun i j => P' i j) (fun i j => E' i j) f ys ∧
    x.1 + (∑ u, ∑ v, x.2.1 u v * Real.log (P' u v / P u v) +
      ∑ v, ∑ y, x.2.2 v y * Real.log (E' v y / E v y)) ≤
        Real.log (likelihood (fun i j => P' i j) (fun i j => E' i j) f ys) := by
  obtain ⟨hL, hx1, hx2, hx3⟩ := baumWelch_spec hys h
  obtain ⟨L, hLdef⟩ : ∃ L, L = likelihood (fun i j => P i j) (fun i j => E i j) f ys := ⟨_, rfl⟩
  obtain ⟨L', hLdef'⟩ : ∃ L', L' = likelihood (fun i j => P' i j) (fun i j => E' i j) f ys := ⟨_, rfl⟩
  rw [← hLdef] at hL hx1 hx2 hx3
  rw [← hLdef']
  have hjp := fun w u v => jointPair_nonneg hP hE hf ys w u v
  have hx2' : ∀ u v, x.2.1 u v = (∑ w, jointPair P E f ys w u v) / L := hx2
  have hx3' : ∀ v y, x.2.2 v y =
      (∑ w : Fin ys.length, if ys[w] = y then ∑ u, jointPair P E f ys w u v else 0) / L := by
    intro v y
    rw [hx3]
    refine congrArg (· / L) (Finset.sum_congr rfl fun w _ => ?_)
    rw [sum_jointPair]
  have hs : ∀ w u v, 0 < jointPair P E f ys w u v → 0 < P' u v ∧ 0 < E' v ys[w] := by
    intro w u v hw
    refine ⟨h1 u v ?_, h2 v ys[w] ?_⟩
    · rw [hx2']
      exact div_pos (Finset.sum_pos' (fun w _ => hjp w u v) ⟨w, mem_univ w, hw⟩) hL
    · rw [hx3']
      refine div_pos (Finset.sum_pos' (fun w' _ => ?_) ⟨w, mem_univ w, ?_⟩) hL
      · split_ifs
        · exact Finset.sum_nonneg fun u _ => hjp w' u v
        · exact le_rfl
      · rw [if_pos rfl]
        exact Finset.sum_pos' (fun u _ => hjp w u v) ⟨u, mem_univ u, hw⟩
  have hbeta := fun s => beta_nonneg hP hE ys s
  have hbeta' := fun s => beta_nonneg hP' hE' ys s
  have bound := fun s hs0 hb => gain_bound hP hE hP' hE' ys f hf hs s hs0 hb
  have J := jensen_log (q := fun s => f s * beta (fun i j => P i j) (fun i j => E i j) ys s / L)
    (r := fun s => beta (fun i j => P' i j) (fun i j => E' i j) ys s /
      beta (fun i j => P i j) (fun i j => E i j) ys s)
    (g := gain P E (fun u v => Real.log (P' u v / P u v)) (fun v y => Real.log (E' v y / E v y)) ys)
    (b := L' / L) (fun s => div_nonneg (mul_nonneg (hf s) (hbeta s)) hL.le)
    (by rw [← Finset.sum_div, ← likelihood_eq_beta, ← hLdef]; exact div_self hL.ne')
    (by
      intro s hq
      have hq' : 0 < f s * beta (fun i j => P i j) (fun i j => E i j) ys s := by
        have := mul_pos hq hL
        simpa only [div_mul_cancel₀ _ hL.ne'] using this
      have p1 : 0 < f s := lt_of_le_of_ne (hf s) fun h0 => by
        rw [← h0, zero_mul] at hq'; exact lt_irrefl _ hq'
      have p2 : 0 < beta (fun i j => P i j) (fun i j => E i j) ys s :=
        lt_of_le_of_ne (hbeta s) fun h0 => by rw [← h0, mul_zero] at hq'; exact lt_irrefl _ hq'
      obtain ⟨b1, b2⟩ := bound s p1 p2
      exact ⟨div_pos b1 p2, b2⟩)
    (by
      rw [hLdef', likelihood_eq_beta, Finset.sum_div]
      refine Finset.sum_le_sum fun s _ => ?_
      by_cases hb : beta (fun i j => P i j) (fun i j => E i j) ys s = 0
      · simp only [hb, mul_zero, zero_div, div_zero]
        exact div_nonneg (mul_nonneg (hf s) (hbeta' s)) hL.le
      · refine le_of_eq ?_
        have := hL.ne'
        field_simp)
  have hL' : 0 < L' := by
    have := mul_pos J.1 hL
    rwa [div_mul_cancel₀ _ hL.ne'] at this
  refine ⟨hL', ?_⟩
  have e1 : ∑ s, f s * beta (fun i j => P i j) (fun i j => E i j) ys s / L *
      gain P E (fun u v => Real.log (P' u v / P u v)) (fun v y => Real.log (E' v y / E v y)) ys s =
      ∑ u, ∑ v, x.2.1 u v * Real.log (P' u v / P u v) +
        ∑ v, ∑ y, x.2.2 v y * Real.log (E' v y / E v y) := by
    have e2 := sum_gain hP hE (fun u v => Real.log (P' u v / P u v))
      (fun v y => Real.log (E' v y / E v y)) ys f
    have e3 : ∑ s, f s * beta (fun i j => P i j) (fun i j => E i j) ys s / L *
        gain P E (fun u v => Real.log (P' u v / P u v)) (fun v y => Real.log (E' v y / E v y)) ys s =
        (∑ w, ∑ u, ∑ v, jointPair P E f ys w u v *
          (Real.log (P' u v / P u v) + Real.log (E' v ys[w] / E v ys[w]))) / L := by
      rw [← e2, Finset.sum_div]
      exact Finset.sum_congr rfl fun s _ => by ring
    rw [e3]
    have e4 : ∑ u, ∑ v, x.2.1 u v * Real.log (P' u v / P u v) =
        (∑ w, ∑ u, ∑ v, jointPair P E f ys w u v * Real.log (P' u v / P u v)) / L := by
      rw [Finset.sum_comm (s := (univ : Finset (Fin ys.length))), Finset.sum_div]
      refine Finset.sum_congr rfl fun u _ => ?_
      rw [Finset.sum_comm (s := (univ : Finset (Fin ys.length))), Finset.sum_div]
      refine Finset.sum_congr rfl fun v _ => ?_
      rw [hx2', ← Finset.sum_mul]
      ring
    have e5 : ∑ v, ∑ y, x.2.2 v y * Real.log (E' v y / E v y) =
        (∑ w, ∑ u, ∑ v, jointPair P E f ys w u v * Real.log (E' v ys[w] / E v ys[w])) / L := by
      have e6 : ∀ w : Fin ys.length,
          ∑ u, ∑ v, jointPair P E f ys w u v * Real.log (E' v ys[w] / E v ys[w]) =
          ∑ v, (∑ u, jointPair P E f ys w u v) * Real.log (E' v ys[w] / E v ys[w]) := by
        intro w
        rw [Finset.sum_comm]
        exact Finset.sum_congr rfl fun v _ => (Finset.sum_mul _ _ _).symm
      rw [Finset.sum_congr rfl fun w _ => e6 w,
        Finset.sum_comm (s := (univ : Finset (Fin ys.length))), Finset.sum_div]
      refine Finset.sum_congr rfl fun v _ => ?_
      have e7 : ∀ y, x.2.2 v y * Real.log (E' v y / E v y) =
          (∑ w : Fin ys.length, if ys[w] = y then (∑ u, jointPair P E f ys w u v) *
            Real.log (E' v y / E v y) else 0) / L := by
        intro y
        rw [hx3', div_mul_eq_mul_div, Finset.sum_mul]
        simp only [ite_mul, zero_mul]
      rw [Finset.sum_congr rfl fun y _ => e7 y, ← Finset.sum_div, Finset.sum_comm]
      refine congrArg (· / L) (Finset.sum_congr rfl fun w _ => ?_)
      rw [Finset.sum_ite_eq]
      simp
    rw [e4, e5, ← add_div, ← Finset.sum_add_distrib]
    refine congrArg (· / L) (Finset.sum_congr rfl fun w _ => ?_)
    rw [← Finset.sum_add_distrib]
    refine Finset.sum_congr rfl fun u _ => ?_
    rw [← Finset.sum_add_distrib]
    exact Finset.sum_congr rfl fun v _ => mul_add _ _ _
  have J2 := J.2
  rw [e1, Real.log_div hL'.ne' hL.ne'] at J2
  rw [hx1]
  linarith

/-- Normalised weights are the best choice for these weights. -/
theorem gibbs {ι : Type} [Fintype ι] {c q : ι → ℝ} (hc : ∀ j, 0 ≤ c j) (hs : 0 < ∑ j, c j) (hq : ∀ j, 0 ≤ q j)
    (hq1 : ∑ j, q j ≤ 1) (hcq : ∀ j, 0 < c j → 0 < q j) :
    0 ≤ ∑ j, c j * Real.log (c j / (∑ l, c l) / q j) := by
  obtain ⟨S, hS⟩ : ∃ S, S = ∑ l, c l := ⟨_, rfl⟩
  rw [← hS] at hs ⊢
  have pos : ∀ j, 0 < c j / S → 0 < c j := by
    intro j hj
    have := mul_pos hj hs
    rwa [div_mul_cancel₀ _ hs.ne'] at this
  have J := jensen_log (q := fun j => c j / S) (r := fun j => q j / (c j / S))
    (g := fun j => - Real.log (c j / S / q j)) (b := 1) (fun j => div_nonneg (hc j) hs.le)
    (by rw [← Finset.sum_div, ← hS]; exact div_self hs.ne')
    (fun j hj => ⟨div_pos (hcq j (pos j hj)) hj, by rw [← Real.log_inv, inv_div]⟩)
    (by
      refine le_trans (Finset.sum_le_sum fun j _ => ?_) hq1
      by_cases h0 : c j / S = 0
      · rw [h0, zero_mul]; exact hq j
      · exact (mul_div_cancel₀ _ h0).le)
  have h := J.2
  rw [Real.log_one] at h
  have e : ∑ j, c j * Real.log (c j / S / q j) = - S * ∑ j, c j / S * - Real.log (c j / S / q j) := by
    rw [Finset.mul_sum]
    refine Finset.sum_congr rfl fun j _ => ?_
    have := hs.ne'
    field_simp
  rw [e]
  nlinarith

/-- No symbol has a probability below `1e-300` given the previous ones. -/
def Decodable (P : Matrix (Fin n) (Fin n) ℝ) (E : Matrix (Fin n) (Fin k) ℝ) (f : Fin n → ℝ)
    (ys : List (Fin k)) : Prop :=
  ∀ t < ys.length,
    (if t = 0 then 1 else likelihood (fun i j => P i j) (fun i j => E i j) f (ys.take t)) / 10 ^ 300 ≤
      likelihood (fun i j => P i j) (fun i j => E i j) f (ys.take (t + 1))

theorem baumWelch_none {P : Matrix (Fin n) (Fin n) ℝ} {E : Matrix (Fin n) (Fin k) ℝ} {f : Fin n → ℝ}
    {ys : List (Fin k)} : baumWelch P E f ys = none ↔ ¬ Decodable P E f ys := by
  unfold baumWelch Decodable
  rw [Option.map_eq_none_iff, hmmDecode_none]
  push Not
  rfl

/-- The sum of the logarithms of the probabilities of the sequences. -/
noncomputable def logLikelihood (P : Matrix (Fin n) (Fin n) ℝ) (E : Matrix (Fin n) (Fin k) ℝ)
    (f : Fin n → ℝ) (l : List (List (Fin k))) : ℝ :=
  (l.map fun ys => Real.log (likelihood (fun i j => P i j) (fun i j => E i j) f ys)).sum

open Classical in
/-- The sequences that are taken into account. -/
noncomputable def decodable (P : Matrix (Fin n) (Fin n) ℝ) (E : Matrix (Fin n) (Fin k) ℝ)
    (f : Fin n → ℝ) (l : List (List (Fin k))) : List (List (Fin k)) :=
  l.filter fun ys => Decodable P E f ys

theorem results_le {P : Matrix (Fin n) (Fin n) ℝ} {E : Matrix (Fin n) (Fin k) ℝ} {f : Fin n → ℝ}
    {l : List (List (Fin k))} {φ : ℝ × Matrix (Fin n) (Fin n) ℝ × Matrix (Fin n) (Fin k) ℝ → ℝ}
    {ψ : List (Fin k) → ℝ} (h : ∀ ys ∈ l, ∀ x, baumWelch P E f ys = some x → φ x ≤ ψ ys) :
    (((l.map (baumWelch P E f)).filterMap id).map φ).sum ≤ ((decodable P E f l).map ψ).sum := by
  induction l with
  | nil => simp [decodable]
  | cons ys l ih =>
    have ih' := ih fun z hz => h z (List.mem_cons_of_mem _ hz)
    cases hb : baumWelch P E f ys with
    | none =>
      have e : decodable P E f (ys :: l) = decodable P E f l := by
        unfold decodable
        rw [List.filter_cons, if_neg]
        simpa using baumWelch_none.1 hb
      rw [List.map_cons, hb, e]
      exact ih'
    | some x =>
      have hd : Decodable P E f ys := by
        by_contra hc
        rw [baumWelch_none.2 hc] at hb
        cases hb
      have e : decodable P E f (ys :: l) = ys :: decodable P E f l := by
        unfold decodable
        rw [List.filter_cons, if_pos]
        simpa using hd
      rw [List.map_cons, hb, e]
      have e2 : (some x :: l.map (baumWelch P E f)).filterMap id =
          x :: (l.map (baumWelch P E f)).filterMap id := by simp
      rw [e2, List.map_cons, List.map_cons, List.sum_cons, List.sum_cons]
      exact add_le_add (h ys (List.mem_cons_self) x hb) ih'

theorem sum_linear (l : List (ℝ × Matrix (Fin n) (Fin n) ℝ × Matrix (Fin n) (Fin k) ℝ))
    (ρ : Fin n → Fin n → ℝ) (ε : Fin n → Fin k → ℝ) :
    (l.map fun x => x.1 + (∑ u, ∑ v, x.2.1 u v * ρ u v + ∑ v, ∑ y, x.2.2 v y * ε v y)).sum =
      (l.map fun x => x.1).sum + (∑ u, ∑ v, (l.map fun x => x.2.1 u v).sum * ρ u v +
        ∑ v, ∑ y, (l.map fun x => x.2.2 v y).sum * ε v y) := by
  induction l with
  | nil => simp
  | cons a l ih =>
    simp only [List.map_cons, List.sum_cons, ih, add_mul, Finset.sum_add_distrib]
    ring

theorem list_sum_neg {α : Type} (l : List α) (g : α → ℝ) :
    (l.map fun x => - g x).sum = - (l.map g).sum := by
  induction l with
  | nil => simp
  | cons a l ih => simp only [List.map_cons, List.sum_cons, ih]; ring

/-- C76, one iteration of `fit('baum-welch', ...)`. For all stochastic matrices and all sequences, the
matrices computed by one iteration give the sequences taken into account at least the probability which
they had before. -/
theorem C76_iteration {P : Matrix (Fin n) (Fin n) ℝ} {E : Matrix (Fin n) (Fin k) ℝ}
    (hP : IsStochastic P) (hE : IsStochastic E) {f : Fin n → ℝ} (hf : ∀ i, 0 ≤ f i)
    {l : List (List (Fin k))} (hl : ∀ ys ∈ l, ys ≠ []) {ll : ℝ}
    (hd : StepDefined (fun P E => baumWelch P E f) l (ll, P, E))
    {ll' : ℝ} {P' : Matrix (Fin n) (Fin n) ℝ} {E' : Matrix (Fin n) (Fin k) ℝ}
    (h : fitStep (fun P E => baumWelch P E f) l (ll, P, E) = (ll', P', E')) :
    ll' = logLikelihood P E f (decodable P E f l) ∧
    (∀ ys ∈ decodable P E f l, 0 < likelihood (fun i j => P i j) (fun i j => E i j) f ys ∧
      0 < likelihood (fun i j => P' i j) (fun i j => E' i j) f ys) ∧
    logLikelihood P E f (decodable P E f l) ≤ logLikelihood P' E' f (decodable P E f l) := by
  obtain ⟨s1, s2, s3⟩ := sumResults_eq (l.map (baumWelch P E f))
  obtain ⟨R, hR⟩ : ∃ R, R = sumResults (l.map (baumWelch P E f)) := ⟨_, rfl⟩
  obtain ⟨X, hX⟩ : ∃ X, X = (l.map (baumWelch P E f)).filterMap id := ⟨_, rfl⟩
  have hres : ∀ x ∈ X, ∃ ys ∈ l, baumWelch P E f ys = some x := by
    intro x hx
    rw [hX, List.mem_filterMap] at hx
    obtain ⟨o, ho, rfl⟩ := hx
    rw [List.mem_map] at ho
    exact ho
  rw [← hR, ← hX] at s1 s2 s3
  have hll : ll' = R.1 := by rw [hR]; exact (congrArg Prod.fst h).symm
  have hP' : ∀ i j, P' i j = R.2.1 i j / ∑ v, R.2.1 i v := by
    intro i j
    rw [hR]
    exact (congrFun (congrFun (congrArg (fun x => x.2.1) h) i) j).symm
  have hE' : ∀ i j, E' i j = R.2.2 i j / ∑ v, R.2.2 i v := by
    intro i j
    rw [hR]
    exact (congrFun (congrFun (congrArg (fun x => x.2.2) h) i) j).symm
  have hd1 : ∀ i, ∑ j, R.2.1 i j ≠ 0 := by rw [hR]; exact hd.1
  have hd2 : ∀ i, ∑ j, R.2.2 i j ≠ 0 := by rw [hR]; exact hd.2
  have nn : ∀ x ∈ X, (∀ i j, 0 ≤ x.2.1 i j) ∧ ∀ i j, 0 ≤ x.2.2 i j := by
    intro x hx
    obtain ⟨ys, hys, hb⟩ := hres x hx
    exact baumWelch_nonneg hf (hl ys hys) hP.1 hE.1 hb
  have le1 : ∀ x ∈ X, ∀ i j, x.2.1 i j ≤ R.2.1 i j := by
    intro x hx i j
    rw [s2]
    exact List.single_le_sum (by
      intro z hz
      obtain ⟨y, hy, rfl⟩ := List.mem_map.1 hz
      exact (nn y hy).1 i j) _ (List.mem_map_of_mem hx)
  have le2 : ∀ x ∈ X, ∀ i j, x.2.2 i j ≤ R.2.2 i j := by
    intro x hx i j
    rw [s3]
    exact List.single_le_sum (by
      intro z hz
      obtain ⟨y, hy, rfl⟩ := List.mem_map.1 hz
      exact (nn y hy).2 i j) _ (List.mem_map_of_mem hx)
  have n1 : ∀ i j, 0 ≤ R.2.1 i j := by
    intro i j
    rw [s2]
    exact List.sum_nonneg fun z hz => by
      obtain ⟨y, hy, rfl⟩ := List.mem_map.1 hz
      exact (nn y hy).1 i j
  have n2 : ∀ i j, 0 ≤ R.2.2 i j := by
    intro i j
    rw [s3]
    exact List.sum_nonneg fun z hz => by
      obtain ⟨y, hy, rfl⟩ := List.mem_map.1 hz
      exact (nn y hy).2 i j
  have t1 : ∀ i, 0 < ∑ j, R.2.1 i j := fun i =>
    lt_of_le_of_ne (Finset.sum_nonneg fun j _ => n1 i j) (hd1 i).symm
  have t2 : ∀ i, 0 < ∑ j, R.2.2 i j := fun i =>
    lt_of_le_of_ne (Finset.sum_nonneg fun j _ => n2 i j) (hd2 i).symm
  have nP' : ∀ i j, 0 ≤ P' i j := fun i j => by rw [hP']; exact div_nonneg (n1 i j) (t1 i).le
  have nE' : ∀ i j, 0 ≤ E' i j := fun i j => by rw [hE']; exact div_nonneg (n2 i j) (t2 i).le
  have pos1 : ∀ i j, 0 < R.2.1 i j → 0 < P i j := by
    intro i j hij
    by_contra hc
    have hz : P i j = 0 := le_antisymm (not_lt.1 hc) (hP.1 i j)
    have : R.2.1 i j = 0 := by
      rw [s2]
      refine List.sum_eq_zero fun z hz' => ?_
      obtain ⟨x, hx, rfl⟩ := List.mem_map.1 hz'
      obtain ⟨ys, hys, hb⟩ := hres x hx
      obtain ⟨-, -, x2, -⟩ := baumWelch_spec (hl ys hys) hb
      change x.2.1 i j = 0
      rw [x2, hz]
      simp
    rw [this] at hij
    exact lt_irrefl _ hij
  have pos2 : ∀ i j, 0 < R.2.2 i j → 0 < E i j := by
    intro i j hij
    by_contra hc
    have hz : E i j = 0 := le_antisymm (not_lt.1 hc) (hE.1 i j)
    have : R.2.2 i j = 0 := by
      rw [s3]
      refine List.sum_eq_zero fun z hz' => ?_
      obtain ⟨x, hx, rfl⟩ := List.mem_map.1 hz'
      obtain ⟨ys, hys, hb⟩ := hres x hx
      obtain ⟨-, -, -, x3⟩ := baumWelch_spec (hl ys hys) hb
      change x.2.2 i j = 0
      rw [x3]
      refine div_eq_zero_iff.2 (Or.inl (Finset.sum_eq_zero fun w _ => ?_))
      split_ifs with hw
      · rw [alpha_take_succ, hw, hz, zero_mul, zero_mul]
      · rfl
    rw [this] at hij
    exact lt_irrefl _ hij
  have bound : ∀ ys ∈ l, ∀ x, baumWelch P E f ys = some x →
      0 < likelihood (fun i j => P' i j) (fun i j => E' i j) f ys ∧
      x.1 + (∑ u, ∑ v, x.2.1 u v * Real.log (P' u v / P u v) +
        ∑ v, ∑ y, x.2.2 v y * Real.log (E' v y / E v y)) ≤
          Real.log (likelihood (fun i j => P' i j) (fun i j => E' i j) f ys) := by
    intro ys hys x hb
    have hx : x ∈ X := by
      rw [hX, List.mem_filterMap]
      exact ⟨some x, List.mem_map.2 ⟨ys, hys, hb⟩, rfl⟩
    refine em_bound hP.1 hE.1 nP' nE' (hl ys hys) hf hb (fun u v huv => ?_) fun v y hvy => ?_
    · rw [hP']
      exact div_pos (lt_of_lt_of_le huv (le1 x hx u v)) (t1 u)
    · rw [hE']
      exact div_pos (lt_of_lt_of_le hvy (le2 x hx v y)) (t2 v)
  have hmem : ∀ ys ∈ decodable P E f l, ys ∈ l ∧ ∃ x, baumWelch P E f ys = some x := by
    intro ys hys
    unfold decodable at hys
    rw [List.mem_filter] at hys
    refine ⟨hys.1, ?_⟩
    rw [← Option.ne_none_iff_exists', Ne, baumWelch_none, not_not]
    simpa using hys.2
  have hval : ∀ ys ∈ l, ∀ x, baumWelch P E f ys = some x →
      x.1 = Real.log (likelihood (fun i j => P i j) (fun i j => E i j) f ys) := fun ys hys x hb =>
    (baumWelch_spec (hl ys hys) hb).2.1
  have hll2 : R.1 = logLikelihood P E f (decodable P E f l) := by
    rw [s1, hX]
    refine le_antisymm (results_le fun ys hys x hb => (hval ys hys x hb).le) ?_
    have := results_le (P := P) (E := E) (f := f) (l := l) (φ := fun x => - x.1)
      (ψ := fun ys => - Real.log (likelihood (fun i j => P i j) (fun i j => E i j) f ys))
      fun ys hys x hb => (neg_le_neg (hval ys hys x hb).ge)
    unfold logLikelihood
    rw [← neg_le_neg_iff]
    rw [list_sum_neg, list_sum_neg] at this
    exact this
  refine ⟨hll.trans hll2, fun ys hys => ?_, ?_⟩
  · obtain ⟨h1, x, hb⟩ := hmem ys hys
    exact ⟨(baumWelch_spec (hl ys h1) hb).1, (bound ys h1 x hb).1⟩
  · have B := results_le (ψ := fun ys => Real.log (likelihood (fun i j => P' i j) (fun i j => E' i j) f ys))
      fun ys hys x hb => (bound ys hys x hb).2
    rw [← hX, sum_linear X (fun u v => Real.log (P' u v / P u v)) fun v y => Real.log (E' v y / E v y),
      ← s1] at B
    have g1 : 0 ≤ ∑ u, ∑ v, (X.map fun x => x.2.1 u v).sum * Real.log (P' u v / P u v) := by
      refine Finset.sum_nonneg fun u _ => ?_
      have g := gibbs (fun j => n1 u j) (t1 u) (fun j => hP.1 u j) (hP.2 u).le (pos1 u)
      refine g.trans_eq (Finset.sum_congr rfl fun v _ => ?_)
      rw [hP', s2]
    have g2 : 0 ≤ ∑ v, ∑ y, (X.map fun x => x.2.2 v y).sum * Real.log (E' v y / E v y) := by
      refine Finset.sum_nonneg fun v _ => ?_
      have g := gibbs (fun j => n2 v j) (t2 v) (fun j => hE.1 v j) (hE.2 v).le (pos2 v)
      refine g.trans_eq (Finset.sum_congr rfl fun y _ => ?_)
      rw [hE', s3]
    rw [← hll2]
    have : logLikelihood P' E' f (decodable P E f l) = ((decodable P E f l).map fun ys =>
      Real.log (likelihood (fun i j => P' i j) (fun i j => E' i j) f ys)).sum := rfl
    rw [this]
    linarith

/-- C76. Whenever `fit('baum-welch', ...)` returns a model, its matrices are obtained from the guesses by
iterations each of which does not decrease the probability of the sequences that it takes into account
(those without a symbol of conditional probability below `1e-300`). The guesses, which are accepted if
their rows sum to one up to a tolerance, are supposed to be stochastic. -/
theorem C76_fit {rnd : ℝ → ℝ} {possibleStates possibleSymbols pGuess eGuess symbols
    status : PyVal ℝ} {m : HMM ℝ}
    (h : hmmFitApi rnd (.str "baum-welch") possibleStates possibleSymbols pGuess eGuess symbols status =
      .ok m) :
    ∃ l P E init, FitArguments (.str "baum-welch") pGuess eGuess symbols status m "baum-welch" l P E init ∧
      (IsStochastic P → IsStochastic E →
        ∃ x : ℕ → Matrix (Fin m.n) (Fin m.n) ℝ × Matrix (Fin m.n) (Fin m.k) ℝ, ∃ N ≤ 500, 1 ≤ N ∧
        x 0 = (P, E) ∧ x N = (m.p, m.e) ∧
        (∀ i < N, logLikelihood (x i).1 (x i).2 init
            (decodable (x i).1 (x i).2 init (l.map (toStates m.k))) ≤
          logLikelihood (x (i + 1)).1 (x (i + 1)).2 init
            (decodable (x i).1 (x i).2 init (l.map (toStates m.k)))) ∧
        ((∀ i < N, ∀ s ∈ l, Decodable (x i).1 (x i).2 init (toStates m.k s)) →
          logLikelihood P E init (l.map (toStates m.k)) ≤
            logLikelihood m.p m.e init (l.map (toStates m.k)))) := by
  obtain ⟨h1, h2, h3, h4, -, -⟩ := hmmFitApi_ok h
  obtain ⟨-, -, t, l, P, E, init, hargs, x, j, hj, x0, xs, xe, xd, -⟩ := C73_stochastic h
  obtain rfl : t = "baum-welch" := by
    have := (validateEnumerator_ok.1 hargs.type_eq).1
    exact (PyVal.str.inj this).symm
  refine ⟨l, P, E, init, hargs, fun sP sE => ?_⟩
  have hl : ∀ ys ∈ l.map (toStates m.k), ys ≠ [] := by
    intro ys hys
    rw [List.mem_map] at hys
    obtain ⟨s, hs, rfl⟩ := hys
    exact toStates_ne ((sequencesOf_ne_nil h4.2.1 hargs.sequences).2 s hs) (hargs.in_range s hs)
  have hi := initialStatus_nonneg h2 h1 hargs.status_eq
  have hfun : (fitFunc rnd "baum-welch" init : FitFunc m.n m.k) = fun P E => baumWelch P E init := by
    funext P E
    simp [fitFunc]
  rw [hfun] at xs xd
  have hst : ∀ i ≤ j + 1, IsStochastic (x i).2.1 ∧ IsStochastic (x i).2.2 := by
    intro i hi'
    induction i with
    | zero => rw [x0]; exact ⟨sP, sE⟩
    | succ i ih =>
      obtain ⟨a, b⟩ := ih (by omega)
      rw [xs i]
      exact fitStep_stochastic (fun P E hP hE ys hys y hy => baumWelch_nonneg hi (hl ys hys) hP hE hy)
        a.1 b.1 (xd i (by omega))
  have mono : ∀ i < j + 1, logLikelihood (x i).2.1 (x i).2.2 init
      (decodable (x i).2.1 (x i).2.2 init (l.map (toStates m.k))) ≤
        logLikelihood (x (i + 1)).2.1 (x (i + 1)).2.2 init
          (decodable (x i).2.1 (x i).2.2 init (l.map (toStates m.k))) := by
    intro i hi'
    exact (C76_iteration (hst i (by omega)).1 (hst i (by omega)).2 hi hl (ll := (x i).1)
      (xd i (by omega)) (xs i).symm).2.2
  refine ⟨fun i => (x i).2, j + 1, by omega, by omega, congrArg Prod.snd x0, xe, mono, fun hall => ?_⟩
  have full : ∀ i < j + 1, decodable (x i).2.1 (x i).2.2 init (l.map (toStates m.k)) =
      l.map (toStates m.k) := by
    intro i hi'
    unfold decodable
    rw [List.filter_eq_self]
    intro ys hys
    rw [List.mem_map] at hys
    obtain ⟨s, hs, rfl⟩ := hys
    simpa using hall i hi' s hs
  have chain : ∀ i ≤ j + 1, logLikelihood P E init (l.map (toStates m.k)) ≤
      logLikelihood (x i).2.1 (x i).2.2 init (l.map (toStates m.k)) := by
    intro i hi'
    induction i with
    | zero => rw [x0]
    | succ i ih =>
      have := mono i (by omega)
      rw [full i (by omega)] at this
      exact (ih (by omega)).trans this
  have := chain (j + 1) le_rfl
  rw [xe] at this
  exact this

/-- The hypotheses of `C76_fit` can be met. -/
theorem C76_accepts (rnd : ℝ → ℝ) : IsStochastic clockP ∧ IsStochastic (clockE 2) ∧
    ∃ m, hmmFitApi rnd (.str "baum-welch") (pyStrings ["a", "b"])
      (pyStrings ["u", "v"]) (pyMatrix clockP) (pyMatrix (clockE 2)) (.list [.str "v", .str "u"])
      (.str "a") = .ok m :=
  ⟨clockP_stochastic, clockE_stochastic le_rfl, _, clock_fit_api rnd le_rfl⟩

end Verif
