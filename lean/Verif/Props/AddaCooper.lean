import Verif.Model.Approximation
import Verif.Spec.Approximation
import Verif.Spec.Valid
import Verif.Lemmas.Generators
import Verif.Props.Validation
import Mathlib.Probability.CDF

/-!
# The Adda-Cooper approximation (C105)
-/

namespace Verif

open MeasureTheory ProbabilityTheory

instance (m s : ℝ) : IsProbabilityMeasure (normalLaw m s) := by unfold normalLaw; infer_instance

theorem normalLaw_map {m s : ℝ} : (gaussianReal 0 1).map (fun x => m + s * x) = normalLaw m s := by
  have h := gaussianReal_map_const_mul (μ := 0) (v := 1) s
  have h2 := gaussianReal_map_const_add (μ := s * 0) (v := .mk (s ^ 2) (sq_nonneg _) * 1) m
  rw [← h, Measure.map_map (by fun_prop) (by fun_prop)] at h2
  simp only [mul_zero, zero_add, mul_one] at h2
  exact h2

theorem normalLaw_Iic {m s : ℝ} (hs : 0 < s) (z : ℝ) :
    (normalLaw m s).real (Set.Iic z) = normCdf ((z - m) / s) := by
  rw [← normalLaw_map, map_measureReal_apply (by fun_prop) measurableSet_Iic]
  unfold normCdf
  congr 1
  ext x
  simp only [Set.mem_preimage, Set.mem_Iic, le_div_iff₀ hs]
  constructor <;> intro h <;> nlinarith

theorem measurableSet_interval (a b : EReal) : MeasurableSet (interval a b) :=
  measurable_coe_real_ereal measurableSet_Ioc

/-- The set of the values up to `z`. -/
def upTo (z : EReal) : Set ℝ := Real.toEReal ⁻¹' Set.Iic z

theorem measurableSet_upTo (z : EReal) : MeasurableSet (upTo z) :=
  measurable_coe_real_ereal measurableSet_Iic

theorem upTo_bot : upTo ⊥ = ∅ := by
  ext x; simp [upTo]

theorem upTo_top : upTo ⊤ = Set.univ := by
  ext x; simp [upTo]

theorem upTo_coe (z : ℝ) : upTo z = Set.Iic z := by
  ext x; simp [upTo]

theorem upTo_mono {a b : EReal} (h : a ≤ b) : upTo a ⊆ upTo b := fun _ hx => le_trans hx h

theorem interval_eq (a b : EReal) : interval a b = upTo b \ upTo a := by
  ext x
  simp only [interval, upTo, Set.mem_preimage, Set.mem_Ioc, Set.mem_sdiff, Set.mem_Iic, not_le]
  exact and_comm

/-- The values of `addaCdf` are conditional probabilities. -/
theorem addaCdf_eq {alpha sigma rho : ℝ} (hs : 0 < sigma) (x : ℝ) (z : EReal) :
    addaCdf alpha sigma rho x z =
      (normalLaw 0 sigma).real {e | autoStep alpha rho (x, e) ∈ upTo z} := by
  unfold addaCdf
  induction z with
  | bot => simp [upTo_bot]
  | top => simp [upTo_top]
  | coe z =>
    rw [if_neg (EReal.coe_ne_bot z), if_neg (EReal.coe_ne_top z), EReal.toReal_coe, upTo_coe]
    have h : {e | autoStep alpha rho (x, e) ∈ Set.Iic z} =
        Set.Iic (z - alpha * (1 - rho) - rho * x) := by
      ext e
      simp only [autoStep, Set.mem_ofPred_eq, Set.mem_Iic]
      constructor <;> intro h <;> linarith
    rw [h, normalLaw_Iic hs, sub_zero]

theorem measurable_autoStep (alpha rho : ℝ) : Measurable (autoStep alpha rho) := by
  unfold autoStep; fun_prop

theorem addaCdf_sub {alpha sigma rho : ℝ} (hs : 0 < sigma) (x : ℝ) {a b : EReal} (hab : a ≤ b) :
    addaCdf alpha sigma rho x b - addaCdf alpha sigma rho x a =
      (normalLaw 0 sigma).real {e | autoStep alpha rho (x, e) ∈ interval a b} := by
  rw [addaCdf_eq hs, addaCdf_eq hs]
  have h : {e | autoStep alpha rho (x, e) ∈ interval a b} =
      {e | autoStep alpha rho (x, e) ∈ upTo b} \ {e | autoStep alpha rho (x, e) ∈ upTo a} := by
    rw [interval_eq]; rfl
  rw [h, measureReal_sdiff]
  · exact fun e he => upTo_mono hab he
  · exact ((measurable_autoStep alpha rho).comp measurable_prodMk_left) (measurableSet_upTo a)

/-- The integral of the source is a probability. -/
theorem quad_eq {alpha sigma rho : ℝ} (hs : 0 < sigma) (hr : 0 < 1 - rho ^ 2) {a b c d : EReal}
    (hcd : c ≤ d) :
    1 / Real.sqrt (2 * Real.pi * autoDeviation sigma rho ^ 2) *
      quad (fun x => addaIntegrand x (autoDeviation sigma rho) sigma rho alpha c d) a b =
      autoMoves alpha sigma rho (interval a b) (interval c d) := by
  have hd : 0 < autoDeviation sigma rho := div_pos hs (Real.sqrt_pos.2 hr)
  have hm : MeasurableSet {w : ℝ × ℝ | w.1 ∈ interval a b ∧ autoStep alpha rho w ∈ interval c d} :=
    (measurable_fst (measurableSet_interval a b)).inter
      (measurable_autoStep alpha rho (measurableSet_interval c d))
  have hv : (NNReal.mk (autoDeviation sigma rho ^ 2) (sq_nonneg _)) ≠ 0 := by
    intro h
    have := congrArg NNReal.toReal h
    simp only [NNReal.coe_mk, NNReal.coe_zero] at this
    exact (pow_pos hd 2).ne' this
  have h1 : autoMoves alpha sigma rho (interval a b) (interval c d) =
      ∫ x, (normalLaw 0 sigma).real (Prod.mk x ⁻¹'
        {w | w.1 ∈ interval a b ∧ autoStep alpha rho w ∈ interval c d})
        ∂(normalLaw alpha (autoDeviation sigma rho)) := by
    unfold autoMoves autoLaw
    rw [measureReal_def, Measure.prod_apply hm]
    unfold Measure.real
    rw [integral_toReal]
    · exact (measurable_measure_prodMk_left hm).aemeasurable
    · exact ae_of_all _ fun x => measure_lt_top _ _
  rw [h1]
  unfold normalLaw
  rw [integral_gaussianReal_eq_integral_smul hv]
  unfold quad
  change _ * ∫ x in interval a b, _ = _
  rw [← integral_const_mul, ← integral_indicator (measurableSet_interval a b)]
  refine integral_congr_ae (ae_of_all _ fun x => ?_)
  simp only [Set.indicator, smul_eq_mul]
  by_cases hx : x ∈ interval a b
  · rw [if_pos hx]
    unfold addaIntegrand
    rw [addaCdf_sub hs x hcd]
    have he : Prod.mk x ⁻¹' {w | w.1 ∈ interval a b ∧ autoStep alpha rho w ∈ interval c d} =
        {e | autoStep alpha rho (x, e) ∈ interval c d} := by
      ext e; simp [hx]
    rw [he, gaussianPDFReal_def]
    simp only [NNReal.coe_mk]
    unfold normalLaw
    ring_nf
  · rw [if_neg hx]
    have he : Prod.mk x ⁻¹' {w | w.1 ∈ interval a b ∧ autoStep alpha rho w ∈ interval c d} = ∅ := by
      ext e; simp [hx]
    rw [he]
    simp

/-! ## Sums over the intervals -/

/-- The probability to start up to `z`. -/
theorem autoMoves_from (alpha sigma rho : ℝ) {a b : EReal} (hab : a ≤ b) (t : Set ℝ)
    (ht : MeasurableSet t) : autoMoves alpha sigma rho (interval a b) t =
      autoMoves alpha sigma rho (upTo b) t - autoMoves alpha sigma rho (upTo a) t := by
  have : IsProbabilityMeasure (autoLaw alpha sigma rho) := by unfold autoLaw; infer_instance
  unfold autoMoves
  rw [← measureReal_sdiff]
  · congr 1
    ext w
    simp only [interval_eq, Set.mem_ofPred_eq, Set.mem_sdiff]
    tauto
  · exact fun w hw => ⟨upTo_mono hab hw.1, hw.2⟩
  · exact (measurable_fst (measurableSet_upTo a)).inter (measurable_autoStep alpha rho ht)

theorem autoMoves_to (alpha sigma rho : ℝ) {a b : EReal} (hab : a ≤ b) (s : Set ℝ)
    (hs : MeasurableSet s) : autoMoves alpha sigma rho s (interval a b) =
      autoMoves alpha sigma rho s (upTo b) - autoMoves alpha sigma rho s (upTo a) := by
  have : IsProbabilityMeasure (autoLaw alpha sigma rho) := by unfold autoLaw; infer_instance
  unfold autoMoves
  rw [← measureReal_sdiff]
  · congr 1
    ext w
    simp only [interval_eq, Set.mem_ofPred_eq, Set.mem_sdiff]
    tauto
  · exact fun w hw => ⟨hw.1, upTo_mono hab hw.2⟩
  · exact (measurable_fst hs).inter (measurable_autoStep alpha rho (measurableSet_upTo a))

/-- A move to anywhere. -/
theorem autoMoves_univ (alpha sigma rho : ℝ) (s : Set ℝ) :
    autoMoves alpha sigma rho s Set.univ = (normalLaw alpha (autoDeviation sigma rho)).real s := by
  unfold autoMoves autoLaw
  have h : {w : ℝ × ℝ | w.1 ∈ s ∧ autoStep alpha rho w ∈ Set.univ} = s ×ˢ Set.univ := by
    ext w; simp
  rw [h, measureReal_prod_prod]
  simp

/-- The process is stationary: the distribution after one step is the one before. -/
theorem autoLaw_map {alpha sigma rho : ℝ} (hr : 0 < 1 - rho ^ 2) :
    (autoLaw alpha sigma rho).map (autoStep alpha rho) =
      normalLaw alpha (autoDeviation sigma rho) := by
  obtain ⟨v, hv⟩ : ∃ v, v = NNReal.mk (autoDeviation sigma rho ^ 2) (sq_nonneg _) := ⟨_, rfl⟩
  have h1 := gaussianReal_map_const_mul (μ := alpha) (v := v) rho
  have h2 := gaussianReal_conv_gaussianReal (m₁ := rho * alpha) (m₂ := 0)
    (v₁ := .mk (rho ^ 2) (sq_nonneg _) * v) (v₂ := .mk (sigma ^ 2) (sq_nonneg sigma))
  have h3 := gaussianReal_map_const_add (μ := rho * alpha + 0)
    (v := .mk (rho ^ 2) (sq_nonneg _) * v + .mk (sigma ^ 2) (sq_nonneg sigma)) ((1 - rho) * alpha)
  rw [← h2, ← h1] at h3
  unfold Measure.conv at h3
  have h4 : ((gaussianReal alpha v).map (fun x => rho * x)).prod
      (gaussianReal 0 (.mk (sigma ^ 2) (sq_nonneg sigma))) =
      ((gaussianReal alpha v).prod (gaussianReal 0 (.mk (sigma ^ 2) (sq_nonneg sigma)))).map
        (Prod.map (fun x => rho * x) id) := by
    rw [← Measure.map_prod_map _ _ (by fun_prop) measurable_id, Measure.map_id]
  rw [h4, Measure.map_map (by fun_prop) (by fun_prop),
    Measure.map_map (by fun_prop) (by fun_prop)] at h3
  have h5 : rho * alpha + 0 + (1 - rho) * alpha = alpha := by ring
  have h6 : NNReal.mk (rho ^ 2) (sq_nonneg _) * v + .mk (sigma ^ 2) (sq_nonneg sigma) = v := by
    subst hv
    ext
    push_cast
    unfold autoDeviation
    rw [div_pow, Real.sq_sqrt hr.le]
    field_simp
    ring
  rw [h5, h6] at h3
  unfold autoLaw normalLaw
  rw [← hv]
  refine Eq.trans ?_ h3
  congr 1
  ext w
  simp [autoStep]
  ring

theorem autoMoves_into {alpha sigma rho : ℝ} (hr : 0 < 1 - rho ^ 2) (t : Set ℝ)
    (ht : MeasurableSet t) :
    autoMoves alpha sigma rho Set.univ t = (normalLaw alpha (autoDeviation sigma rho)).real t := by
  rw [← autoLaw_map hr, map_measureReal_apply (measurable_autoStep alpha rho) ht]
  unfold autoMoves
  congr 1
  ext w
  simp

theorem autoMoves_empty_left (alpha sigma rho : ℝ) (t : Set ℝ) :
    autoMoves alpha sigma rho ∅ t = 0 := by simp [autoMoves]

theorem autoMoves_empty_right (alpha sigma rho : ℝ) (s : Set ℝ) :
    autoMoves alpha sigma rho s ∅ = 0 := by simp [autoMoves]

theorem autoMoves_nonneg (alpha sigma rho : ℝ) (s t : Set ℝ) : 0 ≤ autoMoves alpha sigma rho s t :=
  measureReal_nonneg

/-! ## The bounds of the intervals -/

section

variable {ppf : ℝ → EReal} {size : ℕ} {alpha s : ℝ}

theorem addaNode_zero (hp : IsPpf ppf) (hs : 0 < s) : addaNode ppf size alpha s 0 = ⊥ := by
  unfold addaNode
  rw [Nat.cast_zero, zero_div, hp.1, EReal.coe_mul_bot_of_pos hs, EReal.bot_add]

theorem addaNode_size (hp : IsPpf ppf) (hs : 0 < s) (hz : 0 < size) :
    addaNode ppf size alpha s size = ⊤ := by
  unfold addaNode
  rw [div_self (by positivity), hp.2.1, EReal.coe_mul_top_of_pos hs, EReal.top_add_coe]

/-- The bounds are the quantiles of the stationary distribution. -/
theorem normalLaw_addaNode (hp : IsPpf ppf) (hs : 0 < s) (hz : 0 < size) {k : ℕ} (hk : k ≤ size) :
    (normalLaw alpha s).real (upTo (addaNode ppf size alpha s k)) = (k : ℝ) / size := by
  have hz' : (0 : ℝ) < size := by positivity
  rcases Nat.eq_zero_or_pos k with rfl | hk0
  · rw [addaNode_zero hp hs, upTo_bot]; simp
  · rcases hk.eq_or_lt with rfl | hk1
    · rw [addaNode_size hp hs hz, upTo_top, div_self hz'.ne']; simp
    · obtain ⟨q, hq, hc⟩ := hp.2.2 ((k : ℝ) / size) (by positivity)
        ((div_lt_one hz').2 (by exact_mod_cast hk1))
      unfold addaNode
      rw [hq, ← EReal.coe_mul, ← EReal.coe_add, upTo_coe, normalLaw_Iic hs, add_sub_cancel_right,
        mul_div_cancel_left₀ _ hs.ne', hc]

theorem addaNode_mono (hp : IsPpf ppf) (hs : 0 < s) (hz : 0 < size) {k : ℕ} (hk : k < size) :
    addaNode ppf size alpha s k ≤ addaNode ppf size alpha s (k + 1) := by
  by_contra h
  have h1 := measureReal_mono (μ := normalLaw alpha s) (upTo_mono (not_le.1 h).le)
  rw [normalLaw_addaNode hp hs hz hk, normalLaw_addaNode hp hs hz hk.le] at h1
  have hz' : (0 : ℝ) < size := by positivity
  have := (div_le_div_iff_of_pos_right hz').1 h1
  push_cast at this
  linarith

end


/-! ## The matrix -/

theorem addaMatrix_eq {ppf : ℝ → EReal} (hp : IsPpf ppf) {size : ℕ} {alpha sigma rho : ℝ}
    (hs : 0 < sigma) (hr : 0 < 1 - rho ^ 2) (i j : Fin size) :
    addaMatrix ppf size alpha sigma rho (autoDeviation sigma rho) i j =
      size * autoMoves alpha sigma rho
        (interval (addaNode ppf size alpha (autoDeviation sigma rho) i)
          (addaNode ppf size alpha (autoDeviation sigma rho) (i + 1)))
        (interval (addaNode ppf size alpha (autoDeviation sigma rho) j)
          (addaNode ppf size alpha (autoDeviation sigma rho) (j + 1))) := by
  have hd : 0 < autoDeviation sigma rho := div_pos hs (Real.sqrt_pos.2 hr)
  rw [← quad_eq hs hr (addaNode_mono hp hd (Nat.zero_lt_of_lt j.isLt) j.isLt)]
  unfold addaMatrix
  ring

section

variable {ppf : ℝ → EReal} {size : ℕ} {alpha sigma rho : ℝ}

theorem addaMatrix_row (hp : IsPpf ppf) (hs : 0 < sigma) (hr : 0 < 1 - rho ^ 2) (i : Fin size) :
    ∑ j, addaMatrix ppf size alpha sigma rho (autoDeviation sigma rho) i j = 1 := by
  have hz : 0 < size := Nat.zero_lt_of_lt i.isLt
  have hz' : (0 : ℝ) < size := by positivity
  have hd : 0 < autoDeviation sigma rho := div_pos hs (Real.sqrt_pos.2 hr)
  obtain ⟨z, hzd⟩ : ∃ z, z = addaNode ppf size alpha (autoDeviation sigma rho) := ⟨_, rfl⟩
  obtain ⟨I, hI⟩ : ∃ I, I = interval (z i) (z (i + 1)) := ⟨_, rfl⟩
  have hIm : MeasurableSet I := hI ▸ measurableSet_interval _ _
  have h1 : ∀ j : Fin size, addaMatrix ppf size alpha sigma rho (autoDeviation sigma rho) i j =
      size * (autoMoves alpha sigma rho I (upTo (z (j + 1))) -
        autoMoves alpha sigma rho I (upTo (z j))) := by
    intro j
    rw [addaMatrix_eq hp hs hr, ← hzd, ← hI, autoMoves_to _ _ _ _ _ hIm]
    rw [hzd]
    exact addaNode_mono hp hd hz j.isLt
  rw [Finset.sum_congr rfl fun j _ => h1 j, ← Finset.mul_sum,
    Fin.sum_univ_eq_sum_range (fun j => autoMoves alpha sigma rho I (upTo (z (j + 1))) -
      autoMoves alpha sigma rho I (upTo (z j))), Finset.sum_range_sub (fun j => autoMoves alpha sigma rho I (upTo (z j)))]
  rw [hzd, addaNode_zero hp hd, addaNode_size hp hd hz, upTo_top, upTo_bot, autoMoves_univ,
    autoMoves_empty_right, hI, hzd, interval_eq, measureReal_sdiff
      (upTo_mono (addaNode_mono hp hd hz i.isLt)) (measurableSet_upTo _),
    normalLaw_addaNode hp hd hz i.isLt, normalLaw_addaNode hp hd hz i.isLt.le]
  push_cast
  field_simp
  ring

theorem addaMatrix_column (hp : IsPpf ppf) (hs : 0 < sigma) (hr : 0 < 1 - rho ^ 2) (j : Fin size) :
    ∑ i, addaMatrix ppf size alpha sigma rho (autoDeviation sigma rho) i j = 1 := by
  have hz : 0 < size := Nat.zero_lt_of_lt j.isLt
  have hz' : (0 : ℝ) < size := by positivity
  have hd : 0 < autoDeviation sigma rho := div_pos hs (Real.sqrt_pos.2 hr)
  obtain ⟨z, hzd⟩ : ∃ z, z = addaNode ppf size alpha (autoDeviation sigma rho) := ⟨_, rfl⟩
  obtain ⟨I, hI⟩ : ∃ I, I = interval (z j) (z (j + 1)) := ⟨_, rfl⟩
  have hIm : MeasurableSet I := hI ▸ measurableSet_interval _ _
  have h1 : ∀ i : Fin size, addaMatrix ppf size alpha sigma rho (autoDeviation sigma rho) i j =
      size * (autoMoves alpha sigma rho (upTo (z (i + 1))) I -
        autoMoves alpha sigma rho (upTo (z i)) I) := by
    intro i
    rw [addaMatrix_eq hp hs hr, ← hzd, ← hI, autoMoves_from _ _ _ _ _ hIm]
    rw [hzd]
    exact addaNode_mono hp hd hz i.isLt
  rw [Finset.sum_congr rfl fun i _ => h1 i, ← Finset.mul_sum,
    Fin.sum_univ_eq_sum_range (fun i => autoMoves alpha sigma rho (upTo (z (i + 1))) I -
      autoMoves alpha sigma rho (upTo (z i)) I), Finset.sum_range_sub (fun i => autoMoves alpha sigma rho (upTo (z i)) I)]
  rw [hzd, addaNode_zero hp hd, addaNode_size hp hd hz, upTo_top, upTo_bot, autoMoves_into hr _ hIm,
    autoMoves_empty_left, hI, hzd, interval_eq, measureReal_sdiff
      (upTo_mono (addaNode_mono hp hd hz j.isLt)) (measurableSet_upTo _),
    normalLaw_addaNode hp hd hz j.isLt, normalLaw_addaNode hp hd hz j.isLt.le]
  push_cast
  field_simp
  ring

end

/-- All moves between intervals that are not empty are possible. -/
theorem autoMoves_pos {alpha sigma rho : ℝ} (hs : 0 < sigma) (hd : 0 < autoDeviation sigma rho)
    {a b c d : EReal} (hab : a < b) (hcd : c < d) :
    0 < autoMoves alpha sigma rho (interval a b) (interval c d) := by
  have hop : ∀ (m : ℝ) {s : ℝ}, 0 < s → (normalLaw m s).IsOpenPosMeasure := by
    intro m s hs
    unfold normalLaw
    refine (gaussianReal_absolutelyContinuous' m ?_).isOpenPosMeasure
    intro h
    have := congrArg NNReal.toReal h
    exact (pow_pos hs 2).ne' this
  have := hop alpha hd
  have := hop 0 hs
  have : IsProbabilityMeasure (autoLaw alpha sigma rho) := by unfold autoLaw; infer_instance
  obtain ⟨x, hx1, hx2⟩ := EReal.lt_iff_exists_real_btwn.1 hab
  obtain ⟨y, hy1, hy2⟩ := EReal.lt_iff_exists_real_btwn.1 hcd
  have hc : Continuous (autoStep alpha rho) := by unfold autoStep; fun_prop
  have ho : IsOpen ((fun w : ℝ × ℝ => (w.1 : EReal)) ⁻¹' Set.Ioo a b ∩
      (fun w => (autoStep alpha rho w : EReal)) ⁻¹' Set.Ioo c d) :=
    (isOpen_Ioo.preimage (continuous_coe_real_ereal.comp continuous_fst)).inter
      (isOpen_Ioo.preimage (continuous_coe_real_ereal.comp hc))
  have hne : ((fun w : ℝ × ℝ => (w.1 : EReal)) ⁻¹' Set.Ioo a b ∩
      (fun w => (autoStep alpha rho w : EReal)) ⁻¹' Set.Ioo c d).Nonempty := by
    refine ⟨(x, y - (1 - rho) * alpha - rho * x), ⟨hx1, hx2⟩, ?_⟩
    have : autoStep alpha rho (x, y - (1 - rho) * alpha - rho * x) = y := by
      unfold autoStep; ring
    simp only [Set.mem_preimage, this]
    exact ⟨hy1, hy2⟩
  have hpos : 0 < autoLaw alpha sigma rho ((fun w : ℝ × ℝ => (w.1 : EReal)) ⁻¹' Set.Ioo a b ∩
      (fun w => (autoStep alpha rho w : EReal)) ⁻¹' Set.Ioo c d) := by
    unfold autoLaw
    exact ho.measure_pos _ hne
  unfold autoMoves
  refine (ENNReal.toReal_pos hpos.ne' (measure_ne_top _ _)).trans_le ?_
  refine measureReal_mono fun w hw => ⟨⟨hw.1.1, hw.1.2.le⟩, ⟨hw.2.1, hw.2.2.le⟩⟩

/-- C105. For every size, mean, deviation and correlation for which a chain is returned, the result is
a valid chain. The real line is cut into `c.n` intervals with equal probabilities under the stationary
distribution of the process, and the entry `(i, j)` is the conditional probability that the stationary
process, being in the interval `i`, is in the interval `j` after one step; it is positive. The columns
sum to one too, so that all states are equally likely in the long run. -/
theorem C105_adda_cooper_partial {ppf : ℝ → EReal} (hp : IsPpf ppf)
    {size alpha sigma rho states : PyVal ℝ} {c : MC ℝ}
    (h : approximationAddaCooper ppf size alpha sigma rho states = .ok c) :
    c.Valid ∧ size = .int c.n ∧ ∃ (a s r : ℝ) (cut : ℕ → EReal), alpha = .float (.fin a) ∧
      sigma = .float (.fin s) ∧ rho = .float (.fin r) ∧ 0 < s ∧ -1 < r ∧ r < 1 ∧
      cut 0 = ⊥ ∧ cut c.n = ⊤ ∧
      (∀ k, k < c.n → cut k ≤ cut (k + 1) ∧ (normalLaw a (autoDeviation s r)).real
        (interval (cut k) (cut (k + 1))) = 1 / c.n) ∧
      (∀ i j : Fin c.n, c.p i j = autoMoves a s r (interval (cut i) (cut (i + 1)))
          (interval (cut j) (cut (j + 1))) /
        (normalLaw a (autoDeviation s r)).real (interval (cut i) (cut (i + 1)))) ∧
      (∀ i j, 0 < c.p i j) ∧ ∀ j, ∑ i, c.p i j = 1 := by
  unfold approximationAddaCooper at h
  rw [R.bind_ok] at h
  obtain ⟨z, hz, h⟩ := h
  obtain ⟨rfl, hz⟩ := validateInteger_ge hz
  rw [R.bind_ok] at h
  obtain ⟨a, ha, h⟩ := h
  rw [C03_float_limits] at ha
  rw [R.bind_ok] at h
  obtain ⟨s, hs, h⟩ := h
  rw [C03_float_limits] at hs
  have hs0 : 0 < s := hs.2.1 0 rfl
  rw [R.bind_ok] at h
  obtain ⟨r, hr, h⟩ := h
  obtain ⟨rfl, hr1, hr2⟩ := validateFloat_closed hr
  rw [R.bind_ok] at h
  obtain ⟨l, hl, h⟩ := h
  rw [R.ite_throw] at h
  obtain ⟨hne, h⟩ := h
  rw [R.pure_ok] at h
  subst h
  have hz2 : 2 ≤ z.toNat := by omega
  have hz0 : 0 < z.toNat := by omega
  have hz' : (0 : ℝ) < z.toNat := by exact_mod_cast hz0
  have hr0 : 0 < 1 - r ^ 2 := lt_of_le_of_ne (by nlinarith) (Ne.symm hne)
  have hd : 0 < autoDeviation s r := div_pos hs0 (Real.sqrt_pos.2 hr0)
  have hbin : ∀ k, k < z.toNat → (normalLaw a (autoDeviation s r)).real
      (interval (addaNode ppf z.toNat a (autoDeviation s r) k)
        (addaNode ppf z.toNat a (autoDeviation s r) (k + 1))) = 1 / z.toNat := by
    intro k hk
    rw [interval_eq, measureReal_sdiff (upTo_mono (addaNode_mono hp hd hz0 hk))
      (measurableSet_upTo _), normalLaw_addaNode hp hd hz0 hk, normalLaw_addaNode hp hd hz0 hk.le]
    push_cast
    ring
  have hlt : ∀ k, k < z.toNat → addaNode ppf z.toNat a (autoDeviation s r) k <
      addaNode ppf z.toNat a (autoDeviation s r) (k + 1) := by
    intro k hk
    refine lt_of_le_of_ne (addaNode_mono hp hd hz0 hk) fun he => ?_
    have := hbin k hk
    rw [he] at this
    unfold interval at this
    rw [Set.Ioc_self, Set.preimage_empty, measureReal_empty] at this
    exact (one_div_pos.2 hz').ne this
  refine ⟨⟨hz2, ⟨fun i j => ?_, fun i => addaMatrix_row hp hs0 hr0 i⟩, labelsOrDefault_sound hl⟩,
    by simp; omega, a, s, r, addaNode ppf z.toNat a (autoDeviation s r), ha.1, hs.1, rfl, hs0, ?_, ?_,
    addaNode_zero hp hd, addaNode_size hp hd hz0, fun k hk => ⟨addaNode_mono hp hd hz0 hk, hbin k hk⟩,
    fun i j => ?_, fun i j => ?_, fun j => addaMatrix_column hp hs0 hr0 j⟩
  · refine le_of_le_of_eq ?_ (addaMatrix_eq hp hs0 hr0 i j).symm
    exact mul_nonneg hz'.le (autoMoves_nonneg _ _ _ _ _)
  · nlinarith
  · nlinarith
  · refine (addaMatrix_eq hp hs0 hr0 i j).trans ?_
    rw [hbin i i.isLt]
    field_simp
  · refine lt_of_lt_of_eq ?_ (addaMatrix_eq hp hs0 hr0 i j).symm
    refine mul_pos hz' (autoMoves_pos hs0 hd ?_ ?_)
    · exact hlt i i.isLt
    · exact hlt j j.isLt

/-! ## Calls that return -/

theorem continuous_normCdf : Continuous normCdf := by
  have h : normCdf = fun x => cdf (gaussianReal 0 1) x := by
    funext x; exact (cdf_eq_real _ x).symm
  rw [h]
  refine continuous_iff_continuousAt.2 fun a => ?_
  rw [(monotone_cdf (gaussianReal 0 1)).continuousAt_iff_leftLim_eq_rightLim,
    (cdf (gaussianReal 0 1)).rightLim_eq]
  refine le_antisymm ((monotone_cdf _).leftLim_le le_rfl) ?_
  have h1 := (cdf (gaussianReal 0 1)).measure_singleton a
  have := nullSingletonClass_gaussianReal (μ := 0) (v := 1) one_ne_zero
  rw [measure_cdf, measure_singleton, eq_comm, ENNReal.ofReal_eq_zero] at h1
  linarith

/-- Every probability strictly between zero and one has a quantile. -/
theorem normCdf_surjective {u : ℝ} (h0 : 0 < u) (h1 : u < 1) : ∃ q, normCdf q = u := by
  have h : ∀ x, normCdf x = cdf (gaussianReal 0 1) x := fun x => (cdf_eq_real _ x).symm
  obtain ⟨a, ha⟩ := ((tendsto_cdf_atBot (gaussianReal 0 1)).eventually (gt_mem_nhds h0)).exists
  obtain ⟨b, hb⟩ := ((tendsto_cdf_atTop (gaussianReal 0 1)).eventually (lt_mem_nhds h1)).exists
  exact mem_range_of_exists_le_of_exists_ge continuous_normCdf ⟨a, ((h a).trans_lt ha).le⟩
    ⟨b, (hb.trans_eq (h b).symm).le⟩

open Classical in
/-- There is a function `ppf` with the required properties. -/
theorem exists_ppf : ∃ ppf, IsPpf ppf := by
  refine ⟨fun u => if h : 0 < u ∧ u < 1 then ((normCdf_surjective h.1 h.2).choose : ℝ)
    else if u = 0 then ⊥ else ⊤, ?_, ?_, fun u h0 h1 => ?_⟩
  · simp
  · simp
  · refine ⟨(normCdf_surjective h0 h1).choose, ?_, (normCdf_surjective h0 h1).choose_spec⟩
    exact dif_pos (show 0 < u ∧ u < 1 from ⟨h0, h1⟩)

/-- C105, calls are accepted: every size from two, every mean, every positive deviation, and every
correlation strictly between `-1` and `1`. -/
theorem C105_accepts (ppf : ℝ → EReal) (n : ℕ) (hn : 2 ≤ n) (a : ℝ) {s r : ℝ} (hs : 0 < s)
    (hr : -1 < r) (hr' : r < 1) : ∃ c, approximationAddaCooper ppf (.int n) (.float (.fin a))
      (.float (.fin s)) (.float (.fin r)) .none = .ok c := by
  unfold approximationAddaCooper
  rw [validateInteger_of_ge (by exact_mod_cast hn), R.ok_bind,
    show validateFloat (.float (.fin a)) none none = .ok a by
      rw [C03_float_limits]; simp [WithinLimits], R.ok_bind,
    show validateFloat (.float (.fin s)) (some (0, true)) none = .ok s by
      rw [C03_float_limits]; simp [WithinLimits, hs], R.ok_bind,
    validateFloat_of_closed hr.le hr'.le, R.ok_bind]
  erw [R.ok_bind]
  rw [if_neg (by nlinarith)]
  exact ⟨_, rfl⟩

/-- C105, disagreement. The correlations `1` and `-1` pass the validation, and then the division by zero
raises. -/
theorem C105_unit_root_raises (ppf : ℝ → EReal) {size alpha sigma states : PyVal ℝ} {r : ℝ}
    (h : r = 1 ∨ r = -1) (c : MC ℝ) :
    validateFloat (.float (.fin r)) (some (-1, false)) (some (1, false)) = .ok r ∧
      approximationAddaCooper ppf size alpha sigma (.float (.fin r)) states ≠ .ok c := by
  refine ⟨by rcases h with rfl | rfl <;> exact validateFloat_of_closed (by norm_num) (by norm_num),
    fun hc => ?_⟩
  unfold approximationAddaCooper at hc
  obtain ⟨_, -, hc⟩ := (R.bind_ok _ _ _).1 hc
  obtain ⟨_, -, hc⟩ := (R.bind_ok _ _ _).1 hc
  obtain ⟨_, -, hc⟩ := (R.bind_ok _ _ _).1 hc
  obtain ⟨r', hr, hc⟩ := (R.bind_ok _ _ _).1 hc
  obtain ⟨_, -, hc⟩ := (R.bind_ok _ _ _).1 hc
  rw [R.ite_throw] at hc
  refine hc.1 ?_
  have := (validateFloat_closed hr).1
  injection this with this
  injection this with this
  subst this
  rcases h with rfl | rfl <;> norm_num

end Verif
