import Verif.Model.RoundedGenerators
import Verif.Props.RoundedBirth
import Verif.Props.Urn
import Verif.Props.Generators

/-!
# Generators of chains with rounding

C183: the chains of `gamblers_ruin`, `urn_model` and `to_bounded_chain` that are computed with rounding are
accepted by the validation of transition matrices, and their probabilities are those without rounding up to a
few units.
-/

namespace Verif

open Finset

variable {K : Type} [Field K] [LinearOrder K] [IsStrictOrderedRing K] {u : K} {fl sq : K → K}

/-- The contract of squares: a small relative error, and no results above one. -/
structure IsSquaring (sq : K → K) (u : K) : Prop where
  near : ∀ x, 0 ≤ x → x ≤ 1 → |sq x - x ^ 2| ≤ u * x ^ 2
  le_one : ∀ x, 0 ≤ x → x ≤ 1 → sq x ≤ 1

/-- The rounded product satisfies it. -/
theorem IsRounding.squaring (h : IsRounding fl u) : IsSquaring (fun x => fl (x * x)) u := by
  refine ⟨fun x h0 h1 => ?_, fun x h0 h1 => ?_⟩
  · have e := h.near (x * x)
    rw [abs_of_nonneg (mul_nonneg h0 h0)] at e
    rwa [pow_two]
  · have e := h.mono (x * x) 1 (mul_nonneg h0 h0) (by nlinarith)
    rwa [h.one] at e

/-- `1.0 - x` for a number between zero and one. -/
theorem complement_near (h : IsRounding fl u) {x : K} (h0 : 0 ≤ x) (h1 : x ≤ 1) :
    0 ≤ fl (1 - x) ∧ fl (1 - x) ≤ 1 ∧ |fl (1 - x) - (1 - x)| ≤ u := by
  refine ⟨h.nonneg (by linarith), ?_, ?_⟩
  · have := h.mono (1 - x) 1 (by linarith) (by linarith)
    rwa [h.one] at this
  · refine (h.near _).trans ?_
    rw [abs_of_nonneg (by linarith : 0 ≤ 1 - x)]
    nlinarith [h.unit_nonneg]

/-- A matrix near a stochastic one, with transitions between neighbours only, is accepted. -/
theorem accepted_of_near {n : ℕ} (hn : 2 ≤ n) {M' M : Matrix (Fin n) (Fin n) K} (hM : IsStochastic M) {B : K}
    (hB0 : 0 ≤ B) (hB : B ≤ 1 / 10 ^ 7) (h01 : ∀ i j, 0 ≤ M' i j ∧ M' i j ≤ 1)
    (hd : ∀ i j, |M' i j - M i j| ≤ B)
    (hz : ∀ i j : Fin n, (j : ℕ) ≠ i → (j : ℕ) ≠ i + 1 → (j : ℕ) + 1 ≠ i → M' i j = M i j) :
    AcceptedMatrix M' := by
  refine ⟨hn, h01, fun i => ?_⟩
  have e := three_terms i (fun j => M' i j - M i j) hB0 (hd i)
    (fun j n1 n2 n3 => by rw [hz i j n1 n2 n3, sub_self])
  rw [sum_sub_distrib, hM.2 i] at e
  refine e.trans ?_
  norm_num at hB ⊢
  linarith

/-- C183, gambler's ruin. The rounded program accepts what the exact one accepts. The probabilities of losses
are off by at most one unit, the others are exact. -/
theorem C183_gamblers_ruin (h : IsRounding fl u) (hu : u ≤ 1 / 10 ^ 9) (size w states : PyVal K) :
    (∀ e, gamblersRuinF fl size w states = .error e ↔ gamblersRuin size w states = .error e) ∧
    ∀ c, gamblersRuinF fl size w states = .ok c → AcceptedMatrix c.p ∧
      ∃ M, gamblersRuin size w states = .ok ⟨c.n, M, c.states⟩ ∧ ∀ i j, |c.p i j - M i j| ≤ u := by
  have hu0 := h.unit_nonneg
  unfold gamblersRuinF gamblersRuin
  rcases h1 : validateInteger size (some (3, false)) none with e | z
  · exact ⟨fun e => Iff.rfl, fun c hc => by cases hc⟩
  rcases h2 : validateFloat w (some (0, true)) (some (1, true)) with e | x
  · exact ⟨fun e => Iff.rfl, fun c hc => by cases hc⟩
  rcases h3 : labelsOrDefault states z.toNat "" with e | l
  · simp only [R.ok_bind, h3]
    exact ⟨fun e => Iff.rfl, fun c hc => by cases hc⟩
  simp only [R.ok_bind, h3]
  refine ⟨fun e => ⟨fun hc => (by cases hc), fun hc => (by cases hc)⟩, ?_⟩
  intro c hc
  rw [R.pure_ok] at hc
  subst hc
  obtain ⟨rfl, hz⟩ := validateInteger_ge h1
  obtain ⟨rfl, hx0, hx1⟩ := validateFloat_open h2
  have hn : 3 ≤ z.toNat := by omega
  obtain ⟨c0, c1, c2⟩ := complement_near h hx0.le hx1.le
  have hd : ∀ i j, |gamblersRuinMatrixF fl z.toNat x i j - gamblersRuinMatrix z.toNat x i j| ≤ u := by
    intro i j
    unfold gamblersRuinMatrixF gamblersRuinMatrix
    split_ifs <;> first | exact c2 | (rw [sub_self, abs_zero]; exact hu0)
  refine ⟨?_, _, rfl, hd⟩
  refine accepted_of_near (n := z.toNat) (by omega) (gamblersRuin_stochastic hn hx0.le hx1.le) hu0
    (hu.trans (by norm_num)) ?_ hd ?_
  · intro i j
    change 0 ≤ gamblersRuinMatrixF fl z.toNat x i j ∧ gamblersRuinMatrixF fl z.toNat x i j ≤ 1
    unfold gamblersRuinMatrixF
    split_ifs <;> constructor <;> first | assumption | linarith
  · intro i j n1 n2 n3
    change gamblersRuinMatrixF fl z.toNat x i j = _
    unfold gamblersRuinMatrixF gamblersRuinMatrix
    split_ifs <;> first | rfl | omega

/-- The shares and their complements. -/
theorem urnShareF_near (h : IsRounding fl u) {n i : ℕ} (hi : i ≤ 2 * n) :
    0 ≤ (i : K) / ((2 * n : ℕ) : K) ∧ (i : K) / ((2 * n : ℕ) : K) ≤ 1 ∧
    0 ≤ urnShareF fl n i ∧ urnShareF fl n i ≤ 1 ∧ |urnShareF fl n i - (i : K) / ((2 * n : ℕ) : K)| ≤ u := by
  have t0 : 0 ≤ (i : K) / ((2 * n : ℕ) : K) := by positivity
  have t1 : (i : K) / ((2 * n : ℕ) : K) ≤ 1 := div_le_one_of_le₀ (by exact_mod_cast hi) (Nat.cast_nonneg _)
  refine ⟨t0, t1, h.nonneg t0, ?_, ?_⟩
  · have := h.mono _ 1 t0 t1
    rwa [h.one] at this
  · refine (h.near _).trans ?_
    rw [abs_of_nonneg t0]
    nlinarith [h.unit_nonneg]

/-- The entries of the urn models. -/
theorem urn_entries (h : IsRounding fl u) (hsq : IsSquaring sq u) (hu : u ≤ 1 / 10 ^ 9) {n i : ℕ}
    (hi : i ≤ 2 * n) {t x y : K} (ht : t = (i : K) / ((2 * n : ℕ) : K)) (hx : x = urnShareF fl n i)
    (hy : y = fl (1 - x)) :
    (0 ≤ x ∧ x ≤ 1 ∧ |x - t| ≤ u) ∧ (0 ≤ y ∧ y ≤ 1 ∧ |y - (1 - t)| ≤ 2 * u) ∧
    (0 ≤ sq x ∧ sq x ≤ 1 ∧ |sq x - t ^ 2| ≤ 11 * u) ∧ (0 ≤ sq y ∧ sq y ≤ 1 ∧ |sq y - (1 - t) ^ 2| ≤ 11 * u) ∧
    (0 ≤ fl (fl (2 * x) * y) ∧ fl (fl (2 * x) * y) ≤ 1 ∧ |fl (fl (2 * x) * y) - 2 * t * (1 - t)| ≤ 11 * u) := by
  have hu0 := h.unit_nonneg
  have hu1 : u ≤ 1 / 100 := hu.trans (by norm_num)
  obtain ⟨t0, t1, x0, x1, ex⟩ := urnShareF_near h hi
  rw [← ht] at t0 t1 ex
  rw [← hx] at x0 x1 ex
  obtain ⟨y0, y1, ey⟩ := complement_near h x0 x1
  rw [← hy] at y0 y1 ey
  have ey2 : |y - (1 - t)| ≤ 2 * u := by
    rw [abs_le] at ex ey ⊢
    constructor <;> linarith
  have hsq0 : ∀ z, 0 ≤ z → z ≤ 1 → 0 ≤ sq z := by
    intro z z0 z1
    have e := abs_le.1 (hsq.near z z0 z1)
    nlinarith [sq_nonneg z]
  have hsqd : ∀ z s, 0 ≤ z → z ≤ 1 → 0 ≤ s → s ≤ 1 → |z - s| ≤ 2 * u → |sq z - s ^ 2| ≤ 11 * u := by
    intro z s z0 z1 s0 s1 hd
    have e1 : |sq z - z ^ 2| ≤ u := (hsq.near z z0 z1).trans (mul_le_of_le_one_right hu0 (pow_le_one₀ z0 z1))
    have e2 : |z ^ 2 - s ^ 2| ≤ 4 * u := by
      have : z ^ 2 - s ^ 2 = (z - s) * (z + s) := by ring
      rw [this, abs_mul, abs_of_nonneg (by linarith : 0 ≤ z + s)]
      nlinarith [abs_nonneg (z - s)]
    rw [abs_le] at e1 e2 ⊢
    constructor <;> linarith
  refine ⟨⟨x0, x1, ex⟩, ⟨y0, y1, ey2⟩, ⟨hsq0 x x0 x1, hsq.le_one x x0 x1,
    hsqd x t x0 x1 t0 t1 (ex.trans (by linarith))⟩, ⟨hsq0 y y0 y1, hsq.le_one y y0 y1,
    hsqd y (1 - t) y0 y1 (by linarith) (by linarith) ey2⟩, ?_⟩
  have a0 : 0 ≤ fl (2 * x) := h.nonneg (by linarith)
  have ea : |fl (2 * x) - 2 * x| ≤ 2 * u := by
    refine (h.near _).trans ?_
    rw [abs_of_nonneg (by linarith : 0 ≤ 2 * x)]
    nlinarith
  generalize fl (2 * x) = a at a0 ea ⊢
  have ha : a ≤ 3 := by
    have := abs_le.1 ea
    linarith
  have eb : |fl (a * y) - a * y| ≤ 3 * u := by
    refine (h.near _).trans ?_
    rw [abs_of_nonneg (mul_nonneg a0 y0)]
    have : a * y ≤ 3 := by nlinarith
    nlinarith
  have e1 : |a * y - 2 * x * y| ≤ 2 * u := by
    rw [← sub_mul, abs_mul, abs_of_nonneg y0]
    nlinarith [abs_nonneg (a - 2 * x)]
  have e2 : |2 * x * y - 2 * t * y| ≤ 2 * u := by
    have : 2 * x * y - 2 * t * y = (x - t) * (2 * y) := by ring
    rw [this, abs_mul, abs_of_nonneg (by linarith : 0 ≤ 2 * y)]
    nlinarith [abs_nonneg (x - t)]
  have e3 : |2 * t * y - 2 * t * (1 - t)| ≤ 4 * u := by
    rw [← mul_sub, abs_mul, abs_of_nonneg (by linarith : 0 ≤ 2 * t)]
    nlinarith [abs_nonneg (y - (1 - t))]
  have etot : |fl (a * y) - 2 * t * (1 - t)| ≤ 11 * u := by
    rw [abs_le] at eb e1 e2 e3 ⊢
    constructor <;> linarith
  refine ⟨h.nonneg (mul_nonneg a0 y0), ?_, etot⟩
  have := (abs_le.1 etot).2
  nlinarith [sq_nonneg (2 * t - 1)]

/-- C183, urn models. The rounded program accepts what the exact one accepts. All probabilities are off by at
most eleven units. -/
theorem C183_urn_model (h : IsRounding fl u) (hsq : IsSquaring sq u) (hu : u ≤ 1 / 10 ^ 9)
    (model n states : PyVal K) :
    (∀ e, urnModelF fl sq model n states = .error e ↔ urnModel model n states = .error e) ∧
    ∀ c, urnModelF fl sq model n states = .ok c → AcceptedMatrix c.p ∧
      ∃ M, urnModel model n states = .ok ⟨c.n, M, c.states⟩ ∧ ∀ i j, |c.p i j - M i j| ≤ 11 * u := by
  have hu0 := h.unit_nonneg
  have hB : 11 * u ≤ 1 / 10 ^ 7 := by
    norm_num at hu ⊢
    linarith
  unfold urnModelF urnModel
  rcases h1 : validateEnumerator model ["bernoulli-laplace", "ehrenfest"] with e | m
  · exact ⟨fun e => Iff.rfl, fun c hc => by cases hc⟩
  rcases h2 : validateInteger n (some (1, false)) none with e | z
  · exact ⟨fun e => Iff.rfl, fun c hc => by cases hc⟩
  rcases h3 : labelsOrDefault states (2 * z.toNat + 1) "" with e | l
  · simp only [R.ok_bind, h3]
    exact ⟨fun e => Iff.rfl, fun c hc => by cases hc⟩
  simp only [R.ok_bind, h3]
  refine ⟨fun e => ⟨fun hc => (by cases hc), fun hc => (by cases hc)⟩, ?_⟩
  intro c hc
  rw [R.pure_ok] at hc
  subst hc
  obtain ⟨rfl, hz⟩ := validateInteger_ge h2
  obtain ⟨k, hk⟩ : ∃ k, k = z.toNat := ⟨_, rfl⟩
  rw [← hk]
  have hk1 : 1 ≤ k := by omega
  have key := fun i : Fin (2 * k + 1) => urn_entries (sq := sq) h hsq hu (n := k) (i := i)
    (by have := i.isLt; omega) rfl rfl rfl
  by_cases hm : m = "bernoulli-laplace"
  · simp only [if_pos hm]
    have hd : ∀ i j, |bernoulliLaplaceMatrixF fl sq k i j - bernoulliLaplaceMatrix k i j| ≤ 11 * u := by
      intro i j
      obtain ⟨-, -, k3, k4, k5⟩ := key i
      unfold bernoulliLaplaceMatrixF bernoulliLaplaceMatrix
      simp only
      split_ifs <;> first | exact k3.2.2 | exact k4.2.2 | exact k5.2.2 | (rw [sub_self, abs_zero]; linarith)
    refine ⟨accepted_of_near (by omega) (bernoulliLaplace_stochastic hk1) (by linarith) hB ?_ hd ?_, _, rfl, hd⟩
    · intro i j
      obtain ⟨-, -, k3, k4, k5⟩ := key i
      unfold bernoulliLaplaceMatrixF
      simp only
      split_ifs <;> first
        | exact ⟨k3.1, k3.2.1⟩ | exact ⟨k4.1, k4.2.1⟩ | exact ⟨k5.1, k5.2.1⟩
        | exact ⟨zero_le_one, le_rfl⟩ | exact ⟨le_rfl, zero_le_one⟩
    · intro i j n1 n2 n3
      unfold bernoulliLaplaceMatrixF bernoulliLaplaceMatrix
      simp only
      split_ifs <;> first | rfl | omega
  · simp only [if_neg hm]
    have hd : ∀ i j, |ehrenfestMatrixF fl k i j - ehrenfestMatrix k i j| ≤ 11 * u := by
      intro i j
      obtain ⟨k1, k2, -⟩ := key i
      unfold ehrenfestMatrixF ehrenfestMatrix
      simp only
      split_ifs <;> first
        | exact k1.2.2.trans (by linarith) | exact k2.2.2.trans (by linarith) | (rw [sub_self, abs_zero]; linarith)
    refine ⟨accepted_of_near (by omega) (ehrenfest_stochastic hk1) (by linarith) hB ?_ hd ?_, _, rfl, hd⟩
    · intro i j
      obtain ⟨k1, k2, -⟩ := key i
      unfold ehrenfestMatrixF
      simp only
      split_ifs <;> first
        | exact ⟨k1.1, k1.2.1⟩ | exact ⟨k2.1, k2.2.1⟩
        | exact ⟨zero_le_one, le_rfl⟩ | exact ⟨le_rfl, zero_le_one⟩
    · intro i j n1 n2 n3
      unfold ehrenfestMatrixF ehrenfestMatrix
      simp only
      split_ifs <;> first | rfl | omega

/-- C183, bounded chains. The rounded program accepts what the exact one accepts. Bounding an accepted chain
gives an accepted chain; the probabilities are off by at most one unit. -/
theorem C183_bounded (h : IsRounding fl u) (hu : u ≤ 1 / 10 ^ 9) {c : MC K} (hc : AcceptedMatrix c.p)
    (cond : PyVal K) :
    (∀ e, toBoundedF fl c cond = .error e ↔ toBounded c cond = .error e) ∧
    (toBoundedF fl c cond = .ok none ↔ toBounded c cond = .ok none) ∧
    ∀ d, toBoundedF fl c cond = .ok (some d) → AcceptedMatrix d.p ∧
      ∃ M, toBounded c cond = .ok (some ⟨d.n, M, d.states⟩) ∧ ∀ i j, |d.p i j - M i j| ≤ u := by
  have hu0 := h.unit_nonneg
  have hn := hc.1
  have acc : ∀ s1 m1 s2 m2 : K, 0 ≤ s1 → s1 ≤ 1 → 0 ≤ m1 → m1 ≤ 1 → 0 ≤ s2 → s2 ≤ 1 → 0 ≤ m2 → m2 ≤ 1 →
      |s1 + m1 - 1| ≤ u → |s2 + m2 - 1| ≤ u → AcceptedMatrix (boundedMatrix c.p s1 m1 s2 m2) := by
    intro s1 m1 s2 m2 a1 a2 a3 a4 a5 a6 a7 a8 e1 e2
    have hB : u ≤ 1 / 10 ^ 8 + 1 / 10 ^ 5 := hu.trans (by norm_num)
    refine ⟨hn, fun i j => ?_, fun i => ?_⟩
    · unfold boundedMatrix
      split_ifs <;> first | exact ⟨by assumption, by assumption⟩ | exact ⟨le_rfl, zero_le_one⟩ | exact hc.2.1 i j
    · unfold boundedMatrix
      by_cases hl : (i : ℕ) = c.n - 1
      · simp only [hl, if_true]
        rw [sum_two (by omega) (by omega) (by omega), add_comm m2]
        exact e2.trans hB
      · by_cases hf : (i : ℕ) = 0
        · have : ¬ (0 = c.n - 1) := by omega
          simp only [hf, this, if_true, if_false]
          rw [sum_two (by omega) (by omega) (by omega), add_comm m1]
          exact e1.trans hB
        · simp only [hl, hf, if_false]
          exact hc.2.2 i
  unfold toBoundedF toBounded
  rcases hb : validateBoundaryCondition cond with e | b
  · exact ⟨fun e => Iff.rfl, Iff.rfl, fun d hd => by cases hd⟩
  simp only [R.ok_bind]
  match b, hb with
  | .number (.fin x), hb =>
    refine ⟨fun e => ⟨fun hc => (by cases hc), fun hc => (by cases hc)⟩, ⟨fun hc => (by cases hc), fun hc => (by cases hc)⟩, ?_⟩
    intro d hd
    simp only [R.pure_ok, Option.some.injEq] at hd
    subst hd
    have hx : 0 ≤ x ∧ x ≤ 1 := by
      unfold validateBoundaryCondition at hb
      split at hb
      · rw [R.ite_throw, R.pure_ok] at hb
        obtain ⟨hlim, hb⟩ := hb
        have hb : cond.toFlt = .fin x := by simpa using hb
        rw [hb] at hlim
        simpa only [Flt.ltC, Flt.gtC, decide_eq_true_eq, not_or, not_lt] using hlim
      · split at hb
        · split_ifs at hb <;> cases hb
        · cases hb
    obtain ⟨c0, c1, c2⟩ := complement_near h hx.1 hx.2
    have e1 : |fl (1 - x) + x - 1| ≤ u := by
      have : fl (1 - x) + x - 1 = fl (1 - x) - (1 - x) := by ring
      rwa [this]
    refine ⟨acc _ _ _ _ c0 c1 hx.1 hx.2 hx.1 hx.2 c0 c1 e1 (by rwa [add_comm x]), _, rfl, ?_⟩
    intro i j
    unfold boundedMatrix
    simp only
    split_ifs <;> first | exact c2 | (rw [sub_self, abs_zero]; exact hu0)
  | .number .nan, hb =>
    exact ⟨fun e => Iff.rfl, Iff.rfl, fun d hd => by cases hd⟩
  | .number (.inf s), hb =>
    exact ⟨fun e => Iff.rfl, Iff.rfl, fun d hd => by cases hd⟩
  | .absorbing, hb =>
    refine ⟨fun e => Iff.rfl, Iff.rfl, fun d hd => ?_⟩
    simp only [R.pure_ok, Option.some.injEq] at hd
    subst hd
    refine ⟨acc _ _ _ _ zero_le_one le_rfl le_rfl zero_le_one zero_le_one le_rfl le_rfl zero_le_one
      (by simpa using hu0) (by simpa using hu0), _, rfl, fun i j => ?_⟩
    simp only [sub_self, abs_zero]
    exact hu0
  | .reflecting, hb =>
    refine ⟨fun e => Iff.rfl, Iff.rfl, fun d hd => ?_⟩
    simp only [R.pure_ok, Option.some.injEq] at hd
    subst hd
    refine ⟨acc _ _ _ _ le_rfl zero_le_one zero_le_one le_rfl le_rfl zero_le_one zero_le_one le_rfl
      (by simpa using hu0) (by simpa using hu0), _, rfl, fun i j => ?_⟩
    simp only [sub_self, abs_zero]
    exact hu0

/-! ## Rounding to 53 bits -/

/-- In binary arithmetic with 53 bits the errors of the urn models are below `2 ^ -49`, those of the other two
below `2 ^ -53`. -/
theorem C183_double (size w model n states : PyVal ℚ) :
    (∀ c, gamblersRuinF binary64 size w states = .ok c → AcceptedMatrix c.p ∧
      ∃ M, gamblersRuin size w states = .ok ⟨c.n, M, c.states⟩ ∧ ∀ i j, |c.p i j - M i j| ≤ 1 / 2 ^ 53) ∧
    ∀ c, urnModelF binary64 (fun x => binary64 (x * x)) model n states = .ok c → AcceptedMatrix c.p ∧
      ∃ M, urnModel model n states = .ok ⟨c.n, M, c.states⟩ ∧ ∀ i j, |c.p i j - M i j| ≤ 1 / 2 ^ 49 := by
  have hu : (1 : ℚ) / 2 ^ 53 ≤ 1 / 10 ^ 9 := by norm_num
  refine ⟨(C183_gamblers_ruin binary64_rounding hu size w states).2, fun c hc => ?_⟩
  obtain ⟨h1, M, h2, h3⟩ := (C183_urn_model binary64_rounding binary64_rounding.squaring hu model n states).2 c hc
  exact ⟨h1, M, h2, fun i j => (h3 i j).trans (by norm_num)⟩

/-- The rows of a computed chain need not sum to one: the complement of `2 ^ -55` rounds to one. -/
theorem C183_inexact : ∃ c : MC ℚ, gamblersRuinF binary64 (.int 3) (.float (.fin (1 / 2 ^ 55))) .none = .ok c ∧
    ¬ IsStochastic c.p := by
  have h : ((gamblersRuinF binary64 (.int 3) (.float (.fin (1 / 2 ^ 55))) .none).toOption.map fun c =>
      decide (∀ i, ∑ j, c.p i j = 1)) = some false := by
    decide +kernel
  rcases hr : gamblersRuinF binary64 (.int 3) (.float (.fin (1 / 2 ^ 55))) .none with e | c
  · rw [hr] at h
    cases h
  · rw [hr] at h
    exact ⟨c, rfl, fun hs => of_decide_eq_false (Option.some.inj h) hs.2⟩

/-- The hypotheses are met by the rounding to 53 bits for both urn models. -/
example : ((urnModelF binary64 (fun x => binary64 (x * x)) (.str "bernoulli-laplace") (.int 2)
    .none).toOption.map fun c => c.n) = some 5 := by
  decide +kernel

end Verif
