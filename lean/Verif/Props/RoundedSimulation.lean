import Mathlib.Algebra.Order.Floor.Ring
import Mathlib.Data.Rat.Floor
import Verif.Lemmas.Double
import Verif.Model.RoundedSimulation
import Verif.Props.HiddenSimulation

/-!
# Simulation in double arithmetic (C165)
-/

set_option linter.unusedSectionVars false

namespace Verif

open Finset

/-! ### Doubles -/

/-- Doubles stay as they are. -/
theorem double_idem {x : ℚ} (hx : 0 ≤ x) : double (double x) = double x := by
  rcases lt_or_ge x (1 / 2 ^ 1022) with h | h
  · rcases (double_le_small hx h).lt_or_eq with h1 | h1
    · rw [double_small (double_nonneg hx) h1, double_small hx h, div_mul_cancel₀ _ (by positivity), roundEven_intCast]
    · rw [h1, double_pow (by norm_num)]
  · rw [double_large (double_ge_large h), double_large h, binary64_idem hx]

/-- The error of a double up to two. -/
theorem double_near_two {x : ℚ} (h0 : 0 ≤ x) (h2 : x ≤ 2) : |double x - x| ≤ 1 / 2 ^ 52 := by
  rcases lt_or_ge x (1 / 2 ^ 1022) with h | h
  · have h1 := double_le_small h0 h
    have h3 := double_nonneg h0
    have h4 : (1 : ℚ) / 2 ^ 1022 ≤ 1 / 2 ^ 52 :=
      one_div_le_one_div_of_le (by positivity) (pow_le_pow_right₀ (by norm_num) (by norm_num))
    generalize (1 : ℚ) / 2 ^ 1022 = g at *
    rw [abs_le]
    constructor <;> linarith
  · rw [double_large h]
    have h1 := binary64_near x
    rw [abs_of_nonneg h0] at h1
    refine h1.trans ?_
    have : (1 : ℚ) / 2 ^ 53 * x ≤ 1 / 2 ^ 53 * 2 := mul_le_mul_of_nonneg_left h2 (by positivity)
    refine this.trans (le_of_eq (by norm_num))

/-- What a rounding has to satisfy: zero and one are exact, the order of nonnegative numbers is kept, rounded numbers
stay as they are, and `e` bounds the error of numbers up to two. -/
structure StepRounding {K : Type} [Field K] [LinearOrder K] (fl : K → K) (e : K) : Prop where
  zero : fl 0 = 0
  one : fl 1 = 1
  mono : ∀ x y, 0 ≤ x → x ≤ y → fl x ≤ fl y
  idem : ∀ x, 0 ≤ x → fl (fl x) = fl x
  near : ∀ x, 0 ≤ x → x ≤ 2 → |fl x - x| ≤ e

theorem double_step : StepRounding double (1 / 2 ^ 52) where
  zero := double_zero
  one := by have := double_pow (t := 0) (by norm_num); simpa using this
  mono := fun _ _ hx hxy => double_mono hx hxy
  idem := fun _ hx => double_idem hx
  near := fun _ h0 h2 => double_near_two h0 h2

variable {K : Type} [Field K] [LinearOrder K] [IsStrictOrderedRing K] {n k : ℕ} {fl : K → K} {e : K}

/-- A row of rounded nonnegative numbers, one of them positive. -/
def IsWeightRow (fl : K → K) (w : Fin n → K) : Prop := (∀ j, 0 ≤ w j ∧ fl (w j) = w j) ∧ ∃ j, 0 < w j

theorem rowEntry_fin (w : Fin n → K) (j : Fin n) : rowEntry w j.val = w j := by
  unfold rowEntry
  rw [dif_pos j.isLt]

theorem rowEntry_spec (h : StepRounding fl e) {w : Fin n → K} (hw : IsWeightRow fl w) (j : ℕ) :
    0 ≤ rowEntry w j ∧ fl (rowEntry w j) = rowEntry w j := by
  unfold rowEntry
  split
  · exact hw.1 _
  · exact ⟨le_rfl, h.zero⟩

theorem cumsumF_spec (h : StepRounding fl e) {w : Fin n → K} (hw : IsWeightRow fl w) (j : ℕ) :
    0 ≤ cumsumF (.rounded fl) w j ∧ fl (cumsumF (.rounded fl) w j) = cumsumF (.rounded fl) w j := by
  induction j with
  | zero => exact rowEntry_spec h hw 0
  | succ j ih =>
    change 0 ≤ fl (_ + _) ∧ fl (fl (_ + _)) = fl (_ + _)
    have h0 := add_nonneg ih.1 (rowEntry_spec h hw (j + 1)).1
    refine ⟨?_, h.idem _ h0⟩
    rw [← h.zero]
    exact h.mono _ _ le_rfl h0

theorem cumsumF_step (h : StepRounding fl e) {w : Fin n → K} (hw : IsWeightRow fl w) (j : ℕ) :
    cumsumF (.rounded fl) w j ≤ cumsumF (.rounded fl) w (j + 1) ∧
      rowEntry w (j + 1) ≤ cumsumF (.rounded fl) w (j + 1) ∧
      (rowEntry w (j + 1) = 0 → cumsumF (.rounded fl) w (j + 1) = cumsumF (.rounded fl) w j) := by
  obtain ⟨h0, h1⟩ := cumsumF_spec h hw j
  obtain ⟨h2, h3⟩ := rowEntry_spec h hw (j + 1)
  change _ ≤ fl (_ + _) ∧ _ ≤ fl (_ + _) ∧ (_ → fl (_ + _) = _)
  refine ⟨?_, ?_, fun hz => ?_⟩
  · exact h1.symm.trans_le (h.mono _ _ h0 (le_add_of_nonneg_right h2))
  · exact h3.symm.trans_le (h.mono _ _ h2 (le_add_of_nonneg_left h0))
  · rw [hz, add_zero, h1]

theorem cumsumF_mono (h : StepRounding fl e) {w : Fin n → K} (hw : IsWeightRow fl w) :
    Monotone (cumsumF (.rounded fl) w) := monotone_nat_of_le_succ fun j => (cumsumF_step h hw j).1

theorem cumsumF_total_pos (h : StepRounding fl e) {w : Fin n → K} (hw : IsWeightRow fl w) :
    0 < cumsumF (.rounded fl) w (n - 1) := by
  obtain ⟨j, hj⟩ := hw.2
  refine lt_of_lt_of_le ?_ (cumsumF_mono h hw (show j.val ≤ n - 1 by omega))
  rcases Nat.eq_zero_or_pos j.val with h0 | h0
  · rw [h0]
    change 0 < rowEntry w 0
    rw [← h0, rowEntry_fin]
    exact hj
  · obtain ⟨i, hi⟩ : ∃ i, j.val = i + 1 := ⟨j.val - 1, by omega⟩
    rw [hi]
    refine lt_of_lt_of_le ?_ (cumsumF_step h hw i).2.1
    rw [← hi, rowEntry_fin]
    exact hj

theorem cumulativeF_mono (h : StepRounding fl e) {w : Fin n → K} (hw : IsWeightRow fl w) :
    Monotone (cumulativeF (.rounded fl) w) := by
  have ht := cumsumF_total_pos h hw
  intro i j hij
  change fl (_ / _) ≤ fl (_ / _)
  exact h.mono _ _ (div_nonneg (cumsumF_spec h hw i).1 ht.le)
    (div_le_div_of_nonneg_right (cumsumF_mono h hw hij) ht.le)

theorem cumulativeF_last (h : StepRounding fl e) {w : Fin n → K} (hw : IsWeightRow fl w) :
    cumulativeF (.rounded fl) w (n - 1) = 1 := by
  change fl (_ / _) = 1
  rw [div_self (cumsumF_total_pos h hw).ne', h.one]

theorem cumulativeF_nonneg (h : StepRounding fl e) {w : Fin n → K} (hw : IsWeightRow fl w) (j : ℕ) :
    0 ≤ cumulativeF (.rounded fl) w j := by
  change 0 ≤ fl (_ / _)
  rw [← h.zero]
  exact h.mono _ _ le_rfl (div_nonneg (cumsumF_spec h hw j).1 (cumsumF_total_pos h hw).le)

/-- The draws between two numbers of the row select an index of positive weight. -/
theorem weight_pos (h : StepRounding fl e) {w : Fin n → K} (hw : IsWeightRow fl w) (j : Fin n)
    (h0 : j.val = 0 → 0 < cumulativeF (.rounded fl) w 0)
    (h1 : ∀ i, j.val = i + 1 → cumulativeF (.rounded fl) w i < cumulativeF (.rounded fl) w (i + 1)) : 0 < w j := by
  refine lt_of_le_of_ne (hw.1 j).1 fun hz => ?_
  rcases Nat.eq_zero_or_pos j.val with hj | hj
  · refine absurd (h0 hj) (not_lt.2 (le_of_eq ?_))
    change fl (rowEntry w 0 / _) = 0
    rw [← hj, rowEntry_fin, ← hz, zero_div, h.zero]
  · obtain ⟨i, hi⟩ : ∃ i, j.val = i + 1 := ⟨j.val - 1, by omega⟩
    refine absurd (h1 i hi) (not_lt.2 (le_of_eq ?_))
    change fl (_ / _) = fl (_ / _)
    rw [(cumsumF_step h hw i).2.2 (by rw [← hi, rowEntry_fin, ← hz])]

theorem pickLoopF_spec (F : Arith K) (w : Fin n → K) (u : K) (m : ℕ) :
    (∀ i, pickLoopF F w u m = i + 1 → cumulativeF F w i < u) ∧
      ∀ j, pickLoopF F w u m ≤ j → j < m → u ≤ cumulativeF F w j := by
  induction m with
  | zero => exact ⟨fun i hi => absurd hi (Nat.succ_ne_zero i).symm, fun j _ h => absurd h (Nat.not_lt_zero j)⟩
  | succ m ih =>
    unfold pickLoopF
    split
    · rename_i h
      exact ⟨fun i hi => by rw [← Nat.succ.inj hi]; exact h, fun j h1 h2 => by omega⟩
    · rename_i h
      refine ⟨ih.1, fun j h1 h2 => ?_⟩
      rcases Nat.lt_succ_iff_lt_or_eq.1 h2 with h3 | rfl
      · exact ih.2 j h1 h3
      · exact not_lt.1 h

/-- The draws that select an index. -/
theorem pickF_iff (h : StepRounding fl e) {w : Fin n → K} (hw : IsWeightRow fl w) (hn : 0 < n) {u : K} (hu : u ≤ 1)
    (j : Fin n) : pickF (.rounded fl) w u hn = j ↔
      (∀ i, j.val = i + 1 → cumulativeF (.rounded fl) w i < u) ∧ u ≤ cumulativeF (.rounded fl) w j.val := by
  obtain ⟨s1, s2⟩ := pickLoopF_spec (.rounded fl) w u (n - 1)
  have hv : (pickF (.rounded fl) w u hn).val = pickLoopF (.rounded fl) w u (n - 1) := rfl
  have hmono := cumulativeF_mono h hw
  have hle := pickLoopF_le (.rounded fl) w u (n - 1)
  have hup : u ≤ cumulativeF (.rounded fl) w (pickLoopF (.rounded fl) w u (n - 1)) := by
    rcases hle.lt_or_eq with h3 | h3
    · exact s2 _ le_rfl h3
    · rw [h3, cumulativeF_last h hw]
      exact hu
  constructor
  · rintro rfl
    rw [hv]
    exact ⟨s1, hup⟩
  · rintro ⟨h1, h2⟩
    rw [Fin.ext_iff, hv]
    rcases Nat.lt_trichotomy (pickLoopF (.rounded fl) w u (n - 1)) j.val with h3 | h3 | h3
    · obtain ⟨i, hi⟩ : ∃ i, j.val = i + 1 := ⟨j.val - 1, by omega⟩
      exact absurd (hup.trans (hmono (show _ ≤ i by omega))) (not_le.2 (h1 i hi))
    · exact h3
    · obtain ⟨i, hi⟩ : ∃ i, pickLoopF (.rounded fl) w u (n - 1) = i + 1 :=
        ⟨pickLoopF (.rounded fl) w u (n - 1) - 1, by omega⟩
      exact absurd (h2.trans (hmono (show _ ≤ i by omega))) (not_le.2 (s1 i hi))

/-- A positive draw selects an index of positive weight, whatever the rounding. -/
theorem pickF_pos (h : StepRounding fl e) {w : Fin n → K} (hw : IsWeightRow fl w) (hn : 0 < n) {u : K} (h0 : 0 < u)
    (h1 : u ≤ 1) : 0 < w (pickF (.rounded fl) w u hn) := by
  obtain ⟨h2, h3⟩ := (pickF_iff h hw hn h1 _).1 rfl
  generalize pickF (.rounded fl) w u hn = j at h2 h3
  refine weight_pos h hw j (fun hj => ?_) fun i hi => ?_
  · rw [hj] at h3
    exact h0.trans_le h3
  · rw [← hi]
    exact (h2 i hi).trans_le h3

/-- The selection of numpy. -/
theorem choiceF_pos (h : StepRounding fl e) [NeZero n] {w : Fin n → K} (hw : IsWeightRow fl w) {u : ℕ → K} {t : ℕ}
    (h0 : 0 ≤ u t) (h1 : u t < 1) : 0 < w (choiceF (.rounded fl) u t w) := by
  have hn : 0 < n := Nat.pos_of_ne_zero (NeZero.ne n)
  unfold choiceF
  cases hf : (List.finRange n).find? fun j => decide (u t < cumulativeF (.rounded fl) w j.val) with
  | none =>
    exfalso
    rw [List.find?_eq_none] at hf
    have := hf ⟨n - 1, by omega⟩ (List.mem_finRange _)
    rw [decide_eq_true_eq] at this
    change ¬ u t < cumulativeF (.rounded fl) w (n - 1) at this
    rw [cumulativeF_last h hw] at this
    exact this h1
  | some j =>
    rw [List.find?_eq_some_iff_getElem] at hf
    obtain ⟨hj, m, hm, hmj, hbefore⟩ := hf
    simp only [decide_eq_true_eq] at hj
    have hmv : (j : ℕ) = m := by rw [← hmj]; simp
    change 0 < w j
    refine weight_pos h hw j (fun hz => ?_) fun i hi => ?_
    · rw [hz] at hj
      exact h0.trans_lt hj
    · have hb := hbefore i (by omega)
      simp only [List.getElem_finRange, Bool.not_eq_true', decide_eq_false_iff_not, Fin.val_cast] at hb
      rw [← hi]
      exact (not_lt.1 hb).trans_lt hj

/-! ### Runs -/

theorem hmmSimulateLoopF_spec (h : StepRounding fl e) {P : Matrix (Fin n) (Fin n) K} {E : Matrix (Fin n) (Fin k) K}
    (hP : ∀ i, IsWeightRow fl (P i)) (hE : ∀ i, IsWeightRow fl (E i)) (hn : 0 < n) (hk : 0 < k) {pr er : ℕ → K}
    (hpr : ∀ t, 0 < pr t ∧ pr t ≤ 1) (her : ∀ t, 0 < er t ∧ er t ≤ 1) (f : Option (Fin n))
    (g : Option (Fin k)) (m t : ℕ) (s : Fin n) :
    (s :: (hmmSimulateLoopF (.rounded fl) P E hn hk pr er f g m t s).map Prod.fst).IsChain (Edge P) ∧
      (∀ q ∈ hmmSimulateLoopF (.rounded fl) P E hn hk pr er f g m t s, 0 < E q.1 q.2) ∧
      (hmmSimulateLoopF (.rounded fl) P E hn hk pr er f g m t s).length ≤ m ∧
      (∀ q ∈ (hmmSimulateLoopF (.rounded fl) P E hn hk pr er f g m t s).dropLast, ¬ FinalPair f g q) ∧
      ((hmmSimulateLoopF (.rounded fl) P E hn hk pr er f g m t s).length = m ∨
        ∃ q, FinalPair f g q ∧ (hmmSimulateLoopF (.rounded fl) P E hn hk pr er f g m t s).getLast? = some q) := by
  induction m generalizing t s with
  | zero => simp [hmmSimulateLoopF]
  | succ m ih =>
    have hpos : Edge P s (pickF (.rounded fl) (P s) (pr t) hn) := pickF_pos h (hP s) hn (hpr t).1 (hpr t).2
    have hem : 0 < E (pickF (.rounded fl) (P s) (pr t) hn)
        (pickF (.rounded fl) (E (pickF (.rounded fl) (P s) (pr t) hn)) (er t) hk) :=
      pickF_pos h (hE _) hk (her t).1 (her t).2
    unfold hmmSimulateLoopF
    simp only
    generalize hs' : pickF (.rounded fl) (P s) (pr t) hn = s' at hpos hem ⊢
    generalize hy : pickF (.rounded fl) (E s') (er t) hk = y at hem ⊢
    by_cases hf : f = some s' ∨ g = some y
    · rw [if_pos hf]
      refine ⟨List.IsChain.cons_cons hpos (List.isChain_singleton _), ?_, by simp, by simp,
        Or.inr ⟨(s', y), hf, by simp⟩⟩
      intro q hq
      rw [List.mem_singleton] at hq
      subst hq
      exact hem
    · rw [if_neg hf]
      obtain ⟨h1, h2, h3, h4, h5⟩ := ih (t + 1) s'
      generalize hmmSimulateLoopF (.rounded fl) P E hn hk pr er f g m (t + 1) s' = l at h1 h2 h3 h4 h5
      refine ⟨List.IsChain.cons_cons hpos h1, ?_, by simpa using h3, ?_, ?_⟩
      · intro q hq
        rw [List.mem_cons] at hq
        rcases hq with rfl | hq
        · exact hem
        · exact h2 q hq
      · intro q hq
        cases l with
        | nil => simp at hq
        | cons a l =>
          rw [List.dropLast_cons_cons, List.mem_cons] at hq
          rcases hq with rfl | hq
          · exact hf
          · exact h4 q hq
      · rcases h5 with h | ⟨q, hq, hl⟩
        · exact Or.inl (by simp [h])
        · refine Or.inr ⟨q, hq, ?_⟩
          cases l with
          | nil => simp at hl
          | cons a l => simpa using hl

/-- C165 for positive draws. In double arithmetic, and whether or not the rows add up to one exactly, `simulate` of a
hidden model only uses transitions and emissions of positive probability and stops where it should. -/
theorem C165_hidden_runs_partial {m : HMM ℚ} (hn : 0 < m.n) (hk : 0 < m.k) [NeZero m.k]
    (hP : ∀ i, IsWeightRow double (m.p i)) (hE : ∀ i, IsWeightRow double (m.e i)) {u pr er : ℕ → ℚ}
    (hu : ∀ t, 0 ≤ u t ∧ u t < 1) (hpr : ∀ t, 0 < pr t ∧ pr t < 1) (her : ∀ t, 0 < er t ∧ er t < 1)
    (start : Fin m.n) {steps initialState finalState finalSymbol : PyVal ℚ} {s : ℤ} {i f : Option (Fin m.n)}
    {g : Option (Fin m.k)} (hs : validateInteger steps (some (2, false)) none = .ok s)
    (hi : OptionalState initialState m.states i) (hf : OptionalState finalState m.states f)
    (hg : OptionalState finalSymbol m.symbols g) :
    ∃ l, m.simulateF (.rounded double) hn hk (choiceF (.rounded double) u) pr er start steps initialState finalState
        finalSymbol = .ok l ∧
      IsHiddenRun m.p m.e s.toNat (i.getD start) (FinalPair f g) l := by
  refine ⟨hmmSimulateF (.rounded double) m.p m.e hn hk (choiceF (.rounded double) u) pr er s.toNat (i.getD start) f g,
    ?_, ?_⟩
  · unfold HMM.simulateF
    rw [hs]
    change (optionalLabel initialState m.states m.n >>= _) = _
    rw [optionalLabel_ok hi]
    change (optionalLabel finalState m.states m.n >>= _) = _
    rw [optionalLabel_ok hf]
    change (optionalLabel finalSymbol m.symbols m.k >>= _) = _
    rw [optionalLabel_ok hg]
    rfl
  · obtain ⟨h1, h2, h3, h4, h5⟩ := hmmSimulateLoopF_spec double_step (P := m.p) (E := m.e) hP hE hn hk
      (fun t => ⟨(hpr t).1, (hpr t).2.le⟩) (fun t => ⟨(her t).1, (her t).2.le⟩) f g s.toNat 0 (i.getD start)
    refine ⟨rfl, h1, ?_, by simpa [hmmSimulateF] using h3, h4, ?_⟩
    · intro q hq
      rcases List.mem_cons.1 hq with rfl | hq
      · exact choiceF_pos double_step (hE _) (hu 0).1 (hu 0).2
      · exact h2 q hq
    · rcases h5 with h | h
      · exact Or.inl (by simp [hmmSimulateF, h])
      · exact Or.inr h

/-- C165. In double arithmetic, and whether or not the rows add up to one exactly, `simulate` of a chain only uses
transitions of positive probability and stops where it should. -/
theorem C165_chain_runs {c : MC ℚ} [NeZero c.n] (hP : ∀ i, IsWeightRow double (c.p i)) {u : ℕ → ℚ}
    (hu : ∀ t, 0 ≤ u t ∧ u t < 1) (start : Fin c.n) {steps initialState finalState : PyVal ℚ} {s : ℤ}
    {i f : Option (Fin c.n)} (hs : validateInteger steps (some (2, false)) none = .ok s)
    (hi : OptionalState initialState c.states i) (hf : OptionalState finalState c.states f) :
    ∃ w : List (Fin c.n), IsRun c.p s.toNat (i.getD start) f w ∧
      simulate c (choiceF (.rounded double) u) start steps initialState finalState (.bool true) =
        .ok (.indices (w.map Fin.val)) := by
  refine ⟨_, mcSimulate_edges (P := c.p) (fun t i => choiceF_pos double_step (hP i) (hu t).1 (hu t).2) _ _ _, ?_⟩
  unfold simulate
  rw [hs]
  change (optionalLabel initialState c.states c.n >>= _) = _
  rw [optionalLabel_ok hi]
  change (optionalLabel finalState c.states c.n >>= _) = _
  rw [optionalLabel_ok hf]
  rfl

/-! ### Frequencies -/

/-- The exact sum of the first entries of a row. -/
def partialSum (w : Fin n → K) (j : ℕ) : K := ∑ i ∈ range (j + 1), rowEntry w i

theorem partialSum_total (w : Fin n → K) (hn : 0 < n) : partialSum w (n - 1) = ∑ i, w i := by
  unfold partialSum
  rw [show n - 1 + 1 = n by omega, Finset.sum_range]
  exact sum_congr rfl fun i _ => rowEntry_fin w i

theorem partialSum_mono {w : Fin n → K} (hw : IsWeightRow fl w) : Monotone (partialSum w) := by
  refine monotone_nat_of_le_succ fun j => ?_
  unfold partialSum
  rw [sum_range_succ _ (j + 1)]
  refine le_add_of_nonneg_right ?_
  unfold rowEntry
  split
  · exact (hw.1 _).1
  · exact le_rfl

theorem cumsumF_near (h : StepRounding fl e) {w : Fin n → K} (hw : IsWeightRow fl w) (hn : 0 < n) (he : 0 ≤ e)
    (hs : ∑ i, w i ≤ 5 / 4) (hne : (n : K) * e ≤ 1 / 4) (j : ℕ) (hj : j < n) :
    |cumsumF (.rounded fl) w j - partialSum w j| ≤ j * e := by
  induction j with
  | zero =>
    change |rowEntry w 0 - _| ≤ _
    simp [partialSum]
  | succ j ih =>
    have h1 := ih (by omega)
    obtain ⟨h0, -⟩ := cumsumF_spec h hw j
    have h2 := (rowEntry_spec h hw (j + 1)).1
    have h3 : partialSum w (j + 1) = partialSum w j + rowEntry w (j + 1) := by
      unfold partialSum
      rw [sum_range_succ _ (j + 1)]
    have h4 : partialSum w (j + 1) ≤ 5 / 4 := by
      refine (partialSum_mono hw (show j + 1 ≤ n - 1 by omega)).trans ?_
      rw [partialSum_total w hn]
      exact hs
    have h5 : (j : K) * e ≤ n * e := mul_le_mul_of_nonneg_right (by exact_mod_cast (by omega : j ≤ n)) he
    obtain ⟨h6, h7⟩ := abs_le.1 h1
    have h8 := h.near (cumsumF (.rounded fl) w j + rowEntry w (j + 1)) (add_nonneg h0 h2) (by linarith)
    change |fl (_ + _) - _| ≤ _
    obtain ⟨h9, h10⟩ := abs_le.1 h8
    push_cast
    rw [h3, abs_le, add_mul, one_mul]
    constructor <;> linarith

theorem cumulativeF_near (h : StepRounding fl e) {w : Fin n → K} (hw : IsWeightRow fl w) (hn : 0 < n) (he : 0 ≤ e)
    (hs : |∑ i, w i - 1| ≤ 1 / 4) (hne : (n : K) * e ≤ 1 / 4) (j : ℕ) (hj : j < n) :
    |cumulativeF (.rounded fl) w j - partialSum w j / ∑ i, w i| ≤ 4 * n * e := by
  obtain ⟨hs1, hs2⟩ := abs_le.1 hs
  have e1 := cumsumF_near h hw hn he (by linarith) hne j hj
  have e2 := cumsumF_near h hw hn he (by linarith) hne (n - 1) (by omega)
  rw [partialSum_total w hn] at e2
  have hc0 := (cumsumF_spec h hw j).1
  have hcm := cumsumF_mono h hw (show j ≤ n - 1 by omega)
  have hcp := cumsumF_total_pos h hw
  have hpm := partialSum_mono hw (show j ≤ n - 1 by omega)
  rw [partialSum_total w hn] at hpm
  have hp0 : 0 ≤ partialSum w j := by
    unfold partialSum
    exact sum_nonneg fun i _ => (rowEntry_spec h hw i).1
  have hj1 : (j : K) + 1 ≤ n := by exact_mod_cast hj
  have hn1 : ((n - 1 : ℕ) : K) + 1 = n := by exact_mod_cast (by omega : n - 1 + 1 = n)
  have hdiv : cumulativeF (.rounded fl) w j = fl (cumsumF (.rounded fl) w j / cumsumF (.rounded fl) w (n - 1)) := rfl
  rw [hdiv]
  generalize cumsumF (.rounded fl) w j = s at *
  generalize cumsumF (.rounded fl) w (n - 1) = T at *
  generalize partialSum w j = S at *
  generalize ∑ i, w i = V at *
  generalize ((n - 1 : ℕ) : K) = p at *
  have hV : 0 < V := by linarith
  have hje : (j : K) * e ≤ p * e := mul_le_mul_of_nonneg_right (by linarith) he
  have hpe : p * e + e = n * e := by rw [← hn1, add_mul, one_mul]
  obtain ⟨a1, a2⟩ := abs_le.1 e1
  obtain ⟨b1, b2⟩ := abs_le.1 e2
  have hT : 1 / 2 ≤ T := by linarith
  have hq1 : s / T ≤ 1 := (div_le_one hcp).2 hcm
  have hq0 : 0 ≤ s / T := div_nonneg hc0 hcp.le
  have r1 := h.near _ hq0 (by linarith)
  have hr0 : 0 ≤ S / V := div_nonneg hp0 hV.le
  have hr1 : S / V ≤ 1 := (div_le_one hV).2 hpm
  have hSV : S = S / V * V := (div_mul_cancel₀ S hV.ne').symm
  have key : |s / T - S / V| ≤ 4 * (p * e) := by
    have h1 : s / T - S / V = ((s - S) + S / V * (V - T)) / T := by
      field_simp
      ring
    have h2 : |(s - S) + S / V * (V - T)| ≤ 2 * (p * e) := by
      refine (abs_add_le _ _).trans ?_
      have h3 : |S / V * (V - T)| ≤ p * e := by
        rw [abs_mul, abs_of_nonneg hr0]
        refine (mul_le_mul hr1 ?_ (abs_nonneg _) zero_le_one).trans_eq (one_mul (p * e))
        rw [abs_sub_comm]
        exact e2
      linarith
    rw [h1, abs_div, abs_of_pos hcp, div_le_iff₀ hcp]
    have h4 : 0 ≤ p * e := by
      have := (abs_nonneg _).trans e2
      exact this
    have h5 : 2 * (p * e) ≤ 4 * (p * e) * T := by
      have := mul_le_mul_of_nonneg_left hT (show 0 ≤ 4 * (p * e) by linarith)
      linarith
    exact h2.trans h5
  obtain ⟨c1, c2⟩ := abs_le.1 r1
  obtain ⟨d1, d2⟩ := abs_le.1 key
  rw [abs_le]
  constructor <;> linarith

/-- The number of multiples of `1 / N` in `[0, 1)` up to a number. -/
theorem grid_count (N : ℕ) (hN : 0 < N) {c : ℚ} (h0 : 0 ≤ c) (h1 : c ≤ 1) :
    (N : ℚ) * c ≤ ((range N).filter fun a : ℕ => (a : ℚ) / N ≤ c).card ∧
      (((range N).filter fun a : ℕ => (a : ℚ) / N ≤ c).card : ℚ) ≤ N * c + 1 := by
  have hN' : (0 : ℚ) < N := by exact_mod_cast hN
  have hc : 0 ≤ (N : ℚ) * c := by positivity
  have e : (range N).filter (fun a : ℕ => (a : ℚ) / N ≤ c) = range (min N (⌊(N : ℚ) * c⌋₊ + 1)) := by
    ext a
    rw [mem_filter, mem_range, mem_range, lt_min_iff, Nat.lt_succ_iff, Nat.le_floor_iff hc, div_le_iff₀ hN', mul_comm c]
  rw [e, card_range]
  constructor
  · rcases le_total N (⌊(N : ℚ) * c⌋₊ + 1) with h | h
    · rw [min_eq_left h]
      have := mul_le_mul_of_nonneg_left h1 hN'.le
      linarith
    · rw [min_eq_right h]
      push_cast
      exact (Nat.lt_floor_add_one _).le
  · refine (show ((min N (⌊(N : ℚ) * c⌋₊ + 1) : ℕ) : ℚ) ≤ ((⌊(N : ℚ) * c⌋₊ + 1 : ℕ) : ℚ) by
      exact_mod_cast min_le_right _ _).trans ?_
    push_cast
    have := Nat.floor_le hc
    linarith

/-- The number of draws `0, 1 / N, 2 / N, …` of `rng.random` that select an index. -/
def drawCount (N : ℕ) (w : Fin n → ℚ) (hn : 0 < n) (j : Fin n) : ℕ :=
  ((range N).filter fun a : ℕ => pickF (.rounded double) w ((a : ℚ) / N) hn = j).card

theorem drawCount_near (N : ℕ) (hN : 0 < N) {w : Fin n → ℚ} (hw : IsWeightRow double w) (hn : 0 < n)
    (hs : |∑ i, w i - 1| ≤ 1 / 4) (hne : (n : ℚ) * (1 / 2 ^ 52) ≤ 1 / 4) (j : Fin n) :
    |(drawCount N w hn j : ℚ) - N * (w j / ∑ i, w i)| ≤ N * (8 * n * (1 / 2 ^ 52)) + 1 := by
  have hN' : (0 : ℚ) < N := by exact_mod_cast hN
  have hmono := cumulativeF_mono double_step hw
  have hle1 : ∀ i, i < n → cumulativeF (.rounded double) w i ≤ 1 := fun i hi =>
    (hmono (show i ≤ n - 1 by omega)).trans_eq (cumulativeF_last double_step hw)
  have hmem : ∀ a ∈ range N, pickF (.rounded double) w ((a : ℚ) / N) hn = j ↔
      (∀ i, j.val = i + 1 → cumulativeF (.rounded double) w i < (a : ℚ) / N) ∧
        (a : ℚ) / N ≤ cumulativeF (.rounded double) w j.val := by
    intro a ha
    refine pickF_iff double_step hw hn ((div_le_one hN').2 ?_) j
    exact_mod_cast (mem_range.1 ha).le
  have he : (0 : ℚ) ≤ 1 / 2 ^ 52 := by positivity
  have hnear := fun i hi => cumulativeF_near double_step hw hn he hs hne i hi
  have hup := grid_count N hN (cumulativeF_nonneg double_step hw j.val) (hle1 j.val j.isLt)
  have nj := abs_le.1 (hnear j.val j.isLt)
  have hn8 : 0 ≤ (n : ℚ) * (1 / 2 ^ 52) := by positivity
  generalize (1 : ℚ) / 2 ^ 52 = ε at *
  rcases Nat.eq_zero_or_pos j.val with h0 | h0
  · have e : drawCount N w hn j = ((range N).filter fun a : ℕ => (a : ℚ) / N ≤ cumulativeF (.rounded double) w j.val).card := by
      unfold drawCount
      congr 1
      refine filter_congr fun a ha => ?_
      rw [hmem a ha]
      exact ⟨fun h => h.2, fun h => ⟨fun i hi => by omega, h⟩⟩
    have e2 : partialSum w j.val = w j := by
      rw [h0]
      unfold partialSum
      rw [zero_add, sum_range_one, ← h0, rowEntry_fin]
    rw [e]
    rw [e2] at nj
    generalize (((range N).filter fun a : ℕ => (a : ℚ) / N ≤ cumulativeF (.rounded double) w j.val).card : ℚ) = A at *
    generalize cumulativeF (.rounded double) w j.val = c at *
    generalize w j / ∑ i, w i = q at *
    have m1 := mul_le_mul_of_nonneg_left nj.1 hN'.le
    have m2 := mul_le_mul_of_nonneg_left nj.2 hN'.le
    have m3 : 0 ≤ (N : ℚ) * (n * ε) := by positivity
    rw [abs_le]
    constructor <;> linarith
  · obtain ⟨i, hi⟩ : ∃ i, j.val = i + 1 := ⟨j.val - 1, by omega⟩
    have hilt : i < n := by omega
    have hlo := grid_count N hN (cumulativeF_nonneg double_step hw i) (hle1 i hilt)
    have ni := abs_le.1 (hnear i hilt)
    have e2 : partialSum w j.val = partialSum w i + w j := by
      unfold partialSum
      rw [hi, sum_range_succ _ (i + 1), ← hi, rowEntry_fin]
    have e : ((range N).filter fun a : ℕ => (a : ℚ) / N ≤ cumulativeF (.rounded double) w j.val).card =
        drawCount N w hn j + ((range N).filter fun a : ℕ => (a : ℚ) / N ≤ cumulativeF (.rounded double) w i).card := by
      unfold drawCount
      rw [← card_union_of_disjoint]
      · congr 1
        ext a
        rw [mem_union, mem_filter, mem_filter, mem_filter, ← and_or_left]
        refine and_congr_right fun ha => ?_
        rw [hmem a ha]
        constructor
        · intro h
          rcases le_or_gt ((a : ℚ) / N) (cumulativeF (.rounded double) w i) with h' | h'
          · exact Or.inr h'
          · exact Or.inl ⟨fun i' hi' => by rw [show i' = i by omega]; exact h', h⟩
        · rintro (h | h)
          · exact h.2
          · exact h.trans (hmono (by omega))
      · rw [disjoint_filter]
        intro a ha h
        rw [hmem a ha] at h
        exact not_le.2 (h.1 i hi)
    have e' : (drawCount N w hn j : ℚ) = (((range N).filter fun a : ℕ => (a : ℚ) / N ≤ cumulativeF (.rounded double) w j.val).card : ℚ) -
        (((range N).filter fun a : ℕ => (a : ℚ) / N ≤ cumulativeF (.rounded double) w i).card : ℚ) := by
      rw [e]
      push_cast
      ring
    rw [e']
    rw [e2, add_div] at nj
    generalize (((range N).filter fun a : ℕ => (a : ℚ) / N ≤ cumulativeF (.rounded double) w j.val).card : ℚ) = A at *
    generalize (((range N).filter fun a : ℕ => (a : ℚ) / N ≤ cumulativeF (.rounded double) w i).card : ℚ) = B at *
    generalize cumulativeF (.rounded double) w j.val = c at *
    generalize cumulativeF (.rounded double) w i = d at *
    generalize w j / ∑ i, w i = q at *
    generalize partialSum w i / ∑ i, w i = r at *
    have m1 := mul_le_mul_of_nonneg_left nj.1 hN'.le
    have m2 := mul_le_mul_of_nonneg_left nj.2 hN'.le
    have m3 := mul_le_mul_of_nonneg_left ni.1 hN'.le
    have m4 := mul_le_mul_of_nonneg_left ni.2 hN'.le
    rw [abs_le]
    constructor <;> linarith

/-- C165. Of the `2 ^ 53` equally likely draws of `rng.random` a share selects a state, or a symbol, that differs from
its probability by at most `(16 n + 1) / 2 ^ 53`. -/
theorem C165_frequencies {w : Fin n → ℚ} (hw : IsWeightRow double w) (hn : 0 < n) (hn' : n ≤ 2 ^ 50)
    (hs : |∑ i, w i - 1| ≤ 1 / 4) (j : Fin n) :
    |(drawCount (2 ^ 53) w hn j : ℚ) / 2 ^ 53 - w j / ∑ i, w i| ≤ (16 * (n : ℚ) + 1) / 2 ^ 53 := by
  have h1 : (n : ℚ) * (1 / 2 ^ 52) ≤ 1 / 4 := by
    have : (n : ℚ) ≤ 2 ^ 50 := by exact_mod_cast hn'
    calc (n : ℚ) * (1 / 2 ^ 52) ≤ 2 ^ 50 * (1 / 2 ^ 52) := mul_le_mul_of_nonneg_right this (by positivity)
      _ = 1 / 4 := by norm_num
  have h2 := drawCount_near (2 ^ 53) (by positivity) hw hn hs h1 j
  push_cast at h2
  generalize (drawCount (2 ^ 53) w hn j : ℚ) = A at *
  generalize w j / ∑ i, w i = q at *
  have h3 : A / 2 ^ 53 - q = (A - 2 ^ 53 * q) / 2 ^ 53 := by
    rw [sub_div, mul_div_cancel_left₀ _ (by positivity)]
  rw [h3, abs_div, abs_of_pos (show (0 : ℚ) < 2 ^ 53 by positivity)]
  refine div_le_div_of_nonneg_right (h2.trans (le_of_eq ?_)) (by positivity)
  norm_num
  ring

/-- C165. What is more likely than `(16 n + 1) / 2 ^ 53` is selected by some draw. -/
theorem C165_selected {w : Fin n → ℚ} (hw : IsWeightRow double w) (hn : 0 < n) (hn' : n ≤ 2 ^ 50)
    (hs : |∑ i, w i - 1| ≤ 1 / 4) (j : Fin n) (hj : (16 * (n : ℚ) + 1) / 2 ^ 53 < w j / ∑ i, w i) :
    ∃ a < 2 ^ 53, pickF (.rounded double) w ((a : ℕ) / 2 ^ 53) hn = j := by
  have h1 := (abs_le.1 (C165_frequencies hw hn hn' hs j)).1
  have h2 : 0 < (drawCount (2 ^ 53) w hn j : ℚ) / 2 ^ 53 := by linarith
  have h3 : (drawCount (2 ^ 53) w hn j : ℚ) ≠ 0 := fun h => by rw [h, zero_div] at h2; exact lt_irrefl 0 h2
  have h4 : 0 < drawCount (2 ^ 53) w hn j := Nat.pos_of_ne_zero (by exact_mod_cast h3)
  obtain ⟨a, ha⟩ := card_pos.1 h4
  rw [mem_filter, mem_range] at ha
  refine ⟨a, ha.1, ?_⟩
  have := ha.2
  push_cast at this
  exact this

/-! ### Instances -/

/-- A row with a probability below the precision. -/
def rowFaint : Fin 2 → ℚ := fun j => if j = 0 then 1 else 1 / 2 ^ 60

theorem rowFaint_row : IsWeightRow double rowFaint := by
  refine ⟨fun j => ?_, 0, by norm_num [rowFaint]⟩
  fin_cases j
  · exact ⟨by norm_num [rowFaint], double_step.one⟩
  · exact ⟨by norm_num [rowFaint], double_pow (t := 60) (by norm_num)⟩

/-- A hidden model that leaves its first state with a probability below the precision. -/
def exFaintWalk : HMM ℚ :=
  ⟨2, 2, fun i => if i = 0 then rowFaint else fun _ => 1 / 2, fun _ _ => 1 / 2, ["a", "b"], ["u", "v"]⟩

theorem half_row : IsWeightRow double (fun _ : Fin 2 => (1 : ℚ) / 2) :=
  ⟨fun _ => ⟨by norm_num, by simpa using double_pow (t := 1) (by norm_num)⟩, 0, by norm_num⟩

/-- C165 fails for tiny probabilities: the rows satisfy every condition above and the sum of doubles is one, the
transition is an edge of the chain, and no draw ever takes it. -/
theorem C165_never_selected : (∀ i : Fin 2, IsWeightRow double (exFaintWalk.p i)) ∧
    (Arith.rounded double).sum (List.ofFn (exFaintWalk.p (0 : Fin 2))) = 1 ∧
    Edge exFaintWalk.p (0 : Fin 2) (1 : Fin 2) ∧
    ∀ u : ℚ, u ≤ 1 → pickF (n := 2) (.rounded double) (exFaintWalk.p (0 : Fin 2)) u (by decide) = 0 := by
  have hsum : double (1 + 1 / 2 ^ 60) = 1 := by decide +kernel
  refine ⟨fun i => ?_, ?_, show (0 : ℚ) < 1 / 2 ^ 60 by positivity, fun u hu => ?_⟩
  · change IsWeightRow (n := 2) double (if i = 0 then rowFaint else fun _ => 1 / 2)
    split
    · exact rowFaint_row
    · exact half_row
  · exact hsum
  · refine (pickF_iff double_step (w := rowFaint) rowFaint_row (by decide) hu 0).2 ⟨fun i hi => by simp at hi, ?_⟩
    refine hu.trans (le_of_eq ?_)
    change (1 : ℚ) = double (1 / double (1 + 1 / 2 ^ 60))
    rw [hsum, div_one, double_step.one]

/-- The conditions on the rows can be met, and both states are selected by some draw. -/
theorem C165_instance : IsWeightRow double (fun _ : Fin 2 => (1 : ℚ) / 2) ∧
    ∀ j : Fin 2, ∃ a < 2 ^ 53, pickF (.rounded double) (fun _ : Fin 2 => (1 : ℚ) / 2) ((a : ℕ) / 2 ^ 53)
      (by decide) = j := by
  refine ⟨half_row, fun j => C165_selected half_row (by decide) (by norm_num) ?_ j ?_⟩
  · norm_num
  · norm_num

/-- The conditions of the theorems about runs can be met. -/
example : ∃ l, exFaintWalk.simulateF (.rounded double) (show 0 < 2 by decide) (show 0 < 2 by decide)
      (choiceF (n := 2) (.rounded double) fun _ => 0) (fun _ => 1 / 2) (fun _ => 1 / 4) (0 : Fin 2) (.int 3) (.str "b")
      .none .none = .ok l ∧
    IsHiddenRun exFaintWalk.p exFaintWalk.e 3 (1 : Fin 2) (FinalPair none none) l := by
  have : NeZero exFaintWalk.k := ⟨show (2 : ℕ) ≠ 0 by decide⟩
  exact C165_hidden_runs_partial (m := exFaintWalk) (show 0 < 2 by decide) (show 0 < 2 by decide)
    C165_never_selected.1 (fun _ => half_row) (fun _ => by norm_num) (fun _ => by norm_num) (fun _ => by norm_num)
    (0 : Fin 2) (s := 3) (i := some (1 : Fin 2)) (f := none) (g := none) rfl
    (Or.inr ⟨(1 : Fin 2), by simp, rfl, rfl⟩) (Or.inl ⟨rfl, rfl⟩) (Or.inl ⟨rfl, rfl⟩)

end Verif
