import Verif.Model.RoundedRandom
import Verif.Props.RoundedMeasures
import Verif.Props.Validation

/-!
# Random models in floating point (C186)
-/

set_option linter.unusedSectionVars false

namespace Verif

open Finset

variable {K : Type} [Field K] [LinearOrder K] [IsStrictOrderedRing K] {fl : K → K} {u : K}

section row
variable {n : ℕ} {fm : Fin n → Option K} {value : Fin n → K}

theorem filter_sum {n : ℕ} (p : Fin n → Bool) (g : Fin n → K) :
    (((List.finRange n).filter p).map g).sum = ∑ j, if p j = true then g j else 0 := by
  rw [← List.sum_ofFn, List.ofFn_eq_map]
  induction List.finRange n with
  | nil => rfl
  | cons a l ih =>
    by_cases h : p a = true
    · rw [List.filter_cons_of_pos h]
      simp [h, ih]
    · rw [List.filter_cons_of_neg h]
      simp [h, ih]

theorem drawnSumF_acc (h : IsRounding fl u) (hv : ∀ j, 0 ≤ value j) :
    Acc (1 / (1 - u)) n (drawnSumF fl fm value) (∑ j, if (fm j).isNone = true then value j else 0) := by
  have h1 := h.sound.one_le
  have e := Acc.sumList h.sound ((List.finRange n).filter fun l => (fm l).isNone) (g' := value) (g := value)
    fun i _ => Acc.refl (hv i)
  rw [filter_sum] at e
  refine e.mono h1 ?_
  have := List.length_filter_le (fun l => (fm l).isNone) (List.finRange n)
  rw [List.length_finRange] at this
  omega

theorem fixedSumF_acc (h : IsRounding fl u) (hf : ∀ j x, fm j = some x → 0 ≤ x) :
    Acc (1 / (1 - u)) n (fixedSumF fl fm) (∑ j, (fm j).getD 0) := by
  have h1 := h.sound.one_le
  have h0 : ∀ j, 0 ≤ (fm j).getD 0 := by
    intro j
    cases hj : fm j with
    | none => exact le_rfl
    | some x => exact hf j x hj
  have e := Acc.sumList h.sound ((List.finRange n).filter fun l => ¬ (fm l).isNone)
    (g' := fun l => (fm l).getD 0) (g := fun l => (fm l).getD 0) fun i _ => Acc.refl (h0 i)
  rw [filter_sum] at e
  have e2 : (∑ j, if (decide ¬(fm j).isNone = true) = true then (fm j).getD 0 else 0) = ∑ j, (fm j).getD 0 := by
    refine sum_congr rfl fun j _ => ?_
    cases fm j <;> simp
  rw [e2] at e
  refine e.mono h1 ?_
  have := List.length_filter_le (fun l => decide ¬ (fm l).isNone = true) (List.finRange n)
  rw [List.length_finRange] at this
  omega

/-- C186, one row. The fixed entries are kept. If the computed sum of the fixed entries is at most one, all entries lie
between zero and one, and the row sums to one up to `(5 n + 5) u`. -/
theorem C186_row (h : IsRounding fl u) (h1u : fl (1 + u) = 1) (hn : (n : K) * u ≤ 1 / 10 ^ 7) (hu : u ≤ 1 / 10 ^ 7)
    (hf : ∀ j x, fm j = some x → 0 ≤ x ∧ x ≤ 1) (hs : fixedSumF fl fm ≤ 1)
    (hv : ∀ j, 0 ≤ value j ∧ fl (value j) = value j) (hpos : ∃ j, fm j = none ∧ 0 < value j) :
    (∀ j x, fm j = some x → rescaleRowF fl fm value j = x) ∧
    (∀ j, 0 ≤ rescaleRowF fl fm value j ∧ rescaleRowF fl fm value j ≤ 1) ∧
    |∑ j, rescaleRowF fl fm value j - 1| ≤ (5 * n + 5) * u := by
  have hu0 := h.unit_nonneg
  have hF := h.sound
  have h1 := hF.one_le
  have aS := drawnSumF_acc (fm := fm) h fun j => (hv j).1
  have aσ := fixedSumF_acc h fun j x hx => (hf j x hx).1
  have hS : 0 < ∑ j, if (fm j).isNone = true then value j else 0 := by
    obtain ⟨j, hj, hj'⟩ := hpos
    refine sum_pos' (fun i _ => ?_) ⟨j, mem_univ j, ?_⟩
    · split_ifs
      · exact (hv i).1
      · exact le_rfl
    · rw [hj]
      simpa using hj'
  have hs0 := (aS.pos_iff h1).2 hS
  have hle : ∀ j, fm j = none → value j ≤ drawnSumF fl fm value := by
    intro j hj
    refine h.le_sum _ ?_ _ (List.mem_map.2 ⟨j, List.mem_filter.2 ⟨List.mem_finRange j, by rw [hj]; rfl⟩, rfl⟩)
    intro x hx
    obtain ⟨i, -, rfl⟩ := List.mem_map.1 hx
    exact hv i
  have rσ := aσ.relative hF (hn.trans (by norm_num))
  have hσ0 := aσ.exact_nonneg
  have hsi0 := aσ.nonneg h1
  obtain ⟨s, hse⟩ : ∃ s, s = drawnSumF fl fm value := ⟨_, rfl⟩
  obtain ⟨si, hsie⟩ : ∃ si, si = fixedSumF fl fm := ⟨_, rfl⟩
  rw [← hse] at aS hs0 hle
  rw [← hsie] at rσ hs hsi0
  obtain ⟨c, hce⟩ : ∃ c, c = fl (1 - si) := ⟨_, rfl⟩
  have hc0 : 0 ≤ c := hce ▸ h.nonneg (by linarith)
  have hc1 : c ≤ 1 := by
    rw [hce, ← h.one]
    conv_lhs => rw [h.one]
    exact h.mono _ _ (by linarith) (by linarith)
  have hcn : |c - (1 - si)| ≤ u := by
    rw [hce]
    refine (h.near _).trans ?_
    rw [abs_of_nonneg (by linarith : 0 ≤ 1 - si)]
    nlinarith
  have aq : Acc (1 / (1 - u)) (n + 1) (fl (c / s)) (c / ∑ j, if (fm j).isNone = true then value j else 0) := by
    have e := Acc.div hF (Acc.refl hc0) aS hS
    rw [Nat.zero_add] at e
    exact e
  have hq0 := aq.nonneg h1
  have hval : ∀ j, rescaleRowF fl fm value j = match fm j with
      | some x => x
      | none => fl (value j * fl (c / s)) := by
    intro j
    unfold rescaleRowF
    simp only [← hse, ← hsie, ← hce, if_pos hs0]
    cases fm j <;> rfl
  have hfix : ∀ j x, fm j = some x → rescaleRowF fl fm value j = x := by
    intro j x hx
    rw [hval, hx]
  have hfree : ∀ j, fm j = none → rescaleRowF fl fm value j = fl (value j * fl (c / s)) := by
    intro j hx
    rw [hval, hx]
  have hqs : s * fl (c / s) ≤ 1 + u := by
    have e := (abs_le.1 (h.near (c / s))).2
    rw [abs_of_nonneg (div_nonneg hc0 hs0.le)] at e
    have e2 : fl (c / s) ≤ (1 + u) * (c / s) := by linarith
    calc s * fl (c / s) ≤ s * ((1 + u) * (c / s)) := mul_le_mul_of_nonneg_left e2 hs0.le
      _ = (1 + u) * c := by field_simp
      _ ≤ 1 + u := mul_le_of_le_one_right (by linarith) hc1
  refine ⟨hfix, fun j => ?_, ?_⟩
  · cases hj : fm j with
    | some x => rw [hfix j x hj]; exact hf j x hj
    | none =>
      rw [hfree j hj]
      have h0 : 0 ≤ value j * fl (c / s) := mul_nonneg (hv j).1 hq0
      refine ⟨h.nonneg h0, ?_⟩
      have := h.mono _ (1 + u) h0 ((mul_le_mul_of_nonneg_right (hle j hj) hq0).trans hqs)
      rwa [h1u] at this
  · obtain ⟨S, hSe⟩ : ∃ S, S = ∑ j, if (fm j).isNone = true then value j else 0 := ⟨_, rfl⟩
    rw [← hSe] at aq hS
    have at' : Acc (1 / (1 - u)) (n + 2)
        (∑ j, if (fm j).isNone = true then fl (value j * fl (c / s)) else 0)
        (∑ j, if (fm j).isNone = true then value j * (c / S) else 0) := by
      refine Acc.total fun j => ?_
      split_ifs
      · have e := Acc.mul hF (Acc.refl (hv j).1) aq
        exact e.mono h1 (by omega)
      · exact (Acc.refl le_rfl).mono h1 (Nat.zero_le _)
    have et : (∑ j, if (fm j).isNone = true then value j * (c / S) else 0) = c := by
      have : ∀ j, (if (fm j).isNone = true then value j * (c / S) else 0) =
          (if (fm j).isNone = true then value j else 0) * (c / S) := by
        intro j
        split_ifs
        · rfl
        · rw [zero_mul]
      rw [sum_congr rfl fun j _ => this j, ← sum_mul, ← hSe]
      field_simp
    rw [et] at at'
    have rt := at'.relative hF (by push_cast; linarith)
    have esum : ∑ j, rescaleRowF fl fm value j = (∑ j, (fm j).getD 0) +
        ∑ j, if (fm j).isNone = true then fl (value j * fl (c / s)) else 0 := by
      rw [← sum_add_distrib]
      refine sum_congr rfl fun j _ => ?_
      cases hj : fm j with
      | some x => rw [hfix j x hj]; simp
      | none => rw [hfree j hj]; simp
    rw [esum]
    generalize (∑ j, if (fm j).isNone = true then fl (value j * fl (c / s)) else 0) = T at *
    generalize (∑ j, (fm j).getD 0) = σ at *
    have hnu0 : 0 ≤ (n : K) * u := mul_nonneg (Nat.cast_nonneg _) hu0
    push_cast at rt
    have rt' : |T - c| ≤ 2 * ((n + 2) * u) := rt.trans (mul_le_of_le_one_right (by positivity) hc1)
    have hσ : σ ≤ 11 / 10 := by
      have e := (abs_le.1 rσ).1
      have : 2 * ((n : K) * u) * σ ≤ 2 / 10 ^ 7 * σ := mul_le_mul_of_nonneg_right (by linarith) hσ0
      norm_num at this
      linarith
    have rσ' : |si - σ| ≤ 2 * ((n : K) * u) * (11 / 10) := rσ.trans (mul_le_mul_of_nonneg_left hσ (by positivity))
    have e1 := abs_le.1 rσ'
    have e2 := abs_le.1 rt'
    have e3 := abs_le.1 hcn
    rw [abs_le]
    constructor <;> nlinarith

/-- Zeros do not change a sum from the left to the right. -/
theorem foldl_zeros (h : IsRounding fl u) (l : List (Option K)) (hl : ∀ x, some x ∈ l → 0 ≤ x ∧ fl x = x) {a : K}
    (ha : 0 ≤ a) (ha' : fl a = a) :
    (l.map fun x => x.getD 0).foldl (fun x y => fl (x + y)) a =
      ((l.filter fun x => ¬ x.isNone).map fun x => x.getD 0).foldl (fun x y => fl (x + y)) a := by
  induction l generalizing a with
  | nil => rfl
  | cons x l ih =>
    cases x with
    | none =>
      simp only [List.map_cons, Option.getD_none, List.foldl_cons, add_zero, ha']
      rw [ih (fun x hx => hl x (List.mem_cons_of_mem _ hx)) ha ha', List.filter_cons_of_neg (by simp)]
    | some y =>
      have hy := hl y List.mem_cons_self
      have hay := add_nonneg ha hy.1
      rw [List.filter_cons_of_pos (by simp)]
      simp only [List.map_cons, Option.getD_some, List.foldl_cons]
      exact ih (fun x hx => hl x (List.mem_cons_of_mem _ hx)) (h.nonneg hay) (h.idem _ hay)

theorem fl_zero (h : IsRounding fl u) : fl 0 = 0 := by
  have h2 := h.near 0
  rw [abs_zero, mul_zero, sub_zero] at h2
  exact abs_eq_zero.1 (le_antisymm h2 (abs_nonneg _))

theorem sum_foldl (l : List K) (hl : ∀ x ∈ l, fl x = x) :
    (Arith.rounded fl).sum l = l.foldl (fun x y => fl (x + y)) 0 := by
  cases l with
  | nil => rfl
  | cons a l =>
    change l.foldl (fun x y => fl (x + y)) a = l.foldl (fun x y => fl (x + y)) (fl (0 + a))
    rw [zero_add, hl a List.mem_cons_self]

/-- C186: the sum that `validate_mask` compares with one is the sum that the generator subtracts from one. -/
theorem C186_sums (h : IsRounding fl u) (hf : ∀ j x, fm j = some x → 0 ≤ x ∧ fl x = x) :
    nansumF fl fm = fixedSumF fl fm := by
  have h0 := fl_zero h
  have hd : ∀ j, fl ((fm j).getD 0) = (fm j).getD 0 := by
    intro j
    cases hj : fm j with
    | none => exact h0
    | some x => exact (hf j x hj).2
  unfold nansumF fixedSumF
  rw [sum_foldl _ (by
    intro x hx
    obtain ⟨j, rfl⟩ := List.mem_ofFn.1 hx
    exact hd j), sum_foldl _ (by
    intro x hx
    obtain ⟨j, -, rfl⟩ := List.mem_map.1 hx
    exact hd j)]
  have e := foldl_zeros h (List.ofFn fm) (by
    intro x hx
    obtain ⟨j, hj⟩ := List.mem_ofFn.1 hx
    exact hf j x hj) le_rfl h0
  rw [List.map_ofFn, List.ofFn_eq_map (f := fm), List.filter_map, List.map_map] at e
  exact e

/-- C186: if the computed sum of the fixed entries exceeded one, the drawn entries would be negative. -/
theorem C186_exceeded (h : IsRounding fl u) (hs : 1 < fixedSumF fl fm) (hv : ∀ j, 0 ≤ value j) {j : Fin n}
    (hj : fm j = none) (hj' : 0 < value j) : rescaleRowF fl fm value j < 0 := by
  have neg : ∀ z, z < 0 → fl z < 0 := by
    intro z hz
    have e := (abs_le.1 (h.near z)).2
    rw [abs_of_neg hz] at e
    have := h.unit_lt
    nlinarith
  have aS := drawnSumF_acc (fm := fm) h hv
  have hS : 0 < ∑ j, if (fm j).isNone = true then value j else 0 := by
    refine sum_pos' (fun i _ => ?_) ⟨j, mem_univ j, ?_⟩
    · split_ifs
      · exact hv i
      · exact le_rfl
    · rw [hj]
      simpa using hj'
  have hs0 := (aS.pos_iff h.sound.one_le).2 hS
  unfold rescaleRowF
  simp only [hj, if_pos hs0]
  exact neg _ (mul_neg_of_pos_of_neg hj' (neg _ (div_neg_of_neg_of_pos (neg _ (by linarith)) hs0)))

end row

/-- C186. **Random chains in floating point**: for every mask of doubles between zero and one, whatever zeros were placed
in it, whose rows have a computed sum of at most one, and for all draws, the matrix keeps the entries of the mask and
passes the checks of the constructor. A row without undefined entries must sum to one within the tolerance. -/
theorem C186_random (h : IsRounding fl u) (h1u : fl (1 + u) = 1) {n : ℕ} (hn2 : 2 ≤ n)
    (hn : (n : K) * u ≤ 1 / 10 ^ 7) {fm : GridMask K n n}
    (hf : ∀ i j x, fm i j = some x → 0 ≤ x ∧ x ≤ 1 ∧ fl x = x) (hs : ∀ i, nansumF fl (fm i) ≤ 1)
    {value : Fin n → Fin n → K} (hv : ∀ i j, 0 ≤ value i j ∧ fl (value i j) = value i j)
    (hrow : ∀ i, (∃ j, fm i j = none ∧ 0 < value i j) ∨
      (∀ j, fm i j ≠ none) ∧ |∑ j, (fm i j).getD 0 - 1| ≤ 1 / 10 ^ 8 + 1 / 10 ^ 5) :
    AcceptedMatrix (rescaleF fl fm value) ∧ ∀ i j x, fm i j = some x → rescaleF fl fm value i j = x := by
  have hu0 := h.unit_nonneg
  have hn2' : (2 : K) ≤ n := by exact_mod_cast hn2
  have hu : u ≤ 1 / 10 ^ 7 := by nlinarith
  have key : ∀ i, ((∀ j, 0 ≤ rescaleF fl fm value i j ∧ rescaleF fl fm value i j ≤ 1) ∧
      |∑ j, rescaleF fl fm value i j - 1| ≤ 1 / 10 ^ 8 + 1 / 10 ^ 5) ∧
      ∀ j x, fm i j = some x → rescaleF fl fm value i j = x := by
    intro i
    rcases hrow i with hp | ⟨hp, hsum⟩
    · obtain ⟨k1, k2, k3⟩ := C186_row h h1u hn hu (fun j x hx => ⟨(hf i j x hx).1, (hf i j x hx).2.1⟩)
        (C186_sums h (fun j x hx => ⟨(hf i j x hx).1, (hf i j x hx).2.2⟩) ▸ hs i) (hv i) hp
      refine ⟨⟨k2, k3.trans ?_⟩, k1⟩
      have : (5 * (n : K) + 5) * u ≤ 1 / 10 ^ 6 := by linarith
      refine this.trans (by norm_num)
    · have hval : ∀ j x, fm i j = some x → rescaleF fl fm value i j = x := by
        intro j x hx
        unfold rescaleF rescaleRowF
        rw [hx]
      have hget : ∀ j, rescaleF fl fm value i j = (fm i j).getD 0 := by
        intro j
        cases hj : fm i j with
        | none => exact absurd hj (hp j)
        | some x => exact hval j x hj
      refine ⟨⟨fun j => ?_, ?_⟩, hval⟩
      · cases hj : fm i j with
        | none => exact absurd hj (hp j)
        | some x => rw [hval j x hj]; exact ⟨(hf i j x hj).1, (hf i j x hj).2.1⟩
      · rw [sum_congr rfl fun j _ => hget j]
        exact hsum
  exact ⟨⟨hn2, fun i => (key i).1.1, fun i => (key i).1.2⟩, fun i => (key i).2⟩

/-- C186 for doubles. -/
theorem C186_double {n : ℕ} (hn2 : 2 ≤ n) (hn : n ≤ 900000000) {fm : GridMask ℚ n n}
    (hf : ∀ i j x, fm i j = some x → 0 ≤ x ∧ x ≤ 1 ∧ binary64 x = x) (hs : ∀ i, nansumF binary64 (fm i) ≤ 1)
    {value : Fin n → Fin n → ℚ} (hv : ∀ i j, 0 ≤ value i j ∧ binary64 (value i j) = value i j)
    (hrow : ∀ i, (∃ j, fm i j = none ∧ 0 < value i j) ∨
      (∀ j, fm i j ≠ none) ∧ |∑ j, (fm i j).getD 0 - 1| ≤ 1 / 10 ^ 8 + 1 / 10 ^ 5) :
    AcceptedMatrix (rescaleF binary64 fm value) ∧ ∀ i j x, fm i j = some x → rescaleF binary64 fm value i j = x := by
  refine C186_random binary64_rounding (by decide +kernel) hn2 ?_ hf hs hv hrow
  have h1 : (n : ℚ) ≤ 900000000 := by exact_mod_cast hn
  norm_num
  linarith

/-- A mask with one fixed entry. -/
def exOneFixed : GridMask ℚ 2 2 := fun i j => if i = 0 ∧ j = 0 then some (1 / 4) else none

/-- Draws for two states. -/
def exTwoDraws : Fin 2 → Fin 2 → ℚ := fun i j => if i = j then 1 / 2 else 3 / 8

/-- C186: the fixed entry is kept; the last entry is `4/7` only up to rounding. -/
theorem C186_instance : rescaleF binary64 exOneFixed exTwoDraws 0 0 = 1 / 4 ∧
    rescaleF binary64 exOneFixed exTwoDraws 0 1 = 3 / 4 ∧ AcceptedMatrix (rescaleF binary64 exOneFixed exTwoDraws) ∧
    rescaleF binary64 exOneFixed exTwoDraws 1 1 ≠ 4 / 7 := by
  refine ⟨by decide +kernel, by decide +kernel, (C186_double le_rfl (by norm_num) ?_ ?_ ?_ ?_).1, by decide +kernel⟩
  · intro i j x hx
    fin_cases i <;> fin_cases j <;> cases hx
    exact ⟨by decide +kernel, by decide +kernel, by decide +kernel⟩
  · intro i
    fin_cases i <;> decide +kernel
  · intro i j
    fin_cases i <;> fin_cases j <;> decide +kernel
  · intro i
    left
    fin_cases i
    · exact ⟨1, rfl, by decide +kernel⟩
    · exact ⟨1, rfl, by decide +kernel⟩

end Verif
