import Verif.Model.Generators
import Verif.Spec.Valid
import Verif.Props.Validation
import Verif.Props.Arguments
import Mathlib.Algebra.BigOperators.Field
import Mathlib.Tactic.Linarith
import Mathlib.Tactic.FieldSimp
import Mathlib.Tactic.Ring
import Mathlib.Tactic.Positivity

/-!
# Helper lemmas for the generators
-/

set_option linter.unusedSectionVars false

namespace Verif

variable {K : Type} [Field K] [LinearOrder K] [IsStrictOrderedRing K]

theorem sum_single {n : ℕ} {k : ℕ} (hk : k < n) (a : K) :
    ∑ j : Fin n, (if (j : ℕ) = k then a else 0) = a := by
  have : ∀ j : Fin n, (if (j : ℕ) = k then a else 0) = if j = ⟨k, hk⟩ then a else 0 := by
    intro j; simp [Fin.ext_iff]
  simp [this]

/-- Row sum of a two-column row. -/
theorem sum_two {n k l : ℕ} (hk : k < n) (hl : l < n) (hne : k ≠ l) (a b : K) :
    ∑ j : Fin n, (if (j : ℕ) = k then a else if (j : ℕ) = l then b else 0) = a + b := by
  have : ∀ j : Fin n, (if (j : ℕ) = k then a else if (j : ℕ) = l then b else 0) =
      (if (j : ℕ) = k then a else 0) + (if (j : ℕ) = l then b else 0) := by
    intro j
    by_cases h1 : (j : ℕ) = k
    · have : ¬ (k = l) := hne
      simp [h1, this]
    · simp [h1]
  simp only [this, Finset.sum_add_distrib, sum_single hk, sum_single hl]

/-- Row sum of a three-column row. -/
theorem sum_three {n k l m : ℕ} (hk : k < n) (hl : l < n) (hm : m < n) (h1 : k ≠ l) (h2 : k ≠ m)
    (h3 : l ≠ m) (a b c : K) :
    ∑ j : Fin n, (if (j : ℕ) = k then a else if (j : ℕ) = l then b else
      if (j : ℕ) = m then c else 0) = a + b + c := by
  have : ∀ j : Fin n, (if (j : ℕ) = k then a else if (j : ℕ) = l then b else
      if (j : ℕ) = m then c else 0) =
      (if (j : ℕ) = k then a else 0) + (if (j : ℕ) = l then b else if (j : ℕ) = m then c else 0) := by
    intro j
    by_cases h : (j : ℕ) = k
    · simp [h, h1, h2]
    · simp [h]
  simp only [this, Finset.sum_add_distrib, sum_single hk, sum_two hl hm h3]
  ring

theorem normalizeRows_of_sum_one {m n : ℕ} {M : Matrix (Fin m) (Fin n) K}
    (h : ∀ i, ∑ j, M i j = 1) : normalizeRows M = M := by
  funext i j
  simp [normalizeRows, h i]

theorem normalizeRows_stochastic {m n : ℕ} {M : Matrix (Fin m) (Fin n) K}
    (h0 : ∀ i j, 0 ≤ M i j) (h : ∀ i, 0 < ∑ j, M i j) : IsStochastic (normalizeRows M) := by
  refine ⟨fun i j => div_nonneg (h0 i j) (h i).le, fun i => ?_⟩
  simp only [normalizeRows]
  rw [← Finset.sum_div, div_self (h i).ne']

theorem fillNullRows_nonneg {m n : ℕ} {M : Matrix (Fin m) (Fin n) K} (h0 : ∀ i j, 0 ≤ M i j)
    (i j) : 0 ≤ fillNullRows M i j := by
  unfold fillNullRows
  split
  · exact zero_le_one
  · exact h0 i j

theorem fillNullRows_sum_pos {m n : ℕ} {M : Matrix (Fin m) (Fin n) K} (hn : 0 < n)
    (h0 : ∀ i j, 0 ≤ M i j) (i) : 0 < ∑ j, fillNullRows M i j := by
  unfold fillNullRows
  by_cases h : ∀ l, M i l = 0
  · simp only [h, implies_true, if_true]
    simp
    omega
  · simp only [h, if_false]
    push Not at h
    obtain ⟨l, hl⟩ := h
    exact Finset.sum_pos' (fun j _ => h0 i j) ⟨l, Finset.mem_univ _, lt_of_le_of_ne (h0 i l) hl.symm⟩

theorem fill_normalize_stochastic {m n : ℕ} {M : Matrix (Fin m) (Fin n) K} (hn : 0 < n)
    (h0 : ∀ i j, 0 ≤ M i j) : IsStochastic (normalizeRows (fillNullRows M)) :=
  normalizeRows_stochastic (fillNullRows_nonneg h0) (fillNullRows_sum_pos hn h0)

theorem isclose_zero {x : K} (hx : 0 ≤ x) : isclose x 0 = true ↔ x ≤ 1 / 10 ^ 8 := by
  simp [isclose, abs_of_nonneg hx]

theorem normalizeOrUniform_stochastic {n : ℕ} {M : Matrix (Fin n) (Fin n) K}
    (h0 : ∀ i j, 0 ≤ M i j) : IsStochastic (normalizeOrUniform M) := by
  have hs : ∀ i, 0 ≤ ∑ j, M i j := fun i => Finset.sum_nonneg fun j _ => h0 i j
  constructor
  · intro i j
    unfold normalizeOrUniform
    split
    · positivity
    · exact div_nonneg (h0 i j) (hs i)
  · intro i
    unfold normalizeOrUniform
    by_cases h : isclose (∑ l, M i l) 0 = true
    · simp only [h, if_true]
      have : (n : K) ≠ 0 := by
        have := i.pos
        exact_mod_cast this.ne'
      simp [this]
    · simp only [h, if_false, Bool.false_eq_true]
      rw [isclose_zero (hs i)] at h
      push Not at h
      have : 0 < ∑ l, M i l := lt_trans (by positivity) h
      rw [← Finset.sum_div, div_self this.ne']

/-! ## Validators -/

theorem R.ok_bind {α β : Type} (a : α) (f : α → R β) : ((Except.ok a : R α) >>= f) = f a := rfl

theorem validateEnumerator_ok {v : PyVal K} {poss : List String} {s : String} :
    validateEnumerator v poss = .ok s ↔ v = .str s ∧ nonBlank s = true ∧ s ∈ poss := by
  unfold validateEnumerator
  split
  · next t =>
    rw [R.ite_throw, R.ite_throw, R.pure_ok]
    simp only [not_not, PyVal.str.injEq]
    constructor
    · rintro ⟨h1, h2, rfl⟩; exact ⟨rfl, h1, h2⟩
    · rintro ⟨rfl, h1, h2⟩; exact ⟨h1, h2, rfl⟩
  · next h => simp; intro h'; exact absurd h' (h s)

theorem validateInteger_ge {v : PyVal K} {b z : ℤ}
    (h : validateInteger v (some (b, false)) none = .ok z) : v = .int z ∧ b ≤ z := by
  rw [C03_integer_limits] at h
  exact ⟨h.1, h.2.2.1 b rfl⟩

theorem validateInteger_of_ge {b z : ℤ} (h : b ≤ z) :
    validateInteger (.int z : PyVal K) (some (b, false)) none = .ok z := by
  rw [C03_integer_limits]
  simp [WithinLimits, h]

theorem validateFloat_open {v : PyVal K} {a b x : K}
    (h : validateFloat v (some (a, true)) (some (b, true)) = .ok x) :
    v = .float (.fin x) ∧ a < x ∧ x < b := by
  rw [C03_float_limits] at h
  exact ⟨h.1, h.2.1 a rfl, h.2.2.2.1 b rfl⟩

theorem validateFloat_closed {v : PyVal K} {a b x : K}
    (h : validateFloat v (some (a, false)) (some (b, false)) = .ok x) :
    v = .float (.fin x) ∧ a ≤ x ∧ x ≤ b := by
  rw [C03_float_limits] at h
  exact ⟨h.1, h.2.2.1 a rfl, h.2.2.2.2 b rfl⟩

theorem validateFloat_of_open {a b x : K} (h : a < x) (h' : x < b) :
    validateFloat (.float (.fin x)) (some (a, true)) (some (b, true)) = .ok x := by
  rw [C03_float_limits]
  simp [WithinLimits, h, h']

theorem validateFloat_of_closed {a b x : K} (h : a ≤ x) (h' : x ≤ b) :
    validateFloat (.float (.fin x)) (some (a, false)) (some (b, false)) = .ok x := by
  rw [C03_float_limits]
  simp [WithinLimits, h, h']

theorem mem_numericVector_inUnit {l : List (Flt K)} (h : l.all Flt.inUnit = true) {x : K}
    (hx : x ∈ l.map Flt.val) : 0 ≤ x ∧ x ≤ 1 := by
  rw [List.mem_map] at hx
  obtain ⟨f, hf, rfl⟩ := hx
  have := (List.all_eq_true.1 h) f hf
  rw [inUnit_iff] at this
  obtain ⟨y, rfl, h0, h1⟩ := this
  exact ⟨h0, h1⟩

theorem listVec_mem {l : List K} {n : ℕ} (h : l.length = n) (i : Fin n) : listVec l n i ∈ l := by
  subst h
  unfold listVec
  rw [List.getD_eq_getElem _ _ i.isLt]
  exact List.getElem_mem _

end Verif
