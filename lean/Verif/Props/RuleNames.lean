import Verif.Props.GaussLegendre
import Verif.Props.QuadratureDegree
import Verif.Props.TransitionFunction

/-!
# Rules of `fit_function` by their names, and blank labels
-/

namespace Verif

/-- C154. The rules that the names stand for, by the degrees of the polynomials they integrate and by their nodes. -/
theorem C154_by_name_partial (a b : ℝ) {n : ℕ} (hn : 2 ≤ n) :
    (∃ x w, quadrature (ruleNamed "trapezoid-rule") a b n = some (x, w) ∧ Integrates x w a b 1 ∧
      x ⟨0, by omega⟩ = a ∧ x ⟨n - 1, by omega⟩ = b) ∧
    (n % 2 = 1 → ∃ x w, quadrature (ruleNamed "simpson-rule") a b n = some (x, w) ∧ Integrates x w a b 3 ∧
      x ⟨0, by omega⟩ = a ∧ x ⟨n - 1, by omega⟩ = b) ∧
    (∃ x w, quadrature (ruleNamed "gauss-chebyshev") a b n = some (x, w) ∧ Integrates x w a b (n - 1)) ∧
    (∃ x w, quadrature (ruleNamed "niederreiter") a b n = some (x, w) ∧ Integrates x w a b 0 ∧
      ∀ j, x j = a + Int.fract ((j + 1) * Real.sqrt 2) * (b - a)) ∧
    (∃ x w, quadrature (ruleNamed "newton-cotes") a b n = some (x, w) ∧ Integrates x w a b 0 ∧
      (a < b → (Integrates x w a b 1 ↔ a = 0)) ∧ ∀ i j, w i = w j) ∧
    (a < b → ∃ g v : Fin n → ℝ, Integrates g v a b (2 * n - 1) ∧
      ∀ x w, quadrature (ruleNamed "gauss-legendre") a b n = some (x, w) →
        ∀ j, ∃ i, |x j - g i| ≤ (n + 1) / 10 ^ 8 * ((b - a) / 2)) := by
  have hn1 : (n : ℝ) - 1 ≠ 0 := by
    have : (2 : ℝ) ≤ n := by exact_mod_cast hn
    linarith
  have hlast : a + ((n - 1 : ℕ) : ℝ) * ((b - a) / ((n : ℝ) - 1)) = b := by
    rw [Nat.cast_sub (by omega), Nat.cast_one]
    field_simp
    ring
  refine ⟨?_, fun ho => ?_, C154_chebyshev a b hn, ?_, ?_, fun hab => ?_⟩
  · obtain ⟨x, w, h, hi⟩ := C154_trapezoid a b hn
    refine ⟨x, w, h, hi, ?_⟩
    cases h
    exact ⟨by simp [linspace], hlast⟩
  · obtain ⟨x, w, h, hi⟩ := C154_simpson a b hn ho
    refine ⟨x, w, h, hi, ?_⟩
    cases h
    exact ⟨by simp [linspace], hlast⟩
  · obtain ⟨x, w, h, hi⟩ := C154_niederreiter a b hn
    refine ⟨x, w, h, hi, ?_⟩
    cases h
    exact fun j => rfl
  · obtain ⟨x, w, h, hi, h1⟩ := C154_newton_cotes_partial a b hn
    refine ⟨x, w, h, hi, h1, ?_⟩
    cases h
    exact fun i j => rfl
  · obtain ⟨g, v, -, -, hi, h⟩ := C154_legendre_nodes_partial hab (by omega : 0 < n)
    exact ⟨g, v, hi, fun x w hq => (h x w hq).1⟩

/-- The code points for which `str.isspace()` holds. -/
def blankCodes : List ℕ :=
  [9, 10, 11, 12, 13, 28, 29, 30, 31, 32, 133, 160, 5760, 8192, 8193, 8194, 8195, 8196, 8197, 8198, 8199, 8200, 8201,
    8202, 8232, 8233, 8239, 8287, 12288]

/-- C01. A label is blank if all of its characters are. -/
theorem C01_blank_labels (s : String) : nonBlank s = true ↔ ∃ ch ∈ s.toList, ch.toNat ∉ blankCodes := by
  have key : ∀ ch : Char, (!pyIsSpace ch) = true ↔ ch.toNat ∉ blankCodes := by
    intro ch
    simp only [pyIsSpace, blankCodes, List.mem_cons, List.not_mem_nil, or_false, Bool.not_eq_true', Bool.or_eq_false_iff,
      Bool.and_eq_false_iff, decide_eq_false_iff_not, beq_eq_false_iff_ne]
    generalize ch.toNat = n
    omega
  unfold nonBlank
  rw [List.any_eq_true]
  exact exists_congr fun ch => and_congr_right fun _ => key ch

example : nonBlank "  " = false ∧ nonBlank " a" = true := by decide

end Verif
