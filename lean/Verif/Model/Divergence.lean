import Verif.Model.Aggregate
import Mathlib.Analysis.SpecialFunctions.Log.Base

/-!
# Model: the divergence of an aggregation

Models `kullback_leibler_divergence` of `/repo/pydtmc/computations.py` over the real numbers.
-/

namespace Verif

/-- An entry of `super_q` (`computations.py:302`): the products of matrices spread a `nan` of `q` to all
entries, because `nan * 0` is `nan`. -/
noncomputable def superQ {n : ℕ} (phi : List (Group n)) (q : Fin phi.length → Fin phi.length → Flt ℝ)
    (i j : Fin n) : Flt ℝ :=
  open Classical in
  if ∀ a b, (q a b).isFinite = true then
    .fin (∑ a, ∑ b, if phi.get a i = true ∧ phi.get b j = true then (q a b).val else 0)
  else .nan

/-- `nan_to_num(log2(x / y))` for `0 ≤ x`, `0 ≤ y` (`computations.py:303`, `computations.py:307`). Infinite
values are replaced by the largest number `big` or by its opposite, and `nan` by zero. -/
noncomputable def log2Ratio (big : ℝ) (x : ℝ) : Flt ℝ → ℝ
  | .fin y =>
    open Classical in
    if y = 0 then if x = 0 then 0 else big
    else if x = 0 then -big else Real.logb 2 (x / y)
  | _ => 0

/-- An entry of `super_pi` (`computations.py:306`). -/
noncomputable def superPi {n : ℕ} (x : Fin n → ℝ) (phi : List (Group n)) (j : Fin n) : ℝ :=
  ∑ a : Fin phi.length, if phi.get a j = true then groupDen x (phi.get a) else 0

/-- `kullback_leibler_divergence` (`computations.py:298-312`). -/
noncomputable def kullbackLeibler {n : ℕ} (big : ℝ) (P : Matrix (Fin n) (Fin n) ℝ) (x : Fin n → ℝ)
    (phi : List (Group n)) (q : Fin phi.length → Fin phi.length → Flt ℝ) : ℝ :=
  ∑ i, x i * ∑ j, P i j * log2Ratio big (P i j) (superQ phi q i j) -
    ∑ j, x j * log2Ratio big (x j) (.fin (superPi x phi j))

/-- The divergence of a list of groups, as computed for the candidates (`generators.py:262-263`). -/
noncomputable def groupDivergence {n : ℕ} (big : ℝ) (P : Matrix (Fin n) (Fin n) ℝ) (x : Fin n → ℝ)
    (phi : List (Group n)) : ℝ := kullbackLeibler big P x phi (calculateQ P x phi)

end Verif
