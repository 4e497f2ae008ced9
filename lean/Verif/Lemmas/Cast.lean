import Verif.Lemmas.Graph
import Verif.Spec.Valid
import Verif.Model.Structure
import Mathlib.Data.Rat.Cast.Order
import Mathlib.Data.Rat.BigOperators
import Mathlib.Data.Real.Basic

/-!
Chains with rational entries seen as chains with real entries. Used for concrete instances of
theorems about real numbers.
-/

set_option linter.unusedSectionVars false

namespace Verif

section Decide

variable {K : Type*} [Field K] [LinearOrder K] [IsStrictOrderedRing K]
variable {ι : Type*} [Fintype ι] [DecidableEq ι]

instance (P : ι → ι → K) (i : ι) : Decidable (TransientState P i) := by
  unfold TransientState; infer_instance

instance (P : ι → ι → K) (i : ι) : Decidable (AbsorbingState P i) := by
  unfold AbsorbingState; infer_instance

instance (P : ι → ι → K) : Decidable (AbsorbingChain P) := by
  unfold AbsorbingChain; infer_instance

end Decide

/-- The same chain over the real numbers. -/
noncomputable def MC.toReal (c : MC ℚ) : MC ℝ := ⟨c.n, fun i j => (c.p i j : ℝ), c.states⟩

variable {c : MC ℚ}

theorem toReal_stochastic (h : IsStochastic fun i j => c.p i j) :
    IsStochastic fun i j => c.toReal.p i j := by
  refine ⟨fun i j => ?_, fun i => ?_⟩
  · have h1 : 0 ≤ c.p i j := h.1 i j
    change (0 : ℝ) ≤ ((c.p i j : ℚ) : ℝ)
    exact_mod_cast h1
  · have h1 : ∑ j, c.p i j = 1 := h.2 i
    change ∑ j, ((c.p i j : ℚ) : ℝ) = 1
    exact_mod_cast h1

theorem toReal_valid (h : c.Valid) : c.toReal.Valid := ⟨h.1, toReal_stochastic h.2.1, h.2.2⟩

theorem toReal_edge (i j : Fin c.n) :
    Edge (fun i j => c.toReal.p i j) i j ↔ Edge (fun i j => c.p i j) i j := by
  change (0 : ℝ) < ((c.p i j : ℚ) : ℝ) ↔ 0 < c.p i j
  exact_mod_cast Iff.rfl

theorem toReal_reach (i j : Fin c.n) :
    Reach (fun i j => c.toReal.p i j) i j ↔ Reach (fun i j => c.p i j) i j := by
  unfold Reach
  have : Edge (fun i j => c.toReal.p i j) = Edge (fun i j => c.p i j) := by
    funext i j
    exact propext (toReal_edge i j)
  rw [this]
  exact Iff.rfl

theorem toReal_isClasses {l : List (List (Fin c.n))} (h : IsClasses (fun i j => c.p i j) l) :
    IsClasses (fun i j => c.toReal.p i j) l :=
  ⟨h.cover, h.nodup, h.ne_nil, h.disjoint, fun C hC i hi j =>
    (h.mem_iff C hC i hi j).trans
      (and_congr (toReal_reach i j).symm (toReal_reach j i).symm)⟩

theorem toReal_irreducible (h : Irreducible fun i j => c.p i j) :
    Irreducible fun i j => c.toReal.p i j := fun i j => (toReal_reach i j).2 (h i j)

theorem toReal_absorbingState {i : Fin c.n} :
    AbsorbingState (fun i j => c.toReal.p i j) i ↔ AbsorbingState (fun i j => c.p i j) i := by
  change ((c.p i i : ℚ) : ℝ) = 1 ↔ c.p i i = 1
  exact_mod_cast Iff.rfl

theorem toReal_absorbingChain (h : AbsorbingChain fun i j => c.p i j) :
    AbsorbingChain fun i j => c.toReal.p i j := by
  obtain ⟨⟨a, ha⟩, h2⟩ := h
  refine ⟨⟨a, toReal_absorbingState.2 ha⟩, fun i => ?_⟩
  obtain ⟨b, hb, hr⟩ := h2 i
  exact ⟨b, toReal_absorbingState.2 hb, (toReal_reach i b).2 hr⟩

theorem toReal_transientState {i : Fin c.n} (h : TransientState (fun i j => c.p i j) i) :
    TransientState (fun i j => c.toReal.p i j) i := by
  intro hr
  exact h fun j hj => (toReal_reach j i).1 (hr j ((toReal_reach i j).2 hj))

theorem isclose_cast (x y : ℚ) : isclose (x : ℝ) (y : ℝ) = isclose x y := by
  unfold isclose
  congr 1
  rw [eq_iff_iff]
  have : ((|x - y| : ℚ) : ℝ) ≤ ((1 / 10 ^ 8 + 1 / 10 ^ 5 * |y| : ℚ) : ℝ) ↔
    |x - y| ≤ 1 / 10 ^ 8 + 1 / 10 ^ 5 * |y| := Rat.cast_le
  rw [← this]
  push_cast
  exact Iff.rfl

end Verif
