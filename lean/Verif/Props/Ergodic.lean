import Verif.Props.Regular
import Verif.Props.Passage
import Mathlib.NumberTheory.FrobeniusNumber

/-!
# Ergodic and regular chains (C88)
-/

set_option linter.unusedSectionVars false

namespace Verif

variable {K : Type} [Field K] [LinearOrder K] [IsStrictOrderedRing K]

/-- An ergodic chain returns to a state after every large number of steps. -/
theorem Ergodic.eventually {n : ℕ} {P : Fin n → Fin n → K} (he : Ergodic P) (i : Fin n) :
    ∃ N, ∀ k ≥ N, ReachIn P k i i := by
  obtain ⟨S, hS⟩ : ∃ S : AddSubmonoid ℕ, ∀ k, k ∈ S ↔ ReachIn P k i i :=
    ⟨{ carrier := {k | ReachIn P k i i}
       add_mem' := fun h1 h2 => ReachIn.trans h1 h2
       zero_mem' := ReachIn.refl i }, fun k => Iff.rfl⟩
  obtain ⟨N, hN⟩ := Nat.exists_mem_closure_of_ge (s := (S : Set ℕ))
  have h1 : Nat.setGcd (S : Set ℕ) ∣ 1 :=
    (he.2 i).2 _ fun k hk => Nat.setGcd_dvd_of_mem ((hS k).2 hk)
  refine ⟨N, fun k hk => (hS k).1 ?_⟩
  have := hN k hk (h1.trans (one_dvd k))
  rwa [AddSubmonoid.closure_eq] at this

/-- A chain is ergodic exactly when some power of its matrix has only positive entries. -/
theorem ergodic_iff_primitive {n : ℕ} {P : Fin n → Fin n → K} (hP : IsStochastic P) :
    Ergodic P ↔ Primitive P := by
  constructor
  · intro he
    choose N hN using fun i => he.eventually i
    choose d hd using fun i j => reach_iff_reachIn.1 (he.1 i j)
    refine ⟨∑ i, (N i + ∑ j, d i j) + 1, by omega, fun i j => ?_⟩
    have h1 : N i + ∑ j, d i j ≤ ∑ i, (N i + ∑ j, d i j) :=
      Finset.single_le_sum (f := fun i => N i + ∑ j, d i j) (fun _ _ => Nat.zero_le _)
        (Finset.mem_univ i)
    have h2 : d i j ≤ ∑ j, d i j :=
      Finset.single_le_sum (f := fun j => d i j) (fun _ _ => Nat.zero_le _) (Finset.mem_univ j)
    obtain ⟨T, hT⟩ : ∃ T, T = ∑ i, (N i + ∑ j, d i j) + 1 := ⟨_, rfl⟩
    rw [← hT]
    have h3 := (hN i (T - d i j) (by omega)).trans (hd i j)
    rwa [Nat.sub_add_cancel (by omega)] at h3
  · intro hp
    refine ⟨hp.irreducible, fun i => ⟨fun k _ => one_dvd k, fun e h => ?_⟩⟩
    obtain ⟨k, -, hk⟩ := hp
    have h1 := h k (hk i i)
    have h2 := h (k + 1) (reachIn_all_mono hk hP.exists_edge (Nat.le_succ k) i i)
    exact (Nat.dvd_add_right h1).1 h2

/-- C88. `is_ergodic` and `is_regular` agree on every chain, although one is computed from the
communicating classes and their periods and the other one from a power of the matrix. -/
theorem C88_ergodic_iff_regular {c : MC K} (hc : c.Valid) {nx : Nx c.n} (hx : nx.Sound c.p) :
    isErgodic c nx = true ↔ isRegular c = true := by
  rw [isErgodic_iff hc hx, C31_regular hc]
  exact ergodic_iff_primitive hc.2.1

/-- The hypotheses of `C88_ergodic_iff_regular` can be met by a chain that is ergodic and by one that
is not. -/
example : exLoop.Valid ∧ (Nx.ofClasses (fun i j : Fin 2 => exLoop.p i j) [[0, 1]] true).Sound exLoop.p ∧
    isRegular exLoop = true ∧ exTwoClocks.Valid ∧ exTwoClocksNx.Sound exTwoClocks.p ∧
    isRegular exTwoClocks = false := by
  refine ⟨by decide +kernel, Nx.ofClasses_sound true ?_, by decide +kernel, by decide +kernel,
    Nx.ofClasses_sound false ?_, by decide +kernel⟩
  · decide +kernel
  · change IsClasses (fun i j : Fin 4 => exTwoClocks.p i j) [[0, 1], [2, 3]]
    decide +kernel

end Verif
