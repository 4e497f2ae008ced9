import Verif.Lemmas.Harmonic
import Verif.Lemmas.Primitive
import Verif.Props.Hitting

/-!
# Chains on a line that move by at most one place

Nothing in this file refers to the code of `/repo`, apart from general lemmas on hitting quantities.
-/

set_option linter.unusedSectionVars false

namespace Verif

open Finset

variable {K : Type} [Field K] [LinearOrder K] [IsStrictOrderedRing K] {n : ℕ}

/-- All moves go to the same place or to a neighbour. -/
def NearMoves (P : Fin n → Fin n → K) : Prop :=
  ∀ i j : Fin n, (j : ℕ) ≠ i + 1 → (j : ℕ) ≠ i → (j : ℕ) + 1 ≠ i → P i j = 0

theorem NearMoves.sum {P : Fin n → Fin n → K} (h : NearMoves P) {d i u : Fin n}
    (hd : (d : ℕ) + 1 = i) (hu : (u : ℕ) = i + 1) (f : Fin n → K) :
    ∑ j, P i j * f j = P i d * f d + P i i * f i + P i u * f u := by
  have h1 : d ≠ i := fun e => by rw [e] at hd; omega
  have h2 : d ≠ u := fun e => by rw [e] at hd; omega
  have h3 : i ≠ u := fun e => by rw [← e] at hu; omega
  rw [← Finset.sum_subset (Finset.subset_univ ({d, i, u} : Finset (Fin n)))]
  · rw [Finset.sum_insert (by simp [h1, h2]), Finset.sum_insert (by simp [h3]), Finset.sum_singleton]
    ring
  · intro j _ hj
    simp only [Finset.mem_insert, Finset.mem_singleton, not_or] at hj
    rw [h i j (fun e => hj.2.2 (Fin.ext (by omega))) (fun e => hj.2.1 (Fin.ext (by omega)))
      (fun e => hj.1 (Fin.ext (by omega))), zero_mul]

/-- If the move down is always `γ` times as likely as the move up, the partial sums of the powers of
`γ` keep their mean. -/
theorem NearMoves.harmonic {P : Fin n → Fin n → K} (hP : IsStochastic P) (h : NearMoves P)
    {d i u : Fin n} (hd : (d : ℕ) + 1 = i) (hu : (u : ℕ) = i + 1) {γ : K}
    (hγ : P i d = γ * P i u) :
    ∑ j, P i j * ∑ k ∈ range (j : ℕ), γ ^ k = ∑ k ∈ range (i : ℕ), γ ^ k := by
  have h1 := h.sum hd hu fun _ => (1 : K)
  simp only [mul_one, hP.2 i] at h1
  rw [h.sum hd hu, hu, ← hd, Finset.sum_range_succ _ ((d : ℕ) + 1), Finset.sum_range_succ _ (d : ℕ)]
  have h2 : P i i = 1 - P i d - P i u := by linear_combination -h1
  rw [h2, hγ]
  ring

/-- Positive moves down lead to the first place. -/
theorem reach_bottom {P : Fin n → Fin n → K}
    (h : ∀ i d : Fin n, (d : ℕ) + 1 = i → (i : ℕ) + 1 < n → 0 < P i d) {z : Fin n} (hz : (z : ℕ) = 0) :
    ∀ i : Fin n, (i : ℕ) + 1 < n → Reach P i z := by
  rintro ⟨k, hk⟩
  induction k with
  | zero =>
    intro _
    have : (⟨0, hk⟩ : Fin n) = z := Fin.ext hz.symm
    rw [this]
    exact Relation.ReflTransGen.refl
  | succ k ih =>
    intro hk'
    have hk'' : k + 1 + 1 < n := hk'
    exact Relation.ReflTransGen.head (h ⟨k + 1, hk⟩ ⟨k, by omega⟩ rfl hk')
      (ih (by omega) (by simp only; omega))

/-- A chain whose moves to both neighbours have positive probability is irreducible. -/
theorem near_irreducible {P : Fin n → Fin n → K}
    (hu : ∀ i u : Fin n, (u : ℕ) = i + 1 → 0 < P i u) (hd : ∀ i d : Fin n, (d : ℕ) + 1 = i → 0 < P i d) :
    Irreducible P := by
  have up : ∀ (m : ℕ) (i j : Fin n), (j : ℕ) = i + m → Reach P i j := by
    intro m
    induction m with
    | zero =>
      intro i j hj
      have : i = j := Fin.ext (by omega)
      rw [this]
      exact Relation.ReflTransGen.refl
    | succ m ih =>
      intro i j hj
      have hlt := j.isLt
      exact Relation.ReflTransGen.head (hu i ⟨i + 1, by omega⟩ rfl)
        (ih ⟨i + 1, by omega⟩ j (by simp only; omega))
  have down : ∀ (m : ℕ) (i j : Fin n), (j : ℕ) + m = i → Reach P i j := by
    intro m
    induction m with
    | zero =>
      intro i j hj
      have : i = j := Fin.ext (by omega)
      rw [this]
      exact Relation.ReflTransGen.refl
    | succ m ih =>
      intro i j hj
      have hlt := i.isLt
      exact Relation.ReflTransGen.head (hd i ⟨i - 1, by omega⟩ (by simp only; omega))
        (ih ⟨i - 1, by omega⟩ j (by simp only; omega))
  intro i j
  rcases le_total (i : ℕ) j with hle | hle
  · exact up (j - i) i j (by omega)
  · exact down (i - j) i j (by omega)

/-- From an absorbing state only itself is reached. -/
theorem absorbing_reach {P : Fin n → Fin n → K} (hP : IsStochastic P) {i j : Fin n} (hi : P i i = 1)
    (h : Reach P i j) : j = i := by
  refine closedSet_reach (S := fun k => k = i) ?_ rfl h
  rintro x y rfl hxy
  by_contra hne
  have h1 : P x x + P x y ≤ ∑ j, P x j := by
    rw [← Finset.sum_pair (f := fun j => P x j) (Ne.symm hne)]
    exact Finset.sum_le_univ_sum_of_nonneg fun j => hP.1 x j
  rw [hP.2 x, hi] at h1
  have : 0 < P x y := hxy
  linarith

/-- The chance of ever reaching the last place: a function that keeps its mean inside, is zero at the
first place and positive at the last. -/
theorem top_hitting {P : Matrix (Fin n) (Fin n) K} (hP : IsStochastic fun i j => P i j) {z t : Fin n}
    (hz : P z z = 1) (hzt : z ≠ t)
    (hr : ∀ i, ∃ b, (b = z ∨ b = t) ∧ Reach (fun i j => P i j) i b) {φ : Fin n → K} (h0 : φ z = 0)
    (ht : φ t ≠ 0) (hin : ∀ i, i ≠ z → i ≠ t → ∑ j, P i j * φ j = φ i) {g : Fin n → K}
    (hg : IsHittingProbability (fun i j => P i j) (· = t) g) (i : Fin n) : g i = φ i / φ t := by
  have hgz : g z = 0 := by
    obtain ⟨g', hg', hg0⟩ := exists_hittingProbability hP (· = t)
    rw [hittingProbability_unique hg hg']
    refine hg0 z ?_
    rintro ⟨s, rfl, hs⟩
    exact hzt (absorbing_reach hP hz hs).symm
  refine congrFun (harmonic_unique hP (B := fun i => i = z ∨ i = t) (b := fun _ => 0)
    (w := fun i => φ i / φ t) hr ?_ ?_ ?_) i
  · rintro i (rfl | rfl)
    · rw [hgz, h0, zero_div]
    · rw [hg.1.1 i rfl, div_self ht]
  · intro i hi
    rw [zero_add]
    exact hg.1.2 i fun e => hi (Or.inr e)
  · intro i hi
    rw [not_or] at hi
    rw [zero_add, ← hin i hi.1 hi.2, Finset.sum_div]
    exact Finset.sum_congr rfl fun j _ => mul_div_assoc _ _ _

/-- Irreducible with a state that can stay: ergodic. -/
theorem ergodic_of_loop {P : Fin n → Fin n → K} (hi : Irreducible P) {s : Fin n} (hs : 0 < P s s) :
    Ergodic P := by
  refine ⟨hi, fun i => ⟨fun k _ => one_dvd k, fun e he => ?_⟩⟩
  obtain ⟨a, ha⟩ := reach_iff_reachIn.1 (hi i s)
  obtain ⟨b, hb⟩ := reach_iff_reachIn.1 (hi s i)
  have h1 := he _ (ha.trans hb)
  have h2 := he _ ((ReachIn.step ha hs).trans hb)
  have h3 := (Nat.dvd_add_right h1).1 (show e ∣ a + b + 1 by rwa [show a + b + 1 = a + 1 + b by omega])
  exact h3

/-- The mean of a function of the place after one move, also at the ends of the line. -/
theorem NearMoves.mean {P : Fin n → Fin n → K} (h : NearMoves P) {i : Fin n} {up dn : K}
    (hu : ∀ u : Fin n, (u : ℕ) = i + 1 → P i u = up) (hu0 : (i : ℕ) + 1 = n → up = 0)
    (hd : ∀ d : Fin n, (d : ℕ) + 1 = i → P i d = dn) (hd0 : (i : ℕ) = 0 → dn = 0) (f : ℕ → K) :
    ∑ j, P i j * f j = P i i * f i + up * f (i + 1) + dn * f (i - 1) := by
  have hi := i.isLt
  have h1 : ∀ j, P i j * f j = (if j = i then P i i * f i else 0) +
      (if (j : ℕ) = i + 1 then up * f (i + 1) else 0) +
      (if (j : ℕ) + 1 = i then dn * f (i - 1) else 0) := by
    intro j
    by_cases e1 : (j : ℕ) = i + 1
    · rw [if_neg (fun e => by rw [e] at e1; omega), if_pos e1, if_neg (by omega), hu j e1, e1]
      ring
    by_cases e2 : (j : ℕ) = i
    · have : j = i := Fin.ext e2
      rw [if_pos this, if_neg e1, if_neg (by omega), this]
      ring
    by_cases e3 : (j : ℕ) + 1 = i
    · rw [if_neg (fun e => e2 (by rw [e])), if_neg e1, if_pos e3, hd j e3, ← e3, Nat.add_sub_cancel]
      ring
    · rw [if_neg (fun e => e2 (by rw [e])), if_neg e1, if_neg e3, h i j e1 e2 e3]
      ring
  rw [Finset.sum_congr rfl fun j _ => h1 j, Finset.sum_add_distrib, Finset.sum_add_distrib,
    Finset.sum_ite_eq' univ i, if_pos (mem_univ _)]
  congr 1
  · congr 1
    by_cases e : (i : ℕ) + 1 = n
    · rw [hu0 e]
      simp
    · rw [Finset.sum_congr rfl (g := fun j => if j = ⟨i + 1, by omega⟩ then up * f (i + 1) else 0)]
      · simp
      · intro j _
        congr 1
        exact propext ⟨fun e => Fin.ext e, fun e => by rw [e]⟩
  · by_cases e : (i : ℕ) = 0
    · rw [hd0 e]
      simp
    · rw [Finset.sum_congr rfl (g := fun j => if j = ⟨i - 1, by omega⟩ then dn * f (i - 1) else 0)]
      · simp
      · intro j _
        congr 1
        exact propext ⟨fun e => Fin.ext (by simp only; omega), fun e => by rw [e]; simp only; omega⟩

/-- If all moves change the parity of the place, a return takes an even number of steps. -/
theorem parity_return {P : Fin n → Fin n → K}
    (h : ∀ i j : Fin n, Edge P i j → ((i : ℕ) + 1) % 2 = (j : ℕ) % 2) {k : ℕ} {i j : Fin n}
    (hr : ReachIn P k i j) : ((i : ℕ) + k) % 2 = (j : ℕ) % 2 := by
  induction hr with
  | refl => rfl
  | step hs he ih =>
    have := h _ _ he
    omega

end Verif
