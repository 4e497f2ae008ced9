import Verif.Lemmas.Graph
import Mathlib.Tactic.NormNum

/-! Exponents of primitive matrices. -/

set_option linter.unusedSectionVars false

namespace Verif

open Finset

variable {K : Type*} [Field K] [LinearOrder K] [IsStrictOrderedRing K]
variable {ι : Type*} [Fintype ι] [DecidableEq ι]

theorem ReachIn.cons {P : ι → ι → K} {k : ℕ} {i j l : ι} (e : Edge P i j)
    (h : ReachIn P k j l) : ReachIn P (k + 1) i l := by
  have := (ReachIn.single e).trans h
  rwa [Nat.add_comm] at this

/-- In an irreducible graph every state reaches a given set within as many steps as there are
states outside the set. -/
theorem Irreducible.reach_set {P : ι → ι → K} (hP : Irreducible P) {L : Finset ι}
    (hL : L.Nonempty) (i : ι) :
    ∃ k, k ≤ Fintype.card ι - #L ∧ ∃ l ∈ L, ReachIn P k i l := by
  classical
  let S : ℕ → Finset ι := fun t => univ.filter fun m => ∃ k, k ≤ t ∧ ∃ l ∈ L, ReachIn P k m l
  have hS : ∀ t m, m ∈ S t ↔ ∃ k, k ≤ t ∧ ∃ l ∈ L, ReachIn P k m l := by
    intro t m; simp [S]
  have grow : ∀ t, S t = univ ∨ #L + t ≤ #(S t) := by
    intro t
    induction t with
    | zero =>
      right
      exact card_le_card fun m hm => (hS 0 m).2 ⟨0, le_rfl, m, hm, .refl m⟩
    | succ t ih =>
      have mono : S t ⊆ S (t + 1) := by
        intro m hm
        obtain ⟨k, hk, h⟩ := (hS t m).1 hm
        exact (hS _ m).2 ⟨k, by omega, h⟩
      by_cases hu : S t = univ
      · left
        exact univ_subset_iff.1 (hu ▸ mono)
      · right
        have ih := ih.resolve_left hu
        obtain ⟨x, hx⟩ : ∃ x, x ∉ S t := by
          by_contra hcon
          push Not at hcon
          exact hu (eq_univ_iff_forall.2 hcon)
        obtain ⟨l0, hl0⟩ := hL
        have hin : l0 ∈ S t := (hS t l0).2 ⟨0, by omega, l0, hl0, .refl l0⟩
        obtain ⟨y, z, hy, e, hz⟩ : ∃ y z, y ∉ S t ∧ Edge P y z ∧ z ∈ S t := by
          by_contra hcon
          push Not at hcon
          exact closedSet_reach (S := fun m => m ∉ S t) (fun a b ha e => hcon a b ha e) hx
            (hP x l0) hin
        have hy' : y ∈ S (t + 1) := by
          obtain ⟨k, hk, l, hl, hr⟩ := (hS t z).1 hz
          exact (hS _ y).2 ⟨k + 1, by omega, l, hl, hr.cons e⟩
        have : #(S t) < #(S (t + 1)) :=
          card_lt_card ((ssubset_iff_of_subset mono).2 ⟨y, hy', hy⟩)
        omega
  have hfin : S (Fintype.card ι - #L) = univ := by
    rcases grow (Fintype.card ι - #L) with h | h
    · exact h
    · have h1 : #L ≤ Fintype.card ι := card_le_univ L
      exact eq_univ_of_card _ (le_antisymm (card_le_univ _) (by omega))
  exact (hS _ i).1 (hfin ▸ mem_univ i)

theorem Irreducible.reach_lt {P : ι → ι → K} (hP : Irreducible P) (i j : ι) :
    ∃ k, k ≤ Fintype.card ι - 1 ∧ ReachIn P k i j := by
  obtain ⟨k, hk, h⟩ := (hP i j).exists_lt_card
  exact ⟨k, by omega, h⟩

/-- Walks can be prolonged at a state with a loop. -/
theorem ReachIn.pad {P : ι → ι → K} {i : ι} (e : Edge P i i) (k : ℕ) : ReachIn P k i i := by
  induction k with
  | zero => exact .refl i
  | succ k ih => exact ih.step e

theorem Primitive.irreducible {P : ι → ι → K} (hP : Primitive P) : Irreducible P := by
  obtain ⟨k, -, h⟩ := hP
  exact fun i j => (h i j).reach

/-- A primitive graph with `m` loops: every pair of states is connected by a walk of length
`2 n - m - 1`. -/
theorem Irreducible.exponent_loops {P : ι → ι → K} (hP : Irreducible P) {L : Finset ι}
    (hL : L.Nonempty) (hl : ∀ l ∈ L, Edge P l l) (i j : ι) :
    ReachIn P (2 * Fintype.card ι - #L - 1) i j := by
  obtain ⟨a, ha, l, hlL, h1⟩ := hP.reach_set hL i
  obtain ⟨b, hb, h2⟩ := hP.reach_lt l j
  have h1' : #L ≤ Fintype.card ι := card_le_univ L
  have h2' : 0 < #L := hL.card_pos
  have := (h1.trans (ReachIn.pad (hl l hlL) (2 * Fintype.card ι - #L - 1 - a - b))).trans h2
  rwa [show a + (2 * Fintype.card ι - #L - 1 - a - b) + b = 2 * Fintype.card ι - #L - 1 by omega]
    at this

/-- Full support persists. -/
theorem reachIn_all_mono {P : ι → ι → K} {m : ℕ} (h : ∀ i j, ReachIn P m i j)
    (hs : ∀ i, ∃ j, Edge P i j) {k : ℕ} (hk : m ≤ k) (i j : ι) : ReachIn P k i j := by
  obtain ⟨d, rfl⟩ := Nat.exists_eq_add_of_le hk
  clear hk
  induction d generalizing i with
  | zero => exact h i j
  | succ d ih =>
    obtain ⟨x, e⟩ := hs i
    exact (ih x).cons e

/-- Walks of the power matrix. -/
theorem reachIn_pow {P : Matrix ι ι K} (hP : ∀ i j, 0 ≤ P i j) (s k : ℕ) (i j : ι) :
    ReachIn (fun i j => (P ^ s) i j) k i j ↔ ReachIn P (s * k) i j := by
  refine (reachIn_iff_pow_pos (P := P ^ s) (nonneg_pow hP s) k i j).trans ?_
  rw [reachIn_iff_pow_pos hP, pow_mul]

/-- A crude bound on the exponent of a primitive matrix. -/
theorem Primitive.exponent {P : Matrix ι ι K} (h0 : ∀ i j, 0 ≤ P i j)
    (hs : ∀ i, ∃ j, Edge P i j) (hP : Primitive P) (k : ℕ)
    (hk : Fintype.card ι * (2 * Fintype.card ι - 2) ≤ k) (i j : ι) : ReachIn P k i j := by
  obtain ⟨x, e⟩ := hs i
  have hc : 0 < Fintype.card ι := Fintype.card_pos_iff.2 ⟨i⟩
  obtain ⟨b, hb, hr⟩ := hP.irreducible.reach_lt x i
  have hcyc : ReachIn P (b + 1) i i := hr.cons e
  have hirr : Irreducible (fun i j => (P ^ (b + 1)) i j) := by
    intro u v
    obtain ⟨m, hm, hall⟩ := hP
    have := reachIn_all_mono hall hs (k := (b + 1) * m) (Nat.le_mul_of_pos_left m (by omega)) u v
    exact ((reachIn_pow h0 _ _ u v).2 this).reach
  have hloop : Edge (fun i j => (P ^ (b + 1)) i j) i i := by
    have := (reachIn_iff_pow_pos h0 (b + 1) i i).1 hcyc
    exact this
  have hall : ∀ u v, ReachIn P ((b + 1) * (2 * Fintype.card ι - 1 - 1)) u v := by
    intro u v
    refine (reachIn_pow h0 _ _ u v).1 ?_
    have := hirr.exponent_loops (L := {i}) ⟨i, mem_singleton_self i⟩
      (fun l hl => by rw [mem_singleton.1 hl]; exact hloop) u v
    rwa [card_singleton] at this
  refine reachIn_all_mono hall hs (le_trans ?_ hk) i j
  exact Nat.mul_le_mul (by omega) (by omega)

theorem IsStochastic.exists_edge {P : ι → ι → K} (h : IsStochastic P) (i : ι) : ∃ j, Edge P i j := by
  by_contra hcon
  push Not at hcon
  have : ∑ j, P i j = 0 := sum_eq_zero fun j _ => le_antisymm (not_lt.1 (hcon j)) (h.1 i j)
  rw [h.2 i] at this
  exact one_ne_zero this

end Verif
