import Verif.Lemmas.Primitive
import Verif.Props.Absorbing
import Mathlib.Algebra.Order.Ring.Nat

/-!
# Regular chains (C31)
-/

set_option linter.unusedSectionVars false

namespace Verif

open Finset

variable {K : Type} [Field K] [LinearOrder K] [IsStrictOrderedRing K]

theorem two_states_parity {P : Matrix (Fin 2) (Fin 2) K} (h : ∀ i, P i i = 0) {k : ℕ} {i j : Fin 2}
    (hr : ReachIn P k i j) : (k % 2 = 0 ↔ i = j) := by
  induction hr with
  | refl => simp
  | @step k i j l _ e ih =>
    have hne : j ≠ l := by
      rintro rfl
      have e' : 0 < P j j := e
      rw [h j] at e'
      exact lt_irrefl _ e'
    have h3 : i ≠ j → i = l :=
      (by decide : ∀ a b c : Fin 2, b ≠ c → a ≠ b → a = c) i j l hne
    constructor
    · intro hk
      apply h3
      intro hij
      have := ih.2 hij
      omega
    · intro hil
      have : ¬ i = j := fun hij => hne (hij.symm.trans hil)
      have : ¬ k % 2 = 0 := fun hk => this (ih.1 hk)
      omega

/-- C31: the single power inspected by `is_regular` decides whether some power of the transition
matrix has only positive entries, for chains of every size. -/
theorem C31_regular {c : MC K} (hc : c.Valid) : isRegular c = true ↔ Primitive c.p := by
  obtain ⟨hn, hst, -⟩ := hc
  have h0 := hst.1
  have hs : ∀ i, ∃ j, Edge c.p i j := hst.exists_edge
  have hcard : Fintype.card (Fin c.n) = c.n := Fintype.card_fin _
  set L : Finset (Fin c.n) := univ.filter fun i => c.p i i ≠ 0 with hLdef
  have hmem : ∀ l, l ∈ L ↔ c.p l l ≠ 0 := by intro l; simp [hLdef]
  have hlen : ((List.finRange c.n).filter fun i => c.p i i ≠ 0).length = #L := by
    have e : L = ((List.finRange c.n).filter fun i => c.p i i ≠ 0).toFinset := by
      ext l
      rw [hmem, List.mem_toFinset, List.mem_filter]
      simp
    rw [e, List.toFinset_card_of_nodup ((List.nodup_finRange _).filter _)]
  have hle : #L ≤ c.n := by simpa using card_le_univ L
  unfold isRegular
  simp only [hlen, decide_eq_true_eq]
  have key : ∀ k : ℕ, (∀ i j, hasEdge (c.p ^ k) i j = true) ↔ ∀ i j, ReachIn c.p k i j := by
    intro k
    refine forall_congr' fun i => forall_congr' fun j => ?_
    rw [hasEdge_iff]
    exact (reachIn_iff_pow_pos h0 k i j).symm
  rw [key]
  by_cases hz : #L > 0
  · rw [if_pos hz]
    constructor
    · intro h
      exact ⟨_, by omega, h⟩
    · intro hp i j
      have := hp.irreducible.exponent_loops (card_pos.1 hz)
        (fun l hl => lt_of_le_of_ne (h0 l l) (Ne.symm ((hmem l).1 hl))) i j
      rwa [hcard] at this
  · rw [if_neg hz]
    constructor
    · intro h
      exact ⟨_, by omega, h⟩
    · intro hp
      by_cases h2 : c.n = 2
      · exfalso
        have hL0 : L = ∅ := card_eq_zero.1 (by omega)
        have hdiag : ∀ i, c.p i i = 0 := by
          intro i
          by_contra hcon
          have := (hmem i).2 hcon
          rw [hL0] at this
          exact absurd this (notMem_empty _)
        obtain ⟨k, -, hall⟩ := hp
        obtain ⟨n, p, st⟩ := c
        change n = 2 at h2
        subst h2
        have e0 := two_states_parity hdiag (hall 0 0)
        have e1 := two_states_parity hdiag (hall 0 1)
        simp at e0 e1
        omega
      · intro i j
        refine hp.exponent h0 hs _ ?_ i j
        rw [hcard]
        have h3 : 3 ≤ c.n := by omega
        have hp3 : c.n ^ 3 ≤ c.n ^ c.n := Nat.pow_le_pow_right (by omega) h3
        obtain ⟨m, hm⟩ : ∃ m, c.n = m + 3 := ⟨c.n - 3, by omega⟩
        generalize c.n ^ c.n = X at hp3 ⊢
        rw [hm] at hp3 ⊢
        have e1 : (m + 3) * (2 * (m + 3) - 2) = 2 * m * m + 10 * m + 12 := by
          rw [show 2 * (m + 3) - 2 = 2 * m + 4 by omega]; ring
        have e2 : 2 * m * m + 10 * m + 12 + 2 * (m + 3) ≤ (m + 3) ^ 3 + 2 := by
          have : (m + 3) ^ 3 = m * m * m + 9 * (m * m) + 27 * m + 27 := by ring
          have : 0 ≤ m * m * m := Nat.zero_le _
          have : 0 ≤ m * m := Nat.zero_le _
          nlinarith
        rw [e1]
        omega

/-- A periodic chain is not regular. -/
def exSwap : MC ℚ := ⟨2, !![0, 1; 1, 0], ["a", "b"]⟩

/-- A chain without loops which needs a high power: a cycle of length 3 with a chord. -/
def exChord : MC ℚ := ⟨3, !![0, 1, 0; 0, 0, 1; 1 / 2, 1 / 2, 0], ["a", "b", "c"]⟩

/-- The hypotheses of `C31_regular` are met, with both answers. -/
example : exSwap.Valid ∧ exChord.Valid ∧ exDrunkard.Valid ∧ isRegular exSwap = false ∧
    isRegular exChord = true ∧ isRegular exDrunkard = false := by decide +kernel

end Verif
