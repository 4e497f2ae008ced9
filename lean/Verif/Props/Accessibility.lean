import Verif.Lemmas.Generators
import Verif.Props.Classes
import Mathlib.Data.Matrix.Basic
import Mathlib.Tactic.NormNum
import Mathlib.Tactic.FieldSimp

/-!
# Accessibility (C26)
-/

set_option linter.unusedSectionVars false

namespace Verif

variable {K : Type} [Field K] [LinearOrder K] [IsStrictOrderedRing K]

/-- The adjacency matrix as numbers without overflow. -/
def adjacencyNat {n : ℕ} (P : Matrix (Fin n) (Fin n) K) : Matrix (Fin n) (Fin n) ℕ :=
  fun i j => if 0 < P i j then 1 else 0

theorem adjacency_pow {n : ℕ} (P : Matrix (Fin n) (Fin n) K) (k : ℕ) (i j : Fin n) :
    ((1 + adjacency P) ^ k) i j = ((((1 + adjacencyNat P) ^ k) i j : ℕ) : BitVec 64) := by
  have h : (1 + adjacency P) = (Nat.castRingHom (BitVec 64)).mapMatrix (1 + adjacencyNat P) := by
    rw [map_add, map_one]
    congr 1
    ext1 i j
    simp only [adjacency, adjacencyNat, RingHom.mapMatrix_apply, Matrix.map_apply]
    split <;> simp
  rw [h, ← map_pow]
  simp

theorem adjacencyNat_pos {n : ℕ} (P : Matrix (Fin n) (Fin n) K) (k : ℕ) (i j : Fin n) :
    0 < ((1 + adjacencyNat P) ^ k) i j ↔ ∃ l, l ≤ k ∧ ReachIn P l i j := by
  induction k generalizing j with
  | zero =>
    simp only [pow_zero, Nat.le_zero_eq, exists_eq_left, Matrix.one_apply]
    refine Iff.trans ?_ (reachIn_zero (P := fun i j => P i j)).symm
    split <;> simp_all
  | succ k ih =>
    rw [pow_succ, Matrix.mul_apply, Finset.sum_pos_iff]
    simp only [Finset.mem_univ, true_and, CanonicallyOrderedAdd.mul_pos]
    constructor
    · rintro ⟨m, h1, h2⟩
      obtain ⟨l, hl, hr⟩ := (ih m).1 h1
      by_cases hmj : m = j
      · subst hmj; exact ⟨l, by omega, hr⟩
      · refine ⟨l + 1, by omega, hr.step ?_⟩
        rw [Matrix.add_apply, Matrix.one_apply_ne hmj, zero_add] at h2
        by_contra hcon
        have : adjacencyNat P m j = 0 := if_neg hcon
        omega
    · rintro ⟨l, hl, hr⟩
      by_cases hlk : l ≤ k
      · refine ⟨j, (ih j).2 ⟨l, hlk, hr⟩, ?_⟩
        rw [Matrix.add_apply, Matrix.one_apply_eq]
        omega
      · have : l = k + 1 := by omega
        subst this
        obtain ⟨m, hm, e⟩ := reachIn_succ.1 hr
        refine ⟨m, (ih m).2 ⟨k, le_rfl, hm⟩, ?_⟩
        rw [Matrix.add_apply]
        have : adjacencyNat P m j = 1 := if_pos e
        omega

theorem adjacencyNat_le {n : ℕ} (P : Matrix (Fin n) (Fin n) K) (k : ℕ) (i : Fin n) :
    ∑ j, ((1 + adjacencyNat P) ^ k) i j ≤ (n + 1) ^ k := by
  induction k with
  | zero => simp [Matrix.one_apply]
  | succ k ih =>
    have row : ∀ m, ∑ j, (1 + adjacencyNat P) m j ≤ n + 1 := by
      intro m
      simp only [Matrix.add_apply, Finset.sum_add_distrib, Matrix.one_apply]
      have h1 : ∑ j : Fin n, (if m = j then 1 else 0) = 1 := by simp
      have h2 : ∑ j, adjacencyNat P m j ≤ ∑ _j : Fin n, 1 :=
        Finset.sum_le_sum fun j _ => by unfold adjacencyNat; split <;> omega
      simp only [Finset.sum_const, Finset.card_univ, Fintype.card_fin, smul_eq_mul, mul_one] at h2
      omega
    calc ∑ j, ((1 + adjacencyNat P) ^ (k + 1)) i j
        = ∑ m, ((1 + adjacencyNat P) ^ k) i m * ∑ j, (1 + adjacencyNat P) m j := by
          simp only [pow_succ, Matrix.mul_apply, Finset.mul_sum]
          exact Finset.sum_comm
      _ ≤ ∑ m, ((1 + adjacencyNat P) ^ k) i m * (n + 1) :=
          Finset.sum_le_sum fun m _ => Nat.mul_le_mul_left _ (row m)
      _ = (∑ m, ((1 + adjacencyNat P) ^ k) i m) * (n + 1) := (Finset.sum_mul _ _ _).symm
      _ ≤ (n + 1) ^ k * (n + 1) := Nat.mul_le_mul_right _ ih
      _ = (n + 1) ^ (k + 1) := (pow_succ _ _).symm

/-- A bound on the single entries. -/
theorem adjacencyNat_entry_le {n : ℕ} (P : Matrix (Fin n) (Fin n) K) (k : ℕ) (i j : Fin n) :
    ((1 + adjacencyNat P) ^ k) i j ≤ 1 + ∑ l ∈ Finset.range k, (n + 1) ^ l := by
  induction k generalizing j with
  | zero =>
    rw [pow_zero, Matrix.one_apply]
    split <;> simp
  | succ k ih =>
    rw [pow_succ, Matrix.mul_apply, Finset.sum_range_succ]
    have h1 : ∀ m, ((1 + adjacencyNat P) ^ k) i m * (1 + adjacencyNat P) m j ≤
        (if m = j then ((1 + adjacencyNat P) ^ k) i j else 0) + ((1 + adjacencyNat P) ^ k) i m := by
      intro m
      have h2 : adjacencyNat P m j ≤ 1 := by unfold adjacencyNat; split <;> omega
      rw [Matrix.add_apply, mul_add]
      refine add_le_add ?_ ?_
      · by_cases e : m = j
        · subst e
          simp
        · rw [Matrix.one_apply_ne e, if_neg e, mul_zero]
      · exact (Nat.mul_le_mul_left _ h2).trans (by omega)
    refine (Finset.sum_le_sum fun m _ => h1 m).trans ?_
    rw [Finset.sum_add_distrib, Finset.sum_ite_eq' Finset.univ j, if_pos (Finset.mem_univ _)]
    have h3 := adjacencyNat_le P k i
    have h4 := ih j
    omega

theorem toInt_natCast_pos {x : ℕ} (h : 0 < ((x : ℕ) : BitVec 64).toInt) : 0 < x := by
  by_contra hcon
  have : x = 0 := by omega
  subst this
  simp at h

theorem toInt_natCast {x : ℕ} (h : x < 2 ^ 63) : ((x : ℕ) : BitVec 64).toInt = x := by
  have e : ((x : ℕ) : BitVec 64) = BitVec.ofNat 64 x := rfl
  rw [e, BitVec.toInt_eq_toNat_of_lt] <;> rw [BitVec.toNat_ofNat]
  · rw [Nat.mod_eq_of_lt (by omega)]
  · rw [Nat.mod_eq_of_lt (by omega)]; omega

theorem accessibility_sound {n : ℕ} {P : Matrix (Fin n) (Fin n) K} {i j : Fin n}
    (h : accessibility P i j ≠ 0) : Reach P i j := by
  unfold accessibility at h
  split at h
  · next h' =>
    rw [adjacency_pow] at h'
    obtain ⟨l, -, hr⟩ := (adjacencyNat_pos P _ i j).1 (toInt_natCast_pos h')
    exact hr.reach
  · exact absurd rfl h

theorem accessibility_complete {n : ℕ} (hn : n ≤ 17) {P : Matrix (Fin n) (Fin n) K} {i j : Fin n}
    (h : Reach P i j) : accessibility P i j = 1 := by
  obtain ⟨k, hk, hr⟩ := h.exists_lt_card
  rw [Fintype.card_fin] at hk
  have hpos := (adjacencyNat_pos P (n - 1) i j).2 ⟨k, by omega, hr⟩
  have hle := adjacencyNat_entry_le P (n - 1) i j
  have hb : ∑ l ∈ Finset.range (n - 1), (n + 1) ^ l ≤ ∑ l ∈ Finset.range 16, 18 ^ l :=
    (Finset.sum_le_sum fun l _ => Nat.pow_le_pow_left (by omega : n + 1 ≤ 18) l).trans
      (Finset.sum_le_sum_of_subset (Finset.range_subset_range.2 (by omega)))
  have hb' : 1 + ∑ l ∈ Finset.range 16, 18 ^ l < 2 ^ 63 := by decide +kernel
  unfold accessibility
  rw [adjacency_pow, toInt_natCast (by omega), if_pos (by exact_mod_cast hpos)]

theorem accessibilityAt_eq (c : MC K) (i j : Fin c.n) :
    accessibilityAt c i j = accessibility c.p i j := by
  unfold accessibilityAt
  rw [dif_pos ⟨i.isLt, j.isLt⟩]

/-- C26 for chains of every size: what `is_accessible` and `are_communicating` affirm is true; and
for chains of at most seventeen states they decide reachability and communication. Missing: larger
chains, where machine integers can wrap around; see `C26_overflow` for eighteen
states. -/
theorem C26_accessible_partial {c : MC K} (hc : c.Valid) {v w : PyVal K} {i j : Fin c.n}
    (hv : Names c.states v i) (hw : Names c.states w j) :
    (∃ b, isAccessible c v w = .ok b ∧ (b = true → Reach c.p j i) ∧
      (c.n ≤ 17 → Reach c.p j i → b = true)) ∧
    ∃ b, areCommunicating c v w = .ok b ∧ (b = true → Communicate c.p i j) ∧
      (c.n ≤ 17 → Communicate c.p i j → b = true) := by
  have h1 := (C04_single_label hc.2.2.2.1 v i).2 hv
  have h2 := (C04_single_label hc.2.2.2.1 w j).2 hw
  unfold isAccessible areCommunicating
  rw [h1, h2]
  refine ⟨⟨_, rfl, ?_, ?_⟩, ⟨_, rfl, ?_, ?_⟩⟩
  · intro h
    rw [accessibilityAt_eq, decide_eq_true_eq] at h
    exact accessibility_sound h
  · intro hn h
    rw [accessibilityAt_eq, decide_eq_true_eq, accessibility_complete hn h]
    exact one_ne_zero
  · intro h
    rw [accessibilityAt_eq, accessibilityAt_eq, Bool.and_eq_true, decide_eq_true_eq,
      decide_eq_true_eq] at h
    exact ⟨accessibility_sound h.1, accessibility_sound h.2⟩
  · intro hn h
    rw [accessibilityAt_eq, accessibilityAt_eq, Bool.and_eq_true, decide_eq_true_eq,
      decide_eq_true_eq, accessibility_complete hn h.1, accessibility_complete hn h.2]
    exact ⟨one_ne_zero, one_ne_zero⟩

/-- The matrix on 18 states that moves to any other state with equal probabilities. -/
def exCompleteP : Matrix (Fin 18) (Fin 18) ℚ := fun i j => if i = j then 0 else 1 / 17

/-- The chain with that matrix and the default labels. -/
def exComplete : MC ℚ := ⟨18, exCompleteP, createLabels 18 ""⟩

/-- C26, disagreement. In this chain every state reaches every other state in one step, but the
power of the adjacency matrix wraps around to a negative number and `is_accessible` answers no. -/
theorem C26_overflow : exComplete.Valid ∧ Reach exComplete.p (⟨0, by decide⟩ : Fin 18) ⟨1, by decide⟩ ∧
    isAccessible exComplete (.int 1) (.int 0) = .ok false ∧
    areCommunicating exComplete (.int 0) (.int 1) = .ok false := by
  have hJ : ∀ k : ℕ, ∀ i j : Fin 18,
      ((1 + adjacency exCompleteP) ^ (k + 1)) i j = ((18 ^ k : ℕ) : BitVec 64) := by
    have h0 : ∀ i j : Fin 18, (1 + adjacency exCompleteP) i j = 1 := by
      intro i j
      change (1 : Matrix (Fin 18) (Fin 18) (BitVec 64)) i j +
        (if (0 : ℚ) < (if i = j then 0 else 1 / 17) then 1 else 0) = 1
      by_cases h : i = j
      · subst h; simp
      · rw [Matrix.one_apply_ne h, if_neg h, if_pos (by norm_num), zero_add]
    intro k
    induction k with
    | zero => intro i j; rw [pow_one]; exact h0 i j
    | succ k ih =>
      intro i j
      rw [pow_succ, Matrix.mul_apply]
      refine (Finset.sum_congr rfl fun m _ => by rw [ih i m, h0 m j, mul_one]).trans ?_
      rw [Finset.sum_const, nsmul_eq_mul]
      change ((Finset.univ : Finset (Fin 18)).card : BitVec 64) * _ = _
      rw [Finset.card_univ, Fintype.card_fin, ← Nat.cast_mul]
      congr 1
      ring
  have hz : ∀ i j : Fin 18, accessibility exCompleteP i j = 0 := by
    intro i j
    unfold accessibility
    rw [if_neg]
    have := hJ 16 i j
    rw [show 18 - 1 = 16 + 1 from rfl, this]
    decide
  have hv : exComplete.Valid := by
    refine ⟨by decide, ⟨?_, ?_⟩, by unfold ValidLabels exComplete; decide +kernel⟩
    · intro i j
      change (0 : ℚ) ≤ (fun i j : Fin 18 => if i = j then (0 : ℚ) else 1 / 17) i j
      dsimp only
      split <;> norm_num
    · have h : ∀ i : Fin 18, ∑ j : Fin 18, (if i = j then (0 : ℚ) else 1 / 17) = 1 := by
        intro i
        rw [Finset.sum_ite]
        simp only [Finset.sum_const_zero, Finset.sum_const, zero_add, nsmul_eq_mul]
        have e : (Finset.univ.filter fun j : Fin 18 => ¬ i = j).card = 17 := by
          revert i; decide
        rw [e]
        norm_num
      exact h
  have hl0 : validateLabel (.int 0 : PyVal ℚ) exComplete.states = .ok 0 :=
    (C04_single_label hv.2.2.2.1 _ _).2 (Or.inl ⟨rfl, by decide⟩)
  have hl1 : validateLabel (.int 1 : PyVal ℚ) exComplete.states = .ok 1 :=
    (C04_single_label hv.2.2.2.1 _ _).2 (Or.inl ⟨rfl, by decide⟩)
  have a1 : accessibilityAt exComplete 0 1 = 0 :=
    (accessibilityAt_eq exComplete (⟨0, by decide⟩ : Fin 18) ⟨1, by decide⟩).trans (hz _ _)
  refine ⟨hv, Reach.single ?_, ?_, ?_⟩
  · change (0 : ℚ) < 1 / 17
    norm_num
  · unfold isAccessible
    rw [hl1, hl0, R.ok_bind, R.ok_bind, a1]
    rfl
  · unfold areCommunicating
    rw [hl0, hl1, R.ok_bind, R.ok_bind, a1]
    rfl

/-- The hypotheses of `C26_accessible_partial` are met: reachability in one direction only. -/
example : isAccessible exStructure (.str "c") (.int 0) = .ok true ∧
    isAccessible exStructure (.int 0) (.str "c") = .ok false ∧
    areCommunicating exStructure (.str "a") (.str "b") = .ok true := by decide +kernel

end Verif
