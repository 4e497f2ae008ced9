import Verif.Model.Descriptors
import Verif.Props.Cyclic
import Verif.Props.Ergodic
import Verif.Props.Absorbing
import Verif.Props.Growth
import Verif.Props.HiddenEstimate
import Mathlib.LinearAlgebra.Matrix.Rank
import Mathlib.Tactic.FinCases

/-!
# Symmetry (C89), density (C90), incidence (C92), cyclic states (C93), single probabilities (C94) and
properties of hidden models (C95)
-/

set_option linter.unusedSectionVars false

namespace Verif

open Finset

variable {K : Type} [Field K] [LinearOrder K] [IsStrictOrderedRing K]

/-! ## Symmetric and doubly stochastic chains -/

/-- The uniform distribution is stationary exactly if all column sums are one. -/
theorem uniform_stationary {c : MC K} (hc : c.Valid) :
    IsStationary c.p (fun _ => 1 / (c.n : K)) ↔ ∀ j, ∑ i, c.p i j = 1 := by
  have h0 : (0 : K) < c.n := by have := hc.1; exact_mod_cast (by omega : 0 < c.n)
  constructor
  · intro h j
    have h1 := h.2 j
    rw [← Finset.mul_sum] at h1
    field_simp at h1
    exact h1
  · intro h
    refine ⟨⟨fun i => by positivity, ?_⟩, fun j => ?_⟩
    · rw [Finset.sum_const, Finset.card_univ, Fintype.card_fin, nsmul_eq_mul]
      field_simp
    · rw [← Finset.mul_sum, h j, mul_one]

/-- C89 (partial). A chain whose matrix is symmetric is reported as symmetric and as doubly
stochastic; a chain for which the uniform distribution is stationary is reported as doubly stochastic.
Conversely a positive answer guarantees these equations only up to the tolerances. -/
theorem C89_symmetric_partial {c : MC K} (hc : c.Valid) :
    ((∀ i j, c.p i j = c.p j i) → isSymmetric c = true ∧ isDoublyStochastic c = true) ∧
    (IsStationary c.p (fun _ => 1 / (c.n : K)) → isDoublyStochastic c = true) ∧
    (isSymmetric c = true → ∀ i j, |c.p i j - c.p j i| ≤ 1 / 10 ^ 8 + 1 / 10 ^ 5 * c.p i j) ∧
    (isDoublyStochastic c = true → ∀ j, |∑ i, c.p i j - 1| ≤ 1 / 10 ^ 8 + 1 / 10 ^ 5) := by
  have hd : (∀ j, ∑ i, c.p i j = 1) → isDoublyStochastic c = true := fun h => by
    unfold isDoublyStochastic
    refine decide_eq_true fun j => ?_
    rw [h j]
    exact isclose_self 1
  refine ⟨fun h => ⟨?_, ?_⟩, fun h => hd ((uniform_stationary hc).1 h), fun h i j => ?_,
    fun h j => ?_⟩
  · unfold isSymmetric
    refine decide_eq_true fun i j => ?_
    rw [h i j]
    exact isclose_self _
  · refine hd fun j => ?_
    rw [← hc.2.1.2 j]
    exact Finset.sum_congr rfl fun i _ => h i j
  · unfold isSymmetric at h
    have h1 := of_decide_eq_true h j i
    unfold isclose at h1
    have h2 := of_decide_eq_true h1
    rw [abs_of_nonneg (hc.2.1.1 i j), abs_sub_comm] at h2
    exact h2
  · unfold isDoublyStochastic at h
    have h1 := of_decide_eq_true h j
    unfold isclose at h1
    have h2 := of_decide_eq_true h1
    rwa [abs_one, mul_one] at h2

/-- An asymmetric chain. -/
def exNearly : MC ℚ :=
  ⟨3, !![0, 1 / 2, 1 / 2; 1 / 2 + 501 / 10 ^ 8, 0, 1 / 2 - 501 / 10 ^ 8;
    1 / 2 + 501 / 10 ^ 8, 1 / 2 - 501 / 10 ^ 8, 0], ["a", "b", "c"]⟩

/-- C89 fails because of the tolerances: this chain is reported as symmetric although its matrix is not
symmetric, and at the same time as not doubly stochastic. -/
theorem C89_inconsistent : exNearly.Valid ∧ isSymmetric exNearly = true ∧
    (∃ i j, exNearly.p i j ≠ exNearly.p j i) ∧ isDoublyStochastic exNearly = false := by
  refine ⟨by decide +kernel, by decide +kernel, ⟨(0 : Fin 3), (1 : Fin 3), by decide +kernel⟩,
    by decide +kernel⟩

/-- Another asymmetric chain. -/
def exAlmost : MC ℚ :=
  ⟨2, !![1 / 2, 1 / 2; 1 / 2 + 1 / 10 ^ 6, 1 / 2 - 1 / 10 ^ 6], ["a", "b"]⟩

/-- C89 also fails for the other answer: this chain is reported as doubly stochastic although the
uniform distribution is not stationary. -/
theorem C89_tolerance : exAlmost.Valid ∧ isDoublyStochastic exAlmost = true ∧
    ¬ IsStationary exAlmost.p fun _ => 1 / (exAlmost.n : ℚ) := by
  have hv : exAlmost.Valid := by decide +kernel
  refine ⟨hv, by decide +kernel, ?_⟩
  rw [uniform_stationary hv]
  intro h
  have h1 : ∑ i : Fin 2, exAlmost.p i (0 : Fin 2) = 1 := h (0 : Fin 2)
  revert h1
  decide +kernel

/-- The hypotheses of `C89_symmetric_partial` can be met. -/
example : exFlip.Valid ∧ isSymmetric exFlip = true ∧ isDoublyStochastic exFlip = true := by
  decide +kernel

/-! ## Density -/

theorem card_links {n : ℕ} (P : Fin n → Fin n → K) :
    (∑ i, ∑ j, if i = j then 0 else if P i j > 0 then 1 else 0) = (links P).card := by
  unfold links
  rw [← Finset.sum_product', Finset.card_filter, Finset.univ_product_univ]
  refine Finset.sum_congr rfl fun e _ => ?_
  by_cases h1 : e.1 = e.2
  · rw [if_pos h1, if_neg (fun h => h.1 h1)]
  · rw [if_neg h1]
    by_cases h2 : P e.1 e.2 > 0
    · rw [if_pos h2, if_pos ⟨h1, h2⟩]
    · rw [if_neg h2, if_neg (fun h => h2 h.2)]

theorem mem_links {n : ℕ} {P : Fin n → Fin n → K} {e : Fin n × Fin n} :
    e ∈ links P ↔ e.1 ≠ e.2 ∧ Edge P e.1 e.2 := by
  unfold links
  rw [Finset.mem_filter]
  exact and_iff_right (mem_univ e)

theorem offDiagonal_sum (c : MC K) : ∑ i, ∑ j, offDiagonal c i j = (links c.p).card :=
  card_links c.p

theorem card_pairs (n : ℕ) :
    ((univ : Finset (Fin n × Fin n)).filter fun e => e.1 ≠ e.2).card = n * (n - 1) := by
  have := Finset.offDiag_card (univ : Finset (Fin n))
  rw [Finset.card_univ, Fintype.card_fin] at this
  rw [Nat.mul_sub, mul_one, ← this]
  congr 1
  ext e
  simp [Finset.mem_offDiag]

/-- C90. The density is the fraction of the pairs of different states that have a transition: it is
between zero and one, zero exactly if no state is ever left, and one exactly if every transition
between different states is possible. -/
theorem C90_density {c : MC K} (hc : c.Valid) :
    density c * (c.n * (c.n - 1)) = (links c.p).card ∧
    0 ≤ density c ∧ density c ≤ 1 ∧
    (density c = 0 ↔ ∀ i, AbsorbingState c.p i) ∧
    (density c = 1 ↔ ∀ i j, i ≠ j → Edge c.p i j) := by
  have h2 : (2 : K) ≤ c.n := by exact_mod_cast hc.1
  have hpos : (0 : K) < c.n * (c.n - 1) := by nlinarith
  obtain ⟨S, hS⟩ : ∃ S, S = links c.p := ⟨_, rfl⟩
  obtain ⟨T, hT⟩ : ∃ T, T = (univ : Finset (Fin c.n × Fin c.n)).filter
    fun e => e.1 ≠ e.2 := ⟨_, rfl⟩
  have hd : density c = (S.card : K) / (c.n * (c.n - 1)) := by
    unfold density
    rw [offDiagonal_sum, hS]
  have hTc : (T.card : K) = c.n * (c.n - 1) := by
    rw [hT, card_pairs]
    push_cast [Nat.cast_sub (show 1 ≤ c.n by have := hc.1; omega)]
    rfl
  have hsub : S ⊆ T := by
    rw [hS, hT]
    intro e he
    exact Finset.mem_filter.2 ⟨mem_univ e, (mem_links.1 he).1⟩
  rw [← hS, hd]
  refine ⟨div_mul_cancel₀ _ hpos.ne', by positivity, ?_, ?_, ?_⟩
  · rw [div_le_one hpos, ← hTc]
    exact_mod_cast Finset.card_le_card hsub
  · rw [div_eq_zero_iff, or_iff_left hpos.ne', Nat.cast_eq_zero, Finset.card_eq_zero]
    constructor
    · intro h i
      have h3 : ∀ j ∈ univ, j ≠ i → c.p i j = 0 := by
        intro j _ hj
        by_contra hne
        have h4 : (i, j) ∈ S := by
          rw [hS]
          exact mem_links.2 ⟨fun h => hj h.symm, lt_of_le_of_ne (hc.2.1.1 i j) (Ne.symm hne)⟩
        rw [h] at h4
        simp at h4
      unfold AbsorbingState
      rw [← hc.2.1.2 i]
      exact (Finset.sum_eq_single_of_mem i (mem_univ i) h3).symm
    · intro h
      rw [Finset.eq_empty_iff_forall_notMem]
      intro e he
      rw [hS] at he
      obtain ⟨h3, h4⟩ := mem_links.1 he
      have h5 : c.p e.1 e.1 = 1 := h e.1
      have h6 : c.p e.1 e.1 + c.p e.1 e.2 ≤ 1 := by
        rw [← hc.2.1.2 e.1, ← Finset.sum_pair h3]
        exact Finset.sum_le_sum_of_subset_of_nonneg (subset_univ _) fun i _ _ => hc.2.1.1 _ i
      have h7 : 0 < c.p e.1 e.2 := h4
      linarith
  · rw [div_eq_one_iff_eq hpos.ne', ← hTc, Nat.cast_inj]
    constructor
    · intro h i j hij
      have h3 := Finset.eq_of_subset_of_card_le hsub h.ge
      have h4 : (i, j) ∈ S := by
        rw [h3, hT]
        exact Finset.mem_filter.2 ⟨mem_univ _, hij⟩
      rw [hS] at h4
      exact (mem_links.1 h4).2
    · intro h
      congr 1
      refine Finset.Subset.antisymm hsub ?_
      rw [hS, hT]
      intro e he
      have h3 := (Finset.mem_filter.1 he).2
      exact mem_links.2 ⟨h3, h e.1 e.2 h3⟩

/-- `C90_density` on a chain with four of the six possible transitions. -/
example : exDrunkard.Valid ∧ density exDrunkard = 1 / 3 := by decide +kernel

/-! ## Incidence -/

theorem incidenceLoop_eq (n : ℕ) (ks : List ℕ) (im : ℕ → ℕ → ℕ) (a b : ℕ) :
    incidenceLoop n ks im a b =
      if b ∈ ks ∧ b / n ≠ b % n ∧ (a = b / n ∨ a = b % n) then 1 else im a b := by
  induction ks generalizing im with
  | nil => simp [incidenceLoop]
  | cons k ks ih =>
    rw [incidenceLoop, ih]
    by_cases h1 : b ∈ ks ∧ b / n ≠ b % n ∧ (a = b / n ∨ a = b % n)
    · rw [if_pos h1, if_pos ⟨List.mem_cons_of_mem _ h1.1, h1.2⟩]
    · rw [if_neg h1]
      by_cases hk : b = k
      · subst hk
        by_cases h2 : b / n = b % n
        · rw [if_pos h2, if_neg (fun h => h.2.1 h2)]
        · rw [if_neg h2]
          by_cases h3 : a = b / n ∨ a = b % n
          · rw [if_pos ⟨h3, rfl⟩, if_pos ⟨List.mem_cons_self, h2, h3⟩]
          · rw [if_neg (fun h => h3 h.1), if_neg (fun h => h3 h.2.2)]
      · have h5 : ¬ (b ∈ k :: ks ∧ b / n ≠ b % n ∧ (a = b / n ∨ a = b % n)) := fun h => by
          rcases List.mem_cons.1 h.1 with h4 | h4
          · exact hk h4
          · exact h1 ⟨h4, h.2⟩
        rw [if_neg h5]
        by_cases h6 : k / n = k % n
        · rw [if_pos h6]
        · rw [if_neg h6, if_neg (fun h => hk h.2)]

/-- The column of the pair `(u, v)`. -/
def pairColumn {n : ℕ} (u v : Fin n) : Fin (n ^ 2) :=
  ⟨u.val * n + v.val, by
    have h1 := u.isLt
    have h2 := v.isLt
    have h3 : (u.val + 1) * n ≤ n * n := Nat.mul_le_mul_right n h1
    rw [pow_two]
    nlinarith⟩

/-- C92 (partial). The column of a pair of different states contains a one for each of the two states
and nothing else, and the column of a pair of equal states is zero. If all transitions between
different states are possible, the matrix is therefore the incidence matrix of the transition graph:
an entry is one exactly if the pair is a transition, not a loop, at the state. -/
theorem C92_incidence_partial (c : MC K) (s u v : Fin c.n) :
    (incidenceMatrix c s (pairColumn u v) = if u ≠ v ∧ (s = u ∨ s = v) then 1 else 0) ∧
    ((∀ i j, i ≠ j → Edge c.p i j) → (incidenceMatrix c s (pairColumn u v) = 1 ↔
      Edge c.p u v ∧ u ≠ v ∧ (s = u ∨ s = v))) := by
  have hn : 0 < c.n := lt_of_le_of_lt (Nat.zero_le _) u.isLt
  have hdiv : (u.val * c.n + v.val) / c.n = u.val := by
    rw [mul_comm, Nat.mul_add_div hn, Nat.div_eq_of_lt v.isLt, add_zero]
  have hmod : (u.val * c.n + v.val) % c.n = v.val := by
    rw [mul_comm, Nat.mul_add_mod, Nat.mod_eq_of_lt v.isLt]
  have h1 : incidenceMatrix c s (pairColumn u v) = if u ≠ v ∧ (s = u ∨ s = v) then 1 else 0 := by
    unfold incidenceMatrix
    rw [incidenceLoop_eq]
    have hmem : (pairColumn u v).val ∈ List.range (c.n ^ 2) := List.mem_range.2 (pairColumn u v).isLt
    have e1 : (pairColumn u v).val = u.val * c.n + v.val := rfl
    have hiff : ((pairColumn u v).val ∈ List.range (c.n ^ 2) ∧
        (pairColumn u v).val / c.n ≠ (pairColumn u v).val % c.n ∧
        (s.val = (pairColumn u v).val / c.n ∨ s.val = (pairColumn u v).val % c.n)) ↔
        (u ≠ v ∧ (s = u ∨ s = v)) := by
      rw [and_iff_right hmem, e1, hdiv, hmod]
      simp only [ne_eq, Fin.ext_iff]
    exact if_congr hiff rfl rfl
  refine ⟨h1, fun h => ?_⟩
  rw [h1]
  constructor
  · intro h2
    by_cases h3 : u ≠ v ∧ (s = u ∨ s = v)
    · exact ⟨h u v h3.1, h3⟩
    · rw [if_neg h3] at h2
      exact absurd h2 (by norm_num)
  · rintro ⟨-, h3⟩
    rw [if_pos h3]

/-- A chain without transitions between different states. -/
def exStill : MC ℚ := ⟨2, !![1, 0; 0, 1], ["a", "b"]⟩

/-- C92 fails in general, because the transition matrix is not used: two chains of the same size have
the same incidence matrix, and there are entries for transitions that are impossible. -/
theorem C92_ignores_transitions :
    (∀ (n : ℕ) (P Q : Matrix (Fin n) (Fin n) K) (s t : List String),
      incidenceMatrix (⟨n, P, s⟩ : MC K) = incidenceMatrix (⟨n, Q, t⟩ : MC K)) ∧
    exStill.Valid ∧ ¬ Edge exStill.p (0 : Fin 2) (1 : Fin 2) ∧
    incidenceMatrix exStill (0 : Fin 2) (pairColumn (0 : Fin 2) (1 : Fin 2)) = 1 :=
  ⟨fun _ _ _ _ _ => rfl, by decide +kernel, by unfold Edge; decide +kernel, by decide +kernel⟩

/-! ## Cyclic states -/

theorem cyclicStatesIdx_irreducible {c : MC K} (hc : c.Valid) {nx : Nx c.n} (hx : nx.Sound c.p)
    (hirr : Irreducible c.p) : cyclicStatesIdx c nx = List.finRange c.n := by
  obtain ⟨d, -, hd, -⟩ := C32_irreducible_partial hc hx hirr
  obtain ⟨σ, L, h1, -, h3, -, -, h4⟩ := cyclicIdx_spec hc hx hirr hd
  have hmem : ∀ i, i ∈ L.flatten := fun i =>
    List.mem_flatten.2 ⟨_, h4.symm.subset (List.mem_map_of_mem (List.mem_range.2 (h1 i))),
      List.mem_filter.2 ⟨List.mem_finRange i, decide_eq_true rfl⟩⟩
  have hnd : L.flatten.Nodup := by
    rw [h4.flatten.nodup_iff, List.nodup_flatten]
    constructor
    · intro C hC
      obtain ⟨r, -, rfl⟩ := List.mem_map.1 hC
      exact (List.nodup_finRange c.n).filter _
    · rw [List.pairwise_map]
      refine List.nodup_range.imp ?_
      intro a b hab i hi hj
      have e1 := of_decide_eq_true (List.mem_filter.1 hi).2
      have e2 := of_decide_eq_true (List.mem_filter.1 hj).2
      exact hab (e1.symm.trans e2)
  unfold cyclicStatesIdx
  rw [h3]
  refine List.Perm.eq_of_pairwise (fun a b _ _ h5 h6 => absurd (lt_trans h5 h6) (lt_irrefl a))
    (sortIdx_strict hnd) (List.pairwise_lt_finRange c.n) ?_
  exact (sortIdx_perm _).trans ((List.perm_ext_iff_of_nodup hnd (List.nodup_finRange _)).2
    fun i => ⟨fun _ => List.mem_finRange i, fun _ => hmem i⟩)

theorem cyclicStatesIdx_reducible {c : MC K} (hc : c.Valid) {nx : Nx c.n} (hx : nx.Sound c.p)
    (hirr : ¬ Irreducible c.p) : cyclicStatesIdx c nx = [] := by
  unfold cyclicStatesIdx cyclicIdx
  rw [if_pos (fun h => hirr ((C30_irreducible hc hx.sccs).1 h))]
  rfl

/-- C93. The cyclic states of an irreducible chain are all its states, in their order, and
`is_cyclic_state` answers accordingly; a reducible chain has none. -/
theorem C93_cyclic_states {c : MC K} (hc : c.Valid) {nx : Nx c.n} (hx : nx.Sound c.p) :
    (Irreducible c.p → cyclicStates c nx = c.states ∧
      ∀ (v : PyVal K) (i : Fin c.n), Names c.states v i → isCyclicState c nx v = .ok true) ∧
    (¬ Irreducible c.p → cyclicStates c nx = [] ∧
      ∀ (v : PyVal K) (i : Fin c.n), Names c.states v i → isCyclicState c nx v = .ok false) := by
  constructor
  · intro hirr
    have h := cyclicStatesIdx_irreducible hc hx hirr
    unfold cyclicStates isCyclicState
    rw [h]
    refine ⟨map_label_finRange hc.2.2.1, fun v i hv => ?_⟩
    rw [(C04_single_label hc.2.2.2.1 v i).2 hv]
    change Except.ok (decide (i.val ∈ (List.finRange c.n).map Fin.val)) = _
    rw [decide_eq_true (List.mem_map_of_mem (List.mem_finRange i))]
  · intro hirr
    have h := cyclicStatesIdx_reducible hc hx hirr
    unfold cyclicStates isCyclicState
    rw [h]
    refine ⟨rfl, fun v i hv => ?_⟩
    rw [(C04_single_label hc.2.2.2.1 v i).2 hv]
    rfl

/-- The hypotheses of `C93_cyclic_states` can be met. -/
example : cyclicStates exTwoClocks exTwoClocksNx = [] := by decide +kernel

/-! ## Single probabilities -/

theorem prob_one_step {n : ℕ} (P : Fin n → Fin n → K) (i j : Fin n) :
    prob P 1 i (fun l => l = [j]) = P i j := by
  change ∑ k, P i k * (if [k] = [j] then 1 else 0) = P i j
  rw [Finset.sum_eq_single j]
  · simp
  · intro k _ hk
    rw [if_neg (by simpa using hk), mul_zero]
  · intro h
    exact absurd (mem_univ j) h

theorem elementAt_val {n k : ℕ} (m : Matrix (Fin n) (Fin k) K) (i : Fin n) (j : Fin k) :
    elementAt m i.val j.val = m i j := by
  unfold elementAt
  rw [dif_pos ⟨i.isLt, j.isLt⟩]

/-- C94. `transition_probability` returns the probability that the next state is the first argument,
given that the chain is in the second one. -/
theorem C94_transition_probability {c : MC K} (hc : c.Valid) {v w : PyVal K} {i j : Fin c.n}
    (hv : Names c.states v j) (hw : Names c.states w i) :
    transitionProbability c v w = .ok (prob c.p 1 i fun l => l = [j]) := by
  have h1 := (C04_single_label hc.2.2.2.1 v j).2 hv
  have h2 := (C04_single_label hc.2.2.2.1 w i).2 hw
  unfold transitionProbability
  rw [h1, h2]
  change Except.ok (elementAt c.p i.val j.val) = _
  rw [elementAt_val]
  exact congrArg Except.ok (prob_one_step c.p i j).symm

/-- The same for the hidden states and the symbols of a hidden model: the emission probabilities of
all symbols in a state sum to one. -/
theorem C94_hidden {m : HMM K} (hm : m.Valid) {v w : PyVal K} {i j : Fin m.n}
    (hv : Names m.states v j) (hw : Names m.states w i) :
    hmmTransitionProbability m v w = .ok (prob m.p 1 i fun l => l = [j]) ∧
    (∀ (y : PyVal K) (a : Fin m.k), Names m.symbols y a →
      emissionProbability m y w = .ok (m.e i a) ∧ 0 ≤ m.e i a) ∧
    ∑ a, m.e i a = 1 := by
  have h1 := (C04_single_label hm.2.2.2.2.1.2.1 v j).2 hv
  have h2 := (C04_single_label hm.2.2.2.2.1.2.1 w i).2 hw
  refine ⟨?_, fun y a hy => ⟨?_, hm.2.2.2.1.1 i a⟩, hm.2.2.2.1.2 i⟩
  · unfold hmmTransitionProbability
    rw [h1, h2]
    change Except.ok (elementAt m.p i.val j.val) = _
    rw [elementAt_val]
    exact congrArg Except.ok (prob_one_step m.p i j).symm
  · have h3 := (C04_single_label hm.2.2.2.2.2.1.2.1 y a).2 hy
    unfold emissionProbability
    rw [h3, h2]
    change Except.ok (elementAt m.e i.val a.val) = _
    rw [elementAt_val]

/-- Arguments that name no state or symbol are rejected. -/
theorem C94_rejects {c : MC K} (hc : c.Valid) {v w : PyVal K} {x : K}
    (h : transitionProbability c v w = .ok x) :
    (∃ j, Names c.states v j) ∧ ∃ i, Names c.states w i := by
  unfold transitionProbability at h
  obtain ⟨t, h1, h⟩ := (R.bind_ok _ _ _).1 h
  obtain ⟨o, h2, -⟩ := (R.bind_ok _ _ _).1 h
  exact ⟨⟨t, (C04_single_label hc.2.2.2.1 v t).1 h1⟩, ⟨o, (C04_single_label hc.2.2.2.1 w o).1 h2⟩⟩

/-- The hypotheses of `C94_transition_probability` can be met. -/
example : (transitionProbability exAlmost (.str "a") (.int 1)).toOption = some (1 / 2 + 1 / 10 ^ 6) := by
  decide +kernel

/-! ## Hidden models -/

/-- C95. A hidden model is reported as ergodic exactly if there is a number of steps after which every
state and symbol can occur together, whatever the first state is. -/
theorem C95_hidden_ergodic {m : HMM K} (hm : m.Valid) {nx : Nx m.n} (hx : nx.Sound m.p) :
    hmmIsErgodic m nx = true ↔ ∃ k, 0 < k ∧ ∀ i j a, 0 < (m.p ^ k) i j * m.e j a := by
  have hc : m.chain.Valid := ⟨hm.1, hm.2.2.1, hm.2.2.2.2.1⟩
  have h0 : 0 < m.n := by have := hm.1; omega
  unfold hmmIsErgodic
  rw [Bool.and_eq_true, decide_eq_true_eq, isErgodic_iff hc hx, ergodic_iff_primitive hc.2.1]
  have hp : ∀ k (i j : Fin m.n), ReachIn m.p k i j ↔ 0 < (m.p ^ k) i j := fun k i j =>
    reachIn_iff_pow_pos hm.2.2.1.1 k i j
  constructor
  · rintro ⟨⟨k, hk, h⟩, he⟩
    exact ⟨k, hk, fun i j a => mul_pos ((hp k i j).1 (h i j)) (of_decide_eq_true (he j a))⟩
  · rintro ⟨k, hk, h⟩
    have hk2 : 0 < m.k := by have := hm.2.1; omega
    refine ⟨⟨k, hk, fun i j => (hp k i j).2 ?_⟩, fun j a => decide_eq_true ?_⟩
    · exact pos_of_mul_pos_left (h i j ⟨0, hk2⟩) (hm.2.2.2.1.1 j _)
    · exact pos_of_mul_pos_right (h ⟨0, h0⟩ j a) (nonneg_pow hm.2.2.1.1 k _ _)

theorem rank_eq_iff {n k : ℕ} (e : Matrix (Fin n) (Fin k) K) :
    e.rank = k ↔ ∀ f : Fin k → K, (∀ i, ∑ a, e i a * f a = 0) → f = 0 := by
  have h1 := LinearMap.finrank_range_add_finrank_ker e.mulVecLin
  have h2 : e.rank = Module.finrank K (LinearMap.range e.mulVecLin) := rfl
  rw [← h2, Module.finrank_fin_fun] at h1
  have h3 : e.rank = k ↔ Module.finrank K (LinearMap.ker e.mulVecLin) = 0 := by omega
  rw [h3, Submodule.finrank_eq_zero]
  constructor
  · intro h f hf
    have : f ∈ LinearMap.ker e.mulVecLin := LinearMap.mem_ker.2 (funext hf)
    rw [h] at this
    exact (Submodule.mem_bot K).1 this
  · intro h
    rw [eq_bot_iff]
    intro f hf
    exact (Submodule.mem_bot K).2 (h f fun i => congrFun (LinearMap.mem_ker.1 hf) i)

/-- If the rank is computed exactly, a hidden model is reported as regular exactly if functions of the
symbol are determined by their expectations in the states. Then there are at least as many states as
symbols. -/
theorem C95_hidden_regular (m : HMM K) :
    (hmmIsRegular m m.e.rank = true ↔
      ∀ f : Fin m.k → K, (∀ i, ∑ a, m.e i a * f a = 0) → f = 0) ∧
    (hmmIsRegular m m.e.rank = true → m.k ≤ m.n) := by
  unfold hmmIsRegular
  rw [decide_eq_true_eq]
  refine ⟨rank_eq_iff m.e, fun h => ?_⟩
  have := Matrix.rank_le_height m.e
  omega

/-- The emission probabilities of a model with two states and three symbols. -/
def threeE : Matrix (Fin 2) (Fin 3) ℚ := !![1, 0, 0; 0, 1 / 2, 1 / 2]

/-- A model whose symbols reveal the states. -/
def exThreeSymbols : HMM ℚ :=
  ⟨2, 3, fun _ _ => 1 / 2, threeE, ["a", "b"], ["u", "v", "w"]⟩

theorem exThreeSymbols_valid : exThreeSymbols.Valid := by
  refine ⟨by decide, by decide, ?_, ?_, show ValidLabels 2 ["a", "b"] by decide,
    show ValidLabels 3 ["u", "v", "w"] by decide,
    show List.Disjoint ["a", "b"] ["u", "v", "w"] by rw [List.disjoint_left]; decide⟩
  · have : IsStochastic (fun i j : Fin 2 => exThreeSymbols.p i j) := by decide +kernel
    exact this
  · have : IsStochastic (fun (i : Fin 2) (j : Fin 3) => exThreeSymbols.e i j) := by decide +kernel
    exact this

/-- A model with more symbols than states is never reported as regular, even if the symbol reveals the
state, so that no two distributions of the state give the same distribution of the symbol. -/
theorem C95_more_symbols : exThreeSymbols.Valid ∧
    (∀ f : Fin 2 → ℚ, (∀ a, ∑ i, f i * threeE i a = 0) → f = 0) ∧
    hmmIsRegular exThreeSymbols exThreeSymbols.e.rank = false := by
  refine ⟨exThreeSymbols_valid, fun f hf => ?_, ?_⟩
  · have h0 := hf 0
    have h1 := hf 1
    rw [Fin.sum_univ_two] at h0 h1
    simp [threeE] at h0 h1
    funext i
    fin_cases i
    · exact h0
    · exact h1
  · cases h : hmmIsRegular exThreeSymbols exThreeSymbols.e.rank with
    | false => rfl
    | true => exact absurd ((C95_hidden_regular exThreeSymbols).2 h) (by decide)

/-- The graph routines on the complete graph with two states. -/
def exPairNx : Nx 2 := Nx.ofClasses (fun _ _ => (1 / 2 : ℚ)) [[0, 1]] true

/-- The hypotheses of `C95_hidden_ergodic` can be met by a model that is not ergodic. -/
example : hmmIsErgodic exThreeSymbols exPairNx = false := by decide +kernel

/-- A model that is ergodic. -/
example : hmmIsErgodic exFour exPairNx = true := by
  decide +kernel

end Verif
