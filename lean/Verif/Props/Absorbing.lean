import Verif.Lemmas.Generators
import Verif.Props.Classes
import Mathlib.Tactic.NormNum

/-!
# Absorbing states and absorbing chains (C29)
-/

set_option linter.unusedSectionVars false

namespace Verif

variable {K : Type} [Field K] [LinearOrder K] [IsStrictOrderedRing K]

theorem hasEdge_iff {n : ℕ} {P : Matrix (Fin n) (Fin n) K} {i j : Fin n} :
    hasEdge P i j = true ↔ Edge P i j := by
  unfold hasEdge
  rw [decide_eq_true_eq]
  exact Iff.rfl

theorem mem_absorbingPass {n : ℕ} {P : Matrix (Fin n) (Fin n) K} {A T : Finset (Fin n)}
    {i : Fin n} : i ∈ absorbingPass P A T ↔ (i ∉ A ∧ i ∉ T) ∧ ∃ j, (j ∈ A ∨ j ∈ T) ∧ Edge P i j := by
  unfold absorbingPass
  rw [Finset.mem_filter, Finset.mem_sdiff, Finset.mem_union]
  constructor
  · rintro ⟨⟨-, h⟩, j, hj, e⟩
    exact ⟨not_or.1 h, j, Finset.mem_union.1 hj, hasEdge_iff.1 e⟩
  · rintro ⟨h, j, hj, e⟩
    exact ⟨⟨Finset.mem_univ _, not_or.2 h⟩, j, Finset.mem_union.2 hj, hasEdge_iff.2 e⟩

theorem absorbingLoop_iff {n : ℕ} (P : Matrix (Fin n) (Fin n) K) (A : Finset (Fin n)) (fuel : ℕ)
    (T : Finset (Fin n)) (hf : (Finset.univ \ (A ∪ T)).card < fuel)
    (hT : ∀ i ∈ T, ∃ a ∈ A, Reach P i a) :
    absorbingLoop P A fuel T = true ↔ ∀ i, ∃ a ∈ A, Reach P i a := by
  induction fuel generalizing T with
  | zero => omega
  | succ fuel ih =>
    unfold absorbingLoop
    by_cases h : absorbingPass P A T = ∅
    · simp only [h, if_true, decide_eq_true_eq]
      constructor
      · intro h0 i
        have hi : i ∈ A ∪ T := by
          by_contra hcon
          have : i ∈ Finset.univ \ (A ∪ T) := Finset.mem_sdiff.2 ⟨Finset.mem_univ _, hcon⟩
          rw [h0] at this
          exact absurd this (Finset.notMem_empty _)
        rcases Finset.mem_union.1 hi with hi | hi
        · exact ⟨i, hi, Reach.refl i⟩
        · exact hT i hi
      · intro hall
        by_contra hne
        obtain ⟨i, hi⟩ := Finset.nonempty_iff_ne_empty.2 hne
        obtain ⟨a, ha, hr⟩ := hall i
        -- the unknown states are closed, so they never reach an absorbing state
        have hcl : ClosedSet (fun i j => P i j) (fun x => x ∉ A ∪ T) := by
          intro x y hx e hy
          have : x ∈ absorbingPass P A T := by
            rw [mem_absorbingPass]
            rw [Finset.mem_union, not_or] at hx
            exact ⟨hx, y, Finset.mem_union.1 hy, e⟩
          rw [h] at this
          exact absurd this (Finset.notMem_empty _)
        exact closedSet_reach hcl (Finset.mem_sdiff.1 hi).2 hr (Finset.mem_union_left _ ha)
    · simp only [h, if_false]
      apply ih
      · obtain ⟨i, hi⟩ := Finset.nonempty_iff_ne_empty.2 h
        have hi' := (mem_absorbingPass.1 hi).1
        have : (Finset.univ \ (A ∪ (T ∪ absorbingPass P A T))).card < (Finset.univ \ (A ∪ T)).card := by
          apply Finset.card_lt_card
          refine Finset.ssubset_iff_of_subset ?_ |>.2 ⟨i, ?_, ?_⟩
          · intro x hx
            rw [Finset.mem_sdiff] at hx ⊢
            refine ⟨hx.1, fun hcon => hx.2 ?_⟩
            rcases Finset.mem_union.1 hcon with h | h
            · exact Finset.mem_union_left _ h
            · exact Finset.mem_union_right _ (Finset.mem_union_left _ h)
          · rw [Finset.mem_sdiff, Finset.mem_union, not_or]
            exact ⟨Finset.mem_univ _, hi'⟩
          · rw [Finset.mem_sdiff]
            exact fun hcon => hcon.2 (Finset.mem_union_right _ (Finset.mem_union_right _ hi))
        omega
      · intro i hi
        rcases Finset.mem_union.1 hi with hi | hi
        · exact hT i hi
        · obtain ⟨-, j, hj, e⟩ := mem_absorbingPass.1 hi
          rcases hj with hj | hj
          · exact ⟨j, hj, Reach.single e⟩
          · obtain ⟨a, ha, hr⟩ := hT j hj
            exact ⟨a, ha, (Reach.single e).trans hr⟩

theorem mem_absorbingIdx {n : ℕ} {P : Matrix (Fin n) (Fin n) K} {i : Fin n} :
    i ∈ absorbingIdx P ↔ isclose (P i i) 1 = true := by
  unfold absorbingIdx
  rw [List.mem_filter]
  exact ⟨fun h => h.2, fun h => ⟨List.mem_finRange i, h⟩⟩

theorem isclose_self (x : K) : isclose x x = true := by
  unfold isclose
  rw [sub_self, abs_zero]
  exact decide_eq_true (by positivity)

/-- What `is_absorbing` computes on every chain: some state has a probability of staying that is
one within the tolerance of `isclose`, and every state reaches such a state. -/
theorem isAbsorbing_iff (c : MC K) : isAbsorbing c = true ↔
    (∃ a, isclose (c.p a a) 1 = true) ∧ ∀ i, ∃ a, isclose (c.p a a) 1 = true ∧ Reach c.p i a := by
  unfold isAbsorbing absorbingStates
  by_cases h : absorbingIdx c.p = []
  · rw [if_pos (by rw [List.length_map, h]; rfl)]
    constructor
    · intro h; exact absurd h (by decide)
    · rintro ⟨⟨a, ha⟩, -⟩
      have := mem_absorbingIdx.2 ha
      rw [h] at this
      exact absurd this List.not_mem_nil
  · rw [if_neg (by rw [List.length_map]; exact fun e => h (List.length_eq_zero_iff.1 e)),
      absorbingLoop_iff]
    · constructor
      · intro hall
        obtain ⟨a, ha⟩ := List.exists_mem_of_ne_nil _ h
        refine ⟨⟨a, mem_absorbingIdx.1 ha⟩, fun i => ?_⟩
        obtain ⟨b, hb, hr⟩ := hall i
        exact ⟨b, mem_absorbingIdx.1 (List.mem_toFinset.1 hb), hr⟩
      · rintro ⟨-, hall⟩ i
        obtain ⟨b, hb, hr⟩ := hall i
        exact ⟨b, List.mem_toFinset.2 (mem_absorbingIdx.2 hb), hr⟩
    · have := Finset.card_le_univ (Finset.univ \ ((absorbingIdx c.p).toFinset ∪ ∅))
      rw [Fintype.card_fin] at this
      omega
    · intro i hi
      exact absurd hi (Finset.notMem_empty _)

/-- C29 for chains in which no state that can be left has a probability of staying within the
tolerance of one: `is_absorbing` decides whether the chain is absorbing, `absorbing_states` lists
exactly the absorbing states in state order and `is_absorbing_state` decides membership.
Missing: the other chains, see `C29_tolerance`. -/
theorem C29_is_absorbing_partial {c : MC K} (hc : c.Valid)
    (ht : ∀ i, isclose (c.p i i) 1 = true → c.p i i = 1) :
    (isAbsorbing c = true ↔ AbsorbingChain c.p) ∧
    (∃ l : List (Fin c.n), l.Pairwise (· < ·) ∧ (∀ i, i ∈ l ↔ AbsorbingState c.p i) ∧
      absorbingStates c = l.map c.label) ∧
    ∀ {v : PyVal K} {i : Fin c.n}, Names c.states v i →
      ∃ b, isAbsorbingState c v = .ok b ∧ (b = true ↔ AbsorbingState c.p i) := by
  have key : ∀ i, isclose (c.p i i) 1 = true ↔ c.p i i = 1 :=
    fun i => ⟨ht i, fun h => by rw [h]; exact isclose_self 1⟩
  refine ⟨?_, ⟨absorbingIdx c.p, ?_, ?_, rfl⟩, ?_⟩
  · rw [isAbsorbing_iff]
    simp only [key]
    exact Iff.rfl
  · exact (List.pairwise_lt_finRange c.n).filter _
  · intro i
    rw [mem_absorbingIdx, key]
    exact Iff.rfl
  · intro v i hv
    unfold isAbsorbingState
    rw [(C04_single_label hc.2.2.2.1 v i).2 hv]
    refine ⟨_, rfl, ?_⟩
    rw [decide_eq_true_eq, List.mem_map]
    constructor
    · rintro ⟨j, hj, e⟩
      have : j = i := Fin.ext e
      subst this
      exact (key j).1 (mem_absorbingIdx.1 hj)
    · intro h
      exact ⟨i, mem_absorbingIdx.2 ((key i).2 h), rfl⟩

/-- A chain whose two states can both be left. -/
def exAlmostAbsorbing : MC ℚ := ⟨2, !![999999 / 1000000, 1 / 1000000; 1 / 2, 1 / 2], ["a", "b"]⟩

/-- C29, disagreement: the first state can be left but lies within the tolerance, so
`is_absorbing` answers yes although the chain has no absorbing state. -/
theorem C29_tolerance : exAlmostAbsorbing.Valid ∧ isAbsorbing exAlmostAbsorbing = true ∧
    ¬ AbsorbingChain exAlmostAbsorbing.p := by
  refine ⟨by decide +kernel, by decide +kernel, ?_⟩
  rintro ⟨⟨a, ha⟩, -⟩
  revert a
  change ∀ a : Fin 2, (!![999999 / 1000000, 1 / 1000000; 1 / 2, 1 / 2] : Matrix (Fin 2) (Fin 2) ℚ) a a = 1
    → False
  decide +kernel

/-- The drunkard's walk on three states. -/
def exDrunkard : MC ℚ := ⟨3, !![1, 0, 0; 1 / 2, 0, 1 / 2; 0, 0, 1], ["l", "m", "r"]⟩

/-- The hypotheses of `C29_is_absorbing_partial` are met, with both answers. -/
example : exDrunkard.Valid ∧ (∀ i : Fin 3, isclose (exDrunkard.p i i) 1 = true → exDrunkard.p i i = 1) ∧
    isAbsorbing exDrunkard = true ∧ isAbsorbing exStructure = false ∧
    (∀ i : Fin 5, isclose (exStructure.p i i) 1 = true → exStructure.p i i = 1) := by decide +kernel

end Verif
