import Verif.Model.Derived
import Verif.Lemmas.Primitive
import Verif.Props.Classes
import Mathlib.Data.List.NodupEquivFin

/-!
# Canonical form (C20)
-/

set_option linter.unusedSectionVars false

namespace Verif

variable {K : Type} [Field K] [LinearOrder K] [IsStrictOrderedRing K]

theorem reach_relabel {ι κ : Type} [Fintype ι] [Fintype κ] {P : ι → ι → K} {Q : κ → κ → K}
    (e : κ ≃ ι) (h : ∀ i j, Q i j = P (e i) (e j)) (i j : κ) : Reach Q i j ↔ Reach P (e i) (e j) := by
  have edge : ∀ a b, Edge Q a b ↔ Edge P (e a) (e b) := fun a b => by unfold Edge; rw [h]
  constructor
  · intro hr
    induction hr with
    | refl => exact .refl _
    | tail _ he ih => exact ih.trans (Reach.single ((edge _ _).1 he))
  · intro hr
    have key : ∀ b, Reach P (e i) b → Reach Q i (e.symm b) := by
      intro b hb
      induction hb with
      | refl => rw [e.symm_apply_apply]; exact .refl _
      | @tail x y _ he ih =>
        refine ih.trans (Reach.single ((edge _ _).2 ?_))
        rw [e.apply_symm_apply, e.apply_symm_apply]
        exact he
    have := key _ hr
    rwa [e.symm_apply_apply] at this

theorem recurrentState_relabel {ι κ : Type} [Fintype ι] [Fintype κ] {P : ι → ι → K} {Q : κ → κ → K}
    (e : κ ≃ ι) (h : ∀ i j, Q i j = P (e i) (e j)) (i : κ) :
    RecurrentState Q i ↔ RecurrentState P (e i) := by
  unfold RecurrentState
  constructor
  · intro hr j hj
    have := hr (e.symm j) ((reach_relabel e h _ _).2 (by rwa [e.apply_symm_apply]))
    rw [reach_relabel e h, e.apply_symm_apply] at this
    exact this
  · intro hr j hj
    exact (reach_relabel e h _ _).2 (hr _ ((reach_relabel e h _ _).1 hj))

theorem isStochastic_relabel {ι κ : Type} [Fintype ι] [Fintype κ] {P : ι → ι → K} {Q : κ → κ → K}
    (e : κ ≃ ι) (h : ∀ i j, Q i j = P (e i) (e j)) (hP : IsStochastic P) : IsStochastic Q := by
  refine ⟨fun i j => by rw [h]; exact hP.1 _ _, fun i => ?_⟩
  simp only [h]
  rw [Equiv.sum_comp e fun j => P (e i) j]
  exact hP.2 _

theorem isCanonical_iff {c : MC K} {sccs : List (List (Fin c.n))} (h : IsClasses c.p sccs) :
    isCanonical c sccs = true ↔
      ∀ i j, TransientState c.p i → RecurrentState c.p j → i < j := by
  have key : (∀ i ∈ transientStatesIdx c.p sccs, ∀ j ∈ recurrentStatesIdx c.p sccs, i < j) ↔
      ∀ i j, TransientState c.p i → RecurrentState c.p j → i < j := by
    simp only [mem_transientStatesIdx h, mem_recurrentStatesIdx h]
    exact ⟨fun H i j hi hj => H i hi j hj, fun H i hi j hj => H i j hi hj⟩
  unfold isCanonical
  simp only
  split
  · next h0 =>
    refine ⟨fun _ => key.1 ?_, fun _ => rfl⟩
    intro i hi j hj
    rcases h0 with h0 | h0
    · rw [List.length_eq_zero_iff.1 h0] at hj
      exact absurd hj List.not_mem_nil
    · rw [List.length_eq_zero_iff.1 h0] at hi
      exact absurd hi List.not_mem_nil
  · rw [decide_eq_true_eq]
    exact key

/-- The order of the states in the canonical form. -/
theorem canonicalOrder {n : ℕ} {P : Matrix (Fin n) (Fin n) K} {sccs : List (List (Fin n))}
    (h : IsClasses P sccs) :
    (transientStatesIdx P sccs ++ recurrentStatesIdx P sccs).Nodup ∧
    ∀ i, i ∈ transientStatesIdx P sccs ++ recurrentStatesIdx P sccs := by
  constructor
  · rw [List.nodup_append]
    refine ⟨(transientStatesIdx_strict h).imp fun h => ne_of_lt h,
      (recurrentStatesIdx_strict h).imp fun h => ne_of_lt h, ?_⟩
    rintro a ha b hb rfl
    exact (mem_transientStatesIdx h a).1 ha ((mem_recurrentStatesIdx h a).1 hb)
  · intro i
    rw [List.mem_append, mem_transientStatesIdx h, mem_recurrentStatesIdx h]
    exact (Classical.em _).symm

theorem canonicalOrder_eq {n : ℕ} {P : Matrix (Fin n) (Fin n) K} {sccs : List (List (Fin n))}
    (h : IsClasses P sccs)
    (hlt : ∀ i ∈ transientStatesIdx P sccs, ∀ j ∈ recurrentStatesIdx P sccs, i < j) :
    transientStatesIdx P sccs ++ recurrentStatesIdx P sccs = List.finRange n := by
  obtain ⟨hnd, hall⟩ := canonicalOrder h
  have hp : (transientStatesIdx P sccs ++ recurrentStatesIdx P sccs).Perm (List.finRange n) :=
    (List.perm_ext_iff_of_nodup hnd (List.nodup_finRange n)).2 fun j => by simp [hall j]
  refine hp.eq_of_pairwise (fun a b _ _ hab hba => absurd hab (not_lt.2 hba.le)) ?_
    (List.pairwise_lt_finRange n)
  exact List.pairwise_append.2 ⟨transientStatesIdx_strict h, recurrentStatesIdx_strict h, hlt⟩

/-- `d` is `c` with its states rearranged: transient states first, otherwise in the same order. -/
def CanonicalOf (c d : MC K) : Prop :=
  ∃ e : Fin d.n ≃ Fin c.n,
    (∀ i j, d.p i j = c.p (e i) (e j)) ∧
    d.states = (List.finRange _).map (fun i => c.label (e i)) ∧
    (∀ i j, TransientState c.p (e i) → RecurrentState c.p (e j) → i < j) ∧
    ∀ i j, i < j → (RecurrentState c.p (e i) ↔ RecurrentState c.p (e j)) → e i < e j

/-- What `to_canonical_form` returns, whichever branch is taken. -/
theorem toCanonicalForm_eq {c : MC K} {sccs : List (List (Fin c.n))}
    (h : IsClasses c.p sccs) : CanonicalOf c (toCanonicalForm c sccs) := by
  have same : (∀ i ∈ transientStatesIdx c.p sccs, ∀ j ∈ recurrentStatesIdx c.p sccs, i < j) →
      CanonicalOf c ⟨c.n, c.p,
        (transientStatesIdx c.p sccs ++ recurrentStatesIdx c.p sccs).map c.label⟩ := by
    intro hlt
    refine ⟨Equiv.refl _, fun _ _ => rfl, ?_, ?_, fun i j hij _ => hij⟩
    · rw [canonicalOrder_eq h hlt]
      rfl
    · intro i j hi hj
      exact hlt i ((mem_transientStatesIdx h i).2 hi) j ((mem_recurrentStatesIdx h j).2 hj)
  unfold toCanonicalForm
  simp only
  split
  · next h0 =>
    refine same ?_
    intro i hi j hj
    rcases h0 with h0 | h0
    · rw [List.length_eq_zero_iff.1 h0] at hj
      exact absurd hj List.not_mem_nil
    · rw [List.length_eq_zero_iff.1 h0] at hi
      exact absurd hi List.not_mem_nil
  · split
    · next hlt => exact same hlt
    · obtain ⟨hnd, hall⟩ := canonicalOrder h
      set t := transientStatesIdx c.p sccs
      set r := recurrentStatesIdx c.p sccs
      have ht : ∀ i : Fin (t ++ r).length, RecurrentState c.p ((t ++ r).get i) ↔ t.length ≤ i := by
        intro i
        rw [List.get_eq_getElem]
        by_cases hi : (i : ℕ) < t.length
        · rw [List.getElem_append_left hi]
          have : ¬ RecurrentState c.p t[(i : ℕ)] :=
            (mem_transientStatesIdx h _).1 (List.getElem_mem hi)
          exact ⟨fun h => absurd h this, fun h => by omega⟩
        · rw [List.getElem_append_right (by omega)]
          exact ⟨fun _ => by omega,
            fun _ => (mem_recurrentStatesIdx h _).1 (List.getElem_mem _)⟩
      refine ⟨List.Nodup.getEquivOfForallMemList _ hnd hall, fun _ _ => rfl, ?_, ?_, ?_⟩
      · change (t ++ r).map c.label = 
          (List.finRange (t ++ r).length).map (c.label ∘ (t ++ r).get)
        rw [← List.map_map, List.map_get_finRange]
      · intro i j hi hj
        have h1 := mt (ht i).2 hi
        have h2 := (ht j).1 hj
        exact Fin.lt_def.2 (by omega)
      · intro i j hij hiff
        change (t ++ r).get i < (t ++ r).get j
        have hiff : t.length ≤ i ↔ t.length ≤ j := by rw [← ht i, ← ht j]; exact hiff
        have hij' : (i : ℕ) < j := hij
        rw [List.get_eq_getElem, List.get_eq_getElem]
        by_cases hi : (i : ℕ) < t.length
        · have hj : (j : ℕ) < t.length := by omega
          rw [List.getElem_append_left hi, List.getElem_append_left hj]
          exact List.pairwise_iff_getElem.1 (transientStatesIdx_strict h) _ _ hi hj hij'
        · have hj : ¬ (j : ℕ) < t.length := by omega
          rw [List.getElem_append_right (by omega), List.getElem_append_right (by omega)]
          exact List.pairwise_iff_getElem.1 (recurrentStatesIdx_strict h) _ _ _ _ (by omega)

/-- C20. `to_canonical_form` rearranges the states: the result is a valid chain with the matrix and
the labels of the original along a bijection of the states; transient states come before recurrent
ones and no recurrent state leads to a transient one; states of the same kind keep their order;
`is_canonical` holds for the result. -/
theorem C20_canonical_form {c : MC K} (hc : c.Valid) {sccs : List (List (Fin c.n))}
    (h : IsClasses c.p sccs) :
    ∃ e : Fin (toCanonicalForm c sccs).n ≃ Fin c.n,
      (∀ i j, (toCanonicalForm c sccs).p i j = c.p (e i) (e j)) ∧
      (∀ i, (toCanonicalForm c sccs).label i = c.label (e i)) ∧
      (toCanonicalForm c sccs).Valid ∧
      (∀ i j, TransientState (toCanonicalForm c sccs).p i →
        RecurrentState (toCanonicalForm c sccs).p j →
        i < j ∧ (toCanonicalForm c sccs).p j i = 0) ∧
      (∀ i j, i < j → (RecurrentState c.p (e i) ↔ RecurrentState c.p (e j)) → e i < e j) ∧
      ∀ sccs', IsClasses (toCanonicalForm c sccs).p sccs' →
        isCanonical (toCanonicalForm c sccs) sccs' = true := by
  obtain ⟨e, hp, hs, hlt, hord⟩ := toCanonicalForm_eq h
  generalize toCanonicalForm c sccs = d at e hp hs hlt hord ⊢
  have hst : IsStochastic d.p := isStochastic_relabel (P := fun i j => c.p i j)
    (Q := fun i j => d.p i j) e hp hc.2.1
  have hrec : ∀ i, RecurrentState d.p i ↔ RecurrentState c.p (e i) :=
    recurrentState_relabel (P := fun i j => c.p i j) (Q := fun i j => d.p i j) e hp
  have hlt' : ∀ i j, TransientState d.p i → RecurrentState d.p j → i < j := by
    intro i j hi hj
    exact hlt i j (fun h => hi ((hrec i).2 h)) ((hrec j).1 hj)
  have hn : d.n = c.n := by simpa using Fintype.card_congr e
  have hlen : d.states.length = d.n := by rw [hs]; simp
  have hlab : ∀ i, d.label i = c.label (e i) := by
    intro i
    unfold MC.label
    rw [List.getD_eq_getElem _ _ (by omega)]
    simp only [hs, List.getElem_map, List.getElem_finRange]
    rfl
  refine ⟨e, hp, hlab, ⟨by rw [hn]; exact hc.1, hst, hlen, ?_, ?_⟩, ?_, hord, ?_⟩
  · rw [hs]
    refine (List.nodup_finRange _).map ?_
    intro a b hab
    exact e.injective (label_injective hc.2.2.1 hc.2.2.2.1 hab)
  · intro s hsm
    rw [hs, List.mem_map] at hsm
    obtain ⟨i, -, rfl⟩ := hsm
    refine hc.2.2.2.2 _ ?_
    unfold MC.label
    rw [List.getD_eq_getElem _ _ (by have := hc.2.2.1; omega)]
    exact List.getElem_mem _
  · intro i j hi hj
    refine ⟨hlt' i j hi hj, ?_⟩
    by_contra hne
    have hedge : Edge d.p j i := lt_of_le_of_ne (hst.1 j i) (Ne.symm hne)
    exact hi (hj.of_reach (Reach.single hedge))
  · intro sccs' h'
    exact (isCanonical_iff h').2 hlt'

/-- The example chain has its transient states first; after reversing the order of the states the
method has work to do. -/
def exReversed : MC ℚ := ⟨3, !![1, 0, 0; 0, 1 / 2, 1 / 2; 1, 0, 0], ["x", "y", "z"]⟩

/-- The hypotheses of `C20_canonical_form` are met. -/
example : exReversed.Valid ∧ IsClasses (fun i j : Fin 3 => exReversed.p i j) [[2], [0], [1]] ∧
    isCanonical exReversed ([[2], [0], [1]] : List (List (Fin 3))) = false ∧
    (toCanonicalForm exReversed ([[2], [0], [1]] : List (List (Fin 3)))).states = ["y", "z", "x"] := by
  decide +kernel

end Verif
