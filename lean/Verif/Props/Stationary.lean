import Verif.Lemmas.Stationary
import Verif.Props.Subchain

/-!
# Stationary distributions (C34, C35)
-/

set_option linter.unusedSectionVars false

namespace Verif

open Finset

variable {K : Type} [Field K] [LinearOrder K] [IsStrictOrderedRing K]

/-- C34. For an irreducible chain `pi` holds exactly one vector; it is a stationary distribution
with positive entries, and there is no other stationary distribution. -/
theorem C34_stationary {c : MC K} (hc : c.Valid) {sccs : List (List (Fin c.n))}
    (h : IsClasses c.p sccs) (hirr : Irreducible c.p) :
    ∃ x : Fin c.n → K, pi c sccs = .ok [x] ∧ IsStationary c.p x ∧ (∀ i, 0 < x i) ∧
      ∀ y, IsStationary c.p y → y = x := by
  obtain ⟨h1, h2, h3⟩ := gthSolve_stationary (by have := hc.1; omega) hc.2.1 hirr
  have : Nonempty (Fin c.n) := ⟨⟨0, by have := hc.1; omega⟩⟩
  refine ⟨_, ?_, h3, h2, fun y hy => stationary_unique hc.2.1 hirr h3 h2 hy⟩
  unfold pi
  rw [if_pos ((C30_irreducible hc h).2 hirr)]
  simp only
  rw [if_pos h1]
  rfl

/-- A chain with two states that communicate. -/
def exLoop : MC ℚ := ⟨2, !![0, 1; 1 / 2, 1 / 2], ["a", "b"]⟩

/-- The hypotheses of `C34_stationary` are met by the example chain. -/
example : (pi exLoop ([[0, 1]] : List (List (Fin 2)))).toOption.map (fun l => l.map fun x =>
    [x (0 : Fin 2), x (1 : Fin 2)]) = some [[1 / 3, 2 / 3]] := by decide +kernel

example : exLoop.Valid ∧ IsClasses (fun i j : Fin 2 => exLoop.p i j) [[0, 1]] ∧
    Irreducible (fun i j : Fin 2 => exLoop.p i j) := by decide +kernel

/-! ## Reducible chains -/

theorem reach_subMatrix {n : ℕ} {P : Matrix (Fin n) (Fin n) K} {C : List (Fin n)}
    (hcl : ClosedSet P (· ∈ C)) {i j : Fin n} (h : Reach P i j) (a : Fin C.length)
    (ha : C.get a = i) : ∃ b : Fin C.length, C.get b = j ∧ Reach (subMatrix P C) a b := by
  induction h with
  | refl => exact ⟨a, ha, .refl _⟩
  | @tail u v _ he ih =>
    obtain ⟨b, hb, hr⟩ := ih
    have hv : v ∈ C := hcl u v (hb ▸ List.get_mem C b) he
    obtain ⟨d, hd⟩ := List.get_of_mem hv
    refine ⟨d, hd, hr.trans (Reach.single ?_)⟩
    change 0 < P (C.get b) (C.get d)
    rw [hb, hd]
    exact he

/-- What the code computes for one closed communicating class. -/
theorem piClass_spec {n : ℕ} {P : Matrix (Fin n) (Fin n) K} (hP : IsStochastic P)
    {C : List (Fin n)} (hnd : C.Nodup) (hne : C ≠ []) (hcl : ClosedSet P (· ∈ C))
    (hcomm : ∀ i ∈ C, ∀ j ∈ C, Reach P i j) :
    ∃ x, piClass P C = .ok x ∧ IsStationary P x ∧ (∀ i, 0 < x i ↔ i ∈ C) ∧
      ∀ y : Fin n → K, (∀ j ∈ C, ∑ i with i ∈ C, y i * P i j = y j) →
        ∀ j ∈ C, y j = (∑ i with i ∈ C, y i) * x j := by
  have hlen : 1 ≤ C.length := List.length_pos_iff.2 hne
  have hst : IsStochastic (subMatrix P C) := by
    refine ⟨fun a b => hP.1 _ _, fun a => ?_⟩
    rw [← closed_row_sum (P := fun i j => P i j) hP hcl (List.get_mem C a)]
    exact sum_get hnd fun j => P (C.get a) j
  have hirr : Irreducible (subMatrix P C) := by
    intro a b
    obtain ⟨b', hb', hr⟩ := reach_subMatrix hcl
      (hcomm _ (List.get_mem C a) _ (List.get_mem C b)) a rfl
    rwa [hnd.injective_get hb'] at hr
  obtain ⟨h1, h2, h3⟩ := gthSolve_stationary hlen hst hirr
  set r := gthSolve C.length (toArray (subMatrix P C))
  set x : Fin n → K := fun i => if i ∈ C then r.2 (C.idxOf i) else 0 with hx
  have hxget : ∀ a : Fin C.length, x (C.get a) = r.2 a := by
    intro a
    rw [hx]
    simp only
    rw [if_pos (List.get_mem C a), List.get_eq_getElem, List.Nodup.idxOf_getElem hnd]
  have hxsum : ∀ g : Fin n → K, ∑ i, x i * g i = ∑ a : Fin C.length, r.2 a * g (C.get a) := by
    intro g
    have e1 : ∑ i, x i * g i = ∑ i with i ∈ C, x i * g i := by
      rw [sum_filter]
      refine sum_congr rfl fun i _ => ?_
      split
      · rfl
      · next hi => rw [hx]; simp [hi]
    rw [e1, ← sum_get hnd fun i => x i * g i]
    exact sum_congr rfl fun a _ => by rw [hxget]
  have hxpos : ∀ i, 0 < x i ↔ i ∈ C := by
    intro i
    constructor
    · intro hi
      by_contra hn
      rw [hx] at hi
      simp only [if_neg hn, lt_irrefl] at hi
    · intro hi
      obtain ⟨a, rfl⟩ := List.get_of_mem hi
      rw [hxget]
      exact h2 a
  refine ⟨x, ?_, ⟨⟨fun i => ?_, ?_⟩, fun j => ?_⟩, hxpos, ?_⟩
  · unfold piClass
    simp only
    rw [if_pos h1]
    rfl
  · by_cases hi : i ∈ C
    · exact ((hxpos i).2 hi).le
    · rw [hx]; simp [hi]
  · have := hxsum fun _ => 1
    simp only [mul_one] at this
    rw [this]
    exact h3.1.2
  · rw [hxsum fun i => P i j]
    by_cases hj : j ∈ C
    · obtain ⟨b, rfl⟩ := List.get_of_mem hj
      rw [hxget]
      exact h3.2 b
    · have : x j = 0 := by rw [hx]; simp [hj]
      rw [this]
      refine sum_eq_zero fun a _ => ?_
      have h0 : P (C.get a) j = 0 := by
        by_contra hne
        exact hj (hcl _ _ (List.get_mem C a) (lt_of_le_of_ne (hP.1 _ _) (Ne.symm hne)))
      rw [h0, mul_zero]
  · intro y hy j hj
    have : Nonempty (Fin C.length) := ⟨⟨0, hlen⟩⟩
    have hyinv : IsInvariant (subMatrix P C) fun a => y (C.get a) := by
      intro b
      refine Eq.trans ?_ (hy _ (List.get_mem C b))
      exact sum_get hnd fun i => y i * P i (C.get b)
    obtain ⟨t, ht⟩ := invariant_proportional hst hirr h2 h3.2 hyinv
    have hsum : ∑ i with i ∈ C, y i = t := by
      rw [← sum_get hnd y]
      rw [sum_congr rfl fun a _ => ht a, ← mul_sum]
      have := h3.1.2
      rw [this, mul_one]
    obtain ⟨b, rfl⟩ := List.get_of_mem hj
    rw [hsum, hxget]
    exact ht b

/-- A stationary distribution gives no mass to transient states. -/
theorem stationary_transient {n : ℕ} {P : Matrix (Fin n) (Fin n) K} (hP : IsStochastic P)
    {y : Fin n → K} (hy : IsStationary P y) {i : Fin n} (hi : TransientState P i) : y i = 0 := by
  classical
  have hflow : ∀ i, TransientState P i → 0 < y i → ∀ j, RecurrentState P j → P i j = 0 := by
    have hbal : ∑ j with RecurrentState P j, y j =
        ∑ i, y i * ∑ j with RecurrentState P j, P i j := by
      rw [sum_congr rfl fun j _ => (hy.2 j).symm, sum_comm]
      exact sum_congr rfl fun i _ => (mul_sum _ _ _).symm
    have hrow : ∀ i, RecurrentState P i → ∑ j with RecurrentState P j, P i j = 1 := by
      intro i hi
      exact closed_row_sum (P := fun i j => P i j) hP
        (fun a b ha hab => ha.of_reach (Reach.single hab)) hi
    have hsplit := sum_filter_add_sum_filter_not univ (RecurrentState P)
      fun i => y i * ∑ j with RecurrentState P j, P i j
    rw [← hbal, sum_congr rfl fun i hi => by
      rw [hrow i (mem_filter.1 hi).2, mul_one]] at hsplit
    have hz : ∑ i with ¬ RecurrentState P i, y i * ∑ j with RecurrentState P j, P i j = 0 := by
      linarith
    have hterm : ∀ i ∈ univ.filter fun i => ¬ RecurrentState P i,
        0 ≤ y i * ∑ j with RecurrentState P j, P i j := fun i _ =>
      mul_nonneg (hy.1.1 i) (sum_nonneg fun j _ => hP.1 i j)
    have hz' := (sum_eq_zero_iff_of_nonneg hterm).1 hz
    intro i hi hpos j hj
    have := (mul_eq_zero.1 (hz' i (mem_filter.2 ⟨mem_univ _, hi⟩))).resolve_left hpos.ne'
    exact (sum_eq_zero_iff_of_nonneg fun j _ => hP.1 i j).1 this j (by simpa using hj)
  by_contra hne
  have hpos : 0 < y i := lt_of_le_of_ne (hy.1.1 i) (Ne.symm hne)
  obtain ⟨j, hj, hr⟩ := exists_recurrent_reach (fun i j => P i j) i
  have hcl : ClosedSet (fun i j => P i j) fun i => TransientState P i ∧ 0 < y i := by
    rintro a b ⟨ha, hya⟩ hab
    refine ⟨fun hb => ?_, support_closed hP hy.1.1 hy.2 a b hya hab⟩
    rw [Edge, hflow a ha hya b hb] at hab
    exact lt_irrefl _ hab
  exact (closedSet_reach hcl ⟨hi, hpos⟩ hj).1 hr

theorem sum_map_classes {n : ℕ} {l : List (List (Fin n))} (hd : l.Pairwise List.Disjoint)
    {C : List (Fin n)} (hC : C ∈ l) (hl : l.Nodup) {i : Fin n} (hi : i ∈ C)
    (f : List (Fin n) → K) (h0 : ∀ D ∈ l, i ∉ D → f D = 0) : (l.map f).sum = f C := by
  have huniq : ∀ D ∈ l, i ∈ D → D = C := by
    intro D hD hiD
    by_contra hne
    have : Std.Symm (List.Disjoint (α := Fin n)) := ⟨fun _ _ h => h.symm⟩
    exact hd.forall hD hC hne hiD hi
  rw [← List.sum_toFinset f hl]
  refine sum_eq_single_of_mem C (List.mem_toFinset.2 hC) fun D hD hne => ?_
  exact h0 D (List.mem_toFinset.1 hD) fun hiD => hne (huniq D (List.mem_toFinset.1 hD) hiD)

/-- C35. For a chain that is not irreducible `pi` holds one vector for each recurrent class, in the
order of the classes: a stationary distribution whose support is the class. The stationary
distributions of the chain are exactly the convex combinations of these vectors. -/
theorem C35_reducible {c : MC K} (hc : c.Valid) {sccs : List (List (Fin c.n))}
    (h : IsClasses c.p sccs) (hirr : ¬ Irreducible c.p) :
    (∀ i, RecurrentState c.p i ↔ ∃ C ∈ recurrentIdx c.p sccs, i ∈ C) ∧
    (∀ C ∈ recurrentIdx c.p sccs, ∀ i ∈ C, ∀ j, j ∈ C ↔ Communicate c.p i j) ∧
    ∃ f : List (Fin c.n) → Fin c.n → K,
      pi c sccs = .ok ((recurrentIdx c.p sccs).map f) ∧
      (∀ C ∈ recurrentIdx c.p sccs, IsStationary c.p (f C) ∧ ∀ i, 0 < f C i ↔ i ∈ C) ∧
      ∀ y, IsStationary c.p y ↔ ∃ w : List (Fin c.n) → K,
        (∀ C ∈ recurrentIdx c.p sccs, 0 ≤ w C) ∧ ((recurrentIdx c.p sccs).map w).sum = 1 ∧
        ∀ i, y i = ((recurrentIdx c.p sccs).map fun C => w C * f C i).sum := by
  have hk := h.classesIdx
  set L := recurrentIdx c.p sccs with hL
  have hmemL : ∀ C ∈ L, C ∈ classesIdx sccs ∧ ∀ a ∈ C, ∀ b, Edge c.p a b → b ∈ C := by
    intro C hC
    obtain ⟨h1, h2⟩ := mem_recurrentIdx.1 hC
    refine ⟨h1, ?_⟩
    by_contra hn
    rw [leaves_iff.2 hn] at h2
    cases h2
  have hLd : L.Pairwise List.Disjoint := by
    have : Std.Symm (List.Disjoint (α := Fin c.n)) := ⟨fun _ _ h => h.symm⟩
    exact (hk.disjoint.filter _).perm (sortClasses_perm _).symm (fun h => h.symm)
  have hLn : L.Nodup := by
    have : (classesIdx sccs).Nodup := hk.nodup_list
    exact (sortClasses_perm _).nodup_iff.2 (this.filter _)
  have hrec : ∀ i, RecurrentState c.p i ↔ ∃ C ∈ L, i ∈ C := by
    intro i
    rw [← mem_recurrentStatesIdx h i]
    unfold recurrentStatesIdx
    rw [mem_sortIdx, List.mem_flatten]
  have hex : ∀ C ∈ L, ∃ x, piClass c.p C = .ok x ∧ IsStationary c.p x ∧ (∀ i, 0 < x i ↔ i ∈ C) ∧
      ∀ y : Fin c.n → K, (∀ j ∈ C, ∑ i with i ∈ C, y i * c.p i j = y j) →
        ∀ j ∈ C, y j = (∑ i with i ∈ C, y i) * x j := by
    intro C hC
    obtain ⟨h1, h2⟩ := hmemL C hC
    exact piClass_spec hc.2.1 (hk.nodup C h1) (hk.ne_nil C h1) (fun a b ha hab => h2 a ha b hab)
      fun i hi j hj => ((hk.mem_iff C h1 i hi j).1 hj).1
  have : ∃ f : List (Fin c.n) → Fin c.n → K, ∀ C ∈ L, piClass c.p C = .ok (f C) ∧
      IsStationary c.p (f C) ∧ (∀ i, 0 < f C i ↔ i ∈ C) ∧
      ∀ y : Fin c.n → K, (∀ j ∈ C, ∑ i with i ∈ C, y i * c.p i j = y j) →
        ∀ j ∈ C, y j = (∑ i with i ∈ C, y i) * f C j := by
    classical
    refine ⟨fun C => if hC : C ∈ L then Classical.choose (hex C hC) else fun _ => 0, fun C hC => ?_⟩
    simp only [dif_pos hC]
    exact Classical.choose_spec (hex C hC)
  obtain ⟨f, hf⟩ := this
  have hf0 : ∀ C ∈ L, ∀ i, i ∉ C → f C i = 0 := by
    intro C hC i hi
    by_contra hne
    exact hi (((hf C hC).2.2.1 i).1 (lt_of_le_of_ne ((hf C hC).2.1.1.1 i) (Ne.symm hne)))
  refine ⟨hrec, fun C hC i hi j => hk.mem_iff C (hmemL C hC).1 i hi j, f, ?_,
    fun C hC => ⟨(hf C hC).2.1, (hf C hC).2.2.1⟩, fun y => ⟨fun hy => ?_, ?_⟩⟩
  · unfold pi
    rw [if_neg (fun hi => hirr ((C30_irreducible hc h).1 hi)), mapM_R_eq_ok, List.forall₂_map_right_iff,
      List.forall₂_same]
    exact fun C hC => (hf C hC).1
  · -- every stationary distribution is a combination
    have hzero : ∀ i, (∀ C ∈ L, i ∉ C) → y i = 0 := by
      intro i hi
      refine stationary_transient hc.2.1 hy fun hr => ?_
      obtain ⟨C, hC, hiC⟩ := (hrec i).1 hr
      exact hi C hC hiC
    have hinv : ∀ C ∈ L, ∀ j ∈ C, ∑ i with i ∈ C, y i * c.p i j = y j := by
      intro C hC j hj
      refine Eq.trans ?_ (hy.2 j)
      refine sum_subset (filter_subset _ _) fun i _ hi => ?_
      rw [mem_filter, not_and] at hi
      replace hi := hi (mem_univ i)
      by_cases hD : ∃ D ∈ L, i ∈ D
      · obtain ⟨D, hD, hiD⟩ := hD
        have h0 : c.p i j = 0 := by
          by_contra hne
          have hjD := (hmemL D hD).2 i hiD j (lt_of_le_of_ne (hc.2.1.1 i j) (Ne.symm hne))
          exact hi (((hk.mem_iff C (hmemL C hC).1 j hj i).2
            (((hk.mem_iff D (hmemL D hD).1 j hjD i).1 hiD))))
        rw [h0, mul_zero]
      · push Not at hD
        rw [hzero i hD, zero_mul]
    have hval : ∀ i, y i = (L.map fun C => (∑ j with j ∈ C, y j) * f C i).sum := by
      intro i
      by_cases hD : ∃ D ∈ L, i ∈ D
      · obtain ⟨D, hD, hiD⟩ := hD
        rw [sum_map_classes hLd hD hLn hiD]
        · exact (hf D hD).2.2.2 y (hinv D hD) i hiD
        · intro E hE hiE
          rw [hf0 E hE i hiE, mul_zero]
      · push Not at hD
        rw [hzero i hD]
        symm
        refine List.sum_eq_zero fun v hv => ?_
        obtain ⟨C, hC, rfl⟩ := List.mem_map.1 hv
        rw [hf0 C hC i (hD C hC), mul_zero]
    refine ⟨fun C => ∑ j with j ∈ C, y j, fun C _ => sum_nonneg fun j _ => hy.1.1 j, ?_, hval⟩
    have h1 := hy.1.2
    rw [sum_congr rfl fun i _ => hval i] at h1
    rw [← h1, ← List.sum_toFinset _ hLn]
    simp only [← List.sum_toFinset _ hLn]
    rw [sum_comm]
    refine sum_congr rfl fun C hC => ?_
    rw [← mul_sum, (hf C (List.mem_toFinset.1 hC)).2.1.1.2, mul_one]
  · rintro ⟨w, hw, hw1, hyw⟩
    simp only [← List.sum_toFinset _ hLn] at hyw hw1
    refine ⟨⟨fun i => ?_, ?_⟩, fun j => ?_⟩
    · rw [hyw]
      exact sum_nonneg fun C hC => mul_nonneg (hw C (List.mem_toFinset.1 hC))
        ((hf C (List.mem_toFinset.1 hC)).2.1.1.1 i)
    · simp only [hyw]
      rw [sum_comm, ← hw1]
      refine sum_congr rfl fun C hC => ?_
      rw [← mul_sum, (hf C (List.mem_toFinset.1 hC)).2.1.1.2, mul_one]
    · simp only [hyw, sum_mul]
      rw [sum_comm]
      refine sum_congr rfl fun C hC => ?_
      rw [← (hf C (List.mem_toFinset.1 hC)).2.1.2 j, mul_sum]
      exact sum_congr rfl fun i _ => mul_assoc _ _ _

/-- The hypotheses of `C35_reducible` are met. -/
example : exReversed.Valid ∧ IsClasses (fun i j : Fin 3 => exReversed.p i j) [[2], [0], [1]] ∧
    ¬ Irreducible (fun i j : Fin 3 => exReversed.p i j) := by
  decide +kernel

example : (pi exReversed ([[2], [0], [1]] : List (List (Fin 3)))).toOption.map (fun l =>
    l.map fun x => [x (0 : Fin 3), x (1 : Fin 3), x (2 : Fin 3)]) = some [[1, 0, 0]] := by
  decide +kernel

end Verif
