import Verif.Props.Periods
import Verif.Props.Regular
import Mathlib.Data.Int.ModEq

/-!
# Cyclic classes (C33)
-/

set_option linter.unusedSectionVars false

namespace Verif

variable {K : Type} [Field K] [LinearOrder K] [IsStrictOrderedRing K]

theorem exists_reachIn {ι : Type} [Fintype ι] [DecidableEq ι] {P : ι → ι → K}
    (hs : ∀ i, ∃ j, Edge P i j) (i : ι) (k : ℕ) : ∃ j, ReachIn P k i j := by
  induction k with
  | zero => exact ⟨i, .refl i⟩
  | succ k ih =>
    obtain ⟨j, hj⟩ := ih
    obtain ⟨l, e⟩ := hs j
    exact ⟨l, hj.step e⟩

theorem communicatingIdx_of_irreducible {n : ℕ} {P : Matrix (Fin n) (Fin n) K}
    {sccs : List (List (Fin n))} (h0 : 0 < n) (h : IsClasses P sccs) (hirr : Irreducible P) :
    communicatingIdx sccs = [List.finRange n] := by
  have hk := h.communicatingIdx
  obtain ⟨A, hA, hi⟩ := hk.cover ⟨0, h0⟩
  have hall : ∀ j, j ∈ A := fun j => (hk.mem_iff A hA _ hi j).2 ⟨hirr _ _, hirr _ _⟩
  have hAe : A = List.finRange n := by
    have hp : A.Perm (List.finRange n) :=
      (List.perm_ext_iff_of_nodup (hk.nodup A hA) (List.nodup_finRange n)).2 fun j => by simp [hall j]
    exact hp.eq_of_pairwise (fun a b _ _ hab hba => absurd hab (not_lt.2 hba.le))
      (classesIdx_sorted h A (mem_sortClasses.1 hA)) (List.pairwise_lt_finRange n)
  have hone : ∀ B ∈ communicatingIdx sccs, B = A := by
    intro B hB
    obtain ⟨b, hb⟩ := List.exists_mem_of_ne_nil B (hk.ne_nil B hB)
    exact (hk.eq_of_mem hA hB (hall b) hb).symm
  have hnd := hk.nodup_list
  rw [← hAe]
  generalize communicatingIdx sccs = l at *
  match l, hA, hone, hnd with
  | [x], _, hone, _ => rw [hone x (by simp)]
  | x :: y :: t, _, hone, hnd =>
    exfalso
    rw [List.nodup_cons] at hnd
    exact hnd.1 (by rw [hone x (by simp), hone y (by simp)]; simp)

theorem cyclicIdx_spec {c : MC K} (hc : c.Valid) {nx : Nx c.n} (hx : nx.Sound c.p)
    (hirr : Irreducible c.p) {d : ℕ} (hd : ∀ i, IsPeriodOf c.p i d) :
    ∃ (σ : Fin c.n → ℕ) (L : List (List (Fin c.n))), (∀ i, σ i < d) ∧
      (∀ i j, Edge c.p i j → σ j = (σ i + 1) % d) ∧
      cyclicIdx c nx = L ∧ L.length = d ∧ (∀ C ∈ L, C ≠ []) ∧
      L.Perm ((List.range d).map fun r => (List.finRange c.n).filter fun i => σ i = r) := by
  have h0 : 0 < c.n := by have := hc.1; omega
  obtain ⟨d', hd0, hp, -, -, hap⟩ := C32_irreducible_partial hc hx hirr
  have hdd : d' = d := isPeriodOf_unique (hp ⟨0, h0⟩) (hd ⟨0, h0⟩)
  subst hdd
  have hi := (C30_irreducible hc hx.sccs).2 hirr
  unfold cyclicIdx
  rw [if_neg (not_not.2 hi)]
  by_cases h1 : isAperiodic c nx = true
  · have hd1 := hap.1 h1
    subst hd1
    rw [if_pos h1, communicatingIdx_of_irreducible h0 hx.sccs hirr]
    refine ⟨fun _ => 0, [List.finRange c.n], fun _ => Nat.one_pos,
      fun _ _ _ => (Nat.mod_one _).symm, rfl, rfl, ?_, ?_⟩
    · intro C hC hnil
      rw [List.mem_singleton] at hC
      subst hC
      have := congrArg List.length hnil
      simp at this
      omega
    · simp [List.range_succ]
  · rw [if_neg h1]
    have hd1 : d' ≠ 1 := fun h => h1 (hap.2 h)
    obtain ⟨hst, hv⟩ := cyclicLoop_spec (P := c.p) h0 hirr (hd ⟨0, h0⟩) hd1
    unfold findCyclicClasses
    rw [dif_pos h0]
    simp only
    generalize cyclicLoop c.p (c.n + 1) (cyclicStart h0) = st at hst hv ⊢
    subst hst
    have hmod : ∀ {k : ℕ} {i : Fin c.n}, ReachIn (fun i j => c.p i j) k ⟨0, h0⟩ i →
        (k + 1) % st.d = st.v i % st.d := by
      intro k i hk
      have := hv k i hk
      have h2 : ((k + 1 : ℕ) : ℤ) ≡ ((st.v i : ℕ) : ℤ) [ZMOD (st.d : ℤ)] :=
        (Int.modEq_iff_dvd.2 (by push_cast; exact this)).symm
      exact Int.natCast_modEq_iff.1 h2
    have hne : ∀ r, r < st.d → (List.finRange c.n).filter (fun i => decide (st.v i % st.d = r)) ≠ [] := by
      intro r hr
      obtain ⟨i, hri⟩ := exists_reachIn (P := fun i j => c.p i j) hc.2.1.exists_edge ⟨0, h0⟩
        (r + st.d - 1)
      have := hmod hri
      rw [show r + st.d - 1 + 1 = r + st.d by omega, Nat.add_mod_right, Nat.mod_eq_of_lt hr] at this
      exact List.ne_nil_of_mem (List.mem_filter.2 ⟨List.mem_finRange i, decide_eq_true this.symm⟩)
    have hfil : ((List.range st.d).map fun u => (List.finRange c.n).filter fun i =>
          decide (st.v i % st.d = u)).filter (fun l => decide (l ≠ []))
        = (List.range st.d).map fun u => (List.finRange c.n).filter fun i =>
          decide (st.v i % st.d = u) := by
      refine List.filter_eq_self.2 fun C hC => ?_
      obtain ⟨r, hr, rfl⟩ := List.mem_map.1 hC
      exact decide_eq_true (hne r (List.mem_range.1 hr))
    rw [hfil]
    refine ⟨fun i => st.v i % st.d, _, fun i => Nat.mod_lt _ hd0, ?_, rfl, ?_, ?_, sortClasses_perm _⟩
    · intro i j e
      obtain ⟨k, hk⟩ := reach_iff_reachIn.1 (hirr ⟨0, h0⟩ i)
      have e1 := hmod hk
      have e2 := hmod (hk.step e)
      change st.v j % st.d = (st.v i % st.d + 1) % st.d
      rw [← e2, ← e1, Nat.mod_add_mod]
    · rw [(sortClasses_perm _).length_eq, List.length_map, List.length_range]
    · intro C hC
      obtain ⟨r, hr, rfl⟩ := List.mem_map.1 (mem_sortClasses.1 hC)
      exact hne r (List.mem_range.1 hr)

/-- C33. For an irreducible chain of period `d` the list `cyclic_classes` consists of `d` classes,
none of them empty; they are the sets of states of equal phase `σ`, for a phase in `0, …, d - 1`
that every transition increases by one modulo `d`. -/
theorem C33_cyclic_classes {c : MC K} (hc : c.Valid) {nx : Nx c.n} (hx : nx.Sound c.p)
    (hirr : Irreducible c.p) {d : ℕ} (hd : ∀ i, IsPeriodOf c.p i d) :
    ∃ (σ : Fin c.n → ℕ) (L : List (List (Fin c.n))), (∀ i, σ i < d) ∧
      (∀ i j, Edge c.p i j → σ j = (σ i + 1) % d) ∧
      cyclicClasses c nx = L.map (fun C => C.map c.label) ∧ L.length = d ∧ (∀ C ∈ L, C ≠ []) ∧
      L.Perm ((List.range d).map fun r => (List.finRange c.n).filter fun i => σ i = r) := by
  obtain ⟨σ, L, h1, h2, h3, h4⟩ := cyclicIdx_spec hc hx hirr hd
  refine ⟨σ, L, h1, h2, ?_, h4⟩
  unfold cyclicClasses
  rw [h3]

/-- For a reducible chain there are no cyclic classes. -/
theorem C33_reducible {c : MC K} (hc : c.Valid) {nx : Nx c.n} (hx : nx.Sound c.p)
    (hirr : ¬ Irreducible c.p) : cyclicClasses c nx = [] := by
  unfold cyclicClasses cyclicIdx
  rw [if_pos (fun h => hirr ((C30_irreducible hc hx.sccs).1 h))]
  rfl

/-- A cycle of length four with a shortcut pair: period two. -/
def exPeriodTwo : MC ℚ :=
  ⟨4, !![0, 1, 0, 0; 0, 0, 1, 0; 0, 1 / 2, 0, 1 / 2; 1, 0, 0, 0], ["a", "b", "c", "d"]⟩

def exPeriodTwoNx : Nx 4 := Nx.ofClasses (fun i j => exPeriodTwo.p i j) [[2, 0, 3, 1]] false

/-- The hypotheses of `C32_irreducible_partial` and `C33_cyclic_classes` are met. -/
example : exPeriodTwo.Valid ∧ exPeriodTwoNx.Sound (fun i j => exPeriodTwo.p i j) ∧
    Irreducible (fun i j : Fin 4 => exPeriodTwo.p i j) ∧ periods exPeriodTwo exPeriodTwoNx = [2] ∧
    cyclicClasses exPeriodTwo exPeriodTwoNx = [["a", "c"], ["b", "d"]] := by
  refine ⟨by decide +kernel, Nx.ofClasses_sound false ?_, by decide +kernel, by decide +kernel,
    by decide +kernel⟩
  change IsClasses (fun i j : Fin 4 => exPeriodTwo.p i j) [[2, 0, 3, 1]]
  decide +kernel

end Verif
