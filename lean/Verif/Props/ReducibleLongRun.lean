import Verif.Props.SimulationLaw
import Verif.Props.Absorption
import Verif.Props.LongRun
import Verif.Props.Hitting

/-!
# Long-run behaviour of chains with several classes (C132)

`pi` (`markov_chain.py:868-887`) lists one distribution for every recurrent class, and
`hitting_probabilities` (`markov_chain.py:1326-1351`) tells how likely every class is.
-/

set_option linter.unusedSectionVars false

namespace Verif

open Finset MeasureTheory

section Generic

variable {K : Type} [Field K] [LinearOrder K] [IsStrictOrderedRing K] {n : ℕ}

/-- A solution of the Poisson equation for a matrix `W` that is left alone by `P`. -/
theorem sum_pow_poisson_matrix {P W : Matrix (Fin n) (Fin n) K} {z : Fin n → Fin n → K}
    (hW : ∀ i j, ∑ l, P i l * W l j = W i j)
    (hz : ∀ i j, ∑ l, P i l * z l j = z i j + W i j - (1 : Matrix (Fin n) (Fin n) K) i j)
    (k : ℕ) (i j : Fin n) :
    ∑ t ∈ range k, (P ^ t) i j - k * W i j = z i j - ∑ l, (P ^ k) i l * z l j := by
  have hWk : ∀ k, ∑ l, (P ^ k) i l * W l j = W i j := by
    intro k
    induction k with
    | zero => simp [Matrix.one_apply]
    | succ k ih =>
      calc ∑ l, (P ^ (k + 1)) i l * W l j = ∑ l, (P ^ k) i l * ∑ a, P l a * W a j := by
            simp only [pow_succ, Matrix.mul_apply, sum_mul, mul_sum]
            rw [sum_comm]
            exact sum_congr rfl fun l _ => sum_congr rfl fun a _ => by ring
        _ = W i j := by rw [← ih]; exact sum_congr rfl fun l _ => by rw [hW]
  induction k with
  | zero => simp [Matrix.one_apply]
  | succ k ih =>
    have h1 : ∑ l, (P ^ (k + 1)) i l * z l j = ∑ l, (P ^ k) i l * z l j + W i j - (P ^ k) i j := by
      calc ∑ l, (P ^ (k + 1)) i l * z l j = ∑ l, (P ^ k) i l * ∑ a, P l a * z a j := by
            simp only [pow_succ, Matrix.mul_apply, sum_mul, mul_sum]
            rw [sum_comm]
            exact sum_congr rfl fun l _ => sum_congr rfl fun a _ => by ring
        _ = ∑ l, ((P ^ k) i l * z l j + (P ^ k) i l * W l j -
              (P ^ k) i l * (1 : Matrix (Fin n) (Fin n) K) l j) :=
            sum_congr rfl fun l _ => by rw [hz]; ring
        _ = _ := by
            rw [sum_sub_distrib, sum_add_distrib, hWk]
            congr 1
            rw [← Matrix.mul_apply, mul_one]
    rw [sum_range_succ, h1]
    push_cast
    linarith

theorem averages_near_matrix {P W : Matrix (Fin n) (Fin n) K} {z : Fin n → Fin n → K}
    (hP : IsStochastic P) (hW : ∀ i j, ∑ l, P i l * W l j = W i j)
    (hz : ∀ i j, ∑ l, P i l * z l j = z i j + W i j - (1 : Matrix (Fin n) (Fin n) K) i j)
    {B : K} (hB : ∀ i j, |z i j| ≤ B) {k : ℕ} (hk : 0 < k) (i j : Fin n) :
    |(∑ t ∈ range k, (P ^ t) i j) / k - W i j| ≤ 2 * B / k := by
  have hk' : (0 : K) < k := by exact_mod_cast hk
  have h1 : (∑ t ∈ range k, (P ^ t) i j) / k - W i j =
      (∑ t ∈ range k, (P ^ t) i j - k * W i j) / k := by
    field_simp
  rw [h1, abs_div, abs_of_pos hk', sum_pow_poisson_matrix hW hz]
  gcongr
  have h2 : |∑ l, (P ^ k) i l * z l j| ≤ B := by
    refine (abs_sum_le_sum_abs _ _).trans ?_
    calc ∑ l, |(P ^ k) i l * z l j| ≤ ∑ l, (P ^ k) i l * B := by
          refine sum_le_sum fun l _ => ?_
          rw [abs_mul, abs_of_nonneg ((hP.pow k).1 i l)]
          exact mul_le_mul_of_nonneg_left (hB l j) ((hP.pow k).1 i l)
      _ = B := by rw [← sum_mul, (hP.pow k).2 i, one_mul]
  calc _ ≤ |z i j| + |∑ l, (P ^ k) i l * z l j| := abs_sub _ _
    _ ≤ 2 * B := by linarith [hB i j]

/-- A function that every step leaves alone on average does not change along the transitions between
states of positive stationary probability. -/
theorem harmonic_edge {P : Fin n → Fin n → K} (hP : IsStochastic P) {x v : Fin n → K}
    (hx : IsStationary P x) (hv : ∀ i, ∑ j, P i j * v j = v i) {i j : Fin n} (hi : 0 < x i)
    (hij : Edge P i j) : v j = v i := by
  have h1 : ∑ i, x i * ∑ j, P i j * (v j - v i) ^ 2 = 0 := by
    have h2 : ∀ i, x i * ∑ j, P i j * (v j - v i) ^ 2 = ∑ j, x i * P i j * v j ^ 2 - x i * v i ^ 2 := by
      intro i
      have : ∀ j, P i j * (v j - v i) ^ 2 = P i j * v j ^ 2 - 2 * v i * (P i j * v j) + v i ^ 2 * P i j := by
        intro j; ring
      simp only [this]
      rw [sum_add_distrib, sum_sub_distrib, ← mul_sum, ← mul_sum, hv, hP.2 i, mul_add, mul_sub, mul_sum]
      have : ∀ j, x i * (P i j * v j ^ 2) = x i * P i j * v j ^ 2 := fun j => by ring
      simp only [this]
      ring
    simp only [h2]
    rw [sum_sub_distrib, sum_comm]
    have h3 : ∀ j, ∑ i, x i * P i j * v j ^ 2 = x j * v j ^ 2 := fun j => by
      rw [← sum_mul, hx.2 j]
    simp only [h3, sub_self]
  have h4 : ∀ i ∈ (univ : Finset (Fin n)), 0 ≤ x i * ∑ j, P i j * (v j - v i) ^ 2 := fun i _ =>
    mul_nonneg (hx.1.1 i) (sum_nonneg fun j _ => mul_nonneg (hP.1 i j) (sq_nonneg _))
  have h5 := (sum_eq_zero_iff_of_nonneg h4).1 h1 i (mem_univ i)
  rcases mul_eq_zero.1 h5 with h | h
  · exact absurd h hi.ne'
  · have h6 := (sum_eq_zero_iff_of_nonneg fun j _ => mul_nonneg (hP.1 i j) (sq_nonneg _)).1 h j (mem_univ j)
    rcases mul_eq_zero.1 h6 with h | h
    · exact absurd h (ne_of_gt hij)
    · exact sub_eq_zero.1 (pow_eq_zero_iff two_ne_zero |>.1 h)

/-- The averages of the powers for a chain whose recurrent classes `L` have stationary distributions `f`
and hitting probabilities `g`. -/
theorem class_averages {P : Matrix (Fin n) (Fin n) K} (hP : IsStochastic P)
    (L : Finset (List (Fin n))) {f g : List (Fin n) → Fin n → K}
    (hrec : ∀ i, RecurrentState P i → ∃ C ∈ L, i ∈ C)
    (hcomm : ∀ C ∈ L, ∀ i ∈ C, ∀ j ∈ C, Reach P i j)
    (hf : ∀ C ∈ L, IsStationary P (f C)) (hfC : ∀ C ∈ L, ∀ i, 0 < f C i ↔ i ∈ C)
    (hg : ∀ C ∈ L, ∀ i, ∑ j, P i j * g C j = g C i)
    (hgC : ∀ C ∈ L, ∀ i ∈ C, g C i = 1) (hg0 : ∀ C ∈ L, ∀ D ∈ L, C ≠ D → ∀ i ∈ D, g C i = 0) :
    ∃ B, 0 ≤ B ∧ ∀ k : ℕ, 0 < k → ∀ i j,
      |(∑ t ∈ range k, (P ^ t) i j) / k - ∑ C ∈ L, g C i * f C j| ≤ B / k := by
  obtain ⟨W, hW⟩ : ∃ W : Matrix (Fin n) (Fin n) K, W = fun i j => ∑ C ∈ L, g C i * f C j := ⟨_, rfl⟩
  have hWij : ∀ i j, W i j = ∑ C ∈ L, g C i * f C j := fun i j => by rw [hW]
  have hf0 : ∀ C ∈ L, ∀ i, i ∉ C → f C i = 0 := fun C hC i hi =>
    le_antisymm (not_lt.1 fun h => hi ((hfC C hC i).1 h)) ((hf C hC).1.1 i)
  have hPW : ∀ i j, ∑ l, P i l * W l j = W i j := by
    intro i j
    simp only [hWij, mul_sum]
    rw [sum_comm]
    refine sum_congr rfl fun C hC => ?_
    rw [← hg C hC i, sum_mul]
    exact sum_congr rfl fun l _ => by ring
  have hpair : ∀ C ∈ L, ∀ D ∈ L, ∑ i, f C i * g D i = if C = D then 1 else 0 := by
    intro C hC D hD
    have : ∀ i, f C i * g D i = f C i * if C = D then 1 else 0 := by
      intro i
      by_cases hi : i ∈ C
      · by_cases h : C = D
        · subst h
          rw [hgC C hC i hi, if_pos rfl]
        · rw [hg0 D hD C hC (Ne.symm h) i hi, if_neg h]
      · rw [hf0 C hC i hi, zero_mul, zero_mul]
    simp only [this]
    rw [← sum_mul, (hf C hC).1.2, one_mul]
  have hfW : ∀ C ∈ L, ∀ j, ∑ i, f C i * W i j = f C j := by
    intro C hC j
    simp only [hWij, mul_sum]
    rw [sum_comm]
    have : ∀ D ∈ L, ∑ i, f C i * (g D i * f D j) = (if C = D then 1 else 0) * f D j := by
      intro D hD
      rw [← hpair C hC D hD, sum_mul]
      exact sum_congr rfl fun i _ => by ring
    rw [sum_congr rfl this]
    simp [hC]
  have hdet : (1 - P + W).det ≠ 0 := by
    intro hdet
    obtain ⟨v, hv0, hv⟩ := Matrix.exists_mulVec_eq_zero_iff.2 hdet
    apply hv0
    have hvi : ∀ i, v i - ∑ j, P i j * v j + ∑ j, W i j * v j = 0 := by
      intro i
      have := congrFun hv i
      rw [Matrix.add_mulVec, Matrix.sub_mulVec, Matrix.one_mulVec] at this
      exact this
    have hfv : ∀ C ∈ L, ∑ i, f C i * v i = 0 := by
      intro C hC
      have h1 : ∑ i, f C i * (v i - ∑ j, P i j * v j + ∑ j, W i j * v j) = 0 := by
        simp only [hvi, mul_zero, sum_const_zero]
      simp only [mul_add, mul_sub, sum_add_distrib, sum_sub_distrib] at h1
      have h2 : ∑ i, f C i * ∑ j, P i j * v j = ∑ j, f C j * v j := by
        simp only [mul_sum]
        rw [sum_comm]
        refine sum_congr rfl fun j _ => ?_
        rw [← (hf C hC).2 j, sum_mul]
        exact sum_congr rfl fun i _ => by ring
      have h3 : ∑ i, f C i * ∑ j, W i j * v j = ∑ j, f C j * v j := by
        simp only [mul_sum]
        rw [sum_comm]
        refine sum_congr rfl fun j _ => ?_
        rw [← hfW C hC j, sum_mul]
        exact sum_congr rfl fun i _ => by ring
      rw [h2, h3] at h1
      linarith
    have hWv : ∀ i, ∑ j, W i j * v j = 0 := by
      intro i
      simp only [hWij, sum_mul]
      rw [sum_comm]
      refine sum_eq_zero fun C hC => ?_
      have : ∀ j, g C i * f C j * v j = g C i * (f C j * v j) := fun j => by ring
      simp only [this]
      rw [← mul_sum, hfv C hC, mul_zero]
    have hharm : ∀ i, ∑ j, P i j * v j = v i := by
      intro i
      have := hvi i
      rw [hWv] at this
      linarith
    have hconst : ∀ C ∈ L, ∀ i ∈ C, ∀ j, Reach P i j → v j = v i ∧ j ∈ C := by
      intro C hC i hi j hij
      induction hij with
      | refl => exact ⟨rfl, hi⟩
      | tail h1 h2 ih =>
        obtain ⟨e1, e2⟩ := ih
        have hpos := (hfC C hC _).2 e2
        refine ⟨(harmonic_edge (P := P) hP (hf C hC) hharm hpos h2).trans e1, ?_⟩
        rw [← hfC C hC]
        rw [← (hf C hC).2]
        refine lt_of_lt_of_le (mul_pos hpos h2) ?_
        exact single_le_sum (f := fun i => f C i * P i _) (fun i _ => mul_nonneg ((hf C hC).1.1 i) (hP.1 i _))
          (mem_univ _)
    have hrec0 : ∀ i, RecurrentState P i → v i = 0 := by
      intro i hi
      obtain ⟨C, hC, hiC⟩ := hrec i hi
      have h1 := hfv C hC
      have h2 : ∀ j, f C j * v j = f C j * v i := by
        intro j
        by_cases hj : j ∈ C
        · rw [(hconst C hC i hiC j (hcomm C hC i hiC j hj)).1]
        · rw [hf0 C hC j hj, zero_mul, zero_mul]
      simp only [h2] at h1
      rwa [← sum_mul, (hf C hC).1.2, one_mul] at h1
    have := harmonic_unique (P := P) hP (B := RecurrentState P) (b := fun _ => 0) (v := v) (w := fun _ => 0)
      (fun i => by
        obtain ⟨j, h1, h2⟩ := exists_recurrent_reach P i
        exact ⟨j, h2, h1⟩)
      hrec0 (fun i _ => by rw [hharm i, zero_add]) (fun i _ => by simp)
    exact this
  have hu : IsUnit (1 - P + W).det := isUnit_iff_ne_zero.2 hdet
  obtain ⟨z, hzdef⟩ : ∃ z, z = (1 - P + W)⁻¹ := ⟨_, rfl⟩
  have hz1 : (1 - P + W) * z = 1 := by rw [hzdef]; exact Matrix.mul_nonsing_inv _ hu
  have hz2 : ∀ i j, z i j - ∑ l, P i l * z l j + ∑ l, W i l * z l j = (1 : Matrix (Fin n) (Fin n) K) i j := by
    intro i j
    have := congrFun (congrFun hz1 i) j
    rw [Matrix.add_mul, Matrix.sub_mul, Matrix.one_mul] at this
    exact this
  have hfz : ∀ C ∈ L, ∀ j, ∑ i, f C i * z i j = f C j := by
    intro C hC j
    have h1 : ∑ i, f C i * (z i j - ∑ l, P i l * z l j + ∑ l, W i l * z l j) = f C j := by
      simp only [hz2, Matrix.one_apply, mul_ite, mul_one, mul_zero, sum_ite_eq', mem_univ, if_true]
    simp only [mul_add, mul_sub, sum_add_distrib, sum_sub_distrib] at h1
    have h2 : ∑ i, f C i * ∑ l, P i l * z l j = ∑ l, f C l * z l j := by
      simp only [mul_sum]
      rw [sum_comm]
      refine sum_congr rfl fun l _ => ?_
      rw [← (hf C hC).2 l, sum_mul]
      exact sum_congr rfl fun i _ => by ring
    have h3 : ∑ i, f C i * ∑ l, W i l * z l j = ∑ l, f C l * z l j := by
      simp only [mul_sum]
      rw [sum_comm]
      refine sum_congr rfl fun l _ => ?_
      rw [← hfW C hC l, sum_mul]
      exact sum_congr rfl fun i _ => by ring
    rw [h2, h3] at h1
    linarith
  have hWz : ∀ i j, ∑ l, W i l * z l j = W i j := by
    intro i j
    simp only [hWij, sum_mul]
    rw [sum_comm]
    refine sum_congr rfl fun C hC => ?_
    rw [← hfz C hC j, mul_sum]
    exact sum_congr rfl fun l _ => by ring
  have hz : ∀ i j, ∑ l, P i l * z l j = z i j + W i j - (1 : Matrix (Fin n) (Fin n) K) i j := by
    intro i j
    have := hz2 i j
    rw [hWz] at this
    linarith
  obtain ⟨B, hB0, hB⟩ := finite_bound fun q : Fin n × Fin n => |z q.1 q.2|
  refine ⟨2 * B, by positivity, fun k hk i j => ?_⟩
  rw [← hWij]
  exact averages_near_matrix hP hPW hz (fun a b => hB (a, b)) hk i j

/-! ## C132 -/

theorem recurrentIdx_disjoint {c : MC K} {sccs : List (List (Fin c.n))} (h : IsClasses c.p sccs) :
    (recurrentIdx c.p sccs).Pairwise List.Disjoint := by
  have : Std.Symm (List.Disjoint (α := Fin c.n)) := ⟨fun _ _ h => h.symm⟩
  exact (h.classesIdx.disjoint.filter _).perm (sortClasses_perm _).symm (fun h => h.symm)

theorem recurrentIdx_nodup {c : MC K} {sccs : List (List (Fin c.n))} (h : IsClasses c.p sccs) :
    (recurrentIdx c.p sccs).Nodup := by
  refine (List.pairwise_iff_forall_sublist.2 fun {a b} hab => ?_)
  have h1 := List.pairwise_iff_forall_sublist.1 (recurrentIdx_disjoint h) hab
  rintro rfl
  have hne := h.classesIdx.ne_nil a (mem_recurrentIdx.1 (hab.subset (by simp))).1
  obtain ⟨x, hx⟩ := List.exists_mem_of_ne_nil _ hne
  exact h1 hx hx

theorem recurrentIdx_sorted {c : MC K} {sccs : List (List (Fin c.n))} (h : IsClasses c.p sccs) :
    ∀ C ∈ recurrentIdx c.p sccs, C.Pairwise (· < ·) := fun C hC =>
  classesIdx_sorted h C (mem_recurrentIdx.1 hC).1

theorem recurrentIdx_iff {c : MC K} {sccs : List (List (Fin c.n))} (h : IsClasses c.p sccs)
    (i : Fin c.n) : RecurrentState c.p i ↔ ∃ C ∈ recurrentIdx c.p sccs, i ∈ C := by
  rw [← mem_recurrentStatesIdx h, recurrentStatesIdx, mem_sortIdx, List.mem_flatten]

/-- `pi` lists one distribution for every recurrent class, with one class or with several. -/
theorem pi_classes {c : MC K} (hc : c.Valid) {sccs : List (List (Fin c.n))} (h : IsClasses c.p sccs) :
    ∃ f : List (Fin c.n) → Fin c.n → K, pi c sccs = .ok ((recurrentIdx c.p sccs).map f) ∧
      ∀ C ∈ recurrentIdx c.p sccs, IsStationary c.p (f C) ∧ ∀ i, 0 < f C i ↔ i ∈ C := by
  by_cases hirr : Irreducible c.p
  · obtain ⟨x, h1, h2, h3, -⟩ := C34_stationary hc h hirr
    have hall : ∀ C ∈ recurrentIdx c.p sccs, ∀ i, i ∈ C := by
      intro C hC i
      have hk := (mem_recurrentIdx.1 hC).1
      obtain ⟨a, ha⟩ := List.exists_mem_of_ne_nil _ (h.classesIdx.ne_nil C hk)
      exact (h.classesIdx.mem_iff C hk a ha i).2 ⟨hirr a i, hirr i a⟩
    obtain ⟨C, hC⟩ : ∃ C, recurrentIdx c.p sccs = [C] := by
      obtain ⟨C, hC, hi⟩ := (recurrentIdx_iff h ⟨0, by have := hc.1; omega⟩).1 (fun j _ => hirr _ _)
      have hd := recurrentIdx_disjoint h
      match hL : recurrentIdx c.p sccs, hd, hC with
      | [D], _, _ => exact ⟨D, rfl⟩
      | D :: E :: L, hd, _ =>
        rw [hL] at hall
        have h4 := List.rel_of_pairwise_cons hd (a' := E) (by simp)
        exact absurd (hall E (by simp) ⟨0, by have := hc.1; omega⟩)
          (fun h => h4 (hall D (by simp) _) h)
    refine ⟨fun _ => x, by rw [hC]; exact h1, fun C hC => ⟨h2, fun i => ⟨fun _ => hall C hC i, fun _ => h3 i⟩⟩⟩
  · obtain ⟨-, -, f, h1, h2, -⟩ := C35_reducible hc h hirr
    exact ⟨f, h1, h2⟩

/-- The labels of a class, as the argument of `hitting_probabilities`, select the class. -/
theorem hittingTargets_class {c : MC K} (hc : c.Valid) {C : List (Fin c.n)} (hC : C.Pairwise (· < ·))
    (hne : C ≠ []) : hittingTargets c (some (pyStrings (C.map c.label))) = .ok C := by
  obtain ⟨-, -, hlen, hnd, hbl⟩ := hc
  have hlab : ∀ i : Fin c.n, c.states[(i : ℕ)]? = some (c.label i) ∧ nonBlank (c.label i) = true := by
    intro i
    have hi : (i : ℕ) < c.states.length := by rw [hlen]; exact i.2
    have : c.label i = c.states[(i : ℕ)] := by unfold MC.label; simp [hi]
    rw [this]
    exact ⟨List.getElem?_eq_getElem hi, hbl _ (List.getElem_mem hi)⟩
  have hlt : ((C.map Fin.val).Pairwise (· < ·)) := List.pairwise_map.2 (hC.imp fun h => h)
  have hle : C.length ≤ c.n := by
    have := List.Nodup.length_le_card (hC.imp fun h => ne_of_lt h)
    rwa [Fintype.card_fin] at this
  have key : validateLabelsCurrent (pyStrings (C.map c.label) : PyVal K) c.states false none =
      .ok (C.map Fin.val) := by
    refine (C04_label_lists hnd _ false none _).2 ⟨Or.inr ?_, ⟨C.map Fin.val, ?_, .refl _⟩, hlt, ?_, ?_⟩
    · intro v hv
      rw [List.map_map, List.mem_map] at hv
      obtain ⟨i, -, rfl⟩ := hv
      exact ⟨_, rfl, (hlab i).2⟩
    · rw [List.map_map, List.forall₂_map_left_iff, List.forall₂_map_right_iff, List.forall₂_same]
      exact fun i _ => Or.inr ⟨_, rfl, (hlab i).2, (hlab i).1⟩
    · have := List.length_pos_iff.2 hne
      simp; omega
    · simpa [hlen] using hle
  change (validateLabelsCurrent (pyStrings (C.map c.label) : PyVal K) c.states false none >>= fun l =>
    pure (toStates c.n l)) = _
  rw [key]
  change Except.ok (toStates c.n (C.map Fin.val)) = .ok C
  congr 1
  unfold toStates
  rw [List.filterMap_map]
  refine (List.filterMap_congr (g := some) fun i _ => ?_).trans (List.filterMap_some)
  simp

/-- What `recurrent_classes`, `pi` and `hitting_probabilities` say about the recurrent classes. -/
theorem shares_data {nnls : Nnls K} (hnn : Nnls.Sound nnls) {c : MC K} (hc : c.Valid)
    {sccs : List (List (Fin c.n))} (h : IsClasses c.p sccs) :
    ∃ (L : List (List (Fin c.n))) (f g : List (Fin c.n) → Fin c.n → K),
      L = recurrentIdx c.p sccs ∧ L.Nodup ∧
      recurrentClasses c sccs = L.map (fun C => C.map c.label) ∧ pi c sccs = .ok (L.map f) ∧
      (∀ C ∈ L, hittingProbabilities nnls c (some (pyStrings (C.map c.label))) = .ok (g C)) ∧
      (∀ i, RecurrentState c.p i → ∃ C ∈ L, i ∈ C) ∧
      (∀ C ∈ L, ∀ i ∈ C, ∀ j ∈ C, Reach c.p i j) ∧
      (∀ C ∈ L, IsStationary c.p (f C)) ∧ (∀ C ∈ L, ∀ i, 0 < f C i ↔ i ∈ C) ∧
      (∀ C ∈ L, ∀ i, ∑ j, c.p i j * g C j = g C i) ∧
      (∀ C ∈ L, ∀ i ∈ C, g C i = 1) ∧ (∀ C ∈ L, ∀ D ∈ L, C ≠ D → ∀ i ∈ D, g C i = 0) := by
  obtain ⟨f, hpi, hf⟩ := pi_classes hc h
  have hP : IsStochastic fun i j => c.p i j := hc.2.1
  have hk : ∀ C ∈ recurrentIdx c.p sccs, C ∈ classesIdx sccs := fun C hC => (mem_recurrentIdx.1 hC).1
  have hspec : ∀ C ∈ recurrentIdx c.p sccs,
      IsHittingProbability (fun i j => c.p i j) (· ∈ C) (mcHittingProbabilities nnls c.p C) := fun C hC =>
    mcHittingProbabilities_spec hnn hP ((recurrentIdx_sorted h C hC).imp fun h => ne_of_lt h)
  have hclosed : ∀ C ∈ recurrentIdx c.p sccs, ∀ i ∈ C, ∀ j, Reach c.p i j → j ∈ C := by
    intro C hC i hi j hij
    have hr := (recurrentIdx_iff h i).2 ⟨C, hC, hi⟩
    exact (h.classesIdx.mem_iff C (hk C hC) i hi j).2 ⟨hij, hr j hij⟩
  have hone : ∀ C ∈ recurrentIdx c.p sccs, ∀ i ∈ C, mcHittingProbabilities nnls c.p C i = 1 :=
    fun C hC i hi => (hspec C hC).1.1 i hi
  have hzero : ∀ C ∈ recurrentIdx c.p sccs, ∀ i, (¬ ∃ j ∈ C, Reach c.p i j) →
      mcHittingProbabilities nnls c.p C i = 0 := by
    intro C hC i hi
    obtain ⟨g, hg, hg0⟩ := exists_hittingProbability (P := c.p) hP (· ∈ C)
    rw [hittingProbability_unique (hspec C hC) hg]
    exact hg0 i hi
  refine ⟨recurrentIdx c.p sccs, f, fun C => mcHittingProbabilities nnls c.p C, rfl, recurrentIdx_nodup h,
    rfl, hpi, fun C hC => ?_, fun i => (recurrentIdx_iff h i).1, fun C hC i hi j hj =>
      ((h.classesIdx.mem_iff C (hk C hC) i hi j).1 hj).1, fun C hC => (hf C hC).1,
    fun C hC => (hf C hC).2, fun C hC i => ?_, hone, fun C hC D hD hCD i hi => hzero C hC i ?_⟩
  · unfold hittingProbabilities
    rw [hittingTargets_class hc (recurrentIdx_sorted h C hC) (h.classesIdx.ne_nil C (hk C hC))]
    rfl
  · change ∑ j, c.p i j * mcHittingProbabilities nnls c.p C j = mcHittingProbabilities nnls c.p C i
    by_cases hi : i ∈ C
    · rw [hone C hC i hi, ← hc.2.1.2 i]
      refine sum_congr rfl fun j _ => ?_
      by_cases hij : 0 < c.p i j
      · rw [hone C hC j (hclosed C hC i hi j (.single hij)), mul_one]
      · rw [le_antisymm (not_lt.1 hij) (hc.2.1.1 i j), zero_mul]
    · exact ((hspec C hC).1.2 i hi).symm
  · rintro ⟨j, hj, hij⟩
    have : Std.Symm (List.Disjoint (α := Fin c.n)) := ⟨fun _ _ h => h.symm⟩
    exact (recurrentIdx_disjoint h).forall hC hD hCD hj (hclosed D hD i hi j hij)

/-- C132. In the long run, the share of the time that a chain spends in a state tends to the sum over the
recurrent classes of the probability to enter the class (`hitting_probabilities`) times the probability of
the state in the distribution of the class (`pi`). -/
theorem C132_shares {nnls : Nnls K} (hnn : Nnls.Sound nnls) {c : MC K} (hc : c.Valid)
    {sccs : List (List (Fin c.n))} (h : IsClasses c.p sccs) :
    ∃ (L : List (List (Fin c.n))) (f g : List (Fin c.n) → Fin c.n → K),
      recurrentClasses c sccs = L.map (fun C => C.map c.label) ∧ pi c sccs = .ok (L.map f) ∧
      (∀ C ∈ L, hittingProbabilities nnls c (some (pyStrings (C.map c.label))) = .ok (g C)) ∧
      ∃ B, ∀ k : ℕ, 0 < k → ∀ i j,
        |(∑ t ∈ range k, (c.p ^ t) i j) / k - (L.map fun C => g C i * f C j).sum| ≤ B / k := by
  obtain ⟨L, f, g, -, hnd, h1, h2, h3, hrec, hcomm, hf, hfC, hg, hgC, hg0⟩ := shares_data hnn hc h
  refine ⟨L, f, g, h1, h2, h3, ?_⟩
  simp only [← List.mem_toFinset (l := L)] at hrec hcomm hf hfC hg hgC hg0
  obtain ⟨B, -, hB⟩ := class_averages (P := c.p) hc.2.1 L.toFinset (f := f) (g := g)
    hrec hcomm hf hfC hg hgC hg0
  refine ⟨B, fun k hk i j => ?_⟩
  rw [← List.sum_toFinset _ hnd]
  exact hB k hk i j

end Generic

open MeasureTheory in
/-- C132 for simulated runs. The bound `B` depends on the chain alone, not on the number of steps nor on the
initial state. -/
theorem C132_simulated {nnls : Nnls ℝ} (hnn : Nnls.Sound nnls) {c : MC ℝ} (hc : c.Valid) [NeZero c.n]
    {sccs : List (List (Fin c.n))} (h : IsClasses c.p sccs) :
    ∃ (L : List (List (Fin c.n))) (f g : List (Fin c.n) → Fin c.n → ℝ),
      recurrentClasses c sccs = L.map (fun C => C.map c.label) ∧ pi c sccs = .ok (L.map f) ∧
      (∀ C ∈ L, hittingProbabilities nnls c (some (pyStrings (C.map c.label))) = .ok (g C)) ∧
      ∃ B, ∀ (start : Fin c.n) (steps initialState : PyVal ℝ) (s : ℤ) (i : Option (Fin c.n)),
        validateInteger steps (some (2, false)) none = .ok s → OptionalState initialState c.states i →
        ∃ run : (ℕ → ℝ) → List (Fin c.n),
          (∀ u b, simulate c (cdfChoice u) start steps initialState .none (.bool b) =
            .ok (render c.states b (run u))) ∧
          ∀ j, |(∑ t ∈ range (s.toNat + 1),
              (Measure.infinitePi (fun _ : ℕ => uniformDraw) {u | (run u)[t]? = some j}).toReal) /
                (s.toNat + 1 : ℕ) - (L.map fun C => g C (i.getD start) * f C j).sum| ≤
            B / (s.toNat + 1 : ℕ) := by
  obtain ⟨L, f, g, h1, h2, h3, B, hB⟩ := C132_shares hnn hc h
  refine ⟨L, f, g, h1, h2, h3, B, fun start steps initialState s i hs hi => ?_⟩
  obtain ⟨run, h4, -, h5⟩ := C116_paths hc start hs hi
  refine ⟨run, h4, fun j => ?_⟩
  have key : ∑ t ∈ range (s.toNat + 1),
      (Measure.infinitePi (fun _ : ℕ => uniformDraw) {u | (run u)[t]? = some j}).toReal =
      ∑ t ∈ range (s.toNat + 1), (c.p ^ t) (i.getD start) j := by
    refine sum_congr rfl fun t ht => ?_
    rw [h5 t (by have := mem_range.1 ht; omega) j]
    exact ENNReal.toReal_ofReal ((hc.2.1.pow t).1 _ _)
  rw [key]
  exact hB _ (Nat.succ_pos _) _ j

/-- The hypotheses can be met by a chain with two recurrent classes. -/
example : ∃ nnls : Nnls ℝ, Nnls.Sound nnls ∧ exDrunkard.toReal.Valid ∧
    IsClasses exDrunkard.toReal.p ([[0], [1], [2]] : List (List (Fin 3))) ∧
    recurrentClasses exDrunkard ([[0], [1], [2]] : List (List (Fin 3))) = [["l"], ["r"]] ∧
    OptionalState (.str "m" : PyVal ℝ) exDrunkard.toReal.states (some (1 : Fin 3)) := by
  obtain ⟨nnls, hnn⟩ := exists_nnls (K := ℝ)
  obtain ⟨hv, hcl, -⟩ := exDrunkard_meets
  exact ⟨nnls, hnn, hv, hcl, by decide +kernel, Or.inr ⟨(1 : Fin 3), (fun h => by cases h), rfl, rfl⟩⟩

/-- The drunkard who starts in the middle is in the long run half of the time at the left end. -/
example : ∃ B : ℚ, ∀ k : ℕ, 0 < k →
    |(∑ t ∈ range k, (exDrunkard.p ^ t) (1 : Fin 3) (0 : Fin 3)) / k - 1 / 2| ≤ B / k := by
  obtain ⟨nnls, hnn⟩ := exists_nnls (K := ℚ)
  have hcl : IsClasses (fun i j : Fin 3 => exDrunkard.p i j) [[0], [1], [2]] := by decide +kernel
  have hv : exDrunkard.Valid := by decide +kernel
  obtain ⟨L, f, g, h1, h2, h3, B, hB⟩ := C132_shares hnn hv hcl
  refine ⟨B, fun k hk => ?_⟩
  have hinj : ∀ a b : Fin 3, ["l", "m", "r"].getD a "" = ["l", "m", "r"].getD b "" → a = b := by
    decide +kernel
  have h1' : L.map (fun C => C.map exDrunkard.label) =
      ([[0], [2]] : List (List (Fin 3))).map (fun C => C.map exDrunkard.label) := by
    refine h1.symm.trans ?_
    decide +kernel
  have hL : L = ([[0], [2]] : List (List (Fin 3))) :=
    List.map_injective_iff.2 (List.map_injective_iff.2 fun a b h => hinj a b h) h1'
  subst hL
  have hpi : (pi exDrunkard ([[0], [1], [2]] : List (List (Fin 3)))).toOption.map
      (fun l => l.map fun x => x (0 : Fin 3)) = some [1, 0] := by decide +kernel
  rw [h2] at hpi
  have hpi' : [f ([0] : List (Fin 3)) (0 : Fin 3), f ([2] : List (Fin 3)) (0 : Fin 3)] = [1, 0] :=
    Option.some.inj hpi
  obtain ⟨f0, f2⟩ := List.cons.inj hpi'
  replace f2 := (List.cons.inj f2).1
  have ht := hittingTargets_class hv (C := ([0] : List (Fin 3)))
    (List.pairwise_singleton _ _) (List.cons_ne_nil _ _)
  obtain ⟨-, q, hq, hq2⟩ := C43_hitting_probabilities hnn hv ht
  have hg := h3 ([0] : List (Fin 3)) List.mem_cons_self
  have e := (hq2 (g ([0] : List (Fin 3)))).2 (Except.ok.inj (hg.symm.trans hq))
  have e0 : g ([0] : List (Fin 3)) (0 : Fin 3) = 1 := e.1.1 (0 : Fin 3) List.mem_cons_self
  have e1 := e.1.2 (1 : Fin 3)
    (show (1 : Fin 3) ∉ ([0] : List (Fin 3)) by decide)
  have e2 : g ([0] : List (Fin 3)) (2 : Fin 3) = 0 := by
    obtain ⟨w, hw, hw0⟩ := exists_hittingProbability (P := exDrunkard.p) hv.2.1 (· ∈ ([0] : List (Fin 3)))
    rw [hittingProbability_unique e hw]
    refine hw0 (2 : Fin 3) ?_
    have : ¬ ∃ j ∈ ([0] : List (Fin 3)), Reach (fun i j : Fin 3 => exDrunkard.p i j) 2 j := by
      decide +kernel
    exact this
  have p0 : exDrunkard.p (1 : Fin 3) (0 : Fin 3) = 1 / 2 := by decide +kernel
  have p1 : exDrunkard.p (1 : Fin 3) (1 : Fin 3) = 0 := by decide +kernel
  have p2 : exDrunkard.p (1 : Fin 3) (2 : Fin 3) = 1 / 2 := by decide +kernel
  have e1' : g ([0] : List (Fin 3)) (1 : Fin 3) = ∑ j : Fin 3, exDrunkard.p (1 : Fin 3) j *
      g ([0] : List (Fin 3)) j := e1
  rw [Fin.sum_univ_three, p0, p1, p2, e0, e2] at e1'
  have := hB k hk (1 : Fin 3) (0 : Fin 3)
  change |_ - (g ([0] : List (Fin 3)) (1 : Fin 3) * f ([0] : List (Fin 3)) (0 : Fin 3) +
    (g ([2] : List (Fin 3)) (1 : Fin 3) * f ([2] : List (Fin 3)) (0 : Fin 3) + 0))| ≤ _ at this
  rw [f0, f2, e1'] at this
  refine le_trans (le_of_eq ?_) this
  congr 2
  ring

end Verif
