import Verif.Model.Measures
import Verif.Lemmas.Harmonic
import Verif.Spec.Passage
import Verif.Props.Stationary
import Verif.Props.Periods
import Mathlib.Tactic.FieldSimp
import Mathlib.Tactic.LinearCombination

/-!
# Committors, passage times and recurrence times (C41, C44, C45)
-/

set_option linter.unusedSectionVars false

namespace Verif

open Finset

variable {K : Type} [Field K] [LinearOrder K] [IsStrictOrderedRing K]

/-! ## Ergodic chains -/

/-- `is_ergodic` decides whether the chain is irreducible and aperiodic. -/
theorem isErgodic_iff {c : MC K} (hc : c.Valid) {nx : Nx c.n} (hx : nx.Sound c.p) :
    isErgodic c nx = true ↔ Ergodic c.p := by
  unfold isErgodic Ergodic
  rw [Bool.and_eq_true, C30_irreducible hc hx.sccs]
  refine and_congr_right fun hirr => ?_
  obtain ⟨d, -, h2, -, -, h5⟩ := C32_irreducible_partial hc hx hirr
  rw [h5]
  constructor
  · rintro rfl; exact h2
  · intro h
    have i0 : Fin c.n := ⟨0, by have := hc.1; omega⟩
    exact Nat.dvd_antisymm ((h i0).2 d (h2 i0).1) ((h2 i0).2 1 fun k _ => one_dvd k)

/-- The stationary distribution used by the methods. -/
theorem pi0_spec {c : MC K} (hc : c.Valid) {sccs : List (List (Fin c.n))}
    (h : IsClasses c.p sccs) (hirr : Irreducible c.p) :
    ∃ x, pi0 c sccs = .ok x ∧ IsStationary c.p x ∧ (∀ i, 0 < x i) ∧
      ∀ y, IsStationary c.p y → y = x := by
  obtain ⟨x, h1, h2, h3, h4⟩ := C34_stationary hc h hirr
  refine ⟨x, ?_, h2, h3, h4⟩
  unfold pi0
  rw [h1]
  rfl

/-! ## Systems with unit rows -/

theorem unitRows_unitRows {n : ℕ} (M : Matrix (Fin n) (Fin n) K) (A B : List (Fin n)) :
    unitRows (unitRows M A) B = unitRows M (A ++ B) := by
  funext i j
  unfold unitRows
  by_cases hB : i ∈ B <;> by_cases hA : i ∈ A <;> simp [hA, hB]

theorem unitRows_mulVec {n : ℕ} (M : Matrix (Fin n) (Fin n) K) (S : List (Fin n)) (v : Fin n → K)
    (i : Fin n) : (unitRows M S).mulVec v i = if i ∈ S then v i else ∑ j, M i j * v j := by
  have h1 : (unitRows M S).mulVec v i = ∑ j, unitRows M S i j * v j := rfl
  rw [h1]
  unfold unitRows
  split
  · simp
  · rfl

/-- The equations that replace one row for every state of `S` have one solution, if the other rows
are multiples of the first-step equations. -/
theorem unitRows_solve {n : ℕ} {P : Fin n → Fin n → K} (hP : IsStochastic P) {S : List (Fin n)}
    (hS : ∀ i, ∃ b, b ∈ S ∧ Reach P i b) {M : Matrix (Fin n) (Fin n) K} {s : Fin n → K}
    (hs : ∀ i, s i ≠ 0) (hM : ∀ i j, i ∉ S → M i j = s i * (P i j - if i = j then 1 else 0))
    (b : Fin n → K) :
    ∃ v, npSolve (unitRows M S) b = some v ∧ ∀ w, ((∀ i ∈ S, w i = b i) ∧
      ∀ i, i ∉ S → s i * (∑ j, P i j * w j - w i) = b i) ↔ w = v := by
  have hrow : ∀ (w : Fin n → K) i, i ∉ S → ∑ j, M i j * w j = s i * (∑ j, P i j * w j - w i) := by
    intro w i hi
    have h1 : ∀ j, M i j * w j = s i * (P i j * w j) - s i * ((if i = j then 1 else 0) * w j) := by
      intro j; rw [hM i j hi]; ring
    rw [Finset.sum_congr rfl fun j _ => h1 j, Finset.sum_sub_distrib, ← Finset.mul_sum,
      ← Finset.mul_sum, mul_sub]
    simp
  have hiff : ∀ (b w : Fin n → K), ((∀ i ∈ S, w i = b i) ∧
      ∀ i, i ∉ S → s i * (∑ j, P i j * w j - w i) = b i) ↔ (unitRows M S).mulVec w = b := by
    intro b w
    rw [funext_iff]
    constructor
    · rintro ⟨h1, h2⟩ i
      rw [unitRows_mulVec]
      split
      · rename_i hi; exact h1 i hi
      · rename_i hi; rw [hrow w i hi]; exact h2 i hi
    · intro h
      refine ⟨fun i hi => ?_, fun i hi => ?_⟩
      · rw [← h i, unitRows_mulVec, if_pos hi]
      · rw [← h i, unitRows_mulVec, if_neg hi, hrow w i hi]
  have hd : (unitRows M S).det ≠ 0 := by
    intro h
    obtain ⟨x, hx, h0⟩ := Matrix.exists_mulVec_eq_zero_iff.2 h
    obtain ⟨h1, h2⟩ := (hiff 0 x).2 h0
    apply hx
    refine harmonic_unique (b := 0) hP (B := (· ∈ S)) hS h1 (fun i hi => ?_) (fun i _ => by simp)
    have := (mul_eq_zero.1 (h2 i hi)).resolve_left (hs i)
    rw [Pi.zero_apply, zero_add, sub_eq_zero.1 this]
  refine ⟨(unitRows M S)⁻¹.mulVec b, if_neg hd, fun w => ?_⟩
  rw [hiff]
  have hu : IsUnit (unitRows M S).det := isUnit_iff_ne_zero.2 hd
  constructor
  · rintro rfl
    rw [Matrix.mulVec_mulVec, Matrix.nonsing_inv_mul _ hu, Matrix.one_mulVec]
  · rintro rfl
    rw [Matrix.mulVec_mulVec, Matrix.mul_nonsing_inv _ hu, Matrix.one_mulVec]

/-! ## Mean first passage times to a set -/

theorem toStates_ne_nil {c : MC K} (hc : c.Valid) {v : PyVal K} {b : Bool} {l : List ℕ}
    (hl : validateLabelsCurrent v c.states b none = .ok l) :
    ∃ i, i ∈ toStates c.n l := by
  obtain ⟨-, h2, h3⟩ := labelsCurrent_sound hc.2.2.2.1 hl
  obtain ⟨k, hk⟩ := List.exists_mem_of_ne_nil l h3
  have hk' : k < c.n := by rw [← hc.2.2.1]; exact h2 k hk
  exact ⟨⟨k, hk'⟩, mem_toStates.2 hk⟩

theorem mfptTo_spec {c : MC K} (hc : c.Valid) {nx : Nx c.n} (hx : nx.Sound c.p)
    (he : Ergodic c.p) {S : List (Fin c.n)} (hS : ∃ i, i ∈ S) :
    ∃ t, mfptTo c nx S = .ok (some t) ∧
      ∀ s, IsPassageTime c.p (· ∈ S) s ↔ s = t := by
  obtain ⟨i0, hi0⟩ := hS
  obtain ⟨t, h1, h2⟩ := unitRows_solve (P := fun i j => c.p i j) hc.2.1
    (fun i => ⟨i0, hi0, he.1 i i0⟩) (M := 1 - c.p) (s := fun _ => -1) (fun _ => by norm_num)
    (fun i j _ => by rw [Matrix.sub_apply, Matrix.one_apply]; ring) (fun i => if i ∈ S then 0 else 1)
  refine ⟨t, ?_, fun s => ?_⟩
  · unfold mfptTo
    rw [if_pos ((isErgodic_iff hc hx).2 he), h1]
    rfl
  · rw [← h2 s]
    refine and_congr (forall₂_congr fun i hi => by rw [if_pos hi])
      (forall₂_congr fun i hi => ?_)
    rw [if_neg hi]
    constructor
    · intro h
      linear_combination h
    · intro h
      linear_combination h

/-- C44 with targets: for an ergodic chain the result is the unique solution of the first-step
equations of the mean time until the targets are visited. -/
theorem C44_targets {c : MC K} (hc : c.Valid) {nx : Nx c.n} (hx : nx.Sound c.p)
    (he : Ergodic c.p) {v : PyVal K} {l : List ℕ}
    (hl : validateLabelsCurrent v c.states false none = .ok l) :
    ∃ t, meanFirstPassageTimesTo c nx v = .ok (some t) ∧
      ∀ s, IsPassageTime c.p (fun i => i.val ∈ l) s ↔ s = t := by
  obtain ⟨t, h1, h2⟩ := mfptTo_spec hc hx he (toStates_ne_nil hc hl)
  refine ⟨t, ?_, fun s => ?_⟩
  · unfold meanFirstPassageTimesTo
    rw [hl]
    exact h1
  · rw [← h2 s]
    simp only [mem_toStates]

/-! ## Mean first passage times between all states -/

/-- The matrix `I - P + A`, with the stationary distribution in all rows of `A`, is invertible. -/
theorem fundamental_det {n : ℕ} {P : Matrix (Fin n) (Fin n) K} (hP : IsStochastic fun i j => P i j)
    (hirr : Irreducible fun i j => P i j) {x : Fin n → K} (hx : IsStationary (fun i j => P i j) x) :
    (1 - P + tile x).det ≠ 0 := by
  intro h
  obtain ⟨v, hv, h0⟩ := Matrix.exists_mulVec_eq_zero_iff.2 h
  have h1 : ∀ i, v i - ∑ j, P i j * v j + ∑ j, x j * v j = 0 := by
    intro i
    have h2 := congrFun h0 i
    rw [Matrix.add_mulVec, Matrix.sub_mulVec, Matrix.one_mulVec, Pi.add_apply, Pi.sub_apply] at h2
    exact h2
  have h3 : ∑ j, x j * v j = 0 := by
    have h4 : ∑ i, x i * (v i - ∑ j, P i j * v j + ∑ j, x j * v j) = 0 :=
      Finset.sum_eq_zero fun i _ => by rw [h1 i, mul_zero]
    simp only [mul_add, mul_sub, Finset.sum_add_distrib, Finset.sum_sub_distrib] at h4
    have h5 : ∑ i, x i * ∑ j, P i j * v j = ∑ j, x j * v j := by
      simp only [Finset.mul_sum]
      rw [Finset.sum_comm]
      refine Finset.sum_congr rfl fun j _ => ?_
      have h6 : ∑ i, x i * P i j = x j := hx.2 j
      rw [← h6, Finset.sum_mul]
      exact Finset.sum_congr rfl fun i _ => by ring
    rw [h5, ← Finset.sum_mul, hx.1.2, one_mul, sub_self, zero_add] at h4
    exact h4
  have h7 : ∀ i, v i = ∑ j, P i j * v j := by
    intro i
    have := h1 i
    rw [h3] at this
    linear_combination this
  obtain ⟨k0, hk0⟩ := Function.ne_iff.1 hv
  have h8 : v = fun _ => v k0 := by
    refine harmonic_unique (b := fun _ => 0) hP (B := (· = k0)) (fun i => ⟨k0, rfl, hirr i k0⟩)
      (fun i hi => by rw [hi]) (fun i _ => by rw [zero_add]; exact h7 i) (fun i _ => ?_)
    have h9 : ∑ j, P i j = 1 := hP.2 i
    rw [zero_add, ← Finset.sum_mul]
    change v k0 = (∑ j, P i j) * v k0
    rw [h9, one_mul]
  rw [h8] at h3
  have h10 : ∑ j, x j = 1 := hx.1.2
  rw [← Finset.sum_mul, h10, one_mul] at h3
  exact hk0 h3

/-- The fundamental matrix of an ergodic chain. -/
theorem ergodic_fundamental {n : ℕ} {P : Matrix (Fin n) (Fin n) K}
    (hP : IsStochastic fun i j => P i j) (hirr : Irreducible fun i j => P i j) {x : Fin n → K}
    (hx : IsStationary (fun i j => P i j) x) :
    ∃ z, npInv (1 - P + tile x) = some z ∧
      ∀ i j, ∑ k, P i k * z k j = z i j + x j - (1 : Matrix (Fin n) (Fin n) K) i j := by
  have hd := fundamental_det hP hirr hx
  have hu : IsUnit (1 - P + tile x).det := isUnit_iff_ne_zero.2 hd
  refine ⟨(1 - P + tile x)⁻¹, if_neg hd, fun i j => ?_⟩
  set z := (1 - P + tile x)⁻¹
  have h1 : (1 - P + tile x) * z = 1 := Matrix.mul_nonsing_inv _ hu
  have h2 : ∀ i j, z i j - ∑ k, P i k * z k j + ∑ k, x k * z k j =
      (1 : Matrix (Fin n) (Fin n) K) i j := by
    intro i j
    have h3 := congrFun (congrFun h1 i) j
    rw [add_mul, sub_mul, one_mul, Matrix.add_apply, Matrix.sub_apply, Matrix.mul_apply,
      Matrix.mul_apply] at h3
    exact h3
  have h4 : ∀ j, ∑ k, x k * z k j = x j := by
    intro j
    have h5 : ∑ i, x i * (z i j - ∑ k, P i k * z k j + ∑ k, x k * z k j) =
        ∑ i, x i * (1 : Matrix (Fin n) (Fin n) K) i j :=
      Finset.sum_congr rfl fun i _ => by rw [h2 i j]
    have h6 : ∑ i, x i * (1 : Matrix (Fin n) (Fin n) K) i j = x j := by
      simp [Matrix.one_apply]
    have h7 : ∑ i, x i * ∑ k, P i k * z k j = ∑ k, x k * z k j := by
      simp only [Finset.mul_sum]
      rw [Finset.sum_comm]
      refine Finset.sum_congr rfl fun k _ => ?_
      have h8 : ∑ i, x i * P i k = x k := hx.2 k
      rw [← h8, Finset.sum_mul]
      exact Finset.sum_congr rfl fun i _ => by ring
    rw [h6] at h5
    simp only [mul_add, mul_sub, Finset.sum_add_distrib, Finset.sum_sub_distrib] at h5
    rw [h7, sub_self, zero_add, ← Finset.sum_mul, hx.1.2, one_mul] at h5
    exact h5
  have := h2 i j
  rw [h4] at this
  linear_combination -this

/-- C44 without targets: for an ergodic chain the result vanishes on the diagonal and every column is
the unique solution of the first-step equations. -/
theorem C44_all_states {c : MC K} (hc : c.Valid) {nx : Nx c.n} (hx : nx.Sound c.p)
    (he : Ergodic c.p) :
    ∃ m, mfptAll c nx = .ok (some m) ∧ (∀ i, m i i = 0) ∧
      (∀ i j, i ≠ j → m i j = 1 + ∑ k with k ≠ j, c.p i k * m k j) ∧
      ∀ j s, IsPassageTime c.p (· = j) s ↔ s = fun i => m i j := by
  obtain ⟨x, hx1, hx2, hx3, -⟩ := pi0_spec hc hx.sccs he.1
  obtain ⟨z, hz1, hz2⟩ := ergodic_fundamental hc.2.1 he.1 hx2
  set m : Fin c.n → Fin c.n → K := fun i j => if i = j then 0 else
    ((1 : Matrix (Fin c.n) (Fin c.n) K) i j - z i j + z j j) * (1 / x j) with hm
  have hmz : ∀ i j, m i j = (z j j - z i j) / x j := by
    intro i j
    simp only [hm]
    split
    · rename_i h; rw [h, sub_self, zero_div]
    · rename_i h; rw [Matrix.one_apply_ne h]; ring
  have hm0 : ∀ i, m i i = 0 := fun i => by rw [hmz, sub_self, zero_div]
  have hstep : ∀ i j, i ≠ j → m i j = 1 + ∑ k, c.p i k * m k j := by
    intro i j hij
    have h1 : ∑ k, c.p i k * m k j = (z j j - (z i j + x j)) / x j := by
      simp only [hmz, mul_div_assoc', ← Finset.sum_div, mul_sub, Finset.sum_sub_distrib,
        ← Finset.sum_mul]
      have h2 : ∑ k, c.p i k = 1 := hc.2.1.2 i
      rw [h2, hz2 i j, Matrix.one_apply_ne hij]
      ring
    rw [h1, hmz]
    have := (hx3 j).ne'
    field_simp
    ring
  refine ⟨m, ?_, hm0, ?_, ?_⟩
  · unfold mfptAll
    rw [if_pos ((isErgodic_iff hc hx).2 he), hx1]
    change (orRaise (npInv (1 - c.p + tile x)) >>= _) = _
    rw [hz1]
    rfl
  · intro i j hij
    rw [hstep i j hij, Finset.sum_filter]
    congr 1
    refine Finset.sum_congr rfl fun k _ => ?_
    by_cases hk : k = j
    · rw [hk, hm0, mul_zero, if_neg (by simp)]
    · rw [if_pos hk]
  · intro j s
    have hsol : IsPassageTime c.p (· = j) fun i => m i j :=
      ⟨fun i hi => by rw [hi]; exact hm0 j, fun i hi => hstep i j hi⟩
    constructor
    · intro hs
      exact harmonic_unique (P := fun i j => c.p i j) (b := fun _ => 1) hc.2.1 (B := (· = j))
        (fun i => ⟨j, rfl, he.1 i j⟩) (fun i hi => (hs.1 i hi).trans (hsol.1 i hi).symm) hs.2 hsol.2
    · rintro rfl; exact hsol

/-- The hypotheses of `C44_all_states` and `C44_targets` are met, and the values are as expected. -/
example (b : Bool) : ∃ m, mfptAll exLoop
    (Nx.ofClasses (n := 2) (fun i j => exLoop.p i j) [[0, 1]] b) = .ok (some m) ∧
    m (0 : Fin 2) (1 : Fin 2) = 1 ∧ m (1 : Fin 2) (0 : Fin 2) = 2 := by
  have hv : exLoop.Valid := by decide +kernel
  have hcl : IsClasses (fun i j : Fin 2 => exLoop.p i j) [[0, 1]] := by decide +kernel
  have hs := Nx.ofClasses_sound b hcl
  have he := (isErgodic_iff hv hs).1 (by cases b <;> decide +kernel)
  obtain ⟨m, h1, -, -, h2⟩ := C44_all_states hv hs he
  have t1 : IsPassageTime (fun i j : Fin 2 => exLoop.p i j) (· = 1) ![1, 0] := by
    unfold IsPassageTime; decide +kernel
  have t0 : IsPassageTime (fun i j : Fin 2 => exLoop.p i j) (· = 0) ![0, 2] := by
    unfold IsPassageTime; decide +kernel
  exact ⟨m, h1, (congrFun ((h2 (1 : Fin 2) _).1 t1) (0 : Fin 2)).symm,
    (congrFun ((h2 (0 : Fin 2) _).1 t0) (1 : Fin 2)).symm⟩

/-! ## Mean first passage times between sets -/

theorem sum_toStates {n : ℕ} {l : List ℕ} (h : l.Nodup) (g : Fin n → K) :
    ((toStates n l).map g).sum = ∑ i, if i.val ∈ l then g i else 0 := by
  rw [← Finset.sum_filter, ← List.sum_toFinset g (toStates_nodup h)]
  refine Finset.sum_congr ?_ fun _ _ => rfl
  ext i
  rw [List.mem_toFinset, mem_toStates, Finset.mem_filter]
  exact (and_iff_right (Finset.mem_univ i)).symm

/-- C99. `mean_first_passage_times_between` is the mean of the passage times to the targets if the
chain starts in equilibrium, given that it starts in one of the origins. -/
theorem C99_between {c : MC K} (hc : c.Valid) {nx : Nx c.n} (hx : nx.Sound c.p) (he : Ergodic c.p)
    {v1 v2 : PyVal K} {a b : List ℕ} (ha : validateLabelsCurrent v1 c.states true none = .ok a)
    (hb : validateLabelsCurrent v2 c.states true none = .ok b) :
    ∃ x t, (∀ y, IsStationary c.p y ↔ y = x) ∧
      (∀ s, IsPassageTime c.p (fun i => i.val ∈ b) s ↔ s = t) ∧
      meanFirstPassageTimesBetween c nx v1 v2 = .ok (some
        ((∑ i, if i.val ∈ a then x i * t i else 0) / ∑ i, if i.val ∈ a then x i else 0)) ∧
      0 < ∑ i, if i.val ∈ a then x i else 0 := by
  obtain ⟨x, h1, h2, h3, h4⟩ := pi0_spec hc hx.sccs he.1
  obtain ⟨t, h5, h6⟩ := mfptTo_spec hc hx he (toStates_ne_nil hc hb)
  obtain ⟨hs, hlt, hne⟩ := labelsCurrent_sound hc.2.2.2.1 ha
  have hnd : a.Nodup := hs.imp fun h => h.ne
  refine ⟨x, t, fun y => ⟨h4 y, fun h => h ▸ h2⟩, fun s => ?_, ?_, ?_⟩
  · rw [← h6 s]
    simp only [mem_toStates]
  · unfold meanFirstPassageTimesBetween
    rw [ha, R.ok_bind, hb, R.ok_bind]
    unfold mfptBetween
    rw [if_pos ((isErgodic_iff hc hx).2 he), h1, R.ok_bind, h5, R.ok_bind]
    change Except.ok (some _) = _
    rw [sum_toStates hnd, sum_toStates hnd, Finset.sum_div]
    congr 2
    refine Finset.sum_congr rfl fun i _ => ?_
    split
    · rw [div_mul_eq_mul_div]
    · rw [zero_div]
  · obtain ⟨i, hi⟩ := toStates_ne_nil hc ha
    refine Finset.sum_pos' (fun j _ => ?_) ⟨i, Finset.mem_univ i, ?_⟩
    · split
      · exact (h3 j).le
      · exact le_rfl
    · rw [if_pos (mem_toStates.1 hi)]
      exact h3 i

/-- C99, other chains. Without ergodicity, `None` is returned. -/
theorem C99_not_ergodic {c : MC K} (hc : c.Valid) {nx : Nx c.n} (hx : nx.Sound c.p) (he : ¬ Ergodic c.p)
    {v1 v2 : PyVal K} {a b : List ℕ} (ha : validateLabelsCurrent v1 c.states true none = .ok a)
    (hb : validateLabelsCurrent v2 c.states true none = .ok b) :
    meanFirstPassageTimesBetween c nx v1 v2 = .ok none := by
  unfold meanFirstPassageTimesBetween
  rw [ha, R.ok_bind, hb, R.ok_bind]
  unfold mfptBetween
  rw [if_neg (fun h => he ((isErgodic_iff hc hx).1 h))]
  rfl

/-- The hypotheses of `C99_between` are met: from the first to the second state of `exLoop` it takes one
step. -/
example (b : Bool) : meanFirstPassageTimesBetween exLoop
    (Nx.ofClasses (n := 2) (fun i j => exLoop.p i j) [[0, 1]] b) (.int 0) (.list [.int 1]) =
      .ok (some 1) := by
  have hv : exLoop.Valid := by decide +kernel
  have hcl : IsClasses (fun i j : Fin 2 => exLoop.p i j) [[0, 1]] := by decide +kernel
  have hs := Nx.ofClasses_sound b hcl
  have he := (isErgodic_iff hv hs).1 (by cases b <;> decide +kernel)
  obtain ⟨x, t, -, h2, h3, h4⟩ := C99_between hv hs he (v1 := .int 0) (v2 := .list [.int 1]) (a := [0])
    (b := [1]) rfl rfl
  have t1 : IsPassageTime (fun i j : Fin 2 => exLoop.p i j) (fun i => i.val ∈ [1]) ![1, 0] := by
    unfold IsPassageTime; decide +kernel
  have t2 : (![1, 0] : Fin 2 → ℚ) = t := (h2 _).1 t1
  subst t2
  refine h3.trans ?_
  have e1 : (∑ i : Fin 2, if i.val ∈ [0] then x i * (![1, 0] : Fin 2 → ℚ) i else 0) =
      ∑ i : Fin 2, if i.val ∈ [0] then x i else 0 := by
    rw [Fin.sum_univ_two, Fin.sum_univ_two]
    simp
  exact congrArg (fun q => Except.ok (some q)) ((congrArg (· / _) e1).trans (div_self h4.ne'))

/-! ## Recurrence times -/

/-- The mean return time equals the reciprocal of the stationary probability. -/
theorem kac {n : ℕ} {P : Matrix (Fin n) (Fin n) K}
    {x : Fin n → K} (hx : IsStationary (fun i j => P i j) x)
    (hpos : ∀ i, 0 < x i) {j : Fin n} {t : Fin n → K}
    (ht : IsPassageTime (fun i j => P i j) (· = j) t) : 1 + ∑ k, P j k * t k = 1 / x j := by
  have h1 : ∑ i, x i * ∑ k, P i k * t k = ∑ k, x k * t k := by
    simp only [Finset.mul_sum]
    rw [Finset.sum_comm]
    refine Finset.sum_congr rfl fun k _ => ?_
    have h8 : ∑ i, x i * P i k = x k := hx.2 k
    rw [← h8, Finset.sum_mul]
    exact Finset.sum_congr rfl fun i _ => by ring
  have h2 : ∀ i, x i * t i = x i * (1 + ∑ k, P i k * t k) -
      if i = j then x j * (1 + ∑ k, P j k * t k) else 0 := by
    intro i
    split
    · rename_i h; subst h; rw [ht.1 i rfl]; ring
    · rename_i h
      have h3 : t i = 1 + ∑ k, P i k * t k := ht.2 i h
      rw [sub_zero, ← h3]
  have h4 : ∑ i, x i * t i = ∑ i, x i * (1 + ∑ k, P i k * t k) -
      x j * (1 + ∑ k, P j k * t k) := by
    rw [Finset.sum_congr rfl fun i _ => h2 i, Finset.sum_sub_distrib]
    simp
  simp only [mul_add, mul_one, Finset.sum_add_distrib] at h4
  have h5 : ∑ i, x i = 1 := hx.1.2
  rw [h1, h5] at h4
  rw [eq_div_iff (hpos j).ne']
  linear_combination h4

/-- C45 for the states whose stationary probability exceeds the tolerance: `mean_recurrence_times`
of an ergodic chain is the reciprocal of the stationary probability, which is the mean return time.
Missing: the other states, see `C45_rare_state`. -/
theorem C45_recurrence_times_partial {c : MC K} (hc : c.Valid) {nx : Nx c.n} (hx : nx.Sound c.p)
    (he : Ergodic c.p) :
    ∃ r x, meanRecurrenceTimes c nx = .ok (some r) ∧ IsStationary c.p x ∧
      (∀ y, IsStationary c.p y → y = x) ∧
      ∀ i, 1 / 10 ^ 8 < x i → r i = 1 / x i ∧
        ∃ t, IsPassageTime c.p (· = i) t ∧ r i = 1 + ∑ k, c.p i k * t k := by
  obtain ⟨x, hx1, hx2, hx3, hx4⟩ := pi0_spec hc hx.sccs he.1
  refine ⟨fun i => if isclose (x i) 0 then 0 else 1 / x i, x, ?_, hx2, hx4, ?_⟩
  · unfold meanRecurrenceTimes
    rw [if_pos ((isErgodic_iff hc hx).2 he), hx1]
    rfl
  · intro i hi
    have h1 : ¬ isclose (x i) 0 = true := by
      unfold isclose
      rw [decide_eq_true_eq, sub_zero, abs_zero, mul_zero, add_zero, abs_of_pos (hx3 i)]
      exact not_le.2 hi
    obtain ⟨m, -, -, -, h3⟩ := C44_all_states hc hx he
    have h4 := (h3 i _).2 rfl
    refine ⟨if_neg h1, _, h4, ?_⟩
    rw [kac hx2 hx3 h4]
    exact if_neg h1

/-- A chain that is in its first state about once in two billion steps. -/
def exRareState : MC ℚ := ⟨2, !![0, 1; 1 / 1999999999, 1999999998 / 1999999999], ["a", "b"]⟩

/-- C45, disagreement: the mean return time of the first state is two billion steps, the reported
recurrence time is zero. -/
theorem C45_rare_state (b : Bool) :
    let nx : Nx exRareState.n := Nx.ofClasses (n := 2) (fun i j => exRareState.p i j) [[0, 1]] b
    exRareState.Valid ∧ nx.Sound exRareState.p ∧ Ergodic exRareState.p ∧
    (∃ x, IsStationary exRareState.p x ∧ x (0 : Fin 2) = 1 / 2000000000) ∧
    ∃ r, meanRecurrenceTimes exRareState nx = .ok (some r) ∧ r (0 : Fin 2) = 0 := by
  intro nx
  have hv : exRareState.Valid := by decide +kernel
  have hcl : IsClasses (fun i j : Fin 2 => exRareState.p i j) [[0, 1]] := by decide +kernel
  have hs : nx.Sound exRareState.p := Nx.ofClasses_sound b hcl
  have hirr : Irreducible (fun i j : Fin 2 => exRareState.p i j) := by decide +kernel
  have hap : isErgodic exRareState nx = true := by
    cases b <;> decide +kernel
  have he := (isErgodic_iff hv hs).1 hap
  have hst : IsStationary (fun i j : Fin 2 => exRareState.p i j)
      ![1 / 2000000000, 1999999999 / 2000000000] := by decide +kernel
  obtain ⟨x, hx1, hx2, hx3, hx4⟩ := pi0_spec hv hs.sccs he.1
  have hxe := hx4 _ hst
  refine ⟨hv, hs, he, ⟨_, hst, rfl⟩, fun i => if isclose (x i) 0 then 0 else 1 / x i, ?_, ?_⟩
  · unfold meanRecurrenceTimes
    rw [if_pos hap, hx1]
    rfl
  · refine if_pos ?_
    rw [← hxe]
    decide +kernel

/-! ## Committors -/

theorem reversal_stochastic {n : ℕ} {P : Fin n → Fin n → K} (hP : IsStochastic P)
    {x : Fin n → K} (hx : IsInvariant P x) (hpos : ∀ i, 0 < x i) : IsStochastic (reversal P x) := by
  refine ⟨fun i j => div_nonneg (mul_nonneg (hpos j).le (hP.1 j i)) (hpos i).le, fun i => ?_⟩
  unfold reversal
  rw [← Finset.sum_div, hx i, div_self (hpos i).ne']

theorem reversal_reach {n : ℕ} {P : Fin n → Fin n → K} {x : Fin n → K} (hpos : ∀ i, 0 < x i)
    {i j : Fin n} (h : Reach P i j) : Reach (reversal P x) j i := by
  induction h with
  | refl => exact .refl i
  | tail _ hbc ih =>
    rename_i b d _
    refine Reach.trans (.single ?_) ih
    exact div_pos (mul_pos (hpos b) hbc) (hpos d)

/-- The bounds of a committor follow from the equations. -/
theorem isCommittor_iff {n : ℕ} {P : Fin n → Fin n → K} (hP : IsStochastic P)
    {A B : Fin n → Prop} (hA : ∀ i, ∃ b, A b ∧ Reach P i b) {q : Fin n → K} :
    IsCommittor P A B q ↔ (∀ i, A i → q i = 0) ∧ (∀ i, B i → q i = 1) ∧
      ∀ i, ¬ A i → ¬ B i → q i = ∑ j, P i j * q j := by
  refine ⟨fun h => ⟨h.1, h.2.1, h.2.2.2⟩, fun ⟨h1, h2, h3⟩ => ⟨h1, h2, fun i => ?_, h3⟩⟩
  have hAB : ∀ i, ∃ b, (A b ∨ B b) ∧ Reach P i b := fun i => by
    obtain ⟨b, hb, hr⟩ := hA i
    exact ⟨b, Or.inl hb, hr⟩
  constructor
  · refine min_principle hP hAB (v := q) (fun i hi => ?_) (fun i hi => ?_) i
    · rcases hi with hi | hi
      · rw [h1 i hi]
      · rw [h2 i hi]; exact zero_le_one
    · exact (h3 i (fun h => hi (Or.inl h)) (fun h => hi (Or.inr h))).ge
  · have := min_principle hP hAB (v := fun i => 1 - q i) (fun i hi => ?_) (fun i hi => ?_) i
    · linarith
    · rcases hi with hi | hi
      · rw [h1 i hi, sub_zero]; exact zero_le_one
      · rw [h2 i hi, sub_self]
    · simp only [mul_sub, mul_one, Finset.sum_sub_distrib, hP.2 i]
      rw [← h3 i (fun h => hi (Or.inl h)) (fun h => hi (Or.inr h))]

/-- The equations that `mc_committor_probabilities` solves. -/
theorem mcCommittor_spec {c : MC K} (hc : c.Valid) {nx : Nx c.n} (hx : nx.Sound c.p)
    (he : Ergodic c.p) (backward : Bool) {A B : List (Fin c.n)} (hA : ∃ i, i ∈ A)
    (hB : ∃ i, i ∈ B) (hd : ∀ i ∈ A, i ∉ B) :
    ∃ q x, IsStationary c.p x ∧ (∀ y, IsStationary c.p y → y = x) ∧
      mcCommittor c nx backward A B = .ok (some fun i => if isclose (q i) 0 then 0 else q i) ∧
      ∀ s, (if backward then IsCommittor (reversal c.p x) (· ∈ B) (· ∈ A) s
        else IsCommittor c.p (· ∈ A) (· ∈ B) s) ↔ s = q := by
  obtain ⟨x, hx1, hx2, hx3, hx4⟩ := pi0_spec hc hx.sccs he.1
  obtain ⟨a, ha⟩ := hA
  obtain ⟨b, hb⟩ := hB
  have hrun : ∀ q, npSolve (unitRows (unitRows (committorMatrix c.p x backward) A) B)
      (oneOn (if backward then A else B)) = some q →
      mcCommittor c nx backward A B = .ok (some fun i => if isclose (q i) 0 then 0 else q i) := by
    intro q hq
    unfold mcCommittor
    rw [if_pos ((isErgodic_iff hc hx).2 he), hx1]
    change (orRaise _ >>= _) = _
    rw [hq]
    rfl
  have hmem : ∀ i, i ∉ A ++ B ↔ i ∉ A ∧ i ∉ B := fun i => by simp
  cases backward with
  | false =>
    obtain ⟨q, h1, h2⟩ := unitRows_solve (P := fun i j => c.p i j) hc.2.1
      (S := A ++ B) (fun i => ⟨a, by simp [ha], he.1 i a⟩) (M := committorMatrix c.p x false)
      (s := fun _ => 1) (fun _ => one_ne_zero)
      (fun i j _ => by simp [committorMatrix]) (oneOn B)
    refine ⟨q, x, hx2, hx4, hrun q (by rw [unitRows_unitRows]; exact h1), fun s => ?_⟩
    rw [← h2 s]
    simp only [Bool.false_eq_true, if_false]
    rw [isCommittor_iff hc.2.1 fun i => ⟨a, ha, he.1 i a⟩]
    constructor
    · rintro ⟨g1, g2, g3⟩
      refine ⟨fun i hi => ?_, fun i hi => ?_⟩
      · unfold oneOn
        by_cases hiB : i ∈ B
        · rw [if_pos hiB, g2 i hiB]
        · rw [if_neg hiB, g1 i ((List.mem_append.1 hi).resolve_right hiB)]
      · obtain ⟨hiA, hiB⟩ := (hmem i).1 hi
        unfold oneOn
        rw [if_neg hiB]
        have g4 := g3 i hiA hiB
        linear_combination -g4
    · rintro ⟨g1, g2⟩
      refine ⟨fun i hi => ?_, fun i hi => ?_, fun i hiA hiB => ?_⟩
      · rw [g1 i (by simp [hi]), oneOn, if_neg (hd i hi)]
      · rw [g1 i (by simp [hi]), oneOn, if_pos hi]
      · have g4 := g2 i ((hmem i).2 ⟨hiA, hiB⟩)
        rw [oneOn, if_neg hiB] at g4
        linear_combination -g4
  | true =>
    have hrs := reversal_stochastic (P := fun i j => c.p i j) hc.2.1 hx2.2 hx3
    obtain ⟨q, h1, h2⟩ := unitRows_solve hrs
      (S := A ++ B) (fun i => ⟨b, by simp [hb], reversal_reach hx3 (he.1 b i)⟩)
      (M := committorMatrix c.p x true) (s := x) (fun i => (hx3 i).ne')
      (fun i j _ => by
        have := (hx3 i).ne'
        simp only [committorMatrix, if_true, reversal]
        by_cases hij : i = j
        · subst hij
          simp only [if_true]
          field_simp
        · simp only [if_neg hij, if_neg (Ne.symm hij), sub_zero]
          field_simp) (oneOn A)
    refine ⟨q, x, hx2, hx4, hrun q (by rw [unitRows_unitRows]; exact h1), fun s => ?_⟩
    rw [← h2 s]
    simp only [if_true]
    rw [isCommittor_iff hrs fun i => ⟨b, hb, reversal_reach hx3 (he.1 b i)⟩]
    constructor
    · rintro ⟨g1, g2, g3⟩
      refine ⟨fun i hi => ?_, fun i hi => ?_⟩
      · unfold oneOn
        by_cases hiA : i ∈ A
        · rw [if_pos hiA, g2 i hiA]
        · rw [if_neg hiA, g1 i ((List.mem_append.1 hi).resolve_left hiA)]
      · obtain ⟨hiA, hiB⟩ := (hmem i).1 hi
        unfold oneOn
        rw [if_neg hiA, ← g3 i hiB hiA, sub_self, mul_zero]
    · rintro ⟨g1, g2⟩
      refine ⟨fun i hi => ?_, fun i hi => ?_, fun i hiB hiA => ?_⟩
      · rw [g1 i (by simp [hi]), oneOn, if_neg fun h => hd i h hi]
      · rw [g1 i (by simp [hi]), oneOn, if_pos hi]
      · have g4 := g2 i ((hmem i).2 ⟨hiA, hiB⟩)
        rw [oneOn, if_neg hiA] at g4
        have := (mul_eq_zero.1 g4).resolve_left (hx3 i).ne'
        exact (sub_eq_zero.1 this).symm

/-- The arguments of `committor_probabilities` that are accepted. -/
theorem committor_run {c : MC K} {nx : Nx c.n} {kind v1 v2 : PyVal K} {k : String} {a b : List ℕ}
    (hk : validateEnumerator kind ["backward", "forward"] = .ok k)
    (ha : validateLabelsCurrent v1 c.states true none = .ok a)
    (hb : validateLabelsCurrent v2 c.states true none = .ok b) (hd : ∀ i ∈ a, i ∉ b) :
    committorProbabilities c nx kind v1 v2 =
      mcCommittor c nx (k == "backward") (toStates c.n a) (toStates c.n b) := by
  unfold committorProbabilities
  rw [hk]
  change (validateLabelsCurrent v1 c.states true none >>= _) = _
  rw [ha]
  change (validateLabelsCurrent v2 c.states true none >>= _) = _
  rw [hb]
  refine if_neg ?_
  simpa using hd

theorem isclose_zero_iff {q : K} (h : 0 ≤ q) : isclose q 0 = true ↔ q ≤ 1 / 10 ^ 8 := by
  unfold isclose
  rw [decide_eq_true_eq, sub_zero, abs_zero, mul_zero, add_zero, abs_of_nonneg h]

/-- C41, forward. For an ergodic chain and disjoint sets there is exactly one vector that satisfies
the conditions of a committor; the result has the same entries, except that entries of at most `1e-8`
are replaced by zero. -/
theorem C41_forward_partial {c : MC K} (hc : c.Valid) {nx : Nx c.n} (hx : nx.Sound c.p)
    (he : Ergodic c.p) {v1 v2 : PyVal K} {a b : List ℕ}
    (ha : validateLabelsCurrent v1 c.states true none = .ok a)
    (hb : validateLabelsCurrent v2 c.states true none = .ok b) (hd : ∀ i ∈ a, i ∉ b) :
    ∃ q r, (∀ s, IsCommittor c.p (fun i => i.val ∈ a) (fun i => i.val ∈ b) s ↔ s = q) ∧
      committorProbabilities c nx (.str "forward") v1 v2 = .ok (some r) ∧
      ∀ i, r i = if q i ≤ 1 / 10 ^ 8 then 0 else q i := by
  obtain ⟨q, x, -, -, h1, h2⟩ := mcCommittor_spec hc hx he false (toStates_ne_nil hc ha)
    (toStates_ne_nil hc hb) (fun i hi hi' => hd i.1 (mem_toStates.1 hi) (mem_toStates.1 hi'))
  simp only [Bool.false_eq_true, if_false, mem_toStates] at h2
  refine ⟨q, fun i => if isclose (q i) 0 then 0 else q i, h2, ?_, fun i => ?_⟩
  · rw [committor_run (k := "forward") rfl ha hb hd]
    exact h1
  · simp only [isclose_zero_iff (((h2 q).2 rfl).2.2.1 i).1]

/-- C41, backward: the same for the chain run backwards in time, with the sets exchanged. -/
theorem C41_backward_partial {c : MC K} (hc : c.Valid) {nx : Nx c.n} (hx : nx.Sound c.p)
    (he : Ergodic c.p) {v1 v2 : PyVal K} {a b : List ℕ}
    (ha : validateLabelsCurrent v1 c.states true none = .ok a)
    (hb : validateLabelsCurrent v2 c.states true none = .ok b) (hd : ∀ i ∈ a, i ∉ b) :
    ∃ x, IsStationary c.p x ∧ (∀ y, IsStationary c.p y → y = x) ∧
    ∃ q r, (∀ s, IsCommittor (reversal c.p x) (fun i => i.val ∈ b) (fun i => i.val ∈ a) s ↔ s = q) ∧
      committorProbabilities c nx (.str "backward") v1 v2 = .ok (some r) ∧
      ∀ i, r i = if q i ≤ 1 / 10 ^ 8 then 0 else q i := by
  obtain ⟨q, x, hx1, hx2, h1, h2⟩ := mcCommittor_spec hc hx he true (toStates_ne_nil hc ha)
    (toStates_ne_nil hc hb) (fun i hi hi' => hd i.1 (mem_toStates.1 hi) (mem_toStates.1 hi'))
  simp only [if_true, mem_toStates] at h2
  refine ⟨x, hx1, hx2, q, fun i => if isclose (q i) 0 then 0 else q i, h2, ?_, fun i => ?_⟩
  · rw [committor_run (k := "backward") rfl ha hb hd]
    exact h1
  · simp only [isclose_zero_iff (((h2 q).2 rfl).2.2.1 i).1]

/-- C41, arguments. The two sets are arguments that name states, and they must be disjoint: a state that
is in both sets makes the call fail. -/
theorem C41_disjoint {c : MC K} {nx : Nx c.n} {kind v1 v2 : PyVal K} {r : Option (Fin c.n → K)}
    (h : committorProbabilities c nx kind v1 v2 = .ok r) :
    ∃ a b, validateLabelsCurrent v1 c.states true none = .ok a ∧
      validateLabelsCurrent v2 c.states true none = .ok b ∧ ∀ i ∈ a, i ∉ b := by
  unfold committorProbabilities at h
  obtain ⟨k, -, h⟩ := (R.bind_ok _ _ _).1 h
  obtain ⟨a, ha, h⟩ := (R.bind_ok _ _ _).1 h
  obtain ⟨b, hb, h⟩ := (R.bind_ok _ _ _).1 h
  refine ⟨a, b, ha, hb, ?_⟩
  by_cases hab : a.any (· ∈ b) = true
  · rw [if_pos hab] at h; cases h
  · intro i hi hib
    exact hab (List.any_eq_true.2 ⟨i, hi, decide_eq_true hib⟩)

/-- A chain that rarely moves from the second to the third state. -/
def exRareMove : MC ℚ :=
  ⟨3, !![1 / 2, 1 / 2, 0; 999999999 / 1000000000, 0, 1 / 1000000000; 1 / 2, 1 / 2, 0],
    ["a", "b", "c"]⟩

/-- C41, disagreement: from the second state the third is visited before the first with
probability `1e-9`, and the reported committor is zero. -/
theorem C41_small_values (b : Bool) :
    let nx : Nx exRareMove.n := Nx.ofClasses (n := 3) (fun i j => exRareMove.p i j) [[0, 1, 2]] b
    exRareMove.Valid ∧ nx.Sound exRareMove.p ∧ Ergodic exRareMove.p ∧
    ∃ q r, (∀ s, IsCommittor exRareMove.p (fun i => i.val ∈ [0]) (fun i => i.val ∈ [2]) s ↔ s = q) ∧
      q (1 : Fin 3) = 1 / 1000000000 ∧
      committorProbabilities exRareMove nx (.str "forward") (.str "a") (.str "c") = .ok (some r) ∧
      r (1 : Fin 3) = 0 := by
  intro nx
  have hv : exRareMove.Valid := by decide +kernel
  have hcl : IsClasses (fun i j : Fin 3 => exRareMove.p i j) [[0, 1, 2]] := by decide +kernel
  have hs : nx.Sound exRareMove.p := Nx.ofClasses_sound b hcl
  have hap : isErgodic exRareMove nx = true := by
    cases b <;> decide +kernel
  have he := (isErgodic_iff hv hs).1 hap
  obtain ⟨q, r, h1, h2, h3⟩ := C41_forward_partial hv hs he (v1 := .str "a") (v2 := .str "c")
    (a := [0]) (b := [2]) (by decide +kernel) (by decide +kernel) (by decide)
  have hq := (h1 q).2 rfl
  have e0 : q (0 : Fin 3) = 0 := hq.1 (0 : Fin 3) (by decide)
  have e2 : q (2 : Fin 3) = 1 := hq.2.1 (2 : Fin 3) (by decide)
  have e1 : q (1 : Fin 3) = 1 / 1000000000 := by
    have h4 := hq.2.2.2 (1 : Fin 3) (by decide) (by decide)
    have h5 : ∑ j : Fin 3, exRareMove.p (1 : Fin 3) j * q j = 1 / 1000000000 := by
      rw [Fin.sum_univ_three, e0, e2]
      have p1 : exRareMove.p (1 : Fin 3) (1 : Fin 3) = 0 := by decide +kernel
      have p2 : exRareMove.p (1 : Fin 3) (2 : Fin 3) = 1 / 1000000000 := by decide +kernel
      rw [p1, p2]
      ring
    exact h4.trans h5
  refine ⟨hv, hs, he, q, r, h1, e1, h2, ?_⟩
  have h6 := h3 (1 : Fin 3)
  rw [e1] at h6
  rw [h6]
  norm_num

end Verif
