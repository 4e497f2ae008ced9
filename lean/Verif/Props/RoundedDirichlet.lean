import Verif.Model.RoundedDirichlet
import Verif.Props.RoundedMeasures
import Verif.Props.Validation
import Verif.Props.Random

/-!
# Dirichlet processes in floating point (C187)
-/

namespace Verif

open Finset

variable {K : Type} [Field K] [LinearOrder K] [IsStrictOrderedRing K] {fl : K → K} {u : K}

/-- C187, one step of the allocation: the allocated probability stays between zero and one. -/
theorem C187_step (h : IsRounding fl u) (h1u : fl (1 + u) = 1) {a d : K} (ha : 0 ≤ a ∧ a ≤ 1) (hd : 0 ≤ d ∧ d ≤ 1) :
    (0 ≤ fl (fl (1 - a) * d) ∧ fl (fl (fl (1 - a) * d)) = fl (fl (1 - a) * d)) ∧
    0 ≤ fl (a + fl (fl (1 - a) * d)) ∧ fl (a + fl (fl (1 - a) * d)) ≤ 1 := by
  have hu0 := h.unit_nonneg
  have h1a : 0 ≤ 1 - a := by linarith
  have ht := h.nonneg h1a
  have ht2 : fl (1 - a) ≤ (1 + u) * (1 - a) := by
    have e := (abs_le.1 (h.near (1 - a))).2
    rw [abs_of_nonneg h1a] at e
    linarith
  have hw := mul_nonneg ht hd.1
  have hw2 : fl (fl (1 - a) * d) ≤ fl (1 - a) := by
    have := h.mono _ _ hw (mul_le_of_le_one_right ht hd.2)
    rwa [h.idem _ h1a] at this
  have hs : 0 ≤ a + fl (fl (1 - a) * d) := add_nonneg ha.1 (h.nonneg hw)
  refine ⟨⟨h.nonneg hw, h.idem _ hw⟩, h.nonneg hs, ?_⟩
  have hle : a + fl (fl (1 - a) * d) ≤ 1 + u := by nlinarith [ha.1]
  exact (h.mono _ _ hs hle).trans h1u.le

omit [LinearOrder K] [IsStrictOrderedRing K] in
theorem gemLoopF_length (l : List K) (a : K) : (gemLoopF fl l a).length = l.length := by
  induction l generalizing a with
  | nil => rfl
  | cons d ds ih => simp [gemLoopF, ih]

theorem gemLoopF_mem (h : IsRounding fl u) (h1u : fl (1 + u) = 1) {l : List K} (hl : ∀ d ∈ l, 0 ≤ d ∧ d ≤ 1) {a : K}
    (ha : 0 ≤ a ∧ a ≤ 1) : ∀ w ∈ gemLoopF fl l a, 0 ≤ w ∧ fl w = w := by
  induction l generalizing a with
  | nil => intro w hw; cases hw
  | cons d ds ih =>
    obtain ⟨s1, s2⟩ := C187_step h h1u ha (hl d List.mem_cons_self)
    intro w hw
    rcases List.mem_cons.1 hw with rfl | hw
    · exact s1
    · exact ih (fun x hx => hl x (List.mem_cons_of_mem _ hx)) s2 w hw

theorem fl_pos (h : IsRounding fl u) {x : K} (hx : 0 < x) : 0 < fl x := by
  have e := (abs_le.1 (h.near x)).1
  rw [abs_of_pos hx] at e
  have := h.unit_lt
  nlinarith

theorem gemLoopF_pos (h : IsRounding fl u) {l : List K} (hl : ∀ d ∈ l, 0 ≤ d) (hp : ∃ d ∈ l, 0 < d) :
    ∃ w ∈ gemLoopF fl l 0, 0 < w := by
  have h0 : fl 0 = 0 := by
    have h2 := h.near 0
    rw [abs_zero, mul_zero, sub_zero] at h2
    exact abs_eq_zero.1 (le_antisymm h2 (abs_nonneg _))
  induction l with
  | nil => obtain ⟨d, hd, -⟩ := hp; cases hd
  | cons d ds ih =>
    simp only [gemLoopF, sub_zero, h.one, one_mul]
    rcases (hl d List.mem_cons_self).lt_or_eq with hd | hd
    · exact ⟨_, List.mem_cons_self, fl_pos h hd⟩
    · subst hd
      obtain ⟨e, he, he'⟩ := hp
      rcases List.mem_cons.1 he with rfl | he
      · exact absurd he' (lt_irrefl _)
      · obtain ⟨w, hw, hw'⟩ := ih (fun x hx => hl x (List.mem_cons_of_mem _ hx)) ⟨e, he, he'⟩
        refine ⟨w, List.mem_cons_of_mem _ ?_, hw'⟩
        rw [h0, add_zero, h0]
        exact hw

section process
variable {n : ℕ} {draws : Fin n → Fin n → K}

theorem gemWeightsF_spec (h : IsRounding fl u) (h1u : fl (1 + u) = 1) (hd : ∀ i j, 0 ≤ draws i j ∧ draws i j ≤ 1)
    (hp : ∀ i, ∃ j, 0 < draws i j) :
    (∀ i j, 0 ≤ gemWeightsF fl draws i j ∧ fl (gemWeightsF fl draws i j) = gemWeightsF fl draws i j) ∧
    ∀ i, 0 < ∑ j, gemWeightsF fl draws i j := by
  have hl : ∀ i, (gemLoopF fl (List.ofFn (draws i)) 0).length = n := fun i => by
    rw [gemLoopF_length, List.length_ofFn]
  have hm : ∀ i, ∀ w ∈ gemLoopF fl (List.ofFn (draws i)) 0, 0 ≤ w ∧ fl w = w := fun i =>
    gemLoopF_mem h h1u (fun d hd' => by obtain ⟨j, rfl⟩ := List.mem_ofFn.1 hd'; exact hd i j) ⟨le_rfl, zero_le_one⟩
  have hg : ∀ i (j : Fin n), gemWeightsF fl draws i j =
      (gemLoopF fl (List.ofFn (draws i)) 0)[j.val]'(by rw [hl]; exact j.2) := by
    intro i j
    unfold gemWeightsF
    rw [List.getD_eq_getElem?_getD, List.getElem?_eq_getElem (by rw [hl]; exact j.2)]
    rfl
  have h1 : ∀ i j, 0 ≤ gemWeightsF fl draws i j ∧ fl (gemWeightsF fl draws i j) = gemWeightsF fl draws i j := by
    intro i j
    rw [hg]
    exact hm i _ (List.getElem_mem _)
  refine ⟨h1, fun i => ?_⟩
  obtain ⟨k, hk⟩ := hp i
  obtain ⟨w, hw, hw'⟩ := gemLoopF_pos h (l := List.ofFn (draws i))
    (fun d hd' => by obtain ⟨j, rfl⟩ := List.mem_ofFn.1 hd'; exact (hd i j).1) ⟨_, List.mem_ofFn.2 ⟨k, rfl⟩, hk⟩
  obtain ⟨m, hm', rfl⟩ := List.getElem_of_mem hw
  rw [hl] at hm'
  refine sum_pos' (fun j _ => (h1 i j).1) ⟨⟨m, hm'⟩, mem_univ _, ?_⟩
  rw [hg]
  exact hw'

/-- Rows that were divided by their sums. -/
theorem normalised_accepted (h : IsRounding fl u) (hu : (2 * n + 1) * u ≤ 1 / 10 ^ 6) {M : Matrix (Fin n) (Fin n) K}
    (hM : ∀ i j, 0 ≤ M i j ∧ fl (M i j) = M i j) (hs : ∀ i, 0 < ∑ j, M i j) (i : Fin n) :
    (∀ j, 0 ≤ normalizeRowsF (Arith.rounded fl) M i j ∧ normalizeRowsF (Arith.rounded fl) M i j ≤ 1) ∧
    |∑ j, normalizeRowsF (Arith.rounded fl) M i j - 1| ≤ 1 / 10 ^ 8 + 1 / 10 ^ 5 ∧
    0 < ∑ j, normalizeRowsF (Arith.rounded fl) M i j := by
  have hu0 := h.unit_nonneg
  have hnu : 0 ≤ (n : K) * u := mul_nonneg (Nat.cast_nonneg _) hu0
  obtain ⟨-, t⟩ := normal_total h.sound (fun j => (hM i j).1) (hs i)
  have hN : ((n + 1 : ℕ) : K) * u ≤ 1 / 10 ^ 6 := by
    have hn1 : 1 ≤ (n : K) := by exact_mod_cast i.pos
    push_cast
    nlinarith
  have r := t.relative h.sound (hN.trans (by norm_num))
  refine ⟨(C150_normalised_partial h hM hs hu i).1, r.trans ?_, (t.pos_iff h.sound.one_le).2 one_pos⟩
  rw [mul_one]
  refine (mul_le_mul_of_nonneg_left hN (by norm_num)).trans (by norm_num)

/-- C187. **Dirichlet processes in floating point**: for all draws between zero and one such that no row of draws is zero,
with or without bias and shift, the matrix passes the checks of the constructor. -/
theorem C187_dirichlet (h : IsRounding fl u) (h1u : fl (1 + u) = 1) (hn2 : 2 ≤ n) (hu : (2 * n + 1) * u ≤ 1 / 10 ^ 6)
    (hd : ∀ i j, 0 ≤ draws i j ∧ draws i j ≤ 1) (hp : ∀ i, ∃ j, 0 < draws i j) (bias : Option (Fin n → K))
    (hb : ∀ b, bias = some b → ∀ i, 0 ≤ b i) (shift : Bool) :
    AcceptedMatrix (dirichletMatrixF fl draws bias shift) := by
  obtain ⟨w1, w2⟩ := gemWeightsF_spec h h1u hd hp
  have key := normalised_accepted h hu w1 w2
  have base : ∀ i, (∀ j, 0 ≤ dirichletBaseF fl draws shift i j ∧ dirichletBaseF fl draws shift i j ≤ 1) ∧
      |∑ j, dirichletBaseF fl draws shift i j - 1| ≤ 1 / 10 ^ 8 + 1 / 10 ^ 5 ∧
      0 < ∑ j, dirichletBaseF fl draws shift i j := by
    intro i
    obtain ⟨k1, k2, k3⟩ := key i
    have e : ∑ j, dirichletBaseF fl draws shift i j =
        ∑ j, normalizeRowsF (Arith.rounded fl) (gemWeightsF fl draws) i j := by
      cases shift with
      | false => rfl
      | true => exact Equiv.sum_comp Fin.revPerm (normalizeRowsF (Arith.rounded fl) (gemWeightsF fl draws) i)
    rw [e]
    exact ⟨fun j => k1 _, k2, k3⟩
  cases bias with
  | none => exact ⟨hn2, fun i => (base i).1, fun i => (base i).2.1⟩
  | some b =>
    have hadd : ∀ i j, 0 ≤ dirichletBaseF fl draws shift i j + (if i = j then b i else 0) := by
      intro i j
      have := hb b rfl i
      split_ifs
      · exact add_nonneg ((base i).1 j).1 this
      · exact add_nonneg ((base i).1 j).1 le_rfl
    have hM : ∀ i j, 0 ≤ fl (dirichletBaseF fl draws shift i j + if i = j then b i else 0) ∧
        fl (fl (dirichletBaseF fl draws shift i j + if i = j then b i else 0)) =
          fl (dirichletBaseF fl draws shift i j + if i = j then b i else 0) :=
      fun i j => ⟨h.nonneg (hadd i j), h.idem _ (hadd i j)⟩
    have hs : ∀ i, 0 < ∑ j, fl (dirichletBaseF fl draws shift i j + if i = j then b i else 0) := by
      intro i
      obtain ⟨j, hj⟩ : ∃ j, 0 < dirichletBaseF fl draws shift i j := by
        by_contra hc
        push Not at hc
        exact absurd (base i).2.2 (not_lt.2 (sum_nonpos fun j _ => hc j))
      refine sum_pos' (fun j _ => (hM i j).1) ⟨j, mem_univ j, fl_pos h ?_⟩
      have := hb b rfl i
      split_ifs
      · linarith
      · linarith
    have k := normalised_accepted h hu hM hs
    exact ⟨hn2, fun i => (k i).1, fun i => (k i).2.1⟩

end process

/-- C187 for doubles. -/
theorem C187_double {n : ℕ} (hn2 : 2 ≤ n) (hn : n ≤ 4000000000) {draws : Fin n → Fin n → ℚ}
    (hd : ∀ i j, 0 ≤ draws i j ∧ draws i j ≤ 1) (hp : ∀ i, ∃ j, 0 < draws i j) (bias : Option (Fin n → ℚ))
    (hb : ∀ b, bias = some b → ∀ i, 0 ≤ b i) (shift : Bool) :
    AcceptedMatrix (dirichletMatrixF binary64 draws bias shift) := by
  refine C187_dirichlet binary64_rounding (by decide +kernel) hn2 ?_ hd hp bias hb shift
  have h1 : (n : ℚ) ≤ 4000000000 := by exact_mod_cast hn
  norm_num
  linarith

omit [LinearOrder K] [IsStrictOrderedRing K] in
theorem sum_id (l : List K) : (Arith.rounded (id : K → K)).sum l = l.sum := by
  cases l with
  | nil => rfl
  | cons a l =>
    change l.foldl (fun x y => x + y) a = _
    rw [List.sum_cons]
    induction l generalizing a with
    | nil => simp
    | cons b l ih => rw [List.foldl_cons, ih, List.sum_cons, add_assoc]

omit [LinearOrder K] [IsStrictOrderedRing K] in
theorem gemLoopF_id (l : List K) (a : K) : gemLoopF id l a = gemLoop l a := by
  induction l generalizing a with
  | nil => rfl
  | cons d ds ih => simp [gemLoopF, gemLoop, ih]

/-- C187: without rounding the matrix is that of C16. -/
theorem C187_exact {n : ℕ} (draws : Fin n → Fin n → K) (bias : Option (Fin n → K)) (shift : Bool) :
    dirichletMatrixF id draws bias shift = dirichletMatrix draws bias shift := by
  have hbase : dirichletBaseF id draws shift = dirichletBase draws shift := by
    funext i j
    have hl : (gemLoop (List.ofFn (draws i)) 0).length = n := by rw [gemLoop_length, List.length_ofFn]
    have hofFn : (List.ofFn fun l : Fin n => gemWeightsF id draws i l) = gemLoop (List.ofFn (draws i)) 0 := by
      apply List.ext_getElem
      · rw [List.length_ofFn, hl]
      · intro k h1 h2
        rw [List.getElem_ofFn]
        change (gemLoopF id (List.ofFn (draws i)) 0).getD k 0 = _
        rw [gemLoopF_id, List.getD_eq_getElem?_getD, List.getElem?_eq_getElem h2]
        rfl
    have hk : ∀ k : Fin n, normalizeRowsF (Arith.rounded id) (gemWeightsF id draws) i k =
        (gemAllocation (List.ofFn (draws i))).getD k 0 := by
      intro k
      have hk : (k : ℕ) < (gemLoop (List.ofFn (draws i)) 0).length := by rw [hl]; exact k.2
      unfold normalizeRowsF gemAllocation
      rw [sum_id, hofFn]
      unfold gemWeightsF
      rw [gemLoopF_id]
      simp only [List.getD_eq_getElem?_getD, List.getElem?_map, List.getElem?_eq_getElem hk]
      rfl
    cases shift with
    | false => exact hk j
    | true => exact hk j.rev
  cases bias with
  | none => exact hbase
  | some b =>
    funext i j
    simp only [dirichletMatrixF, dirichletMatrix, hbase, normalizeRowsF, normalizeRows, sum_id, List.sum_ofFn]
    rfl

/-- C187: after the two draws 1 and 1/3 everything is allocated in the first step, and the shift reverses the row. -/
theorem C187_instance :
    dirichletMatrixF binary64 (fun _ j => if j = 0 then 1 else 1 / 3 : Fin 2 → Fin 2 → ℚ) none false 0 = ![1, 0] ∧
    dirichletMatrixF binary64 (fun _ j => if j = 0 then 1 else 1 / 3 : Fin 2 → Fin 2 → ℚ) none true 0 = ![0, 1] ∧
    dirichletMatrixF binary64 (fun _ j => if j = 0 then 1 else 1 / 3 : Fin 2 → Fin 2 → ℚ) (some fun _ => 1) true 0 =
      ![1 / 2, 1 / 2] := by
  decide +kernel

example : AcceptedMatrix (dirichletMatrixF binary64 (fun _ _ => 1 / 3 : Fin 2 → Fin 2 → ℚ) (some fun _ => 1 / 2) true) :=
  C187_double le_rfl (by norm_num) (fun _ _ => by norm_num) (fun _ => ⟨0, by norm_num⟩) _
    (fun b hb i => by cases hb; norm_num) _

end Verif
