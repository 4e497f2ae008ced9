import Verif.Props.PiReturns
import Verif.Props.RoundedMeasures

/-!
# Stationary distributions in double arithmetic are accurate (C169)
-/

set_option linter.unusedSectionVars false

namespace Verif

open Finset

/-! ## Operations without underflow -/

/-- A number that is not in the range of gradual underflow. -/
def NoTiny (x : ℚ) : Prop := x = 0 ∨ 1 / 2 ^ 1022 ≤ x

theorem NoTiny.nonneg {x : ℚ} (h : NoTiny x) : 0 ≤ x := by
  rcases h with rfl | h
  · exact le_rfl
  · exact le_trans (by positivity) h

theorem NoTiny.eq {x : ℚ} (h : NoTiny x) : double x = binary64 x := by
  rcases h with rfl | h
  · rw [double_zero, binary64_zero]
  · exact double_large h

theorem NoTiny.add {x y : ℚ} (hx : NoTiny x) (hy : NoTiny y) : NoTiny (x + y) := by
  have := hx.nonneg
  have := hy.nonneg
  rcases hx with rfl | hx
  · rwa [zero_add]
  · exact Or.inr (by linarith)

theorem NoTiny.double {x : ℚ} (h : NoTiny x) : NoTiny (double x) := by
  rcases h with rfl | h
  · rw [double_zero]
    exact Or.inl rfl
  · exact Or.inr (le_double_pow (by norm_num) h)

theorem noTiny_of_pow {t : ℕ} (ht : t ≤ 1022) {x : ℚ} (h : 1 / 2 ^ t ≤ x) : NoTiny x :=
  Or.inr (le_trans (one_div_le_one_div_of_le (by positivity) (pow_le_pow_right₀ (by norm_num) ht)) h)

theorem fold_eq {l : List ℚ} : ∀ {x : ℚ}, NoTiny x → (∀ y ∈ l, NoTiny y) →
    l.foldl (fun x y => double (x + y)) x = l.foldl (fun x y => binary64 (x + y)) x := by
  induction l with
  | nil => exact fun _ _ => rfl
  | cons a l ih =>
    intro x hx h
    have h1 := hx.add (h a List.mem_cons_self)
    rw [List.foldl_cons, List.foldl_cons, ih h1.double fun y hy => h y (List.mem_cons_of_mem _ hy), h1.eq]

theorem sum_double_eq {l : List ℚ} (h : ∀ y ∈ l, NoTiny y) :
    (Arith.rounded double).sum l = (Arith.rounded binary64).sum l := by
  cases l with
  | nil => rfl
  | cons a l => exact fold_eq (h a List.mem_cons_self) fun y hy => h y (List.mem_cons_of_mem _ hy)

theorem dot_double_eq {l : List (ℚ × ℚ)} (h : ∀ q ∈ l, NoTiny (q.1 * q.2)) :
    (Arith.rounded double).dot l = (Arith.rounded binary64).dot l := by
  cases l with
  | nil => rfl
  | cons p l =>
    change (l.map fun p => double (p.1 * p.2)).foldl (fun x y => double (x + y)) (double (p.1 * p.2)) =
      (l.map fun p => binary64 (p.1 * p.2)).foldl (fun x y => binary64 (x + y)) (binary64 (p.1 * p.2))
    rw [fold_eq (h p List.mem_cons_self).double, (h p List.mem_cons_self).eq]
    · congr 1
      exact List.map_congr_left fun q hq => (h q (List.mem_cons_of_mem _ hq)).eq
    · intro y hy
      obtain ⟨q, hq, rfl⟩ := List.mem_map.1 hy
      exact (h q (List.mem_cons_of_mem _ hq)).double

theorem dot_double_ge {t : ℕ} (ht : t ≤ 1074) {l : List (ℚ × ℚ)} (h : ∀ q ∈ l, 0 ≤ q.1 * q.2) {q : ℚ × ℚ}
    (hq : q ∈ l) (hl : 1 / 2 ^ t ≤ q.1 * q.2) : 1 / 2 ^ t ≤ (Arith.rounded double).dot l := by
  cases l with
  | nil => simp at hq
  | cons p l =>
    change _ ≤ (l.map fun p => double (p.1 * p.2)).foldl (fun x y => double (x + y)) (double (p.1 * p.2))
    refine fold_lower ht (double_nonneg (h p List.mem_cons_self)) (fun y hy => ?_) ?_
    · obtain ⟨q, hq, rfl⟩ := List.mem_map.1 hy
      exact double_nonneg (h q (List.mem_cons_of_mem _ hq))
    · rcases List.mem_cons.1 hq with rfl | hq
      · exact Or.inl (le_double_pow ht hl)
      · exact Or.inr ⟨_, List.mem_map_of_mem hq, le_double_pow ht hl⟩

/-! ## Paths without repetition -/

theorem exists_nodup {E : ℕ → ℕ → Prop} {A : List ℕ} {j k : ℕ} (h : PathVia E j A k) :
    ∃ B, PathVia E j B k ∧ B.Nodup ∧ ∀ m ∈ B, m ∈ A := by
  classical
  have hex : ∃ L, ∃ B : List ℕ, B.length = L ∧ PathVia E j B k ∧ ∀ m ∈ B, m ∈ A :=
    ⟨_, A, rfl, h, fun m hm => hm⟩
  obtain ⟨B, hL, hB, hsub⟩ := Nat.find_spec hex
  have hmin : ∀ B', PathVia E j B' k → (∀ m ∈ B', m ∈ A) → B.length ≤ B'.length := fun B' h1 h2 => by
    rw [hL]
    exact Nat.find_min' hex ⟨B', rfl, h1, h2⟩
  refine ⟨B, hB, ?_, hsub⟩
  by_contra hd
  obtain ⟨m, hm⟩ := List.exists_duplicate_iff_not_nodup.2 hd
  obtain ⟨A1, C, e⟩ := List.append_of_mem hm.mem
  rw [List.duplicate_iff_sublist] at hm
  have hC : m ∈ A1 ∨ m ∈ C := by
    by_contra hc
    push Not at hc
    have h1 := hm.count_le m
    have h3 := List.count_eq_zero_of_not_mem hc.1
    have h4 := List.count_eq_zero_of_not_mem hc.2
    rw [e] at h1
    simp [h3, h4] at h1
  rw [e, pathVia_append] at hB
  rcases hC with h | h
  · obtain ⟨D, D', rfl⟩ := List.append_of_mem h
    have h2 := hmin (D ++ m :: C) (pathVia_append.2 ⟨(pathVia_append.1 hB.1).1, hB.2⟩)
      fun x hx => hsub x (by
        rw [e]
        simp only [List.mem_append, List.mem_cons] at hx ⊢
        tauto)
    rw [e] at h2
    simp at h2
    omega
  · obtain ⟨D, D', rfl⟩ := List.append_of_mem h
    have h2 := hmin (A1 ++ m :: D') (pathVia_append.2 ⟨hB.1, (pathVia_append.1 hB.2).2⟩)
      fun x hx => hsub x (by
        rw [e]
        simp only [List.mem_append, List.mem_cons] at hx ⊢
        tauto)
    rw [e] at h2
    simp at h2
    omega

/-- A path without repetition that also avoids its ends. -/
theorem exists_avoiding {E : ℕ → ℕ → Prop} {A : List ℕ} {j k : ℕ} (h : PathVia E j A k) :
    ∃ B, PathVia E j B k ∧ B.Nodup ∧ (∀ m ∈ B, m ∈ A) ∧ j ∉ B ∧ k ∉ B := by
  classical
  have hex : ∃ L, ∃ B : List ℕ, B.length = L ∧ PathVia E j B k ∧ ∀ m ∈ B, m ∈ A :=
    ⟨_, A, rfl, h, fun m hm => hm⟩
  obtain ⟨B, hL, hB, hsub⟩ := Nat.find_spec hex
  have hmin : ∀ B', PathVia E j B' k → (∀ m ∈ B', m ∈ A) → B.length ≤ B'.length := fun B' h1 h2 => by
    rw [hL]
    exact Nat.find_min' hex ⟨B', rfl, h1, h2⟩
  obtain ⟨C, hC, hnd, hs⟩ := exists_nodup hB
  have hCB := hmin C hC fun m hm => hsub m (hs m hm)
  have hCm : ∀ B', PathVia E j B' k → (∀ m ∈ B', m ∈ C) → C.length ≤ B'.length := fun B' h1 h2 => by
    have h3 := hmin B' h1 fun m hm => hsub m (hs m (h2 m hm))
    have h4 : C.length ≤ B.length := by
      rw [← List.toFinset_card_of_nodup hnd]
      exact (card_le_card fun m hm => List.mem_toFinset.2 (hs m (List.mem_toFinset.1 hm))).trans
        (List.toFinset_card_le B)
    omega
  refine ⟨C, hC, hnd, fun m hm => hsub m (hs m hm), fun hj => ?_, fun hk => ?_⟩
  · obtain ⟨D, D', rfl⟩ := List.append_of_mem hj
    have := hCm D' (pathVia_append.1 hC).2 fun m hm => by simp [hm]
    simp at this
    omega
  · obtain ⟨D, D', rfl⟩ := List.append_of_mem hk
    have := hCm D (pathVia_append.1 hC).1 fun m hm => by simp [hm]
    simp at this

/-! ## The elimination -/

/-- What is known before step `i`. -/
structure Stage (E : ℕ → ℕ → Prop) (n d i : ℕ) (a : ℕ → ℕ → ℚ) : Prop where
  nonneg : ∀ j k, 0 ≤ a j k
  row : ∀ j ∈ Ico i n, ∑ k ∈ Ico i n, a j k ≤ 5 / 4 + i / 2000
  path : ∀ j ∈ Ico i n, ∀ k ∈ Ico i n, ∀ A : List ℕ, A.Nodup → (∀ m ∈ A, m < i) → PathVia E j A k →
    pathBound d A.length ≤ a j k
  supp : ∀ j ∈ Ico i n, ∀ k ∈ Ico i n, 0 < a j k → ∃ A : List ℕ, A.Nodup ∧ (∀ m ∈ A, m < i) ∧ PathVia E j A k
  cols : ∀ k < i, ∀ j ∈ Ico (k + 1) n, (∀ A : List ℕ, A.Nodup → (∀ m ∈ A, m < k) → PathVia E j A k →
    pathBound d A.length / 2 ≤ a j k) ∧
      (0 < a j k → ∃ A : List ℕ, A.Nodup ∧ (∀ m ∈ A, m < k) ∧ PathVia E j A k)

theorem exponent_le {d L n : ℕ} (h : L + 1 ≤ n) : d * (L + 1) + L + 1 ≤ (d + 1) * n := by
  have h1 : (d + 1) * (L + 1) ≤ (d + 1) * n := Nat.mul_le_mul_left _ h
  have h2 : (d + 1) * (L + 1) = d * (L + 1) + L + 1 := by ring
  omega

theorem pathBound_ge {d L n : ℕ} (h : L + 1 ≤ n) : 1 / 2 ^ ((d + 1) * n) ≤ pathBound d L / 2 := by
  unfold pathBound
  rw [div_div, ← pow_succ]
  exact one_div_le_one_div_of_le (by positivity) (pow_le_pow_right₀ (by norm_num) (exponent_le h))

/-- Positive entries are not tiny. -/
theorem Stage.lower {E : ℕ → ℕ → Prop} {n d i : ℕ} {a : ℕ → ℕ → ℚ} (h : Stage E n d i a) (hi : i < n) {j k : ℕ}
    (hj : j ∈ Ico i n) (hk : k ∈ Ico i n) : a j k = 0 ∨ 1 / 2 ^ ((d + 1) * n) ≤ a j k / 2 := by
  rcases (h.nonneg j k).eq_or_lt with h0 | h0
  · exact Or.inl h0.symm
  · right
    obtain ⟨A, h1, h2, h3⟩ := h.supp j hj k hk h0
    have hl := length_le_of_lt h1 h2
    exact (pathBound_ge (by omega)).trans (div_le_div_of_nonneg_right (h.path j hj k hk A h1 h2 h3) (by norm_num))

theorem double_pos_of {x : ℚ} (hx : 0 ≤ x) (h : 0 < double x) : 0 < x := by
  rcases hx.eq_or_lt with h0 | h0
  · rw [← h0, double_zero] at h
    exact absurd h (lt_irrefl 0)
  · exact h0

/-- The scale of a step. -/
theorem Stage.scale {E : ℕ → ℕ → Prop} {n d i : ℕ} {a : ℕ → ℕ → ℚ} (h : Stage E n d i a) (hi : i + 1 < n)
    (hn : (d + 1) * n ≤ 500)
    (hE : ∃ A k, i < k ∧ k < n ∧ PathVia E i A k ∧ A.Nodup ∧ ∀ m ∈ A, m < i) {s : ℚ}
    (hse : s = (Arith.rounded double).sum ((slice (i + 1) n).map (a i))) :
    s = (Arith.rounded binary64).sum ((slice (i + 1) n).map (a i)) ∧ 0 < s ∧ s ≤ 2 ∧
      ∑ k ∈ Ico (i + 1) n, a i k ≤ (1 + 1 / 2 ^ 20) * s := by
  have hn1 : n ≤ 1000 := le_trans (Nat.le_mul_of_pos_left n (by omega)) (hn.trans (by norm_num))
  obtain ⟨A, k, hk1, hk2, hpath, hA, hAi⟩ := hE
  have hlen : A.length ≤ i := length_le_of_lt hA hAi
  have hb := h.path i (mem_Ico.2 ⟨le_rfl, by omega⟩) k (mem_Ico.2 ⟨by omega, hk2⟩) A hA hAi hpath
  have hexp := exponent_le (d := d) (show A.length + 1 ≤ n by omega)
  have hb' : 1 / 2 ^ 1000 ≤ a i k := le_trans
    (one_div_le_one_div_of_le (by positivity) (pow_le_pow_right₀ (by norm_num) (by omega))) hb
  have hnn : ∀ x ∈ (slice (i + 1) n).map (a i), 0 ≤ x := fun x hx => by
    obtain ⟨l, -, rfl⟩ := List.mem_map.1 hx
    exact h.nonneg i l
  have hs : 1 / 2 ^ 1000 ≤ (Arith.rounded double).sum ((slice (i + 1) n).map (a i)) := by
    refine double_sum_ge (by norm_num) hnn (List.mem_map_of_mem (a := k) ?_) hb'
    rw [mem_slice, mem_Ico]
    omega
  have hclose := double_sum_close (l := (slice (i + 1) n).map (a i))
    (by rw [List.length_map, length_slice]; omega) hnn hs
  rw [slice_sum] at hclose
  have hsum : (Arith.rounded double).sum ((slice (i + 1) n).map (a i)) =
      (Arith.rounded binary64).sum ((slice (i + 1) n).map (a i)) := by
    refine sum_double_eq fun x hx => ?_
    obtain ⟨l, hl, rfl⟩ := List.mem_map.1 hx
    rw [mem_slice, mem_Ico] at hl
    rcases h.lower (by omega) (mem_Ico.2 ⟨le_rfl, by omega⟩) (mem_Ico.2 ⟨by omega, hl.2⟩) with h0 | h0
    · exact Or.inl h0
    · refine noTiny_of_pow (t := (d + 1) * n) (by omega) (h0.trans ?_)
      linarith [h.nonneg i l]
  rw [← hsum, ← hse]
  rw [← hse] at hs hclose
  have hi2 : (i : ℚ) ≤ 1000 := by exact_mod_cast (by omega : i ≤ 1000)
  have hir := h.row i (mem_Ico.2 ⟨le_rfl, by omega⟩)
  rw [sum_eq_sum_Ico_succ_bot (by omega)] at hir
  refine ⟨rfl, lt_of_lt_of_le (by positivity) hs, ?_, hclose.1⟩
  have h1 := hclose.2
  have h2 : ∑ k ∈ Ico (i + 1) n, a i k ≤ 7 / 4 := by linarith [h.nonneg i i]
  clear hs hb' hb
  norm_num at h1 ⊢
  linarith

/-- One step of the elimination is the same without underflow. -/
theorem Stage.step_eq {E : ℕ → ℕ → Prop} {n d i : ℕ} {a : ℕ → ℕ → ℚ} (h : Stage E n d i a) (hi : i + 1 < n)
    (hn : (d + 1) * n ≤ 500) {s : ℚ} (hs0 : 0 < s) (hs2 : s ≤ 2) :
    gthStepF (Arith.rounded double) n a i s = gthStepF (Arith.rounded binary64) n a i s := by
  have hq : ∀ j ∈ Ico i n, a j i / s = 0 ∨ 1 / 2 ^ ((d + 1) * n) ≤ a j i / s := by
    intro j hj
    rcases h.lower (by omega) hj (mem_Ico.2 ⟨le_rfl, by omega⟩) with h0 | h0
    · exact Or.inl (by rw [h0, zero_div])
    · exact Or.inr (h0.trans (div_le_div_of_nonneg_left (h.nonneg j i) hs0 hs2))
  have hnt : ∀ j ∈ Ico i n, NoTiny (a j i / s) := fun j hj => by
    rcases hq j hj with h0 | h0
    · exact Or.inl h0
    · exact noTiny_of_pow (by omega) h0
  funext j k
  unfold gthStepF
  split_ifs with h1 h2 h3
  · exact (hnt j (mem_Ico.2 ⟨by omega, h1.2⟩)).eq
  · have hj : j ∈ Ico i n := mem_Ico.2 ⟨by omega, h1.2⟩
    have hk : k ∈ Ico i n := mem_Ico.2 ⟨by omega, h3.2⟩
    change double (a j k + double (double (a j i / s) * a i k)) =
      binary64 (a j k + binary64 (binary64 (a j i / s) * a i k))
    have e1 : NoTiny (double (a j i / s) * a i k) := by
      rcases hq j hj with h0 | h0
      · rw [h0, double_zero, zero_mul]
        exact Or.inl rfl
      · rcases h.lower (by omega) (mem_Ico.2 ⟨le_rfl, by omega⟩) hk with h4 | h4
        · rw [h4, mul_zero]
          exact Or.inl rfl
        · refine noTiny_of_pow (t := (d + 1) * n + (d + 1) * n) (by omega) ?_
          rw [show (1 : ℚ) / 2 ^ ((d + 1) * n + (d + 1) * n) = 1 / 2 ^ ((d + 1) * n) * (1 / 2 ^ ((d + 1) * n)) by
            rw [pow_add, div_mul_div_comm, one_mul]]
          exact mul_le_mul (le_double_pow (by omega) h0) (h4.trans (by linarith [h.nonneg i k])) (by positivity)
            (double_nonneg (div_nonneg (h.nonneg j i) hs0.le))
    have e2 : NoTiny (a j k) := by
      rcases h.lower (by omega) hj hk with h4 | h4
      · exact Or.inl h4
      · exact noTiny_of_pow (by omega) (h4.trans (by linarith [h.nonneg j k]))
    rw [(e2.add e1.double).eq, e1.eq, (hnt j hj).eq]
  · rfl
  · rfl

/-- One step of the elimination. -/
theorem Stage.step {E : ℕ → ℕ → Prop} {n d i : ℕ} {a : ℕ → ℕ → ℚ} (h : Stage E n d i a) (hi : i + 1 < n)
    (hn : (d + 1) * n ≤ 500) {s : ℚ} (hs0 : 0 < s) (hs2 : s ≤ 2)
    (hS : ∑ k ∈ Ico (i + 1) n, a i k ≤ (1 + 1 / 2 ^ 20) * s) :
    Stage E n d (i + 1) (gthStepF (Arith.rounded double) n a i s) := by
  have hn1 : n ≤ 1000 := le_trans (Nat.le_mul_of_pos_left n (by omega)) (hn.trans (by norm_num))
  have hd : ∀ j, 0 ≤ double (a j i / s) := fun j => double_nonneg (div_nonneg (h.nonneg j i) hs0.le)
  have hm : ∀ j k, 0 ≤ double (double (a j i / s) * a i k) := fun j k =>
    double_nonneg (mul_nonneg (hd j) (h.nonneg i k))
  have hi2 : (i : ℚ) ≤ 1000 := by exact_mod_cast (by omega : i ≤ 1000)
  refine ⟨fun j k => ?_, fun j hj => ?_, step_paths (hn.trans (by norm_num)) h.nonneg hi hs0 hs2 h.path,
    fun j hj k hk hpos => ?_, fun k hk j hj => ?_⟩
  · unfold gthStepF
    split_ifs
    · exact hd j
    · exact double_nonneg (add_nonneg (h.nonneg j k) (hm j k))
    · exact h.nonneg j k
    · exact h.nonneg j k
  · have := step_rows hn1 h.nonneg (by linarith) (by omega) h.row hs0 hs2 hS hj
    push_cast
    linarith
  · rw [gthStepF_block hj hk] at hpos
    change 0 < double (a j k + double (double (a j i / s) * a i k)) at hpos
    have h1 := double_pos_of (add_nonneg (h.nonneg j k) (hm j k)) hpos
    rw [mem_Ico] at hj hk
    have hj' : j ∈ Ico i n := mem_Ico.2 ⟨by omega, hj.2⟩
    have hk' : k ∈ Ico i n := mem_Ico.2 ⟨by omega, hk.2⟩
    have hi' : i ∈ Ico i n := mem_Ico.2 ⟨le_rfl, by omega⟩
    rcases (h.nonneg j k).eq_or_lt with h2 | h2
    · rw [← h2, zero_add] at h1
      have h3 := double_pos_of (mul_nonneg (hd j) (h.nonneg i k)) h1
      have h4 : 0 < a i k := by
        rcases (h.nonneg i k).eq_or_lt with h5 | h5
        · rw [← h5, mul_zero] at h3
          exact absurd h3 (lt_irrefl 0)
        · exact h5
      have h5 : 0 < double (a j i / s) := by
        rcases (hd j).eq_or_lt with h5 | h5
        · rw [← h5, zero_mul] at h3
          exact absurd h3 (lt_irrefl 0)
        · exact h5
      have h6 : 0 < a j i := by
        have := double_pos_of (div_nonneg (h.nonneg j i) hs0.le) h5
        rwa [div_pos_iff_of_pos_right hs0] at this
      obtain ⟨A1, -, b1, c1⟩ := h.supp j hj' i hi' h6
      obtain ⟨A2, -, b2, c2⟩ := h.supp i hi' k hk' h4
      obtain ⟨B, hB, hnd, hsub⟩ := exists_nodup (pathVia_append.2 ⟨c1, c2⟩)
      refine ⟨B, hnd, fun m hm => ?_, hB⟩
      have := hsub m hm
      rw [List.mem_append, List.mem_cons] at this
      rcases this with h | h | h
      · have := b1 m h
        omega
      · omega
      · have := b2 m h
        omega
    · obtain ⟨A, h3, h4, h5⟩ := h.supp j hj' k hk' h2
      exact ⟨A, h3, fun m hm => (h4 m hm).trans (by omega), h5⟩
  · rcases Nat.lt_or_ge k i with h1 | h1
    · rw [gthStepF_before h1]
      exact h.cols k h1 j hj
    · obtain rfl : k = i := by omega
      rw [gthStepF_col hj]
      change (∀ A : List ℕ, _ → _ → _ → _ ≤ double (a j k / s)) ∧ (0 < double (a j k / s) → _)
      rw [mem_Ico] at hj
      have hj' : j ∈ Ico k n := mem_Ico.2 ⟨by omega, hj.2⟩
      have hk' : k ∈ Ico k n := mem_Ico.2 ⟨le_rfl, by omega⟩
      refine ⟨fun A h2 h3 h4 => ?_, fun h2 => ?_⟩
      · have h5 := h.path j hj' k hk' A h2 h3 h4
        have hlen := length_le_of_lt h2 h3
        have hexp := exponent_le (d := d) (show A.length + 1 ≤ n by omega)
        have e : pathBound d A.length / 2 = 1 / 2 ^ (d * (A.length + 1) + A.length + 1) := by
          unfold pathBound
          rw [div_div, ← pow_succ]
        rw [e]
        refine le_double_pow (by omega) ?_
        rw [← e]
        exact (div_le_div_of_nonneg_right h5 (by norm_num)).trans (div_le_div_of_nonneg_left (h.nonneg j k) hs0 hs2)
      · have := double_pos_of (div_nonneg (h.nonneg j k) hs0.le) h2
        rw [div_pos_iff_of_pos_right hs0] at this
        exact h.supp j hj' k hk' this

theorem gthForwardF_eq {E : ℕ → ℕ → Prop} {n d : ℕ} (hn : (d + 1) * n ≤ 500)
    (hE : ∀ i, i + 1 < n → ∃ A k, i < k ∧ k < n ∧ PathVia E i A k ∧ A.Nodup ∧ ∀ m ∈ A, m < i) :
    ∀ (m i : ℕ) (a : ℕ → ℕ → ℚ), i + m + 1 = n → Stage E n d i a →
      gthForwardF (Arith.rounded double) n m i a = gthForwardF (Arith.rounded binary64) n m i a ∧
      (gthForwardF (Arith.rounded double) n m i a).1 = n ∧
      Stage E n d (n - 1) (gthForwardF (Arith.rounded double) n m i a).2 := by
  intro m
  induction m with
  | zero =>
    intro i a hi h
    refine ⟨rfl, rfl, ?_⟩
    change Stage E n d (n - 1) a
    rwa [show n - 1 = i by omega]
  | succ m ih =>
    intro i a hi h
    obtain ⟨s, hse⟩ : ∃ s, s = (Arith.rounded double).sum ((slice (i + 1) n).map (a i)) := ⟨_, rfl⟩
    obtain ⟨h1, h2, h3, h4⟩ := h.scale (by omega) hn (hE i (by omega)) hse
    have h5 := ih (i + 1) _ (by omega) (h.step (by omega) hn h2 h3 h4)
    unfold gthForwardF
    dsimp only
    rw [← hse, ← h1, if_neg (not_le.2 h2), if_neg (not_le.2 h2), ← h.step_eq (by omega) hn h2 h3]
    exact h5

/-! ## The substitution -/

theorem pathVia_lt {E : ℕ → ℕ → Prop} {n : ℕ} (hE : ∀ j k, E j k → j < n ∧ k < n) {A : List ℕ} {j k : ℕ}
    (h : PathVia E j A k) : ∀ m ∈ A, m < n := by
  induction A generalizing j with
  | nil => simp
  | cons a A ih =>
    intro m hm
    rcases List.mem_cons.1 hm with rfl | hm
    · exact (hE _ _ h.1).2
    · exact ih h.2 m hm

theorem split_last (p : ℕ → Prop) : ∀ A : List ℕ, (∀ y ∈ A, ¬ p y) ∨
    ∃ A1 l A2, A = A1 ++ l :: A2 ∧ p l ∧ ∀ y ∈ A2, ¬ p y := by
  classical
  intro A
  induction A with
  | nil => exact Or.inl (by simp)
  | cons a A ih =>
    rcases ih with h | ⟨A1, l, A2, rfl, h1, h2⟩
    · by_cases ha : p a
      · exact Or.inr ⟨[], a, A, rfl, ha, h⟩
      · left
        intro y hy
        rcases List.mem_cons.1 hy with rfl | hy
        · exact ha
        · exact h y hy
    · exact Or.inr ⟨a :: A1, l, A2, rfl, h1, h2⟩

/-- What is known when the positions from `m` on are computed. -/
structure Back (E : ℕ → ℕ → Prop) (n d m : ℕ) (x : ℕ → ℚ) : Prop where
  last : x (n - 1) = 1
  nonneg : ∀ l, 0 ≤ x l
  path : ∀ l, m ≤ l → l < n - 1 → ∀ A : List ℕ, A.Nodup → n - 1 ∉ A → l ∉ A → PathVia E (n - 1) A l →
    1 / 2 ^ ((d + 2) * (A.length + 1)) ≤ x l

theorem length_lt_of_avoiding {A : List ℕ} {n l : ℕ} (hA : A.Nodup) (h : ∀ m ∈ A, m < n) (hl : l < n) (hlA : l ∉ A) :
    A.length + 1 ≤ n := by
  have := length_le_of_lt (A := l :: A) (List.nodup_cons.2 ⟨hlA, hA⟩) (i := n) fun m hm => by
    rcases List.mem_cons.1 hm with rfl | hm
    · exact hl
    · exact h m hm
  simpa using this

theorem Back.lower {E : ℕ → ℕ → Prop} {n d m : ℕ} {x : ℕ → ℚ} (h : Back E n d m x)
    (hE : ∀ j k, E j k → j < n ∧ k < n) (hc : ∀ j k, j < n → k < n → j ≠ k → ∃ A, PathVia E j A k) {l : ℕ}
    (hl : m ≤ l) (hln : l < n) : 1 / 2 ^ ((d + 2) * n) ≤ x l := by
  by_cases hl1 : l = n - 1
  · rw [hl1, h.last, div_le_one (by positivity)]
    exact one_le_pow₀ (by norm_num)
  · obtain ⟨A, hA⟩ := hc (n - 1) l (by omega) hln (Ne.symm hl1)
    obtain ⟨B, hB, hnd, -, h1, h2⟩ := exists_avoiding hA
    refine le_trans ?_ (h.path l hl (by omega) B hnd h1 h2 hB)
    have := length_lt_of_avoiding hnd (pathVia_lt hE hB) hln h2
    exact one_div_le_one_div_of_le (by positivity) (pow_le_pow_right₀ (by norm_num) (Nat.mul_le_mul_left _ this))

theorem half_bound {d L : ℕ} : pathBound d L / 2 = 1 / 2 ^ ((d + 1) * (L + 1)) := by
  unfold pathBound
  rw [div_div, ← pow_succ]
  congr 2
  ring

theorem back_step {E : ℕ → ℕ → Prop} {n d m : ℕ} {a : ℕ → ℕ → ℚ} {x : ℕ → ℚ} (hn : (d + 2) * n ≤ 500)
    (hE : ∀ j k, E j k → j < n ∧ k < n) (hc : ∀ j k, j < n → k < n → j ≠ k → ∃ A, PathVia E j A k)
    (ha : Stage E n d (n - 1) a) (hm : m + 1 < n) (h : Back E n d (m + 1) x) :
    (Arith.rounded double).dot ((slice (m + 1) n).map fun l => (x l, a l m)) =
      (Arith.rounded binary64).dot ((slice (m + 1) n).map fun l => (x l, a l m)) ∧
    Back E n d m (Function.update x m ((Arith.rounded double).dot ((slice (m + 1) n).map fun l => (x l, a l m)))) := by
  have hdn : (d + 1) * n ≤ 500 := le_trans (Nat.mul_le_mul_right n (by omega)) hn
  have hnn : ∀ q ∈ (slice (m + 1) n).map fun l => (x l, a l m), 0 ≤ q.1 * q.2 := fun q hq => by
    obtain ⟨l, -, rfl⟩ := List.mem_map.1 hq
    exact mul_nonneg (h.nonneg l) (ha.nonneg l m)
  constructor
  · refine dot_double_eq fun q hq => ?_
    obtain ⟨l, hl, rfl⟩ := List.mem_map.1 hq
    rw [mem_slice] at hl
    have hl' := mem_Ico.1 hl
    obtain ⟨c1, c2⟩ := ha.cols m (by omega) l hl
    change NoTiny (x l * a l m)
    rcases (ha.nonneg l m).eq_or_lt with h0 | h0
    · rw [← h0, mul_zero]
      exact Or.inl rfl
    · obtain ⟨A, h1, h2, h3⟩ := c2 h0
      have hlen := length_le_of_lt h1 h2
      have h4 := (pathBound_ge (d := d) (show A.length + 1 ≤ n by omega)).trans (c1 A h1 h2 h3)
      refine noTiny_of_pow (t := (d + 2) * n + (d + 1) * n) (by omega) ?_
      rw [show (1 : ℚ) / 2 ^ ((d + 2) * n + (d + 1) * n) = 1 / 2 ^ ((d + 2) * n) * (1 / 2 ^ ((d + 1) * n)) by
        rw [pow_add, div_mul_div_comm, one_mul]]
      exact mul_le_mul (h.lower hE hc hl'.1 hl'.2) h4 (by positivity) (h.nonneg l)
  · refine ⟨?_, fun l => ?_, fun l hl hln A hA h1 h2 hp => ?_⟩
    · rw [Function.update_of_ne (by omega)]
      exact h.last
    · by_cases hlm : l = m
      · rw [hlm, Function.update_self]
        exact double_gradual.dot_nonneg _ fun q hq => by
          obtain ⟨l, -, rfl⟩ := List.mem_map.1 hq
          exact ⟨h.nonneg l, ha.nonneg l m⟩
      · rw [Function.update_of_ne hlm]
        exact h.nonneg l
    · by_cases hlm : l = m
      · subst hlm
        rw [Function.update_self]
        have hAn := pathVia_lt hE hp
        have hlen := length_lt_of_avoiding hA hAn (show l < n by omega) h2
        have hexp : (d + 2) * (A.length + 1) ≤ (d + 2) * n := Nat.mul_le_mul_left _ hlen
        rcases split_last (fun y => l < y) A with h3 | ⟨A1, y, A2, rfl, h3, h4⟩
        · refine dot_double_ge (by omega) hnn (q := (x (n - 1), a (n - 1) l))
            (List.mem_map_of_mem (f := fun k => (x k, a k l)) (mem_slice.2 (mem_Ico.2 ⟨by omega, by omega⟩))) ?_
          change _ ≤ x (n - 1) * a (n - 1) l
          rw [h.last, one_mul]
          have h4 := (ha.cols l (by omega) (n - 1) (mem_Ico.2 ⟨by omega, by omega⟩)).1 A hA (fun y hy => by
            have h5 := h3 y hy
            have h6 : y ≠ l := fun e => h2 (e ▸ hy)
            omega) hp
          rw [half_bound] at h4
          exact le_trans (one_div_le_one_div_of_le (by positivity)
            (pow_le_pow_right₀ (by norm_num) (Nat.mul_le_mul_right _ (by omega)))) h4
        · have hnd := List.nodup_append.1 hA
          have hnd2 := List.nodup_cons.1 hnd.2.1
          obtain ⟨p1, p2⟩ := pathVia_append.1 hp
          have hyn : y < n := hAn y (by simp)
          have hy1 : y ≠ n - 1 := fun e => h1 (by simp [e])
          refine dot_double_ge (by omega) hnn (q := (x y, a y l))
            (List.mem_map_of_mem (f := fun k => (x k, a k l)) (mem_slice.2 (mem_Ico.2 ⟨by omega, by omega⟩))) ?_
          change _ ≤ x y * a y l
          have h5 := h.path y (by omega) (by omega) A1 hnd.1 (fun e => h1 (by simp [e]))
            (fun e => hnd.2.2 y e y List.mem_cons_self rfl) p1
          have h6 := (ha.cols l (by omega) y (mem_Ico.2 ⟨by omega, by omega⟩)).1 A2 hnd2.2 (fun z hz => by
            have h7 := h4 z hz
            have h8 : z ≠ l := fun e => h2 (by rw [← e]; simp [hz])
            omega) p2
          rw [half_bound] at h6
          refine le_trans ?_ (mul_le_mul h5 h6 (by positivity) (h.nonneg y))
          rw [div_mul_div_comm, one_mul, ← pow_add]
          refine one_div_le_one_div_of_le (by positivity) (pow_le_pow_right₀ (by norm_num) ?_)
          rw [List.length_append, List.length_cons]
          have : (d + 1) * (A2.length + 1) ≤ (d + 2) * (A2.length + 1) := Nat.mul_le_mul_right _ (by omega)
          have e : (d + 2) * (A1.length + (A2.length + 1) + 1) =
            (d + 2) * (A1.length + 1) + (d + 2) * (A2.length + 1) := by ring
          omega
      · rw [Function.update_of_ne hlm]
        exact h.path l (by omega) hln A hA h1 h2 hp

theorem gthBackF_eq {E : ℕ → ℕ → Prop} {n d : ℕ} {a : ℕ → ℕ → ℚ} (hn : (d + 2) * n ≤ 500)
    (hE : ∀ j k, E j k → j < n ∧ k < n) (hc : ∀ j k, j < n → k < n → j ≠ k → ∃ A, PathVia E j A k)
    (ha : Stage E n d (n - 1) a) : ∀ (m : ℕ) (x : ℕ → ℚ), m < n → Back E n d m x →
      gthBackF (Arith.rounded double) n a m x = gthBackF (Arith.rounded binary64) n a m x ∧
      Back E n d 0 (gthBackF (Arith.rounded double) n a m x) := by
  intro m
  induction m with
  | zero => exact fun x _ h => ⟨rfl, h⟩
  | succ m ih =>
    intro x hm h
    obtain ⟨h1, h2⟩ := back_step hn hE hc ha hm h
    obtain ⟨h3, h4⟩ := ih _ (by omega) h2
    unfold gthBackF
    rw [← h1]
    exact ⟨h3, h4⟩

/-! ## The quotients -/

theorem balanced_path {n d : ℕ} {a : ℕ → ℕ → ℚ} {x : ℕ → ℚ} (hx : ∀ k < n, 0 < x k) (ha : ∀ j k, 0 ≤ a j k)
    (hrow : ∀ k < n, ∑ l ∈ Ico 0 n, a k l ≤ 5 / 4) (hinv : Balanced (Ico 0 n) a x)
    (hE : ∀ j k, 0 < a j k → j < n ∧ k < n) (hd : ∀ j k, 0 < a j k → 1 / 2 ^ d ≤ a j k) {A : List ℕ} {j k : ℕ}
    (h : PathVia (fun j k => 0 < a j k) j A k) : x j * (1 / 2 ^ ((d + 1) * (A.length + 1))) ≤ x k := by
  have one : ∀ j k, 0 < a j k → x j * (1 / 2 ^ (d + 1)) ≤ x k := fun j k hjk => by
    obtain ⟨h1, h2⟩ := hE j k hjk
    have h3 : x j * (1 / 2 ^ d) ≤ ∑ l ∈ Ico 0 n, x l * a l k := by
      refine (mul_le_mul_of_nonneg_left (hd j k hjk) (hx j h1).le).trans ?_
      exact single_le_sum (f := fun l => x l * a l k)
        (fun l hl => mul_nonneg (hx l (mem_Ico.1 hl).2).le (ha l k)) (mem_Ico.2 ⟨by omega, h1⟩)
    rw [hinv k (mem_Ico.2 ⟨by omega, h2⟩)] at h3
    have h4 := mul_le_mul_of_nonneg_left (hrow k h2) (hx k h2).le
    rw [pow_succ, ← div_div]
    have := (hx k h2).le
    linarith
  induction A generalizing j with
  | nil =>
    rw [List.length_nil, zero_add, mul_one]
    exact one j k h
  | cons m A ih =>
    refine le_trans ?_ (ih h.2)
    have := mul_le_mul_of_nonneg_right (one j m h.1) (show (0 : ℚ) ≤ 1 / 2 ^ ((d + 1) * (A.length + 1)) by positivity)
    refine le_trans (le_of_eq ?_) this
    rw [List.length_cons, mul_add (d + 1) (A.length + 1) 1, mul_one, pow_add]
    field_simp

theorem pathVia_of_irreducible {n : ℕ} {P : Matrix (Fin n) (Fin n) ℚ} (hirr : Irreducible P) {j k : ℕ} (hj : j < n)
    (hk : k < n) (hjk : j ≠ k) : ∃ A, PathVia (fun a b => 0 < toArray P a b) j A k := by
  refine (pathVia_of_reach (hirr ⟨j, hj⟩ ⟨k, hk⟩)).resolve_left fun e => hjk ?_
  exact congrArg Fin.val e

theorem toArray_pos_lt {n : ℕ} {P : Matrix (Fin n) (Fin n) ℚ} {j k : ℕ} (h : 0 < toArray P j k) : j < n ∧ k < n := by
  by_contra hc
  unfold toArray at h
  rw [dif_neg hc] at h
  exact lt_irrefl _ h

theorem rateBlock_toArray {n : ℕ} {P : Matrix (Fin n) (Fin n) ℚ} (h0 : ∀ i j, 0 ≤ P i j) (hirr : Irreducible P) :
    RateBlock n 0 (toArray P) := by
  refine ⟨?_, ?_⟩
  · intro j hj k hk
    rw [mem_Ico] at hj hk
    exact le_of_le_of_eq (h0 ⟨j, hj.2⟩ ⟨k, hk.2⟩) (toArray_apply P ⟨j, hj.2⟩ ⟨k, hk.2⟩).symm
  · rintro S ⟨j, hj, hS⟩ hcl k hk
    rw [mem_Ico] at hj hk
    refine closedSet_reach (P := fun i j => P i j) (S := fun i => S i.val) ?_ hS (hirr ⟨j, hj.2⟩ ⟨k, hk.2⟩)
    intro a b ha hab
    refine hcl a (by simp) b (by simp) ha ?_
    rw [toArray_apply]
    exact hab

theorem sum_toArray {n : ℕ} (P : Matrix (Fin n) (Fin n) ℚ) {j : ℕ} (hj : j < n) :
    ∑ k ∈ Ico 0 n, toArray P j k = ∑ k, P ⟨j, hj⟩ k := by
  rw [Nat.Ico_zero_eq_range, Finset.sum_range]
  exact sum_congr rfl fun k _ => toArray_apply P ⟨j, hj⟩ k

theorem balanced_lower {n d : ℕ} (hn : 1 ≤ n) {a : ℕ → ℕ → ℚ} {x : ℕ → ℚ} (hpos : ∀ k < n, 0 < x k)
    (ha : ∀ j k, 0 ≤ a j k) (hrow : ∀ k < n, ∑ l ∈ Ico 0 n, a k l ≤ 5 / 4) (hinv : Balanced (Ico 0 n) a x)
    (hsum : ∑ k ∈ range n, x k = 1) (hE : ∀ j k, 0 < a j k → j < n ∧ k < n)
    (hd : ∀ j k, 0 < a j k → 1 / 2 ^ d ≤ a j k)
    (hc : ∀ j k, j < n → k < n → j ≠ k → ∃ A, PathVia (fun j k => 0 < a j k) j A k) {k : ℕ} (hk : k < n) :
    1 / 2 ^ ((d + 2) * n) ≤ x k := by
  have hn0 : (0 : ℚ) < n := by exact_mod_cast hn
  obtain ⟨j, hj, hjx⟩ : ∃ j < n, 1 / (n : ℚ) ≤ x j := by
    by_contra hc
    push Not at hc
    have : ∑ k ∈ range n, x k < ∑ k ∈ range n, 1 / (n : ℚ) :=
      sum_lt_sum_of_nonempty ⟨0, mem_range.2 (by omega)⟩ fun k hk => hc k (mem_range.1 hk)
    rw [hsum, sum_const, card_range, nsmul_eq_mul, mul_one_div_cancel hn0.ne'] at this
    exact lt_irrefl _ this
  have h2n : 1 / 2 ^ n ≤ x j := by
    refine le_trans (one_div_le_one_div_of_le hn0 ?_) hjx
    exact_mod_cast (Nat.lt_two_pow_self (n := n)).le
  have e : (1 : ℚ) / 2 ^ ((d + 2) * n) = 1 / 2 ^ n * (1 / 2 ^ ((d + 1) * n)) := by
    rw [div_mul_div_comm, one_mul, ← pow_add]
    congr 2
    ring
  by_cases hjk : j = k
  · rw [← hjk]
    refine le_trans ?_ h2n
    exact one_div_le_one_div_of_le (by positivity) (pow_le_pow_right₀ (by norm_num) (Nat.le_mul_of_pos_left n (by omega)))
  · obtain ⟨A, hA⟩ := hc j k hj hk hjk
    obtain ⟨B, hB, hnd, -, h1, h2⟩ := exists_avoiding hA
    have hlen := length_lt_of_avoiding hnd (pathVia_lt hE hB) hk h2
    refine le_trans ?_ (balanced_path (d := d) hpos ha hrow hinv hE hd hB)
    rw [e]
    refine mul_le_mul h2n ?_ (by positivity) (hpos j hj).le
    exact one_div_le_one_div_of_le (by positivity) (pow_le_pow_right₀ (by norm_num) (Nat.mul_le_mul_left _ hlen))

theorem binary64_sound : (Arith.rounded binary64).Sound (1 / 2 ^ 53) :=
  rounded_sound (by norm_num) (by norm_num) binary64_near

/-- The algorithm computes the same numbers with and without underflow, and they are close to the balanced vector. -/
theorem gthSolveF_double {n d : ℕ} (h1 : 1 ≤ n) (hn : (d + 2) * n ≤ 500) {P : Matrix (Fin n) (Fin n) ℚ}
    (hP : ∀ i j, 0 ≤ P i j) (hrow : ∀ i, ∑ j, P i j ≤ 5 / 4) (hd : ∀ i j, 0 < P i j → 1 / 2 ^ d ≤ P i j)
    (hirr : Irreducible P) :
    (gthSolveF (Arith.rounded double) n (toArray P)).1 = n ∧
    (gthSolveF (Arith.rounded binary64) n (toArray P)).1 = n ∧
    (∀ k < n, (gthSolveF (Arith.rounded double) n (toArray P)).2 k =
      (gthSolveF (Arith.rounded binary64) n (toArray P)).2 k) ∧
    ∃ x : ℕ → ℚ, (∀ k < n, 0 < x k) ∧ ∑ k ∈ range n, x k = 1 ∧ Balanced (Ico 0 n) (toArray P) x ∧
      ∀ k < n, 0 < (gthSolveF (Arith.rounded double) n (toArray P)).2 k ∧
        |(gthSolveF (Arith.rounded double) n (toArray P)).2 k - x k| ≤ 6 * (n : ℚ) ^ 3 / 2 ^ 53 * x k := by
  have hdn : (d + 1) * n ≤ 500 := le_trans (Nat.mul_le_mul_right n (by omega)) hn
  have hn250 : n ≤ 250 := by
    have : 2 * n ≤ (d + 2) * n := Nat.mul_le_mul_right n (by omega)
    omega
  have hE : ∀ j k, 0 < toArray P j k → j < n ∧ k < n := fun j k h => toArray_pos_lt h
  have hc : ∀ j k, j < n → k < n → j ≠ k → ∃ A, PathVia (fun j k => 0 < toArray P j k) j A k :=
    fun j k hj hk hjk => pathVia_of_irreducible hirr hj hk hjk
  have h0 : ∀ j k, 0 ≤ toArray P j k := fun j k => by
    unfold toArray
    split_ifs
    · exact hP _ _
    · exact le_rfl
  have hrow' : ∀ j < n, ∑ k ∈ Ico 0 n, toArray P j k ≤ 5 / 4 := fun j hj => by
    rw [sum_toArray P hj]
    exact hrow _
  have hd' : ∀ j k, 0 < toArray P j k → 1 / 2 ^ d ≤ toArray P j k := fun j k h => by
    have hlt := hE j k h
    unfold toArray at h ⊢
    rw [dif_pos hlt] at h ⊢
    exact hd _ _ h
  have hstage : Stage (fun j k => 0 < toArray P j k) n d 0 (toArray P) := by
    refine ⟨h0, fun j hj => ?_, fun j hj k hk A _ hA hp => ?_, fun j hj k hk h => ⟨[], List.nodup_nil, by simp, h⟩,
      fun k hk => absurd hk (by omega)⟩
    · have := hrow' j (mem_Ico.1 hj).2
      rw [Nat.cast_zero, zero_div, add_zero]
      exact this
    · cases A with
      | cons m A => exact absurd (hA m List.mem_cons_self) (by omega)
      | nil =>
        change 0 < toArray P j k at hp
        unfold pathBound
        simp only [List.length_nil, zero_add, mul_one, add_zero]
        exact hd' j k hp
  obtain ⟨f1, f2, f3⟩ := gthForwardF_eq hdn (fun i hi => by
    obtain ⟨A, hA⟩ := hc i (n - 1) (by omega) (by omega) (by omega)
    obtain ⟨B, k, hk, hB, hnd, hlt⟩ := exists_simple ⟨A, n - 1, show i < n - 1 by omega, hA⟩
    refine ⟨B, k, hk, ?_, hB, hnd, hlt⟩
    rcases List.eq_nil_or_concat B with rfl | ⟨D, b, rfl⟩
    · exact (hE _ _ hB).2
    · rw [List.concat_eq_append, pathVia_append] at hB
      exact (hE _ _ hB.2).2) (n - 1) 0 (toArray P) (by omega) hstage
  -- the balanced vector
  have hR := rateBlock_toArray hP hirr
  obtain ⟨z, hz, hzb⟩ := hR.exists_balanced (n - 1) 0 (by omega)
  have hzs : 0 < ∑ k ∈ range n, z k :=
    sum_pos (fun k hk => hz k (mem_Ico.2 ⟨by omega, mem_range.1 hk⟩)) ⟨0, mem_range.2 (by omega)⟩
  obtain ⟨y, hy⟩ : ∃ y : ℕ → ℚ, y = fun k => (1 / ∑ k ∈ range n, z k) * z k := ⟨_, rfl⟩
  have hypos : ∀ k < n, 0 < y k := fun k hk => by
    rw [hy]
    exact mul_pos (one_div_pos.2 hzs) (hz k (mem_Ico.2 ⟨by omega, hk⟩))
  have hysum : ∑ k ∈ range n, y k = 1 := by
    rw [hy, ← mul_sum, one_div_mul_cancel hzs.ne']
  have hyb : Balanced (Ico 0 n) (toArray P) y := by
    rw [hy]
    exact hzb.smul _
  obtain ⟨g1, g⟩ := gthSolveF_near binary64_sound h1 hR hypos hyb hysum
  have hf : (1 / (1 - 1 / 2 ^ 53 : ℚ)) ^ (3 * n ^ 3) ≤ 1 + 6 * (n : ℚ) ^ 3 / 2 ^ 53 ∧
      (1 / (1 - 1 / 2 ^ 53 : ℚ)) ^ (3 * n ^ 3) ≤ 2 := by
    have hn3 : ((3 * n ^ 3 : ℕ) : ℚ) ≤ 3 * 250 ^ 3 := by
      exact_mod_cast Nat.mul_le_mul_left 3 (Nat.pow_le_pow_left hn250 3)
    have h2 : ((3 * n ^ 3 : ℕ) : ℚ) * (1 / 2 ^ 53) ≤ 1 / 2 :=
      (mul_le_mul_of_nonneg_right hn3 (by norm_num)).trans (by norm_num)
    have := factor_pow_le (u := (1 / 2 ^ 53 : ℚ)) (by norm_num) (by norm_num) (3 * n ^ 3) h2
    refine ⟨this.trans (le_of_eq ?_), by linarith⟩
    push_cast
    ring
  have heq : ∀ k < n, (gthSolveF (Arith.rounded double) n (toArray P)).2 k =
      (gthSolveF (Arith.rounded binary64) n (toArray P)).2 k := by
    intro k hk
    obtain ⟨-, g2⟩ := g k hk
    have hlow := balanced_lower h1 hypos h0 hrow' hyb hysum hE hd' hc hk
    have hb : Back (fun j k => 0 < toArray P j k) n d (n - 1) (fun k => if k = n - 1 then 1 else 0) := by
      refine ⟨if_pos rfl, fun l => ?_, fun l h1 h2 => absurd h1 (by omega)⟩
      split_ifs <;> norm_num
    obtain ⟨b1, b2⟩ := gthBackF_eq hn hE hc f3 (n - 1) _ (by omega) hb
    unfold gthSolveF at g2 ⊢
    dsimp only at g2 ⊢
    rw [← f1, f2] at g2 ⊢
    rw [← b1] at g2 ⊢
    obtain ⟨x, hx⟩ : ∃ x, x = gthBackF (Arith.rounded double) n
      (gthForwardF (Arith.rounded double) n (n - 1) 0 (toArray P)).2 (n - 1) fun k => if k = n - 1 then 1 else 0 :=
      ⟨_, rfl⟩
    rw [← hx] at b2 g2 ⊢
    have hs : (Arith.rounded double).sum ((slice 0 n).map x) = (Arith.rounded binary64).sum ((slice 0 n).map x) := by
      refine sum_double_eq fun y hy => ?_
      obtain ⟨l, hl, rfl⟩ := List.mem_map.1 hy
      rw [mem_slice, mem_Ico] at hl
      exact noTiny_of_pow (by omega) (b2.lower hE hc (by omega) hl.2)
    rw [hs]
    obtain ⟨s, hse⟩ : ∃ s, s = (Arith.rounded binary64).sum ((slice 0 n).map x) := ⟨_, rfl⟩
    rw [← hse] at g2 ⊢
    change double (x k / s) = binary64 (x k / s)
    change Near _ (binary64 (x k / s)) _ at g2
    have hs0 : 0 ≤ s := by
      rw [hse, ← hs]
      refine double_sum_nonneg fun y hy => ?_
      obtain ⟨l, -, rfl⟩ := List.mem_map.1 hy
      exact b2.nonneg l
    have hq0 : 0 ≤ x k / s := div_nonneg (b2.nonneg k) hs0
    have h53 : 1 / 2 ^ 53 * (x k / s) ≤ 1 * (x k / s) := mul_le_mul_of_nonneg_right (by norm_num) hq0
    have hnear := abs_le.1 (binary64_near (x k / s))
    rw [abs_of_nonneg hq0] at hnear
    have hbn : binary64 (x k / s) ≤ 2 * (x k / s) := by linarith [hnear.2]
    have hb0 : 0 ≤ binary64 (x k / s) := by linarith [hnear.1]
    have h4 : 1 / 2 ^ ((d + 2) * n) ≤ 4 * (x k / s) := by
      have h5 := hlow.trans g2.2
      have h6 := mul_le_mul_of_nonneg_right hf.2 hb0
      linarith
    refine NoTiny.eq (noTiny_of_pow (t := (d + 2) * n + 2) (by omega) ?_)
    rw [pow_add, ← div_div]
    linarith
  refine ⟨f2, g1, heq, y, hypos, hysum, hyb, fun k hk => ?_⟩
  obtain ⟨g2, g3⟩ := g k hk
  rw [heq k hk]
  refine ⟨g2, (g3.relative (one_le_pow₀ binary64_sound.one_le) (hypos k hk).le).trans
    (mul_le_mul_of_nonneg_right ?_ (hypos k hk).le)⟩
  linarith [hf.1]

/-! ## `pi` -/

theorem subMatrix_irreducible {n : ℕ} {P : Matrix (Fin n) (Fin n) ℚ} {C : List (Fin n)} (hnd : C.Nodup)
    (hcl : ClosedSet P (· ∈ C)) (hcomm : ∀ i ∈ C, ∀ j ∈ C, Reach P i j) : Irreducible (subMatrix P C) := by
  intro a b
  obtain ⟨b', hb', hr⟩ := reach_subMatrix hcl (hcomm _ (List.get_mem C a) _ (List.get_mem C b)) a rfl
  rwa [hnd.injective_get hb'] at hr

theorem subMatrix_row {n : ℕ} {P : Matrix (Fin n) (Fin n) ℚ} (h0 : ∀ i j, 0 ≤ P i j) (hrow : ∀ i, ∑ j, P i j ≤ 5 / 4)
    {C : List (Fin n)} (hnd : C.Nodup) (a : Fin C.length) : ∑ b, subMatrix P C a b ≤ 5 / 4 := by
  refine le_trans ?_ (hrow (C.get a))
  have e : ∑ b, subMatrix P C a b = ∑ j with j ∈ C, P (C.get a) j := sum_get hnd fun j => P (C.get a) j
  rw [e]
  exact sum_le_sum_of_subset_of_nonneg (filter_subset _ _) fun j _ _ => h0 _ _

theorem AcceptedMatrix.row {n : ℕ} {P : Matrix (Fin n) (Fin n) ℚ} (h : AcceptedMatrix P) (i : Fin n) :
    ∑ j, P i j ≤ 5 / 4 := by
  have := (abs_le.1 (h.2.2 i)).2
  norm_num at this ⊢
  linarith

theorem irreducible_of_isIrreducible {c : MC ℚ} {sccs : List (List (Fin c.n))} (h : IsClasses c.p sccs)
    (hi : isIrreducible c sccs = true) : Irreducible c.p := by
  have hk := h.communicatingIdx
  unfold isIrreducible communicatingClasses at hi
  rw [List.length_map, beq_iff_eq] at hi
  intro i j
  obtain ⟨C, hC⟩ := List.length_eq_one_iff.1 hi
  obtain ⟨A, hA, hi⟩ := hk.cover i
  obtain ⟨B, hB, hj⟩ := hk.cover j
  rw [hC, List.mem_singleton] at hA hB
  rw [hA] at hi
  rw [hB] at hj
  exact ((hk.mem_iff C (by rw [hC]; simp) i hi j).1 hj).1

/-- The vector that `pi` approximates: a distribution on the set of states `C` whose flow into every state is the flow
out of the state. For a stochastic matrix these are the stationary distributions (`balancedOn_stationary`). -/
structure BalancedOn {n : ℕ} (P : Matrix (Fin n) (Fin n) ℚ) (C : List (Fin n)) (x : Fin n → ℚ) : Prop where
  pos : ∀ k, 0 < x k ↔ k ∈ C
  nonneg : ∀ k, 0 ≤ x k
  sum : ∑ k, x k = 1
  flow : ∀ k, ∑ l, x l * P l k = x k * ∑ l, P k l

theorem balancedOn_stationary {n : ℕ} {P : Matrix (Fin n) (Fin n) ℚ} (hP : IsStochastic P) {C : List (Fin n)}
    {x : Fin n → ℚ} (h : BalancedOn P C x) : IsStationary P x :=
  ⟨⟨h.nonneg, h.sum⟩, fun k => by rw [h.flow k, hP.2 k, mul_one]⟩

/-- A vector in double arithmetic has the right support and small relative errors. -/
def CloseOn {n : ℕ} (P : Matrix (Fin n) (Fin n) ℚ) (C : List (Fin n)) (x' : Fin n → ℚ) : Prop :=
  ∃ x, BalancedOn P C x ∧ ∀ k, (0 < x' k ↔ k ∈ C) ∧ |x' k - x k| ≤ 6 * (n : ℚ) ^ 3 / 2 ^ 53 * x k

theorem class_close {n d : ℕ} {P : Matrix (Fin n) (Fin n) ℚ} (hP : ∀ i j, 0 ≤ P i j) (hrow : ∀ i, ∑ j, P i j ≤ 5 / 4)
    (hd : ∀ i j, 0 < P i j → 1 / 2 ^ d ≤ P i j) (hn : (d + 2) * n ≤ 500) {C : List (Fin n)} (hnd : C.Nodup)
    (hne : C ≠ []) (hcl : ClosedSet P (· ∈ C)) (hcomm : ∀ i ∈ C, ∀ j ∈ C, Reach P i j) :
    CloseOn P C fun i => if i ∈ C then
      (gthSolveF (Arith.rounded double) C.length (toArray (subMatrix P C))).2 (C.idxOf i) else 0 := by
  have hlen : 1 ≤ C.length := List.length_pos_iff.2 hne
  have hle : C.length ≤ n := by simpa using hnd.length_le_card
  obtain ⟨-, -, -, x, x1, x2, x3, x4⟩ := gthSolveF_double (P := subMatrix P C) hlen ((Nat.mul_le_mul_left _ hle).trans hn)
    (fun a b => hP _ _) (subMatrix_row hP hrow hnd) (fun a b hab => hd _ _ hab) (subMatrix_irreducible hnd hcl hcomm)
  obtain ⟨y, hy⟩ : ∃ y : Fin n → ℚ, y = fun i => if i ∈ C then x (C.idxOf i) else 0 := ⟨_, rfl⟩
  have hyin : ∀ i ∈ C, y i = x (C.idxOf i) := fun i hi => by rw [hy]; exact if_pos hi
  have hyout : ∀ i, i ∉ C → y i = 0 := fun i hi => by rw [hy]; exact if_neg hi
  have hidx : ∀ i ∈ C, C.idxOf i < C.length := fun i hi => List.idxOf_lt_length_iff.2 hi
  have hypos : ∀ k, 0 < y k ↔ k ∈ C := fun k => by
    constructor
    · intro h
      by_contra hk
      rw [hyout k hk] at h
      exact lt_irrefl _ h
    · intro hk
      rw [hyin k hk]
      exact x1 _ (hidx k hk)
  have hget : ∀ a : Fin C.length, y (C.get a) = x a := fun a => by
    rw [hyin _ (List.get_mem C a), List.get_eq_getElem, List.Nodup.idxOf_getElem hnd]
  have hsum : ∀ g : Fin n → ℚ, ∑ i, y i * g i = ∑ a : Fin C.length, x a * g (C.get a) := by
    intro g
    have e1 : ∑ i, y i * g i = ∑ i with i ∈ C, y i * g i := by
      rw [sum_filter]
      refine sum_congr rfl fun i _ => ?_
      split
      · rfl
      · next hi => rw [hyout i hi, zero_mul]
    rw [e1, ← sum_get hnd fun i => y i * g i]
    exact sum_congr rfl fun a _ => by rw [hget]
  refine ⟨y, ⟨hypos, fun k => ?_, ?_, fun k => ?_⟩, fun k => ?_⟩
  · by_cases hk : k ∈ C
    · exact ((hypos k).2 hk).le
    · exact (hyout k hk).ge
  · have := hsum fun _ => 1
    simp only [mul_one] at this
    rw [this, ← x2, Finset.sum_range]
  · by_cases hk : k ∈ C
    · obtain ⟨b, rfl⟩ := List.get_of_mem hk
      rw [hsum, hget]
      have h3 := x3 b (mem_Ico.2 ⟨by omega, b.2⟩)
      rw [sum_toArray _ b.2, Nat.Ico_zero_eq_range, Finset.sum_range] at h3
      have h4 : ∑ l, P (C.get b) l = ∑ l, subMatrix P C b l := by
        have e : ∑ l, subMatrix P C b l = ∑ j with j ∈ C, P (C.get b) j := sum_get hnd fun j => P (C.get b) j
        rw [e, sum_filter]
        refine sum_congr rfl fun l _ => ?_
        split
        · rfl
        · next hl =>
          by_contra h0
          exact hl (hcl _ _ (List.get_mem C b) (lt_of_le_of_ne (hP _ _) (Ne.symm h0)))
      rw [h4]
      refine Eq.trans (sum_congr rfl fun a _ => ?_) h3
      rw [toArray_apply]
      rfl
    · rw [hyout k hk, zero_mul]
      refine sum_eq_zero fun l _ => ?_
      by_cases hl : l ∈ C
      · have : P l k = 0 := by
          by_contra h0
          exact hk (hcl l k hl (lt_of_le_of_ne (hP l k) (Ne.symm h0)))
        rw [this, mul_zero]
      · rw [hyout l hl, zero_mul]
  · by_cases hk : k ∈ C
    · obtain ⟨h1, h2⟩ := x4 _ (hidx k hk)
      dsimp only
      rw [if_pos hk, hyin k hk]
      refine ⟨⟨fun _ => hk, fun _ => h1⟩, h2.trans (mul_le_mul_of_nonneg_right ?_ (x1 _ (hidx k hk)).le)⟩
      have : (C.length : ℚ) ^ 3 ≤ (n : ℚ) ^ 3 := pow_le_pow_left₀ (by positivity) (by exact_mod_cast hle) 3
      exact div_le_div_of_nonneg_right (by linarith) (by positivity)
    · dsimp only
      rw [if_neg hk, hyout k hk]
      simp [hk]

theorem whole_close {n d : ℕ} (h1 : 1 ≤ n) {P : Matrix (Fin n) (Fin n) ℚ} (hP : ∀ i j, 0 ≤ P i j)
    (hrow : ∀ i, ∑ j, P i j ≤ 5 / 4) (hd : ∀ i j, 0 < P i j → 1 / 2 ^ d ≤ P i j) (hn : (d + 2) * n ≤ 500)
    (hirr : Irreducible P) {C : List (Fin n)} (hC : ∀ k, k ∈ C) :
    CloseOn P C fun i => (gthSolveF (Arith.rounded double) n (toArray P)).2 i := by
  obtain ⟨-, -, -, x, x1, x2, x3, x4⟩ := gthSolveF_double h1 hn hP hrow hd hirr
  refine ⟨fun i => x i, ⟨fun k => ⟨fun _ => hC k, fun _ => x1 k k.2⟩, fun k => (x1 k k.2).le, ?_, fun k => ?_⟩,
    fun k => ⟨⟨fun _ => hC k, fun _ => (x4 k k.2).1⟩, (x4 k k.2).2⟩⟩
  · rw [← x2, Finset.sum_range]
  · have h3 := x3 k (mem_Ico.2 ⟨by omega, k.2⟩)
    rw [sum_toArray _ k.2, Nat.Ico_zero_eq_range, Finset.sum_range] at h3
    refine Eq.trans (sum_congr rfl fun a _ => ?_) h3
    rw [toArray_apply]

theorem recurrentIdx_irreducible {c : MC ℚ} (hn : 2 ≤ c.n) {sccs : List (List (Fin c.n))} (h : IsClasses c.p sccs)
    (hirr : Irreducible c.p) : ∃ C, recurrentIdx c.p sccs = [C] ∧ ∀ k, k ∈ C := by
  have hk := h.classesIdx
  obtain ⟨A, hA, hi0⟩ := hk.cover ⟨0, by omega⟩
  have hall : ∀ k, k ∈ A := fun k => (hk.mem_iff A hA _ hi0 k).2 ⟨hirr _ _, hirr _ _⟩
  have hAr : A ∈ recurrentIdx c.p sccs := by
    refine mem_recurrentIdx.2 ⟨hA, ?_⟩
    rw [Bool.eq_false_iff]
    intro hl
    exact (leaves_iff.1 hl) fun a _ b _ => hall b
  have huniq : ∀ B ∈ recurrentIdx c.p sccs, B = A := fun B hB => by
    have hB' := (mem_recurrentIdx.1 hB).1
    obtain ⟨b, hb⟩ := List.exists_mem_of_ne_nil B (hk.ne_nil B hB')
    exact hk.eq_of_mem hB' hA hb (hall b)
  have hndl : (recurrentIdx c.p sccs).Nodup := by
    unfold recurrentIdx
    exact (sortClasses_perm _).nodup_iff.2 (hk.nodup_list.filter _)
  refine ⟨A, ?_, hall⟩
  exact List.perm_singleton.1 ((List.perm_ext_iff_of_nodup hndl (List.nodup_singleton A)).2 fun B => by
    rw [List.mem_singleton]
    exact ⟨huniq B, fun e => e ▸ hAr⟩)

/-- C169 (partial). **The stationary distributions in double arithmetic.** For every matrix that the constructor
accepts, if the positive probabilities are at least `2 ^ -d` and there are at most `500 / (d + 2)` states, `pi` returns
one vector for each recurrent class. The states of the class have positive entries and the others are zero, and all the
entries have a relative error of at most `6 n ^ 3 / 2 ^ 53`, compared with the exact solution. Without a bound of this
kind the statement fails (`C152_pi_raises`). -/
theorem C169_accuracy_partial {c : MC ℚ} (hc : AcceptedMatrix c.p) {d : ℕ} (hn : (d + 2) * c.n ≤ 500)
    (hd : ∀ i j, 0 < c.p i j → 1 / 2 ^ d ≤ c.p i j) {sccs : List (List (Fin c.n))} (h : IsClasses c.p sccs) :
    ∃ l, piF (Arith.rounded double) c sccs = .ok l ∧
      List.Forall₂ (fun x' C => CloseOn c.p C x') l (recurrentIdx c.p sccs) := by
  have hk := h.classesIdx
  have hn1 : 1 ≤ c.n := by have := hc.1; omega
  have hP : ∀ i j, 0 ≤ c.p i j := fun i j => (hc.2.1 i j).1
  have hcls : ∀ C ∈ recurrentIdx c.p sccs, C.Nodup ∧ C ≠ [] ∧ ClosedSet c.p (· ∈ C) ∧
      ∀ i ∈ C, ∀ j ∈ C, Reach c.p i j := by
    intro C hC
    obtain ⟨m1, h2⟩ := mem_recurrentIdx.1 hC
    have m2 : ∀ a ∈ C, ∀ b, Edge c.p a b → b ∈ C := by
      by_contra hn
      rw [leaves_iff.2 hn] at h2
      cases h2
    exact ⟨hk.nodup C m1, hk.ne_nil C m1, fun a b ha hab => m2 a ha b hab,
      fun i hi j hj => ((hk.mem_iff C m1 i hi j).1 hj).1⟩
  by_cases hi : isIrreducible c sccs = true
  · have hirr := irreducible_of_isIrreducible h hi
    obtain ⟨e1, -⟩ := gthSolveF_double hn1 hn hP hc.row hd hirr
    obtain ⟨C, hC, hall⟩ := recurrentIdx_irreducible hc.1 h hirr
    refine ⟨[fun i => (gthSolveF (Arith.rounded double) c.n (toArray c.p)).2 i], ?_, ?_⟩
    · unfold piF
      rw [if_pos hi]
      dsimp only
      rw [if_pos e1]
      rfl
    · rw [hC]
      exact .cons (whole_close hn1 hP hc.row hd hn hirr hall) .nil
  · refine ⟨(recurrentIdx c.p sccs).map fun C i =>
      if i ∈ C then (gthSolveF (Arith.rounded double) C.length (toArray (subMatrix c.p C))).2 (C.idxOf i) else 0, ?_, ?_⟩
    · unfold piF
      rw [if_neg hi, mapM_R_eq_ok, List.forall₂_map_right_iff, List.forall₂_same]
      intro C hC
      obtain ⟨c1, c2, c3, c4⟩ := hcls C hC
      have hle : C.length ≤ c.n := by simpa using c1.length_le_card
      obtain ⟨e1, -⟩ := gthSolveF_double (P := subMatrix c.p C) (List.length_pos_iff.2 c2) ((Nat.mul_le_mul_left _ hle).trans hn)
        (fun a b => hP _ _) (subMatrix_row hP hc.row c1) (fun a b hab => hd _ _ hab) (subMatrix_irreducible c1 c3 c4)
      unfold piClassF
      dsimp only
      rw [if_pos e1]
      rfl
    · rw [List.forall₂_map_left_iff, List.forall₂_same]
      intro C hC
      obtain ⟨c1, c2, c3, c4⟩ := hcls C hC
      exact class_close hP hc.row hd hn c1 c2 c3 c4

/-- C169 (partial). For stochastic matrices the exact solution is the stationary distribution on the class. -/
theorem C169_stationary_partial {c : MC ℚ} (hc : c.Valid) {d : ℕ}
    (hn : (d + 2) * c.n ≤ 500) (hd : ∀ i j, 0 < c.p i j → 1 / 2 ^ d ≤ c.p i j) {sccs : List (List (Fin c.n))}
    (h : IsClasses c.p sccs) : ∃ l, piF (Arith.rounded double) c sccs = .ok l ∧
      List.Forall₂ (fun x' C => ∃ x, IsStationary c.p x ∧ (∀ k, 0 < x k ↔ k ∈ C) ∧
        ∀ k, (0 < x' k ↔ k ∈ C) ∧ |x' k - x k| ≤ 6 * (c.n : ℚ) ^ 3 / 2 ^ 53 * x k) l (recurrentIdx c.p sccs) := by
  obtain ⟨l, h1, h2⟩ := C169_accuracy_partial (c := c)
    ⟨hc.1, fun i j => ⟨hc.2.1.1 i j, (single_le_sum (fun k _ => hc.2.1.1 i k) (mem_univ j)).trans (hc.2.1.2 i).le⟩,
       fun i => by rw [hc.2.1.2 i, sub_self, abs_zero]; positivity⟩ hn hd h
  refine ⟨l, h1, h2.imp fun x' C h => ?_⟩
  obtain ⟨x, hx, hk⟩ := h
  exact ⟨x, balancedOn_stationary hc.2.1 hx, hx.pos, hk⟩

/-- The doubles next to `1/3` and `2/3`, and a second class. -/
def exDouble : Matrix (Fin 3) (Fin 3) ℚ :=
  !![double (1 / 3), double (2 / 3), 0; double (1 / 10), double (9 / 10), 0; 0, 1 / 2, 1 / 2]

/-- The hypotheses of `C169_accuracy_partial` can be met, also by a matrix that is not exactly stochastic. -/
theorem C169_instance : AcceptedMatrix exDouble ∧ (4 + 2) * 3 ≤ 500 ∧
    (∀ i j, 0 < exDouble i j → 1 / 2 ^ 4 ≤ exDouble i j) ∧ IsClasses exDouble [[0, 1], [2]] ∧
    ¬ IsStochastic exDouble := by
  refine ⟨⟨by norm_num, ?_, ?_⟩, by norm_num, ?_, ?_, ?_⟩
  · change ∀ i j : Fin 3, 0 ≤ (fun i j : Fin 3 => exDouble i j) i j ∧ (fun i j : Fin 3 => exDouble i j) i j ≤ 1
    decide +kernel
  · change ∀ i : Fin 3, |∑ j, (fun i j : Fin 3 => exDouble i j) i j - 1| ≤ _
    decide +kernel
  · change ∀ i j : Fin 3, 0 < (fun i j : Fin 3 => exDouble i j) i j →
      1 / 2 ^ 4 ≤ (fun i j : Fin 3 => exDouble i j) i j
    decide +kernel
  · change IsClasses (fun i j : Fin 3 => exDouble i j) [[0, 1], [2]]
    decide +kernel
  · change ¬ IsStochastic fun i j : Fin 3 => exDouble i j
    decide +kernel

end Verif
