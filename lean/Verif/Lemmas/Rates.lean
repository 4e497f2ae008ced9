import Verif.Lemmas.Near
import Verif.Lemmas.Stationary

/-!
# Lemmas: balance of rates

A vector is balanced for a nonnegative matrix if the flow into every position equals the flow out of it. The
diagonal does not matter. Entrywise relative changes of the matrix change the balanced vector of an
irreducible matrix by relative amounts that do not depend on the matrix (O'Cinneide 1993).
-/

set_option linter.unusedSectionVars false

namespace Verif

open Finset

variable {K : Type} [Field K] [LinearOrder K] [IsStrictOrderedRing K]

/-- The flow of `x` into every position of `S` equals the flow out of it. -/
def Balanced (S : Finset ℕ) (a : ℕ → ℕ → K) (x : ℕ → K) : Prop :=
  ∀ k ∈ S, ∑ l ∈ S, x l * a l k = x k * ∑ l ∈ S, a k l

theorem Balanced.smul {S : Finset ℕ} {a : ℕ → ℕ → K} {x : ℕ → K} (h : Balanced S a x) (c : K) :
    Balanced S a fun k => c * x k := by
  intro k hk
  simp only [mul_assoc]
  rw [← mul_sum, h k hk]

/-- The diagonal does not matter. -/
theorem Balanced.diagonal {S : Finset ℕ} {a b : ℕ → ℕ → K} {x : ℕ → K} (h : Balanced S a x)
    (hab : ∀ j ∈ S, ∀ k ∈ S, j ≠ k → a j k = b j k) : Balanced S b x := by
  intro k hk
  have h1 := h k hk
  have e1 : ∑ l ∈ S, x l * b l k = ∑ l ∈ S, x l * a l k + x k * (b k k - a k k) := by
    rw [← sub_eq_iff_eq_add', ← sum_sub_distrib, sum_eq_single k]
    · ring
    · intro l hl hne
      rw [hab l hl k hk hne]
      ring
    · exact fun h => absurd hk h
  have e2 : ∑ l ∈ S, b k l = ∑ l ∈ S, a k l + (b k k - a k k) := by
    rw [← sub_eq_iff_eq_add', ← sum_sub_distrib, sum_eq_single k]
    · intro l hl hne
      rw [hab k hk l hl hne.symm]
      ring
    · exact fun h => absurd hk h
  rw [e1, e2, h1]
  ring

/-! ## Elimination -/

/-- The eliminated position and the balance of the rest. -/
theorem Balanced.restrict {n i : ℕ} {a : ℕ → ℕ → K} {x : ℕ → K} (hi : i < n) {s : K} (hs : 0 < s)
    (hsc : ∑ k ∈ Ico (i + 1) n, a i k = s) (h : Balanced (Ico i n) a x) :
    x i = ∑ l ∈ Ico (i + 1) n, x l * (a l i / s) ∧ Balanced (Ico (i + 1) n) (gthStep n a i s) x := by
  have hii : i ∈ Ico i n := by rw [mem_Ico]; omega
  have h1 := h i hii
  rw [sum_Ico_first hi, sum_Ico_first hi, hsc] at h1
  have hx : x i = ∑ l ∈ Ico (i + 1) n, x l * (a l i / s) := by
    simp only [← mul_div_assoc]
    rw [← sum_div, eq_div_iff hs.ne']
    linear_combination -h1
  refine ⟨hx, fun k hk => ?_⟩
  have h2 := h k (mem_Ico_of_succ hk)
  rw [sum_Ico_first hi, sum_Ico_first hi] at h2
  have e1 : ∑ l ∈ Ico (i + 1) n, x l * gthStep n a i s l k =
      ∑ l ∈ Ico (i + 1) n, x l * a l k + x i * a i k := by
    rw [hx, sum_mul, ← sum_add_distrib]
    refine sum_congr rfl fun l hl => ?_
    rw [gthStep_block hl hk]
    ring
  have e2 : ∑ l ∈ Ico (i + 1) n, gthStep n a i s k l = ∑ l ∈ Ico (i + 1) n, a k l + a k i := by
    rw [sum_congr rfl fun l hl => gthStep_block (s := s) (a := a) hk hl, sum_add_distrib, ← mul_sum, hsc,
      div_mul_cancel₀ _ hs.ne']
  rw [e1, e2]
  linear_combination h2

/-- A balanced vector of the rest extends to the eliminated position. -/
theorem Balanced.extend {n i : ℕ} {a : ℕ → ℕ → K} {x : ℕ → K} (hi : i < n) {s : K} (hs : 0 < s)
    (hsc : ∑ k ∈ Ico (i + 1) n, a i k = s) (hx : x i = ∑ l ∈ Ico (i + 1) n, x l * (a l i / s))
    (h : Balanced (Ico (i + 1) n) (gthStep n a i s) x) : Balanced (Ico i n) a x := by
  intro k hk
  rw [sum_Ico_first hi, sum_Ico_first hi]
  by_cases hki : k = i
  · subst hki
    have e : ∑ l ∈ Ico (k + 1) n, x l * a l k = x k * s := by
      rw [hx, sum_mul]
      refine sum_congr rfl fun l _ => ?_
      rw [mul_assoc, div_mul_cancel₀ _ hs.ne']
    rw [e, hsc]
    ring
  · have hk' : k ∈ Ico (i + 1) n := by rw [mem_Ico] at hk ⊢; omega
    have h2 := h k hk'
    have e1 : ∑ l ∈ Ico (i + 1) n, x l * gthStep n a i s l k =
        ∑ l ∈ Ico (i + 1) n, x l * a l k + x i * a i k := by
      rw [hx, sum_mul, ← sum_add_distrib]
      refine sum_congr rfl fun l hl => ?_
      rw [gthStep_block hl hk']
      ring
    have e2 : ∑ l ∈ Ico (i + 1) n, gthStep n a i s k l = ∑ l ∈ Ico (i + 1) n, a k l + a k i := by
      rw [sum_congr rfl fun l hl => gthStep_block (s := s) (a := a) hk' hl, sum_add_distrib, ← mul_sum, hsc,
        div_mul_cancel₀ _ hs.ne']
    rw [e1, e2] at h2
    linear_combination h2

/-- The flow into an eliminated position is positive. -/
theorem RateBlock.inflow_pos {n i : ℕ} {a : ℕ → ℕ → K} (h : RateBlock n i a) (hi : i + 1 < n) {x : ℕ → K}
    (hx : ∀ k ∈ Ico (i + 1) n, 0 < x k) {s : K} (hs : 0 < s) : 0 < ∑ l ∈ Ico (i + 1) n, x l * (a l i / s) := by
  have hii : i ∈ Ico i n := by rw [mem_Ico]; omega
  have hterm : ∀ l ∈ Ico (i + 1) n, 0 ≤ x l * (a l i / s) := fun l hl =>
    mul_nonneg (hx l hl).le (div_nonneg (h.nonneg l (mem_Ico_of_succ hl) i hii) hs.le)
  by_contra hle
  have h0 := le_antisymm (not_lt.1 hle) (sum_nonneg hterm)
  have hz := (sum_eq_zero_iff_of_nonneg hterm).1 h0
  have := h.irred (fun j => j ∈ Ico (i + 1) n)
    ⟨i + 1, by rw [mem_Ico]; omega, by rw [mem_Ico]; omega⟩ ?_ i hii
  · rw [mem_Ico] at this; omega
  · intro j hj k hk hj' hjk
    by_contra hk'
    have hki : k = i := by rw [mem_Ico] at hk hk'; omega
    subst hki
    rcases mul_eq_zero.1 (hz j hj') with h1 | h1
    · exact absurd h1 (hx j hj').ne'
    · exact absurd h1 (div_pos hjk hs).ne'

/-- An irreducible block has a positive balanced vector. -/
theorem RateBlock.exists_balanced {n : ℕ} (m i : ℕ) (hm : i + m + 1 = n) {a : ℕ → ℕ → K} (h : RateBlock n i a) :
    ∃ x : ℕ → K, (∀ k ∈ Ico i n, 0 < x k) ∧ Balanced (Ico i n) a x := by
  induction m generalizing i a with
  | zero =>
    have hI : Ico i n = {i} := by
      rw [show n = i + 1 by omega]
      exact Nat.Ico_succ_singleton i
    refine ⟨fun _ => 1, fun _ _ => one_pos, ?_⟩
    rw [hI]
    intro k hk
    rw [mem_singleton] at hk
    subst hk
    simp
  | succ m ih =>
    have hs := h.scale_pos (by omega)
    obtain ⟨x, hx, hb⟩ := ih (i + 1) (by omega) (h.step (by omega))
    obtain ⟨s, hsc⟩ : ∃ s, ∑ k ∈ Ico (i + 1) n, a i k = s := ⟨_, rfl⟩
    rw [hsc] at hs hb
    have hne : ∀ k ∈ Ico (i + 1) n, k ≠ i := by
      intro k hk
      rw [mem_Ico] at hk
      omega
    obtain ⟨y, hy⟩ : ∃ y : ℕ → K, y = Function.update x i (∑ l ∈ Ico (i + 1) n, x l * (a l i / s)) := ⟨_, rfl⟩
    have hyx : ∀ k ∈ Ico (i + 1) n, y k = x k := by
      intro k hk
      rw [hy, Function.update_of_ne (hne k hk)]
    have hyi : y i = ∑ l ∈ Ico (i + 1) n, y l * (a l i / s) := by
      rw [sum_congr rfl fun l hl => by rw [hyx l hl], hy, Function.update_self]
    refine ⟨y, fun k hk => ?_, Balanced.extend (by omega) hs hsc hyi ?_⟩
    · by_cases hki : k = i
      · subst hki
        rw [hyi]
        exact h.inflow_pos (by omega) (fun l hl => by rw [hyx l hl]; exact hx l hl) hs
      · have hk' : k ∈ Ico (i + 1) n := by rw [mem_Ico] at hk ⊢; omega
        rw [hyx k hk']
        exact hx k hk'
    · intro k hk
      rw [sum_congr rfl fun l hl => by rw [hyx l hl], hyx k hk]
      exact hb k hk

/-! ## Perturbation -/

/-- A change of the rates out of one position `r`: relative to `r`, no component grows by more than the
rates. -/
theorem balanced_row {n i : ℕ} {a b : ℕ → ℕ → K} {x y : ℕ → K} {r : ℕ} {t : K} (ha : RateBlock n i a)
    (hr : r ∈ Ico i n) (hab : ∀ j ∈ Ico i n, j ≠ r → ∀ k ∈ Ico i n, b j k = a j k)
    (ht : 1 ≤ t) (hrow : ∀ k ∈ Ico i n, b r k ≤ t * a r k)
    (hx : ∀ k ∈ Ico i n, 0 < x k) (hy : ∀ k ∈ Ico i n, 0 < y k)
    (hxb : Balanced (Ico i n) a x) (hyb : Balanced (Ico i n) b y) :
    ∀ k ∈ Ico i n, y k * x r ≤ t * (x k * y r) := by
  have hxr := hx r hr
  have hyr := hy r hr
  obtain ⟨k0, hk0, hmax⟩ := exists_max_image (Ico i n) (fun k => y k / x k) ⟨r, hr⟩
  obtain ⟨M, hM⟩ : ∃ M, M = y k0 / x k0 := ⟨_, rfl⟩
  have hle : ∀ k ∈ Ico i n, y k ≤ M * x k := by
    intro k hk
    have := hmax k hk
    rw [← hM, div_le_iff₀ (hx k hk)] at this
    exact this
  suffices hMt : M * x r ≤ t * y r by
    intro k hk
    calc y k * x r ≤ M * x k * x r := mul_le_mul_of_nonneg_right (hle k hk) hxr.le
      _ = x k * (M * x r) := by ring
      _ ≤ x k * (t * y r) := mul_le_mul_of_nonneg_left hMt (hx k hk).le
      _ = t * (x k * y r) := by ring
  by_contra hMt
  rw [not_le] at hMt
  have hrM : y r < M * x r := lt_of_le_of_lt (le_mul_of_one_le_left hyr.le ht) hMt
  have hall := ha.irred (fun k => y k < M * x k) ⟨r, hr, hrM⟩ ?_ k0 hk0
  · rw [hM, div_mul_cancel₀ _ (hx k0 hk0).ne'] at hall
    exact lt_irrefl _ hall
  · intro l hl k hk hlt hlk
    by_contra hk'
    have hkM : y k = M * x k := le_antisymm (hle k hk) (not_lt.1 hk')
    have hkr : k ≠ r := by
      rintro rfl
      exact hk' hrM
    have h1 := hxb k hk
    have h2 := hyb k hk
    rw [sum_congr rfl fun j hj => hab k hk hkr j hj, hkM] at h2
    have hz : ∑ j ∈ Ico i n, (M * (x j * a j k) - y j * b j k) = 0 := by
      rw [sum_sub_distrib, ← mul_sum, h1, h2]
      ring
    have hterm : ∀ j ∈ Ico i n, 0 ≤ M * (x j * a j k) - y j * b j k := by
      intro j hj
      have hjk := ha.nonneg j hj k hk
      by_cases hjr : j = r
      · subst hjr
        have e1 : y j * b j k ≤ y j * (t * a j k) := mul_le_mul_of_nonneg_left (hrow k hk) hyr.le
        have e2 : t * y j * a j k ≤ M * x j * a j k := mul_le_mul_of_nonneg_right hMt.le hjk
        linarith
      · rw [hab j hj hjr k hk]
        have e1 : y j * a j k ≤ M * x j * a j k := mul_le_mul_of_nonneg_right (hle j hj) hjk
        linarith
    have h0 := (sum_eq_zero_iff_of_nonneg hterm).1 hz l hl
    by_cases hlr : l = r
    · subst hlr
      have e1 : y l * b l k ≤ y l * (t * a l k) := mul_le_mul_of_nonneg_left (hrow k hk) hyr.le
      have e2 : t * y l * a l k < M * x l * a l k := mul_lt_mul_of_pos_right hMt hlk
      linarith
    · rw [hab l hl hlr k hk] at h0
      have e1 : y l * a l k < M * x l * a l k := mul_lt_mul_of_pos_right hlt hlk
      linarith

/-- Entrywise changes keep a block irreducible. -/
theorem RateBlock.near {n i : ℕ} {a b : ℕ → ℕ → K} {t : K} (ht : 1 ≤ t) (ha : RateBlock n i a)
    (hab : ∀ j ∈ Ico i n, ∀ k ∈ Ico i n, Near t (b j k) (a j k)) : RateBlock n i b := by
  refine ⟨fun j hj k hk => (hab j hj k hk).nonneg ht (ha.nonneg j hj k hk), fun S hS hcl => ?_⟩
  exact ha.irred S hS fun j hj k hk hSj hjk => hcl j hj k hk hSj ((hab j hj k hk).pos ht hjk)

/-- Entrywise changes of some rows. -/
theorem balanced_rows {n i : ℕ} (hi : i < n) {a b : ℕ → ℕ → K} {t : K} (ht : 1 ≤ t) (ha : RateBlock n i a)
    (hab : ∀ j ∈ Ico i n, ∀ k ∈ Ico i n, Near t (b j k) (a j k)) {x : ℕ → K} (hx : ∀ k ∈ Ico i n, 0 < x k)
    (hxb : Balanced (Ico i n) a x) (R : Finset ℕ) :
    R ⊆ Ico i n → ∀ y : ℕ → K, (∀ k ∈ Ico i n, 0 < y k) →
      Balanced (Ico i n) (fun j k => if j ∈ R then b j k else a j k) y →
      ∃ c, 0 < c ∧ ∀ k ∈ Ico i n, Near (t ^ R.card) (c * y k) (x k) := by
  have hmid : ∀ R : Finset ℕ, ∀ j ∈ Ico i n, ∀ k ∈ Ico i n, Near t (if j ∈ R then b j k else a j k) (a j k) := by
    intro R j hj k hk
    split_ifs
    · exact hab j hj k hk
    · exact Near.refl ht (ha.nonneg j hj k hk)
  have single : ∀ (a' b' : ℕ → ℕ → K) (x' y' : ℕ → K) (r : ℕ), RateBlock n i a' → RateBlock n i b' → r ∈ Ico i n →
      (∀ j ∈ Ico i n, j ≠ r → ∀ k ∈ Ico i n, b' j k = a' j k) → (∀ k ∈ Ico i n, Near t (b' r k) (a' r k)) →
      (∀ k ∈ Ico i n, 0 < x' k) → (∀ k ∈ Ico i n, 0 < y' k) → Balanced (Ico i n) a' x' →
      Balanced (Ico i n) b' y' → ∃ c, 0 < c ∧ ∀ k ∈ Ico i n, Near t (c * y' k) (x' k) := by
    intro a' b' x' y' r ha' hb' hr heq hnear hx' hy' hxb' hyb'
    have h1 := balanced_row ha' hr heq ht (fun k hk => (hnear k hk).1) hx' hy' hxb' hyb'
    have h2 := balanced_row hb' hr (fun j hj hne k hk => (heq j hj hne k hk).symm) ht
      (fun k hk => (hnear k hk).2) hy' hx' hyb' hxb'
    have hyr := hy' r hr
    refine ⟨x' r / y' r, div_pos (hx' r hr) hyr, fun k hk => ⟨?_, ?_⟩⟩
    · rw [div_mul_eq_mul_div, div_le_iff₀ hyr]
      have := h1 k hk
      linarith
    · rw [div_mul_eq_mul_div, ← mul_div_assoc, le_div_iff₀ hyr]
      have := h2 k hk
      linarith
  induction R using Finset.induction_on with
  | empty =>
    intro _ y hy hyb
    have hirr : i ∈ Ico i n := by rw [mem_Ico]; omega
    obtain ⟨c, hc, h⟩ : ∃ c, 0 < c ∧ ∀ k ∈ Ico i n, c * y k = x k := by
      have h1 := balanced_row (t := 1) ha hirr (fun _ _ _ _ _ => rfl) le_rfl (fun k _ => by rw [one_mul]) hx hy hxb
        (by simpa using hyb)
      have h2 := balanced_row (t := 1) ha hirr (fun _ _ _ _ _ => rfl) le_rfl (fun k _ => by rw [one_mul]) hy hx
        (by simpa using hyb) hxb
      refine ⟨x i / y i, div_pos (hx i hirr) (hy i hirr), fun k hk => ?_⟩
      have e1 := h1 k hk
      have e2 := h2 k hk
      have hyi := (hy i hirr).ne'
      rw [div_mul_eq_mul_div, div_eq_iff hyi]
      linarith
    refine ⟨c, hc, fun k hk => ?_⟩
    rw [h k hk, card_empty, pow_zero]
    exact Near.refl le_rfl (hx k hk).le
  | insert r R hrR ih =>
    intro hR z hz hzb
    have hr : r ∈ Ico i n := hR (mem_insert_self r R)
    have hR' : R ⊆ Ico i n := fun k hk => hR (mem_insert_of_mem hk)
    have hblock : RateBlock n i fun j k => if j ∈ R then b j k else a j k := ha.near ht (hmid R)
    have hblock' : RateBlock n i fun j k => if j ∈ insert r R then b j k else a j k := ha.near ht (hmid _)
    obtain ⟨y, hy, hyb⟩ := hblock.exists_balanced (n - i - 1) i (by omega)
    obtain ⟨c, hc, h⟩ := ih hR' y hy hyb
    obtain ⟨d, hd, h'⟩ := single _ _ y z r hblock hblock' hr
      (fun j hj hne k hk => by simp [mem_insert, hne]) (fun k hk => by simpa [hrR] using hab r hr k hk) hy hz hyb hzb
    refine ⟨c * d, mul_pos hc hd, fun k hk => ?_⟩
    rw [card_insert_of_notMem hrR, pow_succ, mul_comm (t ^ _), mul_assoc]
    exact ((h' k hk).const_mul hc.le).trans (by linarith) (pow_nonneg (by linarith) _) (h k hk)

/-- **Entrywise perturbation.** If the entries of two irreducible blocks agree up to the factor `t`, then their
balanced vectors agree up to the factor `t` to the number of positions, after one of them is scaled. -/
theorem balanced_near {n i : ℕ} (hi : i < n) {a b : ℕ → ℕ → K} {t : K} (ht : 1 ≤ t) (ha : RateBlock n i a)
    (hab : ∀ j ∈ Ico i n, ∀ k ∈ Ico i n, Near t (b j k) (a j k)) {x y : ℕ → K} (hx : ∀ k ∈ Ico i n, 0 < x k)
    (hy : ∀ k ∈ Ico i n, 0 < y k) (hxb : Balanced (Ico i n) a x) (hyb : Balanced (Ico i n) b y) :
    ∃ c, 0 < c ∧ ∀ k ∈ Ico i n, Near (t ^ (n - i)) (c * y k) (x k) := by
  obtain ⟨c, hc, h⟩ := balanced_rows hi ht ha hab hx hxb (Ico i n) subset_rfl y hy (by
    intro k hk
    refine (sum_congr rfl fun l hl => ?_).trans ((hyb k hk).trans (congrArg (y k * ·) (sum_congr rfl fun l _ => ?_)))
    · simp only [if_pos hl]
    · simp only [if_pos hk])
  rw [Nat.card_Ico] at h
  exact ⟨c, hc, h⟩

end Verif
