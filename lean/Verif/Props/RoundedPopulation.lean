import Verif.Model.RoundedPopulation
import Verif.Props.RoundedDirichlet
import Verif.Props.RoundedChains
import Verif.Props.RoundedRandom
import Verif.Props.RoundedGenerators
import Verif.Props.Urn

/-!
# Population genetics in floating point (C188)
-/

namespace Verif

open Finset

variable {K : Type} [Field K] [LinearOrder K] [IsStrictOrderedRing K] {fl : K → K} {e : K}

/-! ### Moran -/

/-- The chance of staying is not small: without rounding it is at least `1 / (2 n²)`. -/
theorem moran_margin {n i : ℕ} (h1 : 1 ≤ i) (h2 : i < n) {s u v : K} (hs0 : -1 ≤ s) (hs : s ≤ 1)
    (hu0 : 0 ≤ u) (hv0 : 0 ≤ v) (hv1 : v ≤ 1) :
    moranDown n i s v + moranUp n i s u v ≤ 1 - 1 / (2 * (n : K) ^ 2) := by
  have hi : (1 : K) ≤ i := by exact_mod_cast h1
  have hin : (i : K) + 1 ≤ n := by exact_mod_cast h2
  have hn : (0 : K) < n := by linarith
  have hr : 0 ≤ (1 - s) * (i : K) := mul_nonneg (by linarith) (by linarith)
  have hr2 : (1 - s) * (i : K) ≤ 2 * i := mul_le_mul_of_nonneg_right (by linarith) (by linarith)
  obtain ⟨m, hm⟩ : ∃ m : K, m = (n : K) - i := ⟨_, rfl⟩
  have hm1 : 1 ≤ m := by linarith
  unfold moranDown moranUp
  simp only
  rw [← hm]
  set ri := (1 - s) * (i : K)
  have hd : 0 < ri + m := by linarith
  have hnm : (n : K) = i + m := by rw [hm]; ring
  have e1 : (i : K) / n * ((ri * v + m * (1 - v)) / (ri + m)) + m / n * ((ri * (1 - u) + m * v) / (ri + m)) =
      (i * (ri * v + m * (1 - v)) + m * (ri * (1 - u) + m * v)) / (n * (ri + m)) := by
    field_simp
  rw [e1, div_le_iff₀ (mul_pos hn hd)]
  have e2 : 1 / (2 * (n : K) ^ 2) * (n * (ri + m)) ≤ 1 := by
    rw [div_mul_eq_mul_div, one_mul, div_le_one (by positivity)]
    nlinarith
  have e3 : (n : K) * (ri + m) - (i * (ri * v + m * (1 - v)) + m * (ri * (1 - u) + m * v)) =
      i * ri * (1 - v) + m * m * (1 - v) + i * m * v + m * ri * u := by rw [hnm]; ring
  have f1 : 0 ≤ i * ri * (1 - v) := mul_nonneg (mul_nonneg (by linarith) hr) (by linarith)
  have f2 : 0 ≤ m * ri * u := mul_nonneg (mul_nonneg (by linarith) hr) hu0
  have f3 : 1 * (1 - v) ≤ m * m * (1 - v) := mul_le_mul_of_nonneg_right (by nlinarith) (by linarith)
  have f4 : 1 * v ≤ i * m * v := mul_le_mul_of_nonneg_right (by nlinarith) hv0
  nlinarith

/-- C188, accuracy of the rates of the Moran model. -/
theorem C188_rates (h : IsRounding fl e) {n i : ℕ} (h1 : 1 ≤ i) (h2 : i < n) {s u v : K} (hs : s ≤ 1)
    (hu1 : u ≤ 1) (hv0 : 0 ≤ v) (hv1 : v ≤ 1) :
    Acc (1 / (1 - e)) 10 (moranDownF fl n i s v) (moranDown n i s v) ∧
    Acc (1 / (1 - e)) 11 (moranUpF fl n i s u v) (moranUp n i s u v) ∧
    Acc (1 / (1 - e)) 3 (fl (moranShareF fl i s + ((n : K) - i))) ((1 - s) * i + ((n : K) - i)) := by
  have hF := h.sound
  have hf := hF.one_le
  have hi : (1 : K) ≤ i := by exact_mod_cast h1
  have hin : (i : K) + 1 ≤ n := by exact_mod_cast h2
  have hn : (0 : K) < n := by linarith
  have hr : 0 ≤ (1 - s) * (i : K) := mul_nonneg (by linarith) (by linarith)
  have hm : 0 ≤ (n : K) - i := by linarith
  have hd : 0 < (1 - s) * (i : K) + ((n : K) - i) := by linarith
  have ai : Acc (1 / (1 - e)) 0 (i : K) i := Acc.refl (by linarith)
  have am : Acc (1 / (1 - e)) 0 ((n : K) - i) ((n : K) - i) := Acc.refl hm
  have an : Acc (1 / (1 - e)) 0 (n : K) n := Acc.refl hn.le
  have av : Acc (1 / (1 - e)) 0 v v := Acc.refl hv0
  have ar : Acc (1 / (1 - e)) 2 (moranShareF fl i s) ((1 - s) * i) :=
    Acc.mul hF (h.acc (by linarith : (0 : K) ≤ 1 - s)) ai
  have ad : Acc (1 / (1 - e)) 3 (fl (moranShareF fl i s + ((n : K) - i))) ((1 - s) * i + ((n : K) - i)) :=
    Acc.add hF ar (am.mono hf (by omega))
  refine ⟨?_, ?_, ad⟩
  · have x1 : Acc (1 / (1 - e)) 3 (fl (moranShareF fl i s * v)) ((1 - s) * i * v) := Acc.mul hF ar av
    have x2 : Acc (1 / (1 - e)) 2 (fl (((n : K) - i) * fl (1 - v))) (((n : K) - i) * (1 - v)) :=
      Acc.mul hF am (h.acc (by linarith : (0 : K) ≤ 1 - v))
    have x3 := Acc.add hF x1 (x2.mono hf (by omega : 2 ≤ 3))
    have x4 := Acc.div hF x3 ad hd
    exact Acc.mul hF (Acc.div hF ai an hn) x4
  · have x1 : Acc (1 / (1 - e)) 4 (fl (moranShareF fl i s * fl (1 - u))) ((1 - s) * i * (1 - u)) :=
      Acc.mul hF ar (h.acc (by linarith : (0 : K) ≤ 1 - u))
    have x2 : Acc (1 / (1 - e)) 1 (fl (((n : K) - i) * v)) (((n : K) - i) * v) := Acc.mul hF am av
    have x3 := Acc.add hF x1 (x2.mono hf (by omega : 1 ≤ 4))
    have x4 := Acc.div hF x3 ad hd
    exact Acc.mul hF (Acc.div hF am an hn) x4

/-- The rates are rounded numbers. -/
theorem moran_idem (h : IsRounding fl e) {n i : ℕ} (h2 : i < n) {s u v : K} (hs : s ≤ 1)
    (hu1 : u ≤ 1) (hv0 : 0 ≤ v) (hv1 : v ≤ 1) :
    fl (moranDownF fl n i s v) = moranDownF fl n i s v ∧ fl (moranUpF fl n i s u v) = moranUpF fl n i s u v := by
  have hi : (0 : K) ≤ i := Nat.cast_nonneg i
  have hin : (i : K) ≤ n := by exact_mod_cast h2.le
  have hr : 0 ≤ moranShareF fl i s := h.nonneg (mul_nonneg (h.nonneg (by linarith)) hi)
  have hm : 0 ≤ (n : K) - i := by linarith
  have hd := h.nonneg (add_nonneg hr hm)
  constructor
  · refine h.idem _ (mul_nonneg (h.nonneg (div_nonneg hi (by linarith))) (h.nonneg (div_nonneg (h.nonneg ?_) hd)))
    exact add_nonneg (h.nonneg (mul_nonneg hr hv0)) (h.nonneg (mul_nonneg hm (h.nonneg (by linarith))))
  · refine h.idem _ (mul_nonneg (h.nonneg (div_nonneg hm (by linarith))) (h.nonneg (div_nonneg (h.nonneg ?_) hd)))
    exact add_nonneg (h.nonneg (mul_nonneg hr (h.nonneg (by linarith)))) (h.nonneg (mul_nonneg hm hv0))

/-- C188, the chance of staying in the Moran model: never negative, and accurate up to `24 e`. -/
theorem C188_stay (h : IsRounding fl e) (he : e ≤ 1 / 10 ^ 10) {n i : ℕ} (h1 : 1 ≤ i) (h2 : i < n) (hn : n ≤ 500)
    {s u v : K} (hs0 : -1 ≤ s) (hs : s ≤ 1) (hu0 : 0 ≤ u) (hu1 : u ≤ 1) (hv0 : 0 ≤ v) (hv1 : v ≤ 1) :
    0 ≤ fl (1 - moranDownF fl n i s v) - moranUpF fl n i s u v ∧
    0 < fl (fl (1 - moranDownF fl n i s v) - moranUpF fl n i s u v) ∧
    |fl (fl (1 - moranDownF fl n i s v) - moranUpF fl n i s u v) - (1 - moranDown n i s v - moranUp n i s u v)| ≤
      24 * e := by
  have he0 := h.unit_nonneg
  obtain ⟨b1, b2, -⟩ := moran_bounds h1 h2 hs hu0 hu1 hv0 hv1
  have b3 := moran_margin h1 h2 hs0 hs hu0 hv0 hv1
  obtain ⟨a1, a2, -⟩ := C188_rates h h1 h2 hs hu1 hv0 hv1
  have r1 := a1.relative h.sound (by push_cast; linarith)
  have r2 := a2.relative h.sound (by push_cast; linarith)
  have n1 := a1.nonneg h.sound.one_le
  have n2 := a2.nonneg h.sound.one_le
  push_cast at r1 r2
  set x := moranDownF fl n i s v
  set y := moranUpF fl n i s u v
  set x0 := moranDown n i s v
  set y0 := moranUp n i s u v
  have hnK : (n : K) ≤ 500 := by exact_mod_cast hn
  have hn1 : (1 : K) ≤ n := by exact_mod_cast (by omega : 1 ≤ n)
  have hmar : (1 : K) / 500000 ≤ 1 / (2 * (n : K) ^ 2) := by
    apply one_div_le_one_div_of_le (by positivity)
    nlinarith
  have hsum : |x - x0| + |y - y0| ≤ 22 * e := by nlinarith
  have hx := abs_le.1 (le_refl |x - x0|)
  have hy := abs_le.1 (le_refl |y - y0|)
  have hx1 : 0 ≤ 1 - x := by linarith [abs_nonneg (y - y0)]
  have q := h.near (1 - x)
  rw [abs_of_nonneg hx1] at q
  have q' : |fl (1 - x) - (1 - x)| ≤ e := q.trans (by nlinarith)
  have hq := abs_le.1 q'
  have hpos : 0 < fl (1 - x) - y := by linarith
  have hle : fl (1 - x) - y ≤ 1 := by
    have := h.mono _ _ hx1 (by linarith : 1 - x ≤ 1)
    rw [h.one] at this
    linarith
  have r := h.near (fl (1 - x) - y)
  rw [abs_of_pos hpos] at r
  have r' : |fl (fl (1 - x) - y) - (fl (1 - x) - y)| ≤ e := r.trans (by nlinarith)
  refine ⟨hpos.le, fl_pos h hpos, ?_⟩
  have hr := abs_le.1 r'
  rw [abs_le]
  constructor <;> linarith

theorem moranRawF_spec (h : IsRounding fl e) (he : e ≤ 1 / 10 ^ 10) {n : ℕ} (hn : n ≤ 500)
    {s u v : K} (hs0 : -1 ≤ s) (hs : s ≤ 1) (hu0 : 0 ≤ u) (hu1 : u ≤ 1) (hv0 : 0 ≤ v) (hv1 : v ≤ 1) :
    (∀ i j, 0 ≤ moranRawF fl n s u v i j ∧ fl (moranRawF fl n s u v i j) = moranRawF fl n s u v i j) ∧
    ∀ i, 0 < moranRawF fl n s u v i i := by
  have z : (0 : K) ≤ 0 ∧ fl 0 = 0 := ⟨le_rfl, fl_zero h⟩
  have o : (0 : K) ≤ 1 ∧ fl 1 = 1 := ⟨zero_le_one, h.one⟩
  constructor
  · intro i j
    unfold moranRawF
    by_cases hi : (i : ℕ) = 0
    · simp only [hi, if_true]; split_ifs <;> assumption
    by_cases hi' : (i : ℕ) = n
    · rw [if_neg hi, if_pos hi']; split_ifs <;> assumption
    have hlt := i.isLt
    have h1 : 1 ≤ (i : ℕ) := by omega
    have h2 : (i : ℕ) < n := by omega
    obtain ⟨a1, a2, -⟩ := C188_rates h h1 h2 hs hu1 hv0 hv1
    obtain ⟨c1, c2, -⟩ := C188_stay h he h1 h2 hn hs0 hs hu0 hu1 hv0 hv1
    have n1 := a1.nonneg h.sound.one_le
    have n2 := a2.nonneg h.sound.one_le
    have hin : ((i : ℕ) : K) ≤ n := by exact_mod_cast h2.le
    simp only [hi, hi', if_false]
    split_ifs
    · exact ⟨n2, (moran_idem h h2 hs hu1 hv0 hv1).2⟩
    · exact ⟨c2.le, h.idem _ c1⟩
    · exact ⟨n1, (moran_idem h h2 hs hu1 hv0 hv1).1⟩
    · exact z
  · intro i
    unfold moranRawF
    by_cases hi : (i : ℕ) = 0
    · simp only [hi, if_true]; exact one_pos
    by_cases hi' : (i : ℕ) = n
    · rw [if_neg hi, if_pos hi', if_pos hi']; exact one_pos
    have hlt := i.isLt
    obtain ⟨-, c2, -⟩ := C188_stay h he (by omega : 1 ≤ (i : ℕ)) (by omega) hn hs0 hs hu0 hu1 hv0 hv1
    rw [if_neg hi, if_neg hi', if_neg (by omega), if_pos rfl]
    exact c2

/-- Dividing a row that is almost stochastic by its computed sum: `B` bounds the error of an entry, `T` that of the sum. -/
theorem normalised_near (h : IsRounding fl e) {m : ℕ} {M : Matrix (Fin m) (Fin m) K} {i j : Fin m} {x B T : K}
    (hM : ∀ l, 0 ≤ M i l) (hme : (m + 1) * e ≤ 1 / 2) (hx : |M i j - x| ≤ B) (hx0 : 0 ≤ x) (hx1 : x ≤ 1)
    (hT : |∑ l, M i l - 1| ≤ T) (hT1 : T ≤ 1 / 10) :
    |normalizeRowsF (Arith.rounded fl) M i j - x| ≤ 2 * ((m + 1) * e) + (B + T) * (10 / 9) := by
  have hF := h.sound
  have he0 := h.unit_nonneg
  have hT' := abs_le.1 hT
  have hs : 0 < ∑ l, M i l := by linarith
  have a : Acc (1 / (1 - e)) (0 + (0 + m) + 1) (normalizeRowsF (Arith.rounded fl) M i j) (M i j / ∑ l, M i l) :=
    Acc.div hF (Acc.refl (hM j)) (Acc.sum hF fun l => Acc.refl (hM l)) hs
  have r := a.relative hF (by push_cast; linarith)
  push_cast at r
  have hle : M i j / ∑ l, M i l ≤ 1 := (div_le_one hs).2 (single_le_sum (fun l _ => hM l) (mem_univ j))
  have r' : |normalizeRowsF (Arith.rounded fl) M i j - M i j / ∑ l, M i l| ≤ 2 * ((m + 1) * e) := by
    refine r.trans ?_
    rw [zero_add, zero_add]
    have : 0 ≤ 2 * (((m : K) + 1) * e) := by positivity
    nlinarith
  have d : |M i j / ∑ l, M i l - x| ≤ (B + T) * (10 / 9) := by
    have e1 : M i j / ∑ l, M i l - x = ((M i j - x) - x * (∑ l, M i l - 1)) / ∑ l, M i l := by
      field_simp
      ring
    rw [e1, abs_div, abs_of_pos hs, div_le_iff₀ hs]
    have e2 : |(M i j - x) - x * (∑ l, M i l - 1)| ≤ B + T := by
      refine (abs_sub _ _).trans (add_le_add hx ?_)
      rw [abs_mul, abs_of_nonneg hx0]
      nlinarith [abs_nonneg (∑ l, M i l - 1)]
    have hBT : 0 ≤ B + T := (abs_nonneg _).trans e2
    refine e2.trans ?_
    nlinarith
  calc |normalizeRowsF (Arith.rounded fl) M i j - x|
      = |(normalizeRowsF (Arith.rounded fl) M i j - M i j / ∑ l, M i l) + (M i j / ∑ l, M i l - x)| := by
        rw [sub_add_sub_cancel]
    _ ≤ _ := (abs_add_le _ _).trans (add_le_add r' d)

/-- C188, accuracy of the Moran model: all entries are within `(2n + 84) e` of the exact ones. -/
theorem C188_accuracy (h : IsRounding fl e) (he : e ≤ 1 / 10 ^ 10) {n : ℕ} (hn2 : 2 ≤ n) (hn : n ≤ 500)
    {s u v : K} (hs0 : -1 ≤ s) (hs : s ≤ 1) (hu0 : 0 ≤ u) (hu1 : u ≤ 1) (hv0 : 0 ≤ v) (hv1 : v ≤ 1)
    (i j : Fin (n + 1)) :
    |normalizeRowsF (Arith.rounded fl) (moranRawF fl n s u v) i j - moranRaw n s u v i j| ≤ (2 * n + 84) * e := by
  have he0 := h.unit_nonneg
  have hnK : (n : K) ≤ 500 := by exact_mod_cast hn
  obtain ⟨m1, -⟩ := moranRawF_spec h he hn hs0 hs hu0 hu1 hv0 hv1
  have hst := moranRaw_stochastic (n := n) (by omega) hs hu0 hu1 hv0 hv1
  have hx1 : moranRaw n s u v i j ≤ 1 := by
    rw [← hst.2 i]
    exact single_le_sum (fun l _ => hst.1 i l) (mem_univ j)
  have key : |moranRawF fl n s u v i j - moranRaw n s u v i j| ≤ 24 * e ∧
      |∑ l, moranRawF fl n s u v i l - 1| ≤ 46 * e := by
    by_cases hi : (i : ℕ) = 0
    · have : ∀ l, moranRawF fl n s u v i l = moranRaw n s u v i l := fun l => by
        unfold moranRawF moranRaw; rw [if_pos hi, if_pos hi]
      rw [sum_congr rfl fun l _ => this l, hst.2 i, this, sub_self, sub_self, abs_zero]
      constructor <;> positivity
    by_cases hi' : (i : ℕ) = n
    · have : ∀ l, moranRawF fl n s u v i l = moranRaw n s u v i l := fun l => by
        unfold moranRawF moranRaw; rw [if_neg hi, if_pos hi', if_neg hi, if_pos hi']
      rw [sum_congr rfl fun l _ => this l, hst.2 i, this, sub_self, sub_self, abs_zero]
      constructor <;> positivity
    have hlt := i.isLt
    have h1 : 1 ≤ (i : ℕ) := by omega
    have h2 : (i : ℕ) < n := by omega
    obtain ⟨b1, b2, b3⟩ := moran_bounds h1 h2 hs hu0 hu1 hv0 hv1
    obtain ⟨a1, a2, -⟩ := C188_rates h h1 h2 hs hu1 hv0 hv1
    obtain ⟨-, -, c3⟩ := C188_stay h he h1 h2 hn hs0 hs hu0 hu1 hv0 hv1
    have r1 := a1.relative h.sound (by push_cast; linarith)
    have r2 := a2.relative h.sound (by push_cast; linarith)
    push_cast at r1 r2
    have hsum : ∑ l, moranRawF fl n s u v i l = moranUpF fl n i s u v +
        fl (fl (1 - moranDownF fl n i s v) - moranUpF fl n i s u v) + moranDownF fl n i s v := by
      unfold moranRawF
      simp only [hi, hi', if_false]
      exact sum_three (by omega) (by omega) (by omega) (by omega) (by omega) (by omega) _ _ _
    have r12 : |moranDownF fl n i s v - moranDown n i s v| + |moranUpF fl n i s u v - moranUp n i s u v| ≤ 22 * e := by
      nlinarith
    constructor
    · unfold moranRawF moranRaw
      simp only [hi, hi', if_false]
      split_ifs
      · linarith [abs_nonneg (moranDownF fl n i s v - moranDown n i s v)]
      · exact c3
      · linarith [abs_nonneg (moranUpF fl n i s u v - moranUp n i s u v)]
      · rw [sub_self, abs_zero]; positivity
    · rw [hsum]
      have t1 := abs_le.1 (le_refl |moranDownF fl n i s v - moranDown n i s v|)
      have t2 := abs_le.1 (le_refl |moranUpF fl n i s u v - moranUp n i s u v|)
      have t3 := abs_le.1 c3
      rw [abs_le]
      constructor <;> linarith
  have := normalised_near h (fun l => (m1 i l).1) (by push_cast; nlinarith) key.1 (hst.1 i j) hx1 key.2 (by linarith)
  refine this.trans ?_
  push_cast
  nlinarith

/-! ### Wright-Fisher -/

/-- `fl x` for `x ≥ -a`. -/
theorem fl_lower (h : IsRounding fl e) {x a : K} (ha : 0 ≤ a) (hx : -a ≤ x) : -(a * (1 + e)) ≤ fl x := by
  have he0 := h.unit_nonneg
  rcases le_total 0 x with h0 | h0
  · have := h.nonneg h0
    have : 0 ≤ a * (1 + e) := by positivity
    linarith
  · have q := (abs_le.1 (h.near x)).1
    rw [abs_of_nonpos h0] at q
    nlinarith

theorem fl_upper (h : IsRounding fl e) {x a : K} (h0 : 0 ≤ x) (hx : x ≤ a) : fl x ≤ a * (1 + e) := by
  have q := (abs_le.1 (h.near x)).2
  rw [abs_of_nonneg h0] at q
  have := h.unit_nonneg
  nlinarith

/-- The frequency after mutation stays away from one. -/
theorem wfMutatedF_bounds (h : IsRounding fl e) (he : e ≤ 1 / 10 ^ 10) {n i : ℕ} (h2 : i < n) (hn : n ≤ 500) {u v : K}
    (hu0 : 0 ≤ u) (hu1 : u ≤ 1) (hv0 : 0 ≤ v) (hmax : fl (4 * (n : K) * max u v) ≤ 1) :
    0 ≤ wfMutatedF fl n i u v ∧ wfMutatedF fl n i u v ≤ 1 - 1 / 1000 := by
  have he0 := h.unit_nonneg
  have hi : (0 : K) ≤ i := Nat.cast_nonneg i
  have hin : (i : K) + 1 ≤ n := by exact_mod_cast h2
  have hn0 : (0 : K) < n := by linarith
  have hnK : (n : K) ≤ 500 := by exact_mod_cast hn
  have hk0 : 0 ≤ (i : K) / n := div_nonneg hi hn0.le
  have hk1 : (i : K) / n ≤ 1 := by rw [div_le_one hn0]; linarith
  have hkn : (i : K) / n ≤ 1 - 1 / n := by
    rw [le_sub_iff_add_le, ← add_div, div_le_one hn0]; exact hin
  have hv : v * n ≤ 3 / 10 := by
    have hm0 : 0 ≤ max u v := hu0.trans (le_max_left _ _)
    have hx0 : 0 ≤ 4 * (n : K) * max u v := by positivity
    have q := (abs_le.1 (h.near (4 * (n : K) * max u v))).1
    rw [abs_of_nonneg hx0] at q
    have q2 : 4 * (n : K) * max u v ≤ 12 / 10 := by nlinarith
    have := mul_le_mul_of_nonneg_right (le_max_right u v) hn0.le
    linarith
  have hvn : v ≤ 3 / 10 * (1 / n) := by rw [mul_one_div, le_div_iff₀ hn0]; exact hv
  have hinv : (1 : K) / 500 ≤ 1 / n := one_div_le_one_div_of_le hn0 hnK
  have hinv1 : (1 : K) / n ≤ 1 := by rw [div_le_one hn0]; linarith
  unfold wfMutatedF
  simp only
  have k0 := h.nonneg hk0
  have k1 : fl ((i : K) / n) ≤ 1 := by
    have := h.mono _ _ hk0 hk1
    rwa [h.one] at this
  have k2 := fl_upper h hk0 hkn
  obtain ⟨m0, m1, -⟩ := complement_near h hu0 hu1
  obtain ⟨c0, c1, -⟩ := complement_near h k0 k1
  have t0 := mul_nonneg k0 m0
  have t1 : fl (fl ((i : K) / n) * fl (1 - u)) ≤ fl ((i : K) / n) := by
    have := h.mono _ _ t0 (mul_le_of_le_one_right k0 m1)
    rwa [h.idem _ hk0] at this
  have w0 := mul_nonneg c0 hv0
  have w1 := fl_upper h w0 ((mul_le_of_le_one_left hv0 c1).trans hvn)
  have s0 := add_nonneg (h.nonneg t0) (h.nonneg w0)
  refine ⟨h.nonneg s0, (fl_upper h s0 (add_le_add (t1.trans k2) w1)).trans ?_⟩
  have e1 : ((1 - 1 / (n : K)) * (1 + e) + 3 / 10 * (1 / n) * (1 + e)) * (1 + e) =
      (1 - 7 / 10 * (1 / n)) * ((1 + e) * (1 + e)) := by ring
  rw [e1]
  have e2 : (1 + e) * (1 + e) ≤ 1 + 3 / 10 ^ 10 := by nlinarith
  have e3 : (1 - 7 / 10 * (1 / (n : K))) * ((1 + e) * (1 + e)) ≤ (1 - 7 / 10 * (1 / 500)) * (1 + 3 / 10 ^ 10) :=
    mul_le_mul (by linarith) e2 (by positivity) (by norm_num)
  exact e3.trans (by norm_num)

/-- C188, the success probability of the Wright-Fisher model: the denominator is positive and the result lies between zero
and one, as the binomial law requires. -/
theorem C188_probability (h : IsRounding fl e) (he : e ≤ 1 / 10 ^ 10) {n i : ℕ} (h2 : i < n) (hn : n ≤ 500) {s u v : K}
    (hs : -1 ≤ s) (hu0 : 0 ≤ u) (hu1 : u ≤ 1) (hv0 : 0 ≤ v) (hmax : fl (4 * (n : K) * max u v) ≤ 1) :
    0 < fl (fl (fl (wfMutatedF fl n i u v * fl (1 + s)) - wfMutatedF fl n i u v) + 1) ∧
    0 ≤ wfProbF fl n i s u v ∧ wfProbF fl n i s u v ≤ 1 := by
  obtain ⟨p0, p1⟩ := wfMutatedF_bounds h he h2 hn hu0 hu1 hv0 hmax
  have w0 := h.nonneg (mul_nonneg p0 (h.nonneg (by linarith : 0 ≤ 1 + s)))
  have l := fl_lower h p0 (by linarith : -wfMutatedF fl n i u v ≤
    fl (wfMutatedF fl n i u v * fl (1 + s)) - wfMutatedF fl n i u v)
  have he0 := h.unit_nonneg
  have hd : 0 < fl (fl (fl (wfMutatedF fl n i u v * fl (1 + s)) - wfMutatedF fl n i u v) + 1) :=
    fl_pos h (by nlinarith)
  exact ⟨hd, le_min (h.nonneg (div_nonneg w0 hd.le)) zero_le_one, min_le_right _ _⟩

/-- What is assumed of the binomial probabilities that SciPy computes: rounded numbers that are not negative and not all
zero. -/
def PmfSound (fl : K → K) (pmf : ℕ → K → ℕ → K) : Prop :=
  ∀ n p, 0 ≤ p → p ≤ 1 → (∀ j ≤ n, 0 ≤ pmf n p j ∧ fl (pmf n p j) = pmf n p j) ∧ ∃ j ≤ n, 0 < pmf n p j

/-- C188. **Population genetics in floating point**: for every accepted call (and selection intensities up to one for the
Moran model) the matrix has entries in `[0, 1]` and row sums within the tolerance of the constructor. -/
theorem C188_population_partial (h : IsRounding fl e) (he : e ≤ 1 / 10 ^ 10) {pmf : ℕ → K → ℕ → K} (hp : PmfSound fl pmf)
    {model n s u v states : PyVal K} {c : MC K} (hc : populationGeneticsF fl pmf model n s u v states = .ok c)
    (hs : model = .str "moran" → ∀ x, s = .float (.fin x) → x ≤ 1) : AcceptedMatrix c.p := by
  unfold populationGeneticsF at hc
  rw [R.bind_ok] at hc
  obtain ⟨mo, h0, hc⟩ := hc
  rw [R.bind_ok] at hc
  obtain ⟨z, h1, hc⟩ := hc
  rw [R.bind_ok] at hc
  obtain ⟨s', h2, hc⟩ := hc
  rw [R.bind_ok] at hc
  obtain ⟨u', h3, hc⟩ := hc
  rw [R.bind_ok] at hc
  obtain ⟨v', h4, hc⟩ := hc
  rw [R.bind_ok] at hc
  obtain ⟨l, h5, hc⟩ := hc
  rw [validateEnumerator_ok] at h0
  obtain ⟨hmod, hmem⟩ := h0
  rw [C03_integer_limits] at h1
  obtain ⟨rfl, -, hz, hz'⟩ := h1
  have hz := hz 2 rfl
  have hz' := hz'.2 500 rfl
  rw [C03_float_limits] at h2
  obtain ⟨rfl, -, hs0, -⟩ := h2
  have hs0 := hs0 (-1) rfl
  obtain ⟨rfl, hu0, hu1⟩ := validateFloat_closed h3
  obtain ⟨rfl, hv0, hv1⟩ := validateFloat_closed h4
  have hN2 : 2 ≤ z.toNat := by omega
  have hN : z.toNat ≤ 500 := by omega
  have he0 := h.unit_nonneg
  have hNK : (z.toNat : K) ≤ 500 := by exact_mod_cast hN
  have hue : (2 * ((z.toNat + 1 : ℕ) : K) + 1) * e ≤ 1 / 10 ^ 6 := by
    push_cast
    nlinarith
  rw [R.ite_throw] at hc
  obtain ⟨hmut, hc⟩ := hc
  by_cases hmo : mo = "moran"
  · rw [if_pos hmo, R.ite_throw, R.pure_ok] at hc
    obtain ⟨-, rfl⟩ := hc
    have hs1 := hs (by rw [hmod, hmo]) s' rfl
    obtain ⟨m1, m2⟩ := moranRawF_spec h he hN hs0 hs1 hu0 hu1 hv0 hv1
    have k := normalised_accepted h hue m1 fun i => sum_pos' (fun j _ => (m1 i j).1) ⟨i, mem_univ i, m2 i⟩
    exact ⟨by simp only; omega, fun i => (k i).1, fun i => (k i).2.1⟩
  · rw [if_neg hmo, R.pure_ok] at hc
    subst hc
    have hwf : mo = "wright-fisher" := by simpa [hmo] using hmem.2
    have hmax : fl (4 * (z.toNat : K) * max u' v') ≤ 1 := not_lt.1 fun hlt => hmut ⟨hwf, hlt⟩
    have zz : (0 : K) ≤ 0 ∧ fl 0 = 0 := ⟨le_rfl, fl_zero h⟩
    have oo : (0 : K) ≤ 1 ∧ fl 1 = 1 := ⟨zero_le_one, h.one⟩
    have m1 : ∀ i j, 0 ≤ wrightFisherRawF fl pmf z.toNat s' u' v' i j ∧
        fl (wrightFisherRawF fl pmf z.toNat s' u' v' i j) = wrightFisherRawF fl pmf z.toNat s' u' v' i j := by
      intro i j
      have hi := i.isLt
      have hj := j.isLt
      unfold wrightFisherRawF
      split_ifs
      · exact oo
      · exact zz
      · exact oo
      · exact zz
      · obtain ⟨-, q0, q1⟩ := C188_probability h he (by omega : (i : ℕ) < z.toNat) hN hs0 hu0 hu1 hv0 hmax
        exact (hp _ _ q0 q1).1 j (by omega)
    have m2 : ∀ i, 0 < ∑ j, wrightFisherRawF fl pmf z.toNat s' u' v' i j := by
      intro i
      have hi := i.isLt
      by_cases hi0 : (i : ℕ) = 0
      · refine sum_pos' (fun j _ => (m1 i j).1) ⟨i, mem_univ i, ?_⟩
        unfold wrightFisherRawF
        rw [if_pos hi0, if_pos hi0]
        exact one_pos
      by_cases hi1 : (i : ℕ) = z.toNat
      · refine sum_pos' (fun j _ => (m1 i j).1) ⟨i, mem_univ i, ?_⟩
        unfold wrightFisherRawF
        rw [if_neg hi0, if_pos hi1, if_pos hi1]
        exact one_pos
      obtain ⟨-, q0, q1⟩ := C188_probability h he (by omega : (i : ℕ) < z.toNat) hN hs0 hu0 hu1 hv0 hmax
      obtain ⟨j, hj, hj'⟩ := (hp _ _ q0 q1).2
      refine sum_pos' (fun j _ => (m1 i j).1) ⟨(⟨j, Nat.lt_succ_of_le hj⟩ : Fin (z.toNat + 1)), mem_univ _, ?_⟩
      unfold wrightFisherRawF
      rw [if_neg hi0, if_neg hi1]
      exact hj'
    have k := normalised_accepted h hue m1 m2
    exact ⟨by simp only; omega, fun i => (k i).1, fun i => (k i).2.1⟩

/-- Zeros and at most one one are added without rounding. -/
theorem foldl_unit (h : IsRounding fl e) (l : List K) (hl : ∀ x ∈ l, x = 0 ∨ x = 1) {a : K} (ha : a = 0 ∨ a = 1)
    (hs : a + l.sum ≤ 1) : l.foldl (fun x y => fl (x + y)) a = a + l.sum := by
  induction l generalizing a with
  | nil => simp
  | cons b l ih =>
    have hl' : ∀ x ∈ l, x = 0 ∨ x = 1 := fun x hx => hl x (List.mem_cons_of_mem _ hx)
    have h0 : 0 ≤ l.sum := List.sum_nonneg fun x hx => by rcases hl' x hx with rfl | rfl <;> norm_num
    rw [List.sum_cons, ← add_assoc] at hs
    have hab : a + b = 0 ∨ a + b = 1 := by
      rcases ha with rfl | rfl <;> rcases hl b List.mem_cons_self with rfl | rfl
      · left; ring
      · right; ring
      · right; ring
      · exfalso; linarith
    have hfl : fl (a + b) = a + b := by
      rcases hab with hab | hab <;> rw [hab]
      · exact fl_zero h
      · exact h.one
    rw [List.foldl_cons, hfl, ih hl' hab hs, List.sum_cons, add_assoc]

/-- A row with a single one is not changed by the division. -/
theorem unit_row (h : IsRounding fl e) {m : ℕ} {M : Matrix (Fin m) (Fin m) K} {i k : Fin m}
    (hM : ∀ j, M i j = if j = k then 1 else 0) (j : Fin m) :
    normalizeRowsF (Arith.rounded fl) M i j = if j = k then 1 else 0 := by
  have hsum : (List.ofFn fun l => M i l).sum = 1 := by
    rw [List.sum_ofFn]; simp [hM]
  have hmem : ∀ x ∈ List.ofFn (fun l => M i l), x = 0 ∨ x = 1 := by
    intro x hx
    obtain ⟨l, rfl⟩ := List.mem_ofFn.1 hx
    rw [hM]; split_ifs <;> simp
  have hF : (Arith.rounded fl).sum (List.ofFn fun l => M i l) = 1 := by
    revert hsum hmem
    generalize (List.ofFn fun l => M i l) = l
    intro hsum hmem
    cases l with
    | nil => simp at hsum
    | cons a l =>
      change l.foldl (fun x y => fl (x + y)) a = 1
      rw [List.sum_cons] at hsum
      rw [foldl_unit h l (fun x hx => hmem x (List.mem_cons_of_mem _ hx)) (hmem a List.mem_cons_self) hsum.le, hsum]
  unfold normalizeRowsF
  rw [hF, hM]
  change fl (_ / 1) = _
  rw [div_one]
  split_ifs
  · exact h.one
  · exact fl_zero h

/-- C188: the first and the last states of both models are absorbing, without any rounding error, for all accepted
parameters. -/
theorem C188_absorbing (h : IsRounding fl e) {pmf : ℕ → K → ℕ → K} {model n s u v states : PyVal K} {c : MC K}
    (hc : populationGeneticsF fl pmf model n s u v states = .ok c) (i : Fin c.n) (hi : (i : ℕ) = 0 ∨ (i : ℕ) = c.n - 1)
    (j : Fin c.n) : c.p i j = if j = i then 1 else 0 := by
  unfold populationGeneticsF at hc
  rw [R.bind_ok] at hc
  obtain ⟨mo, h0, hc⟩ := hc
  rw [R.bind_ok] at hc
  obtain ⟨z, h1, hc⟩ := hc
  rw [R.bind_ok] at hc
  obtain ⟨s', h2, hc⟩ := hc
  rw [R.bind_ok] at hc
  obtain ⟨u', h3, hc⟩ := hc
  rw [R.bind_ok] at hc
  obtain ⟨v', h4, hc⟩ := hc
  rw [R.bind_ok] at hc
  obtain ⟨l, h5, hc⟩ := hc
  rw [R.ite_throw] at hc
  obtain ⟨-, hc⟩ := hc
  by_cases hmo : mo = "moran"
  · rw [if_pos hmo, R.ite_throw, R.pure_ok] at hc
    obtain ⟨-, rfl⟩ := hc
    refine unit_row h (fun j => ?_) j
    simp only at hi
    unfold moranRawF
    by_cases hi0 : (i : ℕ) = 0
    · rw [if_pos hi0]; simp only [Fin.ext_iff, hi0]
    · have hiz : (i : ℕ) = z.toNat := by omega
      rw [if_neg hi0, if_pos hiz]; simp only [Fin.ext_iff, hiz]
  · rw [if_neg hmo, R.pure_ok] at hc
    subst hc
    refine unit_row h (fun j => ?_) j
    simp only at hi
    unfold wrightFisherRawF
    by_cases hi0 : (i : ℕ) = 0
    · rw [if_pos hi0]; simp only [Fin.ext_iff, hi0]
    · have hiz : (i : ℕ) = z.toNat := by omega
      rw [if_neg hi0, if_pos hiz]; simp only [Fin.ext_iff, hiz]

/-- C188, the test for a zero denominator in the Moran model: it never applies for intensities up to one, with and without
rounding. -/
theorem C188_no_division_by_zero (h : IsRounding fl e) {n i : ℕ} (h2 : i < n) {s : K} (hs : s ≤ 1) :
    0 < fl (moranShareF fl i s + ((n : K) - i)) := by
  have hin : (i : K) + 1 ≤ n := by exact_mod_cast h2
  have hr : 0 ≤ moranShareF fl i s := h.nonneg (mul_nonneg (h.nonneg (by linarith)) (Nat.cast_nonneg i))
  exact fl_pos h (by linarith)

omit [IsStrictOrderedRing K] in
/-- C188: without rounding and with exact binomial probabilities the method is that of C09 and C10. -/
theorem C188_exact (model n s u v states : PyVal K) :
    populationGeneticsF id binomPmf model n s u v states = populationGenetics model n s u v states := by
  have hnorm : ∀ {m : ℕ} (M : Matrix (Fin m) (Fin m) K), normalizeRowsF (Arith.rounded id) M = normalizeRows M := by
    intro m M
    funext i j
    simp only [normalizeRowsF, normalizeRows, sum_id, List.sum_ofFn]
    rfl
  unfold populationGeneticsF populationGenetics
  simp only [hnorm]
  rfl

/-- The exact binomial probabilities, rounded, are as assumed. -/
theorem pmf_sound (h : IsRounding fl e) : PmfSound fl fun n p j => fl (binomPmf n p j) := by
  intro n p p0 p1
  have q : 0 ≤ 1 - p := by linarith
  have hb : ∀ j, 0 ≤ binomPmf n p j := fun j => by unfold binomPmf; positivity
  refine ⟨fun j _ => ⟨h.nonneg (hb j), h.idem _ (hb j)⟩, ?_⟩
  by_contra hcon
  push Not at hcon
  have hz : ∀ j : Fin (n + 1), binomPmf n p j = 0 := by
    intro j
    rcases (hb j).lt_or_eq with hj | hj
    · exact absurd (fl_pos h hj) (not_lt.2 (hcon j (by omega)))
    · exact hj.symm
  have hsum := binomPmf_sum n p
  rw [sum_eq_zero fun j _ => hz j] at hsum
  exact zero_ne_one hsum

/-- C188 for doubles. -/
theorem C188_double_partial {model n s u v states : PyVal ℚ} {c : MC ℚ}
    (hc : populationGeneticsF binary64 (fun n p j => binary64 (binomPmf n p j)) model n s u v states = .ok c)
    (hs : model = .str "moran" → ∀ x, s = .float (.fin x) → x ≤ 1) : AcceptedMatrix c.p :=
  C188_population_partial binary64_rounding (by norm_num) (pmf_sound binary64_rounding) hc hs

/-- C188: above one the Moran model has negative entries in floating point as well. -/
theorem C188_negative : ∃ c : MC ℚ,
    populationGeneticsF binary64 binomPmf (.str "moran") (.int 3) (.float (.fin 2)) (.float (.fin 0))
      (.float (.fin 0)) .none = .ok c ∧ ∃ i j, c.p i j < 0 := by
  have h0 : validateEnumerator (.str "moran" : PyVal ℚ) ["moran", "wright-fisher"] =
      .ok "moran" := by decide +kernel
  have h1 : validateInteger (.int 3 : PyVal ℚ) (some (2, false)) (some (500, false)) = .ok 3 := by
    decide +kernel
  have h2 : validateFloat (.float (.fin 2) : PyVal ℚ) (some (-1, false)) none = .ok 2 := by
    decide +kernel
  have h3 : validateFloat (.float (.fin 0) : PyVal ℚ) (some (0, false)) (some (1, false)) =
      .ok 0 := by decide +kernel
  refine ⟨⟨4, normalizeRowsF (Arith.rounded binary64) (moranRawF binary64 3 2 0 0), createLabels 4 ""⟩, ?_, 2, 1, ?_⟩
  · unfold populationGeneticsF
    rw [h0]
    rw [R.ok_bind, h1, R.ok_bind, h2, R.ok_bind, h3, R.ok_bind, R.ok_bind]
    change (if _ then _ else _) = _
    rw [if_neg (by decide +kernel)]
    rfl
  · decide +kernel

/-- C188: calls of both models with doubles that are accepted. -/
theorem C188_accepts :
    (∃ c : MC ℚ, populationGeneticsF binary64 (fun n p j => binary64 (binomPmf n p j)) (.str "moran") (.int 3)
      (.float (.fin (1 / 2))) (.float (.fin 0)) (.float (.fin 0)) .none = .ok c) ∧
    ∃ c : MC ℚ, populationGeneticsF binary64 (fun n p j => binary64 (binomPmf n p j)) (.str "wright-fisher") (.int 3)
      (.float (.fin (1 / 2))) (.float (.fin 0)) (.float (.fin 0)) .none = .ok c := by
  have h0 : validateEnumerator (.str "moran" : PyVal ℚ) ["moran", "wright-fisher"] = .ok "moran" := by decide +kernel
  have h0' : validateEnumerator (.str "wright-fisher" : PyVal ℚ) ["moran", "wright-fisher"] = .ok "wright-fisher" := by
    decide +kernel
  have h1 : validateInteger (.int 3 : PyVal ℚ) (some (2, false)) (some (500, false)) = .ok 3 := by
    decide +kernel
  have h2 : validateFloat (.float (.fin (1 / 2)) : PyVal ℚ) (some (-1, false)) none = .ok (1 / 2) := by
    decide +kernel
  have h3 : validateFloat (.float (.fin 0) : PyVal ℚ) (some (0, false)) (some (1, false)) =
      .ok 0 := by decide +kernel
  constructor
  · refine ⟨⟨4, normalizeRowsF (Arith.rounded binary64) (moranRawF binary64 3 (1 / 2) 0 0), createLabels 4 ""⟩, ?_⟩
    unfold populationGeneticsF
    rw [h0]
    rw [R.ok_bind, h1, R.ok_bind, h2, R.ok_bind, h3, R.ok_bind, R.ok_bind]
    change (if _ then _ else _) = _
    rw [if_neg (by decide +kernel)]
    rfl
  · refine ⟨⟨4, normalizeRowsF (Arith.rounded binary64)
      (wrightFisherRawF binary64 (fun n p j => binary64 (binomPmf n p j)) 3 (1 / 2) 0 0), createLabels 4 ""⟩, ?_⟩
    unfold populationGeneticsF
    rw [h0']
    rw [R.ok_bind, h1, R.ok_bind, h2, R.ok_bind, h3, R.ok_bind, R.ok_bind]
    change (if _ then _ else _) = _
    rw [if_neg (by decide +kernel)]
    rfl

end Verif
