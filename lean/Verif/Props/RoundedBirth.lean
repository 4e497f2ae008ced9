import Verif.Model.RoundedBirth
import Verif.Props.Transform
import Verif.Props.RoundedFitting
import Verif.Props.RoundedEntropy
import Verif.Props.RoundedChains

/-!
# Birth-death chains with rounding

C182: the probabilities to stay are computed as `1 - q - p`, which may be negative for accepted vectors. The
matrix is nevertheless nonnegative, its rows sum to one up to a few roundings, and its entries are those of
the definition up to `1e-7`.
-/

namespace Verif

open Finset

variable {K : Type} [Field K] [LinearOrder K] [IsStrictOrderedRing K] {u : K} {fl : K → K} {F : Arith K}

theorem birthDeathF_facts {p q states : PyVal K} {c : MC K} (h : birthDeathF fl F p q states = .ok c) :
    ∃ a b : List K, validateVector p .creation false none = .ok a ∧
      validateVector q .annihilation false none = .ok b ∧ a.length = c.n ∧ b.length = c.n ∧
      c.p = birthDeathMatrixF fl F (listVec a c.n) (listVec b c.n) ∧ ValidLabels c.n c.states ∧
      (∀ i : Fin c.n, 0 ≤ listVec a c.n i ∧ listVec a c.n i ≤ 1) ∧
      (∀ i : Fin c.n, 0 ≤ listVec b c.n i ∧ listVec b c.n i ≤ 1) ∧
      (∀ i : Fin c.n, fl (listVec b c.n i + listVec a c.n i) ≤ 1) ∧
      (∀ i : Fin c.n, (i : ℕ) = c.n - 1 → listVec a c.n i ≤ 1 / 10 ^ 8) ∧
      (∀ i : Fin c.n, (i : ℕ) = 0 → listVec b c.n i ≤ 1 / 10 ^ 8) := by
  unfold birthDeathF at h
  rw [R.bind_ok] at h
  obtain ⟨a, h1, h⟩ := h
  rw [R.bind_ok] at h
  obtain ⟨b, h2, h⟩ := h
  rw [R.bind_ok] at h
  obtain ⟨l, h3, h⟩ := h
  rw [R.ite_throw, R.ite_throw, R.pure_ok] at h
  obtain ⟨h4, h5, rfl⟩ := h
  rw [not_not] at h4 h5
  have v1 := validateVector_ok h1
  have v2 := validateVector_ok h2
  refine ⟨a, b, h1, h2, rfl, h4.symm, rfl, labelsOrDefault_sound h3, ?_, ?_, h5, ?_, ?_⟩
  · exact fun i => v1.2.1 _ (listVec_mem rfl i)
  · exact fun i => v2.2.1 _ (listVec_mem h4.symm i)
  · intro i hi
    obtain ⟨hne, hc⟩ := v1.2.2.2.1 rfl
    have e : listVec a a.length i = a.getLastD 0 := by
      simp only at hi
      rw [List.getLastD_eq_getLast?, List.getLast?_eq_getElem?]
      unfold listVec
      rw [List.getD_eq_getElem?_getD, hi]
    rw [← e, isclose_zero (v1.2.1 _ (listVec_mem rfl i)).1] at hc
    exact hc
  · intro i hi
    obtain ⟨hne, hc⟩ := v2.2.2.1 rfl
    have e : listVec b a.length i = b.headD 0 := by
      unfold listVec
      rw [hi, List.headD_eq_head?_getD, List.getD_eq_getElem?_getD, List.head?_eq_getElem?]
    rw [← e, isclose_zero (v2.2.1 _ (listVec_mem h4.symm i)).1] at hc
    exact hc

/-- The cube of the factor for a small unit. -/
theorem cube_factor (hu0 : 0 ≤ u) (hu : u ≤ 1 / 10 ^ 9) :
    1 ≤ (1 / (1 - u)) ^ 3 ∧ (1 / (1 - u)) ^ 3 ≤ 101 / 100 := by
  have hu1 : u < 1 := hu.trans_lt (by norm_num)
  refine ⟨one_le_pow₀ (one_le_factor hu0 hu1), ?_⟩
  have h2 : 1 / (1 - u) ≤ 1001 / 1000 := by
    rw [div_le_div_iff₀ (by linarith) (by norm_num)]
    norm_num at hu ⊢
    linarith
  have h3 : 0 ≤ 1 / (1 - u) := zero_le_one.trans (one_le_factor hu0 hu1)
  calc (1 / (1 - u)) ^ 3 ≤ (1001 / 1000 : K) ^ 3 := pow_le_pow_left₀ h3 h2 3
    _ ≤ 101 / 100 := by norm_num

/-- The probabilities to stay are accurate up to three units, and not much below zero. -/
theorem stayF_near (hfl : IsRounding fl u) (hu : u ≤ 1 / 10 ^ 9) {n : ℕ} {p q : Fin n → K} (i : Fin n)
    (hp : 0 ≤ p i ∧ p i ≤ 1) (hq : 0 ≤ q i ∧ q i ≤ 1) (hs : fl (q i + p i) ≤ 1) :
    |stayF fl p q i - (1 - q i - p i)| ≤ 3 * u ∧ -(5 * u) ≤ stayF fl p q i := by
  have hu0 := hfl.unit_nonneg
  have hu1 : u ≤ 1 / 4 := hu.trans (by norm_num)
  unfold stayF
  have e1 := hfl.near (1 - q i)
  rw [abs_of_nonneg (by linarith : 0 ≤ 1 - q i)] at e1
  have e1' : |fl (1 - q i) - (1 - q i)| ≤ u :=
    e1.trans (by nlinarith [hq.1])
  have e2 := hfl.near (fl (1 - q i) - p i)
  have hb : |fl (1 - q i) - p i| ≤ 1 + u := by
    rw [abs_le] at e1' ⊢
    constructor <;> linarith
  have e2' : |fl (fl (1 - q i) - p i) - (fl (1 - q i) - p i)| ≤ 2 * u :=
    e2.trans ((mul_le_mul_of_nonneg_left hb hu0).trans (by nlinarith))
  have e3 := hfl.near (q i + p i)
  rw [abs_of_nonneg (by linarith : 0 ≤ q i + p i)] at e3
  have e3' : |fl (q i + p i) - (q i + p i)| ≤ 2 * u :=
    e3.trans ((mul_le_mul_of_nonneg_left (by linarith : q i + p i ≤ 2) hu0).trans (by linarith))
  rw [abs_le] at e1' e2' e3' ⊢
  refine ⟨⟨?_, ?_⟩, ?_⟩ <;> linarith

/-- Entries that are set to zero are small; the others are kept. Entries that are slightly negative are set
to zero. -/
theorem zeroSmallF_near (hfl : IsRounding fl u) (hu : u ≤ 1 / 10 ^ 9) {m n : ℕ} {M : Matrix (Fin m) (Fin n) K}
    {i : Fin m} {j : Fin n} (h : -(5 * u) ≤ M i j) :
    0 ≤ zeroSmallF fl M i j ∧ |zeroSmallF fl M i j - M i j| ≤ 101 / 100 / 10 ^ 8 := by
  have hu0 := hfl.unit_nonneg
  obtain ⟨c1, c2⟩ := cube_factor hu0 hu
  obtain ⟨z1, z2⟩ := iscloseF_zero hu0 hfl.unit_lt hfl.near (M i j)
  unfold zeroSmallF
  split
  · rename_i hz
    refine ⟨le_rfl, ?_⟩
    rw [zero_sub, abs_neg]
    by_contra hc
    have : (1 / (1 - u)) ^ 3 / 10 ^ 8 < |M i j| :=
      lt_of_le_of_lt (div_le_div_of_nonneg_right c2 (by positivity)) (not_le.1 hc)
    rw [z1 this] at hz
    cases hz
  · rename_i hz
    refine ⟨?_, by rw [sub_self, abs_zero]; positivity⟩
    by_contra hc
    push Not at hc
    refine hz (z2 ?_)
    have h1 : |M i j| ≤ 5 * u := by
      rw [abs_of_neg hc]
      linarith
    calc (1 / (1 - u)) ^ 3 * |M i j| ≤ 101 / 100 * (5 * u) :=
          mul_le_mul c2 h1 (abs_nonneg _) (by norm_num)
      _ ≤ 1 / 10 ^ 8 := by norm_num at hu ⊢; linarith

/-- The rows of the exact matrix, but for the corner values, sum to one. -/
theorem birthDeathRaw_sum {n : ℕ} (p q : Fin n → K) (i : Fin n) :
    ∑ j, birthDeathRaw p q i j =
      1 - (if (i : ℕ) = n - 1 then p i else 0) - (if (i : ℕ) = 0 then q i else 0) := by
  have e : ∀ j, birthDeathRaw p q i j =
      (if (j : ℕ) = i then 1 - q i - p i else 0) +
      ((if (j : ℕ) = i + 1 then p i else 0) + (if (j : ℕ) + 1 = i then q i else 0)) := by
    intro j
    unfold birthDeathRaw
    split_ifs <;> first | omega | ring
  simp only [e, Finset.sum_add_distrib]
  rw [sum_single i.isLt]
  have e1 : ∑ j : Fin n, (if (j : ℕ) = i + 1 then p i else 0) = p i - (if (i : ℕ) = n - 1 then p i else 0) := by
    have := i.isLt
    by_cases hi : (i : ℕ) = n - 1
    · rw [if_pos hi, sub_self]
      exact sum_eq_zero fun j _ => if_neg (by omega)
    · rw [if_neg hi, sub_zero]
      exact sum_single (by omega) _
  have e2 : ∑ j : Fin n, (if (j : ℕ) + 1 = i then q i else 0) = q i - (if (i : ℕ) = 0 then q i else 0) := by
    have := i.isLt
    by_cases hi : (i : ℕ) = 0
    · rw [if_pos hi, sub_self]
      exact sum_eq_zero fun j _ => if_neg (by omega)
    · rw [if_neg hi, sub_zero]
      refine Eq.trans (Finset.sum_congr rfl fun j _ => ?_)
        (sum_single (n := n) (k := i - 1) (by omega) (q i))
      have : ((j : ℕ) + 1 = i) ↔ (j : ℕ) = i - 1 := by omega
      simp only [this]
  rw [e1, e2]
  ring

/-- A sum with at most three terms. -/
theorem three_terms {n : ℕ} (i : Fin n) (g : Fin n → K) {B : K} (hB : 0 ≤ B) (h : ∀ j, |g j| ≤ B)
    (hz : ∀ j : Fin n, (j : ℕ) ≠ i → (j : ℕ) ≠ i + 1 → (j : ℕ) + 1 ≠ i → g j = 0) : |∑ j, g j| ≤ 3 * B := by
  have one : ∀ k : ℕ, ∑ j : Fin n, (if (j : ℕ) = k then B else 0) ≤ B := by
    intro k
    by_cases hk : k < n
    · rw [sum_single hk]
    · rw [sum_eq_zero fun j _ => if_neg (by have := j.isLt; omega)]
      exact hB
  have hle : ∀ j : Fin n, |g j| ≤ (if (j : ℕ) = (i : ℕ) then B else 0) +
      ((if (j : ℕ) = i + 1 then B else 0) + (if (j : ℕ) = i - 1 then B else 0)) := by
    intro j
    by_cases h1 : (j : ℕ) = i
    · rw [if_pos h1]
      have : 0 ≤ (if (j : ℕ) = i + 1 then B else 0) + (if (j : ℕ) = i - 1 then B else 0) := by
        split_ifs <;> linarith
      linarith [h j]
    by_cases h2 : (j : ℕ) = i + 1
    · rw [if_pos h2]
      have : 0 ≤ (if (j : ℕ) = (i : ℕ) then B else 0) ∧ 0 ≤ (if (j : ℕ) = i - 1 then B else 0) := by
        constructor <;> split_ifs <;> linarith
      linarith [h j]
    by_cases h3 : (j : ℕ) + 1 = i
    · rw [if_pos (show (j : ℕ) = i - 1 by omega)]
      have : 0 ≤ (if (j : ℕ) = (i : ℕ) then B else 0) ∧ 0 ≤ (if (j : ℕ) = i + 1 then B else 0) := by
        constructor <;> split_ifs <;> linarith
      linarith [h j]
    · rw [hz j h1 h2 h3, abs_zero]
      split_ifs <;> linarith
  refine (abs_sum_le_sum_abs _ _).trans ((sum_le_sum fun j _ => hle j).trans ?_)
  rw [sum_add_distrib, sum_add_distrib]
  linarith [one i, one (i + 1), one (i - 1)]

/-- C182. In every arithmetic with `(n + 10) u ≤ 1e-8`, the chain that is returned has nonnegative
probabilities, also if the computed probabilities to stay were negative. It has only transitions between
neighbours, its rows sum to one up to `n + 1` roundings, and every probability is at most `1e-7` away from its
definition. -/
theorem C182_birth_death (hfl : IsRounding fl u) (hF : F.Sound u) {p q states : PyVal K} {c : MC K}
    (h : birthDeathF fl F p q states = .ok c) (hn : ((c.n : K) + 10) * u ≤ 1 / 10 ^ 8) :
    (∀ i j, 0 ≤ c.p i j) ∧
    (∀ i j : Fin c.n, (j : ℕ) ≠ i → (j : ℕ) ≠ i + 1 → (i : ℕ) ≠ j + 1 → c.p i j = 0) ∧
    (∀ i, Acc (1 / (1 - u)) (c.n + 1) (∑ j, c.p i j) 1) ∧
    ∃ a b : List K, validateVector p .creation false none = .ok a ∧
      validateVector q .annihilation false none = .ok b ∧
      ∀ i j, |c.p i j - birthDeathRaw (listVec a c.n) (listVec b c.n) i j| ≤ 1 / 10 ^ 7 := by
  obtain ⟨a, b, h1, h2, ha, hb, hp, hl, ha0, hb0, hab, hlast, hfirst⟩ := birthDeathF_facts h
  obtain ⟨n, P, st⟩ := c
  simp only at *
  subst hp
  have hu0 := hfl.unit_nonneg
  have hf1 := hF.one_le
  have hn0 : (0 : K) ≤ n := Nat.cast_nonneg n
  have hu : u ≤ 1 / 10 ^ 9 := by
    norm_num at hn ⊢
    nlinarith
  have hnu : ((n + 1 : ℕ) : K) * u ≤ 1 / 10 ^ 8 := by
    push_cast
    nlinarith
  obtain ⟨A, hA⟩ : ∃ A, A = listVec a n := ⟨_, rfl⟩
  obtain ⟨B, hB⟩ : ∃ B, B = listVec b n := ⟨_, rfl⟩
  rw [← hA] at ha0 hab hlast
  rw [← hB] at hb0 hab hfirst
  have hst := fun i => stayF_near (p := A) (q := B) hfl hu i (ha0 i) (hb0 i) (hab i)
  have hraw : ∀ i j, -(5 * u) ≤ birthDeathRawF fl A B i j := by
    intro i j
    unfold birthDeathRawF
    split_ifs
    · exact (hst i).2
    · linarith [(ha0 i).1]
    · linarith [(hb0 i).1]
    · linarith
  have hdiff : ∀ i j, |birthDeathRawF fl A B i j - birthDeathRaw A B i j| ≤ 3 * u := by
    intro i j
    unfold birthDeathRawF birthDeathRaw
    split_ifs
    · exact (hst i).1
    all_goals rw [sub_self, abs_zero]; linarith
  obtain ⟨Z, hZ⟩ : ∃ Z, Z = zeroSmallF fl (birthDeathRawF fl A B) := ⟨_, rfl⟩
  have hZn : ∀ i j, 0 ≤ Z i j := fun i j => hZ ▸ (zeroSmallF_near hfl hu (hraw i j)).1
  have hZd : ∀ i j, |Z i j - birthDeathRaw A B i j| ≤ 101 / 100 / 10 ^ 8 + 3 * u := by
    intro i j
    have e1 := (zeroSmallF_near hfl hu (hraw i j)).2
    rw [← hZ] at e1
    have e2 := hdiff i j
    calc |Z i j - birthDeathRaw A B i j|
        = |(Z i j - birthDeathRawF fl A B i j) + (birthDeathRawF fl A B i j - birthDeathRaw A B i j)| := by
          congr 1; ring
      _ ≤ _ := (abs_add_le _ _).trans (add_le_add e1 e2)
  have hZ0 : ∀ i j : Fin n, (j : ℕ) ≠ i → (j : ℕ) ≠ i + 1 → (j : ℕ) + 1 ≠ i → Z i j = 0 := by
    intro i j n1 n2 n3
    rw [hZ]
    unfold zeroSmallF birthDeathRawF
    rw [if_neg n1, if_neg n2, if_neg n3, ite_self]
  have hS : ∀ i, |∑ j, Z i j - 1| ≤ 6 / 10 ^ 8 := by
    intro i
    have e1 := three_terms i (fun j => Z i j - birthDeathRaw A B i j) (by positivity) (hZd i) (by
      intro j n1 n2 n3
      rw [hZ0 i j n1 n2 n3]
      unfold birthDeathRaw
      rw [if_neg n1, if_neg n2, if_neg n3, sub_self])
    rw [sum_sub_distrib, birthDeathRaw_sum] at e1
    have e2 : 0 ≤ (if (i : ℕ) = n - 1 then A i else 0) ∧ (if (i : ℕ) = n - 1 then A i else 0) ≤ 1 / 10 ^ 8 := by
      split_ifs with hi
      · exact ⟨(ha0 i).1, hlast i hi⟩
      · exact ⟨le_rfl, by positivity⟩
    have e3 : 0 ≤ (if (i : ℕ) = 0 then B i else 0) ∧ (if (i : ℕ) = 0 then B i else 0) ≤ 1 / 10 ^ 8 := by
      split_ifs with hi
      · exact ⟨(hb0 i).1, hfirst i hi⟩
      · exact ⟨le_rfl, by positivity⟩
    generalize (if (i : ℕ) = n - 1 then A i else 0) = x at *
    generalize (if (i : ℕ) = 0 then B i else 0) = y at *
    have hu9 := hu
    rw [abs_le] at e1 ⊢
    norm_num at e1 e2 e3 hu9 ⊢
    constructor <;> linarith
  have hSpos : ∀ i, 0 < ∑ j, Z i j := by
    intro i
    have := abs_le.1 (hS i)
    norm_num at this
    linarith
  have hfill : fillNullRows Z = Z := by
    funext i j
    unfold fillNullRows
    rw [if_neg]
    intro h0
    have := hSpos i
    rw [sum_eq_zero fun j _ => h0 j] at this
    exact lt_irrefl _ this
  have hM : birthDeathMatrixF fl F A B = normalizeRowsF F Z := by
    unfold birthDeathMatrixF
    rw [← hZ, hfill]
  rw [← hA, ← hB, hM]
  have hacc : ∀ i j, Acc (1 / (1 - u)) (n + 1) (normalizeRowsF F Z i j) (Z i j / ∑ l, Z i l) := by
    intro i j
    exact (Acc.div hF (Acc.refl (hZn i j)) (Acc.sum hF fun l => Acc.refl (hZn i l)) (hSpos i)).mono hf1 (by omega)
  refine ⟨fun i j => (hacc i j).nonneg hf1, ?_, ?_, a, b, h1, h2, ?_⟩
  · intro i j n1 n2 n3
    have e := hacc i j
    rw [hZ0 i j n1 n2 (by omega), zero_div] at e
    have e1 := e.pos_iff hf1
    exact le_antisymm (not_lt.1 fun hc => lt_irrefl _ (e1.1 hc)) (e.nonneg hf1)
  · intro i
    have e := Acc.total (hacc i)
    rwa [← sum_div, div_self (hSpos i).ne'] at e
  · intro i j
    rw [← hA, ← hB]
    have hz1 : Z i j / ∑ l, Z i l ≤ 1 := by
      rw [div_le_one (hSpos i)]
      exact single_le_sum (fun l _ => hZn i l) (mem_univ j)
    have hz0 : 0 ≤ Z i j / ∑ l, Z i l := div_nonneg (hZn i j) (hSpos i).le
    have e1 := Acc.relative hF (hnu.trans (by norm_num)) (hacc i j)
    have e1' : |normalizeRowsF F Z i j - Z i j / ∑ l, Z i l| ≤ 2 * (1 / 10 ^ 8) := by
      refine e1.trans ?_
      calc 2 * (((n + 1 : ℕ) : K) * u) * (Z i j / ∑ l, Z i l) ≤ 2 * (1 / 10 ^ 8) * 1 :=
            mul_le_mul (mul_le_mul_of_nonneg_left hnu zero_le_two) hz1 hz0 (by positivity)
        _ = 2 * (1 / 10 ^ 8) := mul_one _
    have e2 : |Z i j / ∑ l, Z i l - Z i j| ≤ 6 / 10 ^ 8 := by
      have : Z i j / ∑ l, Z i l - Z i j = (Z i j / ∑ l, Z i l) * -(∑ l, Z i l - 1) := by
        have := (hSpos i).ne'
        field_simp
        ring
      rw [this, abs_mul, abs_neg, abs_of_nonneg hz0]
      calc Z i j / (∑ l, Z i l) * |∑ l, Z i l - 1| ≤ 1 * (6 / 10 ^ 8) :=
            mul_le_mul hz1 (hS i) (abs_nonneg _) zero_le_one
        _ = _ := one_mul _
    have e3 := hZd i j
    rw [abs_le] at e1' e2 e3 ⊢
    norm_num at e1' e2 e3 hu ⊢
    constructor <;> linarith

/-- Without rounding the program is the one of C11. -/
theorem C182_exact (p q states : PyVal K) :
    birthDeathF id Arith.exact p q states = birthDeath p q states := by
  have hz : ∀ x : K, iscloseF id x 0 = isclose x 0 := by
    intro x
    unfold iscloseF isclose
    simp
  have hm : ∀ {n : ℕ} (a b : Fin n → K), birthDeathMatrixF id Arith.exact a b = birthDeathMatrix a b := by
    intro n a b
    unfold birthDeathMatrixF birthDeathMatrix
    have : zeroSmallF id (birthDeathRawF id a b) = zeroSmall (birthDeathRaw a b) := by
      funext i j
      unfold zeroSmallF zeroSmall
      rw [hz]
      rfl
    rw [this]
    funext i j
    unfold normalizeRowsF normalizeRows
    change _ / List.sum (List.ofFn _) = _
    rw [List.sum_ofFn]
  unfold birthDeathF birthDeath
  simp only [hm, id]

/-! ## Rounding to 53 bits -/

/-- In binary arithmetic with 53 bits the bounds hold up to ninety million states. -/
theorem C182_double {p q states : PyVal ℚ} {c : MC ℚ}
    (h : birthDeathF binary64 (Arith.rounded binary64) p q states = .ok c) (hn : c.n ≤ 90000000) :
    (∀ i j, 0 ≤ c.p i j) ∧
    (∀ i, Acc (1 / (1 - 1 / 2 ^ 53 : ℚ)) (c.n + 1) (∑ j, c.p i j) 1) ∧
    ∃ a b : List ℚ, validateVector p .creation false none = .ok a ∧
      validateVector q .annihilation false none = .ok b ∧
      ∀ i j, |c.p i j - birthDeathRaw (listVec a c.n) (listVec b c.n) i j| ≤ 1 / 10 ^ 7 := by
  have hn' : (c.n : ℚ) ≤ 90000000 := by exact_mod_cast hn
  obtain ⟨h1, -, h3, h4⟩ := C182_birth_death binary64_rounding binary64_sound h (by
    norm_num
    linarith)
  exact ⟨h1, h3, h4⟩

/-- The case that needs the comparison with zero: the sum of `1` and `2 ^ -53` rounds to one, so that the
vectors are accepted, but `1 - q - p` is negative. -/
theorem C182_negative_stay : binary64 (1 / 2 ^ 53 + 1) ≤ 1 ∧
    stayF binary64 (n := 1) (fun _ => 1) (fun _ => 1 / 2 ^ 53) 0 < 0 := by
  decide +kernel

/-- Such vectors are accepted. -/
theorem C182_instance : ∃ c : MC ℚ,
    birthDeathF binary64 (Arith.rounded binary64) (floatVec ![1 / 2, 1, 0]) (floatVec ![0, 1 / 2 ^ 53, 1]) .none
      = .ok c ∧ c.n = 3 := by
  have h : ((birthDeathF binary64 (Arith.rounded binary64) (floatVec ![1 / 2, 1, 0])
      (floatVec ![0, 1 / 2 ^ 53, 1]) .none).toOption.map fun c => c.n) = some 3 := by
    decide +kernel
  rcases hr : birthDeathF binary64 (Arith.rounded binary64) (floatVec ![1 / 2, 1, 0])
      (floatVec ![0, 1 / 2 ^ 53, 1]) .none with e | c
  · rw [hr] at h
    cases h
  · rw [hr] at h
    exact ⟨c, rfl, Option.some.inj h⟩

end Verif
