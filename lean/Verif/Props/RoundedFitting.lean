import Verif.Model.RoundedFitting
import Verif.Props.Fitting
import Verif.Props.RoundedMeasures
import Verif.Lemmas.Double

/-!
# Fitting chains to sequences with rounding (C180)
-/

namespace Verif

open Finset

variable {K : Type} [Field K] [LinearOrder K] [IsStrictOrderedRing K] {F : Arith K} {u : K}

/-- Sums and differences of natural numbers up to `B` are exact, as with doubles for `B = 2^53`. -/
structure CountsExact (F : Arith K) (B : ℕ) : Prop where
  add : ∀ a b : ℕ, a + b ≤ B → F.add (a : K) (b : K) = ((a + b : ℕ) : K)
  sub : ∀ a b : ℕ, b ≤ a → a ≤ B → F.add (a : K) (-(b : K)) = ((a - b : ℕ) : K)
  sum : ∀ l : List ℕ, l.sum ≤ B → F.sum (l.map fun k : ℕ => (k : K)) = ((l.sum : ℕ) : K)

/-- A rounding that keeps the natural numbers up to `B` satisfies the contract. -/
theorem countsExact_rounded {fl : K → K} {B : ℕ} (h : ∀ k : ℕ, k ≤ B → fl (k : K) = k) :
    CountsExact (Arith.rounded fl) B := by
  refine ⟨fun a b hab => ?_, fun a b hb ha => ?_, ?_⟩
  · change fl ((a : K) + b) = _
    rw [← Nat.cast_add]
    exact h _ hab
  · change fl ((a : K) + -b) = _
    rw [← sub_eq_add_neg, ← Nat.cast_sub hb]
    exact h _ (by omega)
  · have key : ∀ (l : List ℕ) (a : ℕ), a + l.sum ≤ B →
        (l.map fun k : ℕ => (k : K)).foldl (fun x y => fl (x + y)) (a : K) = ((a + l.sum : ℕ) : K) := by
      intro l
      induction l with
      | nil => intro a _; simp
      | cons b l ih =>
        intro a hab
        rw [List.sum_cons] at hab ⊢
        rw [List.map_cons, List.foldl_cons, ← Nat.cast_add, h (a + b) (by omega), ih (a + b) (by omega), add_assoc]
    intro l hl
    cases l with
    | nil => simp [Arith.rounded]
    | cons b l =>
      rw [List.sum_cons] at hl ⊢
      exact key l b hl

theorem sum_addCount_le {n : ℕ} (M : Matrix (Fin n) (Fin n) ℕ) (x : ℕ × ℕ) (i : Fin n) :
    ∑ l, addCount M x i l ≤ ∑ l, M i l + 1 := by
  have h : ∀ l : Fin n, addCount M x i l ≤ M i l + if (l : ℕ) = x.2 then 1 else 0 := by
    intro l
    unfold addCount
    split
    · next h => rw [if_pos h.2]
    · omega
  refine (sum_le_sum fun l _ => h l).trans ?_
  rw [sum_add_distrib]
  refine Nat.add_le_add_left ?_ _
  by_cases hx : ∃ l : Fin n, (l : ℕ) = x.2
  · obtain ⟨l, hl⟩ := hx
    rw [sum_eq_single l]
    · split <;> omega
    · intro m _ hm
      rw [if_neg fun e => hm (Fin.ext (e.trans hl.symm))]
    · exact fun h => absurd (mem_univ l) h
  · rw [sum_eq_zero]
    · omega
    · intro l _
      rw [if_neg fun e => hx ⟨l, e⟩]

/-- A row of counts is at most the length of the sequence. -/
theorem sum_countMatrix_le (n : ℕ) (seq : List ℕ) (i : Fin n) : ∑ l, countMatrix n seq i l ≤ seq.length := by
  have key : ∀ (l : List (ℕ × ℕ)) (M : Matrix (Fin n) (Fin n) ℕ),
      ∑ j, l.foldl addCount M i j ≤ ∑ j, M i j + l.length := by
    intro l
    induction l with
    | nil => intro M; simp
    | cons x l ih =>
      intro M
      have h1 := ih (addCount M x)
      have h2 := sum_addCount_le M x i
      rw [List.foldl_cons, List.length_cons]
      omega
  have h := key (seq.dropLast.zip seq.tail) fun _ _ => 0
  rw [sum_const_zero, zero_add, List.length_zip] at h
  have h2 : seq.dropLast.length ≤ seq.length := by simp
  exact h.trans ((Nat.min_le_left _ _).trans h2)

/-- Normalised rows of an inexact matrix. -/
theorem normalize_fill_acc (hF : F.Sound u) {m n : ℕ} {M' M : Matrix (Fin m) (Fin n) K} {N : ℕ}
    (h : ∀ i j, Acc (1 / (1 - u)) N (M' i j) (M i j)) (i : Fin m) (j : Fin n) :
    Acc (1 / (1 - u)) (2 * N + n + 1) (normalizeRowsF F (fillNullRows M') i j)
      (normalizeRows (fillNullRows M) i j) := by
  have h1 := hF.one_le
  have hz : ∀ l, M' i l = 0 ↔ M i l = 0 := fun l => by
    have e := (h i l).pos_iff h1
    have e1 := (h i l).nonneg h1
    have e2 := (h i l).exact_nonneg
    constructor
    · intro h0
      by_contra hc
      exact (e.2 (lt_of_le_of_ne e2 (Ne.symm hc))).ne' h0
    · intro h0
      by_contra hc
      exact (e.1 (lt_of_le_of_ne e1 (Ne.symm hc))).ne' h0
  have hfill : ∀ l, Acc (1 / (1 - u)) N (fillNullRows M' i l) (fillNullRows M i l) := by
    intro l
    unfold fillNullRows
    simp only [hz]
    split
    · exact (Acc.refl zero_le_one).mono h1 (Nat.zero_le _)
    · exact h i l
  have hs : 0 < ∑ l, fillNullRows M i l := by
    refine lt_of_le_of_ne (sum_nonneg fun l _ => (hfill l).exact_nonneg) fun e => ?_
    have h0 := (sum_eq_zero_iff_of_nonneg fun l _ => (hfill l).exact_nonneg).1 e.symm
    unfold fillNullRows at h0
    by_cases hn : ∀ l, M i l = 0
    · have := h0 j (mem_univ j)
      rw [if_pos hn] at this
      exact one_ne_zero this
    · refine hn fun l => ?_
      have := h0 l (mem_univ l)
      rwa [if_neg hn] at this
  exact (Acc.div hF (hfill j) (Acc.sum hF hfill) hs).mono h1 (by omega)

/-- C180, maximum likelihood. Without smoothing every probability is a single rounded quotient: the relative
frequency of the transition, or one over the number of states for a state that is never left. -/
theorem C180_mle {B : ℕ} (hB : CountsExact F B) (eps : K) {n : ℕ} (hn : n ≤ B) {seq : List ℕ}
    (hs : seq.length ≤ B) (i j : Fin n) :
    fitMleF F eps n seq false i j =
      if ∑ l, countMatrix n seq i l = 0 then F.div 1 n
      else F.div (countMatrix n seq i j : K) ((∑ l, countMatrix n seq i l : ℕ) : K) := by
  have hz : (∀ l, ((countMatrix n seq i l : ℕ) : K) = 0) ↔ ∑ l, countMatrix n seq i l = 0 := by
    rw [sum_eq_zero_iff]
    simp
  unfold fitMleF normalizeRowsF fillNullRows
  simp only [Bool.false_eq_true, if_false, hz]
  split
  · have e : (List.ofFn fun _ : Fin n => (1 : K)) = (List.replicate n 1).map fun k : ℕ => (k : K) := by
      rw [List.map_replicate, Nat.cast_one]
      exact List.ofFn_const n 1
    rw [e, hB.sum _ (by simpa using hn)]
    simp
  · have e : (List.ofFn fun l : Fin n => (countMatrix n seq i l : K)) =
        (List.ofFn fun l => countMatrix n seq i l).map fun k : ℕ => (k : K) := by
      rw [List.map_ofFn]
      rfl
    rw [e, hB.sum _ (by rw [List.sum_ofFn]; exact (sum_countMatrix_le n seq i).trans hs), List.sum_ofFn]

/-- C180, maximum likelihood. With one rounding function, every probability is the rounded probability of C24. -/
theorem C180_mle_rounded {fl : K → K} {B : ℕ} (h : ∀ k : ℕ, k ≤ B → fl (k : K) = k) (eps : K) {n : ℕ} (hn : n ≤ B)
    {seq : List ℕ} (hs : seq.length ≤ B) (i j : Fin n) :
    fitMleF (Arith.rounded fl) eps n seq false i j = fl (fitMle n seq false i j) := by
  rw [C180_mle (countsExact_rounded h) eps hn hs i j]
  have hz : (∀ l, ((countMatrix n seq i l : ℕ) : K) + 0 = 0) ↔ ∑ l, countMatrix n seq i l = 0 := by
    rw [sum_eq_zero_iff]
    simp
  unfold fitMle normalizeRows fillNullRows
  simp only [Bool.false_eq_true, if_false, hz]
  split
  · change fl _ = _
    simp
  · change fl _ = _
    simp

/-- C180, smoothing. -/
theorem C180_smoothing (hF : F.Sound u) {eps : K} (heps : Acc (1 / (1 - u)) 1 eps (1 / 1000)) {n : ℕ} (seq : List ℕ)
    (i j : Fin n) :
    Acc (1 / (1 - u)) (n + 5) (fitMleF F eps n seq true i j) (fitMle n seq true i j) := by
  have h1 := hF.one_le
  unfold fitMleF fitMle
  refine (normalize_fill_acc hF (N := 2) (fun i j => ?_) i j).mono h1 (by omega)
  rw [if_pos rfl, if_pos rfl]
  exact Acc.add hF ((Acc.refl (Nat.cast_nonneg _)).mono h1 (Nat.zero_le 1)) heps

/-- C180, maximum a posteriori. The hyper-parameters are positive integers, as the validation demands. -/
theorem C180_map (hF : F.Sound u) {B : ℕ} (hB : CountsExact F B) {n : ℕ} {seq : List ℕ} {k : Fin n → Fin n → ℕ}
    (hk : ∀ i j, 1 ≤ k i j) (hs : ∀ i, seq.length + ∑ l, k i l ≤ B) (i j : Fin n) :
    Acc (1 / (1 - u)) (n + 3) (fitMapF F n seq (fun i j => (k i j : K)) i j)
      (fitMap n seq (fun i j => (k i j : K)) i j) := by
  have h1 := hF.one_le
  unfold fitMapF fitMap
  refine (normalize_fill_acc hF (N := 1) (fun i j => ?_) i j).mono h1 (by omega)
  have hc := sum_countMatrix_le n seq i
  have hb := hs i
  have hkn : n ≤ ∑ l, k i l := by
    have := sum_le_sum fun l (_ : l ∈ (univ : Finset (Fin n))) => hk i l
    simpa using this
  have hkj : k i j ≤ ∑ l, k i l := single_le_sum (f := k i) (fun l _ => Nat.zero_le _) (mem_univ j)
  have hcj : countMatrix n seq i j ≤ ∑ l, countMatrix n seq i l :=
    single_le_sum (f := countMatrix n seq i) (fun l _ => Nat.zero_le _) (mem_univ j)
  have hsum : F.sum (List.ofFn fun l => (k i l : K)) = ((∑ l, k i l : ℕ) : K) := by
    have e : (List.ofFn fun l => (k i l : K)) = (List.ofFn fun l => k i l).map fun k : ℕ => (k : K) := by
      rw [List.map_ofFn]
      rfl
    rw [e, hB.sum _ (by rw [List.sum_ofFn]; omega), List.sum_ofFn]
  unfold fitMapRawF fitMapRaw
  dsimp only
  rw [hsum, hB.add _ _ (by omega), hB.add _ _ (by omega)]
  rw [hB.sub (countMatrix n seq i j + k i j) 1 (by have := hk i j; omega) (by omega),
    hB.sub (∑ l, countMatrix n seq i l + ∑ l, k i l) n (by omega) (by omega)]
  have hkj1 := hk i j
  rw [← Nat.cast_sum (univ : Finset (Fin n)) fun l => k i l, ← Nat.cast_add]
  by_cases he : ((∑ l, countMatrix n seq i l + ∑ l, k i l : ℕ) : K) = n
  · rw [if_pos he, if_pos he]
    have hn : (0 : K) < n := by
      have := i.pos
      exact_mod_cast this
    exact ⟨by positivity, by rw [pow_one]; exact hF.div 1 n zero_le_one hn⟩
  · rw [if_neg he, if_neg he]
    have hne : ∑ l, countMatrix n seq i l + ∑ l, k i l ≠ n := fun e => he (by rw [e])
    have e3 : (countMatrix n seq i j : K) + k i j - 1 = ((countMatrix n seq i j + k i j - 1 : ℕ) : K) := by
      rw [Nat.cast_sub (by omega), Nat.cast_add, Nat.cast_one]
    rw [e3, ← Nat.cast_sub (by omega)]
    have hpos : (0 : K) < ((∑ l, countMatrix n seq i l + ∑ l, k i l - n : ℕ) : K) := by
      have : 0 < ∑ l, countMatrix n seq i l + ∑ l, k i l - n := by omega
      exact_mod_cast this
    exact ⟨div_nonneg (Nat.cast_nonneg _) hpos.le, by rw [pow_one]; exact hF.div _ _ (Nat.cast_nonneg _) hpos⟩

/-- Natural numbers up to `2^53` are doubles. -/
theorem binary64_natCast {k : ℕ} (hk : k ≤ 2 ^ 53) : binary64 (k : ℚ) = k := by
  rcases Nat.eq_zero_or_pos k with rfl | h0
  · rw [Nat.cast_zero]
    exact binary64_zero
  have hk0 : (k : ℚ) ≠ 0 := by exact_mod_cast h0.ne'
  have hlog : Int.log 2 |(k : ℚ)| = (Nat.log 2 k : ℤ) := by
    rw [Nat.abs_cast]
    exact Int.log_natCast 2 k
  rcases lt_or_eq_of_le hk with hlt | rfl
  · have hl : Nat.log 2 k < 53 := Nat.log_lt_of_lt_pow h0.ne' hlt
    obtain ⟨d, hd⟩ : ∃ d, Nat.log 2 k + d = 52 := ⟨52 - Nat.log 2 k, by omega⟩
    refine binary64_of_mul hk0 (z := (k : ℤ) * 2 ^ d) (e := -(d : ℤ)) ?_ ?_
    · rw [hlog]
      omega
    · push_cast
      rw [mul_assoc, zpow_neg, zpow_natCast, mul_inv_cancel₀ (by positivity), mul_one]
  · refine binary64_of_mul hk0 (z := 2 ^ 52) (e := 1) ?_ ?_
    · rw [hlog, Nat.log_pow (by norm_num)]
      norm_num
    · norm_num

theorem double_natCast {k : ℕ} (hk : k ≤ 2 ^ 53) : double (k : ℚ) = k := by
  rcases Nat.eq_zero_or_pos k with rfl | h0
  · rw [Nat.cast_zero]
    exact double_zero
  rw [double_large, binary64_natCast hk]
  have h1 : (1 : ℚ) ≤ k := by exact_mod_cast h0
  refine le_trans ?_ h1
  rw [div_le_one (by positivity)]
  exact one_le_pow₀ (by norm_num)

/-- C180, doubles. For sequences and numbers of states up to `2^53` the fitted probabilities are the doubles that
are nearest to the relative frequencies. -/
theorem C180_mle_double (eps : ℚ) {n : ℕ} (hn : n ≤ 2 ^ 53) {seq : List ℕ} (hs : seq.length ≤ 2 ^ 53) (i j : Fin n) :
    fitMleF (Arith.rounded double) eps n seq false i j = double (fitMle n seq false i j) :=
  C180_mle_rounded (fun _ hk => double_natCast hk) eps hn hs i j

/-- The contracts of C180 can be met with rounding to 53 bits, and so can the assumption on `0.001`. -/
theorem C180_instance : (Arith.rounded binary64).Sound (1 / 2 ^ 53) ∧ CountsExact (Arith.rounded binary64) (2 ^ 53) ∧
    Acc (1 / (1 - 1 / 2 ^ 53)) 1 (binary64 (1 / 1000)) (1 / 1000) := by
  refine ⟨rounded_sound (by norm_num) (by norm_num) binary64_near, countsExact_rounded fun _ hk => binary64_natCast hk,
    by norm_num, ?_⟩
  rw [pow_one]
  have := binary64_near (1 / 1000)
  rw [abs_of_nonneg (by norm_num : (0 : ℚ) ≤ 1 / 1000)] at this
  exact near_of_relative (by norm_num) (by norm_num) (by norm_num) this

/-- One of three transitions: the result is the double nearest to one third, not one third. -/
example : fitMleF (Arith.rounded double) (double (1 / 1000)) 2 [0, 1, 0, 0, 0] false (0 : Fin 2) (1 : Fin 2) =
    6004799503160661 / 2 ^ 54 := by decide +kernel

omit [IsStrictOrderedRing K] in
/-- C180. Without rounding the programs are those of C24 and C25. -/
theorem C180_exact (n : ℕ) (seq : List ℕ) (smoothing : Bool) (h : Matrix (Fin n) (Fin n) K) :
    fitMleF (Arith.exact : Arith K) (1 / 1000) n seq smoothing = fitMle n seq smoothing ∧
    fitMapF Arith.exact n seq h = fitMap n seq h := by
  have hn : ∀ M : Matrix (Fin n) (Fin n) K, normalizeRowsF Arith.exact M = normalizeRows M := by
    intro M
    funext i j
    change M i j / (List.ofFn fun l => M i l).sum = _
    rw [List.sum_ofFn]
    rfl
  constructor
  · unfold fitMleF fitMle
    rw [hn]
    cases smoothing
    · simp
    · rfl
  · unfold fitMapF fitMap
    rw [hn]
    congr 2
    funext i j
    unfold fitMapRawF fitMapRaw
    have e : (Arith.exact : Arith K).sum (List.ofFn fun l => h i l) = ∑ l, h i l := List.sum_ofFn
    rw [e]
    simp [Arith.exact, sub_eq_add_neg]

end Verif
