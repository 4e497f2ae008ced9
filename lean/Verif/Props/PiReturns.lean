import Verif.Props.Underflow

/-!
# Stationary distributions in double arithmetic are returned (C152)
-/

set_option linter.unusedSectionVars false

namespace Verif

open Finset

/-! ## Paths -/

/-- A path from `j` to `k` with the given intermediate points. -/
def PathVia (E : ℕ → ℕ → Prop) : ℕ → List ℕ → ℕ → Prop
  | j, [], k => E j k
  | j, m :: ms, k => E j m ∧ PathVia E m ms k

theorem pathVia_append {E : ℕ → ℕ → Prop} {A B : List ℕ} {j m k : ℕ} :
    PathVia E j (A ++ m :: B) k ↔ PathVia E j A m ∧ PathVia E m B k := by
  induction A generalizing j with
  | nil => rfl
  | cons a A ih =>
    rw [List.cons_append, PathVia, PathVia, ih, and_assoc]

/-- A shortest path to the points behind `i` visits only points before `i`, none of them twice. -/
theorem exists_simple {E : ℕ → ℕ → Prop} {i : ℕ} (h : ∃ A k, i < k ∧ PathVia E i A k) :
    ∃ A k, i < k ∧ PathVia E i A k ∧ A.Nodup ∧ ∀ m ∈ A, m < i := by
  classical
  obtain ⟨A, k, hk, hA⟩ := h
  have hex : ∃ L, ∃ A k, A.length = L ∧ i < k ∧ PathVia E i A k := ⟨_, A, k, rfl, hk, hA⟩
  obtain ⟨A, k, hL, hk, hA⟩ := Nat.find_spec hex
  have hmin : ∀ A' k', i < k' → PathVia E i A' k' → A.length ≤ A'.length := fun A' k' h1 h2 => by
    rw [hL]
    exact Nat.find_min' hex ⟨A', k', rfl, h1, h2⟩
  refine ⟨A, k, hk, hA, ?_, fun m hm => ?_⟩
  · by_contra hd
    obtain ⟨m, hm⟩ := List.exists_duplicate_iff_not_nodup.2 hd
    obtain ⟨A1, B, e⟩ := List.append_of_mem hm.mem
    rw [List.duplicate_iff_sublist] at hm
    have hB : m ∈ A1 ∨ m ∈ B := by
      by_contra hc
      push Not at hc
      have h1 := hm.count_le m
      have h3 := List.count_eq_zero_of_not_mem hc.1
      have h4 := List.count_eq_zero_of_not_mem hc.2
      rw [e] at h1
      simp [h3, h4] at h1
    rw [e, pathVia_append] at hA
    rcases hB with h | h
    · obtain ⟨C, D, rfl⟩ := List.append_of_mem h
      have h2 := hmin (C ++ m :: B) k hk (pathVia_append.2 ⟨(pathVia_append.1 hA.1).1, hA.2⟩)
      rw [e] at h2
      simp at h2
      omega
    · obtain ⟨C, D, rfl⟩ := List.append_of_mem h
      have h2 := hmin (A1 ++ m :: D) k hk (pathVia_append.2 ⟨hA.1, (pathVia_append.1 hA.2).2⟩)
      rw [e] at h2
      simp at h2
      omega
  · obtain ⟨A1, B, e⟩ := List.append_of_mem hm
    rw [e, pathVia_append] at hA
    by_contra hc
    rcases Nat.lt_or_ge i m with h | h
    · have := hmin A1 m h hA.1
      rw [e] at this
      simp at this
    · have hmi : m = i := by omega
      rw [hmi] at hA
      have := hmin B k hk hA.2
      rw [e] at this
      simp at this
      omega

theorem length_le_of_lt {A : List ℕ} {i : ℕ} (hA : A.Nodup) (h : ∀ m ∈ A, m < i) : A.length ≤ i := by
  rw [← List.toFinset_card_of_nodup hA, ← card_range i]
  exact card_le_card fun m hm => mem_range.2 (h m (List.mem_toFinset.1 hm))

theorem pathVia_of_reach {n : ℕ} {P : Matrix (Fin n) (Fin n) ℚ} {i j : Fin n} (h : Reach P i j) :
    i = j ∨ ∃ A, PathVia (fun a b => 0 < toArray P a b) i A j := by
  induction h with
  | refl => exact Or.inl rfl
  | @tail b d _ hbd ih =>
    have he : 0 < toArray P b d := by
      unfold toArray
      rw [dif_pos ⟨b.2, d.2⟩]
      exact hbd
    right
    rcases ih with rfl | ⟨A, hA⟩
    · exact ⟨[], he⟩
    · exact ⟨A ++ [(b : ℕ)], pathVia_append.2 ⟨hA, he⟩⟩

/-! ## Sums -/

theorem double_lower {x : ℚ} (h0 : 0 ≤ x) : (1 - 1 / 2 ^ 53) * x - 1 / 2 ^ 1075 ≤ double x := by
  rcases lt_or_ge x (1 / 2 ^ 1022) with h | h
  · rw [double_small h0 h]
    have h1 := (abs_le.1 (roundEven_near (x * 2 ^ 1074))).1
    have h2 : (x * 2 ^ 1074 - 1 / 2) / 2 ^ 1074 ≤ (roundEven (x * 2 ^ 1074) : ℚ) / 2 ^ 1074 :=
      div_le_div_of_nonneg_right (by linarith) (by positivity)
    refine le_trans ?_ h2
    rw [sub_div, mul_div_assoc, div_self (by positivity), mul_one, div_div,
      show (2 : ℚ) * 2 ^ 1074 = 2 ^ 1075 by rw [pow_succ 2 1074, mul_comm]]
    have h3 : 0 ≤ 1 / 2 ^ 53 * x := by positivity
    rw [sub_mul, one_mul]
    generalize (1 : ℚ) / 2 ^ 1075 = g
    linarith
  · rw [double_large h]
    have h1 := (abs_le.1 (binary64_near x)).1
    rw [abs_of_nonneg h0] at h1
    have h2 : (0 : ℚ) ≤ 1 / 2 ^ 1075 := by positivity
    generalize (1 : ℚ) / 2 ^ 1075 = g at *
    rw [sub_mul, one_mul]
    linarith

theorem fold_ge {l : List ℚ} : ∀ {x : ℚ}, 0 ≤ x → (∀ y ∈ l, 0 ≤ y) →
    (1 - 1 / 2 ^ 53) ^ l.length * (x + l.sum) - l.length * (1 / 2 ^ 1075) ≤
      l.foldl (fun x y => double (x + y)) x := by
  have he : (0 : ℚ) ≤ 1 / 2 ^ 1075 := by positivity
  have hd : ∀ z : ℚ, 0 ≤ z → (1 - 1 / 2 ^ 53) * z - 1 / 2 ^ 1075 ≤ double z := fun z hz => double_lower hz
  have hf0 : (0 : ℚ) ≤ 1 - 1 / 2 ^ 53 := by norm_num
  have hf1 : (1 : ℚ) - 1 / 2 ^ 53 ≤ 1 := by norm_num
  generalize (1 : ℚ) / 2 ^ 1075 = e at he hd ⊢
  generalize (1 : ℚ) - 1 / 2 ^ 53 = f at hf0 hf1 hd ⊢
  induction l with
  | nil => intro x _ _; simp
  | cons a l ih =>
    intro x hx h
    have ha := h a List.mem_cons_self
    have h1 := ih (double_nonneg (add_nonneg hx ha)) fun y hy => h y (List.mem_cons_of_mem _ hy)
    rw [List.foldl_cons]
    refine le_trans ?_ h1
    have hsum : 0 ≤ l.sum := List.sum_nonneg fun y hy => h y (List.mem_cons_of_mem _ hy)
    have h2 := hd _ (add_nonneg hx ha)
    have hp0 := pow_nonneg hf0 l.length
    have hp1 := pow_le_one₀ hf0 hf1 (n := l.length)
    rw [List.sum_cons, List.length_cons, pow_succ]
    have h3 : f ^ l.length * (f * (x + (a + l.sum)) - e) ≤ f ^ l.length * (double (x + a) + l.sum) := by
      refine mul_le_mul_of_nonneg_left ?_ hp0
      have := mul_le_mul_of_nonneg_right hf1 hsum
      rw [one_mul] at this
      have e1 : f * (x + (a + l.sum)) = f * (x + a) + f * l.sum := by ring
      linarith
    have h4 : f ^ l.length * e ≤ e := mul_le_of_le_one_left he hp1
    have e2 : f ^ l.length * (f * (x + (a + l.sum)) - e) =
        f ^ l.length * f * (x + (a + l.sum)) - f ^ l.length * e := by ring
    push_cast
    linarith

theorem factor_lower {N : ℕ} (hN : N ≤ 1000) : (1 - 1 / 2 ^ 40 : ℚ) ≤ (1 - 1 / 2 ^ 53) ^ N := by
  have h := one_add_mul_le_pow (a := (-(1 / 2 ^ 53) : ℚ)) (by norm_num) N
  have hlen : (N : ℚ) ≤ 1000 := by exact_mod_cast hN
  have e1 : (1000 : ℚ) * (-(1 / 2 ^ 53)) ≤ (N : ℚ) * (-(1 / 2 ^ 53)) :=
    mul_le_mul_of_nonpos_right hlen (by norm_num)
  have e2 : -(1 / 2 ^ 40) ≤ (1000 : ℚ) * (-(1 / 2 ^ 53)) := by norm_num
  have e3 : (1 : ℚ) - 1 / 2 ^ 53 = 1 + -(1 / 2 ^ 53) := by ring
  rw [e3]
  generalize (1 + -(1 / 2 ^ 53) : ℚ) ^ N = g at h ⊢
  linarith

theorem factor_upper {N : ℕ} (hN : N ≤ 1000) : dblFactor ^ N ≤ 1 + 1 / 2 ^ 30 := by
  have e2 : dblFactor ^ N * (1 - 1 / 2 ^ 53) ^ N ≤ 1 := by
    rw [← mul_pow]
    exact pow_le_one₀ (by unfold dblFactor; norm_num) (by unfold dblFactor; norm_num)
  have e4 : 0 ≤ dblFactor ^ N := pow_nonneg (by linarith [dblFactor_ge]) _
  have e5 := (mul_le_mul_of_nonneg_left (factor_lower hN) e4).trans e2
  generalize dblFactor ^ N = g at e4 e5 ⊢
  by_contra hc
  push Not at hc
  have := mul_lt_mul_of_pos_right hc (show (0 : ℚ) < 1 - 1 / 2 ^ 40 by norm_num)
  have e7 : (1 : ℚ) ≤ (1 + 1 / 2 ^ 30) * (1 - 1 / 2 ^ 40) := by norm_num
  linarith

theorem sum_ge {l : List ℚ} (h : ∀ x ∈ l, 0 ≤ x) :
    (1 - 1 / 2 ^ 53) ^ l.length * l.sum - l.length * (1 / 2 ^ 1075) ≤ (Arith.rounded double).sum l := by
  have he : (0 : ℚ) ≤ 1 / 2 ^ 1075 := by positivity
  cases l with
  | nil => simp [Arith.rounded]
  | cons a l =>
    have h1 := fold_ge (h a List.mem_cons_self) (l := l) fun y hy => h y (List.mem_cons_of_mem _ hy)
    refine le_trans ?_ h1
    have hS : 0 ≤ a + l.sum := by
      rw [← List.sum_cons]
      exact List.sum_nonneg h
    rw [List.sum_cons, List.length_cons, pow_succ (1 - 1 / 2 ^ 53 : ℚ) l.length]
    have hf0 : (0 : ℚ) ≤ 1 - 1 / 2 ^ 53 := by norm_num
    have hf1 : (1 : ℚ) - 1 / 2 ^ 53 ≤ 1 := by norm_num
    clear h1
    generalize (1 : ℚ) / 2 ^ 1075 = e at he ⊢
    generalize (1 : ℚ) - 1 / 2 ^ 53 = f at hf0 hf1 ⊢
    have hp0 : 0 ≤ f ^ l.length := pow_nonneg hf0 _
    have : f ^ l.length * f * (a + l.sum) ≤ f ^ l.length * (a + l.sum) :=
      mul_le_mul_of_nonneg_right (mul_le_of_le_one_right hp0 hf1) hS
    push_cast
    linarith

theorem sum_le_double {l : List ℚ} (h : ∀ x ∈ l, 0 ≤ x) :
    (Arith.rounded double).sum l ≤
      dblFactor ^ l.length * l.sum + l.length * dblFactor ^ l.length * (1 / 2 ^ 1075) := by
  have he : (0 : ℚ) ≤ 1 / 2 ^ 1075 := by positivity
  cases l with
  | nil => simp [Arith.rounded]
  | cons a l =>
    have h1 := fold_le (h a List.mem_cons_self) (l := l) fun y hy => h y (List.mem_cons_of_mem _ hy)
    refine h1.trans ?_
    have hS : 0 ≤ a + l.sum := by
      rw [← List.sum_cons]
      exact List.sum_nonneg h
    rw [List.sum_cons, List.length_cons]
    have hf := dblFactor_ge
    clear h1
    generalize (1 : ℚ) / 2 ^ 1075 = e at he ⊢
    generalize dblFactor = f at hf ⊢
    rw [pow_succ]
    have hp0 : 0 ≤ f ^ l.length := pow_nonneg (by linarith) _
    have hp1 : f ^ l.length ≤ f ^ l.length * f := le_mul_of_one_le_right hp0 hf
    have a1 := mul_le_mul_of_nonneg_right hp1 hS
    have a2 : (l.length : ℚ) * f ^ l.length * e ≤ ((l.length + 1 : ℕ) : ℚ) * (f ^ l.length * f) * e := by
      refine mul_le_mul_of_nonneg_right (mul_le_mul ?_ hp1 hp0 (by positivity)) he
      push_cast
      linarith
    linarith

theorem close_aux {L S s f b t : ℚ} (hL : L ≤ 1000) (hS : 0 ≤ S) (ht0 : 0 < t) (ht1 : t ≤ 1) (hs : t ≤ s)
    (hf0 : 0 ≤ f) (hb : 1 - 1 / 2 ^ 40 ≤ b) (hc : f ≤ 1 + 1 / 2 ^ 30)
    (hlow : b * S - L * (1 / 2 ^ 75 * t) ≤ s) (hup : s ≤ f * S + L * f * (1 / 2 ^ 75 * t)) :
    S ≤ (1 + 1 / 2 ^ 20) * s ∧ s ≤ (1 + 1 / 2 ^ 20) * S + 1 / 2 ^ 20 := by
  have hlt : L * (1 / 2 ^ 75 * t) ≤ 1 / 2 ^ 60 * t := by
    have := mul_le_mul_of_nonneg_right hL (show (0 : ℚ) ≤ 1 / 2 ^ 75 * t by positivity)
    refine this.trans ?_
    have : (1000 : ℚ) * (1 / 2 ^ 75 * t) = (1000 / 2 ^ 75) * t := by ring
    rw [this]
    exact mul_le_mul_of_nonneg_right (by norm_num) ht0.le
  constructor
  · have h1 := mul_le_mul_of_nonneg_right hb hS
    have h2 : (1 - 1 / 2 ^ 40) * S ≤ (1 + 1 / 2 ^ 60) * s := by
      have : 1 / 2 ^ 60 * t ≤ 1 / 2 ^ 60 * s := mul_le_mul_of_nonneg_left hs (by positivity)
      linarith
    have h3 : (1 + 1 / 2 ^ 60 : ℚ) ≤ (1 - 1 / 2 ^ 40) * (1 + 1 / 2 ^ 20) := by norm_num
    have h4 := mul_le_mul_of_nonneg_right h3 (ht0.le.trans hs)
    have h5 : (1 - 1 / 2 ^ 40) * S ≤ (1 - 1 / 2 ^ 40) * ((1 + 1 / 2 ^ 20) * s) := by
      rw [← mul_assoc]
      linarith
    exact le_of_mul_le_mul_left h5 (by norm_num)
  · have h1 := mul_le_mul_of_nonneg_right hc hS
    have h2 : L * f * (1 / 2 ^ 75 * t) ≤ 1 / 2 ^ 60 * t * (1 + 1 / 2 ^ 30) := by
      have : L * f * (1 / 2 ^ 75 * t) = L * (1 / 2 ^ 75 * t) * f := by ring
      rw [this]
      exact mul_le_mul hlt hc hf0 (by positivity)
    have h3 : (1 + 1 / 2 ^ 30) * S ≤ (1 + 1 / 2 ^ 20) * S := mul_le_mul_of_nonneg_right (by norm_num) hS
    have h4 : 1 / 2 ^ 60 * t * (1 + 1 / 2 ^ 30) ≤ 1 / 2 ^ 60 * 1 * (1 + 1 / 2 ^ 30) :=
      mul_le_mul_of_nonneg_right (mul_le_mul_of_nonneg_left ht1 (by norm_num)) (by norm_num)
    have h5 : (1 : ℚ) / 2 ^ 60 * 1 * (1 + 1 / 2 ^ 30) ≤ 1 / 2 ^ 20 := by norm_num
    linarith

/-- The computed sum of a row and the exact one, if the sum is not too small. -/
theorem double_sum_close {l : List ℚ} (hl : l.length ≤ 1000) (h : ∀ x ∈ l, 0 ≤ x)
    (hs : 1 / 2 ^ 1000 ≤ (Arith.rounded double).sum l) :
    l.sum ≤ (1 + 1 / 2 ^ 20) * (Arith.rounded double).sum l ∧
    (Arith.rounded double).sum l ≤ (1 + 1 / 2 ^ 20) * l.sum + 1 / 2 ^ 20 := by
  have hlen : (l.length : ℚ) ≤ 1000 := by exact_mod_cast hl
  have het : (1 : ℚ) / 2 ^ 1075 = 1 / 2 ^ 75 * (1 / 2 ^ 1000) := by
    rw [show (1075 : ℕ) = 75 + 1000 by norm_num, pow_add]
    generalize (2 : ℚ) ^ 1000 = g
    ring
  have ht1 : (1 : ℚ) / 2 ^ 1000 ≤ 1 := by
    rw [div_le_one (by positivity)]
    exact one_le_pow₀ (by norm_num)
  have ht0 : (0 : ℚ) < 1 / 2 ^ 1000 := by positivity
  have hlow := sum_ge h
  have hup := sum_le_double h
  rw [het] at hlow hup
  exact close_aux hlen (List.sum_nonneg h) ht0 ht1 hs (pow_nonneg (by linarith [dblFactor_ge]) _)
    (factor_lower hl) (factor_upper hl) hlow hup

/-! ## The elimination -/

theorem dblFactor_le : dblFactor ≤ 1 + 1 / 2 ^ 50 := by unfold dblFactor; norm_num

theorem tiny_le : (1 : ℚ) / 2 ^ 1075 ≤ 1 / 2 ^ 75 :=
  one_div_le_one_div_of_le (by positivity) (pow_le_pow_right₀ (by norm_num) (by norm_num))

theorem row_aux {f e q s a T S M X R : ℚ} (hf1 : 1 ≤ f) (hf2 : f ≤ 1 + 1 / 2 ^ 50) (he0 : 0 ≤ e)
    (he : e ≤ 1 / 2 ^ 75) (hM : M ≤ 1000) (hq0 : 0 ≤ q) (ha : 0 ≤ a) (hT : 0 ≤ T) (hs0 : 0 < s)
    (hs2 : s ≤ 2) (hq : q ≤ f * (a / s) + e) (hS : S ≤ (1 + 1 / 2 ^ 20) * s)
    (hX : X ≤ f * (T + f * q * S + M * e) + M * e) (hR : T + a ≤ R) (hR2 : R ≤ 7 / 4) : X ≤ R + 1 / 2000 := by
  have hqs : q * s ≤ f * a + 2 * e := by
    have h1 := mul_le_mul_of_nonneg_right hq hs0.le
    have h2 : (f * (a / s) + e) * s = f * a + e * s := by field_simp
    have h3 : e * s ≤ e * 2 := mul_le_mul_of_nonneg_left hs2 he0
    linarith
  have hqS : q * S ≤ (1 + 1 / 2 ^ 20) * (f * a + 2 * e) := by
    calc q * S ≤ q * ((1 + 1 / 2 ^ 20) * s) := mul_le_mul_of_nonneg_left hS hq0
      _ = (1 + 1 / 2 ^ 20) * (q * s) := by ring
      _ ≤ _ := mul_le_mul_of_nonneg_left hqs (by norm_num)
  have hMe : M * e ≤ 1 / 2 ^ 60 := by
    have h1 := mul_le_mul_of_nonneg_right hM he0
    have h2 : (1000 : ℚ) * (1 / 2 ^ 75) ≤ 1 / 2 ^ 60 := by norm_num
    linarith
  have hf0 : (0 : ℚ) ≤ f := by linarith
  have h2e : 2 * e ≤ 1 / 2 ^ 60 := by
    have h2 : (2 : ℚ) * (1 / 2 ^ 75) ≤ 1 / 2 ^ 60 := by norm_num
    linarith
  have hfa : f * a ≤ (1 + 1 / 2 ^ 50) * a := mul_le_mul_of_nonneg_right hf2 ha
  have hqS2 : q * S ≤ (1 + 1 / 2 ^ 20) * ((1 + 1 / 2 ^ 50) * a + 1 / 2 ^ 60) :=
    hqS.trans (mul_le_mul_of_nonneg_left (by linarith) (by norm_num))
  have hfqS : f * q * S ≤ (1 + 1 / 2 ^ 50) * ((1 + 1 / 2 ^ 20) * ((1 + 1 / 2 ^ 50) * a + 1 / 2 ^ 60)) := by
    rw [mul_assoc]
    exact (mul_le_mul_of_nonneg_left hqS2 hf0).trans
      (mul_le_mul_of_nonneg_right hf2 (by positivity))
  have h5 : f * (T + f * q * S + M * e) ≤ (1 + 1 / 2 ^ 50) *
      (T + (1 + 1 / 2 ^ 50) * ((1 + 1 / 2 ^ 20) * ((1 + 1 / 2 ^ 50) * a + 1 / 2 ^ 60)) + 1 / 2 ^ 60) := by
    refine (mul_le_mul_of_nonneg_left (add_le_add (add_le_add_right hfqS T) hMe) hf0).trans ?_
    exact mul_le_mul_of_nonneg_right hf2 (by positivity)
  have hT2 : T ≤ 7 / 4 := by linarith
  have ha2 : a ≤ 7 / 4 := by linarith
  clear hq hS hqs hqS hfqS hqS2
  norm_num at *
  linarith

theorem le_double_pow {t : ℕ} (ht : t ≤ 1074) {z : ℚ} (hz : 1 / 2 ^ t ≤ z) : 1 / 2 ^ t ≤ double z := by
  rw [← double_pow ht]
  exact double_mono (by positivity) hz

theorem double_sum_ge {t : ℕ} (ht : t ≤ 1074) {l : List ℚ} (h : ∀ x ∈ l, 0 ≤ x) {x : ℚ} (hx : x ∈ l)
    (hl : 1 / 2 ^ t ≤ x) : 1 / 2 ^ t ≤ (Arith.rounded double).sum l := by
  cases l with
  | nil => simp at hx
  | cons a l =>
    refine fold_lower ht (h a List.mem_cons_self) (fun y hy => h y (List.mem_cons_of_mem _ hy)) ?_
    rcases List.mem_cons.1 hx with rfl | hx
    · exact Or.inl hl
    · exact Or.inr ⟨x, hx, hl⟩

/-- One step of the elimination: rows stay bounded. -/
theorem step_rows {n i : ℕ} (hn : n ≤ 1000) {a : ℕ → ℕ → ℚ} (h0 : ∀ j k, 0 ≤ a j k) {R s : ℚ} (hR : R ≤ 7 / 4)
    (hi : i < n) (hrow : ∀ j ∈ Ico i n, ∑ k ∈ Ico i n, a j k ≤ R) (hs0 : 0 < s) (hs2 : s ≤ 2)
    (hS : ∑ k ∈ Ico (i + 1) n, a i k ≤ (1 + 1 / 2 ^ 20) * s) {j : ℕ} (hj : j ∈ Ico (i + 1) n) :
    ∑ k ∈ Ico (i + 1) n, gthStepF (Arith.rounded double) n a i s j k ≤ R + 1 / 2000 := by
  have hd : 0 ≤ double (a j i / s) := double_nonneg (div_nonneg (h0 j i) hs0.le)
  have hjr := hrow j (by rw [mem_Ico] at hj ⊢; omega)
  rw [sum_eq_sum_Ico_succ_bot hi] at hjr
  have hM : ((Ico (i + 1) n).card : ℚ) ≤ 1000 := by
    rw [Nat.card_Ico]
    exact_mod_cast (by omega : n - (i + 1) ≤ 1000)
  have he0 : (0 : ℚ) ≤ 1 / 2 ^ 1075 := by positivity
  refine row_aux dblFactor_ge dblFactor_le he0 tiny_le hM hd (h0 j i)
    (sum_nonneg fun k _ => h0 j k) hs0 hs2 (double_le (div_nonneg (h0 j i) hs0.le)) hS ?_ (by linarith) hR
  have key : ∀ k ∈ Ico (i + 1) n, gthStepF (Arith.rounded double) n a i s j k ≤
      dblFactor * (a j k + (dblFactor * (double (a j i / s) * a i k) + 1 / 2 ^ 1075)) + 1 / 2 ^ 1075 := by
    intro k hk
    rw [gthStepF_block hj hk]
    change double (a j k + double (double (a j i / s) * a i k)) ≤ _
    have h1 : 0 ≤ double (a j i / s) * a i k := mul_nonneg hd (h0 i k)
    refine (double_le (add_nonneg (h0 j k) (double_nonneg h1))).trans ?_
    have h2 := double_le h1
    change dblFactor * _ + _ ≤ _
    change _ ≤ dblFactor * _ + _ at h2
    have h3 := mul_le_mul_of_nonneg_left (add_le_add_right h2 (a j k)) (by linarith [dblFactor_ge] : 0 ≤ dblFactor)
    generalize (1 : ℚ) / 2 ^ 1075 = e at *
    linarith
  refine (sum_le_sum key).trans (le_of_eq ?_)
  generalize (1 : ℚ) / 2 ^ 1075 = e
  rw [sum_add_distrib, ← mul_sum, sum_add_distrib, sum_add_distrib, ← mul_sum, ← mul_sum, sum_const, nsmul_eq_mul]
  ring

/-- The bound for entries joined by a path through eliminated states. -/
def pathBound (d L : ℕ) : ℚ := 1 / 2 ^ (d * (L + 1) + L)

/-- One step of the elimination: entries joined by a path do not vanish. -/
theorem step_paths {n i d : ℕ} (hn : (d + 1) * n ≤ 1000) {E : ℕ → ℕ → Prop} {a : ℕ → ℕ → ℚ}
    (h0 : ∀ j k, 0 ≤ a j k) {s : ℚ} (hi : i + 1 < n) (hs0 : 0 < s) (hs2 : s ≤ 2)
    (hp : ∀ j ∈ Ico i n, ∀ k ∈ Ico i n, ∀ A : List ℕ, A.Nodup → (∀ m ∈ A, m < i) → PathVia E j A k →
      pathBound d A.length ≤ a j k) :
    ∀ j ∈ Ico (i + 1) n, ∀ k ∈ Ico (i + 1) n, ∀ A : List ℕ, A.Nodup → (∀ m ∈ A, m < i + 1) → PathVia E j A k →
      pathBound d A.length ≤ gthStepF (Arith.rounded double) n a i s j k := by
  intro j hj k hk A hA hAi hpath
  rw [gthStepF_block hj hk]
  change _ ≤ double (a j k + double (double (a j i / s) * a i k))
  have hlen : A.length ≤ i + 1 := length_le_of_lt hA hAi
  have hexp : d * (A.length + 1) + A.length ≤ 1000 := by
    have h1 : (d + 1) * (A.length + 1) ≤ (d + 1) * n := Nat.mul_le_mul_left _ (by omega)
    have h2 : (d + 1) * (A.length + 1) = d * (A.length + 1) + A.length + 1 := by ring
    omega
  have hd : 0 ≤ double (a j i / s) := double_nonneg (div_nonneg (h0 j i) hs0.le)
  have hm : 0 ≤ double (double (a j i / s) * a i k) := double_nonneg (mul_nonneg hd (h0 i k))
  rw [mem_Ico] at hj hk
  unfold pathBound at *
  refine le_double_pow (by omega) ?_
  by_cases hiA : i ∈ A
  · obtain ⟨A1, A2, rfl⟩ := List.append_of_mem hiA
    have hnd := List.nodup_append.1 hA
    have hnd2 := List.nodup_cons.1 hnd.2.1
    have hp1 := (pathVia_append.1 hpath).1
    have hp2 := (pathVia_append.1 hpath).2
    have hlt : ∀ m ∈ A1 ++ i :: A2, m ≠ i → m < i := fun m hm hne => by
      have := hAi m hm
      omega
    have b1 := hp j (mem_Ico.2 ⟨by omega, hj.2⟩) i (mem_Ico.2 ⟨le_rfl, by omega⟩) A1 hnd.1
      (fun m hm => hlt m (by simp [hm]) fun e => hnd.2.2 m hm i List.mem_cons_self e) hp1
    have b2 := hp i (mem_Ico.2 ⟨le_rfl, by omega⟩) k (mem_Ico.2 ⟨by omega, hk.2⟩) A2 hnd2.2
      (fun m hm => hlt m (by simp [hm]) fun e => hnd2.1 (e ▸ hm)) hp2
    rw [List.length_append, List.length_cons] at hexp ⊢
    obtain ⟨x, hx⟩ : ∃ x, x = d * (A1.length + 1) + A1.length := ⟨_, rfl⟩
    obtain ⟨y, hy⟩ : ∃ y, y = d * (A2.length + 1) + A2.length := ⟨_, rfl⟩
    have hxy : d * (A1.length + (A2.length + 1) + 1) + (A1.length + (A2.length + 1)) = x + 1 + y := by
      rw [hx, hy]
      ring
    rw [hxy] at hexp ⊢
    rw [← hx] at b1
    rw [← hy] at b2
    have c1 : 1 / 2 ^ (x + 1) ≤ double (a j i / s) := by
      refine le_double_pow (by omega) ?_
      rw [le_div_iff₀ hs0]
      refine le_trans ?_ b1
      rw [pow_succ, show (1 : ℚ) / 2 ^ x = 1 / (2 ^ x * 2) * 2 by field_simp]
      exact mul_le_mul_of_nonneg_left hs2 (by positivity)
    have c2 : 1 / 2 ^ (x + 1 + y) ≤ double (double (a j i / s) * a i k) := by
      refine le_double_pow (by omega) ?_
      rw [show (1 : ℚ) / 2 ^ (x + 1 + y) = 1 / 2 ^ (x + 1) * (1 / 2 ^ y) by rw [pow_add, div_mul_div_comm, one_mul]]
      exact mul_le_mul c1 b2 (by positivity) hd
    exact c2.trans (le_add_of_nonneg_left (h0 j k))
  · have hlt : ∀ m ∈ A, m < i := fun m hm => by
      have h1 := hAi m hm
      have h2 : m ≠ i := fun e => hiA (e ▸ hm)
      omega
    exact (hp j (mem_Ico.2 ⟨by omega, hj.2⟩) k (mem_Ico.2 ⟨by omega, hk.2⟩) A hA hlt hpath).trans
      (le_add_of_nonneg_right hm)

/-- The elimination does not stop early if every state has a path to later ones. -/
theorem gthForwardF_paths {n d : ℕ} (hn : (d + 1) * n ≤ 1000) {E : ℕ → ℕ → Prop}
    (hE : ∀ i, i + 1 < n → ∃ A k, i < k ∧ k < n ∧ PathVia E i A k ∧ A.Nodup ∧ ∀ m ∈ A, m < i) :
    ∀ (m i : ℕ) (a : ℕ → ℕ → ℚ), i + m + 1 = n → (∀ j k, 0 ≤ a j k) →
    (∀ j ∈ Ico i n, ∑ k ∈ Ico i n, a j k ≤ 5 / 4 + i / 2000) →
    (∀ j ∈ Ico i n, ∀ k ∈ Ico i n, ∀ A : List ℕ, A.Nodup → (∀ m ∈ A, m < i) → PathVia E j A k →
      pathBound d A.length ≤ a j k) →
    (gthForwardF (Arith.rounded double) n m i a).1 = n := by
  have hn1 : n ≤ 1000 := le_trans (Nat.le_mul_of_pos_left n (by omega)) hn
  intro m
  induction m with
  | zero => exact fun i a _ _ _ _ => rfl
  | succ m ih =>
    intro i a hi h0 hrow hp
    obtain ⟨A, k, hk1, hk2, hpath, hA, hAi⟩ := hE i (by omega)
    have hlen : A.length ≤ i := length_le_of_lt hA hAi
    have hb := hp i (mem_Ico.2 ⟨le_rfl, by omega⟩) k (mem_Ico.2 ⟨by omega, hk2⟩) A hA hAi hpath
    have hexp : d * (A.length + 1) + A.length ≤ 1000 := by
      have h1 : (d + 1) * (A.length + 1) ≤ (d + 1) * n := Nat.mul_le_mul_left _ (by omega)
      have h2 : (d + 1) * (A.length + 1) = d * (A.length + 1) + A.length + 1 := by ring
      omega
    have hb' : 1 / 2 ^ 1000 ≤ a i k := le_trans
      (one_div_le_one_div_of_le (by positivity) (pow_le_pow_right₀ (by norm_num) hexp)) hb
    have hnn : ∀ x ∈ (slice (i + 1) n).map (a i), 0 ≤ x := fun x hx => by
      obtain ⟨l, -, rfl⟩ := List.mem_map.1 hx
      exact h0 i l
    have hs : 1 / 2 ^ 1000 ≤ (Arith.rounded double).sum ((slice (i + 1) n).map (a i)) := by
      refine double_sum_ge (by norm_num) hnn (List.mem_map_of_mem (a := k) ?_) hb'
      rw [mem_slice, mem_Ico]
      omega
    have hclose := double_sum_close (l := (slice (i + 1) n).map (a i))
      (by rw [List.length_map, length_slice]; omega) hnn hs
    rw [slice_sum] at hclose
    unfold gthForwardF
    dsimp only
    obtain ⟨s, hse⟩ : ∃ s, s = (Arith.rounded double).sum ((slice (i + 1) n).map (a i)) := ⟨_, rfl⟩
    rw [← hse] at hs hclose ⊢
    have hs0 : 0 < s := lt_of_lt_of_le (by positivity) hs
    rw [if_neg (not_le.2 hs0)]
    have hi2 : (i : ℚ) ≤ 1000 := by exact_mod_cast (by omega : i ≤ 1000)
    have hR : (5 / 4 : ℚ) + i / 2000 ≤ 7 / 4 := by linarith
    have hir := hrow i (mem_Ico.2 ⟨le_rfl, by omega⟩)
    rw [sum_eq_sum_Ico_succ_bot (by omega)] at hir
    have hs2 : s ≤ 2 := by
      have h1 := hclose.2
      have h2 : ∑ k ∈ Ico (i + 1) n, a i k ≤ 7 / 4 := by linarith [h0 i i]
      clear hs hb' hb
      norm_num at h1 ⊢
      linarith
    have hd : ∀ j, 0 ≤ double (a j i / s) := fun j => double_nonneg (div_nonneg (h0 j i) hs0.le)
    have hm : ∀ j k, 0 ≤ double (double (a j i / s) * a i k) := fun j k => double_nonneg (mul_nonneg (hd j) (h0 i k))
    refine ih (i + 1) _ (by omega) (fun j k => ?_) (fun j hj => ?_)
      (step_paths hn h0 (by omega) hs0 hs2 hp)
    · unfold gthStepF
      split_ifs
      · exact hd j
      · exact double_nonneg (add_nonneg (h0 j k) (hm j k))
      · exact h0 j k
      · exact h0 j k
    · have := step_rows hn1 h0 hR (by omega) hrow hs0 hs2 hclose.1 hj
      push_cast
      linarith

theorem gthSolveF_returns {n d : ℕ} (h1 : 1 ≤ n) (hn : (d + 1) * n ≤ 1000) {P : Matrix (Fin n) (Fin n) ℚ}
    (h0 : ∀ i j, 0 ≤ P i j) (hrow : ∀ i, ∑ j, P i j ≤ 5 / 4) (hd : ∀ i j, 0 < P i j → 1 / 2 ^ d ≤ P i j)
    (hirr : Irreducible P) : (gthSolveF (Arith.rounded double) n (toArray P)).1 = n := by
  refine gthForwardF_paths (d := d) hn (E := fun j k => 0 < toArray P j k) (fun i hi => ?_) (n - 1) 0 _ (by omega)
    (fun j k => ?_) (fun j hj => ?_) fun j hj k hk A _ hA hp => ?_
  · have hr := pathVia_of_reach (hirr ⟨i, by omega⟩ ⟨n - 1, by omega⟩)
    have hne : (⟨i, by omega⟩ : Fin n) ≠ ⟨n - 1, by omega⟩ := fun e => by
      have := congrArg Fin.val e
      simp at this
      omega
    obtain ⟨A, hA⟩ := hr.resolve_left hne
    obtain ⟨A, k, hk, hA, hnd, hlt⟩ := exists_simple ⟨A, n - 1, show i < n - 1 by omega, hA⟩
    refine ⟨A, k, hk, ?_, hA, hnd, hlt⟩
    by_contra hkn
    have hz : ∀ j, ¬ 0 < toArray P j k := fun j => by
      unfold toArray
      rw [dif_neg (by omega)]
      exact lt_irrefl _
    rcases List.eq_nil_or_concat A with rfl | ⟨B, b, rfl⟩
    · exact hz _ hA
    · rw [List.concat_eq_append, pathVia_append] at hA
      exact hz _ hA.2
  · unfold toArray
    split_ifs
    · exact h0 _ _
    · exact le_rfl
  · have hj' : j < n := (mem_Ico.1 hj).2
    have := hrow ⟨j, hj'⟩
    rw [Nat.Ico_zero_eq_range, ← Fin.sum_univ_eq_sum_range (fun k => toArray P j k)]
    have e : ∀ k : Fin n, toArray P j k = P ⟨j, hj'⟩ k := fun k => by
      unfold toArray
      rw [dif_pos ⟨hj', k.2⟩]
    simp only [e, Nat.cast_zero, zero_div, add_zero]
    exact this
  · cases A with
    | cons m A => exact absurd (hA m List.mem_cons_self) (by omega)
    | nil =>
      change 0 < toArray P j k at hp
      unfold pathBound
      simp only [List.length_nil, zero_add, mul_one, add_zero]
      unfold toArray at hp ⊢
      rw [dif_pos ⟨(mem_Ico.1 hj).2, (mem_Ico.1 hk).2⟩] at hp ⊢
      exact hd _ _ hp

/-- C152. **The stationary distributions in double arithmetic.** For every matrix that the constructor accepts, `pi`
returns one vector for each recurrent class, provided that the positive probabilities are at least `2 ^ -d` and the
number of states is at most `1000 / (d + 1)`. Without a bound of this kind the statement fails (`C152_pi_raises`). -/
theorem C152_pi_returns {c : MC ℚ} (hc : AcceptedMatrix c.p) {d : ℕ} (hn : (d + 1) * c.n ≤ 1000)
    (hd : ∀ i j, 0 < c.p i j → 1 / 2 ^ d ≤ c.p i j) {sccs : List (List (Fin c.n))} (h : IsClasses c.p sccs) :
    ∃ l, piF (Arith.rounded double) c sccs = .ok l ∧
      l.length = if isIrreducible c sccs then 1 else (recurrentIdx c.p sccs).length := by
  obtain ⟨hc1, hc2, hc3⟩ := hc
  have hrow : ∀ i, ∑ j, c.p i j ≤ 5 / 4 := fun i => by
    have := (abs_le.1 (hc3 i)).2
    norm_num at this ⊢
    linarith
  by_cases hi : isIrreducible c sccs = true
  · have hirr : Irreducible c.p := by
      have hk := h.communicatingIdx
      unfold isIrreducible communicatingClasses at hi
      rw [List.length_map, beq_iff_eq] at hi
      intro i j
      obtain ⟨C, hC⟩ := List.length_eq_one_iff.1 hi
      obtain ⟨A, hA, hi⟩ := hk.cover i
      obtain ⟨B, hB, hj⟩ := hk.cover j
      rw [hC, List.mem_singleton] at hA hB
      rw [hA] at hi
      rw [hB] at hj
      exact ((hk.mem_iff C (by rw [hC]; simp) i hi j).1 hj).1
    have hr := gthSolveF_returns (by omega) hn (fun i j => (hc2 i j).1) hrow hd hirr
    refine ⟨[fun i => (gthSolveF (Arith.rounded double) c.n (toArray c.p)).2 i], ?_, by rw [if_pos hi]; rfl⟩
    unfold piF
    rw [if_pos hi]
    dsimp only
    rw [if_pos hr]
    rfl
  · have hk := h.classesIdx
    have hclass : ∀ C ∈ recurrentIdx c.p sccs, piClassF (Arith.rounded double) c.p C = .ok (fun i =>
        if i ∈ C then (gthSolveF (Arith.rounded double) C.length (toArray (subMatrix c.p C))).2 (C.idxOf i) else 0) := by
      intro C hC
      obtain ⟨m1, h2⟩ := mem_recurrentIdx.1 hC
      have m2 : ∀ a ∈ C, ∀ b, Edge c.p a b → b ∈ C := by
        by_contra hn
        rw [leaves_iff.2 hn] at h2
        cases h2
      have hnd := hk.nodup C m1
      have hlen : 1 ≤ C.length := List.length_pos_iff.2 (hk.ne_nil C m1)
      have hle : C.length ≤ c.n := by simpa using hnd.length_le_card
      have hr : (gthSolveF (Arith.rounded double) C.length (toArray (subMatrix c.p C))).1 = C.length := by
        refine gthSolveF_returns (d := d) hlen ((Nat.mul_le_mul_left _ hle).trans hn) (fun a b => (hc2 _ _).1)
          (fun a => ?_) (fun a b hab => hd _ _ hab) fun a b => ?_
        · refine le_trans ?_ (hrow (C.get a))
          have e : ∑ b, subMatrix c.p C a b = ∑ j with j ∈ C, c.p (C.get a) j := sum_get hnd fun j => c.p (C.get a) j
          rw [e]
          exact sum_le_sum_of_subset_of_nonneg (filter_subset _ _) fun j _ _ => (hc2 _ _).1
        · obtain ⟨b', hb', hr⟩ := reach_subMatrix (fun a b ha hab => m2 a ha b hab)
            ((hk.mem_iff C m1 _ (List.get_mem C a) _).1 (List.get_mem C b)).1 a rfl
          rwa [hnd.injective_get hb'] at hr
      unfold piClassF
      dsimp only
      rw [if_pos hr]
      rfl
    refine ⟨(recurrentIdx c.p sccs).map fun C i =>
      if i ∈ C then (gthSolveF (Arith.rounded double) C.length (toArray (subMatrix c.p C))).2 (C.idxOf i) else 0, ?_,
      by rw [if_neg hi, List.length_map]⟩
    unfold piF
    rw [if_neg hi, mapM_R_eq_ok, List.forall₂_map_right_iff, List.forall₂_same]
    exact fun C hC => hclass C hC

/-- The second state has no successor behind it. -/
def exBack : Matrix (Fin 3) (Fin 3) ℚ := !![0, 1 / 2, 1 / 2; 1, 0, 0; 1, 0, 0]

/-- The hypotheses of `C152_pi_returns` can be met by chains that `C152_pi_returns_partial` does not cover. -/
theorem C152_pi_returns_instance : AcceptedMatrix exBack ∧ (1 + 1) * 3 ≤ 1000 ∧
    (∀ i j, 0 < exBack i j → 1 / 2 ^ 1 ≤ exBack i j) ∧ IsClasses exBack [[0, 1, 2]] ∧
    ¬ ∃ j, (1 : Fin 3) < j ∧ 0 < exBack 1 j := by
  refine ⟨⟨by norm_num, ?_, ?_⟩, by norm_num, ?_, ?_, ?_⟩
  · change ∀ i j : Fin 3, 0 ≤ (fun i j : Fin 3 => exBack i j) i j ∧ (fun i j : Fin 3 => exBack i j) i j ≤ 1
    decide +kernel
  · change ∀ i : Fin 3, |∑ j, (fun i j : Fin 3 => exBack i j) i j - 1| ≤ _
    decide +kernel
  · change ∀ i j : Fin 3, 0 < (fun i j : Fin 3 => exBack i j) i j → 1 / 2 ^ 1 ≤ (fun i j : Fin 3 => exBack i j) i j
    decide +kernel
  · change IsClasses (fun i j : Fin 3 => exBack i j) [[0, 1, 2]]
    decide +kernel
  · change ¬ ∃ j : Fin 3, (1 : Fin 3) < j ∧ 0 < (fun i j : Fin 3 => exBack i j) 1 j
    decide +kernel

end Verif
