import Verif.Lemmas.Double
import Verif.Lemmas.Chain
import Verif.Model.Rounded
import Verif.Model.Construct
import Verif.Props.Rounding
import Verif.Props.RoundedMeasures
import Verif.Props.Regular
import Verif.Props.Validation
import Verif.Props.Stationary

/-!
# C151 and C152: regularity and stationary distributions in double arithmetic
-/

set_option linter.unusedSectionVars false

namespace Verif

open Finset

/-! ## Matrix powers -/

section
variable {K : Type} [Field K] [LinearOrder K] [IsStrictOrderedRing K]

theorem PowerTree.order_squares (i : ℕ) : (squares i).order = 2 ^ i := by
  induction i with
  | zero => rfl
  | succ i ih => rw [squares, order, ih, pow_succ]; omega

theorem PowerTree.order_binary : ∀ (f k i : ℕ) (r : Option PowerTree), k ≤ f → 0 < k →
    ∃ t, binary f k i r = some t ∧ t.order = ((r.map order).getD 0) + 2 ^ i * k := by
  intro f
  induction f with
  | zero => intro k i r h1 h2; omega
  | succ f ih =>
    intro k i r h1 h2
    unfold binary
    rw [if_neg (by omega)]
    have hk : k = 2 * (k / 2) + k % 2 := (Nat.div_add_mod k 2).symm
    have hp : 2 ^ i * k = 2 ^ (i + 1) * (k / 2) + 2 ^ i * (k % 2) := by
      conv_lhs => rw [hk]
      ring
    rcases Nat.eq_zero_or_pos (k / 2) with h0 | h0
    · have h3 : k % 2 = 1 := by omega
      rw [h0, if_pos h3]
      refine ⟨times r (squares i), ?_, ?_⟩
      · cases f <;> simp [binary]
      · rw [hp, h0, h3]
        cases r with
        | none => simp [times, order_squares]
        | some t => simp [times, order, order_squares]
    · obtain ⟨t, ht1, ht2⟩ := ih (k / 2) (i + 1) (if k % 2 = 1 then some (times r (squares i)) else r) (by omega) h0
      refine ⟨t, ht1, ?_⟩
      rw [ht2, hp]
      by_cases h3 : k % 2 = 1
      · rw [if_pos h3, h3]
        cases r with
        | none => simp [times, order_squares]; omega
        | some t => simp [times, order, order_squares]; omega
      · rw [if_neg h3, show k % 2 = 0 by omega]
        omega

/-- The result is the power. -/
theorem PowerTree.order_numpy {k : ℕ} (hk : 0 < k) : (numpy k).order = k := by
  unfold numpy
  split_ifs with h
  · rw [h]; rfl
  · obtain ⟨t, h1, h2⟩ := order_binary k k 0 none le_rfl hk
    rw [h1, Option.getD_some, h2]
    simp

/-- If the matrix squared `d` times is zero, then so are the higher powers. -/
theorem PowerTree.binary_zero {F : Arith K} {n : ℕ} {P : Matrix (Fin n) (Fin n) K}
    (hz : ∀ l : List (K × K), (∀ p ∈ l, p.1 = 0 ∨ p.2 = 0) → F.dot l = 0) {d : ℕ}
    (hd : ∀ i j, (squares d).eval F P i j = 0) : ∀ (f k i : ℕ) (r : Option PowerTree), k ≤ f → 2 ^ (d - i) ≤ k →
    ∃ t, binary f k i r = some t ∧ ∀ a b, t.eval F P a b = 0 := by
  have hleft : ∀ l r : PowerTree, (∀ a b, l.eval F P a b = 0) → ∀ a b, (node l r).eval F P a b = 0 := by
    intro l r h a b
    refine hz _ fun p hp => ?_
    obtain ⟨m, rfl⟩ := List.mem_ofFn.1 hp
    exact Or.inl (h a m)
  have hright : ∀ l r : PowerTree, (∀ a b, r.eval F P a b = 0) → ∀ a b, (node l r).eval F P a b = 0 := by
    intro l r h a b
    refine hz _ fun p hp => ?_
    obtain ⟨m, rfl⟩ := List.mem_ofFn.1 hp
    exact Or.inr (h m b)
  have hsq : ∀ i, d ≤ i → ∀ a b, (squares i).eval F P a b = 0 := by
    intro i hi
    induction i, hi using Nat.le_induction with
    | base => exact hd
    | succ i _ ih => exact hleft _ _ ih
  have hkeep : ∀ (f k i : ℕ) (t : PowerTree), (∀ a b, t.eval F P a b = 0) →
      ∃ t', binary f k i (some t) = some t' ∧ ∀ a b, t'.eval F P a b = 0 := by
    intro f
    induction f with
    | zero => exact fun k i t h => ⟨t, rfl, h⟩
    | succ f ih =>
      intro k i t h
      unfold binary
      split_ifs with h1 h2
      · exact ⟨t, rfl, h⟩
      · exact ih _ _ _ (hleft _ _ h)
      · exact ih _ _ _ h
  intro f
  induction f with
  | zero =>
    intro k i r h1 h2
    have := Nat.pos_of_ne_zero (pow_ne_zero (d - i) (two_ne_zero (α := ℕ)))
    omega
  | succ f ih =>
    intro k i r h1 h2
    have hpos := Nat.pos_of_ne_zero (pow_ne_zero (d - i) (two_ne_zero (α := ℕ)))
    unfold binary
    rw [if_neg (by omega)]
    rcases Nat.lt_or_ge i d with hi | hi
    · refine ih _ _ _ (by omega) ?_
      have e : 2 ^ (d - i) = 2 * 2 ^ (d - (i + 1)) := by
        rw [← pow_succ']
        congr 1
        omega
      omega
    · by_cases h3 : k % 2 = 1
      · rw [if_pos h3]
        refine hkeep _ _ _ _ ?_
        cases r with
        | none => exact hsq i hi
        | some t => exact hright _ _ (hsq i hi)
      · rw [if_neg h3]
        refine ih _ _ _ (by omega) ?_
        rw [show d - (i + 1) = 0 by omega]
        omega

theorem PowerTree.numpy_zero {F : Arith K} {n : ℕ} {P : Matrix (Fin n) (Fin n) K}
    (hz : ∀ l : List (K × K), (∀ p ∈ l, p.1 = 0 ∨ p.2 = 0) → F.dot l = 0) {d : ℕ}
    (hd : ∀ i j, (squares d).eval F P i j = 0) {k : ℕ} (hk : 2 ^ d ≤ k) (h3 : k ≠ 3) (i j : Fin n) :
    (numpy k).eval F P i j = 0 := by
  unfold numpy
  rw [if_neg h3]
  obtain ⟨t, h1, h2⟩ := binary_zero hz hd k k 0 none le_rfl hk
  rw [h1]
  exact h2 i j

end

/-! ## Positive entries -/

/-- Arithmetic of doubles: sums of products that are zero are zero, and a product of two numbers that are not too
small is not lost. -/
structure Arith.Gradual (F : Arith ℚ) : Prop where
  dot_zero : ∀ l : List (ℚ × ℚ), (∀ p ∈ l, p.1 = 0 ∨ p.2 = 0) → F.dot l = 0
  dot_nonneg : ∀ l : List (ℚ × ℚ), (∀ p ∈ l, 0 ≤ p.1 ∧ 0 ≤ p.2) → 0 ≤ F.dot l
  dot_lower : ∀ l : List (ℚ × ℚ), (∀ p ∈ l, 0 ≤ p.1 ∧ 0 ≤ p.2) → ∀ p ∈ l, ∀ a b : ℕ, a + b ≤ 1074 →
    1 / 2 ^ a ≤ p.1 → 1 / 2 ^ b ≤ p.2 → 1 / 2 ^ (a + b) ≤ F.dot l

theorem fold_zero {l : List ℚ} (h : ∀ x ∈ l, x = 0) : l.foldl (fun x y => double (x + y)) 0 = 0 := by
  induction l with
  | nil => rfl
  | cons a l ih =>
    rw [List.foldl_cons, h a List.mem_cons_self, add_zero, double_zero]
    exact ih fun x hx => h x (List.mem_cons_of_mem _ hx)

theorem fold_nonneg {l : List ℚ} : ∀ {x : ℚ}, 0 ≤ x → (∀ y ∈ l, 0 ≤ y) →
    0 ≤ l.foldl (fun x y => double (x + y)) x := by
  induction l with
  | nil => exact fun h _ => h
  | cons a l ih =>
    intro x hx h
    exact ih (double_nonneg (add_nonneg hx (h a List.mem_cons_self))) fun y hy => h y (List.mem_cons_of_mem _ hy)

theorem fold_lower {e : ℕ} (he : e ≤ 1074) {l : List ℚ} : ∀ {x : ℚ}, 0 ≤ x → (∀ y ∈ l, 0 ≤ y) →
    (1 / 2 ^ e ≤ x ∨ ∃ y ∈ l, 1 / 2 ^ e ≤ y) → 1 / 2 ^ e ≤ l.foldl (fun x y => double (x + y)) x := by
  induction l with
  | nil =>
    rintro x - - (h | ⟨y, hy, -⟩)
    · exact h
    · simp at hy
  | cons a l ih =>
    intro x hx h0 h
    have ha := h0 a List.mem_cons_self
    have hl : ∀ y ∈ l, 0 ≤ y := fun y hy => h0 y (List.mem_cons_of_mem _ hy)
    have key : ∀ z : ℚ, 1 / 2 ^ e ≤ z → 1 / 2 ^ e ≤ double z := fun z hz => by
      rw [← double_pow he]
      exact double_mono (by positivity) hz
    refine ih (double_nonneg (add_nonneg hx ha)) hl ?_
    rcases h with h | ⟨y, hy, h⟩
    · exact Or.inl (key _ (by linarith))
    · rcases List.mem_cons.1 hy with rfl | hy
      · exact Or.inl (key _ (by linarith))
      · exact Or.inr ⟨y, hy, h⟩

/-- Sums from the left to the right. -/
theorem double_gradual : (Arith.rounded double).Gradual where
  dot_zero := by
    intro l h
    cases l with
    | nil => rfl
    | cons p l =>
      have key : ∀ q ∈ p :: l, double (q.1 * q.2) = 0 := fun q hq => by
        rcases h q hq with h | h <;> rw [h] <;> simp [double_zero]
      change (l.map fun p => double (p.1 * p.2)).foldl (fun x y => double (x + y)) (double (p.1 * p.2)) = 0
      rw [key p List.mem_cons_self]
      refine fold_zero fun x hx => ?_
      obtain ⟨q, hq, rfl⟩ := List.mem_map.1 hx
      exact key q (List.mem_cons_of_mem _ hq)
  dot_nonneg := by
    intro l h
    cases l with
    | nil => exact le_rfl
    | cons p l =>
      have key : ∀ q ∈ p :: l, 0 ≤ double (q.1 * q.2) := fun q hq => double_nonneg (mul_nonneg (h q hq).1 (h q hq).2)
      refine fold_nonneg (key p List.mem_cons_self) fun x hx => ?_
      obtain ⟨q, hq, rfl⟩ := List.mem_map.1 hx
      exact key q (List.mem_cons_of_mem _ hq)
  dot_lower := by
    intro l h p hp a b hab h1 h2
    have hlow : 1 / 2 ^ (a + b) ≤ double (p.1 * p.2) := by
      rw [← double_pow hab]
      refine double_mono (by positivity) ?_
      rw [pow_add, ← one_div_mul_one_div]
      exact mul_le_mul h1 h2 (by positivity) (h p hp).1
    cases l with
    | nil => simp at hp
    | cons q l =>
      have key : ∀ q' ∈ q :: l, 0 ≤ double (q'.1 * q'.2) := fun q hq =>
        double_nonneg (mul_nonneg (h q hq).1 (h q hq).2)
      refine fold_lower hab (key q List.mem_cons_self) (fun x hx => ?_) ?_
      · obtain ⟨q', hq, rfl⟩ := List.mem_map.1 hx
        exact key q' (List.mem_cons_of_mem _ hq)
      · rcases List.mem_cons.1 hp with rfl | hp
        · exact Or.inl hlow
        · exact Or.inr ⟨_, List.mem_map_of_mem hp, hlow⟩

/-- Entries of computed powers: those that are zero are computed as zero, the others are positive if they are not
too small. -/
theorem PowerTree.entries {F : Arith ℚ} (hF : F.Gradual) {n : ℕ} {P : Matrix (Fin n) (Fin n) ℚ}
    (hP : ∀ i j, 0 ≤ P i j) (t : PowerTree) : (∀ i j, 0 ≤ t.eval F P i j) ∧
    (∀ i j, (P ^ t.order) i j = 0 → t.eval F P i j = 0) ∧
    ∀ s : ℕ, (∀ i j, 0 < P i j → 1 / 2 ^ s ≤ P i j) → s * t.order ≤ 1074 → ∀ i j, 0 < (P ^ t.order) i j →
      1 / 2 ^ (s * t.order) ≤ t.eval F P i j := by
  induction t with
  | leaf =>
    refine ⟨hP, fun i j h => ?_, fun s hs _ i j h => ?_⟩
    · rw [order, pow_one] at h
      exact h
    · rw [order, pow_one] at h
      rw [order, mul_one]
      exact hs i j h
  | node l r ihl ihr =>
    obtain ⟨l1, l2, l3⟩ := ihl
    obtain ⟨r1, r2, r3⟩ := ihr
    have hnl : ∀ i j, 0 ≤ (P ^ l.order) i j := nonneg_pow hP _
    have hnr : ∀ i j, 0 ≤ (P ^ r.order) i j := nonneg_pow hP _
    have hm : ∀ i j, ∀ p ∈ List.ofFn (fun k => (l.eval F P i k, r.eval F P k j)), 0 ≤ p.1 ∧ 0 ≤ p.2 := by
      intro i j p hp
      obtain ⟨m, rfl⟩ := List.mem_ofFn.1 hp
      exact ⟨l1 i m, r1 m j⟩
    refine ⟨fun i j => hF.dot_nonneg _ (hm i j), fun i j h => ?_, fun s hs ht i j h => ?_⟩
    · refine hF.dot_zero _ fun p hp => ?_
      obtain ⟨m, rfl⟩ := List.mem_ofFn.1 hp
      rw [order, pow_add, Matrix.mul_apply] at h
      have h0 := (sum_eq_zero_iff_of_nonneg fun k _ => mul_nonneg (hnl i k) (hnr k j)).1 h m (mem_univ m)
      rcases mul_eq_zero.1 h0 with h0 | h0
      · exact Or.inl (l2 i m h0)
      · exact Or.inr (r2 m j h0)
    · rw [order, pow_add, Matrix.mul_apply] at h
      rw [order, mul_add] at ht
      obtain ⟨m, -, h0⟩ := exists_lt_of_sum_lt (f := fun _ => (0 : ℚ)) (by simpa using h)
      have hlp := (pos_iff_pos_of_mul_pos h0)
      have h4 : 0 < (P ^ l.order) i m := (hnl i m).lt_of_ne fun h => by rw [← h, zero_mul] at h0; exact lt_irrefl _ h0
      have h5 : 0 < (P ^ r.order) m j := hlp.1 h4
      rw [order, mul_add]
      exact hF.dot_lower _ (hm i j) _ (List.mem_ofFn.2 ⟨m, rfl⟩) _ _ ht (l3 s hs (by omega) i m h4)
        (r3 s hs (by omega) m j h5)

/-! ## The test of regularity -/

theorem regularExponent_pos {c : MC ℚ} (hn : 2 ≤ c.n) : 0 < regularExponent c := by
  have h : ((List.finRange c.n).filter fun i => c.p i i ≠ 0).length ≤ c.n :=
    (List.length_filter_le _ _).trans (by simp)
  unfold regularExponent
  dsimp only
  split_ifs <;> omega

/-- The program without rounding. -/
theorem isRegular_eq (c : MC ℚ) : isRegular c = true ↔ ∀ i j, 0 < (c.p ^ regularExponent c) i j := by
  unfold isRegular regularExponent hasEdge
  simp

/-- C151 (partial). In double arithmetic, with any order of additions, only regular chains are called regular. All
regular chains are called regular if the positive probabilities are not so small that a product of as many of them
as the exponent says would vanish. Without the latter the statement fails (`C151_small_probabilities`,
`C151_row_sums`). -/
theorem C151_regular_partial {F : Arith ℚ} (hF : F.Gradual) {c : MC ℚ} (hc : c.Valid) :
    (isRegularF F c = true → Primitive c.p) ∧
    ∀ s : ℕ, (∀ i j, 0 < c.p i j → 1 / 2 ^ s ≤ c.p i j) → s * regularExponent c ≤ 1074 →
      (isRegularF F c = true ↔ Primitive c.p) := by
  have hk := PowerTree.order_numpy (regularExponent_pos hc.1)
  obtain ⟨-, h2, h3⟩ := (PowerTree.numpy (regularExponent c)).entries hF (P := c.p) hc.2.1.1
  rw [hk] at h2 h3
  have h1 : isRegularF F c = true → Primitive c.p := by
    intro h
    rw [← C31_regular hc, isRegular_eq]
    unfold isRegularF at h
    rw [decide_eq_true_eq] at h
    intro i j
    refine (nonneg_pow hc.2.1.1 _ i j).lt_of_ne fun h0 => ?_
    exact (h i j).ne' (h2 i j h0.symm)
  refine ⟨h1, fun s hs hsk => ⟨h1, fun h => ?_⟩⟩
  rw [← C31_regular hc, isRegular_eq] at h
  unfold isRegularF
  rw [decide_eq_true_eq]
  exact fun i j => lt_of_lt_of_le (by positivity) (h3 s hs hsk i j (h i j))

/-- The hypotheses of `C151_regular_partial` can be met. -/
example : (Arith.rounded double).Gradual ∧ (⟨2, weather, ["sunny", "rainy"]⟩ : MC ℚ).Valid ∧
    (∀ i j : Fin 2, 0 < weather i j → 1 / 2 ^ 4 ≤ weather i j) ∧
    4 * regularExponent (⟨2, weather, ["sunny", "rainy"]⟩ : MC ℚ) ≤ 1074 :=
  ⟨double_gradual, by decide +kernel,
    show ∀ i j : Fin 2, 0 < (fun i j : Fin 2 => weather i j) i j → 1 / 2 ^ 4 ≤ (fun i j : Fin 2 => weather i j) i j by
      decide +kernel, by decide +kernel⟩

/-! ### Small probabilities -/

/-- Three states in a row, with probabilities `2 ^ -600`. -/
def exTiny : Matrix (Fin 3) (Fin 3) ℚ := fun i j =>
  if i = j then 1 else if (i = 0 ∧ j = 2) ∨ (i = 2 ∧ j = 0) then 0 else 1 / 2 ^ 600

theorem exTiny_accepted : AcceptedMatrix exTiny := by
  refine ⟨by norm_num, ?_, ?_⟩
  · change ∀ i j : Fin 3, 0 ≤ (fun i j : Fin 3 => exTiny i j) i j ∧ (fun i j : Fin 3 => exTiny i j) i j ≤ 1
    decide +kernel
  · change ∀ i : Fin 3, |∑ j, (fun i j : Fin 3 => exTiny i j) i j - 1| ≤ _
    decide +kernel

/-- C151 fails: the constructor accepts a matrix of doubles, all entries of its square are positive, but they
vanish when they are calculated with doubles, and the chain is not called regular. -/
theorem C151_small_probabilities : ∃ c, mcInit "main" (pyMatrix exTiny) .none = .ok c ∧
    (∀ i j : Fin 3, double (exTiny i j) = exTiny i j) ∧ Primitive c.p ∧ isRegular c = true ∧
    isRegularF (Arith.rounded double) c = false := by
  refine ⟨⟨3, exTiny, createLabels 3 ""⟩,
    (C01_constructor_default_labels (by decide) exTiny _ (Or.inl rfl) _).2 ⟨exTiny_accepted, rfl⟩,
    show ∀ i j : Fin 3, double ((fun i j : Fin 3 => exTiny i j) i j) = (fun i j : Fin 3 => exTiny i j) i j by
      decide +kernel,
    ⟨2, by norm_num, fun i j => ?_⟩, by decide +kernel, by decide +kernel⟩
  refine (reachIn_iff_pow_pos (P := exTiny) (fun i j => (exTiny_accepted.2.1 i j).1) 2 i j).2 ?_
  revert i j
  change ∀ i j : Fin 3, 0 < (fun i j : Fin 3 => (exTiny ^ 2) i j) i j
  decide +kernel

/-! ### Row sums below one -/

/-- The factor of the relative error. -/
def dblFactor : ℚ := 1 + 1 / 2 ^ 53

theorem dblFactor_ge : 1 ≤ dblFactor := by decide +kernel

theorem fold_le {l : List ℚ} : ∀ {x : ℚ}, 0 ≤ x → (∀ y ∈ l, 0 ≤ y) →
    l.foldl (fun x y => double (x + y)) x ≤
      dblFactor ^ l.length * (x + l.sum) + l.length * dblFactor ^ l.length * (1 / 2 ^ 1075) := by
  have he : (0 : ℚ) ≤ 1 / 2 ^ 1075 := by positivity
  have hd : ∀ z : ℚ, 0 ≤ z → double z ≤ dblFactor * z + 1 / 2 ^ 1075 := fun z hz => double_le hz
  generalize (1 : ℚ) / 2 ^ 1075 = e at he hd ⊢
  have hf := dblFactor_ge
  generalize dblFactor = f at hf hd ⊢
  induction l with
  | nil =>
    intro x hx _
    simp
  | cons a l ih =>
    intro x hx h
    have ha := h a List.mem_cons_self
    have hl : ∀ y ∈ l, 0 ≤ y := fun y hy => h y (List.mem_cons_of_mem _ hy)
    have h1 := ih (double_nonneg (add_nonneg hx ha)) hl
    rw [List.foldl_cons]
    refine h1.trans ?_
    rw [List.length_cons, List.sum_cons, pow_succ]
    have h2 := hd (x + a) (add_nonneg hx ha)
    have hp : 0 ≤ f ^ l.length := by positivity
    have hs : 0 ≤ l.sum := List.sum_nonneg hl
    have h3 := mul_le_mul_of_nonneg_left h2 hp
    have h4 : f ^ l.length * l.sum ≤ f ^ l.length * f * l.sum := by
      rw [mul_assoc]
      exact mul_le_mul_of_nonneg_left (le_mul_of_one_le_left hs hf) hp
    have h5 : f ^ l.length * e ≤ f ^ l.length * f * e := by
      rw [mul_assoc]
      exact mul_le_mul_of_nonneg_left (le_mul_of_one_le_left he hf) hp
    have h6 : (l.length : ℚ) * f ^ l.length * e ≤ l.length * (f ^ l.length * f) * e := by
      rw [mul_assoc, mul_assoc]
      exact mul_le_mul_of_nonneg_left h5 (by positivity)
    push_cast
    linarith

theorem dot_le {l : List (ℚ × ℚ)} (h : ∀ p ∈ l, 0 ≤ p.1 ∧ 0 ≤ p.2) : (Arith.rounded double).dot l ≤
    dblFactor ^ l.length * (l.map fun p => p.1 * p.2).sum + 2 * l.length * dblFactor ^ l.length * (1 / 2 ^ 1075) := by
  cases l with
  | nil => simp [Arith.rounded]
  | cons p l =>
    have key : ∀ q ∈ p :: l, 0 ≤ double (q.1 * q.2) := fun q hq => double_nonneg (mul_nonneg (h q hq).1 (h q hq).2)
    have h1 := fold_le (key p List.mem_cons_self) (l := l.map fun p => double (p.1 * p.2)) fun x hx => by
      obtain ⟨q, hq, rfl⟩ := List.mem_map.1 hx
      exact key q (List.mem_cons_of_mem _ hq)
    change (l.map fun p => double (p.1 * p.2)).foldl (fun x y => double (x + y)) (double (p.1 * p.2)) ≤ _
    refine h1.trans ?_
    clear h1
    rw [List.length_map, List.map_cons, List.sum_cons, List.length_cons, pow_succ dblFactor]
    have he : (0 : ℚ) ≤ 1 / 2 ^ 1075 := by positivity
    have hd : ∀ z : ℚ, 0 ≤ z → double z ≤ dblFactor * z + 1 / 2 ^ 1075 := fun z hz => double_le hz
    generalize (1 : ℚ) / 2 ^ 1075 = e at he hd ⊢
    have hf := dblFactor_ge
    generalize dblFactor = f at hf hd ⊢
    have h2 := hd (p.1 * p.2) (mul_nonneg (h p List.mem_cons_self).1 (h p List.mem_cons_self).2)
    have h3 : (l.map fun p => double (p.1 * p.2)).sum ≤ f * (l.map fun p => p.1 * p.2).sum + l.length * e := by
      clear key h2
      induction l with
      | nil => simp
      | cons q l ih =>
        have hq := h q (List.mem_cons_of_mem _ List.mem_cons_self)
        have h5 := ih fun r hr => by
          rcases List.mem_cons.1 hr with rfl | hr
          · exact h _ List.mem_cons_self
          · exact h r (List.mem_cons_of_mem _ (List.mem_cons_of_mem _ hr))
        have h6 := hd (q.1 * q.2) (mul_nonneg hq.1 hq.2)
        rw [List.map_cons, List.sum_cons, List.map_cons, List.sum_cons, List.length_cons]
        push_cast
        linarith
    have hp : 0 ≤ f ^ l.length := by positivity
    have h4 := mul_le_mul_of_nonneg_left (add_le_add h2 h3) hp
    have h5 : f ^ l.length * e ≤ f ^ l.length * f * e := by
      rw [mul_assoc]
      exact mul_le_mul_of_nonneg_left (le_mul_of_one_le_left he hf) hp
    have h6 : (l.length : ℚ) * (f ^ l.length * e) ≤ l.length * (f ^ l.length * f * e) :=
      mul_le_mul_of_nonneg_left h5 (by positivity)
    have h7 : 0 ≤ f ^ l.length * f * e := mul_nonneg (mul_nonneg hp (by linarith)) he
    push_cast
    linarith

/-- Row sums of computed powers. -/
theorem PowerTree.row_le {n : ℕ} {P : Matrix (Fin n) (Fin n) ℚ} (hP : ∀ i j, 0 ≤ P i j) {q c : ℚ} {N : ℕ}
    (hq0 : 0 ≤ q) (hq : ∀ i, dblFactor ^ n * ∑ j, P i j ≤ q)
    (hc : 2 * n ^ 2 * dblFactor ^ n * dblFactor ^ n * (1 / 2 ^ 1075) ≤ c) (hc0 : 0 ≤ c) (hN : q + N * c ≤ 1)
    (t : PowerTree) : t.order ≤ N → ∀ i, dblFactor ^ n * ∑ j, t.eval (Arith.rounded double) P i j ≤
      q ^ t.order + (t.order - 1) * c := by
  have hf := dblFactor_ge
  have hg : 0 ≤ dblFactor ^ n := pow_nonneg (by linarith) n
  have hq1 : q ≤ 1 := by
    have : 0 ≤ (N : ℚ) * c := by positivity
    linarith
  induction t with
  | leaf =>
    intro _ i
    rw [order, pow_one, Nat.cast_one, sub_self, zero_mul, add_zero]
    exact hq i
  | node l r ihl ihr =>
    intro hord i
    rw [order] at hord ⊢
    have hl0 := (l.entries double_gradual hP).1
    have hr0 := (r.entries double_gradual hP).1
    have hol := l.order_pos
    have hor := r.order_pos
    have il := ihl (by omega)
    have ir := ihr (by omega)
    have h1 : ∀ j, (node l r).eval (Arith.rounded double) P i j ≤
        dblFactor ^ n * ∑ k, l.eval (Arith.rounded double) P i k * r.eval (Arith.rounded double) P k j +
          2 * n * dblFactor ^ n * (1 / 2 ^ 1075) := by
      intro j
      have e := dot_le (l := List.ofFn fun k => (l.eval (Arith.rounded double) P i k,
        r.eval (Arith.rounded double) P k j)) fun p hp => by
          obtain ⟨m, rfl⟩ := List.mem_ofFn.1 hp
          exact ⟨hl0 i m, hr0 m j⟩
      rw [List.length_ofFn, List.map_ofFn, List.sum_ofFn] at e
      exact e
    have h2 := sum_le_sum fun j (_ : j ∈ univ) => h1 j
    rw [sum_add_distrib, ← mul_sum, sum_comm, sum_const, card_univ, Fintype.card_fin, nsmul_eq_mul] at h2
    simp only [← mul_sum] at h2
    obtain ⟨B, hB⟩ : ∃ B, B = q ^ r.order + ((r.order : ℚ) - 1) * c := ⟨_, rfl⟩
    have hB1 : B ≤ 1 := by
      have e1 : q ^ r.order ≤ q := pow_le_of_le_one hq0 hq1 (by omega)
      have e2 : ((r.order : ℚ) - 1) * c ≤ N * c := by
        refine mul_le_mul_of_nonneg_right ?_ hc0
        have : (r.order : ℚ) ≤ N := by exact_mod_cast (by omega : r.order ≤ N)
        linarith
      linarith
    have hB0 : 0 ≤ B := by
      have : (1 : ℚ) ≤ r.order := by exact_mod_cast hor
      have e2 : 0 ≤ ((r.order : ℚ) - 1) * c := mul_nonneg (by linarith) hc0
      have := pow_nonneg hq0 r.order
      linarith
    have h3 : dblFactor ^ n * ∑ k, l.eval (Arith.rounded double) P i k *
        ∑ j, r.eval (Arith.rounded double) P k j ≤ (∑ k, l.eval (Arith.rounded double) P i k) * B := by
      rw [mul_sum, sum_mul]
      refine sum_le_sum fun k _ => ?_
      rw [← hB] at ir
      have := mul_le_mul_of_nonneg_left (ir k) (hl0 i k)
      calc _ = l.eval (Arith.rounded double) P i k * (dblFactor ^ n * ∑ j, r.eval (Arith.rounded double) P k j) := by ring
        _ ≤ _ := this
    have h4 := mul_le_mul_of_nonneg_left (h2.trans (add_le_add_left h3 _)) hg
    have h5 := mul_le_mul_of_nonneg_right (il i) hB0
    have h6 : q ^ l.order * B ≤ q ^ (l.order + r.order) + ((r.order : ℚ) - 1) * c := by
      rw [hB, mul_add, ← pow_add]
      have : (1 : ℚ) ≤ r.order := by exact_mod_cast hor
      have e2 : 0 ≤ ((r.order : ℚ) - 1) * c := mul_nonneg (by linarith) hc0
      have e3 := mul_le_of_le_one_left e2 (pow_le_one₀ hq0 hq1 (n := l.order))
      linarith
    have h7 : ((l.order : ℚ) - 1) * c * B ≤ ((l.order : ℚ) - 1) * c := by
      have : (1 : ℚ) ≤ l.order := by exact_mod_cast hol
      exact mul_le_of_le_one_right (mul_nonneg (by linarith) hc0) hB1
    have h8 : dblFactor ^ n * (n * (2 * n * dblFactor ^ n * (1 / 2 ^ 1075))) ≤ c := by
      refine le_trans (le_of_eq ?_) hc
      generalize (1 : ℚ) / 2 ^ 1075 = e
      ring
    push_cast
    generalize (1 : ℚ) / 2 ^ 1075 = e at *
    nlinarith [h4, h5, h6, h7, h8]

/-- A square of a matrix with small row sums vanishes. -/
theorem squares_zero {n : ℕ} {P : Matrix (Fin n) (Fin n) ℚ} (hP : ∀ i j, 0 ≤ P i j) {d : ℕ} {x : ℚ}
    (hx : ∀ i, ∑ j, (PowerTree.squares d).eval (Arith.rounded double) P i j ≤ x) (hxx : x * x ≤ 1 / 2 ^ 1075)
    (i j : Fin n) : (PowerTree.squares (d + 1)).eval (Arith.rounded double) P i j = 0 := by
  have h0 := ((PowerTree.squares d).entries double_gradual hP).1
  have he : ∀ a b, (PowerTree.squares d).eval (Arith.rounded double) P a b ≤ x := fun a b =>
    (single_le_sum (fun k _ => h0 a k) (mem_univ b)).trans (hx a)
  have hx0 : 0 ≤ x := (h0 i j).trans (he i j)
  have key : ∀ p ∈ List.ofFn (fun k => ((PowerTree.squares d).eval (Arith.rounded double) P i k,
      (PowerTree.squares d).eval (Arith.rounded double) P k j)), double (p.1 * p.2) = 0 := by
    intro p hp
    obtain ⟨m, rfl⟩ := List.mem_ofFn.1 hp
    exact double_underflow (mul_nonneg (h0 i m) (h0 m j)) ((mul_le_mul (he i m) (he m j) (h0 m j) hx0).trans hxx)
  change (Arith.rounded double).dot (List.ofFn fun k => _) = 0
  generalize (List.ofFn fun k => ((PowerTree.squares d).eval (Arith.rounded double) P i k,
      (PowerTree.squares d).eval (Arith.rounded double) P k j)) = l at key
  cases l with
  | nil => rfl
  | cons p l =>
    change (l.map fun p => double (p.1 * p.2)).foldl (fun x y => double (x + y)) (double (p.1 * p.2)) = 0
    rw [key p List.mem_cons_self]
    refine fold_zero fun x hx => ?_
    obtain ⟨q, hq, rfl⟩ := List.mem_map.1 hx
    exact key q (List.mem_cons_of_mem _ hq)

/-- Nine states on a circle; from each of them one goes one, two or three states further with probability
`0.33333`. -/
def exThirds : Matrix (Fin 9) (Fin 9) ℚ := fun i j =>
  if j - i = 1 ∨ j - i = 2 ∨ j - i = 3 then double (33333 / 100000) else 0

theorem exThirds_accepted : AcceptedMatrix exThirds := by
  refine ⟨by norm_num, ?_, ?_⟩
  · change ∀ i j : Fin 9, 0 ≤ (fun i j : Fin 9 => exThirds i j) i j ∧ (fun i j : Fin 9 => exThirds i j) i j ≤ 1
    decide +kernel
  · change ∀ i : Fin 9, |∑ j, (fun i j : Fin 9 => exThirds i j) i j - 1| ≤ _
    decide +kernel

theorem exThirds_primitive : ∀ k, 4 ≤ k → ∀ i j, ReachIn exThirds k i j := by
  have h0 := fun i j => (exThirds_accepted.2.1 i j).1
  intro k hk
  induction k, hk using Nat.le_induction with
  | base =>
    intro i j
    refine (reachIn_iff_pow_pos (P := exThirds) h0 4 i j).2 ?_
    have e : exThirds ^ 4 = (exThirds * exThirds) * (exThirds * exThirds) := by rw [← pow_two, ← pow_two, ← pow_mul]
    rw [e]
    revert i j
    change ∀ i j : Fin 9, 0 < (fun i j : Fin 9 => ((exThirds * exThirds) * (exThirds * exThirds)) i j) i j
    decide +kernel
  | succ k _ ih =>
    intro i j
    refine (ih (i + 1) j).cons ?_
    unfold Edge exThirds
    rw [if_pos (by simp)]
    decide +kernel

theorem exThirds_power : (999991 / 1000000 : ℚ) ^ 2 ^ 26 ≤ 1 / 2 ^ 800 := by
  have h1 : (999991 / 1000000 : ℚ) ^ 2 ^ 14 ≤ 8716 / 10000 := by
    have h2 : (1 : ℚ) + (2 ^ 14 : ℕ) * (9 / 1000000) ≤ (1 + 9 / 1000000) ^ 2 ^ 14 :=
      one_add_mul_le_pow (by norm_num) _
    have h3 : (999991 / 1000000 : ℚ) ^ 2 ^ 14 * (1 + 9 / 1000000) ^ 2 ^ 14 ≤ 1 := by
      rw [← mul_pow]
      exact pow_le_one₀ (by norm_num) (by norm_num)
    have h4 : 0 ≤ (999991 / 1000000 : ℚ) ^ 2 ^ 14 := pow_nonneg (by norm_num) _
    generalize (999991 / 1000000 : ℚ) ^ 2 ^ 14 = a at h3 h4 ⊢
    generalize ((1 : ℚ) + 9 / 1000000) ^ 2 ^ 14 = b at h2 h3
    have h5 := (mul_le_mul_of_nonneg_left h2 h4).trans h3
    norm_num at h5
    linarith
  have h2 : (999991 / 1000000 : ℚ) ^ 2 ^ 26 = (((999991 / 1000000) ^ 2 ^ 14) ^ 16) ^ 256 := by
    rw [← pow_mul, ← pow_mul]
    norm_num only
  have h3 : ((999991 / 1000000 : ℚ) ^ 2 ^ 14) ^ 16 ≤ 1 / 9 :=
    (pow_le_pow_left₀ (pow_nonneg (by norm_num) _) h1 16).trans (by norm_num)
  rw [h2]
  refine (pow_le_pow_left₀ (pow_nonneg (pow_nonneg (by norm_num) _) _) h3 256).trans ?_
  decide +kernel

/-- C151 fails: the constructor accepts a matrix of doubles, a power of which has only positive entries, but the power
that is inspected vanishes when it is calculated with doubles, because the row sums are slightly below one. -/
theorem C151_row_sums : ∃ c, mcInit "main" (pyMatrix exThirds) .none = .ok c ∧
    (∀ i j : Fin 9, double (exThirds i j) = exThirds i j) ∧ Primitive c.p ∧ isRegular c = true ∧
    isRegularF (Arith.rounded double) c = false := by
  have h0 := fun i j => (exThirds_accepted.2.1 i j).1
  have hexp : regularExponent (⟨9, exThirds, createLabels 9 ""⟩ : MC ℚ) = 387420473 := by decide +kernel
  refine ⟨⟨9, exThirds, createLabels 9 ""⟩,
    (C01_constructor_default_labels (by decide) exThirds _ (Or.inl rfl) _).2 ⟨exThirds_accepted, rfl⟩,
    show ∀ i j : Fin 9, double ((fun i j : Fin 9 => exThirds i j) i j) = (fun i j : Fin 9 => exThirds i j) i j by
      decide +kernel,
    ⟨4, by norm_num, exThirds_primitive 4 le_rfl⟩, ?_, ?_⟩
  · rw [isRegular_eq, hexp]
    exact fun i j => (reachIn_iff_pow_pos (P := exThirds) h0 _ i j).1 (exThirds_primitive _ (by norm_num) i j)
  · have hrow : ∀ i, dblFactor ^ 9 * ∑ j, exThirds i j ≤ 999991 / 1000000 := by
      change ∀ i : Fin 9, dblFactor ^ 9 * ∑ j, (fun i j : Fin 9 => exThirds i j) i j ≤ _
      decide +kernel
    have hb := PowerTree.row_le (P := exThirds) h0 (q := 999991 / 1000000) (c := 1 / 2 ^ 1060) (N := 2 ^ 26)
      (by norm_num) hrow (by decide +kernel) (by positivity) (by decide +kernel) (PowerTree.squares 26)
      (by rw [PowerTree.order_squares])
    rw [PowerTree.order_squares] at hb
    have hs : ∀ i, ∑ j, (PowerTree.squares 26).eval (Arith.rounded double) exThirds i j ≤ 1 / 2 ^ 799 := by
      intro i
      have e0 : 0 ≤ ∑ j, (PowerTree.squares 26).eval (Arith.rounded double) exThirds i j :=
        sum_nonneg fun j _ => ((PowerTree.squares 26).entries double_gradual h0).1 i j
      have e1 := le_mul_of_one_le_left e0 (one_le_pow₀ dblFactor_ge (n := 9))
      refine (e1.trans (hb i)).trans ((add_le_add exThirds_power le_rfl).trans ?_)
      decide +kernel
    have hz := squares_zero h0 hs (by decide +kernel)
    have := PowerTree.numpy_zero double_gradual.dot_zero hz (k := 387420473) (by norm_num) (by norm_num)
    unfold isRegularF
    rw [hexp, decide_eq_false_iff_not]
    intro h
    have h1 := h (0 : Fin 9) (0 : Fin 9)
    rw [this] at h1
    exact lt_irrefl _ h1

/-! ## Stationary distributions -/

theorem double_sum_nonneg {l : List ℚ} (h : ∀ x ∈ l, 0 ≤ x) : 0 ≤ (Arith.rounded double).sum l := by
  cases l with
  | nil => exact le_rfl
  | cons a l => exact fold_nonneg (h a List.mem_cons_self) fun y hy => h y (List.mem_cons_of_mem _ hy)

theorem double_sum_lower {l : List ℚ} (h : ∀ x ∈ l, 0 ≤ x) {x : ℚ} (hx : x ∈ l) (hl : 1 / 2 ^ 1074 ≤ x) :
    1 / 2 ^ 1074 ≤ (Arith.rounded double).sum l := by
  cases l with
  | nil => simp at hx
  | cons a l =>
    refine fold_lower le_rfl (h a List.mem_cons_self) (fun y hy => h y (List.mem_cons_of_mem _ hy)) ?_
    rcases List.mem_cons.1 hx with rfl | hx
    · exact Or.inl hl
    · exact Or.inr ⟨x, hx, hl⟩

/-- The elimination does not stop early if every row has a positive entry behind the diagonal. -/
theorem gthForwardF_double {n : ℕ} : ∀ (m i : ℕ) (a : ℕ → ℕ → ℚ), i + m + 1 = n → (∀ j k, 0 ≤ a j k) →
    (∀ j, i ≤ j → j + 1 < n → ∃ k, j < k ∧ k < n ∧ 1 / 2 ^ 1074 ≤ a j k) →
    (gthForwardF (Arith.rounded double) n m i a).1 = n := by
  intro m
  induction m with
  | zero => exact fun i a _ _ _ => rfl
  | succ m ih =>
    intro i a hi h0 h
    obtain ⟨k, hk1, hk2, hk3⟩ := h i le_rfl (by omega)
    have hs : 1 / 2 ^ 1074 ≤ (Arith.rounded double).sum ((slice (i + 1) n).map (a i)) := by
      refine double_sum_lower (fun x hx => ?_) (List.mem_map_of_mem (a := k) ?_) hk3
      · obtain ⟨l, -, rfl⟩ := List.mem_map.1 hx
        exact h0 i l
      · rw [mem_slice, mem_Ico]
        omega
    unfold gthForwardF
    dsimp only
    obtain ⟨s, hse⟩ : ∃ s, s = (Arith.rounded double).sum ((slice (i + 1) n).map (a i)) := ⟨_, rfl⟩
    rw [← hse] at hs ⊢
    have hs0 : 0 < s := lt_of_lt_of_le (by positivity) hs
    rw [if_neg (not_le.2 hs0)]
    have hd : ∀ j, 0 ≤ double (a j i / s) := fun j => double_nonneg (div_nonneg (h0 j i) hs0.le)
    have hm : ∀ j k, 0 ≤ double (double (a j i / s) * a i k) := fun j k => double_nonneg (mul_nonneg (hd j) (h0 i k))
    refine ih (i + 1) _ (by omega) (fun j k => ?_) fun j hj1 hj2 => ?_
    · unfold gthStepF
      split_ifs
      · exact hd j
      · exact double_nonneg (add_nonneg (h0 j k) (hm j k))
      · exact h0 j k
      · exact h0 j k
    · obtain ⟨k, h1, h2, h3⟩ := h j (by omega) hj2
      refine ⟨k, h1, h2, ?_⟩
      unfold gthStepF
      rw [if_pos ⟨by omega, by omega⟩, if_neg (by omega), if_pos ⟨by omega, h2⟩]
      have := double_mono (by positivity) (h3.trans (le_add_of_nonneg_right (hm j k)))
      rwa [double_pow le_rfl] at this

/-- C152 (partial). In double arithmetic, `pi` returns a vector for every irreducible chain in which every state but
the last one has a successor later in the order of the states. Without the latter the statement fails
(`C152_pi_raises`). -/
theorem C152_pi_returns_partial {c : MC ℚ} (hn : 2 ≤ c.n) (h0 : ∀ i j, 0 ≤ c.p i j)
    (hd : ∀ i j, 0 < c.p i j → 1 / 2 ^ 1074 ≤ c.p i j) {sccs : List (List (Fin c.n))}
    (hirr : isIrreducible c sccs = true) (hlater : ∀ i : Fin c.n, (i : ℕ) + 1 < c.n → ∃ j, i < j ∧ 0 < c.p i j) :
    ∃ x, piF (Arith.rounded double) c sccs = .ok [x] := by
  have h : (gthSolveF (Arith.rounded double) c.n (toArray c.p)).1 = c.n := by
    refine gthForwardF_double (c.n - 1) 0 _ (by omega) (fun j k => ?_) fun j _ hj => ?_
    · unfold toArray
      split_ifs
      · exact h0 _ _
      · exact le_rfl
    · obtain ⟨k, hk1, hk2⟩ := hlater ⟨j, by omega⟩ hj
      refine ⟨k, hk1, k.2, ?_⟩
      unfold toArray
      rw [dif_pos ⟨by omega, k.2⟩]
      exact hd _ _ hk2
  refine ⟨fun i => (gthSolveF (Arith.rounded double) c.n (toArray c.p)).2 i, ?_⟩
  unfold piF
  rw [if_pos hirr]
  dsimp only
  rw [if_pos h]
  rfl

/-- The hypotheses of `C152_pi_returns_partial` can be met, also with very small probabilities. -/
example : isIrreducible (⟨3, exTiny, createLabels 3 ""⟩ : MC ℚ) ([[0, 1, 2]] : List (List (Fin 3))) = true ∧
    (∀ i j : Fin 3, 0 < (fun i j : Fin 3 => exTiny i j) i j → 1 / 2 ^ 1074 ≤ (fun i j : Fin 3 => exTiny i j) i j) ∧
    ∀ i : Fin 3, (i : ℕ) + 1 < 3 → ∃ j, i < j ∧ 0 < (fun i j : Fin 3 => exTiny i j) i j := by
  decide +kernel

/-- From the first state to the last one and from the second state to the first one with probability `2 ^ -600`. -/
def exGap : Matrix (Fin 3) (Fin 3) ℚ := !![0, 1, 1 / 2 ^ 600; 1 / 2 ^ 600, 1, 0; 1, 0, 0]

theorem exGap_accepted : AcceptedMatrix exGap := by
  refine ⟨by norm_num, ?_, ?_⟩
  · change ∀ i j : Fin 3, 0 ≤ (fun i j : Fin 3 => exGap i j) i j ∧ (fun i j : Fin 3 => exGap i j) i j ≤ 1
    decide +kernel
  · change ∀ i : Fin 3, |∑ j, (fun i j : Fin 3 => exGap i j) i j - 1| ≤ _
    decide +kernel

/-- C152 fails: the constructor accepts a matrix of doubles, all states of the chain communicate, and without rounding
`pi` returns a vector; with doubles it raises an error. -/
theorem C152_pi_raises : ∃ c sccs, mcInit "main" (pyMatrix exGap) .none = .ok c ∧
    (∀ i j : Fin 3, double (exGap i j) = exGap i j) ∧ IsClasses c.p sccs ∧ Irreducible c.p ∧
    (∃ x, pi c sccs = .ok [x]) ∧ piF (Arith.rounded double) c sccs = .error .valueError := by
  have hcl : IsClasses (fun i j : Fin 3 => exGap i j) [[0, 1, 2]] := by decide +kernel
  refine ⟨⟨3, exGap, createLabels 3 ""⟩, [[(0 : Fin 3), (1 : Fin 3), (2 : Fin 3)]],
    (C01_constructor_default_labels (by decide) exGap _ (Or.inl rfl) _).2 ⟨exGap_accepted, rfl⟩,
    show ∀ i j : Fin 3, double ((fun i j : Fin 3 => exGap i j) i j) = (fun i j : Fin 3 => exGap i j) i j by
      decide +kernel, hcl, ?_, ?_, ?_⟩
  · have h : ∀ i j : Fin 3, (i = 0 ∨ j = 0) ∧ i ≠ j → 0 < (fun i j : Fin 3 => exGap i j) i j := by decide +kernel
    have h0 : ∀ i : Fin 3, Reach exGap i 0 ∧ Reach exGap 0 i := by
      intro i
      by_cases hi : i = 0
      · rw [hi]
        exact ⟨.refl _, .refl _⟩
      · exact ⟨.single (h i 0 ⟨Or.inr rfl, hi⟩), .single (h 0 i ⟨Or.inl rfl, Ne.symm hi⟩)⟩
    exact fun i j => (h0 i).1.trans (h0 j).2
  · refine ⟨fun i => (gthSolve 3 (toArray exGap)).2 i, ?_⟩
    have h : (gthSolve 3 (toArray exGap)).1 = 3 := by decide +kernel
    unfold pi
    rw [if_pos (by decide +kernel)]
    dsimp only
    rw [if_pos h]
    rfl
  · have h : (gthSolveF (Arith.rounded double) 3 (toArray exGap)).1 ≠ 3 := by decide +kernel
    unfold piF
    rw [if_pos (by decide +kernel)]
    dsimp only
    rw [if_neg h]
    rfl

end Verif
