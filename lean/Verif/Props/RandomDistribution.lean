import Verif.Model.Random
import Verif.Lemmas.Generators
import Verif.Props.Validation
import Mathlib.Tactic.Linarith

/-!
# Chains drawn from a distribution (C111)
-/

set_option linter.unusedSectionVars false

namespace Verif

open Finset

variable {K : Type} [Field K] [LinearOrder K] [IsStrictOrderedRing K]

/-- A drawn value as a weight: undefined and negative values count as zero, an infinite one as a large
number. -/
def drawnWeight (big : K) : Flt K → K
  | .fin x => if x < 0 then 0 else x
  | .nan => 0
  | .inf true => 0
  | .inf false => big

theorem floatMax_pos : (0 : K) < floatMax := by
  unfold floatMax
  exact sub_pos.2 (pow_lt_pow_right₀ one_lt_two (by norm_num))

theorem floatMax_lt_floatOver : (floatMax : K) < floatOver := by
  unfold floatMax floatOver
  exact sub_lt_sub_left (pow_lt_pow_right₀ one_lt_two (by norm_num)) _

theorem floatOver_lt_two_floatMax : (floatOver : K) < 2 * floatMax := by
  have h1 : (2 : K) ^ 972 < 2 ^ 1024 := pow_lt_pow_right₀ one_lt_two (by norm_num)
  have h2 : (2 : K) ^ 972 = 2 * 2 ^ 971 := pow_succ' 2 971
  have h3 : (0 : K) < 2 ^ 970 := pow_pos two_pos _
  unfold floatMax floatOver
  generalize (2 : K) ^ 1024 = a at *
  generalize (2 : K) ^ 972 = b at *
  generalize (2 : K) ^ 971 = c at *
  generalize (2 : K) ^ 970 = d at *
  linarith

theorem nanToNum_weight (x : Flt K) : max (nanToNum x) 0 = drawnWeight floatMax x := by
  cases x with
  | fin x =>
    change max x 0 = if x < 0 then 0 else x
    split_ifs with h
    · exact max_eq_right h.le
    · exact max_eq_left (not_lt.1 h)
  | nan => simp [nanToNum, drawnWeight]
  | inf b =>
    cases b with
    | true => simp [nanToNum, drawnWeight, floatMax_pos.le]
    | false => simp [nanToNum, drawnWeight, floatMax_pos.le]

theorem drawnWeight_nonneg {big : K} (hb : 0 ≤ big) (x : Flt K) : 0 ≤ drawnWeight big x := by
  cases x with
  | fin x =>
    change 0 ≤ if x < 0 then 0 else x
    split_ifs with h
    · exact le_rfl
    · exact not_lt.1 h
  | nan => exact le_rfl
  | inf b => cases b <;> simp [drawnWeight, hb]

/-- C111. The row of a state is in proportion to the drawn values, where undefined and negative values
count as zero and infinite ones as the largest double; a row without positive values is uniform. This
needs that the sum of the row is in the range of doubles. -/
theorem C111_rows_partial {n : ℕ} (hn : (n : K) < floatOver) (draws : Fin n → Fin n → Flt K) (i : Fin n)
    (hover : ∑ l, drawnWeight floatMax (draws i l) < (floatOver : K)) (j : Fin n) :
    randomDistribution draws i j =
      if ∀ l, drawnWeight (floatMax : K) (draws i l) = 0 then 1 / (n : K)
      else drawnWeight floatMax (draws i j) / ∑ l, drawnWeight floatMax (draws i l) := by
  unfold randomDistribution normalizeRowsBounded fillNullRows
  simp only [nanToNum_weight]
  by_cases h : ∀ l, drawnWeight (floatMax : K) (draws i l) = 0
  · simp only [if_pos h]
    have : ∑ _l : Fin n, (1 : K) = n := by simp
    rw [this, if_neg (not_le.2 hn)]
  · simp only [if_neg h, if_neg (not_le.2 hover)]

theorem rows_stochastic {n : ℕ} (hn0 : 0 < n) (hn : (n : K) < floatOver) (draws : Fin n → Fin n → Flt K)
    (hover : ∀ i, ∑ l, drawnWeight floatMax (draws i l) < (floatOver : K)) :
    IsStochastic (randomDistribution draws) := by
  have h0 : ∀ i l, 0 ≤ drawnWeight (floatMax : K) (draws i l) :=
    fun i l => drawnWeight_nonneg floatMax_pos.le _
  have hpos : ∀ i, ¬ (∀ l, drawnWeight (floatMax : K) (draws i l) = 0) →
      0 < ∑ l, drawnWeight (floatMax : K) (draws i l) := by
    intro i hi
    push Not at hi
    obtain ⟨l, hl⟩ := hi
    exact Finset.sum_pos' (fun l _ => h0 i l) ⟨l, Finset.mem_univ l, lt_of_le_of_ne (h0 i l) hl.symm⟩
  have hnK : (n : K) ≠ 0 := by exact_mod_cast hn0.ne'
  constructor
  · intro i j
    rw [C111_rows_partial hn draws i (hover i) j]
    split_ifs with h
    · positivity
    · exact div_nonneg (h0 i j) (hpos i h).le
  · intro i
    rw [Finset.sum_congr rfl fun j _ => C111_rows_partial hn draws i (hover i) j]
    by_cases h : ∀ l, drawnWeight (floatMax : K) (draws i l) = 0
    · simp only [if_pos h]
      simp [hnK]
    · simp only [if_neg h, ← Finset.sum_div]
      exact div_self (hpos i h).ne'

/-- C111. The names are accepted that the generator has and, unless the list of recognised
distributions is empty, that are recognised. -/
theorem C111_names (v : PyVal K) (available accepted : List String) (s : String) :
    validateRandomDistribution v available accepted = .ok s ↔
      v = .str s ∧ nonBlank s = true ∧ s ∈ available ∧ (accepted = [] ∨ s ∈ accepted) := by
  unfold validateRandomDistribution
  cases v with
  | str x =>
    simp only
    rw [R.ite_throw, R.ite_throw, R.ite_throw, R.pure_ok]
    simp only [not_not, not_and, List.length_pos_iff, PyVal.str.injEq]
    constructor
    · rintro ⟨h1, h2, h3, rfl⟩
      exact ⟨rfl, h1, h2, or_iff_not_imp_left.2 h3⟩
    · rintro ⟨rfl, h1, h2, h3⟩
      exact ⟨h1, h2, or_iff_not_imp_left.1 h3, rfl⟩
  | _ => simp

/-- C111. If the sums of the rows are in the range of doubles the result is a valid chain of the given
size with the given labels. -/
theorem C111_valid_partial {available accepted : List String}
    {draw : String → (n : ℕ) → Fin n → Fin n → Flt K} {size f states : PyVal K} {c : MC K}
    (h : randomDistributionChain available accepted draw size f states = .ok c) :
    ∃ (n : ℕ) (name : String), 2 ≤ n ∧ size = .int n ∧ f = .str name ∧ name ∈ available ∧
      (accepted = [] ∨ name ∈ accepted) ∧ c.n = n ∧ ValidLabels n c.states ∧
      labelsOrDefault states n "" = .ok c.states ∧
      ((n : K) < floatOver → (∀ i, ∑ l, drawnWeight floatMax (draw name n i l) < (floatOver : K)) →
        c.Valid ∧ ∀ i j : Fin n, ∀ (i' j' : Fin c.n), i.val = i'.val → j.val = j'.val →
          c.p i' j' = if ∀ l, drawnWeight (floatMax : K) (draw name n i l) = 0 then 1 / (n : K)
            else drawnWeight floatMax (draw name n i j) / ∑ l, drawnWeight floatMax (draw name n i l)) := by
  unfold randomDistributionChain at h
  rw [R.bind_ok] at h
  obtain ⟨z, hz, h⟩ := h
  rw [R.bind_ok] at h
  obtain ⟨name, hf, h⟩ := h
  rw [R.bind_ok] at h
  obtain ⟨labels, hl, h⟩ := h
  rw [R.pure_ok] at h
  obtain ⟨rfl, hz⟩ := validateInteger_ge hz
  obtain ⟨rfl, -, h1, h2⟩ := (C111_names _ _ _ _).1 hf
  obtain ⟨n, rfl⟩ := Int.eq_ofNat_of_zero_le (by omega : 0 ≤ z)
  subst h
  have hn2 : 2 ≤ n := by omega
  refine ⟨n, name, hn2, rfl, rfl, h1, h2, rfl, labelsOrDefault_sound hl, hl, fun hn hover => ⟨⟨hn2, ?_,
    labelsOrDefault_sound hl⟩, ?_⟩⟩
  · exact rows_stochastic (by omega) hn _ hover
  · intro i j i' j' hi hj
    obtain rfl : i = i' := Fin.ext hi
    obtain rfl : j = j' := Fin.ext hj
    exact C111_rows_partial hn _ i (hover i) j

/-- C111. All sizes from two and all such names are accepted, with the default labels. -/
theorem C111_accepts {available accepted : List String}
    (draw : String → (n : ℕ) → Fin n → Fin n → Flt K) {n : ℕ} (hn : 2 ≤ n) {name : String}
    (h0 : nonBlank name = true) (h1 : name ∈ available) (h2 : accepted = [] ∨ name ∈ accepted) :
    randomDistributionChain available accepted draw (.int n) (.str name) .none =
      .ok ⟨n, randomDistribution (draw name n), createLabels n ""⟩ := by
  unfold randomDistributionChain
  rw [validateInteger_of_ge (by omega), R.ok_bind, (C111_names _ _ _ name).2 ⟨rfl, h0, h1, h2⟩, R.ok_bind]
  rfl

/-- C111 fails for a row with two infinite draws: the row becomes zero, and nothing is rejected. -/
theorem C111_infinite {n : ℕ} (draws : Fin n → Fin n → Flt K) {i a b : Fin n} (hab : a ≠ b)
    (ha : draws i a = .inf false) (hb : draws i b = .inf false) (j : Fin n) :
    randomDistribution draws i j = 0 := by
  have h0 : ∀ l, 0 ≤ drawnWeight (floatMax : K) (draws i l) :=
    fun l => drawnWeight_nonneg floatMax_pos.le _
  have hne : ¬ ∀ l, drawnWeight (floatMax : K) (draws i l) = 0 := fun h => by
    have := h a
    rw [ha] at this
    exact floatMax_pos.ne' this
  unfold randomDistribution normalizeRowsBounded fillNullRows
  simp only [nanToNum_weight, if_neg hne]
  refine if_pos ?_
  have hle : ∑ l ∈ {a, b}, drawnWeight (floatMax : K) (draws i l) ≤
      ∑ l, drawnWeight (floatMax : K) (draws i l) :=
    Finset.sum_le_sum_of_subset_of_nonneg (Finset.subset_univ _) fun l _ _ => h0 l
  rw [Finset.sum_pair hab, ha, hb] at hle
  refine le_trans ?_ hle
  have := (floatOver_lt_two_floatMax (K := K)).le
  rw [two_mul] at this
  exact this

/-- C111 fails: an accepted call whose result is not a chain, although infinite values are announced to
be replaced by finite numbers. -/
theorem C111_not_a_chain : ∃ c : MC ℚ, randomDistributionChain ["pareto"] ["pareto"]
      (fun _ _ _ _ => .inf false) (.int 2) (.str "pareto") .none = .ok c ∧
    (∀ i j, c.p i j = 0) ∧ ¬ c.Valid := by
  refine ⟨⟨2, randomDistribution fun _ _ => .inf false, createLabels 2 ""⟩, rfl, ?_, ?_⟩
  · exact fun i j => C111_infinite _ (a := (0 : Fin 2)) (b := (1 : Fin 2)) (by decide) rfl rfl j
  · rintro ⟨-, h, -⟩
    have := h.2 (0 : Fin 2)
    rw [Finset.sum_eq_zero fun j _ => C111_infinite (K := ℚ) (fun _ _ => .inf false) (i := (0 : Fin 2))
      (a := (0 : Fin 2)) (b := (1 : Fin 2)) (by decide) rfl rfl j] at this
    exact zero_ne_one this

/-- Undefined, negative and ordinary values, a row without positive values. -/
example : ((randomDistributionChain ["normal"] [] (fun _ _ i j =>
      if i.val = 0 then (if j.val = 0 then .fin 3 else if j.val = 1 then .fin 1 else .nan)
      else if i.val = 1 then .fin (-1) else (if j.val = 0 then .inf true else .fin 2))
      (.int 3) (.str "normal") (.list [.str "a", .str "b", .str "c"]) : R (MC ℚ)).toOption.map fun c =>
        (c.n, (List.finRange c.n).map fun i => (List.finRange c.n).map fun j => c.p i j, c.states)) =
    some (3, [[3 / 4, 1 / 4, 0], [1 / 3, 1 / 3, 1 / 3], [0, 1 / 2, 1 / 2]], ["a", "b", "c"]) := by
  decide +kernel

end Verif
