import Verif.Model.Approximation
import Verif.Model.Simulation
import Verif.Props.Absorbing
import Verif.Props.Mixing
import Verif.Props.Passage
import Verif.Props.RandomDistribution
import Verif.Props.RawArguments
import Verif.Props.Transform

/-!
# Which calls return a result (C140)

The conditions are written with the values of the arguments, and not with the validators.
-/

set_option linter.unusedSectionVars false

namespace Verif

open Finset

variable {K : Type} [Field K] [LinearOrder K] [IsStrictOrderedRing K]

/-- The call returns a result. -/
def Accepted {α : Type} (x : R α) : Prop := ∃ r, x = .ok r

theorem accepted_bind {α β : Type} {x : R α} {f : α → R β} :
    Accepted (x >>= f) ↔ ∃ a, x = .ok a ∧ Accepted (f a) := by
  unfold Accepted
  constructor
  · rintro ⟨r, h⟩
    obtain ⟨a, h1, h2⟩ := (R.bind_ok _ _ _).1 h
    exact ⟨a, h1, r, h2⟩
  · rintro ⟨a, h1, r, h2⟩
    exact ⟨r, (R.bind_ok _ _ _).2 ⟨a, h1, h2⟩⟩

theorem accepted_pure {α : Type} (a : α) : Accepted (pure a : R α) := ⟨a, rfl⟩

theorem accepted_throw {α : Type} {e : Err} : ¬ Accepted (throw e : R α) := by
  rintro ⟨r, h⟩
  simp at h

theorem accepted_ite {α : Type} {p : Prop} [Decidable p] {e : Err} {x : R α} :
    Accepted (if p then throw e else x) ↔ ¬ p ∧ Accepted x := by
  by_cases h : p
  · rw [if_pos h]
    exact ⟨fun h' => absurd h' accepted_throw, fun h' => absurd h h'.1⟩
  · rw [if_neg h]
    exact ⟨fun h' => ⟨h, h'⟩, fun h' => h'.2⟩

/-! ## Arguments -/

/-- The argument is the integer `n`, at least `lo`. -/
def IsNat (v : PyVal K) (lo n : ℕ) : Prop := v = .int n ∧ lo ≤ n

theorem integer_iff {v : PyVal K} {lo : ℕ} {z : ℤ} :
    validateInteger v (some ((lo : ℤ), false)) none = .ok z ↔ ∃ n : ℕ, IsNat v lo n ∧ z = n := by
  rw [C03_integer_limits]
  unfold IsNat
  constructor
  · rintro ⟨rfl, h⟩
    have h1 : (lo : ℤ) ≤ z := h.2.1 _ rfl
    exact ⟨z.toNat, ⟨by rw [Int.toNat_of_nonneg (by omega)], by omega⟩, by omega⟩
  · rintro ⟨n, ⟨rfl, h⟩, rfl⟩
    exact ⟨rfl, by simp, by simpa using h, by simp, by simp⟩

theorem positive_iff {v : PyVal K} {z : ℤ} :
    validateInteger v (some (0, true)) none = .ok z ↔ ∃ n : ℕ, IsNat v 1 n ∧ z = n := by
  rw [C03_steps_positive]
  unfold IsNat
  constructor
  · rintro ⟨rfl, h⟩
    exact ⟨z.toNat, ⟨by rw [Int.toNat_of_nonneg (by omega)], by omega⟩, by omega⟩
  · rintro ⟨n, ⟨rfl, h⟩, rfl⟩
    exact ⟨rfl, by exact_mod_cast h⟩

theorem bounded_iff {v : PyVal K} {lo hi : ℕ} {z : ℤ} :
    validateInteger v (some ((lo : ℤ), false)) (some ((hi : ℤ), false)) = .ok z ↔
      ∃ n : ℕ, IsNat v lo n ∧ n ≤ hi ∧ z = n := by
  rw [C03_integer_limits]
  unfold IsNat
  constructor
  · rintro ⟨rfl, h⟩
    have h1 : (lo : ℤ) ≤ z := h.2.1 _ rfl
    have h2 : z ≤ hi := h.2.2.2 _ rfl
    exact ⟨z.toNat, ⟨by rw [Int.toNat_of_nonneg (by omega)], by omega⟩, by omega, by omega⟩
  · rintro ⟨n, ⟨rfl, h⟩, h', rfl⟩
    exact ⟨rfl, by simp, by simpa using h, by simp, by simpa using h'⟩

theorem float_iff {v : PyVal K} {x : K} : validateFloat v none none = .ok x ↔ v = .float (.fin x) := by
  rw [C03_float_limits]
  simp [WithinLimits]

theorem float_above_iff {v : PyVal K} {lo x : K} :
    validateFloat v (some (lo, false)) none = .ok x ↔ v = .float (.fin x) ∧ lo ≤ x := by
  rw [C03_float_limits]
  simp [WithinLimits]

theorem float_over_iff {v : PyVal K} {lo x : K} :
    validateFloat v (some (lo, true)) none = .ok x ↔ v = .float (.fin x) ∧ lo < x := by
  rw [C03_float_limits]
  simp [WithinLimits]

theorem float_closed_iff {v : PyVal K} {lo hi x : K} :
    validateFloat v (some (lo, false)) (some (hi, false)) = .ok x ↔
      v = .float (.fin x) ∧ lo ≤ x ∧ x ≤ hi := by
  rw [C03_float_limits]
  simp [WithinLimits]

theorem float_open_iff {v : PyVal K} {lo hi x : K} :
    validateFloat v (some (lo, true)) (some (hi, true)) = .ok x ↔
      v = .float (.fin x) ∧ lo < x ∧ x < hi := by
  rw [C03_float_limits]
  simp [WithinLimits]

theorem boolean_iff {v : PyVal K} {b : Bool} : validateBoolean v = .ok b ↔ v = .bool b := by
  cases v <;> simp [validateBoolean]

theorem enumerator_iff {v : PyVal K} {l : List String} (hl : ∀ s ∈ l, nonBlank s = true) {s : String} :
    validateEnumerator v l = .ok s ↔ v = .str s ∧ s ∈ l := by
  cases v with
  | str t =>
    simp only [validateEnumerator, PyVal.str.injEq]
    rw [R.ite_throw, R.ite_throw, R.pure_ok]
    constructor
    · rintro ⟨-, h, rfl⟩
      exact ⟨rfl, not_not.1 h⟩
    · rintro ⟨rfl, h⟩
      exact ⟨by simp [hl _ h], by simpa using h, rfl⟩
  | _ => simp [validateEnumerator]

/-- The argument gives labels for `n` states: nothing, or a list of two or more distinct names. -/
def HasLabels (v : PyVal K) (n : ℕ) : Prop := v = .none ∨ 2 ≤ n ∧ ∃ l, v = pyStrings l ∧ ValidLabels n l

theorem labels_accepted {v : PyVal K} {n : ℕ} (pre : String) :
    Accepted (labelsOrDefault v n pre) ↔ HasLabels v n := by
  unfold Accepted HasLabels
  by_cases hv : v = .none
  · subst hv
    exact ⟨fun _ => Or.inl rfl, fun _ => ⟨_, rfl⟩⟩
  rcases Nat.lt_or_ge n 2 with hn | hn
  · constructor
    · rintro ⟨l, h⟩
      exfalso
      cases v with
      | none => exact hv rfl
      | list L =>
        simp only [labelsOrDefault, validateLabelsInput] at h
        rw [R.ite_throw, R.ite_throw, R.ite_throw, R.ite_throw] at h
        obtain ⟨-, h1, -, h2, -⟩ := h
        omega
      | _ => simp [labelsOrDefault, validateLabelsInput] at h
    · rintro (h | h)
      · exact absurd h hv
      · omega
  · constructor
    · rintro ⟨l, h⟩
      rcases (C121_labels hn v pre l).1 h with h | h
      · exact absurd h.1 hv
      · exact Or.inr ⟨hn, l, h⟩
    · rintro (h | ⟨-, l, h⟩)
      · exact absurd h hv
      · exact ⟨l, (C121_labels hn v pre l).2 (Or.inr h)⟩

theorem accepted_labels {α : Type} {v : PyVal K} {n : ℕ} {pre : String} {f : List String → R α}
    {p : Prop} (hf : ∀ l, Accepted (f l) ↔ p) :
    Accepted (labelsOrDefault v n pre >>= f) ↔ HasLabels v n ∧ p := by
  rw [accepted_bind, ← labels_accepted pre]
  constructor
  · rintro ⟨l, h1, h2⟩
    exact ⟨⟨l, h1⟩, (hf l).1 h2⟩
  · rintro ⟨⟨l, h1⟩, h2⟩
    exact ⟨l, h1, (hf l).2 h2⟩

/-- The constraints on the numbers of a vector. -/
def VectorOk {n : ℕ} (ty : VectorType) (x : Fin n → K) : Prop :=
  (∀ i, 0 ≤ x i ∧ x i ≤ 1) ∧
  (ty = .annihilation → ∀ i : Fin n, i.val = 0 → |x i| ≤ 1 / 10 ^ 8) ∧
  (ty = .creation → ∀ i : Fin n, i.val + 1 = n → |x i| ≤ 1 / 10 ^ 8) ∧
  (ty = .stochastic → |∑ i, x i - 1| ≤ 1 / 10 ^ 8 + 1 / 10 ^ 5)

theorem near_zero_iff {a : K} : isclose a 0 = true ↔ |a| ≤ 1 / 10 ^ 8 := by
  unfold isclose
  rw [decide_eq_true_eq, sub_zero, abs_zero, mul_zero, add_zero]

theorem near_one_iff {a : K} : isclose a 1 = true ↔ |a - 1| ≤ 1 / 10 ^ 8 + 1 / 10 ^ 5 := by
  unfold isclose
  rw [decide_eq_true_eq, abs_one, mul_one]

theorem inUnit_ofFn {n : ℕ} {fl : List (Flt K)} (hn : fl.length = n) (h : fl.all Flt.inUnit = true) :
    ∃ x : Fin n → K, fl = List.ofFn (fun i => Flt.fin (x i)) := by
  subst hn
  rw [List.all_eq_true] at h
  refine ⟨fun i => (fl.get i).val, List.ext_getElem (by simp) fun i h5 h6 => ?_⟩
  have := h _ (List.getElem_mem h5)
  simp only [List.getElem_ofFn, List.get_eq_getElem]
  cases hf : fl[i] with
  | fin y => rfl
  | _ => rw [hf] at this; cases this

theorem checkVector_iff {n : ℕ} (hn : 0 < n) {x : Fin n → K} {ty : VectorType} {l : List K} :
    checkVector (List.ofFn fun i => Flt.fin (x i)) ty = .ok l ↔ VectorOk ty x ∧ l = List.ofFn x := by
  have hmap : (List.ofFn fun i => Flt.fin (x i)).map Flt.val = List.ofFn x := by
    rw [List.map_ofFn]
    rfl
  have hall : (List.ofFn fun i => Flt.fin (x i)).all Flt.inUnit = true ↔ ∀ i, 0 ≤ x i ∧ x i ≤ 1 := by
    rw [List.all_eq_true]
    constructor
    · intro h i
      have := h _ (List.mem_ofFn.2 ⟨i, rfl⟩)
      simpa [Flt.inUnit] using this
    · intro h y hy
      obtain ⟨i, rfl⟩ := List.mem_ofFn.1 hy
      simpa [Flt.inUnit] using h i
  have hne : (List.ofFn x).isEmpty = false := by
    rw [List.isEmpty_eq_false_iff, Ne, List.ofFn_eq_nil_iff]
    omega
  have hhead : (List.ofFn x).headD 0 = x ⟨0, hn⟩ := by
    obtain ⟨m, rfl⟩ : ∃ m, n = m + 1 := ⟨n - 1, by omega⟩
    rw [List.ofFn_succ]
    rfl
  have hlast : (List.ofFn x).getLastD 0 = x ⟨n - 1, by omega⟩ := by
    have h1 : (List.ofFn x).getLast? = some (x ⟨n - 1, by omega⟩) := by
      rw [List.getLast?_eq_getElem?, List.length_ofFn, List.getElem?_ofFn]
      simp [hn]
    rw [List.getLastD_eq_getLast?, h1]
    rfl
  unfold checkVector
  rw [R.ite_throw]
  simp only [hmap]
  rw [R.ite_throw, R.ite_throw, R.ite_throw, R.pure_ok, not_not, hall, hne, hhead, hlast, List.sum_ofFn]
  unfold VectorOk
  simp only [Bool.false_eq_true, false_or, not_and, not_not, near_zero_iff, near_one_iff]
  constructor
  · rintro ⟨h1, h2, h3, h4, h5⟩
    refine ⟨⟨h1, fun ht i hi => ?_, fun ht i hi => ?_, h4⟩, h5.symm⟩
    · rw [show i = ⟨0, hn⟩ from Fin.ext hi]
      exact h2 ht
    · rw [show i = ⟨n - 1, by omega⟩ from Fin.ext (by simp; omega)]
      exact h3 ht
  · rintro ⟨⟨h1, h2, h3, h4⟩, h5⟩
    exact ⟨h1, fun ht => h2 ht _ rfl, fun ht => h3 ht _ (by simp; omega), h4, h5.symm⟩

theorem vector_iff {n : ℕ} (hn : 0 < n) {v : PyVal K} {ty : VectorType} {l : List K} :
    validateVector v ty false (some n) = .ok l ↔
      ∃ x : Fin n → K, GivesVector v x ∧ VectorOk ty x ∧ l = List.ofFn x := by
  unfold validateVector
  rw [if_neg (by simp), R.bind_ok]
  simp only [R.ite_throw]
  constructor
  · rintro ⟨fl, h1, h2, h3⟩
    have hlen : fl.length = n := by simpa using h2
    have hu : fl.all Flt.inUnit = true := by
      unfold checkVector at h3
      rw [R.ite_throw] at h3
      exact not_not.1 h3.1
    obtain ⟨x, rfl⟩ := inUnit_ofFn hlen hu
    obtain ⟨h4, h5⟩ := (checkVector_iff hn).1 h3
    exact ⟨x, (C121_vector hn false v x).1 h1, h4, h5⟩
  · rintro ⟨x, h1, h2, h3⟩
    exact ⟨_, (C121_vector hn false v x).2 h1, by simp, (checkVector_iff hn).2 ⟨h2, h3⟩⟩

/-- The vectors of `birth_death`, of any length. -/
theorem vector_any_iff {v : PyVal K} {ty : VectorType} (hty : ty = .creation ∨ ty = .annihilation) {l : List K} :
    validateVector v ty false none = .ok l ↔
      ∃ (n : ℕ) (x : Fin n → K), 0 < n ∧ GivesVector v x ∧ VectorOk ty x ∧ l = List.ofFn x := by
  unfold validateVector
  rw [if_neg (by simp), R.bind_ok]
  simp only [R.ite_throw]
  constructor
  · rintro ⟨fl, h1, -, h3⟩
    have hu : fl.all Flt.inUnit = true := by
      unfold checkVector at h3
      rw [R.ite_throw] at h3
      exact not_not.1 h3.1
    obtain ⟨x, hx⟩ := inUnit_ofFn rfl hu
    have hn : 0 < fl.length := by
      rcases Nat.eq_zero_or_pos fl.length with h0 | h0
      · obtain rfl := List.length_eq_zero_iff.1 h0
        exfalso
        unfold checkVector at h3
        rcases hty with rfl | rfl <;> simp at h3
      · exact h0
    rw [hx] at h1 h3
    obtain ⟨h4, h5⟩ := (checkVector_iff hn).1 h3
    exact ⟨fl.length, x, hn, (C121_vector hn false v x).1 h1, h4, h5⟩
  · rintro ⟨n, x, hn, h1, h2, h3⟩
    exact ⟨_, (C121_vector hn false v x).2 h1, by simp, (checkVector_iff hn).2 ⟨h2, h3⟩⟩

/-! ## Steps of a call -/

theorem accepted_nat {α : Type} {v : PyVal K} (lo : ℕ) {f : ℤ → R α} :
    Accepted (validateInteger v (some ((lo : ℤ), false)) none >>= f) ↔ ∃ n : ℕ, IsNat v lo n ∧ Accepted (f n) := by
  rw [accepted_bind]
  constructor
  · rintro ⟨z, h1, h2⟩
    obtain ⟨n, hn, rfl⟩ := integer_iff.1 h1
    exact ⟨n, hn, h2⟩
  · rintro ⟨n, h1, h2⟩
    exact ⟨n, integer_iff.2 ⟨n, h1, rfl⟩, h2⟩

theorem accepted_positive {α : Type} {v : PyVal K} {f : ℤ → R α} :
    Accepted (validateInteger v (some (0, true)) none >>= f) ↔ ∃ n : ℕ, IsNat v 1 n ∧ Accepted (f n) := by
  rw [accepted_bind]
  constructor
  · rintro ⟨z, h1, h2⟩
    obtain ⟨n, hn, rfl⟩ := positive_iff.1 h1
    exact ⟨n, hn, h2⟩
  · rintro ⟨n, h1, h2⟩
    exact ⟨n, positive_iff.2 ⟨n, h1, rfl⟩, h2⟩

theorem accepted_between {α : Type} {v : PyVal K} (lo hi : ℕ) {f : ℤ → R α} :
    Accepted (validateInteger v (some ((lo : ℤ), false)) (some ((hi : ℤ), false)) >>= f) ↔
      ∃ n : ℕ, IsNat v lo n ∧ n ≤ hi ∧ Accepted (f n) := by
  rw [accepted_bind]
  constructor
  · rintro ⟨z, h1, h2⟩
    obtain ⟨n, hn, hn', rfl⟩ := bounded_iff.1 h1
    exact ⟨n, hn, hn', h2⟩
  · rintro ⟨n, h1, h1', h2⟩
    exact ⟨n, bounded_iff.2 ⟨n, h1, h1', rfl⟩, h2⟩

theorem accepted_float {α : Type} {v : PyVal K} {f : K → R α} :
    Accepted (validateFloat v none none >>= f) ↔ ∃ x, v = .float (.fin x) ∧ Accepted (f x) := by
  rw [accepted_bind]
  simp only [float_iff]

theorem accepted_float_above {α : Type} {v : PyVal K} {lo : K} {f : K → R α} :
    Accepted (validateFloat v (some (lo, false)) none >>= f) ↔
      ∃ x, v = .float (.fin x) ∧ lo ≤ x ∧ Accepted (f x) := by
  rw [accepted_bind]
  simp only [float_above_iff, and_assoc]

theorem accepted_float_over {α : Type} {v : PyVal K} {lo : K} {f : K → R α} :
    Accepted (validateFloat v (some (lo, true)) none >>= f) ↔
      ∃ x, v = .float (.fin x) ∧ lo < x ∧ Accepted (f x) := by
  rw [accepted_bind]
  simp only [float_over_iff, and_assoc]

theorem accepted_float_closed {α : Type} {v : PyVal K} {lo hi : K} {f : K → R α} :
    Accepted (validateFloat v (some (lo, false)) (some (hi, false)) >>= f) ↔
      ∃ x, v = .float (.fin x) ∧ lo ≤ x ∧ x ≤ hi ∧ Accepted (f x) := by
  rw [accepted_bind]
  simp only [float_closed_iff, and_assoc]

theorem accepted_float_open {α : Type} {v : PyVal K} {lo hi : K} {f : K → R α} :
    Accepted (validateFloat v (some (lo, true)) (some (hi, true)) >>= f) ↔
      ∃ x, v = .float (.fin x) ∧ lo < x ∧ x < hi ∧ Accepted (f x) := by
  rw [accepted_bind]
  simp only [float_open_iff, and_assoc]

theorem accepted_boolean {α : Type} {v : PyVal K} {f : Bool → R α} :
    Accepted (validateBoolean v >>= f) ↔ ∃ b, v = .bool b ∧ Accepted (f b) := by
  rw [accepted_bind]
  simp only [boolean_iff]

theorem accepted_enumerator {α : Type} {v : PyVal K} {l : List String} (hl : ∀ s ∈ l, nonBlank s = true)
    {f : String → R α} :
    Accepted (validateEnumerator v l >>= f) ↔ ∃ s, v = .str s ∧ s ∈ l ∧ Accepted (f s) := by
  rw [accepted_bind]
  simp only [enumerator_iff hl, and_assoc]

theorem accepted_all {α : Type} {a : α} : Accepted (pure a : R α) ↔ True := iff_true_intro (accepted_pure a)

theorem accepted_default {v : PyVal K} {n : ℕ} {pre : String} {α : Type} {f : List String → α} :
    Accepted (labelsOrDefault v n pre >>= fun l => pure (f l)) ↔ HasLabels v n := by
  rw [accepted_labels fun _ => accepted_all, and_true]

/-- The argument names one state. -/
theorem accepted_label {α : Type} {c : MC K} (hc : c.Valid) {v : PyVal K} {f : ℕ → R α} :
    Accepted (validateLabel v c.states >>= f) ↔ ∃ i : Fin c.n, Names c.states v i ∧ Accepted (f i) := by
  rw [accepted_bind]
  simp only [C04_single_label hc.2.2.2.1]
  constructor
  · rintro ⟨i, h1, h2⟩
    have hi : i < c.n := by
      rw [← hc.2.2.1]
      rcases h1 with h1 | ⟨s, -, -, h1⟩
      · exact h1.2
      · exact (List.getElem?_eq_some_iff.1 h1).1
    exact ⟨⟨i, hi⟩, h1, h2⟩
  · rintro ⟨i, h1, h2⟩
    exact ⟨i, h1, h2⟩

theorem accepted_state {α : Type} {n : ℕ} {i : Fin n} {f : Fin n → R α} :
    Accepted (asState n i.val >>= f) ↔ Accepted (f i) := by
  unfold asState
  rw [dif_pos i.2]
  rfl

/-- The argument names the states in the list `r`: one state, or a list without repetitions of one to `most`
states. -/
def NamesAll (labels : List String) (most : ℕ) (v : PyVal K) (r : List ℕ) : Prop :=
  (∃ i, Names labels v i ∧ r = [i]) ∨
  ∃ l, v = .list l ∧ Homogeneous l ∧ (∃ ks, List.Forall₂ (Names labels) l ks ∧ ks.Perm r) ∧
    r.Pairwise (· < ·) ∧ 1 ≤ r.length ∧ r.length ≤ most

theorem names_iff {c : MC K} (hc : c.Valid) {v : PyVal K} {subset : Bool} {r : List ℕ} :
    validateLabelsCurrent v c.states subset none = .ok r ↔
      NamesAll c.states (if subset then c.n - 1 else c.n) v r := by
  unfold NamesAll
  by_cases hv : ∃ l, v = .list l
  · obtain ⟨l, rfl⟩ := hv
    rw [C04_label_lists hc.2.2.2.1, hc.2.2.1]
    constructor
    · exact fun h => Or.inr ⟨l, rfl, h⟩
    · rintro (⟨i, h, -⟩ | ⟨l', h, h'⟩)
      · rcases h with ⟨h, -⟩ | ⟨s, h, -⟩ <;> cases h
      · cases h
        exact h'
  · push Not at hv
    rw [C04_single_value hc.2.2.2.1 _ hv]
    constructor
    · exact Or.inl
    · rintro (h | ⟨l, h, -⟩)
      · exact h
      · exact absurd h (hv l)

theorem accepted_names {α : Type} {c : MC K} (hc : c.Valid) {v : PyVal K} {subset : Bool} {f : List ℕ → R α} :
    Accepted (validateLabelsCurrent v c.states subset none >>= f) ↔
      ∃ r, NamesAll c.states (if subset then c.n - 1 else c.n) v r ∧ Accepted (f r) := by
  rw [accepted_bind]
  simp only [names_iff hc]

theorem accepted_rewards {α : Type} {c : MC K} (hc : c.Valid) {v : PyVal K} {f : List K → R α} :
    Accepted (validateRewards v c.n >>= f) ↔
      ∃ x : Fin c.n → K, GivesVector v x ∧ Accepted (f (List.ofFn x)) := by
  rw [accepted_bind]
  simp only [C121_rewards (show 0 < c.n by have := hc.1; omega)]
  constructor
  · rintro ⟨l, ⟨x, h1, rfl⟩, h2⟩
    exact ⟨x, h1, h2⟩
  · rintro ⟨x, h1, h2⟩
    exact ⟨_, ⟨x, h1, rfl⟩, h2⟩

theorem listVec_of_fn {n : ℕ} (x : Fin n → K) : listVec (List.ofFn x) n = x := by
  funext i
  simp [listVec]

/-- The argument is omitted or gives an initial distribution. -/
def HasDistribution {n : ℕ} (d : Option (PyVal K)) (x : Fin n → K) : Prop :=
  d = none ∧ x = (fun _ => 1 / (n : K)) ∨ ∃ v, d = some v ∧ GivesVector v x ∧ VectorOk .stochastic x

theorem initial_iff {n : ℕ} (hn : 0 < n) {d : Option (PyVal K)} {x : Fin n → K} :
    initialDistribution n d = .ok x ↔ HasDistribution d x := by
  unfold HasDistribution initialDistribution
  cases d with
  | none =>
    rw [R.pure_ok]
    simp [eq_comm]
  | some v =>
    simp only [R.bind_ok, R.pure_ok, vector_iff hn]
    constructor
    · rintro ⟨l, ⟨y, h1, h2, rfl⟩, rfl⟩
      have : listVec (List.ofFn y) n = y := listVec_of_fn y
      rw [this]
      exact Or.inr ⟨v, rfl, h1, h2⟩
    · rintro (⟨h, -⟩ | ⟨v', h, h1, h2⟩)
      · cases h
      · cases h
        exact ⟨_, ⟨x, h1, h2, rfl⟩, listVec_of_fn x⟩

theorem accepted_initial {α : Type} {c : MC K} (hc : c.Valid) {d : Option (PyVal K)} {f : (Fin c.n → K) → R α} :
    Accepted (initialDistribution c.n d >>= f) ↔ ∃ x, HasDistribution d x ∧ Accepted (f x) := by
  rw [accepted_bind]
  simp only [initial_iff (show 0 < c.n by have := hc.1; omega)]

/-! ## Generators -/

/-- C140. `identity`. -/
theorem C140_identity (size states : PyVal K) : Accepted (identityChain size states) ↔
    ∃ n, IsNat size 2 n ∧ HasLabels states n := by
  unfold identityChain
  refine (accepted_nat 2).trans ?_
  simp only [accepted_default, Int.toNat_natCast]

/-- C140. `gamblers_ruin`. -/
theorem C140_gamblers_ruin (size w states : PyVal K) : Accepted (gamblersRuin size w states) ↔
    ∃ n, IsNat size 3 n ∧ ∃ x, w = .float (.fin x) ∧ 0 < x ∧ x < 1 ∧ HasLabels states n := by
  unfold gamblersRuin
  refine (accepted_nat 3).trans ?_
  simp only [accepted_float_open, accepted_default, Int.toNat_natCast]

/-- C140. `urn_model`. -/
theorem C140_urn_model (model n states : PyVal K) : Accepted (urnModel model n states) ↔
    (model = .str "bernoulli-laplace" ∨ model = .str "ehrenfest") ∧
      ∃ m, IsNat n 1 m ∧ HasLabels states (2 * m + 1) := by
  unfold urnModel
  rw [accepted_enumerator (by decide)]
  have : ∀ s : String, Accepted (validateInteger n (some (1, false)) none >>= fun z =>
      labelsOrDefault states (2 * z.toNat + 1) "" >>= fun labels =>
      pure (⟨2 * z.toNat + 1, if s = "bernoulli-laplace" then bernoulliLaplaceMatrix z.toNat
        else ehrenfestMatrix z.toNat, labels⟩ : MC K)) ↔ ∃ m, IsNat n 1 m ∧ HasLabels states (2 * m + 1) := by
    intro s
    refine (accepted_nat 1).trans ?_
    simp only [accepted_default, Int.toNat_natCast]
  constructor
  · rintro ⟨s, rfl, h1, h2⟩
    refine ⟨?_, (this s).1 h2⟩
    simpa using h1
  · rintro ⟨rfl | rfl, h⟩
    · exact ⟨_, rfl, by decide, (this _).2 h⟩
    · exact ⟨_, rfl, by decide, (this _).2 h⟩

/-- C140. `population_genetics_model`: at most 500 individuals, a Wright-Fisher model only with small
mutation rates, and a Moran model only if no denominator is zero. -/
theorem C140_population_genetics (model n s u v states : PyVal K) :
    Accepted (populationGenetics model n s u v states) ↔
      ∃ (m : ℕ) (a b d : K), IsNat n 2 m ∧ m ≤ 500 ∧ s = .float (.fin a) ∧ -1 ≤ a ∧
        u = .float (.fin b) ∧ 0 ≤ b ∧ b ≤ 1 ∧ v = .float (.fin d) ∧ 0 ≤ d ∧ d ≤ 1 ∧ HasLabels states (m + 1) ∧
        (model = .str "wright-fisher" ∧ 4 * (m : K) * b ≤ 1 ∧ 4 * (m : K) * d ≤ 1 ∨
          model = .str "moran" ∧ ∀ i : ℕ, 1 ≤ i → i < m → a * i ≠ m) := by
  unfold populationGenetics
  simp only [accepted_bind (x := validateEnumerator _ _), accepted_bind (x := validateInteger _ _ _),
    accepted_bind (x := validateFloat _ _ _)]
  have hrest : ∀ (model : String) (m : ℕ) (a b d : K), model ∈ ["moran", "wright-fisher"] → 2 ≤ m →
      (Accepted (labelsOrDefault states ((m : ℤ).toNat + 1) "" >>= fun labels =>
        if model = "wright-fisher" ∧ 4 * (((m : ℤ).toNat : ℕ) : K) * max b d > 1 then throw .valueError
        else if model = "moran" then
          if ∃ i ∈ List.range (m : ℤ).toNat, 1 ≤ i ∧ (1 - a) * (i : K) + ((((m : ℤ).toNat : ℕ) : K) - i) = 0 then
            throw .valueError
          else pure ⟨(m : ℤ).toNat + 1, normalizeRows (moranRaw (m : ℤ).toNat a b d), labels⟩
        else pure (⟨(m : ℤ).toNat + 1, normalizeRows (wrightFisherRaw (m : ℤ).toNat a b d), labels⟩ : MC K)) ↔
      HasLabels states (m + 1) ∧
        (model = "wright-fisher" ∧ 4 * (m : K) * b ≤ 1 ∧ 4 * (m : K) * d ≤ 1 ∨
          model = "moran" ∧ ∀ i : ℕ, 1 ≤ i → i < m → a * i ≠ m)) := by
    intro model m a b d hmodel hm
    have hm0 : (0 : K) ≤ 4 * (m : K) := by positivity
    refine accepted_labels fun l => ?_
    simp only [Int.toNat_natCast]
    rw [accepted_ite]
    simp only [List.mem_cons, List.not_mem_nil, or_false] at hmodel
    rcases hmodel with rfl | rfl
    · rw [if_pos rfl, accepted_ite]
      constructor
      · rintro ⟨-, h, -⟩
        refine Or.inr ⟨rfl, fun i h1 h2 h3 => h ⟨i, List.mem_range.2 h2, h1, ?_⟩⟩
        rw [← h3]
        ring
      · rintro (⟨h, -⟩ | ⟨-, h⟩)
        · exact absurd h (by decide)
        · refine ⟨fun h' => absurd h'.1 (by decide), ?_, accepted_pure _⟩
          rintro ⟨i, h2, h1, h3⟩
          refine h i h1 (List.mem_range.1 h2) ?_
          linear_combination -h3
    · rw [if_neg (by decide)]
      constructor
      · rintro ⟨h, -⟩
        have h1 : 4 * (m : K) * max b d ≤ 1 := not_lt.1 fun h' => h ⟨rfl, h'⟩
        exact Or.inl ⟨rfl, (mul_le_mul_of_nonneg_left (le_max_left _ _) hm0).trans h1,
          (mul_le_mul_of_nonneg_left (le_max_right _ _) hm0).trans h1⟩
      · rintro (⟨-, h1, h2⟩ | ⟨h, -⟩)
        · refine ⟨fun h' => absurd h'.2 (not_lt.2 ?_), accepted_pure _⟩
          rcases max_choice b d with h | h <;> rw [h] <;> assumption
        · exact absurd h (by decide)
  constructor
  · rintro ⟨t, h1, z, h2, a, h3, b, h4, d, h5, h6⟩
    obtain ⟨rfl, ht⟩ := (enumerator_iff (by decide)).1 h1
    obtain ⟨m, hm, hm', rfl⟩ := (bounded_iff (lo := 2) (hi := 500)).1 h2
    obtain ⟨rfl, ha⟩ := float_above_iff.1 h3
    obtain ⟨rfl, hb, hb'⟩ := float_closed_iff.1 h4
    obtain ⟨rfl, hd, hd'⟩ := float_closed_iff.1 h5
    obtain ⟨h7, h8⟩ := (hrest t m a b d ht hm.2).1 h6
    refine ⟨m, a, b, d, hm, hm', rfl, ha, rfl, hb, hb', rfl, hd, hd', h7, ?_⟩
    simpa using h8
  · rintro ⟨m, a, b, d, h2, h2', rfl, h3, rfl, h4, h4', rfl, h5, h5', h7, h8⟩
    have h9 : ∃ t, model = .str t ∧ t ∈ ["moran", "wright-fisher"] := by
      rcases h8 with ⟨rfl, -⟩ | ⟨rfl, -⟩
      · exact ⟨_, rfl, by decide⟩
      · exact ⟨_, rfl, by decide⟩
    obtain ⟨t, rfl, ht⟩ := h9
    refine ⟨t, (enumerator_iff (by decide)).2 ⟨rfl, ht⟩, m, (bounded_iff (lo := 2) (hi := 500)).2 ⟨m, h2, h2', rfl⟩,
      a, float_above_iff.2 ⟨rfl, h3⟩, b, float_closed_iff.2 ⟨rfl, h4, h4'⟩, d,
      float_closed_iff.2 ⟨rfl, h5, h5'⟩, (hrest t m a b d ht h2.2).2 ⟨h7, ?_⟩⟩
    simpa using h8

/-- C140. `birth_death`: two vectors of the same length, without a last birth and without a first death, and with
sums of at most one. -/
theorem C140_birth_death (p q states : PyVal K) : Accepted (birthDeath p q states) ↔
    ∃ (n : ℕ) (x y : Fin n → K), 0 < n ∧ GivesVector p x ∧ VectorOk .creation x ∧ GivesVector q y ∧
      VectorOk .annihilation y ∧ HasLabels states n ∧ ∀ i, y i + x i ≤ 1 := by
  unfold birthDeath
  simp only [accepted_bind (x := validateVector _ _ _ _)]
  have hrest : ∀ (a b : List K), Accepted (labelsOrDefault states a.length "" >>= fun labels =>
      if a.length ≠ b.length then throw .valueError
      else if ¬ ∀ i : Fin a.length, listVec b a.length i + listVec a a.length i ≤ 1 then throw .valueError
      else pure (⟨a.length, birthDeathMatrix (listVec a a.length) (listVec b a.length), labels⟩ : MC K)) ↔
      HasLabels states a.length ∧ a.length = b.length ∧
        ∀ i : Fin a.length, listVec b a.length i + listVec a a.length i ≤ 1 := by
    intro a b
    refine accepted_labels fun l => ?_
    rw [accepted_ite, accepted_ite, not_not, not_not]
    simp only [accepted_all, and_true]
  have hlen : ∀ {n : ℕ} (x y : Fin n → K), (∀ i : Fin (List.ofFn x).length,
      listVec (List.ofFn y) (List.ofFn x).length i + listVec (List.ofFn x) (List.ofFn x).length i ≤ 1) ↔
      ∀ i, y i + x i ≤ 1 := by
    intro n x y
    have h1 : (List.ofFn x).length = n := List.length_ofFn
    rw [h1, listVec_of_fn, listVec_of_fn]
  constructor
  · rintro ⟨a, h1, b, h2, h3⟩
    obtain ⟨n, x, hn, hx, hx', rfl⟩ := (vector_any_iff (Or.inl rfl)).1 h1
    obtain ⟨m, y, hm, hy, hy', rfl⟩ := (vector_any_iff (Or.inr rfl)).1 h2
    obtain ⟨h4, h5, h6⟩ := (hrest _ _).1 h3
    rw [List.length_ofFn] at h4
    rw [List.length_ofFn, List.length_ofFn] at h5
    subst h5
    exact ⟨n, x, y, hn, hx, hx', hy, hy', h4, (hlen x y).1 h6⟩
  · rintro ⟨n, x, y, hn, hx, hx', hy, hy', h4, h6⟩
    refine ⟨_, (vector_any_iff (Or.inl rfl)).2 ⟨n, x, hn, hx, hx', rfl⟩, _,
      (vector_any_iff (Or.inr rfl)).2 ⟨n, y, hn, hy, hy', rfl⟩, (hrest _ _).2 ⟨?_, ?_, (hlen x y).2 h6⟩⟩
    · rwa [List.length_ofFn]
    · rw [List.length_ofFn, List.length_ofFn]

/-- C140. `dirichlet_process`. -/
theorem C140_dirichlet (size diffusion states biasFactor shift : PyVal K) (draws : ∀ n, Fin n → Fin n → K)
    (bias : ∀ n, Fin n → K) : Accepted (dirichletProcess size diffusion states biasFactor shift draws bias) ↔
    ∃ n, IsNat size 2 n ∧ ∃ m, IsNat diffusion 1 m ∧ m ≤ n ∧
      (biasFactor = .none ∨ ∃ x, biasFactor = .float (.fin x) ∧ 0 < x) ∧
      (∃ b, shift = .bool b) ∧ HasLabels states n := by
  unfold dirichletProcess
  refine (accepted_nat 2).trans (exists_congr fun n => and_congr_right fun _ => ?_)
  refine (accepted_between 1 n).trans (exists_congr fun m => and_congr_right fun _ => and_congr_right fun _ => ?_)
  have hrest : ∀ b : Option (Fin n → K), Accepted (validateBoolean shift >>= fun shift =>
      labelsOrDefault states (n : ℤ).toNat "" >>= fun labels =>
      pure (⟨n, dirichletMatrix (draws n) b shift, labels⟩ : MC K)) ↔
      (∃ b, shift = .bool b) ∧ HasLabels states n := by
    intro b
    rw [accepted_boolean]
    simp only [accepted_default, Int.toNat_natCast, exists_and_right]
  cases biasFactor with
  | none => exact (hrest none).trans ⟨fun h => ⟨Or.inl rfl, h⟩, fun h => h.2⟩
  | float y =>
    refine (accepted_bind.trans ?_)
    simp only [R.bind_ok, R.pure_ok, float_over_iff]
    constructor
    · rintro ⟨_, ⟨x, h1, rfl⟩, h2⟩
      exact ⟨Or.inr ⟨x, h1⟩, (hrest _).1 h2⟩
    · rintro ⟨h1 | ⟨x, h1⟩, h2⟩
      · cases h1
      · exact ⟨_, ⟨x, h1, rfl⟩, (hrest _).2 h2⟩
  | _ => simp [accepted_bind, validateFloat]

/-- C140. `approximation` with the method of Rouwenhorst. -/
theorem C140_rouwenhorst (size alpha sigma rho states : PyVal K) :
    Accepted (approximationRouwenhorst size alpha sigma rho states) ↔
      ∃ n, IsNat size 2 n ∧ ∃ a, alpha = .float (.fin a) ∧ ∃ s, sigma = .float (.fin s) ∧ 0 < s ∧
        ∃ r, rho = .float (.fin r) ∧ -1 ≤ r ∧ r ≤ 1 ∧ HasLabels states n := by
  unfold approximationRouwenhorst
  refine (accepted_nat 2).trans ?_
  simp only [accepted_float, accepted_float_over, accepted_float_closed, accepted_default, Int.toNat_natCast]

/-- C140. `approximation` with the method of Tauchen: a correlation close to one is replaced, and the correlation
minus one is rejected. -/
theorem C140_tauchen (sqrt cdf : K → K) (size alpha sigma rho states k : PyVal K) :
    Accepted (approximationTauchen sqrt cdf size alpha sigma rho states k) ↔
      ∃ n, IsNat size 2 n ∧ ∃ a, alpha = .float (.fin a) ∧ ∃ s, sigma = .float (.fin s) ∧ 0 < s ∧
        ∃ r, rho = .float (.fin r) ∧ -1 ≤ r ∧ r ≤ 1 ∧ HasLabels states n ∧
          (k = .none ∨ ∃ x, k = .float (.fin x) ∧ 1 ≤ x) ∧ r ≠ -1 := by
  unfold approximationTauchen
  refine (accepted_nat 2).trans ?_
  simp only [accepted_float, accepted_float_over, accepted_float_closed]
  refine exists_congr fun n => and_congr_right fun _ => exists_congr fun a => and_congr_right fun _ =>
    exists_congr fun s => and_congr_right fun _ => and_congr_right fun _ => exists_congr fun r =>
    and_congr_right fun _ => and_congr_right fun h1 => and_congr_right fun h2 => ?_
  rw [Int.toNat_natCast]
  refine accepted_labels fun labels => ?_
  have hzero : (1 - (if isclose r 1 then 1 - 1 / 10 ^ 8 else r) ^ 2 = 0) ↔ r = -1 := by
    by_cases hr : isclose r 1 = true
    · rw [if_pos hr]
      rw [near_one_iff] at hr
      constructor
      · intro h
        norm_num at h
      · rintro rfl
        rw [show (-1 - 1 : K) = -2 by ring, abs_neg, abs_of_nonneg (by norm_num)] at hr
        norm_num at hr
    · rw [if_neg hr]
      constructor
      · intro h
        have h3 : (r - 1) * (r + 1) = 0 := by linear_combination -h
        rcases mul_eq_zero.1 h3 with h3 | h3
        · exfalso
          apply hr
          rw [near_one_iff, h3]
          norm_num
        · linear_combination h3
      · rintro rfl
        norm_num
  have hrest : ∀ x : K, Accepted (if 1 - (if isclose r 1 then 1 - 1 / 10 ^ 8 else r) ^ 2 = 0 then throw .valueError
      else pure (⟨n, tauchenMatrix cdf n s (if isclose r 1 then 1 - 1 / 10 ^ 8 else r)
        (sqrt (s ^ 2 / (1 - (if isclose r 1 then 1 - 1 / 10 ^ 8 else r) ^ 2)) * x), labels⟩ : MC K)) ↔ r ≠ -1 := by
    intro x
    rw [accepted_ite, hzero]
    exact ⟨fun h => h.1, fun h => ⟨h, accepted_pure _⟩⟩
  cases k with
  | none => exact (hrest 3).trans ⟨fun h => ⟨Or.inl rfl, h⟩, fun h => h.2⟩
  | float y =>
    refine accepted_float_above.trans ?_
    constructor
    · rintro ⟨x, h3, h4, h5⟩
      exact ⟨Or.inr ⟨x, h3, h4⟩, (hrest x).1 h5⟩
    · rintro ⟨h3 | ⟨x, h3, h4⟩, h5⟩
      · cases h3
      · exact ⟨x, h3, h4, (hrest x).2 h5⟩
  | _ => simp [accepted_bind, validateFloat]

/-- C140. `approximation` with the method of Adda and Cooper: the correlations one and minus one are rejected. -/
theorem C140_adda_cooper (ppf : ℝ → EReal) (size alpha sigma rho states : PyVal ℝ) :
    Accepted (approximationAddaCooper ppf size alpha sigma rho states) ↔
      ∃ n, IsNat size 2 n ∧ ∃ a, alpha = .float (.fin a) ∧ ∃ s, sigma = .float (.fin s) ∧ 0 < s ∧
        ∃ r, rho = .float (.fin r) ∧ -1 < r ∧ r < 1 ∧ HasLabels states n := by
  unfold approximationAddaCooper
  refine (accepted_nat 2).trans ?_
  simp only [accepted_float, accepted_float_over, accepted_float_closed]
  refine exists_congr fun n => and_congr_right fun _ => exists_congr fun a => and_congr_right fun _ =>
    exists_congr fun s => and_congr_right fun _ => and_congr_right fun _ => exists_congr fun r =>
    and_congr_right fun _ => ?_
  have hzero : 1 - r ^ 2 = 0 ↔ r = 1 ∨ r = -1 := by
    constructor
    · intro h
      have h3 : (r - 1) * (r + 1) = 0 := by linear_combination -h
      rcases mul_eq_zero.1 h3 with h3 | h3
      · exact Or.inl (by linear_combination h3)
      · exact Or.inr (by linear_combination h3)
    · rintro (rfl | rfl) <;> norm_num
  rw [Int.toNat_natCast, accepted_labels (p := ¬ (r = 1 ∨ r = -1)) fun l => by
    rw [accepted_ite, hzero]
    exact ⟨fun h => h.1, fun h => ⟨h, accepted_pure _⟩⟩]
  push Not
  constructor
  · rintro ⟨h1, h2, h3, h4, h5⟩
    exact ⟨lt_of_le_of_ne h1 h5.symm, lt_of_le_of_ne h2 h4, h3⟩
  · rintro ⟨h1, h2, h3⟩
    exact ⟨h1.le, h2.le, h3, h2.ne, h1.ne'⟩

/-- C140. `random_distribution` with the name of a distribution. -/
theorem C140_random_distribution (available accepted : List String)
    (draw : String → (n : ℕ) → Fin n → Fin n → Flt K) (size f states : PyVal K) :
    Accepted (randomDistributionChain available accepted draw size f states) ↔
      ∃ n, IsNat size 2 n ∧ ∃ s, (f = .str s ∧ nonBlank s = true ∧ s ∈ available ∧
        (accepted = [] ∨ s ∈ accepted)) ∧ HasLabels states n := by
  unfold randomDistributionChain
  refine (accepted_nat 2).trans ?_
  simp only [accepted_bind (x := validateRandomDistribution _ _ _), C111_names, accepted_default,
    Int.toNat_natCast]

/-! ## Derived chains -/

/-- C140. `to_bounded_chain`: NaN is accepted too. -/
theorem C140_bounded (c : MC K) (cond : PyVal K) : Accepted (toBounded c cond) ↔
    cond = .str "absorbing" ∨ cond = .str "reflecting" ∨ cond = .int 0 ∨ cond = .int 1 ∨
      cond = .float .nan ∨ ∃ x, cond = .float (.fin x) ∧ 0 ≤ x ∧ x ≤ 1 := by
  have h1 : Accepted (toBounded c cond) ↔ Accepted (validateBoundaryCondition cond) := by
    unfold toBounded
    rw [accepted_bind]
    constructor
    · rintro ⟨b, hb, -⟩
      exact ⟨b, hb⟩
    · rintro ⟨b, hb⟩
      refine ⟨b, hb, ?_⟩
      cases b with
      | number x => cases x <;> exact accepted_pure _
      | _ => exact accepted_pure _
  rw [h1]
  unfold validateBoundaryCondition
  cases cond with
  | int z =>
    rw [if_pos (by simp [PyVal.isNumber, PyVal.isFloat, PyVal.isInteger]), PyVal.toFlt, accepted_ite, iff_true_intro (accepted_pure _), and_true]
    simp only [Flt.ltC, Flt.gtC, decide_eq_true_eq, not_or, not_lt, PyVal.int.injEq, reduceCtorEq, false_and,
      exists_false, or_false, false_or]
    constructor
    · rintro ⟨h2, h3⟩
      have h2' : (0 : ℤ) ≤ z := by exact_mod_cast h2
      have h3' : z ≤ 1 := by exact_mod_cast h3
      omega
    · rintro (rfl | rfl) <;> simp
  | float x =>
    rw [if_pos (by simp [PyVal.isNumber, PyVal.isFloat, PyVal.isInteger]), PyVal.toFlt, accepted_ite, iff_true_intro (accepted_pure _), and_true]
    cases x with
    | fin y => simp [Flt.ltC, Flt.gtC]
    | nan => simp [Flt.ltC, Flt.gtC]
    | inf b => cases b <;> simp [Flt.ltC, Flt.gtC]
  | str t =>
    rw [if_neg (by simp [PyVal.isNumber, PyVal.isFloat, PyVal.isInteger])]
    simp only
    rw [accepted_ite]
    simp only [PyVal.str.injEq, reduceCtorEq, false_and, exists_false, or_false]
    by_cases h2 : t = "absorbing"
    · subst h2
      exact ⟨fun _ => Or.inl rfl, fun _ => ⟨by decide, _, rfl⟩⟩
    rw [if_neg h2]
    by_cases h3 : t = "reflecting"
    · subst h3
      exact ⟨fun _ => Or.inr rfl, fun _ => ⟨by decide, _, rfl⟩⟩
    rw [if_neg h3]
    exact ⟨fun h => absurd h.2 accepted_throw, fun h => absurd h (by simp [h2, h3])⟩
  | _ => simp [PyVal.isNumber, PyVal.isFloat, PyVal.isInteger, Accepted]

/-- C140. `to_lazy_chain`: a number or one number for each state, all from zero to one. -/
theorem C140_lazy {c : MC K} (hc : c.Valid) (weights : PyVal K) : Accepted (toLazy c weights) ↔
    weights = .int 0 ∨ weights = .int 1 ∨ (∃ x, weights = .float (.fin x) ∧ 0 ≤ x ∧ x ≤ 1) ∨
      ∃ x : Fin c.n → K, GivesVector weights x ∧ ∀ i, 0 ≤ x i ∧ x i ≤ 1 := by
  have hn : 0 < c.n := by have := hc.1; omega
  unfold toLazy
  rw [accepted_bind]
  simp only [accepted_all, and_true]
  by_cases hw : weights.isNumber = true
  · have hrep : ∀ (n : ℕ) (y : K), List.replicate n (Flt.fin y) = List.ofFn fun _ : Fin n => Flt.fin y := by
      intro n y
      exact (List.ofFn_const n _).symm
    have hno : ∀ x : Fin c.n → K, ¬ GivesVector weights x := by
      intro x hx
      rcases hx with rfl | rfl | ⟨s, rfl | rfl, -⟩ <;> cases hw
    simp only [hno, false_and, exists_false, or_false]
    unfold validateVector
    rw [if_pos ⟨rfl, hw⟩]
    simp only [ne_eq, not_true_eq_false, if_false]
    cases weights with
    | int z =>
      simp only [PyVal.toFlt, hrep, checkVector_iff hn, PyVal.int.injEq, reduceCtorEq, false_and, exists_false,
        or_false]
      constructor
      · rintro ⟨l, h, -⟩
        have h1 : (0 : K) ≤ z := (h.1 ⟨0, hn⟩).1
        have h2 : (z : K) ≤ 1 := (h.1 ⟨0, hn⟩).2
        have h1' : (0 : ℤ) ≤ z := by exact_mod_cast h1
        have h2' : z ≤ 1 := by exact_mod_cast h2
        omega
      · rintro (rfl | rfl)
        · exact ⟨_, ⟨fun _ => by simp, by simp, by simp, by simp⟩, rfl⟩
        · exact ⟨_, ⟨fun _ => by simp, by simp, by simp, by simp⟩, rfl⟩
    | float x =>
      simp only [reduceCtorEq, false_or, PyVal.float.injEq, PyVal.toFlt]
      cases x with
      | fin y =>
        simp only [hrep, checkVector_iff hn, Flt.fin.injEq]
        constructor
        · rintro ⟨l, h, -⟩
          exact ⟨y, rfl, h.1 ⟨0, hn⟩⟩
        · rintro ⟨_, rfl, h⟩
          exact ⟨_, ⟨fun _ => h, by simp, by simp, by simp⟩, rfl⟩
      | _ =>
        obtain ⟨m, hm⟩ : ∃ m, c.n = m + 1 := ⟨c.n - 1, by omega⟩
        rw [hm]
        simp [checkVector, List.replicate_succ, Flt.inUnit]
    | _ => cases hw
  · have h1 : ∀ l, validateVector weights .unconstrained true (some c.n) = .ok l ↔
        validateVector weights .unconstrained false (some c.n) = .ok l := by
      intro l
      unfold validateVector
      rw [if_neg (fun h => hw h.2), if_neg (by simp)]
    simp only [h1, vector_iff hn]
    have h2 : ∀ x : Fin c.n → K, VectorOk .unconstrained x ↔ ∀ i, 0 ≤ x i ∧ x i ≤ 1 := by
      intro x
      simp [VectorOk]
    simp only [h2]
    constructor
    · rintro ⟨l, x, h3, h4, -⟩
      exact Or.inr (Or.inr (Or.inr ⟨x, h3, h4⟩))
    · rintro (rfl | rfl | ⟨x, rfl, -⟩ | ⟨x, h3, h4⟩)
      · exact absurd rfl hw
      · exact absurd rfl hw
      · exact absurd rfl hw
      · exact ⟨_, x, h3, h4, rfl⟩

/-- C140. `merge_with`. -/
theorem C140_merge (c other : MC K) (gamma : PyVal K) : Accepted (mergeWith c other gamma) ↔
    other.n = c.n ∧ ∃ g, gamma = .float (.fin g) ∧ 0 < g ∧ g < 1 := by
  unfold mergeWith
  by_cases h : other.n = c.n
  · rw [dif_pos h, accepted_float_open]
    simp only [accepted_all, and_true, h, true_and]
  · rw [dif_neg h]
    exact ⟨fun h' => absurd h' accepted_throw, fun h' => absurd h'.1 h⟩

/-- C140. `to_nth_order`. -/
theorem C140_nth_order (c : MC K) (order : PyVal K) : Accepted (toNthOrder c order) ↔ ∃ n, IsNat order 2 n := by
  unfold toNthOrder
  refine (accepted_nat 2).trans ?_
  simp only [accepted_all, and_true]

/-- The argument is omitted, names a state or gives a distribution. -/
def HasStatus (c : MC K) (v : PyVal K) : Prop :=
  v = .none ∨ (∃ i : Fin c.n, Names c.states v i) ∨
    ∃ x : Fin c.n → K, GivesVector v x ∧ VectorOk .stochastic x

theorem status_accepted {c : MC K} (hc : c.Valid) (v : PyVal K) :
    Accepted (match v with
      | .none => pure (List.replicate c.n (1 / (c.n : K)))
      | v => validateStatus v c.states) ↔ HasStatus c v := by
  have hn : 0 < c.n := by have := hc.1; omega
  have hlen : c.states.length = c.n := hc.2.2.1
  have hlabel : ∀ v : PyVal K, (∃ k, validateLabel v c.states = .ok k) ↔ ∃ i : Fin c.n, Names c.states v i := by
    intro v
    have := accepted_label (α := Unit) hc (v := v) (f := fun _ => pure ())
    rw [accepted_bind] at this
    simpa only [accepted_all, and_true] using this
  have hvec : ∀ v : PyVal K, (∃ r, (extractVector true v >>= fun l =>
      if l.length ≠ c.states.length then throw .valueError
      else if ¬ l.all Flt.inUnit then throw .valueError
      else if ¬ isclose (l.map Flt.val).sum 1 then throw .valueError
      else pure (l.map Flt.val)) = .ok r) ↔ ∃ x : Fin c.n → K, GivesVector v x ∧ VectorOk .stochastic x := by
    intro v
    simp only [R.bind_ok, R.ite_throw, R.pure_ok, not_not, hlen]
    constructor
    · rintro ⟨r, l, h1, h2, h3, h4, -⟩
      obtain ⟨x, rfl⟩ := inUnit_ofFn h2 h3
      refine ⟨x, (C121_vector hn true v x).1 h1, ?_⟩
      refine ((checkVector_iff (ty := .stochastic) hn (l := List.ofFn x)).1 ?_).1
      have hmap : (List.ofFn fun i => Flt.fin (x i)).map Flt.val = List.ofFn x := by
        rw [List.map_ofFn]
        rfl
      unfold checkVector
      rw [R.ite_throw, not_not]
      simp only [hmap] at h4 ⊢
      exact ⟨h3, by simp [h4]⟩
    · rintro ⟨x, h1, h2⟩
      have h3 := (checkVector_iff (ty := .stochastic) hn (l := List.ofFn x)).2 ⟨h2, rfl⟩
      unfold checkVector at h3
      rw [R.ite_throw, not_not] at h3
      simp only [R.ite_throw, reduceCtorEq, false_and, not_false_eq_true, true_and, not_not] at h3
      exact ⟨_, _, (C121_vector hn true v x).2 h1, by simp, h3.1, h3.2.1, rfl⟩
  have hnames : ∀ (v : PyVal K), v.isInteger = false → v.isString = false → ∀ i, ¬ Names c.states v i := by
    rintro v h1 h2 i (⟨rfl, -⟩ | ⟨s, rfl, h3, -⟩)
    · cases h1
    · rw [PyVal.isString, h3] at h2
      cases h2
  have hgives : ∀ (v : PyVal K), (∃ z, v = .int z) ∨ (∃ s, v = .str s) → ∀ x : Fin c.n → K, ¬ GivesVector v x := by
    rintro v (⟨z, rfl⟩ | ⟨s, rfl⟩) x hx <;> rcases hx with h | h | ⟨s, h | h, -⟩ <;> cases h
  unfold HasStatus
  cases v with
  | none => exact ⟨fun _ => Or.inl rfl, fun _ => ⟨_, rfl⟩⟩
  | int z =>
    have h1 : Accepted (validateStatus (.int z : PyVal K) c.states) ↔ ∃ k, validateLabel (.int z : PyVal K) c.states = .ok k := by
      simp only [C04_single_label hc.2.2.2.1, Names, PyVal.int.injEq, reduceCtorEq, false_and, exists_false, or_false]
      unfold Accepted
      simp only [validateStatus, R.ite_throw, R.pure_ok]
      constructor
      · rintro ⟨_, h, -⟩
        exact ⟨z.toNat, by omega, by omega⟩
      · rintro ⟨k, rfl, h⟩
        exact ⟨_, by omega, rfl⟩
    refine h1.trans ((hlabel _).trans ⟨fun h => Or.inr (Or.inl h), ?_⟩)
    rintro (h | h | ⟨x, h, -⟩)
    · cases h
    · exact h
    · exact absurd h (hgives _ (Or.inl ⟨z, rfl⟩) x)
  | str t =>
    have h1 : Accepted (validateStatus (.str t : PyVal K) c.states) ↔ ∃ k, validateLabel (.str t : PyVal K) c.states = .ok k := by
      unfold validateStatus validateLabel Accepted
      simp only [PyVal.isInteger, Bool.false_eq_true, if_false, PyVal.isString, PyVal.asStr]
      by_cases h : nonBlank t = true
      · simp only [h, if_true]
        cases labelIndex c.states t <;> simp
      · simp [h]
    refine h1.trans ((hlabel _).trans ⟨fun h => Or.inr (Or.inl h), ?_⟩)
    rintro (h | h | ⟨x, h, -⟩)
    · cases h
    · exact h
    · exact absurd h (hgives _ (Or.inr ⟨t, rfl⟩) x)
  | _ =>
    refine Iff.trans (hvec _) ⟨fun h => Or.inr (Or.inr h), ?_⟩
    rintro (h | ⟨i, h⟩ | h)
    · cases h
    · exact absurd h (hnames _ rfl rfl i)
    · exact h

/-- C140. `redistribute`. -/
theorem C140_redistribute {c : MC K} (hc : c.Valid) (steps status outputLast : PyVal K) :
    Accepted (redistribute c steps status outputLast) ↔
      (∃ n, IsNat steps 1 n) ∧ HasStatus c status ∧ ∃ b, outputLast = .bool b := by
  unfold redistribute
  refine (accepted_nat 1).trans ?_
  rw [← status_accepted hc status, ← exists_and_right]
  refine exists_congr fun n => and_congr_right fun _ => ?_
  refine accepted_bind.trans ?_
  simp only [accepted_boolean, accepted_all, and_true]
  exact exists_and_right

/-! ## Simulations -/

/-- C140. `simulate`. -/
theorem C140_simulate {c : MC K} (hc : c.Valid) (choice : Choice K c.n) (start : Fin c.n)
    (steps initialState finalState outputIndices : PyVal K) :
    Accepted (simulate c choice start steps initialState finalState outputIndices) ↔
      (∃ n, IsNat steps 2 n) ∧ (initialState = .none ∨ ∃ i : Fin c.n, Names c.states initialState i) ∧
        (finalState = .none ∨ ∃ i : Fin c.n, Names c.states finalState i) ∧ ∃ b, outputIndices = .bool b := by
  have hopt : ∀ (v : PyVal K) {α : Type} {f : Option (Fin c.n) → R α} {p : Prop}, (∀ i, Accepted (f i) ↔ p) →
      (Accepted (optionalLabel v c.states c.n >>= f) ↔
        (v = .none ∨ ∃ i : Fin c.n, Names c.states v i) ∧ p) := by
    intro v α f p hf
    have hrest : ∀ v : PyVal K, Accepted ((validateLabel v c.states >>= fun k => asState c.n k >>= fun i =>
        pure (some i)) >>= f) ↔ (∃ i : Fin c.n, Names c.states v i) ∧ p := by
      intro v
      simp only [bind_assoc, pure_bind]
      rw [accepted_label hc]
      simp only [accepted_state]
      rw [← exists_and_right]
      exact exists_congr fun i => and_congr_right fun _ => hf _
    have hname : ∀ i : ℕ, ¬ Names c.states (.none : PyVal K) i := by
      rintro i (⟨h, -⟩ | ⟨s, h, -⟩) <;> cases h
    unfold optionalLabel
    cases v with
    | none =>
      refine Iff.trans (hf none) ?_
      simp
    | _ =>
      refine Iff.trans (hrest _) ?_
      simp
  unfold simulate
  refine (accepted_nat 2).trans ?_
  rw [← exists_and_right]
  refine exists_congr fun n => and_congr_right fun _ => hopt _ fun i => hopt _ fun j => ?_
  simp only [accepted_boolean, accepted_all, and_true]

/-- C140. `next`. -/
theorem C140_next {c : MC K} (hc : c.Valid) (choice : Choice K c.n) (initialState outputIndex : PyVal K) :
    Accepted (next c choice initialState outputIndex) ↔
      (∃ i : Fin c.n, Names c.states initialState i) ∧ ∃ b, outputIndex = .bool b := by
  unfold next
  rw [accepted_label hc]
  simp only [accepted_state, accepted_boolean, accepted_all, and_true, exists_and_right]

/-- C140. `predict`. -/
theorem C140_predict {c : MC K} (hc : c.Valid) (steps initialState outputIndices : PyVal K) :
    Accepted (predict c steps initialState outputIndices) ↔
      (∃ n, IsNat steps 1 n) ∧ (∃ i : Fin c.n, Names c.states initialState i) ∧ ∃ b, outputIndices = .bool b := by
  unfold predict
  rw [accepted_positive]
  simp only [accepted_label hc, accepted_state, accepted_boolean, accepted_all, and_true, exists_and_right]

/-- C140. `sequence_probability`: a list of two or more states, all of them by name or all of them by number. -/
theorem C140_sequence_probability {c : MC ℝ} (hc : c.Valid) (sequence : PyVal ℝ) :
    Accepted (sequenceProbability c sequence) ↔
      ∃ l, sequence = .list l ∧ 2 ≤ l.length ∧ Homogeneous l ∧ ∀ v ∈ l, ∃ i : Fin c.n, Names c.states v i := by
  have hlt : ∀ (v : PyVal ℝ) (i : ℕ), Names c.states v i → i < c.n := by
    intro v i h
    rw [← hc.2.2.1]
    rcases h with h | ⟨s, -, -, h⟩
    · exact h.2
    · exact (List.getElem?_eq_some_iff.1 h).1
  have hall : ∀ l : List (PyVal ℝ), (∃ r, List.Forall₂ (Names c.states) l r) ↔
      ∀ v ∈ l, ∃ i : Fin c.n, Names c.states v i := by
    intro l
    induction l with
    | nil => exact ⟨fun _ v hv => absurd hv (by simp), fun _ => ⟨[], .nil⟩⟩
    | cons v l ih =>
      constructor
      · rintro ⟨r, h⟩
        cases h with
        | cons h1 h2 =>
          intro w hw
          rcases List.mem_cons.1 hw with rfl | hw
          · exact ⟨⟨_, hlt _ _ h1⟩, h1⟩
          · exact (ih.1 ⟨_, h2⟩) w hw
      · intro h
        obtain ⟨i, hi⟩ := h v (by simp)
        obtain ⟨r, hr⟩ := ih.2 fun w hw => h w (by simp [hw])
        exact ⟨i :: r, .cons hi hr⟩
  unfold sequenceProbability
  rw [accepted_bind]
  simp only [accepted_all, and_true, C04_sequences hc.2.2.2.1, ← hall]
  constructor
  · rintro ⟨r, l, h1, h2, h3, h4⟩
    exact ⟨l, h1, h2, h3, r, h4⟩
  · rintro ⟨l, h1, h2, h3, r, h4⟩
    exact ⟨r, l, h1, h2, h3, h4⟩

/-! ## Measures -/

/-- C140. `expected_rewards`. -/
theorem C140_expected_rewards {c : MC K} (hc : c.Valid) (steps rewards : PyVal K) :
    Accepted (expectedRewards c steps rewards) ↔
      (∃ n, IsNat steps 1 n) ∧ ∃ x : Fin c.n → K, GivesVector rewards x := by
  unfold expectedRewards
  rw [accepted_positive]
  simp only [accepted_rewards hc, accepted_all, and_true, exists_and_right]

/-- C140. `expected_transitions`. -/
theorem C140_expected_transitions {c : MC K} (hc : c.Valid) (rdl : Rdl K c.n) (steps : PyVal K)
    (d : Option (PyVal K)) : Accepted (expectedTransitions c rdl steps d) ↔
      (∃ n, IsNat steps 1 n) ∧ ∃ x : Fin c.n → K, HasDistribution d x := by
  unfold expectedTransitions
  rw [accepted_positive]
  simp only [accepted_initial hc, accepted_all, and_true, exists_and_right]

/-- C140. `first_passage_probabilities`, without and with first passage states. -/
theorem C140_first_passage_probabilities {c : MC K} (hc : c.Valid) (steps initialState : PyVal K) :
    (Accepted (firstPassageAll c steps initialState) ↔
      (∃ n, IsNat steps 1 n) ∧ ∃ i : Fin c.n, Names c.states initialState i) ∧
    ∀ states, Accepted (firstPassageProbabilities c steps initialState states) ↔
      (∃ n, IsNat steps 1 n) ∧ (∃ i : Fin c.n, Names c.states initialState i) ∧
        ∃ r, NamesAll c.states c.n states r := by
  constructor
  · unfold firstPassageAll
    rw [accepted_positive]
    simp only [accepted_label hc, Fin.is_lt, dif_pos, accepted_all, and_true, exists_and_right]
  · intro states
    unfold firstPassageProbabilities
    rw [accepted_positive]
    simp only [accepted_label hc, accepted_names hc, Fin.is_lt, dif_pos, accepted_all, and_true, exists_and_right,
      Bool.false_eq_true, if_false]

/-- C140. `first_passage_reward`: at least three states, and at least two of them outside the first passage
states, one of which is the initial state. -/
theorem C140_first_passage_reward {c : MC K} (hc : c.Valid) (steps initialState states rewards : PyVal K) :
    Accepted (firstPassageReward c steps initialState states rewards) ↔
      3 ≤ c.n ∧ (∃ n, IsNat steps 1 n) ∧ (∃ x : Fin c.n → K, GivesVector rewards x) ∧
        ∃ i : Fin c.n, Names c.states initialState i ∧
          ∃ r, NamesAll c.states (c.n - 1) states r ∧ i.val ∉ r ∧ r.length ≠ c.n - 1 := by
  unfold firstPassageReward
  rw [accepted_label hc]
  have h2 : ¬ c.n = 2 ↔ 3 ≤ c.n := by have := hc.1; omega
  simp only [accepted_names hc, accepted_rewards hc, accepted_positive, accepted_ite, if_true, Fin.is_lt, dif_pos,
    accepted_all, and_true, h2]
  constructor
  · rintro ⟨i, h1, r, h2, x, h3, n, h4, h5, h6, h7⟩
    exact ⟨h5, ⟨n, h4⟩, ⟨x, h3⟩, i, h1, r, h2, h6, h7⟩
  · rintro ⟨h5, ⟨n, h4⟩, ⟨x, h3⟩, i, h1, r, h2, h6, h7⟩
    exact ⟨i, h1, r, h2, x, h3, n, h4, h5, h6, h7⟩

/-- C140. `hitting_probabilities` and `hitting_times`. -/
theorem C140_hitting {c : MC K} (hc : c.Valid) (nnls : Nnls K) (targets : Option (PyVal K)) :
    (Accepted (hittingProbabilities nnls c targets) ↔
      ∀ v, targets = some v → ∃ r, NamesAll c.states c.n v r) ∧
    (Accepted (hittingTimes nnls c targets) ↔ ∀ v, targets = some v → ∃ r, NamesAll c.states c.n v r) := by
  have h : (∃ S, hittingTargets c targets = .ok S) ↔ ∀ v, targets = some v → ∃ r, NamesAll c.states c.n v r := by
    unfold hittingTargets
    cases targets with
    | none => exact ⟨fun _ v hv => absurd hv (by simp), fun _ => ⟨_, rfl⟩⟩
    | some w =>
      refine (accepted_names hc).trans ?_
      simp only [accepted_all, and_true, Bool.false_eq_true, if_false]
      exact ⟨fun h v hv => by cases hv; exact h, fun h => h w rfl⟩
  constructor
  · unfold hittingProbabilities
    rw [accepted_bind, ← h]
    simp only [accepted_all, and_true]
  · unfold hittingTimes
    rw [accepted_bind, ← h]
    simp only [accepted_all, and_true]

theorem accepted_mfptTo {c : MC K} (hc : c.Valid) {nx : Nx c.n} (hx : nx.Sound c.p) {S : List (Fin c.n)}
    (hS : ∃ i, i ∈ S) : Accepted (mfptTo c nx S) := by
  by_cases he : Ergodic c.p
  · obtain ⟨t, h, -⟩ := mfptTo_spec hc hx he hS
    exact ⟨_, h⟩
  · unfold mfptTo
    rw [if_neg fun h => he ((isErgodic_iff hc hx).1 h)]
    exact accepted_pure _

/-- C140. `mean_first_passage_times_to` with targets, for all chains. -/
theorem C140_mfpt_to {c : MC K} (hc : c.Valid) {nx : Nx c.n} (hx : nx.Sound c.p) (targets : PyVal K) :
    Accepted (meanFirstPassageTimesTo c nx targets) ↔ ∃ r, NamesAll c.states c.n targets r := by
  unfold meanFirstPassageTimesTo
  rw [accepted_bind]
  constructor
  · rintro ⟨l, h1, -⟩
    exact ⟨l, by simpa using (names_iff hc).1 h1⟩
  · rintro ⟨l, h1⟩
    have h2 : validateLabelsCurrent targets c.states false none = .ok l := (names_iff hc).2 (by simpa using h1)
    exact ⟨l, h2, accepted_mfptTo hc hx (toStates_ne_nil hc h2)⟩

/-- C140. `mean_first_passage_times_between`, for all chains. -/
theorem C140_mfpt_between {c : MC K} (hc : c.Valid) {nx : Nx c.n} (hx : nx.Sound c.p) (origins targets : PyVal K) :
    Accepted (meanFirstPassageTimesBetween c nx origins targets) ↔
      (∃ r, NamesAll c.states (c.n - 1) origins r) ∧ ∃ r, NamesAll c.states (c.n - 1) targets r := by
  have hn : ∀ (v : PyVal K) (r : List ℕ), validateLabelsCurrent v c.states true none = .ok r ↔
      NamesAll c.states (c.n - 1) v r := fun v r => by simpa using names_iff (subset := true) hc (v := v) (r := r)
  simp only [← hn]
  constructor
  · rintro ⟨x, h⟩
    unfold meanFirstPassageTimesBetween at h
    obtain ⟨a, ha, h⟩ := (R.bind_ok _ _ _).1 h
    obtain ⟨b, hb, h⟩ := (R.bind_ok _ _ _).1 h
    exact ⟨⟨a, ha⟩, b, hb⟩
  · rintro ⟨⟨a, ha⟩, b, hb⟩
    by_cases he : Ergodic c.p
    · obtain ⟨x, t, -, -, h, -⟩ := C99_between hc hx he ha hb
      exact ⟨_, h⟩
    · unfold meanFirstPassageTimesBetween
      rw [ha, R.ok_bind, hb, R.ok_bind]
      unfold mfptBetween
      rw [if_neg fun h => he ((isErgodic_iff hc hx).1 h)]
      exact accepted_pure _

/-- C140. `committor_probabilities`: two sets without common states, for all chains. -/
theorem C140_committor {c : MC K} (hc : c.Valid) {nx : Nx c.n} (hx : nx.Sound c.p) (kind states1 states2 : PyVal K) :
    Accepted (committorProbabilities c nx kind states1 states2) ↔
      (kind = .str "backward" ∨ kind = .str "forward") ∧
        ∃ a b, NamesAll c.states (c.n - 1) states1 a ∧ NamesAll c.states (c.n - 1) states2 b ∧
          ∀ i ∈ a, i ∉ b := by
  have hn : ∀ (v : PyVal K) (r : List ℕ), validateLabelsCurrent v c.states true none = .ok r ↔
      NamesAll c.states (c.n - 1) v r := fun v r => by simpa using names_iff (subset := true) hc (v := v) (r := r)
  simp only [← hn]
  constructor
  · rintro ⟨x, h⟩
    obtain ⟨a, b, ha, hb, hd⟩ := C41_disjoint h
    refine ⟨?_, a, b, ha, hb, hd⟩
    unfold committorProbabilities at h
    obtain ⟨k, hk, -⟩ := (R.bind_ok _ _ _).1 h
    obtain ⟨rfl, hk'⟩ := (enumerator_iff (by decide)).1 hk
    simpa using hk'
  · rintro ⟨hk, a, b, ha, hb, hd⟩
    by_cases he : Ergodic c.p
    · rcases hk with rfl | rfl
      · obtain ⟨x, -, -, q, r, -, h, -⟩ := C41_backward_partial hc hx he ha hb hd
        exact ⟨_, h⟩
      · obtain ⟨q, r, -, h, -⟩ := C41_forward_partial hc hx he ha hb hd
        exact ⟨_, h⟩
    · obtain ⟨k, hk⟩ : ∃ k, validateEnumerator kind ["backward", "forward"] = .ok k := by
        rcases hk with rfl | rfl
        · exact ⟨_, (enumerator_iff (by decide)).2 ⟨rfl, by decide⟩⟩
        · exact ⟨_, (enumerator_iff (by decide)).2 ⟨rfl, by decide⟩⟩
      rw [committor_run hk ha hb hd]
      unfold mcCommittor
      rw [if_neg fun h => he ((isErgodic_iff hc hx).1 h)]
      exact accepted_pure _

/-- C140. `mixing_time`, for all chains. -/
theorem C140_mixing_time {c : MC K} (hc : c.Valid) {nx : Nx c.n} (hx : nx.Sound c.p) (natural : K)
    (d : Option (PyVal K)) (jump kind : PyVal K) : Accepted (mixingTime c nx natural d jump kind) ↔
      (∃ x : Fin c.n → K, HasDistribution d x) ∧ (∃ n, IsNat jump 1 n) ∧
        (kind = .str "natural" ∨ kind = .str "traditional") := by
  have hrun : ∀ (y : Fin c.n → K) (z : ℤ) (x : K), Accepted (mcMixingTime c nx y z x) ↔ True := by
    intro y z x
    refine iff_true_intro ?_
    unfold mcMixingTime
    by_cases he : Ergodic c.p
    · rw [if_pos ((isErgodic_iff hc hx).2 he)]
      obtain ⟨x, h1, -⟩ := pi0_spec hc hx.sccs he.1
      rw [h1, R.ok_bind]
      exact accepted_pure _
    · rw [if_neg fun h => he ((isErgodic_iff hc hx).1 h)]
      exact accepted_pure _
  unfold mixingTime
  rw [accepted_initial hc]
  simp only [accepted_positive, accepted_enumerator (l := ["natural", "traditional"]) (by decide), hrun, and_true,
    exists_and_right]
  refine and_congr_right fun _ => and_congr_right fun _ => ?_
  constructor
  · rintro ⟨s, rfl, h⟩
    simpa using h
  · rintro (rfl | rfl)
    · exact ⟨_, rfl, by decide⟩
    · exact ⟨_, rfl, by decide⟩

/-! ## Examples -/

/-- The limits of `population_genetics_model`: with four individuals the largest mutation rate of a Wright-Fisher
model is `1 / 16`. -/
example : Accepted (populationGenetics (.str "wright-fisher") (.int 4) (.float (.fin 0)) (.float (.fin (1 / 16)))
      (.float (.fin 0)) .none : R (MC ℚ)) ∧
    ¬ Accepted (populationGenetics (.str "wright-fisher") (.int 4) (.float (.fin 0)) (.float (.fin (1 / 8)))
      (.float (.fin 0)) .none : R (MC ℚ)) := by
  rw [C140_population_genetics, C140_population_genetics]
  refine ⟨⟨4, 0, 1 / 16, 0, ⟨rfl, by norm_num⟩, by norm_num, rfl, by norm_num, rfl, by norm_num, by norm_num, rfl,
    le_refl _, by norm_num, Or.inl rfl, Or.inl ⟨rfl, by norm_num, by norm_num⟩⟩, ?_⟩
  rintro ⟨m, a, b, d, ⟨hm, -⟩, -, -, -, hb, -, -, -, -, -, -, ⟨-, h, -⟩ | ⟨h, -⟩⟩
  · cases hm
    cases hb
    norm_num at h
  · simp at h

/-- A Moran model of four individuals with the selection `2` has a zero denominator. -/
example : ¬ Accepted (populationGenetics (.str "moran") (.int 4) (.float (.fin 2)) (.float (.fin 0))
      (.float (.fin 0)) .none : R (MC ℚ)) := by
  rw [C140_population_genetics]
  rintro ⟨m, a, b, d, ⟨hm, -⟩, -, ha, -, -, -, -, -, -, -, -, ⟨h, -⟩ | ⟨-, h⟩⟩
  · simp at h
  · cases hm
    cases ha
    exact h 2 (by norm_num) (by norm_num) (by norm_num)

example : Accepted (gamblersRuin (.int 3) (.float (.fin (1 / 2))) .none : R (MC ℚ)) ∧
    ¬ Accepted (gamblersRuin (.int 2) (.float (.fin (1 / 2))) .none : R (MC ℚ)) := by
  rw [C140_gamblers_ruin, C140_gamblers_ruin]
  refine ⟨⟨3, ⟨rfl, le_refl _⟩, 1 / 2, rfl, by norm_num, by norm_num, Or.inl rfl⟩, ?_⟩
  rintro ⟨n, ⟨h, h'⟩, -⟩
  have h2 := PyVal.int.inj h
  omega

/-- All states but one as first passage states are rejected. -/
example : exDrunkard.Valid ∧
    Accepted (firstPassageReward exDrunkard (.int 2) (.int 1) (.int 0) (.list [.int 1, .int 1, .int 1])) ∧
    ¬ Accepted (firstPassageReward exDrunkard (.int 2) (.int 1) (.list [.int 0, .int 2])
      (.list [.int 1, .int 1, .int 1])) := by
  refine ⟨by decide +kernel, ?_, ?_⟩
  · exact ⟨_, rfl⟩
  · rintro ⟨r, h⟩
    cases h

end Verif
