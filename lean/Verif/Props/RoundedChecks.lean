import Verif.Model.RoundedChecks
import Verif.Props.RoundedMeasures
import Verif.Lemmas.Validation
import Verif.Props.Validation

/-!
# The tests of matrices with rounding (C185)

The constructor of chains, the validation of transition and emission matrices, `is_symmetric` and
`is_doubly_stochastic` give with rounding the answers of exact arithmetic, unless some number that is compared lies
within one percent of the tolerance.
-/

namespace Verif

open Finset

variable {K : Type} [Field K] [LinearOrder K] [IsStrictOrderedRing K] {fl : K → K} {F : Arith K} {u : K}

/-- The tolerance of `np.isclose(a, b)` for nonnegative `b`. -/
def tolerance (b : K) : K := 1 / 10 ^ 8 + 1 / 10 ^ 5 * b

/-- The difference is not within one percent of the tolerance. -/
def Clear (a b : K) : Prop := |a - b| ≤ 99 / 100 * tolerance b ∨ 101 / 100 * tolerance b < |a - b|

/-- The comparison of a number that is known with eight digits with another one. -/
theorem iscloseF_unit (hu : u ≤ 1 / 10 ^ 9) (hfl : ∀ z, |fl z - z| ≤ u * |z|) {a b a' : K}
    (hb : 0 ≤ b) (h : |a' - a| ≤ 2 / 10 ^ 8 * a) :
    (|a - b| ≤ 99 / 100 * tolerance b → iscloseF fl a' b = true) ∧
    (iscloseF fl a' b = true → |a - b| ≤ 101 / 100 * tolerance b) := by
  have near : ∀ z, 0 ≤ z → (1 - 1 / 10 ^ 9) * z ≤ fl z ∧ fl z ≤ (1 + 1 / 10 ^ 9) * z := by
    intro z hz
    have h1 := abs_le.1 (hfl z)
    rw [abs_of_nonneg hz] at h1
    have h2 := mul_le_mul_of_nonneg_right hu hz
    constructor <;> linarith
  obtain ⟨t1, t2⟩ := near (1 / 10 ^ 8) (by positivity)
  obtain ⟨r1, r2⟩ := near (1 / 10 ^ 5) (by positivity)
  obtain ⟨D1, D2⟩ := near |a' - b| (abs_nonneg _)
  unfold iscloseF tolerance
  rw [decide_eq_true_eq, abs_of_nonneg hb]
  generalize fl (1 / 10 ^ 8) = t at *
  generalize fl (1 / 10 ^ 5) = r at *
  have hr0 : 0 ≤ r := by norm_num at r1 ⊢; linarith
  obtain ⟨s1, s2⟩ := near (r * b) (mul_nonneg hr0 hb)
  have p1 := mul_le_mul_of_nonneg_right r1 hb
  have p2 := mul_le_mul_of_nonneg_right r2 hb
  have hs0 : 0 ≤ fl (r * b) := le_trans (by have := mul_nonneg hr0 hb; norm_num; linarith) s1
  obtain ⟨R1, R2⟩ := near (t + fl (r * b)) (by norm_num at t1 ⊢; linarith)
  have hab := abs_sub_le a' a b
  have hab2 := abs_sub_le a a' b
  rw [abs_sub_comm a a'] at hab2
  have hle := le_abs_self (a - b)
  generalize fl |a' - b| = D at *
  generalize fl (r * b) = s at *
  generalize fl (t + s) = R at *
  generalize r * b = q at *
  generalize |a' - b| = y at *
  generalize |a - b| = z at *
  generalize |a' - a| = α at *
  norm_num at t1 t2 s1 s2 p1 p2 R1 R2 D1 D2 h ⊢
  constructor <;> intro h' <;> linarith

/-- A rounded sum of nonnegative numbers is known with eight digits. -/
theorem sum_digits (hF : F.Sound u) {n : ℕ} (hn : (n : K) * u ≤ 1 / 10 ^ 8) {g : Fin n → K} (hg : ∀ i, 0 ≤ g i) :
    |F.sum (List.ofFn g) - ∑ i, g i| ≤ 2 / 10 ^ 8 * ∑ i, g i := by
  have h := Acc.sum hF (g' := g) (g := g) fun i => Acc.refl (hg i)
  rw [Nat.zero_add] at h
  refine (h.relative hF (hn.trans (by norm_num))).trans
    (mul_le_mul_of_nonneg_right (by linarith) (sum_nonneg fun i _ => hg i))

/-- The test that sums are close to one. -/
theorem sums_margin (hu : u ≤ 1 / 10 ^ 9) (hfl : ∀ z, |fl z - z| ≤ u * |z|) (hF : F.Sound u) {m n : ℕ}
    (hn : (n : K) * u ≤ 1 / 10 ^ 8) {M : Fin m → Fin n → K} (hM : ∀ i j, 0 ≤ M i j) :
    ((∀ i, |∑ j, M i j - 1| ≤ 99 / 100 * tolerance 1) → ∀ i, iscloseF fl (F.sum (List.ofFn (M i))) 1 = true) ∧
    ((∀ i, iscloseF fl (F.sum (List.ofFn (M i))) 1 = true) → ∀ i, |∑ j, M i j - 1| ≤ 101 / 100 * tolerance 1) := by
  have key : ∀ i, _ := fun i => iscloseF_unit hu hfl zero_le_one
    (sum_digits hF hn (hM i))
  exact ⟨fun h i => (key i).1 (h i), fun h i => (key i).2 (h i)⟩

theorem toMat_unit {rows : List (List (Flt K))} (h : rows.all (fun r => r.all Flt.inUnit) = true) {m n : ℕ}
    (i : Fin m) (j : Fin n) : 0 ≤ toMat rows m n i j ∧ toMat rows m n i j ≤ 1 := by
  unfold toMat
  obtain ⟨r, hr⟩ : ∃ r, r = rows.getD i [] := ⟨_, rfl⟩
  obtain ⟨x, hx⟩ : ∃ x, x = (rows.getD i []).getD j .nan := ⟨_, rfl⟩
  rw [← hx]
  have hx' : x = .nan ∨ x.inUnit = true := by
    rw [List.all_eq_true] at h
    rw [← hr] at hx
    rw [List.getD_eq_getElem?_getD] at hx hr
    rcases h1 : rows[i.val]? with _ | r'
    · rw [h1] at hr
      subst hr
      left
      simpa using hx
    · rw [h1] at hr
      change r = r' at hr
      subst hr
      have h2 := h r (List.mem_of_getElem? h1)
      rw [List.all_eq_true] at h2
      rcases h3 : r[j.val]? with _ | y
      · rw [h3] at hx
        exact Or.inl hx
      · rw [h3] at hx
        change x = y at hx
        subst hx
        exact Or.inr (h2 x (List.mem_of_getElem? h3))
  rcases hx' with rfl | hx'
  · exact ⟨le_rfl, zero_le_one⟩
  · cases x with
    | fin x => simpa [Flt.inUnit, Flt.val] using hx'
    | nan => exact ⟨le_rfl, zero_le_one⟩
    | inf b => exact ⟨le_rfl, zero_le_one⟩

/-- C185, the shared test. The result and the exception are those without rounding if all row sums are clearly within or
clearly outside of the tolerance. -/
theorem C185_rows (hu : u ≤ 1 / 10 ^ 9) (hfl : ∀ z, |fl z - z| ≤ u * |z|) (hF : F.Sound u)
    (rows : List (List (Flt K))) (m n : ℕ) (hn : (n : K) * u ≤ 1 / 10 ^ 8)
    (hc : ∀ i, Clear (∑ j, toMat rows m n i j) 1) :
    checkStochasticF fl F rows m n = checkStochastic rows m n := by
  unfold checkStochasticF checkStochastic
  by_cases ha : rows.all (fun r => r.all Flt.inUnit) = true
  · rw [if_neg (not_not.2 ha), if_neg (not_not.2 ha)]
    obtain ⟨s1, s2⟩ := sums_margin (F := F) hu hfl hF hn (M := toMat rows m n) fun i j => (toMat_unit ha i j).1
    have ht : (0 : K) < tolerance 1 := by unfold tolerance; positivity
    have e : (∀ i, iscloseF fl (F.sum (List.ofFn fun j => toMat rows m n i j)) 1 = true) ↔
        allcloseVec (fun i => ∑ j, toMat rows m n i j) (fun _ => 1) = true := by
      simp only [allcloseVec, isclose, decide_eq_true_eq, abs_one]
      change _ ↔ ∀ i, |∑ j, toMat rows m n i j - 1| ≤ tolerance 1
      constructor
      · intro h i
        rcases hc i with h1 | h1
        · linarith
        · exact absurd (s2 h i) (not_le.2 h1)
      · intro h
        refine s1 fun i => ?_
        rcases hc i with h1 | h1
        · exact h1
        · exact absurd (h i) (by linarith)
    by_cases hr : ∀ i, iscloseF fl (F.sum (List.ofFn fun j => toMat rows m n i j)) 1 = true
    · rw [if_neg (not_not.2 hr), if_neg (not_not.2 (e.1 hr))]
    · rw [if_pos hr, if_pos fun h => hr (e.2 h)]
  · rw [if_pos ha, if_pos ha]

/-- C185, `validate_transition_matrix`. -/
theorem C185_transition_matrix (hu : u ≤ 1 / 10 ^ 9) (hfl : ∀ z, |fl z - z| ≤ u * |z|) (hF : F.Sound u)
    (v : PyVal K) (size : Option ℕ)
    (hc : ∀ rows, extractNumeric v = some (.mat rows) → (rows.length : K) * u ≤ 1 / 10 ^ 8 ∧
      ∀ i, Clear (∑ j, toMat rows rows.length rows.length i j) 1) :
    validateTransitionMatrixF fl F v size = validateTransitionMatrix v size := by
  unfold validateTransitionMatrixF validateTransitionMatrix
  rcases hv : extractNumeric v with _ | l | rows
  · rfl
  · rfl
  · obtain ⟨h1, h2⟩ := hc rows hv
    simp only [C185_rows hu hfl hF rows _ _ h1 h2]

/-- C185, `validate_emission_matrix`. -/
theorem C185_emission_matrix (hu : u ≤ 1 / 10 ^ 9) (hfl : ∀ z, |fl z - z| ≤ u * |z|) (hF : F.Sound u)
    (v : PyVal K) (size : ℕ)
    (hc : ∀ rows, extractNumeric v = some (.mat rows) → ((rows.headD []).length : K) * u ≤ 1 / 10 ^ 8 ∧
      ∀ i, Clear (∑ j, toMat rows size (rows.headD []).length i j) 1) :
    validateEmissionMatrixF fl F v size = validateEmissionMatrix v size := by
  unfold validateEmissionMatrixF validateEmissionMatrix
  rcases hv : extractNumeric v with _ | l | rows
  · rfl
  · rfl
  · obtain ⟨h1, h2⟩ := hc rows hv
    simp only [C185_rows hu hfl hF rows _ _ h1 h2]

/-- C185, the constructor called by a user. -/
theorem C185_constructor (hu : u ≤ 1 / 10 ^ 9) (hfl : ∀ z, |fl z - z| ≤ u * |z|) (hF : F.Sound u)
    (p states : PyVal K) {caller : String} (hcaller : caller ∉ mcGenerators)
    (hc : ∀ rows, extractNumeric p = some (.mat rows) → (rows.length : K) * u ≤ 1 / 10 ^ 8 ∧
      ∀ i, Clear (∑ j, toMat rows rows.length rows.length i j) 1) :
    mcInitF fl F p states = mcInit caller p states := by
  unfold mcInitF mcInit
  rw [if_pos hcaller, C185_transition_matrix hu hfl hF p none hc]

/-- C185: whatever the row sums are, an accepted matrix has entries between zero and one, and its row sums are off by at
most 101 percent of the tolerance. -/
theorem C185_accepted (hu : u ≤ 1 / 10 ^ 9) (hfl : ∀ z, |fl z - z| ≤ u * |z|) (hF : F.Sound u)
    {p states : PyVal K} {c : MC K} (h : mcInitF fl F p states = .ok c) (hn : (c.n : K) * u ≤ 1 / 10 ^ 8) :
    2 ≤ c.n ∧ (∀ i j, 0 ≤ c.p i j ∧ c.p i j ≤ 1) ∧ ∀ i, |∑ j, c.p i j - 1| ≤ 101 / 100 * tolerance 1 := by
  unfold mcInitF at h
  rw [R.bind_ok] at h
  obtain ⟨⟨n, M⟩, h1, h2⟩ := h
  rw [R.bind_ok] at h2
  obtain ⟨l, -, h2⟩ := h2
  rw [R.pure_ok] at h2
  subst h2
  unfold validateTransitionMatrixF at h1
  rcases hv : extractNumeric p with _ | l | rows
  · rw [hv] at h1; cases h1
  · rw [hv] at h1; cases h1
  rw [hv] at h1
  simp only at h1
  rw [R.ite_throw, R.ite_throw, R.bind_ok] at h1
  obtain ⟨hl, -, M', h3, h4⟩ := h1
  rw [R.pure_ok] at h4
  cases h4
  unfold checkStochasticF at h3
  rw [R.ite_throw, R.ite_throw, R.pure_ok, not_not, not_not] at h3
  obtain ⟨ha, hr, rfl⟩ := h3
  refine ⟨?_, toMat_unit ha, ?_⟩
  · by_contra hlt
    exact hl (Or.inl (not_le.1 hlt))
  · exact (sums_margin (F := F) hu hfl hF hn (M := toMat rows rows.length rows.length)
      fun i j => (toMat_unit ha i j).1).2 hr

/-- C185, `is_symmetric`. For matrices that are exactly symmetric nothing else is needed. -/
theorem C185_symmetric (hu : u ≤ 1 / 10 ^ 9) (hfl : ∀ z, |fl z - z| ≤ u * |z|) (c : MC K)
    (hp : ∀ i j, 0 ≤ c.p i j) :
    ((∀ i j, Clear (c.p i j) (c.p j i)) → isSymmetricF fl c = isSymmetric c) ∧
    ((∀ i j, c.p i j = c.p j i) → isSymmetricF fl c = true) ∧
    (isSymmetricF fl c = true → ∀ i j, |c.p i j - c.p j i| ≤ 101 / 100 * tolerance (c.p j i)) := by
  have key : ∀ i j, _ := fun i j => iscloseF_unit (a' := c.p i j) (a := c.p i j) hu hfl (hp j i)
    (by rw [sub_self, abs_zero]; exact mul_nonneg (by positivity) (hp i j))
  have ht : ∀ i j, 0 < tolerance (c.p i j) := fun i j => by
    unfold tolerance
    have := hp i j
    positivity
  unfold isSymmetricF isSymmetric
  refine ⟨fun h => ?_, fun h => ?_, fun h i j => ?_⟩
  · refine decide_eq_decide.2 (forall₂_congr fun i j => ?_)
    unfold isclose
    rw [decide_eq_true_eq, abs_of_nonneg (hp j i)]
    change _ ↔ |c.p i j - c.p j i| ≤ tolerance (c.p j i)
    have h1 := ht j i
    rcases h i j with h2 | h2
    · exact iff_of_true ((key i j).1 h2) (by linarith)
    · exact iff_of_false (fun h3 => absurd ((key i j).2 h3) (not_le.2 h2)) (by linarith)
  · refine decide_eq_true fun i j => (key i j).1 ?_
    rw [h i j, sub_self, abs_zero]
    have := ht j i
    positivity
  · exact (key i j).2 ((of_decide_eq_true h) i j)

/-- C185, `is_doubly_stochastic`. -/
theorem C185_doubly (hu : u ≤ 1 / 10 ^ 9) (hfl : ∀ z, |fl z - z| ≤ u * |z|) (hF : F.Sound u) (c : MC K)
    (hp : ∀ i j, 0 ≤ c.p i j) (hn : (c.n : K) * u ≤ 1 / 10 ^ 8) :
    ((∀ j, Clear (∑ i, c.p i j) 1) → isDoublyStochasticF fl F c = isDoublyStochastic c) ∧
    ((∀ j, ∑ i, c.p i j = 1) → isDoublyStochasticF fl F c = true) ∧
    (isDoublyStochasticF fl F c = true → ∀ j, |∑ i, c.p i j - 1| ≤ 101 / 100 * tolerance 1) := by
  have ht : (0 : K) < tolerance 1 := by unfold tolerance; positivity
  have key : ∀ j, _ := fun j => iscloseF_unit hu hfl zero_le_one
    (sum_digits hF hn (g := fun i => c.p i j) fun i => hp i j)
  unfold isDoublyStochasticF isDoublyStochastic
  refine ⟨fun h => ?_, fun h => ?_, fun h j => ?_⟩
  · refine decide_eq_decide.2 (forall_congr' fun j => ?_)
    unfold isclose
    rw [decide_eq_true_eq, abs_one]
    change _ ↔ |∑ i, c.p i j - 1| ≤ tolerance 1
    rcases h j with h2 | h2
    · exact iff_of_true ((key j).1 h2) (by linarith)
    · exact iff_of_false (fun h3 => absurd ((key j).2 h3) (not_le.2 h2)) (by linarith)
  · refine decide_eq_true fun j => (key j).1 ?_
    rw [h j, sub_self, abs_zero]
    positivity
  · exact (key j).2 ((of_decide_eq_true h) j)

/-! ## Doubles -/

/-- C185 for doubles: matrices with up to ninety million states. -/
theorem C185_double (p states : PyVal ℚ) {caller : String} (hcaller : caller ∉ mcGenerators)
    (hc : ∀ rows, extractNumeric p = some (.mat rows) → rows.length ≤ 90000000 ∧
      ∀ i, Clear (∑ j, toMat rows rows.length rows.length i j) 1) :
    mcInitF binary64 (Arith.rounded binary64) p states = mcInit caller p states := by
  refine C185_constructor (u := 1 / 2 ^ 53) (by norm_num) binary64_near binary64_rounding.sound p states
    hcaller fun rows h => ⟨?_, (hc rows h).2⟩
  have h1 : (rows.length : ℚ) ≤ 90000000 := by exact_mod_cast (hc rows h).1
  norm_num
  linarith

/-- C185 for doubles, for a matrix given as a list of lists. -/
theorem C185_double_list {n : ℕ} (hn : n ≤ 90000000) (M : Matrix (Fin n) (Fin n) ℚ) (states : PyVal ℚ)
    {caller : String} (hcaller : caller ∉ mcGenerators) (hc : ∀ i, Clear (∑ j, M i j) 1) :
    mcInitF binary64 (Arith.rounded binary64) (pyMatrix M) states = mcInit caller (pyMatrix M) states := by
  refine C185_double _ states hcaller fun rows h => ?_
  rcases n with _ | n
  · cases h
  rw [extractNumeric_pyMatrix] at h
  cases h
  have hl : (List.ofFn fun i => List.ofFn fun j => Flt.fin (M i j)).length = n + 1 := List.length_ofFn
  refine ⟨by rw [hl]; exact hn, ?_⟩
  rw [hl, toMat_ofFn]
  exact hc

example : mcInitF binary64 (Arith.rounded binary64)
    (pyMatrix (!![1 / 2, 1 / 2; 1 / 4, 3 / 4] : Matrix (Fin 2) (Fin 2) ℚ)) .none =
    mcInit "main" (pyMatrix (!![1 / 2, 1 / 2; 1 / 4, 3 / 4] : Matrix (Fin 2) (Fin 2) ℚ)) .none := by
  refine C185_double_list (by norm_num) _ _ (by decide) fun i => Or.inl ?_
  fin_cases i <;> decide +kernel

example : Clear (9 / 10 : ℚ) 1 ∧ ¬ Clear (1 + 1001 / 10 ^ 8 : ℚ) 1 := by
  constructor
  · right
    decide +kernel
  · rintro (h | h)
    · exact absurd h (by decide +kernel)
    · exact absurd h (by decide +kernel)

/-- A row whose sum exceeds one by almost the tolerance. -/
def exEdge : Matrix (Fin 2) (Fin 2) ℚ := !![1, 5908861061690643 / 2 ^ 69; 1 / 2, 1 / 2]

/-- C185: within one percent of the tolerance the answers can differ. The matrix consists of doubles and is accepted
in exact arithmetic, but rejected in double arithmetic. -/
theorem C185_edge : (∀ i j, binary64 (exEdge i j) = exEdge i j) ∧
    mcInit "main" (pyMatrix exEdge) .none = .ok ⟨2, exEdge, ["1", "2"]⟩ ∧
    mcInitF binary64 (Arith.rounded binary64) (pyMatrix exEdge) .none = .error .valueError := by
  refine ⟨fun i j => ?_, ?_, ?_⟩
  · fin_cases i <;> fin_cases j <;> decide +kernel
  · refine (C01_constructor_default_labels (by decide) exEdge _ (Or.inl rfl) _).2 ⟨⟨by decide, ?_, ?_⟩, by
      rw [show createLabels 2 "" = ["1", "2"] by decide +kernel]⟩
    · intro i j
      fin_cases i <;> fin_cases j <;> decide +kernel
    · intro i
      fin_cases i <;> decide +kernel
  · have h : (match mcInitF binary64 (Arith.rounded binary64) (pyMatrix exEdge) .none with
        | .error .valueError => true
        | _ => false) = true := by decide +kernel
    split at h
    · assumption
    · cases h

/-- C185: without rounding the tests are the exact ones. -/
theorem C185_exact (p states : PyVal K) {caller : String} (hcaller : caller ∉ mcGenerators) :
    mcInitF id Arith.exact p states = mcInit caller p states := by
  have e : ∀ (rows : List (List (Flt K))) (m n : ℕ), checkStochasticF id Arith.exact rows m n =
      checkStochastic rows m n := by
    intro rows m n
    unfold checkStochasticF checkStochastic
    have : (∀ i, iscloseF id ((Arith.exact : Arith K).sum (List.ofFn fun j => toMat rows m n i j)) 1 = true) ↔
        allcloseVec (fun i => ∑ j, toMat rows m n i j) (fun _ => 1) = true := by
      simp [allcloseVec, isclose, iscloseF, Arith.exact, List.sum_ofFn]
    simp only [this]
  have ev : validateTransitionMatrixF id Arith.exact p none = validateTransitionMatrix p none := by
    unfold validateTransitionMatrixF validateTransitionMatrix
    rcases extractNumeric p with _ | l | rows
    · rfl
    · rfl
    · simp only [e]
  unfold mcInitF mcInit
  rw [if_pos hcaller, ev]

end Verif
