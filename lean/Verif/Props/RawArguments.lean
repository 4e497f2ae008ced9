import Verif.Props.Transform
import Verif.Props.HiddenGen
import Verif.Props.HiddenModel
import Verif.Props.Fitting

/-!
# Raw matrix and vector arguments (C121)
-/

set_option linter.unusedSectionVars false

namespace Verif

variable {K : Type} [Field K] [LinearOrder K] [IsStrictOrderedRing K]

/-! ## Entries -/

theorem numEntry_iff {v : PyVal K} {x : K} : v.numEntry = some (.fin x) ↔ Gives v x := by
  unfold Gives
  cases v with
  | int z => simp [PyVal.numEntry, eq_comm]
  | float y => simp [PyVal.numEntry]
  | bool b => simp [PyVal.numEntry, eq_comm]
  | _ => simp [PyVal.numEntry]

theorem isBool_iff {v : PyVal K} : v.isBool = true ↔ IsBoolean v := by
  cases v <;> simp [PyVal.isBool, IsBoolean]

/-- The rows of a matrix as floats. -/
def floatRows {m n : ℕ} (M : Matrix (Fin m) (Fin n) K) : List (List (Flt K)) :=
  List.ofFn fun i => List.ofFn fun j => .fin (M i j)

theorem mapM_ofFn_iff {α β : Type} {n : ℕ} {f : α → Option β} {l : List α} {h : Fin n → β} :
    l.mapM f = some (List.ofFn h) ↔ ∃ g : Fin n → α, l = List.ofFn g ∧ ∀ i, f (g i) = some (h i) := by
  constructor
  · intro hm
    rw [mapM_option_eq_some, List.forall₂_iff_get] at hm
    obtain ⟨h1, h2⟩ := hm
    rw [List.length_ofFn] at h1
    subst h1
    refine ⟨fun i => l.get i, by simp, fun i => ?_⟩
    have := h2 i.val i.2 (by simp)
    simpa using this
  · rintro ⟨g, rfl, hg⟩
    exact mapM_ofFn_some f g h hg

theorem numRow_floats {n : ℕ} {v : PyVal K} {x : Fin n → Flt K} :
    v.numRow = some (List.ofFn x) ↔
      ∃ s : Fin n → PyVal K, v = .list (List.ofFn s) ∧ ∀ j, (s j).numEntry = some (x j) := by
  cases v with
  | list l =>
    simp only [PyVal.numRow, mapM_ofFn_iff, PyVal.list.injEq]
  | _ => simp [PyVal.numRow]

theorem numRow_iff {n : ℕ} {v : PyVal K} {x : Fin n → K} :
    v.numRow = some (List.ofFn fun j => Flt.fin (x j)) ↔
      ∃ s : Fin n → PyVal K, v = .list (List.ofFn s) ∧ ∀ j, Gives (s j) (x j) := by
  rw [numRow_floats]
  simp only [numEntry_iff]

/-! ## Matrices -/

theorem scalars_all_bool {m n : ℕ} (s : Fin m → Fin n → PyVal K) :
    ((List.ofFn fun i => PyVal.list (List.ofFn (s i))).flatMap PyVal.scalars).all PyVal.isBool = true ↔
      ∀ i j, IsBoolean (s i j) := by
  simp only [List.all_eq_true, List.mem_flatMap, List.mem_ofFn, isBool_iff]
  constructor
  · intro h i j
    exact h _ ⟨_, ⟨i, rfl⟩, List.mem_ofFn.2 ⟨j, rfl⟩⟩
  · rintro h v ⟨_, ⟨i, rfl⟩, hv⟩
    obtain ⟨j, rfl⟩ := List.mem_ofFn.1 hv
    exact h i j

/-- `extract_numeric` gives an array of floats exactly for this array and for the lists of lists of numbers
with these values that are not all booleans. -/
theorem extractNumeric_floats {m n : ℕ} (hm : 0 < m) (hn : 0 < n) (v : PyVal K)
    (F : Fin m → Fin n → Flt K) :
    extractNumeric v = some (.mat (List.ofFn fun i => List.ofFn (F i))) ↔
      v = .array (.mat (List.ofFn fun i => List.ofFn (F i))) ∨ ∃ s : Fin m → Fin n → PyVal K,
        v = .list (List.ofFn fun i => .list (List.ofFn (s i))) ∧
        (∀ i j, (s i j).numEntry = some (F i j)) ∧ ∃ i j, ¬ IsBoolean (s i j) := by
  obtain ⟨m, rfl⟩ : ∃ k, m = k + 1 := ⟨m - 1, by omega⟩
  have hsucc : (List.ofFn fun i => List.ofFn (F i)) = List.ofFn (F 0) ::
      List.ofFn fun i : Fin m => List.ofFn (F i.succ) := by
    rw [List.ofFn_succ]
  cases v with
  | array a =>
    simp [extractNumeric]
  | list l =>
    simp only [reduceCtorEq, false_or, PyVal.list.injEq]
    cases l with
    | nil =>
      simp only [extractNumeric]
      constructor
      · intro h
        simp at h
      · rintro ⟨s, h, -⟩
        rw [List.ofFn_succ] at h
        cases h
    | cons a l =>
      obtain ⟨L, hL⟩ : ∃ L, L = a :: l := ⟨_, rfl⟩
      have hx : extractNumeric (.list (a :: l) : PyVal K) = if L.all PyVal.isList then
          match L.mapM PyVal.numRow with
          | some (r :: rows) =>
            if rows.all (fun r' => r'.length == r.length) then
              if (L.flatMap PyVal.scalars).all PyVal.isBool && !(L.flatMap PyVal.scalars).isEmpty then
                Option.none
              else some (.mat (r :: rows))
            else Option.none
          | _ => Option.none
        else if L.all PyVal.isBool then Option.none
        else (L.mapM PyVal.numEntry).map NumArr.vec := by
        rw [hL]
        rfl
      rw [hx, ← hL]
      constructor
      · intro h
        split at h
        · split at h
          · next r rows hr =>
            split at h
            · split at h
              · cases h
              · next hb =>
                simp only [Option.some.injEq, NumArr.mat.injEq] at h
                rw [h] at hr
                rw [mapM_ofFn_iff] at hr
                obtain ⟨g, hg, hr⟩ := hr
                choose s hs1 hs2 using fun i => numRow_floats.1 (hr i)
                have hLs : L = List.ofFn fun i => .list (List.ofFn (s i)) := by
                  rw [hg]
                  congr 1
                  funext i
                  exact hs1 i
                refine ⟨s, hLs, hs2, ?_⟩
                by_contra hall
                push Not at hall
                refine hb ?_
                rw [hLs, Bool.and_eq_true]
                refine ⟨(scalars_all_bool s).2 hall, ?_⟩
                obtain ⟨n, rfl⟩ : ∃ k, n = k + 1 := ⟨n - 1, by omega⟩
                simp [List.ofFn_succ, PyVal.scalars]
            · cases h
          · cases h
        · split at h
          · cases h
          · simp at h
      · rintro ⟨s, hs, hg, i0, j0, hb⟩
        rw [hs]
        have h1 : (List.ofFn fun i => (PyVal.list (List.ofFn (s i)) : PyVal K)).mapM PyVal.numRow =
            some (List.ofFn fun i => List.ofFn (F i)) :=
          mapM_ofFn_some _ _ _ fun i => numRow_floats.2 ⟨s i, rfl, hg i⟩
        rw [if_pos (by simp [PyVal.isList]), h1, hsucc]
        simp only
        rw [if_pos (by simp), if_neg]
        rw [Bool.and_eq_true, scalars_all_bool]
        exact fun h => hb (h.1 i0 j0)
  | _ => simp [extractNumeric]

/-- `extract_numeric` gives the matrix `M` exactly for the arguments that are the matrix `M`. -/
theorem extractNumeric_iff {m n : ℕ} (hm : 0 < m) (hn : 0 < n) (v : PyVal K)
    (M : Matrix (Fin m) (Fin n) K) :
    extractNumeric v = some (.mat (floatRows M)) ↔ GivesMatrix v M := by
  refine (extractNumeric_floats hm hn v fun i j => .fin (M i j)).trans ?_
  simp only [numEntry_iff]
  rfl

/-- A rectangular array of finite floats is the array of a matrix. -/
theorem rows_eq_floatRows {rows : List (List (Flt K))} {m n : ℕ} (hm : rows.length = m)
    (hw : hasWidth rows n = true) (hf : ∀ r ∈ rows, ∀ x ∈ r, ∃ y, x = Flt.fin y) :
    rows = floatRows (toMat rows m n) := by
  subst hm
  unfold hasWidth at hw
  rw [List.all_eq_true] at hw
  unfold floatRows
  refine List.ext_getElem (by simp) fun i h1 h2 => ?_
  have hlen : rows[i].length = n := by simpa using hw _ (List.getElem_mem h1)
  refine List.ext_getElem (by simp [hlen]) fun j h3 h4 => ?_
  obtain ⟨y, hy⟩ := hf _ (List.getElem_mem h1) _ (List.getElem_mem h3)
  simp only [List.getElem_ofFn, toMat, List.getD_eq_getElem?_getD, List.getElem?_eq_getElem h1,
    Option.getD_some, List.getElem?_eq_getElem h3, hy, Flt.val]

theorem isFiniteNonneg_fin {x : Flt K} (h : x.isFiniteNonneg = true) : ∃ y, x = .fin y := by
  cases x <;> simp [Flt.isFiniteNonneg] at h ⊢

theorem inUnit_fin {x : Flt K} (h : x.inUnit = true) : ∃ y, x = .fin y := by
  cases x <;> simp [Flt.inUnit] at h ⊢

/-- C121, transition matrices. The argument of `validate_transition_matrix` is accepted exactly if it is a
matrix that meets the documented requirements, and the result is this matrix. -/
theorem C121_transition_matrix (v : PyVal K) (r : (n : ℕ) × Matrix (Fin n) (Fin n) K) :
    validateTransitionMatrix v none = .ok r ↔ GivesMatrix v r.2 ∧ AcceptedMatrix r.2 := by
  constructor
  · intro h
    have hacc := (validateTransitionMatrix_sound h).1
    refine ⟨?_, hacc⟩
    unfold validateTransitionMatrix at h
    split at h
    · next rows hrows =>
      rw [R.ite_throw, R.ite_throw, R.bind_ok] at h
      obtain ⟨h1, -, p, h3, h4⟩ := h
      rw [R.pure_ok] at h4
      subst h4
      push Not at h1
      rw [checkStochastic_ok] at h3
      obtain ⟨h7, -, rfl⟩ := h3
      have hpos : 0 < rows.length := by omega
      rw [← extractNumeric_iff hpos hpos, hrows]
      exact congrArg _ (congrArg _ (rows_eq_floatRows rfl h1.2 fun r hr x hx => inUnit_fin (h7 r hr x hx)))
    · simp at h
    · simp at h
  · rintro ⟨h1, h2⟩
    have hpos : 0 < r.1 := by have := h2.1; omega
    have h3 := (extractNumeric_iff hpos hpos v r.2).2 h1
    have h4 : validateTransitionMatrix v none = validateTransitionMatrix (pyArray r.2) none := by
      unfold validateTransitionMatrix
      rw [h3]
      rfl
    rw [h4]
    exact (validateTransitionMatrix_iff r.2 _ (Or.inr rfl) r).2 ⟨h2, rfl⟩

/-- C121, emission matrices. -/
theorem C121_emission_matrix {n : ℕ} (hn : 0 < n) (v : PyVal K) (r : (k : ℕ) × Matrix (Fin n) (Fin k) K) :
    validateEmissionMatrix v n = .ok r ↔ GivesMatrix v r.2 ∧ AcceptedEmission r.2 := by
  constructor
  · intro h
    have hacc := validateEmissionMatrix_sound h
    refine ⟨?_, hacc⟩
    unfold validateEmissionMatrix at h
    split at h
    · next rows hrows =>
      simp only at h
      rw [R.ite_throw, R.bind_ok] at h
      obtain ⟨h1, p, h3, h4⟩ := h
      rw [R.pure_ok] at h4
      subst h4
      push Not at h1
      rw [checkStochastic_ok] at h3
      obtain ⟨h7, -, rfl⟩ := h3
      have hpos : 0 < (rows.headD []).length := by omega
      rw [← extractNumeric_iff hn hpos, hrows]
      exact congrArg _ (congrArg _ (rows_eq_floatRows h1.1 h1.2.2 fun r hr x hx => inUnit_fin (h7 r hr x hx)))
    · simp at h
    · simp at h
  · rintro ⟨h1, h2⟩
    have hpos : 0 < r.1 := by have := h2.1; omega
    have h3 := (extractNumeric_iff hn hpos v r.2).2 h1
    have h4 : validateEmissionMatrix v n = validateEmissionMatrix (pyArray r.2) n := by
      unfold validateEmissionMatrix
      rw [h3]
      rfl
    rw [h4]
    exact (validateEmissionMatrix_iff hn r.2 _ (Or.inr rfl) r).2 ⟨h2, rfl⟩

/-- C121, matrices of `from_matrix`: square with at least two rows, with finite and nonnegative entries. -/
theorem C121_matrix (v : PyVal K) (r : (n : ℕ) × Matrix (Fin n) (Fin n) K) :
    validateMatrix v = .ok r ↔ GivesMatrix v r.2 ∧ 2 ≤ r.1 ∧ ∀ i j, 0 ≤ r.2 i j := by
  constructor
  · intro h
    refine ⟨?_, validateMatrix_sound h⟩
    unfold validateMatrix at h
    split at h
    · next rows hrows =>
      rw [R.ite_throw, R.ite_throw, R.pure_ok] at h
      obtain ⟨h1, h2, rfl⟩ := h
      push Not at h1
      simp only [not_not, List.all_eq_true] at h2
      have hpos : 0 < rows.length := by omega
      rw [← extractNumeric_iff hpos hpos, hrows]
      exact congrArg _ (congrArg _ (rows_eq_floatRows rfl h1.2 fun r hr x hx => isFiniteNonneg_fin (h2 r hr x hx)))
    · simp at h
    · simp at h
  · rintro ⟨h1, h2, h3⟩
    have hpos : 0 < r.1 := by omega
    have h4 : validateMatrix v = validateMatrix (pyArray r.2) := by
      unfold validateMatrix
      rw [(extractNumeric_iff hpos hpos v r.2).2 h1]
      rfl
    rw [h4]
    exact validateMatrix_pyArray h2 r.2 h3

/-- C121, emission matrices of `from_matrices`. -/
theorem C121_matrix_rows {n : ℕ} (hn : 0 < n) (v : PyVal K) (r : (k : ℕ) × Matrix (Fin n) (Fin k) K) :
    validateMatrixRows v n = .ok r ↔ GivesMatrix v r.2 ∧ 2 ≤ r.1 ∧ ∀ i j, 0 ≤ r.2 i j := by
  constructor
  · intro h
    refine ⟨?_, (validateMatrixRows_sound h).1, (validateMatrixRows_sound h).2.1⟩
    unfold validateMatrixRows at h
    split at h
    · next rows hrows =>
      rw [R.ite_throw, R.ite_throw, R.pure_ok] at h
      obtain ⟨h1, h2, rfl⟩ := h
      push Not at h1
      simp only [not_not, List.all_eq_true] at h2
      have hpos : 0 < (rows.headD []).length := by omega
      rw [← extractNumeric_iff hn hpos, hrows]
      exact congrArg _ (congrArg _ (rows_eq_floatRows h1.1 h1.2.2
        fun r hr x hx => isFiniteNonneg_fin (h2 r hr x hx)))
    · simp at h
    · simp at h
  · rintro ⟨h1, h2, h3⟩
    have hpos : 0 < r.1 := by omega
    have h4 : validateMatrixRows v n = validateMatrixRows (pyArray r.2) n := by
      unfold validateMatrixRows
      rw [(extractNumeric_iff hn hpos v r.2).2 h1]
      rfl
    rw [h4]
    exact validateMatrixRows_pyArray hn h2 r.2 h3

/-- C121, hyper-parameters: one row and one column per state, with positive integers. -/
theorem C121_hyperparameter [FloorRing K] {n : ℕ} (hn : 0 < n) (v : PyVal K) (M : Matrix (Fin n) (Fin n) K) :
    validateHyper v n = .ok M ↔ GivesMatrix v M ∧ ∀ i j, ∃ z : ℕ, 1 ≤ z ∧ M i j = z := by
  have hh : ∀ x : Flt K, x.isHyper = true ↔ ∃ z : ℕ, 1 ≤ z ∧ x = .fin z := by
    intro x
    cases x with
    | fin y =>
      simp only [Flt.isHyper, Bool.and_eq_true, decide_eq_true_eq, Flt.fin.injEq]
      constructor
      · rintro ⟨h1, h2⟩
        rw [sub_eq_zero] at h1
        have h3 : (1 : ℤ) ≤ ⌊y⌋ := by
          rw [Int.le_floor]
          simpa using h2
        obtain ⟨z, hz⟩ := Int.eq_ofNat_of_zero_le (show 0 ≤ ⌊y⌋ by omega)
        rw [hz] at h1 h3
        exact ⟨z, by omega, by simpa using h1⟩
      · rintro ⟨z, h1, rfl⟩
        exact ⟨by simp, by exact_mod_cast h1⟩
    | _ => simp [Flt.isHyper]
  constructor
  · intro h
    unfold validateHyper at h
    split at h
    · next rows hrows =>
      rw [R.ite_throw, R.ite_throw, R.pure_ok] at h
      obtain ⟨h1, h2, rfl⟩ := h
      push Not at h1
      simp only [not_not, List.all_eq_true, hh] at h2
      have hr := rows_eq_floatRows h1.1 h1.2 fun r hr x hx => by
        obtain ⟨z, -, h⟩ := h2 r hr x hx
        exact ⟨_, h⟩
      refine ⟨(extractNumeric_iff hn hn v _).1 (hrows.trans (congrArg _ (congrArg _ hr))), fun i j => ?_⟩
      rw [hr] at h2
      obtain ⟨z, hz, h3⟩ := h2 _ (List.mem_ofFn.2 ⟨i, rfl⟩) _ (List.mem_ofFn.2 ⟨j, rfl⟩)
      exact ⟨z, hz, Flt.fin.inj h3⟩
    · simp at h
    · simp at h
  · rintro ⟨h1, h2⟩
    unfold validateHyper
    rw [(extractNumeric_iff hn hn v M).2 h1]
    simp only
    rw [R.ite_throw, R.ite_throw, R.pure_ok]
    refine ⟨?_, ?_, toMat_ofFn M⟩
    · simp [floatRows, hasWidth]
    · simp only [not_not, List.all_eq_true, hh]
      intro r hr x hx
      obtain ⟨i, rfl⟩ := List.mem_ofFn.1 hr
      obtain ⟨j, rfl⟩ := List.mem_ofFn.1 hx
      obtain ⟨z, hz, h⟩ := h2 i j
      exact ⟨z, hz, by rw [h]⟩

/-! ## Masks -/

theorem numEntry_mask {v : PyVal K} {o : Option K} : v.numEntry = some (maskFloat o) ↔
    (match o with
      | some x => Gives v x
      | none => v = .float .nan) := by
  cases o with
  | some x => exact numEntry_iff
  | none => cases v <;> simp [PyVal.numEntry, maskFloat]

theorem extractNumeric_mask {m n : ℕ} (hm : 0 < m) (hn : 0 < n) (v : PyVal K)
    (mask : Fin m → Fin n → Option K) :
    extractNumeric v = some (.mat (List.ofFn fun i => List.ofFn fun j => maskFloat (mask i j))) ↔
      GivesMask v mask := by
  refine (extractNumeric_floats hm hn v fun i j => maskFloat (mask i j)).trans ?_
  simp only [numEntry_mask]
  rfl

theorem isMaskEntry_iff {x : Flt K} : x.isMaskEntry = true ↔
    x = maskFloat x.entry ∧ ∀ y, x.entry = some y → 0 ≤ y ∧ y ≤ 1 := by
  cases x <;> simp [Flt.isMaskEntry, Flt.inUnit, Flt.entry, maskFloat]

theorem toMask_ofFn {m n : ℕ} (mask : Fin m → Fin n → Option K) :
    toMask (List.ofFn fun i => List.ofFn fun j => maskFloat (mask i j)) m n = mask := by
  funext i j
  have : ∀ o : Option K, (maskFloat o).entry = o := fun o => by cases o <;> rfl
  simp [toMask, List.getD_eq_getElem?_getD, this]

/-- C121, masks. The argument of `validate_mask` is accepted exactly if it is a mask of the given shape whose
defined entries are between zero and one and whose row sums do not exceed one. -/
theorem C121_mask {m n : ℕ} (hm : 0 < m) (hn : 0 < n) (v : PyVal K) (mask : GridMask K m n) :
    validateMask v m n = .ok mask ↔ GivesMask v mask ∧
      (∀ i j x, mask i j = some x → 0 ≤ x ∧ x ≤ 1) ∧ ∀ i, ∑ j, (mask i j).getD 0 ≤ 1 := by
  unfold validateMask
  constructor
  · intro h
    split at h
    · next rows hrows =>
      rw [R.ite_throw, R.ite_throw, R.ite_throw, R.pure_ok] at h
      obtain ⟨h1, h2, h3, rfl⟩ := h
      push Not at h1 h3
      obtain ⟨h1, hw⟩ := h1
      simp only [not_not, List.all_eq_true, isMaskEntry_iff] at h2
      subst h1
      unfold hasWidth at hw
      rw [List.all_eq_true] at hw
      have hget : ∀ (i : Fin rows.length) (j : Fin n), ∃ (h3 : j.val < rows[i.val].length),
          toMask rows rows.length n i j = (rows[i.val][j.val]).entry := by
        intro i j
        have hlen : rows[i.val].length = n := by simpa using hw _ (List.getElem_mem i.2)
        have hj : j.val < rows[i.val].length := by rw [hlen]; exact j.2
        refine ⟨hj, ?_⟩
        simp only [toMask, List.getD_eq_getElem?_getD, List.getElem?_eq_getElem i.2, Option.getD_some,
          List.getElem?_eq_getElem hj]
      refine ⟨?_, fun i j x hx => ?_, h3⟩
      · rw [← extractNumeric_mask hm hn, hrows]
        refine congrArg _ (congrArg _ ?_)
        refine List.ext_getElem (by simp) fun i h4 h5 => ?_
        have hlen : rows[i].length = n := by simpa using hw _ (List.getElem_mem h4)
        refine List.ext_getElem (by simp [hlen]) fun j h6 h7 => ?_
        obtain ⟨hj, he⟩ := hget ⟨i, h4⟩ ⟨j, by omega⟩
        simp only [List.getElem_ofFn]
        rw [he]
        exact (h2 _ (List.getElem_mem h4) _ (List.getElem_mem h6)).1
      · obtain ⟨hj, he⟩ := hget i j
        exact (h2 _ (List.getElem_mem i.2) _ (List.getElem_mem hj)).2 x (he ▸ hx)
    · simp at h
    · simp at h
  · rintro ⟨h1, h2, h3⟩
    rw [(extractNumeric_mask hm hn v mask).2 h1]
    simp only
    rw [R.ite_throw, R.ite_throw, R.ite_throw, R.pure_ok, toMask_ofFn]
    refine ⟨by simp [hasWidth], ?_, ?_, rfl⟩
    · simp only [not_not, List.all_eq_true, isMaskEntry_iff]
      intro r hr x hx
      obtain ⟨i, rfl⟩ := List.mem_ofFn.1 hr
      obtain ⟨j, rfl⟩ := List.mem_ofFn.1 hx
      have he : ∀ o : Option K, (maskFloat o).entry = o := fun o => by cases o <;> rfl
      rw [he]
      exact ⟨rfl, h2 i j⟩
    · push Not
      exact h3

/-- The argument gives the mask: omitted, then nothing is defined, or an accepted mask. -/
def GivesMaskArg {m n : ℕ} (v : PyVal K) (mask : GridMask K m n) : Prop :=
  (v = .none ∧ mask = fun _ _ => none) ∨ GivesMask v mask

theorem maskOrEmpty_iff {m n : ℕ} (hm : 0 < m) (hn : 0 < n) (v : PyVal K) (mask : GridMask K m n) :
    maskOrEmpty v m n = .ok mask ↔ GivesMaskArg v mask ∧ gridValid mask := by
  unfold GivesMaskArg
  by_cases hv : v = .none
  · subst hv
    simp only [maskOrEmpty, true_and]
    rw [R.pure_ok]
    constructor
    · rintro rfl
      refine ⟨Or.inl rfl, ?_, fun i => by simp [gridSum]⟩
      intro i j x hx
      cases hx
    · rintro ⟨h | h, -⟩
      · exact h.symm
      · rcases h with h | ⟨s, h, -⟩ <;> cases h
  · have : maskOrEmpty v m n = validateMask v m n := by
      cases v <;> first | rfl | exact absurd rfl hv
    rw [this, C121_mask hm hn]
    simp only [hv, false_and, false_or]
    rfl

/-- C121, random chains. With raw arguments, `random` is the generator of C17 for the size, which is an
integer of at least two, and the mask that the arguments give. -/
theorem C121_random (dr : (n : ℕ) → Draws K n) (size states zeros mask : PyVal K) (c : MC K) :
    randomFull dr size states zeros mask = .ok c ↔ ∃ (n : ℕ) (M : GridMask K n n),
      size = .int n ∧ 2 ≤ n ∧ GivesMaskArg mask M ∧ validMask M ∧
      randomChain M (dr n) states zeros = .ok c := by
  unfold randomFull randomChain
  constructor
  · intro h
    rw [R.bind_ok] at h
    obtain ⟨n, h1, h⟩ := h
    obtain ⟨rfl, hn1⟩ := validateInteger_ge h1
    obtain ⟨n, rfl⟩ := Int.eq_ofNat_of_zero_le (show 0 ≤ n by omega)
    simp only [Int.toNat_natCast] at h
    rw [R.bind_ok] at h
    obtain ⟨labels, h2, h⟩ := h
    rw [R.bind_ok] at h
    obtain ⟨z, h3, h⟩ := h
    rw [R.bind_ok] at h
    obtain ⟨M, h4, h⟩ := h
    have hn : 2 ≤ n := by exact_mod_cast hn1
    obtain ⟨h5, h6⟩ := (maskOrEmpty_iff (by omega) (by omega) mask M).1 h4
    refine ⟨n, M, rfl, hn, h5, h6, ?_⟩
    rw [R.bind_ok]
    refine ⟨n, validateInteger_of_ge (by exact_mod_cast hn), ?_⟩
    rw [h2, R.ok_bind, h3, R.ok_bind]
    exact h
  · rintro ⟨n, M, rfl, hn, h5, h6, h⟩
    rw [R.bind_ok] at h
    obtain ⟨n', h1, h⟩ := h
    rw [R.bind_ok] at h
    obtain ⟨labels, h2, h⟩ := h
    rw [R.bind_ok] at h
    obtain ⟨z, h3, h⟩ := h
    rw [validateInteger_of_ge (by exact_mod_cast hn), R.ok_bind]
    simp only [Int.toNat_natCast]
    rw [h2, R.ok_bind, h3, R.ok_bind, (maskOrEmpty_iff (by omega) (by omega) mask M).2 ⟨h5, h6⟩, R.ok_bind]
    exact h

/-- C121, random hidden models: likewise for C103. -/
theorem C121_hidden_random (pd ed : (n k : ℕ) → GridDraws K n k)
    (n k states pZeros pMask symbols eZeros eMask : PyVal K) (m : HMM K) :
    hmmRandomFull pd ed n k states pZeros pMask symbols eZeros eMask = .ok m ↔
      ∃ (a b : ℕ) (P : GridMask K a a) (E : GridMask K a b), n = .int a ∧ k = .int b ∧ 2 ≤ a ∧ 2 ≤ b ∧
        GivesMaskArg pMask P ∧ gridValid P ∧ GivesMaskArg eMask E ∧ gridValid E ∧
        hmmRandomApi P E (pd a a) (ed a b) states pZeros symbols eZeros = .ok m := by
  unfold hmmRandomFull hmmRandomApi
  constructor
  · intro h
    rw [R.bind_ok] at h
    obtain ⟨a, h1, h⟩ := h
    obtain ⟨rfl, hn1⟩ := validateInteger_ge h1
    obtain ⟨a, rfl⟩ := Int.eq_ofNat_of_zero_le (show 0 ≤ a by omega)
    rw [R.bind_ok] at h
    obtain ⟨b, h2, h⟩ := h
    obtain ⟨rfl, hn2⟩ := validateInteger_ge h2
    obtain ⟨b, rfl⟩ := Int.eq_ofNat_of_zero_le (show 0 ≤ b by omega)
    simp only [Int.toNat_natCast] at h
    rw [R.bind_ok] at h
    obtain ⟨ls, h3, h⟩ := h
    rw [R.bind_ok] at h
    obtain ⟨zp, h4, h⟩ := h
    rw [R.bind_ok] at h
    obtain ⟨P, h5, h⟩ := h
    rw [R.bind_ok] at h
    obtain ⟨lsy, h6, h⟩ := h
    rw [R.bind_ok] at h
    obtain ⟨ze, h7, h⟩ := h
    rw [R.bind_ok] at h
    obtain ⟨E, h8, h⟩ := h
    have ha : 2 ≤ a := by exact_mod_cast hn1
    have hb : 2 ≤ b := by exact_mod_cast hn2
    obtain ⟨p1, p2⟩ := (maskOrEmpty_iff (by omega) (by omega) pMask P).1 h5
    obtain ⟨e1, e2⟩ := (maskOrEmpty_iff (by omega) (by omega) eMask E).1 h8
    refine ⟨a, b, P, E, rfl, rfl, ha, hb, p1, p2, e1, e2, ?_⟩
    rw [validateInteger_of_ge (by exact_mod_cast ha), R.ok_bind,
      validateInteger_of_ge (by exact_mod_cast hb), R.ok_bind, h3, R.ok_bind, h4, R.ok_bind, h6, R.ok_bind,
      h7, R.ok_bind]
    exact h
  · rintro ⟨a, b, P, E, rfl, rfl, ha, hb, p1, p2, e1, e2, h⟩
    rw [R.bind_ok] at h
    obtain ⟨_, -, h⟩ := h
    rw [R.bind_ok] at h
    obtain ⟨_, -, h⟩ := h
    rw [R.bind_ok] at h
    obtain ⟨ls, h3, h⟩ := h
    rw [R.bind_ok] at h
    obtain ⟨zp, h4, h⟩ := h
    rw [R.bind_ok] at h
    obtain ⟨lsy, h6, h⟩ := h
    rw [R.bind_ok] at h
    obtain ⟨ze, h7, h⟩ := h
    rw [validateInteger_of_ge (by exact_mod_cast ha), R.ok_bind,
      validateInteger_of_ge (by exact_mod_cast hb), R.ok_bind]
    simp only [Int.toNat_natCast]
    rw [h3, R.ok_bind, h4, R.ok_bind, (maskOrEmpty_iff (by omega) (by omega) pMask P).2 ⟨p1, p2⟩, R.ok_bind,
      h6, R.ok_bind, h7, R.ok_bind, (maskOrEmpty_iff (by omega) (by omega) eMask E).2 ⟨e1, e2⟩, R.ok_bind]
    exact h

/-! ## Labels -/

/-- The argument gives the labels `l` of `n` items: omitted, then they are the prefix and the numbers from
one, or a list of `n` distinct non-blank strings. -/
def GivesLabels (v : PyVal K) (n : ℕ) (pre : String) (l : List String) : Prop :=
  (v = .none ∧ l = createLabels n pre) ∨ (v = pyStrings l ∧ ValidLabels n l)

theorem C121_labels {n : ℕ} (hn : 2 ≤ n) (v : PyVal K) (pre : String) (l : List String) :
    labelsOrDefault v n pre = .ok l ↔ GivesLabels v n pre l := by
  unfold GivesLabels
  cases v with
  | none =>
    simp only [labelsOrDefault, pyStrings, reduceCtorEq, true_and, false_and, or_false]
    rw [R.pure_ok]
    exact eq_comm
  | list L =>
    simp only [reduceCtorEq, false_and, false_or]
    constructor
    · intro h
      have hv := labelsOrDefault_sound h
      refine ⟨?_, hv⟩
      simp only [labelsOrDefault, validateLabelsInput] at h
      rw [R.ite_throw, R.ite_throw, R.ite_throw, R.ite_throw, R.pure_ok] at h
      obtain ⟨h1, -, -, -, rfl⟩ := h
      rw [not_not, all_isString_iff] at h1
      unfold pyStrings
      rw [List.map_map]
      congr 1
      refine (List.map_id L).symm.trans (List.map_congr_left fun x hx => ?_)
      obtain ⟨s, rfl, -⟩ := h1 x hx
      rfl
    · rintro ⟨h1, h2⟩
      rw [h1]
      exact (validateLabelsInput_pyStrings hn).2 ⟨h2, rfl⟩
  | _ => simp [labelsOrDefault, validateLabelsInput, pyStrings]

/-! ## Constructors -/

/-- C121, chains. For every pair of arguments whatsoever, ordinary user code obtains the chain `c` exactly
if the first argument is the matrix of `c`, which meets the documented requirements, and the second one
gives its labels. -/
theorem C121_chain {caller : String} (hc : caller ∉ mcGenerators) (p states : PyVal K) (c : MC K) :
    mcInit caller p states = .ok c ↔
      GivesMatrix p c.p ∧ AcceptedMatrix c.p ∧ GivesLabels states c.n "" c.states := by
  unfold mcInit
  rw [if_pos hc, R.bind_ok]
  constructor
  · rintro ⟨r, h1, h2⟩
    simp only [R.bind_ok, R.pure_ok] at h2
    obtain ⟨l, h3, rfl⟩ := h2
    have h4 := (C121_transition_matrix p r).1 h1
    exact ⟨h4.1, h4.2, (C121_labels h4.2.1 states "" l).1 h3⟩
  · rintro ⟨h1, h2, h3⟩
    refine ⟨⟨c.n, c.p⟩, (C121_transition_matrix p ⟨c.n, c.p⟩).2 ⟨h1, h2⟩, ?_⟩
    simp only [R.bind_ok, R.pure_ok]
    exact ⟨c.states, (C121_labels h2.1 states "" c.states).2 h3, rfl⟩

/-- C121, hidden models. -/
theorem C121_hidden {caller : String} (hc : caller ∉ hmmGenerators) (p e states symbols : PyVal K)
    (m : HMM K) : hmmInit caller p e states symbols = .ok m ↔
      GivesMatrix p m.p ∧ AcceptedMatrix m.p ∧ GivesMatrix e m.e ∧ AcceptedEmission m.e ∧
      GivesLabels states m.n "P" m.states ∧ GivesLabels symbols m.k "E" m.symbols ∧
      List.Disjoint m.states m.symbols := by
  unfold hmmInit
  rw [if_pos hc, R.bind_ok]
  constructor
  · rintro ⟨⟨n, mp⟩, h1, h⟩
    simp only [R.bind_ok] at h
    obtain ⟨⟨k, me⟩, h2, ls, h3, lsy, h4, h⟩ := h
    by_cases hd : (ls.any fun s => decide (s ∈ lsy)) = true
    · rw [if_pos hd] at h
      cases h
    · rw [if_neg hd] at h
      rw [R.pure_ok] at h
      subst h
      have a1 := (C121_transition_matrix p ⟨n, mp⟩).1 h1
      have a2 := (C121_emission_matrix (by have := a1.2.1; simp only at this; omega) e ⟨k, me⟩).1 h2
      refine ⟨a1.1, a1.2, a2.1, a2.2, (C121_labels a1.2.1 states "P" ls).1 h3,
        (C121_labels a2.2.1 symbols "E" lsy).1 h4, fun x hx hx' => hd ?_⟩
      rw [List.any_eq_true]
      exact ⟨x, hx, decide_eq_true hx'⟩
  · rintro ⟨h1, h2, h3, h4, h5, h6, h7⟩
    have hn : 0 < m.n := by have := h2.1; omega
    refine ⟨⟨m.n, m.p⟩, (C121_transition_matrix p ⟨m.n, m.p⟩).2 ⟨h1, h2⟩, ?_⟩
    simp only [R.bind_ok]
    refine ⟨⟨m.k, m.e⟩, (C121_emission_matrix hn e ⟨m.k, m.e⟩).2 ⟨h3, h4⟩, m.states,
      (C121_labels h2.1 states "P" m.states).2 h5, m.symbols, (C121_labels h4.1 symbols "E" m.symbols).2 h6, ?_⟩
    rw [if_neg]
    · rfl
    · rw [List.any_eq_true]
      rintro ⟨x, hx, hx'⟩
      exact h7 hx (of_decide_eq_true hx')

/-! ## Vectors -/

theorem ravel_iff {a : NumArr K} {b : Bool} {l : List (Flt K)} (hl : l ≠ []) :
    ravel b a = .ok l ↔ a = .vec l ∨ a = .mat [l] := by
  cases a with
  | vec l' =>
    simp only [ravel]
    rw [R.ite_throw, R.pure_ok]
    constructor
    · rintro ⟨-, rfl⟩; exact Or.inl rfl
    · rintro (h | h)
      · cases h
        exact ⟨fun h => hl (List.length_eq_zero_iff.1 h.1), rfl⟩
      · cases h
  | mat rows =>
    match rows with
    | [] => simp [ravel]
    | [r] => simp [ravel, R.pure_ok]
    | r :: r' :: t => simp [ravel]

/-- `extract_numeric` gives the vector `x` exactly for lists and arrays of its numbers. -/
theorem extractNumeric_vec_iff {n : ℕ} (hn : 0 < n) (v : PyVal K) (x : Fin n → K) :
    extractNumeric v = some (.vec (List.ofFn fun i => Flt.fin (x i))) ↔
      v = .array (.vec (List.ofFn fun i => .fin (x i))) ∨ ∃ s : Fin n → PyVal K,
        v = .list (List.ofFn s) ∧ (∀ i, Gives (s i) (x i)) ∧ ∃ i, ¬ IsBoolean (s i) := by
  obtain ⟨n, rfl⟩ : ∃ k, n = k + 1 := ⟨n - 1, by omega⟩
  cases v with
  | array a => simp [extractNumeric]
  | list l =>
    simp only [reduceCtorEq, false_or, PyVal.list.injEq]
    cases l with
    | nil =>
      constructor
      · intro h
        simp only [extractNumeric] at h
        rw [List.ofFn_succ] at h
        simp at h
      · rintro ⟨s, h, -⟩
        rw [List.ofFn_succ] at h
        cases h
    | cons a l =>
      obtain ⟨L, hL⟩ : ∃ L, L = a :: l := ⟨_, rfl⟩
      have hx : extractNumeric (.list (a :: l) : PyVal K) = if L.all PyVal.isList then
          match L.mapM PyVal.numRow with
          | some (r :: rows) =>
            if rows.all (fun r' => r'.length == r.length) then
              if (L.flatMap PyVal.scalars).all PyVal.isBool && !(L.flatMap PyVal.scalars).isEmpty then
                Option.none
              else some (.mat (r :: rows))
            else Option.none
          | _ => Option.none
        else if L.all PyVal.isBool then Option.none
        else (L.mapM PyVal.numEntry).map NumArr.vec := by
        rw [hL]
        rfl
      rw [hx, ← hL]
      constructor
      · intro h
        split at h
        · split at h
          · split at h
            · split at h <;> simp at h
            · cases h
          · cases h
        · split at h
          · cases h
          · next hb =>
            simp only [Option.map_eq_some_iff, NumArr.vec.injEq, exists_eq_right] at h
            rw [mapM_ofFn_iff] at h
            obtain ⟨s, hs, hg⟩ := h
            refine ⟨s, hs, fun i => numEntry_iff.1 (hg i), ?_⟩
            by_contra hall
            push Not at hall
            refine hb ?_
            rw [hs, List.all_eq_true]
            intro y hy
            obtain ⟨i, rfl⟩ := List.mem_ofFn.1 hy
            exact isBool_iff.2 (hall i)
      · rintro ⟨s, hs, hg, i0, hb⟩
        rw [hs, if_neg, if_neg]
        · rw [mapM_ofFn_some _ s (fun i => Flt.fin (x i)) fun i => numEntry_iff.2 (hg i)]
          rfl
        · rw [List.all_eq_true]
          intro h
          exact hb (isBool_iff.1 (h _ (List.mem_ofFn.2 ⟨i0, rfl⟩)))
        · rw [List.all_eq_true]
          intro h
          have h1 := h _ (List.mem_ofFn.2 ⟨i0, rfl⟩)
          rcases hg i0 with h2 | ⟨z, h2, -⟩ | ⟨b, h2, -⟩ <;> rw [h2] at h1 <;> cases h1
  | _ => simp [extractNumeric]

/-- C121, vectors. -/
theorem C121_vector {n : ℕ} (hn : 0 < n) (b : Bool) (v : PyVal K) (x : Fin n → K) :
    extractVector b v = .ok (List.ofFn fun i => Flt.fin (x i)) ↔ GivesVector v x := by
  have hne : (List.ofFn fun i => Flt.fin (x i)) ≠ [] := by
    rw [Ne, List.ofFn_eq_nil_iff]
    omega
  have h1 : extractVector b v = .ok (List.ofFn fun i => Flt.fin (x i)) ↔
      extractNumeric v = some (.vec (List.ofFn fun i => Flt.fin (x i))) ∨
      extractNumeric v = some (.mat (floatRows (Matrix.of fun (_ : Fin 1) j => x j))) := by
    unfold extractVector
    cases extractNumeric v with
    | none => simp
    | some a =>
      simp only [Option.some.injEq]
      exact ravel_iff hne
  have h2 := extractNumeric_iff Nat.one_pos hn v (Matrix.of fun (_ : Fin 1) j => x j)
  rw [h1, extractNumeric_vec_iff hn, h2]
  unfold GivesVector GivesMatrix pyArray
  constructor
  · rintro ((h | ⟨s, h, hg, hb⟩) | (h | ⟨s, h, hg, i, j, hb⟩))
    · exact Or.inl h
    · exact Or.inr (Or.inr ⟨s, Or.inl h, hg, hb⟩)
    · exact Or.inr (Or.inl (by simpa using h))
    · exact Or.inr (Or.inr ⟨s 0, Or.inr (by simpa using h), hg 0, j, by rwa [Subsingleton.elim i 0] at hb⟩)
  · rintro (h | h | ⟨s, h | h, hg, j, hb⟩)
    · exact Or.inl (Or.inl h)
    · exact Or.inr (Or.inl (by simpa using h))
    · exact Or.inl (Or.inr ⟨s, h, hg, j, hb⟩)
    · exact Or.inr (Or.inr ⟨fun _ => s, by simpa using h, fun _ => hg, 0, j, hb⟩)

/-- C121, rewards: exactly the vectors of finite numbers with one entry per state. -/
theorem C121_rewards {n : ℕ} (hn : 0 < n) (v : PyVal K) (l : List K) :
    validateRewards v n = .ok l ↔ ∃ x : Fin n → K, GivesVector v x ∧ l = List.ofFn x := by
  unfold validateRewards
  rw [R.bind_ok]
  constructor
  · rintro ⟨fl, h1, h2⟩
    rw [R.ite_throw, R.ite_throw, R.pure_ok] at h2
    obtain ⟨h3, h4, rfl⟩ := h2
    rw [not_not] at h3
    rw [not_not, List.all_eq_true] at h4
    subst h3
    have hfl : fl = List.ofFn fun i : Fin fl.length => Flt.fin (fl.get i).val := by
      refine List.ext_getElem (by simp) fun i h5 h6 => ?_
      have := h4 _ (List.getElem_mem h5)
      simp only [List.getElem_ofFn, List.get_eq_getElem]
      cases hf : fl[i] with
      | fin y => rfl
      | _ => rw [hf] at this; cases this
    refine ⟨fun i => (fl.get i).val, ?_, ?_⟩
    · rw [← C121_vector hn false, h1]
      exact congrArg _ hfl
    · refine List.ext_getElem (by simp) fun i h5 h6 => by simp
  · rintro ⟨x, hx, rfl⟩
    refine ⟨_, (C121_vector hn false v x).2 hx, ?_⟩
    rw [R.ite_throw, R.ite_throw, R.pure_ok]
    refine ⟨by simp, ?_, ?_⟩
    · rw [not_not, List.all_eq_true]
      intro y hy
      obtain ⟨i, rfl⟩ := List.mem_ofFn.1 hy
      rfl
    · rw [List.map_ofFn]
      rfl

/-- C121. A list of numbers is treated like the array of floats with these numbers, wherever a vector is
expected. -/
theorem C121_list_as_array {n : ℕ} (hn : 0 < n) {v : PyVal K} {x : Fin n → K} (h : GivesVector v x) :
    (∀ b, extractVector b v = extractVector b (floatVec x)) ∧
    (∀ labels, validateStatus v labels = validateStatus (floatVec x) labels) ∧
    ∀ ty flex size, validateVector v ty flex size = validateVector (floatVec x) ty flex size := by
  have h1 : ∀ b, extractVector b v = extractVector b (floatVec x) := by
    intro b
    rw [(C121_vector hn b v x).2 h, (C121_vector hn b (floatVec x) x).2 (Or.inl rfl)]
  refine ⟨h1, fun labels => ?_, fun ty flex size => ?_⟩
  · have h2 : ∀ w : PyVal K, GivesVector w x → validateStatus w labels = (extractVector true w >>= fun l =>
        if l.length ≠ labels.length then throw .valueError
        else if ¬ l.all Flt.inUnit then throw .valueError
        else if ¬ isclose (l.map Flt.val).sum 1 then throw .valueError
        else pure (l.map Flt.val)) := by
      rintro w (rfl | rfl | ⟨s, rfl | rfl, -⟩) <;> rfl
    rw [h2 v h, h2 (floatVec x) (Or.inl rfl), h1]
  · have h2 : ∀ w : PyVal K, GivesVector w x → w.isNumber = false := by
      rintro w (rfl | rfl | ⟨s, rfl | rfl, -⟩) <;> rfl
    unfold validateVector
    rw [if_neg (by simp [h2 v h]), if_neg (by simp [h2 (floatVec x) (Or.inl rfl)]), h1]

/-- Mixed numbers, arrays of booleans and ragged lists: the first one is accepted, the others are not. -/
example : (mcInit "user" (.list [.list [.int 0, .bool true], .list [.float (.fin (1 / 2)), .float (.fin (1 / 2))]] : PyVal ℚ)
      .none).toOption.map (fun c => (c.n, c.states, (List.finRange c.n).map fun i => (List.finRange c.n).map fun j => c.p i j)) =
      some (2, ["1", "2"], [[0, 1], [1 / 2, 1 / 2]]) ∧
    (mcInit "user" (.list [.list [.bool false, .bool true], .list [.bool true, .bool false]] : PyVal ℚ)
      .none).toOption.isNone ∧
    (mcInit "user" (.list [.list [.int 0, .int 1], .list [.int 1]] : PyVal ℚ) .none).toOption.isNone ∧
    (validateRewards (.list [.int 3, .float (.fin (1 / 2))] : PyVal ℚ) 2).toOption = some [3, 1 / 2] ∧
    (validateRewards (.list [.list [.int 3, .bool true]] : PyVal ℚ) 2).toOption = some [3, 1] := by
  decide +kernel

/-- A mask with an undefined entry, one that exceeds one in a row, and one with an infinite entry. -/
example : ((validateMask (.list [.list [.float .nan, .float (.fin (1 / 2))]] : PyVal ℚ) 1 2).toOption.map
      fun M => List.ofFn (M 0)) = some [none, some (1 / 2)] ∧
    (validateMask (.list [.list [.float (.fin (3 / 4)), .float (.fin (1 / 2))]] : PyVal ℚ) 1 2).toOption.isNone ∧
    (validateMask (.list [.list [.float (.inf false), .float .nan]] : PyVal ℚ) 1 2).toOption.isNone ∧
    (validateMask (.list [.list [.float .nan, .float .nan]] : PyVal ℚ) 2 2).toOption.isNone := by
  decide +kernel

end Verif
