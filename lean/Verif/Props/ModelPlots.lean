import Verif.Model.Plotting
import Verif.Props.SequencePlot
import Verif.Props.Spectral

/-!
# Comparison and eigenvalues plots (C112, C113)
-/

set_option linter.unusedSectionVars false

namespace Verif

variable {K : Type} [Field K] [LinearOrder K] [IsStrictOrderedRing K]

/-! ## Comparison plot (C112) -/

/-- C112. The grid has room for all models, no row of it can be left out, and it is close to a square
that is wider than high. -/
theorem C112_grid {s : ℕ} (hs : 2 ≤ s) :
    1 ≤ comparisonRows s ∧ 2 ≤ comparisonColumns s ∧ s ≤ comparisonRows s * comparisonColumns s ∧
      comparisonRows s * comparisonColumns s < s + comparisonRows s ∧
      comparisonRows s ≤ comparisonColumns s ∧ comparisonColumns s ≤ comparisonRows s + 2 := by
  obtain ⟨r, hr⟩ : ∃ r, r = comparisonRows s := ⟨_, rfl⟩
  obtain ⟨c, hc⟩ : ∃ c, c = comparisonColumns s := ⟨_, rfl⟩
  have h1 : 1 ≤ r := by
    rw [hr]
    exact Nat.sqrt_pos.2 (by omega)
  have hsq1 : r * r ≤ s := hr ▸ Nat.sqrt_le s
  have hsq2 : s < (r + 1) * (r + 1) := hr ▸ Nat.lt_succ_sqrt s
  have hr0 : (0 : ℚ) < r := by exact_mod_cast h1
  have hlow : s ≤ r * c := by
    have : (s : ℚ) / r ≤ c := by
      rw [hc, hr]
      exact Nat.le_ceil _
    rw [div_le_iff₀ hr0] at this
    have h2 : s ≤ c * r := by exact_mod_cast this
    rw [mul_comm]
    exact h2
  have hup : r * c < s + r := by
    have : (c : ℚ) < (s : ℚ) / r + 1 := by
      rw [hc, hr]
      exact Nat.ceil_lt_add_one (by positivity)
    have h2 : (c : ℚ) * r < s + r := by
      have := mul_lt_mul_of_pos_right this hr0
      rwa [add_mul, div_mul_cancel₀ _ hr0.ne', one_mul] at this
    have h3 : c * r < s + r := by exact_mod_cast h2
    rw [mul_comm]
    exact h3
  have hrc : r ≤ c := by
    by_contra h
    push Not at h
    have : r * c ≤ r * (r - 1) := Nat.mul_le_mul_left r (by omega)
    obtain ⟨t, rfl⟩ : ∃ t, r = t + 1 := ⟨r - 1, by omega⟩
    rw [Nat.add_sub_cancel] at this
    nlinarith
  have hcr : c ≤ r + 2 := by
    by_contra h
    push Not at h
    have : r * (r + 3) ≤ r * c := Nat.mul_le_mul_left r (by omega)
    nlinarith
  have hc2 : 2 ≤ c := by
    by_contra h
    have : c ≤ 1 := by omega
    have h2 : r * c ≤ r * 1 := Nat.mul_le_mul_left r this
    nlinarith
  rw [← hr, ← hc]
  exact ⟨h1, hc2, hlow, hup, hrc, hcr⟩

/-- C112. The default names are pairwise different. -/
theorem C112_default_names (models : List (AnyModel K)) :
    (modelsNames models).length = models.length ∧ (modelsNames models).Nodup := by
  refine ⟨by simp [modelsNames], ?_⟩
  unfold modelsNames
  refine List.Nodup.map ?_ List.nodup_range
  intro a b h
  have h' := congrArg String.toList h
  simp only [String.toList_append, List.append_cancel_left_eq, List.append_cancel_right_eq,
    String.toList_inj] at h'
  have := Nat.repr_injective h'
  omega

theorem asStrings_eq (l : List (PyVal K)) (names : List String) :
    asStrings l = some names ↔ l = names.map .str ∧ ∀ s ∈ names, nonBlank s = true := by
  induction l generalizing names with
  | nil => cases names <;> simp [asStrings]
  | cons a t ih =>
    cases a with
    | str s =>
      simp only [asStrings]
      by_cases hb : nonBlank s = true
      · rw [if_pos hb]
        cases names with
        | nil => simp
        | cons x names =>
          simp only [Option.map_eq_some_iff, List.cons.injEq, List.map_cons, PyVal.str.injEq, List.mem_cons,
            forall_eq_or_imp]
          constructor
          · rintro ⟨l', h1, rfl, rfl⟩
            obtain ⟨h2, h3⟩ := (ih _).1 h1
            exact ⟨⟨rfl, h2⟩, hb, h3⟩
          · rintro ⟨⟨rfl, h2⟩, -, h3⟩
            exact ⟨names, (ih _).2 ⟨h2, h3⟩, rfl, rfl⟩
      · rw [if_neg hb]
        cases names with
        | nil => simp
        | cons x names =>
          simp only [List.map_cons, List.cons.injEq, PyVal.str.injEq, List.mem_cons, forall_eq_or_imp,
            reduceCtorEq, false_iff]
          rintro ⟨⟨rfl, -⟩, h, -⟩
          exact hb h
    | _ => cases names <;> simp [asStrings]

theorem validateStrings_iff (v : PyVal K) {size : ℕ} (hs : 0 < size) (names : List String) :
    validateStrings v size = .ok names ↔
      v = .list (names.map .str) ∧ (∀ s ∈ names, nonBlank s = true) ∧ names.length = size := by
  cases v with
  | list l =>
    simp only [validateStrings, PyVal.list.injEq]
    cases hl : asStrings l with
    | none =>
      simp only [reduceCtorEq, false_iff]
      rintro ⟨h1, h2, -⟩
      rw [(asStrings_eq l names).2 ⟨h1, h2⟩] at hl
      cases hl
    | some x =>
      simp only
      rw [R.ite_throw, R.ite_throw, R.pure_ok, not_not]
      obtain ⟨h1, h2⟩ := (asStrings_eq l x).1 hl
      constructor
      · rintro ⟨-, h3, rfl⟩
        exact ⟨h1, h2, h3⟩
      · rintro ⟨h3, h4, h5⟩
        have : asStrings l = some names := (asStrings_eq l names).2 ⟨h3, h4⟩
        rw [hl] at this
        obtain rfl := Option.some.inj this
        exact ⟨by omega, h5, rfl⟩
  | _ => simp [validateStrings]

/-- C112. The call succeeds exactly for at least two models, one of the two kinds of matrices (emission
matrices only if all models are hidden), and names that are omitted or a list of as many strings that
are not blank. -/
theorem C112_accepted_iff (models : List (AnyModel K)) (matrices names : PyVal K) :
    (∃ r, plotComparison models matrices names = .ok r) ↔
      2 ≤ models.length ∧
      (matrices = .str "transition" ∨ matrices = .str "emission" ∧ ∀ m ∈ models, m.isHidden = true) ∧
      (names = .none ∨ ∃ l : List String, names = .list (l.map .str) ∧ (∀ s ∈ l, nonBlank s = true) ∧
        l.length = models.length) := by
  have hE : ∀ t, validateEnumerator matrices ["emission", "transition"] = .ok t ↔
      matrices = .str t ∧ t ∈ ["emission", "transition"] := by
    intro t
    refine ⟨validateEnumerator_mem, ?_⟩
    rintro ⟨rfl, h⟩
    simp only [List.mem_cons, List.not_mem_nil, or_false] at h
    rcases h with rfl | rfl <;> rfl
  have hN : 2 ≤ models.length → ((∃ l, comparisonNames models names = .ok l) ↔
      (names = .none ∨ ∃ l : List String, names = .list (l.map .str) ∧ (∀ s ∈ l, nonBlank s = true) ∧
        l.length = models.length)) := by
    intro h2
    by_cases hn : names = .none
    · subst hn
      exact ⟨fun _ => Or.inl rfl, fun _ => ⟨_, rfl⟩⟩
    · have e : comparisonNames models names = validateStrings names models.length := by
        cases names <;> first | rfl | exact absurd rfl hn
      rw [e]
      simp only [validateStrings_iff names (by omega : 0 < models.length), hn, false_or]
  unfold plotComparison
  by_cases h2 : models.length < 2
  · rw [if_pos h2]
    constructor
    · rintro ⟨r, h⟩
      cases h
    · rintro ⟨h, -⟩
      omega
  · rw [if_neg h2]
    rw [← hN (by omega)]
    constructor
    · rintro ⟨r, h⟩
      rw [R.bind_ok] at h
      obtain ⟨t, ht, h⟩ := h
      rw [R.bind_ok] at h
      obtain ⟨l, hl, h⟩ := h
      rw [R.ite_throw] at h
      obtain ⟨h, -⟩ := h
      obtain ⟨rfl, htm⟩ := (hE t).1 ht
      refine ⟨by omega, ?_, l, hl⟩
      simp only [List.mem_cons, List.not_mem_nil, or_false] at htm
      rcases htm with rfl | rfl
      · refine Or.inr ⟨rfl, ?_⟩
        simpa using h
      · exact Or.inl rfl
    · rintro ⟨-, h, l, hl⟩
      rcases h with rfl | ⟨rfl, h⟩
      · have e : validateEnumerator (.str "transition" : PyVal K) ["emission", "transition"] =
            .ok "transition" := rfl
        rw [e, R.ok_bind, hl, R.ok_bind, if_neg (by simp)]
        exact ⟨_, rfl⟩
      · have e : validateEnumerator (.str "emission" : PyVal K) ["emission", "transition"] =
            .ok "emission" := rfl
        rw [e, R.ok_bind, hl, R.ok_bind, if_neg (by simpa using h)]
        exact ⟨_, rfl⟩

/-- C112. The cell `k` shows the requested matrix of the model `k` under its name; the cells after the
last model are empty, and they are fewer than the rows of the grid. -/
theorem C112_cells {models : List (AnyModel K)} {matrices names : PyVal K} {r : ComparisonPlot K}
    (h : plotComparison models matrices names = .ok r) :
    ∃ (type : String) (titles : List String), matrices = .str type ∧ titles.length = models.length ∧
      (names = .none → titles = modelsNames models) ∧ (∀ l : List String, names = .list (l.map .str) → titles = l) ∧
      r.rows = comparisonRows models.length ∧ r.columns = comparisonColumns models.length ∧
      r.cells.length = r.rows * r.columns ∧ models.length ≤ r.rows * r.columns ∧
      r.rows * r.columns < models.length + r.rows ∧
      (∀ (k : ℕ) (hk : k < models.length) (hk' : k < titles.length), r.cells[k]? = some (some (titles[k],
        match models[k] with
        | .chain c => matrixRows c.p
        | .hidden m => if type = "emission" then matrixRows m.e else matrixRows m.p))) ∧
      (∀ k, models.length ≤ k → k < r.rows * r.columns → r.cells[k]? = some none) := by
  unfold plotComparison at h
  rw [R.ite_throw] at h
  obtain ⟨h2, h⟩ := h
  rw [R.bind_ok] at h
  obtain ⟨t, ht, h⟩ := h
  rw [R.bind_ok] at h
  obtain ⟨l, hl, h⟩ := h
  rw [R.ite_throw, R.pure_ok] at h
  obtain ⟨he, rfl⟩ := h
  obtain ⟨rfl, htm⟩ := validateEnumerator_mem ht
  obtain ⟨g1, g2, g3, g4, -, -⟩ := C112_grid (s := models.length) (by omega)
  have hlen : l.length = models.length ∧ (names = .none → l = modelsNames models) ∧
      (∀ x : List String, names = .list (x.map .str) → l = x) := by
    by_cases hn : names = .none
    · subst hn
      have : l = modelsNames models := by cases hl; rfl
      subst this
      exact ⟨(C112_default_names models).1, fun _ => rfl, fun x hx => by cases hx⟩
    · have e : comparisonNames models names = validateStrings names models.length := by
        cases names <;> first | rfl | exact absurd rfl hn
      rw [e, validateStrings_iff names (by omega : 0 < models.length)] at hl
      obtain ⟨h1, -, h3⟩ := hl
      refine ⟨h3, fun h => absurd h hn, fun x hx => ?_⟩
      rw [hx] at h1
      have h4 := PyVal.list.inj h1
      exact (List.map_injective_iff.2 (fun a b h => PyVal.str.inj h) h4).symm
  refine ⟨t, l, rfl, hlen.1, hlen.2.1, hlen.2.2, rfl, rfl, by simp [comparisonPlot], g3, g4, ?_, ?_⟩
  · intro k hk hk'
    have hkr : k < comparisonRows models.length * comparisonColumns models.length := by omega
    simp only [comparisonPlot, List.getElem?_map, List.getElem?_range hkr, Option.map_some]
    have hz : (models.zip l)[k]? = some (models[k], l[k]) := by
      rw [List.getElem?_eq_getElem (by simp; omega)]
      simp
    rw [hz, Option.map_some]
    congr 3
    unfold AnyModel.shown
    cases models[k] with
    | chain c => rfl
    | hidden m =>
      simp only [decide_eq_true_eq]
  · intro k hk hkr
    change k < comparisonRows models.length * comparisonColumns models.length at hkr
    simp only [comparisonPlot, List.getElem?_map, List.getElem?_range hkr, Option.map_some]
    have hz : (models.zip l)[k]? = none := by
      rw [List.getElem?_eq_none_iff]
      simp
      omega
    rw [hz, Option.map_none]

/-- Three models in a row, five models in two rows of three cells. -/
example : (comparisonRows 3, comparisonColumns 3) = (1, 3) ∧
    (comparisonRows 5, comparisonColumns 5) = (2, 3) := by decide +kernel

example : ((plotComparison [.chain exLoop, .hidden exClock, .chain exLoop] (.str "transition") .none
      : R (ComparisonPlot ℚ)).toOption.map fun r => r.cells) =
    some [some ("$\\mathregular{MODEL_1}$", [[0, 1], [1 / 2, 1 / 2]]),
      some ("$\\mathregular{MODEL_2}$", [[0, 1], [1, 0]]),
      some ("$\\mathregular{MODEL_3}$", [[0, 1], [1 / 2, 1 / 2]])] := by
  decide +kernel

/-! ## Eigenvalues plot (C113) -/

/-- The inner circle is the second largest modulus that the chain reports; where the chain raises an
exception there is no circle. -/
theorem gapCircle_eq (c : MC ℝ) (nx : Nx c.n) (ev : List ℂ) :
    gapCircle c nx ev = match slem c nx ev with
      | .ok s => s
      | .error _ => none := by
  unfold gapCircle slem slemOf
  by_cases he : isErgodic c nx = false
  · rw [if_pos he, if_pos he]
    rfl
  · rw [if_neg he, if_neg he]
    cases ((eigenvaluesSorted ev).filter fun x => !isclose x 1).getLast? with
    | none => rfl
    | some mu => rfl

theorem one_isEigenvalue {n : ℕ} (hn : 0 < n) {P : Matrix (Fin n) (Fin n) ℝ} (hP : IsStochastic P) :
    IsEigenvalue (fun i j => P i j) 1 := by
  refine ⟨fun _ => 1, fun h => ?_, fun i => ?_⟩
  · exact one_ne_zero (congrFun h ⟨0, hn⟩)
  · have := hP.2 i
    simp only [mul_one]
    exact_mod_cast this

/-- C113. The points are the eigenvalues of the transition matrix, each once, and all of them lie in the
visible part of the plane, inside the unit circle. -/
theorem C113_points {c : MC ℝ} (hc : c.Valid) (nx : Nx c.n) {ev : List ℂ} (hev : EigvalsSound c.p ev) :
    (plotEigenvalues c nx ev).points.Nodup ∧
    (∀ z, z ∈ (plotEigenvalues c nx ev).points ↔ IsEigenvalue c.p z) ∧
    ∀ z ∈ (plotEigenvalues c nx ev).points, ‖z‖ ≤ 1 := by
  have hn0 : 0 < c.n := by have := hc.1; omega
  have hiff : ∀ z, z ∈ (plotEigenvalues c nx ev).points ↔ IsEigenvalue c.p z := by
    intro z
    have hr : IsEigenvalue (fun i j => c.p i j) z ↔ z ∈ ev := by
      rw [isEigenvalue_iff]
      unfold EigvalsSound at hev
      rw [hev, Multiset.mem_coe]
    change z ∈ (ev ++ [1]).dedup ↔ IsEigenvalue (fun i j => c.p i j) z
    rw [List.mem_dedup, List.mem_append, List.mem_singleton, hr]
    refine ⟨fun h => h.elim id fun h => ?_, Or.inl⟩
    rw [h] at hr ⊢
    exact hr.1 <| one_isEigenvalue hn0 hc.2.1
  refine ⟨List.nodup_dedup _, hiff, fun z hz => ?_⟩
  obtain ⟨v, hv, h⟩ := (hiff z).1 hz
  exact eigen_norm_le hc.2.1 hv h

/-- C113. A chain that is not ergodic has no inner circle. For an ergodic chain whose eigenvalues other
than one have moduli that are not close to one, the circle of the spectral gap has the second largest
modulus as its radius; it is left out if that modulus is at most `1e-8`. -/
theorem C113_circle_partial {c : MC ℝ} (hc : c.Valid) {nx : Nx c.n} (hx : nx.Sound c.p) {ev : List ℂ}
    (hev : EigvalsSound c.p ev) (hgap : ∀ z ∈ ev, z ≠ 1 → isclose ‖z‖ 1 = false) :
    (Ergodic c.p → ∃ s, IsSecondModulus c.p s ∧ 0 ≤ s ∧ s < 1 ∧
      (plotEigenvalues c nx ev).circle = if s ≤ 1 / 10 ^ 8 then none else some s) ∧
    (¬ Ergodic c.p → (plotEigenvalues c nx ev).circle = none) := by
  obtain ⟨h1, h2⟩ := C86_second_modulus_partial hc hx hev hgap
  change (_ → ∃ s, _ ∧ _ ∧ _ ∧ gapCircle c nx ev = _) ∧ (_ → gapCircle c nx ev = _)
  rw [gapCircle_eq]
  constructor
  · intro he
    obtain ⟨s, hs, h0, h3, h4, h5⟩ := h1 he
    refine ⟨s, hs, h0, h3, ?_⟩
    by_cases hsm : s ≤ 1 / 10 ^ 8
    · rw [if_pos hsm, (h4 hsm).1]
    · rw [if_neg hsm, (h5 (not_le.1 hsm)).1]
  · intro he
    rw [(h2 he).1]

/-- C113, disagreement: the ergodic chain with two states that leaves its state with a positive
probability of at most `5e-6` has the second largest modulus `1 - 2 q`, but no circle is drawn. -/
theorem C113_near_one {q : ℝ} (h0 : 0 < q) (h1 : q ≤ 5 / 10 ^ 6) {ev : List ℂ}
    (hev : EigvalsSound (swapP q) ev) :
    (exSymmetric q).Valid ∧ (exSymmetricNx q).Sound (exSymmetric q).p ∧ Ergodic (exSymmetric q).p ∧
    IsSecondModulus (exSymmetric q).p (1 - 2 * q) ∧
    (plotEigenvalues (exSymmetric q) (exSymmetricNx q) ev).circle = none := by
  obtain ⟨a, b, d, e, f, -⟩ := C86_near_one h0 h1 hev
  refine ⟨a, b, d, e, ?_⟩
  refine (gapCircle_eq (exSymmetric q) (exSymmetricNx q) ev).trans ?_
  rw [f]

end Verif
