import Verif.Props.Quadrature
import Verif.Props.SequencePlot

/-!
# Arguments of transition functions (C115)
-/

set_option linter.unusedSectionVars false

namespace Verif

/-- The values of the parameters of a transition function, by their names. -/
def namedArguments (i : ℕ) (x : ℝ) (j : ℕ) (y : ℝ) (name : String) : ℝ :=
  if name = "x_index" then i else if name = "x_value" then x
  else if name = "y_index" then j else if name = "y_value" then y else 0

/-- C115. A function is accepted exactly if it has four parameters with the documented names, and returns
a finite number for the arguments `1, 1.0, 1, 1.0`. Since the names of parameters are different, all four
names are used, in some order. -/
theorem C115_names {f : PyFunction} (hf : f.params.Nodup) (g : PyFunction) :
    validateTransitionFunction f = .ok g ↔
      g = f ∧ f.params.Perm transitionParams ∧ ∃ v, f.call [1, 1, 1, 1] = some v := by
  unfold validateTransitionFunction
  rw [R.ite_throw, R.ite_throw, R.ite_throw, R.pure_ok]
  simp only [not_not, List.all_eq_true, decide_eq_true_eq, ← ne_eq, Option.ne_none_iff_exists']
  constructor
  · rintro ⟨h1, h2, h3, rfl⟩
    refine ⟨rfl, ?_, h3⟩
    exact (List.subperm_of_subset hf h2).perm_of_length_le (by rw [h1]; decide)
  · rintro ⟨rfl, h1, h2⟩
    exact ⟨h1.length_eq, fun x hx => h1.mem_iff.1 hx, h2, rfl⟩

/-- C115 (partial). A function with its parameters in the documented order receives the arguments that
belong to their names. -/
theorem C115_documented_order_partial {f : PyFunction} (hf : f.params = transitionParams)
    (hbody : ∀ e e', (∀ n ∈ transitionParams, e n = e' n) → f.body e = f.body e') (i : ℕ) (x : ℝ) (j : ℕ)
    (y : ℝ) : f.call [i, x, j, y] = f.body (namedArguments i x j y) := by
  unfold PyFunction.call
  rw [hf]
  refine hbody _ _ fun n hn => ?_
  simp only [transitionParams, List.mem_cons, List.not_mem_nil, or_false] at hn
  rcases hn with rfl | rfl | rfl | rfl <;> simp [transitionParams, namedArguments, List.lookup]

/-- C115. Intervals are accepted exactly if they are pairs of finite numbers `0 ≤ a < b`. -/
theorem C115_interval (v : PyVal ℝ) (a b : ℝ) : validateInterval v = .ok (a, b) ↔
    0 ≤ a ∧ a < b ∧ ∃ x y, v = .tuple [x, y] ∧ intervalEnd x = some a ∧ intervalEnd y = some b := by
  unfold validateInterval
  split
  · next x y =>
    split
    · next a' b' hx hy =>
      rw [R.ite_throw, R.ite_throw, R.pure_ok, Prod.mk.injEq, not_not, not_le]
      constructor
      · rintro ⟨h1, h2, rfl, rfl⟩
        exact ⟨h1.1, h2, x, y, rfl, hx, hy⟩
      · rintro ⟨h1, h2, x', y', h, hx', hy'⟩
        cases h
        rw [hx] at hx'
        rw [hy] at hy'
        cases hx'
        cases hy'
        exact ⟨⟨h1, h1.trans h2.le⟩, h2, rfl, rfl⟩
    · next h =>
      constructor
      · intro h
        cases h
      · rintro ⟨h1, h2, x', y', h', hx', hy'⟩
        cases h'
        exact absurd hy' (h a b hx')
  · next h =>
    constructor
    · intro h
      cases h
    · rintro ⟨h1, h2, x', y', h', hx', hy'⟩
      cases h'
      exact absurd rfl (h x' y')
  · next h1 h2 =>
    constructor
    · intro h
      cases h
    · rintro ⟨-, -, x', y', h', -⟩
      exact absurd h' (h2 _)

/-- C115. The chain is fitted to the values of the function at the nodes, with the arguments that belong
to the names, if the parameters have the documented order and the function is nonnegative. -/
theorem C115_fit_partial {type possible interval : PyVal ℝ} {f : PyFunction}
    (hf : f.params = transitionParams)
    (hbody : ∀ e e', (∀ n ∈ transitionParams, e n = e' n) → f.body e = f.body e')
    (hpos : ∀ e v, f.body e = some v → 0 ≤ v)
    {c : MC ℝ} (hleg : type = .str "gauss-legendre" → c.n ≤ 463)
    (h : fitFunctionCall type possible f interval = .ok c) :
    c.Valid ∧ ∃ (t : String) (a b : ℝ) (x w : Fin c.n → ℝ), type = .str t ∧ 0 ≤ a ∧ a < b ∧
      (interval = .none → a = 0 ∧ b = 1) ∧
      (∀ x' y', interval = .tuple [x', y'] → intervalEnd x' = some a ∧ intervalEnd y' = some b) ∧
      quadrature (ruleNamed t) a b c.n = some (x, w) ∧ ∀ v : Fin c.n → Fin c.n → ℝ,
      (∀ i j : Fin c.n, f.body (namedArguments i (x i) j (x j)) = some (v i j)) →
      ∀ i, ((∃ l, v i l * w l ≠ 0) → ∀ j, c.p i j = v i j * w j / ∑ l, v i l * w l) ∧
        ((∀ l, v i l * w l = 0) → ∀ j, c.p i j = 1 / c.n) := by
  unfold fitFunctionCall at h
  rw [R.bind_ok] at h
  obtain ⟨t, ht, h⟩ := h
  rw [R.bind_ok] at h
  obtain ⟨g, hg, h⟩ := h
  rw [R.bind_ok] at h
  obtain ⟨⟨a, b⟩, hab, h⟩ := h
  obtain ⟨rfl, -⟩ := validateEnumerator_mem ht
  obtain ⟨rfl, -, -⟩ := (C115_names (by rw [hf]; decide) g).1 hg
  have hI : 0 ≤ a ∧ a < b ∧ (interval = .none → a = 0 ∧ b = 1) ∧
      (∀ x' y', interval = .tuple [x', y'] → intervalEnd x' = some a ∧ intervalEnd y' = some b) := by
    by_cases hi : interval = .none
    · subst hi
      cases hab
      exact ⟨le_rfl, one_pos, fun _ => ⟨rfl, rfl⟩, fun x' y' h => by cases h⟩
    · have e : optionalInterval interval = validateInterval interval := by
        cases interval <;> first | rfl | exact absurd rfl hi
      rw [e, C115_interval] at hab
      obtain ⟨h1, h2, x, y, rfl, h3, h4⟩ := hab
      refine ⟨h1, h2, fun h => absurd h hi, fun x' y' h => ?_⟩
      cases h
      exact ⟨h3, h4⟩
  have hfun : (fun (i : ℕ) (x : ℝ) (j : ℕ) (y : ℝ) => g.call [(i : ℝ), x, (j : ℝ), y]) =
      fun i x j y => g.body (namedArguments i x j y) := by
    funext i x j y
    exact C115_documented_order_partial hf hbody i x j y
  simp only [hfun] at h
  obtain ⟨hv, x, w, hq, hr⟩ := C72_fit_function_partial hI.2.1
    (fun i x j y v hfv => hpos _ _ hfv) (fun e => hleg (by
      unfold ruleNamed at e
      split at e <;> simp at e ⊢)) h
  exact ⟨hv, t, a, b, x, w, rfl, hI.1, hI.2.1, hI.2.2.1, hI.2.2.2, hq, hr⟩

/-- C115 fails: a function whose parameters have the documented names in another order is accepted, and
receives the two nodes exchanged. -/
theorem C115_swapped_order {f : PyFunction} (hf : f.params = ["y_index", "y_value", "x_index", "x_value"])
    (hbody : ∀ e e', (∀ n ∈ transitionParams, e n = e' n) → f.body e = f.body e') (i : ℕ) (x : ℝ) (j : ℕ)
    (y : ℝ) : f.call [i, x, j, y] = f.body (namedArguments j y i x) := by
  unfold PyFunction.call
  rw [hf]
  refine hbody _ _ fun n hn => ?_
  simp only [transitionParams, List.mem_cons, List.not_mem_nil, or_false] at hn
  rcases hn with rfl | rfl | rfl | rfl <;> simp [namedArguments, List.lookup]

/-- A density that grows with the next value, with the parameters in the given order. -/
noncomputable def exDensity (params : List String) : PyFunction where
  params := params
  body e := some (1 + 2 * e "y_value")

/-- C115. With a name of a rule and an accepted function nothing else is rejected by the validation. -/
theorem fitFunctionCall_eq {t : String} (ht : t ∈ ["gauss-chebyshev", "gauss-legendre", "niederreiter",
    "newton-cotes", "simpson-rule", "trapezoid-rule"]) (possible : PyVal ℝ) {f : PyFunction}
    (hf : validateTransitionFunction f = .ok f) :
    fitFunctionCall (.str t) possible f .none =
      fitFunction (ruleNamed t) possible (fun i x j y => f.call [i, x, j, y]) 0 1 := by
  have h : validateEnumerator (.str t : PyVal ℝ) ["gauss-chebyshev", "gauss-legendre", "niederreiter",
      "newton-cotes", "simpson-rule", "trapezoid-rule"] = .ok t := by
    simp only [List.mem_cons, List.not_mem_nil, or_false] at ht
    rcases ht with rfl | rfl | rfl | rfl | rfl | rfl <;> rfl
  unfold fitFunctionCall
  rw [h, R.ok_bind, hf, R.ok_bind]
  rfl

theorem trapezoid_two {f : ℕ → ℝ → ℕ → ℝ → Option ℝ} {g : Fin 2 → Fin 2 → ℝ}
    (hg : ∀ i j : Fin 2, f i (i : ℕ) j (j : ℕ) = some (g i j)) (h0 : ∀ i, 0 < g i 0 ∧ 0 < g i 1) :
    fitFunction .trapezoid (.list [.str "a", .str "b"]) f 0 1 =
      .ok ⟨2, fun i j => g i j / (g i 0 + g i 1), ["a", "b"]⟩ := by
  have hl : validateLabelsInput (.list [.str "a", .str "b"] : PyVal ℝ) none = .ok ["a", "b"] := rfl
  have hx : ∀ j : Fin 2, linspace 0 1 2 j = ((j : ℕ) : ℝ) := by
    intro j
    unfold linspace
    norm_num
  have hw : ∀ j : Fin 2, ((linspace 0 1 2 1 - linspace 0 1 2 0) *
      if (j : ℕ) = 0 ∨ (j : ℕ) = 2 - 1 then (1 : ℝ) / 2 else 1) = 1 / 2 := by
    intro j
    rw [linspace_step, if_pos (by omega)]
    norm_num
  have hm : fitFunctionMatrix .trapezoid 0 1 2 f = .ok fun i j => g i j / (g i 0 + g i 1) := by
    unfold fitFunctionMatrix
    simp only [quadrature]
    rw [if_neg]
    · refine congrArg Except.ok ?_
      funext i j
      have hM : (fun i j : Fin 2 => (f i (linspace 0 1 2 i) j (linspace 0 1 2 j)).getD 0 *
          ((linspace 0 1 2 1 - linspace 0 1 2 0) *
            if (j : ℕ) = 0 ∨ (j : ℕ) = 2 - 1 then (1 : ℝ) / 2 else 1)) = fun i j => g i j * (1 / 2) := by
        funext i j
        rw [hw, hx, hx, hg]
        rfl
      have hne : ∃ l, g i l * (1 / 2) ≠ 0 := ⟨0, by have := (h0 i).1; positivity⟩
      refine (congrFun (congrFun (congrArg (fun M => normalizeRows (fillNullRows M)) hM) i) j).trans ?_
      refine (normalize_fill_row (M := fun i j => g i j * (1 / 2)) hne j).trans ?_
      rw [Fin.sum_univ_two]
      have : 0 < g i 0 + g i 1 := add_pos (h0 i).1 (h0 i).2
      field_simp
    · push Not
      intro i j
      rw [hx, hx, hg]
      simp
  unfold fitFunction
  rw [hl, R.ok_bind, if_neg (by simp)]
  change (fitFunctionMatrix .trapezoid 0 1 2 f >>= _) = _
  rw [hm]
  rfl

/-- C115, disagreement. The density with the parameters in the documented order gives the probability
3/4 for the second state. The same function with the parameters in another order is accepted, and gives
1/2. -/
theorem C115_swapped_chain :
    fitFunctionCall (.str "trapezoid-rule") (.list [.str "a", .str "b"]) (exDensity transitionParams) .none =
      .ok ⟨2, fun _ j => if (j : ℕ) = 0 then 1 / 4 else 3 / 4, ["a", "b"]⟩ ∧
    fitFunctionCall (.str "trapezoid-rule") (.list [.str "a", .str "b"])
        (exDensity ["y_index", "y_value", "x_index", "x_value"]) .none =
      .ok ⟨2, fun _ _ => 1 / 2, ["a", "b"]⟩ := by
  have hb : ∀ params, ∀ e e' : String → ℝ, (∀ n ∈ transitionParams, e n = e' n) →
      (exDensity params).body e = (exDensity params).body e' := by
    intro params e e' h
    simp only [exDensity]
    rw [h "y_value" (by decide)]
  constructor
  · rw [fitFunctionCall_eq (by decide) _ ((C115_names (by decide) _).2 ⟨rfl, List.Perm.refl _, _, rfl⟩)]
    refine (trapezoid_two (g := fun _ j => 1 + 2 * ((j : ℕ) : ℝ)) ?_ ?_).trans ?_
    · intro i j
      refine (C115_documented_order_partial rfl (hb _) i _ j _).trans ?_
      simp [exDensity, namedArguments]
    · intro i
      constructor <;> norm_num
    · congr 2
      funext i j
      fin_cases j <;> norm_num
  · rw [fitFunctionCall_eq (by decide) _ ((C115_names (by decide) _).2 ⟨rfl, by decide, _, rfl⟩)]
    refine (trapezoid_two (g := fun i _ => 1 + 2 * ((i : ℕ) : ℝ)) ?_ ?_).trans ?_
    · intro i j
      refine (C115_swapped_order rfl (hb _) i _ j _).trans ?_
      simp [exDensity, namedArguments]
    · intro i
      constructor <;> positivity
    · congr 2
      funext i j
      have : (1 + 2 * ((i : ℕ) : ℝ)) ≠ 0 := by positivity
      field_simp
      norm_num

end Verif
