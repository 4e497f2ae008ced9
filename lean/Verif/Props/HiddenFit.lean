import Verif.Props.HiddenModel
import Verif.Props.HiddenEstimate
import Verif.Props.Viterbi

/-!
# Fitting of hidden Markov models (C73, C76)
-/

set_option linter.unusedSectionVars false

namespace Verif

open Finset

variable {K : Type} [Field K] [LinearOrder K] [IsStrictOrderedRing K] {n k : ℕ}

/-! ## The loop -/

/-- A fitting function: the logarithm of the probability and the (expected) counts. -/
abbrev FitFunc (n k : ℕ) := Matrix (Fin n) (Fin n) ℝ → Matrix (Fin n) (Fin k) ℝ → List (Fin k) →
  Option (ℝ × Matrix (Fin n) (Fin n) ℝ × Matrix (Fin n) (Fin k) ℝ)

/-- One iteration: the normalised sums of the counts of all sequences. -/
noncomputable def fitStep (func : FitFunc n k) (symbols : List (List (Fin k)))
    (x : ℝ × Matrix (Fin n) (Fin n) ℝ × Matrix (Fin n) (Fin k) ℝ) :
    ℝ × Matrix (Fin n) (Fin n) ℝ × Matrix (Fin n) (Fin k) ℝ :=
  let r := sumResults (symbols.map (func x.2.1 x.2.2))
  (r.1, normalizeRows r.2.1, normalizeRows r.2.2)

/-- Every row of the counts has a positive sum. -/
def StepDefined (func : FitFunc n k) (symbols : List (List (Fin k)))
    (x : ℝ × Matrix (Fin n) (Fin n) ℝ × Matrix (Fin n) (Fin k) ℝ) : Prop :=
  (∀ i, ∑ j, (sumResults (symbols.map (func x.2.1 x.2.2))).2.1 i j ≠ 0) ∧
    ∀ i, ∑ j, (sumResults (symbols.map (func x.2.1 x.2.2))).2.2 i j ≠ 0

/-- The result is an iterate of the guess, the last two iterates satisfy the convergence criterion, and
no earlier ones do. -/
theorem fitLoop_ok {func : FitFunc n k} {symbols : List (List (Fin k))} {fuel : ℕ} {ll : ℝ}
    {P : Matrix (Fin n) (Fin n) ℝ} {E : Matrix (Fin n) (Fin k) ℝ}
    {r : Matrix (Fin n) (Fin n) ℝ × Matrix (Fin n) (Fin k) ℝ}
    (h : fitLoop func symbols fuel ll P E = .ok r) :
    ∃ j < fuel, ((fitStep func symbols)^[j + 1] (ll, P, E)).2 = r ∧
      (∀ i ≤ j, StepDefined func symbols ((fitStep func symbols)^[i] (ll, P, E))) ∧
      ∀ i ≤ j, (checkConvergence ((fitStep func symbols)^[i + 1] (ll, P, E)).1
        ((fitStep func symbols)^[i] (ll, P, E)).1
        ((fitStep func symbols)^[i + 1] (ll, P, E)).2.1 ((fitStep func symbols)^[i] (ll, P, E)).2.1
        ((fitStep func symbols)^[i + 1] (ll, P, E)).2.2 ((fitStep func symbols)^[i] (ll, P, E)).2.2 ↔
        i = j) := by
  induction fuel generalizing ll P E with
  | zero => cases h
  | succ fuel ih =>
    unfold fitLoop at h
    simp only at h
    split_ifs at h with h1 h2 h3
    · cases h
      push Not at h1 h2
      refine ⟨0, by omega, rfl, ?_, ?_⟩
      · intro i hi
        obtain rfl : i = 0 := by omega
        exact ⟨h1, h2⟩
      · intro i hi
        obtain rfl : i = 0 := by omega
        exact ⟨fun _ => rfl, fun _ => h3⟩
    · push Not at h1 h2
      obtain ⟨j, hj, e1, e2, e3⟩ := ih h
      refine ⟨j + 1, by omega, ?_, ?_, ?_⟩
      · rw [Function.iterate_succ_apply]
        exact e1
      · intro i hi
        cases i with
        | zero => exact ⟨h1, h2⟩
        | succ i =>
          rw [Function.iterate_succ_apply]
          exact e2 i (by omega)
      · intro i hi
        cases i with
        | zero => exact ⟨fun hc => absurd hc h3, fun hc => by omega⟩
        | succ i =>
          rw [Function.iterate_succ_apply, Function.iterate_succ_apply]
          refine (e3 i (by omega)).trans ?_
          omega

/-- If nothing is returned then one iteration has a null row, or none of the iterations converges. -/
theorem fitLoop_error {func : FitFunc n k} {symbols : List (List (Fin k))} {fuel : ℕ} {ll : ℝ}
    {P : Matrix (Fin n) (Fin n) ℝ} {E : Matrix (Fin n) (Fin k) ℝ} {e : Err}
    (h : fitLoop func symbols fuel ll P E = .error e) :
    (∃ j < fuel, ¬ StepDefined func symbols ((fitStep func symbols)^[j] (ll, P, E))) ∨
      ∀ i < fuel, ¬ checkConvergence ((fitStep func symbols)^[i + 1] (ll, P, E)).1
        ((fitStep func symbols)^[i] (ll, P, E)).1
        ((fitStep func symbols)^[i + 1] (ll, P, E)).2.1 ((fitStep func symbols)^[i] (ll, P, E)).2.1
        ((fitStep func symbols)^[i + 1] (ll, P, E)).2.2 ((fitStep func symbols)^[i] (ll, P, E)).2.2 := by
  induction fuel generalizing ll P E with
  | zero => exact Or.inr fun i hi => absurd hi (Nat.not_lt_zero i)
  | succ fuel ih =>
    unfold fitLoop at h
    simp only at h
    split_ifs at h with h1 h2 h3
    · refine Or.inl ⟨0, by omega, fun hd => ?_⟩
      obtain ⟨i, hi⟩ := h1
      exact hd.1 i hi
    · refine Or.inl ⟨0, by omega, fun hd => ?_⟩
      obtain ⟨i, hi⟩ := h2
      exact hd.2 i hi
    · cases h
    · rcases ih h with ⟨j, hj, hd⟩ | hall
      · refine Or.inl ⟨j + 1, by omega, ?_⟩
        rw [Function.iterate_succ_apply]
        exact hd
      · refine Or.inr fun i hi => ?_
        cases i with
        | zero => exact h3
        | succ i =>
          rw [Function.iterate_succ_apply, Function.iterate_succ_apply]
          exact hall i (by omega)

/-! ## Sums of counts -/

/-- The sums are the sums over the sequences with a result. -/
theorem sumResults_eq
    (l : List (Option (ℝ × Matrix (Fin n) (Fin n) ℝ × Matrix (Fin n) (Fin k) ℝ))) :
    (sumResults l).1 = ((l.filterMap id).map fun x => x.1).sum ∧
    (∀ i j, (sumResults l).2.1 i j = ((l.filterMap id).map fun x => x.2.1 i j).sum) ∧
    ∀ i j, (sumResults l).2.2 i j = ((l.filterMap id).map fun x => x.2.2 i j).sum := by
  have key : ∀ acc : ℝ × Matrix (Fin n) (Fin n) ℝ × Matrix (Fin n) (Fin k) ℝ,
      ∀ r, r = l.foldl addResult acc →
      r.1 = acc.1 + ((l.filterMap id).map fun x => x.1).sum ∧
      (∀ i j, r.2.1 i j = acc.2.1 i j + ((l.filterMap id).map fun x => x.2.1 i j).sum) ∧
      ∀ i j, r.2.2 i j = acc.2.2 i j + ((l.filterMap id).map fun x => x.2.2 i j).sum := by
    induction l with
    | nil => rintro acc r rfl; simp
    | cons a l ih =>
      rintro acc r hr
      rw [List.foldl_cons] at hr
      cases a with
      | none =>
        obtain ⟨h1, h2, h3⟩ := ih acc r hr
        simpa using ⟨h1, h2, h3⟩
      | some x =>
        obtain ⟨h1, h2, h3⟩ := ih _ r hr
        have e : (some x :: l).filterMap id = x :: l.filterMap id := by simp
        rw [e]
        simp only [List.map_cons, List.sum_cons]
        refine ⟨h1.trans (add_assoc _ _ _), fun i j => (h2 i j).trans (add_assoc _ _ _),
          fun i j => (h3 i j).trans (add_assoc _ _ _)⟩
  obtain ⟨h1, h2, h3⟩ := key (0, fun _ _ => 0, fun _ _ => 0) (sumResults l) rfl
  refine ⟨h1.trans (zero_add _), fun i j => (h2 i j).trans (zero_add _),
    fun i j => (h3 i j).trans (zero_add _)⟩

/-- The counts of a fitting function are not negative. -/
def CountsNonneg (func : FitFunc n k) (symbols : List (List (Fin k))) : Prop :=
  ∀ P E, (∀ i j, 0 ≤ P i j) → (∀ i j, 0 ≤ E i j) → ∀ ys ∈ symbols, ∀ x, func P E ys = some x →
    (∀ i j, 0 ≤ x.2.1 i j) ∧ ∀ i j, 0 ≤ x.2.2 i j

theorem fitStep_stochastic {func : FitFunc n k} {symbols : List (List (Fin k))}
    (hf : CountsNonneg func symbols) {x : ℝ × Matrix (Fin n) (Fin n) ℝ × Matrix (Fin n) (Fin k) ℝ}
    (hP : ∀ i j, 0 ≤ x.2.1 i j) (hE : ∀ i j, 0 ≤ x.2.2 i j) (hd : StepDefined func symbols x) :
    IsStochastic (fitStep func symbols x).2.1 ∧ IsStochastic (fitStep func symbols x).2.2 := by
  obtain ⟨-, h2, h3⟩ := sumResults_eq (symbols.map (func x.2.1 x.2.2))
  have hmem : ∀ y ∈ (symbols.map (func x.2.1 x.2.2)).filterMap id,
      (∀ i j, 0 ≤ y.2.1 i j) ∧ ∀ i j, 0 ≤ y.2.2 i j := by
    intro y hy
    rw [List.mem_filterMap] at hy
    obtain ⟨o, ho, rfl⟩ := hy
    rw [List.mem_map] at ho
    obtain ⟨ys, hys, ho⟩ := ho
    exact hf _ _ hP hE ys hys y ho
  have n1 : ∀ i j, 0 ≤ (sumResults (symbols.map (func x.2.1 x.2.2))).2.1 i j := by
    intro i j
    rw [h2]
    exact List.sum_nonneg fun z hz => by
      obtain ⟨y, hy, rfl⟩ := List.mem_map.1 hz
      exact (hmem y hy).1 i j
  have n2 : ∀ i j, 0 ≤ (sumResults (symbols.map (func x.2.1 x.2.2))).2.2 i j := by
    intro i j
    rw [h3]
    exact List.sum_nonneg fun z hz => by
      obtain ⟨y, hy, rfl⟩ := List.mem_map.1 hz
      exact (hmem y hy).2 i j
  exact ⟨normalizeRows_stochastic n1 fun i =>
      lt_of_le_of_ne (Finset.sum_nonneg fun j _ => n1 i j) (hd.1 i).symm,
    normalizeRows_stochastic n2 fun i =>
      lt_of_le_of_ne (Finset.sum_nonneg fun j _ => n2 i j) (hd.2 i).symm⟩

theorem iterate_stochastic {func : FitFunc n k} {symbols : List (List (Fin k))}
    (hf : CountsNonneg func symbols) {x : ℝ × Matrix (Fin n) (Fin n) ℝ × Matrix (Fin n) (Fin k) ℝ}
    (hP : ∀ i j, 0 ≤ x.2.1 i j) (hE : ∀ i j, 0 ≤ x.2.2 i j) (j : ℕ)
    (hd : ∀ i ≤ j, StepDefined func symbols ((fitStep func symbols)^[i] x)) :
    IsStochastic ((fitStep func symbols)^[j + 1] x).2.1 ∧
      IsStochastic ((fitStep func symbols)^[j + 1] x).2.2 := by
  induction j with
  | zero => exact fitStep_stochastic hf hP hE (hd 0 le_rfl)
  | succ j ih =>
    obtain ⟨h1, h2⟩ := ih fun i hi => hd i (by omega)
    rw [Function.iterate_succ_apply']
    exact fitStep_stochastic hf h1.1 h2.1 (hd (j + 1) le_rfl)

/-! ## The counts of the two fitting functions -/

theorem alpha_nonneg {P : Matrix (Fin n) (Fin n) ℝ} {E : Matrix (Fin n) (Fin k) ℝ}
    (hP : ∀ i j, 0 ≤ P i j) (hE : ∀ i j, 0 ≤ E i j) {f : Fin n → ℝ} (hf : ∀ i, 0 ≤ f i)
    (ys : List (Fin k)) (s : Fin n) : 0 ≤ alpha P E f ys s := by
  unfold alpha
  induction ys generalizing f with
  | nil => exact hf s
  | cons y ys ih =>
    exact ih fun i => mul_nonneg (hE _ _) (Finset.sum_nonneg fun j _ => mul_nonneg (hf j) (hP _ _))

theorem beta_nonneg {P : Matrix (Fin n) (Fin n) ℝ} {E : Matrix (Fin n) (Fin k) ℝ}
    (hP : ∀ i j, 0 ≤ P i j) (hE : ∀ i j, 0 ≤ E i j) (ys : List (Fin k)) (s : Fin n) :
    0 ≤ beta (fun i j => P i j) (fun i j => E i j) ys s := by
  induction ys generalizing s with
  | nil => rw [beta_nil]; exact zero_le_one
  | cons y ys ih =>
    rw [beta_cons]
    exact Finset.sum_nonneg fun j _ => mul_nonneg (hP _ _) (mul_nonneg (hE _ _) (ih j))

/-- The expected counts of Baum and Welch, given the symbols. -/
theorem baumWelch_spec {P : Matrix (Fin n) (Fin n) ℝ} {E : Matrix (Fin n) (Fin k) ℝ}
    {f : Fin n → ℝ} {ys : List (Fin k)} (hys : ys ≠ [])
    {x : ℝ × Matrix (Fin n) (Fin n) ℝ × Matrix (Fin n) (Fin k) ℝ}
    (h : baumWelch P E f ys = some x) :
    0 < likelihood (fun i j => P i j) (fun i j => E i j) f ys ∧
    x.1 = Real.log (likelihood (fun i j => P i j) (fun i j => E i j) f ys) ∧
    (∀ u v, x.2.1 u v = (∑ w : Fin ys.length, alpha P E f (ys.take w) u * P u v * E v ys[w] *
      beta (fun i j => P i j) (fun i j => E i j) (ys.drop (w + 1)) v) /
        likelihood (fun i j => P i j) (fun i j => E i j) f ys) ∧
    ∀ u y, x.2.2 u y = (∑ w : Fin ys.length, if ys[w] = y then alpha P E f (ys.take (w + 1)) u *
      beta (fun i j => P i j) (fun i j => E i j) (ys.drop (w + 1)) u else 0) /
        likelihood (fun i j => P i j) (fun i j => E i j) f ys := by
  unfold baumWelch at h
  rw [Option.map_eq_some_iff] at h
  obtain ⟨r, hr, rfl⟩ := h
  obtain ⟨hL, hll, -, hd⟩ := hmmDecode_spec hys hr
  obtain ⟨h1, h2, -, h4, h5, h6, -, h8, h9, -⟩ := decodeScaled_spec hys hd
  have hsplit : ∀ t (ht : t < r.2.factors.length), (r.2.factors.take t).prod * r.2.factors[t] *
      (r.2.factors.drop (t + 1)).prod = likelihood (fun i j => P i j) (fun i j => E i j) f ys := by
    intro t ht
    rw [← h4, ← List.prod_take_succ _ t ht, List.prod_take_mul_prod_drop]
  refine ⟨hL, hll, fun u v => ?_, fun u y => ?_⟩
  · change (∑ w : Fin ys.length, (r.2.backward.getD (w.val + 1) fun _ => 0) v *
      (r.2.forward.getD w.val fun _ => 0) u * P u v * E v (ys.get w) /
        r.2.factors.getD (w.val + 1) 0) = _
    rw [Finset.sum_div]
    refine Finset.sum_congr rfl fun w _ => ?_
    have hw := w.isLt
    have hb : w.val + 1 < r.2.backward.length := by omega
    have hf : w.val < r.2.forward.length := by omega
    have hc : w.val + 1 < r.2.factors.length := by omega
    rw [List.getD_eq_getElem _ _ hb, List.getD_eq_getElem _ _ hf, List.getD_eq_getElem _ _ hc,
      ← h8 w hf u, ← h9 (w + 1) hb v, ← hsplit (w + 1) hc]
    have p1 : (r.2.factors.take (w.val + 1)).prod ≠ 0 :=
      (List.prod_pos fun c hc => h1 c (List.mem_of_mem_take hc)).ne'
    have p2 : (r.2.factors.drop (w.val + 1 + 1)).prod ≠ 0 :=
      (List.prod_pos fun c hc => h1 c (List.mem_of_mem_drop hc)).ne'
    have p3 : r.2.factors[w.val + 1] ≠ 0 := (h1 _ (List.getElem_mem hc)).ne'
    have e : ys.get w = ys[w] := rfl
    rw [e]
    field_simp
  · change (∑ w : Fin ys.length, if ys.get w = y then (r.2.backward.getD (w.val + 1) fun _ => 0) u *
      (r.2.forward.getD (w.val + 1) fun _ => 0) u else 0) = _
    rw [Finset.sum_div]
    refine Finset.sum_congr rfl fun w _ => ?_
    have hw := w.isLt
    have e : ys.get w = ys[w] := rfl
    rw [e]
    split_ifs
    · have hb : w.val + 1 < r.2.backward.length := by omega
      have hf : w.val + 1 < r.2.forward.length := by omega
      have p1 : (r.2.factors.take (w.val + 1 + 1)).prod ≠ 0 :=
        (List.prod_pos fun c hc => h1 c (List.mem_of_mem_take hc)).ne'
      have p2 : (r.2.factors.drop (w.val + 1 + 1)).prod ≠ 0 :=
        (List.prod_pos fun c hc => h1 c (List.mem_of_mem_drop hc)).ne'
      have hL' : likelihood (fun i j => P i j) (fun i j => E i j) f ys =
          (r.2.factors.take (w.val + 1 + 1)).prod * (r.2.factors.drop (w.val + 1 + 1)).prod := by
        rw [← h4, List.prod_take_mul_prod_drop]
      rw [List.getD_eq_getElem _ _ hb, List.getD_eq_getElem _ _ hf, ← h8 (w + 1) hf u,
        ← h9 (w + 1) hb u, hL']
      field_simp
    · rw [zero_div]

theorem likelihood_eq_beta (P : Matrix (Fin n) (Fin n) K) (E : Matrix (Fin n) (Fin k) K)
    (f : Fin n → K) (ys : List (Fin k)) :
    likelihood (fun i j => P i j) (fun i j => E i j) f ys =
      ∑ s, f s * beta (fun i j => P i j) (fun i j => E i j) ys s := rfl

theorem baumWelch_nonneg {f : Fin n → ℝ} (hf : ∀ i, 0 ≤ f i) {ys : List (Fin k)} (hys : ys ≠ [])
    {P : Matrix (Fin n) (Fin n) ℝ} {E : Matrix (Fin n) (Fin k) ℝ}
    (hP : ∀ i j, 0 ≤ P i j) (hE : ∀ i j, 0 ≤ E i j)
    {x : ℝ × Matrix (Fin n) (Fin n) ℝ × Matrix (Fin n) (Fin k) ℝ}
    (h : baumWelch P E f ys = some x) : (∀ i j, 0 ≤ x.2.1 i j) ∧ ∀ i j, 0 ≤ x.2.2 i j := by
  obtain ⟨hL, -, h3, h4⟩ := baumWelch_spec hys h
  refine ⟨fun i j => ?_, fun i j => ?_⟩
  · rw [h3]
    exact div_nonneg (Finset.sum_nonneg fun w _ => mul_nonneg (mul_nonneg (mul_nonneg
      (alpha_nonneg hP hE hf _ _) (hP _ _)) (hE _ _)) (beta_nonneg hP hE _ _)) hL.le
  · rw [h4]
    refine div_nonneg (Finset.sum_nonneg fun w _ => ?_) hL.le
    split_ifs
    · exact mul_nonneg (alpha_nonneg hP hE hf _ _) (beta_nonneg hP hE _ _)
    · exact le_rfl

theorem fitPrediction_nonneg {rnd : ℝ → ℝ} {type : String} {f : Fin n → ℝ} {ys : List (Fin k)}
    {P : Matrix (Fin n) (Fin n) ℝ} {E : Matrix (Fin n) (Fin k) ℝ}
    {x : ℝ × Matrix (Fin n) (Fin n) ℝ × Matrix (Fin n) (Fin k) ℝ}
    (h : fitPrediction rnd type P E f ys = some x) :
    (∀ i j, 0 ≤ x.2.1 i j) ∧ ∀ i j, 0 ≤ x.2.2 i j := by
  unfold fitPrediction at h
  rw [Option.map_eq_some_iff] at h
  obtain ⟨r, hr, rfl⟩ := h
  have key : ∀ {m : ℕ} (M : Matrix (Fin n) (Fin m) ℕ) i j,
      0 ≤ normalizeOrNull (fun i j => (M i j : ℝ)) i j := by
    intro m M i j
    unfold normalizeOrNull
    split_ifs
    · exact le_rfl
    · exact abs_nonneg _
  exact ⟨fun i j => key _ i j, fun i j => key _ i j⟩

/-- The function used for a type of fitting. -/
noncomputable def fitFunc (rnd : ℝ → ℝ) (type : String) (init : Fin n → ℝ) : FitFunc n k :=
  fun P E => if type = "baum-welch" then baumWelch P E init else fitPrediction rnd type P E init

theorem fitFunc_nonneg (rnd : ℝ → ℝ) (type : String) {init : Fin n → ℝ} (hi : ∀ i, 0 ≤ init i)
    {symbols : List (List (Fin k))} (hs : ∀ ys ∈ symbols, ys ≠ []) :
    CountsNonneg (fitFunc rnd type init) symbols := by
  intro P E hP hE ys hys x hx
  unfold fitFunc at hx
  split_ifs at hx
  · exact baumWelch_nonneg hi (hs ys hys) hP hE hx
  · exact fitPrediction_nonneg hx

/-! ## The arguments -/

/-- The sequences described by an argument: a list of at least two sequences, or one sequence. -/
def SequencesOf (labels : List String) (v : PyVal K) (l : List (List ℕ)) : Prop :=
  (∃ vs, v = .list vs ∧ 2 ≤ vs.length ∧
    List.Forall₂ (fun x s => validateSequence x labels = .ok s) vs l) ∨
  ∃ s, validateSequence v labels = .ok s ∧ l = [s]

theorem validateSequencesFlex_ok {v : PyVal K} {labels : List String} {l : List (List ℕ)}
    (h : validateSequencesFlex v labels = .ok l) : SequencesOf labels v l := by
  unfold validateSequencesFlex at h
  split at h
  · next vs =>
    rw [R.ite_throw] at h
    obtain ⟨h0, h⟩ := h
    split_ifs at h with h1 h2
    · split at h
      · next r hr =>
        rw [R.pure_ok] at h
        subst h
        rw [mapM_R_eq_ok] at hr
        exact Or.inl ⟨vs, rfl, by omega, hr⟩
      · cases h
    · split at h
      · next r hr =>
        rw [R.pure_ok] at h
        subst h
        exact Or.inr ⟨r, hr, rfl⟩
      · cases h
  · cases h

theorem sequencesOf_ne_nil {v : PyVal K} {labels : List String} (hn : labels.Nodup)
    {l : List (List ℕ)} (h : SequencesOf labels v l) : l ≠ [] ∧ ∀ s ∈ l, 2 ≤ s.length := by
  have key : ∀ {x : PyVal K} {s}, validateSequence x labels = .ok s → 2 ≤ s.length := by
    intro x s hx
    rw [C04_sequences hn] at hx
    obtain ⟨vs, -, h2, -, h3⟩ := hx
    rw [← h3.length_eq]
    exact h2
  rcases h with ⟨vs, -, h1, h2⟩ | ⟨s, h1, rfl⟩
  · refine ⟨fun hl => ?_, fun s hs => ?_⟩
    · subst hl
      have := h2.length_eq
      rw [List.length_nil] at this
      omega
    · obtain ⟨i, hi, rfl⟩ := List.mem_iff_getElem.1 hs
      exact key ((List.forall₂_iff_get.1 h2).2 i (by rw [h2.length_eq]; exact hi) hi)
  · refine ⟨by simp, fun t ht => ?_⟩
    rw [List.mem_singleton] at ht
    rw [ht]
    exact key h1

/-- What is known about the arguments of `fit` when it succeeds. -/
structure FitArguments (type pGuess eGuess symbols status : PyVal ℝ) (m : HMM ℝ) (t : String)
    (l : List (List ℕ)) (P : Matrix (Fin m.n) (Fin m.n) ℝ) (E : Matrix (Fin m.n) (Fin m.k) ℝ)
    (init : Fin m.n → ℝ) : Prop where
  type_eq : validateEnumerator type ["baum-welch", "map", "mle", "viterbi"] = .ok t
  guess_p : validateTransitionMatrix pGuess (some m.n) = .ok ⟨m.n, P⟩
  guess_e : validateEmissionMatrix eGuess m.n = .ok ⟨m.k, E⟩
  sequences : SequencesOf m.symbols symbols l
  in_range : ∀ s ∈ l, ∀ y ∈ s, y < m.k
  status_eq : initialStatus status m.states m.n = .ok init

theorem hmmFitApi_ok {rnd : ℝ → ℝ} {type possibleStates possibleSymbols pGuess eGuess symbols
    status : PyVal ℝ} {m : HMM ℝ}
    (h : hmmFitApi rnd type possibleStates possibleSymbols pGuess eGuess symbols status = .ok m) :
    2 ≤ m.n ∧ ValidLabels m.n m.states ∧ 2 ≤ m.symbols.length ∧
    ValidLabels m.symbols.length m.symbols ∧ List.Disjoint m.states m.symbols ∧
    ∃ t l P E init, FitArguments type pGuess eGuess symbols status m t l P E init ∧
      hmmFit rnd t P E init (l.map (toStates m.k)) = .ok (m.p, m.e) := by
  unfold hmmFitApi at h
  rw [R.bind_ok] at h
  obtain ⟨t, ht, h⟩ := h
  rw [R.bind_ok] at h
  obtain ⟨ls, hls, h⟩ := h
  obtain ⟨h2, hv⟩ := validateLabelsInput_none hls
  rw [R.bind_ok] at h
  obtain ⟨lsy, hlsy, h⟩ := h
  obtain ⟨h2', hv'⟩ := validateLabelsInput_none hlsy
  rw [R.bind_ok] at h
  obtain ⟨⟨n, P⟩, hP, h⟩ := h
  obtain rfl : n = ls.length := (validateTransitionMatrix_sound hP).2 _ rfl
  rw [R.bind_ok] at h
  obtain ⟨⟨k, E⟩, hE, h⟩ := h
  rw [R.bind_ok] at h
  obtain ⟨l, hl, h⟩ := h
  rw [R.bind_ok] at h
  obtain ⟨init, hi, h⟩ := h
  rw [R.ite_throw] at h
  obtain ⟨hd, h⟩ := h
  rw [R.ite_throw] at h
  obtain ⟨hr, h⟩ := h
  rw [R.bind_ok] at h
  obtain ⟨r, hfit, h⟩ := h
  rw [R.pure_ok] at h
  subst h
  refine ⟨h2, hv, h2', hv', ?_, t, l, P, E, init, ⟨ht, hP, hE, validateSequencesFlex_ok hl, ?_, hi⟩, hfit⟩
  · intro x hx hx'
    refine hd ?_
    rw [List.any_eq_true]
    exact ⟨x, hx, decide_eq_true hx'⟩
  · intro s hs y hy
    by_contra hc
    refine hr ?_
    rw [List.any_eq_true]
    refine ⟨s, hs, ?_⟩
    rw [List.any_eq_true]
    exact ⟨y, hy, decide_eq_true (not_lt.1 hc)⟩

theorem toStates_ne {k : ℕ} {s : List ℕ} (hs : 2 ≤ s.length) (h : ∀ y ∈ s, y < k) :
    toStates k s ≠ [] := by
  intro h0
  have := toStates_val h
  rw [h0] at this
  rw [← this] at hs
  simp at hs

/-- C73. Every model returned by `fit` has stochastic matrices, obtained from the guesses by at most
500 iterations; the last iteration has changed the logarithm of the likelihood and the matrices by less
than the tolerance, and it is the first one to do so. -/
theorem C73_stochastic {rnd : ℝ → ℝ} {type possibleStates possibleSymbols pGuess eGuess symbols
    status : PyVal ℝ} {m : HMM ℝ}
    (h : hmmFitApi rnd type possibleStates possibleSymbols pGuess eGuess symbols status = .ok m) :
    IsStochastic m.p ∧ IsStochastic m.e ∧
    ∃ t l P E init, FitArguments type pGuess eGuess symbols status m t l P E init ∧
    ∃ x : ℕ → ℝ × Matrix (Fin m.n) (Fin m.n) ℝ × Matrix (Fin m.n) (Fin m.k) ℝ, ∃ j < 500,
      x 0 = (1, P, E) ∧
      (∀ i, x (i + 1) = fitStep (fitFunc rnd t init) (l.map (toStates m.k)) (x i)) ∧
      (x (j + 1)).2 = (m.p, m.e) ∧
      (∀ i ≤ j, StepDefined (fitFunc rnd t init) (l.map (toStates m.k)) (x i)) ∧
      ∀ i ≤ j, (checkConvergence (x (i + 1)).1 (x i).1 (x (i + 1)).2.1 (x i).2.1 (x (i + 1)).2.2
        (x i).2.2 ↔ i = j) := by
  obtain ⟨h1, h2, h3, h4, -, t, l, P, E, init, hargs, hfit⟩ := hmmFitApi_ok h
  obtain ⟨j, hj, e1, e2, e3⟩ := fitLoop_ok (func := fitFunc rnd t init) hfit
  have hnn : CountsNonneg (fitFunc rnd t init) (l.map (toStates m.k)) := by
    refine fitFunc_nonneg rnd t (initialStatus_nonneg h2 h1 hargs.status_eq) fun ys hys => ?_
    rw [List.mem_map] at hys
    obtain ⟨s, hs, rfl⟩ := hys
    exact toStates_ne ((sequencesOf_ne_nil h4.2.1 hargs.sequences).2 s hs) (hargs.in_range s hs)
  have hst := iterate_stochastic hnn (fun i j => ((validateTransitionMatrix_sound hargs.guess_p).1.2.1 i j).1)
    (fun i j => ((validateEmissionMatrix_sound hargs.guess_e).2.1 i j).1) j e2
  rw [e1] at hst
  refine ⟨hst.1, hst.2, t, l, P, E, init, hargs, fun i => (fitStep _ _)^[i] (1, P, E), j, hj, rfl,
    fun i => Function.iterate_succ_apply' _ _ _, e1, e2, e3⟩

/-- C73, an iteration. The new logarithm is the sum over the sequences with a result, and the new
matrices are the sums of their counts divided by the sums of the rows. -/
theorem C73_step (func : FitFunc n k) (symbols : List (List (Fin k)))
    (x : ℝ × Matrix (Fin n) (Fin n) ℝ × Matrix (Fin n) (Fin k) ℝ) :
    (fitStep func symbols x).1 = ((symbols.filterMap (func x.2.1 x.2.2)).map fun r => r.1).sum ∧
    (∀ i j, (fitStep func symbols x).2.1 i j =
      ((symbols.filterMap (func x.2.1 x.2.2)).map fun r => r.2.1 i j).sum /
        ∑ l, ((symbols.filterMap (func x.2.1 x.2.2)).map fun r => r.2.1 i l).sum) ∧
    ∀ i j, (fitStep func symbols x).2.2 i j =
      ((symbols.filterMap (func x.2.1 x.2.2)).map fun r => r.2.2 i j).sum /
        ∑ l, ((symbols.filterMap (func x.2.1 x.2.2)).map fun r => r.2.2 i l).sum := by
  obtain ⟨h1, h2, h3⟩ := sumResults_eq (symbols.map (func x.2.1 x.2.2))
  rw [List.filterMap_map, Function.id_comp] at h1 h2 h3
  refine ⟨h1, fun i j => ?_, fun i j => ?_⟩
  · change (sumResults _).2.1 i j / ∑ l, (sumResults _).2.1 i l = _
    rw [h2 i j, Finset.sum_congr rfl fun l _ => h2 i l]
  · change (sumResults _).2.2 i j / ∑ l, (sumResults _).2.2 i l = _
    rw [h3 i j, Finset.sum_congr rfl fun l _ => h3 i l]

/-- C73, the criterion. The iteration ends when the relative change of the logarithm and the mean
absolute changes of all rows of both matrices are below `1e-6`. -/
theorem C73_converged (ll ll' : ℝ) (P P' : Matrix (Fin n) (Fin n) ℝ) (E E' : Matrix (Fin n) (Fin k) ℝ) :
    checkConvergence ll ll' P P' E E' ↔ |ll - ll'| / (1 + |ll'|) < 1 / 10 ^ 6 ∧
      (∀ i, (∑ j, |P i j - P' i j|) / n < 1 / 10 ^ 6) ∧
      ∀ i, (∑ j, |E i j - E' i j|) / k < 1 / 10 ^ 6 := Iff.rfl

/-- C73. If the guess of the emission matrix has one column per symbol then the result is a valid
model. -/
theorem C73_fit_partial {rnd : ℝ → ℝ} {type possibleStates possibleSymbols pGuess eGuess symbols
    status : PyVal ℝ} {m : HMM ℝ}
    (h : hmmFitApi rnd type possibleStates possibleSymbols pGuess eGuess symbols status = .ok m)
    (hk : ∀ E, validateEmissionMatrix eGuess m.n = .ok E → E.1 = m.symbols.length) : m.Valid := by
  obtain ⟨h1, h2, h3, h4, h5, t, l, P, E, init, hargs, hfit⟩ := hmmFitApi_ok h
  obtain ⟨s1, s2, -⟩ := C73_stochastic h
  have hk' : m.k = m.symbols.length := hk _ hargs.guess_e
  exact ⟨h1, by omega, s1, s2, h2, hk' ▸ h4, h5⟩

/-! ## Instances -/

/-- Two states in alternation. -/
def clockP : Matrix (Fin 2) (Fin 2) ℝ := fun i j => if i = j then 0 else 1

/-- Every state emits its own symbol. -/
def clockE (k : ℕ) : Matrix (Fin 2) (Fin k) ℝ := fun i j => if i.val = j.val then 1 else 0

open Classical in
/-- A fixed point of the iteration is returned. -/
theorem hmmFit_fixed {rnd : ℝ → ℝ} {t : String} {P : Matrix (Fin n) (Fin n) ℝ}
    {E : Matrix (Fin n) (Fin k) ℝ} {init : Fin n → ℝ} {symbols : List (List (Fin k))}
    (hd : StepDefined (fitFunc rnd t init) symbols (1, P, E))
    (hf : (fitStep (fitFunc rnd t init) symbols (1, P, E)).2 = (P, E)) :
    hmmFit rnd t P E init symbols = .ok (P, E) := by
  have hP : normalizeRows (sumResults (symbols.map (fitFunc rnd t init P E))).2.1 = P :=
    congrArg Prod.fst hf
  have hE : normalizeRows (sumResults (symbols.map (fitFunc rnd t init P E))).2.2 = E :=
    congrArg Prod.snd hf
  obtain ⟨d1, d2⟩ := hd
  have step : ∀ fuel ll, fitLoop (fitFunc rnd t init) symbols (fuel + 1) ll P E =
      if checkConvergence (sumResults (symbols.map (fitFunc rnd t init P E))).1 ll P P E E then
        .ok (P, E)
      else fitLoop (fitFunc rnd t init) symbols fuel
        (sumResults (symbols.map (fitFunc rnd t init P E))).1 P E := by
    intro fuel ll
    rw [fitLoop]
    refine (if_neg (by push Not; exact d1)).trans ((if_neg (by push Not; exact d2)).trans ?_)
    rw [hP, hE]
    rfl
  have hc : ∀ ll : ℝ, checkConvergence ll ll P P E E := by
    intro ll
    refine ⟨by simp, fun i => by simp, fun i => by simp⟩
  change fitLoop (fitFunc rnd t init) symbols 500 1 P E = _
  rw [step 499]
  split_ifs
  · rfl
  · rw [step 498, if_pos (hc _)]

theorem clock_counts (k : ℕ) (u v : Fin k) (hu : u.val = 0) (hv : v.val = 1) :
    baumWelch clockP (clockE k) (fun s => if s = 0 then 1 else 0) [v, u] =
      some (0, clockP, clockE k) := by
  have b1 : ∀ s, beta (fun i j => clockP i j) (fun i j => clockE k i j) [u] s = if s = 1 then 1 else 0 := by
    intro s
    rw [beta_cons]
    simp only [beta_nil, Fin.sum_univ_two, clockP, clockE, hu]
    fin_cases s <;> simp
  have b2 : ∀ s, beta (fun i j => clockP i j) (fun i j => clockE k i j) [v, u] s =
      if s = 0 then 1 else 0 := by
    intro s
    rw [beta_cons, Fin.sum_univ_two, b1, b1]
    simp only [clockP, clockE, hv]
    fin_cases s <;> simp
  have L2 : likelihood (fun i j => clockP i j) (fun i j => clockE k i j)
      (fun s => if s = 0 then 1 else 0) [v, u] = 1 := by
    rw [likelihood_eq_beta]
    simp [b2]
  have L1 : likelihood (fun i j => clockP i j) (fun i j => clockE k i j)
      (fun s => if s = 0 then 1 else 0) [v] = 1 := by
    rw [likelihood_eq_beta, Fin.sum_univ_two, beta_cons, beta_cons]
    simp [beta_nil, clockP, clockE, hv]
  have a1 : ∀ s, alpha clockP (clockE k) (fun s => if s = 0 then 1 else 0) [v] s =
      if s = 1 then 1 else 0 := by
    intro s
    change clockE k s v * ∑ i, (if i = 0 then 1 else 0) * clockP i s = _
    simp only [Fin.sum_univ_two, clockP, clockE, hv]
    fin_cases s <;> simp
  have a2 : ∀ s, alpha clockP (clockE k) (fun s => if s = 0 then 1 else 0) [v, u] s =
      if s = 0 then 1 else 0 := by
    intro s
    change clockE k s u * ∑ i, alpha clockP (clockE k) (fun s => if s = 0 then 1 else 0) [v] i * clockP i s = _
    rw [Fin.sum_univ_two, a1, a1]
    simp only [clockP, clockE, hu]
    fin_cases s <;> simp
  obtain ⟨x, hx⟩ : ∃ x, baumWelch clockP (clockE k) (fun s => if s = 0 then 1 else 0) [v, u] = some x := by
    rw [← Option.ne_none_iff_exists']
    intro h
    unfold baumWelch at h
    rw [Option.map_eq_none_iff, hmmDecode_none] at h
    obtain ⟨t, ht, h⟩ := h
    change t < 2 at ht
    interval_cases t
    · change likelihood _ _ _ [v] < 1 / 10 ^ 300 at h
      rw [L1] at h
      exact absurd h (not_lt.2 (div_le_one_of_le₀ (one_le_pow₀ (by norm_num)) (by positivity)))
    · change likelihood _ _ _ [v, u] < likelihood _ _ _ [v] / 10 ^ 300 at h
      rw [L1, L2] at h
      exact absurd h (not_lt.2 (div_le_one_of_le₀ (one_le_pow₀ (by norm_num)) (by positivity)))
  obtain ⟨-, x1, x2, x3⟩ := baumWelch_spec (by simp) hx
  rw [hx]
  refine congrArg some (Prod.ext (by rw [x1, L2, Real.log_one]) (Prod.ext ?_ ?_))
  · funext i j
    rw [x2, L2, div_one]
    refine (Fin.sum_univ_two _).trans ?_
    change (if i = 0 then 1 else 0) * clockP i j * clockE k j v *
        beta (fun i j => clockP i j) (fun i j => clockE k i j) [u] j +
      alpha clockP (clockE k) (fun s => if s = 0 then 1 else 0) [v] i * clockP i j * clockE k j u *
        beta (fun i j => clockP i j) (fun i j => clockE k i j) [] j = clockP i j
    rw [b1, a1, beta_nil]
    simp only [clockP, clockE, hu, hv]
    fin_cases i <;> fin_cases j <;> simp
  · funext i j
    rw [x3, L2, div_one]
    refine (Fin.sum_univ_two _).trans ?_
    change (if v = j then alpha clockP (clockE k) (fun s => if s = 0 then 1 else 0) [v] i *
        beta (fun i j => clockP i j) (fun i j => clockE k i j) [u] i else 0) +
      (if u = j then alpha clockP (clockE k) (fun s => if s = 0 then 1 else 0) [v, u] i *
        beta (fun i j => clockP i j) (fun i j => clockE k i j) [] i else 0) = clockE k i j
    rw [b1, a1, a2, beta_nil]
    simp only [clockE, Fin.ext_iff, hu, hv]
    fin_cases i
    · by_cases h0 : 0 = j.val
      · simp [← h0]
      · simp [h0]
    · by_cases h1 : 1 = j.val
      · simp [← h1]
      · simp [h1]

theorem clock_fit (rnd : ℝ → ℝ) (k : ℕ) (u v : Fin k) (hu : u.val = 0) (hv : v.val = 1) :
    hmmFit rnd "baum-welch" clockP (clockE k) (fun s => if s = 0 then 1 else 0) [[v, u]] =
      .ok (clockP, clockE k) := by
  have hfun : (([[v, u]] : List (List (Fin k))).map
      (fitFunc rnd "baum-welch" (fun s => if s = 0 then 1 else 0) clockP (clockE k))) =
      [some (0, clockP, clockE k)] := by
    simp only [List.map_cons, List.map_nil, fitFunc, if_true, clock_counts k u v hu hv]
  obtain ⟨-, s2, s3⟩ := sumResults_eq (([[v, u]] : List (List (Fin k))).map
      (fitFunc rnd "baum-welch" (fun s => if s = 0 then 1 else 0) clockP (clockE k)))
  rw [hfun] at s2 s3
  have s2' : ∀ i j, (sumResults [some ((0 : ℝ), clockP, clockE k)]).2.1 i j = clockP i j := by
    intro i j; rw [s2]; simp
  have s3' : ∀ i j, (sumResults [some ((0 : ℝ), clockP, clockE k)]).2.2 i j = clockE k i j := by
    intro i j; rw [s3]; simp
  have r2 : ∀ i, ∑ j, clockP i j = 1 := by
    intro i
    simp only [clockP, Fin.sum_univ_two]
    fin_cases i <;> simp
  have r3 : ∀ i, ∑ j, clockE k i j = 1 := by
    intro i
    have hi : i.val < k := by have := v.isLt; have := i.isLt; omega
    rw [Finset.sum_eq_single (⟨i.val, hi⟩ : Fin k)]
    · simp [clockE]
    · intro b _ hb
      unfold clockE
      rw [if_neg fun h => hb (Fin.ext h.symm)]
    · intro h; exact absurd (Finset.mem_univ _) h
  refine hmmFit_fixed ⟨fun i => ?_, fun i => ?_⟩ ?_
  · rw [hfun, Finset.sum_congr rfl fun j _ => s2' i j, r2]
    exact one_ne_zero
  · rw [hfun, Finset.sum_congr rfl fun j _ => s3' i j, r3]
    exact one_ne_zero
  · change (normalizeRows (sumResults (List.map _ _)).2.1, normalizeRows (sumResults (List.map _ _)).2.2) = _
    rw [hfun]
    refine Prod.ext ?_ ?_
    · funext i j
      change (sumResults [some ((0 : ℝ), clockP, clockE k)]).2.1 i j /
        ∑ l, (sumResults [some ((0 : ℝ), clockP, clockE k)]).2.1 i l = _
      rw [Finset.sum_congr rfl fun j _ => s2' i j, r2, s2', div_one]
    · funext i j
      change (sumResults [some ((0 : ℝ), clockP, clockE k)]).2.2 i j /
        ∑ l, (sumResults [some ((0 : ℝ), clockP, clockE k)]).2.2 i l = _
      rw [Finset.sum_congr rfl fun j _ => s3' i j, r3, s3', div_one]

theorem validateTransitionMatrix_some {v : PyVal K} {P : Matrix (Fin n) (Fin n) K}
    (h : validateTransitionMatrix v none = .ok ⟨n, P⟩) :
    validateTransitionMatrix v (some n) = .ok ⟨n, P⟩ := by
  unfold validateTransitionMatrix at h ⊢
  split at h
  · next rows _ =>
    simp only [Option.any_none, Bool.false_eq_true, if_false] at h
    rw [R.ite_throw, R.bind_ok] at h
    obtain ⟨h1, p, h2, h3⟩ := h
    rw [R.pure_ok] at h3
    have hn : n = rows.length := (congrArg Sigma.fst h3).symm
    subst hn
    simp only [Option.any_some, bne_self_eq_false, Bool.false_eq_true, if_false]
    rw [R.ite_throw, R.bind_ok]
    exact ⟨h1, p, h2, by rw [R.pure_ok]; exact h3⟩
  · cases h
  · cases h

theorem clockP_stochastic : IsStochastic clockP := by
  refine ⟨fun i j => ?_, fun i => ?_⟩
  · unfold clockP; split_ifs <;> simp
  · simp only [clockP, Fin.sum_univ_two]
    fin_cases i <;> simp

theorem clockE_stochastic {k : ℕ} (hk : 2 ≤ k) : IsStochastic (clockE k) := by
  refine ⟨fun i j => ?_, fun i => ?_⟩
  · unfold clockE; split_ifs <;> simp
  · have hi : i.val < k := by have := i.isLt; omega
    rw [Finset.sum_eq_single (⟨i.val, hi⟩ : Fin k)]
    · simp [clockE]
    · intro b _ hb
      unfold clockE
      rw [if_neg fun h => hb (Fin.ext h.symm)]
    · intro h; exact absurd (Finset.mem_univ _) h

/-- An instance for every number of columns. -/
theorem clock_fit_api (rnd : ℝ → ℝ) {k : ℕ} (hk : 2 ≤ k) :
    hmmFitApi rnd (.str "baum-welch") (pyStrings ["a", "b"]) (pyStrings ["u", "v"])
      (pyMatrix clockP) (pyMatrix (clockE k)) (.list [.str "v", .str "u"]) (.str "a") =
      .ok ⟨2, k, clockP, clockE k, ["a", "b"], ["u", "v"]⟩ := by
  have sP := clockP_stochastic
  have sE := clockE_stochastic hk
  have a1 : validateTransitionMatrix (pyMatrix clockP) (some 2) = .ok ⟨2, clockP⟩ :=
    validateTransitionMatrix_some ((validateTransitionMatrix_iff clockP _ (Or.inl rfl) _).2
      ⟨⟨le_rfl, fun i j => ⟨sP.1 i j, by unfold clockP; split_ifs <;> simp⟩, fun i => by
        rw [sP.2 i, sub_self, abs_zero]; positivity⟩, rfl⟩)
  have a2 : validateEmissionMatrix (pyMatrix (clockE k)) 2 = .ok ⟨k, clockE k⟩ :=
    (validateEmissionMatrix_iff (by norm_num) (clockE k) _ (Or.inl rfl) _).2
      ⟨⟨hk, fun i j => ⟨sE.1 i j, by unfold clockE; split_ifs <;> simp⟩, fun i => by
        rw [sE.2 i, sub_self, abs_zero]; positivity⟩, rfl⟩
  have a3 : validateLabelsInput (pyStrings ["a", "b"] : PyVal ℝ) none = .ok ["a", "b"] := rfl
  have a4 : validateLabelsInput (pyStrings ["u", "v"] : PyVal ℝ) none = .ok ["u", "v"] := rfl
  have a5 : validateSequencesFlex (.list [.str "v", .str "u"] : PyVal ℝ) ["u", "v"] = .ok [[1, 0]] := rfl
  have a6 : initialStatus (.str "a" : PyVal ℝ) ["a", "b"] 2 = .ok fun s => if s = 0 then 1 else 0 := by
    have : initialStatus (.str "a" : PyVal ℝ) ["a", "b"] 2 = .ok (listVec (oneHot 2 0) 2) := rfl
    rw [this]
    refine congrArg Except.ok (funext fun i => ?_)
    fin_cases i <;> simp [listVec, oneHot]
  have a7 := clock_fit rnd k ⟨0, by omega⟩ ⟨1, by omega⟩ rfl rfl
  have a8 : toStates k [1, 0] = [⟨1, by omega⟩, ⟨0, by omega⟩] := by
    simp [toStates, show 1 < k by omega, show 0 < k by omega]
  unfold hmmFitApi
  rw [show validateEnumerator (.str "baum-welch" : PyVal ℝ) ["baum-welch", "map", "mle", "viterbi"] =
    .ok "baum-welch" from rfl]
  rw [R.ok_bind, a3, R.ok_bind, a4, R.ok_bind, show (["a", "b"] : List String).length = 2 from rfl,
    a1, R.ok_bind]
  dsimp only
  rw [a2, R.ok_bind, a5, R.ok_bind, a6, R.ok_bind]
  refine (if_neg (by decide)).trans ((if_neg ?_).trans ?_)
  · simp; omega
  · change (hmmFit rnd "baum-welch" clockP (clockE k) _ [toStates k [1, 0]] >>= _) = _
    rw [a8, a7]
    rfl

/-- The hypotheses of the theorems above can be met. -/
theorem C73_accepts (rnd : ℝ → ℝ) : ∃ m, hmmFitApi rnd (.str "baum-welch") (pyStrings ["a", "b"])
    (pyStrings ["u", "v"]) (pyMatrix clockP) (pyMatrix (clockE 2)) (.list [.str "v", .str "u"])
    (.str "a") = .ok m ∧ m.Valid :=
  ⟨_, clock_fit_api rnd le_rfl, le_rfl, le_rfl, clockP_stochastic, clockE_stochastic le_rfl,
    ⟨by decide, by decide, by decide⟩, ⟨by decide, by decide, by decide⟩, by
      rw [List.disjoint_left]; decide⟩

/-- The number of columns of the guess is not checked: `fit` returns a model with three emission
columns and two symbols. -/
theorem C73_extra_columns (rnd : ℝ → ℝ) : ∃ m, hmmFitApi rnd (.str "baum-welch")
    (pyStrings ["a", "b"]) (pyStrings ["u", "v"]) (pyMatrix clockP) (pyMatrix (clockE 3))
    (.list [.str "v", .str "u"]) (.str "a") = .ok m ∧ m.k = 3 ∧ m.symbols = ["u", "v"] ∧ ¬ m.Valid :=
  ⟨_, clock_fit_api rnd (by norm_num), rfl, rfl, fun h => by
    have := h.2.2.2.2.2.1.1
    revert this
    change (2 = 3) → False
    decide⟩

end Verif
