import Verif.Lemmas.Ladder
import Verif.Props.AcceptedCalls
import Verif.Props.Agreement
import Verif.Props.Ergodic
import Verif.Props.Generators
import Verif.Props.Rouwenhorst
import Verif.Props.Urn

/-!
# Generated models have the behaviour of the models they are named after (C142)

The generators build chains of well-known models. Here: the measures of these chains, as the methods
compute them, are the classical ones.
-/

set_option linter.unusedSectionVars false

namespace Verif

open Finset

variable {K : Type} [Field K] [LinearOrder K] [IsStrictOrderedRing K]

/-- What `hitting_probabilities` returns for one target. -/
theorem hitting_one {nnls : Nnls K} (hnn : Nnls.Sound nnls) {c : MC K} (hc : c.Valid) {v : PyVal K}
    {j : Fin c.n} (hl : validateLabelsCurrent v c.states false none = .ok [j.val]) :
    ∃ g, hittingProbabilities nnls c (some v) = .ok g ∧
      IsHittingProbability (fun i j => c.p i j) (· = j) g := by
  have hS : hittingTargets c (some v) = .ok (toStates c.n [j.val]) := by
    unfold hittingTargets
    simp only [hl]
    rfl
  obtain ⟨-, g, hg1, hg2⟩ := C43_hitting_probabilities hnn hc hS
  have hg := (hg2 g).2 rfl
  simp only [mem_toStates, List.mem_singleton, Fin.val_inj] at hg
  exact ⟨g, hg1, hg⟩

theorem geom_pos {γ : K} (hγ : 0 < γ) {m : ℕ} (hm : 0 < m) : 0 < ∑ k ∈ range m, γ ^ k :=
  Finset.sum_pos (fun k _ => pow_pos hγ k) (Finset.nonempty_range_iff.2 (by omega))

/-! ## Gambler's ruin -/

/-- C142, gambler's ruin. From a fortune `i` the gambler reaches the last state before ruin with
probability `(1 + ρ + … + ρ ^ (i - 1)) / (1 + ρ + … + ρ ^ (n - 2))`, where `ρ` is the ratio of the
chances of losing and of winning one game; in a fair game the mean number of games is `i (n - 1 - i)`,
and otherwise it follows from the chance of success. -/
theorem C142_gamblers_ruin {size w states : PyVal K} {c : MC K}
    (h : gamblersRuin size w states = .ok c) {x ρ : K} (hw : w = .float (.fin x))
    (hρ : ρ = (1 - x) / x) {sccs : List (List (Fin c.n))} (hs : IsClasses c.p sccs) :
    ∃ B t, absorptionProbabilities c sccs = .ok (some B) ∧
      meanAbsorptionTimes c sccs = .ok (some t) ∧
      (∀ i, i ∈ transientStatesIdx c.p sccs ↔ 0 < (i : ℕ) ∧ (i : ℕ) < c.n - 1) ∧
      (∀ a i, ((absorbingIdx c.p).get a : ℕ) = c.n - 1 → B a i =
        (∑ k ∈ range ((transientStatesIdx c.p sccs).get i : ℕ), ρ ^ k) / ∑ k ∈ range (c.n - 1), ρ ^ k) ∧
      (x = 1 / 2 → ∀ i, t i = ((transientStatesIdx c.p sccs).get i : ℕ) *
        (((c.n - 1 : ℕ) : K) - ((transientStatesIdx c.p sccs).get i : ℕ))) ∧
      (x ≠ 1 / 2 → ∀ i, t i = (((transientStatesIdx c.p sccs).get i : ℕ) -
        ((c.n - 1 : ℕ) : K) * ((∑ k ∈ range ((transientStatesIdx c.p sccs).get i : ℕ), ρ ^ k) /
          ∑ k ∈ range (c.n - 1), ρ ^ k)) / (1 - 2 * x)) := by
  obtain ⟨hc, hn, -, x', hx', hx0, hx1, habs, hrow, ha, hreach⟩ := C07_gamblers_ruin h
  have hxx : x' = x := by
    rw [hx'] at hw
    exact Flt.fin.inj (PyVal.float.inj hw)
  subst hxx
  have hAbs : ∀ i : Fin c.n, AbsorbingState c.p i ↔ ¬ (0 < (i : ℕ) ∧ (i : ℕ) < c.n - 1) := by
    intro i
    constructor
    · rintro hi ⟨h1, h2⟩
      have h3 : c.p i i = 1 := hi
      rw [hrow i i h1 h2, if_neg (by omega), if_neg (by omega)] at h3
      exact zero_ne_one h3
    · intro hi
      have := i.isLt
      exact habs i (by omega)
  have hT : ∀ i, i ∈ transientStatesIdx c.p sccs ↔ 0 < (i : ℕ) ∧ (i : ℕ) < c.n - 1 := fun i => by
    have h1 := not_transient_iff hc hs ha i
    rw [hAbs] at h1
    exact not_iff_not.1 h1
  have htr : ∃ i, TransientState c.p i :=
    ⟨⟨1, by omega⟩, (mem_transientStatesIdx hs _).1 ((hT _).2 ⟨by simp only; omega, by simp only; omega⟩)⟩
  have htol : ∀ i, isclose (c.p i i) 1 = true → c.p i i = 1 := by
    intro i hi
    by_cases h1 : 0 < (i : ℕ) ∧ (i : ℕ) < c.n - 1
    · rw [hrow i i h1.1 h1.2, if_neg (by omega), if_neg (by omega)] at hi
      unfold isclose at hi
      rw [decide_eq_true_eq] at hi
      norm_num at hi
    · exact (hAbs i).2 h1
  have hnear : NearMoves fun i j => c.p i j := by
    intro i j h1 h2 h3
    by_cases h4 : 0 < (i : ℕ) ∧ (i : ℕ) < c.n - 1
    · change c.p i j = 0
      rw [hrow i j h4.1 h4.2, if_neg h1, if_neg h3]
    · change c.p i j = 0
      rw [absorbing_row hc ((hAbs i).2 h4), if_neg]
      rintro rfl
      exact h2 rfl
  have hρ0 : 0 < ρ := by rw [hρ]; exact div_pos (sub_pos.2 hx1) hx0
  have hup : ∀ i u : Fin c.n, 0 < (i : ℕ) → (i : ℕ) < c.n - 1 → (u : ℕ) = i + 1 → c.p i u = x' :=
    fun i u h1 h2 h3 => by rw [hrow i u h1 h2, if_pos h3]
  have hdn : ∀ i d : Fin c.n, 0 < (i : ℕ) → (i : ℕ) < c.n - 1 → (d : ℕ) + 1 = i → c.p i d = 1 - x' :=
    fun i d h1 h2 h3 => by rw [hrow i d h1 h2, if_neg (by omega), if_pos h3]
  have hii : ∀ i : Fin c.n, 0 < (i : ℕ) → (i : ℕ) < c.n - 1 → c.p i i = 0 :=
    fun i h1 h2 => by rw [hrow i i h1 h2, if_neg (by omega), if_neg (by omega)]
  have hharm : ∀ i : Fin c.n, 0 < (i : ℕ) → (i : ℕ) < c.n - 1 →
      ∑ j, c.p i j * ∑ k ∈ range (j : ℕ), ρ ^ k = ∑ k ∈ range (i : ℕ), ρ ^ k := by
    intro i h1 h2
    refine NearMoves.harmonic (P := fun i j => c.p i j) hc.2.1 hnear
      (d := ⟨i - 1, by omega⟩) (u := ⟨i + 1, by omega⟩) (by simp only; omega) rfl ?_
    rw [hup i ⟨i + 1, by omega⟩ h1 h2 rfl, hdn i ⟨i - 1, by omega⟩ h1 h2 (by simp only; omega), hρ, div_mul_cancel₀ _ hx0.ne']
  obtain ⟨B, hB1, hB2⟩ := absorption_hitting hc hs ha htr htol
  obtain ⟨t, ht1, ht2⟩ := absorption_passage hc hs ha htr
  have hgeom := geom_pos hρ0 (show 0 < c.n - 1 by omega)
  have hmean : ∀ ψ : Fin c.n → K, (∀ i : Fin c.n, ¬ (0 < (i : ℕ) ∧ (i : ℕ) < c.n - 1) → ψ i = 0) →
      (∀ i d u : Fin c.n, 0 < (i : ℕ) → (i : ℕ) < c.n - 1 → (d : ℕ) + 1 = i → (u : ℕ) = i + 1 →
        ψ i = 1 + ((1 - x') * ψ d + x' * ψ u)) →
      IsPassageTime (fun i j => c.p i j) (fun i => AbsorbingState c.p i) ψ := by
    intro ψ h1 h2
    refine ⟨fun i hi => h1 i ((hAbs i).1 hi), fun i hi => ?_⟩
    change ¬ AbsorbingState c.p i at hi
    rw [hAbs, not_not] at hi
    have h3 := hnear.sum (i := i) (d := ⟨i - 1, by omega⟩) (u := ⟨i + 1, by omega⟩)
      (by simp only; omega) rfl ψ
    rw [h3, h2 i ⟨i - 1, by omega⟩ ⟨i + 1, by omega⟩ hi.1 hi.2 (by simp only; omega) rfl,
      hii i hi.1 hi.2, hup i ⟨i + 1, by omega⟩ hi.1 hi.2 rfl,
      hdn i ⟨i - 1, by omega⟩ hi.1 hi.2 (by simp only; omega)]
    ring
  refine ⟨B, t, hB1, ht1, hT, ?_, ?_, ?_⟩
  · intro a i hlast
    obtain ⟨g, hg, -⟩ := exists_hittingProbability (P := c.p) hc.2.1 (· = (absorbingIdx c.p).get a)
    rw [hB2 a g hg i]
    obtain ⟨b, hb⟩ : ∃ b, b = (absorbingIdx c.p).get a := ⟨_, rfl⟩
    rw [← hb] at hg hlast
    have := top_hitting (P := c.p) hc.2.1 (z := ⟨0, by omega⟩) (t := b)
      (habs _ (Or.inl rfl)) (fun e => by rw [← e] at hlast; simp only at hlast; omega) (fun i => ?_)
      (φ := fun i => ∑ k ∈ range (i : ℕ), ρ ^ k) (by simp) (by simp only [hlast]; exact hgeom.ne')
      (fun i h1 h2 => ?_) hg ((transientStatesIdx c.p sccs).get i)
    · simp only [hlast] at this
      exact this
    · by_cases h1 : 0 < (i : ℕ) ∧ (i : ℕ) < c.n - 1
      · exact ⟨⟨0, by omega⟩, Or.inl rfl, hreach i _ h1.1 h1.2 (Or.inl rfl)⟩
      · refine ⟨i, ?_, .refl i⟩
        have := i.isLt
        rcases Nat.eq_zero_or_pos (i : ℕ) with h2 | h2
        · exact Or.inl (Fin.ext h2)
        · exact Or.inr (Fin.ext (by omega))
    · refine hharm i (Nat.pos_of_ne_zero fun e => h1 (Fin.ext e)) ?_
      have := i.isLt
      have h3 : (i : ℕ) ≠ b := fun e => h2 (Fin.ext e)
      omega
  · rintro hhalf i
    refine ht2 (fun i => (i : ℕ) * (((c.n - 1 : ℕ) : K) - (i : ℕ))) (hmean _ ?_ ?_) i
    · intro j hj
      have := j.isLt
      rcases Nat.eq_zero_or_pos (j : ℕ) with h2 | h2
      · simp [h2]
      · have : (j : ℕ) = c.n - 1 := by omega
        simp [this]
    · intro j d u h1 h2 h3 h4
      rw [hhalf, h4, ← h3]
      push_cast
      ring
  · rintro hhalf i
    have h2x : 1 - 2 * x' ≠ 0 := fun e => hhalf (by linarith)
    refine ht2 (fun i => ((i : ℕ) - ((c.n - 1 : ℕ) : K) * ((∑ k ∈ range (i : ℕ), ρ ^ k) /
          ∑ k ∈ range (c.n - 1), ρ ^ k)) / (1 - 2 * x')) (hmean _ ?_ ?_) i
    · intro j hj
      have := j.isLt
      rcases Nat.eq_zero_or_pos (j : ℕ) with h2 | h2
      · simp [h2]
      · have : (j : ℕ) = c.n - 1 := by omega
        simp only [this]
        rw [div_self hgeom.ne', mul_one, sub_self, zero_div]
    · intro j d u h1 h2 h3 h4
      have h5 := hharm j h1 h2
      rw [hnear.sum h3 h4 (fun j => ∑ k ∈ range (j : ℕ), ρ ^ k), hii j h1 h2, zero_mul, add_zero,
        hup j _ h1 h2 h4, hdn j _ h1 h2 h3] at h5
      rw [eq_comm, ← sub_eq_zero]
      have hg' := hgeom.ne'
      obtain ⟨S, hS⟩ : ∃ S, S = ∑ k ∈ range (c.n - 1), ρ ^ k := ⟨_, rfl⟩
      obtain ⟨f, hf⟩ : ∃ f : ℕ → K, f = fun m => ∑ k ∈ range m, ρ ^ k := ⟨_, rfl⟩
      have hf' : ∀ m, ∑ k ∈ range m, ρ ^ k = f m := fun m => by rw [hf]
      simp only [hf'] at h5 hg' ⊢
      have e1 : ((u : ℕ) : K) = (j : ℕ) + 1 := by rw [h4]; push_cast; ring
      have e2 : ((j : ℕ) : K) = (d : ℕ) + 1 := by rw [← h3]; push_cast; ring
      have e3 := mul_inv_cancel₀ h2x
      rw [← h5, e1, e2]
      simp only [div_eq_mul_inv]
      linear_combination -e3

/-- A fair gambler's ruin with five states, started in the middle: success has probability one half,
and four games are played on average. -/
example : ∃ c : MC ℚ, gamblersRuin (.int 5) (.float (.fin (1 / 2))) .none = .ok c :=
  ⟨_, C07_accepts (n := 5) (by norm_num) (by norm_num) (by norm_num)⟩

/-! ## Population genetics -/

/-- From the inner places of a line the ends can be reached. -/
theorem ends_reach {n : ℕ} {P : Fin n → Fin n → K} {z t : Fin n}
    (ht : (t : ℕ) = n - 1) (h : ∀ i : Fin n, (i : ℕ) + 1 < n → Reach P i z) (i : Fin n) :
    ∃ b, (b = z ∨ b = t) ∧ Reach P i b := by
  have := i.isLt
  by_cases hi : (i : ℕ) + 1 < n
  · exact ⟨z, Or.inl rfl, h i hi⟩
  · exact ⟨i, Or.inr (Fin.ext (by omega)), Relation.ReflTransGen.refl⟩

/-- C142, Moran model. Without mutation, and with a selection intensity `s` below one, the first type
takes over from `i` individuals with probability `(1 + γ + … + γ ^ (i - 1)) / (1 + γ + … + γ ^ (n - 1))`
with `γ = 1 / (1 - s)`; without selection that is `i / n`. -/
theorem C142_moran {nnls : Nnls K} (hnn : Nnls.Sound nnls) {n states v : PyVal K} {s γ : K} {c : MC K}
    (h : populationGenetics (.str "moran") n (.float (.fin s)) (.float (.fin 0)) (.float (.fin 0))
      states = .ok c) (hs : s < 1) (hγ : γ = 1 / (1 - s))
    (hl : validateLabelsCurrent v c.states false none = .ok [c.n - 1]) :
    ∃ g, hittingProbabilities nnls c (some v) = .ok g ∧
      (∀ i, g i = (∑ k ∈ range (i : ℕ), γ ^ k) / ∑ k ∈ range (c.n - 1), γ ^ k) ∧
      (s = 0 → ∀ i, g i = (i : ℕ) / ((c.n - 1 : ℕ) : K)) := by
  obtain ⟨hc, hn, ⟨s', u', v', hs', hu', hv', hrow⟩, hnear, habs⟩ :=
    C09_moran_partial h fun x hx => by
      rw [← Flt.fin.inj (PyVal.float.inj hx)]; exact hs.le
  have e1 := Flt.fin.inj (PyVal.float.inj hs')
  have e2 := Flt.fin.inj (PyVal.float.inj hu')
  have e3 := Flt.fin.inj (PyVal.float.inj hv')
  subst e1 e2 e3
  have hc2 := hc.1
  obtain ⟨t, ht⟩ : ∃ t : Fin c.n, (t : ℕ) = c.n - 1 := ⟨⟨c.n - 1, by omega⟩, rfl⟩
  rw [← ht] at hl
  obtain ⟨g, hg1, hg2⟩ := hitting_one hnn hc hl
  have hrow' := hrow (c.n - 1) (by rw [hn]; congr 1; omega)
  have hs0 : 0 < 1 - s := sub_pos.2 hs
  have hN : (0 : K) < ((c.n - 1 : ℕ) : K) := by exact_mod_cast (by omega : 0 < c.n - 1)
  have hγ0 : 0 < γ := by rw [hγ]; exact div_pos one_pos hs0
  have hpos : ∀ i : Fin c.n, 0 < (i : ℕ) → (i : ℕ) < c.n - 1 →
      (0 : K) < (i : ℕ) ∧ (0 : K) < ((c.n - 1 : ℕ) : K) - (i : ℕ) ∧
      (0 : K) < ((c.n - 1 : ℕ) : K) * ((1 - s) * (i : ℕ) + (((c.n - 1 : ℕ) : K) - (i : ℕ))) := by
    intro i h1 h2
    have p1 : (0 : K) < (i : ℕ) := by exact_mod_cast h1
    have p2 : (0 : K) < ((c.n - 1 : ℕ) : K) - (i : ℕ) := sub_pos.2 (by exact_mod_cast h2)
    exact ⟨p1, p2, mul_pos hN (add_pos (mul_pos hs0 p1) p2)⟩
  have hdn : ∀ i d : Fin c.n, (d : ℕ) + 1 = i → (i : ℕ) + 1 < c.n → 0 < c.p i d := by
    intro i d h1 h2
    obtain ⟨p1, p2, p3⟩ := hpos i (by omega) (by omega)
    have h3 := (hrow' i d (by omega) (by omega)).2 h1
    refine (mul_pos_iff_of_pos_right p3).1 ?_
    rw [h3]
    simp only [mul_zero, sub_zero, mul_one, zero_add]
    exact mul_pos p1 p2
  have key := top_hitting (P := c.p) hc.2.1 (z := ⟨0, by omega⟩) (t := t) (habs _ (Or.inl rfl))
    (fun e => by rw [← e] at ht; simp only at ht; omega)
    (ends_reach ht (reach_bottom (P := fun i j => c.p i j) hdn rfl))
    (φ := fun i => ∑ k ∈ range (i : ℕ), γ ^ k) (by simp)
    (by simp only [ht]; exact (geom_pos hγ0 (by omega)).ne') (fun i h1 h2 => ?_) hg2
  · refine ⟨g, hg1, fun i => ?_, fun hs0 i => ?_⟩
    · rw [key i]
      simp only [ht]
    · rw [key i]
      have : γ = 1 := by rw [hγ, hs0]; simp
      simp [this, ht]
  · have h3 : 0 < (i : ℕ) := Nat.pos_of_ne_zero fun e => h1 (Fin.ext e)
    have h4 : (i : ℕ) < c.n - 1 := by
      have := i.isLt
      have : (i : ℕ) ≠ t := fun e => h2 (Fin.ext e)
      omega
    refine NearMoves.harmonic (P := fun i j => c.p i j) hc.2.1 hnear
      (d := ⟨i - 1, by omega⟩) (u := ⟨i + 1, by omega⟩) (by simp only; omega) rfl ?_
    obtain ⟨p1, p2, p3⟩ := hpos i h3 h4
    have h5 := (hrow' i ⟨i + 1, by omega⟩ h3 h4).1 rfl
    have h6 := (hrow' i ⟨i - 1, by omega⟩ h3 h4).2 (by simp only; omega)
    refine mul_right_cancel₀ p3.ne' ?_
    rw [mul_assoc]
    change c.p i _ * _ = γ * (c.p i _ * _)
    rw [h5, h6, hγ]
    field_simp
    ring

/-- The mean of the binomial law. -/
theorem binomPmf_mean (N : ℕ) (q : K) :
    ∑ j : Fin (N + 1), binomPmf N q j * ((j : ℕ) : K) = N * q := by
  cases N with
  | zero => simp
  | succ N =>
    rw [Fin.sum_univ_succ]
    simp only [Fin.val_zero, Nat.cast_zero, mul_zero, zero_add]
    have h1 : ∀ j : Fin (N + 1), binomPmf (N + 1) q (j.succ : ℕ) * ((j.succ : ℕ) : K) =
        (N + 1 : ℕ) * q * binomPmf N q (j : ℕ) := by
      intro j
      unfold binomPmf
      have h2 : ((N + 1).choose ((j : ℕ) + 1) : K) * ((j : ℕ) + 1 : ℕ) =
          ((N + 1 : ℕ) : K) * (N.choose (j : ℕ) : K) := by
        exact_mod_cast (Nat.add_one_mul_choose_eq N (j : ℕ)).symm
      rw [Fin.val_succ, Nat.add_sub_add_right]
      rw [pow_succ]
      linear_combination q ^ (j : ℕ) * q * (1 - q) ^ (N - (j : ℕ)) * h2
    rw [Finset.sum_congr rfl fun j _ => h1 j, ← Finset.mul_sum, binomPmf_sum, mul_one]

/-- C142, Wright-Fisher model. Without mutation and selection the number of individuals of the first
type keeps its mean, and this type takes over from `i` individuals with probability `i / n`. -/
theorem C142_wright_fisher {nnls : Nnls K} (hnn : Nnls.Sound nnls) {n states v : PyVal K} {c : MC K}
    (h : populationGenetics (.str "wright-fisher") n (.float (.fin 0)) (.float (.fin 0))
      (.float (.fin 0)) states = .ok c)
    (hl : validateLabelsCurrent v c.states false none = .ok [c.n - 1]) :
    (∀ i, ∑ j, c.p i j * ((j : ℕ) : K) = (i : ℕ)) ∧
    ∃ g, hittingProbabilities nnls c (some v) = .ok g ∧
      ∀ i, g i = (i : ℕ) / ((c.n - 1 : ℕ) : K) := by
  obtain ⟨N, s', u', v', hn, hs', hu', hv', hN, hcn, hc, habs, hrow⟩ := C10_wright_fisher h
  have e1 := Flt.fin.inj (PyVal.float.inj hs')
  have e2 := Flt.fin.inj (PyVal.float.inj hu')
  have e3 := Flt.fin.inj (PyVal.float.inj hv')
  subst e1 e2 e3
  have hN0 : (0 : K) < (N : K) := by exact_mod_cast (by omega : 0 < N)
  have hN' : c.n - 1 = N := by omega
  have hq : ∀ i : Fin c.n, 0 < (i : ℕ) → (i : ℕ) < N → ∀ j : Fin c.n,
      c.p i j = binomPmf N ((i : ℕ) / (N : K)) j := by
    intro i h1 h2 j
    obtain ⟨q, -, -, h3, h4⟩ := hrow i h1 h2
    have : q = (i : ℕ) / (N : K) := by simpa using h3
    rw [h4, this]
    rfl
  have hmean : ∀ i, ∑ j, c.p i j * ((j : ℕ) : K) = (i : ℕ) := by
    intro i
    by_cases hi : 0 < (i : ℕ) ∧ (i : ℕ) < N
    · rw [Finset.sum_congr rfl fun j _ => by rw [hq i hi.1 hi.2 j]]
      have h1 : ∑ j : Fin c.n, binomPmf N ((i : ℕ) / (N : K)) (j : ℕ) * ((j : ℕ) : K) =
          ∑ j : Fin (N + 1), binomPmf N ((i : ℕ) / (N : K)) (j : ℕ) * ((j : ℕ) : K) :=
        Fintype.sum_equiv (finCongr hcn) _ _ fun j => rfl
      rw [h1, binomPmf_mean, mul_div_cancel₀ _ hN0.ne']
    · have hi' := i.isLt
      have h1 := absorbing_row hc (habs i (by omega))
      rw [Finset.sum_congr rfl fun j _ => by rw [h1 j]]
      simp
  refine ⟨hmean, ?_⟩
  obtain ⟨t, ht⟩ : ∃ t : Fin c.n, (t : ℕ) = c.n - 1 := ⟨⟨c.n - 1, by omega⟩, rfl⟩
  rw [← ht] at hl
  obtain ⟨g, hg1, hg2⟩ := hitting_one hnn hc hl
  refine ⟨g, hg1, fun i => ?_⟩
  have hz : ∀ i : Fin c.n, (i : ℕ) + 1 < c.n → Reach (fun i j => c.p i j) i ⟨0, by omega⟩ := by
    intro i hi
    by_cases h0 : (i : ℕ) = 0
    · have : i = ⟨0, by omega⟩ := Fin.ext h0
      rw [← this]
      exact Relation.ReflTransGen.refl
    · refine Relation.ReflTransGen.single ?_
      change 0 < c.p i _
      rw [hq i (by omega) (by omega)]
      unfold binomPmf
      have : (i : ℕ) / (N : K) < 1 := by
        rw [div_lt_one hN0]
        exact_mod_cast (by omega : (i : ℕ) < N)
      simp only [Nat.choose_zero_right, Nat.cast_one, pow_zero, one_mul]
      exact pow_pos (sub_pos.2 this) _
  have key := top_hitting (P := c.p) hc.2.1 (z := ⟨0, by omega⟩) (t := t) (habs _ (Or.inl rfl))
    (fun e => by rw [← e] at ht; simp only at ht; omega) (ends_reach ht hz)
    (φ := fun i => ((i : ℕ) : K)) (by simp) (by simp only [ht, hN']; exact hN0.ne')
    (fun i _ _ => hmean i) hg2 i
  rw [key]
  simp only [ht]

/-! ## Urn models -/

/-- C142, urn models. Both chains are irreducible, so that `pi` returns the binomial law (Ehrenfest) and
the squared binomial law (Bernoulli-Laplace). The mean distance to the even split shrinks by the factor
`1 - 1 / k` in each step. The Ehrenfest chain has period two, the Bernoulli-Laplace chain is ergodic. -/
theorem C142_urn {model n states : PyVal K} {c : MC K} (h : urnModel model n states = .ok c)
    {nx : Nx c.n} (hx : nx.Sound c.p) :
    ∃ (k : ℕ) (hcn : c.n = 2 * k + 1), n = .int k ∧
      (model = .str "ehrenfest" → Irreducible c.p ∧
        pi c nx.sccs = .ok [fun i => ehrenfestLaw k (i.cast hcn)] ∧
        (∀ i, ∑ j, c.p i j * (((j : ℕ) : K) - k) = (1 - 1 / (k : K)) * ((i : ℕ) - k)) ∧
        period c nx = 2 ∧ isRegular c = false) ∧
      (model = .str "bernoulli-laplace" → Irreducible c.p ∧
        pi c nx.sccs = .ok [fun i => bernoulliLaplaceLaw k (i.cast hcn)] ∧
        (∀ i, ∑ j, c.p i j * (((j : ℕ) : K) - k) = (1 - 1 / (k : K)) * ((i : ℕ) - k)) ∧
        period c nx = 1 ∧ isRegular c = true) := by
  obtain ⟨k, hk, hn, hcn, hc, hnear, hE, hB⟩ := C08_urn_models h
  refine ⟨k, hcn, hn, fun hm => ?_, fun hm => ?_⟩
  · obtain ⟨hmv, -, hst⟩ := hE hm
    have hk0 : (0 : K) < k := by exact_mod_cast hk
    have h2k : ((2 * k : ℕ) : K) = 2 * k := by push_cast; ring
    have hle : ∀ i : Fin c.n, (i : ℕ) + 1 < c.n → (i : ℕ) / ((2 * k : ℕ) : K) < 1 := fun i hi => by
      rw [div_lt_one (by rw [h2k]; linarith)]
      exact_mod_cast (by omega : (i : ℕ) < 2 * k)
    have hge : ∀ i : Fin c.n, 0 < (i : ℕ) → 0 < (i : ℕ) / ((2 * k : ℕ) : K) := fun i hi =>
      div_pos (by exact_mod_cast hi) (by rw [h2k]; linarith)
    have hirr : Irreducible fun i j => c.p i j := by
      refine near_irreducible (fun i u hu => ?_) fun i d hd => ?_
      · rw [(hmv i u).1 hu]
        exact sub_pos.2 (hle i (by have := u.isLt; omega))
      · rw [(hmv i d).2 hd]
        exact hge i (by omega)
    have hmean := fun (i : Fin c.n) (f : ℕ → K) => NearMoves.mean (P := fun i j => c.p i j) hnear
      (i := i) (up := 1 - (i : ℕ) / ((2 * k : ℕ) : K)) (dn := (i : ℕ) / ((2 * k : ℕ) : K))
      (fun u hu => (hmv i u).1 hu)
      (fun e => by
        have : (i : ℕ) = 2 * k := by omega
        rw [this, div_self (by rw [h2k]; positivity), sub_self])
      (fun d hd => (hmv i d).2 hd) (fun e => by rw [e]; simp) f
    have hstay : ∀ i, c.p i i = 0 := fun i => by
      have h1 := hmean i fun _ => 1
      simp only [mul_one] at h1
      rw [hc.2.1.2 i] at h1
      linear_combination -h1
    have hpar : ∀ {m : ℕ} {i : Fin c.n}, ReachIn (fun i j => c.p i j) m i i → 2 ∣ m := by
      intro m i hr
      have := parity_return (P := fun i j => c.p i j) (fun i j he => by
        by_contra hne
        by_cases e : j = i
        · rw [e] at he
          have he' : 0 < c.p i i := he
          rw [hstay i] at he'
          exact lt_irrefl 0 he'
        · have e' : (j : ℕ) ≠ i := fun e2 => e (Fin.ext e2)
          have he' : 0 < c.p i j := he
          rw [hnear i j (by omega) e' (by omega)] at he'
          exact lt_irrefl 0 he') hr
      omega
    obtain ⟨x, hx1, hx2, -, hx4⟩ := C34_stationary hc hx.sccs hirr
    obtain ⟨d, -, hd, -, hper, -⟩ := C32_irreducible_partial hc hx hirr
    refine ⟨hirr, by rw [hx1, hx4 _ hst], fun i => ?_, ?_, ?_⟩
    · have h1 := hmean i fun m => (m : K) - k
      have h2 : (((i : ℕ) + 1 : ℕ) : K) = (i : ℕ) + 1 := by push_cast; ring
      have h3 : (i : ℕ) / ((2 * k : ℕ) : K) * ((((i : ℕ) - 1 : ℕ) : K) - k) =
          (i : ℕ) / ((2 * k : ℕ) : K) * ((i : ℕ) - 1 - k) := by
        by_cases e : (i : ℕ) = 0
        · rw [e]; simp
        · rw [Nat.cast_sub (by omega)]; simp
      rw [h1, hstay i, h3, h2, h2k]
      field_simp
      ring
    · rw [hper]
      refine Nat.dvd_antisymm ((hd ⟨0, by omega⟩).1 2 ?_) ((hd ⟨0, by omega⟩).2 2 fun m hm => hpar hm)
      refine ReachIn.step (ReachIn.step (ReachIn.refl _) (j := ⟨0, by omega⟩) (l := ⟨1, by omega⟩) ?_) ?_
      · change 0 < c.p _ _
        rw [(hmv _ _).1 rfl]
        exact sub_pos.2 (hle _ (by simp only; omega))
      · change 0 < c.p _ _
        rw [(hmv _ _).2 rfl]
        exact hge _ (by simp)
    · rw [Bool.eq_false_iff]
      intro hreg
      have he := (ergodic_iff_primitive hc.2.1).2 ((C31_regular hc).1 hreg)
      have := (he.2 ⟨0, by omega⟩).2 2 fun m hm => hpar hm
      omega
  · obtain ⟨hmv, -, hst⟩ := hB hm
    have hk0 : (0 : K) < k := by exact_mod_cast hk
    have h2k : ((2 * k : ℕ) : K) = 2 * k := by push_cast; ring
    have hirr : Irreducible fun i j => c.p i j := by
      refine near_irreducible (fun i u hu => ?_) fun i d hd => ?_
      · rw [(hmv i u).1 hu]
        refine pow_pos (sub_pos.2 ?_) 2
        rw [div_lt_one (by rw [h2k]; linarith)]
        exact_mod_cast (by have := u.isLt; omega : (i : ℕ) < 2 * k)
      · rw [(hmv i d).2 hd]
        exact pow_pos (div_pos (by exact_mod_cast (by omega : 0 < (i : ℕ))) (by rw [h2k]; linarith)) 2
    have hmean := fun (i : Fin c.n) (f : ℕ → K) => NearMoves.mean (P := fun i j => c.p i j) hnear
      (i := i) (up := (1 - (i : ℕ) / ((2 * k : ℕ) : K)) ^ 2) (dn := ((i : ℕ) / ((2 * k : ℕ) : K)) ^ 2)
      (fun u hu => (hmv i u).1 hu)
      (fun e => by
        have : (i : ℕ) = 2 * k := by omega
        rw [this, div_self (by rw [h2k]; positivity), sub_self]
        simp)
      (fun d hd => (hmv i d).2 hd) (fun e => by rw [e]; simp) f
    have hstay : ∀ i, c.p i i = 1 - (1 - (i : ℕ) / ((2 * k : ℕ) : K)) ^ 2 -
        ((i : ℕ) / ((2 * k : ℕ) : K)) ^ 2 := fun i => by
      have h1 := hmean i fun _ => 1
      simp only [mul_one] at h1
      rw [hc.2.1.2 i] at h1
      linear_combination -h1
    have herg : Ergodic fun i j => c.p i j := by
      refine ergodic_of_loop hirr (s := ⟨k, by omega⟩) ?_
      rw [hstay, h2k]
      simp only
      have : (k : K) / (2 * k) = 1 / 2 := by field_simp
      rw [this]
      norm_num
    obtain ⟨x, hx1, hx2, -, hx4⟩ := C34_stationary hc hx.sccs hirr
    obtain ⟨d, -, hd, -, hper, -⟩ := C32_irreducible_partial hc hx hirr
    refine ⟨hirr, by rw [hx1, hx4 _ hst], fun i => ?_, ?_,
      (C31_regular hc).2 ((ergodic_iff_primitive hc.2.1).1 herg)⟩
    · have h1 := hmean i fun m => (m : K) - k
      have h2 : (((i : ℕ) + 1 : ℕ) : K) = (i : ℕ) + 1 := by push_cast; ring
      have h3 : ((i : ℕ) / ((2 * k : ℕ) : K)) ^ 2 * ((((i : ℕ) - 1 : ℕ) : K) - k) =
          ((i : ℕ) / ((2 * k : ℕ) : K)) ^ 2 * ((i : ℕ) - 1 - k) := by
        by_cases e : (i : ℕ) = 0
        · rw [e]; simp
        · rw [Nat.cast_sub (by omega)]; simp
      rw [h1, hstay i, h3, h2, h2k]
      field_simp
      ring
    · rw [hper]
      have i0 : Fin c.n := ⟨0, by omega⟩
      exact Nat.dvd_antisymm ((herg.2 i0).2 d (hd i0).1) (one_dvd _)

/-! ## Birth and death -/

/-- The unnormalised stationary weights of a birth-death chain. -/
def ladderWeight (a b : ℕ → K) (m : ℕ) : K := ∏ k ∈ range m, a k / b (k + 1)

/-- C142, birth-death chains. With births possible in every state but the last and deaths in every state
but the first (and no probability below the tolerance of C11) the chain is irreducible and reversible,
and `pi` returns the normalised products of the ratios `p k / q (k + 1)`. -/
theorem C142_birth_death {p q states : PyVal K} {c : MC K} (h : birthDeath p q states = .ok c)
    (h2 : 2 ≤ c.n) {sccs : List (List (Fin c.n))} (hsc : IsClasses c.p sccs) {a b : ℕ → K}
    (hp : p = floatVec fun i : Fin c.n => a i) (hq : q = floatVec fun i : Fin c.n => b i)
    (ha : ∀ i : ℕ, i + 1 < c.n → 1 / 10 ^ 8 < a i) (ha' : a (c.n - 1) = 0)
    (hb : ∀ i : ℕ, 0 < i → i < c.n → 1 / 10 ^ 8 < b i) (hb' : b 0 = 0)
    (hab : ∀ i : ℕ, i < c.n → a i + b i = 1 ∨ 1 / 10 ^ 8 < 1 - a i - b i) :
    Irreducible c.p ∧ DetailedBalance c.p (fun i => ladderWeight a b i) ∧
      pi c sccs = .ok [fun i => ladderWeight a b i / ∑ j : Fin c.n, ladderWeight a b j] := by
  obtain ⟨hv, -, hnear, hmv⟩ := C11_birth_death_partial h
  have hc := hv h2
  obtain ⟨ε, hε⟩ : ∃ ε : K, ε = 1 / 10 ^ 8 := ⟨_, rfl⟩
  have hε0 : 0 < ε := by rw [hε]; positivity
  rw [← hε] at ha hb hab hmv
  obtain ⟨hup, hdn, -⟩ := hmv _ _ hp hq
    (fun i => by
      by_cases e : (i : ℕ) + 1 < c.n
      · exact Or.inr (ha i e)
      · have : (i : ℕ) = c.n - 1 := by have := i.isLt; omega
        exact Or.inl (by simp only [this, ha']))
    (fun i => by
      by_cases e : (i : ℕ) = 0
      · exact Or.inl (by simp only [e, hb'])
      · exact Or.inr (hb i (by omega) i.isLt))
    (fun i => hab i i.isLt)
  have hirr : Irreducible fun i j => c.p i j := by
    refine near_irreducible (fun i u hu => ?_) fun i d hd => ?_
    · rw [hup i u hu]
      exact hε0.trans (ha i (by have := u.isLt; omega))
    · rw [hdn i d hd.symm]
      exact hε0.trans (hb i (by omega) i.isLt)
  have hbal : DetailedBalance c.p (fun i => ladderWeight a b i) := by
    refine balance_of_neighbours (fun i j h1 h2 h3 => hnear i j h2 h1 (Ne.symm h3)) fun i j hij => ?_
    rw [hup i j hij, hdn j i hij, hij]
    unfold ladderWeight
    rw [Finset.prod_range_succ]
    have : b ((i : ℕ) + 1) ≠ 0 := (hε0.trans (hb _ (by omega) (by have := j.isLt; omega))).ne'
    rw [mul_assoc, div_mul_cancel₀ _ this]
  have hw : ∀ m : ℕ, m < c.n → 0 < ladderWeight a b m := fun m hm => by
    refine Finset.prod_pos fun k hk => ?_
    have := Finset.mem_range.1 hk
    exact div_pos (hε0.trans (ha k (by omega))) (hε0.trans (hb _ (by omega) (by omega)))
  have hs : 0 < ∑ j : Fin c.n, ladderWeight a b j :=
    Finset.sum_pos (fun j _ => hw j j.isLt) ⟨⟨0, by omega⟩, mem_univ _⟩
  refine ⟨hirr, hbal, ?_⟩
  obtain ⟨x, hx1, hx2, -, hx4⟩ := C34_stationary hc hsc hirr
  rw [hx1, hx4 _ (stationary_of_balance hc.2.1 (d := fun i : Fin c.n =>
    ladderWeight a b i / ∑ j : Fin c.n, ladderWeight a b j)
    ⟨fun i => div_nonneg (hw i i.isLt).le hs.le, ?_⟩ fun i j => ?_)]
  · rw [← Finset.sum_div, div_self hs.ne']
  · have := hbal i j
    simp only at this ⊢
    rw [div_mul_eq_mul_div, div_mul_eq_mul_div, this]

/-! ## Rouwenhorst -/

theorem rwN_pos {z : K} (h0 : 0 < z) (h1 : z < 1) (n : ℕ) : ∀ {a b : ℕ}, a < n + 2 → b < n + 2 →
    0 < rwN z n a b := by
  have h1' : 0 < 1 - z := sub_pos.2 h1
  induction n with
  | zero =>
    intro a b ha hb
    interval_cases a <;> interval_cases b <;> simp [rwN, rouwenhorst, h0, h1]
  | succ n ih =>
    intro a b ha hb
    have hnn := fun x y => rwN_nonneg h0.le h1.le n x y
    have key : 0 < rwSum z n a b := by
      unfold rwSum
      have t1 : 0 ≤ z * rwN z n a b := mul_nonneg h0.le (hnn _ _)
      have t2 : 0 ≤ (if 1 ≤ b then (1 - z) * rwN z n a (b - 1) else 0) := by
        split
        · exact mul_nonneg h1'.le (hnn _ _)
        · exact le_rfl
      have t3 : 0 ≤ (if 1 ≤ a then (1 - z) * rwN z n (a - 1) b else 0) := by
        split
        · exact mul_nonneg h1'.le (hnn _ _)
        · exact le_rfl
      have t4 : 0 ≤ (if 1 ≤ a ∧ 1 ≤ b then z * rwN z n (a - 1) (b - 1) else 0) := by
        split
        · exact mul_nonneg h0.le (hnn _ _)
        · exact le_rfl
      by_cases ea : a < n + 2
      · by_cases eb : b < n + 2
        · have := mul_pos h0 (ih ea eb)
          linarith
        · have : 0 < (if 1 ≤ b then (1 - z) * rwN z n a (b - 1) else 0) := by
            rw [if_pos (by omega)]
            exact mul_pos h1' (ih ea (by omega))
          linarith
      · by_cases eb : b < n + 2
        · have : 0 < (if 1 ≤ a then (1 - z) * rwN z n (a - 1) b else 0) := by
            rw [if_pos (by omega)]
            exact mul_pos h1' (ih (by omega) eb)
          linarith
        · have : 0 < (if 1 ≤ a ∧ 1 ≤ b then z * rwN z n (a - 1) (b - 1) else 0) := by
            rw [if_pos (by omega)]
            exact mul_pos h0 (ih (by omega) (by omega))
          linarith
    rw [rwN_succ ha hb]
    split
    · exact half_pos key
    · exact key

theorem rouwenhorst_pos {size alpha sigma states : PyVal K} {r : K} {c : MC K}
    (h : approximationRouwenhorst size alpha sigma (.float (.fin r)) states = .ok c) (h0 : -1 < r)
    (h1 : r < 1) (i j : Fin c.n) : 0 < c.p i j := by
  unfold approximationRouwenhorst at h
  rw [R.bind_ok] at h
  obtain ⟨z, hz, h⟩ := h
  rw [R.bind_ok] at h
  obtain ⟨_, -, h⟩ := h
  rw [R.bind_ok] at h
  obtain ⟨_, -, h⟩ := h
  rw [R.bind_ok] at h
  obtain ⟨r', hr, h⟩ := h
  rw [R.bind_ok] at h
  obtain ⟨l, hl, h⟩ := h
  rw [R.pure_ok] at h
  subst h
  obtain ⟨hr', -, -⟩ := validateFloat_closed hr
  have e := Flt.fin.inj (PyVal.float.inj hr')
  subst e
  change 0 < rouwenhorst _ _ i j
  rw [rwN_fin]
  exact rwN_pos (by linarith) (by linarith) _ i.isLt j.isLt

/-- C142, Rouwenhorst approximation. With an autocorrelation strictly between `-1` and `1` every
transition is possible, so that the chain is regular and `pi` returns the binomial law; the mean of the
grid value after `t` steps is `rho ^ t` times the current one, as for the autoregressive process. -/
theorem C142_rouwenhorst {size alpha sigma states : PyVal K} {r : K} {c : MC K}
    (h : approximationRouwenhorst size alpha sigma (.float (.fin r)) states = .ok c) (h0 : -1 < r)
    (h1 : r < 1) {sccs : List (List (Fin c.n))} (hsc : IsClasses c.p sccs) :
    (∀ i j, 0 < c.p i j) ∧ isRegular c = true ∧ pi c sccs = .ok [binomialHalf c.n] ∧
      ∀ (t : ℕ) (i : Fin c.n),
        ∑ j : Fin c.n, (c.p ^ t) i j * (2 * ((j : ℕ) : K) / ((c.n - 1 : ℕ) : K) - 1) =
          r ^ t * (2 * ((i : ℕ) : K) / ((c.n - 1 : ℕ) : K) - 1) := by
  obtain ⟨-, hc, -, hst, r', hr', -, -, hmean⟩ := C18_rouwenhorst h
  have e := Flt.fin.inj (PyVal.float.inj hr')
  subst e
  have hpos := rouwenhorst_pos h h0 h1
  have hirr : Irreducible fun i j => c.p i j := fun i j => Relation.ReflTransGen.single (hpos i j)
  have hc2 := hc.1
  obtain ⟨x, hx1, hx2, -, hx4⟩ := C34_stationary hc hsc hirr
  refine ⟨hpos, (C31_regular hc).2 ((ergodic_iff_primitive hc.2.1).1
    (ergodic_of_loop hirr (hpos ⟨0, by omega⟩ ⟨0, by omega⟩))), by rw [hx1, hx4 _ hst], ?_⟩
  intro t
  induction t with
  | zero =>
    intro i
    simp [Matrix.one_apply]
  | succ t ih =>
    intro i
    have e1 : ∀ j, (c.p ^ (t + 1)) i j = ∑ k, c.p i k * (c.p ^ t) k j := fun j => by
      rw [pow_succ', Matrix.mul_apply]
    rw [Finset.sum_congr rfl fun j _ => by rw [e1 j, Finset.sum_mul], Finset.sum_comm]
    rw [Finset.sum_congr rfl (g := fun k => c.p i k * (r ^ t * (2 * ((k : ℕ) : K) / ((c.n - 1 : ℕ) : K) - 1)))
      fun k _ => by rw [← ih k, Finset.mul_sum]; exact Finset.sum_congr rfl fun j _ => by ring]
    rw [pow_succ, mul_assoc, ← hmean i, Finset.mul_sum]
    exact Finset.sum_congr rfl fun k _ => by ring

/-! ## Concrete cases -/

/-- The last state of five, named by its position. -/
example : validateLabelsCurrent (.int 4 : PyVal ℚ) (createLabels 5 "") false none = .ok [5 - 1] := by
  decide +kernel

example : ∃ c : MC ℚ, populationGenetics (.str "moran") (.int 4) (.float (.fin (1 / 2))) (.float (.fin 0))
    (.float (.fin 0)) .none = .ok c := by
  refine (C140_population_genetics _ _ _ _ _ _).2 ⟨4, 1 / 2, 0, 0, ⟨rfl, by norm_num⟩, by norm_num, rfl,
    by norm_num, rfl, le_refl _, by norm_num, rfl, le_refl _, by norm_num, Or.inl rfl, Or.inr ⟨rfl, ?_⟩⟩
  intro i h1 h2 h3
  interval_cases i <;> norm_num at h3

example : ∃ c : MC ℚ, populationGenetics (.str "wright-fisher") (.int 4) (.float (.fin 0))
    (.float (.fin 0)) (.float (.fin 0)) .none = .ok c :=
  (C140_population_genetics _ _ _ _ _ _).2 ⟨4, 0, 0, 0, ⟨rfl, by norm_num⟩, by norm_num, rfl,
    by norm_num, rfl, le_refl _, by norm_num, rfl, le_refl _, by norm_num, Or.inl rfl,
    Or.inl ⟨rfl, by norm_num, by norm_num⟩⟩

example : (∃ c : MC ℚ, urnModel (.str "ehrenfest") (.int 2) .none = .ok c) ∧
    ∃ c : MC ℚ, urnModel (.str "bernoulli-laplace") (.int 2) .none = .ok c :=
  C08_accepts (k := 2) (by norm_num)

/-- Births with probability one half in the first two of three states, deaths with probability one half
in the last two. -/
theorem C142_birth_death_instance : ∃ c : MC ℚ, ∃ a b : ℕ → ℚ, c.n = 3 ∧
    birthDeath (floatVec fun i : Fin c.n => a i) (floatVec fun i : Fin c.n => b i) .none = .ok c ∧
    (∀ i : ℕ, i + 1 < c.n → 1 / 10 ^ 8 < a i) ∧ a (c.n - 1) = 0 ∧
    (∀ i : ℕ, 0 < i → i < c.n → 1 / 10 ^ 8 < b i) ∧ b 0 = 0 ∧
    ∀ i : ℕ, i < c.n → a i + b i = 1 ∨ 1 / 10 ^ 8 < 1 - a i - b i := by
  refine ⟨⟨3, birthDeathMatrix (listVec [1 / 2, 1 / 2, 0] 3) (listVec [0, 1 / 2, 1 / 2] 3),
    createLabels 3 ""⟩, fun i => if i < 2 then 1 / 2 else 0, fun i => if i = 0 then 0 else 1 / 2, rfl,
    ?_, ?_, rfl, ?_, rfl, ?_⟩
  · have h1 : validateVector (floatVec fun i : Fin 3 => if (i : ℕ) < 2 then 1 / 2 else 0 : PyVal ℚ)
      .creation false none = .ok [1 / 2, 1 / 2, 0] := by decide +kernel
    have h2 : validateVector (floatVec fun i : Fin 3 => if (i : ℕ) = 0 then 0 else 1 / 2 : PyVal ℚ)
      .annihilation false none = .ok [0, 1 / 2, 1 / 2] := by decide +kernel
    unfold birthDeath
    simp only
    rw [h1, R.ok_bind, h2, R.ok_bind]
    erw [R.ok_bind]
    rw [if_neg (by decide), if_neg (by decide +kernel)]
    rfl
  · intro i (hi : i + 1 < 3)
    have : i < 2 := by omega
    interval_cases i <;> norm_num
  · intro i h0 (hi : i < 3)
    interval_cases i <;> norm_num
  · intro i (hi : i < 3)
    interval_cases i <;> norm_num

example : ∃ c : MC ℚ, approximationRouwenhorst (.int 5) (.float (.fin 0)) (.float (.fin 1))
    (.float (.fin (1 / 2))) .none = .ok c :=
  C18_accepts (n := 5) (by norm_num) (by norm_num) (by norm_num) (by norm_num)

end Verif
