import Verif.Lemmas.Spectral
import Verif.Spec.Spectral
import Verif.Model.Spectral
import Verif.Props.Passage
import Verif.Props.Times
import Mathlib.Tactic.FinCases

/-!
# The second largest eigenvalue modulus and the implied timescales (C86, C87)
-/

set_option linter.unusedSectionVars false

namespace Verif

open Finset

variable {n : ℕ} {P : Matrix (Fin n) (Fin n) ℝ}

theorem isEigenvalue_iff {z : ℂ} : IsEigenvalue (fun i j => P i j) z ↔
    z ∈ (P.map (algebraMap ℝ ℂ)).charpoly.roots := by
  refine ⟨?_, fun h => exists_eigenvector h⟩
  rintro ⟨v, hv, h⟩
  refine Polynomial.mem_roots'.2 ⟨(Matrix.charpoly_monic _).ne_zero, ?_⟩
  change (P.map (algebraMap ℝ ℂ)).charpoly.eval z = 0
  rw [Matrix.eval_charpoly]
  refine Matrix.exists_mulVec_eq_zero_iff.1 ⟨v, hv, ?_⟩
  rw [Matrix.sub_mulVec]
  funext i
  have h4 : (Matrix.scalar (Fin n) z).mulVec v i = z * v i := by
    rw [Matrix.scalar_apply, Matrix.mulVec_diagonal]
  have h5 : (P.map (algebraMap ℝ ℂ)).mulVec v i = ∑ j, (P i j : ℂ) * v j := rfl
  change (Matrix.scalar (Fin n) z).mulVec v i - (P.map (algebraMap ℝ ℂ)).mulVec v i = 0
  rw [h4, h5, h i, sub_self]

/-- The eigenvalues of an ergodic chain: one, and others of modulus less than one. -/
theorem eigenvalues_split (hP : IsStochastic fun i j => P i j) (he : Ergodic fun i j => P i j)
    {x : Fin n → ℝ} (hx : IsStationary (fun i j => P i j) x) {ev : List ℂ} (hev : EigvalsSound P ev) :
    ev.Perm (1 :: ev.erase 1) ∧ (∀ z ∈ ev.erase 1, z ≠ 1 ∧ ‖z‖ < 1) ∧
      (∀ z ∈ ev, z ≠ 1 → z ∈ ev.erase 1) ∧ ev.length = n := by
  unfold EigvalsSound at hev
  have hc := count_one hP he.1 hx
  rw [hev, Multiset.coe_count] at hc
  have hmem : (1 : ℂ) ∈ ev := List.count_pos_iff.1 (by omega)
  have hcard := card_roots (P := P)
  rw [hev, Multiset.coe_card] at hcard
  refine ⟨List.perm_cons_erase hmem, ?_, fun z hz hz1 => (List.mem_erase_of_ne hz1).2 hz, hcard⟩
  intro z hz
  have hz1 : z ≠ 1 := by
    rintro rfl
    have h1 := List.count_pos_iff.2 hz
    rw [List.count_erase_self] at h1
    omega
  have hz' : z ∈ (P.map (algebraMap ℝ ℂ)).charpoly.roots := by
    rw [hev]
    exact List.mem_of_mem_erase hz
  obtain ⟨v, hv, h⟩ := exists_eigenvector hz'
  refine ⟨hz1, lt_of_le_of_ne (eigen_norm_le hP hv h) fun hn => hz1 (eigen_eq_one hP he hv h hn)⟩

theorem eigenvaluesSorted_eq (hP : IsStochastic fun i j => P i j) (he : Ergodic fun i j => P i j)
    {x : Fin n → ℝ} (hx : IsStationary (fun i j => P i j) x) {ev : List ℂ} (hev : EigvalsSound P ev) :
    eigenvaluesSorted ev
      = ((ev.erase 1).map fun z => ‖z‖).insertionSort (· ≤ ·) ++ [1] := by
  obtain ⟨h1, h2, -, -⟩ := eigenvalues_split hP he hx hev
  unfold eigenvaluesSorted
  have hp := List.perm_insertionSort (· ≤ ·) ((ev.erase 1).map fun z => ‖z‖)
  refine List.Perm.eq_of_pairwise (le := (· ≤ ·)) (fun a b _ _ h1 h2 => le_antisymm h1 h2)
    (List.pairwise_insertionSort _ _) ?_ ?_
  · refine List.pairwise_append.2 ⟨List.pairwise_insertionSort _ _, List.pairwise_singleton _ _, ?_⟩
    intro a ha b hb
    rw [List.mem_singleton.1 hb]
    obtain ⟨z, hz, rfl⟩ := List.mem_map.1 (hp.mem_iff.1 ha)
    exact (h2 z hz).2.le
  · refine (List.perm_insertionSort _ _).trans ((h1.map _).trans ?_)
    rw [List.map_cons, norm_one]
    refine List.Perm.trans ?_ (List.perm_append_comm (l₁ := [1]))
    exact (hp.symm).cons 1

/-! ## The second largest modulus -/

theorem isclose_one_one : isclose (1 : ℝ) 1 = true := isclose_self 1

theorem slemOf_eq (hP : IsStochastic fun i j => P i j) (he : Ergodic fun i j => P i j)
    {x : Fin n → ℝ} (hx : IsStationary (fun i j => P i j) x) (hn : 2 ≤ n) {ev : List ℂ}
    (hev : EigvalsSound P ev) (hgap : ∀ z ∈ ev, z ≠ 1 → isclose ‖z‖ 1 = false) :
    ∃ s, IsSecondModulus (fun i j => P i j) s ∧ 0 ≤ s ∧ s < 1 ∧
      slemOf ev = .ok (if s ≤ 1 / 10 ^ 8 then none else some s) := by
  obtain ⟨h1, h2, h3, h4⟩ := eigenvalues_split hP he hx hev
  obtain ⟨l, hl⟩ : ∃ l, l = ((ev.erase 1).map fun z => ‖z‖).insertionSort (· ≤ ·) := ⟨_, rfl⟩
  have hp : l.Perm ((ev.erase 1).map fun z => ‖z‖) := hl ▸ List.perm_insertionSort _ _
  have hsorted : l.Pairwise (· ≤ ·) := hl ▸ List.pairwise_insertionSort _ _
  have hfil : (eigenvaluesSorted ev).filter (fun x => !isclose x 1) = l := by
    rw [eigenvaluesSorted_eq hP he hx hev, ← hl, List.filter_append]
    have ha : l.filter (fun x => !isclose x 1) = l := by
      refine List.filter_eq_self.2 fun a ha => ?_
      obtain ⟨z, hz, rfl⟩ := List.mem_map.1 (hp.mem_iff.1 ha)
      rw [hgap z (List.mem_of_mem_erase hz) (h2 z hz).1]
      rfl
    have hb : [(1 : ℝ)].filter (fun x => !isclose x 1) = [] := by
      rw [List.filter_singleton, isclose_one_one]
      rfl
    rw [ha, hb, List.append_nil]
  have hne : l ≠ [] := by
    intro h0
    have := h1.length_eq
    rw [List.length_cons, h4] at this
    have h5 := hp.length_eq
    rw [h0, List.length_nil, List.length_map] at h5
    omega
  have hlast := List.getLast?_eq_some_getLast hne
  obtain ⟨s, hs⟩ : ∃ s, s = l.getLast hne := ⟨_, rfl⟩
  have hsm : s ∈ l := hs ▸ List.getLast_mem hne
  obtain ⟨z, hz, hzs⟩ := List.mem_map.1 (hp.mem_iff.1 hsm)
  have hroot : ∀ w, IsEigenvalue (fun i j => P i j) w ↔ w ∈ ev := by
    intro w
    rw [isEigenvalue_iff]
    unfold EigvalsSound at hev
    rw [hev, Multiset.mem_coe]
  have h0 : 0 ≤ s := by rw [← hzs]; exact norm_nonneg z
  refine ⟨s, ⟨⟨z, (hroot z).2 (List.mem_of_mem_erase hz), (h2 z hz).1, hzs⟩, ?_⟩, h0, ?_, ?_⟩
  · intro w hw hw1
    have hwl : ‖w‖ ∈ l := hp.mem_iff.2 (List.mem_map.2 ⟨w, h3 w ((hroot w).1 hw) hw1, rfl⟩)
    rw [← List.dropLast_append_getLast hne] at hwl hsorted
    rcases List.mem_append.1 hwl with h5 | h5
    · rw [hs]
      exact (List.pairwise_append.1 hsorted).2.2 _ h5 _ (List.mem_singleton.2 rfl)
    · rw [hs, List.mem_singleton.1 h5]
  · rw [← hzs]
    exact (h2 z hz).2
  · unfold slemOf
    rw [hfil, hlast, ← hs]
    change Except.ok _ = _
    congr 1
    by_cases hsmall : s ≤ 1 / 10 ^ 8
    · rw [if_pos ((isclose_zero_iff h0).2 hsmall), if_pos hsmall]
    · rw [if_neg (fun h => hsmall ((isclose_zero_iff h0).1 h)), if_neg hsmall]

/-- C86 (partial). For an ergodic chain whose eigenvalues other than one have moduli that are not
close to one, let `s` be the largest of these moduli. It is below one. If `s` is close to zero the
four quantities are `None`; otherwise they are `s`, `1 - s`, `1 / (1 - s)` and `-1 / log s`. For a
chain that is not ergodic they are `None`. Missing: chains with other moduli close to one
(`C86_near_one`). -/
theorem C86_second_modulus_partial {c : MC ℝ} (hc : c.Valid) {nx : Nx c.n} (hx : nx.Sound c.p)
    {ev : List ℂ} (hev : EigvalsSound c.p ev)
    (hgap : ∀ z ∈ ev, z ≠ 1 → isclose ‖z‖ 1 = false) :
    (Ergodic c.p → ∃ s, IsSecondModulus c.p s ∧ 0 ≤ s ∧ s < 1 ∧
      (s ≤ 1 / 10 ^ 8 → slem c nx ev = .ok none ∧ spectralGap c nx ev = .ok none ∧
        relaxationRate c nx ev = .ok none ∧ mixingRate c nx ev = .ok none) ∧
      (1 / 10 ^ 8 < s → slem c nx ev = .ok (some s) ∧ spectralGap c nx ev = .ok (some (1 - s)) ∧
        relaxationRate c nx ev = .ok (some (1 / (1 - s))) ∧
        mixingRate c nx ev = .ok (some (-1 / Real.log s)) ∧ 0 < -1 / Real.log s)) ∧
    (¬ Ergodic c.p → slem c nx ev = .ok none ∧ spectralGap c nx ev = .ok none ∧
      relaxationRate c nx ev = .ok none ∧ mixingRate c nx ev = .ok none) := by
  have hnone : slem c nx ev = .ok none → slem c nx ev = .ok none ∧ spectralGap c nx ev = .ok none ∧
      relaxationRate c nx ev = .ok none ∧ mixingRate c nx ev = .ok none := by
    intro h
    unfold spectralGap relaxationRate mixingRate
    rw [h]
    exact ⟨rfl, rfl, rfl, rfl⟩
  constructor
  · intro he
    obtain ⟨y, -, hy, -, -⟩ := C34_stationary hc hx.sccs he.1
    obtain ⟨s, h1, h2, h3, h4⟩ := slemOf_eq hc.2.1 he hy hc.1 hev hgap
    have hs : slem c nx ev = .ok (if s ≤ 1 / 10 ^ 8 then none else some s) := by
      unfold slem
      rw [if_neg (by rw [(isErgodic_iff hc hx).2 he]; exact Bool.noConfusion), h4]
    refine ⟨s, h1, h2, h3, fun hle => hnone (by rw [hs, if_pos hle]), fun hlt => ?_⟩
    rw [if_neg (not_le.2 hlt)] at hs
    unfold spectralGap relaxationRate mixingRate
    rw [hs]
    refine ⟨rfl, rfl, rfl, rfl, ?_⟩
    have hpos : 0 < s := lt_trans (by norm_num) hlt
    exact div_pos_of_neg_of_neg (by norm_num) (Real.log_neg hpos h3)
  · intro he
    apply hnone
    unfold slem
    have h1 : isErgodic c nx = false := by
      rw [← Bool.not_eq_true]
      exact fun h => he ((isErgodic_iff hc hx).1 h)
    rw [if_pos h1]
    rfl

/-! ## Implied timescales -/

/-- C87. For an ergodic chain the implied timescales are infinity, for the eigenvalue one, followed
by `-1 / log |z|` (zero for `z = 0`) for the other eigenvalues `z`, with multiplicities and by
decreasing modulus; all of them are finite and not negative. For a chain that is not ergodic `None`
is returned. -/
theorem C87_implied_timescales {c : MC ℝ} (hc : c.Valid) {nx : Nx c.n} (hx : nx.Sound c.p)
    {ev : List ℂ} (hev : EigvalsSound c.p ev) :
    (Ergodic c.p → ∃ l : List ℂ,
      (1 ::ₘ (l : Multiset ℂ)) = (c.p.map (algebraMap ℝ ℂ)).charpoly.roots ∧
      (∀ z ∈ l, ‖z‖ < 1 ∧ 0 ≤ -1 / Real.log ‖z‖) ∧
      l.Pairwise (fun a b => ‖b‖ ≤ ‖a‖) ∧
      impliedTimescales c nx ev = .ok (some (.inf false ::
        l.map fun z => .fin (-1 / Real.log ‖z‖)))) ∧
    (¬ Ergodic c.p → impliedTimescales c nx ev = .ok none) := by
  constructor
  · intro he
    obtain ⟨y, -, hy, -, -⟩ := C34_stationary hc hx.sccs he.1
    obtain ⟨h1, h2, h3, h4⟩ := eigenvalues_split hc.2.1 he hy hev
    obtain ⟨l, hl⟩ : ∃ l, l = ((ev.erase 1).insertionSort fun a b => ‖a‖ ≤ ‖b‖).reverse := ⟨_, rfl⟩
    have hp : l.Perm (ev.erase 1) := by
      rw [hl]
      exact (List.reverse_perm _).trans (List.perm_insertionSort _ _)
    have hlt : ∀ z ∈ l, ‖z‖ < 1 := fun z hz => (h2 z (hp.mem_iff.1 hz)).2
    have hso : (l.reverse).Pairwise fun a b => ‖a‖ ≤ ‖b‖ := by
      rw [hl, List.reverse_reverse]
      have : Std.Total fun a b : ℂ => ‖a‖ ≤ ‖b‖ := ⟨fun a b => le_total _ _⟩
      have : IsTrans ℂ fun a b : ℂ => ‖a‖ ≤ ‖b‖ := ⟨fun a b c h1 h2 => le_trans h1 h2⟩
      exact List.pairwise_insertionSort _ _
    refine ⟨l, ?_, ?_, ?_, ?_⟩
    · unfold EigvalsSound at hev
      rw [hev, Multiset.cons_coe, Multiset.coe_eq_coe]
      exact (hp.cons 1).trans h1.symm
    · intro z hz
      refine ⟨hlt z hz, ?_⟩
      refine div_nonneg_of_nonpos (by norm_num) (Real.log_nonpos (norm_nonneg z) (hlt z hz).le)
    · rw [List.pairwise_reverse] at hso
      exact hso
    · unfold impliedTimescales
      rw [if_neg (by rw [(isErgodic_iff hc hx).2 he]; exact Bool.noConfusion)]
      have h5 : eigenvaluesSorted ev = (l.reverse.map fun z => ‖z‖) ++ [1] := by
        rw [eigenvaluesSorted_eq hc.2.1 he hy hev]
        congr 1
        refine List.Perm.eq_of_pairwise (le := (· ≤ ·)) (fun a b _ _ h1 h2 => le_antisymm h1 h2)
          (List.pairwise_insertionSort _ _) ?_ ?_
        · rw [List.pairwise_map]
          exact hso
        · refine (List.perm_insertionSort _ _).trans ?_
          exact (((List.reverse_perm l).trans hp).map _).symm
      rw [h5, List.reverse_append, List.reverse_singleton, List.singleton_append, List.drop_one,
        List.tail_cons, ← List.map_reverse, List.reverse_reverse, List.map_map]
      change Except.ok _ = _
      congr 3
      refine List.map_congr_left fun z hz => ?_
      rw [Function.comp_apply]
      unfold timescale
      by_cases h0 : ‖z‖ = 0
      · rw [if_pos h0, h0, Real.log_zero, div_zero]
      · rw [if_neg h0, if_neg (hlt z hz).ne]
  · intro he
    unfold impliedTimescales
    have h1 : isErgodic c nx = false := by
      rw [← Bool.not_eq_true]
      exact fun h => he ((isErgodic_iff hc hx).1 h)
    rw [if_pos h1]
    rfl

/-! ## Two states -/

/-- The symmetric chain with two states that leaves its state with probability `q`. -/
def swapP (q : ℝ) : Matrix (Fin 2) (Fin 2) ℝ := !![1 - q, q; q, 1 - q]

/-- The symmetric chain with two states. -/
def exSymmetric (q : ℝ) : MC ℝ := ⟨2, swapP q, ["a", "b"]⟩

theorem swapP_roots (q : ℝ) :
    ((swapP q).map (algebraMap ℝ ℂ)).charpoly.roots = {1, ((1 - 2 * q : ℝ) : ℂ)} := by
  have h1 : ((swapP q).map (algebraMap ℝ ℂ)).charpoly
      = (Polynomial.X - Polynomial.C 1) * (Polynomial.X - Polynomial.C ((1 - 2 * q : ℝ) : ℂ)) := by
    rw [Matrix.charpoly_fin_two, Matrix.trace_fin_two, Matrix.det_fin_two]
    have e1 : ∀ i j, ((swapP q).map (algebraMap ℝ ℂ)) i j = ((swapP q i j : ℝ) : ℂ) := fun i j => rfl
    rw [e1, e1, e1, e1]
    have f1 : swapP q 0 0 = 1 - q := rfl
    have f2 : swapP q 0 1 = q := rfl
    have f3 : swapP q 1 0 = q := rfl
    have f4 : swapP q 1 1 = 1 - q := rfl
    rw [f1, f2, f3, f4]
    push_cast
    simp only [map_add, map_sub, map_mul, map_one]
    have f5 : (Polynomial.C (2 : ℂ)) = 2 := rfl
    rw [f5]
    ring
  rw [h1, Polynomial.roots_mul, Polynomial.roots_X_sub_C, Polynomial.roots_X_sub_C]
  · rfl
  · exact mul_ne_zero (Polynomial.X_sub_C_ne_zero _) (Polynomial.X_sub_C_ne_zero _)

theorem swapP_sound (q : ℝ) : EigvalsSound (swapP q) [1, ((1 - 2 * q : ℝ) : ℂ)] := swapP_roots q

theorem exSymmetric_valid {q : ℝ} (h0 : 0 ≤ q) (h1 : q ≤ 1) : (exSymmetric q).Valid := by
  have h : IsStochastic fun i j : Fin 2 => swapP q i j := by
    constructor
    · intro i j
      fin_cases i <;> fin_cases j <;> simp [swapP, h0, h1]
    · intro i
      rw [Fin.sum_univ_two]
      fin_cases i <;> simp [swapP]
  refine ⟨?_, h, ?_⟩
  · change 2 ≤ 2; decide
  · change ValidLabels 2 ["a", "b"]; decide

theorem swapP_ergodic {q : ℝ} (h0 : 0 < q) (h1 : q < 1) : Ergodic fun i j : Fin 2 => swapP q i j := by
  have he : ∀ i j : Fin 2, Edge (fun i j : Fin 2 => swapP q i j) i j := by
    intro i j
    change 0 < swapP q i j
    fin_cases i <;> fin_cases j <;> simp [swapP, h0, h1]
  refine ⟨fun i j => Reach.single (he i j), fun i => ⟨fun k _ => one_dvd k, fun e h => ?_⟩⟩
  exact h 1 (ReachIn.step (ReachIn.refl i) (he i i))

theorem swapP_classes {q : ℝ} (h0 : 0 < q) (h1 : q < 1) :
    IsClasses (fun i j : Fin 2 => swapP q i j) [[0, 1]] := by
  have hirr := (swapP_ergodic h0 h1).1
  have hall : ∀ j : Fin 2, j ∈ ([0, 1] : List (Fin 2)) := by decide
  refine ⟨fun i => ⟨_, List.mem_singleton.2 rfl, hall i⟩, by decide, by decide, by simp, ?_⟩
  intro C hC i _ j
  rw [List.mem_singleton.1 hC]
  exact ⟨fun _ => ⟨hirr i j, hirr j i⟩, fun _ => hall j⟩

/-- What networkx returns for the symmetric chain. -/
noncomputable def exSymmetricNx (q : ℝ) : Nx 2 := Nx.ofClasses (fun i j => swapP q i j) [[0, 1]] true

/-- The hypotheses of `C86_second_modulus_partial` and `C87_implied_timescales` can be met. -/
example : (exSymmetric (1 / 4)).Valid ∧ (exSymmetricNx (1 / 4)).Sound (exSymmetric (1 / 4)).p ∧
    Ergodic (exSymmetric (1 / 4)).p ∧
    EigvalsSound (exSymmetric (1 / 4)).p [1, ((1 - 2 * (1 / 4) : ℝ) : ℂ)] ∧
    ∀ z ∈ [1, ((1 - 2 * (1 / 4) : ℝ) : ℂ)], z ≠ 1 → isclose ‖z‖ 1 = false := by
  refine ⟨exSymmetric_valid (by norm_num) (by norm_num),
    Nx.ofClasses_sound true (swapP_classes (by norm_num) (by norm_num)),
    swapP_ergodic (by norm_num) (by norm_num), swapP_sound _, ?_⟩
  intro z hz hz1
  rcases List.mem_cons.1 hz with h | h
  · exact absurd h hz1
  · rw [List.mem_singleton.1 h, Complex.norm_real]
    unfold isclose
    rw [decide_eq_false_iff_not]
    norm_num

/-- C86, disagreement: an ergodic chain with two states that leaves its state with a positive
probability of at most `5e-6` has the second largest modulus `1 - 2 q`, but all four quantities raise
`IndexError`. -/
theorem C86_near_one {q : ℝ} (h0 : 0 < q) (h1 : q ≤ 5 / 10 ^ 6) {ev : List ℂ}
    (hev : EigvalsSound (swapP q) ev) :
    (exSymmetric q).Valid ∧ (exSymmetricNx q).Sound (exSymmetric q).p ∧ Ergodic (exSymmetric q).p ∧
    IsSecondModulus (exSymmetric q).p (1 - 2 * q) ∧
    slem (exSymmetric q) (exSymmetricNx q) ev = .error .valueError ∧
    spectralGap (exSymmetric q) (exSymmetricNx q) ev = .error .valueError ∧
    relaxationRate (exSymmetric q) (exSymmetricNx q) ev = .error .valueError ∧
    mixingRate (exSymmetric q) (exSymmetricNx q) ev = .error .valueError := by
  have hq1 : q < 1 := lt_of_le_of_lt h1 (by norm_num)
  have hv := exSymmetric_valid h0.le hq1.le
  have hs : (exSymmetricNx q).Sound (exSymmetric q).p := Nx.ofClasses_sound true (swapP_classes h0 hq1)
  have he : Ergodic (exSymmetric q).p := swapP_ergodic h0 hq1
  have hroots : ∀ z, z ∈ ev ↔ z = 1 ∨ z = ((1 - 2 * q : ℝ) : ℂ) := by
    intro z
    unfold EigvalsSound at hev
    rw [swapP_roots] at hev
    rw [← Multiset.mem_coe, ← hev]
    simp
  have hnorm : ‖((1 - 2 * q : ℝ) : ℂ)‖ = 1 - 2 * q := by
    rw [Complex.norm_real, Real.norm_of_nonneg]
    linarith [show (5 : ℝ) / 10 ^ 6 ≤ 1 / 4 by norm_num]
  have hclose : ∀ z ∈ ev, isclose ‖z‖ 1 = true := by
    intro z hz
    rcases (hroots z).1 hz with rfl | rfl
    · rw [norm_one]; exact isclose_one_one
    · rw [hnorm]
      unfold isclose
      rw [decide_eq_true_eq, abs_one, show 1 - 2 * q - 1 = -(2 * q) by ring, abs_neg,
        abs_of_pos (by linarith)]
      have : (2 : ℝ) * (5 / 10 ^ 6) ≤ 1 / 10 ^ 8 + 1 / 10 ^ 5 * 1 := by norm_num
      linarith
  have hslem : slem (exSymmetric q) (exSymmetricNx q) ev = .error .valueError := by
    unfold slem
    rw [if_neg (by rw [(isErgodic_iff hv hs).2 he]; exact Bool.noConfusion)]
    unfold slemOf
    have : (eigenvaluesSorted ev).filter (fun x => !isclose x 1) = [] := by
      refine List.filter_eq_nil_iff.2 fun a ha => ?_
      unfold eigenvaluesSorted at ha
      rw [(List.perm_insertionSort _ _).mem_iff] at ha
      obtain ⟨z, hz, rfl⟩ := List.mem_map.1 ha
      rw [hclose z hz]
      exact Bool.noConfusion
    rw [this]
    rfl
  refine ⟨hv, hs, he, ?_, hslem, ?_, ?_, ?_⟩
  · have hroot : ∀ w, IsEigenvalue (exSymmetric q).p w ↔ w ∈ ev := by
      intro w
      refine (isEigenvalue_iff (P := swapP q)).trans ?_
      unfold EigvalsSound at hev
      rw [hev, Multiset.mem_coe]
    have hne : ((1 - 2 * q : ℝ) : ℂ) ≠ 1 := by
      intro h
      have : 1 - 2 * q = 1 := by exact_mod_cast h
      linarith
    refine ⟨⟨_, (hroot _).2 ((hroots _).2 (.inr rfl)), hne, hnorm⟩, fun z hz hz1 => ?_⟩
    rcases (hroots z).1 ((hroot z).1 hz) with h | h
    · exact absurd h hz1
    · rw [h, hnorm]
  · unfold spectralGap; rw [hslem]; rfl
  · unfold relaxationRate; rw [hslem]; rfl
  · unfold mixingRate; rw [hslem]; rfl

/-- The hypotheses of `C86_near_one` can be met. -/
example : (0 : ℝ) < 1 / 10 ^ 6 ∧ (1 : ℝ) / 10 ^ 6 ≤ 5 / 10 ^ 6 ∧
    EigvalsSound (swapP (1 / 10 ^ 6)) [1, ((1 - 2 * (1 / 10 ^ 6) : ℝ) : ℂ)] :=
  ⟨by norm_num, by norm_num, swapP_sound _⟩

end Verif
