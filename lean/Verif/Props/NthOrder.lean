import Mathlib.FieldTheory.IsAlgClosed.Spectrum
import Verif.Props.Cyclic
import Verif.Props.Ergodic
import Verif.Props.Lazy
import Verif.Props.Rate
import Verif.Props.Relabel
import Verif.Props.SimulatedValues

/-!
# Measures of chains of higher order (C139)
-/

set_option linter.unusedSectionVars false

namespace Verif

open Finset

variable {K : Type} [Field K] [LinearOrder K] [IsStrictOrderedRing K]

/-! ## Walks -/

section Walks

variable {n : ℕ} {P : Matrix (Fin n) (Fin n) K}

theorem reach_power (hP : ∀ i j, 0 ≤ P i j) (k : ℕ) (i j : Fin n) :
    Reach (fun i j => (P ^ k) i j) i j ↔ ∃ m, ReachIn (fun i j => P i j) (k * m) i j :=
  reach_iff_reachIn.trans (exists_congr fun m => reachIn_pow hP k m i j)

/-- Closed walks of all large multiples of the period. -/
theorem IsPeriodOf.multiples {P : Fin n → Fin n → K} {i : Fin n} {g : ℕ} (h : IsPeriodOf P i g) :
    ∃ N, ∀ t ≥ N, g ∣ t → ReachIn P t i i := by
  obtain ⟨S, hS⟩ : ∃ S : AddSubmonoid ℕ, ∀ k, k ∈ S ↔ ReachIn P k i i :=
    ⟨{ carrier := {k | ReachIn P k i i}
       add_mem' := fun h1 h2 => ReachIn.trans h1 h2
       zero_mem' := ReachIn.refl i }, fun k => Iff.rfl⟩
  obtain ⟨N, hN⟩ := Nat.exists_mem_closure_of_ge (s := (S : Set ℕ))
  have h1 : Nat.setGcd (S : Set ℕ) ∣ g := h.2 _ fun k hk => Nat.setGcd_dvd_of_mem ((hS k).2 hk)
  refine ⟨N, fun k hk hg => (hS k).1 ?_⟩
  have := hN k hk (h1.trans hg)
  rwa [AddSubmonoid.closure_eq] at this

/-- The period of a state for a power of the matrix. -/
theorem period_power (hP : ∀ i j, 0 ≤ P i j) {i : Fin n} {g k : ℕ} (hg : 0 < g) (hk : 0 < k)
    (h : IsPeriodOf (fun i j => P i j) i g) :
    IsPeriodOf (fun i j => (P ^ k) i j) i (g / Nat.gcd g k) := by
  obtain ⟨D, hD⟩ : ∃ D, D = Nat.gcd g k := ⟨_, rfl⟩
  have hD0 : 0 < D := hD ▸ Nat.gcd_pos_of_pos_left _ hg
  obtain ⟨a, ha⟩ : D ∣ g := hD ▸ Nat.gcd_dvd_left g k
  obtain ⟨b, hb⟩ : D ∣ k := hD ▸ Nat.gcd_dvd_right g k
  have hcop : Nat.Coprime a b := by
    have h1 : D * Nat.gcd a b = D := by
      rw [← Nat.gcd_mul_left, ← ha, ← hb, ← hD]
    exact Nat.eq_of_mul_eq_mul_left hD0 (h1.trans (mul_one D).symm)
  have hga : g / Nat.gcd g k = a := by
    rw [← hD, ha, Nat.mul_div_cancel_left _ hD0]
  have hb0 : 0 < b := Nat.pos_of_ne_zero (by rintro rfl; omega)
  rw [hga]
  refine ⟨fun m hm => ?_, fun e he => ?_⟩
  · have h1 := h.1 _ ((reachIn_pow hP k m i i).1 hm)
    rw [ha, hb, mul_assoc] at h1
    exact hcop.dvd_of_dvd_mul_left ((Nat.mul_dvd_mul_iff_left hD0).1 h1)
  · obtain ⟨N, hN⟩ := h.multiples
    have key : ∀ t ≥ N, e ∣ a * t := by
      intro t ht
      refine he _ ((reachIn_pow hP k (a * t) i i).2 (hN _ ?_ ?_))
      · have h1 : k * (a * t) = g * b * t := by rw [ha, hb]; ring
        rw [h1]
        exact ht.le.trans (Nat.le_mul_of_pos_left t (Nat.mul_pos hg hb0))
      · exact ⟨b * t, by rw [ha, hb]; ring⟩
    have h1 := key N le_rfl
    have h2 := key (N + 1) (Nat.le_succ N)
    rw [Nat.mul_succ] at h2
    exact (Nat.dvd_add_right h1).1 h2

theorem primitive_power (hP : IsStochastic fun i j => P i j) {k : ℕ} (hk : 0 < k) :
    Primitive (fun i j => (P ^ k) i j) ↔ Primitive fun i j => P i j := by
  constructor
  · rintro ⟨m, hm, h⟩
    exact ⟨k * m, Nat.mul_pos hk hm, fun i j => (reachIn_pow hP.1 k m i j).1 (h i j)⟩
  · rintro ⟨m, hm, h⟩
    refine ⟨m, hm, fun i j => (reachIn_pow hP.1 k m i j).2 ?_⟩
    exact reachIn_all_mono h hP.exists_edge (Nat.le_mul_of_pos_left m hk) i j

/-- From a closed set, the chain stays in it for any number of steps. -/
theorem stay_in (hP : IsStochastic fun i j => P i j) {S : Fin n → Prop}
    (hS : ClosedSet (fun i j => P i j) S) {i : Fin n} (hi : S i) (r : ℕ) :
    ∃ j, S j ∧ ReachIn (fun i j => P i j) r i j := by
  induction r with
  | zero => exact ⟨i, hi, .refl i⟩
  | succ r ih =>
    obtain ⟨j, hj, hr⟩ := ih
    obtain ⟨l, hl⟩ := hP.exists_edge j
    exact ⟨l, hS j l hj hl, hr.step hl⟩

theorem closed_power (hP : ∀ i j, 0 ≤ P i j) {S : Fin n → Prop}
    (hS : ClosedSet (fun i j => P i j) S) (k : ℕ) : ClosedSet (fun i j => (P ^ k) i j) S := by
  have key : ∀ m i j, S i → ReachIn (fun i j => P i j) m i j → S j := by
    intro m i j hi hr
    induction hr with
    | refl => exact hi
    | step _ e ih => exact hS _ _ (ih hi) e
  intro i j hi he
  have h1 := (reachIn_pow hP k 1 i j).1 (ReachIn.single he)
  exact key _ i j hi h1

theorem recurrent_power (hP : IsStochastic fun i j => P i j) {k : ℕ} (hk : 0 < k) (i : Fin n) :
    RecurrentState (fun i j => (P ^ k) i j) i ↔ RecurrentState (fun i j => P i j) i := by
  constructor
  · intro h j hj
    have hcl : ClosedSet (fun i j => P i j) fun l => Reach (fun i j => P i j) j l :=
      fun a b ha hab => Reach.trans ha (Reach.single hab)
    obtain ⟨r, hr⟩ := reach_iff_reachIn.1 hj
    obtain ⟨l, hl, hr'⟩ := stay_in hP hcl (Reach.refl j) (k * r - r)
    have h1 : ReachIn (fun i j => P i j) (k * r) i l := by
      have := hr.trans hr'
      rwa [Nat.add_sub_cancel' (Nat.le_mul_of_pos_left r hk)] at this
    obtain ⟨m, hm⟩ := (reach_power hP.1 k l i).1 (h l ((reach_power hP.1 k i l).2 ⟨r, h1⟩))
    exact Reach.trans hl hm.reach
  · intro h j hj
    obtain ⟨m, hm⟩ := (reach_power hP.1 k i j).1 hj
    obtain ⟨r, hr⟩ := reach_iff_reachIn.1 (h j hm.reach)
    refine (reach_power hP.1 k j i).2 ⟨r + (k - 1) * m, ?_⟩
    have hloop : ∀ t, ReachIn (fun i j => P i j) (t * (k * m + r)) i i := by
      intro t
      induction t with
      | zero => rw [zero_mul]; exact .refl i
      | succ t ih => rw [Nat.succ_mul]; exact ih.trans (hm.trans hr)
    have := hr.trans (hloop (k - 1))
    obtain ⟨q, rfl⟩ : ∃ q, k = q + 1 := ⟨k - 1, by omega⟩
    have e : (q + 1) * (r + (q + 1 - 1) * m) = r + (q + 1 - 1) * ((q + 1) * m + r) := by
      rw [Nat.add_sub_cancel]
      ring
    rw [e]
    exact this

/-- A set that is never left is visited with the same probabilities. -/
theorem hitting_power (hP : IsStochastic fun i j => P i j) {k : ℕ} (hk : 0 < k) {S : Fin n → Prop}
    (hS : ClosedSet (fun i j => P i j) S) {h : Fin n → K}
    (hh : IsHittingProbability (fun i j => P i j) S h) :
    IsHittingProbability (fun i j => (P ^ k) i j) S h := by
  have hQ : IsStochastic fun i j => (P ^ k) i j := IsStochastic.pow (P := P) hP k
  have hharm : ∀ i, h i = ∑ j, P i j * h j := by
    intro i
    by_cases hi : S i
    · rw [hh.1.1 i hi, ← hP.2 i]
      refine sum_congr rfl fun j _ => ?_
      rcases (hP.1 i j).lt_or_eq with hj | hj
      · rw [hh.1.1 j (hS i j hi hj), mul_one]
      · have hj0 : P i j = 0 := hj.symm
        change P i j = P i j * h j
        rw [hj0, zero_mul]
    · exact hh.1.2 i hi
  have hpow : ∀ m i, h i = ∑ j, (P ^ m) i j * h j := by
    intro m
    have h1 : P.mulVec h = h := funext fun i => (hharm i).symm
    have h2 : (P ^ m).mulVec h = h := by
      induction m with
      | zero => rw [pow_zero, Matrix.one_mulVec]
      | succ m ih => rw [pow_succ, ← Matrix.mulVec_mulVec, h1, ih]
    exact fun i => (congrFun h2 i).symm
  obtain ⟨h', e1, e2⟩ := exists_hittingProbability (P := P) hP S
  obtain rfl := hittingProbability_unique hh e1
  obtain ⟨g, f1, f2⟩ := exists_hittingProbability (P := P ^ k) hQ S
  have hcan : ∀ i, (∃ s, S s ∧ Reach (fun i j => P i j) i s) ↔ ∃ s, S s ∧ Reach (fun i j => (P ^ k) i j) i s := by
    intro i
    constructor
    · rintro ⟨s, hs, hr⟩
      obtain ⟨r, hr⟩ := reach_iff_reachIn.1 hr
      obtain ⟨l, hl, hr'⟩ := stay_in hP hS hs (k * r - r)
      refine ⟨l, hl, (reach_power hP.1 k i l).2 ⟨r, ?_⟩⟩
      have := hr.trans hr'
      rwa [Nat.add_sub_cancel' (Nat.le_mul_of_pos_left r hk)] at this
    · rintro ⟨s, hs, hr⟩
      obtain ⟨m, hm⟩ := (reach_power hP.1 k i s).1 hr
      exact ⟨s, hs, hm.reach⟩
  have : h = g := by
    refine harmonic_unique (P := fun i j => (P ^ k) i j) hQ
      (B := fun i => S i ∨ ¬ ∃ s, S s ∧ Reach (fun i j => (P ^ k) i j) i s) (fun i => ?_)
      (b := fun _ => 0) (fun i hi => ?_) (fun i _ => ?_) (fun i hi => ?_)
    · by_cases hi : ∃ s, S s ∧ Reach (fun i j => (P ^ k) i j) i s
      · obtain ⟨s, hs, hr⟩ := hi
        exact ⟨s, Or.inl hs, hr⟩
      · exact ⟨i, Or.inr hi, Reach.refl i⟩
    · rcases hi with hi | hi
      · rw [hh.1.1 i hi, f1.1.1 i hi]
      · rw [f2 i hi, e2 i fun hh => hi ((hcan i).1 hh)]
    · rw [zero_add]
      exact hpow k i
    · rw [zero_add]
      exact f1.1.2 i fun hs => hi (Or.inl hs)
  rw [this]
  exact f1

theorem stationary_power {x : Fin n → K} (hx : IsStationary (fun i j => P i j) x) (k : ℕ) :
    IsStationary (fun i j => (P ^ k) i j) x := by
  refine ⟨hx.1, fun j => ?_⟩
  have h1 : Matrix.vecMul x P = x := funext hx.2
  have h2 : Matrix.vecMul x (P ^ k) = x := by
    induction k with
    | zero => rw [pow_zero, Matrix.vecMul_one]
    | succ k ih => rw [pow_succ, ← Matrix.vecMul_vecMul, ih, h1]
  exact congrFun h2 j

theorem balance_power {x : Fin n → K} (hx : DetailedBalance (fun i j => P i j) x) (k : ℕ) :
    DetailedBalance (fun i j => (P ^ k) i j) x := by
  induction k with
  | zero =>
    intro i j
    change x i * (P ^ 0) i j = x j * (P ^ 0) j i
    rw [pow_zero]
    by_cases hij : i = j
    · rw [hij]
    · rw [Matrix.one_apply_ne hij, Matrix.one_apply_ne (Ne.symm hij), mul_zero, mul_zero]
  | succ k ih =>
    intro i j
    change x i * (P ^ (k + 1)) i j = x j * (P ^ (k + 1)) j i
    rw [pow_succ, Matrix.mul_apply, ← pow_succ, pow_succ', Matrix.mul_apply, mul_sum, mul_sum]
    refine sum_congr rfl fun l _ => ?_
    have h1 : x i * (P ^ k) i l = x l * (P ^ k) l i := ih i l
    have h2 : x l * P l j = x j * P j l := hx l j
    linear_combination P l j * h1 + (P ^ k) l i * h2

/-- Which states are reached by the power of an irreducible matrix: those whose phase differs by a multiple of
the greatest common divisor of period and order. -/
theorem reach_phase (hP : ∀ i j, 0 ≤ P i j) (hirr : Irreducible fun i j => P i j) {g k : ℕ} (hg : 0 < g)
    (hk : 0 < k) (hper : ∀ i, IsPeriodOf (fun i j => P i j) i g) {σ : Fin n → ℕ}
    (hσ : ∀ i j, Edge (fun i j => P i j) i j → σ j = (σ i + 1) % g) (i j : Fin n) :
    Reach (fun i j => (P ^ k) i j) i j ↔ σ i ≡ σ j [MOD Nat.gcd g k] := by
  have hwalk : ∀ {m i j}, ReachIn (fun i j => P i j) m i j → σ j ≡ σ i + m [MOD g] := by
    intro m i j hr
    induction hr with
    | refl => rfl
    | step _ e ih =>
      rw [hσ _ _ e]
      refine (Nat.mod_modEq _ _).trans ?_
      rw [← add_assoc]
      exact ih.add_right 1
  rw [reach_power hP]
  constructor
  · rintro ⟨m, hm⟩
    have h1 := (hwalk hm).of_dvd (Nat.gcd_dvd_left g k)
    refine Nat.ModEq.trans ?_ h1.symm
    have h2 : k * m ≡ 0 [MOD Nat.gcd g k] :=
      (Nat.modEq_zero_iff_dvd).2 ((Nat.gcd_dvd_right g k).trans (dvd_mul_right k m))
    exact (h2.add_left (σ i)).symm
  · intro h
    obtain ⟨r, hr⟩ := reach_iff_reachIn.1 (hirr i j)
    obtain ⟨N, hN⟩ := (hper j).multiples
    have hr1 := hwalk hr
    -- `r` is a multiple of the greatest common divisor
    have h2 : Nat.gcd g k ∣ r := by
      have h3 : σ i + r ≡ σ i + 0 [MOD Nat.gcd g k] :=
        ((hr1.of_dvd (Nat.gcd_dvd_left g k)).symm.trans h.symm).trans (by rw [add_zero])
      exact Nat.modEq_zero_iff_dvd.1 (Nat.ModEq.add_left_cancel' _ h3)
    have h4 : ((Nat.gcd g k : ℕ) : ℤ) ∣ (r : ℤ) := Int.natCast_dvd_natCast.2 h2
    obtain ⟨q, hq⟩ := h4
    have hbez := Nat.gcd_eq_gcd_ab g k
    -- a large number of steps of the power
    obtain ⟨m, hm1, hm2⟩ : ∃ m : ℕ, N + r ≤ k * m ∧ (g : ℤ) ∣ ((k * m : ℕ) : ℤ) - r := by
      refine ⟨((Nat.gcdB g k * q) % g).toNat + g * (N + r), ?_, ?_⟩
      · have : N + r ≤ g * (N + r) := Nat.le_mul_of_pos_left _ hg
        exact (this.trans (Nat.le_add_left _ _)).trans (Nat.le_mul_of_pos_left _ hk)
      · have h5 : (0 : ℤ) ≤ (Nat.gcdB g k * q) % g := Int.emod_nonneg _ (by exact_mod_cast hg.ne')
        push_cast
        rw [Int.toNat_of_nonneg h5, Int.emod_def, hq, hbez]
        exact ⟨-(k * (Nat.gcdB g k * q / g)) + k * (N + (g * Nat.gcdA g k + k * Nat.gcdB g k) * q)
          - Nat.gcdA g k * q, by ring⟩
    refine ⟨m, ?_⟩
    have h6 : g ∣ k * m - r := by
      have h7 : ((k * m - r : ℕ) : ℤ) = ((k * m : ℕ) : ℤ) - r := Nat.cast_sub (by omega)
      rw [← Int.natCast_dvd_natCast, h7]
      exact hm2
    have h8 := hr.trans (hN (k * m - r) (by omega) h6)
    rwa [Nat.add_sub_cancel' (by omega)] at h8

end Walks

/-! ## Every `k`-th state of a run -/

/-- Every `k`-th state of a run, `s` states after the first one. -/
def everyNth {α : Type*} (k s : ℕ) (l : List α) : List α :=
  (List.range (s + 1)).filterMap fun t => l[k * t]?

theorem everyNth_succ {n : ℕ} {k s : ℕ} (hk : 1 ≤ k) (i : Fin n) (w v : List (Fin n)) (hw : w.length = k) :
    everyNth k (s + 1) (i :: (w ++ v)) = i :: everyNth k s (w.getLastD i :: v) := by
  have hdrop : (i :: (w ++ v)).drop k = w.getLastD i :: v := by
    have hne : w ≠ [] := by
      rintro rfl
      simp at hw
      omega
    have h1 : w.getLastD i = w.getLast hne := by
      rw [List.getLastD_eq_getLast?, List.getLast?_eq_some_getLast hne]
      rfl
    have h2 : i :: (w ++ v) = (i :: w.dropLast) ++ (w.getLast hne :: v) := by
      rw [List.cons_append, ← List.singleton_append (l := v), ← List.append_assoc,
        List.dropLast_append_getLast hne]
    rw [h2, h1]
    exact List.drop_left' (by simp; omega)
  unfold everyNth
  rw [List.range_succ_eq_map, List.filterMap_cons]
  simp only [mul_zero, List.getElem?_cons_zero]
  rw [List.filterMap_map]
  congr 1
  refine List.filterMap_congr fun t _ => ?_
  change (i :: (w ++ v))[k * (t + 1)]? = _
  rw [← hdrop, List.getElem?_drop]
  congr 1
  ring

theorem expect_everyNth {n : ℕ} (P : Matrix (Fin n) (Fin n) ℝ) {k : ℕ} (hk : 1 ≤ k) (s : ℕ) :
    ∀ (i : Fin n) (f : List (Fin n) → ℝ), (expect (fun a b => (P ^ k) a b) s i fun w => f (i :: w)) =
      expect (fun a b => P a b) (k * s) i fun w => f (everyNth k s (i :: w)) := by
  induction s with
  | zero =>
    intro i f
    rw [mul_zero]
    simp [expect, everyNth]
  | succ s ih =>
    intro i f
    have h1 : ∀ w : List (Fin n), w.length = k →
        (expect (fun a b => P a b) (k * s) (w.getLastD i) fun v => f (everyNth k (s + 1) (i :: (w ++ v)))) =
        (fun j => expect (fun a b => (P ^ k) a b) s j fun v => f (i :: j :: v)) (w.getLastD i) := by
      intro w hw
      refine Eq.trans ?_ (ih (w.getLastD i) fun v => f (i :: v)).symm
      refine expect_congr fun v _ => ?_
      rw [everyNth_succ hk i w v hw]
    have h2 := expect_append (fun a b => P a b) k (k * s) i fun w => f (everyNth k (s + 1) (i :: w))
    have h3 := expect_last P k i fun j => expect (fun a b => (P ^ k) a b) s j fun v => f (i :: j :: v)
    rw [show k * (s + 1) = k + k * s by ring]
    exact h3.symm.trans ((expect_congr h1).symm.trans h2.symm)

/-! ## Phases -/

/-- Every phase of an irreducible chain has the same share of the stationary distribution. -/
theorem phase_share {n : ℕ} {P : Fin n → Fin n → K} (hP : IsStochastic P) {x : Fin n → K} (hx : IsStationary P x)
    {g : ℕ} {σ : Fin n → ℕ}
    (hσ : ∀ i j, Edge P i j → σ j = (σ i + 1) % g) {D : ℕ} (hD : 0 < D) (hDg : D ∣ g) {r : ℕ} (hr : r < D) :
    (D : K) * ∑ i, (if σ i % D = r then x i else 0) = 1 := by
  obtain ⟨m, hm⟩ : ∃ m : ℕ → K, m = fun r => ∑ i, (if σ i % D = r then x i else 0) := ⟨_, rfl⟩
  have hstep : ∀ r < D, m ((r + 1) % D) = m r := by
    intro r hr
    rw [hm]
    have h1 : ∀ j, (if σ j % D = (r + 1) % D then x j else 0) =
        ∑ i, (if σ i % D = r then x i * P i j else 0) := by
      intro j
      by_cases hj : σ j % D = (r + 1) % D
      · rw [if_pos hj, ← hx.2 j]
        refine sum_congr rfl fun i _ => ?_
        by_cases hi : σ i % D = r
        · rw [if_pos hi]
        · rw [if_neg hi]
          rcases (hP.1 i j).lt_or_eq with hij | hij
          · refine absurd ?_ hi
            have h2 := hσ i j hij
            have h3 : (σ i + 1) % D = (r + 1) % D := by
              rw [← hj, h2, Nat.mod_mod_of_dvd _ hDg]
            have h4 : σ i ≡ r [MOD D] := Nat.ModEq.add_right_cancel' 1 h3
            rw [← Nat.mod_eq_of_lt hr]
            exact h4
          · rw [← hij, mul_zero]
      · rw [if_neg hj]
        refine (sum_eq_zero fun i _ => ?_).symm
        by_cases hi : σ i % D = r
        · rw [if_pos hi]
          rcases (hP.1 i j).lt_or_eq with hij | hij
          · refine absurd ?_ hj
            rw [hσ i j hij, Nat.mod_mod_of_dvd _ hDg, Nat.add_mod, hi, Nat.add_mod_mod]
          · rw [← hij, mul_zero]
        · rw [if_neg hi]
    change ∑ j, (if σ j % D = (r + 1) % D then x j else 0) = ∑ i, (if σ i % D = r then x i else 0)
    rw [sum_congr rfl fun j _ => h1 j, sum_comm]
    refine sum_congr rfl fun i _ => ?_
    by_cases hi : σ i % D = r
    · simp only [if_pos hi]
      rw [← mul_sum, hP.2 i, mul_one]
    · simp only [if_neg hi, sum_const_zero]
  have hall : ∀ r < D, m r = m 0 := by
    intro r
    induction r with
    | zero => exact fun _ => rfl
    | succ r ih =>
      intro hr
      have := hstep r (by omega)
      rw [Nat.mod_eq_of_lt hr] at this
      rw [this, ih (by omega)]
  have hsum : ∑ r ∈ range D, m r = 1 := by
    rw [hm, ← hx.1.2]
    change ∑ r ∈ range D, ∑ i, (if σ i % D = r then x i else 0) = _
    rw [sum_comm]
    refine sum_congr rfl fun i _ => ?_
    rw [Finset.sum_ite_eq, if_pos (mem_range.2 (Nat.mod_lt _ hD))]
  have h5 : (D : K) * m r = 1 := by
    rw [hall r hr, ← hsum, sum_congr rfl fun r hr => hall r (mem_range.1 hr), sum_const, card_range,
      nsmul_eq_mul]
  rw [hm] at h5
  exact h5

/-- Two vectors of `pi` with a common state are the same. -/
theorem mem_pi_unique {c : MC K} (hc : c.Valid) {sccs : List (List (Fin c.n))} (h : IsClasses c.p sccs)
    {l : List (Fin c.n → K)} (hl : pi c sccs = .ok l) {x y : Fin c.n → K} (hx : x ∈ l) (hy : y ∈ l)
    {i : Fin c.n} (hxi : 0 < x i) (hyi : 0 < y i) : x = y := by
  by_cases hirr : Irreducible c.p
  · obtain ⟨z, h1, -⟩ := C34_stationary hc h hirr
    rw [h1] at hl
    cases hl
    rw [List.mem_singleton.1 hx, List.mem_singleton.1 hy]
  · obtain ⟨-, -, f, h1, h2, -⟩ := C35_reducible hc h hirr
    rw [h1] at hl
    cases hl
    obtain ⟨C, hC, rfl⟩ := List.mem_map.1 hx
    obtain ⟨D, hD, rfl⟩ := List.mem_map.1 hy
    by_cases hCD : C = D
    · rw [hCD]
    · have : Std.Symm (List.Disjoint (α := Fin c.n)) := ⟨fun _ _ h => h.symm⟩
      exact absurd (((h2 D hD).2 i).1 hyi)
        (fun hi => (recurrentIdx_disjoint h).forall hC hD hCD (((h2 C hC).2 i).1 hxi) hi)

/-! ## C139 -/

/-- C139. `to_nth_order` gives a chain with the same labels whose matrix is the power of the matrix. -/
theorem C139_order {c d : MC K} (hc : c.Valid) {order : PyVal K} (h : toNthOrder c order = .ok d) :
    ∃ k : ℕ, order = .int k ∧ 2 ≤ k ∧ d = ⟨c.n, c.p ^ k, c.states⟩ ∧ d.Valid := by
  unfold toNthOrder at h
  rw [R.bind_ok] at h
  obtain ⟨z, hz, h⟩ := h
  rw [R.pure_ok] at h
  subst h
  obtain ⟨rfl, hz⟩ := validateInteger_ge hz
  exact ⟨z.toNat, by simp only [PyVal.int.injEq]; omega, by omega, rfl, hc.1, hc.2.1.pow _, hc.2.2⟩

variable {c : MC K} {k : ℕ}

/-- C139. The chain of higher order has the same recurrent and the same transient states, and it is ergodic
iff the given chain is. -/
theorem C139_flags (hc : c.Valid) (hd : (⟨c.n, c.p ^ k, c.states⟩ : MC K).Valid) (hk : 0 < k)
    {nx : Nx c.n} (hx : nx.Sound c.p) {nx' : Nx c.n} (hx' : nx'.Sound fun i j => (c.p ^ k) i j) :
    (isErgodic ⟨c.n, c.p ^ k, c.states⟩ nx' = true ↔ isErgodic c nx = true) ∧
    recurrentStates ⟨c.n, c.p ^ k, c.states⟩ nx'.sccs = recurrentStates c nx.sccs ∧
    transientStates ⟨c.n, c.p ^ k, c.states⟩ nx'.sccs = transientStates c nx.sccs := by
  have hP : IsStochastic fun i j => c.p i j := hc.2.1
  refine ⟨?_, ?_, ?_⟩
  · rw [isErgodic_iff hd hx', isErgodic_iff hc hx]
    refine (ergodic_iff_primitive hd.2.1).trans
      ((primitive_power hP hk).trans (ergodic_iff_primitive hP).symm)
  · have h1 : recurrentStatesIdx (fun i j => (c.p ^ k) i j) nx'.sccs = recurrentStatesIdx c.p nx.sccs := by
      refine List.Perm.eq_of_pairwise (le := (· < ·)) (fun a b _ _ hab hba => absurd hba (lt_asymm hab))
        (recurrentStatesIdx_strict hx'.sccs) (recurrentStatesIdx_strict hx.sccs) ?_
      refine (List.perm_ext_iff_of_nodup ?_ ?_).2 fun i => ?_
      · exact (recurrentStatesIdx_strict hx'.sccs).imp fun hab => ne_of_lt hab
      · exact (recurrentStatesIdx_strict hx.sccs).imp fun hab => ne_of_lt hab
      · rw [mem_recurrentStatesIdx hx'.sccs, mem_recurrentStatesIdx hx.sccs]
        exact recurrent_power hP hk i
    exact congrArg (List.map c.label) h1
  · have h1 : transientStatesIdx (fun i j => (c.p ^ k) i j) nx'.sccs = transientStatesIdx c.p nx.sccs := by
      refine List.Perm.eq_of_pairwise (le := (· < ·)) (fun a b _ _ hab hba => absurd hba (lt_asymm hab))
        (transientStatesIdx_strict hx'.sccs) (transientStatesIdx_strict hx.sccs) ?_
      refine (List.perm_ext_iff_of_nodup ?_ ?_).2 fun i => ?_
      · exact (transientStatesIdx_strict hx'.sccs).imp fun hab => ne_of_lt hab
      · exact (transientStatesIdx_strict hx.sccs).imp fun hab => ne_of_lt hab
      · rw [mem_transientStatesIdx hx'.sccs, mem_transientStatesIdx hx.sccs]
        exact not_congr (recurrent_power hP hk i)
    exact congrArg (List.map c.label) h1

/-- C139. An irreducible chain of period `g` splits into `gcd g k` communicating classes, and each state has the
period `g / gcd g k`. -/
theorem C139_classes (hc : c.Valid) (hd : (⟨c.n, c.p ^ k, c.states⟩ : MC K).Valid) (hk : 0 < k)
    {nx : Nx c.n} (hx : nx.Sound c.p) {nx' : Nx c.n} (hx' : nx'.Sound fun i j => (c.p ^ k) i j)
    (hirr : Irreducible c.p) :
    ∃ g : ℕ, 0 < g ∧ period c nx = g ∧
      (communicatingClasses ⟨c.n, c.p ^ k, c.states⟩ nx'.sccs).length = Nat.gcd g k ∧
      (isIrreducible ⟨c.n, c.p ^ k, c.states⟩ nx'.sccs = true ↔ Nat.Coprime g k) ∧
      (∀ i, IsPeriodOf (fun i j => (c.p ^ k) i j) i (g / Nat.gcd g k)) ∧
      (Nat.Coprime g k → period ⟨c.n, c.p ^ k, c.states⟩ nx' = g) := by
  have hP : IsStochastic fun i j => c.p i j := hc.2.1
  obtain ⟨g, hg, hper, -, hpg, -⟩ := C32_irreducible_partial hc hx hirr
  obtain ⟨σ, L, hlt, hσ, -, -, hne, hperm⟩ := C33_cyclic_classes hc hx hirr hper
  have hD0 : 0 < Nat.gcd g k := Nat.gcd_pos_of_pos_left _ hg
  have hreach := reach_phase (P := c.p) hP.1 hirr hg hk hper hσ
  have hsurj : ∀ r < g, ∃ i, σ i = r := by
    intro r hr
    have h1 : ((List.finRange c.n).filter fun i => σ i = r) ∈ L :=
      hperm.mem_iff.2 (List.mem_map.2 ⟨r, List.mem_range.2 hr, rfl⟩)
    obtain ⟨i, hi⟩ := List.exists_mem_of_ne_nil _ (hne _ h1)
    exact ⟨i, by simpa using (List.mem_filter.1 hi).2⟩
  have hk' := hx'.sccs.communicatingIdx
  have hperiod : ∀ i, IsPeriodOf (fun i j => (c.p ^ k) i j) i (g / Nat.gcd g k) :=
    fun i => period_power (P := c.p) hP.1 hg hk (hper i)
  have hlen : (communicatingClasses ⟨c.n, c.p ^ k, c.states⟩ nx'.sccs).length = Nat.gcd g k := by
    unfold communicatingClasses
    rw [List.length_map]
    have hne' : ∀ C ∈ communicatingIdx nx'.sccs, ∃ i ∈ C, ∀ j ∈ C, σ j % Nat.gcd g k = σ i % Nat.gcd g k := by
      intro C hC
      obtain ⟨i, hi⟩ := List.exists_mem_of_ne_nil _ (hk'.ne_nil C hC)
      exact ⟨i, hi, fun j hj => (hreach j i).1 ((hk'.mem_iff C hC i hi j).1 hj).2⟩
    obtain ⟨f, hf⟩ : ∃ f : List (Fin c.n) → ℕ, ∀ C ∈ communicatingIdx nx'.sccs, ∀ j ∈ C,
        f C = σ j % Nat.gcd g k :=
      ⟨fun C => match C with
        | [] => 0
        | i :: _ => σ i % Nat.gcd g k, fun C hC j hj => by
          obtain ⟨i, hi, hall⟩ := hne' C hC
          cases C with
          | nil => simp at hj
          | cons a t => exact (hall a List.mem_cons_self).trans (hall j hj).symm⟩
    have hnd : ((communicatingIdx nx'.sccs).map f).Nodup := by
      refine List.Nodup.map_on (fun C hC D hD hCD => ?_) hk'.nodup_list
      obtain ⟨i, hi⟩ := List.exists_mem_of_ne_nil _ (hk'.ne_nil C hC)
      obtain ⟨j, hj⟩ := List.exists_mem_of_ne_nil _ (hk'.ne_nil D hD)
      have h1 : σ i % Nat.gcd g k = σ j % Nat.gcd g k := by rw [← hf C hC i hi, hCD, hf D hD j hj]
      have h2 : j ∈ C := (hk'.mem_iff C hC i hi j).2 ⟨(hreach i j).2 h1, (hreach j i).2 h1.symm⟩
      by_contra hcon
      have : Std.Symm (List.Disjoint (α := Fin c.n)) := ⟨fun _ _ h => h.symm⟩
      exact hk'.disjoint.forall hC hD hcon h2 hj
    have hmem : ((communicatingIdx nx'.sccs).map f).Perm (List.range (Nat.gcd g k)) := by
      refine (List.perm_ext_iff_of_nodup hnd List.nodup_range).2 fun r => ?_
      rw [List.mem_map, List.mem_range]
      constructor
      · rintro ⟨C, hC, rfl⟩
        obtain ⟨i, hi⟩ := List.exists_mem_of_ne_nil _ (hk'.ne_nil C hC)
        rw [hf C hC i hi]
        exact Nat.mod_lt _ hD0
      · intro hr
        obtain ⟨i, hi⟩ := hsurj r (hr.trans_le (Nat.le_of_dvd hg (Nat.gcd_dvd_left g k)))
        obtain ⟨C, hC, hiC⟩ := hk'.cover i
        exact ⟨C, hC, by rw [hf C hC i hiC, hi, Nat.mod_eq_of_lt hr]⟩
    have := hmem.length_eq
    rwa [List.length_map, List.length_range] at this
  have hiff : isIrreducible ⟨c.n, c.p ^ k, c.states⟩ nx'.sccs = true ↔ Nat.Coprime g k := by
    unfold isIrreducible
    rw [beq_iff_eq, hlen]
  refine ⟨g, hg, hpg, hlen, hiff, hperiod, fun hcop => ?_⟩
  obtain ⟨g', -, hper', -, hpg', -⟩ := C32_irreducible_partial hd hx' ((C30_irreducible hd hx'.sccs).1 (hiff.2 hcop))
  have h0 : 0 < c.n := by have := hc.1; omega
  have a := hper' ⟨0, h0⟩
  have b := hperiod ⟨0, h0⟩
  have h1 : g' = g / Nat.gcd g k := Nat.dvd_antisymm (b.2 _ a.1) (a.2 _ b.1)
  rw [hpg', h1, hcop, Nat.div_one]


/-- C139. The stationary distributions of the classes are the parts of the one of the irreducible chain, each
scaled by the number of classes. -/
theorem C139_pi (hc : c.Valid) (hd : (⟨c.n, c.p ^ k, c.states⟩ : MC K).Valid) (hk : 0 < k)
    {nx : Nx c.n} (hx : nx.Sound c.p) {nx' : Nx c.n} (hx' : nx'.Sound fun i j => (c.p ^ k) i j)
    (hirr : Irreducible c.p) :
    ∃ (x : Fin c.n → K) (σ : Fin c.n → ℕ) (l : List (Fin c.n → K)), pi c nx.sccs = .ok [x] ∧
      (∀ i j, Edge c.p i j → σ j = (σ i + 1) % period c nx) ∧
      pi ⟨c.n, c.p ^ k, c.states⟩ nx'.sccs = .ok l ∧
      l.Perm ((List.range (Nat.gcd (period c nx) k)).map fun r i =>
        if σ i % Nat.gcd (period c nx) k = r then (Nat.gcd (period c nx) k : K) * x i else 0) := by
  have hP : IsStochastic fun i j => c.p i j := hc.2.1
  have hQ : IsStochastic fun i j => (c.p ^ k) i j := hd.2.1
  obtain ⟨g, hg, hper, -, hpg, -⟩ := C32_irreducible_partial hc hx hirr
  obtain ⟨σ, L, hlt, hσ, -, -, hne, hperm⟩ := C33_cyclic_classes hc hx hirr hper
  obtain ⟨x, hpi, hst, hpos, -⟩ := C34_stationary hc hx.sccs hirr
  obtain ⟨l, hl⟩ := pi_ok hd hx'.sccs
  obtain ⟨hnd, hmem⟩ := mem_pi hd hx'.sccs hl
  refine ⟨x, σ, l, hpi, by rw [hpg]; exact hσ, hl, ?_⟩
  rw [hpg]
  obtain ⟨D, hD⟩ : ∃ D, D = Nat.gcd g k := ⟨_, rfl⟩
  rw [← hD]
  have hD0 : 0 < D := hD ▸ Nat.gcd_pos_of_pos_left _ hg
  have hDK : (0 : K) < D := by exact_mod_cast hD0
  have hDg : D ∣ g := hD ▸ Nat.gcd_dvd_left g k
  have hreach : ∀ i j, Reach (fun i j => (c.p ^ k) i j) i j ↔ σ i % D = σ j % D := by
    intro i j
    rw [hD]
    exact reach_phase (P := c.p) hP.1 hirr hg hk hper hσ i j
  have hsurj : ∀ r < g, ∃ i, σ i = r := by
    intro r hr
    have h1 : ((List.finRange c.n).filter fun i => σ i = r) ∈ L :=
      hperm.mem_iff.2 (List.mem_map.2 ⟨r, List.mem_range.2 hr, rfl⟩)
    obtain ⟨i, hi⟩ := List.exists_mem_of_ne_nil _ (hne _ h1)
    exact ⟨i, by simpa using (List.mem_filter.1 hi).2⟩
  have hphase : ∀ r < D, ∃ i, σ i % D = r := by
    intro r hr
    obtain ⟨i, hi⟩ := hsurj r (hr.trans_le (Nat.le_of_dvd hg hDg))
    exact ⟨i, by rw [hi, Nat.mod_eq_of_lt hr]⟩
  obtain ⟨y, hy⟩ : ∃ y : ℕ → Fin c.n → K, y = fun r i => if σ i % D = r then (D : K) * x i else 0 := ⟨_, rfl⟩
  have hypos : ∀ r i, 0 < y r i ↔ σ i % D = r := by
    intro r i
    rw [hy]
    change 0 < (if σ i % D = r then (D : K) * x i else 0) ↔ _
    by_cases h : σ i % D = r
    · rw [if_pos h]
      exact ⟨fun _ => h, fun _ => mul_pos hDK (hpos i)⟩
    · rw [if_neg h]
      exact ⟨fun h0 => absurd h0 (lt_irrefl _), fun h0 => absurd h0 h⟩
  have hyst : ∀ r < D, IsStationary (fun i j => (c.p ^ k) i j) (y r) := by
    intro r hr
    refine ⟨⟨fun i => ?_, ?_⟩, fun j => ?_⟩
    · rw [hy]
      change 0 ≤ (if σ i % D = r then (D : K) * x i else 0)
      split
      · exact (mul_pos hDK (hpos i)).le
      · exact le_rfl
    · refine Eq.trans ?_ (phase_share hP hst hσ hD0 hDg hr)
      rw [hy, mul_sum]
      refine sum_congr rfl fun i _ => ?_
      rw [mul_ite, mul_zero]
    · have h1 : ∑ i, x i * (c.p ^ k) i j = x j := (stationary_power (P := c.p) hst k).2 j
      rw [hy]
      change ∑ i, (if σ i % D = r then (D : K) * x i else 0) * (c.p ^ k) i j =
        if σ j % D = r then (D : K) * x j else 0
      have h2 : ∀ i, (if σ i % D = r then (D : K) * x i else 0) * (c.p ^ k) i j =
          if σ j % D = r then (D : K) * (x i * (c.p ^ k) i j) else 0 := by
        intro i
        rcases (hQ.1 i j).lt_or_eq with hij | hij
        · have h3 : σ i % D = σ j % D := (hreach i j).1 (Reach.single hij)
          rw [h3, ite_mul, zero_mul, mul_assoc]
        · have h3 : (c.p ^ k) i j = 0 := hij.symm
          rw [h3, mul_zero, mul_zero, mul_zero, ite_self]
      rw [sum_congr rfl fun i _ => h2 i]
      by_cases hj : σ j % D = r
      · simp only [if_pos hj]
        rw [← mul_sum, h1]
      · simp only [if_neg hj, sum_const_zero]
  have hyl : ∀ r < D, y r ∈ l := by
    intro r hr
    obtain ⟨i, hi⟩ := hphase r hr
    refine (hmem _).2 ⟨hyst r hr, i, fun j hj => (hreach j i).2 ((hreach i j).1 hj).symm, fun j => ?_⟩
    rw [hypos]
    constructor
    · intro hj
      exact ⟨(hreach i j).2 (hi.trans hj.symm), (hreach j i).2 (hj.trans hi.symm)⟩
    · intro hj
      exact ((hreach i j).1 hj.1).symm.trans hi
  have hynd : ((List.range D).map y).Nodup := by
    refine List.Nodup.map_on (fun r hr r' hr' he => ?_) List.nodup_range
    obtain ⟨i, hi⟩ := hphase r (List.mem_range.1 hr)
    have h1 : 0 < y r' i := by rw [← he]; exact (hypos r i).2 hi
    exact hi.symm.trans ((hypos r' i).1 h1)
  have : l.Perm ((List.range D).map y) := by
    refine (List.perm_ext_iff_of_nodup hnd hynd).2 fun z => ?_
    rw [List.mem_map]
    constructor
    · intro hz
      obtain ⟨-, i, -, hzi⟩ := (hmem z).1 hz
      have hr : σ i % D < D := Nat.mod_lt _ hD0
      exact ⟨σ i % D, List.mem_range.2 hr, mem_pi_unique hd hx'.sccs hl (hyl _ hr) hz
        ((hypos _ i).2 rfl) ((hzi i).2 ⟨Reach.refl i, Reach.refl i⟩)⟩
    · rintro ⟨r, hr, rfl⟩
      exact hyl r (List.mem_range.1 hr)
  rw [hy] at this
  exact this

/-- C139. If period and order have no common divisor, both chains have the same stationary distribution; an
irreducible chain in detailed balance is found to be reversible, and so is the chain of higher order if it is
irreducible. -/
theorem C139_reversible (hc : c.Valid) (hd : (⟨c.n, c.p ^ k, c.states⟩ : MC K).Valid)
    {sccs sccs' : List (List (Fin c.n))} (hs : IsClasses c.p sccs)
    (hs' : IsClasses (fun i j => (c.p ^ k) i j) sccs') (hirr : Irreducible c.p)
    (hirr' : Irreducible fun i j => (c.p ^ k) i j) :
    ∃ x, pi c sccs = .ok [x] ∧ pi ⟨c.n, c.p ^ k, c.states⟩ sccs' = .ok [x] ∧
      (DetailedBalance c.p x → isReversible c sccs = .ok true ∧
        isReversible ⟨c.n, c.p ^ k, c.states⟩ sccs' = .ok true) := by
  obtain ⟨x, h1, h2, -, hu⟩ := C34_stationary hc hs hirr
  obtain ⟨y, h1', h2', -, hu'⟩ := C34_stationary hd hs' hirr'
  have h3 := stationary_power (P := c.p) h2 k
  refine ⟨x, h1, h1'.trans (by rw [← hu' x h3]), fun hb => ?_⟩
  obtain ⟨b, a1, -, a2⟩ := (C37_reversible_partial hc hs).1 x h2 hu
  obtain ⟨b', b1, -, b2⟩ := (C37_reversible_partial hd hs').1 x h3 fun z hz => (hu' z hz).trans (hu' x h3).symm
  rw [a1, b1, a2 hb, b2 (balance_power (P := c.p) hb k)]
  exact ⟨rfl, rfl⟩

/-- C139. The probabilities to reach a set that is never left are the same. -/
theorem C139_hitting {nnls : Nnls K} (hnn : Nnls.Sound nnls) (hc : c.Valid)
    (hd : (⟨c.n, c.p ^ k, c.states⟩ : MC K).Valid) (hk : 0 < k) {v : Option (PyVal K)} {S : List (Fin c.n)}
    (hS : hittingTargets c v = .ok S) (hcl : ClosedSet c.p (· ∈ S)) :
    ∃ g, hittingProbabilities nnls c v = .ok g ∧
      hittingProbabilities nnls ⟨c.n, c.p ^ k, c.states⟩ v = .ok g := by
  have hS' : hittingTargets (⟨c.n, c.p ^ k, c.states⟩ : MC K) v = .ok S := hS
  obtain ⟨-, g, h1, h2⟩ := C43_hitting_probabilities hnn hc hS
  obtain ⟨-, g', h1', h2'⟩ := C43_hitting_probabilities hnn hd hS'
  refine ⟨g, h1, h1'.trans ?_⟩
  rw [(h2' g).1 (hitting_power (P := c.p) hc.2.1 hk hcl ((h2 g).2 rfl))]

/-- C139. `redistribute` with the chain of higher order gives every `k`-th distribution. -/
theorem C139_redistribute (hc : c.Valid) (_hd : (⟨c.n, c.p ^ k, c.states⟩ : MC K).Valid) (hk : 0 < k)
    {steps : ℕ} {status : PyVal K} {l : List (Fin c.n → K)}
    (h : redistribute ⟨c.n, c.p ^ k, c.states⟩ (.int steps) status (.bool false) = .ok l) :
    ∃ l', redistribute c (.int (k * steps : ℕ)) status (.bool false) = .ok l' ∧ l.length = steps + 1 ∧
      ∀ t (ht : t < l.length), l'[k * t]? = some l[t] := by
  have h0 := h
  unfold redistribute at h
  rw [R.bind_ok] at h
  obtain ⟨z, hz, h⟩ := h
  rw [R.bind_ok] at h
  obtain ⟨d, hd', h⟩ := h
  obtain ⟨hz', hz1⟩ := validateInteger_ge hz
  obtain rfl : z = (steps : ℤ) := by
    simp only [PyVal.int.injEq] at hz'
    exact hz'.symm
  have hst := statusVector_ok hc.2.2 hc.1 hd'
  have hb : validateBoolean (K := K) (.bool false) = .ok false := rfl
  rw [hb, R.ok_bind, R.pure_ok] at h
  subst h
  have hs0 : ∑ i, listVec d c.n i ≠ 0 := hst.2.2.ne'
  have hP : IsStochastic c.p := hc.2.1
  have hrow : ∀ t, redistRow (c.p ^ k) (listVec d c.n) t = redistRow c.p (listVec d c.n) (k * t) := by
    intro t
    cases t with
    | zero => rfl
    | succ t =>
      funext j
      obtain ⟨m, hm⟩ : ∃ m, k * (t + 1) = m + 1 := ⟨k * (t + 1) - 1,
        (Nat.succ_pred_eq_of_pos (Nat.mul_pos hk (Nat.succ_pos t))).symm⟩
      rw [redistRow_eq (hP.pow k) hs0, hm, redistRow_eq hP hs0, ← hm, pow_mul]
  have hz2 : validateInteger (.int (k * steps : ℕ) : PyVal K) (some (1, false)) none = .ok ((k * steps : ℕ) : ℤ) := by
    refine validateInteger_of_ge ?_
    have : 1 ≤ steps := by omega
    have := Nat.mul_pos hk this
    omega
  refine ⟨(List.range (k * steps + 1)).map (redistRow c.p (listVec d c.n)), ?_, ?_, ?_⟩
  · unfold redistribute
    rw [hz2, R.ok_bind]
    refine (R.bind_ok _ _ _).2 ⟨d, hd', ?_⟩
    rfl
  · change ((List.range ((steps : ℤ).toNat + 1)).map _).length = _
    rw [List.length_map, List.length_range]
    rfl
  · intro t ht
    change t < ((List.range (steps + 1)).map (redistRow (c.p ^ k) (listVec d c.n))).length at ht
    change ((List.range (k * steps + 1)).map (redistRow c.p (listVec d c.n)))[k * t]? =
      some ((List.range (steps + 1)).map (redistRow (c.p ^ k) (listVec d c.n)))[t]
    rw [List.length_map, List.length_range] at ht
    have h2 : k * t < k * steps + 1 := by
      have := Nat.mul_le_mul_left k (Nat.le_of_lt_succ ht)
      omega
    rw [List.getElem_map, List.getElem_range, hrow, List.getElem?_map, List.getElem?_range h2]
    rfl

/-- C139. The runs of the chain of higher order are distributed like every `k`-th state of the runs of the
given chain. -/
theorem C139_simulate {c : MC ℝ} {k : ℕ} (hc : c.Valid) (hd : (⟨c.n, c.p ^ k, c.states⟩ : MC ℝ).Valid)
    (hk : 0 < k) [NeZero c.n] :
    ∃ run run', RunsOf c run ∧ RunsOf ⟨c.n, c.p ^ k, c.states⟩ run' ∧
      ∀ (i : Fin c.n) (s m m' : ℕ), s ≤ m → k * s ≤ m' → ∀ f : List (Fin c.n) → ℝ,
        meanDraw (fun u => f ((run' i m u).take (s + 1))) =
          meanDraw fun u => f (everyNth k s ((run i m' u).take (k * s + 1))) := by
  obtain ⟨run, hrun, hmean, -⟩ := runs_of hc
  obtain ⟨run', hrun', hmean', -⟩ := runs_of hd
  refine ⟨run, run', hrun, hrun', fun i s m m' hs hm f => ?_⟩
  refine (hmean' i s m f hs).trans ((expect_everyNth c.p hk s i f).trans ?_)
  exact (hmean i (k * s) m' (fun w => f (everyNth k s w)) hm).symm

/-- C139. The chain of higher order of an absorbing chain is absorbing, with the same absorbing states and
the same absorption probabilities, if no other diagonal entry is close to one. -/
theorem C139_absorption_partial {c : MC ℝ} {k : ℕ} (hc : c.Valid)
    (hd : (⟨c.n, c.p ^ k, c.states⟩ : MC ℝ).Valid) (hk : 0 < k) {sccs sccs' : List (List (Fin c.n))}
    (hs : IsClasses c.p sccs) (hs' : IsClasses (fun i j => (c.p ^ k) i j) sccs') (ha : AbsorbingChain c.p)
    (ht : ∃ i, TransientState c.p i) (htol : ∀ i, isclose (c.p i i) 1 = true → c.p i i = 1)
    (htol' : ∀ i, isclose ((c.p ^ k) i i) 1 = true → (c.p ^ k) i i = 1) :
    AbsorbingChain (fun i j => (c.p ^ k) i j) ∧
    (∀ i, AbsorbingState (fun i j => (c.p ^ k) i j) i ↔ AbsorbingState c.p i) ∧
    ∃ B B', absorptionProbabilities c sccs = .ok (some B) ∧
      absorptionProbabilities ⟨c.n, c.p ^ k, c.states⟩ sccs' = .ok (some B') ∧
      ∀ a i a' i', (absorbingIdx (c.p ^ k)).get a' = (absorbingIdx c.p).get a →
        (transientStatesIdx (c.p ^ k) sccs').get i' = (transientStatesIdx c.p sccs).get i →
        B' a' i' = B a i := by
  have hP : IsStochastic fun i j => c.p i j := hc.2.1
  have hpow : ∀ (m : ℕ) i, c.p i i = 1 → (c.p ^ m) i i = 1 := by
    intro m i hi
    have h0 : ∀ j, j ≠ i → c.p i j = 0 := by
      intro j hj
      have h1 : c.p i i + c.p i j ≤ ∑ l, c.p i l := by
        rw [← Finset.sum_pair (f := fun l => c.p i l) (Ne.symm hj)]
        exact Finset.sum_le_univ_sum_of_nonneg fun l => hP.1 i l
      have h2 : ∑ l, c.p i l = 1 := hP.2 i
      have h3 : 0 ≤ c.p i j := hP.1 i j
      linarith
    induction m with
    | zero => rw [pow_zero, Matrix.one_apply_eq]
    | succ m ih =>
      rw [pow_succ', Matrix.mul_apply, Finset.sum_eq_single i, hi, ih, one_mul]
      · intro j _ hj
        rw [h0 j hj, zero_mul]
      · exact fun h => absurd (mem_univ i) h
  have habs : ∀ i, AbsorbingState (fun i j => (c.p ^ k) i j) i ↔ AbsorbingState c.p i := by
    intro i
    constructor
    · intro hi
      have hQ : IsStochastic fun i j => (c.p ^ k) i j := hd.2.1
      refine absorbing_of_recurrent hc ha ((recurrent_power (P := c.p) hP hk i).1 fun j hj => ?_)
      have hcl : ClosedSet (fun i j => (c.p ^ k) i j) (· = i) := by
        rintro x y rfl hxy
        by_contra hne
        have h1 : (c.p ^ k) x x + (c.p ^ k) x y ≤ ∑ l, (c.p ^ k) x l := by
          rw [← Finset.sum_pair (f := fun l => (c.p ^ k) x l) (Ne.symm hne)]
          exact Finset.sum_le_univ_sum_of_nonneg fun l => hQ.1 x l
        have h2 : ∑ l, (c.p ^ k) x l = 1 := hQ.2 x
        have h3 : 0 < (c.p ^ k) x y := hxy
        have h4 : (c.p ^ k) x x = 1 := hi
        linarith
      have : j = i := by
        obtain ⟨m, hm⟩ := reach_iff_reachIn.1 hj
        clear hj
        induction hm with
        | refl => rfl
        | step _ e ih => exact hcl _ _ (ih hi hcl) e
      rw [this]
      exact Reach.refl i
    · exact fun hi => hpow k i hi
  have ha' : AbsorbingChain (fun i j => (c.p ^ k) i j) := by
    refine ⟨ha.1.imp fun i hi => (habs i).2 hi, fun i => ?_⟩
    obtain ⟨a, h1, h2⟩ := ha.2 i
    obtain ⟨r, hr⟩ := reach_iff_reachIn.1 h2
    have hcl : ClosedSet (fun i j => c.p i j) (· = a) := by
      rintro x y rfl hxy
      by_contra hne
      have h1' : c.p x x + c.p x y ≤ ∑ l, c.p x l := by
        rw [← Finset.sum_pair (f := fun l => c.p x l) (Ne.symm hne)]
        exact Finset.sum_le_univ_sum_of_nonneg fun l => hP.1 x l
      have h2' : ∑ l, c.p x l = 1 := hP.2 x
      have h3 : 0 < c.p x y := hxy
      have h4 : c.p x x = 1 := h1
      linarith
    obtain ⟨l, rfl, hr'⟩ := stay_in hP hcl (rfl : a = a) (k * r - r)
    refine ⟨l, (habs l).2 h1, (reach_power (P := c.p) hP.1 k i l).2 ⟨r, ?_⟩⟩
    have := hr.trans hr'
    rwa [Nat.add_sub_cancel' (Nat.le_mul_of_pos_left r hk)] at this
  have ht' : ∃ i, TransientState (fun i j => (c.p ^ k) i j) i :=
    ht.imp fun i hi => fun hr => hi ((recurrent_power (P := c.p) hP hk i).1 hr)
  obtain ⟨B, h1, -, -, -, -, h2⟩ := C39_absorption_probabilities_partial hc hs ha ht htol
  obtain ⟨B', h1', -, -, -, -, h2'⟩ := C39_absorption_probabilities_partial hd hs' ha' ht' htol'
  refine ⟨ha', habs, B, B', h1, h1', fun a i a' i' he hi => ?_⟩
  have h3 := h2' a' i'
  have h4 := (h2 a i).comp (Filter.tendsto_id.const_mul_atTop' hk)
  refine tendsto_nhds_unique h3 (h4.congr fun t => ?_)
  change (c.p ^ (k * t)) _ _ = ((c.p ^ k) ^ t) _ _
  rw [pow_mul]
  exact (congr (congrArg ((c.p ^ k) ^ t) hi) he).symm

/-- C139. The eigenvalues of the chain of higher order are the powers of the eigenvalues. -/
theorem C139_eigenvalues {c : MC ℝ} {k : ℕ} (hk : 0 < k) (z : ℂ) :
    IsEigenvalue (fun i j => (c.p ^ k) i j) z ↔ ∃ w, IsEigenvalue c.p w ∧ w ^ k = z := by
  rw [← mem_spectrum_iff, show (c.p ^ k).map (algebraMap ℝ ℂ) = (c.p.map (algebraMap ℝ ℂ)) ^ k from
    (pow_map k).symm, spectrum.map_pow_of_pos _ hk]
  constructor
  · rintro ⟨w, hw, rfl⟩
    exact ⟨w, mem_spectrum_iff.1 hw, rfl⟩
  · rintro ⟨w, hw, rfl⟩
    exact ⟨w, mem_spectrum_iff.2 hw, rfl⟩

/-- C139. The second largest modulus of the eigenvalues of an ergodic chain is raised to the power `k`, and the
mixing rate is divided by `k`, if the checks of the code with a tolerance are passed by both chains. -/
theorem C139_mixing_partial {c : MC ℝ} {k : ℕ} (hc : c.Valid)
    (hd : (⟨c.n, c.p ^ k, c.states⟩ : MC ℝ).Valid) (hk : 0 < k) {nx : Nx c.n} (hx : nx.Sound c.p) {nx' : Nx c.n}
    (hx' : nx'.Sound fun i j => (c.p ^ k) i j) {ev ev' : List ℂ} (hev : EigvalsSound c.p ev)
    (hev' : EigvalsSound (c.p ^ k) ev') (hgap : ∀ z ∈ ev, z ≠ 1 → isclose ‖z‖ 1 = false)
    (hgap' : ∀ z ∈ ev', z ≠ 1 → isclose ‖z‖ 1 = false) (he : Ergodic c.p) {s : ℝ}
    (hs : IsSecondModulus c.p s) (hsk : 1 / 10 ^ 8 < s ^ k) :
    slem c nx ev = .ok (some s) ∧ slem ⟨c.n, c.p ^ k, c.states⟩ nx' ev' = .ok (some (s ^ k)) ∧
    ∃ r, mixingRate c nx ev = .ok (some r) ∧
      mixingRate ⟨c.n, c.p ^ k, c.states⟩ nx' ev' = .ok (some (r / k)) := by
  have he' : Ergodic fun i j => (c.p ^ k) i j :=
    (isErgodic_iff hd hx').1 ((C139_flags hc hd hk hx hx').1.2 ((isErgodic_iff hc hx).2 he))
  obtain ⟨s1, a1, a2, a3, -, a4⟩ := (C86_second_modulus_partial hc hx hev hgap).1 he
  obtain ⟨s2, b1, b2, b3, -, b4⟩ := (C86_second_modulus_partial hd hx' hev' hgap').1 he'
  have uniq : ∀ {P : Fin c.n → Fin c.n → ℝ} {a b : ℝ}, IsSecondModulus P a → IsSecondModulus P b → a = b := by
    rintro P a b ⟨⟨z, hz, hz1, rfl⟩, h1⟩ ⟨⟨w, hw, hw1, rfl⟩, h2⟩
    exact le_antisymm (h2 z hz hz1) (h1 w hw hw1)
  obtain rfl := uniq a1 hs
  have hpow : IsSecondModulus (fun i j => (c.p ^ k) i j) (s1 ^ k) := by
    obtain ⟨⟨z, hz, hz1, hzs⟩, hmax⟩ := hs
    refine ⟨⟨z ^ k, (C139_eigenvalues hk _).2 ⟨z, hz, rfl⟩, fun h => ?_, by rw [norm_pow, hzs]⟩, ?_⟩
    · have h1 : ‖z ^ k‖ = 1 := by rw [h, norm_one]
      rw [norm_pow, hzs] at h1
      exact absurd h1 (pow_lt_one₀ a2 a3 hk.ne').ne
    · intro z' hz' hz1'
      obtain ⟨w, hw, rfl⟩ := (C139_eigenvalues hk z').1 hz'
      rw [norm_pow]
      refine pow_le_pow_left₀ (norm_nonneg _) (hmax w hw fun h => hz1' ?_) k
      rw [h, one_pow]
  obtain rfl := uniq b1 hpow
  have hs1 : 1 / 10 ^ 8 < s1 := hsk.trans_le (pow_le_of_le_one a2 a3.le hk.ne')
  obtain ⟨c1, -, -, c2, -⟩ := a4 hs1
  obtain ⟨d1, -, -, d2, -⟩ := b4 hsk
  refine ⟨c1, d1, _, c2, d2.trans ?_⟩
  rw [Real.log_pow, div_div, mul_comm]

/-- The hypotheses of the theorems can be met: orders two and three of the drunkard's walk and of a chain of
period two. -/
theorem C139_instance : (∃ d, toNthOrder exDrunkard (.int 2) = .ok d) ∧ exDrunkard.Valid ∧
    AbsorbingChain (fun i j : Fin 3 => exDrunkard.p i j) ∧ TransientState (fun i j : Fin 3 => exDrunkard.p i j) 1 ∧
    (∃ d, toNthOrder exPeriodTwo (.int 2) = .ok d) ∧ exPeriodTwo.Valid ∧
    Irreducible (fun i j : Fin 4 => exPeriodTwo.p i j) ∧
    ¬ Irreducible (fun i j : Fin 4 => (exPeriodTwo.p ^ 2) i j) ∧
    Irreducible (fun i j : Fin 4 => (exPeriodTwo.p ^ 3) i j) :=
  ⟨⟨_, rfl⟩, by decide +kernel, by decide +kernel, by decide +kernel, ⟨_, rfl⟩, by decide +kernel,
    by decide +kernel, by decide +kernel, by decide +kernel⟩

end Verif
