import Verif.Props.ReducibleLongRun
import Verif.Props.Ergodic
import Verif.Props.Periods
import Mathlib.Analysis.Asymptotics.SpecificAsymptotics

/-!
# Limit of the law of chains with several classes (C133)

`periods` (`markov_chain.py:855-864`) decides whether the law of the state settles down.
-/

set_option linter.unusedSectionVars false

namespace Verif

open Finset

section Generic

variable {K : Type} [Field K] [LinearOrder K] [IsStrictOrderedRing K] {n : ℕ}

/-- A state of period one is returned to after every large number of steps. -/
theorem IsPeriodOf.eventually {P : Fin n → Fin n → K} {i : Fin n} (h : IsPeriodOf P i 1) :
    ∃ N, ∀ k ≥ N, ReachIn P k i i := by
  obtain ⟨S, hS⟩ : ∃ S : AddSubmonoid ℕ, ∀ k, k ∈ S ↔ ReachIn P k i i :=
    ⟨{ carrier := {k | ReachIn P k i i}
       add_mem' := fun h1 h2 => ReachIn.trans h1 h2
       zero_mem' := ReachIn.refl i }, fun k => Iff.rfl⟩
  obtain ⟨N, hN⟩ := Nat.exists_mem_closure_of_ge (s := (S : Set ℕ))
  have h1 : Nat.setGcd (S : Set ℕ) ∣ 1 := h.2 _ fun k hk => Nat.setGcd_dvd_of_mem ((hS k).2 hk)
  refine ⟨N, fun k hk => (hS k).1 ?_⟩
  have := hN k hk (h1.trans (one_dvd k))
  rwa [AddSubmonoid.closure_eq] at this

/-- One number of steps within which every state reaches the recurrent ones, and every recurrent state
all states of its class. -/
theorem exists_exponent {P : Fin n → Fin n → K} (hper : ∀ i, RecurrentState P i → IsPeriodOf P i 1) :
    ∃ N, 0 < N ∧ (∀ i, RecurrentState P i → ∀ j, Reach P i j → ReachIn P N i j) ∧
      ∀ i, ∃ j, RecurrentState P j ∧ ReachIn P N i j := by
  have h1 : ∀ i, ∃ N, RecurrentState P i → ∀ k ≥ N, ReachIn P k i i := by
    intro i
    by_cases hi : RecurrentState P i
    · obtain ⟨N, hN⟩ := (hper i hi).eventually
      exact ⟨N, fun _ => hN⟩
    · exact ⟨0, fun h => absurd h hi⟩
  choose N hN using h1
  have h2 : ∀ i j, ∃ d, Reach P i j → ReachIn P d i j := by
    intro i j
    by_cases hij : Reach P i j
    · obtain ⟨d, hd⟩ := reach_iff_reachIn.1 hij
      exact ⟨d, fun _ => hd⟩
    · exact ⟨0, fun h => absurd h hij⟩
  choose d hd using h2
  have hle : ∀ i j, N j + d i j ≤ ∑ i, ∑ j, (N j + d i j) := fun i j =>
    (single_le_sum (f := fun j => N j + d i j) (fun _ _ => Nat.zero_le _) (mem_univ j)).trans
      (single_le_sum (f := fun i => ∑ j, (N j + d i j)) (fun _ _ => Nat.zero_le _) (mem_univ i))
  obtain ⟨T, hT⟩ : ∃ T, T = ∑ i, ∑ j, (N j + d i j) + 1 := ⟨_, rfl⟩
  have key : ∀ i j, RecurrentState P j → Reach P i j → ReachIn P T i j := by
    intro i j hj hij
    have h3 := hle i j
    have h4 := (hd i j hij).trans (hN j hj (T - d i j) (by omega))
    rwa [Nat.add_sub_cancel' (by omega)] at h4
  refine ⟨T, by omega, fun i hi j hij => key i j ?_ hij, fun i => ?_⟩
  · exact fun l hl => (hi l (hij.trans hl)).trans hij
  · obtain ⟨j, h3, h4⟩ := exists_recurrent_reach P i
    exact ⟨j, h4, key i j h4 h3⟩

/-- The positive entries of a matrix are bounded away from zero. -/
theorem exists_lower (Q : Fin n → Fin n → K) :
    ∃ δ : K, 0 < δ ∧ δ ≤ 1 ∧ ∀ i j, 0 < Q i j → δ ≤ Q i j := by
  obtain ⟨S, hS⟩ : ∃ S : Finset K, S = insert 1
      ((univ.image fun a : Fin n × Fin n => Q a.1 a.2).filter (0 < ·)) := ⟨_, rfl⟩
  have hne : S.Nonempty := ⟨1, by rw [hS]; exact mem_insert_self _ _⟩
  refine ⟨S.min' hne, ?_, S.min'_le 1 (by rw [hS]; exact mem_insert_self _ _), fun i j h =>
    S.min'_le _ ?_⟩
  · have h1 : ∀ x ∈ S, x = 1 ∨ 0 < x := by
      intro x hx
      rw [hS, mem_insert, mem_filter] at hx
      exact hx.imp_right And.right
    rcases h1 _ (S.min'_mem hne) with h | h
    · rw [h]; exact one_pos
    · exact h
  · rw [hS]
    exact mem_insert_of_mem (mem_filter.2 ⟨mem_image.2 ⟨(i, j), mem_univ _, rfl⟩, h⟩)

/-- A step that puts at least `δ` on some state where `v` is small. -/
theorem step_small {q v : Fin n → K} (hq : ∀ j, 0 ≤ q j) (hq1 : ∑ j, q j = 1) {M m δ : K} {l : Fin n}
    (hM : ∀ j, 0 < q j → v j ≤ M) (hl : v l ≤ m) (hmM : m ≤ M) (hδ : δ ≤ q l) :
    ∑ j, q j * v j ≤ M - δ * (M - m) := by
  have h1 : ∑ j, q j * (M - v j) = M - ∑ j, q j * v j := by
    simp only [mul_sub, sum_sub_distrib, ← sum_mul, hq1, one_mul]
  have h2 : q l * (M - v l) ≤ ∑ j, q j * (M - v j) := by
    refine single_le_sum (f := fun j => q j * (M - v j)) (fun j _ => ?_) (mem_univ l)
    rcases (hq j).eq_or_lt with h | h
    · rw [← h, zero_mul]
    · exact mul_nonneg (hq j) (sub_nonneg.2 (hM j h))
  have h3 : δ * (M - m) ≤ q l * (M - v l) :=
    mul_le_mul hδ (by linarith) (by linarith) (hq l)
  linarith

/-- The powers for a chain whose recurrent classes `L` are aperiodic, have stationary distributions `f` and
hitting probabilities `g`. -/
theorem class_limits {P : Matrix (Fin n) (Fin n) K} (hP : IsStochastic P)
    (L : Finset (List (Fin n))) {f g : List (Fin n) → Fin n → K}
    (hrec : ∀ i, RecurrentState P i → ∃ C ∈ L, i ∈ C)
    (hcomm : ∀ C ∈ L, ∀ i ∈ C, ∀ j ∈ C, Reach P i j)
    (hf : ∀ C ∈ L, IsStationary P (f C)) (hfC : ∀ C ∈ L, ∀ i, 0 < f C i ↔ i ∈ C)
    (hg : ∀ C ∈ L, ∀ i, ∑ j, P i j * g C j = g C i)
    (hgC : ∀ C ∈ L, ∀ i ∈ C, g C i = 1) (hg0 : ∀ C ∈ L, ∀ D ∈ L, C ≠ D → ∀ i ∈ D, g C i = 0)
    (hper : ∀ i, RecurrentState P i → IsPeriodOf P i 1) :
    ∃ (N : ℕ) (r B : K), 0 < N ∧ 0 ≤ r ∧ r < 1 ∧ ∀ (t : ℕ) (i j : Fin n),
      |(P ^ t) i j - ∑ C ∈ L, g C i * f C j| ≤ B * r ^ (t / N) := by
  have hf0 : ∀ C ∈ L, ∀ i, i ∉ C → f C i = 0 := fun C hC i hi =>
    le_antisymm (not_lt.1 fun h => hi ((hfC C hC i).1 h)) ((hf C hC).1.1 i)
  have hclosed : ∀ C ∈ L, ∀ i ∈ C, ∀ j, Reach P i j → j ∈ C := by
    intro C hC i hi j hij
    induction hij with
    | refl => exact hi
    | tail h1 h2 ih =>
      have hpos := (hfC C hC _).2 ih
      rw [← hfC C hC, ← (hf C hC).2]
      refine lt_of_lt_of_le (mul_pos hpos h2) ?_
      exact single_le_sum (f := fun i => f C i * P i _)
        (fun i _ => mul_nonneg ((hf C hC).1.1 i) (hP.1 i _)) (mem_univ _)
  have hrecC : ∀ C ∈ L, ∀ i ∈ C, RecurrentState P i := fun C hC i hi j hij =>
    hcomm C hC j (hclosed C hC i hi j hij) i hi
  obtain ⟨N, hN0, hN1, hN2⟩ := exists_exponent (P := P) hper
  obtain ⟨δ, hδ0, hδ1, hδ⟩ := exists_lower fun i j => (P ^ N) i j
  -- the error after `t` steps
  obtain ⟨w, hw⟩ : ∃ w : ℕ → Fin n → Fin n → K,
      ∀ t i j, w t i j = (P ^ t) i j - ∑ C ∈ L, g C i * f C j := ⟨fun t i j => _, fun _ _ _ => rfl⟩
  have hPg : ∀ k, ∀ C ∈ L, ∀ i, ∑ j, (P ^ k) i j * g C j = g C i := by
    intro k C hC i
    induction k with
    | zero => simp [Matrix.one_apply]
    | succ k ih =>
      rw [← ih]
      simp only [pow_succ, Matrix.mul_apply, sum_mul]
      rw [sum_comm]
      refine sum_congr rfl fun l _ => ?_
      rw [← hg C hC l, mul_sum]
      exact sum_congr rfl fun a _ => by ring
  have hstep : ∀ k t i j, w (k + t) i j = ∑ l, (P ^ k) i l * w t l j := by
    intro k t i j
    simp only [hw, mul_sub, sum_sub_distrib, mul_sum]
    rw [pow_add, Matrix.mul_apply]
    congr 1
    rw [sum_comm]
    refine sum_congr rfl fun C hC => ?_
    rw [← hPg k C hC i, sum_mul]
    exact sum_congr rfl fun l _ => by ring
  have hfP : ∀ k, ∀ C ∈ L, ∀ j, ∑ i, f C i * (P ^ k) i j = f C j := by
    intro k C hC j
    induction k generalizing j with
    | zero => simp [Matrix.one_apply]
    | succ k ih =>
      rw [← (hf C hC).2 j]
      simp only [pow_succ, Matrix.mul_apply, mul_sum]
      rw [sum_comm]
      refine sum_congr rfl fun l _ => ?_
      rw [← ih l, sum_mul]
      exact sum_congr rfl fun a _ => by ring
  have hfw : ∀ t, ∀ C ∈ L, ∀ j, ∑ i, f C i * w t i j = 0 := by
    intro t C hC j
    simp only [hw, mul_sub, sum_sub_distrib, mul_sum]
    rw [hfP t C hC j, sum_comm]
    have h1 : ∀ D ∈ L, ∑ i, f C i * (g D i * f D j) = if C = D then f D j else 0 := by
      intro D hD
      have h2 : ∀ i, f C i * (g D i * f D j) = f C i * if C = D then f D j else 0 := by
        intro i
        by_cases hi : i ∈ C
        · by_cases h : C = D
          · subst h
            rw [hgC C hC i hi, if_pos rfl, one_mul]
          · rw [hg0 D hD C hC (Ne.symm h) i hi, if_neg h, zero_mul]
        · rw [hf0 C hC i hi, zero_mul, zero_mul]
      simp only [h2]
      rw [← sum_mul, (hf C hC).1.2, one_mul]
    rw [sum_congr rfl h1]
    simp [hC]
  -- a state of the class where the error is not positive, and one where it is not negative
  have hneg : ∀ t, ∀ C ∈ L, ∀ j, (∃ l ∈ C, w t l j ≤ 0) ∧ ∃ l ∈ C, -w t l j ≤ 0 := by
    intro t C hC j
    constructor
    · by_contra hcon
      push Not at hcon
      have h1 := hfw t C hC j
      have h2 : 0 < ∑ i, f C i * w t i j := by
        obtain ⟨a, ha⟩ : ∃ a, 0 < f C a := by
          by_contra h
          push Not at h
          have := sum_nonpos (s := (univ : Finset (Fin n))) fun i _ => h i
          rw [(hf C hC).1.2] at this
          exact absurd this (not_le.2 one_pos)
        refine sum_pos' (fun i _ => ?_) ⟨a, mem_univ _, mul_pos ha (hcon a ((hfC C hC a).1 ha))⟩
        by_cases hi : i ∈ C
        · exact mul_nonneg ((hf C hC).1.1 i) (hcon i hi).le
        · rw [hf0 C hC i hi, zero_mul]
      exact h2.ne' h1
    · by_contra hcon
      push Not at hcon
      have h1 := hfw t C hC j
      have h2 : 0 < ∑ i, f C i * -w t i j := by
        obtain ⟨a, ha⟩ : ∃ a, 0 < f C a := by
          by_contra h
          push Not at h
          have := sum_nonpos (s := (univ : Finset (Fin n))) fun i _ => h i
          rw [(hf C hC).1.2] at this
          exact absurd this (not_le.2 one_pos)
        refine sum_pos' (fun i _ => ?_) ⟨a, mem_univ _, mul_pos ha (hcon a ((hfC C hC a).1 ha))⟩
        by_cases hi : i ∈ C
        · exact mul_nonneg ((hf C hC).1.1 i) (hcon i hi).le
        · rw [hf0 C hC i hi, zero_mul]
      simp only [mul_neg, sum_neg_distrib, h1, neg_zero, lt_irrefl] at h2
  obtain ⟨a, ha0, ha⟩ : ∃ a : K, 0 ≤ a ∧ ∀ i j, |w 0 i j| ≤ a := by
    refine ⟨∑ i, ∑ j, |w 0 i j|, sum_nonneg fun i _ => sum_nonneg fun j _ => abs_nonneg _, fun i j => ?_⟩
    exact (single_le_sum (f := fun j => |w 0 i j|) (fun _ _ => abs_nonneg _) (mem_univ j)).trans
      (single_le_sum (f := fun i => ∑ j, |w 0 i j|) (fun i _ => sum_nonneg fun j _ => abs_nonneg _)
        (mem_univ i))
  have hQ := hP.pow N
  obtain ⟨r, hr⟩ : ∃ r, r = 1 - δ / 2 := ⟨_, rfl⟩
  have hr0 : 0 ≤ r := by rw [hr]; linarith
  have hr1 : r < 1 := by rw [hr]; linarith
  have main : ∀ s j, (∀ i, RecurrentState P i → |w (N * s) i j| ≤ a * r ^ s) ∧
      ∀ i, |w (N * s) i j| ≤ 2 * a * r ^ s := by
    intro s j
    induction s with
    | zero =>
      refine ⟨fun i _ => by simpa using ha i j, fun i => ?_⟩
      have := ha i j
      simp only [mul_zero, pow_zero, mul_one]
      linarith
    | succ s ih =>
      obtain ⟨ih1, ih2⟩ := ih
      have hpos : 0 ≤ r ^ s := pow_nonneg hr0 s
      have hw1 : ∀ i, w (N * (s + 1)) i j = ∑ l, (P ^ N) i l * w (N * s) l j := by
        intro i
        rw [← hstep, mul_add, mul_one, add_comm]
      have hneg1 : ∀ i, -w (N * (s + 1)) i j = ∑ l, (P ^ N) i l * -w (N * s) l j := by
        intro i
        rw [hw1]
        simp only [mul_neg, sum_neg_distrib]
      constructor
      · intro i hi
        obtain ⟨C, hC, hiC⟩ := hrec i hi
        have hin : ∀ l, 0 < (P ^ N) i l → l ∈ C := fun l hl =>
          hclosed C hC i hiC l (reach_iff_reachIn.2 ⟨N, (reachIn_iff_pow_pos hP.1 N i l).2 hl⟩)
        have hall : ∀ l ∈ C, δ ≤ (P ^ N) i l := fun l hl =>
          hδ i l ((reachIn_iff_pow_pos hP.1 N i l).1 (hN1 i hi l (hcomm C hC i hiC l hl)))
        obtain ⟨⟨l1, hl1, hl1'⟩, l2, hl2, hl2'⟩ := hneg (N * s) C hC j
        have hM : 0 ≤ a * r ^ s := mul_nonneg ha0 hpos
        have h1 := step_small (q := fun l => (P ^ N) i l) (v := fun l => w (N * s) l j)
          (fun l => hQ.1 i l) (hQ.2 i) (M := a * r ^ s) (m := 0) (δ := δ) (l := l1)
          (fun l hl => (le_abs_self _).trans (ih1 l (hrecC C hC l (hin l hl)))) hl1' hM (hall l1 hl1)
        have h2 := step_small (q := fun l => (P ^ N) i l) (v := fun l => -w (N * s) l j)
          (fun l => hQ.1 i l) (hQ.2 i) (M := a * r ^ s) (m := 0) (δ := δ) (l := l2)
          (fun l hl => (neg_le_abs _).trans (ih1 l (hrecC C hC l (hin l hl)))) hl2' hM (hall l2 hl2)
        have h3 : a * r ^ s - δ * (a * r ^ s - 0) ≤ a * r ^ (s + 1) := by
          rw [pow_succ, hr]
          have : 0 ≤ δ / 2 * (a * (1 - δ / 2) ^ s) := mul_nonneg (by linarith) (by rw [← hr]; exact hM)
          nlinarith
        rw [abs_le']
        exact ⟨by rw [hw1]; exact h1.trans h3, by rw [hneg1]; exact h2.trans h3⟩
      · intro i
        obtain ⟨l, hl, hil⟩ := hN2 i
        have hM : a * r ^ s ≤ 2 * a * r ^ s := by
          have := mul_nonneg ha0 hpos; linarith
        have hδl := hδ i l ((reachIn_iff_pow_pos hP.1 N i l).1 hil)
        have h1 := step_small (q := fun l => (P ^ N) i l) (v := fun l => w (N * s) l j)
          (fun l => hQ.1 i l) (hQ.2 i) (M := 2 * a * r ^ s) (m := a * r ^ s) (δ := δ) (l := l)
          (fun l _ => (le_abs_self _).trans (ih2 l)) ((le_abs_self _).trans (ih1 l hl)) hM hδl
        have h2 := step_small (q := fun l => (P ^ N) i l) (v := fun l => -w (N * s) l j)
          (fun l => hQ.1 i l) (hQ.2 i) (M := 2 * a * r ^ s) (m := a * r ^ s) (δ := δ) (l := l)
          (fun l _ => (neg_le_abs _).trans (ih2 l)) ((neg_le_abs _).trans (ih1 l hl)) hM hδl
        have h3 : 2 * a * r ^ s - δ * (2 * a * r ^ s - a * r ^ s) ≤ 2 * a * r ^ (s + 1) := by
          rw [pow_succ, hr]
          nlinarith
        rw [abs_le']
        exact ⟨by rw [hw1]; exact h1.trans h3, by rw [hneg1]; exact h2.trans h3⟩
  refine ⟨N, r, 2 * a, hN0, hr0, hr1, fun t i j => ?_⟩
  rw [← hw]
  have ht : t = t % N + N * (t / N) := (Nat.mod_add_div t N).symm
  rw [congrArg (fun t => |w t i j|) ht, hstep]
  refine (abs_sum_le_sum_abs _ _).trans ?_
  calc ∑ l, |(P ^ (t % N)) i l * w (N * (t / N)) l j|
      ≤ ∑ l, (P ^ (t % N)) i l * (2 * a * r ^ (t / N)) := by
        refine sum_le_sum fun l _ => ?_
        rw [abs_mul, abs_of_nonneg ((hP.pow _).1 i l)]
        exact mul_le_mul_of_nonneg_left ((main (t / N) j).2 l) ((hP.pow _).1 i l)
    _ = 2 * a * r ^ (t / N) := by rw [← sum_mul, (hP.pow _).2 i, one_mul]

/-- `periods` lists only ones exactly when every recurrent state has the period one. -/
theorem periods_one_iff {c : MC K} {nx : Nx c.n} (hx : nx.Sound c.p) :
    (∀ g ∈ periods c nx, g = 1) ↔ ∀ i, RecurrentState c.p i → IsPeriodOf c.p i 1 := by
  obtain ⟨ord, hcl, hfa⟩ := C32_classes_partial hx
  have hrecC : ∀ C ∈ ord, (∃ i ∈ C, RecurrentState c.p i) → ∀ i ∈ C, RecurrentState c.p i := by
    rintro C hC ⟨i, hi, hr⟩ j hj l hl
    have hij := (hcl.mem_iff C hC i hi j).1 hj
    exact (hr l (hij.1.trans hl)).trans hij.1
  constructor
  · intro h i hi
    obtain ⟨C, hC, hiC⟩ := hcl.cover i
    obtain ⟨a, ha, rfl⟩ := List.getElem_of_mem hC
    have ha' : a < (periods c nx).length := by rw [← hfa.length_eq]; exact ha
    have h1 := (hfa.get ha ha').1 (hrecC _ hC ⟨i, hiC, hi⟩) i hiC
    have h2 : (periods c nx).get ⟨a, ha'⟩ = 1 := h _ (List.getElem_mem ha')
    rwa [h2] at h1
  · intro h g hg
    obtain ⟨a, ha, rfl⟩ := List.getElem_of_mem hg
    have ha' : a < ord.length := by rw [hfa.length_eq]; exact ha
    have hC : ord[a] ∈ ord := List.getElem_mem ha'
    obtain ⟨i, hi⟩ := List.exists_mem_of_ne_nil _ (hcl.ne_nil _ hC)
    obtain ⟨h1, h2⟩ := hfa.get ha' ha
    by_cases hr : RecurrentState c.p i
    · exact (h1 (hrecC _ hC ⟨i, hi, hr⟩) i hi).unique (h i hr)
    · exact h2 ⟨i, hi, hr⟩

/-- C133. If `periods` lists only ones, the law of the state converges geometrically, from every start, to
the mixture of the distributions of `pi` with the weights of `hitting_probabilities`. -/
theorem C133_limit {nnls : Nnls K} (hnn : Nnls.Sound nnls) {c : MC K} (hc : c.Valid) {nx : Nx c.n}
    (hx : nx.Sound c.p) (hper : ∀ g ∈ periods c nx, g = 1) :
    ∃ (L : List (List (Fin c.n))) (f g : List (Fin c.n) → Fin c.n → K),
      recurrentClasses c nx.sccs = L.map (fun C => C.map c.label) ∧ pi c nx.sccs = .ok (L.map f) ∧
      (∀ C ∈ L, hittingProbabilities nnls c (some (pyStrings (C.map c.label))) = .ok (g C)) ∧
      ∃ (N : ℕ) (r B : K), 0 < N ∧ 0 ≤ r ∧ r < 1 ∧ ∀ (t : ℕ) (i j : Fin c.n),
        |(c.p ^ t) i j - (L.map fun C => g C i * f C j).sum| ≤ B * r ^ (t / N) := by
  obtain ⟨L, f, g, -, hnd, h1, h2, h3, hrec, hcomm, hf, hfC, hg, hgC, hg0⟩ := shares_data hnn hc hx.sccs
  refine ⟨L, f, g, h1, h2, h3, ?_⟩
  simp only [← List.mem_toFinset (l := L)] at hrec hcomm hf hfC hg hgC hg0
  obtain ⟨N, r, B, hN, hr0, hr1, hB⟩ := class_limits (P := c.p) hc.2.1 L.toFinset (f := f) (g := g)
    hrec hcomm hf hfC hg hgC hg0 ((periods_one_iff hx).1 hper)
  refine ⟨N, r, B, hN, hr0, hr1, fun t i j => ?_⟩
  rw [← List.sum_toFinset _ hnd]
  exact hB t i j

end Generic

open Filter Topology MeasureTheory

/-- C133. `periods` lists only ones exactly when the law of the state converges from every start. -/
theorem C133_iff {c : MC ℝ} (hc : c.Valid) {nx : Nx c.n} (hx : nx.Sound c.p) :
    (∀ g ∈ periods c nx, g = 1) ↔
      ∀ i j, ∃ l, Tendsto (fun t : ℕ => (c.p ^ t) i j) atTop (𝓝 l) := by
  obtain ⟨nnls, hnn⟩ := exists_nnls (K := ℝ)
  constructor
  · intro h i j
    obtain ⟨L, f, g, -, -, -, N, r, B, hN, hr0, hr1, hB⟩ := C133_limit hnn hc hx h
    refine ⟨(L.map fun C => g C i * f C j).sum, ?_⟩
    rw [tendsto_iff_norm_sub_tendsto_zero]
    refine squeeze_zero (fun _ => norm_nonneg _) (fun t => hB t i j) ?_
    have h1 : Tendsto (fun t : ℕ => t / N) atTop atTop := Nat.tendsto_div_const_atTop hN.ne'
    have h2 := ((tendsto_pow_atTop_nhds_zero_of_lt_one hr0 hr1).comp h1).const_mul B
    rwa [mul_zero] at h2
  · intro h
    rw [periods_one_iff hx]
    intro i hi
    obtain ⟨ord, hcl, hfa⟩ := C32_classes_partial hx
    obtain ⟨D, hD, hiD⟩ := hcl.cover i
    obtain ⟨a, ha, rfl⟩ := List.getElem_of_mem hD
    have ha' : a < (periods c nx).length := by rw [← hfa.length_eq]; exact ha
    obtain ⟨d, hd⟩ : ∃ d, IsPeriodOf c.p i d := by
      refine ⟨_, (hfa.get ha ha').1 (fun j hj l hl => ?_) i hiD⟩
      have hij := (hcl.mem_iff _ hD i hiD j).1 hj
      exact (hi l (hij.1.trans hl)).trans hij.1
    by_cases hd1 : d = 1
    · rwa [hd1] at hd
    exfalso
    obtain ⟨L, f, g, -, hnd, -, -, -, hrec, hcomm, hf, hfC, hg, hgC, hg0⟩ :=
      shares_data hnn hc hx.sccs
    simp only [← List.mem_toFinset (l := L)] at hrec hcomm hf hfC hg hgC hg0
    obtain ⟨B, -, hB⟩ := class_averages (P := c.p) hc.2.1 L.toFinset (f := f) (g := g)
      hrec hcomm hf hfC hg hgC hg0
    obtain ⟨l, hl⟩ := h i i
    have hzero : ∀ m : ℕ, (c.p ^ (d * m + 1)) i i = 0 := by
      intro m
      refine le_antisymm (not_lt.1 fun hpos => hd1 ?_) ((hc.2.1.pow _).1 _ _)
      have := hd.1 _ ((reachIn_iff_pow_pos (P := c.p) hc.2.1.1 _ i i).2 hpos)
      exact Nat.dvd_one.1 ((Nat.dvd_add_right (Dvd.intro m rfl)).1 this)
    have hd0 : d ≠ 0 := by
      rintro rfl
      obtain ⟨j, hj⟩ := IsStochastic.exists_edge (P := fun i j => c.p i j) hc.2.1 i
      obtain ⟨k, hk⟩ := reach_iff_reachIn.1 (hi j (.single hj))
      have := hd.1 _ (ReachIn.cons hj hk)
      omega
    have hl0 : l = 0 := by
      have h1 : Tendsto (fun m : ℕ => d * m + 1) atTop atTop :=
        tendsto_atTop_mono (fun m => (Nat.le_mul_of_pos_left m (Nat.pos_of_ne_zero hd0)).trans
          (Nat.le_succ _)) tendsto_id
      have h2 := hl.comp h1
      have h3 : (fun t : ℕ => (c.p ^ t) i i) ∘ (fun m : ℕ => d * m + 1) = fun _ => 0 := funext hzero
      rw [h3] at h2
      exact tendsto_nhds_unique h2 tendsto_const_nhds
    obtain ⟨C, hC, hiC⟩ := hrec i hi
    have hsum : ∑ D ∈ L.toFinset, g D i * f D i = f C i := by
      rw [sum_eq_single_of_mem C hC fun D hD hDC => by rw [hg0 D hD C hC hDC i hiC, zero_mul],
        hgC C hC i hiC, one_mul]
    have h4 : Tendsto (fun k : ℕ => (∑ t ∈ range k, (c.p ^ t) i i) / k) atTop (𝓝 (f C i)) := by
      rw [tendsto_iff_norm_sub_tendsto_zero]
      refine squeeze_zero' (Eventually.of_forall fun _ => norm_nonneg _)
        (eventually_atTop.2 ⟨1, fun k hk => ?_⟩) (tendsto_const_div_atTop_nhds_zero_nat B)
      have := hB k hk i i
      rwa [hsum] at this
    have h5 := hl.cesaro
    have h6 : (fun k : ℕ => (k : ℝ)⁻¹ * ∑ t ∈ range k, (c.p ^ t) i i) =
        fun k : ℕ => (∑ t ∈ range k, (c.p ^ t) i i) / k := by
      funext k; rw [div_eq_inv_mul]
    rw [h6] at h5
    have h7 := tendsto_nhds_unique h4 h5
    have h8 := (hfC C hC i).2 hiC
    rw [h7, hl0] at h8
    exact lt_irrefl _ h8

/-- C133 for simulated runs: the law of the last state. -/
theorem C133_simulated {nnls : Nnls ℝ} (hnn : Nnls.Sound nnls) {c : MC ℝ} (hc : c.Valid) [NeZero c.n]
    {nx : Nx c.n} (hx : nx.Sound c.p) (hper : ∀ g ∈ periods c nx, g = 1) :
    ∃ (L : List (List (Fin c.n))) (f g : List (Fin c.n) → Fin c.n → ℝ),
      recurrentClasses c nx.sccs = L.map (fun C => C.map c.label) ∧ pi c nx.sccs = .ok (L.map f) ∧
      (∀ C ∈ L, hittingProbabilities nnls c (some (pyStrings (C.map c.label))) = .ok (g C)) ∧
      ∃ (N : ℕ) (r B : ℝ), 0 < N ∧ 0 ≤ r ∧ r < 1 ∧
        ∀ (start : Fin c.n) (steps initialState : PyVal ℝ) (s : ℤ) (i : Option (Fin c.n)),
        validateInteger steps (some (2, false)) none = .ok s → OptionalState initialState c.states i →
        ∃ run : (ℕ → ℝ) → List (Fin c.n),
          (∀ u b, simulate c (cdfChoice u) start steps initialState .none (.bool b) =
            .ok (render c.states b (run u))) ∧
          ∀ j, |(Measure.infinitePi (fun _ : ℕ => uniformDraw) {u | (run u)[s.toNat]? = some j}).toReal -
              (L.map fun C => g C (i.getD start) * f C j).sum| ≤ B * r ^ (s.toNat / N) := by
  obtain ⟨L, f, g, h1, h2, h3, N, r, B, hN, hr0, hr1, hB⟩ := C133_limit hnn hc hx hper
  refine ⟨L, f, g, h1, h2, h3, N, r, B, hN, hr0, hr1, fun start steps initialState s i hs hi => ?_⟩
  obtain ⟨run, h4, -, h5⟩ := C116_paths hc start hs hi
  refine ⟨run, h4, fun j => ?_⟩
  rw [h5 s.toNat le_rfl j, ENNReal.toReal_ofReal ((hc.2.1.pow _).1 _ _)]
  exact hB _ _ j

/-- The results of networkx for the drunkard. -/
def exDrunkardNx : Nx exDrunkard.n :=
  Nx.ofClasses (fun i j : Fin 3 => exDrunkard.p i j) ([[0], [1], [2]] : List (List (Fin 3))) true

/-- The hypotheses can be met: the drunkard has three classes without a period, and two separate clocks
have the period two. -/
example : exDrunkard.Valid ∧ exDrunkardNx.Sound exDrunkard.p ∧
    periods exDrunkard exDrunkardNx = [1, 1, 1] ∧ exTwoClocks.Valid ∧ exTwoClocksNx.Sound exTwoClocks.p ∧
    periods exTwoClocks exTwoClocksNx = [2, 2] := by
  refine ⟨by decide +kernel, Nx.ofClasses_sound true ?_, by decide +kernel, by decide +kernel,
    Nx.ofClasses_sound false ?_, by decide +kernel⟩
  · change IsClasses (fun i j : Fin 3 => exDrunkard.p i j) [[0], [1], [2]]
    decide +kernel
  · change IsClasses (fun i j : Fin 4 => exTwoClocks.p i j) [[0, 1], [2, 3]]
    decide +kernel

end Verif
