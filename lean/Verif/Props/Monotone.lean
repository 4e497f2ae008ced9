import Verif.Spec.Order
import Verif.Props.Stationary

/-!
# Monotone and reversible chains (C36, C37)
-/

set_option linter.unusedSectionVars false

namespace Verif

open Finset

variable {K : Type} [Field K] [LinearOrder K] [IsStrictOrderedRing K]

/-- A vector with total zero whose tails are nonnegative has a nonnegative product with every
nondecreasing function. -/
theorem sum_mul_nonneg_of_tails {n : ℕ} {u f : Fin n → K} (h0 : ∑ j, u j = 0)
    (ht : ∀ m, 0 ≤ ∑ j with m ≤ j, u j) (hf : Monotone f) : 0 ≤ ∑ j, u j * f j := by
  cases n with
  | zero => simp
  | succ n =>
    let g : ℕ → K := fun k => f ⟨min k n, by omega⟩
    have hg : ∀ j : Fin (n + 1), f j = g 0 + ∑ m ∈ range n, if m < j.val then g (m + 1) - g m else 0 := by
      intro j
      have h1 : f j = g j := by
        change f j = f ⟨min j n, _⟩
        congr 1
        exact Fin.ext (by have := j.2; simp only; omega)
      have h2 : ∑ m ∈ range n, (if m < j.val then g (m + 1) - g m else 0) = g j - g 0 := by
        rw [← sum_range_sub, ← sum_filter]
        refine sum_congr ?_ fun _ _ => rfl
        ext m
        have := j.2
        simp only [mem_filter, mem_range]
        omega
      rw [h1, h2]
      ring
    have h3 : ∑ j, u j * f j =
        g 0 * ∑ j, u j + ∑ m ∈ range n, (g (m + 1) - g m) * ∑ j : Fin (n + 1) with m < j.val, u j := by
      simp only [mul_sum, sum_filter]
      rw [sum_comm, ← sum_add_distrib]
      refine sum_congr rfl fun j _ => ?_
      rw [hg j, mul_add, mul_sum, mul_comm]
      congr 1
      refine sum_congr rfl fun m _ => ?_
      split <;> simp [mul_comm]
    rw [h3, h0, mul_zero, zero_add]
    refine sum_nonneg fun m hm => mul_nonneg (sub_nonneg.2 (hf ?_)) ?_
    · exact Fin.mk_le_mk.2 (by omega)
    · rw [mem_range] at hm
      refine le_of_le_of_eq (ht ⟨m + 1, by omega⟩) (sum_congr ?_ fun _ _ => rfl)
      ext j
      simp only [mem_filter, mem_univ, true_and, Fin.le_def]
      omega

theorem stochLe_expect {n : ℕ} {d e : Fin n → K} (hd : IsDist d) (he : IsDist e) (h : StochLe d e)
    {f : Fin n → K} (hf : Monotone f) : ∑ j, d j * f j ≤ ∑ j, e j * f j := by
  have := sum_mul_nonneg_of_tails (u := fun j => e j - d j) (by simp [hd.2, he.2])
    (fun m => by rw [sum_sub_distrib]; exact sub_nonneg.2 (h m)) hf
  simp only [sub_mul, sum_sub_distrib] at this
  exact sub_nonneg.1 this

theorem isDist_single {n : ℕ} (i : Fin n) : IsDist (fun j => if j = i then (1 : K) else 0) := by
  refine ⟨fun j => by simp only; split <;> simp, by simp⟩

/-- C36. `is_stochastically_monotone` holds exactly when the transition matrix maps nondecreasing
functions to nondecreasing functions, and exactly when one step of the chain preserves the
stochastic order of distributions. -/
theorem C36_monotone {c : MC K} (hc : c.Valid) :
    (isMonotone c = true ↔
      ∀ f : Fin c.n → K, Monotone f → Monotone fun i => ∑ j, c.p i j * f j) ∧
    (isMonotone c = true ↔
      ∀ d e : Fin c.n → K, IsDist d → IsDist e → StochLe d e →
        StochLe (fun j => ∑ i, d i * c.p i j) fun j => ∑ i, e i * c.p i j) := by
  have hn := hc.1
  have hdist : ∀ i, IsDist fun j => c.p i j := fun i => ⟨hc.2.1.1 i, hc.2.1.2 i⟩
  have htail : isMonotone c = true ↔ ∀ m, Monotone fun i => ∑ j with m ≤ j, c.p i j := by
    unfold isMonotone
    rw [decide_eq_true_eq]
    constructor
    · intro h m
      by_cases hm : 1 ≤ m.val
      · have key : ∀ d (a b : Fin c.n), a.val + d = b.val →
            ∑ j with m ≤ j, c.p a j ≤ ∑ j with m ≤ j, c.p b j := by
          intro d
          induction d with
          | zero => intro a b hab; rw [Fin.ext (show a.val = b.val by omega)]
          | succ d ih =>
            intro a b hab
            exact (ih a ⟨b.val - 1, by omega⟩ (by simp only; omega)).trans
              (not_lt.1 (h m hm _ b (by simp only; omega)))
        intro a b hab
        exact key (b.val - a.val) a b (by have : a.val ≤ b.val := hab; omega)
      · intro a b _
        have hu : univ.filter (m ≤ ·) = (univ : Finset (Fin c.n)) := by
          ext j
          simp only [mem_filter, mem_univ, true_and, Fin.le_def, iff_true]
          omega
        simp only [hu]
        rw [hc.2.1.2 a, hc.2.1.2 b]
    · intro h m _ k l hkl
      exact not_lt.2 (h m (Fin.le_def.2 (by omega)))
  have hA : isMonotone c = true ↔
      ∀ f : Fin c.n → K, Monotone f → Monotone fun i => ∑ j, c.p i j * f j := by
    rw [htail]
    constructor
    · intro h f hf a b hab
      exact stochLe_expect (hdist a) (hdist b) (fun m => h m hab) hf
    · intro h m
      have := h (fun j => if m ≤ j then 1 else 0) ?_
      · simpa [sum_filter] using this
      · intro a b hab
        simp only
        by_cases ha : m ≤ a
        · rw [if_pos ha, if_pos (ha.trans hab)]
        · rw [if_neg ha]; split <;> simp
  have hstep : ∀ (d : Fin c.n → K) m, ∑ j with m ≤ j, ∑ i, d i * c.p i j =
      ∑ i, d i * ∑ j with m ≤ j, c.p i j := by
    intro d m
    rw [sum_comm]
    exact sum_congr rfl fun i _ => (mul_sum _ _ _).symm
  refine ⟨hA, ?_⟩
  rw [htail]
  constructor
  · intro h d e hd he hde m
    rw [hstep, hstep]
    exact stochLe_expect hd he hde (h m)
  · intro h m a b hab
    have hle : StochLe (fun j : Fin c.n => if j = a then (1 : K) else 0)
        fun j => if j = b then 1 else 0 := by
      intro m
      simp only [sum_ite_eq', mem_filter, mem_univ, true_and]
      by_cases ha : m ≤ a
      · rw [if_pos ha, if_pos (ha.trans hab)]
      · rw [if_neg ha]; split <;> simp
    have := h _ _ (isDist_single a) (isDist_single b) hle m
    rw [hstep, hstep] at this
    simpa using this

/-- Both outcomes occur. -/
example : isMonotone exLoop = false ∧ isMonotone exReversed = false ∧
    isMonotone (⟨2, !![1 / 2, 1 / 2; 0, 1], ["a", "b"]⟩ : MC ℚ) = true := by decide +kernel

/-! ## Reversible chains -/

/-- `pi` holds a single vector exactly when there is only one stationary distribution. -/
theorem pi_cases {c : MC K} (hc : c.Valid) {sccs : List (List (Fin c.n))} (h : IsClasses c.p sccs) :
    (∃ x, pi c sccs = .ok [x] ∧ IsStationary c.p x ∧ ∀ y, IsStationary c.p y → y = x) ∨
    ∃ xs x y, pi c sccs = .ok xs ∧ 2 ≤ xs.length ∧ IsStationary c.p x ∧ IsStationary c.p y ∧ x ≠ y := by
  by_cases hirr : Irreducible c.p
  · obtain ⟨x, h1, h2, -, h3⟩ := C34_stationary hc h hirr
    exact Or.inl ⟨x, h1, h2, h3⟩
  · obtain ⟨hr, hcomm, f, h1, h2, h3⟩ := C35_reducible hc h hirr
    have hLd : (recurrentIdx c.p sccs).Pairwise List.Disjoint := by
      have : Std.Symm (List.Disjoint (α := Fin c.n)) := ⟨fun _ _ h => h.symm⟩
      exact (h.classesIdx.disjoint.filter _).perm (sortClasses_perm _).symm (fun h => h.symm)
    have hne' : ∀ C ∈ recurrentIdx c.p sccs, C ≠ [] := fun C hC =>
      h.classesIdx.ne_nil C (mem_recurrentIdx.1 hC).1
    generalize recurrentIdx c.p sccs = L at hr hcomm h1 h2 h3 hLd hne'
    match L, hr, hcomm, h1, h2, h3, hLd, hne' with
    | [], hr, _, _, _, _, _, _ =>
      obtain ⟨j, -, hj⟩ := exists_recurrent_reach (fun i j => c.p i j)
        (⟨0, by have := hc.1; omega⟩ : Fin c.n)
      obtain ⟨C, hC, -⟩ := (hr j).1 hj
      exact absurd hC List.not_mem_nil
    | [C], _, _, h1, h2, h3, _, _ =>
      left
      refine ⟨f C, h1, (h2 C (by simp)).1, fun y hy => ?_⟩
      obtain ⟨w, -, hw, hyw⟩ := (h3 y).1 hy
      funext i
      simp at hw
      rw [hyw i]
      simp [hw]
    | C :: D :: L, _, _, h1, h2, _, hLd, hne' =>
      right
      refine ⟨_, f C, f D, h1, by simp, (h2 C (by simp)).1, (h2 D (by simp)).1, fun heq => ?_⟩
      obtain ⟨i, hi⟩ := List.exists_mem_of_ne_nil C (hne' C (by simp))
      have hi' := ((h2 C (by simp)).2 i).2 hi
      rw [heq] at hi'
      exact (List.pairwise_cons.1 hLd).1 D (by simp) hi (((h2 D (by simp)).2 i).1 hi')

/-- C37. If the chain has a single stationary distribution, `is_reversible` compares the
probability flows in both directions with the tolerances of `numpy.allclose`; it is true whenever
detailed balance holds. A chain with several stationary distributions is reported as not reversible.
The converse of the second part fails (`C37_rare_moves`). -/
theorem C37_reversible_partial {c : MC K} (hc : c.Valid) {sccs : List (List (Fin c.n))}
    (h : IsClasses c.p sccs) :
    (∀ x, IsStationary c.p x → (∀ y, IsStationary c.p y → y = x) →
      ∃ b, isReversible c sccs = .ok b ∧
        (b = true ↔ ∀ i j, |x i * c.p i j - x j * c.p j i| ≤
          1 / 10 ^ 8 + 1 / 10 ^ 5 * (x j * c.p j i)) ∧
        (DetailedBalance c.p x → b = true)) ∧
    ∀ x y, IsStationary c.p x → IsStationary c.p y → x ≠ y → isReversible c sccs = .ok false := by
  rcases pi_cases hc h with ⟨z, hz, hst, huniq⟩ | ⟨xs, u, v, hxs, hlen, hu, hv, hne⟩
  · constructor
    · intro x hx _
      obtain rfl : x = z := huniq x hx
      refine ⟨decide (∀ i j, isclose (x i * c.p i j) (x j * c.p j i) = true), ?_, ?_⟩
      · unfold isReversible
        rw [hz, R.ok_bind]
        rfl
      · have hnn : ∀ i j, 0 ≤ x j * c.p j i := fun i j => mul_nonneg (hx.1.1 j) (hc.2.1.1 j i)
        rw [decide_eq_true_eq]
        have hiff : (∀ i j, isclose (x i * c.p i j) (x j * c.p j i) = true) ↔
            ∀ i j, |x i * c.p i j - x j * c.p j i| ≤ 1 / 10 ^ 8 + 1 / 10 ^ 5 * (x j * c.p j i) := by
          refine forall_congr' fun i => forall_congr' fun j => ?_
          unfold isclose
          rw [decide_eq_true_eq, abs_of_nonneg (hnn i j)]
        refine ⟨hiff, fun hdb => ?_⟩
        intro i j
        have := hdb i j
        rw [this]
        exact isclose_self _
    · intro x y hx hy hne
      exact absurd ((huniq x hx).trans (huniq y hy).symm) hne
  · constructor
    · intro x hx huniq
      exact absurd ((huniq u hu).trans (huniq v hv).symm) hne
    · intro _ _ _ _ _
      unfold isReversible
      rw [hxs, R.ok_bind]
      match xs, hlen with
      | _ :: _ :: _, _ => rfl

/-- A chain that rarely moves, and then along a cycle. -/
def exRare : MC ℚ :=
  ⟨3, !![1 - 1 / 10 ^ 9, 1 / 10 ^ 9, 0; 0, 1 - 1 / 10 ^ 9, 1 / 10 ^ 9;
    1 / 10 ^ 9, 0, 1 - 1 / 10 ^ 9], ["a", "b", "c"]⟩

/-- Disagreement with C37: the chain moves along a cycle in one direction only, so detailed balance
fails with its only stationary distribution, and `is_reversible` is true: the flows are compared
with an absolute tolerance. -/
theorem C37_rare_moves :
    exRare.Valid ∧ isReversible exRare ([[0, 1, 2]] : List (List (Fin 3))) = .ok true ∧
    IsStationary (fun i j : Fin 3 => exRare.p i j) (fun _ => 1 / 3) ∧
    Irreducible (fun i j : Fin 3 => exRare.p i j) ∧
    ¬ DetailedBalance (fun i j : Fin 3 => exRare.p i j) fun _ => 1 / 3 := by
  have hv : exRare.Valid := by decide +kernel
  have hi : Irreducible (fun i j : Fin 3 => exRare.p i j) := by decide +kernel
  have hc : IsClasses (fun i j : Fin 3 => exRare.p i j) [[0, 1, 2]] := by decide +kernel
  have hs : IsStationary (fun i j : Fin 3 => exRare.p i j) (fun _ => 1 / 3) := by decide +kernel
  refine ⟨hv, ?_, hs, hi, ?_⟩
  · obtain ⟨x, -, h2, -, h3⟩ := C34_stationary hv hc hi
    obtain ⟨b, h4, h5, -⟩ := (C37_reversible_partial hv hc).1 x h2 h3
    obtain rfl := h3 _ hs
    have : b = true := h5.2 (by
      change ∀ i j : Fin 3, |1 / 3 * exRare.p i j - 1 / 3 * exRare.p j i| ≤
        1 / 10 ^ 8 + 1 / 10 ^ 5 * (1 / 3 * exRare.p j i)
      decide +kernel)
    rw [h4, this]
  · unfold DetailedBalance
    decide +kernel

/-- The hypotheses of `C37_reversible_partial` are met in `C37_rare_moves`; here is a chain that is
found not to be reversible. -/
example : (isReversible (⟨3, !![0, 1, 0; 0, 0, 1; 1, 0, 0], ["a", "b", "c"]⟩ : MC ℚ)
    ([[0, 1, 2]] : List (List (Fin 3)))).toOption = some false := by decide +kernel

end Verif
