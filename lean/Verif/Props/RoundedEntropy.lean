import Verif.Model.RoundedEntropy
import Verif.Props.Entropy
import Verif.Props.RoundedMeasures
import Verif.Props.RoundedPassage

/-!
# Entropy rate with rounding (C178)

All terms of the sum have the same sign, so the sum has a small relative error. Only the sign of the result
depends on a comparison with a tolerance.
-/

namespace Verif

open Finset

section Field

variable {K : Type} [Field K] [LinearOrder K] [IsStrictOrderedRing K] {u : K} {fl : K → K}

theorem Acc.round (hu0 : 0 ≤ u) (hu : u < 1) (hfl : ∀ z, |fl z - z| ≤ u * |z|) {z : K} (hz : 0 ≤ z) :
    Acc (1 / (1 - u)) 1 (fl z) z := by
  refine ⟨hz, ?_⟩
  rw [pow_one]
  have := hfl z
  rw [abs_of_nonneg hz] at this
  exact near_of_relative hu hu0 hz this

theorem Acc.round_neg (hu0 : 0 ≤ u) (hu : u < 1) (hfl : ∀ z, |fl z - z| ≤ u * |z|) {z : K} (hz : z ≤ 0) :
    Acc (1 / (1 - u)) 1 (-fl z) (-z) := by
  refine ⟨neg_nonneg.2 hz, ?_⟩
  rw [pow_one]
  have := hfl z
  rw [abs_of_nonpos hz] at this
  refine near_of_relative hu hu0 (neg_nonneg.2 hz) ?_
  rw [show -fl z - -z = -(fl z - z) by ring, abs_neg]
  exact this

/-- Adding terms of one sign. -/
theorem foldl_negative (hu0 : 0 ≤ u) (hu : u < 1) (hfl : ∀ z, |fl z - z| ≤ u * |z|) {ι : Type} {c : ι → Prop}
    [DecidablePred c] {a' a : ι → K} {T : ℕ} (l : List ι)
    (ha : ∀ q ∈ l, c q → Acc (1 / (1 - u)) T (-a' q) (-a q)) (M : ℕ) (hM : T ≤ M) (h' h : K)
    (hh : Acc (1 / (1 - u)) M (-h') (-h)) :
    Acc (1 / (1 - u)) (M + l.length) (-l.foldl (fun h q => if c q then fl (h + a' q) else h) h')
      (-(h + (l.map fun q => if c q then a q else 0).sum)) := by
  have h1 := one_le_factor hu0 hu
  induction l generalizing M h' h with
  | nil => simpa using hh
  | cons q l ih =>
    rw [List.foldl_cons, List.map_cons, List.sum_cons, List.length_cons]
    have hl := fun q hq => ha q (List.mem_cons_of_mem _ hq)
    by_cases hc : c q
    · rw [if_pos hc, if_pos hc]
      have hq := (ha q List.mem_cons_self hc).mono h1 hM
      have hs : Acc (1 / (1 - u)) M (-(h' + a' q)) (-(h + a q)) := by
        refine ⟨?_, ?_⟩
        · have := hh.exact_nonneg
          have := hq.exact_nonneg
          linarith
        · rw [neg_add, neg_add]
          exact hh.near.add hq.near
      have hr := Acc.round_neg hu0 hu hfl (z := h' + a' q) (by
        have := hs.nonneg h1
        linarith)
      have e := ih hl (1 + M) (by omega) (fl (h' + a' q)) (h + a q) (hr.trans h1 hs)
      rw [add_assoc h] at e
      exact Acc.mono h1 (show 1 + M + l.length ≤ M + (l.length + 1) by omega) e
    · rw [if_neg hc, if_neg hc, zero_add]
      exact (ih hl M hM h' h hh).mono h1 (by omega)

omit [LinearOrder K] [IsStrictOrderedRing K] in
theorem sum_pairs {n : ℕ} (g : Fin n × Fin n → K) :
    (((List.finRange n).flatMap fun i => (List.finRange n).map fun j => (i, j)).map g).sum =
      ∑ i, ∑ j, g (i, j) := by
  have hl : ∀ l : List (Fin n), ((l.flatMap fun i => (List.finRange n).map fun j => (i, j)).map g).sum =
      (l.map fun i => ∑ j, g (i, j)).sum := by
    intro l
    induction l with
    | nil => rfl
    | cons i l ih =>
      rw [List.flatMap_cons, List.map_append, List.sum_append, ih, List.map_cons, List.sum_cons, List.map_map]
      rw [show (List.finRange n).map (g ∘ fun j => (i, j)) = List.ofFn fun j => g (i, j) from
        List.ofFn_eq_map.symm, List.sum_ofFn]
  rw [hl, ← List.ofFn_eq_map, List.sum_ofFn]

theorem length_pairs (n : ℕ) :
    ((List.finRange n).flatMap fun i => (List.finRange n).map fun j => (i, j)).length = n * n := by
  simp

theorem iscloseF_zero (hu0 : 0 ≤ u) (hu : u < 1) (hfl : ∀ z, |fl z - z| ≤ u * |z|) (h : K) :
    ((1 / (1 - u)) ^ 3 / 10 ^ 8 < |h| → iscloseF fl h 0 = false) ∧
    ((1 / (1 - u)) ^ 3 * |h| ≤ 1 / 10 ^ 8 → iscloseF fl h 0 = true) := by
  have h1 := one_le_factor hu0 hu
  have hf0 : (0 : K) < 1 / (1 - u) := by linarith
  have hz : fl 0 = 0 := by
    have := hfl 0
    rw [abs_zero, mul_zero, sub_zero] at this
    exact abs_eq_zero.1 (le_antisymm this (abs_nonneg _))
  have hL := Acc.round hu0 hu hfl (abs_nonneg h)
  have hR := (Acc.round hu0 hu hfl (z := fl (1 / 10 ^ 8)) ((Acc.round hu0 hu hfl (z := 1 / 10 ^ 8)
    (by positivity)).nonneg h1)).trans h1 (Acc.round hu0 hu hfl (z := 1 / 10 ^ 8) (by positivity))
  unfold iscloseF
  rw [sub_zero, abs_zero, mul_zero, hz, add_zero]
  generalize fl |h| = L at hL ⊢
  generalize fl (fl (1 / 10 ^ 8)) = R at hR ⊢
  obtain ⟨-, l1, l2⟩ := hL
  obtain ⟨-, r1, r2⟩ := hR
  rw [pow_one] at l1 l2
  norm_num only at r1 r2
  generalize 1 / (1 - u) = f at *
  rw [decide_eq_false_iff_not, decide_eq_true_iff, not_le]
  constructor
  · intro hh
    by_contra hc
    rw [not_lt] at hc
    have h2 : f * L ≤ f * R := mul_le_mul_of_nonneg_left hc hf0.le
    have h3 : f * R ≤ f * (f ^ 2 * (1 / 100000000)) := mul_le_mul_of_nonneg_left r1 hf0.le
    have h4 : f * (f ^ 2 * (1 / 100000000)) = f ^ 3 / 10 ^ 8 := by ring
    linarith
  · intro hh
    by_contra hc
    rw [not_le] at hc
    have h2 : f ^ 2 * R < f ^ 2 * L := mul_lt_mul_of_pos_left hc (by positivity)
    have h3 : f ^ 2 * L ≤ f ^ 2 * (f * |h|) := mul_le_mul_of_nonneg_left l1 (by positivity)
    have h4 : f ^ 2 * (f * |h|) = f ^ 3 * |h| := by ring
    norm_num only at hh
    linarith

end Field

/-- C178. For a chain with one stationary distribution `x` the entropy rate is returned up to its sign and up
to the factor of `3 n^3 + L + 2 + n^2` roundings, where `L` counts the roundings of the logarithm. The sign is
right if the rate exceeds `1e-8` by three more roundings, and the result is not positive if the rate is below
`1e-8` by as many. For a chain with several stationary distributions `None` is returned. -/
theorem C178_entropy_rate {F : Arith ℝ} {u : ℝ} (hF : F.Sound u) {fl : ℝ → ℝ} (hfl : ∀ z, |fl z - z| ≤ u * |z|)
    {lg : ℝ → ℝ} {L : ℕ} (hlg : ∀ z, 0 < z → z ≤ 1 → Acc (1 / (1 - u)) L (-lg z) (-Real.log z))
    {c : MC ℝ} (hc : c.Valid) {sccs : List (List (Fin c.n))} (h : IsClasses c.p sccs) {N : ℕ}
    (hN : N = 3 * c.n ^ 3 + L + 2 + c.n ^ 2) :
    (∃ x, IsStationary c.p x ∧ (∀ y, IsStationary c.p y → y = x) ∧
      ∃ r, entropyRateF F fl lg c sccs = .ok (some r) ∧ Acc (1 / (1 - u)) N |r| (rate c x) ∧
        ((1 / (1 - u)) ^ (N + 3) / 10 ^ 8 < rate c x → 0 < r) ∧
        ((1 / (1 - u)) ^ (N + 3) * rate c x ≤ 1 / 10 ^ 8 → r ≤ 0)) ∨
    (∃ x y, IsStationary c.p x ∧ IsStationary c.p y ∧ x ≠ y ∧ entropyRateF F fl lg c sccs = .ok none) := by
  have h1 := hF.one_le
  have hu0 := hF.unit_nonneg
  have hu := hF.unit_lt
  obtain ⟨m, l', hm, hl', hall⟩ := C147_pi hF hc h
  unfold entropyRateF
  rw [hl', R.ok_bind]
  rcases pi_cases hc h with ⟨x, hx, hst, huniq⟩ | ⟨xs, x, y, hx, hlen, hx1, hy1, hne⟩
  · left
    rw [hx] at hm
    cases hm
    obtain ⟨x', rfl⟩ : ∃ x', l' = [x'] := List.length_eq_one_iff.1 hall.length_eq
    have hacc := (List.forall₂_cons.1 hall).1
    refine ⟨x, hst, huniq, ?_⟩
    rw [if_neg (by simp)]
    change ∃ r, Except.ok (some (if iscloseF fl (entropySumF fl lg c.p x') 0 = true then
      entropySumF fl lg c.p x' else -entropySumF fl lg c.p x')) = Except.ok (some r) ∧ _
    have hle : ∀ i j, c.p i j ≤ 1 := fun i j => by
      have := hc.2.1.2 i
      rw [← this]
      exact Finset.single_le_sum (f := fun j => c.p i j) (fun j _ => hc.2.1.1 i j) (mem_univ j)
    have hterm : ∀ q : Fin c.n × Fin c.n, c.p q.1 q.2 > 0 → Acc (1 / (1 - u)) (3 * c.n ^ 3 + L + 2)
        (-fl (fl (x' q.1 * c.p q.1 q.2) * lg (c.p q.1 q.2)))
        (-(x q.1 * c.p q.1 q.2 * Real.log (c.p q.1 q.2))) := by
      intro q hq
      have hx0 : Acc (1 / (1 - u)) (3 * c.n ^ 3) (x' q.1) (x q.1) := ⟨hst.1.1 _, (hacc q.1).2⟩
      have e1 := hx0.times h1 (Acc.refl hq.le)
      have e2 := (Acc.round hu0 hu hfl (e1.nonneg h1)).trans h1 e1
      have e3 := e2.times h1 (hlg _ hq (hle _ _))
      rw [mul_neg, mul_neg] at e3
      have e4 := Acc.round_neg hu0 hu hfl (neg_nonneg.1 (e3.nonneg h1))
      exact (e4.trans h1 e3).mono h1 (by omega)
    have hsum := foldl_negative hu0 hu hfl
      ((List.finRange c.n).flatMap fun i => (List.finRange c.n).map fun j => (i, j)) (fun q _ => hterm q)
      (3 * c.n ^ 3 + L + 2) le_rfl 0 0 (by
        rw [neg_zero]
        exact (Acc.refl le_rfl).mono h1 (Nat.zero_le _))
    rw [sum_pairs, length_pairs, zero_add] at hsum
    change Acc (1 / (1 - u)) (3 * c.n ^ 3 + L + 2 + c.n * c.n) (-entropySumF fl lg c.p x') (-entropySum c x) at hsum
    rw [entropySum_eq c hc, neg_neg] at hsum
    change Acc _ _ _ (rate c x) at hsum
    rw [show 3 * c.n ^ 3 + L + 2 + c.n * c.n = N by rw [hN]; ring] at hsum
    generalize entropySumF fl lg c.p x' = g at hsum ⊢
    have hg0 : 0 ≤ -g := hsum.nonneg h1
    have habs : |g| = -g := abs_of_nonpos (by linarith)
    obtain ⟨z1, z2⟩ := iscloseF_zero hu0 hu hfl g
    rw [habs] at z1 z2
    have hp : (0 : ℝ) < (1 / (1 - u)) ^ N := by positivity
    have hp3 : (0 : ℝ) < (1 / (1 - u)) ^ 3 := by positivity
    refine ⟨_, rfl, ?_, ?_, ?_⟩
    · split
      · rw [habs]
        exact hsum
      · rw [abs_neg, habs]
        exact hsum
    · intro hr
      have hlt : (1 / (1 - u)) ^ 3 / 10 ^ 8 < -g := by
        by_contra hcon
        have := mul_le_mul_of_nonneg_left (not_lt.1 hcon) hp.le
        have h3 := hsum.near.2
        rw [pow_add] at hr
        have : (1 / (1 - u)) ^ N * ((1 / (1 - u)) ^ 3 / 10 ^ 8) = (1 / (1 - u)) ^ N * (1 / (1 - u)) ^ 3 / 10 ^ 8 := by
          ring
        linarith
      rw [z1 hlt, if_neg (by simp)]
      have : (0 : ℝ) < (1 / (1 - u)) ^ 3 / 10 ^ 8 := by positivity
      linarith
    · intro hr
      have hle' : (1 / (1 - u)) ^ 3 * -g ≤ 1 / 10 ^ 8 := by
        have := mul_le_mul_of_nonneg_left hsum.near.1 hp3.le
        rw [pow_add] at hr
        have e : (1 / (1 - u)) ^ 3 * ((1 / (1 - u)) ^ N * rate c x) =
          (1 / (1 - u)) ^ N * (1 / (1 - u)) ^ 3 * rate c x := by ring
        linarith
      rw [z2 hle', if_pos rfl]
      linarith
  · right
    rw [hx] at hm
    cases hm
    have := hall.length_eq
    exact ⟨x, y, hx1, hy1, hne, if_pos (by omega)⟩

/-- C178, zero. The result is zero exactly if the entropy rate is zero. -/
theorem C178_zero {f : ℝ} (hf : 1 ≤ f) {N : ℕ} {r s : ℝ} (h : Acc f N |r| s) : r = 0 ↔ s = 0 := by
  have h1 := h.pos_iff hf
  rw [abs_pos] at h1
  have h2 := h.exact_nonneg
  constructor
  · intro hr
    by_contra hs
    exact h1.2 (lt_of_le_of_ne h2 (Ne.symm hs)) hr
  · intro hs
    by_contra hr
    exact (h1.1 hr).ne' hs

/-- C178, normalised. With a computed topological entropy `te'` that is off by the factor of `M` roundings, the
normalised rate is off by the factor of `N + M + 1` roundings, if the rate has the right sign and is not
confused with zero. -/
theorem C178_normalized {u : ℝ} (hu0 : 0 ≤ u) (hu : u < 1) {fl : ℝ → ℝ} (hfl : ∀ z, |fl z - z| ≤ u * |z|)
    {r s te' te : ℝ} {N M : ℕ} (h : Acc (1 / (1 - u)) N r s) (ht : Acc (1 / (1 - u)) M te' te) (hte : 0 < te)
    (hr : (1 / (1 - u)) ^ 3 / 10 ^ 8 < r) :
    Acc (1 / (1 - u)) (N + M + 1) (normalizeRateF fl r te') (min 1 (max 0 (s / te))) := by
  have h1 := one_le_factor hu0 hu
  have hr0 := h.nonneg h1
  unfold normalizeRateF
  rw [(iscloseF_zero hu0 hu hfl r).1 (by rwa [abs_of_nonneg hr0]), if_neg (by simp)]
  have e := h.quotient h1 ht hte
  have e2 := (Acc.round hu0 hu hfl (e.nonneg h1)).trans h1 e
  have e3 := e2.mono h1 (show 1 + (N + M) ≤ N + M + 1 by omega)
  rw [max_eq_right (e3.nonneg h1), max_eq_right e3.exact_nonneg]
  generalize fl (r / te') = a at e3 ⊢
  generalize s / te = b at e3 ⊢
  have hF1 : 1 ≤ (1 / (1 - u)) ^ (N + M + 1) := one_le_pow₀ h1
  obtain ⟨e4, e5, e6⟩ := e3
  refine ⟨le_min zero_le_one e4, ?_, ?_⟩
  · rw [mul_min_of_nonneg _ _ (by linarith), mul_one]
    exact min_le_min hF1 e5
  · rw [mul_min_of_nonneg _ _ (by linarith), mul_one]
    exact min_le_min hF1 e6

/-- C178. Without rounding the program is that of C52. -/
theorem C178_exact (c : MC ℝ) (sccs : List (List (Fin c.n))) :
    entropyRateF Arith.exact id Real.log c sccs = entropyRate c sccs := by
  have hs : ∀ x : Fin c.n → ℝ, entropySumF id Real.log c.p x = entropySum c x := by
    intro x
    unfold entropySum
    rw [← sum_pairs fun q : Fin c.n × Fin c.n =>
      if c.p q.1 q.2 > 0 then x q.1 * c.p q.1 q.2 * Real.log (c.p q.1 q.2) else 0]
    have key : ∀ (l : List (Fin c.n × Fin c.n)) (h : ℝ), l.foldl (fun h q => if c.p q.1 q.2 > 0 then
        id (h + id (id (x q.1 * c.p q.1 q.2) * Real.log (c.p q.1 q.2))) else h) h =
        h + (l.map fun q => if c.p q.1 q.2 > 0 then x q.1 * c.p q.1 q.2 * Real.log (c.p q.1 q.2) else 0).sum := by
      intro l
      induction l with
      | nil => intro h; simp
      | cons q l ih =>
        intro h
        rw [List.foldl_cons, ih, List.map_cons, List.sum_cons]
        split
        · simp only [id]; ring
        · ring
    exact (key _ 0).trans (zero_add _)
  have hi : ∀ h : ℝ, iscloseF id h 0 = isclose h 0 := fun h => by
    unfold iscloseF isclose
    simp
  unfold entropyRateF entropyRate
  rw [piF_exact]
  refine congrArg _ (funext fun xs => ?_)
  simp only [hs, hi]
  cases xs <;> rfl

/-- The hypotheses of C178 can be met: the exact operations and the exact logarithm satisfy the contracts for
every unit, so do operations that round every result down by a factor and a logarithm rounded in this way. -/
example : (Arith.rounded fun z : ℝ => 999 / 1000 * z).Sound (1 / 1000) ∧
    (∀ z : ℝ, |999 / 1000 * z - z| ≤ 1 / 1000 * |z|) ∧
    ∀ z : ℝ, 0 < z → z ≤ 1 → Acc (1 / (1 - 1 / 1000)) 1 (-(999 / 1000 * Real.log z)) (-Real.log z) := by
  have hfl : ∀ z : ℝ, |999 / 1000 * z - z| ≤ 1 / 1000 * |z| := fun z => by
    rw [show 999 / 1000 * z - z = -(1 / 1000 * z) by ring, abs_neg, abs_mul, abs_of_nonneg (by norm_num : (0 : ℝ) ≤ 1 / 1000)]
  exact ⟨rounded_sound (by norm_num) (by norm_num) hfl, hfl, fun z h0 h1 =>
    Acc.round_neg (fl := fun z => 999 / 1000 * z) (by norm_num) (by norm_num) hfl (Real.log_nonpos h0.le h1)⟩

end Verif
