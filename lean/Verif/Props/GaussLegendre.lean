import Verif.Props.QuadratureDegree

/-!
# C154: the Gauss-Legendre rule

The exact rule is a fixed point of the iteration and integrates polynomials of degree `2 n - 1`. The returned nodes are
close to the nodes of that rule.
-/

set_option linter.unusedSectionVars false

namespace Verif

open Finset Polynomial

/-- The roots are symmetric around zero. -/
theorem leg_roots_symm {n : ℕ} {x : Fin n → ℝ} (hm : StrictMono x) (hr : ∀ j, (leg n).eval (x j) = 0)
    (ha : ∀ y, (leg n).eval y = 0 → ∃ j, x j = y) (j : Fin n) : x j.rev = -x j := by
  have hm' : StrictMono fun j : Fin n => -x j.rev := fun i j hij => neg_lt_neg (hm (Fin.rev_lt_rev.2 hij))
  have hneg : ∀ y, (leg n).eval y = 0 → (leg n).eval (-y) = 0 := fun y hy => by rw [leg_neg, hy, mul_zero]
  have e : (fun j : Fin n => -x j.rev) = x := by
    refine (hm'.range_inj hm).1 (Set.ext fun y => ⟨?_, ?_⟩)
    · rintro ⟨j, rfl⟩
      exact ha _ (hneg _ (hr _))
    · rintro ⟨j, rfl⟩
      obtain ⟨i, hi⟩ := ha _ (hneg _ (hr j))
      exact ⟨i.rev, by simp only [Fin.rev_rev, hi, neg_neg]⟩
  have := congrFun e j
  beta_reduce at this
  linarith

/-- The positive half of the roots, in the order used by the iteration. -/
structure HalfRoots (n : ℕ) (z : Fin ((n + 1) / 2) → ℝ) : Prop where
  anti : StrictAnti z
  root : ∀ i, (leg n).eval (z i) = 0
  pos : ∀ i : Fin ((n + 1) / 2), 2 * (i : ℕ) + 1 < n → 0 < z i
  middle : ∀ i : Fin ((n + 1) / 2), 2 * (i : ℕ) + 1 = n → z i = 0

theorem halfRoots_exists (n : ℕ) : ∃ z, HalfRoots n z := by
  obtain ⟨x, hm, hr, ha⟩ := leg_exists_roots n
  have hs := leg_roots_symm hm hr ha
  have hlt : ∀ i : Fin ((n + 1) / 2), n - 1 - (i : ℕ) < n := fun i => by have := i.isLt; omega
  have hrev : ∀ i : Fin ((n + 1) / 2), (⟨n - 1 - i, hlt i⟩ : Fin n).rev = ⟨i, by have := i.isLt; omega⟩ := by
    intro i
    have := i.isLt
    ext
    simp only [Fin.val_rev]
    omega
  refine ⟨fun i => x ⟨n - 1 - i, hlt i⟩, fun i j hij => hm ?_, fun i => hr _, fun i hi => ?_, fun i hi => ?_⟩
  · have := j.isLt
    have h : (i : ℕ) < j := hij
    rw [Fin.lt_def]
    simp only
    omega
  · have h1 := hs ⟨n - 1 - i, hlt i⟩
    rw [hrev] at h1
    have h2 : x ⟨i, by have := i.isLt; omega⟩ < x ⟨n - 1 - i, hlt i⟩ := hm (by
      rw [Fin.lt_def]
      simp only
      omega)
    linarith
  · have h1 := hs ⟨n - 1 - i, hlt i⟩
    rw [hrev] at h1
    have h2 : (⟨i, by have := i.isLt; omega⟩ : Fin n) = ⟨n - 1 - i, hlt i⟩ := by
      ext
      simp only
      omega
    rw [h2] at h1
    linarith

theorem legendreStep_root {n : ℕ} {z : ℝ} (h : (leg n).eval z = 0) : legendreStep n z = z := by
  cases n with
  | zero => simp [leg] at h
  | succ n => rw [legendreStep, legendrePair_eq, h, zero_div, sub_zero]

/-- C154, Gauss-Legendre. The fixed points of the iteration are the roots. -/
theorem C154_legendre_fixed {n : ℕ} (hn : 0 < n) {z : ℝ} (h2 : legendreSlope n z ≠ 0) :
    legendreStep n z = z ↔ (leg n).eval z = 0 := by
  refine ⟨fun h => ?_, legendreStep_root⟩
  obtain ⟨m, rfl⟩ : ∃ m, n = m + 1 := ⟨n - 1, by omega⟩
  rw [legendreStep, legendrePair_eq, sub_eq_self, div_eq_zero_iff] at h
  exact h.resolve_right h2

/-- C154, Gauss-Legendre. Started at the roots, the iteration returns them. -/
theorem C154_legendre_stops {n : ℕ} {z : Fin ((n + 1) / 2) → ℝ} (hz : HalfRoots n z) (fuel : ℕ) :
    legendreLoop n (fuel + 1) z = some (z, fun i => legendreSlope n (z i)) := by
  have hs : (fun i => legendreStep n (z i)) = z := funext fun i => legendreStep_root (hz.root i)
  rw [legendreLoop, if_neg, if_pos]
  · rw [hs]
  · intro i
    beta_reduce
    rw [legendreStep_root (hz.root i), sub_self, abs_zero, sub_zero, abs_zero]
    positivity
  · push Not
    intro i
    obtain ⟨h1, h2⟩ := leg_root_simple (hz.root i)
    exact ⟨h2.ne, by rw [legendreSlope_eq h2.ne]; exact h1⟩

/-- C154, Gauss-Legendre. The nodes and weights placed for the exact roots integrate polynomials of degree `2 n - 1`. -/
theorem C154_legendre_exact (a b : ℝ) {n : ℕ} (hn : 0 < n) {z : Fin ((n + 1) / 2) → ℝ} (hz : HalfRoots n z) :
    Integrates (legendrePlace a b n (z, fun i => legendreSlope n (z i))).1
      (legendrePlace a b n (z, fun i => legendreSlope n (z i))).2 a b (2 * n - 1) := by
  obtain ⟨m, rfl⟩ : ∃ m, n = m + 1 := ⟨n - 1, by omega⟩
  obtain ⟨x, hx⟩ : ∃ x : Fin (m + 1) → ℝ, x = fun j : Fin (m + 1) => if m + 1 - 1 - (j : ℕ) ≤ (j : ℕ) then z ⟨_, legendreIndex_lt j⟩
    else -z ⟨_, legendreIndex_lt j⟩ := ⟨_, rfl⟩
  have hroot : ∀ j, (leg (m + 1)).eval (x j) = 0 := by
    intro j
    rw [hx]
    beta_reduce
    split
    · exact hz.root _
    · rw [leg_neg, hz.root, mul_zero]
  have hinj : Function.Injective x := by
    have hz0 : ∀ i, 0 ≤ z i := fun i => by
      rcases Nat.lt_or_ge (2 * (i : ℕ) + 1) (m + 1) with h | h
      · exact (hz.pos i h).le
      · exact (hz.middle i (by have := i.isLt; omega)).ge
    intro i j hij
    have hi := i.isLt
    have hj := j.isLt
    rw [hx] at hij
    simp only at hij
    by_cases h1 : m + 1 - 1 - (i : ℕ) ≤ (i : ℕ) <;> by_cases h2 : m + 1 - 1 - (j : ℕ) ≤ (j : ℕ)
    · rw [if_pos h1, if_pos h2] at hij
      have := congrArg Fin.val (hz.anti.injective hij)
      simp only at this
      ext
      omega
    · rw [if_pos h1, if_neg h2] at hij
      have h3 := hz.pos ⟨_, legendreIndex_lt j⟩ (by simp only; omega)
      have h4 := hz0 ⟨_, legendreIndex_lt i⟩
      linarith
    · rw [if_neg h1, if_pos h2] at hij
      have h3 := hz.pos ⟨_, legendreIndex_lt i⟩ (by simp only; omega)
      have h4 := hz0 ⟨_, legendreIndex_lt j⟩
      linarith
    · rw [if_neg h1, if_neg h2] at hij
      have := congrArg Fin.val (hz.anti.injective (neg_injective hij))
      simp only at this
      ext
      omega
  have h := (leg_gauss hinj hroot).affine (1 / 2 * (b + a)) (1 / 2 * (b - a))
  have e1 : (1 / 2 * (b + a)) - 1 / 2 * (b - a) = a := by ring
  have e2 : (1 / 2 * (b + a)) + 1 / 2 * (b - a) = b := by ring
  rw [e1, e2] at h
  have hnode : (fun j => 1 / 2 * (b + a) + 1 / 2 * (b - a) * x j) =
      (legendrePlace a b (m + 1) (z, fun i => legendreSlope (m + 1) (z i))).1 := by
    funext j
    rw [hx]
    simp only [legendrePlace]
    split <;> ring
  have hweight : (fun j => 1 / 2 * (b - a) * (2 / ((1 - x j ^ 2) * (derivative (leg (m + 1))).eval (x j) ^ 2))) =
      (legendrePlace a b (m + 1) (z, fun i => legendreSlope (m + 1) (z i))).2 := by
    funext j
    have hsq : ∀ t : ℝ, (leg (m + 1)).eval t = 0 → x j = t ∨ x j = -t →
        (1 - x j ^ 2) * (derivative (leg (m + 1))).eval (x j) ^ 2 = (1 - t ^ 2) * legendreSlope (m + 1) t ^ 2 := by
      intro t ht hxt
      rw [legendreSlope_eq (leg_root_simple ht).2.ne]
      rcases hxt with hxt | hxt
      · rw [hxt]
      · have h1 := congrArg (eval t) (leg_derivatives m).1
        have h2 := congrArg (eval (-t)) (leg_derivatives m).1
        have ht' : (leg (m + 1)).eval (-t) = 0 := by rw [leg_neg, ht, mul_zero]
        simp only [eval_mul, eval_sub, eval_one, eval_pow, eval_X, eval_C, ht, ht', mul_zero, sub_zero, leg_neg m] at h1 h2
        have h3 : 1 - t ^ 2 ≠ 0 := by
          have := (leg_root_simple ht).2
          linarith
        have h4 : (derivative (leg (m + 1))).eval (-t) = (-1) ^ m * (derivative (leg (m + 1))).eval t := by
          refine mul_left_cancel₀ h3 ?_
          rw [neg_sq] at h2
          linear_combination h2 - (-1) ^ m * h1
        rw [hxt, h4, mul_pow, ← pow_mul, mul_comm m 2, pow_mul, neg_one_sq, one_pow, one_mul, neg_sq]
    have h5 := hsq (z ⟨_, legendreIndex_lt j⟩) (hz.root _) (by
      rw [hx]
      beta_reduce
      split
      · exact Or.inl rfl
      · exact Or.inr rfl)
    simp only [legendrePlace]
    rw [h5]
    ring
  rw [← hnode, ← hweight]
  exact h

/-- C154, Gauss-Legendre, partial: every returned node is close to a node of a rule that integrates polynomials of degree
`2 n - 1` exactly. -/
theorem C154_legendre_nodes_partial {a b : ℝ} (hab : a < b) {n : ℕ} (hn : 0 < n) :
    ∃ g v : Fin n → ℝ, StrictMono g ∧ (∀ j, 0 < v j) ∧ Integrates g v a b (2 * n - 1) ∧
      ∀ x w, quadrature .legendre a b n = some (x, w) →
        (∀ j, ∃ i, |x j - g i| ≤ (n + 1) / 10 ^ 8 * ((b - a) / 2)) ∧
        ((∀ i j, i ≠ j → (n + 1) / 10 ^ 8 * (b - a) < |x i - x j|) →
          ∃ s : Equiv.Perm (Fin n), ∀ j, |x j - g (s j)| ≤ (n + 1) / 10 ^ 8 * ((b - a) / 2)) := by
  obtain ⟨m, rfl⟩ : ∃ m, n = m + 1 := ⟨n - 1, by omega⟩
  obtain ⟨t, hm, hr, ha⟩ := leg_exists_roots (m + 1)
  have h := (leg_gauss hm.injective hr).affine (1 / 2 * (b + a)) (1 / 2 * (b - a))
  have e1 : (1 / 2 * (b + a)) - 1 / 2 * (b - a) = a := by ring
  have e2 : (1 / 2 * (b + a)) + 1 / 2 * (b - a) = b := by ring
  rw [e1, e2] at h
  refine ⟨_, _, ?_, ?_, h, fun x w hq => ?_⟩
  · intro i j hij
    have := hm hij
    beta_reduce
    nlinarith
  · intro j
    have h1 := kernelPoly_pos m (t j)
    rw [(kernelPoly_root (hr j)).1] at h1
    exact mul_pos (by linarith) (div_pos two_pos h1)
  · have hnear : ∀ j, ∃ i, |x j - (1 / 2 * (b + a) + 1 / 2 * (b - a) * t i)| ≤
        (((m + 1 : ℕ) : ℝ) + 1) / 10 ^ 8 * ((b - a) / 2) := by
      simp only [quadrature, legendreRule, Option.map_eq_some_iff, Prod.exists] at hq
      obtain ⟨z, pp, hz, hq⟩ := hq
      simp only [legendrePlace, Prod.mk.injEq] at hq
      obtain ⟨rfl, -⟩ := hq
      intro j
      obtain ⟨y, hy, hd⟩ := legendreLoop_root hn hz ⟨_, legendreIndex_lt j⟩
      have key : ∀ c : ℝ, c * (1 / 2 * (b - a)) = c * ((b - a) / 2) := fun c => by ring
      have hpos : 0 ≤ 1 / 2 * (b - a) := by linarith
      beta_reduce
      split
      · obtain ⟨i, hi⟩ := ha y hy
        refine ⟨i, ?_⟩
        rw [hi, add_sub_add_left_eq_sub, ← mul_sub, abs_mul, abs_of_nonneg hpos, mul_comm, ← key]
        exact mul_le_mul_of_nonneg_right hd hpos
      · obtain ⟨i, hi⟩ := ha (-y) (by rw [leg_neg, hy, mul_zero])
        refine ⟨i, ?_⟩
        rw [hi, ← key]
        have e3 : ∀ u : ℝ, 1 / 2 * (b + a) - 1 / 2 * (b - a) * u - (1 / 2 * (b + a) + 1 / 2 * (b - a) * -y) =
            -((u - y) * (1 / 2 * (b - a))) := fun u => by ring
        rw [e3, abs_neg, abs_mul, abs_of_nonneg hpos]
        exact mul_le_mul_of_nonneg_right hd hpos
    refine ⟨hnear, fun hsep => ?_⟩
    choose s hs using hnear
    have hinj : Function.Injective s := by
      intro i j hij
      by_contra hne
      have h1 := hsep i j hne
      have h2 := hs i
      have h3 := hs j
      rw [← hij] at h3
      have h4 := abs_sub_le (x i) (1 / 2 * (b + a) + 1 / 2 * (b - a) * t (s i)) (x j)
      rw [abs_sub_comm (1 / 2 * (b + a) + 1 / 2 * (b - a) * t (s i)) (x j)] at h4
      have : (((m + 1 : ℕ) : ℝ) + 1) / 10 ^ 8 * ((b - a) / 2) + (((m + 1 : ℕ) : ℝ) + 1) / 10 ^ 8 * ((b - a) / 2) =
        (((m + 1 : ℕ) : ℝ) + 1) / 10 ^ 8 * (b - a) := by ring
      linarith
    exact ⟨Equiv.ofBijective s (Finite.injective_iff_bijective.1 hinj), hs⟩

theorem legendre_two {z : ℝ} (h0 : 0 < z) (h1 : z < 1) :
    legendreSlope 2 z = 3 * z ∧ legendreStep 2 z = z - (3 * z ^ 2 - 1) / (6 * z) := by
  have h2 : z ^ 2 - 1 ≠ 0 := by nlinarith
  have hp : legendrePair z 2 = ((3 * z ^ 2 - 1) / 2, z) := by
    simp only [legendrePair]
    refine Prod.ext ?_ ?_ <;> norm_num
    ring
  have hs : legendreSlope 2 z = 3 * z := by
    rw [legendreSlope, hp]
    simp only
    field_simp
    push_cast
    ring
  refine ⟨hs, ?_⟩
  rw [legendreStep, hs, hp]
  simp only
  field_simp
  norm_num
  ring

theorem legendre_two_step {s z : ℝ} (hs : 3 * s ^ 2 = 1) (h0 : 1 / 2 ≤ z) (h1 : z < 1) :
    s ≤ legendreStep 2 z ∧ legendreStep 2 z ≤ s + (z - s) ^ 2 := by
  rw [(legendre_two (by linarith) h1).2]
  have hz : z ≠ 0 := by linarith
  have e : z - (3 * z ^ 2 - 1) / (6 * z) = s + (z - s) ^ 2 / (2 * z) := by
    rw [← hs]
    field_simp
    ring
  rw [e]
  refine ⟨by have : 0 ≤ (z - s) ^ 2 / (2 * z) := by positivity
             linarith, ?_⟩
  have : (z - s) ^ 2 / (2 * z) ≤ (z - s) ^ 2 := div_le_self (sq_nonneg _) (by linarith)
  linarith

theorem legendre_two_loop {s : ℝ} (hs0 : 0 < s) (hs : 3 * s ^ 2 = 1) {d : ℝ} {f : ℕ} {c : ℝ} (hc : 1 / 2 ≤ c)
    (hd1 : c + d < 1) (hd : ∀ z, c ≤ z → z ≤ c + d → (z - s) ^ 2 ≤ d ^ 2)
    (h : d ≤ 1 / 10 ^ 8 ∧ c = s ∨ ∀ z : Fin ((2 + 1) / 2) → ℝ, s ≤ z 0 → z 0 ≤ s + d ^ 2 → (legendreLoop 2 f z).isSome)
    (z : Fin ((2 + 1) / 2) → ℝ) (h1 : c ≤ z 0) (h2 : z 0 ≤ c + d) : (legendreLoop 2 (f + 1) z).isSome := by
  have hz : ∀ i : Fin ((2 + 1) / 2), z i = z 0 := fun i => congrArg z (Subsingleton.elim (α := Fin 1) i 0)
  obtain ⟨h3, h4⟩ := legendre_two_step hs (hc.trans h1) (h2.trans_lt hd1)
  have hsl := (legendre_two (by linarith : 0 < z 0) (h2.trans_lt hd1)).1
  rw [legendreLoop, if_neg]
  · split
    · rfl
    · next hfar =>
      rcases h with ⟨h, rfl⟩ | h
      · exfalso
        refine hfar fun i => ?_
        beta_reduce
        rw [hz i, sub_zero, abs_abs]
        have h5 := hd _ h1 h2
        rw [abs_le]
        rcases le_total (z 0) (legendreStep 2 (z 0)) with h6 | h6
        · have h7 : (z 0 - c) ^ 2 ≤ z 0 - c := by nlinarith
          constructor <;> linarith
        · constructor <;> linarith
      · exact h _ h3 (h4.trans (by linarith [hd _ h1 h2]))
  · push Not
    intro i
    rw [hz i, hsl]
    constructor
    · nlinarith
    · nlinarith

/-- C154, Gauss-Legendre. For two nodes the iteration ends. -/
theorem C154_legendre_two (a b : ℝ) : ∃ x w, quadrature .legendre a b 2 = some (x, w) := by
  obtain ⟨s, hs0, hs⟩ : ∃ s : ℝ, 0 < s ∧ 3 * s ^ 2 = 1 := by
    refine ⟨Real.sqrt (1 / 3), Real.sqrt_pos.2 (by norm_num), ?_⟩
    rw [Real.sq_sqrt (by norm_num)]
    norm_num
  have hs1 : 1 / 2 < s := by nlinarith
  have hs2 : s < 3 / 5 := by nlinarith
  have sq : ∀ d z : ℝ, s ≤ z → z ≤ s + d → (z - s) ^ 2 ≤ d ^ 2 := fun d z h1 h2 => by nlinarith
  have l5 := legendre_two_loop (d := 1 / 2 ^ 32) (f := 93) hs0 hs hs1.le (by norm_num; linarith) (sq _)
    (Or.inl ⟨by norm_num, rfl⟩)
  have l4 := legendre_two_loop (d := 1 / 2 ^ 16) (f := 94) hs0 hs hs1.le (by norm_num; linarith) (sq _)
    (Or.inr fun z h1 h2 => l5 z h1 (h2.trans (by norm_num)))
  have l3 := legendre_two_loop (d := 1 / 2 ^ 8) (f := 95) hs0 hs hs1.le (by norm_num; linarith) (sq _)
    (Or.inr fun z h1 h2 => l4 z h1 (h2.trans (by norm_num)))
  have l2 := legendre_two_loop (d := 1 / 2 ^ 4) (f := 96) hs0 hs hs1.le (by norm_num; linarith) (sq _)
    (Or.inr fun z h1 h2 => l3 z h1 (h2.trans (by norm_num)))
  have l1 := legendre_two_loop (d := 1 / 2 ^ 2) (f := 97) hs0 hs hs1.le (by norm_num; linarith) (sq _)
    (Or.inr fun z h1 h2 => l2 z h1 (h2.trans (by norm_num)))
  have h0 : legendreStart 2 0 = Real.cos (3 * Real.pi / 10) := by
    unfold legendreStart
    congr 1
    push_cast
    simp
    ring
  have hpi := Real.pi_pos
  have hlow : 1 / 2 ≤ Real.cos (3 * Real.pi / 10) := by
    rw [← Real.cos_pi_div_three]
    exact Real.cos_le_cos_of_nonneg_of_le_pi (by positivity) (by linarith) (by linarith)
  have hup : Real.cos (3 * Real.pi / 10) ≤ 9 / 10 := by
    have h1 : Real.cos (3 * Real.pi / 10) ≤ Real.cos (Real.pi / 6) :=
      Real.cos_le_cos_of_nonneg_of_le_pi (by positivity) (by linarith) (by linarith)
    rw [Real.cos_pi_div_six] at h1
    have h2 : Real.sqrt 3 ≤ 9 / 5 := Real.sqrt_le_iff.2 ⟨by norm_num, by norm_num⟩
    linarith
  have l0 := legendre_two_loop (c := 1 / 2) (d := 2 / 5) (f := 98) hs0 hs le_rfl (by norm_num)
    (fun z h1 h2 => by nlinarith)
    (Or.inr fun z h1 h2 => l1 z h1 (h2.trans (by norm_num))) (legendreStart 2) (by rw [h0]; exact hlow)
    (by rw [h0]; linarith)
  obtain ⟨⟨z, pp⟩, h⟩ := Option.isSome_iff_exists.1 l0
  refine ⟨(legendrePlace a b 2 (z, pp)).1, (legendrePlace a b 2 (z, pp)).2, ?_⟩
  simp only [quadrature, legendreRule]
  rw [h]
  rfl

/-- C72, Gauss-Legendre, calls are accepted. -/
theorem C72_legendre_accepts :
    ∃ c, fitFunction .legendre (.list [.str "a", .str "b"]) (fun _ _ _ _ => some 1) 0 1 = .ok c ∧ c.Valid := by
  obtain ⟨x, w, hq⟩ := C154_legendre_two 0 1
  have hl : validateLabelsInput (.list [.str "a", .str "b"] : PyVal ℝ) none = .ok ["a", "b"] := rfl
  have h : ∃ c : MC ℝ, fitFunction .legendre (.list [.str "a", .str "b"]) (fun _ _ _ _ => some 1) 0 1 = .ok c ∧
      c.n = 2 := by
    unfold fitFunction fitFunctionMatrix
    rw [hl, R.ok_bind, if_neg (fun h => by cases h.1)]
    simp only [List.length_cons, List.length_nil, Nat.reduceAdd, hq]
    rw [if_neg (by simp)]
    exact ⟨_, rfl, rfl⟩
  obtain ⟨c, hc, hn⟩ := h
  exact ⟨c, hc, (C72_fit_function_partial one_pos (fun _ _ _ _ v e => by
    simp only [Option.some.injEq] at e
    rw [← e]
    exact zero_le_one) (fun _ => by omega) hc).1⟩

end Verif
