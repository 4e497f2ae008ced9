import Verif.Lemmas.Binary64
import Verif.Props.Rounding
import Verif.Props.Transform

/-!
# Rounding of redistributions, rewards, passage probabilities, powers and normalised rows (C148, C150)
-/

set_option linter.unusedSectionVars false

namespace Verif

open Finset

variable {K : Type} [Field K] [LinearOrder K] [IsStrictOrderedRing K]

/-! ## Counting roundings -/

/-- A nonnegative number and a value that is off by the factor of at most `N` roundings. -/
structure Acc (f : K) (N : ℕ) (x' x : K) : Prop where
  exact_nonneg : 0 ≤ x
  near : Near (f ^ N) x' x

variable {F : Arith K} {u : K} {f : K}

theorem Acc.nonneg {N : ℕ} {x' x : K} (hf : 1 ≤ f) (h : Acc f N x' x) : 0 ≤ x' :=
  h.near.nonneg (one_le_pow₀ hf) h.exact_nonneg

theorem Acc.refl {x : K} (hx : 0 ≤ x) : Acc f 0 x x := ⟨hx, Near.refl (by simp) hx⟩

theorem Acc.mono {N M : ℕ} {x' x : K} (hf : 1 ≤ f) (hNM : N ≤ M) (h : Acc f N x' x) : Acc f M x' x :=
  ⟨h.exact_nonneg, h.near.mono (h.nonneg hf) h.exact_nonneg (pow_le_pow_right₀ hf hNM)⟩

theorem Acc.pos_iff {N : ℕ} {x' x : K} (hf : 1 ≤ f) (h : Acc f N x' x) : 0 < x' ↔ 0 < x :=
  h.near.pos_iff (one_le_pow₀ hf)

theorem Acc.symm {N : ℕ} {x' x : K} (hf : 1 ≤ f) (h : Acc f N x' x) : Acc f N x x' := ⟨h.nonneg hf, h.near.symm⟩

theorem Acc.trans {N M : ℕ} {x y z : K} (hf : 1 ≤ f) (h : Acc f N x y) (h' : Acc f M y z) : Acc f (N + M) x z := by
  refine ⟨h'.exact_nonneg, ?_⟩
  rw [pow_add]
  exact h.near.trans (pow_nonneg (by linarith) _) (pow_nonneg (by linarith) _) h'.near

theorem Acc.times {N M : ℕ} {x' x y' y : K} (hf : 1 ≤ f) (h : Acc f N x' x) (h' : Acc f M y' y) :
    Acc f (N + M) (x' * y') (x * y) := by
  refine ⟨mul_nonneg h.exact_nonneg h'.exact_nonneg, ?_⟩
  rw [pow_add]
  exact h.near.mul (pow_nonneg (by linarith) _) (h.nonneg hf) h.exact_nonneg (h'.nonneg hf) h'.exact_nonneg h'.near

theorem Acc.quotient {N M : ℕ} {x' x y' y : K} (hf : 1 ≤ f) (h : Acc f N x' x) (h' : Acc f M y' y) (hy : 0 < y) :
    Acc f (N + M) (x' / y') (x / y) := by
  refine ⟨div_nonneg h.exact_nonneg h'.exact_nonneg, ?_⟩
  rw [pow_add]
  exact h.near.div (pow_nonneg (by linarith) _) (h.nonneg hf) h.exact_nonneg ((h'.pos_iff hf).2 hy) hy h'.near

theorem Acc.total {ι : Type} [Fintype ι] {N : ℕ} {g' g : ι → K} (h : ∀ i, Acc f N (g' i) (g i)) :
    Acc f N (∑ i, g' i) (∑ i, g i) :=
  ⟨sum_nonneg fun i _ => (h i).exact_nonneg, Near.sum fun i _ => (h i).near⟩

theorem Acc.add {N : ℕ} {x' x y' y : K} (hF : F.Sound u) (h : Acc (1 / (1 - u)) N x' x)
    (h' : Acc (1 / (1 - u)) N y' y) : Acc (1 / (1 - u)) (N + 1) (F.add x' y') (x + y) := by
  have h1 := hF.one_le
  have e : Acc (1 / (1 - u)) 1 (F.add x' y') (x' + y') :=
    ⟨add_nonneg (h.nonneg h1) (h'.nonneg h1), by rw [pow_one]; exact hF.add _ _ (h.nonneg h1) (h'.nonneg h1)⟩
  rw [add_comm N]
  exact e.trans h1 ⟨add_nonneg h.exact_nonneg h'.exact_nonneg, h.near.add h'.near⟩

theorem Acc.mul {N M : ℕ} {x' x y' y : K} (hF : F.Sound u) (h : Acc (1 / (1 - u)) N x' x)
    (h' : Acc (1 / (1 - u)) M y' y) : Acc (1 / (1 - u)) (N + M + 1) (F.mul x' y') (x * y) := by
  have h1 := hF.one_le
  have e : Acc (1 / (1 - u)) 1 (F.mul x' y') (x' * y') :=
    ⟨mul_nonneg (h.nonneg h1) (h'.nonneg h1), by rw [pow_one]; exact hF.mul _ _ (h.nonneg h1) (h'.nonneg h1)⟩
  rw [add_comm _ 1]
  exact e.trans h1 (h.times h1 h')

theorem Acc.div {N M : ℕ} {x' x y' y : K} (hF : F.Sound u) (h : Acc (1 / (1 - u)) N x' x)
    (h' : Acc (1 / (1 - u)) M y' y) (hy : 0 < y) : Acc (1 / (1 - u)) (N + M + 1) (F.div x' y') (x / y) := by
  have h1 := hF.one_le
  have hy' := (h'.pos_iff h1).2 hy
  have e : Acc (1 / (1 - u)) 1 (F.div x' y') (x' / y') :=
    ⟨div_nonneg (h.nonneg h1) hy'.le, by rw [pow_one]; exact hF.div _ _ (h.nonneg h1) hy'⟩
  rw [add_comm _ 1]
  exact e.trans h1 (h.quotient h1 h' hy)

theorem Acc.sumList {ι : Type} {N : ℕ} {g' g : ι → K} (hF : F.Sound u) (l : List ι)
    (h : ∀ i ∈ l, Acc (1 / (1 - u)) N (g' i) (g i)) :
    Acc (1 / (1 - u)) (N + l.length) (F.sum (l.map g')) (l.map g).sum := by
  have h1 := hF.one_le
  have hn : ∀ x ∈ l.map g', 0 ≤ x := fun x hx => by
    obtain ⟨i, hi, rfl⟩ := List.mem_map.1 hx
    exact (h i hi).nonneg h1
  have e1 := hF.sum (l.map g') hn
  rw [List.length_map] at e1
  have e : Acc (1 / (1 - u)) l.length (F.sum (l.map g')) (l.map g').sum := ⟨List.sum_nonneg hn, e1⟩
  rw [add_comm N]
  refine e.trans h1 ⟨List.sum_nonneg fun x hx => ?_, near_map_sum l fun i hi => (h i hi).near⟩
  obtain ⟨i, hi, rfl⟩ := List.mem_map.1 hx
  exact (h i hi).exact_nonneg

theorem Acc.sum {n : ℕ} {N : ℕ} {g' g : Fin n → K} (hF : F.Sound u)
    (h : ∀ i, Acc (1 / (1 - u)) N (g' i) (g i)) :
    Acc (1 / (1 - u)) (N + n) (F.sum (List.ofFn g')) (∑ i, g i) := by
  have := Acc.sumList hF (List.finRange n) (g' := g') (g := g) fun i _ => h i
  rwa [List.length_finRange, ← List.ofFn_eq_map, ← List.ofFn_eq_map, List.sum_ofFn] at this

theorem Acc.dot {n : ℕ} {N M : ℕ} {a' a b' b : Fin n → K} (hF : F.Sound u)
    (h : ∀ i, Acc (1 / (1 - u)) N (a' i) (a i)) (h' : ∀ i, Acc (1 / (1 - u)) M (b' i) (b i)) :
    Acc (1 / (1 - u)) (N + M + n) (F.dot (List.ofFn fun i => (a' i, b' i))) (∑ i, a i * b i) := by
  have h1 := hF.one_le
  have e1 := hF.dot (List.ofFn fun i => (a' i, b' i)) (by
    intro p hp
    obtain ⟨i, rfl⟩ := List.mem_ofFn.1 hp
    exact ⟨(h i).nonneg h1, (h' i).nonneg h1⟩)
  rw [List.length_ofFn, List.map_ofFn, List.sum_ofFn] at e1
  have e : Acc (1 / (1 - u)) n (F.dot (List.ofFn fun i => (a' i, b' i))) (∑ i, a' i * b' i) :=
    ⟨sum_nonneg fun i _ => mul_nonneg ((h i).nonneg h1) ((h' i).nonneg h1), e1⟩
  rw [add_comm _ n]
  exact e.trans h1 (Acc.total fun i => (h i).times h1 (h' i))

/-- The relative error of `N` roundings. -/
theorem Acc.relative {N : ℕ} {x' x : K} (hF : F.Sound u) (hN : N * u ≤ 1 / 2) (h : Acc (1 / (1 - u)) N x' x) :
    |x' - x| ≤ 2 * (N * u) * x := by
  refine (h.near.relative (one_le_pow₀ hF.one_le) h.exact_nonneg).trans
    (mul_le_mul_of_nonneg_right ?_ h.exact_nonneg)
  have := factor_pow_le hF.unit_nonneg hF.unit_lt N hN
  linarith

/-! ## The programs -/

/-- C148, rewards. The expected rewards over `k` steps with nonnegative rewards. -/
theorem C148_rewards (hF : F.Sound u) {n : ℕ} {P : Matrix (Fin n) (Fin n) K} (hP : ∀ i j, 0 ≤ P i j)
    {r : Fin n → K} (hr : ∀ i, 0 ≤ r i) (k : ℕ) (i : Fin n) :
    Acc (1 / (1 - u)) (k * (n + 1)) (mcExpectedRewardsF F P r k i) (mcExpectedRewards P r k i) := by
  have h1 := hF.one_le
  induction k generalizing i with
  | zero => exact (Acc.refl (hr i)).mono h1 (by omega)
  | succ k ih =>
    rw [mcExpectedRewardsF, mcExpectedRewards]
    have e := Acc.add hF ((Acc.refl (hr i)).mono h1 (Nat.zero_le (0 + k * (n + 1) + n)))
      (Acc.dot hF (fun j => Acc.refl (hP i j)) ih)
    refine e.mono h1 (le_of_eq ?_)
    ring

/-- C148, first passages. The first passage probabilities after `t + 1` steps. -/
theorem C148_passage (hF : F.Sound u) {n : ℕ} {P : Matrix (Fin n) (Fin n) K} (hP : ∀ i j, 0 ≤ P i j)
    (t : ℕ) (i j : Fin n) :
    Acc (1 / (1 - u)) (t * (n + 1)) (passageMatrixF F P t i j) (passageMatrix P t i j) := by
  have h1 := hF.one_le
  induction t generalizing i with
  | zero => exact (Acc.refl (hP i j)).mono h1 (by omega)
  | succ t ih =>
    rw [passageMatrixF, passageMatrix]
    have hm : ∀ k : Fin n, Acc (1 / (1 - u)) (t * (n + 1) + 0 + 1)
        (F.mul (passageMatrixF F P t k j) (if k = j then 0 else 1))
        (passageMatrix P t k j * if k = j then 0 else 1) := fun k => by
      have hz : Acc (1 / (1 - u)) 0 (if k = j then 0 else 1) (if k = j then (0 : K) else 1) :=
        Acc.refl (by split <;> simp)
      have e := Acc.mul hF (ih k) hz
      exact e
    have e := Acc.dot hF (fun k => Acc.refl (hP i k)) hm
    refine e.mono h1 (le_of_eq ?_)
    ring

/-- C148, first passages into a set of states. -/
theorem C148_passage_set (hF : F.Sound u) {n : ℕ} {P : Matrix (Fin n) (Fin n) K} (hP : ∀ i j, 0 ≤ P i j)
    (t : ℕ) (i : Fin n) (S : List (Fin n)) :
    Acc (1 / (1 - u)) (t * (n + 1) + S.length) (F.sum (S.map (passageMatrixF F P t i)))
      (S.map fun j => passageMatrix P t i j).sum :=
  Acc.sumList hF S fun j _ => C148_passage hF hP t i j

theorem PowerTree.order_pos (t : PowerTree) : 1 ≤ t.order := by
  induction t with
  | leaf => exact le_rfl
  | node l r h1 h2 => rw [order]; omega

/-- C148, powers. In whatever order the factors of a matrix power are multiplied. -/
theorem C148_power (hF : F.Sound u) {n : ℕ} {P : Matrix (Fin n) (Fin n) K} (hP : ∀ i j, 0 ≤ P i j)
    (t : PowerTree) (i j : Fin n) :
    Acc (1 / (1 - u)) ((t.order - 1) * n) (t.eval F P i j) ((P ^ t.order) i j) := by
  have h1 := hF.one_le
  induction t generalizing i j with
  | leaf =>
    rw [PowerTree.order, pow_one]
    exact (Acc.refl (hP i j)).mono h1 (by omega)
  | node l r ihl ihr =>
    rw [PowerTree.order, pow_add, Matrix.mul_apply]
    have e := Acc.dot hF (fun k => ihl i k) fun k => ihr k j
    refine e.mono h1 (le_of_eq ?_)
    have hl := l.order_pos
    have hr := r.order_pos
    obtain ⟨a, ha⟩ := Nat.exists_eq_add_of_le hl
    obtain ⟨b, hb⟩ := Nat.exists_eq_add_of_le hr
    rw [ha, hb]
    rw [show 1 + a - 1 = a by omega, show 1 + b - 1 = b by omega, show 1 + a + (1 + b) - 1 = a + b + 1 by omega]
    ring

/-- Nonnegative numbers divided by their computed sum add up to about one. -/
theorem normal_total (hF : F.Sound u) {n : ℕ} {v : Fin n → K} (hv : ∀ j, 0 ≤ v j) (hs : 0 < ∑ j, v j) :
    0 < F.sum (List.ofFn v) ∧ Acc (1 / (1 - u)) (n + 1) (∑ j, F.div (v j) (F.sum (List.ofFn v))) 1 := by
  have h1 := hF.one_le
  have e : Acc (1 / (1 - u)) (0 + n) (F.sum (List.ofFn v)) (∑ j, v j) := Acc.sum hF fun j => Acc.refl (hv j)
  refine ⟨(e.pos_iff h1).2 hs, ?_⟩
  have e1 : ∀ j, Acc (1 / (1 - u)) (0 + (0 + n) + 1) (F.div (v j) (F.sum (List.ofFn v))) (v j / ∑ l, v l) := fun j =>
    Acc.div hF (Acc.refl (hv j)) e hs
  have e2 := Acc.total e1
  rw [← sum_div, div_self hs.ne'] at e2
  exact e2.mono h1 (by omega)

/-! ### Normalised rows -/

/-- C148, normalised rows. -/
theorem C148_normalised (hF : F.Sound u) {m n : ℕ} {M : Matrix (Fin m) (Fin n) K} (hM : ∀ i j, 0 ≤ M i j) {i : Fin m}
    (hs : 0 < ∑ j, M i j) (j : Fin n) :
    Acc (1 / (1 - u)) (n + 1) (normalizeRowsF F M i j) (normalizeRows M i j) := by
  have h1 := hF.one_le
  have e : Acc (1 / (1 - u)) (0 + n) (F.sum (List.ofFn fun l => M i l)) (∑ j, M i j) :=
    Acc.sum hF fun j => Acc.refl (hM i j)
  have e1 := Acc.div hF (Acc.refl (hM i j)) e hs
  exact e1.mono h1 (by omega)

/-- A rounding as in the standard: relative error, order of nonnegative numbers, rounded numbers stay as they are. -/
structure IsRounding (fl : K → K) (u : K) : Prop where
  unit_nonneg : 0 ≤ u
  unit_lt : u < 1
  near : ∀ z, |fl z - z| ≤ u * |z|
  mono : ∀ x y, 0 ≤ x → x ≤ y → fl x ≤ fl y
  idem : ∀ x, 0 ≤ x → fl (fl x) = fl x
  one : fl 1 = 1

theorem IsRounding.sound {fl : K → K} (h : IsRounding fl u) : (Arith.rounded fl).Sound u :=
  rounded_sound h.unit_nonneg h.unit_lt h.near

theorem IsRounding.nonneg {fl : K → K} (h : IsRounding fl u) {x : K} (hx : 0 ≤ x) : 0 ≤ fl x := by
  have h1 := h.mono 0 x le_rfl hx
  have h2 := h.near 0
  rw [abs_zero, mul_zero, sub_zero] at h2
  rw [abs_eq_zero.1 (le_antisymm h2 (abs_nonneg _))] at h1
  exact h1

theorem IsRounding.le_foldl {fl : K → K} (h : IsRounding fl u) (l : List K) (hl : ∀ x ∈ l, 0 ≤ x ∧ fl x = x)
    {a : K} (ha : 0 ≤ a) (ha' : fl a = a) :
    a ≤ l.foldl (fun x y => fl (x + y)) a ∧ ∀ x ∈ l, x ≤ l.foldl (fun x y => fl (x + y)) a := by
  induction l generalizing a with
  | nil => exact ⟨le_rfl, fun _ h => (List.not_mem_nil h).elim⟩
  | cons y l ih =>
    obtain ⟨hy, hy'⟩ := hl y List.mem_cons_self
    have hs : 0 ≤ a + y := add_nonneg ha hy
    obtain ⟨i1, i2⟩ := ih (fun x hx => hl x (List.mem_cons_of_mem _ hx)) (h.nonneg hs) (h.idem _ hs)
    have h1 : a ≤ fl (a + y) := by
      rw [← ha']
      conv_rhs => rw [ha']
      exact h.mono _ _ ha (by linarith)
    have h2 : y ≤ fl (a + y) := by
      rw [← hy']
      conv_rhs => rw [hy']
      exact h.mono _ _ hy (by linarith)
    rw [List.foldl_cons]
    refine ⟨h1.trans i1, fun x hx => ?_⟩
    rcases List.mem_cons.1 hx with rfl | hx
    · exact h2.trans i1
    · exact i2 x hx

theorem IsRounding.le_sum {fl : K → K} (h : IsRounding fl u) (l : List K) (hl : ∀ x ∈ l, 0 ≤ x ∧ fl x = x) :
    ∀ x ∈ l, x ≤ (Arith.rounded fl).sum l := by
  cases l with
  | nil => exact fun _ h => (List.not_mem_nil h).elim
  | cons a l =>
    obtain ⟨ha, ha'⟩ := hl a List.mem_cons_self
    obtain ⟨i1, i2⟩ := h.le_foldl l (fun x hx => hl x (List.mem_cons_of_mem _ hx)) ha ha'
    intro x hx
    rcases List.mem_cons.1 hx with rfl | hx
    · exact i1
    · exact i2 x hx

/-- C150, partial: accepted rows. A nonnegative matrix whose rows were normalised in floating point passes the checks of
the constructor on entries and on the computed sums of the rows, as long as `(2 n + 1) u` is at most `1e-6`. -/
theorem C150_normalised_partial {fl : K → K} (h : IsRounding fl u) {n : ℕ} {M : Matrix (Fin n) (Fin n) K}
    (hM : ∀ i j, 0 ≤ M i j ∧ fl (M i j) = M i j) (hs : ∀ i, 0 < ∑ j, M i j)
    (hu : (2 * n + 1) * u ≤ 1 / 10 ^ 6) (i : Fin n) :
    (∀ j, 0 ≤ normalizeRowsF (Arith.rounded fl) M i j ∧ normalizeRowsF (Arith.rounded fl) M i j ≤ 1) ∧
      isclose ((Arith.rounded fl).sum (List.ofFn fun j => normalizeRowsF (Arith.rounded fl) M i j)) 1 := by
  have hF := h.sound
  have h1 := hF.one_le
  obtain ⟨t1, t2⟩ := normal_total hF (fun j => (hM i j).1) (hs i)
  have hn : ∀ j, 0 ≤ normalizeRowsF (Arith.rounded fl) M i j := fun j =>
    (C148_normalised hF (fun i j => (hM i j).1) (hs i) j).nonneg h1
  refine ⟨fun j => ⟨hn j, ?_⟩, ?_⟩
  · have hle : M i j ≤ (Arith.rounded fl).sum (List.ofFn fun l => M i l) :=
      h.le_sum _ (fun x hx => by obtain ⟨l, rfl⟩ := List.mem_ofFn.1 hx; exact hM i l) _ (List.mem_ofFn.2 ⟨j, rfl⟩)
    change fl (M i j / (Arith.rounded fl).sum (List.ofFn fun l => M i l)) ≤ 1
    rw [← h.one]
    exact h.mono _ _ (div_nonneg (hM i j).1 t1.le) ((div_le_one t1).2 hle)
  · have e : Acc (1 / (1 - u)) (0 + n)
        ((Arith.rounded fl).sum (List.ofFn fun j => normalizeRowsF (Arith.rounded fl) M i j))
        (∑ j, normalizeRowsF (Arith.rounded fl) M i j) := Acc.sum hF fun j => Acc.refl (hn j)
    have e1 : Acc (1 / (1 - u)) (2 * n + 1) _ 1 := (e.trans h1 t2).mono h1 (by omega)
    have e2 := e1.relative hF (by push_cast; exact hu.trans (by norm_num))
    unfold isclose
    rw [decide_eq_true_eq, abs_one, mul_one]
    refine e2.trans ?_
    push_cast
    rw [mul_one]
    have : (2 : K) * (1 / 10 ^ 6) ≤ 1 / 10 ^ 8 + 1 / 10 ^ 5 := by norm_num
    linarith

/-- Doubles. -/
theorem binary64_rounding : IsRounding binary64 (1 / 2 ^ 53) where
  unit_nonneg := by norm_num
  unit_lt := by norm_num
  near := binary64_near
  mono := fun _ _ hx hxy => binary64_mono hx hxy
  idem := fun _ hx => binary64_idem hx
  one := by decide +kernel

/-! ### Redistributions -/

theorem redist_projective (hF : F.Sound u) {n : ℕ} {P : Matrix (Fin n) (Fin n) K} (hP : IsStochastic P)
    {d' d : Fin n → K} {N : ℕ} (hd : ∀ i, Acc (1 / (1 - u)) N (d' i) (d i)) (hs : 0 < ∑ i, d i) (k : ℕ) :
    (∀ i, 0 ≤ redistRow P d k i) ∧ 0 < ∑ i, redistRow P d k i ∧
    (0 < k → Acc (1 / (1 - u)) (n + 1) (∑ j, redistRowF F P d' k j) 1 ∧ ∑ j, redistRow P d k j = 1) ∧
    ∃ c, 0 < c ∧ ∀ j, Acc (1 / (1 - u)) (N + k * (n + 1)) (c * redistRowF F P d' k j) (redistRow P d k j) := by
  have h1 := hF.one_le
  induction k with
  | zero => exact ⟨fun i => (hd i).exact_nonneg, hs, fun h => absurd h (lt_irrefl 0), 1, one_pos, fun j => by
      rw [one_mul]
      exact (hd j).mono h1 (by omega)⟩
  | succ k ih =>
    obtain ⟨ih1, ih2, -, c, hc, ih⟩ := ih
    obtain ⟨x, hx⟩ : ∃ x, x = redistRow P d k := ⟨_, rfl⟩
    obtain ⟨x', hx'⟩ : ∃ x', x' = redistRowF F P d' k := ⟨_, rfl⟩
    rw [redistRow, redistRowF, ← hx, ← hx']
    rw [← hx] at ih1 ih2 ih
    rw [← hx'] at ih
    obtain ⟨w, hw⟩ : ∃ w : Fin n → K, w = fun j => ∑ i, x i * P i j := ⟨_, rfl⟩
    have hw0 : ∀ j, 0 ≤ w j := fun j => by rw [hw]; exact sum_nonneg fun i _ => mul_nonneg (ih1 i) (hP.1 i j)
    have hws : 0 < ∑ j, w j := by
      rw [hw]
      simp only
      rw [sum_comm]
      have : ∀ i, ∑ j, x i * P i j = x i := fun i => by rw [← mul_sum, hP.2, mul_one]
      simp only [this]
      exact ih2
    have hstep : ∀ j, redistStep P x j = w j / ∑ l, w l := fun j => by rw [hw]; rfl
    obtain ⟨v, hv⟩ : ∃ v : Fin n → K, v = fun j => F.dot (List.ofFn fun i => (x' i, P i j)) := ⟨_, rfl⟩
    have hstep' : ∀ j, redistStepF F P x' j = F.div (v j) (F.sum (List.ofFn v)) := fun j => by rw [hv]; rfl
    have hx'0 : ∀ i, 0 ≤ x' i := fun i => by
      have := (ih i).nonneg h1
      by_contra hn
      exact absurd this (not_le.2 (mul_neg_of_pos_of_neg hc (not_le.1 hn)))
    have hvacc : ∀ j, Acc (1 / (1 - u)) (N + k * (n + 1) + n) (c * v j) (w j) := by
      intro j
      rw [hv, hw]
      have e : Acc (1 / (1 - u)) (0 + 0 + n) (F.dot (List.ofFn fun i => (x' i, P i j))) (∑ i, x' i * P i j) :=
        Acc.dot hF (fun i => Acc.refl (hx'0 i)) fun i => Acc.refl (hP.1 i j)
      have e1 := (Acc.refl (f := 1 / (1 - u)) hc.le).times h1 e
      have e2 : Acc (1 / (1 - u)) (N + k * (n + 1)) (c * ∑ i, x' i * P i j) (∑ i, x i * P i j) := by
        rw [mul_sum]
        simp only [← mul_assoc]
        refine Acc.total fun i => ?_
        have e := (ih i).times h1 (Acc.refl (hP.1 i j))
        exact e
      exact (e1.trans h1 e2).mono h1 (by omega)
    have hv0 : ∀ j, 0 ≤ v j := fun j => by
      have := (hvacc j).nonneg h1
      by_contra hn
      exact absurd this (not_le.2 (mul_neg_of_pos_of_neg hc (not_le.1 hn)))
    have hvs0 : 0 < ∑ j, v j := by
      have e2 := (Acc.total hvacc).pos_iff h1
      rw [← mul_sum] at e2
      exact (pos_iff_pos_of_mul_pos (e2.2 hws)).1 hc
    obtain ⟨hvs, htot⟩ := normal_total hF hv0 hvs0
    have hone : ∑ j, redistStep P x j = 1 := by
      simp only [hstep]
      rw [← sum_div, div_self hws.ne']
    refine ⟨fun i => ?_, by rw [hone]; exact one_pos, fun _ => ⟨by simp only [hstep']; exact htot, hone⟩,
      c * F.sum (List.ofFn v) / ∑ l, w l, div_pos (mul_pos hc hvs) hws, fun j => ?_⟩
    · rw [hstep]
      exact div_nonneg (hw0 i) hws.le
    · rw [hstep, hstep']
      have e1 : Acc (1 / (1 - u)) (0 + 0 + 1) (F.div (v j) (F.sum (List.ofFn v))) (v j / F.sum (List.ofFn v)) :=
        Acc.div hF (Acc.refl (hv0 j)) (Acc.refl hvs.le) hvs
      have e2 := (Acc.refl (f := 1 / (1 - u)) (div_pos (mul_pos hc hvs) hws).le).times h1 e1
      have e3 := (hvacc j).quotient h1 (Acc.refl hws.le) hws
      have e4 : c * F.sum (List.ofFn v) / (∑ l, w l) * (v j / F.sum (List.ofFn v)) = c * v j / ∑ l, w l := by
        rw [div_mul_div_comm, mul_right_comm, mul_div_mul_right _ _ hvs.ne']
      rw [e4] at e2
      refine (e2.trans h1 e3).mono h1 (le_of_eq ?_)
      ring

/-- C148, redistributions. Row `k` of a redistribution. -/
theorem C148_redistribution (hF : F.Sound u) {n : ℕ} {P : Matrix (Fin n) (Fin n) K} (hP : IsStochastic P)
    {d' d : Fin n → K} {N : ℕ} (hd : ∀ i, Acc (1 / (1 - u)) N (d' i) (d i)) (hs : 0 < ∑ i, d i) (k : ℕ) (i : Fin n) :
    Acc (1 / (1 - u)) (2 * N + (2 * k + 1) * (n + 1)) (redistRowF F P d' k i) (redistRow P d k i) := by
  have h1 := hF.one_le
  obtain ⟨p1, p2, p3, c, hc, p4⟩ := redist_projective hF hP hd hs k
  by_cases hk : k = 0
  · subst hk
    exact (hd i).mono h1 (by omega)
  · obtain ⟨q1, q2⟩ := p3 (by omega)
    have e := Acc.total p4
    rw [← mul_sum, q2] at e
    have e1 : Acc (1 / (1 - u)) (n + 1 + (N + k * (n + 1))) (c * 1) 1 :=
      (((Acc.refl (f := 1 / (1 - u)) hc.le).times h1 (q1.symm h1)).mono h1 (by omega)).trans h1 e
    rw [mul_one] at e1
    have e2 := (p4 i).quotient h1 e1 one_pos
    rw [mul_div_cancel_left₀ _ hc.ne', div_one] at e2
    refine e2.mono h1 (le_of_eq ?_)
    ring

/-- C148, redistributions. A call that returns a result with exact arithmetic does so with rounding, and the
entries agree up to at most `2 + (2 steps + 1) (n + 1)` roundings. -/
theorem C148_redistribute (hF : F.Sound u) {c : MC K} (hc : c.Valid) {steps status last : PyVal K} {z : ℤ}
    (hz : validateInteger steps (some (1, false)) none = .ok z)
    {l : List (Fin c.n → K)} (h : redistribute c steps status last = .ok l) :
    ∃ l', redistributeF F c steps status last = .ok l' ∧
      List.Forall₂ (fun x' x => ∀ i, Acc (1 / (1 - u)) (2 + (2 * z.toNat + 1) * (c.n + 1)) (x' i) (x i)) l' l := by
  have h1 := hF.one_le
  unfold redistribute at h
  rw [hz, R.ok_bind, R.bind_ok] at h
  obtain ⟨d, hd, h⟩ := h
  rw [R.bind_ok] at h
  obtain ⟨b, hb, h⟩ := h
  rw [R.pure_ok] at h
  have hst := statusVector_ok hc.2.2 hc.1 hd
  obtain ⟨d', hd', hacc⟩ : ∃ d' : List K, (match (generalizing := false) status with
      | .none => pure (List.replicate c.n (F.div 1 (c.n : K)))
      | v => validateStatus v c.states : R (List K)) = .ok d' ∧
      ∀ i, Acc (1 / (1 - u)) 1 (listVec d' c.n i) (listVec d c.n i) := by
    by_cases hs : status = .none
    · subst hs
      have hn : (0 : K) < c.n := by
        have := hc.1
        exact_mod_cast (by omega : 0 < c.n)
      refine ⟨_, rfl, fun i => ?_⟩
      simp only [R.pure_ok] at hd
      subst hd
      have e : Acc (1 / (1 - u)) (0 + 0 + 1) (F.div 1 (c.n : K)) (1 / (c.n : K)) :=
        Acc.div hF (Acc.refl zero_le_one) (Acc.refl hn.le) hn
      simpa [listVec] using e
    · refine ⟨d, ?_, fun i => (Acc.refl (hst.2.1 i)).mono h1 (by omega)⟩
      cases status <;> first | exact hd | exact absurd rfl hs
  have hrow : ∀ k ≤ z.toNat, ∀ i, Acc (1 / (1 - u)) (2 + (2 * z.toNat + 1) * (c.n + 1))
      (redistRowF F c.p (listVec d' c.n) k i) (redistRow c.p (listVec d c.n) k i) := fun k hk i => by
    refine (C148_redistribution hF hc.2.1 hacc hst.2.2 k i).mono h1 ?_
    rw [mul_one]
    exact Nat.add_le_add_left (Nat.mul_le_mul_right _ (by omega)) 2
  refine ⟨if b then [redistRowF F c.p (listVec d' c.n) z.toNat]
    else (List.range (z.toNat + 1)).map (redistRowF F c.p (listVec d' c.n)), ?_, ?_⟩
  · unfold redistributeF
    rw [hz, R.ok_bind]
    refine (congrArg (fun x : R (List K) => x >>= fun d => validateBoolean last >>= fun last => pure
      (if last then [redistRowF F c.p (listVec d c.n) z.toNat]
        else (List.range (z.toNat + 1)).map (redistRowF F c.p (listVec d c.n)))) hd').trans ?_
    rw [R.ok_bind, hb, R.ok_bind]
    rfl
  · rw [← h]
    cases b
    · simp only [Bool.false_eq_true, if_false]
      rw [List.forall₂_map_left_iff, List.forall₂_map_right_iff, List.forall₂_same]
      intro k hk
      rw [List.mem_range] at hk
      exact hrow k (by omega)
    · simp only [if_true]
      exact .cons (hrow _ le_rfl) .nil

/-! ## Concrete cases -/

/-- A chain with three states between the first and the last one. -/
def exSplit : MC ℚ :=
  ⟨4, fun i j => ![![0, binary64 (33 / 100), binary64 (56 / 100), binary64 (11 / 100)], ![0, 0, 0, 1], ![0, 0, 0, 1],
    ![0, 0, 0, 1]] i j, ["a", "b", "c", "d"]⟩

/-- The redistribution of the example chain in doubles. -/
example : (redistributeF (Arith.rounded binary64) exLoop (.int 2) .none (.bool true)).toOption.map
    (fun l => l.map fun x => x (0 : Fin 2)) = some [3 / 8] := by decide +kernel

/-- The rows of a matrix of counts, normalised in doubles: the entries are off, and the sum is one. -/
example : let M : Matrix (Fin 2) (Fin 3) ℚ := fun i j => ![![1, 3, 6], ![1, 0, 0]] i j
    normalizeRowsF (Arith.rounded binary64) M 0 0 ≠ 1 / 10 ∧
    (Arith.rounded binary64).sum (List.ofFn fun j => normalizeRowsF (Arith.rounded binary64) M 0 j) = 1 := by
  decide +kernel

/-- Counts are doubles, and their normalised rows are accepted. -/
example (i : Fin 2) : isclose ((Arith.rounded binary64).sum (List.ofFn fun j => normalizeRowsF (Arith.rounded binary64)
    (fun i j : Fin 2 => (![![1, 6], ![2, 1]] i j : ℚ)) i j)) 1 :=
  (C150_normalised_partial binary64_rounding (M := fun i j => ![![1, 6], ![2, 1]] i j)
    (by decide +kernel) (by decide +kernel) (by norm_num) i).2

/-- First passages of the example chain in doubles. -/
example : passageMatrixF (Arith.rounded binary64) (fun i j : Fin 2 => exLoop.p i j) 3 0 0 = 1 / 8 ∧
    mcExpectedRewardsF (Arith.rounded binary64) (fun i j : Fin 2 => exLoop.p i j) ![1, 1] 3 0 = 4 := by decide +kernel

/-- C150 fails for powers: in doubles the square of an accepted matrix has an entry above one, which the
constructor rejects, so that the matrix of `to_nth_order(2)` cannot be used to create the chain again. -/
theorem C150_power_rejected :
    (∀ i j : Fin 4, 0 ≤ exSplit.p i j ∧ exSplit.p i j ≤ 1) ∧
    (∀ i : Fin 4, isclose ((Arith.rounded binary64).sum (List.ofFn fun j : Fin 4 => exSplit.p i j)) 1) ∧
    1 < (PowerTree.node .leaf .leaf).eval (Arith.rounded binary64) exSplit.p (0 : Fin 4) (3 : Fin 4) := by
  have h1 : ∀ i j : Fin 4, 0 ≤ (fun i j : Fin 4 => exSplit.p i j) i j ∧ (fun i j : Fin 4 => exSplit.p i j) i j ≤ 1 := by
    decide +kernel
  have h2 : ∀ i : Fin 4, isclose ((Arith.rounded binary64).sum (List.ofFn fun j : Fin 4 =>
      (fun i j : Fin 4 => exSplit.p i j) i j)) 1 = true := by decide +kernel
  have h3 : 1 < (Arith.rounded binary64).dot (List.ofFn fun k : Fin 4 =>
      ((fun i j : Fin 4 => exSplit.p i j) 0 k, (fun i j : Fin 4 => exSplit.p i j) k 3)) := by decide +kernel
  exact ⟨h1, h2, h3⟩

end Verif
