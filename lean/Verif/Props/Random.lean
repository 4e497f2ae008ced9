import Verif.Model.Random
import Verif.Lemmas.Generators
import Verif.Props.Validation
import Verif.Spec.Valid
import Mathlib.Tactic.Linarith
import Mathlib.Tactic.Ring
import Mathlib.Tactic.LinearCombination
import Mathlib.Tactic.FieldSimp
import Mathlib.Algebra.BigOperators.Field
import Mathlib.Data.List.Nodup
import Mathlib.LinearAlgebra.Matrix.Notation
import Mathlib.Tactic.FinCases

/-!
# Chains generated from random draws (C16, C17)
-/

set_option linter.unusedSectionVars false
set_option linter.unusedSimpArgs false

namespace Verif

variable {K : Type} [Field K] [LinearOrder K] [IsStrictOrderedRing K]

/-! ## C16 -/

theorem gemLoop_length (l : List K) (a : K) : (gemLoop l a).length = l.length := by
  induction l generalizing a with
  | nil => rfl
  | cons d ds ih => simp [gemLoop, ih]

theorem gemLoop_nonneg (l : List K) (hl : ∀ d ∈ l, 0 ≤ d ∧ d ≤ 1) (a : K) (ha : a ≤ 1) :
    ∀ w ∈ gemLoop l a, 0 ≤ w := by
  induction l generalizing a with
  | nil => simp [gemLoop]
  | cons d ds ih =>
    obtain ⟨h0, h1⟩ := hl d (by simp)
    intro w hw
    simp only [gemLoop, List.mem_cons] at hw
    rcases hw with rfl | hw
    · exact mul_nonneg (by linarith) h0
    · refine ih (fun e he => hl e (by simp [he])) _ ?_ w hw
      nlinarith [mul_nonneg (sub_nonneg.2 ha) (sub_nonneg.2 h1)]

theorem gemLoop_sum (l : List K) (a : K) :
    a + (gemLoop l a).sum = 1 - (1 - a) * (l.map fun d => 1 - d).prod := by
  induction l generalizing a with
  | nil => simp [gemLoop]
  | cons d ds ih =>
    have := ih (a + (1 - a) * d)
    simp only [gemLoop, List.sum_cons, List.map_cons, List.prod_cons]
    linear_combination this

theorem prod_lt_one (l : List K) (hl : ∀ d ∈ l, 0 ≤ d ∧ d ≤ 1) :
    0 ≤ (l.map fun d => 1 - d).prod ∧ (l.map fun d => 1 - d).prod ≤ 1 ∧
      ((∃ d ∈ l, 0 < d) → (l.map fun d => 1 - d).prod < 1) := by
  induction l with
  | nil => simp
  | cons d ds ih =>
    obtain ⟨h0, h1⟩ := hl d (by simp)
    obtain ⟨p0, p1, p2⟩ := ih fun e he => hl e (by simp [he])
    simp only [List.map_cons, List.prod_cons]
    refine ⟨mul_nonneg (by linarith) p0, by nlinarith, ?_⟩
    rintro ⟨e, he, hpos⟩
    rcases List.mem_cons.1 he with rfl | he
    · nlinarith
    · have := p2 ⟨e, he, hpos⟩
      nlinarith

theorem gem_sum_pos (l : List K) (hl : ∀ d ∈ l, 0 ≤ d ∧ d ≤ 1) (hp : ∃ d ∈ l, 0 < d) :
    0 < (gemLoop l 0).sum := by
  have h := gemLoop_sum l 0
  have := (prod_lt_one l hl).2.2 hp
  linarith

theorem sum_getD_rev {n : ℕ} (l : List K) (h : l.length = n) (shift : Bool) :
    ∑ j : Fin n, l.getD (if shift then (j.rev : ℕ) else j) 0 = l.sum := by
  subst h
  have key : ∑ j : Fin l.length, l.getD j 0 = l.sum := by
    rw [← List.sum_ofFn]
    congr 1
    apply List.ext_getElem (by simp)
    intro i h1 h2
    simp [List.getElem?_eq_getElem h2]
  cases shift with
  | false => simp only [Bool.false_eq_true, if_false]; exact key
  | true =>
    rw [← key]
    simp only [if_true]
    exact Equiv.sum_comp Fin.revPerm (fun j : Fin l.length => l.getD (j : ℕ) 0)

theorem dirichletBase_stochastic {n : ℕ} {draws : Fin n → Fin n → K}
    (hd : ∀ i j, 0 ≤ draws i j ∧ draws i j ≤ 1) (hp : ∀ i, ∃ j, 0 < draws i j) (shift : Bool) :
    IsStochastic (dirichletBase draws shift) := by
  have hl : ∀ i, ∀ d ∈ List.ofFn (draws i), 0 ≤ d ∧ d ≤ 1 := by
    intro i d h
    obtain ⟨j, rfl⟩ := (List.mem_ofFn' _ _).1 h
    exact hd i j
  have hpos : ∀ i, 0 < (gemLoop (List.ofFn (draws i)) 0).sum := by
    intro i
    obtain ⟨j, hj⟩ := hp i
    exact gem_sum_pos _ (hl i) ⟨_, (List.mem_ofFn' _ _).2 ⟨j, rfl⟩, hj⟩
  constructor
  · intro i j
    unfold dirichletBase gemAllocation
    generalize (if shift then (j.rev : ℕ) else (j : ℕ)) = k
    by_cases hk : k < (gemLoop (List.ofFn (draws i)) 0).length
    · rw [List.getD_eq_getElem _ _ (by simpa using hk), List.getElem_map]
      exact div_nonneg (gemLoop_nonneg _ (hl i) 0 zero_le_one _ (List.getElem_mem _)) (hpos i).le
    · rw [List.getD_eq_default _ _ (by simpa using hk)]
  · intro i
    unfold dirichletBase
    rw [sum_getD_rev]
    · unfold gemAllocation
      simp only [div_eq_mul_inv]
      rw [List.sum_map_mul_right, List.map_id', mul_inv_cancel₀ (hpos i).ne']
    · simp [gemAllocation, gemLoop_length]

/-- The stick-breaking weight of component `k`: the draw for `k` times what the draws before `k`
leave of the stick. -/
def stickWeight {n : ℕ} (d : Fin n → K) (k : Fin n) : K :=
  d k * ∏ l : Fin n with l < k, (1 - d l)

theorem gemLoop_get (l : List K) (a : K) (k : ℕ) (hk : k < l.length) :
    (gemLoop l a)[k]'(by rw [gemLoop_length]; exact hk) =
      (1 - a) * (l[k] * ((l.take k).map fun d => 1 - d).prod) := by
  induction l generalizing a k with
  | nil => simp at hk
  | cons d ds ih =>
    cases k with
    | zero => simp [gemLoop]
    | succ k =>
      simp only [gemLoop, List.getElem_cons_succ, List.take_succ_cons, List.map_cons,
        List.prod_cons]
      rw [ih _ k (by simpa using hk)]
      ring

theorem prod_take_ofFn {n : ℕ} (d : Fin n → K) (k : Fin n) :
    (((List.ofFn d).take k).map fun x => 1 - x).prod = ∏ l : Fin n with l < k, (1 - d l) := by
  have e : ((List.ofFn d).take k).map (fun x => 1 - x) =
      List.ofFn fun l : Fin (k : ℕ) => 1 - d (Fin.castLE k.isLt.le l) := by
    apply List.ext_getElem
    · simp [k.isLt.le]
    · intro i h1 h2; simp
  rw [e, List.prod_ofFn]
  symm
  refine Finset.prod_bij' (fun l hl => ⟨l, by simpa using hl⟩)
    (fun l _ => Fin.castLE k.isLt.le l) ?_ ?_ ?_ ?_ ?_
  · simp
  · intro l _
    rw [Finset.mem_filter]
    exact ⟨Finset.mem_univ _, l.isLt⟩
  · intro l _; rfl
  · intro l _; rfl
  · intro l _; rfl

theorem gemLoop_ofFn {n : ℕ} (d : Fin n → K) :
    gemLoop (List.ofFn d) 0 = List.ofFn (stickWeight d) := by
  apply List.ext_getElem
  · simp [gemLoop_length]
  · intro i h1 h2
    have hi : i < n := by simpa using h2
    rw [gemLoop_get _ _ _ (by simpa using hi)]
    have := prod_take_ofFn d ⟨i, hi⟩
    simp only at this
    rw [this]
    simp [stickWeight]

/-- The normalised weights of the rows. -/
theorem dirichletBase_eq {n : ℕ} (draws : Fin n → Fin n → K) (shift : Bool) (i j : Fin n) :
    dirichletBase draws shift i j =
      stickWeight (draws i) (if shift then j.rev else j) / ∑ k, stickWeight (draws i) k := by
  unfold dirichletBase gemAllocation
  simp only [gemLoop_ofFn, List.sum_ofFn]
  have e : ((if shift then (j.rev : ℕ) else j) : ℕ) = ((if shift then j.rev else j : Fin n) : ℕ) := by
    cases shift <;> rfl
  rw [e]
  generalize (if shift then j.rev else j : Fin n) = k
  simp

/-- C16. Whatever the draws in the unit interval are, if every row has a non-null draw then the
generated chain is a valid chain. Without a bias factor its rows are the normalised stick-breaking
weights (from right to left when shifted); with a bias factor the diagonal is increased by the
draws for the bias and the rows are scaled. -/
theorem C16_dirichlet_partial {size diffusion states biasFactor shift : PyVal K}
    {draws : ∀ n, Fin n → Fin n → K} {bias : ∀ n, Fin n → K}
    (hd : ∀ n i j, 0 ≤ draws n i j ∧ draws n i j ≤ 1) (hp : ∀ n i, ∃ j, 0 < draws n i j)
    (hb : ∀ n i, 0 ≤ bias n i) {c : MC K}
    (h : dirichletProcess size diffusion states biasFactor shift draws bias = .ok c) :
    c.Valid ∧ size = .int c.n ∧ ∃ sh : Bool, shift = .bool sh ∧
      (biasFactor = .none → ∀ i j, c.p i j = stickWeight (draws c.n i) (if sh then j.rev else j) /
        ∑ k, stickWeight (draws c.n i) k) ∧
      (biasFactor ≠ .none → ∀ i j, c.p i j * (1 + bias c.n i) =
        stickWeight (draws c.n i) (if sh then j.rev else j) / (∑ k, stickWeight (draws c.n i) k) +
          if i = j then bias c.n i else 0) := by
  unfold dirichletProcess at h
  rw [R.bind_ok] at h
  obtain ⟨z, hz, h⟩ := h
  obtain ⟨rfl, hz⟩ := validateInteger_ge hz
  rw [R.bind_ok] at h
  obtain ⟨_, -, h⟩ := h
  rw [R.bind_ok] at h
  obtain ⟨b, hbf, h⟩ := h
  rw [R.bind_ok] at h
  obtain ⟨sh, hsh, h⟩ := h
  rw [R.bind_ok] at h
  obtain ⟨l, hl, h⟩ := h
  rw [R.pure_ok] at h
  subst h
  have hsh : shift = .bool sh := by
    unfold validateBoolean at hsh
    split at hsh
    · rw [R.pure_ok] at hsh; rw [hsh]
    · simp [throw, throwThe, MonadExceptOf.throw] at hsh
  have hb' : ∀ v, b = some v → ∀ i, 0 ≤ v i := by
    intro v hv
    subst hv
    split at hbf
    · rw [R.pure_ok] at hbf; simp at hbf
    · rw [R.bind_ok] at hbf
      obtain ⟨_, -, h⟩ := hbf
      rw [R.pure_ok] at h
      simp only [Option.some.injEq] at h
      subst h
      exact hb _
  have base := dirichletBase_stochastic (hd z.toNat) (hp z.toNat) sh
  refine ⟨⟨by simp only; omega, ?_, labelsOrDefault_sound hl⟩, by simp; omega, sh, hsh, ?_, ?_⟩
  rotate_left
  · rintro rfl i j
    rw [R.pure_ok] at hbf
    subst hbf
    exact dirichletBase_eq _ _ _ _
  · intro hne i j
    split at hbf
    · exact absurd rfl hne
    · rw [R.bind_ok] at hbf
      obtain ⟨_, -, h⟩ := hbf
      rw [R.pure_ok] at h
      subst h
      have hrow : ∑ l, (dirichletBase (draws z.toNat) sh i l +
          if i = l then bias z.toNat i else 0) = 1 + bias z.toNat i := by
        rw [Finset.sum_add_distrib, base.2 i]; simp
      have hpos : (0 : K) < 1 + bias z.toNat i := by have := hb z.toNat i; linarith
      change (_ / _ : K) * _ = _
      refine Eq.trans ?_ (congrArg (· + _) (dirichletBase_eq _ _ _ _))
      rw [hrow]
      exact div_mul_cancel₀ _ hpos.ne'
  cases b with
  | none => exact base
  | some v =>
    have hv := hb' v rfl
    refine normalizeRows_stochastic (fun i j => ?_) (fun i => ?_)
    · have := base.1 i j
      split
      · have := hv i; positivity
      · simpa using this
    · rw [Finset.sum_add_distrib, base.2 i]
      have : (0:K) ≤ ∑ j, if i = j then v i else 0 :=
        Finset.sum_nonneg fun j _ => by split <;> simp [hv i]
      linarith

/-- C16, the hypotheses are met: draws equal to one half. -/
example : dirichletMatrix (n := 3) (fun _ _ => (1 / 2 : ℚ)) none true =
    !![1 / 7, 2 / 7, 4 / 7; 1 / 7, 2 / 7, 4 / 7; 1 / 7, 2 / 7, 4 / 7] := by decide +kernel

theorem C16_accepts (draws : ∀ n, Fin n → Fin n → K) (bias : ∀ n, Fin n → K) :
    ∃ c, dirichletProcess (.int 3) (.int 1) .none .none (.bool true) draws bias = .ok c := by
  unfold dirichletProcess
  rw [validateInteger_of_ge (by norm_num), R.ok_bind]
  exact ⟨_, rfl⟩

/-- C16, disagreement. A row of null draws is divided by a null sum, so the row is not a
distribution (the code returns NaN entries). -/
theorem C16_null_draws {n : ℕ} (shift : Bool) (i : Fin n) :
    (gemLoop (List.ofFn fun _ : Fin n => (0 : K)) 0).sum = 0 ∧
      ∑ j, dirichletBase (fun _ _ : Fin n => (0 : K)) shift i j ≠ 1 := by
  have h0 : (gemLoop (List.ofFn fun _ : Fin n => (0 : K)) 0).sum = 0 := by
    have := gemLoop_sum (List.ofFn fun _ : Fin n => (0 : K)) 0
    simpa using this
  refine ⟨h0, ?_⟩
  unfold dirichletBase
  rw [sum_getD_rev]
  · unfold gemAllocation
    simp only [h0, div_zero, List.map_const', List.sum_replicate, smul_zero]
    exact zero_ne_one
  · simp [gemAllocation, gemLoop_length]

/-! ## C17 -/

/-- The contract of the random number generator: `randint(0, m)` is below `m`, `permutation(m)` is
a permutation of `0, …, m - 1`, and the uniform draws are non-null (`rand` may return `0.0`). -/
structure DrawsOk {n : ℕ} (dr : Draws K n) : Prop where
  pick_lt : ∀ i m, 0 < m → dr.pick i m < m
  perm_perm : ∀ m, (dr.perm m).Perm (List.range m)
  value_pos : ∀ i j, 0 < dr.value i j

theorem mem_freeCols {n : ℕ} {mask : Mask K n} {i j : Fin n} :
    j ∈ freeCols mask i ↔ mask i j = none ∧ rowFull mask i = false := by
  unfold freeCols fillFull
  rw [List.mem_filter]
  by_cases h : mask i j = none <;> cases hf : rowFull mask i <;> simp [h, hf]

theorem freeCols_nodup {n : ℕ} (mask : Mask K n) (i : Fin n) : (freeCols mask i).Nodup :=
  (List.nodup_finRange n).filter _

theorem freeCols_full {n : ℕ} {mask : Mask K n} {i : Fin n} (h : rowFull mask i = true) :
    freeCols mask i = [] := by
  rw [List.eq_nil_iff_forall_not_mem]
  intro j hj
  have := (mem_freeCols.1 hj).2
  simp [h] at this

theorem keptCol_spec {n : ℕ} {mask : Mask K n} {dr : Draws K n} (hd : DrawsOk dr) {i : Fin n}
    (hf : rowFull mask i = false) (hne : freeCols mask i ≠ []) :
    ∃ j, keptCol mask dr i = some j ∧ j ∈ freeCols mask i := by
  have hl := hd.pick_lt i _ (List.length_pos_iff.2 hne)
  refine ⟨(freeCols mask i)[dr.pick i (freeCols mask i).length], ?_, List.getElem_mem _⟩
  simp [keptCol, hf, List.getElem?_eq_getElem hl]

theorem mem_candidates {n : ℕ} {mask : Mask K n} {dr : Draws K n} {i j : Fin n} :
    (i, j) ∈ candidates mask dr ↔ j ∈ freeCols mask i ∧ keptCol mask dr i ≠ some j := by
  simp [candidates]

theorem candidates_nodup {n : ℕ} (mask : Mask K n) (dr : Draws K n) :
    (candidates mask dr).Nodup := by
  unfold candidates
  rw [List.nodup_flatMap]
  refine ⟨fun i _ => ((freeCols_nodup mask i).filter _).map
    (fun a b h => (Prod.mk.inj h).2), ?_⟩
  refine (List.nodup_finRange n).pairwise_of_forall_ne ?_
  intro a _ b _ hab
  simp only [Function.onFun, List.disjoint_left]
  rintro ⟨x, y⟩ h1 h2
  simp only [List.mem_map, Prod.mk.injEq] at h1 h2
  obtain ⟨_, -, rfl, -⟩ := h1
  obtain ⟨_, -, h, -⟩ := h2
  exact hab h.symm

theorem length_filter_ne {α : Type} [DecidableEq α] {l : List α} (hl : l.Nodup) {a : α}
    (ha : a ∈ l) : (l.filter fun x => some a ≠ some x).length + 1 = l.length := by
  have : (l.filter fun x => some a ≠ some x) = l.erase a := by
    rw [hl.erase_eq_filter]
    apply List.filter_congr
    intro x _
    by_cases h : a = x
    · simp [h]
    · simp [h, Ne.symm h]
  rw [this, List.length_erase_of_mem ha]
  have := List.length_pos_of_mem ha
  omega

theorem candidates_length {n : ℕ} {mask : Mask K n} {dr : Draws K n} (hd : DrawsOk dr)
    (hne : ¬ ∃ i, ¬ rowFull mask i ∧ freeCols mask i = []) :
    ((candidates mask dr).length : ℤ) = zerosRequired mask := by
  have row : ∀ i, ((freeCols mask i).filter fun j => keptCol mask dr i ≠ some j).length +
      (if rowFull mask i then 0 else 1) = (freeCols mask i).length := by
    intro i
    cases hf : rowFull mask i with
    | true => simp [freeCols_full hf]
    | false =>
      obtain ⟨j, hj, hm⟩ := keptCol_spec hd hf (fun h => hne ⟨i, by simp [hf], h⟩)
      rw [hj]
      simpa using length_filter_ne (freeCols_nodup mask i) hm
  have gen : ∀ l : List (Fin n),
      ((l.flatMap fun i => ((freeCols mask i).filter fun j => keptCol mask dr i ≠ some j).map
        fun j => (i, j)).length) + (l.filter fun i => ¬ rowFull mask i).length =
      (l.map fun i => (freeCols mask i).length).sum := by
    intro l
    induction l with
    | nil => simp
    | cons i l ih =>
      have hr := row i
      rw [List.flatMap_cons, List.length_append, List.length_map, List.map_cons, List.sum_cons]
      cases hf : rowFull mask i
      · rw [List.filter_cons_of_pos (by simp [hf]), List.length_cons]
        simp only [hf, Bool.false_eq_true, if_false] at hr
        omega
      · rw [List.filter_cons_of_neg (by simp [hf])]
        simp only [hf, if_true] at hr
        omega
  have := gen (List.finRange n)
  unfold zerosRequired candidates
  omega

theorem zeroPositions_spec {n : ℕ} {mask : Mask K n} {dr : Draws K n} (hd : DrawsOk dr)
    (hne : ¬ ∃ i, ¬ rowFull mask i ∧ freeCols mask i = []) {zeros : ℕ}
    (hz : (zeros : ℤ) ≤ zerosRequired mask) :
    (zeroPositions mask dr zeros).Nodup ∧ (zeroPositions mask dr zeros).length = zeros ∧
      ∀ x ∈ zeroPositions mask dr zeros, x ∈ candidates mask dr := by
  have hlen := candidates_length hd hne
  have hN : (zerosRequired mask).toNat = (candidates mask dr).length := by omega
  have hperm := hd.perm_perm (candidates mask dr).length
  have hlt : ∀ k ∈ (dr.perm (candidates mask dr).length).take zeros,
      k < (candidates mask dr).length := fun k hk =>
    List.mem_range.1 (hperm.mem_iff.1 (List.mem_of_mem_take hk))
  have hnd : ((dr.perm (candidates mask dr).length).take zeros).Nodup :=
    (hperm.nodup_iff.2 List.nodup_range).sublist (List.take_sublist _ _)
  have htl : ((dr.perm (candidates mask dr).length).take zeros).length = zeros := by
    rw [List.length_take, hperm.length_eq, List.length_range]; omega
  unfold zeroPositions
  rw [hN]
  generalize (dr.perm (candidates mask dr).length).take zeros = l at hlt hnd htl
  refine ⟨?_, ?_, ?_⟩
  · refine hnd.filterMap ?_
    intro a b x hxa hxb
    have ha := List.getElem?_eq_some_iff.1 (Option.mem_def.1 hxa)
    have hb := List.getElem?_eq_some_iff.1 (Option.mem_def.1 hxb)
    obtain ⟨h1, e1⟩ := ha
    obtain ⟨h2, e2⟩ := hb
    exact (candidates_nodup mask dr).getElem_inj_iff.1 (e1.trans e2.symm)
  · rw [← htl]
    clear htl hnd
    induction l with
    | nil => rfl
    | cons a l ih =>
      have := hlt a (by simp)
      rw [List.filterMap_cons_some (List.getElem?_eq_getElem this), List.length_cons,
        List.length_cons, ih fun k hk => hlt k (by simp [hk])]
  · intro x hx
    obtain ⟨k, -, hk⟩ := List.mem_filterMap.1 hx
    exact List.mem_of_getElem? hk

theorem isclose_false_lt_one {x : K} (h : isclose x 1 = false) (hx : x ≤ 1) : x < 1 := by
  rcases hx.lt_or_eq with h' | rfl
  · exact h'
  · simp [isclose] at h
    have : (0:K) < (10 ^ 8)⁻¹ + (10 ^ 5)⁻¹ := by positivity
    exact absurd h this.not_gt

/-- C17. Whatever the (non-null) draws are, an accepted call returns a matrix that agrees with every
assigned entry of the mask, that has no negative entry, whose rows sum to one except that a row
whose assigned entries sum to one up to the tolerance is completed with zeros, and that has exactly
the requested number of null entries among the unassigned entries of the other rows. -/
theorem C17_random_partial {n : ℕ} {mask : Mask K n} (hm : validMask mask) {dr : Draws K n}
    (hd : DrawsOk dr) {states zeros : PyVal K} {c : MC K}
    (h : randomChain mask dr states zeros = .ok c) :
    ∃ (Q : Matrix (Fin n) (Fin n) K) (z : ℕ) (l : List String), c = ⟨n, Q, l⟩ ∧ 2 ≤ n ∧
      ValidLabels n l ∧ zeros = .int z ∧
      (∀ i j x, mask i j = some x → Q i j = x) ∧ (∀ i j, 0 ≤ Q i j) ∧
      (∀ i, isclose (nansum mask i) 1 = false → ∑ j, Q i j = 1) ∧
      (∀ i, isclose (nansum mask i) 1 = true → ∀ j, Q i j = (mask i j).getD 0) ∧
      (Finset.univ.filter fun x : Fin n × Fin n => mask x.1 x.2 = none ∧
        isclose (nansum mask x.1) 1 = false ∧ Q x.1 x.2 = 0).card = z := by
  unfold randomChain at h
  rw [R.bind_ok] at h
  obtain ⟨z0, hz0, h⟩ := h
  obtain ⟨e0, hz0⟩ := validateInteger_ge hz0
  rw [R.bind_ok] at h
  obtain ⟨l, hl, h⟩ := h
  rw [R.bind_ok] at h
  obtain ⟨z, hz, h⟩ := h
  obtain ⟨rfl, hz⟩ := validateInteger_ge hz
  rw [R.bind_ok] at h
  obtain ⟨Q, hQ, h⟩ := h
  rw [R.pure_ok] at h
  subst h
  unfold mcRandom at hQ
  rw [R.ite_throw] at hQ
  obtain ⟨hle, hQ⟩ := hQ
  rw [R.ite_throw] at hQ
  obtain ⟨hne, hQ⟩ := hQ
  rw [R.pure_ok] at hQ
  subst hQ
  have hn : 2 ≤ n := by cases e0; omega
  generalize hzn : z.toNat = k at *
  have hzk : z = (k : ℤ) := by omega
  obtain ⟨znd, zlen, zmem⟩ := zeroPositions_spec hd hne (zeros := k) (by omega)
  set fm := finalMask mask dr k with hfm
  have hsome : ∀ i j x, mask i j = some x → fm i j = some x := by
    intro i j x hx
    simp only [hfm, finalMask]
    rw [if_neg]
    · simp [fillFull, hx]
    · intro hmem
      have := (mem_freeCols.1 (mem_candidates.1 (zmem _ hmem)).1).1
      simp [hx] at this
  have hsi : ∀ i, ∑ l, (fm i l).getD 0 = nansum mask i := by
    intro i
    refine Finset.sum_congr rfl fun j _ => ?_
    cases hx : mask i j with
    | some x => rw [hsome i j x hx]
    | none =>
      simp only [hfm, finalMask, fillFull, hx]
      split <;> [rfl; (split <;> rfl)]
  have hnone : ∀ i j, fm i j = none → mask i j = none ∧ rowFull mask i = false := by
    intro i j hx
    simp only [hfm, finalMask, fillFull] at hx
    split at hx
    · simp at hx
    · split at hx
      · simp at hx
      · next h =>
        refine ⟨hx, ?_⟩
        cases hf : rowFull mask i
        · rfl
        · exact absurd ⟨hx, hf⟩ h
  have hval : ∀ i j x, fm i j = some x → randomMatrix mask dr k i j = x := by
    intro i j x hx
    simp only [randomMatrix, ← hfm, hx]
  have hs : ∀ i, rowFull mask i = false →
      0 < ∑ l, if fm i l = none then dr.value i l else 0 := by
    intro i hf
    obtain ⟨j, hj, hjm⟩ := keptCol_spec hd hf (fun h => hne ⟨i, by simp [hf], h⟩)
    have hfj : fm i j = none := by
      simp only [hfm, finalMask]
      rw [if_neg]
      · simp [fillFull, hf, (mem_freeCols.1 hjm).1]
      · intro hmem
        exact (mem_candidates.1 (zmem _ hmem)).2 hj
    refine Finset.sum_pos' (fun l _ => ?_) ⟨j, Finset.mem_univ _, ?_⟩
    · split
      · exact (hd.value_pos i l).le
      · exact le_rfl
    · rw [if_pos hfj]; exact hd.value_pos i j
  have hfree : ∀ i j, fm i j = none → randomMatrix mask dr k i j =
      dr.value i j * ((1 - nansum mask i) / ∑ l, if fm i l = none then dr.value i l else 0) := by
    intro i j hx
    have := hs i (hnone i j hx).2
    simp only [randomMatrix, ← hfm, hx, hsi]
    rw [if_pos this]
  have hlt : ∀ i, rowFull mask i = false → nansum mask i < 1 := fun i hf =>
    isclose_false_lt_one hf (hm.2 i)
  have hfpos : ∀ i j, fm i j = none → 0 < randomMatrix mask dr k i j := by
    intro i j hx
    have hf := (hnone i j hx).2
    rw [hfree i j hx]
    exact mul_pos (hd.value_pos i j) (div_pos (by linarith [hlt i hf]) (hs i hf))
  have hsomeval : ∀ i j x, fm i j = some x → (mask i j = none ∧ x = 0) ∨ mask i j = some x := by
    intro i j x hx
    cases hmx : mask i j with
    | some y => rw [hsome i j y hmx] at hx; exact Or.inr hx
    | none =>
      left
      simp only [hfm, finalMask, fillFull, hmx] at hx
      split at hx
      · simp at hx; exact ⟨rfl, hx.symm⟩
      · split at hx
        · simp at hx; exact ⟨rfl, hx.symm⟩
        · simp at hx
  refine ⟨_, k, l, rfl, hn, labelsOrDefault_sound hl, by rw [hzk],
    fun i j x hx => hval i j x (hsome i j x hx), ?_, ?_, ?_, ?_⟩
  · intro i j
    cases hx : fm i j with
    | none => exact (hfpos i j hx).le
    | some x =>
      rw [hval i j x hx]
      rcases hsomeval i j x hx with ⟨-, rfl⟩ | hx'
      · exact le_rfl
      · exact (hm.1 i j x hx').1
  · intro i hf
    have hs' := hs i hf
    have : ∀ j, randomMatrix mask dr k i j = (fm i j).getD 0 +
        (if fm i j = none then dr.value i j else 0) *
          ((1 - nansum mask i) / ∑ l, if fm i l = none then dr.value i l else 0) := by
      intro j
      cases hx : fm i j with
      | none => rw [hfree i j hx]; simp
      | some x => rw [hval i j x hx]; simp
    refine (Finset.sum_congr rfl fun j _ => this j).trans ?_
    rw [Finset.sum_add_distrib, hsi, ← Finset.sum_mul, mul_div_cancel₀ _ hs'.ne']
    ring
  · intro i hf j
    cases hx : fm i j with
    | none => exact absurd (hnone i j hx).2 (by simp [rowFull, hf])
    | some x =>
      rw [hval i j x hx]
      rcases hsomeval i j x hx with ⟨h1, rfl⟩ | h1 <;> simp [h1]
  · have : (Finset.univ.filter fun x : Fin n × Fin n => mask x.1 x.2 = none ∧
        isclose (nansum mask x.1) 1 = false ∧ randomMatrix mask dr k x.1 x.2 = 0) =
        (zeroPositions mask dr k).toFinset := by
      ext ⟨i, j⟩
      simp only [Finset.mem_filter, Finset.mem_univ, true_and, List.mem_toFinset]
      constructor
      · rintro ⟨h1, h2, h3⟩
        by_contra hmem
        have hx : fm i j = none := by
          simp only [hfm, finalMask]
          rw [if_neg hmem]
          simp [fillFull, rowFull, h1, h2]
        exact (hfpos i j hx).ne' h3
      · intro hmem
        obtain ⟨h1, h2⟩ := mem_freeCols.1 (mem_candidates.1 (zmem _ hmem)).1
        refine ⟨h1, h2, hval i j 0 ?_⟩
        simp only [hfm, finalMask]
        rw [if_pos hmem]
    rw [this, List.toFinset_card_of_nodup znd, zlen]

/-- Draws used in the examples. -/
def exDraws : Draws ℚ 2 := ⟨fun _ _ => 0, List.range, fun _ _ => 1 / 2⟩

theorem exDraws_ok : DrawsOk exDraws :=
  ⟨fun _ _ h => h, fun _ => List.Perm.refl _, fun _ _ => by norm_num [exDraws]⟩

/-- C17, the hypotheses are met: a mask with one assigned entry and one requested zero. -/
example : mcRandom (n := 2) (fun i j => if i = 0 ∧ j = 0 then some (1 / 4) else none) exDraws 1 =
    .ok !![1 / 4, 3 / 4; 1, 0] := by
  unfold mcRandom
  rw [if_neg (by decide +kernel), if_neg (by decide +kernel)]
  exact congrArg Except.ok (by decide +kernel)

/-- C17, disagreement. A row whose assigned entries sum to one only up to the tolerance is completed
with zeros, so it does not sum to one. -/
theorem C17_row_sum_below_one : ∃ Q, mcRandom (n := 2)
    (fun i j => if j = 0 then (if i = 0 then some (1 - 1 / 10 ^ 6) else some 1) else none)
    exDraws 0 = .ok Q ∧ ∑ j, Q 0 j < 1 :=
  ⟨!![1 - 1 / 10 ^ 6, 0; 1, 0], by
    unfold mcRandom
    rw [if_neg (by decide +kernel), if_neg (by decide +kernel)]
    exact congrArg Except.ok (by decide +kernel), by decide +kernel⟩

/-- C17, disagreement. A mask whose row is completely assigned with a sum below one passes
`validate_mask` and makes the generator raise. -/
theorem C17_assigned_row_raises : validMask (n := 2) (fun i j =>
      if i = 0 then some (1 / 4 : ℚ) else if j = 0 then some 1 else none) ∧
    ∀ zeros, mcRandom (n := 2) (fun i j =>
      if i = 0 then some (1 / 4 : ℚ) else if j = 0 then some 1 else none) exDraws zeros =
        .error .valueError := by
  constructor
  · refine ⟨?_, by decide +kernel⟩
    intro i j x
    fin_cases i <;> fin_cases j <;> simp <;> rintro rfl <;> norm_num
  · intro zeros
    unfold mcRandom
    split
    · rfl
    · rw [if_pos ⟨0, by decide +kernel, by decide +kernel⟩]
      rfl

end Verif
