import Verif.Props.Absorption
import Verif.Props.Passage
import Mathlib.Tactic.FinCases

/-!
# Hitting probabilities and hitting times (C42, C43)
-/

set_option linter.unusedSectionVars false

namespace Verif

open Finset

variable {K : Type} [Field K] [LinearOrder K] [IsStrictOrderedRing K]

/-! ## The contract of `scipy.optimize.nnls` -/

/-- What is assumed about `scipy.optimize.nnls` (the active set method of Lawson and Hanson) in exact
arithmetic: the result is nonnegative, it solves the system if some nonnegative vector does (it
minimises the residual), and the columns of its nonzero entries are linearly independent. -/
structure Nnls.Sound (nnls : Nnls K) : Prop where
  nonneg : ∀ m A b i, 0 ≤ nnls m A b i
  solves : ∀ m (A : Matrix (Fin m) (Fin m) K) (b : Fin m → K), (∃ y : Fin m → K, (∀ i, 0 ≤ y i) ∧ A.mulVec y = b) → A.mulVec (nnls m A b) = b
  basic : ∀ m (A : Matrix (Fin m) (Fin m) K) (b : Fin m → K), ∀ z : Fin m → K, (∀ i, nnls m A b i = 0 → z i = 0) → A.mulVec z = 0 → z = 0

/-- A solution with the smallest support is basic. -/
theorem exists_basic {m : ℕ} (A : Matrix (Fin m) (Fin m) K) (b : Fin m → K)
    (h : ∃ y : Fin m → K, (∀ i, 0 ≤ y i) ∧ A.mulVec y = b) :
    ∃ x : Fin m → K, (∀ i, 0 ≤ x i) ∧ A.mulVec x = b ∧
      ∀ z : Fin m → K, (∀ i, x i = 0 → z i = 0) → A.mulVec z = 0 → z = 0 := by
  classical
  let good : ℕ → Prop := fun k => ∃ y : Fin m → K, (∀ i, 0 ≤ y i) ∧ A.mulVec y = b ∧
    (univ.filter fun i => y i ≠ 0).card = k
  have hex : ∃ k, good k := by
    obtain ⟨y, h1, h2⟩ := h
    exact ⟨_, y, h1, h2, rfl⟩
  obtain ⟨x, hx1, hx2, hx3⟩ := Nat.find_spec hex
  refine ⟨x, hx1, hx2, ?_⟩
  have key : ∀ z : Fin m → K, (∀ i, x i = 0 → z i = 0) → A.mulVec z = 0 → ∀ i, z i ≤ 0 := by
    intro z hz1 hz2 i
    by_contra hcon
    have hne : (univ.filter fun j => 0 < z j).Nonempty := ⟨i, by simpa using hcon⟩
    obtain ⟨j, hj, hmin⟩ := exists_min_image _ (fun j => x j / z j) hne
    have hj' : 0 < z j := by simpa using hj
    set t := x j / z j
    have hxj : x j ≠ 0 := fun h => hj'.ne' (hz1 j h)
    have h1 : ∀ k, 0 ≤ x k - t * z k := by
      intro k
      by_cases hk : 0 < z k
      · have := hmin k (by simpa using hk)
        rw [le_div_iff₀ hk] at this
        linarith
      · have h2 : 0 ≤ t := div_nonneg (hx1 j) hj'.le
        have h3 : t * z k ≤ 0 := mul_nonpos_of_nonneg_of_nonpos h2 (not_lt.1 hk)
        have := hx1 k
        linarith
    have h4 : A.mulVec (fun k => x k - t * z k) = b := by
      have h5 : (fun k => x k - t * z k) = x - t • z := rfl
      rw [h5, Matrix.mulVec_sub, Matrix.mulVec_smul, hz2, smul_zero, sub_zero, hx2]
    refine Nat.find_min hex (m := (univ.filter fun k => x k - t * z k ≠ 0).card) ?_
      ⟨_, h1, h4, rfl⟩
    rw [← hx3]
    apply Finset.card_lt_card
    refine ⟨fun k hk => ?_, fun hsub => ?_⟩
    · simp only [mem_filter, mem_univ, true_and] at hk ⊢
      intro h0
      exact hk (by rw [h0, hz1 k h0, mul_zero, sub_zero])
    · have := hsub (show j ∈ univ.filter fun k => x k ≠ 0 by simpa using hxj)
      simp only [mem_filter, mem_univ, true_and] at this
      exact this (by rw [div_mul_cancel₀ _ hj'.ne', sub_self])
  intro z hz1 hz2
  funext i
  refine le_antisymm (key z hz1 hz2 i) ?_
  have := key (-z) (fun i hi => by simp [hz1 i hi]) (by rw [Matrix.mulVec_neg, hz2, neg_zero]) i
  simpa using this

open Classical in
/-- The contract can be met. -/
theorem exists_nnls : ∃ nnls : Nnls K, Nnls.Sound nnls := by
  refine ⟨fun m A b => if h : ∃ y : Fin m → K, (∀ i, 0 ≤ y i) ∧ A.mulVec y = b then
    (exists_basic A b h).choose else 0, ⟨?_, ?_, ?_⟩⟩
  · intro m A b i
    by_cases h : ∃ y : Fin m → K, (∀ i, 0 ≤ y i) ∧ A.mulVec y = b
    · rw [dif_pos h]; exact (exists_basic A b h).choose_spec.1 i
    · rw [dif_neg h]; exact le_rfl
  · intro m A b h
    simp only [dif_pos h]
    exact (exists_basic A b h).choose_spec.2.1
  · intro m A b z
    by_cases h : ∃ y : Fin m → K, (∀ i, 0 ≤ y i) ∧ A.mulVec y = b
    · simp only [dif_pos h]; exact (exists_basic A b h).choose_spec.2.2 z
    · simp only [dif_neg h]
      intro hz _
      funext i
      exact hz i rfl

/-! ## Hitting probabilities -/

section Chain

variable {n : ℕ} {P : Matrix (Fin n) (Fin n) K}

/-- Blocks of equations: a vector on `idx`, extended by given values `d`. -/
theorem assignAt_get {α : Type} {idx : List (Fin n)} (hn : idx.Nodup) (x : Fin idx.length → α)
    (d : Fin n → α) (a : Fin idx.length) : assignAt idx x d (idx.get a) = x a := by
  unfold assignAt
  rw [dif_pos (List.get_mem idx a)]
  congr 1
  exact Fin.ext (List.Nodup.idxOf_getElem hn a.1 a.2)

theorem assignAt_notMem {α : Type} {idx : List (Fin n)} (x : Fin idx.length → α) (d : Fin n → α)
    {i : Fin n} (h : i ∉ idx) : assignAt idx x d i = d i := dif_neg h

/-- A sum over all states splits into the states of the list and the others. -/
theorem sum_split {idx : List (Fin n)} (hn : idx.Nodup) (f : Fin n → K) :
    ∑ j, f j = ∑ a : Fin idx.length, f (idx.get a) + ∑ j with j ∉ idx, f j := by
  rw [sum_get hn f, Finset.sum_filter_add_sum_filter_not]

theorem sum_map_neg {α : Type} (l : List α) (f : α → K) :
    (l.map fun j => -f j).sum = -(l.map f).sum := by
  induction l with
  | nil => simp
  | cons a l ih => simp only [List.map_cons, List.sum_cons, ih]; ring

/-- Every chain has a smallest nonnegative solution; it is positive exactly where the targets can be
reached. -/
theorem exists_hittingProbability (hP : IsStochastic fun i j => P i j) (S : Fin n → Prop) :
    ∃ h, IsHittingProbability (fun i j => P i j) S h ∧
      ∀ i, (¬ ∃ s, S s ∧ Reach (fun i j => P i j) i s) → h i = 0 := by
  classical
  set can : Fin n → Prop := fun i => ∃ s, S s ∧ Reach (fun i j => P i j) i s with hcan
  set idx := (List.finRange n).filter fun i => decide (can i ∧ ¬ S i) with hidx
  have hmem : ∀ i, i ∈ idx ↔ can i ∧ ¬ S i := fun i => by simp [hidx]
  have hn : idx.Nodup := (List.nodup_finRange n).filter _
  have hesc : Escapes P idx := by
    intro i
    by_cases hi : can i
    · obtain ⟨s, hs, hr⟩ := hi
      exact ⟨s, fun hm => ((hmem s).1 hm).2 hs, hr⟩
    · exact ⟨i, fun hm => hi ((hmem i).1 hm).1, .refl i⟩
  obtain ⟨N, -, h2, h3, h4⟩ := sub_inverse hP hn hesc
  set b : Fin idx.length → K := fun a => ∑ j with S j, P (idx.get a) j with hb
  set x := N.mulVec b with hx
  have hb0 : ∀ a, 0 ≤ b a := fun a => Finset.sum_nonneg fun j _ => hP.1 _ _
  have hx0 : ∀ a, 0 ≤ x a := fun a => by
    change 0 ≤ ∑ k, N a k * b k
    exact Finset.sum_nonneg fun k _ => mul_nonneg (h4 a k) (hb0 k)
  set h : Fin n → K := assignAt idx x fun i => if S i then 1 else 0 with hh
  have hS : ∀ i, S i → h i = 1 := fun i hi => by
    rw [hh, assignAt_notMem _ _ (fun hm => ((hmem i).1 hm).2 hi), if_pos hi]
  have hZ : ∀ i, ¬ can i → h i = 0 := fun i hi => by
    rw [hh, assignAt_notMem _ _ (fun hm => hi ((hmem i).1 hm).1), if_neg]
    exact fun hs => hi ⟨i, hs, .refl i⟩
  have hsol : IsHittingSolution (fun i j => P i j) S h := by
    refine ⟨hS, fun i hi => ?_⟩
    by_cases hc : can i
    · obtain ⟨a, rfl⟩ := List.get_of_mem ((hmem i).2 ⟨hc, hi⟩)
      rw [sum_split hn]
      have e1 : ∑ d : Fin idx.length, P (idx.get a) (idx.get d) * h (idx.get d) =
          (subMatrix P idx).mulVec x a := by
        refine Finset.sum_congr rfl fun d _ => ?_
        rw [hh, assignAt_get hn]
        rfl
      have e2 : ∑ j with j ∉ idx, P (idx.get a) j * h j = b a := by
        refine (Finset.sum_filter _ _).trans (Eq.trans ?_ (Finset.sum_filter _ _).symm)
        refine Finset.sum_congr rfl fun j _ => ?_
        by_cases hj : j ∈ idx
        · rw [if_neg (by simpa using hj), if_neg ((hmem j).1 hj).2]
        · rw [if_pos hj, hh, assignAt_notMem _ _ hj]
          split <;> simp
      have e3 : (1 - subMatrix P idx).mulVec x = b := by
        rw [hx, Matrix.mulVec_mulVec, h2, Matrix.one_mulVec]
      have e4 := congrFun e3 a
      rw [Matrix.sub_mulVec, Matrix.one_mulVec, Pi.sub_apply] at e4
      rw [e1, e2, hh, assignAt_get hn]
      linear_combination e4
    · rw [hZ i hc]
      symm
      refine Finset.sum_eq_zero fun j _ => ?_
      by_cases hj : can j
      · have : ¬ 0 < P i j := fun hpos => by
          obtain ⟨s, hs, hr⟩ := hj
          exact hc ⟨s, hs, Reach.trans (.single hpos) hr⟩
        change P i j * h j = 0
        rw [le_antisymm (not_lt.1 this) (hP.1 i j), zero_mul]
      · rw [hZ j hj, mul_zero]
  refine ⟨h, ⟨hsol, fun i => ?_, fun g hg hg0 i => ?_⟩, hZ⟩
  · by_cases hi : i ∈ idx
    · obtain ⟨a, rfl⟩ := List.get_of_mem hi
      rw [hh, assignAt_get hn]; exact hx0 a
    · rw [hh, assignAt_notMem _ _ hi]
      split
      · exact zero_le_one
      · exact le_rfl
  · have := min_principle hP (B := fun i => i ∉ idx) hesc (v := fun i => g i - h i)
      (fun i hi => ?_) (fun i hi => ?_) i
    · linarith
    · by_cases hs : S i
      · rw [hg.1 i hs, hS i hs, sub_self]
      · have : ¬ can i := fun hc => hi ((hmem i).2 ⟨hc, hs⟩)
        rw [hZ i this, sub_zero]
        exact hg0 i
    · have hi' := (hmem i).1 (not_not.1 hi)
      simp only [mul_sub, Finset.sum_sub_distrib]
      rw [← hsol.2 i hi'.2, ← hg.2 i hi'.2]

theorem hittingProbability_unique {S : Fin n → Prop} {g h : Fin n → K}
    (hg : IsHittingProbability (fun i j => P i j) S g)
    (hh : IsHittingProbability (fun i j => P i j) S h) : g = h :=
  funext fun i => le_antisymm (hg.2.2 h hh.1 hh.2.1 i) (hh.2.2 g hg.1 hg.2.1 i)

theorem hittingProbability_le_one (hP : IsStochastic fun i j => P i j) {S : Fin n → Prop}
    {h : Fin n → K} (hh : IsHittingProbability (fun i j => P i j) S h) (i : Fin n) : h i ≤ 1 := by
  refine hh.2.2 (fun _ => 1) ⟨fun _ _ => rfl, fun i _ => ?_⟩ (fun _ => zero_le_one) i
  simp only [mul_one]
  exact (hP.2 i).symm

theorem mem_complementIdx {S : List (Fin n)} {i : Fin n} : i ∈ complementIdx S ↔ i ∉ S := by
  simp [complementIdx]

theorem complementIdx_nodup (S : List (Fin n)) : (complementIdx S).Nodup :=
  (List.nodup_finRange n).filter _

/-- The result of `mc_hitting_probabilities` is the probability that the targets are ever visited. -/
theorem mcHittingProbabilities_spec {nnls : Nnls K} (hnn : Nnls.Sound nnls)
    (hP : IsStochastic fun i j => P i j) {S : List (Fin n)} (hS : S.Nodup) :
    IsHittingProbability (fun i j => P i j) (· ∈ S) (mcHittingProbabilities nnls P S) := by
  set N := complementIdx S with hN
  have hnd : N.Nodup := complementIdx_nodup S
  set b : Fin N.length → K := fun a => (S.map fun j => -P (N.get a) j).sum with hb
  have hbs : ∀ a, b a = -∑ j with j ∉ N, P (N.get a) j := by
    intro a
    have h1 : univ.filter (fun j => j ∉ N) = S.toFinset := by
      ext j
      simp [hN, mem_complementIdx]
    rw [h1, List.sum_toFinset _ hS, hb]
    exact sum_map_neg _ _
  /- Vectors on `N` and solutions of the equations. -/
  have hsol : ∀ x : Fin N.length → K, (subMatrix P N - 1).mulVec x = b ↔
      IsHittingSolution (fun i j => P i j) (· ∈ S) (assignAt N x fun _ => 1) := by
    intro x
    have hnS : ∀ i, i ∈ S → assignAt N x (fun _ => 1) i = 1 := fun i hi =>
      assignAt_notMem _ _ fun hm => mem_complementIdx.1 hm hi
    have hrow : ∀ a, ∑ j, P (N.get a) j * assignAt N x (fun _ => 1) j =
        (subMatrix P N).mulVec x a - b a := by
      intro a
      rw [sum_split hnd, hbs, sub_neg_eq_add]
      congr 1
      · refine Finset.sum_congr rfl fun d _ => ?_
        rw [assignAt_get hnd]; rfl
      · refine Finset.sum_congr rfl fun j hj => ?_
        rw [assignAt_notMem _ _ (by simpa using hj), mul_one]
    rw [funext_iff]
    constructor
    · intro hx
      refine ⟨hnS, fun i hi => ?_⟩
      obtain ⟨a, rfl⟩ := List.get_of_mem (mem_complementIdx.2 hi)
      refine Eq.trans ?_ (hrow a).symm
      have h2 := hx a
      rw [Matrix.sub_mulVec, Matrix.one_mulVec, Pi.sub_apply] at h2
      refine (assignAt_get hnd x _ a).trans ?_
      linear_combination -h2
    · intro hx a
      have h2 := hx.2 (N.get a) (mem_complementIdx.1 (List.get_mem N a))
      have h3 := (h2.symm.trans (assignAt_get hnd x _ a)).symm.trans (hrow a)
      rw [Matrix.sub_mulVec, Matrix.one_mulVec, Pi.sub_apply]
      linear_combination -h3
  have hrestrict : ∀ g : Fin n → K, (∀ i ∈ S, g i = 1) →
      assignAt N (fun a => g (N.get a)) (fun _ => 1) = g := by
    intro g hg
    funext i
    by_cases hi : i ∈ N
    · obtain ⟨a, rfl⟩ := List.get_of_mem hi
      rw [assignAt_get hnd]
    · rw [assignAt_notMem _ _ hi, hg i (not_not.1 fun h => hi (mem_complementIdx.2 h))]
  obtain ⟨h, hh, -⟩ := exists_hittingProbability hP (· ∈ S)
  set x := nnls N.length (subMatrix P N - 1) b with hx
  have hcons : (subMatrix P N - 1).mulVec (fun a => h (N.get a)) = b := by
    rw [hsol, hrestrict h hh.1.1]; exact hh.1
  have hxb : (subMatrix P N - 1).mulVec x = b :=
    hnn.solves _ _ _ ⟨fun a => h (N.get a), fun a => hh.2.1 _, hcons⟩
  have hx0 : ∀ a, 0 ≤ x a := hnn.nonneg _ _ _
  have hxsol := (hsol x).1 hxb
  have hxn : ∀ i, 0 ≤ assignAt N x (fun _ => 1) i := by
    intro i
    by_cases hi : i ∈ N
    · obtain ⟨a, rfl⟩ := List.get_of_mem hi
      rw [assignAt_get hnd]; exact hx0 a
    · rw [assignAt_notMem _ _ hi]; exact zero_le_one
  have hle : ∀ a, h (N.get a) ≤ x a := fun a => by
    have := hh.2.2 _ hxsol hxn (N.get a)
    rwa [assignAt_get hnd] at this
  have hz : x - (fun a => h (N.get a)) = 0 := by
    refine hnn.basic N.length (subMatrix P N - 1) b _ (fun a ha => ?_) (by rw [Matrix.mulVec_sub, hxb, hcons, sub_self])
    have h5 := hle a
    rw [hx] at h5
    rw [ha] at h5
    have h6 := hh.2.1 (N.get a)
    rw [Pi.sub_apply, hx, ha]
    linarith
  have hfin : mcHittingProbabilities nnls P S = h := by
    unfold mcHittingProbabilities
    simp only
    split
    · have hxh : x = fun a => h (N.get a) := sub_eq_zero.1 hz
      have h7 : assignAt N x (fun _ => 1) = h := by rw [hxh]; exact hrestrict h hh.1.1
      exact h7
    · rename_i hlen
      funext i
      refine (hh.1.1 i ?_).symm
      by_contra hi
      exact hlen (List.length_pos_of_mem (mem_complementIdx.2 hi))
  rw [hfin]
  exact hh

end Chain

/-- The set of targets that an argument denotes. -/
theorem hittingTargets_cases {c : MC K} (hc : c.Valid) {targets : Option (PyVal K)}
    {S : List (Fin c.n)} (h : hittingTargets c targets = .ok S) : S.Nodup ∧
      ((targets = none ∧ ∀ i, i ∈ S) ∨ ∃ v l, targets = some v ∧
        validateLabelsCurrent v c.states false none = .ok l ∧ ∀ i, i ∈ S ↔ i.val ∈ l) := by
  cases targets with
  | none =>
    cases h
    exact ⟨List.nodup_finRange _, Or.inl ⟨rfl, List.mem_finRange⟩⟩
  | some v =>
    change (validateLabelsCurrent v c.states false none >>= _) = _ at h
    rw [R.bind_ok] at h
    obtain ⟨l, hl, h⟩ := h
    cases h
    obtain ⟨h1, -, -⟩ := labelsCurrent_sound hc.2.2.2.1 hl
    exact ⟨toStates_nodup (h1.imp fun h => ne_of_lt h),
      Or.inr ⟨v, l, rfl, hl, fun i => mem_toStates⟩⟩

/-- C43. `hitting_probabilities` is, for every accepted set of targets, the smallest nonnegative
solution of the first-step equations, and there is only one such vector. If the targets are omitted
all states are targets. -/
theorem C43_hitting_probabilities {nnls : Nnls K} (hnn : Nnls.Sound nnls) {c : MC K} (hc : c.Valid)
    {targets : Option (PyVal K)} {S : List (Fin c.n)} (hS : hittingTargets c targets = .ok S) :
    ((targets = none ∧ ∀ i, i ∈ S) ∨ ∃ v l, targets = some v ∧
        validateLabelsCurrent v c.states false none = .ok l ∧ ∀ i, i ∈ S ↔ i.val ∈ l) ∧
    ∃ h, hittingProbabilities nnls c targets = .ok h ∧
      ∀ g, IsHittingProbability c.p (· ∈ S) g ↔ g = h := by
  obtain ⟨h1, h2⟩ := hittingTargets_cases hc hS
  have h3 := mcHittingProbabilities_spec hnn (P := c.p) hc.2.1 h1
  refine ⟨h2, _, by unfold hittingProbabilities; rw [hS]; rfl, fun g => ⟨fun hg => ?_, ?_⟩⟩
  · exact hittingProbability_unique hg h3
  · rintro rfl; exact h3

/-! ## Hitting times -/

section Chain

variable {n : ℕ} {P : Matrix (Fin n) (Fin n) K}

theorem mem_infinityPass (hP : IsStochastic fun i j => P i j) {S : List (Fin n)} {I : Finset (Fin n)}
    {i : Fin n} : i ∈ infinityPass P S I ↔ (i ∈ I ∨ ∃ j ∈ I, 0 < P i j) ∧ i ∉ S := by
  unfold infinityPass
  simp only [mem_sdiff, mem_union, mem_filter, mem_univ, true_and, List.mem_toFinset]
  have : ∑ j ∈ I, P i j ≠ 0 ↔ ∃ j ∈ I, 0 < P i j := by
    rw [Ne, Finset.sum_eq_zero_iff_of_nonneg fun j _ => hP.1 i j]
    push Not
    exact exists_congr fun j => and_congr_right fun _ =>
      ⟨fun h => lt_of_le_of_ne (hP.1 i j) (Ne.symm h), ne_of_gt⟩
  rw [this]

/-- The loop ends in a set that a further pass does not change, and keeps every property that a pass
keeps. -/
theorem infinityLoop_spec (hP : IsStochastic fun i j => P i j) {S : List (Fin n)}
    {Q : Finset (Fin n) → Prop} (hQ : ∀ I, Q I → Q (infinityPass P S I)) :
    ∀ fuel new (I : Finset (Fin n)), Q I → (∀ i ∈ I, i ∉ S) → n + 1 ≤ fuel + I.card →
      (I.card = new → infinityPass P S I = I) →
      Q (infinityLoop P S fuel new I) ∧
      infinityPass P S (infinityLoop P S fuel new I) = infinityLoop P S fuel new I ∧
      (∀ i ∈ infinityLoop P S fuel new I, i ∉ S) ∧ I ⊆ infinityLoop P S fuel new I := by
  intro fuel
  induction fuel with
  | zero =>
    intro new I _ _ hf _
    have := Finset.card_le_univ I
    rw [Fintype.card_fin] at this
    omega
  | succ fuel ih =>
    intro new I hI hIS hf hnew
    have hsub : I ⊆ infinityPass P S I := fun i hi =>
      (mem_infinityPass hP).2 ⟨Or.inl hi, hIS i hi⟩
    unfold infinityLoop
    by_cases hc : I.card = new
    · rw [if_neg (not_not.2 hc)]
      exact ⟨hI, hnew hc, hIS, Finset.Subset.refl I⟩
    · rw [if_pos hc]
      by_cases hfix : infinityPass P S I = I
      · rw [hfix]
        have : infinityLoop P S fuel I.card I = I := by
          cases fuel with
          | zero => rfl
          | succ f => unfold infinityLoop; rw [if_neg (not_not.2 rfl)]
        rw [this]
        exact ⟨hI, hfix, hIS, Finset.Subset.refl I⟩
      · have hlt : I.card < (infinityPass P S I).card :=
          Finset.card_lt_card (lt_of_le_of_ne hsub (Ne.symm hfix))
        have hS' : ∀ i ∈ infinityPass P S I, i ∉ S := fun i hi => ((mem_infinityPass hP).1 hi).2
        obtain ⟨h1, h2, h3, h4⟩ := ih I.card _ (hQ I hI) hS' (by omega) (fun h => by omega)
        exact ⟨h1, h2, h3, hsub.trans h4⟩

/-- The states which the code regards as infinitely far are those that miss the targets with positive
probability, for all its tolerance. -/
theorem infinity_iff (hP : IsStochastic fun i j => P i j) {S : List (Fin n)} {h : Fin n → K}
    (hh : IsHittingProbability (fun i j => P i j) (· ∈ S) h) {I : Finset (Fin n)}
    (hI : I = infinityLoop P S (n + 2) 0 (univ.filter fun i => isclose (h i) 0 = true)) :
    (∀ i, i ∈ I ↔ h i < 1) ∧ (∀ i ∈ I, i ∉ S) ∧ (∀ i, i ∉ S → i ∉ I → ∀ j, 0 < P i j → j ∉ I) ∧
      ∀ i, i ∉ I → ∃ s, s ∈ S ∧ Reach (fun i j => P i j) i s := by
  have hle := hittingProbability_le_one hP hh
  have hclose : ∀ i, isclose (h i) 0 = true ↔ h i ≤ 1 / 100000000 := by
    intro i
    rw [isclose_zero_iff (hh.2.1 i)]
    norm_num
  have hpass : ∀ I : Finset (Fin n), (∀ i ∈ I, h i < 1) → ∀ i ∈ infinityPass P S I, h i < 1 := by
    intro I hI i hi
    obtain ⟨h1 | ⟨j, hj, hpos⟩, h2⟩ := (mem_infinityPass hP).1 hi
    · exact hI i h1
    · rw [hh.1.2 i h2, ← hP.2 i]
      refine Finset.sum_lt_sum (fun k _ => ?_) ⟨j, mem_univ j, ?_⟩
      · exact mul_le_of_le_one_right (hP.1 i k) (hle k)
      · exact mul_lt_of_lt_one_right hpos (hI j hj)
  have hstart : ∀ i ∈ univ.filter (fun i => isclose (h i) 0 = true), h i < 1 := by
    intro i hi
    have := (hclose i).1 (by simpa using hi)
    exact lt_of_le_of_lt this (by norm_num)
  obtain ⟨h1, h2, h3, h4⟩ := infinityLoop_spec hP (Q := fun I => ∀ i ∈ I, h i < 1) hpass (n + 2) 0
    (univ.filter fun i => isclose (h i) 0 = true) hstart
    (fun i hi hs => by have := hstart i hi; rw [hh.1.1 i hs] at this; exact lt_irrefl _ this)
    (by omega) (fun hc => by
      rw [Finset.card_eq_zero.1 hc]
      ext i
      rw [mem_infinityPass hP]
      simp)
  rw [← hI] at h1 h2 h3 h4
  have hclosed : ∀ i, i ∉ S → i ∉ I → ∀ j, 0 < P i j → j ∉ I := by
    intro i hi hiI j hij hj
    apply hiI
    rw [← h2]
    exact (mem_infinityPass hP).2 ⟨Or.inr ⟨j, hj, hij⟩, hi⟩
  have hreach : ∀ i, i ∉ I → ∃ s, s ∈ S ∧ Reach (fun i j => P i j) i s := by
    intro i hi
    by_contra hcon
    obtain ⟨g, hg, hg0⟩ := exists_hittingProbability hP (· ∈ S)
    rw [hittingProbability_unique hg hh] at hg0
    refine hi (h4 ?_)
    simp only [mem_filter, mem_univ, true_and]
    rw [hclose, hg0 i hcon]
    norm_num
  refine ⟨fun i => ⟨h1 i, fun hlt => ?_⟩, h3, hclosed, hreach⟩
  by_contra hiI
  have hne : (univ.filter fun i => i ∉ I).Nonempty := ⟨i, by simpa using hiI⟩
  obtain ⟨m, hm, hmin⟩ := exists_min_image _ h hne
  have hm' : m ∉ I := by simpa using hm
  have hm1 : h m < 1 := lt_of_le_of_lt (hmin i (by simpa using hiI)) hlt
  have hcl : ClosedSet (fun i j => P i j) fun k => k ∉ I ∧ h k = h m := by
    rintro k l ⟨hk1, hk2⟩ hkl
    have hkS : k ∉ S := fun hs => by rw [hh.1.1 k hs] at hk2; exact absurd hk2.symm (ne_of_lt hm1)
    have hout := hclosed k hkS hk1
    have hsum : ∑ j, P k j * (h j - h m) = 0 := by
      simp only [mul_sub, Finset.sum_sub_distrib, ← Finset.sum_mul]
      have e1 := hh.1.2 k hkS
      have e2 := hP.2 k
      simp only at e1 e2
      rw [← e1, e2, one_mul, hk2, sub_self]
    have hnn : ∀ j ∈ univ, 0 ≤ P k j * (h j - h m) := by
      intro j _
      rcases (hP.1 k j).eq_or_lt with h0 | h0
      · simp only at h0; rw [← h0, zero_mul]
      · exact mul_nonneg h0.le (sub_nonneg.2 (hmin j (by simpa using hout j h0)))
    have := (Finset.sum_eq_zero_iff_of_nonneg hnn).1 hsum l (mem_univ l)
    rcases mul_eq_zero.1 this with h0 | h0
    · exact absurd h0 (ne_of_gt hkl)
    · exact ⟨hout l hkl, sub_eq_zero.1 h0⟩
  obtain ⟨s, hs, hr⟩ := hreach m hm'
  have := (closedSet_reach hcl ⟨hm', rfl⟩ hr).2
  rw [hh.1.1 s hs] at this
  exact absurd this.symm (ne_of_lt hm1)

/-- Hitting times are unique. -/
theorem hittingTime_unique (hP : IsStochastic fun i j => P i j) {S : Fin n → Prop}
    {r r' : Fin n → Option K} (hr : IsHittingTime (fun i j => P i j) S r)
    (hr' : IsHittingTime (fun i j => P i j) S r') : r = r' := by
  obtain ⟨h, hh, hh0⟩ := exists_hittingProbability hP S
  have hnone : ∀ i, r i = none ↔ r' i = none := fun i =>
    (hr.1 h hh i).trans (hr'.1 h hh i).symm
  have key : (fun i => (r i).getD 0) = fun i => (r' i).getD 0 := by
    refine harmonic_unique hP (B := fun i => S i ∨ r i = none) (b := fun _ => 1) (fun i => ?_)
      (fun i hi => ?_) (fun i hi => ?_) (fun i hi => ?_)
    · by_cases hi : r i = none
      · exact ⟨i, Or.inr hi, .refl i⟩
      · have : ∃ s, S s ∧ Reach (fun i j => P i j) i s := by
          by_contra hcon
          apply hi
          rw [hr.1 h hh, hh0 i hcon]
          exact zero_lt_one
        obtain ⟨s, hs, hreach⟩ := this
        exact ⟨s, Or.inl hs, hreach⟩
    · rcases hi with hi | hi
      · rw [hr.2.1 i hi, hr'.2.1 i hi]
      · rw [hi, (hnone i).1 hi]
    · rw [not_or] at hi
      obtain ⟨t, ht⟩ := Option.ne_none_iff_exists'.1 hi.2
      rw [ht]
      exact (hr.2.2 i hi.1 t ht).2
    · rw [not_or] at hi
      obtain ⟨t, ht⟩ := Option.ne_none_iff_exists'.1 (fun h => hi.2 ((hnone i).2 h))
      rw [ht]
      exact (hr'.2.2 i hi.1 t ht).2
  funext i
  have := congrFun key i
  cases h1 : r i with
  | none => rw [(hnone i).1 h1]
  | some t =>
    cases h2 : r' i with
    | none => rw [(hnone i).2 h2] at h1; cases h1
    | some t' =>
      simp only [h1, h2, Option.getD_some] at this
      rw [this]

theorem mcHittingTimes_spec {nnls : Nnls K} (hnn : Nnls.Sound nnls)
    (hP : IsStochastic fun i j => P i j) {S : List (Fin n)} (hS : S.Nodup) :
    IsHittingTime (fun i j => P i j) (· ∈ S) (mcHittingTimes nnls P S) := by
  have hh := mcHittingProbabilities_spec hnn hP hS
  set h := mcHittingProbabilities nnls P S with hhdef
  obtain ⟨I, hI⟩ : ∃ I, I = infinityLoop P S (n + 2) 0
      (univ.filter fun i => isclose (h i) 0 = true) := ⟨_, rfl⟩
  obtain ⟨h1, h2, h3, h4⟩ := infinity_iff hP hh hI
  obtain ⟨N, hN⟩ : ∃ N, N = (List.finRange n).filter fun i => decide (i ∉ S ∧ i ∉ I) := ⟨_, rfl⟩
  have hmem : ∀ i, i ∈ N ↔ i ∉ S ∧ i ∉ I := fun i => by simp [hN]
  have hnd : N.Nodup := hN ▸ (List.nodup_finRange n).filter _
  have hesc : Escapes P N := by
    intro i
    by_cases hi : i ∈ I
    · exact ⟨i, fun hm => ((hmem i).1 hm).2 hi, .refl i⟩
    · obtain ⟨s, hs, hr⟩ := h4 i hi
      exact ⟨s, fun hm => ((hmem s).1 hm).1 hs, hr⟩
  set x := nnls N.length (subMatrix P N - 1) (fun _ => -1) with hx
  have hr : mcHittingTimes nnls P S =
      assignAt N (fun a => some (x a)) fun i => if i ∈ I then none else some 0 := by
    unfold mcHittingTimes
    simp only [← hhdef]
    rw [← hI, ← hN]
  obtain ⟨G, -, g2, -, g4⟩ := sub_inverse hP hnd hesc
  have hxb : (subMatrix P N - 1).mulVec x = fun _ => -1 := by
    refine hnn.solves _ _ _ ⟨G.mulVec fun _ => 1, fun a => ?_, ?_⟩
    · change 0 ≤ ∑ k, G a k * 1
      exact Finset.sum_nonneg fun k _ => mul_nonneg (g4 a k) zero_le_one
    · have e : subMatrix P N - 1 = -(1 - subMatrix P N) := (neg_sub _ _).symm
      rw [e, Matrix.neg_mulVec, Matrix.mulVec_mulVec, g2, Matrix.one_mulVec]
      rfl
  have hget : ∀ a, mcHittingTimes nnls P S (N.get a) = some (x a) := fun a => by
    rw [hr, assignAt_get hnd]
  have hinf : ∀ i, mcHittingTimes nnls P S i = none ↔ i ∈ I := by
    intro i
    by_cases hi : i ∈ N
    · obtain ⟨a, rfl⟩ := List.get_of_mem hi
      rw [hget]
      exact ⟨fun h => (by cases h), fun hI => absurd hI ((hmem _).1 hi).2⟩
    · rw [hr, assignAt_notMem _ _ hi]
      split <;> simp_all
  have htar : ∀ i, i ∈ S → mcHittingTimes nnls P S i = some 0 := by
    intro i hi
    rw [hr, assignAt_notMem _ _ (fun hm => ((hmem i).1 hm).1 hi), if_neg fun hm => h2 i hm hi]
  refine ⟨fun g hg i => ?_, htar, fun i hi t ht => ?_⟩
  · rw [hittingProbability_unique hg hh, hinf, h1]
  · have hiI : i ∉ I := fun hm => by rw [(hinf i).2 hm] at ht; cases ht
    obtain ⟨a, rfl⟩ := List.get_of_mem ((hmem i).2 ⟨hi, hiI⟩)
    refine ⟨fun j hj hn => h3 _ hi hiI j hj ((hinf j).1 hn), ?_⟩
    have h5 := congrFun hxb a
    rw [Matrix.sub_mulVec, Matrix.one_mulVec, Pi.sub_apply] at h5
    rw [hget] at ht
    cases ht
    have e1 : ∑ j, P (N.get a) j * (mcHittingTimes nnls P S j).getD 0 =
        (subMatrix P N).mulVec x a := by
      rw [sum_split hnd]
      have e2 : ∑ j with j ∉ N, P (N.get a) j * (mcHittingTimes nnls P S j).getD 0 = 0 := by
        refine Finset.sum_eq_zero fun j hj => ?_
        have hjN : j ∉ N := by simpa using hj
        rw [hr, assignAt_notMem _ _ hjN]
        split <;> simp
      rw [e2, add_zero]
      refine Finset.sum_congr rfl fun d _ => ?_
      rw [hget]
      rfl
    refine Eq.trans ?_ (congrArg (1 + ·) e1).symm
    linear_combination -h5

end Chain

/-- C42. `hitting_times` is, for every accepted set of targets, the one vector that is infinite
exactly where the targets are missed with positive probability, zero on the targets, and that
satisfies the first-step equations at the other states. -/
theorem C42_hitting_times {nnls : Nnls K} (hnn : Nnls.Sound nnls) {c : MC K} (hc : c.Valid)
    {targets : Option (PyVal K)} {S : List (Fin c.n)} (hS : hittingTargets c targets = .ok S) :
    ((targets = none ∧ ∀ i, i ∈ S) ∨ ∃ v l, targets = some v ∧
        validateLabelsCurrent v c.states false none = .ok l ∧ ∀ i, i ∈ S ↔ i.val ∈ l) ∧
    ∃ r, hittingTimes nnls c targets = .ok r ∧ ∀ r', IsHittingTime c.p (· ∈ S) r' ↔ r' = r := by
  obtain ⟨h1, h2⟩ := hittingTargets_cases hc hS
  have h3 := mcHittingTimes_spec hnn (P := c.p) hc.2.1 h1
  refine ⟨h2, _, by unfold hittingTimes; rw [hS]; rfl, fun g => ⟨fun hg => ?_, ?_⟩⟩
  · exact hittingTime_unique (P := c.p) hc.2.1 hg h3
  · rintro rfl; exact h3

/-! ## A concrete case -/

/-- The first state of the drunkard's walk as the target: the middle state reaches it with
probability one half, the last one never. -/
example : ∃ nnls : Nnls ℚ, ∃ h r,
    hittingProbabilities nnls exDrunkard (some (.list [.int 0])) = .ok h ∧
    hittingTimes nnls exDrunkard (some (.list [.int 0])) = .ok r ∧
    h (0 : Fin 3) = 1 ∧ h (1 : Fin 3) = 1 / 2 ∧ h (2 : Fin 3) = 0 ∧
    r (0 : Fin 3) = some 0 ∧ r (1 : Fin 3) = none ∧ r (2 : Fin 3) = none := by
  obtain ⟨nnls, hnn⟩ := exists_nnls (K := ℚ)
  have hc : exDrunkard.Valid := by decide +kernel
  have ht : hittingTargets exDrunkard (some (.list [.int 0])) = .ok ([0] : List (Fin 3)) := by
    rfl
  obtain ⟨-, h, hh, hh2⟩ := C43_hitting_probabilities hnn hc ht
  obtain ⟨-, r, hr, hr2⟩ := C42_hitting_times hnn hc ht
  have hg : IsHittingProbability exDrunkard.p (· ∈ ([0] : List (Fin 3)))
      (![1, 1 / 2, 0] : Fin 3 → ℚ) := by
    refine ⟨⟨?_, ?_⟩, ?_, ?_⟩
    · have : ∀ i : Fin 3, i ∈ ([0] : List (Fin 3)) → (![1, 1 / 2, 0] : Fin 3 → ℚ) i = 1 := by
        decide +kernel
      exact this
    · have : ∀ i : Fin 3, i ∉ ([0] : List (Fin 3)) → (![1, 1 / 2, 0] : Fin 3 → ℚ) i =
          ∑ j : Fin 3, exDrunkard.p i j * (![1, 1 / 2, 0] : Fin 3 → ℚ) j := by
        decide +kernel
      exact this
    · have : ∀ i : Fin 3, 0 ≤ (![1, 1 / 2, 0] : Fin 3 → ℚ) i := by decide +kernel
      exact this
    · intro g hg hg0
      have e0 : g (0 : Fin 3) = 1 := hg.1 (0 : Fin 3) (by decide)
      have e1 : g (1 : Fin 3) = ∑ j : Fin 3, exDrunkard.p (1 : Fin 3) j * g j :=
        hg.2 (1 : Fin 3) (by decide)
      have e2 : 0 ≤ g (2 : Fin 3) := hg0 (2 : Fin 3)
      have p0 : exDrunkard.p (1 : Fin 3) (0 : Fin 3) = 1 / 2 := by decide +kernel
      have p1 : exDrunkard.p (1 : Fin 3) (1 : Fin 3) = 0 := by decide +kernel
      have p2 : exDrunkard.p (1 : Fin 3) (2 : Fin 3) = 1 / 2 := by decide +kernel
      rw [Fin.sum_univ_three, p0, p1, p2, e0] at e1
      have : ∀ i : Fin 3, (![1, 1 / 2, 0] : Fin 3 → ℚ) i ≤ g i := by
        intro i
        fin_cases i
        · change 1 ≤ g (0 : Fin 3); rw [e0]
        · change 1 / 2 ≤ g (1 : Fin 3); linarith
        · exact e2
      exact this
  have hgh := (hh2 _).1 hg
  have hrt := (hr2 r).2 rfl
  have n1 := (hrt.1 _ hg (1 : Fin 3)).2 (by change (1 / 2 : ℚ) < 1; norm_num)
  have n2 := (hrt.1 _ hg (2 : Fin 3)).2 (by change (0 : ℚ) < 1; norm_num)
  subst hgh
  exact ⟨nnls, _, r, hh, hr, rfl, rfl, rfl, hrt.2.1 (0 : Fin 3) (List.mem_singleton.2 rfl), n1, n2⟩

end Verif
