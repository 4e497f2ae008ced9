import Verif.Props.AcceptedCalls
import Verif.Props.Relabel

/-!
# What merging keeps of two chains (C144)

`merge_with` mixes the transition probabilities of two chains on the same states.
-/

set_option linter.unusedSectionVars false

namespace Verif

open Finset

variable {K : Type} [Field K] [LinearOrder K] [IsStrictOrderedRing K]

/-- In each step `Q` moves like `P` with probability `1 - g` and like `P'` with probability `g`. -/
structure Mixes {n : ℕ} (P P' Q : Matrix (Fin n) (Fin n) K) (g : K) : Prop where
  pos : 0 < g
  lt : g < 1
  prob : ∀ i j, Q i j = (1 - g) * P i j + g * P' i j

section spec

variable {n : ℕ} {P P' Q : Matrix (Fin n) (Fin n) K} {g : K}

theorem Mixes.symm (h : Mixes P P' Q g) : Mixes P' P Q (1 - g) :=
  ⟨sub_pos.2 h.lt, by linarith [h.pos], fun i j => by rw [h.prob]; ring⟩

theorem Mixes.edge (h : Mixes P P' Q g) (hP : ∀ i j, 0 ≤ P i j) (hP' : ∀ i j, 0 ≤ P' i j) (i j : Fin n) :
    Edge Q i j ↔ Edge P i j ∨ Edge P' i j := by
  have h1 := sub_pos.2 h.lt
  unfold Edge
  rw [h.prob]
  constructor
  · intro hpos
    by_contra hno
    push Not at hno
    have e1 := le_antisymm hno.1 (hP i j)
    have e2 := le_antisymm hno.2 (hP' i j)
    rw [e1, e2] at hpos
    simp at hpos
  · rintro (hh | hh)
    · exact add_pos_of_pos_of_nonneg (mul_pos h1 hh) (mul_nonneg h.pos.le (hP' i j))
    · exact add_pos_of_nonneg_of_pos (mul_nonneg h1.le (hP i j)) (mul_pos h.pos hh)

theorem Mixes.reach (h : Mixes P P' Q g) (hP : ∀ i j, 0 ≤ P i j) (hP' : ∀ i j, 0 ≤ P' i j) {i j : Fin n}
    (hr : Reach (fun i j => P i j) i j) : Reach (fun i j => Q i j) i j := by
  induction hr with
  | refl => exact Relation.ReflTransGen.refl
  | tail _ he ih => exact ih.tail ((h.edge hP hP' _ _).2 (Or.inl he))

theorem Mixes.reachIn (h : Mixes P P' Q g) (hP : ∀ i j, 0 ≤ P i j) (hP' : ∀ i j, 0 ≤ P' i j) {k : ℕ}
    {i j : Fin n} (hr : ReachIn (fun i j => P i j) k i j) : ReachIn (fun i j => Q i j) k i j := by
  induction hr with
  | refl => exact ReachIn.refl _
  | step _ he ih => exact ih.step ((h.edge hP hP' _ _).2 (Or.inl he))

theorem Mixes.ergodic (h : Mixes P P' Q g) (hP : ∀ i j, 0 ≤ P i j) (hP' : ∀ i j, 0 ≤ P' i j)
    (he : Ergodic (fun i j => P i j)) : Ergodic fun i j => Q i j :=
  ⟨fun i j => h.reach hP hP' (he.1 i j), fun i => ⟨fun k _ => one_dvd k, fun e hh => (he.2 i).2 e fun k hk =>
    hh k (h.reachIn hP hP' hk)⟩⟩

theorem Mixes.sum (h : Mixes P P' Q g) (i : Fin n) (f : Fin n → K) :
    ∑ j, Q i j * f j = (1 - g) * ∑ j, P i j * f j + g * ∑ j, P' i j * f j := by
  rw [Finset.mul_sum, Finset.mul_sum, ← Finset.sum_add_distrib]
  exact Finset.sum_congr rfl fun j _ => by rw [h.prob]; ring

theorem Mixes.stationary (h : Mixes P P' Q g) {x : Fin n → K} (h1 : IsStationary (fun i j => P i j) x)
    (h2 : IsStationary (fun i j => P' i j) x) : IsStationary (fun i j => Q i j) x := by
  refine ⟨h1.1, fun j => ?_⟩
  have e1 : ∑ i, x i * P i j = x j := h1.2 j
  have e2 : ∑ i, x i * P' i j = x j := h2.2 j
  have : ∑ i, x i * Q i j = (1 - g) * ∑ i, x i * P i j + g * ∑ i, x i * P' i j := by
    rw [Finset.mul_sum, Finset.mul_sum, ← Finset.sum_add_distrib]
    exact Finset.sum_congr rfl fun i _ => by rw [h.prob]; ring
  refine this.trans ?_
  rw [e1, e2]
  ring

end spec

/-! ## The chain that `merge_with` returns -/

/-- The transition matrix of a chain with as many states, on the states of the other one. -/
def sameSize (c o : MC K) (e : o.n = c.n) : Matrix (Fin c.n) (Fin c.n) K :=
  fun i j => o.p (i.cast e.symm) (j.cast e.symm)

/-- C144. `merge_with` returns a valid chain that mixes the transition probabilities. -/
theorem C144_merge {c o d : MC K} (hc : c.Valid) (ho : o.Valid) {gamma : PyVal K}
    (h : mergeWith c o gamma = .ok d) :
    ∃ (g : K) (e : o.n = c.n) (Q : Matrix (Fin c.n) (Fin c.n) K) (l : List String),
      d = ⟨c.n, Q, l⟩ ∧ gamma = .float (.fin g) ∧ d.Valid ∧ Mixes c.p (sameSize c o e) Q g := by
  obtain ⟨g, e, Q, l, h1, h2, h3, h4, h5, h6, -⟩ := C14_merge hc ho h
  exact ⟨g, e, Q, l, h1, h2, h5, h3, h4, h6⟩

variable {c o : MC K} {e : o.n = c.n} {Q : Matrix (Fin c.n) (Fin c.n) K} {l : List String} {g : K}

theorem sameSize_stochastic (ho : o.Valid) : IsStochastic fun i j => sameSize c o e i j := by
  refine ⟨fun i j => ho.2.1.1 _ _, fun i => ?_⟩
  refine (Fintype.sum_equiv (finCongr e.symm) _ (fun j => o.p (i.cast e.symm) j) fun j => rfl).trans ?_
  exact ho.2.1.2 _

/-- C144, structure. The merged chain is irreducible, ergodic or regular if one of the two chains is, and a
state is absorbing in the merged chain iff it is absorbing in both. -/
theorem C144_structure (hc : c.Valid) (ho : o.Valid) (hd : (⟨c.n, Q, l⟩ : MC K).Valid)
    (h : Mixes c.p (sameSize c o e) Q g) {nx : Nx c.n} (hx : nx.Sound c.p) {nxo : Nx o.n}
    (hxo : nxo.Sound o.p) {nx' : Nx c.n} (hx' : nx'.Sound Q) :
    (isIrreducible c nx.sccs = true ∨ isIrreducible o nxo.sccs = true →
      isIrreducible ⟨c.n, Q, l⟩ nx'.sccs = true) ∧
    (isErgodic c nx = true ∨ isErgodic o nxo = true → isErgodic ⟨c.n, Q, l⟩ nx' = true) ∧
    (isRegular c = true ∨ isRegular o = true → isRegular ⟨c.n, Q, l⟩ = true) ∧
    (∀ i, AbsorbingState (fun i j => Q i j) i ↔
      AbsorbingState c.p i ∧ AbsorbingState o.p (i.cast e.symm)) := by
  have hP : ∀ i j, 0 ≤ c.p i j := hc.2.1.1
  have hS := sameSize_stochastic (c := c) (e := e) ho
  have hP' : ∀ i j, 0 ≤ sameSize c o e i j := hS.1
  have hirr : Irreducible o.p → Irreducible fun i j => sameSize c o e i j := fun hi =>
    (irreducible_relabel (P := fun i j => o.p i j) (finCongr e.symm) fun i j => rfl).2 hi
  have herg : Ergodic o.p → Ergodic fun i j => sameSize c o e i j := fun hi =>
    (ergodic_relabel (P := fun i j => o.p i j) (finCongr e.symm) fun i j => rfl).2 hi
  have key : Ergodic c.p ∨ Ergodic o.p → Ergodic fun i j => Q i j := by
    rintro (he | he)
    · exact h.ergodic hP hP' he
    · exact h.symm.ergodic hP' hP (herg he)
  refine ⟨fun hi => ?_, fun hi => ?_, fun hi => ?_, fun i => ?_⟩
  · rw [C30_irreducible hc hx.sccs, C30_irreducible ho hxo.sccs] at hi
    refine (C30_irreducible hd hx'.sccs).2 ?_
    rcases hi with hi | hi
    · exact fun i j => h.reach hP hP' (hi i j)
    · exact fun i j => h.symm.reach hP' hP (hirr hi i j)
  · rw [isErgodic_iff hc hx, isErgodic_iff ho hxo] at hi
    exact (isErgodic_iff hd hx').2 (key hi)
  · rw [C31_regular hc, C31_regular ho] at hi
    refine (C31_regular hd).2 ((ergodic_iff_primitive hd.2.1).1 (key ?_))
    exact hi.imp (fun hh => (ergodic_iff_primitive hc.2.1).2 hh) fun hh => (ergodic_iff_primitive ho.2.1).2 hh
  · have h1 : c.p i i ≤ 1 := by
      rw [← hc.2.1.2 i]
      exact Finset.single_le_sum (f := fun j => c.p i j) (fun j _ => hP i j) (mem_univ i)
    have h2 : sameSize c o e i i ≤ 1 := by
      rw [← hS.2 i]
      exact Finset.single_le_sum (f := fun j => sameSize c o e i j) (fun j _ => hP' i j) (mem_univ i)
    change Q i i = 1 ↔ c.p i i = 1 ∧ sameSize c o e i i = 1
    rw [h.prob]
    have g0 := h.pos
    have g1 := h.lt
    constructor
    · intro hq
      constructor
      · by_contra hne
        have := mul_lt_mul_of_pos_left (lt_of_le_of_ne h1 hne) (sub_pos.2 g1)
        have := mul_le_mul_of_nonneg_left h2 g0.le
        linarith
      · by_contra hne
        have := mul_lt_mul_of_pos_left (lt_of_le_of_ne h2 hne) g0
        have := mul_le_mul_of_nonneg_left h1 (sub_pos.2 g1).le
        linarith
    · rintro ⟨e1, e2⟩
      rw [e1, e2]
      ring

/-- C144, stationary distributions. If the two chains share a stationary distribution and one of them is
irreducible, `pi` of the merged chain returns it; if both are in detailed balance with it, the merged chain
is found to be reversible. -/
theorem C144_pi (hc : c.Valid) (ho : o.Valid) (hd : (⟨c.n, Q, l⟩ : MC K).Valid)
    (h : Mixes c.p (sameSize c o e) Q g) (hirr : Irreducible c.p ∨ Irreducible o.p)
    {sccs' : List (List (Fin c.n))} (hs' : IsClasses Q sccs') {x : Fin c.n → K}
    (h1 : IsStationary c.p x) (h2 : IsStationary o.p fun i => x (i.cast e)) :
    pi ⟨c.n, Q, l⟩ sccs' = .ok [x] ∧
    (DetailedBalance c.p x → DetailedBalance o.p (fun i => x (i.cast e)) →
      isReversible ⟨c.n, Q, l⟩ sccs' = .ok true) := by
  have hP : ∀ i j, 0 ≤ c.p i j := hc.2.1.1
  have hS := sameSize_stochastic (c := c) (e := e) ho
  have hi : Irreducible fun i j => Q i j := by
    rcases hirr with hi | hi
    · exact fun i j => h.reach hP hS.1 (hi i j)
    · exact fun i j => h.symm.reach hS.1 hP
        ((irreducible_relabel (P := fun i j => o.p i j) (finCongr e.symm) fun i j => rfl).2 hi i j)
  have h2' : IsStationary (fun i j => sameSize c o e i j) x :=
    isStationary_relabel (P := fun i j => o.p i j) (Q := fun i j => sameSize c o e i j) (finCongr e.symm)
      (fun i j => rfl) h2
  have hst : IsStationary (fun i j => Q i j) x := h.stationary h1 h2'
  obtain ⟨y, hy1, -, -, hy⟩ := C34_stationary hd hs' hi
  refine ⟨by rw [hy1, hy x hst], fun b1 b2 => ?_⟩
  obtain ⟨b, h5, -, h6⟩ := (C37_reversible_partial hd hs').1 x hst
    fun z hz => (hy z hz).trans (hy x hst).symm
  rw [h5, h6 fun i j => ?_]
  change x i * Q i j = x j * Q j i
  have e1 : x i * c.p i j = x j * c.p j i := b1 i j
  have e2 : x i * sameSize c o e i j = x j * sameSize c o e j i := b2 (i.cast e.symm) (j.cast e.symm)
  rw [h.prob, h.prob]
  linear_combination (1 - g) * e1 + g * e2

/-- C144. If both chains are monotone or symmetric, so is the merged one; if both have column sums one,
the merged one is found to be doubly stochastic. -/
theorem C144_monotone (hc : c.Valid) (ho : o.Valid) (hd : (⟨c.n, Q, l⟩ : MC K).Valid)
    (h : Mixes c.p (sameSize c o e) Q g) :
    (isMonotone c = true → isMonotone o = true → isMonotone ⟨c.n, Q, l⟩ = true) ∧
    ((∀ i j, c.p i j = c.p j i) → (∀ i j, o.p i j = o.p j i) → isSymmetric ⟨c.n, Q, l⟩ = true) ∧
    ((∀ j, ∑ i, c.p i j = 1) → (∀ j, ∑ i, o.p i j = 1) → isDoublyStochastic ⟨c.n, Q, l⟩ = true) := by
  refine ⟨fun h1 h2 => ?_, fun h1 h2 => ?_, fun h1 h2 => ?_⟩
  · rw [(C36_monotone hc).1] at h1
    rw [(C36_monotone ho).1] at h2
    rw [(C36_monotone hd).1]
    intro f hf i j hij
    have e1 : ∑ k, c.p i k * f k ≤ ∑ k, c.p j k * f k := h1 f hf hij
    have e2 : ∑ k, sameSize c o e i k * f k ≤ ∑ k, sameSize c o e j k * f k := by
      have := h2 (fun k => f (k.cast e)) (fun a b hab => hf hab)
        (show i.cast e.symm ≤ j.cast e.symm from hij)
      refine le_trans (le_of_eq ?_) (this.trans (le_of_eq ?_))
      · exact Fintype.sum_equiv (finCongr e.symm) _ _ fun k => rfl
      · exact Fintype.sum_equiv (finCongr e) _ _ fun k => rfl
    change ∑ k, Q i k * f k ≤ ∑ k, Q j k * f k
    rw [h.sum, h.sum]
    exact add_le_add (mul_le_mul_of_nonneg_left e1 (sub_pos.2 h.lt).le)
      (mul_le_mul_of_nonneg_left e2 h.pos.le)
  · refine ((C89_symmetric_partial hd).1 fun i j => ?_).1
    change Q i j = Q j i
    rw [h.prob, h.prob, h1 i j]
    unfold sameSize
    rw [h2]
  · unfold isDoublyStochastic
    refine decide_eq_true fun j => ?_
    have : ∑ i, Q i j = 1 := by
      rw [Finset.sum_congr rfl fun i _ => h.prob i j, Finset.sum_add_distrib, ← Finset.mul_sum,
        ← Finset.mul_sum, h1 j]
      have : ∑ i, sameSize c o e i j = 1 :=
        (Fintype.sum_equiv (finCongr e.symm) _ (fun i => o.p i (j.cast e.symm)) fun i => rfl).trans (h2 _)
      rw [this]
      ring
    change isclose (∑ i, Q i j) 1 = true
    rw [this]
    exact isclose_self 1

/-- C144. The expected rewards of one step are mixed like the probabilities. -/
theorem C144_rewards (hc : c.Valid) (ho : o.Valid) (hd : (⟨c.n, Q, l⟩ : MC K).Valid)
    (h : Mixes c.p (sameSize c o e) Q g) {rewards : PyVal K} {r : List K}
    (hr : validateRewards rewards c.n = .ok r) :
    ∃ a b m, expectedRewards c (.int 1) rewards = .ok a ∧ expectedRewards o (.int 1) rewards = .ok b ∧
      expectedRewards ⟨c.n, Q, l⟩ (.int 1) rewards = .ok m ∧
      ∀ i, m i = (1 - g) * a i + g * b (i.cast e.symm) := by
  have hr' : validateRewards rewards o.n = .ok r := by rw [e]; exact hr
  obtain ⟨-, a, a1, a2⟩ := C46_expected_rewards hc (steps := .int 1) (s := 1) rfl hr
  obtain ⟨-, b, b1, b2⟩ := C46_expected_rewards ho (steps := .int 1) (s := 1) rfl hr'
  obtain ⟨-, m, m1, m2⟩ := C46_expected_rewards hd (steps := .int 1) (s := 1) rfl hr
  refine ⟨a, b, m, a1, b1, m1, fun i => ?_⟩
  rw [a2, b2, m2]
  change ∑ j, Q i j * (listVec r c.n i + (listVec r c.n j + 0)) =
    (1 - g) * ∑ j, c.p i j * (listVec r c.n i + (listVec r c.n j + 0)) +
      g * ∑ j, o.p (i.cast e.symm) j * (listVec r o.n (i.cast e.symm) + (listVec r o.n j + 0))
  rw [h.sum]
  congr 2
  exact Fintype.sum_equiv (finCongr e.symm) _ _ fun j => rfl

/-- The hypotheses are met. -/
example : ∃ d : MC ℚ, exLoop.Valid ∧ exSwap.Valid ∧ mergeWith exLoop exSwap (.float (.fin (1 / 4))) = .ok d := by
  refine ⟨_, by decide +kernel, by decide +kernel, ((C14_accepts exLoop exSwap).1 (1 / 4) rfl (by norm_num)
    (by norm_num)).choose_spec⟩

end Verif
