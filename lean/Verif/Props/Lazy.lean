import Verif.Props.Absorption
import Verif.Props.Hitting
import Verif.Props.Lumped
import Verif.Props.Monotone
import Verif.Props.Passage
import Verif.Props.Relabel
import Verif.Props.Spectral
import Verif.Props.Transform

/-!
# Measures of lazy chains (C138)
-/

set_option linter.unusedSectionVars false

namespace Verif

open Finset

variable {K : Type} [Field K] [LinearOrder K] [IsStrictOrderedRing K]

/-! ## Chains that stay longer in their states -/

/-- `Q` moves like `P`, but stays in state `i` with the additional probability `w i`, which is below one. -/
structure Slowed {n : ℕ} (P Q : Matrix (Fin n) (Fin n) K) (w : Fin n → K) : Prop where
  nonneg : ∀ i, 0 ≤ w i
  below : ∀ i, w i < 1
  entry : ∀ i j, Q i j = (1 - w i) * P i j + if i = j then w i else 0

namespace Slowed

variable {n : ℕ} {P Q : Matrix (Fin n) (Fin n) K} {w : Fin n → K}

theorem sum (h : Slowed P Q w) (g : Fin n → K) (i : Fin n) :
    ∑ j, Q i j * g j = (1 - w i) * ∑ j, P i j * g j + w i * g i := by
  have e : ∀ j, Q i j * g j = (1 - w i) * (P i j * g j) + if i = j then w i * g i else 0 := by
    intro j
    rw [h.entry]
    by_cases hij : i = j
    · subst hij
      rw [if_pos rfl, if_pos rfl]
      ring
    · rw [if_neg hij, if_neg hij]
      ring
  rw [sum_congr rfl fun j _ => e j, sum_add_distrib, ← mul_sum]
  simp

theorem pos (h : Slowed P Q w) (i : Fin n) : 0 < 1 - w i := sub_pos.2 (h.below i)

/-- A value is the mean after one step of one chain iff it is for the other. -/
theorem mean_iff (h : Slowed P Q w) (g : Fin n → K) (i : Fin n) :
    g i = ∑ j, Q i j * g j ↔ g i = ∑ j, P i j * g j := by
  rw [h.sum]
  constructor
  · intro e
    refine mul_left_cancel₀ (h.pos i).ne' ?_
    linear_combination e
  · intro e
    linear_combination (1 - w i) * e

theorem edge (h : Slowed P Q w) (hP : ∀ i j, 0 ≤ P i j) (i j : Fin n) :
    Edge (fun i j => Q i j) i j ↔ Edge (fun i j => P i j) i j ∨ i = j ∧ 0 < w i := by
  change 0 < Q i j ↔ 0 < P i j ∨ _
  rw [h.entry]
  by_cases hij : i = j
  · subst hij
    rw [if_pos rfl]
    have h1 := mul_nonneg (h.pos i).le (hP i i)
    constructor
    · intro h2
      rcases (h.nonneg i).lt_or_eq with h3 | h3
      · exact Or.inr ⟨rfl, h3⟩
      · rw [← h3, add_zero, sub_zero, one_mul] at h2
        exact Or.inl h2
    · rintro (h2 | ⟨-, h2⟩)
      · exact add_pos_of_pos_of_nonneg (mul_pos (h.pos i) h2) (h.nonneg i)
      · exact add_pos_of_nonneg_of_pos h1 h2
  · rw [if_neg hij, add_zero, mul_pos_iff_of_pos_left (h.pos i)]
    exact ⟨Or.inl, fun h2 => h2.resolve_right fun h3 => hij h3.1⟩

theorem reach (h : Slowed P Q w) (hP : ∀ i j, 0 ≤ P i j) (i j : Fin n) :
    Reach (fun i j => Q i j) i j ↔ Reach (fun i j => P i j) i j := by
  constructor
  · intro hr
    induction hr with
    | refl => exact Reach.refl _
    | tail _ e ih =>
      rcases (h.edge hP _ _).1 e with e | ⟨rfl, -⟩
      · exact ih.trans (Reach.single e)
      · exact ih
  · intro hr
    induction hr with
    | refl => exact Reach.refl _
    | tail _ e ih => exact ih.trans (Reach.single ((h.edge hP _ _).2 (Or.inl e)))

theorem irreducible (h : Slowed P Q w) (hP : ∀ i j, 0 ≤ P i j) :
    Irreducible (fun i j => Q i j) ↔ Irreducible (fun i j => P i j) :=
  forall_congr' fun i => forall_congr' fun j => h.reach hP i j

theorem recurrent (h : Slowed P Q w) (hP : ∀ i j, 0 ≤ P i j) (i : Fin n) :
    RecurrentState (fun i j => Q i j) i ↔ RecurrentState (fun i j => P i j) i :=
  forall_congr' fun j => imp_congr (h.reach hP i j) (h.reach hP j i)

theorem communicate (h : Slowed P Q w) (hP : ∀ i j, 0 ≤ P i j) (i j : Fin n) :
    Communicate (fun i j => Q i j) i j ↔ Communicate (fun i j => P i j) i j :=
  and_congr (h.reach hP i j) (h.reach hP j i)

/-- An irreducible chain that stays in some state with an additional probability is ergodic. -/
theorem ergodic (h : Slowed P Q w) (hP : ∀ i j, 0 ≤ P i j) (hirr : Irreducible fun i j => P i j)
    {i : Fin n} (hi : 0 < w i) : Ergodic fun i j => Q i j := by
  have hQ := (h.irreducible hP).2 hirr
  have hi1 : ReachIn (fun i j => Q i j) 1 i i := ReachIn.single ((h.edge hP i i).2 (Or.inr ⟨rfl, hi⟩))
  refine ⟨hQ, fun j => ⟨fun k _ => one_dvd k, fun e he => ?_⟩⟩
  obtain ⟨a, ha⟩ := reach_iff_reachIn.1 (hQ j i)
  obtain ⟨b, hb⟩ := reach_iff_reachIn.1 (hQ i j)
  have h1 := he _ (ha.trans hb)
  have h2 := he _ ((ha.trans hi1).trans hb)
  have h3 : a + 1 + b = a + b + 1 := by ring
  rw [h3] at h2
  exact (Nat.dvd_add_right h1).1 h2

/-- A stationary distribution of the lazy chain: states are held `1 / (1 - w i)` times as long. -/
theorem invariant (h : Slowed P Q w) (x : Fin n → K) :
    IsInvariant (fun i j => Q i j) (fun i => x i / (1 - w i)) ↔ IsInvariant (fun i j => P i j) x := by
  unfold IsInvariant
  refine forall_congr' fun j => ?_
  have e : ∀ i, x i / (1 - w i) * Q i j = x i * P i j + if i = j then x j / (1 - w j) * w j else 0 := by
    intro i
    rw [h.entry]
    have := (h.pos i).ne'
    by_cases hij : i = j
    · subst hij
      rw [if_pos rfl, if_pos rfl]
      field_simp
    · rw [if_neg hij, if_neg hij]
      field_simp
      ring
  rw [sum_congr rfl fun i _ => e i, sum_add_distrib]
  simp only [sum_ite_eq', mem_univ, if_true]
  have hj := (h.pos j).ne'
  have e2 : x j / (1 - w j) = x j + x j / (1 - w j) * w j := by
    field_simp
    ring
  constructor
  · intro h1
    linear_combination h1 + e2
  · intro h1
    linear_combination h1 - e2

theorem stationary {w : K} (h : Slowed P Q fun _ => w) (x : Fin n → K) :
    IsStationary (fun i j => Q i j) x ↔ IsStationary (fun i j => P i j) x := by
  unfold IsStationary
  refine and_congr_right fun hx => ?_
  rcases n.eq_zero_or_pos with rfl | hn
  · exact ⟨fun _ j => j.elim0, fun _ j => j.elim0⟩
  have hw := (h.pos ⟨0, hn⟩).ne'
  have h1 := h.invariant fun i => x i * (1 - w)
  have e1 : (fun i => x i * (1 - w) / (1 - (fun _ : Fin n => w) i)) = x := by
    funext i
    exact mul_div_cancel_right₀ _ hw
  rw [e1] at h1
  rw [h1]
  unfold IsInvariant
  refine forall_congr' fun j => ?_
  have e2 : ∑ i, x i * (1 - w) * P i j = (∑ i, x i * P i j) * (1 - w) := by
    rw [sum_mul]
    exact sum_congr rfl fun i _ => by ring
  rw [e2]
  exact mul_left_inj' hw

theorem balance {w : K} (h : Slowed P Q fun _ => w) (x : Fin n → K) :
    DetailedBalance (fun i j => Q i j) x ↔ DetailedBalance (fun i j => P i j) x := by
  unfold DetailedBalance
  refine forall_congr' fun i => forall_congr' fun j => ?_
  have hw := (h.pos i).ne'
  change x i * Q i j = x j * Q j i ↔ x i * P i j = x j * P j i
  rw [h.entry, h.entry]
  by_cases hij : i = j
  · subst hij
    exact ⟨fun _ => rfl, fun _ => rfl⟩
  · rw [if_neg hij, if_neg (Ne.symm hij)]
    constructor
    · intro e
      refine mul_left_cancel₀ hw ?_
      linear_combination e
    · intro e
      linear_combination (1 - w) * e

theorem hittingSolution (h : Slowed P Q w) (S : Fin n → Prop) (g : Fin n → K) :
    IsHittingSolution (fun i j => Q i j) S g ↔ IsHittingSolution (fun i j => P i j) S g :=
  and_congr_right fun _ => forall_congr' fun i => forall_congr' fun _ => h.mean_iff g i

theorem hittingProbability (h : Slowed P Q w) (S : Fin n → Prop) (g : Fin n → K) :
    IsHittingProbability (fun i j => Q i j) S g ↔ IsHittingProbability (fun i j => P i j) S g := by
  unfold IsHittingProbability
  simp only [h.hittingSolution S]

theorem committor (h : Slowed P Q w) (A B : Fin n → Prop) (q : Fin n → K) :
    IsCommittor (fun i j => Q i j) A B q ↔ IsCommittor (fun i j => P i j) A B q :=
  and_congr_right fun _ => and_congr_right fun _ => and_congr_right fun _ =>
    forall_congr' fun i => forall_congr' fun _ => forall_congr' fun _ => h.mean_iff q i

theorem passage {w : K} (h : Slowed P Q fun _ => w) {S : Fin n → Prop} {t : Fin n → K}
    (ht : IsPassageTime (fun i j => P i j) S t) :
    IsPassageTime (fun i j => Q i j) S fun i => t i / (1 - w) := by
  refine ⟨fun i hi => ?_, fun i hi => ?_⟩
  · change t i / (1 - w) = 0
    rw [ht.1 i hi, zero_div]
  · have hw : 1 - w ≠ 0 := (h.pos i).ne'
    have h1 := h.sum (fun i => t i / (1 - w)) i
    have h2 : ∑ j, P i j * (t j / (1 - w)) = (t i - 1) / (1 - w) := by
      rw [eq_div_iff hw, sum_mul]
      rw [show t i - 1 = ∑ j, P i j * t j from by linear_combination ht.2 i hi]
      refine sum_congr rfl fun j _ => ?_
      field_simp
    rw [h2] at h1
    refine Eq.trans ?_ (congrArg (1 + ·) h1).symm
    field_simp
    ring

theorem hittingTime {w : K} (h : Slowed P Q fun _ => w) {S : Fin n → Prop} {r : Fin n → Option K}
    (hr : IsHittingTime (fun i j => P i j) S r) :
    IsHittingTime (fun i j => Q i j) S fun i => (r i).map (· / (1 - w)) := by
  refine ⟨fun g hg i => ?_, fun i hi => ?_, fun i hi t ht => ?_⟩
  · rw [← hr.1 g ((h.hittingProbability S g).1 hg) i]
    exact Option.map_eq_none_iff
  · change (r i).map _ = _
    rw [hr.2.1 i hi]
    simp
  · have hw : 1 - w ≠ 0 := (h.pos i).ne'
    obtain ⟨s, hs, rfl⟩ := Option.map_eq_some_iff.1 ht
    obtain ⟨h1, h2⟩ := hr.2.2 i hi s hs
    refine ⟨fun j hj => ?_, ?_⟩
    · have hne : r j ≠ none := by
        by_cases hij : i = j
        · subst hij
          rw [hs]
          exact fun hh => nomatch hh
        · have hj' : 0 < Q i j := hj
          rw [h.entry, if_neg hij, add_zero, mul_pos_iff_of_pos_left (h.pos i)] at hj'
          exact h1 j hj'
      intro hh
      exact hne (Option.map_eq_none_iff.1 hh)
    · have h3 := h.sum (fun j => ((r j).map (· / (1 - w))).getD 0) i
      have h4 : ∀ j, ((r j).map (· / (1 - w))).getD 0 = (r j).getD 0 / (1 - w) := by
        intro j
        cases r j <;> simp
      have h5 : ∑ j, P i j * ((r j).map (· / (1 - w))).getD 0 = (s - 1) / (1 - w) := by
        rw [eq_div_iff hw, sum_mul]
        rw [show s - 1 = ∑ j, P i j * (r j).getD 0 from by linear_combination h2]
        refine sum_congr rfl fun j _ => ?_
        rw [h4]
        field_simp
      rw [h5] at h3
      refine Eq.trans ?_ (congrArg (1 + ·) h3).symm
      rw [h4, hs, Option.getD_some]
      field_simp
      ring

end Slowed

/-! ## The methods of lazy chains -/

/-- C138. `to_lazy_chain` returns a valid chain with the labels of the given one that moves like it, but
stays longer in its states. -/
theorem C138_lazy {c d : MC K} (hc : c.Valid) {weights : PyVal K} (h : toLazy c weights = .ok d) :
    ∃ (Q : Matrix (Fin c.n) (Fin c.n) K) (w : Fin c.n → K), d = ⟨c.n, Q, c.states⟩ ∧ d.Valid ∧
      (∀ x, weights = .float (.fin x) → w = fun _ => x) ∧ (∀ v, weights = floatVec v → w = v) ∧
      ((∀ i, w i < 1) → Slowed c.p Q w) := by
  obtain ⟨Q, w, h1, h2, h3, h4, h5, h6, h7⟩ := C13_lazy hc h
  refine ⟨Q, w, h1, h2, h6, h7, fun hw => ⟨fun i => (h3 i).1, hw, fun i j => ?_⟩⟩
  by_cases hij : i = j
  · subst hij
    rw [if_pos rfl, h5]
  · rw [if_neg hij, add_zero, h4 i j hij]

variable {c : MC K} {Q : Matrix (Fin c.n) (Fin c.n) K}

/-- C138. Lazy chains have the same classes; they are irreducible iff the given chain is, and ergodic if
it is irreducible and some weight is positive. -/
theorem C138_flags (hc : c.Valid) (hd : (⟨c.n, Q, c.states⟩ : MC K).Valid) {w : Fin c.n → K}
    (h : Slowed c.p Q w) {nx : Nx c.n} (hx : nx.Sound c.p) {nx' : Nx c.n} (hx' : nx'.Sound Q) :
    (isIrreducible ⟨c.n, Q, c.states⟩ nx'.sccs = true ↔ isIrreducible c nx.sccs = true) ∧
    ((∃ i, 0 < w i) → (isErgodic ⟨c.n, Q, c.states⟩ nx' = true ↔ isIrreducible c nx.sccs = true)) ∧
    (isErgodic c nx = true → isErgodic ⟨c.n, Q, c.states⟩ nx' = true) ∧
    recurrentStates ⟨c.n, Q, c.states⟩ nx'.sccs = recurrentStates c nx.sccs ∧
    transientStates ⟨c.n, Q, c.states⟩ nx'.sccs = transientStates c nx.sccs := by
  have hP : ∀ i j, 0 ≤ c.p i j := hc.2.1.1
  have hirr : isIrreducible ⟨c.n, Q, c.states⟩ nx'.sccs = true ↔ isIrreducible c nx.sccs = true :=
    (C30_irreducible hd hx'.sccs).trans ((h.irreducible hP).trans (C30_irreducible hc hx.sccs).symm)
  have herg : (∃ i, 0 < w i) → (isErgodic ⟨c.n, Q, c.states⟩ nx' = true ↔ isIrreducible c nx.sccs = true) := by
    rintro ⟨i, hi⟩
    refine (isErgodic_iff hd hx').trans ⟨fun he => ?_, fun he => ?_⟩
    · exact (C30_irreducible hc hx.sccs).2 ((h.irreducible hP).1 he.1)
    · exact h.ergodic hP ((C30_irreducible hc hx.sccs).1 he) hi
  refine ⟨hirr, herg, fun he => ?_, ?_, ?_⟩
  · by_cases hw : ∃ i, 0 < w i
    · exact (herg hw).2 ((C30_irreducible hc hx.sccs).2 ((isErgodic_iff hc hx).1 he).1)
    · have hQ : Q = c.p := by
        ext i j
        have : w i = 0 := le_antisymm (not_lt.1 fun hi => hw ⟨i, hi⟩) (h.nonneg i)
        rw [h.entry, this]
        simp
      exact (isErgodic_iff hd hx').2 (hQ ▸ (isErgodic_iff hc hx).1 he)
  · have h1 : recurrentStatesIdx Q nx'.sccs = recurrentStatesIdx c.p nx.sccs := by
      refine List.Perm.eq_of_pairwise (le := (· < ·)) (fun a b _ _ hab hba => absurd hba (lt_asymm hab))
        (recurrentStatesIdx_strict hx'.sccs) (recurrentStatesIdx_strict hx.sccs) ?_
      refine (List.perm_ext_iff_of_nodup ?_ ?_).2 fun i => ?_
      · exact (recurrentStatesIdx_strict hx'.sccs).imp fun hab => ne_of_lt hab
      · exact (recurrentStatesIdx_strict hx.sccs).imp fun hab => ne_of_lt hab
      · rw [mem_recurrentStatesIdx hx'.sccs, mem_recurrentStatesIdx hx.sccs]
        exact h.recurrent hP i
    exact congrArg (List.map c.label) h1
  · have h1 : transientStatesIdx Q nx'.sccs = transientStatesIdx c.p nx.sccs := by
      refine List.Perm.eq_of_pairwise (le := (· < ·)) (fun a b _ _ hab hba => absurd hba (lt_asymm hab))
        (transientStatesIdx_strict hx'.sccs) (transientStatesIdx_strict hx.sccs) ?_
      refine (List.perm_ext_iff_of_nodup ?_ ?_).2 fun i => ?_
      · exact (transientStatesIdx_strict hx'.sccs).imp fun hab => ne_of_lt hab
      · exact (transientStatesIdx_strict hx.sccs).imp fun hab => ne_of_lt hab
      · rw [mem_transientStatesIdx hx'.sccs, mem_transientStatesIdx hx.sccs]
        exact not_congr (h.recurrent hP i)
    exact congrArg (List.map c.label) h1

/-- C138. With one weight for all states, `pi` lists the same distributions for the lazy chain, possibly in
another order. -/
theorem C138_pi (hc : c.Valid) (hd : (⟨c.n, Q, c.states⟩ : MC K).Valid) {w : K}
    (h : Slowed c.p Q fun _ => w) {sccs sccs' : List (List (Fin c.n))}
    (hs : IsClasses c.p sccs) (hs' : IsClasses Q sccs') :
    ∃ l l', pi c sccs = .ok l ∧ pi ⟨c.n, Q, c.states⟩ sccs' = .ok l' ∧ l.Perm l' := by
  have hP : ∀ i j, 0 ≤ c.p i j := hc.2.1.1
  obtain ⟨l, hl⟩ := pi_ok hc hs
  obtain ⟨l', hl'⟩ := pi_ok hd hs'
  obtain ⟨n1, m1⟩ := mem_pi hc hs hl
  obtain ⟨n2, m2⟩ := mem_pi hd hs' hl'
  refine ⟨l, l', hl, hl', (List.perm_ext_iff_of_nodup n1 n2).2 fun x => ?_⟩
  rw [m1, m2]
  refine and_congr (h.stationary x).symm (exists_congr fun i => ?_)
  exact and_congr (h.recurrent hP i).symm (forall_congr' fun j => iff_congr Iff.rfl (h.communicate hP i j).symm)

/-- C138. With any weights below one, every state of an irreducible chain has the share of its share for the
given chain, divided by the probability to be moved. -/
theorem C138_shares (hc : c.Valid) (hd : (⟨c.n, Q, c.states⟩ : MC K).Valid) {w : Fin c.n → K}
    (h : Slowed c.p Q w) {sccs sccs' : List (List (Fin c.n))}
    (hs : IsClasses c.p sccs) (hs' : IsClasses Q sccs') (hirr : Irreducible c.p) :
    ∃ x, pi c sccs = .ok [x] ∧ pi ⟨c.n, Q, c.states⟩ sccs' = .ok [fun i =>
      x i / (1 - w i) / ∑ j, x j / (1 - w j)] := by
  have hP : ∀ i j, 0 ≤ c.p i j := hc.2.1.1
  have h0 : 0 < c.n := by have := hc.1; omega
  obtain ⟨x, h1, h2, h3, -⟩ := C34_stationary hc hs hirr
  obtain ⟨y, h1', -, -, h4'⟩ := C34_stationary hd hs' ((h.irreducible hP).2 hirr)
  refine ⟨x, h1, h1'.trans ?_⟩
  have hpos : 0 < ∑ j, x j / (1 - w j) :=
    sum_pos (fun j _ => div_pos (h3 j) (h.pos j)) ⟨⟨0, h0⟩, mem_univ _⟩
  have hst : IsStationary (fun i j => Q i j) fun i => x i / (1 - w i) / ∑ j, x j / (1 - w j) := by
    refine ⟨⟨fun i => ?_, ?_⟩, fun j => ?_⟩
    · exact div_nonneg (div_nonneg (h3 i).le (h.pos i).le) hpos.le
    · rw [← sum_div, div_self hpos.ne']
    · have h5 := (h.invariant x).2 h2.2 j
      have h5' : ∑ i, x i / (1 - w i) * Q i j = x j / (1 - w j) := h5
      change ∑ i, x i / (1 - w i) / (∑ j, x j / (1 - w j)) * Q i j =
        x j / (1 - w j) / ∑ j, x j / (1 - w j)
      rw [← h5', sum_div]
      exact sum_congr rfl fun i _ => by ring
  rw [← h4' _ hst]

/-- C138. With one weight for all states, the lazy chain is in detailed balance iff the given chain is; a
chain in detailed balance is found to be reversible. -/
theorem C138_reversible (hc : c.Valid) (hd : (⟨c.n, Q, c.states⟩ : MC K).Valid) {w : K}
    (h : Slowed c.p Q fun _ => w) {sccs sccs' : List (List (Fin c.n))}
    (hs : IsClasses c.p sccs) (hs' : IsClasses Q sccs') (hirr : Irreducible c.p) {x : Fin c.n → K}
    (hx : IsStationary c.p x) :
    (DetailedBalance (fun i j => Q i j) x ↔ DetailedBalance c.p x) ∧
    (DetailedBalance c.p x → isReversible c sccs = .ok true ∧
      isReversible ⟨c.n, Q, c.states⟩ sccs' = .ok true) := by
  have hP : ∀ i j, 0 ≤ c.p i j := hc.2.1.1
  refine ⟨h.balance x, fun hb => ?_⟩
  obtain ⟨y, -, -, -, hu⟩ := C34_stationary hc hs hirr
  obtain ⟨y', -, -, -, hu'⟩ := C34_stationary hd hs' ((h.irreducible hP).2 hirr)
  obtain ⟨b, h1, -, h2⟩ := (C37_reversible_partial hc hs).1 x hx fun z hz => (hu z hz).trans (hu x hx).symm
  have hx' : IsStationary Q x := (h.stationary x).2 hx
  obtain ⟨b', h1', -, h2'⟩ := (C37_reversible_partial hd hs').1 x hx'
    fun z hz => (hu' z hz).trans (hu' x hx').symm
  rw [h1, h1', h2 hb, h2' ((h.balance x).2 hb)]
  exact ⟨rfl, rfl⟩

/-- C138. With any weights below one, the lazy chain has the same hitting probabilities; with one weight
for all states, the finite hitting times grow by the factor `1 / (1 - w)`. -/
theorem C138_hitting {nnls : Nnls K} (hnn : Nnls.Sound nnls) (hc : c.Valid)
    (hd : (⟨c.n, Q, c.states⟩ : MC K).Valid) {w : Fin c.n → K} (h : Slowed c.p Q w)
    {v : Option (PyVal K)} {S : List (Fin c.n)} (hS : hittingTargets c v = .ok S) :
    (∃ g, hittingProbabilities nnls c v = .ok g ∧
      hittingProbabilities nnls ⟨c.n, Q, c.states⟩ v = .ok g) ∧
    ∀ x, w = (fun _ => x) → ∃ r, hittingTimes nnls c v = .ok r ∧
      hittingTimes nnls ⟨c.n, Q, c.states⟩ v = .ok fun i => (r i).map (· / (1 - x)) := by
  have hS' : hittingTargets (⟨c.n, Q, c.states⟩ : MC K) v = .ok S := hS
  constructor
  · obtain ⟨-, g, h1, h2⟩ := C43_hitting_probabilities hnn hc hS
    obtain ⟨-, g', h1', h2'⟩ := C43_hitting_probabilities hnn hd hS'
    refine ⟨g, h1, h1'.trans ?_⟩
    rw [(h2' g).1 ((h.hittingProbability _ g).2 ((h2 g).2 rfl))]
  · rintro x rfl
    obtain ⟨-, g, h1, h2⟩ := C42_hitting_times hnn hc hS
    obtain ⟨-, g', h1', h2'⟩ := C42_hitting_times hnn hd hS'
    refine ⟨g, h1, h1'.trans ?_⟩
    rw [← (h2' _).1 (h.hittingTime ((h2 g).2 rfl))]

/-- C138. With one weight for all states, the mean first passage times of an ergodic chain to targets, and
between sets of states, grow by the factor `1 / (1 - w)`. -/
theorem C138_passage (hc : c.Valid) (hd : (⟨c.n, Q, c.states⟩ : MC K).Valid) {w : K}
    (h : Slowed c.p Q fun _ => w) {nx : Nx c.n} (hx : nx.Sound c.p) {nx' : Nx c.n} (hx' : nx'.Sound Q)
    (he : Ergodic c.p) :
    (∀ {v : PyVal K} {l : List ℕ}, validateLabelsCurrent v c.states false none = .ok l →
      ∃ t, meanFirstPassageTimesTo c nx v = .ok (some t) ∧
        meanFirstPassageTimesTo ⟨c.n, Q, c.states⟩ nx' v = .ok (some fun i => t i / (1 - w))) ∧
    ∀ {v1 v2 : PyVal K} {a b : List ℕ}, validateLabelsCurrent v1 c.states true none = .ok a →
      validateLabelsCurrent v2 c.states true none = .ok b →
      ∃ t, meanFirstPassageTimesBetween c nx v1 v2 = .ok (some t) ∧
        meanFirstPassageTimesBetween ⟨c.n, Q, c.states⟩ nx' v1 v2 = .ok (some (t / (1 - w))) := by
  have he' : Ergodic Q := (isErgodic_iff hd hx').1 ((C138_flags hc hd h hx hx').2.2.1 ((isErgodic_iff hc hx).2 he))
  constructor
  · intro v l hl
    obtain ⟨t, h1, h2⟩ := C44_targets hc hx he hl
    obtain ⟨t', h1', h2'⟩ := C44_targets hd hx' he' hl
    refine ⟨t, h1, h1'.trans ?_⟩
    rw [← (h2' _).1 (h.passage ((h2 t).2 rfl))]
  · intro v1 v2 a b ha hb
    obtain ⟨x, t, h1, h2, h3, -⟩ := C99_between hc hx he ha hb
    obtain ⟨x', t', h1', h2', h3', -⟩ := C99_between hd hx' he' ha hb
    refine ⟨_, h3, h3'.trans ?_⟩
    rw [← (h2' _).1 (h.passage ((h2 t).2 rfl)), ← (h1' _).1 ((h.stationary x).2 ((h1 x).2 rfl))]
    congr 2
    rw [div_right_comm]
    congr 1
    rw [sum_div]
    refine sum_congr rfl fun i _ => ?_
    split
    · exact (mul_div_assoc _ _ _).symm
    · exact (zero_div _).symm

/-- C138. With any weights below one, the lazy chain of an ergodic chain has the same forward committor
probabilities. -/
theorem C138_committor (hc : c.Valid) (hd : (⟨c.n, Q, c.states⟩ : MC K).Valid) {w : Fin c.n → K}
    (h : Slowed c.p Q w) {nx : Nx c.n} (hx : nx.Sound c.p) {nx' : Nx c.n} (hx' : nx'.Sound Q)
    (he : Ergodic c.p) {v1 v2 : PyVal K} {a b : List ℕ}
    (ha : validateLabelsCurrent v1 c.states true none = .ok a)
    (hb : validateLabelsCurrent v2 c.states true none = .ok b) (hdis : ∀ i ∈ a, i ∉ b) :
    ∃ q, committorProbabilities c nx (.str "forward") v1 v2 = .ok (some q) ∧
      committorProbabilities ⟨c.n, Q, c.states⟩ nx' (.str "forward") v1 v2 = .ok (some q) := by
  have he' : Ergodic Q := (isErgodic_iff hd hx').1 ((C138_flags hc hd h hx hx').2.2.1 ((isErgodic_iff hc hx).2 he))
  obtain ⟨q, s, h1, h2, h3⟩ := C41_forward_partial hc hx he ha hb hdis
  obtain ⟨q', s', h1', h2', h3'⟩ := C41_forward_partial hd hx' he' ha hb hdis
  refine ⟨s, h2, h2'.trans ?_⟩
  have h4 := (h1' _).1 ((h.committor _ _ q).2 ((h1 q).2 rfl))
  have h5 : s' = s := funext fun i => by rw [h3 i, h3' i, h4]
  rw [h5]

/-- Inverses of the blocks of the transient states. -/
theorem slowed_block {n : ℕ} {P Q : Matrix (Fin n) (Fin n) K} {w : Fin n → K} (h : Slowed P Q w)
    {T : List (Fin n)} (hT : T.Nodup) {N N' : Matrix (Fin T.length) (Fin T.length) K}
    (hN : N * (1 - subMatrix P T) = 1) (hN' : (1 - subMatrix Q T) * N' = 1) (i k : Fin T.length) :
    N' i k = N i k / (1 - w (T.get k)) := by
  have hD : 1 - subMatrix Q T = Matrix.diagonal (fun i => 1 - w (T.get i)) * (1 - subMatrix P T) := by
    ext a b
    rw [Matrix.diagonal_mul, Matrix.sub_apply, Matrix.sub_apply]
    unfold subMatrix
    rw [h.entry]
    by_cases hab : a = b
    · subst hab
      rw [if_pos rfl, Matrix.one_apply_eq]
      ring
    · rw [if_neg fun hh => hab (hT.injective_get hh), Matrix.one_apply_ne hab]
      ring
  have hA : (1 - subMatrix P T) * N = 1 := mul_eq_one_comm.1 hN
  have h1 : N * (Matrix.diagonal fun i => (1 - w (T.get i))⁻¹) = N' := by
    have h2 : N * (Matrix.diagonal fun i => (1 - w (T.get i))⁻¹) * (1 - subMatrix Q T) = 1 := by
      rw [hD, Matrix.mul_assoc, ← Matrix.mul_assoc (Matrix.diagonal _), Matrix.diagonal_mul_diagonal]
      have h3 : (fun i : Fin T.length => (1 - w (T.get i))⁻¹ * (1 - w (T.get i))) = fun _ => 1 :=
        funext fun i => inv_mul_cancel₀ (h.pos _).ne'
      rw [h3, Matrix.diagonal_one, Matrix.one_mul, hN]
    calc _ = N * (Matrix.diagonal fun i => (1 - w (T.get i))⁻¹) * ((1 - subMatrix Q T) * N') := by
          rw [hN', Matrix.mul_one]
      _ = N' := by rw [← Matrix.mul_assoc, h2, Matrix.one_mul]
  rw [← h1, Matrix.mul_diagonal, div_eq_mul_inv]

theorem transient_eq (hc : c.Valid) {w : Fin c.n → K} (h : Slowed c.p Q w) {sccs sccs' : List (List (Fin c.n))}
    (hs : IsClasses c.p sccs) (hs' : IsClasses Q sccs') :
    transientStatesIdx Q sccs' = transientStatesIdx c.p sccs := by
  refine List.Perm.eq_of_pairwise (le := (· < ·)) (fun a b _ _ hab hba => absurd hba (lt_asymm hab))
    (transientStatesIdx_strict hs') (transientStatesIdx_strict hs) ?_
  refine (List.perm_ext_iff_of_nodup ?_ ?_).2 fun i => ?_
  · exact (transientStatesIdx_strict hs').imp fun hab => ne_of_lt hab
  · exact (transientStatesIdx_strict hs).imp fun hab => ne_of_lt hab
  · rw [mem_transientStatesIdx hs', mem_transientStatesIdx hs]
    exact not_congr (h.recurrent hc.2.1.1 i)

/-- C138. For an absorbing chain with a transient state, the lazy chain has the transient states in the same
order; its fundamental matrix is that of the given chain, divided by the probabilities to be moved from the
states of the columns. With one weight for all states, the mean absorption times and Kemeny's constant grow
by the factor `1 / (1 - w)`. -/
theorem C138_absorption (hc : c.Valid) (hd : (⟨c.n, Q, c.states⟩ : MC K).Valid) {w : Fin c.n → K}
    (h : Slowed c.p Q w) {sccs sccs' : List (List (Fin c.n))} (hs : IsClasses c.p sccs)
    (hs' : IsClasses Q sccs') (ha : AbsorbingChain c.p) (ht : ∃ i, TransientState c.p i) :
    ∃ (π : Fin (transientStatesIdx Q sccs').length ≃ Fin (transientStatesIdx c.p sccs).length) (N : _) (N' : _),
      (∀ a, (transientStatesIdx c.p sccs).get (π a) = (transientStatesIdx Q sccs').get a) ∧
      fundamentalMatrix c sccs = .ok (some N) ∧ fundamentalMatrix ⟨c.n, Q, c.states⟩ sccs' = .ok (some N') ∧
      (∀ a b, N' a b = N (π a) (π b) / (1 - w ((transientStatesIdx Q sccs').get b))) ∧
      ∀ x, w = (fun _ => x) →
        (∃ t t', meanAbsorptionTimes c sccs = .ok (some t) ∧
          meanAbsorptionTimes ⟨c.n, Q, c.states⟩ sccs' = .ok (some t') ∧ ∀ a, t' a = t (π a) / (1 - x)) ∧
        ∃ k, kemenyConstant c sccs = .ok (some k) ∧
          kemenyConstant ⟨c.n, Q, c.states⟩ sccs' = .ok (some (k / (1 - x))) := by
  have hP : ∀ i j, 0 ≤ c.p i j := hc.2.1.1
  have habs : ∀ i, AbsorbingState Q i ↔ AbsorbingState c.p i := by
    intro i
    have h1 : Q i i = (1 - w i) * c.p i i + w i := by rw [h.entry, if_pos rfl]
    change Q i i = 1 ↔ c.p i i = 1
    rw [h1]
    constructor
    · intro e
      refine mul_left_cancel₀ (h.pos i).ne' ?_
      linear_combination e
    · intro e
      rw [e]
      ring
  have ha' : AbsorbingChain Q := by
    refine ⟨ha.1.imp fun i hi => (habs i).2 hi, fun i => ?_⟩
    obtain ⟨a, h1, h2⟩ := ha.2 i
    exact ⟨a, (habs a).2 h1, (h.reach hP i a).2 h2⟩
  have ht' : ∃ i, TransientState Q i := ht.imp fun i hi => fun hr => hi ((h.recurrent hP i).1 hr)
  obtain ⟨N, h1, h2, h3, -⟩ := fundamentalMatrix_spec hc hs ha ht
  obtain ⟨N', h1', h2', h3', -⟩ := fundamentalMatrix_spec hd hs' ha' ht'
  have hT := transient_eq hc h hs hs'
  have hnd : (transientStatesIdx c.p sccs).Nodup := transient_nodup hs
  have key : ∀ {T T' : List (Fin c.n)} (hT : T' = T) (hnd : T.Nodup) {N : Matrix (Fin T.length) (Fin T.length) K}
      {N' : Matrix (Fin T'.length) (Fin T'.length) K} (_ : N * (1 - subMatrix c.p T) = 1)
      (_ : (1 - subMatrix Q T') * N' = 1), ∀ a b, N' a b =
        N (a.cast (by rw [hT])) (b.cast (by rw [hT])) / (1 - w (T'.get b)) := by
    intro T T' hT hnd N N' e1 e2 a b
    subst hT
    exact slowed_block h hnd e1 e2 a b
  have hfin := key hT hnd h3 h2'
  refine ⟨finCongr (by rw [hT]), N, N', fun a => ?_, h1, h1', hfin, ?_⟩
  · have : ∀ {T T' : List (Fin c.n)} (hT : T' = T) (a : Fin T'.length),
        T.get (a.cast (by rw [hT])) = T'.get a := by
      intro T T' hT a
      subst hT
      rfl
    exact this hT a
  · rintro x rfl
    constructor
    · refine ⟨N.mulVec fun _ => 1, N'.mulVec fun _ => 1, ?_, ?_, fun a => ?_⟩
      · unfold meanAbsorptionTimes
        rw [if_neg (absorbing_guard hs ha ht), h1]
        rfl
      · unfold meanAbsorptionTimes
        rw [if_neg (absorbing_guard hs' ha' ht'), h1']
        rfl
      · simp only [Matrix.mulVec, dotProduct, mul_one]
        rw [← (finCongr (by rw [hT]) : Fin (transientStatesIdx Q sccs').length ≃
          Fin (transientStatesIdx c.p sccs).length).sum_comp, sum_div]
        exact sum_congr rfl fun b _ => hfin a b
    · refine ⟨N.trace, ?_, ?_⟩
      · unfold kemenyConstant
        rw [h1]
        rfl
      · unfold kemenyConstant
        rw [h1']
        have : N'.trace = N.trace / (1 - x) := by
          unfold Matrix.trace
          rw [← (finCongr (by rw [hT]) : Fin (transientStatesIdx Q sccs').length ≃
            Fin (transientStatesIdx c.p sccs).length).sum_comp, sum_div]
          exact sum_congr rfl fun b _ => hfin b b
        rw [← this]
        rfl

/-- C138. With one weight for all states, the eigenvalues of the lazy chain are moved towards one. -/
theorem C138_eigenvalues {c : MC ℝ} {Q : Matrix (Fin c.n) (Fin c.n) ℝ} {w : ℝ} (h : Slowed c.p Q fun _ => w)
    (z : ℂ) : IsEigenvalue c.p z ↔ IsEigenvalue (fun i j => Q i j) ((1 - w) * z + w) := by
  have key : ∀ (v : Fin c.n → ℂ) i, ∑ j, (Q i j : ℂ) * v j = (1 - w) * ∑ j, (c.p i j : ℂ) * v j + w * v i := by
    intro v i
    have e : ∀ j, (Q i j : ℂ) * v j = (1 - w) * ((c.p i j : ℂ) * v j) + if i = j then w * v i else 0 := by
      intro j
      rw [h.entry]
      by_cases hij : i = j
      · subst hij
        simp
        ring
      · simp [hij]
        ring
    rw [sum_congr rfl fun j _ => e j, sum_add_distrib, ← mul_sum]
    simp
  constructor
  · rintro ⟨v, hv, he⟩
    refine ⟨v, hv, fun i => (key v i).trans ?_⟩
    rw [he i]
    ring
  · rintro ⟨v, hv, he⟩
    refine ⟨v, hv, fun i => ?_⟩
    have h1 := (key v i).symm.trans (he i)
    have hw : (1 - w : ℂ) ≠ 0 := by
      have := (h.pos i).ne'
      exact_mod_cast this
    refine mul_left_cancel₀ hw ?_
    linear_combination h1

/-- The hypotheses of the theorems can be met. -/
theorem C138_instance : (∃ d, toLazy exDrunkard (.float (.fin (1 / 2))) = .ok d) ∧ exDrunkard.Valid ∧
    AbsorbingChain (fun i j : Fin 3 => exDrunkard.p i j) ∧ TransientState (fun i j : Fin 3 => exDrunkard.p i j) 1 ∧
    (∃ d, toLazy exLoop (.float (.fin (1 / 2))) = .ok d) ∧ exLoop.Valid ∧
    Irreducible (fun i j : Fin 2 => exLoop.p i j) :=
  ⟨C13_accepts _ (by norm_num) (by norm_num), by decide +kernel, by decide +kernel, by decide +kernel,
    C13_accepts _ (by norm_num) (by norm_num), by decide +kernel, by decide +kernel⟩

end Verif
