import Verif.Props.Absorption
import Verif.Props.AcceptedCalls
import Verif.Props.Hitting
import Verif.Props.Passage
import Verif.Props.Rewards
import Verif.Props.SimulatedPassage
import Verif.Props.Transform
import Verif.Props.Visits

/-!
# The measures of a chain agree with each other (C141)

Several methods describe the same quantity in different ways, and compute it in different ways. Here:
their results agree for every chain.
-/

set_option linter.unusedSectionVars false

namespace Verif

open Finset

variable {K : Type} [Field K] [LinearOrder K] [IsStrictOrderedRing K]

/-! ## Passage times of ergodic chains -/

/-- In an irreducible chain a function that equals its own mean after one step is constant. -/
theorem harmonic_const {n : ℕ} {P : Fin n → Fin n → K} (hP : IsStochastic P) (hi : Irreducible P)
    {f : Fin n → K} (hf : ∀ i, f i = ∑ j, P i j * f j) (i j : Fin n) : f i = f j := by
  have := harmonic_unique hP (B := (· = j)) (b := fun _ => 0) (v := f) (w := fun _ => f j)
    (fun i => ⟨j, rfl, hi i j⟩) (fun i h => by rw [h]) (fun i _ => by rw [zero_add]; exact hf i)
    (fun i _ => by rw [zero_add, ← Finset.sum_mul, hP.2 i, one_mul])
  exact congrFun this i

/-- C141, random target: in an ergodic chain the mean time to reach a target that is drawn from the
stationary distribution does not depend on the starting state. -/
theorem C141_random_target {c : MC K} (hc : c.Valid) {nx : Nx c.n} (hx : nx.Sound c.p)
    (he : Ergodic c.p) :
    ∃ m x, mfptAll c nx = .ok (some m) ∧ (∀ y, IsStationary c.p y ↔ y = x) ∧
      ∀ i k, ∑ j, x j * m i j = ∑ j, x j * m k j := by
  obtain ⟨m, h1, h2, -, h4⟩ := C44_all_states hc hx he
  obtain ⟨x, hx1, hx2, hx3, hx4⟩ := pi0_spec hc hx.sccs he.1
  refine ⟨m, x, h1, fun y => ⟨hx4 y, fun h => h ▸ hx2⟩, ?_⟩
  refine harmonic_const (P := fun i j => c.p i j) hc.2.1 he.1 fun i => ?_
  have key : ∀ j, x j * m i j = x j + ∑ k, c.p i k * (x j * m k j) - if i = j then 1 else 0 := by
    intro j
    have hp := (h4 j (fun i => m i j)).2 rfl
    have hs : ∑ k, c.p i k * (x j * m k j) = x j * ∑ k, c.p i k * m k j := by
      rw [Finset.mul_sum]
      exact Finset.sum_congr rfl fun k _ => by ring
    rw [hs]
    split
    · rename_i hij
      subst hij
      have hk := kac (P := c.p) hx2 hx3 hp
      rw [h2, mul_zero]
      have h5 : x i * (1 + ∑ k, c.p i k * m k i) = 1 := by
        rw [hk, mul_one_div_cancel (hx3 i).ne']
      linear_combination -h5
    · rename_i hij
      have := hp.2 i hij
      rw [sub_zero]
      simp only at this
      linear_combination x j * this
  rw [Finset.sum_congr rfl fun j _ => key j, Finset.sum_sub_distrib, Finset.sum_add_distrib, hx2.1.2,
    Finset.sum_comm]
  simp only [← Finset.mul_sum]
  simp

/-- C141, one target: the mean first passage times to one state are its column in the table of all mean
first passage times. -/
theorem C141_one_target {c : MC K} (hc : c.Valid) {nx : Nx c.n} (hx : nx.Sound c.p)
    (he : Ergodic c.p) {v : PyVal K} {j : Fin c.n}
    (hl : validateLabelsCurrent v c.states false none = .ok [j.val]) :
    ∃ m, mfptAll c nx = .ok (some m) ∧
      meanFirstPassageTimesTo c nx v = .ok (some fun i => m i j) := by
  obtain ⟨m, h1, -, -, h4⟩ := C44_all_states hc hx he
  obtain ⟨t, h5, h6⟩ := C44_targets hc hx he hl
  refine ⟨m, h1, ?_⟩
  rw [h5]
  congr 2
  refine ((h6 _).1 ?_).symm
  have := (h4 j _).2 rfl
  simpa only [List.mem_singleton, Fin.val_inj] using this

/-- C141, recurrence: the mean recurrence time of a state is one step plus the mean first passage time
back from where that step leads, if the state's stationary probability is above the tolerance. -/
theorem C141_recurrence {c : MC K} (hc : c.Valid) {nx : Nx c.n} (hx : nx.Sound c.p)
    (he : Ergodic c.p) :
    ∃ m r x, mfptAll c nx = .ok (some m) ∧ meanRecurrenceTimes c nx = .ok (some r) ∧
      (∀ y, IsStationary c.p y ↔ y = x) ∧
      ∀ i, 1 / 10 ^ 8 < x i → r i = 1 + ∑ k, c.p i k * m k i := by
  obtain ⟨m, h1, -, -, h4⟩ := C44_all_states hc hx he
  obtain ⟨r, x, h5, h6, h7, h8⟩ := C45_recurrence_times_partial hc hx he
  refine ⟨m, r, x, h1, h5, fun y => ⟨h7 y, fun h => h ▸ h6⟩, fun i hi => ?_⟩
  obtain ⟨-, t, ht, hr⟩ := h8 i hi
  rw [hr, (h4 i t).1 ht]

/-- In an irreducible chain every nonempty set is visited with probability one. -/
theorem irreducible_hitting {n : ℕ} {P : Fin n → Fin n → K} (hP : IsStochastic P)
    (hi : Irreducible P) {S : Fin n → Prop} (hS : ∃ i, S i) {h : Fin n → K}
    (hh : IsHittingProbability P S h) : h = fun _ => 1 := by
  obtain ⟨s, hs⟩ := hS
  exact harmonic_unique hP (B := S) (b := fun _ => 0) (fun i => ⟨s, hs, hi i s⟩)
    (fun i hi => hh.1.1 i hi) (fun i hi => by rw [zero_add]; exact hh.1.2 i hi)
    (fun i _ => by simp only [mul_one, zero_add]; exact (hP.2 i).symm)

/-- Passage times are hitting times where the set is visited with probability one. -/
theorem IsPassageTime.hittingTime {n : ℕ} {P : Fin n → Fin n → K} {S : Fin n → Prop}
    {t : Fin n → K} (ht : IsPassageTime P S t)
    (h1 : ∀ h, IsHittingProbability P S h → ∀ i, h i = 1) :
    IsHittingTime P S fun i => some (t i) := by
  refine ⟨fun h hh i => ?_, fun i hi => congrArg some (ht.1 i hi), fun i hi u hu => ?_⟩
  · rw [h1 h hh i]
    simp
  · refine ⟨fun j _ => by simp, ?_⟩
    rw [← Option.some.inj hu]
    exact ht.2 i hi

/-- C141, hitting: in an irreducible chain all hitting probabilities are one, and in an ergodic one the
hitting times are the mean first passage times to the same states. -/
theorem C141_hitting {nnls : Nnls K} (hnn : Nnls.Sound nnls) {c : MC K} (hc : c.Valid)
    {v : PyVal K} {l : List ℕ} (hl : validateLabelsCurrent v c.states false none = .ok l) :
    (Irreducible c.p → hittingProbabilities nnls c (some v) = .ok fun _ => 1) ∧
    ∀ nx : Nx c.n, nx.Sound c.p → Ergodic c.p →
      ∃ t, meanFirstPassageTimesTo c nx v = .ok (some t) ∧
        hittingTimes nnls c (some v) = .ok fun i => some (t i) := by
  have hS : hittingTargets c (some v) = .ok (toStates c.n l) := by
    unfold hittingTargets
    simp only [hl]
    rfl
  have hne := toStates_ne_nil hc hl
  constructor
  · intro hi
    obtain ⟨-, h, h1, h2⟩ := C43_hitting_probabilities hnn hc hS
    rw [h1, irreducible_hitting (P := fun i j => c.p i j) hc.2.1 hi hne ((h2 h).2 rfl)]
  · intro nx hx he
    obtain ⟨t, h1, h2⟩ := C44_targets hc hx he hl
    obtain ⟨-, r, h3, h4⟩ := C42_hitting_times hnn hc hS
    refine ⟨t, h1, ?_⟩
    rw [h3]
    congr 1
    refine ((h4 _).1 ?_).symm
    have ht := (h2 t).2 rfl
    simp only [← mem_toStates] at ht
    refine IsPassageTime.hittingTime (P := fun i j => c.p i j) ht fun h hh i => ?_
    rw [irreducible_hitting (P := fun i j => c.p i j) hc.2.1 he.1 hne hh]

/-! ## Committors -/

/-- The probability of visiting the first set first completes that of visiting the second set first. -/
theorem IsCommittor.compl {n : ℕ} {P : Fin n → Fin n → K} (hP : IsStochastic P)
    {A B : Fin n → Prop} {q : Fin n → K} (hq : IsCommittor P A B q) :
    IsCommittor P B A fun i => 1 - q i := by
  refine ⟨fun i hi => by simp only [hq.2.1 i hi, sub_self],
    fun i hi => by simp only [hq.1 i hi, sub_zero],
    fun i => ⟨sub_nonneg.2 (hq.2.2.1 i).2, sub_le_self _ (hq.2.2.1 i).1⟩, fun i hB hA => ?_⟩
  simp only [mul_sub, mul_one, Finset.sum_sub_distrib, hP.2 i]
  rw [← hq.2.2.2 i hA hB]

/-- C141, exchanged sets: the forward committor probabilities for two sets and for the two sets
exchanged add up to one, up to the tolerance below which values are replaced by zero. -/
theorem C141_committor {c : MC K} (hc : c.Valid) {nx : Nx c.n} (hx : nx.Sound c.p)
    (he : Ergodic c.p) {v1 v2 : PyVal K} {a b : List ℕ}
    (ha : validateLabelsCurrent v1 c.states true none = .ok a)
    (hb : validateLabelsCurrent v2 c.states true none = .ok b) (hd : ∀ i ∈ a, i ∉ b) :
    ∃ r r', committorProbabilities c nx (.str "forward") v1 v2 = .ok (some r) ∧
      committorProbabilities c nx (.str "forward") v2 v1 = .ok (some r') ∧
      (∀ i, 1 - 1 / 10 ^ 8 ≤ r i + r' i ∧ r i + r' i ≤ 1) ∧
      ∀ i, 0 < r i → 0 < r' i → r i + r' i = 1 := by
  obtain ⟨q, r, h1, h2, h3⟩ := C41_forward_partial hc hx he ha hb hd
  obtain ⟨q', r', h4, h5, h6⟩ := C41_forward_partial hc hx he hb ha fun i hi hi' => hd i hi' hi
  have hq := (h1 q).2 rfl
  have hq' : ∀ i, q' i = 1 - q i := fun i =>
    (congrFun ((h4 _).1 (hq.compl (P := fun i j => c.p i j) hc.2.1)) i).symm
  have hε : (0 : K) < 1 / 10 ^ 8 := by positivity
  have hε1 : (1 : K) / 10 ^ 8 < 1 / 2 := by norm_num
  obtain ⟨ε, hεe⟩ : ∃ ε : K, ε = 1 / 10 ^ 8 := ⟨_, rfl⟩
  rw [← hεe] at hε hε1
  simp only [← hεe] at h3 h6
  refine ⟨r, r', h2, h5, fun i => ?_, fun i hi hi' => ?_⟩
  · rw [← hεe, h3, h6, hq']
    have := hq.2.2.1 i
    split <;> split <;> constructor <;> linarith
  · rw [h3] at hi ⊢
    rw [h6] at hi' ⊢
    rw [hq'] at hi' ⊢
    split at hi
    · exact absurd hi (lt_irrefl _)
    · split at hi'
      · exact absurd hi' (lt_irrefl _)
      · rename_i ha hb
        rw [if_neg ha, if_neg hb]
        ring

/-- C141, backwards: for a reversible chain the backward committor probabilities are the forward ones
with the sets exchanged. -/
theorem C141_committor_reversible {c : MC K} (hc : c.Valid) {nx : Nx c.n} (hx : nx.Sound c.p)
    (he : Ergodic c.p) {x : Fin c.n → K} (hst : IsStationary c.p x)
    (hdb : DetailedBalance c.p x) {v1 v2 : PyVal K} {a b : List ℕ}
    (ha : validateLabelsCurrent v1 c.states true none = .ok a)
    (hb : validateLabelsCurrent v2 c.states true none = .ok b) (hd : ∀ i ∈ a, i ∉ b) :
    ∃ r, committorProbabilities c nx (.str "backward") v1 v2 = .ok (some r) ∧
      committorProbabilities c nx (.str "forward") v2 v1 = .ok (some r) := by
  obtain ⟨y, h1, h2, q, r, h3, h4, h5⟩ := C41_backward_partial hc hx he ha hb hd
  obtain ⟨q', r', h6, h7, h8⟩ := C41_forward_partial hc hx he hb ha fun i hi hi' => hd i hi' hi
  obtain ⟨z, -, -, hz3, hz4⟩ := pi0_spec hc hx.sccs he.1
  have hxy : x = y := h2 x hst
  have hpos : ∀ i, 0 < x i := fun i => by rw [hz4 x hst]; exact hz3 i
  subst hxy
  have hrev : reversal (fun i j => c.p i j) x = fun i j => c.p i j := by
    funext i j
    unfold reversal
    rw [← hdb i j, mul_div_assoc, mul_comm, div_mul_cancel₀ _ (hpos i).ne']
  have hqq : q = q' := by
    refine (h6 q).1 ?_
    have := (h3 q).2 rfl
    change IsCommittor (reversal (fun i j => c.p i j) x) _ _ q at this
    rw [hrev] at this
    exact this
  refine ⟨r, h4, ?_⟩
  rw [h7]
  congr 2
  funext i
  rw [h8, h5, hqq]

/-! ## Absorbing chains -/

/-- No other state can be reached from an absorbing state. -/
theorem absorbing_stays {c : MC K} (hc : c.Valid) {i j : Fin c.n} (hi : AbsorbingState c.p i)
    (h : Reach (fun i j => c.p i j) i j) : j = i := by
  refine closedSet_reach (S := fun k => k = i) ?_ rfl h
  rintro x y rfl hxy
  by_contra hne
  have := absorbing_row hc hi y
  rw [if_neg (Ne.symm hne)] at this
  exact absurd this (ne_of_gt hxy)

/-- In an absorbing chain the states that are not transient are the absorbing ones. -/
theorem not_transient_iff {c : MC K} (hc : c.Valid) {sccs : List (List (Fin c.n))}
    (h : IsClasses c.p sccs) (ha : AbsorbingChain c.p) (i : Fin c.n) :
    i ∉ transientStatesIdx c.p sccs ↔ AbsorbingState c.p i := by
  rw [mem_transientStatesIdx h, not_not]
  refine ⟨absorbing_of_recurrent hc ha, fun hi j hj => ?_⟩
  rw [absorbing_stays hc hi hj]
  exact .refl i

/-- The absorption probabilities of an absorbing state are the chances of ever visiting it. -/
theorem absorption_hitting {c : MC K} (hc : c.Valid) {sccs : List (List (Fin c.n))}
    (h : IsClasses c.p sccs) (ha : AbsorbingChain c.p) (ht : ∃ i, TransientState c.p i)
    (htol : ∀ i, isclose (c.p i i) 1 = true → c.p i i = 1) :
    ∃ B, absorptionProbabilities c sccs = .ok (some B) ∧
      ∀ a g, IsHittingProbability (fun i j => c.p i j) (· = (absorbingIdx c.p).get a) g →
        ∀ i, B a i = g ((transientStatesIdx c.p sccs).get i) := by
  obtain ⟨N, h1, h2, h3, h4⟩ := fundamentalMatrix_spec hc h ha ht
  refine ⟨fun a i => ∑ k, N i k *
      c.p ((transientStatesIdx c.p sccs).get k) ((absorbingIdx c.p).get a), ?_, ?_⟩
  · unfold absorptionProbabilities
    rw [if_neg (absorbing_guard h ha ht), h1]
    rfl
  intro a g hg i
  obtain ⟨b, hb⟩ : ∃ b, b = (absorbingIdx c.p).get a := ⟨_, rfl⟩
  have hbA : AbsorbingState c.p b := by
    have : b ∈ absorbingIdx c.p := hb ▸ List.get_mem _ a
    exact htol b (mem_absorbingIdx.1 this)
  rw [← hb] at hg
  have hout : ∀ k, k ∉ transientStatesIdx c.p sccs → g k = if k = b then 1 else 0 := by
    intro k hk
    have hkA := (not_transient_iff hc h ha k).1 hk
    split
    · rename_i hkb; exact hg.1.1 k hkb
    · rename_i hkb
      obtain ⟨g', hg', hg0⟩ := exists_hittingProbability (P := c.p) hc.2.1 (fun i => i = b)
      rw [hittingProbability_unique (P := c.p) hg hg']
      refine hg0 k ?_
      rintro ⟨s, rfl, hr⟩
      exact hkb (absorbing_stays hc hkA hr).symm
  have key : ∀ k, c.p ((transientStatesIdx c.p sccs).get k) b =
      ((1 - subMatrix c.p (transientStatesIdx c.p sccs)).mulVec
        fun l => g ((transientStatesIdx c.p sccs).get l)) k := by
    intro k
    rw [Matrix.sub_mulVec, Matrix.one_mulVec, Pi.sub_apply, eq_sub_iff_add_eq]
    have hkb : (transientStatesIdx c.p sccs).get k ≠ b := by
      intro hk
      exact (not_transient_iff hc h ha b).2 hbA (hk ▸ List.get_mem _ k)
    refine Eq.trans ?_ (hg.1.2 _ hkb).symm
    rw [← Finset.sum_filter_add_sum_filter_not univ (· ∈ transientStatesIdx c.p sccs), add_comm]
    refine congrArg₂ (· + ·) ?_ ?_
    · exact sum_get (transient_nodup h)
        fun j => c.p ((transientStatesIdx c.p sccs).get k) j * g j
    · rw [Finset.sum_congr rfl fun j hj => by rw [hout j (Finset.mem_filter.1 hj).2]]
      simp only [mul_ite, mul_one, mul_zero]
      rw [Finset.sum_ite_eq', if_pos]
      exact Finset.mem_filter.2 ⟨mem_univ _, (not_transient_iff hc h ha b).2 hbA⟩
  have h8 : (N.mulVec ((1 - subMatrix c.p (transientStatesIdx c.p sccs)).mulVec
      fun l => g ((transientStatesIdx c.p sccs).get l))) i =
      g ((transientStatesIdx c.p sccs).get i) := by
    rw [Matrix.mulVec_mulVec, h3, Matrix.one_mulVec]
  rw [← h8]
  refine Finset.sum_congr rfl fun k _ => ?_
  rw [← key k, hb]

/-- C141, absorption: the absorption probabilities of an absorbing state are its hitting
probabilities, if no transient state is taken for an absorbing one within the tolerance. -/
theorem C141_absorption_partial {nnls : Nnls K} (hnn : Nnls.Sound nnls) {c : MC K} (hc : c.Valid)
    {sccs : List (List (Fin c.n))} (h : IsClasses c.p sccs) (ha : AbsorbingChain c.p)
    (ht : ∃ i, TransientState c.p i) (htol : ∀ i, isclose (c.p i i) 1 = true → c.p i i = 1)
    {v : PyVal K} {a : Fin (absorbingIdx c.p).length}
    (hl : validateLabelsCurrent v c.states false none = .ok [((absorbingIdx c.p).get a).val]) :
    ∃ B g, absorptionProbabilities c sccs = .ok (some B) ∧
      hittingProbabilities nnls c (some v) = .ok g ∧
      ∀ i, B a i = g ((transientStatesIdx c.p sccs).get i) := by
  obtain ⟨B, h1, h2⟩ := absorption_hitting hc h ha ht htol
  have hS : hittingTargets c (some v) =
      .ok (toStates c.n [((absorbingIdx c.p).get a).val]) := by
    unfold hittingTargets
    simp only [hl]
    rfl
  obtain ⟨-, g, hg1, hg2⟩ := C43_hitting_probabilities hnn hc hS
  have hg := (hg2 g).2 rfl
  simp only [mem_toStates, List.mem_singleton, Fin.val_inj] at hg
  exact ⟨B, g, h1, hg1, h2 a g hg⟩

/-- The mean absorption times solve the first-step equations of the time until an absorbing state is
visited. -/
theorem absorption_passage {c : MC K} (hc : c.Valid) {sccs : List (List (Fin c.n))}
    (h : IsClasses c.p sccs) (ha : AbsorbingChain c.p) (ht : ∃ i, TransientState c.p i) :
    ∃ t, meanAbsorptionTimes c sccs = .ok (some t) ∧
      ∀ s, IsPassageTime (fun i j => c.p i j) (fun i => AbsorbingState c.p i) s →
        ∀ i, t i = s ((transientStatesIdx c.p sccs).get i) := by
  obtain ⟨t, h1, -, h2⟩ := C40_mean_absorption_times hc h ha ht
  refine ⟨t, h1, fun s hs i => ?_⟩
  have key := (h2 fun i => s ((transientStatesIdx c.p sccs).get i)).1 ?_
  · exact (congrFun key i).symm
  · intro i
    have hi : ¬ AbsorbingState c.p ((transientStatesIdx c.p sccs).get i) := fun hi =>
      (not_transient_iff hc h ha _).2 hi (List.get_mem _ i)
    refine (hs.2 _ hi).trans ?_
    congr 1
    rw [sum_get (transient_nodup h)
      fun j => c.p ((transientStatesIdx c.p sccs).get i) j * s j,
      ← Finset.sum_filter_add_sum_filter_not univ (· ∈ transientStatesIdx c.p sccs)]
    conv_rhs => rw [← add_zero (∑ x with x ∈ transientStatesIdx c.p sccs, _)]
    congr 1
    refine Finset.sum_eq_zero fun j hj => ?_
    rw [hs.1 j ((not_transient_iff hc h ha j).1 (Finset.mem_filter.1 hj).2)]
    exact mul_zero _

/-- C141, times: the mean absorption times are the hitting times of the set of absorbing states. -/
theorem C141_absorption_times {nnls : Nnls K} (hnn : Nnls.Sound nnls) {c : MC K} (hc : c.Valid)
    {sccs : List (List (Fin c.n))} (h : IsClasses c.p sccs) (ha : AbsorbingChain c.p)
    (ht : ∃ i, TransientState c.p i) {v : PyVal K} {l : List ℕ}
    (hl : validateLabelsCurrent v c.states false none = .ok l)
    (hlA : ∀ i : Fin c.n, i.val ∈ l ↔ AbsorbingState c.p i) :
    ∃ t r, meanAbsorptionTimes c sccs = .ok (some t) ∧ hittingTimes nnls c (some v) = .ok r ∧
      ∀ i, r ((transientStatesIdx c.p sccs).get i) = some (t i) := by
  obtain ⟨t, h1, h2⟩ := absorption_passage hc h ha ht
  have hS : hittingTargets c (some v) = .ok (toStates c.n l) := by
    unfold hittingTargets
    simp only [hl]
    rfl
  obtain ⟨-, r, h3, h4⟩ := C42_hitting_times hnn hc hS
  have hr := (h4 r).2 rfl
  simp only [mem_toStates, hlA] at hr
  obtain ⟨g, hg, -⟩ := exists_hittingProbability (P := c.p) hc.2.1 (fun i => AbsorbingState c.p i)
  have hg1 : g = fun _ => 1 := by
    refine harmonic_unique (P := fun i j => c.p i j) hc.2.1 (B := fun i => AbsorbingState c.p i)
      (b := fun _ => 0) (fun i => ?_) (fun i hi => hg.1.1 i hi)
      (fun i hi => by rw [zero_add]; exact hg.1.2 i hi)
      (fun i _ => by simp only [mul_one, zero_add]; exact (hc.2.1.2 i).symm)
    obtain ⟨b, hb, hr⟩ := ha.2 i
    exact ⟨b, hb, hr⟩
  have hsome : ∀ i, r i = some ((r i).getD 0) := by
    intro i
    cases hi : r i with
    | none =>
      have := (hr.1 g hg i).1 hi
      rw [hg1] at this
      exact absurd this (lt_irrefl _)
    | some u => rfl
  refine ⟨t, r, h1, h3, fun i => ?_⟩
  rw [hsome, h2 (fun i => (r i).getD 0) ⟨fun j hj => ?_, fun j hj => ?_⟩ i]
  · simp only [hr.2.1 j hj, Option.getD_some]
  · exact (hr.2.2 j hj _ (hsome j)).2

/-- C141, visits: in an absorbing chain the mean numbers of visits between transient states are the
entries of the fundamental matrix less the stay at the start, under the conditions of
`C82_mean_number_visits_partial` on the tolerance. -/
theorem C141_visits_partial {c : MC ℝ} (hc : c.Valid) {sccs : List (List (Fin c.n))}
    (h : IsClasses c.p sccs) (ha : AbsorbingChain c.p) (ht : ∃ i, TransientState c.p i)
    {f : Fin c.n → Fin c.n → ℝ}
    (hf : ∀ j, IsReturnProbability (fun i k => c.p i k) j fun i => f i j)
    (h0 : ∀ i j, isclose (f i j) 0 = true → f i j = 0)
    (h1 : ∀ j, isclose (f j j) 1 = true → f j j = 1) :
    ∃ N m, fundamentalMatrix c sccs = .ok (some N) ∧ meanNumberVisits c sccs = .ok m ∧
      ∀ a b, m ((transientStatesIdx c.p sccs).get a) ((transientStatesIdx c.p sccs).get b) =
        .fin (N a b - if a = b then 1 else 0) := by
  obtain ⟨N, h2, -, h3⟩ := C38_fundamental_matrix hc h ha ht
  obtain ⟨m, h4, h5⟩ := C82_mean_number_visits_partial hc h hf h0 h1
  refine ⟨N, m, h2, h4, fun a b => ?_⟩
  have key : HasSum (fun k => (c.p ^ (k + 1)) ((transientStatesIdx c.p sccs).get a)
      ((transientStatesIdx c.p sccs).get b)) (N a b - if a = b then 1 else 0) := by
    have := (hasSum_nat_add_iff' 1).2 (h3 a b)
    rw [Finset.sum_range_one, pow_zero, Matrix.one_apply] at this
    simpa only [(transient_nodup h).get_inj_iff] using this
  rcases h5 ((transientStatesIdx c.p sccs).get a) ((transientStatesIdx c.p sccs).get b) with
    ⟨v, hv, hs⟩ | ⟨-, hns⟩
  · rw [hv, hs.unique key]
  · exact absurd key.summable hns

/-! ## First passage probabilities -/

theorem sum_map_range (f : ℕ → K) (k : ℕ) : ((List.range k).map f).sum = ∑ t ∈ range k, f t := by
  induction k with
  | zero => rfl
  | succ k ih => rw [List.range_succ, List.map_append, List.sum_append, ih, Finset.sum_range_succ]; simp

/-- The chance of a visit after the start is the chance, after one step, of ever visiting. -/
theorem return_of_hitting {n : ℕ} {P : Fin n → Fin n → K} (hP : IsStochastic P) {j : Fin n}
    {h : Fin n → K} (hh : IsHittingProbability P (· = j) h) :
    IsReturnProbability P j fun i => ∑ k, P i k * h k := by
  have hk : ∀ k, h k = if k = j then 1 else ∑ l, P k l * h l := by
    intro k
    split
    · rename_i hk; exact hh.1.1 k hk
    · rename_i hk; exact hh.1.2 k hk
  refine ⟨fun i => Finset.sum_congr rfl fun k _ => by rw [← hk k],
    fun i => Finset.sum_nonneg fun k _ => mul_nonneg (hP.1 i k) (hh.2.1 k), fun g hg hg0 i => ?_⟩
  have hle : ∀ k, h k ≤ if k = j then 1 else g k := by
    refine hh.2.2 (fun k => if k = j then 1 else g k) ⟨fun k hk => by simp only [hk, if_true], ?_⟩ ?_
    · intro k hk
      simp only [if_neg hk]
      exact hg k
    · intro k
      split
      · exact zero_le_one
      · exact hg0 k
  rw [hg i]
  exact Finset.sum_le_sum fun k _ => mul_le_mul_of_nonneg_left (hle k) (hP.1 i k)

theorem passageSum_succ {n : ℕ} (P : Matrix (Fin n) (Fin n) K) (s : ℕ) (i j : Fin n) :
    ∑ t ∈ range (s + 1), passageMatrix P t i j =
      ∑ k, P i k * if k = j then 1 else ∑ t ∈ range s, passageMatrix P t k j := by
  rw [Finset.sum_range_succ']
  simp only [passageMatrix]
  rw [Finset.sum_comm]
  have h1 : P i j = ∑ k, P i k * if k = j then 1 else 0 := by simp
  rw [h1, ← Finset.sum_add_distrib]
  refine Finset.sum_congr rfl fun k _ => ?_
  split
  · simp
  · simp only [mul_one, mul_zero, add_zero]
    rw [Finset.mul_sum]

theorem passageMatrix_nonneg {n : ℕ} {P : Matrix (Fin n) (Fin n) K} (hP : ∀ i j, 0 ≤ P i j) (t : ℕ)
    (i j : Fin n) : 0 ≤ passageMatrix P t i j := by
  induction t generalizing i with
  | zero => exact hP i j
  | succ t ih =>
    exact Finset.sum_nonneg fun k _ => mul_nonneg (hP i k)
      (mul_nonneg (ih k) (by split <;> norm_num))

/-- The first passage probabilities sum to the chance of a visit after the start. -/
theorem passage_hasSum {n : ℕ} {P : Matrix (Fin n) (Fin n) ℝ} (hP : IsStochastic fun i j => P i j)
    {j : Fin n} {f : Fin n → ℝ} (hf : IsReturnProbability (fun i j => P i j) j f) (i : Fin n) :
    HasSum (fun t => passageMatrix P t i j) (f i) := by
  have hnn : ∀ t i, 0 ≤ passageMatrix P t i j := fun t i => passageMatrix_nonneg hP.1 t i j
  have hsm : ∀ i, Summable fun t => passageMatrix P t i j := fun i =>
    summable_of_sum_range_le (hnn · i) fun s => passageMatrix_total hP s i j
  have hL : IsReturnProbability (fun i j => P i j) j fun i => ∑' t, passageMatrix P t i j := by
    refine ⟨fun i => ?_, fun i => tsum_nonneg (hnn · i), fun g hg hg0 i => ?_⟩
    · have h1 := ((hsm i).hasSum.tendsto_sum_nat).comp (Filter.tendsto_add_atTop_nat 1)
      refine tendsto_nhds_unique h1 ?_
      refine Filter.Tendsto.congr (fun s => (passageSum_succ P s i j).symm) ?_
      refine tendsto_finsetSum _ fun k _ => Filter.Tendsto.const_mul _ ?_
      by_cases hk : k = j
      · simp only [hk, if_true]; exact tendsto_const_nhds
      · simp only [hk, if_false]; exact (hsm k).hasSum.tendsto_sum_nat
    · have hle : ∀ s i, ∑ t ∈ range s, passageMatrix P t i j ≤ g i := by
        intro s
        induction s with
        | zero => intro i; simpa using hg0 i
        | succ s ih =>
          intro i
          rw [passageSum_succ, hg i]
          refine Finset.sum_le_sum fun k _ => mul_le_mul_of_nonneg_left ?_ (hP.1 i k)
          split
          · exact le_rfl
          · exact ih k
      exact le_of_tendsto' (hsm i).hasSum.tendsto_sum_nat fun s => hle s i
  rw [hf.unique hL]
  exact (hsm i).hasSum

/-- C141, first passages: the first passage probabilities of a state over more and more steps add up to
the chance that it is ever visited after the start: its hitting probability averaged over the first
step, which is the hitting probability itself for another starting state. -/
theorem C141_first_passage {nnls : Nnls ℝ} (hnn : Nnls.Sound nnls) {c : MC ℝ} (hc : c.Valid)
    {init v : PyVal ℝ} {i j : Fin c.n} (hi : validateLabel init c.states = .ok i.val)
    (hl : validateLabelsCurrent v c.states false none = .ok [j.val]) :
    ∃ (total : ℕ → ℝ) (g : Fin c.n → ℝ), hittingProbabilities nnls c (some v) = .ok g ∧
      (∀ s : ℕ, 1 ≤ s → ∃ z, firstPassageProbabilities c (.int s) init v = .ok z ∧
        z.sum = total s) ∧
      Monotone total ∧ Filter.Tendsto total Filter.atTop (nhds (∑ k, c.p i k * g k)) ∧
      (i ≠ j → ∑ k, c.p i k * g k = g i) := by
  have hS : hittingTargets c (some v) = .ok (toStates c.n [j.val]) := by
    unfold hittingTargets
    simp only [hl]
    rfl
  obtain ⟨-, g, hg1, hg2⟩ := C43_hitting_probabilities hnn hc hS
  have hg := (hg2 g).2 rfl
  simp only [mem_toStates, List.mem_singleton, Fin.val_inj] at hg
  have hsum := passage_hasSum (P := c.p) hc.2.1
    (return_of_hitting (P := fun i j => c.p i j) hc.2.1 hg) i
  have hpos : ∀ t, 0 ≤ passageMatrix c.p t i j := fun t =>
    passageMatrix_nonneg hc.2.1.1 t i j
  refine ⟨fun s => ∑ t ∈ range s, passageMatrix c.p t i j, g, hg1, fun s hs => ?_,
    monotone_nat_of_le_succ fun s => ?_, hsum.tendsto_sum_nat, fun hij => (hg.1.2 i hij).symm⟩
  · have hv : validateInteger (.int s : PyVal ℝ) (some (0, true)) none = .ok (s : ℤ) :=
      (C03_steps_positive _ _).2 ⟨rfl, by omega⟩
    refine ⟨_, firstPassage_run hv hi hl, ?_⟩
    have hj : toStates c.n [j.val] = [j] := by simp [toStates]
    rw [hj]
    simp only [List.map_cons, List.map_nil, List.sum_cons, List.sum_nil, add_zero, Int.toNat_natCast]
    exact sum_map_range _ s
  · rw [Finset.sum_range_succ]
    exact le_add_of_nonneg_right (hpos s)

/-! ## Values over a fixed number of steps -/

theorem mcExpectedRewards_pow {n : ℕ} (P : Matrix (Fin n) (Fin n) K) (r : Fin n → K) (k : ℕ)
    (i : Fin n) : mcExpectedRewards P r k i = ∑ t ∈ range (k + 1), ∑ j, (P ^ t) i j * r j := by
  induction k generalizing i with
  | zero => simp [mcExpectedRewards, Matrix.one_apply]
  | succ k ih =>
    rw [mcExpectedRewards, Finset.sum_range_succ' _ (k + 1)]
    simp only [ih, pow_zero, Matrix.one_apply, ite_mul, one_mul, zero_mul, Finset.sum_ite_eq,
      mem_univ, if_true]
    rw [add_comm]
    congr 1
    simp only [pow_succ', Matrix.mul_apply, Finset.sum_mul, Finset.mul_sum]
    rw [Finset.sum_comm]
    refine Finset.sum_congr rfl fun t _ => ?_
    rw [Finset.sum_comm]
    exact Finset.sum_congr rfl fun a _ => Finset.sum_congr rfl fun b _ => by ring

/-- C141, rewards: the expected reward from a state is the sum over the laws that `redistribute` gives
from that state, each weighted with the rewards. -/
theorem C141_rewards {c : MC K} (hc : c.Valid) {steps rewards : PyVal K} {r : List K}
    {er : Fin c.n → K} {i : Fin c.n} {rows : List (Fin c.n → K)}
    (hr : validateRewards rewards c.n = .ok r) (he : expectedRewards c steps rewards = .ok er)
    (h : redistribute c steps (.int i) (.bool false) = .ok rows) :
    er i = (rows.map fun law => ∑ j, law j * listVec r c.n j).sum := by
  obtain ⟨k, d, law, rfl, hk, hst, -, -, h0, hlaw, -, hrows⟩ := C15_redistribute hc h
  have hv : validateInteger (.int k : PyVal K) (some (0, true)) none = .ok (k : ℤ) :=
    (C03_steps_positive _ _).2 ⟨rfl, by omega⟩
  have hd : ∀ l, d l = if l = i then 1 else 0 := by
    intro l
    rw [(hst.2.1 i rfl).2.2 l]
    simp only [Nat.cast_inj, Fin.val_inj]
  have hsum : ∑ l, d l = 1 := by simp [hd]
  have hlw : ∀ m j, law m j = (c.p ^ m) i j := by
    intro m j
    cases m with
    | zero => rw [h0, hd, pow_zero, Matrix.one_apply]; simp only [eq_comm]
    | succ m =>
      rw [hlaw (m + 1) j (by omega), hsum, div_one]
      simp only [hd, ite_mul, one_mul, zero_mul, Finset.sum_ite_eq', mem_univ, if_true]
      exact (pow_eq_prob _ _ _ _).symm
  have her : er = mcExpectedRewards c.p (listVec r c.n) k := by
    unfold expectedRewards at he
    rw [hv, R.ok_bind, hr, R.ok_bind, R.pure_ok] at he
    exact he.symm
  rw [her, mcExpectedRewards_pow, hrows rfl, List.map_map, sum_map_range]
  simp only [Function.comp, hlw]

/-- C141, transitions: the expected transitions out of a state are its laws added up over the steps, as
`redistribute` gives them, times the probability of the move, under the conditions of
`C47_expected_transitions_partial`. -/
theorem C141_transitions_partial {c : MC K} (hc : c.Valid) {rdl : Rdl K c.n} {k : ℕ}
    {d : Option (PyVal K)} {x : Fin c.n → K} {rows : List (Fin c.n → K)}
    (hd : initialDistribution c.n d = .ok x) (hx : IsDist x)
    (hk : (k ≤ 2 ∧ k ≤ c.n) ∨ (c.n < k ∧ rdl.Sound c.p))
    (h : redistribute c (.int k) (floatVec x) (.bool false) = .ok rows) :
    ∃ et, expectedTransitions c rdl (.int k) d = .ok et ∧
      ∀ i j, et i j = ((rows.take k).map fun law => law i).sum * c.p i j := by
  obtain ⟨k', y, law, hk', hk1, hst, -, -, h0, hlaw, -, hrows⟩ := C15_redistribute hc h
  have hkk : k = k' := by have := PyVal.int.inj hk'; omega
  subst hkk
  have hv : validateInteger (.int k : PyVal K) (some (0, true)) none = .ok (k : ℤ) :=
    (C03_steps_positive _ _).2 ⟨rfl, by omega⟩
  obtain ⟨-, et, h1, h2⟩ := C47_expected_transitions_partial hc hv hd
    (hk.imp (fun h => ⟨by omega, by omega⟩) fun h => ⟨by omega, h.2⟩)
  refine ⟨et, h1, fun i j => ?_⟩
  have hy : y = x := hst.2.2.2 x rfl
  have hlw : ∀ m i, law m i = Matrix.vecMul x (c.p ^ m) i := by
    intro m i
    cases m with
    | zero => rw [h0, hy, pow_zero, Matrix.vecMul_one]
    | succ m =>
      rw [hlaw (m + 1) i (by omega), hy, hx.2, div_one]
      simp only [← pow_eq_prob]
      rfl
  rw [h2, expectedMoves_eq (P := c.p) hc.2.1 x, Int.toNat_natCast, hrows rfl]
  congr 1
  rw [← List.map_take, List.take_range, min_eq_left (by omega), List.map_map, sum_map_range]
  simp only [Function.comp, hlw]

/-! ## Concrete cases -/

/-- In the example chain the mean time to a random target is two thirds from both states. -/
example (b : Bool) : ∃ m, mfptAll exLoop
    (Nx.ofClasses (n := 2) (fun i j => exLoop.p i j) [[0, 1]] b) = .ok (some m) ∧
    ∀ i : Fin 2, ∑ j : Fin 2, (![1 / 3, 2 / 3] : Fin 2 → ℚ) j * m i j = 2 / 3 := by
  have hv : exLoop.Valid := by decide +kernel
  have hcl : IsClasses (fun i j : Fin 2 => exLoop.p i j) [[0, 1]] := by decide +kernel
  have hs := Nx.ofClasses_sound b hcl
  have he := (isErgodic_iff hv hs).1 (by cases b <;> decide +kernel)
  obtain ⟨m, h1, h0, -, h2⟩ := C44_all_states hv hs he
  obtain ⟨m', x, h3, h4, h5⟩ := C141_random_target hv hs he
  have hm : m' = m := by rw [h1] at h3; exact ((Option.some.inj (Except.ok.inj h3))).symm
  subst hm
  have hst : IsStationary (fun i j : Fin 2 => exLoop.p i j) (![1 / 3, 2 / 3] : Fin 2 → ℚ) := by
    decide +kernel
  have hx : (![1 / 3, 2 / 3] : Fin 2 → ℚ) = x := (h4 _).1 hst
  subst hx
  have t1 : IsPassageTime (fun i j : Fin 2 => exLoop.p i j) (· = 1) ![1, 0] := by
    unfold IsPassageTime; decide +kernel
  have h01 : m' (0 : Fin 2) (1 : Fin 2) = 1 := (congrFun ((h2 (1 : Fin 2) _).1 t1) (0 : Fin 2)).symm
  refine ⟨m', h1, fun i => (h5 i (0 : Fin 2)).trans ?_⟩
  refine (Fin.sum_univ_two
    (fun j : Fin 2 => (![1 / 3, 2 / 3] : Fin 2 → ℚ) j * m' (0 : Fin 2) j)).trans ?_
  have h00 : m' (0 : Fin 2) (0 : Fin 2) = 0 := h0 (0 : Fin 2)
  rw [h00, h01]
  simp

/-- The hypotheses on targets and sets are met by the example chain, which is reversible. -/
example : exLoop.Valid ∧
    validateLabelsCurrent (.list [.int 1] : PyVal ℚ) exLoop.states false none = .ok [1] ∧
    validateLabelsCurrent (.int 0 : PyVal ℚ) exLoop.states true none = .ok [0] ∧
    validateLabelsCurrent (.str "b" : PyVal ℚ) exLoop.states true none = .ok [1] ∧
    IsStationary (fun i j : Fin 2 => exLoop.p i j) (![1 / 3, 2 / 3] : Fin 2 → ℚ) ∧
    DetailedBalance (fun i j : Fin 2 => exLoop.p i j) (![1 / 3, 2 / 3] : Fin 2 → ℚ) := by
  refine ⟨by decide +kernel, rfl, rfl, rfl, by decide +kernel, ?_⟩
  unfold DetailedBalance
  decide +kernel

/-- The hypotheses of `C141_absorption_partial` and `C141_absorption_times` are met by the drunkard's
walk. -/
example : exDrunkard.Valid ∧ IsClasses (fun i j : Fin 3 => exDrunkard.p i j) [[0], [1], [2]] ∧
    AbsorbingChain (fun i j : Fin 3 => exDrunkard.p i j) ∧
    TransientState (fun i j : Fin 3 => exDrunkard.p i j) 1 ∧
    (∀ i : Fin 3, isclose (exDrunkard.p i i) 1 = true → exDrunkard.p i i = (1 : ℚ)) ∧
    absorbingIdx (K := ℚ) (n := 3) exDrunkard.p = [0, 2] ∧
    validateLabelsCurrent (.list [.int 2] : PyVal ℚ) exDrunkard.states false none = .ok [2] ∧
    validateLabelsCurrent (.list [.int 0, .int 2] : PyVal ℚ) exDrunkard.states false none =
      .ok [0, 2] ∧
    ∀ i : Fin 3, i.val ∈ [0, 2] ↔ AbsorbingState (fun i j : Fin 3 => exDrunkard.p i j) i :=
  ⟨by decide +kernel, by decide +kernel, by decide +kernel, by decide +kernel, by decide +kernel,
    by decide +kernel, rfl, rfl, by unfold AbsorbingState; decide +kernel⟩

/-- From the first state of the example chain with rewards one and two: the expected reward over two
steps is nine halves, and it is the sum of the laws weighted with the rewards. -/
example : ∃ er rows, expectedRewards exLoop (.int 2) (.list [.float (.fin 1), .float (.fin 2)]) = .ok er ∧
    redistribute exLoop (.int 2) (.int 0) (.bool false) = .ok rows ∧ er (0 : Fin 2) = 9 / 2 ∧
    er (0 : Fin 2) = (rows.map fun law => ∑ j, law j * listVec [1, 2] exLoop.n j).sum := by
  refine ⟨_, _, rfl, rfl, by decide +kernel, ?_⟩
  exact C141_rewards (c := exLoop) (steps := .int 2) (i := (0 : Fin 2))
    (rewards := .list [.float (.fin 1), .float (.fin 2)]) (by decide +kernel) rfl rfl rfl

/-- The hypotheses of `C141_transitions_partial` are met by the example chain with two steps. -/
example : initialDistribution exLoop.n none = .ok (fun _ : Fin 2 => (1 / (2 : ℕ) : ℚ)) ∧
    IsDist (fun _ : Fin 2 => (1 / (2 : ℕ) : ℚ)) ∧
    (redistribute exLoop (.int 2) (floatVec fun _ : Fin 2 => (1 / (2 : ℕ) : ℚ))
      (.bool false)).toOption.isSome = true := by
  refine ⟨rfl, by decide +kernel, by decide +kernel⟩

end Verif
