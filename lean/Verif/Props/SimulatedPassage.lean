import Mathlib.MeasureTheory.Integral.Bochner.Set
import Verif.Lemmas.PassageLimits
import Verif.Props.Absorption
import Verif.Props.Hitting
import Verif.Props.Passage
import Verif.Props.SimulationLaw
import Verif.Props.Visits

/-!
# Passage quantities and simulated runs (C124)
-/

set_option linter.unusedSectionVars false

namespace Verif

open MeasureTheory Finset Filter Topology
open scoped Classical

/-! ## Expectations over simulated runs -/

theorem runFrom_length {ι Ω : Type*} (step : ι → Ω → ι) (u : ℕ → Ω) (k : ℕ) : ∀ (t : ℕ) (i : ι),
    (runFrom step u k t i).length = k := by
  induction k with
  | zero => exact fun _ _ => rfl
  | succ k ih => exact fun t i => congrArg (· + 1) (ih (t + 1) _)

/-- The mean of a functional of the process is its expectation over the paths of the chain. -/
theorem integral_run {ι Ω : Type*} [Fintype ι] [MeasurableSpace Ω] {step : ι → Ω → ι} {ν : Measure Ω}
    [IsProbabilityMeasure ν] {Q : ι → ι → ℝ} (hQ : ∀ i j, 0 ≤ Q i j)
    (hm : ∀ i j, MeasurableSet {ω | step i ω = j})
    (hν : ∀ i j, ν {ω | step i ω = j} = ENNReal.ofReal (Q i j)) (k t : ℕ) (i : ι) (f : List ι → ℝ) :
    ∫ u, f (runFrom step u k t i) ∂Measure.infinitePi (fun _ : ℕ => ν) = expect Q k i f := by
  have hE : ∀ w : Fin k → ι, MeasurableSet {u : ℕ → Ω | runFrom step u k t i = List.ofFn w} := fun w =>
    measurable_runFrom hm k t i fun v => v = List.ofFn w
  have e1 : (fun u : ℕ → Ω => f (runFrom step u k t i)) = fun u => ∑ w : Fin k → ι,
      Set.indicator {u : ℕ → Ω | runFrom step u k t i = List.ofFn w} (fun _ => f (List.ofFn w)) u := by
    funext u
    obtain ⟨w, hw⟩ : ∃ w : Fin k → ι, runFrom step u k t i = List.ofFn w := by
      refine ⟨fun l => (runFrom step u k t i)[l.val]'(by rw [runFrom_length]; exact l.2), ?_⟩
      refine List.ext_getElem (by simp [runFrom_length]) fun m h1 h2 => ?_
      rw [List.getElem_ofFn]
    rw [sum_eq_single w]
    · rw [Set.indicator_of_mem (by exact hw), hw]
    · intro v _ hv
      refine Set.indicator_of_notMem (fun h => hv ?_) _
      have h' : runFrom step u k t i = List.ofFn v := h
      exact (List.ofFn_injective (hw.symm.trans h')).symm
    · exact fun h => absurd (mem_univ w) h
  rw [e1, integral_finsetSum _ fun w _ => (integrable_const _).indicator (hE w), expect_eq_sum_walks]
  refine sum_congr rfl fun w _ => ?_
  rw [integral_indicator_const _ (hE w), smul_eq_mul]
  congr 1
  have h1 := law_of_run hQ hm hν k t i fun v => v = List.ofFn w
  rw [prob_path Q k i _ (List.length_ofFn ..)] at h1
  rw [Measure.real, h1, ENNReal.toReal_ofReal]
  rw [← prob_path Q k i _ (List.length_ofFn ..)]
  exact prob_nonneg' hQ _ _ _

/-- The runs are what `simulate` returns after `s` steps. -/
def IsSimulated (c : MC ℝ) [NeZero c.n] (start : Fin c.n) (initialState finalState : PyVal ℝ)
    (run : ℕ → (ℕ → ℝ) → List (Fin c.n)) : Prop :=
  ∀ s : ℕ, 2 ≤ s → ∀ u b, simulate c (cdfChoice u) start (.int s) initialState finalState (.bool b) =
    .ok (render c.states b (run s u))

/-- The mean over uniform and independent draws. -/
noncomputable def meanDraw (f : (ℕ → ℝ) → ℝ) : ℝ := ∫ u, f u ∂Measure.infinitePi fun _ : ℕ => uniformDraw

theorem mcSimulate_mean {c : MC ℝ} (hc : c.Valid) [NeZero c.n] (s : ℕ) (i : Fin c.n) (o : Option (Fin c.n))
    (f : List (Fin c.n) → ℝ) :
    meanDraw (fun u => f (mcSimulate (cdfChoice u) c.p s i o)) =
      expect c.p s i fun w => f (i :: stopAt (fun a => o = some a) w) := by
  unfold meanDraw
  simp only [mcSimulate, simulateLoop_eq]
  exact integral_run (Q := c.p) hc.2.1.1 (fun i j => measurable_cdfPick (c.p i) j)
    (fun i j => cdfPick_law ⟨hc.2.1.1 i, hc.2.1.2 i⟩ j) s 0 i
    fun w => f (i :: stopAt (fun a => o = some a) w)

/-- Runs without a final state, with the means of their functionals. -/
theorem simulated_runs {c : MC ℝ} (hc : c.Valid) [NeZero c.n] (start : Fin c.n) {initialState : PyVal ℝ}
    {i : Option (Fin c.n)} (hi : OptionalState initialState c.states i) :
    ∃ run, IsSimulated c start initialState .none run ∧
      (∀ s (E : List (Fin c.n) → Prop), Measure.infinitePi (fun _ : ℕ => uniformDraw) {u | E (run s u)} =
        ENNReal.ofReal (prob c.p s (i.getD start) fun w => E (i.getD start :: w))) ∧
      ∀ s (f : List (Fin c.n) → ℝ), meanDraw (fun u => f (run s u)) =
        expect c.p s (i.getD start) fun w => f (i.getD start :: w) := by
  refine ⟨fun s u => mcSimulate (cdfChoice u) c.p s (i.getD start) none, fun s hs u b => ?_,
    fun s E => ?_, fun s f => ?_⟩
  · have := simulate_eq (cdfChoice u) start (steps := .int s) (s := s)
      (validateInteger_of_ge (by exact_mod_cast hs)) hi (f := none) (Or.inl ⟨rfl, rfl⟩) b
    exact this
  · rw [mcSimulate_law hc]
    simp only [stopAt_none]
  · rw [mcSimulate_mean hc]
    simp only [stopAt_none]

theorem not_stopped {n : ℕ} {f : Fin n} (i : Fin n) (hi : i ≠ f) (w : List (Fin n)) :
    (stopAt (fun a => some f = some a) w).length = timeTo (· = f) (i :: w) := by
  induction w generalizing i with
  | nil => rfl
  | cons a w ih =>
    rw [timeTo, if_neg hi, stopAt]
    by_cases ha : f = a
    · rw [if_pos (by rw [ha]), timeTo_target (S := (· = f)) ha.symm]
      rfl
    · rw [if_neg (by simpa using ha), List.length_cons, ih a (Ne.symm ha), add_comm]

/-! ## Probabilities -/

variable {c : MC ℝ}

/-- C124. `hitting_probabilities` gives the chances of simulated runs: the probability that a run visits
the targets never exceeds the value for its initial state, and tends to it as the run gets longer. -/
theorem C124_hitting_probabilities {nnls : Nnls ℝ} (hnn : Nnls.Sound nnls) (hc : c.Valid) [NeZero c.n]
    {targets : Option (PyVal ℝ)} {S : List (Fin c.n)} (hS : hittingTargets c targets = .ok S) :
    ∃ h, hittingProbabilities nnls c targets = .ok h ∧
      ∀ (start : Fin c.n) {initialState : PyVal ℝ} {i : Option (Fin c.n)},
        OptionalState initialState c.states i →
        ∃ run, IsSimulated c start initialState .none run ∧
          (∀ s, Measure.infinitePi (fun _ : ℕ => uniformDraw) {u | Visits (· ∈ S) (run s u)} ≤
            ENNReal.ofReal (h (i.getD start))) ∧
          Tendsto (fun s => Measure.infinitePi (fun _ : ℕ => uniformDraw) {u | Visits (· ∈ S) (run s u)})
            atTop (𝓝 (ENNReal.ofReal (h (i.getD start)))) := by
  obtain ⟨-, h, h1, h2⟩ := C43_hitting_probabilities hnn hc hS
  refine ⟨h, h1, fun start {initialState i} hi => ?_⟩
  obtain ⟨run, hr, he, -⟩ := simulated_runs hc start hi
  have hP : IsStochastic fun i j => c.p i j := hc.2.1
  have hlim := (h2 _).1 (visitLimit_hitting hP (· ∈ S))
  have hv : ∀ s, prob c.p s (i.getD start) (fun w => Visits (· ∈ S) (i.getD start :: w)) =
      visitProb (fun i j => c.p i j) (fun _ => False) (· ∈ S) s (i.getD start) := fun s =>
    prob_congr' fun w => (visits_iff _ _).symm
  refine ⟨run, hr, fun s => ?_, ?_⟩
  · rw [he s fun w => Visits (· ∈ S) w, hv, ← hlim]
    exact ENNReal.ofReal_le_ofReal (visitProb_le_limit hP _ _ s _)
  · simp only [he _ fun w => Visits (· ∈ S) w, hv, ← hlim]
    exact ENNReal.tendsto_ofReal (visitProb_tendsto hP _ _ _)

/-- C124. The forward committor probabilities, before the rounding of very small values to zero, give the
chances of simulated runs to visit the second set of states before the first one. -/
theorem C124_committor (hc : c.Valid) [NeZero c.n] {nx : Nx c.n} (hx : nx.Sound c.p) (he : Ergodic c.p)
    {v1 v2 : PyVal ℝ} {a b : List ℕ} (ha : validateLabelsCurrent v1 c.states true none = .ok a)
    (hb : validateLabelsCurrent v2 c.states true none = .ok b) (hd : ∀ i ∈ a, i ∉ b) :
    ∃ (q : Fin c.n → ℝ) (r : Fin c.n → ℝ), committorProbabilities c nx (.str "forward") v1 v2 = .ok (some r) ∧
      (∀ i, r i = if q i ≤ 1 / 10 ^ 8 then 0 else q i) ∧
      ∀ (start : Fin c.n) {initialState : PyVal ℝ} {i : Option (Fin c.n)},
        OptionalState initialState c.states i →
        ∃ run, IsSimulated c start initialState .none run ∧
          (∀ s, Measure.infinitePi (fun _ : ℕ => uniformDraw)
            {u | VisitsBefore (fun i => i.val ∈ a) (fun i => i.val ∈ b) (run s u)} ≤
              ENNReal.ofReal (q (i.getD start))) ∧
          Tendsto (fun s => Measure.infinitePi (fun _ : ℕ => uniformDraw)
            {u | VisitsBefore (fun i => i.val ∈ a) (fun i => i.val ∈ b) (run s u)})
            atTop (𝓝 (ENNReal.ofReal (q (i.getD start)))) := by
  obtain ⟨q, r, h1, h2, h3⟩ := C41_forward_partial hc hx he ha hb hd
  refine ⟨q, r, h2, h3, fun start {initialState i} hi => ?_⟩
  obtain ⟨run, hr, hl, -⟩ := simulated_runs hc start hi
  have hP : IsStochastic fun i j => c.p i j := hc.2.1
  have hlim := (h1 _).1 (visitLimit_committor hP (A := fun i => i.val ∈ a) (B := fun i => i.val ∈ b)
    fun i h => hd i.val h)
  have hv : ∀ s, prob c.p s (i.getD start)
        (fun w => VisitsBefore (fun i : Fin c.n => i.val ∈ a) (fun i => i.val ∈ b) (i.getD start :: w)) =
      visitProb (fun i j => c.p i j) (fun i => i.val ∈ a) (fun i => i.val ∈ b) s (i.getD start) := fun s => rfl
  refine ⟨run, hr, fun s => ?_, ?_⟩
  · rw [hl s fun w => VisitsBefore (fun i => i.val ∈ a) (fun i => i.val ∈ b) w, hv, ← hlim]
    exact ENNReal.ofReal_le_ofReal (visitProb_le_limit hP _ _ s _)
  · simp only [hl _ fun w => VisitsBefore (fun i => i.val ∈ a) (fun i => i.val ∈ b) w, hv, ← hlim]
    exact ENNReal.tendsto_ofReal (visitProb_tendsto hP _ _ _)

/-! ## Times -/

/-- C124. `hitting_times` gives the mean durations of simulated runs: the mean number of steps before the
targets are visited, out of the steps of the run, tends to the value for the initial state as the run gets
longer, and grows without bound if this value is infinite. -/
theorem C124_hitting_times {nnls : Nnls ℝ} (hnn : Nnls.Sound nnls) (hc : c.Valid) [NeZero c.n]
    {targets : Option (PyVal ℝ)} {S : List (Fin c.n)} (hS : hittingTargets c targets = .ok S) :
    ∃ r, hittingTimes nnls c targets = .ok r ∧
      ∀ (start : Fin c.n) {initialState : PyVal ℝ} {i : Option (Fin c.n)},
        OptionalState initialState c.states i →
        ∃ run, IsSimulated c start initialState .none run ∧
          (∀ t, r (i.getD start) = some t →
            Tendsto (fun s => meanDraw fun u => timeTo (· ∈ S) (run s u)) atTop (𝓝 t)) ∧
          (r (i.getD start) = none →
            Tendsto (fun s => meanDraw fun u => timeTo (· ∈ S) (run s u)) atTop atTop) := by
  obtain ⟨-, r, h1, h2⟩ := C42_hitting_times hnn hc hS
  refine ⟨r, h1, fun start {initialState i} hi => ?_⟩
  obtain ⟨run, hr, -, hm⟩ := simulated_runs hc start hi
  have hP : IsStochastic fun i j => c.p i j := hc.2.1
  have hlim := meanTime_hitting hP h2
  have hv : (fun s => meanDraw fun u => (timeTo (· ∈ S) (run s u) : ℝ)) =
      fun s => meanTime (fun i j => c.p i j) (· ∈ S) s (i.getD start) := by
    funext s
    rw [hm s fun w => (timeTo (· ∈ S) w : ℝ)]
    unfold meanTime
    congr!
  refine ⟨run, hr, ?_, ?_⟩
  · rw [hv]
    exact fun t ht => hlim.1 _ t ht
  · rw [hv]
    exact hlim.2 _

/-- C124. `mean_first_passage_times_to` gives the mean durations of simulated runs of ergodic chains. -/
theorem C124_targets (hc : c.Valid) [NeZero c.n] {nx : Nx c.n} (hx : nx.Sound c.p) (he : Ergodic c.p)
    {v : PyVal ℝ} {l : List ℕ} (hl : validateLabelsCurrent v c.states false none = .ok l) :
    ∃ t, meanFirstPassageTimesTo c nx v = .ok (some t) ∧
      ∀ (start : Fin c.n) {initialState : PyVal ℝ} {i : Option (Fin c.n)},
        OptionalState initialState c.states i →
        ∃ run, IsSimulated c start initialState .none run ∧
          Tendsto (fun s => meanDraw fun u => timeTo (fun j => j.val ∈ l) (run s u)) atTop
            (𝓝 (t (i.getD start))) := by
  obtain ⟨t, h1, h2⟩ := C44_targets hc hx he hl
  refine ⟨t, h1, fun start {initialState i} hi => ?_⟩
  obtain ⟨run, hr, -, hm⟩ := simulated_runs hc start hi
  have hP : IsStochastic fun i j => c.p i j := hc.2.1
  refine ⟨run, hr, ?_⟩
  have hv : (fun s => meanDraw fun u => (timeTo (fun j : Fin c.n => j.val ∈ l) (run s u) : ℝ)) =
      fun s => meanTime (fun i j => c.p i j) (fun j : Fin c.n => j.val ∈ l) s (i.getD start) := by
    funext s
    rw [hm s fun w => (timeTo (fun j : Fin c.n => j.val ∈ l) w : ℝ)]
    unfold meanTime
    congr!
  rw [hv]
  exact meanTime_tendsto hP h2 _

/-- C124. `mean_first_passage_times_to` without targets gives the mean lengths of simulated runs of
ergodic chains that stop at a final state: the mean number of steps of a run from another state, which
stops at the final state or after `s` steps, tends to the entry as `s` gets larger. -/
theorem C124_all_states (hc : c.Valid) [NeZero c.n] {nx : Nx c.n} (hx : nx.Sound c.p) (he : Ergodic c.p) :
    ∃ m, mfptAll c nx = .ok (some m) ∧
      ∀ (start : Fin c.n) {initialState finalState : PyVal ℝ} {i : Option (Fin c.n)} {j : Fin c.n},
        OptionalState initialState c.states i → OptionalState finalState c.states (some j) →
        i.getD start ≠ j →
        ∃ run, IsSimulated c start initialState finalState run ∧
          Tendsto (fun s => meanDraw fun u => ((run s u).length - 1 : ℕ)) atTop
            (𝓝 (m (i.getD start) j)) := by
  obtain ⟨m, h1, -, -, h2⟩ := C44_all_states hc hx he
  refine ⟨m, h1, fun start {initialState finalState i j} hi hj hne => ?_⟩
  have hP : IsStochastic fun i j => c.p i j := hc.2.1
  refine ⟨fun s u => mcSimulate (cdfChoice u) c.p s (i.getD start) (some j), fun s hs u b => ?_, ?_⟩
  · exact simulate_eq (cdfChoice u) start (steps := .int s) (s := s)
      (validateInteger_of_ge (by exact_mod_cast hs)) hi hj b
  · have hv : (fun s => meanDraw fun u =>
        (((mcSimulate (cdfChoice u) c.p s (i.getD start) (some j)).length - 1 : ℕ) : ℝ)) =
        fun s => meanTime (fun i j => c.p i j) (· = j) s (i.getD start) := by
      funext s
      rw [mcSimulate_mean hc s (i.getD start) (some j) fun w => ((w.length - 1 : ℕ) : ℝ)]
      unfold meanTime
      congr 1
      funext w
      rw [List.length_cons, Nat.add_sub_cancel, not_stopped _ hne]
      congr!
    rw [hv]
    exact meanTime_tendsto hP (h2 j) _

/-- C124. `mean_recurrence_times` gives the mean return times of simulated runs of ergodic chains, for
states whose entry in the stationary distribution is not very small: the mean number of steps until the
initial state is visited again, out of the steps of the run, tends to its value. -/
theorem C124_recurrence_times (hc : c.Valid) [NeZero c.n] {nx : Nx c.n} (hx : nx.Sound c.p)
    (he : Ergodic c.p) :
    ∃ r x, meanRecurrenceTimes c nx = .ok (some r) ∧ IsStationary c.p x ∧
      ∀ (start : Fin c.n) {initialState : PyVal ℝ} {i : Option (Fin c.n)},
        OptionalState initialState c.states i → 1 / 10 ^ 8 < x (i.getD start) →
        ∃ run, IsSimulated c start initialState .none run ∧
          Tendsto (fun s => meanDraw fun u => 1 + timeTo (· = i.getD start) (run s u).tail) atTop
            (𝓝 (r (i.getD start))) := by
  obtain ⟨r, x, h1, h2, -, h3⟩ := C45_recurrence_times_partial hc hx he
  obtain ⟨m, -, -, -, hm⟩ := C44_all_states hc hx he
  refine ⟨r, x, h1, h2, fun start {initialState i} hi hxi => ?_⟩
  obtain ⟨run, hr, -, hv⟩ := simulated_runs hc start hi
  have hP : IsStochastic fun i j => c.p i j := hc.2.1
  obtain ⟨-, t, ht, hrt⟩ := h3 _ hxi
  refine ⟨run, hr, (tendsto_add_atTop_iff_nat 1).1 ?_⟩
  have hs : (fun s => meanDraw fun u => (1 + timeTo (· = i.getD start) (run (s + 1) u).tail : ℝ)) =
      fun s => 1 + ∑ j, c.p (i.getD start) j *
        meanTime (fun i j => c.p i j) (· = i.getD start) s j := by
    funext s
    rw [hv (s + 1) fun w => (1 + timeTo (· = i.getD start) w.tail : ℝ)]
    change (expect (fun i j => c.p i j) (s + 1) (i.getD start) fun w => (1 + timeTo (· = i.getD start) w : ℝ)) = _
    rw [expect_add, expect_const hP, expect_succ]
    congr 1
    refine sum_congr rfl fun j _ => ?_
    congr 1
    unfold meanTime
    congr!
  rw [hs, hrt]
  refine tendsto_const_nhds.add (tendsto_step (fun i j => c.p i j) (fun j => ?_) (i.getD start))
  have := meanTime_tendsto hP (hm (i.getD start)) j
  have e := congrFun ((hm (i.getD start) t).1 ht) j
  change t j = m j (i.getD start) at e
  rw [e]
  exact this

/-- C124. `mean_absorption_times` gives the mean durations of simulated runs of absorbing chains: the mean
number of steps at transient states, out of the steps of the run, tends to the value for the initial
state. -/
theorem C124_absorption_times (hc : c.Valid) [NeZero c.n] {sccs : List (List (Fin c.n))}
    (h : IsClasses c.p sccs) (ha : AbsorbingChain c.p) (ht : ∃ i, TransientState c.p i) :
    ∃ t, meanAbsorptionTimes c sccs = .ok (some t) ∧
      ∀ (start : Fin c.n) {initialState : PyVal ℝ} {i : Option (Fin c.n)}
        (l : Fin (transientStatesIdx c.p sccs).length), OptionalState initialState c.states i →
        i.getD start = (transientStatesIdx c.p sccs).get l →
        ∃ run, IsSimulated c start initialState .none run ∧
          Tendsto (fun s => meanDraw fun u => timeTo (fun j => ¬ TransientState c.p j) (run s u)) atTop
            (𝓝 (t l)) := by
  obtain ⟨t, h1, h2, h3⟩ := C40_mean_absorption_times hc h ha ht
  refine ⟨t, h1, fun start {initialState i} l hi hl => ?_⟩
  obtain ⟨run, hr, -, hv⟩ := simulated_runs hc start hi
  have hP : IsStochastic fun i j => c.p i j := hc.2.1
  have hT : ∀ i, i ∈ transientStatesIdx c.p sccs ↔ TransientState c.p i :=
    fun i => mem_transientStatesIdx h i
  have hnd : (transientStatesIdx c.p sccs).Nodup := transient_nodup h
  have hinj : Function.Injective (transientStatesIdx c.p sccs).get := List.nodup_iff_injective_get.1 hnd
  have hsum : ∀ (g : Fin c.n → ℝ) (k : Fin c.n), (∀ j, ¬ TransientState c.p j → g j = 0) →
      ∑ j, c.p k j * g j = ∑ j, c.p k ((transientStatesIdx c.p sccs).get j) *
        g ((transientStatesIdx c.p sccs).get j) := by
    intro g k hg
    rw [sum_get hnd fun j => c.p k j * g j]
    refine (sum_subset (subset_univ _) fun j _ hj => ?_).symm
    rw [hg j fun hj' => hj (mem_filter.2 ⟨mem_univ j, (hT j).2 hj'⟩), mul_zero]
  have huniq : ∀ s, IsPassageTime (fun i j => c.p i j) (fun j => ¬ TransientState c.p j) s ↔
      s = Function.extend (transientStatesIdx c.p sccs).get t 0 := by
    intro s
    constructor
    · intro hs
      have e : (fun l => s ((transientStatesIdx c.p sccs).get l)) = t := by
        refine (h3 _).1 fun l => ?_
        rw [hs.2 _ (not_not.2 ((hT _).1 (List.get_mem ..))), hsum s _ hs.1]
      funext j
      by_cases hj : TransientState c.p j
      · obtain ⟨l, rfl⟩ := List.get_of_mem ((hT j).2 hj)
        rw [hinj.extend_apply]
        exact congrFun e l
      · rw [Function.extend_apply' _ _ _ (by
          rintro ⟨l, rfl⟩
          exact hj ((hT _).1 (List.get_mem ..)))]
        exact hs.1 j hj
    · rintro rfl
      have hz : ∀ j, ¬ TransientState c.p j →
          Function.extend (transientStatesIdx c.p sccs).get t 0 j = 0 := by
        intro j hj
        rw [Function.extend_apply' _ _ _ (by
          rintro ⟨l, rfl⟩
          exact hj ((hT _).1 (List.get_mem ..)))]
        rfl
      refine ⟨hz, fun j hj => ?_⟩
      obtain ⟨l, rfl⟩ := List.get_of_mem ((hT j).2 (not_not.1 hj))
      rw [hsum _ _ hz]
      simp only [hinj.extend_apply]
      exact (h3 t).2 rfl l
  refine ⟨run, hr, ?_⟩
  have hs : (fun s => meanDraw fun u => (timeTo (fun j => ¬ TransientState c.p j) (run s u) : ℝ)) =
      fun s => meanTime (fun i j => c.p i j) (fun j => ¬ TransientState c.p j) s (i.getD start) := by
    funext s
    rw [hv s fun w => (timeTo (fun j => ¬ TransientState c.p j) w : ℝ)]
    unfold meanTime
    congr!
  have hlim := meanTime_tendsto hP huniq (i.getD start)
  rw [hs]
  rw [hl, hinj.extend_apply] at hlim
  rw [hl]
  exact hlim

/-! ## Returns and visits -/

/-- The probability of a visit of `j` after the start is the smallest nonnegative solution of the
first-step equations. -/
theorem visitLimit_return {n : ℕ} {P : Fin n → Fin n → ℝ} (hP : IsStochastic P) (j : Fin n) :
    IsReturnProbability P j fun i => ∑ k, P i k * visitLimit P (fun _ => False) (· = j) k := by
  have hL : ∀ k, visitLimit P (fun _ => False) (· = j) k =
      if k = j then 1 else ∑ l, P k l * visitLimit P (fun _ => False) (· = j) l := by
    intro k
    split
    · rename_i hk
      exact visitLimit_target hP hk
    · rename_i hk
      exact visitLimit_step hP id hk
  refine ⟨fun i => ?_, fun i => ?_, fun g hg h0 i => ?_⟩
  · exact sum_congr rfl fun k _ => congrArg (P i k * ·) (hL k)
  · exact sum_nonneg fun k _ => mul_nonneg (hP.1 i k) (visitLimit_nonneg hP _ _ k)
  · rw [hg i]
    refine sum_le_sum fun k _ => mul_le_mul_of_nonneg_left ?_ (hP.1 i k)
    refine visitLimit_le hP (q := fun k => if k = j then 1 else g k) (fun k => ?_) (fun k hk => ?_)
      (fun k _ hk => ?_) k
    · split
      · exact zero_le_one
      · exact h0 k
    · simp only [if_pos (show k = j from hk), le_refl]
    · rw [if_neg (show ¬ k = j from hk)]
      exact (hg k).ge

theorem expect_count {n : ℕ} {P : Matrix (Fin n) (Fin n) ℝ} (hP : IsStochastic fun i j => P i j) (j : Fin n)
    (k : ℕ) : ∀ i, (expect (fun i j => P i j) k i fun w => (w.count j : ℝ)) =
      ∑ t ∈ range k, (P ^ (t + 1)) i j := by
  induction k with
  | zero => intro i; simp [expect]
  | succ k ih =>
    intro i
    rw [expect_succ, sum_range_succ']
    have h1 : ∀ l, (expect (fun i j => P i j) k l fun w => ((l :: w).count j : ℝ)) =
        (∑ t ∈ range k, (P ^ (t + 1)) l j) + if l = j then 1 else 0 := by
      intro l
      rw [← ih l, ← expect_const hP k l (if l = j then 1 else 0), ← expect_add]
      congr 1
      funext w
      rw [List.count_cons]
      by_cases hl : l = j <;> simp [hl]
    simp only [h1, mul_add, sum_add_distrib, mul_ite, mul_one, mul_zero, sum_ite_eq', mem_univ, if_true,
      zero_add, pow_one]
    congr 1
    simp only [mul_sum]
    rw [sum_comm]
    refine sum_congr rfl fun t _ => ?_
    rw [pow_succ' P (t + 1), Matrix.mul_apply]

/-- C124. `mean_number_visits` gives the mean numbers of visits of simulated runs after the start, for
chains without very small or very large return probabilities below one. -/
theorem C124_visits (hc : c.Valid) [NeZero c.n] {sccs : List (List (Fin c.n))} (h : IsClasses c.p sccs)
    {f : Fin c.n → Fin c.n → ℝ} (hf : ∀ j, IsReturnProbability (fun i k => c.p i k) j fun i => f i j)
    (h0 : ∀ i j, isclose (f i j) 0 = true → f i j = 0)
    (h1 : ∀ j, isclose (f j j) 1 = true → f j j = 1) :
    ∃ m, meanNumberVisits c sccs = .ok m ∧
      ∀ (start : Fin c.n) {initialState : PyVal ℝ} {i : Option (Fin c.n)},
        OptionalState initialState c.states i →
        ∃ run, IsSimulated c start initialState .none run ∧ ∀ j,
          Tendsto (fun s => Measure.infinitePi (fun _ : ℕ => uniformDraw) {u | j ∈ (run s u).tail}) atTop
            (𝓝 (ENNReal.ofReal (f (i.getD start) j))) ∧
          ((∃ v, m (i.getD start) j = .fin v ∧
              Tendsto (fun s => meanDraw fun u => ((run s u).tail.count j : ℝ)) atTop (𝓝 v)) ∨
            (m (i.getD start) j = .inf false ∧
              Tendsto (fun s => meanDraw fun u => ((run s u).tail.count j : ℝ)) atTop atTop)) := by
  obtain ⟨m, hm1, hm2⟩ := C82_mean_number_visits_partial hc h hf h0 h1
  refine ⟨m, hm1, fun start {initialState i} hi => ?_⟩
  obtain ⟨run, hr, he, hv⟩ := simulated_runs hc start hi
  have hP : IsStochastic fun i j => c.p i j := hc.2.1
  refine ⟨run, hr, fun j => ⟨?_, ?_⟩⟩
  · refine (tendsto_add_atTop_iff_nat 1).1 ?_
    have hs : ∀ s, prob c.p (s + 1) (i.getD start) (fun w => j ∈ (i.getD start :: w).tail) =
        ∑ k, c.p (i.getD start) k * visitProb (fun i j => c.p i j) (fun _ => False) (· = j) s k := by
      intro s
      refine (prob_succ (fun i j => c.p i j) s _ _).trans (sum_congr rfl fun k _ => ?_)
      congr 1
      refine prob_congr' (P := fun i j => c.p i j) fun w => ?_
      rw [visits_iff]
      unfold Visits
      simp
    simp only [he _ fun w => j ∈ w.tail]
    refine ENNReal.tendsto_ofReal ?_
    have hlim := tendsto_step (fun i j => c.p i j)
      (fun k => visitProb_tendsto hP (fun _ => False) (· = j) k) (i.getD start)
    have e := congrFun (IsReturnProbability.unique (visitLimit_return hP j) (hf j)) (i.getD start)
    rw [← e]
    exact hlim.congr fun s => (hs s).symm.trans (by congr!)
  · have hs : (fun s => meanDraw fun u => ((run s u).tail.count j : ℝ)) =
        fun s => ∑ t ∈ range s, (c.p ^ (t + 1)) (i.getD start) j := by
      funext s
      rw [hv s fun w => (w.tail.count j : ℝ)]
      exact expect_count hP j s (i.getD start)
    rw [hs]
    rcases hm2 (i.getD start) j with ⟨v, hv1, hv2⟩ | ⟨hv1, hv2⟩
    · exact Or.inl ⟨v, hv1, hv2.tendsto_sum_nat⟩
    · refine Or.inr ⟨hv1, (not_summable_iff_tendsto_nat_atTop_of_nonneg fun k => ?_).1 hv2⟩
      exact (IsStochastic.pow (P := c.p) hP (k + 1)).1 (i.getD start) j

/-! ## Concrete cases -/

/-- The hypotheses are met by the drunkard's walk with the first state as the target, and by a symmetric
chain. -/
example : (∃ nnls : Nnls ℝ, nnls.Sound) ∧ exDrunkard.toReal.Valid ∧
    hittingTargets exDrunkard.toReal (some (.list [.int 0])) = .ok ([0] : List (Fin 3)) ∧
    OptionalState (.str "m" : PyVal ℝ) exDrunkard.toReal.states (some (1 : Fin 3)) ∧
    IsClasses exDrunkard.toReal.p ([[0], [1], [2]] : List (List (Fin 3))) ∧
    AbsorbingChain exDrunkard.toReal.p ∧ TransientState exDrunkard.toReal.p (1 : Fin 3) ∧
    (exSymmetric (1 / 2)).Valid ∧ (exSymmetricNx (1 / 2)).Sound (exSymmetric (1 / 2)).p ∧
    Ergodic (exSymmetric (1 / 2)).p ∧
    validateLabelsCurrent (.list [.int 0] : PyVal ℝ) (exSymmetric (1 / 2)).states false none = .ok [0] ∧
    validateLabelsCurrent (.list [.int 0] : PyVal ℝ) (exSymmetric (1 / 2)).states true none = .ok [0] ∧
    validateLabelsCurrent (.list [.int 1] : PyVal ℝ) (exSymmetric (1 / 2)).states true none = .ok [1] ∧
    (∀ j, IsReturnProbability (fun i k => (exSymmetric (1 / 2)).p i k) j fun _ => 1) := by
  refine ⟨exists_nnls, toReal_valid (by decide +kernel), rfl, Or.inr ⟨1, (fun h => by cases h), rfl, rfl⟩,
    toReal_isClasses (c := exDrunkard) ?_, toReal_absorbingChain (c := exDrunkard) ?_,
    toReal_transientState (c := exDrunkard) ?_, exSymmetric_valid (by norm_num) (by norm_num),
    Nx.ofClasses_sound true (swapP_classes (by norm_num) (by norm_num)),
    swapP_ergodic (by norm_num) (by norm_num), rfl, rfl, rfl, ?_⟩
  · change IsClasses (fun i j : Fin 3 => exDrunkard.p i j) [[0], [1], [2]]
    decide +kernel
  · change AbsorbingChain (fun i j : Fin 3 => exDrunkard.p i j)
    decide +kernel
  · change TransientState (fun i j : Fin 3 => exDrunkard.p i j) 1
    decide +kernel
  · have key : ∀ j : Fin 2, IsReturnProbability (fun _ _ : Fin 2 => (1 / 2 : ℝ)) j fun _ => 1 := by
      intro j
      refine ⟨fun i => ?_, fun _ => zero_le_one, fun g hg _ i => ?_⟩
      · rw [Fin.sum_univ_two]
        simp
        norm_num
      · have h0 := hg 0
        have h1 := hg 1
        rw [Fin.sum_univ_two] at h0 h1
        fin_cases j <;> fin_cases i <;> simp at h0 h1 ⊢ <;> linarith
    have hp : (fun i k : Fin 2 => swapP (1 / 2) i k) = fun _ _ => 1 / 2 := by
      funext i k
      fin_cases i <;> fin_cases k <;> norm_num [swapP]
    rw [← hp] at key
    exact key

end Verif
