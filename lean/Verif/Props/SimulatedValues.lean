import Verif.Props.Descriptors
import Verif.Props.Rewards
import Verif.Props.SimulatedPassage
import Verif.Props.Times
import Verif.Props.Transform

/-!
# Values over a fixed number of steps and simulated runs (C137)
-/

set_option linter.unusedSectionVars false

namespace Verif

open MeasureTheory Finset Filter Topology
open scoped Classical

/-! ## Beginnings of simulated runs -/

/-- For every state, `run` is what `simulate` returns with that initial state and no final state. -/
def RunsOf (c : MC ℝ) [NeZero c.n] (run : Fin c.n → ℕ → (ℕ → ℝ) → List (Fin c.n)) : Prop :=
  ∀ (start i : Fin c.n) (v : PyVal ℝ), v ≠ .none → validateLabel v c.states = .ok i.val →
    IsSimulated c start v .none (run i)

/-- The measure of the draws. -/
noncomputable def chance (E : (ℕ → ℝ) → Prop) : ENNReal :=
  Measure.infinitePi (fun _ : ℕ => uniformDraw) {u | E u}

theorem prob_instances {n : ℕ} {P : Fin n → Fin n → ℝ} {k : ℕ} {i : Fin n} {E F : List (Fin n) → Prop}
    {h1 : DecidablePred E} {h2 : DecidablePred F} (h : ∀ w, E w ↔ F w) :
    @prob _ _ _ _ P k i E h1 = @prob _ _ _ _ P k i F h2 := by
  unfold prob
  refine expect_congr fun w _ => ?_
  by_cases hw : E w
  · rw [if_pos hw, if_pos ((h w).1 hw)]
  · rw [if_neg hw, if_neg fun hf => hw ((h w).2 hf)]

/-- The runs of all initial states, with the means and the probabilities of their beginnings. -/
theorem runs_of {c : MC ℝ} (hc : c.Valid) [NeZero c.n] :
    ∃ run, RunsOf c run ∧
      (∀ i s m (f : List (Fin c.n) → ℝ), s ≤ m →
        meanDraw (fun u => f ((run i m u).take (s + 1))) = expect c.p s i fun w => f (i :: w)) ∧
      ∀ i s m (E : List (Fin c.n) → Prop), s ≤ m →
        chance (fun u => E ((run i m u).take (s + 1))) =
          ENNReal.ofReal (prob c.p s i fun w => E (i :: w)) := by
  have hP : IsStochastic fun i j => c.p i j := hc.2.1
  have take : ∀ i s m (f : List (Fin c.n) → ℝ), s ≤ m →
      (expect c.p m i fun w => f ((i :: w).take (s + 1))) = expect c.p s i fun w => f (i :: w) := by
    intro i s m f hm
    obtain ⟨b, rfl⟩ := Nat.exists_eq_add_of_le hm
    exact expect_take hP s b i fun w => f (i :: w)
  refine ⟨fun i m u => mcSimulate (cdfChoice u) c.p m i none, fun start i v hv hi => ?_,
    fun i s m f hm => ?_, fun i s m E hm => ?_⟩
  · intro s hs u b
    exact simulate_eq (cdfChoice u) start (steps := .int s) (s := s)
      (validateInteger_of_ge (by exact_mod_cast hs)) (i := some i) (Or.inr ⟨i, hv, hi, rfl⟩)
      (f := none) (Or.inl ⟨rfl, rfl⟩) b
  · refine (mcSimulate_mean hc m i none fun w => f (w.take (s + 1))).trans ?_
    simp only [stopAt_none]
    exact take i s m f hm
  · refine (mcSimulate_law hc m i none fun w => E (w.take (s + 1))).trans ?_
    simp only [stopAt_none]
    exact congrArg ENNReal.ofReal (take i s m (fun w => if E w then 1 else 0) hm)

variable {c : MC ℝ}

/-- C137. `expected_rewards` gives the mean total reward of the first states of simulated runs. -/
theorem C137_expected_rewards (hc : c.Valid) [NeZero c.n] {steps rewards : PyVal ℝ} {s : ℤ} {r : List ℝ}
    (hs : validateInteger steps (some (0, true)) none = .ok s)
    (hr : validateRewards rewards c.n = .ok r) :
    ∃ er run, expectedRewards c steps rewards = .ok er ∧ RunsOf c run ∧
      ∀ i m, s.toNat ≤ m →
        er i = meanDraw fun u => (((run i m u).take (s.toNat + 1)).map (listVec r c.n)).sum := by
  obtain ⟨-, er, h1, h2⟩ := C46_expected_rewards hc hs hr
  obtain ⟨run, hrun, hmean, -⟩ := runs_of hc
  exact ⟨er, run, h1, hrun, fun i m hm => (h2 i).trans
    (hmean i s.toNat m (fun w => (w.map (listVec r c.n)).sum) hm).symm⟩

/-- C137. `expected_transitions` gives the mean numbers of moves of simulated runs whose initial state is
drawn from the initial distribution, in the cases in which it is right. -/
theorem C137_expected_transitions_partial (hc : c.Valid) [NeZero c.n] {rdl : Rdl ℝ c.n}
    {steps : PyVal ℝ} {d : Option (PyVal ℝ)} {s : ℤ} {x : Fin c.n → ℝ}
    (hs : validateInteger steps (some (0, true)) none = .ok s)
    (hd : initialDistribution c.n d = .ok x)
    (h : (s ≤ 2 ∧ s ≤ c.n) ∨ ((c.n : ℤ) < s ∧ rdl.Sound c.p)) :
    ∃ et run, expectedTransitions c rdl steps d = .ok et ∧ RunsOf c run ∧
      ∀ i j m, s.toNat ≤ m → et i j = ∑ a, x a * meanDraw fun u =>
        (countMoves i j ((run a m u).take (s.toNat + 1)) : ℝ) := by
  obtain ⟨-, et, h1, h2⟩ := C47_expected_transitions_partial hc hs hd h
  obtain ⟨run, hrun, hmean, -⟩ := runs_of hc
  refine ⟨et, run, h1, hrun, fun i j m hm => (h2 i j).trans (sum_congr rfl fun a _ => ?_)⟩
  exact congrArg (x a * ·) (hmean a s.toNat m (fun w => (countMoves i j w : ℝ)) hm).symm

/-- C137. `first_passage_probabilities` for one state gives, for every step, the probability that
simulated runs visit the state for the first time, after the start, at that step. -/
theorem C137_first_passage (hc : c.Valid) [NeZero c.n] {steps initialState states : PyVal ℝ}
    {s : ℤ} {i j : Fin c.n} (hs : validateInteger steps (some (0, true)) none = .ok s)
    (hi : validateLabel initialState c.states = .ok i.val)
    (hl : validateLabelsCurrent states c.states false none = .ok [j.val]) :
    ∃ z run, firstPassageProbabilities c steps initialState states = .ok z ∧ z.length = s.toNat ∧
      RunsOf c run ∧ ∀ t (ht : t < z.length) m, t + 1 ≤ m →
        ENNReal.ofReal z[t] =
          chance fun u => FirstVisitAtEnd (· = j) ((run i m u).take (t + 2)).tail := by
  obtain ⟨-, z, h1, h2, -⟩ := C48_single_state_partial hc hs hi hl
  obtain ⟨run, hrun, -, hprob⟩ := runs_of hc
  refine ⟨z, run, h1, by rw [h2, List.length_map, List.length_range], hrun, fun t ht m hm => ?_⟩
  refine Eq.trans ?_ (hprob i (t + 1) m (fun w => FirstVisitAtEnd (· = j) w.tail) hm).symm
  subst h2
  rw [List.getElem_map, List.getElem_range]
  exact congrArg ENNReal.ofReal (prob_instances fun w => Iff.rfl)

/-- C137. The same for all states at once. -/
theorem C137_first_passage_all (hc : c.Valid) [NeZero c.n] {steps initialState : PyVal ℝ}
    {s : ℤ} {i : Fin c.n} (hs : validateInteger steps (some (0, true)) none = .ok s)
    (hi : validateLabel initialState c.states = .ok i.val) :
    ∃ z run, firstPassageAll c steps initialState = .ok z ∧ z.length = s.toNat ∧
      RunsOf c run ∧ ∀ t (ht : t < z.length) j m, t + 1 ≤ m →
        ENNReal.ofReal (z[t] j) =
          chance fun u => FirstVisitAtEnd (· = j) ((run i m u).take (t + 2)).tail := by
  obtain ⟨run, hrun, -, hprob⟩ := runs_of hc
  refine ⟨_, run, C48_all_states hs hi, by rw [List.length_map, List.length_range], hrun,
    fun t ht j m hm => ?_⟩
  refine Eq.trans ?_ (hprob i (t + 1) m (fun w => FirstVisitAtEnd (· = j) w.tail) hm).symm
  rw [List.getElem_map, List.getElem_range]
  exact congrArg ENNReal.ofReal (prob_instances fun w => Iff.rfl)

/-- C137. `first_passage_reward` gives the mean reward of simulated runs, after the start and before
the first visit of the first passage states. -/
theorem C137_first_passage_reward (hc : c.Valid) [NeZero c.n] {steps init states rewards : PyVal ℝ}
    {s : ℤ} {i : Fin c.n} {l : List ℕ} {r : List ℝ}
    (hs : validateInteger steps (some (0, true)) none = .ok s)
    (hi : validateLabel init c.states = .ok i.val)
    (hl : validateLabelsCurrent states c.states true none = .ok l)
    (hr : validateRewards rewards c.n = .ok r) (hn : c.n ≠ 2) (hil : i.val ∉ l)
    (hlen : l.length ≠ c.n - 1) :
    ∃ z run, firstPassageReward c steps init states rewards = .ok z ∧ RunsOf c run ∧
      ∀ m, s.toNat ≤ m → z = meanDraw fun u =>
        rewardBefore (fun j : Fin c.n => j.val ∈ l) (listVec r c.n) ((run i m u).take (s.toNat + 1)).tail := by
  obtain ⟨run, hrun, hmean, -⟩ := runs_of hc
  refine ⟨_, run, (C49_first_passage_reward hc hs hi hl hr).1 ⟨hn, hil, hlen⟩, hrun, fun m hm => ?_⟩
  refine Eq.trans ?_ (hmean i s.toNat m
    (fun w => rewardBefore (fun j : Fin c.n => j.val ∈ l) (listVec r c.n) w.tail) hm).symm
  refine expect_congr fun w _ => ?_
  rw [List.tail_cons]

/-- C137. `sequence_probability` is the probability that simulated runs begin with the sequence. -/
theorem C137_sequence_probability (hc : c.Valid) [NeZero c.n] {sequence : PyVal ℝ} {l : List ℕ}
    (hl : validateSequence sequence c.states = .ok l) :
    ∃ (i : Fin c.n) (w : List (Fin c.n)) (z : ℝ) (run : _), (i :: w).map Fin.val = l ∧
      sequenceProbability c sequence = .ok z ∧ 0 ≤ z ∧ RunsOf c run ∧
      ∀ m, w.length ≤ m → ENNReal.ofReal z = chance fun u => (i :: w) <+: run i m u := by
  obtain ⟨w, h1, h2, h3⟩ := C55_sequence_probability hc hl
  obtain ⟨run, hrun, -, hprob⟩ := runs_of hc
  cases w with
  | nil => simp at h2
  | cons i w =>
    have hz : walkProb c.p (i :: w) = prob c.p w.length i fun v => v = w :=
      (prob_path c.p _ i w rfl).symm
    refine ⟨i, w, _, run, h1, h3, ?_, hrun, fun m hm => ?_⟩
    · rw [hz]
      exact prob_nonneg' hc.2.1.1 _ _ _
    · rw [hz]
      have h4 := hprob i w.length m (fun v => v = i :: w) hm
      have h5 : (chance fun u => (i :: w) <+: run i m u) =
          chance fun u => (run i m u).take (w.length + 1) = i :: w := by
        refine congrArg chance (funext fun u => propext ?_)
        rw [List.prefix_iff_eq_take, List.length_cons, eq_comm]
      rw [h5, h4]
      exact congrArg ENNReal.ofReal (prob_instances fun v => by simp)

/-- C137. `transition_probability` is the probability that simulated runs move to the target first. -/
theorem C137_transition_probability (hc : c.Valid) [NeZero c.n] {v w : PyVal ℝ} {i j : Fin c.n}
    (hv : Names c.states v j) (hw : Names c.states w i) :
    ∃ z run, transitionProbability c v w = .ok z ∧ 0 ≤ z ∧ RunsOf c run ∧
      ∀ m, 1 ≤ m → ENNReal.ofReal z = chance fun u => (run i m u).take 2 = [i, j] := by
  obtain ⟨run, hrun, -, hprob⟩ := runs_of hc
  refine ⟨_, run, C94_transition_probability hc hv hw, prob_nonneg' hc.2.1.1 _ _ _, hrun,
    fun m hm => ?_⟩
  refine Eq.trans ?_ (hprob i 1 m (fun w => w = [i, j]) hm).symm
  exact congrArg ENNReal.ofReal (prob_instances fun w => by simp)

/-- The mean of a function of the state after `t` moves of simulated runs. -/
theorem mean_at {run : Fin c.n → ℕ → (ℕ → ℝ) → List (Fin c.n)}
    (hmean : ∀ i s m (f : List (Fin c.n) → ℝ), s ≤ m →
      meanDraw (fun u => f ((run i m u).take (s + 1))) = expect c.p s i fun w => f (i :: w))
    (i : Fin c.n) {t m : ℕ} (ht : t ≤ m) (g : Fin c.n → ℝ) :
    (meanDraw fun u => (((run i m u)[t]?).map g).getD 0) = ∑ j, (c.p ^ t) i j * g j := by
  have h1 : (fun u => (((run i m u)[t]?).map g).getD 0) =
      fun u => ((((run i m u).take (t + 1))[t]?).map g).getD 0 := by
    funext u
    rw [List.getElem?_take_of_lt (Nat.lt_succ_self t)]
  rw [h1]
  refine (hmean i t m (fun w => ((w[t]?).map g).getD 0) ht).trans ?_
  rw [← expect_last c.p t i g]
  refine expect_congr fun w hw => ?_
  have h2 : (i :: w)[t]? = some (w.getLastD i) := by
    rw [List.getLastD_eq_getLast?, ← List.getLast?_cons, List.getLast?_eq_getElem?, List.length_cons, hw]
    rfl
  rw [h2]
  rfl

/-- C137. `redistribute` gives the law of the state of simulated runs after every step, for runs whose
initial state is drawn from the initial status divided by its sum. -/
theorem C137_redistribute (hc : c.Valid) [NeZero c.n] {steps status last : PyVal ℝ}
    {r : List (Fin c.n → ℝ)} (h : redistribute c steps status last = .ok r) :
    ∃ (k : ℕ) (d : Fin c.n → ℝ) (law : ℕ → Fin c.n → ℝ) (run : _), steps = .int k ∧
      StatusOf c.states status d ∧ law 0 = d ∧ RunsOf c run ∧
      (∀ t m j, 1 ≤ t → t ≤ m → law t j = (∑ i, d i * meanDraw fun u =>
        if (run i m u)[t]? = some j then 1 else 0) / ∑ i, d i) ∧
      (last = .bool true → r = [law k]) ∧
      (last = .bool false → r = (List.range (k + 1)).map law) := by
  obtain ⟨k, d, law, hk, -, hst, -, -, h0, hlaw, h1, h2⟩ := C15_redistribute hc h
  obtain ⟨run, hrun, hmean, -⟩ := runs_of hc
  refine ⟨k, d, law, run, hk, hst, h0, hrun, fun t m j ht hm => (hlaw t j ht).trans ?_, h1, h2⟩
  refine congrArg (· / ∑ i, d i) (sum_congr rfl fun i _ => congrArg (d i * ·) ?_)
  have h3 := mean_at hmean i hm fun a => if a = j then (1 : ℝ) else 0
  have h4 : (fun u => (((run i m u)[t]?).map fun a => if a = j then (1 : ℝ) else 0).getD 0) =
      fun u => if (run i m u)[t]? = some j then 1 else 0 := by
    funext u
    cases (run i m u)[t]? <;> simp
  rw [h4] at h3
  rw [h3, ← expect_last c.p t i]
  unfold prob
  exact expect_congr fun w _ => by congr!

/-- C137. `time_relaxations` gives the mean observation of the state of simulated runs at every time
point, for runs whose initial state is drawn from the initial distribution. -/
theorem C137_time_relaxations_partial (hc : c.Valid) [NeZero c.n] {sccs : List (List (Fin c.n))}
    (h : IsClasses c.p sccs) {rdl : Rdl ℝ c.n} {v : PyVal ℝ} {vd : Option (PyVal ℝ)} {vt : PyVal ℝ}
    {s : List ℕ} {d : Fin c.n → ℝ} {t : OneOrMany ℕ}
    (h1 : validateSequence v c.states = .ok s) (h2 : initialDistribution c.n vd = .ok d)
    (ht : validateTimePoints vt = .ok t)
    (hr : (∀ u ∈ t.toList, u ≤ c.n) ∨ rdl.Sound c.p)
    (huniq : ∀ x y, IsStationary c.p x → IsStationary c.p y → x = y) :
    ∃ f run, timeRelaxations c sccs (.ok rdl) v vd vt = .ok (some (t.map f)) ∧ RunsOf c run ∧
      ∀ t m, t ≤ m → f t =
        ∑ i, d i * meanDraw fun u => (((run i m u)[t]?).map (visits s)).getD 0 := by
  obtain ⟨run, hrun, hmean, -⟩ := runs_of hc
  rcases C85_time_relaxations_partial hc h h1 h2 ht hr with ⟨x, -, -, hx⟩ | ⟨x, y, hx, hy, hne, -⟩
  · refine ⟨_, run, hx, hrun, fun t m hm => sum_congr rfl fun i _ => ?_⟩
    rw [mean_at hmean i hm (visits s), mul_sum]
    exact sum_congr rfl fun j _ => mul_assoc _ _ _
  · exact absurd (huniq x y hx hy) hne

/-- C137. `time_correlations` gives the mean product of the first observation of the initial state and
the second observation of the state at every time point, for simulated runs whose initial state is
drawn from the stationary distribution. -/
theorem C137_time_correlations_partial (hc : c.Valid) [NeZero c.n] {sccs : List (List (Fin c.n))}
    (h : IsClasses c.p sccs) {rdl : Rdl ℝ c.n} {v1 : PyVal ℝ} {v2 : Option (PyVal ℝ)} {vt : PyVal ℝ}
    {s1 : List ℕ} {s2 : Option (List ℕ)} {t : OneOrMany ℕ}
    (h1 : validateSequence v1 c.states = .ok s1) (h2 : optionalSequence v2 c.states = .ok s2)
    (ht : validateTimePoints vt = .ok t)
    (hr : (∀ u ∈ t.toList, u ≤ c.n) ∨ rdl.Sound c.p)
    (huniq : ∀ x y, IsStationary c.p x → IsStationary c.p y → x = y) :
    ∃ f run x, timeCorrelations c sccs (.ok rdl) v1 v2 vt = .ok (some (t.map f)) ∧
      IsStationary c.p x ∧ RunsOf c run ∧
      ∀ t m, t ≤ m → f t = ∑ i, x i * meanDraw fun u =>
        visits s1 i * (((run i m u)[t]?).map (visits (s2.getD s1))).getD 0 := by
  obtain ⟨run, hrun, hmean, -⟩ := runs_of hc
  rcases C84_time_correlations_partial hc h h1 h2 ht hr with ⟨x, hst, -, hx⟩ | ⟨x, y, hx, hy, hne, -⟩
  · refine ⟨_, run, x, hx, hst, hrun, fun t m hm => sum_congr rfl fun i _ => ?_⟩
    have h : (meanDraw fun u => visits s1 i * (((run i m u)[t]?).map (visits (s2.getD s1))).getD 0) =
        visits s1 i * meanDraw fun u => (((run i m u)[t]?).map (visits (s2.getD s1))).getD 0 :=
      integral_const_mul _ _
    rw [h, mean_at hmean i hm, mul_sum, mul_sum]
    exact sum_congr rfl fun j _ => by ring
  · exact absurd (huniq x y hx hy) hne

/-! ## Instances -/

/-- The hypotheses of the theorems can be met. -/
theorem C137_instance : exDrunkard.toReal.Valid ∧
    validateInteger (.int 3 : PyVal ℝ) (some (0, true)) none = .ok 3 ∧
    validateLabel (.int 1 : PyVal ℝ) exDrunkard.toReal.states = .ok 1 ∧
    (redistribute exDrunkard (.int 3) .none (.bool false)).toOption.isSome ∧
    (sequenceProbability exLoop.toReal (.list [.int 0, .int 1, .int 1])).toOption.isSome ∧
    (expectedRewards exLoop (.int 2) (.list [.int 1, .int 2])).toOption.isSome ∧
    (firstPassageProbabilities exLoop (.int 2) (.int 1) (.int 0)).toOption.isSome := by
  refine ⟨toReal_valid (by decide +kernel), rfl, rfl, by decide +kernel, by rfl, by decide +kernel,
    by decide +kernel⟩

end Verif
