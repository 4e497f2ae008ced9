import Verif.Lemmas.Law
import Verif.Props.HiddenSimulation
import Verif.Props.SequencePlot
import Verif.Props.Spectral

/-!
# The law of simulated runs (C116, C117)
-/

set_option linter.unusedSectionVars false

namespace Verif

open MeasureTheory Finset

/-! ## Uniform draws -/

/-- The law of `rng.random`: uniform on `[0, 1)`. -/
noncomputable def uniformDraw : Measure ℝ := volume.restrict (Set.Ico 0 1)

instance : IsProbabilityMeasure uniformDraw := by
  constructor
  rw [uniformDraw, Measure.restrict_apply_univ, Real.volume_Ico]
  norm_num

theorem uniformDraw_between {A : Set ℝ} {a b : ℝ} (h1 : Set.Ioo a b ⊆ A ∩ Set.Ico 0 1)
    (h2 : A ∩ Set.Ico 0 1 ⊆ Set.Icc a b) : uniformDraw A = ENNReal.ofReal (b - a) := by
  rw [uniformDraw, Measure.restrict_apply' measurableSet_Ico]
  refine le_antisymm ((measure_mono h2).trans_eq Real.volume_Icc) ?_
  exact Real.volume_Ioo.symm.le.trans (measure_mono h1)

variable {n k : ℕ}

/-- The sum of the weights before `m`. -/
def weightBefore (w : Fin n → ℝ) (m : ℕ) : ℝ := ∑ i : Fin n with i.val < m, w i

theorem weightBefore_succ (w : Fin n → ℝ) (j : Fin n) :
    weightBefore w (j + 1) = weightBefore w j + w j := by
  unfold weightBefore
  have : (univ.filter fun i : Fin n => i.val < j.val + 1) =
      insert j (univ.filter fun i : Fin n => i.val < j.val) := by
    ext i
    simp only [mem_filter, mem_univ, true_and, mem_insert, Fin.ext_iff]
    omega
  rw [this, sum_insert (by simp), add_comm]

theorem weightBefore_mono {w : Fin n → ℝ} (hw : IsDist w) {a b : ℕ} (h : a ≤ b) :
    weightBefore w a ≤ weightBefore w b := by
  unfold weightBefore
  refine sum_le_sum_of_subset_of_nonneg ?_ fun i _ _ => hw.1 i
  intro i
  simp only [mem_filter, mem_univ, true_and]
  omega

theorem weightBefore_zero (w : Fin n → ℝ) : weightBefore w 0 = 0 := by
  unfold weightBefore
  simp

theorem weightBefore_all {w : Fin n → ℝ} (hw : IsDist w) {m : ℕ} (h : n ≤ m) : weightBefore w m = 1 := by
  unfold weightBefore
  rw [← hw.2]
  refine sum_congr ?_ fun _ _ => rfl
  ext i
  simp only [mem_filter, mem_univ, true_and, iff_true]
  omega

theorem weightBefore_range {w : Fin n → ℝ} (hw : IsDist w) (m : ℕ) :
    0 ≤ weightBefore w m ∧ weightBefore w m ≤ 1 := by
  constructor
  · rw [← weightBefore_zero w]
    exact weightBefore_mono hw (Nat.zero_le _)
  · rw [← weightBefore_all hw (le_max_left n m)]
    exact weightBefore_mono hw (le_max_right n m)

/-- A way to choose an index by a draw that respects the cumulative weights has their law. -/
theorem law_of_inversion {w : Fin n → ℝ} (hw : IsDist w) {f : ℝ → Fin n}
    (hlow : ∀ x, 0 ≤ x → x < 1 → weightBefore w (f x) ≤ x)
    (hhigh : ∀ x, 0 ≤ x → x < 1 → x ≤ weightBefore w (f x + 1)) (j : Fin n) :
    uniformDraw {x | f x = j} = ENNReal.ofReal (w j) := by
  have e : w j = weightBefore w (j + 1) - weightBefore w j := by
    rw [weightBefore_succ]
    ring
  rw [e]
  refine uniformDraw_between ?_ ?_
  · rintro x ⟨h1, h2⟩
    have h0 : 0 ≤ x := (weightBefore_range hw _).1.trans h1.le
    have h3 : x < 1 := h2.trans_le (weightBefore_range hw _).2
    refine ⟨?_, h0, h3⟩
    change f x = j
    by_contra hne
    rcases lt_or_gt_of_ne hne with h | h
    · exact absurd ((hhigh x h0 h3).trans (weightBefore_mono hw (Fin.lt_def.1 h))) (not_le.2 h1)
    · exact absurd ((weightBefore_mono hw (Fin.lt_def.1 h)).trans (hlow x h0 h3)) (not_le.2 h2)
  · rintro x ⟨rfl, h0, h1⟩
    exact ⟨hlow x h0 h1, hhigh x h0 h1⟩

/-! ## The two ways of choosing an index -/

/-- `rng.choice` with the draw `x`. -/
noncomputable def cdfPick [NeZero n] (w : Fin n → ℝ) (x : ℝ) : Fin n :=
  ((List.finRange n).find? fun j => decide (x < ∑ i with i ≤ j, w i)).getD 0

theorem cdfChoice_eq [NeZero n] (u : ℕ → ℝ) (t : ℕ) (w : Fin n → ℝ) :
    cdfChoice u t w = cdfPick w (u t) := rfl

theorem measurable_find (p : Fin n → ℝ → Prop) [∀ j x, Decidable (p j x)]
    (hp : ∀ j, MeasurableSet {x | p j x}) (l : List (Fin n)) (o : Option (Fin n)) :
    MeasurableSet {x | (l.find? fun j => decide (p j x)) = o} := by
  induction l with
  | nil =>
    by_cases h : none = o
    · convert MeasurableSet.univ
      exact Set.ext fun x => ⟨fun _ => trivial, fun _ => h⟩
    · convert MeasurableSet.empty
      exact Set.ext fun x => ⟨fun h' => h h', fun h' => absurd h' (Set.notMem_empty _)⟩
  | cons a l ih =>
    by_cases h : some a = o
    · convert (hp a).union ((hp a).compl.inter ih)
      ext x
      by_cases hx : p a x <;> simp [hx, h]
    · convert (hp a).compl.inter ih
      ext x
      by_cases hx : p a x <;> simp [hx, h]

theorem measurable_cdfPick [NeZero n] (w : Fin n → ℝ) (j : Fin n) : MeasurableSet {x | cdfPick w x = j} := by
  have h := measurable_find (fun j x => x < ∑ i with i ≤ j, w i) (fun j => measurableSet_Iio)
    (List.finRange n)
  by_cases hj : (0 : Fin n) = j
  · convert (h (some j)).union (h none) using 1
    ext x
    simp only [Set.mem_ofPred_eq, Set.mem_union, cdfPick]
    cases (List.finRange n).find? fun j => decide (x < ∑ i with i ≤ j, w i) <;> simp [hj]
  · convert h (some j) using 1
    ext x
    simp only [Set.mem_ofPred_eq, cdfPick]
    cases (List.finRange n).find? fun j => decide (x < ∑ i with i ≤ j, w i) <;> simp [hj]

theorem cumulative_eq {w : Fin n → ℝ} (hw : IsDist w) (j : ℕ) : cumulative w j = weightBefore w (j + 1) := by
  unfold cumulative weightBefore
  rw [hw.2, div_one]
  refine sum_congr ?_ fun _ _ => rfl
  ext i
  simp only [mem_filter, mem_univ, true_and]
  omega

theorem cdfPick_law [NeZero n] {w : Fin n → ℝ} (hw : IsDist w) (j : Fin n) :
    uniformDraw {x | cdfPick w x = j} = ENNReal.ofReal (w j) := by
  have hle : ∀ j : Fin n, (∑ i with i ≤ j, w i) = weightBefore w (j + 1) := by
    intro j
    unfold weightBefore
    refine sum_congr ?_ fun _ _ => rfl
    ext i
    simp only [mem_filter, mem_univ, true_and, Fin.le_def]
    omega
  have key : ∀ x, 0 ≤ x → x < 1 → x < weightBefore w (cdfPick w x + 1) ∧
      weightBefore w (cdfPick w x) ≤ x := by
    intro x h0 h1
    have hn : 0 < n := Nat.pos_of_ne_zero (NeZero.ne n)
    unfold cdfPick
    cases hf : (List.finRange n).find? fun j => decide (x < ∑ i with i ≤ j, w i) with
    | none =>
      rw [List.find?_eq_none] at hf
      have := hf ⟨n - 1, by omega⟩ (List.mem_finRange _)
      rw [decide_eq_true_eq, hle, weightBefore_all hw (by simp only; omega)] at this
      exact absurd h1 this
    | some j =>
      rw [List.find?_eq_some_iff_getElem] at hf
      obtain ⟨hj, m, hm, rfl, hbefore⟩ := hf
      rw [decide_eq_true_eq, hle] at hj
      refine ⟨hj, ?_⟩
      change weightBefore w ((List.finRange n)[m] : Fin n) ≤ x
      have hv : ((List.finRange n)[m] : Fin n).val = m := by simp
      rw [hv]
      rcases Nat.eq_zero_or_pos m with h | h
      · rw [h, weightBefore_zero]
        exact h0
      · have hb := hbefore (m - 1) (by omega)
        have hv' : ((List.finRange n)[m - 1] : Fin n).val = m - 1 := by simp
        rw [Bool.not_eq_true', decide_eq_false_iff_not, hle, hv', not_lt] at hb
        rwa [Nat.sub_add_cancel h] at hb
  exact law_of_inversion hw (fun x h0 h1 => (key x h0 h1).2) (fun x h0 h1 => (key x h0 h1).1.le) j

theorem measurable_pickLoop (w : Fin n → ℝ) (m r : ℕ) : MeasurableSet {x | pickLoop w x m = r} := by
  induction m with
  | zero =>
    by_cases h : 0 = r
    · convert MeasurableSet.univ
      exact Set.ext fun x => ⟨fun _ => trivial, fun _ => h⟩
    · convert MeasurableSet.empty
      exact Set.ext fun x => ⟨fun h' => h h', fun h' => absurd h' (Set.notMem_empty _)⟩
  | succ m ih =>
    have hi : MeasurableSet (Set.Ioi (cumulative w m)) := measurableSet_Ioi
    by_cases h : m + 1 = r
    · convert hi.union (hi.compl.inter ih) using 1
      ext x
      by_cases hx : cumulative w m < x
      · simp [pickLoop, hx, h]
      · simp [pickLoop, hx, not_lt.1 hx]
    · convert hi.compl.inter ih using 1
      ext x
      by_cases hx : cumulative w m < x
      · simp [pickLoop, hx, h]
      · simp [pickLoop, hx, not_lt.1 hx]

theorem measurable_pick (w : Fin n → ℝ) (hn : 0 < n) (j : Fin n) : MeasurableSet {x | pick w x hn = j} := by
  convert measurable_pickLoop w (n - 1) j using 1
  ext x
  simp only [Set.mem_ofPred_eq, pick, Fin.ext_iff]

theorem pick_law {w : Fin n → ℝ} (hw : IsDist w) (hn : 0 < n) (j : Fin n) :
    uniformDraw {x | pick w x hn = j} = ENNReal.ofReal (w j) := by
  refine law_of_inversion hw ?_ ?_ j
  · intro x h0 h1
    change weightBefore w (pickLoop w x (n - 1)) ≤ x
    rcases (pickLoop_spec w x (n - 1)).1 with h | h
    · rw [h, weightBefore_zero]
      exact h0
    · rcases Nat.eq_zero_or_pos (pickLoop w x (n - 1)) with h' | h'
      · rw [h', weightBefore_zero]
        exact h0
      · rw [cumulative_eq hw, Nat.sub_add_cancel h'] at h
        exact h.le
  · intro x h0 h1
    change x ≤ weightBefore w (pickLoop w x (n - 1) + 1)
    rcases Nat.lt_or_ge (pickLoop w x (n - 1)) (n - 1) with h | h
    · rw [← cumulative_eq hw]
      exact (pickLoop_spec w x (n - 1)).2 _ le_rfl h
    · rw [weightBefore_all hw (by omega)]
      exact h1.le

/-! ## Chains -/

theorem simulateLoop_eq [NeZero n] (P : Matrix (Fin n) (Fin n) ℝ) (f : Option (Fin n)) (u : ℕ → ℝ) (k : ℕ) :
    ∀ (t : ℕ) (i : Fin n), simulateLoop (cdfChoice u) P f k t i =
      stopAt (fun a => f = some a) (runFrom (fun i x => cdfPick (P i) x) u k t i) := by
  induction k with
  | zero => exact fun _ _ => rfl
  | succ k ih =>
    intro t i
    by_cases h : f = some (cdfPick (P i) (u t))
    · exact (if_pos h).trans (if_pos h).symm
    · exact ((if_neg h).trans (congrArg _ (ih (t + 1) _))).trans (if_neg h).symm

theorem simulate_eq {K : Type} [Field K] [LinearOrder K] [IsStrictOrderedRing K] {c : MC K}
    (choice : Choice K c.n) (start : Fin c.n)
    {steps initialState finalState : PyVal K} {s : ℤ} {i f : Option (Fin c.n)}
    (hs : validateInteger steps (some (2, false)) none = .ok s)
    (hi : OptionalState initialState c.states i) (hf : OptionalState finalState c.states f) (b : Bool) :
    simulate c choice start steps initialState finalState (.bool b) =
      .ok (render c.states b (mcSimulate choice c.p s.toNat (i.getD start) f)) := by
  unfold simulate
  rw [hs]
  change (optionalLabel initialState c.states c.n >>= _) = _
  rw [optionalLabel_ok hi]
  change (optionalLabel finalState c.states c.n >>= _) = _
  rw [optionalLabel_ok hf]
  rfl

theorem mcSimulate_law {c : MC ℝ} (hc : c.Valid) [NeZero c.n] (s : ℕ) (i : Fin c.n) (f : Option (Fin c.n))
    (E : List (Fin c.n) → Prop) [DecidablePred E] :
    Measure.infinitePi (fun _ : ℕ => uniformDraw) {u | E (mcSimulate (cdfChoice u) c.p s i f)} =
      ENNReal.ofReal (prob c.p s i fun w => E (i :: stopAt (fun a => f = some a) w)) := by
  simp only [mcSimulate, simulateLoop_eq]
  exact law_of_run (Q := c.p) hc.2.1.1 (fun i j => measurable_cdfPick (c.p i) j)
    (fun i j => cdfPick_law ⟨hc.2.1.1 i, hc.2.1.2 i⟩ j) s 0 i
    fun w => E (i :: stopAt (fun a => f = some a) w)

/-- C116. With uniform and independent draws, the simulated run of a chain has the law of the chain that
stops at the first later visit of the final state: for every set of paths, the probability that the run
belongs to it is the probability that the chain follows one of them. -/
theorem C116_simulate {c : MC ℝ} (hc : c.Valid) [NeZero c.n] (start : Fin c.n)
    {steps initialState finalState : PyVal ℝ} {s : ℤ} {i f : Option (Fin c.n)}
    (hs : validateInteger steps (some (2, false)) none = .ok s)
    (hi : OptionalState initialState c.states i) (hf : OptionalState finalState c.states f) :
    ∃ run : (ℕ → ℝ) → List (Fin c.n),
      (∀ u b, simulate c (cdfChoice u) start steps initialState finalState (.bool b) =
        .ok (render c.states b (run u))) ∧
      ∀ (E : List (Fin c.n) → Prop) [DecidablePred E],
        Measure.infinitePi (fun _ : ℕ => uniformDraw) {u | E (run u)} =
          ENNReal.ofReal (prob c.p s.toNat (i.getD start) fun w =>
            E (i.getD start :: stopAt (fun a => f = some a) w)) := by
  exact ⟨fun u => mcSimulate (cdfChoice u) c.p s.toNat (i.getD start) f,
    fun u b => simulate_eq (cdfChoice u) start hs hi hf b, fun E _ => mcSimulate_law hc _ _ _ E⟩

theorem stopAt_none (w : List (Fin n)) : stopAt (fun a => (none : Option (Fin n)) = some a) w = w := by
  induction w with
  | nil => rfl
  | cons a w ih =>
    unfold stopAt
    rw [if_neg (by simp), ih]

theorem prob_iff {ι : Type*} [Fintype ι] (P : ι → ι → ℝ) (k : ℕ) (i : ι) {E E' : List ι → Prop}
    [DecidablePred E] [DecidablePred E'] (h : ∀ w, E w ↔ E' w) : prob P k i E = prob P k i E' := by
  unfold prob
  congr 1
  funext w
  by_cases hw : E w
  · rw [if_pos hw, if_pos ((h w).1 hw)]
  · rw [if_neg hw, if_neg fun h' => hw ((h w).2 h')]

theorem prob_path {ι : Type*} [Fintype ι] [DecidableEq ι] (P : ι → ι → ℝ) (k : ℕ) : ∀ (i : ι) (v : List ι),
    v.length = k → prob P k i (fun w => w = v) = walkProb P (i :: v) := by
  induction k with
  | zero =>
    intro i v hv
    rw [List.length_eq_zero_iff.1 hv]
    rfl
  | succ k ih =>
    intro i v hv
    obtain ⟨a, v, rfl⟩ := List.exists_cons_of_length_eq_add_one hv
    rw [prob_succ, sum_eq_single a]
    · rw [walkProb, ← ih a v (by simpa using hv)]
      simp only [List.cons.injEq, true_and]
    · intro j _ hj
      have : (fun w => decide (j :: w = a :: v)) = fun _ => false := by
        funext w
        simp [hj]
      have h0 : prob P k j (fun w => j :: w = a :: v) = 0 := by
        unfold prob
        simp only [List.cons.injEq, hj, false_and, if_false]
        exact expect_zero P k j
      rw [h0, mul_zero]
    · simp

theorem prob_state {P : Matrix (Fin n) (Fin n) ℝ} (hP : IsStochastic P) (t : ℕ) : ∀ (k : ℕ) (i j : Fin n),
    t ≤ k → prob P k i (fun w => (i :: w)[t]? = some j) = (P ^ t) i j := by
  induction t with
  | zero =>
    intro k i j _
    unfold prob
    simp only [List.getElem?_cons_zero, Option.some.injEq, pow_zero, Matrix.one_apply]
    exact expect_const hP k i _
  | succ t ih =>
    intro k i j hk
    obtain ⟨k, rfl⟩ := Nat.exists_eq_succ_of_ne_zero (show k ≠ 0 by omega)
    rw [pow_succ', Matrix.mul_apply]
    refine (prob_succ (fun i j => P i j) k i _).trans ?_
    refine sum_congr rfl fun a _ => ?_
    rw [← ih k a j (by omega)]
    rfl

/-- C116 for runs without a final state: a given path has the probability of its transitions, and the
state at the time `t` has the law of `t` steps. -/
theorem C116_paths {c : MC ℝ} (hc : c.Valid) [NeZero c.n] (start : Fin c.n)
    {steps initialState : PyVal ℝ} {s : ℤ} {i : Option (Fin c.n)}
    (hs : validateInteger steps (some (2, false)) none = .ok s)
    (hi : OptionalState initialState c.states i) :
    ∃ run : (ℕ → ℝ) → List (Fin c.n),
      (∀ u b, simulate c (cdfChoice u) start steps initialState .none (.bool b) =
        .ok (render c.states b (run u))) ∧
      (∀ v : List (Fin c.n), v.length = s.toNat →
        Measure.infinitePi (fun _ : ℕ => uniformDraw) {u | run u = i.getD start :: v} =
          ENNReal.ofReal (walkProb c.p (i.getD start :: v))) ∧
      ∀ t ≤ s.toNat, ∀ j, Measure.infinitePi (fun _ : ℕ => uniformDraw) {u | (run u)[t]? = some j} =
        ENNReal.ofReal ((c.p ^ t) (i.getD start) j) := by
  obtain ⟨run, h1, h2⟩ := C116_simulate hc start hs hi (f := none) (Or.inl ⟨rfl, rfl⟩)
  refine ⟨run, h1, fun v hv => ?_, fun t ht j => ?_⟩
  · rw [h2 fun w => w = i.getD start :: v]
    refine congrArg ENNReal.ofReal ((prob_iff c.p _ _ fun w => ?_).trans (prob_path c.p _ _ _ hv))
    rw [stopAt_none, List.cons.injEq]
    simp
  · rw [h2 fun w => w[t]? = some j]
    refine congrArg ENNReal.ofReal ((prob_iff c.p _ _ fun w => ?_).trans (prob_state hc.2.1 t _ _ _ ht))
    rw [stopAt_none]

/-- C116, one step. `next` returns each state with its transition probability. -/
theorem C116_next {c : MC ℝ} (hc : c.Valid) [NeZero c.n] {initialState : PyVal ℝ} {i : Fin c.n}
    (hi : validateLabel initialState c.states = .ok i.val) (j : Fin c.n) :
    Measure.infinitePi (fun _ : ℕ => uniformDraw)
      {u | next c (cdfChoice u) initialState (.bool true) = .ok (.indices [j.val])} =
        ENNReal.ofReal (c.p i j) := by
  have hu : ∀ u : ℕ → ℝ, next c (cdfChoice u) initialState (.bool true) =
      .ok (.indices [(cdfPick (c.p i) (u 0)).val]) := by
    intro u
    unfold next
    rw [hi]
    change (asState c.n i.val >>= _) = _
    rw [asState_ok]
    rfl
  have := law_of_run (Q := c.p) hc.2.1.1 (fun i j => measurable_cdfPick (c.p i) j)
      (fun i j => cdfPick_law ⟨hc.2.1.1 i, hc.2.1.2 i⟩ j) 1 0 i fun w => w = [j]
  have hp : prob (fun i j => c.p i j) 1 i (fun w => w = [j]) = c.p i j :=
    (prob_path (fun i j => c.p i j) 1 i [j] rfl).trans (mul_one _)
  refine Eq.trans ?_ (this.trans (congrArg ENNReal.ofReal hp))
  congr 1
  ext u
  simp only [Set.mem_ofPred_eq, hu, runFrom, List.cons.injEq, and_true, Except.ok.injEq,
    Output.indices.injEq, Fin.ext_iff]

/-! ## Hidden models -/

/-- The next state and its symbol, from two draws. -/
noncomputable def pairPick (P : Matrix (Fin n) (Fin n) ℝ) (E : Matrix (Fin n) (Fin k) ℝ) (hn : 0 < n)
    (hk : 0 < k) (a : Fin n × Fin k) (x : ℝ × ℝ) : Fin n × Fin k :=
  (pick (P a.1) x.1 hn, pick (E (pick (P a.1) x.1 hn)) x.2 hk)

instance (f : Option (Fin n)) (g : Option (Fin k)) : DecidablePred (FinalPair f g) := fun q =>
  inferInstanceAs (Decidable (f = some q.1 ∨ g = some q.2))

theorem hmmSimulateLoop_eq (P : Matrix (Fin n) (Fin n) ℝ) (E : Matrix (Fin n) (Fin k) ℝ) (hn : 0 < n)
    (hk : 0 < k) (f : Option (Fin n)) (g : Option (Fin k)) (u : ℕ → ℝ × ℝ) (m : ℕ) :
    ∀ (t : ℕ) (a : Fin n × Fin k),
      hmmSimulateLoop P E hn hk (fun t => (u t).1) (fun t => (u t).2) f g m t a.1 =
        stopAt (FinalPair f g) (runFrom (pairPick P E hn hk) u m t a) := by
  induction m with
  | zero => exact fun _ _ => rfl
  | succ m ih =>
    intro t a
    by_cases h : FinalPair f g (pairPick P E hn hk a (u t))
    · exact (if_pos h).trans (if_pos h).symm
    · exact ((if_neg h).trans (congrArg _ (ih (t + 1) (pairPick P E hn hk a (u t))))).trans (if_neg h).symm

theorem pairPick_set (P : Matrix (Fin n) (Fin n) ℝ) (E : Matrix (Fin n) (Fin k) ℝ) (hn : 0 < n) (hk : 0 < k)
    (a b : Fin n × Fin k) : {x | pairPick P E hn hk a x = b} =
      {x | pick (P a.1) x hn = b.1} ×ˢ {x | pick (E b.1) x hk = b.2} := by
  ext x
  simp only [Set.mem_ofPred_eq, Set.mem_prod, pairPick, Prod.ext_iff]
  constructor
  · rintro ⟨h1, h2⟩
    rw [h1] at h2
    exact ⟨h1, h2⟩
  · rintro ⟨h1, h2⟩
    rw [h1]
    exact ⟨rfl, h2⟩

/-- The draws of a simulation of a hidden model: one for the first symbol, and for every step one for the
state and one for the symbol, all uniform and independent. -/
noncomputable def hiddenDraws : Measure (ℝ × (ℕ → ℝ × ℝ)) :=
  uniformDraw.prod (Measure.infinitePi fun _ : ℕ => uniformDraw.prod uniformDraw)

/-- C117. With uniform and independent draws, the simulated run of a hidden model has the law of the
model: the first symbol is emitted by the start state, and every later pair of a state and a symbol has
the transition probability times the emission probability, up to the first pair that is final. -/
theorem C117_simulate {m : HMM ℝ} (hm : m.Valid) (hn : 0 < m.n) (hk : 0 < m.k) [NeZero m.k]
    (start : Fin m.n) {steps initialState finalState finalSymbol : PyVal ℝ} {s : ℤ} {i f : Option (Fin m.n)}
    {g : Option (Fin m.k)} (hs : validateInteger steps (some (2, false)) none = .ok s)
    (hi : OptionalState initialState m.states i) (hf : OptionalState finalState m.states f)
    (hg : OptionalState finalSymbol m.symbols g) :
    ∃ run : ℝ × (ℕ → ℝ × ℝ) → List (Fin m.n × Fin m.k),
      (∀ ω, m.simulate hn hk (cdfChoice fun _ => ω.1) (fun t => (ω.2 t).1) (fun t => (ω.2 t).2) start steps
        initialState finalState finalSymbol = .ok (run ω)) ∧
      ∀ (A : List (Fin m.n × Fin m.k) → Prop) [DecidablePred A],
        hiddenDraws {ω | A (run ω)} =
          ENNReal.ofReal (∑ y, m.e (i.getD start) y * prob (pairChain m.p m.e) s.toNat (i.getD start, y)
            fun w => A ((i.getD start, y) :: stopAt (FinalPair f g) w)) := by
  refine ⟨fun ω => hmmSimulate m.p m.e hn hk (cdfChoice fun _ => ω.1) (fun t => (ω.2 t).1)
    (fun t => (ω.2 t).2) s.toNat (i.getD start) f g, ?_, ?_⟩
  · intro ω
    unfold HMM.simulate
    rw [hs]
    change (optionalLabel initialState m.states m.n >>= _) = _
    rw [optionalLabel_ok hi]
    change (optionalLabel finalState m.states m.n >>= _) = _
    rw [optionalLabel_ok hf]
    change (optionalLabel finalSymbol m.symbols m.k >>= _) = _
    rw [optionalLabel_ok hg]
    rfl
  · intro A _
    obtain ⟨x, hx⟩ : ∃ x, x = i.getD start := ⟨_, rfl⟩
    rw [← hx]
    have hP := hm.2.2.1
    have hE := hm.2.2.2.1
    have hQ : ∀ a b, 0 ≤ pairChain (fun i j => m.p i j) (fun i j => m.e i j) a b :=
      fun a b => mul_nonneg (hP.1 _ _) (hE.1 _ _)
    have hmeas : ∀ a b, MeasurableSet {ω | pairPick m.p m.e hn hk a ω = b} := by
      intro a b
      rw [pairPick_set]
      exact (measurable_pick _ hn _).prod (measurable_pick _ hk _)
    have hlaw : ∀ a b, uniformDraw.prod uniformDraw {ω | pairPick m.p m.e hn hk a ω = b} =
        ENNReal.ofReal (pairChain (fun i j => m.p i j) (fun i j => m.e i j) a b) := by
      intro a b
      rw [pairPick_set, Measure.prod_prod, pick_law ⟨hP.1 _, hP.2 _⟩, pick_law ⟨hE.1 _, hE.2 _⟩,
        ← ENNReal.ofReal_mul (hP.1 _ _)]
      rfl
    have hset : {ω : ℝ × (ℕ → ℝ × ℝ) | A (hmmSimulate m.p m.e hn hk (cdfChoice fun _ => ω.1)
          (fun t => (ω.2 t).1) (fun t => (ω.2 t).2) s.toNat x f g)} =
        ⋃ y, {z | cdfPick (m.e x) z = y} ×ˢ {u | A ((x, y) ::
          stopAt (FinalPair f g) (runFrom (pairPick m.p m.e hn hk) u s.toNat 0 (x, y)))} := by
      ext ω
      simp only [Set.mem_ofPred_eq, Set.mem_iUnion, Set.mem_prod, exists_eq_left']
      rw [← hmmSimulateLoop_eq]
      rfl
    rw [hset, hiddenDraws, measure_iUnion]
    · rw [tsum_fintype, ENNReal.ofReal_sum_of_nonneg]
      · refine sum_congr rfl fun y _ => ?_
        rw [Measure.prod_prod, ENNReal.ofReal_mul (hE.1 _ _)]
        refine congrArg₂ (· * ·) (cdfPick_law ⟨hE.1 _, hE.2 _⟩ y) ?_
        exact law_of_run hQ hmeas hlaw s.toNat 0 (x, y)
          fun w => A ((x, y) :: stopAt (FinalPair f g) w)
      · exact fun y _ => mul_nonneg (hE.1 _ _) (prob_nonneg' hQ _ _ _)
    · intro y y' hy
      refine Set.disjoint_left.2 fun ω h h' => hy ?_
      exact h.1.symm.trans h'.1
    · intro y
      exact (measurable_cdfPick _ y).prod (measurable_runFrom hmeas _ _ _ fun w =>
        A ((x, y) :: stopAt (FinalPair f g) w))

theorem walkProb_pairs (P : Fin n → Fin n → ℝ) (E : Fin n → Fin k → ℝ) (l : List (Fin n × Fin k)) :
    ∀ a, walkProb (pairChain P E) (a :: l) =
      walkProb P (a.1 :: l.map Prod.fst) * emitProb E (l.map Prod.fst) (l.map Prod.snd) := by
  induction l with
  | nil => intro a; simp [walkProb, emitProb]
  | cons b l ih =>
    intro a
    simp only [walkProb, List.map_cons, emitProb, ih b, pairChain]
    ring

theorem stopAt_never (w : List (Fin n × Fin k)) :
    stopAt (FinalPair (none : Option (Fin n)) (none : Option (Fin k))) w = w := by
  induction w with
  | nil => rfl
  | cons a w ih =>
    unfold stopAt
    rw [if_neg (by simp [FinalPair]), ih]

/-- C117 for runs without a final state or symbol: given states and symbols have the product of the
transition probabilities and the emission probabilities of all states, including the first one. -/
theorem C117_paths {m : HMM ℝ} (hm : m.Valid) (hn : 0 < m.n) (hk : 0 < m.k) [NeZero m.k]
    (start : Fin m.n) {steps initialState : PyVal ℝ} {s : ℤ} {i : Option (Fin m.n)}
    (hs : validateInteger steps (some (2, false)) none = .ok s)
    (hi : OptionalState initialState m.states i) :
    ∃ run : ℝ × (ℕ → ℝ × ℝ) → List (Fin m.n × Fin m.k),
      (∀ ω, m.simulate hn hk (cdfChoice fun _ => ω.1) (fun t => (ω.2 t).1) (fun t => (ω.2 t).2) start steps
        initialState .none .none = .ok (run ω)) ∧
      ∀ (y : Fin m.k) (l : List (Fin m.n × Fin m.k)), l.length = s.toNat →
        hiddenDraws {ω | run ω = (i.getD start, y) :: l} =
          ENNReal.ofReal (walkProb m.p (i.getD start :: l.map Prod.fst) *
            emitProb m.e (i.getD start :: l.map Prod.fst) (y :: l.map Prod.snd)) := by
  obtain ⟨run, h1, h2⟩ := C117_simulate hm hn hk start hs hi (f := none) (g := none)
    (Or.inl ⟨rfl, rfl⟩) (Or.inl ⟨rfl, rfl⟩)
  refine ⟨run, h1, fun y l hl => ?_⟩
  rw [h2 fun w => w = (i.getD start, y) :: l]
  refine congrArg ENNReal.ofReal ?_
  rw [sum_eq_single y]
  · rw [prob_iff (E' := fun w => w = l) _ _ _ fun w => by rw [stopAt_never, List.cons.injEq]; simp]
    rw [prob_path _ _ _ _ hl]
    refine (congrArg _ (walkProb_pairs (fun i j => m.p i j) (fun i j => m.e i j) l _)).trans ?_
    exact mul_left_comm _ _ _
  · intro y' _ hy
    have h0 : prob (pairChain m.p m.e) s.toNat (i.getD start, y')
        (fun w => (i.getD start, y') :: stopAt (FinalPair none none) w = (i.getD start, y) :: l) = 0 := by
      unfold prob
      simp only [List.cons.injEq, Prod.mk.injEq, hy, and_false, false_and, if_false]
      exact expect_zero _ _ _
    rw [h0, mul_zero]
  · simp

/-- The hypotheses can be met: two steps of a chain that changes its state with probability `q` return to
the start with probability `q ^ 2` over the other state. -/
example : ∃ run : (ℕ → ℝ) → List (Fin 2),
    (∀ u, simulate (exSymmetric (1 / 3)) (cdfChoice (n := 2) u) (0 : Fin 2) (.int 2) (.str "a") .none
      (.bool true) = .ok (.indices ((run u).map Fin.val))) ∧
    Measure.infinitePi (fun _ : ℕ => uniformDraw) {u | run u = [0, 1, 0]} = ENNReal.ofReal (1 / 9) := by
  have hv : (exSymmetric (1 / 3)).Valid := exSymmetric_valid (by norm_num) (by norm_num)
  have : NeZero (exSymmetric (1 / 3)).n := ⟨show (2 : ℕ) ≠ 0 by decide⟩
  obtain ⟨run, h1, h2, -⟩ := C116_paths hv (0 : Fin 2) (steps := .int 2) (s := 2)
    (initialState := .str "a") (i := some (0 : Fin 2)) rfl (Or.inr ⟨(0 : Fin 2), (fun h => by cases h), rfl, rfl⟩)
  refine ⟨run, fun u => h1 u true, (h2 [(1 : Fin 2), (0 : Fin 2)] rfl).trans (congrArg ENNReal.ofReal ?_)⟩
  change swapP (1 / 3) 0 1 * (swapP (1 / 3) 1 0 * 1) = _
  norm_num [swapP]

/-- The hypotheses can be met: the run of a model that alternates between two states with their own
symbols is certain. -/
example : ∃ run : ℝ × (ℕ → ℝ × ℝ) → List (Fin 2 × Fin 2),
    (∀ ω, exClockR.simulate (show 0 < 2 by decide) (show 0 < 2 by decide) (cdfChoice (n := 2) fun _ => ω.1)
      (fun t => (ω.2 t).1) (fun t => (ω.2 t).2) (0 : Fin 2) (.int 2) (.str "a") .none .none =
        .ok (run ω)) ∧
    hiddenDraws {ω | run ω = [(0, 0), (1, 1), (0, 0)]} = 1 := by
  have : NeZero exClockR.k := ⟨show (2 : ℕ) ≠ 0 by decide⟩
  obtain ⟨run, h1, h2⟩ := C117_paths exClockR_valid (show 0 < 2 by decide) (show 0 < 2 by decide) (0 : Fin 2)
    (steps := .int 2) (s := 2) (initialState := .str "a") (i := some (0 : Fin 2)) rfl
    (Or.inr ⟨(0 : Fin 2), (fun h => by cases h), rfl, rfl⟩)
  refine ⟨run, h1, (h2 (0 : Fin 2) [((1 : Fin 2), (1 : Fin 2)), ((0 : Fin 2), (0 : Fin 2))] rfl).trans ?_⟩
  change ENNReal.ofReal ((exClockR.p (0 : Fin 2) (1 : Fin 2) * (exClockR.p (1 : Fin 2) (0 : Fin 2) * 1)) *
    (exClockR.e (0 : Fin 2) (0 : Fin 2) * (exClockR.e (1 : Fin 2) (1 : Fin 2) *
      (exClockR.e (0 : Fin 2) (0 : Fin 2) * 1)))) = 1
  rw [exClockR_p, exClockR_p, exClockR_e, exClockR_e]
  norm_num

end Verif
