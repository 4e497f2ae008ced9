import Verif.Model.Simulation
import Verif.Spec.Paths
import Verif.Lemmas.Chain
import Verif.Lemmas.Cast
import Verif.Props.Arguments
import Verif.Props.Fitting
import Verif.Props.Passage

/-!
# Simulation, prediction and sequence probabilities (C53, C54, C55)
-/

set_option linter.unusedSectionVars false

namespace Verif

open Finset

variable {K : Type} [Field K] [LinearOrder K] [IsStrictOrderedRing K]

/-! ## Arguments -/

theorem asState_ok {n : ℕ} (i : Fin n) : asState n i.val = .ok i := by
  unfold asState
  rw [dif_pos i.isLt]
  rfl

/-- The value of an optional label argument. -/
def OptionalState (v : PyVal K) (labels : List String) {n : ℕ} (o : Option (Fin n)) : Prop :=
  (v = .none ∧ o = none) ∨ ∃ i : Fin n, v ≠ .none ∧ validateLabel v labels = .ok i.val ∧ o = some i

theorem optionalLabel_ok {v : PyVal K} {labels : List String} {n : ℕ} {o : Option (Fin n)}
    (h : OptionalState v labels o) : optionalLabel v labels n = .ok o := by
  rcases h with ⟨rfl, rfl⟩ | ⟨i, hv, hi, rfl⟩
  · rfl
  · have : optionalLabel v labels n =
        (validateLabel v labels >>= fun k => asState n k >>= fun i => pure (some i)) := by
      cases v <;> first | rfl | exact absurd rfl hv
    rw [this, hi]
    change (asState n i.val >>= _) = _
    rw [asState_ok]
    rfl

/-! ## The random number generator -/

/-- The contract of `rng.choice`: an index of weight zero is never returned. -/
def Choice.Sound {n : ℕ} (choice : Choice K n) : Prop :=
  ∀ t (w : Fin n → K), IsDist w → 0 < w (choice t w)

/-- Inverse transform sampling from the draw `u`, the way NumPy implements `choice`: the first index
whose cumulative weight exceeds the draw. -/
def cdfChoice {n : ℕ} [NeZero n] (u : ℕ → K) : Choice K n := fun t w =>
  ((List.finRange n).find? fun j => decide (u t < ∑ i with i ≤ j, w i)).getD 0

/-- Sampling by inverse transform satisfies the contract for every stream of draws in `[0, 1)`. -/
theorem cdfChoice_sound {n : ℕ} [NeZero n] {u : ℕ → K} (hu : ∀ t, 0 ≤ u t ∧ u t < 1) :
    Choice.Sound (cdfChoice (n := n) u) := by
  intro t w hw
  unfold cdfChoice
  cases hf : (List.finRange n).find? fun j => decide (u t < ∑ i with i ≤ j, w i) with
  | none =>
    exfalso
    rw [List.find?_eq_none] at hf
    have hn : 0 < n := Nat.pos_of_ne_zero (NeZero.ne n)
    have := hf ⟨n - 1, by omega⟩ (List.mem_finRange _)
    have h1 : (univ.filter fun i : Fin n => i ≤ ⟨n - 1, by omega⟩) = univ := by
      ext i
      simp only [mem_filter, mem_univ, true_and, iff_true, Fin.le_def]
      omega
    rw [h1, hw.2] at this
    simp only [decide_eq_true_eq] at this
    exact this (hu t).2
  | some j =>
    simp only [Option.getD_some]
    rw [List.find?_eq_some_iff_getElem] at hf
    obtain ⟨hj, m, hm, hmj, hbefore⟩ := hf
    simp only [decide_eq_true_eq] at hj
    refine lt_of_le_of_ne (hw.1 j) fun h0 => ?_
    have hmv : (j : ℕ) = m := by rw [← hmj]; simp
    have hsum : ∑ i with i ≤ j, w i = ∑ i with i < j, w i := by
      have : (univ.filter fun i : Fin n => i ≤ j) = insert j (univ.filter fun i : Fin n => i < j) := by
        ext i; simp [le_iff_eq_or_lt]
      rw [this, sum_insert (by simp), ← h0, zero_add]
    rw [hsum] at hj
    rcases Nat.eq_zero_or_pos m with h | h
    · have : (univ.filter fun i : Fin n => i < j) = ∅ := by
        ext i
        simp only [mem_filter, mem_univ, true_and, notMem_empty, iff_false, not_lt, Fin.le_def]
        omega
      rw [this, sum_empty] at hj
      exact absurd hj (not_lt.2 (hu t).1)
    · have hb := hbefore (m - 1) (by omega)
      simp only [List.getElem_finRange, Bool.not_eq_true', decide_eq_false_iff_not] at hb
      refine hb (lt_of_lt_of_eq hj ?_)
      refine sum_congr ?_ fun _ _ => rfl
      ext i
      simp only [mem_filter, mem_univ, true_and, Fin.lt_def, Fin.le_def, Fin.val_cast]
      omega

/-! ## Simulation (C53) -/

theorem simulateLoop_run {n : ℕ} {choice : Choice K n} {P : Matrix (Fin n) (Fin n) K}
    (hch : ∀ t i, Edge P i (choice t (P i))) (final : Option (Fin n)) (k t : ℕ) (i : Fin n) :
    (i :: simulateLoop choice P final k t i).IsChain (Edge P) ∧
      (simulateLoop choice P final k t i).length ≤ k ∧
      (∀ f, final = some f → f ∉ (simulateLoop choice P final k t i).dropLast) ∧
      ((simulateLoop choice P final k t i).length = k ∨
        ∃ f, final = some f ∧ (simulateLoop choice P final k t i).getLast? = some f) := by
  induction k generalizing t i with
  | zero => simp [simulateLoop]
  | succ k ih =>
    have hpos : Edge P i (choice t (P i)) := hch t i
    simp only [simulateLoop]
    by_cases hf : final = some (choice t (P i))
    · rw [if_pos hf]
      refine ⟨List.IsChain.cons_cons hpos (List.isChain_singleton _), by simp, by simp, Or.inr ⟨_, hf, ?_⟩⟩
      simp
    · rw [if_neg hf]
      obtain ⟨h1, h2, h3, h4⟩ := ih (t + 1) (choice t (P i))
      generalize simulateLoop choice P final k (t + 1) (choice t (P i)) = l at h1 h2 h3 h4
      refine ⟨List.IsChain.cons_cons hpos h1, by simpa using h2, ?_, ?_⟩
      · intro f hff hmem
        cases l with
        | nil => simp at hmem
        | cons a l =>
          rw [List.dropLast_cons_cons, List.mem_cons] at hmem
          rcases hmem with h | h
          · subst h; exact hf hff
          · exact h3 f hff h
      · rcases h4 with h | ⟨f, hff, hl⟩
        · exact Or.inl (by simp [h])
        · refine Or.inr ⟨f, hff, ?_⟩
          cases l with
          | nil => simp at hl
          | cons a l => simpa using hl

theorem mcSimulate_edges {n : ℕ} {choice : Choice K n} {P : Matrix (Fin n) (Fin n) K}
    (hch : ∀ t i, Edge P i (choice t (P i))) (steps : ℕ) (i : Fin n)
    (final : Option (Fin n)) : IsRun P steps i final (mcSimulate choice P steps i final) := by
  obtain ⟨h1, h2, h3, h4⟩ := simulateLoop_run hch final steps 0 i
  refine ⟨rfl, h1, by simpa [mcSimulate] using h2, h3, ?_⟩
  simpa [mcSimulate] using h4

theorem mcSimulate_run {n : ℕ} {choice : Choice K n} (hch : Choice.Sound choice)
    {P : Matrix (Fin n) (Fin n) K} (hP : IsStochastic P) (steps : ℕ) (i : Fin n)
    (final : Option (Fin n)) : IsRun P steps i final (mcSimulate choice P steps i final) :=
  mcSimulate_edges (fun t i => hch t (P i) ⟨hP.1 i, hP.2 i⟩) steps i final

/-- C53. `simulate` returns a run of the chain, for every behaviour of the random number generator:
it starts at the given state (or at the one that was drawn), follows transitions of positive
probability, and stops at the first later visit of the final state or after the given number of
steps. -/
theorem C53_simulate {c : MC K} (hc : c.Valid) {choice : Choice K c.n} (hch : Choice.Sound choice)
    (start : Fin c.n) {steps initialState finalState : PyVal K} {s : ℤ} {i f : Option (Fin c.n)}
    (hs : validateInteger steps (some (2, false)) none = .ok s)
    (hi : OptionalState initialState c.states i) (hf : OptionalState finalState c.states f) :
    2 ≤ s ∧ ∃ w : List (Fin c.n), IsRun c.p s.toNat (i.getD start) f w ∧
      simulate c choice start steps initialState finalState (.bool true) =
        .ok (.indices (w.map Fin.val)) ∧
      simulate c choice start steps initialState finalState (.bool false) =
        .ok (.labels (w.map fun i : Fin c.n => c.states.getD i.val "")) := by
  refine ⟨?_, _, mcSimulate_run (P := c.p) hch hc.2.1 _ _ _, ?_, ?_⟩
  · exact ((C03_integer_limits _ _ _ _).1 hs).2.2.1 _ rfl
  all_goals
    unfold simulate
    rw [hs]
    change (optionalLabel initialState c.states c.n >>= _) = _
    rw [optionalLabel_ok hi]
    change (optionalLabel finalState c.states c.n >>= _) = _
    rw [optionalLabel_ok hf]
    rfl

/-- C53, one step. `next` returns a state that can be reached from the given one in one step. -/
theorem C53_next {c : MC K} (hc : c.Valid) {choice : Choice K c.n} (hch : Choice.Sound choice)
    {initialState : PyVal K} {i : Fin c.n} (hi : validateLabel initialState c.states = .ok i.val) :
    ∃ j, Edge c.p i j ∧ next c choice initialState (.bool true) = .ok (.indices [j.val]) ∧
      next c choice initialState (.bool false) = .ok (.labels [c.states.getD j ""]) := by
  refine ⟨choice 0 (c.p i), hch 0 _ ⟨hc.2.1.1 i, hc.2.1.2 i⟩, ?_, ?_⟩
  all_goals
    unfold next
    rw [hi]
    change (asState c.n i.val >>= _) = _
    rw [asState_ok]
    rfl

/-- The hypotheses of `C53_simulate` can be met. -/
example : (simulate exLoop (cdfChoice (n := 2) fun _ => 1 / 3) (0 : Fin 2) (.int 5) (.str "a") .none
    (.bool true)).toOption = some (.indices [0, 1, 0, 1, 0, 1]) := by decide +kernel

/-! ## Prediction (C54) -/

theorem mem_argMaxes {n : ℕ} (d : Fin n → K) (j : Fin n) : j ∈ argMaxes d ↔ ∀ i, d i ≤ d j := by
  simp [argMaxes]

theorem argMaxes_singleton {n : ℕ} (d : Fin n → K) (j : Fin n) :
    argMaxes d = [j] ↔ ∀ i, i ≠ j → d i < d j := by
  constructor
  · intro h i hi
    have hj : ∀ i, d i ≤ d j := (mem_argMaxes d j).1 (by rw [h]; simp)
    refine lt_of_le_of_ne (hj i) fun he => hi ?_
    have : i ∈ argMaxes d := (mem_argMaxes d i).2 fun l => he ▸ hj l
    simpa [h] using this
  · intro h
    have hnd : (argMaxes d).Nodup := (List.nodup_finRange n).filter _
    have hmem : ∀ i, i ∈ argMaxes d ↔ i = j := by
      intro i
      rw [mem_argMaxes]
      constructor
      · intro hi
        by_contra hne
        exact absurd (hi j) (not_le.2 (h i hne))
      · rintro rfl l
        by_cases hl : l = i
        · exact hl ▸ le_rfl
        · exact (h l hl).le
    refine List.perm_singleton.1 ((List.perm_ext_iff_of_nodup hnd (List.nodup_singleton j)).2 ?_)
    intro i
    rw [hmem]; simp

/-- A state whose probability is larger than that of every other state of the row. -/
def StrictMax {n : ℕ} (P : Fin n → Fin n → K) (i j : Fin n) : Prop := ∀ l, l ≠ j → P i l < P i j

theorem predictLoop_eq {n : ℕ} (P : Matrix (Fin n) (Fin n) K) (k : ℕ) (i : Fin n)
    (w : List (Fin n)) :
    predictLoop P k i = some w ↔ w.length = k ∧ (i :: w).IsChain (StrictMax P) := by
  induction k generalizing i w with
  | zero =>
    simp only [predictLoop, Option.some.injEq]
    constructor
    · rintro rfl; simp
    · rintro ⟨h, -⟩; exact (List.length_eq_zero_iff.1 h).symm
  | succ k ih =>
    by_cases h : ∃ j, argMaxes (P i) = [j]
    · obtain ⟨j, hj⟩ := h
      simp only [predictLoop, hj, Option.map_eq_some_iff]
      constructor
      · rintro ⟨v, hv, rfl⟩
        rw [ih] at hv
        refine ⟨by simp [hv.1], List.IsChain.cons_cons ((argMaxes_singleton _ _).1 hj) hv.2⟩
      · rintro ⟨hl, hch⟩
        cases w with
        | nil => simp at hl
        | cons a v =>
          rw [List.isChain_cons_cons] at hch
          have : argMaxes (P i) = [a] := (argMaxes_singleton _ _).2 hch.1
          rw [hj] at this
          have haj : j = a := by simpa using this
          subst haj
          exact ⟨v, (ih j v).2 ⟨by simpa using hl, hch.2⟩, rfl⟩
    · have hn : predictLoop P (k + 1) i = none := by
        simp only [predictLoop]
        split
        · rename_i j hj; exact absurd ⟨j, hj⟩ h
        · rfl
      rw [hn]
      constructor
      · intro h'; cases h'
      · rintro ⟨hl, hch⟩
        cases w with
        | nil => simp at hl
        | cons a v =>
          rw [List.isChain_cons_cons] at hch
          exact absurd ⟨a, (argMaxes_singleton _ _).2 hch.1⟩ h

theorem predict_run {c : MC K} {steps initialState : PyVal K} {s : ℤ} {i : Fin c.n}
    (hs : validateInteger steps (some (0, true)) none = .ok s)
    (hi : validateLabel initialState c.states = .ok i.val) (b : Bool) :
    predict c steps initialState (.bool b) =
      .ok ((mcPredict c.p s.toNat i).map (render c.states b)) := by
  unfold predict
  rw [hs]
  change (validateLabel initialState c.states >>= _) = _
  rw [hi]
  change (asState c.n i.val >>= _) = _
  rw [asState_ok]
  rfl

/-- What `predict` returns for any number of steps: the sequence in which every state is the most
probable successor of the previous one, and `None` when one of these successors is not unique. -/
theorem C54_greedy {c : MC K} {steps initialState : PyVal K} {s : ℤ} {i : Fin c.n}
    (hs : validateInteger steps (some (0, true)) none = .ok s)
    (hi : validateLabel initialState c.states = .ok i.val) (r : Option Output) :
    predict c steps initialState (.bool true) = .ok r ↔
      (∃ w : List (Fin c.n), w.length = s.toNat ∧ (i :: w).IsChain (StrictMax c.p) ∧
        r = some (.indices ((i :: w).map Fin.val))) ∨
      (r = none ∧ ¬ ∃ w : List (Fin c.n), w.length = s.toNat ∧ (i :: w).IsChain (StrictMax c.p)) := by
  rw [predict_run hs hi, mcPredict, Except.ok.injEq]
  cases h : predictLoop c.p s.toNat i with
  | none =>
    have hno : ¬ ∃ w : List (Fin c.n), w.length = s.toNat ∧ (i :: w).IsChain (StrictMax c.p) := by
      rintro ⟨w, hw⟩
      rw [(predictLoop_eq c.p _ i w).2 hw] at h
      cases h
    simp only [Option.map_none]
    constructor
    · rintro rfl; exact Or.inr ⟨rfl, hno⟩
    · rintro (⟨w, h1, h2, -⟩ | ⟨rfl, -⟩)
      · exact absurd ⟨w, h1, h2⟩ hno
      · rfl
  | some w =>
    have hw := (predictLoop_eq c.p _ i w).1 h
    simp only [Option.map_some]
    constructor
    · rintro rfl
      exact Or.inl ⟨w, hw.1, hw.2, rfl⟩
    · rintro (⟨v, h1, h2, rfl⟩ | ⟨-, h'⟩)
      · rw [(predictLoop_eq c.p _ i v).2 ⟨h1, h2⟩] at h
        cases h
        rfl
      · exact absurd ⟨w, hw⟩ h'

theorem uniqueBest_one {n : ℕ} (P : Fin n → Fin n → K) (i : Fin n) (w : List (Fin n))
    (hw : w.length = 1) : UniqueBest P i w ↔ (i :: w).IsChain (StrictMax P) := by
  obtain ⟨j, rfl⟩ := List.length_eq_one_iff.1 hw
  constructor
  · intro h
    refine List.IsChain.cons_cons (fun l hl => ?_) (List.isChain_singleton _)
    simpa [walkProb] using h [l] rfl (by simpa using hl)
  · intro h v hv hne
    obtain ⟨l, rfl⟩ := List.length_eq_one_iff.1 (hv.trans hw)
    rw [List.isChain_cons_cons] at h
    simpa [walkProb] using h.1 l (by simpa using hne)

/-- C54 for a single step: the result is the most probable sequence when it is unique and `None`
otherwise. -/
theorem C54_single_step_partial {c : MC K} {initialState : PyVal K} {i : Fin c.n}
    (hi : validateLabel initialState c.states = .ok i.val) (r : Option Output) :
    predict c (.int 1) initialState (.bool true) = .ok r ↔
      (∃ w : List (Fin c.n), w.length = 1 ∧ UniqueBest c.p i w ∧
        r = some (.indices ((i :: w).map Fin.val))) ∨
      (r = none ∧ ¬ ∃ w : List (Fin c.n), w.length = 1 ∧ UniqueBest c.p i w) := by
  rw [C54_greedy ((C03_steps_positive _ _).2 ⟨rfl, le_refl 1⟩) hi]
  have h : ∀ w : List (Fin c.n), (w.length = 1 ∧ (i :: w).IsChain (StrictMax c.p)) ↔
      (w.length = 1 ∧ UniqueBest c.p i w) :=
    fun w => and_congr_right fun hw => (uniqueBest_one c.p i w hw).symm
  change (∃ w : List (Fin c.n), w.length = 1 ∧ _) ∨ (r = none ∧ ¬ ∃ w : List (Fin c.n), w.length = 1 ∧ _) ↔ _
  simp only [← and_assoc, h]

/-- A chain whose most probable first step leads to an uncertain state. -/
def exGreedy : MC ℚ := ⟨3, !![0, 6/10, 4/10; 3/10, 3/10, 4/10; 0, 0, 1], ["a", "b", "c"]⟩

/-- A chain with a tie in its first step. -/
def exTie : MC ℚ := ⟨3, !![0, 1/2, 1/2; 3/10, 3/10, 4/10; 0, 0, 1], ["a", "b", "c"]⟩

/-- C54 fails for two steps: the result is a sequence of probability 0.24, while another sequence
has probability 0.4. -/
theorem C54_not_most_probable : exGreedy.Valid ∧
    predict exGreedy (.int 2) (.str "a") (.bool true) = .ok (some (.indices [0, 1, 2])) ∧
    walkProb exGreedy.p ([0, 1, 2] : List (Fin 3)) = 24 / 100 ∧
    walkProb exGreedy.p ([0, 2, 2] : List (Fin 3)) = 40 / 100 := by
  refine ⟨by decide +kernel, ?_, by decide +kernel, by decide +kernel⟩
  have h : (predict exGreedy (.int 2) (.str "a") (.bool true)).toOption =
    some (some (.indices [0, 1, 2])) := by decide +kernel
  revert h
  cases predict exGreedy (.int 2) (.str "a") (.bool true) with
  | ok v => intro h; simpa [Except.toOption] using h
  | error e => intro h; cases h

theorem exTie_best : ∀ a b : Fin 3, ([a, b] : List (Fin 3)) ≠ [2, 2] →
    walkProb (fun i j : Fin 3 => exTie.p i j) [0, a, b] < walkProb (fun i j : Fin 3 => exTie.p i j) [0, 2, 2] := by
  decide +kernel

/-- C54 fails for two steps: the result is `None` although the most probable sequence is unique. -/
theorem C54_none_though_unique : exTie.Valid ∧
    predict exTie (.int 2) (.str "a") (.bool true) = .ok none ∧
    UniqueBest exTie.p (0 : Fin 3) ([2, 2] : List (Fin 3)) := by
  refine ⟨by decide +kernel, ?_, ?_⟩
  · have h : (predict exTie (.int 2) (.str "a") (.bool true)).toOption = some none := by
      decide +kernel
    revert h
    cases predict exTie (.int 2) (.str "a") (.bool true) with
    | ok v => intro h; simpa [Except.toOption] using h
    | error e => intro h; cases h
  · intro v hv hne
    obtain ⟨a, b, rfl⟩ := List.length_eq_two.1 hv
    exact exTie_best a b hne

/-! ## Probability of a sequence (C55) -/

theorem sequenceLoop_eq {n : ℕ} {P : Matrix (Fin n) (Fin n) ℝ} (hP : ∀ i j, 0 ≤ P i j) (wp : ℝ)
    (w : List (Fin n)) :
    (match sequenceLoop P wp w with
      | some x => Real.exp x
      | none => 0) = Real.exp wp * walkProb P w := by
  induction w generalizing wp with
  | nil => simp [sequenceLoop, walkProb]
  | cons a w ih =>
    cases w with
    | nil => simp [sequenceLoop, walkProb]
    | cons b t =>
      simp only [sequenceLoop, walkProb]
      by_cases h : 0 < P a b
      · rw [if_pos h, ih, Real.exp_add, Real.exp_log h]
        exact mul_assoc _ _ _
      · rw [if_neg h]
        have : P a b = 0 := le_antisymm (not_lt.1 h) (hP a b)
        rw [this]; simp

theorem walkProb_append {ι : Type*} [Fintype ι] (P : ι → ι → K) (i : ι) (u v : List ι) :
    walkProb P (i :: (u ++ v)) = walkProb P (i :: u) * walkProb P (u.getLastD i :: v) := by
  induction u generalizing i with
  | nil => simp [walkProb]
  | cons a u ih =>
    simp only [List.cons_append, walkProb, ih, List.getLastD_cons]
    ring

/-- C55. `sequence_probability` is the product of the transition probabilities of the walk. -/
theorem C55_sequence_probability {c : MC ℝ} (hc : c.Valid) {sequence : PyVal ℝ} {l : List ℕ}
    (hl : validateSequence sequence c.states = .ok l) :
    ∃ w : List (Fin c.n), w.map Fin.val = l ∧ 2 ≤ w.length ∧
      sequenceProbability c sequence = .ok (walkProb c.p w) := by
  have hl' := hl
  rw [C04_sequences hc.2.2.2.1] at hl'
  obtain ⟨vs, rfl, hlen, -, hf⟩ := hl'
  obtain ⟨s, rfl, hs⟩ := forall₂_names_fin hf
  have hn : c.states.length = c.n := hc.2.2.1
  refine ⟨s.map (Fin.cast hn), by simp [List.map_map, Function.comp_def], ?_, ?_⟩
  · rw [List.length_map, ← hs.length_eq]; exact hlen
  · unfold sequenceProbability
    rw [hl]
    have ht : toStates c.n (s.map Fin.val) = s.map (Fin.cast hn) := by
      unfold toStates
      rw [List.filterMap_map]
      have : ((fun k => if h : k < c.n then some (⟨k, h⟩ : Fin c.n) else none) ∘ Fin.val :
          Fin c.states.length → Option (Fin c.n)) = some ∘ Fin.cast hn := by
        funext i
        have : (i : ℕ) < c.n := hn ▸ i.isLt
        simp [this, Fin.cast]
      rw [this, List.filterMap_eq_map]
    change Except.ok (mcSequenceProbability c.p (toStates c.n (s.map Fin.val))) = _
    rw [ht]
    congr 1
    refine (sequenceLoop_eq (P := c.p) hc.2.1.1 0 _).trans ?_
    rw [Real.exp_zero, one_mul]

theorem sum_continuations {ι : Type*} [Fintype ι] {P : ι → ι → K} (hP : IsStochastic P) (i : ι)
    (u : List ι) (k : ℕ) :
    ∑ v : Fin k → ι, walkProb P (i :: (u ++ List.ofFn v)) = walkProb P (i :: u) := by
  have h := expect_eq_sum_walks P k (u.getLastD i) fun _ => 1
  rw [expect_const hP] at h
  simp only [walkProb_append, ← mul_sum]
  simp only [mul_one] at h
  rw [← h, mul_one]

/-- C55. The probabilities of all continuations of a walk by `k` steps sum to its own
probability. -/
theorem C55_continuations {c : MC ℝ} (hc : c.Valid) (i : Fin c.n) (u : List (Fin c.n)) (k : ℕ) :
    ∑ v : Fin k → Fin c.n, walkProb c.p (i :: (u ++ List.ofFn v)) = walkProb c.p (i :: u) :=
  sum_continuations hc.2.1 i u k

/-- The hypotheses of `C55_sequence_probability` can be met. -/
example : sequenceProbability exLoop.toReal (.list [.int 0, .int 1, .int 1]) = .ok (1 / 2) := by
  obtain ⟨w, h1, -, h2⟩ := C55_sequence_probability (c := exLoop.toReal)
    (sequence := .list [.int 0, .int 1, .int 1]) (l := [0, 1, 1]) (toReal_valid (by decide +kernel))
    (by rfl)
  rw [h2]
  have hw : w = ([0, 1, 1] : List (Fin 2)) := by
    refine List.map_injective_iff.2 Fin.val_injective ?_
    exact h1
  subst hw
  congr 1
  have q0 : exLoop.p (0 : Fin 2) (1 : Fin 2) = 1 := by decide +kernel
  have q1 : exLoop.p (1 : Fin 2) (1 : Fin 2) = 1 / 2 := by decide +kernel
  change ((exLoop.p (0 : Fin 2) (1 : Fin 2) : ℚ) : ℝ) *
    (((exLoop.p (1 : Fin 2) (1 : Fin 2) : ℚ) : ℝ) * 1) = _
  rw [q0, q1]
  norm_num

end Verif
