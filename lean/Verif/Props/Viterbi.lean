import Verif.Props.HiddenSimulation
import Mathlib.Algebra.Order.Monoid.WithTop

/-!
# Prediction of hidden paths (C57)
-/

set_option linter.unusedSectionVars false

namespace Verif

open Finset

variable {K : Type} [Field K] [LinearOrder K] [IsStrictOrderedRing K] {n k : ℕ}

theorem firstMax_max {α : Type} [LinearOrder α] {d : Fin n → α} {j : Fin n}
    (h : firstMax d = some j) (i : Fin n) : d i ≤ d j := by
  have := List.find?_some h
  exact (of_decide_eq_true this) i

theorem firstMax_some {α : Type} [LinearOrder α] (d : Fin n → α) (hn : 0 < n) :
    ∃ j, firstMax d = some j := by
  have : Nonempty (Fin n) := ⟨⟨0, hn⟩⟩
  obtain ⟨j, hj⟩ := Finite.exists_max d
  have : (firstMax d).isSome := by
    unfold firstMax
    rw [List.find?_isSome]
    exact ⟨j, List.mem_finRange j, decide_eq_true hj⟩
  exact Option.isSome_iff_exists.1 this

theorem firstMax_getD {α : Type} [LinearOrder α] (d : Fin n → α) (j i : Fin n) :
    d i ≤ d ((firstMax d).getD j) := by
  obtain ⟨l, hl⟩ := firstMax_some d (Fin.pos j)
  rw [hl]
  exact firstMax_max hl i

/-! ## Logarithms with `-inf` -/

theorem logBot_of_pos {x : ℝ} (h : 0 < x) : logBot x = (Real.log x : ℝ) := if_pos h

theorem logBot_eq_bot {x : ℝ} (h : 0 ≤ x) : logBot x = ⊥ ↔ x = 0 := by
  unfold logBot
  split
  · rename_i h'
    simp [h'.ne']
  · rename_i h'
    simp only [true_iff]
    exact le_antisymm (not_lt.1 h') h

theorem logBot_mul {x y : ℝ} (hx : 0 ≤ x) (hy : 0 ≤ y) : logBot (x * y) = logBot x + logBot y := by
  rcases hx.eq_or_lt with rfl | hx
  · simp [logBot]
  rcases hy.eq_or_lt with rfl | hy
  · simp [logBot]
  rw [logBot_of_pos hx, logBot_of_pos hy, logBot_of_pos (mul_pos hx hy),
    Real.log_mul hx.ne' hy.ne', WithBot.coe_add]

theorem logBot_one : logBot 1 = 0 := by
  rw [logBot_of_pos one_pos, Real.log_one]; rfl

/-- Rounding changes a value by at most `δ`. -/
theorem map_rnd_le {rnd : ℝ → ℝ} {δ : ℝ} (hr : ∀ x, |rnd x - x| ≤ δ) (x : WithBot ℝ) :
    x.map rnd ≤ x + (δ : ℝ) ∧ x ≤ x.map rnd + (δ : ℝ) := by
  induction x with
  | bot => simp
  | coe x =>
    have := abs_le.1 (hr x)
    rw [WithBot.map_coe, ← WithBot.coe_add, ← WithBot.coe_add, WithBot.coe_le_coe, WithBot.coe_le_coe]
    constructor <;> linarith

theorem map_eq_bot {rnd : ℝ → ℝ} {x : WithBot ℝ} : x.map rnd = ⊥ ↔ x = ⊥ := by
  induction x with
  | bot => simp
  | coe x => simp

/-! ## The loop -/

/-- The logarithm of the probability of the path `x :: w` and of the emission of `ys` by `w`. -/
noncomputable def pathLog (P : Matrix (Fin n) (Fin n) ℝ) (E : Matrix (Fin n) (Fin k) ℝ) (x : Fin n)
    (w : List (Fin n)) (ys : List (Fin k)) : WithBot ℝ :=
  logBot (walkProb (fun i j => P i j) (x :: w) * emitProb (fun i j => E i j) w ys)

theorem walkProb_nonneg' {P : Matrix (Fin n) (Fin n) ℝ} (hP : ∀ i j, 0 ≤ P i j) (w : List (Fin n)) :
    0 ≤ walkProb (fun i j => P i j) w := by
  induction w with
  | nil => exact zero_le_one
  | cons a w ih =>
    cases w with
    | nil => exact zero_le_one
    | cons b w => exact mul_nonneg (hP a b) ih

theorem emitProb_nonneg' {E : Matrix (Fin n) (Fin k) ℝ} (hE : ∀ i j, 0 ≤ E i j) (w : List (Fin n))
    (ys : List (Fin k)) : 0 ≤ emitProb (fun i j => E i j) w ys := by
  induction w generalizing ys with
  | nil => cases ys <;> simp [emitProb]
  | cons a w ih =>
    cases ys with
    | nil => simp [emitProb]
    | cons y ys => exact mul_nonneg (hE a y) (ih ys)

section loop

variable {P : Matrix (Fin n) (Fin n) ℝ} {E : Matrix (Fin n) (Fin k) ℝ} (hP : ∀ i j, 0 ≤ P i j)
  (hE : ∀ i j, 0 ≤ E i j)

include hP hE

theorem pathLog_cons (x s : Fin n) (w : List (Fin n)) (y : Fin k) (ys : List (Fin k)) :
    pathLog P E x (s :: w) (y :: ys) = logBot (P x s) + logBot (E s y) + pathLog P E s w ys := by
  unfold pathLog
  have h1 : walkProb (fun i j => P i j) (x :: s :: w) = P x s * walkProb (fun i j => P i j) (s :: w) := rfl
  have h2 : emitProb (fun i j => E i j) (s :: w) (y :: ys) = E s y * emitProb (fun i j => E i j) w ys := rfl
  rw [h1, h2, ← logBot_mul (hP _ _) (hE _ _), ← logBot_mul (mul_nonneg (hP _ _) (hE _ _))
    (mul_nonneg (walkProb_nonneg' hP _) (emitProb_nonneg' hE _ _))]
  congr 1
  ring

variable {rnd : ℝ → ℝ} {δ : ℝ} (hr : ∀ x, |rnd x - x| ≤ δ)

include hr

theorem viterbiStep_ge (omega : Fin n → WithBot ℝ) (y : Fin k) (x s : Fin n) :
    omega x + (logBot (P x s) + logBot (E s y)) ≤
      (viterbiStep rnd P E omega y).1 s + (δ : ℝ) := by
  have h1 : omega x + logBot (P x s) ≤ viterbiCandidates rnd P omega s x + (δ : ℝ) := (map_rnd_le hr _).2
  have h2 := firstMax_getD (viterbiCandidates rnd P omega s) s x
  change _ ≤ viterbiCandidates rnd P omega s _ + logBot (E s y) + (δ : ℝ)
  calc omega x + (logBot (P x s) + logBot (E s y)) = (omega x + logBot (P x s)) + logBot (E s y) := by
        rw [add_assoc]
    _ ≤ (viterbiCandidates rnd P omega s x + (δ : ℝ)) + logBot (E s y) := by gcongr
    _ ≤ (viterbiCandidates rnd P omega s ((firstMax (viterbiCandidates rnd P omega s)).getD s) +
          (δ : ℝ)) + logBot (E s y) := by gcongr
    _ = _ := by rw [add_right_comm]

theorem viterbiStep_le (omega : Fin n → WithBot ℝ) (y : Fin k) (s : Fin n) :
    (viterbiStep rnd P E omega y).1 s ≤
      omega ((viterbiStep rnd P E omega y).2 s) +
        (logBot (P ((viterbiStep rnd P E omega y).2 s) s) + logBot (E s y)) + (δ : ℝ) := by
  obtain ⟨x, hx⟩ : ∃ x, x = (viterbiStep rnd P E omega y).2 s := ⟨_, rfl⟩
  rw [← hx]
  have h1 : viterbiCandidates rnd P omega s x ≤ omega x + logBot (P x s) + (δ : ℝ) := (map_rnd_le hr _).1
  have h2 : (viterbiStep rnd P E omega y).1 s = viterbiCandidates rnd P omega s x + logBot (E s y) := by
    rw [hx]; rfl
  rw [h2]
  calc viterbiCandidates rnd P omega s x + logBot (E s y)
      ≤ (omega x + logBot (P x s) + (δ : ℝ)) + logBot (E s y) := by gcongr
    _ = _ := by rw [add_right_comm, add_assoc (omega x)]

theorem viterbiLoop_none {omega : Fin n → WithBot ℝ} {ys : List (Fin k)}
    (h : viterbiLoop rnd P E omega ys = none) (x : Fin n) (w : List (Fin n))
    (hw : w.length = ys.length) : omega x + pathLog P E x w ys = ⊥ := by
  induction ys generalizing omega x w with
  | nil => cases h
  | cons y ys ih =>
    cases w with
    | nil => simp at hw
    | cons s w =>
      rw [pathLog_cons hP hE, ← add_assoc]
      have hge := viterbiStep_ge hP hE hr omega y x s
      simp only [viterbiLoop] at h
      split at h
      · rename_i hb
        rw [hb s, WithBot.bot_add] at hge
        rw [le_bot_iff.1 hge, WithBot.bot_add]
      · rw [Option.map_eq_none_iff] at h
        have := ih h s w (by simpa using hw)
        rw [WithBot.add_eq_bot] at this
        rcases this with h' | h'
        · rw [h', WithBot.bot_add] at hge
          rw [le_bot_iff.1 hge, WithBot.bot_add]
        · rw [h', WithBot.add_bot]

/-- The values of the last row bound the values of all paths, up to the rounding. -/
theorem viterbiLoop_ge {omega : Fin n → WithBot ℝ} {ys : List (Fin k)}
    {q : (Fin n → WithBot ℝ) × List (Fin n → Fin n)} (h : viterbiLoop rnd P E omega ys = some q)
    (x : Fin n) (w : List (Fin n)) (hw : w.length = ys.length) :
    omega x + pathLog P E x w ys ≤ q.1 (w.getLastD x) + ((ys.length * δ : ℝ) : WithBot ℝ) := by
  induction ys generalizing omega x w q with
  | nil =>
    cases h
    have : w = [] := by simpa using hw
    subst this
    have : pathLog P E x [] [] = 0 := by simp [pathLog, walkProb, emitProb, logBot_one]
    rw [this]
    simp
  | cons y ys ih =>
    cases w with
    | nil => simp at hw
    | cons s w =>
      rw [pathLog_cons hP hE, ← add_assoc]
      have hge := viterbiStep_ge hP hE hr omega y x s
      simp only [viterbiLoop] at h
      split at h
      · cases h
      · rw [Option.map_eq_some_iff] at h
        obtain ⟨q', hq', rfl⟩ := h
        have := ih hq' s w (by simpa using hw)
        rw [List.getLastD_cons]
        calc omega x + (logBot (P x s) + logBot (E s y)) + pathLog P E s w ys
            ≤ ((viterbiStep rnd P E omega y).1 s + (δ : ℝ)) + pathLog P E s w ys := by gcongr
          _ = ((viterbiStep rnd P E omega y).1 s + pathLog P E s w ys) + (δ : ℝ) := by
            rw [add_right_comm]
          _ ≤ (q'.1 (w.getLastD s) + ((ys.length * δ : ℝ) : WithBot ℝ)) + (δ : ℝ) := by gcongr
          _ = _ := by
            rw [add_assoc, ← WithBot.coe_add]
            congr 2
            push_cast [List.length_cons]
            ring

/-- The value of the last row is reached by the path that is followed backwards, up to the rounding.
-/
theorem viterbiLoop_le {omega : Fin n → WithBot ℝ} {ys : List (Fin k)}
    {q : (Fin n → WithBot ℝ) × List (Fin n → Fin n)} (h : viterbiLoop rnd P E omega ys = some q)
    (last : Fin n) : ∃ x w, backtrack q.2 last = x :: w ∧ w.length = ys.length ∧
      q.1 last ≤ omega x + pathLog P E x w ys + ((ys.length * δ : ℝ) : WithBot ℝ) := by
  induction ys generalizing omega q with
  | nil =>
    cases h
    refine ⟨last, [], rfl, rfl, ?_⟩
    have : pathLog P E last [] [] = 0 := by simp [pathLog, walkProb, emitProb, logBot_one]
    rw [this]
    simp
  | cons y ys ih =>
    simp only [viterbiLoop] at h
    split at h
    · cases h
    · rw [Option.map_eq_some_iff] at h
      obtain ⟨q', hq', rfl⟩ := h
      obtain ⟨s, w, h1, h2, h3⟩ := ih hq'
      refine ⟨(viterbiStep rnd P E omega y).2 s, s :: w, ?_, by simp [h2], ?_⟩
      · simp only [backtrack, h1, List.headD_cons]
      · rw [pathLog_cons hP hE]
        have hle := viterbiStep_le hP hE hr omega y s
        obtain ⟨x, hx⟩ : ∃ x, x = (viterbiStep rnd P E omega y).2 s := ⟨_, rfl⟩
        rw [← hx] at hle ⊢
        calc q'.1 last
            ≤ (viterbiStep rnd P E omega y).1 s + pathLog P E s w ys +
                ((ys.length * δ : ℝ) : WithBot ℝ) := h3
          _ ≤ (omega x + (logBot (P x s) + logBot (E s y)) + (δ : ℝ)) + pathLog P E s w ys +
                ((ys.length * δ : ℝ) : WithBot ℝ) := by gcongr
          _ = omega x + (logBot (P x s) + logBot (E s y) + pathLog P E s w ys) +
                ((δ : ℝ) + ((ys.length * δ : ℝ) : WithBot ℝ)) := by
              rw [add_right_comm _ ((δ : ℝ) : WithBot ℝ), add_assoc (omega x), add_assoc _ ((δ : ℝ) : WithBot ℝ)]
          _ = _ := by
            rw [← WithBot.coe_add]
            congr 2
            push_cast [List.length_cons]
            ring

theorem viterbiLoop_ne_bot {omega : Fin n → WithBot ℝ} {ys : List (Fin k)}
    {q : (Fin n → WithBot ℝ) × List (Fin n → Fin n)} (h0 : ∃ j, omega j ≠ ⊥)
    (h : viterbiLoop rnd P E omega ys = some q) : (∃ j, q.1 j ≠ ⊥) ∧ q.2.length = ys.length := by
  induction ys generalizing omega q with
  | nil => cases h; exact ⟨h0, rfl⟩
  | cons y ys ih =>
    simp only [viterbiLoop] at h
    split at h
    · cases h
    · rename_i hne
      push Not at hne
      rw [Option.map_eq_some_iff] at h
      obtain ⟨q', hq', rfl⟩ := h
      obtain ⟨h1, h2⟩ := ih hne hq'
      exact ⟨h1, by simp [h2]⟩

/-- What `_predict_viterbi` computes. The weight of a path is its joint probability with the symbols,
multiplied with the probability that the start state emits the first symbol. -/
theorem predictViterbi_spec {init : Fin n → ℝ} (h0 : ∀ i, 0 ≤ init i) (hn : 0 < n) {y : Fin k}
    {ys : List (Fin k)} {weight : Fin n → List (Fin n) → ℝ}
    (hweight : weight = fun x w =>
      E x y * jointProb (fun i j => P i j) (fun i j => E i j) init x w (y :: ys)) :
    (predictViterbi rnd P E init (y :: ys) = none ↔
      ∀ x w, w.length = ys.length + 1 → weight x w = 0) ∧
    ∀ r, predictViterbi rnd P E init (y :: ys) = some r → ∃ (v : ℝ) (x : Fin n),
      r.1 = (v : WithBot ℝ) ∧ r.2.length = ys.length + 1 ∧ 0 < weight x r.2 ∧
      |v - Real.log (weight x r.2)| ≤ (ys.length + 1) * δ ∧
      ∀ x' w', w'.length = ys.length + 1 →
        weight x' w' ≤ Real.exp (2 * ((ys.length + 1) * δ)) * weight x r.2 := by
  have hnn : ∀ x w, 0 ≤ weight x w := by
    intro x w
    rw [hweight]
    exact mul_nonneg (hE _ _) (mul_nonneg (mul_nonneg (h0 x) (walkProb_nonneg' hP _))
      (emitProb_nonneg' hE _ _))
  obtain ⟨omega, homega⟩ : ∃ omega : Fin n → WithBot ℝ, omega = fun j => logBot (init j * E j y) :=
    ⟨_, rfl⟩
  have hlog : ∀ x w, logBot (weight x w) = omega x + pathLog P E x w (y :: ys) := by
    intro x w
    rw [hweight, homega]
    simp only [jointProb, pathLog]
    rw [← logBot_mul (mul_nonneg (h0 x) (hE _ _))
      (mul_nonneg (walkProb_nonneg' hP _) (emitProb_nonneg' hE _ _))]
    congr 1
    ring
  have hdef : predictViterbi rnd P E init (y :: ys) = if ∀ j, omega j = ⊥ then none
    else (viterbiLoop rnd P E omega (y :: ys)).bind fun q =>
      (firstMax q.1).map fun last => (q.1 last, backtrack q.2.tail last) := by
    rw [homega]; rfl
  have hcast : ((ys.length + 1 : ℕ) : ℝ) = ys.length + 1 := by push_cast; rfl
  have hsome : ∀ r, predictViterbi rnd P E init (y :: ys) = some r → ∃ (v : ℝ) (x : Fin n),
      r.1 = (v : WithBot ℝ) ∧ r.2.length = ys.length + 1 ∧ 0 < weight x r.2 ∧
      |v - Real.log (weight x r.2)| ≤ (ys.length + 1) * δ ∧
      ∀ x' w', w'.length = ys.length + 1 →
        weight x' w' ≤ Real.exp (2 * ((ys.length + 1) * δ)) * weight x r.2 := by
    intro r hr'
    rw [hdef] at hr'
    split at hr'
    · cases hr'
    · rename_i hnb
      push Not at hnb
      rw [Option.bind_eq_some_iff] at hr'
      obtain ⟨q, hq, hr'⟩ := hr'
      rw [Option.map_eq_some_iff] at hr'
      obtain ⟨last, hlast, rfl⟩ := hr'
      obtain ⟨⟨j, hj⟩, hlen⟩ := viterbiLoop_ne_bot hP hE hr hnb hq
      have hmax := firstMax_max hlast
      have hlastne : q.1 last ≠ ⊥ := by
        intro hb
        have := hmax j
        rw [hb] at this
        exact hj (le_bot_iff.1 this)
      obtain ⟨v, hv⟩ := WithBot.ne_bot_iff_exists.1 hlastne
      obtain ⟨x, w, hb, hw, hle⟩ := viterbiLoop_le hP hE hr hq last
      have hbt : backtrack q.2.tail last = w := by
        cases hq2 : q.2 with
        | nil => rw [hq2] at hlen; simp at hlen
        | cons f fs =>
          rw [hq2] at hb
          simp only [backtrack, List.cons.injEq] at hb
          exact hb.2
      have hge : ∀ x' w', w'.length = ys.length + 1 →
          logBot (weight x' w') ≤ ((v + (ys.length + 1) * δ : ℝ) : WithBot ℝ) := by
        intro x' w' hw'
        rw [hlog]
        refine (viterbiLoop_ge hP hE hr hq x' w' (by simpa using hw')).trans ?_
        have := hmax (w'.getLastD x')
        rw [← hv] at this
        rw [WithBot.coe_add, ← hcast]
        exact add_le_add_left this _
      rw [← hlog, ← hv, List.length_cons, hcast] at hle
      have hwpos : 0 < weight x w := by
        rcases (hnn x w).eq_or_lt with h | h
        · rw [← h] at hle
          simp [logBot] at hle
        · exact h
      have hwlen : w.length = ys.length + 1 := by simpa using hw
      have hge' := hge x w hwlen
      rw [logBot_of_pos hwpos, WithBot.coe_le_coe] at hge'
      rw [logBot_of_pos hwpos, ← WithBot.coe_add, WithBot.coe_le_coe] at hle
      refine ⟨v, x, hv.symm, ?_, ?_, ?_, ?_⟩
      · simp only [hbt]; exact hwlen
      · simp only [hbt]; exact hwpos
      · simp only [hbt]
        rw [abs_le]
        constructor <;> linarith
      · intro x' w' hw'
        simp only [hbt]
        have h' := hge x' w' hw'
        rcases (hnn x' w').eq_or_lt with h | h
        · rw [← h]
          exact mul_nonneg (Real.exp_pos _).le (hnn _ _)
        · rw [logBot_of_pos h, WithBot.coe_le_coe] at h'
          rw [← Real.exp_log h, ← Real.exp_log hwpos, ← Real.exp_add]
          exact Real.exp_le_exp.2 (by linarith)
  refine ⟨⟨fun h x w hw => ?_, fun h => ?_⟩, hsome⟩
  · rw [hdef] at h
    rw [← logBot_eq_bot (hnn x w), hlog]
    split at h
    · rename_i hb
      rw [hb x, WithBot.bot_add]
    · rw [Option.bind_eq_none_iff] at h
      cases hq : viterbiLoop rnd P E omega (y :: ys) with
      | none => exact viterbiLoop_none hP hE hr hq x w (by simpa using hw)
      | some q =>
        obtain ⟨j, hj⟩ := firstMax_some q.1 hn
        have := h q hq
        rw [hj] at this
        cases this
  · cases hp : predictViterbi rnd P E init (y :: ys) with
    | none => rfl
    | some r =>
      obtain ⟨v, x, -, h2, h3, -⟩ := hsome r hp
      exact absurd (h x r.2 h2) h3.ne'

end loop

/-! ## The method -/

theorem initialStatus_nonneg {status : PyVal ℝ} {labels : List String} {n : ℕ} {init : Fin n → ℝ}
    (hl : ValidLabels n labels) (hn : 2 ≤ n) (h : initialStatus status labels n = .ok init)
    (i : Fin n) : 0 ≤ init i := by
  unfold initialStatus at h
  rw [R.bind_ok] at h
  obtain ⟨l, hl', h⟩ := h
  obtain ⟨-, h2, -⟩ := statusVector_ok hl hn hl'
  simp only [pure, Except.pure, Except.ok.injEq] at h
  subst h
  exact h2 i

theorem hmmPredict_run {m : HMM ℝ} {rnd : ℝ → ℝ} {t : String} {symbols status : PyVal ℝ} {l : List ℕ}
    {init : Fin m.n → ℝ} (ht : t ∈ ["map", "mle", "viterbi"])
    (hy : validateSequence symbols m.symbols = .ok l)
    (hs : initialStatus status m.states m.n = .ok init) :
    m.predict rnd (.str t) symbols status = .ok (hmmPredict rnd t m.p m.e init (toStates m.k l)) := by
  have h1 : validateEnumerator (.str t : PyVal ℝ) ["map", "mle", "viterbi"] = .ok t := by
    simp only [List.mem_cons, List.not_mem_nil, or_false] at ht
    rcases ht with rfl | rfl | rfl <;> rfl
  unfold HMM.predict
  rw [h1]
  change (validateSequence symbols m.symbols >>= _) = _
  rw [hy]
  change (initialStatus status m.states m.n >>= _) = _
  rw [hs]
  rfl

/-- C57 (partial: the joint probability is multiplied with the probability that the start state also
emits the first symbol). The prediction is `None` exactly when no start state and path has a positive
weight. Otherwise the path, with some start state, maximises the weight and the value is the logarithm
of the weight, both up to the rounding error `δ` of every step. -/
theorem C57_viterbi_partial {m : HMM ℝ} (hm : m.Valid) {rnd : ℝ → ℝ} {δ : ℝ}
    (hr : ∀ x, |rnd x - x| ≤ δ) {t : String} (ht : t = "mle" ∨ t = "viterbi")
    {symbols status : PyVal ℝ} {l : List ℕ} {init : Fin m.n → ℝ}
    (hy : validateSequence symbols m.symbols = .ok l)
    (hs : initialStatus status m.states m.n = .ok init) {y : Fin m.k} {ys : List (Fin m.k)}
    (hys : toStates m.k l = y :: ys) :
    (m.predict rnd (.str t) symbols status = .ok none ↔
      ∀ x w, w.length = (y :: ys).length → m.e x y * jointProb m.p m.e init x w (y :: ys) = 0) ∧
    ∀ r, m.predict rnd (.str t) symbols status = .ok (some r) → ∃ (v : ℝ) (x : Fin m.n),
      r.1 = (v : WithBot ℝ) ∧ r.2.length = (y :: ys).length ∧
      0 < m.e x y * jointProb m.p m.e init x r.2 (y :: ys) ∧
      |v - Real.log (m.e x y * jointProb m.p m.e init x r.2 (y :: ys))| ≤ (y :: ys).length * δ ∧
      ∀ x' w', w'.length = (y :: ys).length →
        m.e x' y * jointProb m.p m.e init x' w' (y :: ys) ≤
          Real.exp (2 * ((y :: ys).length * δ)) *
            (m.e x y * jointProb m.p m.e init x r.2 (y :: ys)) := by
  have hrun := hmmPredict_run (rnd := rnd) (t := t) (by rcases ht with rfl | rfl <;> simp) hy hs
  have hp : hmmPredict rnd t m.p m.e init (toStates m.k l) =
      predictViterbi rnd m.p m.e init (y :: ys) := by
    rw [hys]
    rcases ht with rfl | rfl <;> rfl
  rw [hp] at hrun
  obtain ⟨h1, h2⟩ := predictViterbi_spec hm.2.2.1.1 hm.2.2.2.1.1 hr
    (initialStatus_nonneg hm.2.2.2.2.1 hm.1 hs) (by have := hm.1; omega) (y := y) (ys := ys) rfl
  rw [hrun]
  simp only [Except.ok.injEq, List.length_cons, Nat.cast_add, Nat.cast_one]
  exact ⟨h1, h2⟩

/-- C57 in the sense of the documentation, if all states emit the first symbol with the same positive
probability: the path maximises the joint probability with the symbols, up to the rounding, and
`None` is returned only if no path is possible. -/
theorem C57_viterbi_optimal_partial {m : HMM ℝ} (hm : m.Valid) {rnd : ℝ → ℝ} {δ : ℝ}
    (hr : ∀ x, |rnd x - x| ≤ δ) {t : String} (ht : t = "mle" ∨ t = "viterbi")
    {symbols status : PyVal ℝ} {l : List ℕ} {init : Fin m.n → ℝ}
    (hy : validateSequence symbols m.symbols = .ok l)
    (hs : initialStatus status m.states m.n = .ok init) {y : Fin m.k} {ys : List (Fin m.k)}
    (hys : toStates m.k l = y :: ys) {c : ℝ} (hc : 0 < c) (hsame : ∀ i, m.e i y = c) :
    (m.predict rnd (.str t) symbols status = .ok none ↔
      ∀ x w, w.length = (y :: ys).length → jointProb m.p m.e init x w (y :: ys) = 0) ∧
    ∀ r, m.predict rnd (.str t) symbols status = .ok (some r) → ∃ x : Fin m.n,
      r.2.length = (y :: ys).length ∧ 0 < jointProb m.p m.e init x r.2 (y :: ys) ∧
      ∀ x' w', w'.length = (y :: ys).length →
        jointProb m.p m.e init x' w' (y :: ys) ≤
          Real.exp (2 * ((y :: ys).length * δ)) * jointProb m.p m.e init x r.2 (y :: ys) := by
  obtain ⟨h1, h2⟩ := C57_viterbi_partial hm hr ht hy hs hys
  constructor
  · rw [h1]
    refine forall_congr' fun x => forall_congr' fun w => imp_congr_right fun _ => ?_
    rw [hsame x, mul_eq_zero]
    simp [hc.ne']
  · intro r hr'
    obtain ⟨v, x, -, h3, h4, -, h6⟩ := h2 r hr'
    rw [hsame x] at h4
    refine ⟨x, h3, (pos_iff_pos_of_mul_pos h4).1 hc, fun x' w' hw' => ?_⟩
    have := h6 x' w' hw'
    rw [hsame x, hsame x', mul_left_comm] at this
    exact le_of_mul_le_mul_left this hc

/-- C57 fails: a path that is certain given the start state is not found. The model alternates between
`a` and `b`, which emit `u` and `v`; it starts in `a`. If the start state emits no symbol, then the
symbols `v`, `u` are certain. If it emits the first symbol, then `u`, `v` are certain. Both predictions
are `None`. -/
theorem C57_none_though_certain : exClockR.Valid ∧ ∃ init : Fin 2 → ℝ,
    initialStatus (.str "a" : PyVal ℝ) exClockR.states 2 = .ok init ∧
    jointProb exClockR.p exClockR.e init (0 : Fin 2) ([1, 0] : List (Fin 2)) ([1, 0] : List (Fin 2)) = 1 ∧
    init 0 * walkProb exClockR.p ([0, 1] : List (Fin 2)) *
      emitProb exClockR.e ([0, 1] : List (Fin 2)) ([0, 1] : List (Fin 2)) = 1 ∧
    ∀ (rnd : ℝ → ℝ) (δ : ℝ), (∀ x, |rnd x - x| ≤ δ) →
      exClockR.predict rnd (.str "viterbi") (.list [.str "v", .str "u"]) (.str "a") = .ok none ∧
      exClockR.predict rnd (.str "viterbi") (.list [.str "u", .str "v"]) (.str "a") = .ok none := by
  have hinit : ∀ i : Fin 2, listVec (oneHot 2 0 : List ℝ) 2 i = if i = 0 then 1 else 0 := by
    intro i
    fin_cases i <;> simp [listVec, oneHot]
  refine ⟨exClockR_valid, listVec (oneHot 2 0) 2, rfl, ?_, ?_, fun rnd δ hr => ⟨?_, ?_⟩⟩
  · have e1 : exClockR.p (0 : Fin 2) (1 : Fin 2) = 1 := by rw [exClockR_p]; simp
    have e2 : exClockR.p (1 : Fin 2) (0 : Fin 2) = 1 := by rw [exClockR_p]; simp
    have e3 : exClockR.e (0 : Fin 2) (0 : Fin 2) = 1 := by rw [exClockR_e]; simp
    have e4 : exClockR.e (1 : Fin 2) (1 : Fin 2) = 1 := by rw [exClockR_e]; simp
    change listVec (oneHot 2 0 : List ℝ) 2 0 *
      (exClockR.p (0 : Fin 2) (1 : Fin 2) * (exClockR.p (1 : Fin 2) (0 : Fin 2) * 1)) *
      (exClockR.e (1 : Fin 2) (1 : Fin 2) * (exClockR.e (0 : Fin 2) (0 : Fin 2) * 1)) = 1
    rw [e1, e2, e3, e4, hinit]
    simp
  · have e1 : exClockR.p (0 : Fin 2) (1 : Fin 2) = 1 := by rw [exClockR_p]; simp
    have e3 : exClockR.e (0 : Fin 2) (0 : Fin 2) = 1 := by rw [exClockR_e]; simp
    have e4 : exClockR.e (1 : Fin 2) (1 : Fin 2) = 1 := by rw [exClockR_e]; simp
    change listVec (oneHot 2 0 : List ℝ) 2 0 * (exClockR.p (0 : Fin 2) (1 : Fin 2) * 1) *
      (exClockR.e (0 : Fin 2) (0 : Fin 2) * (exClockR.e (1 : Fin 2) (1 : Fin 2) * 1)) = 1
    rw [e1, e3, e4, hinit]
    simp
  · refine (C57_viterbi_partial exClockR_valid hr (Or.inr rfl) (l := [1, 0]) rfl rfl
      (y := (1 : Fin 2)) (ys := ([0] : List (Fin 2))) rfl).1.2 ?_
    intro x w _
    have : ∀ x : Fin 2, exClockR.e x (1 : Fin 2) * listVec (oneHot 2 0 : List ℝ) 2 x = 0 := by
      intro x
      rw [exClockR_e, hinit]
      fin_cases x <;> simp
    change exClockR.e x (1 : Fin 2) * (listVec (oneHot 2 0 : List ℝ) 2 x * _ * _) = 0
    rw [mul_assoc, ← mul_assoc, this x, zero_mul]
  · refine (C57_viterbi_partial exClockR_valid hr (Or.inr rfl) (l := [0, 1]) rfl rfl
      (y := (0 : Fin 2)) (ys := ([1] : List (Fin 2))) rfl).1.2 ?_
    intro x w hw
    obtain ⟨s, s', rfl⟩ := List.length_eq_two.1 hw
    have : ∀ x s : Fin 2, exClockR.e x (0 : Fin 2) * exClockR.p x s * exClockR.e s (0 : Fin 2) = 0 := by
      intro x s
      rw [exClockR_e, exClockR_e, exClockR_p]
      fin_cases x <;> fin_cases s <;> simp
    change exClockR.e x (0 : Fin 2) * (listVec (oneHot 2 0 : List ℝ) 2 x * (exClockR.p x s * (exClockR.p s s' * 1)) *
      (exClockR.e s (0 : Fin 2) * (exClockR.e s' (1 : Fin 2) * 1))) = 0
    linear_combination (listVec (oneHot 2 0 : List ℝ) 2 x * exClockR.p s s' * exClockR.e s' (1 : Fin 2)) * this x s

/-- C57 fails: the value is not the logarithm of the probability of the path. In this model every path
has probability `1/32` jointly with two symbols, the reported value is the logarithm of `1/64`. -/
theorem C57_wrong_value : (exCoin (1 / 2)).Valid ∧
    (∀ (x : Fin 2) (w : List (Fin 2)), w.length = 2 →
      jointProb (exCoin (1 / 2)).p (exCoin (1 / 2)).e (fun _ : Fin 2 => (1 / 2 : ℝ)) x w
        ([0, 0] : List (Fin 2)) = 1 / 32) ∧
    ∀ (rnd : ℝ → ℝ) (δ : ℝ), (∀ x, |rnd x - x| ≤ δ) → ∃ (v : ℝ) (w : List (Fin 2)),
      (exCoin (1 / 2)).predict rnd (.str "viterbi") (.list [.str "u", .str "u"]) .none =
        .ok (some ((v : WithBot ℝ), w)) ∧ |v - Real.log (1 / 64)| ≤ 2 * δ := by
  have hp : ∀ i j : Fin 2, (exCoin (1 / 2)).p i j = 1 / 2 := by
    intro i j
    change (!![1 / 2, 1 / 2; 1 / 2, 1 / 2] : Matrix (Fin 2) (Fin 2) ℝ) i j = _
    fin_cases i <;> fin_cases j <;> simp
  have he : ∀ i j : Fin 2, (exCoin (1 / 2)).e i j = 1 / 2 := by
    intro i j
    change (!![1 / 2, 1 - 1 / 2; 1 / 2, 1 - 1 / 2] : Matrix (Fin 2) (Fin 2) ℝ) i j = _
    fin_cases i <;> fin_cases j <;> norm_num
  have hj : ∀ (x : Fin 2) (w : List (Fin 2)), w.length = 2 →
      jointProb (exCoin (1 / 2)).p (exCoin (1 / 2)).e (fun _ : Fin 2 => (1 / 2 : ℝ)) x w
        ([0, 0] : List (Fin 2)) = 1 / 32 := by
    intro x w hw
    obtain ⟨s, s', rfl⟩ := List.length_eq_two.1 hw
    change (1 / 2 : ℝ) * ((exCoin (1 / 2)).p x s * ((exCoin (1 / 2)).p s s' * 1)) *
      ((exCoin (1 / 2)).e s (0 : Fin 2) * ((exCoin (1 / 2)).e s' (0 : Fin 2) * 1)) = 1 / 32
    rw [hp, hp, he, he]
    norm_num
  have hv := exCoin_valid (x := 1 / 2) (by norm_num) (by norm_num)
  refine ⟨hv, hj, fun rnd δ hr => ?_⟩
  obtain ⟨a1, a2, a3⟩ := exCoin_args (1 / 2)
  obtain ⟨h1, h2⟩ := C57_viterbi_partial hv hr (Or.inr rfl) a1 a3 (y := (0 : Fin 2))
    (ys := ([0] : List (Fin 2))) a2
  have hrun := hmmPredict_run (rnd := rnd) (t := "viterbi") (by simp) a1 a3
  cases hres : hmmPredict rnd "viterbi" (exCoin (1 / 2)).p (exCoin (1 / 2)).e
      (fun _ : Fin 2 => (1 / 2 : ℝ)) (toStates (exCoin (1 / 2)).k [0, 0]) with
  | none =>
    have := h1.1 (hrun.trans (congrArg _ hres)) (0 : Fin 2) ([0, 0] : List (Fin 2)) rfl
    have h' : (exCoin (1 / 2)).e (0 : Fin 2) (0 : Fin 2) * (1 / 32) = 0 :=
      (congrArg _ (hj 0 [0, 0] rfl)).symm.trans this
    rw [he] at h'
    norm_num at h'
  | some r =>
    obtain ⟨v, x, e1, e2, -, e4, -⟩ := h2 r (hrun.trans (congrArg _ hres))
    refine ⟨v, r.2, (hrun.trans (congrArg _ hres)).trans ?_, ?_⟩
    · rw [← e1]
    · have e5 : (exCoin (1 / 2)).e x (0 : Fin 2) * jointProb (exCoin (1 / 2)).p (exCoin (1 / 2)).e
          (fun _ : Fin 2 => (1 / 2 : ℝ)) x r.2 ([0, 0] : List (Fin 2)) = 1 / 64 := by
        refine (congrArg₂ (· * ·) (he x 0) (hj x r.2 e2)).trans ?_
        norm_num
      refine le_trans (le_of_eq ?_) (e4.trans_eq ?_)
      · exact congrArg (fun z => |v - Real.log z|) e5.symm
      · change ((2 : ℕ) : ℝ) * δ = 2 * δ
        norm_num

/-- A model whose states never change. -/
noncomputable def exBias : HMM ℝ :=
  ⟨2, 2, fun i j => if i = j then 1 else 0,
    fun i j => if i = 0 then (if j = 0 then 1 / 4 else 3 / 4) else (if j = 0 then 4 / 5 else 1 / 5),
    ["a", "b"], ["u", "v"]⟩

theorem exBias_p (i j : Fin 2) : exBias.p i j = if i = j then 1 else 0 := rfl

theorem exBias_e (i j : Fin 2) : exBias.e i j =
    if i = 0 then (if j = 0 then 1 / 4 else 3 / 4) else (if j = 0 then 4 / 5 else 1 / 5) := rfl

theorem exBias_valid : exBias.Valid := by
  refine ⟨le_rfl, le_rfl, ?_, ?_, show ValidLabels 2 ["a", "b"] by decide,
    show ValidLabels 2 ["u", "v"] by decide, show List.Disjoint ["a", "b"] ["u", "v"] by
    rw [List.disjoint_left]; decide⟩
  · have : IsStochastic (fun i j : Fin 2 => exBias.p i j) := by
      simp only [exBias_p]
      refine ⟨fun i j => by simp only; split_ifs <;> simp, fun i => ?_⟩
      fin_cases i <;> simp
    exact this
  · have : IsStochastic (fun i j : Fin 2 => exBias.e i j) := by
      simp only [exBias_e]
      refine ⟨fun i j => by simp only; split_ifs <;> norm_num, fun i => ?_⟩
      fin_cases i <;> norm_num [Fin.sum_univ_two]
    exact this

theorem exBias_joint (x s s' : Fin 2) :
    jointProb exBias.p exBias.e (fun _ : Fin 2 => (1 / 2 : ℝ)) x ([s, s'] : List (Fin 2))
        ([0, 1] : List (Fin 2)) =
      if x = s ∧ s = s' then (if x = 0 then 3 / 32 else 2 / 25) else 0 := by
  change (1 / 2 : ℝ) * (exBias.p x s * (exBias.p s s' * 1)) *
      (exBias.e s (0 : Fin 2) * (exBias.e s' (1 : Fin 2) * 1)) = _
  simp only [exBias_p, exBias_e]
  fin_cases x <;> fin_cases s <;> fin_cases s' <;> norm_num

/-- C57 fails: the path is not a most probable one. The two possible paths stay in `a` or in `b`;
staying in `a` has the larger joint probability with the symbols `u`, `v`, but the prediction is to
stay in `b`, whatever the (small) rounding error. -/
theorem C57_wrong_path : exBias.Valid ∧
    (∀ (x : Fin 2) (w : List (Fin 2)), w.length = 2 → w ≠ [0, 0] →
      jointProb exBias.p exBias.e (fun _ : Fin 2 => (1 / 2 : ℝ)) x w ([0, 1] : List (Fin 2)) <
      jointProb exBias.p exBias.e (fun _ : Fin 2 => (1 / 2 : ℝ)) (0 : Fin 2) ([0, 0] : List (Fin 2))
        ([0, 1] : List (Fin 2))) ∧
    ∀ (rnd : ℝ → ℝ), (∀ x, |rnd x - x| ≤ 1 / 10 ^ 3) → ∃ v : WithBot ℝ,
      exBias.predict rnd (.str "viterbi") (.list [.str "u", .str "v"]) .none =
        .ok (some (v, ([1, 1] : List (Fin 2)))) := by
  refine ⟨exBias_valid, ?_, fun rnd hr => ?_⟩
  · intro x w hw hne
    obtain ⟨s, s', rfl⟩ := List.length_eq_two.1 hw
    rw [exBias_joint, exBias_joint]
    fin_cases x <;> fin_cases s <;> fin_cases s' <;> first | exact absurd rfl hne | norm_num
  have a3 : initialStatus (.none : PyVal ℝ) exBias.states exBias.n =
      .ok (fun _ : Fin 2 => (1 / 2 : ℝ)) := (exCoin_args 0).2.2
  obtain ⟨h1, h2⟩ := C57_viterbi_partial exBias_valid hr (Or.inr rfl)
    (symbols := .list [.str "u", .str "v"]) (l := [0, 1]) rfl a3 (y := (0 : Fin 2))
    (ys := ([1] : List (Fin 2))) rfl
  have hrun := hmmPredict_run (m := exBias) (rnd := rnd) (t := "viterbi")
    (symbols := .list [.str "u", .str "v"]) (l := [0, 1]) (by simp) rfl a3
  have hj : ∀ x s s' : Fin 2, exBias.e x (0 : Fin 2) * jointProb exBias.p exBias.e
      (fun _ : Fin 2 => (1 / 2 : ℝ)) x ([s, s'] : List (Fin 2)) ([0, 1] : List (Fin 2)) =
      if x = s ∧ s = s' then (if x = 0 then 3 / 128 else 8 / 125) else 0 := by
    intro x s s'
    rw [exBias_joint, exBias_e]
    fin_cases x <;> fin_cases s <;> fin_cases s' <;> norm_num
  cases hres : hmmPredict rnd "viterbi" exBias.p exBias.e
      (fun _ : Fin 2 => (1 / 2 : ℝ)) (toStates exBias.k [0, 1]) with
  | none =>
    have := h1.1 (hrun.trans (congrArg _ hres)) (1 : Fin 2) ([1, 1] : List (Fin 2)) rfl
    have h' := (hj 1 1 1).symm.trans this
    norm_num at h'
  | some r =>
    obtain ⟨v, x, -, e2, -, -, e5⟩ := h2 r (hrun.trans (congrArg _ hres))
    refine ⟨r.1, (hrun.trans (congrArg _ hres)).trans ?_⟩
    obtain ⟨s, s', hw⟩ := List.length_eq_two.1 e2
    have hbest := e5 (1 : Fin 2) ([1, 1] : List (Fin 2)) rfl
    rw [hw] at hbest
    have hbest' := (hj 1 1 1).symm.le.trans (hbest.trans_eq (congrArg _ (hj x s s')))
    have hexp : Real.exp (2 * ((2 : ℕ) * (1 / 10 ^ 3 : ℝ))) ≤ 2 := by
      have h3 := Real.add_one_le_exp (-(2 * ((2 : ℕ) * (1 / 10 ^ 3 : ℝ))))
      rw [Real.exp_neg] at h3
      have h4 : (1 / 2 : ℝ) ≤ (Real.exp (2 * ((2 : ℕ) * (1 / 10 ^ 3 : ℝ))))⁻¹ := by
        refine le_trans ?_ h3
        norm_num
      have h5 := Real.exp_pos (2 * ((2 : ℕ) * (1 / 10 ^ 3 : ℝ)))
      rw [le_inv_comm₀ (by norm_num) h5] at h4
      linarith
    have key : ∀ (x s s' : Fin 2) (B : ℝ), B ≤ 2 →
        (if (1 : Fin 2) = 1 ∧ (1 : Fin 2) = 1 then (if (1 : Fin 2) = 0 then 3 / 128 else 8 / 125) else 0) ≤
        B * (if x = s ∧ s = s' then (if x = 0 then 3 / 128 else 8 / 125) else 0) → s = 1 ∧ s' = 1 := by
      intro x s s' B hB hle
      have h0 : (0 : ℝ) ≤ 3 / 128 := by norm_num
      fin_cases x <;> fin_cases s <;> fin_cases s' <;> simp at hle ⊢ <;> linarith
    obtain ⟨rfl, rfl⟩ := key x s s' _ hexp hbest'
    congr 2
    exact Prod.ext rfl hw

/-! ## Maximum a posteriori prediction -/

theorem filterMap_total {α β : Type} {f : α → Option β} (h : ∀ a, ∃ b, f a = some b) (l : List α) :
    (l.filterMap f).length = l.length ∧ ∀ t (ht : t < l.length) (ht' : t < (l.filterMap f).length),
      f l[t] = some (l.filterMap f)[t] := by
  induction l with
  | nil => exact ⟨rfl, fun t ht => absurd ht (Nat.not_lt_zero t)⟩
  | cons a l ih =>
    obtain ⟨b, hb⟩ := h a
    have e : (a :: l).filterMap f = b :: l.filterMap f := by simp [hb]
    refine ⟨by simp [e, ih.1], fun t ht ht' => ?_⟩
    simp only [e]
    cases t with
    | zero => exact hb
    | succ t => exact ih.2 t (by simpa using ht) (by simpa [ih.1] using ht)

/-- C74. A maximum a posteriori prediction names, for every symbol, a state of maximal probability
given all symbols, and its value is the logarithm of the likelihood of the symbols. -/
theorem C74_map {m : HMM ℝ} (hm : m.Valid) {rnd : ℝ → ℝ} {symbols status : PyVal ℝ} {l : List ℕ}
    {init : Fin m.n → ℝ} (hy : validateSequence symbols m.symbols = .ok l)
    (hs : initialStatus status m.states m.n = .ok init) {ys : List (Fin m.k)}
    (hys : ys = toStates m.k l) {v : WithBot ℝ} {path : List (Fin m.n)}
    (h : m.predict rnd (.str "map") symbols status = .ok (some (v, path))) :
    0 < likelihood m.p m.e init ys ∧ v = (Real.log (likelihood m.p m.e init ys) : ℝ) ∧
    path.length = ys.length ∧ ∀ t (ht : t < path.length) s,
      jointAt m.p m.e init ys t s ≤ jointAt m.p m.e init ys t path[t] := by
  obtain ⟨-, t2⟩ := toStates_sequence hm.2.2.2.2.2.1 hy
  rw [← hys] at t2
  have hne : ys ≠ [] := by intro h; simp [h] at t2
  rw [hmmPredict_run (by simp) hy hs, ← hys, Except.ok.injEq] at h
  have h' : (predictMap m.p m.e init ys).map (fun r => ((r.1 : WithBot ℝ), r.2)) = some (v, path) := h
  rw [Option.map_eq_some_iff] at h'
  obtain ⟨r, hr, he⟩ := h'
  unfold predictMap at hr
  rw [Option.map_eq_some_iff] at hr
  obtain ⟨d, hd, rfl⟩ := hr
  simp only [Prod.mk.injEq] at he
  obtain ⟨rfl, rfl⟩ := he
  obtain ⟨r1, r2, -, r4⟩ := hmmDecode_spec hne hd
  obtain ⟨-, -, -, -, -, -, d7, -, -, d10⟩ := decodeScaled_spec hne r4
  obtain ⟨f1, f2⟩ := filterMap_total (f := firstMax) (fun a => firstMax_some a (by have := hm.1; omega))
    d.2.posterior
  refine ⟨r1, congrArg _ r2, f1.trans d7, fun t ht s => ?_⟩
  have ht' : t < d.2.posterior.length := by rw [← f1]; exact ht
  have := firstMax_max (f2 t ht' ht) s
  rw [d10 t ht', d10 t ht', div_le_div_iff_of_pos_right r1] at this
  exact this

/-- C74, sequences without prediction: exactly those which cannot be decoded. -/
theorem C74_none {m : HMM ℝ} {rnd : ℝ → ℝ} {symbols status : PyVal ℝ} {l : List ℕ}
    {init : Fin m.n → ℝ} (hy : validateSequence symbols m.symbols = .ok l)
    (hs : initialStatus status m.states m.n = .ok init) :
    m.predict rnd (.str "map") symbols status = .ok none ↔
      m.decode symbols status (.bool true) = .ok none := by
  rw [hmmPredict_run (by simp) hy hs, decode_run hy hs, Except.ok.injEq, Except.ok.injEq]
  change ((hmmDecode m.p m.e init (toStates m.k l) true).map _).map _ = none ↔ _
  rw [Option.map_eq_none_iff, Option.map_eq_none_iff]

/-- The hypotheses of `C74_map` can be met. -/
theorem C74_accepts (rnd : ℝ → ℝ) : ∃ r, (exCoin (1 / 3)).predict rnd (.str "map")
    (.list [.str "u", .str "u"]) .none = .ok (some r) := by
  obtain ⟨a1, a2, a3⟩ := exCoin_args (1 / 3)
  rw [hmmPredict_run (by simp) a1 a3]
  cases h : hmmPredict rnd "map" (exCoin (1 / 3)).p (exCoin (1 / 3)).e
      (fun _ : Fin 2 => (1 / 2 : ℝ)) (toStates (exCoin (1 / 3)).k [0, 0]) with
  | some r => exact ⟨r, rfl⟩
  | none =>
    have h1 := (C74_none (m := exCoin (1 / 3)) (rnd := rnd) a1 a3).1
      ((hmmPredict_run (by simp) a1 a3).trans (congrArg _ h))
    obtain ⟨d, hd⟩ := exCoin_decodes
    rw [hd] at h1
    cases h1

end Verif
