import Verif.Props.Viterbi

/-!
# Possible and impossible predicted paths (C166)
-/

namespace Verif

open Finset

variable {n k : ℕ}

/-- What a positive joint probability means. -/
theorem joint_pos {P : Matrix (Fin n) (Fin n) ℝ} {E : Matrix (Fin n) (Fin k) ℝ} (hP : ∀ i j, 0 ≤ P i j)
    (hE : ∀ i j, 0 ≤ E i j) {init : Fin n → ℝ} (hi : ∀ i, 0 ≤ init i) {x : Fin n} {w : List (Fin n)}
    {ys : List (Fin k)} (h : 0 < jointProb P E init x w ys) :
    0 < init x ∧ (x :: w).IsChain (Edge P) ∧ List.Forall₂ (fun s y => 0 < E s y) w ys := by
  have h1 := walkProb_nonneg' hP (x :: w)
  have h2 := emitProb_nonneg' hE w ys
  unfold jointProb at h
  have h3 := pos_of_mul_pos_left h h2
  have h4 := pos_of_mul_pos_right h (mul_nonneg (hi x) h1)
  have h5 := pos_of_mul_pos_right h3 (hi x)
  refine ⟨pos_of_mul_pos_left h3 h1, ?_, ?_⟩
  · clear h3 h h4 h1 h2
    induction w generalizing x with
    | nil => exact List.isChain_singleton _
    | cons a w ih =>
      change 0 < P x a * walkProb P (a :: w) at h5
      exact List.IsChain.cons_cons (pos_of_mul_pos_left h5 (walkProb_nonneg' hP _))
        (ih (pos_of_mul_pos_right h5 (hP x a)))
  · clear h3 h h5 h1 h2
    induction w generalizing ys with
    | nil =>
      cases ys with
      | nil => exact .nil
      | cons y ys => exact absurd h4 (lt_irrefl 0)
    | cons a w ih =>
      cases ys with
      | nil => exact absurd h4 (lt_irrefl 0)
      | cons y ys =>
        change 0 < E a y * emitProb E w ys at h4
        exact .cons (pos_of_mul_pos_left h4 (emitProb_nonneg' hE _ _)) (ih (pos_of_mul_pos_right h4 (hE a y)))

/-- C166, Viterbi. The predicted path is possible: it starts with a transition from a possible initial state, all its
transitions have positive probability, and every state emits its symbol with positive probability. -/
theorem C166_viterbi_possible {m : HMM ℝ} (hm : m.Valid) {rnd : ℝ → ℝ} {δ : ℝ} (hr : ∀ x, |rnd x - x| ≤ δ)
    {t : String} (ht : t = "mle" ∨ t = "viterbi") {symbols status : PyVal ℝ} {l : List ℕ} {init : Fin m.n → ℝ}
    (hy : validateSequence symbols m.symbols = .ok l) (hs : initialStatus status m.states m.n = .ok init)
    (hi : ∀ i, 0 ≤ init i) {y : Fin m.k} {ys : List (Fin m.k)} (hys : toStates m.k l = y :: ys) {v : WithBot ℝ}
    {path : List (Fin m.n)} (h : m.predict rnd (.str t) symbols status = .ok (some (v, path))) :
    ∃ x, 0 < init x ∧ (x :: path).IsChain (Edge m.p) ∧
      List.Forall₂ (fun s y => 0 < m.e s y) path (y :: ys) := by
  obtain ⟨-, h2⟩ := C57_viterbi_partial hm hr ht hy hs hys
  obtain ⟨-, x, -, -, hpos, -, -⟩ := h2 _ h
  have h3 := pos_of_mul_pos_right hpos (hm.2.2.2.1.1 x y)
  exact ⟨x, joint_pos hm.2.2.1.1 hm.2.2.2.1.1 hi h3⟩

theorem expect_pos_exists {P : Matrix (Fin n) (Fin n) ℝ} (hP : ∀ i j, 0 ≤ P i j) (T : ℕ) (i : Fin n)
    {f : List (Fin n) → ℝ} (h : 0 < expect P T i f) :
    ∃ w, w.length = T ∧ (i :: w).IsChain (Edge P) ∧ 0 < f w := by
  induction T generalizing i f with
  | zero => exact ⟨[], rfl, List.isChain_singleton _, h⟩
  | succ T ih =>
    change 0 < ∑ j, P i j * expect P T j (fun w => f (j :: w)) at h
    obtain ⟨j, -, hj⟩ := exists_lt_of_sum_lt (s := univ) (f := fun _ : Fin n => (0 : ℝ)) (by simpa using h)
    have hp : 0 < P i j := by
      refine lt_of_le_of_ne (hP i j) fun hz => ?_
      rw [← hz, zero_mul] at hj
      exact lt_irrefl 0 hj
    obtain ⟨w, h1, h2, h3⟩ := ih j (pos_of_mul_pos_right hj hp.le)
    exact ⟨j :: w, by simp [h1], List.IsChain.cons_cons hp h2, h3⟩

/-- C166 for single states of a maximum a posteriori prediction: some possible path that emits the symbols goes
through the predicted state at its time. -/
theorem C166_map_states_partial {m : HMM ℝ} (hm : m.Valid) {rnd : ℝ → ℝ} {symbols status : PyVal ℝ} {l : List ℕ}
    {init : Fin m.n → ℝ} (hy : validateSequence symbols m.symbols = .ok l)
    (hs : initialStatus status m.states m.n = .ok init) (hi : ∀ i, 0 ≤ init i) {ys : List (Fin m.k)}
    (hys : ys = toStates m.k l) {v : WithBot ℝ} {path : List (Fin m.n)}
    (h : m.predict rnd (.str "map") symbols status = .ok (some (v, path))) (t : ℕ) (ht : t < path.length) :
    ∃ (x : Fin m.n) (w : List (Fin m.n)), w[t]? = some path[t] ∧ 0 < init x ∧ (x :: w).IsChain (Edge m.p) ∧
      List.Forall₂ (fun s y => 0 < m.e s y) w ys := by
  obtain ⟨h1, -, h3, h4⟩ := C74_map hm hy hs hys h
  have h5 := sum_jointAt m.p m.e init ys t (by omega)
  have h6 : 0 < jointAt m.p m.e init ys t path[t] := by
    by_contra hn
    have : ∑ s, jointAt (fun i j => m.p i j) (fun i j => m.e i j) init ys t s ≤ 0 :=
      sum_nonpos fun s _ => (h4 t ht s).trans (not_lt.1 hn)
    rw [h5] at this
    exact absurd h1 (not_lt.2 this)
  unfold jointAt at h6
  obtain ⟨x, -, hx⟩ := exists_lt_of_sum_lt (s := univ) (f := fun _ : Fin m.n => (0 : ℝ)) (by simpa using h6)
  have hx0 : 0 < init x := by
    refine lt_of_le_of_ne (hi x) fun hz => ?_
    rw [← hz, zero_mul] at hx
    exact lt_irrefl 0 hx
  obtain ⟨w, hw1, hw2, hw3⟩ := expect_pos_exists (P := m.p) hm.2.2.1.1 _ x (pos_of_mul_pos_right hx hx0.le)
  split at hw3
  · rename_i hwt
    refine ⟨x, w, hwt, hx0, hw2, ?_⟩
    have hwalk : 0 < walkProb m.p (x :: w) := by
      clear hw3 hwt hw1
      induction w generalizing x with
      | nil => exact one_pos
      | cons a w ih =>
        rw [List.isChain_cons_cons] at hw2
        exact mul_pos hw2.1 (by
          have : ∀ (b : Fin m.n) (u : List (Fin m.n)), (b :: u).IsChain (Edge m.p) → 0 < walkProb m.p (b :: u) := by
            intro b u
            induction u generalizing b with
            | nil => exact fun _ => one_pos
            | cons c u ihu =>
              intro hc
              rw [List.isChain_cons_cons] at hc
              exact mul_pos hc.1 (ihu c hc.2)
          exact this a w hw2.2)
    exact (joint_pos hm.2.2.1.1 hm.2.2.2.1.1 hi (mul_pos (mul_pos hx0 hwalk) hw3)).2.2
  · exact absurd hw3 (lt_irrefl 0)

/-! ### An impossible prediction -/

/-- The transitions of the example. -/
noncomputable def rowsDetour : Fin 3 → Fin 3 → ℝ :=
  ![![1 / 2, 0, 1 / 2], ![2 / 5, 3 / 10, 3 / 10], ![0, 1, 0]]

theorem rowsDetour_entries : rowsDetour 0 0 = 1 / 2 ∧ rowsDetour 0 1 = 0 ∧ rowsDetour 0 2 = 1 / 2 ∧
    rowsDetour 1 0 = 2 / 5 ∧ rowsDetour 1 1 = 3 / 10 ∧ rowsDetour 1 2 = 3 / 10 ∧
    rowsDetour 2 0 = 0 ∧ rowsDetour 2 1 = 1 ∧ rowsDetour 2 2 = 0 :=
  ⟨rfl, rfl, rfl, rfl, rfl, rfl, rfl, rfl, rfl⟩

/-- A hidden model whose symbols say nothing about the states. -/
noncomputable def exDetour : HMM ℝ := ⟨3, 2, rowsDetour, fun _ _ => 1 / 2, ["a", "b", "c"], ["u", "v"]⟩

theorem exDetour_valid : exDetour.Valid := by
  refine ⟨show 2 ≤ 3 by decide, le_rfl, ?_, ?_, show ValidLabels 3 ["a", "b", "c"] by decide,
    show ValidLabels 2 ["u", "v"] by decide, show List.Disjoint ["a", "b", "c"] ["u", "v"] by
      rw [List.disjoint_left]; decide⟩
  · have : IsStochastic rowsDetour := by
      constructor
      · rw [Fin.forall_fin_succ, Fin.forall_fin_two]
        simp only [Fin.forall_fin_succ]
        norm_num [rowsDetour_entries, show (Fin.succ 0 : Fin 3) = 1 from rfl, show (Fin.succ 1 : Fin 3) = 2 from rfl]
      · rw [Fin.forall_fin_succ, Fin.forall_fin_two]
        norm_num [rowsDetour_entries, Fin.sum_univ_three, show (Fin.succ 0 : Fin 3) = 1 from rfl,
          show (Fin.succ 1 : Fin 3) = 2 from rfl]
    exact this
  · have : IsStochastic (fun (_ : Fin 3) (_ : Fin 2) => (1 / 2 : ℝ)) := ⟨fun _ _ => by norm_num, fun _ => by norm_num⟩
    exact this

/-- The chain starts in `b`. -/
noncomputable def initDetour : Fin 3 → ℝ := ![0, 1, 0]

theorem exDetour_status : initialStatus (.str "b" : PyVal ℝ) exDetour.states 3 = .ok initDetour := by
  change Except.ok _ = Except.ok _
  congr 1
  funext i
  fin_cases i <;> rfl

theorem initDetour_entries : initDetour 0 = 0 ∧ initDetour 1 = 1 ∧ initDetour 2 = 0 := ⟨rfl, rfl, rfl⟩

theorem exDetour_likelihood : likelihood rowsDetour (fun _ (_ : Fin 2) => (1 / 2 : ℝ)) initDetour [0] = 1 / 2 ∧
    likelihood rowsDetour (fun _ (_ : Fin 2) => (1 / 2 : ℝ)) initDetour [0, 0] = 1 / 4 := by
  constructor <;> norm_num [likelihood, expect, emitProb, initDetour_entries, rowsDetour_entries, Fin.sum_univ_three]

theorem exDetour_joint :
    (∀ s, jointAt rowsDetour (fun _ (_ : Fin 2) => (1 / 2 : ℝ)) initDetour [0, 0] 0 s = ![1 / 10, 3 / 40, 3 / 40] s) ∧
    ∀ s, jointAt rowsDetour (fun _ (_ : Fin 2) => (1 / 2 : ℝ)) initDetour [0, 0] 1 s =
      ![2 / 25, 39 / 400, 29 / 400] s := by
  have key : ∀ s : Fin 3, s = 0 ∨ s = 1 ∨ s = 2 := by decide
  constructor <;> intro s <;> rcases key s with rfl | rfl | rfl <;>
    norm_num [jointAt, expect, emitProb, initDetour_entries, rowsDetour_entries, Fin.sum_univ_three] <;> rfl

/-- C166 fails for maximum a posteriori predictions: the predicted path has a transition of probability zero. -/
theorem C166_map_impossible (rnd : ℝ → ℝ) : exDetour.Valid ∧ exDetour.p (0 : Fin 3) (1 : Fin 3) = 0 ∧
    ∃ v, exDetour.predict rnd (.str "map") (.list [.str "u", .str "u"]) (.str "b") =
      .ok (some (v, ([0, 1] : List (Fin 3)))) := by
  refine ⟨exDetour_valid, by change rowsDetour 0 1 = 0; simp [rowsDetour], ?_⟩
  have a1 : validateSequence (.list [.str "u", .str "u"] : PyVal ℝ) exDetour.symbols = .ok [0, 0] := rfl
  have a3 : initialStatus (.str "b" : PyVal ℝ) exDetour.states exDetour.n = .ok initDetour := exDetour_status
  obtain ⟨l1, l2⟩ := exDetour_likelihood
  obtain ⟨-, -, d, u, hd, -⟩ := C56_decode_partial exDetour_valid a1 a3 (ys := ([0, 0] : List (Fin 2))) rfl (by
    intro t ht
    have ht' : t < 2 := ht
    interval_cases t
    · rw [if_pos rfl]
      refine le_trans (ten_pow_300.trans ?_) l1.ge
      norm_num
    · rw [if_neg one_ne_zero]
      refine le_trans (b := 1 / 4) ?_ l2.ge
      refine (div_le_div_of_nonneg_right l1.le (by positivity)).trans ?_
      refine le_trans (b := 1 / 10 ^ 300) ?_ (ten_pow_300.trans (by norm_num))
      exact div_le_div_of_nonneg_right (by norm_num) (by positivity))
  have hrun := hmmPredict_run (m := exDetour) (rnd := rnd) (t := "map") (by simp) a1 a3
  cases hres : hmmPredict rnd "map" exDetour.p exDetour.e initDetour (toStates exDetour.k [0, 0]) with
  | none =>
    have h1 := (C74_none (m := exDetour) (rnd := rnd) a1 a3).1 (hrun.trans (congrArg _ hres))
    rw [hd] at h1
    cases h1
  | some r =>
    have hr := hrun.trans (congrArg _ hres)
    obtain ⟨v, path⟩ := r
    refine ⟨v, hr.trans ?_⟩
    obtain ⟨-, -, h3, h4⟩ := C74_map exDetour_valid a1 a3 (ys := ([0, 0] : List (Fin 2))) rfl hr
    obtain ⟨j0, j1⟩ := exDetour_joint
    obtain ⟨s, s', rfl⟩ := List.length_eq_two.1 h3
    have e0 : ∀ i, (![1 / 10, 3 / 40, 3 / 40] : Fin 3 → ℝ) i ≤ (![1 / 10, 3 / 40, 3 / 40] : Fin 3 → ℝ) s := fun i =>
      (j0 i).symm.trans_le ((h4 0 (by simp) i).trans_eq (j0 s))
    have e1 : ∀ i, (![2 / 25, 39 / 400, 29 / 400] : Fin 3 → ℝ) i ≤ (![2 / 25, 39 / 400, 29 / 400] : Fin 3 → ℝ) s' :=
      fun i => (j1 i).symm.trans_le ((h4 1 (by simp) i).trans_eq (j1 s'))
    have hs : s = (0 : Fin 3) := by
      have := e0 0
      revert this
      have : ∀ s : Fin 3, (![1 / 10, 3 / 40, 3 / 40] : Fin 3 → ℝ) 0 ≤ (![1 / 10, 3 / 40, 3 / 40] : Fin 3 → ℝ) s →
          s = 0 := by
        intro s hs
        fin_cases s
        · rfl
        · norm_num at hs
        · norm_num at hs
      exact this s
    have hs' : s' = (1 : Fin 3) := by
      have : ∀ s : Fin 3, (![2 / 25, 39 / 400, 29 / 400] : Fin 3 → ℝ) 1 ≤
          (![2 / 25, 39 / 400, 29 / 400] : Fin 3 → ℝ) s → s = 1 := by
        intro s hs
        fin_cases s
        · norm_num at hs
        · rfl
        · norm_num at hs
      exact this s' (e1 1)
    rw [hs, hs']
    rfl

/-- The hypotheses of `C166_viterbi_possible` can be met. -/
example : ∃ x : Fin 2, ([x, 1, 1] : List (Fin 2)).IsChain (Edge exBias.p) := by
  obtain ⟨v, hv⟩ := C57_wrong_path.2.2 id fun x => by simp
  obtain ⟨x, -, h, -⟩ := C166_viterbi_possible exBias_valid (rnd := id) (δ := 1 / 10 ^ 3) (fun x => by simp) (Or.inr rfl)
    (symbols := .list [.str "u", .str "v"]) (l := [0, 1]) rfl (exCoin_args 0).2.2 (fun _ => by norm_num)
    (y := (0 : Fin 2)) (ys := ([1] : List (Fin 2))) rfl hv
  exact ⟨x, h⟩

end Verif
