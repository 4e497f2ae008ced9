import Verif.Model.Plotting
import Verif.Spec.Plots
import Verif.Props.TrellisPlot
import Verif.Props.Transform

/-!
# Sequence and redistributions plots (C110)
-/

set_option linter.unusedSectionVars false

namespace Verif

open Finset

variable {K : Type} [Field K] [LinearOrder K] [IsStrictOrderedRing K]

/-! ## Sequences -/

theorem sum_indicator {n : ℕ} (w : List (Fin n)) (i : Fin n) :
    ∑ t ∈ range w.length, (sequenceIndicator w i t : K) = (w.count i : K) := by
  induction w with
  | nil => simp
  | cons a t ih =>
    rw [List.length_cons, Finset.sum_range_succ', List.count_cons]
    have : ∀ k, (sequenceIndicator (a :: t) i (k + 1) : K) = sequenceIndicator t i k := fun k => rfl
    simp only [this, ih]
    have h0 : (sequenceIndicator (a :: t) i 0 : K) = if a = i then 1 else 0 := by
      simp [sequenceIndicator]
    rw [h0]
    by_cases h : a = i <;> simp [h]

theorem sum_count {n : ℕ} (w : List (Fin n)) : ∑ i, (w.count i : K) = w.length := by
  have : ∑ i, w.count i = w.length := by
    have h := Multiset.sum_count_eq_card (s := Finset.univ) (m := (w : Multiset (Fin n)))
      (fun a _ => Finset.mem_univ a)
    simpa using h
  exact_mod_cast this

theorem sum_moves {n : ℕ} (w : List (Fin n)) (i j : Fin n) :
    (sequenceMoves w.length w i j : K) = (countMoves i j w : K) := by
  unfold sequenceMoves
  induction w with
  | nil => simp [countMoves]
  | cons a t ih =>
    cases t with
    | nil => simp [countMoves]
    | cons b t =>
      rw [Finset.sum_Ico_eq_sum_range] at ih ⊢
      have e : (a :: b :: t).length - 1 = ((b :: t).length - 1) + 1 := by simp
      rw [e, Finset.sum_range_succ', add_comm]
      have hs : ∀ k, (if (a :: b :: t)[1 + (k + 1) - 1]? = some i ∧
            (a :: b :: t)[1 + (k + 1)]? = some j then (1 : K) else 0) =
          if (b :: t)[1 + k - 1]? = some i ∧ (b :: t)[1 + k]? = some j then 1 else 0 := by
        intro k
        have e1 : 1 + (k + 1) - 1 = (1 + k - 1) + 1 := by omega
        have e2 : 1 + (k + 1) = (1 + k) + 1 := by omega
        rw [e1, e2, List.getElem?_cons_succ, List.getElem?_cons_succ]
      rw [Finset.sum_congr rfl fun k _ => hs k, ih]
      simp only [countMoves]
      push_cast
      congr 1
      simp

theorem sum_countMoves {n : ℕ} (w : List (Fin n)) :
    ∑ i, ∑ j, (countMoves i j w : K) = ((w.length - 1 : ℕ) : K) := by
  induction w with
  | nil => simp [countMoves]
  | cons a t ih =>
    cases t with
    | nil => simp [countMoves]
    | cons b t =>
      simp only [countMoves, Nat.cast_add, Finset.sum_add_distrib]
      rw [ih]
      have : ∑ i, ∑ j, (((if a = i ∧ b = j then 1 else 0 : ℕ)) : K) = 1 := by
        simp only [Nat.cast_ite, Nat.cast_one, Nat.cast_zero, ite_and]
        simp
      rw [this]
      simp [add_comm]

/-- The panel shows the sequence in the way that belongs to the type of the plot. -/
def PanelShows {n : ℕ} (type : String) (w : List (Fin n)) (p : SequencePanel K n) : Prop :=
  (type = "heatmap" ∧ ∃ m, p = .heatmap m ∧ ShowsMoves w m ∧ ∑ i, ∑ j, m i j = 1) ∨
  (type = "histogram" ∧ ∃ v, p = .histogram v ∧ ShowsShares w v ∧ ∑ i, v i = 1) ∨
  (type = "matrix" ∧ ∃ m, p = .matrix m ∧ ShowsPath w m)

theorem sequencePanel_shows {n : ℕ} {type : String} (ht : type ∈ ["heatmap", "histogram", "matrix"])
    {w : List (Fin n)} {k : ℕ} (hk : 1 ≤ k) (hw : w.length = k + 1) :
    PanelShows type w (sequencePanel type (k + 1) w : SequencePanel K n) := by
  have hlen : ((w.length : K) - 1) = ((w.length - 1 : ℕ) : K) := by
    rw [hw]; push_cast; simp
  have hk0 : (0 : K) < k := by exact_mod_cast hk
  unfold sequencePanel
  rw [← hw]
  simp only [List.mem_cons, List.not_mem_nil, or_false] at ht
  rcases ht with rfl | rfl | rfl
  · refine Or.inl ⟨rfl, _, if_pos rfl, ?_, ?_⟩
    · intro i j
      unfold sequenceHeatmap
      simp only [sum_moves, sum_countMoves, hlen]
    · unfold sequenceHeatmap
      simp only [sum_moves, sum_countMoves, ← Finset.sum_div]
      rw [hw]
      exact div_self (by simpa using hk0.ne')
  · refine Or.inr (Or.inl ⟨rfl, _, (if_neg (by decide)).trans (if_pos rfl), ?_, ?_⟩)
    · intro i
      unfold sequenceHistogram
      simp only [sum_indicator, sum_count]
    · unfold sequenceHistogram
      simp only [sum_indicator, sum_count, ← Finset.sum_div]
      rw [hw]
      exact div_self (by positivity)
  · refine Or.inr (Or.inr ⟨rfl, _, (if_neg (by decide)).trans (if_neg (by decide)), ?_⟩)
    intro i
    refine List.ext_getElem (by simp) fun t h1 h2 => ?_
    simp only [List.length_map, List.length_range] at h1
    simp [sequenceIndicator, h1]

theorem validateEnumerator_mem {v : PyVal K} {possible : List String} {s : String}
    (h : validateEnumerator v possible = .ok s) : v = .str s ∧ s ∈ possible := by
  unfold validateEnumerator at h
  cases v with
  | str x =>
    simp only at h
    rw [R.ite_throw, R.ite_throw, R.pure_ok] at h
    obtain ⟨-, h2, rfl⟩ := h
    exact ⟨rfl, not_not.1 h2⟩
  | _ => cases h

theorem optionalLabel_inv {v : PyVal K} {labels : List String} {n : ℕ} {o : Option (Fin n)}
    (h : optionalLabel v labels n = .ok o) : OptionalState v labels o := by
  by_cases hv : v = .none
  · subst hv
    cases h
    exact Or.inl ⟨rfl, rfl⟩
  · have e : optionalLabel v labels n =
        (validateLabel v labels >>= fun k => asState n k >>= fun i => pure (some i)) := by
      cases v <;> first | rfl | exact absurd rfl hv
    rw [e, R.bind_ok] at h
    obtain ⟨k, h1, h⟩ := h
    rw [R.bind_ok] at h
    obtain ⟨i, h2, h⟩ := h
    rw [R.pure_ok] at h
    unfold asState at h2
    split at h2
    · cases h2
      exact Or.inr ⟨_, hv, h1, h.symm⟩
    · cases h2

/-- C110. The sequence plot of a chain shows a run of the chain with the given number of steps: the
shares of the moves, the shares of the states, or the states themselves. -/
theorem C110_sequence {c : MC K} (hc : c.Valid) {choice : Choice K c.n} (hch : Choice.Sound choice)
    {start : Fin c.n} {steps initialState plotType : PyVal K} {p : SequencePanel K c.n}
    (h : plotSequence c choice start steps initialState plotType = .ok p) :
    ∃ (s : ℕ) (i : Option (Fin c.n)) (type : String) (w : List (Fin c.n)), 2 ≤ s ∧ steps = .int s ∧
      OptionalState initialState c.states i ∧ plotType = .str type ∧
      IsRun c.p s (i.getD start) none w ∧ w.length = s + 1 ∧
      simulate c choice start steps initialState .none (.bool true) = .ok (.indices (w.map Fin.val)) ∧
      PanelShows type w p := by
  unfold plotSequence at h
  rw [R.bind_ok] at h
  obtain ⟨s, hs, h⟩ := h
  rw [R.bind_ok] at h
  obtain ⟨i, hi, h⟩ := h
  rw [R.bind_ok] at h
  obtain ⟨type, ht, h⟩ := h
  rw [R.pure_ok] at h
  have hs' := hs
  obtain ⟨rfl, hs1⟩ := validateInteger_ge hs
  obtain ⟨k, rfl⟩ := Int.eq_ofNat_of_zero_le (by omega : 0 ≤ s)
  obtain ⟨rfl, htm⟩ := validateEnumerator_mem ht
  have hrun := mcSimulate_run (P := c.p) hch hc.2.1 k (i.getD start) none
  have hlen : (mcSimulate choice c.p k (i.getD start) none).length = k + 1 := by
    rcases hrun.stops with h | ⟨f, hf, -⟩
    · exact h
    · cases hf
  refine ⟨k, i, type, _, by omega, rfl, optionalLabel_inv hi, rfl, hrun, hlen, ?_, ?_⟩
  · unfold simulate
    rw [hs', R.ok_bind, hi, R.ok_bind]
    rfl
  · subst h
    exact sequencePanel_shows htm (by omega) hlen

/-- C110. The call is accepted for all numbers of steps from two, all labels, and the three types. -/
theorem C110_sequence_accepts (c : MC K) (choice : Choice K c.n) (start : Fin c.n) {s : ℕ} (hs : 2 ≤ s)
    {initialState : PyVal K} {i : Option (Fin c.n)} (hi : OptionalState initialState c.states i)
    {type : String} (ht : type ∈ ["heatmap", "histogram", "matrix"]) :
    ∃ p, plotSequence c choice start (.int s) initialState (.str type) = .ok p := by
  have h1 : validateInteger (.int s : PyVal K) (some (2, false)) none = .ok (s : ℤ) :=
    validateInteger_of_ge (by omega)
  have h2 : validateEnumerator (.str type : PyVal K) ["heatmap", "histogram", "matrix"] = .ok type := by
    simp only [List.mem_cons, List.not_mem_nil, or_false] at ht
    rcases ht with rfl | rfl | rfl <;> rfl
  unfold plotSequence
  rw [h1, R.ok_bind, optionalLabel_ok hi, R.ok_bind, h2, R.ok_bind]
  exact ⟨_, rfl⟩

/-- C110. The panels of a hidden model show the states and the symbols of the same run, with one symbol
per state; for positive draws it is a possible run of the model. -/
theorem C110_hidden_sequence {m : HMM K} (hm : m.Valid) (hn : 0 < m.n) (hk : 0 < m.k)
    {choice : Choice K m.k} (hch : Choice.Sound choice) {pr er : ℕ → K} {start : Fin m.n}
    {steps initialState plotType : PyVal K} {a : SequencePanel K m.n} {b : SequencePanel K m.k}
    (h : plotHiddenSequence m hn hk choice pr er start steps initialState plotType = .ok (a, b)) :
    ∃ (s : ℕ) (i : Option (Fin m.n)) (type : String) (w : List (Fin m.n × Fin m.k)), 2 ≤ s ∧
      steps = .int s ∧ OptionalState initialState m.states i ∧ plotType = .str type ∧
      w.length = s + 1 ∧
      m.simulate hn hk choice pr er start steps initialState .none .none = .ok w ∧
      ((∀ t, 0 < pr t ∧ pr t < 1) → (∀ t, 0 < er t ∧ er t < 1) →
        IsHiddenRun m.p m.e s (i.getD start) (fun _ => False) w) ∧
      PanelShows type (w.map Prod.fst) a ∧ PanelShows type (w.map Prod.snd) b := by
  unfold plotHiddenSequence at h
  rw [R.bind_ok] at h
  obtain ⟨s, hs, h⟩ := h
  rw [R.bind_ok] at h
  obtain ⟨i, hi, h⟩ := h
  rw [R.bind_ok] at h
  obtain ⟨type, ht, h⟩ := h
  rw [R.pure_ok] at h
  have hs' := hs
  obtain ⟨rfl, hs1⟩ := validateInteger_ge hs
  obtain ⟨k, rfl⟩ := Int.eq_ofNat_of_zero_le (by omega : 0 ≤ s)
  obtain ⟨rfl, htm⟩ := validateEnumerator_mem ht
  have hlen : (hmmSimulate m.p m.e hn hk choice pr er k (i.getD start) none none).length = k + 1 := by
    unfold hmmSimulate
    simp [hmmSimulateLoop_length]
  obtain ⟨ha, hb⟩ := Prod.mk.inj h
  refine ⟨k, i, type, _, by omega, rfl, optionalLabel_inv hi, rfl, hlen, ?_, ?_, ?_, ?_⟩
  · unfold HMM.simulate
    rw [hs', R.ok_bind, hi, R.ok_bind]
    rfl
  · intro hpr her
    have hrun := hmmSimulate_run (P := m.p) (E := m.e) hm.2.2.1 hm.2.2.2.1 hn hk hch
      (fun t => ⟨(hpr t).1, (hpr t).2.le⟩) (fun t => ⟨(her t).1, (her t).2.le⟩) k (i.getD start) none none
    exact ⟨hrun.starts, hrun.transitions, hrun.emissions, hrun.short, fun _ _ => id, Or.inl hlen⟩
  · subst ha
    exact sequencePanel_shows htm (by omega) (by rw [List.length_map]; exact hlen)
  · subst hb
    exact sequencePanel_shows htm (by omega) (by rw [List.length_map]; exact hlen)

/-- The values of a heatmap, the values of a histogram, or the rows of a matrix, as lists. -/
def SequencePanel.lists {n : ℕ} : SequencePanel K n → List (List K)
  | .heatmap m => (List.finRange n).map fun i => (List.finRange n).map fun j => m i j
  | .histogram v => [(List.finRange n).map v]
  | .matrix m => (List.finRange n).map m

/-- The three plots of the run `a, b, a, b, a, b`: five moves, three from the first to the second. -/
example : exLoop.Valid ∧ ((plotSequence exLoop (cdfChoice (n := 2) fun _ => 1 / 3) (0 : Fin 2) (.int 5)
      (.str "a") (.str "heatmap")).toOption.map (·.lists) = some [[0, 3 / 5], [2 / 5, 0]]) ∧
    ((plotSequence exLoop (cdfChoice (n := 2) fun _ => 1 / 3) (0 : Fin 2) (.int 5)
      (.str "a") (.str "histogram")).toOption.map (·.lists) = some [[1 / 2, 1 / 2]]) ∧
    ((plotSequence exLoop (cdfChoice (n := 2) fun _ => 1 / 3) (0 : Fin 2) (.int 5)
      (.str "a") (.str "matrix")).toOption.map (·.lists) =
        some [[1, 0, 1, 0, 1, 0], [0, 1, 0, 1, 0, 1]]) := by
  decide +kernel

/-- C110. The call with a hidden model is accepted for the same arguments. -/
theorem C110_hidden_sequence_accepts (m : HMM K) (hn : 0 < m.n) (hk : 0 < m.k) (choice : Choice K m.k)
    (pr er : ℕ → K) (start : Fin m.n) {s : ℕ} (hs : 2 ≤ s) {initialState : PyVal K}
    {i : Option (Fin m.n)} (hi : OptionalState initialState m.states i) {type : String}
    (ht : type ∈ ["heatmap", "histogram", "matrix"]) :
    ∃ p, plotHiddenSequence m hn hk choice pr er start (.int s) initialState (.str type) = .ok p := by
  have h1 : validateInteger (.int s : PyVal K) (some (2, false)) none = .ok (s : ℤ) :=
    validateInteger_of_ge (by omega)
  have h2 : validateEnumerator (.str type : PyVal K) ["heatmap", "histogram", "matrix"] = .ok type := by
    simp only [List.mem_cons, List.not_mem_nil, or_false] at ht
    rcases ht with rfl | rfl | rfl <;> rfl
  unfold plotHiddenSequence
  rw [h1, R.ok_bind, optionalLabel_ok hi, R.ok_bind, h2, R.ok_bind]
  exact ⟨_, rfl⟩

/-- The run of the clock: the states alternate, and so do the symbols. -/
example : exClock.Valid ∧ (plotHiddenSequence exClock (Nat.succ_pos _) (Nat.succ_pos _)
      (cdfChoice (n := 2) fun _ => 1 / 3) (fun _ => 1 / 2) (fun _ => 1 / 2) (0 : Fin 2) (.int 3) (.str "b")
      (.str "matrix")).toOption.map (fun p => (p.1.lists, p.2.lists)) =
    some ([[0, 1, 0, 1], [1, 0, 1, 0]], [[0, 1, 0, 1], [1, 0, 1, 0]]) := by
  refine ⟨exClock_valid, by decide +kernel⟩

/-! ## Redistributions -/

theorem validateStatus_again {labels : List String} {l : List K} (hlen : l.length = labels.length)
    (h01 : ∀ x ∈ l, 0 ≤ x ∧ x ≤ 1) (hsum : isclose l.sum 1 = true) :
    validateStatus (statusArgument (some l)) labels = .ok l := by
  have hv : (l.map Flt.fin).map Flt.val = l := by
    rw [List.map_map]
    exact (List.map_congr_left fun x _ => rfl).trans (List.map_id l)
  have hx : extractVector true (.array (.vec (l.map Flt.fin)) : PyVal K) = .ok (l.map Flt.fin) := by
    unfold extractVector extractNumeric
    simp only [ravel]
    rw [if_neg (by simp)]
    rfl
  change (extractVector true (.array (.vec (l.map Flt.fin)) : PyVal K) >>= _) = _
  rw [hx, R.ok_bind, if_neg (by simpa using hlen), if_neg, if_neg, hv]
  · rfl
  · rw [hv]
    simpa using hsum
  · simp only [not_not, List.all_eq_true, List.mem_map]
    rintro _ ⟨x, hxl, rfl⟩
    simpa [Flt.inUnit] using h01 x hxl

theorem oneHot_status {n k : ℕ} (hk : k < n) : (oneHot n k : List K).length = n ∧
    (∀ x ∈ (oneHot n k : List K), 0 ≤ x ∧ x ≤ 1) ∧ isclose (oneHot n k : List K).sum 1 = true := by
  refine ⟨by simp [oneHot], ?_, ?_⟩
  · intro x hx
    obtain ⟨i, -, rfl⟩ := List.mem_map.1 hx
    split_ifs <;> simp
  · have : (oneHot n k : List K).sum = ∑ i ∈ Finset.range n, if i = k then (1 : K) else 0 := rfl
    rw [this, Finset.sum_ite_eq' (Finset.range n) k, if_pos (Finset.mem_range.2 hk)]
    exact isclose_self 1

/-- A validated status is a valid status, and is validated as itself. -/
theorem validateStatus_idem {labels : List String} (hnd : labels.Nodup) {v : PyVal K} {l : List K}
    (h : validateStatus v labels = .ok l) :
    l.length = labels.length ∧ validateStatus (statusArgument (some l)) labels = .ok l := by
  suffices hs : l.length = labels.length ∧ (∀ x ∈ l, 0 ≤ x ∧ x ≤ 1) ∧ isclose l.sum 1 = true from
    ⟨hs.1, validateStatus_again hs.1 hs.2.1 hs.2.2⟩
  have vec : ∀ v : PyVal K, (extractVector true v >>= fun l =>
      if l.length ≠ labels.length then throw .valueError
      else if ¬ l.all Flt.inUnit then throw .valueError
      else if ¬ isclose (l.map Flt.val).sum 1 then throw .valueError
      else pure (l.map Flt.val) : R (List K)) = .ok l →
      l.length = labels.length ∧ (∀ x ∈ l, 0 ≤ x ∧ x ≤ 1) ∧ isclose l.sum 1 = true := by
    intro v hv
    rw [R.bind_ok] at hv
    obtain ⟨fl, h1, hv⟩ := hv
    rw [R.ite_throw, R.ite_throw, R.ite_throw, R.pure_ok] at hv
    obtain ⟨h2, h3, h4, rfl⟩ := hv
    rw [not_not] at h2 h3 h4
    refine ⟨by simpa using h2, ?_, h4⟩
    intro x hx
    obtain ⟨y, hy, rfl⟩ := List.mem_map.1 hx
    have := List.all_eq_true.1 h3 y hy
    cases y with
    | fin z => simpa [Flt.inUnit, Flt.val] using this
    | nan => simp [Flt.inUnit] at this
    | inf b => simp [Flt.inUnit] at this
  cases v with
  | int z =>
    simp only [validateStatus] at h
    rw [R.ite_throw, R.pure_ok] at h
    obtain ⟨h1, rfl⟩ := h
    push Not at h1
    exact oneHot_status (by omega)
  | str s =>
    simp only [validateStatus] at h
    rw [R.ite_throw'] at h
    obtain ⟨h1, h⟩ := h
    split at h
    · next k hk =>
      rw [R.pure_ok] at h
      subst h
      rw [labelIndex_eq_some hnd] at hk
      exact oneHot_status (List.getElem?_eq_some_iff.1 hk).1
    · simp at h
  | none => exact vec _ h
  | bool b => exact vec _ h
  | float b => exact vec _ h
  | list b => exact vec _ h
  | tuple b => exact vec _ h
  | array b => exact vec _ h

theorem redistribute_some (c : MC K) (steps : PyVal K) {v : PyVal K} (hv : v ≠ .none) :
    redistribute c steps v (.bool false) =
      (validateInteger steps (some (1, false)) none >>= fun z =>
        validateStatus v c.states >>= fun d =>
          pure ((List.range (z.toNat + 1)).map (redistRow c.p (listVec d c.n)))) := by
  cases v <;> first | rfl | exact absurd rfl hv

/-- C110. For the two types the plot is made of the distributions that `redistribute` returns for the
same arguments, and fails only if that call fails; in particular the comparison of the first
distribution with the given status never fails. -/
theorem C110_redistributions_call {c : MC K} (hc : c.Valid) (steps status : PyVal K) {type : String}
    (ht : type ∈ ["heatmap", "projection"]) (p : RedistributionsPlot K c.n) :
    plotRedistributions c steps status (.str type) = .ok p ↔
      ∃ ds, redistribute c steps status (.bool false) = .ok ds ∧ p = redistributionsPlot type ds := by
  have h2 : validateEnumerator (.str type : PyVal K) ["heatmap", "projection"] = .ok type := by
    simp only [List.mem_cons, List.not_mem_nil, or_false] at ht
    rcases ht with rfl | rfl <;> rfl
  have hnd := hc.2.2.2.1
  unfold plotRedistributions
  rw [R.bind_ok]
  by_cases hst : status = .none
  · subst hst
    constructor
    · rintro ⟨z, hz, h⟩
      have hz' := hz
      obtain ⟨rfl, hz1⟩ := validateInteger_ge hz
      change (validateEnumerator (.str type : PyVal K) _ >>= _) = _ at h
      rw [h2, R.ok_bind, R.bind_ok] at h
      obtain ⟨ds, hds, h⟩ := h
      rw [R.ite_throw, R.pure_ok] at h
      exact ⟨ds, hds, h.2.symm⟩
    · rintro ⟨ds, hds, rfl⟩
      have hds' := hds
      unfold redistribute at hds
      rw [R.bind_ok] at hds
      obtain ⟨z, hz, -⟩ := hds
      refine ⟨z, hz, ?_⟩
      obtain ⟨rfl, hz1⟩ := validateInteger_ge hz
      change (validateEnumerator (.str type : PyVal K) _ >>= _) = _
      rw [h2, R.ok_bind]
      change (redistribute c (.int z) .none (.bool false) >>= _) = _
      rw [hds', R.ok_bind, if_neg (by simp [statusMismatch])]
      rfl
  · have ho : optionalStatus status c.states =
        (validateStatus status c.states >>= fun l => pure (some l)) := by
      cases status <;> first | rfl | exact absurd rfl hst
    rw [redistribute_some c steps hst, ho]
    constructor
    · rintro ⟨z, hz, h⟩
      rw [R.bind_ok] at h
      obtain ⟨o, hl, h⟩ := h
      rw [R.bind_ok] at hl
      obtain ⟨l, hl, hlo⟩ := hl
      rw [R.pure_ok] at hlo
      subst hlo
      rw [h2, R.ok_bind, redistribute_some c _ (by simp [statusArgument])] at h
      have hz' := hz
      obtain ⟨rfl, hz1⟩ := validateInteger_ge hz
      rw [hz', R.ok_bind, (validateStatus_idem hnd hl).2, R.ok_bind, R.bind_ok] at h
      obtain ⟨ds, hds, h⟩ := h
      rw [R.ite_throw, R.pure_ok] at h
      refine ⟨ds, ?_, h.2.symm⟩
      rw [hz', R.ok_bind, hl, R.ok_bind, hds]
    · rintro ⟨ds, hds, rfl⟩
      rw [R.bind_ok] at hds
      obtain ⟨z, hz, hds⟩ := hds
      rw [R.bind_ok] at hds
      obtain ⟨l, hl, hds⟩ := hds
      rw [R.pure_ok] at hds
      refine ⟨z, hz, ?_⟩
      rw [hl, R.ok_bind]
      change (validateEnumerator (.str type : PyVal K) _ >>= _) = _
      rw [h2, R.ok_bind, redistribute_some c _ (by simp [statusArgument])]
      have hz' := hz
      obtain ⟨rfl, hz1⟩ := validateInteger_ge hz
      rw [hz', R.ok_bind, (validateStatus_idem hnd hl).2, R.ok_bind]
      change (if _ then _ else _) = _
      rw [hds, if_neg]
      · rfl
      · simp only [statusMismatch, not_not, ← hds]
        rw [List.range_succ_eq_map]
        rfl

/-- C110. The plot shows for every state the probabilities to be there after `0, …, k` steps, started
from the given state or distribution. The start is marked in the projection if and only if the first
distribution is, up to the tolerance, the uniform one. -/
theorem C110_redistributions {c : MC K} (hc : c.Valid) {steps status plotType : PyVal K}
    {p : RedistributionsPlot K c.n} (h : plotRedistributions c steps status plotType = .ok p) :
    ∃ (k : ℕ) (d : Fin c.n → K) (law : ℕ → Fin c.n → K), steps = .int k ∧ 1 ≤ k ∧
      StatusOf c.states status d ∧ (∀ i, 0 ≤ d i) ∧ 0 < ∑ i, d i ∧ law 0 = d ∧
      (∀ m j, 1 ≤ m → law m j =
        (∑ i, d i * prob c.p m i (fun w => w.getLastD i = j)) / ∑ i, d i) ∧
      (∀ i, p.curves i = (List.range (k + 1)).map fun m => law m i) ∧
      (plotType = .str "heatmap" ∧ p.heatmap = true ∧ p.start = false ∨
        plotType = .str "projection" ∧ p.heatmap = false ∧
          p.start = allcloseVec d fun _ => 1 / (c.n : K)) := by
  have ht : ∃ type, plotType = .str type ∧ type ∈ ["heatmap", "projection"] := by
    unfold plotRedistributions at h
    rw [R.bind_ok] at h
    obtain ⟨s, -, h⟩ := h
    rw [R.bind_ok] at h
    obtain ⟨i, -, h⟩ := h
    rw [R.bind_ok] at h
    obtain ⟨type, ht, -⟩ := h
    exact ⟨type, validateEnumerator_mem ht⟩
  obtain ⟨type, rfl, ht⟩ := ht
  obtain ⟨ds, hds, rfl⟩ := (C110_redistributions_call hc steps status ht p).1 h
  obtain ⟨k, d, law, h1, h2, h3, h4, h5, h6, h7, -, h9⟩ := C15_redistribute hc hds
  have h9 := h9 rfl
  refine ⟨k, d, law, h1, h2, h3, h4, h5, h6, h7, ?_, ?_⟩
  · intro i
    simp only [redistributionsPlot, h9, List.map_map]
    rfl
  · have hh : ds.headD 0 = d := by
      rw [h9, List.range_succ_eq_map]
      exact h6
    simp only [List.mem_cons, List.not_mem_nil, or_false] at ht
    rcases ht with rfl | rfl
    · exact Or.inl ⟨rfl, by simp [redistributionsPlot], by simp [redistributionsPlot]⟩
    · refine Or.inr ⟨rfl, by simp [redistributionsPlot], ?_⟩
      change (decide ("projection" ≠ "heatmap") && allcloseVec (ds.headD 0) _) = _
      rw [hh]
      rfl

/-- From the first state the chain is there with the probabilities 1, 0, 1/2. -/
example : (plotRedistributions exLoop (.int 2) (.str "a") (.str "projection")).toOption.map
    (fun p => ((List.finRange 2).map p.curves, p.heatmap, p.start)) =
      some ([[1, 0, 1 / 2], [0, 1, 1 / 2]], false, false) := by decide +kernel

/-- Without a status the uniform distribution is used, and marked. -/
example : (plotRedistributions exLoop (.int 1) .none (.str "projection")).toOption.map
    (fun p => ((List.finRange 2).map p.curves, p.heatmap, p.start)) =
      some ([[1 / 2, 1 / 4], [1 / 2, 3 / 4]], false, true) := by decide +kernel

end Verif
