import Verif.Props.Fitting
import Verif.Props.Subchain
import Verif.Model.Hidden
import Verif.Spec.Hidden

/-!
# Restriction (C59) and estimation (C60) of hidden Markov models
-/

set_option linter.unusedSectionVars false

namespace Verif

open Finset

variable {K : Type} [Field K] [LinearOrder K] [IsStrictOrderedRing K] {n k : ℕ}

/-! ## Restriction -/

/-- The states or symbols selected by an argument of `restrict`: all of them by default. -/
def Selected (v : PyVal K) (labels : List String) (l : List ℕ) : Prop :=
  (v = .none ∧ l = List.range labels.length) ∨
    (v ≠ .none ∧ validateLabelsCurrent v labels true (some 2) = .ok l)

theorem Selected.sound {v : PyVal K} {labels : List String} {l : List ℕ} (hn : labels.Nodup)
    (h0 : labels ≠ []) (h : Selected v labels l) :
    l.Pairwise (· < ·) ∧ (∀ i ∈ l, i < labels.length) ∧ l ≠ [] := by
  rcases h with ⟨-, rfl⟩ | ⟨-, h⟩
  · refine ⟨List.pairwise_lt_range, fun i hi => List.mem_range.1 hi, ?_⟩
    rw [ne_eq, List.range_eq_nil]
    exact fun h => h0 (List.length_eq_zero_iff.1 h)
  · exact labelsCurrent_sound hn h

/-- The selection of the argument in the code. -/
theorem Selected.run {v : PyVal K} {labels : List String} {l : List ℕ} {m : ℕ}
    (hm : labels.length = m) (h : Selected v labels l) :
    labelsOrAll v labels m = .ok l := by
  subst hm
  rcases h with ⟨rfl, rfl⟩ | ⟨h, h'⟩
  · rfl
  · cases v <;> first | exact h' | exact absurd rfl h

/-- An increasing list of `m` numbers below `m` lists all of them. -/
theorem full_of_length {m : ℕ} {l : List ℕ} (h1 : l.Pairwise (· < ·)) (h2 : ∀ i ∈ l, i < m)
    (h3 : m ≤ l.length) : l = List.range m := by
  have hsub : l ⊆ List.range m := fun i hi => List.mem_range.2 (h2 i hi)
  have hnd : l.Nodup := h1.imp fun h => ne_of_lt h
  have hp : l.Perm (List.range m) :=
    (List.subperm_of_subset hnd hsub).perm_of_length_le (by simpa using h3)
  exact List.Perm.eq_of_pairwise (fun _ _ _ _ h h' => le_antisymm h h') (h1.imp le_of_lt)
    (List.pairwise_lt_range.imp le_of_lt) hp

theorem toStates_range (m : ℕ) : toStates m (List.range m) = List.finRange m := by
  refine List.map_injective_iff.2 Fin.val_injective ?_
  rw [toStates_val fun i hi => List.mem_range.1 hi]
  simp

/-- The row `i` of a matrix of selected entries is proportional to the original row. -/
def RowFrom (orig new : Fin k → K) : Prop :=
  (0 < ∑ l, orig l → ∀ j, new j = orig j / ∑ l, orig l) ∧
    (∑ l, orig l = 0 → ∀ j, new j = 1 / k)

theorem rowFrom_normalize {M : Matrix (Fin n) (Fin k) K} (h0 : ∀ i j, 0 ≤ M i j) (i : Fin n) :
    RowFrom (M i) (normalizeRows (fillNullRows M) i) := by
  refine ⟨fun h j => normalize_fill_row ?_ j, fun h j => normalize_fill_null ?_ j⟩
  · by_contra hall
    push Not at hall
    simp [hall] at h
  · intro l
    exact (Finset.sum_eq_zero_iff_of_nonneg fun j _ => h0 i j).1 h l (mem_univ _)

theorem rowFrom_self {f : Fin k → K} (h : ∑ l, f l = 1) : RowFrom f f := by
  refine ⟨fun _ j => by rw [h, div_one], fun h' => ?_⟩
  rw [h] at h'
  exact absurd h' one_ne_zero

/-- The model `r` is the model `m` restricted to the states `S` and the symbols `Y`. -/
structure IsRestriction (m r : HMM K) (S Y : List ℕ) : Prop where
  select : ∃ (f : Fin r.n → Fin m.n) (g : Fin r.k → Fin m.k),
    (List.ofFn fun i => (f i).val) = S ∧ (List.ofFn fun j => (g j).val) = Y ∧
    (∀ i, RowFrom (fun j => m.p (f i) (f j)) (fun j => r.p i j)) ∧
    (∀ i, RowFrom (fun j => m.e (f i) (g j)) (fun j => r.e i j))
  states : r.states = S.map fun i => m.states.getD i ""
  symbols : r.symbols = Y.map fun j => m.symbols.getD j ""
  stochastic : IsStochastic r.p ∧ IsStochastic r.e

theorem ofFn_get_val {m : ℕ} (l : List (Fin m)) :
    (List.ofFn fun i : Fin l.length => (l.get i).val) = l.map Fin.val := by
  apply List.ext_getElem <;> simp

theorem ofFn_id_val (m : ℕ) : (List.ofFn fun i : Fin m => i.val) = List.range m := by
  apply List.ext_getElem <;> simp

theorem hmmRestrict_spec {m : HMM K} (hm : m.Valid) {S Y : List ℕ} (hS1 : S.Pairwise (· < ·))
    (hS2 : ∀ i ∈ S, i < m.n) (hS3 : S ≠ []) (hY1 : Y.Pairwise (· < ·)) (hY2 : ∀ i ∈ Y, i < m.k)
    (hY3 : Y ≠ []) (hgood : S.length < m.n ∨ Y.length < m.n ∨ Y.length = m.k) :
    IsRestriction m (hmmRestrict m (toStates m.n S) (toStates m.k Y)) S Y := by
  obtain ⟨hn, hk, hp, he, -⟩ := hm
  have lS : (toStates m.n S).length = S.length := by
    conv_rhs => rw [← toStates_val hS2]
    simp
  have lY : (toStates m.k Y).length = Y.length := by
    conv_rhs => rw [← toStates_val hY2]
    simp
  have pS : 0 < (toStates m.n S).length := by rw [lS]; exact List.length_pos_of_ne_nil hS3
  have pY : 0 < (toStates m.k Y).length := by rw [lY]; exact List.length_pos_of_ne_nil hY3
  have nS : ((toStates m.n S).map fun i : Fin m.n => m.states.getD i "") =
      S.map fun i => m.states.getD i "" := by
    conv_rhs => rw [← toStates_val hS2]
    rw [List.map_map]; rfl
  have nY : ((toStates m.k Y).map fun j : Fin m.k => m.symbols.getD j "") =
      Y.map fun j => m.symbols.getD j "" := by
    conv_rhs => rw [← toStates_val hY2]
    rw [List.map_map]; rfl
  unfold hmmRestrict
  simp only
  split_ifs with h1 h2
  · have a1 : ∀ i j, 0 ≤ pickMatrix m.p (toStates m.n S) (toStates m.n S) i j := fun i j => hp.1 _ _
    have a2 : ∀ i j, 0 ≤ pickMatrix m.e (toStates m.n S) (toStates m.k Y) i j := fun i j => he.1 _ _
    exact ⟨⟨(toStates m.n S).get, (toStates m.k Y).get,
      (ofFn_get_val _).trans (toStates_val hS2), (ofFn_get_val _).trans (toStates_val hY2),
      fun i => rowFrom_normalize a1 i, fun i => rowFrom_normalize a2 i⟩, nS, nY,
      fill_normalize_stochastic pS a1, fill_normalize_stochastic pY a2⟩
  · have hfull : S = List.range m.n := full_of_length hS1 hS2 (by omega)
    have a2 : ∀ i j, 0 ≤ (fun i j => m.e i ((toStates m.k Y).get j) :
      Matrix (Fin m.n) (Fin (toStates m.k Y).length) K) i j := fun i j => he.1 _ _
    exact ⟨⟨id, (toStates m.k Y).get, (ofFn_id_val _).trans hfull.symm,
      (ofFn_get_val _).trans (toStates_val hY2),
      fun i => rowFrom_self (hp.2 i), fun i => rowFrom_normalize a2 i⟩, nS, nY,
      hp, fill_normalize_stochastic pY a2⟩
  · have hfull : S = List.range m.n := full_of_length hS1 hS2 (by omega)
    have hfullY : Y = List.range m.k := full_of_length hY1 hY2 (by
      rcases hgood with h | h | h
      · omega
      · exact absurd (Or.inr (by omega)) h2
      · omega)
    exact ⟨⟨id, id, (ofFn_id_val _).trans hfull.symm, (ofFn_id_val _).trans hfullY.symm,
      fun i => rowFrom_self (hp.2 i), fun i => rowFrom_self (he.2 i)⟩, nS, nY, hp, he⟩

theorem restrict_run {m : HMM K} (hm : m.Valid) {states symbols : PyVal K} {S Y : List ℕ}
    (hs : Selected states m.states S) (hy : Selected symbols m.symbols Y)
    (hne : ¬ (states = .none ∧ symbols = .none)) :
    m.restrict states symbols = .ok (hmmRestrict m (toStates m.n S) (toStates m.k Y)) := by
  obtain ⟨hn, hk, hp, he, hl, hly, hd⟩ := hm
  have hS := hs.sound hl.2.1 (by rintro h; have := hl.1; rw [h] at this; simp at this; omega)
  have hY := hy.sound hly.2.1 (by rintro h; have := hly.1; rw [h] at this; simp at this; omega)
  unfold HMM.restrict
  rw [if_neg (by
    rintro ⟨h1, h2⟩
    refine hne ⟨?_, ?_⟩
    · cases states <;> first | rfl | cases h1
    · cases symbols <;> first | rfl | cases h2), hs.run hl.1]
  change (_ >>= _) = _
  rw [hy.run hly.1]
  change (if _ then _ else _) = _
  rw [if_neg]
  · rfl
  · have e1 : (hmmRestrict m (toStates m.n S) (toStates m.k Y)).states =
        (toStates m.n S).map fun i : Fin m.n => m.states.getD i "" := by
      unfold hmmRestrict
      simp only
      split_ifs <;> rfl
    have e2 : (hmmRestrict m (toStates m.n S) (toStates m.k Y)).symbols =
        (toStates m.k Y).map fun i : Fin m.k => m.symbols.getD i "" := by
      unfold hmmRestrict
      simp only
      split_ifs <;> rfl
    rw [e1, e2, List.any_eq_true]
    rintro ⟨x, hx, hx'⟩
    rw [List.mem_map] at hx
    simp only [List.mem_map, decide_eq_true_eq] at hx'
    obtain ⟨i, -, rfl⟩ := hx
    obtain ⟨j, -, h⟩ := hx'
    refine hd (a := m.states.getD i "") ?_ ?_
    · rw [List.getD_eq_getElem _ _ (by rw [hl.1]; exact i.isLt)]
      exact List.getElem_mem _
    · rw [← h, List.getD_eq_getElem _ _ (by rw [hly.1]; exact j.isLt)]
      exact List.getElem_mem _

/-- C59 (partial: the number of remaining symbols is all of them or fewer than the number of states,
unless some state is removed). The restriction to accepted states and symbols is the submodel on
exactly these states and symbols, in order; its matrices are stochastic, and every row is proportional
to the selected entries of the original row, or uniform if these are all zero. -/
theorem C59_restrict_partial {m : HMM K} (hm : m.Valid) {states symbols : PyVal K} {S Y : List ℕ}
    (hs : Selected states m.states S) (hy : Selected symbols m.symbols Y)
    (hne : ¬ (states = .none ∧ symbols = .none))
    (hgood : S.length < m.n ∨ Y.length < m.n ∨ Y.length = m.k) :
    ∃ r, m.restrict states symbols = .ok r ∧ IsRestriction m r S Y := by
  obtain ⟨hn, hk, hp, he, hl, hly, hd⟩ := id hm
  have hS := hs.sound hl.2.1 (by rintro h; have := hl.1; rw [h] at this; simp at this; omega)
  have hY := hy.sound hly.2.1 (by rintro h; have := hly.1; rw [h] at this; simp at this; omega)
  rw [hl.1] at hS
  rw [hly.1] at hY
  exact ⟨_, restrict_run hm hs hy hne,
    hmmRestrict_spec hm hS.1 hS.2.1 hS.2.2 hY.1 hY.2.1 hY.2.2 hgood⟩

/-- C59, valid models. If moreover two states and two symbols remain then the submodel satisfies all
the requirements of the constructor. -/
theorem C59_valid_partial {m : HMM K} (hm : m.Valid) {states symbols : PyVal K} {S Y : List ℕ}
    (hs : Selected states m.states S) (hy : Selected symbols m.symbols Y)
    (hne : ¬ (states = .none ∧ symbols = .none))
    (hgood : S.length < m.n ∨ Y.length < m.n ∨ Y.length = m.k)
    (hS2 : 2 ≤ S.length) (hY2 : 2 ≤ Y.length) :
    ∃ r, m.restrict states symbols = .ok r ∧ r.Valid := by
  obtain ⟨r, hr, hres⟩ := C59_restrict_partial hm hs hy hne hgood
  obtain ⟨hn, hk, hp, he, hl, hly, hd⟩ := id hm
  have hS := hs.sound hl.2.1 (by rintro h; have := hl.1; rw [h] at this; simp at this; omega)
  have hY := hy.sound hly.2.1 (by rintro h; have := hly.1; rw [h] at this; simp at this; omega)
  obtain ⟨⟨f, g, hf, hg, -⟩, h1, h2, h3, h4⟩ := hres
  have e1 : r.n = S.length := by rw [← hf]; simp
  have e2 : r.k = Y.length := by rw [← hg]; simp
  have labels : ∀ {N : ℕ} {names : List String} {L : List ℕ}, ValidLabels N names →
      L.Pairwise (· < ·) → (∀ i ∈ L, i < names.length) →
      ValidLabels L.length (L.map fun i => names.getD i "") ∧
        ∀ x ∈ L.map (fun i => names.getD i ""), x ∈ names := by
    intro N names L hN hL1 hL2
    have hmem : ∀ x ∈ L.map (fun i => names.getD i ""), x ∈ names := by
      intro x hx
      obtain ⟨i, hi, rfl⟩ := List.mem_map.1 hx
      rw [List.getD_eq_getElem _ _ (hL2 i hi)]
      exact List.getElem_mem _
    refine ⟨⟨by simp, ?_, fun x hx => hN.2.2 x (hmem x hx)⟩, hmem⟩
    refine List.Nodup.map_on ?_ (hL1.imp fun h => ne_of_lt h)
    intro x hx y hy hxy
    rw [List.getD_eq_getElem _ _ (hL2 x hx), List.getD_eq_getElem _ _ (hL2 y hy)] at hxy
    exact (List.Nodup.getElem_inj_iff hN.2.1).1 hxy
  have l1 := labels hl hS.1 hS.2.1
  have l2 := labels hly hY.1 hY.2.1
  refine ⟨r, hr, by omega, by omega, h3, h4, ?_, ?_, ?_⟩
  · rw [h1, e1]; exact l1.1
  · rw [h2, e2]; exact l2.1
  · rw [h1, h2]
    intro x hx hy
    exact hd (l1.2 x hx) (l2.2 x hy)

/-- A model with two states and four symbols. -/
def exFour : HMM ℚ := ⟨2, 4, fun _ _ => 1 / 2, fun _ _ => 1 / 4, ["a", "b"], ["u", "v", "w", "x"]⟩

theorem exFour_valid : exFour.Valid := by
  refine ⟨by decide, by decide, ?_, ?_, show ValidLabels 2 ["a", "b"] by decide,
    show ValidLabels 4 ["u", "v", "w", "x"] by decide,
    show List.Disjoint ["a", "b"] ["u", "v", "w", "x"] by rw [List.disjoint_left]; decide⟩
  · have : IsStochastic (fun i j : Fin 2 => exFour.p i j) := by decide +kernel
    exact this
  · have : IsStochastic (fun (i : Fin 2) (j : Fin 4) => exFour.e i j) := by decide +kernel
    exact this

/-- The hypotheses of `C59_restrict_partial` can be met. -/
theorem C59_accepts : ∃ S Y, Selected (.str "b" : PyVal ℚ) exFour.states S ∧
    Selected (.list [.str "u", .str "w"] : PyVal ℚ) exFour.symbols Y ∧ S.length < exFour.n :=
  ⟨[1], [0, 2], Or.inr ⟨(by intro h; cases h), rfl⟩, Or.inr ⟨(by intro h; cases h), rfl⟩, by decide⟩

/-- C59 fails without the condition: with two states and four symbols, the restriction to the symbols
`v`, `w`, `x` keeps the emission matrix with four columns although it names three symbols, because
the number of symbols is compared with the number of rows of the emission matrix. -/
theorem C59_columns_not_removed : ∃ (m : HMM ℚ) (symbols : PyVal ℚ) (r : HMM ℚ), m.Valid ∧
    Selected symbols m.symbols [1, 2, 3] ∧ m.restrict .none symbols = .ok r ∧
    r.k = 4 ∧ r.symbols = ["v", "w", "x"] ∧ ¬ r.Valid := by
  refine ⟨exFour, .list [.str "v", .str "w", .str "x"], _, exFour_valid,
    Or.inr ⟨(by intro h; cases h), rfl⟩,
    restrict_run exFour_valid (S := [0, 1]) (Y := [1, 2, 3]) (Or.inl ⟨rfl, rfl⟩)
      (Or.inr ⟨(by intro h; cases h), rfl⟩) (by rintro ⟨-, h⟩; cases h), rfl, by decide, ?_⟩
  rintro ⟨-, -, -, -, -, h, -⟩
  exact absurd h.1 (by decide)

/-- C59, one state. A single state is accepted although a model needs two states. -/
theorem C59_single_state : ∃ (m : HMM ℚ) (r : HMM ℚ), m.Valid ∧
    m.restrict (.str "a") .none = .ok r ∧ r.n = 1 ∧ ¬ r.Valid := by
  refine ⟨exFour, _, exFour_valid,
    restrict_run exFour_valid (S := [0]) (Y := [0, 1, 2, 3])
      (Or.inr ⟨(by intro h; cases h), rfl⟩) (Or.inl ⟨rfl, rfl⟩) (by rintro ⟨h, -⟩; cases h), rfl, ?_⟩
  rintro ⟨h, -⟩
  exact absurd h (by decide)

/-- C59, arguments. A restriction without states and without symbols is rejected. -/
theorem C59_nothing_selected (m : HMM K) : m.restrict .none .none = .error .valueError := rfl

/-! ## Estimation -/

/-- The number of times the state `i` emits the symbol `j`. -/
def emissionCount (states : List (Fin n)) (symbols : List (Fin k)) (i : Fin n) (j : Fin k) : ℕ :=
  (states.zip symbols).count (i, j)

theorem foldl_addEmission (l : List (Fin n × Fin k)) (M : Matrix (Fin n) (Fin k) ℕ)
    (i : Fin n) (j : Fin k) :
    (l.map fun x => ((x.1 : ℕ), (x.2 : ℕ))).foldl addEmission M i j = M i j + l.count (i, j) := by
  induction l generalizing M with
  | nil => simp
  | cons x l ih =>
    simp only [List.map_cons, List.foldl_cons]
    rw [ih, List.count_cons]
    obtain ⟨a, b⟩ := x
    by_cases h : i = a ∧ j = b
    · obtain ⟨rfl, rfl⟩ := h
      simp [addEmission]; omega
    · have h1 : ¬ ((i : ℕ) = a ∧ (j : ℕ) = b) := by simpa [Fin.ext_iff] using h
      have h2 : ((a, b) == (i, j)) = false := by
        simp only [beq_eq_false_iff_ne, ne_eq, Prod.mk.injEq]
        rintro ⟨rfl, rfl⟩; exact h ⟨rfl, rfl⟩
      simp [addEmission, h1, h2]

theorem emissionMatrix_eq (ss : List (Fin n)) (ys : List (Fin k)) (i : Fin n) (j : Fin k) :
    emissionMatrix n k (ss.map Fin.val) (ys.map Fin.val) i j = emissionCount ss ys i j := by
  unfold emissionMatrix emissionCount
  rw [List.zip_map]
  have := foldl_addEmission (ss.zip ys) (fun _ _ => 0) i j
  rw [Nat.zero_add] at this
  exact this

/-- The probability of the emissions is the product of the entries to the power of the counts. -/
theorem emitProb_eq_prod (E : Fin n → Fin k → K) {ss : List (Fin n)} {ys : List (Fin k)}
    (h : ss.length = ys.length) :
    emitProb E ss ys = ∏ i, ∏ j, E i j ^ emissionCount ss ys i j := by
  induction ss generalizing ys with
  | nil =>
    cases ys with
    | nil => simp [emitProb, emissionCount]
    | cons y ys => simp at h
  | cons s ss ih =>
    cases ys with
    | nil => simp at h
    | cons y ys =>
      rw [emitProb, ih (by simpa using h)]
      have hc : ∀ i j, emissionCount (s :: ss) (y :: ys) i j =
          emissionCount ss ys i j + if i = s ∧ j = y then 1 else 0 := by
        intro i j
        simp only [emissionCount, List.zip_cons_cons, List.count_cons]
        congr 1
        by_cases hij : i = s ∧ j = y
        · simp [hij]
        · rw [if_neg hij, if_neg]
          simp only [beq_iff_eq, Prod.mk.injEq]
          rintro ⟨rfl, rfl⟩
          exact hij ⟨rfl, rfl⟩
      simp only [hc, pow_add, Finset.prod_mul_distrib]
      rw [mul_comm]
      congr 1
      rw [Finset.prod_eq_single s, Finset.prod_eq_single y]
      · simp
      · intro j _ hj; simp [hj]
      · simp
      · intro i _ hi; simp [hi]
      · simp

/-- What an accepted call of `estimate` returns. -/
theorem hmmEstimateApi_ok {possibleStates possibleSymbols states symbols : PyVal K} {m : HMM K}
    (h : hmmEstimateApi possibleStates possibleSymbols states symbols = .ok m) :
    m.Valid ∧ ∃ (l l' : List (PyVal K)) (ss : List (Fin m.n)) (ys : List (Fin m.k)),
      states = .list l ∧ symbols = .list l' ∧ ss.length = ys.length ∧
      List.Forall₂ (fun v (i : Fin m.n) => Names m.states v i) l ss ∧
      List.Forall₂ (fun v (j : Fin m.k) => Names m.symbols v j) l' ys ∧
      m.p = normalizeRows (fillNullRows fun i j => (transitionCount ss i j : K)) ∧
      m.e = normalizeRows (fillNullRows fun i j => (emissionCount ss ys i j : K)) := by
  unfold hmmEstimateApi at h
  rw [R.bind_ok] at h
  obtain ⟨ls, hls, h⟩ := h
  obtain ⟨h2, hv⟩ := validateLabelsInput_none hls
  rw [R.bind_ok] at h
  obtain ⟨lsy, hlsy, h⟩ := h
  obtain ⟨h2', hv'⟩ := validateLabelsInput_none hlsy
  rw [R.bind_ok] at h
  obtain ⟨r, hr, h⟩ := h
  rw [R.bind_ok] at h
  obtain ⟨r', hr', h⟩ := h
  rw [C04_sequences hv.2.1] at hr
  rw [C04_sequences hv'.2.1] at hr'
  obtain ⟨l, rfl, -, -, hf⟩ := hr
  obtain ⟨l', rfl, -, -, hf'⟩ := hr'
  rw [R.ite_throw] at h
  obtain ⟨hd, h⟩ := h
  rw [R.ite_throw] at h
  obtain ⟨hlen, h⟩ := h
  obtain ⟨ss, rfl, hs⟩ := forall₂_names_fin hf
  obtain ⟨ys, rfl, hy⟩ := forall₂_names_fin hf'
  simp only [pure, Except.pure, Except.ok.injEq] at h
  subst h
  have e1 : (fun i j => (countMatrix ls.length (ss.map Fin.val) i j : K)) =
      fun i j => (transitionCount ss i j : K) := by
    funext i j; rw [countMatrix_eq]
  have e2 : (fun i j => (emissionMatrix ls.length lsy.length (ss.map Fin.val) (ys.map Fin.val) i j : K)) =
      fun i j => (emissionCount ss ys i j : K) := by
    funext i j; rw [emissionMatrix_eq]
  have p1 : (hmmEstimate ls.length lsy.length (ss.map Fin.val) (ys.map Fin.val) true :
      Matrix (Fin ls.length) (Fin ls.length) K × Matrix (Fin ls.length) (Fin lsy.length) K) =
      (normalizeRows (fillNullRows fun i j => (transitionCount ss i j : K)),
        normalizeRows (fillNullRows fun i j => (emissionCount ss ys i j : K))) := by
    unfold hmmEstimate
    simp only [if_true]
    exact Prod.ext (congrArg (fun M => normalizeRows (fillNullRows M)) e1)
      (congrArg (fun M => normalizeRows (fillNullRows M)) e2)
  refine ⟨⟨h2, h2', ?_, ?_, hv, hv', ?_⟩, l, l', ss, ys, rfl, rfl, by simpa using hlen, hs, hy,
    congrArg Prod.fst p1, congrArg Prod.snd p1⟩
  · rw [congrArg Prod.fst p1]
    exact fill_normalize_stochastic (show 0 < ls.length by omega) fun i j => Nat.cast_nonneg _
  · rw [congrArg Prod.snd p1]
    exact fill_normalize_stochastic (show 0 < lsy.length by omega) fun i j => Nat.cast_nonneg _
  · intro x hx hx'
    refine hd ?_
    rw [List.any_eq_true]
    exact ⟨x, hx, decide_eq_true hx'⟩

/-- The entries of a normalised matrix of counts are the relative frequencies. -/
theorem frequencies {c : Fin n → Fin k → ℕ} {M : Matrix (Fin n) (Fin k) K}
    (hM : M = normalizeRows (fillNullRows fun i j => (c i j : K))) (i : Fin n) (j : Fin k) :
    (0 < ∑ l, c i l → M i j = c i j / (∑ l, c i l : ℕ)) ∧ (∑ l, c i l = 0 → M i j = 1 / k) := by
  subst hM
  constructor
  · intro h
    refine (normalize_fill_row ?_ j).trans ?_
    · by_contra hall
      push Not at hall
      have : ∀ l, c i l = 0 := fun l => by simpa using hall l
      simp [this] at h
    · simp
  · intro h
    have : ∀ l, c i l = 0 := by simpa using h
    exact normalize_fill_null (fun l => by simp [this l]) j

/-- C60. The estimated model is valid, and its matrices are the relative frequencies of the observed
transitions and emissions; a row without observation is uniform. -/
theorem C60_estimate {possibleStates possibleSymbols states symbols : PyVal K} {m : HMM K}
    (h : hmmEstimateApi possibleStates possibleSymbols states symbols = .ok m) :
    m.Valid ∧ ∃ (l l' : List (PyVal K)) (ss : List (Fin m.n)) (ys : List (Fin m.k)),
      states = .list l ∧ symbols = .list l' ∧
      List.Forall₂ (fun v (i : Fin m.n) => Names m.states v i) l ss ∧
      List.Forall₂ (fun v (j : Fin m.k) => Names m.symbols v j) l' ys ∧ ss.length = ys.length ∧
      (∀ i j, (0 < ∑ l, transitionCount ss i l →
          m.p i j = transitionCount ss i j / (∑ l, transitionCount ss i l : ℕ)) ∧
        (∑ l, transitionCount ss i l = 0 → m.p i j = 1 / m.n)) ∧
      (∀ i j, (0 < ∑ l, emissionCount ss ys i l →
          m.e i j = emissionCount ss ys i j / (∑ l, emissionCount ss ys i l : ℕ)) ∧
        (∑ l, emissionCount ss ys i l = 0 → m.e i j = 1 / m.k)) := by
  obtain ⟨hv, l, l', ss, ys, h1, h2, h3, h4, h5, h6, h7⟩ := hmmEstimateApi_ok h
  exact ⟨hv, l, l', ss, ys, h1, h2, h4, h5, h3, frequencies h6, frequencies h7⟩

/-- C60, optimality. No pair of stochastic matrices gives a larger joint probability to the observed
states and symbols. -/
theorem C60_optimal {possibleStates possibleSymbols states symbols : PyVal ℝ} {m : HMM ℝ}
    (h : hmmEstimateApi possibleStates possibleSymbols states symbols = .ok m) :
    ∃ (l l' : List (PyVal ℝ)) (ss : List (Fin m.n)) (ys : List (Fin m.k)),
      states = .list l ∧ symbols = .list l' ∧
      List.Forall₂ (fun v (i : Fin m.n) => Names m.states v i) l ss ∧
      List.Forall₂ (fun v (j : Fin m.k) => Names m.symbols v j) l' ys ∧
      ∀ (Q : Fin m.n → Fin m.n → ℝ) (F : Fin m.n → Fin m.k → ℝ), IsStochastic Q → IsStochastic F →
        walkProb Q ss * emitProb F ss ys ≤ walkProb m.p ss * emitProb m.e ss ys := by
  obtain ⟨hv, l, l', ss, ys, h1, h2, h3, h4, h5, h6, h7⟩ := hmmEstimateApi_ok h
  refine ⟨l, l', ss, ys, h1, h2, h4, h5, fun Q F hQ hF => ?_⟩
  rw [walkProb_eq_prod, emitProb_eq_prod F h3, emitProb_eq_prod m.e h3]
  refine (mul_le_mul (counts_optimal (transitionCount ss) hQ (P := m.p)
    fun i hi j => (frequencies h6 i j).1 hi) (counts_optimal (emissionCount ss ys) hF (P := m.e)
    fun i hi j => (frequencies h7 i j).1 hi) ?_ ?_).trans_eq ?_
  · exact Finset.prod_nonneg fun i _ => Finset.prod_nonneg fun j _ => pow_nonneg (hF.1 i j) _
  · exact Finset.prod_nonneg fun i _ => Finset.prod_nonneg fun j _ => pow_nonneg (hv.2.2.1.1 i j) _
  · exact congrArg₂ (· * ·) (walkProb_eq_prod m.p ss).symm rfl

/-- C60, the hypothesis is met. -/
theorem C60_accepts : ∃ m, hmmEstimateApi (.list [.str "a", .str "b"] : PyVal ℚ)
    (.list [.str "u", .str "v"]) (.list [.int 0, .int 1, .int 0, .int 0])
    (.list [.str "u", .str "v", .str "v", .str "u"]) = .ok m := ⟨_, rfl⟩

end Verif
