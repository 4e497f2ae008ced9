import Verif.Model.GraphIO
import Verif.Props.Dictionary
import Verif.Props.Generators

/-!
# Property C65: graphs
-/

set_option linter.unusedSectionVars false

namespace Verif

variable {K : Type} [Field K] [LinearOrder K] [IsStrictOrderedRing K]

theorem mem_mcToGraph {c : MC K} {e : String × String × K} : e ∈ (mcToGraph c).edges ↔
    ∃ i j : Fin c.n, 0 < c.p i j ∧
      e = (c.states.getD i.val "", c.states.getD j.val "", c.p i j) := by
  unfold mcToGraph
  simp only [List.mem_flatMap, List.mem_filterMap, List.mem_finRange, true_and]
  constructor
  · rintro ⟨i, j, h⟩
    by_cases hp : 0 < c.p i j
    · rw [if_pos hp] at h
      exact ⟨i, j, hp, (Option.some.inj h).symm⟩
    · rw [if_neg hp] at h
      cases h
  · rintro ⟨i, j, hp, rfl⟩
    exact ⟨i, j, if_pos hp⟩

theorem map_filterMap_positive {α β γ : Type} (v : α → K) (F : α → β) (g : β → γ × K) (G : α → γ × K)
    (hg : ∀ a, g (F a) = G a) (hv : ∀ a, (G a).2 = v a) (l : List α) :
    (l.filterMap fun a => if 0 < v a then some (F a) else none).map g =
      (l.map G).filter fun x => decide (0 < x.2) := by
  induction l with
  | nil => rfl
  | cons a l ih =>
    by_cases hp : 0 < v a
    · rw [List.filterMap_cons_some (f := fun a => if 0 < v a then some (F a) else none) (if_pos hp),
        List.map_cons, List.map_cons,
        List.filter_cons_of_pos (p := fun x : γ × K => decide (0 < x.2)) (a := G a)
          (decide_eq_true (by rw [hv]; exact hp)), ih, hg]
    · rw [List.filterMap_cons_none (f := fun a => if 0 < v a then some (F a) else none) (if_neg hp),
        List.map_cons,
        List.filter_cons_of_neg (p := fun x : γ × K => decide (0 < x.2)) (a := G a)
          (fun h => hp (by rw [← hv]; exact of_decide_eq_true h)), ih]

theorem mcToGraph_edges (c : MC K) :
    (mcToGraph c).edges.map (fun e => ([e.1, e.2.1], e.2.2)) =
      (mcItems c).filter fun x => decide (0 < x.2) := by
  unfold mcToGraph mcItems
  rw [List.map_flatMap, List.filter_flatMap]
  refine List.flatMap_congr fun i _ => ?_
  exact map_filterMap_positive (fun j => c.p i j) _ _ _ (fun _ => rfl) (fun _ => rfl) _

theorem mcToGraph_simple {c : MC K} (h : ValidLabels c.n c.states) : (mcToGraph c).Simple := by
  obtain ⟨n, p, states⟩ := c
  obtain ⟨h4, h5, -⟩ := h
  change states.length = n at h4
  subst h4
  refine ⟨h5, ?_, ?_⟩
  · have h1 : (((mcToGraph ⟨states.length, p, states⟩).edges.map
        fun e => ([e.1, e.2.1], e.2.2)).map Prod.fst).Nodup := by
      rw [mcToGraph_edges]
      exact (mcItems_nodup states p h5).sublist (List.Sublist.map _ List.filter_sublist)
    have e : (((mcToGraph ⟨states.length, p, states⟩).edges.map
        fun e => ([e.1, e.2.1], e.2.2)).map Prod.fst) =
        ((mcToGraph ⟨states.length, p, states⟩).edges.map fun e => (e.1, e.2.1)).map
          fun x => [x.1, x.2] := by
      rw [List.map_map, List.map_map]
      rfl
    rw [e] at h1
    exact h1.of_map
  · intro e he
    obtain ⟨i, j, -, rfl⟩ := mem_mcToGraph.1 he
    have hi := getD_fin states i
    have hj := getD_fin states j
    constructor
    · exact hi ▸ List.getElem_mem _
    · exact hj ▸ List.getElem_mem _

theorem weightMatrix_mcToGraph (states : List String) (hs : states.Nodup)
    (p : Matrix (Fin states.length) (Fin states.length) K) (h0 : ∀ i j, 0 ≤ p i j)
    (hl : ValidLabels states.length states) :
    weightMatrix (mcToGraph ⟨states.length, p, states⟩) = p := by
  funext i j
  obtain ⟨h1, h2⟩ := weightMatrix_eq (mcToGraph_simple (c := ⟨states.length, p, states⟩) hl) i j
  rcases (h0 i j).lt_or_eq with hp | hp
  · refine h1 _ (mem_mcToGraph.2 ⟨i, j, hp, ?_⟩)
    have hi := getD_fin states i
    have hj := getD_fin states j
    change (states[i.val], states[j.val], p i j) = (states.getD i.val "", states.getD j.val "", p i j)
    rw [hi, hj]
  · refine (h2 ?_).trans hp
    intro w hw
    obtain ⟨i', j', hp', e⟩ := mem_mcToGraph.1 hw
    have hi := getD_fin states i'
    have hj := getD_fin states j'
    injection e with e1 e2
    injection e2 with e2 _
    have f1 : i = i' := getElem_fin_inj hs (e1.trans hi)
    have f2 : j = j' := getElem_fin_inj hs (e2.trans hj)
    subst f1 f2
    exact absurd hp (ne_of_lt hp')

theorem validateGraph_mcToGraph {c : MC K} (h : c.Accepted) : validateGraph (mcToGraph c) = .ok () := by
  unfold validateGraph
  rw [if_neg, if_neg, if_neg]
  · rfl
  · rw [not_not, List.all_eq_true]
    intro e he
    obtain ⟨i, j, hp, rfl⟩ := mem_mcToGraph.1 he
    exact decide_eq_true hp
  · rw [not_not, List.all_eq_true]
    exact h.2.2.2.2.2
  · have h1 := h.1
    have h2 : (mcToGraph c).nodes.length = c.n := h.2.2.2.1
    omega

/-- The graph of a chain has exactly the transitions of positive probability as edges. -/
theorem C65_graph_edges (c : MC K) (e : String × String × K) : e ∈ (mcToGraph c).edges ↔
    ∃ i j : Fin c.n, 0 < c.p i j ∧ e = (c.states.getD i.val "", c.states.getD j.val "", c.p i j) :=
  mem_mcToGraph

/-- The chain obtained from the graph of a chain: every row is divided by its sum. -/
theorem C65_graph_normalised (c : MC K) (h : c.Accepted) :
    ∃ Q : Matrix (Fin c.n) (Fin c.n) K, fromGraph (mcToGraph c) = .ok ⟨c.n, Q, c.states⟩ ∧
      ∀ i j, Q i j = c.p i j / ∑ l, c.p i l := by
  have hv := validateGraph_mcToGraph h
  obtain ⟨n, p, states⟩ := c
  obtain ⟨-, h0, h3, hl⟩ := h
  have h4 := hl.1
  change states.length = n at h4
  subst h4
  have hw := weightMatrix_mcToGraph states hl.2.1 p (fun i j => (h0 i j).1) hl
  refine ⟨normalizeOrUniform p, ?_, ?_⟩
  · unfold fromGraph
    rw [hv, R.ok_bind]
    have e : normalizeOrUniform (weightMatrix (mcToGraph ⟨states.length, p, states⟩)) =
        normalizeOrUniform p := congrArg (normalizeOrUniform (n := states.length)) hw
    exact congrArg (fun Q : Matrix (Fin states.length) (Fin states.length) K =>
      (Except.ok ⟨states.length, Q, states⟩ : R (MC K))) e
  · intro i j
    have hs : 0 ≤ ∑ l, p i l := Finset.sum_nonneg fun l _ => (h0 i l).1
    refine if_neg ?_
    rw [isclose_zero hs, not_le]
    have := (abs_le.1 (h3 i)).1
    have h9 : (1 : K) / 10 ^ 8 < 1 - (1 / 10 ^ 8 + 1 / 10 ^ 5) := by norm_num
    linarith

/-- C65 (partial: rows that sum to one exactly). The graph of a chain gives the chain back. -/
theorem C65_graph_round_trip_partial (c : MC K) (h : c.Valid) : fromGraph (mcToGraph c) = .ok c := by
  obtain ⟨Q, h1, h2⟩ := C65_graph_normalised c h.accepted
  rw [h1]
  have e : Q = c.p := by
    funext i j
    rw [h2 i j, h.2.1.2 i, div_one]
  rw [e]

/-! ## Hidden Markov models -/

theorem mem_hmmToGraph {m : HMM K} {e : TypedEdge K} : e ∈ (hmmToGraph m).edges ↔
    (∃ i j : Fin m.n, 0 < m.p i j ∧
      e = ⟨m.states.getD i.val "", m.states.getD j.val "", "P", m.p i j⟩) ∨
    ∃ (i : Fin m.n) (j : Fin m.k), 0 < m.e i j ∧
      e = ⟨m.states.getD i.val "", m.symbols.getD j.val "", "E", m.e i j⟩ := by
  unfold hmmToGraph
  simp only [List.mem_flatMap, List.mem_append, List.mem_filterMap, List.mem_finRange, true_and]
  constructor
  · rintro ⟨i, ⟨j, h⟩ | ⟨j, h⟩⟩
    · by_cases hp : 0 < m.p i j
      · rw [if_pos hp] at h
        exact Or.inl ⟨i, j, hp, (Option.some.inj h).symm⟩
      · rw [if_neg hp] at h
        cases h
    · by_cases hp : 0 < m.e i j
      · rw [if_pos hp] at h
        exact Or.inr ⟨i, j, hp, (Option.some.inj h).symm⟩
      · rw [if_neg hp] at h
        cases h
  · rintro (⟨i, j, hp, rfl⟩ | ⟨i, j, hp, rfl⟩)
    · exact ⟨i, Or.inl ⟨j, if_pos hp⟩⟩
    · exact ⟨i, Or.inr ⟨j, if_pos hp⟩⟩

theorem hmmToGraph_items (m : HMM K) :
    ((hmmToGraph m).edges.map fun e => ([e.type, e.source, e.target], e.weight)) =
      (hmmItems m).filter fun x => decide (0 < x.2) := by
  unfold hmmToGraph hmmItems
  rw [List.map_flatMap, List.filter_flatMap]
  refine List.flatMap_congr fun i _ => ?_
  rw [List.map_append, List.filter_append]
  congr 1
  · exact map_filterMap_positive (fun j => m.p i j) _ _ _ (fun _ => rfl) (fun _ => rfl) _
  · exact map_filterMap_positive (fun j => m.e i j) _ _ _ (fun _ => rfl) (fun _ => rfl) _

theorem layer_states (m : HMM K) :
    layerNodes (hmmToGraph m) 1 = m.states ∧ layerNodes (hmmToGraph m) 0 = m.symbols := by
  unfold layerNodes hmmToGraph
  constructor
  · simp [List.filter_map, Function.comp_def]
  · simp [List.filter_map, Function.comp_def]

theorem validateLayerGraph_hmmToGraph {m : HMM K} (h : m.Accepted) :
    validateLayerGraph (hmmToGraph m) = .ok () := by
  obtain ⟨h1, h2, -, -, -, -, ⟨h5, -, h6⟩, ⟨h7, -, h8⟩, -⟩ := h
  have l1 := congrArg List.length (layer_states m).1
  have l0 := congrArg List.length (layer_states m).2
  unfold layerNodes at l1 l0
  rw [List.length_map] at l1 l0
  unfold validateLayerGraph
  rw [if_neg, if_neg, if_neg, if_neg, if_neg]
  · rfl
  · rw [not_not, List.all_eq_true]
    intro e he
    rcases mem_hmmToGraph.1 he with ⟨i, j, hp, rfl⟩ | ⟨i, j, hp, rfl⟩
    · exact decide_eq_true (Or.inr rfl)
    · exact decide_eq_true (Or.inl rfl)
  · rw [not_not, List.all_eq_true]
    intro e he
    rcases mem_hmmToGraph.1 he with ⟨i, j, hp, rfl⟩ | ⟨i, j, hp, rfl⟩
    · exact decide_eq_true hp
    · exact decide_eq_true hp
  · rw [l1, l0]
    omega
  · rw [not_not, List.all_eq_true]
    intro x hx
    have hx' : x ∈ m.states.map (fun s => (s, (1 : ℤ))) ++ m.symbols.map fun s => (s, 0) := hx
    rcases List.mem_append.1 hx' with hx | hx
    · obtain ⟨s, -, rfl⟩ := List.mem_map.1 hx
      exact decide_eq_true (Or.inr rfl)
    · obtain ⟨s, -, rfl⟩ := List.mem_map.1 hx
      exact decide_eq_true (Or.inl rfl)
  · rw [not_not, List.all_eq_true]
    intro x hx
    have hx' : x ∈ m.states.map (fun s => (s, (1 : ℤ))) ++ m.symbols.map fun s => (s, 0) := hx
    rcases List.mem_append.1 hx' with hx | hx
    · obtain ⟨s, hs, rfl⟩ := List.mem_map.1 hx
      exact h6 s hs
    · obtain ⟨s, hs, rfl⟩ := List.mem_map.1 hx
      exact h8 s hs

theorem dictMatrices_positive (states symbols : List String) (hs : states.Nodup)
    (hy : symbols.Nodup) (p : Matrix (Fin states.length) (Fin states.length) K)
    (e : Matrix (Fin states.length) (Fin symbols.length) K) (hp : ∀ i j, 0 ≤ p i j)
    (he : ∀ i j, 0 ≤ e i j) :
    dictMatrices states symbols
      ((hmmItems ⟨states.length, symbols.length, p, e, states, symbols⟩).filter
        fun x => decide (0 < x.2)) = .ok (p, e) := by
  have hnd := hmmItems_nodup states symbols p e hs hy
  obtain ⟨N, h1, h2, h3, h4, h5⟩ := dictMatrices_fill hs hy
    ((hmmItems ⟨states.length, symbols.length, p, e, states, symbols⟩).filter
        fun x => decide (0 < x.2)) 0 0
    (by
      intro x hx
      rcases (mem_hmmItems states symbols p e).1 (List.mem_of_mem_filter hx) with
        ⟨i, j, rfl⟩ | ⟨i, j, rfl⟩
      · exact ⟨_, List.getElem_mem _, Or.inl ⟨_, List.getElem_mem _, rfl⟩⟩
      · exact ⟨_, List.getElem_mem _, Or.inr ⟨_, List.getElem_mem _, rfl⟩⟩)
    (hnd.sublist (List.Sublist.map _ List.filter_sublist))
  refine h1.trans (congrArg Except.ok (Prod.ext ?_ ?_))
  · funext i j
    rcases (hp i j).lt_or_eq with h | h
    · exact h2 i j _ (List.mem_filter.2 ⟨(mem_hmmItems states symbols p e).2 (Or.inl ⟨i, j, rfl⟩),
        decide_eq_true h⟩)
    · refine (h3 i j ?_).trans h
      intro hm
      obtain ⟨x, hx, hxk⟩ := List.mem_map.1 hm
      obtain ⟨hx1, hx2⟩ := List.mem_filter.1 hx
      rcases (mem_hmmItems states symbols p e).1 hx1 with ⟨i', j', rfl⟩ | ⟨i', j', rfl⟩
      · injection hxk with _ hxk
        injection hxk with e1 hxk
        injection hxk with e2 _
        have f1 := getElem_fin_inj hs e1
        have f2 := getElem_fin_inj hs e2
        subst f1 f2
        exact absurd h (ne_of_lt (of_decide_eq_true hx2))
      · injection hxk with hxk _
        exact absurd hxk (by decide)
  · funext i j
    rcases (he i j).lt_or_eq with h | h
    · exact h4 i j _ (List.mem_filter.2 ⟨(mem_hmmItems states symbols p e).2 (Or.inr ⟨i, j, rfl⟩),
        decide_eq_true h⟩)
    · refine (h5 i j ?_).trans h
      intro hm
      obtain ⟨x, hx, hxk⟩ := List.mem_map.1 hm
      obtain ⟨hx1, hx2⟩ := List.mem_filter.1 hx
      rcases (mem_hmmItems states symbols p e).1 hx1 with ⟨i', j', rfl⟩ | ⟨i', j', rfl⟩
      · injection hxk with hxk _
        exact absurd hxk (by decide)
      · injection hxk with _ hxk
        injection hxk with e1 hxk
        injection hxk with e2 _
        have f1 := getElem_fin_inj hs e1
        have f2 := getElem_fin_inj hy e2
        subst f1 f2
        exact absurd h (ne_of_lt (of_decide_eq_true hx2))

theorem normalizeRowsOrUniform_stochastic {m n : ℕ} {M : Matrix (Fin m) (Fin n) K}
    (h : ∀ i, ∑ j, M i j = 1) : normalizeRowsOrUniform M = M := by
  funext i j
  refine (if_neg ?_).trans ?_
  · rw [h i, isclose_zero zero_le_one]
    norm_num
  · rw [h i, div_one]

/-- C65 (partial: rows that sum to one exactly) for hidden Markov models. -/
theorem C65_hmm_graph_round_trip_partial (m : HMM K) (h : m.Valid) :
    hmmFromGraph (hmmToGraph m) = .ok m := by
  obtain ⟨h1, h2, ⟨hp, hps⟩, ⟨he, hes⟩, h5, h7, h9⟩ := h
  have unit : ∀ {a b : ℕ} (M : Matrix (Fin a) (Fin b) K), (∀ i j, 0 ≤ M i j) →
      (∀ i, ∑ j, M i j = 1) → ∀ i j, 0 ≤ M i j ∧ M i j ≤ 1 := fun M h0 hs i j => ⟨h0 i j, by
    rw [← hs i]
    exact Finset.single_le_sum (fun l _ => h0 i l) (Finset.mem_univ j)⟩
  have hacc : m.Accepted := ⟨h1, h2, unit m.p hp hps, unit m.e he hes,
    fun i => by rw [hps i, sub_self, abs_zero]; positivity,
    fun i => by rw [hes i, sub_self, abs_zero]; positivity, h5, h7, h9⟩
  unfold hmmFromGraph
  rw [validateLayerGraph_hmmToGraph hacc, R.ok_bind, (layer_states m).1, (layer_states m).2]
  unfold hmmOfGraph
  rw [hmmToGraph_items m]
  obtain ⟨n, k, p, e, states, symbols⟩ := m
  obtain ⟨h5, h6, -⟩ := h5
  obtain ⟨h7, h8, -⟩ := h7
  change states.length = n at h5
  change symbols.length = k at h7
  subst h5 h7
  rw [dictMatrices_positive states symbols h6 h8 p e hp he, R.ok_bind]
  refine (if_neg ?_).trans ?_
  · rw [List.any_eq_true]
    rintro ⟨x, hx, hx'⟩
    exact h9 hx (of_decide_eq_true hx')
  · have e1 : normalizeRowsOrUniform p = p := normalizeRowsOrUniform_stochastic hps
    have e2 : normalizeRowsOrUniform e = e := normalizeRowsOrUniform_stochastic hes
    rw [e1, e2]
    rfl

/-! ## Concrete cases -/

theorem C65_instance : fromGraph (mcToGraph exNames) = .ok exNames :=
  C65_graph_round_trip_partial _ exNames_valid

example : (mcToGraph exNames).edges = [("sunny day", "sunny day", 1 / 2), ("sunny day", "rain ", 1 / 2),
    ("rain ", "rain ", 1)] := by decide +kernel

/-- The transition matrix of `exTolerance`. -/
def exToleranceP : Matrix (Fin 2) (Fin 2) ℚ := fun i j =>
  if i = 0 then (if j = 0 then 1 / 2 else 100001 / 200000) else (if j = 0 then 0 else 1)

/-- A chain that is accepted although a row does not sum to one exactly. -/
def exTolerance : MC ℚ := ⟨2, exToleranceP, ["a", "b"]⟩

theorem exTolerance_accepted : exTolerance.Accepted := by
  have h1 : ∀ i j : Fin 2, 0 ≤ exToleranceP i j ∧ exToleranceP i j ≤ 1 := by
    intro i j
    fin_cases i <;> fin_cases j <;> decide +kernel
  have h2 : ∀ i : Fin 2, |∑ j, exToleranceP i j - 1| ≤ 1 / 10 ^ 8 + 1 / 10 ^ 5 := by
    intro i
    fin_cases i <;> decide +kernel
  exact ⟨le_refl 2, h1, h2, rfl, by decide, by decide⟩

/-- C65 fails for accepted chains whose rows do not sum to one exactly: the probabilities change. -/
theorem C65_renormalised : exTolerance.Accepted ∧ fromGraph (mcToGraph exTolerance) ≠ .ok exTolerance := by
  refine ⟨exTolerance_accepted, ?_⟩
  obtain ⟨Q, h1, h2⟩ := C65_graph_normalised exTolerance exTolerance_accepted
  rw [h1]
  intro h
  injection h with h
  have e : Q = exTolerance.p := by
    unfold exTolerance at h ⊢
    injection h
  have h3 := h2 (0 : Fin 2) (0 : Fin 2)
  rw [e] at h3
  exact absurd h3 (by decide +kernel)

end Verif
