import Verif.Model.HiddenGen
import Verif.Props.GraphIO
import Verif.Props.FileContents
import Verif.Props.Random
import Mathlib.Tactic.IntervalCases

/-!
# Generators of hidden Markov models (C101, C102, C103)
-/

set_option linter.unusedSectionVars false

namespace Verif

open Finset

variable {K : Type} [Field K] [LinearOrder K] [IsStrictOrderedRing K]

/-! ## Rows that are normalised -/

/-- Row `i` of `Q` is the normalisation of row `i` of the weights `M`, uniform when that row is null. -/
def RowScaled {m n : ℕ} (M Q : Fin m → Fin n → K) (i : Fin m) : Prop :=
  if ∀ j, M i j = 0 then ∀ j, Q i j = 1 / (n : K)
  else ∀ j, Q i j * ∑ l, M i l = M i j

theorem rowsOrUniform_stochastic {m n : ℕ} (hn : 0 < n) {M : Matrix (Fin m) (Fin n) K}
    (h0 : ∀ i j, 0 ≤ M i j) : IsStochastic (normalizeRowsOrUniform M) := by
  have hs : ∀ i, 0 ≤ ∑ j, M i j := fun i => Finset.sum_nonneg fun j _ => h0 i j
  constructor
  · intro i j
    unfold normalizeRowsOrUniform
    split
    · positivity
    · exact div_nonneg (h0 i j) (hs i)
  · intro i
    unfold normalizeRowsOrUniform
    by_cases h : isclose (∑ l, M i l) 0 = true
    · simp only [h, if_true]
      have : (n : K) ≠ 0 := by exact_mod_cast hn.ne'
      simp [this]
    · simp only [h, if_false, Bool.false_eq_true]
      rw [isclose_zero (hs i)] at h
      push Not at h
      have : 0 < ∑ l, M i l := lt_trans (by positivity) h
      rw [← Finset.sum_div, div_self this.ne']

theorem rowScaled_of_large {m n : ℕ} {M : Matrix (Fin m) (Fin n) K} (h0 : ∀ i j, 0 ≤ M i j)
    (i : Fin m) (h : (∀ j, M i j = 0) ∨ 1 / 10 ^ 8 < ∑ j, M i j) :
    RowScaled M (normalizeRowsOrUniform M) i := by
  have hs : 0 ≤ ∑ j, M i j := Finset.sum_nonneg fun j _ => h0 i j
  unfold RowScaled
  rcases h with h | h
  · rw [if_pos h]
    intro j
    have hz : ∑ l, M i l = 0 := Finset.sum_eq_zero fun l _ => h l
    have : isclose (∑ l, M i l) 0 = true := (isclose_zero hs).2 (by rw [hz]; positivity)
    simp only [normalizeRowsOrUniform, this, if_true]
  · have hpos : 0 < ∑ j, M i j := lt_trans (by positivity) h
    rw [if_neg (fun h' => by
      rw [Finset.sum_eq_zero fun l _ => h' l] at hpos; exact lt_irrefl _ hpos)]
    intro j
    have : ¬ isclose (∑ l, M i l) 0 = true := by rw [isclose_zero hs]; exact not_le.2 h
    simp only [normalizeRowsOrUniform, this, if_false, Bool.false_eq_true]
    exact div_mul_cancel₀ _ hpos.ne'

/-! ## C101 -/

/-- A directed graph without parallel edges. -/
def LayerGraph.Simple (g : LayerGraph K) : Prop :=
  (g.nodes.map Prod.fst).Nodup ∧ (g.edges.map fun e => (e.source, e.target)).Nodup

theorem mem_layerNodes {g : LayerGraph K} {l : ℤ} {s : String} :
    s ∈ layerNodes g l ↔ (s, l) ∈ g.nodes := by
  unfold layerNodes
  simp only [List.mem_map, List.mem_filter, decide_eq_true_eq]
  constructor
  · rintro ⟨⟨a, b⟩, ⟨h1, h2⟩, h3⟩
    simp only at h2 h3
    subst h2 h3
    exact h1
  · exact fun h => ⟨(s, l), ⟨h, rfl⟩, rfl⟩

theorem layerNodes_nodup {g : LayerGraph K} (h : (g.nodes.map Prod.fst).Nodup) (l : ℤ) :
    (layerNodes g l).Nodup :=
  h.sublist (List.filter_sublist.map _)

/-- C101. An accepted graph has two layers of nodes, the states and the symbols, and typed edges with
positive weights. The hidden Markov model that is returned is valid, has the nodes of layer one as
states and those of layer zero as symbols, in the order of the graph, and the rows of its two matrices
are the weights of the edges of type `P` between states and of type `E` from states to symbols (zero
without an edge) divided by their sum, or uniform if there are no such edges. Rows whose weights have
a positive sum of at most `10^-8` are excluded, see `C101_tiny_weights`. -/
theorem C101_hmm_from_graph_partial {g : LayerGraph K} (hg : g.Simple) {m : HMM K}
    (h : hmmFromGraph g = .ok m) :
    m.Valid ∧ (∀ s, s ∈ m.states ↔ (s, 1) ∈ g.nodes) ∧ (∀ s, s ∈ m.symbols ↔ (s, 0) ∈ g.nodes) ∧
      m.states.Sublist (g.nodes.map Prod.fst) ∧ m.symbols.Sublist (g.nodes.map Prod.fst) ∧
      (∀ x ∈ g.nodes, x.2 = 0 ∨ x.2 = 1) ∧
      (∀ e ∈ g.edges, 0 < e.weight ∧ e.source ∈ m.states ∧
        (e.type = "P" ∧ e.target ∈ m.states ∨ e.type = "E" ∧ e.target ∈ m.symbols)) ∧
      ∃ (W : Matrix (Fin m.n) (Fin m.n) K) (V : Matrix (Fin m.n) (Fin m.k) K),
        (∀ i j,
          (∀ w, (⟨m.states.getD i.val "", m.states.getD j.val "", "P", w⟩ : TypedEdge K) ∈ g.edges →
            W i j = w) ∧
          ((∀ w, (⟨m.states.getD i.val "", m.states.getD j.val "", "P", w⟩ : TypedEdge K) ∉ g.edges) →
            W i j = 0)) ∧
        (∀ i j,
          (∀ w, (⟨m.states.getD i.val "", m.symbols.getD j.val "", "E", w⟩ : TypedEdge K) ∈ g.edges →
            V i j = w) ∧
          ((∀ w, (⟨m.states.getD i.val "", m.symbols.getD j.val "", "E", w⟩ : TypedEdge K) ∉ g.edges) →
            V i j = 0)) ∧
        (∀ i, ((∀ j, W i j = 0) ∨ 1 / 10 ^ 8 < ∑ j, W i j) → RowScaled W m.p i) ∧
        ∀ i, ((∀ j, V i j = 0) ∨ 1 / 10 ^ 8 < ∑ j, V i j) → RowScaled V m.e i := by
  obtain ⟨_, h1, h⟩ := (R.bind_ok _ _ _).1 h
  unfold validateLayerGraph at h1
  rw [R.ite_throw, R.ite_throw, R.ite_throw, R.ite_throw, R.ite_throw] at h1
  obtain ⟨hblank, hlayer, hsize, hweight, htype, -⟩ := h1
  simp only [not_not, List.all_eq_true, decide_eq_true_eq] at hblank hlayer hweight htype
  push Not at hsize
  have hs1 : 2 ≤ (layerNodes g 1).length := by
    unfold layerNodes; rw [List.length_map]; exact hsize.2
  have hs0 : 2 ≤ (layerNodes g 0).length := by
    unfold layerNodes; rw [List.length_map]; exact hsize.1
  have hnd1 := layerNodes_nodup hg.1 (1 : ℤ)
  have hnd0 := layerNodes_nodup hg.1 (0 : ℤ)
  have hlab : ∀ l : ℤ, ∀ s ∈ layerNodes g l, nonBlank s = true := fun l s hs =>
    hblank _ (mem_layerNodes.1 hs)
  have hm1 : ∀ s, s ∈ layerNodes g 1 ↔ (s, 1) ∈ g.nodes := fun s => mem_layerNodes
  have hm0 : ∀ s, s ∈ layerNodes g 0 ↔ (s, 0) ∈ g.nodes := fun s => mem_layerNodes
  have hsub : ∀ l : ℤ, (layerNodes g l).Sublist (g.nodes.map Prod.fst) := fun l =>
    List.filter_sublist.map _
  have hsub1 := hsub 1
  have hsub0 := hsub 0
  have hb1 := hlab 1
  have hb0 := hlab 0
  generalize layerNodes g 1 = states at *
  generalize layerNodes g 0 = symbols at *
  unfold hmmOfGraph at h
  obtain ⟨N, hN, h⟩ := (R.bind_ok _ _ _).1 h
  rw [R.ite_throw, R.pure_ok] at h
  obtain ⟨hdis, rfl⟩ := h
  unfold dictMatrices at hN
  set d : PyDict K := g.edges.map fun e => ([e.type, e.source, e.target], e.weight) with hd
  have hknown := dictMatrices_known (d := d) (by
    intro x hx
    obtain ⟨e, he, rfl⟩ := List.mem_map.1 hx
    rcases htype e he with h | h <;> simp [h]) hN
  have hnd : (d.map Prod.fst).Nodup := by
    rw [hd, List.map_map]
    have := hg.2
    refine List.Nodup.of_map (fun k : List String => (k.getD 1 "", k.getD 2 "")) ?_
    rw [List.map_map]
    exact this
  obtain ⟨N', hN', v1, z1, v2, z2⟩ := dictMatrices_fill hnd1 hnd0 d 0 0 hknown hnd
  obtain rfl : N = N' := Except.ok.inj (hN.symm.trans hN')
  have hmem : ∀ t a b (w : K), ([t, a, b], w) ∈ d ↔ (⟨a, b, t, w⟩ : TypedEdge K) ∈ g.edges := by
    intro t a b w
    rw [hd]
    simp only [List.mem_map]
    constructor
    · rintro ⟨e, he, he'⟩
      obtain ⟨a', b', t', w'⟩ := e
      simp only [Prod.mk.injEq, List.cons.injEq, and_true] at he'
      obtain ⟨⟨rfl, rfl, rfl⟩, rfl⟩ := he'
      exact he
    · exact fun he => ⟨_, he, rfl⟩
  have hkey : ∀ k, k ∈ d.map Prod.fst → ∃ w, (k, w) ∈ d := by
    intro k hk
    obtain ⟨x, hx, rfl⟩ := List.mem_map.1 hk
    exact ⟨x.2, hx⟩
  have hpos : ∀ x ∈ d, 0 < x.2 := by
    intro x hx
    obtain ⟨e, he, rfl⟩ := List.mem_map.1 hx
    exact hweight e he
  have p0 : ∀ i j, 0 ≤ N.1 i j := by
    intro i j
    by_cases hk : ["P", states[i.val], states[j.val]] ∈ d.map Prod.fst
    · obtain ⟨w, hw⟩ := hkey _ hk
      rw [v1 i j w hw]; exact (hpos _ hw).le
    · rw [z1 i j hk]; exact le_rfl
  have e0 : ∀ i j, 0 ≤ N.2 i j := by
    intro i j
    by_cases hk : ["E", states[i.val], symbols[j.val]] ∈ d.map Prod.fst
    · obtain ⟨w, hw⟩ := hkey _ hk
      rw [v2 i j w hw]; exact (hpos _ hw).le
    · rw [z2 i j hk]; exact le_rfl
  refine ⟨⟨hs1, hs0, rowsOrUniform_stochastic (two_pos.trans_le hs1) p0,
      rowsOrUniform_stochastic (two_pos.trans_le hs0) e0, ⟨rfl, hnd1, hb1⟩, ⟨rfl, hnd0, hb0⟩, ?_⟩, hm1, hm0, hsub1, hsub0, ?_, ?_, N.1, N.2, ?_, ?_,
    fun i hi => rowScaled_of_large p0 i hi, fun i hi => rowScaled_of_large e0 i hi⟩
  · intro x hx hx'
    exact hdis (List.any_eq_true.2 ⟨x, hx, decide_eq_true hx'⟩)
  · exact hlayer
  · intro e he
    obtain ⟨a, ha, hk⟩ := hknown ([e.type, e.source, e.target], e.weight) (List.mem_map.2 ⟨e, he, rfl⟩)
    refine ⟨hweight e he, ?_⟩
    rcases hk with ⟨b, hb, hk⟩ | ⟨b, hb, hk⟩ <;>
      simp only [List.cons.injEq, and_true] at hk <;> obtain ⟨h1, h2, h3⟩ := hk
    · exact ⟨h2 ▸ ha, Or.inl ⟨h1, h3 ▸ hb⟩⟩
    · exact ⟨h2 ▸ ha, Or.inr ⟨h1, h3 ▸ hb⟩⟩
  · intro i j
    have hi : states.getD i.val "" = states[i.val] := List.getD_eq_getElem _ _ i.isLt
    have hj : states.getD j.val "" = states[j.val] := List.getD_eq_getElem _ _ j.isLt
    change (∀ w, (⟨states.getD i.val "", states.getD j.val "", "P", w⟩ : TypedEdge K) ∈ g.edges → _) ∧
      ((∀ w, (⟨states.getD i.val "", states.getD j.val "", "P", w⟩ : TypedEdge K) ∉ g.edges) → _)
    rw [hi, hj]
    refine ⟨fun w hw => v1 i j w ((hmem _ _ _ _).2 hw), fun hw => z1 i j fun hk => ?_⟩
    obtain ⟨w, hw'⟩ := hkey _ hk
    exact hw w ((hmem _ _ _ _).1 hw')
  · intro i j
    have hi : states.getD i.val "" = states[i.val] := List.getD_eq_getElem _ _ i.isLt
    have hj : symbols.getD j.val "" = symbols[j.val] := List.getD_eq_getElem _ _ j.isLt
    change (∀ w, (⟨states.getD i.val "", symbols.getD j.val "", "E", w⟩ : TypedEdge K) ∈ g.edges → _) ∧
      ((∀ w, (⟨states.getD i.val "", symbols.getD j.val "", "E", w⟩ : TypedEdge K) ∉ g.edges) → _)
    rw [hi, hj]
    refine ⟨fun w hw => v2 i j w ((hmem _ _ _ _).2 hw), fun hw => z2 i j fun hk => ?_⟩
    obtain ⟨w, hw'⟩ := hkey _ hk
    exact hw w ((hmem _ _ _ _).1 hw')

/-- A graph whose state `b` has one edge of weight `10^-9` to the state `a`. -/
def exLightGraph : LayerGraph ℚ where
  nodes := [("a", 1), ("b", 1), ("x", 0), ("y", 0)]
  edges := [⟨"a", "b", "P", 3⟩, ⟨"b", "a", "P", 1 / 10 ^ 9⟩, ⟨"a", "x", "E", 1⟩, ⟨"a", "y", "E", 3⟩]

def exLightP : Matrix (Fin 2) (Fin 2) ℚ := !![0, 1; 1 / 2, 1 / 2]
def exLightE : Matrix (Fin 2) (Fin 2) ℚ := !![1 / 4, 3 / 4; 1 / 2, 1 / 2]

theorem exLightGraph_ok :
    hmmFromGraph exLightGraph = .ok ⟨2, 2, exLightP, exLightE, ["a", "b"], ["x", "y"]⟩ := by
  have h1 : layerNodes exLightGraph 1 = ["a", "b"] := by decide +kernel
  have h0 : layerNodes exLightGraph 0 = ["x", "y"] := by decide +kernel
  have hv : validateLayerGraph exLightGraph = .ok () := by
    unfold validateLayerGraph
    rw [if_neg (by decide +kernel), if_neg (by decide +kernel), if_neg (by decide +kernel),
      if_neg (by decide +kernel), if_neg (by decide +kernel)]
    rfl
  unfold hmmFromGraph
  rw [hv, R.ok_bind, h1, h0]
  unfold hmmOfGraph
  have hM : dictMatrices ["a", "b"] ["x", "y"]
      (exLightGraph.edges.map fun e => ([e.type, e.source, e.target], e.weight)) =
      .ok ((!![0, 3; 1 / 10 ^ 9, 0] : Matrix (Fin 2) (Fin 2) ℚ),
        (!![1, 3; 0, 0] : Matrix (Fin 2) (Fin 2) ℚ)) := by
    have : (dictMatrices ["a", "b"] ["x", "y"]
      (exLightGraph.edges.map fun e => ([e.type, e.source, e.target], e.weight))).toOption =
      some ((!![0, 3; 1 / 10 ^ 9, 0] : Matrix (Fin 2) (Fin 2) ℚ),
        (!![1, 3; 0, 0] : Matrix (Fin 2) (Fin 2) ℚ)) := by decide +kernel
    revert this
    generalize dictMatrices ["a", "b"] ["x", "y"]
      (exLightGraph.edges.map fun e => ([e.type, e.source, e.target], e.weight)) = r
    cases r with
    | error e => intro h; cases h
    | ok r => intro h; exact congrArg Except.ok (Option.some.inj h)
  rw [hM, R.ok_bind, if_neg (by decide +kernel)]
  have e1 : normalizeRowsOrUniform (!![0, 3; 1 / 10 ^ 9, 0] : Matrix (Fin 2) (Fin 2) ℚ) = exLightP := by
    decide +kernel
  have e2 : normalizeRowsOrUniform (!![1, 3; 0, 0] : Matrix (Fin 2) (Fin 2) ℚ) = exLightE := by
    decide +kernel
  exact congrArg₂ (fun a b => (Except.ok ⟨2, 2, a, b, ["a", "b"], ["x", "y"]⟩ : R (HMM ℚ))) e1 e2

/-- C101, disagreement. The state `b` has one edge of type `P`, which leads to `a`, and its transition
probabilities are uniform, as if it had none. -/
theorem C101_tiny_weights : exLightGraph.Simple ∧
    hmmFromGraph exLightGraph = .ok ⟨2, 2, exLightP, exLightE, ["a", "b"], ["x", "y"]⟩ ∧
    (⟨"b", "a", "P", 1 / 10 ^ 9⟩ : TypedEdge ℚ) ∈ exLightGraph.edges ∧
    (∀ w, (⟨"b", "b", "P", w⟩ : TypedEdge ℚ) ∉ exLightGraph.edges) ∧
    exLightP 1 1 = 1 / 2 := by
  refine ⟨⟨by decide +kernel, by decide +kernel⟩, exLightGraph_ok, by simp [exLightGraph], ?_,
    by decide +kernel⟩
  intro w
  simp [exLightGraph]

/-! ## C102 -/

theorem validateMatrixRows_sound {v : PyVal K} {size : ℕ} {r : (k : ℕ) × Matrix (Fin size) (Fin k) K}
    (h : validateMatrixRows v size = .ok r) :
    2 ≤ r.1 ∧ (∀ i j, 0 ≤ r.2 i j) ∧ ∃ rows : List (List (Flt K)), extractNumeric v = some (.mat rows) ∧
      rows.length = size ∧ ∀ (i : Fin size) (row : List (Flt K)), rows[i.val]? = some row →
        row = List.ofFn fun j => .fin (r.2 i j) := by
  unfold validateMatrixRows at h
  split at h
  · next rows he =>
    rw [R.ite_throw, R.ite_throw, R.pure_ok] at h
    obtain ⟨h1, h2, rfl⟩ := h
    push Not at h1
    obtain ⟨rfl, h3, h4⟩ := h1
    simp only [hasWidth, List.all_eq_true, beq_iff_eq] at h4
    simp only [not_not, List.all_eq_true] at h2
    have hcell : ∀ (i : Fin rows.length) (j : Fin (rows.headD []).length),
        ∃ x : K, 0 ≤ x ∧ (rows[i.val])[j.val]? = some (.fin x) ∧
          toMat rows rows.length (rows.headD []).length i j = x := by
      intro i j
      have hr : rows[(i : ℕ)] ∈ rows := List.getElem_mem _
      have hj : (j : ℕ) < rows[(i : ℕ)].length := by rw [h4 _ hr]; exact j.isLt
      have hx := h2 _ hr _ (List.getElem_mem hj)
      simp only [toMat]
      rw [List.getD_eq_getElem _ _ i.isLt, List.getD_eq_getElem _ _ hj, List.getElem?_eq_getElem hj]
      cases hc : rows[(i : ℕ)][(j : ℕ)] with
      | fin x => rw [hc] at hx; exact ⟨x, by simpa [Flt.isFiniteNonneg] using hx, rfl, rfl⟩
      | nan => rw [hc] at hx; simp [Flt.isFiniteNonneg] at hx
      | inf b => rw [hc] at hx; simp [Flt.isFiniteNonneg] at hx
    refine ⟨h3, fun i j => ?_, rows, he, rfl, ?_⟩
    · obtain ⟨x, h0, -, hx⟩ := hcell i j
      exact h0.trans_eq hx.symm
    · intro i row hrow
      rw [List.getElem?_eq_getElem i.isLt] at hrow
      obtain rfl := Option.some.inj hrow
      refine List.ext_getElem (by rw [List.length_ofFn]; exact h4 _ (List.getElem_mem _)) ?_
      intro j hj hj'
      rw [List.length_ofFn] at hj'
      obtain ⟨x, -, hx, hx'⟩ := hcell i ⟨j, hj'⟩
      rw [List.getElem?_eq_getElem hj] at hx
      rw [List.getElem_ofFn]
      exact (Option.some.inj hx).trans (congrArg Flt.fin hx'.symm)
  · simp at h
  · simp at h

/-- C102. An accepted pair of matrices gives a valid hidden Markov model, whose matrices are the given
ones with every row divided by its sum, and with uniform rows in place of null rows. Rows with a
positive sum of at most `10^-8` are excluded, see `C102_tiny_rows`. -/
theorem C102_from_matrices_partial {mp me states symbols : PyVal K} {m : HMM K}
    (h : hmmFromMatrices mp me states symbols = .ok m) :
    m.Valid ∧ ∃ (P : Matrix (Fin m.n) (Fin m.n) K) (E : Matrix (Fin m.n) (Fin m.k) K),
      validateMatrix mp = .ok ⟨m.n, P⟩ ∧ validateMatrixRows me m.n = .ok ⟨m.k, E⟩ ∧
      (∀ i, ((∀ j, P i j = 0) ∨ 1 / 10 ^ 8 < ∑ j, P i j) → RowScaled P m.p i) ∧
      ∀ i, ((∀ j, E i j = 0) ∨ 1 / 10 ^ 8 < ∑ j, E i j) → RowScaled E m.e i := by
  obtain ⟨P, h1, h⟩ := (R.bind_ok _ _ _).1 h
  obtain ⟨E, h2, h⟩ := (R.bind_ok _ _ _).1 h
  obtain ⟨ls, h3, h⟩ := (R.bind_ok _ _ _).1 h
  obtain ⟨lsy, h4, h⟩ := (R.bind_ok _ _ _).1 h
  rw [R.ite_throw, R.pure_ok] at h
  obtain ⟨h5, rfl⟩ := h
  obtain ⟨p2, p0⟩ := validateMatrix_sound h1
  obtain ⟨e2, e0, -⟩ := validateMatrixRows_sound h2
  refine ⟨⟨p2, e2, rowsOrUniform_stochastic (two_pos.trans_le p2) p0,
    rowsOrUniform_stochastic (two_pos.trans_le e2) e0, labelsOrDefault_sound h3, labelsOrDefault_sound h4, ?_⟩, P.2, E.2, h1, h2,
    fun i hi => rowScaled_of_large p0 i hi, fun i hi => rowScaled_of_large e0 i hi⟩
  intro x hx hx'
  exact h5 (List.any_eq_true.2 ⟨x, hx, decide_eq_true hx'⟩)

theorem validateMatrix_pyArray {n : ℕ} (hn : 2 ≤ n) (M : Matrix (Fin n) (Fin n) K)
    (h0 : ∀ i j, 0 ≤ M i j) : validateMatrix (pyArray M) = .ok ⟨n, M⟩ := by
  have hlen : (List.ofFn fun i => List.ofFn fun j => Flt.fin (M i j)).length = n := by simp
  unfold validateMatrix
  rw [extractNumeric_pyArray]
  simp only
  rw [R.ite_throw, R.ite_throw, R.pure_ok]
  refine ⟨?_, ?_, ?_⟩
  · rw [hlen]
    push Not
    exact ⟨hn, by simp [hasWidth, List.all_eq_true, List.mem_ofFn]⟩
  · rw [allFiniteNonneg_ofFn M h0]; simp
  · rw [sigma_toMat hlen, toMat_ofFn]

theorem sigma_toMat_rows {rows : List (List (Flt K))} {n k k' : ℕ} (h : k' = k) :
    (⟨k', toMat rows n k'⟩ : (k : ℕ) × Matrix (Fin n) (Fin k) K) = ⟨k, toMat rows n k⟩ := by
  subst h; rfl

theorem validateMatrixRows_pyArray {n k : ℕ} (hn : 0 < n) (hk : 2 ≤ k) (M : Matrix (Fin n) (Fin k) K)
    (h0 : ∀ i j, 0 ≤ M i j) : validateMatrixRows (pyArray M) n = .ok ⟨k, M⟩ := by
  have hlen : (List.ofFn fun i => List.ofFn fun j => Flt.fin (M i j)).length = n := by simp
  have hhead : ((List.ofFn fun i => List.ofFn fun j => Flt.fin (M i j)).headD []).length = k := by
    obtain ⟨m, rfl⟩ : ∃ m, n = m + 1 := ⟨n - 1, by omega⟩
    simp [List.ofFn_succ]
  unfold validateMatrixRows
  rw [extractNumeric_pyArray]
  simp only
  rw [R.ite_throw, R.ite_throw, R.pure_ok]
  refine ⟨?_, ?_, ?_⟩
  · rw [hlen, hhead]
    push Not
    exact ⟨rfl, hk, by simp [hasWidth, List.all_eq_true, List.mem_ofFn]⟩
  · rw [allFiniteNonneg_ofFn M h0]; simp
  · rw [sigma_toMat_rows hhead, toMat_ofFn]

theorem createLabels_disjoint (n k : ℕ) : List.Disjoint (createLabels n "P") (createLabels k "E") := by
  intro x hx hy
  unfold createLabels at hx hy
  obtain ⟨a, -, rfl⟩ := List.mem_map.1 hx
  obtain ⟨b, -, h⟩ := List.mem_map.1 hy
  have h' := congrArg String.toList h
  rw [String.toList_append, String.toList_append] at h'
  have hP : "P".toList = ['P'] := by decide +kernel
  have hE : "E".toList = ['E'] := by decide +kernel
  rw [hP, hE] at h'
  simp at h'

/-- C102, what is accepted: matrices with nonnegative entries. -/
theorem C102_accepts {n k : ℕ} (hn : 2 ≤ n) (hk : 2 ≤ k) (P : Matrix (Fin n) (Fin n) K)
    (E : Matrix (Fin n) (Fin k) K) (p0 : ∀ i j, 0 ≤ P i j) (e0 : ∀ i j, 0 ≤ E i j) :
    hmmFromMatrices (pyArray P) (pyArray E) .none .none =
      .ok ⟨n, k, normalizeRowsOrUniform P, normalizeRowsOrUniform E, createLabels n "P",
        createLabels k "E"⟩ := by
  unfold hmmFromMatrices
  rw [validateMatrix_pyArray hn P p0, R.ok_bind, validateMatrixRows_pyArray (by omega) hk E e0, R.ok_bind]
  change (if _ then _ else _) = _
  rw [if_neg]
  · rfl
  · rw [List.any_eq_true]
    rintro ⟨x, hx, hx'⟩
    exact createLabels_disjoint n k hx (of_decide_eq_true hx')

/-- C102, disagreement. A state whose only weight is `10^-9`, for a transition to the second state,
is given uniform transition probabilities. -/
theorem C102_tiny_rows :
    hmmFromMatrices (pyArray tinyRow) (pyArray tinyRow) .none .none =
      .ok ⟨2, 2, normalizeRowsOrUniform tinyRow, normalizeRowsOrUniform tinyRow, ["P1", "P2"],
        ["E1", "E2"]⟩ ∧
      tinyRow 0 0 = 0 ∧ 0 < tinyRow 0 1 ∧ normalizeRowsOrUniform tinyRow 0 0 = 1 / 2 :=
  ⟨C102_accepts le_rfl le_rfl tinyRow tinyRow tinyRow_nonneg tinyRow_nonneg, by decide +kernel,
    by decide +kernel, by decide +kernel⟩

/-! ## C103 -/

/-- The contract of the random number generator, as in `DrawsOk`. -/
structure GridDrawsOk {m n : ℕ} (dr : GridDraws K m n) : Prop where
  pick_lt : ∀ i m, 0 < m → dr.pick i m < m
  perm_perm : ∀ m, (dr.perm m).Perm (List.range m)
  value_pos : ∀ i j, 0 < dr.value i j

/-- The matrix completes the mask. -/
structure Completes {m n : ℕ} (mask : Fin m → Fin n → Option K) (zeros : ℕ) (Q : Fin m → Fin n → K) :
    Prop where
  assigned : ∀ i j x, mask i j = some x → Q i j = x
  nonneg : ∀ i j, 0 ≤ Q i j
  sum : ∀ i, ∑ j, Q i j = 1 ∨ ∑ j, Q i j = ∑ j, (mask i j).getD 0 ∧
    1 - ∑ j, (mask i j).getD 0 ≤ 1 / 10 ^ 8 + 1 / 10 ^ 5
  enough : zeros ≤ (univ.filter fun x : Fin m × Fin n => mask x.1 x.2 = none ∧ Q x.1 x.2 = 0).card
  atMost : (univ.filter fun x : Fin m × Fin n => mask x.1 x.2 = none ∧ Q x.1 x.2 = 0 ∧
    1 / 10 ^ 8 + 1 / 10 ^ 5 < 1 - ∑ j, (mask x.1 j).getD 0).card ≤ zeros

theorem mem_gridFree {m n : ℕ} {mask : GridMask K m n} {i : Fin m} {j : Fin n} :
    j ∈ gridFree mask i ↔ mask i j = none ∧ gridFull mask i = false := by
  unfold gridFree
  cases hf : gridFull mask i <;> simp

theorem gridFree_nodup {m n : ℕ} (mask : GridMask K m n) (i : Fin m) : (gridFree mask i).Nodup := by
  unfold gridFree
  split
  · exact List.nodup_nil
  · exact (List.nodup_finRange n).filter _

theorem gridKept_spec {m n : ℕ} {mask : GridMask K m n} {dr : GridDraws K m n} (hd : GridDrawsOk dr)
    {i : Fin m} (hf : gridFull mask i = false) (hne : gridFree mask i ≠ []) :
    ∃ j, gridKept mask dr i = some j ∧ j ∈ gridFree mask i := by
  have hl := hd.pick_lt i _ (List.length_pos_iff.2 hne)
  refine ⟨(gridFree mask i)[dr.pick i (gridFree mask i).length], ?_, List.getElem_mem _⟩
  simp [gridKept, hf, List.getElem?_eq_getElem hl]

theorem mem_gridCandidates {m n : ℕ} {mask : GridMask K m n} {dr : GridDraws K m n} {i : Fin m}
    {j : Fin n} :
    (i, j) ∈ gridCandidates mask dr ↔ mask i j = none ∧ gridKept mask dr i ≠ some j := by
  simp [gridCandidates]

theorem gridCandidates_nodup {m n : ℕ} (mask : GridMask K m n) (dr : GridDraws K m n) :
    (gridCandidates mask dr).Nodup := by
  unfold gridCandidates
  rw [List.nodup_flatMap]
  refine ⟨fun i _ => ((List.nodup_finRange n).filter _).map
    (fun a b h => (Prod.mk.inj h).2), ?_⟩
  refine (List.nodup_finRange m).pairwise_of_forall_ne ?_
  intro a _ b _ hab
  simp only [Function.onFun, List.disjoint_left]
  rintro ⟨x, y⟩ h1 h2
  simp only [List.mem_map, Prod.mk.injEq] at h1 h2
  obtain ⟨_, -, rfl, -⟩ := h1
  obtain ⟨_, -, h, -⟩ := h2
  exact hab h.symm

/-- There are at least as many candidates as the permutation has entries, and more if a full row has
undefined entries. -/
theorem gridCandidates_length {m n : ℕ} {mask : GridMask K m n} {dr : GridDraws K m n}
    (hd : GridDrawsOk dr) (hne : ¬ ∃ i, ¬ gridFull mask i ∧ gridFree mask i = []) :
    gridZerosRequired mask ≤ ((gridCandidates mask dr).length : ℤ) := by
  have row : ∀ i, (gridFree mask i).length ≤ ((List.finRange n).filter fun j =>
      (mask i j).isNone ∧ gridKept mask dr i ≠ some j).length +
      (if gridFull mask i then 0 else 1) := by
    intro i
    cases hf : gridFull mask i with
    | true => simp [gridFree, hf]
    | false =>
      obtain ⟨j, hj, hm⟩ := gridKept_spec hd hf (fun h => hne ⟨i, by simp [hf], h⟩)
      rw [hj]
      have e := length_filter_ne (gridFree_nodup mask i) hm
      have e2 : ((gridFree mask i).filter fun x => some j ≠ some x) =
          (List.finRange n).filter fun x => (mask i x).isNone ∧ some j ≠ some x := by
        unfold gridFree
        rw [if_neg (by simp [hf]), List.filter_filter]
        refine List.filter_congr fun x _ => ?_
        by_cases h1 : (mask i x).isNone <;> simp [h1]
      rw [e2] at e
      simp only [Bool.false_eq_true, if_false]
      omega
  have gen : ∀ l : List (Fin m), (l.map fun i => (gridFree mask i).length).sum ≤
      ((l.flatMap fun i => ((List.finRange n).filter fun j =>
        (mask i j).isNone ∧ gridKept mask dr i ≠ some j).map fun j => (i, j)).length) +
        (l.filter fun i => ¬ gridFull mask i).length := by
    intro l
    induction l with
    | nil => simp
    | cons i l ih =>
      have hr := row i
      rw [List.flatMap_cons, List.length_append, List.length_map, List.map_cons, List.sum_cons]
      cases hf : gridFull mask i
      · rw [List.filter_cons_of_pos (by simp [hf]), List.length_cons]
        simp only [hf, Bool.false_eq_true, if_false] at hr
        omega
      · rw [List.filter_cons_of_neg (by simp [hf])]
        simp only [hf, if_true] at hr
        omega
  have := gen (List.finRange m)
  unfold gridZerosRequired gridCandidates
  omega

theorem gridZeros_spec {m n : ℕ} {mask : GridMask K m n} {dr : GridDraws K m n} (hd : GridDrawsOk dr)
    (hne : ¬ ∃ i, ¬ gridFull mask i ∧ gridFree mask i = []) {zeros : ℕ}
    (hz : (zeros : ℤ) ≤ gridZerosRequired mask) :
    (gridZeros mask dr zeros).Nodup ∧ (gridZeros mask dr zeros).length = zeros ∧
      ∀ x ∈ gridZeros mask dr zeros, x ∈ gridCandidates mask dr := by
  have hlen := gridCandidates_length hd hne
  obtain ⟨N, hN⟩ : ∃ N, N = (gridZerosRequired mask).toNat := ⟨_, rfl⟩
  have hNc : N ≤ (gridCandidates mask dr).length := by omega
  have hzN : zeros ≤ N := by omega
  have hperm := hd.perm_perm N
  have hlt : ∀ k ∈ (dr.perm N).take zeros, k < (gridCandidates mask dr).length := fun k hk =>
    (List.mem_range.1 (hperm.mem_iff.1 (List.mem_of_mem_take hk))).trans_le hNc
  have hnd : ((dr.perm N).take zeros).Nodup :=
    (hperm.nodup_iff.2 List.nodup_range).sublist (List.take_sublist _ _)
  have htl : ((dr.perm N).take zeros).length = zeros := by
    rw [List.length_take, hperm.length_eq, List.length_range]; omega
  unfold gridZeros
  rw [← hN]
  generalize (dr.perm N).take zeros = l at hlt hnd htl
  refine ⟨?_, ?_, ?_⟩
  · refine hnd.filterMap ?_
    intro a b x hxa hxb
    obtain ⟨h1, e1⟩ := List.getElem?_eq_some_iff.1 (Option.mem_def.1 hxa)
    obtain ⟨h2, e2⟩ := List.getElem?_eq_some_iff.1 (Option.mem_def.1 hxb)
    exact (gridCandidates_nodup mask dr).getElem_inj_iff.1 (e1.trans e2.symm)
  · rw [← htl]
    clear htl hnd
    induction l with
    | nil => rfl
    | cons a l ih =>
      have := hlt a (by simp)
      rw [List.filterMap_cons_some (List.getElem?_eq_getElem this), List.length_cons,
        List.length_cons, ih fun k hk => hlt k (by simp [hk])]
  · intro x hx
    obtain ⟨k, -, hk⟩ := List.mem_filterMap.1 hx
    exact List.mem_of_getElem? hk

theorem gridFull_iff {m n : ℕ} {mask : GridMask K m n} (hm : gridValid mask) (i : Fin m) :
    gridFull mask i = true ↔ 1 - ∑ j, (mask i j).getD 0 ≤ 1 / 10 ^ 8 + 1 / 10 ^ 5 := by
  have : gridSum mask i ≤ 1 := hm.2 i
  unfold gridFull isclose
  rw [decide_eq_true_eq, abs_one, mul_one, abs_sub_comm, abs_of_nonneg (by linarith)]
  rfl

theorem gridMatrix_completes {m n : ℕ} {mask : GridMask K m n} (hm : gridValid mask)
    {dr : GridDraws K m n} (hd : GridDrawsOk dr)
    (hne : ¬ ∃ i, ¬ gridFull mask i ∧ gridFree mask i = []) {zeros : ℕ}
    (hz : (zeros : ℤ) ≤ gridZerosRequired mask) : Completes mask zeros (gridMatrix mask dr zeros) := by
  obtain ⟨znd, zlen, zmem⟩ := gridZeros_spec hd hne hz
  have hsome : ∀ i j x, mask i j = some x → gridFinal mask dr zeros i j = some x := by
    intro i j x hx
    unfold gridFinal
    rw [if_neg, hx]
    intro hmem
    have := (mem_gridCandidates.1 (zmem _ hmem)).1
    simp [hx] at this
  have hzero : ∀ i j, (i, j) ∈ gridZeros mask dr zeros → gridFinal mask dr zeros i j = some 0 :=
    fun i j h => if_pos h
  have hother : ∀ i j, (i, j) ∉ gridZeros mask dr zeros → gridFinal mask dr zeros i j = mask i j :=
    fun i j h => if_neg h
  have hQ : ∀ i j, gridMatrix mask dr zeros i j = match gridFinal mask dr zeros i j with
      | some x => x
      | none => if 0 < ∑ l, if gridFinal mask dr zeros i l = none then dr.value i l else 0 then
          dr.value i j * ((1 - ∑ l, (gridFinal mask dr zeros i l).getD 0) /
            ∑ l, if gridFinal mask dr zeros i l = none then dr.value i l else 0) else dr.value i j :=
    fun i j => rfl
  generalize gridMatrix mask dr zeros = Q at hQ
  generalize gridFinal mask dr zeros = fm at *
  have hsi : ∀ i, ∑ l, (fm i l).getD 0 = ∑ l, (mask i l).getD 0 := by
    intro i
    refine Finset.sum_congr rfl fun j _ => ?_
    by_cases hmem : (i, j) ∈ gridZeros mask dr zeros
    · rw [hzero i j hmem, (mem_gridCandidates.1 (zmem _ hmem)).1]; rfl
    · rw [hother i j hmem]
  have hnone : ∀ i j, fm i j = none → mask i j = none := by
    intro i j hx
    cases hmx : mask i j with
    | none => rfl
    | some y => rw [hsome i j y hmx] at hx; exact hx
  have hval : ∀ i j x, fm i j = some x → Q i j = x := by
    intro i j x hx
    rw [hQ, hx]
  have hs : ∀ i j, fm i j = none → 0 < ∑ l, if fm i l = none then dr.value i l else 0 := by
    intro i j hfj
    refine Finset.sum_pos' (fun l _ => ?_) ⟨j, Finset.mem_univ _, ?_⟩
    · split
      · exact (hd.value_pos i l).le
      · exact le_rfl
    · rw [if_pos hfj]; exact hd.value_pos i j
  have hfree : ∀ i j, fm i j = none → Q i j = dr.value i j * ((1 - ∑ l, (mask i l).getD 0) /
      ∑ l, if fm i l = none then dr.value i l else 0) := by
    intro i j hx
    rw [hQ, hx]
    simp only
    rw [if_pos (hs i j hx), hsi]
  have hle : ∀ i, ∑ l, (mask i l).getD 0 ≤ 1 := hm.2
  refine ⟨fun i j x hx => hval i j x (hsome i j x hx), ?_, ?_, ?_, ?_⟩
  · intro i j
    cases hx : fm i j with
    | none =>
      rw [hfree i j hx]
      exact mul_nonneg (hd.value_pos i j).le (div_nonneg (by linarith [hle i]) (hs i j hx).le)
    | some x =>
      rw [hval i j x hx]
      by_cases hmem : (i, j) ∈ gridZeros mask dr zeros
      · rw [hzero i j hmem] at hx; exact (Option.some.inj hx).le
      · rw [hother i j hmem] at hx; exact (hm.1 i j x hx).1
  · intro i
    by_cases hex : ∃ j, fm i j = none
    · left
      obtain ⟨j0, hj0⟩ := hex
      have hs' := hs i j0 hj0
      have : ∀ j, Q i j = (fm i j).getD 0 + (if fm i j = none then dr.value i j else 0) *
          ((1 - ∑ l, (mask i l).getD 0) / ∑ l, if fm i l = none then dr.value i l else 0) := by
        intro j
        cases hx : fm i j with
        | none => rw [hfree i j hx]; simp
        | some x => rw [hval i j x hx]; simp
      refine (Finset.sum_congr rfl fun j _ => this j).trans ?_
      rw [Finset.sum_add_distrib, hsi, ← Finset.sum_mul, mul_div_cancel₀ _ hs'.ne']
      ring
    · right
      push Not at hex
      constructor
      · rw [← hsi i]
        refine Finset.sum_congr rfl fun j _ => ?_
        obtain ⟨x, hx⟩ := Option.ne_none_iff_exists'.1 (hex j)
        rw [hval i j x hx, hx]; rfl
      · rw [← gridFull_iff hm i]
        by_contra hf
        rw [Bool.not_eq_true] at hf
        obtain ⟨j, hj, hjm⟩ := gridKept_spec hd hf (fun h => hne ⟨i, by simp [hf], h⟩)
        refine hex j ?_
        rw [hother i j fun hmem => (mem_gridCandidates.1 (zmem _ hmem)).2 hj]
        exact (mem_gridFree.1 hjm).1
  · rw [← zlen, ← List.toFinset_card_of_nodup znd]
    refine Finset.card_le_card ?_
    rintro ⟨i, j⟩ hmem
    rw [List.mem_toFinset] at hmem
    simp only [Finset.mem_filter, Finset.mem_univ, true_and]
    exact ⟨(mem_gridCandidates.1 (zmem _ hmem)).1, hval i j 0 (hzero i j hmem)⟩
  · refine le_of_le_of_eq ?_ ((List.toFinset_card_of_nodup znd).trans zlen)
    refine Finset.card_le_card ?_
    rintro ⟨i, j⟩ hmem
    simp only [Finset.mem_filter, Finset.mem_univ, true_and] at hmem
    obtain ⟨h1, h2, h3⟩ := hmem
    rw [List.mem_toFinset]
    by_contra hc
    have hx : fm i j = none := (hother i j hc).trans h1
    rw [hfree i j hx] at h2
    have hp : 0 < 1 - ∑ l, (mask i l).getD 0 := lt_trans (by positivity) h3
    exact (mul_pos (hd.value_pos i j) (div_pos hp (hs i j hx))).ne' h2

/-- C103. Whatever the (non-null) draws are, an accepted call returns two matrices that agree with
every assigned entry of the masks and have no negative entries. Their rows sum to one, except that a
row whose assigned entries sum to one up to the tolerance may keep that sum. Among the unassigned
entries there are at least as many null entries as were requested, and among those of the rows that
are not full there are at most so many. -/
theorem C103_random_partial {n k : ℕ} {pMask : GridMask K n n} {eMask : GridMask K n k}
    (hp : gridValid pMask) (he : gridValid eMask) {pd : GridDraws K n n} {ed : GridDraws K n k}
    (hpd : GridDrawsOk pd) (hed : GridDrawsOk ed) {states pZeros symbols eZeros : PyVal K} {m : HMM K}
    (h : hmmRandomApi pMask eMask pd ed states pZeros symbols eZeros = .ok m) :
    ∃ (P : Matrix (Fin n) (Fin n) K) (E : Matrix (Fin n) (Fin k) K) (zp ze : ℕ) (ls lsy : List String),
      m = ⟨n, k, P, E, ls, lsy⟩ ∧ 2 ≤ n ∧ 2 ≤ k ∧ pZeros = .int zp ∧ eZeros = .int ze ∧
      ValidLabels n ls ∧ ValidLabels k lsy ∧ List.Disjoint ls lsy ∧
      Completes pMask zp P ∧ Completes eMask ze E := by
  obtain ⟨z1, h1, h⟩ := (R.bind_ok _ _ _).1 h
  obtain ⟨z2, h2, h⟩ := (R.bind_ok _ _ _).1 h
  obtain ⟨ls, h3, h⟩ := (R.bind_ok _ _ _).1 h
  obtain ⟨zp, h4, h⟩ := (R.bind_ok _ _ _).1 h
  obtain ⟨lsy, h5, h⟩ := (R.bind_ok _ _ _).1 h
  obtain ⟨ze, h6, h⟩ := (R.bind_ok _ _ _).1 h
  obtain ⟨M, h7, h⟩ := (R.bind_ok _ _ _).1 h
  rw [R.ite_throw, R.pure_ok] at h
  obtain ⟨h8, rfl⟩ := h
  obtain ⟨e1, h1⟩ := validateInteger_ge h1
  obtain ⟨e2, h2⟩ := validateInteger_ge h2
  obtain ⟨rfl, q4⟩ := validateInteger_ge h4
  obtain ⟨rfl, q6⟩ := validateInteger_ge h6
  unfold hmmRandom at h7
  rw [R.ite_throw, R.ite_throw] at h7
  obtain ⟨h9, h10, h7⟩ := h7
  obtain ⟨P, hP, h7⟩ := (R.bind_ok _ _ _).1 h7
  obtain ⟨E, hE, h7⟩ := (R.bind_ok _ _ _).1 h7
  rw [R.pure_ok] at h7
  subst h7
  unfold gridProcess at hP hE
  rw [R.ite_throw, R.pure_ok] at hP hE
  obtain ⟨hPn, rfl⟩ := hP
  obtain ⟨hEn, rfl⟩ := hE
  refine ⟨_, _, zp.toNat, ze.toNat, ls, lsy, rfl, by cases e1; omega, by cases e2; omega,
    by rw [Int.toNat_of_nonneg q4], by rw [Int.toNat_of_nonneg q6], labelsOrDefault_sound h3,
    labelsOrDefault_sound h5, ?_, gridMatrix_completes hp hpd hPn (by omega),
    gridMatrix_completes he hed hEn (by omega)⟩
  intro x hx hx'
  exact h8 (List.any_eq_true.2 ⟨x, hx, decide_eq_true hx'⟩)

/-- Draws used in the examples. -/
def exGridDraws : GridDraws ℚ 2 2 := ⟨fun _ _ => 0, List.range, fun _ _ => 1 / 2⟩

theorem exGridDraws_ok : GridDrawsOk exGridDraws :=
  ⟨fun _ _ h => h, fun _ => List.Perm.refl _, fun _ _ => by norm_num [exGridDraws]⟩

/-- The first row has an assigned one, the second row has no assigned entries. -/
def exHalfMask : GridMask ℚ 2 2 := fun i j => if i = 0 ∧ j = 0 then some 1 else none

def exHalfP : Matrix (Fin 2) (Fin 2) ℚ := !![1, 0; 1 / 2, 1 / 2]

theorem exHalfMask_valid : gridValid exHalfMask := by
  refine ⟨?_, by decide +kernel⟩
  intro i j x
  fin_cases i <;> fin_cases j <;> simp [exHalfMask]
  rintro rfl
  norm_num

/-- C103, disagreement. One null transition probability was requested. The assigned one already leaves
nothing for the rest of its row, and the requested zero is placed there, so that the other row has no
zero: the same call without requested zeros returns the same matrix. -/
theorem C103_zero_wasted : gridValid exHalfMask ∧ GridDrawsOk exGridDraws ∧
    hmmRandom exHalfMask exHalfMask exGridDraws exGridDraws 1 0 = .ok (exHalfP, exHalfP) ∧
    hmmRandom exHalfMask exHalfMask exGridDraws exGridDraws 0 0 = .ok (exHalfP, exHalfP) := by
  have key : ∀ z ≤ 1, hmmRandom exHalfMask exHalfMask exGridDraws exGridDraws z 0 =
      .ok (exHalfP, exHalfP) := by
    intro z hz
    have e0 : gridMatrix exHalfMask exGridDraws 0 = exHalfP := by decide +kernel
    have ez : gridMatrix exHalfMask exGridDraws z = exHalfP := by
      interval_cases z
      · exact e0
      · decide +kernel
    have hr : gridZerosRequired exHalfMask = 1 := by decide +kernel
    have hp : ∀ z, gridProcess exHalfMask exGridDraws z = .ok (gridMatrix exHalfMask exGridDraws z) := by
      intro z
      unfold gridProcess
      rw [if_neg (by decide +kernel)]
      rfl
    unfold hmmRandom
    rw [hr, if_neg (by omega), if_neg (by norm_num), hp, hp, ez, e0]
    rfl
  exact ⟨exHalfMask_valid, exGridDraws_ok, key 1 le_rfl, key 0 (by omega)⟩

/-- C103, the hypotheses are met: nothing is assigned and two zeros are requested, one in each row. -/
theorem C103_instance : hmmRandom (n := 2) (k := 2) (fun _ _ => none) (fun _ _ => none) exGridDraws
    exGridDraws 2 0 = .ok ((!![1, 0; 1, 0] : Matrix (Fin 2) (Fin 2) ℚ),
      (!![1 / 2, 1 / 2; 1 / 2, 1 / 2] : Matrix (Fin 2) (Fin 2) ℚ)) := by
  have hr : gridZerosRequired (fun _ _ => none : GridMask ℚ 2 2) = 2 := by decide +kernel
  have hp : ∀ z, gridProcess (fun _ _ => none) exGridDraws z =
      .ok (gridMatrix (fun _ _ => none) exGridDraws z) := by
    intro z
    unfold gridProcess
    rw [if_neg (by decide +kernel)]
    rfl
  have e0 : gridMatrix (fun _ _ => none) exGridDraws 0 = !![1 / 2, 1 / 2; 1 / 2, 1 / 2] := by
    decide +kernel
  have e2 : gridMatrix (fun _ _ => none) exGridDraws 2 = !![1, 0; 1, 0] := by decide +kernel
  unfold hmmRandom
  rw [hr, if_neg (by norm_num), if_neg (by norm_num), hp, hp, e0, e2]
  rfl

end Verif
