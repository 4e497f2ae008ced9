import Verif.Lemmas.Generators
import Verif.Lemmas.Chain
import Mathlib.Tactic.FinCases
import Mathlib.Tactic.NormNum
import Mathlib.Data.Nat.Choose.Sum

/-!
# Properties C06-C10: from_matrix, from_graph, gambler's ruin, urn and population models
-/

set_option linter.unusedSectionVars false
set_option linter.unusedSimpArgs false

namespace Verif

variable {K : Type} [Field K] [LinearOrder K] [IsStrictOrderedRing K]

/-! ## C06 -/

theorem validateMatrix_sound {v : PyVal K} {r : (n : ℕ) × Matrix (Fin n) (Fin n) K}
    (h : validateMatrix v = .ok r) : 2 ≤ r.1 ∧ ∀ i j, 0 ≤ r.2 i j := by
  unfold validateMatrix at h
  split at h
  · next rows _ =>
    rw [R.ite_throw, R.ite_throw, R.pure_ok] at h
    obtain ⟨h1, h2, rfl⟩ := h
    push Not at h1
    refine ⟨h1.1, fun i j => ?_⟩
    have hr : rows[(i : ℕ)] ∈ rows := List.getElem_mem _
    have hw : rows[(i : ℕ)].length = rows.length := by
      have := h1.2
      simp only [hasWidth, List.all_eq_true, beq_iff_eq] at this
      exact this _ hr
    have hj : (j : ℕ) < rows[(i : ℕ)].length := by rw [hw]; exact j.isLt
    simp only [not_not, List.all_eq_true] at h2
    have hx := h2 _ hr _ (List.getElem_mem hj)
    simp only [toMat]
    rw [List.getD_eq_getElem _ _ i.isLt, List.getD_eq_getElem _ _ hj]
    cases hc : rows[(i : ℕ)][(j : ℕ)] with
    | fin x => rw [hc] at hx; simpa [Flt.isFiniteNonneg, Flt.val] using hx
    | nan => rw [hc] at hx; simp [Flt.isFiniteNonneg] at hx
    | inf b => rw [hc] at hx; simp [Flt.isFiniteNonneg] at hx
  · simp at h
  · simp at h

/-- Row `i` of `Q` is the normalisation of row `i` of the weights `M`, uniform when that row is
null. -/
def RowNormalised {n : ℕ} (M Q : Matrix (Fin n) (Fin n) K) (i : Fin n) : Prop :=
  if ∀ j, M i j = 0 then ∀ j, Q i j = 1 / (n : K)
  else ∀ j, Q i j * ∑ l, M i l = M i j

theorem rowNormalised_of_large {n : ℕ} {M : Matrix (Fin n) (Fin n) K} (h0 : ∀ i j, 0 ≤ M i j)
    (i : Fin n) (h : (∀ j, M i j = 0) ∨ 1 / 10 ^ 8 < ∑ j, M i j) :
    RowNormalised M (normalizeOrUniform M) i := by
  have hs : 0 ≤ ∑ j, M i j := Finset.sum_nonneg fun j _ => h0 i j
  unfold RowNormalised
  rcases h with h | h
  · rw [if_pos h]
    intro j
    have hz : ∑ l, M i l = 0 := Finset.sum_eq_zero fun l _ => h l
    have : isclose (∑ l, M i l) 0 = true := (isclose_zero hs).2 (by rw [hz]; positivity)
    simp only [normalizeOrUniform, this, if_true]
  · have hpos : 0 < ∑ j, M i j := lt_trans (by positivity) h
    rw [if_neg (fun h' => by
      rw [Finset.sum_eq_zero fun l _ => h' l] at hpos; exact lt_irrefl _ hpos)]
    intro j
    have : ¬ isclose (∑ l, M i l) 0 = true := by rw [isclose_zero hs]; exact not_le.2 h
    simp only [normalizeOrUniform, this, if_false, Bool.false_eq_true]
    rw [div_mul_cancel₀ _ hpos.ne']

/-- C06 (from_matrix). Whatever is accepted becomes a valid chain with the size of the matrix, and
every row whose total weight exceeds `1e-8`, or that is null, is the normalisation of the
corresponding row. -/
theorem C06_from_matrix_partial {m states : PyVal K} {c : MC K}
    (h : fromMatrix m states = .ok c) :
    c.Valid ∧ ∃ M : Matrix (Fin c.n) (Fin c.n) K, validateMatrix m = .ok ⟨c.n, M⟩ ∧
      ∀ i, ((∀ j, M i j = 0) ∨ 1 / 10 ^ 8 < ∑ j, M i j) → RowNormalised M c.p i := by
  unfold fromMatrix at h
  rw [R.bind_ok] at h
  obtain ⟨⟨n, M⟩, h1, h2⟩ := h
  simp only [R.bind_ok, R.pure_ok] at h2
  obtain ⟨l, h3, rfl⟩ := h2
  have hs := validateMatrix_sound h1
  exact ⟨⟨hs.1, normalizeOrUniform_stochastic hs.2, labelsOrDefault_sound h3⟩, M, h1,
    fun i hi => rowNormalised_of_large hs.2 i hi⟩

theorem allFiniteNonneg_ofFn {m n : ℕ} (M : Matrix (Fin m) (Fin n) K) (h0 : ∀ i j, 0 ≤ M i j) :
    (List.ofFn fun i => List.ofFn fun j => Flt.fin (M i j)).all
      (fun r => r.all Flt.isFiniteNonneg) = true := by
  simp [List.all_eq_true, List.mem_ofFn, Flt.isFiniteNonneg, h0]

/-- Every nonnegative square matrix of size at least two is accepted. -/
theorem C06_from_matrix_accepts {n : ℕ} (hn : 2 ≤ n) (M : Matrix (Fin n) (Fin n) K)
    (h0 : ∀ i j, 0 ≤ M i j) :
    fromMatrix (pyArray M) .none = .ok ⟨n, normalizeOrUniform M, createLabels n ""⟩ := by
  have hlen : (List.ofFn fun i => List.ofFn fun j => Flt.fin (M i j)).length = n := by simp
  have hv : validateMatrix (pyArray M) = .ok ⟨n, M⟩ := by
    unfold validateMatrix
    rw [extractNumeric_pyArray]
    simp only
    rw [R.ite_throw, R.ite_throw, R.pure_ok]
    refine ⟨?_, ?_, ?_⟩
    · rw [hlen]
      push Not
      exact ⟨hn, by simp [hasWidth, List.all_eq_true, List.mem_ofFn]⟩
    · rw [allFiniteNonneg_ofFn M h0]; simp
    · rw [sigma_toMat hlen, toMat_ofFn]
  unfold fromMatrix
  rw [hv]
  rfl

/-- A matrix with one tiny row. -/
def tinyRow : Matrix (Fin 2) (Fin 2) ℚ := !![0, 1 / 10 ^ 9; 1, 1]

theorem tinyRow_nonneg : ∀ i j, 0 ≤ tinyRow i j := by
  intro i j; fin_cases i <;> fin_cases j <;> simp [tinyRow]

/-- C06 is violated for tiny rows: a non-null row of total weight below `1e-8` is replaced by the
uniform one instead of being normalised. -/
theorem C06_tiny_rows_become_uniform :
    ∃ (M : Matrix (Fin 2) (Fin 2) ℚ) (c : MC ℚ), (∀ i j, 0 ≤ M i j) ∧
      fromMatrix (pyArray M) .none = .ok c ∧ c.states = ["1", "2"] ∧
      ∃ h : c.n = 2, c.p (Fin.cast h.symm 0) (Fin.cast h.symm 0) = 1 / 2 ∧ M 0 0 = 0 ∧
        M 0 1 ≠ 0 := by
  refine ⟨tinyRow, _, tinyRow_nonneg, C06_from_matrix_accepts le_rfl _ tinyRow_nonneg, by decide,
    rfl, ?_, ?_, ?_⟩
  · change normalizeOrUniform tinyRow 0 0 = 1 / 2
    have : isclose (∑ l, tinyRow 0 l) 0 = true := by
      rw [isclose_zero (Finset.sum_nonneg fun j _ => tinyRow_nonneg 0 j)]
      simp [tinyRow, Fin.sum_univ_two]
      norm_num
    simp only [normalizeOrUniform, this, if_true]
    norm_num
  · simp [tinyRow]
  · simp [tinyRow]

theorem weightMatrix_nonneg {g : Graph K} (h : ∀ e ∈ g.edges, 0 < e.2.2) (i j) :
    0 ≤ weightMatrix g i j := by
  unfold weightMatrix
  suffices H : ∀ (es : List (String × String × K)) (M : Matrix (Fin g.nodes.length)
      (Fin g.nodes.length) K), (∀ e ∈ es, 0 < e.2.2) → (∀ i j, 0 ≤ M i j) → ∀ i j,
      0 ≤ (es.foldl (setEdge g.nodes) M) i j from
    H g.edges 0 h (fun _ _ => le_rfl) i j
  intro es
  induction es with
  | nil => intro M _ hM; exact hM
  | cons e es ih =>
    intro M he hM
    refine ih _ (fun e' h' => he e' (List.mem_cons_of_mem _ h')) ?_
    intro i j
    unfold setEdge
    split
    · exact (he e (List.mem_cons_self)).le
    · exact hM i j

/-- The edge list of a graph without parallel edges, with end points among the nodes. -/
def Graph.Simple (g : Graph K) : Prop :=
  g.nodes.Nodup ∧ (g.edges.map fun e => (e.1, e.2.1)).Nodup ∧
    ∀ e ∈ g.edges, e.1 ∈ g.nodes ∧ e.2.1 ∈ g.nodes

theorem weightMatrix_eq {g : Graph K} (hg : g.Simple) (i j : Fin g.nodes.length) :
    (∀ w, (g.nodes[i], g.nodes[j], w) ∈ g.edges → weightMatrix g i j = w) ∧
    ((∀ w, (g.nodes[i], g.nodes[j], w) ∉ g.edges) → weightMatrix g i j = 0) := by
  obtain ⟨hn, hd, hm⟩ := hg
  unfold weightMatrix
  suffices H : ∀ (es : List (String × String × K)) (M : Matrix (Fin g.nodes.length)
      (Fin g.nodes.length) K), (es.map fun e => (e.1, e.2.1)).Nodup →
      (∀ e ∈ es, e.1 ∈ g.nodes ∧ e.2.1 ∈ g.nodes) →
      (∀ w, (g.nodes[i], g.nodes[j], w) ∈ es → (es.foldl (setEdge g.nodes) M) i j = w) ∧
      ((∀ w, (g.nodes[i], g.nodes[j], w) ∉ es) → (es.foldl (setEdge g.nodes) M) i j = M i j) from H g.edges 0 hd hm
  have key : ∀ (s : String) (k : Fin g.nodes.length), s ∈ g.nodes →
      ((k : ℕ) = g.nodes.idxOf s ↔ g.nodes[k] = s) := by
    intro s k hs
    constructor
    · intro h
      have := List.getElem_idxOf (List.idxOf_lt_length_of_mem hs)
      simp only [Fin.getElem_fin, h, this]
    · intro h
      rw [← h]
      simp only [Fin.getElem_fin]
      rw [hn.idxOf_getElem]
  intro es
  induction es with
  | nil => intro M _ _; simp
  | cons e es ih =>
    intro M he hM
    simp only [List.map_cons, List.nodup_cons] at he
    have hM' := fun e' h' => hM e' (List.mem_cons_of_mem _ h')
    obtain ⟨ih1, ih2⟩ := ih (setEdge g.nodes M e) he.2 hM'
    obtain ⟨hm1, hm2⟩ := hM e List.mem_cons_self
    simp only [List.foldl_cons]
    refine ⟨fun w hw => ?_, fun hw => ?_⟩
    · rcases List.mem_cons.1 hw with hw | hw
      · rw [ih2 ?_]
        · subst hw
          rw [setEdge, if_pos ⟨(key _ i hm1).2 rfl, (key _ j hm2).2 rfl⟩]
        · intro w' hw'
          apply he.1
          rw [List.mem_map]
          exact ⟨_, hw', by rw [← hw]⟩
      · exact ih1 w hw
    · rw [ih2 (fun w hw' => hw w (List.mem_cons_of_mem _ hw'))]
      rw [setEdge, if_neg]
      rintro ⟨h1, h2⟩
      refine hw e.2.2 (List.mem_cons.2 (Or.inl ?_))
      rw [(key _ i hm1).1 h1, (key _ j hm2).1 h2]

/-- C06 (from_graph). A graph is accepted exactly when it has two nodes or more, non-blank names
and positive weights; the chain has the nodes as states, and every row is the normalisation of the
edge weights leaving that node (uniform for a node without edges), as soon as the total weight
exceeds `1e-8`. -/
theorem C06_from_graph_partial {g : Graph K} (hg : g.Simple) {c : MC K}
    (h : fromGraph g = .ok c) :
    c.Valid ∧ c.states = g.nodes ∧
      ∃ W : Matrix (Fin c.n) (Fin c.n) K,
        (∀ (i j : Fin c.n) (hi : (i : ℕ) < g.nodes.length) (hj : (j : ℕ) < g.nodes.length),
          (∀ w, (g.nodes[(i : ℕ)], g.nodes[(j : ℕ)], w) ∈ g.edges → W i j = w) ∧
          ((∀ w, (g.nodes[(i : ℕ)], g.nodes[(j : ℕ)], w) ∉ g.edges) → W i j = 0)) ∧
        ∀ i, ((∀ j, W i j = 0) ∨ 1 / 10 ^ 8 < ∑ j, W i j) → RowNormalised W c.p i := by
  unfold fromGraph at h
  rw [R.bind_ok] at h
  obtain ⟨_, h1, h2⟩ := h
  rw [R.pure_ok] at h2
  subst h2
  unfold validateGraph at h1
  rw [R.ite_throw, R.ite_throw, R.ite_throw] at h1
  obtain ⟨h1, h2, h3, -⟩ := h1
  simp only [not_not, List.all_eq_true, decide_eq_true_eq, not_lt] at h1 h2 h3
  have h0 := weightMatrix_nonneg h3
  exact ⟨⟨h1, normalizeOrUniform_stochastic h0, rfl, hg.1, h2⟩, rfl, weightMatrix g,
    fun i j _ _ => weightMatrix_eq hg i j, fun i hi => rowNormalised_of_large h0 i hi⟩

/-- Non-trivial instance: a graph with a sink. -/
def sinkGraph : Graph ℚ := ⟨["a", "b"], [("a", "a", 1), ("a", "b", 3)]⟩

example : sinkGraph.Simple := by
  refine ⟨by decide, by decide, ?_⟩
  decide
example : ∃ c, fromGraph sinkGraph = .ok c :=
  ⟨_, by unfold fromGraph; rw [show validateGraph sinkGraph = .ok () by decide +kernel]; rfl⟩

/-! ## C07 -/

theorem gamblersRuin_stochastic {n : ℕ} (hn : 3 ≤ n) {w : K} (h0 : 0 ≤ w) (h1 : w ≤ 1) :
    IsStochastic (gamblersRuinMatrix n w) := by
  constructor
  · intro i j
    unfold gamblersRuinMatrix
    split_ifs <;> linarith
  · intro i
    unfold gamblersRuinMatrix
    by_cases hi : (i : ℕ) = 0
    · simp only [hi, if_true]; exact sum_single (by omega) _
    by_cases hi' : (i : ℕ) = n - 1
    · have e : ¬ (n - 1 = 0) := by omega
      simp only [hi', e, if_true, if_false]
      exact sum_single (by omega) _
    · simp only [hi, hi', if_false]
      rw [sum_two (by omega) (by omega) (by omega)]
      ring

theorem gamblersRuin_down {n : ℕ} {w : K} (h1 : w < 1) :
    ∀ (k : ℕ) (hk : k < n - 1), Reach (gamblersRuinMatrix n w) ⟨k, by omega⟩ ⟨0, by omega⟩ := by
  intro k
  induction k with
  | zero => intro hk; exact Relation.ReflTransGen.refl
  | succ k ih =>
    intro hk
    refine Relation.ReflTransGen.head ?_ (ih (by omega))
    unfold Edge gamblersRuinMatrix
    have e1 : ¬ (k + 1 = 0) := by omega
    have e2 : ¬ (k + 1 = n - 1) := by omega
    simp only [e1, e2, if_false, Nat.add_sub_cancel, if_true]
    linarith

theorem gamblersRuin_up {n : ℕ} {w : K} (h0 : 0 < w) :
    ∀ (d k : ℕ) (_ : 1 ≤ k) (hk : k + d = n - 1),
      Reach (gamblersRuinMatrix n w) ⟨k, by omega⟩ ⟨n - 1, by omega⟩ := by
  intro d
  induction d with
  | zero =>
    intro k _ hk
    have : (⟨k, by omega⟩ : Fin n) = ⟨n - 1, by omega⟩ := by ext; simp; omega
    rw [this]
    exact Relation.ReflTransGen.refl
  | succ d ih =>
    intro k h1 hk
    refine Relation.ReflTransGen.head ?_ (ih (k + 1) (by omega) (by omega))
    unfold Edge gamblersRuinMatrix
    have e1 : ¬ (k = 0) := by omega
    have e2 : ¬ (k = n - 1) := by omega
    have e3 : ¬ (k + 1 = k - 1) := by omega
    simp only [e1, e2, e3, if_false, if_true]
    exact h0

/-- C07. Accepted exactly for integer sizes of at least three and win probabilities strictly
between zero and one (with valid labels); the result is a valid chain with absorbing ends whose
interior states win with probability `w` and lose with probability `1 - w`; it is an absorbing
chain, and both ends are reachable from every interior state. -/
theorem C07_gamblers_ruin {size w states : PyVal K} {c : MC K}
    (h : gamblersRuin size w states = .ok c) :
    c.Valid ∧ 3 ≤ c.n ∧ size = .int c.n ∧ ∃ x : K, w = .float (.fin x) ∧ 0 < x ∧ x < 1 ∧
      (∀ i : Fin c.n, ((i : ℕ) = 0 ∨ (i : ℕ) = c.n - 1) → AbsorbingState c.p i) ∧
      (∀ i j : Fin c.n, 0 < (i : ℕ) → (i : ℕ) < c.n - 1 →
        c.p i j = if (j : ℕ) = i + 1 then x else if (j : ℕ) + 1 = i then 1 - x else 0) ∧
      AbsorbingChain c.p ∧
      (∀ i e : Fin c.n, 0 < (i : ℕ) → (i : ℕ) < c.n - 1 →
        ((e : ℕ) = 0 ∨ (e : ℕ) = c.n - 1) → Reach c.p i e) := by
  unfold gamblersRuin at h
  rw [R.bind_ok] at h
  obtain ⟨z, h1, h⟩ := h
  rw [R.bind_ok] at h
  obtain ⟨x, h2, h⟩ := h
  rw [R.bind_ok] at h
  obtain ⟨l, h3, h⟩ := h
  rw [R.pure_ok] at h
  subst h
  obtain ⟨rfl, hz⟩ := validateInteger_ge h1
  obtain ⟨rfl, hx0, hx1⟩ := validateFloat_open h2
  have hn : 3 ≤ z.toNat := by omega
  have habs : ∀ i : Fin z.toNat, ((i : ℕ) = 0 ∨ (i : ℕ) = z.toNat - 1) →
      AbsorbingState (gamblersRuinMatrix z.toNat x) i := by
    intro i hi
    unfold AbsorbingState gamblersRuinMatrix
    rcases hi with hi | hi
    · simp [hi]
    · simp only [hi, if_true]
      rw [if_neg (by omega)]
  have hreach : ∀ i e : Fin z.toNat, 0 < (i : ℕ) → (i : ℕ) < z.toNat - 1 →
      ((e : ℕ) = 0 ∨ (e : ℕ) = z.toNat - 1) → Reach (gamblersRuinMatrix z.toNat x) i e := by
    intro i e hi hi' he
    rcases he with he | he
    · have : e = ⟨0, by omega⟩ := by ext; exact he
      rw [this]
      exact gamblersRuin_down hx1 i hi'
    · have : e = ⟨z.toNat - 1, by omega⟩ := by ext; exact he
      rw [this]
      exact gamblersRuin_up hx0 (z.toNat - 1 - i) i hi (by omega)
  refine ⟨⟨by simp only; omega, gamblersRuin_stochastic hn hx0.le hx1.le,
    labelsOrDefault_sound h3⟩, hn, ?_, x, rfl, hx0, hx1, habs, ?_, ⟨?_, ?_⟩, hreach⟩
  · simp only [PyVal.int.injEq]; omega
  · intro i j hi hi'
    simp only at hi hi' ⊢
    unfold gamblersRuinMatrix
    rw [if_neg (by omega), if_neg (by omega)]
    by_cases h1 : (j : ℕ) = i - 1
    · rw [if_pos h1, if_neg (by omega), if_pos (by omega)]
    · rw [if_neg h1]
      by_cases h2 : (j : ℕ) = i + 1
      · rw [if_pos h2, if_pos h2]
      · rw [if_neg h2, if_neg h2, if_neg (by omega)]
  · exact ⟨(⟨0, by omega⟩ : Fin z.toNat), habs _ (Or.inl rfl)⟩
  · intro i
    by_cases hi : (i : ℕ) = 0 ∨ (i : ℕ) = z.toNat - 1
    · exact ⟨i, habs i hi, Relation.ReflTransGen.refl⟩
    · exact ⟨(⟨0, by omega⟩ : Fin z.toNat), habs _ (Or.inl rfl), hreach i ⟨0, by omega⟩ (by omega) (by omega)
        (Or.inl rfl)⟩

/-- All parameters in range are accepted. -/
theorem C07_accepts {n : ℕ} (hn : 3 ≤ n) {x : K} (h0 : 0 < x) (h1 : x < 1) :
    gamblersRuin (.int n) (.float (.fin x)) .none =
      .ok ⟨n, gamblersRuinMatrix n x, createLabels n ""⟩ := by
  unfold gamblersRuin
  rw [validateInteger_of_ge (by omega)]
  change (validateFloat _ _ _ >>= _) = _
  rw [validateFloat_of_open h0 h1]
  simp only [Int.toNat_natCast]
  rfl

example : ∃ c, gamblersRuin (.int 5 : PyVal ℚ) (.float (.fin (2 / 5))) .none = .ok c :=
  ⟨_, C07_accepts (n := 5) (by norm_num) (by norm_num) (by norm_num)⟩

end Verif
