import Verif.Model.Plotting
import Verif.Props.Classes
import Mathlib.Tactic.Linarith
import Mathlib.Tactic.FieldSimp

/-!
# C109: the graph plot
-/

set_option linter.unusedSectionVars false

namespace Verif

variable {K : Type} [Field K] [LinearOrder K] [IsStrictOrderedRing K] {n k : ℕ}

/-! ## Colours -/

theorem nodeColorsFrom_length (offset count : ℕ) : (nodeColorsFrom offset count).length = count := by
  induction count generalizing offset with
  | zero => rfl
  | succ count ih => simp [nodeColorsFrom, ih]

theorem nodeColorsFrom_get (offset count i : ℕ) (ho : offset < 9) (h : i < count) :
    (nodeColorsFrom offset count)[i]? = some ((offset + i) % 9) := by
  induction count generalizing offset i with
  | zero => omega
  | succ count ih =>
    unfold nodeColorsFrom
    cases i with
    | zero =>
      simp only [List.getElem?_cons_zero, Option.some.injEq]
      omega
    | succ i =>
      rw [List.getElem?_cons_succ, ih _ _ (by split_ifs <;> omega) (by omega)]
      congr 1
      split_ifs <;> omega

theorem nodeColors_get {count i : ℕ} (h : i < count) : (nodeColors count)[i]? = some (i % 9) := by
  rw [nodeColors, nodeColorsFrom_get 0 count i (by omega) h, Nat.zero_add]

/-- The position of the class of a state. -/
theorem findIdx_class {P : Fin n → Fin n → K} {cls : List (List (Fin n))} (h : IsClasses P cls)
    {f : Fin n → String} (hf : Function.Injective f) (i : Fin n) :
    ∃ (k : ℕ) (hk : k < cls.length), i ∈ cls[k] ∧
      ((cls.map fun C => C.map f).findIdx? fun cc => decide (f i ∈ cc)) = some k := by
  obtain ⟨C, hC, hi⟩ := h.cover i
  obtain ⟨k, hk, rfl⟩ := List.getElem_of_mem hC
  refine ⟨k, hk, hi, ?_⟩
  rw [List.findIdx?_eq_some_iff_getElem]
  refine ⟨by simpa using hk, by simpa using ⟨i, hi, rfl⟩, fun j hj => ?_⟩
  simp only [List.getElem_map, decide_eq_true_eq, List.mem_map, not_exists, not_and]
  intro x hx hfx
  obtain rfl := hf hfx
  exact (List.pairwise_iff_getElem.1 h.disjoint j k (by omega) hk hj) hx hi

/-- The colour of a state is that of the position of its class. -/
theorem classColor_eq {c : MC K} (hc : c.Valid) {sccs : List (List (Fin c.n))} (h : IsClasses c.p sccs)
    (i : Fin c.n) : ∃ (k : ℕ) (hk : k < (communicatingIdx sccs).length),
      i ∈ (communicatingIdx sccs)[k] ∧
      classColor (communicatingClasses c sccs) (c.label i) = some (k % 9) := by
  obtain ⟨k, hk, hi, hfind⟩ := findIdx_class h.communicatingIdx (label_injective hc.2.2.1 hc.2.2.2.1) i
  refine ⟨k, hk, hi, ?_⟩
  have hlen : (communicatingClasses c sccs).length = (communicatingIdx sccs).length := by
    simp [communicatingClasses]
  have : ((communicatingClasses c sccs).findIdx? fun cc => decide (c.label i ∈ cc)) = some k := hfind
  unfold classColor
  rw [this, Option.bind_some, nodeColors_get (by omega)]

/-! ## Labels of the edges -/

theorem mem_graphEdges {M : Matrix (Fin n) (Fin k) K} {label : Bool} {rnd : ℕ → K → ℤ} {d : ℕ}
    {i : Fin n} {j : Fin k} {o : Option ℤ} :
    (i, j, o) ∈ graphEdges M label rnd d ↔
      0 < M i j ∧ o = if label then some (rnd d (M i j)) else none := by
  unfold graphEdges
  simp only [List.mem_flatMap, List.mem_finRange, true_and, List.mem_map, List.mem_filter,
    decide_eq_true_eq, Prod.mk.injEq]
  constructor
  · rintro ⟨i', j', h, rfl, rfl, rfl⟩
    exact ⟨h, rfl⟩
  · rintro ⟨h, rfl⟩
    exact ⟨i, j, h, rfl, rfl, rfl⟩

theorem graphEdges_nodup (M : Matrix (Fin n) (Fin k) K) (label : Bool) (rnd : ℕ → K → ℤ) (d : ℕ) :
    ((graphEdges M label rnd d).map fun e => (e.1, e.2.1)).Nodup := by
  unfold graphEdges
  rw [List.map_flatMap, List.nodup_flatMap]
  constructor
  · intro i _
    rw [List.map_map]
    refine List.Nodup.map ?_ ((List.nodup_finRange k).filter _)
    intro a b h
    simpa using h
  · refine (List.nodup_finRange n).imp fun {a b} hab x hx hy => ?_
    simp only [List.map_map, List.mem_map, Function.comp] at hx hy
    obtain ⟨_, _, rfl⟩ := hx
    obtain ⟨_, _, h⟩ := hy
    simp only [Prod.mk.injEq] at h
    exact hab h.1.symm

theorem mem_entries {M : Matrix (Fin n) (Fin k) K} {x : K} : x ∈ entries M ↔ ∃ i j, M i j = x := by
  simp [entries]

theorem minEntry_le (M : Matrix (Fin n) (Fin k) K) (i : Fin n) (j : Fin k) : minEntry M ≤ M i j := by
  unfold minEntry
  have hm : M i j ∈ entries M := mem_entries.2 ⟨i, j, rfl⟩
  cases h : (entries M).min? with
  | none =>
    rw [List.min?_eq_none_iff] at h
    rw [h] at hm
    simp at hm
  | some m => exact (List.min?_eq_some_iff.1 h).2 _ hm

theorem minEntry_mem (M : Matrix (Fin n) (Fin k) K) (hn : 0 < n) (hk : 0 < k) :
    ∃ i j, M i j = minEntry M := by
  unfold minEntry
  have hm : M ⟨0, hn⟩ ⟨0, hk⟩ ∈ entries M := mem_entries.2 ⟨_, _, rfl⟩
  cases h : (entries M).min? with
  | none =>
    rw [List.min?_eq_none_iff] at h
    rw [h] at hm
    simp at hm
  | some m => exact mem_entries.1 (List.min?_eq_some_iff.1 h).1

theorem magnitude_range [FloorSemiring K] (l : List K) : 1 ≤ magnitude l ∧ magnitude l ≤ 4 := by
  unfold magnitude
  omega

/-- When all the smallest entries are at least `1e-4`, the number of digits is enough for each. -/
theorem magnitude_spec [FloorSemiring K] {l : List K} (h : ∀ m ∈ l, 1 / 10 ^ 4 ≤ m) {m : K} (hm : m ∈ l) :
    1 ≤ m * 10 ^ magnitude l := by
  have hpos : ∀ m ∈ l, 0 < m := fun m hm => lt_of_lt_of_le (by positivity) (h m hm)
  have hmag : ∀ m ∈ l, magnitudeOf m = -Int.log 10 m := by
    intro m hm
    unfold magnitudeOf
    rw [if_neg (hpos m hm).ne', abs_of_pos (hpos m hm)]
  have h4 : ∀ m ∈ l, magnitudeOf m ≤ 4 := by
    intro m hm
    rw [hmag m hm]
    have : (-4 : ℤ) ≤ Int.log 10 m := by
      rw [← Int.zpow_le_iff_le_log (by norm_num) (hpos m hm)]
      refine le_trans (le_of_eq ?_) (h m hm)
      rw [zpow_neg]
      norm_num
    omega
  have hmem : magnitudeOf m ∈ l.map magnitudeOf := List.mem_map_of_mem hm
  have hle : magnitudeOf m ≤ (magnitude l : ℤ) := by
    unfold magnitude
    cases hx : (l.map magnitudeOf).max? with
    | none =>
      rw [List.max?_eq_none_iff] at hx
      rw [hx] at hmem
      simp at hmem
    | some x =>
      obtain ⟨hx1, hx2⟩ := List.max?_eq_some_iff.1 hx
      have h1 := hx2 _ hmem
      obtain ⟨m', hm', rfl⟩ := List.mem_map.1 hx1
      have h2 := h4 m' hm'
      simp only [Option.getD_some]
      omega
  rw [hmag m hm] at hle
  have h1 : ((10 : ℕ) : K) ^ (-(magnitude l : ℤ)) ≤ m :=
    (Int.zpow_le_iff_le_log (by norm_num) (hpos m hm)).2 (by omega)
  rw [zpow_neg, zpow_natCast, inv_le_iff_one_le_mul₀ (by positivity)] at h1
  simpa using h1

/-- The label is close to the number, and it is positive when the digits are enough. -/
theorem label_pos {x : K} {z : ℤ} {d : ℕ} (hz : |(z : K) - x * 10 ^ d| ≤ 1 / 2) (hx : 1 ≤ x * 10 ^ d) :
    0 < z := by
  have h1 := (abs_le.1 hz).1
  have h2 : (0 : K) < z := by linarith
  exact_mod_cast h2

/-! ## The plot -/

/-- C109 for chains. The nodes are the states in their order; the transient states have the second shape;
states of the same class have the same colour, and for at most nine classes only these. The edges are
exactly the possible transitions, each drawn once. Every label has one to four digits and differs from the
probability by at most half a unit of the last digit; when no probability of the matrix is smaller than
`1e-4`, in particular none is zero, no label is zero. -/
theorem C109_graph_partial [FloorSemiring K] {c : MC K} (hc : c.Valid) {sccs : List (List (Fin c.n))}
    (hs : IsClasses c.p sccs) {rnd : ℕ → K → ℤ} (hr : ∀ d x, |(rnd d x : K) - x * 10 ^ d| ≤ 1 / 2)
    {nodesColor nodesShape edgesLabel forceStandard : PyVal K} {g : GraphPlot c.n}
    (h : plotGraph c sccs rnd nodesColor nodesShape edgesLabel forceStandard = .ok g) :
    ∃ color shape label : Bool, nodesColor = .bool color ∧ nodesShape = .bool shape ∧
      edgesLabel = .bool label ∧ 1 ≤ g.digits ∧ g.digits ≤ 4 ∧
      g.nodes.map PlotNode.label = c.states ∧
      (∃ node : Fin c.n → PlotNode, (∀ i, g.nodes[i.val]? = some (node i)) ∧
        (∀ i, (node i).second = true ↔ shape = true ∧ TransientState c.p i) ∧
        (color = false → ∀ i, (node i).color = none) ∧
        (color = true → ∀ i, ∃ q < 9, (node i).color = some q) ∧
        (∀ i j, Communicate c.p i j → (node i).color = (node j).color) ∧
        (color = true → (communicatingClasses c sccs).length ≤ 9 → ∀ i j,
          (node i).color = (node j).color → Communicate c.p i j)) ∧
      (g.edges.map fun e => (e.1, e.2.1)).Nodup ∧
      (∀ i j, (∃ o, (i, j, o) ∈ g.edges) ↔ Edge c.p i j) ∧
      ∀ i j o, (i, j, o) ∈ g.edges → (label = false → o = none) ∧
        (label = true → ∃ z : ℤ, o = some z ∧ |(z : K) / 10 ^ g.digits - c.p i j| ≤ 1 / 2 / 10 ^ g.digits ∧
          ((∀ a b, 1 / 10 ^ 4 ≤ c.p a b) → 0 < z)) := by
  unfold plotGraph at h
  rw [R.bind_ok] at h
  obtain ⟨color, h1, h⟩ := h
  rw [R.bind_ok] at h
  obtain ⟨shape, h2, h⟩ := h
  rw [R.bind_ok] at h
  obtain ⟨label, h3, h⟩ := h
  rw [R.bind_ok] at h
  obtain ⟨_, -, h⟩ := h
  obtain rfl := Except.ok.inj h
  have hb : ∀ {v : PyVal K} {b : Bool}, validateBoolean v = .ok b → v = .bool b := by
    intro v b hv
    cases v <;> first | (cases hv; done) | (cases hv; rfl)
  obtain ⟨hd1, hd2⟩ := magnitude_range [minEntry c.p]
  refine ⟨color, shape, label, hb h1, hb h2, hb h3, hd1, hd2, ?_, ?_, graphEdges_nodup _ _ _ _, ?_, ?_⟩
  · simp [graphNodes, Function.comp_def]
  · have hidx : ∀ i : Fin c.n, i.val < c.states.length := fun i => by rw [hc.2.2.1]; exact i.2
    refine ⟨fun i =>
      { label := c.label i
        color := if color then classColor (communicatingClasses c sccs) (c.label i) else none
        second := shape && decide (c.label i ∈ transientStates c sccs) }, ?_, ?_, ?_, ?_, ?_, ?_⟩
    · intro i
      simp only [graphNodes, List.getElem?_map, List.getElem?_eq_getElem (hidx i), Option.map_some,
        MC.label, List.getD_eq_getElem _ _ (hidx i)]
    · intro i
      obtain ⟨-, ⟨t, ht, -, hmem⟩, -⟩ := C28_states hc hs
      simp only [Bool.and_eq_true, decide_eq_true_eq, ht, List.mem_map]
      refine and_congr Iff.rfl ?_
      rw [← hmem i]
      constructor
      · rintro ⟨j, hj, hji⟩
        exact label_injective hc.2.2.1 hc.2.2.2.1 hji ▸ hj
      · exact fun hi => ⟨i, hi, rfl⟩
    · rintro rfl i
      rfl
    · rintro rfl i
      obtain ⟨q, hq, -, hcol⟩ := classColor_eq hc hs i
      exact ⟨q % 9, Nat.mod_lt _ (by omega), by simpa using hcol⟩
    · intro i j hij
      cases color with
      | false => rfl
      | true =>
        obtain ⟨q, hq, hiq, hcol⟩ := classColor_eq hc hs i
        obtain ⟨q', hq', hjq', hcol'⟩ := classColor_eq hc hs j
        have hjq := (hs.communicatingIdx.mem_iff _ (List.getElem_mem hq) i hiq j).2 hij
        have : q = q' := by
          by_contra hne
          rcases Nat.lt_or_gt_of_ne hne with hlt | hlt
          · exact (List.pairwise_iff_getElem.1 hs.communicatingIdx.disjoint q q' hq hq' hlt) hjq hjq'
          · exact (List.pairwise_iff_getElem.1 hs.communicatingIdx.disjoint q' q hq' hq hlt) hjq' hjq
        subst this
        simp only [if_true]
        rw [hcol, hcol']
    · rintro rfl hlen i j hij
      have hlen' : (communicatingIdx sccs).length ≤ 9 := by simpa [communicatingClasses] using hlen
      obtain ⟨q, hq, hiq, hcol⟩ := classColor_eq hc hs i
      obtain ⟨q', hq', hjq', hcol'⟩ := classColor_eq hc hs j
      simp only [if_true] at hij
      rw [hcol, hcol', Option.some.injEq, Nat.mod_eq_of_lt (by omega), Nat.mod_eq_of_lt (by omega)] at hij
      subst hij
      exact (hs.communicatingIdx.mem_iff _ (List.getElem_mem hq) i hiq j).1 hjq'
  · intro i j
    constructor
    · rintro ⟨o, ho⟩
      exact (mem_graphEdges.1 ho).1
    · exact fun hij => ⟨_, mem_graphEdges.2 ⟨hij, rfl⟩⟩
  · intro i j o ho
    obtain ⟨hpos, rfl⟩ := mem_graphEdges.1 ho
    refine ⟨by rintro rfl; rfl, ?_⟩
    rintro rfl
    refine ⟨_, rfl, ?_, fun hall => ?_⟩
    · have h10 : (0 : K) < 10 ^ magnitude [minEntry c.p] := by positivity
      have := hr (magnitude [minEntry c.p]) (c.p i j)
      rw [le_div_iff₀ h10]
      calc _ = |((rnd (magnitude [minEntry c.p]) (c.p i j) : K) / 10 ^ magnitude [minEntry c.p] - c.p i j) *
            10 ^ magnitude [minEntry c.p]| := by rw [abs_mul, abs_of_pos h10]
        _ ≤ 1 / 2 := by rwa [sub_mul, div_mul_cancel₀ _ h10.ne']
    · refine label_pos (hr _ _) ?_
      obtain ⟨a, b, hab⟩ := minEntry_mem c.p (by have := hc.1; omega) (by have := hc.1; omega)
      have hmin := magnitude_spec (l := [minEntry c.p]) (by
        intro m hm
        rw [List.mem_singleton.1 hm, ← hab]
        exact hall a b) (List.mem_singleton.2 rfl)
      exact hmin.trans (mul_le_mul_of_nonneg_right (minEntry_le c.p i j) (by positivity))

/-- C109: every call with booleans is accepted. -/
theorem C109_accepts [FloorSemiring K] (c : MC K) (sccs : List (List (Fin c.n))) (rnd : ℕ → K → ℤ)
    (color shape label standard : Bool) :
    ∃ g, plotGraph c sccs rnd (.bool color) (.bool shape) (.bool label) (.bool standard) = .ok g :=
  ⟨_, rfl⟩

/-- A chain with an unlikely and an impossible transition. -/
def exUnlikelyEdge : MC ℚ := ⟨2, !![24 / 25, 1 / 25; 1, 0], ["a", "b"]⟩

theorem exUnlikelyEdge_valid : exUnlikelyEdge.Valid := by
  refine ⟨le_rfl, ?_, show ValidLabels 2 ["a", "b"] by decide⟩
  have : IsStochastic (fun i j : Fin 2 => exUnlikelyEdge.p i j) := by decide +kernel
  exact this

/-- C109 fails for the labels when some transition is impossible: a probability of 1/25 is shown as
`0.0`, and the complementary 24/25 as `1.0`. -/
theorem C109_label_zero {rnd : ℕ → ℚ → ℤ} (hr : ∀ d x, |(rnd d x : ℚ) - x * 10 ^ d| ≤ 1 / 2)
    (sccs : List (List (Fin 2))) :
    exUnlikelyEdge.Valid ∧ ∃ g, plotGraph exUnlikelyEdge sccs rnd (.bool true) (.bool true) (.bool true)
        (.bool false) = .ok g ∧ g.digits = 1 ∧
      ((0 : Fin 2), (0 : Fin 2), some (10 : ℤ)) ∈ g.edges ∧ ((0 : Fin 2), (1 : Fin 2), some (0 : ℤ)) ∈ g.edges ∧
      exUnlikelyEdge.p (0 : Fin 2) (1 : Fin 2) = 1 / 25 := by
  have hmin : minEntry exUnlikelyEdge.p = 0 := by decide +kernel
  have hmag : magnitude [minEntry exUnlikelyEdge.p] = 1 := by
    rw [hmin]
    simp [magnitude, magnitudeOf]
  have h01 : exUnlikelyEdge.p (0 : Fin 2) (1 : Fin 2) = 1 / 25 := rfl
  have h00 : exUnlikelyEdge.p (0 : Fin 2) (0 : Fin 2) = 24 / 25 := rfl
  refine ⟨exUnlikelyEdge_valid, _, rfl, hmag, ?_, ?_, h01⟩
  · refine mem_graphEdges.2 ⟨lt_of_lt_of_eq (by norm_num) h00.symm, ?_⟩
    rw [if_pos rfl, hmag]
    refine congrArg some ?_
    have h := abs_le.1 (hr 1 (exUnlikelyEdge.p (0 : Fin 2) (0 : Fin 2)))
    obtain ⟨z, hz⟩ : ∃ z, z = rnd 1 (exUnlikelyEdge.p (0 : Fin 2) (0 : Fin 2)) := ⟨_, rfl⟩
    rw [← hz, h00] at h
    have h1 : (9 : ℚ) < z := by linarith [h.1]
    have h2 : (z : ℚ) < 11 := by linarith [h.2]
    have h1' : (9 : ℤ) < z := by exact_mod_cast h1
    have h2' : z < 11 := by exact_mod_cast h2
    exact (show (10 : ℤ) = z by omega).trans hz
  · refine mem_graphEdges.2 ⟨lt_of_lt_of_eq (by norm_num) h01.symm, ?_⟩
    rw [if_pos rfl, hmag]
    refine congrArg some ?_
    have h := abs_le.1 (hr 1 (exUnlikelyEdge.p (0 : Fin 2) (1 : Fin 2)))
    obtain ⟨z, hz⟩ : ∃ z, z = rnd 1 (exUnlikelyEdge.p (0 : Fin 2) (1 : Fin 2)) := ⟨_, rfl⟩
    rw [← hz, h01] at h
    have h1 : (-1 : ℚ) < z := by linarith [h.1]
    have h2 : (z : ℚ) < 1 := by linarith [h.2]
    have h1' : (-1 : ℤ) < z := by exact_mod_cast h1
    have h2' : z < 1 := by exact_mod_cast h2
    exact (show (0 : ℤ) = z by omega).trans hz

/-- C109 fails for the colours of every chain with more than nine classes: two states of different classes
have the same colour. -/
theorem C109_colours_repeat [FloorSemiring K] {c : MC K} (hc : c.Valid) {sccs : List (List (Fin c.n))}
    (hs : IsClasses c.p sccs) (hlen : 9 < sccs.length) (rnd : ℕ → K → ℤ)
    {edgesLabel : Bool} : ∃ g, plotGraph c sccs rnd (.bool true) (.bool true) (.bool edgesLabel)
      (.bool false) = .ok g ∧ ∃ (i j : Fin c.n) (a b : PlotNode), ¬ Communicate c.p i j ∧
        g.nodes[i.val]? = some a ∧ g.nodes[j.val]? = some b ∧ a.color = b.color := by
  refine ⟨_, rfl, ?_⟩
  have hk := hs.communicatingIdx
  have hlen' : 9 < (communicatingIdx sccs).length := by
    have : (communicatingIdx sccs).length = sccs.length := by
      rw [communicatingIdx, (sortClasses_perm _).length_eq, classesIdx, List.length_map]
    omega
  have pick : ∀ q (hq : q < (communicatingIdx sccs).length), ∃ i, i ∈ (communicatingIdx sccs)[q] :=
    fun q hq => List.exists_mem_of_ne_nil _ (hk.ne_nil _ (List.getElem_mem hq))
  obtain ⟨i, hi⟩ := pick 0 (by omega)
  obtain ⟨j, hj⟩ := pick 9 (by omega)
  have hidx : ∀ i : Fin c.n, i.val < c.states.length := fun i => by rw [hc.2.2.1]; exact i.2
  have hnode : ∀ i : Fin c.n, ∃ a, (graphNodes c sccs true true)[i.val]? = some a ∧
      a.color = classColor (communicatingClasses c sccs) (c.label i) := by
    intro i
    refine ⟨{ label := c.label i
              color := classColor (communicatingClasses c sccs) (c.label i)
              second := decide (c.label i ∈ transientStates c sccs) }, ?_, rfl⟩
    simp only [graphNodes, List.getElem?_map, List.getElem?_eq_getElem (hidx i), Option.map_some,
      MC.label, List.getD_eq_getElem _ _ (hidx i), if_true, Bool.true_and]
  have hunique : ∀ {q q' : ℕ} (hq : q < (communicatingIdx sccs).length)
      (hq' : q' < (communicatingIdx sccs).length) {i : Fin c.n}, i ∈ (communicatingIdx sccs)[q] →
      i ∈ (communicatingIdx sccs)[q'] → q = q' := by
    intro q q' hq hq' i h1 h2
    by_contra hne
    rcases Nat.lt_or_gt_of_ne hne with hlt | hlt
    · exact (List.pairwise_iff_getElem.1 hk.disjoint q q' hq hq' hlt) h1 h2
    · exact (List.pairwise_iff_getElem.1 hk.disjoint q' q hq' hq hlt) h2 h1
  obtain ⟨a, ha, hac⟩ := hnode i
  obtain ⟨b, hb, hbc⟩ := hnode j
  obtain ⟨q, hq, hiq, hcol⟩ := classColor_eq hc hs i
  obtain ⟨q', hq', hjq', hcol'⟩ := classColor_eq hc hs j
  obtain rfl := hunique hq (by omega) hiq hi
  obtain rfl := hunique hq' (by omega) hjq' hj
  refine ⟨i, j, a, b, ?_, ha, hb, ?_⟩
  · intro hcom
    have := (hk.mem_iff _ (List.getElem_mem hq) i hi j).2 hcom
    have := hunique hq hq' this hj
    omega
  · rw [hac, hbc, hcol, hcol']

/-- Ten absorbing states. -/
def exTen : MC ℚ :=
  ⟨10, fun i j => if i = j then 1 else 0, ["0", "1", "2", "3", "4", "5", "6", "7", "8", "9"]⟩

theorem exTen_valid : exTen.Valid := by
  refine ⟨by decide, ?_, show ValidLabels 10 _ by decide⟩
  have : IsStochastic (fun i j : Fin 10 => if i = j then (1 : ℚ) else 0) := by
    refine ⟨fun i j => by simp only; split_ifs <;> norm_num, fun i => by simp⟩
  exact this

theorem exTen_classes : IsClasses exTen.p ((List.finRange 10).map fun i => [i]) := by
  have hreach : ∀ i j : Fin 10, Reach exTen.p i j → i = j := by
    intro i j h
    induction h with
    | refl => rfl
    | @tail b c' _ hbc ih =>
      have h : (0 : ℚ) < if b = c' then 1 else 0 := hbc
      by_contra hne
      rw [if_neg (fun h' => hne (ih.trans h'))] at h
      exact lt_irrefl _ h
  have hcom : ∀ i j : Fin 10, Communicate exTen.p i j ↔ i = j := by
    intro i j
    constructor
    · exact fun h => hreach i j h.1
    · rintro rfl
      exact ⟨Relation.ReflTransGen.refl, Relation.ReflTransGen.refl⟩
  have : IsClasses (fun i j : Fin 10 => exTen.p i j) ((List.finRange 10).map fun i => [i]) := by
    refine ⟨fun i => ⟨[i], List.mem_map.2 ⟨i, List.mem_finRange i, rfl⟩, List.mem_singleton.2 rfl⟩,
      ?_, ?_, ?_, ?_⟩
    · intro C hC
      obtain ⟨i, -, rfl⟩ := List.mem_map.1 hC
      exact List.nodup_singleton i
    · intro C hC
      obtain ⟨i, -, rfl⟩ := List.mem_map.1 hC
      exact List.cons_ne_nil _ _
    · rw [List.pairwise_map]
      refine (List.nodup_finRange 10).imp fun {a b} hab x hx hy => ?_
      exact hab ((List.mem_singleton.1 hx).symm.trans (List.mem_singleton.1 hy))
    · intro C hC i hi j
      obtain ⟨i', -, rfl⟩ := List.mem_map.1 hC
      obtain rfl := List.mem_singleton.1 hi
      rw [List.mem_singleton]
      exact eq_comm.trans (hcom i j).symm
  exact this

example (rnd : ℕ → ℚ → ℤ) : ∃ g, plotGraph exTen ((List.finRange 10).map fun i => [i]) rnd (.bool true)
    (.bool true) (.bool true) (.bool false) = .ok g ∧ ∃ (i j : Fin 10) (a b : PlotNode),
      ¬ Communicate exTen.p i j ∧ g.nodes[i.val]? = some a ∧ g.nodes[j.val]? = some b ∧
      a.color = b.color :=
  C109_colours_repeat exTen_valid exTen_classes (by decide) rnd

/-- C109 for hidden models. The nodes are the states followed by the symbols, which have the second shape
and a colour of their own. For at most nine states the states have different colours. The edges are
exactly the possible transitions and emissions, each drawn once, with labels as for chains. -/
theorem C109_hidden_partial [FloorSemiring K] {m : HMM K} (hm : m.Valid) {rnd : ℕ → K → ℤ}
    (hr : ∀ d x, |(rnd d x : K) - x * 10 ^ d| ≤ 1 / 2)
    {nodesColor nodesShape edgesLabel forceStandard : PyVal K} {g : HiddenGraphPlot m.n m.k}
    (h : plotHiddenGraph m rnd nodesColor nodesShape edgesLabel forceStandard = .ok g) :
    ∃ color shape label : Bool, nodesColor = .bool color ∧ nodesShape = .bool shape ∧
      edgesLabel = .bool label ∧ 1 ≤ g.digits ∧ g.digits ≤ 4 ∧
      g.nodes.map PlotNode.label = m.states ++ m.symbols ∧
      (∀ i < m.n, ∃ a, g.nodes[i]? = some a ∧ a.second = false ∧
        a.color = if color then some (i % 9) else none) ∧
      (∀ j < m.k, ∃ a, g.nodes[m.n + j]? = some a ∧ a.second = shape ∧
        a.color = if color then some 9 else none) ∧
      (g.transitions.map fun e => (e.1, e.2.1)).Nodup ∧ (g.emissions.map fun e => (e.1, e.2.1)).Nodup ∧
      (∀ i j, (∃ o, (i, j, o) ∈ g.transitions) ↔ 0 < m.p i j) ∧
      (∀ i j, (∃ o, (i, j, o) ∈ g.emissions) ↔ 0 < m.e i j) ∧
      (label = false → (∀ e ∈ g.transitions, e.2.2 = none) ∧ ∀ e ∈ g.emissions, e.2.2 = none) ∧
      (label = true → ∀ i,
        (∀ j o, (i, j, o) ∈ g.transitions → ∃ z : ℤ, o = some z ∧
          |(z : K) / 10 ^ g.digits - m.p i j| ≤ 1 / 2 / 10 ^ g.digits ∧
          ((∀ a b, 1 / 10 ^ 4 ≤ m.p a b) → (∀ a b, 1 / 10 ^ 4 ≤ m.e a b) → 0 < z)) ∧
        (∀ j o, (i, j, o) ∈ g.emissions → ∃ z : ℤ, o = some z ∧
          |(z : K) / 10 ^ g.digits - m.e i j| ≤ 1 / 2 / 10 ^ g.digits ∧
          ((∀ a b, 1 / 10 ^ 4 ≤ m.p a b) → (∀ a b, 1 / 10 ^ 4 ≤ m.e a b) → 0 < z))) := by
  unfold plotHiddenGraph at h
  rw [R.bind_ok] at h
  obtain ⟨color, h1, h⟩ := h
  rw [R.bind_ok] at h
  obtain ⟨shape, h2, h⟩ := h
  rw [R.bind_ok] at h
  obtain ⟨label, h3, h⟩ := h
  rw [R.bind_ok] at h
  obtain ⟨_, -, h⟩ := h
  obtain rfl := Except.ok.inj h
  have hb : ∀ {v : PyVal K} {b : Bool}, validateBoolean v = .ok b → v = .bool b := by
    intro v b hv
    cases v <;> first | (cases hv; done) | (cases hv; rfl)
  obtain ⟨hd1, hd2⟩ := magnitude_range [minEntry m.p, minEntry m.e]
  have hsl : m.states.length = m.n := hm.2.2.2.2.1.1
  have hyl : m.symbols.length = m.k := hm.2.2.2.2.2.1.1
  have hdist : ∀ x : K, |(rnd (magnitude [minEntry m.p, minEntry m.e]) x : K) /
      10 ^ magnitude [minEntry m.p, minEntry m.e] - x| ≤
      1 / 2 / 10 ^ magnitude [minEntry m.p, minEntry m.e] := by
    intro x
    have h10 : (0 : K) < 10 ^ magnitude [minEntry m.p, minEntry m.e] := by positivity
    have := hr (magnitude [minEntry m.p, minEntry m.e]) x
    rw [le_div_iff₀ h10]
    calc _ = |((rnd (magnitude [minEntry m.p, minEntry m.e]) x : K) /
          10 ^ magnitude [minEntry m.p, minEntry m.e] - x) *
          10 ^ magnitude [minEntry m.p, minEntry m.e]| := by rw [abs_mul, abs_of_pos h10]
      _ ≤ 1 / 2 := by rwa [sub_mul, div_mul_cancel₀ _ h10.ne']
  have henough : (∀ a b, 1 / 10 ^ 4 ≤ m.p a b) → (∀ a b, 1 / 10 ^ 4 ≤ m.e a b) →
      ∀ x ∈ [minEntry m.p, minEntry m.e], 1 ≤ x * 10 ^ magnitude [minEntry m.p, minEntry m.e] := by
    intro hp he x hx
    refine magnitude_spec ?_ hx
    intro y hy
    obtain ⟨a, b, hab⟩ := minEntry_mem m.p (by have := hm.1; omega) (by have := hm.1; omega)
    obtain ⟨a', b', hab'⟩ := minEntry_mem m.e (by have := hm.1; omega) (by have := hm.2.1; omega)
    rcases List.mem_cons.1 hy with rfl | hy
    · rw [← hab]; exact hp a b
    · rw [List.mem_singleton.1 hy, ← hab']; exact he a' b'
  refine ⟨color, shape, label, hb h1, hb h2, hb h3, hd1, hd2, ?_, ?_, ?_, graphEdges_nodup _ _ _ _,
    graphEdges_nodup _ _ _ _, ?_, ?_, ?_, ?_⟩
  · simp only [hiddenGraphNodes, List.map_append, List.map_map, Function.comp_def, List.map_id']
    congr 1
    exact List.zipIdx_map_fst 0 _
  · intro i hi
    refine ⟨⟨m.states[i]'(by omega), if color then (nodeColors m.n)[i]? else none, false⟩, ?_, rfl, ?_⟩
    · simp only [hiddenGraphNodes]
      rw [List.getElem?_append_left (by simp; omega), List.getElem?_map, List.getElem?_zipIdx,
        List.getElem?_eq_getElem (by omega)]
      simp
    · simp only
      rw [nodeColors_get hi]
  · intro j hj
    refine ⟨⟨m.symbols[j]'(by omega), if color then some 9 else none, shape⟩, ?_, rfl, ?_⟩
    · simp only [hiddenGraphNodes]
      rw [List.getElem?_append_right (by simp; omega), List.getElem?_map]
      simp only [List.length_map, List.length_zipIdx]
      rw [hsl, Nat.add_sub_cancel_left, List.getElem?_eq_getElem (by omega)]
      rfl
    · rfl
  · intro i j
    constructor
    · rintro ⟨o, ho⟩
      exact (mem_graphEdges.1 ho).1
    · exact fun hij => ⟨_, mem_graphEdges.2 ⟨hij, rfl⟩⟩
  · intro i j
    constructor
    · rintro ⟨o, ho⟩
      exact (mem_graphEdges.1 ho).1
    · exact fun hij => ⟨_, mem_graphEdges.2 ⟨hij, rfl⟩⟩
  · rintro rfl
    constructor
    · rintro ⟨i, j, o⟩ he
      obtain ⟨-, rfl⟩ := mem_graphEdges.1 he
      rfl
    · rintro ⟨i, j, o⟩ he
      obtain ⟨-, rfl⟩ := mem_graphEdges.1 he
      rfl
  · rintro rfl i
    constructor
    · intro j o ho
      obtain ⟨-, rfl⟩ := mem_graphEdges.1 ho
      refine ⟨_, rfl, hdist _, fun hp he => label_pos (hr _ _) ?_⟩
      exact (henough hp he _ (by simp)).trans
        (mul_le_mul_of_nonneg_right (minEntry_le m.p i j) (by positivity))
    · intro j o ho
      obtain ⟨-, rfl⟩ := mem_graphEdges.1 ho
      refine ⟨_, rfl, hdist _, fun hp he => label_pos (hr _ _) ?_⟩
      exact (henough hp he _ (by simp)).trans
        (mul_le_mul_of_nonneg_right (minEntry_le m.e i j) (by positivity))

/-- C109: every call with booleans is accepted. -/
example (m : HMM ℚ) (rnd : ℕ → ℚ → ℤ) (color shape label standard : Bool) :
    ∃ g, plotHiddenGraph m rnd (.bool color) (.bool shape) (.bool label) (.bool standard) = .ok g :=
  ⟨_, rfl⟩

/-- Rounding to the nearest number with the given digits satisfies the assumption on `rnd`. -/
example (d : ℕ) (x : ℚ) : |((round (x * 10 ^ d) : ℤ) : ℚ) - x * 10 ^ d| ≤ 1 / 2 := by
  rw [abs_sub_comm]
  exact abs_sub_round _

end Verif
