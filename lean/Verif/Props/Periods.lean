import Verif.Lemmas.Periods
import Verif.Props.Absorbing
import Mathlib.Tactic.FinCases

/-!
# Periods (C32)

The contract of networkx is `Nx.Sound`; by `Nx.ofClasses_sound` it can always be met.
-/

set_option linter.unusedSectionVars false

namespace Verif

variable {K : Type} [Field K] [LinearOrder K] [IsStrictOrderedRing K]

/-- The contract of networkx on the graph of a chain: `sccs` lists the strongly connected
components, a subgraph on a component has a single component, `nbrs` lists the successors inside a
subgraph, `reach` lists the reachable vertices. Nothing is said about orders of iteration nor
about `aperiodic`. -/
structure Nx.Sound {n : ℕ} (nx : Nx n) (P : Fin n → Fin n → K) : Prop where
  sccs : IsClasses P nx.sccs
  inner : ∀ C ∈ nx.sccs, ∀ D : List (Fin n), D.Perm C → ∃ E, nx.inner D = [E] ∧ E.Perm C
  nbrs : ∀ C : List (Fin n), ∀ u ∈ C, ∀ v, v ∈ nx.nbrs C u ↔ v ∈ C ∧ Edge P u v
  reach : ∀ i j, j ∈ nx.reach i ↔ Reach P i j

/-- One way to meet the contract. -/
def Nx.ofClasses {n : ℕ} (P : Fin n → Fin n → K) (sccs : List (List (Fin n))) (aperiodic : Bool) :
    Nx n :=
  ⟨sccs, fun C => [C], fun C u => C.filter fun v => Edge P u v,
    fun i => (List.finRange n).filter fun j => Reach P i j, aperiodic⟩

theorem Nx.ofClasses_sound {n : ℕ} {P : Fin n → Fin n → K} {sccs : List (List (Fin n))} (b : Bool)
    (h : IsClasses P sccs) : (Nx.ofClasses P sccs b).Sound P where
  sccs := h
  inner C _ D hD := ⟨D, rfl, hD⟩
  nbrs C u _ v := by simp [Nx.ofClasses, List.mem_filter]
  reach i j := by simp [Nx.ofClasses, List.mem_filter]

theorem sortByLabel_perm (c : MC K) (C : List (Fin c.n)) : (sortByLabel c C).Perm C :=
  List.perm_insertionSort _ _

theorem periodOrder_isClasses {c : MC K} {sccs : List (List (Fin c.n))} (h : IsClasses c.p sccs) :
    IsClasses c.p (periodOrder c sccs) :=
  (h.map (sortByLabel_perm c)).perm (List.perm_insertionSort _ _)

theorem staysInside_iff {n : ℕ} {P : Fin n → Fin n → K} {nx : Nx n} (hx : nx.Sound P)
    {C : List (Fin n)} :
    staysInside nx C = true ↔ ∀ i ∈ C, ∀ j, Edge P i j → j ∈ C := by
  unfold staysInside
  rw [decide_eq_true_eq]
  constructor
  · intro h i hi j e
    exact h i hi j ((hx.reach i j).2 (Reach.single e))
  · intro h i hi j hj
    exact closedSet_reach (S := fun s => s ∈ C) (fun a b ha e => h a ha b e) hi ((hx.reach i j).1 hj)

theorem classPeriod_spec {n : ℕ} {P : Fin n → Fin n → K} {nx : Nx n} (hx : nx.Sound P)
    {C D : List (Fin n)} (hC : C ∈ nx.sccs) (hD : D.Perm C) :
    ((∀ i ∈ D, RecurrentState P i) → ∀ i ∈ D, IsPeriodOf P i (classPeriod nx D)) ∧
    ((∃ i ∈ D, TransientState P i) → classPeriod nx D = 1) := by
  unfold classPeriod
  constructor
  · intro hrec i hi
    have hcl : ∀ i ∈ D, ∀ j, Edge P i j → j ∈ D := by
      intro a ha b e
      rw [hD.mem_iff] at ha ⊢
      exact (hx.sccs.closed_iff hC ha).2 (hrec a (hD.mem_iff.2 ha)) a ha b e
    rw [if_pos ((staysInside_iff hx).2 hcl)]
    obtain ⟨E, hE, hEC⟩ := hx.inner C hC D hD
    have hDE : ∀ v, v ∈ E ↔ v ∈ D := fun v => by rw [hEC.mem_iff, hD.mem_iff]
    rw [hE]
    obtain ⟨x, hxE, hp⟩ := calculatePeriod_isPeriodOf (P := P) (C := E) (nbrs := nx.nbrs D)
      (by rintro rfl; exact hx.sccs.ne_nil C hC hEC.symm.eq_nil)
      (fun u hu v e => (hDE v).2 (hcl u ((hDE u).1 hu) v e))
      (fun u hu => hrec u ((hDE u).1 hu))
      (fun u hu v => by rw [hx.nbrs D u ((hDE u).1 hu) v, hDE])
    exact isPeriodOf_communicate hp
      ((hx.sccs.mem_iff C hC x (hEC.mem_iff.1 hxE) i).1 (hD.mem_iff.1 hi))
  · rintro ⟨i, hi, ht⟩
    rw [if_neg]
    rw [staysInside_iff hx]
    intro hcl
    refine ht ((hx.sccs.closed_iff hC (hD.mem_iff.1 hi)).1 fun a ha b e => ?_)
    rw [← hD.mem_iff] at ha ⊢
    exact hcl a ha b e

/-- C32 for classes in general: `periods` has one entry per communicating class. The entry of a
recurrent class is the period of each of its states, the entry of a transient class is one.
Missing: transient classes, where one need not be the period (`C32_transient_class`), and the order,
which differs from the order of `communicating_classes` (`C32_order`). -/
theorem C32_classes_partial {c : MC K} {nx : Nx c.n} (hx : nx.Sound c.p) :
    ∃ ord : List (List (Fin c.n)), IsClasses c.p ord ∧
      List.Forall₂ (fun C g => ((∀ i ∈ C, RecurrentState c.p i) → ∀ i ∈ C, IsPeriodOf c.p i g) ∧
        ((∃ i ∈ C, TransientState c.p i) → g = 1)) ord (periods c nx) := by
  refine ⟨periodOrder c nx.sccs, periodOrder_isClasses hx.sccs, ?_⟩
  unfold periods
  rw [List.forall₂_map_right_iff]
  refine List.forall₂_same.2 fun D hD => ?_
  have hD' := (List.perm_insertionSort _ _).mem_iff.1 hD
  obtain ⟨C, hC, rfl⟩ := List.mem_map.1 hD'
  exact classPeriod_spec hx hC (sortByLabel_perm c C)

/-- C32 for irreducible chains: `periods` has the single entry `d`, which is the greatest common
divisor of the lengths of the closed walks at every state; it is positive; `period` is `d`, and
`is_aperiodic` is true exactly when `d` is one. -/
theorem C32_irreducible_partial {c : MC K} (hc : c.Valid) {nx : Nx c.n} (hx : nx.Sound c.p)
    (hirr : Irreducible c.p) : ∃ d : ℕ, 0 < d ∧ (∀ i, IsPeriodOf c.p i d) ∧
      periods c nx = [d] ∧ period c nx = d ∧ (isAperiodic c nx = true ↔ d = 1) := by
  have h0 : 0 < c.n := by have := hc.1; omega
  have hi := (C30_irreducible hc hx.sccs).2 hirr
  have hord := periodOrder_isClasses hx.sccs
  obtain ⟨A, hA⟩ : ∃ A, periodOrder c nx.sccs = [A] := by
    have hlen : (communicatingIdx nx.sccs).length = 1 := by
      unfold isIrreducible communicatingClasses at hi
      rw [List.length_map, beq_iff_eq] at hi
      exact hi
    refine List.length_eq_one_iff.1 ?_
    unfold periodOrder
    unfold communicatingIdx classesIdx at hlen
    rw [(sortClasses_perm _).length_eq, List.length_map] at hlen
    rw [List.length_insertionSort, List.length_map]
    exact hlen
  have hall : ∀ i, i ∈ A := by
    intro i
    obtain ⟨B, hB, hi⟩ := hord.cover i
    rw [hA, List.mem_singleton] at hB
    rwa [← hB]
  have hmem : A ∈ periodOrder c nx.sccs := by rw [hA]; exact List.mem_singleton_self A
  have hD' := (List.perm_insertionSort _ _).mem_iff.1 hmem
  obtain ⟨C, hC, hCA⟩ := List.mem_map.1 hD'
  have hspec := (classPeriod_spec hx hC (D := A) (hCA ▸ sortByLabel_perm c C)).1
    (fun i _ j _ => hirr j i)
  have hper : periods c nx = [classPeriod nx A] := by
    unfold periods
    rw [hA]
    rfl
  have hap : isAperiodic c nx = true ↔ classPeriod nx A = 1 := by
    unfold isAperiodic
    rw [if_pos hi, hper]
    simp
  refine ⟨classPeriod nx A, ?_, fun i => hspec i (hall i), hper, ?_, hap⟩
  · -- a closed walk of positive length
    obtain ⟨j, e⟩ := hc.2.1.exists_edge ⟨0, h0⟩
    obtain ⟨k, hk⟩ := reach_iff_reachIn.1 (hirr j ⟨0, h0⟩)
    have := (hspec ⟨0, h0⟩ (hall _)).1 _ (hk.cons e)
    exact Nat.pos_of_dvd_of_pos this (by omega)
  · unfold period
    by_cases h1 : isAperiodic c nx = true
    · rw [if_pos h1]
      exact (hap.1 h1).symm
    · rw [if_neg h1, if_pos hi, hper]
      rfl

/-! ## Labels in increasing order -/

theorem label_le_iff {c : MC K} (hlab : ∀ i j : Fin c.n, i < j → c.label i < c.label j)
    (a b : Fin c.n) : c.label a ≤ c.label b ↔ a ≤ b := by
  constructor
  · intro h
    by_contra hba
    exact absurd (hlab b a (not_le.1 hba)) (String.not_lt.2 h)
  · intro h
    rcases h.eq_or_lt with rfl | h
    · exact String.le_refl _
    · exact String.not_lt.1 (String.lt_asymm (hlab a b h))

theorem sortByLabel_eq {c : MC K} (hlab : ∀ i j : Fin c.n, i < j → c.label i < c.label j)
    (C : List (Fin c.n)) : sortByLabel c C = sortIdx C := by
  have hle := label_le_iff hlab
  have hs : (sortByLabel c C).Pairwise (· ≤ ·) :=
    (List.pairwise_insertionSort (fun a b => c.label a ≤ c.label b) C).imp fun h => (hle _ _).1 h
  exact List.Perm.eq_of_pairwise (fun a b _ _ h1 h2 => le_antisymm h1 h2) hs
    (List.pairwise_insertionSort (fun a b : Fin c.n => a ≤ b) C)
    ((sortByLabel_perm c C).trans (List.perm_insertionSort _ _).symm)

theorem labelClassLe_eq {c : MC K} (hlab : ∀ i j : Fin c.n, i < j → c.label i < c.label j)
    (a b : List (Fin c.n)) : labelClassLe c a b = classLe a b := by
  have hle := label_le_iff hlab
  unfold labelClassLe classLe firstLabel firstIdx
  cases a with
  | nil =>
    cases b with
    | nil => simp
    | cons y b => simp
  | cons x a =>
    cases b with
    | nil => simp
    | cons y b => simp [hle]

theorem periodOrder_eq {c : MC K} (hlab : ∀ i j : Fin c.n, i < j → c.label i < c.label j)
    (sccs : List (List (Fin c.n))) : periodOrder c sccs = communicatingIdx sccs := by
  unfold periodOrder communicatingIdx sortClasses classesIdx
  have h1 : sccs.map (sortByLabel c) = sccs.map sortIdx :=
    List.map_congr_left fun C _ => sortByLabel_eq hlab C
  rw [h1]
  simp only [labelClassLe_eq hlab]

theorem IsPeriodOf.unique {n : ℕ} {P : Fin n → Fin n → K} {i : Fin n} {d e : ℕ}
    (h1 : IsPeriodOf P i d) (h2 : IsPeriodOf P i e) : d = e :=
  Nat.dvd_antisymm (h2.2 d h1.1) (h1.2 e h2.1)

theorem foldl_lcm_dvd {α : Type} (f : α → ℕ) (l : List α) (a m : ℕ) :
    l.foldl (fun acc C => acc * f C / Nat.gcd acc (f C)) a ∣ m ↔ a ∣ m ∧ ∀ C ∈ l, f C ∣ m := by
  induction l generalizing a with
  | nil => simp
  | cons C l ih =>
    rw [List.foldl_cons, ih]
    have : a * f C / Nat.gcd a (f C) = Nat.lcm a (f C) := rfl
    rw [this, Nat.lcm_dvd_iff, List.forall_mem_cons, and_assoc]

/-- C32 (partial). When the labels increase with the positions of the states, `periods` follows the
order of `communicating_classes`, and `period` is the least common multiple of the periods of the
recurrent states unless the chain is reported to be aperiodic. Missing: transient classes. -/
theorem C32_sorted_labels_partial {c : MC K} (hc : c.Valid) {nx : Nx c.n} (hx : nx.Sound c.p)
    (hlab : ∀ i j : Fin c.n, i < j → c.label i < c.label j) :
    (∃ ord : List (List (Fin c.n)),
      communicatingClasses c nx.sccs = ord.map (fun C => C.map c.label) ∧ IsClasses c.p ord ∧
      List.Forall₂ (fun C g => ((∀ i ∈ C, RecurrentState c.p i) → ∀ i ∈ C, IsPeriodOf c.p i g) ∧
        ((∃ i ∈ C, TransientState c.p i) → g = 1)) ord (periods c nx)) ∧
    (isAperiodic c nx = false → ∀ m, period c nx ∣ m ↔
      ∀ i, RecurrentState c.p i → ∀ g, IsPeriodOf c.p i g → g ∣ m) := by
  have hcl := hx.sccs.communicatingIdx
  have hspec : ∀ D ∈ communicatingIdx nx.sccs,
      ((∀ i ∈ D, RecurrentState c.p i) → ∀ i ∈ D, IsPeriodOf c.p i (classPeriod nx D)) ∧
      ((∃ i ∈ D, TransientState c.p i) → classPeriod nx D = 1) := by
    intro D hD
    unfold communicatingIdx classesIdx at hD
    rw [mem_sortClasses] at hD
    obtain ⟨C, hC, rfl⟩ := List.mem_map.1 hD
    exact classPeriod_spec hx hC (List.perm_insertionSort _ _)
  have hper : periods c nx = (communicatingIdx nx.sccs).map (classPeriod nx) := by
    unfold periods
    rw [periodOrder_eq hlab]
  refine ⟨⟨communicatingIdx nx.sccs, rfl, hcl, ?_⟩, ?_⟩
  · rw [hper, List.forall₂_map_right_iff]
    exact List.forall₂_same.2 hspec
  · intro hap m
    have hrecC : ∀ C ∈ recurrentIdx c.p nx.sccs, C ∈ communicatingIdx nx.sccs ∧ C ≠ [] ∧
        ∀ i ∈ C, RecurrentState c.p i := by
      intro C hC
      have h1 : C ∈ communicatingIdx nx.sccs := by
        unfold communicatingIdx
        rw [mem_sortClasses]
        exact (mem_recurrentIdx.1 hC).1
      refine ⟨h1, hcl.ne_nil C h1, fun i hi => (mem_recurrentStatesIdx hx.sccs i).1 ?_⟩
      unfold recurrentStatesIdx sortIdx
      rw [(List.perm_insertionSort _ _).mem_iff]
      exact List.mem_flatten.2 ⟨C, hC, hi⟩
    by_cases hirr : Irreducible c.p
    · obtain ⟨d, h0, h1, -, h3, -⟩ := C32_irreducible_partial hc hx hirr
      rw [h3]
      constructor
      · intro hd i _ g hg
        rw [hg.unique (h1 i)]
        exact hd
      · intro h
        exact h ⟨0, by have := hc.1; omega⟩ (fun j _ => hirr _ _) d (h1 _)
    · have hirr' : ¬ isIrreducible c nx.sccs = true := fun h => hirr ((C30_irreducible hc hx.sccs).1 h)
      unfold period
      rw [if_neg (by rw [hap]; exact Bool.false_ne_true), if_neg hirr']
      unfold periodReducible
      rw [foldl_lcm_dvd fun C => (periods c nx).getD ((communicatingIdx nx.sccs).idxOf C) 0]
      have hget : ∀ C ∈ communicatingIdx nx.sccs,
          (periods c nx).getD ((communicatingIdx nx.sccs).idxOf C) 0 = classPeriod nx C := by
        intro C hC
        have hlt := List.idxOf_lt_length_iff.2 hC
        rw [hper, List.getD_eq_getElem?_getD, List.getElem?_map, List.getElem?_eq_getElem hlt,
          List.getElem_idxOf]
        rfl
      constructor
      · rintro ⟨-, h⟩ i hi g hg
        have hi' := (mem_recurrentStatesIdx hx.sccs i).2 hi
        unfold recurrentStatesIdx sortIdx at hi'
        rw [(List.perm_insertionSort _ _).mem_iff] at hi'
        obtain ⟨C, hC, hiC⟩ := List.mem_flatten.1 hi'
        obtain ⟨h1, -, h2⟩ := hrecC C hC
        have h3 := h C hC
        rw [hget C h1] at h3
        rw [hg.unique ((hspec C h1).1 h2 i hiC)]
        exact h3
      · intro h
        refine ⟨one_dvd m, fun C hC => ?_⟩
        obtain ⟨h1, hne, h2⟩ := hrecC C hC
        obtain ⟨i, hi⟩ := List.exists_mem_of_ne_nil C hne
        rw [hget C h1]
        exact h i (h2 i hi) _ ((hspec C h1).1 h2 i hi)

/-- Two classes of two alternating states each. -/
def exTwoClocks : MC ℚ :=
  ⟨4, !![0, 1, 0, 0; 1, 0, 0, 0; 0, 0, 0, 1; 0, 0, 1, 0], ["a", "b", "c", "d"]⟩

def exTwoClocksNx : Nx 4 := Nx.ofClasses (fun i j => exTwoClocks.p i j) [[0, 1], [2, 3]] false

/-- The hypotheses of `C32_sorted_labels_partial` can be met by a chain with two recurrent classes
that is not reported to be aperiodic; its period is two. -/
example : exTwoClocks.Valid ∧
    IsClasses (fun i j : Fin 4 => exTwoClocks.p i j) [[0, 1], [2, 3]] ∧
    (∀ i j : Fin 4, i < j → exTwoClocks.label i < exTwoClocks.label j) ∧
    isAperiodic exTwoClocks exTwoClocksNx = false ∧ period exTwoClocks exTwoClocksNx = 2 := by
  refine ⟨by decide +kernel, by decide +kernel, ?_, by decide +kernel, by decide +kernel⟩
  intro i j
  fin_cases i <;> fin_cases j <;> decide +kernel

/-! ## Disagreements -/

/-- A chain in which two states alternate until they leave for an absorbing state. -/
def exLeak : MC ℚ := ⟨3, !![0, 1, 0; 1 / 2, 0, 1 / 2; 0, 0, 1], ["a", "b", "c"]⟩

def exLeakNx (b : Bool) : Nx 3 := Nx.ofClasses (fun i j => exLeak.p i j) [[0, 1], [2]] b

theorem exLeak_even {k : ℕ} {i v : Fin 3} (h : ReachIn (fun i j : Fin 3 => exLeak.p i j) k i v) :
    i = 0 → (v = 0 → 2 ∣ k) ∧ (v = 1 → ¬ 2 ∣ k) := by
  have hed : ∀ u v : Fin 3, Edge (fun i j : Fin 3 => exLeak.p i j) u v →
      (v = 0 → u = 1) ∧ (v = 1 → u = 0) := by decide +kernel
  induction h with
  | refl i => rintro rfl; simp
  | @step k i u v _ e ih =>
    intro hi
    obtain ⟨h1, h2⟩ := ih hi
    obtain ⟨e1, e2⟩ := hed u v e
    refine ⟨fun hv => ?_, fun hv => ?_⟩
    · have := h2 (e1 hv); omega
    · have := h1 (e2 hv); omega

/-- C32, disagreement: a transient class of period two is reported with period one, and
`is_aperiodic` is true. -/
theorem C32_transient_class (b : Bool) : exLeak.Valid ∧ (exLeakNx b).Sound exLeak.p ∧
    communicatingClasses exLeak (exLeakNx b).sccs = [["a", "b"], ["c"]] ∧
    periods exLeak (exLeakNx b) = [1, 1] ∧ isAperiodic exLeak (exLeakNx b) = true ∧
    IsPeriodOf exLeak.p (0 : Fin 3) 2 := by
  refine ⟨by decide +kernel, Nx.ofClasses_sound b ?_, by cases b <;> decide +kernel,
    by cases b <;> decide +kernel, by cases b <;> decide +kernel, ?_⟩
  · change IsClasses (fun i j : Fin 3 => exLeak.p i j) [[0, 1], [2]]
    decide +kernel
  · refine ⟨fun k hk => (exLeak_even hk rfl).1 rfl, fun e he => he 2 ?_⟩
    change ReachIn (fun i j : Fin 3 => exLeak.p i j) 2 0 0
    decide +kernel

/-- Two closed classes: two alternating states with labels "c" and "d", two mixing states with
labels "a" and "b". -/
def exOrder : MC ℚ :=
  ⟨4, !![0, 1, 0, 0; 1, 0, 0, 0; 0, 0, 1 / 2, 1 / 2; 0, 0, 1 / 2, 1 / 2], ["c", "d", "a", "b"]⟩

def exOrderNx (b : Bool) : Nx 4 := Nx.ofClasses (fun i j => exOrder.p i j) [[0, 1], [2, 3]] b

/-- C32, disagreement: `communicating_classes` starts with the class of "c" and "d", `periods`
starts with the period of the class of "a" and "b". -/
theorem C32_order (b : Bool) : exOrder.Valid ∧ (exOrderNx b).Sound exOrder.p ∧
    communicatingClasses exOrder (exOrderNx b).sccs = [["c", "d"], ["a", "b"]] ∧
    periods exOrder (exOrderNx b) = [1, 2] ∧
    IsPeriodOf exOrder.p (2 : Fin 4) 1 ∧ IsPeriodOf exOrder.p (0 : Fin 4) 2 := by
  have hs : (exOrderNx b).Sound exOrder.p := by
    refine Nx.ofClasses_sound b ?_
    change IsClasses (fun i j : Fin 4 => exOrder.p i j) [[0, 1], [2, 3]]
    decide +kernel
  have hsc : (exOrderNx b).sccs = ([[0, 1], [2, 3]] : List (List (Fin 4))) := rfl
  have h0 := (classPeriod_spec hs (C := ([0, 1] : List (Fin 4))) (D := ([0, 1] : List (Fin 4)))
    (by rw [hsc]; decide) (List.Perm.refl _)).1
    (by change ∀ i ∈ ([0, 1] : List (Fin 4)), RecurrentState (fun i j : Fin 4 => exOrder.p i j) i
        decide +kernel) 0 (by decide)
  have h2 := (classPeriod_spec hs (C := ([2, 3] : List (Fin 4))) (D := ([2, 3] : List (Fin 4)))
    (by rw [hsc]; decide) (List.Perm.refl _)).1
    (by change ∀ i ∈ ([2, 3] : List (Fin 4)), RecurrentState (fun i j : Fin 4 => exOrder.p i j) i
        decide +kernel) 2 (by decide)
  have e0 : classPeriod (exOrderNx b) [0, 1] = 2 := by cases b <;> decide +kernel
  have e2 : classPeriod (exOrderNx b) [2, 3] = 1 := by cases b <;> decide +kernel
  rw [e0] at h0
  rw [e2] at h2
  exact ⟨by decide +kernel, hs, by cases b <;> decide +kernel, by cases b <;> decide +kernel, h2, h0⟩

/-- A recurrent class of period two with labels "c" and "d" and a transient class with labels "a"
and "b". -/
def exMismatch : MC ℚ :=
  ⟨4, !![0, 1, 0, 0; 1, 0, 0, 0; 1 / 2, 0, 0, 1 / 2; 0, 0, 1, 0], ["c", "d", "a", "b"]⟩

def exMismatchNx (b : Bool) : Nx 4 := Nx.ofClasses (fun i j => exMismatch.p i j) [[0, 1], [2, 3]] b

/-- C32, disagreement: because of the different orders `period` of a reducible chain takes the entry
of the wrong class. The only recurrent class has period two, `period` is one. -/
theorem C32_period_reducible (b : Bool) : exMismatch.Valid ∧ (exMismatchNx b).Sound exMismatch.p ∧
    recurrentClasses exMismatch (exMismatchNx b).sccs = [["c", "d"]] ∧
    IsPeriodOf exMismatch.p (0 : Fin 4) 2 ∧ period exMismatch (exMismatchNx b) = 1 := by
  have hs : (exMismatchNx b).Sound exMismatch.p := by
    refine Nx.ofClasses_sound b ?_
    change IsClasses (fun i j : Fin 4 => exMismatch.p i j) [[0, 1], [2, 3]]
    decide +kernel
  have hsc : (exMismatchNx b).sccs = ([[0, 1], [2, 3]] : List (List (Fin 4))) := rfl
  have h0 := (classPeriod_spec hs (C := ([0, 1] : List (Fin 4))) (D := ([0, 1] : List (Fin 4)))
    (by rw [hsc]; decide) (List.Perm.refl _)).1
    (by change ∀ i ∈ ([0, 1] : List (Fin 4)), RecurrentState (fun i j : Fin 4 => exMismatch.p i j) i
        decide +kernel) 0 (by decide)
  have e0 : classPeriod (exMismatchNx b) [0, 1] = 2 := by cases b <;> decide +kernel
  rw [e0] at h0
  exact ⟨by decide +kernel, hs, by cases b <;> decide +kernel, h0, by cases b <;> decide +kernel⟩

end Verif
