import Verif.Model.Structure
import Verif.Lemmas.Graph
import Verif.Spec.Valid
import Verif.Spec.Args
import Verif.Props.Arguments
import Mathlib.LinearAlgebra.Matrix.Notation
import Mathlib.Data.List.Sort
import Mathlib.Data.Rat.Defs

/-!
# Communicating, recurrent and transient classes (C27, C28, C30)

The contract of `networkx.strongly_connected_components` is `IsClasses`; by `exists_isClasses` it is
always satisfiable.
-/

set_option linter.unusedSectionVars false

namespace Verif

variable {K : Type} [Field K] [LinearOrder K] [IsStrictOrderedRing K]

/-! ## Sorting -/

theorem sortIdx_perm {n : ℕ} (l : List (Fin n)) : (sortIdx l).Perm l := List.perm_insertionSort _ _

theorem sortIdx_sorted {n : ℕ} (l : List (Fin n)) : (sortIdx l).Pairwise (· ≤ ·) :=
  List.pairwise_insertionSort _ _

theorem sortIdx_strict {n : ℕ} {l : List (Fin n)} (h : l.Nodup) :
    (sortIdx l).Pairwise (· < ·) := by
  have h1 := sortIdx_sorted l
  have h2 : (sortIdx l).Nodup := (sortIdx_perm l).nodup_iff.2 h
  exact h1.imp₂ (fun a b hab hne => lt_of_le_of_ne hab hne) h2

theorem mem_sortIdx {n : ℕ} {l : List (Fin n)} {i : Fin n} : i ∈ sortIdx l ↔ i ∈ l :=
  (sortIdx_perm l).mem_iff

theorem sortClasses_perm {n : ℕ} (l : List (List (Fin n))) : (sortClasses l).Perm l :=
  List.perm_insertionSort _ _

theorem sortClasses_sorted {n : ℕ} (l : List (List (Fin n))) :
    (sortClasses l).Pairwise fun a b => classLe a b = true := by
  have : IsTrans (List (Fin n)) fun a b => classLe a b = true := ⟨by
    intro a b c
    simp only [classLe, Bool.or_eq_true, Bool.and_eq_true, decide_eq_true_eq, beq_iff_eq]
    omega⟩
  have : Std.Total (α := List (Fin n)) fun a b => classLe a b = true := ⟨by
    intro a b
    simp only [classLe, Bool.or_eq_true, Bool.and_eq_true, decide_eq_true_eq, beq_iff_eq]
    omega⟩
  exact List.pairwise_insertionSort _ l

theorem mem_sortClasses {n : ℕ} {l : List (List (Fin n))} {C : List (Fin n)} :
    C ∈ sortClasses l ↔ C ∈ l := (sortClasses_perm l).mem_iff

theorem IsClasses.classesIdx {n : ℕ} {P : Matrix (Fin n) (Fin n) K} {sccs : List (List (Fin n))}
    (h : IsClasses P sccs) : IsClasses P (Verif.classesIdx sccs) := h.map sortIdx_perm

theorem IsClasses.communicatingIdx {n : ℕ} {P : Matrix (Fin n) (Fin n) K}
    {sccs : List (List (Fin n))} (h : IsClasses P sccs) : IsClasses P (Verif.communicatingIdx sccs) :=
  h.classesIdx.perm (sortClasses_perm _)

theorem classesIdx_sorted {n : ℕ} {P : Matrix (Fin n) (Fin n) K} {sccs : List (List (Fin n))}
    (h : IsClasses P sccs) : ∀ C ∈ classesIdx sccs, C.Pairwise (· < ·) := by
  intro C hC
  obtain ⟨D, hD, rfl⟩ := List.mem_map.1 hC
  exact sortIdx_strict (h.nodup D hD)

theorem map_label_finRange {c : MC K} (hl : c.states.length = c.n) :
    (List.finRange c.n).map c.label = c.states := by
  apply List.ext_getElem
  · simp [hl]
  · intro i h1 h2
    simp [MC.label, List.getElem?_eq_getElem h2]

theorem label_injective {c : MC K} (hl : c.states.length = c.n) (hn : c.states.Nodup) :
    Function.Injective c.label := by
  intro i j h
  unfold MC.label at h
  rw [List.getD_eq_getElem _ _ (by omega), List.getD_eq_getElem _ _ (by omega)] at h
  exact Fin.ext ((List.Nodup.getElem_inj_iff hn).1 h)

/-- Two classes compared by the sort key: larger classes first, then by first state. -/
def ClassBefore {n : ℕ} (A B : List (Fin n)) : Prop :=
  B.length < A.length ∨ A.length = B.length ∧ ∀ a ∈ A, ∃ b ∈ A, b ≤ a ∧ ∀ d ∈ B, b < d

theorem sortClasses_before {n : ℕ} {P : Matrix (Fin n) (Fin n) K} {l l' : List (List (Fin n))}
    (h : IsClasses P l) (hs : ∀ C ∈ l, C.Pairwise (· < ·)) (hl' : ∀ C ∈ l', C ∈ l) (hn : l'.Nodup) :
    (sortClasses l').Pairwise ClassBefore := by
  have hnd : (sortClasses l').Nodup := (sortClasses_perm l').nodup_iff.2 hn
  refine List.Pairwise.imp_of_mem ?_ ((sortClasses_sorted l').and hnd)
  intro A B hA hB ⟨hle, hne⟩
  have hA := hl' A (mem_sortClasses.1 hA)
  have hB := hl' B (mem_sortClasses.1 hB)
  simp only [classLe, Bool.or_eq_true, Bool.and_eq_true, decide_eq_true_eq, beq_iff_eq] at hle
  rcases hle with hle | ⟨he, hf⟩
  · exact Or.inl hle
  refine Or.inr ⟨he, fun a ha => ?_⟩
  have hsA := hs A hA
  have hsB := hs B hB
  cases A with
  | nil => simp at ha
  | cons x A' =>
    cases B with
    | nil => simp at he
    | cons y B' =>
      simp only [firstIdx, List.head?_cons, Option.map_some, Option.getD_some] at hf
      rw [List.pairwise_cons] at hsA hsB
      refine ⟨x, by simp, ?_, ?_⟩
      · rcases List.mem_cons.1 ha with rfl | ha
        · exact le_rfl
        · exact (hsA.1 a ha).le
      · have hxy : x < y := by
          refine lt_of_le_of_ne hf ?_
          rintro rfl
          exact hne (h.eq_of_mem hA hB (i := x) (by simp) (by simp))
        intro d hd
        rcases List.mem_cons.1 hd with rfl | hd
        · exact hxy
        · exact hxy.trans (hsB.1 d hd)

/-- C27. `communicating_classes` lists the communicating classes: every state once, two states in
the same class exactly when each reaches the other, the states of a class in the order of the chain,
the classes by decreasing size and then by first state. Also `communication_matrix` is the
indicator of communication. -/
theorem C27_communicating_classes {c : MC K} (hc : c.Valid) {sccs : List (List (Fin c.n))}
    (h : IsClasses c.p sccs) :
    (communicatingClasses c sccs).flatten.Perm c.states ∧
    (∃ cls : List (List (Fin c.n)),
      communicatingClasses c sccs = cls.map (fun C => C.map c.label) ∧ IsClasses c.p cls ∧
      (∀ C ∈ cls, C.Pairwise (· < ·)) ∧ cls.Pairwise ClassBefore) ∧
    ∀ i j, communicationMatrix c sccs i j = 1 ∧ Communicate c.p i j ∨
      communicationMatrix c sccs i j = 0 ∧ ¬ Communicate c.p i j := by
  have hk := h.communicatingIdx
  refine ⟨?_, ⟨communicatingIdx sccs, rfl, hk, ?_, ?_⟩, ?_⟩
  · have hp : (communicatingIdx sccs).flatten.Perm (List.finRange c.n) :=
      (List.perm_ext_iff_of_nodup hk.flatten_nodup (List.nodup_finRange _)).2 fun i => by
        simp [hk.mem_flatten i]
    have := hp.map c.label
    rw [map_label_finRange hc.2.2.1] at this
    unfold communicatingClasses
    rw [List.map_flatten] at this
    exact this
  · intro C hC
    exact classesIdx_sorted h C (mem_sortClasses.1 hC)
  · exact sortClasses_before h.classesIdx (classesIdx_sorted h) (fun C hC => hC)
      h.classesIdx.nodup_list
  · intro i j
    unfold communicationMatrix
    split
    · next hex =>
      obtain ⟨C, hC, hi, hj⟩ := hex
      exact Or.inl ⟨rfl, (hk.mem_iff C hC i hi j).1 hj⟩
    · next hex =>
      refine Or.inr ⟨rfl, fun hcom => hex ?_⟩
      obtain ⟨C, hC, hi⟩ := hk.cover i
      exact ⟨C, hC, hi, (hk.mem_iff C hC i hi j).2 hcom⟩

/-- The lists of classes do not depend on the order in which networkx yields them. -/
theorem C27_order_independent {c : MC K} {s s' : List (List (Fin c.n))}
    (h : IsClasses c.p s) (h' : IsClasses c.p s') :
    communicatingClasses c s = communicatingClasses c s' := by
  have key : communicatingIdx s = communicatingIdx s' := by
    have hp : (classesIdx s).Perm (classesIdx s') := by
      have one : ∀ {s s' : List (List (Fin c.n))}, IsClasses c.p s → IsClasses c.p s' →
          ∀ C ∈ classesIdx s, C ∈ classesIdx s' := by
        intro s s' h h' C hC
        obtain ⟨i, hi⟩ := List.exists_mem_of_ne_nil C (h.classesIdx.ne_nil C hC)
        obtain ⟨D, hD, hiD⟩ := h'.classesIdx.cover i
        have : C = D := by
          have hp : C.Perm D := (List.perm_ext_iff_of_nodup (h.classesIdx.nodup C hC)
            (h'.classesIdx.nodup D hD)).2 fun j => by
              rw [h.classesIdx.mem_iff C hC i hi, h'.classesIdx.mem_iff D hD i hiD]
          exact hp.eq_of_pairwise (fun a b _ _ hab hba => absurd hab (not_lt.2 hba.le))
            (classesIdx_sorted h C hC) (classesIdx_sorted h' D hD)
        rwa [this]
      exact (List.perm_ext_iff_of_nodup h.classesIdx.nodup_list h'.classesIdx.nodup_list).2
        fun C => ⟨one h h' C, one h' h C⟩
    have hp' : (communicatingIdx s).Perm (communicatingIdx s') :=
      ((sortClasses_perm _).trans hp).trans (sortClasses_perm _).symm
    refine hp'.eq_of_pairwise ?_
      (sortClasses_before h.classesIdx (classesIdx_sorted h) (fun C hC => hC)
        h.classesIdx.nodup_list)
      (sortClasses_before h'.classesIdx (classesIdx_sorted h') (fun C hC => hC)
        h'.classesIdx.nodup_list)
    intro A B hA hB hab hba
    exfalso
    obtain ⟨a, ha⟩ := List.exists_mem_of_ne_nil A (h.communicatingIdx.ne_nil A hA)
    obtain ⟨b, hb⟩ := List.exists_mem_of_ne_nil B (h'.communicatingIdx.ne_nil B hB)
    rcases hab with hab | ⟨he, hab⟩ <;> rcases hba with hba | ⟨he', hba⟩
    · omega
    · omega
    · omega
    · obtain ⟨x, hx, -, hlt⟩ := hab a ha
      obtain ⟨y, hy, -, hlt'⟩ := hba b hb
      exact absurd (hlt y hy) (not_lt.2 (hlt' x hx).le)
  unfold communicatingClasses
  rw [key]

/-! ## C30 -/

/-- C30. `is_irreducible` is true exactly when every state reaches every state. -/
theorem C30_irreducible {c : MC K} (hc : c.Valid) {sccs : List (List (Fin c.n))}
    (h : IsClasses c.p sccs) : isIrreducible c sccs = true ↔ Irreducible c.p := by
  have hk := h.communicatingIdx
  unfold isIrreducible communicatingClasses
  rw [List.length_map, beq_iff_eq]
  constructor
  · intro hl i j
    obtain ⟨C, hC⟩ := List.length_eq_one_iff.1 hl
    obtain ⟨A, hA, hi⟩ := hk.cover i
    obtain ⟨B, hB, hj⟩ := hk.cover j
    rw [hC, List.mem_singleton] at hA hB
    rw [hA] at hi
    rw [hB] at hj
    exact ((hk.mem_iff C (by rw [hC]; simp) i hi j).1 hj).1
  · intro hirr
    have hpos : 0 < c.n := by have := hc.1; omega
    obtain ⟨A, hA, hi⟩ := hk.cover ⟨0, hpos⟩
    have all : ∀ B ∈ communicatingIdx sccs, B = A := by
      intro B hB
      obtain ⟨b, hb⟩ := List.exists_mem_of_ne_nil B (hk.ne_nil B hB)
      refine (hk.eq_of_mem hA hB ?_ hb).symm
      exact (hk.mem_iff A hA _ hi b).2 ⟨hirr _ _, hirr _ _⟩
    have hnd := hk.nodup_list
    generalize communicatingIdx sccs = l at *
    match l, hA, all, hnd with
    | [_], _, _, _ => rfl
    | x :: y :: t, _, all, hnd =>
      exfalso
      rw [List.nodup_cons] at hnd
      exact hnd.1 (by rw [all x (by simp), all y (by simp)]; simp)

/-! ## C28 -/

theorem leaves_iff {n : ℕ} {P : Matrix (Fin n) (Fin n) K} {C : List (Fin n)} :
    leaves P C = true ↔ ¬ ∀ a ∈ C, ∀ b, Edge P a b → b ∈ C := by
  unfold leaves hasEdge Edge
  simp only [decide_eq_true_eq]
  push Not
  constructor
  · rintro ⟨i, hi, j, hj, e⟩; exact ⟨i, hi, j, e, hj⟩
  · rintro ⟨i, hi, j, e, hj⟩; exact ⟨i, hi, j, hj, e⟩

theorem mem_transientIdx {n : ℕ} {P : Matrix (Fin n) (Fin n) K} {sccs : List (List (Fin n))}
    {C : List (Fin n)} :
    C ∈ transientIdx P sccs ↔ C ∈ classesIdx sccs ∧ leaves P C = true := by
  unfold transientIdx
  rw [mem_sortClasses, List.mem_filter]

theorem mem_recurrentIdx {n : ℕ} {P : Matrix (Fin n) (Fin n) K} {sccs : List (List (Fin n))}
    {C : List (Fin n)} :
    C ∈ recurrentIdx P sccs ↔ C ∈ classesIdx sccs ∧ leaves P C = false := by
  unfold recurrentIdx
  rw [mem_sortClasses, List.mem_filter]
  simp only [decide_eq_true_eq, mem_transientIdx]
  constructor
  · rintro ⟨h, h'⟩; exact ⟨h, by simpa [h] using h'⟩
  · rintro ⟨h, h'⟩; exact ⟨h, by simp [h']⟩

theorem mem_recurrentStatesIdx {n : ℕ} {P : Matrix (Fin n) (Fin n) K} {sccs : List (List (Fin n))}
    (h : IsClasses P sccs) (i : Fin n) : i ∈ recurrentStatesIdx P sccs ↔ RecurrentState P i := by
  unfold recurrentStatesIdx
  rw [mem_sortIdx, List.mem_flatten]
  constructor
  · rintro ⟨C, hC, hi⟩
    obtain ⟨hC, hl⟩ := mem_recurrentIdx.1 hC
    rw [← h.classesIdx.closed_iff hC hi]
    by_contra hcon
    rw [← leaves_iff, hl] at hcon
    exact Bool.false_ne_true hcon
  · intro hr
    obtain ⟨C, hC, hi⟩ := h.classesIdx.cover i
    refine ⟨C, mem_recurrentIdx.2 ⟨hC, ?_⟩, hi⟩
    rw [← h.classesIdx.closed_iff hC hi] at hr
    rw [Bool.eq_false_iff, Ne, leaves_iff]
    exact not_not.2 hr

theorem mem_transientStatesIdx {n : ℕ} {P : Matrix (Fin n) (Fin n) K} {sccs : List (List (Fin n))}
    (h : IsClasses P sccs) (i : Fin n) : i ∈ transientStatesIdx P sccs ↔ ¬ RecurrentState P i := by
  unfold transientStatesIdx
  rw [mem_sortIdx, List.mem_flatten]
  constructor
  · rintro ⟨C, hC, hi⟩
    obtain ⟨hC, hl⟩ := mem_transientIdx.1 hC
    rw [← h.classesIdx.closed_iff hC hi]
    exact leaves_iff.1 hl
  · intro hr
    obtain ⟨C, hC, hi⟩ := h.classesIdx.cover i
    refine ⟨C, mem_transientIdx.2 ⟨hC, ?_⟩, hi⟩
    rw [← h.classesIdx.closed_iff hC hi] at hr
    exact leaves_iff.2 hr

theorem flatten_sublist_nodup {n : ℕ} {P : Matrix (Fin n) (Fin n) K} {sccs : List (List (Fin n))}
    (h : IsClasses P sccs) (q : List (Fin n) → Bool) :
    (sortClasses ((classesIdx sccs).filter q)).flatten.Nodup := by
  refine ((sortClasses_perm _).flatten.nodup_iff).2 ?_
  exact h.classesIdx.flatten_nodup.sublist (List.filter_sublist.flatten)

theorem recurrentStatesIdx_strict {n : ℕ} {P : Matrix (Fin n) (Fin n) K}
    {sccs : List (List (Fin n))} (h : IsClasses P sccs) :
    (recurrentStatesIdx P sccs).Pairwise (· < ·) := sortIdx_strict (flatten_sublist_nodup h _)

theorem transientStatesIdx_strict {n : ℕ} {P : Matrix (Fin n) (Fin n) K}
    {sccs : List (List (Fin n))} (h : IsClasses P sccs) :
    (transientStatesIdx P sccs).Pairwise (· < ·) := sortIdx_strict (flatten_sublist_nodup h _)

/-- C28, states. `recurrent_states` and `transient_states` list, in the order of the chain, exactly
the recurrent and the other states, and the two predicates on single states agree with them. -/
theorem C28_states {c : MC K} (hc : c.Valid) {sccs : List (List (Fin c.n))}
    (h : IsClasses c.p sccs) :
    (∃ r : List (Fin c.n), recurrentStates c sccs = r.map c.label ∧ r.Pairwise (· < ·) ∧
      ∀ i, i ∈ r ↔ RecurrentState c.p i) ∧
    (∃ t : List (Fin c.n), transientStates c sccs = t.map c.label ∧ t.Pairwise (· < ·) ∧
      ∀ i, i ∈ t ↔ TransientState c.p i) ∧
    (∀ (v : PyVal K) (i : Fin c.n), Names c.states v i →
      (∃ b, isRecurrentState c sccs v = .ok b ∧ (b = true ↔ RecurrentState c.p i)) ∧
      ∃ b, isTransientState c sccs v = .ok b ∧ (b = true ↔ TransientState c.p i)) := by
  refine ⟨⟨_, rfl, recurrentStatesIdx_strict h, mem_recurrentStatesIdx h⟩,
    ⟨_, rfl, transientStatesIdx_strict h, mem_transientStatesIdx h⟩, ?_⟩
  intro v i hv
  have := (C04_single_label hc.2.2.2.1 v i).2 hv
  unfold isRecurrentState isTransientState
  rw [this]
  refine ⟨⟨_, rfl, ?_⟩, ⟨_, rfl, ?_⟩⟩
  · rw [decide_eq_true_eq, List.mem_map]
    constructor
    · rintro ⟨j, hj, hji⟩
      rw [← Fin.ext hji]
      exact (mem_recurrentStatesIdx h j).1 hj
    · intro hr; exact ⟨i, (mem_recurrentStatesIdx h i).2 hr, rfl⟩
  · rw [decide_eq_true_eq, List.mem_map]
    constructor
    · rintro ⟨j, hj, hji⟩
      rw [← Fin.ext hji]
      exact (mem_transientStatesIdx h j).1 hj
    · intro hr; exact ⟨i, (mem_transientStatesIdx h i).2 hr, rfl⟩

/-- C28, classes. The recurrent and transient classes together are the communicating classes; the
recurrent ones are those that no transition leaves; there is at least one. -/
theorem C28_classes {c : MC K} (hc : c.Valid) {sccs : List (List (Fin c.n))}
    (h : IsClasses c.p sccs) :
    (recurrentClasses c sccs ++ transientClasses c sccs).Perm (communicatingClasses c sccs) ∧
    (∃ r t : List (List (Fin c.n)), recurrentClasses c sccs = r.map (fun C => C.map c.label) ∧
      transientClasses c sccs = t.map (fun C => C.map c.label) ∧ IsClasses c.p (r ++ t) ∧
      (∀ C ∈ r, ClosedSet c.p (· ∈ C)) ∧ (∀ C ∈ t, ¬ ClosedSet c.p (· ∈ C)) ∧
      r.Pairwise ClassBefore ∧ t.Pairwise ClassBefore) ∧
    recurrentClasses c sccs ≠ [] := by
  have hper : (recurrentIdx c.p sccs ++ transientIdx c.p sccs).Perm (communicatingIdx sccs) := by
    have h1 : (recurrentIdx c.p sccs).Perm ((classesIdx sccs).filter fun C => !leaves c.p C) := by
      have : (recurrentIdx c.p sccs).Nodup :=
        (sortClasses_perm _).nodup_iff.2 (h.classesIdx.nodup_list.filter _)
      refine (List.perm_ext_iff_of_nodup this (h.classesIdx.nodup_list.filter _)).2 fun C => ?_
      rw [mem_recurrentIdx, List.mem_filter]
      simp
    have h2 : (transientIdx c.p sccs).Perm ((classesIdx sccs).filter fun C => leaves c.p C) :=
      sortClasses_perm _
    have h3 : ((classesIdx sccs).filter (fun C => leaves c.p C) ++
        (classesIdx sccs).filter fun C => !leaves c.p C).Perm (classesIdx sccs) :=
      List.filter_append_perm _ _
    refine ((h1.append h2).trans ?_).trans (sortClasses_perm _).symm
    exact List.perm_append_comm.trans h3
  refine ⟨?_, ⟨recurrentIdx c.p sccs, transientIdx c.p sccs, rfl, rfl,
    h.communicatingIdx.perm hper, ?_, ?_, ?_, ?_⟩, ?_⟩
  · have := hper.map fun C => C.map c.label
    rwa [List.map_append] at this
  · intro C hC
    have := (mem_recurrentIdx.1 hC).2
    rw [Bool.eq_false_iff, Ne, leaves_iff, not_not] at this
    intro a b ha e
    exact this a ha b e
  · intro C hC hcl
    have := leaves_iff.1 (mem_transientIdx.1 hC).2
    exact this fun a ha b e => hcl a b ha e
  · exact sortClasses_before h.classesIdx (classesIdx_sorted h)
      (fun C hC => (List.mem_filter.1 hC).1) (h.classesIdx.nodup_list.filter _)
  · exact sortClasses_before h.classesIdx (classesIdx_sorted h)
      (fun C hC => (List.mem_filter.1 hC).1) (h.classesIdx.nodup_list.filter _)
  · have hpos : 0 < c.n := by have := hc.1; omega
    obtain ⟨j, -, hj⟩ := exists_recurrent_reach c.p ⟨0, hpos⟩
    have := (mem_recurrentStatesIdx h j).2 hj
    unfold recurrentStatesIdx at this
    rw [mem_sortIdx, List.mem_flatten] at this
    obtain ⟨C, hC, -⟩ := this
    intro hnil
    unfold recurrentClasses at hnil
    rw [List.map_eq_nil_iff] at hnil
    rw [hnil] at hC
    simp at hC

/-! ## A concrete chain -/

instance (n : ℕ) (l : List String) : Decidable (ValidLabels n l) := by
  unfold ValidLabels; infer_instance

instance (c : MC K) : Decidable c.Valid :=
  decidable_of_iff (2 ≤ c.n ∧ IsStochastic (fun i j => c.p i j) ∧ ValidLabels c.n c.states) Iff.rfl

/-- A chain with a transient class, an absorbing state and a class of period two. -/
def exStructure : MC ℚ :=
  ⟨5, !![0, 1, 0, 0, 0; 1/2, 0, 1/4, 1/4, 0; 0, 0, 1, 0, 0; 0, 0, 0, 0, 1; 0, 0, 0, 1, 0],
    ["d", "e", "c", "b", "a"]⟩

/-- Its components in some order. -/
def exComponents : List (List (Fin exStructure.n)) :=
  ([[4, 3], [2], [1, 0]] : List (List (Fin 5)))

theorem exStructure_valid : exStructure.Valid := by decide +kernel

theorem exStructure_classes : IsClasses exStructure.p exComponents := by
  change IsClasses (fun i j => exStructure.p i j) exComponents
  decide +kernel

example : communicatingClasses exStructure exComponents = [["d", "e"], ["b", "a"], ["c"]] := by
  decide +kernel

example : recurrentClasses exStructure exComponents = [["b", "a"], ["c"]] ∧
    transientStates exStructure exComponents = ["d", "e"] ∧
    isIrreducible exStructure exComponents = false := by decide +kernel

end Verif
