import Verif.Props.Canonical
import Verif.Props.Hitting
import Verif.Props.Passage
import Verif.Props.Absorption
import Verif.Props.Absorbing
import Verif.Props.Ergodic
import Verif.Props.Descriptors
import Verif.Props.Visits
import Verif.Props.Monotone
import Verif.Props.Entropy
import Verif.Props.ReducibleLongRun
import Verif.Props.SimulationLaw

/-!
# The order of the states (C134)

Two chains with the same states and the same transition probabilities, listed in different orders, and
what the methods return for them. `to_canonical_form` is the method that changes the order.
-/

set_option linter.unusedSectionVars false

open Finset MeasureTheory

namespace Verif

variable {K : Type} [Field K] [LinearOrder K] [IsStrictOrderedRing K]

/-! ## Specifications under a change of the order -/

section spec

variable {ι κ : Type} [Fintype ι] [Fintype κ] {P : ι → ι → K} {Q : κ → κ → K} (e : κ ≃ ι)
  (h : ∀ i j, Q i j = P (e i) (e j))
include h

theorem sum_relabel (i : κ) (f : ι → K) : ∑ j, Q i j * f (e j) = ∑ j, P (e i) j * f j := by
  simp only [h]
  exact Equiv.sum_comp e fun j => P (e i) j * f j

theorem reachIn_relabel {k : ℕ} {i j : κ} : ReachIn Q k i j ↔ ReachIn P k (e i) (e j) := by
  constructor
  · intro hr
    induction hr with
    | refl => exact .refl _
    | step _ he ih => exact ih.step (by unfold Edge at he ⊢; rwa [h] at he)
  · intro hr
    obtain ⟨a, ha⟩ : ∃ a, a = e i := ⟨_, rfl⟩
    obtain ⟨b, hb⟩ : ∃ b, b = e j := ⟨_, rfl⟩
    rw [← ha, ← hb] at hr
    induction hr generalizing j with
    | refl =>
      obtain rfl : i = j := e.injective (ha.symm.trans hb)
      exact .refl _
    | @step k x y z _ he ih =>
      refine (ih (j := e.symm y) ha (e.apply_symm_apply y).symm).step ?_
      unfold Edge at he ⊢
      rw [h, e.apply_symm_apply, ← hb]
      exact he

theorem communicate_relabel (i j : κ) : Communicate Q i j ↔ Communicate P (e i) (e j) :=
  and_congr (reach_relabel e h i j) (reach_relabel e h j i)

theorem irreducible_relabel : Irreducible Q ↔ Irreducible P := by
  constructor
  · intro hq i j
    have := (reach_relabel e h _ _).1 (hq (e.symm i) (e.symm j))
    rwa [e.apply_symm_apply, e.apply_symm_apply] at this
  · exact fun hp i j => (reach_relabel e h i j).2 (hp _ _)

theorem isPeriodOf_relabel (i : κ) (d : ℕ) : IsPeriodOf Q i d ↔ IsPeriodOf P (e i) d := by
  unfold IsPeriodOf
  simp only [reachIn_relabel e h]

theorem ergodic_relabel : Ergodic Q ↔ Ergodic P := by
  unfold Ergodic
  refine and_congr (irreducible_relabel e h) ?_
  constructor
  · intro hq i
    have := (isPeriodOf_relabel e h _ _).1 (hq (e.symm i))
    rwa [e.apply_symm_apply] at this
  · exact fun hp i => (isPeriodOf_relabel e h i 1).2 (hp _)

theorem isStationary_relabel {x : ι → K} (hx : IsStationary P x) : IsStationary Q fun i => x (e i) := by
  refine ⟨⟨fun i => hx.1.1 _, (Equiv.sum_comp e x).trans hx.1.2⟩, fun j => ?_⟩
  simp only [h]
  exact (Equiv.sum_comp e fun i => x i * P i (e j)).trans (hx.2 (e j))

theorem isPassageTime_relabel {S : ι → Prop} {t : ι → K} (ht : IsPassageTime P S t) :
    IsPassageTime Q (fun i => S (e i)) fun i => t (e i) :=
  ⟨fun i hi => ht.1 _ hi, fun i hi => by rw [sum_relabel e h i t]; exact ht.2 _ hi⟩

theorem isHittingSolution_relabel {S : ι → Prop} {g : ι → K} (hg : IsHittingSolution P S g) :
    IsHittingSolution Q (fun i => S (e i)) fun i => g (e i) :=
  ⟨fun i hi => hg.1 _ hi, fun i hi => by rw [sum_relabel e h i g]; exact hg.2 _ hi⟩

theorem relabel_symm (i j : ι) : P i j = Q (e.symm i) (e.symm j) := by
  rw [h, e.apply_symm_apply, e.apply_symm_apply]

theorem isHittingProbability_relabel {S : ι → Prop} {g : ι → K} (hg : IsHittingProbability P S g) :
    IsHittingProbability Q (fun i => S (e i)) fun i => g (e i) := by
  refine ⟨isHittingSolution_relabel e h hg.1, fun i => hg.2.1 _, fun f hf hf0 i => ?_⟩
  have h1 := isHittingSolution_relabel e.symm (relabel_symm e h) hf
  simp only [e.apply_symm_apply] at h1
  have := hg.2.2 _ h1 (fun i => hf0 _) (e i)
  rwa [e.symm_apply_apply] at this

theorem isHittingTime_relabel {S : ι → Prop} {r : ι → Option K} (hr : IsHittingTime P S r) :
    IsHittingTime Q (fun i => S (e i)) fun i => r (e i) := by
  refine ⟨fun g hg i => ?_, fun i hi => hr.2.1 _ hi, fun i hi t ht => ?_⟩
  · have h1 := isHittingProbability_relabel e.symm (relabel_symm e h) hg
    simp only [e.apply_symm_apply] at h1
    have := hr.1 _ h1 (e i)
    rwa [e.symm_apply_apply] at this
  · obtain ⟨h1, h2⟩ := hr.2.2 (e i) hi t ht
    refine ⟨fun j hj => h1 _ (by rwa [h] at hj), ?_⟩
    rw [h2, sum_relabel e h i fun j => (r j).getD 0]

theorem isReturnSolution_relabel [DecidableEq ι] [DecidableEq κ] {j : κ} {f : ι → K}
    (hf : IsReturnSolution P (e j) f) : IsReturnSolution Q j fun i => f (e i) := by
  intro i
  change f (e i) = _
  rw [hf (e i), ← sum_relabel e h i fun k => if k = e j then 1 else f k]
  simp only [e.injective.eq_iff]

theorem isReturnProbability_relabel [DecidableEq ι] [DecidableEq κ] {j : κ} {f : ι → K}
    (hf : IsReturnProbability P (e j) f) : IsReturnProbability Q j fun i => f (e i) := by
  refine ⟨isReturnSolution_relabel e h hf.1, fun i => hf.2.1 _, fun g hg hg0 i => ?_⟩
  have h1 := isReturnSolution_relabel e.symm (relabel_symm e h) (j := e j)
    (f := g) (by rwa [e.symm_apply_apply])
  have := hf.2.2 _ h1 (fun i => hg0 _) (e i)
  rwa [e.symm_apply_apply] at this

theorem isCommittor_relabel {A B : ι → Prop} {q : ι → K} (hq : IsCommittor P A B q) :
    IsCommittor Q (fun i => A (e i)) (fun i => B (e i)) fun i => q (e i) :=
  ⟨fun i hi => hq.1 _ hi, fun i hi => hq.2.1 _ hi, fun i => hq.2.2.1 _, fun i ha hb => by
    rw [sum_relabel e h i q]; exact hq.2.2.2 _ ha hb⟩

end spec

/-! ## Chains whose states are listed in different orders -/

/-- `d` is the chain `c` with its states listed in another order: state `i` of `d` is state `e i` of `c`. -/
structure Relabels (c d : MC K) (e : Fin d.n ≃ Fin c.n) : Prop where
  prob : ∀ i j, d.p i j = c.p (e i) (e j)
  label : ∀ i, d.label i = c.label (e i)

theorem Relabels.symm {c d : MC K} {e : Fin d.n ≃ Fin c.n} (h : Relabels c d e) :
    Relabels d c e.symm :=
  ⟨fun i j => by rw [h.prob, e.apply_symm_apply, e.apply_symm_apply],
   fun i => by rw [h.label, e.apply_symm_apply]⟩

/-- The argument mentions states by their labels: one label or a list of labels. -/
def ByLabel (v : PyVal K) : Prop := (∃ s, v = .str s) ∨ ∃ l : List String, v = .list (l.map .str)

theorem getElem?_label {c : MC K} (hc : c.Valid) (i : Fin c.n) : c.states[i.val]? = some (c.label i) := by
  have hi : i.val < c.states.length := by rw [hc.2.2.1]; exact i.isLt
  unfold MC.label
  rw [List.getD_eq_getElem _ _ hi, List.getElem?_eq_getElem hi]

theorem names_relabel {c d : MC K} (hc : c.Valid) (hd : d.Valid) {e : Fin d.n ≃ Fin c.n}
    (h : Relabels c d e) {s : String} {i : Fin d.n} (hn : Names (K := K) c.states (.str s) (e i).val) :
    Names (K := K) d.states (.str s) i.val := by
  rcases hn with ⟨h1, -⟩ | ⟨t, h1, h2, h3⟩
  · cases h1
  · cases h1
    refine Or.inr ⟨s, rfl, h2, ?_⟩
    rw [getElem?_label hc] at h3
    rw [getElem?_label hd, h.label]
    exact h3

theorem names_lt_size {c : MC K} (hc : c.Valid) {v : PyVal K} {k : ℕ} (hn : Names c.states v k) :
    k < c.n := by
  rw [← hc.2.2.1]
  exact names_lt hn

/-- An argument that names states by their labels names the same states of both chains. -/
theorem labels_relabel {c d : MC K} (hc : c.Valid) (hd : d.Valid) {e : Fin d.n ≃ Fin c.n}
    (h : Relabels c d e) {v : PyVal K} (hv : ByLabel v) {subset : Bool} {m : Option ℕ} {r : List ℕ}
    (hr : validateLabelsCurrent v c.states subset m = .ok r) :
    ∃ r', validateLabelsCurrent v d.states subset m = .ok r' ∧
      ∀ i : Fin d.n, i.val ∈ r' ↔ (e i).val ∈ r := by
  have hn : d.n = c.n := by simpa using Fintype.card_congr e
  have hlen : d.states.length = c.states.length := by rw [hd.2.2.1, hc.2.2.1, hn]
  rcases hv with ⟨s, rfl⟩ | ⟨l, rfl⟩
  · rw [C04_single_value hc.2.2.2.1 _ (fun l => by simp)] at hr
    obtain ⟨k, hk, rfl⟩ := hr
    have hk' := names_lt_size hc hk
    refine ⟨[(e.symm ⟨k, hk'⟩).val], ?_, fun i => ?_⟩
    · rw [C04_single_value hd.2.2.2.1 _ (fun l => by simp)]
      exact ⟨_, names_relabel hc hd h (by rw [e.apply_symm_apply]; exact hk), rfl⟩
    · rw [List.mem_singleton, List.mem_singleton, ← Fin.ext_iff]
      constructor
      · rintro rfl; rw [e.apply_symm_apply]
      · intro hi; rw [← e.symm_apply_apply i]; congr 1; exact Fin.ext hi
  · rw [C04_label_lists hc.2.2.2.1] at hr
    obtain ⟨h1, ⟨ks, h2, h3⟩, h4, h5, h6⟩ := hr
    obtain ⟨σ, hσ⟩ : ∃ σ : ℕ → ℕ, σ = fun k => if hk : k < c.n then (e.symm ⟨k, hk⟩).val else 0 :=
      ⟨_, rfl⟩
    have hσi : ∀ i : Fin c.n, σ i.val = (e.symm i).val := fun i => by
      rw [hσ]; exact dif_pos i.isLt
    have hks : ∀ k ∈ ks, k < c.n := by
      have : List.Forall₂ (fun (_ : PyVal K) k => k < c.n) (l.map .str) ks :=
        h2.imp fun _ _ hv => names_lt_size hc hv
      clear h2 h3 h1
      generalize (l.map PyVal.str : List (PyVal K)) = l' at this
      induction this with
      | nil => simp
      | cons ha _ ih =>
        intro k hk
        rcases List.mem_cons.1 hk with rfl | hk
        · exact ha
        · exact ih k hk
    have hinj : ∀ a ∈ ks, ∀ b ∈ ks, σ a = σ b → a = b := by
      intro a ha b hb hab
      have e1 := hσi ⟨a, hks a ha⟩
      have e2 := hσi ⟨b, hks b hb⟩
      have := e.symm.injective (Fin.ext (e1.symm.trans (hab.trans e2)))
      exact congrArg Fin.val this
    have hnd : (ks.map σ).Nodup := by
      refine List.Nodup.map_on hinj ?_
      exact h3.nodup_iff.2 (h4.imp fun hab => ne_of_lt hab)
    refine ⟨(ks.map σ).insertionSort (· ≤ ·), ?_, fun i => ?_⟩
    · have hperm := List.perm_insertionSort (· ≤ ·) (ks.map σ)
      rw [C04_label_lists hd.2.2.2.1]
      refine ⟨h1, ⟨ks.map σ, ?_, hperm.symm⟩, ?_, ?_, ?_⟩
      · rw [List.forall₂_map_right_iff, List.forall₂_map_left_iff]
        rw [List.forall₂_map_left_iff] at h2
        refine h2.imp fun s k hk => ?_
        have hk' := names_lt_size hc hk
        have e1 := hσi ⟨k, hk'⟩
        have := names_relabel hc hd h (i := e.symm ⟨k, hk'⟩) (s := s)
          (by rw [e.apply_symm_apply]; exact hk)
        rwa [← e1] at this
      · have hs : ((ks.map σ).insertionSort (· ≤ ·)).Pairwise (· ≤ ·) := List.pairwise_insertionSort _ _
        exact hs.imp₂ (fun _ _ h1 h2 => lt_of_le_of_ne h1 h2) (hperm.nodup_iff.2 hnd)
      · rw [hperm.length_eq, List.length_map, h3.length_eq]; exact h5
      · rw [hperm.length_eq, List.length_map, h3.length_eq, hlen]; exact h6
    · rw [(List.perm_insertionSort (· ≤ ·) (ks.map σ)).mem_iff, List.mem_map, ← h3.mem_iff]
      constructor
      · rintro ⟨k, hk, hki⟩
        have e1 := hσi ⟨k, hks k hk⟩
        have : i = e.symm ⟨k, hks k hk⟩ := Fin.ext (hki.symm.trans e1)
        rw [this, e.apply_symm_apply]
        exact hk
      · intro hi
        exact ⟨_, hi, by rw [hσi, e.symm_apply_apply]⟩


/-! ## Classes and flags -/

theorem map_label_perm {c d : MC K} {e : Fin d.n ≃ Fin c.n} (h : Relabels c d e) {r : List (Fin c.n)}
    {r' : List (Fin d.n)} (hr : r.Nodup) (hr' : r'.Nodup) (hm : ∀ i, i ∈ r' ↔ e i ∈ r) :
    (r'.map d.label).Perm (r.map c.label) := by
  have h1 : (r'.map e).Perm r := by
    rw [List.perm_ext_iff_of_nodup (hr'.map e.injective) hr]
    intro j
    rw [List.mem_map]
    constructor
    · rintro ⟨i, hi, rfl⟩; exact (hm i).1 hi
    · intro hj
      exact ⟨e.symm j, (hm _).2 (by rwa [e.apply_symm_apply]), e.apply_symm_apply j⟩
  have h2 : r'.map d.label = (r'.map e).map c.label := by
    rw [List.map_map]
    exact List.map_congr_left fun i _ => h.label i
  rw [h2]
  exact h1.map _

theorem classes_relabel {c d : MC K} {e : Fin d.n ≃ Fin c.n} (h : Relabels c d e)
    {A : List (List (Fin c.n))} {A' : List (List (Fin d.n))} (hA : IsClasses c.p A)
    (hA' : IsClasses d.p A') {C : List (Fin c.n)} (hC : C ∈ A) :
    ∃ D ∈ A', (∀ i, i ∈ D ↔ e i ∈ C) ∧ (D.map d.label).Perm (C.map c.label) := by
  obtain ⟨a, ha⟩ := List.exists_mem_of_ne_nil _ (hA.ne_nil C hC)
  obtain ⟨D, hD, haD⟩ := hA'.cover (e.symm a)
  have key : ∀ i, i ∈ D ↔ e i ∈ C := by
    intro i
    rw [hA'.mem_iff D hD _ haD i, hA.mem_iff C hC a ha (e i)]
    have := communicate_relabel (P := fun i j => c.p i j) (Q := fun i j => d.p i j) e h.prob (e.symm a) i
    rw [e.apply_symm_apply] at this
    exact this
  exact ⟨D, hD, key, map_label_perm h (hA.nodup C hC) (hA'.nodup D hD) key⟩

theorem closedSet_relabel {c d : MC K} {e : Fin d.n ≃ Fin c.n} (h : Relabels c d e)
    {C : List (Fin c.n)} {D : List (Fin d.n)} (hm : ∀ i, i ∈ D ↔ e i ∈ C) :
    ClosedSet d.p (· ∈ D) ↔ ClosedSet c.p (· ∈ C) := by
  unfold ClosedSet Edge
  constructor
  · intro hd i j hi hij
    have : e.symm j ∈ D := hd (e.symm i) (e.symm j) ((hm _).2 (by rwa [e.apply_symm_apply]))
      (by rw [h.prob, e.apply_symm_apply, e.apply_symm_apply]; exact hij)
    rwa [hm, e.apply_symm_apply] at this
  · intro hc i j hi hij
    exact (hm j).2 (hc _ _ ((hm i).1 hi) (by rw [← h.prob]; exact hij))

theorem bool_eq_of_iff {a b : Bool} (h : a = true ↔ b = true) : a = b := by
  cases a <;> cases b <;> simp_all

theorem primitive_relabel {c d : MC K} {e : Fin d.n ≃ Fin c.n} (h : Relabels c d e) :
    Primitive d.p ↔ Primitive c.p := by
  unfold Primitive
  refine exists_congr fun k => and_congr_right fun _ => ?_
  constructor
  · intro hd i j
    have := (reachIn_relabel (P := fun i j => c.p i j) (Q := fun i j => d.p i j) e h.prob).1
      (hd (e.symm i) (e.symm j))
    rwa [e.apply_symm_apply, e.apply_symm_apply] at this
  · intro hc i j
    exact (reachIn_relabel (P := fun i j => c.p i j) (Q := fun i j => d.p i j) e h.prob).2 (hc _ _)

theorem recurrent_relabel {c d : MC K} {e : Fin d.n ≃ Fin c.n} (h : Relabels c d e) (i : Fin d.n) :
    RecurrentState d.p i ↔ RecurrentState c.p (e i) :=
  recurrentState_relabel (P := fun i j => c.p i j) (Q := fun i j => d.p i j) e h.prob i

theorem isErgodic_relabel {c d : MC K} (hc : c.Valid) (hd : d.Valid) {e : Fin d.n ≃ Fin c.n}
    (h : Relabels c d e) {nx : Nx c.n} (hx : nx.Sound c.p) {nx' : Nx d.n} (hx' : nx'.Sound d.p) :
    isErgodic d nx' = isErgodic c nx := by
  refine bool_eq_of_iff ?_
  rw [isErgodic_iff hc hx, isErgodic_iff hd hx']
  exact ergodic_relabel (P := fun i j => c.p i j) (Q := fun i j => d.p i j) e h.prob

theorem isAbsorbing_relabel {c d : MC K} {e : Fin d.n ≃ Fin c.n} (h : Relabels c d e) :
    isAbsorbing d = isAbsorbing c := by
  have one : ∀ {c d : MC K} {e : Fin d.n ≃ Fin c.n}, Relabels c d e → isAbsorbing c = true →
      isAbsorbing d = true := by
    intro c d e h
    rw [isAbsorbing_iff, isAbsorbing_iff]
    rintro ⟨⟨a, ha⟩, hr⟩
    refine ⟨⟨e.symm a, ?_⟩, fun i => ?_⟩
    · rw [h.prob, e.apply_symm_apply]; exact ha
    · obtain ⟨b, hb, hib⟩ := hr (e i)
      refine ⟨e.symm b, by rw [h.prob, e.apply_symm_apply]; exact hb, ?_⟩
      refine (reach_relabel (P := fun i j => c.p i j) (Q := fun i j => d.p i j) e h.prob _ _).2 ?_
      rw [e.apply_symm_apply]
      exact hib
  exact bool_eq_of_iff ⟨one h.symm, one h⟩

theorem density_relabel {c d : MC K} {e : Fin d.n ≃ Fin c.n} (h : Relabels c d e) :
    density d = density c := by
  have hn : d.n = c.n := by simpa using Fintype.card_congr e
  have hoff : ∀ i j, offDiagonal d i j = offDiagonal c (e i) (e j) := by
    intro i j
    unfold offDiagonal adjacencyMatrix
    rw [h.prob]
    simp only [e.injective.eq_iff]
  have hs : ∑ i, ∑ j, offDiagonal d i j = ∑ i, ∑ j, offDiagonal c i j := by
    simp only [hoff]
    rw [← Equiv.sum_comp e fun i => ∑ j, offDiagonal c i j]
    exact sum_congr rfl fun i _ => Equiv.sum_comp e fun j => offDiagonal c (e i) j
  unfold density
  rw [hs, hn]

/-- C134, structure. The flags and the lists of states and classes do not depend on the order in which the
states are listed, except for the order of the lists. -/
theorem C134_structure {c d : MC K} (hc : c.Valid) (hd : d.Valid) {e : Fin d.n ≃ Fin c.n}
    (h : Relabels c d e) {nx : Nx c.n} (hx : nx.Sound c.p) {nx' : Nx d.n} (hx' : nx'.Sound d.p) :
    isIrreducible d nx'.sccs = isIrreducible c nx.sccs ∧ isErgodic d nx' = isErgodic c nx ∧
    isRegular d = isRegular c ∧ isAbsorbing d = isAbsorbing c ∧ isSymmetric d = isSymmetric c ∧
    isDoublyStochastic d = isDoublyStochastic c ∧ density d = density c ∧
    (absorbingStates d).Perm (absorbingStates c) ∧
    (recurrentStates d nx'.sccs).Perm (recurrentStates c nx.sccs) ∧
    (transientStates d nx'.sccs).Perm (transientStates c nx.sccs) ∧
    (∀ C ∈ communicatingClasses c nx.sccs, ∃ D ∈ communicatingClasses d nx'.sccs, D.Perm C) ∧
    (∀ C ∈ recurrentClasses c nx.sccs, ∃ D ∈ recurrentClasses d nx'.sccs, D.Perm C) ∧
    ∀ C ∈ transientClasses c nx.sccs, ∃ D ∈ transientClasses d nx'.sccs, D.Perm C := by
  refine ⟨?_, isErgodic_relabel hc hd h hx hx', ?_, isAbsorbing_relabel h, ?_, ?_, density_relabel h, ?_,
    ?_, ?_, ?_, ?_, ?_⟩
  · refine bool_eq_of_iff ?_
    rw [C30_irreducible hc hx.sccs, C30_irreducible hd hx'.sccs]
    exact irreducible_relabel (P := fun i j => c.p i j) (Q := fun i j => d.p i j) e h.prob
  · refine bool_eq_of_iff ?_
    rw [C31_regular hc, C31_regular hd]
    exact primitive_relabel h
  · unfold isSymmetric
    refine bool_eq_of_iff ?_
    rw [decide_eq_true_iff, decide_eq_true_iff]
    constructor
    · intro hs i j
      have := hs (e.symm i) (e.symm j)
      rwa [h.prob, h.prob, e.apply_symm_apply, e.apply_symm_apply] at this
    · intro hs i j
      rw [h.prob, h.prob]
      exact hs _ _
  · have hcol : ∀ j, ∑ i, d.p i j = ∑ i, c.p i (e j) := fun j => by
      simp only [h.prob]
      exact Equiv.sum_comp e fun i => c.p i (e j)
    unfold isDoublyStochastic
    refine bool_eq_of_iff ?_
    rw [decide_eq_true_iff, decide_eq_true_iff]
    constructor
    · intro hs j
      have := hs (e.symm j)
      rwa [hcol, e.apply_symm_apply] at this
    · intro hs j
      rw [hcol]
      exact hs _
  · refine map_label_perm h ((List.nodup_finRange _).filter _) ((List.nodup_finRange _).filter _) fun i => ?_
    rw [mem_absorbingIdx, mem_absorbingIdx, h.prob]
  · refine map_label_perm h ((recurrentStatesIdx_strict hx.sccs).imp fun hab => ne_of_lt hab)
      ((recurrentStatesIdx_strict hx'.sccs).imp fun hab => ne_of_lt hab) fun i => ?_
    rw [mem_recurrentStatesIdx hx.sccs, mem_recurrentStatesIdx hx'.sccs]
    exact recurrent_relabel h i
  · refine map_label_perm h (transient_nodup hx.sccs) (transient_nodup hx'.sccs) fun i => ?_
    rw [mem_transientStatesIdx hx.sccs, mem_transientStatesIdx hx'.sccs]
    exact (recurrent_relabel h i).not
  · intro C hC
    obtain ⟨A, hA, rfl⟩ := List.mem_map.1 hC
    obtain ⟨D, hD, -, hp⟩ := classes_relabel h hx.sccs.communicatingIdx hx'.sccs.communicatingIdx hA
    exact ⟨_, List.mem_map_of_mem hD, hp⟩
  · obtain ⟨-, ⟨r, t, h1, -, h3, h4, -⟩, -⟩ := C28_classes hc hx.sccs
    obtain ⟨-, ⟨r', t', h1', -, h3', -, h5', -⟩, -⟩ := C28_classes hd hx'.sccs
    rw [h1, h1']
    intro C hC
    obtain ⟨A, hA, rfl⟩ := List.mem_map.1 hC
    obtain ⟨D, hD, hm, hp⟩ := classes_relabel h h3 h3' (List.mem_append_left _ hA)
    rcases List.mem_append.1 hD with hD | hD
    · exact ⟨_, List.mem_map_of_mem hD, hp⟩
    · exact absurd ((closedSet_relabel h hm).2 (h4 A hA)) (h5' D hD)
  · obtain ⟨-, ⟨r, t, -, h1, h3, -, h5, -⟩, -⟩ := C28_classes hc hx.sccs
    obtain ⟨-, ⟨r', t', -, h1', h3', h4', -⟩, -⟩ := C28_classes hd hx'.sccs
    rw [h1, h1']
    intro C hC
    obtain ⟨A, hA, rfl⟩ := List.mem_map.1 hC
    obtain ⟨D, hD, hm, hp⟩ := classes_relabel h h3 h3' (List.mem_append_right _ hA)
    rcases List.mem_append.1 hD with hD | hD
    · exact absurd ((closedSet_relabel h hm).1 (h4' D hD)) (h5 A hA)
    · exact ⟨_, List.mem_map_of_mem hD, hp⟩

/-- C134, period of an irreducible chain. -/
theorem C134_irreducible_period {c d : MC K} (hc : c.Valid) (hd : d.Valid) {e : Fin d.n ≃ Fin c.n}
    (h : Relabels c d e) {nx : Nx c.n} (hx : nx.Sound c.p) {nx' : Nx d.n} (hx' : nx'.Sound d.p)
    (hirr : Irreducible c.p) :
    period d nx' = period c nx ∧ isAperiodic d nx' = isAperiodic c nx := by
  have hirr' : Irreducible d.p :=
    (irreducible_relabel (P := fun i j => c.p i j) (Q := fun i j => d.p i j) e h.prob).2 hirr
  obtain ⟨g, -, hg, -, h1, h2⟩ := C32_irreducible_partial hc hx hirr
  obtain ⟨g', -, hg', -, h1', h2'⟩ := C32_irreducible_partial hd hx' hirr'
  have i0 : Fin d.n := ⟨0, by have := hd.1; omega⟩
  have a := (isPeriodOf_relabel (P := fun i j => c.p i j) (Q := fun i j => d.p i j) e h.prob i0 g').1 (hg' i0)
  have b := hg (e i0)
  obtain rfl : g = g' := Nat.dvd_antisymm (a.2 g b.1) (b.2 g' a.1)
  exact ⟨h1'.trans h1.symm, bool_eq_of_iff (h2'.trans h2.symm)⟩


/-! ## Stationary distributions -/

/-- The vectors of `pi` are the stationary distributions whose support is a recurrent class. -/
theorem mem_pi {c : MC K} (hc : c.Valid) {sccs : List (List (Fin c.n))} (h : IsClasses c.p sccs)
    {l : List (Fin c.n → K)} (hl : pi c sccs = .ok l) :
    l.Nodup ∧ ∀ x, x ∈ l ↔ IsStationary c.p x ∧ ∃ i, RecurrentState c.p i ∧
      ∀ j, 0 < x j ↔ Communicate c.p i j := by
  have h0 : 0 < c.n := by have := hc.1; omega
  by_cases hirr : Irreducible c.p
  · obtain ⟨x, h1, h2, h3, h4⟩ := C34_stationary hc h hirr
    rw [h1] at hl
    cases hl
    refine ⟨List.nodup_singleton _, fun y => ?_⟩
    rw [List.mem_singleton]
    constructor
    · rintro rfl
      exact ⟨h2, ⟨0, h0⟩, fun j _ => hirr _ _, fun j => ⟨fun _ => ⟨hirr _ _, hirr _ _⟩, fun _ => h3 j⟩⟩
    · exact fun hy => h4 y hy.1
  · obtain ⟨hr, hcomm, f, h1, h2, h3⟩ := C35_reducible hc h hirr
    have hdis := recurrentIdx_disjoint h
    have hnd := recurrentIdx_nodup h
    have hne : ∀ C ∈ recurrentIdx c.p sccs, C ≠ [] := fun C hC =>
      h.classesIdx.ne_nil C (mem_recurrentIdx.1 hC).1
    rw [h1] at hl
    cases hl
    constructor
    · refine List.Nodup.map_on (fun C hC D hD hCD => ?_) hnd
      obtain ⟨i, hi⟩ := List.exists_mem_of_ne_nil _ (hne C hC)
      have hiD : i ∈ D := ((h2 D hD).2 i).1 (by rw [← hCD]; exact ((h2 C hC).2 i).2 hi)
      by_contra hne
      have : Std.Symm (List.Disjoint (α := Fin c.n)) := ⟨fun _ _ h => h.symm⟩
      exact hdis.forall hC hD hne hi hiD
    · intro x
      rw [List.mem_map]
      constructor
      · rintro ⟨C, hC, rfl⟩
        obtain ⟨i, hi⟩ := List.exists_mem_of_ne_nil _ (hne C hC)
        exact ⟨(h2 C hC).1, i, (hr i).2 ⟨C, hC, hi⟩, fun j => ((h2 C hC).2 j).trans (hcomm C hC i hi j)⟩
      · rintro ⟨hx, i, hi, hsup⟩
        obtain ⟨C, hC, hiC⟩ := (hr i).1 hi
        obtain ⟨w, hw0, hw1, hw⟩ := (h3 x).1 hx
        have hzero : ∀ D ∈ recurrentIdx c.p sccs, D ≠ C → w D = 0 := by
          intro D hD hDC
          obtain ⟨j, hj⟩ := List.exists_mem_of_ne_nil _ (hne D hD)
          have hjC : j ∉ C := fun hjC => by
            have : Std.Symm (List.Disjoint (α := Fin c.n)) := ⟨fun _ _ h => h.symm⟩
            exact hdis.forall hD hC hDC hj hjC
          have hxj : x j = w D * f D j := by
            rw [hw j, sum_map_classes hdis hD hnd hj]
            intro E hE hjE
            have : f E j = 0 := le_antisymm
              (not_lt.1 fun hlt => hjE (((h2 E hE).2 j).1 hlt)) ((h2 E hE).1.1.1 j)
            rw [this, mul_zero]
          have hx0 : x j = 0 := le_antisymm
            (not_lt.1 fun hlt => hjC ((hcomm C hC i hiC j).2 ((hsup j).1 hlt))) (hx.1.1 j)
          rw [hx0] at hxj
          rcases mul_eq_zero.1 hxj.symm with h' | h'
          · exact h'
          · exact absurd h' (ne_of_gt (((h2 D hD).2 j).2 hj))
        have hwC : w C = 1 := by
          rw [← hw1]
          symm
          refine sum_map_classes hdis hC hnd hiC w fun D hD hiD => hzero D hD ?_
          rintro rfl
          exact hiD hiC
        refine ⟨C, hC, funext fun j => ?_⟩
        rw [hw j]
        have : ((recurrentIdx c.p sccs).map fun D => w D * f D j).sum = w C * f C j := by
          refine sum_map_classes hdis hC hnd hiC (fun D => w D * f D j) fun D hD hiD => ?_
          rw [hzero D hD (by rintro rfl; exact hiD hiC), zero_mul]
        rw [this, hwC, one_mul]

theorem pi_ok {c : MC K} (hc : c.Valid) {sccs : List (List (Fin c.n))} (h : IsClasses c.p sccs) :
    ∃ l, pi c sccs = .ok l := by
  rcases pi_cases hc h with ⟨x, h1, -⟩ | ⟨xs, x, y, h1, -⟩
  · exact ⟨_, h1⟩
  · exact ⟨_, h1⟩

/-- C134, stationary distributions: `pi` lists the same distributions, each with its entries moved to the
new positions of the states, possibly in another order. -/
theorem C134_pi {c d : MC K} (hc : c.Valid) (hd : d.Valid) {e : Fin d.n ≃ Fin c.n} (h : Relabels c d e)
    {sccs : List (List (Fin c.n))} (hs : IsClasses c.p sccs) {sccs' : List (List (Fin d.n))}
    (hs' : IsClasses d.p sccs') :
    ∃ l l', pi c sccs = .ok l ∧ pi d sccs' = .ok l' ∧ l'.Perm (l.map fun x i => x (e i)) := by
  obtain ⟨l, hl⟩ := pi_ok hc hs
  obtain ⟨l', hl'⟩ := pi_ok hd hs'
  refine ⟨l, l', hl, hl', ?_⟩
  obtain ⟨n1, m1⟩ := mem_pi hc hs hl
  obtain ⟨n2, m2⟩ := mem_pi hd hs' hl'
  have hinj : Function.Injective fun (x : Fin c.n → K) (i : Fin d.n) => x (e i) := by
    intro x y hxy
    funext j
    have := congrFun hxy (e.symm j)
    simpa only [e.apply_symm_apply] using this
  rw [List.perm_ext_iff_of_nodup n2 (n1.map hinj)]
  intro y
  rw [m2, List.mem_map]
  constructor
  · rintro ⟨hy, i, hi, hsup⟩
    refine ⟨fun j => y (e.symm j), (m1 _).2 ⟨?_, e i, (recurrent_relabel h i).1 hi, fun j => ?_⟩, ?_⟩
    · exact isStationary_relabel (P := fun i j => d.p i j) (Q := fun i j => c.p i j) e.symm h.symm.prob hy
    · rw [hsup, communicate_relabel (P := fun i j => c.p i j) (Q := fun i j => d.p i j) e h.prob,
        e.apply_symm_apply]
    · exact funext fun i => congrArg y (e.symm_apply_apply i)
  · rintro ⟨x, hx, rfl⟩
    obtain ⟨hx, i, hi, hsup⟩ := (m1 x).1 hx
    refine ⟨isStationary_relabel (P := fun i j => c.p i j) (Q := fun i j => d.p i j) e h.prob hx,
      e.symm i, (recurrent_relabel h _).2 (by rwa [e.apply_symm_apply]), fun j => ?_⟩
    rw [hsup]
    refine Iff.trans ?_ (communicate_relabel (P := fun i j => c.p i j) (Q := fun i j => d.p i j)
      e h.prob _ _).symm
    rw [e.apply_symm_apply]

/-- C134, `is_reversible`. -/
theorem C134_reversible {c d : MC K} (hc : c.Valid) (hd : d.Valid) {e : Fin d.n ≃ Fin c.n}
    (h : Relabels c d e) {sccs : List (List (Fin c.n))} (hs : IsClasses c.p sccs)
    {sccs' : List (List (Fin d.n))} (hs' : IsClasses d.p sccs') :
    isReversible d sccs' = isReversible c sccs := by
  obtain ⟨l, l', h1, h2, h3⟩ := C134_pi hc hd h hs hs'
  unfold isReversible
  rw [h1, h2]
  have hlen := h3.length_eq
  rw [List.length_map] at hlen
  match l, l', h3, hlen with
  | [], [], _, _ => rfl
  | [x], [y], h3, _ =>
    have : y = fun i => x (e i) := by
      have := List.perm_singleton.1 h3
      exact (List.cons.inj this).1
    subst this
    change (Except.ok _ : R Bool) = .ok _
    congr 1
    refine bool_eq_of_iff ?_
    rw [decide_eq_true_iff, decide_eq_true_iff]
    constructor
    · intro hr i j
      have := hr (e.symm i) (e.symm j)
      rw [h.prob, h.prob] at this
      simpa only [e.apply_symm_apply] using this
    · intro hr i j
      rw [h.prob, h.prob]
      exact hr _ _
  | _ :: _ :: _, _ :: _ :: _, _, _ => rfl

/-! ## Hitting probabilities and times -/

theorem hittingTargets_relabel {c d : MC K} (hc : c.Valid) (hd : d.Valid) {e : Fin d.n ≃ Fin c.n}
    (h : Relabels c d e) {targets : Option (PyVal K)} (hv : ∀ v, targets = some v → ByLabel v)
    {S : List (Fin c.n)} (hS : hittingTargets c targets = .ok S) :
    ∃ S', hittingTargets d targets = .ok S' ∧ ∀ i, i ∈ S' ↔ e i ∈ S := by
  cases targets with
  | none =>
    cases hS
    exact ⟨_, rfl, fun i => ⟨fun _ => List.mem_finRange _, fun _ => List.mem_finRange _⟩⟩
  | some v =>
    change (validateLabelsCurrent v c.states false none >>= _) = _ at hS
    rw [R.bind_ok] at hS
    obtain ⟨r, hr, hS⟩ := hS
    cases hS
    obtain ⟨r', hr', hm⟩ := labels_relabel hc hd h (hv v rfl) hr
    refine ⟨toStates d.n r', ?_, fun i => ?_⟩
    · change (validateLabelsCurrent v d.states false none >>= _) = _
      rw [hr']
      rfl
    · rw [mem_toStates, mem_toStates, hm]

/-- C134, hitting probabilities and times of targets given by their labels: the value of every state is
the same. -/
theorem C134_hitting {nnls : Nnls K} (hnn : Nnls.Sound nnls) {c d : MC K} (hc : c.Valid) (hd : d.Valid)
    {e : Fin d.n ≃ Fin c.n} (h : Relabels c d e) {targets : Option (PyVal K)}
    (hv : ∀ v, targets = some v → ByLabel v) {S : List (Fin c.n)} (hS : hittingTargets c targets = .ok S) :
    (∃ g g', hittingProbabilities nnls c targets = .ok g ∧ hittingProbabilities nnls d targets = .ok g' ∧
      ∀ i, g' i = g (e i)) ∧
    ∃ r r', hittingTimes nnls c targets = .ok r ∧ hittingTimes nnls d targets = .ok r' ∧
      ∀ i, r' i = r (e i) := by
  obtain ⟨S', hS', hm⟩ := hittingTargets_relabel hc hd h hv hS
  have hset : (fun i => i ∈ S') = fun i => e i ∈ S := funext fun i => propext (hm i)
  constructor
  · obtain ⟨-, g, h1, h2⟩ := C43_hitting_probabilities hnn hc hS
    obtain ⟨-, g', h1', h2'⟩ := C43_hitting_probabilities hnn hd hS'
    refine ⟨g, g', h1, h1', fun i => ?_⟩
    have := isHittingProbability_relabel (P := fun i j => c.p i j) (Q := fun i j => d.p i j) e h.prob
      ((h2 g).2 rfl)
    rw [← hset] at this
    exact (congrFun ((h2' _).1 this) i).symm
  · obtain ⟨-, g, h1, h2⟩ := C42_hitting_times hnn hc hS
    obtain ⟨-, g', h1', h2'⟩ := C42_hitting_times hnn hd hS'
    refine ⟨g, g', h1, h1', fun i => ?_⟩
    have := isHittingTime_relabel (P := fun i j => c.p i j) (Q := fun i j => d.p i j) e h.prob
      ((h2 g).2 rfl)
    rw [← hset] at this
    exact (congrFun ((h2' _).1 this) i).symm

/-! ## Visits -/

/-- C134, `mean_number_visits`. -/
theorem C134_visits {c d : MC K} (hc : c.Valid) (hd : d.Valid) {e : Fin d.n ≃ Fin c.n}
    (h : Relabels c d e) {sccs : List (List (Fin c.n))} (hs : IsClasses c.p sccs)
    {sccs' : List (List (Fin d.n))} (hs' : IsClasses d.p sccs') :
    ∃ m m', meanNumberVisits c sccs = .ok m ∧ meanNumberVisits d sccs' = .ok m' ∧
      ∀ i j, m' i j = m (e i) (e j) := by
  obtain ⟨m, f, h1, h2, h3⟩ := C82_return_probabilities hc hs
  obtain ⟨m', f', h1', h2', h3'⟩ := C82_return_probabilities hd hs'
  have key : ∀ i j, f' i j = f (e i) (e j) := by
    intro i j
    have := isReturnProbability_relabel (P := fun i j => c.p i j) (Q := fun i j => d.p i j) e h.prob
      (j := j) (h2 (e j))
    exact congrFun ((h2' j).unique this) i
  exact ⟨m, m', h1, h1', fun i j => by rw [h3, h3', key, key]⟩


/-! ## Passage times and committors -/

theorem pi0_relabel {c d : MC K} (hc : c.Valid) (hd : d.Valid) {e : Fin d.n ≃ Fin c.n}
    (h : Relabels c d e) {sccs : List (List (Fin c.n))} (hs : IsClasses c.p sccs)
    {sccs' : List (List (Fin d.n))} (hs' : IsClasses d.p sccs') (hirr : Irreducible c.p) :
    ∃ x, pi0 c sccs = .ok x ∧ pi0 d sccs' = .ok (fun i => x (e i)) := by
  have hirr' : Irreducible d.p :=
    (irreducible_relabel (P := fun i j => c.p i j) (Q := fun i j => d.p i j) e h.prob).2 hirr
  obtain ⟨x, h1, h2, -, -⟩ := pi0_spec hc hs hirr
  obtain ⟨y, h1', -, -, h4⟩ := pi0_spec hd hs' hirr'
  refine ⟨x, h1, ?_⟩
  rw [h1', ← h4 _ (isStationary_relabel (P := fun i j => c.p i j) (Q := fun i j => d.p i j) e h.prob h2)]

/-- C134, mean first passage times to targets given by their labels, and to all states. -/
theorem C134_passage {c d : MC K} (hc : c.Valid) (hd : d.Valid) {e : Fin d.n ≃ Fin c.n}
    (h : Relabels c d e) {nx : Nx c.n} (hx : nx.Sound c.p) {nx' : Nx d.n} (hx' : nx'.Sound d.p) :
    (∀ {v : PyVal K} {r : Option (Fin c.n → K)}, ByLabel v → meanFirstPassageTimesTo c nx v = .ok r →
      meanFirstPassageTimesTo d nx' v = .ok (r.map fun t i => t (e i))) ∧
    (∀ {r : Option (Fin c.n → Fin c.n → K)}, mfptAll c nx = .ok r →
      mfptAll d nx' = .ok (r.map fun t i j => t (e i) (e j))) ∧
    (∀ {v w : PyVal K} {r : Option K}, ByLabel v → ByLabel w →
      meanFirstPassageTimesBetween c nx v w = .ok r → meanFirstPassageTimesBetween d nx' v w = .ok r) ∧
    ∀ {r : Option (Fin c.n → K)}, meanRecurrenceTimes c nx = .ok r →
      meanRecurrenceTimes d nx' = .ok (r.map fun t i => t (e i)) := by
  have herg := isErgodic_relabel hc hd h hx hx'
  by_cases he : Ergodic c.p
  · have hec := (isErgodic_iff hc hx).2 he
    have hed : isErgodic d nx' = true := herg.trans hec
    have he' := (isErgodic_iff hd hx').1 hed
    refine ⟨fun {v r} hv hr => ?_, fun {r} hr => ?_, fun {v w r} hv hw hr => ?_, fun {r} hr => ?_⟩
    · obtain ⟨l, hl, -⟩ := (R.bind_ok _ _ _).1 hr
      obtain ⟨l', hl', hm⟩ := labels_relabel hc hd h hv hl
      obtain ⟨t, h1, h2⟩ := C44_targets hc hx he hl
      obtain ⟨t', h1', h2'⟩ := C44_targets hd hx' he' hl'
      rw [h1] at hr
      cases hr
      rw [h1']
      have := isPassageTime_relabel (P := fun i j => c.p i j) (Q := fun i j => d.p i j) e h.prob
        ((h2 t).2 rfl)
      have hset : (fun i : Fin d.n => i.val ∈ l') = fun i => (e i).val ∈ l := funext fun i => propext (hm i)
      rw [← hset] at this
      rw [← (h2' _).1 this]
      rfl
    · obtain ⟨t, h1, -, -, h2⟩ := C44_all_states hc hx he
      obtain ⟨t', h1', -, -, h2'⟩ := C44_all_states hd hx' he'
      rw [h1] at hr
      cases hr
      rw [h1']
      have key : t' = fun i j => t (e i) (e j) := by
        funext i j
        have := isPassageTime_relabel (P := fun i j => c.p i j) (Q := fun i j => d.p i j) e h.prob
          ((h2 (e j) fun i => t i (e j)).2 rfl)
        have hset : (fun i : Fin d.n => i = j) = fun i => e i = e j :=
          funext fun i => propext e.injective.eq_iff.symm
        rw [← hset] at this
        exact (congrFun ((h2' j _).1 this) i).symm
      rw [key]
      rfl
    · obtain ⟨a, ha, hr'⟩ := (R.bind_ok _ _ _).1 hr
      obtain ⟨b, hb, -⟩ := (R.bind_ok _ _ _).1 hr'
      obtain ⟨a', ha', hma⟩ := labels_relabel hc hd h hv ha
      obtain ⟨b', hb', hmb⟩ := labels_relabel hc hd h hw hb
      obtain ⟨x, t, h1, h2, h3, -⟩ := C99_between hc hx he ha hb
      obtain ⟨x', t', h1', h2', h3', -⟩ := C99_between hd hx' he' ha' hb'
      rw [h3] at hr
      cases hr
      rw [h3']
      have ex : x' = fun i => x (e i) := ((h1' _).1 (isStationary_relabel (P := fun i j => c.p i j)
        (Q := fun i j => d.p i j) e h.prob ((h1 x).2 rfl))).symm
      have et : t' = fun i => t (e i) := by
        have := isPassageTime_relabel (P := fun i j => c.p i j) (Q := fun i j => d.p i j) e h.prob
          ((h2 t).2 rfl)
        have hset : (fun i : Fin d.n => i.val ∈ b') = fun i => (e i).val ∈ b :=
          funext fun i => propext (hmb i)
        rw [← hset] at this
        exact ((h2' _).1 this).symm
      rw [ex, et]
      simp only [hma]
      rw [Equiv.sum_comp e fun i => if i.val ∈ a then x i * t i else 0,
        Equiv.sum_comp e fun i => if i.val ∈ a then x i else 0]
    · obtain ⟨x, h1, h2⟩ := pi0_relabel hc hd h hx.sccs hx'.sccs he.1
      unfold meanRecurrenceTimes at hr ⊢
      rw [if_pos hec, h1] at hr
      rw [if_pos hed, h2]
      cases hr
      rfl
  · have hec : ¬ isErgodic c nx = true := fun hh => he ((isErgodic_iff hc hx).1 hh)
    have hed : ¬ isErgodic d nx' = true := by rw [herg]; exact hec
    refine ⟨fun {v r} hv hr => ?_, fun {r} hr => ?_, fun {v w r} hv hw hr => ?_, fun {r} hr => ?_⟩
    · obtain ⟨l, hl, hr⟩ := (R.bind_ok _ _ _).1 hr
      obtain ⟨l', hl', -⟩ := labels_relabel hc hd h hv hl
      unfold meanFirstPassageTimesTo
      unfold mfptTo at hr
      rw [if_neg hec] at hr
      cases hr
      rw [hl', R.ok_bind]
      unfold mfptTo
      rw [if_neg hed]
      rfl
    · unfold mfptAll at hr ⊢
      rw [if_neg hec] at hr
      rw [if_neg hed]
      cases hr
      rfl
    · obtain ⟨a, ha, hr⟩ := (R.bind_ok _ _ _).1 hr
      obtain ⟨b, hb, hr⟩ := (R.bind_ok _ _ _).1 hr
      obtain ⟨a', ha', -⟩ := labels_relabel hc hd h hv ha
      obtain ⟨b', hb', -⟩ := labels_relabel hc hd h hw hb
      unfold mfptBetween at hr
      rw [if_neg hec] at hr
      cases hr
      exact C99_not_ergodic hd hx' (fun hh => hed ((isErgodic_iff hd hx').2 hh)) ha' hb'
    · unfold meanRecurrenceTimes at hr ⊢
      rw [if_neg hec] at hr
      rw [if_neg hed]
      cases hr
      rfl

/-- C134, committor probabilities between sets given by their labels. -/
theorem C134_committor {c d : MC K} (hc : c.Valid) (hd : d.Valid) {e : Fin d.n ≃ Fin c.n}
    (h : Relabels c d e) {nx : Nx c.n} (hx : nx.Sound c.p) {nx' : Nx d.n} (hx' : nx'.Sound d.p)
    {kind v w : PyVal K} (hv : ByLabel v) (hw : ByLabel w) {r : Option (Fin c.n → K)}
    (hr : committorProbabilities c nx kind v w = .ok r) :
    committorProbabilities d nx' kind v w = .ok (r.map fun q i => q (e i)) := by
  have herg := isErgodic_relabel hc hd h hx hx'
  obtain ⟨k, hk, -⟩ := (R.bind_ok _ _ _).1 hr
  obtain ⟨a, b, ha, hb, hdis⟩ := C41_disjoint hr
  obtain ⟨a', ha', hma⟩ := labels_relabel hc hd h hv ha
  obtain ⟨b', hb', hmb⟩ := labels_relabel hc hd h hw hb
  have hdis' : ∀ i ∈ a', i ∉ b' := by
    intro i hi hib
    have hlt : i < d.n := by
      rw [← hd.2.2.1]
      exact (labelsCurrent_sound hd.2.2.2.1 ha').2.1 i hi
    exact hdis _ ((hma ⟨i, hlt⟩).1 hi) ((hmb ⟨i, hlt⟩).1 hib)
  have hsa : (fun i : Fin d.n => i.val ∈ a') = fun i => (e i).val ∈ a := funext fun i => propext (hma i)
  have hsb : (fun i : Fin d.n => i.val ∈ b') = fun i => (e i).val ∈ b := funext fun i => propext (hmb i)
  by_cases he : Ergodic c.p
  · have hec := (isErgodic_iff hc hx).2 he
    have he' := (isErgodic_iff hd hx').1 (herg.trans hec)
    rcases List.mem_pair.1 (validateEnumerator_mem hk).2 with rfl | rfl
    · obtain ⟨x, hx1, hx2, q, s, h1, h2, h3⟩ := C41_backward_partial hc hx he ha hb hdis
      obtain ⟨x', hx1', hx2', q', s', h1', h2', h3'⟩ := C41_backward_partial hd hx' he' ha' hb' hdis'
      have hxx := hx2' _ (isStationary_relabel (P := fun i j => c.p i j) (Q := fun i j => d.p i j)
        e h.prob hx1)
      rw [committor_run hk ha hb hdis] at hr
      rw [committor_run (k := "backward") rfl ha hb hdis, hr] at h2
      rw [committor_run (k := "backward") rfl ha' hb' hdis'] at h2'
      rw [committor_run hk ha' hb' hdis', h2']
      cases h2
      have := isCommittor_relabel (P := reversal c.p x) (Q := reversal d.p x') e
        (fun i j => by unfold reversal; rw [h.prob, ← hxx]) ((h1 q).2 rfl)
      rw [← hsa, ← hsb] at this
      have hq := (h1' _).1 this
      congr 2
      funext i
      change s' i = s (e i)
      rw [h3', h3, ← hq]
    · obtain ⟨q, s, h1, h2, h3⟩ := C41_forward_partial hc hx he ha hb hdis
      obtain ⟨q', s', h1', h2', h3'⟩ := C41_forward_partial hd hx' he' ha' hb' hdis'
      rw [committor_run hk ha hb hdis] at hr
      rw [committor_run (k := "forward") rfl ha hb hdis, hr] at h2
      rw [committor_run (k := "forward") rfl ha' hb' hdis'] at h2'
      rw [committor_run hk ha' hb' hdis', h2']
      cases h2
      have := isCommittor_relabel (P := fun i j => c.p i j) (Q := fun i j => d.p i j) e h.prob
        ((h1 q).2 rfl)
      rw [← hsa, ← hsb] at this
      have hq := (h1' _).1 this
      congr 2
      funext i
      change s' i = s (e i)
      rw [h3', h3, ← hq]
  · have hec : ¬ isErgodic c nx = true := fun hh => he ((isErgodic_iff hc hx).1 hh)
    have hed : ¬ isErgodic d nx' = true := by rw [herg]; exact hec
    rw [committor_run hk ha hb hdis] at hr
    rw [committor_run hk ha' hb' hdis']
    unfold mcCommittor at hr ⊢
    rw [if_neg hec] at hr
    rw [if_neg hed]
    cases hr
    rfl

/-! ## Absorption -/

/-- Positions in two lists of states that correspond to each other. -/
theorem positions {m n : ℕ} (e : Fin m ≃ Fin n) {T : List (Fin n)} {T' : List (Fin m)} (hT : T.Nodup)
    (hT' : T'.Nodup) (hm : ∀ i, i ∈ T' ↔ e i ∈ T) :
    ∃ π : Fin T'.length ≃ Fin T.length, ∀ a, T.get (π a) = e (T'.get a) := by
  have h1 : ∀ a : Fin T'.length, ∃ b : Fin T.length, T.get b = e (T'.get a) := fun a =>
    List.get_of_mem ((hm _).1 (List.get_mem T' a))
  choose π hπ using h1
  refine ⟨Equiv.ofBijective π ⟨fun a b hab => ?_, fun b => ?_⟩, hπ⟩
  · have := hπ a
    rw [hab, hπ b] at this
    exact (hT'.injective_get (e.injective this)).symm
  · have hb : e.symm (T.get b) ∈ T' := (hm _).2 (by rw [e.apply_symm_apply]; exact List.get_mem T b)
    obtain ⟨a, ha⟩ := List.get_of_mem hb
    refine ⟨a, hT.injective_get ?_⟩
    rw [hπ, ha, e.apply_symm_apply]

theorem npInv_submatrix {m n : ℕ} (π : Fin m ≃ Fin n) {A : Matrix (Fin n) (Fin n) K}
    {B : Matrix (Fin m) (Fin m) K} (hB : B = A.submatrix π π) :
    npInv B = (npInv A).map fun N => N.submatrix π π := by
  subst hB
  unfold npInv
  rw [Matrix.det_submatrix_equiv_self, Matrix.inv_submatrix_equiv]
  split <;> rfl

/-- C134, absorbing chains. The transient states of both chains correspond to each other, and the
fundamental matrix, the mean absorption times, the absorption probabilities and Kemeny's constant are the
same after the same change of positions. -/
theorem C134_absorption {c d : MC K} {e : Fin d.n ≃ Fin c.n}
    (h : Relabels c d e) {sccs : List (List (Fin c.n))} (hs : IsClasses c.p sccs)
    {sccs' : List (List (Fin d.n))} (hs' : IsClasses d.p sccs') :
    ∃ (π : Fin (transientStatesIdx d.p sccs').length ≃ Fin (transientStatesIdx c.p sccs).length)
      (ρ : Fin (absorbingIdx d.p).length ≃ Fin (absorbingIdx c.p).length),
      (∀ a, (transientStatesIdx c.p sccs).get (π a) = e ((transientStatesIdx d.p sccs').get a)) ∧
      (∀ a, (absorbingIdx c.p).get (ρ a) = e ((absorbingIdx d.p).get a)) ∧
      (∀ {r}, fundamentalMatrix c sccs = .ok r →
        fundamentalMatrix d sccs' = .ok (r.map fun N => N.submatrix π π)) ∧
      (∀ {r}, meanAbsorptionTimes c sccs = .ok r →
        meanAbsorptionTimes d sccs' = .ok (r.map fun t a => t (π a))) ∧
      (∀ {r}, absorptionProbabilities c sccs = .ok r →
        absorptionProbabilities d sccs' = .ok (r.map fun b a i => b (ρ a) (π i))) ∧
      ∀ {r}, kemenyConstant c sccs = .ok r → kemenyConstant d sccs' = .ok r := by
  obtain ⟨π, hπ⟩ := positions e (transient_nodup hs) (transient_nodup hs') fun i => by
    rw [mem_transientStatesIdx hs, mem_transientStatesIdx hs']
    exact (recurrent_relabel h i).not
  obtain ⟨ρ, hρ⟩ := positions (T := absorbingIdx c.p) (T' := absorbingIdx d.p) e
    ((List.nodup_finRange _).filter _) ((List.nodup_finRange _).filter _) fun i => by
      rw [mem_absorbingIdx, mem_absorbingIdx, h.prob]
  have hg : (isAbsorbing d = false ∨ (transientStates d sccs').length = 0) ↔
      (isAbsorbing c = false ∨ (transientStates c sccs).length = 0) := by
    rw [isAbsorbing_relabel h]
    unfold transientStates
    rw [List.length_map, List.length_map, show (transientStatesIdx d.p sccs').length =
      (transientStatesIdx c.p sccs).length by simpa using Fintype.card_congr π]
  have hsub : (1 - subMatrix d.p (transientStatesIdx d.p sccs')) =
      (1 - subMatrix c.p (transientStatesIdx c.p sccs)).submatrix π π := by
    ext a b
    rw [Matrix.submatrix_apply, Matrix.sub_apply, Matrix.sub_apply, Matrix.one_apply, Matrix.one_apply]
    simp only [π.injective.eq_iff]
    unfold subMatrix
    rw [h.prob, hπ, hπ]
  have hfm : ∀ {r}, fundamentalMatrix c sccs = .ok r →
      fundamentalMatrix d sccs' = .ok (r.map fun N => N.submatrix π π) := by
    intro r hr
    unfold fundamentalMatrix at hr ⊢
    by_cases hcase : isAbsorbing c = false ∨ (transientStates c sccs).length = 0
    · rw [if_pos hcase] at hr
      rw [if_pos (hg.2 hcase)]
      cases hr
      rfl
    · rw [if_neg hcase] at hr
      rw [if_neg fun hh => hcase (hg.1 hh), npInv_submatrix π hsub]
      cases hN : npInv (1 - subMatrix c.p (transientStatesIdx c.p sccs)) with
      | none => rw [hN] at hr; cases hr
      | some N => rw [hN] at hr; cases hr; rfl
  refine ⟨π, ρ, hπ, hρ, hfm, fun {r} hr => ?_, fun {r} hr => ?_, fun {r} hr => ?_⟩
  · unfold meanAbsorptionTimes at hr ⊢
    by_cases hcase : isAbsorbing c = false ∨ (transientStates c sccs).length = 0
    · rw [if_pos hcase] at hr
      rw [if_pos (hg.2 hcase)]
      cases hr
      rfl
    · rw [if_neg hcase] at hr
      rw [if_neg fun hh => hcase (hg.1 hh)]
      obtain ⟨m, hm, hr⟩ := (R.bind_ok _ _ _).1 hr
      rw [hfm hm]
      cases m with
      | none => cases hr
      | some N =>
        cases hr
        change (Except.ok _ : R _) = .ok _
        congr 2
        funext a
        exact Equiv.sum_comp π fun b => N (π a) b * 1
  · unfold absorptionProbabilities at hr ⊢
    by_cases hcase : isAbsorbing c = false ∨ (transientStates c sccs).length = 0
    · rw [if_pos hcase] at hr
      rw [if_pos (hg.2 hcase)]
      cases hr
      rfl
    · rw [if_neg hcase] at hr
      rw [if_neg fun hh => hcase (hg.1 hh)]
      obtain ⟨m, hm, hr⟩ := (R.bind_ok _ _ _).1 hr
      rw [hfm hm]
      cases m with
      | none => cases hr
      | some N =>
        cases hr
        change (Except.ok _ : R _) = .ok _
        congr 2
        funext a i
        change ∑ k, N (π i) (π k) * d.p _ _ = ∑ k, N (π i) k * c.p _ _
        simp only [h.prob, ← hπ, ← hρ]
        exact Equiv.sum_comp π fun k => N (π i) k *
          c.p ((transientStatesIdx c.p sccs).get k) ((absorbingIdx c.p).get (ρ a))
  · unfold kemenyConstant at hr ⊢
    obtain ⟨m, hm, hr⟩ := (R.bind_ok _ _ _).1 hr
    rw [hfm hm]
    cases hr
    cases m with
    | none => rfl
    | some N =>
      exact congrArg (fun x => Except.ok (some x)) (Equiv.sum_comp π fun a => N a a)


/-! ## Entropy, predictions and simulations -/

/-- C134, `entropy_rate`. -/
theorem C134_entropy {c d : MC ℝ} (hc : c.Valid) (hd : d.Valid) {e : Fin d.n ≃ Fin c.n}
    (h : Relabels c d e) {sccs : List (List (Fin c.n))} (hs : IsClasses c.p sccs)
    {sccs' : List (List (Fin d.n))} (hs' : IsClasses d.p sccs') :
    entropyRate d sccs' = entropyRate c sccs := by
  obtain ⟨l, l', h1, h2, h3⟩ := C134_pi hc hd h hs hs'
  unfold entropyRate
  rw [h1, h2]
  have hlen := h3.length_eq
  rw [List.length_map] at hlen
  match l, l', h3, hlen with
  | [], [], _, _ => rfl
  | [x], [y], h3, _ =>
    have : y = fun i => x (e i) := by
      have := List.perm_singleton.1 h3
      exact (List.cons.inj this).1
    subst this
    have hsum : entropySum d (fun i => x (e i)) = entropySum c x := by
      unfold entropySum
      simp only [h.prob]
      rw [← Equiv.sum_comp e fun i => ∑ j, if c.p i j > 0 then x i * c.p i j * Real.log (c.p i j) else 0]
      exact sum_congr rfl fun i _ => Equiv.sum_comp e fun j =>
        if c.p (e i) j > 0 then x (e i) * c.p (e i) j * Real.log (c.p (e i) j) else 0
    change (Except.ok (some (if isclose (entropySum d fun i => x (e i)) 0 then
      entropySum d fun i => x (e i) else -entropySum d fun i => x (e i))) : R (Option ℝ)) = .ok _
    rw [hsum]
  | _ :: _ :: _, _ :: _ :: _, _, _ => rfl

theorem label_relabel {c d : MC K} (hc : c.Valid) (hd : d.Valid) {e : Fin d.n ≃ Fin c.n}
    (h : Relabels c d e) {s : String} {i : Fin c.n}
    (hi : validateLabel (K := K) (.str s) c.states = .ok i.val) :
    validateLabel (K := K) (.str s) d.states = .ok (e.symm i).val := by
  rw [C04_single_label hd.2.2.2.1]
  rw [C04_single_label hc.2.2.2.1] at hi
  exact names_relabel hc hd h (by rwa [e.apply_symm_apply])

theorem predictLoop_relabel {c d : MC K} {e : Fin d.n ≃ Fin c.n} (h : Relabels c d e) (k : ℕ) (i : Fin d.n) :
    (predictLoop d.p k i).map (List.map e) = predictLoop c.p k (e i) := by
  have one : ∀ {c d : MC K} {e : Fin d.n ≃ Fin c.n}, Relabels c d e → ∀ (i : Fin d.n) (w : List (Fin d.n)),
      predictLoop d.p k i = some w → predictLoop c.p k (e i) = some (w.map e) := by
    intro c d e h i w hw
    rw [predictLoop_eq] at hw ⊢
    refine ⟨by rw [List.length_map]; exact hw.1, ?_⟩
    rw [← List.map_cons, List.isChain_map]
    refine hw.2.imp fun a b hab l hl => ?_
    have h1 := hab (e.symm l) fun heq => hl (by rw [← heq, e.apply_symm_apply])
    rw [h.prob, h.prob, e.apply_symm_apply] at h1
    exact h1
  cases hd : predictLoop d.p k i with
  | some w => exact (one h i w hd).symm
  | none =>
    cases hc : predictLoop c.p k (e i) with
    | none => rfl
    | some w =>
      have := one h.symm (e i) w hc
      rw [e.symm_apply_apply, hd] at this
      cases this

/-- C134, `predict` from a state given by its label: the same labels, or `None` for both chains. -/
theorem C134_predict {c d : MC K} (hc : c.Valid) (hd : d.Valid) {e : Fin d.n ≃ Fin c.n}
    (h : Relabels c d e) {steps : PyVal K} {z : ℤ} {s : String} {i : Fin c.n}
    (hs : validateInteger steps (some (0, true)) none = .ok z)
    (hi : validateLabel (K := K) (.str s) c.states = .ok i.val) :
    predict d steps (.str s) (.bool false) = predict c steps (.str s) (.bool false) := by
  rw [predict_run hs hi, predict_run hs (label_relabel hc hd h hi)]
  unfold mcPredict
  have h1 := predictLoop_relabel h z.toNat (e.symm i)
  rw [e.apply_symm_apply] at h1
  rw [← h1]
  cases hw : predictLoop d.p z.toNat (e.symm i) with
  | none => rfl
  | some w =>
    change (Except.ok (some (render d.states false (e.symm i :: w))) : R (Option Output)) =
      .ok (some (render c.states false (i :: w.map e)))
    have hl : ∀ a : Fin d.n, d.states.getD a.val "" = c.states.getD (e a).val "" := h.label
    have : i :: w.map e = (e.symm i :: w).map e := by rw [List.map_cons, e.apply_symm_apply]
    rw [this]
    unfold render
    rw [if_neg (by decide), if_neg (by decide), List.map_map]
    congr 3
    exact List.map_congr_left fun a _ => hl a

theorem expect_relabel {ι κ : Type} [Fintype ι] [Fintype κ] {P : ι → ι → K} {Q : κ → κ → K} (e : κ ≃ ι)
    (h : ∀ i j, Q i j = P (e i) (e j)) (k : ℕ) (i : κ) (f : List ι → K) :
    expect Q k i (fun w => f (w.map e)) = expect P k (e i) f := by
  induction k generalizing i f with
  | zero => rfl
  | succ k ih =>
    unfold expect
    rw [← sum_relabel e h i fun j => expect P k j fun w => f (j :: w)]
    exact sum_congr rfl fun j _ => congrArg (Q i j * ·) (ih j fun w => f (e j :: w))

theorem stopAt_map {ι κ : Type} (e : κ ≃ ι) (S : ι → Prop) [DecidablePred S] (S' : κ → Prop)
    [DecidablePred S'] (hS : ∀ a, S' a ↔ S (e a)) (w : List κ) :
    (stopAt S' w).map e = stopAt S (w.map e) := by
  induction w with
  | nil => rfl
  | cons a w ih =>
    rw [List.map_cons]
    unfold stopAt
    by_cases ha : S (e a)
    · rw [if_pos ha, if_pos ((hS a).2 ha)]; rfl
    · rw [if_neg ha, if_neg fun h => ha ((hS a).1 h), List.map_cons, ih]

/-- C134, simulations. With uniform and independent draws, runs of both chains from a state given by its
label, up to a final state given by its label or without one, have the same law: every set of sequences of
labels has the same probability. -/
theorem C134_simulate {c d : MC ℝ} (hc : c.Valid) (hd : d.Valid) [NeZero c.n] [NeZero d.n]
    {e : Fin d.n ≃ Fin c.n} (h : Relabels c d e) {steps : PyVal ℝ} {z : ℤ} {s : String} {i : Fin c.n}
    (hs : validateInteger steps (some (2, false)) none = .ok z)
    (hi : validateLabel (K := ℝ) (.str s) c.states = .ok i.val) (final : Option String)
    (hf : ∀ t, final = some t → ∃ j : Fin c.n, validateLabel (K := ℝ) (.str t) c.states = .ok j.val)
    (start : Fin c.n) (start' : Fin d.n) :
    ∃ run run' : (ℕ → ℝ) → List String,
      (∀ u, simulate c (cdfChoice u) start steps (.str s) (final.elim .none .str) (.bool false) =
        .ok (.labels (run u))) ∧
      (∀ u, simulate d (cdfChoice u) start' steps (.str s) (final.elim .none .str) (.bool false) =
        .ok (.labels (run' u))) ∧
      ∀ E : Set (List String), Measure.infinitePi (fun _ : ℕ => uniformDraw) {u | run' u ∈ E} =
        Measure.infinitePi (fun _ : ℕ => uniformDraw) {u | run u ∈ E} := by
  classical
  have hi' := label_relabel hc hd h hi
  have hio : OptionalState (PyVal.str s : PyVal ℝ) c.states (some i) :=
    Or.inr ⟨i, (fun hh => by cases hh), hi, rfl⟩
  have hio' : OptionalState (PyVal.str s : PyVal ℝ) d.states (some (e.symm i)) :=
    Or.inr ⟨e.symm i, (fun hh => by cases hh), hi', rfl⟩
  obtain ⟨f, hfc, hfd⟩ : ∃ f : Option (Fin c.n),
      OptionalState (final.elim .none .str : PyVal ℝ) c.states f ∧
      OptionalState (final.elim .none .str : PyVal ℝ) d.states (f.map e.symm) := by
    cases final with
    | none => exact ⟨none, Or.inl ⟨rfl, rfl⟩, Or.inl ⟨rfl, rfl⟩⟩
    | some t =>
      obtain ⟨j, hj⟩ := hf t rfl
      exact ⟨some j, Or.inr ⟨j, (fun hh => by cases hh), hj, rfl⟩,
        Or.inr ⟨e.symm j, (fun hh => by cases hh), label_relabel hc hd h hj, rfl⟩⟩
  obtain ⟨run, h1, h2⟩ := C116_simulate hc start hs hio hfc
  obtain ⟨run', h1', h2'⟩ := C116_simulate hd start' hs hio' hfd
  have hlab : ∀ w : List (Fin d.n), w.map d.label = (w.map e).map c.label := by
    intro w
    rw [List.map_map]
    exact List.map_congr_left fun a _ => h.label a
  refine ⟨fun u => (run u).map c.label, fun u => (run' u).map d.label, fun u => h1 u false,
    fun u => h1' u false, fun E => ?_⟩
  have e1 := h2 fun w => w.map c.label ∈ E
  have e2 := h2' fun w => w.map d.label ∈ E
  refine e2.trans (Eq.trans ?_ e1.symm)
  refine congrArg ENNReal.ofReal ?_
  have hex := expect_relabel (P := fun i j => c.p i j) (Q := fun i j => d.p i j) e h.prob z.toNat (e.symm i)
    fun w => if (i :: stopAt (fun a => f = some a) w).map c.label ∈ E then (1 : ℝ) else 0
  rw [e.apply_symm_apply] at hex
  refine Eq.trans ?_ hex
  unfold prob
  congr 1
  funext w
  have hst : (stopAt (fun a => f.map e.symm = some a) w).map e = stopAt (fun a => f = some a) (w.map e) := by
    refine stopAt_map e (fun a => f = some a) _ (fun a => ?_) w
    cases f with
    | none => exact ⟨(fun hh => nomatch hh), (fun hh => nomatch hh)⟩
    | some j =>
      change some (e.symm j) = some a ↔ some j = some (e a)
      rw [Option.some_inj, Option.some_inj, Equiv.symm_apply_eq]
  have : ((some (e.symm i)).getD start' :: stopAt (fun a => f.map e.symm = some a) w).map d.label =
      (i :: stopAt (fun a => f = some a) (w.map e)).map c.label := by
    rw [hlab, List.map_cons, hst]
    simp
  change (if ((some (e.symm i)).getD start' :: stopAt (fun a => f.map e.symm = some a) w).map d.label ∈ E
    then (1 : ℝ) else 0) = _
  rw [this]

/-! ## The canonical form -/

/-- C134. The canonical form of a chain is the chain with its states listed in another order; what is shown
above for such chains holds for it. -/
theorem C134_canonical {c : MC K} (hc : c.Valid) {sccs : List (List (Fin c.n))} (h : IsClasses c.p sccs) :
    (toCanonicalForm c sccs).Valid ∧ ∃ e, Relabels c (toCanonicalForm c sccs) e := by
  obtain ⟨e, h1, h2, h3, -⟩ := C20_canonical_form hc h
  exact ⟨h3, e, h1, h2⟩


/-- `exMismatch` in canonical form: the transient states "a" and "b" first. -/
def exMismatchForm : MC ℚ :=
  ⟨4, !![0, 1 / 2, 1 / 2, 0; 1, 0, 0, 0; 0, 0, 0, 1; 0, 0, 1, 0], ["a", "b", "c", "d"]⟩

def exMismatchFormNx (b : Bool) : Nx 4 :=
  Nx.ofClasses (fun i j => exMismatchForm.p i j) [[0, 1], [2, 3]] b

/-- The permutation of the states. -/
def exMismatchOrder : Fin 4 ≃ Fin 4 := ⟨![2, 3, 0, 1], ![2, 3, 0, 1], by decide, by decide⟩

theorem exMismatchForm_eq : ∃ hn : (toCanonicalForm exMismatch ([[0, 1], [2, 3]] : List (List (Fin 4)))).n = 4,
    (toCanonicalForm exMismatch ([[0, 1], [2, 3]] : List (List (Fin 4)))).states = exMismatchForm.states ∧
    ∀ i j, (toCanonicalForm exMismatch ([[0, 1], [2, 3]] : List (List (Fin 4)))).p i j =
      exMismatchForm.p (Fin.cast hn i) (Fin.cast hn j) :=
  ⟨by decide +kernel, by decide +kernel, by
    have key : ∀ i j : Fin (toCanonicalForm exMismatch ([[0, 1], [2, 3]] : List (List (Fin 4)))).n,
        (fun i j => (toCanonicalForm exMismatch ([[0, 1], [2, 3]] : List (List (Fin 4)))).p i j) i j =
          (fun i j : Fin 4 => exMismatchForm.p i j) (Fin.cast (by decide +kernel) i)
            (Fin.cast (by decide +kernel) j) := by decide +kernel
    exact key⟩

/-- Disagreement with C134: for a chain with several classes `period` depends on the order of the states.
The period of this chain is reported to be one, that of its canonical form to be two (provided that
`networkx.is_aperiodic` is false for the graph of the canonical form, which it is: all its cycles have even
lengths). -/
theorem C134_period (b : Bool) :
    exMismatch.Valid ∧ (exMismatchNx b).Sound exMismatch.p ∧ exMismatchForm.Valid ∧
    Relabels exMismatch exMismatchForm exMismatchOrder ∧ (exMismatchFormNx false).Sound exMismatchForm.p ∧
    period exMismatch (exMismatchNx b) = 1 ∧ period exMismatchForm (exMismatchFormNx false) = 2 := by
  obtain ⟨hv, hs, -, -, hp⟩ := C32_period_reducible b
  refine ⟨hv, hs, by decide +kernel, ⟨?_, ?_⟩, ?_, hp, by decide +kernel⟩
  · have key : ∀ i j : Fin 4, (fun i j : Fin 4 => exMismatchForm.p i j) i j =
        (fun i j : Fin 4 => exMismatch.p i j) (exMismatchOrder i) (exMismatchOrder j) := by
      decide +kernel
    exact key
  · have key : ∀ i : Fin 4, exMismatchForm.states.getD i.val "" =
        exMismatch.states.getD (exMismatchOrder i).val "" := by decide +kernel
    exact key
  · refine Nx.ofClasses_sound false ?_
    change IsClasses (fun i j : Fin 4 => exMismatchForm.p i j) [[0, 1], [2, 3]]
    decide +kernel

/-- The hypotheses of the theorems above are met by a chain with transient states and its canonical form,
in which the states are listed in another order. -/
example : exReversed.Valid ∧ (∃ e, Relabels exReversed
      (toCanonicalForm exReversed ([[2], [0], [1]] : List (List (Fin 3)))) e) ∧
    (toCanonicalForm exReversed ([[2], [0], [1]] : List (List (Fin 3)))).states ≠ exReversed.states ∧
    ByLabel (K := ℚ) (.list [.str "x"]) ∧
    hittingTargets exReversed (some (.list [.str "x"])) = .ok ([0] : List (Fin 3)) := by
  have hv : exReversed.Valid := by decide +kernel
  have hc : IsClasses (fun i j : Fin 3 => exReversed.p i j) [[2], [0], [1]] := by decide +kernel
  exact ⟨hv, (C134_canonical hv hc).2, by decide +kernel, Or.inr ⟨["x"], rfl⟩, rfl⟩

/-- And by an ergodic chain whose states are listed in the opposite order. -/
example : exLoop.Valid ∧ (⟨2, fun i j => exLoop.p (Equiv.swap (0 : Fin 2) 1 i) (Equiv.swap (0 : Fin 2) 1 j),
      ["b", "a"]⟩ : MC ℚ).Valid ∧ exLoop.states = ["a", "b"] ∧
    Relabels exLoop ⟨2, fun i j => exLoop.p (Equiv.swap (0 : Fin 2) 1 i) (Equiv.swap (0 : Fin 2) 1 j),
      ["b", "a"]⟩ (Equiv.swap (0 : Fin 2) 1) := by
  refine ⟨by decide +kernel, by decide +kernel, by decide +kernel, fun _ _ => rfl, ?_⟩
  change ∀ i : Fin 2, _
  decide +kernel

end Verif
