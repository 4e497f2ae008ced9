import Verif.Lemmas.Chain
import Verif.Spec.Graph
import Mathlib.Data.List.FinRange
import Mathlib.Data.List.Nodup
import Mathlib.Data.Fintype.Card
import Mathlib.Tactic.Linarith

/-!
# Facts about communicating classes
-/

set_option linter.unusedSectionVars false

namespace Verif

variable {K : Type*} [Field K] [LinearOrder K] [IsStrictOrderedRing K]
variable {ι : Type*} [Fintype ι]

/-! ## Decidability (for concrete examples) -/

theorem reachIn_zero {P : ι → ι → K} {i j : ι} : ReachIn P 0 i j ↔ i = j := by
  constructor
  · intro h; cases h; rfl
  · rintro rfl; exact .refl _

theorem reachIn_succ {P : ι → ι → K} {k : ℕ} {i j : ι} :
    ReachIn P (k + 1) i j ↔ ∃ l, ReachIn P k i l ∧ Edge P l j := by
  constructor
  · intro h
    cases h with
    | step h e => exact ⟨_, h, e⟩
  · rintro ⟨l, h, e⟩; exact h.step e

instance decReachIn [DecidableEq ι] (P : ι → ι → K) : ∀ k i j, Decidable (ReachIn P k i j)
  | 0, _, _ => decidable_of_iff _ reachIn_zero.symm
  | k + 1, i, _ =>
    have := decReachIn P k i
    decidable_of_iff _ reachIn_succ.symm

theorem reach_iff_lt_card {P : ι → ι → K} {i j : ι} :
    Reach P i j ↔ ∃ k : Fin (Fintype.card ι), ReachIn P k i j := by
  constructor
  · intro h
    obtain ⟨k, hk, hr⟩ := h.exists_lt_card
    exact ⟨⟨k, hk⟩, hr⟩
  · rintro ⟨k, h⟩; exact h.reach

instance decReach [DecidableEq ι] (P : ι → ι → K) (i j : ι) : Decidable (Reach P i j) :=
  decidable_of_iff _ reach_iff_lt_card.symm

instance [DecidableEq ι] (P : ι → ι → K) (i j : ι) : Decidable (Communicate P i j) := by
  unfold Communicate; infer_instance

instance [DecidableEq ι] (P : ι → ι → K) : Decidable (Irreducible P) := by
  unfold Irreducible; infer_instance

instance [DecidableEq ι] (P : ι → ι → K) (i : ι) : Decidable (RecurrentState P i) := by
  unfold RecurrentState; infer_instance

theorem isClasses_iff {P : ι → ι → K} {l : List (List ι)} :
    IsClasses P l ↔ (∀ i, ∃ C ∈ l, i ∈ C) ∧ (∀ C ∈ l, C.Nodup) ∧ (∀ C ∈ l, C ≠ []) ∧
      l.Pairwise List.Disjoint ∧ ∀ C ∈ l, ∀ i ∈ C, ∀ j, j ∈ C ↔ Communicate P i j :=
  ⟨fun h => ⟨h.1, h.2, h.3, h.4, h.5⟩, fun ⟨a, b, c, d, e⟩ => ⟨a, b, c, d, e⟩⟩

instance [DecidableEq ι] : DecidableRel (List.Disjoint : List ι → List ι → Prop) := fun a b =>
  decidable_of_iff (∀ x ∈ a, x ∉ b) (by simp [List.Disjoint])

instance [DecidableEq ι] (P : ι → ι → K) (l : List (List ι)) : Decidable (IsClasses P l) :=
  decidable_of_iff _ isClasses_iff.symm

/-! ## Communication -/

theorem Communicate.refl {P : ι → ι → K} (i : ι) : Communicate P i i := ⟨.refl i, .refl i⟩

theorem Communicate.symm {P : ι → ι → K} {i j : ι} (h : Communicate P i j) : Communicate P j i :=
  ⟨h.2, h.1⟩

theorem Communicate.trans {P : ι → ι → K} {i j l : ι} (h : Communicate P i j)
    (h' : Communicate P j l) : Communicate P i l := ⟨h.1.trans h'.1, h'.2.trans h.2⟩

theorem RecurrentState.of_reach {P : ι → ι → K} {i j : ι} (h : RecurrentState P i)
    (hr : Reach P i j) : RecurrentState P j := fun l hl => (h l (hr.trans hl)).trans hr

/-- A list of the classes always exists. -/
theorem exists_isClasses {n : ℕ} (P : Fin n → Fin n → K) : ∃ l, IsClasses P l := by
  classical
  let reps := (List.finRange n).filter fun i => ∀ j, j < i → ¬ Communicate P j i
  let cls : Fin n → List (Fin n) := fun i => (List.finRange n).filter fun j => Communicate P i j
  have hmem : ∀ i j, j ∈ cls i ↔ Communicate P i j := by
    intro i j; simp [cls]
  refine ⟨reps.map cls, ?_, ?_, ?_, ?_, ?_⟩
  · intro i
    obtain ⟨m, hm, hmin⟩ := (Finset.univ.filter fun j => Communicate P j i).exists_min_image id
      ⟨i, by simpa using Communicate.refl i⟩
    simp only [Finset.mem_filter, Finset.mem_univ, true_and, id] at hm hmin
    refine ⟨cls m, List.mem_map.2 ⟨m, ?_, rfl⟩, (hmem _ _).2 hm⟩
    simp only [reps, List.mem_filter, List.mem_finRange, true_and, decide_eq_true_eq]
    intro j hj hc
    exact absurd (hmin j (hc.trans hm)) (not_le.2 hj)
  · intro C hC
    obtain ⟨i, -, rfl⟩ := List.mem_map.1 hC
    exact (List.nodup_finRange n).filter _
  · intro C hC
    obtain ⟨i, -, rfl⟩ := List.mem_map.1 hC
    exact List.ne_nil_of_mem ((hmem i i).2 (.refl i))
  · rw [List.pairwise_map]
    have hn : reps.Nodup := (List.nodup_finRange n).filter _
    refine (List.Pairwise.imp_of_mem ?_ hn)
    intro a b ha hb hab x hx hy
    rw [hmem] at hx hy
    simp only [reps, List.mem_filter, List.mem_finRange, true_and, decide_eq_true_eq] at ha hb
    have hc : Communicate P a b := hx.trans hy.symm
    rcases lt_trichotomy a b with h | h | h
    · exact hb a h hc
    · exact hab h
    · exact ha b h hc.symm
  · intro C hC i hi j
    obtain ⟨m, -, rfl⟩ := List.mem_map.1 hC
    rw [hmem] at hi ⊢
    exact ⟨fun h => hi.symm.trans h, fun h => hi.trans h⟩

namespace IsClasses
variable {P : ι → ι → K} {l : List (List ι)}

theorem eq_of_mem (h : IsClasses P l) {A B : List ι} (hA : A ∈ l) (hB : B ∈ l) {i : ι} (hi : i ∈ A)
    (hi' : i ∈ B) : A = B := by
  by_contra hne
  have : Std.Symm (List.Disjoint : List ι → List ι → Prop) := ⟨fun _ _ h => h.symm⟩
  exact h.disjoint.forall hA hB hne hi hi'

theorem flatten_nodup (h : IsClasses P l) : l.flatten.Nodup :=
  List.nodup_flatten.2 ⟨h.nodup, h.disjoint⟩

theorem mem_flatten (h : IsClasses P l) (i : ι) : i ∈ l.flatten := by
  obtain ⟨C, hC, hi⟩ := h.cover i
  exact List.mem_flatten.2 ⟨C, hC, hi⟩

theorem nodup_list (h : IsClasses P l) : l.Nodup := by
  refine List.Pairwise.imp_of_mem ?_ h.disjoint
  rintro A B hA hB hd rfl
  obtain ⟨x, hx⟩ := List.exists_mem_of_ne_nil A (h.ne_nil A hA)
  exact hd hx hx

theorem perm (h : IsClasses P l) {l' : List (List ι)} (hp : l'.Perm l) : IsClasses P l' where
  cover i := by
    obtain ⟨C, hC, hi⟩ := h.cover i
    exact ⟨C, hp.mem_iff.2 hC, hi⟩
  nodup C hC := h.nodup C (hp.mem_iff.1 hC)
  ne_nil C hC := h.ne_nil C (hp.mem_iff.1 hC)
  disjoint := (hp.pairwise_iff fun hab => hab.symm).2 h.disjoint
  mem_iff C hC := h.mem_iff C (hp.mem_iff.1 hC)

theorem map (h : IsClasses P l) {f : List ι → List ι} (hf : ∀ C, (f C).Perm C) :
    IsClasses P (l.map f) where
  cover i := by
    obtain ⟨C, hC, hi⟩ := h.cover i
    exact ⟨f C, List.mem_map_of_mem hC, (hf C).mem_iff.2 hi⟩
  nodup C hC := by
    obtain ⟨D, hD, rfl⟩ := List.mem_map.1 hC
    exact (hf D).nodup_iff.2 (h.nodup D hD)
  ne_nil C hC := by
    obtain ⟨D, hD, rfl⟩ := List.mem_map.1 hC
    intro he
    have := hf D
    rw [he] at this
    exact h.ne_nil D hD this.symm.eq_nil
  disjoint := by
    rw [List.pairwise_map]
    refine h.disjoint.imp fun hab x hx hy => hab ((hf _).mem_iff.1 hx) ((hf _).mem_iff.1 hy)
  mem_iff C hC i hi j := by
    obtain ⟨D, hD, rfl⟩ := List.mem_map.1 hC
    rw [(hf D).mem_iff] at hi ⊢
    exact h.mem_iff D hD i hi j

/-- A class is closed exactly when its states are recurrent. -/
theorem closed_iff (h : IsClasses P l) {C : List ι} (hC : C ∈ l) {i : ι} (hi : i ∈ C) :
    (∀ a ∈ C, ∀ b, Edge P a b → b ∈ C) ↔ RecurrentState P i := by
  constructor
  · intro hcl j hj
    have : j ∈ C := closedSet_reach (S := fun x => x ∈ C) (fun a b ha e => hcl a ha b e) hi hj
    exact ((h.mem_iff C hC i hi j).1 this).2
  · intro hr a ha b e
    have hia := (h.mem_iff C hC i hi a).1 ha
    refine (h.mem_iff C hC i hi b).2 ⟨hia.1.tail e, ?_⟩
    exact hr b (hia.1.tail e)

end IsClasses

end Verif
