import Verif.Props.ReducibleLongRun
import Verif.Props.Periods
import Verif.Props.Absorbing
import Verif.Props.Simulation

/-!
# Identity chains (C135)

`MarkovChain.identity`: the arguments it accepts, the chain it returns, and what the other methods say
about that chain.
-/

namespace Verif

set_option linter.unusedSectionVars false

variable {K : Type} [Field K] [LinearOrder K] [IsStrictOrderedRing K]

/-- The chain stays where it is. -/
def Still (c : MC K) : Prop := ∀ i j : Fin c.n, c.p i j = if i = j then 1 else 0

theorem Still.edge {c : MC K} (h : Still c) {i j : Fin c.n} : Edge c.p i j ↔ j = i := by
  unfold Edge
  rw [h i j]
  by_cases hij : i = j
  · subst hij
    simp
  · rw [if_neg hij]
    simp [Ne.symm hij]

theorem Still.reach {c : MC K} (h : Still c) {i j : Fin c.n} : Reach c.p i j ↔ j = i := by
  constructor
  · intro hr
    induction hr with
    | refl => rfl
    | tail _ he ih => rw [h.edge.1 he, ih]
  · rintro rfl
    exact Relation.ReflTransGen.refl

/-- C135. `identity` accepts exactly the sizes from two on, with distinct and nonblank labels, one for each
state; the chain it returns is valid, has that size and those labels, and every state stays where it is. -/
theorem C135_identity {size states : PyVal K} {c : MC K} (h : identityChain size states = .ok c) :
    c.Valid ∧ Still c ∧ size = .int c.n ∧ labelsOrDefault states c.n "" = .ok c.states := by
  unfold identityChain at h
  rw [R.bind_ok] at h; obtain ⟨z, hz, h⟩ := h
  rw [R.bind_ok] at h; obtain ⟨l, hl, h⟩ := h
  rw [R.pure_ok] at h
  subst h
  obtain ⟨h1, h2⟩ := validateInteger_ge hz
  have hst : Still (⟨z.toNat, 1, l⟩ : MC K) := fun i j => Matrix.one_apply
  refine ⟨⟨by change 2 ≤ z.toNat; omega, ⟨fun i j => ?_, fun i => ?_⟩, labelsOrDefault_sound hl⟩, hst, ?_, hl⟩
  · rw [hst i j]
    split <;> simp
  · rw [Finset.sum_congr rfl fun j _ => hst i j]
    simp
  · rw [h1]
    congr 1
    change z = (z.toNat : ℤ)
    omega

/-- Every size from two on is accepted, with or without labels. -/
theorem C135_accepts {n : ℕ} (hn : 2 ≤ n) {states : PyVal K} {l : List String}
    (hl : labelsOrDefault states n "" = .ok l) :
    identityChain (.int n) states = .ok ⟨n, 1, l⟩ ∧ identityChain (.int n : PyVal K) .none =
      .ok ⟨n, 1, createLabels n ""⟩ := by
  have key : ∀ {v : PyVal K} {l : List String}, labelsOrDefault v n "" = .ok l →
      identityChain (.int n) v = .ok ⟨n, 1, l⟩ := by
    intro v l hv
    unfold identityChain
    rw [validateInteger_of_ge (by exact_mod_cast hn), R.ok_bind]
    simp only [Int.toNat_natCast]
    rw [hv]
    rfl
  exact ⟨key hl, key rfl⟩

/-- The only list of classes, up to the order. -/
theorem Still.class_eq {c : MC K} (h : Still c) {l : List (List (Fin c.n))} (hl : IsClasses c.p l)
    {C : List (Fin c.n)} (hC : C ∈ l) {i : Fin c.n} (hi : i ∈ C) : C = [i] := by
  have h1 : ∀ j, j ∈ C ↔ j = i := fun j => by
    rw [hl.mem_iff C hC i hi]
    exact ⟨fun hh => h.reach.1 hh.1, fun hh => ⟨h.reach.2 hh, h.reach.2 hh.symm⟩⟩
  exact List.perm_singleton.1 ((List.perm_ext_iff_of_nodup (hl.nodup C hC) (List.nodup_singleton i)).2
    fun j => by rw [h1, List.mem_singleton])

theorem Still.recurrentIdx {c : MC K} (h : Still c) {sccs : List (List (Fin c.n))}
    (hk : IsClasses c.p sccs) : recurrentIdx c.p sccs = (List.finRange c.n).map fun i => [i] := by
  have hrec : ∀ i, RecurrentState c.p i := fun i j hij => h.reach.2 (h.reach.1 hij).symm
  have hmem : ∀ C ∈ Verif.recurrentIdx c.p sccs, ∀ i ∈ C, C = [i] := fun C hC i hi =>
    h.class_eq hk.classesIdx (mem_recurrentIdx.1 hC).1 hi
  have hperm : (Verif.recurrentIdx c.p sccs).Perm ((List.finRange c.n).map fun i => [i]) := by
    refine (List.perm_ext_iff_of_nodup (recurrentIdx_nodup hk)
      ((List.nodup_finRange _).map fun a b hab => by simpa using hab)).2 fun C => ?_
    rw [List.mem_map]
    constructor
    · intro hC
      obtain ⟨i, hi⟩ := List.exists_mem_of_ne_nil C (hk.classesIdx.ne_nil C (mem_recurrentIdx.1 hC).1)
      exact ⟨i, List.mem_finRange i, (hmem C hC i hi).symm⟩
    · rintro ⟨i, -, rfl⟩
      obtain ⟨C, hC, hi⟩ := (recurrentIdx_iff hk i).1 (hrec i)
      rwa [← hmem C hC i hi]
  refine hperm.eq_of_pairwise (le := fun A B => ∀ a ∈ A, ∀ b ∈ B, a < b) ?_ ?_ ?_
  · intro A B hA hB hab hba
    rw [List.mem_map] at hB
    obtain ⟨b, -, rfl⟩ := hB
    obtain ⟨a, -, rfl⟩ := List.mem_map.1 (hperm.mem_iff.1 hA)
    exact absurd (hab a (by simp) b (by simp)) (not_lt.2 (hba b (by simp) a (by simp)).le)
  · refine List.Pairwise.imp_of_mem (fun {A B} hA hB hAB => ?_)
      (sortClasses_before hk.classesIdx (classesIdx_sorted hk)
        (fun C hC => (List.mem_filter.1 hC).1) (hk.classesIdx.nodup_list.filter _))
    obtain ⟨a, -, rfl⟩ := List.mem_map.1 (hperm.mem_iff.1 hA)
    obtain ⟨b, -, rfl⟩ := List.mem_map.1 (hperm.mem_iff.1 hB)
    rcases hAB with hAB | ⟨-, hAB⟩
    · simp at hAB
    · obtain ⟨x, hx, -, hxb⟩ := hAB a (by simp)
      intro y hy z hz
      rw [List.mem_singleton] at hx hy
      subst hx hy
      exact hxb z hz
  · rw [List.pairwise_map]
    refine (List.pairwise_lt_finRange c.n).imp fun {a b} hab x hx y hy => ?_
    rw [List.mem_singleton] at hx hy
    subst hx hy
    exact hab

/-- C135. What the methods say about the chain: every state is absorbing and is a recurrent class of its
own, the chain is absorbing, it is not irreducible, all its periods are one, and its stationary
distributions are the unit vectors in the order of the states. -/
theorem C135_measures {size states : PyVal K} {c : MC K} (h : identityChain size states = .ok c)
    {nx : Nx c.n} (hx : nx.Sound c.p) :
    absorbingStates c = c.states ∧ isAbsorbing c = true ∧
    recurrentClasses c nx.sccs = c.states.map (fun s => [s]) ∧ transientStates c nx.sccs = [] ∧
    isIrreducible c nx.sccs = false ∧ (∀ g ∈ periods c nx, g = 1) ∧
    pi c nx.sccs = .ok ((List.finRange c.n).map fun i j => if j = i then 1 else 0) := by
  obtain ⟨hc, hst, -, -⟩ := C135_identity h
  have hk := hx.sccs
  have hrec : ∀ i, RecurrentState c.p i := fun i j hij => hst.reach.2 (hst.reach.1 hij).symm
  have habs : ∀ i, AbsorbingState c.p i := fun i => by
    unfold AbsorbingState
    rw [hst i i, if_pos rfl]
  have hlabels : (List.finRange c.n).map c.label = c.states := by
    refine List.ext_getElem (by simp [hc.2.2.1]) fun k h1 h2 => ?_
    simp only [List.getElem_map, List.getElem_finRange]
    change c.states.getD k "" = _
    rw [List.getD_eq_getElem?_getD, List.getElem?_eq_getElem h2]
    rfl
  have hone : ∀ i, isclose (c.p i i) 1 = true → c.p i i = 1 := fun i _ => habs i
  have h0 : 0 < c.n := by have := hc.1; omega
  have h1n : 1 < c.n := by have := hc.1; omega
  obtain ⟨ha, ⟨l, hl1, hl2, hl3⟩, -⟩ := C29_is_absorbing_partial hc hone
  refine ⟨?_, ha.2 ⟨⟨⟨0, h0⟩, habs _⟩, fun i => ⟨i, habs i, hst.reach.2 rfl⟩⟩, ?_, ?_, ?_, ?_, ?_⟩
  · rw [hl3, ← hlabels]
    congr 1
    refine List.Perm.eq_of_pairwise (le := (· < ·)) (fun a b _ _ hab hba => absurd hab (not_lt.2 hba.le)) hl1
      (List.pairwise_lt_finRange c.n) ?_
    exact (List.perm_ext_iff_of_nodup (hl1.imp fun hh => hh.ne) (List.nodup_finRange _)).2
      fun i => by simp [hl2, habs]
  · unfold recurrentClasses
    rw [hst.recurrentIdx hk, ← hlabels, List.map_map, List.map_map]
    rfl
  · obtain ⟨-, ⟨t, ht1, -, ht2⟩, -⟩ := C28_states hc hk
    rw [ht1]
    have : t = [] := List.eq_nil_iff_forall_not_mem.2 fun i hi => (ht2 i).1 hi (hrec i)
    rw [this, List.map_nil]
  · refine Bool.eq_false_iff.2 fun hirr => ?_
    have := hst.reach.1 ((C30_irreducible hc hk).1 hirr ⟨0, h0⟩ ⟨1, h1n⟩)
    simp [Fin.ext_iff] at this
  · obtain ⟨ord, ho, hf⟩ := C32_classes_partial hx
    intro g hg
    obtain ⟨C, hC, hCg⟩ : ∃ C ∈ ord, ((∀ i ∈ C, RecurrentState c.p i) → ∀ i ∈ C, IsPeriodOf c.p i g) := by
      have : ∀ {a : List (List (Fin c.n))} {b : List ℕ}, List.Forall₂ (fun C g =>
          ((∀ i ∈ C, RecurrentState c.p i) → ∀ i ∈ C, IsPeriodOf c.p i g) ∧
          ((∃ i ∈ C, TransientState c.p i) → g = 1)) a b → g ∈ b →
          ∃ C ∈ a, ((∀ i ∈ C, RecurrentState c.p i) → ∀ i ∈ C, IsPeriodOf c.p i g) := by
        intro a b hab
        induction hab with
        | nil => simp
        | cons hh _ ih =>
          intro hm
          rcases List.mem_cons.1 hm with rfl | hm
          · exact ⟨_, by simp, hh.1⟩
          · obtain ⟨C, hC, hCg⟩ := ih hm
            exact ⟨C, List.mem_cons_of_mem _ hC, hCg⟩
      exact this hf hg
    obtain ⟨i, hi⟩ := List.exists_mem_of_ne_nil C (ho.ne_nil C hC)
    have hp := hCg (fun i _ => hrec i) i hi
    have h11 : ReachIn c.p 1 i i := ReachIn.step (ReachIn.refl i) (hst.edge.2 rfl)
    exact Nat.dvd_one.1 (hp.1 1 h11)
  · obtain ⟨f, hf1, hf2⟩ := pi_classes hc hk
    rw [hf1, hst.recurrentIdx hk, List.map_map]
    congr 1
    refine List.map_congr_left fun i _ => ?_
    have hi := hf2 [i] (by rw [hst.recurrentIdx hk]; exact List.mem_map.2 ⟨i, List.mem_finRange i, rfl⟩)
    have hd := hi.1.1
    have hz : ∀ j, j ≠ i → f [i] j = 0 := fun j hj => by
      refine le_antisymm (not_lt.1 fun hpos => hj ?_) (hd.1 j)
      simpa using (hi.2 j).1 hpos
    funext j
    change f [i] j = _
    by_cases hj : j = i
    · subst hj
      rw [if_pos rfl, ← hd.2, Finset.sum_eq_single j (fun k _ hkj => hz k hkj) (by simp)]
    · rw [if_neg hj, hz j hj]

/-- C135. Every run that `simulate` returns stays in its first state: without a final state, or with
another one, for all steps; if the final state is the first one, then the run stops after one step. -/
theorem C135_simulate {size states : PyVal K} {c : MC K} (h : identityChain size states = .ok c)
    {choice : Choice K c.n} (hch : Choice.Sound choice) (start : Fin c.n)
    {steps initialState finalState : PyVal K} {s : ℤ} {i f : Option (Fin c.n)}
    (hs : validateInteger steps (some (2, false)) none = .ok s)
    (hi : OptionalState initialState c.states i) (hf : OptionalState finalState c.states f) :
    simulate c choice start steps initialState finalState (.bool true) =
      .ok (.indices (List.replicate (if f = some (i.getD start) then 2 else s.toNat + 1)
        (i.getD start).val)) := by
  obtain ⟨hc, hst, -, -⟩ := C135_identity h
  obtain ⟨hs2, w, hw, h1, -⟩ := C53_simulate hc hch start hs hi hf
  rw [h1]
  have hall : ∀ {l : List (Fin c.n)} {a : Fin c.n}, l.head? = some a → l.IsChain (Edge c.p) →
      ∀ x ∈ l, x = a := by
    intro l
    induction l with
    | nil => intro a ha; simp at ha
    | cons b l ih =>
      intro a ha hl x hx
      obtain rfl : b = a := by simpa using ha
      rcases List.mem_cons.1 hx with rfl | hx'
      · rfl
      · cases l with
        | nil => simp at hx'
        | cons d l =>
          have hd := hst.edge.1 (List.isChain_cons_cons.1 hl).1
          subst hd
          exact ih rfl (List.isChain_cons_cons.1 hl).2 x hx'
  obtain ⟨a, ha⟩ : ∃ a, a = i.getD start := ⟨_, rfl⟩
  rw [← ha] at hw ⊢
  have hrep : w = List.replicate w.length a := List.eq_replicate_iff.2 ⟨rfl, hall hw.starts hw.possible⟩
  have hlen : w.length = if f = some a then 2 else s.toNat + 1 := by
    have hs' : 2 ≤ s.toNat := by omega
    split
    · next hfa =>
      have hfirst := hw.first a hfa
      have hst' := hw.stops
      have hpos : w.length ≠ 0 := fun h0 => by
        have := hw.starts
        rw [List.length_eq_zero_iff.1 h0] at this
        simp at this
      rw [hrep, List.tail_replicate, List.dropLast_replicate, List.mem_replicate] at hfirst
      have h3 : w.length ≤ 2 := by
        by_contra hcon
        exact hfirst ⟨by omega, rfl⟩
      rcases hst' with hl | ⟨g, -, hg⟩
      · omega
      · rw [hrep, List.tail_replicate] at hg
        have : w.length - 1 ≠ 0 := fun h0 => by rw [h0] at hg; simp at hg
        omega
    · next hfa =>
      rcases hw.stops with hl | ⟨g, hg1, hg⟩
      · exact hl
      · rw [hrep, List.tail_replicate] at hg
        have : g = a := by
          have := List.mem_of_getLast? hg
          exact (List.mem_replicate.1 this).2
        exact absurd (by rw [hg1, this]) hfa
  rw [hrep, List.map_replicate, hlen]

/-- A chain of three states; sizes below two and wrong numbers of labels are rejected. -/
example : identityChain (.int 3 : PyVal ℚ) .none = .ok ⟨3, 1, ["1", "2", "3"]⟩ ∧
    identityChain (.int 2 : PyVal ℚ) (.list [.str "a", .str "b"]) = .ok ⟨2, 1, ["a", "b"]⟩ ∧
    (∃ e, identityChain (.int 1 : PyVal ℚ) .none = .error e) ∧
    ∃ e, identityChain (.int 3 : PyVal ℚ) (.list [.str "a", .str "b"]) = .error e :=
  ⟨rfl, rfl, ⟨_, rfl⟩, ⟨_, rfl⟩⟩

end Verif
