import Verif.Props.Agreement
import Verif.Props.Lumped
import Verif.Props.Subchain

/-!
# What a subchain keeps of the measures (C143)

`to_subchain` cuts out the states that can be reached from given ones. A run that starts there never
leaves them, so everything that is computed for these states stays as it was.
-/

set_option linter.unusedSectionVars false

namespace Verif

open MeasureTheory Finset

variable {K : Type} [Field K] [LinearOrder K] [IsStrictOrderedRing K]

/-- `d` consists of the states `ι` of `c`, with unchanged labels and order, and runs of `c` that start in
one of them stay in them. -/
structure SubOf (c d : MC K) (ι : Fin d.n → Fin c.n) : Prop where
  mono : StrictMono ι
  label : ∀ i, d.label i = c.label (ι i)
  prob : ∀ i j, d.p i j = c.p (ι i) (ι j)
  closed : ∀ i y, 0 < c.p (ι i) y → ∃ j, ι j = y

variable {c d : MC K} {ι : Fin d.n → Fin c.n}

theorem SubOf.follows (h : SubOf c d ι) (hc : c.Valid) :
    Follows (fun i j => d.p i j) (fun i j => c.p i j) ι := by
  refine ⟨fun i b => ?_⟩
  by_cases hb : ∃ j, ι j = b
  · obtain ⟨j, rfl⟩ := hb
    rw [Finset.sum_eq_single j]
    · exact (h.prob i j).symm
    · intro x hx hne
      exact absurd (h.mono.injective (Finset.mem_filter.1 hx).2) hne
    · intro hj
      exact (hj (by simp)).elim
  · have : c.p (ι i) b = 0 := le_antisymm (not_lt.1 fun h0 => hb (h.closed i b h0)) (hc.2.1.1 _ _)
    change c.p (ι i) b = _
    rw [this, Finset.sum_eq_zero]
    intro x hx
    exact absurd ⟨x, (Finset.mem_filter.1 hx).2⟩ hb

theorem SubOf.reach (h : SubOf c d ι) (hc : c.Valid) (hd : d.Valid) (i j : Fin d.n) :
    Reach d.p i j ↔ Reach c.p (ι i) (ι j) := by
  refine Iff.trans ?_ ((h.follows hc).reach hd.2.1.1).symm
  constructor
  · exact fun hr => ⟨j, rfl, hr⟩
  · rintro ⟨k, hk, hr⟩
    rwa [h.mono.injective hk] at hr

theorem SubOf.recurrent (h : SubOf c d ι) (hc : c.Valid) (hd : d.Valid) (i : Fin d.n) :
    RecurrentState d.p i ↔ RecurrentState c.p (ι i) := by
  constructor
  · intro hi y hy
    obtain ⟨j, rfl, hj⟩ := ((h.follows hc).reach hd.2.1.1).1 hy
    exact (h.reach hc hd j i).1 (hi j hj)
  · exact fun hi j hj => (h.reach hc hd j i).2 (hi _ ((h.reach hc hd i j).1 hj))

theorem SubOf.reachIn (h : SubOf c d ι) (hc : c.Valid) (hd : d.Valid) {k : ℕ} {i j : Fin d.n} :
    ReachIn d.p k i j ↔ ReachIn c.p k (ι i) (ι j) := by
  constructor
  · exact fun hr => (h.follows hc).reachIn hd.2.1.1 hr
  · intro hr
    obtain ⟨a, ha⟩ : ∃ a, a = ι i := ⟨_, rfl⟩
    obtain ⟨b, hb⟩ : ∃ b, b = ι j := ⟨_, rfl⟩
    rw [← ha, ← hb] at hr
    induction hr generalizing j with
    | refl =>
      rw [h.mono.injective (ha.symm.trans hb)]
      exact ReachIn.refl _
    | step hr he ih =>
      rename_i k x y z
      subst ha
      obtain ⟨m, hm, -⟩ := ((h.follows hc).reach hd.2.1.1).1 hr.reach
      refine (ih (j := m) rfl hm.symm).step ?_
      change 0 < d.p m j
      rw [h.prob, hm, ← hb]
      exact he

/-- C143. The chain that `to_subchain` returns is valid and consists of the states that can be reached from
the given ones. -/
theorem C143_subchain (hc : c.Valid) {v : PyVal K} {d : MC K} (h : toSubchain c v = .ok d) :
    ∃ ι : Fin d.n → Fin c.n, SubOf c d ι ∧ d.Valid ∧
      ∃ ks, validateLabelsCurrent v c.states true none = .ok ks ∧
        ∀ x, (∃ i, ι i = x) ↔ ∃ s : Fin c.n, s.val ∈ ks ∧ Reach c.p s x := by
  obtain ⟨ks, hks, idx, h2, hstr, hmem, rfl, hd⟩ := (C21_subchain hc v d).1 h
  refine ⟨idx.get, ⟨?_, fun i => ?_, fun i j => rfl, fun i y hy => ?_⟩, hd, ks, hks, fun x => ?_⟩
  · exact List.pairwise_iff_get.1 hstr |> fun hh a b hab => hh a b hab
  · unfold MC.label
    rw [List.getD_eq_getElem _ _ (by rw [List.length_map]; exact i.2), List.getElem_map]
    rfl
  · obtain ⟨s, hs, hr⟩ := (hmem _).1 (List.get_mem idx i)
    obtain ⟨j, hj⟩ := List.mem_iff_get.1 ((hmem y).2 ⟨s, hs, hr.tail hy⟩)
    exact ⟨j, hj⟩
  · rw [← hmem]
    exact (List.mem_iff_get).symm

/-! ## Structure -/

/-- Sorted lists of states that correspond to each other. -/
theorem SubOf.filter_labels (h : SubOf c d ι) (hc : c.Valid) (hd : d.Valid) {r : List (Fin c.n)}
    {r' : List (Fin d.n)} (hr : r.Pairwise (· < ·)) (hr' : r'.Pairwise (· < ·))
    (hm : ∀ i, i ∈ r' ↔ ι i ∈ r) :
    r'.map d.label = (r.map c.label).filter (· ∈ d.states) := by
  have hmem : ∀ x : Fin c.n, c.label x ∈ d.states ↔ ∃ i, ι i = x := by
    intro x
    constructor
    · intro hx
      obtain ⟨k, hk, e⟩ := List.getElem_of_mem hx
      have hk' : k < d.n := by rw [← hd.2.2.1]; exact hk
      refine ⟨⟨k, hk'⟩, label_injective hc.2.2.1 hc.2.2.2.1 ?_⟩
      rw [← h.label, ← e]
      unfold MC.label
      rw [List.getD_eq_getElem _ _ hk]
    · rintro ⟨i, rfl⟩
      rw [← h.label]
      unfold MC.label
      rw [List.getD_eq_getElem _ _ (by rw [hd.2.2.1]; exact i.2)]
      exact List.getElem_mem _
  have hl : r'.map ι = r.filter fun x => decide (c.label x ∈ d.states) := by
    have s1 : (r'.map ι).Pairwise (· < ·) := List.pairwise_map.2 (hr'.imp fun hab => h.mono hab)
    have s2 : (r.filter fun x => decide (c.label x ∈ d.states)).Pairwise (· < ·) := hr.filter _
    have hp : (r'.map ι).Perm (r.filter fun x => decide (c.label x ∈ d.states)) := by
      refine (List.perm_ext_iff_of_nodup (s1.imp fun hh => ne_of_lt hh) (s2.imp fun hh => ne_of_lt hh)).2
        fun x => ?_
      rw [List.mem_map, List.mem_filter, decide_eq_true_eq, hmem]
      constructor
      · rintro ⟨i, hi, rfl⟩
        exact ⟨(hm i).1 hi, i, rfl⟩
      · rintro ⟨hx, i, rfl⟩
        exact ⟨i, (hm i).2 hx, rfl⟩
    exact hp.eq_of_pairwise (fun a b _ _ hab hba => absurd hab (not_lt.2 hba.le)) s1 s2
  rw [List.filter_map]
  refine Eq.trans ?_ (congrArg (List.map c.label) hl)
  rw [List.map_map]
  exact List.map_congr_left fun i _ => h.label i

/-- C143, structure. The recurrent, transient and absorbing states of the subchain are those of the chain
that belong to it, in the same order; reachability and periods are unchanged. -/
theorem C143_structure (h : SubOf c d ι) (hc : c.Valid) (hd : d.Valid) {sccs : List (List (Fin c.n))}
    (hs : IsClasses c.p sccs) {sccs' : List (List (Fin d.n))} (hs' : IsClasses d.p sccs') :
    recurrentStates d sccs' = (recurrentStates c sccs).filter (· ∈ d.states) ∧
    transientStates d sccs' = (transientStates c sccs).filter (· ∈ d.states) ∧
    absorbingStates d = (absorbingStates c).filter (· ∈ d.states) ∧
    (isAbsorbing c = true → isAbsorbing d = true) ∧
    (∀ i j, Reach d.p i j ↔ Reach c.p (ι i) (ι j)) ∧
    (∀ i e, IsPeriodOf d.p i e ↔ IsPeriodOf c.p (ι i) e) ∧
    ∀ (t : ℕ) i j, (d.p ^ t) i j = (c.p ^ t) (ι i) (ι j) := by
  refine ⟨?_, ?_, ?_, fun ha => ?_, h.reach hc hd, fun i e => ?_, fun t => ?_⟩
  · refine h.filter_labels hc hd (recurrentStatesIdx_strict hs) (recurrentStatesIdx_strict hs') fun i => ?_
    rw [mem_recurrentStatesIdx hs, mem_recurrentStatesIdx hs']
    exact h.recurrent hc hd i
  · refine h.filter_labels hc hd (transientStatesIdx_strict hs) (transientStatesIdx_strict hs') fun i => ?_
    rw [mem_transientStatesIdx hs, mem_transientStatesIdx hs']
    exact (h.recurrent hc hd i).not
  · refine h.filter_labels hc hd ((List.pairwise_lt_finRange _).filter _)
      ((List.pairwise_lt_finRange _).filter _) fun i => ?_
    refine mem_absorbingIdx.trans (Iff.trans ?_ mem_absorbingIdx.symm)
    rw [h.prob]
  · rw [isAbsorbing_iff] at ha ⊢
    have hall : ∀ i : Fin d.n, ∃ a, isclose (d.p a a) 1 = true ∧ Reach d.p i a := by
      intro i
      obtain ⟨a, ha1, ha2⟩ := ha.2 (ι i)
      obtain ⟨j, rfl, hj⟩ := ((h.follows hc).reach hd.2.1.1).1 ha2
      exact ⟨j, by rw [h.prob]; exact ha1, hj⟩
    obtain ⟨a, ha1, -⟩ := hall ⟨0, by have := hd.1; omega⟩
    exact ⟨⟨a, ha1⟩, hall⟩
  · unfold IsPeriodOf
    have := fun k => h.reachIn hc hd (k := k) (i := i) (j := i)
    constructor
    · exact fun ⟨p1, p2⟩ => ⟨fun k hk => p1 k ((this k).2 hk), fun e' he' => p2 e' fun k hk =>
        he' k ((this k).1 hk)⟩
    · exact fun ⟨p1, p2⟩ => ⟨fun k hk => p1 k ((this k).1 hk), fun e' he' => p2 e' fun k hk =>
        he' k ((this k).2 hk)⟩
  · induction t with
    | zero =>
      intro i j
      simp only [pow_zero, Matrix.one_apply, h.mono.injective.eq_iff]
    | succ t ih =>
      intro i j
      rw [pow_succ', pow_succ', Matrix.mul_apply, Matrix.mul_apply]
      refine Eq.trans ?_ ((h.follows hc).sum i fun b => (c.p ^ t) b (ι j)).symm
      exact Finset.sum_congr rfl fun k _ => by rw [ih]

/-! ## Stationary distributions -/

/-- C143, stationary distributions. `pi` of the subchain lists the stationary distributions of the chain
that live on the states of the subchain. -/
theorem C143_pi (h : SubOf c d ι) (hc : c.Valid) (hd : d.Valid) {sccs : List (List (Fin c.n))}
    (hs : IsClasses c.p sccs) {sccs' : List (List (Fin d.n))} (hs' : IsClasses d.p sccs') :
    ∃ l l', pi c sccs = .ok l ∧ pi d sccs' = .ok l' ∧
      ∀ y, y ∈ l' ↔ ∃ x ∈ l, (∀ b, (∀ j, ι j ≠ b) → x b = 0) ∧ y = fun i => x (ι i) := by
  obtain ⟨l, hl⟩ := pi_ok hc hs
  obtain ⟨l', hl'⟩ := pi_ok hd hs'
  obtain ⟨-, m1⟩ := mem_pi hc hs hl
  obtain ⟨-, m2⟩ := mem_pi hd hs' hl'
  have hcom : ∀ i j, Communicate d.p i j ↔ Communicate c.p (ι i) (ι j) := fun i j =>
    and_congr (h.reach hc hd i j) (h.reach hc hd j i)
  refine ⟨l, l', hl, hl', fun y => ⟨fun hy => ?_, ?_⟩⟩
  · obtain ⟨h1, i, h2, h3⟩ := (m2 y).1 hy
    have hg : ∀ j, groupSum ι y (ι j) = y j := by
      intro j
      unfold groupSum
      rw [Finset.sum_eq_single j]
      · intro x hx hne
        exact absurd (h.mono.injective (Finset.mem_filter.1 hx).2) hne
      · intro hj
        exact (hj (by simp)).elim
    have hg0 : ∀ b, (∀ j, ι j ≠ b) → groupSum ι y b = 0 := by
      intro b hb
      exact Finset.sum_eq_zero fun x hx => absurd (Finset.mem_filter.1 hx).2 (hb x)
    refine ⟨groupSum ι y, (m1 _).2 ⟨(h.follows hc).stationary h1, ι i, (h.recurrent hc hd i).1 h2,
      fun b => ?_⟩, hg0, funext fun j => (hg j).symm⟩
    by_cases hb : ∃ j, ι j = b
    · obtain ⟨j, rfl⟩ := hb
      rw [hg, h3]
      exact hcom i j
    · push Not at hb
      rw [hg0 b hb]
      refine ⟨fun hh => absurd hh (lt_irrefl _), fun hh => ?_⟩
      obtain ⟨j, hj, -⟩ := ((h.follows hc).reach hd.2.1.1).1 hh.1
      exact absurd hj (hb j)
  · rintro ⟨x, hx, hx0, rfl⟩
    obtain ⟨h1, b, h2, h3⟩ := (m1 x).1 hx
    have hb : ∃ i, ι i = b := by
      by_contra hno
      push Not at hno
      have := (h3 b).2 ⟨Relation.ReflTransGen.refl, Relation.ReflTransGen.refl⟩
      rw [hx0 b hno] at this
      exact lt_irrefl _ this
    obtain ⟨i, rfl⟩ := hb
    have hsum : ∀ f : Fin c.n → K, ∑ j, x (ι j) * f (ι j) = ∑ b, x b * f b := fun f =>
      Fintype.sum_of_injective ι h.mono.injective _ _ (fun b hb => by
        rw [hx0 b fun j hj => hb ⟨j, hj⟩, zero_mul]) fun _ => rfl
    refine (m2 _).2 ⟨⟨⟨fun j => h1.1.1 _, ?_⟩, fun j => ?_⟩, i, (h.recurrent hc hd i).2 h2, fun j => ?_⟩
    · have := hsum fun _ => 1
      simp only [mul_one] at this
      exact this.trans h1.1.2
    · simp only [h.prob]
      exact (hsum fun b => c.p b (ι j)).trans (h1.2 _)
    · rw [h3]
      exact (hcom i j).symm

/-! ## Hitting, visits and absorption -/

/-- C143. The hitting probabilities and the hitting times of targets in the subchain. -/
theorem C143_hitting {nnls : Nnls K} (hnn : Nnls.Sound nnls) (h : SubOf c d ι) (hc : c.Valid) (hd : d.Valid)
    {v w : Option (PyVal K)} {S : List (Fin c.n)} {S' : List (Fin d.n)}
    (hS : hittingTargets c v = .ok S) (hS' : hittingTargets d w = .ok S') (hm : ∀ i, i ∈ S' ↔ ι i ∈ S) :
    (∃ g g', hittingProbabilities nnls c v = .ok g ∧ hittingProbabilities nnls d w = .ok g' ∧
      ∀ i, g' i = g (ι i)) ∧
    ∃ r r', hittingTimes nnls c v = .ok r ∧ hittingTimes nnls d w = .ok r' ∧ ∀ i, r' i = r (ι i) := by
  have hset : (fun i => i ∈ S') = fun i => ι i ∈ S := funext fun i => propext (hm i)
  constructor
  · obtain ⟨-, g, h1, h2⟩ := C43_hitting_probabilities hnn hc hS
    obtain ⟨-, g', h1', h2'⟩ := C43_hitting_probabilities hnn hd hS'
    refine ⟨g, g', h1, h1', fun i => ?_⟩
    have := (h.follows hc).hittingProbability hd.2.1 hc.2.1 ((h2 g).2 rfl)
    rw [← hset] at this
    exact (congrFun ((h2' _).1 this) i).symm
  · obtain ⟨-, g, h1, h2⟩ := C42_hitting_times hnn hc hS
    obtain ⟨-, g', h1', h2'⟩ := C42_hitting_times hnn hd hS'
    refine ⟨g, g', h1, h1', fun i => ?_⟩
    have := (h.follows hc).hittingTime hd.2.1 hc.2.1 ((h2 g).2 rfl)
    rw [← hset] at this
    exact (congrFun ((h2' _).1 this) i).symm

/-- C143. The mean numbers of visits. -/
theorem C143_visits (h : SubOf c d ι) (hc : c.Valid) (hd : d.Valid) {sccs : List (List (Fin c.n))}
    (hs : IsClasses c.p sccs) {sccs' : List (List (Fin d.n))} (hs' : IsClasses d.p sccs') :
    ∃ m m', meanNumberVisits c sccs = .ok m ∧ meanNumberVisits d sccs' = .ok m' ∧
      ∀ i j, m' i j = m (ι i) (ι j) := by
  obtain ⟨m, f, h1, h2, h3⟩ := C82_return_probabilities hc hs
  obtain ⟨m', f', h1', h2', h3'⟩ := C82_return_probabilities hd hs'
  have key : ∀ i j, f' i j = f (ι i) (ι j) := by
    intro i j
    obtain ⟨g, hg, -⟩ := exists_hittingProbability (P := c.p) hc.2.1 (· = ι j)
    have hg' := (h.follows hc).hittingProbability hd.2.1 hc.2.1 hg
    have hset : (fun i => ι i = ι j) = fun i => i = j :=
      funext fun i => propext h.mono.injective.eq_iff
    rw [hset] at hg'
    have e1 := congrFun ((h2 (ι j)).unique
      (return_of_hitting (P := fun i j => c.p i j) hc.2.1 hg)) (ι i)
    have e2 := congrFun ((h2' j).unique
      (return_of_hitting (P := fun i j => d.p i j) hd.2.1 hg')) i
    refine e2.trans (Eq.trans ?_ e1.symm)
    exact ((h.follows hc).sum i g).symm
  exact ⟨m, m', h1, h1', fun i j => by rw [h3, h3', key, key]⟩

/-- The mean time to absorption, for all states. -/
theorem exists_absorption_time (hc : c.Valid) (ha : AbsorbingChain c.p) :
    ∃ s, IsPassageTime (fun i j => c.p i j) (fun i => AbsorbingState c.p i) s := by
  classical
  obtain ⟨nnls, hnn⟩ := exists_nnls (K := K)
  have hr := mcHittingTimes_spec hnn (P := c.p) hc.2.1
    (S := (List.finRange c.n).filter fun i => decide (AbsorbingState c.p i))
    ((List.nodup_finRange _).filter _)
  simp only [List.mem_filter, List.mem_finRange, true_and, decide_eq_true_eq] at hr
  obtain ⟨r, hr'⟩ : ∃ r, r = mcHittingTimes nnls c.p
    ((List.finRange c.n).filter fun i => decide (AbsorbingState c.p i)) := ⟨_, rfl⟩
  rw [← hr'] at hr
  obtain ⟨g, hg, -⟩ := exists_hittingProbability (P := c.p) hc.2.1 (fun i => AbsorbingState c.p i)
  have hg1 : g = fun _ => 1 := by
    refine harmonic_unique (P := fun i j => c.p i j) hc.2.1 (B := fun i => AbsorbingState c.p i)
      (b := fun _ => 0) (fun i => ?_) (fun i hi => hg.1.1 i hi)
      (fun i hi => by rw [zero_add]; exact hg.1.2 i hi)
      (fun i _ => by simp only [mul_one, zero_add]; exact (hc.2.1.2 i).symm)
    obtain ⟨b, hb, hr⟩ := ha.2 i
    exact ⟨b, hb, hr⟩
  have hsome : ∀ i, r i = some ((r i).getD 0) := by
    intro i
    cases hi : r i with
    | none =>
      have := (hr.1 g hg i).1 hi
      rw [hg1] at this
      exact absurd this (lt_irrefl _)
    | some u => rfl
  refine ⟨fun i => (r i).getD 0, fun j hj => ?_, fun j hj => ?_⟩
  · simp only [hr.2.1 j hj, Option.getD_some]
  · exact (hr.2.2 j hj _ (hsome j)).2

theorem SubOf.absorbingChain (h : SubOf c d ι) (hc : c.Valid) (hd : d.Valid) (ha : AbsorbingChain c.p) :
    AbsorbingChain d.p := by
  have hall : ∀ i : Fin d.n, ∃ a, AbsorbingState d.p a ∧ Reach d.p i a := by
    intro i
    obtain ⟨a, ha1, ha2⟩ := ha.2 (ι i)
    obtain ⟨j, rfl, hj⟩ := ((h.follows hc).reach hd.2.1.1).1 ha2
    exact ⟨j, (h.prob j j).trans ha1, hj⟩
  obtain ⟨a, ha1, -⟩ := hall ⟨0, by have := hd.1; omega⟩
  exact ⟨⟨a, ha1⟩, hall⟩

/-- C143, absorbing chains. The mean absorption times and the absorption probabilities of the transient
states of the subchain. (The probabilities need the condition of C39 on states that are nearly
absorbing.) -/
theorem C143_absorption_partial (h : SubOf c d ι) (hc : c.Valid) (hd : d.Valid)
    {sccs : List (List (Fin c.n))} (hs : IsClasses c.p sccs) {sccs' : List (List (Fin d.n))}
    (hs' : IsClasses d.p sccs') (ha : AbsorbingChain c.p) (ht : ∃ i, TransientState d.p i) :
    (∃ t t', meanAbsorptionTimes c sccs = .ok (some t) ∧ meanAbsorptionTimes d sccs' = .ok (some t') ∧
      ∀ i i', (transientStatesIdx c.p sccs).get i = ι ((transientStatesIdx d.p sccs').get i') →
        t' i' = t i) ∧
    ((∀ i, isclose (c.p i i) 1 = true → c.p i i = 1) →
      ∃ B B', absorptionProbabilities c sccs = .ok (some B) ∧
        absorptionProbabilities d sccs' = .ok (some B') ∧
        ∀ i i' a a', (transientStatesIdx c.p sccs).get i = ι ((transientStatesIdx d.p sccs').get i') →
          (absorbingIdx c.p).get a = ι ((absorbingIdx d.p).get a') → B' a' i' = B a i) := by
  have ha' := h.absorbingChain hc hd ha
  have ht' : ∃ i, TransientState c.p i := by
    obtain ⟨i, hi⟩ := ht
    exact ⟨ι i, fun hh => hi ((h.recurrent hc hd i).2 hh)⟩
  constructor
  · obtain ⟨t, h1, h2⟩ := absorption_passage hc hs ha ht'
    obtain ⟨t', h1', h2'⟩ := absorption_passage hd hs' ha' ht
    obtain ⟨s, hsp⟩ := exists_absorption_time hc ha
    refine ⟨t, t', h1, h1', fun i i' hi => ?_⟩
    have h3 := (h.follows hc).passage hsp
    have hset : (fun i => AbsorbingState c.p (ι i)) = fun i => AbsorbingState d.p i :=
      funext fun i => propext ⟨fun hh => (h.prob i i).trans hh, fun hh => (h.prob i i).symm.trans hh⟩
    rw [hset] at h3
    rw [h2' _ h3, h2 _ hsp, hi]
  · intro htol
    obtain ⟨B, h1, h2⟩ := absorption_hitting hc hs ha ht' htol
    obtain ⟨B', h1', h2'⟩ := absorption_hitting hd hs' ha' ht fun i hi => by
      rw [h.prob] at hi ⊢
      exact htol _ hi
    refine ⟨B, B', h1, h1', fun i i' a a' hi haa => ?_⟩
    obtain ⟨g, hg, -⟩ := exists_hittingProbability (P := c.p) hc.2.1 (· = (absorbingIdx c.p).get a)
    have hg' := (h.follows hc).hittingProbability hd.2.1 hc.2.1 hg
    have hset : (fun i => ι i = (absorbingIdx c.p).get a) = fun i => i = (absorbingIdx d.p).get a' := by
      rw [haa]
      exact funext fun i => propext h.mono.injective.eq_iff
    rw [hset] at hg'
    rw [h2' _ _ hg', h2 _ _ hg, hi]

/-! ## Runs -/

/-- C143. The expected rewards, for rewards that are the same in both chains. -/
theorem C143_rewards (h : SubOf c d ι) (hc : c.Valid) (hd : d.Valid) {steps rewards rewards' : PyVal K}
    {s : ℤ} {r r' : List K} (hs : validateInteger steps (some (0, true)) none = .ok s)
    (hr : validateRewards rewards c.n = .ok r) (hr' : validateRewards rewards' d.n = .ok r')
    (hm : ∀ i, listVec r' d.n i = listVec r c.n (ι i)) :
    ∃ er er', expectedRewards c steps rewards = .ok er ∧ expectedRewards d steps rewards' = .ok er' ∧
      ∀ i, er' i = er (ι i) := by
  obtain ⟨-, er, h1, h2⟩ := C46_expected_rewards hc hs hr
  obtain ⟨-, er', h1', h2'⟩ := C46_expected_rewards hd hs hr'
  refine ⟨er, er', h1, h1', fun i => ?_⟩
  rw [h2, h2', ← Follows.law (h.follows hc) s.toNat i fun w => ((ι i :: w).map (listVec r c.n)).sum]
  congr 1
  funext w
  simp only [List.map_cons, List.sum_cons, List.map_map, hm]
  congr 3
  funext j
  exact hm j

/-- C143. The first passage probabilities to one state. -/
theorem C143_first_passage (h : SubOf c d ι) (hc : c.Valid) (hd : d.Valid)
    {steps init states init' states' : PyVal K} {s : ℤ} {i j : Fin d.n}
    (hs : validateInteger steps (some (0, true)) none = .ok s)
    (hi : validateLabel init c.states = .ok (ι i).val)
    (hl : validateLabelsCurrent states c.states false none = .ok [(ι j).val])
    (hi' : validateLabel init' d.states = .ok i.val)
    (hl' : validateLabelsCurrent states' d.states false none = .ok [j.val]) :
    ∃ z, firstPassageProbabilities c steps init states = .ok z ∧
      firstPassageProbabilities d steps init' states' = .ok z := by
  obtain ⟨-, z, h1, h2, -⟩ := C48_single_state_partial hc hs hi hl
  obtain ⟨-, z', h1', h2', -⟩ := C48_single_state_partial hd hs hi' hl'
  refine ⟨z, h1, ?_⟩
  rw [h1', h2, h2']
  congr 1
  refine List.map_congr_left fun t _ => ?_
  classical
  have hfv : ∀ w : List (Fin d.n), FirstVisitAtEnd (· = ι j) (w.map ι) ↔ FirstVisitAtEnd (· = j) w := by
    intro w
    induction w with
    | nil => exact Iff.rfl
    | cons a w ih =>
      cases w with
      | nil => exact h.mono.injective.eq_iff
      | cons b w => exact and_congr (not_congr h.mono.injective.eq_iff) ih
  unfold prob
  rw [← Follows.law (h.follows hc) (t + 1) i
    fun w => if FirstVisitAtEnd (· = ι j) w then 1 else 0]
  congr 1
  funext w
  by_cases hw : FirstVisitAtEnd (· = j) w
  · rw [if_pos hw, if_pos ((hfv w).2 hw)]
  · rw [if_neg hw, if_neg fun hh => hw ((hfv w).1 hh)]

/-- C143. With uniform and independent draws, runs of both chains from a state of the subchain have the
same law: every set of sequences of labels has the same probability. -/
theorem C143_simulate {c d : MC ℝ} {ι : Fin d.n → Fin c.n} (h : SubOf c d ι) (hc : c.Valid) (hd : d.Valid)
    [NeZero c.n] [NeZero d.n] {steps init init' : PyVal ℝ} {s : ℤ} {i : Fin d.n} (start : Fin c.n)
    (start' : Fin d.n) (hs : validateInteger steps (some (2, false)) none = .ok s)
    (hi : OptionalState init c.states (some (ι i))) (hi' : OptionalState init' d.states (some i)) :
    ∃ run run' : (ℕ → ℝ) → List String,
      (∀ u, simulate c (cdfChoice u) start steps init .none (.bool false) = .ok (.labels (run u))) ∧
      (∀ u, simulate d (cdfChoice u) start' steps init' .none (.bool false) = .ok (.labels (run' u))) ∧
      ∀ E : Set (List String), Measure.infinitePi (fun _ : ℕ => uniformDraw) {u | run' u ∈ E} =
        Measure.infinitePi (fun _ : ℕ => uniformDraw) {u | run u ∈ E} := by
  classical
  obtain ⟨run, h1, h2⟩ := C116_simulate hc start hs hi (Or.inl ⟨rfl, rfl⟩)
  obtain ⟨run', h1', h2'⟩ := C116_simulate hd start' hs hi' (Or.inl ⟨rfl, rfl⟩)
  refine ⟨fun u => (run u).map c.label, fun u => (run' u).map d.label, fun u => h1 u false,
    fun u => h1' u false, fun E => ?_⟩
  refine (h2' fun w => w.map d.label ∈ E).trans (Eq.trans ?_ (h2 fun w => w.map c.label ∈ E).symm)
  refine congrArg ENNReal.ofReal ?_
  simp only [stopAt_none, Option.getD_some]
  unfold prob
  rw [← Follows.law (h.follows hc) s.toNat i fun w => if (ι i :: w).map c.label ∈ E then (1 : ℝ) else 0]
  congr 1
  funext w
  have hlab : (i :: w).map d.label = (ι i :: w.map ι).map c.label := by
    simp only [List.map_cons, List.map_map, h.label i]
    congr 1
    exact List.map_congr_left fun a _ => h.label a
  simp only [hlab]

theorem SubOf.argMaxes (h : SubOf c d ι) (hc : c.Valid) (i : Fin d.n) :
    argMaxes (c.p (ι i)) = (argMaxes (d.p i)).map ι := by
  have s1 : (Verif.argMaxes (c.p (ι i))).Pairwise (· < ·) := (List.pairwise_lt_finRange _).filter _
  have s2 : ((Verif.argMaxes (d.p i)).map ι).Pairwise (· < ·) :=
    List.pairwise_map.2 (((List.pairwise_lt_finRange _).filter _).imp fun hab => h.mono hab)
  refine List.Perm.eq_of_pairwise (fun a b _ _ hab hba => absurd hab (not_lt.2 hba.le)) s1 s2
    ((List.perm_ext_iff_of_nodup (s1.imp fun hh => ne_of_lt hh) (s2.imp fun hh => ne_of_lt hh)).2
    fun x => ?_)
  rw [mem_argMaxes, List.mem_map]
  constructor
  · intro hx
    have hpos : 0 < c.p (ι i) x := by
      obtain ⟨y, -, hy⟩ := Finset.exists_lt_of_sum_lt (s := univ) (f := fun _ => 0)
        (g := fun y => c.p (ι i) y) (by rw [Finset.sum_const_zero, hc.2.1.2 (ι i)]; exact one_pos)
      exact lt_of_lt_of_le hy (hx y)
    obtain ⟨j, rfl⟩ := h.closed i x hpos
    refine ⟨j, (mem_argMaxes _ _).2 fun l => ?_, rfl⟩
    rw [h.prob, h.prob]
    exact hx _
  · rintro ⟨j, hj, rfl⟩ y
    rw [mem_argMaxes] at hj
    by_cases hy : 0 < c.p (ι i) y
    · obtain ⟨l, rfl⟩ := h.closed i y hy
      rw [← h.prob, ← h.prob]
      exact hj l
    · exact (not_lt.1 hy).trans (hc.2.1.1 _ _)

theorem SubOf.predictLoop (h : SubOf c d ι) (hc : c.Valid) (k : ℕ) (i : Fin d.n) :
    (predictLoop d.p k i).map (List.map ι) = predictLoop c.p k (ι i) := by
  induction k generalizing i with
  | zero => rfl
  | succ k ih =>
    unfold Verif.predictLoop
    rw [h.argMaxes hc i]
    match hm : Verif.argMaxes (d.p i) with
    | [] => rfl
    | [j] =>
      simp only [List.map_cons, List.map_nil]
      rw [← ih j, Option.map_map, Option.map_map]
      rfl
    | _ :: _ :: _ => rfl

/-- C143. The predictions from a state of the subchain: the same labels, or `None` for both chains. -/
theorem C143_predict (h : SubOf c d ι) (hc : c.Valid) {steps init init' : PyVal K} {s : ℤ} {i : Fin d.n}
    (hs : validateInteger steps (some (0, true)) none = .ok s)
    (hi : validateLabel init c.states = .ok (ι i).val) (hi' : validateLabel init' d.states = .ok i.val) :
    predict d steps init' (.bool false) = predict c steps init (.bool false) := by
  rw [predict_run hs hi, predict_run hs hi']
  unfold mcPredict
  rw [← h.predictLoop hc s.toNat i]
  cases hw : Verif.predictLoop d.p s.toNat i with
  | none => rfl
  | some w =>
    change (Except.ok (some (render d.states false (i :: w))) : R (Option Output)) =
      .ok (some (render c.states false (ι i :: w.map ι)))
    have hl : ∀ a : Fin d.n, d.states.getD a.val "" = c.states.getD (ι a).val "" := h.label
    rw [← List.map_cons]
    unfold render
    rw [if_neg (by decide), if_neg (by decide), List.map_map]
    congr 3
    exact List.map_congr_left fun a _ => hl a

/-- The hypotheses are met: in a chain of three states the last two are cut out. -/
example : ∃ c d : MC ℚ, c.Valid ∧ toSubchain c (.list [.int 2]) = .ok d := by
  refine ⟨exReversed, _, by decide +kernel, rfl⟩

end Verif
