import Verif.Props.Lump
import Verif.Props.Relabel
import Verif.Props.Spectral

/-!
# Lumping keeps the measures of the groups (C136)

The chain that `lump` returns describes the groups of states of the given chain. Here: its measures are
those of the groups, for every measure that depends only on the groups.
-/

set_option linter.unusedSectionVars false

namespace Verif

open MeasureTheory Finset

/-! ## Projections of transition matrices -/

section spec

variable {K : Type*} [Field K] [LinearOrder K] [IsStrictOrderedRing K]
variable {ι κ : Type*} [Fintype ι] [Fintype κ] [DecidableEq κ]

/-- The image under `f` of the chain `P` moves like the chain `Q`. -/
structure Follows (P : ι → ι → K) (Q : κ → κ → K) (f : ι → κ) : Prop where
  prob : ∀ i b, Q (f i) b = ∑ x with f x = b, P i x

/-- `Q` is the transition matrix of the groups of the chain `P`; `f` gives the group of each state. -/
structure Projects (P : ι → ι → K) (Q : κ → κ → K) (f : ι → κ) : Prop extends Follows P Q f where
  onto : Function.Surjective f

/-- The sums of a vector over the groups. -/
def groupSum (f : ι → κ) (x : ι → K) (b : κ) : K := ∑ i with f i = b, x i

variable {P : ι → ι → K} {Q : κ → κ → K} {f : ι → κ}

theorem sum_groupSum (f : ι → κ) (x : ι → K) (v : κ → K) :
    ∑ b, groupSum f x b * v b = ∑ i, x i * v (f i) := by
  rw [← Finset.sum_fiberwise (s := Finset.univ) (g := f)]
  refine Finset.sum_congr rfl fun b _ => ?_
  unfold groupSum
  rw [Finset.sum_mul]
  refine Finset.sum_congr rfl fun i hi => ?_
  rw [(Finset.mem_filter.1 hi).2]

theorem Follows.sum (h : Follows P Q f) (i : ι) (v : κ → K) :
    ∑ b, Q (f i) b * v b = ∑ j, P i j * v (f j) := by
  rw [← sum_groupSum f (P i) v]
  exact Finset.sum_congr rfl fun b _ => by rw [h.prob]; rfl

theorem Follows.edge (h : Follows P Q f) (hP : ∀ i j, 0 ≤ P i j) {i : ι} {b : κ} :
    Edge Q (f i) b ↔ ∃ j, f j = b ∧ Edge P i j := by
  unfold Edge
  rw [h.prob]
  constructor
  · intro hpos
    by_contra hno
    push Not at hno
    refine absurd hpos (not_lt.2 (le_of_eq (Finset.sum_eq_zero fun x hx => ?_)))
    exact le_antisymm (hno x (Finset.mem_filter.1 hx).2) (hP i x)
  · rintro ⟨j, hj, hpos⟩
    exact lt_of_lt_of_le hpos (Finset.single_le_sum (f := fun x => P i x) (fun x _ => hP i x)
      (Finset.mem_filter.2 ⟨Finset.mem_univ j, hj⟩))

theorem Follows.reach (h : Follows P Q f) (hP : ∀ i j, 0 ≤ P i j) {i : ι} {b : κ} :
    Reach Q (f i) b ↔ ∃ j, f j = b ∧ Reach P i j := by
  constructor
  · intro hr
    induction hr with
    | refl => exact ⟨i, rfl, Relation.ReflTransGen.refl⟩
    | tail _ he ih =>
      obtain ⟨j, rfl, hj⟩ := ih
      obtain ⟨k, hk, hjk⟩ := (h.edge hP).1 he
      exact ⟨k, hk, hj.tail hjk⟩
  · rintro ⟨j, rfl, hr⟩
    induction hr with
    | refl => exact Relation.ReflTransGen.refl
    | tail _ he ih => exact ih.tail ((h.edge hP).2 ⟨_, rfl, he⟩)

theorem Follows.reachIn (h : Follows P Q f) (hP : ∀ i j, 0 ≤ P i j) {k : ℕ} {i j : ι}
    (hr : ReachIn P k i j) : ReachIn Q k (f i) (f j) := by
  induction hr with
  | refl => exact ReachIn.refl _
  | step _ he ih => exact ih.step ((h.edge hP).2 ⟨_, rfl, he⟩)

theorem Projects.irreducible (h : Projects P Q f) (hP : ∀ i j, 0 ≤ P i j) (hi : Irreducible P) :
    Irreducible Q := by
  intro a b
  obtain ⟨i, rfl⟩ := h.onto a
  obtain ⟨j, rfl⟩ := h.onto b
  exact (h.reach hP).2 ⟨j, rfl, hi i j⟩

/-- The period of the groups divides the period of the chain. -/
theorem Follows.period (h : Follows P Q f) (hP : ∀ i j, 0 ≤ P i j) {i : ι} {a b : ℕ}
    (ha : IsPeriodOf P i a) (hb : IsPeriodOf Q (f i) b) : b ∣ a :=
  ha.2 b fun k hk => hb.1 k (h.reachIn hP hk)

theorem Projects.ergodic (h : Projects P Q f) (hP : ∀ i j, 0 ≤ P i j) (he : Ergodic P) : Ergodic Q := by
  refine ⟨h.irreducible hP he.1, fun b => ?_⟩
  obtain ⟨i, rfl⟩ := h.onto b
  exact ⟨fun k _ => one_dvd k, fun e hh => (he.2 i).2 e fun k hk => hh k (h.reachIn hP hk)⟩

theorem Follows.stationary (h : Follows P Q f) {x : ι → K} (hx : IsStationary P x) :
    IsStationary Q (groupSum f x) := by
  refine ⟨⟨fun b => Finset.sum_nonneg fun i _ => hx.1.1 i, ?_⟩, fun b => ?_⟩
  · have := sum_groupSum f x fun _ => 1
    simp only [mul_one] at this
    rw [this, hx.1.2]
  · rw [sum_groupSum f x fun a => Q a b]
    simp only [h.prob, Finset.mul_sum]
    rw [Finset.sum_comm]
    exact Finset.sum_congr rfl fun j _ => hx.2 j

theorem Follows.balance (h : Follows P Q f) {x : ι → K} (hx : DetailedBalance P x) :
    DetailedBalance Q (groupSum f x) := by
  have key : ∀ a b, groupSum f x a * Q a b = ∑ i with f i = a, ∑ j with f j = b, x i * P i j := by
    intro a b
    unfold groupSum
    rw [Finset.sum_mul]
    refine Finset.sum_congr rfl fun i hi => ?_
    rw [← (Finset.mem_filter.1 hi).2, h.prob, Finset.mul_sum]
  intro a b
  rw [key, key, Finset.sum_comm]
  exact Finset.sum_congr rfl fun j _ => Finset.sum_congr rfl fun i _ => hx i j

theorem Follows.passage (h : Follows P Q f) {S : κ → Prop} {t : κ → K} (ht : IsPassageTime Q S t) :
    IsPassageTime P (fun i => S (f i)) fun i => t (f i) :=
  ⟨fun _ hi => ht.1 _ hi, fun i hi => (ht.2 _ hi).trans (congrArg (1 + ·) (h.sum i t))⟩

theorem Follows.committor (h : Follows P Q f) {A B : κ → Prop} {q : κ → K} (hq : IsCommittor Q A B q) :
    IsCommittor P (fun i => A (f i)) (fun i => B (f i)) fun i => q (f i) :=
  ⟨fun _ hi => hq.1 _ hi, fun _ hi => hq.2.1 _ hi, fun _ => hq.2.2.1 _, fun i ha hb =>
    (hq.2.2.2 _ ha hb).trans (h.sum i q)⟩

theorem Follows.hittingSolution (h : Follows P Q f) {S : κ → Prop} {g : κ → K}
    (hg : IsHittingSolution Q S g) : IsHittingSolution P (fun i => S (f i)) fun i => g (f i) :=
  ⟨fun _ hi => hg.1 _ hi, fun i hi => (hg.2 _ hi).trans (h.sum i g)⟩

end spec

section fin

variable {K : Type} [Field K] [LinearOrder K] [IsStrictOrderedRing K]
variable {m n : ℕ} {P : Matrix (Fin n) (Fin n) K} {Q : Matrix (Fin m) (Fin m) K} {f : Fin n → Fin m}

/-- The probability of visiting a union of groups depends only on the group of the start. -/
theorem Follows.hittingProbability (h : Follows (fun i j => P i j) (fun i j => Q i j) f)
    (hP : IsStochastic fun i j => P i j) (hQ : IsStochastic fun i j => Q i j) {S : Fin m → Prop}
    {g : Fin m → K} (hg : IsHittingProbability (fun i j => Q i j) S g) :
    IsHittingProbability (fun i j => P i j) (fun i => S (f i)) fun i => g (f i) := by
  obtain ⟨g', hg', h0'⟩ := exists_hittingProbability hQ S
  obtain rfl := hittingProbability_unique hg hg'
  obtain ⟨u, hu, hu0⟩ := exists_hittingProbability hP fun i => S (f i)
  have hsol := h.hittingSolution hg.1
  have hreach : ∀ i, (∃ s, S s ∧ Reach (fun i j => Q i j) (f i) s) ↔
      ∃ s, S (f s) ∧ Reach (fun i j => P i j) i s := by
    intro i
    constructor
    · rintro ⟨s, hs, hr⟩
      obtain ⟨j, rfl, hj⟩ := (h.reach hP.1).1 hr
      exact ⟨j, hs, hj⟩
    · rintro ⟨s, hs, hr⟩
      exact ⟨f s, hs, (h.reach hP.1).2 ⟨s, rfl, hr⟩⟩
  have key : (fun i => g (f i)) = u := by
    refine harmonic_unique hP (B := fun i => S (f i) ∨ ¬ ∃ s, S (f s) ∧ Reach (fun i j => P i j) i s)
      (b := fun _ => 0) (fun i => ?_) (fun i hi => ?_) (fun i hi => ?_) (fun i hi => ?_)
    · by_cases hi : ∃ s, S (f s) ∧ Reach (fun i j => P i j) i s
      · obtain ⟨s, hs, hr⟩ := hi
        exact ⟨s, Or.inl hs, hr⟩
      · exact ⟨i, Or.inr hi, Relation.ReflTransGen.refl⟩
    · rcases hi with hi | hi
      · exact (hsol.1 i hi).trans (hu.1.1 i hi).symm
      · exact (h0' (f i) fun hh => hi ((hreach i).1 hh)).trans (hu0 i hi).symm
    · rw [zero_add]
      exact hsol.2 i fun hh => hi (Or.inl hh)
    · rw [zero_add]
      exact hu.1.2 i fun hh => hi (Or.inl hh)
  rw [key]
  exact hu

theorem Follows.hittingTime (h : Follows (fun i j => P i j) (fun i j => Q i j) f)
    (hP : IsStochastic fun i j => P i j) (hQ : IsStochastic fun i j => Q i j) {S : Fin m → Prop}
    {r : Fin m → Option K} (hr : IsHittingTime (fun i j => Q i j) S r) :
    IsHittingTime (fun i j => P i j) (fun i => S (f i)) fun i => r (f i) := by
  refine ⟨fun u hu i => ?_, fun i hi => hr.2.1 _ hi, fun i hi t ht => ?_⟩
  · obtain ⟨g, hg, -⟩ := exists_hittingProbability hQ S
    rw [hr.1 g hg, ← hittingProbability_unique (h.hittingProbability hP hQ hg) hu]
  · obtain ⟨h1, h2⟩ := hr.2.2 (f i) hi t ht
    refine ⟨fun j hj => h1 _ ((h.edge hP.1).2 ⟨j, rfl, hj⟩), ?_⟩
    rw [h2, h.sum i fun b => (r b).getD 0]

end fin

/-! ## The chain that `lump` returns -/

variable {K : Type} [Field K] [LinearOrder K] [IsStrictOrderedRing K]

/-- `d` is the chain of the groups of the states of `c`; `f` gives the group of each state. -/
def Lumps (c d : MC K) (f : Fin c.n → Fin d.n) : Prop :=
  Projects (fun i j => c.p i j) (fun i j => d.p i j) f

theorem nonBlank_intercalate {l : List String} (hne : l ≠ []) (h : ∀ s ∈ l, nonBlank s = true) :
    nonBlank (",".intercalate l) = true := by
  match l, hne with
  | [a], _ =>
    rw [String.intercalate_singleton]
    exact h a (by simp)
  | a :: b :: l, _ =>
    rw [String.intercalate_cons_cons]
    have ha := h a (by simp)
    unfold nonBlank at ha ⊢
    simp only [String.toList_append, List.any_append, ha, Bool.true_or]

/-- C136. The chain that `lump` returns is the chain of the given groups. It is valid if its labels are
distinct (they may fail to be, see `C22_duplicate_labels`). -/
theorem C136_lump {c : MC K} (hc : c.Valid) {v : PyVal K} {g : List (List ℕ)} {d : MC K}
    (hv : validatePartitions v c.states = .ok g) (h : lump c v = .ok d) :
    ∃ f : Fin c.n → Fin d.n, Lumps c d f ∧ d.n = g.length ∧
      (∀ (i : Fin c.n) (b : Fin d.n), f i = b ↔ ∃ A, g[b.val]? = some A ∧ i.val ∈ A) ∧
      (d.states.Nodup → d.Valid) := by
  obtain ⟨hmap, hflat, hiff, hres⟩ := C22_lump_partial hc hv
  obtain ⟨⟨hne, -, -⟩, -⟩ := hiff.1 ⟨d, h⟩
  obtain ⟨hst, h2, -, hn, f, hf, hp, -, hlab⟩ := hres d h
  have hlen : d.n = g.length := by rw [hn, List.length_map]
  have hget : ∀ b : Fin d.n, g[b.val]? =
      some (((g.map (toStates c.n)).get (Fin.cast hn b)).map Fin.val) := by
    intro b
    have hb : b.val < (g.map (toStates c.n)).length := by rw [← hn]; exact b.2
    conv_lhs => rw [← hmap]
    rw [List.getElem?_map, List.getElem?_eq_getElem hb]
    rfl
  refine ⟨f, ⟨⟨fun i b => (hp i b).trans ?_⟩, fun b => ?_⟩, hlen, fun i b => ?_, fun hnd => ?_⟩
  · unfold moveInto
    refine Finset.sum_congr ?_ fun _ _ => rfl
    ext x
    simp only [Finset.mem_filter, Finset.mem_univ, true_and]
    exact (hf x b).symm
  · obtain ⟨i, hi⟩ := List.exists_mem_of_ne_nil _ (hne _ (List.get_mem _ (Fin.cast hn b)))
    exact ⟨i, (hf i b).2 hi⟩
  · rw [hf, hget]
    constructor
    · exact fun hi => ⟨_, rfl, List.mem_map.2 ⟨i, hi, rfl⟩⟩
    · rintro ⟨A, hA, hi⟩
      cases hA
      obtain ⟨j, hj, hji⟩ := List.mem_map.1 hi
      rwa [Fin.ext hji] at hj
  · refine ⟨h2, hst, ?_, hnd, fun s hs => ?_⟩
    · rw [hlab, List.length_map, hn]
    · rw [hlab] at hs
      obtain ⟨A, hA, rfl⟩ := List.mem_map.1 hs
      refine nonBlank_intercalate (by simpa using hne A hA) fun s hs => ?_
      obtain ⟨i, -, rfl⟩ := List.mem_map.1 hs
      refine hc.2.2.2.2 _ ?_
      unfold MC.label
      have hi : i.val < c.states.length := by rw [hc.2.2.1]; exact i.2
      rw [List.getD_eq_getElem _ _ hi]
      exact List.getElem_mem hi

variable {c d : MC K} {f : Fin c.n → Fin d.n}

/-- C136. If the chain is irreducible, ergodic or regular, then so is the chain of the groups; the period
of the groups divides that of an irreducible chain. -/
theorem C136_flags (hc : c.Valid) (hd : d.Valid) (h : Lumps c d f) {nx : Nx c.n} (hx : nx.Sound c.p)
    {nx' : Nx d.n} (hx' : nx'.Sound d.p) :
    (isIrreducible c nx.sccs = true → isIrreducible d nx'.sccs = true ∧ period d nx' ∣ period c nx) ∧
    (isErgodic c nx = true → isErgodic d nx' = true) ∧ (isRegular c = true → isRegular d = true) := by
  have hP : ∀ i j, 0 ≤ (fun i j => c.p i j) i j := hc.2.1.1
  have herg : isErgodic c nx = true → isErgodic d nx' = true := fun he =>
    (isErgodic_iff hd hx').2 (h.ergodic hP ((isErgodic_iff hc hx).1 he))
  refine ⟨fun hi => ?_, herg, fun hr => ?_⟩
  · have hi1 := (C30_irreducible hc hx.sccs).1 hi
    have hi2 : Irreducible d.p := h.irreducible hP hi1
    obtain ⟨a, -, ha, -, hpa, -⟩ := C32_irreducible_partial hc hx hi1
    obtain ⟨b, -, hb, -, hpb, -⟩ := C32_irreducible_partial hd hx' hi2
    refine ⟨(C30_irreducible hd hx'.sccs).2 hi2, ?_⟩
    rw [hpa, hpb]
    have h0 : 0 < c.n := by have := hc.1; omega
    exact h.period hP (ha ⟨0, h0⟩) (hb _)
  · exact (C88_ergodic_iff_regular hd hx').1 (herg ((C88_ergodic_iff_regular hc hx).2 hr))

/-- C136. The stationary distributions that `pi` lists for the groups are the sums over the groups of those
that it lists for the chain. -/
theorem C136_pi (hc : c.Valid) (hd : d.Valid) (h : Lumps c d f) {sccs : List (List (Fin c.n))}
    (hs : IsClasses c.p sccs) {sccs' : List (List (Fin d.n))} (hs' : IsClasses d.p sccs') :
    ∃ l l', pi c sccs = .ok l ∧ pi d sccs' = .ok l' ∧ ∀ y, y ∈ l' ↔ ∃ x ∈ l, y = groupSum f x := by
  have hP : ∀ i j, 0 ≤ (fun i j => c.p i j) i j := hc.2.1.1
  obtain ⟨l, hl⟩ := pi_ok hc hs
  obtain ⟨l', hl'⟩ := pi_ok hd hs'
  refine ⟨l, l', hl, hl', fun y => ?_⟩
  obtain ⟨-, m1⟩ := mem_pi hc hs hl
  obtain ⟨-, m2⟩ := mem_pi hd hs' hl'
  have hrec : ∀ i, RecurrentState c.p i → RecurrentState d.p (f i) := by
    intro i hi b hb
    obtain ⟨j, rfl, hj⟩ := (h.reach hP).1 hb
    exact (h.reach hP).2 ⟨i, rfl, hi j hj⟩
  have hpos : ∀ {x : Fin c.n → K} {i : Fin c.n}, IsStationary c.p x → RecurrentState c.p i →
      (∀ j, 0 < x j ↔ Communicate c.p i j) → ∀ b, 0 < groupSum f x b ↔ Communicate d.p (f i) b := by
    intro x i hx hi hsup b
    constructor
    · intro hb
      obtain ⟨j, hj, hxj⟩ : ∃ j, f j = b ∧ 0 < x j := by
        by_contra hno
        push Not at hno
        refine absurd hb (not_lt.2 (le_of_eq (Finset.sum_eq_zero fun j hj => ?_)))
        exact le_antisymm (hno j (Finset.mem_filter.1 hj).2) (hx.1.1 j)
      obtain ⟨h1, h2⟩ := (hsup j).1 hxj
      exact ⟨(h.reach hP).2 ⟨j, hj, h1⟩, by rw [← hj]; exact (h.reach hP).2 ⟨i, rfl, h2⟩⟩
    · rintro ⟨h1, -⟩
      obtain ⟨j, hj, hr⟩ := (h.reach hP).1 h1
      exact lt_of_lt_of_le ((hsup j).2 ⟨hr, hi j hr⟩) (Finset.single_le_sum (f := x)
        (fun k _ => hx.1.1 k) (Finset.mem_filter.2 ⟨Finset.mem_univ j, hj⟩))
  have hproj : ∀ x ∈ l, groupSum f x ∈ l' := by
    intro x hx
    obtain ⟨h1, i, hi, hsup⟩ := (m1 x).1 hx
    exact (m2 _).2 ⟨h.stationary h1, f i, hrec i hi, hpos h1 hi hsup⟩
  constructor
  · intro hy
    obtain ⟨hst, b, hb, hsup⟩ := (m2 y).1 hy
    obtain ⟨i, rfl⟩ := h.onto b
    obtain ⟨j, hij, hj⟩ := exists_recurrent_reach (fun i j => c.p i j) i
    obtain ⟨u, hu1, hu2⟩ := pi_classes hc hs
    obtain ⟨C, hC, hjC⟩ := (recurrentIdx_iff hs j).1 hj
    have hxl : u C ∈ l := by
      rw [hl] at hu1
      cases hu1
      exact List.mem_map.2 ⟨C, hC, rfl⟩
    refine ⟨u C, hxl, ?_⟩
    obtain ⟨h1, k, hk, hsupk⟩ := (m1 _).1 hxl
    have hkj : Communicate c.p k j := (hsupk j).1 (((hu2 C hC).2 j).2 hjC)
    have hfi : Communicate d.p (f i) (f k) := by
      have h2 : Reach d.p (f i) (f j) := (h.reach hP).2 ⟨j, rfl, hij⟩
      have h3 : Reach d.p (f j) (f k) := (h.reach hP).2 ⟨k, rfl, hkj.2⟩
      exact ⟨h2.trans h3, hb _ (h2.trans h3)⟩
    have h4 : 0 < groupSum f (u C) (f k) := (hpos h1 hk hsupk (f k)).2
      ⟨Relation.ReflTransGen.refl, Relation.ReflTransGen.refl⟩
    have h5 : 0 < y (f k) := (hsup (f k)).2 hfi
    obtain ⟨u', hu1', hu2'⟩ := pi_classes hd hs'
    rw [hl'] at hu1'
    cases hu1'
    obtain ⟨D, hD, rfl⟩ := List.mem_map.1 hy
    obtain ⟨E, hE, hEe⟩ := List.mem_map.1 (hproj _ hxl)
    rw [← hEe] at h4 ⊢
    have hDE : D = E := by
      by_contra hne
      have : Std.Symm (List.Disjoint (α := Fin d.n)) := ⟨fun _ _ h => h.symm⟩
      exact (recurrentIdx_disjoint hs').forall hD hE hne (((hu2' D hD).2 _).1 h5) (((hu2' E hE).2 _).1 h4)
    rw [hDE]
  · rintro ⟨x, hx, rfl⟩
    exact hproj x hx

/-- C136. If the chain satisfies detailed balance for its only stationary distribution, then
`is_reversible` is true for the groups. -/
theorem C136_reversible (hc : c.Valid) (hd : d.Valid) (h : Lumps c d f) (hirr : Irreducible c.p)
    {x : Fin c.n → K} (hx : IsStationary c.p x) (hb : DetailedBalance c.p x)
    {sccs' : List (List (Fin d.n))} (hs' : IsClasses d.p sccs') : isReversible d sccs' = .ok true := by
  have hirr' : Irreducible d.p := h.irreducible hc.2.1.1 hirr
  obtain ⟨y, -, -, -, h4⟩ := C34_stationary hd hs' hirr'
  have hst : IsStationary d.p (groupSum f x) := h.stationary hx
  obtain ⟨b, h5, -, h6⟩ := (C37_reversible_partial hd hs').1 _ hst
    fun z hz => (h4 z hz).trans (h4 _ hst).symm
  rw [h5, h6 (h.balance hb)]

/-! ## Hitting and passage -/

/-- C136. The hitting probabilities and the hitting times of a union of groups are those of the groups. -/
theorem C136_hitting {nnls : Nnls K} (hnn : Nnls.Sound nnls) (hc : c.Valid) (hd : d.Valid)
    (h : Lumps c d f) {v w : Option (PyVal K)} {S : List (Fin c.n)} {S' : List (Fin d.n)}
    (hS : hittingTargets c v = .ok S) (hS' : hittingTargets d w = .ok S') (hm : ∀ i, i ∈ S ↔ f i ∈ S') :
    (∃ g g', hittingProbabilities nnls c v = .ok g ∧ hittingProbabilities nnls d w = .ok g' ∧
      ∀ i, g i = g' (f i)) ∧
    ∃ r r', hittingTimes nnls c v = .ok r ∧ hittingTimes nnls d w = .ok r' ∧ ∀ i, r i = r' (f i) := by
  have hset : (fun i => i ∈ S) = fun i => f i ∈ S' := funext fun i => propext (hm i)
  constructor
  · obtain ⟨-, g, h1, h2⟩ := C43_hitting_probabilities hnn hc hS
    obtain ⟨-, g', h1', h2'⟩ := C43_hitting_probabilities hnn hd hS'
    refine ⟨g, g', h1, h1', fun i => ?_⟩
    have := Follows.hittingProbability h.toFollows hc.2.1 hd.2.1 ((h2' g').2 rfl)
    rw [← hset] at this
    exact (congrFun ((h2 _).1 this) i).symm
  · obtain ⟨-, g, h1, h2⟩ := C42_hitting_times hnn hc hS
    obtain ⟨-, g', h1', h2'⟩ := C42_hitting_times hnn hd hS'
    refine ⟨g, g', h1, h1', fun i => ?_⟩
    have := Follows.hittingTime h.toFollows hc.2.1 hd.2.1 ((h2' g').2 rfl)
    rw [← hset] at this
    exact (congrFun ((h2 _).1 this) i).symm

/-- C136. The mean first passage times of an ergodic chain to a union of groups are those of the groups, and
so are the mean times between two unions of groups. -/
theorem C136_passage (hc : c.Valid) (hd : d.Valid) (h : Lumps c d f) {nx : Nx c.n} (hx : nx.Sound c.p)
    {nx' : Nx d.n} (hx' : nx'.Sound d.p) (he : Ergodic c.p) :
    (∀ {v w : PyVal K} {l l' : List ℕ}, validateLabelsCurrent v c.states false none = .ok l →
      validateLabelsCurrent w d.states false none = .ok l' → (∀ i : Fin c.n, i.val ∈ l ↔ (f i).val ∈ l') →
      ∃ t t', meanFirstPassageTimesTo c nx v = .ok (some t) ∧
        meanFirstPassageTimesTo d nx' w = .ok (some t') ∧ ∀ i, t i = t' (f i)) ∧
    ∀ {v1 v2 w1 w2 : PyVal K} {a b a' b' : List ℕ}, validateLabelsCurrent v1 c.states true none = .ok a →
      validateLabelsCurrent v2 c.states true none = .ok b →
      validateLabelsCurrent w1 d.states true none = .ok a' →
      validateLabelsCurrent w2 d.states true none = .ok b' →
      (∀ i : Fin c.n, i.val ∈ a ↔ (f i).val ∈ a') → (∀ i : Fin c.n, i.val ∈ b ↔ (f i).val ∈ b') →
      ∃ t, meanFirstPassageTimesBetween c nx v1 v2 = .ok (some t) ∧
        meanFirstPassageTimesBetween d nx' w1 w2 = .ok (some t) := by
  have he' : Ergodic d.p := h.ergodic hc.2.1.1 he
  constructor
  · intro v w l l' hl hl' hm
    obtain ⟨t, h1, h2⟩ := C44_targets hc hx he hl
    obtain ⟨t', h1', h2'⟩ := C44_targets hd hx' he' hl'
    refine ⟨t, t', h1, h1', fun i => ?_⟩
    have := Follows.passage h.toFollows ((h2' t').2 rfl)
    have hset : (fun i : Fin c.n => i.val ∈ l) = fun i => (f i).val ∈ l' := funext fun i => propext (hm i)
    rw [← hset] at this
    exact (congrFun ((h2 _).1 this) i).symm
  · intro v1 v2 w1 w2 a b a' b' ha hb ha' hb' hma hmb
    obtain ⟨x, t, h1, h2, h3, -⟩ := C99_between hc hx he ha hb
    obtain ⟨x', t', h1', h2', h3', -⟩ := C99_between hd hx' he' ha' hb'
    refine ⟨_, h3, ?_⟩
    rw [h3']
    have ex : x' = groupSum f x := ((h1' _).1 (Follows.stationary h.toFollows ((h1 x).2 rfl))).symm
    have et : (fun i => t' (f i)) = t := by
      have := Follows.passage h.toFollows ((h2' t').2 rfl)
      have hset : (fun i : Fin c.n => i.val ∈ b) = fun i => (f i).val ∈ b' :=
        funext fun i => propext (hmb i)
      rw [← hset] at this
      exact (h2 _).1 this
    have hgen : ∀ u : Fin d.n → K, (∑ k, if k.val ∈ a' then x' k * u k else 0) =
        ∑ i, if i.val ∈ a then x i * u (f i) else 0 := by
      intro u
      have := sum_groupSum f x fun k => if k.val ∈ a' then u k else 0
      simp only [mul_ite, mul_zero, ← hma] at this
      rw [ex]
      exact this
    have h4 := hgen t'
    have h5 := hgen fun _ => 1
    simp only [mul_one] at h5
    rw [h4, h5, ← et]

/-- C136. The forward committor probabilities of an ergodic chain between two unions of groups are those of
the groups. -/
theorem C136_committor (hc : c.Valid) (hd : d.Valid) (h : Lumps c d f) {nx : Nx c.n} (hx : nx.Sound c.p)
    {nx' : Nx d.n} (hx' : nx'.Sound d.p) (he : Ergodic c.p) {v1 v2 w1 w2 : PyVal K} {a b a' b' : List ℕ}
    (ha : validateLabelsCurrent v1 c.states true none = .ok a)
    (hb : validateLabelsCurrent v2 c.states true none = .ok b)
    (ha' : validateLabelsCurrent w1 d.states true none = .ok a')
    (hb' : validateLabelsCurrent w2 d.states true none = .ok b')
    (hma : ∀ i : Fin c.n, i.val ∈ a ↔ (f i).val ∈ a') (hmb : ∀ i : Fin c.n, i.val ∈ b ↔ (f i).val ∈ b')
    (hdis : ∀ i ∈ a, i ∉ b) :
    ∃ q q', committorProbabilities c nx (.str "forward") v1 v2 = .ok (some q) ∧
      committorProbabilities d nx' (.str "forward") w1 w2 = .ok (some q') ∧ ∀ i, q i = q' (f i) := by
  have he' : Ergodic d.p := h.ergodic hc.2.1.1 he
  have hdis' : ∀ k ∈ a', k ∉ b' := by
    intro k hk hkb
    have hlt : k < d.n := by
      rw [← hd.2.2.1]
      exact (labelsCurrent_sound hd.2.2.2.1 ha').2.1 k hk
    obtain ⟨i, hi⟩ := h.onto ⟨k, hlt⟩
    exact hdis i.val ((hma i).2 (by rw [hi]; exact hk)) ((hmb i).2 (by rw [hi]; exact hkb))
  obtain ⟨q, s, h1, h2, h3⟩ := C41_forward_partial hc hx he ha hb hdis
  obtain ⟨q', s', h1', h2', h3'⟩ := C41_forward_partial hd hx' he' ha' hb' hdis'
  refine ⟨s, s', h2, h2', fun i => ?_⟩
  have := Follows.committor h.toFollows ((h1' q').2 rfl)
  have hsa : (fun i : Fin c.n => i.val ∈ a) = fun i => (f i).val ∈ a' := funext fun i => propext (hma i)
  have hsb : (fun i : Fin c.n => i.val ∈ b) = fun i => (f i).val ∈ b' := funext fun i => propext (hmb i)
  rw [← hsa, ← hsb] at this
  rw [h3, h3', ← congrFun ((h1 _).1 this) i]

/-! ## Rewards and runs -/

theorem Follows.law {m n : ℕ} {P : Matrix (Fin n) (Fin n) K} {Q : Matrix (Fin m) (Fin m) K}
    {f : Fin n → Fin m} (h : Follows (fun i j => P i j) (fun i j => Q i j) f) (k : ℕ) (i : Fin n)
    (g : List (Fin m) → K) : expect P k i (fun w => g (w.map f)) = expect Q k (f i) g :=
  lumped_law h.prob k i g

/-- C136. The expected rewards for rewards that depend only on the group are those of the groups. -/
theorem C136_rewards (hc : c.Valid) (hd : d.Valid) (h : Lumps c d f) {steps rewards rewards' : PyVal K}
    {s : ℤ} {r r' : List K} (hs : validateInteger steps (some (0, true)) none = .ok s)
    (hr : validateRewards rewards c.n = .ok r) (hr' : validateRewards rewards' d.n = .ok r')
    (hm : ∀ i, listVec r c.n i = listVec r' d.n (f i)) :
    ∃ er er', expectedRewards c steps rewards = .ok er ∧ expectedRewards d steps rewards' = .ok er' ∧
      ∀ i, er i = er' (f i) := by
  obtain ⟨-, er, h1, h2⟩ := C46_expected_rewards hc hs hr
  obtain ⟨-, er', h1', h2'⟩ := C46_expected_rewards hd hs hr'
  refine ⟨er, er', h1, h1', fun i => ?_⟩
  rw [h2, h2', ← Follows.law h.toFollows s.toNat i fun w => ((f i :: w).map (listVec r' d.n)).sum]
  congr 1
  funext w
  simp only [List.map_cons, List.sum_cons, List.map_map, hm]
  congr 3
  funext j
  exact hm j

/-- C136. The groups that a simulated run of the chain visits have the law of the simulated runs of the
chain of the groups. -/
theorem C136_simulate {c d : MC ℝ} {f : Fin c.n → Fin d.n} (hc : c.Valid) (hd : d.Valid) [NeZero c.n]
    [NeZero d.n] (h : Lumps c d f) {steps initialState initialState' : PyVal ℝ} {s : ℤ}
    {i : Fin c.n} (start : Fin c.n) (start' : Fin d.n)
    (hs : validateInteger steps (some (2, false)) none = .ok s)
    (hi : OptionalState initialState c.states (some i))
    (hi' : OptionalState initialState' d.states (some (f i))) :
    ∃ (run : (ℕ → ℝ) → List (Fin c.n)) (run' : (ℕ → ℝ) → List (Fin d.n)),
      (∀ u b, simulate c (cdfChoice u) start steps initialState .none (.bool b) =
        .ok (render c.states b (run u))) ∧
      (∀ u b, simulate d (cdfChoice u) start' steps initialState' .none (.bool b) =
        .ok (render d.states b (run' u))) ∧
      ∀ E : List (Fin d.n) → Prop,
        Measure.infinitePi (fun _ : ℕ => uniformDraw) {u | E ((run u).map f)} =
          Measure.infinitePi (fun _ : ℕ => uniformDraw) {u | E (run' u)} := by
  classical
  obtain ⟨run, h1, h2⟩ := C116_simulate hc start hs hi (Or.inl ⟨rfl, rfl⟩)
  obtain ⟨run', h1', h2'⟩ := C116_simulate hd start' hs hi' (Or.inl ⟨rfl, rfl⟩)
  refine ⟨run, run', h1, h1', fun E => ?_⟩
  rw [h2 fun w => E (w.map f), h2' E]
  congr 1
  simp only [stopAt_none, Option.getD_some]
  unfold prob
  exact Follows.law h.toFollows s.toNat i fun w => if E (f i :: w) then 1 else 0

/-! ## Entropy and speed of convergence -/

theorem entropy_groups {m n : ℕ} (f : Fin n → Fin m) {x : Fin n → ℝ} (hx : ∀ i, 0 ≤ x i) :
    entropy (groupSum f x) ≤ entropy x := by
  have h1 : entropy (groupSum f x) = ∑ i, x i * -Real.log (groupSum f x (f i)) := by
    rw [← sum_groupSum f x fun b => -Real.log (groupSum f x b)]
    unfold entropy Real.negMulLog
    exact Finset.sum_congr rfl fun b _ => by ring
  rw [h1]
  unfold entropy Real.negMulLog
  refine Finset.sum_le_sum fun i _ => ?_
  rcases (hx i).eq_or_lt with h0 | h0
  · rw [← h0]; simp
  · have hle : x i ≤ groupSum f x (f i) := Finset.single_le_sum (f := x) (fun k _ => hx k)
      (Finset.mem_filter.2 ⟨Finset.mem_univ i, rfl⟩)
    have := Real.log_le_log h0 hle
    nlinarith

/-- C136. The entropy rate of the groups is at most that of an irreducible chain. (Both results have the
wrong sign when they are at most `1e-8`, see `C52_negative`.) -/
theorem C136_entropy {c d : MC ℝ} {f : Fin c.n → Fin d.n} (hc : c.Valid) (hd : d.Valid) (h : Lumps c d f)
    {sccs : List (List (Fin c.n))} (hs : IsClasses c.p sccs) {sccs' : List (List (Fin d.n))}
    (hs' : IsClasses d.p sccs') (hirr : Irreducible c.p) :
    ∃ r r', entropyRate c sccs = .ok (some r) ∧ entropyRate d sccs' = .ok (some r') ∧ |r'| ≤ |r| := by
  have hirr' : Irreducible d.p := h.irreducible hc.2.1.1 hirr
  obtain ⟨x, -, hx, -, hxu⟩ := C34_stationary hc hs hirr
  obtain ⟨y, -, -, -, hyu⟩ := C34_stationary hd hs' hirr'
  have hst : IsStationary d.p (groupSum f x) := h.stationary hx
  have huniq : ∀ z, IsStationary d.p z → z = groupSum f x := fun z hz =>
    (hyu z hz).trans (hyu _ hst).symm
  refine ⟨_, _, entropyRate_run hc hs hx hxu, entropyRate_run hd hs' hst huniq, ?_⟩
  have habs : ∀ z : ℝ, |if z ≤ 1 / 10 ^ 8 then -z else z| = |z| := fun z => by
    split
    · exact abs_neg z
    · rfl
  rw [habs, habs, abs_of_nonneg (rate_bounds hd hst.1).1, abs_of_nonneg (rate_bounds hc hx.1).1]
  unfold rate
  rw [sum_groupSum f x fun b => entropy (d.p b)]
  refine Finset.sum_le_sum fun i _ => mul_le_mul_of_nonneg_left ?_ (hx.1.1 i)
  have hrow : d.p (f i) = groupSum f (c.p i) := funext fun b => h.prob i b
  rw [hrow]
  exact entropy_groups f (hc.2.1.1 i)

/-- C136. The eigenvalues of the groups are eigenvalues of the chain; so that the second largest modulus of
the groups is at most that of the chain. -/
theorem C136_eigenvalues {c d : MC ℝ} {f : Fin c.n → Fin d.n} (h : Lumps c d f) {s s' : ℝ}
    (hs : IsSecondModulus c.p s) (hs' : IsSecondModulus d.p s') :
    (∀ z, IsEigenvalue d.p z → IsEigenvalue c.p z) ∧ s' ≤ s := by
  have key : ∀ z, IsEigenvalue d.p z → IsEigenvalue c.p z := by
    rintro z ⟨v, hv, hz⟩
    refine ⟨fun i => v (f i), fun h0 => hv (funext fun b => ?_), fun i => ?_⟩
    · obtain ⟨i, rfl⟩ := h.onto b
      exact congrFun h0 i
    · rw [← hz (f i), ← Finset.sum_fiberwise (s := Finset.univ) (g := f)]
      refine Finset.sum_congr rfl fun b _ => ?_
      have : d.p (f i) b = ∑ x with f x = b, c.p i x := h.prob i b
      rw [this, Complex.ofReal_sum, Finset.sum_mul]
      refine Finset.sum_congr rfl fun j hj => ?_
      exact congrArg (fun k => (c.p i j : ℂ) * v k) (Finset.mem_filter.1 hj).2
  refine ⟨key, ?_⟩
  obtain ⟨z, hz, hz1, rfl⟩ := hs'.1
  exact hs.2 z (key z hz) hz1

/-- C136. So the groups converge at least as fast: if `slem` has values for an ergodic chain and for its
groups, then that of the groups is at most that of the chain (provided that no eigenvalue other than one
has a modulus close to one, see `C86_near_one`). -/
theorem C136_slem {c d : MC ℝ} {f : Fin c.n → Fin d.n} (hc : c.Valid) (hd : d.Valid) (h : Lumps c d f)
    {nx : Nx c.n} (hx : nx.Sound c.p) {nx' : Nx d.n} (hx' : nx'.Sound d.p) (he : Ergodic c.p)
    {ev ev' : List ℂ} (hev : EigvalsSound c.p ev) (hev' : EigvalsSound d.p ev')
    (hgap : ∀ z ∈ ev, z ≠ 1 → isclose ‖z‖ 1 = false) (hgap' : ∀ z ∈ ev', z ≠ 1 → isclose ‖z‖ 1 = false)
    {s s' : ℝ} (hs : slem c nx ev = .ok (some s)) (hs' : slem d nx' ev' = .ok (some s')) : s' ≤ s := by
  have key : ∀ {c : MC ℝ} {nx : Nx c.n} {ev : List ℂ} {s t : ℝ}, slem c nx ev = .ok (some s) →
      (t ≤ 1 / 10 ^ 8 → slem c nx ev = .ok none ∧ spectralGap c nx ev = .ok none ∧
        relaxationRate c nx ev = .ok none ∧ mixingRate c nx ev = .ok none) →
      (1 / 10 ^ 8 < t → slem c nx ev = .ok (some t) ∧ spectralGap c nx ev = .ok (some (1 - t)) ∧
        relaxationRate c nx ev = .ok (some (1 / (1 - t))) ∧
        mixingRate c nx ev = .ok (some (-1 / Real.log t)) ∧ 0 < -1 / Real.log t) → s = t := by
    intro c nx ev s t h1 h2 h3
    rcases le_or_gt t (1 / 10 ^ 8) with ht | ht
    · rw [(h2 ht).1] at h1
      cases h1
    · rw [(h3 ht).1] at h1
      cases h1
      rfl
  obtain ⟨t, h1, -, -, h2, h3⟩ := (C86_second_modulus_partial hc hx hev hgap).1 he
  obtain ⟨t', h1', -, -, h2', h3'⟩ := (C86_second_modulus_partial hd hx' hev' hgap').1
    (h.ergodic hc.2.1.1 he)
  rw [key hs h2 h3, key hs' h2' h3']
  exact (C136_eigenvalues h h1 h1').2

/-! ## A concrete case -/

/-- A chain of three states, two of which can be put together. -/
def exGroups : MC ℚ := ⟨3, !![0, 1 / 2, 1 / 2; 1 / 2, 0, 1 / 2; 1 / 4, 1 / 4, 1 / 2], ["a", "b", "c"]⟩

/-- The hypotheses of the theorems above are met. -/
theorem C136_instance : exGroups.Valid ∧ Ergodic (fun i j : Fin 3 => exGroups.p i j) ∧
    ∃ d f, lump exGroups (.list [.list [.int 0, .int 1], .list [.int 2]]) = .ok d ∧ Lumps exGroups d f ∧
      d.Valid ∧ d.states = ["a,b", "c"] := by
  have hv : exGroups.Valid := by decide +kernel
  have h : validatePartitions (.list [.list [.int 0, .int 1], .list [.int 2]] : PyVal ℚ)
    exGroups.states = .ok [[0, 1], [2]] := by decide +kernel
  have he : Ergodic (fun i j : Fin 3 => exGroups.p i j) := by
    have hirr : Irreducible (fun i j : Fin 3 => exGroups.p i j) := by decide +kernel
    have hs : (Nx.ofClasses (fun i j : Fin 3 => exGroups.p i j) [[0, 1, 2]] true).Sound exGroups.p := by
      refine Nx.ofClasses_sound true ?_
      decide +kernel
    exact (isErgodic_iff hv hs).1 (by decide +kernel)
  have hp : IsPartition ([[0, 1], [2]] : List (List (Fin 3))) := by
    unfold IsPartition
    decide +kernel
  have hl : Lumpable (fun i j : Fin 3 => exGroups.p i j) [[0, 1], [2]] := by
    unfold Lumpable
    decide +kernel
  obtain ⟨-, -, hok, hres⟩ := C22_lump_partial hv h
  obtain ⟨d, hd⟩ := hok.2 ⟨hp, hl⟩
  obtain ⟨-, -, -, -, -, -, -, -, hst⟩ := hres d hd
  have hst' : d.states = ["a,b", "c"] := by
    rw [hst]
    decide +kernel
  obtain ⟨f, h1, -, -, h2⟩ := C136_lump hv h hd
  exact ⟨hv, he, d, f, hd, h1, h2 (by rw [hst']; decide +kernel), hst'⟩

end Verif
