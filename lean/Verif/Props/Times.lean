import Verif.Model.Times
import Verif.Props.Rewards
import Verif.Props.Stationary

/-!
# Time correlations and time relaxations (C84, C85)
-/

set_option linter.unusedSectionVars false

namespace Verif

open Finset

variable {K : Type} [Field K] [LinearOrder K] [IsStrictOrderedRing K]

/-! ## Arguments -/

theorem validateTimePoints_ok {v : PyVal K} {t : OneOrMany ℕ} (h : validateTimePoints v = .ok t) :
    t.toList ≠ [] ∧ t.toList.Pairwise (· < ·) ∧
      ((∃ z : ℕ, v = .int z ∧ t = .one z) ∨
        ∃ (l : List ℕ) (s : List ℕ), v = .list (l.map fun z : ℕ => PyVal.int (z : ℤ)) ∧ t = .many s ∧ s.Perm l) := by
  unfold validateTimePoints at h
  split at h
  · next z =>
    rw [R.ite_throw] at h
    obtain ⟨h1, h2⟩ := h
    rw [R.pure_ok] at h2
    refine ⟨by rw [← h2]; simp [OneOrMany.toList], by rw [← h2]; simp [OneOrMany.toList],
      .inl ⟨z.toNat, ?_, h2.symm⟩⟩
    rw [Int.toNat_of_nonneg (not_lt.1 h1)]
  · next l =>
    rw [R.ite_throw, R.ite_throw, R.ite_throw, R.ite_throw, R.pure_ok] at h
    obtain ⟨h1, h2, h3, h4, h5⟩ := h
    rw [not_not] at h1 h4
    have hnn : ∀ z ∈ l.map PyVal.asInt, 0 ≤ z := by
      intro z hz
      by_contra hneg
      exact h2 (List.any_eq_true.2 ⟨z, hz, decide_eq_true (not_le.1 hneg)⟩)
    have hnd : ((l.map PyVal.asInt).map Int.toNat).Nodup := by
      refine (List.nodup_map_iff_inj_on h4).2 fun a ha b hb hab => ?_
      rw [← Int.toNat_of_nonneg (hnn a ha), ← Int.toNat_of_nonneg (hnn b hb), hab]
    have hsort := List.pairwise_insertionSort (· ≤ ·) ((l.map PyVal.asInt).map Int.toNat)
    have hperm := List.perm_insertionSort (· ≤ ·) ((l.map PyVal.asInt).map Int.toNat)
    refine ⟨?_, ?_, .inr ⟨(l.map PyVal.asInt).map Int.toNat, _, ?_, h5.symm, hperm⟩⟩
    · rw [← h5]
      intro e
      have := hperm.length_eq
      change (List.insertionSort (· ≤ ·) ((l.map PyVal.asInt).map Int.toNat)) = [] at e
      rw [e] at this
      simp only [List.length_nil, List.length_map] at this
      omega
    · rw [← h5]
      change (List.insertionSort (· ≤ ·) ((l.map PyVal.asInt).map Int.toNat)).Pairwise (· < ·)
      exact List.Pairwise.imp₂ (fun a b hab hne => lt_of_le_of_ne hab hne) hsort
        (hperm.nodup_iff.2 hnd)
    · congr 1
      rw [List.map_map, List.map_map]
      symm
      refine (List.map_congr_left fun x hx => ?_).trans (List.map_id l)
      have := List.all_eq_true.1 h1 x hx
      cases x with
      | int z =>
        have hz := hnn z (List.mem_map.2 ⟨_, hx, rfl⟩)
        change PyVal.int ((z.toNat : ℕ) : ℤ) = PyVal.int z
        rw [Int.toNat_of_nonneg hz]
      | _ => exact absurd this Bool.false_ne_true
  · exact absurd h (by simp [throw, throwThe, MonadExceptOf.throw])

theorem observations_eq {n : ℕ} (seq : List ℕ) (i : Fin n) :
    (observations seq : Fin n → K) i = (seq.count i.val : K) := by
  unfold observations
  have key : ∀ (seq : List ℕ) (o : Fin n → K),
      seq.foldl (fun o s i => if i.val = s then o i + 1 else o i) o i = o i + seq.count i.val := by
    intro seq
    induction seq with
    | nil => intro o; simp
    | cons s seq ih =>
      intro o
      rw [List.foldl_cons, ih, List.count_cons]
      by_cases h : i.val = s
      · simp [h]; ring
      · simp [h, Ne.symm h]
  rw [key, zero_add]

/-! ## The loops -/

theorem firstPoint_eq {α : Type} (step : α → α) (start : α) (t : ℕ) :
    firstPoint step start t = step^[t] start := by
  unfold firstPoint
  split
  · next h =>
    obtain ⟨k, rfl⟩ : ∃ k, t = k + 2 := ⟨t - 2, by omega⟩
    rfl
  · split
    · next h => subst h; rfl
    · next h1 h2 =>
      have : t = 0 := by omega
      subst this
      rfl

theorem timeLoop_eq {α : Type} (step : α → α) (start : α) (ts : List ℕ) (hs : ts.Pairwise (· < ·)) :
    timeLoop step start none ts = ts.map fun t => step^[t] start := by
  have key : ∀ (ts : List ℕ) (p : ℕ), ts.Pairwise (· < ·) → (∀ t ∈ ts, p ≤ t) →
      timeLoop step start (some (p, step^[p] start)) ts = ts.map fun t => step^[t] start := by
    intro ts
    induction ts with
    | nil => intro p _ _; rfl
    | cons t ts ih =>
      intro p hp hle
      have h1 : step^[t - p] (step^[p] start) = step^[t] start := by
        rw [← Function.iterate_add_apply, Nat.sub_add_cancel (hle t (List.mem_cons_self ..))]
      rw [timeLoop, h1, List.map_cons]
      congr 1
      exact ih t hp.of_cons fun u hu => ((List.pairwise_cons.1 hp).1 u hu).le
  cases ts with
  | nil => rfl
  | cons t ts =>
    rw [timeLoop, firstPoint_eq, List.map_cons]
    congr 1
    exact key ts t hs.of_cons fun u hu => ((List.pairwise_cons.1 hs).1 u hu).le

theorem iterate_mulVec {n : ℕ} (P : Matrix (Fin n) (Fin n) K) (w : Fin n → K) (t : ℕ) :
    (fun w => P.mulVec w)^[t] w = (P ^ t).mulVec w := by
  induction t with
  | zero => rw [pow_zero, Matrix.one_mulVec]; rfl
  | succ t ih =>
    rw [Function.iterate_succ_apply', ih, Matrix.mulVec_mulVec, pow_succ']

theorem iterate_vecMul {n : ℕ} (P : Matrix (Fin n) (Fin n) K) (w : Fin n → K) (t : ℕ) :
    (fun w => Matrix.vecMul w P)^[t] w = Matrix.vecMul w (P ^ t) := by
  induction t with
  | zero => rw [pow_zero, Matrix.vecMul_one]; rfl
  | succ t ih =>
    rw [Function.iterate_succ_apply', ih, Matrix.vecMul_vecMul, pow_succ]

/-- The mean of `a` at the start times `b` after `t` steps, for a chain started from `x`. -/
def timeCorrelation {n : ℕ} (P : Matrix (Fin n) (Fin n) K) (x a b : Fin n → K) (t : ℕ) : K :=
  ∑ i, ∑ j, x i * a i * (P ^ t) i j * b j

/-- The mean of `b` after `t` steps, for a chain started from `d`. -/
def timeRelaxation {n : ℕ} (P : Matrix (Fin n) (Fin n) K) (d b : Fin n → K) (t : ℕ) : K :=
  ∑ i, ∑ j, d i * (P ^ t) i j * b j

theorem getLastD_le {ts : List ℕ} {n : ℕ} (h : ∀ t ∈ ts, t ≤ n) : ¬ ts.getLastD 0 > n := by
  rw [List.getLastD_eq_getLast?]
  cases e : ts.getLast? with
  | none => simp
  | some t =>
    have := h t (List.mem_of_getLast? e)
    simpa using this

theorem le_getLastD {ts : List ℕ} (hs : ts.Pairwise (· < ·)) {n : ℕ} (h : ¬ ts.getLastD 0 > n) :
    ∀ t ∈ ts, t ≤ n := by
  intro t ht
  rw [List.getLastD_eq_getLast?] at h
  have hne : ts ≠ [] := List.ne_nil_of_mem ht
  rw [List.getLast?_eq_some_getLast hne] at h
  have hle : t ≤ ts.getLast hne := by
    rw [← List.dropLast_append_getLast hne] at ht hs
    rcases List.mem_append.1 ht with h1 | h1
    · exact ((List.pairwise_append.1 hs).2.2 t h1 _ (List.mem_singleton.2 rfl)).le
    · exact (List.mem_singleton.1 h1).le
  simp only [Option.getD_some] at h
  omega

theorem correlation_mulVec {n : ℕ} (M : Matrix (Fin n) (Fin n) K) (x a b : Fin n → K) :
    ∑ i, (a i * x i) * M.mulVec b i = ∑ i, ∑ j, x i * a i * M i j * b j := by
  refine Finset.sum_congr rfl fun i _ => ?_
  have : M.mulVec b i = ∑ j, M i j * b j := rfl
  rw [this, Finset.mul_sum]
  exact Finset.sum_congr rfl fun j _ => by ring

theorem relaxation_vecMul {n : ℕ} (M : Matrix (Fin n) (Fin n) K) (d b : Fin n → K) :
    ∑ j, Matrix.vecMul d M j * b j = ∑ i, ∑ j, d i * M i j * b j := by
  rw [Finset.sum_comm]
  refine Finset.sum_congr rfl fun j _ => ?_
  have : Matrix.vecMul d M j = ∑ i, d i * M i j := rfl
  rw [this, Finset.sum_mul]

theorem correlationsAt_eq {n : ℕ} {P : Matrix (Fin n) (Fin n) K} {rdl : Rdl K n} (x a b : Fin n → K)
    {ts : List ℕ} (hs : ts.Pairwise (· < ·)) (h : (∀ t ∈ ts, t ≤ n) ∨ rdl.Sound P) :
    correlationsAt P rdl x a b ts = ts.map (timeCorrelation P x a b) := by
  unfold correlationsAt
  by_cases hl : ts.getLastD 0 > n
  · rw [if_pos hl]
    have hr : rdl.Sound P := h.resolve_left fun h1 => getLastD_le h1 hl
    refine List.map_congr_left fun t _ => ?_
    rw [correlation_mulVec]
    unfold timeCorrelation rdlPower
    rw [← Rdl.pow hr t]
  · rw [if_neg hl, timeLoop_eq _ _ _ hs, List.map_map]
    refine List.map_congr_left fun t _ => ?_
    rw [Function.comp_apply, iterate_mulVec, correlation_mulVec]
    rfl

theorem relaxationsAt_eq {n : ℕ} {P : Matrix (Fin n) (Fin n) K} {rdl : Rdl K n} (d b : Fin n → K)
    {ts : List ℕ} (hs : ts.Pairwise (· < ·)) (h : (∀ t ∈ ts, t ≤ n) ∨ rdl.Sound P) :
    relaxationsAt P rdl d b ts = ts.map (timeRelaxation P d b) := by
  unfold relaxationsAt
  by_cases hl : ts.getLastD 0 > n
  · rw [if_pos hl]
    have hr : rdl.Sound P := h.resolve_left fun h1 => getLastD_le h1 hl
    refine List.map_congr_left fun t _ => ?_
    rw [relaxation_vecMul]
    unfold timeRelaxation rdlPower
    rw [← Rdl.pow hr t]
  · rw [if_neg hl, timeLoop_eq _ _ _ hs, List.map_map]
    refine List.map_congr_left fun t _ => ?_
    rw [Function.comp_apply, iterate_vecMul, relaxation_vecMul]
    rfl

/-- Application of a function to one value or to all values of a list. -/
def OneOrMany.map {α β : Type} (f : α → β) : OneOrMany α → OneOrMany β
  | .one a => .one (f a)
  | .many l => .many (l.map f)

theorem OneOrMany.wrap_map {α β : Type} (f : α → β) (t : OneOrMany α) :
    t.wrap (t.toList.map f) = some (t.map f) := by
  cases t <;> rfl

/-! ## One or several stationary distributions -/

/-- `pi` has one element exactly when the stationary distribution is unique. -/
theorem pi_unique_iff {c : MC K} (hc : c.Valid) {sccs : List (List (Fin c.n))}
    (h : IsClasses c.p sccs) :
    ∃ l, pi c sccs = .ok l ∧ l ≠ [] ∧ (∀ x ∈ l, IsStationary c.p x) ∧
      (l.length ≤ 1 ↔ ∀ y z, IsStationary c.p y → IsStationary c.p z → y = z) := by
  by_cases hirr : Irreducible c.p
  · obtain ⟨x, h1, h2, -, h4⟩ := C34_stationary hc h hirr
    refine ⟨[x], h1, by simp, by simpa using h2, ?_⟩
    simp only [List.length_singleton, le_refl, true_iff]
    intro y z hy hz
    rw [h4 y hy, h4 z hz]
  · obtain ⟨hrec, hcom, f, h1, h2, h3⟩ := C35_reducible hc h hirr
    refine ⟨_, h1, ?_, ?_, ?_⟩
    · obtain ⟨j, -, hj⟩ := exists_recurrent_reach (fun i j => c.p i j)
        (⟨0, by have := hc.1; omega⟩ : Fin c.n)
      obtain ⟨C, hC, -⟩ := (hrec j).1 hj
      intro e
      rw [List.map_eq_nil_iff] at e
      rw [e] at hC
      exact absurd hC (by simp)
    · intro x hx
      obtain ⟨C, hC, rfl⟩ := List.mem_map.1 hx
      exact (h2 C hC).1
    · rw [List.length_map]
      constructor
      · intro hl y z hy hz
        obtain ⟨w, hw1, hw2, hw3⟩ := (h3 y).1 hy
        obtain ⟨u, hu1, hu2, hu3⟩ := (h3 z).1 hz
        funext i
        rw [hw3 i, hu3 i]
        match e : recurrentIdx c.p sccs with
        | [] => simp
        | [C] =>
          rw [e] at hw2 hu2
          simp only [List.map_cons, List.map_nil, List.sum_cons, List.sum_nil, add_zero] at hw2 hu2 ⊢
          rw [hw2, hu2]
        | _ :: _ :: _ => rw [e] at hl; simp at hl
      · intro huniq
        by_contra hl
        match e : recurrentIdx c.p sccs with
        | [] => rw [e] at hl; simp at hl
        | [C] => rw [e] at hl; simp at hl
        | C :: D :: rest =>
          have hC : C ∈ recurrentIdx c.p sccs := by rw [e]; simp
          have hD : D ∈ recurrentIdx c.p sccs := by rw [e]; simp
          have hfe : f C = f D := huniq _ _ (h2 C hC).1 (h2 D hD).1
          have hex : ∃ i, i ∈ C := by
            by_contra hno
            have h0 : ∀ i, f C i = 0 := fun i =>
              le_antisymm (not_lt.1 fun hp => hno ⟨i, ((h2 C hC).2 i).1 hp⟩) ((h2 C hC).1.1.1 i)
            have := (h2 C hC).1.1.2
            simp [h0] at this
          obtain ⟨i, hi⟩ := hex
          have hiD : i ∈ D := by
            rw [← (h2 D hD).2 i, ← hfe]
            exact ((h2 C hC).2 i).2 hi
          have hk := h.classesIdx
          have hsub : ∀ E ∈ recurrentIdx c.p sccs, E ∈ classesIdx sccs := by
            intro E hE
            exact (mem_recurrentIdx.1 hE).1
          have hnd : (recurrentIdx c.p sccs).Nodup :=
            (List.Perm.nodup_iff (List.perm_insertionSort _ _)).2 (hk.nodup_list.filter _)
          have hCD := hk.eq_of_mem (hsub C hC) (hsub D hD) hi hiD
          rw [e, hCD] at hnd
          simp at hnd

/-! ## The methods -/

/-- The numbers of occurrences of the states in a sequence. -/
def visits {n : ℕ} (seq : List ℕ) (i : Fin n) : K := (seq.count i.val : K)

/-- C84 (partial). For a chain with one stationary distribution `x` the method returns, for every
time point, the stationary mean of the product of the first observation at time zero and the second
observation after that time; for a chain with several stationary distributions it returns `None`.
Partial: the time points must not exceed the number of states, or the decomposition must be right. -/
theorem C84_time_correlations_partial {c : MC K} (hc : c.Valid) {sccs : List (List (Fin c.n))}
    (h : IsClasses c.p sccs) {rdl : Rdl K c.n} {v1 : PyVal K} {v2 : Option (PyVal K)} {vt : PyVal K}
    {s1 : List ℕ} {s2 : Option (List ℕ)} {t : OneOrMany ℕ}
    (h1 : validateSequence v1 c.states = .ok s1) (h2 : optionalSequence v2 c.states = .ok s2)
    (ht : validateTimePoints vt = .ok t)
    (hr : (∀ u ∈ t.toList, u ≤ c.n) ∨ rdl.Sound c.p) :
    (∃ x, IsStationary c.p x ∧ (∀ y, IsStationary c.p y → y = x) ∧
      timeCorrelations c sccs (.ok rdl) v1 v2 vt = .ok (some (t.map
        (timeCorrelation c.p x (visits s1) (visits (s2.getD s1)))))) ∨
    (∃ x y, IsStationary c.p x ∧ IsStationary c.p y ∧ x ≠ y ∧
      timeCorrelations c sccs (.ok rdl) v1 v2 vt = .ok none) := by
  obtain ⟨l, hl, hne, hst, huniq⟩ := pi_unique_iff hc h
  have hobs : ∀ s : List ℕ, (observations s : Fin c.n → K) = visits s := fun s =>
    funext fun i => observations_eq s i
  have hrun : timeCorrelations c sccs (.ok rdl) v1 v2 vt = mcTimeCorrelations c sccs rdl s1 s2 t := by
    unfold timeCorrelations
    rw [h1, R.ok_bind, h2, R.ok_bind, ht, R.ok_bind, R.ok_bind]
  rw [hrun]
  unfold mcTimeCorrelations
  rw [hl, R.ok_bind]
  by_cases hlen : l.length > 1
  · right
    have : ¬ ∀ y z, IsStationary c.p y → IsStationary c.p z → y = z := fun e =>
      absurd (huniq.2 e) (not_le.2 hlen)
    push Not at this
    obtain ⟨y, z, hy, hz, hyz⟩ := this
    exact ⟨y, z, hy, hz, hyz, if_pos hlen⟩
  · left
    obtain ⟨x, hx⟩ := List.exists_mem_of_ne_nil l hne
    have hlx : l = [x] := by
      match l, hlen, hx with
      | [y], _, hx => rw [List.mem_singleton.1 hx]
      | _ :: _ :: _, hlen, _ => simp at hlen
    refine ⟨x, hst x hx, fun y hy => huniq.1 (not_lt.1 hlen) y x hy (hst x hx), ?_⟩
    rw [if_neg hlen, hlx]
    have hm : (secondObservations s1 s2 : Fin c.n → K) = visits (s2.getD s1) := by
      cases s2 with
      | none => exact hobs s1
      | some s => exact hobs s
    change Except.ok (t.wrap (correlationsAt c.p rdl x (observations s1)
      (secondObservations s1 s2) t.toList)) = _
    rw [hm, hobs, correlationsAt_eq x _ _ (validateTimePoints_ok ht).2.1 hr, OneOrMany.wrap_map]

/-- C84. Without a second sequence, the first one is used for both observations. -/
theorem C84_one_sequence_partial {c : MC K} (hc : c.Valid) {sccs : List (List (Fin c.n))}
    (h : IsClasses c.p sccs) {rdl : Rdl K c.n} {v1 vt : PyVal K} {s1 : List ℕ} {t : OneOrMany ℕ}
    (h1 : validateSequence v1 c.states = .ok s1) (ht : validateTimePoints vt = .ok t)
    (hr : (∀ u ∈ t.toList, u ≤ c.n) ∨ rdl.Sound c.p) :
    timeCorrelations c sccs (.ok rdl) v1 none vt = timeCorrelations c sccs (.ok rdl) v1 (some v1) vt ∧
    ((∃ x, IsStationary c.p x ∧ (∀ y, IsStationary c.p y → y = x) ∧
      timeCorrelations c sccs (.ok rdl) v1 none vt = .ok (some (t.map
        (timeCorrelation c.p x (visits s1) (visits s1))))) ∨
    (∃ x y, IsStationary c.p x ∧ IsStationary c.p y ∧ x ≠ y ∧
      timeCorrelations c sccs (.ok rdl) v1 none vt = .ok none)) := by
  refine ⟨?_, C84_time_correlations_partial hc h h1 (v2 := none) (s2 := none) rfl ht hr⟩
  have h2 : optionalSequence (some v1) c.states = .ok (some s1) := by
    change (validateSequence v1 c.states >>= fun s => pure (some s)) = _
    rw [h1]
    rfl
  have h3 : optionalSequence (none : Option (PyVal K)) c.states = .ok none := rfl
  unfold timeCorrelations
  rw [h1, R.ok_bind, R.ok_bind, h2, h3, R.ok_bind, R.ok_bind, ht]
  rfl

/-- C85 (partial). For a chain with one stationary distribution the method returns, for every time
point, the mean of the observation after that time, for the chain started from the initial
distribution; for a chain with several stationary distributions it returns `None`. Partial: the time
points must not exceed the number of states, or the decomposition must be right. -/
theorem C85_time_relaxations_partial {c : MC K} (hc : c.Valid) {sccs : List (List (Fin c.n))}
    (h : IsClasses c.p sccs) {rdl : Rdl K c.n} {v : PyVal K} {vd : Option (PyVal K)} {vt : PyVal K}
    {s : List ℕ} {d : Fin c.n → K} {t : OneOrMany ℕ}
    (h1 : validateSequence v c.states = .ok s) (h2 : initialDistribution c.n vd = .ok d)
    (ht : validateTimePoints vt = .ok t)
    (hr : (∀ u ∈ t.toList, u ≤ c.n) ∨ rdl.Sound c.p) :
    (∃ x, IsStationary c.p x ∧ (∀ y, IsStationary c.p y → y = x) ∧
      timeRelaxations c sccs (.ok rdl) v vd vt = .ok (some (t.map
        (timeRelaxation c.p d (visits s))))) ∨
    (∃ x y, IsStationary c.p x ∧ IsStationary c.p y ∧ x ≠ y ∧
      timeRelaxations c sccs (.ok rdl) v vd vt = .ok none) := by
  obtain ⟨l, hl, hne, hst, huniq⟩ := pi_unique_iff hc h
  have hobs : ∀ s : List ℕ, (observations s : Fin c.n → K) = visits s := fun s =>
    funext fun i => observations_eq s i
  have hrun : timeRelaxations c sccs (.ok rdl) v vd vt = mcTimeRelaxations c sccs rdl s d t := by
    unfold timeRelaxations
    rw [h1, R.ok_bind, h2, R.ok_bind, ht, R.ok_bind, R.ok_bind]
  rw [hrun]
  unfold mcTimeRelaxations
  rw [hl, R.ok_bind]
  by_cases hlen : l.length > 1
  · right
    have : ¬ ∀ y z, IsStationary c.p y → IsStationary c.p z → y = z := fun e =>
      absurd (huniq.2 e) (not_le.2 hlen)
    push Not at this
    obtain ⟨y, z, hy, hz, hyz⟩ := this
    exact ⟨y, z, hy, hz, hyz, if_pos hlen⟩
  · left
    obtain ⟨x, hx⟩ := List.exists_mem_of_ne_nil l hne
    refine ⟨x, hst x hx, fun y hy => huniq.1 (not_lt.1 hlen) y x hy (hst x hx), ?_⟩
    rw [if_neg hlen]
    change Except.ok (t.wrap (relaxationsAt c.p rdl d (observations s) t.toList)) = _
    rw [hobs, relaxationsAt_eq d _ (validateTimePoints_ok ht).2.1 hr, OneOrMany.wrap_map]

/-- The hypotheses of `C84_time_correlations_partial` and `C85_time_relaxations_partial` can be met:
the arguments are accepted and the time points do not exceed the number of states. -/
example : (validateSequence (.list [.str "a", .str "b", .str "b"] : PyVal ℚ) exLoop.states).toOption
      = some [0, 1, 1] ∧
    ((validateTimePoints (.list [.int 2, .int 0] : PyVal ℚ)).toOption.map OneOrMany.toList)
      = some [0, 2] ∧ ∀ u ∈ [0, 2], u ≤ exLoop.n := by
  refine ⟨by decide +kernel, by decide +kernel, by decide +kernel⟩

end Verif
