import Verif.Model.RoundedTimes
import Verif.Props.RoundedMeasures
import Verif.Props.RoundedPassage
import Verif.Props.Times

/-!
# Time correlations, time relaxations and expected transitions with rounding (C177)

All numbers in these computations are nonnegative, so the results are accurate relative to themselves:
every value is off by the factor of a number of roundings that depends on the number of states and on the
time point only.
-/

namespace Verif

open Finset

variable {K : Type} [Field K] [LinearOrder K] [IsStrictOrderedRing K] {F : Arith K} {u : K}

theorem iterate_rowsStepF (hF : F.Sound u) {n : ℕ} {P : Matrix (Fin n) (Fin n) K} (hP : ∀ i j, 0 ≤ P i j)
    {w : Fin n → K} (hw : ∀ i, 0 ≤ w i) (t : ℕ) (i : Fin n) :
    Acc (1 / (1 - u)) (t * n) ((rowsStepF F P)^[t] w i) ((fun w => P.mulVec w)^[t] w i) := by
  have h1 := hF.one_le
  induction t generalizing i with
  | zero => exact (Acc.refl (hw i)).mono h1 (by omega)
  | succ t ih =>
    rw [Function.iterate_succ_apply', Function.iterate_succ_apply']
    refine Acc.mono h1 (le_of_eq ?_) (Acc.dot hF (fun j => Acc.refl (hP i j)) ih)
    ring

theorem iterate_columnsStepF (hF : F.Sound u) {n : ℕ} {P : Matrix (Fin n) (Fin n) K} (hP : ∀ i j, 0 ≤ P i j)
    {w : Fin n → K} (hw : ∀ i, 0 ≤ w i) (t : ℕ) (j : Fin n) :
    Acc (1 / (1 - u)) (t * n) ((columnsStepF F P)^[t] w j) ((fun w => Matrix.vecMul w P)^[t] w j) := by
  have h1 := hF.one_le
  induction t generalizing j with
  | zero => exact (Acc.refl (hw j)).mono h1 (by omega)
  | succ t ih =>
    rw [Function.iterate_succ_apply', Function.iterate_succ_apply']
    refine Acc.mono h1 (le_of_eq ?_) (Acc.dot hF ih (fun i => Acc.refl (hP i j)))
    ring

/-- One or several values that are pairwise in a relation. -/
def OneOrMany.Related {α β : Type} (r : α → β → Prop) : OneOrMany α → OneOrMany β → Prop
  | .one a, .one b => r a b
  | .many l, .many m => List.Forall₂ r l m
  | _, _ => False

theorem OneOrMany.related_map {α β : Type} {r : α → β → Prop} {f : α → β} {t : OneOrMany α}
    (h : ∀ a ∈ t.toList, r a (f a)) : OneOrMany.Related r t (t.map f) := by
  cases t with
  | one a => exact h a (List.mem_singleton.2 rfl)
  | many l =>
    change List.Forall₂ r l (l.map f)
    rw [List.forall₂_map_right_iff]
    exact List.forall₂_same.2 h

theorem visits_nonneg {n : ℕ} (s : List ℕ) (i : Fin n) : 0 ≤ (visits s i : K) := by
  unfold visits; exact Nat.cast_nonneg _

/-- C177, correlations. For a chain with one stationary distribution `x` and time points up to the number of
states the method returns, for every time point `t`, the correlation up to the factor of
`3 n^3 + 1 + (t + 1) n` roundings; for a chain with several stationary distributions it returns `None`. -/
theorem C177_correlations (hF : F.Sound u) {c : MC K} (hc : c.Valid) {sccs : List (List (Fin c.n))}
    (h : IsClasses c.p sccs) {vt : PyVal K} {s1 : List ℕ} {s2 : Option (List ℕ)} {t : OneOrMany ℕ}
    (ht : validateTimePoints vt = .ok t) :
    (∃ x, IsStationary c.p x ∧ (∀ y, IsStationary c.p y → y = x) ∧
      ∃ r, mcTimeCorrelationsF F c sccs s1 s2 t = .ok (some r) ∧
        OneOrMany.Related (fun k v => Acc (1 / (1 - u)) (3 * c.n ^ 3 + 1 + (k + 1) * c.n) v
          (timeCorrelation c.p x (visits s1) (visits (s2.getD s1)) k)) t r) ∨
    (∃ x y, IsStationary c.p x ∧ IsStationary c.p y ∧ x ≠ y ∧ mcTimeCorrelationsF F c sccs s1 s2 t = .ok none) := by
  have h1 := hF.one_le
  obtain ⟨l, hl, hne, hst, huniq⟩ := pi_unique_iff hc h
  obtain ⟨m, l', hm, hl', hall⟩ := C147_pi hF hc h
  rw [hl] at hm
  cases hm
  have hobs : ∀ s : List ℕ, (observations s : Fin c.n → K) = visits s := fun s =>
    funext fun i => observations_eq s i
  have hlen' := hall.length_eq
  unfold mcTimeCorrelationsF
  rw [hl', R.ok_bind]
  by_cases hlen : l.length > 1
  · right
    have : ¬ ∀ y z, IsStationary c.p y → IsStationary c.p z → y = z := fun e =>
      absurd (huniq.2 e) (not_le.2 hlen)
    push Not at this
    obtain ⟨y, z, hy, hz, hyz⟩ := this
    exact ⟨y, z, hy, hz, hyz, if_pos (by omega)⟩
  · left
    obtain ⟨x, hx⟩ := List.exists_mem_of_ne_nil l hne
    have hlx : l = [x] := by
      match l, hlen, hx with
      | [y], _, hx => rw [List.mem_singleton.1 hx]
      | _ :: _ :: _, hlen, _ => simp at hlen
    subst hlx
    obtain ⟨x', hx'⟩ : ∃ x', l' = [x'] := List.length_eq_one_iff.1 hlen'
    subst hx'
    have hacc := (List.forall₂_cons.1 hall).1
    refine ⟨x, hst x hx, fun y hy => huniq.1 (not_lt.1 hlen) y x hy (hst x hx), ?_⟩
    rw [if_neg (by simp)]
    have hm : (secondObservations s1 s2 : Fin c.n → K) = visits (s2.getD s1) := by
      cases s2 with
      | none => exact hobs s1
      | some s => exact hobs s
    change ∃ r, Except.ok (t.wrap (correlationsF F c.p x' (observations s1)
      (secondObservations s1 s2) t.toList)) = Except.ok (some r) ∧ _
    rw [hm, hobs]
    unfold correlationsF
    rw [timeLoop_eq _ _ _ (validateTimePoints_ok ht).2.1, List.map_map, OneOrMany.wrap_map]
    refine ⟨_, rfl, OneOrMany.related_map fun k _ => ?_⟩
    have hxn : ∀ i, 0 ≤ x i := (hst x hx).1.1
    have hmul : ∀ i, Acc (1 / (1 - u)) (0 + 3 * c.n ^ 3 + 1) (F.mul (visits s1 i) (x' i)) (visits s1 i * x i) :=
      fun i => Acc.mul hF (Acc.refl (visits_nonneg s1 i)) ⟨hxn i, (hacc i).2⟩
    have e := Acc.dot hF hmul (fun i => iterate_rowsStepF hF (w := visits (s2.getD s1)) hc.2.1.1
      (visits_nonneg _) k i)
    rw [iterate_mulVec, correlation_mulVec] at e
    refine Acc.mono h1 (le_of_eq ?_) e
    ring

/-- C177, relaxations. The same for the time relaxations, with `(t + 1) n` roundings. -/
theorem C177_relaxations (hF : F.Sound u) {c : MC K} (hc : c.Valid) {sccs : List (List (Fin c.n))}
    (h : IsClasses c.p sccs) {vt : PyVal K} {s : List ℕ} {d : Fin c.n → K} (hd : ∀ i, 0 ≤ d i) {t : OneOrMany ℕ}
    (ht : validateTimePoints vt = .ok t) :
    (∃ x, IsStationary c.p x ∧ (∀ y, IsStationary c.p y → y = x) ∧
      ∃ r, mcTimeRelaxationsF F c sccs s d t = .ok (some r) ∧
        OneOrMany.Related (fun k v => Acc (1 / (1 - u)) ((k + 1) * c.n) v
          (timeRelaxation c.p d (visits s) k)) t r) ∨
    (∃ x y, IsStationary c.p x ∧ IsStationary c.p y ∧ x ≠ y ∧ mcTimeRelaxationsF F c sccs s d t = .ok none) := by
  have h1 := hF.one_le
  obtain ⟨l, hl, hne, hst, huniq⟩ := pi_unique_iff hc h
  obtain ⟨m, l', hm, hl', hall⟩ := C147_pi hF hc h
  rw [hl] at hm
  cases hm
  have hlen' := hall.length_eq
  unfold mcTimeRelaxationsF
  rw [hl', R.ok_bind]
  by_cases hlen : l.length > 1
  · right
    have : ¬ ∀ y z, IsStationary c.p y → IsStationary c.p z → y = z := fun e =>
      absurd (huniq.2 e) (not_le.2 hlen)
    push Not at this
    obtain ⟨y, z, hy, hz, hyz⟩ := this
    exact ⟨y, z, hy, hz, hyz, if_pos (by omega)⟩
  · left
    obtain ⟨x, hx⟩ := List.exists_mem_of_ne_nil l hne
    refine ⟨x, hst x hx, fun y hy => huniq.1 (not_lt.1 hlen) y x hy (hst x hx), ?_⟩
    rw [if_neg (by omega)]
    change ∃ r, Except.ok (t.wrap (relaxationsF F c.p d (observations s) t.toList)) = Except.ok (some r) ∧ _
    rw [show (observations s : Fin c.n → K) = visits s from funext fun i => observations_eq s i]
    unfold relaxationsF
    rw [timeLoop_eq _ _ _ (validateTimePoints_ok ht).2.1, List.map_map, OneOrMany.wrap_map]
    refine ⟨_, rfl, OneOrMany.related_map fun k _ => ?_⟩
    have e := Acc.dot hF (fun i => iterate_columnsStepF hF (w := d) hc.2.1.1 hd k i)
      (fun i => Acc.refl (visits_nonneg s i))
    rw [iterate_vecMul, relaxation_vecMul] at e
    refine Acc.mono h1 (le_of_eq ?_) e
    ring

theorem idistSumF_acc (hF : F.Sound u) {n : ℕ} {P : Matrix (Fin n) (Fin n) K} (hP : ∀ i j, 0 ≤ P i j)
    {d : Fin n → K} (hd : ∀ i, 0 ≤ d i) (k : ℕ) (i : Fin n) :
    Acc (1 / (1 - u)) (k * (n + 1)) (idistSumF F P d k i) (idistSum P d k i) := by
  have h1 := hF.one_le
  induction k generalizing i with
  | zero => exact (Acc.refl (hd i)).mono h1 (by omega)
  | succ k ih =>
    rw [idistSumF, idistSum]
    have hD := Acc.dot (N := k * (n + 1)) (M := 0) hF ih fun j => Acc.refl (hP j i)
    rw [add_zero] at hD
    have e := Acc.add hF ((ih i).mono h1 (Nat.le_add_right _ n)) hD
    refine Acc.mono h1 (le_of_eq ?_) e
    ring

/-- C177, transitions. The matrix returned for at most as many steps as there are states is off, in every
entry, by the factor of `(steps - 1)(n + 1) + 1` roundings from the matrix that the program returns without
rounding. -/
theorem C177_transitions (hF : F.Sound u) {n : ℕ} {P : Matrix (Fin n) (Fin n) K} (hP : ∀ i j, 0 ≤ P i j)
    {d : Fin n → K} (hd : ∀ i, 0 ≤ d i) (rdl : Rdl K n) {steps : ℕ} (hs : steps ≤ n) (i j : Fin n) :
    Acc (1 / (1 - u)) ((steps - 1) * (n + 1) + 1) (mcExpectedTransitionsF F P steps d i j)
      (mcExpectedTransitions P rdl steps d i j) := by
  unfold mcExpectedTransitionsF mcExpectedTransitions
  rw [if_pos hs]
  exact Acc.mul (N := (steps - 1) * (n + 1)) (M := 0) hF (idistSumF_acc hF hP hd _ i) (Acc.refl (hP i j))

/-- C177, doubles. With at most a thousand states the relative error of every correlation is below one
millionth, of every relaxation below three parts in ten billion. -/
theorem C177_double {F : Arith ℚ} (hF : F.Sound (1 / 2 ^ 53)) {n k : ℕ} (hn : n ≤ 1000) (hk : k ≤ n) {v w : ℚ} :
    (Acc (1 / (1 - 1 / 2 ^ 53)) (3 * n ^ 3 + 1 + (k + 1) * n) v w → |v - w| ≤ 1 / 10 ^ 6 * w) ∧
    (Acc (1 / (1 - 1 / 2 ^ 53)) ((k + 1) * n) v w → |v - w| ≤ 3 / 10 ^ 10 * w) := by
  have hkn : (k + 1) * n ≤ 1001 * 1000 := Nat.mul_le_mul (by omega) hn
  have hn3 : n ^ 3 ≤ 1000 ^ 3 := Nat.pow_le_pow_left hn 3
  have key : ∀ (N B : ℕ) (ε : ℚ), N ≤ B → 2 * ((B : ℚ) * (1 / 2 ^ 53)) ≤ ε → ε ≤ 1 →
      Acc (1 / (1 - 1 / 2 ^ 53)) N v w → |v - w| ≤ ε * w := by
    intro N B ε hNB hB hε h
    have hc : (N : ℚ) * (1 / 2 ^ 53) ≤ B * (1 / 2 ^ 53) :=
      mul_le_mul_of_nonneg_right (by exact_mod_cast hNB) (by norm_num)
    exact (h.relative hF (by linarith)).trans (mul_le_mul_of_nonneg_right (by linarith) h.exact_nonneg)
  exact ⟨key _ (3 * 1000 ^ 3 + 1 + 1001 * 1000) _ (by omega) (by norm_num) (by norm_num),
    key _ (1001 * 1000) _ hkn (by norm_num) (by norm_num)⟩

/-- C177. Without rounding the programs are those of C84, C85 and C47. -/
theorem C177_exact (c : MC K) (sccs : List (List (Fin c.n))) (rdl : Rdl K c.n) (s : List ℕ) (s2 : Option (List ℕ))
    (d : Fin c.n → K) {t : OneOrMany ℕ} (ht : ¬ t.toList.getLastD 0 > c.n) {steps : ℕ} (hs : steps ≤ c.n) :
    mcTimeCorrelationsF Arith.exact c sccs s s2 t = mcTimeCorrelations c sccs rdl s s2 t ∧
    mcTimeRelaxationsF Arith.exact c sccs s d t = mcTimeRelaxations c sccs rdl s d t ∧
    mcExpectedTransitionsF Arith.exact c.p steps d = mcExpectedTransitions c.p rdl steps d := by
  have hdot : ∀ a b : Fin c.n → K, (Arith.exact : Arith K).dot (List.ofFn fun i => (a i, b i)) = ∑ i, a i * b i := by
    intro a b
    change ((List.ofFn fun i => (a i, b i)).map fun p => p.1 * p.2).sum = _
    rw [List.map_ofFn, List.sum_ofFn]
    rfl
  have hr : rowsStepF Arith.exact c.p = fun w => c.p.mulVec w := by
    funext w i
    exact hdot _ _
  have hk : columnsStepF Arith.exact c.p = fun w => Matrix.vecMul w c.p := by
    funext w i
    exact hdot _ _
  refine ⟨?_, ?_, ?_⟩
  · unfold mcTimeCorrelationsF mcTimeCorrelations correlationsF correlationsAt
    rw [piF_exact, hr]
    simp only [hdot, if_neg ht]
    rfl
  · unfold mcTimeRelaxationsF mcTimeRelaxations relaxationsF relaxationsAt
    rw [if_neg ht, piF_exact, hk]
    simp only [hdot]
  · have hi : ∀ k, idistSumF Arith.exact c.p d k = idistSum c.p d k := by
      intro k
      induction k with
      | zero => rfl
      | succ k ih =>
        rw [idistSumF, idistSum, ih, hk]
        rfl
    unfold mcExpectedTransitionsF mcExpectedTransitions
    rw [if_pos hs, hi]
    rfl

/-- The hypotheses of C177 can be met by an arithmetic that rounds. -/
example : (Arith.rounded exShrink).Sound (1 / 1000) ∧ exLoop.Valid ∧
    IsClasses (fun i j : Fin 2 => exLoop.p i j) [[0, 1]] ∧
    (validateTimePoints (.list [.int 2, .int 0] : PyVal ℚ)).toOption.map OneOrMany.toList = some [0, 2] :=
  ⟨exShrink_sound, by decide +kernel, by decide +kernel, by decide +kernel⟩

end Verif
