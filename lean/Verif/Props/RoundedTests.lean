import Verif.Lemmas.Double
import Verif.Props.Lump
import Verif.Props.Monotone
import Verif.Props.RoundedMeasures

/-!
# C161, C162: tests that compare rounded numbers exactly

`lump` and `lumping_partitions` (`generators.py:857-884`, `computations.py:214-268`) compare two matrices of
rounded numbers with `np.array_equal`, and `is_stochastically_monotone` (`markov_chain.py:738-759`) compares
rounded sums with `<`. In exact arithmetic these tests are right (`C22`, `C36`).
-/

set_option linter.unusedSectionVars false

namespace Verif

open Finset

variable {K : Type} [Field K] [LinearOrder K] [IsStrictOrderedRing K] {F : Arith K} {u : K}

/-! ## Lumping -/

theorem matMulF_exact {m n k : ℕ} (A : Matrix (Fin m) (Fin n) K) (B : Matrix (Fin n) (Fin k) K) :
    matMulF Arith.exact (fun i j => A i j) (fun i j => B i j) = fun i j => (A * B) i j := by
  funext i j
  unfold matMulF Arith.exact
  rw [Matrix.mul_apply]
  simp only [List.map_ofFn, List.sum_ofFn, Function.comp_def]

theorem groupGramF_exact {n : ℕ} {g : List (List (Fin n))} (hnd : g.flatten.Nodup) (a : Fin g.length) :
    groupGramF (Arith.exact (K := K)) g a a = ((g.get a).length : K) := by
  have h := congrFun (congrFun (matMulF_exact (indicator g : Matrix (Fin n) (Fin g.length) K).transpose
    (indicator g)) a) a
  refine h.trans ?_
  rw [indicator_gram hnd, Matrix.diagonal_apply_eq]

theorem groupMeansF_exact {n : ℕ} {g : List (List (Fin n))} (hnd : g.flatten.Nodup) :
    groupMeansF (Arith.exact (K := K)) g = fun a i => (avgMatrix g : Matrix (Fin g.length) (Fin n) K) a i := by
  have h := matMulF_exact (Matrix.diagonal fun a : Fin g.length => (1 : K) / ((g.get a).length : K))
    (indicator g : Matrix (Fin n) (Fin g.length) K).transpose
  have h' : groupMeansF (Arith.exact (K := K)) g = matMulF Arith.exact
      (fun i j => (Matrix.diagonal fun a : Fin g.length => (1 : K) / ((g.get a).length : K)) i j)
      (fun i j => (indicator g : Matrix (Fin n) (Fin g.length) K).transpose i j) := by
    unfold groupMeansF
    simp only
    congr 1
    funext a b
    rw [groupGramF_exact hnd, Matrix.diagonal_apply]
    rfl
  rw [h', h]
  funext a i
  rw [Matrix.diagonal_mul, Matrix.transpose_apply]
  unfold indicator avgMatrix
  split
  · rw [mul_one, one_div]
  · rw [mul_zero]

/-- In exact arithmetic the test is the one of `C22`. -/
theorem lumpableF_exact {n : ℕ} (P : Matrix (Fin n) (Fin n) K) {g : List (List (Fin n))}
    (hnd : g.flatten.Nodup) (hall : ∀ i, i ∈ g.flatten) :
    lumpableF Arith.exact P g = true ↔ lumpingMatrix P g = some (avgMatrix g) := by
  obtain ⟨cls, hcls⟩ := exists_group hall
  have hne : (∀ a, groupGramF (Arith.exact (K := K)) g a a ≠ 0) ↔ ∀ A ∈ g, A ≠ [] := by
    constructor
    · intro h A hA e
      obtain ⟨a, rfl⟩ := List.get_of_mem hA
      exact h a (by rw [groupGramF_exact hnd, e]; simp)
    · intro h a e
      rw [groupGramF_exact hnd, Nat.cast_eq_zero, List.length_eq_zero_iff] at e
      exact h _ (List.get_mem g a) e
  have hprod : (∀ i a, matMulF Arith.exact (matMulF Arith.exact (matMulF Arith.exact
      (indicator g : Matrix (Fin n) (Fin g.length) K) (groupMeansF Arith.exact g)) fun i j => P i j)
        (indicator g : Matrix (Fin n) (Fin g.length) K) i a = matMulF Arith.exact (fun i j => P i j)
          (indicator g : Matrix (Fin n) (Fin g.length) K) i a) ↔
      (indicator g * avgMatrix g * P * indicator g : Matrix (Fin n) (Fin g.length) K) = P * indicator g := by
    have h1 : matMulF Arith.exact (indicator g : Matrix (Fin n) (Fin g.length) K) (groupMeansF Arith.exact g) =
        fun i j => (indicator g * avgMatrix g : Matrix (Fin n) (Fin n) K) i j := by
      rw [groupMeansF_exact hnd]
      exact matMulF_exact _ _
    rw [h1, matMulF_exact]
    have h2 := matMulF_exact ((indicator g : Matrix (Fin n) (Fin g.length) K) * avgMatrix g * P) (indicator g)
    have h3 := matMulF_exact P (indicator g : Matrix (Fin n) (Fin g.length) K)
    constructor
    · intro h
      ext i a
      exact ((congrFun (congrFun h2 i) a).symm.trans (h i a)).trans (congrFun (congrFun h3 i) a)
    · intro h i a
      exact ((congrFun (congrFun h2 i) a).trans (congrFun (congrFun h i) a)).trans
        (congrFun (congrFun h3 i) a).symm
  unfold lumpableF
  simp only [Bool.and_eq_true, decide_eq_true_eq]
  rw [hne, lumpingMatrix_spec P hnd hall]
  constructor
  · rintro ⟨h1, h2⟩
    refine ⟨h1, ?_, rfl⟩
    have h3 := hprod.1 h2
    intro A hA i hi j hj B hB
    obtain ⟨a, rfl⟩ := List.get_of_mem hA
    obtain ⟨b, rfl⟩ := List.get_of_mem hB
    have key : ∀ x, moveInto P x (g.get b) = (avgMatrix g * P * indicator g : Matrix (Fin g.length) (Fin g.length) K) (cls x) b := by
      intro x
      rw [← mul_indicator, ← h3, Matrix.mul_assoc, Matrix.mul_assoc, indicator_mul hnd hcls, Matrix.mul_assoc]
    refine (key i).trans (Eq.trans ?_ (key j).symm)
    rw [group_unique hnd (hcls i) hi, group_unique hnd (hcls j) hj]
  · rintro ⟨h1, h2, -⟩
    refine ⟨h1, hprod.2 ?_⟩
    ext i b
    refine Eq.trans ?_ (mul_indicator P g i b).symm
    rw [Matrix.mul_assoc, Matrix.mul_assoc, indicator_mul hnd hcls, ← Matrix.mul_assoc,
      lumped_entry hnd h1 h2 (hcls i)]

/-- C161. Without rounding the programs are those of `C22` and `C23`. -/
theorem C161_exact {c : MC K} (hc : c.Valid) :
    (∀ v : PyVal K, lumpF Arith.exact c v = lump c v) ∧
      lumpingPartitionsF Arith.exact c = lumpingPartitions c := by
  classical
  constructor
  · intro v
    unfold lumpF lump
    cases hv : validatePartitions v c.states with
    | error e => rfl
    | ok g =>
      rw [R.ok_bind, R.ok_bind]
      split
      · rfl
      · obtain ⟨hflat, -⟩ := C05_partitions_sound hc.2.2.2.1 hv
        rw [hc.2.2.1] at hflat
        have hG := partitions_flatten hflat
        obtain ⟨G, hGd⟩ : ∃ G : List (List (Fin c.n)), G = g.map (toStates c.n) := ⟨_, rfl⟩
        rw [← hGd] at hG ⊢
        have hnd : G.flatten.Nodup := by rw [hG]; exact List.nodup_finRange _
        have hall : ∀ i, i ∈ G.flatten := by rw [hG]; exact List.mem_finRange
        have h1 := lumpableF_exact c.p hnd hall
        unfold mcLumpF mcLump
        cases hm : lumpingMatrix c.p G with
        | none =>
          have h2 : lumpableF Arith.exact c.p G = false := by
            rw [Bool.eq_false_iff, ne_eq, h1, hm]
            simp
          rw [h2]
          rfl
        | some k =>
          obtain ⟨-, -, rfl⟩ := (lumpingMatrix_spec c.p hnd hall k).1 hm
          rw [if_pos (h1.2 hm)]
          have h3 : matMulF Arith.exact (matMulF Arith.exact (groupMeansF Arith.exact G) fun i j => c.p i j)
              (indicator G : Matrix (Fin c.n) (Fin G.length) K) =
              (avgMatrix G * c.p * indicator G : Matrix (Fin G.length) (Fin G.length) K) := by
            rw [groupMeansF_exact hnd, matMulF_exact]
            exact matMulF_exact _ _
          rw [h3]
  · unfold lumpingPartitionsF lumpingPartitions
    split
    · rfl
    · refine List.filter_congr fun g hg => ?_
      obtain ⟨-, hG, -, -⟩ := (mem_possiblePartitions hc.1 g).1 hg
      have hnd : g.flatten.Nodup := by rw [hG]; exact List.nodup_finRange _
      have hall : ∀ i, i ∈ g.flatten := by rw [hG]; exact List.mem_finRange
      have h1 := lumpableF_exact c.p hnd hall
      rw [Bool.eq_iff_iff, h1, Option.isSome_iff_exists]
      exact ⟨fun h => ⟨_, h⟩, fun ⟨k, hk⟩ => by
        rw [hk, ((lumpingMatrix_spec c.p hnd hall k).1 hk).2.2]⟩

/-- What the test in rounded arithmetic establishes. -/
theorem lumpableF_sound (hF : F.Sound u) {n : ℕ} {P : Matrix (Fin n) (Fin n) K} (hP : ∀ i j, 0 ≤ P i j)
    {g : List (List (Fin n))} (hnd : g.flatten.Nodup) (h : lumpableF F P g = true) {a : Fin g.length}
    {i j : Fin n} (hi : i ∈ g.get a) (hj : j ∈ g.get a) (b : Fin g.length) :
    Acc (1 / (1 - u)) (2 * n) (moveInto P i (g.get b)) (moveInto P j (g.get b)) := by
  have h1 := hF.one_le
  have hr : ∀ x y : Fin n, x ∈ g.get a → y ∈ g.get a → ∀ d,
      (indicator g : Matrix (Fin n) (Fin g.length) K) x d = indicator g y d := by
    intro x y hx hy d
    unfold indicator
    by_cases hxd : x ∈ g.get d
    · rw [if_pos hxd, if_pos (group_unique hnd hx hxd ▸ hy)]
    · rw [if_neg hxd, if_neg fun (hyd : y ∈ g.get d) => hxd (group_unique hnd hy hyd ▸ hx)]
  unfold lumpableF at h
  simp only [Bool.and_eq_true, decide_eq_true_eq] at h
  have hri : ∀ x d, Acc (1 / (1 - u)) 0 ((indicator g : Matrix (Fin n) (Fin g.length) K) x d)
      ((indicator g : Matrix (Fin n) (Fin g.length) K) x d) := fun x d => Acc.refl (by
    unfold indicator
    split
    · exact zero_le_one
    · exact le_rfl)
  have hright : ∀ x, Acc (1 / (1 - u)) n (matMulF F (fun i j => P i j)
      (indicator g : Matrix (Fin n) (Fin g.length) K) x b) (moveInto P x (g.get b)) := by
    intro x
    have h2 := Acc.dot hF (fun y => Acc.refl (f := 1 / (1 - u)) (hP x y)) fun y => hri y b
    rw [zero_add, zero_add] at h2
    have h3 : ∑ y, P x y * (indicator g : Matrix (Fin n) (Fin g.length) K) y b = moveInto P x (g.get b) :=
      (Matrix.mul_apply).symm.trans (mul_indicator P g x b)
    rw [h3] at h2
    exact h2
  have hleft : matMulF F (matMulF F (matMulF F (indicator g : Matrix (Fin n) (Fin g.length) K)
      (groupMeansF F g)) fun i j => P i j) (indicator g : Matrix (Fin n) (Fin g.length) K) i b =
      matMulF F (matMulF F (matMulF F (indicator g : Matrix (Fin n) (Fin g.length) K)
      (groupMeansF F g)) fun i j => P i j) (indicator g : Matrix (Fin n) (Fin g.length) K) j b := by
    unfold matMulF
    simp only [hr i j hi hj]
  have heq : matMulF F (fun i j => P i j) (indicator g : Matrix (Fin n) (Fin g.length) K) i b =
      matMulF F (fun i j => P i j) (indicator g : Matrix (Fin n) (Fin g.length) K) j b :=
    (h.2 i b).symm.trans (hleft.trans (h.2 j b))
  have h4 := (hright i).symm h1
  rw [heq] at h4
  rw [two_mul]
  exact h4.trans h1 (hright j)

theorem acc_zero {f : K} (N : ℕ) : Acc f N (0 : K) 0 := ⟨le_rfl, by unfold Near; simp⟩

theorem groupGramF_acc (hF : F.Sound u) {n : ℕ} {g : List (List (Fin n))} (hnd : g.flatten.Nodup)
    (a : Fin g.length) : Acc (1 / (1 - u)) n (groupGramF F g a a) ((g.get a).length : K) := by
  have hri : ∀ x d, Acc (1 / (1 - u)) 0 ((indicator g : Matrix (Fin n) (Fin g.length) K) x d)
      ((indicator g : Matrix (Fin n) (Fin g.length) K) x d) := fun x d => Acc.refl (by
    unfold indicator
    split
    · exact zero_le_one
    · exact le_rfl)
  have h2 := Acc.dot hF (fun y => hri y a) fun y => hri y a
  rw [zero_add, zero_add] at h2
  have h3 : ∑ y, (indicator g : Matrix (Fin n) (Fin g.length) K) y a * indicator g y a =
      ((g.get a).length : K) := by
    have h4 := congrFun (congrFun (indicator_gram (K := K) hnd) a) a
    rw [Matrix.diagonal_apply_eq] at h4
    exact (Matrix.mul_apply).symm.trans h4
  rw [h3] at h2
  exact h2

theorem groupMeansF_acc (hF : F.Sound u) {n : ℕ} {g : List (List (Fin n))} (hnd : g.flatten.Nodup)
    (hne : ∀ A ∈ g, A ≠ []) (a : Fin g.length) (i : Fin n) :
    Acc (1 / (1 - u)) (n + 1 + g.length) (groupMeansF F g a i)
      ((avgMatrix g : Matrix (Fin g.length) (Fin n) K) a i) := by
  have h1 := hF.one_le
  have hri : ∀ x d, Acc (1 / (1 - u)) 0 ((indicator g : Matrix (Fin n) (Fin g.length) K) x d)
      ((indicator g : Matrix (Fin n) (Fin g.length) K) x d) := fun x d => Acc.refl (by
    unfold indicator
    split
    · exact zero_le_one
    · exact le_rfl)
  have hpos : 0 < ((g.get a).length : K) := by
    exact_mod_cast List.length_pos_iff.2 (hne _ (List.get_mem g a))
  have h2 : ∀ b, Acc (1 / (1 - u)) (n + 1) (if a = b then F.div 1 (groupGramF F g a a) else 0)
      (if a = b then 1 / ((g.get a).length : K) else 0) := by
    intro b
    by_cases hab : a = b
    · rw [if_pos hab, if_pos hab]
      have h3 := Acc.div hF (Acc.refl (f := 1 / (1 - u)) (zero_le_one (α := K))) (groupGramF_acc hF hnd a) hpos
      rw [zero_add] at h3
      exact h3
    · rw [if_neg hab, if_neg hab]
      exact acc_zero _
  have h4 := Acc.dot hF h2 fun b => hri i b
  rw [add_zero] at h4
  have h5 : ∑ b, (if a = b then 1 / ((g.get a).length : K) else 0) *
      (indicator g : Matrix (Fin n) (Fin g.length) K) i b =
      (avgMatrix g : Matrix (Fin g.length) (Fin n) K) a i := by
    rw [Finset.sum_eq_single a]
    · rw [if_pos rfl]
      unfold indicator avgMatrix
      split
      · rw [mul_one, one_div]
      · rw [mul_zero]
    · intro b _ hb
      rw [if_neg (Ne.symm hb), zero_mul]
    · intro h
      exact absurd (Finset.mem_univ a) h
  rw [h5] at h4
  exact h4

/-- C161. If `lump` returns a chain in rounded arithmetic, the groups are a partition and the chain is lumpable up
to rounding: two states of a group move into any group with probabilities that differ by a relative error of at
most `4 n u`. The probabilities of the result agree with these up to a relative error of `2 (6 n + 1) u`. The
chain need not be lumpable (`C161_accepted`), and lumpable chains may be rejected (`C161_rejected`). -/
theorem C161_lump_partial (hF : F.Sound u) {c d : MC K} (hc : c.Valid) (hu : (6 * c.n + 1 : ℕ) * u ≤ 1 / 2)
    {v : PyVal K} (h : lumpF F c v = .ok d) :
    ∃ G : List (List (Fin c.n)), IsPartition G ∧ G.flatten = List.finRange c.n ∧
      d.states = (G.map fun A => ",".intercalate (A.map c.label)) ∧
      ∃ hd : d.n = G.length, ∀ a, ∀ i ∈ G.get a, ∀ b,
        (∀ j ∈ G.get a, |moveInto c.p i (G.get b) - moveInto c.p j (G.get b)| ≤
          4 * (c.n * u) * moveInto c.p j (G.get b)) ∧
        |d.p (Fin.cast hd.symm a) (Fin.cast hd.symm b) - moveInto c.p i (G.get b)| ≤
          2 * ((6 * c.n + 1) * u) * moveInto c.p i (G.get b) := by
  have h1 := hF.one_le
  have hn := hc.1
  unfold lumpF at h
  rw [R.bind_ok] at h
  obtain ⟨g, hv, h⟩ := h
  obtain ⟨hflat, h2, hlt, -⟩ := C05_partitions_sound hc.2.2.2.1 hv
  rw [hc.2.2.1] at hflat hlt
  rw [R.ite_throw] at h
  obtain ⟨-, h⟩ := h
  have hG := partitions_flatten hflat
  have hlen : (g.map (toStates c.n)).length ≤ c.n := by rw [List.length_map]; omega
  obtain ⟨G, hGd⟩ : ∃ G : List (List (Fin c.n)), G = g.map (toStates c.n) := ⟨_, rfl⟩
  rw [← hGd] at hG h hlen
  have hnd : G.flatten.Nodup := by rw [hG]; exact List.nodup_finRange _
  have hall : ∀ i, i ∈ G.flatten := by rw [hG]; exact List.mem_finRange
  unfold mcLumpF at h
  split at h
  · rename_i hl
    rw [R.pure_ok] at h
    subst h
    have hne : ∀ A ∈ G, A ≠ [] := by
      intro A hA e
      obtain ⟨a, rfl⟩ := List.get_of_mem hA
      unfold lumpableF at hl
      simp only [Bool.and_eq_true, decide_eq_true_eq] at hl
      have h3 := groupGramF_acc hF hnd a
      rw [e] at h3
      have h4 := (h3.pos_iff h1).not.2 (by simp)
      exact hl.1 a (le_antisymm (not_lt.1 h4) (h3.nonneg h1))
    refine ⟨G, ⟨hne, hnd, hall⟩, hG, rfl, rfl, fun a i hi b => ?_⟩
    have hP : ∀ i j, 0 ≤ c.p i j := hc.2.1.1
    have hmove : ∀ j ∈ G.get a, Acc (1 / (1 - u)) (2 * c.n) (moveInto c.p i (G.get b))
        (moveInto c.p j (G.get b)) := fun j hj => lumpableF_sound hF hP hnd hl hi hj b
    have hbound : ∀ N : ℕ, N ≤ 6 * c.n + 1 → (N : K) * u ≤ 1 / 2 := fun N hN =>
      (mul_le_mul_of_nonneg_right (by exact_mod_cast hN) hF.unit_nonneg).trans hu
    constructor
    · intro j hj
      have h5 := (hmove j hj).relative hF (hbound _ (by omega))
      push_cast at h5
      linarith
    · have hk := groupMeansF_acc hF hnd hne a
      have hkp := fun j => Acc.dot hF hk fun x => Acc.refl (f := 1 / (1 - u)) (hP x j)
      have hri : ∀ x, Acc (1 / (1 - u)) 0 ((indicator G : Matrix (Fin c.n) (Fin G.length) K) x b)
          ((indicator G : Matrix (Fin c.n) (Fin G.length) K) x b) := fun x => Acc.refl (by
        unfold indicator
        split
        · exact zero_le_one
        · exact le_rfl)
      have hfin := Acc.dot hF hkp hri
      have h6 : ∑ j, (∑ x, (avgMatrix G : Matrix (Fin G.length) (Fin c.n) K) a x * c.p x j) *
          (indicator G : Matrix (Fin c.n) (Fin G.length) K) j b =
          ∑ x, (avgMatrix G : Matrix (Fin G.length) (Fin c.n) K) a x * moveInto c.p x (G.get b) := by
        simp only [Finset.sum_mul]
        rw [Finset.sum_comm]
        refine Finset.sum_congr rfl fun x _ => ?_
        rw [← mul_indicator, Matrix.mul_apply, Finset.mul_sum]
        exact Finset.sum_congr rfl fun j _ => mul_assoc _ _ _
      rw [h6] at hfin
      have h7 : ∑ x, (avgMatrix G : Matrix (Fin G.length) (Fin c.n) K) a x = 1 := by
        unfold avgMatrix
        rw [← Finset.sum_filter, Finset.sum_const, group_card hnd, nsmul_eq_mul]
        refine mul_inv_cancel₀ ?_
        exact_mod_cast (List.length_pos_iff.2 (hne _ (List.get_mem G a))).ne'
      have h8 : Acc (1 / (1 - u)) (2 * c.n)
          (∑ x, (avgMatrix G : Matrix (Fin G.length) (Fin c.n) K) a x * moveInto c.p x (G.get b))
          (∑ x, (avgMatrix G : Matrix (Fin G.length) (Fin c.n) K) a x * moveInto c.p i (G.get b)) := by
        refine Acc.total fun x => ?_
        by_cases hx : x ∈ G.get a
        · have h9 := (Acc.refl (f := 1 / (1 - u)) (x := (avgMatrix G : Matrix (Fin G.length) (Fin c.n) K) a x)
            (by unfold avgMatrix; split <;> positivity)).times h1
              (lumpableF_sound hF hP hnd hl hx hi b)
          rwa [zero_add] at h9
        · have h9 : (avgMatrix G : Matrix (Fin G.length) (Fin c.n) K) a x = 0 := by
            unfold avgMatrix
            rw [if_neg hx]
          rw [h9, zero_mul, zero_mul]
          exact acc_zero _
      rw [← Finset.sum_mul, h7, one_mul] at h8
      have h10 := (hfin.trans h1 h8).mono (M := 6 * c.n + 1) h1 (by omega)
      have h11 := h10.relative hF hu
      push_cast at h11
      exact h11
  · exact absurd h (by simp [throw, throwThe, MonadExceptOf.throw])

/-- Three states that behave alike. -/
def rowsAlike : Fin 4 → Fin 4 → ℚ :=
  ![![7 / 8, 0, 0, 1 / 8], ![7 / 8, 0, 0, 1 / 8], ![7 / 8, 0, 0, 1 / 8], ![0, 0, 0, 1]]

/-- The chain of `C161_rejected`. -/
def exAlike : MC ℚ := ⟨4, fun i j => rowsAlike i j, ["a", "b", "c", "d"]⟩

/-- Two states that differ by `2^-60`. -/
def rowsDiffer : Fin 4 → Fin 4 → ℚ :=
  ![![1 / 2, 1 / 2 ^ 60, 1 / 2 - 1 / 2 ^ 54, 1 / 2 ^ 54 - 1 / 2 ^ 60], ![1 / 2, 0, 1 / 2, 0],
    ![1 / 2, 0, 1 / 2, 0], ![1 / 2, 0, 1 / 2, 0]]

/-- The chain of `C161_accepted`. -/
def exDiffer : MC ℚ := ⟨4, fun i j => rowsDiffer i j, ["a", "b", "c", "d"]⟩

/-- Disagreement with C161: all probabilities of this chain are doubles, its first three states behave alike, and
`lump` for the group of these states succeeds in exact arithmetic. In double arithmetic it raises a `ValueError`,
because three times a third of `7/8` is not `7/8`, and `lumping_partitions` does not list the partition. -/
theorem C161_rejected :
    exAlike.Valid ∧ (∀ i j, double (rowsAlike i j) = rowsAlike i j) ∧
    (∃ d, lump exAlike (.list [.list [.int 0, .int 1, .int 2], .list [.int 3]]) = .ok d) ∧
    lumpF (Arith.rounded double) exAlike (.list [.list [.int 0, .int 1, .int 2], .list [.int 3]]) =
      .error .valueError ∧
    ([[0, 1, 2], [3]] : List (List (Fin 4))) ∈ lumpingPartitions exAlike ∧
    ([[0, 1, 2], [3]] : List (List (Fin 4))) ∉ lumpingPartitionsF (Arith.rounded double) exAlike := by
  have hv : exAlike.Valid := by decide +kernel
  have hp : validatePartitions (.list [.list [.int 0, .int 1, .int 2], .list [.int 3]] : PyVal ℚ)
      exAlike.states = .ok [[0, 1, 2], [3]] := by decide +kernel
  have hG : ([[0, 1, 2], [3]] : List (List ℕ)).map (toStates 4) =
      ([[0, 1, 2], [3]] : List (List (Fin 4))) := by decide +kernel
  have hl : Lumpable (fun i j : Fin 4 => rowsAlike i j) [[0, 1, 2], [3]] := by
    unfold Lumpable
    decide +kernel
  have hpart : IsPartition ([[0, 1, 2], [3]] : List (List (Fin 4))) := by
    unfold IsPartition
    decide +kernel
  have hf : lumpableF (Arith.rounded double) (fun i j : Fin 4 => rowsAlike i j) [[0, 1, 2], [3]] = false := by
    decide +kernel
  refine ⟨hv, by decide +kernel, ?_, ?_, ?_, ?_⟩
  · refine (C22_lump_partial hv hp).2.2.1.2 ?_
    erw [hG]
    exact ⟨hpart, hl⟩
  · unfold lumpF
    rw [hp, R.ok_bind, if_neg (by decide)]
    erw [hG]
    unfold mcLumpF
    rw [if_neg (by
      rw [Bool.not_eq_true]
      exact hf)]
    rfl
  · exact (C23_consecutive_partial hv ([[0, 1, 2], [3]] : List (List (Fin 4)))).2
      ⟨hpart, by decide, by decide, by decide, hl⟩
  · intro h
    unfold lumpingPartitionsF at h
    rw [if_neg (by decide)] at h
    have h2 := (List.mem_filter.1 h).2
    exact absurd (hf.symm.trans h2) (by decide)

/-- Disagreement with C161: all probabilities of this chain are doubles. Its first two states move into the group
of these states with different probabilities, `1/2 + 2^-60` and `1/2`, so that `lump` raises a `ValueError` in exact
arithmetic. In double arithmetic it returns a chain. -/
theorem C161_accepted :
    exDiffer.Valid ∧ (∀ i j, double (rowsDiffer i j) = rowsDiffer i j) ∧
    ¬ Lumpable (fun i j : Fin 4 => rowsDiffer i j) [[0, 1], [2, 3]] ∧
    (∀ d, lump exDiffer (.list [.list [.int 0, .int 1], .list [.int 2, .int 3]]) ≠ .ok d) ∧
    ∃ d, lumpF (Arith.rounded double) exDiffer (.list [.list [.int 0, .int 1], .list [.int 2, .int 3]]) = .ok d := by
  have hv : exDiffer.Valid := by decide +kernel
  have hp : validatePartitions (.list [.list [.int 0, .int 1], .list [.int 2, .int 3]] : PyVal ℚ)
      exDiffer.states = .ok [[0, 1], [2, 3]] := by decide +kernel
  have hG : ([[0, 1], [2, 3]] : List (List ℕ)).map (toStates 4) =
      ([[0, 1], [2, 3]] : List (List (Fin 4))) := by decide +kernel
  have hl : ¬ Lumpable (fun i j : Fin 4 => rowsDiffer i j) [[0, 1], [2, 3]] := by
    unfold Lumpable
    decide +kernel
  have hf : lumpableF (Arith.rounded double) (fun i j : Fin 4 => rowsDiffer i j) [[0, 1], [2, 3]] = true := by
    decide +kernel
  refine ⟨hv, by decide +kernel, hl, ?_, ?_⟩
  · intro d hd
    have h1 := ((C22_lump_partial hv hp).2.2.1.1 ⟨d, hd⟩).2
    erw [hG] at h1
    exact hl h1
  · unfold lumpF
    rw [hp, R.ok_bind, if_neg (by decide)]
    erw [hG]
    unfold mcLumpF
    rw [if_pos (by exact hf)]
    exact ⟨_, rfl⟩

/-- The hypotheses of `C161_lump_partial` are met: rounding to 53 bits and a chain of groups of two. -/
example : (Arith.rounded binary64).Sound (1 / 2 ^ 53) ∧ exDiffer.Valid ∧
    ((6 * exDiffer.n + 1 : ℕ) : ℚ) * (1 / 2 ^ 53) ≤ 1 / 2 ∧
    ∃ d, lumpF (Arith.rounded binary64) exDiffer (.list [.list [.int 0, .int 1], .list [.int 2, .int 3]]) = .ok d := by
  refine ⟨binary64_rounding.sound, by decide +kernel, by norm_num [exDiffer], ?_⟩
  have hp : validatePartitions (.list [.list [.int 0, .int 1], .list [.int 2, .int 3]] : PyVal ℚ)
      exDiffer.states = .ok [[0, 1], [2, 3]] := by decide +kernel
  have hG : ([[0, 1], [2, 3]] : List (List ℕ)).map (toStates 4) =
      ([[0, 1], [2, 3]] : List (List (Fin 4))) := by decide +kernel
  have hf : lumpableF (Arith.rounded binary64) (fun i j : Fin 4 => rowsDiffer i j) [[0, 1], [2, 3]] = true := by
    decide +kernel
  unfold lumpF
  rw [hp, R.ok_bind, if_neg (by decide)]
  erw [hG]
  unfold mcLumpF
  rw [if_pos (by exact hf)]
  exact ⟨_, rfl⟩

/-! ## Monotonicity -/

theorem tail_sum {n : ℕ} (m : Fin n) (f : Fin n → K) :
    (((List.finRange n).filter fun j => decide (m ≤ j)).map f).sum = ∑ j with m ≤ j, f j := by
  rw [Finset.sum_filter, ← List.sum_ofFn, List.ofFn_eq_map]
  induction List.finRange n with
  | nil => rfl
  | cons a l ih =>
    rw [List.map_cons, List.sum_cons, List.filter_cons]
    by_cases h : m ≤ a
    · rw [if_pos (by simpa using h), if_pos h, List.map_cons, List.sum_cons, ih]
    · rw [if_neg (by simpa using h), if_neg h, zero_add, ih]

/-- C162. Without rounding the test is that of `C36`. -/
theorem C162_exact (c : MC K) : isMonotoneF Arith.exact c = isMonotone c := by
  unfold isMonotoneF isMonotone Arith.exact
  simp only [tail_sum]

theorem tail_acc (hF : F.Sound u) {n : ℕ} (m : Fin n) {f : Fin n → K} (hf : ∀ j, 0 ≤ f j) :
    Acc (1 / (1 - u)) n (F.sum (((List.finRange n).filter fun j => decide (m ≤ j)).map f))
      (∑ j with m ≤ j, f j) := by
  have h := Acc.sumList hF ((List.finRange n).filter fun j => decide (m ≤ j)) (g' := f) (g := f)
    fun j _ => Acc.refl (f := 1 / (1 - u)) (hf j)
  rw [tail_sum, zero_add] at h
  exact h.mono hF.one_le ((List.length_filter_le _ _).trans (by rw [List.length_finRange]))

/-- C162. If `is_stochastically_monotone` is true in rounded arithmetic, every state has tail probabilities that are
at most those of the next state times the factor of `2 n` roundings; conversely it is true if they are smaller by
that factor. In between it may be wrong in both directions (`C162_missed`, `C162_wrong`). -/
theorem C162_monotone_partial (hF : F.Sound u) {c : MC K} (hc : c.Valid) :
    (isMonotoneF F c = true → ∀ m k l : Fin c.n, k.val + 1 = l.val →
      ∑ j with m ≤ j, c.p k j ≤ (1 / (1 - u)) ^ (2 * c.n) * ∑ j with m ≤ j, c.p l j) ∧
    ((∀ m k l : Fin c.n, 1 ≤ m.val → k.val + 1 = l.val →
      (1 / (1 - u)) ^ (2 * c.n) * ∑ j with m ≤ j, c.p k j ≤ ∑ j with m ≤ j, c.p l j) →
      isMonotoneF F c = true) := by
  have h1 := hF.one_le
  have hpow : 1 ≤ (1 / (1 - u)) ^ c.n := one_le_pow₀ h1
  have hacc : ∀ m i : Fin c.n, Acc (1 / (1 - u)) c.n
      (F.sum (((List.finRange c.n).filter fun j => decide (m ≤ j)).map fun j => c.p i j))
      (∑ j with m ≤ j, c.p i j) := fun m i => tail_acc hF m fun j => hc.2.1.1 i j
  constructor
  · intro h m k l hkl
    unfold isMonotoneF at h
    rw [decide_eq_true_eq] at h
    by_cases hm : 1 ≤ m.val
    · have h2 := not_lt.1 (h m hm k l hkl)
      have h3 := (hacc m k).near
      have h4 := (hacc m l).near
      rw [two_mul, pow_add, mul_assoc]
      exact h3.2.trans (mul_le_mul_of_nonneg_left (h2.trans h4.1) (by linarith))
    · have hu : univ.filter (m ≤ ·) = (univ : Finset (Fin c.n)) := by
        ext j
        simp only [mem_filter, mem_univ, true_and, Fin.le_def, iff_true]
        omega
      rw [hu, hc.2.1.2 k, hc.2.1.2 l, mul_one]
      exact one_le_pow₀ h1
  · intro h
    unfold isMonotoneF
    rw [decide_eq_true_eq]
    intro m hm k l hkl
    have h2 := h m k l hm hkl
    have h3 := (hacc m k).near
    have h4 := (hacc m l).near
    rw [two_mul, pow_add, mul_assoc] at h2
    have h5 := h2.trans h4.2
    refine not_lt.2 (h3.1.trans ?_)
    exact le_of_mul_le_mul_left h5 (by linarith)

/-- A monotone chain. -/
def rowsMonotone : Fin 4 → Fin 4 → ℚ :=
  ![![1 / 2 - 3 / 2 ^ 54, 1 / 2, 3 / 2 ^ 54, 0], ![1 / 2 - 3 / 2 ^ 54, 1 / 2, 1 / 2 ^ 54, 1 / 2 ^ 53], ![0, 0, 0, 1],
    ![0, 0, 0, 1]]

/-- The chain of `C162_missed`. -/
def exMonotone : MC ℚ := ⟨4, fun i j => rowsMonotone i j, ["a", "b", "c", "d"]⟩

/-- A chain that is not monotone. -/
def rowsUnordered : Fin 3 → Fin 3 → ℚ :=
  ![![1 / 2 - 1 / 2 ^ 54, 1 / 2, 1 / 2 ^ 54], ![1 / 2, 1 / 4, 1 / 4], ![0, 0, 1]]

/-- The chain of `C162_wrong`. -/
def exUnordered : MC ℚ := ⟨3, fun i j => rowsUnordered i j, ["a", "b", "c"]⟩

/-- Disagreement with C162: a monotone chain, all of whose probabilities are doubles, that the test in double
arithmetic calls not monotone. -/
theorem C162_missed : exMonotone.Valid ∧ (∀ i j, double (rowsMonotone i j) = rowsMonotone i j) ∧
    isMonotone exMonotone = true ∧ isMonotoneF (Arith.rounded double) exMonotone = false := by
  refine ⟨by decide +kernel, by decide +kernel, by decide +kernel, by decide +kernel⟩

/-- Disagreement with C162: a chain that is not monotone, all of whose probabilities are doubles, that the test in
double arithmetic calls monotone. -/
theorem C162_wrong : exUnordered.Valid ∧ (∀ i j, double (rowsUnordered i j) = rowsUnordered i j) ∧
    isMonotone exUnordered = false ∧ isMonotoneF (Arith.rounded double) exUnordered = true := by
  refine ⟨by decide +kernel, by decide +kernel, by decide +kernel, by decide +kernel⟩

/-- The hypotheses of `C162_monotone_partial` are met, also those of its second part. -/
example : (Arith.rounded binary64).Sound (1 / 2 ^ 53) ∧
    (⟨2, fun i j => ![![1 / 2, 1 / 2], ![0, 1]] i j, ["a", "b"]⟩ : MC ℚ).Valid ∧
    ∀ m k l : Fin 2, 1 ≤ m.val → k.val + 1 = l.val → (1 / (1 - 1 / 2 ^ 53 : ℚ)) ^ (2 * 2) *
      ∑ j with m ≤ j, (![![1 / 2, 1 / 2], ![0, 1]] : Fin 2 → Fin 2 → ℚ) k j ≤
      ∑ j with m ≤ j, (![![1 / 2, 1 / 2], ![0, 1]] : Fin 2 → Fin 2 → ℚ) l j := by
  refine ⟨binary64_rounding.sound, by decide +kernel, by decide +kernel⟩

end Verif
