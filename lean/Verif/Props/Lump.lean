import Verif.Spec.Lump
import Verif.Props.Subchain

/-!
# Lumping (C22, C23)
-/

set_option linter.unusedSectionVars false

namespace Verif

variable {K : Type} [Field K] [LinearOrder K] [IsStrictOrderedRing K]

/-- The group of a state. -/
theorem exists_group {n : ℕ} {g : List (List (Fin n))} (hall : ∀ i, i ∈ g.flatten) :
    ∃ cls : Fin n → Fin g.length, ∀ i, i ∈ g.get (cls i) := by
  have : ∀ i, ∃ a : Fin g.length, i ∈ g.get a := ?_
  · exact ⟨fun i => Classical.choose (this i), fun i => Classical.choose_spec (this i)⟩
  intro i
  obtain ⟨A, hA, hi⟩ := List.mem_flatten.1 (hall i)
  obtain ⟨a, rfl⟩ := List.get_of_mem hA
  exact ⟨a, hi⟩

theorem group_unique {n : ℕ} {g : List (List (Fin n))} (hnd : g.flatten.Nodup)
    {a b : Fin g.length} {i : Fin n} (ha : i ∈ g.get a) (hb : i ∈ g.get b) : a = b := by
  have hd := (List.nodup_flatten.1 hnd).2
  rw [List.pairwise_iff_getElem] at hd
  rcases lt_trichotomy a b with h | h | h
  · exact absurd hb (fun hb => hd a b a.2 b.2 h ha hb)
  · exact h
  · exact absurd hb (fun hb => hd b a b.2 a.2 h hb ha)

theorem indicator_mul {n : ℕ} {g : List (List (Fin n))} (hnd : g.flatten.Nodup)
    {cls : Fin n → Fin g.length} (hcls : ∀ i, i ∈ g.get (cls i)) {m : ℕ}
    (M : Matrix (Fin g.length) (Fin m) K) (i : Fin n) (b : Fin m) :
    ((indicator g : Matrix (Fin n) (Fin g.length) K) * M) i b = M (cls i) b := by
  refine (Matrix.mul_apply).trans ?_
  rw [Finset.sum_eq_single (cls i)]
  · unfold indicator
    rw [if_pos (hcls i), one_mul]
  · intro a _ ha
    unfold indicator
    rw [if_neg fun h => ha (group_unique hnd h (hcls i)), zero_mul]
  · simp

theorem mul_indicator {n : ℕ} (P : Matrix (Fin n) (Fin n) K) (g : List (List (Fin n)))
    (i : Fin n) (b : Fin g.length) :
    (P * (indicator g : Matrix (Fin n) (Fin g.length) K)) i b = moveInto P i (g.get b) := by
  refine (Matrix.mul_apply).trans ?_
  unfold moveInto indicator
  rw [Finset.sum_filter]
  refine Finset.sum_congr rfl fun x _ => ?_
  rw [mul_ite, mul_one, mul_zero]

theorem group_card {n : ℕ} {g : List (List (Fin n))} (hnd : g.flatten.Nodup) (a : Fin g.length) :
    (Finset.univ.filter (· ∈ g.get a)).card = (g.get a).length := by
  have : Finset.univ.filter (· ∈ g.get a) = (g.get a).toFinset := by ext; simp
  rw [this]
  exact List.toFinset_card_of_nodup ((List.nodup_flatten.1 hnd).1 _ (List.get_mem g a))

theorem indicator_gram {n : ℕ} {g : List (List (Fin n))} (hnd : g.flatten.Nodup) :
    (indicator g : Matrix (Fin n) (Fin g.length) K).transpose * indicator g =
      Matrix.diagonal fun a => ((g.get a).length : K) := by
  ext a b
  refine (Matrix.mul_apply).trans ?_
  rw [Matrix.diagonal_apply]
  split
  · next h =>
    subst h
    rw [← group_card hnd a, ← Finset.sum_boole]
    refine Finset.sum_congr rfl fun x _ => ?_
    change indicator g x a * indicator g x a = _
    unfold indicator
    split <;> simp
  · next h =>
    refine Finset.sum_eq_zero fun x _ => ?_
    change indicator g x a * indicator g x b = 0
    unfold indicator
    by_cases hx : x ∈ g.get a
    · rw [if_neg fun hb => h (group_unique hnd hx hb), mul_zero]
    · rw [if_neg hx, zero_mul]

/-- The matrix that averages over groups. -/
def avgMatrix {n : ℕ} (g : List (List (Fin n))) : Matrix (Fin g.length) (Fin n) K :=
  fun a x => if x ∈ g.get a then ((g.get a).length : K)⁻¹ else 0

/-- The test performed by the code decides lumpability; the matrix `k` averages over groups. -/
theorem lumpingMatrix_spec {n : ℕ} (P : Matrix (Fin n) (Fin n) K) {g : List (List (Fin n))}
    (hnd : g.flatten.Nodup) (hall : ∀ i, i ∈ g.flatten) (k : Matrix (Fin g.length) (Fin n) K) :
    lumpingMatrix P g = some k ↔
      (∀ A ∈ g, A ≠ []) ∧ Lumpable P g ∧
        k = avgMatrix g := by
  obtain ⟨cls, hcls⟩ := exists_group hall
  have hdet : ((indicator g : Matrix (Fin n) (Fin g.length) K).transpose * indicator g).det = 0 ↔
      ¬ ∀ A ∈ g, A ≠ [] := by
    rw [indicator_gram hnd, Matrix.det_diagonal, Finset.prod_eq_zero_iff]
    simp only [Finset.mem_univ, true_and, Nat.cast_eq_zero, List.length_eq_zero_iff]
    constructor
    · rintro ⟨a, ha⟩ h
      exact h _ (List.get_mem g a) ha
    · intro h
      push Not at h
      obtain ⟨A, hA, h0⟩ := h
      obtain ⟨a, rfl⟩ := List.get_of_mem hA
      exact ⟨a, h0⟩
  unfold lumpingMatrix npInv
  simp only
  by_cases hne : ∀ A ∈ g, A ≠ []
  · rw [if_neg (fun h => hdet.1 h hne)]
    simp only
    have hlen : ∀ a : Fin g.length, ((g.get a).length : K) ≠ 0 := fun a h =>
      hne _ (List.get_mem g a) (List.length_eq_zero_iff.1 (Nat.cast_eq_zero.1 h))
    have hinv : ((indicator g : Matrix (Fin n) (Fin g.length) K).transpose * indicator g)⁻¹ =
        Matrix.diagonal fun a => ((g.get a).length : K)⁻¹ := by
      refine Matrix.inv_eq_left_inv ?_
      rw [indicator_gram hnd, Matrix.diagonal_mul_diagonal]
      rw [← Matrix.diagonal_one]
      congr 1
      funext a
      exact inv_mul_cancel₀ (hlen a)
    have hk : ((indicator g : Matrix (Fin n) (Fin g.length) K).transpose * indicator g)⁻¹ *
        (indicator g : Matrix (Fin n) (Fin g.length) K).transpose =
        avgMatrix g := by
      rw [hinv]
      ext a x
      refine (Matrix.diagonal_mul _ _ _ _).trans ?_
      change _ * indicator g x a = _
      unfold indicator avgMatrix
      rw [mul_ite, mul_one, mul_zero]
    generalize ((indicator g : Matrix (Fin n) (Fin g.length) K).transpose * indicator g)⁻¹ *
        (indicator g : Matrix (Fin n) (Fin g.length) K).transpose = k1 at hk
    subst hk
    have hleft : ∀ i b, ((indicator g : Matrix (Fin n) (Fin g.length) K) * avgMatrix g * P *
        indicator g : Matrix (Fin n) (Fin g.length) K) i b
        = ((g.get (cls i)).length : K)⁻¹ * ∑ x with x ∈ g.get (cls i), moveInto P x (g.get b) := by
      intro i b
      rw [Matrix.mul_assoc, Matrix.mul_assoc, indicator_mul hnd hcls]
      refine (Matrix.mul_apply).trans ?_
      rw [Finset.mul_sum, Finset.sum_filter]
      refine Finset.sum_congr rfl fun x _ => ?_
      rw [mul_indicator]
      unfold avgMatrix
      rw [ite_mul, zero_mul]
    have htest : (indicator g : Matrix (Fin n) (Fin g.length) K) * avgMatrix g * P * indicator g
        = P * indicator g ↔ Lumpable P g := by
      constructor
      · intro h A hA i hi j hj B hB
        replace h := fun i b => congrFun (congrFun h i) b
        obtain ⟨a, rfl⟩ := List.get_of_mem hA
        obtain ⟨b, rfl⟩ := List.get_of_mem hB
        have hia : cls i = a := group_unique hnd (hcls i) hi
        have hja : cls j = a := group_unique hnd (hcls j) hj
        have h1 := (h i b).symm.trans (hleft i b)
        have h2 := (h j b).symm.trans (hleft j b)
        rw [mul_indicator] at h1 h2
        rw [h1, h2, hia, hja]
      · intro h
        ext i b
        rw [hleft, mul_indicator]
        have : ∑ x with x ∈ g.get (cls i), moveInto P x (g.get b) =
            ∑ x with x ∈ g.get (cls i), moveInto P i (g.get b) :=
          Finset.sum_congr rfl fun x hx => h _ (List.get_mem g (cls i)) _ (Finset.mem_filter.1 hx).2
            _ (hcls i) _ (List.get_mem g b)
        rw [this, Finset.sum_const, group_card hnd, nsmul_eq_mul, ← mul_assoc,
          inv_mul_cancel₀ (hlen _), one_mul]
    by_cases hl : Lumpable P g
    · rw [if_pos (htest.2 hl), Option.some_inj]
      exact ⟨fun h => ⟨hne, hl, h.symm⟩, fun h => h.2.2.symm⟩
    · rw [if_neg (mt htest.1 hl)]
      exact ⟨fun h => absurd h (by simp), fun h => absurd h.2.1 hl⟩
  · rw [if_pos (hdet.2 hne)]
    exact ⟨fun h => absurd h (by simp), fun h => absurd h.1 hne⟩

/-- The lumped matrix holds the common probabilities of moving between groups. -/
theorem lumped_entry {n : ℕ} {P : Matrix (Fin n) (Fin n) K} {g : List (List (Fin n))}
    (hnd : g.flatten.Nodup) (hne : ∀ A ∈ g, A ≠ []) (hl : Lumpable P g)
    {a : Fin g.length} {i : Fin n} (hi : i ∈ g.get a) (b : Fin g.length) :
    (avgMatrix g * P * indicator g : Matrix (Fin g.length) (Fin g.length) K) a b = moveInto P i (g.get b) := by
  rw [Matrix.mul_assoc]
  refine (Matrix.mul_apply).trans ?_
  have : ∀ x, (if x ∈ g.get a then ((g.get a).length : K)⁻¹ else 0) *
      (P * indicator g : Matrix (Fin n) (Fin g.length) K) x b =
      if x ∈ g.get a then ((g.get a).length : K)⁻¹ * moveInto P i (g.get b) else 0 := by
    intro x
    rw [mul_indicator, ite_mul, zero_mul]
    split
    · next hx => rw [hl _ (List.get_mem g a) x hx i hi _ (List.get_mem g b)]
    · rfl
  refine (Finset.sum_congr rfl fun x _ => this x).trans ?_
  rw [← Finset.sum_filter, Finset.sum_const, group_card hnd, nsmul_eq_mul, ← mul_assoc,
    mul_inv_cancel₀, one_mul]
  intro h
  exact hne _ (List.get_mem g a) (List.length_eq_zero_iff.1 (Nat.cast_eq_zero.1 h))

theorem moveInto_sum {n : ℕ} {g : List (List (Fin n))} (hnd : g.flatten.Nodup)
    {cls : Fin n → Fin g.length} (hcls : ∀ i, i ∈ g.get (cls i)) (f : Fin n → K) :
    ∑ b, ∑ x with x ∈ g.get b, f x = ∑ x, f x := by
  rw [← Finset.sum_fiberwise (s := Finset.univ) (g := cls)]
  refine Finset.sum_congr rfl fun b _ => ?_
  refine Finset.sum_congr ?_ fun _ _ => rfl
  ext x
  simp only [Finset.mem_filter, Finset.mem_univ, true_and]
  exact ⟨fun h => group_unique hnd (hcls x) h, fun h => h ▸ hcls x⟩

/-- If the entries of `Q` are the probabilities of moving between groups, then the process of the
groups is a Markov chain with matrix `Q`. -/
theorem lumped_law {n m : ℕ} {P : Matrix (Fin n) (Fin n) K} {Q : Matrix (Fin m) (Fin m) K}
    {cls : Fin n → Fin m} (h : ∀ i b, Q (cls i) b = ∑ x with cls x = b, P i x)
    (k : ℕ) (i : Fin n) (f : List (Fin m) → K) :
    expect P k i (fun w => f (w.map cls)) = expect Q k (cls i) f := by
  induction k generalizing i f with
  | zero => simp [expect]
  | succ k ih =>
    simp only [expect, List.map_cons]
    rw [← Finset.sum_fiberwise (s := Finset.univ) (g := cls)]
    refine Finset.sum_congr rfl fun b _ => ?_
    refine Eq.trans ?_ (congrArg (· * expect Q k b fun w => f (b :: w)) (h i b)).symm
    rw [Finset.sum_mul]
    refine Finset.sum_congr rfl fun x hx => ?_
    rw [← (Finset.mem_filter.1 hx).2]
    exact congrArg (P i x * ·) (ih x fun w => f (cls x :: w))

/-- The groups of states named by an accepted list of groups. -/
theorem partitions_flatten {n : ℕ} {g : List (List ℕ)} (h : g.flatten = List.range n) :
    (g.map (toStates n)).flatten = List.finRange n := by
  have hlt : ∀ A ∈ g, ∀ k ∈ A, k < n := by
    intro A hA k hk
    rw [← List.mem_range, ← h]
    exact List.mem_flatten.2 ⟨A, hA, hk⟩
  have h1 : ((g.map (toStates n)).flatten).map Fin.val = List.range n := by
    rw [← h, List.map_flatten, List.map_map]
    congr 1
    conv_rhs => rw [← List.map_id g]
    exact List.map_congr_left fun A hA => toStates_val (hlt A hA)
  refine List.map_injective_iff.2 Fin.val_injective ?_
  rw [h1, List.map_coe_finRange_eq_range]

/-- C22. For a list of groups that the validation lets through (the groups list all states in their
order, see `C05_partitions_sound`), `lump` succeeds exactly when the groups form a partition and the
chain is strongly lumpable. The result then has one state for each group, is stochastic, and its
law for any number of steps is that of the groups of the original chain.
The validation lets through no other partitions (`C22_order_required`), and the labels of the
result need not be distinct (`C22_duplicate_labels`). -/
theorem C22_lump_partial {c : MC K} (hc : c.Valid) {v : PyVal K} {g : List (List ℕ)}
    (hv : validatePartitions v c.states = .ok g) :
    let G : List (List (Fin c.n)) := g.map (toStates c.n)
    G.map (List.map Fin.val) = g ∧ G.flatten = List.finRange c.n ∧
    ((∃ d, lump c v = .ok d) ↔ IsPartition G ∧ Lumpable c.p G) ∧
    ∀ d, lump c v = .ok d → IsStochastic d.p ∧ 2 ≤ d.n ∧ d.n < c.n ∧
      ∃ h : d.n = G.length, ∃ cls : Fin c.n → Fin d.n,
        (∀ i a, cls i = a ↔ i ∈ G.get (Fin.cast h a)) ∧
        (∀ i b, d.p (cls i) b = moveInto c.p i (G.get (Fin.cast h b))) ∧
        (∀ k i f, expect c.p k i (fun w => f (w.map cls)) = expect d.p k (cls i) f) ∧
        d.states = G.map fun A => ",".intercalate (A.map c.label) := by
  intro G
  obtain ⟨hflat, h2, hlt, -⟩ := C05_partitions_sound hc.2.2.2.1 hv
  rw [hc.2.2.1] at hflat hlt
  have hG : G.flatten = List.finRange c.n := partitions_flatten hflat
  have hnd : G.flatten.Nodup := by rw [hG]; exact List.nodup_finRange _
  have hall : ∀ i, i ∈ G.flatten := by rw [hG]; exact List.mem_finRange
  have hlen : G.length = g.length := List.length_map _
  have hmap : G.map (List.map Fin.val) = g := by
    rw [List.map_map]
    conv_rhs => rw [← List.map_id g]
    refine List.map_congr_left fun A hA => toStates_val fun k hk => ?_
    rw [← List.mem_range, ← hflat]
    exact List.mem_flatten.2 ⟨A, hA, hk⟩
  have hlump : lump c v = mcLump c G := by
    unfold lump
    rw [hv, R.ok_bind, if_neg (by omega)]
  have hok : ∀ d, lump c v = .ok d ↔ (∀ A ∈ G, A ≠ []) ∧ Lumpable c.p G ∧
      d = ⟨G.length, avgMatrix G * c.p * indicator G,
        G.map fun C => ",".intercalate (C.map c.label)⟩ := by
    intro d
    rw [hlump]
    unfold mcLump
    have hspec := lumpingMatrix_spec c.p hnd hall
    cases hm : lumpingMatrix c.p G with
    | none =>
      simp only
      refine ⟨fun h => by simp [throw, throwThe, MonadExceptOf.throw] at h, ?_⟩
      rintro ⟨h1, h3, -⟩
      rw [(hspec _).2 ⟨h1, h3, rfl⟩] at hm
      cases hm
    | some k =>
      obtain ⟨h1, h3, rfl⟩ := (hspec k).1 hm
      simp only
      rw [R.pure_ok]
      exact ⟨fun h => ⟨h1, h3, h.symm⟩, fun h => h.2.2.symm⟩
  refine ⟨hmap, hG, ⟨?_, ?_⟩, ?_⟩
  · rintro ⟨d, hd⟩
    obtain ⟨h1, h3, -⟩ := (hok d).1 hd
    exact ⟨⟨h1, hnd, hall⟩, h3⟩
  · rintro ⟨⟨h1, -, -⟩, h3⟩
    exact ⟨_, (hok _).2 ⟨h1, h3, rfl⟩⟩
  · intro d hd
    obtain ⟨hne, hl, rfl⟩ := (hok d).1 hd
    obtain ⟨cls, hcls⟩ := exists_group hall
    have hentry : ∀ i b, (avgMatrix G * c.p * indicator G : Matrix (Fin G.length) (Fin G.length) K) (cls i) b =
          moveInto c.p i (G.get b) := fun i b => lumped_entry hnd hne hl (hcls i) b
    have hsurj : ∀ a : Fin G.length, ∃ i, cls i = a := by
      intro a
      obtain ⟨i, hi⟩ := List.exists_mem_of_ne_nil _ (hne _ (List.get_mem G a))
      exact ⟨i, group_unique hnd (hcls i) hi⟩
    have hmem : ∀ i a, cls i = a ↔ i ∈ G.get a := fun i a =>
      ⟨fun h => h ▸ hcls i, fun h => group_unique hnd (hcls i) h⟩
    refine ⟨⟨?_, ?_⟩, by change 2 ≤ G.length; omega, by change G.length < c.n; omega, rfl, cls,
      hmem, hentry, ?_, rfl⟩
    · intro a b
      obtain ⟨i, rfl⟩ := hsurj a
      refine le_of_le_of_eq ?_ (hentry i b).symm
      exact Finset.sum_nonneg fun x _ => hc.2.1.1 i x
    · intro a
      obtain ⟨i, rfl⟩ := hsurj a
      refine (Finset.sum_congr rfl fun b _ => hentry i b).trans ?_
      rw [← hc.2.1.2 i]
      exact moveInto_sum hnd hcls fun x => c.p i x
    · intro k i f
      refine lumped_law (P := c.p) (cls := cls) (fun i b => (hentry i b).trans ?_) k i f
      unfold moveInto
      refine Finset.sum_congr ?_ fun _ _ => rfl
      ext x
      simp only [Finset.mem_filter, Finset.mem_univ, true_and]
      exact (hmem x b).symm

/-- A chain that can be lumped in two ways. -/
def exLump : MC ℚ := ⟨3, !![0, 1 / 2, 1 / 2; 1 / 2, 0, 1 / 2; 1 / 2, 1 / 2, 0], ["a", "b", "a,b"]⟩

/-- The hypotheses of `C22_lump_partial` are met, and the chain is lumpable. -/
example : exLump.Valid := by decide +kernel

example : validatePartitions (.list [.list [.int 0, .int 1], .list [.int 2]] : PyVal ℚ)
    exLump.states = .ok [[0, 1], [2]] := by decide +kernel

theorem exLump_lumpable : Lumpable (fun i j : Fin 3 => exLump.p i j) [[0, 1], [2]] := by
  unfold Lumpable
  decide +kernel

theorem exLump_lumpable' : Lumpable (fun i j : Fin 3 => exLump.p i j) [[0, 2], [1]] := by
  unfold Lumpable
  decide +kernel

/-- Disagreement with C22: the chain is lumpable with respect to the groups `{a, a,b}` and `{b}`,
but the argument is rejected because the states are not listed in their order. -/
theorem C22_order_required :
    exLump.Valid ∧ Lumpable (fun i j : Fin 3 => exLump.p i j) [[0, 2], [1]] ∧
    lump exLump (.list [.list [.int 0, .int 2], .list [.int 1]]) = .error .valueError := by
  refine ⟨by decide +kernel, exLump_lumpable', ?_⟩
  have h : validatePartitions (.list [.list [.int 0, .int 2], .list [.int 1]] : PyVal ℚ)
      exLump.states = .error .valueError := by decide +kernel
  unfold lump
  rw [h]
  rfl

/-- Disagreement with C22: the labels of the groups are joined with commas, so two groups can get
the same label. -/
theorem C22_duplicate_labels :
    exLump.Valid ∧ ∃ d, lump exLump (.list [.list [.int 0, .int 1], .list [.int 2]]) = .ok d ∧
      d.states = ["a,b", "a,b"] ∧ ¬ d.Valid := by
  have hv : exLump.Valid := by decide +kernel
  have h : validatePartitions (.list [.list [.int 0, .int 1], .list [.int 2]] : PyVal ℚ)
    exLump.states = .ok [[0, 1], [2]] := by decide +kernel
  obtain ⟨-, -, hok, hres⟩ := C22_lump_partial hv h
  have hp : IsPartition ([[0, 1], [2]] : List (List (Fin 3))) := by
    unfold IsPartition
    decide +kernel
  obtain ⟨d, hd⟩ := hok.2 ⟨hp, exLump_lumpable⟩
  obtain ⟨-, -, -, -, -, -, -, -, hs⟩ := hres d hd
  have hs' : d.states = ["a,b", "a,b"] := hs.trans (by decide +kernel)
  refine ⟨hv, d, hd, hs', fun hval => ?_⟩
  have := hval.2.2.2.1
  rw [hs'] at this
  exact absurd this (by decide)

/-! ## The list of all partitions -/

theorem cutAt_flatten {n : ℕ} (i : ℕ) (xs subset : List (Fin n))
    (hlast : ∀ h : xs ≠ [], (xs.getLast h).val = n - 1) (hs : xs = [] → subset = []) :
    (cutAt i xs subset).flatten = subset ++ xs ∧ ∀ A ∈ cutAt i xs subset, A ≠ [] := by
  induction xs generalizing subset with
  | nil => simp [cutAt, hs rfl]
  | cons x xs ih =>
    have hlast' : ∀ h : xs ≠ [], (xs.getLast h).val = n - 1 := by
      intro h
      rw [← hlast (by simp), List.getLast_cons h]
    unfold cutAt
    split
    · obtain ⟨h1, h2⟩ := ih [] hlast' fun _ => rfl
      refine ⟨by rw [List.flatten_cons, h1]; simp, ?_⟩
      intro A hA
      rcases List.mem_cons.1 hA with rfl | hA
      · simp
      · exact h2 A hA
    · next hc =>
      have hne : xs ≠ [] := by
        rintro rfl
        have := hlast (by simp)
        simp at this hc
        omega
      obtain ⟨h1, h2⟩ := ih (subset ++ [x]) hlast' fun h => absurd h hne
      exact ⟨by rw [h1]; simp, h2⟩

/-- Whether a group ends at the position. -/
def cutsAt {n : ℕ} (i : ℕ) (x : Fin n) : Bool := i.testBit x || decide (x.val = n - 1)

theorem cutAt_group {n : ℕ} (i : ℕ) (A rest subset : List (Fin n)) (y : Fin n)
    (hA : ∀ x ∈ A, cutsAt i x = false) (hy : cutsAt i y = true) :
    cutAt i (A ++ y :: rest) subset = (subset ++ A ++ [y]) :: cutAt i rest [] := by
  induction A generalizing subset with
  | nil =>
    rw [List.nil_append, cutAt, if_pos (by exact hy), List.append_nil]
  | cons x A ih =>
    have hx := hA x (by simp)
    rw [List.cons_append, cutAt, if_neg (by rw [Bool.not_eq_true]; exact hx),
      ih _ fun z hz => hA z (by simp [hz])]
    simp

/-- The last states of the groups. -/
def groupEnds {n : ℕ} (g : List (List (Fin n))) : List (Fin n) := g.filterMap List.getLast?

theorem cutAt_ends {n : ℕ} (i : ℕ) (g : List (List (Fin n))) (hne : ∀ A ∈ g, A ≠ [])
    (hnd : g.flatten.Nodup)
    (h : ∀ x ∈ g.flatten, cutsAt i x = true ↔ x ∈ groupEnds g) : cutAt i g.flatten [] = g := by
  induction g with
  | nil => simp [cutAt]
  | cons A g ih =>
    have hA := hne A (by simp)
    obtain ⟨B, y, rfl⟩ : ∃ B y, A = B ++ [y] := ⟨_, _, (List.dropLast_concat_getLast hA).symm⟩
    have hends : groupEnds ((B ++ [y]) :: g) = y :: groupEnds g := by
      simp [groupEnds]
    have hsub : ∀ x ∈ groupEnds g, x ∈ g.flatten := by
      intro x hx
      obtain ⟨C, hC, hl⟩ := List.mem_filterMap.1 hx
      exact List.mem_flatten.2 ⟨C, hC, List.mem_of_getLast? hl⟩
    rw [List.flatten_cons] at hnd h ⊢
    obtain ⟨hnd1, hnd2, hdis⟩ := List.nodup_append.1 hnd
    have hnd3 := (List.nodup_append.1 hnd1).2.2
    rw [List.append_assoc, List.singleton_append, cutAt_group, ih]
    · simp
    · exact fun C hC => hne C (by simp [hC])
    · exact hnd2
    · intro x hx
      rw [h x (List.mem_append_right _ hx), hends, List.mem_cons]
      refine ⟨fun h => h.resolve_left ?_, Or.inr⟩
      rintro rfl
      exact hdis x (by simp) x hx rfl
    · intro x hx
      rw [← Bool.not_eq_true, h x (by simp [hx]), hends, List.mem_cons]
      rintro (rfl | hx')
      · exact hnd3 x hx x (by simp) rfl
      · exact hdis x (by simp [hx]) x (hsub x hx') rfl
    · rw [h y (by simp), hends]
      simp

theorem mem_possiblePartitions {n : ℕ} (hn : 2 ≤ n) (g : List (List (Fin n))) :
    g ∈ possiblePartitions n ↔
      (∀ A ∈ g, A ≠ []) ∧ g.flatten = List.finRange n ∧ 2 ≤ g.length ∧ g.length < n := by
  have hlast : ∀ h : List.finRange n ≠ [], ((List.finRange n).getLast h).val = n - 1 := by
    intro h
    rw [List.getLast_eq_getElem]
    simp
  unfold possiblePartitions
  rw [List.mem_filter, List.mem_map, Bool.and_eq_true, decide_eq_true_eq, decide_eq_true_eq]
  constructor
  · rintro ⟨⟨i, -, rfl⟩, h2, h3⟩
    obtain ⟨h4, h5⟩ := cutAt_flatten i (List.finRange n) [] hlast fun _ => rfl
    exact ⟨h5, by simpa using h4, h2, h3⟩
  · rintro ⟨hne, hflat, h2, h3⟩
    refine ⟨?_, h2, h3⟩
    have hnd : g.flatten.Nodup := by rw [hflat]; exact List.nodup_finRange n
    refine ⟨Nat.ofBits fun x : Fin (n - 1) => decide ((⟨x, by omega⟩ : Fin n) ∈ groupEnds g),
      List.mem_range.2 (Nat.ofBits_lt_two_pow _), ?_⟩
    rw [← hflat]
    refine cutAt_ends _ g hne hnd ?_
    intro x _
    unfold cutsAt
    by_cases hx : x.val < n - 1
    · rw [Nat.testBit_ofBits_lt _ _ hx]
      simp [show x.val ≠ n - 1 by omega]
    · have hx' : x.val = n - 1 := by omega
      rw [hx']
      simp only [decide_true, Bool.or_true, true_iff]
      have hg : g ≠ [] := by rintro rfl; simp at h2
      obtain ⟨g', A, rfl⟩ : ∃ g' A, g = g' ++ [A] :=
        ⟨_, _, (List.dropLast_concat_getLast hg).symm⟩
      have hA : A ≠ [] := hne A (by simp)
      have hl : (List.finRange n).getLast? = A.getLast? := by
        rw [← hflat, List.flatten_append, List.flatten_singleton, List.getLast?_append]
        rw [List.getLast?_eq_some_getLast hA]
        rfl
      have hf : (List.finRange n).getLast? = some x := by
        have hne' : List.finRange n ≠ [] := by
          intro h0
          have := congrArg List.length h0
          simp at this
          omega
        rw [List.getLast?_eq_some_getLast hne', Option.some_inj]
        exact Fin.ext ((hlast hne').trans hx'.symm)
      exact List.mem_filterMap.2 ⟨A, by simp, hl.symm.trans hf⟩

/-- C23 for partitions into groups of consecutive states: `lumping_partitions` lists exactly the
partitions of this kind, into at least two groups but fewer groups than states, with respect to
which the chain is lumpable. Other partitions are never listed (`C23_missing`). -/
theorem C23_consecutive_partial {c : MC K} (hc : c.Valid) (g : List (List (Fin c.n))) :
    g ∈ lumpingPartitions c ↔
      IsPartition g ∧ g.flatten = List.finRange c.n ∧ 2 ≤ g.length ∧ g.length < c.n ∧
        Lumpable c.p g := by
  have hmem := mem_possiblePartitions hc.1 g
  have hiff : g ∈ lumpingPartitions c ↔
      g ∈ possiblePartitions c.n ∧ (lumpingMatrix c.p g).isSome = true := by
    unfold lumpingPartitions
    split
    · next h2 =>
      refine ⟨fun h => absurd h List.not_mem_nil, ?_⟩
      rintro ⟨h, -⟩
      have := (hmem.1 h).2.2
      omega
    · exact List.mem_filter
  rw [hiff, hmem]
  constructor
  · rintro ⟨⟨h1, h2, h3, h4⟩, h5⟩
    have hnd : g.flatten.Nodup := by rw [h2]; exact List.nodup_finRange _
    have hall : ∀ i, i ∈ g.flatten := by rw [h2]; exact List.mem_finRange
    obtain ⟨k, hk⟩ := Option.isSome_iff_exists.1 h5
    exact ⟨⟨h1, hnd, hall⟩, h2, h3, h4, ((lumpingMatrix_spec c.p hnd hall k).1 hk).2.1⟩
  · rintro ⟨⟨h1, hnd, hall⟩, h2, h3, h4, h5⟩
    exact ⟨⟨h1, h2, h3, h4⟩, Option.isSome_iff_exists.2
      ⟨_, (lumpingMatrix_spec c.p hnd hall _).2 ⟨h1, h5, rfl⟩⟩⟩

/-- A partition that is listed. -/
theorem C23_consecutive_instance :
    ([[0, 1], [2]] : List (List (Fin 3))) ∈ lumpingPartitions exLump := by
  have hp : IsPartition ([[0, 1], [2]] : List (List (Fin 3))) := by
    unfold IsPartition
    decide +kernel
  exact (C23_consecutive_partial (c := exLump) (by decide +kernel)
    ([[0, 1], [2]] : List (List (Fin 3)))).2
    ⟨hp, (by decide +kernel : ([[0, 1], [2]] : List (List (Fin 3))).flatten = List.finRange 3),
      by decide, by decide, exLump_lumpable⟩

/-- Disagreement with C23: the chain is lumpable with respect to the groups `{0, 2}` and `{1}`, and
`lumping_partitions` does not list them, in whatever order. -/
theorem C23_missing :
    exLump.Valid ∧ IsPartition ([[0, 2], [1]] : List (List (Fin 3))) ∧
    Lumpable (fun i j : Fin 3 => exLump.p i j) [[0, 2], [1]] ∧
    ∀ g ∈ lumpingPartitions exLump, ∀ A ∈ g, (0 : Fin 3) ∈ A → (2 : Fin 3) ∈ A → (1 : Fin 3) ∈ A := by
  have hv : exLump.Valid := by decide +kernel
  refine ⟨hv, ?_, exLump_lumpable', ?_⟩
  · unfold IsPartition
    decide +kernel
  · intro g hg
    have hp : g ∈ possiblePartitions 3 := by
      have := (C23_consecutive_partial hv g).1 hg
      exact (mem_possiblePartitions (by decide) g).2
        ⟨this.1.1, this.2.1, this.2.2.1, this.2.2.2.1⟩
    have hall : ∀ g ∈ possiblePartitions 3, ∀ A ∈ g, (0 : Fin 3) ∈ A → (2 : Fin 3) ∈ A →
        (1 : Fin 3) ∈ A := by decide +kernel
    exact hall g hp

end Verif
