import Verif.Model.Plotting
import Verif.Spec.Plots
import Verif.Props.Transform
import Mathlib.Tactic.FieldSimp
import Mathlib.Tactic.Linarith

/-!
# C107: the flow plot
-/

set_option linter.unusedSectionVars false

namespace Verif

variable {K : Type} [Field K] [LinearOrder K] [IsStrictOrderedRing K]

theorem clip_of_mem {x : K} (h0 : 0 ≤ x) (h1 : x ≤ 1) : clip x = x := by
  unfold clip
  rw [min_eq_left h1, max_eq_right h0]

/-- Sums over the indices up to the next one. -/
theorem sum_le_succ {n : ℕ} (f : Fin n → K) {i j : Fin n} (h : (j : ℕ) = i + 1) :
    ∑ l with l ≤ j, f l = ∑ l with l ≤ i, f l + f j := by
  have : (Finset.univ.filter fun l : Fin n => l ≤ j) = insert j (Finset.univ.filter fun l => l ≤ i) := by
    ext l
    simp only [Finset.mem_filter, Finset.mem_univ, true_and, Finset.mem_insert, Fin.le_def, Fin.ext_iff]
    omega
  rw [this, Finset.sum_insert (by simp only [Finset.mem_filter, Fin.le_def]; omega), add_comm]

theorem sum_le_first {n : ℕ} (f : Fin n → K) {i : Fin n} (h : (i : ℕ) = 0) :
    ∑ l with l ≤ i, f l = f i := by
  have : (Finset.univ.filter fun l : Fin n => l ≤ i) = {i} := by
    ext l
    simp only [Finset.mem_filter, Finset.mem_univ, true_and, Finset.mem_singleton, Fin.le_def, Fin.ext_iff]
    omega
  rw [this, Finset.sum_singleton]

theorem sum_le_last {n : ℕ} (f : Fin n → K) {i : Fin n} (h : (i : ℕ) + 1 = n) :
    ∑ l with l ≤ i, f l = ∑ l, f l := by
  rw [Finset.filter_true_of_mem]
  intro l _
  rw [Fin.le_def]
  omega

theorem sum_le_const {n : ℕ} (k : K) (i : Fin n) : ∑ _l with _l ≤ i, k = ((i : ℕ) + 1) * k := by
  rw [Finset.sum_const, nsmul_eq_mul]
  congr 1
  have : (Finset.univ.filter fun l : Fin n => l ≤ i) = Finset.Iic i := by ext; simp
  rw [this, Fin.card_Iic]
  push_cast
  ring

/-- The ends of a bar without the clipping. -/
theorem bar_eq {n : ℕ} (hn : 2 ≤ n) {x : Fin n → K} (hx : ∀ i, 0 ≤ x i) (hs : ∑ i, x i = 1) (i : Fin n) :
    barBottom x i = (∑ l with l ≤ i, x l - x i) * (9 / 10) + (i : ℕ) * (1 / 10 / ((n : K) - 1)) ∧
    barTop x i = (∑ l with l ≤ i, x l) * (9 / 10) + (i : ℕ) * (1 / 10 / ((n : K) - 1)) := by
  have hn1 : (0 : K) < n - 1 := by
    have : (2 : K) ≤ n := by exact_mod_cast hn
    linarith
  have hi : ((i : ℕ) : K) ≤ n - 1 := by
    have : ((i : ℕ) : K) + 1 ≤ n := by exact_mod_cast i.2
    linarith
  have hg : ((i : ℕ) : K) * (1 / 10 / (n - 1)) ≤ 1 / 10 := by
    rw [← mul_div_assoc, div_le_iff₀ hn1]
    linarith
  have hg0 : 0 ≤ ((i : ℕ) : K) * (1 / 10 / (n - 1)) := by positivity
  have hle : ∑ l with l ≤ i, x l ≤ 1 := by
    rw [← hs]
    exact Finset.sum_le_sum_of_subset_of_nonneg (Finset.filter_subset _ _) fun l _ _ => hx l
  have hge : x i ≤ ∑ l with l ≤ i, x l :=
    Finset.single_le_sum (f := x) (fun l _ => hx l) (by simp)
  have hc : cumAfter (fun l => x l * (9 / 10)) (barGap K n) i =
      (∑ l with l ≤ i, x l) * (9 / 10) + ((i : ℕ) + 1) * (1 / 10 / ((n : K) - 1)) := by
    unfold cumAfter barGap
    rw [Finset.sum_add_distrib, ← Finset.sum_mul, sum_le_const]
  have hxi := hx i
  constructor
  · unfold barBottom
    simp only
    rw [hc]
    unfold barGap
    rw [clip_of_mem] <;> nlinarith
  · unfold barTop
    simp only
    rw [hc]
    unfold barGap
    rw [clip_of_mem] <;> nlinarith

theorem bars_stacked {n : ℕ} (hn : 2 ≤ n) {x : Fin n → K} (hx : ∀ i, 0 ≤ x i) (hs : ∑ i, x i = 1) :
    Stacked (1 / 10 / ((n : K) - 1)) (barBottom x) (barTop x) 0 1 ∧
      ∀ i, barTop x i - barBottom x i = 9 / 10 * x i := by
  have hn1 : (0 : K) < n - 1 := by
    have : (2 : K) ≤ n := by exact_mod_cast hn
    linarith
  refine ⟨⟨?_, ?_, ?_⟩, ?_⟩
  · intro i hi
    rw [(bar_eq hn hx hs i).1, sum_le_first x hi, hi]
    simp
  · intro i hi
    rw [(bar_eq hn hx hs i).2, sum_le_last x hi, hs]
    have : ((i : ℕ) : K) = n - 1 := by
      have : ((i : ℕ) : K) + 1 = n := by exact_mod_cast hi
      linarith
    rw [this]
    field_simp
    norm_num
  · intro i j hj
    rw [(bar_eq hn hx hs i).2, (bar_eq hn hx hs j).1, sum_le_succ x hj, hj]
    push_cast
    ring
  · intro i
    rw [(bar_eq hn hx hs i).1, (bar_eq hn hx hs i).2]
    ring

/-- The array `bj` at the beginning of the iteration of each state. -/
theorem bandLoop_eq {n : ℕ} (q : Matrix (Fin n) (Fin n) K) (x b : Fin n → K) (l : List (Fin n)) :
    bandLoop q x b l = (List.range l.length).pmap (fun k hk => (l[k],
      fun j => b j + ((l.take k).map fun i => q i j * (x i * (9 / 10))).sum))
      (fun k hk => List.mem_range.1 hk) := by
  induction l generalizing b with
  | nil => rfl
  | cons a t ih =>
    unfold bandLoop
    rw [ih]
    refine List.ext_getElem (by simp) fun k h1 h2 => ?_
    rcases k with _ | k
    · simp
    · simp only [List.getElem_cons_succ, List.getElem_pmap, List.getElem_range, List.take_succ_cons,
        List.map_cons, List.sum_cons, Prod.mk.injEq, true_and]
      funext j
      unfold bandLeftHigh bandLeftLow
      ring

/-- The array `bj` as a function of the state. -/
theorem bandLoop_finRange {n : ℕ} (q : Matrix (Fin n) (Fin n) K) (x b : Fin n → K) :
    bandLoop q x b (List.finRange n) = (List.finRange n).map fun i =>
      (i, fun j => b j + (∑ l with l ≤ i, q l j * (x l * (9 / 10)) - q i j * (x i * (9 / 10)))) := by
  rw [bandLoop_eq]
  refine List.ext_getElem (by simp) fun k h1 h2 => ?_
  simp only [List.getElem_pmap, List.getElem_range, List.getElem_finRange, List.getElem_map,
    Prod.mk.injEq, true_and]
  funext j
  congr 1
  have hk : k < n := by simpa using h2
  rw [← List.sum_toFinset]
  · rw [eq_sub_iff_add_eq]
    have : (Finset.univ.filter fun l : Fin n => l ≤ ⟨k, hk⟩) =
        insert ⟨k, hk⟩ ((List.finRange n).take k).toFinset := by
      ext l
      simp only [Finset.mem_filter, Finset.mem_univ, true_and, Finset.mem_insert, List.mem_toFinset,
        List.mem_take_iff_getElem, List.getElem_finRange, Fin.le_def, Fin.ext_iff]
      constructor
      · intro h
        rcases Nat.lt_or_eq_of_le h with h | h
        · exact .inr ⟨l, by simp; omega, rfl⟩
        · exact .inl h
      · rintro (h | ⟨m, hm, h⟩)
        · omega
        · simp at hm h
          omega
    change _ = ∑ l with l ≤ (⟨k, hk⟩ : Fin n), _
    rw [this, Finset.sum_insert, add_comm]
    · rfl
    · simp only [List.mem_toFinset, List.mem_take_iff_getElem, List.getElem_finRange, Fin.ext_iff]
      rintro ⟨m, hm, h⟩
      simp at hm h
      omega
  · exact (List.nodup_finRange n).sublist (List.take_sublist _ _)

/-- The bands between the states. -/
def bandOf {n : ℕ} (q : Matrix (Fin n) (Fin n) K) (x y : Fin n → K) (i j : Fin n) : Band K :=
  let b := barBottom y j + (∑ l with l ≤ i, q l j * (x l * (9 / 10)) - q i j * (x i * (9 / 10)))
  { leftLow := bandLeftLow q x i j
    leftHigh := bandLeftHigh q x i j
    rightLow := b
    rightHigh := b + bandLeftHigh q x i j - bandLeftLow q x i j }

theorem flowBands_eq {n : ℕ} (q : Matrix (Fin n) (Fin n) K) (x y : Fin n → K) :
    flowBands q x y = (List.finRange n).map fun i => (i, bandOf q x y i) := by
  unfold flowBands
  rw [bandLoop_finRange, List.map_map]
  rfl

/-- The bands fill the bars at both ends. -/
theorem bands_fill {n : ℕ} (hn : 2 ≤ n) {q : Matrix (Fin n) (Fin n) K} (hq : ∀ i, ∑ j, q i j = 1)
    {x y : Fin n → K} (hx : ∀ i, 0 ≤ x i) (hs : ∑ i, x i = 1) (hy : ∀ i, 0 ≤ y i) (hys : ∑ i, y i = 1)
    (hxy : ∀ j, ∑ i, x i * q i j = y j) :
    (∀ i j, (bandOf q x y i j).leftHigh - (bandOf q x y i j).leftLow = 9 / 10 * (x i * q i j) ∧
      (bandOf q x y i j).rightHigh - (bandOf q x y i j).rightLow = 9 / 10 * (x i * q i j)) ∧
    (∀ i, Stacked 0 (fun j => (bandOf q x y i j).leftLow) (fun j => (bandOf q x y i j).leftHigh)
      (barBottom x i) (barTop x i)) ∧
    ∀ j, Stacked 0 (fun i => (bandOf q x y i j).rightLow) (fun i => (bandOf q x y i j).rightHigh)
      (barBottom y j) (barTop y j) := by
  have h1 := (bars_stacked hn hx hs).2
  have h2 := (bars_stacked hn hy hys).2
  refine ⟨?_, ?_, ?_⟩
  · intro i j
    simp only [bandOf, bandLeftHigh, bandLeftLow]
    constructor <;> ring
  · intro i
    refine ⟨?_, ?_, ?_⟩
    · intro j hj
      simp only [bandOf, bandLeftLow, rowCum]
      rw [sum_le_first _ hj]
      ring
    · intro j hj
      simp only [bandOf, bandLeftHigh, rowCum]
      rw [sum_le_last _ hj, hq]
      linarith [h1 i]
    · intro j l hl
      simp only [bandOf, bandLeftHigh, bandLeftLow, rowCum]
      rw [sum_le_succ _ hl]
      ring
  · intro j
    refine ⟨?_, ?_, ?_⟩
    · intro i hi
      simp only [bandOf]
      rw [sum_le_first _ hi]
      ring
    · intro i hi
      simp only [bandOf, bandLeftHigh, bandLeftLow]
      rw [sum_le_last _ hi]
      have : ∑ l, q l j * (x l * (9 / 10)) = y j * (9 / 10) := by
        rw [← hxy, Finset.sum_mul]
        exact Finset.sum_congr rfl fun l _ => by ring
      rw [this]
      linarith [h2 j]
    · intro i l hl
      simp only [bandOf, bandLeftHigh, bandLeftLow]
      rw [sum_le_succ _ hl]
      ring

/-- The columns that are kept. -/
theorem filter_zipIdx_range {α : Type} (f : ℕ → α) (s t : ℕ) (ht : 1 ≤ t) :
    ((((List.range (s * t + 1)).map f).zipIdx.filter fun x => decide (x.2 ∈ flowIndices s t)).map
      Prod.fst) = (List.range (s + 1)).map fun o => f (o * t) := by
  have h1 : ((List.range (s * t + 1)).map f).zipIdx = (List.range (s * t + 1)).map fun i => (f i, i) := by
    refine List.ext_getElem (by simp) fun k h1 h2 => ?_
    simp
  rw [h1, List.filter_map, List.map_map]
  have h2 : (List.range (s * t + 1)).filter ((fun x : α × ℕ => decide (x.2 ∈ flowIndices s t)) ∘
      fun i => (f i, i)) = (List.range (s + 1)).map (· * t) := by
    refine List.Perm.eq_of_pairwise (le := (· < ·)) ?_ ?_ ?_ ?_
    · intro a b _ _ h1 h2; omega
    · exact List.Pairwise.filter _ (List.pairwise_lt_range)
    · rw [List.pairwise_map]
      exact List.pairwise_lt_range.imp fun h => Nat.mul_lt_mul_of_pos_right h ht
    · rw [List.perm_ext_iff_of_nodup]
      · intro a
        simp only [flowIndices, List.mem_filter, List.mem_range, Function.comp_apply, decide_eq_true_eq,
          List.mem_map]
        constructor
        · rintro ⟨-, h⟩; exact h
        · rintro ⟨b, hb, rfl⟩
          exact ⟨Nat.lt_succ_of_le (Nat.mul_le_mul_right _ (by omega)), b, hb, rfl⟩
      · exact List.nodup_range.filter _
      · exact (List.nodup_range).map fun a b h => Nat.eq_of_mul_eq_mul_right ht h
  rw [h2, List.map_map]
  rfl

/-- C107. For every accepted call the flow plot has a column for the start and for every step. Let the
initial distribution `d` have sum one. Then the column `o` holds the distribution of the chain after
`o * interval` steps; the bars of a column are stacked from zero to one with equal gaps and have 9/10 of
the probabilities as heights. The band between a state of a column and a state of the next has, at both
ends, 9/10 of the probability to be in the first and then in the second; the bands are stacked without
gaps, and fill the bars at both ends exactly. -/
theorem C107_flow_plot_partial {c : MC K} (hc : c.Valid) {steps interval status : PyVal K}
    {f : FlowPlot K c.n} (h : plotFlow c steps interval status = .ok f) :
    ∃ (s t : ℕ) (d : Fin c.n → K), steps = .int s ∧ interval = .int t ∧ 1 ≤ s ∧ 1 ≤ t ∧
      StatusOf c.states status d ∧ f.columns.length = s + 1 ∧ f.bars.length = s + 1 ∧
      f.flows.length = s ∧
      (∑ i, d i = 1 → ∃ law : ℕ → Fin c.n → K,
        (∀ m j, law m j = ∑ i, d i * prob c.p m i (fun w => w.getLastD i = j)) ∧
        (∀ o ≤ s, f.columns[o]? = some (law (o * t))) ∧
        ∃ bar : ℕ → Fin c.n → K × K, (∀ o ≤ s, f.bars[o]? = some (bar o)) ∧
        (∀ o ≤ s, Stacked (1 / 10 / ((c.n : K) - 1)) (fun i => (bar o i).1) (fun i => (bar o i).2) 0 1 ∧
          ∀ i, (bar o i).2 - (bar o i).1 = 9 / 10 * law (o * t) i) ∧
        ∀ o < s, ∃ B : Fin c.n → Fin c.n → Band K,
          f.flows[o]? = some ((List.finRange c.n).map fun i => (i, B i)) ∧
          (∀ i j, (B i j).leftHigh - (B i j).leftLow =
              9 / 10 * (law (o * t) i * prob c.p t i (fun w => w.getLastD i = j)) ∧
            (B i j).rightHigh - (B i j).rightLow =
              9 / 10 * (law (o * t) i * prob c.p t i (fun w => w.getLastD i = j))) ∧
          (∀ i, Stacked 0 (fun j => (B i j).leftLow) (fun j => (B i j).leftHigh) (bar o i).1 (bar o i).2) ∧
          ∀ j, Stacked 0 (fun i => (B i j).rightLow) (fun i => (B i j).rightHigh)
            (bar (o + 1) j).1 (bar (o + 1) j).2) := by
  unfold plotFlow at h
  rw [R.bind_ok] at h
  obtain ⟨s, hs, h⟩ := h
  obtain ⟨rfl, hs1⟩ := validateInteger_ge hs
  rw [R.bind_ok] at h
  obtain ⟨t, ht, h⟩ := h
  obtain ⟨rfl, ht1⟩ := validateInteger_ge ht
  rw [R.bind_ok] at h
  obtain ⟨cols, hcols, h⟩ := h
  rw [R.pure_ok] at h
  unfold flowColumns at hcols
  rw [validateInteger_of_ge hs1, R.ok_bind, validateInteger_of_ge ht1, R.ok_bind, R.bind_ok] at hcols
  obtain ⟨ds, hds, hcols⟩ := hcols
  rw [R.pure_ok] at hcols
  lift s to ℕ using by omega
  lift t to ℕ using by omega
  simp only [Int.toNat_natCast] at h hcols hds
  have hlast : (flowIndices s t).getLastD 0 = s * t := by
    unfold flowIndices
    rw [List.range_succ, List.map_append]
    simp
  rw [hlast] at hds
  obtain ⟨k, d, law, hk, -, hst, hd, -, hl0, hlaw, -, hr⟩ := C15_redistribute hc hds
  obtain rfl : s * t = k := by
    have := PyVal.int.inj hk
    exact_mod_cast this
  rw [hr rfl, filter_zipIdx_range law s t (by omega)] at hcols
  subst hcols
  subst h
  refine ⟨s, t, d, rfl, rfl, by omega, by omega, hst, by simp, by simp, by simp, fun hsum => ?_⟩
  have hlaw' : ∀ m j, law m j = ∑ i, d i * prob c.p m i (fun w => w.getLastD i = j) := by
    intro m j
    rcases m with _ | m
    · rw [hl0]
      simp [prob, expect]
    · rw [hlaw _ _ (by omega), hsum, div_one]
  have hpow : ∀ m j, law m j = ∑ i, d i * (c.p ^ m) i j := by
    intro m j
    rw [hlaw']
    simp only [pow_eq_prob]
  have hP : ∀ m, IsStochastic fun i j => (c.p ^ m) i j := fun m => IsStochastic.pow hc.2.1 m
  have hnn : ∀ m j, 0 ≤ law m j := fun m j => by
    rw [hpow]
    exact Finset.sum_nonneg fun i _ => mul_nonneg (hd i) ((hP m).1 i j)
  have hone : ∀ m, ∑ j, law m j = 1 := fun m => by
    simp only [hpow]
    rw [Finset.sum_comm]
    simp only [← Finset.mul_sum, (hP m).2, mul_one, hsum]
  have hcol : ∀ o ≤ s, ((List.range (s + 1)).map fun o => law (o * t))[o]? = some (law (o * t)) := by
    intro o ho
    rw [List.getElem?_map, List.getElem?_range (by omega)]
    rfl
  refine ⟨law, hlaw', hcol, fun o i => (barBottom (law (o * t)) i, barTop (law (o * t)) i), ?_, ?_, ?_⟩
  · intro o ho
    simp only [List.getElem?_map, List.getElem?_range (by omega : o < s + 1)]
    rfl
  · intro o _
    exact bars_stacked hc.1 (hnn _) (hone _)
  · intro o ho
    refine ⟨bandOf (c.p ^ t) (law (o * t)) (law ((o + 1) * t)), ?_, ?_⟩
    · simp only [List.getElem?_map, List.length_map, List.length_range, Nat.add_sub_cancel,
        List.getElem?_range ho, Option.map_some]
      rw [flowBands_eq]
      have h1 : flowStep (flowIndices s t) o = t := by
        unfold flowStep flowIndices
        rw [List.getD_eq_getElem _ _ (by simp; omega), List.getD_eq_getElem _ _ (by simp; omega)]
        simp only [List.getElem_map, List.getElem_range]
        rw [Nat.succ_mul]
        omega
      have h2 : ∀ o ≤ s, ((List.range (s + 1)).map fun o => law (o * t)).getD o 0 = law (o * t) := by
        intro o ho
        rw [List.getD_eq_getElem?_getD, hcol o ho]
        rfl
      rw [h1, h2 o (by omega), h2 (o + 1) (by omega)]
    · have := bands_fill hc.1 (q := c.p ^ t) (hP t).2 (hnn (o * t)) (hone _) (hnn ((o + 1) * t)) (hone _) ?_
      · refine ⟨fun i j => ?_, this.2.1, this.2.2⟩
        rw [← pow_eq_prob]
        exact this.1 i j
      · intro j
        rw [hpow, Nat.succ_mul, pow_add]
        simp only [hpow, Matrix.mul_apply, Finset.sum_mul, Finset.mul_sum]
        rw [Finset.sum_comm]
        exact Finset.sum_congr rfl fun i _ => Finset.sum_congr rfl fun l _ => by ring

/-- C107, disagreement. The last column is not visible: up to nineteen steps, its bars lie entirely to
the right of the limits of the axis. -/
theorem C107_last_column_hidden {c : MC K} {steps interval status : PyVal K} {f : FlowPlot K c.n}
    (h : plotFlow c steps interval status = .ok f) (hl : f.columns.length ≤ 20) :
    f.limits.2 ≤ ((f.columns.length - 1 : ℕ) : K) - barHalf K f.columns.length := by
  unfold plotFlow at h
  rw [R.bind_ok] at h
  obtain ⟨s, hs, h⟩ := h
  obtain ⟨rfl, hs1⟩ := validateInteger_ge hs
  rw [R.bind_ok] at h
  obtain ⟨t, ht, h⟩ := h
  obtain ⟨rfl, ht1⟩ := validateInteger_ge ht
  rw [R.bind_ok] at h
  obtain ⟨cols, hcols, h⟩ := h
  rw [R.pure_ok] at h
  unfold flowColumns at hcols
  rw [validateInteger_of_ge hs1, R.ok_bind, validateInteger_of_ge ht1, R.ok_bind, R.bind_ok] at hcols
  obtain ⟨ds, hds, hcols⟩ := hcols
  rw [R.pure_ok] at hcols
  have hlen : cols.length = s.toNat + 1 := by
    unfold redistribute at hds
    rw [R.bind_ok] at hds
    obtain ⟨z, hz, hds⟩ := hds
    rw [R.bind_ok] at hds
    obtain ⟨d, -, hds⟩ := hds
    obtain ⟨hz', -⟩ := validateInteger_ge hz
    obtain rfl : ((flowIndices s.toNat t.toNat).getLastD 0 : ℤ) = z := PyVal.int.inj hz'
    have hlast : (flowIndices s.toNat t.toNat).getLastD 0 = s.toNat * t.toNat := by
      unfold flowIndices
      rw [List.range_succ, List.map_append]
      simp
    rw [hlast] at hds
    have hb : validateBoolean (.bool false : PyVal K) = .ok false := rfl
    rw [hb, R.ok_bind, R.pure_ok, if_neg (by simp), Int.toNat_natCast] at hds
    rw [← hcols, ← hds, filter_zipIdx_range _ _ _ (by omega)]
    simp
  subst h
  simp only [flowLimits, barHalf] at hl ⊢
  rw [hlen] at hl ⊢
  rw [Nat.add_sub_cancel]
  have : ((s.toNat + 1 : ℕ) : K) ≤ 20 := by exact_mod_cast hl
  linarith

/-- C107, disagreement. From twenty-one columns the bars of neighbouring columns overlap: the right end
of a bar lies beyond the left end of the next. -/
theorem C107_bars_overlap {j : ℕ} (hj : 21 ≤ j) (o : K) : o + 1 - barHalf K j < o + barHalf K j := by
  have : (21 : K) ≤ j := by exact_mod_cast hj
  unfold barHalf
  linarith

/-- C107, calls are accepted: from every number of steps and every interval. -/
theorem C107_accepts {c : MC K} (s t : ℕ) (hs : 1 ≤ s) (ht : 1 ≤ t) :
    ∃ f, plotFlow c (.int s) (.int t) .none = .ok f := by
  unfold plotFlow flowColumns redistribute
  have hlast : (flowIndices s t).getLastD 0 = s * t := by
    unfold flowIndices
    rw [List.range_succ, List.map_append]
    simp
  rw [validateInteger_of_ge (by exact_mod_cast hs), R.ok_bind, validateInteger_of_ge (by exact_mod_cast ht),
    R.ok_bind, R.ok_bind, R.ok_bind, Int.toNat_natCast, Int.toNat_natCast, hlast,
    validateInteger_of_ge (by exact_mod_cast Nat.mul_le_mul hs ht), R.ok_bind]
  exact ⟨_, rfl⟩

end Verif
