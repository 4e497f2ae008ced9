import Verif.Model.RoundedRouwenhorst
import Verif.Props.RoundedDirichlet
import Verif.Props.RoundedChains
import Verif.Props.RoundedRandom
import Verif.Props.Rouwenhorst
import Verif.Props.RouwenhorstPowers

/-!
# The Rouwenhorst approximation in floating point (C189)
-/

namespace Verif

open Finset

variable {K : Type} [Field K] [LinearOrder K] [IsStrictOrderedRing K] {fl : K → K} {e : K}

/-- The matrix as a function of natural indices, zero outside. -/
def rwNF (fl : K → K) (z : K) (n a b : ℕ) : K :=
  if h : a < n + 2 ∧ b < n + 2 then rouwenhorstF fl z n ⟨a, h.1⟩ ⟨b, h.2⟩ else 0

/-- The sum of the four shifted blocks. -/
def rwSumF (fl : K → K) (z : K) (n a b : ℕ) : K :=
  fl (fl (fl (fl (z * rwNF fl z n a b) + (if 1 ≤ b then fl (fl (1 - z) * rwNF fl z n a (b - 1)) else 0)) +
    (if 1 ≤ a then fl (fl (1 - z) * rwNF fl z n (a - 1) b) else 0)) +
    (if 1 ≤ a ∧ 1 ≤ b then fl (z * rwNF fl z n (a - 1) (b - 1)) else 0))

omit [LinearOrder K] [IsStrictOrderedRing K] in
theorem rwNF_succ {z : K} {n a b : ℕ} (ha : a < n + 3) (hb : b < n + 3) :
    rwNF fl z (n + 1) a b = if 1 ≤ a ∧ a < n + 2 then fl (rwSumF fl z n a b / 2) else rwSumF fl z n a b := by
  conv_lhs => unfold rwNF
  rw [dif_pos ⟨by omega, by omega⟩]
  rfl

/-- C189, accuracy of the entries for the rounded `z`. -/
theorem C189_entries (h : IsRounding fl e) {z : K} (h0 : 0 ≤ z) (h1 : z ≤ 1) (n a b : ℕ) :
    Acc (1 / (1 - e)) (6 * n + 1) (rwNF fl z n a b) (rwN z n a b) := by
  have hF := h.sound
  have hf := hF.one_le
  have hq : Acc (1 / (1 - e)) 1 (fl (1 - z)) (1 - z) := h.acc (by linarith)
  have hz : Acc (1 / (1 - e)) 0 z z := Acc.refl h0
  have zero : ∀ N, Acc (1 / (1 - e)) N (0 : K) 0 := fun N => (Acc.refl le_rfl).mono hf (Nat.zero_le N)
  induction n generalizing a b with
  | zero =>
    unfold rwNF rwN
    by_cases hab : a < 2 ∧ b < 2
    · rw [dif_pos hab, dif_pos hab]
      obtain ⟨ha, hb⟩ := hab
      interval_cases a <;> interval_cases b
      · exact hz.mono hf (by omega)
      · exact hq
      · exact hq
      · exact hz.mono hf (by omega)
    · rw [dif_neg hab, dif_neg hab]; exact zero _
  | succ n ih =>
    by_cases hab : a < n + 3 ∧ b < n + 3
    · rw [rwNF_succ hab.1 hab.2, rwN_succ hab.1 hab.2]
      have m1 : ∀ a b, Acc (1 / (1 - e)) (6 * n + 3) (fl (z * rwNF fl z n a b)) (z * rwN z n a b) := fun a b =>
        (Acc.mul hF hz (ih a b)).mono hf (by omega)
      have m2 : ∀ a b, Acc (1 / (1 - e)) (6 * n + 3) (fl (fl (1 - z) * rwNF fl z n a b)) ((1 - z) * rwN z n a b) :=
        fun a b => (Acc.mul hF hq (ih a b)).mono hf (by omega)
      have t2 : Acc (1 / (1 - e)) (6 * n + 3) (if 1 ≤ b then fl (fl (1 - z) * rwNF fl z n a (b - 1)) else 0)
          (if 1 ≤ b then (1 - z) * rwN z n a (b - 1) else 0) := by
        split_ifs
        · exact m2 _ _
        · exact zero _
      have t3 : Acc (1 / (1 - e)) (6 * n + 3) (if 1 ≤ a then fl (fl (1 - z) * rwNF fl z n (a - 1) b) else 0)
          (if 1 ≤ a then (1 - z) * rwN z n (a - 1) b else 0) := by
        split_ifs
        · exact m2 _ _
        · exact zero _
      have t4 : Acc (1 / (1 - e)) (6 * n + 3) (if 1 ≤ a ∧ 1 ≤ b then fl (z * rwNF fl z n (a - 1) (b - 1)) else 0)
          (if 1 ≤ a ∧ 1 ≤ b then z * rwN z n (a - 1) (b - 1) else 0) := by
        split_ifs
        · exact m1 _ _
        · exact zero _
      have s : Acc (1 / (1 - e)) (6 * n + 6) (rwSumF fl z n a b) (rwSum z n a b) :=
        Acc.add hF (Acc.add hF (Acc.add hF (m1 a b) t2) (t3.mono hf (by omega))) (t4.mono hf (by omega))
      split_ifs
      · have d := Acc.div hF s (Acc.refl (by norm_num : (0 : K) ≤ 2)) (by norm_num)
        exact d.mono hf (by omega)
      · exact s.mono hf (by omega)
    · unfold rwNF rwN
      rw [dif_neg (by omega), dif_neg (by omega)]
      exact zero _

/-- `z` is between zero and one, and is exact for an autocorrelation near to the given one. -/
theorem rouwenhorst_z (h : IsRounding fl e) (h2 : fl 2 = 2) {r : K} (r0 : -1 ≤ r) (r1 : r ≤ 1) :
    (0 ≤ fl (fl (1 + r) / 2) ∧ fl (fl (1 + r) / 2) ≤ 1) ∧ |(2 * fl (fl (1 + r) / 2) - 1) - r| ≤ 8 * e := by
  have he0 := h.unit_nonneg
  have a0 : 0 ≤ 1 + r := by linarith
  have b0 := h.nonneg a0
  have b1 : fl (1 + r) ≤ 2 := by
    have := h.mono _ _ a0 (by linarith : 1 + r ≤ 2)
    rwa [h2] at this
  have c0 : 0 ≤ fl (1 + r) / 2 := by linarith
  have c1 : fl (fl (1 + r) / 2) ≤ 1 := by
    have := h.mono _ _ c0 (by linarith : fl (1 + r) / 2 ≤ 1)
    rwa [h.one] at this
  refine ⟨⟨h.nonneg c0, c1⟩, ?_⟩
  have q1 := h.near (1 + r)
  have q2 := h.near (fl (1 + r) / 2)
  rw [abs_of_nonneg a0] at q1
  rw [abs_of_nonneg c0] at q2
  have q1' := abs_le.1 (q1.trans (by nlinarith : e * (1 + r) ≤ 2 * e))
  have q2' := abs_le.1 (q2.trans (by nlinarith : e * (fl (1 + r) / 2) ≤ e))
  rw [abs_le]
  constructor <;> linarith

/-- C189. **The Rouwenhorst approximation in floating point**: the matrix is, entry by entry and up to a relative error of
`12 n e`, the exact matrix for an autocorrelation within `8 e` of the given one; its entries are not negative, positive
exactly where those of the exact matrix are, and its rows sum to one up to `12 n e`. -/
theorem C189_rouwenhorst (h : IsRounding fl e) (h2 : fl 2 = 2) {size alpha sigma states : PyVal K} {r : K} {c : MC K}
    (hc : approximationRouwenhorstF fl size alpha sigma (.float (.fin r)) states = .ok c)
    (hn : 6 * (c.n : K) * e ≤ 1 / 10) :
    ∃ (n : ℕ) (l : List String) (r' : K) (p' : Matrix (Fin (n + 2)) (Fin (n + 2)) K),
      c = ⟨n + 2, p', l⟩ ∧ |r' - r| ≤ 8 * e ∧
      approximationRouwenhorst size alpha sigma (.float (.fin r')) states =
        .ok ⟨n + 2, rouwenhorst ((1 + r') / 2) n, l⟩ ∧
      (∀ i j, 0 ≤ p' i j ∧ (0 < p' i j ↔ 0 < rouwenhorst ((1 + r') / 2) n i j) ∧
        |p' i j - rouwenhorst ((1 + r') / 2) n i j| ≤ 12 * c.n * e * rouwenhorst ((1 + r') / 2) n i j) ∧
      ∀ i, |∑ j, p' i j - 1| ≤ 12 * c.n * e := by
  have he0 := h.unit_nonneg
  have hF := h.sound
  unfold approximationRouwenhorstF at hc
  rw [R.bind_ok] at hc
  obtain ⟨z, hz, hc⟩ := hc
  rw [R.bind_ok] at hc
  obtain ⟨a, ha, hc⟩ := hc
  rw [R.bind_ok] at hc
  obtain ⟨s, hs, hc⟩ := hc
  rw [R.bind_ok] at hc
  obtain ⟨r1, hr, hc⟩ := hc
  rw [R.bind_ok] at hc
  obtain ⟨l, hl, hc⟩ := hc
  rw [R.pure_ok] at hc
  obtain ⟨hr', r0, r1'⟩ := validateFloat_closed hr
  have er := Flt.fin.inj (PyVal.float.inj hr')
  subst er
  have hcall : approximationRouwenhorst size alpha sigma (.float (.fin r)) states =
      .ok ⟨(z.toNat - 2) + 2, rouwenhorst ((1 + r) / 2) (z.toNat - 2), l⟩ := by
    unfold approximationRouwenhorst
    rw [hz, R.ok_bind, ha, R.ok_bind, hs, R.ok_bind, hr, R.ok_bind, hl, R.ok_bind]
    rfl
  obtain ⟨n, l', e1, -, -, hall⟩ := approximationRouwenhorst_ok hcall
  generalize z.toNat - 2 = m at hc e1
  obtain rfl : m = n := by
    have := congrArg MC.n e1
    simpa using this
  obtain rfl : l = l' := by
    have := congrArg MC.states e1
    simpa using this
  subst hc
  simp only at hn
  obtain ⟨⟨z0, z1⟩, zr⟩ := rouwenhorst_z h h2 r0 r1'
  set w := fl (fl (1 + r) / 2) with hw
  have ew : (1 + (2 * w - 1)) / 2 = w := by ring
  have hN : ((6 * m + 1 : ℕ) : K) * e ≤ 6 * ((m + 2 : ℕ) : K) * e := by
    refine mul_le_mul_of_nonneg_right ?_ he0
    exact_mod_cast (by omega : 6 * m + 1 ≤ 6 * (m + 2))
  have key : ∀ i j : Fin (m + 2), Acc (1 / (1 - e)) (6 * m + 1) (rouwenhorstF fl w m i j) (rouwenhorst w m i j) := by
    intro i j
    have := C189_entries h z0 z1 m i j
    unfold rwNF rwN at this
    rw [dif_pos ⟨i.isLt, j.isLt⟩, dif_pos ⟨i.isLt, j.isLt⟩] at this
    exact this
  have hsum : ∀ i, ∑ j, rouwenhorst w m i j = 1 := by
    intro i
    simp only [rwN_fin]
    rw [Fin.sum_univ_eq_sum_range (fun j => rwN w m i j)]
    exact rw_row_sum _ _ _ i.isLt
  refine ⟨m, l, 2 * w - 1, rouwenhorstF fl w m, rfl, zr, hall _ (by linarith) (by linarith), ?_, ?_⟩
  · intro i j
    rw [ew]
    refine ⟨(key i j).nonneg hF.one_le, (key i j).pos_iff hF.one_le, ?_⟩
    refine ((key i j).relative hF (by linarith)).trans ?_
    refine mul_le_mul_of_nonneg_right ?_ (key i j).exact_nonneg
    simp only
    linarith
  · intro i
    have t := (Acc.total (key i)).relative hF (by linarith)
    rw [hsum i, mul_one] at t
    refine t.trans ?_
    simp only
    linarith

/-- C189, entries at most one, for autocorrelations that are not negative (`z ≥ 1/2`). -/
theorem C189_unit (h : IsRounding fl e) (h1e : fl (1 + e) = 1) (h2e : fl (2 + 2 * e) = 2)
    (hhalf : fl (1 / 2) = 1 / 2) {z : K} (hz : fl z = z) (h0 : 1 / 2 ≤ z) (h1 : z ≤ 1) (n a b : ℕ) :
    rwNF fl z n a b ≤ 1 := by
  have he0 := h.unit_nonneg
  have hz0 : 0 ≤ z := by linarith
  have hq0 : 0 ≤ 1 - z := by linarith
  have q0 := h.nonneg hq0
  have qhalf : fl (1 - z) ≤ 1 / 2 := by
    have := h.mono _ _ hq0 (by linarith : 1 - z ≤ 1 / 2)
    rwa [hhalf] at this
  have qz : z + fl (1 - z) ≤ 1 + e * (1 - z) := by
    have := (abs_le.1 (h.near (1 - z))).2
    rw [abs_of_nonneg hq0] at this
    linarith
  have qz1 : z + fl (1 - z) ≤ 1 + e := by nlinarith
  have fz := fl_zero h
  have one : ∀ {x : K}, 0 ≤ x → x ≤ 1 + e → fl x ≤ 1 := fun hx hx' => by
    have := h.mono _ _ hx hx'
    rwa [h1e] at this
  have nn : ∀ n a b, 0 ≤ rwNF fl z n a b := fun n a b => (C189_entries h hz0 h1 n a b).nonneg h.sound.one_le
  induction n generalizing a b with
  | zero =>
    unfold rwNF
    by_cases hab : a < 2 ∧ b < 2
    · rw [dif_pos hab]
      obtain ⟨ha, hb⟩ := hab
      interval_cases a <;> interval_cases b
      · exact h1
      · exact (by linarith : fl (1 - z) ≤ 1)
      · exact (by linarith : fl (1 - z) ≤ 1)
      · exact h1
    · rw [dif_neg hab]; exact zero_le_one
  | succ n ih =>
    by_cases hab : a < n + 3 ∧ b < n + 3
    · rw [rwNF_succ hab.1 hab.2]
      have m1 : ∀ a b, 0 ≤ fl (z * rwNF fl z n a b) ∧ fl (z * rwNF fl z n a b) ≤ z := fun a b => by
        have p := mul_nonneg hz0 (nn n a b)
        refine ⟨h.nonneg p, ?_⟩
        have := h.mono _ _ p (mul_le_of_le_one_right hz0 (ih a b))
        rwa [hz] at this
      have m2 : ∀ a b, 0 ≤ fl (fl (1 - z) * rwNF fl z n a b) ∧ fl (fl (1 - z) * rwNF fl z n a b) ≤ fl (1 - z) :=
        fun a b => by
        have p := mul_nonneg q0 (nn n a b)
        refine ⟨h.nonneg p, ?_⟩
        have := h.mono _ _ p (mul_le_of_le_one_right q0 (ih a b))
        rwa [h.idem _ hq0] at this
      unfold rwSumF
      obtain ⟨t1, ht1⟩ : ∃ t, t = fl (z * rwNF fl z n a b) := ⟨_, rfl⟩
      obtain ⟨t2, ht2⟩ : ∃ t, t = (if 1 ≤ b then fl (fl (1 - z) * rwNF fl z n a (b - 1)) else 0) := ⟨_, rfl⟩
      obtain ⟨t3, ht3⟩ : ∃ t, t = (if 1 ≤ a then fl (fl (1 - z) * rwNF fl z n (a - 1) b) else 0) := ⟨_, rfl⟩
      obtain ⟨t4, ht4⟩ : ∃ t, t = (if 1 ≤ a ∧ 1 ≤ b then fl (z * rwNF fl z n (a - 1) (b - 1)) else 0) := ⟨_, rfl⟩
      rw [← ht1, ← ht2, ← ht3, ← ht4]
      have b1 : 0 ≤ t1 ∧ t1 ≤ z := by rw [ht1]; exact m1 a b
      have b2 : 0 ≤ t2 ∧ t2 ≤ fl (1 - z) := by
        rw [ht2]; split_ifs
        · exact m2 _ _
        · exact ⟨le_rfl, q0⟩
      have b3 : 0 ≤ t3 ∧ t3 ≤ fl (1 - z) := by
        rw [ht3]; split_ifs
        · exact m2 _ _
        · exact ⟨le_rfl, q0⟩
      have b4 : 0 ≤ t4 ∧ t4 ≤ z := by
        rw [ht4]; split_ifs
        · exact m1 _ _
        · exact ⟨le_rfl, hz0⟩
      have s12 : 0 ≤ fl (t1 + t2) ∧ fl (t1 + t2) ≤ 1 :=
        ⟨h.nonneg (by linarith), one (by linarith) (by linarith)⟩
      by_cases ha0 : a = 0
      · have e3 : t3 = 0 := by rw [ht3, if_neg (by omega)]
        have e4 : t4 = 0 := by rw [ht4, if_neg (by omega)]
        rw [if_neg (by omega), e3, e4, add_zero, add_zero]
        have c := one s12.1 (by linarith)
        exact one (h.nonneg s12.1) (by linarith)
      by_cases han : a = n + 2
      · have g : ∀ b, rwNF fl z n a b = 0 := fun b => by unfold rwNF; rw [dif_neg (by omega)]
        have e1 : t1 = 0 := by rw [ht1, g, mul_zero, fz]
        have e2 : t2 = 0 := by rw [ht2]; split_ifs <;> simp [g, fz]
        rw [if_neg (by omega), e1, e2, add_zero, fz, zero_add]
        have c : fl t3 ≤ fl (1 - z) := by
          have := h.mono _ _ b3.1 b3.2
          rwa [h.idem _ hq0] at this
        have c0 := h.nonneg b3.1
        exact one (by linarith) (by linarith)
      · rw [if_pos ⟨by omega, by omega⟩]
        have p0 : 0 ≤ fl (t1 + t2) + t3 := by linarith
        have d0 := h.nonneg p0
        have d := (abs_le.1 (h.near (fl (t1 + t2) + t3))).2
        rw [abs_of_nonneg p0] at d
        have d' : fl (fl (t1 + t2) + t3) ≤ 1 + t3 + e * (1 + fl (1 - z)) := by nlinarith
        have f : fl (fl (t1 + t2) + t3) + t4 ≤ 2 + 2 * e := by nlinarith
        have g : fl (fl (fl (t1 + t2) + t3) + t4) ≤ 2 := by
          have := h.mono _ _ (by linarith : 0 ≤ fl (fl (t1 + t2) + t3) + t4) f
          rwa [h2e] at this
        have g0 : 0 ≤ fl (fl (fl (t1 + t2) + t3) + t4) := h.nonneg (by linarith)
        exact one (by linarith) (by linarith)
    · unfold rwNF
      rw [dif_neg (by omega)]
      exact zero_le_one

/-- C189: with doubles and an autocorrelation that is not negative the matrix passes the checks of the constructor. -/
theorem C189_accepted {size alpha sigma states : PyVal ℚ} {r : ℚ} {c : MC ℚ} (hr : 0 ≤ r)
    (hc : approximationRouwenhorstF binary64 size alpha sigma (.float (.fin r)) states = .ok c)
    (hn : c.n ≤ 5000000000) : AcceptedMatrix c.p := by
  have hb := binary64_rounding
  have hnQ : (c.n : ℚ) ≤ 5000000000 := by exact_mod_cast hn
  obtain ⟨n, l, r', p', hcp, -, -, hent, hsum⟩ := C189_rouwenhorst hb (by decide +kernel) hc (by norm_num; linarith)
  have hform : ∃ m l, c = ⟨m + 2, rouwenhorstF binary64 (binary64 (binary64 (1 + r) / 2)) m, l⟩ ∧ r ≤ 1 := by
    unfold approximationRouwenhorstF at hc
    rw [R.bind_ok] at hc
    obtain ⟨z, -, hc⟩ := hc
    rw [R.bind_ok] at hc
    obtain ⟨_, -, hc⟩ := hc
    rw [R.bind_ok] at hc
    obtain ⟨_, -, hc⟩ := hc
    rw [R.bind_ok] at hc
    obtain ⟨r1, hr, hc⟩ := hc
    rw [R.bind_ok] at hc
    obtain ⟨l, -, hc⟩ := hc
    rw [R.pure_ok] at hc
    obtain ⟨hr', -, r1'⟩ := validateFloat_closed hr
    have er := Flt.fin.inj (PyVal.float.inj hr')
    subst er
    exact ⟨_, l, hc.symm, r1'⟩
  obtain ⟨m, l', hc', r1⟩ := hform
  have hz := (rouwenhorst_z hb (by decide +kernel) (by linarith : (-1 : ℚ) ≤ r) r1).1
  have hle : 0 ≤ binary64 (1 + r) / 2 := by
    have := hb.nonneg (by linarith : 0 ≤ 1 + r)
    linarith
  have hz2 : 1 / 2 ≤ binary64 (binary64 (1 + r) / 2) := by
    have g1 : 1 ≤ binary64 (1 + r) := by
      have := hb.mono 1 (1 + r) zero_le_one (by linarith)
      rwa [hb.one] at this
    have := hb.mono (1 / 2) (binary64 (1 + r) / 2) (by norm_num) (by linarith)
    rwa [show binary64 (1 / 2) = 1 / 2 by decide +kernel] at this
  have hone : ∀ i j, c.p i j ≤ 1 := by
    subst hc'
    intro i j
    have := C189_unit hb (by decide +kernel) (by decide +kernel) (by decide +kernel) (hb.idem _ hle) hz2 hz.2 m i j
    unfold rwNF at this
    rwa [dif_pos ⟨i.isLt, j.isLt⟩] at this
  subst hcp
  refine ⟨by simp only; omega, fun i j => ⟨(hent i j).1, hone i j⟩, fun i => (hsum i).trans ?_⟩
  simp only at hnQ ⊢
  norm_num at hnQ ⊢
  linarith

omit [IsStrictOrderedRing K] in
/-- C189: without rounding the method is that of C18. -/
theorem C189_exact (size alpha sigma rho states : PyVal K) :
    approximationRouwenhorstF id size alpha sigma rho states = approximationRouwenhorst size alpha sigma rho states := by
  have hm : ∀ (z : K) n, rouwenhorstF id z n = rouwenhorst z n := by
    intro z n
    induction n with
    | zero => rfl
    | succ n ih =>
      funext i j
      simp only [rouwenhorstF, rouwenhorst, ih, id]
  unfold approximationRouwenhorstF approximationRouwenhorst
  simp only [hm, id]

/-- C189 applies to doubles. -/
theorem C189_double : IsRounding binary64 (1 / 2 ^ 53) ∧ binary64 2 = 2 :=
  ⟨binary64_rounding, by decide +kernel⟩

/-- C189: with the autocorrelation 1/3 and three states the entries are rounded. -/
theorem C189_instance :
    rouwenhorstF binary64 (binary64 (binary64 (1 + binary64 (1 / 3)) / 2)) 1 0 0 ≠ rouwenhorst (2 / 3 : ℚ) 1 0 0 ∧
    |∑ j, rouwenhorstF binary64 (binary64 (binary64 (1 + binary64 (1 / 3)) / 2)) 1 1 j - 1| ≤ 1 / 2 ^ 52 := by
  decide +kernel

/-- C189: a call with doubles that is accepted. -/
theorem C189_accepts : ∃ c : MC ℚ, approximationRouwenhorstF binary64 (.int 3) (.float (.fin 0)) (.float (.fin 1))
    (.float (.fin (1 / 2))) .none = .ok c := by
  have h0 : validateInteger (.int 3 : PyVal ℚ) (some (2, false)) none = .ok 3 := by decide +kernel
  have h1 : validateFloat (.float (.fin 0) : PyVal ℚ) none none = .ok 0 := by decide +kernel
  have h2 : validateFloat (.float (.fin 1) : PyVal ℚ) (some (0, true)) none = .ok 1 := by decide +kernel
  have h3 : validateFloat (.float (.fin (1 / 2)) : PyVal ℚ) (some (-1, false)) (some (1, false)) = .ok (1 / 2) := by
    decide +kernel
  unfold approximationRouwenhorstF
  rw [h0, R.ok_bind, h1, R.ok_bind, h2, R.ok_bind, h3, R.ok_bind]
  exact ⟨_, rfl⟩

end Verif
