import Verif.Lemmas.Rates
import Verif.Model.Rounded
import Verif.Props.Stationary

/-!
# Rounding (C147)
-/

set_option linter.unusedSectionVars false

namespace Verif

open Finset

variable {K : Type} [Field K] [LinearOrder K] [IsStrictOrderedRing K]

/-! ## The arithmetic -/

/-- Every operation on nonnegative numbers has a relative error of at most `u`; a sum or a dot product has one
such error for every term. Neither underflow nor overflow happens. -/
structure Arith.Sound (F : Arith K) (u : K) : Prop where
  unit_nonneg : 0 ≤ u
  unit_lt : u < 1
  add : ∀ x y, 0 ≤ x → 0 ≤ y → Near (1 / (1 - u)) (F.add x y) (x + y)
  mul : ∀ x y, 0 ≤ x → 0 ≤ y → Near (1 / (1 - u)) (F.mul x y) (x * y)
  div : ∀ x y, 0 ≤ x → 0 < y → Near (1 / (1 - u)) (F.div x y) (x / y)
  sum : ∀ l : List K, (∀ x ∈ l, 0 ≤ x) → Near ((1 / (1 - u)) ^ l.length) (F.sum l) l.sum
  dot : ∀ l : List (K × K), (∀ p ∈ l, 0 ≤ p.1 ∧ 0 ≤ p.2) →
    Near ((1 / (1 - u)) ^ l.length) (F.dot l) (l.map fun p => p.1 * p.2).sum

theorem Arith.Sound.one_le {F : Arith K} {u : K} (hF : F.Sound u) : 1 ≤ 1 / (1 - u) :=
  one_le_factor hF.unit_nonneg hF.unit_lt

/-- An order in which numbers are added. -/
inductive SumTree (K : Type)
  | leaf (x : K)
  | node (l r : SumTree K)

/-- The terms. -/
def SumTree.terms : SumTree K → List K
  | .leaf x => [x]
  | .node l r => l.terms ++ r.terms

/-- The rounded sum. -/
def SumTree.eval (fl : K → K) : SumTree K → K
  | .leaf x => x
  | .node l r => fl (l.eval fl + r.eval fl)

theorem SumTree.terms_pos (t : SumTree K) : 1 ≤ t.terms.length := by
  induction t with
  | leaf x => exact le_rfl
  | node l r h1 h2 =>
    rw [terms, List.length_append]
    omega

/-- C147, sums. In whatever order nonnegative numbers are added with rounding, the relative error is at most that
of as many roundings as there are additions. -/
theorem C147_any_order {fl : K → K} {u : K} (hu0 : 0 ≤ u) (hu : u < 1) (hfl : ∀ z, |fl z - z| ≤ u * |z|)
    (t : SumTree K) (ht : ∀ x ∈ t.terms, 0 ≤ x) :
    Near ((1 / (1 - u)) ^ (t.terms.length - 1)) (t.eval fl) t.terms.sum := by
  have h1 := one_le_factor hu0 hu
  have h0 : 0 ≤ 1 / (1 - u) := by linarith
  have key : ∀ t : SumTree K, (∀ x ∈ t.terms, 0 ≤ x) → 0 ≤ t.eval fl ∧ 0 ≤ t.terms.sum ∧
      Near ((1 / (1 - u)) ^ (t.terms.length - 1)) (t.eval fl) t.terms.sum := by
    intro t
    induction t with
    | leaf x =>
      intro h
      have hx : 0 ≤ x := h x (by simp [SumTree.terms])
      simp only [SumTree.eval, SumTree.terms, List.sum_cons, List.sum_nil, add_zero, List.length_singleton,
        Nat.sub_self, pow_zero]
      exact ⟨hx, hx, Near.refl le_rfl hx⟩
    | node l r ihl ihr =>
      intro h
      obtain ⟨a1, a2, a3⟩ := ihl fun x hx => h x (by simp [SumTree.terms, hx])
      obtain ⟨b1, b2, b3⟩ := ihr fun x hx => h x (by simp [SumTree.terms, hx])
      have hl := l.terms_pos
      have hr := r.terms_pos
      obtain ⟨N, hN⟩ : ∃ N, N = (l.terms ++ r.terms).length - 2 := ⟨_, rfl⟩
      rw [List.length_append] at hN
      have hs : 0 ≤ l.eval fl + r.eval fl := add_nonneg a1 b1
      have hnear : Near ((1 / (1 - u)) ^ N) (l.eval fl + r.eval fl) (l.terms.sum + r.terms.sum) :=
        (a3.mono a1 a2 (pow_le_pow_right₀ h1 (by omega))).add (b3.mono b1 b2 (pow_le_pow_right₀ h1 (by omega)))
      have hround : Near (1 / (1 - u)) (fl (l.eval fl + r.eval fl)) (l.eval fl + r.eval fl) :=
        near_of_relative hu hu0 hs (by
          have := hfl (l.eval fl + r.eval fl)
          rwa [abs_of_nonneg hs] at this)
      rw [SumTree.eval, SumTree.terms, List.sum_append]
      refine ⟨hround.nonneg h1 hs, add_nonneg a2 b2, ?_⟩
      have := hround.trans h0 (pow_nonneg h0 _) hnear
      rw [← pow_succ'] at this
      rw [List.length_append, show l.terms.length + r.terms.length - 1 = N + 1 by omega]
      exact this
  exact (key t ht).2.2

theorem foldl_near {fl : K → K} {u : K} (hu0 : 0 ≤ u) (hu : u < 1) (hfl : ∀ z, |fl z - z| ≤ u * |z|)
    (l : List K) (hl : ∀ x ∈ l, 0 ≤ x) :
    Near ((1 / (1 - u)) ^ (l.length - 1)) (l.tail.foldl (fun x y => fl (x + y)) (l.headD 0)) l.sum := by
  cases l with
  | nil => exact Near.refl (by simp) (by simp)
  | cons x l =>
    have key : ∀ (l : List K) (t : SumTree K), ∃ t' : SumTree K,
        l.foldl (fun x y => fl (x + y)) (t.eval fl) = t'.eval fl ∧ t'.terms = t.terms ++ l := by
      intro l
      induction l with
      | nil => exact fun t => ⟨t, rfl, by simp⟩
      | cons y l ih =>
        intro t
        obtain ⟨t', h1, h2⟩ := ih (.node t (.leaf y))
        refine ⟨t', h1, ?_⟩
        rw [h2]
        simp [SumTree.terms]
    obtain ⟨t, ht, ht'⟩ := key l (.leaf x)
    have hterms : t.terms = x :: l := by rw [ht']; rfl
    have := C147_any_order hu0 hu hfl t (by rw [hterms]; exact hl)
    rw [hterms, ← ht] at this
    exact this

theorem near_map_sum {ι : Type} {t : K} {f g : ι → K} (l : List ι) (h : ∀ i ∈ l, Near t (f i) (g i)) :
    Near t (l.map f).sum (l.map g).sum := by
  induction l with
  | nil => simp [Near]
  | cons i l ih =>
    rw [List.map_cons, List.map_cons, List.sum_cons, List.sum_cons]
    exact (h i (by simp)).add (ih fun j hj => h j (by simp [hj]))

/-- The operations that round every intermediate result. -/
theorem rounded_sound {fl : K → K} {u : K} (hu0 : 0 ≤ u) (hu : u < 1) (hfl : ∀ z, |fl z - z| ≤ u * |z|) :
    (Arith.rounded fl).Sound u := by
  have h1 := one_le_factor hu0 hu
  have h0 : 0 ≤ 1 / (1 - u) := by linarith
  have hround : ∀ z, 0 ≤ z → Near (1 / (1 - u)) (fl z) z := fun z hz => near_of_relative hu hu0 hz (by
    have := hfl z
    rwa [abs_of_nonneg hz] at this)
  refine ⟨hu0, hu, fun x y hx hy => hround _ (add_nonneg hx hy), fun x y hx hy => hround _ (mul_nonneg hx hy),
    fun x y hx hy => hround _ (div_nonneg hx hy.le), fun l hl => ?_, fun l hl => ?_⟩
  · have := foldl_near hu0 hu hfl l hl
    have hn : 0 ≤ l.sum := List.sum_nonneg hl
    exact Near.mono (this.nonneg (one_le_pow₀ h1) hn) hn (pow_le_pow_right₀ h1 (by omega)) this
  · cases l with
    | nil => exact Near.refl (by simp) (le_refl (0 : K))
    | cons p l =>
      have hpos : ∀ q ∈ p :: l, 0 ≤ fl (q.1 * q.2) := fun q hq =>
        (hround _ (mul_nonneg (hl q hq).1 (hl q hq).2)).nonneg h1 (mul_nonneg (hl q hq).1 (hl q hq).2)
      have e1 := foldl_near hu0 hu hfl ((p :: l).map fun q => fl (q.1 * q.2)) (by
        intro x hx
        obtain ⟨q, hq, rfl⟩ := List.mem_map.1 hx
        exact hpos q hq)
      have e2 := near_map_sum (p :: l) (f := fun q => fl (q.1 * q.2)) (g := fun q => q.1 * q.2) fun q hq =>
        hround _ (mul_nonneg (hl q hq).1 (hl q hq).2)
      have := e1.trans (pow_nonneg h0 _) h0 e2
      rw [List.length_map, ← pow_succ, List.length_cons, Nat.add_sub_cancel] at this
      exact this

/-- C147, no rounding. With exact operations the rounded program is the exact one. -/
theorem C147_exact (n : ℕ) (a : ℕ → ℕ → K) : gthSolveF Arith.exact n a = gthSolve n a := by
  have hstep : ∀ (n : ℕ) (a : ℕ → ℕ → K) i s, gthStepF Arith.exact n a i s = gthStep n a i s := fun _ _ _ _ => rfl
  have hfw : ∀ (n m i : ℕ) (a : ℕ → ℕ → K), gthForwardF Arith.exact n m i a = gthForward n m i a := by
    intro n m
    induction m with
    | zero => exact fun _ _ => rfl
    | succ m ih =>
      intro i a
      rw [gthForwardF, gthForward]
      simp only [hstep, ih]
      rfl
  have hback : ∀ (n : ℕ) (a : ℕ → ℕ → K) (m : ℕ) (x : ℕ → K), gthBackF Arith.exact n a m x = gthBack n a m x := by
    intro n a m
    induction m with
    | zero => exact fun _ => rfl
    | succ m ih =>
      intro x
      rw [gthBackF, gthBack, ih]
      refine congrArg (fun z => gthBack n a m (Function.update x m z)) ?_
      simp only [Arith.exact, List.map_map]
      rfl
  unfold gthSolveF gthSolve
  simp only [hfw, hback]
  refine Prod.ext rfl ?_
  funext k
  refine congrArg (_ / ·) ?_
  simp only [Arith.exact]
  rw [← Nat.Ico_zero_eq_range]
  rfl

/-! ## The stationary distribution -/

theorem slice_sum {i n : ℕ} (f : ℕ → K) : ((slice i n).map f).sum = ∑ k ∈ Ico i n, f k := rfl

theorem mem_slice {i n k : ℕ} : k ∈ slice i n ↔ k ∈ Ico i n := by
  unfold slice
  rw [List.mem_range'_1, mem_Ico]
  omega

theorem length_slice (i n : ℕ) : (slice i n).length = n - i := by simp [slice]

theorem gthStepF_block {F : Arith K} {n i : ℕ} {a : ℕ → ℕ → K} {s : K} {j k : ℕ} (hj : j ∈ Ico (i + 1) n)
    (hk : k ∈ Ico (i + 1) n) : gthStepF F n a i s j k = F.add (a j k) (F.mul (F.div (a j i) s) (a i k)) := by
  rw [mem_Ico] at hj hk
  unfold gthStepF
  rw [if_pos (by omega), if_neg (by omega), if_pos (by omega)]

theorem gthStepF_col {F : Arith K} {n i : ℕ} {a : ℕ → ℕ → K} {s : K} {j : ℕ} (hj : j ∈ Ico (i + 1) n) :
    gthStepF F n a i s j i = F.div (a j i) s := by
  rw [mem_Ico] at hj
  unfold gthStepF
  rw [if_pos (by omega), if_pos rfl]

theorem gthStepF_before {F : Arith K} {n i : ℕ} {a : ℕ → ℕ → K} {s : K} {j k : ℕ} (hk : k < i) :
    gthStepF F n a i s j k = a j k := by
  unfold gthStepF
  split
  · rw [if_neg (by omega), if_neg (by omega)]
  · rfl

/-- The number of roundings that the elimination and the substitution of `m` positions may add up. -/
def gthErrors : ℕ → ℕ
  | 0 => 0
  | m + 1 => gthErrors m + (m + 4) * (m + 1) + (2 * (m + 1) + 1)

theorem gthErrors_lt (m : ℕ) : gthErrors m + 1 ≤ (m + 1) ^ 3 := by
  induction m with
  | zero => simp [gthErrors]
  | succ m ih =>
    rw [gthErrors]
    have : (m + 1 + 1) ^ 3 = (m + 1) ^ 3 + (3 * m ^ 2 + 9 * m + 7) := by ring
    rw [this]
    nlinarith

/-- The rounded elimination: every vector that satisfies the rounded substitution is close to a balanced one. -/
theorem gthForwardF_near {F : Arith K} {u : K} (hF : F.Sound u) {n : ℕ} (m i : ℕ) (a : ℕ → ℕ → K)
    (h : RateBlock n i a) (hi : i + m + 1 = n) :
    (gthForwardF F n m i a).1 = n ∧
    (∀ l k, k < i → (gthForwardF F n m i a).2 l k = a l k) ∧
    ∀ y x : ℕ → K, 0 < y (n - 1) →
      (∀ k, i ≤ k → k < n - 1 →
        y k = F.dot ((slice (k + 1) n).map fun l => (y l, (gthForwardF F n m i a).2 l k))) →
      (∀ k ∈ Ico i n, 0 < x k) → Balanced (Ico i n) a x →
      (∀ k ∈ Ico i n, 0 < y k) ∧
        ∃ c, 0 < c ∧ ∀ k ∈ Ico i n, Near ((1 / (1 - u)) ^ gthErrors m) (c * y k) (x k) := by
  have h1 := hF.one_le
  have h0 : 0 ≤ 1 / (1 - u) := by linarith
  obtain ⟨f, hf⟩ : ∃ f, f = 1 / (1 - u) := ⟨_, rfl⟩
  have hFadd := hF.add
  have hFmul := hF.mul
  have hFdiv := hF.div
  have hFsum := hF.sum
  have hFdot := hF.dot
  rw [← hf] at h1 h0 hFadd hFmul hFdiv hFsum hFdot ⊢
  have hp : ∀ N, 0 ≤ f ^ N := fun N => pow_nonneg h0 N
  have hp1 : ∀ N, 1 ≤ f ^ N := fun N => one_le_pow₀ h1
  induction m generalizing i a with
  | zero =>
    refine ⟨rfl, fun _ _ _ => rfl, fun y x hy _ hx _ => ?_⟩
    have hI : Ico i n = {i} := by
      rw [show n = i + 1 by omega]
      exact Nat.Ico_succ_singleton i
    rw [show n - 1 = i by omega] at hy
    rw [hI] at hx ⊢
    simp only [mem_singleton, forall_eq] at hx ⊢
    refine ⟨hy, x i / y i, div_pos hx hy, ?_⟩
    rw [div_mul_cancel₀ _ hy.ne']
    exact Near.refl (hp1 _) hx.le
  | succ m ih =>
    have hs := h.scale_pos (by omega)
    have hii : i ∈ Ico i n := by rw [mem_Ico]; omega
    obtain ⟨s, hsc⟩ : ∃ s, ∑ k ∈ Ico (i + 1) n, a i k = s := ⟨_, rfl⟩
    have hai : ∀ k ∈ Ico (i + 1) n, 0 ≤ a i k := fun k hk => h.nonneg i hii k (mem_Ico_of_succ hk)
    have haj : ∀ j ∈ Ico (i + 1) n, 0 ≤ a j i := fun j hj => h.nonneg j (mem_Ico_of_succ hj) i hii
    have hlen : ((slice (i + 1) n).map (a i)).length = m + 1 := by
      rw [List.length_map, length_slice]
      omega
    obtain ⟨s', hs'⟩ : ∃ s', s' = F.sum ((slice (i + 1) n).map (a i)) := ⟨_, rfl⟩
    have hss : Near (f ^ (m + 1)) s' s := by
      have := hFsum ((slice (i + 1) n).map (a i)) (by
        intro x hx
        obtain ⟨k, hk, rfl⟩ := List.mem_map.1 hx
        exact hai k (mem_slice.1 hk))
      rw [hlen, slice_sum, hsc, ← hs'] at this
      exact this
    rw [hsc] at hs
    have hs'0 : 0 < s' := hss.pos (hp1 _) hs
    have hfw : gthForwardF F n (m + 1) i a = gthForwardF F n m (i + 1) (gthStepF F n a i s') := by
      rw [gthForwardF]
      simp only [← hs']
      exact if_neg (not_le.2 hs'0)
    rw [hfw]
    -- the scaled column
    have hcol : ∀ j ∈ Ico (i + 1) n, 0 ≤ F.div (a j i) s' ∧ Near (f ^ (m + 2)) (F.div (a j i) s') (a j i / s) := by
      intro j hj
      have e1 := hFdiv (a j i) s' (haj j hj) hs'0
      have e2 : Near (1 * f ^ (m + 1)) (a j i / s') (a j i / s) :=
        (Near.refl le_rfl (haj j hj)).div zero_le_one (haj j hj) (haj j hj) hs'0 hs hss
      rw [one_mul] at e2
      have := e1.trans h0 (hp _) e2
      rw [← pow_succ'] at this
      exact ⟨e1.nonneg h1 (div_nonneg (haj j hj) hs'0.le), this⟩
    -- the new block
    have hblk : ∀ j ∈ Ico (i + 1) n, ∀ k ∈ Ico (i + 1) n,
        Near (f ^ (m + 4)) (gthStepF F n a i s' j k) (gthStep n a i s j k) := by
      intro j hj k hk
      rw [gthStepF_block hj hk, gthStep_block hj hk]
      obtain ⟨c0, c1⟩ := hcol j hj
      have hjk := h.nonneg j (mem_Ico_of_succ hj) k (mem_Ico_of_succ hk)
      have hd : 0 ≤ a j i / s := div_nonneg (haj j hj) hs.le
      have e1 := hFmul (F.div (a j i) s') (a i k) c0 (hai k hk)
      have e2 := e1.trans h0 (hp _) (c1.mul_const (hai k hk))
      rw [← pow_succ'] at e2
      have m0 : 0 ≤ F.mul (F.div (a j i) s') (a i k) := e1.nonneg h1 (mul_nonneg c0 (hai k hk))
      have e3 := (Near.refl (hp1 (m + 2 + 1)) hjk).add e2
      have e4 := (hFadd (a j k) _ hjk m0).trans h0 (hp _) e3
      rw [← pow_succ'] at e4
      exact e4
    have hstep := h.step (by omega : i + 1 < n)
    rw [hsc] at hstep
    have hblock := hstep.near (hp1 _) hblk
    obtain ⟨g1, g2, g3⟩ := ih (i + 1) _ hblock (by omega)
    refine ⟨g1, fun l k hk => ?_, fun y x hy heq hx hxb => ?_⟩
    · rw [g2 l k (by omega), gthStepF_before hk]
    · obtain ⟨x', hx', hxb'⟩ := hblock.exists_balanced m (i + 1) (by omega)
      obtain ⟨hxi, hres⟩ := hxb.restrict (by omega) hs hsc
      have hxs : ∀ k ∈ Ico (i + 1) n, 0 < x k := fun k hk => hx k (mem_Ico_of_succ hk)
      obtain ⟨c1, hc1, hn1⟩ := balanced_near (by omega) (hp1 (m + 4)) hstep hblk hxs hx' hres hxb'
      obtain ⟨hypos, c2, hc2, hn2⟩ := g3 y x' hy (fun k k1 k2 => heq k (by omega) k2) hx' hxb'
      rw [← pow_mul, show n - (i + 1) = m + 1 by omega] at hn1
      have hc : 0 < c1 * c2 := mul_pos hc1 hc2
      have hrest : ∀ k ∈ Ico (i + 1) n,
          Near (f ^ (gthErrors m + (m + 4) * (m + 1))) (c1 * c2 * y k) (x k) := by
        intro k hk
        have := ((hn2 k hk).const_mul hc1.le).trans (hp _) (hp _) (hn1 k hk)
        rw [← pow_add, ← mul_assoc] at this
        exact this
      -- the eliminated position
      have hyi : y i = F.dot ((slice (i + 1) n).map fun l => (y l, F.div (a l i) s')) := by
        rw [heq i le_rfl (by omega)]
        refine congrArg F.dot (List.map_congr_left fun l hl => ?_)
        rw [g2 l i (by omega), gthStepF_col (mem_slice.1 hl)]
      have hdot : Near (f ^ (m + 1)) (y i) (∑ l ∈ Ico (i + 1) n, y l * F.div (a l i) s') := by
        have := hFdot ((slice (i + 1) n).map fun l => (y l, F.div (a l i) s')) (by
          intro q hq
          obtain ⟨l, hl, rfl⟩ := List.mem_map.1 hq
          exact ⟨(hypos l (mem_slice.1 hl)).le, (hcol l (mem_slice.1 hl)).1⟩)
        rw [List.length_map, length_slice, show n - (i + 1) = m + 1 by omega, ← hyi, List.map_map] at this
        exact this
      have hsum : Near (f ^ (gthErrors m + (m + 4) * (m + 1)) * f ^ (m + 2))
          (∑ l ∈ Ico (i + 1) n, c1 * c2 * y l * F.div (a l i) s') (∑ l ∈ Ico (i + 1) n, x l * (a l i / s)) :=
        Near.sum fun l hl => (hrest l hl).mul (hp _) (mul_nonneg hc.le (hypos l hl).le) (hxs l hl).le (hcol l hl).1
          (div_nonneg (haj l hl) hs.le) (hcol l hl).2
      have hsum0 : 0 < ∑ l ∈ Ico (i + 1) n, y l * F.div (a l i) s' := by
        have hin := h.inflow_pos (by omega) hxs hs
        have := hsum.pos (by rw [← pow_add]; exact hp1 _) hin
        simp only [mul_assoc] at this
        rw [← mul_sum, ← mul_sum] at this
        exact (mul_pos_iff_of_pos_left hc2).1 ((mul_pos_iff_of_pos_left hc1).1 this)
      have hyi0 : 0 < y i := hdot.pos (hp1 _) hsum0
      refine ⟨fun k hk => ?_, c1 * c2, hc, fun k hk => ?_⟩
      · by_cases hki : k = i
        · rw [hki]; exact hyi0
        · exact hypos k (by rw [mem_Ico] at hk ⊢; omega)
      · by_cases hki : k = i
        · subst hki
          have e := hdot.const_mul hc.le
          rw [mul_sum, sum_congr rfl fun l _ => (mul_assoc (c1 * c2) (y l) _).symm] at e
          have := e.trans (hp _) (mul_nonneg (hp _) (hp _)) hsum
          rw [← hxi, ← pow_add, ← pow_add] at this
          refine Near.mono (mul_pos hc hyi0).le (hx k hk).le (le_of_eq ?_) this
          congr 1
          rw [gthErrors]
          ring
        · have hk' : k ∈ Ico (i + 1) n := by rw [mem_Ico] at hk ⊢; omega
          refine Near.mono (mul_pos hc (hypos k hk')).le (hx k hk).le (pow_le_pow_right₀ h1 ?_) (hrest k hk')
          rw [gthErrors]
          omega

theorem gthBackF_spec (F : Arith K) (n : ℕ) (a : ℕ → ℕ → K) (m : ℕ) (x : ℕ → K) :
    (∀ k, m ≤ k → gthBackF F n a m x k = x k) ∧
    ∀ k, k < m → gthBackF F n a m x k = F.dot ((slice (k + 1) n).map fun l => (gthBackF F n a m x l, a l k)) := by
  induction m generalizing x with
  | zero => exact ⟨fun _ _ => rfl, fun k hk => absurd hk (Nat.not_lt_zero k)⟩
  | succ m ih =>
    rw [gthBackF]
    obtain ⟨g1, g2⟩ := ih (Function.update x m (F.dot ((slice (m + 1) n).map fun l => (x l, a l m))))
    constructor
    · intro k hk
      rw [g1 k (by omega), Function.update_of_ne (by omega)]
    · intro k hk
      by_cases hkm : k = m
      · subst hkm
        rw [g1 k le_rfl, Function.update_self]
        refine congrArg F.dot (List.map_congr_left fun l hl => ?_)
        rw [mem_slice, mem_Ico] at hl
        rw [g1 l (by omega), Function.update_of_ne (by omega)]
      · exact g2 k (by omega)

/-- The rounded `gth_solve` of an irreducible matrix: its result agrees with every balanced vector whose entries
sum to one up to the factor of `3 n ^ 3` roundings. -/
theorem gthSolveF_near {F : Arith K} {u : K} (hF : F.Sound u) {n : ℕ} (hn : 1 ≤ n) {a : ℕ → ℕ → K}
    (h : RateBlock n 0 a) {x : ℕ → K} (hx : ∀ k < n, 0 < x k) (hxb : Balanced (Ico 0 n) a x)
    (hx1 : ∑ k ∈ range n, x k = 1) :
    (gthSolveF F n a).1 = n ∧ ∀ k < n, 0 < (gthSolveF F n a).2 k ∧
      Near ((1 / (1 - u)) ^ (3 * n ^ 3)) ((gthSolveF F n a).2 k) (x k) := by
  have h1 := hF.one_le
  have h0 : 0 ≤ 1 / (1 - u) := by linarith
  have hp : ∀ N, 0 ≤ (1 / (1 - u)) ^ N := fun N => pow_nonneg h0 N
  have hp1 : ∀ N, 1 ≤ (1 / (1 - u)) ^ N := fun N => one_le_pow₀ h1
  obtain ⟨f1, -, f3⟩ := gthForwardF_near hF (n - 1) 0 a h (by omega)
  unfold gthSolveF
  simp only
  rw [f1]
  refine ⟨rfl, ?_⟩
  obtain ⟨A, hA⟩ : ∃ A, A = (gthForwardF F n (n - 1) 0 a).2 := ⟨_, rfl⟩
  rw [← hA] at f3 ⊢
  obtain ⟨b1, b2⟩ := gthBackF_spec F n A (n - 1) fun k => if k = n - 1 then 1 else 0
  obtain ⟨y, hy⟩ : ∃ y, y = gthBackF F n A (n - 1) fun k => if k = n - 1 then 1 else 0 := ⟨_, rfl⟩
  rw [← hy] at b1 b2 ⊢
  have hx' : ∀ k ∈ Ico 0 n, 0 < x k := fun k hk => hx k (mem_Ico.1 hk).2
  obtain ⟨hy0, c, hc, hnear⟩ := f3 y x (by rw [b1 _ le_rfl, if_pos rfl]; exact one_pos) (fun k _ hk => b2 k hk) hx' hxb
  have hne : (Ico 0 n).Nonempty := ⟨0, by rw [mem_Ico]; omega⟩
  have hS : 0 < ∑ k ∈ Ico 0 n, y k := sum_pos hy0 hne
  have hsum := hF.sum ((slice 0 n).map y) (by
    intro z hz
    obtain ⟨k, hk, rfl⟩ := List.mem_map.1 hz
    exact (hy0 k (mem_slice.1 hk)).le)
  rw [List.length_map, length_slice, slice_sum, Nat.sub_zero] at hsum
  have hS' : 0 < F.sum ((slice 0 n).map y) := hsum.pos (hp1 _) hS
  have hcS : Near ((1 / (1 - u)) ^ gthErrors (n - 1)) (c * ∑ k ∈ Ico 0 n, y k) 1 := by
    have e := Near.sum hnear
    rw [← mul_sum, Nat.Ico_zero_eq_range, hx1, ← Nat.Ico_zero_eq_range] at e
    exact e
  intro k hk
  have hk' : k ∈ Ico 0 n := by rw [mem_Ico]; omega
  have hyk := hy0 k hk'
  have e1 := hF.div (y k) (F.sum ((slice 0 n).map y)) hyk.le hS'
  have e2 := (Near.refl (hp1 0) hyk.le).div (hp _) hyk.le hyk.le hS' hS hsum
  have e3 := (hnear k hk').div (hp _) (mul_pos hc hyk).le (hx' k hk').le (mul_pos hc hS) one_pos hcS
  rw [mul_div_mul_left _ _ hc.ne', div_one, ← pow_add] at e3
  rw [← pow_add] at e2
  have e4 := (e1.trans h0 (hp _) e2).trans (mul_nonneg h0 (hp _)) (hp _) e3
  rw [← pow_succ', ← pow_add] at e4
  have hpos := e1.pos h1 (div_pos hyk hS')
  refine ⟨hpos, Near.mono hpos.le (hx' k hk').le (pow_le_pow_right₀ h1 ?_) e4⟩
  have hb := gthErrors_lt (n - 1)
  rw [Nat.sub_add_cancel hn] at hb
  have hcube : n ≤ n ^ 3 := by
    calc n = n ^ 1 := (pow_one n).symm
      _ ≤ n ^ 3 := Nat.pow_le_pow_right hn (by omega)
  omega

/-- The rounded and the exact `gth_solve` of an irreducible stochastic matrix. -/
theorem gthSolveF_stochastic {F : Arith K} {u : K} (hF : F.Sound u) {n : ℕ} (hn : 1 ≤ n) {a : ℕ → ℕ → K}
    (h : GoodBlock n 0 a) : (gthSolveF F n a).1 = n ∧ ∀ k < n, 0 < (gthSolveF F n a).2 k ∧
      Near ((1 / (1 - u)) ^ (3 * n ^ 3)) ((gthSolveF F n a).2 k) ((gthSolve n a).2 k) := by
  obtain ⟨-, h2, h3, h4⟩ := gthSolve_spec hn h
  refine gthSolveF_near hF hn h.toRateBlock h2 (fun k hk => ?_) h3
  rw [h.sum k hk, mul_one, Nat.Ico_zero_eq_range]
  exact h4 k (mem_Ico.1 hk).2

theorem subMatrix_good {n : ℕ} {P : Matrix (Fin n) (Fin n) K} (hP : IsStochastic P)
    {C : List (Fin n)} (hnd : C.Nodup) (hcl : ClosedSet P (· ∈ C))
    (hcomm : ∀ i ∈ C, ∀ j ∈ C, Reach P i j) : GoodBlock C.length 0 (toArray (subMatrix P C)) := by
  refine goodBlock_toArray ⟨fun a b => hP.1 _ _, fun a => ?_⟩ fun a b => ?_
  · rw [← closed_row_sum (P := fun i j => P i j) hP hcl (List.get_mem C a)]
    exact sum_get hnd fun j => P (C.get a) j
  · obtain ⟨b', hb', hr⟩ := reach_subMatrix hcl
      (hcomm _ (List.get_mem C a) _ (List.get_mem C b)) a rfl
    rwa [hnd.injective_get hb'] at hr

/-- C147. **The stationary distributions in floating point.** If every arithmetic operation has a relative error
of at most `u`, then `pi` returns as many vectors as with exact arithmetic, their positive entries are the same,
and every entry agrees with the exact one up to the factor of `3 n ^ 3` roundings, however small it is and
whatever the chain is. -/
theorem C147_pi {F : Arith K} {u : K} (hF : F.Sound u) {c : MC K} (hc : c.Valid)
    {sccs : List (List (Fin c.n))} (h : IsClasses c.p sccs) :
    ∃ l l' : List (Fin c.n → K), pi c sccs = .ok l ∧ piF F c sccs = .ok l' ∧
      List.Forall₂ (fun x' x => ∀ i, (0 < x' i ↔ 0 < x i) ∧
        Near ((1 / (1 - u)) ^ (3 * c.n ^ 3)) (x' i) (x i)) l' l := by
  have h1 := hF.one_le
  by_cases hirr : Irreducible c.p
  · have hgood := goodBlock_toArray hc.2.1 hirr
    have hn : 1 ≤ c.n := by have := hc.1; omega
    obtain ⟨e1, e2, -⟩ := gthSolve_spec hn hgood
    obtain ⟨f1, f2⟩ := gthSolveF_stochastic hF hn hgood
    refine ⟨[fun i => (gthSolve c.n (toArray c.p)).2 i], [fun i => (gthSolveF F c.n (toArray c.p)).2 i], ?_, ?_, ?_⟩
    · unfold pi
      rw [if_pos ((C30_irreducible hc h).2 hirr)]
      simp only
      rw [if_pos e1]
      rfl
    · unfold piF
      rw [if_pos ((C30_irreducible hc h).2 hirr)]
      simp only
      rw [if_pos f1]
      rfl
    · refine .cons (fun i => ?_) .nil
      obtain ⟨g1, g2⟩ := f2 i i.2
      exact ⟨⟨fun _ => e2 i i.2, fun _ => g1⟩, g2⟩
  · have hk := h.classesIdx
    have hmemL : ∀ C ∈ recurrentIdx c.p sccs, C ∈ classesIdx sccs ∧ ∀ a ∈ C, ∀ b, Edge c.p a b → b ∈ C := by
      intro C hC
      obtain ⟨h1, h2⟩ := mem_recurrentIdx.1 hC
      refine ⟨h1, ?_⟩
      by_contra hn
      rw [leaves_iff.2 hn] at h2
      cases h2
    have hni : ¬ (isIrreducible c sccs = true) := fun hi => hirr ((C30_irreducible hc h).1 hi)
    have hclass : ∀ C ∈ recurrentIdx c.p sccs,
        piClass c.p C = .ok (fun i => if i ∈ C then (gthSolve C.length (toArray (subMatrix c.p C))).2 (C.idxOf i) else 0) ∧
        piClassF F c.p C =
          .ok (fun i => if i ∈ C then (gthSolveF F C.length (toArray (subMatrix c.p C))).2 (C.idxOf i) else 0) ∧
        ∀ k < C.length, 0 < (gthSolve C.length (toArray (subMatrix c.p C))).2 k ∧
          0 < (gthSolveF F C.length (toArray (subMatrix c.p C))).2 k ∧
          Near ((1 / (1 - u)) ^ (3 * c.n ^ 3)) ((gthSolveF F C.length (toArray (subMatrix c.p C))).2 k)
            ((gthSolve C.length (toArray (subMatrix c.p C))).2 k) := by
      intro C hC
      obtain ⟨m1, m2⟩ := hmemL C hC
      have hgood := subMatrix_good hc.2.1 (hk.nodup C m1) (fun a b ha hab => m2 a ha b hab)
        fun i hi j hj => ((hk.mem_iff C m1 i hi j).1 hj).1
      have hlen : 1 ≤ C.length := List.length_pos_iff.2 (hk.ne_nil C m1)
      have hle : C.length ≤ c.n := by simpa using (hk.nodup C m1).length_le_card
      obtain ⟨e1, e2, -⟩ := gthSolve_spec hlen hgood
      obtain ⟨f1, f2⟩ := gthSolveF_stochastic hF hlen hgood
      refine ⟨?_, ?_, fun k hk => ?_⟩
      · unfold piClass
        simp only
        rw [if_pos e1]
        rfl
      · unfold piClassF
        simp only
        rw [if_pos f1]
        rfl
      · obtain ⟨g1, g2⟩ := f2 k hk
        refine ⟨e2 k hk, g1, Near.mono g1.le (e2 k hk).le (pow_le_pow_right₀ h1 ?_) g2⟩
        exact Nat.mul_le_mul_left 3 (Nat.pow_le_pow_left hle 3)
    refine ⟨(recurrentIdx c.p sccs).map fun C i =>
        if i ∈ C then (gthSolve C.length (toArray (subMatrix c.p C))).2 (C.idxOf i) else 0,
      (recurrentIdx c.p sccs).map fun C i =>
        if i ∈ C then (gthSolveF F C.length (toArray (subMatrix c.p C))).2 (C.idxOf i) else 0, ?_, ?_, ?_⟩
    · unfold pi
      rw [if_neg hni, mapM_R_eq_ok, List.forall₂_map_right_iff, List.forall₂_same]
      exact fun C hC => (hclass C hC).1
    · unfold piF
      rw [if_neg hni, mapM_R_eq_ok, List.forall₂_map_right_iff, List.forall₂_same]
      exact fun C hC => (hclass C hC).2.1
    · rw [List.forall₂_map_left_iff, List.forall₂_map_right_iff, List.forall₂_same]
      intro C hC i
      by_cases hi : i ∈ C
      · simp only [if_pos hi]
        obtain ⟨g1, g2, g3⟩ := (hclass C hC).2.2 (C.idxOf i) (List.idxOf_lt_length_iff.2 hi)
        exact ⟨⟨fun _ => g1, fun _ => g2⟩, g3⟩
      · simp only [if_neg hi]
        exact ⟨by simp, by simp [Near]⟩

/-- C147, relative errors. As long as `3 n ^ 3 u` is at most one half, the relative error of every entry is at
most `6 n ^ 3 u`. -/
theorem C147_relative {F : Arith K} {u : K} (hF : F.Sound u) {c : MC K} (hc : c.Valid)
    {sccs : List (List (Fin c.n))} (h : IsClasses c.p sccs) (hu : 3 * (c.n : K) ^ 3 * u ≤ 1 / 2) :
    ∃ l l' : List (Fin c.n → K), pi c sccs = .ok l ∧ piF F c sccs = .ok l' ∧
      List.Forall₂ (fun x' x => ∀ i, |x' i - x i| ≤ 6 * (c.n : K) ^ 3 * u * x i) l' l := by
  obtain ⟨l, l', h1, h2, h3⟩ := C147_pi hF hc h
  refine ⟨l, l', h1, h2, ?_⟩
  have hb := factor_pow_le hF.unit_nonneg hF.unit_lt (3 * c.n ^ 3) (by push_cast; exact hu)
  push_cast at hb
  have hnn : ∀ x ∈ l, ∀ i, 0 ≤ x i := by
    by_cases hirr : Irreducible c.p
    · obtain ⟨x, hx, hs, -⟩ := C34_stationary hc h hirr
      rw [hx] at h1
      cases h1
      intro y hy
      rw [List.mem_singleton] at hy
      subst hy
      exact hs.1.1
    · obtain ⟨-, -, f, hf, hs, -⟩ := C35_reducible hc h hirr
      rw [hf] at h1
      cases h1
      intro y hy
      obtain ⟨C, hC, rfl⟩ := List.mem_map.1 hy
      exact (hs C hC).1.1.1
  have hall : ∀ (l' l : List (Fin c.n → K)), List.Forall₂ (fun x' x => ∀ i, (0 < x' i ↔ 0 < x i) ∧
        Near ((1 / (1 - u)) ^ (3 * c.n ^ 3)) (x' i) (x i)) l' l → (∀ x ∈ l, ∀ i, 0 ≤ x i) →
      List.Forall₂ (fun x' x => ∀ i, |x' i - x i| ≤ 6 * (c.n : K) ^ 3 * u * x i) l' l := by
    intro l' l hl
    induction hl with
    | nil => exact fun _ => .nil
    | cons hx _ ih =>
      intro hnn
      refine .cons (fun i => ?_) (ih fun x hx => hnn x (by simp [hx]))
      have h0 := hnn _ List.mem_cons_self i
      refine ((hx i).2.relative (one_le_pow₀ hF.one_le) h0).trans (mul_le_mul_of_nonneg_right ?_ h0)
      linarith
  exact hall l' l h3 hnn

/-- C147 with double precision: for chains with at most a thousand states every stationary probability has at
least six correct digits. -/
theorem C147_double {F : Arith ℚ} (hF : F.Sound (1 / 2 ^ 53)) {c : MC ℚ} (hc : c.Valid) (hn : c.n ≤ 1000)
    {sccs : List (List (Fin c.n))} (h : IsClasses c.p sccs) :
    ∃ l l' : List (Fin c.n → ℚ), pi c sccs = .ok l ∧ piF F c sccs = .ok l' ∧
      List.Forall₂ (fun x' x => ∀ i, |x' i - x i| ≤ 1 / 10 ^ 6 * |x i|) l' l := by
  have hn3 : (c.n : ℚ) ^ 3 ≤ 1000 ^ 3 := pow_le_pow_left₀ (by positivity) (by exact_mod_cast hn) 3
  obtain ⟨l, l', h1, h2, h3⟩ := C147_relative hF hc h (by
    refine (mul_le_mul_of_nonneg_right (mul_le_mul_of_nonneg_left hn3 (by norm_num)) (by norm_num)).trans ?_
    norm_num)
  refine ⟨l, l', h1, h2, h3.imp fun x' x hx i => ?_⟩
  refine (hx i).trans ((mul_le_mul_of_nonneg_left (le_abs_self (x i)) (by positivity)).trans
    (mul_le_mul_of_nonneg_right ?_ (abs_nonneg _)))
  refine (mul_le_mul_of_nonneg_right (mul_le_mul_of_nonneg_left hn3 (by norm_num)) (by norm_num)).trans ?_
  norm_num

/-! ## Perturbation -/

theorem balanced_near_sum_one {n : ℕ} (hn : 1 ≤ n) {t : K} (ht : 1 ≤ t) {a b : ℕ → ℕ → K} (ha : RateBlock n 0 a)
    (hnear : ∀ j ∈ Ico 0 n, ∀ k ∈ Ico 0 n, j ≠ k → Near t (b j k) (a j k)) {x y : ℕ → K} (hx0 : ∀ k < n, 0 < x k)
    (hy0 : ∀ k < n, 0 < y k) (hx : Balanced (Ico 0 n) a x) (hy : Balanced (Ico 0 n) b y)
    (hx1 : ∑ k ∈ range n, x k = 1) (hy1 : ∑ k ∈ range n, y k = 1) {k : ℕ} (hk : k < n) :
    Near (t ^ (2 * n)) (y k) (x k) := by
  -- the diagonal of `a` with the other entries of `b`
  obtain ⟨b', hb⟩ : ∃ b' : ℕ → ℕ → K, b' = fun j k => if j = k then a j k else b j k := ⟨_, rfl⟩
  have hyb' : Balanced (Ico 0 n) b' y := hy.diagonal fun j _ k _ hjk => by rw [hb]; simp [hjk]
  have hbn : ∀ j ∈ Ico 0 n, ∀ k ∈ Ico 0 n, Near t (b' j k) (a j k) := by
    intro j hj k hk
    rw [hb]
    by_cases hjk : j = k
    · simp only [if_pos hjk]
      exact Near.refl ht (ha.nonneg j hj k hk)
    · simp only [if_neg hjk]
      exact hnear j hj k hk hjk
  obtain ⟨d, hd, hnear'⟩ := balanced_near (by omega) ht ha hbn (fun k hk => hx0 k (mem_Ico.1 hk).2)
    (fun k hk => hy0 k (mem_Ico.1 hk).2) hx hyb'
  rw [Nat.sub_zero] at hnear'
  have hdn : Near (t ^ n) (d * 1) 1 := by
    have e := Near.sum hnear'
    rw [← mul_sum, Nat.Ico_zero_eq_range, hx1, hy1] at e
    exact e
  have hi := hnear' k (by rw [mem_Ico]; exact ⟨Nat.zero_le _, hk⟩)
  have htn : (0 : K) ≤ t ^ n := pow_nonneg (by linarith) _
  have := hi.div htn (mul_nonneg hd.le (hy0 k hk).le) (hx0 k hk).le (by rw [mul_one]; exact hd) one_pos hdn
  rwa [mul_div_mul_left _ _ hd.ne', div_one, div_one, ← pow_add, ← two_mul] at this

/-- The stationary distribution as a function of the array indices. -/
theorem stationary_balanced {n : ℕ} (hn : 1 ≤ n) {P : Matrix (Fin n) (Fin n) K} (hP : IsStochastic P)
    (hirr : Irreducible P) {z : Fin n → K} (hz : IsStationary P z) :
    ∃ z' : ℕ → K, (∀ k < n, 0 < z' k) ∧ Balanced (Ico 0 n) (toArray P) z' ∧
      ∑ k ∈ range n, z' k = 1 ∧ ∀ i : Fin n, z' i = z i := by
  have hgood := goodBlock_toArray hP hirr
  obtain ⟨-, h2, h3, h4⟩ := gthSolve_spec hn hgood
  obtain ⟨-, h6, h7⟩ := gthSolve_stationary hn hP hirr
  have : Nonempty (Fin n) := ⟨⟨0, by omega⟩⟩
  refine ⟨_, h2, fun k hk => ?_, h3, fun i => ?_⟩
  · rw [hgood.sum k hk, mul_one, Nat.Ico_zero_eq_range]
    exact h4 k (mem_Ico.1 hk).2
  · exact (congrFun (stationary_unique hP hirr h7 h6 hz) i).symm

/-- C147, perturbation. If the transition probabilities of two irreducible chains agree up to the factor `t` for
all moves between different states, then their stationary distributions agree up to the factor `t ^ (2 n)`. -/
theorem C147_perturbation {c : MC K} (hc : c.Valid) {Q : Matrix (Fin c.n) (Fin c.n) K} (hQ : IsStochastic Q)
    {t : K} (ht : 1 ≤ t) (hirr : Irreducible c.p) (hnear : ∀ i j, i ≠ j → Near t (Q i j) (c.p i j))
    {x y : Fin c.n → K} (hx : IsStationary c.p x) (hy : IsStationary Q y) (i : Fin c.n) :
    Near (t ^ (2 * c.n)) (y i) (x i) := by
  have hn : 1 ≤ c.n := by have := hc.1; omega
  have hirrQ : Irreducible Q := by
    intro a b
    have hcl : ClosedSet (fun i j => c.p i j) fun j => Reach (fun i j => Q i j) a j := by
      intro j k hj hjk
      by_cases hjk' : j = k
      · rw [← hjk']; exact hj
      · exact hj.tail ((hnear j k hjk').pos ht hjk)
    exact closedSet_reach hcl (.refl a) (hirr a b)
  obtain ⟨x', hx0, hxb, hx1, hxx⟩ := stationary_balanced hn hc.2.1 hirr hx
  obtain ⟨y', hy0, hyb, hy1, hyy⟩ := stationary_balanced hn hQ hirrQ hy
  rw [← hxx, ← hyy]
  refine balanced_near_sum_one hn ht (goodBlock_toArray hc.2.1 hirr).toRateBlock (fun j hj k hk hjk => ?_)
    hx0 hy0 hxb hyb hx1 hy1 i.2
  rw [mem_Ico] at hj hk
  have := hnear ⟨j, hj.2⟩ ⟨k, hk.2⟩ (by simpa using hjk)
  rw [← toArray_apply Q, ← toArray_apply c.p] at this
  exact this

/-- C147, tolerance. The constructor accepts rows whose sums are only close to one. If they agree with one up to
the factor `t`, the rounded `gth_solve` of such an irreducible matrix agrees with the stationary distribution of
the matrix with normalised rows up to the factor `t ^ (2 n)` and `3 n ^ 3` roundings. -/
theorem C147_tolerance {F : Arith K} {u : K} (hF : F.Sound u) {n : ℕ} (hn : 1 ≤ n)
    {P : Matrix (Fin n) (Fin n) K} (h0 : ∀ i j, 0 ≤ P i j) {t : K} (ht : 1 ≤ t)
    (h1 : ∀ i, Near t (∑ j, P i j) 1) (hirr : Irreducible P) {y : Fin n → K}
    (hy : IsStationary (fun i j => P i j / ∑ l, P i l) y) (i : Fin n) :
    (gthSolveF F n (toArray P)).1 = n ∧
      Near ((1 / (1 - u)) ^ (3 * n ^ 3) * t ^ (2 * n)) ((gthSolveF F n (toArray P)).2 i) (y i) := by
  have hs : ∀ i, 0 < ∑ j, P i j := fun i => (h1 i).pos ht one_pos
  obtain ⟨Q, hQe⟩ : ∃ Q : Matrix (Fin n) (Fin n) K, Q = fun i j => P i j / ∑ l, P i l := ⟨_, rfl⟩
  have hQ : IsStochastic Q := by
    rw [hQe]
    exact ⟨fun i j => div_nonneg (h0 i j) (hs i).le, fun i => by
      change ∑ j, P i j / ∑ l, P i l = 1
      rw [← sum_div, div_self (hs i).ne']⟩
  have hQedge : ∀ i j, 0 < P i j → 0 < Q i j := fun i j h => by rw [hQe]; exact div_pos h (hs i)
  have hirrQ : Irreducible Q := by
    intro a b
    have hcl : ClosedSet (fun i j => P i j) fun j => Reach (fun i j => Q i j) a j :=
      fun j k hj hjk => hj.tail (hQedge j k hjk)
    exact closedSet_reach hcl (.refl a) (hirr a b)
  have hQn : ∀ i j, Near t (Q i j) (P i j) := by
    intro i j
    rw [hQe]
    change Near t (P i j / ∑ l, P i l) (P i j)
    have := ((h1 i).inv (hs i) one_pos).const_mul (h0 i j)
    rwa [inv_one, mul_one, ← div_eq_mul_inv] at this
  rw [← hQe] at hy
  obtain ⟨y', hy0, hyb, hy1, hyy⟩ := stationary_balanced hn hQ hirrQ hy
  have hRQ := (goodBlock_toArray hQ hirrQ).toRateBlock
  have hPQ : ∀ j ∈ Ico 0 n, ∀ k ∈ Ico 0 n, Near t (toArray P j k) (toArray Q j k) := by
    intro j hj k hk
    rw [mem_Ico] at hj hk
    have := (hQn ⟨j, hj.2⟩ ⟨k, hk.2⟩).symm
    rw [← toArray_apply Q, ← toArray_apply P] at this
    exact this
  have hRP := hRQ.near ht hPQ
  obtain ⟨x, hx0, hxb⟩ := hRP.exists_balanced (n - 1) 0 (by omega)
  have hX : 0 < ∑ k ∈ range n, x k :=
    sum_pos (fun k hk => hx0 k (by rwa [Nat.Ico_zero_eq_range])) ⟨0, by rw [mem_range]; omega⟩
  obtain ⟨x', hx'⟩ : ∃ x' : ℕ → K, x' = fun k => (∑ k ∈ range n, x k)⁻¹ * x k := ⟨_, rfl⟩
  have hx0' : ∀ k < n, 0 < x' k := fun k hk => by
    rw [hx']
    exact mul_pos (inv_pos.2 hX) (hx0 k (by rw [mem_Ico]; omega))
  have hxb' : Balanced (Ico 0 n) (toArray P) x' := by rw [hx']; exact hxb.smul _
  have hx1' : ∑ k ∈ range n, x' k = 1 := by
    rw [hx']
    simp only
    rw [← mul_sum, inv_mul_cancel₀ hX.ne']
  obtain ⟨g1, g2⟩ := gthSolveF_near hF hn hRP hx0' hxb' hx1'
  refine ⟨g1, ?_⟩
  have e1 := (g2 i i.2).2
  have e2 := balanced_near_sum_one hn ht hRQ (fun j hj k hk _ => hPQ j hj k hk) hy0 hx0' hyb hxb' hy1 hx1' i.2
  rw [hyy] at e2
  exact e1.trans (pow_nonneg (by linarith [hF.one_le]) _) (pow_nonneg (by linarith) _) e2

/-! ## Concrete cases -/

/-- A rounding to multiples of a thousandth of a power of two would do; here numbers are rounded down by at most
a thousandth of their value. -/
def exShrink (z : ℚ) : ℚ := z * (999 / 1000)

theorem exShrink_sound : (Arith.rounded exShrink).Sound (1 / 1000) := by
  refine rounded_sound (by norm_num) (by norm_num) fun z => ?_
  rw [show exShrink z - z = -(1 / 1000) * z by unfold exShrink; ring, abs_mul]
  norm_num

/-- The rounded result for the example chain; the exact one is one third and two thirds. -/
example : (piF (Arith.rounded exShrink) exLoop ([[0, 1]] : List (List (Fin 2)))).toOption.map (fun l => l.map fun x =>
    decide (|x (0 : Fin 2) - 1 / 3| < 1 / 300 ∧ x (0 : Fin 2) ≠ 1 / 3)) = some [true] := by decide +kernel

/-- The theorem on the example chain. -/
example : ∃ l l' : List (Fin 2 → ℚ), pi exLoop ([[0, 1]] : List (List (Fin 2))) = .ok l ∧
    piF (Arith.rounded exShrink) exLoop ([[0, 1]] : List (List (Fin 2))) = .ok l' ∧
    List.Forall₂ (fun x' x => ∀ i, |x' i - x i| ≤ 6 * 2 ^ 3 * (1 / 1000) * x i) l' l :=
  C147_relative exShrink_sound (c := exLoop) (by decide +kernel) (sccs := ([[0, 1]] : List (List (Fin 2))))
    (show IsClasses (fun i j : Fin 2 => exLoop.p i j) [[0, 1]] by decide +kernel) (by change 3 * ((2 : ℕ) : ℚ) ^ 3 * (1 / 1000) ≤ 1 / 2; norm_num)

/-- Two chains whose moves between different states agree up to a factor, and their stationary distributions. -/
example : ∃ Q : Matrix (Fin 2) (Fin 2) ℚ, IsStochastic Q ∧
    (∀ i j : Fin 2, i ≠ j → Near (10 / 9) (Q i j) (exLoop.p i j)) ∧
    IsStationary (fun i j : Fin 2 => exLoop.p i j) ![1 / 3, 2 / 3] ∧ IsStationary Q ![5 / 14, 9 / 14] := by
  refine ⟨fun i j => ![![1 / 10, 9 / 10], ![1 / 2, 1 / 2]] i j, by decide +kernel, ?_, by decide +kernel,
    by decide +kernel⟩
  have key : ∀ i j : Fin 2, i ≠ j → (![![1 / 10, 9 / 10], ![1 / 2, 1 / 2]] i j : ℚ) ≤
      10 / 9 * (fun i j : Fin 2 => exLoop.p i j) i j ∧ (fun i j : Fin 2 => exLoop.p i j) i j ≤
      10 / 9 * (![![1 / 10, 9 / 10], ![1 / 2, 1 / 2]] i j : ℚ) := by decide +kernel
  exact key

/-- A matrix with row sums other than one. -/
example : (∀ i j : Fin 2, (0 : ℚ) ≤ !![0, 1; 1 / 2, 101 / 200] i j) ∧
    (∀ i : Fin 2, Near (101 / 100 : ℚ) (∑ j, (!![0, 1; 1 / 2, 101 / 200] : Matrix (Fin 2) (Fin 2) ℚ) i j) 1) := by
  refine ⟨fun i j => ?_, fun i => ?_⟩
  · fin_cases i <;> fin_cases j <;> norm_num
  · fin_cases i <;> simp [Near, Fin.sum_univ_two] <;> norm_num

end Verif
