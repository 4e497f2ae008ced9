import Verif.Props.Decode
import Verif.Props.RoundedMeasures

/-!
# Rounding of the decoding (C149)
-/

set_option linter.unusedSectionVars false

namespace Verif

open Finset

variable {K : Type} [Field K] [LinearOrder K] [IsStrictOrderedRing K]

variable {F : Arith K} {u : K} {n k : ℕ}

/-- One rounded step forward. -/
theorem forwardStepF_acc (hF : F.Sound u) {P : Matrix (Fin n) (Fin n) K} (hP : ∀ i j, 0 ≤ P i j)
    {E : Matrix (Fin n) (Fin k) K} (hE : ∀ i y, 0 ≤ E i y) {f' : Fin n → K} (hf : ∀ i, 0 ≤ f' i) (y : Fin k)
    (s : Fin n) : Acc (1 / (1 - u)) (n + 2) (forwardStepF F P E f' y s) (forwardStep P E f' y s) := by
  have h1 := hF.one_le
  have e1 : ∀ i, Acc (1 / (1 - u)) (0 + 0 + 1) (F.mul (f' i) (P i s)) (f' i * P i s) := fun i =>
    Acc.mul hF (Acc.refl (hf i)) (Acc.refl (hP i s))
  have e2 := Acc.mul hF (Acc.refl (hE s y)) (Acc.sum hF e1)
  exact e2.mono h1 (by omega)

/-- The exact step on a multiple. -/
theorem forwardStep_acc {f : K} (hf1 : 1 ≤ f) {P : Matrix (Fin n) (Fin n) K} (hP : ∀ i j, 0 ≤ P i j)
    {E : Matrix (Fin n) (Fin k) K} (hE : ∀ i y, 0 ≤ E i y) {g' g : Fin n → K} {c : K} {N : ℕ}
    (h : ∀ i, Acc f N (c * g' i) (g i)) (y : Fin k) (s : Fin n) :
    Acc f N (c * forwardStep P E g' y s) (forwardStep P E g y s) := by
  have e1 : ∀ i, Acc f N (c * g' i * P i s) (g i * P i s) := fun i => by
    have e := (h i).times hf1 (Acc.refl (hP i s))
    exact e
  have e2 := (Acc.refl (f := f) (hE s y)).times hf1 (Acc.total e1)
  have e3 : E s y * ∑ i, c * g' i * P i s = c * forwardStep P E g' y s := by
    unfold forwardStep
    rw [mul_left_comm, mul_sum univ _ c]
    simp only [mul_assoc]
  rw [e3] at e2
  exact e2.mono hf1 (by omega)

/-- One scaled step of the rounded loop. -/
theorem forwardF_step (hF : F.Sound u) {P : Matrix (Fin n) (Fin n) K} (hP : ∀ i j, 0 ≤ P i j)
    {E : Matrix (Fin n) (Fin k) K} (hE : ∀ i y, 0 ≤ E i y) {f' f : Fin n → K} {c₀ : K} {N : ℕ}
    (hc₀ : 0 < c₀) (hf : ∀ i, Acc (1 / (1 - u)) N (c₀ * f' i) (f i)) (y : Fin k) {a : Fin n → K}
    (ha : a = forwardStepF F P E f' y) {c : K} (hcdef : c = F.sum (List.ofFn a)) :
    Acc (1 / (1 - u)) (N + (2 * n + 2)) (c₀ * c) (∑ s, forwardStep P E f y s) ∧
    (0 < c → (∀ s, 0 ≤ F.div (a s) c) ∧ Acc (1 / (1 - u)) (n + 1) (∑ s, F.div (a s) c) 1 ∧
      ∀ s, Acc (1 / (1 - u)) (N + (n + 3)) (c₀ * c * F.div (a s) c) (forwardStep P E f y s)) := by
  have h1 := hF.one_le
  have hf'0 : ∀ i, 0 ≤ f' i := fun i => by
    have := (hf i).nonneg h1
    by_contra hn
    exact absurd this (not_le.2 (mul_neg_of_pos_of_neg hc₀ (not_le.1 hn)))
  have hacc : ∀ s, Acc (1 / (1 - u)) (n + 2) (a s) (forwardStep P E f' y s) := fun s => by
    rw [ha]
    exact forwardStepF_acc hF hP hE hf'0 y s
  have ha0 : ∀ s, 0 ≤ a s := fun s => (hacc s).nonneg h1
  have hsum : Acc (1 / (1 - u)) (0 + n) c (∑ s, a s) := by
    rw [hcdef]
    exact Acc.sum hF fun s => Acc.refl (ha0 s)
  have hmid : ∀ s, Acc (1 / (1 - u)) (N + (n + 2)) (c₀ * a s) (forwardStep P E f y s) := fun s => by
    have e2 := (Acc.refl (f := 1 / (1 - u)) hc₀.le).times h1 (hacc s)
    exact (e2.trans h1 (forwardStep_acc h1 hP hE hf y s)).mono h1 (by omega)
  constructor
  · have e1 := Acc.total hmid
    rw [← mul_sum] at e1
    have e2 := (Acc.refl (f := 1 / (1 - u)) hc₀.le).times h1 hsum
    exact (e2.trans h1 e1).mono h1 (by omega)
  · intro hc0
    have has : 0 < ∑ s, a s := (hsum.pos_iff h1).1 hc0
    have htot := (normal_total hF ha0 has).2
    rw [← hcdef] at htot
    have hdiv : ∀ s, Acc (1 / (1 - u)) (0 + 0 + 1) (F.div (a s) c) (a s / c) := fun s =>
      Acc.div hF (Acc.refl (ha0 s)) (Acc.refl hc0.le) hc0
    refine ⟨fun s => (hdiv s).nonneg h1, htot, fun s => ?_⟩
    have e1 := (Acc.refl (f := 1 / (1 - u)) (mul_pos hc₀ hc0).le).times h1 (hdiv s)
    rw [mul_assoc c₀ c (a s / c), mul_div_cancel₀ _ hc0.ne'] at e1
    exact (e1.trans h1 (hmid s)).mono h1 (by omega)

theorem forwardLoopF_spec (hF : F.Sound u) {P : Matrix (Fin n) (Fin n) K} (hP : ∀ i j, 0 ≤ P i j)
    {E : Matrix (Fin n) (Fin k) K} (hE : ∀ i y, 0 ≤ E i y) {f' f : Fin n → K} {c₀ : K} {N : ℕ}
    (hc₀ : 0 < c₀) (hf : ∀ i, Acc (1 / (1 - u)) N (c₀ * f' i) (f i)) {ys : List (Fin k)}
    {fw : List ((Fin n → K) × K)} (h : forwardLoopF F P E f' ys = some fw) :
    fw.length = ys.length ∧ (∀ q ∈ fw, 1 / 10 ^ 300 ≤ q.2 ∧ (∀ s, 0 ≤ q.1 s) ∧
      Acc (1 / (1 - u)) (n + 1) (∑ s, q.1 s) 1) ∧
    ∀ t (ht : t < fw.length) s, Acc (1 / (1 - u)) (N + (t + 1) * (n + 3))
      (c₀ * ((fw.take (t + 1)).map Prod.snd).prod * fw[t].1 s) (alpha P E f (ys.take (t + 1)) s) := by
  have h1 := hF.one_le
  induction ys generalizing f' f fw c₀ N with
  | nil =>
    simp only [forwardLoopF, Option.some.injEq] at h
    subst h
    simp
  | cons y ys ih =>
    simp only [forwardLoopF] at h
    split at h
    · cases h
    · rename_i hc
      rw [Option.map_eq_some_iff] at h
      obtain ⟨fw', hfw, rfl⟩ := h
      obtain ⟨a, ha⟩ : ∃ a, a = forwardStepF F P E f' y := ⟨_, rfl⟩
      obtain ⟨c, hcdef⟩ : ∃ c, c = F.sum (List.ofFn a) := ⟨_, rfl⟩
      rw [← ha, ← hcdef] at hc hfw ⊢
      have hc0 : 0 < c := lt_of_lt_of_le (by positivity) (not_lt.1 hc)
      obtain ⟨hdiv0, htot, hnext⟩ := (forwardF_step hF hP hE hc₀ hf y ha hcdef).2 hc0
      obtain ⟨i1, i2, i3⟩ := ih (mul_pos hc₀ hc0) hnext hfw
      refine ⟨by simp [i1], ?_, ?_⟩
      · intro q hq
        rw [List.mem_cons] at hq
        rcases hq with rfl | hq
        · exact ⟨not_lt.1 hc, hdiv0, htot⟩
        · exact i2 q hq
      · intro t ht s
        cases t with
        | zero =>
          simp only [List.getElem_cons_zero, zero_add, List.take_succ_cons, List.take_zero,
            List.map_cons, List.map_nil, List.prod_cons, List.prod_nil, mul_one, one_mul]
          exact hnext s
        | succ t =>
          have ht' : t < fw'.length := by simpa using ht
          have e := i3 t ht' s
          simp only [List.getElem_cons_succ, List.take_succ_cons, List.map_cons, List.prod_cons]
          rw [← mul_assoc c₀ c]
          refine e.mono h1 (le_of_eq ?_)
          ring

theorem backwardLoopF_spec (hF : F.Sound u) {P : Matrix (Fin n) (Fin n) K} (hP : ∀ i j, 0 ≤ P i j)
    {E : Matrix (Fin n) (Fin k) K} (hE : ∀ i y, 0 ≤ E i y) (l : List (Fin k × K)) (hl : ∀ q ∈ l, 0 < q.2) :
    (backwardLoopF F P E l).length = l.length + 1 ∧
    ∀ t (ht : t < (backwardLoopF F P E l).length) s,
      Acc (1 / (1 - u)) ((l.length - t) * (n + 4)) ((backwardLoopF F P E l)[t] s * ((l.drop t).map Prod.snd).prod)
        (beta (fun i j => P i j) (fun i j => E i j) ((l.drop t).map Prod.fst) s) := by
  have h1 := hF.one_le
  induction l with
  | nil =>
    refine ⟨rfl, ?_⟩
    intro t ht s
    have : t = 0 := by simp [backwardLoopF] at ht; omega
    subst this
    have e := beta_nil (fun i j => P i j) (fun i j => E i j) s
    simp only [List.drop_zero, List.map_nil, e]
    change Acc _ _ ((1 : K) * 1) 1
    rw [mul_one]
    exact (Acc.refl zero_le_one).mono h1 (by omega)
  | cons q l ih =>
    obtain ⟨y, c⟩ := q
    obtain ⟨h2, h3⟩ := ih fun q hq => hl q (List.mem_cons_of_mem _ hq)
    have hc : 0 < c := hl (y, c) (by simp)
    refine ⟨by simp [backwardLoopF, h2], ?_⟩
    intro t ht s
    cases t with
    | succ t =>
      have ht' : t < (backwardLoopF F P E l).length := by
        have : t + 1 < (backwardLoopF F P E l).length + 1 := ht
        omega
      have e := h3 t ht' s
      rw [List.length_cons, Nat.add_sub_add_right]
      exact e
    | zero =>
      have h0 : 0 < (backwardLoopF F P E l).length := by omega
      have hhead := headD_eq_getElem (backwardLoopF F P E l) h0 fun _ => 1
      change Acc _ _ (backwardStepF F P E y c ((backwardLoopF F P E l).headD fun _ => 1) s *
        (((y, c) :: l).map Prod.snd).prod) _
      rw [hhead]
      simp only [List.drop_zero, List.map_cons, List.prod_cons, beta_cons]
      obtain ⟨b, hb⟩ : ∃ b, b = (backwardLoopF F P E l)[0] := ⟨_, rfl⟩
      obtain ⟨D, hD⟩ : ∃ D, D = (l.map Prod.snd).prod := ⟨_, rfl⟩
      have hD0 : 0 < D := by
        rw [hD]
        exact List.prod_pos fun x hx => by
          obtain ⟨q, hq, rfl⟩ := List.mem_map.1 hx
          exact hl q (List.mem_cons_of_mem _ hq)
      have hacc : ∀ j, Acc (1 / (1 - u)) (l.length * (n + 4)) (b j * D)
          (beta (fun i j => P i j) (fun i j => E i j) (l.map Prod.fst) j) := fun j => by
        have := h3 0 h0 j
        simp only [List.drop_zero, Nat.sub_zero] at this
        rw [hb, hD]
        exact this
      have hb0 : ∀ j, 0 ≤ b j := fun j => by
        have := (hacc j).nonneg h1
        by_contra hn
        exact absurd this (not_le.2 (mul_neg_of_neg_of_pos (not_le.1 hn) hD0))
      rw [← hb, ← hD]
      have e1 : ∀ j, Acc (1 / (1 - u)) (0 + 0 + 1 + 0 + 1) (F.mul (F.mul (P s j) (b j)) (E j y))
          (P s j * b j * E j y) := fun j =>
        Acc.mul hF (Acc.mul hF (Acc.refl (hP s j)) (Acc.refl (hb0 j))) (Acc.refl (hE j y))
      have e2 : Acc (1 / (1 - u)) (0 + 0 + 1) (F.div 1 c) (1 / c) :=
        Acc.div hF (Acc.refl zero_le_one) (Acc.refl hc.le) hc
      have e3 := Acc.mul hF e2 (Acc.sum hF e1)
      have e4 := e3.times h1 (Acc.refl (mul_pos hc hD0).le)
      have e5 : (1 / c * ∑ j, P s j * b j * E j y) * (c * D) = ∑ j, P s j * (E j y * (b j * D)) := by
        rw [show (1 / c * ∑ j, P s j * b j * E j y) * (c * D) = (1 / c * c) * ((∑ j, P s j * b j * E j y) * D) by ring,
          one_div_mul_cancel hc.ne', one_mul, sum_mul]
        exact sum_congr rfl fun j _ => by ring
      rw [e5] at e4
      have e6 : Acc (1 / (1 - u)) (l.length * (n + 4)) (∑ j, P s j * (E j y * (b j * D)))
          (∑ j, P s j * (E j y * beta (fun i j => P i j) (fun i j => E i j) (l.map Prod.fst) j)) := by
        refine Acc.total fun j => ?_
        have e := (Acc.refl (f := 1 / (1 - u)) (hP s j)).times h1 ((Acc.refl (hE j y)).times h1 (hacc j))
        exact e.mono h1 (by omega)
      refine (e4.trans h1 e6).mono h1 (le_of_eq ?_)
      rw [List.length_cons, Nat.sub_zero]
      ring

/-- C149. **Decoding in floating point.** If the rounded decoding of a nonempty sequence of `T` symbols returns a
result, the product of the scaling factors agrees with the probability of the sequence, the forward columns with
the distributions of the hidden state given the past symbols, and the posterior probabilities with the
distributions of the hidden state given all symbols, entry by entry, up to a number of roundings that is linear in
`T` and in the number of states. -/
theorem C149_decode (hF : F.Sound u) {P : Matrix (Fin n) (Fin n) K} (hP : ∀ i j, 0 ≤ P i j)
    {E : Matrix (Fin n) (Fin k) K} (hE : ∀ i y, 0 ≤ E i y) {init : Fin n → K} (hi : ∀ i, 0 ≤ init i)
    {ys : List (Fin k)} (hys : ys ≠ []) {d : Decoding K n} (h : decodeScaledF F P E init ys = some d) :
    d.factors.length = ys.length + 1 ∧ d.forward.length = ys.length + 1 ∧ d.backward.length = ys.length + 1 ∧
    d.posterior.length = ys.length ∧ (∀ c ∈ d.factors, 0 < c) ∧
    0 < likelihood (fun i j => P i j) (fun i j => E i j) init ys ∧
    Acc (1 / (1 - u)) (ys.length * (n + 3) + (n + 1)) d.factors.prod
      (likelihood (fun i j => P i j) (fun i j => E i j) init ys) ∧
    (∀ t (ht : t < d.forward.length) s, 0 < t →
      Acc (1 / (1 - u)) (2 * t * (n + 3) + (n + 1)) (d.forward[t] s)
        (alpha P E init (ys.take t) s / likelihood (fun i j => P i j) (fun i j => E i j) init (ys.take t))) ∧
    (∀ t (ht : t < d.posterior.length) s,
      Acc (1 / (1 - u)) (ys.length * (2 * n + 7) + (n + 2)) (d.posterior[t] s)
        (jointAt (fun i j => P i j) (fun i j => E i j) init ys t s /
          likelihood (fun i j => P i j) (fun i j => E i j) init ys)) := by
  have h1 := hF.one_le
  unfold decodeScaledF at h
  rw [Option.map_eq_some_iff] at h
  obtain ⟨fw, hfw, rfl⟩ := h
  obtain ⟨f1, f2, f3⟩ := forwardLoopF_spec hF hP hE (c₀ := 1) (N := 0) one_pos
    (fun i => by rw [one_mul]; exact Acc.refl (hi i)) hfw
  obtain ⟨sc, hsc⟩ : ∃ sc, sc = fw.map Prod.snd := ⟨_, rfl⟩
  have hlen : sc.length = ys.length := by rw [hsc, List.length_map, f1]
  have hsc0 : ∀ c ∈ sc, 0 < c := by
    intro c hc
    rw [hsc, List.mem_map] at hc
    obtain ⟨q, hq, rfl⟩ := hc
    exact lt_of_lt_of_le (by positivity) (f2 q hq).1
  obtain ⟨b1, b2⟩ := backwardLoopF_spec hF hP hE (ys.zip sc) (by
    intro q hq
    exact hsc0 q.2 (List.of_mem_zip hq).2)
  have hzl : (ys.zip sc).length = ys.length := by rw [List.length_zip, hlen, min_self]
  have hfst : (ys.zip sc).map Prod.fst = ys := List.map_fst_zip (by rw [hlen])
  have hsnd : (ys.zip sc).map Prod.snd = sc := List.map_snd_zip (by rw [hlen])
  rw [hzl] at b1 b2
  have b3 : ∀ t (ht : t < (backwardLoopF F P E (ys.zip sc)).length) s,
      Acc (1 / (1 - u)) ((ys.length - t) * (n + 4)) ((backwardLoopF F P E (ys.zip sc))[t] s * (sc.drop t).prod)
        (beta (fun i j => P i j) (fun i j => E i j) (ys.drop t) s) := by
    intro t ht s
    have := b2 t ht s
    rw [List.map_drop, List.map_drop, hfst, hsnd] at this
    exact this
  have f4 : ∀ t (ht : t < fw.length) s, Acc (1 / (1 - u)) ((t + 1) * (n + 3))
      ((sc.take (t + 1)).prod * fw[t].1 s) (alpha P E init (ys.take (t + 1)) s) := by
    intro t ht s
    have := f3 t ht s
    rw [List.map_take, ← hsc, one_mul, zero_add] at this
    exact this
  have hC : ∀ t, t < fw.length → Acc (1 / (1 - u)) ((t + 1) * (n + 3) + (n + 1)) (sc.take (t + 1)).prod
      (likelihood (fun i j => P i j) (fun i j => E i j) init (ys.take (t + 1))) := by
    intro t ht
    have e1 := Acc.total (f4 t ht)
    rw [← mul_sum, sum_alpha_likelihood] at e1
    have hp : 0 < (sc.take (t + 1)).prod := List.prod_pos fun x hx => hsc0 x (List.mem_of_mem_take hx)
    have e2 := (Acc.refl (f := 1 / (1 - u)) hp.le).times h1 ((f2 fw[t] (List.getElem_mem ht)).2.2.symm h1)
    rw [mul_one] at e2
    exact (e2.trans h1 e1).mono h1 (by omega)
  have hpos : 0 < ys.length := List.length_pos_iff.2 hys
  have hL := hC (ys.length - 1) (by omega)
  rw [show ys.length - 1 + 1 = ys.length by omega, List.take_length, List.take_of_length_le hlen.le] at hL
  have hsp : 0 < sc.prod := List.prod_pos hsc0
  have hLpos := (hL.pos_iff h1).1 hsp
  have hpl : ((List.zipWith (fun b f s => F.mul (b s) (f s)) (backwardLoopF F P E (ys.zip sc))
      (init :: fw.map Prod.fst)).tail).length = ys.length := by
    rw [List.length_tail, List.length_zipWith, b1, List.length_cons, List.length_map, f1]
    simp
  subst hsc
  refine ⟨by simp [f1], by simp [f1], b1, hpl, ?_, hLpos, ?_, ?_, ?_⟩
  · intro c hc
    rw [List.mem_cons] at hc
    rcases hc with rfl | hc
    · exact zero_lt_one
    · exact hsc0 c hc
  · rw [List.prod_cons, one_mul]; exact hL
  · intro t ht s ht0
    obtain ⟨t, rfl⟩ : ∃ t', t = t' + 1 := ⟨t - 1, by omega⟩
    have ht' : t < fw.length := by simpa using ht
    have hp : 0 < ((fw.map Prod.snd).take (t + 1)).prod := List.prod_pos fun x hx => hsc0 x (List.mem_of_mem_take hx)
    have e := (f4 t ht' s).quotient h1 (hC t ht') (((hC t ht').pos_iff h1).1 hp)
    rw [mul_div_cancel_left₀ _ hp.ne'] at e
    have hget : (init :: fw.map Prod.fst)[t + 1] = fw[t].1 := by simp
    simp only [hget]
    refine e.mono h1 (le_of_eq ?_)
    ring
  · intro t ht s
    have ht0 : t < ys.length := lt_of_lt_of_eq ht hpl
    have ht' : t < fw.length := by omega
    have hf := f4 t ht' s
    have hb := b3 (t + 1) (by rw [b1]; omega) s
    have hsplit := List.prod_take_mul_prod_drop (fw.map Prod.snd) (t + 1)
    rw [← alpha_mul_beta P E init ys t ht0 s]
    have hp : 0 < ((fw.map Prod.snd).take (t + 1)).prod := List.prod_pos fun x hx => hsc0 x (List.mem_of_mem_take hx)
    have hq : 0 < ((fw.map Prod.snd).drop (t + 1)).prod := List.prod_pos fun x hx => hsc0 x (List.mem_of_mem_drop hx)
    obtain ⟨b, hbb⟩ : ∃ b, b = (backwardLoopF F P E (ys.zip (fw.map Prod.snd)))[t + 1]'(by rw [b1]; omega) := ⟨_, rfl⟩
    rw [← hbb] at hb
    have hf0 : 0 ≤ fw[t].1 s := (f2 fw[t] (List.getElem_mem ht')).2.1 s
    have hb0 : 0 ≤ b s := by
      have := hb.nonneg h1
      by_contra hn
      exact absurd this (not_le.2 (mul_neg_of_neg_of_pos (not_le.1 hn) hq))
    have e1 : Acc (1 / (1 - u)) (0 + 0 + 1) (F.mul (b s) (fw[t].1 s)) (b s * fw[t].1 s) :=
      Acc.mul hF (Acc.refl hb0) (Acc.refl hf0)
    have e2 := e1.times h1 (Acc.refl hsp.le)
    have e3 := hf.times h1 hb
    have e4 : b s * fw[t].1 s * (fw.map Prod.snd).prod =
        ((fw.map Prod.snd).take (t + 1)).prod * fw[t].1 s * (b s * ((fw.map Prod.snd).drop (t + 1)).prod) := by
      rw [← hsplit]
      ring
    rw [e4] at e2
    have e5 := (e2.trans h1 e3).quotient h1 hL hLpos
    rw [mul_div_cancel_right₀ _ hsp.ne'] at e5
    simp only [List.getElem_tail, List.getElem_zipWith, List.getElem_cons_succ, List.getElem_map]
    rw [← hbb]
    refine e5.mono h1 ?_
    have : (t + 1) * (n + 3) + (ys.length - (t + 1)) * (n + 4) ≤ ys.length * (n + 4) := by
      have h2 : ys.length * (n + 4) = (t + 1) * (n + 4) + (ys.length - (t + 1)) * (n + 4) := by
        rw [← Nat.add_mul]
        congr 1
        omega
      have h3 : (t + 1) * (n + 3) ≤ (t + 1) * (n + 4) := Nat.mul_le_mul_left _ (by omega)
      omega
    have h4 : ys.length * (2 * n + 7) = ys.length * (n + 4) + ys.length * (n + 3) := by ring
    omega

/-- C149, the exact program. When both programs return a result, they agree entry by entry. -/
theorem C149_programs (hF : F.Sound u) {P : Matrix (Fin n) (Fin n) K} (hP : ∀ i j, 0 ≤ P i j)
    {E : Matrix (Fin n) (Fin k) K} (hE : ∀ i y, 0 ≤ E i y) {init : Fin n → K} (hi : ∀ i, 0 ≤ init i)
    {ys : List (Fin k)} (hys : ys ≠ []) {d' d : Decoding K n} (h' : decodeScaledF F P E init ys = some d')
    (h : decodeScaled P E init ys = some d) :
    List.Forall₂ (fun x' x => ∀ s, Acc (1 / (1 - u)) (ys.length * (2 * n + 7) + (n + 2)) (x' s) (x s))
      d'.posterior d.posterior ∧
    Acc (1 / (1 - u)) (ys.length * (n + 3) + (n + 1)) d'.factors.prod d.factors.prod := by
  obtain ⟨-, -, -, a1, -, -, a2, -, a3⟩ := C149_decode hF hP hE hi hys h'
  obtain ⟨-, -, -, c1, -, -, c2, -, -, c3⟩ := decodeScaled_spec hys h
  refine ⟨List.forall₂_iff_get.2 ⟨by rw [a1, c2], fun t ht ht' s => ?_⟩, by rw [c1]; exact a2⟩
  have e := a3 t ht s
  rw [← c3 t ht' s] at e
  exact e

theorem forwardLoopF_some (hF : F.Sound u) {P : Matrix (Fin n) (Fin n) K} (hP : ∀ i j, 0 ≤ P i j)
    {E : Matrix (Fin n) (Fin k) K} (hE : ∀ i y, 0 ≤ E i y) {f' f : Fin n → K} {c₀ : K} {N : ℕ}
    (hc₀ : 0 < c₀) (hf : ∀ i, Acc (1 / (1 - u)) N (c₀ * f' i) (f i))
    (hsum : Acc (1 / (1 - u)) (N + (n + 1)) c₀ (∑ i, f i)) {ys : List (Fin k)}
    (hp : ∀ t < ys.length, (1 / (1 - u)) ^ (2 * (N + t * (n + 3)) + (3 * n + 3)) *
      (∑ s, alpha P E f (ys.take t) s) / 10 ^ 300 ≤ ∑ s, alpha P E f (ys.take (t + 1)) s) :
    ∃ fw, forwardLoopF F P E f' ys = some fw := by
  have h1 := hF.one_le
  induction ys generalizing f' f c₀ N with
  | nil => exact ⟨[], rfl⟩
  | cons y ys ih =>
    obtain ⟨a, ha⟩ : ∃ a, a = forwardStepF F P E f' y := ⟨_, rfl⟩
    obtain ⟨c, hcdef⟩ : ∃ c, c = F.sum (List.ofFn a) := ⟨_, rfl⟩
    obtain ⟨s1, s2⟩ := forwardF_step hF hP hE hc₀ hf y ha hcdef
    obtain ⟨S, hS⟩ : ∃ S, S = ∑ s, forwardStep P E f y s := ⟨_, rfl⟩
    obtain ⟨S₀, hS₀⟩ : ∃ S₀, S₀ = ∑ i, f i := ⟨_, rfl⟩
    have hp0 := hp 0 (by simp)
    have hS₀pos : 0 < S₀ := by rw [hS₀]; exact (hsum.pos_iff h1).1 hc₀
    have hlow : 1 / 10 ^ 300 ≤ c := by
      have e1 : (1 / (1 - u)) ^ (2 * N + (3 * n + 3)) * S₀ / 10 ^ 300 ≤ S := by
        rw [hS, hS₀]
        rw [Nat.zero_mul, Nat.add_zero] at hp0
        exact hp0
      have hcn : 0 ≤ c := by
        have := s1.nonneg h1
        by_contra hn
        exact absurd this (not_le.2 (mul_neg_of_pos_of_neg hc₀ (not_le.1 hn)))
      have e2 := (hsum.times h1 (Acc.refl hcn)).near.1
      have e3 := s1.near.2
      rw [← hS] at e3
      rw [← hS₀] at e2
      have e4 : S ≤ (1 / (1 - u)) ^ (2 * N + (3 * n + 3)) * (S₀ * c) := by
        refine e3.trans ((mul_le_mul_of_nonneg_left e2 (pow_nonneg (by linarith) _)).trans (le_of_eq ?_))
        rw [← mul_assoc, ← pow_add]
        congr 2
        ring
      have e5 := e1.trans e4
      have hfp : 0 < (1 / (1 - u)) ^ (2 * N + (3 * n + 3)) * S₀ := mul_pos (pow_pos (by linarith) _) hS₀pos
      rw [← mul_assoc, div_eq_mul_one_div] at e5
      exact le_of_mul_le_mul_left e5 hfp
    have hc0 : 0 < c := lt_of_lt_of_le (by positivity) hlow
    obtain ⟨t1, t2, t3⟩ := s2 hc0
    obtain ⟨fw, hfw⟩ := ih (f' := fun s => F.div (a s) c) (f := forwardStep P E f y) (c₀ := c₀ * c) (N := N + (n + 3))
      (mul_pos hc₀ hc0) t3 (by
        have e1 := Acc.total t3
        rw [← mul_sum] at e1
        have e2 := (Acc.refl (f := 1 / (1 - u)) (mul_pos hc₀ hc0).le).times h1 (t2.symm h1)
        rw [mul_one] at e2
        exact (e2.trans h1 e1).mono h1 (by omega)) (by
        intro t ht
        have e := hp (t + 1) (by simpa using ht)
        refine le_trans (le_of_eq ?_) e
        rw [show N + (t + 1) * (n + 3) = N + (n + 3) + t * (n + 3) by ring]
        rfl)
    refine ⟨(fun s => F.div (a s) c, c) :: fw, ?_⟩
    unfold forwardLoopF
    simp only
    rw [← ha, ← hcdef, if_neg (not_lt.2 hlow), hfw]
    rfl

/-- C149, when the rounded program returns a result: whenever the probability of each symbol given the earlier ones
exceeds the limit `1e-300` of the program by the factor of the roundings. -/
theorem C149_returns (hF : F.Sound u) {P : Matrix (Fin n) (Fin n) K} (hP : ∀ i j, 0 ≤ P i j)
    {E : Matrix (Fin n) (Fin k) K} (hE : ∀ i y, 0 ≤ E i y) {init : Fin n → K} (hi : ∀ i, 0 ≤ init i)
    (hs : ∑ i, init i = 1) {ys : List (Fin k)}
    (hp : ∀ t < ys.length, (1 / (1 - u)) ^ (2 * (t * (n + 3)) + (3 * n + 3)) *
      likelihood (fun i j => P i j) (fun i j => E i j) init (ys.take t) / 10 ^ 300 ≤
        likelihood (fun i j => P i j) (fun i j => E i j) init (ys.take (t + 1))) :
    ∃ d, decodeScaledF F P E init ys = some d := by
  have h1 := hF.one_le
  obtain ⟨fw, hfw⟩ := forwardLoopF_some hF hP hE (f' := init) (f := init) (c₀ := 1) (N := 0) one_pos
    (fun i => by rw [one_mul]; exact Acc.refl (hi i))
    (by rw [hs]; exact (Acc.refl zero_le_one).mono h1 (by omega)) (ys := ys) (by
      intro t ht
      rw [sum_alpha_likelihood, sum_alpha_likelihood, zero_add]
      exact hp t ht)
  unfold decodeScaledF
  rw [hfw]
  exact ⟨_, rfl⟩

/-- C149, the logarithm. The logarithm of the probability of the symbols, calculated from the rounded scaling
factors, has an absolute error that is linear in the number of symbols. -/
theorem C149_log {F : Arith ℝ} {u : ℝ} (hF : F.Sound u) {P : Matrix (Fin n) (Fin n) ℝ} (hP : ∀ i j, 0 ≤ P i j)
    {E : Matrix (Fin n) (Fin k) ℝ} (hE : ∀ i y, 0 ≤ E i y) {init : Fin n → ℝ} (hi : ∀ i, 0 ≤ init i)
    {ys : List (Fin k)} (hys : ys ≠ []) {d : Decoding ℝ n} (h : decodeScaledF F P E init ys = some d) :
    |(d.factors.map Real.log).sum - Real.log (likelihood (fun i j => P i j) (fun i j => E i j) init ys)| ≤
      (ys.length * (n + 3) + (n + 1) : ℕ) * Real.log (1 / (1 - u)) := by
  have h1 := hF.one_le
  obtain ⟨-, -, -, -, a1, a2, a3, -, -⟩ := C149_decode hF hP hE hi hys h
  have hlog : (d.factors.map Real.log).sum = Real.log d.factors.prod := by
    have : ∀ l : List ℝ, (∀ c ∈ l, 0 < c) → (l.map Real.log).sum = Real.log l.prod := by
      intro l
      induction l with
      | nil => simp
      | cons x l ih =>
        intro hl
        rw [List.map_cons, List.sum_cons, List.prod_cons, ih fun c hc => hl c (by simp [hc]),
          Real.log_mul (hl x (by simp)).ne' (List.prod_pos fun c hc => hl c (by simp [hc])).ne']
    exact this _ a1
  rw [hlog, ← Real.log_pow]
  have hfp : 0 < (1 / (1 - u)) ^ (ys.length * (n + 3) + (n + 1)) := pow_pos (by linarith) _
  have hpos := (a3.pos_iff h1).2 a2
  rw [abs_le]
  constructor
  · have e := Real.log_le_log a2 a3.near.2
    rw [Real.log_mul hfp.ne' hpos.ne'] at e
    linarith
  · have e := Real.log_le_log hpos a3.near.1
    rw [Real.log_mul hfp.ne' a2.ne'] at e
    linarith

/-! ## A concrete case -/

/-- Decoding in doubles: the posterior probabilities of two symbols. -/
example : let P : Matrix (Fin 2) (Fin 2) ℚ := fun i j => ![![7 / 10, 3 / 10], ![4 / 10, 6 / 10]] i j
    let E : Matrix (Fin 2) (Fin 2) ℚ := fun i j => ![![9 / 10, 1 / 10], ![2 / 10, 8 / 10]] i j
    ((decodeScaledF (Arith.rounded binary64) P E (fun _ => 1 / 2) [0, 1]).map fun d => (d.posterior.length,
      decide (∀ t : Fin 2, |(∑ s, (d.posterior.getD t fun _ => 0) s) - 1| < 1 / 10 ^ 14))) = some (2, true) := by
  decide +kernel

end Verif
