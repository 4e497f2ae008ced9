import Verif.Model.Hidden
import Verif.Spec.Hidden
import Verif.Spec.Valid
import Verif.Lemmas.Chain
import Verif.Props.Arguments
import Verif.Props.Transform
import Verif.Props.Simulation
import Mathlib.Analysis.SpecialFunctions.Log.Basic
import Mathlib.Tactic.FinCases
import Mathlib.Tactic.IntervalCases

/-!
# Decoding of hidden Markov models (C56)
-/

set_option linter.unusedSectionVars false

namespace Verif

open Finset

variable {K : Type} [Field K] [LinearOrder K] [IsStrictOrderedRing K] {n k : ℕ}

/-! ## The unscaled recursions -/

/-- The unscaled forward column after the given symbols. -/
def alpha (P : Matrix (Fin n) (Fin n) K) (E : Matrix (Fin n) (Fin k) K) (f : Fin n → K)
    (ys : List (Fin k)) : Fin n → K := ys.foldl (forwardStep P E) f

/-- The probability of the given symbols from a hidden state. -/
def beta (P : Fin n → Fin n → K) (E : Fin n → Fin k → K) (ys : List (Fin k)) (s : Fin n) : K :=
  expect P ys.length s fun w => emitProb E w ys

theorem beta_nil (P : Fin n → Fin n → K) (E : Fin n → Fin k → K) (s : Fin n) :
    beta P E [] s = 1 := by simp [beta, expect, emitProb]

theorem beta_cons (P : Fin n → Fin n → K) (E : Fin n → Fin k → K) (y : Fin k) (ys : List (Fin k))
    (s : Fin n) : beta P E (y :: ys) s = ∑ j, P s j * (E j y * beta P E ys j) := by
  simp only [beta, List.length_cons, expect, emitProb]
  refine sum_congr rfl fun j _ => ?_
  rw [expect_smul]

/-- The forward columns are joint probabilities. -/
theorem sum_alpha (P : Matrix (Fin n) (Fin n) K) (E : Matrix (Fin n) (Fin k) K) (f : Fin n → K)
    (ys : List (Fin k)) (g : Fin n → K) (hys : ys ≠ []) :
    ∑ s, alpha P E f ys s * g s = ∑ x, f x * expect P ys.length x fun w =>
      emitProb (fun i j => E i j) w ys * g (w.getLastD x) := by
  induction ys generalizing f with
  | nil => exact absurd rfl hys
  | cons y ys ih =>
    have step : ∀ h : Fin n → K, ∑ j, forwardStep P E f y j * h j =
        ∑ x, f x * ∑ j, P x j * (E j y * h j) := by
      intro h
      simp only [forwardStep, mul_sum, sum_mul]
      rw [sum_comm]
      refine sum_congr rfl fun x _ => sum_congr rfl fun j _ => ?_
      ring
    by_cases h : ys = []
    · subst h
      refine (step g).trans ?_
      simp [expect, emitProb]
    · refine (ih (forwardStep P E f y) h).trans ?_
      refine (step _).trans ?_
      refine sum_congr rfl fun x _ => ?_
      congr 1
      simp only [List.length_cons, expect]
      refine sum_congr rfl fun j _ => ?_
      congr 1
      refine (expect_smul (fun i j => P i j) _ _ _ _).symm.trans ?_
      refine expect_congr fun w _ => ?_
      rw [List.getLastD_cons]
      simp only [emitProb]
      ring

theorem emitProb_append (E : Fin n → Fin k → K) (w v : List (Fin n)) (ys zs : List (Fin k))
    (h : w.length = ys.length) :
    emitProb E (w ++ v) (ys ++ zs) = emitProb E w ys * emitProb E v zs := by
  induction w generalizing ys with
  | nil =>
    cases ys with
    | nil => simp [emitProb]
    | cons y ys => simp at h
  | cons a w ih =>
    cases ys with
    | nil => simp at h
    | cons y ys =>
      simp only [List.cons_append, emitProb]
      rw [ih ys (by simpa using h), mul_assoc]

/-- The joint probability of the symbols and of the hidden state at one time splits into a forward
and a backward part. -/
theorem alpha_mul_beta (P : Matrix (Fin n) (Fin n) K) (E : Matrix (Fin n) (Fin k) K)
    (f : Fin n → K) (ys : List (Fin k)) (t : ℕ) (ht : t < ys.length) (s : Fin n) :
    alpha P E f (ys.take (t + 1)) s * beta (fun i j => P i j) (fun i j => E i j) (ys.drop (t + 1)) s =
      jointAt (fun i j => P i j) (fun i j => E i j) f ys t s := by
  have hne : ys.take (t + 1) ≠ [] := by
    intro h
    have := congrArg List.length h
    simp only [List.length_take, List.length_nil] at this
    omega
  have hlen : (ys.take (t + 1)).length = t + 1 := by simp; omega
  have hsum : (t + 1) + (ys.length - (t + 1)) = ys.length := by omega
  have h1 := sum_alpha P E f (ys.take (t + 1)) (fun s' => if s' = s then
    beta (fun i j => P i j) (fun i j => E i j) (ys.drop (t + 1)) s' else 0) hne
  simp only [mul_ite, mul_zero, sum_ite_eq', mem_univ, if_true] at h1
  rw [h1]
  unfold jointAt
  refine sum_congr rfl fun x _ => ?_
  congr 1
  rw [hlen, ← hsum]
  refine Eq.trans ?_ (expect_append (fun i j => P i j) (t + 1) (ys.length - (t + 1)) x _).symm
  refine expect_congr fun w hw => ?_
  have hlast : ∀ v : List (Fin n), (w ++ v)[t]? = some (w.getLastD x) := by
    intro v
    have hw0 : w ≠ [] := by intro h; simp [h] at hw
    rw [List.getElem?_append_left (by omega), List.getLastD_eq_getLast?, List.getLast?_eq_getElem?, hw]
    simp [List.getElem?_eq_getElem (show t < w.length by omega)]
  have hem : ∀ v : List (Fin n), emitProb (fun i j => E i j) (w ++ v) ys =
      emitProb (fun i j => E i j) w (ys.take (t + 1)) * emitProb (fun i j => E i j) v (ys.drop (t + 1)) := by
    intro v
    conv_lhs => rw [← List.take_append_drop (t + 1) ys]
    exact emitProb_append _ _ _ _ _ (by rw [hw, hlen])
  by_cases hs : w.getLastD x = s
  · rw [if_pos hs]
    simp only [hlast, hs, if_true, hem]
    unfold beta
    rw [expect_smul, List.length_drop]
  · rw [if_neg hs]
    simp only [hlast, Option.some.injEq, hs, if_false]
    exact (expect_zero _ _ _).symm

theorem sum_alpha_likelihood (P : Matrix (Fin n) (Fin n) K) (E : Matrix (Fin n) (Fin k) K)
    (f : Fin n → K) (ys : List (Fin k)) :
    ∑ s, alpha P E f ys s = likelihood (fun i j => P i j) (fun i j => E i j) f ys := by
  by_cases h : ys = []
  · subst h
    simp [alpha, likelihood, expect, emitProb]
  · have := sum_alpha P E f ys (fun _ => 1) h
    simp only [mul_one] at this
    exact this

theorem alpha_smul (P : Matrix (Fin n) (Fin n) K) (E : Matrix (Fin n) (Fin k) K) (f : Fin n → K)
    (c : K) (ys : List (Fin k)) (s : Fin n) :
    alpha P E (fun i => f i / c) ys s = alpha P E f ys s / c := by
  induction ys generalizing f with
  | nil => rfl
  | cons y ys ih =>
    have : forwardStep P E (fun i => f i / c) y = fun s => forwardStep P E f y s / c := by
      funext s
      simp only [forwardStep, mul_sum, sum_div]
      refine sum_congr rfl fun i _ => ?_
      ring
    change alpha P E (forwardStep P E (fun i => f i / c) y) ys s = _
    rw [this]
    exact ih _

/-! ## The scaled recursions -/

theorem forwardLoop_spec (P : Matrix (Fin n) (Fin n) K) (E : Matrix (Fin n) (Fin k) K)
    {f : Fin n → K} {ys : List (Fin k)} {fw : List ((Fin n → K) × K)}
    (h : forwardLoop P E f ys = some fw) :
    fw.length = ys.length ∧ (∀ q ∈ fw, 1 / 10 ^ 300 ≤ q.2 ∧ ∑ s, q.1 s = 1) ∧
    ∀ t (ht : t < fw.length) s,
      fw[t].1 s * ((fw.take (t + 1)).map Prod.snd).prod = alpha P E f (ys.take (t + 1)) s := by
  induction ys generalizing f fw with
  | nil =>
    simp only [forwardLoop, Option.some.injEq] at h
    subst h
    simp
  | cons y ys ih =>
    simp only [forwardLoop] at h
    split at h
    · cases h
    · rename_i hc
      rw [Option.map_eq_some_iff] at h
      obtain ⟨fw', hf, rfl⟩ := h
      obtain ⟨h1, h2, h3⟩ := ih hf
      obtain ⟨c, hcdef⟩ : ∃ c, c = ∑ s, forwardStep P E f y s := ⟨_, rfl⟩
      rw [← hcdef] at hc h3 hf ⊢
      have hc0 : 0 < c := lt_of_lt_of_le (by positivity) (not_lt.1 hc)
      refine ⟨by simp [h1], ?_, ?_⟩
      · intro q hq
        rw [List.mem_cons] at hq
        rcases hq with rfl | hq
        · refine ⟨not_lt.1 hc, ?_⟩
          change ∑ s, forwardStep P E f y s / c = 1
          rw [← sum_div, ← hcdef, div_self hc0.ne']
        · exact h2 q hq
      · intro t ht s
        cases t with
        | zero =>
          simp only [List.getElem_cons_zero, zero_add, List.take_succ_cons, List.take_zero,
            List.map_cons, List.map_nil, List.prod_cons, List.prod_nil, mul_one]
          rw [div_mul_cancel₀ _ hc0.ne']
          rfl
        | succ t =>
          have ht' : t < fw'.length := by simpa using ht
          have := h3 t ht' s
          rw [alpha_smul, eq_div_iff hc0.ne'] at this
          simp only [List.getElem_cons_succ, List.take_succ_cons, List.map_cons, List.prod_cons]
          refine Eq.trans ?_ this
          ring

theorem headD_eq_getElem {α : Type} (l : List α) (h : 0 < l.length) (d : α) : l.headD d = l[0] := by
  cases l with
  | nil => simp at h
  | cons a b => rfl

theorem backwardLoop_spec (P : Matrix (Fin n) (Fin n) K) (E : Matrix (Fin n) (Fin k) K)
    (l : List (Fin k × K)) (hl : ∀ q ∈ l, q.2 ≠ 0) :
    (backwardLoop P E l).length = l.length + 1 ∧
    ∀ t (ht : t < (backwardLoop P E l).length) s,
      (backwardLoop P E l)[t] s * ((l.drop t).map Prod.snd).prod =
        beta (fun i j => P i j) (fun i j => E i j) ((l.drop t).map Prod.fst) s := by
  induction l with
  | nil =>
    refine ⟨rfl, ?_⟩
    intro t ht s
    have : t = 0 := by simp [backwardLoop] at ht; omega
    subst this
    refine Eq.trans ?_ (beta_nil _ _ s).symm
    change (1 : K) * 1 = 1
    rw [mul_one]
  | cons q l ih =>
    obtain ⟨y, c⟩ := q
    obtain ⟨h1, h2⟩ := ih fun q hq => hl q (List.mem_cons_of_mem _ hq)
    have hc : c ≠ 0 := hl (y, c) (by simp)
    refine ⟨by simp [backwardLoop, h1], ?_⟩
    intro t ht s
    cases t with
    | succ t =>
      have ht' : t < (backwardLoop P E l).length := by
        have : t + 1 < (backwardLoop P E l).length + 1 := ht
        omega
      exact h2 t ht' s
    | zero =>
      have h0 : 0 < (backwardLoop P E l).length := by omega
      have hhead := headD_eq_getElem (backwardLoop P E l) h0 fun _ => 1
      change backwardStep P E y c ((backwardLoop P E l).headD fun _ => 1) s *
        (((y, c) :: l).map Prod.snd).prod = _
      rw [hhead]
      simp only [List.drop_zero, List.map_cons, List.prod_cons, beta_cons]
      unfold backwardStep
      have h3 : ∀ j, beta (fun i j => P i j) (fun i j => E i j) (l.map Prod.fst) j =
          (backwardLoop P E l)[0] j * (l.map Prod.snd).prod := fun j => by
        have := h2 0 h0 j
        simp only [List.drop_zero] at this
        exact this.symm
      simp only [h3, mul_sum, sum_mul]
      refine sum_congr rfl fun j _ => ?_
      field_simp

theorem forwardLoop_none (P : Matrix (Fin n) (Fin n) K) (E : Matrix (Fin n) (Fin k) K)
    (f : Fin n → K) (ys : List (Fin k)) :
    forwardLoop P E f ys = none ↔ ∃ t < ys.length, ∑ s, alpha P E f (ys.take (t + 1)) s <
      (if t = 0 then 1 else ∑ s, alpha P E f (ys.take t) s) / 10 ^ 300 := by
  induction ys generalizing f with
  | nil => simp [forwardLoop]
  | cons y ys ih =>
    obtain ⟨c, hcdef⟩ : ∃ c, c = ∑ s, forwardStep P E f y s := ⟨_, rfl⟩
    have hun : forwardLoop P E f (y :: ys) = if c < 1 / 10 ^ 300 then none else
        (forwardLoop P E (fun s => forwardStep P E f y s / c) ys).map
          ((fun s => forwardStep P E f y s / c, c) :: ·) := by
      rw [hcdef]; rfl
    rw [hun]
    have h0 : ∑ s, alpha P E f ((y :: ys).take (0 + 1)) s = c := by rw [hcdef]; rfl
    have hs : ∀ t, ∑ s, alpha P E f ((y :: ys).take (t + 1)) s =
        ∑ s, alpha P E (forwardStep P E f y) (ys.take t) s := fun t => rfl
    by_cases hc : c < 1 / 10 ^ 300
    · rw [if_pos hc]
      refine ⟨fun _ => ⟨0, by simp, ?_⟩, fun _ => rfl⟩
      rw [h0, if_pos rfl]; exact hc
    · rw [if_neg hc, Option.map_eq_none_iff, ih]
      have hc0 : 0 < c := lt_of_lt_of_le (by positivity) (not_lt.1 hc)
      have key : ∀ t, (∑ s, alpha P E (fun s => forwardStep P E f y s / c) (ys.take (t + 1)) s <
          (if t = 0 then 1 else ∑ s, alpha P E (fun s => forwardStep P E f y s / c) (ys.take t) s) /
            10 ^ 300) ↔
          ∑ s, alpha P E f ((y :: ys).take (t + 1 + 1)) s <
            (if t + 1 = 0 then 1 else ∑ s, alpha P E f ((y :: ys).take (t + 1)) s) / 10 ^ 300 := by
        intro t
        have hd : (if t = 0 then 1 else
            ∑ s, alpha P E (fun s => forwardStep P E f y s / c) (ys.take t) s) =
            (∑ s, alpha P E f ((y :: ys).take (t + 1)) s) / c := by
          split
          · rename_i h; subst h
            rw [h0, div_self hc0.ne']
          · simp only [alpha_smul, ← sum_div, hs]
        rw [hd, if_neg (Nat.succ_ne_zero t)]
        simp only [alpha_smul, ← sum_div, hs]
        rw [div_div, mul_comm c, ← div_div, div_lt_div_iff_of_pos_right hc0]
      constructor
      · rintro ⟨t, ht, h⟩
        exact ⟨t + 1, by simpa using ht, (key t).1 h⟩
      · rintro ⟨t, ht, h⟩
        cases t with
        | zero =>
          rw [h0, if_pos rfl] at h
          exact absurd h hc
        | succ t => exact ⟨t, by simpa using ht, (key t).2 h⟩

/-- The meaning of the arrays computed with scaling. -/
theorem decodeScaled_spec {P : Matrix (Fin n) (Fin n) K} {E : Matrix (Fin n) (Fin k) K}
    {f : Fin n → K} {ys : List (Fin k)} {d : Decoding K n} (hys : ys ≠ [])
    (h : decodeScaled P E f ys = some d) :
    (∀ c ∈ d.factors, 0 < c) ∧ d.factors.length = ys.length + 1 ∧ d.factors.head? = some 1 ∧
    d.factors.prod = likelihood (fun i j => P i j) (fun i j => E i j) f ys ∧
    d.forward.length = ys.length + 1 ∧ d.backward.length = ys.length + 1 ∧
    d.posterior.length = ys.length ∧
    (∀ t (ht : t < d.forward.length) s,
      d.forward[t] s * (d.factors.take (t + 1)).prod = alpha P E f (ys.take t) s) ∧
    (∀ t (ht : t < d.backward.length) s, d.backward[t] s * (d.factors.drop (t + 1)).prod =
      beta (fun i j => P i j) (fun i j => E i j) (ys.drop t) s) ∧
    (∀ t (ht : t < d.posterior.length) s, d.posterior[t] s =
      jointAt (fun i j => P i j) (fun i j => E i j) f ys t s /
        likelihood (fun i j => P i j) (fun i j => E i j) f ys) := by
  unfold decodeScaled at h
  rw [Option.map_eq_some_iff] at h
  obtain ⟨fw, hfw, rfl⟩ := h
  obtain ⟨h1, h2, h3⟩ := forwardLoop_spec P E hfw
  obtain ⟨sc, hsc⟩ : ∃ sc, sc = fw.map Prod.snd := ⟨_, rfl⟩
  have hlen : sc.length = ys.length := by rw [hsc, List.length_map, h1]
  have hsc0 : ∀ c ∈ sc, 0 < c := by
    intro c hc
    rw [hsc, List.mem_map] at hc
    obtain ⟨q, hq, rfl⟩ := hc
    exact lt_of_lt_of_le (by positivity) (h2 q hq).1
  obtain ⟨b1, b2⟩ := backwardLoop_spec P E (ys.zip sc) (by
    intro q hq
    exact (hsc0 q.2 (List.of_mem_zip hq).2).ne')
  have hzl : (ys.zip sc).length = ys.length := by rw [List.length_zip, hlen, min_self]
  have hfst : (ys.zip sc).map Prod.fst = ys := List.map_fst_zip (by rw [hlen])
  have hsnd : (ys.zip sc).map Prod.snd = sc := List.map_snd_zip (by rw [hlen])
  rw [hzl] at b1
  have b3 : ∀ t (ht : t < (backwardLoop P E (ys.zip sc)).length) s,
      (backwardLoop P E (ys.zip sc))[t] s * (sc.drop t).prod =
        beta (fun i j => P i j) (fun i j => E i j) (ys.drop t) s := by
    intro t ht s
    have := b2 t ht s
    rw [List.map_drop, List.map_drop, hfst, hsnd] at this
    exact this
  have f3 : ∀ t (ht : t < (f :: fw.map Prod.fst).length) s,
      (f :: fw.map Prod.fst)[t] s * (sc.take t).prod = alpha P E f (ys.take t) s := by
    intro t ht s
    cases t with
    | zero => simp [alpha]
    | succ t =>
      have ht' : t < fw.length := by simpa using ht
      have := h3 t ht' s
      rw [List.map_take, ← hsc] at this
      simpa using this
  have hprod : sc.prod = likelihood (fun i j => P i j) (fun i j => E i j) f ys := by
    rw [← sum_alpha_likelihood]
    have hpos : 0 < ys.length := List.length_pos_iff.2 hys
    have hlast : ys.length < (f :: fw.map Prod.fst).length := by simp [h1]
    have e : ∀ s, alpha P E f ys s = (f :: fw.map Prod.fst)[ys.length] s * sc.prod := by
      intro s
      have := f3 ys.length hlast s
      rw [List.take_length, List.take_of_length_le hlen.le] at this
      exact this.symm
    simp only [e, ← sum_mul]
    have hmem : (f :: fw.map Prod.fst)[ys.length] ∈ fw.map Prod.fst := by
      have : (f :: fw.map Prod.fst)[ys.length] = (fw.map Prod.fst)[ys.length - 1]'(by
          rw [List.length_map, h1]; omega) := by
        rw [List.getElem_cons, dif_neg (by omega)]
      rw [this]
      exact List.getElem_mem _
    rw [List.mem_map] at hmem
    obtain ⟨q, hq, hq1⟩ := hmem
    rw [← hq1, (h2 q hq).2, one_mul]
  have hL : 0 < sc.prod := List.prod_pos hsc0
  have hpl : ((List.zipWith (fun b f s => b s * f s) (backwardLoop P E (ys.zip sc))
      (f :: fw.map Prod.fst)).tail).length = ys.length := by
    rw [List.length_tail, List.length_zipWith, b1, List.length_cons, List.length_map, h1]
    simp
  subst hsc
  refine ⟨?_, by simp [h1], rfl, ?_, by simp [h1], b1, hpl, ?_, ?_, ?_⟩
  · intro c hc
    rw [List.mem_cons] at hc
    rcases hc with rfl | hc
    · exact zero_lt_one
    · exact hsc0 c hc
  · rw [List.prod_cons, one_mul]; exact hprod
  · intro t ht s
    rw [List.take_succ_cons, List.prod_cons, one_mul]
    exact f3 t ht s
  · intro t ht s
    rw [List.drop_succ_cons]
    exact b3 t ht s
  · intro t ht s
    have ht0 : t < ys.length := lt_of_lt_of_eq ht hpl
    rw [eq_div_iff (hprod ▸ hL.ne'), ← hprod, ← alpha_mul_beta P E f ys t ht0 s]
    have hf := f3 (t + 1) (by simp [h1]; omega) s
    have hb := b3 (t + 1) (by rw [b1]; omega) s
    have hsplit := List.prod_take_mul_prod_drop (fw.map Prod.snd) (t + 1)
    rw [← hf, ← hb, ← hsplit]
    simp only [List.getElem_tail, List.getElem_zipWith]
    ring

theorem cumprodFrom_length (a : K) (l : List K) : (cumprodFrom a l).length = l.length := by
  induction l generalizing a with
  | nil => rfl
  | cons x t ih => simp [cumprodFrom, ih]

theorem cumprodFrom_get (a : K) (l : List K) (t : ℕ) (ht : t < (cumprodFrom a l).length) :
    (cumprodFrom a l)[t] = a * (l.take (t + 1)).prod := by
  induction l generalizing a t with
  | nil => simp [cumprodFrom] at ht
  | cons x l ih =>
    cases t with
    | zero => simp [cumprodFrom]
    | succ t =>
      simp only [cumprodFrom, List.getElem_cons_succ, List.take_succ_cons, List.prod_cons]
      rw [ih, mul_assoc]

theorem backwardScale_get (l : List K) (t : ℕ)
    (ht : t < (1 :: cumprodFrom 1 l.reverse).reverse.length) :
    (1 :: cumprodFrom 1 l.reverse).reverse[t] = (l.drop t).prod := by
  have hlen : (1 :: cumprodFrom 1 l.reverse).length = l.length + 1 := by
    simp [cumprodFrom_length]
  have hget : ∀ i (hi : i < (1 :: cumprodFrom 1 l.reverse).length),
      (1 :: cumprodFrom 1 l.reverse)[i] = (l.reverse.take i).prod := by
    intro i hi
    cases i with
    | zero => simp
    | succ i =>
      simp only [List.getElem_cons_succ]
      rw [cumprodFrom_get, one_mul]
  have ht' : t < l.length + 1 := by rw [List.length_reverse, hlen] at ht; exact ht
  rw [List.getElem_reverse, hget, List.take_reverse, List.prod_reverse]
  congr 2
  simp only [hlen]
  omega

/-- The meaning of the arrays returned without scaling. -/
theorem unscale_spec {P : Matrix (Fin n) (Fin n) K} {E : Matrix (Fin n) (Fin k) K}
    {f : Fin n → K} {ys : List (Fin k)} {d : Decoding K n} (hys : ys ≠ [])
    (h : decodeScaled P E f ys = some d) :
    (unscale d).posterior = d.posterior ∧
    (unscale d).forward.length = ys.length + 1 ∧ (unscale d).backward.length = ys.length + 1 ∧
    (∀ t (ht : t < (unscale d).forward.length) s,
      (unscale d).forward[t] s = alpha P E f (ys.take t) s) ∧
    (∀ t (ht : t < (unscale d).backward.length) s,
      (unscale d).backward[t] s = beta (fun i j => P i j) (fun i j => E i j) (ys.drop t) s) := by
  obtain ⟨-, h2, -, -, h5, h6, -, h8, h9, -⟩ := decodeScaled_spec hys h
  have l1 : (unscale d).forward.length = ys.length + 1 := by
    change (List.zipWith _ d.forward (cumprodFrom 1 d.factors)).length = _
    rw [List.length_zipWith, cumprodFrom_length, h5, h2, min_self]
  have l2 : (unscale d).backward.length = ys.length + 1 := by
    change (List.zipWith _ d.backward (1 :: cumprodFrom 1 d.factors.tail.reverse).reverse).length = _
    rw [List.length_zipWith, List.length_reverse, List.length_cons, cumprodFrom_length,
      List.length_reverse, List.length_tail, h6, h2]
    simp
  refine ⟨rfl, l1, l2, ?_, ?_⟩
  · intro t ht s
    rw [← h8 t (by omega) s]
    refine (congrFun (List.getElem_zipWith (h := ht)) s).trans ?_
    rw [cumprodFrom_get, one_mul]
  · intro t ht s
    rw [← h9 t (by omega) s]
    refine (congrFun (List.getElem_zipWith (h := ht)) s).trans ?_
    rw [backwardScale_get, List.drop_tail]

theorem sum_jointAt (P : Matrix (Fin n) (Fin n) K) (E : Matrix (Fin n) (Fin k) K)
    (f : Fin n → K) (ys : List (Fin k)) (t : ℕ) (ht : t < ys.length) :
    ∑ s, jointAt (fun i j => P i j) (fun i j => E i j) f ys t s =
      likelihood (fun i j => P i j) (fun i j => E i j) f ys := by
  unfold jointAt likelihood
  rw [sum_comm]
  refine sum_congr rfl fun x _ => ?_
  rw [← mul_sum, ← expect_sum]
  congr 1
  refine expect_congr fun w hw => ?_
  have : t < w.length := by omega
  simp [List.getElem?_eq_getElem this]

/-! ## The method -/

theorem toStates_sequence {labels : List String} {n : ℕ} (hl : ValidLabels n labels) {v : PyVal K}
    {l : List ℕ} (h : validateSequence v labels = .ok l) :
    (toStates n l).map Fin.val = l ∧ 2 ≤ (toStates n l).length := by
  rw [C04_sequences hl.2.1] at h
  obtain ⟨vs, rfl, hlen, -, hf⟩ := h
  obtain ⟨s, rfl, hs⟩ := forall₂_names_fin hf
  have hn : labels.length = n := hl.1
  have ht : toStates n (s.map Fin.val) = s.map (Fin.cast hn) := by
    unfold toStates
    rw [List.filterMap_map]
    have : ((fun k => if h : k < n then some (⟨k, h⟩ : Fin n) else none) ∘ Fin.val :
        Fin labels.length → Option (Fin n)) = some ∘ Fin.cast hn := by
      funext i
      have : (i : ℕ) < n := hn ▸ i.isLt
      simp [this, Fin.cast]
    rw [this, List.filterMap_eq_map]
  rw [ht]
  refine ⟨by simp [List.map_map, Function.comp_def], ?_⟩
  rw [List.length_map, ← hs.length_eq]; exact hlen

theorem decode_run {m : HMM ℝ} {symbols status : PyVal ℝ} {ys : List ℕ} {init : Fin m.n → ℝ}
    (hy : validateSequence symbols m.symbols = .ok ys)
    (hs : initialStatus status m.states m.n = .ok init) (b : Bool) :
    m.decode symbols status (.bool b) = .ok (hmmDecode m.p m.e init (toStates m.k ys) b) := by
  unfold HMM.decode
  rw [hy]
  change (initialStatus status m.states m.n >>= _) = _
  rw [hs]
  rfl

theorem sum_log {l : List ℝ} (h : ∀ c ∈ l, 0 < c) : (l.map Real.log).sum = Real.log l.prod := by
  induction l with
  | nil => simp
  | cons a l ih =>
    rw [List.map_cons, List.sum_cons, List.prod_cons, ih fun c hc => h c (by simp [hc]),
      Real.log_mul (h a (by simp)).ne' (List.prod_pos fun c hc => h c (by simp [hc])).ne']

theorem alpha_eq_jointAt (P : Matrix (Fin n) (Fin n) K) (E : Matrix (Fin n) (Fin k) K)
    (f : Fin n → K) (ys : List (Fin k)) (t : ℕ) (ht : t < ys.length) (s : Fin n) :
    alpha P E f (ys.take (t + 1)) s =
      jointAt (fun i j => P i j) (fun i j => E i j) f (ys.take (t + 1)) t s := by
  have h := alpha_mul_beta P E f (ys.take (t + 1)) t (by simp; omega) s
  rw [List.take_take, min_self, List.drop_take, Nat.sub_self, List.take_zero, beta_nil, mul_one] at h
  exact h

/-- The sequence is rejected exactly when one symbol has a probability smaller than `1e-300`
given the previous ones. -/
theorem hmmDecode_none {P : Matrix (Fin n) (Fin n) ℝ} {E : Matrix (Fin n) (Fin k) ℝ}
    {f : Fin n → ℝ} {ys : List (Fin k)} {b : Bool} :
    hmmDecode P E f ys b = none ↔ ∃ t < ys.length,
      likelihood (fun i j => P i j) (fun i j => E i j) f (ys.take (t + 1)) <
        (if t = 0 then 1 else likelihood (fun i j => P i j) (fun i j => E i j) f (ys.take t)) / 10 ^ 300 := by
  unfold hmmDecode decodeScaled
  rw [Option.map_eq_none_iff, Option.map_eq_none_iff, forwardLoop_none]
  simp only [sum_alpha_likelihood]

/-- C56, sequences that cannot be decoded. The result is `None` exactly when some symbol has a
probability smaller than `1e-300` given the previous ones. -/
theorem C56_none {m : HMM ℝ} {symbols status : PyVal ℝ} {l : List ℕ} {init : Fin m.n → ℝ}
    (hy : validateSequence symbols m.symbols = .ok l)
    (hs : initialStatus status m.states m.n = .ok init) (b : Bool) :
    m.decode symbols status (.bool b) = .ok none ↔ ∃ t < (toStates m.k l).length,
      likelihood m.p m.e init ((toStates m.k l).take (t + 1)) <
        (if t = 0 then 1 else likelihood m.p m.e init ((toStates m.k l).take t)) / 10 ^ 300 := by
  rw [decode_run hy hs, Except.ok.injEq]
  exact hmmDecode_none

theorem hmmDecode_spec {P : Matrix (Fin n) (Fin n) ℝ} {E : Matrix (Fin n) (Fin k) ℝ}
    {f : Fin n → ℝ} {ys : List (Fin k)} (hys : ys ≠ []) {r : ℝ × Decoding ℝ n}
    (h : hmmDecode P E f ys true = some r) :
    0 < likelihood (fun i j => P i j) (fun i j => E i j) f ys ∧
    r.1 = Real.log (likelihood (fun i j => P i j) (fun i j => E i j) f ys) ∧
    hmmDecode P E f ys false = some (r.1, unscale r.2) ∧ decodeScaled P E f ys = some r.2 := by
  unfold hmmDecode at h ⊢
  rw [Option.map_eq_some_iff] at h
  obtain ⟨d, hd, rfl⟩ := h
  obtain ⟨h1, -, -, h4, -⟩ := decodeScaled_spec hys hd
  rw [hd]
  refine ⟨h4 ▸ List.prod_pos h1, ?_, rfl, rfl⟩
  rw [← h4]
  exact sum_log h1

/-- C56. If no symbol has a probability smaller than `1e-300` given the previous ones, `decode`
returns the logarithm of the likelihood, and for every symbol the law of the hidden state given all
symbols. The scaled columns multiplied with their factors are the unscaled ones, and these are the
joint probabilities of the past symbols with the hidden state, and the probabilities of the future
symbols given the hidden state. -/
theorem C56_decode_partial {m : HMM ℝ} (hm : m.Valid) {symbols status : PyVal ℝ} {l : List ℕ}
    {init : Fin m.n → ℝ} (hy : validateSequence symbols m.symbols = .ok l)
    (hs : initialStatus status m.states m.n = .ok init) {ys : List (Fin m.k)}
    (hys : ys = toStates m.k l)
    (hbig : ∀ t < ys.length, (if t = 0 then 1 else likelihood m.p m.e init (ys.take t)) / 10 ^ 300 ≤
      likelihood m.p m.e init (ys.take (t + 1))) :
    ys.map Fin.val = l ∧ 0 < likelihood m.p m.e init ys ∧ ∃ d u : Decoding ℝ m.n,
      m.decode symbols status (.bool true) = .ok (some (Real.log (likelihood m.p m.e init ys), d)) ∧
      m.decode symbols status (.bool false) = .ok (some (Real.log (likelihood m.p m.e init ys), u)) ∧
      (d.posterior.length = ys.length ∧ u.posterior = d.posterior ∧
        ∀ t (ht : t < d.posterior.length), ∑ s, d.posterior[t] s = 1 ∧ ∀ s,
          d.posterior[t] s = jointAt m.p m.e init ys t s / likelihood m.p m.e init ys) ∧
      (u.forward.length = ys.length + 1 ∧ u.forward.head? = some init ∧
        ∀ t (ht : t + 1 < u.forward.length) s,
          u.forward[t + 1] s = jointAt m.p m.e init (ys.take (t + 1)) t s) ∧
      (u.backward.length = ys.length + 1 ∧ ∀ t (ht : t < u.backward.length) s,
        u.backward[t] s = expect m.p (ys.length - t) s fun w => emitProb m.e w (ys.drop t)) ∧
      (d.forward.length = u.forward.length ∧ d.backward.length = u.backward.length ∧
        d.factors.length = ys.length + 1 ∧
        ∀ t (h1 : t < d.forward.length) (h2 : t < u.forward.length) (h3 : t < d.backward.length)
          (h4 : t < u.backward.length) s,
          u.forward[t] s = d.forward[t] s * (d.factors.take (t + 1)).prod ∧
          u.backward[t] s = d.backward[t] s * (d.factors.drop (t + 1)).prod) := by
  obtain ⟨t1, t2⟩ := toStates_sequence hm.2.2.2.2.2.1 hy
  rw [← hys] at t1 t2
  have hne : ys ≠ [] := by intro h; simp [h] at t2
  have hsome : hmmDecode m.p m.e init ys true ≠ none := by
    intro h
    rw [hmmDecode_none] at h
    obtain ⟨t, ht, hlt⟩ := h
    exact absurd (hbig t ht) (not_le.2 hlt)
  obtain ⟨r, hr⟩ := Option.ne_none_iff_exists'.1 hsome
  obtain ⟨r1, r2, r3, r4⟩ := hmmDecode_spec hne hr
  obtain ⟨-, d2, -, -, d5, d6, d7, d8, d9, d10⟩ := decodeScaled_spec hne r4
  obtain ⟨u1, u2, u3, u4, u5⟩ := unscale_spec hne r4
  refine ⟨t1, r1, r.2, unscale r.2, ?_, ?_, ⟨d7, u1, ?_⟩, ⟨u2, ?_, ?_⟩, ⟨u3, ?_⟩, d5.trans u2.symm,
    d6.trans u3.symm, d2, ?_⟩
  · rw [decode_run hy hs, ← hys, hr]
    have : r = (Real.log (likelihood m.p m.e init ys), r.2) := Prod.ext r2 rfl
    rw [← this]
  · rw [decode_run hy hs, ← hys, r3]
    have : r.1 = Real.log (likelihood m.p m.e init ys) := r2
    rw [this]
  · intro t ht
    refine ⟨?_, fun s => d10 t ht s⟩
    have e : ∀ s, r.2.posterior[t] s = jointAt m.p m.e init ys t s / likelihood m.p m.e init ys :=
      fun s => d10 t ht s
    simp only [e]
    rw [← sum_div]
    refine (congrArg (· / _) (sum_jointAt m.p m.e init ys t (by omega))).trans ?_
    exact div_self r1.ne'
  · have h0 : 0 < (unscale r.2).forward.length := by omega
    rw [List.head?_eq_getElem?, List.getElem?_eq_getElem h0]
    congr 1
    funext s
    exact u4 0 h0 s
  · intro t ht s
    refine (u4 (t + 1) ht s).trans ?_
    exact alpha_eq_jointAt m.p m.e init ys t (by omega) s
  · intro t ht s
    refine (u5 t ht s).trans ?_
    unfold beta
    rw [List.length_drop]
  · intro t h1 h2 h3 h4 s
    exact ⟨(u4 t h2 s).trans (d8 t h1 s).symm, (u5 t h4 s).trans (d9 t h3 s).symm⟩

/-- C56. A sequence of symbols that the model cannot emit is not decoded. -/
theorem C56_impossible {m : HMM ℝ} (hm : m.Valid) {symbols status : PyVal ℝ} {l : List ℕ}
    {init : Fin m.n → ℝ} (hy : validateSequence symbols m.symbols = .ok l)
    (hs : initialStatus status m.states m.n = .ok init)
    (h0 : likelihood m.p m.e init (toStates m.k l) = 0) (b : Bool) :
    m.decode symbols status (.bool b) = .ok none := by
  obtain ⟨-, t2⟩ := toStates_sequence hm.2.2.2.2.2.1 hy
  have hne : toStates m.k l ≠ [] := by intro h; simp [h] at t2
  rw [decode_run hy hs, Except.ok.injEq]
  have key : hmmDecode m.p m.e init (toStates m.k l) true = none := by
    by_contra hsome
    obtain ⟨r, hr⟩ := Option.ne_none_iff_exists'.1 hsome
    exact (hmmDecode_spec hne hr).1.ne' h0
  rw [hmmDecode_none] at key ⊢
  exact key

/-- A model with two equally likely states and a symbol of probability `x` in both. -/
noncomputable def exCoin (x : ℝ) : HMM ℝ :=
  ⟨2, 2, !![1 / 2, 1 / 2; 1 / 2, 1 / 2], !![x, 1 - x; x, 1 - x], ["a", "b"], ["u", "v"]⟩

theorem exCoin_valid {x : ℝ} (h0 : 0 ≤ x) (h1 : x ≤ 1) : (exCoin x).Valid := by
  refine ⟨le_rfl, le_rfl, ?_, ?_, show ValidLabels 2 ["a", "b"] by decide,
    show ValidLabels 2 ["u", "v"] by decide, show List.Disjoint ["a", "b"] ["u", "v"] by
      rw [List.disjoint_left]; decide⟩
  · have : IsStochastic (fun i j : Fin 2 => (!![1 / 2, 1 / 2; 1 / 2, 1 / 2] : Matrix _ _ ℝ) i j) := by
      constructor
      · intro i j
        fin_cases i <;> fin_cases j <;> norm_num
      · intro i
        fin_cases i <;> norm_num [Fin.sum_univ_two]
    exact this
  · have : IsStochastic (fun i j : Fin 2 => (!![x, 1 - x; x, 1 - x] : Matrix _ _ ℝ) i j) := by
      constructor
      · intro i j
        fin_cases i <;> fin_cases j <;> simp [h0, h1]
      · intro i
        fin_cases i <;> simp [Fin.sum_univ_two]
    exact this

theorem exCoin_forward (x : ℝ) (f : Fin 2 → ℝ) :
    forwardStep (exCoin x).p (exCoin x).e f (0 : Fin 2) = fun _ => x * ((f 0 + f 1) / 2) := by
  have : ∀ s : Fin 2, forwardStep !![1 / 2, 1 / 2; 1 / 2, 1 / 2] !![x, 1 - x; x, 1 - x] f (0 : Fin 2) s =
      x * ((f 0 + f 1) / 2) := by
    intro s
    fin_cases s <;> simp [forwardStep, Fin.sum_univ_two] <;> left <;> ring
  funext s
  exact this s

theorem exCoin_likelihood (x : ℝ) :
    likelihood (exCoin x).p (exCoin x).e (fun _ : Fin 2 => (1 / 2 : ℝ)) ([0] : List (Fin 2)) = x ∧
    likelihood (exCoin x).p (exCoin x).e (fun _ : Fin 2 => (1 / 2 : ℝ)) ([0, 0] : List (Fin 2)) = x * x := by
  constructor
  · refine (sum_alpha_likelihood (exCoin x).p (exCoin x).e _ _).symm.trans ?_
    change ∑ s : Fin 2, forwardStep (exCoin x).p (exCoin x).e _ (0 : Fin 2) s = _
    rw [exCoin_forward, Fin.sum_univ_two]
    ring
  · refine (sum_alpha_likelihood (exCoin x).p (exCoin x).e _ _).symm.trans ?_
    change ∑ s : Fin 2, forwardStep (exCoin x).p (exCoin x).e
      (forwardStep (exCoin x).p (exCoin x).e _ (0 : Fin 2)) (0 : Fin 2) s = _
    rw [exCoin_forward]
    change ∑ s : Fin 2, forwardStep (exCoin x).p (exCoin x).e
      (fun _ : Fin 2 => x * ((1 / 2 + 1 / 2) / 2)) (0 : Fin 2) s = _
    rw [exCoin_forward, Fin.sum_univ_two]
    ring

theorem ten_pow_300 : (1 : ℝ) / 10 ^ 300 ≤ 1 / 10 := by
  rw [div_le_div_iff_of_pos_left one_pos (by positivity) (by positivity)]
  calc (10 : ℝ) = 10 ^ 1 := (pow_one _).symm
    _ ≤ 10 ^ 300 := pow_le_pow_right₀ (by norm_num) (by norm_num)

theorem exCoin_args (x : ℝ) :
    validateSequence (.list [.str "u", .str "u"] : PyVal ℝ) (exCoin x).symbols = .ok [0, 0] ∧
    toStates (exCoin x).k [0, 0] = ([0, 0] : List (Fin 2)) ∧
    initialStatus (.none : PyVal ℝ) (exCoin x).states (exCoin x).n = .ok (fun _ : Fin 2 => (1 / 2 : ℝ)) := by
  refine ⟨rfl, rfl, ?_⟩
  change Except.ok _ = Except.ok _
  congr 1
  funext i
  have : ∀ i : Fin 2, listVec (List.replicate 2 (1 / ((2 : ℕ) : ℝ))) 2 i = 1 / 2 := by
    intro i
    fin_cases i <;> norm_num [listVec]
  exact this i

/-- The hypotheses of `C56_decode_partial` can be met. -/
theorem exCoin_decodes : ∃ d, (exCoin (1 / 3)).decode (.list [.str "u", .str "u"]) .none (.bool true) =
    .ok (some (Real.log (1 / 9), d)) := by
  obtain ⟨a1, a2, a3⟩ := exCoin_args (1 / 3)
  obtain ⟨l1, l2⟩ := exCoin_likelihood (1 / 3)
  obtain ⟨-, -, d, u, h, -⟩ := C56_decode_partial (exCoin_valid (by norm_num) (by norm_num)) a1 a3
    a2.symm (by
      intro t ht
      have ht' : t < 2 := ht
      interval_cases t
      · rw [if_pos rfl]
        refine le_trans (ten_pow_300.trans ?_) l1.ge
        norm_num
      · rw [if_neg one_ne_zero]
        refine le_trans (b := 1 / 9) ?_ (le_of_eq ?_)
        · refine (div_le_div_of_nonneg_right l1.le (by positivity)).trans ?_
          refine le_trans (b := 1 / 10 ^ 300) ?_ (ten_pow_300.trans (by norm_num))
          exact div_le_div_of_nonneg_right (by norm_num) (by positivity)
        · refine Eq.trans ?_ l2.symm
          norm_num)
  refine ⟨d, h.trans ?_⟩
  congr 4
  refine l2.trans ?_
  norm_num

/-- C56 fails for a symbol of very small probability: the sequence has a positive likelihood but the
result is `None`. -/
theorem C56_tiny : (exCoin (1 / 10 ^ 301)).Valid ∧
    0 < likelihood (exCoin (1 / 10 ^ 301)).p (exCoin (1 / 10 ^ 301)).e (fun _ : Fin 2 => (1 / 2 : ℝ))
      ([0, 0] : List (Fin 2)) ∧
    (exCoin (1 / 10 ^ 301)).decode (.list [.str "u", .str "u"]) .none (.bool true) = .ok none := by
  obtain ⟨a1, a2, a3⟩ := exCoin_args (1 / 10 ^ 301)
  obtain ⟨l1, l2⟩ := exCoin_likelihood (1 / 10 ^ 301)
  refine ⟨exCoin_valid (by positivity) ?_, ?_, ?_⟩
  · rw [div_le_one (by positivity)]
    exact one_le_pow₀ (by norm_num)
  · exact lt_of_lt_of_eq (by positivity) l2.symm
  · rw [C56_none a1 a3]
    refine ⟨0, by rw [a2]; decide, ?_⟩
    rw [if_pos rfl]
    refine lt_of_eq_of_lt l1 ?_
    rw [div_lt_div_iff_of_pos_left one_pos (by positivity) (by positivity)]
    exact pow_lt_pow_right₀ (by norm_num) (by norm_num)

end Verif
