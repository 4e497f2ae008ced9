import Verif.Props.DecodeSimulated
import Verif.Props.Lumped
import Verif.Props.AcceptedCalls

/-!
# Decoding agrees with the chain behind a hidden model (C145)

The likelihoods that `decode` returns form a law on the sequences of symbols. A hidden model without noise
is its chain, a hidden model whose symbols say nothing about the states leaves the law of its chain, and
states of a hidden model can be renamed or lumped without changing the likelihoods.
-/

set_option linter.unusedSectionVars false

namespace Verif

open Finset

variable {n k n' k' : ℕ}

/-! ## Sequences of symbols given by their positions -/

/-- A sequence of positions as a list of Python integers. -/
def intSeq {k : ℕ} (ys : List (Fin k)) : PyVal ℝ := .list (ys.map fun y => .int (y.val : ℤ))

theorem intSeq_ok {labels : List String} (hl : ValidLabels k labels) {ys : List (Fin k)}
    (h : 2 ≤ ys.length) :
    validateSequence (intSeq ys) labels = .ok (ys.map Fin.val) ∧ toStates k (ys.map Fin.val) = ys := by
  constructor
  · rw [C04_sequences hl.2.1]
    refine ⟨_, rfl, by simpa using h, Or.inl ?_, ?_⟩
    · intro v hv
      obtain ⟨y, -, rfl⟩ := List.mem_map.1 hv
      exact ⟨_, rfl⟩
    · rw [List.forall₂_map_left_iff, List.forall₂_map_right_iff]
      exact List.forall₂_same.2 fun y _ => Or.inl ⟨rfl, by rw [hl.1]; exact y.2⟩
  · refine List.map_injective_iff.2 Fin.val_injective ?_
    exact toStates_val fun i hi => by
      obtain ⟨y, -, rfl⟩ := List.mem_map.1 hi
      exact y.2

/-! ## Likelihoods -/

theorem sum_beta {P : Fin n → Fin n → ℝ} {E : Fin n → Fin k → ℝ} (hP : IsStochastic P)
    (hE : IsStochastic E) (T : ℕ) (s : Fin n) : ∑ y : Fin T → Fin k, beta P E (List.ofFn y) s = 1 := by
  induction T generalizing s with
  | zero => simp [beta_nil]
  | succ T ih =>
    rw [← (Fin.consEquiv (fun _ : Fin (T + 1) => Fin k)).sum_comp, Fintype.sum_prod_type]
    have : ∀ (y : Fin k) (w : Fin T → Fin k),
        beta P E (List.ofFn ((Fin.consEquiv (fun _ : Fin (T + 1) => Fin k)) (y, w))) s =
          ∑ j, P s j * (E j y * beta P E (List.ofFn w) j) := by
      intro y w
      rw [← beta_cons]
      simp [Fin.consEquiv, List.ofFn_succ]
    simp only [this]
    have hy : ∀ y, ∑ w : Fin T → Fin k, ∑ j, P s j * (E j y * beta P E (List.ofFn w) j) =
        ∑ j, P s j * E j y := by
      intro y
      rw [sum_comm]
      refine sum_congr rfl fun j _ => ?_
      rw [← mul_sum, ← mul_sum, ih j, mul_one]
    simp only [hy]
    rw [sum_comm]
    simp only [← mul_sum]
    rw [← hP.2 s]
    exact sum_congr rfl fun j _ => by rw [hE.2 j, mul_one]

theorem sum_likelihood {P : Fin n → Fin n → ℝ} {E : Fin n → Fin k → ℝ} (hP : IsStochastic P)
    (hE : IsStochastic E) (f : Fin n → ℝ) (T : ℕ) :
    ∑ y : Fin T → Fin k, likelihood P E f (List.ofFn y) = ∑ x, f x := by
  have : ∀ y : Fin T → Fin k, likelihood P E f (List.ofFn y) = ∑ x, f x * beta P E (List.ofFn y) x :=
    fun y => rfl
  simp only [this]
  rw [sum_comm]
  refine sum_congr rfl fun x _ => ?_
  rw [← mul_sum, sum_beta hP hE, mul_one]

theorem likelihood_take {P : Fin n → Fin n → ℝ} {E : Fin n → Fin k → ℝ} (hP : IsStochastic P)
    (hE : IsStochastic E) {f : Fin n → ℝ} (hf : ∀ i, 0 ≤ f i) (ys : List (Fin k)) (t : ℕ) :
    likelihood P E f ys ≤ likelihood P E f (ys.take t) :=
  sum_le_sum fun a _ => mul_le_mul_of_nonneg_left (expect_emit_take hP hE ys t a).2 (hf a)

theorem likelihood_nonneg {P : Fin n → Fin n → ℝ} {E : Fin n → Fin k → ℝ} (hP : IsStochastic P)
    (hE : IsStochastic E) {f : Fin n → ℝ} (hf : ∀ i, 0 ≤ f i) (ys : List (Fin k)) :
    0 ≤ likelihood P E f ys :=
  sum_nonneg fun a _ => mul_nonneg (hf a) (expect_emit_take hP hE ys 0 a).1

theorem likelihood_empty (P : Fin n → Fin n → ℝ) (E : Fin n → Fin k → ℝ) (f : Fin n → ℝ) :
    likelihood P E f [] = ∑ x, f x := by simp [likelihood, expect, emitProb]

/-- What a decoded sequence says. -/
theorem decoded {m : HMM ℝ} (hm : m.Valid) {symbols status : PyVal ℝ} {l : List ℕ} {init : Fin m.n → ℝ}
    {ys : List (Fin m.k)} (hy : validateSequence symbols m.symbols = .ok l) (hys : ys = toStates m.k l)
    (hs : initialStatus status m.states m.n = .ok init) {b : Bool} {r : ℝ × Decoding ℝ m.n}
    (hr : m.decode symbols status (.bool b) = .ok (some r)) :
    0 < likelihood m.p m.e init ys ∧ r.1 = Real.log (likelihood m.p m.e init ys) ∧
    r.2.posterior.length = ys.length ∧ ∀ t (ht : t < r.2.posterior.length) s,
      r.2.posterior[t] s = jointAt m.p m.e init ys t s / likelihood m.p m.e init ys := by
  have hbig : ∀ t < ys.length, (if t = 0 then 1 else likelihood m.p m.e init (ys.take t)) / 10 ^ 300 ≤
      likelihood m.p m.e init (ys.take (t + 1)) := by
    by_contra hcon
    push Not at hcon
    rw [hys] at hcon
    have := (C56_none hy hs b).2 hcon
    rw [hr] at this
    cases this
  obtain ⟨-, h1, d, u, hd, hu, ⟨h2, h3, h4⟩, -⟩ := C56_decode_partial hm hy hs hys hbig
  cases b with
  | true =>
    rw [hd] at hr
    simp only [Except.ok.injEq, Option.some.injEq] at hr
    subst hr
    exact ⟨h1, rfl, h2, fun t ht s => (h4 t ht).2 s⟩
  | false =>
    rw [hu] at hr
    simp only [Except.ok.injEq, Option.some.injEq] at hr
    subst hr
    refine ⟨h1, rfl, by rw [h3, h2], fun t ht s => ?_⟩
    have e : u.posterior[t] = d.posterior[t]'(by rw [← h3]; exact ht) := List.getElem_of_eq h3 ht
    exact (congrFun e s).trans ((h4 t _).2 s)

/-- A sequence is decoded or has a very small probability. -/
theorem not_decoded {m : HMM ℝ} (hm : m.Valid) {symbols status : PyVal ℝ} {l : List ℕ} {init : Fin m.n → ℝ}
    {ys : List (Fin m.k)} (hy : validateSequence symbols m.symbols = .ok l) (hys : ys = toStates m.k l)
    (hs : initialStatus status m.states m.n = .ok init) {b : Bool}
    (hb : m.decode symbols status (.bool b) = .ok none) :
    likelihood m.p m.e init ys < max 1 (∑ a, init a) / 10 ^ 300 := by
  have hP := hm.2.2.1
  have hE := hm.2.2.2.1
  have hinit := initialStatus_nonneg hm.2.2.2.2.1 hm.1 hs
  obtain ⟨t, ht, h1⟩ := (C56_none hy hs b).1 hb
  rw [← hys] at ht h1
  refine (likelihood_take (P := fun i j => m.p i j) (E := fun i j => m.e i j) hP hE hinit ys
    (t + 1)).trans_lt (h1.trans_le ?_)
  gcongr
  split_ifs
  · exact le_max_left _ _
  · refine le_trans ?_ (le_max_right _ _)
    refine (likelihood_take (P := fun i j => m.p i j) (E := fun i j => m.e i j) hP hE hinit _ 0).trans_eq ?_
    exact likelihood_empty _ _ _

/-- The probability that `decode` finds for a sequence of symbols; zero if the sequence is not decoded. -/
noncomputable def decodedProb (m : HMM ℝ) (status : PyVal ℝ) (ys : List (Fin m.k)) : ℝ :=
  match m.decode (intSeq ys) status (.bool true) with
  | .ok (some r) => Real.exp r.1
  | _ => 0

/-- C145. The probabilities that `decode` finds for all sequences of `T` symbols sum to the sum of the
initial status; what is missing because of sequences that are not decoded is less than `1e-300` per
sequence. -/
theorem C145_total {m : HMM ℝ} (hm : m.Valid) {status : PyVal ℝ} {init : Fin m.n → ℝ}
    (hs : initialStatus status m.states m.n = .ok init) {T : ℕ} (hT : 2 ≤ T) :
    ∑ y : Fin T → Fin m.k, decodedProb m status (List.ofFn y) ≤ ∑ x, init x ∧
    ∑ x, init x ≤ (∑ y : Fin T → Fin m.k, decodedProb m status (List.ofFn y)) +
      (m.k : ℝ) ^ T * (max 1 (∑ x, init x) / 10 ^ 300) := by
  have hinit := initialStatus_nonneg hm.2.2.2.2.1 hm.1 hs
  have htot := sum_likelihood (P := fun i j => m.p i j) (E := fun i j => m.e i j) hm.2.2.1 hm.2.2.2.1 init T
  have hc0 : (0 : ℝ) ≤ max 1 (∑ x, init x) / 10 ^ 300 :=
    div_nonneg (zero_le_one.trans (le_max_left _ _)) (by positivity)
  obtain ⟨c, hc⟩ : ∃ c : ℝ, c = max 1 (∑ x, init x) / 10 ^ 300 := ⟨_, rfl⟩
  have key : ∀ y : Fin T → Fin m.k,
      decodedProb m status (List.ofFn y) ≤ likelihood m.p m.e init (List.ofFn y) ∧
      likelihood m.p m.e init (List.ofFn y) ≤ decodedProb m status (List.ofFn y) + c := by
    intro y
    obtain ⟨h1, h2⟩ := intSeq_ok hm.2.2.2.2.2.1 (ys := List.ofFn y) (by simpa using hT)
    have h0 := likelihood_nonneg (P := fun i j => m.p i j) (E := fun i j => m.e i j) hm.2.2.1 hm.2.2.2.1
      hinit (List.ofFn y)
    have hrun := decode_run h1 hs true
    unfold decodedProb
    cases hd : hmmDecode m.p m.e init (toStates m.k ((List.ofFn y).map Fin.val)) true with
    | none =>
      rw [hd] at hrun
      rw [hrun]
      refine ⟨h0, ?_⟩
      have := not_decoded hm h1 h2.symm hs hrun
      rw [hc]
      simpa using this.le
    | some r =>
      rw [hd] at hrun
      obtain ⟨a1, a2, -⟩ := decoded hm h1 h2.symm hs hrun
      rw [hrun]
      have : Real.exp r.1 = likelihood m.p m.e init (List.ofFn y) := by rw [a2, Real.exp_log a1]
      refine ⟨this.le, ?_⟩
      simp only [this]
      exact le_add_of_nonneg_right (hc ▸ hc0)
  rw [← hc]
  constructor
  · rw [← htot]
    exact sum_le_sum fun y _ => (key y).1
  · rw [← htot]
    refine (sum_le_sum fun y _ => (key y).2).trans_eq ?_
    rw [sum_add_distrib, sum_const, card_univ, Fintype.card_fun, Fintype.card_fin, Fintype.card_fin,
      nsmul_eq_mul, Nat.cast_pow]

/-- C145. Adding symbols never raises the likelihood, and a sequence that starts with a sequence that
cannot be decoded cannot be decoded. -/
theorem C145_longer {m : HMM ℝ} (hm : m.Valid) {status : PyVal ℝ} {init : Fin m.n → ℝ}
    (hs : initialStatus status m.states m.n = .ok init) {ys zs : List (Fin m.k)} (h2 : 2 ≤ ys.length) (b : Bool) :
    (∀ r r', m.decode (intSeq ys) status (.bool b) = .ok (some r) →
      m.decode (intSeq (ys ++ zs)) status (.bool b) = .ok (some r') → r'.1 ≤ r.1) ∧
    (m.decode (intSeq ys) status (.bool b) = .ok none →
      m.decode (intSeq (ys ++ zs)) status (.bool b) = .ok none) := by
  have hinit := initialStatus_nonneg hm.2.2.2.2.1 hm.1 hs
  obtain ⟨a1, a2⟩ := intSeq_ok hm.2.2.2.2.2.1 (ys := ys) h2
  obtain ⟨b1, b2⟩ := intSeq_ok hm.2.2.2.2.2.1 (ys := ys ++ zs) (by simp; omega)
  constructor
  · intro r r' hr hr'
    obtain ⟨p1, p2, -⟩ := decoded hm a1 a2.symm hs hr
    obtain ⟨q1, q2, -⟩ := decoded hm b1 b2.symm hs hr'
    rw [p2, q2]
    refine Real.log_le_log q1 ?_
    have := likelihood_take (P := fun i j => m.p i j) (E := fun i j => m.e i j) hm.2.2.1 hm.2.2.2.1 hinit
      (ys ++ zs) ys.length
    rwa [List.take_left] at this
  · intro hb
    rw [C56_none a1 hs, a2] at hb
    rw [C56_none b1 hs, b2]
    obtain ⟨t, ht, h⟩ := hb
    refine ⟨t, by simp; omega, ?_⟩
    rw [List.take_append_of_le_length (by omega), List.take_append_of_le_length (by omega)]
    exact h

/-! ## Hidden models without noise -/

theorem emitProb_exact {E : Fin n → Fin k → ℝ} {h : Fin n → Fin k}
    (he : ∀ s y, E s y = if h s = y then 1 else 0) (w : List (Fin n)) (ys : List (Fin k)) :
    emitProb E w ys = if w.map h = ys then 1 else 0 := by
  induction w generalizing ys with
  | nil => cases ys <;> simp [emitProb]
  | cons s w ih =>
    cases ys with
    | nil => simp [emitProb]
    | cons y ys =>
      rw [emitProb, he, ih]
      by_cases h1 : h s = y <;> by_cases h2 : w.map h = ys <;> simp [h1, h2]

theorem expect_path (P : Fin n → Fin n → ℝ) (path : List (Fin n)) (x : Fin n) :
    expect P path.length x (fun w => if w = path then (1 : ℝ) else 0) = walkProb P (x :: path) := by
  induction path generalizing x with
  | nil => simp [expect, walkProb]
  | cons a path ih =>
    rw [List.length_cons, expect, walkProb, Finset.sum_eq_single a]
    · rw [← ih a]
      simp
    · intro j _ hj
      have : (fun w : List (Fin n) => if j :: w = a :: path then (1 : ℝ) else 0) = fun _ => 0 := by
        funext w
        simp [hj]
      rw [this, expect_zero, mul_zero]
    · simp

theorem hiddenChain_valid {m : HMM ℝ} (hm : m.Valid) : m.chain.Valid :=
  ⟨hm.1, hm.2.2.1, hm.2.2.2.2.1⟩

/-- C145, no noise. If every state emits its own symbol, then decoding finds the states with certainty, the
maximum a posteriori prediction names them, and the likelihood from a known start is what
`sequence_probability` of the chain returns. -/
theorem C145_no_noise {m : HMM ℝ} (hm : m.Valid) {h : Fin m.n → Fin m.k} (hinj : Function.Injective h)
    (he : ∀ s, m.e s (h s) = 1) {symbols status : PyVal ℝ} {l : List ℕ} {init : Fin m.n → ℝ}
    {path : List (Fin m.n)} (hy : validateSequence symbols m.symbols = .ok l)
    (hys : path.map h = toStates m.k l) (hs : initialStatus status m.states m.n = .ok init) :
    (∀ b r, m.decode symbols status (.bool b) = .ok (some r) →
      Real.exp r.1 = ∑ x, init x * walkProb m.p (x :: path) ∧
      r.2.posterior.length = path.length ∧
      (∀ t (ht : t < path.length) (ht' : t < r.2.posterior.length) s,
        r.2.posterior[t] s = if path[t] = s then 1 else 0) ∧
      ∀ x, (∀ i, init i = if i = x then 1 else 0) →
        sequenceProbability m.chain (intSeq (x :: path)) = .ok (Real.exp r.1)) ∧
    ∀ rnd v w, m.predict rnd (.str "map") symbols status = .ok (some (v, w)) → w = path := by
  have hE := hm.2.2.2.1
  have he' : ∀ s y, m.e s y = if h s = y then 1 else 0 := by
    intro s y
    split_ifs with hh
    · rw [← hh, he]
    · have hsum : ∑ j, m.e s j = 1 := hE.2 s
      rw [← Finset.add_sum_erase _ _ (mem_univ (h s)), he] at hsum
      have h0 : ∑ j ∈ univ.erase (h s), m.e s j = 0 := by linarith
      exact (Finset.sum_eq_zero_iff_of_nonneg fun j _ => hE.1 s j).1 h0 y
        (mem_erase.2 ⟨fun e => hh e.symm, mem_univ _⟩)
  have hem : ∀ w : List (Fin m.n), emitProb (fun i j => m.e i j) w (path.map h) =
      if w = path then 1 else 0 := by
    intro w
    rw [emitProb_exact he']
    simp only [(List.map_injective_iff.2 hinj).eq_iff]
  have hlen : path.length = (path.map h).length := (List.length_map _).symm
  have hlik : likelihood (fun i j => m.p i j) (fun i j => m.e i j) init (path.map h) =
      ∑ x, init x * walkProb (fun i j => m.p i j) (x :: path) := by
    unfold likelihood
    simp only [hem]
    rw [← hlen]
    simp only [expect_path]
  have hjoint : ∀ t s, jointAt (fun i j => m.p i j) (fun i j => m.e i j) init (path.map h) t s =
      (if path[t]? = some s then 1 else 0) *
        likelihood (fun i j => m.p i j) (fun i j => m.e i j) init (path.map h) := by
    intro t s
    rw [hlik]
    unfold jointAt
    rw [Finset.mul_sum]
    refine sum_congr rfl fun x _ => ?_
    have : (fun w : List (Fin m.n) => if w[t]? = some s then
        emitProb (fun i j => m.e i j) w (path.map h) else 0) =
        fun w => (if path[t]? = some s then (1 : ℝ) else 0) * if w = path then 1 else 0 := by
      funext w
      rw [hem]
      by_cases hw : w = path
      · subst hw
        simp
      · simp [hw]
    rw [this, expect_smul, ← hlen, expect_path]
    ring
  constructor
  · intro b r hr
    obtain ⟨h1, h2, h3, h4⟩ := decoded hm hy hys hs hr
    have h5 : Real.exp r.1 = ∑ x, init x * walkProb (fun i j => m.p i j) (x :: path) := by
      rw [h2, Real.exp_log h1]
      exact hlik
    refine ⟨h5, by rw [h3, List.length_map], fun t ht ht' s => ?_, fun x hx => ?_⟩
    · rw [h4 t ht' s]
      refine (congrArg (· / _) (hjoint t s)).trans ?_
      refine (mul_div_cancel_right₀ _ h1.ne').trans ?_
      simp [List.getElem?_eq_getElem ht]
    · have hl2 : 2 ≤ (x :: path).length := by
        have := (toStates_sequence hm.2.2.2.2.2.1 hy).2
        rw [← hys, List.length_map] at this
        simp
        omega
      obtain ⟨a1, a2⟩ := intSeq_ok hm.2.2.2.2.1 hl2
      obtain ⟨w, w1, -, w3⟩ := C55_sequence_probability (hiddenChain_valid hm) (sequence := intSeq (x :: path)) a1
      have hw : w = x :: path := List.map_injective_iff.2 Fin.val_injective w1
      rw [w3, hw, h5]
      congr 1
      simp only [hx, ite_mul, one_mul, zero_mul, Finset.sum_ite_eq', mem_univ, if_true]
      rfl
  · intro rnd v w hw
    obtain ⟨h1, -, h3, h4⟩ := C74_map hm hy hs hys hw
    have hlw : w.length = path.length := by rw [h3, List.length_map]
    refine List.ext_getElem hlw fun t ht ht' => ?_
    have h5 : jointAt (fun i j => m.p i j) (fun i j => m.e i j) init (path.map h) t path[t] ≤
      jointAt (fun i j => m.p i j) (fun i j => m.e i j) init (path.map h) t w[t] := h4 t ht path[t]
    rw [hjoint, hjoint, if_pos (List.getElem?_eq_getElem ht')] at h5
    by_contra hne
    rw [if_neg fun e => hne (Option.some.inj ((List.getElem?_eq_getElem ht').symm.trans e)).symm, zero_mul,
      one_mul] at h5
    exact absurd h1 (not_lt.2 h5)

/-- C145. A sequence with a symbol that no state emits is not decoded. -/
theorem C145_foreign {m : HMM ℝ} (hm : m.Valid) {symbols status : PyVal ℝ} {l : List ℕ} {init : Fin m.n → ℝ}
    (hy : validateSequence symbols m.symbols = .ok l) (hs : initialStatus status m.states m.n = .ok init)
    {y : Fin m.k} (hmem : y ∈ toStates m.k l) (h0 : ∀ s, m.e s y = 0) (b : Bool) :
    m.decode symbols status (.bool b) = .ok none := by
  refine C56_impossible hm hy hs ?_ b
  have hem : ∀ (ys : List (Fin m.k)) (w : List (Fin m.n)), y ∈ ys → emitProb (fun i j => m.e i j) w ys = 0 := by
    intro ys
    induction ys with
    | nil => intro w hh; cases hh
    | cons a ys ih =>
      intro w hh
      cases w with
      | nil => rfl
      | cons s w =>
        rw [emitProb]
        rcases List.mem_cons.1 hh with rfl | hh
        · rw [h0 s, zero_mul]
        · rw [ih w hh, mul_zero]
  refine sum_eq_zero fun x _ => ?_
  refine mul_eq_zero_of_right _ ((expect_congr fun w _ => hem _ w hmem).trans (expect_zero _ _ _))

/-! ## Symbols without information -/

theorem emitProb_const {E : Fin n → Fin k → ℝ} {q : Fin k → ℝ} (he : ∀ s y, E s y = q y)
    (w : List (Fin n)) (ys : List (Fin k)) (h : w.length = ys.length) :
    emitProb E w ys = (ys.map q).prod := by
  induction w generalizing ys with
  | nil => cases ys with
    | nil => simp [emitProb]
    | cons y ys => simp at h
  | cons s w ih =>
    cases ys with
    | nil => simp at h
    | cons y ys =>
      rw [emitProb, he, ih ys (by simpa using h), List.map_cons, List.prod_cons]

/-- C145, no information. If all states emit the symbols with the same probabilities, the likelihood is the
product of the probabilities of the symbols, and the posterior probabilities are the laws that
`redistribute` of the chain returns. -/
theorem C145_no_information {m : HMM ℝ} (hm : m.Valid) {q : Fin m.k → ℝ} (he : ∀ s y, m.e s y = q y)
    {symbols status : PyVal ℝ} {l : List ℕ} {init : Fin m.n → ℝ} {ys : List (Fin m.k)}
    (hy : validateSequence symbols m.symbols = .ok l) (hys : ys = toStates m.k l)
    (hs : initialStatus status m.states m.n = .ok init) {b : Bool} {r : ℝ × Decoding ℝ m.n}
    (hr : m.decode symbols status (.bool b) = .ok (some r)) :
    Real.exp r.1 = (∑ x, init x) * (ys.map q).prod ∧
    ∃ law : List (Fin m.n → ℝ), redistribute m.chain (.int ys.length) status (.bool false) = .ok law ∧
      law.tail = r.2.posterior := by
  have hP := hm.2.2.1
  obtain ⟨h1, h2, h3, h4⟩ := decoded hm hy hys hs hr
  have hinit := initialStatus_nonneg hm.2.2.2.2.1 hm.1 hs
  have hlik : likelihood (fun i j => m.p i j) (fun i j => m.e i j) init ys =
      (∑ x, init x) * (ys.map q).prod := by
    unfold likelihood
    rw [Finset.sum_mul]
    refine sum_congr rfl fun x _ => ?_
    congr 1
    refine (expect_congr fun w hw => emitProb_const he w ys hw).trans ?_
    exact expect_const (P := fun i j => m.p i j) hP _ _ _
  have hpos : 0 < (∑ x, init x) * (ys.map q).prod := hlik ▸ h1
  have hsum : (∑ x, init x) ≠ 0 := left_ne_zero_of_mul hpos.ne'
  have hprod : (ys.map q).prod ≠ 0 := right_ne_zero_of_mul hpos.ne'
  have hjoint : ∀ t s, t < ys.length → jointAt (fun i j => m.p i j) (fun i j => m.e i j) init ys t s =
      (ys.map q).prod * ∑ x, init x * (m.p ^ (t + 1)) x s := by
    intro t s ht
    unfold jointAt
    rw [Finset.mul_sum]
    refine sum_congr rfl fun x _ => ?_
    have e1 := prob_state (P := m.p) hP (t + 1) ys.length x s (by omega)
    rw [← e1]
    unfold prob
    rw [mul_left_comm]
    refine congrArg (init x * ·) ((expect_congr (P := fun i j => m.p i j) fun w hw => ?_).trans
      (expect_smul (fun i j => m.p i j) _ _ _ _))
    rw [emitProb_const he w ys hw]
    simp only [List.getElem?_cons_succ]
    split_ifs <;> simp
  refine ⟨by rw [h2, Real.exp_log h1]; exact hlik, ?_⟩
  have hT : 2 ≤ ys.length := by
    have := (toStates_sequence hm.2.2.2.2.2.1 hy).2
    rwa [← hys] at this
  unfold initialStatus at hs
  rw [R.bind_ok] at hs
  obtain ⟨d, hd, hs⟩ := hs
  rw [R.pure_ok] at hs
  refine ⟨(List.range ((ys.length : ℤ).toNat + 1)).map (redistRow m.p (listVec d m.n)), ?_, ?_⟩
  · unfold redistribute
    rw [validateInteger_of_ge (by omega), R.ok_bind]
    exact (congrArg (fun x : R (List ℝ) => x >>= fun d => validateBoolean (.bool false : PyVal ℝ) >>= fun last =>
      pure (if last then [redistRow m.p (listVec d m.n) (ys.length : ℤ).toNat]
        else (List.range ((ys.length : ℤ).toNat + 1)).map (redistRow m.p (listVec d m.n)))) hd).trans rfl
  · refine List.ext_getElem ?_ fun t ht ht' => ?_
    · rw [h3]
      simp
    · funext s
      rw [h4 t ht' s]
      have ht2 : t < ys.length := by rw [← h3]; exact ht'
      rw [List.getElem_tail, List.getElem_map, List.getElem_range]
      have e2 := redistRow_eq (P := m.p) (d := init) hP hsum t s
      refine (congrFun (congrArg (fun v => redistRow m.p v (t + 1)) hs) s).trans (e2.trans ?_)
      have e3 := hjoint t s ht2
      change _ = jointAt (fun i j => m.p i j) (fun i j => m.e i j) init ys t s /
        likelihood (fun i j => m.p i j) (fun i j => m.e i j) init ys
      rw [e3, hlik, mul_comm (∑ x, init x) (ys.map q).prod, mul_div_mul_left _ _ hprod]

/-! ## The most probable path -/

/-- C145. The value of a Viterbi prediction is not above the logarithm of the likelihood (up to the
rounding error `δ` of every step). -/
theorem C145_viterbi {m : HMM ℝ} (hm : m.Valid) {rnd : ℝ → ℝ} {δ : ℝ} (hrnd : ∀ x, |rnd x - x| ≤ δ)
    {t : String} (ht : t = "mle" ∨ t = "viterbi") {symbols status : PyVal ℝ} {l : List ℕ}
    {init : Fin m.n → ℝ} {ys : List (Fin m.k)} (hy : validateSequence symbols m.symbols = .ok l)
    (hys : ys = toStates m.k l) (hs : initialStatus status m.states m.n = .ok init) {b : Bool}
    {r : ℝ × Decoding ℝ m.n} (hr : m.decode symbols status (.bool b) = .ok (some r))
    {v : WithBot ℝ} {path : List (Fin m.n)} (hp : m.predict rnd (.str t) symbols status = .ok (some (v, path))) :
    v ≤ ((r.1 + ys.length * δ : ℝ) : WithBot ℝ) := by
  have hP := hm.2.2.1
  have hE := hm.2.2.2.1
  have hinit := initialStatus_nonneg hm.2.2.2.2.1 hm.1 hs
  obtain ⟨h1, h2, -⟩ := decoded hm hy hys hs hr
  have hT : 2 ≤ ys.length := by
    have := (toStates_sequence hm.2.2.2.2.2.1 hy).2
    rwa [← hys] at this
  obtain ⟨y, zs, hyz⟩ := List.exists_cons_of_ne_nil (show ys ≠ [] by intro e; simp [e] at hT)
  obtain ⟨v', x, hv, hlen, hpos, habs, -⟩ :=
    (C57_viterbi_partial hm hrnd ht hy hs (hys.symm.trans hyz)).2 _ hp
  rw [← hyz] at hlen hpos habs
  have hw : ∀ w : List (Fin m.n), 0 ≤ walkProb (fun i j => m.p i j) w := walkProb_nonneg' hP.1
  have hle : m.e x y * jointProb (fun i j => m.p i j) (fun i j => m.e i j) init x path ys ≤
      likelihood (fun i j => m.p i j) (fun i j => m.e i j) init ys := by
    have he1 : m.e x y ≤ 1 := by
      rw [← hE.2 x]
      exact Finset.single_le_sum (f := fun j => m.e x j) (fun j _ => hE.1 x j) (mem_univ y)
    have hem : ∀ (w : List (Fin m.n)) (zs : List (Fin m.k)), 0 ≤ emitProb (fun i j => m.e i j) w zs := by
      intro w
      induction w with
      | nil => intro zs; cases zs <;> simp [emitProb]
      | cons a w ih =>
        intro zs
        cases zs with
        | nil => simp [emitProb]
        | cons z zs => exact mul_nonneg (hE.1 a z) (ih zs)
    have hj0 : 0 ≤ jointProb (fun i j => m.p i j) (fun i j => m.e i j) init x path ys :=
      mul_nonneg (mul_nonneg (hinit x) (hw _)) (hem _ _)
    refine (mul_le_of_le_one_left hj0 he1).trans ?_
    unfold likelihood jointProb
    refine le_trans ?_ (Finset.single_le_sum (f := fun x => init x * expect (fun i j => m.p i j) ys.length x
      fun w => emitProb (fun i j => m.e i j) w ys) (fun a _ => mul_nonneg (hinit a)
        (expect_nonneg hP.1 fun w => hem w ys)) (mem_univ x))
    rw [mul_assoc]
    refine mul_le_mul_of_nonneg_left ?_ (hinit x)
    rw [← hlen, expect_eq_sum_walks]
    refine le_trans (le_of_eq ?_) (Finset.single_le_sum
      (f := fun w : Fin path.length → Fin m.n => walkProb (fun i j => m.p i j) (x :: List.ofFn w) *
        emitProb (fun i j => m.e i j) (List.ofFn w) ys)
      (fun w _ => mul_nonneg (hw _) (hem _ _)) (mem_univ path.get))
    simp only [List.ofFn_get]
  rw [show v = (v' : WithBot ℝ) from hv, WithBot.coe_le_coe, h2]
  have := Real.log_le_log hpos hle
  have := (abs_le.1 habs).2
  have e : likelihood (fun i j => m.p i j) (fun i j => m.e i j) init ys = likelihood m.p m.e init ys := rfl
  rw [e] at *
  linarith

/-! ## Renaming and lumping the states -/

theorem emitProb_map {E : Fin n → Fin k → ℝ} {E' : Fin n' → Fin k' → ℝ} {φ : Fin n → Fin n'}
    {ψ : Fin k → Fin k'} (he : ∀ s y, E s y = E' (φ s) (ψ y)) (w : List (Fin n)) (ys : List (Fin k)) :
    emitProb E w ys = emitProb E' (w.map φ) (ys.map ψ) := by
  induction w generalizing ys with
  | nil => cases ys <;> simp [emitProb]
  | cons s w ih =>
    cases ys with
    | nil => simp [emitProb]
    | cons y ys => simp [emitProb, he, ih]

/-- The hidden model `m'` follows `m`: `φ` groups the states so that the chance of a group and the symbols
depend only on the group, `ψ` renames the symbols. -/
structure HiddenFollows (m m' : HMM ℝ) (φ : Fin m.n → Fin m'.n) (ψ : Fin m.k → Fin m'.k) : Prop where
  moves : Follows (fun i j => m.p i j) (fun i j => m'.p i j) φ
  emits : ∀ s y, m.e s y = m'.e (φ s) (ψ y)

theorem HiddenFollows.likelihood {m m' : HMM ℝ} {φ : Fin m.n → Fin m'.n} {ψ : Fin m.k → Fin m'.k}
    (h : HiddenFollows m m' φ ψ) (f : Fin m.n → ℝ) (ys : List (Fin m.k)) :
    Verif.likelihood (fun i j => m'.p i j) (fun i j => m'.e i j) (groupSum φ f) (ys.map ψ) =
      Verif.likelihood (fun i j => m.p i j) (fun i j => m.e i j) f ys := by
  unfold Verif.likelihood
  rw [sum_groupSum, List.length_map]
  refine sum_congr rfl fun x _ => ?_
  congr 1
  refine (Follows.law h.moves ys.length x fun w => emitProb (fun i j => m'.e i j) w (ys.map ψ)).symm.trans ?_
  exact expect_congr fun w _ => (emitProb_map h.emits w ys).symm

theorem HiddenFollows.jointAt {m m' : HMM ℝ} {φ : Fin m.n → Fin m'.n} {ψ : Fin m.k → Fin m'.k}
    (h : HiddenFollows m m' φ ψ) (f : Fin m.n → ℝ) (ys : List (Fin m.k)) (t : ℕ) (b : Fin m'.n) :
    Verif.jointAt (fun i j => m'.p i j) (fun i j => m'.e i j) (groupSum φ f) (ys.map ψ) t b =
      groupSum φ (Verif.jointAt (fun i j => m.p i j) (fun i j => m.e i j) f ys t) b := by
  unfold Verif.jointAt
  rw [sum_groupSum, List.length_map]
  unfold groupSum
  rw [Finset.sum_comm]
  refine sum_congr rfl fun x _ => ?_
  rw [← Finset.mul_sum, ← expect_sum]
  congr 1
  refine (Follows.law h.moves ys.length x fun w =>
    if w[t]? = some b then emitProb (fun i j => m'.e i j) w (ys.map ψ) else 0).symm.trans ?_
  refine expect_congr fun w _ => ?_
  rw [← emitProb_map h.emits w ys, List.getElem?_map]
  cases hw : w[t]? with
  | none => simp
  | some s =>
    simp only [Option.map_some, Option.some.injEq]
    rw [Finset.sum_ite_eq]
    simp

/-- C145, renaming and lumping. If the groups of states of a hidden model form a hidden model, both decode
the same sequences with the same likelihoods, and the posterior probability of a group is the sum of
those of its states. -/
theorem C145_lumped {m m' : HMM ℝ} (hm : m.Valid) (hm' : m'.Valid) {φ : Fin m.n → Fin m'.n}
    {ψ : Fin m.k → Fin m'.k} (h : HiddenFollows m m' φ ψ) {symbols status symbols' status' : PyVal ℝ}
    {l l' : List ℕ} {init : Fin m.n → ℝ} {ys : List (Fin m.k)}
    (hy : validateSequence symbols m.symbols = .ok l) (hys : ys = toStates m.k l)
    (hs : initialStatus status m.states m.n = .ok init)
    (hy' : validateSequence symbols' m'.symbols = .ok l') (hys' : ys.map ψ = toStates m'.k l')
    (hs' : initialStatus status' m'.states m'.n = .ok (groupSum φ init)) (b : Bool) :
    (m'.decode symbols' status' (.bool b) = .ok none ↔ m.decode symbols status (.bool b) = .ok none) ∧
    ∀ r r', m.decode symbols status (.bool b) = .ok (some r) →
      m'.decode symbols' status' (.bool b) = .ok (some r') →
      r'.1 = r.1 ∧ r'.2.posterior.length = r.2.posterior.length ∧
      ∀ t (ht : t < r.2.posterior.length) (ht' : t < r'.2.posterior.length) a,
        r'.2.posterior[t] a = ∑ s with φ s = a, r.2.posterior[t] s := by
  have hlik : ∀ zs : List (Fin m.k), likelihood m'.p m'.e (groupSum φ init) (zs.map ψ) =
      likelihood m.p m.e init zs := h.likelihood init
  constructor
  · rw [C56_none hy' hs', C56_none hy hs, ← hys, ← hys', List.length_map]
    simp only [← List.map_take]
    refine exists_congr fun t => and_congr_right fun _ => ?_
    have e1 : likelihood m'.p m'.e (groupSum φ init) ((ys.take (t + 1)).map ψ) = _ := hlik (ys.take (t + 1))
    have e2 : likelihood m'.p m'.e (groupSum φ init) ((ys.take t).map ψ) = _ := hlik (ys.take t)
    rw [e1, e2]
  · intro r r' hr hr'
    obtain ⟨h1, h2, h3, h4⟩ := decoded hm hy hys hs hr
    obtain ⟨k1, k2, k3, k4⟩ := decoded hm' hy' hys' hs' hr'
    refine ⟨by rw [k2, h2, hlik], by rw [k3, h3, List.length_map], fun t ht ht' a => ?_⟩
    rw [k4 t ht' a, hlik]
    have e1 : jointAt m'.p m'.e (groupSum φ init) (ys.map ψ) t a = _ := h.jointAt init ys t a
    rw [e1]
    unfold groupSum
    rw [Finset.sum_div]
    exact sum_congr rfl fun s _ => (h4 t ht s).symm

/-! ## The hypotheses can be met -/

/-- The symbols of `exCoin` say nothing, so that the states can be lumped in any way or left alone. -/
example : (exCoin (1 / 3)).Valid ∧ (∀ s y, (exCoin (1 / 3)).e s y = (exCoin (1 / 3)).e (0 : Fin 2) y) ∧
    HiddenFollows (exCoin (1 / 3)) (exCoin (1 / 3)) id id ∧
    ∃ d, (exCoin (1 / 3)).decode (.list [.str "u", .str "u"]) .none (.bool true) =
      .ok (some (Real.log (1 / 9), d)) := by
  refine ⟨exCoin_valid (by norm_num) (by norm_num), ?_, ⟨⟨fun i b => ?_⟩, fun s y => rfl⟩, exCoin_decodes⟩
  · have : ∀ s y : Fin 2, (!![(1 / 3 : ℝ), 1 - 1 / 3; 1 / 3, 1 - 1 / 3] : Matrix (Fin 2) (Fin 2) ℝ) s y =
        (!![(1 / 3 : ℝ), 1 - 1 / 3; 1 / 3, 1 - 1 / 3] : Matrix (Fin 2) (Fin 2) ℝ) 0 y := by
      intro s y
      fin_cases s <;> fin_cases y <;> rfl
    exact this
  · simp [Finset.filter_eq']

/-- A hidden model without noise. -/
example : exClockR.Valid ∧ Function.Injective (id : Fin 2 → Fin 2) ∧
    ∀ s : Fin 2, exClockR.e s (id s : Fin 2) = 1 := by
  refine ⟨exClockR_valid, Function.injective_id, fun s => ?_⟩
  rw [exClockR_e]
  simp

end Verif
