import Verif.Model.Descriptors
import Verif.Model.Fitting
import Verif.Model.HiddenGen
import Verif.Props.AcceptedCalls
import Verif.Props.HiddenAgreement
import Verif.Props.HiddenEstimate

/-!
# Which calls of the hidden models and of the fits return a result (C146)

The conditions are written with the values of the arguments, and not with the validators.
-/

set_option linter.unusedSectionVars false

namespace Verif

open Finset

variable {K : Type} [Field K] [LinearOrder K] [IsStrictOrderedRing K]

/-! ## Arguments -/

/-- The argument is a list of two or more items of `labels`, all of them by name or all of them by number; `r`
lists the items. -/
def Lists (labels : List String) (v : PyVal K) (r : List ℕ) : Prop :=
  ∃ l, v = .list l ∧ 2 ≤ l.length ∧ Homogeneous l ∧ List.Forall₂ (Names labels) l r

/-- The argument lists the names `l`: two or more, distinct and not blank. -/
def GivesNames (v : PyVal K) (l : List String) : Prop :=
  v = pyStrings l ∧ 2 ≤ l.length ∧ ValidLabels l.length l

/-- The argument is omitted or names one of `n` items. -/
def NamesOptional (labels : List String) (n : ℕ) (v : PyVal K) : Prop :=
  v = .none ∨ ∃ i : Fin n, Names labels v i

/-- The argument is omitted, names one item, or is a list of two or more but not all of the `n` items, without
repetitions, all of them by name or all of them by number. -/
def Keeps (labels : List String) (n : ℕ) (v : PyVal K) : Prop :=
  v = .none ∨ (∃ i : Fin n, Names labels v i) ∨
  ∃ l r, v = .list l ∧ Homogeneous l ∧ List.Forall₂ (Names labels) l r ∧ r.Nodup ∧ 2 ≤ l.length ∧ l.length < n

theorem accepted_name {α : Type} {labels : List String} {n : ℕ} (hl : ValidLabels n labels) {v : PyVal K}
    {f : ℕ → R α} :
    Accepted (validateLabel v labels >>= f) ↔ ∃ i : Fin n, Names labels v i ∧ Accepted (f i) := by
  rw [accepted_bind]
  simp only [C04_single_label hl.2.1]
  constructor
  · rintro ⟨i, h1, h2⟩
    exact ⟨⟨i, hl.1 ▸ h1.lt⟩, h1, h2⟩
  · rintro ⟨i, h1, h2⟩
    exact ⟨_, h1, h2⟩

theorem accepted_optional {α : Type} {labels : List String} {n : ℕ} (hl : ValidLabels n labels) {v : PyVal K}
    {f : Option (Fin n) → R α} {p : Prop} (hf : ∀ i, Accepted (f i) ↔ p) :
    Accepted (optionalLabel v labels n >>= f) ↔ NamesOptional labels n v ∧ p := by
  have hrest : ∀ v : PyVal K, Accepted ((validateLabel v labels >>= fun k => asState n k >>= fun i =>
      pure (some i)) >>= f) ↔ (∃ i : Fin n, Names labels v i) ∧ p := by
    intro v
    simp only [bind_assoc, pure_bind]
    rw [accepted_name hl]
    simp only [accepted_state]
    rw [← exists_and_right]
    exact exists_congr fun i => and_congr_right fun _ => hf _
  unfold optionalLabel NamesOptional
  cases v with
  | none =>
    refine Iff.trans (hf none) ?_
    simp
  | _ =>
    refine Iff.trans (hrest _) ?_
    simp

theorem accepted_sequence {α : Type} {labels : List String} (hl : labels.Nodup) {v : PyVal K}
    {f : List ℕ → R α} :
    Accepted (validateSequence v labels >>= f) ↔ ∃ r, Lists labels v r ∧ Accepted (f r) := by
  rw [accepted_bind]
  simp only [C04_sequences hl]
  rfl

theorem accepted_status {α : Type} {c : MC K} (hc : c.Valid) {v : PyVal K} {f : (Fin c.n → K) → R α} {p : Prop}
    (hf : ∀ x, Accepted (f x) ↔ p) : Accepted (initialStatus v c.states c.n >>= f) ↔ HasStatus c v ∧ p := by
  rw [accepted_bind, ← status_accepted hc v]
  simp only [hf, exists_and_right]
  refine and_congr_left fun _ => ?_
  unfold initialStatus
  exact accepted_bind.trans ⟨fun ⟨a, h, _⟩ => ⟨a, h⟩, fun ⟨a, h⟩ => ⟨a, h, accepted_pure _⟩⟩

theorem input_iff {v : PyVal K} {l : List String} :
    validateLabelsInput v none = .ok l ↔ GivesNames v l := by
  constructor
  · intro h
    refine ⟨?_, validateLabelsInput_none h⟩
    unfold validateLabelsInput at h
    split at h
    · simp only at h
      rw [R.ite_throw, R.ite_throw, R.ite_throw, R.pure_ok] at h
      obtain ⟨h1, -, -, rfl⟩ := h
      rw [not_not, all_isString_iff] at h1
      unfold pyStrings
      rw [List.map_map]
      refine congrArg PyVal.list ((List.map_id _).symm.trans (List.map_congr_left fun x hx => ?_))
      obtain ⟨s, rfl, -⟩ := h1 x hx
      rfl
    · simp at h
  · rintro ⟨rfl, h2, h3⟩
    have := (validateLabelsInput_pyStrings (K := K) h2).2 ⟨h3, rfl⟩
    unfold validateLabelsInput pyStrings at this ⊢
    simp only [R.ite_throw, R.pure_ok] at this ⊢
    exact ⟨this.1, this.2.1, this.2.2.1, this.2.2.2.2⟩

theorem accepted_input {α : Type} {v : PyVal K} {f : List String → R α} :
    Accepted (validateLabelsInput v none >>= f) ↔ ∃ l, GivesNames v l ∧ Accepted (f l) := by
  rw [accepted_bind]
  simp only [input_iff]

theorem keeps_iff {labels : List String} {n : ℕ} (hl : ValidLabels n labels) (v : PyVal K) :
    Accepted (labelsOrAll v labels n) ↔ Keeps labels n v := by
  have hnone : ∀ i : ℕ, ¬ Names labels (.none : PyVal K) i := by
    rintro i (⟨h, -⟩ | ⟨s, h, -⟩) <;> cases h
  have hsingle : ∀ v : PyVal K, (∀ l, v ≠ .list l) → v ≠ .none →
      (Accepted (validateLabelsCurrent v labels true (some 2)) ↔ Keeps labels n v) := by
    intro v hv hv'
    unfold Accepted Keeps
    simp only [C04_single_value hl.2.1 v hv]
    constructor
    · rintro ⟨r, i, h, -⟩
      exact Or.inr (Or.inl ⟨⟨i, hl.1 ▸ h.lt⟩, h⟩)
    · rintro (h | ⟨i, h⟩ | ⟨l, -, h, -⟩)
      · exact absurd h hv'
      · exact ⟨_, _, h, rfl⟩
      · exact absurd h (hv l)
  unfold labelsOrAll
  cases v with
  | none => exact ⟨fun _ => Or.inl rfl, fun _ => accepted_pure _⟩
  | list l =>
    unfold Accepted Keeps
    simp only [C04_label_lists hl.2.1, hl.1, if_true, Option.getD_some]
    constructor
    · rintro ⟨r, h1, ⟨ks, h2, h3⟩, h4, h5, h6⟩
      have e : l.length = r.length := h2.length_eq.trans h3.length_eq
      refine Or.inr (Or.inr ⟨l, ks, rfl, h1, h2, h3.nodup_iff.2 ?_, ?_, ?_⟩)
      · exact h4.imp fun h => ne_of_lt h
      · omega
      · omega
    · rintro (h | ⟨i, ⟨h, -⟩ | ⟨s, h, -⟩⟩ | ⟨l', ks, h, h1, h2, h3, h4, h5⟩)
      · cases h
      · cases h
      · cases h
      · cases h
        have e : (ks.insertionSort (· ≤ ·)).length = l.length := by
          rw [List.length_insertionSort, ← h2.length_eq]
        refine ⟨ks.insertionSort (· ≤ ·), h1, ⟨ks, h2, (List.perm_insertionSort _ _).symm⟩, ?_, by omega, by omega⟩
        have hs := List.pairwise_insertionSort (· ≤ ·) ks
        have hn : (ks.insertionSort (· ≤ ·)).Nodup := (List.perm_insertionSort _ _).nodup_iff.2 h3
        exact (hs.and hn).imp fun h => lt_of_le_of_ne h.1 h.2
  | _ => exact hsingle _ (by simp) (by simp)

theorem any_mem_iff {a b : List String} : (a.any fun s => decide (s ∈ b)) = true ↔ ¬ a.Disjoint b := by
  rw [List.any_eq_true, List.Disjoint]
  push Not
  simp

/-! ## Hidden models -/

/-- C146. `decode`. -/
theorem C146_decode {m : HMM ℝ} (hm : m.Valid) (symbols status useScaling : PyVal ℝ) :
    Accepted (m.decode symbols status useScaling) ↔
      (∃ r, Lists m.symbols symbols r) ∧ HasStatus m.chain status ∧ ∃ b, useScaling = .bool b := by
  unfold HMM.decode
  rw [accepted_sequence hm.2.2.2.2.2.1.2.1, ← exists_and_right]
  refine exists_congr fun r => and_congr_right fun _ => ?_
  refine accepted_status (c := m.chain) (hiddenChain_valid hm) fun x => ?_
  simp only [accepted_boolean, accepted_all, and_true]

/-- C146. `predict`. -/
theorem C146_predict {m : HMM ℝ} (hm : m.Valid) (rnd : ℝ → ℝ) (type symbols status : PyVal ℝ) :
    Accepted (m.predict rnd type symbols status) ↔
      (type = .str "map" ∨ type = .str "mle" ∨ type = .str "viterbi") ∧
        (∃ r, Lists m.symbols symbols r) ∧ HasStatus m.chain status := by
  unfold HMM.predict
  rw [accepted_enumerator (by decide)]
  have hrest : ∀ t : String, Accepted (validateSequence symbols m.symbols >>= fun ys =>
      initialStatus status m.states m.n >>= fun init => (pure (hmmPredict rnd t m.p m.e init (toStates m.k ys)) :
        R (Option (WithBot ℝ × List (Fin m.n))))) ↔ (∃ r, Lists m.symbols symbols r) ∧ HasStatus m.chain status := by
    intro t
    rw [accepted_sequence hm.2.2.2.2.2.1.2.1, ← exists_and_right]
    refine exists_congr fun r => and_congr_right fun _ => ?_
    refine (accepted_status (c := m.chain) (hiddenChain_valid hm) (p := True) fun x => accepted_all).trans ?_
    exact and_iff_left trivial
  simp only [hrest]
  constructor
  · rintro ⟨s, rfl, h, h'⟩
    exact ⟨by simpa using h, h'⟩
  · rintro ⟨h, h'⟩
    rcases h with rfl | rfl | rfl
    · exact ⟨_, rfl, by simp, h'⟩
    · exact ⟨_, rfl, by simp, h'⟩
    · exact ⟨_, rfl, by simp, h'⟩

/-- C146. `simulate`. -/
theorem C146_simulate {m : HMM K} (hm : m.Valid) (hn : 0 < m.n) (hk : 0 < m.k) (choice : Choice K m.k)
    (pr er : ℕ → K) (start : Fin m.n) (steps initialState finalState finalSymbol : PyVal K) :
    Accepted (m.simulate hn hk choice pr er start steps initialState finalState finalSymbol) ↔
      (∃ n, IsNat steps 2 n) ∧ NamesOptional m.states m.n initialState ∧
        NamesOptional m.states m.n finalState ∧ NamesOptional m.symbols m.k finalSymbol := by
  unfold HMM.simulate
  refine (accepted_nat 2).trans ?_
  rw [← exists_and_right]
  refine exists_congr fun n => and_congr_right fun _ => ?_
  refine accepted_optional hm.2.2.2.2.1 fun i => accepted_optional hm.2.2.2.2.1 fun j => ?_
  refine (accepted_optional hm.2.2.2.2.2.1 (p := True) fun y => accepted_all).trans ?_
  exact and_iff_left trivial

/-- C146. `next`. -/
theorem C146_next {m : HMM K} (hm : m.Valid) (hn : 0 < m.n) (hk : 0 < m.k) (choice : Choice K m.k)
    (pr er : ℕ → K) (initialState : PyVal K) :
    Accepted (m.next hn hk choice pr er initialState) ↔ ∃ i : Fin m.n, Names m.states initialState i := by
  unfold HMM.next
  rw [accepted_name hm.2.2.2.2.1]
  simp only [accepted_state, accepted_all, and_true]

/-- C146. `transition_probability` and `emission_probability`. -/
theorem C146_probabilities {m : HMM K} (hm : m.Valid) (target origin symbol state : PyVal K) :
    (Accepted (hmmTransitionProbability m target origin) ↔
      (∃ i : Fin m.n, Names m.states target i) ∧ ∃ i : Fin m.n, Names m.states origin i) ∧
    (Accepted (emissionProbability m symbol state) ↔
      (∃ j : Fin m.k, Names m.symbols symbol j) ∧ ∃ i : Fin m.n, Names m.states state i) := by
  unfold hmmTransitionProbability emissionProbability
  rw [accepted_name hm.2.2.2.2.1, accepted_name hm.2.2.2.2.2.1]
  simp only [accepted_name hm.2.2.2.2.1, accepted_all, and_true, exists_and_right]

/-- C146. `transition_probability` of a chain. -/
theorem C146_transition_probability {c : MC K} (hc : c.Valid) (target origin : PyVal K) :
    Accepted (transitionProbability c target origin) ↔
      (∃ i : Fin c.n, Names c.states target i) ∧ ∃ i : Fin c.n, Names c.states origin i := by
  unfold transitionProbability
  rw [accepted_label hc]
  simp only [accepted_label hc, accepted_all, and_true, exists_and_right]

/-- C146. `restrict`: at least one of the arguments is given, and both are omitted, one item, or a list of two
or more but not all of the items. -/
theorem C146_restrict {m : HMM K} (hm : m.Valid) (states symbols : PyVal K) :
    Accepted (m.restrict states symbols) ↔
      ¬ (states = .none ∧ symbols = .none) ∧ Keeps m.states m.n states ∧ Keeps m.symbols m.k symbols := by
  have hnone : ∀ v : PyVal K, isNone v = true ↔ v = .none := by
    intro v
    cases v <;> simp [isNone]
  have hin : ∀ (l : List String) (k : ℕ) (r : List (Fin k)), l.length = k →
      ∀ s ∈ r.map (fun i : Fin k => l.getD i ""), s ∈ l := by
    intro l k r hl s hs
    obtain ⟨i, -, rfl⟩ := List.mem_map.1 hs
    rw [List.getD_eq_getElem _ _ (by rw [hl]; exact i.2)]
    exact List.getElem_mem _
  have hdis : ∀ ss ys, (hmmRestrict m ss ys).states.Disjoint (hmmRestrict m ss ys).symbols := by
    intro ss ys
    have e1 : ∀ s ∈ (hmmRestrict m ss ys).states, s ∈ m.states := by
      intro s hs
      refine hin m.states m.n ss hm.2.2.2.2.1.1 s ?_
      unfold hmmRestrict at hs
      simp only at hs
      split_ifs at hs <;> exact hs
    have e2 : ∀ s ∈ (hmmRestrict m ss ys).symbols, s ∈ m.symbols := by
      intro s hs
      refine hin m.symbols m.k ys hm.2.2.2.2.2.1.1 s ?_
      unfold hmmRestrict at hs
      simp only at hs
      split_ifs at hs <;> exact hs
    intro s h1 h2
    exact hm.2.2.2.2.2.2 (e1 s h1) (e2 s h2)
  unfold HMM.restrict
  rw [accepted_ite]
  simp only [hnone]
  refine and_congr_right fun _ => ?_
  rw [← keeps_iff hm.2.2.2.2.1, ← keeps_iff hm.2.2.2.2.2.1, accepted_bind]
  unfold Accepted
  rw [← exists_and_right]
  refine exists_congr fun ss => and_congr_right fun _ => ?_
  refine accepted_bind.trans (exists_congr fun ys => ?_)
  refine and_iff_left ?_
  rw [accepted_ite, any_mem_iff, not_not]
  exact ⟨hdis _ _, accepted_pure _⟩

/-- C146. `estimate`: names of states and symbols without a common one, and two sequences of the same length. -/
theorem C146_estimate (possibleStates possibleSymbols states symbols : PyVal K) :
    Accepted (hmmEstimateApi possibleStates possibleSymbols states symbols) ↔
      ∃ ls lsy : List String, GivesNames possibleStates ls ∧ GivesNames possibleSymbols lsy ∧ ls.Disjoint lsy ∧
        ∃ ss ys : List ℕ, Lists ls states ss ∧ Lists lsy symbols ys ∧ ss.length = ys.length := by
  unfold hmmEstimateApi
  rw [accepted_input]
  refine exists_congr fun ls => ?_
  constructor
  · rintro ⟨h1, h⟩
    obtain ⟨lsy, h2, h⟩ := accepted_input.1 h
    obtain ⟨ss, h3, h⟩ := (accepted_sequence h1.2.2.2.1).1 h
    obtain ⟨ys, h4, h⟩ := (accepted_sequence h2.2.2.2.1).1 h
    rw [accepted_ite, accepted_ite, any_mem_iff, not_not, not_not] at h
    exact ⟨lsy, h1, h2, h.1, ss, ys, h3, h4, h.2.1⟩
  · rintro ⟨lsy, h1, h2, h3, ss, ys, h4, h5, h6⟩
    refine ⟨h1, accepted_input.2 ⟨lsy, h2, (accepted_sequence h1.2.2.2.1).2 ⟨ss, h4,
      (accepted_sequence h2.2.2.2.1).2 ⟨ys, h5, ?_⟩⟩⟩⟩
    rw [accepted_ite, accepted_ite, any_mem_iff, not_not, not_not]
    exact ⟨h3, h6, accepted_pure _⟩

/-- C146. `from_matrices`: two matrices of nonnegative numbers of the right sizes and labels without a common
one. The default labels count. -/
theorem C146_from_matrices (mp me states symbols : PyVal K) :
    Accepted (hmmFromMatrices mp me states symbols) ↔
      ∃ (n k : ℕ) (P : Matrix (Fin n) (Fin n) K) (E : Matrix (Fin n) (Fin k) K) (ls lsy : List String),
        2 ≤ n ∧ 2 ≤ k ∧ GivesMatrix mp P ∧ (∀ i j, 0 ≤ P i j) ∧ GivesMatrix me E ∧ (∀ i j, 0 ≤ E i j) ∧
        GivesLabels states n "P" ls ∧ GivesLabels symbols k "E" lsy ∧ ls.Disjoint lsy := by
  unfold hmmFromMatrices
  constructor
  · intro h
    obtain ⟨⟨n, P⟩, h1, h⟩ := accepted_bind.1 h
    obtain ⟨⟨k, E⟩, h2, h⟩ := accepted_bind.1 h
    obtain ⟨ls, h3, h⟩ := accepted_bind.1 h
    obtain ⟨lsy, h4, h⟩ := accepted_bind.1 h
    rw [accepted_ite, any_mem_iff, not_not] at h
    obtain ⟨a1, a2, a3⟩ := (C121_matrix mp _).1 h1
    simp only at a2 a3 h2 h3 h4
    obtain ⟨b1, b2, b3⟩ := (C121_matrix_rows (by omega) me _).1 h2
    exact ⟨n, k, P, E, ls, lsy, a2, b2, a1, a3, b1, b3, (C121_labels a2 _ _ _).1 h3, (C121_labels b2 _ _ _).1 h4,
      h.1⟩
  · rintro ⟨n, k, P, E, ls, lsy, hn, hk, h1, h2, h3, h4, h5, h6, h7⟩
    refine accepted_bind.2 ⟨⟨n, P⟩, (C121_matrix mp _).2 ⟨h1, hn, h2⟩, accepted_bind.2 ⟨⟨k, E⟩,
      (C121_matrix_rows (by simp only; omega) me _).2 ⟨h3, hk, h4⟩, accepted_bind.2 ⟨ls, (C121_labels hn _ _ _).2 h5,
        accepted_bind.2 ⟨lsy, (C121_labels hk _ _ _).2 h6, ?_⟩⟩⟩⟩
    rw [accepted_ite, any_mem_iff, not_not]
    exact ⟨h7, accepted_pure _⟩

/-! ## Fits -/

/-- C146. `fit_sequence`: names of states, a sequence of them, and a parameter that suits the type of the fit. -/
theorem C146_fit_sequence [FloorRing K] (type possible sequence param : PyVal K) :
    Accepted (fitSequence type possible sequence param) ↔
      ∃ ls : List String, GivesNames possible ls ∧ (∃ r, Lists ls sequence r) ∧
        (type = .str "map" ∧ (param = .none ∨ ∃ M : Matrix (Fin ls.length) (Fin ls.length) K,
            GivesMatrix param M ∧ ∀ i j, ∃ z : ℕ, 1 ≤ z ∧ M i j = z) ∨
          type = .str "mle" ∧ (param = .none ∨ ∃ b, param = .bool b)) := by
  unfold fitSequence
  rw [accepted_input]
  refine exists_congr fun ls => and_congr_right fun hls => ?_
  have hpos : 0 < ls.length := by have := hls.2.1; omega
  rw [accepted_sequence hls.2.2.2.1, ← exists_and_right]
  refine exists_congr fun r => and_congr_right fun _ => ?_
  rw [accepted_enumerator (by decide)]
  have hmap : ∀ {α : Type} (f : Matrix (Fin ls.length) (Fin ls.length) K → α),
      Accepted ((match param with
        | .none => pure (Matrix.of fun _ _ => 1)
        | v => validateHyper v ls.length) >>= fun h => pure (f h)) ↔
      (param = .none ∨ ∃ M : Matrix (Fin ls.length) (Fin ls.length) K,
            GivesMatrix param M ∧ ∀ i j, ∃ z : ℕ, 1 ≤ z ∧ M i j = z) := by
    intro α f
    have hv : ∀ v : PyVal K, Accepted (validateHyper v ls.length >>= fun h => pure (f h)) ↔
        ∃ M : Matrix (Fin ls.length) (Fin ls.length) K,
            GivesMatrix v M ∧ ∀ i j, ∃ z : ℕ, 1 ≤ z ∧ M i j = z := by
      intro v
      rw [accepted_bind]
      simp only [C121_hyperparameter hpos, accepted_all, and_true]
    cases param with
    | none => exact ⟨fun _ => Or.inl rfl, fun _ => accepted_pure _⟩
    | _ => exact (hv _).trans (by simp)
  have hmle : ∀ {α : Type} (f : Bool → α),
      Accepted ((match param with
        | .none => pure false
        | v => validateBoolean v) >>= fun h => pure (f h)) ↔ (param = .none ∨ ∃ b, param = .bool b) := by
    intro α f
    have hv : ∀ v : PyVal K, Accepted (validateBoolean v >>= fun h => pure (f h)) ↔ ∃ b, v = .bool b := by
      intro v
      simp only [accepted_boolean, accepted_all, and_true]
    cases param with
    | none => exact ⟨fun _ => Or.inl rfl, fun _ => accepted_pure _⟩
    | _ => exact (hv _).trans (by simp)
  constructor
  · rintro ⟨t, rfl, ht, h⟩
    rcases List.mem_cons.1 ht with rfl | ht
    · rw [if_pos rfl] at h
      exact Or.inl ⟨rfl, (hmap _).1 h⟩
    · rw [List.mem_singleton] at ht
      subst ht
      rw [if_neg (by decide)] at h
      exact Or.inr ⟨rfl, (hmle _).1 h⟩
  · rintro (⟨rfl, h⟩ | ⟨rfl, h⟩)
    · exact ⟨"map", rfl, by simp, by rw [if_pos rfl]; exact (hmap _).2 h⟩
    · exact ⟨"mle", rfl, by simp, by rw [if_neg (by decide)]; exact (hmle _).2 h⟩

/-! ## Concrete calls -/

/-- C146 applies. One symbol is not a sequence, a list that mixes names and numbers is not one either. -/
theorem C146_decode_instance :
    Accepted ((exCoin (1 / 2)).decode (.list [.str "u", .str "v"]) .none (.bool true)) ∧
    ¬ Accepted ((exCoin (1 / 2)).decode (.list [.str "u"]) .none (.bool true)) ∧
    ¬ Accepted ((exCoin (1 / 2)).decode (.list [.str "u", .int 1]) .none (.bool true)) := by
  have hv : (exCoin (1 / 2)).Valid := exCoin_valid (by norm_num) (by norm_num)
  refine ⟨(C146_decode hv _ _ _).2 ⟨⟨[0, 1], _, rfl, le_rfl, Or.inr ?_, ?_⟩, Or.inl rfl, _, rfl⟩, ?_, ?_⟩
  · intro v hv
    simp only [List.mem_cons, List.not_mem_nil, or_false] at hv
    rcases hv with rfl | rfl
    · exact ⟨_, rfl, by decide⟩
    · exact ⟨_, rfl, by decide⟩
  · exact .cons (Or.inr ⟨"u", rfl, by decide, rfl⟩) (.cons (Or.inr ⟨"v", rfl, by decide, rfl⟩) .nil)
  · intro h
    obtain ⟨⟨r, l, h1, h2, -⟩, -⟩ := (C146_decode hv _ _ _).1 h
    cases h1
    exact absurd h2 (by decide)
  · intro h
    obtain ⟨⟨r, l, h1, -, h2, -⟩, -⟩ := (C146_decode hv _ _ _).1 h
    cases h1
    revert h2
    unfold Homogeneous
    simp

/-- C146 applies to a restriction: one state or some of the symbols, but not all of the symbols. -/
theorem C146_restrict_instance : Accepted (exFour.restrict (.str "a") .none) ∧
    Accepted (exFour.restrict .none (.list [.str "u", .str "w"])) ∧
    ¬ Accepted (exFour.restrict .none (.list [.str "u", .str "v", .str "w", .str "x"])) := by
  refine ⟨⟨_, rfl⟩, ⟨_, rfl⟩, fun h => ?_⟩
  obtain ⟨-, -, h | ⟨i, ⟨h, -⟩ | ⟨s, h, -⟩⟩ | ⟨l, r, h, -, -, -, -, h2⟩⟩ := (C146_restrict exFour_valid _ _).1 h
  · cases h
  · cases h
  · cases h
  · cases h
    exact absurd h2 (by decide)

/-- C146 applies to a fit. The parameter of the one type is rejected with the other type. -/
theorem C146_fit_instance :
    Accepted (fitSequence (.str "mle" : PyVal ℚ) (.list [.str "a", .str "b"]) (.list [.int 0, .int 1]) (.bool true)) ∧
    ¬ Accepted (fitSequence (.str "map" : PyVal ℚ) (.list [.str "a", .str "b"]) (.list [.int 0, .int 1]) (.bool true)) := by
  refine ⟨⟨_, rfl⟩, ?_⟩
  rintro ⟨r, h⟩
  have : fitSequence (.str "map" : PyVal ℚ) (.list [.str "a", .str "b"]) (.list [.int 0, .int 1]) (.bool true) =
      .error .typeError := rfl
  rw [this] at h
  cases h

/-- The symbols cannot be called like the default names of the states. -/
theorem C146_default_names : ∃ mp me symbols : PyVal ℚ,
    ¬ Accepted (hmmFromMatrices mp me .none symbols) ∧ Accepted (hmmFromMatrices mp me .none .none) := by
  refine ⟨.list [.list [.int 1, .int 0], .list [.int 0, .int 1]], .list [.list [.int 1, .int 0], .list [.int 0, .int 1]],
    .list [.str "P1", .str "u"], ?_, ⟨_, rfl⟩⟩
  rintro ⟨r, h⟩
  have : (hmmFromMatrices (.list [.list [.int 1, .int 0], .list [.int 0, .int 1]] : PyVal ℚ)
    (.list [.list [.int 1, .int 0], .list [.int 0, .int 1]]) .none (.list [.str "P1", .str "u"])) =
      .error .valueError := rfl
  rw [this] at h
  cases h

end Verif
