import Verif.Lemmas.Serial
import Mathlib.Tactic.Linarith
import Mathlib.Tactic.FinCases

/-!
# Properties C62, C80: dictionaries
-/

set_option linter.unusedSectionVars false

namespace Verif

variable {K : Type} [Field K] [LinearOrder K] [IsStrictOrderedRing K]

theorem dictValue_ok {v : PyVal K} {x : K} : dictValue v = .ok x ↔
    ((∃ z : ℤ, v = .int z ∧ x = z) ∨ v = .float (.fin x)) ∧ 0 ≤ x ∧ x ≤ 1 := by
  unfold dictValue
  split
  · next z =>
    rw [R.ite_throw', R.pure_ok]
    constructor
    · rintro ⟨h, rfl⟩; exact ⟨Or.inl ⟨z, rfl, rfl⟩, h⟩
    · rintro ⟨⟨z', h1, rfl⟩ | h1, h2⟩
      · injection h1 with h1; subst h1; exact ⟨h2, rfl⟩
      · cases h1
  · next y =>
    rw [R.ite_throw', R.pure_ok]
    constructor
    · rintro ⟨h, rfl⟩; exact ⟨Or.inr rfl, h⟩
    · rintro ⟨⟨z', h1, rfl⟩ | h1, h2⟩
      · cases h1
      · injection h1 with h1; injection h1 with h1; subst h1; exact ⟨h2, rfl⟩
  · next h1 h2 =>
    constructor
    · intro h; cases h
    · rintro ⟨⟨z, rfl, -⟩ | rfl, -⟩
      · exact absurd rfl (h1 z)
      · exact absurd rfl (h2 x)

theorem dictValues_ok {d : PyDict (PyVal K)} {r : PyDict K} :
    (d.mapM fun x => dictValue x.2 >>= fun v => (pure (x.1, v) : R _)) = .ok r ↔
      List.Forall₂ (fun x y => y.1 = x.1 ∧ dictValue x.2 = .ok y.2) d r := by
  rw [mapM_R_eq_ok]
  have : ∀ (x : List String × PyVal K) (y : List String × K),
      ((dictValue x.2 >>= fun v => (pure (x.1, v) : R _)) = .ok y) ↔
        (y.1 = x.1 ∧ dictValue x.2 = .ok y.2) := by
    intro x y
    rw [R.bind_ok]
    constructor
    · rintro ⟨v, h1, h2⟩
      rw [R.pure_ok] at h2
      subst h2
      exact ⟨rfl, h1⟩
    · rintro ⟨h1, h2⟩
      exact ⟨y.2, h2, by rw [R.pure_ok, ← h1]⟩
  simp only [this]

theorem isNumber_of_dictValue {v : PyVal K} {x : K} (h : dictValue v = .ok x) :
    v.isNumber = true := by
  rcases (dictValue_ok.1 h).1 with ⟨z, rfl, -⟩ | rfl <;> rfl

theorem forall₂_left {α β : Type} {R : α → β → Prop} {l : List α} {r : List β}
    (h : List.Forall₂ R l r) {a : α} (ha : a ∈ l) : ∃ b ∈ r, R a b := by
  induction h with
  | nil => exact (List.not_mem_nil ha).elim
  | cons h _ ih =>
    rcases List.mem_cons.1 ha with rfl | ha
    · exact ⟨_, List.mem_cons_self, h⟩
    · obtain ⟨b, hb, hb'⟩ := ih ha
      exact ⟨b, List.mem_cons_of_mem _ hb, hb'⟩

theorem forall₂_right {α β : Type} {R : α → β → Prop} {l : List α} {r : List β}
    (h : List.Forall₂ R l r) {b : β} (hb : b ∈ r) : ∃ a ∈ l, R a b := by
  induction h with
  | nil => exact (List.not_mem_nil hb).elim
  | cons h _ ih =>
    rcases List.mem_cons.1 hb with rfl | hb
    · exact ⟨_, List.mem_cons_self, h⟩
    · obtain ⟨a, ha, ha'⟩ := ih hb
      exact ⟨a, List.mem_cons_of_mem _ ha, ha'⟩

/-- What `validate_dictionary` accepts. -/
theorem validateDictionary_ok {d : PyDict (PyVal K)} {r : PyDict K} :
    validateDictionary d = .ok r ↔ d ≠ [] ∧
      (∀ k ∈ d.map Prod.fst, ∃ a b, k = [a, b] ∧ nonBlank a = true ∧ nonBlank b = true) ∧
      (∀ k ∈ d.map Prod.fst, ∀ l ∈ d.map Prod.fst, ∀ a ∈ k, ∀ b ∈ l, [a, b] ∈ d.map Prod.fst) ∧
      List.Forall₂ (fun x y => y.1 = x.1 ∧ dictValue x.2 = .ok y.2) d r := by
  unfold validateDictionary
  simp only [R.ite_throw, dictValues_ok, not_not]
  have e1 : ∀ k : List String, (k.length == 2 && k.all nonBlank) = true ↔
      ∃ a b, k = [a, b] ∧ nonBlank a = true ∧ nonBlank b = true := by
    intro k
    match k with
    | [] => simp
    | [a] => simp
    | [a, b] => simp
    | a :: b :: c :: l => simp
  simp only [List.isEmpty_iff, List.all_eq_true, e1, List.any_eq_true, decide_eq_true_eq,
    List.mem_flatMap, List.mem_map, forall_exists_index, and_imp, forall_apply_eq_imp_iff₂]
  refine and_congr_right fun _ => and_congr_right fun _ => ?_
  constructor
  · rintro ⟨h1, -, h3⟩
    exact ⟨fun x hx y hy a ha b hb => h1 a x hx ha b y hy hb, h3⟩
  · rintro ⟨h1, h3⟩
    refine ⟨fun a x hx ha b y hy hb => h1 x hx y hy a ha b hb, ?_, h3⟩
    intro x hx
    obtain ⟨y, -, -, hy⟩ := forall₂_left h3 hx
    exact isNumber_of_dictValue hy

theorem forall₂_asArgument (d : PyDict K) (h : ∀ x ∈ d, 0 ≤ x.2 ∧ x.2 ≤ 1) :
    List.Forall₂ (fun x y => y.1 = x.1 ∧ dictValue x.2 = .ok y.2) (asArgument d) d := by
  induction d with
  | nil => exact List.Forall₂.nil
  | cons x d ih =>
    refine List.Forall₂.cons ⟨rfl, ?_⟩ (ih fun y hy => h y (List.mem_cons_of_mem _ hy))
    exact dictValue_ok.2 ⟨Or.inr rfl, h x List.mem_cons_self⟩

theorem keys_asArgument (d : PyDict K) : (asArgument d).map Prod.fst = d.map Prod.fst := by
  unfold asArgument
  rw [List.map_map]
  rfl

/-- C62. Converting a chain to a dictionary and back gives the same chain: the same labels in the same
order and the same probabilities. -/
theorem C62_dictionary_round_trip (c : MC K) (h : c.Accepted) :
    fromDictionary (asArgument (mcToDictionary c)) = .ok c := by
  rw [mcToDictionary_eq c h.2.2.2.1 h.2.2.2.2.1]
  unfold fromDictionary
  have e : validateDictionary (asArgument (mcItems c)) = .ok (mcItems c) := by
    obtain ⟨n, p, states⟩ := c
    obtain ⟨h1, h2, -, h4, h5, h6⟩ := h
    change states.length = n at h4
    subst h4
    have key : ∀ k, k ∈ (mcItems ⟨states.length, p, states⟩).map Prod.fst ↔
        ∃ a ∈ states, ∃ b ∈ states, k = [a, b] := by
      intro k
      rw [List.mem_map]
      constructor
      · rintro ⟨x, hx, rfl⟩
        obtain ⟨i, j, rfl⟩ := (mem_mcItems states p).1 hx
        exact ⟨_, List.getElem_mem _, _, List.getElem_mem _, rfl⟩
      · rintro ⟨a, ha, b, hb, rfl⟩
        obtain ⟨i, hi, rfl⟩ := List.mem_iff_getElem.1 ha
        obtain ⟨j, hj, rfl⟩ := List.mem_iff_getElem.1 hb
        exact ⟨_, (mem_mcItems states p).2 ⟨⟨i, hi⟩, ⟨j, hj⟩, rfl⟩, rfl⟩
    have h1' : 2 ≤ states.length := h1
    refine validateDictionary_ok.2 ⟨?_, ?_, ?_, forall₂_asArgument _ ?_⟩
    · intro h0
      have := (mem_mcItems states p).2 ⟨⟨0, by omega⟩, ⟨0, by omega⟩, rfl⟩
      unfold asArgument at h0
      rw [List.map_eq_nil_iff] at h0
      rw [h0] at this
      exact List.not_mem_nil this
    · rw [keys_asArgument]
      intro k hk
      obtain ⟨a, ha, b, hb, rfl⟩ := (key k).1 hk
      exact ⟨a, b, rfl, h6 a ha, h6 b hb⟩
    · rw [keys_asArgument]
      intro k hk l hl a ha b hb
      obtain ⟨k1, hk1, k2, hk2, rfl⟩ := (key k).1 hk
      obtain ⟨l1, hl1, l2, hl2, rfl⟩ := (key l).1 hl
      refine (key _).2 ⟨a, ?_, b, ?_, rfl⟩
      · simp only [List.mem_cons, List.not_mem_nil, or_false] at ha
        rcases ha with rfl | rfl <;> assumption
      · simp only [List.mem_cons, List.not_mem_nil, or_false] at hb
        rcases hb with rfl | rfl <;> assumption
    · intro x hx
      obtain ⟨i, j, rfl⟩ := (mem_mcItems states p).1 hx
      exact h2 i j
  rw [e, R.ok_bind]
  exact chainOfDict_items c h

theorem asArgument_mem {d : PyDict K} {x : List String × PyVal K} :
    x ∈ asArgument d ↔ ∃ y ∈ d, x = (y.1, .float (.fin y.2)) := by
  unfold asArgument
  rw [List.mem_map]
  constructor
  · rintro ⟨y, hy, rfl⟩; exact ⟨y, hy, rfl⟩
  · rintro ⟨y, hy, rfl⟩; exact ⟨y, hy, rfl⟩

theorem validateDictionaryHmm_items (m : HMM K) (h : m.Accepted) :
    validateDictionaryHmm (asArgument (hmmItems m)) = .ok (hmmItems m) := by
  obtain ⟨n, k, p, e, states, symbols⟩ := m
  obtain ⟨h1, h2, hp, he, h3, h4, ⟨h5, h6, h6'⟩, ⟨h7, h8, h8'⟩, h9⟩ := h
  change states.length = n at h5
  change symbols.length = k at h7
  subst h5 h7
  have h1' : 2 ≤ states.length := h1
  have mem : ∀ x, x ∈ asArgument (hmmItems ⟨states.length, symbols.length, p, e, states, symbols⟩) ↔
      (∃ i j, x = (["P", states[i.val], states[j.val]], .float (.fin (p i j)))) ∨
        ∃ i j, x = (["E", states[i.val], symbols[j.val]], .float (.fin (e i j))) := by
    intro x
    rw [asArgument_mem]
    constructor
    · rintro ⟨y, hy, rfl⟩
      rcases (mem_hmmItems states symbols p e).1 hy with ⟨i, j, rfl⟩ | ⟨i, j, rfl⟩
      · exact Or.inl ⟨i, j, rfl⟩
      · exact Or.inr ⟨i, j, rfl⟩
    · rintro (⟨i, j, rfl⟩ | ⟨i, j, rfl⟩)
      · exact ⟨_, (mem_hmmItems states symbols p e).2 (Or.inl ⟨i, j, rfl⟩), rfl⟩
      · exact ⟨_, (mem_hmmItems states symbols p e).2 (Or.inr ⟨i, j, rfl⟩), rfl⟩
  have f2 := forall₂_asArgument (hmmItems ⟨states.length, symbols.length, p, e, states, symbols⟩)
    (by
      intro x hx
      rcases (mem_hmmItems states symbols p e).1 hx with ⟨i, j, rfl⟩ | ⟨i, j, rfl⟩
      · exact hp i j
      · exact he i j)
  obtain ⟨d, hd⟩ : ∃ d, d = asArgument
    (hmmItems ⟨states.length, symbols.length, p, e, states, symbols⟩) := ⟨_, rfl⟩
  rw [← hd] at mem f2 ⊢
  have st : ∀ a, a ∈ (d.flatMap fun x => match x.1 with
      | [r, a, b] => if r = "P" then [a, b] else [a]
      | _ => []) → a ∈ states := by
    intro a ha
    rw [List.mem_flatMap] at ha
    obtain ⟨x, hx, hxa⟩ := ha
    rcases (mem x).1 hx with ⟨i, j, rfl⟩ | ⟨i, j, rfl⟩
    · have hxa' : a ∈ [states[i.val], states[j.val]] := hxa
      simp only [List.mem_cons, List.not_mem_nil, or_false] at hxa'
      rcases hxa' with rfl | rfl <;> exact List.getElem_mem _
    · have hxa' : a ∈ [states[i.val]] := hxa
      rw [List.mem_singleton] at hxa'
      exact hxa' ▸ List.getElem_mem _
  have sy : ∀ a, a ∈ (d.flatMap fun x => match x.1 with
      | [r, _, b] => if r = "E" then [b] else []
      | _ => []) → a ∈ symbols := by
    intro a ha
    rw [List.mem_flatMap] at ha
    obtain ⟨x, hx, hxa⟩ := ha
    rcases (mem x).1 hx with ⟨i, j, rfl⟩ | ⟨i, j, rfl⟩
    · have hxa' : a ∈ ([] : List String) := hxa
      exact (List.not_mem_nil hxa').elim
    · have hxa' : a ∈ [symbols[j.val]] := hxa
      rw [List.mem_singleton] at hxa'
      exact hxa' ▸ List.getElem_mem _
  unfold validateDictionaryHmm
  simp only [R.ite_throw, dictValues_ok, not_not, List.all_eq_true, List.any_eq_true,
    decide_eq_true_eq, List.isEmpty_iff]
  refine ⟨?_, ?_, ?_, ?_, ?_, ?_, f2⟩
  · intro h0
    have := (mem _).2 (Or.inl ⟨⟨0, by omega⟩, ⟨0, by omega⟩, rfl⟩)
    rw [h0] at this
    exact List.not_mem_nil this
  · intro x hx
    rcases (mem x).1 hx with ⟨i, j, rfl⟩ | ⟨i, j, rfl⟩
    · simp [h6' _ (List.getElem_mem i.isLt), h6' _ (List.getElem_mem j.isLt)]
      decide
    · simp [h6' _ (List.getElem_mem i.isLt), h8' _ (List.getElem_mem j.isLt)]
      decide
  · intro x hx
    rcases (mem x).1 hx with ⟨i, j, rfl⟩ | ⟨i, j, rfl⟩ <;> simp
  · intro a ha b hb
    obtain ⟨i, hi, rfl⟩ := List.mem_iff_getElem.1 (st a ha)
    obtain ⟨j, hj, rfl⟩ := List.mem_iff_getElem.1 (st b hb)
    exact ⟨_, (mem _).2 (Or.inl ⟨⟨i, hi⟩, ⟨j, hj⟩, rfl⟩), rfl⟩
  · intro a ha b hb
    obtain ⟨i, hi, rfl⟩ := List.mem_iff_getElem.1 (st a ha)
    obtain ⟨j, hj, rfl⟩ := List.mem_iff_getElem.1 (sy b hb)
    exact ⟨_, (mem _).2 (Or.inr ⟨⟨i, hi⟩, ⟨j, hj⟩, rfl⟩), rfl⟩
  · intro x hx
    rcases (mem x).1 hx with ⟨i, j, rfl⟩ | ⟨i, j, rfl⟩ <;> rfl

/-- C62 for hidden Markov models. -/
theorem C62_hmm_dictionary_round_trip (m : HMM K) (h : m.Accepted) :
    hmmFromDictionary (asArgument (hmmToDictionary m)) = .ok m := by
  obtain ⟨h5, h6, -⟩ := h.2.2.2.2.2.2.1
  obtain ⟨h7, h8, -⟩ := h.2.2.2.2.2.2.2.1
  rw [hmmToDictionary_eq m h5 h7 h6 h8]
  unfold hmmFromDictionary
  rw [validateDictionaryHmm_items m h, R.ok_bind]
  exact modelOfDict_items m h

theorem MC.Valid.accepted {c : MC K} (h : c.Valid) : c.Accepted :=
  ⟨h.1, fun i j => ⟨h.2.1.1 i j, by
    rw [← h.2.1.2 i]
    exact Finset.single_le_sum (fun l _ => h.2.1.1 i l) (Finset.mem_univ j)⟩,
    fun i => by rw [h.2.1.2 i, sub_self, abs_zero]; positivity, h.2.2⟩

/-! ## C80: dictionaries given by the caller -/

theorem mem_dictStates {d : PyDict K} {a : String} :
    a ∈ dictStates d ↔ [a, a] ∈ d.map Prod.fst := by
  unfold dictStates
  rw [List.mem_filterMap, List.mem_map]
  constructor
  · rintro ⟨⟨k, v⟩, hx, h⟩
    match k, h with
    | [b, c], h =>
      by_cases e : b = c
      · subst e
        have : some b = some a := (if_pos rfl).symm.trans h
        injection this with this
        subst this
        exact ⟨_, hx, rfl⟩
      · have : (none : Option String) = some a := (if_neg e).symm.trans h
        cases this
  · rintro ⟨x, hx, h⟩
    refine ⟨x, hx, ?_⟩
    rw [h]
    exact if_pos rfl

theorem dictStates_nodup {d : PyDict K} (h : (d.map Prod.fst).Nodup) : (dictStates d).Nodup := by
  induction d with
  | nil => exact List.nodup_nil
  | cons x d ih =>
    rw [List.map_cons, List.nodup_cons] at h
    have := ih h.2
    obtain ⟨k, v⟩ := x
    unfold dictStates at this ⊢
    rw [List.filterMap_cons]
    split
    · exact this
    · next b hb =>
      refine List.nodup_cons.2 ⟨?_, this⟩
      intro hm
      have h2 := mem_dictStates.1 hm
      refine h.1 ?_
      match k, hb with
      | [c, c'], hb =>
        by_cases e : c = c'
        · subst e
          have : some c = some b := (if_pos rfl).symm.trans hb
          injection this with this
          subst this
          exact h2
        · have : (none : Option String) = some b := (if_neg e).symm.trans hb
          cases this

/-- C80. A chain built from any dictionary satisfies the requirements of the constructor, its labels are
exactly the labels of the keys, and the probability of every pair of labels is the value of that key. -/
theorem C80_dictionary_described {d : PyDict (PyVal K)} (hd : (d.map Prod.fst).Nodup) {c : MC K}
    (h : fromDictionary d = .ok c) :
    c.Accepted ∧ (∀ a, a ∈ c.states ↔ ∃ k ∈ d.map Prod.fst, a ∈ k) ∧
      ∀ i j : Fin c.n, ∃ v, ([c.states.getD i.val "", c.states.getD j.val ""], v) ∈ d ∧
        (v = .float (.fin (c.p i j)) ∨ ∃ z : ℤ, v = .int z ∧ c.p i j = z) := by
  unfold fromDictionary at h
  rw [R.bind_ok] at h
  obtain ⟨r, hv, h⟩ := h
  obtain ⟨-, v2, v3, v4⟩ := validateDictionary_ok.1 hv
  have keys : r.map Prod.fst = d.map Prod.fst := by
    clear hv v2 v3 h hd
    induction v4 with
    | nil => rfl
    | cons h1 _ ih => rw [List.map_cons, List.map_cons, ih, h1.1]
  rw [← keys] at v2 v3 hd
  have hs := dictStates_nodup hd
  have hmem : ∀ k ∈ r.map Prod.fst, ∀ a ∈ k, a ∈ dictStates r := fun k hk a ha =>
    mem_dictStates.2 (v3 k hk k hk a ha a ha)
  obtain ⟨N, h1, h2, -⟩ := dictMatrix_fill hs r 0
    (by
      intro x hx
      have hk : x.1 ∈ r.map Prod.fst := List.mem_map.2 ⟨x, hx, rfl⟩
      obtain ⟨a, b, e, -, -⟩ := v2 _ hk
      exact ⟨a, hmem _ hk a (by rw [e]; simp), b, hmem _ hk b (by rw [e]; simp), e⟩) hd
  have h1' : dictMatrix (dictStates r) r = .ok N := h1
  obtain ⟨h3, N', h0, h4, rfl⟩ := chainOfDict_ok.1 h
  have e : N = N' := by
    injection h1'.symm.trans h0
  subst e
  have val : ∀ i j, ∃ v, ([(dictStates r)[i.val], (dictStates r)[j.val]], v) ∈ d ∧
      dictValue v = .ok (N i j) := by
    intro i j
    have hi := mem_dictStates.1 (List.getElem_mem i.isLt)
    have hj := mem_dictStates.1 (List.getElem_mem j.isLt)
    have hk := v3 _ hi _ hj _ List.mem_cons_self _ List.mem_cons_self
    obtain ⟨⟨k, x⟩, hx, hk'⟩ := List.mem_map.1 hk
    change k = _ at hk'
    subst hk'
    obtain ⟨⟨k, v⟩, hm, e1, e2⟩ := forall₂_right v4 hx
    change _ = k at e1
    subst e1
    refine ⟨v, hm, ?_⟩
    rw [e2]
    exact congrArg Except.ok (h2 i j x hx).symm
  refine ⟨⟨h3, ?_, h4, rfl, hs, ?_⟩, ?_, ?_⟩
  · intro i j
    obtain ⟨v, -, hv⟩ := val i j
    exact (dictValue_ok.1 hv).2
  · intro s hs
    obtain ⟨a, b, e, ha, -⟩ := v2 _ (mem_dictStates.1 hs)
    injection e with e _
    exact e ▸ ha
  · intro a
    rw [← keys]
    constructor
    · intro ha
      exact ⟨_, mem_dictStates.1 ha, List.mem_cons_self⟩
    · rintro ⟨k, hk, ha⟩
      exact hmem k hk a ha
  · intro i j
    obtain ⟨v, hv, hv'⟩ := val i j
    refine ⟨v, ?_, ?_⟩
    · rw [getD_fin, getD_fin]
      exact hv
    · rcases (dictValue_ok.1 hv').1 with ⟨z, h1, h2⟩ | h1
      · exact Or.inr ⟨z, h1, h2⟩
      · exact Or.inl h1

/-! ## Concrete cases -/

/-- The transition matrix of `exNames`. -/
def exNamesP : Matrix (Fin 2) (Fin 2) ℚ := fun i j =>
  if i = 0 then (if j = 0 then 1 / 2 else 1 / 2) else (if j = 0 then 0 else 1)

theorem exNamesP_unit (i j : Fin 2) : 0 ≤ exNamesP i j := by
  fin_cases i <;> fin_cases j <;> decide +kernel

theorem exNamesP_sum (i : Fin 2) : ∑ j, exNamesP i j = 1 := by
  fin_cases i <;> decide +kernel

/-- A chain whose labels contain spaces. -/
def exNames : MC ℚ := ⟨2, exNamesP, ["sunny day", "rain "]⟩

theorem exNames_valid : exNames.Valid := by
  refine ⟨le_refl 2, ?_, rfl, by decide, by decide⟩
  constructor
  · exact fun i j => exNamesP_unit i j
  · exact fun i => exNamesP_sum i

theorem C62_instance :
    fromDictionary (asArgument (mcToDictionary exNames)) = .ok exNames ∧
      (mcToDictionary exNames).map Prod.fst =
        [["sunny day", "sunny day"], ["sunny day", "rain "], ["rain ", "sunny day"],
          ["rain ", "rain "]] :=
  ⟨C62_dictionary_round_trip _ exNames_valid.accepted, by decide +kernel⟩

/-- The emission matrix of `exNamesHmm`. -/
def exNamesE : Matrix (Fin 2) (Fin 2) ℚ := fun i j => if i = j then 3 / 4 else 1 / 4

theorem exNamesE_unit (i j : Fin 2) : 0 ≤ exNamesE i j ∧ exNamesE i j ≤ 1 := by
  fin_cases i <;> fin_cases j <;> decide +kernel

theorem exNamesE_sum (i : Fin 2) : ∑ j, exNamesE i j = 1 := by
  fin_cases i <;> decide +kernel

/-- A hidden Markov model whose labels contain spaces. -/
def exNamesHmm : HMM ℚ := ⟨2, 2, exNamesP, exNamesE, ["sunny day", "rain "], ["walk ", "stay in"]⟩

theorem exNamesHmm_accepted : exNamesHmm.Accepted := by
  have h := exNames_valid.accepted
  refine ⟨le_refl 2, le_refl 2, h.2.1, ?_, h.2.2.1, ?_, ⟨rfl, by decide, by decide⟩,
    ⟨rfl, by decide, by decide⟩, ?_⟩
  · exact fun i j => exNamesE_unit i j
  · intro i
    change |∑ j, exNamesE i j - 1| ≤ _
    rw [exNamesE_sum i, sub_self, abs_zero]
    positivity
  · change List.Disjoint ["sunny day", "rain "] ["walk ", "stay in"]
    rw [List.disjoint_left]
    decide

theorem C62_hmm_instance : hmmFromDictionary (asArgument (hmmToDictionary exNamesHmm)) = .ok exNamesHmm :=
  C62_hmm_dictionary_round_trip _ exNamesHmm_accepted

/-- C80: a dictionary without one of the combinations of labels is rejected. -/
theorem C80_incomplete : (fromDictionary ([(["a", "a"], .int 1), (["b", "a"], .int 0),
    (["b", "b"], .int 1)] : PyDict (PyVal ℚ))).toOption.isNone = true := by decide +kernel

/-- C80: the order of the labels is the order of the keys of the form `(a, a)`. -/
theorem C80_accepts : ((fromDictionary ([(["a", "b"], .float (.fin (1 / 2))), (["b", "b"], .int 1),
    (["a", "a"], .float (.fin (1 / 2))), (["b", "a"], .int 0)] : PyDict (PyVal ℚ))).toOption.map
      MC.states) = some ["b", "a"] := by decide +kernel

end Verif
