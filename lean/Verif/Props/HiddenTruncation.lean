import Verif.Props.Truncation

/-!
# Property C164: truncated text files of hidden Markov models
-/

set_option linter.unusedSectionVars false

namespace Verif

variable {K : Type} [Field K] [LinearOrder K] [IsStrictOrderedRing K]

/-! ## The keys of a dictionary -/

theorem mem_hiddenStates {d : PyDict K} {a : String} :
    a ∈ dictHmmStates d ↔ ["P", a, a] ∈ d.map Prod.fst := by
  unfold dictHmmStates
  rw [List.mem_filterMap, List.mem_map]
  constructor
  · rintro ⟨⟨k, v⟩, hx, h⟩
    match k, h with
    | [r, b, c], h =>
      by_cases e : r = "P" ∧ b = c
      · have : some b = some a := (if_pos e).symm.trans h
        injection this with this
        obtain ⟨rfl, rfl⟩ := e
        subst this
        exact ⟨_, hx, rfl⟩
      · have : (none : Option String) = some a := (if_neg e).symm.trans h
        cases this
  · rintro ⟨x, hx, h⟩
    refine ⟨x, hx, ?_⟩
    rw [h]
    exact if_pos ⟨rfl, rfl⟩

/-- The states of a dictionary depend only on its keys. -/
theorem hiddenStates_keys (d : PyDict K) : dictHmmStates d = (d.map Prod.fst).filterMap fun k =>
    match k with
    | [r, a, b] => if r = "P" ∧ a = b then some a else none
    | _ => none := by
  unfold dictHmmStates
  rw [List.filterMap_map]
  rfl

/-- The symbols of a dictionary depend only on its keys. -/
theorem hiddenSymbols_keys (s : String) (d : PyDict K) :
    dictHmmSymbols s d = (d.map Prod.fst).filterMap fun k =>
      match k with
      | [r, a, b] => if r = "E" ∧ a = s then some b else none
      | _ => none := by
  unfold dictHmmSymbols
  rw [List.filterMap_map]
  rfl

/-- All labels of the keys are known if the matrices can be filled. -/
theorem dictMatrices_mem {states symbols : List String} (d : PyDict K)
    (M : Matrix (Fin states.length) (Fin states.length) K × Matrix (Fin states.length) (Fin symbols.length) K)
    {N : Matrix (Fin states.length) (Fin states.length) K × Matrix (Fin states.length) (Fin symbols.length) K}
    (h : d.foldlM (fun M x =>
        match x.1 with
        | [r, a, b] =>
          if r = "E" then setEntry states symbols M.2 a b x.2 >>= fun E => pure (M.1, E)
          else setEntry states states M.1 a b x.2 >>= fun P => pure (P, M.2)
        | _ => throw .valueError) M = (.ok N : R _)) :
    ∀ a b, ["P", a, b] ∈ d.map Prod.fst → b ∈ states := by
  induction d generalizing M with
  | nil => intro a b hx; exact (List.not_mem_nil hx).elim
  | cons x d ih =>
    rw [List.foldlM_cons, R.bind_ok] at h
    obtain ⟨L, h1, h2⟩ := h
    intro a b hy
    rw [List.map_cons, List.mem_cons] at hy
    rcases hy with hy | hy
    · obtain ⟨k, v⟩ := x
      change _ = k at hy
      subst hy
      change (if "P" = "E" then _ else _) = _ at h1
      rw [if_neg (by decide), R.bind_ok] at h1
      obtain ⟨P, h3, -⟩ := h1
      exact (setEntry_ok.1 h3).1.2
    · exact ih L h2 a b hy

/-! ## The items of a model, row by row -/

section
variable (states symbols : List String) (p : Matrix (Fin states.length) (Fin states.length) K)
  (e : Matrix (Fin states.length) (Fin symbols.length) K)

/-- The transition probabilities of one state. -/
def rowP (i : Fin states.length) : PyDict K :=
  (List.finRange states.length).map fun j => (["P", states[i.val], states[j.val]], p i j)

/-- The emission probabilities of one state. -/
def rowE (i : Fin states.length) : PyDict K :=
  (List.finRange symbols.length).map fun j => (["E", states[i.val], symbols[j.val]], e i j)

theorem hmmItems_rows : hmmItems ⟨states.length, symbols.length, p, e, states, symbols⟩ =
    (List.finRange states.length).flatMap fun i => rowP states p i ++ rowE states symbols e i := by
  unfold hmmItems rowP rowE
  simp only [getD_fin]

theorem finRange_first {n : ℕ} (h : 0 < n) :
    ∃ l, List.finRange n = ⟨0, h⟩ :: l := by
  cases n with
  | zero => omega
  | succ n => exact ⟨_, List.finRange_succ⟩

theorem finRange_last {n : ℕ} (h : 0 < n) :
    ∃ l, List.finRange n = l ++ [⟨n - 1, by omega⟩] := by
  cases n with
  | zero => omega
  | succ n => exact ⟨_, List.finRange_succ_last⟩

theorem mem_take_finRange {n : ℕ} (t : ℕ) (j : Fin n) : j ∈ (List.finRange n).take t ↔ j.val < t := by
  rw [List.mem_take_iff_getElem]
  constructor
  · rintro ⟨i, hi, h⟩
    rw [List.getElem_finRange] at h
    rw [← h]
    simp only [lt_min_iff] at hi
    simpa using hi.1
  · intro h
    refine ⟨j.val, by simp [h], by simp⟩

/-- A prefix of the keys from which a model can be made contains the last diagonal entry. -/
theorem hidden_prefix (h2 : 2 ≤ states.length) {D : PyDict K}
    (hp : D.map Prod.fst <+: (hmmItems ⟨states.length, symbols.length, p, e, states, symbols⟩).map Prod.fst)
    (hn : (D.map Prod.fst).Nodup) {m' : HMM K} (hm : modelOfDict D = .ok m') :
    ["P", states[states.length - 1], states[states.length - 1]] ∈ D.map Prod.fst := by
  unfold modelOfDict at hm
  rw [R.ite_throw, R.ite_throw, R.bind_ok] at hm
  obtain ⟨h3, -, M, hM, -⟩ := hm
  have hmem := dictMatrices_mem D (0, 0) hM
  obtain ⟨l, hl⟩ := finRange_first (n := states.length) (by omega)
  rw [hmmItems_rows, hl, List.flatMap_cons, List.append_assoc, List.map_append] at hp
  rcases prefix_append_cases hp with h | ⟨t, ht, -⟩
  · exfalso
    have hsub : ∀ a ∈ dictHmmStates D, a = states[0] := by
      intro a ha
      have h4 := h.subset (mem_hiddenStates.1 ha)
      unfold rowP at h4
      rw [List.map_map] at h4
      obtain ⟨b, -, hb⟩ := List.mem_map.1 h4
      injection hb with _ hb
      injection hb with hb _
      exact hb.symm
    have hnd : (dictHmmStates D).Nodup := by
      rw [hiddenStates_keys]
      refine List.Nodup.filterMap ?_ hn
      intro k k' a h5 h6
      match k, k', h5, h6 with
      | [r, b, c], [r', b', c'], h5, h6 =>
        rw [Option.mem_def] at h5 h6
        by_cases e1 : r = "P" ∧ b = c <;> by_cases e2 : r' = "P" ∧ b' = c'
        · have f1 : some b = some a := (if_pos e1).symm.trans h5
          have f2 : some b' = some a := (if_pos e2).symm.trans h6
          injection f1 with f1
          injection f2 with f2
          rw [e1.1, e2.1, ← e1.2, ← e2.2, f1, f2]
        · have : (none : Option String) = some a := (if_neg e2).symm.trans h6
          cases this
        · have : (none : Option String) = some a := (if_neg e1).symm.trans h5
          cases this
        · have : (none : Option String) = some a := (if_neg e1).symm.trans h5
          cases this
    have h3' : ¬ (dictHmmStates D).length < 2 := h3
    match hds : dictHmmStates D, h3', hsub, hnd with
    | [], h3, _, _ => simp at h3
    | [a], h3, _, _ => simp at h3
    | a :: b :: l, _, hsub, hnd =>
      have h1 := hsub a List.mem_cons_self
      have h4 := hsub b (List.mem_cons_of_mem _ List.mem_cons_self)
      rw [List.nodup_cons] at hnd
      exact hnd.1 (by rw [h1, ← h4]; exact List.mem_cons_self)
  · rw [← mem_hiddenStates]
    refine hmem states[0] _ ?_
    rw [ht]
    refine List.mem_append_left _ ?_
    unfold rowP
    rw [List.map_map]
    exact List.mem_map.2 ⟨⟨states.length - 1, by omega⟩, List.mem_finRange _, rfl⟩

/-- An element at the end of the first part is in a prefix only if the prefix contains the first part. -/
theorem length_le_of_mem_take {α : Type} {X Y : List α} {a : α} {q : ℕ} (hn : (X ++ [a] ++ Y).Nodup)
    (h : a ∈ (X ++ [a] ++ Y).take q) : (X ++ [a]).length ≤ q := by
  by_contra hq
  rw [List.length_append, List.length_singleton] at hq
  rw [List.append_assoc, List.take_append_of_le_length (by omega)] at h
  rw [List.append_assoc, List.nodup_append] at hn
  exact hn.2.2 _ (List.mem_of_mem_take h) _ List.mem_cons_self rfl

/-- What is read from a prefix of the keys that contains all transition probabilities. -/
theorem hidden_cut (hs : states.Nodup) (hy : symbols.Nodup) (h2 : 2 ≤ states.length)
    {A : PyDict K} {z : Fin states.length} (hz : z.val ≠ 0)
    (hd : hmmItems ⟨states.length, symbols.length, p, e, states, symbols⟩ = A ++ rowE states symbols e z)
    {D : PyDict K} {q : ℕ} (hq : A.length ≤ q)
    (hk : D.map Prod.fst =
      ((hmmItems ⟨states.length, symbols.length, p, e, states, symbols⟩).map Prod.fst).take q)
    {m' : HMM K} (hm : modelOfDict D = .ok m') :
    ∃ (P : Matrix (Fin states.length) (Fin states.length) K)
      (E : Matrix (Fin states.length) (Fin symbols.length) K),
      m' = ⟨states.length, symbols.length, P, E, states, symbols⟩ ∧
      (∀ i j v, (["P", states[i.val], states[j.val]], v) ∈ D → P i j = v) ∧
      (∀ i j v, (["E", states[i.val], symbols[j.val]], v) ∈ D → E i j = v) ∧
      (∀ i j, ["E", states[i.val], symbols[j.val]] ∉ D.map Prod.fst → E i j = 0) ∧
      ∀ i, |∑ j, E i j - 1| ≤ 1 / 10 ^ 8 + 1 / 10 ^ 5 := by
  have hlen : (A.map Prod.fst).length ≤ q := by rw [List.length_map]; exact hq
  have hk' : D.map Prod.fst =
      A.map Prod.fst ++ ((rowE states symbols e z).map Prod.fst).take (q - A.length) := by
    rw [hk, hd, List.map_append, List.take_append, List.take_of_length_le hlen, List.length_map]
  have hform : ∀ k ∈ (rowE states symbols e z).map Prod.fst, ∃ b, k = ["E", states[z.val], b] := by
    intro k hk
    obtain ⟨x, hx, rfl⟩ := List.mem_map.1 hk
    obtain ⟨j, -, rfl⟩ := List.mem_map.1 hx
    exact ⟨_, rfl⟩
  have hz0 : states[z.val] ≠ states.headD "" := by
    have hh : states.headD "" = states[(⟨0, by omega⟩ : Fin states.length).val] := by
      cases states with
      | nil => simp at h2
      | cons a l => rfl
    rw [hh]
    intro h
    exact hz (congrArg Fin.val (getElem_fin_inj hs h))
  have hst : dictHmmStates D = states := by
    have h3 := dictHmmStates_items states symbols p e hs
    rw [hiddenStates_keys, hd, List.map_append, List.filterMap_append] at h3
    rw [hiddenStates_keys, hk', List.filterMap_append]
    have h4 : ∀ l : List (List String), (∀ k ∈ l, k ∈ (rowE states symbols e z).map Prod.fst) →
        (l.filterMap fun k => match k with
          | [r, a, b] => if r = "P" ∧ a = b then some a else none
          | _ => none) = [] := by
      intro l hl
      rw [List.filterMap_eq_nil_iff]
      intro k hk
      obtain ⟨b, rfl⟩ := hform k (hl k hk)
      exact if_neg fun h => absurd h.1 (by decide)
    rw [h4 _ fun k hk => hk] at h3
    rw [h4 _ fun k hk => List.mem_of_mem_take hk]
    exact h3
  have hsy : dictHmmSymbols (states.headD "") D = symbols := by
    have h3 := dictHmmSymbols_items states symbols p e hs h2
    rw [hiddenSymbols_keys, hd, List.map_append, List.filterMap_append] at h3
    rw [hiddenSymbols_keys, hk', List.filterMap_append]
    have h4 : ∀ l : List (List String), (∀ k ∈ l, k ∈ (rowE states symbols e z).map Prod.fst) →
        (l.filterMap fun k => match k with
          | [r, a, b] => if r = "E" ∧ a = states.headD "" then some b else none
          | _ => none) = [] := by
      intro l hl
      rw [List.filterMap_eq_nil_iff]
      intro k hk
      obtain ⟨b, rfl⟩ := hform k (hl k hk)
      exact if_neg fun h => hz0 h.2
    rw [h4 _ fun k hk => hk] at h3
    rw [h4 _ fun k hk => List.mem_of_mem_take hk]
    exact h3
  have hnd : (D.map Prod.fst).Nodup := by
    rw [hk]
    exact (hmmItems_nodup states symbols p e hs hy).sublist (List.take_sublist _ _)
  have hmem : ∀ x ∈ D, ∃ a ∈ states,
      (∃ b ∈ states, x.1 = ["P", a, b]) ∨ ∃ b ∈ symbols, x.1 = ["E", a, b] := by
    intro x hx
    have h3 : x.1 ∈ D.map Prod.fst := List.mem_map.2 ⟨x, hx, rfl⟩
    rw [hk] at h3
    obtain ⟨w, hw, h4⟩ := List.mem_map.1 (List.mem_of_mem_take h3)
    rcases (mem_hmmItems states symbols p e).1 hw with ⟨i, j, rfl⟩ | ⟨i, j, rfl⟩
    · exact ⟨_, List.getElem_mem i.isLt, Or.inl ⟨_, List.getElem_mem j.isLt, h4.symm⟩⟩
    · exact ⟨_, List.getElem_mem i.isLt, Or.inr ⟨_, List.getElem_mem j.isLt, h4.symm⟩⟩
  unfold modelOfDict at hm
  simp only at hm
  obtain ⟨st, hst'⟩ : ∃ st, dictHmmStates D = st := ⟨_, rfl⟩
  rw [hst'] at hm hst
  subst hst
  obtain ⟨sy, hsy'⟩ : ∃ sy, dictHmmSymbols (st.headD "") D = sy := ⟨_, rfl⟩
  rw [hsy'] at hm hsy
  subst hsy
  rw [R.ite_throw, R.ite_throw, R.bind_ok] at hm
  obtain ⟨-, -, M, hM, hm⟩ := hm
  rw [R.ite_throw, R.ite_throw, R.ite_throw, R.pure_ok] at hm
  obtain ⟨-, h5, -, rfl⟩ := hm
  rw [not_not] at h5
  obtain ⟨N, hN, f1, -, f2, f3⟩ := dictMatrices_fill hs hy D 0 0 hmem hnd
  have e0 : M = N := Except.ok.inj (hM.symm.trans hN)
  subst e0
  exact ⟨M.1, M.2, rfl, f1, f2, f3, allclose_one.1 h5⟩

end

/-- Valid models are accepted ones. -/
theorem hmm_accepted {m : HMM K} (h : m.Valid) : m.Accepted := by
  obtain ⟨h1, h2, ⟨h3, h4⟩, ⟨h5, h6⟩, h7, h8, h9⟩ := h
  have h4' : ∀ i, ∑ j, m.p i j = 1 := h4
  have h6' : ∀ i, ∑ j, m.e i j = 1 := h6
  refine ⟨h1, h2, fun i j => ⟨h3 i j, ?_⟩, fun i j => ⟨h5 i j, ?_⟩, fun i => ?_, fun i => ?_, h7, h8, h9⟩
  · rw [← h4' i]
    exact Finset.single_le_sum (f := fun j => m.p i j) (fun j _ => h3 i j) (Finset.mem_univ j)
  · rw [← h6' i]
    exact Finset.single_le_sum (f := fun j => m.e i j) (fun j _ => h5 i j) (Finset.mem_univ j)
  · rw [h4' i, sub_self, abs_zero]
    positivity
  · rw [h6' i, sub_self, abs_zero]
    positivity

/-- Every item of a model whose labels contain no whitespace can be read back. -/
theorem hmm_readable {m : HMM K} (h : m.Accepted) {fmt : K → String} {parse : String → Option K}
    (hl : ∀ s ∈ m.states, Solid s) (hy : ∀ s ∈ m.symbols, Solid s)
    (hp : ∀ i j, Printed fmt parse (m.p i j)) (he : ∀ i j, Printed fmt parse (m.e i j)) :
    ∀ x ∈ hmmItems m, Readable false fmt parse x := by
  intro x hx
  have hn := h.2.2.2.2.2.2.1.2.2
  have hn' := h.2.2.2.2.2.2.2.1.2.2
  obtain ⟨a, ha, ⟨b, hb, i, j, rfl⟩ | ⟨b, hb, i, j, rfl⟩⟩ := hmm_item h hx
  · refine ⟨rfl, fun _ => Or.inr rfl, ?_, (hp i j).2.2, (hp i j).2.1, (hp i j).1⟩
    intro s hs
    have hs' : s ∈ ["P", a, b] := hs
    simp only [List.mem_cons, List.not_mem_nil, or_false] at hs'
    rcases hs' with rfl | rfl | rfl
    · exact ⟨by unfold Solid; decide, by decide⟩
    · exact ⟨hl _ ha, nonBlank_ne (hn _ ha)⟩
    · exact ⟨hl _ hb, nonBlank_ne (hn _ hb)⟩
  · refine ⟨rfl, fun _ => Or.inl rfl, ?_, (he i j).2.2, (he i j).2.1, (he i j).1⟩
    intro s hs
    have hs' : s ∈ ["E", a, b] := hs
    simp only [List.mem_cons, List.not_mem_nil, or_false] at hs'
    rcases hs' with rfl | rfl | rfl
    · exact ⟨by unfold Solid; decide, by decide⟩
    · exact ⟨hl _ ha, nonBlank_ne (hn _ ha)⟩
    · exact ⟨hy _ hb, nonBlank_ne (hn' _ hb)⟩

/-- C164 (partial: labels without whitespace, and the last row of the emission probabilities may be another one). If
writing the text file of a hidden Markov model stops at any point, then reading the truncated file raises, or returns
a model with the same labels and the same transition probabilities. Its emission probabilities are the same ones up
to some item of the last row, and zero after this item; if the file ends with a complete line, then all of them are
the same ones up to the tolerance. -/
theorem C164_truncated_partial (m : HMM K) (h : m.Valid) (fmt : K → String) (parse : String → Option K)
    (hl : ∀ s ∈ m.states, Solid s) (hy : ∀ s ∈ m.symbols, Solid s)
    (hp : ∀ i j, Printed fmt parse (m.p i j)) (he : ∀ i j, Printed fmt parse (m.e i j)) {l : List Char}
    (hw : l <+: writeTxt fmt (hmmToDictionary m)) {m' : HMM K}
    (hr : hmmFromFile parse (.txt l) = .ok m') :
    ∃ (E : Matrix (Fin m.n) (Fin m.k) K) (t : ℕ), m' = ⟨m.n, m.k, m.p, E, m.states, m.symbols⟩ ∧
      (∀ i j, i.val + 1 < m.n ∨ j.val < t → E i j = m.e i j) ∧
      (∀ i j, i.val + 1 = m.n → t < j.val → E i j = 0) ∧
      (∀ i, |∑ j, E i j - 1| ≤ 1 / 10 ^ 8 + 1 / 10 ^ 5) ∧
      (l.getLast? = some '\n' → ∀ i j, |E i j - m.e i j| ≤ 1 / 10 ^ 8 + 1 / 10 ^ 5) := by
  have ha : m.Accepted := hmm_accepted h
  rw [hmmDict_eq ha] at hw
  have hread := hmm_readable ha hl hy hp he
  have hnd := hmm_items_nodup ha
  have hr' : (readTxt false parse l >>= fun d => modelOfDict d) = .ok m' := by
    have h0 : (if l.isEmpty then throw .valueError else
      readTxt false parse l >>= fun d => modelOfDict d) = (.ok m' : R _) := hr
    rw [R.ite_throw] at h0
    exact h0.2
  rw [R.bind_ok] at hr'
  obtain ⟨D, hD, hm⟩ := hr'
  obtain ⟨n, k, p, e, states, symbols⟩ := m
  obtain ⟨h1, h2, -, ⟨he0, he1⟩, ⟨h5, h6, -⟩, ⟨h7, h8, -⟩, -⟩ := h
  change states.length = n at h5
  change symbols.length = k at h7
  subst h5 h7
  change 2 ≤ states.length at h1
  have he0' : ∀ i j, 0 ≤ e i j := he0
  have he1' : ∀ i, ∑ j, e i j = 1 := he1
  obtain ⟨d, hdd⟩ : ∃ d, d = hmmItems ⟨states.length, symbols.length, p, e, states, symbols⟩ := ⟨_, rfl⟩
  rw [← hdd] at hw hnd hread
  obtain ⟨z, hz⟩ : ∃ z : Fin states.length, z = ⟨states.length - 1, by omega⟩ := ⟨_, rfl⟩
  have hzv : z.val = states.length - 1 := by rw [hz]
  obtain ⟨r, hrr⟩ := finRange_last (n := states.length) (by omega)
  rw [← hz] at hrr
  obtain ⟨A, hA⟩ : ∃ A, A = (r.flatMap fun i => rowP states p i ++ rowE states symbols e i) ++ rowP states p z :=
    ⟨_, rfl⟩
  have hdA : d = A ++ rowE states symbols e z := by
    rw [hdd, hmmItems_rows, hrr, List.flatMap_append, List.flatMap_singleton, hA, List.append_assoc]
  have hdA' : hmmItems ⟨states.length, symbols.length, p, e, states, symbols⟩ =
      A ++ rowE states symbols e z := hdd ▸ hdA
  obtain ⟨A0, hA0⟩ : ∃ A0, A.map Prod.fst = A0 ++ [["P", states[z.val], states[z.val]]] := by
    rw [hA]
    unfold rowP
    rw [hrr]
    simp only [List.map_append, List.map_map, List.map_cons, List.map_nil, ← List.append_assoc]
    exact ⟨_, rfl⟩
  have hmemA : ∀ i j, (["P", states[i.val], states[j.val]], p i j) ∈ A := by
    intro i j
    have h3 : i ∈ List.finRange states.length := List.mem_finRange i
    rw [hrr, List.mem_append, List.mem_singleton] at h3
    have h4 : (["P", states[i.val], states[j.val]], p i j) ∈ rowP states p i :=
      List.mem_map.2 ⟨j, List.mem_finRange j, rfl⟩
    rw [hA, List.mem_append]
    rcases h3 with h3 | rfl
    · exact Or.inl (List.mem_flatMap.2 ⟨i, h3, List.mem_append_left _ h4⟩)
    · exact Or.inr h4
  have hmemE : ∀ i j, i.val + 1 < states.length → (["E", states[i.val], symbols[j.val]], e i j) ∈ A := by
    intro i j hi
    have h3 : i ∈ List.finRange states.length := List.mem_finRange i
    rw [hrr, List.mem_append, List.mem_singleton] at h3
    have h4 : (["E", states[i.val], symbols[j.val]], e i j) ∈ rowE states symbols e i :=
      List.mem_map.2 ⟨j, List.mem_finRange j, rfl⟩
    rw [hA, List.mem_append]
    rcases h3 with h3 | rfl
    · exact Or.inl (List.mem_flatMap.2 ⟨i, h3, List.mem_append_right _ h4⟩)
    · omega
  have hlast : ∀ i : Fin states.length, i.val + 1 = states.length → i = z := fun i hi => Fin.ext (by omega)
  have hnd' : (A.map Prod.fst ++ (rowE states symbols e z).map Prod.fst).Nodup := by
    rw [← List.map_append, ← hdA]
    exact hnd
  have hnot : ∀ (q : ℕ) (j : Fin symbols.length), q ≤ j.val → ["E", states[z.val], symbols[j.val]] ∉
      ((A ++ rowE states symbols e z).map Prod.fst).take (A.length + q) := by
    intro q j hj h3
    have hin : ["E", states[z.val], symbols[j.val]] ∈ (rowE states symbols e z).map Prod.fst :=
      List.mem_map.2 ⟨_, List.mem_map.2 ⟨j, List.mem_finRange j, rfl⟩, rfl⟩
    rw [List.map_append, List.take_append, List.length_map, List.take_of_length_le (by simp),
      Nat.add_sub_cancel_left, List.mem_append] at h3
    rcases h3 with h3 | h3
    · rw [List.nodup_append] at hnd'
      exact hnd'.2.2 _ h3 _ hin rfl
    · unfold rowE at h3
      rw [List.map_map, ← List.map_take] at h3
      obtain ⟨j', hj', h4⟩ := List.mem_map.1 h3
      injection h4 with _ h4
      injection h4 with _ h4
      injection h4 with h4 _
      have h9 : j' = j := getElem_fin_inj h8 h4
      rw [h9, mem_take_finRange] at hj'
      omega
  have hall : ∀ q, D.map Prod.fst = (d.map Prod.fst).take q → A.length ≤ q := by
    intro q hk
    have h3 := hidden_prefix states symbols p e h1 (D := D) (by
      rw [← hdd, hk]
      exact List.take_prefix _ _) (by
      rw [hk]
      exact hnd.sublist (List.take_sublist _ _)) hm
    have h4 : (d.map Prod.fst) =
        A0 ++ [["P", states[z.val], states[z.val]]] ++ (rowE states symbols e z).map Prod.fst := by
      rw [hdA, List.map_append, hA0]
    have h10 : ["P", states[z.val], states[z.val]] ∈ D.map Prod.fst := by
      simp only [hzv]
      exact h3
    rw [hk, h4] at h10
    have := length_le_of_mem_take (by rw [← h4]; exact hnd) h10
    rw [← hA0, List.length_map] at this
    exact this
  have hzp : z.val ≠ 0 := by omega
  obtain ⟨q, ⟨hD', -⟩ | ⟨x, y, hx, hy', hD', hnl⟩⟩ := readTxt_cut hread hnd hw hD
  · -- complete lines
    have hk : D.map Prod.fst = (d.map Prod.fst).take q := by rw [hD', List.map_take]
    have hq := hall q hk
    obtain ⟨P, E, rfl, g1, g2, g3, g4⟩ := hidden_cut states symbols p e h6 h8 h1 hzp hdA' hq
      (by rw [← hdd]; exact hk) hm
    obtain ⟨t, rfl⟩ := Nat.exists_eq_add_of_le hq
    have hDA : D = A ++ (rowE states symbols e z).take t := by
      rw [hD', hdA, List.take_append, List.take_of_length_le (by omega), Nat.add_sub_cancel_left]
    have hP : P = p := by
      funext i j
      exact g1 i j _ (by rw [hDA]; exact List.mem_append_left _ (hmemA i j))
    subst hP
    have hE1 : ∀ i j, i.val + 1 < states.length ∨ j.val < t → E i j = e i j := by
      intro i j hij
      refine g2 i j _ ?_
      rw [hDA, List.mem_append]
      by_cases hi : i.val + 1 < states.length
      · exact Or.inl (hmemE i j hi)
      · have hi' := hlast i (by have := i.isLt; omega)
        subst hi'
        right
        unfold rowE
        rw [← List.map_take]
        exact List.mem_map.2 ⟨j, (mem_take_finRange t j).2 (hij.resolve_left hi), rfl⟩
    have hE2 : ∀ i j, i.val + 1 = states.length → t ≤ j.val → E i j = 0 := by
      intro i j hi hj
      rw [hlast i hi]
      refine g3 z j ?_
      rw [hk, hdA]
      exact hnot t j hj
    refine ⟨E, t, rfl, hE1, fun i j hi hj => hE2 i j hi hj.le, g4, fun _ i j => ?_⟩
    change |E i j - e i j| ≤ _
    by_cases hij : i.val + 1 < states.length ∨ j.val < t
    · rw [hE1 i j hij, sub_self, abs_zero]
      positivity
    · push Not at hij
      have hi : i.val + 1 = states.length := by
        have := i.isLt
        change i.val < states.length at this
        omega
      have hle : ∀ b, 0 ≤ e i b - E i b := by
        intro b
        by_cases hb : b.val < t
        · rw [hE1 i b (Or.inr hb), sub_self]
        · rw [hE2 i b hi (by omega), sub_zero]
          exact he0' i b
      have h11 : e i j - E i j ≤ ∑ b, (e i b - E i b) :=
        Finset.single_le_sum (f := fun b => e i b - E i b) (fun b _ => hle b) (Finset.mem_univ j)
      rw [Finset.sum_sub_distrib, he1' i] at h11
      have h12 := (abs_le.1 (g4 i)).1
      rw [abs_sub_comm, abs_of_nonneg (hle j)]
      linarith
  · -- the last line is cut
    have hk : D.map Prod.fst = (d.map Prod.fst).take (q + 1) := by
      rw [hD', List.map_append, List.map_singleton, hy', List.take_add_one, List.map_take, List.getElem?_map, hx]
      rfl
    have hq := hall (q + 1) hk
    obtain ⟨P, E, rfl, g1, g2, g3, g4⟩ := hidden_cut states symbols p e h6 h8 h1 hzp hdA' hq
      (by rw [← hdd]; exact hk) hm
    have hq' : A.length ≤ q := by
      by_contra hlt
      have h13 : q + 1 = A.length + 0 := by omega
      have h14 : ∀ j, E z j = 0 := fun j => g3 z j (by
        rw [hk, hdA, h13]
        exact hnot 0 j (Nat.zero_le _))
      have h15 := g4 z
      rw [Finset.sum_eq_zero fun j _ => h14 j] at h15
      norm_num at h15
    obtain ⟨t, rfl⟩ := Nat.exists_eq_add_of_le hq'
    have hDA : D = A ++ (rowE states symbols e z).take t ++ [y] := by
      rw [hD', hdA, List.take_append, List.take_of_length_le (by omega), Nat.add_sub_cancel_left]
    have hP : P = p := by
      funext i j
      exact g1 i j _ (by rw [hDA, List.append_assoc]; exact List.mem_append_left _ (hmemA i j))
    subst hP
    have hE1 : ∀ i j, i.val + 1 < states.length ∨ j.val < t → E i j = e i j := by
      intro i j hij
      refine g2 i j _ ?_
      rw [hDA]
      refine List.mem_append_left _ (List.mem_append.2 ?_)
      by_cases hi : i.val + 1 < states.length
      · exact Or.inl (hmemE i j hi)
      · have hi' := hlast i (by have := i.isLt; omega)
        subst hi'
        right
        unfold rowE
        rw [← List.map_take]
        exact List.mem_map.2 ⟨j, (mem_take_finRange t j).2 (hij.resolve_left hi), rfl⟩
    refine ⟨E, t, rfl, hE1, fun i j hi hj => ?_, g4, fun hl => absurd hl hnl⟩
    rw [hlast i hi]
    refine g3 z j ?_
    rw [hk, hdA]
    exact hnot (t + 1) j hj

/-! ## A truncated file that is read as another model -/

/-- Conversion of a nonnegative decimal number that may have a negative exponent, as by Python's `float`. -/
def parseScientific (s : String) : Option ℚ :=
  match pieces (fun c => decide (c = 'e')) s.toList with
  | [a] => parseDecimal (String.ofList a)
  | [a, '-' :: b] =>
    if b = [] then none
    else (parseDecimal (String.ofList a)).bind fun x => (digits b).map fun n => x / 10 ^ n
  | _ => none

/-- The transition matrix of `exFaint`. -/
def exFaintP : Matrix (Fin 2) (Fin 2) ℚ := fun _ _ => 1 / 2

/-- The emission matrix of `exFaint`. -/
def exFaintE : Matrix (Fin 2) (Fin 2) ℚ := fun i j =>
  if i = 0 then 1 / 2 else (if j = 0 then 1 / 10 ^ 10 else 1 - 1 / 10 ^ 10)

/-- A model with an unlikely symbol. -/
def exFaint : HMM ℚ := ⟨2, 2, exFaintP, exFaintE, ["a", "b"], ["x", "y"]⟩

/-- The strings of its probabilities. -/
def exFaintFmt (x : ℚ) : String :=
  if x = 1 / 2 then "0.5" else if x = 1 / 10 ^ 10 then "1e-10" else "0.9999999999"

theorem exFaint_valid : exFaint.Valid := by
  have h1 : ∀ i j : Fin 2, 0 ≤ exFaintP i j := by
    intro i j
    fin_cases i <;> fin_cases j <;> decide +kernel
  have h2 : ∀ i : Fin 2, ∑ j, exFaintP i j = 1 := by decide +kernel
  have h3 : ∀ i j : Fin 2, 0 ≤ exFaintE i j := by
    intro i j
    fin_cases i <;> fin_cases j <;> decide +kernel
  have h4 : ∀ i : Fin 2, ∑ j, exFaintE i j = 1 := by decide +kernel
  exact ⟨le_refl 2, le_refl 2, ⟨h1, h2⟩, ⟨h3, h4⟩, ⟨rfl, by decide, by decide⟩, ⟨rfl, by decide, by decide⟩,
    List.disjoint_left.2 (by decide)⟩

theorem exFaint_printed : (∀ i j : Fin 2, Printed exFaintFmt parseScientific (exFaintP i j)) ∧
    ∀ i j : Fin 2, Printed exFaintFmt parseScientific (exFaintE i j) := by
  unfold Printed Solid
  constructor <;> decide +kernel

theorem exFaint_solid : (∀ s ∈ exFaint.states, Solid s) ∧ ∀ s ∈ exFaint.symbols, Solid s := by
  unfold Solid
  constructor <;> decide +kernel

/-- C164 is false: the last but one line of this file ends with `1e-10`. If the file ends after the first digit of this
number, then the model that is read emits the symbol `x`, which has the probability `1e-10` in the model that was
written, with probability one. -/
theorem C164_other_model : exFaint.Valid ∧
    writeTxt exFaintFmt (hmmToDictionary exFaint) = ("P a a 0.5\nP a b 0.5\nE a x 0.5\nE a y 0.5\n" ++
      "P b a 0.5\nP b b 0.5\nE b x 1e-10\nE b y 0.9999999999\n").toList ∧
    ((hmmFromFile parseScientific (.txt ("P a a 0.5\nP a b 0.5\nE a x 0.5\nE a y 0.5\n" ++
      "P b a 0.5\nP b b 0.5\nE b x 1").toList)).map
      fun m => m.e.mulVec (fun j => if j.val = 0 then 1 else 0) |> List.ofFn).toOption = some [1 / 2, 1] :=
  ⟨exFaint_valid, by decide +kernel, by decide +kernel⟩

/-- C164: the transition probabilities and labels of any truncation of this file that is accepted are right. -/
theorem C164_instance {l : List Char} (hl : l <+: writeTxt exFaintFmt (hmmToDictionary exFaint)) {m : HMM ℚ}
    (h : hmmFromFile parseScientific (.txt l) = .ok m) : m.states = ["a", "b"] ∧ m.symbols = ["x", "y"] := by
  obtain ⟨E, t, rfl, -⟩ := C164_truncated_partial exFaint exFaint_valid exFaintFmt parseScientific exFaint_solid.1
    exFaint_solid.2 exFaint_printed.1 exFaint_printed.2 hl h
  exact ⟨rfl, rfl⟩

/-- C164: a file that ends with the transition probabilities is rejected. -/
theorem C164_missing_row :
    (hmmFromFile parseScientific (.txt ("P a a 0.5\nP a b 0.5\nE a x 0.5\nE a y 0.5\n" ++
      "P b a 0.5\nP b b 0.5\n").toList)).toOption.isNone = true := by decide +kernel

end Verif
