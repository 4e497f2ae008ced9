import Verif.Model.Serial
import Verif.Spec.Serial
import Verif.Lemmas.Generators
import Mathlib.Data.List.ProdSigma
import Mathlib.Data.List.FinRange

/-!
# Lemmas about dictionaries
-/

set_option linter.unusedSectionVars false

namespace Verif

variable {K : Type}

theorem dictSet_new {d : PyDict K} {k : List String} (h : k ∉ d.map Prod.fst) (v : K) :
    dictSet d k v = d ++ [(k, v)] := by
  unfold dictSet
  rw [if_neg]
  simp only [List.any_eq_true, decide_eq_true_eq, not_exists, not_and]
  intro x hx hk
  exact h (List.mem_map.2 ⟨x, hx, hk⟩)

theorem dictOf_nodup (items : List (List String × K)) (h : (items.map Prod.fst).Nodup) :
    dictOf items = items := by
  induction items using List.reverseRecOn with
  | nil => rfl
  | append_singleton l x ih =>
    rw [List.map_append, List.map_singleton, List.nodup_append] at h
    have e : dictOf (l ++ [x]) = dictSet (dictOf l) x.1 x.2 := by
      unfold dictOf
      rw [List.foldl_append]
      rfl
    rw [e, ih h.1, dictSet_new]
    intro hx
    exact h.2.2 _ hx _ (List.mem_singleton.2 rfl) rfl

/-! ## Matrices -/

section
variable [Field K] [LinearOrder K]

theorem setEntry_ok {rows columns : List String}
    {M N : Matrix (Fin rows.length) (Fin columns.length) K} {a b : String} {v : K} :
    setEntry rows columns M a b v = .ok N ↔ (a ∈ rows ∧ b ∈ columns) ∧
      updateEntry rows columns M a b v = N := by
  unfold setEntry
  by_cases h : a ∈ rows ∧ b ∈ columns
  · rw [if_pos h, R.pure_ok]
    exact ⟨fun e => ⟨h, e⟩, fun e => e.2⟩
  · rw [if_neg h]
    constructor
    · intro e; cases e
    · intro e; exact absurd e.1 h

theorem setEntry_run {rows columns : List String}
    (M : Matrix (Fin rows.length) (Fin columns.length) K) {a b : String} (v : K)
    (ha : a ∈ rows) (hb : b ∈ columns) :
    setEntry rows columns M a b v = .ok (updateEntry rows columns M a b v) :=
  setEntry_ok.2 ⟨⟨ha, hb⟩, rfl⟩

theorem idxOf_get {l : List String} (hl : l.Nodup) (i : Fin l.length) (a : String) (ha : a ∈ l) :
    (i : ℕ) = l.idxOf a ↔ l[i.val] = a := by
  constructor
  · intro h
    simp only [h]
    exact List.getElem_idxOf (List.idxOf_lt_length_iff.2 ha)
  · rintro rfl
    exact (hl.idxOf_getElem i.val i.isLt).symm

theorem updateEntry_same {rows columns : List String} (hr : rows.Nodup) (hc : columns.Nodup)
    (M : Matrix (Fin rows.length) (Fin columns.length) K) (i : Fin rows.length)
    (j : Fin columns.length) (v : K) :
    updateEntry rows columns M rows[i.val] columns[j.val] v i j = v :=
  if_pos ⟨(idxOf_get hr i _ (List.getElem_mem _)).2 rfl, (idxOf_get hc j _ (List.getElem_mem _)).2 rfl⟩

theorem updateEntry_other {rows columns : List String} (hr : rows.Nodup) (hc : columns.Nodup)
    (M : Matrix (Fin rows.length) (Fin columns.length) K) (i : Fin rows.length)
    (j : Fin columns.length) {a b : String} (v : K) (ha : a ∈ rows) (hb : b ∈ columns)
    (h : ¬ (rows[i.val] = a ∧ columns[j.val] = b)) :
    updateEntry rows columns M a b v i j = M i j := by
  refine if_neg ?_
  rintro ⟨hi, hj⟩
  exact h ⟨(idxOf_get hr i _ ha).1 hi, (idxOf_get hc j _ hb).1 hj⟩

/-- Filling a matrix from items with distinct keys. -/
theorem dictMatrix_fill {states : List String} (hs : states.Nodup) (d : PyDict K)
    (M : Matrix (Fin states.length) (Fin states.length) K)
    (hm : ∀ x ∈ d, ∃ a ∈ states, ∃ b ∈ states, x.1 = [a, b])
    (hn : (d.map Prod.fst).Nodup) :
    ∃ N : Matrix (Fin states.length) (Fin states.length) K,
      d.foldlM (fun M x =>
        match x.1 with
        | [a, b] => setEntry states states M a b x.2
        | _ => throw .valueError) M = (.ok N : R _) ∧
      (∀ i j v, ([states[i.val], states[j.val]], v) ∈ d → N i j = v) ∧
      ∀ i j, [states[i.val], states[j.val]] ∉ d.map Prod.fst → N i j = M i j := by
  induction d generalizing M with
  | nil => exact ⟨M, rfl, fun i j v h => (List.not_mem_nil h).elim, fun i j _ => rfl⟩
  | cons x d ih =>
    obtain ⟨k, v⟩ := x
    rw [List.map_cons, List.nodup_cons] at hn
    obtain ⟨a, ha, b, hb, hk⟩ := hm _ List.mem_cons_self
    change k = [a, b] at hk
    subst hk
    obtain ⟨N, h1, h2, h3⟩ := ih (updateEntry states states M a b v)
      (fun y hy => hm y (List.mem_cons_of_mem _ hy)) hn.2
    refine ⟨N, ?_, ?_, ?_⟩
    · rw [List.foldlM_cons]
      refine (congrArg (· >>= _) (setEntry_run M v ha hb)).trans ?_
      exact h1
    · intro i j w h
      rcases List.mem_cons.1 h with h | h
      · injection h with e1 e2
        injection e1 with e3 e4
        injection e4 with e4 _
        subst e2 e3 e4
        refine (h3 i j hn.1).trans ?_
        exact updateEntry_same hs hs M i j w
      · exact h2 i j w h
    · intro i j h
      rw [List.map_cons, List.mem_cons, not_or] at h
      refine (h3 i j h.2).trans ?_
      refine updateEntry_other hs hs M i j v ha hb ?_
      rintro ⟨e1, e2⟩
      exact h.1 (by rw [e1, e2])

/-- Filling the matrices of a hidden Markov model from items with distinct keys. -/
theorem dictMatrices_fill {states symbols : List String} (hs : states.Nodup) (hy : symbols.Nodup)
    (d : PyDict K) (M : Matrix (Fin states.length) (Fin states.length) K)
    (L : Matrix (Fin states.length) (Fin symbols.length) K)
    (hm : ∀ x ∈ d, ∃ a ∈ states,
      (∃ b ∈ states, x.1 = ["P", a, b]) ∨ ∃ b ∈ symbols, x.1 = ["E", a, b])
    (hn : (d.map Prod.fst).Nodup) :
    ∃ N : Matrix (Fin states.length) (Fin states.length) K ×
        Matrix (Fin states.length) (Fin symbols.length) K,
      d.foldlM (fun M x =>
        match x.1 with
        | [r, a, b] =>
          if r = "E" then setEntry states symbols M.2 a b x.2 >>= fun E => pure (M.1, E)
          else setEntry states states M.1 a b x.2 >>= fun P => pure (P, M.2)
        | _ => throw .valueError) (M, L) = (.ok N : R _) ∧
      (∀ i j v, (["P", states[i.val], states[j.val]], v) ∈ d → N.1 i j = v) ∧
      (∀ i j, ["P", states[i.val], states[j.val]] ∉ d.map Prod.fst → N.1 i j = M i j) ∧
      (∀ i j v, (["E", states[i.val], symbols[j.val]], v) ∈ d → N.2 i j = v) ∧
      ∀ i j, ["E", states[i.val], symbols[j.val]] ∉ d.map Prod.fst → N.2 i j = L i j := by
  induction d generalizing M L with
  | nil => exact ⟨(M, L), rfl, fun i j v h => (List.not_mem_nil h).elim, fun i j _ => rfl,
      fun i j v h => (List.not_mem_nil h).elim, fun i j _ => rfl⟩
  | cons x d ih =>
    obtain ⟨k, v⟩ := x
    rw [List.map_cons, List.nodup_cons] at hn
    obtain ⟨a, ha, ⟨b, hb, hk⟩ | ⟨b, hb, hk⟩⟩ := hm _ List.mem_cons_self
    · change k = ["P", a, b] at hk
      subst hk
      obtain ⟨N, h1, h2, h3, h4, h5⟩ := ih (updateEntry states states M a b v) L
        (fun y hy => hm y (List.mem_cons_of_mem _ hy)) hn.2
      refine ⟨N, ?_, ?_, ?_, ?_, ?_⟩
      · rw [List.foldlM_cons]
        refine (congrArg (· >>= _) ((if_neg (by decide)).trans
          (congrArg (· >>= _) (setEntry_run M v ha hb)))).trans ?_
        exact h1
      · intro i j w h
        rcases List.mem_cons.1 h with h | h
        · injection h with e1 e2
          injection e1 with _ e3
          injection e3 with e3 e4
          injection e4 with e4 _
          subst e2 e3 e4
          refine (h3 i j hn.1).trans ?_
          exact updateEntry_same hs hs M i j w
        · exact h2 i j w h
      · intro i j h
        rw [List.map_cons, List.mem_cons, not_or] at h
        refine (h3 i j h.2).trans ?_
        refine updateEntry_other hs hs M i j v ha hb ?_
        rintro ⟨e1, e2⟩
        exact h.1 (by rw [e1, e2])
      · intro i j w h
        rcases List.mem_cons.1 h with h | h
        · injection h with e1 e2
          injection e1 with e3 _
          exact absurd e3 (by decide)
        · exact h4 i j w h
      · intro i j h
        rw [List.map_cons, List.mem_cons, not_or] at h
        exact h5 i j h.2
    · change k = ["E", a, b] at hk
      subst hk
      obtain ⟨N, h1, h2, h3, h4, h5⟩ := ih M (updateEntry states symbols L a b v)
        (fun y hy => hm y (List.mem_cons_of_mem _ hy)) hn.2
      refine ⟨N, ?_, ?_, ?_, ?_, ?_⟩
      · rw [List.foldlM_cons]
        refine (congrArg (· >>= _) ((if_pos rfl).trans
          (congrArg (· >>= _) (setEntry_run L v ha hb)))).trans ?_
        exact h1
      · intro i j w h
        rcases List.mem_cons.1 h with h | h
        · injection h with e1 e2
          injection e1 with e3 _
          exact absurd e3 (by decide)
        · exact h2 i j w h
      · intro i j h
        rw [List.map_cons, List.mem_cons, not_or] at h
        exact h3 i j h.2
      · intro i j w h
        rcases List.mem_cons.1 h with h | h
        · injection h with e1 e2
          injection e1 with _ e3
          injection e3 with e3 e4
          injection e4 with e4 _
          subst e2 e3 e4
          refine (h5 i j hn.1).trans ?_
          exact updateEntry_same hs hy L i j w
        · exact h4 i j w h
      · intro i j h
        rw [List.map_cons, List.mem_cons, not_or] at h
        refine (h5 i j h.2).trans ?_
        refine updateEntry_other hs hy L i j v ha hb ?_
        rintro ⟨e1, e2⟩
        exact h.1 (by rw [e1, e2])

end

/-! ## The items of a chain -/

section Items

variable (states : List String) (p : Matrix (Fin states.length) (Fin states.length) K)

theorem getD_fin (i : Fin states.length) : states.getD i.val "" = states[i.val] := by
  simp [List.getD_eq_getElem?_getD]

theorem mcItems_eq : mcItems ⟨states.length, p, states⟩ =
    ((List.finRange states.length) ×ˢ (List.finRange states.length)).map
      fun x => ([states[x.1.val], states[x.2.val]], p x.1 x.2) := by
  unfold mcItems SProd.sprod List.instSProd List.product
  rw [List.map_flatMap]
  simp only [List.map_map, Function.comp_def, getD_fin]

theorem mem_mcItems {x : List String × K} : x ∈ mcItems ⟨states.length, p, states⟩ ↔
    ∃ i j, x = ([states[i.val], states[j.val]], p i j) := by
  rw [mcItems_eq, List.mem_map]
  constructor
  · rintro ⟨⟨i, j⟩, _, rfl⟩; exact ⟨i, j, rfl⟩
  · rintro ⟨i, j, rfl⟩
    exact ⟨(i, j), List.mem_product.2 ⟨List.mem_finRange i, List.mem_finRange j⟩, rfl⟩

theorem getElem_fin_inj {l : List String} (h : l.Nodup) {i j : Fin l.length}
    (e : l[i.val] = l[j.val]) : i = j :=
  Fin.ext ((List.Nodup.getElem_inj_iff h).1 e)

theorem mcItems_nodup (hs : states.Nodup) :
    ((mcItems ⟨states.length, p, states⟩).map Prod.fst).Nodup := by
  rw [mcItems_eq, List.map_map]
  refine List.Nodup.map ?_ (List.Nodup.product (List.nodup_finRange _) (List.nodup_finRange _))
  rintro ⟨i, j⟩ ⟨i', j'⟩ e
  injection e with e1 e2
  injection e2 with e2 _
  exact Prod.ext (getElem_fin_inj hs e1) (getElem_fin_inj hs e2)

theorem filterMap_single {α β : Type} [DecidableEq α] (f : α → β) (a : α) (l : List α) (hn : l.Nodup)
    (ha : a ∈ l) : l.filterMap (fun b => if a = b then some (f a) else none) = [f a] := by
  induction l with
  | nil => exact (List.not_mem_nil ha).elim
  | cons b l ih =>
    rw [List.nodup_cons] at hn
    by_cases h : a = b
    · subst h
      rw [List.filterMap_cons_some (by rw [if_pos rfl])]
      congr 1
      rw [List.filterMap_eq_nil_iff]
      intro c hc
      exact if_neg fun e : a = c => hn.1 (e ▸ hc)
    · rw [List.filterMap_cons_none (by rw [if_neg h])]
      exact ih hn.2 ((List.mem_cons.1 ha).resolve_left h)

theorem map_getElem_finRange : (List.finRange states.length).map (fun i => states[i.val]) = states := by
  refine List.ext_getElem (by simp) fun i h1 h2 => ?_
  simp

variable [Field K] [LinearOrder K] [IsStrictOrderedRing K]

theorem dictStates_mcItems (hs : states.Nodup) :
    dictStates (mcItems ⟨states.length, p, states⟩) = states := by
  unfold dictStates mcItems
  rw [List.filterMap_flatMap]
  refine (List.flatMap_congr fun i _ => ?_ :
    _ = (List.finRange states.length).flatMap fun i => [states[i.val]]).trans ?_
  · rw [List.filterMap_map]
    refine (List.filterMap_congr fun j _ => ?_).trans
      (filterMap_single (fun i : Fin states.length => states[i.val]) i _ (List.nodup_finRange _)
        (List.mem_finRange i))
    simp only [Function.comp_apply, getD_fin]
    by_cases h : i = j
    · subst h
      rw [if_pos rfl, if_pos rfl]
    · rw [if_neg h, if_neg fun e => h (getElem_fin_inj hs e)]
  · refine Eq.trans ?_ (map_getElem_finRange states)
    rw [List.flatMap_def]
    induction List.finRange states.length with
    | nil => rfl
    | cons a l ih => rw [List.map_cons, List.flatten_cons, ih]; rfl

theorem dictMatrix_mcItems (hs : states.Nodup) :
    dictMatrix states (mcItems ⟨states.length, p, states⟩) = .ok p := by
  obtain ⟨N, h1, h2, -⟩ := dictMatrix_fill hs (mcItems ⟨states.length, p, states⟩) 0
    (by
      intro x hx
      obtain ⟨i, j, rfl⟩ := (mem_mcItems states p).1 hx
      exact ⟨_, List.getElem_mem _, _, List.getElem_mem _, rfl⟩)
    (mcItems_nodup states p hs)
  refine h1.trans (congrArg Except.ok ?_)
  funext i j
  exact h2 i j _ ((mem_mcItems states p).2 ⟨i, j, rfl⟩)

theorem allclose_one {n : ℕ} {f : Fin n → K} :
    allcloseVec f (fun _ => 1) = true ↔ ∀ i, |f i - 1| ≤ 1 / 10 ^ 8 + 1 / 10 ^ 5 := by
  unfold allcloseVec isclose
  simp only [decide_eq_true_eq, abs_one, mul_one]

theorem finishChain_ok {M : Matrix (Fin states.length) (Fin states.length) K} {c : MC K} :
    finishChain states M = .ok c ↔
      (∀ i, |∑ j, M i j - 1| ≤ 1 / 10 ^ 8 + 1 / 10 ^ 5) ∧ ⟨states.length, M, states⟩ = c := by
  unfold finishChain
  by_cases h : allcloseVec (fun i => ∑ j, M i j) (fun _ => 1) = true
  · refine (iff_of_eq (congrArg (· = _) (if_neg (not_not.2 h)))).trans ?_
    rw [R.pure_ok]
    exact ⟨fun e => ⟨allclose_one.1 h, e⟩, fun e => e.2⟩
  · refine (iff_of_eq (congrArg (· = _) (if_pos h))).trans ?_
    constructor
    · intro e; cases e
    · intro e; exact absurd (allclose_one.2 e.1) h

theorem chainOfDict_ok {d : PyDict K} {c : MC K} : chainOfDict d = .ok c ↔
    2 ≤ (dictStates d).length ∧
      ∃ M : Matrix (Fin (dictStates d).length) (Fin (dictStates d).length) K,
      dictMatrix (dictStates d) d = .ok M ∧
      (∀ i, |∑ j, M i j - 1| ≤ 1 / 10 ^ 8 + 1 / 10 ^ 5) ∧
      ⟨(dictStates d).length, M, dictStates d⟩ = c := by
  unfold chainOfDict
  simp only [R.ite_throw, R.bind_ok, finishChain_ok, not_lt]

theorem chainOfDict_of {d : PyDict K} (h1 : dictStates d = states)
    (h2 : dictMatrix states d = .ok p) (h3 : 2 ≤ states.length)
    (h4 : ∀ i, |∑ j, p i j - 1| ≤ 1 / 10 ^ 8 + 1 / 10 ^ 5) :
    chainOfDict d = .ok ⟨states.length, p, states⟩ := by
  subst h1
  exact chainOfDict_ok.2 ⟨h3, p, h2, h4, rfl⟩

end Items

theorem mcToDictionary_eq (c : MC K) (hl : c.states.length = c.n) (hs : c.states.Nodup) :
    mcToDictionary c = mcItems c := by
  obtain ⟨n, p, states⟩ := c
  change states.length = n at hl
  subst hl
  exact dictOf_nodup _ (mcItems_nodup states p hs)

section
variable [Field K] [LinearOrder K] [IsStrictOrderedRing K]

theorem chainOfDict_items (c : MC K) (h : c.Accepted) : chainOfDict (mcItems c) = .ok c := by
  obtain ⟨n, p, states⟩ := c
  obtain ⟨h1, -, h3, h4, h5, -⟩ := h
  change states.length = n at h4
  subst h4
  exact chainOfDict_of states p (dictStates_mcItems states p h5) (dictMatrix_mcItems states p h5) h1 h3

end

/-! ## The items of a hidden Markov model -/

section HmmItems

variable (states symbols : List String) (p : Matrix (Fin states.length) (Fin states.length) K)
  (e : Matrix (Fin states.length) (Fin symbols.length) K)

/-- The item of a row and of a column of one of the two matrices. -/
def hmmItem (x : Fin states.length × (Fin states.length ⊕ Fin symbols.length)) : List String × K :=
  match x.2 with
  | .inl j => (["P", states[x.1.val], states[j.val]], p x.1 j)
  | .inr j => (["E", states[x.1.val], symbols[j.val]], e x.1 j)

theorem hmmItems_eq : hmmItems ⟨states.length, symbols.length, p, e, states, symbols⟩ =
    ((List.finRange states.length) ×ˢ ((List.finRange states.length).map Sum.inl ++
      (List.finRange symbols.length).map Sum.inr)).map (hmmItem states symbols p e) := by
  unfold hmmItems SProd.sprod List.instSProd List.product
  rw [List.map_flatMap]
  simp only [List.map_map, List.map_append, Function.comp_def, getD_fin, hmmItem]

theorem mem_hmmItems {x : List String × K} :
    x ∈ hmmItems ⟨states.length, symbols.length, p, e, states, symbols⟩ ↔
    (∃ i j, x = (["P", states[i.val], states[j.val]], p i j)) ∨
      ∃ i j, x = (["E", states[i.val], symbols[j.val]], e i j) := by
  rw [hmmItems_eq, List.mem_map]
  constructor
  · rintro ⟨⟨i, j | j⟩, _, rfl⟩
    · exact Or.inl ⟨i, j, rfl⟩
    · exact Or.inr ⟨i, j, rfl⟩
  · rintro (⟨i, j, rfl⟩ | ⟨i, j, rfl⟩)
    · exact ⟨(i, .inl j), List.mem_product.2 ⟨List.mem_finRange i, List.mem_append_left _
        (List.mem_map.2 ⟨j, List.mem_finRange j, rfl⟩)⟩, rfl⟩
    · exact ⟨(i, .inr j), List.mem_product.2 ⟨List.mem_finRange i, List.mem_append_right _
        (List.mem_map.2 ⟨j, List.mem_finRange j, rfl⟩)⟩, rfl⟩

theorem hmmItems_nodup (hs : states.Nodup) (hy : symbols.Nodup) :
    ((hmmItems ⟨states.length, symbols.length, p, e, states, symbols⟩).map Prod.fst).Nodup := by
  rw [hmmItems_eq, List.map_map]
  refine List.Nodup.map ?_ (List.Nodup.product (List.nodup_finRange _) ?_)
  · rintro ⟨i, j | j⟩ ⟨i', j' | j'⟩ h
    · injection h with _ h
      injection h with h1 h
      injection h with h2 _
      exact Prod.ext (getElem_fin_inj hs h1) (congrArg Sum.inl (getElem_fin_inj hs h2))
    · injection h with h _
      exact absurd h (by decide)
    · injection h with h _
      exact absurd h (by decide)
    · injection h with _ h
      injection h with h1 h
      injection h with h2 _
      exact Prod.ext (getElem_fin_inj hs h1) (congrArg Sum.inr (getElem_fin_inj hy h2))
  · refine List.nodup_append.2 ⟨(List.nodup_finRange _).map Sum.inl_injective,
      (List.nodup_finRange _).map Sum.inr_injective, ?_⟩
    intro a ha b hb hab
    obtain ⟨i, -, rfl⟩ := List.mem_map.1 ha
    obtain ⟨j, -, rfl⟩ := List.mem_map.1 hb
    cases hab

theorem flatMap_single {α β : Type} [DecidableEq α] (f : List β) (a : α) (l : List α) (hn : l.Nodup)
    (ha : a ∈ l) : l.flatMap (fun b => if a = b then f else []) = f := by
  induction l with
  | nil => exact (List.not_mem_nil ha).elim
  | cons b l ih =>
    rw [List.nodup_cons] at hn
    rw [List.flatMap_cons]
    by_cases h : a = b
    · subst h
      rw [if_pos rfl]
      have : l.flatMap (fun b => if a = b then f else []) = [] := by
        rw [List.flatMap_eq_nil_iff]
        intro c hc
        exact if_neg fun e : a = c => hn.1 (e ▸ hc)
      rw [this, List.append_nil]
    · rw [if_neg h, List.nil_append]
      exact ih hn.2 ((List.mem_cons.1 ha).resolve_left h)

variable [Field K] [LinearOrder K] [IsStrictOrderedRing K]

theorem dictHmmStates_items (hs : states.Nodup) :
    dictHmmStates (hmmItems ⟨states.length, symbols.length, p, e, states, symbols⟩) = states := by
  unfold dictHmmStates hmmItems
  rw [List.filterMap_flatMap]
  refine (List.flatMap_congr fun i _ => ?_ :
    _ = (List.finRange states.length).flatMap fun i => [states[i.val]]).trans ?_
  · rw [List.filterMap_append, List.filterMap_map, List.filterMap_map]
    have h2 : (List.finRange symbols.length).filterMap
        ((fun x : List String × K => match x.1 with
          | [r, a, b] => if r = "P" ∧ a = b then some a else none
          | _ => none) ∘ fun j : Fin symbols.length =>
            (["E", states.getD i.val "", symbols.getD j.val ""], e i j)) = [] := by
      rw [List.filterMap_eq_nil_iff]
      intro j _
      exact if_neg (t := some (states.getD i.val "")) fun h : "E" = "P" ∧
          states.getD i.val "" = symbols.getD j.val "" =>
          absurd h.1 (by decide)
    refine (congrArg (_ ++ ·) h2).trans ?_
    rw [List.append_nil]
    refine (List.filterMap_congr fun j _ => ?_).trans
      (filterMap_single (fun i : Fin states.length => states[i.val]) i _ (List.nodup_finRange _)
        (List.mem_finRange i))
    simp only [Function.comp_apply, getD_fin]
    by_cases h : i = j
    · subst h
      rw [if_pos rfl, if_pos ⟨trivial, rfl⟩]
    · rw [if_neg h, if_neg fun e => h (getElem_fin_inj hs e.2)]
  · refine Eq.trans ?_ (map_getElem_finRange states)
    rw [List.flatMap_def]
    induction List.finRange states.length with
    | nil => rfl
    | cons a l ih => rw [List.map_cons, List.flatten_cons, ih]; rfl

theorem dictHmmSymbols_items (hs : states.Nodup) (h0 : 2 ≤ states.length) :
    dictHmmSymbols (states.headD "")
      (hmmItems ⟨states.length, symbols.length, p, e, states, symbols⟩) = symbols := by
  have hh : states.headD "" = states[(⟨0, by omega⟩ : Fin states.length).val] := by
    cases states with
    | nil => simp at h0
    | cons a l => rfl
  unfold dictHmmSymbols hmmItems
  rw [List.filterMap_flatMap]
  refine (List.flatMap_congr fun i _ => ?_ :
    _ = (List.finRange states.length).flatMap fun i =>
      if (⟨0, by omega⟩ : Fin states.length) = i then symbols else []).trans ?_
  · rw [List.filterMap_append, List.filterMap_map, List.filterMap_map]
    have h2 : (List.finRange states.length).filterMap
        ((fun x : List String × K => match x.1 with
          | [r, a, b] => if r = "E" ∧ a = states.headD "" then some b else none
          | _ => none) ∘ fun j : Fin states.length =>
            (["P", states.getD i.val "", states.getD j.val ""], p i j)) = [] := by
      rw [List.filterMap_eq_nil_iff]
      intro j _
      exact if_neg (t := some (states.getD j.val "")) fun h : "P" = "E" ∧
          states.getD i.val "" = states.headD "" =>
          absurd h.1 (by decide)
    refine (congrArg (· ++ _) h2).trans ?_
    rw [List.nil_append]
    by_cases h : (⟨0, by omega⟩ : Fin states.length) = i
    · rw [if_pos h]
      refine Eq.trans ?_ (map_getElem_finRange symbols)
      rw [← List.filterMap_eq_map']
      refine List.filterMap_congr fun j _ => ?_
      have e1 : states.getD i.val "" = states.headD "" := by
        subst h
        rw [getD_fin, hh]
      refine (if_pos (show "E" = "E" ∧ states.getD i.val "" = states.headD "" from ⟨rfl, e1⟩)).trans ?_
      exact congrArg some (getD_fin symbols j)
    · rw [if_neg h, List.filterMap_eq_nil_iff]
      intro j _
      refine if_neg fun hj => h ?_
      have := hj.2
      rw [getD_fin, hh] at this
      exact (getElem_fin_inj hs this).symm
  · exact flatMap_single symbols _ _ (List.nodup_finRange _) (List.mem_finRange _)

theorem dictMatrices_items (hs : states.Nodup) (hy : symbols.Nodup) :
    dictMatrices states symbols (hmmItems ⟨states.length, symbols.length, p, e, states, symbols⟩) =
      .ok (p, e) := by
  obtain ⟨N, h1, h2, -, h4, -⟩ := dictMatrices_fill hs hy
    (hmmItems ⟨states.length, symbols.length, p, e, states, symbols⟩) 0 0
    (by
      intro x hx
      rcases (mem_hmmItems states symbols p e).1 hx with ⟨i, j, rfl⟩ | ⟨i, j, rfl⟩
      · exact ⟨_, List.getElem_mem _, Or.inl ⟨_, List.getElem_mem _, rfl⟩⟩
      · exact ⟨_, List.getElem_mem _, Or.inr ⟨_, List.getElem_mem _, rfl⟩⟩)
    (hmmItems_nodup states symbols p e hs hy)
  refine h1.trans (congrArg Except.ok (Prod.ext ?_ ?_))
  · funext i j
    exact h2 i j _ ((mem_hmmItems states symbols p e).2 (Or.inl ⟨i, j, rfl⟩))
  · funext i j
    exact h4 i j _ ((mem_hmmItems states symbols p e).2 (Or.inr ⟨i, j, rfl⟩))

theorem modelOfDict_of {d : PyDict K} (h1 : dictHmmStates d = states)
    (h1' : dictHmmSymbols (states.headD "") d = symbols)
    (h2 : dictMatrices states symbols d = .ok (p, e)) (h3 : 2 ≤ states.length)
    (h3' : 2 ≤ symbols.length) (h4 : ∀ i, |∑ j, p i j - 1| ≤ 1 / 10 ^ 8 + 1 / 10 ^ 5)
    (h5 : ∀ i, |∑ j, e i j - 1| ≤ 1 / 10 ^ 8 + 1 / 10 ^ 5) (h6 : List.Disjoint states symbols) :
    modelOfDict d = .ok ⟨states.length, symbols.length, p, e, states, symbols⟩ := by
  subst h1
  subst h1'
  unfold modelOfDict
  refine (if_neg (by omega)).trans ?_
  refine (if_neg (by omega)).trans ?_
  rw [h2, R.ok_bind, if_neg, if_neg, if_neg]
  · rfl
  · rw [List.any_eq_true]
    rintro ⟨x, hx, hx'⟩
    exact h6 hx (of_decide_eq_true hx')
  · rw [not_not]
    exact allclose_one.2 h5
  · rw [not_not]
    exact allclose_one.2 h4

end HmmItems

theorem hmmToDictionary_eq (m : HMM K) (hl : m.states.length = m.n) (hk : m.symbols.length = m.k)
    (hs : m.states.Nodup) (hy : m.symbols.Nodup) : hmmToDictionary m = hmmItems m := by
  obtain ⟨n, k, p, e, states, symbols⟩ := m
  change states.length = n at hl
  change symbols.length = k at hk
  subst hl hk
  exact dictOf_nodup _ (hmmItems_nodup states symbols p e hs hy)

section
variable [Field K] [LinearOrder K] [IsStrictOrderedRing K]

theorem modelOfDict_items (m : HMM K) (h : m.Accepted) : modelOfDict (hmmItems m) = .ok m := by
  obtain ⟨n, k, p, e, states, symbols⟩ := m
  obtain ⟨h1, h2, -, -, h3, h4, ⟨h5, h6, -⟩, ⟨h7, h8, -⟩, h9⟩ := h
  change states.length = n at h5
  change symbols.length = k at h7
  subst h5 h7
  exact modelOfDict_of states symbols p e (dictHmmStates_items states symbols p e h6)
    (dictHmmSymbols_items states symbols p e h6 h1) (dictMatrices_items states symbols p e h6 h8)
    h1 h2 h3 h4 h9

end

end Verif
