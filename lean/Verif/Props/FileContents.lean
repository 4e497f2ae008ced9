import Verif.Spec.Files
import Verif.Props.Dictionary
import Mathlib.Tactic.FinCases

/-!
# Files that were not written by the library (C100)
-/

set_option linter.unusedSectionVars false

namespace Verif

open Finset

variable {K : Type}

/-! ## Dictionaries filled item by item -/

theorem mem_dictSet {d : PyDict K} {k : List String} {v : K} {x : List String × K} :
    x ∈ dictSet d k v ↔ x = (k, v) ∨ (x.1 ≠ k ∧ x ∈ d) := by
  unfold dictSet
  split
  · rename_i h
    rw [List.any_eq_true] at h
    obtain ⟨y, hy, hk⟩ := h
    rw [decide_eq_true_eq] at hk
    rw [List.mem_map]
    constructor
    · rintro ⟨z, hz, rfl⟩
      split
      · exact Or.inl rfl
      · rename_i hne
        exact Or.inr ⟨hne, hz⟩
    · rintro (rfl | ⟨h1, h2⟩)
      · exact ⟨y, hy, if_pos hk⟩
      · exact ⟨x, h2, if_neg h1⟩
  · rename_i h
    rw [Bool.not_eq_true, List.any_eq_false] at h
    rw [List.mem_append, List.mem_singleton]
    constructor
    · rintro (hx | rfl)
      · exact Or.inr ⟨fun e => h x hx (decide_eq_true e), hx⟩
      · exact Or.inl rfl
    · rintro (rfl | ⟨-, h2⟩)
      · exact Or.inr rfl
      · exact Or.inl h2

theorem dictSet_nodup {d : PyDict K} (hd : (d.map Prod.fst).Nodup) (k : List String) (v : K) :
    ((dictSet d k v).map Prod.fst).Nodup := by
  unfold dictSet
  split
  · rw [List.map_map]
    have : (Prod.fst ∘ fun x : List String × K => if x.1 = k then (k, v) else x) = Prod.fst := by
      funext x
      change (if x.1 = k then (k, v) else x).1 = x.1
      split
      · rename_i h
        exact h.symm
      · rfl
    rw [this]
    exact hd
  · rename_i h
    rw [Bool.not_eq_true, List.any_eq_false] at h
    rw [List.map_append, List.map_singleton]
    refine List.Nodup.append hd (List.nodup_singleton _) ?_
    rw [List.disjoint_singleton]
    intro hk
    obtain ⟨x, hx, rfl⟩ := List.mem_map.1 hk
    exact h x hx (decide_eq_true rfl)

theorem dictOf_append (l : List (List String × K)) (x : List String × K) :
    dictOf (l ++ [x]) = dictSet (dictOf l) x.1 x.2 := by
  unfold dictOf
  rw [List.foldl_append]
  rfl

theorem dictOf_keys_nodup (items : List (List String × K)) : ((dictOf items).map Prod.fst).Nodup := by
  induction items using List.reverseRecOn with
  | nil => exact List.nodup_nil
  | append_singleton l x ih =>
    rw [dictOf_append]
    exact dictSet_nodup ih _ _

/-- The dictionary has the last values. -/
theorem mem_dictOf {items : List (List String × K)} {k : List String} {v : K} :
    (k, v) ∈ dictOf items ↔ LastValue items k v := by
  unfold LastValue
  induction items using List.reverseRecOn with
  | nil =>
    constructor
    · intro h
      exact (List.not_mem_nil h).elim
    · rintro ⟨b, a, h, -⟩
      exact absurd h.symm (by simp)
  | append_singleton l x ih =>
    rw [dictOf_append, mem_dictSet]
    constructor
    · rintro (h | ⟨h1, h2⟩)
      · refine ⟨l, [], ?_, fun y hy => (List.not_mem_nil hy).elim⟩
        rw [h]
      · obtain ⟨b, a, rfl, h3⟩ := ih.1 h2
        refine ⟨b, a ++ [x], by simp, fun y hy => ?_⟩
        rcases List.mem_append.1 hy with hy | hy
        · exact h3 y hy
        · rw [List.mem_singleton.1 hy]
          exact fun e => h1 e.symm
    · rintro ⟨b, a, h, h2⟩
      rcases List.eq_nil_or_concat a with rfl | ⟨a', y, rfl⟩
      · have := List.append_inj' h rfl
        injection this.2 with this
        exact Or.inl this.symm
      · rw [List.concat_eq_append, ← List.cons_append, ← List.append_assoc] at h
        have := List.append_inj' h rfl
        injection this.2 with hy
        subst hy
        refine Or.inr ⟨fun e => h2 x (by simp) e.symm, ih.2 ⟨b, a', this.1, fun z hz => h2 z ?_⟩⟩
        simp [hz]

theorem mem_keys_dictOf {items : List (List String × K)} {k : List String} :
    k ∈ (dictOf items).map Prod.fst ↔ ∃ v, (k, v) ∈ items := by
  induction items using List.reverseRecOn with
  | nil =>
    constructor
    · intro h
      exact (List.not_mem_nil h).elim
    · rintro ⟨v, h⟩
      exact (List.not_mem_nil h).elim
  | append_singleton l x ih =>
    rw [dictOf_append, List.mem_map]
    constructor
    · rintro ⟨y, hy, rfl⟩
      rcases mem_dictSet.1 hy with rfl | ⟨-, hy⟩
      · exact ⟨x.2, by simp⟩
      · obtain ⟨v, hv⟩ := ih.1 (List.mem_map.2 ⟨y, hy, rfl⟩)
        exact ⟨v, List.mem_append_left _ hv⟩
    · rintro ⟨v, hv⟩
      by_cases hk : k = x.1
      · exact ⟨(x.1, x.2), mem_dictSet.2 (Or.inl rfl), hk.symm⟩
      · rcases List.mem_append.1 hv with hv | hv
        · obtain ⟨y, hy, rfl⟩ := List.mem_map.1 (ih.2 ⟨v, hv⟩)
          exact ⟨y, mem_dictSet.2 (Or.inr ⟨hk, hy⟩), rfl⟩
        · rw [← List.mem_singleton.1 hv] at hk
          exact absurd rfl hk

/-! ## What the matrices are filled with -/

section
variable [Field K] [LinearOrder K] [IsStrictOrderedRing K]

theorem dictMatrix_known {states : List String} {d : PyDict K}
    {M N : Matrix (Fin states.length) (Fin states.length) K}
    (h : d.foldlM (fun M x =>
        match x.1 with
        | [a, b] => setEntry states states M a b x.2
        | _ => throw .valueError) M = (.ok N : R _)) :
    ∀ x ∈ d, ∃ a ∈ states, ∃ b ∈ states, x.1 = [a, b] := by
  induction d generalizing M with
  | nil => exact fun x hx => (List.not_mem_nil hx).elim
  | cons x d ih =>
    rw [List.foldlM_cons, R.bind_ok] at h
    obtain ⟨M', h1, h2⟩ := h
    intro y hy
    rcases List.mem_cons.1 hy with rfl | hy
    · match hk : y.1, h1 with
      | [a, b], h1 =>
        obtain ⟨⟨ha, hb⟩, -⟩ := setEntry_ok.1 h1
        exact ⟨a, ha, b, hb, rfl⟩
    · exact ih h2 y hy

theorem chainOfDict_described {items : List (List String × K)} {c : MC K}
    (h : chainOfDict (dictOf items) = .ok c) : c.Checked ∧ Describes items c := by
  obtain ⟨h1, M, h2, h3, rfl⟩ := chainOfDict_ok.1 h
  have hn := dictOf_keys_nodup items
  have hs := dictStates_nodup hn
  have hk := dictMatrix_known h2
  obtain ⟨N, e1, e2, e3⟩ := dictMatrix_fill hs (dictOf items) 0 hk hn
  have e : M = N := by
    injection h2.symm.trans e1
  subst e
  refine ⟨⟨h1, rfl, hs, h3⟩, fun s => ?_, fun x hx => ?_, fun i j v hv => ?_, fun i j hm => ?_⟩
  · change s ∈ dictStates (dictOf items) ↔ _
    rw [mem_dictStates, mem_keys_dictOf]
  · obtain ⟨y, hy, e⟩ := List.mem_map.1 (mem_keys_dictOf.2 ⟨x.2, hx⟩)
    rw [← e]
    exact hk y hy
  · refine e2 i j v (mem_dictOf.2 ?_)
    rw [getD_fin, getD_fin] at hv
    exact hv
  · refine e3 i j fun hx => ?_
    obtain ⟨v, hv⟩ := mem_keys_dictOf.1 hx
    refine hm _ hv ?_
    rw [getD_fin, getD_fin]

theorem dictMatrices_known {states symbols : List String} {d : PyDict K}
    (hr : ∀ x ∈ d, x.1.head? = some "E" ∨ x.1.head? = some "P")
    {M N : Matrix (Fin states.length) (Fin states.length) K ×
      Matrix (Fin states.length) (Fin symbols.length) K}
    (h : d.foldlM (fun M x =>
        match x.1 with
        | [r, a, b] =>
          if r = "E" then setEntry states symbols M.2 a b x.2 >>= fun E => pure (M.1, E)
          else setEntry states states M.1 a b x.2 >>= fun P => pure (P, M.2)
        | _ => throw .valueError) M = (.ok N : R _)) :
    ∀ x ∈ d, ∃ a ∈ states, (∃ b ∈ states, x.1 = ["P", a, b]) ∨ ∃ b ∈ symbols, x.1 = ["E", a, b] := by
  induction d generalizing M with
  | nil => exact fun x hx => (List.not_mem_nil hx).elim
  | cons x d ih =>
    rw [List.foldlM_cons, R.bind_ok] at h
    obtain ⟨M', h1, h2⟩ := h
    intro y hy
    rcases List.mem_cons.1 hy with rfl | hy
    · have hy' := hr y List.mem_cons_self
      match hk : y.1, h1 with
      | [r, a, b], h1 =>
        rw [hk] at hy'
        simp only at h1
        by_cases he : r = "E"
        · rw [if_pos he, R.bind_ok] at h1
          obtain ⟨E, h1, -⟩ := h1
          obtain ⟨⟨ha, hb⟩, -⟩ := setEntry_ok.1 h1
          exact ⟨a, ha, Or.inr ⟨b, hb, by rw [he]⟩⟩
        · rw [if_neg he, R.bind_ok] at h1
          obtain ⟨E, h1, -⟩ := h1
          obtain ⟨⟨ha, hb⟩, -⟩ := setEntry_ok.1 h1
          refine ⟨a, ha, Or.inl ⟨b, hb, ?_⟩⟩
          rcases hy' with hy' | hy'
          · injection hy' with hy'
            exact absurd hy' he
          · injection hy' with hy'
            rw [hy']
    · exact ih (fun x hx => hr x (List.mem_cons_of_mem _ hx)) h2 y hy

theorem mem_dictHmmStates {d : PyDict K} {a : String} :
    a ∈ dictHmmStates d ↔ ["P", a, a] ∈ d.map Prod.fst := by
  unfold dictHmmStates
  rw [List.mem_filterMap, List.mem_map]
  constructor
  · rintro ⟨⟨k, v⟩, hx, h⟩
    match k, h with
    | [r, b, c], h =>
      by_cases e : r = "P" ∧ b = c
      · obtain ⟨rfl, rfl⟩ := e
        have : some b = some a := (if_pos ⟨rfl, rfl⟩).symm.trans h
        injection this with this
        subst this
        exact ⟨_, hx, rfl⟩
      · have : (none : Option String) = some a := (if_neg e).symm.trans h
        cases this
  · rintro ⟨x, hx, h⟩
    refine ⟨x, hx, ?_⟩
    rw [h]
    exact if_pos ⟨rfl, rfl⟩

theorem mem_dictHmmSymbols {d : PyDict K} {s a : String} :
    a ∈ dictHmmSymbols s d ↔ ["E", s, a] ∈ d.map Prod.fst := by
  unfold dictHmmSymbols
  rw [List.mem_filterMap, List.mem_map]
  constructor
  · rintro ⟨⟨k, v⟩, hx, h⟩
    match k, h with
    | [r, b, c], h =>
      by_cases e : r = "E" ∧ b = s
      · obtain ⟨rfl, rfl⟩ := e
        have : some c = some a := (if_pos ⟨rfl, rfl⟩).symm.trans h
        injection this with this
        subst this
        exact ⟨_, hx, rfl⟩
      · have : (none : Option String) = some a := (if_neg e).symm.trans h
        cases this
  · rintro ⟨x, hx, h⟩
    refine ⟨x, hx, ?_⟩
    rw [h]
    exact if_pos ⟨rfl, rfl⟩

/-- Selecting from distinct keys, when a selected value determines its key. -/
theorem filterMap_nodup {α β : Type} (f : List String × α → Option β) (g : β → List String)
    (hf : ∀ x b, f x = some b → x.1 = g b) {d : List (List String × α)} (h : (d.map Prod.fst).Nodup) :
    (d.filterMap f).Nodup := by
  induction d with
  | nil => exact List.nodup_nil
  | cons x d ih =>
    rw [List.map_cons, List.nodup_cons] at h
    rw [List.filterMap_cons]
    split
    · exact ih h.2
    · rename_i b hb
      refine List.nodup_cons.2 ⟨fun hm => ?_, ih h.2⟩
      obtain ⟨y, hy, hyb⟩ := List.mem_filterMap.1 hm
      refine h.1 ?_
      rw [hf x b hb, ← hf y b hyb]
      exact List.mem_map.2 ⟨y, hy, rfl⟩

theorem dictHmmStates_nodup {d : PyDict K} (h : (d.map Prod.fst).Nodup) : (dictHmmStates d).Nodup := by
  refine filterMap_nodup _ (fun b => ["P", b, b]) ?_ h
  rintro ⟨k, v⟩ b hb
  match k, hb with
  | [r, a, c], hb =>
    by_cases e : r = "P" ∧ a = c
    · obtain ⟨rfl, rfl⟩ := e
      have : some a = some b := (if_pos ⟨rfl, rfl⟩).symm.trans hb
      injection this with this
      rw [this]
    · have : (none : Option String) = some b := (if_neg e).symm.trans hb
      cases this

theorem dictHmmSymbols_nodup {d : PyDict K} {s : String} (h : (d.map Prod.fst).Nodup) :
    (dictHmmSymbols s d).Nodup := by
  refine filterMap_nodup _ (fun b => ["E", s, b]) ?_ h
  rintro ⟨k, v⟩ b hb
  match k, hb with
  | [r, a, c], hb =>
    by_cases e : r = "E" ∧ a = s
    · obtain ⟨rfl, rfl⟩ := e
      have : some c = some b := (if_pos ⟨rfl, rfl⟩).symm.trans hb
      injection this with this
      rw [this]
    · have : (none : Option String) = some b := (if_neg e).symm.trans hb
      cases this

theorem modelOfDict_ok {d : PyDict K} {m : HMM K} (h : modelOfDict d = .ok m) :
    2 ≤ (dictHmmStates d).length ∧ 2 ≤ (dictHmmSymbols ((dictHmmStates d).headD "") d).length ∧
    ∃ M, dictMatrices (dictHmmStates d) (dictHmmSymbols ((dictHmmStates d).headD "") d) d = .ok M ∧
      (∀ i, |∑ j, M.1 i j - 1| ≤ 1 / 10 ^ 8 + 1 / 10 ^ 5) ∧
      (∀ i, |∑ j, M.2 i j - 1| ≤ 1 / 10 ^ 8 + 1 / 10 ^ 5) ∧
      List.Disjoint (dictHmmStates d) (dictHmmSymbols ((dictHmmStates d).headD "") d) ∧
      ⟨_, _, M.1, M.2, dictHmmStates d, dictHmmSymbols ((dictHmmStates d).headD "") d⟩ = m := by
  unfold modelOfDict at h
  simp only at h
  rw [R.ite_throw] at h
  obtain ⟨h1, h⟩ := h
  rw [R.ite_throw] at h
  obtain ⟨h2, h⟩ := h
  rw [R.bind_ok] at h
  obtain ⟨M, h3, h⟩ := h
  rw [R.ite_throw, R.ite_throw, R.ite_throw, R.pure_ok] at h
  obtain ⟨h4, h5, h6, h7⟩ := h
  refine ⟨not_lt.1 h1, not_lt.1 h2, M, h3, allclose_one.1 (not_not.1 h4), allclose_one.1 (not_not.1 h5),
    ?_, h7⟩
  intro s hs hy
  refine h6 ?_
  rw [List.any_eq_true]
  exact ⟨s, hs, decide_eq_true hy⟩

theorem headD_getD (l : List String) : l.headD "" = l.getD 0 "" := by
  cases l <;> rfl

theorem modelOfDict_described {items : List (List String × K)} {m : HMM K}
    (hr : ∀ x ∈ items, x.1.head? = some "E" ∨ x.1.head? = some "P")
    (h : modelOfDict (dictOf items) = .ok m) : m.Checked ∧ DescribesModel items m := by
  obtain ⟨h1, h2, M, h3, h4, h5, h6, rfl⟩ := modelOfDict_ok h
  have hn := dictOf_keys_nodup items
  have hs := dictHmmStates_nodup hn
  have hy := dictHmmSymbols_nodup (s := (dictHmmStates (dictOf items)).headD "") hn
  have hr' : ∀ x ∈ dictOf items, x.1.head? = some "E" ∨ x.1.head? = some "P" := by
    intro x hx
    obtain ⟨v, hv⟩ := mem_keys_dictOf.1 (List.mem_map.2 ⟨x, hx, rfl⟩)
    exact hr (x.1, v) hv
  have hk := dictMatrices_known hr' h3
  obtain ⟨N, e1, e2, e3, e4, e5⟩ := dictMatrices_fill hs hy (dictOf items) 0 0 hk hn
  have e : M = N := by
    injection h3.symm.trans e1
  subst e
  refine ⟨⟨h1, h2, rfl, hs, rfl, hy, h6, h4, h5⟩, fun s => ?_, fun s => ?_, fun x hx => ?_,
    fun i j v hv => ?_, fun i j hm => ?_, fun i j v hv => ?_, fun i j hm => ?_⟩
  · change s ∈ dictHmmStates (dictOf items) ↔ _
    rw [mem_dictHmmStates, mem_keys_dictOf]
  · change s ∈ dictHmmSymbols ((dictHmmStates (dictOf items)).headD "") (dictOf items) ↔ _
    rw [mem_dictHmmSymbols, mem_keys_dictOf]
    change _ ↔ ∃ v, (["E", (dictHmmStates (dictOf items)).getD 0 "", s], v) ∈ items
    rw [← headD_getD]
  · obtain ⟨y, hy, e⟩ := List.mem_map.1 (mem_keys_dictOf.2 ⟨x.2, hx⟩)
    rw [← e]
    exact hk y hy
  · refine e2 i j v (mem_dictOf.2 ?_)
    rw [getD_fin, getD_fin] at hv
    exact hv
  · refine e3 i j fun hx => ?_
    obtain ⟨v, hv⟩ := mem_keys_dictOf.1 hx
    refine hm _ hv ?_
    rw [getD_fin, getD_fin]
  · refine e4 i j v (mem_dictOf.2 ?_)
    rw [getD_fin, getD_fin] at hv
    exact hv
  · refine e5 i j fun hx => ?_
    obtain ⟨v, hv⟩ := mem_keys_dictOf.1 hx
    refine hm _ hv ?_
    rw [getD_fin, getD_fin]

/-! ## Dictionaries of hidden Markov models -/

/-- What `validate_dictionary` ensures for hidden Markov models. -/
theorem validateDictionaryHmm_sound {d : PyDict (PyVal K)} {r : PyDict K}
    (h : validateDictionaryHmm d = .ok r) :
    (∀ x ∈ d, ∃ a b, (x.1 = ["P", a, b] ∨ x.1 = ["E", a, b]) ∧ nonBlank a = true ∧ nonBlank b = true) ∧
    (∀ a b, (∃ x ∈ d, ∃ c, x.1 = ["P", a, c] ∨ x.1 = ["P", c, a] ∨ x.1 = ["E", a, c]) →
      (∃ x ∈ d, ∃ c, x.1 = ["P", b, c] ∨ x.1 = ["P", c, b] ∨ x.1 = ["E", b, c]) →
      ["P", a, b] ∈ d.map Prod.fst) ∧
    (∀ a b, (∃ x ∈ d, ∃ c, x.1 = ["P", a, c] ∨ x.1 = ["P", c, a] ∨ x.1 = ["E", a, c]) →
      (∃ x ∈ d, ∃ c, x.1 = ["E", c, b]) → ["E", a, b] ∈ d.map Prod.fst) ∧
    List.Forall₂ (fun x y => y.1 = x.1 ∧ dictValue x.2 = .ok y.2) d r := by
  unfold validateDictionaryHmm at h
  simp only [R.ite_throw, dictValues_ok, not_not] at h
  obtain ⟨-, h2, h3, h4, h5, -, h7⟩ := h
  rw [List.all_eq_true] at h2 h3 h4 h5
  have hany : ∀ k : List String, (d.any fun x => decide (x.1 = k)) = true → k ∈ d.map Prod.fst := by
    intro k hk
    rw [List.any_eq_true] at hk
    obtain ⟨x, hx, e⟩ := hk
    rw [decide_eq_true_eq] at e
    exact List.mem_map.2 ⟨x, hx, e⟩
  have hstate : ∀ a, (∃ x ∈ d, ∃ c, x.1 = ["P", a, c] ∨ x.1 = ["P", c, a] ∨ x.1 = ["E", a, c]) →
      a ∈ d.flatMap fun x => match x.1 with
        | [r, a, b] => if r = "P" then [a, b] else [a]
        | _ => [] := by
    rintro a ⟨x, hx, c, e | e | e⟩
    · refine List.mem_flatMap.2 ⟨x, hx, ?_⟩
      rw [e]
      exact List.mem_cons_self
    · refine List.mem_flatMap.2 ⟨x, hx, ?_⟩
      rw [e]
      exact List.mem_cons_of_mem _ List.mem_cons_self
    · refine List.mem_flatMap.2 ⟨x, hx, ?_⟩
      rw [e]
      exact List.mem_cons_self
  refine ⟨fun x hx => ?_, fun a b ha hb => ?_, fun a b ha hb => ?_, h7⟩
  · have e2 := h2 x hx
    have e3 := h3 x hx
    match hk : x.1 with
    | [] => rw [hk] at e2; simp at e2
    | [_] => rw [hk] at e2; simp at e2
    | [_, _] => rw [hk] at e2; simp at e2
    | _ :: _ :: _ :: _ :: _ => rw [hk] at e2; simp at e2
    | [r, a, b] =>
      rw [hk] at e2 e3
      simp only [List.length_cons, List.length_nil, beq_self_eq_true, Bool.true_and, List.all_cons,
        List.all_nil, Bool.and_true, Bool.and_eq_true, Nat.reduceAdd] at e2
      simp only [List.head?_cons, Bool.or_eq_true, beq_iff_eq, Option.some.injEq] at e3
      refine ⟨a, b, ?_, e2.2.1, e2.2.2⟩
      rcases e3 with rfl | rfl
      · exact Or.inl rfl
      · exact Or.inr rfl
  · have := h4 a (hstate a ha)
    rw [List.all_eq_true] at this
    exact hany _ (this b (hstate b hb))
  · have := h5 a (hstate a ha)
    rw [List.all_eq_true] at this
    refine hany _ (this b ?_)
    obtain ⟨x, hx, c, e⟩ := hb
    refine List.mem_flatMap.2 ⟨x, hx, ?_⟩
    rw [e]
    exact List.mem_cons_self

/-- C80, hidden Markov models. A model built from any dictionary satisfies the requirements of the
constructor, its probabilities are the values of the keys, and there are no other keys. -/
theorem C80_hmm_dictionary_described {d : PyDict (PyVal K)} (hd : (d.map Prod.fst).Nodup) {m : HMM K}
    (h : hmmFromDictionary d = .ok m) : m.Accepted ∧
      (∀ k ∈ d.map Prod.fst, ∃ a ∈ m.states, (∃ b ∈ m.states, k = ["P", a, b]) ∨
        ∃ b ∈ m.symbols, k = ["E", a, b]) ∧
      (∀ i j : Fin m.n, ∃ v, (["P", m.states.getD i.val "", m.states.getD j.val ""], v) ∈ d ∧
        (v = .float (.fin (m.p i j)) ∨ ∃ z : ℤ, v = .int z ∧ m.p i j = z)) ∧
      ∀ (i : Fin m.n) (j : Fin m.k),
        ∃ v, (["E", m.states.getD i.val "", m.symbols.getD j.val ""], v) ∈ d ∧
        (v = .float (.fin (m.e i j)) ∨ ∃ z : ℤ, v = .int z ∧ m.e i j = z) := by
  unfold hmmFromDictionary at h
  rw [R.bind_ok] at h
  obtain ⟨r, hv, h⟩ := h
  obtain ⟨v1, v2, v3, v4⟩ := validateDictionaryHmm_sound hv
  have keys : r.map Prod.fst = d.map Prod.fst := by
    clear hv v1 v2 v3 h hd
    induction v4 with
    | nil => rfl
    | cons h1 _ ih => rw [List.map_cons, List.map_cons, ih, h1.1]
  have hdr : dictOf r = r := dictOf_nodup r (keys ▸ hd)
  have hkey : ∀ k, k ∈ d.map Prod.fst → ∃ x, (k, x) ∈ r ∧ LastValue r k x ∧ 0 ≤ x ∧ x ≤ 1 ∧
      ∃ v, (k, v) ∈ d ∧ (v = .float (.fin x) ∨ ∃ z : ℤ, v = .int z ∧ x = z) := by
    intro k hk
    rw [← keys] at hk
    obtain ⟨⟨k', x⟩, hx, hk'⟩ := List.mem_map.1 hk
    change k' = k at hk'
    subst hk'
    obtain ⟨⟨k, v⟩, hm, e1, e2⟩ := forall₂_right v4 hx
    change k' = k at e1
    subst e1
    obtain ⟨e3, e4⟩ := dictValue_ok.1 e2
    refine ⟨x, hx, ?_, e4.1, e4.2, v, hm, ?_⟩
    · rw [← mem_dictOf, hdr]
      exact hx
    · rcases e3 with ⟨z, h1, h2⟩ | h1
      · exact Or.inr ⟨z, h1, h2⟩
      · exact Or.inl h1
  have hrefs : ∀ x ∈ r, x.1.head? = some "E" ∨ x.1.head? = some "P" := by
    intro x hx
    obtain ⟨y, hy, e, -⟩ := forall₂_right v4 hx
    obtain ⟨a, b, h1 | h1, -⟩ := v1 y hy
    · rw [e, h1]
      exact Or.inr rfl
    · rw [e, h1]
      exact Or.inl rfl
  rw [← hdr] at h
  obtain ⟨⟨c1, c2, c3, c4, c5, c6, c7, c8, c9⟩, hdesc⟩ := modelOfDict_described hrefs h
  have hs : ∀ a ∈ m.states, ∃ x ∈ d, x.1 = ["P", a, a] := by
    intro a ha
    obtain ⟨v, hv⟩ := (hdesc.states a).1 ha
    have : ["P", a, a] ∈ d.map Prod.fst := by rw [← keys]; exact List.mem_map.2 ⟨_, hv, rfl⟩
    obtain ⟨x, hx, e⟩ := List.mem_map.1 this
    exact ⟨x, hx, e⟩
  have hy : ∀ a ∈ m.symbols, ∃ x ∈ d, x.1 = ["E", m.states.getD 0 "", a] := by
    intro a ha
    obtain ⟨v, hv⟩ := (hdesc.symbols a).1 ha
    have : ["E", m.states.getD 0 "", a] ∈ d.map Prod.fst := by
      rw [← keys]; exact List.mem_map.2 ⟨_, hv, rfl⟩
    obtain ⟨x, hx, e⟩ := List.mem_map.1 this
    exact ⟨x, hx, e⟩
  have hmem : ∀ i : Fin m.n, m.states.getD i.val "" ∈ m.states := by
    intro i
    have hi : i.val < m.states.length := by rw [c3]; exact i.isLt
    rw [List.getD_eq_getElem?_getD, List.getElem?_eq_getElem hi]
    exact List.getElem_mem _
  have hmem' : ∀ i : Fin m.k, m.symbols.getD i.val "" ∈ m.symbols := by
    intro i
    have hi : i.val < m.symbols.length := by rw [c5]; exact i.isLt
    rw [List.getD_eq_getElem?_getD, List.getElem?_eq_getElem hi]
    exact List.getElem_mem _
  have hp : ∀ i j : Fin m.n, ["P", m.states.getD i.val "", m.states.getD j.val ""] ∈ d.map Prod.fst := by
    intro i j
    obtain ⟨x, hx, e⟩ := hs _ (hmem i)
    obtain ⟨y, hy, e'⟩ := hs _ (hmem j)
    exact v2 _ _ ⟨x, hx, _, Or.inl e⟩ ⟨y, hy, _, Or.inl e'⟩
  have he : ∀ (i : Fin m.n) (j : Fin m.k),
      ["E", m.states.getD i.val "", m.symbols.getD j.val ""] ∈ d.map Prod.fst := by
    intro i j
    obtain ⟨x, hx, e⟩ := hs _ (hmem i)
    obtain ⟨y, hy, e'⟩ := hy _ (hmem' j)
    exact v3 _ _ ⟨x, hx, _, Or.inl e⟩ ⟨y, hy, _, e'⟩
  refine ⟨⟨c1, c2, fun i j => ?_, fun i j => ?_, c8, c9, ⟨c3, c4, fun s hm => ?_⟩, ⟨c5, c6, fun s hm => ?_⟩,
    c7⟩, fun k hk => ?_, fun i j => ?_, fun i j => ?_⟩
  · obtain ⟨x, -, hl, h0, h1, -⟩ := hkey _ (hp i j)
    rw [hdesc.transition i j x hl]
    exact ⟨h0, h1⟩
  · obtain ⟨x, -, hl, h0, h1, -⟩ := hkey _ (he i j)
    rw [hdesc.emission i j x hl]
    exact ⟨h0, h1⟩
  · obtain ⟨x, hx, e⟩ := hs s hm
    obtain ⟨a, b, h1 | h1, h2, -⟩ := v1 x hx
    · rw [e] at h1
      injection h1 with _ h1
      injection h1 with h1 _
      rw [h1]
      exact h2
    · rw [e] at h1
      injection h1 with h1 _
      exact absurd h1 (by decide)
  · obtain ⟨x, hx, e⟩ := hy s hm
    obtain ⟨a, b, h1 | h1, -, h2⟩ := v1 x hx
    · rw [e] at h1
      injection h1 with h1 _
      exact absurd h1 (by decide)
    · rw [e] at h1
      injection h1 with _ h1
      injection h1 with _ h1
      injection h1 with h1 _
      rw [h1]
      exact h2
  · rw [← keys] at hk
    obtain ⟨x, hx, rfl⟩ := List.mem_map.1 hk
    exact hdesc.known x hx
  · obtain ⟨x, -, hl, -, -, v, hv, hv'⟩ := hkey _ (hp i j)
    rw [hdesc.transition i j x hl]
    exact ⟨v, hv, hv'⟩
  · obtain ⟨x, -, hl, -, -, v, hv, hv'⟩ := hkey _ (he i j)
    rw [hdesc.emission i j x hl]
    exact ⟨v, hv, hv'⟩

end

/-! ## The readers -/

theorem labelNames_eq (mc : Bool) : labelNames mc = attributeNames mc := by
  cases mc <;> rfl

theorem labelNames_length (mc : Bool) : (labelNames mc).length + 1 = if mc then 3 else 4 := by
  cases mc <;> rfl

theorem readTxtRow_says {mc : Bool} {parse : String → Option K} {line : List Char}
    {x : List String × K} (h : readTxtRow mc parse (words line) = .ok x) : LineSays mc parse line x := by
  unfold readTxtRow at h
  rw [R.ite_throw, R.ite_throw] at h
  obtain ⟨h1, h2, h3⟩ := h
  rw [not_not] at h1
  have hne : words line ≠ [] := by
    intro e
    rw [e] at h1
    cases mc <;> simp at h1
  cases hp : parse ((words line).getLastD "") with
  | none => rw [hp] at h3; cases h3
  | some v =>
    rw [hp] at h3
    have h3 : (.ok ((words line).dropLast, v) : R _) = .ok x := h3
    injection h3 with h3
    subst h3
    have hlast : (words line).getLastD "" = (words line).getLast hne := by
      rw [List.getLastD_eq_getLast?, List.getLast?_eq_some_getLast hne]
      rfl
    refine ⟨⟨?_, fun hm => ?_⟩, (words line).getLast hne, (List.dropLast_append_getLast hne).symm, ?_⟩
    · have := labelNames_length mc
      change (words line).dropLast.length = _
      rw [List.length_dropLast]
      omega
    · subst hm
      simp only [Bool.false_eq_true, not_false_eq_true, true_and, not_and_or, not_not] at h2
      have hd : (words line).dropLast.head? = (words line).head? := by
        rw [List.head?_dropLast, if_pos]
        simp only [Bool.false_eq_true, if_false] at h1
        omega
      change (words line).dropLast.head? = _ ∨ (words line).dropLast.head? = _
      rw [hd]
      exact h2
    · rw [← hlast]
      exact hp

theorem sameKeys_length {mc : Bool} {keys : List String} (h : sameKeys mc keys = true) :
    keys.length = (labelNames mc).length + 1 := by
  unfold sameKeys at h
  rw [Bool.and_eq_true, decide_eq_true_eq] at h
  rw [labelNames_eq]
  exact h.1

theorem lookup_mem {α : Type} {l : List (String × α)} {k : String} {v : α} (h : l.lookup k = some v) :
    (k, v) ∈ l := by
  induction l with
  | nil => cases h
  | cons x l ih =>
    obtain ⟨k', v'⟩ := x
    rw [List.lookup_cons] at h
    split at h
    · rename_i hk
      injection h with h
      rw [beq_iff_eq] at hk
      rw [hk, h]
      exact List.mem_cons_self
    · exact List.mem_cons_of_mem _ (ih h)

theorem jsonString_some {v : Option (PyVal K)} {s : String} (h : jsonString v = .ok s) :
    s ≠ "" ∧ v = some (.str s) := by
  unfold jsonString at h
  split at h
  · rw [R.ite_throw, R.pure_ok] at h
    obtain ⟨h1, rfl⟩ := h
    refine ⟨fun e => h1 ?_, rfl⟩
    rw [e]
    rfl
  · cases h

theorem forall₂_length {α β : Type} {R : α → β → Prop} {l : List α} {r : List β}
    (h : List.Forall₂ R l r) : r.length = l.length := (List.Forall₂.length_eq h).symm

theorem readJsonObject_says [Field K] {mc : Bool} {o : List (String × PyVal K)} {x : List String × K}
    (h : readJsonObject mc o = .ok x) : ObjectSays mc o x := by
  unfold readJsonObject at h
  rw [R.ite_throw, R.bind_ok] at h
  obtain ⟨h1, key, h2, h⟩ := h
  rw [R.ite_throw, R.bind_ok] at h
  obtain ⟨h3, v, h4, h5⟩ := h
  rw [R.pure_ok] at h5
  subst h5
  rw [not_not] at h1
  rw [mapM_R_eq_ok] at h2
  have hl := sameKeys_length h1
  rw [List.length_map] at hl
  refine ⟨⟨?_, fun hm => ?_⟩, hl, ?_, ?_⟩
  · rw [labelNames_eq]
    exact forall₂_length h2
  · subst hm
    simp only [Bool.false_eq_true, not_false_eq_true, true_and, not_and_or, not_not] at h3
    exact h3
  · rw [labelNames_eq]
    refine h2.imp fun a b hab => ?_
    obtain ⟨h6, h7⟩ := jsonString_some hab
    exact ⟨h6, lookup_mem h7⟩
  · unfold jsonNumber at h4
    split at h4
    · rename_i z hz
      rw [R.pure_ok] at h4
      exact ⟨_, lookup_mem hz, Or.inr (Or.inl ⟨z, rfl, h4.symm⟩)⟩
    · rename_i b hb
      rw [R.pure_ok] at h4
      exact ⟨_, lookup_mem hb, Or.inr (Or.inr ⟨b, rfl, h4.symm⟩)⟩
    · rename_i y hy
      rw [R.pure_ok] at h4
      refine ⟨_, lookup_mem hy, Or.inl ?_⟩
      rw [h4]
    · cases h4

theorem lookup_attribute {α : Type} {l : List (String × α)} {k : String} (h : k ∈ l.map Prod.fst) :
    ∃ v, l.lookup k = some v := by
  induction l with
  | nil => exact (List.not_mem_nil h).elim
  | cons x l ih =>
    obtain ⟨k', v'⟩ := x
    rw [List.lookup_cons]
    split
    · exact ⟨_, rfl⟩
    · rename_i hk
      refine ih ?_
      rcases List.mem_cons.1 h with h | h
      · rw [h] at hk
        simp at hk
      · exact h

theorem readXmlElement_says {mc : Bool} {parse : String → Option K} {o : List (String × String)}
    {x : List String × K} (h : readXmlElement mc parse o = .ok x) : ElementSays mc parse o x := by
  unfold readXmlElement at h
  rw [R.ite_throw, R.ite_throw] at h
  obtain ⟨h1, h2, h⟩ := h
  simp only at h
  rw [R.ite_throw] at h
  obtain ⟨h3, h4⟩ := h
  rw [not_not] at h1
  have hl := sameKeys_length h1
  rw [List.length_map] at hl
  have hmem : ∀ k ∈ attributeNames mc ++ ["probability"], ∃ s, (k, s) ∈ o ∧ o.lookup k = some s ∧
      pyStrip s ≠ "" := by
    intro k hk
    unfold sameKeys at h1
    rw [Bool.and_eq_true, List.all_eq_true] at h1
    have := h1.2 k hk
    rw [decide_eq_true_eq] at this
    obtain ⟨s, hs⟩ := lookup_attribute this
    refine ⟨s, lookup_mem hs, hs, fun e => h2 ?_⟩
    rw [List.any_eq_true]
    refine ⟨_, lookup_mem hs, ?_⟩
    change (pyStrip s).isEmpty = true
    rw [e]
    rfl
  obtain ⟨s, hs1, hs2, hs3⟩ := hmem "probability" (by simp)
  rw [hs2] at h4
  simp only [Option.getD_some] at h4
  cases hp : parse (pyStrip s) with
  | none => rw [hp] at h4; cases h4
  | some v =>
    rw [hp] at h4
    have h4 : (.ok ((attributeNames mc).map fun k => pyStrip ((o.lookup k).getD ""), v) : R _) = .ok x := h4
    injection h4 with h4
    subst h4
    refine ⟨⟨by rw [labelNames_eq]; exact List.length_map _, fun hm => ?_⟩, hl, ?_, s, hs1, hs3, hp⟩
    · subst hm
      simp only [Bool.false_eq_true, not_false_eq_true, true_and, not_and_or, not_not] at h3
      exact h3
    · rw [labelNames_eq, List.forall₂_map_right_iff, List.forall₂_same]
      intro k hk
      obtain ⟨t, ht1, ht2, ht3⟩ := hmem k (List.mem_append_left _ hk)
      rw [ht2]
      exact ⟨ht3, t, ht1, rfl⟩

/-- The rows of a table. -/
theorem readCsvRow_cells {parse : String → Option K} {width : ℕ} {row : List String} {vs : List K}
    (h : readCsvRow parse width row = .ok vs) : row.length = width ∧ vs.length = width ∧
      ∀ (j : ℕ) (hj : j < vs.length), ∃ cell, row[j]? = some cell ∧ cell ≠ "" ∧ parse cell = some vs[j] := by
  unfold readCsvRow at h
  rw [R.ite_throw, mapM_R_eq_ok] at h
  obtain ⟨h1, h2⟩ := h
  push Not at h1
  have hlen := forall₂_length h2
  refine ⟨h1.1, hlen.trans h1.1, fun j hj => ?_⟩
  have hj' : j < row.length := by omega
  have := List.Forall₂.get h2 hj' hj
  refine ⟨row[j], List.getElem?_eq_getElem hj', fun e => h1.2 ?_, ?_⟩
  · rw [List.any_eq_true]
    refine ⟨row[j], List.getElem_mem _, ?_⟩
    rw [e]
    rfl
  · rw [List.get_eq_getElem, List.get_eq_getElem] at this
    cases hp : parse row[j] with
    | none =>
      simp only [hp] at this
      cases this
    | some v =>
      simp only [hp] at this
      rw [R.pure_ok] at this
      rw [this]

/-! ## Tables -/

theorem zip_eq_finRange {α β : Type} (l : List α) (r : List β) (h : l.length = r.length) :
    l.zip r = (List.finRange l.length).map fun i => (l[i.val], r[i.val]'(h ▸ i.isLt)) := by
  refine List.ext_getElem (by simp [h]) fun i h1 h2 => ?_
  simp

section
variable [Field K] [LinearOrder K] [IsStrictOrderedRing K]

theorem csvMc_described {parse : String → Option K} {data : List (List String)} {c : MC K}
    (h : mcFromFile parse (.csv data) = .ok c) :
    c.Checked ∧ ∃ rows, data = c.states :: rows ∧ "" ∉ c.states ∧ rows.length = c.n ∧
      (∀ row ∈ rows, row.length = c.n) ∧ ∀ i j : Fin c.n, CellIs parse rows i.val j.val (c.p i j) := by
  unfold mcFromFile at h
  simp only at h
  rw [R.bind_ok] at h
  obtain ⟨d, hd, h⟩ := h
  cases data with
  | nil =>
    have hd : (.ok [] : R (PyDict K)) = .ok d := hd
    injection hd with hd
    subst hd
    obtain ⟨h1, -⟩ := chainOfDict_ok.1 h
    simp [dictStates] at h1
  | cons header rows =>
    unfold readCsvMc at hd
    simp only at hd
    rw [R.ite_throw, R.ite_throw, R.ite_throw, R.bind_ok] at hd
    obtain ⟨h1, h2, h3, M, h4, h5⟩ := hd
    rw [R.pure_ok] at h5
    rw [not_not] at h2 h3
    rw [mapM_R_eq_ok] at h4
    have hM := forall₂_length h4
    have hlen : header.length = M.length := by omega
    have hrow : ∀ (i : ℕ) (hi : i < M.length), ∃ hi' : i < rows.length,
        readCsvRow parse header.length rows[i] = .ok M[i] := fun i hi =>
      ⟨by omega, List.Forall₂.get h4 (by omega) hi⟩
    have hw : ∀ i : Fin header.length, header.length = (M[i.val]'(hlen ▸ i.isLt)).length := by
      intro i
      obtain ⟨hi, e⟩ := hrow i.val (hlen ▸ i.isLt)
      exact (readCsvRow_cells e).2.1.symm
    obtain ⟨p, hp⟩ : ∃ p : Matrix (Fin header.length) (Fin header.length) K, ∀ i j, p i j =
        (M[i.val]'(hlen ▸ i.isLt))[j.val]'((hw i) ▸ j.isLt) := ⟨fun i j => _, fun i j => rfl⟩
    have hitems : ((header.zip M).flatMap fun x => (header.zip x.2).map fun y => ([x.1, y.1], y.2)) =
        mcItems ⟨header.length, p, header⟩ := by
      rw [zip_eq_finRange header M hlen, List.flatMap_map]
      unfold mcItems
      refine List.flatMap_congr fun i _ => ?_
      rw [zip_eq_finRange header _ (hw i), List.map_map]
      refine List.map_congr_left fun j _ => ?_
      rw [getD_fin, getD_fin]
      exact congrArg (fun z => ([header[i.val], header[j.val]], z)) (hp i j).symm
    rw [hitems, dictOf_nodup _ (mcItems_nodup header p h2)] at h5
    subst h5
    unfold chainOfDict at h
    rw [dictStates_mcItems header p h2, R.ite_throw, dictMatrix_mcItems header p h2, R.ok_bind,
      finishChain_ok] at h
    obtain ⟨h6, h7, rfl⟩ := h
    refine ⟨⟨not_lt.1 h6, rfl, h2, h7⟩, rows, rfl, fun he => h1 ?_, h3.symm, fun row hr => ?_, fun i j => ?_⟩
    · exact List.any_eq_true.2 ⟨"", he, rfl⟩
    · obtain ⟨i, hi, rfl⟩ := List.getElem_of_mem hr
      obtain ⟨hi', e⟩ := hrow i (by omega)
      exact (readCsvRow_cells e).1
    · obtain ⟨hi', e⟩ := hrow i.val (hlen ▸ i.isLt)
      obtain ⟨cell, c1, c2, c3⟩ := (readCsvRow_cells e).2.2 j.val ((hw i) ▸ j.isLt)
      refine ⟨_, cell, List.getElem?_eq_getElem hi', c1, c2, ?_⟩
      rw [c3]
      exact congrArg some (hp i j).symm

end

theorem readCsvLabel_says {s : String} {x : String × String} (h : readCsvLabel s = .ok x) :
    HeaderSays s x := by
  unfold readCsvLabel at h
  rw [R.ite_throw] at h
  obtain ⟨h1, h⟩ := h
  simp only at h
  have key : ∀ r : String, String.ofList ((pyStrip s).toList.take 2) = r →
      (pyStrip s).toList = r.toList ++ (String.ofList ((pyStrip s).toList.drop 2)).toList := by
    intro r hr
    rw [← hr, String.toList_ofList, String.toList_ofList, List.take_append_drop]
  have eE : "E_".toList = "E".toList ++ ['_'] := by decide +kernel
  have eP : "P_".toList = "P".toList ++ ['_'] := by decide +kernel
  refine ⟨not_lt.1 h1, ?_⟩
  by_cases h2 : String.ofList ((pyStrip s).toList.take 2) = "E_"
  · rw [if_pos h2, R.pure_ok] at h
    have h3 := key _ h2
    rw [eE, List.append_assoc] at h3
    rw [← h]
    exact ⟨Or.inr rfl, h3⟩
  · rw [if_neg h2, R.ite_throw', R.pure_ok] at h
    have h3 := key _ h.1
    rw [eP, List.append_assoc] at h3
    rw [← h.2]
    exact ⟨Or.inl rfl, h3⟩

/-- The keys of a table with both matrices. -/
theorem table_keys (states : List String) (labels : List (String × String)) (M : List (List K))
    (hM : states.length = M.length) (hw : ∀ r ∈ M, labels.length = r.length) :
    (((states.zip M).flatMap fun x => (labels.zip x.2).map fun y => ([y.1.1, x.1, y.1.2], y.2)).map
      Prod.fst) = states.flatMap fun a => labels.map fun l => [l.1, a, l.2] := by
  induction states generalizing M with
  | nil => rfl
  | cons a states ih =>
    cases M with
    | nil => cases hM
    | cons r M =>
      rw [List.zip_cons_cons, List.flatMap_cons, List.flatMap_cons, List.map_append,
        ih M (by simpa using hM) fun r hr => hw r (List.mem_cons_of_mem _ hr)]
      congr 1
      rw [List.map_map]
      have := hw r List.mem_cons_self
      refine List.ext_getElem (by simp [this]) fun i h1 h2 => ?_
      simp

theorem table_nodup (states : List String) (labels : List (String × String)) (hs : states.Nodup)
    (hl : labels.Nodup) :
    (states.flatMap fun a => labels.map fun l => [l.1, a, l.2]).Nodup := by
  rw [List.nodup_flatMap]
  refine ⟨fun a _ => List.Nodup.map (fun x y h => ?_) hl, ?_⟩
  · injection h with h1 h2
    injection h2 with _ h3
    injection h3 with h3 _
    exact Prod.ext h1 h3
  · refine List.Pairwise.imp_of_mem ?_ hs
    intro a b _ _ hab k hk hk'
    obtain ⟨x, -, rfl⟩ := List.mem_map.1 hk
    obtain ⟨y, -, e⟩ := List.mem_map.1 hk'
    injection e with _ e
    injection e with e _
    exact hab e.symm

/-- Distinct labels. -/
theorem labels_nodup {labels : List (String × String)}
    (hr : ∀ x ∈ labels, x.1 = "P" ∨ x.1 = "E")
    (h1 : ((labels.filter fun x => x.1 = "P").map Prod.snd).Nodup)
    (h2 : ((labels.filter fun x => x.1 = "E").map Prod.snd).Nodup) :
    labels.Nodup ∧ labels.length = ((labels.filter fun x => x.1 = "P").map Prod.snd).length +
      ((labels.filter fun x => x.1 = "E").map Prod.snd).length := by
  induction labels with
  | nil => exact ⟨List.nodup_nil, rfl⟩
  | cons x l ih =>
    have hr' : ∀ y ∈ l, y.1 = "P" ∨ y.1 = "E" := fun y hy => hr y (List.mem_cons_of_mem _ hy)
    rcases hr x List.mem_cons_self with hx | hx
    · have hx' : ¬ x.1 = "E" := by rw [hx]; decide
      rw [List.filter_cons_of_pos (by simpa using hx), List.map_cons, List.nodup_cons] at h1
      rw [List.filter_cons_of_neg (by simpa using hx')] at h2
      obtain ⟨i1, i2⟩ := ih hr' h1.2 h2
      refine ⟨List.nodup_cons.2 ⟨fun hm => h1.1 ?_, i1⟩, ?_⟩
      · exact List.mem_map.2 ⟨x, List.mem_filter.2 ⟨hm, by simpa using hx⟩, rfl⟩
      · rw [List.filter_cons_of_pos (by simpa using hx), List.filter_cons_of_neg (by simpa using hx'),
          List.map_cons, List.length_cons, List.length_cons]
        omega
    · have hx' : ¬ x.1 = "P" := by rw [hx]; decide
      rw [List.filter_cons_of_pos (by simpa using hx), List.map_cons, List.nodup_cons] at h2
      rw [List.filter_cons_of_neg (by simpa using hx')] at h1
      obtain ⟨i1, i2⟩ := ih hr' h1 h2.2
      refine ⟨List.nodup_cons.2 ⟨fun hm => h2.1 ?_, i1⟩, ?_⟩
      · exact List.mem_map.2 ⟨x, List.mem_filter.2 ⟨hm, by simpa using hx⟩, rfl⟩
      · rw [List.filter_cons_of_neg (by simpa using hx'), List.filter_cons_of_pos (by simpa using hx),
          List.map_cons, List.length_cons, List.length_cons]
        omega

/-- The state selected from a key. -/
def stateOfKey (k : List String) : Option String :=
  match k with
  | [r, a, b] => if r = "P" ∧ a = b then some a else none
  | _ => none

/-- The symbol selected from a key. -/
def symbolOfKey (s : String) (k : List String) : Option String :=
  match k with
  | [r, a, b] => if r = "E" ∧ a = s then some b else none
  | _ => none

theorem dictHmmStates_keys (d : PyDict K) : dictHmmStates d = (d.map Prod.fst).filterMap stateOfKey := by
  rw [List.filterMap_map]
  rfl

theorem dictHmmSymbols_keys (s : String) (d : PyDict K) :
    dictHmmSymbols s d = (d.map Prod.fst).filterMap (symbolOfKey s) := by
  rw [List.filterMap_map]
  rfl

theorem filterMap_labels (labels : List (String × String)) (a : String) :
    (labels.map fun l => [l.1, a, l.2]).filterMap stateOfKey =
      ((labels.filter fun x => x.1 = "P").map Prod.snd).filter fun b => decide (a = b) := by
  induction labels with
  | nil => rfl
  | cons x l ih =>
    rw [List.map_cons, List.filterMap_cons, ih]
    have e : stateOfKey [x.1, a, x.2] = if x.1 = "P" ∧ a = x.2 then some a else none := rfl
    rw [e]
    by_cases h1 : x.1 = "P"
    · rw [List.filter_cons_of_pos (by simpa using h1), List.map_cons]
      by_cases h2 : a = x.2
      · rw [if_pos ⟨h1, h2⟩, List.filter_cons_of_pos (by simpa using h2), ← h2]
      · rw [if_neg fun h => h2 h.2, List.filter_cons_of_neg (by simpa using h2)]
    · rw [if_neg fun h => h1 h.1, List.filter_cons_of_neg (by simpa using h1)]

theorem filter_eq_singleton {l : List String} (hl : l.Nodup) {a : String} (ha : a ∈ l) :
    (l.filter fun b => decide (a = b)) = [a] := by
  induction l with
  | nil => exact (List.not_mem_nil ha).elim
  | cons b l ih =>
    rw [List.nodup_cons] at hl
    by_cases h : a = b
    · subst h
      rw [List.filter_cons_of_pos (by simp), List.filter_eq_nil_iff.2]
      intro x hx
      simp only [decide_eq_true_eq]
      rintro rfl
      exact hl.1 hx
    · rw [List.filter_cons_of_neg (by simpa using h)]
      exact ih hl.2 ((List.mem_cons.1 ha).resolve_left h)

theorem table_states (states : List String) (labels : List (String × String)) (hs : states.Nodup)
    (e : states = (labels.filter fun x => x.1 = "P").map Prod.snd) :
    (states.flatMap fun a => labels.map fun l => [l.1, a, l.2]).filterMap stateOfKey = states := by
  rw [List.filterMap_flatMap]
  have : ∀ a ∈ states, (labels.map fun l => [l.1, a, l.2]).filterMap stateOfKey = [a] := by
    intro a ha
    rw [filterMap_labels, ← e]
    exact filter_eq_singleton hs ha
  rw [List.flatMap_congr this]
  simp

theorem filterMap_symbols (labels : List (String × String)) (s a : String) :
    (labels.map fun l => [l.1, a, l.2]).filterMap (symbolOfKey s) =
      if a = s then (labels.filter fun x => x.1 = "E").map Prod.snd else [] := by
  induction labels with
  | nil => split <;> rfl
  | cons x l ih =>
    rw [List.map_cons, List.filterMap_cons, ih]
    have e : symbolOfKey s [x.1, a, x.2] = if x.1 = "E" ∧ a = s then some x.2 else none := rfl
    rw [e]
    by_cases h1 : x.1 = "E"
    · rw [List.filter_cons_of_pos (by simpa using h1), List.map_cons]
      by_cases h2 : a = s
      · rw [if_pos ⟨h1, h2⟩, if_pos h2, if_pos h2]
      · rw [if_neg fun h => h2 h.2, if_neg h2, if_neg h2]
    · rw [if_neg fun h => h1 h.1, List.filter_cons_of_neg (by simpa using h1)]

theorem table_symbols (states : List String) (labels : List (String × String)) (hs : states.Nodup)
    (h0 : states ≠ []) :
    (states.flatMap fun a => labels.map fun l => [l.1, a, l.2]).filterMap
      (symbolOfKey (states.headD "")) = (labels.filter fun x => x.1 = "E").map Prod.snd := by
  cases states with
  | nil => exact absurd rfl h0
  | cons a states =>
    rw [List.filterMap_flatMap, List.flatMap_cons, filterMap_symbols]
    change (if a = a then _ else _) ++ _ = _
    rw [if_pos rfl, List.flatMap_eq_nil_iff.2, List.append_nil]
    intro b hb
    rw [filterMap_symbols]
    refine if_neg ?_
    rintro rfl
    exact (List.nodup_cons.1 hs).1 hb

theorem lastValue_of_nodup {items : List (List String × K)} (h : (items.map Prod.fst).Nodup)
    {k : List String} {v : K} (hm : (k, v) ∈ items) : LastValue items k v := by
  rw [← mem_dictOf, dictOf_nodup items h]
  exact hm

section
variable [Field K] [LinearOrder K] [IsStrictOrderedRing K]

theorem csvHmm_described {parse : String → Option K} {data : List (List String)} {m : HMM K}
    (h : hmmFromFile parse (.csv data) = .ok m) :
    m.Checked ∧ ∃ header rows labels, data = header :: rows ∧ List.Forall₂ HeaderSays header labels ∧
      m.states = (labels.filter fun x => x.1 = "P").map Prod.snd ∧
      m.symbols = (labels.filter fun x => x.1 = "E").map Prod.snd ∧
      rows.length = m.n ∧ (∀ row ∈ rows, row.length = m.n + m.k) ∧
      (∀ (i j : Fin m.n) col, labels[col]? = some ("P", m.states.getD j.val "") →
        CellIs parse rows i.val col (m.p i j)) ∧
      ∀ (i : Fin m.n) (j : Fin m.k) col, labels[col]? = some ("E", m.symbols.getD j.val "") →
        CellIs parse rows i.val col (m.e i j) := by
  unfold hmmFromFile at h
  simp only at h
  rw [R.bind_ok] at h
  obtain ⟨d, hd, h⟩ := h
  cases data with
  | nil =>
    have hd : (.ok [] : R (PyDict K)) = .ok d := hd
    injection hd with hd
    subst hd
    obtain ⟨h1, -⟩ := modelOfDict_ok h
    simp [dictHmmStates] at h1
  | cons header rows =>
    unfold readCsvHmm at hd
    simp only at hd
    rw [R.bind_ok] at hd
    obtain ⟨labels, h1, hd⟩ := hd
    rw [mapM_R_eq_ok] at h1
    obtain ⟨states, hst⟩ : ∃ l, l = (labels.filter fun x => x.1 = "P").map Prod.snd := ⟨_, rfl⟩
    obtain ⟨symbols, hsy⟩ : ∃ l, l = (labels.filter fun x => x.1 = "E").map Prod.snd := ⟨_, rfl⟩
    rw [← hst, ← hsy, R.ite_throw, R.ite_throw, R.bind_ok] at hd
    obtain ⟨h2, h3, M, h4, h5⟩ := hd
    rw [R.pure_ok] at h5
    push Not at h2
    rw [not_not] at h3
    rw [mapM_R_eq_ok] at h4
    have hsays : List.Forall₂ HeaderSays header labels := h1.imp fun a b => readCsvLabel_says
    have hr : ∀ x ∈ labels, x.1 = "P" ∨ x.1 = "E" := by
      intro x hx
      obtain ⟨a, -, ha⟩ := forall₂_right hsays hx
      exact ha.2.1
    obtain ⟨n1, n2⟩ := labels_nodup hr (hst ▸ h2.1) (hsy ▸ h2.2)
    rw [← hst, ← hsy] at n2
    have hM := forall₂_length h4
    have hlen : states.length = M.length := by omega
    have hrow : ∀ (i : ℕ) (hi : i < M.length), ∃ hi' : i < rows.length,
        readCsvRow parse (states.length + symbols.length) rows[i] = .ok M[i] := fun i hi =>
      ⟨by omega, List.Forall₂.get h4 (by omega) hi⟩
    have hw : ∀ r ∈ M, labels.length = r.length := by
      intro r hr
      obtain ⟨i, hi, rfl⟩ := List.getElem_of_mem hr
      obtain ⟨hi', e⟩ := hrow i hi
      rw [(readCsvRow_cells e).2.1, n2]
    have hkeys := table_keys states labels M hlen hw
    obtain ⟨items, hitems⟩ : ∃ l, l = ((states.zip M).flatMap fun x =>
        (labels.zip x.2).map fun y => ([y.1.1, x.1, y.1.2], y.2)) := ⟨_, rfl⟩
    rw [← hitems] at hkeys h5
    have hnd : (items.map Prod.fst).Nodup := by
      rw [hkeys]
      exact table_nodup states labels h2.1 n1
    have hdi : dictOf items = items := dictOf_nodup items hnd
    have hrefs : ∀ x ∈ items, x.1.head? = some "E" ∨ x.1.head? = some "P" := by
      intro x hx
      have : x.1 ∈ items.map Prod.fst := List.mem_map.2 ⟨x, hx, rfl⟩
      rw [hkeys, List.mem_flatMap] at this
      obtain ⟨a, -, ha⟩ := this
      obtain ⟨l, hl, e⟩ := List.mem_map.1 ha
      rw [← e]
      rcases hr l hl with e | e
      · exact Or.inr (congrArg some e)
      · exact Or.inl (congrArg some e)
    rw [← h5] at h
    obtain ⟨hc, hdesc⟩ := modelOfDict_described hrefs h
    obtain ⟨k1, k2, M', -, -, -, -, k3⟩ := modelOfDict_ok h
    have es : m.states = states := by
      rw [← k3]
      change dictHmmStates (dictOf items) = states
      rw [hdi, dictHmmStates_keys, hkeys]
      exact table_states states labels h2.1 hst
    have ey : m.symbols = symbols := by
      have e1 : dictHmmStates (dictOf items) = states := by rw [← es, ← k3]
      rw [← k3]
      change dictHmmSymbols ((dictHmmStates (dictOf items)).headD "") (dictOf items) = symbols
      rw [e1, hdi, dictHmmSymbols_keys, hkeys, hsy]
      refine table_symbols states labels h2.1 fun e => ?_
      rw [e1, e] at k1
      simp at k1
    obtain ⟨c1, c2, c3, c4, c5, c6, c7⟩ := hc
    have hcell : ∀ (i : ℕ) (r a : String) (b : String) (col : ℕ), states[i]? = some a →
        labels[col]? = some (r, b) → ∃ v, ([r, a, b], v) ∈ items ∧ CellIs parse rows i col v := by
      intro i r a b col hi hcol
      obtain ⟨hi1, hi2⟩ := List.getElem?_eq_some_iff.1 hi
      obtain ⟨hc1, hc2⟩ := List.getElem?_eq_some_iff.1 hcol
      obtain ⟨hi', e⟩ := hrow i (by omega)
      have hwi := hw _ (List.getElem_mem (show i < M.length by omega))
      obtain ⟨cell, x1, x2, x3⟩ := (readCsvRow_cells e).2.2 col (by omega)
      refine ⟨(M[i]'(by omega))[col]'(by omega), ?_, _, cell, List.getElem?_eq_getElem hi', x1, x2, x3⟩
      rw [hitems, List.mem_flatMap]
      refine ⟨(a, M[i]'(by omega)), ?_, ?_⟩
      · rw [List.mem_iff_getElem]
        refine ⟨i, by rw [List.length_zip]; omega, ?_⟩
        rw [List.getElem_zip, hi2]
      · rw [List.mem_map]
        refine ⟨((r, b), (M[i]'(by omega))[col]'(by omega)), ?_, rfl⟩
        rw [List.mem_iff_getElem]
        refine ⟨col, by rw [List.length_zip]; exact lt_min hc1 (hwi ▸ hc1), ?_⟩
        rw [List.getElem_zip, hc2]
    have hstate : ∀ i : Fin m.n, states[i.val]? = some (m.states.getD i.val "") := by
      intro i
      have hi : i.val < m.states.length := by rw [c3]; exact i.isLt
      rw [← es, List.getD_eq_getElem?_getD, List.getElem?_eq_getElem hi]
      rfl
    refine ⟨⟨c1, c2, c3, c4, c5, c6, c7⟩, header, rows, labels, rfl, hsays, es.trans hst, ey.trans hsy, ?_,
      ?_, ?_, ?_⟩
    · rw [← c3, es, h3]
    · intro row hrw
      obtain ⟨i, hi, rfl⟩ := List.getElem_of_mem hrw
      obtain ⟨hi', e⟩ := hrow i (by omega)
      rw [(readCsvRow_cells e).1, ← c3, ← c5, es, ey]
    · intro i j col hcol
      obtain ⟨v, hv, hcv⟩ := hcell i.val "P" _ _ col (hstate i) hcol
      rw [hdesc.transition i j v (lastValue_of_nodup hnd hv)]
      exact hcv
    · intro i j col hcol
      obtain ⟨v, hv, hcv⟩ := hcell i.val "E" _ _ col (hstate i) hcol
      rw [hdesc.emission i j v (lastValue_of_nodup hnd hv)]
      exact hcv

/-! ## C100 -/

/-- C100, text, JSON and XML files. If `from_file` accepts a file then every line, object or element says
exactly one thing, and the chain is the one that these say: the states are the labels that occur with
themselves, no other labels occur, and the probabilities are the last values given, or zero. -/
theorem C100_from_file_partial {parse : String → Option K} {f : FileData K} {c : MC K}
    (h : mcFromFile parse f = .ok c) (hf : ∀ data, f ≠ .csv data) :
    c.Checked ∧ ∃ items, FileSays true parse f items ∧ Describes items c := by
  unfold mcFromFile at h
  cases f with
  | csv data => exact absurd rfl (hf data)
  | txt l =>
    simp only at h
    rw [R.ite_throw, R.bind_ok] at h
    obtain ⟨h0, d, hd, h⟩ := h
    unfold readTxt at hd
    rw [R.bind_ok] at hd
    obtain ⟨items, h1, h2⟩ := hd
    rw [R.pure_ok] at h2
    subst h2
    obtain ⟨c1, c2⟩ := chainOfDict_described h
    exact ⟨c1, items, ⟨fun e => h0 (by rw [e]; rfl),
      (mapM_R_eq_ok.1 h1).imp fun a b => readTxtRow_says⟩, c2⟩
  | json data =>
    simp only at h
    rw [R.bind_ok] at h
    obtain ⟨d, hd, h⟩ := h
    unfold readJson at hd
    rw [R.bind_ok] at hd
    obtain ⟨items, h1, h2⟩ := hd
    rw [R.pure_ok] at h2
    subst h2
    obtain ⟨c1, c2⟩ := chainOfDict_described h
    exact ⟨c1, items, (mapM_R_eq_ok.1 h1).imp fun a b => readJsonObject_says, c2⟩
  | xml data =>
    simp only at h
    rw [R.bind_ok] at h
    obtain ⟨d, hd, h⟩ := h
    unfold readXml at hd
    rw [R.bind_ok] at hd
    obtain ⟨items, h1, h2⟩ := hd
    rw [R.pure_ok] at h2
    subst h2
    obtain ⟨c1, c2⟩ := chainOfDict_described h
    exact ⟨c1, items, (mapM_R_eq_ok.1 h1).imp fun a b => readXmlElement_says, c2⟩

/-- C100, tables. The header holds the states and the cells hold the probabilities. -/
theorem C100_from_table_partial {parse : String → Option K} {data : List (List String)} {c : MC K}
    (h : mcFromFile parse (.csv data) = .ok c) :
    c.Checked ∧ ∃ rows, data = c.states :: rows ∧ "" ∉ c.states ∧ rows.length = c.n ∧
      (∀ row ∈ rows, row.length = c.n) ∧ ∀ i j : Fin c.n, CellIs parse rows i.val j.val (c.p i j) :=
  csvMc_described h

theorem says_references {parse : String → Option K} {f : FileData K} {items : List (List String × K)}
    (h : FileSays false parse f items) : ∀ x ∈ items, x.1.head? = some "E" ∨ x.1.head? = some "P" := by
  intro x hx
  cases f with
  | csv data => exact h.elim
  | txt l =>
    obtain ⟨a, -, ha⟩ := forall₂_right h.2 hx
    exact ha.1.2 rfl
  | json data =>
    obtain ⟨a, -, ha⟩ := forall₂_right h hx
    exact ha.1.2 rfl
  | xml data =>
    obtain ⟨a, -, ha⟩ := forall₂_right h hx
    exact ha.1.2 rfl

/-- C100, hidden Markov models from text, JSON and XML files. -/
theorem C100_hmm_from_file_partial {parse : String → Option K} {f : FileData K} {m : HMM K}
    (h : hmmFromFile parse f = .ok m) (hf : ∀ data, f ≠ .csv data) :
    m.Checked ∧ ∃ items, FileSays false parse f items ∧ DescribesModel items m := by
  have key : ∀ items, FileSays false parse f items → modelOfDict (dictOf items) = .ok m →
      m.Checked ∧ ∃ items, FileSays false parse f items ∧ DescribesModel items m := by
    intro items h1 h2
    obtain ⟨c1, c2⟩ := modelOfDict_described (says_references h1) h2
    exact ⟨c1, items, h1, c2⟩
  unfold hmmFromFile at h
  cases f with
  | csv data => exact absurd rfl (hf data)
  | txt l =>
    simp only at h
    rw [R.ite_throw, R.bind_ok] at h
    obtain ⟨h0, d, hd, h⟩ := h
    unfold readTxt at hd
    rw [R.bind_ok] at hd
    obtain ⟨items, h1, h2⟩ := hd
    rw [R.pure_ok] at h2
    subst h2
    exact key items ⟨fun e => h0 (by rw [e]; rfl), (mapM_R_eq_ok.1 h1).imp fun a b => readTxtRow_says⟩ h
  | json data =>
    simp only at h
    rw [R.bind_ok] at h
    obtain ⟨d, hd, h⟩ := h
    unfold readJson at hd
    rw [R.bind_ok] at hd
    obtain ⟨items, h1, h2⟩ := hd
    rw [R.pure_ok] at h2
    subst h2
    exact key items ((mapM_R_eq_ok.1 h1).imp fun a b => readJsonObject_says) h
  | xml data =>
    simp only at h
    rw [R.bind_ok] at h
    obtain ⟨d, hd, h⟩ := h
    unfold readXml at hd
    rw [R.bind_ok] at hd
    obtain ⟨items, h1, h2⟩ := hd
    rw [R.pure_ok] at h2
    subst h2
    exact key items ((mapM_R_eq_ok.1 h1).imp fun a b => readXmlElement_says) h

/-- C100, hidden Markov models from tables. -/
theorem C100_hmm_from_table_partial {parse : String → Option K} {data : List (List String)} {m : HMM K}
    (h : hmmFromFile parse (.csv data) = .ok m) :
    m.Checked ∧ ∃ header rows labels, data = header :: rows ∧ List.Forall₂ HeaderSays header labels ∧
      m.states = (labels.filter fun x => x.1 = "P").map Prod.snd ∧
      m.symbols = (labels.filter fun x => x.1 = "E").map Prod.snd ∧
      rows.length = m.n ∧ (∀ row ∈ rows, row.length = m.n + m.k) ∧
      (∀ (i j : Fin m.n) col, labels[col]? = some ("P", m.states.getD j.val "") →
        CellIs parse rows i.val col (m.p i j)) ∧
      ∀ (i : Fin m.n) (j : Fin m.k) col, labels[col]? = some ("E", m.symbols.getD j.val "") →
        CellIs parse rows i.val col (m.e i j) :=
  csvHmm_described h

end

/-! ## Files that should have been rejected -/

/-- A JSON file that gives a pair the probability 2 and another the probability -1. -/
def exNegativeFile : FileData ℚ :=
  .json [[("state_from", .str "a"), ("state_to", .str "a"), ("probability", .int 2)],
    [("state_from", .str "a"), ("state_to", .str "b"), ("probability", .int (-1))],
    [("state_from", .str "b"), ("state_to", .str "b"), ("probability", .int 1)]]

/-- The labels and the probabilities of the result. -/
def readContents (r : R (MC ℚ)) : Option (List String × List (List ℚ)) :=
  r.toOption.map fun c => (c.states, List.ofFn fun i => List.ofFn fun j => c.p i j)

/-- The probabilities are not checked: the file is accepted, the missing pair counts as zero, and the
result is not a Markov chain. A dictionary with the same contents is rejected. -/
theorem C100_negative_probability (parse : String → Option ℚ) :
    (∃ c, mcFromFile parse exNegativeFile = .ok c ∧ c.states = ["a", "b"] ∧ ¬ c.Valid ∧
      (∃ i j, c.p i j = 2) ∧ ∃ i j, c.p i j = -1) ∧
    (fromDictionary ([(["a", "a"], .int 2), (["a", "b"], .int (-1)), (["b", "a"], .int 0),
      (["b", "b"], .int 1)] : PyDict (PyVal ℚ))).toOption.isNone = true := by
  refine ⟨?_, by decide +kernel⟩
  have h : readContents (mcFromFile parse exNegativeFile) =
      some (["a", "b"], [[2, -1], [0, 1]]) := by
    change readContents (readJson true _ >>= fun d => chainOfDict d) = _
    decide +kernel
  cases hc : mcFromFile parse exNegativeFile with
  | error e => rw [hc] at h; cases h
  | ok c =>
    rw [hc] at h
    obtain ⟨n, p, states⟩ := c
    injection h with h
    injection h with h1 h2
    have hn := congrArg List.length h2
    rw [List.length_ofFn] at hn
    change n = 2 at hn
    subst hn
    have h2 : (List.ofFn fun i => List.ofFn fun j => p i j) = [[2, -1], [0, 1]] := h2
    simp only [List.ofFn_succ, List.ofFn_zero, List.cons.injEq, and_true] at h2
    obtain ⟨⟨e1, e2⟩, e3, e4⟩ := h2
    have e2 : p 0 1 = -1 := e2
    refine ⟨_, rfl, h1, fun hv => ?_, ⟨0, 0, e1⟩, 0, 1, e2⟩
    have := hv.2.1.1 (0 : Fin 2) (1 : Fin 2)
    change 0 ≤ p 0 1 at this
    rw [e2] at this
    exact absurd this (by decide +kernel)

/-- The conversion of a few strings. -/
def exFewNumbers (s : String) : Option ℚ := if s = "1" then some 1 else if s = "0" then some 0 else none

/-- A state whose label is empty is accepted. -/
theorem C100_empty_label : ∃ m, hmmFromFile exFewNumbers
    (.csv [["P_ ", "P_b", "E_u", "E_v"], ["1", "0", "0", "1"], ["0", "1", "1", "0"]]) = .ok m ∧
    m.states = ["", "b"] ∧ ¬ m.Valid := by
  have h : (hmmFromFile exFewNumbers (.csv [["P_ ", "P_b", "E_u", "E_v"], ["1", "0", "0", "1"],
      ["0", "1", "1", "0"]])).toOption.map HMM.states = some ["", "b"] := by
    decide +kernel
  cases hc : hmmFromFile exFewNumbers
    (.csv [["P_ ", "P_b", "E_u", "E_v"], ["1", "0", "0", "1"], ["0", "1", "1", "0"]]) with
  | error e => rw [hc] at h; cases h
  | ok m =>
    rw [hc] at h
    injection h with h
    refine ⟨m, rfl, h, fun hv => ?_⟩
    have := hv.2.2.2.2.1.2.2 "" (by rw [h]; exact List.mem_cons_self)
    revert this
    decide +kernel

/-- Files that are accepted: later values replace earlier ones, and whitespace around XML attributes
does not count. -/
theorem C100_instance :
    readContents (mcFromFile exFewNumbers (.txt "a a 1\na b 1\nb b 1\na a 0\n".toList)) =
      some (["a", "b"], [[0, 1], [0, 1]]) ∧
    readContents (mcFromFile exFewNumbers (.csv [["a", "b"], ["1", "0"], ["0", "1"]])) =
      some (["a", "b"], [[1, 0], [0, 1]]) ∧
    readContents (mcFromFile exFewNumbers
      (.xml [[("state_from", "a"), ("state_to", " a "), ("probability", "1")],
        [("state_to", "b"), ("probability", " 1"), ("state_from", "b")]])) =
      some (["a", "b"], [[1, 0], [0, 1]]) ∧
    readContents (mcFromFile exFewNumbers (.txt "a a 1\na b 1 1\nb b 1\n".toList)) = none := by
  refine ⟨?_, ?_, ?_, ?_⟩ <;> decide +kernel

end Verif
