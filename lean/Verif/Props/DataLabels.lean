import Verif.Model.DataLabels
import Verif.Props.Validation
import Mathlib.Data.String.Basic

/-!
# Labels from data (C179)
-/

namespace Verif

variable {K : Type}

/-- The label of a string. -/
def labelled (pre s : String) : String := if pre.length > 0 then pre ++ "_" ++ s else s

theorem labelled_injective (pre : String) : Function.Injective (labelled pre) := by
  intro a b h
  unfold labelled at h
  split at h
  · have h' := congrArg String.toList h
    simpa only [String.toList_append, List.append_cancel_left_eq, String.toList_inj] using h'
  · exact h

theorem labelled_nonBlank (pre : String) {s : String} (h : nonBlank s = true) : nonBlank (labelled pre s) = true := by
  unfold labelled
  split
  · unfold nonBlank at h ⊢
    rw [String.toList_append, List.any_append, h, Bool.or_true]
  · exact h

theorem dataLabels_eq (l : List (PyVal K)) (pre : String) :
    dataLabels l pre = if l.all PyVal.isInteger then
      some (createLabels (l.map PyVal.asInt).toFinset.card pre, (l.map PyVal.asInt).toFinset.card)
    else if l.all PyVal.isString then
      some ((((l.map PyVal.asStr).dedup.insertionSort (· ≤ ·)).map (labelled pre)), (l.map PyVal.asStr).toFinset.card)
    else none := by
  unfold dataLabels
  simp only [List.card_toFinset]
  rfl

/-- C179. Labels are returned exactly for lists of integers or of non-blank strings with at least two different
values. -/
theorem C179_returned (v : PyVal K) (pre : String) : (createLabelsFromData v pre).isSome = true ↔
    ∃ l, v = .list l ∧
      ((l.all PyVal.isInteger = true ∧ 2 ≤ (l.map PyVal.asInt).toFinset.card) ∨
        (l.all PyVal.isString = true ∧ 2 ≤ (l.map PyVal.asStr).toFinset.card)) := by
  cases v with
  | list l =>
    unfold createLabelsFromData
    dsimp only
    rw [dataLabels_eq]
    by_cases h1 : l.all PyVal.isInteger = true
    · rw [if_pos h1]
      dsimp only
      rw [(C71_create_labels _ pre).1]
      have hs : l.all PyVal.isString = true → l = [] := by
        intro h2
        cases l with
        | nil => rfl
        | cons a l =>
          simp only [List.all_cons, Bool.and_eq_true] at h1 h2
          cases a <;> simp [PyVal.isInteger, PyVal.isString] at h1 h2
      constructor
      · intro h
        refine ⟨l, rfl, Or.inl ⟨h1, ?_⟩⟩
        by_contra hc
        rw [if_pos (by omega)] at h
        simp at h
      · rintro ⟨m, e, h⟩
        cases e
        have : 2 ≤ (l.map PyVal.asInt).toFinset.card := by
          rcases h with h | h
          · exact h.2
          · rw [hs h.1] at h
            simp at h
        rw [if_neg (by omega), if_neg (by omega)]
        rfl
    · rw [if_neg h1]
      by_cases h2 : l.all PyVal.isString = true
      · rw [if_pos h2]
        dsimp only
        rw [List.length_map, List.length_insertionSort, ← List.card_toFinset]
        constructor
        · intro h
          refine ⟨l, rfl, Or.inr ⟨h2, ?_⟩⟩
          by_contra hc
          rw [if_pos (by omega)] at h
          simp at h
        · rintro ⟨m, e, h⟩
          cases e
          have : 2 ≤ (l.map PyVal.asStr).toFinset.card := by
            rcases h with h | h
            · exact absurd h.1 h1
            · exact h.2
          rw [if_neg (by omega), if_neg (by omega)]
          rfl
      · rw [if_neg h2]
        constructor
        · intro h
          simp at h
        · rintro ⟨m, e, h⟩
          cases e
          rcases h with h | h
          · exact absurd h.1 h1
          · exact absurd h.1 h2
  | _ => simp [createLabelsFromData]

/-- C179. What is returned: for integers the prefix followed by the numbers from one, for strings the different
strings in increasing order, each after the prefix and an underscore if there is a prefix. -/
theorem C179_result {v : PyVal K} {pre : String} {labels : List String}
    (h : createLabelsFromData v pre = some labels) :
    ∃ l, v = .list l ∧ 2 ≤ labels.length ∧
      ((l.all PyVal.isInteger = true ∧ labels = createLabels (l.map PyVal.asInt).toFinset.card pre) ∨
        (l.all PyVal.isString = true ∧ ∃ names : List String, labels = names.map (labelled pre) ∧
          names.Pairwise (· < ·) ∧ ∀ s, s ∈ names ↔ PyVal.str s ∈ l)) := by
  cases v with
  | list l =>
    unfold createLabelsFromData at h
    dsimp only at h
    rw [dataLabels_eq] at h
    refine ⟨l, rfl, ?_⟩
    by_cases h1 : l.all PyVal.isInteger = true
    · rw [if_pos h1] at h
      dsimp only at h
      split at h
      · cases h
      · split at h
        · cases h
        · cases h
          exact ⟨by omega, Or.inl ⟨h1, rfl⟩⟩
    · rw [if_neg h1] at h
      by_cases h2 : l.all PyVal.isString = true
      · rw [if_pos h2] at h
        dsimp only at h
        split at h
        · cases h
        · split at h
          · cases h
          · cases h
            refine ⟨by omega, Or.inr ⟨h2, _, rfl, ?_, ?_⟩⟩
            · have hs := List.pairwise_insertionSort (· ≤ ·) (l.map PyVal.asStr).dedup
              have hn : ((l.map PyVal.asStr).dedup.insertionSort (· ≤ ·)).Nodup :=
                (List.perm_insertionSort _ _).nodup_iff.2 (List.nodup_dedup _)
              exact hs.imp₂ (fun a b hab hne => lt_of_le_of_ne hab hne) hn
            · intro s
              rw [(List.perm_insertionSort _ _).mem_iff, List.mem_dedup, List.mem_map]
              constructor
              · rintro ⟨a, ha, rfl⟩
                have := List.all_eq_true.1 h2 a ha
                cases a <;> simp_all [PyVal.isString, PyVal.asStr]
              · intro hs
                exact ⟨_, hs, rfl⟩
      · rw [if_neg h2] at h
        cases h
  | _ => cases h

/-- C179. The returned labels are accepted as the names of as many states. -/
theorem C179_valid {v : PyVal K} {pre : String} {labels : List String}
    (h : createLabelsFromData v pre = some labels) : 2 ≤ labels.length ∧ ValidLabels labels.length labels := by
  obtain ⟨l, rfl, h2, h3⟩ := C179_result h
  refine ⟨h2, rfl, ?_⟩
  rcases h3 with ⟨-, rfl⟩ | ⟨hl, names, rfl, hp, hm⟩
  · exact ⟨(C71_create_labels _ pre).2.1, (C71_create_labels _ pre).2.2.1⟩
  · refine ⟨(hp.imp fun h => ne_of_lt h).map _ fun a b hab => (labelled_injective pre).ne hab, ?_⟩
    intro s hs
    obtain ⟨t, ht, rfl⟩ := List.mem_map.1 hs
    refine labelled_nonBlank pre ?_
    have := List.all_eq_true.1 hl _ ((hm t).1 ht)
    exact this

/-- C179. Strings without a prefix: the data are a sequence of states for these labels. -/
theorem C179_sequence {l : List (PyVal K)} {labels : List String} (hl : l.all PyVal.isString = true)
    (h : createLabelsFromData (.list l) "" = some labels) :
    ∃ r, validateSequence (.list l) labels = .ok r ∧ r.map (fun k => labels[k]?) = l.map fun a => some a.asStr := by
  obtain ⟨m, e, h2, h3⟩ := C179_result h
  cases e
  have hne : l ≠ [] := by
    rintro rfl
    have := h
    unfold createLabelsFromData dataLabels createLabels at this
    simp at this
  have hint : ¬ l.all PyVal.isInteger = true := by
    intro h1
    obtain ⟨a, ha⟩ := List.exists_mem_of_ne_nil l hne
    have e1 := List.all_eq_true.1 h1 a ha
    have e2 := List.all_eq_true.1 hl a ha
    cases a <;> simp [PyVal.isInteger, PyVal.isString] at e1 e2
  rcases h3 with ⟨h3, -⟩ | ⟨-, names, rfl, hp, hm⟩
  · exact absurd h3 hint
  have hid : names.map (labelled "") = names := by
    have : labelled "" = id := by
      funext s
      simp [labelled]
    rw [this, List.map_id]
  rw [hid] at h2 ⊢
  have hmem : ∀ a ∈ l, a.asStr ∈ names := by
    intro a ha
    have := List.all_eq_true.1 hl a ha
    cases a with
    | str s => exact (hm s).2 ha
    | _ => simp [PyVal.isString] at this
  have hlen : ¬ l.length < 2 := by
    intro hlt
    match l, hlt with
    | [], _ => exact hne rfl
    | [a], _ =>
      have hsub : names ⊆ [a.asStr] := by
        intro s hs
        have := (hm s).1 hs
        rw [List.mem_singleton] at this
        rw [← this]
        exact List.mem_singleton.2 rfl
      have hnd : names.Nodup := hp.imp fun h => ne_of_lt h
      have := (hnd.subperm hsub).length_le
      simp at this
      omega
  have hmap : ∀ l : List (PyVal K), (∀ a ∈ l, a.asStr ∈ names) →
      l.mapM (fun v => labelIndex names v.asStr) = some (l.map fun a => names.idxOf a.asStr) := by
    intro l
    induction l with
    | nil => intro _; rfl
    | cons a l ih =>
      intro hin
      rw [List.mapM_cons, ih fun b hb => hin b (List.mem_cons_of_mem _ hb)]
      unfold labelIndex
      rw [if_pos (hin a List.mem_cons_self)]
      rfl
  refine ⟨l.map fun a => names.idxOf a.asStr, ?_, ?_⟩
  · unfold validateSequence resolveList resolveStrs
    dsimp only
    rw [if_neg hlen, if_neg hint, if_pos hl, hmap l hmem]
    rfl
  · rw [List.map_map]
    refine List.map_congr_left fun a ha => ?_
    exact List.getElem?_idxOf (hmem a ha)

/-- C179 fails for integers: the labels are the numbers from one, and the data need not be positions. -/
theorem C179_integers : createLabelsFromData (.list [.int 5, .int 7, .int 5] : PyVal ℚ) "" = some ["1", "2"] ∧
    (validateSequence (.list [.int 5, .int 7, .int 5] : PyVal ℚ) ["1", "2"]).toOption = none := by
  decide +kernel

example : createLabelsFromData (.list [.str "b", .str "a", .str "b"] : PyVal ℚ) "X" = some ["X_a", "X_b"] ∧
    createLabelsFromData (.list [.str "b", .str "b"] : PyVal ℚ) "" = none := by
  decide +kernel

end Verif
