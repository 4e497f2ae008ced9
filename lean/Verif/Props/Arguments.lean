import Verif.Props.Validation
import Mathlib.Data.List.Sort

/-!
# Properties C03-C05: numeric limits, state arguments, partitions
-/

set_option linter.unusedSectionVars false

namespace Verif

variable {K : Type} [Field K] [LinearOrder K] [IsStrictOrderedRing K]

/-! ## C03 -/

/-- Membership in the interval described by optional limits; `true` marks an open end. -/
def WithinLimits {α : Type} [LinearOrder α] (x : α) (lower upper : Option (α × Bool)) : Prop :=
  (∀ b, lower = some (b, true) → b < x) ∧ (∀ b, lower = some (b, false) → b ≤ x) ∧
  (∀ b, upper = some (b, true) → x < b) ∧ (∀ b, upper = some (b, false) → x ≤ b)

theorem validateLimits_iff {α : Type} [LinearOrder α] (x : α) (lower upper : Option (α × Bool)) :
    validateLimits x lower upper = .ok () ↔ WithinLimits x lower upper := by
  unfold validateLimits WithinLimits
  rcases lower with _ | ⟨b, _ | _⟩ <;> rcases upper with _ | ⟨b', _ | _⟩ <;>
    simp [bind, Except.bind, pure, Except.pure, throw, throwThe,
      MonadExceptOf.throw] <;>
    (try split) <;> (try split) <;> simp_all

/-- C03. A bounded integer argument is accepted exactly when it is an integer inside the limits. -/
theorem C03_integer_limits (v : PyVal K) (lower upper : Option (ℤ × Bool)) (z : ℤ) :
    validateInteger v lower upper = .ok z ↔ v = .int z ∧ WithinLimits z lower upper := by
  cases v with
  | int y =>
    simp only [validateInteger, R.bind_ok, R.pure_ok, PyVal.int.injEq]
    constructor
    · rintro ⟨⟨⟩, h, rfl⟩; exact ⟨rfl, (validateLimits_iff _ _ _).1 h⟩
    · rintro ⟨rfl, h⟩; exact ⟨(), (validateLimits_iff _ _ _).2 h, rfl⟩
  | _ => simp [validateInteger]

/-- C03. A bounded float argument is accepted exactly when it is a finite float inside the
limits. -/
theorem C03_float_limits (v : PyVal K) (lower upper : Option (K × Bool)) (x : K) :
    validateFloat v lower upper = .ok x ↔ v = .float (.fin x) ∧ WithinLimits x lower upper := by
  cases v with
  | float y =>
    cases y with
    | fin y =>
      simp only [validateFloat, R.bind_ok, R.pure_ok, PyVal.float.injEq, Flt.fin.injEq]
      constructor
      · rintro ⟨⟨⟩, h, rfl⟩; exact ⟨rfl, (validateLimits_iff _ _ _).1 h⟩
      · rintro ⟨rfl, h⟩; exact ⟨(), (validateLimits_iff _ _ _).2 h, rfl⟩
    | _ => simp [validateFloat]
  | _ => simp [validateFloat]

/-- `steps` arguments: `lower_limit=(0, True)` means "at least one step". -/
theorem C03_steps_positive (v : PyVal K) (z : ℤ) :
    validateInteger v (some (0, true)) none = .ok z ↔ v = .int z ∧ 1 ≤ z := by
  rw [C03_integer_limits]
  simp only [WithinLimits, Option.some.injEq, Prod.mk.injEq, and_true, forall_eq', reduceCtorEq,
    and_false, false_implies, implies_true, Bool.true_eq_false]
  constructor <;> rintro ⟨rfl, h⟩ <;> exact ⟨rfl, by omega⟩

/-- `significance` arguments: accepted exactly on the half-open interval `(0, 0.2]`. -/
theorem C03_significance (x : K) (y : K) :
    validateFloat (.float (.fin x)) (some (0, true)) (some (1 / 5, false)) = .ok y ↔
      y = x ∧ 0 < x ∧ x ≤ 1 / 5 := by
  rw [C03_float_limits]
  simp only [WithinLimits, Option.some.injEq, Prod.mk.injEq, and_true, forall_eq',
    and_false, false_implies, implies_true, true_and, Bool.false_eq_true, Bool.true_eq_false,
    PyVal.float.injEq, Flt.fin.injEq]
  constructor
  · rintro ⟨rfl, h, h'⟩; exact ⟨rfl, h, h'⟩
  · rintro ⟨rfl, h, h'⟩; exact ⟨rfl, h, h'⟩

example : validateInteger (.int 1 : PyVal ℚ) (some (0, true)) none = .ok 1 :=
  (C03_steps_positive _ _).2 ⟨rfl, le_rfl⟩
example : ¬ ∃ z, validateInteger (.int 0 : PyVal ℚ) (some (0, true)) none = .ok z := by
  rintro ⟨z, hz⟩
  obtain ⟨h, h'⟩ := (C03_steps_positive _ _).1 hz
  cases h
  omega

/-! ## C04 -/

/-- C04 for a single state argument: exactly the named state is returned. -/
theorem C04_single_label {labels : List String} (hn : labels.Nodup) (v : PyVal K) (i : ℕ) :
    validateLabel v labels = .ok i ↔ Names labels v i := by
  unfold validateLabel
  cases v with
  | int z =>
    simp only [PyVal.isInteger, if_true, PyVal.asInt, Names,
      PyVal.int.injEq, reduceCtorEq, false_and, exists_false, or_false]
    erw [R.ite_throw, R.pure_ok]
    constructor
    · rintro ⟨h, rfl⟩; constructor <;> omega
    · rintro ⟨rfl, h⟩; constructor
      · omega
      · simp
  | str s =>
    simp only [PyVal.isInteger, Bool.false_eq_true, if_false, PyVal.isString, PyVal.asStr, Names,
      reduceCtorEq, false_and, false_or, PyVal.str.injEq, exists_eq_left']
    by_cases hs : nonBlank s = true
    · simp only [hs, if_true, true_and]
      rw [← labelIndex_eq_some hn]
      cases labelIndex labels s <;> simp
    · simp [hs]
  | _ => simp [PyVal.isInteger, PyVal.isString, Names]

/-- C04 for several states: a list argument is accepted exactly when it names distinct existing
states in a uniform way (all by index or all by label) and their number is within the documented
bounds; the result is the increasing list of exactly the named states. -/
theorem C04_label_lists {labels : List String} (hn : labels.Nodup) (l : List (PyVal K))
    (subset : Bool) (m : Option ℕ) (r : List ℕ) :
    validateLabelsCurrent (.list l) labels subset m = .ok r ↔
      Homogeneous l ∧ (∃ ks, List.Forall₂ (Names labels) l ks ∧ ks.Perm r) ∧
        r.Pairwise (· < ·) ∧ max 1 (m.getD 1) ≤ r.length ∧
        r.length ≤ (if subset then labels.length - 1 else labels.length) := by
  have sorted_iff : ∀ ks : List ℕ, ks.insertionSort (· ≤ ·) = r ∧ ks.Nodup ↔
      ks.Perm r ∧ r.Pairwise (· < ·) := by
    intro ks
    constructor
    · rintro ⟨rfl, h⟩
      refine ⟨(List.perm_insertionSort (· ≤ ·) ks).symm, ?_⟩
      have h1 : (ks.insertionSort (· ≤ ·)).Pairwise (· ≤ ·) := List.pairwise_insertionSort _ _
      have h2 : (ks.insertionSort (· ≤ ·)).Nodup := (List.perm_insertionSort (· ≤ ·) ks).nodup_iff.2 h
      exact (h1.and h2).imp fun ⟨a, b⟩ => lt_of_le_of_ne a b
    · rintro ⟨h1, h2⟩
      have hr : r.Nodup := h2.imp fun h => ne_of_lt h
      refine ⟨?_, h1.nodup_iff.2 hr⟩
      have h3 : (ks.insertionSort (· ≤ ·)).Pairwise (· ≤ ·) := List.pairwise_insertionSort _ _
      exact List.Perm.eq_of_pairwise (fun _ _ _ _ h h' => le_antisymm h h') h3
        (h2.imp le_of_lt) ((List.perm_insertionSort (· ≤ ·) ks).trans h1)
  have len_iff : ∀ len mx : ℕ, (¬ len = 0 ∧ ¬ lengthRejected len mx m = true) ↔
      max 1 (m.getD 1) ≤ len ∧ len ≤ mx := by
    intro len mx
    cases m with
    | none => simp [lengthRejected]; omega
    | some m =>
      by_cases h : m = 1
      · simp [lengthRejected, h]; omega
      · simp [lengthRejected, h]; omega
  simp only [validateLabelsCurrent]
  rw [R.bind_ok]
  constructor
  · rintro ⟨ks, h1, h2⟩
    rw [resolve_ok hn] at h1
    rw [R.ite_throw, R.ite_throw, R.ite_throw, R.pure_ok, not_not] at h2
    obtain ⟨hnd, hne, hl, hs⟩ := h2
    obtain ⟨hp, hlt⟩ := (sorted_iff ks).1 ⟨hs, hnd⟩
    refine ⟨h1.1, ⟨ks, h1.2, hp⟩, hlt, ?_⟩
    rw [← hp.length_eq]
    exact (len_iff _ _).1 ⟨hne, hl⟩
  · rintro ⟨hh, ⟨ks, h1, hp⟩, hlt, hlen⟩
    obtain ⟨hs, hnd⟩ := (sorted_iff ks).2 ⟨hp, hlt⟩
    rw [← hp.length_eq] at hlen
    obtain ⟨hne, hl⟩ := (len_iff _ _).2 hlen
    refine ⟨ks, (resolve_ok hn).2 ⟨hh, h1⟩, ?_⟩
    rw [R.ite_throw, R.ite_throw, R.ite_throw, R.pure_ok, not_not]
    exact ⟨hnd, hne, hl, hs⟩

/-- C04 for a single value passed where several are allowed: the result is the named state. -/
theorem C04_single_value {labels : List String} (hn : labels.Nodup) (v : PyVal K)
    (hv : ∀ l, v ≠ .list l) (subset : Bool) (m : Option ℕ) (r : List ℕ) :
    validateLabelsCurrent v labels subset m = .ok r ↔ ∃ i, Names labels v i ∧ r = [i] := by
  cases v with
  | int z =>
    simp only [validateLabelsCurrent, Names, PyVal.int.injEq, reduceCtorEq, false_and, exists_false,
      or_false]
    rw [R.ite_throw, R.pure_ok]
    constructor
    · rintro ⟨h, rfl⟩; exact ⟨z.toNat, ⟨by omega, by omega⟩, rfl⟩
    · rintro ⟨i, ⟨rfl, h⟩, rfl⟩; exact ⟨by omega, by simp⟩
  | str s =>
    simp only [validateLabelsCurrent, Names, reduceCtorEq, false_and, false_or, PyVal.str.injEq,
      exists_eq_left']
    by_cases hs : nonBlank s = true
    · simp only [hs, if_true, true_and]
      simp only [← labelIndex_eq_some hn]
      cases labelIndex labels s with
      | none => simp
      | some k =>
        simp only [R.pure_ok, Option.some.injEq, exists_eq_left']
        exact eq_comm
    · simp [hs]
  | list l => exact absurd rfl (hv l)
  | _ => simp [validateLabelsCurrent, Names]

/-- C04 is violated for single values: the requested minimum number of states (two) is not
enforced when one state is passed as a plain index. -/
theorem C04_minimum_not_enforced :
    ∃ (labels : List String) (v : PyVal ℚ) (r : List ℕ), labels.Nodup ∧
      validateLabelsCurrent v labels false (some 2) = .ok r ∧ r.length < 2 :=
  ⟨["a", "b", "c"], .int 0, [0], by decide, by decide, by decide⟩

/-- C04 for sequences: accepted exactly when it has two elements or more that uniformly name
existing states; the result lists those states in order. -/
theorem C04_sequences {labels : List String} (hn : labels.Nodup) (v : PyVal K) (r : List ℕ) :
    validateSequence v labels = .ok r ↔
      ∃ l, v = .list l ∧ 2 ≤ l.length ∧ Homogeneous l ∧ List.Forall₂ (Names labels) l r := by
  cases v with
  | list l =>
    simp only [validateSequence]
    rw [R.ite_throw, resolve_ok hn]
    constructor
    · rintro ⟨h1, h2⟩; exact ⟨l, rfl, by omega, h2⟩
    · rintro ⟨l', h, h1, h2⟩; cases h; exact ⟨by omega, h2⟩
  | _ => simp [validateSequence]

example : validateLabelsCurrent (.list [.str "c", .str "a"] : PyVal ℚ) ["a", "b", "c"] true none =
    .ok [0, 2] := by decide +kernel
example : validateSequence (.list [.int 2, .int 0, .int 0] : PyVal ℚ) ["a", "b", "c"] =
    .ok [2, 0, 0] := by decide

/-! ## C05 -/

theorem cutGroups_flatten {α β : Type} (gs : List (List β)) :
    ∀ l : List α, l.length = (gs.map List.length).sum →
      (cutGroups (gs.map List.length) l).flatten = l := by
  induction gs with
  | nil => intro l h; simp at h; simp [cutGroups, h]
  | cons g gs ih =>
    intro l h
    simp only [List.map_cons, List.sum_cons] at h
    simp only [List.map_cons, cutGroups, List.flatten_cons]
    rw [ih (l.drop g.length) (by simp; omega), List.take_append_drop]

theorem cutGroups_lengths {α : Type} (gs : List ℕ) :
    ∀ l : List α, l.length = gs.sum → (cutGroups gs l).map List.length = gs := by
  induction gs with
  | nil => intro l _; simp [cutGroups]
  | cons g gs ih =>
    intro l h
    simp only [List.sum_cons] at h
    simp only [cutGroups, List.map_cons, List.length_take, List.cons.injEq]
    exact ⟨by omega, ih _ (by simp; omega)⟩

theorem forall₂_flatten {α β : Type} {r : α → β → Prop} :
    ∀ (gs : List (List α)) (ks : List β), List.Forall₂ r gs.flatten ks →
      List.Forall₂ (List.Forall₂ r) gs (cutGroups (gs.map List.length) ks) := by
  intro gs
  induction gs with
  | nil => intro ks _; simp [cutGroups]
  | cons g gs ih =>
    intro ks h
    simp only [List.flatten_cons] at h
    simp only [List.map_cons, cutGroups, List.forall₂_cons]
    have h1 := List.forall₂_take g.length h
    have h2 := List.forall₂_drop g.length h
    rw [List.take_left] at h1
    rw [List.drop_left] at h2
    exact ⟨h1, ih _ h2⟩

/-- C05. Whatever is accepted as a partition consists of as many groups as were passed, group by
group naming exactly the passed states, and together the groups list all states once, in order. -/
theorem C05_partitions_sound {labels : List String} (hn : labels.Nodup) {v : PyVal K}
    {g : List (List ℕ)} (h : validatePartitions v labels = .ok g) :
    g.flatten = List.range labels.length ∧ 2 ≤ g.length ∧ g.length < labels.length ∧
      ∃ groups : List (List (PyVal K)), v = .list (groups.map .list) ∧
        List.Forall₂ (List.Forall₂ (Names labels)) groups g := by
  unfold validatePartitions at h
  split at h
  · next parts =>
    rw [R.ite_throw, R.bind_ok] at h
    obtain ⟨h1, groups, h2, h3⟩ := h
    rw [R.bind_ok] at h3
    obtain ⟨value, h4, h5⟩ := h3
    rw [R.ite_throw, R.pure_ok] at h5
    obtain ⟨h6, rfl⟩ := h5
    rw [resolve_ok hn] at h4
    push Not at h6 h1
    have hparts : parts = groups.map .list := by
      rw [mapM_R_eq_ok] at h2
      clear h4 h6 h1
      induction h2 with
      | nil => rfl
      | @cons a b l l' h _ ih =>
        cases a <;> simp [asGroup] at h
        subst h
        simp [ih]
    have hlen : groups.length = parts.length := by rw [hparts]; simp
    have hsum : value.length = (groups.map List.length).sum := by
      rw [← h4.2.length_eq, List.length_flatten]
    have hcl : (cutGroups (groups.map List.length) value).length = groups.length := by
      have := congrArg List.length (cutGroups_lengths _ _ hsum)
      simpa using this
    refine ⟨?_, by omega, by omega, groups, by rw [hparts], forall₂_flatten _ _ h4.2⟩
    rw [cutGroups_flatten _ _ hsum, h6.2.2]
  · simp at h

/-- The accepted groups are pairwise disjoint and every state lies in exactly one of them. -/
theorem C05_each_state_in_one_group {labels : List String} (hn : labels.Nodup) {v : PyVal K}
    {g : List (List ℕ)} (h : validatePartitions v labels = .ok g) :
    g.Pairwise List.Disjoint ∧ ∀ i, i < labels.length ↔ ∃ b ∈ g, i ∈ b := by
  have h1 := (C05_partitions_sound hn h).1
  constructor
  · have : g.flatten.Nodup := by rw [h1]; exact List.nodup_range
    exact (List.nodup_flatten.1 this).2
  · intro i
    rw [← List.mem_range, ← h1, List.mem_flatten]

/-- Non-trivial instance. -/
example : validatePartitions (.list [.list [.int 0, .int 1], .list [.int 2]] : PyVal ℚ)
    ["a", "b", "c"] = .ok [[0, 1], [2]] := by decide

/-- Empty groups are accepted as well, although lumping with an empty group is impossible (the
matrix inverted by `lump` is then singular, see `C22`). -/
theorem C05_empty_groups_accepted :
    validatePartitions (.list [.list [.int 0, .int 1, .int 2], .list []] : PyVal ℚ)
      ["a", "b", "c"] = .ok [[0, 1, 2], []] := by decide

end Verif
