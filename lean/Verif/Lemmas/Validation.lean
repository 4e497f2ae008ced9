import Verif.Model.Construct
import Verif.Spec.Args
import Mathlib.Tactic.Linarith
import Mathlib.Data.List.OfFn
import Mathlib.Algebra.BigOperators.Group.List.Basic
import Mathlib.Data.List.Range
import Mathlib.Data.List.GetD

/-! Helper lemmas for the validation layer. -/

set_option linter.unusedSectionVars false

namespace Verif

variable {K : Type} [Field K] [LinearOrder K]

/-! ### `Except` bookkeeping -/

theorem R.bind_ok {α β : Type} (x : R α) (f : α → R β) (b : β) :
    (x >>= f) = .ok b ↔ ∃ a, x = .ok a ∧ f a = .ok b := by
  cases x with
  | error e => simp [bind, Except.bind]
  | ok a => simp [bind, Except.bind]

@[simp] theorem R.pure_ok {α : Type} (a b : α) : ((pure a : R α) = .ok b) ↔ a = b := by
  simp [pure, Except.pure]

@[simp] theorem R.throw_ok {α : Type} (e : Err) (b : α) : ((throw e : R α) = .ok b) ↔ False := by
  simp [throw, throwThe, MonadExceptOf.throw]

theorem R.ite_throw {α : Type} (c : Prop) [Decidable c] (e : Err) (x : R α) (b : α) :
    (if c then throw e else x) = .ok b ↔ ¬ c ∧ x = .ok b := by
  split <;> simp_all

theorem R.ite_throw' {α : Type} (c : Prop) [Decidable c] (e : Err) (x : R α) (b : α) :
    (if c then x else throw e) = .ok b ↔ c ∧ x = .ok b := by
  split <;> simp_all

/-! ### labels -/

theorem labelIndex_eq_some {labels : List String} (hl : labels.Nodup) {s : String} {k : ℕ} :
    labelIndex labels s = some k ↔ labels[k]? = some s := by
  unfold labelIndex
  constructor
  · intro h
    split at h
    · next hm =>
      cases h
      rw [List.getElem?_eq_getElem (List.idxOf_lt_length_iff.2 hm)]
      simp
    · cases h
  · intro h
    obtain ⟨hk, rfl⟩ := List.getElem?_eq_some_iff.1 h
    rw [if_pos (List.getElem_mem hk), hl.idxOf_getElem]

theorem mapM_option_eq_some {α β : Type} {f : α → Option β} {l : List α} {r : List β} :
    l.mapM f = some r ↔ List.Forall₂ (fun a b => f a = some b) l r := by
  induction l generalizing r with
  | nil => simp [pure, eq_comm]
  | cons a l ih =>
    simp only [List.mapM_cons, Option.bind_eq_bind, Option.bind_eq_some_iff, Option.pure_def,
      Option.some.injEq, List.forall₂_cons_left_iff]
    constructor
    · rintro ⟨b, hb, bs, hbs, rfl⟩
      exact ⟨b, bs, hb, ih.1 hbs, rfl⟩
    · rintro ⟨b, bs, hb, hbs, rfl⟩
      exact ⟨b, hb, bs, ih.2 hbs, rfl⟩

theorem mapM_R_eq_ok {α β : Type} {f : α → R β} {l : List α} {r : List β} :
    l.mapM f = .ok r ↔ List.Forall₂ (fun a b => f a = .ok b) l r := by
  induction l generalizing r with
  | nil => rw [List.mapM_nil, R.pure_ok]; simp [eq_comm]
  | cons a l ih =>
    simp only [List.mapM_cons, R.bind_ok, R.pure_ok, List.forall₂_cons_left_iff]
    constructor
    · rintro ⟨b, hb, bs, hbs, rfl⟩
      exact ⟨b, bs, hb, ih.1 hbs, rfl⟩
    · rintro ⟨b, bs, hb, hbs, rfl⟩
      exact ⟨b, hb, bs, ih.2 hbs, rfl⟩

/-! ### names of states -/

theorem resolveInts_ok {l : List (PyVal K)} (hl : l.all PyVal.isInteger) {labels : List String}
    {r : List ℕ} :
    resolveInts l labels.length = .ok r ↔ List.Forall₂ (Names labels) l r := by
  unfold resolveInts
  rw [R.ite_throw, R.pure_ok]
  induction l generalizing r with
  | nil => simp [eq_comm]
  | cons a l ih =>
    simp only [List.all_cons, Bool.and_eq_true] at hl
    have ih := @ih hl.2
    rw [List.forall₂_cons_left_iff]
    cases a with
    | int z =>
      simp only [List.any_cons, Bool.or_eq_true, not_or, List.map_cons, Names, PyVal.asInt] at *
      constructor
      · rintro ⟨⟨h1, h2⟩, rfl⟩
        simp only [ge_iff_le, Bool.decide_or, Bool.or_eq_true, decide_eq_true_eq, not_or, not_lt,
          not_le] at h1
        refine ⟨z.toNat, _, Or.inl ⟨?_, ?_⟩, ih.1 ⟨h2, rfl⟩, rfl⟩
        · rw [Int.toNat_of_nonneg h1.1]
        · omega
      · rintro ⟨i, is, h1, h2, rfl⟩
        rcases h1 with ⟨h1, h3⟩ | ⟨s, h1, _⟩
        · cases h1
          obtain ⟨h4, h5⟩ := ih.2 h2
          refine ⟨⟨?_, h4⟩, ?_⟩
          · simp; omega
          · simp [h5]
        · cases h1
    | _ => simp [PyVal.isInteger] at hl

theorem resolveStrs_ok {l : List (PyVal K)} (hl : l.all PyVal.isString) {labels : List String}
    (hn : labels.Nodup) {r : List ℕ} :
    resolveStrs l labels = .ok r ↔ List.Forall₂ (Names labels) l r := by
  unfold resolveStrs
  have key : l.mapM (fun v => labelIndex labels v.asStr) = some r ↔
      List.Forall₂ (Names labels) l r := by
    rw [mapM_option_eq_some]
    induction l generalizing r with
    | nil => simp
    | cons a l ih =>
      simp only [List.all_cons, Bool.and_eq_true] at hl
      rw [List.forall₂_cons_left_iff, List.forall₂_cons_left_iff]
      have ih := @ih hl.2
      cases a with
      | str s =>
        have h0 : ∀ b, labelIndex labels (PyVal.str s : PyVal K).asStr = some b ↔
            Names labels (PyVal.str s : PyVal K) b := by
          intro b
          rw [labelIndex_eq_some hn]
          unfold Names
          constructor
          · intro h; exact Or.inr ⟨s, rfl, by simpa [PyVal.isString] using hl.1, h⟩
          · rintro (⟨h, _⟩ | ⟨s', h, _, h'⟩)
            · cases h
            · cases h; exact h'
        simp only [h0, ih]
      | _ => simp [PyVal.isString] at hl
  cases hm : l.mapM (fun v => labelIndex labels v.asStr) with
  | none => rw [hm] at key; simpa using key
  | some ks => rw [hm] at key; simpa using key

theorem all_isInteger_iff {l : List (PyVal K)} :
    l.all PyVal.isInteger = true ↔ ∀ v ∈ l, ∃ z, v = .int z := by
  rw [List.all_eq_true]
  refine forall₂_congr fun v _ => ?_
  cases v <;> simp [PyVal.isInteger]

theorem all_isString_iff {l : List (PyVal K)} :
    l.all PyVal.isString = true ↔ ∀ v ∈ l, ∃ s, v = .str s ∧ nonBlank s = true := by
  rw [List.all_eq_true]
  refine forall₂_congr fun v _ => ?_
  cases v <;> simp [PyVal.isString]

/-- The branch on integers or strings of `validate_labels_current` and its siblings. -/
theorem resolve_ok {l : List (PyVal K)} {labels : List String} (hn : labels.Nodup) {r : List ℕ} :
    resolveList l labels = .ok r ↔ Homogeneous l ∧ List.Forall₂ (Names labels) l r := by
  unfold Homogeneous resolveList
  rw [← all_isInteger_iff, ← all_isString_iff]
  by_cases h1 : l.all PyVal.isInteger = true
  · simp only [h1, if_true, true_or, true_and]; exact resolveInts_ok h1
  · by_cases h2 : l.all PyVal.isString = true
    · simp only [h1, h2, if_true, or_true, true_and]; exact resolveStrs_ok h2 hn
    · simp [h1, h2]

theorem Names.lt {labels : List String} {v : PyVal K} {i : ℕ} (h : Names labels v i) :
    i < labels.length := by
  rcases h with ⟨_, h⟩ | ⟨s, _, _, h⟩
  · exact h
  · exact (List.getElem?_eq_some_iff.1 h).1

/-! ### matrices as arguments -/

theorem mapM_ofFn_some {α β : Type} {n : ℕ} (f : α → Option β) (g : Fin n → α) (h : Fin n → β)
    (hf : ∀ i, f (g i) = some (h i)) : (List.ofFn g).mapM f = some (List.ofFn h) := by
  rw [mapM_option_eq_some, List.forall₂_iff_get]
  refine ⟨by simp, fun i h1 h2 => ?_⟩
  simp [hf]

theorem extractNumeric_pyMatrix {m n : ℕ} (M : Matrix (Fin (m + 1)) (Fin n) K) :
    extractNumeric (pyMatrix M) =
      some (.mat (List.ofFn fun i => List.ofFn fun j => .fin (M i j))) := by
  unfold pyMatrix
  rw [List.ofFn_succ]
  simp only [extractNumeric]
  rw [← List.ofFn_succ (f := fun i : Fin (m + 1) =>
    (PyVal.list (List.ofFn fun j => PyVal.float (.fin (M i j))) : PyVal K))]
  rw [if_pos (by simp [PyVal.isList])]
  rw [mapM_ofFn_some PyVal.numRow _ (fun i => List.ofFn fun j => Flt.fin (M i j))
    (fun i => by
      simp only [PyVal.numRow]
      exact mapM_ofFn_some _ _ _ fun j => rfl)]
  rw [List.ofFn_succ (f := fun i : Fin (m + 1) => List.ofFn fun j => Flt.fin (M i j))]
  simp only
  rw [if_pos (by simp)]
  rw [if_neg]
  cases n with
  | zero => simp [PyVal.scalars]
  | succ n =>
    simp only [Bool.and_eq_true, not_and_or]
    left
    rw [List.ofFn_succ]
    simp [PyVal.scalars, PyVal.isBool, List.ofFn_succ]

theorem extractNumeric_pyArray {m n : ℕ} (M : Matrix (Fin m) (Fin n) K) :
    extractNumeric (pyArray M) =
      some (.mat (List.ofFn fun i => List.ofFn fun j => .fin (M i j))) := rfl

theorem toMat_ofFn {m n : ℕ} (M : Matrix (Fin m) (Fin n) K) :
    toMat (List.ofFn fun i => List.ofFn fun j => Flt.fin (M i j)) m n = M := by
  funext i j
  simp [toMat, Flt.val, List.getD_eq_getElem?_getD]

theorem checkStochastic_ok {rows : List (List (Flt K))} {m n : ℕ} {p : Matrix (Fin m) (Fin n) K} :
    checkStochastic rows m n = .ok p ↔
      (∀ r ∈ rows, ∀ x ∈ r, x.inUnit = true) ∧
      (∀ i, |∑ j, toMat rows m n i j - 1| ≤ 1 / 10 ^ 8 + 1 / 10 ^ 5 * |(1 : K)|) ∧
      p = toMat rows m n := by
  unfold checkStochastic
  rw [R.ite_throw, R.ite_throw, R.pure_ok, not_not, not_not, List.all_eq_true]
  simp only [List.all_eq_true, allcloseVec, isclose, decide_eq_true_eq]
  constructor
  · rintro ⟨a, b, rfl⟩; exact ⟨a, b, rfl⟩
  · rintro ⟨a, b, rfl⟩; exact ⟨a, b, rfl⟩

theorem inUnit_iff {x : Flt K} : x.inUnit = true ↔ ∃ y, x = .fin y ∧ 0 ≤ y ∧ y ≤ 1 := by
  cases x <;> simp [Flt.inUnit]

end Verif
