import Verif.Model.Aggregate
import Verif.Spec.Aggregate
import Verif.Props.Passage
import Verif.Props.Validation
import Verif.Props.Ergodic
import Mathlib.Tactic.FinCases
import Mathlib.Tactic.FieldSimp
import Mathlib.Tactic.Linarith

/-!
# Aggregation of states (C96, C97)
-/

set_option linter.unusedSectionVars false

namespace Verif

open Finset

variable {K : Type} [Field K] [LinearOrder K] [IsStrictOrderedRing K]

/-- C96, C97: the labels of an aggregated chain are pairwise distinct and not blank, one per group,
numbered from one. -/
theorem C96_labels (pre : String) (s : ℕ) : ValidLabels s (aggregateLabels pre s) ∧
    ∀ k, 1 ≤ k → k ≤ s → (aggregateLabels pre s)[k - 1]? = some (pre ++ toString k) := by
  obtain ⟨h1, h2, h3, h4⟩ := C71_create_labels s pre
  exact ⟨⟨h1, h2, h3⟩, h4⟩

example : aggregateLabels "ASBU" 2 = ["ASBU1", "ASBU2"] := by decide +kernel

section Groups

variable {n : ℕ}

/-- Every state is in exactly one group, and no group is empty. -/
def IsGroups (phi : List (Group n)) : Prop :=
  (∀ i, phi.countP (fun v => v i) = 1) ∧ ∀ v ∈ phi, ∃ i, v i = true

theorem sum_groups (phi : List (Group n)) (i : Fin n) :
    (∑ a : Fin phi.length, if phi.get a i = true then 1 else 0) = phi.countP fun v => v i := by
  induction phi with
  | nil => rfl
  | cons v phi ih =>
    rw [List.countP_cons, ← ih]
    change (∑ a : Fin (phi.length + 1), _) = _
    rw [Fin.sum_univ_succ, add_comm]
    rfl

/-- The assignment of the states to the groups. -/
theorem IsGroups.assign {phi : List (Group n)} (h : IsGroups phi) :
    ∃ f : Fin n → Fin phi.length, Function.Surjective f ∧ ∀ a i, phi.get a i = true ↔ f i = a := by
  have h1 : ∀ i, ∃ a : Fin phi.length, ∀ b, phi.get b i = true ↔ a = b := by
    intro i
    have h2 := sum_groups phi i
    rw [h.1 i, ← Finset.card_filter, Finset.card_eq_one] at h2
    obtain ⟨a, ha⟩ := h2
    refine ⟨a, fun b => ?_⟩
    have h3 : b ∈ univ.filter (fun a : Fin phi.length => phi.get a i = true) ↔ b ∈ ({a} : Finset _) := by
      rw [ha]
    rw [Finset.mem_filter, Finset.mem_singleton] at h3
    exact ⟨fun h4 => (h3.1 ⟨mem_univ b, h4⟩).symm, fun h4 => (h3.2 h4.symm).2⟩
  choose f hf using h1
  refine ⟨f, fun a => ?_, fun a i => hf i a⟩
  obtain ⟨i, hi⟩ := h.2 _ (List.get_mem phi a)
  exact ⟨i, (hf i a).1 hi⟩

theorem isGroups_all (h0 : 0 < n) : IsGroups [fun _ : Fin n => true] := by
  refine ⟨fun i => rfl, fun v hv => ⟨⟨0, h0⟩, ?_⟩⟩
  rw [List.mem_singleton.1 hv]

theorem groupSize_eq (v : Group n) : groupSize v = (univ.filter fun i => v i = true).card := by
  unfold groupSize
  rw [← List.toFinset_card_of_nodup ((List.nodup_finRange n).filter _)]
  congr 1
  ext i
  simp

/-- If there are fewer groups than states, some group has two members. -/
theorem IsGroups.exists_large {phi : List (Group n)} (h : IsGroups phi) (hlt : phi.length < n) :
    ∃ a : Fin phi.length, 2 ≤ groupSize (phi.get a) := by
  obtain ⟨f, -, hf⟩ := h.assign
  obtain ⟨i, j, hij, he⟩ := Fintype.exists_ne_map_eq_of_card_lt f (by simpa using hlt)
  refine ⟨f i, ?_⟩
  rw [groupSize_eq]
  have : ({i, j} : Finset (Fin n)) ⊆ univ.filter fun k => phi.get (f i) k = true := by
    intro k hk
    rw [Finset.mem_insert, Finset.mem_singleton] at hk
    refine Finset.mem_filter.2 ⟨mem_univ k, (hf _ _).2 ?_⟩
    rcases hk with rfl | rfl
    · rfl
    · exact he.symm
  have h2 := Finset.card_le_card this
  rwa [Finset.card_pair hij] at h2

/-- The eigenvector takes both signs on the group. -/
def BothSigns (e : Fin n → K) (v : Group n) : Prop :=
  (∃ i, v i = true ∧ 0 ≤ e i) ∧ ∃ i, v i = true ∧ e i < 0

variable {vec : Group n → Fin n → K}

theorem bipartition_groups {phi : List (Group n)} (h : IsGroups phi) {i : ℕ} {bc : List (Group n)}
    (hvec : ∀ v ∈ phi, 2 ≤ groupSize v → BothSigns (vec v) v) (hb : bipartition vec phi i = some bc) :
    IsGroups bc ∧ bc.length = phi.length + 1 := by
  unfold bipartition at hb
  cases hv : phi[i]? with
  | none => rw [hv] at hb; cases hb
  | some v =>
    rw [hv] at hb
    change (if groupSize v ≤ 1 then none else _) = _ at hb
    by_cases h1 : groupSize v ≤ 1
    · rw [if_pos h1] at hb; cases hb
    · rw [if_neg h1] at hb
      injection hb with hb
      subst hb
      obtain ⟨hlt, hget⟩ := List.getElem?_eq_some_iff.1 hv
      have hphi : phi = phi.take i ++ v :: phi.drop (i + 1) := by
        rw [← hget, List.getElem_cons_drop, List.take_append_drop]
      have hmem : v ∈ phi := hget ▸ List.getElem_mem hlt
      obtain ⟨⟨a, ha, ha'⟩, b, hb, hb'⟩ := hvec v hmem (by omega)
      refine ⟨⟨fun j => ?_, fun w hw => ?_⟩, ?_⟩
      · have h2 := h.1 j
        rw [hphi, List.countP_append, List.countP_cons] at h2
        rw [List.countP_append, List.countP_append]
        have h3 : [nonnegPart (vec v) v, negPart (vec v) v].countP (fun w => w j)
            = if v j = true then 1 else 0 := by
          rw [List.countP_cons, List.countP_cons, List.countP_nil]
          unfold nonnegPart negPart
          by_cases h4 : v j = true
          · rcases le_or_gt 0 (vec v j) with h5 | h5
            · simp [h4, h5, not_lt.2 h5]
            · simp [h4, h5, not_le.2 h5]
          · simp [h4]
        rw [h3]
        omega
      · rcases List.mem_append.1 hw with hw | hw
        · rcases List.mem_append.1 hw with hw | hw
          · exact h.2 w (List.mem_of_mem_take hw)
          · rcases List.mem_cons.1 hw with rfl | hw
            · exact ⟨a, by unfold nonnegPart; simp [ha, ha']⟩
            · rw [List.mem_singleton.1 hw]
              exact ⟨b, by unfold negPart; simp [hb, hb']⟩
        · exact h.2 w (List.mem_of_mem_drop hw)
      · rw [List.length_append, List.length_append, List.length_take, List.length_drop]
        simp
        omega

theorem bipartition_isSome {phi : List (Group n)} {a : Fin phi.length}
    (ha : 2 ≤ groupSize (phi.get a)) : (bipartition vec phi a.val).isSome = true := by
  unfold bipartition
  rw [List.getElem?_eq_getElem a.isLt]
  change (if groupSize (phi.get a) ≤ 1 then none else some _).isSome = true
  rw [if_neg (by omega)]
  rfl

variable {divergence : List (Group n) → K}

theorem considerCandidate_cases (best : Option (List (Group n) × K)) (bc : Option (List (Group n))) :
    considerCandidate divergence best bc = best ∨
      ∃ b, bc = some b ∧ considerCandidate divergence best bc = some (b, divergence b) := by
  cases bc with
  | none => exact Or.inl rfl
  | some b =>
    cases best with
    | none => exact Or.inr ⟨b, rfl, rfl⟩
    | some c =>
      unfold considerCandidate
      by_cases h : divergence b < c.2
      · exact Or.inr ⟨b, rfl, if_pos h⟩
      · exact Or.inl (if_neg h)

/-- The best candidate is one of the candidates, and none of the others has a smaller divergence. -/
theorem bestBipartition_spec (phi : List (Group n)) :
    (∀ b, bestBipartition vec divergence phi = some b → b.2 = divergence b.1 ∧
      (∃ i, bipartition vec phi i = some b.1) ∧
      ∀ i c, i < phi.length → bipartition vec phi i = some c → b.2 ≤ divergence c) ∧
    (bestBipartition vec divergence phi = none → ∀ i, i < phi.length →
      bipartition vec phi i = none) := by
  have key : ∀ (l : List ℕ) (init : Option (List (Group n) × K)),
      (∀ b, init = some b → b.2 = divergence b.1 ∧ ∃ i, bipartition vec phi i = some b.1) →
      (∀ b, l.foldl (fun best i => considerCandidate divergence best (bipartition vec phi i)) init
        = some b → b.2 = divergence b.1 ∧ (∃ i, bipartition vec phi i = some b.1) ∧
        (∀ c, init = some c → b.2 ≤ c.2) ∧
        ∀ i c, i ∈ l → bipartition vec phi i = some c → b.2 ≤ divergence c) ∧
      (l.foldl (fun best i => considerCandidate divergence best (bipartition vec phi i)) init = none →
        init = none ∧ ∀ i ∈ l, bipartition vec phi i = none) := by
    intro l
    induction l with
    | nil =>
      intro init hi
      refine ⟨fun b hb => ?_, fun h => ⟨h, fun i hi => absurd hi List.not_mem_nil⟩⟩
      obtain ⟨h1, h2⟩ := hi b hb
      refine ⟨h1, h2, fun c hc => ?_, fun i c hi => absurd hi List.not_mem_nil⟩
      change init = some b at hb
      rw [hb] at hc
      injection hc with hc
      rw [hc]
    | cons k l ih =>
      intro init hi
      rw [List.foldl_cons]
      obtain ⟨st, hst⟩ : ∃ st, st = considerCandidate divergence init (bipartition vec phi k) :=
        ⟨_, rfl⟩
      rw [← hst]
      have hst1 : ∀ b, st = some b → b.2 = divergence b.1 ∧ ∃ i, bipartition vec phi i = some b.1 := by
        intro b hb
        rcases considerCandidate_cases init (bipartition vec phi k) with h | ⟨d, h1, h2⟩
        · exact hi b (by rw [← h, ← hst, hb])
        · rw [← hst, hb] at h2
          injection h2 with h2
          subst h2
          exact ⟨rfl, k, h1⟩
      obtain ⟨h1, h2⟩ := ih st hst1
      refine ⟨fun b hb => ?_, fun hn => ?_⟩
      · obtain ⟨e1, e2, e3, e4⟩ := h1 b hb
        have hle : ∀ c, init = some c → b.2 ≤ c.2 := by
          intro c hc
          rw [hc] at hst
          cases hk : bipartition vec phi k with
          | none => rw [hk] at hst; exact e3 c hst
          | some d =>
            rw [hk] at hst
            change st = if divergence d < c.2 then _ else _ at hst
            by_cases hlt : divergence d < c.2
            · rw [if_pos hlt] at hst
              exact (e3 _ hst).trans hlt.le
            · rw [if_neg hlt] at hst
              exact e3 _ hst
        refine ⟨e1, e2, hle, fun i c hm hc => ?_⟩
        rcases List.mem_cons.1 hm with rfl | hm
        · rw [hc] at hst
          cases hi0 : init with
          | none => rw [hi0] at hst; exact e3 _ hst
          | some d =>
            rw [hi0] at hst
            change st = if divergence c < d.2 then _ else _ at hst
            by_cases hlt : divergence c < d.2
            · rw [if_pos hlt] at hst
              exact e3 _ hst
            · exact (hle d hi0).trans (not_lt.1 hlt)
        · exact e4 i c hm hc
      · obtain ⟨e1, e2⟩ := h2 hn
        rw [e1] at hst
        have hk : bipartition vec phi k = none := by
          cases hk : bipartition vec phi k with
          | none => rfl
          | some d =>
            rw [hk] at hst
            cases hi0 : init with
            | none => rw [hi0] at hst; cases hst
            | some e =>
              rw [hi0] at hst
              change none = (if divergence d < e.2 then some _ else some _) at hst
              split at hst <;> cases hst
        refine ⟨?_, fun i hm => ?_⟩
        · rw [hk] at hst
          exact hst.symm
        · rcases List.mem_cons.1 hm with rfl | hm
          · exact hk
          · exact e2 i hm
  obtain ⟨h1, h2⟩ := key (List.range phi.length) none (fun b hb => by cases hb)
  refine ⟨fun b hb => ?_, fun hn i hi => (h2 hn).2 i (List.mem_range.2 hi)⟩
  obtain ⟨e1, e2, -, e4⟩ := h1 b hb
  exact ⟨e1, e2, fun i c hi hc => e4 i c (List.mem_range.2 hi) hc⟩

theorem bottomUpStep_groups {cur : Option (List (Group n))}
    (h : IsGroups (cur.getD [fun _ => true]))
    (hvec : ∀ v ∈ cur.getD [fun _ => true], 2 ≤ groupSize v → BothSigns (vec v) v)
    (hlt : (cur.getD [fun _ => true]).length < n) :
    ∃ phi, bottomUpStep vec divergence cur = some phi ∧ IsGroups phi ∧
      phi.length = (cur.getD [fun _ => true]).length + 1 := by
  obtain ⟨h1, h2⟩ := bestBipartition_spec (vec := vec) (divergence := divergence)
    (cur.getD [fun _ => true])
  unfold bottomUpStep
  cases hb : bestBipartition vec divergence (cur.getD [fun _ => true]) with
  | none =>
    obtain ⟨a, ha⟩ := h.exists_large hlt
    have h3 := bipartition_isSome (vec := vec) ha
    rw [h2 hb a.val a.isLt] at h3
    cases h3
  | some b =>
    obtain ⟨-, ⟨i, hi⟩, -⟩ := h1 b hb
    obtain ⟨h3, h4⟩ := bipartition_groups h hvec hi
    exact ⟨b.1, rfl, h3, h4⟩

theorem bottomUpLoop_groups (hvec : ∀ v, 2 ≤ groupSize v → BothSigns (vec v) v) (k : ℕ)
    {cur : Option (List (Group n))} (h : IsGroups (cur.getD [fun _ => true]))
    (hle : (cur.getD [fun _ => true]).length + (k + 1) ≤ n) :
    ∃ phi, bottomUpLoop vec divergence (k + 1) cur = some phi ∧ IsGroups phi ∧
      phi.length = (cur.getD [fun _ => true]).length + (k + 1) := by
  induction k generalizing cur with
  | zero =>
    obtain ⟨phi, h1, h2, h3⟩ := bottomUpStep_groups (divergence := divergence) h
      (fun v _ => hvec v) (by omega)
    exact ⟨phi, h1, h2, h3⟩
  | succ k ih =>
    obtain ⟨phi, h1, h2, h3⟩ := bottomUpStep_groups (divergence := divergence) h
      (fun v _ => hvec v) (by omega)
    obtain ⟨psi, h4, h5, h6⟩ := ih (cur := some phi) h2 (by change phi.length + _ ≤ n; omega)
    refine ⟨psi, ?_, h5, ?_⟩
    · rw [bottomUpLoop, h1]
      exact h4
    · rw [h6]
      change phi.length + _ = _
      omega

end Groups

/-! ## The chain of the groups -/

section Chain

variable {n z : ℕ} {P : Matrix (Fin n) (Fin n) K} {x : Fin n → K} {f : Fin n → Fin z}

theorem groupMass_pos (hx : ∀ i, 0 < x i) (hf : Function.Surjective f) (a : Fin z) :
    0 < groupMass x f a := by
  obtain ⟨i, hi⟩ := hf a
  unfold groupMass
  refine Finset.sum_pos' (fun j _ => ?_) ⟨i, mem_univ i, ?_⟩
  · split
    · exact (hx j).le
    · exact le_rfl
  · rw [if_pos hi]; exact hx i

theorem aggregated_stochastic (hP : IsStochastic fun i j => P i j) (hx : ∀ i, 0 < x i)
    (hf : Function.Surjective f) : IsStochastic (aggregated (fun i j => P i j) x f) := by
  refine ⟨fun a b => ?_, fun a => ?_⟩
  · refine div_nonneg (Finset.sum_nonneg fun i _ => Finset.sum_nonneg fun j _ => ?_)
      (groupMass_pos hx hf a).le
    split
    · exact mul_nonneg (hx i).le (hP.1 i j)
    · exact le_rfl
  · unfold aggregated
    rw [← Finset.sum_div, div_eq_one_iff_eq (groupMass_pos hx hf a).ne', Finset.sum_comm]
    unfold groupMass
    refine Finset.sum_congr rfl fun i _ => ?_
    rw [Finset.sum_comm]
    by_cases h : f i = a
    · rw [if_pos h]
      have : ∀ j ∈ univ, (∑ b, if f i = a ∧ f j = b then x i * P i j else 0) = x i * P i j := by
        intro j _
        rw [Finset.sum_eq_single (f j)]
        · rw [if_pos ⟨h, rfl⟩]
        · intro b _ hb
          rw [if_neg (fun h2 => hb h2.2.symm)]
        · intro h2; exact absurd (mem_univ _) h2
      rw [Finset.sum_congr rfl this, ← Finset.mul_sum, hP.2 i, mul_one]
    · rw [if_neg h]
      exact Finset.sum_eq_zero fun j _ => Finset.sum_eq_zero fun b _ => if_neg fun h2 => h h2.1

theorem groupMass_sum : ∑ a, groupMass x f a = ∑ i, x i := by
  unfold groupMass
  rw [Finset.sum_comm]
  refine Finset.sum_congr rfl fun i _ => ?_
  rw [Finset.sum_ite_eq univ (f i) fun _ => x i, if_pos (mem_univ _)]

/-- The aggregated stationary distribution is stationary for the aggregated chain. -/
theorem aggregated_stationary (hs : IsStationary (fun i j => P i j) x) (hx : ∀ i, 0 < x i)
    (hf : Function.Surjective f) :
    IsStationary (aggregated (fun i j => P i j) x f) (groupMass x f) := by
  refine ⟨⟨fun a => (groupMass_pos hx hf a).le, groupMass_sum.trans hs.1.2⟩, fun b => ?_⟩
  have h1 : ∀ a ∈ univ, groupMass x f a * aggregated (fun i j => P i j) x f a b =
      ∑ i, ∑ j, if f i = a ∧ f j = b then x i * P i j else 0 := fun a _ => by
    unfold aggregated
    rw [mul_div_cancel₀ _ (groupMass_pos hx hf a).ne']
  rw [Finset.sum_congr rfl h1, Finset.sum_comm]
  have h2 : ∀ i ∈ univ, (∑ a, ∑ j, if f i = a ∧ f j = b then x i * P i j else 0) =
      ∑ j, if f j = b then x i * P i j else 0 := by
    intro i _
    rw [Finset.sum_eq_single (f i)]
    · refine Finset.sum_congr rfl fun j _ => ?_
      by_cases h : f j = b
      · rw [if_pos ⟨rfl, h⟩, if_pos h]
      · rw [if_neg (fun h3 => h h3.2), if_neg h]
    · intro a _ ha
      exact Finset.sum_eq_zero fun j _ => if_neg fun h3 => ha h3.1.symm
    · intro h3; exact absurd (mem_univ _) h3
  rw [Finset.sum_congr rfl h2, Finset.sum_comm]
  unfold groupMass
  refine Finset.sum_congr rfl fun j _ => ?_
  by_cases h : f j = b
  · simp only [if_pos h]
    exact hs.2 j
  · simp only [if_neg h]
    exact Finset.sum_const_zero

theorem groupEntry_eq {phi : List (Group n)} {f : Fin n → Fin phi.length}
    (hf : ∀ a i, phi.get a i = true ↔ f i = a) (hsurj : Function.Surjective f)
    (hx : ∀ i, 0 < x i) (a b : Fin phi.length) :
    calculateQ P x phi a b = .fin (aggregated (fun i j => P i j) x f a b) := by
  have h1 : groupDen x (phi.get a) = groupMass x f a := by
    unfold groupDen groupMass
    exact Finset.sum_congr rfl fun i _ => if_congr (hf a i) rfl rfl
  have h2 : groupNum P x (phi.get a) (phi.get b) =
      ∑ i, ∑ j, if f i = a ∧ f j = b then x i * P i j else 0 := by
    unfold groupNum
    exact Finset.sum_congr rfl fun i _ => Finset.sum_congr rfl fun j _ =>
      if_congr (and_congr (hf a i) (hf b j)) rfl rfl
  unfold calculateQ groupEntry
  rw [h1, h2, if_neg (groupMass_pos hx hsurj a).ne']
  rfl

theorem normalizeRow_dist {row : Fin z → K} (h : ∑ b, row b = 1) :
    normalizeRow (fun b => Flt.fin (row b)) = fun b => .fin (row b) := by
  unfold normalizeRow
  have h1 : ∑ b, (Flt.fin (row b)).val = 1 := h
  have h2 : ∀ b, (Flt.fin (row b)).isFinite = true := fun b => rfl
  simp only [h1, h2]
  rw [if_pos (fun b => trivial), if_neg one_ne_zero]
  funext b
  rw [div_one]
  rfl

/-- The chain of groups that cover the states without overlap. -/
theorem groupChain_eq {phi : List (Group n)} (h : IsGroups phi) (hP : IsStochastic fun i j => P i j)
    (hs : IsStationary (fun i j => P i j) x) (hx : ∀ i, 0 < x i) (pre : String) :
    ∃ f : Fin n → Fin phi.length, Function.Surjective f ∧ (∀ a i, phi.get a i = true ↔ f i = a) ∧
      groupChain P x pre phi = ⟨phi.length, fun a b => .fin (aggregated (fun i j => P i j) x f a b),
        aggregateLabels pre phi.length⟩ ∧
      IsStochastic (aggregated (fun i j => P i j) x f) ∧
      IsStationary (aggregated (fun i j => P i j) x f) (groupMass x f) := by
  obtain ⟨f, h1, h2⟩ := h.assign
  have h3 := aggregated_stochastic (P := P) hP hx h1
  refine ⟨f, h1, h2, ?_, h3, aggregated_stationary hs hx h1⟩
  unfold groupChain
  congr 1
  funext a
  have h4 : calculateQ P x phi a = fun b => .fin (aggregated (fun i j => P i j) x f a b) :=
    funext fun b => groupEntry_eq h2 h1 hx a b
  rw [h4]
  exact normalizeRow_dist (h3.2 a)

end Chain

/-! ## Bottom-up -/

theorem aggregate_run {c : MC K} (hc : c.Valid) {nx : Nx c.n} (hx : nx.Sound c.p)
    (he : Ergodic c.p) {s : ℕ} (h2 : 2 ≤ s) (hs : s + 1 ≤ c.n) {vecUp : Group c.n → Fin c.n → K}
    {vecDown : List (Group c.n) → List ℕ → ℕ → K} {divergence : List (Group c.n) → K} {fuel : ℕ}
    {m : String} (hm : m ∈ ["adaptive", "spectral-bottom-up", "spectral-top-down"]) :
    ∃ x, IsStationary c.p x ∧ (∀ i, 0 < x i) ∧
      aggregate c nx vecUp vecDown divergence fuel (.int s) (.str m) =
        .ok (if useBottomUp c.n s m = true
          then some (.ok (aggregateBottomUp vecUp divergence c.p x s))
          else aggregateTopDown vecDown divergence fuel c.p x s) := by
  obtain ⟨x, h3, h4, h5, -⟩ := pi0_spec hc hx.sccs he.1
  refine ⟨x, h4, h5, ?_⟩
  have e1 : validateEnumerator (.str m : PyVal K)
      ["adaptive", "spectral-bottom-up", "spectral-top-down"] = .ok m := by
    unfold validateEnumerator
    have : nonBlank m = true := by
      simp only [List.mem_cons, List.not_mem_nil, or_false] at hm
      rcases hm with rfl | rfl | rfl <;> decide +kernel
    change (if ¬ nonBlank m = true then _ else if m ∉ _ then _ else _) = _
    rw [if_neg (not_not.2 this), if_neg (not_not.2 hm)]
    rfl
  have e2 : validateInteger (.int s : PyVal K) (some (2, false)) (some ((c.n : ℤ) - 1, false))
      = .ok (s : ℤ) := by
    rw [C03_integer_limits]
    simp [WithinLimits]
    omega
  unfold aggregate
  rw [e1]
  change (validateInteger _ _ _ >>= _) = _
  rw [e2]
  change (if c.n = 2 then _ else _) = _
  rw [if_neg (by omega), if_neg (by rw [(isErgodic_iff hc hx).2 he]; simp), h3]
  rfl

/-- C96 (partial). If the eigenvectors used for the splits take both signs, `spectral-bottom-up`
returns a chain with `s` states that is the aggregation of the given chain for some assignment of the
states to groups: its entries are the transition probabilities between the groups in equilibrium, its
rows sum to one and its stationary distribution gives every group its total probability. -/
theorem C96_bottom_up_partial {c : MC K} (hc : c.Valid) {nx : Nx c.n} (hx : nx.Sound c.p)
    (he : Ergodic c.p) {s : ℕ} (h2 : 2 ≤ s) (hs : s + 1 ≤ c.n) {vecUp : Group c.n → Fin c.n → K}
    (hvec : ∀ v, 2 ≤ groupSize v → BothSigns (vecUp v) v)
    (vecDown : List (Group c.n) → List ℕ → ℕ → K) (divergence : List (Group c.n) → K) (fuel : ℕ) :
    ∃ (x : Fin c.n → K) (f : Fin c.n → Fin s), IsStationary c.p x ∧ Function.Surjective f ∧
      aggregate c nx vecUp vecDown divergence fuel (.int s) (.str "spectral-bottom-up") =
        .ok (some (.ok ⟨s, fun a b => .fin (aggregated c.p x f a b), aggregateLabels "ASBU" s⟩)) ∧
      IsStochastic (aggregated c.p x f) ∧ IsStationary (aggregated c.p x f) (groupMass x f) := by
  obtain ⟨x, h3, h4, h5⟩ := aggregate_run hc hx he h2 hs (vecUp := vecUp) (vecDown := vecDown)
    (divergence := divergence) (fuel := fuel) (m := "spectral-bottom-up") (by decide)
  have h0 : 0 < c.n := by omega
  obtain ⟨k, rfl⟩ : ∃ k, s = k + 2 := ⟨s - 2, by omega⟩
  obtain ⟨phi, h6, h7, h8⟩ := bottomUpLoop_groups (divergence := divergence) hvec k
    (cur := none) (isGroups_all h0) (by change 1 + (k + 1) ≤ c.n; omega)
  have h9 : phi.length = k + 2 := by rw [h8]; change 1 + (k + 1) = _; omega
  obtain ⟨f, f1, -, f3, f4, f5⟩ := groupChain_eq h7 hc.2.1 h3 h4 "ASBU"
  have h10 : aggregate c nx vecUp vecDown divergence fuel (.int ((k + 2 : ℕ) : ℤ))
      (.str "spectral-bottom-up") = .ok (some (.ok (groupChain c.p x "ASBU" phi))) := by
    rw [h5, if_pos (by unfold useBottomUp; simp)]
    unfold aggregateBottomUp
    rw [show k + 2 - 1 = k + 1 from rfl, h6]
    rfl
  rw [← h9] at h10 ⊢
  exact ⟨x, f, h3, f1, h10.trans (by rw [f3]), f4, f5⟩

/-- An eigenvector for an eigenvalue other than one of `(P + P*) / 2`, where `P*` is the chain run
backwards in time, takes both signs. -/
theorem bothSigns_of_eigenvector {n : ℕ} {P : Matrix (Fin n) (Fin n) K} {x e : Fin n → K}
    (hP : IsStochastic fun i j => P i j) (hs : IsStationary (fun i j => P i j) x)
    (hx : ∀ i, 0 < x i) {lam : K} (h1 : lam ≠ 1) (h0 : e ≠ 0)
    (he : ∀ i, (∑ j, P i j * e j + ∑ j, reversal (fun i j => P i j) x i j * e j) / 2 = lam * e i) :
    BothSigns e fun _ => true := by
  have s1 : ∑ i, x i * ∑ j, P i j * e j = ∑ i, x i * e i := by
    simp only [Finset.mul_sum]
    rw [Finset.sum_comm]
    refine Finset.sum_congr rfl fun j _ => ?_
    have h2 : ∑ i, x i * P i j = x j := hs.2 j
    rw [← h2, Finset.sum_mul]
    exact Finset.sum_congr rfl fun i _ => by ring
  have s2 : ∑ i, x i * ∑ j, reversal (fun i j => P i j) x i j * e j = ∑ i, x i * e i := by
    simp only [Finset.mul_sum]
    rw [Finset.sum_comm]
    refine Finset.sum_congr rfl fun j _ => ?_
    have h2 : ∑ i, P j i = 1 := hP.2 j
    calc ∑ i, x i * (reversal (fun i j => P i j) x i j * e j) = ∑ i, x j * e j * P j i :=
          Finset.sum_congr rfl fun i _ => by
            unfold reversal
            field_simp [(hx i).ne']
      _ = x j * e j := by rw [← Finset.mul_sum, h2, mul_one]
  have s3 : ∑ i, x i * ((∑ j, P i j * e j + ∑ j, reversal (fun i j => P i j) x i j * e j) / 2) =
      ∑ i, x i * e i := by
    have : ∀ i ∈ univ, x i * ((∑ j, P i j * e j + ∑ j, reversal (fun i j => P i j) x i j * e j) / 2)
        = (x i * ∑ j, P i j * e j + x i * ∑ j, reversal (fun i j => P i j) x i j * e j) / 2 :=
      fun i _ => by ring
    rw [Finset.sum_congr rfl this, ← Finset.sum_div, Finset.sum_add_distrib, s1, s2]
    ring
  have s4 : ∑ i, x i * e i = 0 := by
    have h2 : ∑ i, x i * (lam * e i) = ∑ i, x i * e i := by
      rw [← s3]
      exact Finset.sum_congr rfl fun i _ => by rw [he i]
    have h3 : lam * ∑ i, x i * e i = ∑ i, x i * e i := by
      refine Eq.trans ?_ h2
      rw [Finset.mul_sum]
      exact Finset.sum_congr rfl fun i _ => by ring
    have h4 : (lam - 1) * ∑ i, x i * e i = 0 := by rw [sub_mul, h3, one_mul, sub_self]
    exact (mul_eq_zero.1 h4).resolve_left (sub_ne_zero.2 h1)
  constructor
  · by_contra hcon
    push Not at hcon
    obtain ⟨i, hi⟩ := Function.ne_iff.1 h0
    have : ∑ i, x i * e i < 0 := Finset.sum_neg' (fun j _ =>
      (mul_neg_of_pos_of_neg (hx j) (hcon j rfl)).le) ⟨i, mem_univ i,
        mul_neg_of_pos_of_neg (hx i) (hcon i rfl)⟩
    exact absurd s4 this.ne
  · by_contra hcon
    push Not at hcon
    obtain ⟨i, hi⟩ := Function.ne_iff.1 h0
    have : 0 < ∑ i, x i * e i := Finset.sum_pos' (fun j _ => mul_nonneg (hx j).le (hcon j rfl))
      ⟨i, mem_univ i, mul_pos (hx i) (lt_of_le_of_ne (hcon i rfl) (Ne.symm hi))⟩
    exact absurd s4 this.ne'

/-- C96 for two groups needs no assumption about signs: whenever the vector returned by `eig` for the
whole chain is an eigenvector for an eigenvalue other than one, `spectral-bottom-up` returns an
aggregation with two states. -/
theorem C96_two_groups {c : MC K} (hc : c.Valid) {nx : Nx c.n} (hx : nx.Sound c.p)
    (he : Ergodic c.p) (h3 : 3 ≤ c.n) {vecUp : Group c.n → Fin c.n → K} {lam : K} (h1 : lam ≠ 1)
    (h0 : vecUp (fun _ => true) ≠ 0)
    (heig : ∀ x, IsStationary c.p x → ∀ i, (∑ j, c.p i j * vecUp (fun _ => true) j +
      ∑ j, reversal c.p x i j * vecUp (fun _ => true) j) / 2 = lam * vecUp (fun _ => true) i)
    (vecDown : List (Group c.n) → List ℕ → ℕ → K) (divergence : List (Group c.n) → K) (fuel : ℕ) :
    ∃ (x : Fin c.n → K) (f : Fin c.n → Fin 2), IsStationary c.p x ∧ Function.Surjective f ∧
      aggregate c nx vecUp vecDown divergence fuel (.int 2) (.str "spectral-bottom-up") =
        .ok (some (.ok ⟨2, fun a b => .fin (aggregated c.p x f a b), aggregateLabels "ASBU" 2⟩)) ∧
      IsStochastic (aggregated c.p x f) ∧ IsStationary (aggregated c.p x f) (groupMass x f) ∧
      ∀ i, f i = 0 ↔ 0 ≤ vecUp (fun _ => true) i := by
  obtain ⟨x, h4, h5, h6⟩ := aggregate_run hc hx he (le_refl 2) h3 (vecUp := vecUp)
    (vecDown := vecDown) (divergence := divergence) (fuel := fuel) (m := "spectral-bottom-up")
    (by decide)
  have hb := bothSigns_of_eigenvector (P := c.p) hc.2.1 h4 h5 h1 h0 (heig x h4)
  have hsz : ¬ groupSize (fun _ : Fin c.n => true) ≤ 1 := by
    rw [groupSize_eq]
    simp
    omega
  have hbip : bipartition vecUp [fun _ => true] 0 = some [nonnegPart (vecUp fun _ => true) fun _ => true,
      negPart (vecUp fun _ => true) fun _ => true] := by
    unfold bipartition
    change (if groupSize (fun _ : Fin c.n => true) ≤ 1 then none else _) = _
    rw [if_neg hsz]
    rfl
  have hbest : bestBipartition vecUp divergence [fun _ => true] = some ([nonnegPart (vecUp fun _ => true)
      fun _ => true, negPart (vecUp fun _ => true) fun _ => true], divergence
      [nonnegPart (vecUp fun _ => true) fun _ => true, negPart (vecUp fun _ => true) fun _ => true]) := by
    unfold bestBipartition
    change considerCandidate divergence none (bipartition vecUp [fun _ => true] 0) = _
    rw [hbip]
    rfl
  obtain ⟨h7, -⟩ := bipartition_groups (vec := vecUp) (phi := [fun _ => true]) (i := 0)
    (isGroups_all (by omega)) (fun v hv _ => by rw [List.mem_singleton.1 hv]; exact hb) hbip
  obtain ⟨f, f1, f2, f3, f4, f5⟩ := groupChain_eq h7 hc.2.1 h4 h5 "ASBU"
  refine ⟨x, f, h4, f1, ?_, f4, f5, fun i => ?_⟩
  · refine h6.trans ?_
    rw [if_pos (by unfold useBottomUp; simp)]
    unfold aggregateBottomUp
    have hstep : bottomUpLoop vecUp divergence (2 - 1) none = some [nonnegPart (vecUp fun _ => true)
        fun _ => true, negPart (vecUp fun _ => true) fun _ => true] := by
      change bottomUpStep vecUp divergence none = _
      unfold bottomUpStep
      rw [Option.getD_none, hbest]
    rw [hstep]
    change Except.ok (some (Except.ok (groupChain c.p x "ASBU" _))) = _
    rw [f3]
    rfl
  · refine (f2 (0 : Fin 2) i).symm.trans ?_
    change nonnegPart (vecUp fun _ => true) (fun _ => true) i = true ↔ _
    unfold nonnegPart
    simp

/-! ### Empty groups -/

/-- A chain with an empty group has a row of `nan`. -/
theorem groupChain_nan {n : ℕ} (P : Matrix (Fin n) (Fin n) K) (x : Fin n → K) (pre : String)
    {phi : List (Group n)} {v : Group n} (hv : v ∈ phi) (he : ∀ i, v i = false) :
    ∃ a, ∀ b, (groupChain P x pre phi).p a b = .nan := by
  obtain ⟨a, ha⟩ := List.get_of_mem hv
  refine ⟨a, fun b => ?_⟩
  change normalizeRow (calculateQ P x phi a) b = .nan
  have h1 : ∀ b, calculateQ P x phi a b = .nan := by
    intro b
    unfold calculateQ groupEntry
    rw [ha, if_pos]
    unfold groupDen
    exact Finset.sum_eq_zero fun i _ => by rw [he i]; rfl
  unfold normalizeRow
  rw [if_neg]
  intro h2
  have h3 := h2 a
  rw [h1 a] at h3
  cases h3

theorem bipartition_empty {n : ℕ} {vec : Group n → Fin n → K} {phi bc : List (Group n)} {i : ℕ}
    (hvec : ∀ v ∈ phi, ∀ i, v i = true → 0 ≤ vec v i) (hb : bipartition vec phi i = some bc) :
    bc.length = phi.length + 1 ∧ ∃ v ∈ bc, ∀ i, v i = false := by
  unfold bipartition at hb
  cases hv : phi[i]? with
  | none => rw [hv] at hb; cases hb
  | some v =>
    rw [hv] at hb
    change (if groupSize v ≤ 1 then none else _) = _ at hb
    by_cases h1 : groupSize v ≤ 1
    · rw [if_pos h1] at hb; cases hb
    · rw [if_neg h1] at hb
      injection hb with hb
      subst hb
      obtain ⟨hlt, hget⟩ := List.getElem?_eq_some_iff.1 hv
      have hmem : v ∈ phi := hget ▸ List.getElem_mem hlt
      refine ⟨?_, negPart (vec v) v, by simp, fun i => ?_⟩
      · rw [List.length_append, List.length_append, List.length_take, List.length_drop]
        simp
        omega
      · unfold negPart
        cases h2 : v i with
        | false => rfl
        | true => simp [hvec v hmem i h2]

/-- A chain of two pairs of states that is symmetric. -/
def exQuartetP : Matrix (Fin 4) (Fin 4) ℚ :=
  !![1/5, 0, 2/5, 2/5; 0, 1/5, 2/5, 2/5; 2/5, 2/5, 1/5, 0; 2/5, 2/5, 0, 1/5]

/-- See `exQuartetP`. -/
def exQuartet : MC ℚ := ⟨4, exQuartetP, ["a", "b", "c", "d"]⟩

/-- What networkx returns for `exQuartet`. -/
def exQuartetNx : Nx 4 := Nx.ofClasses (fun i j => exQuartetP i j) [[0, 1, 2, 3]] true

theorem exQuartet_ok : exQuartet.Valid ∧ exQuartetNx.Sound exQuartet.p ∧ Ergodic exQuartet.p := by
  have hv : exQuartet.Valid := by decide +kernel
  have hcl : IsClasses (fun i j : Fin 4 => exQuartet.p i j) [[0, 1, 2, 3]] := by decide +kernel
  have hs : exQuartetNx.Sound exQuartet.p := Nx.ofClasses_sound true hcl
  exact ⟨hv, hs, (isErgodic_iff hv hs).1 (by decide +kernel)⟩

/-- The first pair. -/
def firstPair : Group 4 := ![true, true, false, false]

/-- The second pair. -/
def secondPair : Group 4 := ![false, false, true, true]

/-- C96 fails if an eigenvector has no negative entry on a group. In this chain, the eigenvalues are
`1`, `-3/5` and twice `1/5`, so the eigenvectors for `-3/5` separate the two pairs. The blocks of the
pairs are diagonal; their eigenvectors are the unit vectors that LAPACK returns for diagonal matrices.
The next split has an empty part, and the returned chain has a row of `nan`. -/
theorem C96_nan (vecUp : Group 4 → Fin 4 → ℚ) (h0 : vecUp (fun _ => true) ≠ 0)
    (he : ∀ i, ∑ j, exQuartetP i j * vecUp (fun _ => true) j = -3/5 * vecUp (fun _ => true) i)
    (hunit1 : ∀ i, firstPair i = true → 0 ≤ vecUp firstPair i)
    (hunit2 : ∀ i, secondPair i = true → 0 ≤ vecUp secondPair i)
    (vecDown : List (Group 4) → List ℕ → ℕ → ℚ) (divergence : List (Group 4) → ℚ) (fuel : ℕ) :
    ∃ r : FltMC ℚ, aggregate exQuartet exQuartetNx vecUp vecDown divergence fuel (.int 3)
      (.str "spectral-bottom-up") = .ok (some (.ok r)) ∧ r.n = 3 ∧ ∃ a, ∀ b, r.p a b = .nan := by
  obtain ⟨hv, hs, her⟩ := exQuartet_ok
  obtain ⟨x, -, -, h6⟩ := aggregate_run hv hs her (s := 3) (by decide) (by decide) (vecUp := vecUp)
    (vecDown := vecDown) (divergence := divergence) (fuel := fuel) (m := "spectral-bottom-up")
    (by decide)
  obtain ⟨e, hee⟩ : ∃ e, e = vecUp (fun _ => true) := ⟨_, rfl⟩
  rw [← hee] at h0 he
  have e0 := he 0
  have e1 := he 1
  have e2 := he 2
  have e3 := he 3
  rw [Fin.sum_univ_four] at e0 e1 e2 e3
  simp [exQuartetP] at e0 e1 e2 e3
  have r1 : e 1 = e 0 := by linarith
  have r2 : e 2 = - e 0 := by linarith
  have r3 : e 3 = - e 0 := by linarith
  have hne : e 0 ≠ 0 := by
    intro h
    apply h0
    funext i
    fin_cases i
    · exact h
    · exact r1.trans h
    · exact r2.trans (by rw [h, neg_zero]; rfl)
    · exact r3.trans (by rw [h, neg_zero]; rfl)
  have hsz : ¬ groupSize (fun _ : Fin 4 => true) ≤ 1 := by decide
  have hbip : bipartition vecUp [fun _ => true] 0 = some [nonnegPart e fun _ => true,
      negPart e fun _ => true] := by
    unfold bipartition
    change (if groupSize (fun _ : Fin 4 => true) ≤ 1 then none else _) = _
    rw [if_neg hsz, hee]
    rfl
  have hbest : bestBipartition vecUp divergence [fun _ => true] = some ([nonnegPart e
      fun _ => true, negPart e fun _ => true],
      divergence [nonnegPart e fun _ => true, negPart e fun _ => true]) := by
    unfold bestBipartition
    change considerCandidate divergence none (bipartition vecUp [fun _ => true] 0) = _
    rw [hbip]
    rfl
  have hmem : ∀ v ∈ [nonnegPart e fun _ => true, negPart e fun _ => true],
      v = firstPair ∨ v = secondPair := by
    intro v hv
    rcases lt_or_gt_of_ne hne with hlt | hlt
    · have m0 : ¬ 0 ≤ e 0 := not_le.2 hlt
      have m1 : ¬ 0 ≤ e 1 := by rw [r1]; exact m0
      have m2 : 0 ≤ e 2 := by rw [r2]; linarith
      have m3 : 0 ≤ e 3 := by rw [r3]; linarith
      rcases List.mem_cons.1 hv with rfl | hv
      · right
        funext i
        fin_cases i <;> simp [nonnegPart, secondPair, m0, m1, m2, m3]
      · rw [List.mem_singleton.1 hv]
        left
        funext i
        fin_cases i <;> simp [negPart, firstPair, hlt, r1, m2, m3]
    · have m0 : 0 ≤ e 0 := hlt.le
      have m1 : 0 ≤ e 1 := by rw [r1]; exact m0
      have m2 : e 2 < 0 := by rw [r2]; linarith
      have m3 : e 3 < 0 := by rw [r3]; linarith
      rcases List.mem_cons.1 hv with rfl | hv
      · left
        funext i
        fin_cases i <;> simp [nonnegPart, firstPair, m0, m1, m2, m3]
      · rw [List.mem_singleton.1 hv]
        right
        funext i
        fin_cases i <;> simp [negPart, secondPair, m0, m1, m2, m3]
  obtain ⟨phi, hphi⟩ : ∃ phi, phi = [nonnegPart e fun _ => true, negPart e fun _ => true] := ⟨_, rfl⟩
  rw [← hphi] at hbest hmem
  have hlen : phi.length = 2 := by rw [hphi]; rfl
  have hstep : bottomUpStep vecUp divergence none = some phi := by
    unfold bottomUpStep
    rw [Option.getD_none, hbest]
  have hnn : ∀ v ∈ phi, ∀ i, v i = true → 0 ≤ vecUp v i := by
    intro v hv
    rcases hmem v hv with rfl | rfl
    · exact hunit1
    · exact hunit2
  have hsz2 : ∀ v ∈ phi, ¬ groupSize v ≤ 1 := by
    intro v hv
    rcases hmem v hv with rfl | rfl <;> decide
  obtain ⟨hb1, hb2⟩ := bestBipartition_spec (vec := vecUp) (divergence := divergence) phi
  have hsome : ∃ b, bestBipartition vecUp divergence phi = some b := by
    cases hb : bestBipartition vecUp divergence phi with
    | some b => exact ⟨b, rfl⟩
    | none =>
      have h8 := hb2 hb 0 (by omega)
      have h9 := bipartition_isSome (vec := vecUp) (phi := phi) (a := ⟨0, by omega⟩)
        (by have := hsz2 _ (List.get_mem phi ⟨0, by omega⟩); omega)
      rw [h8] at h9
      cases h9
  obtain ⟨b, hb⟩ := hsome
  obtain ⟨-, ⟨i, hi⟩, -⟩ := hb1 b hb
  obtain ⟨hl, v, hvm, hve⟩ := bipartition_empty hnn hi
  refine ⟨groupChain exQuartetP x "ASBU" b.1, ?_, hl.trans (by rw [hlen]),
    groupChain_nan exQuartetP x "ASBU" hvm hve⟩
  refine h6.trans ?_
  have hrun : bottomUpLoop vecUp divergence 2 none = some b.1 := by
    change bottomUpStep vecUp divergence (bottomUpStep vecUp divergence none) = _
    rw [hstep]
    unfold bottomUpStep
    rw [Option.getD_some, hb]
  rw [if_pos (by unfold useBottomUp; simp)]
  unfold aggregateBottomUp
  change Except.ok (some (Except.ok (bottomUpResult exQuartetP x
    (bottomUpLoop vecUp divergence 2 none)))) = _
  rw [hrun]
  rfl

/-- The vectors of `C96_nan`. -/
def quartetVec (v : Group 4) : Fin 4 → ℚ :=
  if v = (fun _ => true) then ![1, 1, -1, -1] else if v = firstPair then ![1, 0, 0, 0] else ![0, 0, 1, 0]

/-- The hypotheses of `C96_nan` can be met. -/
example : quartetVec (fun _ => true) ≠ 0 ∧
    (∀ i, ∑ j, exQuartetP i j * quartetVec (fun _ => true) j = -3/5 * quartetVec (fun _ => true) i) ∧
    (∀ i, firstPair i = true → 0 ≤ quartetVec firstPair i) ∧
    ∀ i, secondPair i = true → 0 ≤ quartetVec secondPair i := by
  refine ⟨by decide +kernel, ?_, by decide +kernel, by decide +kernel⟩
  intro i
  fin_cases i <;> decide +kernel

/-- The hypotheses of `C96_bottom_up_partial` and `C96_two_groups` can be met: the vector is positive
for the first member of the group and negative for the others. -/
example : exQuartet.Valid ∧ exQuartetNx.Sound exQuartet.p ∧ Ergodic exQuartet.p ∧
    (∃ vec : Group 4 → Fin 4 → ℚ, ∀ v, 2 ≤ groupSize v → BothSigns (vec v) v) ∧
    ∀ x, IsStationary exQuartet.p x → ∀ i, (∑ j, exQuartetP i j * quartetVec (fun _ => true) j +
      ∑ j, reversal exQuartet.p x i j * quartetVec (fun _ => true) j) / 2 =
        -3/5 * quartetVec (fun _ => true) i := by
  obtain ⟨hv, hs, her⟩ := exQuartet_ok
  refine ⟨hv, hs, her, ⟨fun v i => if (∀ j, v j = true → i ≤ j) then 1 else -1, ?_⟩, ?_⟩
  · unfold BothSigns
    have : ∀ v : Fin 4 → Bool, 2 ≤ groupSize v →
      (∃ i, v i = true ∧ (0 : ℚ) ≤ if (∀ j, v j = true → i ≤ j) then 1 else -1) ∧
      ∃ i, v i = true ∧ (if (∀ j, v j = true → i ≤ j) then (1 : ℚ) else -1) < 0 := by
      decide +kernel
    exact this
  · intro x hx
    have hu : IsStationary (fun i j : Fin 4 => exQuartet.p i j) (fun _ => 1 / 4) := by decide +kernel
    have hxe : x = fun _ => 1 / 4 := by
      obtain ⟨y, -, -, -, h4⟩ := pi0_spec hv hs.sccs her.1
      exact (h4 x hx).trans (h4 _ hu).symm
    subst hxe
    intro i
    have : ∀ i : Fin 4, (∑ j, exQuartetP i j * quartetVec (fun _ => true) j +
      ∑ j, ((1 / 4) * exQuartetP j i / (1 / 4)) * quartetVec (fun _ => true) j) / 2 =
        -3/5 * quartetVec (fun _ => true) i := by
      intro i
      fin_cases i <;> decide +kernel
    exact this i

/-! ## Top-down -/

theorem mergePair_length {n : ℕ} (eta : List (Group n)) {u v : ℕ} (huv : u < v)
    (hv : v < eta.length) :
    (mergePair eta u v).length = if v = u + 1 then eta.length - 1 else eta.length - 2 := by
  unfold mergePair
  simp only [List.length_append, List.length_take, List.length_drop, List.length_singleton]
  split <;> omega

/-- Neighbouring columns are merged as intended. -/
theorem mergePair_groups {n : ℕ} {eta : List (Group n)} (h : IsGroups eta) {u : ℕ}
    (hu : u + 1 < eta.length) : IsGroups (mergePair eta u (u + 1)) := by
  have hsplit : eta = eta.take u ++ eta[u] :: eta[u + 1] :: eta.drop (u + 1 + 1) := by
    rw [List.getElem_cons_drop, List.getElem_cons_drop, List.take_append_drop]
  have hmid : (eta.take (u + 1 - 1)).drop (u + 1) = [] := by
    rw [List.drop_eq_nil_iff, List.length_take]
    omega
  have e1 : eta.getD u (fun _ => false) = eta[u] := List.getD_eq_getElem _ _ (by omega)
  have e2 : eta.getD (u + 1) (fun _ => false) = eta[u + 1] := List.getD_eq_getElem _ _ hu
  unfold mergePair
  rw [hmid, List.append_nil, e1, e2]
  refine ⟨fun i => ?_, fun w hw => ?_⟩
  · have h1 := h.1 i
    rw [hsplit, List.countP_append, List.countP_cons, List.countP_cons] at h1
    rw [List.countP_append, List.countP_append, List.countP_singleton]
    unfold mergeGroups
    cases ha : eta[u] i <;> cases hb : eta[u + 1] i <;> rw [ha, hb] at h1 <;>
      simp only [Bool.false_eq_true, if_true, if_false, Bool.or_true, Bool.or_false] at h1 ⊢ <;> omega
  · rcases List.mem_append.1 hw with hw | hw
    · rcases List.mem_append.1 hw with hw | hw
      · exact h.2 w (List.mem_of_mem_take hw)
      · rw [List.mem_singleton.1 hw]
        obtain ⟨i, hi⟩ := h.2 _ (List.getElem_mem (l := eta) (n := u) (by omega))
        exact ⟨i, by unfold mergeGroups; rw [hi]; rfl⟩
    · exact h.2 w (List.mem_of_mem_drop hw)

theorem isGroups_singletons (n : ℕ) : IsGroups (singletons n) := by
  refine ⟨fun i => ?_, fun v hv => ?_⟩
  · unfold singletons
    rw [List.countP_map]
    have h1 : ((fun v : Group n => v i) ∘ fun k j => decide (k = j)) = fun k => k == i := by
      funext k
      rw [Function.comp_apply]
      exact (beq_eq_decide k i).symm
    rw [h1, ← List.count_eq_countP, List.count_eq_one_of_mem (List.nodup_finRange n)
      (List.mem_finRange i)]
  · unfold singletons at hv
    obtain ⟨i, -, rfl⟩ := List.mem_map.1 hv
    exact ⟨i, decide_eq_true rfl⟩

theorem singletons_length (n : ℕ) : (singletons n).length = n := by
  unfold singletons
  rw [List.length_map, List.length_finRange]

theorem updateCandidates_sublist {vec : List ℕ → ℕ → K} {phi : List (List ℕ)} {m : ℕ}
    (h : ∀ v ∈ phi, v.Sublist (List.range m)) :
    ∀ v ∈ updateCandidates vec phi, v.Sublist (List.range m) := by
  have hl : (phi.getLast?.getD []).Sublist (List.range m) := by
    cases hg : phi.getLast? with
    | none => exact List.nil_sublist _
    | some w => exact h w (List.mem_of_getLast? hg)
  intro v hv
  unfold updateCandidates at hv
  rcases List.mem_append.1 hv with hv | hv
  · rcases List.mem_append.1 hv with hv | hv
    · exact h v (List.mem_of_mem_dropLast hv)
    · split at hv
      · rw [List.mem_singleton.1 hv]
        exact List.filter_sublist.trans hl
      · cases hv
  · split at hv
    · rw [List.mem_singleton.1 hv]
      exact List.filter_sublist.trans hl
    · cases hv

theorem splitLoop_sublist {vec : List ℕ → ℕ → K} {m : ℕ} (fuel : ℕ) {phi psi : List (List ℕ)}
    (h : ∀ v ∈ phi, v.Sublist (List.range m)) (hr : splitLoop vec fuel phi = some psi) :
    ∀ v ∈ psi, v.Sublist (List.range m) ∧ v.length ≤ 2 := by
  induction fuel generalizing phi with
  | zero =>
    rw [splitLoop] at hr
    split at hr
    · rename_i h2
      injection hr with hr
      subst hr
      exact fun v hv => ⟨h v hv, h2 v hv⟩
    · cases hr
  | succ k ih =>
    rw [splitLoop] at hr
    split at hr
    · rename_i h2
      injection hr with hr
      subst hr
      exact fun v hv => ⟨h v hv, h2 v hv⟩
    · exact ih (updateCandidates_sublist h) hr

theorem lastBest_mem {n : ℕ} {divergence : List (Group n) → K} {l : List (List (Group n))}
    {b : List (Group n)} (h : lastBest divergence l = some b) :
    b ∈ l ∧ ∀ a ∈ l, divergence b ≤ divergence a := by
  induction l generalizing b with
  | nil => cases h
  | cons a l ih =>
    rw [lastBest] at h
    cases hl : lastBest divergence l with
    | none =>
      rw [hl] at h
      injection h with h
      subst h
      have hnil : l = [] := by
        cases l with
        | nil => rfl
        | cons c l =>
          rw [lastBest] at hl
          cases hl2 : lastBest divergence l with
          | none => rw [hl2] at hl; cases hl
          | some d =>
            rw [hl2] at hl
            change (if _ then some c else some d) = none at hl
            split at hl <;> cases hl
      subst hnil
      exact ⟨List.mem_singleton.2 rfl, fun c hc => by rw [List.mem_singleton.1 hc]⟩
    | some d =>
      rw [hl] at h
      obtain ⟨h1, h2⟩ := ih hl
      change (if divergence a < divergence d then some a else some d) = some b at h
      split at h
      · rename_i hlt
        injection h with h
        subst h
        refine ⟨List.mem_cons_self, fun c hc => ?_⟩
        rcases List.mem_cons.1 hc with rfl | hc
        · exact le_rfl
        · exact hlt.le.trans (h2 c hc)
      · rename_i hlt
        injection h with h
        subst h
        refine ⟨List.mem_cons_of_mem _ h1, fun c hc => ?_⟩
        rcases List.mem_cons.1 hc with rfl | hc
        · exact not_lt.1 hlt
        · exact h2 c hc

/-- One round merges a pair of columns. -/
theorem topDownStep_spec {n : ℕ} {vec : List (Group n) → List ℕ → ℕ → K}
    {divergence : List (Group n) → K} {fuel : ℕ} {eta eta' : List (Group n)}
    (h : topDownStep vec divergence fuel eta = some (.ok eta')) :
    ∃ u v, u < v ∧ v < eta.length ∧ eta' = mergePair eta u v := by
  unfold topDownStep at h
  obtain ⟨phi, h1, h2⟩ := Option.map_eq_some_iff.1 h
  have h3 := splitLoop_sublist fuel (m := eta.length) (fun v hv => by
    rw [List.mem_singleton.1 hv]) h1
  unfold selectMerge at h2
  by_cases hlen : ∃ v ∈ phi, v.length < 2
  · rw [if_pos hlen] at h2; cases h2
  · rw [if_neg hlen] at h2
    push Not at hlen
    cases hb : lastBest divergence (phi.map fun v => mergePair eta (v.getD 0 0) (v.getD 1 0)) with
    | none => rw [hb] at h2; cases h2
    | some b =>
      rw [hb] at h2
      change Except.ok b = _ at h2
      injection h2 with h2
      subst h2
      obtain ⟨w, hw, rfl⟩ := List.mem_map.1 (lastBest_mem hb).1
      obtain ⟨h4, h5⟩ := h3 w hw
      have h6 := hlen w hw
      match w, h4, h5, h6 with
      | [u, v], h4, _, _ =>
        have h7 := List.Pairwise.sublist h4 List.pairwise_lt_range
        have h8 : v ∈ List.range eta.length := h4.subset (by simp)
        refine ⟨u, v, ?_, List.mem_range.1 h8, rfl⟩
        exact (List.pairwise_cons.1 h7).1 v (List.mem_singleton.2 rfl)

theorem topDownLoop_spec {n : ℕ} {vec : List (Group n) → List ℕ → ℕ → K}
    {divergence : List (Group n) → K} {fuel : ℕ} (k : ℕ) {eta eta' : List (Group n)}
    (h : topDownLoop vec divergence fuel k eta = some (.ok eta')) :
    eta'.length + k ≤ eta.length ∧
      (IsGroups eta → eta'.length + k = eta.length → IsGroups eta') := by
  induction k generalizing eta with
  | zero =>
    rw [topDownLoop] at h
    injection h with h
    injection h with h
    subst h
    exact ⟨le_rfl, fun h1 _ => h1⟩
  | succ k ih =>
    rw [topDownLoop] at h
    cases hs : topDownStep vec divergence fuel eta with
    | none => rw [hs] at h; cases h
    | some r =>
      rw [hs] at h
      cases r with
      | error e => cases h
      | ok eta1 =>
        obtain ⟨h1, h2⟩ := ih h
        obtain ⟨u, v, huv, hv, he⟩ := topDownStep_spec hs
        have hlen := mergePair_length eta huv hv
        rw [← he] at hlen
        constructor
        · split at hlen <;> omega
        · intro hg heq
          by_cases hadj : v = u + 1
          · rw [if_pos hadj] at hlen
            refine h2 ?_ (by omega)
            rw [he, hadj]
            exact mergePair_groups hg (by omega)
          · rw [if_neg hadj] at hlen
            omega

theorem topDownLoop_ok {n : ℕ} {vec : List (Group n) → List ℕ → ℕ → K}
    {divergence : List (Group n) → K} {fuel : ℕ} (k : ℕ) {eta eta' : List (Group n)}
    (h : topDownStep vec divergence fuel eta = some (.ok eta')) :
    topDownLoop vec divergence fuel (k + 1) eta = topDownLoop vec divergence fuel k eta' := by
  rw [topDownLoop, h]

theorem topDownLoop_none {n : ℕ} {vec : List (Group n) → List ℕ → ℕ → K}
    {divergence : List (Group n) → K} {fuel : ℕ} (k : ℕ) {eta : List (Group n)}
    (h : topDownStep vec divergence fuel eta = none) :
    topDownLoop vec divergence fuel (k + 1) eta = none := by
  rw [topDownLoop, h]

/-- C97 (partial). If `aggregate` with the top-down method returns a chain, that chain has at most `s`
states; and if it has `s` states, it is the aggregation of the given chain for some assignment of the
states to groups, as in `C96_bottom_up_partial`. -/
theorem C97_top_down_partial {c : MC K} (hc : c.Valid) {nx : Nx c.n} (hx : nx.Sound c.p)
    (he : Ergodic c.p) {s : ℕ} (h2 : 2 ≤ s) (hs : s + 1 ≤ c.n) {vecUp : Group c.n → Fin c.n → K}
    {vecDown : List (Group c.n) → List ℕ → ℕ → K} {divergence : List (Group c.n) → K} {fuel : ℕ}
    {r : FltMC K} (h : aggregate c nx vecUp vecDown divergence fuel (.int s)
      (.str "spectral-top-down") = .ok (some (.ok r))) :
    r.n ≤ s ∧ (r.n = s → ∃ (x : Fin c.n → K) (f : Fin c.n → Fin s), IsStationary c.p x ∧
      Function.Surjective f ∧
      r = ⟨s, fun a b => .fin (aggregated c.p x f a b), aggregateLabels "ASTD" s⟩ ∧
      IsStochastic (aggregated c.p x f) ∧ IsStationary (aggregated c.p x f) (groupMass x f)) := by
  obtain ⟨x, h3, h4, h5⟩ := aggregate_run hc hx he h2 hs (vecUp := vecUp) (vecDown := vecDown)
    (divergence := divergence) (fuel := fuel) (m := "spectral-top-down") (by decide)
  rw [h5, if_neg (by unfold useBottomUp; simp)] at h
  injection h with h
  unfold aggregateTopDown at h
  obtain ⟨q, h6, h7⟩ := Option.map_eq_some_iff.1 h
  cases q with
  | error e => cases h7
  | ok eta =>
    injection h7 with h7
    subst h7
    obtain ⟨h8, h9⟩ := topDownLoop_spec _ h6
    rw [singletons_length] at h8 h9
    refine ⟨by change eta.length ≤ s; omega, fun hn => ?_⟩
    change eta.length = s at hn
    subst hn
    obtain ⟨f, f1, -, f3, f4, f5⟩ := groupChain_eq (h9 (isGroups_singletons _) (by omega)) hc.2.1 h3 h4
      "ASTD"
    exact ⟨x, f, h3, f1, f3, f4, f5⟩

/-- Three states, the outer ones of which are alike. -/
def exOuterP : Matrix (Fin 3) (Fin 3) ℚ :=
  !![1/2, 1/10, 2/5; 1/10, 4/5, 1/10; 2/5, 1/10, 1/2]

/-- See `exOuterP`. -/
def exOuter : MC ℚ := ⟨3, exOuterP, ["a", "b", "c"]⟩

/-- What networkx returns for `exOuter`. -/
def exOuterNx : Nx 3 := Nx.ofClasses (fun i j => exOuterP i j) [[0, 1, 2]] true

theorem exOuter_ok : exOuter.Valid ∧ exOuterNx.Sound exOuter.p ∧ Ergodic exOuter.p := by
  have hv : exOuter.Valid := by decide +kernel
  have hcl : IsClasses (fun i j : Fin 3 => exOuter.p i j) [[0, 1, 2]] := by decide +kernel
  have hs : exOuterNx.Sound exOuter.p := Nx.ofClasses_sound true hcl
  exact ⟨hv, hs, (isErgodic_iff hv hs).1 (by decide +kernel)⟩

/-- The eigenvector of `exOuter` for the eigenvalue `7/10`. -/
def outerVec : List (Group 3) → List ℕ → ℕ → ℚ := fun _ _ i => if i = 1 then -2 else 1

/-- C97 fails: for the first and the last of three states, the slice of the remaining columns is empty
and the state between them is dropped. The result has one state although two are requested. The
vector is the eigenvector for `7/10`, the eigenvalues are `1`, `7/10` and `1/10`; the result with the
opposite sign is the same. The default method `adaptive` is affected. -/
theorem C97_state_dropped (vecUp : Group 3 → Fin 3 → ℚ) (divergence : List (Group 3) → ℚ) (k : ℕ)
    {m : String} (hm : m = "adaptive" ∨ m = "spectral-top-down") {sgn : ℚ} (hsgn : sgn = 1 ∨ sgn = -1) :
    (∀ i : Fin 3, ∑ j : Fin 3, exOuterP i j * outerVec [] [] j.val = 7 / 10 * outerVec [] [] i.val) ∧
    ∃ r : FltMC ℚ, aggregate exOuter exOuterNx vecUp (fun e v i => sgn * outerVec e v i) divergence
      (k + 1) (.int 2) (.str m) = .ok (some (.ok r)) ∧ r.n = 1 := by
  constructor
  · intro i
    fin_cases i <;> decide +kernel
  · obtain ⟨hv, hs, her⟩ := exOuter_ok
    obtain ⟨x, -, -, h6⟩ := aggregate_run hv hs her (s := 2) (by decide) (by decide) (vecUp := vecUp)
      (vecDown := fun e v i => sgn * outerVec e v i) (divergence := divergence) (fuel := k + 1) (m := m)
      (by rcases hm with rfl | rfl <;> decide)
    have hu : useBottomUp exOuter.n ((2 : ℕ) : ℤ) m = false := by
      rcases hm with rfl | rfl <;> decide
    have hsplit : splitLoop (fun v i => sgn * outerVec (singletons 3) v i) (k + 1) [List.range 3]
        = some [[0, 2]] := by
      have h1 : updateCandidates (fun v i => sgn * outerVec (singletons 3) v i) [List.range 3] =
          [[0, 2]] := by
        rcases hsgn with rfl | rfl <;> decide +kernel
      rw [splitLoop, if_neg (by decide), h1]
      cases k with
      | zero => rw [splitLoop, if_pos (by decide)]
      | succ k => rw [splitLoop, if_pos (by decide)]
    have hstep : topDownStep (fun e v i => sgn * outerVec e v i) divergence (k + 1) (singletons 3) =
        some (.ok (mergePair (singletons 3) 0 2)) := by
      unfold topDownStep
      rw [singletons_length, hsplit]
      rfl
    refine ⟨groupChain exOuterP x "ASTD" (mergePair (singletons 3) 0 2), ?_, by
      change (mergePair (singletons 3) 0 2).length = 1
      rw [mergePair_length _ (by decide) (by rw [singletons_length]; decide), if_neg (by decide),
        singletons_length]⟩
    refine h6.trans ?_
    rw [if_neg (by rw [hu]; decide)]
    unfold aggregateTopDown
    have hloop := topDownLoop_ok 0 hstep
    exact congrArg (fun o : Option (R (List (Group 3))) => Except.ok (Option.map (fun r => r >>= fun eta =>
      pure (groupChain exOuterP x "ASTD" eta)) o)) hloop

/-- Two triples of states; every state moves to a state of the other triple or stays. -/
def exSextetP : Matrix (Fin 6) (Fin 6) ℚ := fun i j =>
  if i = j then 1 / 10 else if decide (i.val < 3) = decide (j.val < 3) then 0 else 3 / 10

/-- See `exSextetP`. -/
def exSextet : MC ℚ := ⟨6, exSextetP, ["a", "b", "c", "d", "e", "f"]⟩

/-- What networkx returns for `exSextet`. -/
def exSextetNx : Nx 6 := Nx.ofClasses (fun i j => exSextetP i j) [[0, 1, 2, 3, 4, 5]] true

theorem exSextet_ok : exSextet.Valid ∧ exSextetNx.Sound exSextet.p ∧ Ergodic exSextet.p := by
  have hv : exSextet.Valid := by decide +kernel
  have hcl : IsClasses (fun i j : Fin 6 => exSextet.p i j) [[0, 1, 2, 3, 4, 5]] := by decide +kernel
  have hs : exSextetNx.Sound exSextet.p := Nx.ofClasses_sound true hcl
  exact ⟨hv, hs, (isErgodic_iff hv hs).1 (by decide +kernel)⟩

/-- A group of more than two columns on which the vector is nonnegative is never split. -/
theorem splitLoop_endless {vec : List ℕ → ℕ → K} (fuel : ℕ) {phi : List (List ℕ)} {v : List ℕ}
    (hl : 2 < v.length) (hv : ∀ i ∈ v, 0 ≤ vec v i) : splitLoop vec fuel (phi ++ [v]) = none := by
  have h1 : ¬ ∀ w ∈ phi ++ [v], w.length ≤ 2 := fun h => by
    have := h v (by simp)
    omega
  have h2 : updateCandidates vec (phi ++ [v]) = phi ++ [v] := by
    unfold updateCandidates
    have e1 : (phi ++ [v]).getLast?.getD [] = v := by simp
    have e2 : (v.filter fun i => decide (0 ≤ vec v i)) = v := by
      rw [List.filter_eq_self]
      exact fun i hi => decide_eq_true (hv i hi)
    have e3 : (v.filter fun i => decide (vec v i < 0)) = [] := by
      rw [List.filter_eq_nil_iff]
      exact fun i hi => by simpa using hv i hi
    simp only [e1, e2, e3]
    rw [if_pos (by omega), if_neg (by simp)]
    simp
  induction fuel with
  | zero => rw [splitLoop, if_neg h1]
  | succ k ih => rw [splitLoop, if_neg h1, h2, ih]

/-- C97 fails: for this chain, the loop that splits the columns never ends. The eigenvalues are `1`,
`-4/5` and four times `1/10`, so the eigenvector for `-4/5` separates the triples. The blocks of the
triples are diagonal; their eigenvectors are the unit vectors that LAPACK returns for diagonal
matrices. The default method `adaptive` is affected. -/
theorem C97_endless (vecUp : Group 6 → Fin 6 → ℚ) (vecDown : List (Group 6) → List ℕ → ℕ → ℚ)
    (h1 : vecDown (singletons 6) (List.range 6) = fun i => if i < 3 then 1 else -1)
    (h2 : ∀ i, 0 ≤ vecDown (singletons 6) [3, 4, 5] i) (divergence : List (Group 6) → ℚ) (fuel : ℕ)
    {m : String} (hm : m = "adaptive" ∨ m = "spectral-top-down") {s : ℕ} (hs2 : 2 ≤ s) (hs5 : s ≤ 5) :
    (∀ i : Fin 6, ∑ j : Fin 6, exSextetP i j * (if j.val < 3 then 1 else -1) =
      -4 / 5 * (if i.val < 3 then 1 else -1)) ∧
    aggregate exSextet exSextetNx vecUp vecDown divergence fuel (.int s) (.str m) = .ok none := by
  constructor
  · intro i
    fin_cases i <;> decide +kernel
  · obtain ⟨hv, hs, her⟩ := exSextet_ok
    obtain ⟨x, -, -, h6⟩ := aggregate_run hv hs her (s := s) hs2 (by change s + 1 ≤ 6; omega)
      (vecUp := vecUp) (vecDown := vecDown) (divergence := divergence) (fuel := fuel) (m := m)
      (by rcases hm with rfl | rfl <;> decide)
    have hu : useBottomUp exSextet.n (s : ℤ) m = false := by
      rcases hm with rfl | rfl
      · unfold useBottomUp
        rw [if_pos rfl, if_pos (by decide)]
      · unfold useBottomUp
        rw [if_neg (by decide)]
        decide
    have hsplit : splitLoop (vecDown (singletons 6)) fuel [List.range 6] = none := by
      cases fuel with
      | zero => rw [splitLoop, if_neg (by decide)]
      | succ k =>
        have e1 : updateCandidates (vecDown (singletons 6)) [List.range 6] = [[0, 1, 2], [3, 4, 5]] := by
          unfold updateCandidates
          simp only [List.getLast?_singleton, Option.getD_some, h1]
          decide +kernel
        rw [splitLoop, if_neg (by decide), e1]
        exact splitLoop_endless k (phi := [[0, 1, 2]]) (v := [3, 4, 5]) (by decide) fun i _ => h2 i
    have hstep : topDownStep vecDown divergence fuel (singletons 6) = none := by
      unfold topDownStep
      rw [singletons_length, hsplit]
      rfl
    refine h6.trans ?_
    rw [if_neg (by rw [hu]; decide)]
    unfold aggregateTopDown
    obtain ⟨k, hk⟩ : ∃ k, exSextet.n - s = k + 1 := ⟨5 - s, by change 6 - s = _; omega⟩
    rw [hk]
    have hloop := topDownLoop_none k hstep
    exact congrArg (fun o : Option (R (List (Group 6))) => Except.ok (Option.map (fun r => r >>= fun eta =>
      pure (groupChain exSextetP x "ASTD" eta)) o)) hloop

/-- The hypotheses of `C97_endless` can be met by the eigenvectors. -/
example : ∃ vec : List (Group 6) → List ℕ → ℕ → ℚ,
    vec (singletons 6) (List.range 6) = (fun i => if i < 3 then 1 else -1) ∧
    ∀ i, 0 ≤ vec (singletons 6) [3, 4, 5] i :=
  ⟨fun _ v i => if v.length = 6 then (if i < 3 then 1 else -1) else if i = 3 then 1 else 0, by
    funext i; rfl, fun i => by dsimp only; rw [if_neg (by decide)]; split <;> decide⟩

/-- Three states, the first two of which are alike. -/
def exInnerP : Matrix (Fin 3) (Fin 3) ℚ :=
  !![1/2, 2/5, 1/10; 2/5, 1/2, 1/10; 1/10, 1/10, 4/5]

/-- See `exInnerP`. -/
def exInner : MC ℚ := ⟨3, exInnerP, ["a", "b", "c"]⟩

/-- What networkx returns for `exInner`. -/
def exInnerNx : Nx 3 := Nx.ofClasses (fun i j => exInnerP i j) [[0, 1, 2]] true

/-- The hypotheses of `C97_top_down_partial` can be met with a result of `s` states. -/
example : exInner.Valid ∧ exInnerNx.Sound exInner.p ∧ Ergodic exInner.p ∧
    (aggregate exInner exInnerNx (fun _ _ => 0) (fun _ _ i => if i = 2 then -2 else 1) (fun _ => 0) 1
      (.int 2) (.str "spectral-top-down")).toOption.map (fun o => o.map fun r => r.toOption.map
        fun d : FltMC ℚ => d.n) = some (some (some 2)) := by
  have hv : exInner.Valid := by decide +kernel
  have hcl : IsClasses (fun i j : Fin 3 => exInner.p i j) [[0, 1, 2]] := by decide +kernel
  have hs : exInnerNx.Sound exInner.p := Nx.ofClasses_sound true hcl
  exact ⟨hv, hs, (isErgodic_iff hv hs).1 (by decide +kernel), by decide +kernel⟩

end Verif
