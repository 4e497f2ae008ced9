import Verif.Props.Canonical
import Verif.Props.Arguments
import Verif.Props.Absorbing

/-!
# Subchains (C21)
-/

set_option linter.unusedSectionVars false

namespace Verif

variable {K : Type} [Field K] [LinearOrder K] [IsStrictOrderedRing K]

/-- The states named by an accepted argument exist and are listed in increasing order. -/
theorem labelsCurrent_sound {labels : List String} (hn : labels.Nodup) {v : PyVal K}
    {subset : Bool} {m : Option ℕ} {r : List ℕ}
    (h : validateLabelsCurrent v labels subset m = .ok r) :
    r.Pairwise (· < ·) ∧ (∀ k ∈ r, k < labels.length) ∧ r ≠ [] := by
  have single : ∀ k, Names labels v k → ([k] : List ℕ).Pairwise (· < ·) ∧
      (∀ x ∈ [k], x < labels.length) ∧ [k] ≠ [] := by
    intro k hk
    refine ⟨List.pairwise_singleton _ _, ?_, by simp⟩
    intro x hx
    rw [List.mem_singleton.1 hx]
    exact hk.lt
  by_cases hl : ∃ l, v = .list l
  · obtain ⟨l, rfl⟩ := hl
    rw [C04_label_lists hn] at h
    obtain ⟨-, ⟨ks, hks, hp⟩, hs, hlen, -⟩ := h
    refine ⟨hs, ?_, by rintro rfl; simp at hlen⟩
    intro k hk
    rw [← hp.mem_iff] at hk
    obtain ⟨i, hi, rfl⟩ := List.mem_iff_getElem.1 hk
    have hi' : i < l.length := by rw [hks.length_eq]; exact hi
    have hx := (List.forall₂_iff_get.1 hks).2 i hi' hi
    exact Names.lt hx
  · push Not at hl
    rw [C04_single_value hn v hl] at h
    obtain ⟨i, hi, rfl⟩ := h
    exact single i hi

theorem mem_toStates {n : ℕ} {l : List ℕ} {x : Fin n} : x ∈ toStates n l ↔ x.val ∈ l := by
  unfold toStates
  rw [List.mem_filterMap]
  constructor
  · rintro ⟨k, hk, h⟩
    split at h
    · cases h; exact hk
    · cases h
  · intro h
    exact ⟨x, h, by simp⟩

theorem toStates_val {n : ℕ} {l : List ℕ} (h : ∀ k ∈ l, k < n) :
    (toStates n l).map Fin.val = l := by
  induction l with
  | nil => rfl
  | cons a l ih =>
    have ha : a < n := h a (by simp)
    have : toStates n (a :: l) = ⟨a, ha⟩ :: toStates n l := by
      simp [toStates, ha]
    rw [this, List.map_cons, ih fun k hk => h k (by simp [hk])]

theorem toStates_nodup {n : ℕ} {l : List ℕ} (h : l.Nodup) : (toStates n l).Nodup := by
  refine List.Nodup.filterMap ?_ h
  intro a b x ha hb
  simp only [Option.mem_def] at ha hb
  split at ha
  · split at hb
    · cases ha
      injection hb with hb
      exact (congrArg Fin.val hb).symm
    · cases hb
  · cases ha

/-! ## The closure -/

theorem warshall_contains {n : ℕ} {A : Fin n → Fin n → Bool} {i j : Fin n} (h : A i j = true) :
    warshall A i j = true := by
  unfold warshall
  generalize List.finRange n = l
  induction l generalizing A with
  | nil => exact h
  | cons a l ih =>
    rw [List.foldl_cons]
    refine ih ?_
    simp [warshallPass, h]

theorem warshall_sound {n : ℕ} {P : Matrix (Fin n) (Fin n) K} {i j : Fin n}
    (h : warshall (fun i j => hasEdge P i j) i j = true) : Reach P i j := by
  unfold warshall at h
  have key : ∀ (l : List (Fin n)) (C : Fin n → Fin n → Bool), (∀ a b, C a b = true → Reach P a b) →
      ∀ a b, l.foldl warshallPass C a b = true → Reach P a b := by
    intro l
    induction l with
    | nil => intro C hC; exact hC
    | cons x l ih =>
      intro C hC
      rw [List.foldl_cons]
      refine ih _ ?_
      intro a b hab
      simp only [warshallPass, Bool.or_eq_true, Bool.and_eq_true] at hab
      rcases hab with hab | ⟨h1, h2⟩
      · exact hC _ _ hab
      · exact (hC _ _ h1).trans (hC _ _ h2)
  exact key _ _ (fun a b hab => Reach.single (hasEdge_iff.1 hab)) _ _ h

/-- The transitive closure is correct: it relates exactly the states joined by a walk of at least
one transition. -/
theorem warshall_iff {n : ℕ} (A : Fin n → Fin n → Bool) (i j : Fin n) :
    warshall A i j = true ↔ Relation.TransGen (fun a b => A a b = true) i j := by
  have key : ∀ (l m : List (Fin n)) (C : Fin n → Fin n → Bool),
      (∀ a b, A a b = true → C a b = true) →
      (∀ a b, C a b = true → Relation.TransGen (fun a b => A a b = true) a b) →
      (∀ k ∈ m, ∀ a b, C a k = true → C k b = true → C a b = true) →
      (∀ a b, A a b = true → l.foldl warshallPass C a b = true) ∧
      (∀ a b, l.foldl warshallPass C a b = true → Relation.TransGen (fun a b => A a b = true) a b) ∧
      ∀ k, k ∈ m ∨ k ∈ l → ∀ a b, l.foldl warshallPass C a k = true →
        l.foldl warshallPass C k b = true → l.foldl warshallPass C a b = true := by
    intro l
    induction l with
    | nil =>
      intro m C h1 h2 h3
      exact ⟨h1, h2, fun k hk => h3 k (by simpa using hk)⟩
    | cons x l ih =>
      intro m C h1 h2 h3
      rw [List.foldl_cons]
      have i1 : ∀ a b, A a b = true → warshallPass C x a b = true := by
        intro a b hab
        simp [warshallPass, h1 a b hab]
      have i2 : ∀ a b, warshallPass C x a b = true →
          Relation.TransGen (fun a b => A a b = true) a b := by
        intro a b hab
        simp only [warshallPass, Bool.or_eq_true, Bool.and_eq_true] at hab
        rcases hab with hab | ⟨ha, hb⟩
        · exact h2 _ _ hab
        · exact (h2 _ _ ha).trans (h2 _ _ hb)
      have i3 : ∀ k ∈ x :: m, ∀ a b, warshallPass C x a k = true → warshallPass C x k b = true →
          warshallPass C x a b = true := by
        intro k hk a b hak hkb
        simp only [warshallPass, Bool.or_eq_true, Bool.and_eq_true] at hak hkb ⊢
        rcases List.mem_cons.1 hk with rfl | hk
        · right
          exact ⟨hak.elim id And.left, hkb.elim id And.right⟩
        · rcases hak with hak | ⟨a1, a2⟩ <;> rcases hkb with hkb | ⟨b1, b2⟩
          · exact Or.inl (h3 k hk _ _ hak hkb)
          · exact Or.inr ⟨h3 k hk _ _ hak b1, b2⟩
          · exact Or.inr ⟨a1, h3 k hk _ _ a2 hkb⟩
          · exact Or.inr ⟨a1, b2⟩
      obtain ⟨g1, g2, g3⟩ := ih (x :: m) (warshallPass C x) i1 i2 i3
      refine ⟨g1, g2, fun k hk => g3 k ?_⟩
      simp only [List.mem_cons] at hk ⊢
      tauto
  obtain ⟨g1, g2, g3⟩ := key (List.finRange n) [] A (fun _ _ h => h)
    (fun _ _ h => .single h) (by simp)
  refine ⟨g2 i j, fun h => ?_⟩
  induction h with
  | single h => exact g1 _ _ h
  | tail _ h ih => exact g3 _ (Or.inr (List.mem_finRange _)) _ _ ih (g1 _ _ h)

theorem growLoop_spec {n : ℕ} (closure : Fin n → Fin n → Bool) (fuel : ℕ)
    (done todo : List (Fin n)) (hnd : (done ++ todo).Nodup) (hf : done.length + fuel = n + 1)
    (hcl : ∀ s ∈ done, ∀ x, closure s x = true → x ∈ done ++ todo) :
    (growLoop closure fuel done todo).Nodup ∧
    (∀ x ∈ done ++ todo, x ∈ growLoop closure fuel done todo) ∧
    (∀ s ∈ growLoop closure fuel done todo, ∀ x, closure s x = true →
      x ∈ growLoop closure fuel done todo) ∧
    ∀ S : Fin n → Prop, (∀ s x, S s → closure s x = true → S x) → (∀ x ∈ done ++ todo, S x) →
      ∀ x ∈ growLoop closure fuel done todo, S x := by
  induction fuel generalizing done todo with
  | zero =>
    have : (done ++ todo).length ≤ n := by
      simpa using hnd.length_le_card
    rw [List.length_append] at this
    omega
  | succ fuel ih =>
    cases todo with
    | nil =>
      rw [List.append_nil] at hnd hcl ⊢
      exact ⟨hnd, fun x hx => hx, hcl, fun S _ h => h⟩
    | cons s todo =>
      rw [growLoop]
      set new := (List.finRange n).filter
        fun x => closure s x && decide (x ∉ done ++ s :: todo) with hnew
      have mem_new : ∀ x, x ∈ new ↔ closure s x = true ∧ x ∉ done ++ s :: todo := by
        intro x
        simp [hnew]
      have heq : done ++ [s] ++ (todo ++ new) = (done ++ s :: todo) ++ new := by simp
      have i1 : (done ++ [s] ++ (todo ++ new)).Nodup := by
        rw [heq, List.nodup_append]
        refine ⟨hnd, (List.nodup_finRange n).filter _, ?_⟩
        rintro a ha b hb rfl
        exact ((mem_new a).1 hb).2 ha
      have i2 : ∀ t ∈ done ++ [s], ∀ x, closure t x = true → x ∈ done ++ [s] ++ (todo ++ new) := by
        rw [heq]
        intro t ht x hx
        rcases List.mem_append.1 ht with ht | ht
        · exact List.mem_append_left _ (hcl t ht x hx)
        · rw [List.mem_singleton.1 ht] at hx
          by_cases hm : x ∈ done ++ s :: todo
          · exact List.mem_append_left _ hm
          · exact List.mem_append_right _ ((mem_new x).2 ⟨hx, hm⟩)
      obtain ⟨g1, g2, g3, g4⟩ := ih (done ++ [s]) (todo ++ new) i1
        (by rw [List.length_append, List.length_singleton]; omega) i2
      refine ⟨g1, fun x hx => g2 x ?_, g3, ?_⟩
      · rw [heq]
        exact List.mem_append_left _ hx
      · intro S hS h0
        refine g4 S hS ?_
        rw [heq]
        intro x hx
        rcases List.mem_append.1 hx with hx | hx
        · exact h0 x hx
        · exact hS s x (h0 s (by simp)) ((mem_new x).1 hx).1

theorem mem_growLoop {n : ℕ} {P : Matrix (Fin n) (Fin n) K} {sub : List (Fin n)} (hs : sub.Nodup) :
    (growLoop (warshall fun i j => hasEdge P i j) (n + 1) [] sub).Nodup ∧
    ∀ x, x ∈ growLoop (warshall fun i j => hasEdge P i j) (n + 1) [] sub ↔
      ∃ s ∈ sub, Reach P s x := by
  obtain ⟨g1, g2, g3, g4⟩ := growLoop_spec (warshall fun i j => hasEdge P i j) (n + 1) [] sub
    (by simpa using hs) (by simp) (by simp)
  refine ⟨g1, fun x => ⟨?_, ?_⟩⟩
  · refine g4 (fun x => ∃ s ∈ sub, Reach P s x) ?_ ?_ x
    · rintro a b ⟨s, hs, hr⟩ hab
      exact ⟨s, hs, hr.trans (warshall_sound hab)⟩
    · intro y hy
      exact ⟨y, by simpa using hy, .refl _⟩
  · rintro ⟨s, hs, hr⟩
    have h0 := g2 s (by simpa using hs)
    refine closedSet_reach (P := fun i j => P i j)
      (S := fun y => y ∈ growLoop (warshall fun i j => hasEdge P i j) (n + 1) [] sub) ?_ h0 hr
    intro a b ha he
    exact g3 a ha b (warshall_contains (hasEdge_iff.2 he))

theorem sum_get {α : Type} [Fintype α] [DecidableEq α] {l : List α} (h : l.Nodup) (f : α → K) :
    ∑ i : Fin l.length, f (l.get i) = ∑ x ∈ Finset.univ.filter (· ∈ l), f x := by
  have : Finset.univ.filter (· ∈ l) = l.toFinset := by ext; simp
  rw [this, List.sum_toFinset f h, ← List.sum_ofFn]
  congr 1
  exact List.ofFn_eq_map.trans ((List.map_map (f := l.get) (g := f)).symm.trans
    (by rw [List.map_get_finRange]))

/-- The chain restricted to a closed list of at least two states is a chain. -/
theorem subChain_valid {c : MC K} (hc : c.Valid) {idx : List (Fin c.n)} (hnd : idx.Nodup)
    (h2 : 2 ≤ idx.length) (hcl : ClosedSet c.p (· ∈ idx)) : (subChain c idx).Valid := by
  refine ⟨h2, ⟨fun i j => hc.2.1.1 _ _, fun i => ?_⟩, ?_, ?_, ?_⟩
  · have h1 := closed_row_sum (P := fun i j => c.p i j) hc.2.1 hcl (List.get_mem idx i)
    rw [← h1]
    exact sum_get hnd fun j => c.p (idx.get i) j
  · simp [subChain]
  · exact hnd.map (label_injective hc.2.2.1 hc.2.2.2.1)
  · intro s hs
    obtain ⟨i, -, rfl⟩ := List.mem_map.1 hs
    refine hc.2.2.2.2 _ ?_
    unfold MC.label
    rw [List.getD_eq_getElem _ _ (by have := hc.2.2.1; omega)]
    exact List.getElem_mem _

/-- C21. `to_subchain` succeeds exactly when the argument names distinct states from which at least
two states can be reached (counting the named ones). The result then is a valid chain whose states
are exactly the states reachable from the named ones, in their original order, with unchanged
labels and transition probabilities. -/
theorem C21_subchain {c : MC K} (hc : c.Valid) (v : PyVal K) (d : MC K) :
    toSubchain c v = .ok d ↔
      ∃ ks, validateLabelsCurrent v c.states true none = .ok ks ∧
        ∃ idx : List (Fin c.n), 2 ≤ idx.length ∧ idx.Pairwise (· < ·) ∧
          (∀ x, x ∈ idx ↔ ∃ s : Fin c.n, s.val ∈ ks ∧ Reach c.p s x) ∧
          d = ⟨idx.length, fun i j => c.p (idx.get i) (idx.get j), idx.map c.label⟩ ∧ d.Valid := by
  have main : ∀ ks, validateLabelsCurrent v c.states true none = .ok ks →
      ∃ idx : List (Fin c.n), idx ≠ [] ∧ idx.Pairwise (· < ·) ∧
        (∀ x, x ∈ idx ↔ ∃ s : Fin c.n, s.val ∈ ks ∧ Reach c.p s x) ∧
        mcSub c (toStates c.n ks) =
          if idx.length * idx.length = 1 then throw .valueError
          else pure (subChain c idx) := by
    intro ks hks
    obtain ⟨hsort, hlt, hne⟩ := labelsCurrent_sound hc.2.2.2.1 hks
    obtain ⟨g1, g2⟩ := mem_growLoop (P := c.p)
      (toStates_nodup (n := c.n) (hsort.imp fun h => ne_of_lt h))
    set idx := sortIdx (growLoop (warshall fun i j => hasEdge c.p i j) (c.n + 1) []
      (toStates c.n ks)) with hidx
    have hmem : ∀ x, x ∈ idx ↔ ∃ s : Fin c.n, s.val ∈ ks ∧ Reach c.p s x := by
      intro x
      rw [hidx, mem_sortIdx, g2]
      simp only [mem_toStates]
    have hcl : ClosedSet c.p (· ∈ idx) := by
      intro a b ha he
      obtain ⟨s, hs, hr⟩ := (hmem a).1 ha
      exact (hmem b).2 ⟨s, hs, hr.trans (Reach.single he)⟩
    have hstr := sortIdx_strict g1
    have hnd : idx.Nodup := hstr.imp fun h => ne_of_lt h
    refine ⟨idx, ?_, hstr, hmem, ?_⟩
    · obtain ⟨k, hk⟩ := List.exists_mem_of_ne_nil _ hne
      have hkn : k < c.n := by have := hlt k hk; rwa [hc.2.2.1] at this
      intro h0
      have := (hmem ⟨k, hkn⟩).2 ⟨_, hk, .refl _⟩
      rw [h0] at this
      exact absurd this List.not_mem_nil
    · unfold mcSub
      simp only
      rw [← hidx]
      congr 2
      refine congrArg (fun q => (⟨idx.length, q, idx.map c.label⟩ : MC K)) ?_
      funext i j
      have h1 := closed_row_sum (P := fun i j => c.p i j) hc.2.1 hcl (List.get_mem idx i)
      have h2 : ∑ l, subMatrix c.p idx i l = 1 := by
        rw [← h1]
        exact sum_get hnd fun j => c.p (idx.get i) j
      rw [h2, div_one]
  unfold toSubchain
  rw [R.bind_ok]
  constructor
  · rintro ⟨ks, hks, h⟩
    obtain ⟨idx, hne, hstr, hmem, heq⟩ := main ks hks
    rw [heq, R.ite_throw, R.pure_ok] at h
    obtain ⟨h1, rfl⟩ := h
    have h2 : 2 ≤ idx.length := by
      have h0 := List.length_pos_iff.2 hne
      by_contra hlt
      exact h1 (by rw [show idx.length = 1 by omega])
    refine ⟨ks, hks, idx, h2, hstr, hmem, rfl, subChain_valid hc (hstr.imp fun h => ne_of_lt h) h2 ?_⟩
    intro a b ha he
    obtain ⟨s, hs, hr⟩ := (hmem a).1 ha
    exact (hmem b).2 ⟨s, hs, hr.trans (Reach.single he)⟩
  · rintro ⟨ks, hks, idx, h2, hstr, hmem, rfl, -⟩
    refine ⟨ks, hks, ?_⟩
    obtain ⟨idx', hne, hstr', hmem', heq⟩ := main ks hks
    have : idx' = idx := by
      have hp : idx'.Perm idx := (List.perm_ext_iff_of_nodup (hstr'.imp fun h => ne_of_lt h)
        (hstr.imp fun h => ne_of_lt h)).2 fun x => by rw [hmem, hmem']
      exact hp.eq_of_pairwise (fun a b _ _ hab hba => absurd hab (not_lt.2 hba.le)) hstr' hstr
    subst this
    rw [heq, R.ite_throw, R.pure_ok]
    exact ⟨fun h => by nlinarith, rfl⟩

/-- The hypothesis of `C21_subchain` is met. -/
example : exReversed.Valid := by decide +kernel

/-- Two states can be reached from the third state. -/
example : (toSubchain exReversed (.list [.int 2])).toOption.map MC.states = some ["x", "z"] := by
  decide +kernel

/-- Only one state can be reached from the first state. -/
example : (toSubchain exReversed (.str "x")).toOption.map MC.states = none := by
  decide +kernel

end Verif
