import Verif.Lemmas.Primitive
import Verif.Model.Periods
import Mathlib.Tactic.Linarith

/-! Breadth-first computation of the period: common invariant and the two loops. -/

set_option linter.unusedSectionVars false

namespace Verif

open Finset

variable {K : Type} [Field K] [LinearOrder K] [IsStrictOrderedRing K]

section Invariant

variable {ι : Type} [Fintype ι] [DecidableEq ι]

/-- What is known after the edges `proc` have been inspected from root `x`. -/
structure LevelInv (P : ι → ι → K) (x : ι) (lev : ι → Option ℕ) (g : ℕ) (proc : ι → ι → Prop) :
    Prop where
  root : lev x = some 0
  walk : ∀ v l, lev v = some l → ReachIn P l x v
  dvd : ∀ d : ℕ, (∀ k, ReachIn P k x x → d ∣ k) → d ∣ g
  edge : ∀ u v, proc u v → ∃ a b, lev u = some a ∧ lev v = some b ∧ (g : ℤ) ∣ (a : ℤ) + 1 - b

variable {P : ι → ι → K} {x : ι} {lev : ι → Option ℕ} {g : ℕ} {proc : ι → ι → Prop}

theorem LevelInv.mono (h : LevelInv P x lev g proc) {proc' : ι → ι → Prop}
    (hp : ∀ u v, proc' u v → proc u v) : LevelInv P x lev g proc' :=
  ⟨h.root, h.walk, h.dvd, fun u v huv => h.edge u v (hp u v huv)⟩

theorem LevelInv.seen (h : LevelInv P x lev g proc) (hx : RecurrentState P x) {u v : ι} {a b : ℕ}
    (hu : lev u = some a) (hv : lev v = some b) (e : Edge P u v) :
    LevelInv P x lev (Int.gcd g (((a + 1 : ℕ) : ℤ) - (b : ℤ))) (fun s t => proc s t ∨ (s = u ∧ t = v)) where
  root := h.root
  walk := h.walk
  dvd d hd := by
    have h1 := h.dvd d hd
    have hwu := (h.walk u a hu).step e
    obtain ⟨r, hr⟩ := reach_iff_reachIn.1 (hx v (hwu.reach))
    have h2 : d ∣ a + 1 + r := hd _ (hwu.trans hr)
    have h3 : d ∣ b + r := hd _ ((h.walk v b hv).trans hr)
    have h4 : (d : ℤ) ∣ ((a + 1 : ℕ) : ℤ) - (b : ℤ) := by
      have := Int.dvd_sub (Int.natCast_dvd_natCast.2 h2) (Int.natCast_dvd_natCast.2 h3)
      rwa [show ((a + 1 + r : ℕ) : ℤ) - ((b + r : ℕ) : ℤ) = ((a + 1 : ℕ) : ℤ) - (b : ℤ) by
        push_cast; ring] at this
    exact Int.natCast_dvd_natCast.1 (Int.dvd_coe_gcd (Int.natCast_dvd_natCast.2 h1) h4)
  edge s t hst := by
    rcases hst with hst | ⟨rfl, rfl⟩
    · obtain ⟨a', b', ha', hb', hd⟩ := h.edge s t hst
      exact ⟨a', b', ha', hb', (Int.gcd_dvd_left _ _).trans hd⟩
    · refine ⟨a, b, hu, hv, ?_⟩
      have := Int.gcd_dvd_right (g : ℤ) (((a + 1 : ℕ) : ℤ) - (b : ℤ))
      push_cast at this ⊢
      exact this

theorem LevelInv.fresh (h : LevelInv P x lev g proc) {u v : ι} {a : ℕ}
    (hu : lev u = some a) (hv : lev v = none) (e : Edge P u v) :
    LevelInv P x (Function.update lev v (some (a + 1))) g (fun s t => proc s t ∨ (s = u ∧ t = v)) where
  root := by
    rw [Function.update_of_ne (by rintro rfl; rw [h.root] at hv; cases hv)]
    exact h.root
  walk w l hw := by
    by_cases hwv : w = v
    · subst hwv
      rw [Function.update_self] at hw
      cases hw
      exact (h.walk u a hu).step e
    · rw [Function.update_of_ne hwv] at hw
      exact h.walk w l hw
  dvd := h.dvd
  edge s t hst := by
    have keep : ∀ w l, lev w = some l → Function.update lev v (some (a + 1)) w = some l := by
      intro w l hw
      rw [Function.update_of_ne (by rintro rfl; rw [hv] at hw; cases hw)]
      exact hw
    rcases hst with hst | ⟨rfl, rfl⟩
    · obtain ⟨a', b', ha', hb', hd⟩ := h.edge s t hst
      exact ⟨a', b', keep _ _ ha', keep _ _ hb', hd⟩
    · refine ⟨a, a + 1, keep _ _ hu, Function.update_self .., ?_⟩
      push_cast
      simp

/-- When all edges of the reached states have been inspected, every walk from the root is
consistent with the levels. -/
theorem LevelInv.congr (h : LevelInv P x lev g proc)
    (hall : ∀ u, lev u ≠ none → ∀ v, Edge P u v → proc u v) {k : ℕ} {v : ι} (hr : ReachIn P k x v) :
    ∃ b, lev v = some b ∧ (g : ℤ) ∣ (k : ℤ) - b := by
  suffices ∀ s, ReachIn P k s v → s = x → ∃ b, lev v = some b ∧ (g : ℤ) ∣ (k : ℤ) - b from
    this x hr rfl
  intro s hs
  clear hr
  induction hs with
  | refl i => rintro rfl; exact ⟨0, h.root, by simp⟩
  | @step k i u v hr e ih =>
    intro hi
    obtain ⟨a, ha, hd⟩ := ih hi
    obtain ⟨a', b, ha', hb, hd'⟩ := h.edge u v (hall u (by rw [ha]; simp) v e)
    rw [ha] at ha'
    cases ha'
    refine ⟨b, hb, ?_⟩
    have := Int.dvd_add hd hd'
    rwa [show (k : ℤ) - a + (a + 1 - b) = ((k + 1 : ℕ) : ℤ) - b by push_cast; ring] at this

theorem LevelInv.isPeriodOf (h : LevelInv P x lev g proc)
    (hall : ∀ u, lev u ≠ none → ∀ v, Edge P u v → proc u v) : IsPeriodOf P x g := by
  refine ⟨fun k hk => ?_, h.dvd⟩
  obtain ⟨b, hb, hd⟩ := h.congr hall hk
  rw [h.root] at hb
  cases hb
  have : (g : ℤ) ∣ (k : ℤ) := by simpa using hd
  exact Int.natCast_dvd_natCast.1 this

end Invariant

/-! ## The period is a class property -/

theorem isPeriodOf_communicate {ι : Type} [Fintype ι] {P : ι → ι → K} {i j : ι} {d : ℕ}
    (h : IsPeriodOf P i d) (hc : Communicate P i j) : IsPeriodOf P j d := by
  obtain ⟨a, ha⟩ := reach_iff_reachIn.1 hc.1
  obtain ⟨b, hb⟩ := reach_iff_reachIn.1 hc.2
  -- a divisor of the closed walks at one state divides the closed walks at the other
  have key : ∀ (u v : ι) (a b : ℕ), ReachIn P a u v → ReachIn P b v u → ∀ e : ℕ,
      (∀ k, ReachIn P k u u → e ∣ k) → ∀ k, ReachIn P k v v → e ∣ k := by
    intro u v a b ha hb e he k hk
    have h1 : e ∣ a + b := he _ (ha.trans hb)
    have h2 : e ∣ a + k + b := he _ ((ha.trans hk).trans hb)
    have : e ∣ (a + k + b) - (a + b) := Nat.dvd_sub h2 h1
    rwa [show a + k + b - (a + b) = k by omega] at this
  exact ⟨key i j a b ha hb d h.1, fun e he => h.2 e (key j i b a hb ha e he)⟩

theorem isPeriodOf_unique {ι : Type} [Fintype ι] {P : ι → ι → K} {i : ι} {d e : ℕ}
    (h : IsPeriodOf P i d) (h' : IsPeriodOf P i e) : d = e :=
  Nat.dvd_antisymm (h'.2 d h.1) (h.2 e h'.1)

/-! ## `_calculate_period` -/

section Levels

variable {n : ℕ} {P : Fin n → Fin n → K} {x : Fin n} {C : List (Fin n)}

/-- The state of one pass that started with the levels `lev₀`. -/
structure PassInv (P : Fin n → Fin n → K) (x : Fin n) (lev₀ : Fin n → Option ℕ) (q : ℕ)
    (st : LevelState n) (proc : Fin n → Fin n → Prop) : Prop where
  inv : LevelInv P x st.levels st.g proc
  keep : ∀ v l, lev₀ v = some l → st.levels v = some l
  next : ∀ v ∈ st.next, lev₀ v = none ∧ st.levels v = some (q + 1)
  new : ∀ v, st.levels v ≠ none → lev₀ v ≠ none ∨ v ∈ st.next

theorem visitLevel_inv (hx : RecurrentState P x) {lev₀ : Fin n → Option ℕ} {q : ℕ}
    {st : LevelState n} {proc : Fin n → Fin n → Prop} (h : PassInv P x lev₀ q st proc)
    {u v : Fin n} (hu : lev₀ u = some q) (e : Edge P u v) (hv : v ∈ C) :
    PassInv P x lev₀ q (visitLevel C (q + 1) st v) (fun s t => proc s t ∨ (s = u ∧ t = v)) := by
  unfold visitLevel
  rw [if_pos hv]
  rcases hl : st.levels v with _ | l
  · refine ⟨h.inv.fresh (h.keep u q hu) hl e, ?_, ?_, ?_⟩
    · intro w l hw
      have := h.keep w l hw
      change Function.update st.levels v (some (q + 1)) w = some l
      rw [Function.update_of_ne (by rintro rfl; rw [hl] at this; cases this)]
      exact this
    · intro w hw
      rcases List.mem_append.1 hw with hw | hw
      · have := h.next w hw
        refine ⟨this.1, ?_⟩
        change Function.update st.levels v (some (q + 1)) w = _
        rw [Function.update_of_ne (by rintro rfl; rw [hl] at this; cases this.2)]
        exact this.2
      · rw [List.mem_singleton] at hw
        subst hw
        refine ⟨?_, Function.update_self ..⟩
        rcases hw' : lev₀ w with _ | l
        · rfl
        · have := h.keep w l hw'
          rw [hl] at this
          cases this
    · intro w hw
      by_cases hwv : w = v
      · subst hwv
        exact Or.inr (List.mem_append_right _ (List.mem_singleton_self _))
      · change Function.update st.levels v (some (q + 1)) w ≠ none at hw
        rw [Function.update_of_ne hwv] at hw
        rcases h.new w hw with h | h
        · exact Or.inl h
        · exact Or.inr (List.mem_append_left _ h)
  · exact ⟨h.inv.seen hx (h.keep u q hu) hl e, h.keep, h.next, h.new⟩

theorem visitAll_inv (hx : RecurrentState P x) {lev₀ : Fin n → Option ℕ} {q : ℕ}
    {u : Fin n} (hu : lev₀ u = some q) (ns : List (Fin n)) (hns : ∀ v ∈ ns, Edge P u v ∧ v ∈ C)
    {st : LevelState n} {proc : Fin n → Fin n → Prop} (h : PassInv P x lev₀ q st proc) :
    PassInv P x lev₀ q (ns.foldl (visitLevel C (q + 1)) st)
      (fun s t => proc s t ∨ (s = u ∧ t ∈ ns)) := by
  induction ns generalizing st proc with
  | nil =>
    exact ⟨h.inv.mono fun s t hst => hst.resolve_right fun hc => absurd hc.2 List.not_mem_nil,
      h.keep, h.next, h.new⟩
  | cons v ns ih =>
    have h1 := visitLevel_inv (C := C) hx h hu (hns v List.mem_cons_self).1
      (hns v List.mem_cons_self).2
    have h2 := ih (fun w hw => hns w (List.mem_cons_of_mem _ hw)) h1
    refine ⟨h2.inv.mono ?_, h2.keep, h2.next, h2.new⟩
    rintro s t (hst | ⟨rfl, ht⟩)
    · exact Or.inl (Or.inl hst)
    · rcases List.mem_cons.1 ht with rfl | ht
      · exact Or.inl (Or.inr ⟨rfl, rfl⟩)
      · exact Or.inr ⟨rfl, ht⟩

theorem levelPass_inv (hx : RecurrentState P x) {nbrs : Fin n → List (Fin n)}
    (hn : ∀ u ∈ C, ∀ v, v ∈ nbrs u ↔ v ∈ C ∧ Edge P u v) {lev₀ : Fin n → Option ℕ} {q : ℕ}
    (current : List (Fin n)) (hcur : ∀ u ∈ current, lev₀ u = some q ∧ u ∈ C)
    {st : LevelState n} {proc : Fin n → Fin n → Prop} (h : PassInv P x lev₀ q st proc) :
    PassInv P x lev₀ q (levelPass nbrs C current (q + 1) st)
      (fun s t => proc s t ∨ (s ∈ current ∧ t ∈ C ∧ Edge P s t)) := by
  unfold levelPass
  induction current generalizing st proc with
  | nil =>
    exact ⟨h.inv.mono fun s t hst => hst.resolve_right fun hc => absurd hc.1 List.not_mem_nil,
      h.keep, h.next, h.new⟩
  | cons u current ih =>
    obtain ⟨hu, huC⟩ := hcur u List.mem_cons_self
    have h1 := visitAll_inv (C := C) hx hu (nbrs u)
      (fun v hv => ((hn u huC v).1 hv).symm) h
    have h2 := ih (fun w hw => hcur w (List.mem_cons_of_mem _ hw)) h1
    refine ⟨h2.inv.mono ?_, h2.keep, h2.next, h2.new⟩
    rintro s t (hst | ⟨hs, ht, e⟩)
    · exact Or.inl (Or.inl hst)
    · rcases List.mem_cons.1 hs with rfl | hs
      · exact Or.inl (Or.inr ⟨rfl, (hn s huC t).2 ⟨ht, e⟩⟩)
      · exact Or.inr ⟨hs, ht, e⟩

theorem levelLoop_isPeriodOf (hx : RecurrentState P x) (hxC : x ∈ C)
    (hcl : ∀ u ∈ C, ∀ v, Edge P u v → v ∈ C) {nbrs : Fin n → List (Fin n)}
    (hn : ∀ u ∈ C, ∀ v, v ∈ nbrs u ↔ v ∈ C ∧ Edge P u v) (fuel : ℕ) (current : List (Fin n)) (q : ℕ)
    (lev : Fin n → Option ℕ) (g : ℕ) (proc : Fin n → Fin n → Prop)
    (hinv : LevelInv P x lev g proc) (hcur : ∀ u ∈ current, lev u = some q)
    (hdone : ∀ u, lev u ≠ none → u ∈ current ∨ ∀ v, Edge P u v → proc u v)
    (hfuel : current = [] ∨ #{v | lev v = none} + 1 < fuel) :
    IsPeriodOf P x (levelLoop nbrs C fuel current (q + 1) lev g) := by
  have hC : ∀ u l, lev u = some l → u ∈ C := fun u l hu =>
    closedSet_reach (S := fun s => s ∈ C) (fun a b ha e => hcl a ha b e) hxC (hinv.walk u l hu).reach
  induction fuel generalizing current q lev g proc with
  | zero =>
    have hcur0 : current = [] := by
      rcases hfuel with h | h
      · exact h
      · omega
    subst hcur0
    exact hinv.isPeriodOf fun u hu => (hdone u hu).resolve_left List.not_mem_nil
  | succ fuel ih =>
    unfold levelLoop
    by_cases hc : current = []
    · rw [if_pos hc]
      subst hc
      exact hinv.isPeriodOf fun u hu => (hdone u hu).resolve_left List.not_mem_nil
    · rw [if_neg hc]
      have hfuel := hfuel.resolve_left hc
      have hp := levelPass_inv (C := C) hx hn current
        (fun u hu => ⟨hcur u hu, hC u q (hcur u hu)⟩) (lev₀ := lev) (st := ⟨lev, [], g⟩)
        (proc := proc)
        ⟨hinv, fun _ _ h => h, fun v hv => absurd hv List.not_mem_nil, fun v hv => Or.inl hv⟩
      generalize levelPass nbrs C current (q + 1) ⟨lev, [], g⟩ = st at hp ⊢
      refine ih st.next (q + 1) st.levels st.g _ hp.inv (fun u hu => (hp.next u hu).2) ?_ ?_ ?_
      · intro u hu
        rcases hp.new u hu with h | h
        · right
          intro v e
          rcases hdone u h with h | h
          · have : u ∈ C := by
              rcases hl : lev u with _ | l
              · exact absurd hl ‹_›
              · exact hC u l hl
            exact Or.inr ⟨h, hcl u this v e, e⟩
          · exact Or.inl (h v e)
        · exact Or.inl h
      · rcases hnx : st.next with _ | ⟨w, ws⟩
        · exact Or.inl rfl
        · right
          have hw := hp.next w (by rw [hnx]; exact List.mem_cons_self)
          have : #{v | st.levels v = none} < #{v | lev v = none} := by
            apply card_lt_card
            refine (ssubset_iff_of_subset ?_).2 ⟨w, ?_, ?_⟩
            · intro v hv
              simp only [mem_filter, mem_univ, true_and] at hv ⊢
              rcases hl : lev v with _ | l
              · rfl
              · have := hp.keep v l hl
                rw [hv] at this
                cases this
            · simpa using hw.1
            · simp [hw.2]
          omega
      · intro u l hu
        exact closedSet_reach (S := fun s => s ∈ C) (fun a b ha e => hcl a ha b e) hxC (hp.inv.walk u l hu).reach

theorem calculatePeriod_isPeriodOf (hne : C ≠ []) (hcl : ∀ u ∈ C, ∀ v, Edge P u v → v ∈ C)
    (hrec : ∀ u ∈ C, RecurrentState P u) {nbrs : Fin n → List (Fin n)}
    (hn : ∀ u ∈ C, ∀ v, v ∈ nbrs u ↔ v ∈ C ∧ Edge P u v) :
    ∃ x ∈ C, IsPeriodOf P x (calculatePeriod nbrs [C]) := by
  obtain _ | ⟨x, xs⟩ := C
  · exact absurd rfl hne
  refine ⟨x, List.mem_cons_self, ?_⟩
  have hx := hrec x List.mem_cons_self
  refine levelLoop_isPeriodOf (C := x :: xs) hx List.mem_cons_self hcl hn (n + 1) [x] 0 _ 0
    (fun _ _ => False) ⟨Function.update_self .., ?_, fun d _ => dvd_zero d, fun u v h => h.elim⟩ ?_ ?_ ?_
  · intro v l hv
    by_cases hvx : v = x
    · subst hvx
      rw [Function.update_self] at hv
      cases hv
      exact .refl v
    · rw [Function.update_of_ne hvx] at hv
      cases hv
  · intro u hu
    rw [List.mem_singleton] at hu
    subst hu
    exact Function.update_self ..
  · intro u hu
    left
    by_contra hcon
    rw [List.mem_singleton] at hcon
    rw [Function.update_of_ne hcon] at hu
    exact hu rfl
  · right
    have : #{v | Function.update (fun _ : Fin n => (none : Option ℕ)) x (some 0) v = none}
        < #(univ : Finset (Fin n)) := by
      apply card_lt_card
      refine (ssubset_iff_of_subset (subset_univ _)).2 ⟨x, mem_univ x, ?_⟩
      simp
    rw [card_univ, Fintype.card_fin] at this
    omega

end Levels

/-! ## `find_cyclic_classes` -/

section Cyclic

variable {n : ℕ} {P : Matrix (Fin n) (Fin n) K} {x : Fin n}

/-- The levels that correspond to the array `v`. -/
def cyclicLevels {n : ℕ} (st : CyclicState n) : Fin n → Option ℕ :=
  fun i => if i ∈ st.w ++ st.t then some (st.v i - 1) else none

theorem cyclicLevels_of_mem {st : CyclicState n} {i : Fin n} (h : i ∈ st.w ++ st.t) :
    cyclicLevels st i = some (st.v i - 1) := if_pos h

theorem cyclicLevels_of_not_mem {st : CyclicState n} {i : Fin n} (h : i ∉ st.w ++ st.t) :
    cyclicLevels st i = none := if_neg h

theorem mem_of_cyclicLevels {st : CyclicState n} {i : Fin n} (h : cyclicLevels st i ≠ none) :
    i ∈ st.w ++ st.t := by
  by_contra hcon
  exact h (cyclicLevels_of_not_mem hcon)

/-- The invariant of the loop. -/
structure CyclicInv (P : Matrix (Fin n) (Fin n) K) (x : Fin n) (st : CyclicState n)
    (proc : Fin n → Fin n → Prop) : Prop where
  inv : LevelInv (fun i j => P i j) x (cyclicLevels st) st.d proc
  pos : ∀ i ∈ st.w ++ st.t, 0 < st.v i

theorem cyclicVisit_inv (hx : RecurrentState (fun i j => P i j) x) {st : CyclicState n}
    {proc : Fin n → Fin n → Prop} (h : CyclicInv P x st proc) {i : Fin n} (hi : i ∈ st.w) (j : Fin n) :
    CyclicInv P x (cyclicVisit P i (st.v i + 1) st j)
      (fun s t => proc s t ∨ (s = i ∧ t = j ∧ Edge (fun i j => P i j) s t)) ∧
    i ∈ (cyclicVisit P i (st.v i + 1) st j).w ∧ (cyclicVisit P i (st.v i + 1) st j).v i = st.v i ∧
    (cyclicVisit P i (st.v i + 1) st j).w = st.w ∧
    (∃ new, (cyclicVisit P i (st.v i + 1) st j).t = st.t ++ new) ∧
    #{v | cyclicLevels (cyclicVisit P i (st.v i + 1) st j) v = none} +
      (cyclicVisit P i (st.v i + 1) st j).t.length ≤ #{v | cyclicLevels st v = none} + st.t.length := by
  have hiw : i ∈ st.w ++ st.t := List.mem_append_left _ hi
  have hli := cyclicLevels_of_mem hiw
  have hpi := h.pos i hiw
  unfold cyclicVisit
  by_cases e : hasEdge P i j = true
  · have e' : Edge (fun i j => P i j) i j := of_decide_eq_true e
    rw [if_pos e]
    by_cases hj : j ∈ st.w ++ st.t
    · rw [if_pos hj]
      have hpj := h.pos j hj
      have h1 := h.inv.seen hx hli (cyclicLevels_of_mem hj) e'
      have hgcd : ((((st.v i - 1 + 1 : ℕ) : ℤ)) - ((st.v j - 1 : ℕ) : ℤ))
          = ((st.v i + 1 : ℕ) : ℤ) - (st.v j : ℤ) := by omega
      rw [hgcd] at h1
      refine ⟨⟨h1.mono ?_, h.pos⟩, hi, rfl, rfl, ⟨[], (List.append_nil _).symm⟩, le_rfl⟩
      rintro s t (hst | ⟨rfl, rfl, -⟩)
      · exact Or.inl hst
      · exact Or.inr ⟨rfl, rfl⟩
    · rw [if_neg hj]
      have hij : i ≠ j := by rintro rfl; exact hj hiw
      have hlev : cyclicLevels { st with t := st.t ++ [j], v := Function.update st.v j (st.v i + 1) }
          = Function.update (cyclicLevels st) j (some (st.v i - 1 + 1)) := by
        funext u
        by_cases hu : u = j
        · subst hu
          rw [Function.update_self, cyclicLevels_of_mem (by simp)]
          simp only [Function.update_self]
          congr 1
          omega
        · rw [Function.update_of_ne hu]
          unfold cyclicLevels
          simp only [List.mem_append, List.mem_singleton, hu, or_false, Function.update_of_ne, ne_eq,
            not_false_eq_true]
      have h1 := h.inv.fresh hli (cyclicLevels_of_not_mem hj) e'
      rw [← hlev] at h1
      refine ⟨⟨h1.mono ?_, ?_⟩, hi, Function.update_of_ne hij _ _, rfl, ⟨[j], rfl⟩, ?_⟩
      · rintro s t (hst | ⟨rfl, rfl, -⟩)
        · exact Or.inl hst
        · exact Or.inr ⟨rfl, rfl⟩
      · intro u hu
        change 0 < Function.update st.v j (st.v i + 1) u
        by_cases huj : u = j
        · subst huj
          rw [Function.update_self]
          omega
        · rw [Function.update_of_ne huj]
          apply h.pos
          simp only [List.mem_append, List.mem_singleton, huj, or_false] at hu ⊢
          exact hu
      · rw [hlev]
        have : #{v | Function.update (cyclicLevels st) j (some (st.v i - 1 + 1)) v = none}
            < #{v | cyclicLevels st v = none} := by
          apply card_lt_card
          refine (ssubset_iff_of_subset ?_).2 ⟨j, ?_, ?_⟩
          · intro u hu
            simp only [mem_filter, mem_univ, true_and] at hu ⊢
            by_cases huj : u = j
            · subst huj
              rw [Function.update_self] at hu
              cases hu
            · rwa [Function.update_of_ne huj] at hu
          · simpa using cyclicLevels_of_not_mem hj
          · simp
        simp only [List.length_append, List.length_singleton]
        omega
  · rw [if_neg e]
    refine ⟨⟨h.inv.mono ?_, h.pos⟩, hi, rfl, rfl, ⟨[], (List.append_nil _).symm⟩, le_rfl⟩
    rintro s t (hst | ⟨rfl, rfl, e'⟩)
    · exact hst
    · exact absurd (decide_eq_true e') e

theorem cyclicVisitAll_inv (hx : RecurrentState (fun i j => P i j) x) {i : Fin n} {vip : ℕ}
    (ns : List (Fin n)) {st : CyclicState n} {proc : Fin n → Fin n → Prop}
    (h : CyclicInv P x st proc) (hi : i ∈ st.w) (hv : vip = st.v i + 1) :
    CyclicInv P x (ns.foldl (cyclicVisit P i vip) st)
      (fun s t => proc s t ∨ (s = i ∧ t ∈ ns ∧ Edge (fun i j => P i j) s t)) ∧
    (ns.foldl (cyclicVisit P i vip) st).w = st.w ∧
    (∃ new, (ns.foldl (cyclicVisit P i vip) st).t = st.t ++ new) ∧
    #{v | cyclicLevels (ns.foldl (cyclicVisit P i vip) st) v = none} +
      (ns.foldl (cyclicVisit P i vip) st).t.length ≤ #{v | cyclicLevels st v = none} + st.t.length := by
  induction ns generalizing st proc with
  | nil =>
    exact ⟨⟨h.inv.mono fun s t hst => hst.resolve_right fun hc => absurd hc.2.1 List.not_mem_nil,
      h.pos⟩, rfl, ⟨[], (List.append_nil _).symm⟩, le_rfl⟩
  | cons j ns ih =>
    subst hv
    obtain ⟨h1, h2, h3, h4, ⟨new, h5⟩, h6⟩ := cyclicVisit_inv hx h hi j
    obtain ⟨g1, g2, ⟨new', g3⟩, g4⟩ := ih h1 h2 (by rw [h3])
    rw [List.foldl_cons]
    refine ⟨⟨g1.inv.mono ?_, g1.pos⟩, g2.trans h4, ⟨new ++ new', ?_⟩, g4.trans h6⟩
    · rintro s t (hst | ⟨rfl, ht, e⟩)
      · exact Or.inl (Or.inl hst)
      · rcases List.mem_cons.1 ht with rfl | ht
        · exact Or.inl (Or.inr ⟨rfl, rfl, e⟩)
        · exact Or.inr ⟨rfl, ht, e⟩
    · rw [g3, h5, List.append_assoc]

/-- The result of the loop: either the divisor dropped to one, or all edges were inspected. -/
theorem cyclicLoop_inv (hx : RecurrentState (fun i j => P i j) x) (fuel : ℕ) {st : CyclicState n}
    {proc : Fin n → Fin n → Prop} (h : CyclicInv P x st proc)
    (hdone : ∀ u ∈ st.w, ∀ v, Edge (fun i j => P i j) u v → proc u v)
    (hfuel : #{v | cyclicLevels st v = none} + st.t.length ≤ fuel) :
    ∃ proc', CyclicInv P x (cyclicLoop P fuel st) proc' ∧
      ((cyclicLoop P fuel st).d = 1 ∨
        ∀ u, cyclicLevels (cyclicLoop P fuel st) u ≠ none →
          ∀ v, Edge (fun i j => P i j) u v → proc' u v) := by
  induction fuel generalizing st proc with
  | zero =>
    have ht : st.t = [] := List.length_eq_zero_iff.1 (by omega)
    refine ⟨proc, h, Or.inr fun u hu v e => hdone u ?_ v e⟩
    have : u ∈ st.w ++ st.t := mem_of_cyclicLevels hu
    rw [ht, List.append_nil] at this
    exact this
  | succ fuel ih =>
    rcases ht : st.t with _ | ⟨i, t⟩
    · have e : cyclicLoop P (fuel + 1) st = st := by
        unfold cyclicLoop; rw [ht]
      rw [e]
      refine ⟨proc, h, Or.inr fun u hu v e => hdone u ?_ v e⟩
      have := mem_of_cyclicLevels hu
      rw [ht, List.append_nil] at this
      exact this
    · by_cases hd : st.d = 1
      · have e : cyclicLoop P (fuel + 1) st = st := by
          unfold cyclicLoop; rw [ht]; exact if_pos hd
        rw [e]
        exact ⟨proc, h, Or.inl hd⟩
      · have e : cyclicLoop P (fuel + 1) st = cyclicLoop P fuel ((List.finRange n).foldl
            (cyclicVisit P i (st.v i + 1)) ⟨st.v, st.w ++ [i], t, st.d⟩) := by
          conv_lhs => unfold cyclicLoop
          rw [ht]
          exact if_neg hd
        rw [e]
        have hmem : ∀ u, u ∈ (st.w ++ [i]) ++ t ↔ u ∈ st.w ++ st.t := by
          intro u; rw [ht]; simp [List.mem_append, List.mem_cons]
        have hlev : cyclicLevels ⟨st.v, st.w ++ [i], t, st.d⟩ = cyclicLevels st := by
          funext u
          unfold cyclicLevels
          simp only [hmem]
        have h0 : CyclicInv P x ⟨st.v, st.w ++ [i], t, st.d⟩ proc :=
          ⟨by rw [hlev]; exact h.inv, fun u hu => h.pos u ((hmem u).1 hu)⟩
        obtain ⟨g1, g2, g3, g4⟩ := cyclicVisitAll_inv hx (List.finRange n) h0
          (i := i) (vip := st.v i + 1) (by simp) rfl
        refine ih g1 ?_ ?_
        · intro u hu v e
          rw [g2] at hu
          rcases List.mem_append.1 hu with hu | hu
          · exact Or.inl (hdone u hu v e)
          · rw [List.mem_singleton] at hu
            exact Or.inr ⟨hu, List.mem_finRange v, e⟩
        · rw [hlev] at g4
          rw [ht] at hfuel
          simp only [List.length_cons] at hfuel g4
          omega

/-- The loop on an irreducible chain whose period is not one. -/
theorem cyclicLoop_spec (h0 : 0 < n) (hP : Irreducible (fun i j => P i j)) {d : ℕ}
    (hd : IsPeriodOf (fun i j => P i j) ⟨0, h0⟩ d) (hd1 : d ≠ 1) :
    (cyclicLoop P (n + 1) (cyclicStart h0)).d = d ∧
    ∀ k v, ReachIn (fun i j => P i j) k ⟨0, h0⟩ v →
      (d : ℤ) ∣ (k : ℤ) + 1 - (cyclicLoop P (n + 1) (cyclicStart h0)).v v := by
  have hx : RecurrentState (fun i j => P i j) (⟨0, h0⟩ : Fin n) := fun j _ => hP j _
  have hlev0 : cyclicLevels (cyclicStart h0) = Function.update (fun _ => none) ⟨0, h0⟩ (some 0) := by
    funext u
    by_cases hu : u = ⟨0, h0⟩
    · subst hu
      rw [Function.update_self, cyclicLevels_of_mem (by simp [cyclicStart])]
      simp [cyclicStart]
    · rw [Function.update_of_ne hu, cyclicLevels_of_not_mem]
      simpa [cyclicStart] using hu
  have hstart : CyclicInv P ⟨0, h0⟩ (cyclicStart h0) (fun _ _ => False) := by
    refine ⟨⟨?_, ?_, fun d _ => ?_, fun u v h => h.elim⟩, ?_⟩
    · rw [hlev0, Function.update_self]
    · intro v l hv
      rw [hlev0] at hv
      by_cases hvx : v = ⟨0, h0⟩
      · subst hvx
        rw [Function.update_self] at hv
        cases hv
        exact .refl _
      · rw [Function.update_of_ne hvx] at hv
        cases hv
    · exact dvd_zero d
    · intro i hi
      simp only [cyclicStart, List.nil_append, List.mem_singleton] at hi
      subst hi
      simp [cyclicStart]
  obtain ⟨proc, hinv, hend⟩ := cyclicLoop_inv hx (n + 1) hstart
    (fun u hu => absurd hu (by simp [cyclicStart])) (by
      have : #{v | cyclicLevels (cyclicStart h0) v = none} ≤ n := by
        simpa using card_le_univ (α := Fin n) {v | cyclicLevels (cyclicStart h0) v = none}
      have : (cyclicStart h0).t.length = 1 := rfl
      omega)
  generalize cyclicLoop P (n + 1) (cyclicStart h0) = st at hinv hend ⊢
  have hend : ∀ u, cyclicLevels st u ≠ none → ∀ v, Edge (fun i j => P i j) u v → proc u v := by
    rcases hend with h | h
    · exact absurd (Nat.dvd_one.1 (h ▸ hinv.inv.dvd d hd.1)) hd1
    · exact h
  have hdd : st.d = d := isPeriodOf_unique (hinv.inv.isPeriodOf hend) hd
  refine ⟨hdd, fun k v hk => ?_⟩
  obtain ⟨b, hb, hdvd⟩ := hinv.inv.congr hend hk
  have hmem := mem_of_cyclicLevels (by rw [hb]; simp)
  rw [cyclicLevels_of_mem hmem] at hb
  have hpos := hinv.pos v hmem
  have hb' : st.v v - 1 = b := Option.some.inj hb
  rw [hdd] at hdvd
  have : (k : ℤ) + 1 - (st.v v : ℤ) = (k : ℤ) - (b : ℤ) := by omega
  rw [this]
  exact hdvd

end Cyclic

end Verif
