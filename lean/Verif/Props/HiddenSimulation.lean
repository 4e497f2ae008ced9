import Verif.Props.Decode

/-!
# Simulation of hidden Markov models (C58)
-/

set_option linter.unusedSectionVars false

namespace Verif

open Finset

variable {K : Type} [Field K] [LinearOrder K] [IsStrictOrderedRing K] {n k : ℕ}

theorem pickLoop_spec (w : Fin n → K) (u : K) (m : ℕ) :
    (pickLoop w u m = 0 ∨ cumulative w (pickLoop w u m - 1) < u) ∧
      ∀ j, pickLoop w u m ≤ j → j < m → u ≤ cumulative w j := by
  induction m with
  | zero => exact ⟨Or.inl rfl, fun j _ h => absurd h (Nat.not_lt_zero j)⟩
  | succ m ih =>
    unfold pickLoop
    split
    · rename_i h
      exact ⟨Or.inr h, fun j h1 h2 => by omega⟩
    · rename_i h
      refine ⟨ih.1, fun j h1 h2 => ?_⟩
      rcases Nat.lt_succ_iff_lt_or_eq.1 h2 with h3 | rfl
      · exact ih.2 j h1 h3
      · exact not_lt.1 h

/-- A positive draw never selects an index of weight zero. -/
theorem pick_pos {w : Fin n → K} (hw : IsDist w) {u : K} (h0 : 0 < u) (h1 : u ≤ 1) (hn : 0 < n) :
    0 < w (pick w u hn) := by
  obtain ⟨s1, s2⟩ := pickLoop_spec w u (n - 1)
  have hr := pickLoop_le w u (n - 1)
  have hval : (pick w u hn : ℕ) = pickLoop w u (n - 1) := rfl
  refine lt_of_le_of_ne (hw.1 _) fun hz => ?_
  have hle : u ≤ cumulative w (pickLoop w u (n - 1)) := by
    rcases Nat.lt_or_ge (pickLoop w u (n - 1)) (n - 1) with h | h
    · exact s2 _ le_rfl h
    · have : (univ.filter fun i : Fin n => i.val ≤ pickLoop w u (n - 1)) = univ := by
        ext i
        simp only [mem_filter, mem_univ, true_and, iff_true]
        omega
      unfold cumulative
      rw [this, hw.2, div_one]
      exact h1
  have hsplit : cumulative w (pickLoop w u (n - 1)) =
      (∑ i : Fin n with i.val < pickLoop w u (n - 1), w i) / ∑ i, w i := by
    unfold cumulative
    have : (univ.filter fun i : Fin n => i.val ≤ pickLoop w u (n - 1)) =
        insert (pick w u hn) (univ.filter fun i : Fin n => i.val < pickLoop w u (n - 1)) := by
      ext i
      simp only [mem_filter, mem_univ, true_and, mem_insert, Fin.ext_iff, hval]
      omega
    rw [this, sum_insert (by simp [hval]), ← hz, zero_add]
  rw [hsplit] at hle
  rcases Nat.eq_zero_or_pos (pickLoop w u (n - 1)) with h | h
  · have : (univ.filter fun i : Fin n => i.val < pickLoop w u (n - 1)) = ∅ := by
      ext i; simp [h]
    rw [this, sum_empty, zero_div] at hle
    exact absurd h0 (not_lt.2 hle)
  · rcases s1 with h' | h'
    · omega
    · refine absurd h' (not_lt.2 (hle.trans_eq ?_))
      unfold cumulative
      congr 1
      refine sum_congr ?_ fun _ _ => rfl
      ext i
      simp only [mem_filter, mem_univ, true_and]
      omega

/-- The condition that ends a simulation. -/
def FinalPair (f : Option (Fin n)) (g : Option (Fin k)) (q : Fin n × Fin k) : Prop :=
  f = some q.1 ∨ g = some q.2

theorem hmmSimulateLoop_spec {P : Matrix (Fin n) (Fin n) K} {E : Matrix (Fin n) (Fin k) K}
    (hP : IsStochastic P) (hE : IsStochastic E) (hn : 0 < n) (hk : 0 < k) {pr er : ℕ → K}
    (hpr : ∀ t, 0 < pr t ∧ pr t ≤ 1) (her : ∀ t, 0 < er t ∧ er t ≤ 1) (f : Option (Fin n))
    (g : Option (Fin k)) (m t : ℕ) (s : Fin n) :
    (s :: (hmmSimulateLoop P E hn hk pr er f g m t s).map Prod.fst).IsChain (Edge P) ∧
      (∀ q ∈ hmmSimulateLoop P E hn hk pr er f g m t s, 0 < E q.1 q.2) ∧
      (hmmSimulateLoop P E hn hk pr er f g m t s).length ≤ m ∧
      (∀ q ∈ (hmmSimulateLoop P E hn hk pr er f g m t s).dropLast, ¬ FinalPair f g q) ∧
      ((hmmSimulateLoop P E hn hk pr er f g m t s).length = m ∨
        ∃ q, FinalPair f g q ∧ (hmmSimulateLoop P E hn hk pr er f g m t s).getLast? = some q) := by
  induction m generalizing t s with
  | zero => simp [hmmSimulateLoop]
  | succ m ih =>
    have hpos : Edge P s (pick (P s) (pr t) hn) :=
      pick_pos ⟨hP.1 s, hP.2 s⟩ (hpr t).1 (hpr t).2 hn
    have hem : 0 < E (pick (P s) (pr t) hn) (pick (E (pick (P s) (pr t) hn)) (er t) hk) :=
      pick_pos ⟨hE.1 _, hE.2 _⟩ (her t).1 (her t).2 hk
    unfold hmmSimulateLoop
    simp only
    generalize hs' : pick (P s) (pr t) hn = s' at hpos hem ⊢
    generalize hy : pick (E s') (er t) hk = y at hem ⊢
    by_cases hf : f = some s' ∨ g = some y
    · rw [if_pos hf]
      refine ⟨List.IsChain.cons_cons hpos (List.isChain_singleton _), ?_, by simp, by simp,
        Or.inr ⟨(s', y), hf, by simp⟩⟩
      intro q hq
      rw [List.mem_singleton] at hq
      subst hq
      exact hem
    · rw [if_neg hf]
      obtain ⟨h1, h2, h3, h4, h5⟩ := ih (t + 1) s'
      generalize hmmSimulateLoop P E hn hk pr er f g m (t + 1) s' = l at h1 h2 h3 h4 h5
      refine ⟨List.IsChain.cons_cons hpos h1, ?_, by simpa using h3, ?_, ?_⟩
      · intro q hq
        rw [List.mem_cons] at hq
        rcases hq with rfl | hq
        · exact hem
        · exact h2 q hq
      · intro q hq
        cases l with
        | nil => simp at hq
        | cons a l =>
          rw [List.dropLast_cons_cons, List.mem_cons] at hq
          rcases hq with rfl | hq
          · exact hf
          · exact h4 q hq
      · rcases h5 with h | ⟨q, hq, hl⟩
        · exact Or.inl (by simp [h])
        · refine Or.inr ⟨q, hq, ?_⟩
          cases l with
          | nil => simp at hl
          | cons a l => simpa using hl

theorem hmmSimulate_run {P : Matrix (Fin n) (Fin n) K} {E : Matrix (Fin n) (Fin k) K}
    (hP : IsStochastic P) (hE : IsStochastic E) (hn : 0 < n) (hk : 0 < k) {choice : Choice K k}
    (hch : Choice.Sound choice) {pr er : ℕ → K}
    (hpr : ∀ t, 0 < pr t ∧ pr t ≤ 1) (her : ∀ t, 0 < er t ∧ er t ≤ 1) (steps : ℕ) (s : Fin n)
    (f : Option (Fin n)) (g : Option (Fin k)) :
    IsHiddenRun P E steps s (FinalPair f g) (hmmSimulate P E hn hk choice pr er steps s f g) := by
  obtain ⟨h1, h2, h3, h4, h5⟩ := hmmSimulateLoop_spec hP hE hn hk hpr her f g steps 0 s
  refine ⟨rfl, h1, ?_, by simpa [hmmSimulate] using h3, h4, ?_⟩
  · intro q hq
    rcases List.mem_cons.1 hq with rfl | hq
    · exact hch 0 _ ⟨hE.1 s, hE.2 s⟩
    · exact h2 q hq
  · rcases h5 with h | h
    · exact Or.inl (by simp [hmmSimulate, h])
    · exact Or.inr h

/-- C58 for positive draws. `simulate` only uses transitions and emissions of positive probability
and stops where it should. -/
theorem C58_simulate_partial {m : HMM K} (hm : m.Valid) (hn : 0 < m.n) (hk : 0 < m.k)
    {choice : Choice K m.k} (hch : Choice.Sound choice) {pr er : ℕ → K}
    (hpr : ∀ t, 0 < pr t ∧ pr t < 1) (her : ∀ t, 0 < er t ∧ er t < 1) (start : Fin m.n)
    {steps initialState finalState finalSymbol : PyVal K} {s : ℤ} {i f : Option (Fin m.n)}
    {g : Option (Fin m.k)} (hs : validateInteger steps (some (2, false)) none = .ok s)
    (hi : OptionalState initialState m.states i) (hf : OptionalState finalState m.states f)
    (hg : OptionalState finalSymbol m.symbols g) :
    ∃ l, m.simulate hn hk choice pr er start steps initialState finalState finalSymbol = .ok l ∧
      IsHiddenRun m.p m.e s.toNat (i.getD start) (FinalPair f g) l := by
  refine ⟨hmmSimulate m.p m.e hn hk choice pr er s.toNat (i.getD start) f g, ?_,
    hmmSimulate_run (P := m.p) (E := m.e) hm.2.2.1 hm.2.2.2.1 hn hk hch
      (fun t => ⟨(hpr t).1, (hpr t).2.le⟩) (fun t => ⟨(her t).1, (her t).2.le⟩) _ _ _ _⟩
  unfold HMM.simulate
  rw [hs]
  change (optionalLabel initialState m.states m.n >>= _) = _
  rw [optionalLabel_ok hi]
  change (optionalLabel finalState m.states m.n >>= _) = _
  rw [optionalLabel_ok hf]
  change (optionalLabel finalSymbol m.symbols m.k >>= _) = _
  rw [optionalLabel_ok hg]
  rfl

/-- C58 for positive draws: `next` returns a possible state with a possible symbol. -/
theorem C58_next_partial {m : HMM K} (hm : m.Valid) (hn : 0 < m.n) (hk : 0 < m.k)
    (choice : Choice K m.k) {pr er : ℕ → K}
    (hpr : ∀ t, 0 < pr t ∧ pr t < 1) (her : ∀ t, 0 < er t ∧ er t < 1) {initialState : PyVal K}
    {i : Fin m.n} (hi : validateLabel initialState m.states = .ok i.val) :
    ∃ s y, m.next hn hk choice pr er initialState = .ok (some (s, y)) ∧ Edge m.p i s ∧
      0 < m.e s y := by
  refine ⟨pick (m.p i) (pr 0) hn, pick (m.e (pick (m.p i) (pr 0) hn)) (er 0) hk, ?_,
    pick_pos ⟨hm.2.2.1.1 i, hm.2.2.1.2 i⟩ (hpr 0).1 (hpr 0).2.le hn,
    pick_pos ⟨hm.2.2.2.1.1 _, hm.2.2.2.1.2 _⟩ (her 0).1 (her 0).2.le hk⟩
  unfold HMM.next
  rw [hi]
  change (asState m.n i.val >>= _) = _
  rw [asState_ok]
  change Except.ok _ = Except.ok _
  congr 1

/-- A model in which nothing is random. -/
def exClock : HMM ℚ := ⟨2, 2, !![0, 1; 1, 0], !![1, 0; 0, 1], ["a", "b"], ["u", "v"]⟩

theorem exClock_valid : exClock.Valid := by
  refine ⟨le_rfl, le_rfl, ?_, ?_, show ValidLabels 2 ["a", "b"] by decide,
    show ValidLabels 2 ["u", "v"] by decide, show List.Disjoint ["a", "b"] ["u", "v"] by
      rw [List.disjoint_left]; decide⟩
  · have : IsStochastic (fun i j : Fin 2 => exClock.p i j) := by decide +kernel
    exact this
  · have : IsStochastic (fun i j : Fin 2 => exClock.e i j) := by decide +kernel
    exact this

/-- C58 fails for the draw zero, which `rng.random` can return: the simulation stays in the first
state although the model always leaves it. -/
theorem C58_zero_draw : exClock.Valid ∧
    exClock.p (0 : Fin 2) (0 : Fin 2) = 0 ∧
    (exClock.simulate (show 0 < 2 by decide) (show 0 < 2 by decide) (cdfChoice (n := 2) fun _ => 0)
      (fun _ => 0) (fun _ => 0) (0 : Fin 2) (.int 2) (.str "a") .none .none).toOption =
      some ([(0, 0), (0, 0), (0, 0)] : List (Fin 2 × Fin 2)) := by
  refine ⟨exClock_valid, by decide +kernel, ?_⟩
  have : (exClock.simulate (show 0 < 2 by decide) (show 0 < 2 by decide) (cdfChoice (n := 2) fun _ => 0)
      (fun _ => 0) (fun _ => 0) (0 : Fin 2) (.int 2) (.str "a") .none .none).toOption.map
      (fun l => l.map fun q => (q.1.val, q.2.val)) = some [(0, 0), (0, 0), (0, 0)] := by
    decide +kernel
  revert this
  cases exClock.simulate (show 0 < 2 by decide) (show 0 < 2 by decide) (cdfChoice (n := 2) fun _ => 0)
      (fun _ => 0) (fun _ => 0) (0 : Fin 2) (.int 2) (.str "a") .none .none with
  | error e => intro h; cases h
  | ok l =>
    intro h
    simp only [Except.toOption, Option.map_some, Option.some.injEq] at h ⊢
    have hinj : Function.Injective fun q : Fin 2 × Fin 2 => (q.1.val, q.2.val) := by decide
    exact congrArg some <| List.map_injective_iff.2 hinj (a₂ := [(0, 0), (0, 0), (0, 0)]) h

/-- `exClock` with real numbers. -/
noncomputable def exClockR : HMM ℝ :=
  ⟨2, 2, !![0, 1; 1, 0], !![1, 0; 0, 1], ["a", "b"], ["u", "v"]⟩

theorem exClockR_p (i j : Fin 2) : exClockR.p i j = if i = j then 0 else 1 := by
  change (!![0, 1; 1, 0] : Matrix (Fin 2) (Fin 2) ℝ) i j = _
  fin_cases i <;> fin_cases j <;> simp

theorem exClockR_e (i j : Fin 2) : exClockR.e i j = if i = j then 1 else 0 := by
  change (!![1, 0; 0, 1] : Matrix (Fin 2) (Fin 2) ℝ) i j = _
  fin_cases i <;> fin_cases j <;> simp

theorem exClockR_valid : exClockR.Valid := by
  refine ⟨le_rfl, le_rfl, ?_, ?_, show ValidLabels 2 ["a", "b"] by decide,
    show ValidLabels 2 ["u", "v"] by decide, show List.Disjoint ["a", "b"] ["u", "v"] by
      rw [List.disjoint_left]; decide⟩
  · have : IsStochastic (fun i j : Fin 2 => exClockR.p i j) := by
      simp only [exClockR_p]
      refine ⟨fun i j => by simp only; split_ifs <;> simp, fun i => ?_⟩
      fin_cases i <;> simp [Fin.sum_univ_two]
    exact this
  · have : IsStochastic (fun i j : Fin 2 => exClockR.e i j) := by
      simp only [exClockR_e]
      refine ⟨fun i j => by simp only; split_ifs <;> simp, fun i => ?_⟩
      fin_cases i <;> simp
    exact this

/-- The hypotheses of `C58_simulate_partial` can be met, and simulation and decoding disagree about
the first symbol. Whatever the random stream, the simulation of this model from state `a` emits the
symbols `u`, `v`, `u`. The decoding of the same symbols from the same state returns `None`, because it
assumes that the first symbol is emitted after a first transition. -/
theorem C56_disagrees_with_simulation :
    (∀ (choice : Choice ℝ 2), Choice.Sound choice → ∀ (pr er : ℕ → ℝ) (start : Fin 2),
      (∀ t, 0 < pr t ∧ pr t < 1) → (∀ t, 0 < er t ∧ er t < 1) →
      exClockR.simulate (show 0 < 2 by decide) (show 0 < 2 by decide) choice pr er start (.int 2)
        (.str "a") .none .none = .ok ([(0, 0), (1, 1), (0, 0)] : List (Fin 2 × Fin 2))) ∧
    exClockR.decode (.list [.str "u", .str "v", .str "u"]) (.str "a") (.bool true) = .ok none := by
  constructor
  · intro choice hch pr er start hpr her
    obtain ⟨l, hl, hrun⟩ := C58_simulate_partial exClockR_valid (show 0 < 2 by decide)
      (show 0 < 2 by decide) hch hpr her start (steps := .int 2) (initialState := .str "a")
      (finalState := .none) (finalSymbol := .none) (s := 2) (i := some (0 : Fin 2)) (f := none)
      (g := none) rfl (Or.inr ⟨(0 : Fin 2), by simp, rfl, rfl⟩) (Or.inl ⟨rfl, rfl⟩)
      (Or.inl ⟨rfl, rfl⟩)
    rw [hl]
    congr 1
    obtain ⟨r1, r2, r3, -, -, r6⟩ := hrun
    have hlen : l.length = 3 := by
      rcases r6 with h | ⟨q, h, -⟩
      · exact h
      · rcases h with h | h <;> cases h
    obtain ⟨q0, q1, q2, rfl⟩ := List.length_eq_three.1 hlen
    have hem : ∀ q : Fin 2 × Fin 2, 0 < exClockR.e q.1 q.2 → q.1 = q.2 := by
      intro q hq
      rw [exClockR_e] at hq
      by_contra h
      rw [if_neg h] at hq
      exact lt_irrefl _ hq
    have htr : ∀ a b : Fin 2, Edge exClockR.p a b → a ≠ b := by
      intro a b h e
      have h' : 0 < exClockR.p a b := h
      rw [exClockR_p, if_pos e] at h'
      exact lt_irrefl _ h'
    have e0 : q0.1 = q0.2 := hem q0 (r3 q0 (by simp))
    have e1 : q1.1 = q1.2 := hem q1 (r3 q1 (by simp))
    have e2 : q2.1 = q2.2 := hem q2 (r3 q2 (by simp))
    have s0 : q0.1 = (0 : Fin 2) := by
      have : some q0.1 = some (0 : Fin 2) := r1
      exact Option.some.inj this
    have c1 := htr q0.1 q1.1 (by
      have := List.isChain_cons_cons.1 r2
      exact this.1)
    have c2 := htr q1.1 q2.1 (by
      have := List.isChain_cons_cons.1 (List.isChain_cons_cons.1 r2).2
      exact this.1)
    have key : ∀ a b c : Fin 2, a = 0 → a ≠ b → b ≠ c → b = 1 ∧ c = 0 := by decide
    obtain ⟨s1, s2⟩ := key q0.1 q1.1 q2.1 s0 c1 c2
    have f0 : q0 = ((0 : Fin 2), (0 : Fin 2)) := Prod.ext s0 (e0.symm.trans s0)
    have f1 : q1 = ((1 : Fin 2), (1 : Fin 2)) := Prod.ext s1 (e1.symm.trans s1)
    have f2 : q2 = ((0 : Fin 2), (0 : Fin 2)) := Prod.ext s2 (e2.symm.trans s2)
    rw [f0, f1, f2]
    rfl
  · refine (C56_none (m := exClockR) (l := [0, 1, 0]) rfl rfl true).2 ⟨0, by decide, ?_⟩
    rw [if_pos rfl]
    refine lt_of_eq_of_lt ?_ (show (0 : ℝ) < 1 / 10 ^ 300 by positivity)
    refine (sum_alpha_likelihood exClockR.p exClockR.e _ _).symm.trans ?_
    change ∑ s : Fin 2, exClockR.e s (0 : Fin 2) *
      ∑ i : Fin 2, listVec (oneHot 2 0) 2 i * exClockR.p i s = 0
    simp [Fin.sum_univ_two, exClockR_e, exClockR_p, listVec, oneHot]

end Verif
