import Verif.Model.Plotting
import Verif.Spec.Plots
import Verif.Props.Viterbi
import Verif.Props.HiddenSimulation
import Mathlib.Analysis.Complex.ExponentialBounds
import Mathlib.Tactic.Linarith

/-!
# C108: the trellis plot
-/

set_option linter.unusedSectionVars false

namespace Verif

variable {K : Type} [Field K] [LinearOrder K] [IsStrictOrderedRing K] {n k : ℕ}

/-! ## Edges -/

theorem mem_trellisLoop {P : Matrix (Fin n) (Fin n) K} {init : Fin n → K} {f : ℕ} {r s : Fin n} {c : ℕ} :
    (r, c, s) ∈ trellisLoop P init f ↔
      c < f - 1 ∧ 0 < P r s ∧ (c = 0 → 0 < (List.ofFn init).getD 0 0) := by
  unfold trellisLoop
  simp only [List.mem_flatMap, List.mem_finRange, List.mem_range, true_and]
  constructor
  · rintro ⟨row, col, hcol, h⟩
    split at h
    · simp at h
    · next hc =>
      simp only [List.mem_map, List.mem_filter, List.mem_finRange, true_and, decide_eq_true_eq,
        Prod.mk.injEq] at h
      obtain ⟨s', hs', rfl, rfl, rfl⟩ := h
      refine ⟨hcol, hs', fun h0 => ?_⟩
      subst h0
      by_contra h1
      exact hc ⟨rfl, h1⟩
  · rintro ⟨h1, h2, h3⟩
    refine ⟨r, c, h1, ?_⟩
    rw [if_neg]
    · simp only [List.mem_map, List.mem_filter, List.mem_finRange, true_and, decide_eq_true_eq,
        Prod.mk.injEq]
      exact ⟨s, h2, rfl⟩
    · rintro ⟨rfl, h4⟩
      exact h4 (h3 rfl)

/-- The number of a node determines its row and its column. -/
theorem node_inj {f a b a' b' : ℕ} (hb : b < f) (hb' : b' < f) (h : a * f + b = a' * f + b') :
    a = a' ∧ b = b' := by
  have hf : 0 < f := by omega
  have h1 : (a * f + b) / f = a := by
    rw [Nat.add_comm, Nat.add_mul_div_right _ _ hf, Nat.div_eq_of_lt hb, Nat.zero_add]
  have h2 : (a' * f + b') / f = a' := by
    rw [Nat.add_comm, Nat.add_mul_div_right _ _ hf, Nat.div_eq_of_lt hb', Nat.zero_add]
  have h3 : a = a' := by rw [← h1, h, h2]
  subst h3
  exact ⟨rfl, by omega⟩

theorem trellisEnds_inj {f : ℕ} {b : Bool} {e e' : Fin n × ℕ × Fin n} (he : e.2.1 < f - 1)
    (he' : e'.2.1 < f - 1) (h : trellisEnds b f e = trellisEnds b f e') : e = e' := by
  obtain ⟨r, c, s⟩ := e
  obtain ⟨r', c', s'⟩ := e'
  simp only at he he'
  have key : r.val * f + c = r'.val * f + c' ∧ s.val * f + (c + 1) = s'.val * f + (c' + 1) := by
    unfold trellisEnds at h
    split at h <;> simp only [Prod.mk.injEq] at h <;> omega
  obtain ⟨h1, h2⟩ := node_inj (by omega) (by omega) key.1
  obtain ⟨h3, -⟩ := node_inj (by omega) (by omega) key.2
  rw [Fin.ext h1, Fin.ext h3, h2]

/-- The edges of the extended trellis. -/
theorem mem_edgesExtended {b : Bool} {P : Matrix (Fin n) (Fin n) K} {init : Fin n → K} {f : ℕ}
    {path : List (Fin n)} {r s : Fin n} {c : ℕ} (hc : c + 1 < f) {hl : Bool} :
    (trellisEnds b f (r, c, s), hl) ∈ edgesExtended b P init f path ↔
      0 < P r s ∧ (c = 0 → 0 < (List.ofFn init).getD 0 0) ∧
        (hl = true ↔ path[c]? = some r ∧ path[c + 1]? = some s) := by
  unfold edgesExtended
  simp only [List.mem_map, Prod.mk.injEq]
  constructor
  · rintro ⟨e, he, h1, rfl⟩
    obtain ⟨r', c', s'⟩ := e
    have hm := mem_trellisLoop.1 he
    have := trellisEnds_inj (e := (r', c', s')) (e' := (r, c, s)) hm.1 (by simp only; omega) h1
    simp only [Prod.mk.injEq] at this
    obtain ⟨rfl, rfl, rfl⟩ := this
    exact ⟨hm.2.1, hm.2.2, by simp [onPathExtended]⟩
  · rintro ⟨h1, h2, h3⟩
    refine ⟨(r, c, s), mem_trellisLoop.2 ⟨by omega, h1, h2⟩, rfl, ?_⟩
    simp only [onPathExtended]
    rw [Bool.eq_iff_iff, h3]
    simp

/-- A list of edges that is sorted by the sources is in the order of the graph. -/
theorem digraphOrder_sorted (N : ℕ) (l : List (ℕ × ℕ)) (hs : l.Pairwise fun a b => a.1 ≤ b.1)
    (hN : ∀ e ∈ l, e.1 < N) : digraphOrder N l = l := by
  induction N generalizing l with
  | zero =>
    cases l with
    | nil => rfl
    | cons a t => exact absurd (hN a (by simp)) (by omega)
  | succ N ih =>
    have h1 : digraphOrder (N + 1) l = digraphOrder N (l.filter fun e => decide (e.1 < N)) ++
        l.filter fun e => decide (e.1 = N) := by
      unfold digraphOrder
      rw [List.range_succ, List.flatMap_append]
      congr 1
      · refine List.flatMap_congr fun v hv => ?_
        rw [List.filter_filter]
        refine List.filter_congr fun e _ => ?_
        have := List.mem_range.1 hv
        by_cases h : e.1 = v
        · simp [h, this]
        · simp [h]
      · simp
    rw [h1, ih _ (hs.filter _) (by simp)]
    clear ih h1
    induction l with
    | nil => rfl
    | cons a t ih =>
      rw [List.pairwise_cons] at hs
      have iht := ih hs.2 fun e he => hN e (List.mem_cons_of_mem _ he)
      by_cases ha : a.1 < N
      · rw [List.filter_cons_of_pos (by simpa using ha), List.filter_cons_of_neg (by simp; omega),
          List.cons_append, iht]
      · have haN : a.1 = N := by
          have := hN a (by simp)
          omega
        have ht : ∀ e ∈ t, e.1 = N := by
          intro e he
          have h1 := hs.1 e he
          have h2 := hN e (List.mem_cons_of_mem _ he)
          omega
        rw [List.filter_eq_nil_iff.2, List.nil_append, List.filter_eq_self.2]
        · intro e he
          rcases List.mem_cons.1 he with rfl | he
          · simpa using haN
          · simpa using ht e he
        · intro e he
          rcases List.mem_cons.1 he with rfl | he
          · simpa using haN.ge
          · simpa using (ht e he).ge

theorem trellisLoop_sorted (P : Matrix (Fin n) (Fin n) K) (init : Fin n → K) (f : ℕ) :
    (trellisLoop P init f).Pairwise fun a b => a.1.val * f + a.2.1 ≤ b.1.val * f + b.2.1 := by
  unfold trellisLoop
  rw [List.pairwise_flatMap]
  constructor
  · intro row _
    rw [List.pairwise_flatMap]
    constructor
    · intro col _
      split
      · exact List.Pairwise.nil
      · rw [List.pairwise_map]
        exact List.pairwise_of_forall fun a b => le_rfl
    · refine List.pairwise_lt_range.imp fun {a b} hab x hx y hy => ?_
      have hx' : x.1 = row ∧ x.2.1 = a := by
        split at hx
        · simp at hx
        · simp only [List.mem_map] at hx
          obtain ⟨_, _, rfl⟩ := hx
          exact ⟨rfl, rfl⟩
      have hy' : y.1 = row ∧ y.2.1 = b := by
        split at hy
        · simp at hy
        · simp only [List.mem_map] at hy
          obtain ⟨_, _, rfl⟩ := hy
          exact ⟨rfl, rfl⟩
      rw [hx'.1, hx'.2, hy'.1, hy'.2]
      omega
  · refine (List.pairwise_lt_finRange n).imp fun {a b} hab x hx y hy => ?_
    have key : ∀ (a : Fin n) (x : Fin n × ℕ × Fin n), (x ∈ (List.range (f - 1)).flatMap fun col =>
        if col = 0 ∧ ¬ 0 < (List.ofFn init).getD col 0 then []
        else ((List.finRange n).filter fun next => decide (0 < P a next)).map fun next => (a, col, next)) →
        x.1 = a ∧ x.2.1 < f - 1 := by
      intro a x hx
      simp only [List.mem_flatMap, List.mem_range] at hx
      obtain ⟨col, hcol, hx⟩ := hx
      split at hx
      · simp at hx
      · simp only [List.mem_map] at hx
        obtain ⟨_, _, rfl⟩ := hx
        exact ⟨rfl, hcol⟩
    obtain ⟨h1, h2⟩ := key a x hx
    obtain ⟨h3, h4⟩ := key b y hy
    rw [h1, h3]
    have : (a.val + 1) * f ≤ b.val * f := Nat.mul_le_mul_right _ hab
    rw [Nat.succ_mul] at this
    omega

theorem zip_map_map {α β γ : Type} (l : List α) (f : α → β) (g : α → γ) :
    (l.map f).zip (l.map g) = l.map fun a => (f a, g a) := by
  induction l with
  | nil => rfl
  | cons a t ih => simp [ih]

/-- In standard mode the forward trellis has the edges and colours of the extended mode. -/
theorem edgesStandard_forward (P : Matrix (Fin n) (Fin n) K) (init : Fin n → K) (f : ℕ)
    (path : List (Fin n)) : edgesStandard true P init f path = edgesExtended true P init f path := by
  unfold edgesStandard edgesExtended
  rw [digraphOrder_sorted, zip_map_map]
  · rfl
  · rw [List.pairwise_map]
    exact trellisLoop_sorted P init f
  · intro e he
    rw [List.mem_map] at he
    obtain ⟨⟨r, c, s⟩, he, rfl⟩ := he
    have := (mem_trellisLoop.1 he).1
    simp only [trellisEnds, if_true]
    have h2 : (r.val + 1) * f ≤ n * f := Nat.mul_le_mul_right _ r.2
    rw [Nat.succ_mul] at h2
    omega

/-- The order of the triples of the loops. -/
def TripleLt (a b : Fin n × ℕ × Fin n) : Prop :=
  a.1 < b.1 ∨ a.1 = b.1 ∧ (a.2.1 < b.2.1 ∨ a.2.1 = b.2.1 ∧ a.2.2 < b.2.2)

theorem trellisLoop_lex (P : Matrix (Fin n) (Fin n) K) (init : Fin n → K) (f : ℕ) :
    (trellisLoop P init f).Pairwise TripleLt := by
  unfold trellisLoop
  rw [List.pairwise_flatMap]
  constructor
  · intro row _
    rw [List.pairwise_flatMap]
    constructor
    · intro col _
      split
      · exact List.Pairwise.nil
      · rw [List.pairwise_map]
        refine ((List.pairwise_lt_finRange n).filter _).imp fun {a b} hab => ?_
        exact Or.inr ⟨rfl, Or.inr ⟨rfl, hab⟩⟩
    · refine List.pairwise_lt_range.imp fun {a b} hab x hx y hy => ?_
      split at hx
      · simp at hx
      · split at hy
        · simp at hy
        · simp only [List.mem_map] at hx hy
          obtain ⟨_, _, rfl⟩ := hx
          obtain ⟨_, _, rfl⟩ := hy
          exact Or.inr ⟨rfl, Or.inl hab⟩
  · refine (List.pairwise_lt_finRange n).imp fun {a b} hab x hx y hy => ?_
    rw [List.mem_flatMap] at hx hy
    obtain ⟨_, _, hx⟩ := hx
    obtain ⟨_, _, hy⟩ := hy
    split at hx
    · simp at hx
    · split at hy
      · simp at hy
      · simp only [List.mem_map] at hx hy
        obtain ⟨_, _, rfl⟩ := hx
        obtain ⟨_, _, rfl⟩ := hy
        exact Or.inl hab

/-- The reversed triple. -/
def swapTriple (e : Fin n × ℕ × Fin n) : Fin n × ℕ × Fin n := (e.2.2, e.2.1, e.1)

theorem swap_mem_trellisLoop {P : Matrix (Fin n) (Fin n) K} (hP : ∀ i j, 0 < P i j → 0 < P j i)
    {init : Fin n → K} {f : ℕ} {e : Fin n × ℕ × Fin n} (he : e ∈ trellisLoop P init f) :
    swapTriple e ∈ trellisLoop P init f := by
  obtain ⟨r, c, s⟩ := e
  obtain ⟨h1, h2, h3⟩ := mem_trellisLoop.1 he
  exact mem_trellisLoop.2 ⟨h1, hP _ _ h2, h3⟩

theorem digraphOrder_congr {N : ℕ} {l l' : List (ℕ × ℕ)}
    (h : ∀ v, (l.filter fun e => decide (e.1 = v)) = l'.filter fun e => decide (e.1 = v)) :
    digraphOrder N l = digraphOrder N l' := by
  unfold digraphOrder
  exact List.flatMap_congr fun v _ => h v

/-- When all transitions are possible in both directions, the order of the edges of the backward graph is
the order in which the reversed triples are met. -/
theorem digraphOrder_backward {P : Matrix (Fin n) (Fin n) K} (hP : ∀ i j, 0 < P i j → 0 < P j i)
    (init : Fin n → K) (f : ℕ) :
    digraphOrder (n * f) ((trellisLoop P init f).map (trellisEnds false f)) =
      (trellisLoop P init f).map fun e => trellisEnds false f (swapTriple e) := by
  have hsrc : ∀ e ∈ trellisLoop P init f, e.2.1 + 1 < f := by
    rintro ⟨r, c, s⟩ he
    have := (mem_trellisLoop.1 he).1
    simp only
    omega
  have hlt : ∀ {a c a' : ℕ}, a < a' → c + 1 < f → a * f + c + 1 ≤ a' * f := by
    intro a c a' h hc
    have : (a + 1) * f ≤ a' * f := Nat.mul_le_mul_right _ h
    rw [Nat.succ_mul] at this
    omega
  have key : digraphOrder (n * f) ((trellisLoop P init f).map (trellisEnds false f)) =
      digraphOrder (n * f) ((trellisLoop P init f).map fun e => trellisEnds false f (swapTriple e)) := by
    refine digraphOrder_congr fun v => ?_
    have hmem : ∀ x, x ∈ (((trellisLoop P init f).map (trellisEnds false f)).filter
        fun e => decide (e.1 = v)) ↔
        x ∈ ((trellisLoop P init f).map fun e => trellisEnds false f (swapTriple e)).filter
          fun e => decide (e.1 = v) := by
      intro x
      simp only [List.mem_filter, List.mem_map]
      refine and_congr ⟨?_, ?_⟩ Iff.rfl
      · rintro ⟨e, he, rfl⟩
        exact ⟨swapTriple e, swap_mem_trellisLoop hP he, rfl⟩
      · rintro ⟨e, he, rfl⟩
        exact ⟨swapTriple e, swap_mem_trellisLoop hP he, rfl⟩
    have hs1 : (((trellisLoop P init f).map (trellisEnds false f)).filter
        fun e => decide (e.1 = v)).Pairwise fun a b => a.2 < b.2 := by
      rw [List.pairwise_filter, List.pairwise_map]
      refine List.Pairwise.imp_of_mem ?_ (trellisLoop_lex P init f)
      intro e e' he he' hlex h1 h2
      have a1 := hsrc e he
      have a2 := hsrc e' he'
      simp only [trellisEnds, Bool.false_eq_true, if_false, decide_eq_true_eq] at h1 h2 ⊢
      obtain ⟨q1, q2⟩ := node_inj (b := e.2.1 + 1) (b' := e'.2.1 + 1) (f := f) a1 a2
        (a := e.2.2.val) (a' := e'.2.2.val) (by omega)
      rcases hlex with h | ⟨h3, h | ⟨-, h⟩⟩
      · have := hlt (a := e.1.val) (a' := e'.1.val) h a1
        omega
      · omega
      · have := Fin.lt_def.1 h
        omega
    have hs2 : (((trellisLoop P init f).map fun e => trellisEnds false f (swapTriple e)).filter
        fun e => decide (e.1 = v)).Pairwise fun a b => a.2 < b.2 := by
      rw [List.pairwise_filter, List.pairwise_map]
      refine List.Pairwise.imp_of_mem ?_ (trellisLoop_lex P init f)
      intro e e' he he' hlex h1 h2
      have a1 := hsrc e he
      have a2 := hsrc e' he'
      simp only [trellisEnds, swapTriple, Bool.false_eq_true, if_false, decide_eq_true_eq] at h1 h2 ⊢
      obtain ⟨q1, q2⟩ := node_inj (b := e.2.1 + 1) (b' := e'.2.1 + 1) (f := f) a1 a2
        (a := e.1.val) (a' := e'.1.val) (by omega)
      rcases hlex with h | ⟨h3, h | ⟨-, h⟩⟩
      · have := Fin.lt_def.1 h
        omega
      · omega
      · have := hlt (a := e.2.2.val) (a' := e'.2.2.val) h a1
        omega
    refine List.Perm.eq_of_pairwise (le := fun a b => a.2 < b.2) ?_ hs1 hs2 ?_
    · intro a b _ _ h1 h2
      exact absurd h1 (not_lt.2 h2.le)
    · rw [List.perm_ext_iff_of_nodup]
      · exact hmem
      · exact List.Pairwise.imp (by rintro a b h rfl; exact lt_irrefl _ h) hs1
      · exact List.Pairwise.imp (by rintro a b h rfl; exact lt_irrefl _ h) hs2
  rw [key, digraphOrder_sorted]
  · rw [List.pairwise_map]
    refine List.Pairwise.imp_of_mem ?_ (trellisLoop_lex P init f)
    intro e e' he he' hlex
    have a1 := hsrc e he
    simp only [trellisEnds, swapTriple, Bool.false_eq_true, if_false]
    rcases hlex with h | ⟨h3, h | ⟨h4, -⟩⟩
    · have := hlt (a := e.1.val) (a' := e'.1.val) h a1
      omega
    · rw [h3]; omega
    · rw [h3, h4]
  · intro x hx
    rw [List.mem_map] at hx
    obtain ⟨e, he, rfl⟩ := hx
    have a1 := hsrc e he
    simp only [trellisEnds, swapTriple, Bool.false_eq_true, if_false]
    have h2 : (e.1.val + 1) * f ≤ n * f := Nat.mul_le_mul_right _ e.1.2
    rw [Nat.succ_mul] at h2
    omega

/-- In standard mode the backward trellis has the edges and colours of the extended mode when all
transitions are possible in both directions. -/
theorem mem_edgesStandard_backward {P : Matrix (Fin n) (Fin n) K} (hP : ∀ i j, 0 < P i j → 0 < P j i)
    (init : Fin n → K) (f : ℕ) (path : List (Fin n)) (x : (ℕ × ℕ) × Bool) :
    x ∈ edgesStandard false P init f path ↔ x ∈ edgesExtended false P init f path := by
  unfold edgesStandard edgesExtended
  rw [digraphOrder_backward hP, zip_map_map]
  simp only [List.mem_map]
  have hcol : ∀ e : Fin n × ℕ × Fin n,
      onPathStandard false path e = onPathExtended path (swapTriple e) := by
    intro e
    rfl
  constructor
  · rintro ⟨e, he, rfl⟩
    exact ⟨swapTriple e, swap_mem_trellisLoop hP he, by rw [hcol]⟩
  · rintro ⟨e, he, rfl⟩
    exact ⟨swapTriple e, swap_mem_trellisLoop hP he, by rw [hcol]; rfl⟩

/-! ## The plot -/

theorem hmmSimulateLoop_length (P : Matrix (Fin n) (Fin n) K) (E : Matrix (Fin n) (Fin k) K) (hn : 0 < n)
    (hk : 0 < k) (pr er : ℕ → K) (m t : ℕ) (s : Fin n) :
    (hmmSimulateLoop P E hn hk pr er none none m t s).length = m := by
  induction m generalizing t s with
  | zero => rfl
  | succ m ih =>
    simp only [hmmSimulateLoop, reduceCtorEq, or_self, if_false, List.length_cons, ih]

theorem trellisSymbols_length (m : HMM K) (hn : 0 < m.n) (hk : 0 < m.k) (choice : Choice K m.k)
    (pr er : ℕ → K) (start : Fin m.n) (steps : ℕ) (initial : Option (Fin m.n)) :
    (trellisSymbols m hn hk choice pr er start steps initial).length = steps + 1 := by
  unfold trellisSymbols hmmSimulate
  simp [hmmSimulateLoop_length]

theorem trellisStart_nonneg {n : ℕ} (i : Option (Fin n)) (j : Fin n) : 0 ≤ (trellisStart i j : ℝ) := by
  cases i with
  | none => simp [trellisStart]
  | some i => simp only [trellisStart]; split_ifs <;> simp

theorem trellisStart_first {n : ℕ} (hn : 0 < n) (i : Option (Fin n)) :
    0 < (List.ofFn (trellisStart (K := K) i)).getD 0 0 ↔ ∀ j, i = some j → j.val = 0 := by
  obtain ⟨n, rfl⟩ : ∃ q, n = q + 1 := ⟨n - 1, by omega⟩
  rw [List.ofFn_succ]
  change 0 < trellisStart (K := K) i 0 ↔ _
  cases i with
  | none =>
    simp only [trellisStart, reduceCtorEq, false_imp_iff, implies_true, iff_true]
    positivity
  | some i =>
    simp only [trellisStart, Option.some.injEq, forall_eq']
    constructor
    · intro h
      by_contra hi
      rw [if_neg (fun h0 => hi (by rw [← h0]; rfl))] at h
      exact lt_irrefl _ h
    · intro h
      rw [if_pos (Fin.ext h.symm)]
      exact zero_lt_one

theorem likelihood_point (P : Matrix (Fin n) (Fin n) K) (E : Matrix (Fin n) (Fin k) K)
    (ys : List (Fin k)) (r : Fin n) :
    likelihood (fun i j => P i j) (fun i j => E i j) (fun j => if j = r then 1 else 0) ys =
      beta (fun i j => P i j) (fun i j => E i j) ys r := by
  simp [likelihood, beta]

/-- C108. For an accepted call the trellis has one column for every simulated symbol, and the nodes of
the most probable path are highlighted. The forward trellis shows in column `c` numbers proportional to
the probabilities of the first `c` symbols together with the state, the backward trellis numbers
proportional to the probabilities of the other symbols given the state. The edges of the forward trellis
are exactly the possible transitions between neighbouring columns, in the colour of the path when both
ends belong to it, except that the edges of the first column are missing when the given initial state is
not the first state of the model. The same is true of the backward trellis in extended mode, and in
standard mode when every possible transition is possible in both directions. -/
theorem C108_trellis_partial {m : HMM ℝ} (hm : m.Valid) (hn : 0 < m.n) (hk : 0 < m.k)
    {choice : Choice ℝ m.k} {pr er : ℕ → ℝ} {start : Fin m.n} {rnd : ℝ → ℝ} {δ : ℝ}
    (hr : ∀ x, |rnd x - x| ≤ δ) {standard : Bool} {steps initialState : PyVal ℝ}
    {bw fw : Trellis ℝ m.n m.k}
    (h : plotTrellis m hn hk choice pr er start rnd standard steps initialState = .ok (bw, fw)) :
    ∃ (s : ℕ) (i : Option (Fin m.n)) (ys : List (Fin m.k)) (path : List (Fin m.n)),
      2 ≤ s ∧ steps = .int s ∧ optionalLabel initialState m.states m.n = .ok i ∧
      ys = trellisSymbols m hn hk choice pr er start s i ∧
      ys.length = s + 1 ∧ path.length = s + 1 ∧
      fw.headers = none :: ys.tail.map some ∧ bw.headers = fw.headers ∧
      fw.highlighted = path ∧ bw.highlighted = path ∧
      (∃ v, hmmPredict rnd "mle" m.p m.e (trellisStart i) ys = some (v, path)) ∧
      fw.values.length = s + 1 ∧ bw.values.length = s + 1 ∧
      fw.values[0]? = some (trellisStart i) ∧
      (∀ c (hc : c + 1 < fw.values.length), ∃ w, 0 < w ∧ ∀ r, fw.values[c + 1] r * w =
        jointAt m.p m.e (trellisStart i) (ys.take (c + 1)) c r) ∧
      (∀ c (hc : c < bw.values.length), ∃ w, 0 < w ∧ ∀ r, bw.values[c] r * w =
        likelihood m.p m.e (fun j => if j = r then 1 else 0) (ys.drop c)) ∧
      (∀ e ∈ fw.edges, ∃ (r r' : Fin m.n) (c : ℕ), c < s ∧
        e.1 = (r * (s + 1) + c, r' * (s + 1) + c + 1)) ∧
      (∀ (r r' : Fin m.n) (c : ℕ) (hl : Bool), c < s →
        (((r * (s + 1) + c, r' * (s + 1) + c + 1), hl) ∈ fw.edges ↔
          Edge m.p r r' ∧ (c = 0 → ∀ j, i = some j → j.val = 0) ∧
            (hl = true ↔ path[c]? = some r ∧ path[c + 1]? = some r'))) ∧
      (standard = false ∨ (∀ r r', Edge m.p r r' → Edge m.p r' r) →
        ∀ a b hl, ((a, b), hl) ∈ bw.edges ↔ ((b, a), hl) ∈ fw.edges) := by
  unfold plotTrellis at h
  rw [R.bind_ok] at h
  obtain ⟨z, hz, h⟩ := h
  rw [R.bind_ok] at h
  obtain ⟨i, hi, h⟩ := h
  obtain ⟨rfl, hz1⟩ := validateInteger_ge hz
  obtain ⟨s, rfl⟩ : ∃ s : ℕ, z = s := ⟨z.toNat, by omega⟩
  rw [Int.toNat_natCast] at h
  obtain ⟨ys, hys⟩ : ∃ ys, ys = trellisSymbols m hn hk choice pr er start s i := ⟨_, rfl⟩
  have hlen : ys.length = s + 1 := by rw [hys, trellisSymbols_length]
  rw [← hys] at h
  unfold trellisPair at h
  cases hd : hmmDecode m.p m.e (trellisStart i) ys true with
  | none => rw [hd] at h; cases h
  | some d =>
    rw [hd] at h
    simp only at h
    cases hp : hmmPredict rnd "mle" m.p m.e (trellisStart i) ys with
    | none => rw [hp] at h; cases h
    | some q =>
      rw [hp] at h
      simp only at h
      obtain ⟨v, path⟩ := q
      have hne : ys ≠ [] := by
        rintro rfl
        simp at hlen
      have hplen : path.length = s + 1 := by
        obtain ⟨y, t, rfl⟩ := List.exists_cons_of_ne_nil hne
        have hp' : predictViterbi rnd m.p m.e (trellisStart i) (y :: t) = some (v, path) := by
          unfold hmmPredict at hp
          rw [if_neg (by decide)] at hp
          exact hp
        obtain ⟨-, hsp⟩ := predictViterbi_spec (P := m.p) (E := m.e) hm.2.2.1.1 hm.2.2.2.1.1 hr
          (trellisStart_nonneg i) hn (y := y) (ys := t) rfl
        obtain ⟨_, _, _, h2, _⟩ := hsp _ hp'
        rw [← hlen]
        exact h2
      obtain ⟨-, -, -, hds⟩ := hmmDecode_spec hne hd
      obtain ⟨d1, d2, d3, -, d5, d6, -, d8, d9, -⟩ := decodeScaled_spec hne hds
      have hd0 : d.2.forward[0]? = some (trellisStart i) := by
        unfold decodeScaled at hds
        rw [Option.map_eq_some_iff] at hds
        obtain ⟨_, _, hh⟩ := hds
        rw [← hh]
        rfl
      have hE : (if standard then edgesStandard true m.p (trellisStart i) ys.length path
            else edgesExtended true m.p (trellisStart i) ys.length path) =
            edgesExtended true m.p (trellisStart i) (s + 1) path := by
        rw [hlen]
        cases standard with
        | false => rfl
        | true => exact edgesStandard_forward _ _ _ _
      have hB : (standard = false ∨ ∀ r r', Edge m.p r r' → Edge m.p r' r) → ∀ x,
          (x ∈ if standard then edgesStandard false m.p (trellisStart i) ys.length path
            else edgesExtended false m.p (trellisStart i) ys.length path) ↔
            x ∈ edgesExtended false m.p (trellisStart i) (s + 1) path := by
        intro hb x
        rw [hlen]
        cases standard with
        | false => exact Iff.rfl
        | true =>
          rcases hb with hb | hb
          · cases hb
          · exact mem_edgesStandard_backward hb _ _ _ _
      have h' : (trellis standard false m.p (trellisStart i) ys d.2.backward path,
          trellis standard true m.p (trellisStart i) ys d.2.forward path) = (bw, fw) :=
        Except.ok.inj h
      rw [Prod.mk.injEq] at h'
      obtain ⟨rfl, rfl⟩ := h'
      have hfe : ∀ (r r' : Fin m.n) (c : ℕ) (hl : Bool), c < s →
          (((r.val * (s + 1) + c, r'.val * (s + 1) + c + 1), hl) ∈
            edgesExtended true m.p (trellisStart i) (s + 1) path ↔
          Edge m.p r r' ∧ (c = 0 → ∀ j, i = some j → j.val = 0) ∧
            (hl = true ↔ path[c]? = some r ∧ path[c + 1]? = some r')) := by
        intro r r' c hl hc
        have := mem_edgesExtended (b := true) (P := m.p) (init := trellisStart i) (f := s + 1)
          (path := path) (r := r) (s := r') (c := c) (by omega) (hl := hl)
        rw [trellisStart_first hn] at this
        exact this
      have hsplit : ∀ b : Bool, ∀ e ∈ edgesExtended b m.p (trellisStart i) (s + 1) path,
          ∃ (r r' : Fin m.n) (c : ℕ), c < s ∧ e.1 = trellisEnds b (s + 1) (r, c, r') := by
        intro b e he
        unfold edgesExtended at he
        rw [List.mem_map] at he
        obtain ⟨⟨r, c, r'⟩, he, rfl⟩ := he
        exact ⟨r, r', c, (mem_trellisLoop.1 he).1, rfl⟩
      refine ⟨s, i, ys, path, by omega, rfl, hi, hys, hlen, hplen, ?_, rfl, ?_, ?_, ⟨v, hp⟩, ?_, ?_, ?_,
        ?_, ?_, ?_, ?_, ?_⟩
      · rfl
      · exact List.take_of_length_le (by rw [hplen, hlen])
      · exact List.take_of_length_le (by rw [hplen, hlen])
      · simp [trellis, hlen, d5]
      · simp [trellis, hlen, d6]
      · simp only [trellis]
        rw [List.getElem?_take_of_lt (by omega), hd0]
      · intro c hc
        have hc' : c + 1 < ys.length := by
          simp only [trellis, List.length_take] at hc
          omega
        refine ⟨(d.2.factors.take (c + 1 + 1)).prod,
          List.prod_pos fun x hx => d1 x (List.mem_of_mem_take hx), fun r => ?_⟩
        have hv : (trellis standard true m.p (trellisStart i) ys d.2.forward path).values[c + 1] =
            d.2.forward[c + 1] := List.getElem_take
        rw [hv, d8 (c + 1) (by omega) r]
        exact alpha_eq_jointAt m.p m.e (trellisStart i) ys c (by omega) r
      · intro c hc
        have hc' : c < ys.length := by
          simp only [trellis, List.length_take] at hc
          omega
        refine ⟨(d.2.factors.drop (c + 1)).prod,
          List.prod_pos fun x hx => d1 x (List.mem_of_mem_drop hx), fun r => ?_⟩
        have hv : (trellis standard false m.p (trellisStart i) ys d.2.backward path).values[c] =
            d.2.backward[c] := List.getElem_take
        rw [hv, d9 c (by omega) r]
        exact (likelihood_point m.p m.e (ys.drop c) r).symm
      · intro e he
        simp only [trellis] at he
        rw [hE] at he
        obtain ⟨r, r', c, hc, he⟩ := hsplit true e he
        exact ⟨r, r', c, hc, he⟩
      · intro r r' c hl hc
        simp only [trellis]
        rw [hE]
        exact hfe r r' c hl hc
      · intro hst a b hl
        simp only [trellis]
        rw [hE, hB hst]
        constructor
        · intro he
          obtain ⟨r, r', c, hc, hab⟩ := hsplit false _ he
          simp only at hab
          rw [hab, mem_edgesExtended (by omega), ← mem_edgesExtended (b := true) (f := s + 1) (by omega)] at he
          simp only [trellisEnds, Bool.false_eq_true, if_false, Prod.mk.injEq] at hab
          rw [hab.1, hab.2]
          exact he
        · intro he
          obtain ⟨r, r', c, hc, hab⟩ := hsplit true _ he
          simp only at hab
          rw [hab, mem_edgesExtended (by omega), ← mem_edgesExtended (b := false) (f := s + 1) (by omega)] at he
          simp only [trellisEnds, if_true, Prod.mk.injEq] at hab
          rw [hab.1, hab.2]
          exact he

/-! ## Accepted models -/

theorem forwardStep_sum {P : Matrix (Fin n) (Fin n) ℝ} {E : Matrix (Fin n) (Fin k) ℝ} {ε : ℝ}
    (hP : IsStochastic fun i j => P i j) (hE : ∀ i y, ε ≤ E i y) {f : Fin n → ℝ} (h0 : ∀ i, 0 ≤ f i)
    (h1 : ∑ i, f i = 1) (y : Fin k) : ε ≤ ∑ s, forwardStep P E f y s := by
  have h2 : ∀ s, 0 ≤ ∑ i, f i * P i s := fun s => Finset.sum_nonneg fun i _ => mul_nonneg (h0 i) (hP.1 i s)
  calc ε = ε * ∑ s, ∑ i, f i * P i s := by
        rw [Finset.sum_comm]
        simp_rw [← Finset.mul_sum]
        have : ∀ i, ∑ s, P i s = 1 := hP.2
        simp_rw [this, mul_one, h1, mul_one]
    _ = ∑ s, ε * ∑ i, f i * P i s := Finset.mul_sum _ _ _
    _ ≤ _ := Finset.sum_le_sum fun s _ => mul_le_mul_of_nonneg_right (hE s y) (h2 s)

theorem forwardLoop_ne_none {P : Matrix (Fin n) (Fin n) ℝ} {E : Matrix (Fin n) (Fin k) ℝ}
    (hP : IsStochastic fun i j => P i j) (hE : ∀ i y, 1 / 10 ^ 300 ≤ E i y) (ys : List (Fin k))
    {f : Fin n → ℝ} (h0 : ∀ i, 0 ≤ f i) (h1 : ∑ i, f i = 1) : forwardLoop P E f ys ≠ none := by
  induction ys generalizing f with
  | nil => simp [forwardLoop]
  | cons y ys ih =>
    have hc := forwardStep_sum hP hE h0 h1 y
    have hpos : (0 : ℝ) < ∑ s, forwardStep P E f y s := lt_of_lt_of_le (by positivity) hc
    simp only [forwardLoop]
    rw [if_neg (not_lt.2 hc)]
    intro h
    rw [Option.map_eq_none_iff] at h
    refine ih (fun i => div_nonneg ?_ hpos.le) ?_ h
    · exact mul_nonneg (le_trans (by positivity) (hE i y))
        (Finset.sum_nonneg fun j _ => mul_nonneg (h0 j) (hP.1 j i))
    · rw [← Finset.sum_div, div_self hpos.ne']

theorem trellisStart_sum {n : ℕ} (hn : 0 < n) (i : Option (Fin n)) :
    ∑ j, (trellisStart i j : ℝ) = 1 := by
  cases i with
  | none =>
    have : (n : ℝ) ≠ 0 := by exact_mod_cast hn.ne'
    simp [trellisStart, this]
  | some i => simp [trellisStart]

theorem exists_walk {P : Matrix (Fin n) (Fin n) ℝ} (hP : IsStochastic fun i j => P i j) (l : ℕ)
    (x : Fin n) : ∃ w : List (Fin n), w.length = l ∧ 0 < walkProb (fun i j => P i j) (x :: w) := by
  induction l generalizing x with
  | zero => exact ⟨[], rfl, zero_lt_one⟩
  | succ l ih =>
    obtain ⟨s, hs⟩ : ∃ s, 0 < P x s := by
      by_contra hno
      push Not at hno
      have h1 : ∑ s, P x s = 1 := hP.2 x
      have h2 : ∑ s, P x s ≤ 0 := Finset.sum_nonpos fun j _ => hno j
      linarith
    obtain ⟨w, hw, hpos⟩ := ih s
    exact ⟨s :: w, by simp [hw], mul_pos hs hpos⟩

theorem emitProb_pos {E : Matrix (Fin n) (Fin k) ℝ} (hE : ∀ i j, 0 < E i j) (w : List (Fin n))
    (ys : List (Fin k)) (h : w.length = ys.length) : 0 < emitProb (fun i j => E i j) w ys := by
  induction w generalizing ys with
  | nil =>
    cases ys with
    | nil => exact zero_lt_one
    | cons => simp at h
  | cons a w ih =>
    cases ys with
    | nil => simp at h
    | cons y ys => exact mul_pos (hE a y) (ih ys (by simpa using h))

/-- C108, the plots that are made: when every state emits every symbol with a probability of at least
`1e-300`, every number of steps from two and every initial state is accepted, whatever is simulated. -/
theorem C108_accepts {m : HMM ℝ} (hm : m.Valid) (hn : 0 < m.n) (hk : 0 < m.k) (choice : Choice ℝ m.k)
    (pr er : ℕ → ℝ) (start : Fin m.n) {rnd : ℝ → ℝ} {δ : ℝ} (hr : ∀ x, |rnd x - x| ≤ δ) (standard : Bool)
    (hE : ∀ i y, 1 / 10 ^ 300 ≤ m.e i y) {s : ℕ} (hs : 2 ≤ s)
    {initialState : PyVal ℝ} {i : Option (Fin m.n)} (hi : OptionalState initialState m.states i) :
    ∃ r, plotTrellis m hn hk choice pr er start rnd standard (.int s) initialState = .ok r := by
  unfold plotTrellis
  rw [validateInteger_of_ge (by exact_mod_cast hs), R.ok_bind, optionalLabel_ok hi, R.ok_bind,
    Int.toNat_natCast]
  obtain ⟨ys, hys⟩ : ∃ ys, ys = trellisSymbols m hn hk choice pr er start s i := ⟨_, rfl⟩
  have hlen : ys.length = s + 1 := by rw [hys, trellisSymbols_length]
  rw [← hys]
  have hE0 : ∀ i y, 0 < m.e i y := fun i y => lt_of_lt_of_le (by positivity) (hE i y)
  unfold trellisPair
  have hd : hmmDecode m.p m.e (trellisStart i) ys true ≠ none := by
    unfold hmmDecode decodeScaled
    rw [Ne, Option.map_eq_none_iff, Option.map_eq_none_iff]
    exact forwardLoop_ne_none hm.2.2.1 hE ys (trellisStart_nonneg i) (trellisStart_sum hn i)
  obtain ⟨d, hd⟩ := Option.ne_none_iff_exists'.1 hd
  rw [hd]
  have hp : hmmPredict rnd "mle" m.p m.e (trellisStart i) ys ≠ none := by
    unfold hmmPredict
    rw [if_neg (by decide)]
    obtain ⟨y, t, rfl⟩ := List.exists_cons_of_ne_nil (l := ys) (by rintro rfl; simp at hlen)
    obtain ⟨hsp, -⟩ := predictViterbi_spec (P := m.p) (E := m.e) hm.2.2.1.1 hm.2.2.2.1.1 hr
      (trellisStart_nonneg i) hn (y := y) (ys := t) rfl
    rw [Ne, hsp]
    intro hz
    obtain ⟨x, hx⟩ : ∃ x, (0 : ℝ) < trellisStart i x := by
      by_contra hno
      push Not at hno
      have h1 := trellisStart_sum hn i
      have h2 : ∑ j, (trellisStart i j : ℝ) ≤ 0 := Finset.sum_nonpos fun j _ => hno j
      linarith
    obtain ⟨w, hw, hpos⟩ := exists_walk hm.2.2.1 (t.length + 1) x
    refine absurd (hz x w hw) (ne_of_gt (mul_pos (hE0 _ _) (mul_pos (mul_pos hx hpos) ?_)))
    exact emitProb_pos hE0 _ _ (by simp [hw])
  obtain ⟨q, hq⟩ := Option.ne_none_iff_exists'.1 hp
  simp only
  rw [hq]
  exact ⟨_, rfl⟩

/-! ## Where the plot is wrong -/

/-- A model with two equally likely states, each of which emits its own symbol most of the time. -/
noncomputable def exNoisy : HMM ℝ :=
  ⟨2, 2, !![1 / 2, 1 / 2; 1 / 2, 1 / 2], !![9 / 10, 1 / 10; 1 / 10, 9 / 10], ["a", "b"], ["u", "v"]⟩

theorem exNoisy_p (i j : Fin 2) : exNoisy.p i j = 1 / 2 := by
  change (!![1 / 2, 1 / 2; 1 / 2, 1 / 2] : Matrix (Fin 2) (Fin 2) ℝ) i j = _
  fin_cases i <;> fin_cases j <;> rfl

theorem exNoisy_e (i j : Fin 2) : exNoisy.e i j = if i = j then 9 / 10 else 1 / 10 := by
  change (!![9 / 10, 1 / 10; 1 / 10, 9 / 10] : Matrix (Fin 2) (Fin 2) ℝ) i j = _
  fin_cases i <;> fin_cases j <;> simp

theorem exNoisy_valid : exNoisy.Valid := by
  refine ⟨le_rfl, le_rfl, ?_, ?_, show ValidLabels 2 ["a", "b"] by decide,
    show ValidLabels 2 ["u", "v"] by decide, show List.Disjoint ["a", "b"] ["u", "v"] by
      rw [List.disjoint_left]; decide⟩
  · have : IsStochastic (fun i j : Fin 2 => exNoisy.p i j) := by
      simp only [exNoisy_p]
      refine ⟨fun i j => by norm_num, fun i => by norm_num [Fin.sum_univ_two]⟩
    exact this
  · have : IsStochastic (fun i j : Fin 2 => exNoisy.e i j) := by
      simp only [exNoisy_e]
      refine ⟨fun i j => by simp only; split_ifs <;> norm_num, fun i => ?_⟩
      fin_cases i <;> norm_num [Fin.sum_univ_two]
    exact this

theorem exNoisy_plot (choice : Choice ℝ 2) (pr er : ℕ → ℝ) (start : Fin 2) {rnd : ℝ → ℝ} {δ : ℝ}
    (hr : ∀ x, |rnd x - x| ≤ δ) (standard : Bool) {initialState : PyVal ℝ} {i : Option (Fin 2)}
    (hi : OptionalState initialState ["a", "b"] i) :
    ∃ r, plotTrellis exNoisy (show 0 < 2 by decide) (show 0 < 2 by decide) choice pr er start rnd standard
      (.int 2) initialState = .ok r := by
  refine C108_accepts exNoisy_valid (show 0 < 2 by decide) (show 0 < 2 by decide) choice pr er start hr
    standard ?_ (s := 2) le_rfl (i := i) hi
  intro i y
  refine le_trans (ten_pow_300.trans ?_) (exNoisy_e i y).ge
  split_ifs <;> norm_num

/-- C108 fails when an initial state other than the first is given: no edge leaves the first column,
although its states have transitions. -/
theorem C108_first_step_missing (choice : Choice ℝ 2) (pr er : ℕ → ℝ) (start : Fin 2) {rnd : ℝ → ℝ} {δ : ℝ}
    (hr : ∀ x, |rnd x - x| ≤ δ) (standard : Bool) :
    exNoisy.Valid ∧ (∀ i j : Fin 2, Edge (fun i j : Fin 2 => exNoisy.p i j) i j) ∧ ∃ bw fw,
      plotTrellis exNoisy (show 0 < 2 by decide) (show 0 < 2 by decide) choice pr er start rnd standard
        (.int 2) (.str "b") = .ok (bw, fw) ∧
      ∀ (r r' : Fin 2) (hl : Bool), ((r.val * 3, r'.val * 3 + 1), hl) ∉ fw.edges := by
  refine ⟨exNoisy_valid, fun i j => ?_, ?_⟩
  · change 0 < exNoisy.p i j
    rw [exNoisy_p]
    norm_num
  · obtain ⟨⟨bw, fw⟩, h⟩ := exNoisy_plot choice pr er start hr standard
      (Or.inr ⟨1, by simp, rfl, rfl⟩ : OptionalState (.str "b") ["a", "b"] (some (1 : Fin 2)))
    refine ⟨bw, fw, h, fun r r' hl he => ?_⟩
    obtain ⟨s, i, ys, path, -, hs, hi, -, -, -, -, -, -, -, -, -, -, -, -, -, -, hedge, -⟩ :=
      C108_trellis_partial exNoisy_valid _ _ hr h
    have hs' : s = 2 := by
      have : (2 : ℤ) = s := PyVal.int.inj hs
      omega
    subst hs'
    have hi' : (Except.ok (some (1 : Fin 2)) : R (Option (Fin 2))) = .ok i := hi
    have := ((hedge r r' 0 hl (by omega)).1 he).2.1 rfl (1 : Fin 2) (Except.ok.inj hi').symm
    exact absurd this (by decide)

/-- C108 fails when the first state is given as the initial state: there are edges from the other states
of the first column, which have the value zero. -/
theorem C108_first_step_impossible (choice : Choice ℝ 2) (pr er : ℕ → ℝ) (start : Fin 2) {rnd : ℝ → ℝ}
    {δ : ℝ} (hr : ∀ x, |rnd x - x| ≤ δ) (standard : Bool) :
    exNoisy.Valid ∧ ∃ bw fw,
      plotTrellis exNoisy (show 0 < 2 by decide) (show 0 < 2 by decide) choice pr er start rnd standard
        (.int 2) (.str "a") = .ok (bw, fw) ∧
      (∃ v : Fin 2 → ℝ, fw.values[0]? = some v ∧ v 1 = 0) ∧
      ∃ hl : Bool, ((1 * 3, 0 * 3 + 1), hl) ∈ fw.edges := by
  refine ⟨exNoisy_valid, ?_⟩
  obtain ⟨⟨bw, fw⟩, h⟩ := exNoisy_plot choice pr er start hr standard
    (Or.inr ⟨0, by simp, rfl, rfl⟩ : OptionalState (.str "a") ["a", "b"] (some (0 : Fin 2)))
  refine ⟨bw, fw, h, ?_⟩
  obtain ⟨s, i, ys, path, -, hs, hi, -, -, -, -, -, -, -, -, -, -, hv, -, -, -, hedge, -⟩ :=
    C108_trellis_partial exNoisy_valid _ _ hr h
  have hs' : s = 2 := by
    have : (2 : ℤ) = s := PyVal.int.inj hs
    omega
  subst hs'
  have hi' : (Except.ok (some (0 : Fin 2)) : R (Option (Fin 2))) = .ok i := hi
  have hi2 : i = some (0 : Fin 2) := (Except.ok.inj hi').symm
  subst hi2
  constructor
  · refine ⟨_, hv, ?_⟩
    change (if (1 : Fin 2) = 0 then (1 : ℝ) else 0) = 0
    rw [if_neg (by decide)]
  · refine ⟨decide (path[0]? = some (1 : Fin 2) ∧ path[1]? = some (0 : Fin 2)), ?_⟩
    refine (hedge (1 : Fin 2) (0 : Fin 2) 0 _ (by omega)).2 ⟨?_, ?_, ?_⟩
    · change 0 < exNoisy.p (1 : Fin 2) (0 : Fin 2)
      refine lt_of_lt_of_eq ?_ (exNoisy_p 1 0).symm
      norm_num
    · intro _ j hj
      rw [← Option.some.inj hj]
      rfl
    · rw [decide_eq_true_iff]
      exact Iff.rfl

/-- C108 fails for a model whose symbols are determined by the states and that alternates between the
states: the symbols simulated from its first state cannot be decoded, so that the plot is never made. -/
theorem C108_always_fails {choice : Choice ℝ 2} (hch : Choice.Sound choice) {pr er : ℕ → ℝ} (start : Fin 2)
    (hpr : ∀ t, 0 < pr t ∧ pr t < 1) (her : ∀ t, 0 < er t ∧ er t < 1) (rnd : ℝ → ℝ) (standard : Bool) :
    exClockR.Valid ∧
    plotTrellis exClockR (show 0 < 2 by decide) (show 0 < 2 by decide) choice pr er start rnd standard
      (.int 2) (.str "a") = .error .valueError := by
  refine ⟨exClockR_valid, ?_⟩
  obtain ⟨h1, h2⟩ := C56_disagrees_with_simulation
  have h1' := h1 choice hch pr er start hpr her
  have hsym : trellisSymbols exClockR (show 0 < 2 by decide) (show 0 < 2 by decide) choice pr er start 2
      (some (0 : Fin 2)) = [(0 : Fin 2), 1, 0] := by
    unfold trellisSymbols
    have : hmmSimulate exClockR.p exClockR.e (show 0 < 2 by decide) (show 0 < 2 by decide) choice pr er 2
      (0 : Fin 2) none none = [((0 : Fin 2), (0 : Fin 2)), (1, 1), (0, 0)] := Except.ok.inj h1'
    change List.map Prod.snd (hmmSimulate exClockR.p exClockR.e _ _ choice pr er 2 (0 : Fin 2) none none) = _
    rw [this]
    rfl
  have hdec : hmmDecode exClockR.p exClockR.e (trellisStart (some (0 : Fin 2)))
      ([0, 1, 0] : List (Fin 2)) true = none := by
    refine (hmmDecode_none (P := exClockR.p) (E := exClockR.e)).2 ⟨0, Nat.succ_pos _, ?_⟩
    rw [if_pos rfl]
    refine lt_of_eq_of_lt ?_ (show (0 : ℝ) < 1 / 10 ^ 300 by positivity)
    refine (sum_alpha_likelihood exClockR.p exClockR.e _ _).symm.trans ?_
    change ∑ s : Fin 2, exClockR.e s (0 : Fin 2) *
      ∑ i : Fin 2, (if i = (0 : Fin 2) then (1 : ℝ) else 0) * exClockR.p i s = 0
    simp [Fin.sum_univ_two, exClockR_e, exClockR_p]
  have : plotTrellis exClockR (show 0 < 2 by decide) (show 0 < 2 by decide) choice pr er start rnd standard
      (.int 2) (.str "a") = trellisPair exClockR rnd standard (trellisStart (some (0 : Fin 2)))
        (trellisSymbols exClockR (show 0 < 2 by decide) (show 0 < 2 by decide) choice pr er start 2
          (some (0 : Fin 2))) := rfl
  rw [this, hsym]
  unfold trellisPair
  rw [hdec]
  rfl

/-- The draw of the first emission is read as the second symbol when it is greater than 9/10. -/
theorem exNoisy_pick {u : ℝ} (hu : 9 / 10 < u) (s : Fin 2) :
    pick (n := 2) (exNoisy.e s) u (by decide) = (1 : Fin 2) := by
  have h1 : cumulative (fun j : Fin 2 => exNoisy.e s j) 0 ≤ 9 / 10 := by
    unfold cumulative
    have h2 : (∑ i : Fin 2 with i.val ≤ 0, exNoisy.e s i) = exNoisy.e s (0 : Fin 2) := by
      rw [show (Finset.univ.filter fun i : Fin 2 => i.val ≤ 0) = {0} by decide]
      exact Finset.sum_singleton _ _
    have h3 : ∑ i : Fin 2, exNoisy.e s i = 1 := exNoisy_valid.2.2.2.1.2 s
    rw [h2, h3, exNoisy_e, div_one]
    split_ifs <;> norm_num
  apply Fin.ext
  have h4 : cumulative (fun j : Fin 2 => exNoisy.e s j) 0 < u := lt_of_le_of_lt h1 hu
  change (if cumulative (fun j : Fin 2 => exNoisy.e s j) 0 < u then 1 else _) = 1
  rw [if_pos h4]

theorem exNoisy_symbols {choice : Choice ℝ 2} {pr er : ℕ → ℝ} {ys : List (Fin 2)}
    (hc : choice 0 (exNoisy.e (0 : Fin 2)) = (0 : Fin 2)) (her : 9 / 10 < er 0)
    (hys : ys = trellisSymbols exNoisy (show 0 < 2 by decide) (show 0 < 2 by decide) choice pr er
      (0 : Fin 2) 2 none) : ∃ y, ys = [0, 1, y] := by
  have : ys = [choice 0 (exNoisy.e (0 : Fin 2)),
      pick (n := 2) (exNoisy.e (pick (n := 2) (exNoisy.p (0 : Fin 2)) (pr 0) (by decide))) (er 0)
        (by decide),
      pick (n := 2) (exNoisy.e (pick (n := 2) (exNoisy.p (pick (n := 2) (exNoisy.p (0 : Fin 2)) (pr 0)
        (by decide))) (pr 1) (by decide))) (er 1) (by decide)] := hys
  rw [hc, exNoisy_pick her] at this
  exact ⟨_, this⟩

/-- C108 fails for the numbers of the nodes. When the symbols `u` and `v` are simulated first, the
column with the header `v` shows a greater forward value for the state that emits `u`, because the
values of a column belong to the symbol before. -/
theorem C108_values_shifted {choice : Choice ℝ 2} {pr er : ℕ → ℝ}
    (hc : choice 0 (exNoisy.e (0 : Fin 2)) = (0 : Fin 2)) (her : 9 / 10 < er 0) {rnd : ℝ → ℝ} {δ : ℝ}
    (hr : ∀ x, |rnd x - x| ≤ δ) (standard : Bool) :
    exNoisy.Valid ∧ ∃ bw fw,
      plotTrellis exNoisy (show 0 < 2 by decide) (show 0 < 2 by decide) choice pr er (0 : Fin 2) rnd
        standard (.int 2) .none = .ok (bw, fw) ∧
      fw.headers[1]? = some (some (1 : Fin 2)) ∧
      exNoisy.e (0 : Fin 2) (1 : Fin 2) < exNoisy.e (1 : Fin 2) (1 : Fin 2) ∧
      ∃ v : Fin 2 → ℝ, fw.values[1]? = some v ∧ v 1 < v 0 := by
  refine ⟨exNoisy_valid, ?_⟩
  obtain ⟨⟨bw, fw⟩, h⟩ := exNoisy_plot choice pr er (0 : Fin 2) hr standard
    (Or.inl ⟨rfl, rfl⟩ : OptionalState .none ["a", "b"] (none : Option (Fin 2)))
  refine ⟨bw, fw, h, ?_⟩
  obtain ⟨s, i, ys, path, -, hs, hi, hys, -, -, hh, -, -, -, -, hvl, -, -, hv, -⟩ :=
    C108_trellis_partial exNoisy_valid _ _ hr h
  have hs' : s = 2 := by
    have : (2 : ℤ) = s := PyVal.int.inj hs
    omega
  subst hs'
  have hi' : (Except.ok (none : Option (Fin 2)) : R (Option (Fin 2))) = .ok i := hi
  have hi2 : i = (none : Option (Fin 2)) := (Except.ok.inj hi').symm
  subst hi2
  obtain ⟨y, hy⟩ := exNoisy_symbols hc her hys
  rw [hy] at hh hv
  refine ⟨by rw [hh]; rfl, ?_, ?_⟩
  · refine lt_of_eq_of_lt (exNoisy_e 0 1) (lt_of_lt_of_eq ?_ (exNoisy_e 1 1).symm)
    norm_num
  · obtain ⟨w, hw, hval⟩ := hv 0 (by omega)
    refine ⟨fw.values[1]'(by omega), List.getElem?_eq_getElem _, ?_⟩
    have hj : ∀ r : Fin 2, (fw.values[1]'(by omega)) r * w = 1 / 2 * exNoisy.e r (0 : Fin 2) := by
      intro r
      refine (hval r).trans ?_
      refine (alpha_eq_jointAt exNoisy.p exNoisy.e _ ([0, 1, y] : List (Fin 2)) 0
        (Nat.succ_pos _) r).symm.trans ?_
      change exNoisy.e r (0 : Fin 2) * ∑ i : Fin 2, (1 / ((2 : ℕ) : ℝ)) * exNoisy.p i r = _
      rw [Fin.sum_univ_two, exNoisy_p, exNoisy_p]
      push_cast
      ring
    have h0 := hj 0
    have h1 := hj 1
    rw [exNoisy_e, if_pos rfl] at h0
    rw [exNoisy_e, if_neg (by decide)] at h1
    by_contra hle
    have := mul_le_mul_of_nonneg_right (not_lt.1 hle) hw.le
    linarith

/-- The first draw of `C108_values_shifted` exists. -/
example : (cdfChoice (fun _ => 1 / 2) : Choice ℝ 2) 0 (fun j => exNoisy.e (0 : Fin 2) j) = (0 : Fin 2) := by
  unfold cdfChoice
  have h : (1 : ℝ) / 2 < ∑ i : Fin 2 with i ≤ 0, exNoisy.e (0 : Fin 2) i := by
    rw [show (Finset.univ.filter fun i : Fin 2 => i ≤ 0) = {0} by decide]
    refine lt_of_lt_of_eq ?_ ((Finset.sum_singleton _ _).trans (exNoisy_e 0 0)).symm
    norm_num
  have : (List.finRange 2).find? (fun j => decide ((1 : ℝ) / 2 <
      ∑ i : Fin 2 with i ≤ j, exNoisy.e (0 : Fin 2) i)) = some 0 := by
    change List.find? _ [(0 : Fin 2), 1] = _
    exact List.find?_cons_of_pos (by simpa using h)
  exact congrArg (fun o => o.getD (0 : Fin 2)) this

/-- The second state of this model is never left; the symbols are those of `exNoisy`. -/
noncomputable def exOneWay : HMM ℝ :=
  ⟨2, 2, !![1 / 2, 1 / 2; 0, 1], exNoisy.e, ["a", "b"], ["u", "v"]⟩

theorem exOneWay_p (i j : Fin 2) :
    exOneWay.p i j = if i = 0 then 1 / 2 else if j = 0 then 0 else 1 := by
  change (!![1 / 2, 1 / 2; 0, 1] : Matrix (Fin 2) (Fin 2) ℝ) i j = _
  fin_cases i <;> fin_cases j <;> simp

theorem exOneWay_valid : exOneWay.Valid := by
  refine ⟨le_rfl, le_rfl, ?_, exNoisy_valid.2.2.2.1, show ValidLabels 2 ["a", "b"] by decide,
    show ValidLabels 2 ["u", "v"] by decide, show List.Disjoint ["a", "b"] ["u", "v"] by
      rw [List.disjoint_left]; decide⟩
  have : IsStochastic (fun i j : Fin 2 => exOneWay.p i j) := by
    simp only [exOneWay_p]
    refine ⟨fun i j => by simp only; split_ifs <;> norm_num, fun i => ?_⟩
    fin_cases i <;> norm_num [Fin.sum_univ_two]
  exact this

/-- The most probable path when `u` and `v` are seen first is clearly better than the others. -/
theorem exOneWay_best (x a b c y : Fin 2) (h : ¬ (a = 0 ∧ b = 1 ∧ c = 1)) :
    2 * (exNoisy.e x (0 : Fin 2) * (1 / 2 * (exOneWay.p x a * (exOneWay.p a b * (exOneWay.p b c * 1))) *
      (exNoisy.e a (0 : Fin 2) * (exNoisy.e b (1 : Fin 2) * (exNoisy.e c y * 1))))) ≤
    exNoisy.e (0 : Fin 2) (0 : Fin 2) * (1 / 2 * (exOneWay.p (0 : Fin 2) (0 : Fin 2) *
      (exOneWay.p (0 : Fin 2) (1 : Fin 2) * (exOneWay.p (1 : Fin 2) (1 : Fin 2) * 1))) *
      (exNoisy.e (0 : Fin 2) (0 : Fin 2) * (exNoisy.e (1 : Fin 2) (1 : Fin 2) *
        (exNoisy.e (1 : Fin 2) y * 1)))) := by
  simp only [exOneWay_p, exNoisy_e]
  revert h
  fin_cases x <;> fin_cases a <;> fin_cases b <;> fin_cases c <;> fin_cases y <;>
    first
    | (intro h; exact absurd ⟨rfl, rfl, rfl⟩ h)
    | (intro _; norm_num)

theorem exp_half_lt : Real.exp (1 / 2) < 2 := by
  have h1 : Real.exp (1 / 2) * Real.exp (1 / 2) = Real.exp 1 := by rw [← Real.exp_add]; norm_num
  have h2 := Real.exp_one_lt_d9
  have h3 := Real.exp_pos (1 / 2)
  nlinarith

/-- The edges only depend on the signs of the probabilities. -/
theorem edgesStandard_congr {K' : Type} [Field K'] [LinearOrder K'] (b : Bool)
    {P : Matrix (Fin n) (Fin n) K} {Q : Matrix (Fin n) (Fin n) K'} (h : ∀ i j, 0 < P i j ↔ 0 < Q i j)
    {init : Fin n → K} {init' : Fin n → K'}
    (h0 : ∀ c, 0 < (List.ofFn init).getD c 0 ↔ 0 < (List.ofFn init').getD c 0) (f : ℕ)
    (path : List (Fin n)) : edgesStandard b P init f path = edgesStandard b Q init' f path := by
  have : trellisLoop P init f = trellisLoop Q init' f := by
    unfold trellisLoop
    simp only [h, h0]
  unfold edgesStandard
  rw [this]

theorem plotTrellis_backward {m : HMM ℝ} {hn : 0 < m.n} {hk : 0 < m.k} {choice : Choice ℝ m.k}
    {pr er : ℕ → ℝ} {start : Fin m.n} {rnd : ℝ → ℝ} {standard : Bool} {s : ℕ} {initialState : PyVal ℝ}
    {i : Option (Fin m.n)} (hi : optionalLabel initialState m.states m.n = .ok i)
    {ys : List (Fin m.k)} (hys : ys = trellisSymbols m hn hk choice pr er start s i)
    {v : WithBot ℝ} {path : List (Fin m.n)}
    (hp : hmmPredict rnd "mle" m.p m.e (trellisStart i) ys = some (v, path)) {bw fw : Trellis ℝ m.n m.k}
    (h : plotTrellis m hn hk choice pr er start rnd standard (.int s) initialState = .ok (bw, fw)) :
    bw.edges = if standard then edgesStandard false m.p (trellisStart i) ys.length path
      else edgesExtended false m.p (trellisStart i) ys.length path := by
  unfold plotTrellis at h
  rw [R.bind_ok] at h
  obtain ⟨z, hz, h⟩ := h
  rw [R.bind_ok] at h
  obtain ⟨i', hi', h⟩ := h
  obtain rfl := Except.ok.inj (hi.symm.trans hi')
  obtain ⟨hz0, hz1⟩ := validateInteger_ge hz
  obtain rfl := PyVal.int.inj hz0
  rw [Int.toNat_natCast, ← hys] at h
  unfold trellisPair at h
  cases hd : hmmDecode m.p m.e (trellisStart i) ys true with
  | none => rw [hd] at h; cases h
  | some d =>
    rw [hd, hp] at h
    have h' := Except.ok.inj h
    rw [Prod.mk.injEq] at h'
    rw [← h'.1]
    rfl

/-- C108 fails for the colours of the backward trellis in standard mode when a transition is possible
in one direction only: the most probable path is `a`, `b`, `b`, but its first edge is not drawn in the
colour of the path. -/
theorem C108_backward_colours {choice : Choice ℝ 2} {pr er : ℕ → ℝ}
    (hc : choice 0 (exNoisy.e (0 : Fin 2)) = (0 : Fin 2)) (her : 9 / 10 < er 0) {rnd : ℝ → ℝ}
    (hr : ∀ x, |rnd x - x| ≤ 1 / 12) :
    exOneWay.Valid ∧ ∃ bw fw,
      plotTrellis exOneWay (show 0 < 2 by decide) (show 0 < 2 by decide) choice pr er (0 : Fin 2) rnd
        true (.int 2) .none = .ok (bw, fw) ∧
      bw.highlighted = ([0, 1, 1] : List (Fin 2)) ∧
      ((0 * 3 + 0, 1 * 3 + 1), true) ∈ fw.edges ∧
      ((1 * 3 + 1, 0 * 3 + 0), true) ∉ bw.edges ∧ ((1 * 3 + 1, 0 * 3 + 0), false) ∈ bw.edges := by
  refine ⟨exOneWay_valid, ?_⟩
  obtain ⟨⟨bw, fw⟩, h⟩ := C108_accepts (m := exOneWay) exOneWay_valid (show 0 < 2 by decide)
    (show 0 < 2 by decide) choice pr er (0 : Fin 2) hr true (by
      intro i y
      refine le_trans (ten_pow_300.trans ?_) (exNoisy_e i y).ge
      split_ifs <;> norm_num) (s := 2) le_rfl (initialState := .none) (i := none) (Or.inl ⟨rfl, rfl⟩)
  refine ⟨bw, fw, h, ?_⟩
  obtain ⟨s, i, ys, path, -, hs, hi, hys, -, hpl, -, -, -, hb, ⟨v, hv⟩, -, -, -, -, -, -, hedge, -⟩ :=
    C108_trellis_partial exOneWay_valid _ _ hr h
  have hs' : s = 2 := by
    have : (2 : ℤ) = s := PyVal.int.inj hs
    omega
  subst hs'
  have hi' : (Except.ok (none : Option (Fin 2)) : R (Option (Fin 2))) = .ok i := hi
  have hi2 : i = (none : Option (Fin 2)) := (Except.ok.inj hi').symm
  subst hi2
  obtain ⟨y, hy⟩ : ∃ y : Fin 2, ys = ([0, 1, y] : List (Fin 2)) := by
    have : ys = ([choice 0 (exNoisy.e (0 : Fin 2)),
        pick (n := 2) (exNoisy.e (pick (n := 2) (exOneWay.p (0 : Fin 2)) (pr 0) (by decide))) (er 0)
          (by decide),
        pick (n := 2) (exNoisy.e (pick (n := 2) (exOneWay.p (pick (n := 2) (exOneWay.p (0 : Fin 2)) (pr 0)
          (by decide))) (pr 1) (by decide))) (er 1) (by decide)] : List (Fin 2)) := hys
    rw [hc, exNoisy_pick her] at this
    exact ⟨_, this⟩
  subst hy
  have hpath : path = ([0, 1, 1] : List (Fin 2)) := by
    have hv' : predictViterbi rnd exOneWay.p exOneWay.e (trellisStart none)
        ((0 : Fin 2) :: ([1, y] : List (Fin 2))) =
        some (v, path) := by
      unfold hmmPredict at hv
      rw [if_neg (by decide)] at hv
      exact hv
    obtain ⟨-, hsp⟩ := predictViterbi_spec (P := exOneWay.p) (E := exOneWay.e) exOneWay_valid.2.2.1.1
      exOneWay_valid.2.2.2.1.1 hr (trellisStart_nonneg (none : Option (Fin 2))) (show 0 < 2 by decide)
      (y := (0 : Fin 2)) (ys := ([1, y] : List (Fin 2))) rfl
    obtain ⟨_, x, -, -, hpos, -, hbest⟩ := hsp _ hv'
    obtain ⟨a, b, c, rfl⟩ := List.length_eq_three.1 hpl
    by_contra hne
    have hne' : ¬ (a = (0 : Fin 2) ∧ b = (1 : Fin 2) ∧ c = (1 : Fin 2)) := by
      rintro ⟨rfl, rfl, rfl⟩
      exact hne rfl
    have h1 := exOneWay_best x a b c y hne'
    have h2 := hbest (0 : Fin 2) ([0, 1, 1] : List (Fin 2)) rfl
    obtain ⟨W, hW⟩ : ∃ W : ℝ, W = exNoisy.e x (0 : Fin 2) * (1 / 2 * (exOneWay.p x a *
      (exOneWay.p a b * (exOneWay.p b c * 1))) *
      (exNoisy.e a (0 : Fin 2) * (exNoisy.e b (1 : Fin 2) * (exNoisy.e c y * 1)))) := ⟨_, rfl⟩
    have hhalf : (1 / ((2 : ℕ) : ℝ)) = 1 / 2 := by norm_num
    have hpos' : 0 < W := by
      rw [hW, ← hhalf]
      exact hpos
    have h2' : exNoisy.e (0 : Fin 2) (0 : Fin 2) * (1 / 2 * (exOneWay.p (0 : Fin 2) (0 : Fin 2) *
      (exOneWay.p (0 : Fin 2) (1 : Fin 2) * (exOneWay.p (1 : Fin 2) (1 : Fin 2) * 1))) *
      (exNoisy.e (0 : Fin 2) (0 : Fin 2) * (exNoisy.e (1 : Fin 2) (1 : Fin 2) *
        (exNoisy.e (1 : Fin 2) y * 1)))) ≤ Real.exp (2 * ((((2 : ℕ) : ℝ) + 1) * (1 / 12))) * W := by
      rw [hW, ← hhalf]
      exact h2
    rw [← hW] at h1
    rw [show (2 * ((((2 : ℕ) : ℝ) + 1) * (1 / 12)) : ℝ) = 1 / 2 by norm_num] at h2'
    have := mul_lt_mul_of_pos_right exp_half_lt hpos'
    linarith
  subst hpath
  have hbe : bw.edges = edgesStandard (n := 2) false (!![1 / 2, 1 / 2; 0, 1] : Matrix _ _ ℚ)
      (trellisStart none) 3 [0, 1, 1] := by
    refine (plotTrellis_backward (s := 2) hi hys hv h).trans ?_
    rw [if_pos rfl]
    refine edgesStandard_congr (n := 2) (P := exOneWay.p) (init := trellisStart none) false ?_ ?_ 3 _
    · intro i j
      refine (lt_iff_lt_of_le_iff_le (by rw [exOneWay_p])).trans ?_
      fin_cases i <;> fin_cases j <;> norm_num
    · intro c
      rcases c with _ | _ | c
      · change (0 : ℝ) < 1 / ((2 : ℕ) : ℝ) ↔ (0 : ℚ) < 1 / ((2 : ℕ) : ℚ)
        norm_num
      · change (0 : ℝ) < 1 / ((2 : ℕ) : ℝ) ↔ (0 : ℚ) < 1 / ((2 : ℕ) : ℚ)
        norm_num
      · change (0 : ℝ) < 0 ↔ (0 : ℚ) < 0
        norm_num
  refine ⟨hb, ?_, ?_, ?_⟩
  · refine (hedge (0 : Fin 2) (1 : Fin 2) 0 true (by omega)).2 ⟨?_, ?_, ?_⟩
    · change 0 < exOneWay.p (0 : Fin 2) (1 : Fin 2)
      refine lt_of_lt_of_eq ?_ (exOneWay_p 0 1).symm
      norm_num
    · intro _ j hj
      cases hj
    · exact ⟨fun _ => ⟨rfl, rfl⟩, fun _ => rfl⟩
  · rw [hbe]
    decide +kernel
  · rw [hbe]
    decide +kernel

end Verif
