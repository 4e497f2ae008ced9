import Verif.Model.Description
import Verif.Props.Ergodic
import Verif.Props.Monotone
import Verif.Props.Absorbing
import Verif.Props.Descriptors
import Verif.Props.Periods

/-!
# C128: descriptions
-/

set_option linter.unusedSectionVars false

namespace Verif

variable {K : Type} [Field K] [LinearOrder K] [IsStrictOrderedRing K]

/-- The lines of the description of a chain show what they name. -/
theorem C128_chain_lines (size rank classes recurrent transient period : ℕ)
    (erg ape irr abs mono reg rev sym : Bool) :
    ∀ s ∈ [" SIZE:           " ++ toString size, " RANK:           " ++ toString rank,
      " CLASSES:        " ++ toString classes, "  > RECURRENT:   " ++ toString recurrent,
      "  > TRANSIENT:   " ++ toString transient, " ERGODIC:        " ++ (if erg then "YES" else "NO"),
      "  > APERIODIC:   " ++ (if ape then "YES" else "NO (" ++ toString period ++ ")"),
      "  > IRREDUCIBLE: " ++ (if irr then "YES" else "NO"), " ABSORBING:      " ++ (if abs then "YES" else "NO"),
      " MONOTONE:       " ++ (if mono then "YES" else "NO"), " REGULAR:        " ++ (if reg then "YES" else "NO"),
      " REVERSIBLE:     " ++ (if rev then "YES" else "NO"), " SYMMETRIC:      " ++ (if sym then "YES" else "NO")],
      s ∈ chainLines size rank classes recurrent transient period erg ape irr abs mono reg rev sym := by
  have h : chainLines size rank classes recurrent transient period erg ape irr abs mono reg rev sym =
    "" :: "DISCRETE-TIME MARKOV CHAIN" :: ([" SIZE:           " ++ toString size,
      " RANK:           " ++ toString rank,
      " CLASSES:        " ++ toString classes, "  > RECURRENT:   " ++ toString recurrent,
      "  > TRANSIENT:   " ++ toString transient, " ERGODIC:        " ++ (if erg then "YES" else "NO"),
      "  > APERIODIC:   " ++ (if ape then "YES" else "NO (" ++ toString period ++ ")"),
      "  > IRREDUCIBLE: " ++ (if irr then "YES" else "NO"), " ABSORBING:      " ++ (if abs then "YES" else "NO"),
      " MONOTONE:       " ++ (if mono then "YES" else "NO"), " REGULAR:        " ++ (if reg then "YES" else "NO"),
      " REVERSIBLE:     " ++ (if rev then "YES" else "NO"),
      " SYMMETRIC:      " ++ (if sym then "YES" else "NO")] ++ [""]) := rfl
  rw [h]
  exact fun s hs => List.mem_cons_of_mem _ (List.mem_cons_of_mem _ (List.mem_append_left _ hs))

/-- The lines of the description of a hidden Markov model show what they name. -/
theorem C128_hidden_lines (n k : ℕ) (erg reg : Bool) :
    ∀ s ∈ [" STATES:  " ++ toString n, " SYMBOLS: " ++ toString k,
      " ERGODIC: " ++ (if erg then "YES" else "NO"), " REGULAR: " ++ (if reg then "YES" else "NO")],
      s ∈ hiddenLines n k erg reg := by
  have h : hiddenLines n k erg reg = "" :: "HIDDEN MARKOV MODEL" :: ([" STATES:  " ++ toString n,
      " SYMBOLS: " ++ toString k, " ERGODIC: " ++ (if erg then "YES" else "NO"),
      " REGULAR: " ++ (if reg then "YES" else "NO")] ++ [""]) := rfl
  rw [h]
  exact fun s hs => List.mem_cons_of_mem _ (List.mem_cons_of_mem _ (List.mem_append_left _ hs))

/-- The description of a chain gives the number of its states, the rank of its matrix, the number of its
communicating classes and how many of them are closed. The answers about ergodicity, irreducibility,
monotonicity and regularity are right. For irreducible chains the answer about aperiodicity is right and
the number beside it is the period. Absorbing, reversible and symmetric chains are called so, chains with
several stationary distributions are not called reversible; the converse of these answers is subject to
the tolerances (C29, C37, C89). -/
theorem C128_chain_partial {c : MC K} (hc : c.Valid) {nx : Nx c.n} (hx : nx.Sound c.p) :
    ∃ (r t : List (List (Fin c.n))) (g : ℕ) (erg ape irr abs mono reg rev sym : Bool),
      chainStr c nx c.p.rank = .ok ("\n".intercalate (chainLines c.n c.p.rank (r.length + t.length) r.length
        t.length g erg ape irr abs mono reg rev sym)) ∧
      IsClasses c.p (r ++ t) ∧ (∀ C ∈ r, ClosedSet c.p (· ∈ C)) ∧ (∀ C ∈ t, ¬ ClosedSet c.p (· ∈ C)) ∧
      (c.p.rank = c.n ↔ ∀ f : Fin c.n → K, (∀ i, ∑ j, c.p i j * f j = 0) → f = 0) ∧
      (erg = true ↔ Ergodic c.p) ∧ (reg = true ↔ Primitive c.p) ∧ erg = reg ∧
      (irr = true ↔ Irreducible c.p) ∧ (irr = true ↔ r.length + t.length = 1) ∧
      (Irreducible c.p → ∀ i, IsPeriodOf c.p i g ∧ (ape = true ↔ g = 1)) ∧
      (mono = true ↔ ∀ f : Fin c.n → K, Monotone f → Monotone fun i => ∑ j, c.p i j * f j) ∧
      ((∀ i, isclose (c.p i i) 1 = true → c.p i i = 1) → (abs = true ↔ AbsorbingChain c.p)) ∧
      (∀ x, IsStationary c.p x → (∀ y, IsStationary c.p y → y = x) → DetailedBalance c.p x → rev = true) ∧
      (∀ x y, IsStationary c.p x → IsStationary c.p y → x ≠ y → rev = false) ∧
      ((∀ i j, c.p i j = c.p j i) → sym = true) := by
  obtain ⟨hper, ⟨r, t, hr, ht, hcl, hr', ht', -, -⟩, -⟩ := C28_classes hc hx.sccs
  have hlen : (communicatingClasses c nx.sccs).length = r.length + t.length := by
    rw [← hper.length_eq, List.length_append, hr, ht, List.length_map, List.length_map]
  obtain ⟨h37, h37'⟩ := C37_reversible_partial hc hx.sccs
  obtain ⟨rev, hrev⟩ : ∃ b, isReversible c nx.sccs = .ok b := by
    rcases pi_cases hc hx.sccs with ⟨z, -, hst, huniq⟩ | ⟨xs, u, v, -, -, hu, hv, hne⟩
    · obtain ⟨b, hb, -⟩ := h37 z hst huniq
      exact ⟨b, hb⟩
    · exact ⟨false, h37' u v hu hv hne⟩
  have hirr := C30_irreducible hc hx.sccs
  refine ⟨r, t, period c nx, isErgodic c nx, isAperiodic c nx, isIrreducible c nx.sccs, isAbsorbing c,
    isMonotone c, isRegular c, rev, isSymmetric c, ?_, hcl, hr', ht', rank_eq_iff c.p, isErgodic_iff hc hx,
    C31_regular hc, ?_, hirr, ?_, ?_, (C36_monotone hc).1, fun h => (C29_is_absorbing_partial hc h).1, ?_, ?_,
    fun h => ((C89_symmetric_partial hc).1 h).1⟩
  · unfold chainStr
    rw [hrev, R.ok_bind, hlen, hr, ht, List.length_map, List.length_map]
    rfl
  · exact Bool.eq_iff_iff.2 (C88_ergodic_iff_regular hc hx)
  · unfold isIrreducible
    rw [hlen, beq_iff_eq]
  · intro h i
    obtain ⟨d, -, h1, -, h2, h3⟩ := C32_irreducible_partial hc hx h
    rw [h2]
    exact ⟨h1 i, h3⟩
  · intro x h1 h2 h3
    obtain ⟨b, hb, -, h4⟩ := h37 x h1 h2
    rw [hrev] at hb
    cases hb
    exact h4 h3
  · intro x y h1 h2 h3
    have := h37' x y h1 h2 h3
    rw [hrev] at this
    cases this
    rfl

/-- The description of a chain that enters a cycle of length two says that the chain is not aperiodic and
gives the period one. -/
theorem C128_period : exMismatch.Valid ∧ (exMismatchNx false).Sound exMismatch.p ∧
    IsPeriodOf exMismatch.p (0 : Fin 4) 2 ∧
    isAperiodic exMismatch (exMismatchNx false) = false ∧
    aperiodicLine (isAperiodic exMismatch (exMismatchNx false)) (period exMismatch (exMismatchNx false)) =
      "NO (1)" := by
  obtain ⟨h1, h2, -, h3, -⟩ := C32_period_reducible false
  exact ⟨h1, h2, h3, by decide +kernel, by decide +kernel⟩

/-- The description of a hidden Markov model gives the numbers of its states and symbols. It is called
ergodic iff after some number of steps every state and symbol is possible, and regular iff the columns of
the emission matrix are linearly independent. -/
theorem C128_hidden {m : HMM K} (hm : m.Valid) {nx : Nx m.n} (hx : nx.Sound m.p) :
    ∃ erg reg : Bool, hiddenStr m nx m.e.rank = "\n".intercalate (hiddenLines m.n m.k erg reg) ∧
      (erg = true ↔ ∃ k, 0 < k ∧ ∀ i j a, 0 < (m.p ^ k) i j * m.e j a) ∧
      (reg = true ↔ ∀ f : Fin m.k → K, (∀ i, ∑ a, m.e i a * f a = 0) → f = 0) :=
  ⟨_, _, rfl, C95_hidden_ergodic hm hx, (C95_hidden_regular m).1⟩

/-- The hypotheses of `C128_chain_partial` can be met, and the answers are not always the same. -/
example : exLoop.Valid ∧ (Nx.ofClasses (fun i j : Fin 2 => exLoop.p i j) [[0, 1]] true).Sound exLoop.p ∧
    isRegular exLoop = true ∧ isSymmetric exLoop = false ∧ isAbsorbing exLoop = false ∧
    yesNo true = "YES" ∧ yesNo false = "NO" := by
  refine ⟨by decide +kernel, Nx.ofClasses_sound true ?_, by decide +kernel, by decide +kernel,
    by decide +kernel, rfl, rfl⟩
  decide +kernel

end Verif
