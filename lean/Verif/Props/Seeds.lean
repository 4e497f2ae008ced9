import Verif.Model.Seeds
import Verif.Props.HiddenSimulation
import Verif.Props.SequencePlot
import Verif.Props.Simulation

/-!
# Seeds (C125)
-/

set_option linter.unusedSectionVars false

namespace Verif

variable {K : Type} [Field K] [LinearOrder K] [IsStrictOrderedRing K] {σ α β : Type}

theorem Prog.bind_lift_ok (x : α) (f : α → Prog σ β) (g : σ) : (Prog.lift (.ok x)).bind f g = f x g := rfl

theorem Prog.bind_lift_error (e : Err) (f : α → Prog σ β) (g : σ) :
    (Prog.lift (.error e : R α)).bind f g = (.error e, g) := rfl

theorem Prog.bind_draw (d : σ → α × σ) (f : α → Prog σ β) (g : σ) :
    (Prog.draw d).bind f g = f (d g).1 (d g).2 := rfl

/-! ## Histories of calls -/

/-- C125. The accepted seeds are `None` and the integers of 32 bits. -/
theorem C125_accepted (seed : PyVal K) (r : Option ℕ) : createRng seed = .ok r ↔
    (seed = .none ∧ r = none) ∨ ∃ s : ℕ, seed = .int s ∧ s < 2 ^ 32 ∧ r = some s := by
  constructor
  · intro h
    cases seed with
    | none => cases h; exact Or.inl ⟨rfl, rfl⟩
    | int z =>
      simp only [createRng] at h
      split at h
      · rename_i hz
        cases h
        refine Or.inr ⟨z.toNat, ?_, by omega, rfl⟩
        rw [Int.toNat_of_nonneg hz.1]
      · cases h
    | _ => cases h
  · rintro (⟨rfl, rfl⟩ | ⟨s, rfl, hs, rfl⟩)
    · rfl
    · simp only [createRng]
      rw [if_pos ⟨by omega, by exact_mod_cast hs⟩]
      rfl

theorem callSeeded_some {G : Rng σ K} {seed : PyVal K} {s : ℕ} (hs : createRng seed = .ok (some s))
    (p : Prog σ α) (g : σ) : callSeeded G seed p g = ((p (G.seeded s)).1, g) := by
  unfold callSeeded
  rw [hs]

theorem history_append (G : Rng σ K) (l1 l2 : List (PyVal K × Prog σ α)) (g : σ) :
    history G (l1 ++ l2) g =
      ((history G l1 g).1 ++ (history G l2 (history G l1 g).2).1, (history G l2 (history G l1 g).2).2) := by
  induction l1 generalizing g with
  | nil => rfl
  | cons x l1 ih =>
    simp only [List.cons_append, history, ih]

theorem history_length (G : Rng σ K) (l : List (PyVal K × Prog σ α)) (g : σ) :
    (history G l g).1.length = l.length := by
  induction l generalizing g with
  | nil => rfl
  | cons x l ih => simp only [history, List.length_cons, ih]

/-- C125. The result of a call with an accepted seed depends only on the call: it is the same in all
histories of calls, at every place and for every state of the shared generator, and it is the result of
the computation with the newly seeded generator. -/
theorem C125_seeded (G : Rng σ K) {seed : PyVal K} {s : ℕ} (hs : createRng seed = .ok (some s))
    (p : Prog σ α) (before after : List (PyVal K × Prog σ α)) (g : σ) :
    (history G (before ++ (seed, p) :: after) g).1[before.length]? = some (p (G.seeded s)).1 := by
  rw [history_append]
  simp only [history, callSeeded_some hs]
  rw [List.getElem?_append_right (by rw [history_length]), history_length, Nat.sub_self]
  rfl

/-- There is no seed. -/
def isUnseeded (x : PyVal K × Prog σ α) : Bool :=
  match x.1 with
  | .none => true
  | _ => false

theorem callSeeded_state {G : Rng σ K} {x : PyVal K × Prog σ α} (h : isUnseeded x = false) (g : σ) :
    (callSeeded G x.1 x.2 g).2 = g := by
  unfold callSeeded
  obtain ⟨v, p⟩ := x
  cases hv : createRng v with
  | error e => rfl
  | ok r =>
    rcases (C125_accepted v r).1 hv with ⟨rfl, rfl⟩ | ⟨s, -, -, rfl⟩
    · cases h
    · rfl

/-- C125. Calls with a seed, accepted or not, have no influence on the others: if they are removed from
the history, then the results of the calls without a seed and the state of the shared generator remain
the same. -/
theorem C125_unseeded (G : Rng σ K) (l : List (PyVal K × Prog σ α)) (g : σ) :
    ((l.zip (history G l g).1).filter fun x => isUnseeded x.1).map Prod.snd =
      (history G (l.filter isUnseeded) g).1 ∧
    (history G l g).2 = (history G (l.filter isUnseeded) g).2 := by
  induction l generalizing g with
  | nil => exact ⟨rfl, rfl⟩
  | cons x l ih =>
    by_cases hx : isUnseeded x = true
    · have h1 : (x :: l).filter isUnseeded = x :: l.filter isUnseeded := List.filter_cons_of_pos hx
      rw [h1]
      simp only [history]
      rw [List.zip_cons_cons, List.filter_cons_of_pos (by simpa using hx), List.map_cons,
        (ih _).1, (ih _).2]
      exact ⟨rfl, rfl⟩
    · have hx' : isUnseeded x = false := by simpa using hx
      have h1 : (x :: l).filter isUnseeded = l.filter isUnseeded := List.filter_cons_of_neg hx
      rw [h1]
      simp only [history, callSeeded_state hx']
      rw [List.zip_cons_cons, List.filter_cons_of_neg (by simpa using hx')]
      exact ih g

/-- C125. Calls without a seed share one generator: each of them starts in the state that the previous one left. -/
theorem C125_shared (G : Rng σ K) (before : List (PyVal K × Prog σ α)) (p q : Prog σ α) (g : σ) :
    history G [(.none, p), (.none, q)] g = ([(p g).1, (q (p g).2).1], (q (p g).2).2) ∧
    history G (before ++ [(.none, p), (.none, q)]) g =
      ((history G before g).1 ++ (history G [(.none, p), (.none, q)] (history G before g).2).1,
        (history G [(.none, p), (.none, q)] (history G before g).2).2) :=
  ⟨rfl, history_append G before _ g⟩

/-! ## The computations -/

/-- The contract of `choice`: an index of weight zero is never returned. -/
def Rng.Sound (G : Rng σ K) : Prop :=
  ∀ (n : ℕ) [NeZero n] (w : Fin n → K) (g : σ), IsDist w → 0 < w (G.choice n w g).1

variable {n : ℕ} [NeZero n]

/-- The states of the walk and of the generator after `t` draws. -/
def walkState (G : Rng σ K) (P : Matrix (Fin n) (Fin n) K) (i : Fin n) (g : σ) : ℕ → Fin n × σ
  | 0 => (i, g)
  | t + 1 =>
    let x := walkState G P i g t
    G.choice n (P x.1) x.2

theorem drawLoop_eq (G : Rng σ K) (P : Matrix (Fin n) (Fin n) K) (i : Fin n) (g : σ) (f : Option (Fin n))
    (k : ℕ) : ∀ t, (drawLoop G P f k (walkState G P i g t).1 (walkState G P i g t).2).1 =
      simulateLoop (fun t w => (G.choice n w (walkState G P i g t).2).1) P f k t (walkState G P i g t).1 := by
  induction k with
  | zero => exact fun _ => rfl
  | succ k ih =>
    intro t
    obtain ⟨x, hx⟩ : ∃ x, x = G.choice n (P (walkState G P i g t).1) (walkState G P i g t).2 := ⟨_, rfl⟩
    have hx' : walkState G P i g (t + 1) = x := hx.symm
    simp only [drawLoop, simulateLoop, ← hx]
    by_cases h : f = some x.1
    · rw [if_pos h, if_pos h]
    · rw [if_neg h, if_neg h]
      have := ih (t + 1)
      rw [hx'] at this
      exact congrArg (x.1 :: ·) this

theorem startState_eq (G : Rng σ K) (v : PyVal K) (labels : List String) (g : σ) :
    ∃ (start : Fin n) (g' : σ), startState G v labels n g =
      (optionalLabel v labels n >>= fun o => pure (o.getD start), g') := by
  by_cases hv : v = .none
  · subst hv
    exact ⟨_, _, rfl⟩
  · have h1 : startState G v labels n = .lift (validateLabel v labels >>= fun k => asState n k) := by
      cases v <;> first | rfl | exact absurd rfl hv
    have h2 : optionalLabel v labels n =
        validateLabel v labels >>= fun k => asState n k >>= fun i => pure (some i) := by
      cases v <;> first | rfl | exact absurd rfl hv
    refine ⟨0, g, ?_⟩
    rw [h1, h2]
    unfold Prog.lift
    cases validateLabel v labels with
    | error e => rfl
    | ok k =>
      change (asState n k, g) = ((asState n k >>= fun i => pure (some i)) >>= fun o => pure (o.getD 0), g)
      cases asState n k <;> rfl

theorem walkChoice_sound {G : Rng σ K} (hG : G.Sound) (gs : ℕ → σ) :
    Choice.Sound fun t (w : Fin n → K) => (G.choice n w (gs t)).1 := fun t w hw => hG n w (gs t) hw

/-- C125. `simulate` with a generator returns what `simulate` returns for some values of the generator,
possible ones if the generator is sound; so that the results about simulated runs apply. -/
theorem C125_simulate (G : Rng σ K) (c : MC K) [NeZero c.n]
    (steps initialState finalState outputIndices : PyVal K) (g : σ) :
    ∃ (choice : Choice K c.n) (start : Fin c.n), (G.Sound → choice.Sound) ∧
      (simulateProg G c steps initialState finalState outputIndices g).1 =
        simulate c choice start steps initialState finalState outputIndices := by
  obtain ⟨start, g', h1⟩ := startState_eq (n := c.n) G initialState c.states g
  cases hs : validateInteger steps (some (2, false)) none with
  | error e =>
    refine ⟨fun t w => (G.choice c.n w g).1, start, fun hG => walkChoice_sound hG _, ?_⟩
    unfold simulateProg simulate
    rw [hs]
    rfl
  | ok s =>
    cases hi : optionalLabel initialState c.states c.n with
    | error e =>
      refine ⟨fun t w => (G.choice c.n w g).1, start, fun hG => walkChoice_sound hG _, ?_⟩
      unfold simulateProg simulate
      rw [hs, hi, Prog.bind_lift_ok]
      unfold Prog.bind
      rw [h1, hi]
      rfl
    | ok i =>
      refine ⟨fun t w => (G.choice c.n w (walkState G c.p (i.getD start) g' t).2).1, start,
        fun hG => walkChoice_sound hG _, ?_⟩
      have h2 : ∀ f : Fin c.n → Prog σ Output, ((startState G initialState c.states c.n).bind f) g =
          f (i.getD start) g' := by
        intro f
        unfold Prog.bind
        rw [h1, hi]
        rfl
      unfold simulateProg simulate
      rw [hs, hi, Prog.bind_lift_ok, h2, R.ok_bind, R.ok_bind]
      cases hf : optionalLabel finalState c.states c.n with
      | error e => rfl
      | ok f =>
        rw [Prog.bind_lift_ok, R.ok_bind]
        cases hb : validateBoolean outputIndices with
        | error e => rfl
        | ok b =>
          rw [Prog.bind_lift_ok, R.ok_bind]
          have h3 := drawLoop_eq G c.p (i.getD start) g' f s.toNat 0
          exact congrArg (fun l => Except.ok (render c.states b (i.getD start :: l))) h3

/-- C125. `next` with a generator returns what `next` returns for some values of the generator. -/
theorem C125_next (G : Rng σ K) (c : MC K) [NeZero c.n] (initialState outputIndex : PyVal K) (g : σ) :
    ∃ choice : Choice K c.n, (G.Sound → choice.Sound) ∧
      (nextProg G c initialState outputIndex g).1 = next c choice initialState outputIndex := by
  refine ⟨fun _ w => (G.choice c.n w g).1, fun hG => walkChoice_sound hG _, ?_⟩
  unfold nextProg next
  cases hk : validateLabel initialState c.states with
  | error e => rfl
  | ok k =>
    rw [Prog.bind_lift_ok, R.ok_bind]
    cases hi : asState c.n k with
    | error e => rfl
    | ok i =>
      rw [Prog.bind_lift_ok, R.ok_bind]
      cases hb : validateBoolean outputIndex with
      | error e => rfl
      | ok b => rfl

/-- C125. The simulation of a hidden Markov model with a generator returns the states and the symbols of
a simulation for some values of the generator, as indices or as labels. -/
theorem C125_hidden_simulate (G : Rng σ K) (m : HMM K) (hn : 0 < m.n) (hk : 0 < m.k) [NeZero m.n] [NeZero m.k]
    (steps initialState finalState finalSymbol : PyVal K) (b : Bool) (g : σ) :
    ∃ (choice : Choice K m.k) (pr er : ℕ → K) (start : Fin m.n), (G.Sound → choice.Sound) ∧
      (hmmSimulateProg G m hn hk steps initialState finalState finalSymbol (.bool b) g).1 =
        (m.simulate hn hk choice pr er start steps initialState finalState finalSymbol >>= fun l =>
          pure (render m.states b (l.map Prod.fst), render m.symbols b (l.map Prod.snd))) := by
  obtain ⟨start, g', h1⟩ := startState_eq (n := m.n) G initialState m.states g
  cases hs : validateInteger steps (some (2, false)) none with
  | error e =>
    refine ⟨fun t w => (G.choice m.k w g).1, fun _ => 0, fun _ => 0, start,
      fun hG => walkChoice_sound hG _, ?_⟩
    unfold hmmSimulateProg HMM.simulate
    rw [hs]
    rfl
  | ok s =>
    cases hi : optionalLabel initialState m.states m.n with
    | error e =>
      refine ⟨fun t w => (G.choice m.k w g).1, fun _ => 0, fun _ => 0, start,
        fun hG => walkChoice_sound hG _, ?_⟩
      unfold hmmSimulateProg HMM.simulate
      rw [hs, hi, Prog.bind_lift_ok]
      unfold Prog.bind
      rw [h1, hi]
      rfl
    | ok i =>
      have h2 : ∀ f : Fin m.n → Prog σ (Output × Output),
          ((startState G initialState m.states m.n).bind f) g = f (i.getD start) g' := by
        intro f
        unfold Prog.bind
        rw [h1, hi]
        rfl
      refine ⟨fun t w => (G.choice m.k w g').1, (G.random s.toNat (G.choice m.k (m.e (i.getD start)) g').2).1,
        (G.random s.toNat (G.random s.toNat (G.choice m.k (m.e (i.getD start)) g').2).2).1, start,
        fun hG => walkChoice_sound hG _, ?_⟩
      unfold hmmSimulateProg HMM.simulate
      rw [hs, hi, Prog.bind_lift_ok, h2, R.ok_bind, R.ok_bind]
      cases hf : optionalLabel finalState m.states m.n with
      | error e => rfl
      | ok f =>
        rw [Prog.bind_lift_ok, R.ok_bind]
        cases hq : optionalLabel finalSymbol m.symbols m.k with
        | error e => rfl
        | ok q => rfl

/-- C125. One step of a hidden Markov model with a generator, for each target. -/
theorem C125_hidden_next (G : Rng σ K) (m : HMM K) (hn : 0 < m.n) (hk : 0 < m.k) [NeZero m.k]
    (initialState : PyVal K) (b : Bool) (g : σ) {t : String} (ht : t ∈ ["both", "state", "symbol"]) :
    ∃ (choice : Choice K m.k) (pr er : ℕ → K), (G.Sound → choice.Sound) ∧
      (hmmNextProg G m hn hk initialState (.str t) (.bool b) g).1 =
        (m.next hn hk choice pr er initialState >>= fun o =>
          let s := render m.states b (o.map Prod.fst).toList
          let y := render m.symbols b (o.map Prod.snd).toList
          pure (if t = "state" then .state s else if t = "symbol" then .symbol y else .both s y)) := by
  have hv : validateEnumerator (.str t : PyVal K) ["both", "state", "symbol"] = .ok t := by
    unfold validateEnumerator
    simp only
    have : nonBlank t = true := by
      simp only [List.mem_cons, List.not_mem_nil, or_false] at ht
      rcases ht with rfl | rfl | rfl <;> decide +kernel
    rw [if_neg (by simp [this]), if_neg (not_not.2 ht)]
    rfl
  cases hi : validateLabel initialState m.states with
  | error e =>
    refine ⟨fun _ w => (G.choice m.k w g).1, fun _ => 0, fun _ => 0, fun hG => walkChoice_sound hG _, ?_⟩
    unfold hmmNextProg HMM.next
    rw [hv, hi]
    rfl
  | ok k =>
    cases hj : asState m.n k with
    | error e =>
      refine ⟨fun _ w => (G.choice m.k w g).1, fun _ => 0, fun _ => 0, fun hG => walkChoice_sound hG _, ?_⟩
      unfold hmmNextProg HMM.next
      rw [hv, hi, Prog.bind_lift_ok, Prog.bind_lift_ok, R.ok_bind, hj]
      rfl
    | ok i =>
      refine ⟨fun _ w => (G.choice m.k w g).1, (G.random 1 (G.choice m.k (m.e i) g).2).1,
        (G.random 1 (G.random 1 (G.choice m.k (m.e i) g).2).2).1, fun hG => walkChoice_sound hG _, ?_⟩
      unfold hmmNextProg HMM.next
      rw [hv, hi, Prog.bind_lift_ok, Prog.bind_lift_ok, R.ok_bind, hj, Prog.bind_lift_ok, R.ok_bind]
      rfl

/-- C125. With a sound generator, every accepted call of `simulate` with a seed returns a possible run of
the chain that depends only on the arguments, and leaves the shared generator alone. -/
theorem C125_reproducible {G : Rng σ K} (hG : G.Sound) {c : MC K} (hc : c.Valid) [NeZero c.n]
    {steps initialState finalState seed : PyVal K} {z s : ℕ} {i f : Option (Fin c.n)}
    (hz : createRng seed = .ok (some z))
    (hs : validateInteger steps (some (2, false)) none = .ok (s : ℤ))
    (hi : OptionalState initialState c.states i) (hf : OptionalState finalState c.states f) :
    ∃ (start : Fin c.n) (w : List (Fin c.n)), IsRun c.p s (i.getD start) f w ∧
      ∀ g, simulateSeeded G c steps initialState finalState (.bool true) seed g =
        (.ok (.indices (w.map Fin.val)), g) := by
  obtain ⟨choice, start, h1, h2⟩ := C125_simulate G c steps initialState finalState (.bool true) (G.seeded z)
  obtain ⟨-, w, h3, h4, -⟩ := C53_simulate hc (h1 hG) start hs hi hf
  refine ⟨start, w, h3, fun g => ?_⟩
  unfold simulateSeeded
  rw [callSeeded_some hz, h2, h4]

/-- C125. The same for one step: the result of `next` with a seed is a state that the chain can move to,
which depends only on the arguments. -/
theorem C125_next_reproducible {G : Rng σ K} (hG : G.Sound) {c : MC K} [NeZero c.n]
    (initialState outputIndex : PyVal K) {seed : PyVal K} {z : ℕ} (hz : createRng seed = .ok (some z)) :
    ∃ choice : Choice K c.n, choice.Sound ∧ ∀ g,
      nextSeeded G c initialState outputIndex seed g = (next c choice initialState outputIndex, g) := by
  obtain ⟨choice, h1, h2⟩ := C125_next G c initialState outputIndex (G.seeded z)
  refine ⟨choice, h1 hG, fun g => ?_⟩
  unfold nextSeeded
  rw [callSeeded_some hz, h2]

/-- C125. The same for hidden Markov models: the results of `simulate` and `next` with a seed are those of
the methods for values of the generator that depend only on the arguments. -/
theorem C125_hidden_reproducible {G : Rng σ K} (hG : G.Sound) (m : HMM K) (hn : 0 < m.n) (hk : 0 < m.k)
    [NeZero m.n] [NeZero m.k] (steps initialState finalState finalSymbol : PyVal K) (b : Bool)
    {seed : PyVal K} {z : ℕ} (hz : createRng seed = .ok (some z)) :
    (∃ (choice : Choice K m.k) (pr er : ℕ → K) (start : Fin m.n), choice.Sound ∧ ∀ g,
      hmmSimulateSeeded G m hn hk steps initialState finalState finalSymbol (.bool b) seed g =
        (m.simulate hn hk choice pr er start steps initialState finalState finalSymbol >>= fun l =>
          pure (render m.states b (l.map Prod.fst), render m.symbols b (l.map Prod.snd)), g)) ∧
    ∀ t ∈ ["both", "state", "symbol"], ∃ (choice : Choice K m.k) (pr er : ℕ → K), choice.Sound ∧ ∀ g,
      hmmNextSeeded G m hn hk initialState (.str t) (.bool b) seed g =
        (m.next hn hk choice pr er initialState >>= fun o =>
          let s := render m.states b (o.map Prod.fst).toList
          let y := render m.symbols b (o.map Prod.snd).toList
          pure (if t = "state" then .state s else if t = "symbol" then .symbol y else .both s y), g) := by
  constructor
  · obtain ⟨choice, pr, er, start, h1, h2⟩ :=
      C125_hidden_simulate G m hn hk steps initialState finalState finalSymbol b (G.seeded z)
    refine ⟨choice, pr, er, start, h1 hG, fun g => ?_⟩
    unfold hmmSimulateSeeded
    rw [callSeeded_some hz, h2]
  · intro t ht
    obtain ⟨choice, pr, er, h1, h2⟩ := C125_hidden_next G m hn hk initialState b (G.seeded z) ht
    refine ⟨choice, pr, er, h1 hG, fun g => ?_⟩
    unfold hmmNextSeeded
    rw [callSeeded_some hz, h2]

/-! ## A concrete generator -/

/-- A linear congruential generator whose numbers are `0`, `1/8`, …, `7/8`. -/
def exRng : Rng ℕ ℚ where
  seeded s := s % 8
  randint n _ g := (⟨g % n, Nat.mod_lt _ (Nat.pos_of_ne_zero (NeZero.ne n))⟩, (5 * g + 3) % 8)
  choice _ _ w g := (cdfChoice (fun _ => ((g % 8 : ℕ) : ℚ) / 8) 0 w, (5 * g + 3) % 8)
  random _ g := (fun t => (((g + 3 * t) % 8 : ℕ) : ℚ) / 8, (5 * g + 3) % 8)

theorem exRng_sound : exRng.Sound := by
  intro n _ w g hw
  refine cdfChoice_sound (u := fun _ => ((g % 8 : ℕ) : ℚ) / 8) (fun _ => ⟨by positivity, ?_⟩) 0 w hw
  rw [div_lt_one (by norm_num)]
  exact_mod_cast Nat.mod_lt g (by norm_num)

instance : NeZero exLoop.n := inferInstanceAs (NeZero 2)

/-- Different seeds give different runs, and the same seed gives the same run in two states of the shared
generator. -/
example : createRng (.int 5 : PyVal ℚ) = .ok (some 5) ∧ createRng (.int (-1) : PyVal ℚ) = .error .valueError ∧
    createRng (.bool true : PyVal ℚ) = .error .typeError ∧
    (simulateSeeded exRng exLoop (.int 4) .none .none (.bool true) (.int 5) 0).1.toOption =
      (simulateSeeded exRng exLoop (.int 4) .none .none (.bool true) (.int 5) 7).1.toOption ∧
    (simulateSeeded exRng exLoop (.int 4) .none .none (.bool true) (.int 5) 0).1.toOption ≠
      (simulateSeeded exRng exLoop (.int 4) .none .none (.bool true) (.int 1) 0).1.toOption ∧
    (simulateSeeded exRng exLoop (.int 4) .none .none (.bool true) (.int 5) 0).1.toOption.isSome := by
  refine ⟨rfl, rfl, rfl, ?_, ?_, ?_⟩ <;> decide +kernel

/-- A rejected call without a seed can move the shared generator: the initial state is drawn before the
final state is validated. -/
theorem C125_rejected_call_draws :
    (simulateSeeded exRng exLoop (.int 4) .none (.str "unknown") (.bool true) .none 0).1.toOption = none ∧
    (simulateSeeded exRng exLoop (.int 4) .none (.str "unknown") (.bool true) .none 0).2 ≠ 0 := by
  decide +kernel

end Verif
