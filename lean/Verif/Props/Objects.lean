import Verif.Model.Objects
import Verif.Lemmas.Validation

/-!
# Properties C67, C68, C69 and C81: attributes, aliases, equality and stored results
-/

set_option linter.unusedSectionVars false

namespace Verif

/-! ## C67 -/

section Attributes

variable {V : Type} {kind : String → Descriptor} {compute : String → Option V}

/-- What a read of a property gives that is not touched by anyone. -/
def readOutcome (r : Option V) : AttrOutcome V :=
  match r with
  | some v => .value v
  | none => .error

/-- C67. Assigning or deleting a property, cached or not, raises and changes nothing. -/
theorem C67_write_raises {name : String} (h : kind name ≠ .absent) (d : String → Option V) (v : V) :
    attrStep kind compute d (.set name v) = (.error, d) ∧
      attrStep kind compute d (.delete name) = (.error, d) := by
  unfold attrStep
  cases e : kind name with
  | absent => exact absurd e h
  | cached => simp [e]
  | plain => simp [e]

/-- The dictionary stores only computed values under the names of cached properties. -/
def Faithful (kind : String → Descriptor) (compute : String → Option V) (d : String → Option V) : Prop :=
  ∀ name v, kind name = .cached → d name = some v → compute name = some v

theorem dictPut_faithful {d : String → Option V} (h : Faithful kind compute d) {name : String}
    {v : Option V} (hv : kind name = .cached → ∀ w, v = some w → compute name = some w) :
    Faithful kind compute (dictPut d name v) := by
  intro x w hx hw
  unfold dictPut at hw
  by_cases e : x = name
  · rw [if_pos e] at hw
    subst e
    exact hv hx w hw
  · rw [if_neg e] at hw
    exact h x w hx hw

theorem attrStep_faithful {d : String → Option V} (h : Faithful kind compute d) (op : AttrOp V) :
    Faithful kind compute (attrStep kind compute d op).2 := by
  cases op with
  | get name =>
    unfold attrStep
    cases e : kind name with
    | cached =>
      cases hd : d name with
      | some v => simpa [e, hd] using h
      | none =>
        cases hc : compute name with
        | none => simpa [e, hd, hc] using h
        | some v =>
          have := dictPut_faithful h (name := name) (v := some v) fun _ w hw => hw ▸ hc
          simpa [e, hd, hc] using this
    | plain =>
      cases hc : compute name <;> simpa [e, hc] using h
    | absent =>
      cases hd : d name <;> simpa [e, hd] using h
  | set name v =>
    unfold attrStep
    cases e : kind name with
    | cached => simpa [e] using h
    | plain => simpa [e] using h
    | absent =>
      have := dictPut_faithful h (name := name) (v := some v) fun hk => absurd (e ▸ hk) (by decide)
      simpa [e] using this
  | delete name =>
    unfold attrStep
    cases e : kind name with
    | cached => simpa [e] using h
    | plain => simpa [e] using h
    | absent =>
      have := dictPut_faithful h (name := name) (v := none) fun hk => absurd (e ▸ hk) (by decide)
      cases hd : d name with
      | none => simpa [e, hd] using h
      | some w => simpa [e, hd] using this

theorem attrStep_get {d : String → Option V} (h : Faithful kind compute d) {name : String}
    (hk : kind name ≠ .absent) : (attrStep kind compute d (.get name)).1 = readOutcome (compute name) := by
  unfold attrStep readOutcome
  cases e : kind name with
  | absent => exact absurd e hk
  | plain => cases hc : compute name <;> simp [e, hc]
  | cached =>
    cases hd : d name with
    | none => cases hc : compute name <;> simp [e, hd, hc]
    | some v => simp [e, hd, h name v e hd]

/-- C67. Whatever reads, assignments and deletions come before, a read of a property of a new instance
gives the computed value; assignments and deletions of properties raise. -/
theorem C67_history (ops : List (AttrOp V)) (x : AttrOp V × AttrOutcome V)
    (hx : x ∈ attrRun kind compute (fun _ => none) ops) (name : String) (hk : kind name ≠ .absent) :
    (x.1 = .get name → x.2 = readOutcome (compute name)) ∧
      (∀ v, x.1 = .set name v → x.2 = .error) ∧ (x.1 = .delete name → x.2 = .error) := by
  have main : ∀ (ops : List (AttrOp V)) (d : String → Option V), Faithful kind compute d →
      x ∈ attrRun kind compute d ops → (x.1 = .get name → x.2 = readOutcome (compute name)) ∧
        (∀ v, x.1 = .set name v → x.2 = .error) ∧ (x.1 = .delete name → x.2 = .error) := by
    intro ops
    induction ops with
    | nil =>
      intro d _ hx
      cases hx
    | cons op ops ih =>
      intro d hd hx
      rcases List.mem_cons.1 hx with rfl | hx
      · refine ⟨?_, ?_, ?_⟩
        · rintro rfl
          exact attrStep_get hd hk
        · rintro v rfl
          exact congrArg Prod.fst (C67_write_raises hk d v).1
        · rintro rfl
          unfold attrStep
          cases e : kind name with
          | absent => exact absurd e hk
          | cached => simp [e]
          | plain => simp [e]
      · exact ih _ (attrStep_faithful hd op) hx
  exact main ops _ (fun _ _ _ h => by cases h) hx

/-- Assigning to a cached property raises, and a later read gives the computed value. -/
example : (attrRun (fun n => if n = "pi" then .cached else .absent) (fun n => if n = "pi" then some 7 else none)
    (fun _ => none) [.set "pi" 3, .set "other" 4, .get "pi", .delete "pi", .get "pi", .get "other"]).map Prod.snd =
    [.error, .done, .value (7 : ℕ), .error, .value 7, .value 4] := by decide +kernel

end Attributes

/-! ## C68 -/

section Aliases

variable {F : Type}

/-- A digit or a lower case letter. -/
def AliasChar (c : Char) : Prop := c.isDigit = true ∨ c.isLower = true

/-- Words of digits and lower case letters, the first starting with a letter, with an underscore
between two words. -/
def AliasWords (l : List Char) : Prop :=
  ∃ (c : Char) (w : List Char) (ws : List (List Char)), c.isLower = true ∧ (∀ x ∈ w, AliasChar x) ∧
    (∀ u ∈ ws, u ≠ [] ∧ ∀ x ∈ u, AliasChar x) ∧ l = c :: (w ++ (ws.map fun u => '_' :: u).flatten)

theorem aliasTail_iff (fresh : Bool) (l : List Char) : aliasTail fresh l = true ↔
    ∃ (w : List Char) (ws : List (List Char)), (fresh = true → w ≠ []) ∧ (∀ x ∈ w, AliasChar x) ∧
      (∀ u ∈ ws, u ≠ [] ∧ ∀ x ∈ u, AliasChar x) ∧ l = w ++ (ws.map fun u => '_' :: u).flatten := by
  induction l generalizing fresh with
  | nil =>
    constructor
    · intro h
      refine ⟨[], [], fun hf => ?_, by simp, by simp, rfl⟩
      subst hf
      cases h
    · rintro ⟨w, ws, h1, -, -, h4⟩
      have hw : w = [] := (List.append_eq_nil_iff.1 h4.symm).1
      cases fresh with
      | false => rfl
      | true => exact absurd hw (h1 rfl)
  | cons c cs ih =>
    unfold aliasTail
    constructor
    · intro h
      split at h
      · rename_i hc
        obtain ⟨w, ws, -, h2, h3, h4⟩ := (ih false).1 h
        refine ⟨c :: w, ws, fun _ => List.cons_ne_nil _ _, ?_, h3, by rw [h4]; rfl⟩
        intro x hx
        rcases List.mem_cons.1 hx with rfl | hx
        · rwa [Bool.or_eq_true] at hc
        · exact h2 x hx
      · split at h
        · rename_i hc
          subst hc
          rw [Bool.and_eq_true] at h
          obtain ⟨w, ws, h1, h2, h3, h4⟩ := (ih true).1 h.2
          refine ⟨[], w :: ws, fun hf => ?_, by simp, ?_, by rw [h4]; rfl⟩
          · rw [hf] at h
            cases h.1
          · intro u hu
            rcases List.mem_cons.1 hu with rfl | hu
            · exact ⟨h1 rfl, h2⟩
            · exact h3 u hu
        · cases h
    · rintro ⟨w, ws, h1, h2, h3, h4⟩
      cases w with
      | cons x w =>
        rw [List.cons_append] at h4
        injection h4 with h5 h6
        subst h5
        rw [if_pos (by rw [Bool.or_eq_true]; exact h2 c List.mem_cons_self)]
        exact (ih false).2 ⟨w, ws, (fun h => by cases h), fun y hy => h2 y (List.mem_cons_of_mem _ hy), h3, h6⟩
      | nil =>
        cases ws with
        | nil => cases h4
        | cons u ws =>
          rw [List.map_cons, List.flatten_cons, List.nil_append, List.cons_append] at h4
          injection h4 with h5 h6
          subst h5
          have hf : fresh = false := by
            cases fresh with
            | false => rfl
            | true => exact absurd rfl (h1 rfl)
          subst hf
          rw [if_neg (by decide), if_pos rfl, Bool.not_false, Bool.true_and]
          exact (ih true).2 ⟨u, ws, fun _ => (h3 u List.mem_cons_self).1, (h3 u List.mem_cons_self).2,
            fun v hv => h3 v (List.mem_cons_of_mem _ hv), h6⟩

theorem AliasWords.no_line_feed {l : List Char} (h : AliasWords l) : '\n' ∉ l := by
  obtain ⟨c, w, ws, h1, h2, h3, rfl⟩ := h
  have key : ∀ x, AliasChar x → x ≠ '\n' := by
    rintro x hx rfl
    revert hx
    unfold AliasChar
    decide
  intro hm
  rcases List.mem_cons.1 hm with hm | hm
  · exact key c (Or.inr h1) hm.symm
  · rcases List.mem_append.1 hm with hm | hm
    · exact key _ (h2 _ hm) rfl
    · obtain ⟨u, hu, hm⟩ := List.mem_flatten.1 hm
      obtain ⟨v, hv, rfl⟩ := List.mem_map.1 hu
      rcases List.mem_cons.1 hm with hm | hm
      · exact absurd hm (by decide)
      · exact key _ ((h3 v hv).2 _ hm) rfl

theorem AliasWords_iff (l : List Char) : AliasWords l ↔
    (match l with | [] => false | c :: cs => c.isLower && aliasTail false cs) = true := by
  cases l with
  | nil =>
    refine ⟨?_, fun h => by cases h⟩
    rintro ⟨c, w, ws, -, -, -, h⟩
    cases h
  | cons c cs =>
    change _ ↔ (c.isLower && aliasTail false cs) = true
    rw [Bool.and_eq_true, aliasTail_iff]
    constructor
    · rintro ⟨c', w, ws, h1, h2, h3, h4⟩
      injection h4 with h5 h6
      subst h5
      exact ⟨h1, w, ws, (fun h => by cases h), h2, h3, h6⟩
    · rintro ⟨h1, w, ws, -, h2, h3, h4⟩
      exact ⟨c, w, ws, h1, h2, h3, by rw [h4]⟩

/-- C68, the names. An alias is accepted exactly if it consists of words of digits and lower case
letters, starts with a letter and has one underscore between two words; a line feed may follow. -/
theorem C68_pattern (a : String) : aliasName a = true ↔
    ∃ l, AliasWords l ∧ (a.toList = l ∨ a.toList = l ++ ['\n']) := by
  refine (AliasWords_iff (if a.toList.getLast? = some '\n' then a.toList.dropLast else a.toList)).symm.trans ?_
  constructor
  · intro h
    split at h
    · rename_i hl
      refine ⟨_, h, Or.inr ?_⟩
      exact (List.dropLast_append_getLast? _ hl).symm
    · exact ⟨_, h, Or.inl rfl⟩
  · rintro ⟨l, hl, h | h⟩
    · rw [h, if_neg fun hg => hl.no_line_feed (List.mem_of_getLast? hg)]
      exact hl
    · rw [h, List.getLast?_append_cons, List.getLast?_singleton, if_pos rfl, List.dropLast_concat]
      exact hl

/-- C68. The declarations that are accepted: all aliases differ, follow the naming convention and differ
from the names of the members of the class. -/
theorem C68_accepted (members : List (String × Member F)) :
    (∃ c, aliased members = .ok c) ↔ (flatAliases members).Nodup ∧
      (∀ a ∈ flatAliases members, aliasName a = true) ∧
      ∀ a ∈ flatAliases members, a ∉ members.map Prod.fst := by
  unfold aliased
  constructor
  · rintro ⟨c, h⟩
    obtain ⟨h1, h⟩ := (R.ite_throw _ _ _ _).1 h
    obtain ⟨h2, h⟩ := (R.ite_throw _ _ _ _).1 h
    obtain ⟨h3, -⟩ := (R.ite_throw _ _ _ _).1 h
    rw [not_not] at h1 h2
    refine ⟨h1, List.all_eq_true.1 h2, fun a ha hm => h3 ?_⟩
    exact List.any_eq_true.2 ⟨a, ha, decide_eq_true hm⟩
  · rintro ⟨h1, h2, h3⟩
    refine ⟨_, (R.ite_throw _ _ _ _).2 ⟨not_not.2 h1, (R.ite_throw _ _ _ _).2 ⟨not_not.2 (List.all_eq_true.2 h2),
      (R.ite_throw _ _ _ _).2 ⟨?_, rfl⟩⟩⟩⟩
    intro h
    obtain ⟨a, ha, hm⟩ := List.any_eq_true.1 h
    exact h3 a ha (of_decide_eq_true hm)

theorem lookup_none {α : Type} {l : List (String × α)} {a : String} (h : a ∉ l.map Prod.fst) :
    l.lookup a = none := by
  induction l with
  | nil => rfl
  | cons x l ih =>
    obtain ⟨k, b⟩ := x
    rw [List.map_cons, List.mem_cons, not_or] at h
    rw [List.lookup_cons, beq_false_of_ne h.1]
    exact ih h.2

theorem lookup_some {α : Type} {l : List (String × α)} (hl : (l.map Prod.fst).Nodup) {a : String} {b : α}
    (h : (a, b) ∈ l) : l.lookup a = some b := by
  induction l with
  | nil => cases h
  | cons x l ih =>
    obtain ⟨k, c⟩ := x
    rw [List.map_cons, List.nodup_cons] at hl
    rw [List.lookup_cons]
    rcases List.mem_cons.1 h with e | h'
    · injection e with e1 e2
      subst e1 e2
      rw [beq_self_eq_true]
    · have : a ≠ k := by
        rintro rfl
        exact hl.1 (List.mem_map.2 ⟨_, h', rfl⟩)
      rw [beq_false_of_ne this]
      exact ih hl.2 h'

theorem lookup_append {α : Type} (l l' : List (String × α)) (a : String) :
    (l ++ l').lookup a = (l.lookup a).or (l'.lookup a) := by
  induction l with
  | nil => rfl
  | cons x l ih =>
    obtain ⟨k, c⟩ := x
    rw [List.cons_append, List.lookup_cons, List.lookup_cons]
    cases a == k
    · exact ih
    · rfl

/-- C68. In an accepted class every member is still found under its name, and every alias leads to the
member behind the one it stands for. -/
theorem C68_lookup {members : List (String × Member F)} (hm : (members.map Prod.fst).Nodup)
    {c : List (String × Member F)} (h : aliased members = .ok c) (base : List (String × Member F)) :
    (∀ x ∈ members, classLookup c base x.1 = some x.2) ∧
      ∀ x ∈ members, ∀ a ∈ x.2.aliases.getD [], classLookup c base a = some (aliasMember x.2) := by
  obtain ⟨h1, h2, h3⟩ := (C68_accepted members).1 ⟨c, h⟩
  unfold aliased at h
  obtain ⟨-, h⟩ := (R.ite_throw _ _ _ _).1 h
  obtain ⟨-, h⟩ := (R.ite_throw _ _ _ _).1 h
  obtain ⟨-, h⟩ := (R.ite_throw _ _ _ _).1 h
  injection h with h
  subst h
  unfold classLookup
  constructor
  · intro x hx
    rw [lookup_append, lookup_some hm (b := x.2) hx]
    rfl
  · intro x hx a ha
    have hf : a ∈ flatAliases members := List.mem_flatMap.2 ⟨x, hx, ha⟩
    have e : (members.flatMap fun m => (m.2.aliases.getD []).map fun a => (a, aliasMember m.2)).lookup a =
        some (aliasMember x.2) := by
      refine lookup_some ?_ (List.mem_flatMap.2 ⟨x, hx, List.mem_map.2 ⟨a, ha, rfl⟩⟩)
      rw [List.map_flatMap]
      have : ∀ m : String × Member F, ((m.2.aliases.getD []).map
          fun a => (a, aliasMember m.2)).map Prod.fst = m.2.aliases.getD [] := by
        intro m
        rw [List.map_map]
        exact List.map_id _
      simp only [this]
      exact h1
    rw [lookup_append, lookup_none (h3 a hf), Option.none_or, e]

/-- C68. A method behind an alias is the same function; a property behind an alias gives the value that
the property gives if the stored value, if any, is the computed one. -/
theorem C68_same_value {V : Type} (m : Member V) (stored : Option V) (h : ∀ v, stored = some v → v = m.func) :
    (aliasMember m).func = m.func ∧ (m.kind = .method → (aliasMember m).kind = .method) ∧
      (readMember (aliasMember m) stored).1 = (readMember m stored).1 := by
  refine ⟨rfl, fun hk => if_pos hk, ?_⟩
  have e : (readMember (aliasMember m) stored).1 = m.func := by
    unfold readMember aliasMember
    by_cases hk : m.kind = .method
    · simp [hk]
    · simp [hk]
  rw [e]
  unfold readMember
  cases hk : m.kind with
  | method => simp
  | property => simp
  | cachedProperty =>
    cases stored with
    | none => simp
    | some v => simp [h v rfl]

/-- C68 fails for cached properties in one respect: when the value is stored, the property does not compute
it again, but its alias does. -/
theorem C68_alias_recomputes : ∃ (m : Member ℕ) (stored : Option ℕ), m.kind = .cachedProperty ∧
    readMember m stored = (m.func, false) ∧ readMember (aliasMember m) stored = (m.func, true) :=
  ⟨⟨.cachedProperty, 7, some ["steady_states"]⟩, some 7, rfl, rfl, rfl⟩

/-- C68 fails for members of base classes: an accepted alias may hide one. -/
theorem C68_hides_inherited : ∃ (members base : List (String × Member ℕ)) (c : List (String × Member ℕ)),
    aliased members = .ok c ∧ (classLookup members base "n").map Member.func = some 1 ∧
      (classLookup c base "n").map Member.func = some 2 :=
  ⟨[("size", ⟨.property, 2, some ["n"]⟩)], [("n", ⟨.property, 1, none⟩)],
    [("size", ⟨.property, 2, some ["n"]⟩), ("n", ⟨.property, 2, none⟩)], rfl, rfl, rfl⟩

/-- An alias may end with a line feed. -/
theorem C68_line_feed : aliasName "cd\n" = true := by decide +kernel

/-- The members of `MarkovChain` with their aliases (`markov_chain.py:197-2773`). -/
def markovChainMembers : List (String × Member Unit) := [
  ("__init__", ⟨.method, (), none⟩),
  ("__eq__", ⟨.method, (), none⟩),
  ("__hash__", ⟨.method, (), none⟩),
  ("__repr__", ⟨.method, (), none⟩),
  ("__str__", ⟨.method, (), none⟩),
  ("_MarkovChain__absorbing_states_indices", ⟨.cachedProperty, (), none⟩),
  ("_MarkovChain__classes_indices", ⟨.cachedProperty, (), none⟩),
  ("_MarkovChain__communicating_classes_indices", ⟨.cachedProperty, (), none⟩),
  ("_MarkovChain__cyclic_classes_indices", ⟨.cachedProperty, (), none⟩),
  ("_MarkovChain__cyclic_states_indices", ⟨.cachedProperty, (), none⟩),
  ("_MarkovChain__eigenvalues_sorted", ⟨.cachedProperty, (), none⟩),
  ("_MarkovChain__rdl_decomposition", ⟨.cachedProperty, (), none⟩),
  ("_MarkovChain__recurrent_classes_indices", ⟨.cachedProperty, (), none⟩),
  ("_MarkovChain__recurrent_states_indices", ⟨.cachedProperty, (), none⟩),
  ("_MarkovChain__slem", ⟨.cachedProperty, (), none⟩),
  ("_MarkovChain__states_indices", ⟨.cachedProperty, (), none⟩),
  ("_MarkovChain__transient_classes_indices", ⟨.cachedProperty, (), none⟩),
  ("_MarkovChain__transient_states_indices", ⟨.cachedProperty, (), none⟩),
  ("absorbing_states", ⟨.cachedProperty, (), none⟩),
  ("accessibility_matrix", ⟨.cachedProperty, (), none⟩),
  ("adjacency_matrix", ⟨.cachedProperty, (), none⟩),
  ("communicating_classes", ⟨.cachedProperty, (), none⟩),
  ("communication_matrix", ⟨.cachedProperty, (), none⟩),
  ("cyclic_classes", ⟨.cachedProperty, (), none⟩),
  ("cyclic_states", ⟨.cachedProperty, (), none⟩),
  ("density", ⟨.cachedProperty, (), none⟩),
  ("determinant", ⟨.cachedProperty, (), none⟩),
  ("entropy_rate", ⟨.cachedProperty, (), none⟩),
  ("entropy_rate_normalized", ⟨.cachedProperty, (), none⟩),
  ("fundamental_matrix", ⟨.cachedProperty, (), none⟩),
  ("implied_timescales", ⟨.cachedProperty, (), none⟩),
  ("incidence_matrix", ⟨.cachedProperty, (), none⟩),
  ("is_absorbing", ⟨.cachedProperty, (), none⟩),
  ("is_aperiodic", ⟨.cachedProperty, (), none⟩),
  ("is_canonical", ⟨.cachedProperty, (), none⟩),
  ("is_doubly_stochastic", ⟨.cachedProperty, (), none⟩),
  ("is_ergodic", ⟨.cachedProperty, (), none⟩),
  ("is_irreducible", ⟨.cachedProperty, (), none⟩),
  ("is_regular", ⟨.cachedProperty, (), none⟩),
  ("is_reversible", ⟨.cachedProperty, (), none⟩),
  ("is_stochastically_monotone", ⟨.cachedProperty, (), some ["is_monotone"]⟩),
  ("is_symmetric", ⟨.cachedProperty, (), none⟩),
  ("kemeny_constant", ⟨.cachedProperty, (), none⟩),
  ("lumping_partitions", ⟨.cachedProperty, (), none⟩),
  ("mixing_rate", ⟨.cachedProperty, (), none⟩),
  ("n", ⟨.property, (), none⟩),
  ("p", ⟨.property, (), none⟩),
  ("period", ⟨.cachedProperty, (), none⟩),
  ("periods", ⟨.cachedProperty, (), none⟩),
  ("pi", ⟨.cachedProperty, (), some ["stationary_distributions", "steady_states"]⟩),
  ("rank", ⟨.cachedProperty, (), none⟩),
  ("recurrent_classes", ⟨.cachedProperty, (), none⟩),
  ("recurrent_states", ⟨.cachedProperty, (), none⟩),
  ("relaxation_rate", ⟨.cachedProperty, (), none⟩),
  ("size", ⟨.property, (), none⟩),
  ("spectral_gap", ⟨.cachedProperty, (), none⟩),
  ("states", ⟨.property, (), none⟩),
  ("topological_entropy", ⟨.cachedProperty, (), none⟩),
  ("transient_classes", ⟨.cachedProperty, (), none⟩),
  ("transient_states", ⟨.cachedProperty, (), none⟩),
  ("absorption_probabilities", ⟨.method, (), none⟩),
  ("aggregate", ⟨.method, (), none⟩),
  ("are_communicating", ⟨.method, (), none⟩),
  ("closest_reversible", ⟨.method, (), none⟩),
  ("committor_probabilities", ⟨.method, (), some ["crp"]⟩),
  ("conditional_probabilities", ⟨.method, (), some ["conditional_distribution", "cd", "cp"]⟩),
  ("expected_rewards", ⟨.method, (), some ["er"]⟩),
  ("expected_transitions", ⟨.method, (), some ["et"]⟩),
  ("first_passage_probabilities", ⟨.method, (), some ["fpp"]⟩),
  ("first_passage_reward", ⟨.method, (), some ["fpr"]⟩),
  ("hitting_probabilities", ⟨.method, (), some ["hp"]⟩),
  ("hitting_times", ⟨.method, (), some ["ht"]⟩),
  ("is_absorbing_state", ⟨.method, (), none⟩),
  ("is_accessible", ⟨.method, (), none⟩),
  ("is_cyclic_state", ⟨.method, (), none⟩),
  ("is_recurrent_state", ⟨.method, (), none⟩),
  ("is_transient_state", ⟨.method, (), none⟩),
  ("lump", ⟨.method, (), none⟩),
  ("mean_absorption_times", ⟨.method, (), some ["mat"]⟩),
  ("mean_first_passage_times_between", ⟨.method, (), some ["mfpt_between", "mfptb"]⟩),
  ("mean_first_passage_times_to", ⟨.method, (), some ["mfpt_to", "mfptt"]⟩),
  ("mean_number_visits", ⟨.method, (), some ["mnv"]⟩),
  ("mean_recurrence_times", ⟨.method, (), some ["mrt"]⟩),
  ("merge_with", ⟨.method, (), none⟩),
  ("mixing_time", ⟨.method, (), some ["mt"]⟩),
  ("next", ⟨.method, (), none⟩),
  ("predict", ⟨.method, (), none⟩),
  ("redistribute", ⟨.method, (), none⟩),
  ("sensitivity", ⟨.method, (), none⟩),
  ("sequence_probability", ⟨.method, (), none⟩),
  ("simulate", ⟨.method, (), none⟩),
  ("time_correlations", ⟨.method, (), some ["tc"]⟩),
  ("time_relaxations", ⟨.method, (), some ["tr"]⟩),
  ("to_bounded_chain", ⟨.method, (), some ["to_bounded"]⟩),
  ("to_canonical_form", ⟨.method, (), some ["to_canonical"]⟩),
  ("to_dictionary", ⟨.method, (), none⟩),
  ("to_file", ⟨.method, (), none⟩),
  ("to_graph", ⟨.method, (), none⟩),
  ("to_lazy_chain", ⟨.method, (), some ["to_lazy"]⟩),
  ("to_matrix", ⟨.method, (), none⟩),
  ("to_nth_order", ⟨.method, (), some ["to_nth"]⟩),
  ("to_subchain", ⟨.method, (), some ["to_sub"]⟩),
  ("transition_probability", ⟨.method, (), none⟩),
  ("approximation", ⟨.method, (), none⟩),
  ("birth_death", ⟨.method, (), none⟩),
  ("dirichlet_process", ⟨.method, (), none⟩),
  ("fit_function", ⟨.method, (), none⟩),
  ("fit_sequence", ⟨.method, (), none⟩),
  ("from_dictionary", ⟨.method, (), none⟩),
  ("from_file", ⟨.method, (), none⟩),
  ("from_graph", ⟨.method, (), none⟩),
  ("from_matrix", ⟨.method, (), none⟩),
  ("gamblers_ruin", ⟨.method, (), none⟩),
  ("identity", ⟨.method, (), none⟩),
  ("population_genetics_model", ⟨.method, (), none⟩),
  ("random", ⟨.method, (), none⟩),
  ("random_distribution", ⟨.method, (), none⟩),
  ("urn_model", ⟨.method, (), none⟩)]

/-- The declarations of the class are accepted. -/
theorem C68_markov_chain : ∃ c, aliased markovChainMembers = .ok c := by
  rw [C68_accepted]
  refine ⟨?_, ?_, ?_⟩ <;> decide +kernel

end Aliases

/-! ## C69 -/

section Hash

variable {K H : Type} [Zero K] [DecidableEq K]

/-- No entry is a negative zero. -/
def NoNegZero (a : List (List (List (SignedNum K))) × List (List String)) : Prop :=
  ∀ m ∈ a.1, ∀ r ∈ m, ∀ x ∈ r, x.negZero = false

/-- C69 (partial: no negative zeros). Equal models have equal hashes. -/
theorem C69_equal_hash_partial (h : List (List (K × Bool)) × List (List String) → H)
    {a b : List (List (List (SignedNum K))) × List (List String)} (ha : NoNegZero a) (hb : NoNegZero b)
    (he : modelEq a b = true) : modelHash h a = modelHash h b := by
  unfold modelEq at he
  rw [Bool.and_eq_true, decide_eq_true_eq, decide_eq_true_eq] at he
  obtain ⟨h1, h2⟩ := he
  have key : ∀ a : List (List (List (SignedNum K))) × List (List String), NoNegZero a →
      (a.1.map fun m => m.flatten.map SignedNum.bits) =
        (a.1.map (List.map (List.map SignedNum.value))).map fun m => m.flatten.map fun x => (x, false) := by
    intro a ha
    rw [List.map_map]
    refine List.map_congr_left fun m hm => ?_
    change m.flatten.map SignedNum.bits = (m.map (List.map SignedNum.value)).flatten.map fun x => (x, false)
    rw [← List.map_flatten, List.map_map]
    refine List.map_congr_left fun x hx => ?_
    obtain ⟨r, hr, hx⟩ := List.mem_flatten.1 hx
    change (x.value, decide (x.value = 0) && x.negZero) = (x.value, false)
    rw [ha m hm r hr x hx, Bool.and_false]
  unfold modelHash
  rw [key a ha, key b hb, h1, h2]

/-- C69 fails for negative zeros: two equal chains that the constructor accepts, with different bytes, so
their hashes differ unless the hash function happens to collide. -/
theorem C69_negative_zero : ∃ a b : List (List (List (SignedNum ℚ))) × List (List String),
    modelEq a b = true ∧ modelHash id a ≠ modelHash id b ∧
      (∀ m ∈ a.1 ++ b.1, ∀ r ∈ m, (∀ x ∈ r, 0 ≤ x.value ∧ x.value ≤ 1) ∧ (r.map SignedNum.value).sum = 1) :=
  ⟨([[[⟨0, false⟩, ⟨1, false⟩], [⟨1, false⟩, ⟨0, false⟩]]], [["a", "b"]]),
    ([[[⟨0, true⟩, ⟨1, false⟩], [⟨1, false⟩, ⟨0, false⟩]]], [["a", "b"]]), by decide +kernel,
    by decide +kernel, by decide +kernel⟩

/-- Equality of models is an equivalence. -/
theorem C69_equivalence (a b c : List (List (List (SignedNum K))) × List (List String)) :
    modelEq a a = true ∧ (modelEq a b = modelEq b a) ∧
      (modelEq a b = true → modelEq b c = true → modelEq a c = true) := by
  unfold modelEq
  refine ⟨by simp, ?_, ?_⟩
  · rw [Bool.eq_iff_iff]
    simp only [Bool.and_eq_true, decide_eq_true_eq]
    exact ⟨fun h => ⟨h.1.symm, h.2.symm⟩, fun h => ⟨h.1.symm, h.2.symm⟩⟩
  · simp only [Bool.and_eq_true, decide_eq_true_eq]
    exact fun h h' => ⟨h.1.trans h'.1, h.2.trans h'.2⟩

example : NoNegZero (K := ℚ) ([[[⟨0, false⟩, ⟨1, false⟩], [⟨1, false⟩, ⟨0, false⟩]]], [["a", "b"]]) := by
  unfold NoNegZero
  decide

end Hash

/-! ## C81 -/

section Stored

variable {T V : Type} [DecidableEq T]

/-- Calls of the method that have not begun, with nothing stored. -/
def Memo.initial : Memo T V := ⟨none, fun _ => .look, 0⟩

/-- What holds in every schedule. -/
def MemoGood (value : ℕ → V) (m : Memo T V) : Prop :=
  (∀ v, m.stored = some v → ∃ k < m.runs, v = value k) ∧
  ∀ t, match m.phase t with
    | .store v => ∃ k < m.runs, v = value k
    | .returned v => ∃ k < m.runs, v = value k
    | .load => m.stored ≠ none
    | _ => True

theorem memo_good {value : ℕ → V} {m m' : Memo T V} (h : MemoGood value m) {t : T}
    (hs : memoStep value m t = some m') : MemoGood value m' := by
  obtain ⟨h1, h2⟩ := h
  have ht := h2 t
  unfold memoStep at hs
  have others : ∀ (stored' : Option V) (runs' : ℕ) (ph : MemoPhase V), m.runs ≤ runs' →
      (m.stored ≠ none → stored' ≠ none) → (∀ v, stored' = some v → ∃ k < runs', v = value k) →
      (match ph with
        | .store v => ∃ k < runs', v = value k
        | .returned v => ∃ k < runs', v = value k
        | .load => stored' ≠ none
        | _ => True) →
      MemoGood value ⟨stored', Function.update m.phase t ph, runs'⟩ := by
    intro stored' runs' ph hr hst hv hph
    refine ⟨hv, fun u => ?_⟩
    change match Function.update m.phase t ph u with
      | .store v => ∃ k < runs', v = value k
      | .returned v => ∃ k < runs', v = value k
      | .load => stored' ≠ none
      | _ => True
    by_cases e : u = t
    · subst e
      rw [Function.update_self]
      exact hph
    · rw [Function.update_of_ne e]
      have hu := h2 u
      cases hp : m.phase u with
      | look => trivial
      | compute => trivial
      | store v =>
        rw [hp] at hu
        obtain ⟨k, hk, e⟩ := hu
        exact ⟨k, by omega, e⟩
      | returned v =>
        rw [hp] at hu
        obtain ⟨k, hk, e⟩ := hu
        exact ⟨k, by omega, e⟩
      | load =>
        rw [hp] at hu
        exact hst hu
  cases hp : m.phase t with
  | look =>
    rw [hp] at hs
    injection hs with hs
    subst hs
    refine others m.stored m.runs _ le_rfl (fun e => e) h1 ?_
    cases e : m.stored with
    | none => trivial
    | some v => nofun
  | compute =>
    rw [hp] at hs
    injection hs with hs
    subst hs
    refine others m.stored (m.runs + 1) _ (Nat.le_succ _) (fun e => e) ?_ ⟨m.runs, Nat.lt_succ_self _, rfl⟩
    intro v hv
    obtain ⟨k, hk, e⟩ := h1 v hv
    exact ⟨k, by omega, e⟩
  | store v =>
    rw [hp] at hs ht
    injection hs with hs
    subst hs
    refine others (some v) m.runs _ le_rfl (fun _ => nofun) ?_ nofun
    intro w hw
    injection hw with hw
    exact hw ▸ ht
  | load =>
    rw [hp] at hs
    cases e : m.stored with
    | none =>
      rw [e] at hs
      cases hs
    | some v =>
      rw [e] at hs
      injection hs with hs
      subst hs
      have := others (some v) m.runs (.returned v) le_rfl (fun _ => nofun) (e ▸ h1) (h1 v e)
      rw [← e] at this
      exact e ▸ this
  | returned v =>
    rw [hp] at hs
    cases hs

theorem memoRun_good {value : ℕ → V} {ts : List T} {m m' : Memo T V} (h : MemoGood value m)
    (hs : memoRun value m ts = some m') : MemoGood value m' := by
  induction ts generalizing m with
  | nil =>
    injection hs with hs
    exact hs ▸ h
  | cons t ts ih =>
    unfold memoRun at hs
    cases e : memoStep value m t with
    | none =>
      rw [e] at hs
      cases hs
    | some m1 =>
      rw [e] at hs
      exact ih (memo_good h e) hs

theorem memo_initial (value : ℕ → V) : MemoGood value (Memo.initial : Memo T V) :=
  ⟨(fun _ h => nomatch h), fun _ => trivial⟩

/-- C81 (partial: equal values, not one computation). In any schedule every call returns a value that the
computation gave, so all calls return equal values if the computation always gives the same; and a call
never fails to find the stored result. -/
theorem C81_calls_agree_partial {value : ℕ → V} {ts : List T} {m : Memo T V}
    (h : memoRun value Memo.initial ts = some m) :
    (∀ t v, m.phase t = .returned v → ∃ k < m.runs, v = value k) ∧
      ((∀ j k, value j = value k) → ∀ t u v w, m.phase t = .returned v → m.phase u = .returned w → v = w) ∧
      ∀ t, (∀ v, m.phase t ≠ .returned v) → (memoStep value m t).isSome := by
  have hg := memoRun_good (memo_initial value) h
  have h1 : ∀ t v, m.phase t = .returned v → ∃ k < m.runs, v = value k := by
    intro t v hv
    have := hg.2 t
    rw [hv] at this
    exact this
  refine ⟨h1, ?_, ?_⟩
  · intro hc t u v w hv hw
    obtain ⟨j, -, rfl⟩ := h1 t v hv
    obtain ⟨k, -, rfl⟩ := h1 u w hw
    exact hc j k
  · intro t ht
    unfold memoStep
    have hgt := hg.2 t
    cases hp : m.phase t with
    | look => rfl
    | compute => rfl
    | store v => rfl
    | returned v => exact absurd hp (ht v)
    | load =>
      rw [hp] at hgt
      cases e : m.stored with
      | none => exact absurd e hgt
      | some v => simp

/-- C81 fails: these methods are not locked, so two threads may both compute, and they may get different
objects. -/
theorem C81_computed_twice : ∃ (ts : List (Fin 2)) (m : Memo (Fin 2) ℕ),
    memoRun id Memo.initial ts = some m ∧ m.runs = 2 ∧ m.phase 0 = .returned 0 ∧ m.phase 1 = .returned 1 := by
  cases e : memoRun id (Memo.initial : Memo (Fin 2) ℕ) [0, 1, 0, 0, 0, 1, 1, 1] with
  | none => exact absurd (congrArg Option.isSome e) (by decide +kernel)
  | some m =>
    have h1 : ((memoRun id (Memo.initial : Memo (Fin 2) ℕ) [0, 1, 0, 0, 0, 1, 1, 1]).map
        fun m => (m.runs, m.phase 0, m.phase 1)) = some (2, .returned 0, .returned 1) := by decide +kernel
    rw [e] at h1
    injection h1 with h1
    injection h1 with h1 h2
    injection h2 with h2 h3
    exact ⟨_, m, e, h1, h2, h3⟩

/-- Without other threads the computation runs once: calls one after the other. -/
theorem C81_one_thread : (memoRun id (Memo.initial : Memo (Fin 2) ℕ) [0, 0, 0, 0, 1, 1]).map
    (fun m => (m.runs, m.phase 0, m.phase 1)) = some (1, .returned 0, .returned 0) := by decide +kernel

end Stored

end Verif
