import Verif.Props.CachedFinish
import Verif.Model.Objects

/-!
# Property C70: values that chains share with their callers
-/

namespace Verif

variable {K : Type} {compute : String → Obj K → Obj K → Obj K}

/-- What a chain with the labels `l` and the matrix `m` reports. -/
def reportOf (compute : String → Obj K → Obj K → Obj K) (l m : Obj K) : ApiRead → Obj K
  | .matrix => m
  | .states => l
  | .conditional i =>
    match m with
    | .array rows => .array [rows.getD i []]
    | o => o
  | .property name => compute name l m

/-- All writes of a history go through copies. -/
def WritesCopies (compute : String → Obj K → Obj K → Obj K) : World K → List (UseOp K) → Prop
  | _, [] => True
  | w, .read a :: ops => WritesCopies compute (w.use compute (.read a)) ops
  | w, .write k o :: ops => (∀ x, w.client[k]? = some x → x.2 = true) ∧
      WritesCopies compute (w.use compute (.write k o)) ops

/-- The state of a chain whose objects nobody changed. -/
structure Intact (compute : String → Obj K → Obj K → Obj K) (l m : Obj K) (w : World K) : Prop where
  states : w.states < w.heap.length
  p : w.p < w.heap.length
  labels : w.object w.states = l
  matrix : w.object w.p = m
  cache : ∀ x ∈ w.cache, x.2 < w.heap.length ∧ w.object x.2 = compute x.1 l m
  copies : ∀ x ∈ w.client, x.2 = true → ∃ r, x.1 = .whole r ∧ r < w.heap.length ∧ r ≠ w.states ∧
    r ≠ w.p ∧ ∀ c ∈ w.cache, c.2 ≠ r

theorem object_append {w : World K} {r : ℕ} (h : r < w.heap.length) (l : List (Obj K)) :
    (w.heap ++ l).getD r (.labels []) = w.object r := by
  unfold World.object
  rw [List.getD_eq_getElem?_getD, List.getD_eq_getElem?_getD, List.getElem?_append_left h]

theorem object_new (heap : List (Obj K)) (o : Obj K) :
    (heap ++ [o]).getD heap.length (.labels []) = o := by
  simp

theorem object_set_ne {heap : List (Obj K)} {r r' : ℕ} (h : r' ≠ r) (o : Obj K) :
    (heap.set r o).getD r' (.labels []) = heap.getD r' (.labels []) := by
  rw [List.getD_eq_getElem?_getD, List.getD_eq_getElem?_getD, List.getElem?_set_ne h.symm]

theorem Intact.read {l m : Obj K} {w : World K} (h : Intact compute l m w) (a : ApiRead) :
    Intact compute l m (w.read compute a).1 ∧
      (w.read compute a).1.content (w.read compute a).2 = reportOf compute l m a := by
  cases a with
  | matrix =>
    constructor
    · refine ⟨?_, ?_, ?_, ?_, ?_, ?_⟩
      · change w.states < (w.heap ++ [_]).length
        rw [List.length_append]
        exact Nat.lt_of_lt_of_le h.states (Nat.le_add_right _ _)
      · change w.p < (w.heap ++ [_]).length
        rw [List.length_append]
        exact Nat.lt_of_lt_of_le h.p (Nat.le_add_right _ _)
      · exact (object_append h.states _).trans h.labels
      · exact (object_append h.p _).trans h.matrix
      · intro x hx
        obtain ⟨h1, h2⟩ := h.cache x hx
        refine ⟨?_, (object_append h1 _).trans h2⟩
        change x.2 < (w.heap ++ [_]).length
        rw [List.length_append]
        exact Nat.lt_of_lt_of_le h1 (Nat.le_add_right _ _)
      · intro x hx hc
        change ∃ r, x.1 = .whole r ∧ r < (w.heap ++ [w.object w.p]).length ∧ r ≠ w.states ∧ r ≠ w.p ∧
          ∀ c ∈ w.cache, c.2 ≠ r
        rw [List.length_append]
        rcases List.mem_append.1 hx with hx | hx
        · obtain ⟨r, h1, h2, h3⟩ := h.copies x hx hc
          exact ⟨r, h1, Nat.lt_of_lt_of_le h2 (Nat.le_add_right _ _), h3⟩
        · rw [List.mem_singleton] at hx
          subst hx
          refine ⟨w.heap.length, rfl, Nat.lt_succ_self _, (Nat.ne_of_lt h.states).symm,
            (Nat.ne_of_lt h.p).symm, fun c hc => Nat.ne_of_lt (h.cache c hc).1⟩
    · exact (object_new _ _).trans h.matrix
  | states =>
    constructor
    · refine ⟨h.states, h.p, h.labels, h.matrix, h.cache, ?_⟩
      intro x hx hc
      rcases List.mem_append.1 hx with hx | hx
      · exact h.copies x hx hc
      · rw [List.mem_singleton] at hx
        subst hx
        cases hc
    · exact h.labels
  | conditional i =>
    constructor
    · refine ⟨h.states, h.p, h.labels, h.matrix, h.cache, ?_⟩
      intro x hx hc
      rcases List.mem_append.1 hx with hx | hx
      · exact h.copies x hx hc
      · rw [List.mem_singleton] at hx
        subst hx
        cases hc
    · change (match w.object w.p with | .array rows => Obj.array [rows.getD i []] | o => o) = _
      rw [h.matrix]
      rfl
  | property name =>
    cases e : w.cache.lookup name with
    | some r =>
      have e1 : w.read compute (.property name) =
          ({ w with client := w.client ++ [(.whole r, false)] }, .whole r) := by
        simp only [World.read, e]
      rw [e1]
      constructor
      · refine ⟨h.states, h.p, h.labels, h.matrix, h.cache, ?_⟩
        intro x hx hc
        rcases List.mem_append.1 hx with hx | hx
        · exact h.copies x hx hc
        · rw [List.mem_singleton] at hx
          subst hx
          cases hc
      · exact (h.cache _ (mem_of_lookup e)).2
    | none =>
      have e1 : w.read compute (.property name) = ({ w with
          heap := w.heap ++ [compute name (w.object w.states) (w.object w.p)]
          cache := (name, w.heap.length) :: w.cache
          client := w.client ++ [(.whole w.heap.length, false)] }, .whole w.heap.length) := by
        simp only [World.read, e]
      rw [e1, h.labels, h.matrix]
      have hlen : (w.heap ++ [compute name l m]).length = w.heap.length + 1 := by
        rw [List.length_append]
        rfl
      constructor
      · refine ⟨?_, ?_, ?_, ?_, ?_, ?_⟩
        · change w.states < (w.heap ++ [_]).length
          rw [hlen]
          exact Nat.lt_succ_of_lt h.states
        · change w.p < (w.heap ++ [_]).length
          rw [hlen]
          exact Nat.lt_succ_of_lt h.p
        · exact (object_append h.states _).trans h.labels
        · exact (object_append h.p _).trans h.matrix
        · intro x hx
          change x.2 < (w.heap ++ [_]).length ∧ _
          rw [hlen]
          rcases List.mem_cons.1 hx with rfl | hx
          · exact ⟨Nat.lt_succ_self _, object_new _ _⟩
          · obtain ⟨h1, h2⟩ := h.cache x hx
            exact ⟨Nat.lt_succ_of_lt h1, (object_append h1 _).trans h2⟩
        · intro x hx hc
          change ∃ r, x.1 = .whole r ∧ r < (w.heap ++ [compute name l m]).length ∧ r ≠ w.states ∧
            r ≠ w.p ∧ ∀ c ∈ (name, w.heap.length) :: w.cache, c.2 ≠ r
          rw [hlen]
          rcases List.mem_append.1 hx with hx | hx
          · obtain ⟨r, h1, h2, h3, h4, h5⟩ := h.copies x hx hc
            refine ⟨r, h1, Nat.lt_succ_of_lt h2, h3, h4, fun c hc => ?_⟩
            rcases List.mem_cons.1 hc with rfl | hc
            · exact (Nat.ne_of_lt h2).symm
            · exact h5 c hc
          · rw [List.mem_singleton] at hx
            subst hx
            cases hc
      · exact object_new _ _

theorem Intact.write {l m : Obj K} {w : World K} (h : Intact compute l m w) (k : ℕ) (o : Obj K)
    (hk : ∀ x, w.client[k]? = some x → x.2 = true) : Intact compute l m (w.use compute (.write k o)) := by
  cases e : w.client[k]? with
  | none =>
    have e1 : w.use compute (.write k o) = w := by
      unfold World.use
      simp only [e]
    rw [e1]
    exact h
  | some x =>
    obtain ⟨r, h1, h2, h3, h4, h5⟩ := h.copies x (List.mem_of_getElem? e) (hk x e)
    have e1 : w.use compute (.write k o) = { w with heap := w.heap.set r o } := by
      unfold World.use
      simp only [e]
      rw [h1]
      rfl
    rw [e1]
    have hlen : (w.heap.set r o).length = w.heap.length := List.length_set
    refine ⟨hlen.symm ▸ h.states, hlen.symm ▸ h.p, (object_set_ne h3.symm o).trans h.labels,
      (object_set_ne h4.symm o).trans h.matrix, ?_, ?_⟩
    · intro c hc
      obtain ⟨g1, g2⟩ := h.cache c hc
      exact ⟨hlen.symm ▸ g1, (object_set_ne (h5 c hc) o).trans g2⟩
    · intro y hy hc
      obtain ⟨s, g1, g2, g3⟩ := h.copies y hy hc
      exact ⟨s, g1, hlen.symm ▸ g2, g3⟩

theorem Intact.history {l m : Obj K} (ops : List (UseOp K)) {w : World K} (h : Intact compute l m w)
    (hw : WritesCopies compute w ops) : Intact compute l m (ops.foldl (World.use compute) w) := by
  induction ops generalizing w with
  | nil => exact h
  | cons op ops ih =>
    cases op with
    | read a => exact ih (h.read a).1 hw
    | write k o => exact ih (h.write k o hw.1) hw.2

/-- C70 (partial: the caller writes only into copies, such as the matrices that `p` and `to_matrix`
return). Then the chain reports the same values for ever. -/
theorem C70_unchanged_partial (labels : List String) (rows : List (List K)) (ops : List (UseOp K))
    (hw : WritesCopies compute (World.create labels rows) ops) (a : ApiRead) :
    (ops.foldl (World.use compute) (World.create labels rows)).report compute a =
      (World.create labels rows).report compute a := by
  have h0 : Intact compute (.labels labels) (.array rows) (World.create labels rows) := by
    refine ⟨Nat.zero_lt_two, Nat.one_lt_two, rfl, rfl, ?_, ?_⟩
    · intro x hx
      cases hx
    · intro x hx hc
      change x ∈ [(Handle.whole 0, false)] at hx
      rw [List.mem_singleton] at hx
      subst hx
      cases hc
  exact ((h0.history ops hw).read a).2.trans (h0.read a).2.symm

/-- A history with a write into a copy of the matrix. -/
example : WritesCopies (K := ℕ) (fun _ _ m => m) (World.create ["a", "b"] [[0, 1], [1, 0]])
    [.read .matrix, .write 1 (.array [[5]]), .read .states, .read (.property "pi")] := by
  refine ⟨?_, trivial⟩
  intro x hx
  have : some x = some (Handle.whole 2, true) := hx.symm
  injection this with this
  rw [this]

/-- The example of a chain. -/
def exShared : World ℕ := World.create ["a", "b"] [[0, 1], [1, 0]]

/-- A property that copies the matrix, such as the adjacency matrix here. -/
def exCompute (_ : String) (_ m : Obj ℕ) : Obj ℕ := m

/-- C70 fails: writing into the list that `states` returns changes the labels of the chain. -/
theorem C70_states_changed :
    exShared.report exCompute .states = .labels ["a", "b"] ∧
    ([.read .states, .write 1 (.labels ["x", "b"])].foldl (World.use exCompute) exShared).report
      exCompute .states = .labels ["x", "b"] := by
  constructor <;> decide +kernel

/-- C70 fails: writing into the list of labels given to the constructor changes the labels of the chain. -/
theorem C70_argument_changed :
    ([.write 0 (.labels ["x", "b"])].foldl (World.use exCompute) exShared).report exCompute .states =
      .labels ["x", "b"] := by decide +kernel

/-- C70 fails: writing into the result of `conditional_probabilities` changes the transition matrix. -/
theorem C70_matrix_changed :
    exShared.report exCompute .matrix = .array [[0, 1], [1, 0]] ∧
    ([.read (.conditional 0), .write 1 (.array [[7, 7]])].foldl (World.use exCompute) exShared).report
      exCompute .matrix = .array [[7, 7], [1, 0]] := by
  constructor <;> decide +kernel

/-- C70 fails: writing into the value of a cached property changes what later reads of it report. -/
theorem C70_property_changed :
    exShared.report exCompute (.property "adjacency_matrix") = .array [[0, 1], [1, 0]] ∧
    ([.read (.property "adjacency_matrix"), .write 1 (.array [[7]])].foldl (World.use exCompute) exShared).report
      exCompute (.property "adjacency_matrix") = .array [[7]] := by
  constructor <;> decide +kernel

end Verif
