import Verif.Model.Cached
import Mathlib.Data.List.Count

/-!
# Property C66: lazily computed properties under any thread schedule
-/

set_option linter.unusedSectionVars false

namespace Verif

variable {T O Q V : Type} [DecidableEq T] [DecidableEq O] [DecidableEq Q] [DecidableEq V]

/-- All reads of a computation are of properties of rank less than `n`. -/
inductive Body.Below (rank : Q → ℕ) (n : ℕ) : Body O Q V → Prop
  | ret (v : V) : Below rank n (.ret v)
  | fail : Below rank n .fail
  | read (o : O) (q : Q) (k : Option V → Body O Q V) (h : rank q < n)
      (hk : ∀ r, Below rank n (k r)) : Below rank n (.read o q k)

/-- The computations read only properties of smaller rank, so no property needs itself. -/
def Layered (rank : Q → ℕ) (bodies : List (Event T O Q V) → O → Q → Body O Q V) : Prop :=
  ∀ l o q, (bodies l o q).Below rank (rank q)

/-- Evaluation of a computation by one thread alone and without any cache. -/
inductive Eval (bodies : List (Event T O Q V) → O → Q → Body O Q V) : Body O Q V → Option V → Prop
  | ret (v : V) : Eval bodies (.ret v) (some v)
  | fail : Eval bodies .fail none
  | read (o : O) (q : Q) (k : Option V → Body O Q V) (l : List (Event T O Q V)) (r s : Option V)
      (h : Eval bodies (bodies l o q) r) (hk : Eval bodies (k r) s) : Eval bodies (.read o q k) s

/-- The value `r` is a result of the computation of `q` for `o`. -/
def Computed (bodies : List (Event T O Q V) → O → Q → Body O Q V) (o : O) (q : Q) (r : Option V) : Prop :=
  ∃ l, Eval bodies (bodies l o q) r

/-- The frames call each other in turn: the outermost one by the program. -/
def Linked : List (Frame O Q V) → Body O Q V → Prop
  | [], _ => True
  | [f], c => ∃ k, c = .read f.obj f.prop k
  | f :: g :: fs, c => (∃ k, g.phase = .run (.read f.obj f.prop k)) ∧ Linked (g :: fs) c

/-- Whether a frame is inside its lock. -/
def Frame.Inside (f : Frame O Q V) : Prop := f.phase ≠ .enter

/-- Whether a frame computes the value of `q` for `o`. -/
def Frame.Running (f : Frame O Q V) (o : O) (q : Q) : Prop := f.obj = o ∧ f.prop = q ∧ ∃ b, f.phase = .run b

/-- What holds for each frame. -/
def Frame.Ok (rank : Q → ℕ) (bodies : List (Event T O Q V) → O → Q → Body O Q V)
    (dict : O → Q → Option V) (f : Frame O Q V) : Prop :=
  match f.phase with
  | .enter => True
  | .check => True
  | .run b => b.Below rank (rank f.prop) ∧ dict f.obj f.prop = none ∧
      ∀ r, Eval bodies b r → Computed bodies f.obj f.prop r
  | .leave r => Computed bodies f.obj f.prop r ∧ ∀ v, r = some v → dict f.obj f.prop = some v

/-- Some thread computes the value of `q` for `o`. -/
def Busy (s : Shared T O Q V) (o : O) (q : Q) : Prop :=
  ∃ t, ∃ f ∈ (s.threads t).stack, f.Running o q

/-- What holds in every reachable state. -/
structure Good (rank : Q → ℕ) (bodies : List (Event T O Q V) → O → Q → Body O Q V)
    (s : Shared T O Q V) : Prop where
  linked : ∀ t, Linked (s.threads t).stack (s.threads t).client
  falling : ∀ t, (s.threads t).stack.Pairwise fun f g => rank f.prop < rank g.prop
  owner : ∀ q t n, s.lock q = some (t, n) →
    n = 1 ∧ ∃ f ∈ (s.threads t).stack, f.prop = q ∧ f.Inside
  held : ∀ t, ∀ f ∈ (s.threads t).stack, f.Inside → s.lock f.prop = some (t, 1)
  ok : ∀ t, ∀ f ∈ (s.threads t).stack, f.Ok rank bodies s.dict
  stored : ∀ o q v, s.dict o q = some v → Computed bodies o q (some v)
  result : ∀ t o q r, .result t o q r ∈ s.log →
    Computed bodies o q r ∧ ∀ v, r = some v → s.dict o q = some v
  failed : ∀ o q, .fail o q ∈ s.log → Computed bodies o q none
  once : ∀ o q, (s.dict o q = none ∧ ¬ Busy s o q ∧
      s.log.count (.start o q) = s.log.count (.fail o q)) ∨
    ((s.dict o q ≠ none ∨ Busy s o q) ∧ s.log.count (.start o q) = s.log.count (.fail o q) + 1)

theorem initial_good (rank : Q → ℕ) (bodies : List (Event T O Q V) → O → Q → Body O Q V)
    (programs : T → Body O Q V) : Good rank bodies (.initial programs) := by
  refine ⟨fun _ => trivial, fun _ => List.Pairwise.nil, ?_, ?_, ?_, ?_, ?_, ?_, ?_⟩
  · intro q t n h
    cases h
  · intro t f hf
    cases hf
  · intro t f hf
    cases hf
  · intro o q v h
    cases h
  · intro t o q r h
    cases h
  · intro o q h
    cases h
  · intro o q
    refine Or.inl ⟨rfl, ?_, rfl⟩
    rintro ⟨t, f, hf, -⟩
    cases hf

theorem Frame.Ok.mono {rank : Q → ℕ} {bodies : List (Event T O Q V) → O → Q → Body O Q V}
    {dict dict' : O → Q → Option V} {f : Frame O Q V} (h : f.Ok rank bodies dict)
    (h1 : ∀ b, f.phase = .run b → dict' f.obj f.prop = dict f.obj f.prop)
    (h2 : ∀ v, dict f.obj f.prop = some v → dict' f.obj f.prop = some v) : f.Ok rank bodies dict' := by
  obtain ⟨o, q, ph⟩ := f
  cases ph with
  | enter => trivial
  | check => trivial
  | run b => exact ⟨h.1, (h1 b rfl).trans h.2.1, h.2.2⟩
  | leave r => exact ⟨h.1, fun v hv => h2 v (h.2 v hv)⟩

/-- How a step of the thread `t` keeps the state good. -/
theorem Good.transfer {rank : Q → ℕ} {bodies : List (Event T O Q V) → O → Q → Body O Q V}
    {s : Shared T O Q V} (h : Good rank bodies s) (t : T) (th : Thread O Q V)
    {lock' : Q → Option (T × ℕ)} {dict' : O → Q → Option V} {log' : List (Event T O Q V)}
    (linked : Linked th.stack th.client)
    (falling : th.stack.Pairwise fun f g => rank f.prop < rank g.prop)
    (ownerOther : ∀ q u n, u ≠ t → lock' q = some (u, n) → s.lock q = some (u, n))
    (ownerSelf : ∀ q n, lock' q = some (t, n) → n = 1 ∧ ∃ f ∈ th.stack, f.prop = q ∧ f.Inside)
    (heldOther : ∀ q u, u ≠ t → s.lock q = some (u, 1) → lock' q = some (u, 1))
    (heldSelf : ∀ f ∈ th.stack, f.Inside → lock' f.prop = some (t, 1))
    (ok : ∀ f ∈ th.stack, f.Ok rank bodies dict')
    (dict : ∀ o q, dict' o q = s.dict o q ∨ (s.dict o q = none ∧ s.lock q = some (t, 1) ∧
      ∃ v, dict' o q = some v ∧ Computed bodies o q (some v)))
    (result : ∀ t o q r, .result t o q r ∈ log' → .result t o q r ∈ s.log ∨
      (Computed bodies o q r ∧ ∀ v, r = some v → dict' o q = some v))
    (failed : ∀ o q, .fail o q ∈ log' → .fail o q ∈ s.log ∨ Computed bodies o q none)
    (once : ∀ o q, (dict' o q = none ∧ ¬ Busy (s.move t th) o q ∧
        log'.count (.start o q) = log'.count (.fail o q)) ∨
      ((dict' o q ≠ none ∨ Busy (s.move t th) o q) ∧
        log'.count (.start o q) = log'.count (.fail o q) + 1)) :
    Good rank bodies (Shared.move ⟨lock', dict', s.threads, log'⟩ t th) := by
  have keep : ∀ o q v, s.dict o q = some v → dict' o q = some v := by
    intro o q v hv
    rcases dict o q with e | ⟨e, -⟩
    · rw [e, hv]
    · rw [e] at hv
      cases hv
  refine ⟨?_, ?_, ?_, ?_, ?_, ?_, ?_, ?_, once⟩
  · exact (Function.forall_update_iff s.threads fun _ th => Linked th.stack th.client).2
      ⟨linked, fun u _ => h.linked u⟩
  · exact (Function.forall_update_iff s.threads
      fun _ th => th.stack.Pairwise fun f g => rank f.prop < rank g.prop).2
      ⟨falling, fun u _ => h.falling u⟩
  · intro q u n hq
    change lock' q = some (u, n) at hq
    change _ ∧ ∃ f ∈ (Function.update s.threads t th u).stack, _
    by_cases e : u = t
    · subst e
      rw [Function.update_self]
      exact ownerSelf q n hq
    · rw [Function.update_of_ne e]
      exact h.owner q u n (ownerOther q u n e hq)
  · intro u f hf hi
    change f ∈ (Function.update s.threads t th u).stack at hf
    change lock' f.prop = _
    by_cases e : u = t
    · subst e
      rw [Function.update_self] at hf
      exact heldSelf f hf hi
    · rw [Function.update_of_ne e] at hf
      exact heldOther _ u e (h.held u f hf hi)
  · intro u f hf
    change f ∈ (Function.update s.threads t th u).stack at hf
    change f.Ok rank bodies dict'
    by_cases e : u = t
    · subst e
      rw [Function.update_self] at hf
      exact ok f hf
    · rw [Function.update_of_ne e] at hf
      refine (h.ok u f hf).mono (fun b hb => ?_) fun v hv => keep _ _ v hv
      rcases dict f.obj f.prop with e1 | ⟨-, e1, -⟩
      · exact e1
      · have hi : f.Inside := by
          unfold Frame.Inside
          rw [hb]
          nofun
        rw [h.held u f hf hi] at e1
        injection e1 with e1
        injection e1 with e1
        exact absurd e1 e
  · intro o q v hv
    change dict' o q = some v at hv
    rcases dict o q with e | ⟨-, -, w, e1, e2⟩
    · exact h.stored o q v (e.symm.trans hv)
    · rw [e1] at hv
      injection hv with hv
      exact hv ▸ e2
  · intro u o q r hr
    rcases result u o q r hr with h' | h'
    · exact ⟨(h.result u o q r h').1, fun v hv => keep o q v ((h.result u o q r h').2 v hv)⟩
    · exact h'
  · intro o q hf
    rcases failed o q hf with h' | h'
    · exact h.failed o q h'
    · exact h'

theorem busy_move {s : Shared T O Q V} {t : T} {th : Thread O Q V} {o : O} {q : Q} :
    Busy (s.move t th) o q ↔ (∃ f ∈ th.stack, f.Running o q) ∨
      ∃ u, u ≠ t ∧ ∃ f ∈ (s.threads u).stack, f.Running o q :=
  Function.exists_update_iff s.threads (p := fun _ th => ∃ f ∈ th.stack, f.Running o q)

theorem busy_same {s : Shared T O Q V} {t : T} {th : Thread O Q V} {o : O} {q : Q}
    (h : (∃ f ∈ th.stack, f.Running o q) ↔ ∃ f ∈ (s.threads t).stack, f.Running o q) :
    Busy (s.move t th) o q ↔ Busy s o q := by
  rw [busy_move, h]
  constructor
  · rintro (h | ⟨u, -, h⟩)
    · exact ⟨t, h⟩
    · exact ⟨u, h⟩
  · rintro ⟨u, h⟩
    by_cases e : u = t
    · exact Or.inl (e ▸ h)
    · exact Or.inr ⟨u, e, h⟩

theorem running_cons {f : Frame O Q V} {fs : List (Frame O Q V)} {o : O} {q : Q} :
    (∃ g ∈ f :: fs, g.Running o q) ↔ f.Running o q ∨ ∃ g ∈ fs, g.Running o q := by
  simp

theorem Good.alone {rank : Q → ℕ} {bodies : List (Event T O Q V) → O → Q → Body O Q V}
    {s : Shared T O Q V} (h : Good rank bodies s) {t : T} {f : Frame O Q V} {fs : List (Frame O Q V)}
    (hst : (s.threads t).stack = f :: fs) (hi : f.Inside) :
    (∀ g ∈ fs, g.prop ≠ f.prop) ∧
      ∀ u, u ≠ t → ∀ g ∈ (s.threads u).stack, g.Inside → g.prop ≠ f.prop := by
  have hp := h.falling t
  rw [hst, List.pairwise_cons] at hp
  refine ⟨fun g hg e => absurd (hp.1 g hg) (by rw [e]; exact Nat.lt_irrefl _), ?_⟩
  intro u hu g hg hgi e
  have h1 := h.held t f (hst ▸ List.mem_cons_self) hi
  have h2 := h.held u g hg hgi
  rw [e, h1] at h2
  injection h2 with h2
  injection h2 with h2
  exact hu h2.symm

theorem running_inside {f : Frame O Q V} {o : O} {q : Q} (h : f.Running o q) : f.Inside := by
  obtain ⟨-, -, b, hb⟩ := h
  unfold Frame.Inside
  rw [hb]
  nofun

theorem Linked.callers {f : Frame O Q V} {fs : List (Frame O Q V)} {c : Body O Q V}
    (h : Linked (f :: fs) c) : ∀ g ∈ fs, ∃ b, g.phase = .run b := by
  induction fs generalizing f with
  | nil =>
    intro g hg
    cases hg
  | cons g fs ih =>
    obtain ⟨⟨k, hk⟩, h⟩ := h
    intro g' hg'
    rcases List.mem_cons.1 hg' with rfl | hg'
    · exact ⟨_, hk⟩
    · exact ih h g' hg'

theorem Linked.congr {o : O} {q : Q} {ph ph' : Phase O Q V} {fs : List (Frame O Q V)} {c : Body O Q V}
    (h : Linked (⟨o, q, ph⟩ :: fs) c) : Linked (⟨o, q, ph'⟩ :: fs) c := by
  cases fs with
  | nil => exact h
  | cons g fs => exact h

theorem acquire_ok {l : Option (T × ℕ)} {t : T} {l' : T × ℕ} (h : acquire l t = some l') :
    (l = none ∧ l' = (t, 1)) ∨ ∃ n, l = some (t, n) ∧ l' = (t, n + 1) := by
  cases l with
  | none =>
    refine Or.inl ⟨rfl, ?_⟩
    injection h with h
    exact h.symm
  | some x =>
    obtain ⟨u, n⟩ := x
    by_cases e : u = t
    · subst e
      refine Or.inr ⟨n, rfl, ?_⟩
      change (if u = u then some (u, n + 1) else none) = some l' at h
      rw [if_pos rfl] at h
      injection h with h
      exact h.symm
    · change (if u = t then some (u, n + 1) else none) = some l' at h
      rw [if_neg e] at h
      cases h

/-- A step that only changes the phase of the innermost frame, none of the phases being a computation,
keeps the number of computations. -/
theorem Good.once_same {rank : Q → ℕ} {bodies : List (Event T O Q V) → O → Q → Body O Q V}
    {s : Shared T O Q V} (h : Good rank bodies s) {t : T} {th : Thread O Q V}
    {log' : List (Event T O Q V)}
    (hb : ∀ o q, (∃ f ∈ th.stack, f.Running o q) ↔ ∃ f ∈ (s.threads t).stack, f.Running o q)
    (h1 : ∀ o q, log'.count (.start o q) = s.log.count (.start o q))
    (h2 : ∀ o q, log'.count (.fail o q) = s.log.count (.fail o q)) (o : O) (q : Q) :
    (s.dict o q = none ∧ ¬ Busy (s.move t th) o q ∧
        log'.count (.start o q) = log'.count (.fail o q)) ∨
      ((s.dict o q ≠ none ∨ Busy (s.move t th) o q) ∧
        log'.count (.start o q) = log'.count (.fail o q) + 1) := by
  rw [busy_same (hb o q), h1, h2]
  exact h.once o q

theorem not_running_enter {o o' : O} {q q' : Q} : ¬ (⟨o, q, .enter⟩ : Frame O Q V).Running o' q' := by
  rintro ⟨-, -, b, hb⟩
  cases hb

theorem not_running_check {o o' : O} {q q' : Q} : ¬ (⟨o, q, .check⟩ : Frame O Q V).Running o' q' := by
  rintro ⟨-, -, b, hb⟩
  cases hb

theorem not_running_leave {o o' : O} {q q' : Q} {r : Option V} :
    ¬ (⟨o, q, .leave r⟩ : Frame O Q V).Running o' q' := by
  rintro ⟨-, -, b, hb⟩
  cases hb

/-- Entering the lock. -/
theorem good_enter {rank : Q → ℕ} {bodies : List (Event T O Q V) → O → Q → Body O Q V}
    {s : Shared T O Q V} (h : Good rank bodies s) {t : T} {o : O} {q : Q} {fs : List (Frame O Q V)}
    (hst : (s.threads t).stack = ⟨o, q, .enter⟩ :: fs) {l : T × ℕ} (hl : acquire (s.lock q) t = some l) :
    Good rank bodies (Shared.move ⟨Function.update s.lock q (some l), s.dict, s.threads, s.log⟩ t
      ⟨⟨o, q, .check⟩ :: fs, (s.threads t).client⟩) := by
  have hp := h.falling t
  have hk := h.linked t
  rw [hst] at hp hk
  have hp' := List.pairwise_cons.1 hp
  have hn : s.lock q = none ∧ l = (t, 1) := by
    rcases acquire_ok hl with e | ⟨n, e, -⟩
    · exact e
    · exfalso
      obtain ⟨-, f, hf, e1, hi⟩ := h.owner q t n e
      rw [hst] at hf
      rcases List.mem_cons.1 hf with rfl | hf
      · exact hi rfl
      · have := hp'.1 f hf
        rw [e1] at this
        exact Nat.lt_irrefl _ this
  obtain ⟨hn, rfl⟩ := hn
  refine h.transfer t _ hk.congr (List.pairwise_cons.2 hp') ?_ ?_ ?_ ?_ ?_ (fun o q => Or.inl rfl)
    (fun _ _ _ _ hr => Or.inl hr) (fun _ _ hr => Or.inl hr) ?_
  · intro q' u n hu hq
    by_cases e : q' = q
    · subst e
      rw [Function.update_self] at hq
      injection hq with hq
      injection hq with hq
      exact absurd hq.symm hu
    · rwa [Function.update_of_ne e] at hq
  · intro q' n hq
    by_cases e : q' = q
    · subst e
      rw [Function.update_self] at hq
      injection hq with hq
      injection hq with _ hq
      exact ⟨hq.symm, _, List.mem_cons_self, rfl, nofun⟩
    · rw [Function.update_of_ne e] at hq
      obtain ⟨h1, f, hf, h2, h3⟩ := h.owner q' t n hq
      refine ⟨h1, f, List.mem_cons_of_mem _ ?_, h2, h3⟩
      rw [hst] at hf
      rcases List.mem_cons.1 hf with rfl | hf
      · exact absurd rfl h3
      · exact hf
  · intro q' u hu hq
    by_cases e : q' = q
    · subst e
      rw [hn] at hq
      cases hq
    · rwa [Function.update_of_ne e]
  · intro f hf hi
    rcases List.mem_cons.1 hf with rfl | hf
    · exact Function.update_self _ _ _
    · have e : f.prop ≠ q := fun e => absurd (hp'.1 f hf) (by rw [e]; exact Nat.lt_irrefl _)
      rw [Function.update_of_ne e]
      exact h.held t f (hst ▸ List.mem_cons_of_mem _ hf) hi
  · intro f hf
    rcases List.mem_cons.1 hf with rfl | hf
    · trivial
    · exact h.ok t f (hst ▸ List.mem_cons_of_mem _ hf)
  · refine h.once_same (fun o' q' => ?_) (fun _ _ => rfl) fun _ _ => rfl
    rw [hst, running_cons, running_cons, or_iff_right not_running_check, or_iff_right not_running_enter]

/-- Steps that keep all locks: what remains to be shown about them. -/
theorem Good.inner {rank : Q → ℕ} {bodies : List (Event T O Q V) → O → Q → Body O Q V}
    {s : Shared T O Q V} (h : Good rank bodies s) {t : T} {o : O} {q : Q} {ph ph' : Phase O Q V}
    {fs : List (Frame O Q V)} (hst : (s.threads t).stack = ⟨o, q, ph⟩ :: fs) (hi : ph ≠ .enter)
    (hi' : ph' ≠ .enter) {dict' : O → Q → Option V} {log' : List (Event T O Q V)}
    (ok : (⟨o, q, ph'⟩ : Frame O Q V).Ok rank bodies dict')
    (dict : ∀ o' q', dict' o' q' = s.dict o' q' ∨ (s.dict o' q' = none ∧ o' = o ∧ q' = q ∧
      ∃ v, dict' o' q' = some v ∧ Computed bodies o q (some v)))
    (result : ∀ t o q r, .result t o q r ∈ log' → .result t o q r ∈ s.log)
    (failed : ∀ o q, .fail o q ∈ log' → .fail o q ∈ s.log ∨ Computed bodies o q none)
    (once : ∀ o' q', (dict' o' q' = none ∧
        ¬ Busy (s.move t ⟨⟨o, q, ph'⟩ :: fs, (s.threads t).client⟩) o' q' ∧
        log'.count (.start o' q') = log'.count (.fail o' q')) ∨
      ((dict' o' q' ≠ none ∨ Busy (s.move t ⟨⟨o, q, ph'⟩ :: fs, (s.threads t).client⟩) o' q') ∧
        log'.count (.start o' q') = log'.count (.fail o' q') + 1)) :
    Good rank bodies (Shared.move ⟨s.lock, dict', s.threads, log'⟩ t
      ⟨⟨o, q, ph'⟩ :: fs, (s.threads t).client⟩) := by
  have hp := h.falling t
  have hk := h.linked t
  rw [hst] at hp hk
  have hp' := List.pairwise_cons.1 hp
  have hq : s.lock q = some (t, 1) := h.held t ⟨o, q, ph⟩ (hst ▸ List.mem_cons_self) hi
  refine h.transfer t _ hk.congr (List.pairwise_cons.2 hp') (fun _ _ _ _ e => e) ?_
    (fun _ _ _ e => e) ?_ ?_ ?_ (fun t o q r hr => Or.inl (result t o q r hr)) failed once
  · intro q' n hq'
    obtain ⟨h1, f, hf, h2, h3⟩ := h.owner q' t n hq'
    rw [hst] at hf
    rcases List.mem_cons.1 hf with rfl | hf
    · exact ⟨h1, _, List.mem_cons_self, h2, hi'⟩
    · exact ⟨h1, f, List.mem_cons_of_mem _ hf, h2, h3⟩
  · intro f hf hfi
    rcases List.mem_cons.1 hf with rfl | hf
    · exact hq
    · exact h.held t f (hst ▸ List.mem_cons_of_mem _ hf) hfi
  · intro f hf
    rcases List.mem_cons.1 hf with rfl | hf
    · exact ok
    · have e : f.prop ≠ q := (h.alone hst hi).1 f hf
      have e' : dict' f.obj f.prop = s.dict f.obj f.prop := by
        rcases dict f.obj f.prop with e' | ⟨-, -, e', -⟩
        · exact e'
        · exact absurd e' e
      exact (h.ok t f (hst ▸ List.mem_cons_of_mem _ hf)).mono (fun _ _ => e') fun v hv => e'.trans hv
  · intro o' q'
    rcases dict o' q' with e | ⟨e, rfl, rfl, e'⟩
    · exact Or.inl e
    · exact Or.inr ⟨e, hq, e'⟩

/-- The value is in the dictionary. -/
theorem good_hit {rank : Q → ℕ} {bodies : List (Event T O Q V) → O → Q → Body O Q V}
    {s : Shared T O Q V} (h : Good rank bodies s) {t : T} {o : O} {q : Q} {fs : List (Frame O Q V)}
    (hst : (s.threads t).stack = ⟨o, q, .check⟩ :: fs) {v : V} (hv : s.dict o q = some v) :
    Good rank bodies (s.move t ⟨⟨o, q, .leave (some v)⟩ :: fs, (s.threads t).client⟩) := by
  refine h.inner hst (ph' := .leave (some v)) nofun nofun ⟨h.stored o q v hv, fun w hw => ?_⟩ (fun _ _ => Or.inl rfl)
    (fun _ _ _ _ hr => hr) (fun _ _ hr => Or.inl hr) ?_
  · injection hw with hw
    exact hw ▸ hv
  · refine h.once_same (fun o' q' => ?_) (fun _ _ => rfl) fun _ _ => rfl
    rw [hst, running_cons, running_cons, or_iff_right not_running_check, or_iff_right not_running_leave]

theorem Good.not_busy {rank : Q → ℕ} {bodies : List (Event T O Q V) → O → Q → Body O Q V}
    {s : Shared T O Q V} (h : Good rank bodies s) {t : T} {o : O} {q : Q} {ph ph' : Phase O Q V}
    {fs : List (Frame O Q V)} (hst : (s.threads t).stack = ⟨o, q, ph⟩ :: fs) (hi : ph ≠ .enter)
    (hr : ∀ b, ph' ≠ .run b) (c : Body O Q V) :
    ¬ Busy (s.move t ⟨⟨o, q, ph'⟩ :: fs, c⟩) o q := by
  rw [busy_move]
  rintro (⟨f, hf, hrun⟩ | ⟨u, hu, f, hf, hrun⟩)
  · rcases List.mem_cons.1 hf with rfl | hf
    · obtain ⟨-, -, b, hb⟩ := hrun
      exact hr b hb
    · exact (h.alone hst hi).1 f hf hrun.2.1
  · exact (h.alone hst hi).2 u hu f hf (running_inside hrun) hrun.2.1

theorem once_other {s : Shared T O Q V} {t : T} {o o' : O} {q q' : Q} {ph ph' : Phase O Q V}
    {fs : List (Frame O Q V)} (hst : (s.threads t).stack = ⟨o, q, ph⟩ :: fs) (e : ¬ (o' = o ∧ q' = q))
    (c : Body O Q V) :
    Busy (s.move t ⟨⟨o, q, ph'⟩ :: fs, c⟩) o' q' ↔ Busy s o' q' := by
  refine busy_same ?_
  rw [hst, running_cons, running_cons, or_iff_right fun hr => e ⟨hr.1.symm, hr.2.1.symm⟩,
    or_iff_right fun hr => e ⟨hr.1.symm, hr.2.1.symm⟩]

theorem count_fail_start (l : List (Event T O Q V)) (o o' : O) (q q' : Q) :
    (Event.start o q :: l).count (.fail o' q') = l.count (.fail o' q') := by
  refine List.count_cons_of_ne ?_
  nofun

theorem count_start_fail (l : List (Event T O Q V)) (o o' : O) (q q' : Q) :
    (Event.fail o q :: l).count (.start o' q') = l.count (.start o' q') := by
  refine List.count_cons_of_ne ?_
  nofun

/-- The computation starts. -/
theorem good_miss {rank : Q → ℕ} {bodies : List (Event T O Q V) → O → Q → Body O Q V}
    (hl : Layered rank bodies)
    {s : Shared T O Q V} (h : Good rank bodies s) {t : T} {o : O} {q : Q} {fs : List (Frame O Q V)}
    (hst : (s.threads t).stack = ⟨o, q, .check⟩ :: fs) (hv : s.dict o q = none) :
    Good rank bodies (Shared.move ⟨s.lock, s.dict, s.threads, .start o q :: s.log⟩ t
      ⟨⟨o, q, .run (bodies s.log o q)⟩ :: fs, (s.threads t).client⟩) := by
  refine h.inner hst (ph' := .run (bodies s.log o q)) nofun nofun ⟨hl _ _ _, hv, fun r hr => ⟨_, hr⟩⟩ (fun _ _ => Or.inl rfl)
    ?_ ?_ ?_
  · intro t o q r hr
    rcases List.mem_cons.1 hr with hr | hr
    · cases hr
    · exact hr
  · intro o q hr
    rcases List.mem_cons.1 hr with hr | hr
    · cases hr
    · exact Or.inl hr
  · intro o' q'
    by_cases e : o' = o ∧ q' = q
    · obtain ⟨rfl, rfl⟩ := e
      have hb : ¬ Busy s o' q' := by
        have := h.not_busy hst nofun (ph' := .check) nofun (s.threads t).client
        rw [busy_same] at this
        · exact this
        · rw [hst]
      right
      refine ⟨Or.inr (busy_move.2 (Or.inl ⟨_, List.mem_cons_self, rfl, rfl, _, rfl⟩)), ?_⟩
      rcases h.once o' q' with ⟨-, -, e⟩ | ⟨e | e, -⟩
      · rw [List.count_cons_self, count_fail_start, e]
      · exact absurd hv e
      · exact absurd e hb
    · rw [once_other hst e, List.count_cons_of_ne, count_fail_start]
      · exact h.once o' q'
      · intro e'
        injection e' with e1 e2
        exact e ⟨e1.symm, e2.symm⟩

/-- The computation returns and the value is stored. -/
theorem good_ret {rank : Q → ℕ} {bodies : List (Event T O Q V) → O → Q → Body O Q V}
    {s : Shared T O Q V} (h : Good rank bodies s) {t : T} {o : O} {q : Q} {fs : List (Frame O Q V)} {v : V}
    (hst : (s.threads t).stack = ⟨o, q, .run (.ret v)⟩ :: fs) :
    Good rank bodies (Shared.move ⟨s.lock, setDefault s.dict o q v, s.threads, s.log⟩ t
      ⟨⟨o, q, .leave (some ((s.dict o q).getD v))⟩ :: fs, (s.threads t).client⟩) := by
  obtain ⟨-, hv, hc⟩ := h.ok t _ (hst ▸ List.mem_cons_self)
  change s.dict o q = none at hv
  have hc' : Computed bodies o q (some v) := hc _ (.ret v)
  have hd : setDefault s.dict o q v o q = some v := by
    unfold setDefault
    rw [if_pos ⟨rfl, rfl⟩, hv]
    rfl
  rw [hv]
  refine h.inner hst (ph' := .leave (some v)) nofun nofun ⟨hc', fun w hw => ?_⟩ ?_ (fun _ _ _ _ hr => hr)
    (fun _ _ hr => Or.inl hr) ?_
  · exact hd.trans hw
  · intro o' q'
    by_cases e : o' = o ∧ q' = q
    · obtain ⟨rfl, rfl⟩ := e
      exact Or.inr ⟨hv, rfl, rfl, v, hd, hc'⟩
    · exact Or.inl (if_neg e)
  · intro o' q'
    by_cases e : o' = o ∧ q' = q
    · obtain ⟨rfl, rfl⟩ := e
      right
      refine ⟨Or.inl (by rw [hd]; nofun), ?_⟩
      rcases h.once o' q' with ⟨-, e, -⟩ | ⟨-, e⟩
      · exact absurd ⟨t, _, hst ▸ List.mem_cons_self, rfl, rfl, _, rfl⟩ e
      · exact e
    · rw [once_other hst e]
      have e' : setDefault s.dict o q v o' q' = s.dict o' q' := if_neg e
      rw [e']
      exact h.once o' q'

/-- The computation raises. -/
theorem good_fail {rank : Q → ℕ} {bodies : List (Event T O Q V) → O → Q → Body O Q V}
    {s : Shared T O Q V} (h : Good rank bodies s) {t : T} {o : O} {q : Q} {fs : List (Frame O Q V)}
    (hst : (s.threads t).stack = ⟨o, q, .run .fail⟩ :: fs) :
    Good rank bodies (Shared.move ⟨s.lock, s.dict, s.threads, .fail o q :: s.log⟩ t
      ⟨⟨o, q, .leave none⟩ :: fs, (s.threads t).client⟩) := by
  obtain ⟨-, hv, hc⟩ := h.ok t _ (hst ▸ List.mem_cons_self)
  change s.dict o q = none at hv
  have hc' : Computed bodies o q none := hc _ .fail
  refine h.inner hst (ph' := .leave none) nofun nofun ⟨hc', nofun⟩ (fun _ _ => Or.inl rfl) ?_ ?_ ?_
  · intro t o q r hr
    rcases List.mem_cons.1 hr with hr | hr
    · cases hr
    · exact hr
  · intro o' q' hr
    rcases List.mem_cons.1 hr with hr | hr
    · injection hr with e1 e2
      subst e1 e2
      exact Or.inr hc'
    · exact Or.inl hr
  · intro o' q'
    by_cases e : o' = o ∧ q' = q
    · obtain ⟨rfl, rfl⟩ := e
      left
      refine ⟨hv, h.not_busy hst nofun (ph' := .leave none) nofun _, ?_⟩
      rcases h.once o' q' with ⟨-, e, -⟩ | ⟨-, e⟩
      · exact absurd ⟨t, _, hst ▸ List.mem_cons_self, rfl, rfl, _, rfl⟩ e
      · rw [List.count_cons_self, count_start_fail, e]
    · rw [once_other hst e, count_start_fail, List.count_cons_of_ne]
      · exact h.once o' q'
      · intro e'
        injection e' with e1 e2
        exact e ⟨e1.symm, e2.symm⟩

/-- The computation reads another property. -/
theorem good_call {rank : Q → ℕ} {bodies : List (Event T O Q V) → O → Q → Body O Q V}
    {s : Shared T O Q V} (h : Good rank bodies s) {t : T} {f : Frame O Q V} {fs : List (Frame O Q V)}
    {o : O} {q : Q} {k : Option V → Body O Q V} (hf : f.phase = .run (.read o q k))
    (hst : (s.threads t).stack = f :: fs) :
    Good rank bodies (s.move t ⟨⟨o, q, .enter⟩ :: f :: fs, (s.threads t).client⟩) := by
  have hp := h.falling t
  have hk := h.linked t
  have hok := h.ok t f (hst ▸ List.mem_cons_self)
  unfold Frame.Ok at hok
  rw [hf] at hok
  obtain ⟨hb, -, -⟩ := hok
  have hb' : rank q < rank f.prop := by
    cases hb with
    | read _ _ _ h _ => exact h
  rw [hst] at hp hk
  have hp' := List.pairwise_cons.1 hp
  refine h.transfer t _ ⟨⟨k, hf⟩, hk⟩ (List.pairwise_cons.2 ⟨?_, hp⟩) (fun _ _ _ _ e => e) ?_
    (fun _ _ _ e => e) ?_ ?_ (fun _ _ => Or.inl rfl) (fun _ _ _ _ hr => Or.inl hr)
    (fun _ _ hr => Or.inl hr) ?_
  · intro g hg
    rcases List.mem_cons.1 hg with rfl | hg
    · exact hb'
    · exact Nat.lt_trans hb' (hp'.1 g hg)
  · intro q' n hq'
    obtain ⟨h1, g, hg, h2, h3⟩ := h.owner q' t n hq'
    rw [hst] at hg
    exact ⟨h1, g, List.mem_cons_of_mem _ hg, h2, h3⟩
  · intro g hg hi
    rcases List.mem_cons.1 hg with rfl | hg
    · exact absurd rfl hi
    · exact h.held t g (hst ▸ hg) hi
  · intro g hg
    rcases List.mem_cons.1 hg with rfl | hg
    · trivial
    · exact h.ok t g (hst ▸ hg)
  · refine h.once_same (fun o' q' => ?_) (fun _ _ => rfl) fun _ _ => rfl
    rw [hst, running_cons, or_iff_right not_running_enter]

/-- The program reads a property. -/
theorem good_client {rank : Q → ℕ} {bodies : List (Event T O Q V) → O → Q → Body O Q V}
    {s : Shared T O Q V} (h : Good rank bodies s) {t : T} {o : O} {q : Q} {k : Option V → Body O Q V}
    (hc : (s.threads t).client = .read o q k) (hst : (s.threads t).stack = []) :
    Good rank bodies (s.move t ⟨[⟨o, q, .enter⟩], (s.threads t).client⟩) := by
  refine h.transfer t _ ⟨k, hc⟩ (List.pairwise_singleton _ _) (fun _ _ _ _ e => e) ?_
    (fun _ _ _ e => e) ?_ ?_ (fun _ _ => Or.inl rfl) (fun _ _ _ _ hr => Or.inl hr)
    (fun _ _ hr => Or.inl hr) ?_
  · intro q' n hq'
    obtain ⟨h1, g, hg, h2, h3⟩ := h.owner q' t n hq'
    rw [hst] at hg
    cases hg
  · intro g hg hi
    rcases List.mem_cons.1 hg with rfl | hg
    · exact absurd rfl hi
    · cases hg
  · intro g hg
    rcases List.mem_cons.1 hg with rfl | hg
    · trivial
    · cases hg
  · refine h.once_same (fun o' q' => ?_) (fun _ _ => rfl) fun _ _ => rfl
    rw [hst, running_cons, or_iff_right not_running_enter]

/-- The read ends. -/
theorem good_leave {rank : Q → ℕ} {bodies : List (Event T O Q V) → O → Q → Body O Q V}
    {s : Shared T O Q V} (h : Good rank bodies s) {t : T} {o : O} {q : Q} {fs : List (Frame O Q V)}
    {r : Option V} (hst : (s.threads t).stack = ⟨o, q, .leave r⟩ :: fs) :
    Good rank bodies (Shared.move ⟨Function.update s.lock q (release (s.lock q)), s.dict, s.threads,
      .result t o q r :: s.log⟩ t (Thread.resume r fs (s.threads t).client)) := by
  have hi : (⟨o, q, .leave r⟩ : Frame O Q V).Inside := nofun
  have hp := h.falling t
  have hk := h.linked t
  have hal := (h.alone hst hi).1
  obtain ⟨hc, hd⟩ := h.ok t _ (hst ▸ List.mem_cons_self)
  have hq : s.lock q = some (t, 1) := h.held t ⟨o, q, .leave r⟩ (hst ▸ List.mem_cons_self) hi
  have hrel : release (s.lock q) = none := by
    rw [hq]
    rfl
  rw [hst] at hp hk
  have hp' := List.pairwise_cons.1 hp
  rw [hrel]
  have main : ∀ th : Thread O Q V, Linked th.stack th.client →
      th.stack.map Frame.prop = fs.map Frame.prop →
      (∀ f ∈ th.stack, f.Ok rank bodies s.dict) →
      (∀ f ∈ th.stack, f.Inside → ∃ g ∈ fs, g.prop = f.prop ∧ g.Inside) →
      (∀ g ∈ fs, ∃ f ∈ th.stack, f.prop = g.prop ∧ (g.Inside → f.Inside)) →
      (∀ o' q', (∃ f ∈ th.stack, f.Running o' q') ↔ ∃ f ∈ fs, f.Running o' q') →
      Good rank bodies (Shared.move ⟨Function.update s.lock q none, s.dict, s.threads,
        .result t o q r :: s.log⟩ t th) := by
    intro th m1 m2 m3 m4 m5 m6
    refine h.transfer t th m1 ?_ ?_ ?_ ?_ ?_ m3 (fun _ _ => Or.inl rfl) ?_ ?_ ?_
    · have e := hp'.2
      rw [← List.pairwise_map (f := Frame.prop) (R := fun a b => rank a < rank b)] at e ⊢
      rwa [m2]
    · intro q' u n hu hq'
      by_cases e : q' = q
      · subst e
        rw [Function.update_self] at hq'
        cases hq'
      · rwa [Function.update_of_ne e] at hq'
    · intro q' n hq'
      by_cases e : q' = q
      · subst e
        rw [Function.update_self] at hq'
        cases hq'
      · rw [Function.update_of_ne e] at hq'
        obtain ⟨h1, g, hg, h2, h3⟩ := h.owner q' t n hq'
        rw [hst] at hg
        rcases List.mem_cons.1 hg with rfl | hg
        · exact absurd h2.symm e
        · obtain ⟨f, hf, e1, e2⟩ := m5 g hg
          exact ⟨h1, f, hf, e1.trans h2, e2 h3⟩
    · intro q' u hu hq'
      by_cases e : q' = q
      · subst e
        rw [hq] at hq'
        injection hq' with hq'
        injection hq' with hq'
        exact absurd hq'.symm hu
      · rwa [Function.update_of_ne e]
    · intro f hf hfi
      obtain ⟨g, hg, e1, e2⟩ := m4 f hf hfi
      have e3 : f.prop ≠ q := e1 ▸ hal g hg
      rw [Function.update_of_ne e3, ← e1]
      exact h.held t g (hst ▸ List.mem_cons_of_mem _ hg) e2
    · intro t' o' q' r' hr
      rcases List.mem_cons.1 hr with hr | hr
      · injection hr with _ e1 e2 e3
        subst e1 e2 e3
        exact Or.inr ⟨hc, hd⟩
      · exact Or.inl hr
    · intro o' q' hr
      rcases List.mem_cons.1 hr with hr | hr
      · cases hr
      · exact Or.inl hr
    · have n1 : ∀ o' q', (Event.result t o q r :: s.log).count (.start o' q') =
          s.log.count (.start o' q') := by
        intro o' q'
        refine List.count_cons_of_ne ?_
        nofun
      have n2 : ∀ o' q', (Event.result t o q r :: s.log).count (.fail o' q') =
          s.log.count (.fail o' q') := by
        intro o' q'
        refine List.count_cons_of_ne ?_
        nofun
      refine h.once_same (fun o' q' => ?_) n1 n2
      rw [hst, running_cons, or_iff_right not_running_leave]
      exact m6 o' q'
  cases fs with
  | nil =>
    refine main ⟨[], _⟩ trivial rfl ?_ ?_ ?_ fun _ _ => Iff.rfl
    · intro f hf
      cases hf
    · intro f hf
      cases hf
    · intro f hf
      cases hf
  | cons g fs =>
    obtain ⟨⟨k, hg⟩, hk⟩ := hk
    obtain ⟨o', q', ph⟩ := g
    change ph = _ at hg
    subst hg
    obtain ⟨b1, b2, b3⟩ := h.ok t ⟨o', q', .run (.read o q k)⟩
      (hst ▸ List.mem_cons_of_mem _ List.mem_cons_self)
    refine main ⟨⟨o', q', .run (k r)⟩ :: fs, _⟩ hk.congr rfl ?_ ?_ ?_ ?_
    · intro f hf
      rcases List.mem_cons.1 hf with rfl | hf
      · refine ⟨?_, b2, ?_⟩
        · cases b1 with
          | read _ _ _ _ hk => exact hk r
        · intro x hx
          obtain ⟨l, hl⟩ := hc
          exact b3 x (.read o q k l r x hl hx)
      · exact h.ok t f (hst ▸ List.mem_cons_of_mem _ (List.mem_cons_of_mem _ hf))
    · intro f hf hfi
      rcases List.mem_cons.1 hf with rfl | hf
      · exact ⟨_, List.mem_cons_self, rfl, nofun⟩
      · exact ⟨f, List.mem_cons_of_mem _ hf, rfl, hfi⟩
    · intro f hf
      rcases List.mem_cons.1 hf with rfl | hf
      · exact ⟨_, List.mem_cons_self, rfl, fun _ => nofun⟩
      · exact ⟨f, List.mem_cons_of_mem _ hf, rfl, fun e => e⟩
    · intro o1 q1
      rw [running_cons, running_cons]
      refine or_congr_left ?_
      constructor
      · rintro ⟨e1, e2, -⟩
        exact ⟨e1, e2, _, rfl⟩
      · rintro ⟨e1, e2, -⟩
        exact ⟨e1, e2, _, rfl⟩

theorem good_step {rank : Q → ℕ} {bodies : List (Event T O Q V) → O → Q → Body O Q V}
    (hl : Layered rank bodies) {s s' : Shared T O Q V} (h : Good rank bodies s) {t : T}
    (hs : stepThread bodies s t = some s') : Good rank bodies s' := by
  unfold stepThread at hs
  cases hst : (s.threads t).stack with
  | nil =>
    rw [hst] at hs
    cases hc : (s.threads t).client with
    | ret v =>
      rw [hc] at hs
      cases hs
    | fail =>
      rw [hc] at hs
      cases hs
    | read o q k =>
      have hs' : some (s.move t ⟨[⟨o, q, .enter⟩], (s.threads t).client⟩) = some s' := by
        rw [hc] at hs ⊢
        exact hs
      injection hs' with hs'
      exact hs' ▸ good_client h hc hst
  | cons f fs =>
    rw [hst] at hs
    change stepFrame bodies s t f fs (s.threads t).client = some s' at hs
    obtain ⟨o, q, ph⟩ := f
    cases ph with
    | enter =>
      change (match acquire (s.lock q) t with | none => none | some l => some _) = _ at hs
      cases ha : acquire (s.lock q) t with
      | none =>
        rw [ha] at hs
        cases hs
      | some l =>
        rw [ha] at hs
        injection hs with hs
        exact hs ▸ good_enter h hst ha
    | check =>
      change (match s.dict o q with | some v => some _ | none => some _) = _ at hs
      cases hd : s.dict o q with
      | none =>
        rw [hd] at hs
        injection hs with hs
        exact hs ▸ good_miss hl h hst hd
      | some v =>
        rw [hd] at hs
        injection hs with hs
        exact hs ▸ good_hit h hst hd
    | run b =>
      cases b with
      | ret v =>
        injection hs with hs
        exact hs ▸ good_ret h hst
      | fail =>
        injection hs with hs
        exact hs ▸ good_fail h hst
      | read o' q' k =>
        injection hs with hs
        exact hs ▸ good_call h rfl hst
    | leave r =>
      injection hs with hs
      exact hs ▸ good_leave h hst

theorem reachable_good {rank : Q → ℕ} {bodies : List (Event T O Q V) → O → Q → Body O Q V}
    (hl : Layered rank bodies) {programs : T → Body O Q V} {s : Shared T O Q V}
    (h : Reachable bodies programs s) : Good rank bodies s := by
  induction h with
  | initial => exact initial_good rank bodies programs
  | step t _ hs ih => exact good_step hl ih hs

/-- C66. A computation that does not raise runs at most once, in any schedule; in general it never starts
again unless it raised before. -/
theorem C66_computed_once {rank : Q → ℕ} {bodies : List (Event T O Q V) → O → Q → Body O Q V}
    (hl : Layered rank bodies) {programs : T → Body O Q V} {s : Shared T O Q V}
    (h : Reachable bodies programs s) (o : O) (q : Q) :
    s.log.count (.start o q) ≤ s.log.count (.fail o q) + 1 ∧
      (¬ Computed bodies o q none → s.log.count (.start o q) ≤ 1) := by
  have hg := reachable_good hl h
  have h1 : s.log.count (.start o q) ≤ s.log.count (.fail o q) + 1 := by
    rcases hg.once o q with ⟨-, -, e⟩ | ⟨-, e⟩ <;> omega
  refine ⟨h1, fun hn => ?_⟩
  have h2 : s.log.count (.fail o q) = 0 := List.count_eq_zero.2 fun hm => hn (hg.failed o q hm)
  omega

/-- C66. All reads of a property of an object that do not raise return the same value, whichever threads
do them and however they interleave, and it is a value that the computation gives. -/
theorem C66_one_value {rank : Q → ℕ} {bodies : List (Event T O Q V) → O → Q → Body O Q V}
    (hl : Layered rank bodies) {programs : T → Body O Q V} {s : Shared T O Q V}
    (h : Reachable bodies programs s) {t u : T} {o : O} {q : Q} {v w : V}
    (hv : .result t o q (some v) ∈ s.log) (hw : .result u o q (some w) ∈ s.log) :
    v = w ∧ Computed bodies o q (some v) := by
  have hg := reachable_good hl h
  obtain ⟨h1, h2⟩ := hg.result t o q _ hv
  obtain ⟨-, h4⟩ := hg.result u o q _ hw
  have e := (h2 v rfl).symm.trans (h4 w rfl)
  injection e with e
  exact ⟨e, h1⟩

/-- A read raises only if the computation raises. -/
theorem C66_raises {rank : Q → ℕ} {bodies : List (Event T O Q V) → O → Q → Body O Q V}
    (hl : Layered rank bodies) {programs : T → Body O Q V} {s : Shared T O Q V}
    (h : Reachable bodies programs s) {t : T} {o : O} {q : Q} (hv : .result t o q none ∈ s.log) :
    Computed bodies o q none :=
  ((reachable_good hl h).result t o q _ hv).1

/-- The thread has no read in progress and none to come. -/
def Thread.Finished (th : Thread O Q V) : Prop := th.stack = [] ∧ ∀ o q k, th.client ≠ .read o q k

/-- C66. No schedule deadlocks: as long as some thread is not finished, some thread can move on. -/
theorem C66_no_deadlock {rank : Q → ℕ} {bodies : List (Event T O Q V) → O → Q → Body O Q V}
    (hl : Layered rank bodies) {programs : T → Body O Q V} {s : Shared T O Q V}
    (h : Reachable bodies programs s) {t : T} (ht : ¬ (s.threads t).Finished) :
    ∃ u, (stepThread bodies s u).isSome := by
  have hg := reachable_good hl h
  -- A thread that waits for the lock of a property of rank `n`.
  have wait : ∀ n, ∀ t o q fs, rank q = n → (s.threads t).stack = ⟨o, q, .enter⟩ :: fs →
      ∃ u, (stepThread bodies s u).isSome := by
    intro n
    induction n using Nat.strongRecOn with
    | _ n ih =>
      intro t o q fs hn hst
      cases ha : acquire (s.lock q) t with
      | some l =>
        refine ⟨t, ?_⟩
        unfold stepThread
        rw [hst]
        change (match acquire (s.lock q) t with | none => none | some l => some _ :
          Option (Shared T O Q V)).isSome
        rw [ha]
        rfl
      | none =>
        cases hq : s.lock q with
        | none =>
          rw [hq] at ha
          cases ha
        | some x =>
          obtain ⟨u, m⟩ := x
          obtain ⟨-, f, hf, e1, e2⟩ := hg.owner q u m hq
          cases hu : (s.threads u).stack with
          | nil =>
            rw [hu] at hf
            cases hf
          | cons g gs =>
            obtain ⟨o', q', ph⟩ := g
            by_cases hph : ph = .enter
            · subst hph
              refine ih (rank q') ?_ u o' q' gs rfl hu
              rw [hu] at hf
              rcases List.mem_cons.1 hf with rfl | hf
              · exact absurd rfl e2
              · have hp := hg.falling u
                rw [hu, List.pairwise_cons] at hp
                have := hp.1 f hf
                rw [e1, hn] at this
                exact this
            · refine ⟨u, ?_⟩
              unfold stepThread
              rw [hu]
              cases ph with
              | enter => exact absurd rfl hph
              | check =>
                change (match s.dict o' q' with | some v => some _ | none => some _ :
                  Option (Shared T O Q V)).isSome
                cases s.dict o' q' <;> rfl
              | run b => cases b <;> rfl
              | leave r => rfl
  cases hst : (s.threads t).stack with
  | nil =>
    refine ⟨t, ?_⟩
    unfold stepThread
    rw [hst]
    cases hc : (s.threads t).client with
    | read o q k => rfl
    | ret v =>
      refine absurd ⟨hst, ?_⟩ ht
      intro o q k
      rw [hc]
      nofun
    | fail =>
      refine absurd ⟨hst, ?_⟩ ht
      intro o q k
      rw [hc]
      nofun
  | cons f fs =>
    obtain ⟨o, q, ph⟩ := f
    by_cases hph : ph = .enter
    · subst hph
      exact wait _ t o q fs rfl hst
    · refine ⟨t, ?_⟩
      unfold stepThread
      rw [hst]
      cases ph with
      | enter => exact absurd rfl hph
      | check =>
        change (match s.dict o q with | some v => some _ | none => some _ :
          Option (Shared T O Q V)).isSome
        cases s.dict o q <;> rfl
      | run b => cases b <;> rfl
      | leave r => rfl

end Verif
