import Verif.Props.Cached
import Mathlib.Data.DFinsupp.WellFounded

/-!
# Property C66: every schedule ends, and the properties of the two classes
-/

set_option linter.unusedSectionVars false

namespace Verif

variable {T O Q V : Type} [DecidableEq T] [DecidableEq O] [DecidableEq Q] [DecidableEq V]

/-- How a thread may change in one step, whatever the other threads do: `ThreadStep bodies th' th` if `th`
may become `th'`. -/
inductive ThreadStep (bodies : List (Event T O Q V) → O → Q → Body O Q V) :
    Thread O Q V → Thread O Q V → Prop
  | client (o : O) (q : Q) (k : Option V → Body O Q V) :
      ThreadStep bodies ⟨[⟨o, q, .enter⟩], .read o q k⟩ ⟨[], .read o q k⟩
  | enter (o : O) (q : Q) (fs : List (Frame O Q V)) (c : Body O Q V) :
      ThreadStep bodies ⟨⟨o, q, .check⟩ :: fs, c⟩ ⟨⟨o, q, .enter⟩ :: fs, c⟩
  | hit (o : O) (q : Q) (fs : List (Frame O Q V)) (c : Body O Q V) (r : Option V) :
      ThreadStep bodies ⟨⟨o, q, .leave r⟩ :: fs, c⟩ ⟨⟨o, q, .check⟩ :: fs, c⟩
  | miss (o : O) (q : Q) (fs : List (Frame O Q V)) (c : Body O Q V) (l : List (Event T O Q V)) :
      ThreadStep bodies ⟨⟨o, q, .run (bodies l o q)⟩ :: fs, c⟩ ⟨⟨o, q, .check⟩ :: fs, c⟩
  | ret (o : O) (q : Q) (fs : List (Frame O Q V)) (c : Body O Q V) (v : V) (r : Option V) :
      ThreadStep bodies ⟨⟨o, q, .leave r⟩ :: fs, c⟩ ⟨⟨o, q, .run (.ret v)⟩ :: fs, c⟩
  | fail (o : O) (q : Q) (fs : List (Frame O Q V)) (c : Body O Q V) :
      ThreadStep bodies ⟨⟨o, q, .leave none⟩ :: fs, c⟩ ⟨⟨o, q, .run .fail⟩ :: fs, c⟩
  | call (o : O) (q : Q) (fs : List (Frame O Q V)) (c : Body O Q V) (o' : O) (q' : Q)
      (k : Option V → Body O Q V) :
      ThreadStep bodies ⟨⟨o', q', .enter⟩ :: ⟨o, q, .run (.read o' q' k)⟩ :: fs, c⟩
        ⟨⟨o, q, .run (.read o' q' k)⟩ :: fs, c⟩
  | leave (o : O) (q : Q) (fs : List (Frame O Q V)) (c : Body O Q V) (r : Option V) :
      ThreadStep bodies (Thread.resume r fs c) ⟨⟨o, q, .leave r⟩ :: fs, c⟩

theorem acc_frame {rank : Q → ℕ} {bodies : List (Event T O Q V) → O → Q → Body O Q V}
    (hl : Layered rank bodies) (n : ℕ) : ∀ (o : O) (q : Q) (fs : List (Frame O Q V)) (c : Body O Q V),
    rank q = n → (∀ r, Acc (ThreadStep bodies) (Thread.resume r fs c)) →
    Acc (ThreadStep bodies) ⟨⟨o, q, .enter⟩ :: fs, c⟩ := by
  induction n using Nat.strongRecOn with
  | _ n ih =>
    intro o q fs c hn hr
    have leave : ∀ r, Acc (ThreadStep bodies) ⟨⟨o, q, .leave r⟩ :: fs, c⟩ := by
      intro r
      refine ⟨_, fun th' h => ?_⟩
      cases h with
      | leave _ _ _ _ _ => exact hr r
    have run : ∀ b : Body O Q V, b.Below rank n →
        Acc (ThreadStep bodies) ⟨⟨o, q, .run b⟩ :: fs, c⟩ := by
      intro b hb
      induction hb with
      | ret v =>
        refine ⟨_, fun th' h => ?_⟩
        cases h with
        | ret _ _ _ _ _ r => exact leave r
      | fail =>
        refine ⟨_, fun th' h => ?_⟩
        cases h with
        | fail => exact leave none
      | read o' q' k h _ ihk =>
        refine ⟨_, fun th' hs => ?_⟩
        cases hs with
        | call => exact ih (rank q') h o' q' _ c rfl fun r => ihk r
    have check : Acc (ThreadStep bodies) ⟨⟨o, q, .check⟩ :: fs, c⟩ := by
      refine ⟨_, fun th' h => ?_⟩
      cases h with
      | hit _ _ _ _ r => exact leave r
      | miss _ _ _ _ l => exact run _ (hn ▸ hl l o q)
    refine ⟨_, fun th' h => ?_⟩
    cases h with
    | enter => exact check

theorem acc_client {rank : Q → ℕ} {bodies : List (Event T O Q V) → O → Q → Body O Q V}
    (hl : Layered rank bodies) (c : Body O Q V) : Acc (ThreadStep bodies) ⟨[], c⟩ := by
  induction c with
  | ret v =>
    refine ⟨_, fun th' h => ?_⟩
    cases h
  | fail =>
    refine ⟨_, fun th' h => ?_⟩
    cases h
  | read o q k ih =>
    refine ⟨_, fun th' h => ?_⟩
    cases h with
    | client => exact acc_frame hl _ o q [] _ rfl fun r => ih r

theorem thread_step {bodies : List (Event T O Q V) → O → Q → Body O Q V} {s s' : Shared T O Q V} {t : T}
    (hs : stepThread bodies s t = some s') : ∃ th, s'.threads = Function.update s.threads t th ∧
      ThreadStep bodies th (s.threads t) := by
  unfold stepThread at hs
  obtain ⟨th, hth⟩ : ∃ th, th = s.threads t := ⟨_, rfl⟩
  rw [← hth] at hs ⊢
  obtain ⟨st, c⟩ := th
  cases st with
  | nil =>
    cases c with
    | ret v => cases hs
    | fail => cases hs
    | read o q k =>
      injection hs with hs
      subst hs
      exact ⟨_, rfl, .client o q k⟩
  | cons f fs =>
    change stepFrame bodies s t f fs c = some s' at hs
    obtain ⟨o, q, ph⟩ := f
    cases ph with
    | enter =>
      change (match acquire (s.lock q) t with | none => none | some l => some _) = _ at hs
      cases ha : acquire (s.lock q) t with
      | none =>
        rw [ha] at hs
        cases hs
      | some l =>
        rw [ha] at hs
        injection hs with hs
        subst hs
        exact ⟨_, rfl, .enter o q fs c⟩
    | check =>
      change (match s.dict o q with | some v => some _ | none => some _) = _ at hs
      cases hd : s.dict o q with
      | none =>
        rw [hd] at hs
        injection hs with hs
        subst hs
        exact ⟨_, rfl, .miss o q fs c _⟩
      | some v =>
        rw [hd] at hs
        injection hs with hs
        subst hs
        exact ⟨_, rfl, .hit o q fs c _⟩
    | run b =>
      cases b with
      | ret v =>
        injection hs with hs
        subst hs
        exact ⟨_, rfl, .ret o q fs c v _⟩
      | fail =>
        injection hs with hs
        subst hs
        exact ⟨_, rfl, .fail o q fs c⟩
      | read o' q' k =>
        injection hs with hs
        subst hs
        exact ⟨_, rfl, .call o q fs c o' q' k⟩
    | leave r =>
      injection hs with hs
      subst hs
      exact ⟨_, rfl, .leave o q fs c r⟩

/-- C66. Every schedule of finitely many threads ends: there is no infinite one, and when no thread can
move on, all threads are finished. -/
theorem C66_every_schedule_ends {m : ℕ} {rank : Q → ℕ}
    {bodies : List (Event (Fin m) O Q V) → O → Q → Body O Q V} (hl : Layered rank bodies)
    (programs : Fin m → Body O Q V) :
    (¬ ∃ f : ℕ → Shared (Fin m) O Q V, f 0 = .initial programs ∧
      ∀ n, ∃ t, stepThread bodies (f n) t = some (f (n + 1))) ∧
    ∀ s, Reachable bodies programs s → (∀ t, stepThread bodies s t = none) →
      ∀ t, (s.threads t).Finished := by
  constructor
  · rintro ⟨f, h0, hf⟩
    let R : Thread O Q V → Thread O Q V → Prop := fun a b =>
      ThreadStep bodies a b ∧ Acc (ThreadStep bodies) b
    have wf : WellFounded R := by
      refine ⟨fun a => ⟨a, fun b hb => ?_⟩⟩
      have hb' := hb.2.inv hb.1
      clear hb
      induction hb' with
      | intro x _ ih => exact ⟨x, fun y hy => ih y hy.1⟩
    have acc : ∀ n t, Acc (ThreadStep bodies) ((f n).threads t) := by
      intro n
      induction n with
      | zero =>
        intro t
        rw [h0]
        exact acc_client hl _
      | succ n ih =>
        obtain ⟨t, ht⟩ := hf n
        obtain ⟨th, e, hs⟩ := thread_step ht
        rw [e]
        exact (Function.forall_update_iff (f n).threads fun _ th => Acc (ThreadStep bodies) th).2
          ⟨(ih t).inv hs, fun u _ => ih u⟩
    have hlex := Pi.Lex.wellFounded (ι := Fin m) (r := (· < ·)) (α := fun _ => Thread O Q V)
      (s := fun _ => R) fun _ => wf
    have step : ∀ n, Pi.Lex (· < ·) (fun {_} => R) (f (n + 1)).threads (f n).threads := by
      intro n
      obtain ⟨t, ht⟩ := hf n
      obtain ⟨th, e, hs⟩ := thread_step ht
      refine ⟨t, fun u hu => ?_, ?_⟩
      · rw [e, Function.update_of_ne (ne_of_lt hu)]
      · rw [e, Function.update_self]
        exact ⟨hs, acc n t⟩
    exact (wellFounded_iff_isEmpty_descending_chain.1 hlex).false ⟨fun n => (f n).threads, step⟩
  · intro s hs hn t
    by_contra hc
    obtain ⟨u, hu⟩ := C66_no_deadlock hl hs hc
    rw [hn u] at hu
    cases hu

/-! ## The properties of the two classes -/

/-- All reads of a computation are of properties in the list `l`. -/
inductive Body.ReadsOnly (l : List Q) : Body O Q V → Prop
  | ret (v : V) : ReadsOnly l (.ret v)
  | fail : ReadsOnly l .fail
  | read (o : O) (q : Q) (k : Option V → Body O Q V) (h : q ∈ l)
      (hk : ∀ r, ReadsOnly l (k r)) : ReadsOnly l (.read o q k)

/-- The properties that the table lists for a property. -/
def tableReads (q : String) : List String := (cachedTable.lookup q).getD []

/-- The position of a property in the table. -/
def tableRank (q : String) : ℕ := (cachedTable.map Prod.fst).idxOf q

/-- The table lists every property once, and after those that it reads. -/
theorem table_sorted : (cachedTable.map Prod.fst).Nodup ∧
    ∀ e ∈ cachedTable, ∀ d ∈ e.2, tableRank d < tableRank e.1 := by
  constructor <;> decide +kernel

theorem mem_of_lookup {α : Type} {l : List (String × α)} {q : String} {a : α} (h : l.lookup q = some a) :
    (q, a) ∈ l := by
  induction l with
  | nil => cases h
  | cons x l ih =>
    obtain ⟨k, b⟩ := x
    rw [List.lookup_cons] at h
    by_cases e : q = k
    · subst e
      rw [beq_self_eq_true] at h
      injection h with h
      exact h ▸ List.mem_cons_self
    · rw [beq_false_of_ne e] at h
      exact List.mem_cons_of_mem _ (ih h)

/-- C66. The properties of the two classes do not need each other in a circle: computations that read what
the table lists are layered, so the theorems above apply to them. -/
theorem C66_properties_layered {O V : Type} {bodies : List (Event T O String V) → O → String → Body O String V}
    (h : ∀ l o q, (bodies l o q).ReadsOnly (tableReads q)) : Layered tableRank bodies := by
  intro l o q
  have h' := h l o q
  generalize bodies l o q = b at h' ⊢
  induction h' with
  | ret v => exact .ret v
  | fail => exact .fail
  | read o' q' k hq _ ih =>
    refine .read o' q' k ?_ ih
    unfold tableReads at hq
    cases e : cachedTable.lookup q with
    | none =>
      rw [e] at hq
      cases hq
    | some ds =>
      rw [e] at hq
      exact table_sorted.2 _ (mem_of_lookup e) q' hq

/-! ## A concrete case -/

/-- Two properties: `b` reads `a` and adds one. -/
def exBodies (_ : List (Event (Fin 2) Unit String ℕ)) (_ : Unit) (q : String) : Body Unit String ℕ :=
  if q = "a" then .ret 1
  else if q = "b" then .read () "a" fun r => match r with
    | some v => .ret (v + 1)
    | none => .fail
  else .fail

/-- One thread reads `b`, the other one `a` and `b`. -/
def exPrograms (t : Fin 2) : Body Unit String ℕ :=
  if t = 0 then .read () "b" fun _ => .ret 0 else .read () "a" fun _ => .read () "b" fun _ => .ret 0

/-- The rank of the two properties. -/
def exRank (q : String) : ℕ := if q = "a" then 0 else 1

theorem exBodies_layered : Layered exRank exBodies := by
  intro l o q
  unfold exBodies
  by_cases h1 : q = "a"
  · rw [if_pos h1]
    exact .ret 1
  · rw [if_neg h1]
    by_cases h2 : q = "b"
    · rw [if_pos h2]
      subst h2
      refine .read () "a" _ (by decide) fun r => ?_
      cases r with
      | none => exact .fail
      | some v => exact .ret _
    · rw [if_neg h2]
      exact .fail

/-- A schedule with contention: thread 0 starts `b`, thread 1 takes the lock of `a` first, so thread 0
waits, and thread 1 waits for the lock of `b` afterwards. -/
def exSchedule : List (Fin 2) := [0, 0, 0, 1, 1, 1, 0, 1, 1, 1, 0, 0, 0, 0, 0, 1, 1, 1]

theorem runSchedule_reachable {bodies : List (Event T O Q V) → O → Q → Body O Q V}
    {programs : T → Body O Q V} {ts : List T} {s s' : Shared T O Q V} (h : Reachable bodies programs s)
    (hs : runSchedule bodies s ts = some s') : Reachable bodies programs s' := by
  induction ts generalizing s with
  | nil =>
    injection hs with hs
    exact hs ▸ h
  | cons t ts ih =>
    unfold runSchedule at hs
    cases e : stepThread bodies s t with
    | none =>
      rw [e] at hs
      cases hs
    | some s1 =>
      rw [e] at hs
      exact ih (.step t h e) hs

/-- The schedule runs to its end, and both threads get the value two for `b`. -/
theorem C66_instance : ∃ s, Reachable exBodies exPrograms s ∧ Event.result 1 () "b" (some 2) ∈ s.log ∧
    Event.result 0 () "b" (some 2) ∈ s.log ∧ s.log.count (.start () "b") = 1 := by
  cases e : runSchedule exBodies (.initial exPrograms) exSchedule with
  | none => exact absurd (congrArg Option.isSome e) (by decide +kernel)
  | some s =>
    have hl : s.log = [.result 1 () "b" (some 2), .result 0 () "b" (some 2), .result 0 () "a" (some 1),
        .result 1 () "a" (some 1), .start () "a", .start () "b"] := by
      have := congrArg (Option.map Shared.log) e
      have h' : (runSchedule exBodies (.initial exPrograms) exSchedule).map Shared.log =
        some [.result 1 () "b" (some 2), .result 0 () "b" (some 2), .result 0 () "a" (some 1),
          .result 1 () "a" (some 1), .start () "a", .start () "b"] := by decide +kernel
      rw [h'] at this
      injection this with this
      exact this.symm
    refine ⟨s, runSchedule_reachable .initial e, ?_, ?_, ?_⟩
    all_goals
      rw [hl]
      decide

example : (runSchedule exBodies (.initial exPrograms) exSchedule).map Shared.log =
    some [.result 1 () "b" (some 2), .result 0 () "b" (some 2), .result 0 () "a" (some 1),
      .result 1 () "a" (some 1), .start () "a", .start () "b"] := by decide +kernel

example : ((runSchedule exBodies (.initial exPrograms) [0, 0, 0, 1, 1, 1, 0]).bind
    fun s => stepThread exBodies s 0).isNone := by decide +kernel

end Verif
