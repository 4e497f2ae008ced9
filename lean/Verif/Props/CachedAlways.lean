import Verif.Model.Cached
import Verif.Props.CachedFinish
import Mathlib.Tactic.Common

/-!
# Lazily computed properties without any assumption on what they read (C66)

The theorems about single computation need that no property reads itself. What is proved here holds for
all computations, also for those that read themselves: the lock excludes other threads, its owner can
enter it again, and all reads of a property of an object return the same value.
-/

set_option linter.unusedSectionVars false

namespace Verif

variable {T O Q V : Type} [DecidableEq T] [DecidableEq O] [DecidableEq Q]

/-- Whether a read holds the lock. -/
def Phase.inside : Phase O Q V → Bool
  | .enter => false
  | _ => true

/-- The number of reads in progress of the property `q` that hold the lock. -/
def Thread.inside (th : Thread O Q V) (q : Q) : ℕ :=
  th.stack.countP fun f => decide (f.prop = q) && f.phase.inside

/-- The number of times the thread has entered the lock. -/
def held (l : Option (T × ℕ)) (t : T) : ℕ :=
  match l with
  | none => 0
  | some (u, n) => if u = t then n else 0

theorem acquire_held {l : Option (T × ℕ)} {t : T} {l' : T × ℕ} (h : acquire l t = some l') (u : T) :
    held (some l') u = held l u + (if t = u then 1 else 0) ∧ 1 ≤ l'.2 := by
  match l, h with
  | none, h =>
    injection h with h
    subst h
    exact ⟨by simp [held], le_rfl⟩
  | some (w, n), h =>
    unfold acquire at h
    simp only at h
    split at h
    · rename_i hw
      injection h with h
      subst h hw
      refine ⟨?_, Nat.le_add_left 1 n⟩
      simp only [held]
      split <;> rfl
    · cases h

theorem release_held {l : Option (T × ℕ)} {t : T} (ht : 1 ≤ held l t) (u : T) :
    held (release l) u + (if t = u then 1 else 0) = held l u ∧
      ∀ l', release l = some l' → 1 ≤ l'.2 := by
  match l, ht with
  | none, ht => simp [held] at ht
  | some (w, n), ht =>
    simp only [held] at ht
    by_cases hw : w = t
    · subst hw
      rw [if_pos rfl] at ht
      unfold release
      simp only
      by_cases hn : n ≤ 1
      · rw [if_pos hn]
        refine ⟨?_, fun l' h => by cases h⟩
        simp only [held]
        split <;> omega
      · rw [if_neg hn]
        refine ⟨?_, fun l' h => ?_⟩
        · simp only [held]
          split <;> omega
        · injection h with h
          subst h
          simp only
          omega
    · rw [if_neg hw] at ht
      omega

theorem inside_cons (f : Frame O Q V) (fs : List (Frame O Q V)) (c : Body O Q V) (q : Q) :
    Thread.inside ⟨f :: fs, c⟩ q = Thread.inside ⟨fs, c⟩ q +
      if f.prop = q ∧ f.phase.inside = true then 1 else 0 := by
  unfold Thread.inside
  rw [List.countP_cons]
  congr 1
  simp

theorem Frame.resume_same (r : Option V) (f : Frame O Q V) :
    (f.resume r).prop = f.prop ∧ (f.resume r).obj = f.obj ∧
      (f.resume r).phase.inside = f.phase.inside := by
  unfold Frame.resume
  split
  · rename_i b h
    exact ⟨rfl, rfl, by rw [h]; rfl⟩
  · exact ⟨rfl, rfl, rfl⟩

theorem inside_resume (r : Option V) (fs : List (Frame O Q V)) (c c' : Body O Q V) (q : Q) :
    (Thread.resume r fs c).inside q = Thread.inside ⟨fs, c'⟩ q := by
  cases fs with
  | nil => rfl
  | cons f fs =>
    unfold Thread.resume
    simp only
    rw [inside_cons, inside_cons, (Frame.resume_same r f).1, (Frame.resume_same r f).2.2]
    rfl

/-- What holds in every state. -/
structure LocksRight (s : Shared T O Q V) : Prop where
  held : ∀ t q, (s.threads t).inside q = held (s.lock q) t
  pos : ∀ q l, s.lock q = some l → 1 ≤ l.2

theorem locksRight_move {s : Shared T O Q V} (h : LocksRight s) {t : T} {th : Thread O Q V}
    (he : ∀ q, th.inside q = (s.threads t).inside q) : LocksRight (s.move t th) := by
  refine ⟨fun u q => ?_, h.pos⟩
  unfold Shared.move
  simp only
  by_cases hu : u = t
  · subst hu
    rw [Function.update_self, he q]
    exact h.held u q
  · rw [Function.update_of_ne hu]
    exact h.held u q

theorem locksRight_of {s s' : Shared T O Q V} (h : LocksRight s) (hl : s'.lock = s.lock)
    (ht : s'.threads = s.threads) : LocksRight s' :=
  ⟨fun t q => by rw [hl, ht]; exact h.held t q, fun q l => by rw [hl]; exact h.pos q l⟩

theorem locksRight_step {bodies : List (Event T O Q V) → O → Q → Body O Q V} {s s' : Shared T O Q V}
    (h : LocksRight s) {t : T} (hs : stepThread bodies s t = some s') : LocksRight s' := by
  unfold stepThread at hs
  cases hst : (s.threads t).stack with
  | nil =>
    rw [hst] at hs
    simp only at hs
    have hin : ∀ q, (s.threads t).inside q = 0 := fun q => by
      unfold Thread.inside
      rw [hst]
      rfl
    cases hc : (s.threads t).client with
    | ret v => rw [hc] at hs; cases hs
    | fail => rw [hc] at hs; cases hs
    | read o q k =>
      rw [hc] at hs
      simp only at hs
      injection hs with hs
      subst hs
      refine locksRight_move h fun q' => ?_
      rw [hin q', inside_cons]
      simp [Thread.inside, Phase.inside]
  | cons f fs =>
    rw [hst] at hs
    simp only at hs
    have hin : ∀ q, (s.threads t).inside q = Thread.inside ⟨fs, (s.threads t).client⟩ q +
        if f.prop = q ∧ f.phase.inside = true then 1 else 0 := fun q => by
      rw [← inside_cons]
      unfold Thread.inside
      rw [hst]
    unfold stepFrame at hs
    cases hp : f.phase with
    | enter =>
      rw [hp] at hs
      simp only at hs
      cases ha : acquire (s.lock f.prop) t with
      | none => rw [ha] at hs; cases hs
      | some l =>
        rw [ha] at hs
        simp only at hs
        injection hs with hs
        subst hs
        refine ⟨fun u q => ?_, fun q l' hl' => ?_⟩
        · unfold Shared.move
          simp only
          have key : held (Function.update s.lock f.prop (some l) q) u =
              held (s.lock q) u + if t = u ∧ f.prop = q then 1 else 0 := by
            by_cases hq : q = f.prop
            · subst hq
              rw [Function.update_self, (acquire_held ha u).1]
              simp
            · rw [Function.update_of_ne hq, if_neg (fun h2 => hq h2.2.symm), Nat.add_zero]
          rw [key, ← h.held u q]
          by_cases hu : u = t
          · subst hu
            rw [Function.update_self, hin q, inside_cons]
            rw [hp]
            simp [Phase.inside]
          · rw [Function.update_of_ne hu, if_neg (fun h2 => hu h2.1.symm), Nat.add_zero]
        · unfold Shared.move at hl'
          simp only at hl'
          by_cases hq : q = f.prop
          · subst hq
            rw [Function.update_self] at hl'
            injection hl' with hl'
            subst hl'
            exact (acquire_held ha t).2
          · rw [Function.update_of_ne hq] at hl'
            exact h.pos q l' hl'
    | check =>
      rw [hp] at hs
      simp only at hs
      cases hd : s.dict f.obj f.prop with
      | none =>
        rw [hd] at hs
        simp only at hs
        injection hs with hs
        subst hs
        refine locksRight_move ?_ fun q => ?_
        · exact locksRight_of h rfl rfl
        change _ = (s.threads t).inside q
        rw [hin q, inside_cons, hp]
        rfl
      | some v =>
        rw [hd] at hs
        simp only at hs
        injection hs with hs
        subst hs
        refine locksRight_move h fun q => ?_
        rw [hin q, inside_cons, hp]
        rfl
    | run b =>
      rw [hp] at hs
      cases b with
      | read o q k =>
        simp only at hs
        injection hs with hs
        subst hs
        refine locksRight_move h fun q' => ?_
        rw [hin q', inside_cons, inside_cons]
        simp [Phase.inside]
      | ret v =>
        simp only at hs
        injection hs with hs
        subst hs
        refine locksRight_move ?_ fun q => ?_
        · exact locksRight_of h rfl rfl
        change _ = (s.threads t).inside q
        rw [hin q, inside_cons, hp]
        rfl
      | fail =>
        simp only at hs
        injection hs with hs
        subst hs
        refine locksRight_move ?_ fun q => ?_
        · exact locksRight_of h rfl rfl
        change _ = (s.threads t).inside q
        rw [hin q, inside_cons, hp]
        rfl
    | leave r =>
      rw [hp] at hs
      simp only at hs
      injection hs with hs
      subst hs
      have hh : 1 ≤ held (s.lock f.prop) t := by
        rw [← h.held t f.prop, hin f.prop, hp, if_pos ⟨rfl, rfl⟩]
        omega
      refine ⟨fun u q => ?_, fun q l' hl' => ?_⟩
      · unfold Shared.move
        simp only
        have key : held (Function.update s.lock f.prop (release (s.lock f.prop)) q) u +
            (if t = u ∧ f.prop = q then 1 else 0) = held (s.lock q) u := by
          by_cases hq : q = f.prop
          · subst hq
            rw [Function.update_self, ← (release_held hh u).1]
            simp
          · rw [Function.update_of_ne hq, if_neg (fun h2 => hq h2.2.symm), Nat.add_zero]
        rw [← h.held u q] at key
        by_cases hu : u = t
        · subst hu
          rw [Function.update_self, inside_resume r fs _ (s.threads u).client q]
          rw [hin q, hp] at key
          simp only [Phase.inside, and_true, true_and] at key
          omega
        · rw [Function.update_of_ne hu]
          rw [if_neg (fun h2 => hu h2.1.symm), Nat.add_zero] at key
          exact key.symm
      · unfold Shared.move at hl'
        simp only at hl'
        by_cases hq : q = f.prop
        · subst hq
          rw [Function.update_self] at hl'
          exact (release_held hh t).2 l' hl'
        · rw [Function.update_of_ne hq] at hl'
          exact h.pos q l' hl'

theorem locksRight {bodies : List (Event T O Q V) → O → Q → Body O Q V} {programs : T → Body O Q V}
    {s : Shared T O Q V} (h : Reachable bodies programs s) : LocksRight s := by
  induction h with
  | initial => exact ⟨fun _ _ => rfl, fun _ _ h => by cases h⟩
  | step t _ hs ih => exact locksRight_step ih hs

/-- C66, exclusion. Two threads are never inside the same property, whatever its computation reads. -/
theorem C66_mutual_exclusion {bodies : List (Event T O Q V) → O → Q → Body O Q V}
    {programs : T → Body O Q V} {s : Shared T O Q V} (h : Reachable bodies programs s) {t u : T} {q : Q}
    (ht : 1 ≤ (s.threads t).inside q) (hu : 1 ≤ (s.threads u).inside q) : t = u := by
  have hl := locksRight h
  rw [hl.held] at ht hu
  unfold held at ht hu
  cases hq : s.lock q with
  | none => rw [hq] at ht; simp at ht
  | some l =>
    rw [hq] at ht hu
    simp only at ht hu
    split at ht
    · split at hu
      · rename_i h1 h2
        exact h1.symm.trans h2
      · omega
    · omega

/-- C66, reentrance. A computation that reads its own property, of the same or of another object, does
not wait for itself. -/
theorem C66_reentrant {bodies : List (Event T O Q V) → O → Q → Body O Q V}
    {programs : T → Body O Q V} {s : Shared T O Q V} (h : Reachable bodies programs s) {t : T}
    {f : Frame O Q V} {fs : List (Frame O Q V)} (hst : (s.threads t).stack = f :: fs)
    (ht : 1 ≤ (s.threads t).inside f.prop) : (stepThread bodies s t).isSome = true := by
  have hl := locksRight h
  rw [hl.held] at ht
  unfold stepThread
  rw [hst]
  simp only
  unfold stepFrame
  cases hp : f.phase with
  | enter =>
    simp only
    unfold held at ht
    cases hq : s.lock f.prop with
    | none => rw [hq] at ht; simp at ht
    | some l =>
      rw [hq] at ht
      simp only at ht
      split at ht
      · rename_i h1
        unfold acquire
        simp only
        rw [if_pos h1]
        rfl
      · omega
  | check =>
    simp only
    split <;> rfl
  | run b => cases b <;> rfl
  | leave r => rfl

/-! ## The values -/

/-- What holds in every state. -/
structure ValuesRight (s : Shared T O Q V) : Prop where
  frames : ∀ t, ∀ f ∈ (s.threads t).stack, ∀ v, f.phase = .leave (some v) → s.dict f.obj f.prop = some v
  results : ∀ t o q v, .result t o q (some v) ∈ s.log → s.dict o q = some v

theorem valuesRight_move {s : Shared T O Q V} (h : ValuesRight s) {t : T} {th : Thread O Q V}
    (he : ∀ f ∈ th.stack, ∀ v, f.phase = .leave (some v) → s.dict f.obj f.prop = some v) :
    ValuesRight (s.move t th) := by
  refine ⟨fun u => ?_, h.results⟩
  unfold Shared.move
  simp only
  by_cases hu : u = t
  · subst hu
    rw [Function.update_self]
    exact he
  · rw [Function.update_of_ne hu]
    exact h.frames u

theorem valuesRight_step {bodies : List (Event T O Q V) → O → Q → Body O Q V} {s s' : Shared T O Q V}
    (h : ValuesRight s) {t : T} (hs : stepThread bodies s t = some s') :
    ValuesRight s' ∧ ∀ o q v, s.dict o q = some v → s'.dict o q = some v := by
  unfold stepThread at hs
  cases hst : (s.threads t).stack with
  | nil =>
    rw [hst] at hs
    simp only at hs
    cases hc : (s.threads t).client with
    | ret v => rw [hc] at hs; cases hs
    | fail => rw [hc] at hs; cases hs
    | read o q k =>
      rw [hc] at hs
      simp only at hs
      injection hs with hs
      subst hs
      refine ⟨valuesRight_move h fun f hf v hv => ?_, fun _ _ _ hv => hv⟩
      rw [List.mem_singleton.1 hf] at hv
      cases hv
  | cons f fs =>
    rw [hst] at hs
    simp only at hs
    have hfs : ∀ g ∈ fs, ∀ v, g.phase = .leave (some v) → s.dict g.obj g.prop = some v :=
      fun g hg => h.frames t g (by rw [hst]; exact List.mem_cons_of_mem _ hg)
    have hf : ∀ v, f.phase = .leave (some v) → s.dict f.obj f.prop = some v :=
      h.frames t f (by rw [hst]; exact List.mem_cons_self)
    unfold stepFrame at hs
    cases hp : f.phase with
    | enter =>
      rw [hp] at hs
      simp only at hs
      cases ha : acquire (s.lock f.prop) t with
      | none => rw [ha] at hs; cases hs
      | some l =>
        rw [ha] at hs
        simp only at hs
        injection hs with hs
        subst hs
        refine ⟨valuesRight_move (s := ⟨Function.update s.lock f.prop (some l), s.dict, s.threads, s.log⟩) ⟨h.frames, h.results⟩ fun g hg v hv => ?_,
          fun _ _ _ hv => hv⟩
        rcases List.mem_cons.1 hg with rfl | hg
        · cases hv
        · exact hfs g hg v hv
    | check =>
      rw [hp] at hs
      simp only at hs
      cases hd : s.dict f.obj f.prop with
      | none =>
        rw [hd] at hs
        simp only at hs
        injection hs with hs
        subst hs
        refine ⟨valuesRight_move (s := ⟨s.lock, s.dict, s.threads, .start f.obj f.prop :: s.log⟩) ⟨h.frames, fun t o q v hv => ?_⟩
          fun g hg v hv => ?_, fun _ _ _ hv => hv⟩
        · rcases List.mem_cons.1 hv with hv | hv
          · cases hv
          · exact h.results t o q v hv
        · rcases List.mem_cons.1 hg with rfl | hg
          · cases hv
          · exact hfs g hg v hv
      | some w =>
        rw [hd] at hs
        simp only at hs
        injection hs with hs
        subst hs
        refine ⟨valuesRight_move h fun g hg v hv => ?_, fun _ _ _ hv => hv⟩
        rcases List.mem_cons.1 hg with rfl | hg
        · injection hv with hv
          rw [← hv]
          exact hd
        · exact hfs g hg v hv
    | run b =>
      rw [hp] at hs
      cases b with
      | read o q k =>
        simp only at hs
        injection hs with hs
        subst hs
        refine ⟨valuesRight_move h fun g hg v hv => ?_, fun _ _ _ hv => hv⟩
        rcases List.mem_cons.1 hg with rfl | hg
        · cases hv
        · rcases List.mem_cons.1 hg with rfl | hg
          · exact hf v hv
          · exact hfs g hg v hv
      | ret w =>
        simp only at hs
        injection hs with hs
        subst hs
        have hkeep : ∀ o q v, s.dict o q = some v → setDefault s.dict f.obj f.prop w o q = some v := by
          intro o q v hv
          unfold setDefault
          split
          · rename_i h1
            rw [h1.1, h1.2] at hv
            rw [hv]
            rfl
          · exact hv
        refine ⟨valuesRight_move (s := ⟨s.lock, setDefault s.dict f.obj f.prop w, s.threads, s.log⟩) ⟨fun u g hg v hv =>
          hkeep _ _ _ (h.frames u g hg v hv), fun u o q v hv => hkeep _ _ _ (h.results u o q v hv)⟩
          fun g hg v hv => ?_, hkeep⟩
        rcases List.mem_cons.1 hg with rfl | hg
        · injection hv with hv
          rw [← hv]
          change setDefault s.dict f.obj f.prop w f.obj f.prop = _
          unfold setDefault
          rw [if_pos ⟨rfl, rfl⟩]
        · exact hkeep _ _ _ (hfs g hg v hv)
      | fail =>
        simp only at hs
        injection hs with hs
        subst hs
        refine ⟨valuesRight_move (s := ⟨s.lock, s.dict, s.threads, .fail f.obj f.prop :: s.log⟩) ⟨h.frames, fun t o q v hv => ?_⟩
          fun g hg v hv => ?_, fun _ _ _ hv => hv⟩
        · rcases List.mem_cons.1 hv with hv | hv
          · cases hv
          · exact h.results t o q v hv
        · rcases List.mem_cons.1 hg with rfl | hg
          · cases hv
          · exact hfs g hg v hv
    | leave r =>
      rw [hp] at hs
      simp only at hs
      injection hs with hs
      subst hs
      refine ⟨valuesRight_move (s := ⟨Function.update s.lock f.prop (release (s.lock f.prop)), s.dict, s.threads,
        .result t f.obj f.prop r :: s.log⟩) ⟨h.frames, fun u o q v hv => ?_⟩
        fun g hg v hv => ?_, fun _ _ _ hv => hv⟩
      · rcases List.mem_cons.1 hv with hv | hv
        · injection hv with h1 h2 h3 h4
          subst h2 h3
          exact hf v (by rw [hp, h4])
        · exact h.results u o q v hv
      · cases fs with
        | nil => cases hg
        | cons g' fs =>
          unfold Thread.resume at hg
          simp only at hg
          rcases List.mem_cons.1 hg with rfl | hg
          · rw [(Frame.resume_same r g').1, (Frame.resume_same r g').2.1]
            refine hfs g' List.mem_cons_self v ?_
            unfold Frame.resume at hv
            split at hv
            · cases hv
            · exact hv
          · exact hfs g (List.mem_cons_of_mem _ hg) v hv

/-- C66, one value. All reads of a property of an object that end with a value end with the same value,
whatever the computations read and return: the first stored value is kept and returned. -/
theorem C66_first_value_kept {bodies : List (Event T O Q V) → O → Q → Body O Q V}
    {programs : T → Body O Q V} {s : Shared T O Q V} (h : Reachable bodies programs s) {t u : T} {o : O}
    {q : Q} {v w : V} (hv : .result t o q (some v) ∈ s.log) (hw : .result u o q (some w) ∈ s.log) :
    v = w := by
  have hr : ValuesRight s := by
    clear hv hw
    induction h with
    | initial => exact ⟨fun _ f hf => (List.not_mem_nil hf).elim, fun _ _ _ _ h => (List.not_mem_nil h).elim⟩
    | step t _ hs ih => exact (valuesRight_step ih hs).1
  have h1 := hr.results t o q v hv
  rw [hr.results u o q w hw] at h1
  injection h1 with h1
  exact h1.symm

/-- A property that reads itself once and returns the number of computations started before. -/
def exSelfBodies (l : List (Event (Fin 2) Unit Unit ℕ)) (_ : Unit) (_ : Unit) : Body Unit Unit ℕ :=
  if l.length = 0 then .read () () fun _ => .ret 0 else .ret l.length

/-- Both threads read it. -/
def exSelfPrograms (_ : Fin 2) : Body Unit Unit ℕ := .read () () fun _ => .ret 0

/-- The property is computed twice by the first thread, which enters its lock again, and the value of
the inner computation is kept; the second thread waits and gets the same value. -/
theorem C66_reentrant_instance :
    (runSchedule exSelfBodies (.initial exSelfPrograms)
      [0, 0, 1, 0, 0, 0, 0, 0, 0, 0, 0, 1, 1, 1]).map Shared.log =
    some [.result 1 () () (some 1), .result 0 () () (some 1), .result 0 () () (some 1), .start () (),
      .start () ()] ∧
    ((runSchedule exSelfBodies (.initial exSelfPrograms) [0, 0, 1, 0, 0, 0, 0, 0, 0]).bind
      fun s => stepThread exSelfBodies s 1).isNone = true := by
  constructor <;> decide +kernel

end Verif
