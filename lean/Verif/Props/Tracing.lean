import Verif.Model.Tracing
import Mathlib.Tactic.Linarith

/-!
# C60, C61: the trace buffer under concurrent use
-/

set_option autoImplicit false

namespace MiniOpt.Props

open MiniOpt.Trace

variable {T : Type} [DecidableEq T]

/-- The submissions of an execution in the order in which they acquired the mutex: who and what. -/
def lockOrder : List (Label T) → List (T × Event)
  | [] => []
  | .acquire t e :: ls => (t, e) :: lockOrder ls
  | _ :: ls => lockOrder ls

/-- The events a thread's program submits, in program order. -/
def submits : List Op → List Event
  | [] => []
  | .submit e :: ops => e :: submits ops
  | .dump :: ops => submits ops

/-- The last `n` elements of a list. -/
def lastN {β : Type} (n : Nat) (l : List β) : List β := l.drop (l.length - n)

/-- A thread has finished its program. -/
def Done (s : State T) (t : T) : Prop := s.pc t = .idle ∧ s.todo t = []

omit [DecidableEq T] in
theorem lockOrder_append (a b : List (Label T)) : lockOrder (a ++ b) = lockOrder a ++ lockOrder b := by
  induction a with
  | nil => rfl
  | cons l ls ih => cases l <;> simp [lockOrder, ih]

theorem lastN_snoc {β : Type} {n : Nat} {l : List β} {e : β} (h : (lastN n l ++ [e]).length ≤ n) :
    lastN n (l ++ [e]) = lastN n l ++ [e] := by
  unfold lastN at *
  simp only [List.length_append, List.length_drop, List.length_cons, List.length_nil] at *
  have : l.length + 1 - n = 0 := by omega
  rw [this]
  have : l.length - n = 0 := by omega
  rw [this]; simp

theorem lastN_snoc_tail {β : Type} {n : Nat} {l : List β} {e : β} (h : n < (lastN n l ++ [e]).length) :
    lastN n (l ++ [e]) = (lastN n l ++ [e]).tail := by
  unfold lastN at *
  simp only [List.length_append, List.length_drop, List.length_cons, List.length_nil] at *
  have : l.length + 1 - n = l.length - n + 1 := by omega
  rw [this, ← List.tail_drop, List.drop_append_of_le_length (by omega)]

/-- What the program counter of a thread says about mutex and buffer. -/
def PCInv (acq : List (T × Event)) (s : State T) (t : T) : Prop :=
  match s.pc t with
  | .idle | .waiting _ | .reading => s.mutex ≠ some t
  | .pushing e => s.mutex = some t ∧ ∃ a u, acq = a ++ [(u, e)] ∧ s.events = lastN maxTraces (a.map (·.2))
  | .checking => s.mutex = some t ∧ ∃ a u e, acq = a ++ [(u, e)] ∧ s.events = lastN maxTraces (a.map (·.2)) ++ [e]
  | .popping => s.mutex = some t ∧ maxTraces < s.events.length ∧
      ∃ a u e, acq = a ++ [(u, e)] ∧ s.events = lastN maxTraces (a.map (·.2)) ++ [e]
  | .unlocking => s.mutex = some t ∧ s.events = lastN maxTraces (acq.map (·.2))

/-- The submission a thread is about to make. -/
def pending : PC → List Event
  | .waiting e => [e]
  | _ => []

/-- Invariant of all executions. -/
structure Inv (prog : T → List Op) (ls : List (Label T)) (s : State T) : Prop where
  pc : ∀ t, PCInv (lockOrder ls) s t
  free : s.mutex = none → s.events = lastN maxTraces ((lockOrder ls).map (·.2))
  order : ∀ t, submits (prog t) =
    ((lockOrder ls).filter (fun q => q.1 = t)).map (·.2) ++ pending (s.pc t) ++ submits (s.todo t)
  holder : ∀ t, s.mutex = some t → ∀ e, s.pc t ≠ .idle ∧ s.pc t ≠ .waiting e ∧ s.pc t ≠ .reading

theorem inv_step {prog : T → List Op} {ls : List (Label T)} {s s' : State T} {l : Label T} (hi : Inv prog ls s)
    (h : Step s l s') : Inv prog (ls ++ [l]) s' := by
  have hother : ∀ {t u : T}, s.mutex = some t → u ≠ t → s.mutex ≠ some u := by
    intro t u h1 h2 h3; rw [h1] at h3; exact h2 (Option.some.inj h3).symm
  cases h with
  | call t e rest hpc htodo =>
    have hl : lockOrder (ls ++ [Label.call t]) = lockOrder ls := by simp [lockOrder_append, lockOrder]
    refine ⟨fun u => ?_, ?_, fun u => ?_, fun u hu => ?_⟩
    · rw [hl]
      by_cases hu : u = t
      · subst hu
        have := hi.pc u
        simp only [PCInv, Function.update_self, hpc] at *
        exact this
      · have := hi.pc u
        simpa only [PCInv, Function.update_of_ne hu] using this
    · rw [hl]; exact hi.free
    · rw [hl]
      have := hi.order u
      by_cases hu : u = t
      · subst hu
        rw [this]; simp [hpc, htodo, pending, submits]
      · simpa [Function.update_of_ne hu] using this
    · intro e'
      have h1 := hi.holder u hu e'
      have hne : u ≠ t := fun h => h1.1 (h ▸ hpc)
      simpa only [Function.update_of_ne hne] using h1
  | acquire t e hpc hm =>
    have hl : lockOrder (ls ++ [Label.acquire t e]) = lockOrder ls ++ [(t, e)] := by simp [lockOrder_append, lockOrder]
    refine ⟨fun u => ?_, ?_, fun u => ?_, fun u hu => ?_⟩
    · rw [hl]
      by_cases hu : u = t
      · subst hu
        simp only [PCInv, Function.update_self]
        exact ⟨trivial, lockOrder ls, u, rfl, hi.free hm⟩
      · have := hi.pc u
        have hnm : (some t : Option T) ≠ some u := fun h => hu (Option.some.inj h).symm
        simp only [PCInv, Function.update_of_ne hu] at *
        cases hp : s.pc u <;> simp only [hp, hm] at this ⊢
        · exact hnm
        · exact hnm
        · exact absurd this.1 (by simp)
        · exact absurd this.1 (by simp)
        · exact absurd this.1 (by simp)
        · exact absurd this.1 (by simp)
        · exact hnm
    · intro h; exact absurd h (by simp)
    · rw [hl]
      have := hi.order u
      by_cases hu : u = t
      · subst hu
        rw [this]; simp [hpc, pending]
      · have hne : ¬ t = u := fun h => hu h.symm
        simpa [Function.update_of_ne hu, hne] using this
    · intro e'
      have hu' : t = u := Option.some.inj hu
      subst hu'
      simp
  | push t e hpc =>
    have hl : lockOrder (ls ++ [Label.push t]) = lockOrder ls := by simp [lockOrder_append, lockOrder]
    have ht := hi.pc t
    simp only [PCInv, hpc] at ht
    obtain ⟨hm, a, w, ha, hev⟩ := ht
    refine ⟨fun u => ?_, ?_, fun u => ?_, fun u hu => ?_⟩
    · rw [hl]
      by_cases hu : u = t
      · subst hu
        simp only [PCInv, Function.update_self]
        exact ⟨hm, a, w, e, ha, by rw [hev]⟩
      · have := hi.pc u
        have hn := hother hm hu
        simp only [PCInv, Function.update_of_ne hu] at *
        cases hp : s.pc u <;> simp only [hp] at this ⊢ <;> first | exact hn | exact absurd this.1 hn
    · intro h; exact absurd (hm.symm.trans h) (by simp)
    · rw [hl]
      have := hi.order u
      by_cases hu : u = t
      · subst hu; rw [this]; simp [hpc, pending]
      · simpa [Function.update_of_ne hu] using this
    · intro e'
      have hu' : t = u := Option.some.inj (hm.symm.trans hu)
      subst hu'
      simp
  | check t hpc =>
    have hl : lockOrder (ls ++ [Label.check t]) = lockOrder ls := by simp [lockOrder_append, lockOrder]
    have ht := hi.pc t
    simp only [PCInv, hpc] at ht
    obtain ⟨hm, a, w, e, ha, hev⟩ := ht
    refine ⟨fun u => ?_, ?_, fun u => ?_, fun u hu => ?_⟩
    · rw [hl]
      by_cases hu : u = t
      · subst hu
        simp only [PCInv, Function.update_self]
        by_cases hlen : maxTraces < s.events.length
        · simp only [if_pos hlen]
          exact ⟨hm, hlen, a, w, e, ha, hev⟩
        · simp only [if_neg hlen]
          refine ⟨hm, ?_⟩
          rw [hev] at hlen ⊢
          rw [ha, List.map_append]
          exact (lastN_snoc (not_lt.mp hlen)).symm
      · have := hi.pc u
        have hn := hother hm hu
        simp only [PCInv, Function.update_of_ne hu] at *
        cases hp : s.pc u <;> simp only [hp] at this ⊢ <;> first | exact hn | exact absurd this.1 hn
    · intro h; exact absurd (hm.symm.trans h) (by simp)
    · rw [hl]
      have := hi.order u
      by_cases hu : u = t
      · subst hu; rw [this]; simp [hpc, pending]
        split_ifs <;> rfl
      · simpa [Function.update_of_ne hu] using this
    · intro e'
      have hu' : t = u := Option.some.inj (hm.symm.trans hu)
      subst hu'
      simp only [Function.update_self]
      split_ifs <;> simp
  | pop t hpc =>
    have hl : lockOrder (ls ++ [Label.pop t]) = lockOrder ls := by simp [lockOrder_append, lockOrder]
    have ht := hi.pc t
    simp only [PCInv, hpc] at ht
    obtain ⟨hm, hlen, a, w, e, ha, hev⟩ := ht
    refine ⟨fun u => ?_, ?_, fun u => ?_, fun u hu => ?_⟩
    · rw [hl]
      by_cases hu : u = t
      · subst hu
        simp only [PCInv, Function.update_self]
        refine ⟨hm, ?_⟩
        rw [hev] at hlen ⊢
        rw [ha, List.map_append]
        exact (lastN_snoc_tail hlen).symm
      · have := hi.pc u
        have hn := hother hm hu
        simp only [PCInv, Function.update_of_ne hu] at *
        cases hp : s.pc u <;> simp only [hp] at this ⊢ <;> first | exact hn | exact absurd this.1 hn
    · intro h; exact absurd (hm.symm.trans h) (by simp)
    · rw [hl]
      have := hi.order u
      by_cases hu : u = t
      · subst hu; rw [this]; simp [hpc, pending]
      · simpa [Function.update_of_ne hu] using this
    · intro e'
      have hu' : t = u := Option.some.inj (hm.symm.trans hu)
      subst hu'
      simp
  | release t hpc =>
    have hl : lockOrder (ls ++ [Label.release t]) = lockOrder ls := by simp [lockOrder_append, lockOrder]
    have ht := hi.pc t
    simp only [PCInv, hpc] at ht
    obtain ⟨hm, hev⟩ := ht
    refine ⟨fun u => ?_, ?_, fun u => ?_, fun u hu => ?_⟩
    · rw [hl]
      by_cases hu : u = t
      · subst hu
        simp [PCInv]
      · have := hi.pc u
        have hn := hother hm hu
        simp only [PCInv, Function.update_of_ne hu] at *
        cases hp : s.pc u <;> simp only [hp] at this ⊢ <;> first | (exact fun h => absurd h (by simp)) | exact absurd this.1 hn
    · intro _; rw [hl]; exact hev
    · rw [hl]
      have := hi.order u
      by_cases hu : u = t
      · subst hu; rw [this]; simp [hpc, pending]
      · simpa [Function.update_of_ne hu] using this
    · exact absurd hu (by simp)
  | readBegin t rest hpc htodo =>
    have hl : lockOrder (ls ++ [Label.readBegin t]) = lockOrder ls := by simp [lockOrder_append, lockOrder]
    refine ⟨fun u => ?_, ?_, fun u => ?_, fun u hu => ?_⟩
    · rw [hl]
      by_cases hu : u = t
      · subst hu
        have := hi.pc u
        simp only [PCInv, Function.update_self, hpc] at *
        exact this
      · have := hi.pc u
        simpa only [PCInv, Function.update_of_ne hu] using this
    · rw [hl]; exact hi.free
    · rw [hl]
      have := hi.order u
      by_cases hu : u = t
      · subst hu
        rw [this]; simp [hpc, htodo, pending, submits]
      · simpa [Function.update_of_ne hu] using this
    · intro e'
      have h1 := hi.holder u hu e'
      have hne : u ≠ t := fun h => h1.1 (h ▸ hpc)
      simpa only [Function.update_of_ne hne] using h1
  | readEnd t hpc =>
    have hl : lockOrder (ls ++ [Label.readEnd t]) = lockOrder ls := by simp [lockOrder_append, lockOrder]
    refine ⟨fun u => ?_, ?_, fun u => ?_, fun u hu => ?_⟩
    · rw [hl]
      by_cases hu : u = t
      · subst hu
        have := hi.pc u
        simp only [PCInv, Function.update_self, hpc] at *
        exact this
      · have := hi.pc u
        simpa only [PCInv, Function.update_of_ne hu] using this
    · rw [hl]; exact hi.free
    · rw [hl]
      have := hi.order u
      by_cases hu : u = t
      · subst hu
        rw [this]; simp [hpc, pending]
      · simpa [Function.update_of_ne hu] using this
    · intro e'
      have h1 := hi.holder u hu e'
      have hne : u ≠ t := fun h => h1.2.2 (h ▸ hpc)
      simpa only [Function.update_of_ne hne] using h1

theorem inv_exec {prog : T → List Op} {ls : List (Label T)} {s : State T} (h : Exec (init prog) ls s) :
    Inv prog ls s := by
  generalize hi : init prog = s0 at h
  induction h with
  | nil =>
    subst hi
    refine ⟨fun t => ?_, fun _ => by simp [lastN, lockOrder, init], fun t => ?_, fun t ht => ?_⟩
    · simp [PCInv, init]
    · simp [lockOrder, init, pending]
    · exact absurd ht (by simp [init])
  | snoc _ hs ih => exact inv_step ih hs

/-- **C60**. However the submissions of any number of threads interleave, whenever nobody holds the mutex the
collector contains exactly the last 100000 (or all, if fewer) submitted events, in the order in which their
submitters acquired the mutex. -/
theorem C60_newest_events (prog : T → List Op) (ls : List (Label T)) (s : State T) (h : Exec (init prog) ls s)
    (hm : s.mutex = none) :
    s.events = ((lockOrder ls).map (·.2)).drop ((lockOrder ls).length - 100000) := by
  have := (inv_exec h).free hm
  simpa [lastN, maxTraces] using this

/-- **C60**. The mutex order respects program order, and loses and duplicates nothing: what thread `t` has had
logged so far is an initial part of what it submits, and all of it once the thread has finished. -/
theorem C60_program_order (prog : T → List Op) (ls : List (Label T)) (s : State T) (h : Exec (init prog) ls s)
    (t : T) :
    ((lockOrder ls).filter (fun q => q.1 = t)).map (·.2) <+: submits (prog t) ∧
      (Done s t → ((lockOrder ls).filter (fun q => q.1 = t)).map (·.2) = submits (prog t)) := by
  have := (inv_exec h).order t
  refine ⟨⟨pending (s.pc t) ++ submits (s.todo t), by rw [this]; simp⟩, fun hd => ?_⟩
  rw [this, hd.1, hd.2]; simp [pending, submits]

/-- **C60**. The buffer never holds more than 100001 events, at any instant of any execution. -/
theorem C60_bounded (prog : T → List Op) (ls : List (Label T)) (s : State T) (h : Exec (init prog) ls s) :
    s.events.length ≤ 100001 := by
  have hi := inv_exec h
  have hl : ∀ a : List Event, (lastN maxTraces a).length ≤ 100000 := by
    intro a; simp only [lastN, maxTraces, List.length_drop]; omega
  cases hm : s.mutex with
  | none => rw [hi.free hm]; exact (hl _).trans (by omega)
  | some t =>
    have h1 := hi.holder t hm
    have h2 := hi.pc t
    unfold PCInv at h2
    cases hp : s.pc t <;> simp only [hp] at h1 h2
    · exact absurd rfl (h1 ⟨[], 0, 0, 0, 0⟩).1
    · rename_i e; exact absurd rfl (h1 e).2.1
    · obtain ⟨_, a, u, _, he⟩ := h2; rw [he]; exact (hl _).trans (by omega)
    · obtain ⟨_, a, u, e, _, he⟩ := h2; rw [he, List.length_append]; have := hl (a.map (·.2)); simp at *; omega
    · obtain ⟨_, _, a, u, e, _, he⟩ := h2; rw [he, List.length_append]; have := hl (a.map (·.2)); simp at *; omega
    · rw [h2.2]; exact (hl _).trans (by omega)
    · exact absurd rfl (h1 ⟨[], 0, 0, 0, 0⟩).2.2

/-- **C60**. No deadlock: as long as some thread has not finished, some step is possible. -/
theorem C60_no_deadlock (prog : T → List Op) (ls : List (Label T)) (s : State T) (h : Exec (init prog) ls s)
    (t : T) (ht : ¬ Done s t) : ∃ l s', Step s l s' := by
  have hi := inv_exec h
  have hcrit : ∀ u : T, s.mutex = some u → ∃ l s', Step s l s' := by
    intro u hu
    have h1 := hi.holder u hu
    cases hp : s.pc u
    · exact absurd hp (h1 ⟨[], 0, 0, 0, 0⟩).1
    · exact absurd hp (h1 _).2.1
    · exact ⟨_, _, .push s u _ hp⟩
    · exact ⟨_, _, .check s u hp⟩
    · exact ⟨_, _, .pop s u hp⟩
    · exact ⟨_, _, .release s u hp⟩
    · exact absurd hp (h1 ⟨[], 0, 0, 0, 0⟩).2.2
  cases hp : s.pc t
  · cases htd : s.todo t with
    | nil => exact absurd ⟨hp, htd⟩ ht
    | cons op rest =>
      cases op with
      | submit e => exact ⟨_, _, .call s t e rest hp htd⟩
      | dump => exact ⟨_, _, .readBegin s t rest hp htd⟩
  · rename_i e
    cases hm : s.mutex with
    | none => exact ⟨_, _, .acquire s t e hp hm⟩
    | some u => exact hcrit u hm
  · exact ⟨_, _, .push s t _ hp⟩
  · exact ⟨_, _, .check s t hp⟩
  · exact ⟨_, _, .pop s t hp⟩
  · exact ⟨_, _, .release s t hp⟩
  · exact ⟨_, _, .readEnd s t hp⟩

/-! ## C61: data races -/

/-- The thread is modifying the buffer. -/
def Writes : PC → Prop
  | .pushing _ | .popping => True
  | _ => False

/-- The thread is accessing the buffer. -/
def Accesses : PC → Prop
  | .pushing _ | .checking | .popping | .reading => True
  | _ => False

/-- Two threads access the buffer at the same time and one of them modifies it. -/
def Race (s : State T) : Prop := ∃ t u, t ≠ u ∧ Writes (s.pc t) ∧ Accesses (s.pc u)

/-- **C61**. In every interleaving, a data race on the buffer involves a thread inside `get_trace_json`;
submissions never race with each other. -/
theorem C61_race_needs_dump (prog : T → List Op) (ls : List (Label T)) (s : State T) (h : Exec (init prog) ls s)
    (hr : Race s) : ∃ t, s.pc t = .reading := by
  obtain ⟨t, u, hne, hw, ha⟩ := hr
  have hi := inv_exec h
  have ht := hi.pc t
  have hu := hi.pc u
  have hmt : s.mutex = some t := by
    unfold PCInv at ht
    cases hp : s.pc t <;> simp only [hp, Writes] at hw ht
    · exact ht.1
    · exact ht.1
  unfold PCInv at hu
  cases hp : s.pc u <;> simp only [hp, Accesses] at ha hu
  · exact absurd (Option.some.inj (hmt.symm.trans hu.1)) hne
  · exact absurd (Option.some.inj (hmt.symm.trans hu.1)) hne
  · exact absurd (Option.some.inj (hmt.symm.trans hu.1)) hne
  · exact ⟨u, hp⟩

theorem reading_of_dump {prog : T → List Op} {ls : List (Label T)} {s : State T} (h : Exec (init prog) ls s)
    (hp : ∀ t, Op.dump ∉ prog t) : (∀ t, s.pc t ≠ .reading) ∧ ∀ t, Op.dump ∉ s.todo t := by
  generalize hi : init prog = s0 at h
  induction h with
  | nil => subst hi; exact ⟨fun t => by simp [init], hp⟩
  | snoc _ hs ih =>
    obtain ⟨h1, h2⟩ := ih
    cases hs with
    | readBegin t rest hpc htodo => exact absurd (htodo ▸ List.mem_cons_self) (h2 t)
    | call t e rest hpc htodo =>
      refine ⟨fun u => ?_, fun u => ?_⟩
      · by_cases hu : u = t
        · subst hu; simp
        · simpa [Function.update_of_ne hu] using h1 u
      · by_cases hu : u = t
        · subst hu
          have := h2 u
          rw [htodo] at this
          simp only [Function.update_self]
          exact fun h => this (List.mem_cons_of_mem _ h)
        · simpa [Function.update_of_ne hu] using h2 u
    | check t hpc =>
      refine ⟨fun u => ?_, h2⟩
      by_cases hu : u = t
      · subst hu; simp only [Function.update_self]; split_ifs <;> simp
      · simpa [Function.update_of_ne hu] using h1 u
    | acquire t e hpc hm =>
      refine ⟨fun u => ?_, h2⟩
      by_cases hu : u = t
      · subst hu; simp
      · simpa [Function.update_of_ne hu] using h1 u
    | push t e hpc =>
      refine ⟨fun u => ?_, h2⟩
      by_cases hu : u = t
      · subst hu; simp
      · simpa [Function.update_of_ne hu] using h1 u
    | pop t hpc =>
      refine ⟨fun u => ?_, h2⟩
      by_cases hu : u = t
      · subst hu; simp
      · simpa [Function.update_of_ne hu] using h1 u
    | release t hpc =>
      refine ⟨fun u => ?_, h2⟩
      by_cases hu : u = t
      · subst hu; simp
      · simpa [Function.update_of_ne hu] using h1 u
    | readEnd t hpc =>
      refine ⟨fun u => ?_, h2⟩
      by_cases hu : u = t
      · subst hu; simp
      · simpa [Function.update_of_ne hu] using h1 u

/-- **C61**. Programs that only submit events are race free in every interleaving. -/
theorem C61_submit_race_free (prog : T → List Op) (hp : ∀ t, Op.dump ∉ prog t) (ls : List (Label T)) (s : State T)
    (h : Exec (init prog) ls s) : ¬ Race s := fun hr => by
  obtain ⟨t, ht⟩ := C61_race_needs_dump prog ls s h hr
  exact (reading_of_dump h hp).1 t ht

/-- A sample event. -/
def sampleEvent (n : Int) : Event := ⟨"Solve".toList, n, 1, 2, 1500⟩

/-- Thread `false` submits one event, thread `true` dumps. -/
def racyProg : Bool → List Op
  | false => [.submit (sampleEvent 0)]
  | true => [.dump]

/-- **C61 is false for the code as written**: `get_trace_json` takes no lock, and one submission next to one dump
already has an execution in which `push_back` runs while the buffer is being read. -/
theorem C61_dump_races : ∃ ls s, Exec (init racyProg) ls s ∧ Race s := by
  refine ⟨_, _, .snoc (.snoc (.snoc (.nil _) (.readBegin _ true [] rfl rfl)) (.call _ false (sampleEvent 0) [] rfl rfl))
    (.acquire _ false (sampleEvent 0) rfl rfl), false, true, by decide, ?_, ?_⟩
  · exact trivial
  · exact trivial

/-- Two threads submitting two events each. -/
def demoProg : Bool → List Op := fun b => [.submit (sampleEvent (if b then 1 else 0)), .submit (sampleEvent 7)]

/-- Non-vacuity of C60/C61: a complete interleaved execution of `demoProg` reaching a state in which nobody holds
the mutex, both threads have finished, and four events are stored. -/
example : ∃ ls s, Exec (init demoProg) ls s ∧ s.mutex = none ∧ (∀ t, Done s t) ∧ s.events.length = 4 := by
  have one : ∀ (s : State Bool) (t : Bool) (e : Event) (rest : List Op), s.pc = (fun _ => .idle) → s.mutex = none →
      s.todo t = .submit e :: rest → s.events.length < 10 →
      ∀ {s0 : State Bool} {ls : List (Label Bool)}, Exec s0 ls s →
        ∃ ls', Exec s0 ls' ⟨none, s.events ++ [e], fun _ => .idle, Function.update s.todo t rest⟩ := by
    intro s t e rest hpc hm htd hlen s0 ls hex
    have e1 := Exec.snoc hex (.call s t e rest (by rw [hpc]) htd)
    have e2 := Exec.snoc e1 (.acquire _ t e (by simp) hm)
    have e3 := Exec.snoc e2 (.push _ t e (by simp))
    have e4 := Exec.snoc e3 (.check _ t (by simp))
    have e5 := Exec.snoc e4 (.release _ t (by
      have : ¬ maxTraces < (s.events ++ [e]).length := by simp [maxTraces]; omega
      simp only [Function.update_self, if_neg this]))
    refine ⟨ls ++ [Label.call t] ++ [Label.acquire t e] ++ [Label.push t] ++ [Label.check t] ++ [Label.release t], ?_⟩
    convert e5 using 2
    funext u
    by_cases hu : u = t
    · subst hu; simp
    · simp [Function.update_of_ne hu, hpc]
  obtain ⟨l1, h1⟩ := one (init demoProg) false _ _ rfl rfl rfl (by decide) (.nil _)
  obtain ⟨l2, h2⟩ := one _ true _ _ rfl rfl rfl (by decide) h1
  obtain ⟨l3, h3⟩ := one _ true _ _ rfl rfl rfl (by decide) h2
  obtain ⟨l4, h4⟩ := one _ false _ _ rfl rfl rfl (by decide) h3
  refine ⟨l4, _, h4, rfl, fun t => ?_, rfl⟩
  cases t <;> exact ⟨rfl, rfl⟩

end MiniOpt.Props
