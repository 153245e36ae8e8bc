import Verif.Props.Tracing
import Verif.Props.SolveTrace
import Verif.Props.JsonUnique
import Mathlib.Data.Fintype.EquivFin

/-!
# The trace of solves that run on several threads (C123)
-/

set_option autoImplicit false

namespace MiniOpt.Props

open MiniOpt.Spec MiniOpt.NLS MiniOpt.Trace

/-- A thread (`tid`, its clock readings from the `i`-th on) makes nonlinear solves, one after the other, on problems of any size in
any arithmetic; all of them return. `events` are the events it submits, `names` the scopes that can be read off the outputs of its
solves. -/
inductive SolvesOn (now : Nat → Int) (pid tid : Nat) : Nat → List Event → List (List Char) → Prop where
  | nothing (i : Nat) : SolvesOn now pid tid i [] []
  | solve {n D : Nat} {α : Type} [Scalar α] (env : Env n D α) (prm : NLSParams α) (x0 : Fin n → α) (o o' : env.Obj)
      (out : NLSOutputs α) (calls : List (NLSIteration α)) (i j : Nat) (events : List Event) (names : List (List Char)) :
      NLS.solve env prm x0 o = .ok (o', out, calls) → (exec now pid tid (solveProg env prm x0 o) 0 i).clock ≤ j →
      SolvesOn now pid tid j events names →
      SolvesOn now pid tid i ((exec now pid tid (solveProg env prm x0 o) 0 i).events ++ events) (solveScopes out ++ names)

/-- Every event of a run carries the number of its thread. -/
theorem exec_tid (now : Nat → Int) (pid tid : Nat) (p : Prog) : ∀ u i, ∀ e ∈ (exec now pid tid p u i).events, e.tid = tid := by
  induction p with
  | skip => intro u i e he; cases he
  | throw => intro u i e he; cases he
  | seq p q hp hq =>
    intro u i e he
    unfold exec at he
    dsimp only at he
    split at he
    · rcases List.mem_append.mp he with h | h
      · exact hp _ _ e h
      · exact hq _ _ e h
    · exact hp _ _ e he
  | scope name p hp =>
    intro u i e he
    unfold exec at he
    dsimp only at he
    have := hp u (i + 1) e
    have key : ∀ (c : Prop) [Decidable c] (ev : Event), ev.tid = tid →
        e ∈ (if c then (exec now pid tid p u (i + 1)).events else (exec now pid tid p u (i + 1)).events ++ [ev]) → e.tid = tid := by
      intro c _ ev hev hm
      split at hm
      · exact this hm
      · rcases List.mem_append.mp hm with h | h
        · exact this h
        · rw [List.mem_singleton] at h; rw [h, hev]
    split at he
    · exact this he
    · exact key _ _ rfl he
  | tryCatch p h hp hh =>
    intro u i e he
    unfold exec at he
    dsimp only at he
    split at he
    · rcases List.mem_append.mp he with h | h
      · exact hp _ _ e h
      · exact hh _ _ e h
    · exact hp _ _ e he
  | cleanup p d hp hd =>
    intro u i e he
    unfold exec at he
    dsimp only at he
    split at he
    · exact hp _ _ e he
    · rcases List.mem_append.mp he with h | h
      · exact hp _ _ e h
      · exact hd _ _ e h

theorem solves_tid {now : Nat → Int} {pid tid i : Nat} {events : List Event} {names : List (List Char)}
    (h : SolvesOn now pid tid i events names) : ∀ e ∈ events, e.tid = tid := by
  induction h with
  | nothing i => intro e he; cases he
  | solve env prm x0 o o' out calls i j events names hs hc hr ih =>
    intro e he
    rcases List.mem_append.mp he with h | h
    · exact exec_tid _ _ _ _ _ _ e h
    · exact ih e h

theorem solves_names {now : Nat → Int} {pid tid i : Nat} {events : List Event} {names : List (List Char)}
    (h : SolvesOn now pid tid i events names) : events.map (·.name) = names := by
  induction h with
  | nothing i => rfl
  | solve env prm x0 o o' out calls i j events names hs hc hr ih =>
    rw [List.map_append, ih, (C93_trace_of_log env prm x0 o o' out calls now pid tid i hs).2]

theorem scopes_safe {α : Type} (out : NLSOutputs α) : ∀ m ∈ solveScopes out, SafeName m := by
  intro m hm
  have key : ∀ m ∈ ["LinearizeAndFillQP".toList, "ComputeStepDirection".toList, "ComputeQPCostDerivative".toList,
      "EvaluateNonlinearErrors".toList, "SelectStepSize".toList, "Solve".toList], SafeName m := by decide +kernel
  apply key
  unfold solveScopes at hm
  rcases List.mem_append.mp hm with h | h
  · rcases List.mem_append.mp h with h | h
    · obtain ⟨it, -, h⟩ := List.mem_flatMap.mp h
      unfold iterationScopes at h
      rcases List.mem_append.mp h with h | h
      · rcases List.mem_append.mp h with h | h
        · simp only [List.mem_cons, List.not_mem_nil, or_false] at h ⊢
          tauto
        · rw [(List.mem_replicate.mp h).2]
          simp
      · rw [List.mem_singleton.mp h]; simp
    · split at h
      · simp only [List.mem_cons, List.not_mem_nil, or_false] at h ⊢
        tauto
      · cases h
  · rw [List.mem_singleton.mp h]; simp

theorem solves_safe {now : Nat → Int} {pid tid i : Nat} {events : List Event} {names : List (List Char)}
    (h : SolvesOn now pid tid i events names) : ∀ e ∈ events, SafeName e.name := by
  have hn : ∀ m ∈ names, SafeName m := by
    induction h with
    | nothing i => intro m hm; cases hm
    | solve env prm x0 o o' out calls i j events names hs hc hr ih =>
      intro m hm
      rcases List.mem_append.mp hm with h | h
      · exact scopes_safe out m h
      · exact ih m h
  intro e he
  exact hn _ (by rw [← solves_names h]; exact List.mem_map_of_mem he)

theorem submits_map (l : List Event) : submits (l.map Op.submit) = l := by
  induction l with
  | nil => rfl
  | cons e l ih => simp [submits, ih]

variable {T : Type} [DecidableEq T]

/-- **C123**. Any number of threads make nonlinear solves, in any interleaving. When all have finished, the buffered events of
thread `t` are the last ones of those that can be read off the outputs of its solves, in order; all of them, if there were not more
than 100000 events altogether. Whatever value is read from the text of `get_trace_json` is the list of the buffered events. -/
theorem C123_concurrent_solves (pid : Nat) (tid : T → Nat) (hinj : Function.Injective tid) (now : T → Nat → Int)
    (events : T → List Event) (names : T → List (List Char)) (hruns : ∀ t, SolvesOn (now t) pid (tid t) 0 (events t) (names t))
    (ls : List (Label T)) (s : State T) (h : Exec (init fun t => (events t).map Op.submit) ls s) (hd : ∀ t, Done s t) (t : T) :
    (∃ k, (s.events.filter fun e => e.tid = tid t).map (·.name) = (names t).drop k) ∧
    (s.events.length < 100000 → (s.events.filter fun e => e.tid = tid t) = events t ∧
      (s.events.filter fun e => e.tid = tid t).map (·.name) = names t) ∧
    ∀ v, IsDocument v (traceJson s.events) ↔ v = traceObject s.events := by
  have hm : s.mutex = none := by
    cases hc : s.mutex with
    | none => rfl
    | some u => exact absurd (hd u).1 ((inv_exec h).holder u hc ⟨[], 0, 0, 0, 0⟩).1
  have hev := C60_newest_events _ ls s h hm
  have horder : ∀ u, ((lockOrder ls).filter (fun q => q.1 = u)).map (·.2) = events u := fun u => by
    rw [(C60_program_order _ ls s h u).2 (hd u), submits_map]
  have hmem : ∀ q ∈ lockOrder ls, q.2 ∈ events q.1 := fun q hq => by
    rw [← horder q.1]
    exact List.mem_map_of_mem (List.mem_filter.mpr ⟨hq, by simp⟩)
  have hfilter : ∀ l : List (T × Event), (∀ q ∈ l, q.2 ∈ events q.1) →
      ((l.map (·.2)).filter fun e => e.tid = tid t) = (l.filter fun q => q.1 = t).map (·.2) := by
    intro l
    induction l with
    | nil => intro _; rfl
    | cons q l ih =>
      intro hl
      have ih' := ih fun q' hq' => hl q' (List.mem_cons_of_mem _ hq')
      have htid := solves_tid (hruns q.1) q.2 (hl q List.mem_cons_self)
      rw [List.map_cons]
      by_cases hq : q.1 = t
      · rw [List.filter_cons_of_pos (by rw [htid, hq]; simp), List.filter_cons_of_pos (by simp [hq]), List.map_cons, ih']
      · rw [List.filter_cons_of_neg (by rw [htid]; simpa using fun e => hq (hinj e)), List.filter_cons_of_neg (by simpa using hq), ih']
  have hsuf : ∃ k, (s.events.filter fun e => e.tid = tid t) = (events t).drop k := by
    rw [hev, ← List.map_drop, hfilter _ fun q hq => hmem q (List.drop_subset _ _ hq), ← horder t]
    obtain ⟨k, hk⟩ : ∃ k, ((lockOrder ls).drop ((lockOrder ls).length - 100000)).filter (fun q => q.1 = t)
        = ((lockOrder ls).filter fun q => q.1 = t).drop k := by
      have hs : ((lockOrder ls).drop ((lockOrder ls).length - 100000)).filter (fun q => decide (q.1 = t)) <:+
          (lockOrder ls).filter (fun q => decide (q.1 = t)) := (List.drop_suffix _ _).filter _
      exact ⟨_, List.suffix_iff_eq_drop.mp hs⟩
    exact ⟨k, by rw [hk, List.map_drop]⟩
  refine ⟨?_, fun hlen => ?_, ?_⟩
  · obtain ⟨k, hk⟩ := hsuf
    exact ⟨k, by rw [hk, List.map_drop, solves_names (hruns t)]⟩
  · have hall : s.events = (lockOrder ls).map (·.2) := by
      rw [hev] at hlen ⊢
      rw [List.length_drop, List.length_map] at hlen
      have : (lockOrder ls).length - 100000 = 0 := by omega
      rw [this, List.drop_zero]
    have : (s.events.filter fun e => e.tid = tid t) = events t := by rw [hall, hfilter _ hmem, horder t]
    exact ⟨this, by rw [this, solves_names (hruns t)]⟩
  · intro v
    refine C100_trace s.events (fun e he => ?_) v
    rw [hev] at he
    obtain ⟨q, hq, rfl⟩ := List.mem_map.mp (List.drop_subset _ _ he)
    exact solves_safe (hruns q.1) _ (hmem q hq)

/-- A state in which nobody is inside an operation. -/
def Quiet (s : State T) : Prop := s.mutex = none ∧ ∀ t, s.pc t = .idle

/-- One thread can make all its submissions while the others wait. -/
theorem finish_one {s0 : State T} (t : T) (l : List Event) : ∀ (ls : List (Label T)) (s : State T), Exec s0 ls s → Quiet s →
    s.todo t = l.map Op.submit → ∃ ls' s', Exec s0 ls' s' ∧ Quiet s' ∧ s'.todo t = [] ∧ ∀ u, u ≠ t → s'.todo u = s.todo u := by
  induction l with
  | nil => intro ls s h hq ht; exact ⟨ls, s, h, hq, ht, fun _ _ => rfl⟩
  | cons e l ih =>
    intro ls s h hq ht
    set s1 : State T := { s with pc := Function.update s.pc t (.waiting e), todo := Function.update s.todo t (l.map Op.submit) } with h1
    set s2 : State T := { s1 with mutex := some t, pc := Function.update s1.pc t (.pushing e) } with h2
    set s3 : State T := { s2 with events := s2.events ++ [e], pc := Function.update s2.pc t .checking } with h3
    set s4 : State T := { s3 with pc := Function.update s3.pc t (if maxTraces < s3.events.length then .popping else .unlocking) } with h4
    have e1 : Exec s0 (ls ++ [.call t]) s1 := .snoc h (.call s t e (l.map Op.submit) (hq.2 t) ht)
    have e2 : Exec s0 (ls ++ [.call t] ++ [.acquire t e]) s2 := .snoc e1 (.acquire s1 t e (by simp [h1]) hq.1)
    have e3 : Exec s0 (ls ++ [.call t] ++ [.acquire t e] ++ [.push t]) s3 := .snoc e2 (.push s2 t e (by simp [h2]))
    have e4 : Exec s0 (ls ++ [.call t] ++ [.acquire t e] ++ [.push t] ++ [.check t]) s4 := .snoc e3 (.check s3 t (by simp [h3]))
    have hother : ∀ u, u ≠ t → s4.pc u = .idle := fun u hu => by
      simp only [h4, h3, h2, h1, Function.update_of_ne hu]
      exact hq.2 u
    have htodo : ∀ u, u ≠ t → s4.todo u = s.todo u := fun u hu => by
      simp only [h4, h3, h2, h1, Function.update_of_ne hu]
    have htodo' : s4.todo t = l.map Op.submit := by simp [h4, h3, h2, h1]
    have last : ∀ (s5 : State T) (ls5 : List (Label T)), Exec s0 ls5 s5 → s5.pc t = .unlocking → (∀ u, u ≠ t → s5.pc u = .idle) →
        s5.todo = s4.todo →
        ∃ ls' s', Exec s0 ls' s' ∧ Quiet s' ∧ s'.todo t = [] ∧ ∀ u, u ≠ t → s'.todo u = s.todo u := by
      intro s5 ls5 h5 hp ho htd
      have e6 := Exec.snoc h5 (.release s5 t hp)
      obtain ⟨ls', s', r1, r2, r3, r4⟩ := ih _ _ e6 ⟨rfl, fun u => by
        by_cases hu : u = t
        · subst hu; simp
        · simp only [Function.update_of_ne hu]; exact ho u hu⟩ (by show s5.todo t = _; rw [htd, htodo'])
      exact ⟨ls', s', r1, r2, r3, fun u hu => by
        rw [r4 u hu]
        show s5.todo u = _
        rw [htd]; exact htodo u hu⟩
    by_cases hfull : maxTraces < s3.events.length
    · have hp : s4.pc t = .popping := by simp only [h4, Function.update_self, if_pos hfull]
      have e5 := Exec.snoc e4 (.pop s4 t hp)
      refine last _ _ e5 (by simp) (fun u hu => ?_) rfl
      simp only [Function.update_of_ne hu]
      exact hother u hu
    · refine last s4 _ e4 (by simp only [h4, Function.update_self, if_neg hfull]) hother rfl

/-- **C123** (finishing is possible). Finitely many threads that only submit events can all finish. -/
theorem C123_can_finish [Fintype T] (events : T → List Event) :
    ∃ ls s, Exec (init fun t : T => (events t).map Op.submit) ls s ∧ ∀ t, Done s t := by
  have key : ∀ l : List T, ∃ ls s, Exec (init fun t : T => (events t).map Op.submit) ls s ∧ Quiet s ∧
      ∀ t, s.todo t = if t ∈ l then [] else (events t).map Op.submit := by
    intro l
    induction l with
    | nil => exact ⟨[], _, .nil _, ⟨rfl, fun _ => rfl⟩, fun t => by simp [init]⟩
    | cons t l ih =>
      obtain ⟨ls, s, h, hq, ht⟩ := ih
      by_cases hm : t ∈ l
      · refine ⟨ls, s, h, hq, fun u => ?_⟩
        rw [ht u]
        by_cases hu : u = t
        · subst hu; simp [hm]
        · simp [hu]
      · obtain ⟨ls', s', r1, r2, r3, r4⟩ := finish_one t (events t) ls s h hq (by rw [ht t, if_neg hm])
        refine ⟨ls', s', r1, r2, fun u => ?_⟩
        by_cases hu : u = t
        · subst hu; simp [r3]
        · rw [r4 u hu, ht u]; simp [hu]
  obtain ⟨ls, s, h, hq, ht⟩ := key Finset.univ.toList
  exact ⟨ls, s, h, fun t => ⟨hq.2 t, by rw [ht t]; simp⟩⟩

/-- Two threads compute the square root of two at the same time. -/
example : ∃ (out : NLSOutputs DemoF64.D64) (events : Bool → List Event) (ls : List (Label Bool)) (s : State Bool),
    out.iterations.length = 5 ∧
    (∀ b, SolvesOn (fun k => k) 7 (if b then 1 else 2) 0 (events b) (solveScopes out)) ∧
    Exec (init fun t => (events t).map Op.submit) ls s ∧ (∀ t, Done s t) ∧
    ∀ b : Bool, ∃ k, (s.events.filter fun e => e.tid = if b then 1 else 2).map (·.name) = (solveScopes out).drop k := by
  obtain ⟨o', out, calls, h, -, hr⟩ := DemoF64.summary_run DemoF64.run_sqrt2
  have hrun : ∀ b : Bool, SolvesOn (fun k => k) 7 (if b then 1 else 2) 0
      ((exec (fun k => k) 7 (if b then 1 else 2) (solveProg (DemoF64.env1 DemoF64.sqrt2) (DemoF64.prm 20) (fun _ => DemoF64.d 5)
        (DemoF64.obj1 DemoF64.sqrt2)) 0 0).events ++ []) (solveScopes out ++ []) := fun b =>
    .solve _ _ _ _ o' out calls 0 _ [] [] h le_rfl (.nothing _)
  simp only [List.append_nil] at hrun
  obtain ⟨ls, s, hx, hd⟩ := C123_can_finish fun b : Bool => (exec (fun k => (k : Int)) 7 (if b then 1 else 2)
    (solveProg (DemoF64.env1 DemoF64.sqrt2) (DemoF64.prm 20) (fun _ => DemoF64.d 5) (DemoF64.obj1 DemoF64.sqrt2)) 0 0).events
  refine ⟨out, _, ls, s, by simpa using congrArg List.length hr, hrun, hx, hd, fun b => ?_⟩
  exact (C123_concurrent_solves 7 (fun b => if b then 1 else 2) (by decide) _ _ _ hrun ls s hx hd b).1

end MiniOpt.Props
