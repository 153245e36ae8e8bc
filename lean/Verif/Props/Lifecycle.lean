import Verif.Model.Lifecycle
import Verif.Props.QPSetup
import Verif.Props.QPReuse

/-!
# C89: an interior point solver object over its lifetime (any arithmetic)
-/

set_option autoImplicit false

namespace MiniOpt.Props

open MiniOpt MiniOpt.Spec MiniOpt.IP

variable {α : Type} [Scalar α]

/-- `Setup` on an object reports what C05 says. -/
theorem setup_reports (mem : Nat → RawQP α) (junk : (N M K : Nat) → IPState N M K α) (ptr : Option Nat) (s : Solver α) :
    (s.setup mem junk ptr).2 = (setup (ptr.map mem)).map fun _ => () := by
  cases ptr with
  | none => rfl
  | some i =>
    simp only [Solver.setup, Option.map_some, setup, checkShapes]
    generalize mem i = p
    split_ifs <;> try rfl
    simp only
    rcases checkIndices_ok p.G.rows p.constraints with ⟨h, _⟩ | ⟨h, _⟩ <;> rw [h] <;> rfl

/-- The pointer an object holds after a history. -/
def lastPointer : List (Call α) → Option Nat → Option Nat
  | [], p => p
  | .setup (some i) _ :: cs, _ => lastPointer cs (some i)
  | _ :: cs, p => lastPointer cs p

/-- The user's problems after a history: what the user wrote, nothing else. -/
def written : List (Call α) → (Nat → RawQP α) → Nat → RawQP α
  | [], m => m
  | .write i p :: cs, m => written cs (Function.update m i p)
  | _ :: cs, m => written cs m

theorem solve_same (E : (N K : Nat) → Eigen N K α) (mem : Nat → RawQP α) (prm : QPParams α) (s : Solver α) :
    ∃ st, (s.solve E mem prm).1 = { s with st := st } ∧ (WF s.st → WF st) := by
  obtain ⟨problem, N, M, K, size, st⟩ := s
  unfold Solver.solve
  cases problem with
  | none => exact ⟨st, rfl, id⟩
  | some i =>
    cases checkParams prm with
    | error e => exact ⟨st, rfl, id⟩
    | ok _ =>
      dsimp only
      by_cases h : (mem i).Fits N M K ∧ size = N + M * 2 + K
      · rw [dif_pos h]
        cases hs : IP.solve (E N K) ((mem i).fitted h.1) prm st with
        | error e => exact ⟨e.2, rfl, fun hw => (WF_solve hw).2 e hs⟩
        | ok r => exact ⟨r.1, rfl, fun hw => (WF_solve hw).1 r hs⟩
      · rw [dif_neg h]; exact ⟨st, rfl, id⟩

/-- The zero block of `H_` is never written to. -/
theorem act_wf (E : (N K : Nat) → Eigen N K α) (c : Call α) (w : (Nat → RawQP α) × Solver α) (hw : WF w.2.st) :
    WF (act E c w).1.2.st := by
  cases c with
  | setup ptr junk =>
    cases ptr with
    | none => exact hw
    | some i =>
      simp only [act, Solver.setup]
      cases checkShapes (w.1 i) with
      | error e => exact hw
      | ok _ => exact fun _ _ => rfl
  | solve prm =>
    obtain ⟨st, h1, h2⟩ := solve_same E w.1 prm w.2
    show WF (w.2.solve E w.1 prm).1.st
    rw [h1]; exact h2 hw
  | setVariables v => exact hw
  | write i p => exact hw

theorem runCalls_cons {E : (N K : Nat) → Eigen N K α} {c : Call α} {cs : List (Call α)}
    {w w' : (Nat → RawQP α) × Solver α} (h : runCalls E (c :: cs) w = some w') :
    runCalls E cs (act E c w).1 = some w' := by
  unfold runCalls at h
  split at h
  · cases h
  · rename_i w1 o _ hact
    rw [hact]; exact h

theorem runCalls_append (E : (N K : Nat) → Eigen N K α) (cs ds : List (Call α)) (w : (Nat → RawQP α) × Solver α) :
    runCalls E (cs ++ ds) w = (runCalls E cs w).bind (runCalls E ds) := by
  induction cs generalizing w with
  | nil => rfl
  | cons c cs ih =>
    rw [List.cons_append]
    have e : ∀ cs, runCalls E (c :: cs) w = match act E c w with
      | (_, some (.ub _)) => none
      | (w', _) => runCalls E cs w' := fun _ => rfl
    rw [e, e]
    split
    · rfl
    · exact ih _

theorem runCalls_wf (E : (N K : Nat) → Eigen N K α) (cs : List (Call α)) (w w' : (Nat → RawQP α) × Solver α)
    (hw : WF w.2.st) (h : runCalls E cs w = some w') : WF w'.2.st := by
  induction cs generalizing w with
  | nil => cases h; exact hw
  | cons c cs ih => exact ih _ (act_wf E c w hw) (runCalls_cons h)

/-- **C89** (pointer and memory). After any history the object points to the problem of the last `Setup` with a non-null
pointer, *whether or not that call was rejected*; and no call changes the user's problems. -/
theorem C89_pointer (E : (N K : Nat) → Eigen N K α) (cs : List (Call α)) (mem : Nat → RawQP α) (s : Solver α)
    (w : (Nat → RawQP α) × Solver α) (h : runCalls E cs (mem, s) = some w) :
    w.2.problem = lastPointer cs s.problem ∧ w.1 = written cs mem := by
  induction cs generalizing mem s with
  | nil => cases h; exact ⟨rfl, rfl⟩
  | cons c cs ih =>
    have h' := runCalls_cons h
    cases c with
    | setup ptr junk =>
      cases ptr with
      | none => exact ih _ _ h'
      | some i =>
        obtain ⟨h1, h2⟩ := ih _ _ h'
        refine ⟨h1.trans ?_, h2⟩
        show lastPointer cs _ = lastPointer cs (some i)
        congr 1
        simp only [Solver.setup]
        cases checkShapes (mem i) <;> rfl
    | solve prm =>
      obtain ⟨st, e, _⟩ := solve_same E mem prm s
      obtain ⟨h1, h2⟩ := ih _ _ h'
      refine ⟨h1.trans ?_, h2⟩
      show lastPointer cs (s.solve E mem prm).1.problem = lastPointer cs s.problem
      rw [e]
    | setVariables v => exact ih mem (s.setVariables v) h'
    | write i p => exact ih _ _ h'

/-- **C89** (no problem). An object that was never given a non-null pointer refuses to solve, whatever else was done to
it and whatever the parameters are. -/
theorem C89_no_problem (E : (N K : Nat) → Eigen N K α) (cs : List (Call α)) (mem : Nat → RawQP α) (st0 : IPState 0 0 0 α)
    (w : (Nat → RawQP α) × Solver α) (h : runCalls E cs (mem, Solver.empty st0) = some w)
    (hp : ∀ i junk, Call.setup (some i) junk ∉ cs) (prm : QPParams α) :
    w.2.solve E w.1 prm = (w.2, .error (.assertion "Must have a valid problem")) := by
  have h1 : ∀ (cs : List (Call α)) p, (∀ i junk, Call.setup (some i) junk ∉ cs) → lastPointer cs p = p := by
    intro cs
    induction cs with
    | nil => intro p _; rfl
    | cons c cs ih =>
      intro p hc
      have ih' := ih p fun i junk hm => hc i junk (List.mem_cons_of_mem _ hm)
      cases c with
      | setup ptr junk =>
        cases ptr with
        | none => exact ih'
        | some i => exact absurd (List.mem_cons_self) (hc i junk)
      | solve prm => exact ih'
      | setVariables v => exact ih'
      | write i p => exact ih'
  have h2 := (C89_pointer E cs mem _ w h).1
  rw [h1 cs _ hp] at h2
  unfold Solver.solve
  rw [show w.2.problem = none from h2]

/-- **C89** (null). `Setup(nullptr)` throws and leaves the object as it was. -/
theorem C89_null (mem : Nat → RawQP α) (junk : (N M K : Nat) → IPState N M K α) (s : Solver α) :
    s.setup mem junk none = (s, .error (.assertion "Must pass a non-null problem")) := rfl

theorem ofFn_range (m : Nat) (g : Nat → α) : List.ofFn (fun i : Fin m => g i) = (List.range m).map g := by
  apply List.ext_getElem
  · simp
  · intro i h1 h2; simp

/-- **C89** (`SetVariables`). After `SetVariables(v)` with a vector of the size of the last `Setup`, `variables()` is `v`, and
each accessor returns the part of `v` that `x, s, y, z` in this order have; the problem and the sizes are unchanged. -/
theorem C89_set_variables (s : Solver α) (v : RawVec α) (hv : v.rows = s.N + s.M * 2 + s.K) :
    (s.setVariables v).st.v.flatten = (List.range v.rows).map v.get ∧
    (∀ b vals, getBlock ⟨s.N, s.M, s.K⟩ b ((List.range v.rows).map v.get) = .ok vals →
      vals = match b with
        | .x => List.ofFn (s.setVariables v).st.v.x
        | .s => List.ofFn (s.setVariables v).st.v.s
        | .y => List.ofFn (s.setVariables v).st.v.y
        | .z => List.ofFn (s.setVariables v).st.v.z) ∧
    (s.setVariables v).problem = s.problem ∧ (s.setVariables v).size = v.rows := by
  have hx : List.ofFn (s.setVariables v).st.v.x = (List.range s.N).map v.get := ofFn_range s.N v.get
  have hs : List.ofFn (s.setVariables v).st.v.s = (List.range s.M).map fun i => v.get (s.N + i) :=
    ofFn_range s.M fun i => v.get (s.N + i)
  have hy : List.ofFn (s.setVariables v).st.v.y = (List.range s.K).map fun i => v.get (s.N + s.M + i) :=
    ofFn_range s.K fun i => v.get (s.N + s.M + i)
  have hz : List.ofFn (s.setVariables v).st.v.z = (List.range s.M).map fun i => v.get (s.N + s.M + s.K + i) :=
    ofFn_range s.M fun i => v.get (s.N + s.M + s.K + i)
  have hall : (List.range v.rows).map v.get = (List.range s.N).map v.get ++ (List.range s.M).map (fun i => v.get (s.N + i))
      ++ (List.range s.K).map (fun i => v.get (s.N + s.M + i)) ++ (List.range s.M).map (fun i => v.get (s.N + s.M + s.K + i)) := by
    rw [hv, show s.N + s.M * 2 + s.K = s.N + s.M + s.K + s.M by omega]
    simp only [List.range_add, List.map_append, List.map_map]
    rfl
  have hlen : ((List.range v.rows).map v.get).length = s.N + s.M * 2 + s.K := by simp [hv]
  refine ⟨?_, ?_, rfl, rfl⟩
  · unfold Blocks.flatten
    rw [hall]
    exact congrArg₂ (· ++ ·) (congrArg₂ (· ++ ·) (congrArg₂ (· ++ ·) hx hs) hy) hz
  · intro b vals hb
    unfold getBlock at hb
    rw [hlen] at hb
    cases b with
    | x =>
      simp only [Block.seg, xSeg, readSeg, hlen] at hb
      rw [if_pos (by omega), hall] at hb
      cases hb
      refine Eq.trans ?_ hx.symm
      simp [List.append_assoc, List.take_append_of_le_length]
    | s =>
      simp only [Block.seg, sSeg, readSeg, hlen] at hb
      rw [if_pos (by omega), hall] at hb
      cases hb
      refine Eq.trans ?_ hs.symm
      simp [List.append_assoc, List.drop_append, List.take_append_of_le_length]
    | y =>
      simp only [Block.seg, ySeg, readSeg, hlen] at hb
      rw [if_pos (by omega), hall] at hb
      cases hb
      refine Eq.trans ?_ hy.symm
      rw [List.append_assoc (_ ++ _), List.drop_left' (by simp), List.take_left' (by simp)]
    | z =>
      simp only [Block.seg, zSeg] at hb
      rw [if_pos (by omega)] at hb
      simp only [readSeg, hlen] at hb
      rw [if_pos (by omega), hall] at hb
      cases hb
      refine Eq.trans ?_ hz.symm
      rw [show s.N + s.M * 2 + s.K - s.M = s.N + s.M + s.K by omega, List.drop_left' (by simp; omega)]
      simp

/-- What the caller sees of a `Solve` on an object: the exception, or `variables()` and the outputs. -/
def usedSolve (E : (N K : Nat) → Eigen N K α) (mem : Nat → RawQP α) (prm : QPParams α) (s : Solver α) :
    Res (List α × QPOutputs α) :=
  match s.solve E mem prm with
  | (_, .error e) => .error e
  | (s', .ok out) => .ok (s'.st.v.flatten, out)

/-- The same of an object newly constructed for the problem. -/
def freshSolve (E : (N K : Nat) → Eigen N K α) (q : RawQP α) (prm : QPParams α)
    (junk : (N M K : Nat) → IPState N M K α) : Res (List α × QPOutputs α) :=
  (RawQP.setupAndSolve (some q) E prm junk).map fun r => (r.2.1.v.flatten, r.2.2)

theorem solve_fitted (E : (N K : Nat) → Eigen N K α) (mem : Nat → RawQP α) (prm : QPParams α) (s : Solver α) (i : Nat)
    (hp : s.problem = some i) (hf : (mem i).Fits s.N s.M s.K) (hs : s.size = s.N + s.M * 2 + s.K)
    (ha : SetupAccepts (mem i)) (hw : WF s.st) (hg : prm.initialGuessMethod ≠ .userProvided)
    (junk : (N M K : Nat) → IPState N M K α) : usedSolve E mem prm s = freshSolve E (mem i) prm junk := by
  have hset := (C05_setup_exact (some (mem i))).2.1 _ rfl ha
  obtain ⟨problem, N, M, K, size, st⟩ := s
  dsimp only at hp hf hs hw
  subst hp
  obtain ⟨hin, rfl, rfl, rfl⟩ := hf
  unfold usedSolve freshSolve Solver.solve RawQP.setupAndSolve
  rw [hset]
  cases checkParams prm with
  | error e => rfl
  | ok _ =>
    dsimp only
    rw [dif_pos ⟨⟨hin, rfl, rfl, rfl⟩, hs⟩, dif_pos hin]
    have hsim := solve_sim_wf (E _ _) ((mem i).typed hin) prm st (setupState (junk _ _ _)) hw (fun _ _ => rfl)
      (fun h => absurd h hg)
    have e : (mem i).fitted ⟨hin, rfl, rfl, rfl⟩ = (mem i).typed hin := rfl
    rw [e]
    revert hsim
    generalize IP.solve (E _ _) ((mem i).typed hin) prm st = A
    generalize IP.solve (E _ _) ((mem i).typed hin) prm (setupState (junk _ _ _)) = B
    intro hsim
    cases A with
    | error a =>
      cases B with
      | error b =>
        have : a.1 = b.1 := by simpa [observe] using hsim
        show Except.error a.1 = Except.error b.1
        rw [this]
      | ok b => simp [observe] at hsim
    | ok a =>
      cases B with
      | error b => simp [observe] at hsim
      | ok b =>
        have : a.1.v = b.1.v ∧ a.2 = b.2 := by simpa [observe] using hsim
        show Except.ok (a.1.v.flatten, a.2) = Except.ok (b.1.v.flatten, b.2)
        rw [this.1, this.2]

/-- A problem of the same sizes. -/
def SameSizes (p q : RawQP α) : Prop :=
  p.G.rows = q.G.rows ∧ p.constraints.length = q.constraints.length ∧ p.Aeq.rows = q.Aeq.rows

/-- A call that does not disturb an object set up for `q` at address `i`: no `Setup` with another problem (a null pointer
does no harm), variables of the right size, and what is written to the address is a valid problem of the same sizes. -/
def Harmless (i : Nat) (q : RawQP α) : Call α → Prop
  | .setup ptr _ => ptr = none
  | .solve _ => True
  | .setVariables v => v.rows = q.G.rows + q.constraints.length * 2 + q.Aeq.rows
  | .write j p => j = i → p.InRange ∧ SetupAccepts p ∧ SameSizes p q

/-- What holds of the object from an accepted `Setup` on. -/
structure Ready (i : Nat) (q : RawQP α) (w : (Nat → RawQP α) × Solver α) : Prop where
  ptr : w.2.problem = some i
  fits : (w.1 i).Fits w.2.N w.2.M w.2.K
  accepts : SetupAccepts (w.1 i)
  same : SameSizes (w.1 i) q
  size : w.2.size = w.2.N + w.2.M * 2 + w.2.K
  wf : WF w.2.st

theorem ready_act (E : (N K : Nat) → Eigen N K α) (i : Nat) (q : RawQP α) (w : (Nat → RawQP α) × Solver α)
    (hr : Ready i q w) (c : Call α) (hc : Harmless i q c) :
    Ready i q (act E c w).1 ∧ ∀ tag, (act E c w).2 ≠ some (.ub tag) := by
  obtain ⟨mem, s⟩ := w
  obtain ⟨h1, h2, h3, h4, h5, h6⟩ := hr
  dsimp only at h1 h2 h3 h4 h5 h6
  cases c with
  | setup ptr junk =>
    have hn : ptr = none := hc
    subst hn
    exact ⟨⟨h1, h2, h3, h4, h5, h6⟩, fun tag h => by cases h⟩
  | solve prm =>
    obtain ⟨st, e, hw⟩ := solve_same E mem prm s
    refine ⟨?_, ?_⟩
    · show Ready i q (mem, (s.solve E mem prm).1)
      rw [e]
      exact ⟨h1, h2, h3, h4, h5, hw h6⟩
    · intro tag
      show (match (s.solve E mem prm).2 with | .ok _ => none | .error e => some e) ≠ some (.ub tag)
      unfold Solver.solve
      rw [h1]
      dsimp only
      cases hc : checkParams prm with
      | error e =>
        obtain ⟨t, _, rfl⟩ := checkParams_error hc
        simp
      | ok _ =>
        dsimp only
        rw [dif_pos ⟨h2, h5⟩]
        cases hs : IP.solve (E s.N s.K) ((mem i).fitted h2) prm s.st with
        | error e =>
          have := solve_faults hc hs
          intro h
          have h' : e.1 = .ub tag := by simpa using h
          rw [h'] at this
          simp at this
        | ok r => simp
  | setVariables v =>
    refine ⟨⟨h1, h2, h3, h4, ?_, h6⟩, fun tag h => by cases h⟩
    have hv : v.rows = _ := hc
    show v.rows = s.N + s.M * 2 + s.K
    rw [hv, ← h2.2.1, ← h2.2.2.1, ← h2.2.2.2, h4.1, h4.2.1, h4.2.2]
  | write j p =>
    refine ⟨?_, fun tag h => by cases h⟩
    show Ready i q (Function.update mem j p, s)
    by_cases hj : j = i
    · subst hj
      obtain ⟨g1, g2, g3⟩ := hc rfl
      refine ⟨h1, ?_, ?_, ?_, h5, h6⟩ <;> simp only [Function.update_self]
      · exact ⟨g1, by rw [← h2.2.1, g3.1, h4.1], by rw [← h2.2.2.1, g3.2.1, h4.2.1], by rw [← h2.2.2.2, g3.2.2, h4.2.2]⟩
      · exact g2
      · exact g3
    · have e : Function.update mem j p i = mem i := Function.update_of_ne (Ne.symm hj) _ _
      refine ⟨h1, ?_, ?_, ?_, h5, h6⟩ <;> simp only [e]
      · exact h2
      · exact h3
      · exact h4

theorem ready_run (E : (N K : Nat) → Eigen N K α) (i : Nat) (q : RawQP α) (cs : List (Call α))
    (hc : ∀ c ∈ cs, Harmless i q c) (w : (Nat → RawQP α) × Solver α) (hr : Ready i q w) :
    ∃ w', runCalls E cs w = some w' ∧ Ready i q w' := by
  induction cs generalizing w with
  | nil => exact ⟨w, rfl, hr⟩
  | cons c cs ih =>
    obtain ⟨h1, h2⟩ := ready_act E i q w hr c (hc c List.mem_cons_self)
    obtain ⟨w', h3, h4⟩ := ih (fun c hm => hc c (List.mem_cons_of_mem _ hm)) _ h1
    refine ⟨w', ?_, h4⟩
    unfold runCalls
    split
    · rename_i w1 tag hact
      rw [hact] at h2
      exact absurd rfl (h2 tag)
    · rename_i w1 o _ hact
      rw [hact] at h3
      exact h3

theorem checkShapes_ok (p : RawQP α) (h1 : p.G.rows = p.G.cols) (h2 : p.G.rows = p.c.rows)
    (h3 : p.Aeq.rows = p.beq.rows) (h4 : p.Aeq.rows ≠ 0 → p.Aeq.cols ≠ 0 ∧ p.Aeq.cols = p.G.rows) :
    checkShapes p = .ok () := by
  unfold checkShapes
  have hs := size_pos p.Aeq
  have hz : ¬ 0 < p.Aeq.size → p.Aeq.rows = 0 := fun h => by
    by_contra hr
    exact h (hs.mpr ⟨hr, (h4 hr).1⟩)
  rw [if_neg (not_not.mpr h1), if_neg (not_not.mpr h2), if_neg (not_not.mpr h3),
    if_neg (fun h => h.2 (h4 (hs.mp h.1).1).2), if_neg (fun h => h.2 (hz h.1)),
    if_neg (fun h => h.2 (h3 ▸ hz h.1))]

theorem empty_wf (st0 : IPState 0 0 0 α) : WF (Solver.empty st0).st := fun k => k.elim0

/-- **C89.** Take any history on a new object (other problems, rejected ones, exceptions, solves), then a `Setup` with a
valid problem, then any calls that neither set up another problem nor change sizes: solves with any parameters (returning
or throwing), `Setup(nullptr)`, writing variables, *overwriting the problem in place* with another one of the same sizes.
Nothing of this is undefined, and a `Solve` (with a built-in initial guess) is then indistinguishable from `Solve` on a new
object constructed for the problem as it stands in the user's memory at that time. -/
theorem C89_in_place (E : (N K : Nat) → Eigen N K α) (pre post : List (Call α)) (mem0 : Nat → RawQP α)
    (st0 : IPState 0 0 0 α) (w : (Nat → RawQP α) × Solver α) (hpre : runCalls E pre (mem0, Solver.empty st0) = some w)
    (i : Nat) (junk : (N M K : Nat) → IPState N M K α) (ha : SetupAccepts (w.1 i))
    (hpos : ∀ c ∈ (w.1 i).constraints, 0 ≤ c.var) (hpost : ∀ c ∈ post, Harmless i (w.1 i) c) :
    ∃ w', runCalls E (pre ++ .setup (some i) junk :: post) (mem0, Solver.empty st0) = some w' ∧
      w'.1 = written (pre ++ .setup (some i) junk :: post) mem0 ∧
      ∀ prm : QPParams α, prm.initialGuessMethod ≠ .userProvided → ∀ junk',
        usedSolve E w'.1 prm w'.2 = freshSolve E (w'.1 i) prm junk' := by
  have hset := (C05_setup_exact (some (w.1 i))).2.1 _ rfl ha
  have hin : (w.1 i).InRange := (C05_accepted_in_range _ hset).mpr hpos
  have hsh : checkShapes (w.1 i) = .ok () := checkShapes_ok _ ha.1 ha.2.1 ha.2.2.1 ha.2.2.2.1
  have hidx : checkIndices (w.1 i).G.rows (w.1 i).constraints = .ok () := by
    rcases checkIndices_ok (w.1 i).G.rows (w.1 i).constraints with ⟨h, _⟩ | ⟨_, h⟩
    · exact h
    · exact absurd ha.2.2.2.2 h
  have hact : act E (.setup (some i) junk) w = ((w.1, ⟨some i, _, _, _,
      (w.1 i).G.rows + (w.1 i).constraints.length * 2 + (w.1 i).Aeq.rows, setupState (junk (w.1 i).G.rows
      (w.1 i).constraints.length (w.1 i).Aeq.rows)⟩), none) := by
    simp only [act, Solver.setup, hsh, hidx]
  have hr : Ready i (w.1 i) (act E (.setup (some i) junk) w).1 := by
    rw [hact]
    exact ⟨rfl, ⟨hin, rfl, rfl, rfl⟩, ha, ⟨rfl, rfl, rfl⟩, rfl, fun _ _ => rfl⟩
  obtain ⟨w', h1, h2⟩ := ready_run E i (w.1 i) post hpost _ hr
  have hrun : runCalls E (pre ++ .setup (some i) junk :: post) (mem0, Solver.empty st0) = some w' := by
    rw [runCalls_append, hpre]
    show runCalls E (.setup (some i) junk :: post) w = some w'
    unfold runCalls
    rw [hact]
    rw [hact] at h1
    exact h1
  refine ⟨w', hrun, (C89_pointer E _ _ _ _ hrun).2, ?_⟩
  intro prm hg junk'
  exact solve_fitted E w'.1 prm w'.2 i h2.ptr h2.fits h2.size h2.accepts h2.wf hg junk'

/-- **C89** (a rejected problem stays). If `Setup` rejects a non-null problem with at least one variable, the object has
forgotten the problem it had before: unless the user repairs the problem in memory or calls `Setup` again, the next `Solve`
with valid parameters does not throw "Must have a valid problem" but works on the rejected problem, which is undefined.
This holds after every history. -/
theorem C89_rejected (E : (N K : Nat) → Eigen N K α) (mem : Nat → RawQP α) (s : Solver α) (i : Nat)
    (junk : (N M K : Nat) → IPState N M K α) (hn : ¬ SetupAccepts (mem i)) (hrows : 0 < (mem i).G.rows)
    (prm : QPParams α) (hv : ParamsValid prm) :
    (∃ tag, (s.setup mem junk (some i)).2 = .error (.assertion tag)) ∧
    ∃ tag, ((s.setup mem junk (some i)).1.solve E mem prm).2 = .error (.ub tag) := by
  refine ⟨?_, ?_⟩
  · obtain ⟨tag, ht⟩ := (C05_setup_exact (some (mem i))).1.mpr (by rintro _ ⟨⟩; exact hn)
    refine ⟨tag, ?_⟩
    rw [setup_reports]
    simp only [Option.map_some]
    rw [ht]; rfl
  · have hnf : ∀ N M K, ¬ (mem i).Fits N M K := by
      rintro N M K ⟨⟨h1, h2, h3, h4, h5⟩, -⟩
      refine hn ⟨h1.symm, h2.symm, h4.symm, fun h => ?_, fun c hc => (h5 c hc).2⟩
      have := h3 (Nat.pos_of_ne_zero h)
      exact ⟨by omega, this⟩
    have hp : (s.setup mem junk (some i)).1.problem = some i := by
      simp only [Solver.setup]
      cases checkShapes (mem i) <;> rfl
    refine ⟨"sizes or indices of the problem do not fit the solver", ?_⟩
    unfold Solver.solve
    rw [hp, (checkParams_ok_iff prm).mpr hv]
    dsimp only
    rw [dif_neg fun h => hnf _ _ _ h.1]

/-- A problem with one variable, cost `x²/2 + c x` and the bound `x ≥ -b`. -/
def oneVar (c b : α) : RawQP α :=
  ⟨⟨1, 1, fun _ _ => 1⟩, ⟨1, fun _ => c⟩, ⟨0, 0, fun _ _ => 0⟩, ⟨0, fun _ => 0⟩, [⟨0, 1, b⟩]⟩

/-- The same with the bound on a second variable, which does not exist. -/
def badIndex (c b : α) : RawQP α :=
  ⟨⟨1, 1, fun _ _ => 1⟩, ⟨1, fun _ => c⟩, ⟨0, 0, fun _ _ => 0⟩, ⟨0, fun _ => 0⟩, [⟨1, 1, b⟩]⟩

theorem oneVar_accepts (c b : α) : SetupAccepts (oneVar c b) :=
  ⟨rfl, rfl, rfl, fun h => absurd rfl h, fun d hd => by
    rcases List.mem_singleton.mp hd with rfl
    show (0 : Int) < (1 : Nat)
    decide⟩

theorem badIndex_rejected (c b : α) : ¬ SetupAccepts (badIndex c b) := fun h => by
  have : (1 : Int) < ((1 : Nat) : Int) := h.2.2.2.2 ⟨1, 1, b⟩ (List.mem_singleton.mpr rfl)
  exact absurd this (by decide)

/-- The hypotheses of C89 hold of a history in which another problem was rejected before, the problem is solved, then
overwritten in place (another cost, another bound), and solved again. -/
example (E : (N K : Nat) → Eigen N K ℝ) (junk : (N M K : Nat) → IPState N M K ℝ) (st0 : IPState 0 0 0 ℝ) :
    ∃ w', runCalls E ([.write 3 (badIndex 1 2), .setup (some 3) junk, .setup none junk] ++ .setup (some 7) junk ::
        [.solve QPParams.default, .write 7 (oneVar 5 6), .setVariables ⟨3, fun _ => 1⟩, .solve QPParams.default])
        (fun _ => oneVar 3 4, Solver.empty st0) = some w' ∧ w'.1 7 = oneVar 5 6 ∧ w'.1 3 = badIndex 1 2 ∧
      usedSolve E w'.1 QPParams.default w'.2 = freshSolve E (oneVar 5 6) QPParams.default junk := by
  have hd : (QPParams.default : QPParams ℝ).initialGuessMethod ≠ .userProvided := by simp [QPParams.default]
  obtain ⟨w, hw, h7⟩ : ∃ w, runCalls E [.write 3 (badIndex 1 2), .setup (some 3) junk, .setup none junk]
      (fun _ => oneVar 3 4, Solver.empty st0) = some w ∧ w.1 7 = oneVar 3 4 := by
    refine ⟨_, rfl, rfl⟩
  obtain ⟨w', h1, h2, h3⟩ := C89_in_place E _ [.solve QPParams.default, .write 7 (oneVar 5 6), .setVariables ⟨3, fun _ => 1⟩,
    .solve QPParams.default] _ st0 w hw 7 junk (by rw [h7]; exact oneVar_accepts _ _)
    (by
      rw [h7]
      intro c hc
      rcases List.mem_singleton.mp hc with rfl
      exact le_refl _)
    (by
      rw [h7]
      intro c hc
      simp only [List.mem_cons, List.not_mem_nil, or_false] at hc
      rcases hc with rfl | rfl | rfl | rfl
      · trivial
      · intro _
        refine ⟨⟨rfl, rfl, fun h => absurd h (by decide), rfl, fun d hd => ?_⟩, oneVar_accepts _ _, rfl, rfl, rfl⟩
        rcases List.mem_singleton.mp hd with rfl
        exact ⟨le_refl _, by show (0 : Int) < (1 : Nat); decide⟩
      · rfl
      · trivial)
  have e7 : w'.1 7 = oneVar 5 6 := by rw [h2]; rfl
  refine ⟨w', h1, e7, by rw [h2]; rfl, ?_⟩
  rw [← e7]
  exact h3 _ hd junk

/-- A rejected problem: after a good one was solved, `Setup` with a bad index is refused and `Solve` is undefined. -/
example (E : (N K : Nat) → Eigen N K ℝ) (junk : (N M K : Nat) → IPState N M K ℝ) (s : Solver ℝ) :
    (∃ tag, (s.setup (fun _ => badIndex 1 2) junk (some 0)).2 = .error (.assertion tag)) ∧
    ∃ tag, ((s.setup (fun _ => badIndex 1 2) junk (some 0)).1.solve E (fun _ => badIndex 1 2) QPParams.default).2
      = .error (.ub tag) :=
  C89_rejected E _ s 0 junk (badIndex_rejected _ _) (by show 0 < 1; decide) _ ((checkParams_ok_iff _).mp default_valid)

end MiniOpt.Props
