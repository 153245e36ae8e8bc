import Verif.Spec.TraceSpec
import Verif.Props.TraceJson
import Mathlib.Order.Monotone.Basic
import Mathlib.Data.List.Forall2

/-!
# C92: what `scoped_trace` records
-/

set_option autoImplicit false

namespace MiniOpt.Props

open MiniOpt.Spec MiniOpt.Trace

variable {now : Nat → Int} {pid tid : Nat}

/-- How code ends does not depend on clocks and exceptions in flight. -/
theorem exec_ending (p : Prog) : ∀ (now' : Nat → Int) (pid' tid' u u' i i' : Nat),
    (exec now pid tid p u i).ending = (exec now' pid' tid' p u' i').ending := by
  induction p with
  | skip => intros; rfl
  | throw => intros; rfl
  | seq p q hp hq =>
    intro now' pid' tid' u u' i i'
    simp only [exec]
    rw [hp now' pid' tid' u u' i i']
    cases (exec now' pid' tid' p u' i').ending
    · exact hq _ _ _ _ _ _ _
    · rfl
    · rfl
  | scope name p hp =>
    intro now' pid' tid' u u' i i'
    simp only [exec]
    have e := hp now' pid' tid' u u' (i + 1) (i' + 1)
    cases h : (exec now' pid' tid' p u' (i' + 1)).ending <;> rw [h] at e <;> simp only [e, h]
  | tryCatch p h hp hh =>
    intro now' pid' tid' u u' i i'
    simp only [exec]
    have e := hp now' pid' tid' u u' i i'
    cases h' : (exec now' pid' tid' p u' i').ending <;> rw [h'] at e <;> simp only [e, h']
    exact hh _ _ _ _ _ _ _
  | cleanup p d hp hd =>
    intro now' pid' tid' u u' i i'
    simp only [exec]
    have e := hp now' pid' tid' u u' i i'
    cases h' : (exec now' pid' tid' p u' i').ending <;> rw [h'] at e <;> simp only [e, h']
    · simp only [reduceCtorEq, if_false]
      rw [hd now' pid' tid' u u' _ (exec now' pid' tid' p u' i').clock]
    · simp only [if_true]
      rw [hd now' pid' tid' (u + 1) (u' + 1) _ (exec now' pid' tid' p u' i').clock]

/-- Nothing is recorded while an exception is in flight. -/
theorem exec_silent (p : Prog) : ∀ u i, 0 < u → (exec now pid tid p u i).events = [] := by
  induction p with
  | skip | throw => intros; rfl
  | seq p q hp hq =>
    intro u i hu
    simp only [exec]
    split
    · simp [hp u i hu, hq u _ hu]
    · exact hp u i hu
  | scope name p hp =>
    intro u i hu
    simp only [exec]
    split
    · exact hp u _ hu
    · have : 0 < if (exec now pid tid p u (i + 1)).ending = .thrown then u + 1 else u := by split <;> omega
      simp only [this, if_true]
      exact hp u _ hu
  | tryCatch p h hp hh =>
    intro u i hu
    simp only [exec]
    split
    · simp [hp u i hu, hh u _ hu]
    · exact hp u i hu
  | cleanup p d hp hd =>
    intro u i hu
    simp only [exec]
    split
    · exact hp u i hu
    · have : 0 < if (exec now pid tid p u i).ending = .thrown then u + 1 else u := by split <;> omega
      simp [hp u i hu, hd _ _ this]

/-- The specification determines what is recorded. -/
theorem records_unique {p : Prog} {a b : List (List Char)} {e f : Ending} (h : Records p a e) (h' : Records p b f) :
    a = b ∧ e = f := by
  induction h generalizing b f with
  | skip | throw => cases h'; exact ⟨rfl, rfl⟩
  | seq _ _ ih1 ih2 =>
    cases h' with
    | seq k1 k2 =>
      obtain ⟨rfl, -⟩ := ih1 k1
      obtain ⟨rfl, rfl⟩ := ih2 k2
      exact ⟨rfl, rfl⟩
    | seqStop hn k => exact absurd (ih1 k).2.symm hn
  | seqStop hn _ ih =>
    cases h' with
    | seq k1 k2 => exact absurd (ih k1).2 hn
    | seqStop _ k => exact ih k
  | scope _ ih =>
    cases h' with
    | scope k => obtain ⟨rfl, -⟩ := ih k; exact ⟨rfl, rfl⟩
    | scopeStop hn k => exact absurd (ih k).2.symm hn
  | scopeStop hn _ ih =>
    cases h' with
    | scope k => exact absurd (ih k).2 hn
    | scopeStop _ k => exact ih k
  | tryOk hn _ ih =>
    cases h' with
    | tryOk _ k => exact ih k
    | tryCaught k _ => exact absurd (ih k).2 hn
  | tryCaught _ _ ih1 ih2 =>
    cases h' with
    | tryOk hn k => exact absurd (ih1 k).2.symm hn
    | tryCaught k1 k2 =>
      obtain ⟨rfl, -⟩ := ih1 k1
      obtain ⟨rfl, rfl⟩ := ih2 k2
      exact ⟨rfl, rfl⟩
  | cleanup _ _ ih1 ih2 =>
    cases h' with
    | cleanup k1 k2 => obtain ⟨rfl, -⟩ := ih1 k1; obtain ⟨rfl, -⟩ := ih2 k2; exact ⟨rfl, rfl⟩
    | cleanupFails hn k1 k2 => exact absurd (ih2 k2).2.symm hn
    | unwound k1 _ => exact absurd (ih1 k1).2 (by simp)
    | unwoundFails _ k1 _ => exact absurd (ih1 k1).2 (by simp)
    | terminated k => exact absurd (ih1 k).2 (by simp)
  | cleanupFails hn _ _ ih1 ih2 =>
    cases h' with
    | cleanup k1 k2 => exact absurd (ih2 k2).2 hn
    | cleanupFails _ k1 k2 => obtain ⟨rfl, -⟩ := ih1 k1; obtain ⟨rfl, -⟩ := ih2 k2; exact ⟨rfl, rfl⟩
    | unwound k1 _ => exact absurd (ih1 k1).2 (by simp)
    | unwoundFails _ k1 _ => exact absurd (ih1 k1).2 (by simp)
    | terminated k => exact absurd (ih1 k).2 (by simp)
  | unwound _ _ ih1 ih2 =>
    cases h' with
    | cleanup k1 _ => exact absurd (ih1 k1).2 (by simp)
    | cleanupFails _ k1 _ => exact absurd (ih1 k1).2 (by simp)
    | unwound k1 _ => exact ⟨(ih1 k1).1, rfl⟩
    | unwoundFails hn _ k2 => exact absurd (ih2 k2).2.symm hn
    | terminated k => exact absurd (ih1 k).2 (by simp)
  | unwoundFails hn _ _ ih1 ih2 =>
    cases h' with
    | cleanup k1 _ => exact absurd (ih1 k1).2 (by simp)
    | cleanupFails _ k1 _ => exact absurd (ih1 k1).2 (by simp)
    | unwound _ k2 => exact absurd (ih2 k2).2 hn
    | unwoundFails _ k1 _ => exact ⟨(ih1 k1).1, rfl⟩
    | terminated k => exact absurd (ih1 k).2 (by simp)
  | terminated _ ih =>
    cases h' with
    | cleanup k1 _ => exact absurd (ih k1).2 (by simp)
    | cleanupFails _ k1 _ => exact absurd (ih k1).2 (by simp)
    | unwound k1 _ => exact absurd (ih k1).2 (by simp)
    | unwoundFails _ k1 _ => exact absurd (ih k1).2 (by simp)
    | terminated k => exact ⟨(ih k).1, rfl⟩

theorem exec_records (p : Prog) : ∀ i, Records p ((exec now pid tid p 0 i).events.map (·.name)) (exec now pid tid p 0 i).ending := by
  induction p with
  | skip => intro i; exact .skip
  | throw => intro i; exact .throw
  | seq p q hp hq =>
    intro i
    have h := hp i
    simp only [exec]
    cases e : (exec now pid tid p 0 i).ending <;> rw [e] at h <;> simp only []
    · rw [List.map_append]; exact .seq h (hq _)
    · exact .seqStop (by simp) h
    · exact .seqStop (by simp) h
  | scope name p hp =>
    intro i
    have h := hp (i + 1)
    simp only [exec]
    cases e : (exec now pid tid p 0 (i + 1)).ending <;> rw [e] at h <;> simp only [e]
    · simpa using Records.scope (name := name) h
    · simpa using Records.scopeStop (name := name) (by simp) h
    · exact .scopeStop (by simp) h
  | tryCatch p hd hp hh =>
    intro i
    have h := hp i
    simp only [exec]
    cases e : (exec now pid tid p 0 i).ending <;> rw [e] at h <;> simp only [e]
    · exact .tryOk (by simp) h
    · rw [List.map_append]; exact .tryCaught h (hh _)
    · exact .tryOk (by simp) h
  | cleanup p d hp hd =>
    intro i
    have h := hp i
    simp only [exec]
    cases e : (exec now pid tid p 0 i).ending <;> rw [e] at h <;> simp only [e]
    · have h2 := hd (exec now pid tid p 0 i).clock
      simp only [reduceCtorEq, if_false, List.map_append]
      split_ifs with h3
      · rw [h3] at h2; exact .cleanup h h2
      · exact .cleanupFails h3 h h2
    · have h2 := hd (exec now pid tid p 0 i).clock
      simp only [if_true, zero_add, exec_silent d 1 _ Nat.one_pos, List.append_nil]
      rw [exec_ending d now pid tid 1 0 _ (exec now pid tid p 0 i).clock]
      split_ifs with h3
      · rw [h3] at h2; exact .unwound h h2
      · exact .unwoundFails h3 h h2
    · exact .terminated h

/-- **C92**. The events submitted by a thread, from a moment at which no exception is in flight, are exactly the scopes the
specification records, in that order, whatever the clock says: one for each scope left normally, none for a scope left by an
exception, none for code that runs in a destructor because of an exception. -/
theorem C92_recorded_scopes (now : Nat → Int) (pid tid : Nat) (p : Prog) (i : Nat) (names : List (List Char)) (e : Ending) :
    ((exec now pid tid p 0 i).events.map (·.name) = names ∧ (exec now pid tid p 0 i).ending = e) ↔ Records p names e := by
  constructor
  · rintro ⟨rfl, rfl⟩; exact exec_records p i
  · exact fun h => records_unique (exec_records p i) h

/-- `p` runs no `throw` and has no handlers or destructors. -/
def PlainCode : Prog → Prop
  | .skip => True
  | .seq p q => PlainCode p ∧ PlainCode q
  | .scope _ p => PlainCode p
  | _ => False

/-- The scopes of plain code, inner ones first. -/
def innerFirst : Prog → List (List Char)
  | .seq p q => innerFirst p ++ innerFirst q
  | .scope name p => innerFirst p ++ [name]
  | _ => []

/-- **C92**, code without exceptions: every scope is recorded, inner scopes before the scopes around them. -/
theorem C92_plain_code (p : Prog) (h : PlainCode p) : Records p (innerFirst p) .normal := by
  induction p with
  | skip => exact .skip
  | seq p q hp hq => exact .seq (hp h.1) (hq h.2)
  | scope name p hp => exact .scope (hp h)
  | throw | tryCatch _ _ | cleanup _ _ => exact h.elim

/-- Every event of a run comes from an interval of clock readings. -/
theorem exec_intervals (hmono : Monotone now) (p : Prog) : ∀ u i, i ≤ (exec now pid tid p u i).clock ∧
    ∃ ivs : List (Int × Int),
      List.Forall₂ (fun e iv => e.ts = iv.1.tdiv 1000 ∧ e.durNs = iv.2 - iv.1 ∧ e.pid = pid ∧ e.tid = tid)
        (exec now pid tid p u i).events ivs ∧
      (∀ iv ∈ ivs, now i ≤ iv.1 ∧ iv.1 ≤ iv.2 ∧ iv.2 ≤ now (exec now pid tid p u i).clock) ∧
      ivs.Pairwise BeforeOrInside := by
  -- two runs one after the other
  have join : ∀ {i j k : Nat} {ea eb : List Event} {va vb : List (Int × Int)},
      i ≤ j → j ≤ k →
      List.Forall₂ (fun (e : Event) (iv : Int × Int) => e.ts = iv.1.tdiv 1000 ∧ e.durNs = iv.2 - iv.1 ∧ e.pid = pid ∧ e.tid = tid) ea va →
      List.Forall₂ (fun (e : Event) (iv : Int × Int) => e.ts = iv.1.tdiv 1000 ∧ e.durNs = iv.2 - iv.1 ∧ e.pid = pid ∧ e.tid = tid) eb vb →
      (∀ iv ∈ va, now i ≤ iv.1 ∧ iv.1 ≤ iv.2 ∧ iv.2 ≤ now j) → (∀ iv ∈ vb, now j ≤ iv.1 ∧ iv.1 ≤ iv.2 ∧ iv.2 ≤ now k) →
      va.Pairwise BeforeOrInside → vb.Pairwise BeforeOrInside →
      ∃ ivs : List (Int × Int), List.Forall₂ (fun (e : Event) (iv : Int × Int) => e.ts = iv.1.tdiv 1000 ∧ e.durNs = iv.2 - iv.1 ∧ e.pid = pid ∧ e.tid = tid) (ea ++ eb) ivs ∧
        (∀ iv ∈ ivs, now i ≤ iv.1 ∧ iv.1 ≤ iv.2 ∧ iv.2 ≤ now k) ∧ ivs.Pairwise BeforeOrInside := by
    intro i j k ea eb va vb hij hjk fa fb ra rb pa pb
    refine ⟨va ++ vb, List.rel_append fa fb, ?_, ?_⟩
    · intro iv hm
      rcases List.mem_append.mp hm with hm | hm
      · obtain ⟨h1, h2, h3⟩ := ra iv hm
        exact ⟨h1, h2, h3.trans (hmono hjk)⟩
      · obtain ⟨h1, h2, h3⟩ := rb iv hm
        exact ⟨(hmono hij).trans h1, h2, h3⟩
    · rw [List.pairwise_append]
      exact ⟨pa, pb, fun a ha b hb => Or.inl ((ra a ha).2.2.trans (rb b hb).1)⟩
  induction p with
  | skip => intro u i; exact ⟨le_rfl, [], .nil, by simp, .nil⟩
  | throw => intro u i; exact ⟨le_rfl, [], .nil, by simp, .nil⟩
  | seq p q hp hq =>
    intro u i
    obtain ⟨c1, va, fa, ra, pa⟩ := hp u i
    simp only [exec]
    split
    · obtain ⟨c2, vb, fb, rb, pb⟩ := hq u (exec now pid tid p u i).clock
      exact ⟨c1.trans c2, join c1 c2 fa fb ra rb pa pb⟩
    · exact ⟨c1, va, fa, ra, pa⟩
  | scope name p hp =>
    intro u i
    obtain ⟨c1, va, fa, ra, pa⟩ := hp u (i + 1)
    have hi : now i ≤ now (i + 1) := hmono (Nat.le_succ i)
    simp only [exec]
    split
    · exact ⟨by omega, va, fa, fun iv hm => ⟨hi.trans (ra iv hm).1, (ra iv hm).2⟩, pa⟩
    · dsimp only
      refine ⟨by omega, ?_⟩
      have hc : now (exec now pid tid p u (i + 1)).clock ≤ now ((exec now pid tid p u (i + 1)).clock + 1) :=
        hmono (Nat.le_succ _)
      generalize (if (exec now pid tid p u (i + 1)).ending = Ending.thrown then u + 1 else u) = w
      split_ifs
      · exact ⟨va, fa, fun iv hm => ⟨hi.trans (ra iv hm).1, (ra iv hm).2.1, (ra iv hm).2.2.trans hc⟩, pa⟩
      · refine ⟨va ++ [(now i, now (exec now pid tid p u (i + 1)).clock)],
          List.rel_append fa (.cons ⟨rfl, rfl, rfl, rfl⟩ .nil), ?_, ?_⟩
        · intro iv hm
          rcases List.mem_append.mp hm with hm | hm
          · exact ⟨hi.trans (ra iv hm).1, (ra iv hm).2.1, (ra iv hm).2.2.trans hc⟩
          · rcases List.mem_singleton.mp hm with rfl
            exact ⟨le_rfl, hmono (by omega), hc⟩
        · rw [List.pairwise_append]
          refine ⟨pa, by simp, fun a ha b hb => ?_⟩
          rcases List.mem_singleton.mp hb with rfl
          exact Or.inr ⟨hi.trans (ra a ha).1, (ra a ha).2.2⟩
  | tryCatch p h hp hh =>
    intro u i
    obtain ⟨c1, va, fa, ra, pa⟩ := hp u i
    simp only [exec]
    split
    · obtain ⟨c2, vb, fb, rb, pb⟩ := hh u (exec now pid tid p u i).clock
      exact ⟨c1.trans c2, join c1 c2 fa fb ra rb pa pb⟩
    · exact ⟨c1, va, fa, ra, pa⟩
  | cleanup p d hp hd =>
    intro u i
    obtain ⟨c1, va, fa, ra, pa⟩ := hp u i
    simp only [exec]
    split
    · exact ⟨c1, va, fa, ra, pa⟩
    · obtain ⟨c2, vb, fb, rb, pb⟩ := hd (if (exec now pid tid p u i).ending = .thrown then u + 1 else u)
        (exec now pid tid p u i).clock
      exact ⟨c1.trans c2, join c1 c2 fa fb ra rb pa pb⟩

/-- **C92**, times. If the clock does not run backwards, each event belongs to an interval of nanoseconds of which it reports
the start (truncated to microseconds) and the length; the lengths are not negative; and of two events of one thread, the one
submitted first lies before the other or inside it. -/
theorem C92_nested_times (now : Nat → Int) (hmono : Monotone now) (pid tid : Nat) (p : Prog) (u i : Nat) :
    ∃ ivs : List (Int × Int),
      List.Forall₂ (fun e iv => e.ts = iv.1.tdiv 1000 ∧ e.durNs = iv.2 - iv.1 ∧ 0 ≤ e.durNs ∧ e.pid = pid ∧ e.tid = tid)
        (exec now pid tid p u i).events ivs ∧ ivs.Pairwise BeforeOrInside := by
  obtain ⟨-, ivs, f, r, pw⟩ := exec_intervals (pid := pid) (tid := tid) hmono p u i
  refine ⟨ivs, ?_, pw⟩
  rw [List.forall₂_iff_get] at f ⊢
  refine ⟨f.1, fun j h1 h2 => ?_⟩
  obtain ⟨a, b, c, d⟩ := f.2 j h1 h2
  have := (r _ (List.get_mem ivs ⟨j, h2⟩)).2.1
  exact ⟨a, b, by rw [b]; linarith, c, d⟩

/-- **C92**, the JSON. Starts and durations are printed in whole microseconds, each truncated. For an interval inside another
(both after the epoch) the printed interval starts inside the printed outer one and sticks out at its end by at most one
microsecond. -/
theorem C92_printed_nesting (s d s' d' : Int) (hs : 0 ≤ s) (hd : 0 ≤ d) (hd' : 0 ≤ d') (h1 : s ≤ s') (h2 : s' + d' ≤ s + d) :
    s.tdiv 1000 ≤ s'.tdiv 1000 ∧
    s'.tdiv 1000 + d'.tdiv 1000 ≤ s.tdiv 1000 + d.tdiv 1000 + 1 := by
  rw [Int.tdiv_eq_ediv_of_nonneg hs, Int.tdiv_eq_ediv_of_nonneg hd, Int.tdiv_eq_ediv_of_nonneg hd',
    Int.tdiv_eq_ediv_of_nonneg (hs.trans h1)]
  omega

/-- The clock of the witness below. -/
def roundedClock : Nat → Int := fun k => if k = 0 then 900 else if k = 1 then 1000 else if k = 2 then 2000 else 2100

/-- **C92**, the bound is attained: a scope inside another is printed as microseconds 1 to 2, the outer one as 0 to 1. -/
theorem C92_sticks_out : Monotone roundedClock ∧
    (exec roundedClock 1 1 (.scope "outer".toList (.scope "inner".toList .skip)) 0 0).events.map
      (fun e => (e.name, e.ts, e.ts + e.durNs.tdiv 1000)) = [("inner".toList, 1, 2), ("outer".toList, 0, 1)] := by
  refine ⟨fun a b hab => ?_, by decide +kernel⟩
  unfold roundedClock
  split_ifs <;> omega

/-- A run with an exception that is caught: the scope it leaves is missing, the others are there. -/
example : Records (.scope "Solve".toList (.tryCatch
      (.seq (.scope "A".toList .skip) (.scope "B".toList (.seq (.scope "C".toList .skip) .throw)))
      (.scope "H".toList .skip)))
    ["A".toList, "C".toList, "H".toList, "Solve".toList] .normal := by
  rw [← C92_recorded_scopes (fun k => k) 1 1 _ 0]
  decide +kernel

end MiniOpt.Props
