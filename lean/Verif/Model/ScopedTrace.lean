import Verif.Model.Tracing

/-!
# `scoped_trace`  (`/repo/include/mini_opt/tracing.hpp:66-84`, `/repo/source/tracing.cc:113-133`)

One thread that runs structured code with traced scopes, exceptions and destructors.
-/

set_option autoImplicit false

namespace MiniOpt.Trace

/-- Code as far as tracing is concerned. -/
inductive Prog where
  /-- code without traced scopes that completes normally -/
  | skip
  /-- `p; q` -/
  | seq (p q : Prog)
  /-- `{ scoped_trace t{name}; p }` (`MINI_OPT_SCOPED_TRACE_STR`, `tracing.hpp:15-16`) -/
  | scope (name : List Char) (p : Prog)
  /-- `throw` -/
  | throw
  /-- `try { p } catch (...) { h }` -/
  | tryCatch (p h : Prog)
  /-- `{ T t; p }` where the destructor of `t` runs `d` -/
  | cleanup (p d : Prog)

/-- How code ends. `terminated`: an exception left a destructor (`std::terminate`). -/
inductive Ending where
  | normal
  | thrown
  | terminated
  deriving DecidableEq

/-- What a run leaves: the events submitted to the collector in order, the number of clock readings so far, and how it
ended. -/
structure Ran where
  events : List Event
  clock : Nat
  ending : Ending

/-- Run `p` on thread `tid` of process `pid`, where `now k` is the `k`-th reading of the clock in nanoseconds since the epoch
and `u` is the value of `std::uncaught_exceptions()`. The constructor of `scoped_trace` reads the clock
(`tracing.hpp:70-71`); the destructor reads it again (`tracing.cc:119`), returns if an exception is in flight
(`tracing.cc:120-122`), and otherwise submits an event (`tracing.cc:123-131`). While the stack is unwound because of an
exception, `uncaught_exceptions()` counts it; in the handler that caught it, it no longer does. An exception that leaves a
destructor terminates the program (destructors are `noexcept`). -/
def exec (now : Nat → Int) (pid tid : Nat) : Prog → Nat → Nat → Ran
  | .skip, _, i => ⟨[], i, .normal⟩
  | .throw, _, i => ⟨[], i, .thrown⟩
  | .seq p q, u, i =>
    let a := exec now pid tid p u i
    match a.ending with
    | .normal =>
      let b := exec now pid tid q u a.clock
      ⟨a.events ++ b.events, b.clock, b.ending⟩
    | e => ⟨a.events, a.clock, e⟩
  | .scope name p, u, i =>
    let a := exec now pid tid p u (i + 1)
    match a.ending with
    | .terminated => a
    | e =>
      let uncaught := if e = .thrown then u + 1 else u
      let ev : Event := ⟨name, (now i).tdiv 1000, pid, tid, now a.clock - now i⟩
      ⟨if 0 < uncaught then a.events else a.events ++ [ev], a.clock + 1, e⟩
  | .tryCatch p h, u, i =>
    let a := exec now pid tid p u i
    match a.ending with
    | .thrown =>
      let b := exec now pid tid h u a.clock
      ⟨a.events ++ b.events, b.clock, b.ending⟩
    | _ => a
  | .cleanup p d, u, i =>
    let a := exec now pid tid p u i
    match a.ending with
    | .terminated => a
    | e =>
      let b := exec now pid tid d (if e = .thrown then u + 1 else u) a.clock
      ⟨a.events ++ b.events, b.clock, if b.ending = .normal then e else .terminated⟩

end MiniOpt.Trace
