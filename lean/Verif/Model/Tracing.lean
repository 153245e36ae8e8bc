import Mathlib.Logic.Function.Basic

/-!
# Tracing  (`/repo/source/tracing.cc`, `/repo/include/mini_opt/tracing.hpp`, built with `MINI_OPT_TRACING`)

The collector is a global object used from any number of threads.  Its operations are split into atomic steps;
an execution interleaves the steps of all threads in any order.
-/

set_option autoImplicit false

namespace MiniOpt.Trace

/-- `struct trace_event` (`tracing.hpp:32-43`). -/
structure Event where
  name : List Char
  ts : Int
  pid : Nat
  tid : Nat
  durNs : Int
  deriving DecidableEq

/-- `max_traces` (`tracing.cc:100`). -/
def maxTraces : Nat := 100000

/-- The two public operations of the collector (`tracing.hpp:54-57`). -/
inductive Op where
  | submit (e : Event)
  | dump

/-- Where a thread is inside an operation. -/
inductive PC where
  /-- between operations -/
  | idle
  /-- in `submit_event`, before the mutex is acquired (`tracing.cc:98`) -/
  | waiting (e : Event)
  /-- executing `push_back` (`tracing.cc:99`) -/
  | pushing (e : Event)
  /-- executing `size() > max_traces` (`tracing.cc:101`) -/
  | checking
  /-- executing `pop_front` (`tracing.cc:102`) -/
  | popping
  /-- about to release the mutex (end of `tracing.cc:104`) -/
  | unlocking
  /-- in `get_trace_json`, iterating over the events (`tracing.cc:110`) -/
  | reading

/-- State of `trace_collector_impl` (`tracing.cc:72-75`) and of all threads: for each thread where it is and
which operations it still has to perform. -/
structure State (T : Type) where
  mutex : Option T
  events : List Event
  pc : T → PC
  todo : T → List Op

/-- Atomic actions. -/
inductive Label (T : Type) where
  | call (t : T)
  | acquire (t : T) (e : Event)
  | push (t : T)
  | check (t : T)
  | pop (t : T)
  | release (t : T)
  | readBegin (t : T)
  | readEnd (t : T)

/-- Initial state (`tracing.cc:77-80`): empty buffer, free mutex; `prog t` is what thread `t` will do. -/
def init {T : Type} (prog : T → List Op) : State T := ⟨none, [], fun _ => .idle, prog⟩

variable {T : Type} [DecidableEq T]

/-- One atomic step (`tracing.cc:95-111`). `std::lock_guard` blocks until the mutex is free; `get_trace_json`
takes no lock. -/
inductive Step : State T → Label T → State T → Prop where
  | call (s : State T) (t : T) (e : Event) (rest : List Op) : s.pc t = .idle → s.todo t = .submit e :: rest →
      Step s (.call t) { s with pc := Function.update s.pc t (.waiting e), todo := Function.update s.todo t rest }
  | acquire (s : State T) (t : T) (e : Event) : s.pc t = .waiting e → s.mutex = none →
      Step s (.acquire t e) { s with mutex := some t, pc := Function.update s.pc t (.pushing e) }
  | push (s : State T) (t : T) (e : Event) : s.pc t = .pushing e →
      Step s (.push t) { s with events := s.events ++ [e], pc := Function.update s.pc t .checking }
  | check (s : State T) (t : T) : s.pc t = .checking →
      Step s (.check t)
        { s with pc := Function.update s.pc t (if maxTraces < s.events.length then .popping else .unlocking) }
  | pop (s : State T) (t : T) : s.pc t = .popping →
      Step s (.pop t) { s with events := s.events.tail, pc := Function.update s.pc t .unlocking }
  | release (s : State T) (t : T) : s.pc t = .unlocking →
      Step s (.release t) { s with mutex := none, pc := Function.update s.pc t .idle }
  | readBegin (s : State T) (t : T) (rest : List Op) : s.pc t = .idle → s.todo t = .dump :: rest →
      Step s (.readBegin t) { s with pc := Function.update s.pc t .reading, todo := Function.update s.todo t rest }
  | readEnd (s : State T) (t : T) : s.pc t = .reading →
      Step s (.readEnd t) { s with pc := Function.update s.pc t .idle }

/-- Executions: any finite interleaving of steps. -/
inductive Exec : State T → List (Label T) → State T → Prop where
  | nil (s : State T) : Exec s [] s
  | snoc {s s' s'' : State T} {ls : List (Label T)} {l : Label T} :
      Exec s ls s' → Step s' l s'' → Exec s (ls ++ [l]) s''

/-! ## `get_trace_json` -/

/-- Decimal digits of a natural number, as `fmt` prints an integer. -/
def digits (n : Nat) : List Char :=
  if n < 10 then [Char.ofNat (48 + n)] else digits (n / 10) ++ [Char.ofNat (48 + n % 10)]

/-- An integer as `fmt` prints it. -/
def fmtInt : Int → List Char
  | .ofNat n => digits n
  | .negSucc n => '-' :: digits (n + 1)

/-- The formatter of `trace_event` (`tracing.cc:34-42`). The integer division of the duration truncates. -/
def formatEvent (e : Event) : List Char :=
  "{ \"name\": \"".toList ++ e.name ++ "\", \"cat\": \"\", \"ph\": \"X\", \"ts\": ".toList ++ fmtInt e.ts
    ++ ", \"pid\": ".toList ++ digits e.pid ++ ", \"tid\": ".toList ++ digits e.tid
    ++ ", \"dur\": ".toList ++ fmtInt (e.durNs.tdiv 1000) ++ " }".toList

/-- `fmt::join(events, ",\n    ")` (`tracing.cc:110`). -/
def joinEvents : List Event → List Char
  | [] => []
  | [e] => formatEvent e
  | e :: es => formatEvent e ++ ",\n    ".toList ++ joinEvents es

/-- `get_trace_json` (`tracing.cc:82-89`, `tracing.cc:109-111`). -/
def traceJson (events : List Event) : List Char :=
  "\n{\n  \"traceEvents\": [\n    ".toList ++ joinEvents events
    ++ "\n  ],\n  \"displayTimeUnit\": \"ns\"\n}\n".toList

end MiniOpt.Trace
