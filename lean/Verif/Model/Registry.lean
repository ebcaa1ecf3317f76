import Verif.Model.Locks
/-
Model of allocative/src/global_root.rs and of `visit_global_roots` (flamegraph.rs:365-371): threads that register roots and visit all
registered roots, under any schedule.
-/
namespace Allocative.Registry

/-- A root, `&'static (dyn Allocative + Sync)`. Models global_root.rs:15, 20. -/
abbrev Root := Nat
/-- A thread. Models callers of global_root.rs:20-26. -/
abbrev Tid := Nat

/-- The two functions that lock `ROOTS`. Models global_root.rs:20-26. -/
inductive Op where
  /-- `register_root(root)`, global_root.rs:20-22 -/
  | register (r : Root)
  /-- `roots()`, global_root.rs:24-26, the first thing `visit_global_roots` does (flamegraph.rs:368) -/
  | roots
deriving DecidableEq

/-- What a thread has left to do. Models global_root.rs:20-26, flamegraph.rs:367-371. -/
inductive Instr where
  /-- a call of `register_root`, or the call of `roots()` in `visit_global_roots` -/
  | call (op : Op)
  /-- `self.visit_root(root)` in the loop of `visit_global_roots`, flamegraph.rs:368-370 -/
  | visit (r : Root)
  /-- a panic -/
  | panic

/-- Where a thread is with respect to `ROOTS.lock().unwrap()`. Models global_root.rs:21, 25. -/
inductive Phase where
  /-- not in `register_root` or `roots` -/
  | outside
  /-- called, does not have the lock yet -/
  | waiting (op : Op)
  /-- has the guard; `push` or `clone` comes next -/
  | holding (op : Op)
  /-- `push` or `clone` done; the guard is dropped next, and `result` returned -/
  | leaving (op : Op) (result : List Root)

/-- A thread: phase, and what comes after. Models global_root.rs:20-26. -/
structure Thread where
  phase : Phase
  todo : List Instr

/-- The static `ROOTS` (global_root.rs:15), a `Mutex<Vec<..>>`, and the threads. -/
structure State where
  owner : Option Tid
  poisoned : Bool
  roots : List Root
  thread : Tid → Thread

/-- Observable events: calls and returns of the two functions, and threads that panicked. Models global_root.rs:20-26. -/
inductive Event where
  | call (t : Tid) (op : Op)
  | ret (t : Tid) (op : Op) (result : List Root)
  | died (t : Tid)

/-- The thread of an event. Models global_root.rs:20-26. -/
def Event.tid : Event → Tid
  | .call t _ => t
  | .ret t _ _ => t
  | .died t => t

/-- One step of one thread.  `body r b`: a visit of root `r` may do `b` (register roots, visit all roots with another builder, panic, ..); what
it does may depend on anything.  A panic ends the thread (if it is caught that is the same as a thread with less to do).
Models global_root.rs:20-26, flamegraph.rs:367-371. -/
inductive Step (body : Root → List Instr → Prop) : State → List Event → State → Prop
  | call {c t o k} : c.thread t = ⟨.outside, .call o :: k⟩ →
      Step body c [.call t o] { c with thread := setAt c.thread t ⟨.waiting o, k⟩ }
  /-- `ROOTS.lock()` -/
  | acquire {c t o k} : c.thread t = ⟨.waiting o, k⟩ → c.owner = none → c.poisoned = false →
      Step body c [] { c with owner := some t, thread := setAt c.thread t ⟨.holding o, k⟩ }
  /-- `.unwrap()` of a poisoned lock -/
  | unwrapPoisoned {c t o k} : c.thread t = ⟨.waiting o, k⟩ → c.owner = none → c.poisoned = true →
      Step body c [.died t] { c with thread := setAt c.thread t ⟨.outside, []⟩ }
  /-- `.push(root)` -/
  | push {c t r k} : c.thread t = ⟨.holding (.register r), k⟩ →
      Step body c [] { c with roots := c.roots ++ [r], thread := setAt c.thread t ⟨.leaving (.register r) [], k⟩ }
  /-- `.clone()` -/
  | clone {c t k} : c.thread t = ⟨.holding .roots, k⟩ →
      Step body c [] { c with thread := setAt c.thread t ⟨.leaving .roots c.roots, k⟩ }
  /-- The guard, a temporary, is dropped at the end of the expression; then the loop of `visit_global_roots` over the result. -/
  | release {c t o l k} : c.thread t = ⟨.leaving o l, k⟩ →
      Step body c [.ret t o l] { c with owner := none, thread := setAt c.thread t ⟨.outside, l.map .visit ++ k⟩ }
  | visit {c t r b k} : c.thread t = ⟨.outside, .visit r :: k⟩ → body r b →
      Step body c [] { c with thread := setAt c.thread t ⟨.outside, b ++ k⟩ }
  /-- A panic poisons the lock if the thread has it. -/
  | panic {c t k} : c.thread t = ⟨.outside, .panic :: k⟩ →
      Step body c [.died t] { c with poisoned := c.poisoned || c.owner == some t, thread := setAt c.thread t ⟨.outside, []⟩ }

/-- Steps of any threads in any order, with the events. Models global_root.rs:20-26, flamegraph.rs:367-371. -/
inductive Steps (body : Root → List Instr → Prop) : State → List Event → State → Prop
  | refl (c) : Steps body c [] c
  | snoc {c c' c'' tr e} : Steps body c tr c' → Step body c' e c'' → Steps body c (tr ++ e) c''

/-- The beginning of the program: no root registered, threads with their programs. Models global_root.rs:15. -/
def initial (programs : Tid → List Instr) : State := ⟨none, false, [], fun t => ⟨.outside, programs t⟩⟩

end Allocative.Registry
