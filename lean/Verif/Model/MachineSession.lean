import Verif.Model.SizeSession
import Verif.Model.Machine
/-
Arbitrary user code on several builders (`Verif/Model/Session.lean`) with machine arithmetic: a call of `enter`, `enter_unique` or `enter_shared` may panic because
the sum of its stack overflows (debug builds), and the user code may catch that panic and go on calling.
-/
namespace Allocative.Machine

/-- One operation: `none` if the borrow checker does not admit it; otherwise a panic that cannot come from arithmetic, or the new state, the call made on the
builder if it was completed, and whether it returned.  `.unwinding`: the addition of flamegraph.rs:444, 449 or 463 panicked; the visitor that the call would have
returned does not exist, those that existed before still do.  A panic of the caller is not an operation of its own: it only leads to drops.
Models flamegraph.rs:349-356, 442-478, visitor.rs:65-118, 244-257. -/
def step [Target] (c : Checks) (s : Session) : Op → Option (Except Panic (Session × List Event × Ctl))
  | .root =>
    match s.live with
    | [] => some (match s.builder.rootVisitor with
      | .error e => .error e
      | .ok b => .ok (⟨b, [.root]⟩, [.root], .returned))
    | _ :: _ => none
  | .enter name size =>
    match s.live with
    | [] => none
    | kind :: live => some (match enterInlineImpl c s.builder name size with
      | .error e => .error e
      | .ok (b, .unwinding) => .ok (⟨b, kind :: live⟩, [], .unwinding)
      | .ok (b, .returned) => .ok (⟨b, .inline :: kind :: live⟩, [.inline name size], .returned))
  | .enterUnique name size =>
    match s.live with
    | [] => none
    | kind :: live => some (match enterUniqueImpl c s.builder name size with
      | .error e => .error e
      | .ok (b, .unwinding) => .ok (⟨b, kind :: live⟩, [], .unwinding)
      | .ok (b, .returned) => .ok (⟨b, .unique :: kind :: live⟩, [.unique name size], .returned))
  | .enterShared name size ptr =>
    match s.live with
    | [] => none
    | kind :: live => some (match enterSharedImpl c s.builder name size ptr with
      | .error e => .error e
      | .ok (_, b, .unwinding) => .ok (⟨b, kind :: live⟩, [], .unwinding)
      | .ok (true, b, .returned) => .ok (⟨b, .shared :: kind :: live⟩, [.shared name size ptr true], .returned)
      | .ok (false, b, .returned) => .ok (⟨b, kind :: live⟩, [.shared name size ptr false], .returned))
  | .exit =>
    match s.live with
    | [] => none
    | kind :: live => some (match Builder.visitorImpl.exit kind s.builder with
      | .error e => .error e
      | .ok b => .ok (⟨b, live⟩, [.exit kind], .returned))
  | .drop =>
    match s.live with
    | [] => none
    | kind :: live => some (match Builder.visitorImpl.drop kind s.builder with
      | .error e => .error e
      | .ok b => .ok (⟨b, live⟩, [.exit kind], .returned))
  | .forget =>
    match s.live with
    | [] => none
    | _ :: live => some (.ok (⟨s.builder, live⟩, [], .returned))

/-- The builder, if the call on it panicked. Models flamegraph.rs:444, 449, 463. -/
def overflowed (i : Nat) : Ctl → List Nat
  | .unwinding => [i]
  | .returned => []

/-- Operations on the builders, one after the other, each on any builder: the state at the end, the log of the completed calls, and the builders on which a call
overflowed.  Such a panic is caught by the user code; an assertion that fails ends everything. Models flamegraph.rs:349-356, 442-478, visitor.rs:65-118, 244-257. -/
def runWorld [Target] (c : Checks) (w : World) : List (Nat × Op) → Option (Except Panic (World × List (Nat × Event) × List Nat))
  | [] => some (.ok (w, [], []))
  | (i, op) :: ops =>
    match step c (w i) op with
    | none => none
    | some (.error e) => some (.error e)
    | some (.ok (s, evs, ctl)) =>
      match runWorld c (fun j => if j = i then s else w j) ops with
      | none => none
      | some (.error e) => some (.error e)
      | some (.ok (w', log, over)) =>
        some (.ok (w', evs.map (fun ev => (i, ev)) ++ log, overflowed i ctl ++ over))

/-- One operation on the innermost visitor of a call of `size_of_unique_allocated_data` (`SizeOf.Session.step`) with machine arithmetic: `enter` adds
(size_of.rs:47-52) and may panic, in which case the visitor it would have returned does not exist. Models size_of.rs:46-74, visitor.rs:65-118, 244-257. -/
def sizeStep [Target] (c : Checks) (s : SizeOf.Session) : Op → Option (Except Panic (SizeOf.Session × Ctl))
  | .enter _ size =>
    match s.live with
    | [] => none
    | kind :: live => some (match sizeOfInline c s.size size kind with
      | (n, .unwinding) => .ok (⟨n, kind :: live⟩, .unwinding)
      | (n, .returned) => .ok (⟨n, .inline :: kind :: live⟩, .returned))
  | op =>
    match s.step op with
    | none => none
    | some (.error e) => some (.error e)
    | some (.ok (s, _)) => some (.ok (s, .returned))

/-- Operations one after the other, the panics of overflows being caught: the state at the end and the operations that were completed.
Models size_of.rs:46-74, visitor.rs:65-118, 244-257. -/
def sizeRun [Target] (c : Checks) (s : SizeOf.Session) : List Op → Option (Except Panic (SizeOf.Session × List Op))
  | [] => some (.ok (s, []))
  | op :: ops =>
    match sizeStep c s op with
    | none => none
    | some (.error e) => some (.error e)
    | some (.ok (s, ctl)) =>
      match sizeRun c s ops with
      | none => none
      | some (.error e) => some (.error e)
      | some (.ok (s, done)) =>
        match ctl with
        | .returned => some (.ok (s, op :: done))
        | .unwinding => some (.ok (s, done))

end Allocative.Machine
