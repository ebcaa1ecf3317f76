import Verif.Model.Session
import Verif.Model.SizeOf
/-
Arbitrary user code during calls of `size_of_unique_allocated_data`: any sequence of calls of the `Visitor` API that the borrow checker admits, on the visitors of any
number of calls of `size_of_unique_allocated_data` (size_of.rs:40-84) and of any number of builders (flamegraph.rs:349-356), interleaved in any way.
-/
namespace Allocative

/-- The `visitor_impl` of one call of `size_of_unique_allocated_data` and the `node_kind`s of the visitors of it that exist, innermost first; as for `Session`, only the
innermost one can be used or ended. Models size_of.rs:41-44, 76-81. -/
structure SizeOf.Session where
  size : Nat
  live : List NodeKind
deriving DecidableEq

/-- The start of a call: the root visitor exists. Models size_of.rs:76-80. -/
def SizeOf.Session.start : SizeOf.Session := ⟨0, [.root]⟩

/-- One operation: `none` if the borrow checker does not admit it (or there is no such operation: `root`), otherwise the panic, or the new state and, for
`enter_shared`, whether it returned `Some`. Models size_of.rs:46-74, visitor.rs:65-118, 244-257. -/
def SizeOf.Session.step (s : SizeOf.Session) : Op → Option (Except Panic (SizeOf.Session × List Event))
  | .root => none
  | .enter name size =>
    match s.live with
    | [] => none
    | kind :: live => some (match SizeOf.visitorImpl.enterInlineImpl s.size name size kind with
      | .error e => .error e
      | .ok n => .ok (⟨n, .inline :: kind :: live⟩, [.inline name size]))
  | .enterUnique name size =>
    match s.live with
    | [] => none
    | kind :: live => some (match SizeOf.visitorImpl.enterUniqueImpl s.size name size kind with
      | .error e => .error e
      | .ok n => .ok (⟨n, .unique :: kind :: live⟩, [.unique name size]))
  | .enterShared name size ptr =>
    match s.live with
    | [] => none
    | kind :: live => some (match SizeOf.visitorImpl.enterSharedImpl s.size name size ptr kind with
      | .error e => .error e
      | .ok (true, n) => .ok (⟨n, .shared :: kind :: live⟩, [.shared name size ptr true])
      | .ok (false, n) => .ok (⟨n, kind :: live⟩, [.shared name size ptr false]))
  | .exit =>
    match s.live with
    | [] => none
    | kind :: live => some (match SizeOf.visitorImpl.exit kind s.size with
      | .error e => .error e
      | .ok n => .ok (⟨n, live⟩, [.exit kind]))
  | .drop =>
    match s.live with
    | [] => none
    | kind :: live => some (match SizeOf.visitorImpl.drop kind s.size with
      | .error e => .error e
      | .ok n => .ok (⟨n, live⟩, [.exit kind]))
  | .forget =>
    match s.live with
    | [] => none
    | _ :: live => some (.ok (⟨s.size, live⟩, []))

/-- A builder, or a call of `size_of_unique_allocated_data`: the two implementations of `VisitorImpl` in the crate.
Models flamegraph.rs:438-481, size_of.rs:46-74. -/
inductive Sess where
  | builder (s : Session)
  | sizeOf (s : SizeOf.Session)

/-- One operation on the one or the other. Models visitor.rs:65-118, 244-257. -/
def Sess.step : Sess → Op → Option (Except Panic (Sess × List Event))
  | .builder s, op => (s.step op).map fun
    | .error e => .error e
    | .ok (s, evs) => .ok (.builder s, evs)
  | .sizeOf s, op => (s.step op).map fun
    | .error e => .error e
    | .ok (s, evs) => .ok (.sizeOf s, evs)

/-- Operations on one of them alone. Models visitor.rs:65-118, 244-257. -/
def Sess.run (s : Sess) : List Op → Option (Except Panic (Sess × List Event))
  | [] => some (.ok (s, []))
  | op :: ops =>
    match s.step op with
    | none => none
    | some (.error e) => some (.error e)
    | some (.ok (s, evs)) =>
      match Sess.run s ops with
      | none => none
      | some (.error e) => some (.error e)
      | some (.ok (s, log)) => some (.ok (s, evs ++ log))

/-- Any number of builders and of calls of `size_of_unique_allocated_data`, numbered. Models several values of flamegraph.rs:310-323, size_of.rs:41-44. -/
abbrev Sessions := Nat → Sess

/-- Operations on any of them, one after the other; a panic of the library ends it. Models visitor.rs:65-118, 244-257. -/
def Sessions.run (u : Sessions) : List (Nat × Op) → Option (Except Panic (Sessions × List (Nat × Event)))
  | [] => some (.ok (u, []))
  | (i, op) :: ops =>
    match (u i).step op with
    | none => none
    | some (.error e) => some (.error e)
    | some (.ok (s, evs)) =>
      match Sessions.run (fun j => if j = i then s else u j) ops with
      | none => none
      | some (.error e) => some (.error e)
      | some (.ok (u', log)) => some (.ok (u', evs.map (fun ev => (i, ev)) ++ log))

end Allocative
