import Verif.Model.Visitor
/-
Model of allocative/src/size_of.rs.
-/
namespace Allocative.SizeOf

/-- `struct SizeOfUniqueAllocatedDataVisitor { size }`, size_of.rs:41-44. -/
abbrev State := Nat

/-- `impl VisitorImpl for SizeOfUniqueAllocatedDataVisitor`, size_of.rs:46-74. -/
def visitorImpl : VisitorImpl State where
  enterInlineImpl := fun s _name size parent =>
    .ok (match parent with
      | .unique => s + size
      | _ => s)
  enterUniqueImpl := fun s _name _size _parent => .ok s
  enterSharedImpl := fun s _name _size _ptr _parent => .ok (false, s)
  exitInlineImpl := fun s => .ok s
  exitUniqueImpl := fun s => .ok s
  exitSharedImpl := fun _ => .error .unreachableShared
  exitRootImpl := fun s => .ok s

/-- `size_of_unique_allocated_data`, size_of.rs:40-84.  `none`: the visit panicked (the panic propagates out of the
function). -/
def sizeOfUniqueAllocatedData (root : Prog) : Except Panic (Option Nat) :=
  match exec visitorImpl root .root 0 with
  | .error e => .error e
  | .ok (s, ctl) =>
    match visitorImpl.finishChild .root .exit ctl s with
    | .error e => .error e
    | .ok s =>
      match ctl with
      | .returned => .ok (some s)
      | .unwinding => .ok none

/-- `size_of_unique`, size_of.rs:107-112; `sizeOfT` is `size_of::<T>()`. -/
def sizeOfUnique (sizeOfT : Nat) (root : Prog) : Except Panic (Option Nat) :=
  match sizeOfUniqueAllocatedData root with
  | .error e => .error e
  | .ok r => .ok (r.map (sizeOfT + ·))

end Allocative.SizeOf
