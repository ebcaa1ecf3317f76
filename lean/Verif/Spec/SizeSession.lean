import Verif.Model.SizeSession
/-
Specification vocabulary for C66.
-/
namespace Allocative

/-- The operations on number `i`. -/
def opsOf (i : Nat) (ops : List (Nat × Op)) : List Op := (ops.filter fun x => x.1 = i).map Prod.snd

/-- The kinds of the live visitors after an operation on the innermost, if `enter_shared` returns `None`. -/
def Op.liveAfter : Op → List NodeKind → List NodeKind
  | .root, live => live
  | .enter _ _, live => .inline :: live
  | .enterUnique _ _, live => .unique :: live
  | .enterShared _ _ _, live => live
  | .exit, live => live.tail
  | .drop, live => live.tail
  | .forget, live => live.tail

/-- The kinds of the live visitors after the operations. -/
def liveAfter : List NodeKind → List Op → List NodeKind
  | live, [] => live
  | live, op :: ops => liveAfter (op.liveAfter live) ops

/-- The sum of the sizes of the `enter` calls made on a visitor that came from `enter_unique`. -/
def bytesBehindUnique : List NodeKind → List Op → Nat
  | _, [] => 0
  | live, op :: ops =>
    (match op, live with
      | .enter _ size, .unique :: _ => size
      | _, _ => 0) + bytesBehindUnique (op.liveAfter live) ops

/-- What becomes of a visitor at the end of its use. -/
def Fate.op : Fate → Ctl → Op
  | .leak, _ => .forget
  | .forget, .returned => .forget
  | .exit, .returned => .exit
  | .drop, .returned => .drop
  | _, .unwinding => .drop

/-- The operations of a visit program for which `enter_shared` always returns `None`, and how it ends. -/
def Prog.opsUnshared : Prog → List Op × Ctl
  | .done => ([], .returned)
  | .panic => ([], .unwinding)
  | .enter name size fate body rest =>
    match body.opsUnshared.2 with
    | .unwinding => (.enter name size :: body.opsUnshared.1 ++ [fate.op .unwinding], .unwinding)
    | .returned => (.enter name size :: body.opsUnshared.1 ++ [fate.op .returned] ++ rest.opsUnshared.1, rest.opsUnshared.2)
  | .enterUnique name size fate body rest =>
    match body.opsUnshared.2 with
    | .unwinding => (.enterUnique name size :: body.opsUnshared.1 ++ [fate.op .unwinding], .unwinding)
    | .returned => (.enterUnique name size :: body.opsUnshared.1 ++ [fate.op .returned] ++ rest.opsUnshared.1, rest.opsUnshared.2)
  | .enterShared name size ptr _ _ _ restNone => (.enterShared name size ptr :: restNone.opsUnshared.1, restNone.opsUnshared.2)
  | .catchUnwind body rest => (body.opsUnshared.1 ++ rest.opsUnshared.1, rest.opsUnshared.2)

end Allocative
