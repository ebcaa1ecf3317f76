import Verif.Model.Threads
import Verif.Model.MachineLocks
/-
Several threads that profile at the same time (`Verif/Model/Threads.lean`) with the builder of machine arithmetic (`Verif/Model/Machine.lean`).
-/
namespace Allocative.Machine

/-- The looks of a visit, as `Machine.execL`; `k` is what is done after it.
Models visitor.rs:71-118, 244-257, flamegraph.rs:441-495 and the calls cited at `Access`. -/
def runL [Target] (c : Checks) : LProg → NodeKind → Builder → (Builder → Ctl → Run Builder) → Run Builder
  | .done, _, s, k => k s .returned
  | .panic, _, s, k => k s .unwinding
  | .enter name size fate body rest, kind, s, k =>
    match enterInlineImpl c s name size with
    | .error e => .failed e
    | .ok (s, .unwinding) => k s .unwinding
    | .ok (s, .returned) => runL c body .inline s fun s ctl => Run.afterChild Builder.visitorImpl .inline fate ctl s (k · .unwinding) fun s => runL c rest kind s k
  | .enterUnique name size fate body rest, kind, s, k =>
    match enterUniqueImpl c s name size with
    | .error e => .failed e
    | .ok (s, .unwinding) => k s .unwinding
    | .ok (s, .returned) => runL c body .unique s fun s ctl => Run.afterChild Builder.visitorImpl .unique fate ctl s (k · .unwinding) fun s => runL c rest kind s k
  | .enterShared name size ptr fate body restSome restNone, kind, s, k =>
    match enterSharedImpl c s name size ptr with
    | .error e => .failed e
    | .ok (_, s, .unwinding) => k s .unwinding
    | .ok (false, s, .returned) => runL c restNone kind s k
    | .ok (true, s, .returned) => runL c body .shared s fun s ctl => Run.afterChild Builder.visitorImpl .shared fate ctl s (k · .unwinding) fun s => runL c restSome kind s k
  | .catchUnwind body rest, kind, s, k => runL c body kind s fun s _ => runL c rest kind s k
  | .access how a inside rest, kind, s, k =>
    .look (.call how a) fun st =>
      if how.granted (st.lock a) then
        runL c inside kind s fun s ctl => .look (.release how a ctl) fun _ =>
          match ctl with
          | .unwinding => k s .unwinding
          | .returned => runL c rest kind s k
      else runL c rest kind s k
  | .upgrade p inside rest, kind, s, k =>
    .look (.upgrade p) fun st =>
      if (st.count p).alive then
        runL c inside kind s fun s ctl => .look (.dropRef p) fun _ =>
          match ctl with
          | .unwinding => k s .unwinding
          | .returned => runL c rest kind s k
      else runL c rest kind s k
  | .load a next, kind, s, k => .look (.load a) fun st => runL c (next (st.mem a)) kind s k

/-- `let v = b.root_visitor(); prog(v); <fate of v>`, then `k`; as `Machine.useRootL`. Models flamegraph.rs:349-363. -/
def runRoot [Target] (c : Checks) (b : Builder) (prog : LProg) (fate : Fate) (k : Builder → Run Builder) : Run Builder :=
  match b.rootVisitor with
  | .error e => .failed e
  | .ok b => runL c prog .root b fun b ctl =>
    match Builder.visitorImpl.finishChild .root fate ctl b with
    | .error e => .failed e
    | .ok b => k b

/-- Several uses one after the other, as `Machine.useRootsL`. Models flamegraph.rs:359-371. -/
def runRoots [Target] (c : Checks) (b : Builder) : List (LProg × Fate) → Run Builder
  | [] => .ended b .returned
  | (prog, fate) :: rest => runRoot c b prog fate fun b => runRoots c b rest

end Allocative.Machine
