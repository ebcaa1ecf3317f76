import Verif.Model.Machine
/-
`FlameGraph::add`, `add_child` and `add_self` (allocative/src/flamegraph.rs:44-67) in a debug build, with the state of `self` in case
of an overflow panic.  `Machine.add` etc. drop `self` when they panic; here `self` (a `&mut`) keeps what has been stored before the
panic, as a caller that catches the panic sees it.  `other`/`child` is consumed in any case.
-/
namespace Allocative.Machine

/-- `match map.entry(k) { Occupied(e) => onOcc(e.get_mut()), Vacant(e) => e.insert(v) }`, flamegraph.rs:54-61: a panic in `onOcc`
leaves the entry as `onOcc` left it. -/
def upsertU {α : Type} (k : Key) (onOcc : α → α × Ctl) (v : α) : HMap α → HMap α × Ctl
  | [] => ([(k, v)], .returned)
  | (k', v') :: rest =>
    if k' = k then
      let r := onOcc v'
      ((k', r.1) :: rest, r.2)
    else
      let r := upsertU k onOcc v rest
      ((k', v') :: r.1, r.2)

/-- `FlameGraph::add_self`, flamegraph.rs:65-67: `+=` stores nothing if it panics. -/
def addSelfU [Target] (self : FlameGraph) (size : Nat) : FlameGraph × Ctl :=
  match addUsize .on self.nodeSize size with
  | .error _ => (self, .unwinding)
  | .ok n => (.mk self.children self.childrenSize n, .returned)

mutual
/-- `FlameGraph::add`, flamegraph.rs:44-49; the list is in the order in which `other.children` is iterated. -/
def addU [Target] (self : FlameGraph) : FlameGraph → FlameGraph × Ctl
  | .mk ch _ n =>
    match addSelfU self n with
    | (self, .unwinding) => (self, .unwinding)
    | (self, .returned) => addAllU self ch

/-- The loop of `add`, flamegraph.rs:46-48, with `add_child` (flamegraph.rs:52-62) inlined. -/
def addAllU [Target] (self : FlameGraph) : List (Key × FlameGraph) → FlameGraph × Ctl
  | [] => (self, .returned)
  | (key, child) :: rest =>
    match totalSize .on child with
    | .error _ => (self, .unwinding)
    | .ok t =>
      match addUsize .on self.childrenSize t with
      | .error _ => (self, .unwinding)
      | .ok cs =>
        match upsertU key (fun e => addU e child) child self.children with
        | (children, .unwinding) => (.mk children cs self.nodeSize, .unwinding)
        | (children, .returned) => addAllU (.mk children cs self.nodeSize) rest
end

/-- `FlameGraph::add_child`, flamegraph.rs:52-62. -/
def addChildU [Target] (self : FlameGraph) (key : Key) (child : FlameGraph) : FlameGraph × Ctl :=
  match totalSize .on child with
  | .error _ => (self, .unwinding)
  | .ok t =>
    match addUsize .on self.childrenSize t with
    | .error _ => (self, .unwinding)
    | .ok cs =>
      match upsertU key (fun e => addU e child) child self.children with
      | (children, ctl) => (.mk children cs self.nodeSize, ctl)

end Allocative.Machine
