import Verif.Model.Builder
import Verif.Model.SizeOf
import Verif.Model.Usize
/-
The builder, the flame graph and `size_of` with machine arithmetic instead of unbounded numbers.
`Verif/Model/Builder.lean`, `FlameGraph.lean` and `SizeOf.lean` use `Nat` and `Int`; here every `+`, `+=`, `sum`, `as isize`,
`saturating_sub` and `-` of the Rust code has the semantics of the target (32 or 64 bits), with overflow checks on
(debug builds) or off (release builds).  `usize` values are represented by `Nat`s below `Usize.modulus`, `isize` values by `Int`s.
The data structures are those of the unbounded model.
-/
namespace Allocative.Machine

/-- `-C overflow-checks`.
Models how the `+`, `+=`, `sum` of flamegraph.rs:40, 45, 53, 66, 132, 412, 444, 449, 463 and size_of.rs:49, 111 are compiled. -/
inductive Checks where
  | on | off
deriving DecidableEq

/-- `a + b` on `usize`. Models flamegraph.rs:40, 45, 53, 66, 412, 444, 449, 463, size_of.rs:49, 111. -/
def addUsize [Target] (c : Checks) (a b : Nat) : Except Panic Nat :=
  if a + b < Usize.modulus then .ok (a + b)
  else match c with
    | .on => .error .arithOverflow
    | .off => .ok ((a + b) % Usize.modulus)

/-- `n as isize` for `n: usize`. Models flamegraph.rs:132, 416. -/
def asIsize [Target] (n : Nat) : Int := if n < Usize.half then (n : Int) else (n : Int) - Usize.modulus

/-- `x as usize` for `x: isize`. Models flamegraph.rs:149. -/
def asUsize [Target] (x : Int) : Nat := (x % (Usize.modulus : Int)).toNat

/-- `a.saturating_sub(b)` on `isize`. Models flamegraph.rs:416. -/
def saturatingSub [Target] (a b : Int) : Int := max (-(Usize.half : Int)) (min (Usize.half - 1) (a - b))

/-- `a - b` on `isize`. Models flamegraph.rs:132. -/
def subIsize [Target] (c : Checks) (a b : Int) : Except Panic Int :=
  if -(Usize.half : Int) ≤ a - b ∧ a - b < Usize.half then .ok (a - b)
  else match c with
    | .on => .error .arithOverflow
    | .off => .ok ((a - b + Usize.half) % (Usize.modulus : Int) - Usize.half)

/-! ### FlameGraph -/

/-- `match map.entry(k) { Occupied(e) => onOcc(e)?, Vacant(e) => e.insert(v) }` where `onOcc` can panic.
Models flamegraph.rs:54-61. -/
def upsert {α : Type} (k : Key) (onOcc : α → Except Panic α) (v : α) : HMap α → Except Panic (HMap α)
  | [] => .ok [(k, v)]
  | (k', v') :: rest =>
    if k' = k then
      match onOcc v' with
      | .error e => .error e
      | .ok v'' => .ok ((k', v'') :: rest)
    else
      match upsert k onOcc v rest with
      | .error e => .error e
      | .ok rest => .ok ((k', v') :: rest)

/-- `FlameGraph::total_size`, flamegraph.rs:39-41. -/
def totalSize [Target] (c : Checks) (self : FlameGraph) : Except Panic Nat := addUsize c self.nodeSize self.childrenSize

/-- `FlameGraph::add_self`, flamegraph.rs:65-67. -/
def addSelf [Target] (c : Checks) (self : FlameGraph) (size : Nat) : Except Panic FlameGraph :=
  match addUsize c self.nodeSize size with
  | .error e => .error e
  | .ok n => .ok (.mk self.children self.childrenSize n)

mutual
/-- `FlameGraph::add`, flamegraph.rs:44-49. -/
def add [Target] (c : Checks) (self : FlameGraph) : FlameGraph → Except Panic FlameGraph
  | .mk ch _ n =>
    match addSelf c self n with
    | .error e => .error e
    | .ok self => addAll c self ch

/-- The loop of `add`, with `add_child` (flamegraph.rs:52-62) inlined. -/
def addAll [Target] (c : Checks) (self : FlameGraph) : List (Key × FlameGraph) → Except Panic FlameGraph
  | [] => .ok self
  | (key, child) :: rest =>
    match totalSize c child with
    | .error e => .error e
    | .ok t =>
      match addUsize c self.childrenSize t with
      | .error e => .error e
      | .ok cs =>
        match upsert key (fun e => add c e child) child self.children with
        | .error e => .error e
        | .ok children => addAll c (.mk children cs self.nodeSize) rest
end

/-- `FlameGraph::add_child`, flamegraph.rs:52-62. -/
def addChild [Target] (c : Checks) (self : FlameGraph) (key : Key) (child : FlameGraph) : Except Panic FlameGraph :=
  match totalSize c child with
  | .error e => .error e
  | .ok t =>
    match addUsize c self.childrenSize t with
    | .error e => .error e
    | .ok cs =>
      match upsert key (fun e => add c e child) child self.children with
      | .error e => .error e
      | .ok children => .ok (.mk children cs self.nodeSize)

/-! ### FlameGraphBuilder -/

/-- `self.current().down(name); self.current().current_data().size += size;` (flamegraph.rs:443-444, 448-449, 462-463)
followed by an update of other fields of the entered node.  If the addition overflows and panics (`.unwinding`), the
node has been pushed by `down` already and stays pushed. -/
def downAndAdd [Target] (c : Checks) (b : Builder) (name : Key) (size : Nat) (f : TreeData → TreeData) : Except Panic (Builder × Ctl) :=
  match down b.trees b.current name with
  | .error e => .error e
  | .ok (trees, current) =>
    let b := { b with trees, current }
    match trees.index current.tree with
    | .error e => .error e
    | .ok d =>
      match addUsize c d.size size with
      | .error _ => .ok (b, .unwinding)
      | .ok s =>
        match trees.update current.tree (fun d => f { d with size := s }) with
        | .error e => .error e
        | .ok trees => .ok ({ b with trees }, .returned)

/-- `enter_inline_impl`, flamegraph.rs:442-445. -/
def enterInlineImpl [Target] (c : Checks) (b : Builder) (name : Key) (size : Nat) : Except Panic (Builder × Ctl) :=
  downAndAdd c b name size id

/-- `enter_unique_impl`, flamegraph.rs:447-453. -/
def enterUniqueImpl [Target] (c : Checks) (b : Builder) (name : Key) (size : Nat) : Except Panic (Builder × Ctl) :=
  downAndAdd c b name size (fun d => { d with unique := true })

/-- `enter_shared_impl`, flamegraph.rs:455-478. -/
def enterSharedImpl [Target] (c : Checks) (b : Builder) (name : Key) (size : Nat) (ptr : Ptr) : Except Panic (Bool × Builder × Ctl) :=
  match downAndAdd c b name size id with
  | .error e => .error e
  | .ok (b, .unwinding) => .ok (false, b, .unwinding)
  | .ok (b, .returned) =>
    if ptr ∈ b.visitedShared then
      match b.exitImpl with
      | .error e => .error e
      | .ok b => .ok (false, b, .returned)
    else
      .ok (true,
        { b with
          visitedShared := ptr :: b.visitedShared
          shared := b.current :: b.shared
          current := { stack := [], tree := b.root } }, .returned)

/-- `exec` of `Verif/Model/Visitor.lean` for this builder: `Visitor::enter` etc. (visitor.rs:72-118).  A panic inside an enter
function unwinds before the child `Visitor` exists, so there is nothing of it to drop. -/
def exec [Target] (c : Checks) : Prog → NodeKind → Builder → Except Panic (Builder × Ctl)
  | .done, _, s => .ok (s, .returned)
  | .panic, _, s => .ok (s, .unwinding)
  | .enter name size fate body rest, kind, s =>
    match enterInlineImpl c s name size with
    | .error e => .error e
    | .ok (s, .unwinding) => .ok (s, .unwinding)
    | .ok (s, .returned) =>
      match exec c body .inline s with
      | .error e => .error e
      | .ok (s, ctl) =>
        match Builder.visitorImpl.finishChild .inline fate ctl s with
        | .error e => .error e
        | .ok s =>
          match ctl with
          | .unwinding => .ok (s, .unwinding)
          | .returned => exec c rest kind s
  | .enterUnique name size fate body rest, kind, s =>
    match enterUniqueImpl c s name size with
    | .error e => .error e
    | .ok (s, .unwinding) => .ok (s, .unwinding)
    | .ok (s, .returned) =>
      match exec c body .unique s with
      | .error e => .error e
      | .ok (s, ctl) =>
        match Builder.visitorImpl.finishChild .unique fate ctl s with
        | .error e => .error e
        | .ok s =>
          match ctl with
          | .unwinding => .ok (s, .unwinding)
          | .returned => exec c rest kind s
  | .enterShared name size ptr fate body restSome restNone, kind, s =>
    match enterSharedImpl c s name size ptr with
    | .error e => .error e
    | .ok (_, s, .unwinding) => .ok (s, .unwinding)
    | .ok (false, s, .returned) => exec c restNone kind s
    | .ok (true, s, .returned) =>
      match exec c body .shared s with
      | .error e => .error e
      | .ok (s, ctl) =>
        match Builder.visitorImpl.finishChild .shared fate ctl s with
        | .error e => .error e
        | .ok s =>
          match ctl with
          | .unwinding => .ok (s, .unwinding)
          | .returned => exec c restSome kind s
  | .catchUnwind body rest, kind, s =>
    match exec c body kind s with
    | .error e => .error e
    | .ok (s, _) => exec c rest kind s

/-- `let v = b.root_visitor(); prog(v); <fate of v>`, flamegraph.rs:349-363, as `Builder.useRoot`. -/
def useRoot [Target] (c : Checks) (b : Builder) (prog : Prog) (fate : Fate) : Except Panic (Builder × Ctl) :=
  match b.rootVisitor with
  | .error e => .error e
  | .ok b =>
    match exec c prog .root b with
    | .error e => .error e
    | .ok (b, ctl) =>
      match Builder.visitorImpl.finishChild .root fate ctl b with
      | .error e => .error e
      | .ok b => .ok (b, ctl)

/-- Root uses one after the other, panics caught in between, as `Builder.useRoots`. Models flamegraph.rs:359-371. -/
def useRoots [Target] (c : Checks) (b : Builder) : List (Prog × Fate) → Except Panic Builder
  | [] => .ok b
  | (prog, fate) :: rest =>
    match useRoot c b prog fate with
    | .error e => .error e
    | .ok (b, _) => useRoots c b rest

/-- `.map(|child| trees[*child].size).sum::<usize>()`, flamegraph.rs:409-412: `acc` is the running sum. -/
def sumSizes [Target] (c : Checks) (trees : Trees) (acc : Nat) : List TreeId → Except Panic Nat
  | [] => .ok acc
  | t :: rest =>
    match trees.index t with
    | .error e => .error e
    | .ok d =>
      match addUsize c acc d.size with
      | .error e => .error e
      | .ok acc => sumSizes c trees acc rest

/-- `update_sizes`, flamegraph.rs:399-417. -/
def updateSizes [Target] (c : Checks) (ord : HashOrder TreeId) : Nat → TreeId → Trees → Except Panic Trees
  | 0, _, _ => .error .outOfFuel
  | fuel + 1, id, trees =>
    match trees.index id with
    | .error e => .error e
    | .ok tree =>
      match (ord.run id (tree.children.map Prod.snd)).foldlM (fun trees child => updateSizes c ord fuel child trees) trees with
      | .error e => .error e
      | .ok trees =>
        match trees.index id with
        | .error e => .error e
        | .ok tree =>
          match (if tree.unique then .ok 0 else sumSizes c trees 0 (ord.run id (tree.children.map Prod.snd))) with
          | .error e => .error e
          | .ok childrenSize =>
            trees.update id (fun d => { d with remSize := saturatingSub (asIsize d.size) (asIsize childrenSize) })

/-- What one node appends to `warnings`, flamegraph.rs:150-160. -/
def nodeWarning [Target] (c : Checks) (tree : TreeData) (stack : List Str) : Except Panic Str :=
  if tree.remSize > 0 then .ok []
  else if tree.remSize < 0 ∧ stack ≠ [] then
    match subIsize c (asIsize tree.size) tree.remSize with
    | .error e => .error e
    | .ok x => .ok (Builder.warningLine stack tree.size x)
  else .ok []

/-- `TreeRef::write_flame_graph`, flamegraph.rs:142-175, with `inline_children_size` (flamegraph.rs:131-133). -/
def writeFlameGraph [Target] (c : Checks) (ord : HashOrder TreeId) (trees : Trees) : Nat → TreeId → List Str → Except Panic (FlameGraph × Str)
  | 0, _, _ => .error .outOfFuel
  | fuel + 1, id, stack =>
    match trees.index id with
    | .error e => .error e
    | .ok tree =>
      let flameGraph : FlameGraph :=
        if tree.remSize > 0 then
          if stack = [] then .default else .mk [] 0 (asUsize tree.remSize)
        else .default
      match nodeWarning c tree stack with
      | .error e => .error e
      | .ok warnings =>
        (sortByKey (ord.run id tree.children)).foldlM
          (fun (acc : FlameGraph × Str) (kc : Key × TreeId) =>
            match writeFlameGraph c ord trees fuel kc.2 (stack ++ [kc.1.deref]) with
            | .error e => .error e
            | .ok (child, w) =>
              match addChild c acc.1 kc.1 child with
              | .error e => .error e
              | .ok fg => .ok (fg, acc.2 ++ w))
          (flameGraph, warnings)

/-- `finish_impl` and `finish`, flamegraph.rs:373-392. -/
def finish [Target] (c : Checks) (ord : HashOrder TreeId) (b : Builder) : Except Panic Builder.Output :=
  if b.shared ≠ [] then .error .assertFinish
  else if b.current.stack ≠ [] then .error .assertFinish
  else if b.enteredRootVisitor then .error .assertFinish
  else
    match updateSizes c ord b.trees.length b.root b.trees with
    | .error e => .error e
    | .ok trees =>
      match writeFlameGraph c ord trees trees.length b.root [] with
      | .error e => .error e
      | .ok (flamegraph, warnings) => .ok { flamegraph, warnings }

/-- `let mut b = FlameGraphBuilder::default(); <root visits>; b.finish()`. Models flamegraph.rs:330-346, 359-363, 385-392. -/
def run [Target] (c : Checks) (ord : HashOrder TreeId) (hist : List (Prog × Fate)) : Except Panic Builder.Output :=
  match useRoots c Builder.default hist with
  | .error e => .error e
  | .ok b => finish c ord b

/-! ### size_of -/

/-- `enter_inline_impl` of `SizeOfUniqueAllocatedDataVisitor`, size_of.rs:47-52: `self.size += size`. -/
def sizeOfInline [Target] (c : Checks) (s : Nat) (size : Nat) (parent : NodeKind) : Nat × Ctl :=
  match parent with
  | .unique =>
    match addUsize c s size with
    | .error _ => (s, .unwinding)
    | .ok s => (s, .returned)
  | _ => (s, .returned)

/-- A visit with `SizeOfUniqueAllocatedDataVisitor` (size_of.rs:46-74; the exits do nothing, `enter_shared` returns `None`,
so `exit_shared_impl` is never called). -/
def sizeOfExec [Target] (c : Checks) : Prog → NodeKind → Nat → Nat × Ctl
  | .done, _, s => (s, .returned)
  | .panic, _, s => (s, .unwinding)
  | .enter _ size _ body rest, kind, s =>
    match sizeOfInline c s size kind with
    | (s, .unwinding) => (s, .unwinding)
    | (s, .returned) =>
      match sizeOfExec c body .inline s with
      | (s, .unwinding) => (s, .unwinding)
      | (s, .returned) => sizeOfExec c rest kind s
  | .enterUnique _ _ _ body rest, kind, s =>
    match sizeOfExec c body .unique s with
    | (s, .unwinding) => (s, .unwinding)
    | (s, .returned) => sizeOfExec c rest kind s
  | .enterShared _ _ _ _ _ _ restNone, kind, s => sizeOfExec c restNone kind s
  | .catchUnwind body rest, kind, s => sizeOfExec c rest kind (sizeOfExec c body kind s).1

/-- `size_of_unique_allocated_data`, size_of.rs:40-84; `none`: it panics. -/
def sizeOfUniqueAllocatedData [Target] (c : Checks) (root : Prog) : Option Nat :=
  match sizeOfExec c root .root 0 with
  | (s, .returned) => some s
  | (_, .unwinding) => none

/-- `size_of_unique`, size_of.rs:107-112; `sizeOfT` is `size_of::<T>()`. -/
def sizeOfUnique [Target] (c : Checks) (sizeOfT : Nat) (root : Prog) : Option Nat :=
  match sizeOfUniqueAllocatedData c root with
  | none => none
  | some n =>
    match addUsize c sizeOfT n with
    | .error _ => none
    | .ok n => some n

end Allocative.Machine
