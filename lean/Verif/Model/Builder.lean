import Verif.Model.FlameGraph
import Verif.Model.Visitor
/-
Model of `FlameGraphBuilder` (allocative/src/flamegraph.rs:116-495).
-/
namespace Allocative

/-- `struct TreeId(usize)`, flamegraph.rs:203-204. -/
abbrev TreeId := Nat

/-- `struct TreeData`, flamegraph.rs:116-128. -/
structure TreeData where
  size : Nat := 0
  remSize : Int := 0
  unique : Bool := false
  children : HMap TreeId := []

/-- `TreeData::inline_children_size`, flamegraph.rs:131-133. -/
def TreeData.inlineChildrenSize (self : TreeData) : Int := (self.size : Int) - self.remSize

/-- `struct Trees { trees: Vec<TreeData> }`, flamegraph.rs:206-209. -/
abbrev Trees := List TreeData

/-- `Index for Trees`, flamegraph.rs:219-225: panics out of bounds. -/
def Trees.index (trees : Trees) (i : TreeId) : Except Panic TreeData :=
  match trees[i]? with
  | some d => .ok d
  | none => .error .indexOutOfBounds

/-- `trees[i] = f(trees[i])` through `IndexMut for Trees`, flamegraph.rs:227-231. -/
def Trees.update (trees : Trees) (i : TreeId) (f : TreeData → TreeData) : Except Panic Trees :=
  match trees[i]? with
  | some d => .ok (trees.set i (f d))
  | none => .error .indexOutOfBounds

/-- `Trees::new_tree`, flamegraph.rs:212-216 (`TreeData::default()`: all fields zero/empty). -/
def Trees.newTree (trees : Trees) : TreeId × Trees := (trees.length, trees ++ [({ size := 0 } : TreeData)])

/-- `struct TreeStack`, flamegraph.rs:233-237.  `stack` is the `Vec` with its last element first. -/
structure TreeStack where
  stack : List TreeId
  tree : TreeId

/-- `TreeStackRef::down`, flamegraph.rs:249-262. -/
def down (trees : Trees) (st : TreeStack) (key : Key) : Except Panic (Trees × TreeStack) :=
  let stack := st.tree :: st.stack
  let nextTreeId := trees.length
  match trees.index st.tree with
  | .error e => .error e
  | .ok data =>
    match HMap.get? key data.children with
    | some child => .ok (trees, { stack, tree := child })
    | none =>
      match trees.update st.tree (fun d => { d with children := d.children ++ [(key, nextTreeId)] }) with
      | .error e => .error e
      | .ok trees =>
        let (child, trees) := trees.newTree
        if child = nextTreeId then .ok (trees, { stack, tree := child })
        else .error .assertChildId

/-- `TreeStackRef::up`, flamegraph.rs:265-272; `none` is `false`. -/
def up (st : TreeStack) : Option TreeStack :=
  match st.stack with
  | pop :: stack => some { stack, tree := pop }
  | [] => none

/-- `struct FlameGraphBuilder`, flamegraph.rs:310-323.  `shared` is the `Vec` with its last element first;
`visitedShared` is the `HashSet` as a list. -/
structure Builder where
  visitedShared : List Ptr
  trees : Trees
  current : TreeStack
  shared : List TreeStack
  root : TreeId
  enteredRootVisitor : Bool

/-- `impl Default for FlameGraphBuilder`, flamegraph.rs:330-346. -/
def Builder.default : Builder :=
  let (root, trees) := Trees.newTree []
  { trees
    visitedShared := []
    current := { stack := [], tree := root }
    shared := []
    root
    enteredRootVisitor := false }

namespace Builder

/-- `root_visitor`, flamegraph.rs:349-356 (the visitor has kind `.root`). -/
def rootVisitor (b : Builder) : Except Panic Builder :=
  if b.enteredRootVisitor then .error .assertRootNotEntered
  else .ok { b with enteredRootVisitor := true }

/-- `FlameGraphBuilder::exit_impl`, flamegraph.rs:426-438. -/
def exitImpl (b : Builder) : Except Panic Builder :=
  if !b.enteredRootVisitor then .error .assertRootEntered
  else
    match up b.current with
    | some st => .ok { b with current := st }
    | none =>
      match b.shared with
      | st :: shared =>
        match up st with
        | some st => .ok { b with current := st, shared }
        | none => .error .assertUp
      | [] => .ok { b with enteredRootVisitor := false }

/-- `self.current().down(name); self.current().current_data().size += size;`
(first two lines of the three enter functions, flamegraph.rs:443-444, 448-449, 462-463), followed by an
update of other fields of the entered node. -/
def downAndAdd (b : Builder) (name : Key) (size : Nat) (f : TreeData → TreeData) : Except Panic Builder :=
  match down b.trees b.current name with
  | .error e => .error e
  | .ok (trees, current) =>
    match trees.update current.tree (fun d => f { d with size := d.size + size }) with
    | .error e => .error e
    | .ok trees => .ok { b with trees, current }

/-- `enter_inline_impl`, flamegraph.rs:442-445. -/
def enterInlineImpl (b : Builder) (name : Key) (size : Nat) (_parent : NodeKind) : Except Panic Builder :=
  b.downAndAdd name size id

/-- `enter_unique_impl`, flamegraph.rs:447-453. -/
def enterUniqueImpl (b : Builder) (name : Key) (size : Nat) (_parent : NodeKind) : Except Panic Builder :=
  b.downAndAdd name size (fun d => { d with unique := true })

/-- `enter_shared_impl`, flamegraph.rs:455-478. -/
def enterSharedImpl (b : Builder) (name : Key) (size : Nat) (ptr : Ptr) (_parent : NodeKind) :
    Except Panic (Bool × Builder) :=
  match b.downAndAdd name size id with
  | .error e => .error e
  | .ok b =>
    if ptr ∈ b.visitedShared then
      match b.exitImpl with
      | .error e => .error e
      | .ok b => .ok (false, b)
    else
      .ok (true,
        { b with
          visitedShared := ptr :: b.visitedShared
          shared := b.current :: b.shared
          current := { stack := [], tree := b.root } })

/-- `impl VisitorImpl for FlameGraphBuilder`, flamegraph.rs:441-495. -/
def visitorImpl : VisitorImpl Builder where
  enterInlineImpl := enterInlineImpl
  enterUniqueImpl := enterUniqueImpl
  enterSharedImpl := enterSharedImpl
  exitInlineImpl := exitImpl
  exitUniqueImpl := exitImpl
  exitSharedImpl := exitImpl
  exitRootImpl := exitImpl

/-- `trees[tree_id].children.values().map(|child| trees[*child].size).sum()`, flamegraph.rs:409-412. -/
def sumSizes (trees : Trees) : List TreeId → Except Panic Nat
  | [] => .ok 0
  | c :: rest =>
    match trees.index c with
    | .error e => .error e
    | .ok d =>
      match sumSizes trees rest with
      | .error e => .error e
      | .ok n => .ok (d.size + n)

/-- `update_sizes`, flamegraph.rs:399-417 (post-order).  Sizes are unbounded here, so the
`saturating_sub` is exact (see `Verif/Model/Machine.lean` for the version with machine arithmetic). -/
def updateSizes (ord : HashOrder TreeId) : Nat → TreeId → Trees → Except Panic Trees
  | 0, _, _ => .error .outOfFuel
  | fuel + 1, id, trees =>
    match trees.index id with
    | .error e => .error e
    | .ok tree =>
      match (ord.run id (tree.children.map Prod.snd)).foldlM (fun trees child => updateSizes ord fuel child trees) trees with
      | .error e => .error e
      | .ok trees =>
        match trees.index id with
        | .error e => .error e
        | .ok tree =>
          match (if tree.unique then .ok 0 else sumSizes trees (ord.run id (tree.children.map Prod.snd))) with
          | .error e => .error e
          | .ok childrenSize =>
            trees.update id (fun d => { d with remSize := (d.size : Int) - (childrenSize : Int) })

/-- The warning line of flamegraph.rs:152-159. -/
def warningLine (stack : List Str) (size : Nat) (inlineChildren : Int) : Str :=
  ascii "Incorrect size declaration for node `" ++ joinSemi stack ++ ascii "`, size of self: "
    ++ decimal size ++ ascii ", size of inline children: " ++ decimalInt inlineChildren ++ [10]

/-- `TreeRef::write_flame_graph`, flamegraph.rs:142-175: returns the flame graph and the text appended to `warnings`. -/
def writeFlameGraph (ord : HashOrder TreeId) (trees : Trees) : Nat → TreeId → List Str → Except Panic (FlameGraph × Str)
  | 0, _, _ => .error .outOfFuel
  | fuel + 1, id, stack =>
    match trees.index id with
    | .error e => .error e
    | .ok tree =>
      let flameGraph : FlameGraph :=
        if tree.remSize > 0 then
          if stack = [] then .default else .mk [] 0 tree.remSize.toNat
        else .default
      let warnings : Str :=
        if tree.remSize > 0 then []
        else if tree.remSize < 0 ∧ stack ≠ [] then warningLine stack tree.size tree.inlineChildrenSize
        else []
      (sortByKey (ord.run id tree.children)).foldlM
        (fun (acc : FlameGraph × Str) (kc : Key × TreeId) =>
          match writeFlameGraph ord trees fuel kc.2 (stack ++ [kc.1.deref]) with
          | .error e => .error e
          | .ok (child, w) => .ok (acc.1.addChild kc.1 child, acc.2 ++ w))
        (flameGraph, warnings)

/-- `finish_impl`, flamegraph.rs:373-382; the fuel is the number of trees, which bounds the depth. -/
def finishImpl (ord : HashOrder TreeId) (b : Builder) : Except Panic (Trees × TreeId) :=
  if b.shared ≠ [] then .error .assertFinish
  else if b.current.stack ≠ [] then .error .assertFinish
  else if b.enteredRootVisitor then .error .assertFinish
  else
    match updateSizes ord b.trees.length b.root b.trees with
    | .error e => .error e
    | .ok trees => .ok (trees, b.root)

/-- `struct FlameGraphOutput`, flamegraph.rs:98-114. -/
structure Output where
  flamegraph : FlameGraph
  warnings : Str

/-- `finish` (flamegraph.rs:385-392) with `to_flame_graph` (flamegraph.rs:177-181). -/
def finish (ord : HashOrder TreeId) (b : Builder) : Except Panic Output :=
  match b.finishImpl ord with
  | .error e => .error e
  | .ok (trees, root) =>
    match writeFlameGraph ord trees trees.length root [] with
    | .error e => .error e
    | .ok (flamegraph, warnings) => .ok { flamegraph, warnings }

/-- One use of the builder: `let v = b.root_visitor(); prog(v); <fate of v>`.
`visit_root(root)` (flamegraph.rs:359-363) is the case `fate = .exit` where `prog` is `root.visit`. A panic of the program
unwinds through this (dropping the root visitor) and is assumed to be caught by the caller; the
`Ctl` says whether that happened. -/
def useRoot (b : Builder) (prog : Prog) (fate : Fate) : Except Panic (Builder × Ctl) :=
  match b.rootVisitor with
  | .error e => .error e
  | .ok b =>
    match exec visitorImpl prog .root b with
    | .error e => .error e
    | .ok (b, ctl) =>
      match visitorImpl.finishChild .root fate ctl b with
      | .error e => .error e
      | .ok b => .ok (b, ctl)

/-- `visit_root`, flamegraph.rs:359-363. -/
def visitRoot (b : Builder) (prog : Prog) : Except Panic (Builder × Ctl) := b.useRoot prog .exit

/-- A history: root uses one after the other, panics caught in between.
`visit_global_roots` (flamegraph.rs:367-371) is the special case where all fates are `.exit`. -/
def useRoots (b : Builder) : List (Prog × Fate) → Except Panic Builder
  | [] => .ok b
  | (prog, fate) :: rest =>
    match b.useRoot prog fate with
    | .error e => .error e
    | .ok (b, _) => useRoots b rest

end Builder
end Allocative
