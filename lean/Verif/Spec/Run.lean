import Verif.Spec.Records
import Verif.Model.Builder
/-
Complete runs of a builder and their observable output.
-/
namespace Allocative

/-- `let mut b = FlameGraphBuilder::default(); <root visits>; b.finish()`. -/
def run (ord : HashOrder TreeId) (hist : List (Prog × Fate)) : Except Panic Builder.Output :=
  match Builder.default.useRoots hist with
  | .error e => .error e
  | .ok b => b.finish ord

/-- What a user can observe of a finished builder: text, total size, warnings. -/
structure Obs where
  text : Str
  total : Nat
  warnings : Str

/-- Observables of a run; `ord'` is the iteration order of the maps of the flame graph. -/
def observe (ord : HashOrder TreeId) (ord' : HashOrder (List Str)) (hist : List (Prog × Fate)) : Except Panic Obs :=
  match run ord hist with
  | .error e => .error e
  | .ok out => .ok ⟨out.flamegraph.write ord', out.flamegraph.totalSize, out.warnings⟩

/-- The iteration order that leaves the entries as they are (for examples). -/
def HashOrder.id (ι : Type) : HashOrder ι := ⟨fun _ _ l => l, fun _ _ l => .refl l⟩

/-- Another iteration order: reversed (for examples). -/
def HashOrder.rev (ι : Type) : HashOrder ι := ⟨fun _ _ l => l.reverse, fun _ _ l => l.reverse_perm⟩

end Allocative
