import Verif.Spec.Run
/-
Concrete histories used as non-vacuity examples beside the theorems.
-/
namespace Allocative.Ex

def k (s : String) : Key := Key.new (ascii s)

/-- `enter(name, size, |v| body)` then return. -/
def leaf (s : String) (n : Nat) (rest : Prog := .done) : Prog := .enter (k s) n .exit .done rest

/-- A struct with an inline field and a boxed field, pointing at shared cell 7, which points back to itself. -/
def prog1 : Prog :=
  .enter (k "S") 24 .exit
    (.enter (k "a") 8 .drop .done
      (.enterUnique (k "b") 8 .exit (leaf "T" 100)
        (.enterShared (k "c") 8 7 .drop
          (.enter (k "Inner") 40 .exit
            (.enterShared (k "back") 8 7 .exit .done .done .done) .done)
          .done .done)))
    .done

/-- A visit with an over-full node. -/
def prog2 : Prog := .enter (k "M") 10 .exit (leaf "x" 7 (leaf "y" 7)) .done

/-- A visit that panics half way. -/
def prog3 : Prog := .enter (k "S") 24 .exit (.enter (k "a") 8 .exit .panic (leaf "z" 1)) (leaf "never" 5)

def hist1 : List (Prog × Fate) := [(prog1, .exit), (prog2, .drop), (prog3, .exit), (prog1, .exit)]

theorem hist1_noLeaks : NoLeaks hist1 := by decide

theorem hist1_proper : ProperKeys hist1 := by
  simp [ProperKeys, hist1, prog1, prog2, prog3, leaf, k, Prog.KeysAre, Key.Proper, Key.new, Key.newUnchecked]

end Allocative.Ex
