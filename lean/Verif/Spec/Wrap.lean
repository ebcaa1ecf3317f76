import Verif.Spec.Run
import Verif.Model.Machine
/-
Vocabulary for C56: what a release build (overflow checks off) reports when declared sizes add up to more than fits.
-/
namespace Allocative

/-- The number in the range of `isize` congruent to `n` modulo `usize::MAX + 1`: the low bits of a sum read as `isize`. -/
def bits [Target] (n : Nat) : Int := Int.bmod n (Usize.modulus)

/-- The nearest `isize`. -/
def clamp [Target] (x : Int) : Int := max (-Usize.half) (min (Usize.half - 1) x)

/-- `S - C` as `remAt`, where both sums are cut to 64 bits and the difference saturates. -/
def remWrap [Target] (recs : List Rec) (p : Path) : Int :=
  clamp (bits (sizeAt recs p) - (if uniqueAt recs p then 0 else bits (childrenAt recs p)))

/-- Self size of a stack in a release build. -/
def selfWrap [Target] (recs : List Rec) (p : Path) : Nat := if p = [] then 0 else (remWrap recs p).toNat

/-- Decimal text of an integer. -/
def intText (x : Int) : Str := (if x < 0 then ascii "-" else []) ++ decimal x.natAbs

/-- The warning for a stack in a release build: the own size is printed as `usize`, the children's as `isize`. -/
def renderWarningWrap [Target] (recs : List Rec) (p : Path) : Str :=
  ascii "Incorrect size declaration for node `" ++ joinSemi p.names ++ ascii "`, size of self: "
    ++ decimal (sizeAt recs p % Usize.modulus) ++ ascii ", size of inline children: "
    ++ intText (Int.bmod (bits (sizeAt recs p) - remWrap recs p) (Usize.modulus)) ++ [10]

/-- Flame graphs a release build can obtain through `default`, `add_self`, `add_child` and `add` (and, by C56_finish, from `finish`). -/
inductive ReleaseBuilt [Target] : FlameGraph → Prop
  | default : ReleaseBuilt .default
  | addSelf {fg r} (n : Nat) : ReleaseBuilt fg → Machine.addSelf .off fg n = .ok r → ReleaseBuilt r
  | addChild {fg c r} (k : Key) : ReleaseBuilt fg → ReleaseBuilt c → Machine.addChild .off fg k c = .ok r → ReleaseBuilt r
  | add {a b r} : ReleaseBuilt a → ReleaseBuilt b → Machine.add .off a b = .ok r → ReleaseBuilt r

end Allocative
