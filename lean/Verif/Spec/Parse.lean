import Verif.Spec.Stack
/-
Specification: a parser for the flame graph text format, as a consumer (`flamegraph.pl`, inferno) reads it:
lines, the number after the last space, frames separated by `;`.
-/
namespace Allocative.Parse

/-- Split at every occurrence of a byte. -/
def splitOn (sep : UInt8) : Str → List Str
  | [] => [[]]
  | b :: rest =>
    if b = sep then [] :: splitOn sep rest
    else
      match splitOn sep rest with
      | h :: t => (b :: h) :: t
      | [] => [[b]]

/-- Split at the last space. -/
def splitLast : Str → Option (Str × Str)
  | [] => none
  | b :: rest =>
    match splitLast rest with
    | some (x, y) => some (b :: x, y)
    | none => if b = 32 then some ([], rest) else none

/-- Decimal number. -/
def number (s : Str) : Nat := s.foldl (fun a b => a * 10 + (b.toNat - 48)) 0

/-- One line (without its newline). -/
def line (s : Str) : Option (List Str × Nat) :=
  match splitLast s with
  | some (stack, n) => some (splitOn 59 stack, number n)
  | none => none

/-- The whole text: every line ends with a newline. -/
def text (s : Str) : List (Option (List Str × Nat)) := (splitOn 10 s).dropLast.map line

end Allocative.Parse
