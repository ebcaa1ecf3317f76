import Verif.Model.Key
/-
The build script, build.rs, and the two ways to compile `Key::for_type_name`.
-/
namespace Allocative.BuildScript

/-- The places at which the build script can panic. Models build.rs:16, 20, 22, 31, 32. -/
inductive BuildPanic where
  /-- `std::env::var("RUSTC").unwrap()`, build.rs:16 -/
  | noRustc
  /-- `Command::output().unwrap()`, build.rs:17-20 -/
  | notStarted
  /-- `assert!(version.status.success())`, build.rs:22 -/
  | failed
  /-- `String::from_utf8(version.stdout).unwrap()`, build.rs:31 -/
  | notUtf8
  /-- `assert!(stdout.contains("rustc"))`, build.rs:32 -/
  | sanity
  deriving DecidableEq, Repr

/-- What is used of `std::process::Output`. Models build.rs:22, 31. -/
structure Output where
  success : Bool
  stdout : Str

/-- `str::contains` for a string: search at each position. Models the calls in build.rs:32-33. -/
def contains (pat : Str) : Str → Bool
  | [] => pat.isPrefixOf []
  | b :: s => pat.isPrefixOf (b :: s) || contains pat s

/-- `let nightly = ..`, build.rs:33. -/
def nightly (stdout : Str) : Bool := contains (ascii "nightly") stdout || contains (ascii "dev") stdout

/-- `rust_nightly`, build.rs:15-37: the lines printed. `var` is the environment variable RUSTC, `run` what happens if a program is started with `--version` (`none`: it cannot be started),
`utf8` is the check of `String::from_utf8`. -/
def rustNightly (utf8 : Str → Bool) (var : Option Str) (run : Str → Option Output) : Except BuildPanic (List Str) :=
  match var with
  | none => .error .noRustc
  | some rustc =>
    match run rustc with
    | none => .error .notStarted
    | some version =>
      if !version.success then .error .failed
      else if !utf8 version.stdout then .error .notUtf8
      else if !contains (ascii "rustc") version.stdout then .error .sanity
      else .ok (if nightly version.stdout then [ascii "cargo:rustc-cfg=rust_nightly"] else [])

/-- `AllocativeKeyForType::<T>::KEY`, key.rs:91-95. -/
def keyForType (typeName : Str) : Key := Key.new typeName

/-- `Key::for_type_name` with and without `cfg(rust_nightly)`, key.rs:75-85. -/
def forTypeName (cfg : Bool) (typeName : Str) : Key :=
  if cfg then { hash := (keyForType typeName).hash, s := (keyForType typeName).s } else Key.new typeName

end Allocative.BuildScript
