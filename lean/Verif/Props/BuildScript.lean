import Verif.Model.BuildScript
set_option linter.unusedSimpArgs false
/-
C80: the build script detects compilers that admit unstable features.
-/
namespace Allocative.BuildScript

/-- `pat` occurs in `s`. -/
def Occurs (pat s : Str) : Prop := ∃ a b, s = a ++ pat ++ b

theorem contains_iff (pat : Str) : ∀ s, contains pat s = true ↔ Occurs pat s
  | [] => by
    simp only [contains, List.isPrefixOf_iff_prefix, Occurs]
    refine ⟨fun ⟨t, h⟩ => ⟨[], t, by simpa using h.symm⟩, fun ⟨a, b, h⟩ => ?_⟩
    have := congrArg List.length h
    simp at this
    exact ⟨[], by simp; exact List.eq_nil_of_length_eq_zero (by omega)⟩
  | c :: s => by
    simp only [contains, Bool.or_eq_true, List.isPrefixOf_iff_prefix, contains_iff pat s, Occurs]
    constructor
    · rintro (⟨t, h⟩ | ⟨a, b, h⟩)
      · exact ⟨[], t, by simpa using h.symm⟩
      · exact ⟨c :: a, b, by simp [h]⟩
    · rintro ⟨a, b, h⟩
      cases a with
      | nil => exact .inl ⟨b, by simpa using h.symm⟩
      | cons x a =>
        simp only [List.cons_append, List.cons.injEq] at h
        exact .inr ⟨a, b, h.2⟩

theorem Occurs.mem {pat s : Str} (h : Occurs pat s) {c : UInt8} (hc : c ∈ pat) : c ∈ s := by
  obtain ⟨a, b, rfl⟩ := h
  simp [hc]

/-- C80. The script prints the line that sets `cfg(rust_nightly)` exactly if the compiler that cargo names can be run, succeeds and prints a text with "rustc" and with "nightly" or "dev" in it; it prints
nothing exactly if neither of the two is in the text; in all other cases it panics, so that the build stops. -/
theorem C80_script (utf8 : Str → Bool) (var : Option Str) (run : Str → Option Output) (lines : List Str) :
    rustNightly utf8 var run = .ok lines ↔
      ∃ rustc out, var = some rustc ∧ run rustc = some out ∧ out.success = true ∧ utf8 out.stdout = true ∧ Occurs (ascii "rustc") out.stdout ∧
        ((Occurs (ascii "nightly") out.stdout ∨ Occurs (ascii "dev") out.stdout) ∧ lines = [ascii "cargo:rustc-cfg=rust_nightly"] ∨
          ¬ (Occurs (ascii "nightly") out.stdout ∨ Occurs (ascii "dev") out.stdout) ∧ lines = []) := by
  unfold rustNightly
  cases var with
  | none => simp
  | some rustc =>
    simp only [Option.some.injEq]
    cases hr : run rustc with
    | none => simp [hr]
    | some out =>
      have hn : nightly out.stdout = true ↔ (Occurs (ascii "nightly") out.stdout ∨ Occurs (ascii "dev") out.stdout) := by
        simp only [nightly, Bool.or_eq_true, contains_iff]
      have hc := contains_iff (ascii "rustc") out.stdout
      constructor
      · intro h
        dsimp only at h
        split at h
        · cases h
        · split at h
          · cases h
          · split at h
            · cases h
            · rename_i h1 h2 h3
              simp only [Bool.not_eq_true', Bool.not_eq_false] at h1 h2 h3
              refine ⟨rustc, out, rfl, hr, h1, h2, hc.1 h3, ?_⟩
              cases h
              by_cases e : nightly out.stdout = true
              · exact .inl ⟨hn.1 e, by simp [e]⟩
              · exact .inr ⟨fun x => e (hn.2 x), by simp [e]⟩
      · rintro ⟨_, _, rfl, h0, h1, h2, h3, h4⟩
        rw [hr] at h0
        cases h0
        simp only [h1, h2, hc.2 h3, Bool.not_true, if_false, Bool.false_eq_true]
        rcases h4 with ⟨h4, rfl⟩ | ⟨h4, rfl⟩
        · simp [hn.2 h4]
        · have : nightly out.stdout = false := Bool.eq_false_iff.2 fun e => h4 (hn.1 e)
          simp [this]

/-- The release channels. -/
inductive Channel where
  | stable
  | beta (number : Option Str)
  | nightly
  | dev

/-- What the channel adds to the version. -/
def Channel.suffix : Channel → Str
  | .stable => []
  | .beta none => ascii "-beta"
  | .beta (some n) => ascii "-beta." ++ n
  | .nightly => ascii "-nightly"
  | .dev => ascii "-dev"

/-- Unstable features are admitted. -/
def Channel.Unstable : Channel → Prop
  | .nightly => True
  | .dev => True
  | _ => False

def isDigit (b : UInt8) : Prop := 48 ≤ b ∧ b ≤ 57
/-- Hexadecimal digits as git prints them. -/
def isHex (b : UInt8) : Prop := isDigit b ∨ 97 ≤ b ∧ b ≤ 102

/-- A version that the Rust project publishes: `rustc 1.64.0-nightly (affe0d3a0 2022-08-05)`, where the part in parentheses may be absent. -/
structure Version where
  number : Str
  channel : Channel
  commit : Option (Str × Str)

/-- The part in parentheses. -/
def commitInfo : Option (Str × Str) → Str
  | none => []
  | some (hash, date) => ascii " (" ++ hash ++ ascii " " ++ date ++ ascii ")"

def Version.print (v : Version) : Str :=
  ascii "rustc " ++ v.number ++ v.channel.suffix ++ commitInfo v.commit ++ ascii "\n"

structure Version.WF (v : Version) : Prop where
  number : ∀ b ∈ v.number, isDigit b ∨ b = 46
  beta : ∀ n, v.channel = .beta (some n) → ∀ b ∈ n, isDigit b
  commit : ∀ hash date, v.commit = some (hash, date) → (∀ b ∈ hash, isHex b) ∧ ∀ b ∈ date, isDigit b ∨ b = 45

theorem not_mem_of_digit {n : Str} {c : UInt8} (h : ∀ b ∈ n, isDigit b) (hc : 57 < c) : c ∉ n := fun hm => by
  have h2 := (h c hm).2
  exact absurd hc (UInt8.not_lt.2 h2)

/-- C80. For every version that the Rust project publishes, of any channel: the script returns, and sets the cfg exactly on the channels that admit unstable features. -/
theorem C80_channels (utf8 : Str → Bool) (rustc : Str) (run : Str → Option Output) (v : Version) (hv : v.WF) (hr : run rustc = some ⟨true, v.print⟩) (hu : utf8 v.print = true) :
    (v.channel.Unstable → rustNightly utf8 (some rustc) run = .ok [ascii "cargo:rustc-cfg=rust_nightly"]) ∧
    (¬ v.channel.Unstable → rustNightly utf8 (some rustc) run = .ok []) := by
  have hrc : Occurs (ascii "rustc") v.print := ⟨[], ascii " " ++ v.number ++ v.channel.suffix ++ commitInfo v.commit ++ ascii "\n",
    by
      have : ascii "rustc " = ascii "rustc" ++ ascii " " := by decide +kernel
      simp only [Version.print, this, List.append_assoc, List.nil_append]⟩
  constructor
  · intro h
    refine (C80_script ..).2 ⟨rustc, _, rfl, hr, rfl, hu, hrc, .inl ⟨?_, rfl⟩⟩
    obtain ⟨number, channel, commit⟩ := v
    cases channel with
    | nightly => exact .inl ⟨ascii "rustc " ++ number ++ ascii "-", commitInfo commit ++ ascii "\n", by
        have : ascii "-nightly" = ascii "-" ++ ascii "nightly" := by decide +kernel
        simp only [Version.print, Channel.suffix, this, List.append_assoc]⟩
    | dev => exact .inr ⟨ascii "rustc " ++ number ++ ascii "-", commitInfo commit ++ ascii "\n", by
        have : ascii "-dev" = ascii "-" ++ ascii "dev" := by decide +kernel
        simp only [Version.print, Channel.suffix, this, List.append_assoc]⟩
    | stable => exact h.elim
    | beta n => exact h.elim
  · intro h
    have key : ∀ c : UInt8, c ∉ ascii "rustc -beta. ()\n" → 102 < c → c ∉ v.print := by
      intro c hc hlt
      have h57 : (57 : UInt8) < c := Nat.lt_trans (by decide : (57 : UInt8).toNat < (102 : UInt8).toNat) hlt
      have hdig : ¬ isDigit c := fun hd => absurd h57 (UInt8.not_lt.2 hd.2)
      have hhex : ¬ isHex c := fun hd => hd.elim hdig fun hd => absurd hlt (UInt8.not_lt.2 hd.2)
      have h46 : c ≠ 46 := fun e => by subst e; exact absurd hlt (by decide)
      have h45 : c ≠ 45 := fun e => by subst e; exact absurd hlt (by decide)
      have sub : ∀ s : Str, (∀ b ∈ s, b ∈ ascii "rustc -beta. ()\n") → c ∉ s := fun s hs hm => hc (hs c hm)
      simp only [Version.print, List.mem_append, not_or]
      refine ⟨⟨⟨⟨sub _ (by decide +kernel), fun hm => ?_⟩, ?_⟩, ?_⟩, sub _ (by decide +kernel)⟩
      · exact (hv.number c hm).elim hdig h46
      · cases hch : v.channel with
        | stable => simp [Channel.suffix]
        | nightly => rw [hch] at h; exact (h trivial).elim
        | dev => rw [hch] at h; exact (h trivial).elim
        | beta n =>
          cases n with
          | none => exact sub _ (by decide +kernel)
          | some n =>
            simp only [Channel.suffix, List.mem_append, not_or]
            exact ⟨sub _ (by decide +kernel), fun hm => hdig (hv.beta n hch c hm)⟩
      · cases hcm : v.commit with
        | none => simp [commitInfo]
        | some x =>
          obtain ⟨a, b⟩ := hv.commit x.1 x.2 hcm
          simp only [commitInfo, List.mem_append, not_or]
          exact ⟨⟨⟨⟨sub _ (by decide +kernel), fun hm => hhex (a c hm)⟩, sub _ (by decide +kernel)⟩, fun hm => (b c hm).elim hdig h45⟩, sub _ (by decide +kernel)⟩
    refine (C80_script ..).2 ⟨rustc, _, rfl, hr, rfl, hu, hrc, .inr ⟨?_, rfl⟩⟩
    rintro (ho | ho)
    · exact key 121 (by decide +kernel) (by decide) (ho.mem (by decide +kernel))
    · exact key 118 (by decide +kernel) (by decide) (ho.mem (by decide +kernel))

/-- C80, hazard (F32): a vendor may add a text to the version (`rustc 1.63.0 (4b91a6ea7 2022-08-08) (vendor text)`).  If "dev" or "nightly" is anywhere in it, as in "devel" or "device", the cfg is set for a compiler of the stable channel, which refuses the
`#![feature]` attributes of lib.rs. -/
theorem C80_vendor (utf8 : Str → Bool) (rustc : Str) (run : Str → Option Output) (number commit vendor : Str)
    (hr : run rustc = some ⟨true, ascii "rustc " ++ number ++ commit ++ vendor⟩) (hu : utf8 (ascii "rustc " ++ number ++ commit ++ vendor) = true)
    (h : Occurs (ascii "dev") vendor ∨ Occurs (ascii "nightly") vendor) :
    rustNightly utf8 (some rustc) run = .ok [ascii "cargo:rustc-cfg=rust_nightly"] := by
  refine (C80_script ..).2 ⟨rustc, _, rfl, hr, rfl, hu, ?_, .inl ⟨?_, rfl⟩⟩
  · refine ⟨[], ascii " " ++ number ++ commit ++ vendor, ?_⟩
    have : ascii "rustc " = ascii "rustc" ++ ascii " " := by decide +kernel
    simp only [this, List.append_assoc, List.nil_append]
  · rcases h with ⟨a, b, rfl⟩ | ⟨a, b, rfl⟩
    · exact .inr ⟨ascii "rustc " ++ number ++ commit ++ a, b, by simp only [List.append_assoc]⟩
    · exact .inl ⟨ascii "rustc " ++ number ++ commit ++ a, b, by simp only [List.append_assoc]⟩

/-- C80. Names in profiles are the same with and without the cfg. -/
theorem C80_same_keys (typeName : Str) : forTypeName true typeName = forTypeName false typeName ∧ (forTypeName true typeName).s = typeName ∧ (forTypeName true typeName).hash = keyHash typeName := ⟨rfl, rfl, rfl⟩

namespace Ex
def v1 : Version := ⟨ascii "1.64.0", .nightly, some (ascii "affe0d3a0", ascii "2022-08-05")⟩
def v2 : Version := ⟨ascii "1.64.0", .stable, some (ascii "a55dd71d5", ascii "2022-09-19")⟩
def v3 : Version := ⟨ascii "1.64.0", .dev, none⟩
/-- The outputs in the comments of build.rs:24-29 .. -/
example : v1.print = ascii "rustc 1.64.0-nightly (affe0d3a0 2022-08-05)\n" ∧ v2.print = ascii "rustc 1.64.0 (a55dd71d5 2022-09-19)\n" ∧ v3.print = ascii "rustc 1.64.0-dev\n" := by decide +kernel

instance (b : UInt8) : Decidable (isDigit b) := inferInstanceAs (Decidable (_ ∧ _))
instance (b : UInt8) : Decidable (isHex b) := inferInstanceAs (Decidable (_ ∨ _))

theorem wf (n : Str) (ch : Channel) (c d : Str) (h1 : ∀ b ∈ n, isDigit b ∨ b = 46) (h2 : ∀ b ∈ c, isHex b) (h3 : ∀ b ∈ d, isDigit b ∨ b = 45) (h4 : ∀ n, ch = .beta (some n) → ∀ b ∈ n, isDigit b) : (Version.mk n ch (some (c, d))).WF :=
  ⟨h1, h4, fun hash date e => by cases e; exact ⟨h2, h3⟩⟩

theorem wf1 : v1.WF := wf _ _ _ _ (by decide +kernel) (by decide +kernel) (by decide +kernel) (fun _ h => by cases h)
theorem wf2 : v2.WF := wf _ _ _ _ (by decide +kernel) (by decide +kernel) (by decide +kernel) (fun _ h => by cases h)
/-- .. meet the hypotheses. -/
example : rustNightly (fun _ => true) (some (ascii "rustc")) (fun _ => some ⟨true, v1.print⟩) = .ok [ascii "cargo:rustc-cfg=rust_nightly"] := (C80_channels _ _ _ v1 wf1 rfl rfl).1 trivial
example : rustNightly (fun _ => true) (some (ascii "rustc")) (fun _ => some ⟨true, v2.print⟩) = .ok [] := (C80_channels _ _ _ v2 wf2 rfl rfl).2 (fun h => h)
example := C80_vendor (fun _ => true) (ascii "rustc") (fun _ => some ⟨true, ascii "rustc " ++ ascii "1.63.0" ++ ascii " (4b91a6ea7 2022-08-08)" ++ ascii " (built for devices)"⟩) _ _ _ rfl rfl
  (.inl ⟨ascii " (built for ", ascii "ices)", by decide +kernel⟩)
example : rustNightly (fun _ => true) none (fun _ => none) = .error .noRustc ∧ rustNightly (fun _ => true) (some []) (fun _ => some ⟨true, ascii "gcc 12"⟩) = .error .sanity := ⟨rfl, by rfl⟩
end Ex

end Allocative.BuildScript
