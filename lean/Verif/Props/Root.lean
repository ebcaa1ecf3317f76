import Verif.Model.Root
import Verif.Props.Registry
/-
C47: the `#[root]` macro.
-/
set_option linter.unusedSimpArgs false
namespace Allocative.RootMacro

/-- Two bytes that are equal or the two cases of one ASCII letter. -/
def sameLetter (a b : UInt8) : Prop :=
  a = b ∨ ∃ n : UInt8, n < 26 ∧ ((a = 65 + n ∧ b = 97 + n) ∨ (a = 97 + n ∧ b = 65 + n))

/-- Same letters, ignoring ASCII case. -/
def sameAscii (a b : Str) : Prop :=
  a.length = b.length ∧ ∀ i (h : i < a.length) (h' : i < b.length), sameLetter a[i] b[i]

theorem toNat_lowerByte (a : UInt8) : (lowerByte a).toNat = if 65 ≤ a.toNat ∧ a.toNat ≤ 90 then a.toNat + 32 else a.toNat := by
  unfold lowerByte
  have := a.toNat_lt
  simp only [UInt8.le_iff_toNat_le]
  have e1 : (65 : UInt8).toNat = 65 := rfl
  have e2 : (90 : UInt8).toNat = 90 := rfl
  have e3 : (32 : UInt8).toNat = 32 := rfl
  rw [e1, e2]
  split
  · rw [UInt8.toNat_add, e3]; omega
  · rfl

theorem lowerByte_eq_iff (a b : UInt8) : lowerByte a = lowerByte b ↔ sameLetter a b := by
  have ha := a.toNat_lt
  have hb := b.toNat_lt
  have e1 : (65 : UInt8).toNat = 65 := rfl
  have e2 : (97 : UInt8).toNat = 97 := rfl
  have e3 : (26 : UInt8).toNat = 26 := rfl
  constructor
  · intro h
    have h := congrArg UInt8.toNat h
    rw [toNat_lowerByte, toNat_lowerByte] at h
    by_cases e : a = b
    · exact .inl e
    · have e : a.toNat ≠ b.toNat := fun h => e (UInt8.toNat_inj.1 h)
      right
      by_cases hl : a.toNat < b.toNat
      · refine ⟨a - 65, ?_, .inl ⟨?_, ?_⟩⟩
        · rw [UInt8.lt_iff_toNat_lt, UInt8.toNat_sub, e1, e3]; split at h <;> split at h <;> omega
        · rw [← UInt8.toNat_inj, UInt8.toNat_add, UInt8.toNat_sub, e1]; split at h <;> split at h <;> omega
        · rw [← UInt8.toNat_inj, UInt8.toNat_add, UInt8.toNat_sub, e1, e2]; split at h <;> split at h <;> omega
      · refine ⟨b - 65, ?_, .inr ⟨?_, ?_⟩⟩
        · rw [UInt8.lt_iff_toNat_lt, UInt8.toNat_sub, e1, e3]; split at h <;> split at h <;> omega
        · rw [← UInt8.toNat_inj, UInt8.toNat_add, UInt8.toNat_sub, e1, e2]; split at h <;> split at h <;> omega
        · rw [← UInt8.toNat_inj, UInt8.toNat_add, UInt8.toNat_sub, e1]; split at h <;> split at h <;> omega
  · rintro (rfl | ⟨n, hn, ⟨rfl, rfl⟩ | ⟨rfl, rfl⟩⟩)
    · rfl
    all_goals
      rw [UInt8.lt_iff_toNat_lt, e3] at hn
      rw [← UInt8.toNat_inj, toNat_lowerByte, toNat_lowerByte]
      simp only [UInt8.toNat_add, e1, e2]
      split <;> split <;> omega

theorem map_lower_eq_iff (a b : Str) : a.map lowerByte = b.map lowerByte ↔ sameAscii a b := by
  unfold sameAscii
  rw [List.ext_getElem_iff]
  simp only [List.length_map, List.getElem_map, lowerByte_eq_iff]

/-- The characters an ASCII identifier can start with. -/
def startChars : Str := ascii "abcdefghijklmnopqrstuvwxyzABCDEFGHIJKLMNOPQRSTUVWXYZ_"

set_option maxRecDepth 4000 in
theorem isStart_iff (b : UInt8) : isStart b = true ↔ b ∈ startChars := by
  have h : ∀ n : Fin 256, isStart (UInt8.ofNat n.val) = true ↔ UInt8.ofNat n.val ∈ startChars := by decide
  have := h ⟨b.toNat, b.toNat_lt⟩
  simpa using this

set_option maxRecDepth 4000 in
theorem isContinue_iff (b : UInt8) : isContinue b = true ↔ b ∈ startChars ++ ascii "0123456789" := by
  have h : ∀ n : Fin 256, isContinue (UInt8.ofNat n.val) = true ↔ UInt8.ofNat n.val ∈ startChars ++ ascii "0123456789" := by decide
  have := h ⟨b.toNat, b.toNat_lt⟩
  simpa using this

/-- The name of the function generated for a static: `_`, the name in lower case, `_register_root`, in normal form. -/
def registerName (U : Unicode) (i : Ident) : Str :=
  U.nfc (ascii "_" ++ U.lower (if i.raw then ascii "r#" ++ i.name else i.name) ++ ascii "_register_root")

/-- An identifier of the source: its name, without `r#`, is an identifier. -/
def Ident.WellFormed (U : Unicode) (i : Ident) : Prop := U.ident i.name = true

/-- Equal when case is ignored. -/
def sameIgnoringCase (U : Unicode) (a b : Str) : Prop := U.nfc (U.lower a) = U.nfc (U.lower b)

/-- C47. What the two notions mean for ASCII names: an identifier is not empty, made of letters, digits and `_`, and does not begin
with a digit; and two names are equal when case is ignored iff they have the same letters at the same places. -/
theorem C47_ascii {U : Unicode} (hU : U.Lawful) :
    (∀ i : Ident, isAscii i.name →
      (i.WellFormed U ↔ ∃ b s, i.name = b :: s ∧ b ∈ startChars ∧ ∀ c ∈ s, c ∈ startChars ++ ascii "0123456789")) ∧
    (∀ a b, isAscii a → isAscii b → (sameIgnoringCase U a b ↔ sameAscii a b)) := by
  constructor
  · intro i hi
    unfold Ident.WellFormed
    rw [hU.ident_ascii _ hi]
    generalize i.name = n
    cases n with
    | nil => simp [asciiIdent]
    | cons b s =>
      simp only [asciiIdent, Bool.and_eq_true, List.all_eq_true, isStart_iff, isContinue_iff]
      constructor
      · rintro ⟨h1, h2⟩; exact ⟨b, s, rfl, h1, h2⟩
      · rintro ⟨b', s', e, h1, h2⟩; cases e; exact ⟨h1, h2⟩
  · intro a b ha hb
    have hl : ∀ s, isAscii s → isAscii (s.map lowerByte) := by
      intro s hs c hc
      obtain ⟨d, hd, rfl⟩ := List.mem_map.1 hc
      have := hs d hd
      rw [UInt8.lt_iff_toNat_lt] at this ⊢
      have e : (128 : UInt8).toNat = 128 := rfl
      rw [toNat_lowerByte]
      rw [e] at this ⊢
      split <;> omega
    unfold sameIgnoringCase
    rw [hU.lower_ascii _ ha, hU.lower_ascii _ hb, hU.nfc_ascii _ (hl _ ha), hU.nfc_ascii _ (hl _ hb), map_lower_eq_iff]

/-- Tables in which all bytes that are not ASCII are parts of letters without case. -/
def Ex.uni : Unicode where
  lower s := s.map lowerByte
  nfc s := s
  ident
    | [] => false
    | b :: s => (isStart b || 128 ≤ b) && s.all fun b => isContinue b || 128 ≤ b

set_option maxRecDepth 4000 in
theorem isContinue_lower (b : UInt8) : (isContinue (lowerByte b) || 128 ≤ lowerByte b) = (isContinue b || 128 ≤ b) := by
  have h : ∀ n : Fin 256, (isContinue (lowerByte (UInt8.ofNat n.val)) || 128 ≤ lowerByte (UInt8.ofNat n.val)) =
    (isContinue (UInt8.ofNat n.val) || 128 ≤ UInt8.ofNat n.val) := by decide
  have := h ⟨b.toNat, b.toNat_lt⟩
  simpa using this

set_option maxRecDepth 4000 in
theorem lowerByte_lower (b : UInt8) : lowerByte (lowerByte b) = lowerByte b := by
  have h : ∀ n : Fin 256, lowerByte (lowerByte (UInt8.ofNat n.val)) = lowerByte (UInt8.ofNat n.val) := by decide
  have := h ⟨b.toNat, b.toNat_lt⟩
  simpa using this

theorem Ex.lawful : Ex.uni.Lawful where
  lower_ascii _ _ := rfl
  nfc_ascii _ _ := rfl
  ident_ascii s hs := by
    have h : ∀ b ∈ s, decide (128 ≤ b) = false := by
      intro b hb
      have := hs b hb
      rw [UInt8.lt_iff_toNat_lt] at this
      simp only [UInt8.le_iff_toNat_le, decide_eq_false_iff_not]
      omega
    cases s with
    | nil => rfl
    | cons b s =>
      simp only [Ex.uni, asciiIdent, h b (.head _), Bool.or_false]
      congr 1
      rw [Bool.eq_iff_iff, List.all_eq_true, List.all_eq_true]
      exact ⟨fun g c hc => by simpa [h c (.tail _ hc)] using g c hc, fun g c hc => by simpa [h c (.tail _ hc)] using g c hc⟩
  lower_hash s h := List.mem_map.2 ⟨35, h, by decide⟩
  nfc_hash _ h := h
  ident_hash s h := by
    cases s with
    | nil => rfl
    | cons b s =>
      simp only [Ex.uni, Bool.and_eq_false_iff]
      rcases List.mem_cons.1 h with rfl | h
      · exact .inl (by decide)
      · exact .inr (List.all_eq_false.2 ⟨35, h, by decide⟩)
  nfc_around _ := rfl
  ident_around s h := by
    have hall : s.all (fun b => isContinue b || 128 ≤ b) = true := by
      cases s with
      | nil => rfl
      | cons b s =>
        simp only [Ex.uni, Bool.and_eq_true] at h
        rw [List.all_cons, h.2, isContinue, Bool.and_true]
        have := h.1
        simp only [Bool.or_eq_true] at this ⊢
        rcases this with h | h
        · exact .inl (.inl h)
        · exact .inr h
    show ((isStart 95 || 128 ≤ (95 : UInt8)) && (s.map lowerByte ++ ascii "_register_root").all _) = true
    rw [List.all_append, List.all_map]
    have e : ((fun b => isContinue b || decide (128 ≤ b)) ∘ lowerByte) = fun b => isContinue b || decide (128 ≤ b) := by
      funext b; exact isContinue_lower b
    rw [e, hall]
    decide
  lower_once s := by
    show List.map lowerByte (ascii "_" ++ s.map lowerByte ++ ascii "_register_root") = _
    rw [List.map_append, List.map_append, List.map_map]
    have e : (lowerByte ∘ lowerByte) = lowerByte := by funext b; exact lowerByte_lower b
    rw [e]; rfl

-- Greek: "Ωm" in UTF-8
example : (⟨false, [206, 169, 109]⟩ : Ident).WellFormed Ex.uni ∧ ¬ isAscii [206, 169, 109] :=
  ⟨rfl, fun h => absurd (h 206 (.head _)) (by decide)⟩

theorem newIdent_formatName {U : Unicode} (hU : U.Lawful) (i : Ident) (h : i.WellFormed U) :
    newIdent U (formatName U i) = if i.raw then none else some (registerName U i) := by
  have e : registerName U i = U.nfc (formatName U i) := rfl
  unfold newIdent
  rw [← e]
  cases hr : i.raw
  · have : U.ident (registerName U i) = true := by
      simp only [registerName, hr, Bool.false_eq_true, if_false]
      rw [hU.nfc_around]; exact hU.ident_around _ h
    rw [this]; rfl
  · have : U.ident (registerName U i) = false := by
      simp only [registerName, hr, if_true]
      refine hU.ident_hash _ (hU.nfc_hash _ (List.mem_append_left _ (List.mem_append_right _ (hU.lower_hash _ ?_))))
      exact List.mem_append_left _ (by decide)
    rw [this]; rfl

/-- C47. The macro accepts a `static` with an ordinary name, and nothing else: not another item, and not a static whose name is a raw
identifier (`r#type`, the macro panics).  The static is kept as it is, and one `ctor` function that registers it is added. -/
theorem C47_expansion {U : Unicode} (hU : U.Lawful) (i : Item) (hw : ∀ s, i = .static s → s.ident.WellFormed U) :
    globalRootImpl U i = match i with
      | .static s => if s.ident.raw then .error .invalidIdent else .ok [.item i, .ctor (registerName U s.ident) s.ident]
      | _ => .error .notStatic := by
  cases i with
  | static s =>
    simp only [globalRootImpl, newIdent_formatName hU _ (hw s rfl)]
    cases s.ident.raw <;> rfl
  | value n => rfl
  | other => rfl

-- `#[root] static FOO`, `#[root] static r#type` and `#[root] static Ωm`
example : globalRootImpl Ex.uni (.static ⟨⟨false, ascii "FOO"⟩, false, 7⟩) =
      .ok [.item (.static ⟨⟨false, ascii "FOO"⟩, false, 7⟩), .ctor (ascii "_foo_register_root") ⟨false, ascii "FOO"⟩] ∧
    globalRootImpl Ex.uni (.static ⟨⟨true, ascii "type"⟩, false, 7⟩) = .error .invalidIdent ∧
    globalRootImpl Ex.uni (.static ⟨⟨false, [206, 169, 77]⟩, false, 7⟩) =
      .ok [.item (.static ⟨⟨false, [206, 169, 77]⟩, false, 7⟩),
        .ctor ([95, 206, 169, 109] ++ ascii "_register_root") ⟨false, [206, 169, 77]⟩] := ⟨rfl, rfl, rfl⟩

/-- C47. The functions generated for two statics have the same name iff the names of the statics differ at most by case. -/
theorem C47_names_collide {U : Unicode} (hU : U.Lawful) (a b : Str) :
    registerName U ⟨false, a⟩ = registerName U ⟨false, b⟩ ↔ sameIgnoringCase U a b := by
  simp only [registerName, Bool.false_eq_true, if_false]
  rw [hU.nfc_around, hU.nfc_around, List.append_left_inj, List.append_right_inj]
  rfl

example : sameAscii (ascii "Cache_1") (ascii "CACHE_1") ∧ ¬ sameAscii (ascii "CACHE_1") (ascii "CACHE_2") := by
  rw [← map_lower_eq_iff, ← map_lower_eq_iff]
  decide

/-- C47. A static never has the name of the function generated for it. -/
theorem C47_own_name {U : Unicode} (hU : U.Lawful) (i : Ident) (hr : i.raw = false) : registerName U i ≠ i.name := by
  intro h
  simp only [registerName, hr, Bool.false_eq_true, if_false] at h
  rw [hU.nfc_around] at h
  have h1 := hU.lower_once i.name
  rw [h] at h1
  have := congrArg List.length h
  rw [h1] at this
  have h1 : (ascii "_register_root").length = 14 := rfl
  simp only [List.length_append, h1] at this
  omega

/-- The statics with `#[root]`, in source order. -/
def annotated (m : List (Bool × Item)) : List Static :=
  m.filterMap fun
    | (true, .static s) => some s
    | _ => none

/-- Every static of the module has a well-formed name. -/
def WellFormed (U : Unicode) (m : List (Bool × Item)) : Prop := ∀ x ∈ m, ∀ s, x.2 = .static s → s.ident.WellFormed U

/-- What the expansion of one item is when it succeeds. -/
def expanded (U : Unicode) : Bool × Item → List OutItem
  | (true, .static s) => [.item (.static s), .ctor (registerName U s.ident) s.ident]
  | (_, i) => [.item i]

/-- All items with `#[root]` are statics whose names are not raw. -/
def Annotatable (m : List (Bool × Item)) : Prop := ∀ x ∈ m, x.1 = true → ∃ s, x.2 = .static s ∧ s.ident.raw = false

theorem expand_ok {U : Unicode} (hU : U.Lawful) (m : List (Bool × Item)) (hw : WellFormed U m) :
    (Annotatable m → expand U m = .ok (m.flatMap (expanded U))) ∧ (¬ Annotatable m → ∃ e, expand U m = .error e) := by
  induction m with
  | nil => exact ⟨fun _ => rfl, fun h => absurd (by simp [Annotatable]) h⟩
  | cons x m ih =>
    obtain ⟨ih1, ih2⟩ := ih (fun y hy => hw y (.tail _ hy))
    obtain ⟨a, i⟩ := x
    have hx := hw _ (.head _)
    have hsplit : Annotatable ((a, i) :: m) ↔ (a = true → ∃ s, i = .static s ∧ s.ident.raw = false) ∧ Annotatable m := by
      simp [Annotatable]
    rw [hsplit]
    cases a with
    | false =>
      constructor
      · rintro ⟨_, h⟩
        simp only [expand, ih1 h, List.flatMap_cons]
        cases i <;> rfl
      · intro h
        obtain ⟨e, he⟩ := ih2 (fun h' => h ⟨by simp, h'⟩)
        exact ⟨e, by simp only [expand, he]⟩
    | true =>
      have hg := C47_expansion hU i hx
      constructor
      · rintro ⟨h0, h⟩
        obtain ⟨s, rfl, hr⟩ := h0 rfl
        simp only [hr] at hg
        simp only [expand, hg, ih1 h, List.flatMap_cons]
        rfl
      · intro h
        simp only [expand]
        cases hgi : globalRootImpl U i with
        | error e => exact ⟨e, rfl⟩
        | ok o =>
          have : ∃ s, i = .static s ∧ s.ident.raw = false := by
            rw [hg] at hgi
            cases i with
            | static s =>
              refine ⟨s, rfl, ?_⟩
              cases hr : s.ident.raw with
              | false => rfl
              | true => simp only [hr, if_true] at hgi; cases hgi
            | value n => cases hgi
            | other => cases hgi
          obtain ⟨e, he⟩ := ih2 (fun h' => h ⟨fun _ => this, h'⟩)
          exact ⟨e, by simp only [he]⟩

theorem resolve_of_nodup (o : List OutItem) (hn : (o.filterMap OutItem.name?).Nodup) (s : Static) (h : .item (.static s) ∈ o) :
    resolve o s.ident = some s := by
  induction o with
  | nil => cases h
  | cons x o ih =>
    have htail : (o.filterMap OutItem.name?).Nodup := by
      simp only [List.filterMap_cons] at hn
      split at hn
      · exact hn
      · exact (List.nodup_cons.1 hn).2
    unfold resolve
    rw [List.findSome?_cons]
    rcases List.mem_cons.1 h with rfl | hm
    · simp
    · have := ih htail hm
      unfold resolve at this
      split
      · rename_i b hb
        split at hb
        · rename_i s'
          split at hb
          · rename_i en
            cases hb
            exfalso
            simp only [List.filterMap_cons, OutItem.name?] at hn
            refine (List.nodup_cons.1 hn).1 (List.mem_filterMap.2 ⟨_, hm, ?_⟩)
            simp [OutItem.name?, en]
          · cases hb
        · cases hb
      · exact this

theorem targets_expanded (U : Unicode) (m : List (Bool × Item)) (hn : ((m.flatMap (expanded U)).filterMap OutItem.name?).Nodup) :
    targets (m.flatMap (expanded U)) = annotated m := by
  have hall : ∀ s ∈ annotated m, resolve (m.flatMap (expanded U)) s.ident = some s := by
    intro s hs
    refine resolve_of_nodup _ hn s ?_
    simp only [annotated, List.mem_filterMap] at hs
    obtain ⟨x, hx, he⟩ := hs
    split at he
    · cases he
      rename_i s
      exact List.mem_flatMap.2 ⟨_, hx, by simp [expanded]⟩
    · cases he
  unfold targets
  generalize hr : resolve (m.flatMap (expanded U)) = r at *
  clear hr hn
  induction m with
  | nil => rfl
  | cons x m ih =>
    rw [List.flatMap_cons, List.filterMap_append]
    obtain ⟨a, i⟩ := x
    have key : annotated ((a, i) :: m) = annotated [(a, i)] ++ annotated m := by
      simp only [annotated]; rw [← List.filterMap_append]; rfl
    rw [key] at hall ⊢
    rw [ih (fun s hs => hall s (List.mem_append_right _ hs))]
    congr 1
    cases i with
    | static s =>
      cases a with
      | true =>
        have := hall s (by simp [annotated])
        simp [expanded, annotated, this]
      | false => rfl
    | value n => cases a <;> rfl
    | other => cases a <;> rfl

/-- C47. A module that compiles registers exactly the statics marked `#[root]`, each once. -/
theorem C47_registers_marked {U : Unicode} (hU : U.Lawful) (m : List (Bool × Item)) (hw : WellFormed U m) (ss : List Static) (h : compile U m = .ok ss) :
    ss = annotated m := by
  unfold compile at h
  by_cases ha : Annotatable m
  · rw [(expand_ok hU m hw).1 ha] at h
    simp only at h
    split at h
    · cases h
    · rename_i hn
      split at h
      · cases h
      · cases h
        exact targets_expanded U m (Decidable.not_not.1 hn)
  · obtain ⟨e, he⟩ := (expand_ok hU m hw).2 ha
    rw [he] at h
    cases h

/-- Names of the items of a module in the value namespace, before expansion. -/
def itemNames (m : List (Bool × Item)) : List Str := m.filterMap fun x => OutItem.name? (.item x.2)

theorem names_perm (U : Unicode) (m : List (Bool × Item)) :
    ((m.flatMap (expanded U)).filterMap OutItem.name?).Perm (itemNames m ++ (annotated m).map (fun s => registerName U s.ident)) := by
  induction m with
  | nil => exact .refl _
  | cons x m ih =>
    obtain ⟨a, i⟩ := x
    have e1 : itemNames ((a, i) :: m) = itemNames [(a, i)] ++ itemNames m := by
      simp only [itemNames]; rw [← List.filterMap_append]; rfl
    have e2 : annotated ((a, i) :: m) = annotated [(a, i)] ++ annotated m := by
      simp only [annotated]; rw [← List.filterMap_append]; rfl
    rw [e1, e2, List.flatMap_cons, List.filterMap_append, List.map_append]
    have hplain : (itemNames [(a, i)] ++ (m.flatMap (expanded U)).filterMap OutItem.name?).Perm
        (itemNames [(a, i)] ++ itemNames m ++ ([] ++ (annotated m).map (fun s => registerName U s.ident))) := by
      rw [List.nil_append, List.append_assoc]; exact ih.append_left _
    cases a with
    | false => cases i <;> exact hplain
    | true =>
      cases i with
      | value n => exact hplain
      | other => exact hplain
      | static s =>
        refine List.Perm.trans (List.Perm.append_left [s.ident.name, registerName U s.ident] ih) ?_
        show (s.ident.name :: registerName U s.ident :: (itemNames m ++ _)).Perm (s.ident.name :: (itemNames m ++ (registerName U s.ident :: _)))
        exact (List.perm_middle.symm).cons _

/-- C47. When a module compiles, as far as the macro is concerned: `#[root]` only on immutable statics with ordinary names, no two of
which differ only by case, and no item has the name of a generated function. -/
theorem C47_compiles_iff {U : Unicode} (hU : U.Lawful) (m : List (Bool × Item)) (hw : WellFormed U m) (hn : (itemNames m).Nodup) :
    (∃ ss, compile U m = .ok ss) ↔
      (∀ x ∈ m, x.1 = true → ∃ s, x.2 = .static s ∧ s.ident.raw = false ∧ s.mutable = false) ∧
      (annotated m).Pairwise (fun a b => ¬ sameIgnoringCase U a.ident.name b.ident.name) ∧
      (∀ s ∈ annotated m, registerName U s.ident ∉ itemNames m) := by
  have hmem : ∀ s, s ∈ annotated m ↔ (true, Item.static s) ∈ m := by
    intro s
    simp only [annotated, List.mem_filterMap]
    constructor
    · rintro ⟨⟨a, i⟩, hx, he⟩
      split at he
      · rename_i e; cases he; cases e; exact hx
      · cases he
    · intro h; exact ⟨_, h, rfl⟩
  by_cases ha : Annotatable m
  · have hraw : ∀ s ∈ annotated m, s.ident.raw = false := by
      intro s hs
      obtain ⟨s', e, hr⟩ := ha _ ((hmem s).1 hs) rfl
      cases e; exact hr
    have hnames : ((m.flatMap (expanded U)).filterMap OutItem.name?).Nodup ↔
        (annotated m).Pairwise (fun a b => ¬ sameIgnoringCase U a.ident.name b.ident.name) ∧ (∀ s ∈ annotated m, registerName U s.ident ∉ itemNames m) := by
      rw [(names_perm U m).nodup_iff, List.nodup_append]
      have h1 : ((annotated m).map (fun s => registerName U s.ident)).Nodup ↔
          (annotated m).Pairwise (fun a b => ¬ sameIgnoringCase U a.ident.name b.ident.name) := by
        unfold List.Nodup
        rw [List.pairwise_map]
        have hi : ∀ s ∈ annotated m, s.ident = ⟨false, s.ident.name⟩ := by
          intro s hs
          have := hraw s hs
          obtain ⟨⟨r, n⟩, _, _⟩ := s
          simp only at this
          rw [this]
        constructor
        · intro h
          refine h.imp_of_mem ?_
          intro a b ha hb hab hc
          exact hab (by rw [hi a ha, hi b hb]; exact (C47_names_collide hU _ _).2 hc)
        · intro h
          refine h.imp_of_mem ?_
          intro a b ha hb hab hc
          rw [hi a ha, hi b hb] at hc
          exact hab ((C47_names_collide hU _ _).1 hc)
      rw [h1]
      constructor
      · rintro ⟨_, hp, hd⟩
        exact ⟨hp, fun s hs hin => hd _ hin _ (List.mem_map.2 ⟨s, hs, rfl⟩) rfl⟩
      · rintro ⟨hp, hd⟩
        refine ⟨hn, hp, fun x hx y hy e => ?_⟩
        obtain ⟨s, hs, rfl⟩ := List.mem_map.1 hy
        exact hd s hs (e ▸ hx)
    rw [← hnames]
    unfold compile
    rw [(expand_ok hU m hw).1 ha]
    simp only
    constructor
    · rintro ⟨ss, h⟩
      split at h
      · cases h
      · rename_i hnd
        have hnd := Decidable.not_not.1 hnd
        split at h
        · cases h
        · rename_i hm
          refine ⟨fun x hx hxt => ?_, hnd⟩
          obtain ⟨s, hs, hr⟩ := ha x hx hxt
          refine ⟨s, hs, hr, ?_⟩
          rw [targets_expanded U m hnd] at hm
          simp only [List.any_eq_true, not_exists, not_and, Bool.not_eq_true] at hm
          refine hm s ((hmem s).2 ?_)
          obtain ⟨a, i⟩ := x
          simp only at hs hxt
          subst hs; subst hxt; exact hx
    · rintro ⟨hall, hnd⟩
      refine ⟨targets (m.flatMap (expanded U)), ?_⟩
      rw [if_neg (by simpa using hnd), if_neg]
      rw [targets_expanded U m hnd]
      simp only [List.any_eq_true, not_exists, not_and, Bool.not_eq_true]
      intro s hs
      obtain ⟨s', e, _, hm⟩ := hall _ ((hmem s).1 hs) rfl
      cases e; exact hm
  · constructor
    · rintro ⟨ss, h⟩
      obtain ⟨e, he⟩ := (expand_ok hU m hw).2 ha
      unfold compile at h
      rw [he] at h
      cases h
    · rintro ⟨h, _⟩
      exact absurd (fun x hx hxt => let ⟨s, a, b, _⟩ := h x hx hxt; ⟨s, a, b⟩) ha

/-- A module with two roots and another static. -/
def Ex.module : List (Bool × Item) :=
  [(true, .static ⟨⟨false, ascii "CACHE"⟩, false, 1⟩), (false, .static ⟨⟨false, ascii "cache"⟩, false, 2⟩), (false, .other),
   (true, .static ⟨⟨false, ascii "POOL"⟩, false, 3⟩), (false, .value ⟨false, ascii "main"⟩)]

example : WellFormed Ex.uni Ex.module ∧ (itemNames Ex.module).Nodup ∧ ∃ ss, compile Ex.uni Ex.module = .ok ss ∧ ss.map (·.value) = [1, 3] := by
  refine ⟨?_, by decide, _, rfl, by decide⟩
  intro x hx s hs
  simp only [Ex.module, List.mem_cons, List.not_mem_nil, or_false] at hx
  rcases hx with rfl | rfl | rfl | rfl | rfl <;> cases hs <;> rfl

-- names that differ only by case, a clash with a function, and `static mut`
example : compile Ex.uni [(true, .static ⟨⟨false, ascii "CACHE"⟩, false, 1⟩), (true, .static ⟨⟨false, ascii "Cache"⟩, false, 2⟩)] = .error .duplicate ∧
    compile Ex.uni [(true, .static ⟨⟨false, ascii "CACHE"⟩, false, 1⟩), (false, .value ⟨false, ascii "_cache_register_root"⟩)] = .error .duplicate ∧
    compile Ex.uni [(true, .static ⟨⟨false, ascii "CACHE"⟩, true, 1⟩)] = .error .mutableStatic := ⟨rfl, rfl, rfl⟩

theorem Steps.trans' {body : Registry.Root → List Registry.Instr → Prop} {a b c : Registry.State} {t1 t2 : List Registry.Event}
    (h1 : Registry.Steps body a t1 b) (h2 : Registry.Steps body b t2 c) : Registry.Steps body a (t1 ++ t2) c := by
  induction h2 with
  | refl => simpa using h1
  | snoc _ hs ih => rw [← List.append_assoc]; exact ih.snoc hs


open Registry in
/-- The registry while the `ctor` functions run. -/
structure Starting (order : List Root) (c : State) : Prop where
  others : ∀ t, t ≠ 0 → c.thread t = ⟨.outside, []⟩
  clean : c.poisoned = false
  progress : ∃ todo : List Root, (c.thread 0).todo = todo.map (fun r => .call (.register r)) ∧
    c.roots ++ ((match (c.thread 0).phase with
      | .waiting (.register r) => [r]
      | .holding (.register r) => [r]
      | _ => []) ++ todo) = order
  phase : (c.thread 0).phase = .outside ∨ (∃ r, (c.thread 0).phase = .waiting (.register r)) ∨
    (∃ r, (c.thread 0).phase = .holding (.register r)) ∨ (∃ r, (c.thread 0).phase = .leaving (.register r) [])

open Registry in
theorem Starting.step {body : Root → List Instr → Prop} {order c e c'} (h : Starting order c) (s : Step body c e c') : Starting order c' := by
  obtain ⟨ho, hc, ⟨todo, ht, hr⟩, hp⟩ := h
  have hzero : ∀ (t : Tid) (x : Thread), c.thread t = x → x ≠ ⟨.outside, []⟩ → t = 0 := by
    intro t x hx hne
    refine Decidable.byContradiction fun hn => hne ?_
    rw [← hx, ho t hn]
  cases s with
  | @call t o k hx =>
    obtain rfl := hzero t _ hx (by simp)
    simp only [hx] at ht hr hp
    cases todo with
    | nil => cases ht
    | cons r todo =>
      simp only [List.map_cons, List.cons.injEq, Instr.call.injEq] at ht
      obtain ⟨rfl, rfl⟩ := ht
      exact ⟨fun u hu => by simp only [setAt_eq, if_neg hu]; exact ho u hu, hc, ⟨todo, by simp [setAt_eq], by simpa [setAt_eq] using hr⟩,
        .inr (.inl ⟨r, by simp [setAt_eq]⟩)⟩
  | @acquire t o k hx hown hpo =>
    obtain rfl := hzero t _ hx (by simp)
    simp only [hx] at ht hr hp
    simp only [reduceCtorEq, false_or, or_false, exists_false, Phase.waiting.injEq] at hp
    obtain ⟨r, rfl⟩ := hp
    exact ⟨fun u hu => by simp only [setAt_eq, if_neg hu]; exact ho u hu, hc, ⟨todo, by simpa [setAt_eq] using ht, by simpa [setAt_eq] using hr⟩,
      .inr (.inr (.inl ⟨r, by simp [setAt_eq]⟩))⟩
  | @unwrapPoisoned t o k hx hown hpo => rw [hc] at hpo; cases hpo
  | @push t r k hx =>
    obtain rfl := hzero t _ hx (by simp)
    simp only [hx] at ht hr hp
    exact ⟨fun u hu => by simp only [setAt_eq, if_neg hu]; exact ho u hu, hc, ⟨todo, by simpa [setAt_eq] using ht, by simpa [setAt_eq] using hr⟩,
      .inr (.inr (.inr ⟨r, by simp [setAt_eq]⟩))⟩
  | @clone t k hx =>
    obtain rfl := hzero t _ hx (by simp)
    simp [hx] at hp
  | @release t o l k hx =>
    obtain rfl := hzero t _ hx (by simp)
    simp only [hx] at ht hr hp
    simp only [reduceCtorEq, false_or, or_false, exists_false, Phase.leaving.injEq] at hp
    obtain ⟨r, rfl, rfl⟩ := hp
    exact ⟨fun u hu => by simp only [setAt_eq, if_neg hu]; exact ho u hu, hc, ⟨todo, by simpa [setAt_eq] using ht, by simpa [setAt_eq] using hr⟩,
      .inl (by simp [setAt_eq])⟩
  | @visit t r b k hx hb =>
    obtain rfl := hzero t _ hx (by simp)
    simp only [hx] at ht
    cases todo <;> simp at ht
  | @panic t k hx =>
    obtain rfl := hzero t _ hx (by simp)
    simp only [hx] at ht
    cases todo <;> simp at ht

open Registry in
theorem Starting.initial (order : List Root) : Starting order (Registry.initial (startup order)) :=
  ⟨fun t ht => by simp [Registry.initial, startup, ht], rfl, ⟨order, by simp [Registry.initial, startup], by simp [Registry.initial]⟩,
    .inl rfl⟩

open Registry in
theorem startup_run {body : Root → List Instr → Prop} (todo : List Root) : ∀ (c : State),
    c.thread 0 = ⟨.outside, todo.map (fun r => .call (.register r))⟩ → c.owner = none → c.poisoned = false →
    ∃ tr c', Steps body c tr c' ∧ (c'.thread 0) = ⟨.outside, []⟩ := by
  induction todo with
  | nil => intro c h _ _; exact ⟨[], c, .refl _, h⟩
  | cons r todo ih =>
    intro c h ho hp
    have s1 := (Steps.refl (body := body) c).snoc (.call (t := 0) (o := .register r) (k := todo.map (fun r => .call (.register r))) h)
    have s2 := s1.snoc (.acquire (t := 0) rfl ho hp)
    have s3 := s2.snoc (.push (t := 0) rfl)
    have s4 := s3.snoc (.release (t := 0) rfl)
    have s4 : ∃ tr c', Steps body c tr c' ∧ c'.thread 0 = ⟨.outside, todo.map (fun r => .call (.register r))⟩ ∧ c'.owner = none ∧ c'.poisoned = false :=
      ⟨_, _, s4, rfl, rfl, hp⟩
    obtain ⟨_, c1, s4, h1, h2, h3⟩ := s4
    obtain ⟨tr, c', s, e⟩ := ih c1 h1 h2 h3
    exact ⟨_, c', Steps.trans' s4 s, e⟩

open Registry in
/-- C47. Start-up: in whatever order the linker puts the `ctor` functions, when they are done the registry is the list of the marked
statics in that order, so `visit_global_roots` visits each of them once; and they do get done. -/
theorem C47_startup {U : Unicode} (hU : U.Lawful) {body : Root → List Instr → Prop} (m : List (Bool × Item)) (hw : WellFormed U m) (ss : List Static)
    (h : compile U m = .ok ss) (order : List Root) (hp : order.Perm (ss.map (·.value))) :
    (∀ tr c, Steps body (initial (startup order)) tr c → (c.thread 0) = ⟨.outside, []⟩ →
      c.roots = order ∧ c.roots.Perm ((annotated m).map (·.value))) ∧
    (∃ tr c, Steps body (initial (startup order)) tr c ∧ (c.thread 0) = ⟨.outside, []⟩) := by
  refine ⟨fun tr c hs hd => ?_, startup_run order _ (by simp [initial, startup]) rfl rfl⟩
  have hst : Starting order c := by
    clear hd
    generalize hi : initial (startup order) = c0 at hs
    induction hs with
    | refl => subst hi; exact .initial order
    | snoc _ hs ih => exact ih.step hs
  obtain ⟨todo, h1, h2⟩ := hst.progress
  rw [hd] at h1 h2
  have : todo = [] := by cases todo <;> simp at h1 ⊢
  subst this
  have e : c.roots = order := by simpa using h2
  exact ⟨e, by rw [e, ← C47_registers_marked hU m hw ss h]; exact hp⟩

example : [3, 1].Perm (([⟨⟨false, ascii "CACHE"⟩, false, 1⟩, ⟨⟨false, ascii "POOL"⟩, false, 3⟩] : List Static).map (·.value)) := by decide

/-! The theorems of this file with a concrete case of their hypotheses. -/

theorem Ex.module_ok : WellFormed Ex.uni Ex.module := by
  intro x hx s hs
  simp only [Ex.module, List.mem_cons, List.not_mem_nil, or_false] at hx
  rcases hx with rfl | rfl | rfl | rfl | rfl <;> cases hs <;> rfl

example := C47_ascii Ex.lawful
example := C47_expansion Ex.lawful (.static ⟨⟨false, [206, 169, 77]⟩, false, 7⟩) (fun s h => by cases h; rfl)
example := C47_names_collide Ex.lawful (ascii "Cache_1") (ascii "CACHE_1")
example := C47_own_name Ex.lawful ⟨false, ascii "_foo_register_root"⟩ rfl
example := C47_registers_marked Ex.lawful Ex.module Ex.module_ok _ rfl
example := C47_compiles_iff Ex.lawful Ex.module Ex.module_ok (by decide)
/-- The two roots, in the other order. -/
example {body : Registry.Root → List Registry.Instr → Prop} := C47_startup Ex.lawful (body := body) Ex.module Ex.module_ok _ rfl [3, 1] (by decide)

end Allocative.RootMacro
