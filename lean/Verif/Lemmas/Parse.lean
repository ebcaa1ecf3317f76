import Verif.Spec.Parse
import Verif.Lemmas.Run
/-
Round trip of the text format.
-/
namespace Allocative
namespace Parse

theorem splitOn_ne_nil (sep : UInt8) (s : Str) : splitOn sep s ≠ [] := by
  cases s with
  | nil => simp [splitOn]
  | cons b rest =>
    simp only [splitOn]
    split
    · simp
    · split <;> simp

theorem splitOn_append_sep {sep : UInt8} : ∀ {a : Str} (b : Str), sep ∉ a → splitOn sep (a ++ sep :: b) = a :: splitOn sep b
  | [], b, _ => by simp [splitOn]
  | x :: a, b, h => by
    simp only [List.mem_cons, not_or] at h
    simp only [List.cons_append, splitOn, if_neg (Ne.symm h.1), splitOn_append_sep b h.2]

theorem splitOn_self {sep : UInt8} : ∀ {a : Str}, sep ∉ a → splitOn sep a = [a]
  | [], _ => rfl
  | x :: a, h => by
    simp only [List.mem_cons, not_or] at h
    simp only [splitOn, if_neg (Ne.symm h.1), splitOn_self h.2]

theorem splitOn_joinSemi : ∀ {l : List Str}, l ≠ [] → (∀ s ∈ l, (59 : UInt8) ∉ s) → splitOn 59 (joinSemi l) = l
  | [a], _, h => by simpa [joinSemi] using splitOn_self (h a (by simp))
  | a :: b :: rest, _, h => by
    rw [joinSemi, splitOn_append_sep _ (h a (by simp)), splitOn_joinSemi (by simp) (fun s hs => h s (by simp [hs]))]

theorem splitLast_none : ∀ {s : Str}, (32 : UInt8) ∉ s → splitLast s = none
  | [], _ => rfl
  | b :: rest, h => by
    simp only [List.mem_cons, not_or] at h
    simp only [splitLast, splitLast_none h.2, if_neg (Ne.symm h.1)]

theorem splitLast_append : ∀ (a : Str) {b : Str}, (32 : UInt8) ∉ b → splitLast (a ++ 32 :: b) = some (a, b)
  | [], b, h => by simp [splitLast, splitLast_none h]
  | x :: a, b, h => by simp only [List.cons_append, splitLast, splitLast_append a h]

def isDigit (b : UInt8) : Prop := 48 ≤ b.toNat ∧ b.toNat ≤ 57

theorem decimalLoop_spec : ∀ (fuel n : Nat) (acc : Str), n < fuel →
    ∃ ds, decimalLoop fuel n acc = ds ++ acc ∧ (∀ b ∈ ds, isDigit b) ∧ number ds = n
  | 0, n, acc, h => absurd h (by omega)
  | fuel + 1, n, acc, h => by
    have hd : ∀ m, m < 10 → (UInt8.ofNat (48 + m)).toNat = 48 + m := by
      intro m hm
      rw [UInt8.toNat_ofNat']; omega
    by_cases hn : n < 10
    · refine ⟨[UInt8.ofNat (48 + n)], by simp [decimalLoop, hn], ?_, ?_⟩
      · intro b hb
        simp only [List.mem_singleton] at hb; subst hb
        simp only [isDigit, hd n hn]; omega
      · simp only [number, List.foldl_cons, List.foldl_nil, hd n hn]; omega
    · obtain ⟨ds, e, h1, h2⟩ := decimalLoop_spec fuel (n / 10) (UInt8.ofNat (48 + n % 10) :: acc) (by omega)
      refine ⟨ds ++ [UInt8.ofNat (48 + n % 10)], by rw [decimalLoop, if_neg hn, e, List.append_assoc]; rfl, ?_, ?_⟩
      · intro b hb
        rcases List.mem_append.1 hb with hb | hb
        · exact h1 b hb
        · simp only [List.mem_singleton] at hb; subst hb
          simp only [isDigit, hd (n % 10) (by omega)]; omega
      · simp only [number, List.foldl_append, List.foldl_cons, List.foldl_nil, hd (n % 10) (by omega)] at h2 ⊢
        rw [h2]; omega

theorem number_decimal (n : Nat) : number (decimal n) = n := by
  obtain ⟨ds, e, _, h⟩ := decimalLoop_spec (n + 1) n [] (by omega)
  simp only [List.append_nil] at e
  rw [decimal, e, h]

theorem decimal_digits (n : Nat) : ∀ b ∈ decimal n, isDigit b := by
  obtain ⟨ds, e, h, _⟩ := decimalLoop_spec (n + 1) n [] (by omega)
  simp only [List.append_nil] at e
  rw [decimal, e]; exact h

theorem not_mem_decimal {b : UInt8} (n : Nat) (h : ¬ isDigit b) : b ∉ decimal n := fun hm => h (decimal_digits n b hm)

theorem mem_joinSemi {b : UInt8} : ∀ {l : List Str}, b ∈ joinSemi l → b = 59 ∨ ∃ s ∈ l, b ∈ s
  | [], h => by simp [joinSemi] at h
  | [a], h => .inr ⟨a, by simp, by simpa [joinSemi] using h⟩
  | a :: c :: rest, h => by
    simp only [joinSemi, List.mem_append, List.mem_cons] at h
    rcases h with h | h | h
    · exact .inr ⟨a, by simp, h⟩
    · exact .inl h
    · rcases mem_joinSemi h with h | ⟨s, hs, h⟩
      · exact .inl h
      · exact .inr ⟨s, List.mem_cons_of_mem _ hs, h⟩

/-- A name that can be printed unambiguously. -/
def _root_.Allocative.Key.Plain (k : Key) : Prop := (59 : UInt8) ∉ k.s ∧ (10 : UInt8) ∉ k.s

theorem line_render {p : Path} {n : Nat} (hp : p ≠ []) (h : ∀ k ∈ p, k.Plain) :
    line (joinSemi p.names ++ [32] ++ decimal n) = some (p.names, n) := by
  have h1 : ∀ s ∈ p.names, (59 : UInt8) ∉ s := by
    intro s hs
    obtain ⟨k, hk, rfl⟩ := List.mem_map.1 hs
    exact (h k hk).1
  rw [line, List.append_assoc, List.singleton_append, splitLast_append _ (not_mem_decimal n (by simp [isDigit]))]
  simp only [number_decimal]
  rw [splitOn_joinSemi (by simpa [Path.names] using hp) h1]

theorem text_render : ∀ (l : List (Path × Nat)), (∀ e ∈ l, e.1 ≠ [] ∧ ∀ k ∈ e.1, k.Plain) →
    text (l.flatMap renderLine) = l.map (fun e => some (e.1.names, e.2))
  | [], _ => by simp [text, splitOn]
  | e :: rest, h => by
    obtain ⟨hp, hk⟩ := h e (by simp)
    have ih := text_render rest (fun e he => h e (by simp [he]))
    have hnl : (10 : UInt8) ∉ joinSemi e.1.names ++ [32] ++ decimal e.2 := by
      simp only [List.mem_append, not_or]
      refine ⟨⟨?_, by simp⟩, not_mem_decimal _ (by simp [isDigit])⟩
      intro hm
      rcases mem_joinSemi hm with h | ⟨s, hs, hb⟩
      · exact absurd h (by decide)
      · obtain ⟨k, hk', rfl⟩ := List.mem_map.1 hs
        exact (hk k hk').2 hb
    have e1 : (e :: rest).flatMap renderLine = (joinSemi e.1.names ++ [32] ++ decimal e.2) ++ 10 :: rest.flatMap renderLine := by
      simp [List.flatMap_cons, renderLine, List.append_assoc]
    rw [text, e1, splitOn_append_sep _ hnl, List.dropLast_cons_of_ne_nil (splitOn_ne_nil _ _), List.map_cons, List.map_cons,
      line_render hp hk]
    rw [text] at ih
    rw [ih]

end Parse

/-- Keys on existing stacks satisfy `Q`. -/
theorem FlameGraph.Ok.keys_of_selfAt {Q} : ∀ (p : Path) {fg : FlameGraph}, fg.Ok Q → (fg.selfAt p).isSome → ∀ k ∈ p, Q k
  | [], _, _, _, k, hk => by simp at hk
  | k0 :: p, fg, h, hs, k, hk => by
    rw [FlameGraph.selfAt_cons] at hs
    cases hg : HMap.get? k0 fg.children with
    | none => simp [hg] at hs
    | some c =>
      have hm := HMap.get?_mem hg
      rcases List.mem_cons.1 hk with rfl | hk
      · exact h.keys _ hm
      · exact FlameGraph.Ok.keys_of_selfAt p (h.sub _ hm) (by simpa [hg] using hs) k hk

theorem names_inj : ∀ {p q : Path}, (∀ k ∈ p, k.Proper) → (∀ k ∈ q, k.Proper) → p.names = q.names → p = q
  | [], [], _, _, _ => rfl
  | [], _ :: _, _, _, h => by simp [Path.names] at h
  | _ :: _, [], _, _, h => by simp [Path.names] at h
  | a :: p, b :: q, h1, h2, h => by
    simp only [Path.names, List.map_cons, List.cons.injEq] at h
    rw [FlameGraph.proper_inj (h1 a (by simp)) (h2 b (by simp)) h.1,
      names_inj (fun k hk => h1 k (by simp [hk])) (fun k hk => h2 k (by simp [hk])) h.2]

end Allocative
