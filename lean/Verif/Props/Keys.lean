import Verif.Spec.Key
import Verif.Props.Core
/-
C26-C28: keys.
-/
set_option linter.unusedSimpArgs false
namespace Allocative

theorem deriveHashLoop_eq (s : Str) (i : Nat) (h : UInt64) : deriveHashLoop s i h = keyHashLoop (s.drop i) h := by
  fun_induction deriveHashLoop s i h with
  | case1 i h hlt b ih =>
    rw [ih, List.drop_eq_getElem_cons hlt, keyHashLoop, keyHashLoop, List.foldl_cons]
    rfl
  | case2 i h hlt =>
    rw [List.drop_eq_nil_of_le (by omega), keyHashLoop, List.foldl_nil]

/-- The derive crate and the library compute the same hash. -/
theorem deriveHash_eq (s : Str) : deriveHash s = keyHash s := by
  rw [deriveHash, deriveHashLoop_eq, keyHash, List.drop_zero]

theorem Key.Made.proper {k : Key} (h : k.Made) : k.Proper := by
  cases h with
  | new s => rfl
  | identKey s => rfl
  | forTypeName s => rfl
  | derived s => simp only [Key.Proper, Key.derived, Key.new, Key.newUnchecked, deriveHash_eq]

/-- C26. Keys made in any of the supported ways are equal iff their strings are, and equal keys feed the same to the hasher. -/
theorem C26_eq_iff_same_string (a b : Key) (ha : a.Made) (hb : b.Made) :
    (a = b ↔ a.deref = b.deref) ∧ (a = b → a.hashInput = b.hashInput) := by
  refine ⟨⟨fun h => by rw [h], fun h => ?_⟩, fun h => by rw [h]⟩
  have h1 := ha.proper
  have h2 := hb.proper
  simp only [Key.deref] at h
  rw [Key.Proper] at h1 h2
  rw [h1, h2, h]

/-- C26. The key written by the derive macro for a field, `Key::new`, `ident_key!` and the type name key of the same text are all the
same key. -/
theorem C26_derived_is_new (s : Str) : Key.derived s = Key.new s ∧ Key.identKey s = Key.new s ∧ Key.forTypeName s = Key.new s :=
  ⟨(Key.Made.derived s).proper, rfl, rfl⟩

/-- C26. `Hash` and `Eq` of keys fit together (for all keys, even with wrong hashes): in a table with any hasher, an inserted key is
found again and no other key is affected, so the table is a map keyed by key equality. -/
theorem C26_hash_eq_contract {α : Type} (m : BucketMap α) (k k' : Key) (v : α) :
    (m.insert k v).get? k' = if k' = k then some v else m.get? k' := by
  unfold BucketMap.get? BucketMap.insert
  by_cases hk : k' = k
  · subst hk; simp
  · simp only [if_neg hk]
    congr 1
    split
    · rename_i hb
      rw [List.find?_cons_of_neg (by simpa using fun h => hk h.symm)]
      generalize m.entries (m.bucket k'.hashInput) = l
      induction l with
      | nil => rfl
      | cons e l ih =>
        by_cases h1 : e.1 = k
        · rw [List.filter_cons_of_neg (by simp [h1]), ih, List.find?_cons_of_neg]
          simp only [h1, decide_eq_true_eq]; exact fun h => hk h.symm
        · rw [List.filter_cons_of_pos (by simp [h1])]
          by_cases h2 : e.1 = k'
          · rw [List.find?_cons_of_pos (by simp [h2]), List.find?_cons_of_pos (by simp [h2])]
          · rw [List.find?_cons_of_neg (by simp [h2]), List.find?_cons_of_neg (by simp [h2]), ih]
    · rfl

example : (Key.derived (ascii "field")).Made ∧ (Key.new (ascii "field")).Made ∧ Key.derived (ascii "field") ≠ Key.new (ascii "fielc") :=
  ⟨.derived _, .new _, by rw [(C26_derived_is_new _).1]; decide⟩

/-- C27. The order of keys is a total preorder (reflexive, transitive, total, `partial_cmp`/swapped comparison consistent) that
only looks at the string; keys made in a supported way compare equal iff they are equal. -/
theorem C27_total_order :
    (∀ a : Key, a.cmp a = .eq) ∧
    (∀ a b : Key, b.cmp a = (a.cmp b).swap) ∧
    (∀ a b c : Key, a.cmp b ≠ .gt → b.cmp c ≠ .gt → a.cmp c ≠ .gt) ∧
    (∀ (a b : Key) (h h' : UInt64), (Key.newUnchecked h a.s).cmp (Key.newUnchecked h' b.s) = a.cmp b) ∧
    (∀ a b : Key, a.Made → b.Made → (a.cmp b = .eq ↔ a = b)) := by
  refine ⟨fun a => Str.cmp_refl _, fun a b => Str.cmp_swap _ _, fun a b c h1 h2 => ?_, fun _ _ _ _ => rfl, fun a b ha hb => ?_⟩
  · have := @Key.le_trans a b c (by simpa [Key.le] using h1) (by simpa [Key.le] using h2)
    simpa [Key.le] using this
  · rw [(C26_eq_iff_same_string a b ha hb).1]
    exact Str.cmp_eq_iff _ _

/-- C27. The comparison is bytewise lexicographic: the first differing byte decides, a proper prefix is smaller. -/
theorem C27_lexicographic (a b : Key) : a.cmp b = .lt ↔
    (∃ c t, b.s = a.s ++ c :: t) ∨ (∃ p x y t t', a.s = p ++ x :: t ∧ b.s = p ++ y :: t' ∧ x < y) := by
  unfold Key.cmp
  generalize a.s = u
  generalize b.s = v
  induction u generalizing v with
  | nil =>
    cases v with
    | nil => simp [Str.cmp]
    | cons y v => simp [Str.cmp]
  | cons x u ih =>
    cases v with
    | nil => simp [Str.cmp]
    | cons y v =>
      rw [Str.cmp]
      split
      · rename_i hlt
        simp only [true_iff]
        exact .inr ⟨[], x, y, u, v, rfl, rfl, hlt⟩
      · rename_i hnlt
        have hne : ∀ {p : Str} {x' y' t t'}, x :: u = p ++ x' :: t → y :: v = p ++ y' :: t' → x' < y' → x = y ∧ ∃ p', p = x :: p' := by
          intro p x' y' t t' h1 h2 h3
          cases p with
          | nil => simp only [List.nil_append, List.cons.injEq] at h1 h2; rw [h1.1, h2.1] at hnlt; exact absurd h3 hnlt
          | cons z p => simp only [List.cons_append, List.cons.injEq] at h1 h2; exact ⟨by rw [h1.1, h2.1], p, by rw [h1.1]⟩
        split
        · rename_i hgt
          simp only [reduceCtorEq, false_iff, not_or]
          constructor
          · rintro ⟨c, t, h⟩
            simp only [List.cons_append, List.cons.injEq] at h
            rw [h.1] at hgt; exact absurd hgt (UInt8.lt_irrefl _)
          · rintro ⟨p, x', y', t, t', h1, h2, h3⟩
            obtain ⟨h4, _⟩ := hne h1 h2 h3
            rw [h4] at hgt; exact absurd hgt (UInt8.lt_irrefl _)
        · rename_i hngt
          have hxy : x = y := by
            rcases UInt8.lt_or_lt_of_ne (a := x) (b := y) |> fun f => Classical.em (x = y) with h | h
            · exact h
            · rcases UInt8.lt_or_lt_of_ne h with h | h
              · exact absurd h hnlt
              · exact absurd h hngt
          subst hxy
          rw [ih]
          constructor
          · rintro (⟨c, t, h⟩ | ⟨p, x', y', t, t', h1, h2, h3⟩)
            · exact .inl ⟨c, t, by rw [h]; rfl⟩
            · exact .inr ⟨x :: p, x', y', t, t', by rw [h1]; rfl, by rw [h2]; rfl, h3⟩
          · rintro (⟨c, t, h⟩ | ⟨p, x', y', t, t', h1, h2, h3⟩)
            · simp only [List.cons_append, List.cons.injEq, true_and] at h
              exact .inl ⟨c, t, h⟩
            · obtain ⟨_, p', rfl⟩ := hne h1 h2 h3
              simp only [List.cons_append, List.cons.injEq, true_and] at h1 h2
              exact .inr ⟨p', x', y', t, t', h1, h2, h3⟩

/-! C28 -/

/-- C28. Whatever the keys (also with wrong hashes) and the iteration order, the text is one line for each stack *of keys* with
non-zero self size, in some order, and the sizes still add up. -/
theorem C28_any_keys (fg : FlameGraph) (hb : fg.Built (fun _ => True)) (ord : HashOrder (List Str)) :
    ∃ lines : List (Path × Nat), fg.write ord = lines.flatMap renderLine ∧ (lines.map Prod.fst).Nodup ∧
      (∀ p n, (p, n) ∈ lines ↔ p ≠ [] ∧ n ≠ 0 ∧ fg.selfAt p = some n) ∧
      (lines.map Prod.snd).sum = fg.totalSize - fg.nodeSize := by
  obtain ⟨lines, hp, e⟩ := FlameGraph.writeImpl_perm ord fg []
  have hm := FlameGraph.mem_entries fg hb.ok []
  refine ⟨lines, e, ?_, ?_, ?_⟩
  · rw [(hp.map _).nodup_iff]
    have hnd : ∀ (fg : FlameGraph), FlameGraph.Ok (fun _ => True) fg → ∀ stack : Path, ((FlameGraph.entries fg stack).map Prod.fst).Nodup := by
      intro fg
      induction fg using FlameGraph.induct with
      | h ch cs n ih =>
        intro hok stack
        rw [FlameGraph.entries_mk, List.map_append, List.nodup_append]
        have hpre : ∀ x ∈ ch, ∀ e ∈ FlameGraph.entries x.2 (stack ++ [x.1]), ∃ q, e.1 = stack ++ x.1 :: q := by
          intro x hx e he
          obtain ⟨q, hq⟩ := FlameGraph.entries_prefix x.2 (hok.sub x hx) _ he
          exact ⟨q, by simp [hq]⟩
        refine ⟨?_, ?_, ?_⟩
        · by_cases hn : n = 0 <;> by_cases hs : stack = [] <;> simp [hn, hs]
        · rw [(((sortByKey_perm ch).flatMap_right _).map _).nodup_iff]
          have hn := hok.nodup
          simp only [FlameGraph.mk_children] at hn
          have hsub : ∀ kc ∈ ch, ((FlameGraph.entries kc.2 (stack ++ [kc.1])).map Prod.fst).Nodup := fun kc hm => ih kc hm (hok.sub kc hm) _
          clear ih hok
          induction ch with
          | nil => simp
          | cons kc rest ihl =>
            simp only [List.map_cons, List.nodup_cons] at hn
            rw [List.flatMap_cons, List.map_append, List.nodup_append]
            refine ⟨hsub kc (by simp), ihl (fun x hx => hpre x (by simp [hx])) hn.2 (fun x hx => hsub x (by simp [hx])), ?_⟩
            rintro a ha b hb rfl
            obtain ⟨e1, he1, h1⟩ := List.mem_map.1 ha
            obtain ⟨e2, he2, h2⟩ := List.mem_map.1 hb
            obtain ⟨y, hy, he2⟩ := List.mem_flatMap.1 he2
            obtain ⟨q1, hq1⟩ := hpre kc (by simp) e1 he1
            obtain ⟨q2, hq2⟩ := hpre y (by simp [hy]) e2 he2
            rw [← h1, hq1, hq2] at h2
            have := List.append_cancel_left h2
            simp only [List.cons.injEq] at this
            exact hn.1 (List.mem_map.2 ⟨y, hy, this.1⟩)
        · rintro a ha b hb rfl
          obtain ⟨e2, he2, h2⟩ := List.mem_map.1 hb
          obtain ⟨y, hy, he2⟩ := List.mem_flatMap.1 he2
          obtain ⟨q2, hq2⟩ := hpre y ((sortByKey_perm ch).mem_iff.1 hy) e2 he2
          have : a = stack := by
            by_cases hn : n = 0 <;> by_cases hs : stack = [] <;> simp [hn, hs] at ha
            exact ha
          rw [this, hq2] at h2
          have := congrArg List.length h2
          simp at this
    exact hnd fg hb.ok []
  · intro p n
    rw [hp.mem_iff, hm]
    constructor
    · rintro ⟨q, e, h⟩; simp only [List.nil_append] at e; subst e; exact h
    · intro h; exact ⟨p, rfl, h⟩
  · rw [(hp.map _).sum_nat, FlameGraph.entries_sum, if_pos rfl, hb.ok.totalSize_eq]

/-- Two keys with the same string and different hashes. -/
def Ex.splitHist : List (Prog × Fate) :=
  [(.enter (Key.newUnchecked 1 (ascii "a")) 3 .exit .done (.enter (Key.newUnchecked 2 (ascii "a")) 4 .exit .done .done), .exit)]

/-- C28. A wrong hash splits a stack: a single visit that enters the name `a` twice prints the stack `a` on two lines, and the order of
the lines depends on the iteration order of the hash map. -/
theorem C28_wrong_hash_splits :
    NoLeaks Ex.splitHist ∧
    (∃ o, observe (.id _) (.id _) Ex.splitHist = .ok o ∧ o.text = ascii "a 3\na 4\n" ∧ o.total = 7) ∧
    (∃ o, observe (.id _) (.rev _) Ex.splitHist = .ok o ∧ o.text = ascii "a 4\na 3\n" ∧ o.total = 7) := by
  refine ⟨by decide, ⟨_, rfl, by decide, rfl⟩, ⟨_, rfl, by decide, rfl⟩⟩

/-! The theorems of this file with a concrete case of their hypotheses: equal keys made in two ways, and a flame graph with a key whose hash is wrong. -/

example := C26_eq_iff_same_string (Key.derived (ascii "field")) (Key.new (ascii "field")) (.derived _) (.new _)
example := C28_any_keys ((FlameGraph.default.addChild (Key.newUnchecked 1 (ascii "a")) (FlameGraph.default.addSelf 5)).addChild (Key.newUnchecked 2 (ascii "a")) (FlameGraph.default.addSelf 6))
  (.addChild _ trivial (.addChild _ trivial .default (.addSelf _ .default)) (.addSelf _ .default))

end Allocative
