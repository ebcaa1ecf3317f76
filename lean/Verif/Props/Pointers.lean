import Verif.Spec.Pointers
import Verif.Props.Layouts
import Verif.Model.Datum
set_option linter.unusedSimpArgs false
/-
C53: different shared allocations are told apart by their keys.
-/
namespace Allocative

/-- Where the key is: strictly after the beginning and at most at the end for std and futures (at the end only if the value is empty),
at the beginning for triomphe. -/
theorem key_place [Target] {a : SharedAlloc} {lo hi : Nat} (h : a.Occupies lo hi) :
    lo < hi ∧ ∃ k : Nat, a.key = some k ∧
      (a.IsTriomphe ∧ k = lo ∨ ¬ a.IsTriomphe ∧ lo < k ∧ k ≤ hi ∧ (k = hi ↔ a.EndsEmpty)) := by
  have hpb := ptrBytes_pos
  cases h with
  | triomphe h =>
    exact ⟨by omega, lo, rfl, .inl ⟨trivial, rfl⟩⟩
  | future h1 h2 =>
    rename_i size offset len
    refine ⟨by omega, lo + offset, rfl, .inr ⟨id, by omega, by omega, ?_⟩⟩
    simp only [SharedAlloc.EndsEmpty]
    omega
  | std hv hr hs =>
    rename_i val l o
    obtain ⟨e, hp, ha, hl⟩ := hr
    cases hp with | cons h1 hp =>
    cases hp with | cons h2 hp =>
    cases hp with | cons h3 hp =>
    cases hp
    have hpos := hv.align_pos
    have h12 : ptrBytes + ptrBytes = 2 * ptrBytes := by omega
    simp only [usizeLayout] at h1 h2 h3
    have ho := h3.unique (roundUp_least hpos _)
    have h16 := h3.2.1
    have hle := hl.2.1
    have hal : l.align = max ptrBytes val.align := by
      simp only [maxAlign, usizeLayout] at ha
      omega
    have hpow : ∃ k, k ≤ 29 ∧ l.align = 2 ^ k := by
      obtain ⟨⟨k, hk, hk'⟩, _⟩ := hv
      rcases Nat.le_total ptrBytes val.align with h | h
      · exact ⟨k, hk, by omega⟩
      · obtain ⟨j, hj, hj'⟩ := ptrBytes_pow
        exact ⟨j, hj, by omega⟩
    have hext : Impl.rcBoxHeader.extend val = some (⟨o + val.size, l.align⟩, o) := by
      simp only [Layout.extend, Impl.rcBoxHeader, ← h12, ← ho, ← hal, Layout.fromSizeAlign,
        if_pos ((fits_iff hpow hl).2 hs), Option.map_some]
    refine ⟨by omega, lo + o, by simp [SharedAlloc.key, hext], .inr ⟨id, by omega, by omega, ?_⟩⟩
    simp only [SharedAlloc.EndsEmpty]
    constructor
    · intro h; omega
    · intro h
      -- `o` is a multiple of both alignments
      have hd : l.align ∣ o := by
        rw [hal]
        rcases Nat.le_total ptrBytes val.align with h' | h'
        · rw [Nat.max_eq_right h']; exact h3.1
        · rw [Nat.max_eq_left h']
          have hd16 : val.align ∣ ptrBytes + ptrBytes := h12 ▸ Nat.dvd_trans (pow_dvd_of_le hv.1 ptrBytes_pow h') ⟨2, Nat.mul_comm _ _⟩
          have : o = ptrBytes + ptrBytes := Nat.le_antisymm (h3.2.2 _ hd16 (Nat.le_refl _)) h16
          rw [this]; exact ⟨2, by omega⟩
      have := hl.2.2 o hd (by omega)
      omega

/-- C53. Two allocations that do not overlap have the same key exactly if one of them ends with a value of size zero where the other, one of triomphe's, begins. -/
theorem C53_same_key_iff [Target] (a b : SharedAlloc) (lo hi lo' hi' : Nat) (ha : a.Occupies lo hi) (hb : b.Occupies lo' hi') (hd : a.Disjoint b) :
    a.key = b.key ↔ a.Abuts b ∨ b.Abuts a := by
  obtain ⟨h1, k, hk, p⟩ := key_place ha
  obtain ⟨h1', k', hk', p'⟩ := key_place hb
  have hdis := hd _ _ _ _ ha hb
  have unique : ∀ {a : SharedAlloc} {l1 h1 l2 h2 : Nat}, a.Occupies l1 h1 → a.Occupies l2 h2 → l1 = l2 ∧ h1 = h2 := by
    intro a l1 h1 l2 h2 x y
    cases x with
    | triomphe => cases y; exact ⟨rfl, rfl⟩
    | future => cases y; exact ⟨rfl, rfl⟩
    | std v r s =>
      cases y with
      | std v' r' s' =>
        cases (r.unique r').2
        exact ⟨rfl, rfl⟩
  have hkk : a.key = b.key ↔ k = k' := by rw [hk, hk', Option.some.injEq]
  rw [hkk]
  constructor
  · intro e
    subst e
    rcases p with ⟨t, q⟩ | ⟨t, q1, q2, q3⟩ <;> rcases p' with ⟨t', q'⟩ | ⟨t', q1', q2', q3'⟩
    · omega
    · refine .inr ⟨q3'.1 (by omega), t, lo', hi', hi, hb, ?_⟩
      have : lo = hi' := by omega
      exact this ▸ ha
    · refine .inl ⟨q3.1 (by omega), t', lo, hi, hi', ha, ?_⟩
      have : lo' = hi := by omega
      exact this ▸ hb
    · omega
  · rintro (⟨he, ht, x, m, y, hx, hy⟩ | ⟨he, ht, x, m, y, hx, hy⟩)
    · obtain ⟨rfl, rfl⟩ := unique ha hx
      obtain ⟨rfl, rfl⟩ := unique hb hy
      rcases p with ⟨t, q⟩ | ⟨t, q1, q2, q3⟩
      · cases a <;> simp [SharedAlloc.EndsEmpty, SharedAlloc.IsTriomphe] at he t
      · rcases p' with ⟨t', q'⟩ | ⟨t', _⟩
        · rw [q3.2 he, q']
        · exact absurd ht t'
    · obtain ⟨rfl, rfl⟩ := unique hb hx
      obtain ⟨rfl, rfl⟩ := unique ha hy
      rcases p' with ⟨t, q⟩ | ⟨t, q1, q2, q3⟩
      · cases b <;> simp [SharedAlloc.EndsEmpty, SharedAlloc.IsTriomphe] at he t
      · rcases p with ⟨t', q'⟩ | ⟨t', _⟩
        · rw [q3.2 he, q']
        · exact absurd ht t'

/-- C53. So allocations of std alone, or of triomphe alone, or with values that are not empty, are always told apart. -/
theorem C53_distinct_keys [Target] (a b : SharedAlloc) (lo hi lo' hi' : Nat) (ha : a.Occupies lo hi) (hb : b.Occupies lo' hi') (hd : a.Disjoint b)
    (h : (¬ a.IsTriomphe ∧ ¬ b.IsTriomphe) ∨ (a.IsTriomphe ∧ b.IsTriomphe) ∨ (¬ a.EndsEmpty ∧ ¬ b.EndsEmpty)) : a.key ≠ b.key := by
  intro e
  rcases (C53_same_key_iff a b lo hi lo' hi' ha hb hd).1 e with ⟨h1, h2, _⟩ | ⟨h1, h2, _⟩ <;> rcases h with ⟨h3, h4⟩ | ⟨h3, h4⟩ | ⟨h3, h4⟩
  · exact h4 h2
  · cases a <;> simp [SharedAlloc.EndsEmpty, SharedAlloc.IsTriomphe] at h1 h3
  · exact h3 h1
  · exact h3 h2
  · cases b <;> simp [SharedAlloc.EndsEmpty, SharedAlloc.IsTriomphe] at h1 h4
  · exact h4 h1

/-- C53. Hence, without that exception, the keys of the allocations of a program identify their contents, as C08 and C52 suppose. -/
theorem C53_contents_by_key [Target] (allocs : List (SharedAlloc × Cell)) (hocc : ∀ x ∈ allocs, ∃ lo hi, x.1.Occupies lo hi)
    (hd : allocs.Pairwise fun x y => x.1.Disjoint y.1 ∧ ¬ x.1.Abuts y.1 ∧ ¬ y.1.Abuts x.1) :
    ∃ cells : Ptr → Cell, ∀ x ∈ allocs, ∃ k, x.1.key = some k ∧ cells k = x.2 := by
  induction allocs with
  | nil => exact ⟨fun _ => .future (.jsonLeaf ⟨[], 0, false⟩), by simp⟩
  | cons x l ih =>
    obtain ⟨h1, h2⟩ := List.pairwise_cons.1 hd
    obtain ⟨cells, hc⟩ := ih (fun y hy => hocc y (by simp [hy])) h2
    obtain ⟨lo, hi, ho⟩ := hocc x (by simp)
    obtain ⟨_, k, hk, _⟩ := key_place ho
    refine ⟨fun p => if p = k then x.2 else cells p, fun y hy => ?_⟩
    rcases List.mem_cons.1 hy with rfl | hy
    · exact ⟨k, hk, by simp⟩
    · obtain ⟨k', hk', e⟩ := hc y hy
      refine ⟨k', hk', ?_⟩
      obtain ⟨lo', hi', ho'⟩ := hocc y (by simp [hy])
      obtain ⟨d1, d2, d3⟩ := h1 y hy
      have : k' ≠ k := by
        intro he
        rcases (C53_same_key_iff x.1 y.1 lo hi lo' hi' ho ho' d1).1 (by rw [hk, hk', he]) with h | h
        · exact d2 h
        · exact d3 h
      simp only [this, if_false, e]

/-- C53, the exception: an `Arc<()>` directly followed by a `triomphe::Arc<[u8; 8]>`. -/
theorem C53_exception [Target] : ∃ a b : SharedAlloc, ∃ lo hi lo' hi', a.Occupies lo hi ∧ b.Occupies lo' hi' ∧ a.Disjoint b ∧ a.key = b.key ∧ a.key ≠ none := by
  have h0 : (⟨0, 1⟩ : Layout).Valid := ⟨⟨0, by omega, rfl⟩, by rcases Usize.cases with ⟨h, -, h'⟩ | ⟨h, -, h'⟩ <;> simp [Layout.isizeMax, h']⟩
  have hr : ReprC [usizeLayout, usizeLayout, ⟨0, 1⟩] [0, ptrBytes, ptrBytes + ptrBytes] ⟨ptrBytes + ptrBytes, ptrBytes⟩ := by
    refine ⟨ptrBytes + ptrBytes, .cons (.zero _) (.cons (show LeastMultiple ptrBytes (0 + ptrBytes) ptrBytes from (Nat.zero_add ptrBytes).symm ▸ .self ⟨1, (Nat.mul_one _).symm⟩) (.cons (.self ⟨ptrBytes + ptrBytes, (Nat.one_mul _).symm⟩) (.nil _))), ?_, .self ⟨2, (Nat.mul_two _).symm⟩⟩
    rcases Usize.cases with ⟨h, -⟩ | ⟨h, -⟩ <;> simp [maxAlign, usizeLayout, h]
  have ha : SharedAlloc.Occupies (.std 4096 ⟨0, 1⟩) 4096 (4096 + (ptrBytes + ptrBytes)) :=
    .std (l := ⟨ptrBytes + ptrBytes, ptrBytes⟩) h0 hr (by rcases Usize.cases with ⟨h, -, h'⟩ | ⟨h, -, h'⟩ <;> simp [Layout.isizeMax, h', h])
  have hb : SharedAlloc.Occupies (.triomphe (4096 + (ptrBytes + ptrBytes)) 16) (4096 + (ptrBytes + ptrBytes)) (4096 + (ptrBytes + ptrBytes) + 16) := .triomphe (by rcases Usize.cases with ⟨h, -⟩ | ⟨h, -⟩ <;> omega)
  refine ⟨_, _, _, _, _, _, ha, hb, ?_, ?_⟩
  rotate_left
  · rcases Usize.cases with ⟨h, -, h'⟩ | ⟨h, -, h'⟩ <;>
      simp [SharedAlloc.key, Layout.extend, Impl.rcBoxHeader, Layout.roundUp, Layout.fromSizeAlign, Layout.isizeMax, h, h']
  intro lo hi lo' hi' x y
  cases y
  cases x with
  | std _ r _ =>
    cases (r.unique hr).2
    exact .inl (by simp)

/-! ### Concrete cases -/

attribute [local instance] Target.x64 in
/-- An `Arc<u64>` and an `Arc<()>` next to each other. -/
example : SharedAlloc.Occupies (.std 0 ⟨8, 8⟩) 0 (0 + 24) ∧ SharedAlloc.Occupies (.std 24 ⟨0, 1⟩) 24 (24 + 16) ∧
    SharedAlloc.key (.std 0 ⟨8, 8⟩) = some 16 ∧ SharedAlloc.key (.std 24 ⟨0, 1⟩) = some 40 := by
  refine ⟨.std (l := ⟨24, 8⟩) (o := 16) ⟨⟨3, by omega, rfl⟩, by decide⟩ ?_ (by decide), .std (l := ⟨16, 8⟩) (o := 16) ⟨⟨0, by omega, rfl⟩, by decide⟩ ?_ (by decide), by decide, by decide⟩
  · exact ⟨24, .cons (.zero 8) (.cons (.self ⟨1, rfl⟩) (.cons (.self ⟨2, rfl⟩) (.nil _))), rfl, .self ⟨3, rfl⟩⟩
  · exact ⟨16, .cons (.zero 8) (.cons (.self ⟨1, rfl⟩) (.cons (.self ⟨16, rfl⟩) (.nil _))), rfl, .self ⟨2, rfl⟩⟩

/-! The theorems of this file with a concrete case of their hypotheses. -/
namespace PointersExamples

attribute [local instance] Target.x64

/-- An `Arc<u64>`, an `Arc<()>` right after it, and a `triomphe::Arc` right after that. -/
def arc8 : SharedAlloc := .std 0 ⟨8, 8⟩
def arc0 : SharedAlloc := .std 24 ⟨0, 1⟩
def tri : SharedAlloc := .triomphe 40 16
/-- A future elsewhere. -/
def fut : SharedAlloc := .future 64 40 24 16

theorem arc8_at : arc8.Occupies 0 (0 + 24) :=
  .std (l := ⟨24, 8⟩) (o := 16) ⟨⟨3, by omega, rfl⟩, by decide⟩ ⟨24, .cons (.zero 8) (.cons (.self ⟨1, rfl⟩) (.cons (.self ⟨2, rfl⟩) (.nil _))), rfl, .self ⟨3, rfl⟩⟩ (by decide)
theorem arc0_at : arc0.Occupies 24 (24 + 16) :=
  .std (l := ⟨16, 8⟩) (o := 16) ⟨⟨0, by omega, rfl⟩, by decide⟩ ⟨16, .cons (.zero 8) (.cons (.self ⟨1, rfl⟩) (.cons (.self ⟨16, rfl⟩) (.nil _))), rfl, .self ⟨2, rfl⟩⟩ (by decide)
theorem tri_at : tri.Occupies 40 (40 + 16) := .triomphe (by decide)
theorem fut_at : fut.Occupies 64 (64 + 40) := .future (by decide) (by decide)

/-- An allocation occupies one range only. -/
theorem occupies_unique {a : SharedAlloc} {lo hi lo' hi' : Nat} (h : a.Occupies lo hi) (h' : a.Occupies lo' hi') : lo = lo' ∧ hi = hi' := by
  cases h with
  | std _ h1 _ =>
    cases h' with
    | std _ h2 _ =>
      obtain ⟨e, hp, ha, hs⟩ := h1
      obtain ⟨e', hp', ha', hs'⟩ := h2
      cases hp with | cons p1 hp =>
      cases hp with | cons p2 hp =>
      cases hp with | cons p3 hp =>
      cases hp
      cases hp' with | cons q1 hp' =>
      cases hp' with | cons q2 hp' =>
      cases hp' with | cons q3 hp' =>
      cases hp'
      have := p3.unique q3
      subst this
      rw [ha] at hs
      rw [ha'] at hs'
      have := hs.unique hs'
      exact ⟨rfl, by omega⟩
  | triomphe _ => cases h'; exact ⟨rfl, rfl⟩
  | future _ _ => cases h'; exact ⟨rfl, rfl⟩

theorem disjoint_of {a b : SharedAlloc} {lo hi lo' hi' : Nat} (ha : a.Occupies lo hi) (hb : b.Occupies lo' hi') (h : hi ≤ lo' ∨ hi' ≤ lo) : a.Disjoint b := by
  intro l1 h1 l2 h2 h3 h4
  obtain ⟨rfl, rfl⟩ := occupies_unique ha h3
  obtain ⟨rfl, rfl⟩ := occupies_unique hb h4
  exact h

example := C53_same_key_iff arc8 arc0 0 (0 + 24) 24 (24 + 16) arc8_at arc0_at (disjoint_of arc8_at arc0_at (.inl (Nat.le_refl _)))
/-- The empty `Arc` and the `triomphe::Arc` after it have one key. -/
example : arc0.key = tri.key :=
  (C53_same_key_iff arc0 tri 24 (24 + 16) 40 (40 + 16) arc0_at tri_at (disjoint_of arc0_at tri_at (.inl (Nat.le_refl _)))).2 (.inl ⟨rfl, trivial, 24, 40, 56, arc0_at, tri_at⟩)
example := C53_distinct_keys arc8 arc0 0 (0 + 24) 24 (24 + 16) arc8_at arc0_at (disjoint_of arc8_at arc0_at (.inl (Nat.le_refl _))) (.inl ⟨id, id⟩)
example := C53_contents_by_key [(arc8, .arc 24 (.plain ⟨ascii "u8", 1, false⟩)), (tri, .triomphe 16 (.plain ⟨ascii "u8", 1, false⟩)), (fut, .future (.plain ⟨ascii "u8", 1, false⟩))]
  (by
    intro x hx
    simp only [List.mem_cons, List.not_mem_nil, or_false] at hx
    rcases hx with rfl | rfl | rfl
    · exact ⟨_, _, arc8_at⟩
    · exact ⟨_, _, tri_at⟩
    · exact ⟨_, _, fut_at⟩)
  (by
    have h1 : ¬ arc8.EndsEmpty := by simp [arc8, SharedAlloc.EndsEmpty]
    have h2 : ¬ tri.EndsEmpty := id
    have h3 : ¬ fut.EndsEmpty := by simp [fut, SharedAlloc.EndsEmpty]
    refine .cons ?_ (.cons ?_ (.cons (by simp) .nil))
    · intro y hy
      simp only [List.mem_cons, List.not_mem_nil, or_false] at hy
      rcases hy with rfl | rfl
      · exact ⟨disjoint_of arc8_at tri_at (.inl (by decide)), fun h => h1 h.1, fun h => h2 h.1⟩
      · exact ⟨disjoint_of arc8_at fut_at (.inl (by decide)), fun h => h1 h.1, fun h => h3 h.1⟩
    · intro y hy
      simp only [List.mem_cons, List.not_mem_nil, or_false] at hy
      subst hy
      exact ⟨disjoint_of tri_at fut_at (.inl (by decide)), fun h => h2 h.1, fun h => h3 h.1⟩)

end PointersExamples

end Allocative
