import Verif.Spec.Layout
import Verif.Model.Impls
import Verif.Lemmas.Table
set_option linter.unusedSimpArgs false
/-
C36 (allocation size of `Arc` and `Rc`), C50 (triomphe), C37 (hashbrown tables).
-/
namespace Allocative

theorem roundUp_least {a : Nat} (h : 0 < a) (n : Nat) : LeastMultiple a n (Layout.roundUp n a) := by
  unfold Layout.roundUp
  refine ⟨⟨_, Nat.mul_comm _ _⟩, ?_, ?_⟩
  · have h1 := Nat.div_add_mod (n + a - 1) a
    have h2 := Nat.mod_lt (n + a - 1) h
    rw [Nat.mul_comm]; omega
  · rintro k ⟨q, rfl⟩ hk
    have : (n + a - 1) / a < q + 1 := by
      rw [Nat.div_lt_iff_lt_mul h]
      have : (q + 1) * a = a * q + a := by rw [Nat.add_mul, Nat.mul_comm]; simp
      omega
    rw [Nat.mul_comm a q]
    exact Nat.mul_le_mul_right a (by omega)

theorem LeastMultiple.unique {a n m m' : Nat} (h : LeastMultiple a n m) (h' : LeastMultiple a n m') : m = m' :=
  Nat.le_antisymm (h.2.2 _ h'.1 h'.2.1) (h'.2.2 _ h.1 h.2.1)

theorem PlaceFields.unique {fs : List Layout} : ∀ {s offs e offs' e'}, PlaceFields s fs offs e → PlaceFields s fs offs' e' →
    offs = offs' ∧ e = e' := by
  induction fs with
  | nil => intro s offs e offs' e' h h'; cases h; cases h'; simp
  | cons f fs ih =>
    intro s offs e offs' e' h h'
    cases h with | cons h1 h2 =>
    cases h' with | cons h1' h2' =>
    cases h1.unique h1'
    obtain ⟨rfl, rfl⟩ := ih h2 h2'
    simp

theorem ReprC.unique {fs : List Layout} {o o' l l'} (h : ReprC fs o l) (h' : ReprC fs o' l') : o = o' ∧ l = l' := by
  obtain ⟨e, p, a, s⟩ := h
  obtain ⟨e', p', a', s'⟩ := h'
  obtain ⟨rfl, rfl⟩ := p.unique p'
  obtain ⟨sz, al⟩ := l
  obtain ⟨sz', al'⟩ := l'
  simp only at a a' s s'
  subst a; subst a'
  cases s.unique s'
  simp

theorem Layout.Valid.align_pos [Target] {l : Layout} (h : l.Valid) : 0 < l.align := by
  obtain ⟨⟨k, _, hk⟩, _⟩ := h
  rw [hk]; exact Nat.two_pow_pos k

/-- A multiple of a power of two is at most `isize::MAX` exactly if `Layout` accepts the size before padding. -/
theorem fits_iff [Target] {a : Nat} (ha : ∃ k, k ≤ 29 ∧ a = 2 ^ k) {n m : Nat} (h : LeastMultiple a n m) :
    n + (a - 1) ≤ Layout.isizeMax ↔ m ≤ Layout.isizeMax := by
  obtain ⟨k, hk, rfl⟩ := ha
  have hpos := Nat.two_pow_pos k
  have hd : 2 ^ k ∣ Usize.half := Nat.pow_dvd_pow 2 (by rcases Usize.cases with ⟨h, -⟩ | ⟨h, -⟩ <;> omega)
  have hh := Usize.half_pos
  constructor
  · intro hn
    have h1 : m < n + 2 ^ k := by
      have := h.unique (roundUp_least hpos n)
      subst this
      have := Nat.div_mul_le_self (n + 2 ^ k - 1) (2 ^ k)
      unfold Layout.roundUp
      omega
    unfold Layout.isizeMax at *
    omega
  · intro hm
    unfold Layout.isizeMax at *
    obtain ⟨q, hq⟩ := h.1
    obtain ⟨r, hr⟩ := hd
    have : q < r := by
      rcases Nat.lt_or_ge q r with h' | h'
      · exact h'
      · have := Nat.mul_le_mul_left (2 ^ k) h'
        omega
    have := Nat.mul_le_mul_left (2 ^ k) (show q + 1 ≤ r by omega)
    rw [Nat.mul_add] at this
    have := h.2.1
    omega

/-- `Layout::new::<header>().extend(val).unwrap().0.pad_to_align()` where the header ends aligned for its own fields. -/
theorem extend_pad [Target] {fields : List Layout} {offs : List Nat} {header val : Layout} (hf : PlaceFields 0 fields offs header.size)
    (ha : header.align = maxAlign fields) (hal : ∃ k, k ≤ 29 ∧ header.align = 2 ^ k) (hv : val.Valid) :
    ∃ l o, ReprC (fields ++ [val]) (offs ++ [o]) l ∧
      ((header.extend val).map fun r => r.1.padToAlign) = if l.size ≤ Layout.isizeMax then some l else none := by
  have hpos := hv.align_pos
  have hmax : maxAlign (fields ++ [val]) = max header.align val.align := by
    rw [ha]
    clear hf ha hal
    induction fields with
    | nil => simp [maxAlign, Nat.max_comm]
    | cons f fs ih => simp only [List.cons_append, maxAlign, ih]; omega
  have hplace : PlaceFields 0 (fields ++ [val]) (offs ++ [Layout.roundUp header.size val.align])
      (Layout.roundUp header.size val.align + val.size) := by
    have : ∀ {s fs os e}, PlaceFields s fs os e →
        PlaceFields s (fs ++ [val]) (os ++ [Layout.roundUp e val.align]) (Layout.roundUp e val.align + val.size) := by
      intro s fs os e h
      induction h with
      | nil s => exact .cons (roundUp_least hpos s) (.nil _)
      | cons h1 _ ih => exact .cons h1 ih
    exact this hf
  have hpow : ∃ k, k ≤ 29 ∧ max header.align val.align = 2 ^ k := by
    obtain ⟨k, hk, hk'⟩ := hal
    obtain ⟨⟨j, hj, hj'⟩, _⟩ := hv
    rcases Nat.le_total header.align val.align with h | h
    · exact ⟨j, hj, by omega⟩
    · exact ⟨k, hk, by omega⟩
  have hmpos : 0 < max header.align val.align := by omega
  have hle := roundUp_least hmpos (Layout.roundUp header.size val.align + val.size)
  refine ⟨⟨Layout.roundUp (Layout.roundUp header.size val.align + val.size) (max header.align val.align), max header.align val.align⟩, _,
    ⟨_, hplace, hmax.symm, hle⟩, ?_⟩
  have := fits_iff hpow hle
  simp only [Layout.extend, Layout.fromSizeAlign]
  split
  · rename_i h; rw [if_pos (this.1 h)]; rfl
  · rename_i h; rw [if_neg (fun h' => h (this.2 h'))]; rfl

/-- Alignments are comparable by divisibility. -/
theorem pow_dvd_of_le {a b : Nat} (ha : ∃ k, k ≤ 29 ∧ a = 2 ^ k) (hb : ∃ k, k ≤ 29 ∧ b = 2 ^ k) (h : a ≤ b) : a ∣ b := by
  obtain ⟨k, _, rfl⟩ := ha
  obtain ⟨j, _, rfl⟩ := hb
  refine Nat.pow_dvd_pow 2 ?_
  rcases Nat.lt_or_ge j k with h' | h'
  · have := Nat.pow_lt_pow_right (show 1 < 2 by omega) h'
    omega
  · exact h'

/-- C36. The layout computed for the allocation behind an `Arc<T>` or `Rc<T>` is the layout of the `repr(C)` struct of two `usize` and the
value; `unwrap` fails only if that struct is larger than any allocation (`isize::MAX`). -/
theorem C36_rc_box [Target] (val : Layout) (hv : val.Valid) :
    ∃ l o, ReprC [usizeLayout, usizeLayout, val] [0, ptrBytes, o] l ∧
      Impl.rcBoxLayout val = if l.size ≤ Layout.isizeMax then some l else none := by
  have h8 : LeastMultiple ptrBytes 0 0 := ⟨⟨0, rfl⟩, Nat.le_refl _, by omega⟩
  have h8' : LeastMultiple ptrBytes (0 + ptrBytes) ptrBytes := ⟨⟨1, by omega⟩, by omega, fun k _ hk => by omega⟩
  have hp := ptrBytes_pos
  exact extend_pad (fields := [usizeLayout, usizeLayout]) (offs := [0, ptrBytes]) (header := Impl.rcBoxHeader)
    (by simpa [Impl.rcBoxHeader, usizeLayout, Nat.two_mul] using PlaceFields.cons (f := usizeLayout) h8 (.cons (f := usizeLayout) h8' (.nil _)))
    (by simp only [Impl.rcBoxHeader, maxAlign, usizeLayout]; omega) ptrBytes_pow hv

/-- C36, the bounds: at least two words and the value, aligned, and less than two alignments more than that. -/
theorem C36_bounds [Target] (val : Layout) (hv : val.Valid) (l : Layout) (h : Impl.rcBoxLayout val = some l) :
    2 * ptrBytes + val.size ≤ l.size ∧ l.align = max ptrBytes val.align ∧ l.align ∣ l.size ∧ l.size ≤ Layout.isizeMax ∧
      l.size < 2 * ptrBytes + val.size + 2 * l.align ∧ (val.align ≤ ptrBytes → l.size < 2 * ptrBytes + val.size + ptrBytes) := by
  obtain ⟨l', o, ⟨e, hp, ha, hs⟩, he⟩ := C36_rc_box val hv
  have hpos := hv.align_pos
  rw [h] at he
  split at he
  · rename_i hle
    cases he
    cases hp with | cons h1 hp =>
    cases hp with | cons h2 hp =>
    cases hp with | cons h3 hp =>
    cases hp
    simp only [maxAlign, usizeLayout] at ha h3
    have hp := ptrBytes_pos
    have hr := h3.unique (roundUp_least hpos _)
    have hb : ∀ {a n m}, 0 < a → LeastMultiple a n m → m < n + a := by
      intro a n m ha h
      have := h.unique (roundUp_least ha _)
      subst this
      have := Nat.div_mul_le_self (n + a - 1) a
      unfold Layout.roundUp
      omega
    have b1 := hb hpos h3
    have b2 := hb (by omega) hs
    have b3 := h3.2.1
    have b4 := hs.2.1
    refine ⟨by omega, by omega, hs.1, hle, by omega, fun h8 => ?_⟩
    have hd : val.align ∣ 2 * ptrBytes := Nat.dvd_trans (pow_dvd_of_le hv.1 ptrBytes_pow h8) ⟨2, Nat.mul_comm _ _⟩
    have := h3.2.2 (2 * ptrBytes) hd (by omega)
    have ha8 : l.align = ptrBytes := by omega
    omega
  · cases he

attribute [local instance] Target.x64 in
example : (⟨5, 4⟩ : Layout).Valid ∧ Impl.rcBoxLayout ⟨5, 4⟩ = some ⟨24, 8⟩ ∧ Impl.rcBoxLayout ⟨1, 64⟩ = some ⟨128, 64⟩ ∧
    Impl.rcBoxLayout ⟨Usize.half - 24, 1⟩ = some ⟨Usize.half - 8, 8⟩ ∧ Impl.rcBoxLayout ⟨Usize.half - 20, 1⟩ = none :=
  ⟨⟨⟨2, by omega, rfl⟩, by decide⟩, by decide, by decide, by decide, by decide⟩

/-- C50. The layout computed for a `triomphe::Arc` is that of the `repr(C)` struct of one `usize` and the value. -/
theorem C50_triomphe_arc [Target] (val : Layout) (hv : val.Valid) :
    ∃ l o, ReprC [usizeLayout, val] [0, o] l ∧ Impl.triompheLayout val = if l.size ≤ Layout.isizeMax then some l else none := by
  have h8 : LeastMultiple ptrBytes 0 0 := ⟨⟨0, rfl⟩, Nat.le_refl _, by omega⟩
  have hp := ptrBytes_pos
  exact extend_pad (fields := [usizeLayout]) (offs := [0]) (header := Impl.triompheHeader)
    (by simpa [Impl.triompheHeader, usizeLayout] using PlaceFields.cons (f := usizeLayout) h8 (.nil _))
    (by simp only [Impl.triompheHeader, maxAlign, usizeLayout]; omega) ptrBytes_pow hv

/-! ### ThinArc -/

theorem LeastMultiple.self {a n : Nat} (h : a ∣ n) : LeastMultiple a n n := ⟨h, Nat.le_refl _, fun _ _ h => h⟩

theorem LeastMultiple.shift {a n m c : Nat} (h : LeastMultiple a n m) (hc : a ∣ c) : LeastMultiple a (c + n) (c + m) := by
  refine ⟨Nat.dvd_add hc h.1, by have := h.2.1; omega, fun k hk hle => ?_⟩
  have := h.2.2 (k - c) (Nat.dvd_sub hk hc) (by omega)
  omega

/-- The layout of `repr(C)` structs of three and of two fields. -/
theorem reprC3 {a b c l : Layout} {o} (h : ReprC [a, b, c] o l) :
    ∃ o1 o2 o3, o = [o1, o2, o3] ∧ LeastMultiple a.align 0 o1 ∧ LeastMultiple b.align (o1 + a.size) o2 ∧
      LeastMultiple c.align (o2 + b.size) o3 ∧ l.align = max a.align (max b.align (max c.align 1)) ∧
      LeastMultiple l.align (o3 + c.size) l.size := by
  obtain ⟨e, hp, ha, hs⟩ := h
  cases hp with | cons h1 hp =>
  cases hp with | cons h2 hp =>
  cases hp with | cons h3 hp =>
  cases hp
  exact ⟨_, _, _, rfl, h1, h2, h3, ha, hs⟩

theorem reprC2 {a b l : Layout} {o} (h : ReprC [a, b] o l) :
    ∃ o1 o2, o = [o1, o2] ∧ LeastMultiple a.align 0 o1 ∧ LeastMultiple b.align (o1 + a.size) o2 ∧
      l.align = max a.align (max b.align 1) ∧ LeastMultiple l.align (o2 + b.size) l.size := by
  obtain ⟨e, hp, ha, hs⟩ := h
  cases hp with | cons h1 hp =>
  cases hp with | cons h2 hp =>
  cases hp
  exact ⟨_, _, rfl, h1, h2, ha, hs⟩

theorem LeastMultiple.zero (a : Nat) : LeastMultiple a 0 0 := LeastMultiple.self ⟨0, by simp⟩

theorem LeastMultiple.le_zero {a m : Nat} (h : LeastMultiple a 0 m) : m = 0 := h.unique (.zero a)

/-- The calculation for `ThinArc`, given the layout of the slice. -/
theorem thin_arc_aux [Target] (header slice repr hwl hs inner : Layout) (o1 o2 o3 o4 : List Nat)
    (hh : header.Valid) (hsl : slice.Valid) (hd : header.align ∣ header.size) (hds : slice.align ∣ slice.size)
    (h1 : ReprC [usizeLayout, header, usizeLayout] o1 repr)
    (h2 : ReprC [header, usizeLayout] o2 hwl) (h3 : ReprC [hwl, slice] o3 hs) (h4 : ReprC [usizeLayout, hs] o4 inner)
    (hfit : inner.size ≤ Layout.isizeMax) :
    ∃ l, ((repr.extend slice).map fun r => r.1.padToAlign) = some l ∧ l.size ≤ inner.size ∧
      (slice.align ≤ max ptrBytes header.align → l.size = inner.size) := by
  obtain ⟨a1, a2, a3, -, p1, p2, p3, pa, ps⟩ := reprC3 h1
  obtain ⟨b1, b2, -, q1, q2, qa, qs⟩ := reprC2 h2
  obtain ⟨c1, c2, -, r1, r2, ra, rs⟩ := reprC2 h3
  obtain ⟨d1, d2, -, s1, s2, sa, ss⟩ := reprC2 h4
  cases p1.le_zero; cases q1.le_zero; cases r1.le_zero; cases s1.le_zero
  simp only [usizeLayout, Nat.zero_add] at *
  have hp8 := ptrBytes_pos
  have hhp := hh.align_pos
  have hsp := hsl.align_pos
  have hA : repr.align = max ptrBytes header.align := by omega
  have hW : hwl.align = max ptrBytes header.align := by omega
  have hH : hs.align = max (max ptrBytes header.align) slice.align := by omega
  have hI : inner.align = max (max ptrBytes header.align) slice.align := by omega
  have p8 : ∃ k, k ≤ 29 ∧ ptrBytes = 2 ^ k := ptrBytes_pow
  have pA : ∃ k, k ≤ 29 ∧ max ptrBytes header.align = 2 ^ k := by
    rcases Nat.le_total ptrBytes header.align with h | h
    · rw [Nat.max_eq_right h]; exact hh.1
    · rw [Nat.max_eq_left h]; exact p8
  have pM : ∃ k, k ≤ 29 ∧ max (max ptrBytes header.align) slice.align = 2 ^ k := by
    rcases Nat.le_total (max ptrBytes header.align) slice.align with h | h
    · rw [Nat.max_eq_right h]; exact hsl.1
    · rw [Nat.max_eq_left h]; exact pA
  -- the header of the flattened struct is one alignment longer than the pair (header, length)
  have hrepr : repr.size = max ptrBytes header.align + hwl.size := by
    rw [hA] at ps
    rw [hW] at qs
    rcases Nat.le_total header.align ptrBytes with h | h
    · have e1 := p2.unique (LeastMultiple.self (pow_dvd_of_le hh.1 p8 h))
      subst e1
      have e2 := p3.unique (q2.shift ⟨1, by simp⟩)
      subst e2
      rw [Nat.max_eq_left h] at ps qs ⊢
      exact ps.unique (by have := qs.shift (c := ptrBytes) ⟨1, by simp⟩; rwa [← Nat.add_assoc] at this)
    · have h8 := pow_dvd_of_le p8 hh.1 h
      have e1 : a2 = header.align := by
        refine p2.unique ⟨⟨1, by simp⟩, h, fun k hk hle => Nat.le_of_dvd (by omega) hk⟩
      subst e1
      have e2 := p3.unique (LeastMultiple.self (Nat.dvd_trans h8 (Nat.dvd_add (Nat.dvd_refl _) hd)))
      have e3 := q2.unique (LeastMultiple.self (Nat.dvd_trans h8 hd))
      subst e2; subst e3
      rw [Nat.max_eq_right h] at ps qs ⊢
      exact ps.unique (by have := qs.shift (c := header.align) (Nat.dvd_refl _); rwa [← Nat.add_assoc] at this)
  have hd2 : d2 = max (max ptrBytes header.align) slice.align := by
    rw [hH] at s2
    exact s2.unique ⟨⟨1, by simp⟩, by omega, fun k hk hle => Nat.le_of_dvd (by omega) hk⟩
  have hwdvd : max ptrBytes header.align ∣ hwl.size := by rw [← hW]; exact qs.1
  have hin : inner.size = d2 + hs.size := by
    refine ss.unique (.self (Nat.dvd_add ?_ ?_))
    · rw [hI, hd2]; exact Nat.dvd_refl _
    · rw [hI, ← hH]; exact rs.1
  -- what the code computes
  obtain ⟨off, hoffe⟩ : ∃ off, off = Layout.roundUp repr.size slice.align := ⟨_, rfl⟩
  have hoff := roundUp_least hsp repr.size
  rw [← hoffe] at hoff
  obtain ⟨tot, htote⟩ : ∃ tot, tot = Layout.roundUp (off + slice.size) (max repr.align slice.align) := ⟨_, rfl⟩
  have htot : LeastMultiple (max (max ptrBytes header.align) slice.align) (off + slice.size) tot := by
    have := roundUp_least (show 0 < max repr.align slice.align by omega) (off + slice.size)
    rw [← htote] at this
    rwa [hA] at this
  have hle : tot ≤ inner.size ∧ (slice.align ≤ max ptrBytes header.align → tot = inner.size) := by
    rw [hin, hd2]
    rcases Nat.le_total slice.align (max ptrBytes header.align) with h | h
    · have hdv := pow_dvd_of_le hsl.1 pA h
      rw [Nat.max_eq_left h] at *
      have e1 : off = max ptrBytes header.align + hwl.size := by
        rw [← hrepr]
        exact hoff.unique (.self (Nat.dvd_trans hdv (by rw [hrepr]; exact Nat.dvd_add (Nat.dvd_refl _) hwdvd)))
      have e2 := r2.unique (.self (Nat.dvd_trans hdv hwdvd))
      rw [hH, e2] at rs
      have e3 : tot = max ptrBytes header.align + hs.size := by
        refine htot.unique ?_
        have := rs.shift (Nat.dvd_refl (max ptrBytes header.align))
        rwa [e1, Nat.add_assoc]
      exact ⟨by omega, fun _ => e3⟩
    · have hdv := pow_dvd_of_le pA hsl.1 h
      rw [Nat.max_eq_right h] at *
      have e1 : off ≤ slice.align + c2 := by
        rw [hrepr] at hoff
        exact hoff.2.2 _ (Nat.dvd_add (Nat.dvd_refl _) r2.1) (by have := r2.2.1; omega)
      rw [hH] at rs
      have e2 : hs.size = c2 + slice.size := rs.unique (.self (Nat.dvd_add r2.1 hds))
      have e3 : tot = off + slice.size := htot.unique (.self (Nat.dvd_add hoff.1 hds))
      refine ⟨by omega, fun h' => ?_⟩
      have e : slice.align = max ptrBytes header.align := Nat.le_antisymm h' h
      have e4 := r2.unique (.self (by rw [e]; exact hwdvd))
      have e5 : off = slice.align + hwl.size := by
        rw [hrepr, ← e] at hoff
        exact hoff.unique (.self (Nat.dvd_add (Nat.dvd_refl _) (by rw [e]; exact hwdvd)))
      omega
  refine ⟨⟨tot, max repr.align slice.align⟩, ?_, hle.1, hle.2⟩
  have hfits := (fits_iff pM htot).2 (Nat.le_trans hle.1 hfit)
  rw [← hA] at hfits
  subst htote; subst hoffe
  simp only [Layout.extend, Layout.fromSizeAlign]
  rw [if_pos hfits]
  rfl

/-- C50, `ThinArc`.  What is allocated is `ArcInner<HeaderSlice<HeaderWithLength<H>, [T]>>`, all `repr(C)`: a counter and, in it, a struct of
the pair (header, length) and the slice.  The code computes the layout of the flattened struct.  That is the same unless the elements are aligned more
strictly than counter and header; it is never more than what is allocated. -/
theorem C50_thin_arc [Target] (header elem repr hwl hs inner : Layout) (len : Nat) (o1 o2 o3 o4 : List Nat)
    (hh : header.Valid) (he : elem.Valid) (hd : header.align ∣ header.size) (hde : elem.align ∣ elem.size)
    (h1 : ReprC [usizeLayout, header, usizeLayout] o1 repr)
    (h2 : ReprC [header, usizeLayout] o2 hwl) (h3 : ReprC [hwl, ⟨elem.size * len, elem.align⟩] o3 hs) (h4 : ReprC [usizeLayout, hs] o4 inner)
    (hfit : inner.size ≤ Layout.isizeMax) :
    ∃ l, Impl.thinArcLayout repr elem len = some l ∧ l.size ≤ inner.size ∧
      (elem.align ≤ max ptrBytes header.align → l.size = inner.size) := by
  have hsz : elem.size * len ≤ inner.size := by
    obtain ⟨c1, c2, -, -, -, -, rs⟩ := reprC2 h3
    obtain ⟨d1, d2, -, -, -, -, ss⟩ := reprC2 h4
    have := rs.2.1
    have := ss.2.1
    simp only at *
    omega
  have hdv : elem.align ∣ elem.size * len := Nat.dvd_trans hde ⟨len, rfl⟩
  have hfits := (fits_iff he.1 (LeastMultiple.self hdv)).2 (Nat.le_trans hsz hfit)
  have harr : Layout.array elem len = some ⟨elem.size * len, elem.align⟩ := by
    simp only [Layout.array, Layout.fromSizeAlign]
    rw [if_pos hfits]
  simp only [Impl.thinArcLayout, harr]
  exact thin_arc_aux header ⟨elem.size * len, elem.align⟩ repr hwl hs inner o1 o2 o3 o4 hh ⟨he.1, Nat.le_trans hsz hfit⟩ hd hdv h1 h2 h3 h4 hfit

/-- Over-aligned elements: the code reports 16 bytes less than are allocated (header of two words, one element of 16 bytes aligned to 16; 48 bytes instead of 64 on 64-bit targets). -/
theorem C50_thin_arc_underestimates [t : Target] : ∃ (header elem repr hwl hs inner l : Layout) (o1 o2 o3 o4 : List Nat),
    header.Valid ∧ elem.Valid ∧ ReprC [usizeLayout, header, usizeLayout] o1 repr ∧ ReprC [header, usizeLayout] o2 hwl ∧
    ReprC [hwl, ⟨elem.size * 1, elem.align⟩] o3 hs ∧ ReprC [usizeLayout, hs] o4 inner ∧
    Impl.thinArcLayout repr elem 1 = some l ∧ l.size + 16 = inner.size := by
  obtain ⟨w⟩ := t
  cases w with
  | bits64 =>
    have h32 : LeastMultiple 16 24 32 := ⟨⟨2, rfl⟩, by decide, fun k hk h => by omega⟩
    have h16 : LeastMultiple 16 8 16 := ⟨⟨1, rfl⟩, by decide, fun k hk h => by omega⟩
    refine ⟨⟨16, 8⟩, ⟨16, 16⟩, ⟨32, 8⟩, ⟨24, 8⟩, ⟨48, 16⟩, ⟨64, 16⟩, ⟨48, 16⟩, [0, 8, 24], [0, 16], [0, 32], [0, 16], ?_, ?_, ?_, ?_, ?_, ?_, ?_, rfl⟩
    · exact ⟨⟨3, by omega, rfl⟩, by decide⟩
    · exact ⟨⟨4, by omega, rfl⟩, by decide⟩
    · refine ⟨_, .cons (.zero _) (.cons (.self ⟨1, rfl⟩) (.cons (.self ⟨3, rfl⟩) (.nil _))), rfl, .self ⟨4, rfl⟩⟩
    · exact ⟨_, .cons (.zero _) (.cons (.self ⟨2, rfl⟩) (.nil _)), rfl, .self ⟨3, rfl⟩⟩
    · exact ⟨_, .cons (.zero _) (.cons h32 (.nil _)), rfl, .self ⟨3, rfl⟩⟩
    · exact ⟨_, .cons (.zero _) (.cons h16 (.nil _)), rfl, .self ⟨4, rfl⟩⟩
    · decide
  | bits32 =>
    have h12 : LeastMultiple 16 12 16 := ⟨⟨1, rfl⟩, by decide, fun k hk h => by omega⟩
    have h16 : LeastMultiple 16 4 16 := ⟨⟨1, rfl⟩, by decide, fun k hk h => by omega⟩
    refine ⟨⟨8, 4⟩, ⟨16, 16⟩, ⟨16, 4⟩, ⟨12, 4⟩, ⟨32, 16⟩, ⟨48, 16⟩, ⟨32, 16⟩, [0, 4, 12], [0, 8], [0, 16], [0, 16], ?_, ?_, ?_, ?_, ?_, ?_, ?_, rfl⟩
    · exact ⟨⟨2, by omega, rfl⟩, by decide⟩
    · exact ⟨⟨4, by omega, rfl⟩, by decide⟩
    · refine ⟨_, .cons (.zero _) (.cons (.self ⟨1, rfl⟩) (.cons (.self ⟨3, rfl⟩) (.nil _))), rfl, .self ⟨4, rfl⟩⟩
    · exact ⟨_, .cons (.zero _) (.cons (.self ⟨2, rfl⟩) (.nil _)), rfl, .self ⟨3, rfl⟩⟩
    · exact ⟨_, .cons (.zero _) (.cons h12 (.nil _)), rfl, .self ⟨2, rfl⟩⟩
    · exact ⟨_, .cons (.zero _) (.cons h16 (.nil _)), rfl, .self ⟨3, rfl⟩⟩
    · decide

/-! ### hashbrown -/

/-- C37. The size computed for a hash table holding `len` elements: for a nonempty table the smallest power of two `≥ max len 4` of buckets, each with
one control byte.  (`len ≤ isize::MAX + 1`, and the product fits in `usize`.) -/
theorem C37_table_size [Target] (T : Ty) (len : Nat) :
    (len = 0 → Impl.rawTableAllocSizeForLen T len = 0) ∧
    (0 < len → ∃ b, IsLeastPow2 (max len 4) b ∧
      ((T.size + 1) * b < Usize.modulus → Impl.rawTableAllocSizeForLen T len = (T.size + 1) * b)) := by
  constructor
  · rintro rfl; simp [Impl.rawTableAllocSizeForLen, Usize.mul]
  · intro h
    refine ⟨if len < 4 then 4 else Usize.nextPowerOfTwo len, ?_, fun hlt => ?_⟩
    · split
      · rename_i h4
        rw [Nat.max_eq_right (by omega)]
        exact ⟨⟨2, rfl⟩, Nat.le_refl _, fun j hj => hj⟩
      · rw [Nat.max_eq_left (by omega)]
        exact nextPowerOfTwo_spec len
    · have : (len == 0) = false := by simp; omega
      simp only [Impl.rawTableAllocSizeForLen, this, Bool.false_eq_true, if_false, Usize.mul]
      exact Nat.mod_eq_of_lt hlt

/-- C37, bounds: between once and twice `len` slots (four slots at least). -/
theorem C37_bounds [Target] (T : Ty) (len : Nat) (h : 0 < len) (hfit : (T.size + 1) * (2 * max len 4) ≤ Usize.modulus) :
    (T.size + 1) * max len 4 ≤ Impl.rawTableAllocSizeForLen T len ∧
      Impl.rawTableAllocSizeForLen T len < (T.size + 1) * (2 * max len 4) := by
  obtain ⟨b, hb, e⟩ := (C37_table_size T len).2 h
  have hlt := hb.lt (by omega)
  have h1 : (T.size + 1) * b < (T.size + 1) * (2 * max len 4) := Nat.mul_lt_mul_of_pos_left hlt (by omega)
  rw [e (by omega)]
  exact ⟨Nat.mul_le_mul_left _ hb.2.1, h1⟩

/-- C37, monotone in the number of elements. -/
theorem C37_monotone [Target] (T : Ty) (len len' : Nat) (h : len ≤ len') (hfit : (T.size + 1) * (2 * max len' 4) ≤ Usize.modulus) :
    Impl.rawTableAllocSizeForLen T len ≤ Impl.rawTableAllocSizeForLen T len' := by
  rcases Nat.eq_zero_or_pos len with h0 | h0
  · rw [(C37_table_size T len).1 h0]; omega
  · obtain ⟨b, hb, e⟩ := (C37_table_size T len).2 h0
    obtain ⟨b', hb', e'⟩ := (C37_table_size T len').2 (by omega)
    have hle : b ≤ b' := hb.mono hb' (by omega)
    have hlt : (T.size + 1) * b' < (T.size + 1) * (2 * max len' 4) := Nat.mul_lt_mul_of_pos_left (hb'.lt (by omega)) (by omega)
    have := Nat.mul_le_mul_left (T.size + 1) hle
    rw [e (by omega), e' (by omega)]
    exact this

/-- Capacity of a hashbrown table with this number of buckets (`bucket_mask_to_capacity`): all but one up to 8 buckets, then 7/8. -/
def hashbrownCapacity (buckets : Nat) : Nat := if buckets ≤ 8 then buckets - 1 else buckets / 8 * 7

/-- C37, exact number of buckets: the capacity of a table of `2^k` buckets (`k ≥ 2`) leads back to `2^k` buckets. -/
theorem C37_exact_buckets [Target] (T : Ty) (k : Nat) (hk : 2 ≤ k) (hfit : (T.size + 1) * 2 ^ k < Usize.modulus) :
    Impl.rawTableAllocSizeForLen T (hashbrownCapacity (2 ^ k)) = (T.size + 1) * 2 ^ k := by
  have hcap : IsLeastPow2 (max (hashbrownCapacity (2 ^ k)) 4) (2 ^ k) ∧ 0 < hashbrownCapacity (2 ^ k) := by
    obtain ⟨j, rfl⟩ : ∃ j, k = j + 2 := ⟨k - 2, by omega⟩
    rcases j with _ | j
    · refine ⟨⟨⟨2, rfl⟩, by decide, fun j hj => ?_⟩, by decide⟩
      simp [hashbrownCapacity] at hj ⊢; omega
    · have e : 2 ^ (j + 1 + 2) = 8 * 2 ^ j := by
        rw [show j + 1 + 2 = j + 3 by omega, Nat.pow_add]; omega
      have hp := Nat.two_pow_pos j
      have hc : hashbrownCapacity (2 ^ (j + 1 + 2)) = 7 * 2 ^ j := by
        rw [e]
        unfold hashbrownCapacity
        split
        · have : 2 ^ j = 1 := by omega
          rw [this]
        · omega
      rw [hc]
      refine ⟨⟨⟨_, rfl⟩, by omega, fun i hi => ?_⟩, by omega⟩
      have : j + 2 < i := by
        rcases Nat.lt_or_ge (j + 2) i with h | h
        · exact h
        · have := Nat.pow_le_pow_right (show 0 < 2 by omega) h
          rw [Nat.pow_add] at this
          omega
      exact Nat.pow_le_pow_right (by omega) (by omega)
  obtain ⟨b, hb, e⟩ := (C37_table_size T _).2 hcap.2
  cases hb.unique hcap.1
  exact e hfit

attribute [local instance] Target.x64 in
example : Impl.rawTableAllocSizeForLen ⟨[], 24, false⟩ (hashbrownCapacity 64) = 25 * 64 ∧ hashbrownCapacity 64 = 56 ∧
    Impl.rawTableAllocSizeForLen ⟨[], 24, false⟩ 3 = 25 * 4 ∧ Impl.rawTableAllocSizeForLen ⟨[], 24, false⟩ 65 = 25 * 128 := by decide

/-! The theorems of this file with a concrete case of their hypotheses. -/

attribute [local instance] Target.x64 in
theorem Ex.layout_valid : (⟨5, 4⟩ : Layout).Valid ∧ (⟨16, 8⟩ : Layout).Valid ∧ (⟨1, 64⟩ : Layout).Valid :=
  ⟨⟨⟨2, by omega, rfl⟩, by decide⟩, ⟨⟨3, by omega, rfl⟩, by decide⟩, ⟨⟨6, by omega, rfl⟩, by decide⟩⟩
attribute [local instance] Target.x64 in
example := C36_rc_box ⟨1, 64⟩ Ex.layout_valid.2.2
attribute [local instance] Target.x64 in
example := C36_bounds ⟨1, 64⟩ Ex.layout_valid.2.2 ⟨128, 64⟩ (by decide)
attribute [local instance] Target.x64 in
example := C50_triomphe_arc ⟨1, 64⟩ Ex.layout_valid.2.2
attribute [local instance] Target.x64 in
/-- `ThinArc<[u64; 2], [u64; 2]>` of three elements: exact. -/
example : ∃ l, Impl.thinArcLayout ⟨32, 8⟩ ⟨16, 8⟩ 3 = some l ∧ l.size = 80 := by
  obtain ⟨l, h, -, he⟩ := C50_thin_arc ⟨16, 8⟩ ⟨16, 8⟩ ⟨32, 8⟩ ⟨24, 8⟩ ⟨72, 8⟩ ⟨80, 8⟩ 3 [0, 8, 24] [0, 16] [0, 24] [0, 8]
    Ex.layout_valid.2.1 Ex.layout_valid.2.1 ⟨2, rfl⟩ ⟨2, rfl⟩
    ⟨_, .cons (.zero _) (.cons (.self ⟨1, rfl⟩) (.cons (.self ⟨3, rfl⟩) (.nil _))), rfl, .self ⟨4, rfl⟩⟩
    ⟨_, .cons (.zero _) (.cons (.self ⟨2, rfl⟩) (.nil _)), rfl, .self ⟨3, rfl⟩⟩
    ⟨_, .cons (.zero _) (.cons (.self ⟨3, rfl⟩) (.nil _)), rfl, .self ⟨9, rfl⟩⟩
    ⟨_, .cons (.zero _) (.cons (.self ⟨1, rfl⟩) (.nil _)), rfl, .self ⟨10, rfl⟩⟩ (by decide)
  exact ⟨l, h, he (by decide)⟩
attribute [local instance] Target.x64 in
example := C37_bounds ⟨[], 24, false⟩ 65 (by decide) (by decide)
attribute [local instance] Target.x64 in
example := C37_monotone ⟨[], 24, false⟩ 9 65 (by decide) (by decide)
attribute [local instance] Target.x64 in
example := C37_exact_buckets ⟨[], 24, false⟩ 6 (by decide) (by decide)

end Allocative
