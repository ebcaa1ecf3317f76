import Verif.Spec.Names
set_option linter.unusedSimpArgs false
/-
With proper names, the last two labels of a stack determine whether it is unique.
-/
namespace Allocative

/-- Is a stack that of a unique pointer, going by its last two labels? -/
def owns (ρ : Str → Role) (p : Path) : Bool :=
  match p.reverse with
  | k :: x :: _ => (ρ x.s == .ptr && k.s == ascii "ptr") || (ρ x.s == .data && (k.s == ascii "data" || k.s == ascii "raw_table"))
  | _ => false

/-- All records are as the labels say. -/
def Kinded (ρ : Str → Role) (l : List Rec) : Prop := ∀ r ∈ l, r.unique = owns ρ r.path

variable {ρ : Str → Role}

theorem Kinded.nil : Kinded ρ [] := by intro r hr; cases hr
theorem Kinded.cons {r : Rec} {l : List Rec} (h : r.unique = owns ρ r.path) (hl : Kinded ρ l) : Kinded ρ (r :: l) := by
  intro x hx
  rcases List.mem_cons.1 hx with rfl | hx
  · exact h
  · exact hl x hx
theorem Kinded.append {a b : List Rec} (ha : Kinded ρ a) (hb : Kinded ρ b) : Kinded ρ (a ++ b) := by
  intro x hx
  rcases List.mem_append.1 hx with hx | hx
  · exact ha x hx
  · exact hb x hx

theorem owns_two (cur : Path) (x k : Key) : owns ρ (cur ++ [x, k]) =
    ((ρ x.s == .ptr && k.s == ascii "ptr") || (ρ x.s == .data && (k.s == ascii "data" || k.s == ascii "raw_table"))) := by
  simp [owns]

/-- A label that is none of those for unique pointers. -/
theorem owns_label (cur : Path) (k : Key) (h1 : k.s ≠ ascii "ptr") (h2 : k.s ≠ ascii "data") (h3 : k.s ≠ ascii "raw_table") : owns ρ (cur ++ [k]) = false := by
  simp only [owns, List.reverse_append, List.reverse_cons, List.reverse_nil, List.nil_append, List.cons_append]
  cases cur.reverse with
  | nil => rfl
  | cons x l => simp [h1, h2, h3]

/-- Below a type, variant or label that owns nothing. -/
theorem owns_other (cur : Path) (x k : Key) (h : ρ x.s = .other) : owns ρ (cur ++ [x] ++ [k]) = false := by
  rw [List.append_assoc]
  simp only [List.singleton_append, owns_two, h]
  rfl

/-- All of the reports of a value. -/
def Kind [Target] (ρ : Str → Role) (d : Datum) : Prop := ∀ cur, Kinded ρ (d.report cur)

theorem Ty.Named.owns {T : Ty} (h : T.Named) (cur : Path) : owns ρ (cur ++ [ty T]) = false := owns_label cur (ty T) h.1 h.2.1 h.2.2

theorem kind_each [Target] {items : List Datum} (h : ∀ d ∈ items, Kind ρ d) (cur : Path) : Kinded ρ ((Datum.parts items).flatMap fun x => x.report cur) := by
  induction items with
  | nil => exact .nil
  | cons d l ih =>
    simp only [Datum.parts, List.flatMap_cons]
    exact (h d (by simp) cur).append (ih fun x hx => h x (by simp [hx]))

theorem kind_elements [Target] {T : Ty} (hT : T.Named) {items : List Datum} (h : ∀ d ∈ items, Kind ρ d) (cur : Path) : Kinded ρ (reportElements T (Datum.parts items) cur) := by
  unfold reportElements
  split
  · exact kind_each h cur
  · exact .cons (hT.owns cur).symm .nil

theorem kind_field [Target] {d : Datum} (h : Kind ρ d) {k : Key} {cur : Path} (hk : owns ρ (cur ++ [k]) = false) : Kinded ρ (reportField k ⟨d.size, d.report⟩ cur) :=
  .cons hk.symm (h _)

theorem kind_fields [Target] {items : List Datum} (h : ∀ d ∈ items, Kind ρ d) {k : Key} {cur : Path} (hk : owns ρ (cur ++ [k]) = false) :
    Kinded ρ (reportFields k (Datum.parts items) cur) := by
  unfold reportFields
  induction items with
  | nil => exact .nil
  | cons d l ih =>
    simp only [Datum.parts, List.flatMap_cons]
    exact (kind_field (h d (by simp)) hk).append (ih fun x hx => h x (by simp [hx]))

theorem kind_tuple [Target] {items : List Datum} (h : ∀ d ∈ items, Kind ρ d) (i : Nat) {cur : Path} (hk : ∀ k, owns ρ (cur ++ [k]) = false) :
    Kinded ρ (reportTuple i (Datum.parts items) cur) := by
  induction items generalizing i with
  | nil => exact .nil
  | cons d l ih =>
    simp only [Datum.parts, reportTuple]
    exact (kind_field (h d (by simp)) (hk _)).append (ih (fun x hx => h x (by simp [hx])) (i + 1))

theorem lbl_ne (s t : String) (h : ascii s ≠ ascii t) : (lbl s).s ≠ ascii t := h

theorem kind_pairs [Target] {keys values : List Datum} (h : ∀ d ∈ keys, Kind ρ d) (h' : ∀ d ∈ values, Kind ρ d) (cur : Path) :
    Kinded ρ (reportPairs (Datum.parts keys) (Datum.parts values) cur) := by
  unfold reportPairs
  induction keys generalizing values with
  | nil => exact .nil
  | cons d l ih =>
    cases values with
    | nil => simp only [Datum.parts, List.zip_nil_right, List.flatMap_nil]; exact .nil
    | cons v vs =>
      simp only [Datum.parts, List.zip_cons_cons, List.flatMap_cons]
      exact ((kind_field (h d (by simp)) (owns_label cur (lbl "key") (lbl_ne _ _ (by decide)) (lbl_ne _ _ (by decide)) (lbl_ne _ _ (by decide)))).append
        (kind_field (h' v (by simp)) (owns_label cur (lbl "value") (lbl_ne _ _ (by decide)) (lbl_ne _ _ (by decide)) (lbl_ne _ _ (by decide))))).append
        (ih (fun x hx => h x (by simp [hx])) (fun x hx => h' x (by simp [hx])))

theorem kind_derived [Target] {items : List Datum} (h : ∀ d ∈ items, Kind ρ d) (labels : List (Str × Bool)) {cur : Path} (hk : ∀ k, owns ρ (cur ++ [k]) = false) :
    Kinded ρ (reportDerived labels (Datum.parts items) cur) := by
  unfold reportDerived
  induction items generalizing labels with
  | nil => simp only [Datum.parts, List.zip_nil_right, List.flatMap_nil]; exact .nil
  | cons d l ih =>
    cases labels with
    | nil => exact .nil
    | cons lb ls =>
      simp only [Datum.parts, List.zip_cons_cons, List.flatMap_cons]
      refine Kinded.append ?_ (ih (fun x hx => h x (by simp [hx])) ls)
      split
      · exact .nil
      · exact kind_field (h d (by simp)) (hk _)

theorem kind_self [Target] {d : Datum} {self : Ty} {size : Nat} (h : ∀ cur, d.report cur = [inl (cur ++ [ty self]) size]) (hs : self.Named) : Kind ρ d := by
  intro cur
  rw [h]
  exact .cons (hs.owns cur).symm .nil

/-- A value below a label of a type that owns nothing. -/
theorem kind_one [Target] {d v : Datum} {self : Ty} {k : Key}
    (h : ∀ cur, d.report cur = inl (cur ++ [ty self]) self.size :: inl (cur ++ [ty self, k]) v.size :: v.report (cur ++ [ty self, k]))
    (hs : self.Named) (ho : ρ self.name = .other) (hv : Kind ρ v) : Kind ρ d := by
  intro cur
  rw [h]
  exact .cons (hs.owns cur).symm (.cons (by
    show false = owns ρ (cur ++ [ty self, k])
    rw [owns_two, show (ty self).s = self.name from rfl, ho]; rfl) (hv _))

theorem owns_ptr {self : Ty} (h : ρ self.name = .ptr) (cur : Path) : true = owns ρ (cur ++ [ty self, lbl "ptr"]) := by
  rw [owns_two, show (ty self).s = self.name from rfl, h]; rfl
theorem owns_data {self : Ty} (h : ρ self.name = .data) (cur : Path) : true = owns ρ (cur ++ [ty self, lbl "data"]) := by
  rw [owns_two, show (ty self).s = self.name from rfl, h]; rfl
theorem owns_table {self : Ty} (h : ρ self.name = .data) (cur : Path) : true = owns ρ (cur ++ [ty self, lbl "raw_table"]) := by
  rw [owns_two, show (ty self).s = self.name from rfl, h]; rfl
theorem owns_below {self : Ty} (h : ρ self.name = .other) (cur : Path) (k : Key) : false = owns ρ (cur ++ [ty self, k]) := by
  rw [owns_two, show (ty self).s = self.name from rfl, h]; rfl
theorem owns_below' {self : Ty} (h : ρ self.name = .other) (cur : Path) (k : Key) : owns ρ (cur ++ [ty self] ++ [k]) = false := by
  rw [List.append_assoc]; exact (owns_below h cur k).symm
/-- `data` below a type with pointers labelled `ptr`, or with none. -/
theorem owns_nodata {T : Ty} (h : ρ T.name ≠ .data) (cur : Path) : owns ρ (cur ++ [ty T] ++ [lbl "data"]) = false := by
  rw [List.append_assoc, List.singleton_append, owns_two, show (ty T).s = T.name from rfl]
  cases hr : ρ T.name with
  | ptr => rfl
  | data => exact absurd hr h
  | other => rfl
/-- Below a label. -/
theorem owns_reserved (s : String) (h : ρ (ascii s) = .other) (cur : Path) (a : Key) (k : Key) : owns ρ (cur ++ [a, lbl s] ++ [k]) = false := by
  have : cur ++ [a, lbl s] ++ [k] = (cur ++ [a]) ++ [lbl s, k] := by simp
  rw [this, owns_two, show (lbl s).s = ascii s from rfl, h]; rfl
theorem owns_plain (l : Path) (s : String) (h1 : ascii s ≠ ascii "ptr") (h2 : ascii s ≠ ascii "data") (h3 : ascii s ≠ ascii "raw_table") : owns ρ (l ++ [lbl s]) = false :=
  owns_label l (lbl s) h1 h2 h3

theorem kind_indices [Target] {self : Ty} (h : ρ self.name = .data) (len : Nat) (cur : Path) : Kinded ρ (reportIndices len (cur ++ [ty self])) := by
  unfold reportIndices
  split
  · exact .nil
  · refine .cons ?_ (.cons ?_ .nil)
    · have := owns_table h cur
      simpa [uniq] using this
    · have := owns_plain (ρ := ρ) (cur ++ [ty self] ++ [lbl "raw_table"]) "alloc" (by decide) (by decide) (by decide)
      simpa [inl] using this.symm

theorem owns_label3 (cur : Path) (a b : Key) (s : String) (h1 : ascii s ≠ ascii "ptr") (h2 : ascii s ≠ ascii "data") (h3 : ascii s ≠ ascii "raw_table") :
    false = owns ρ (cur ++ [a, b, lbl s]) := by
  have := owns_plain (ρ := ρ) (cur ++ [a, b]) s h1 h2 h3
  simpa using this.symm
theorem owns_label4 (cur : Path) (a b c k : Key) (h1 : k.s ≠ ascii "ptr") (h2 : k.s ≠ ascii "data") (h3 : k.s ≠ ascii "raw_table") :
    false = owns ρ (cur ++ [a, b, c, k]) := by
  have := owns_label (ρ := ρ) (cur ++ [a, b, c]) k h1 h2 h3
  simpa using this.symm

mutual
theorem kind [Target] (hρ : Reserved ρ) : (d : Datum) → d.Named ρ → Kind ρ d
  | .plain self, h => kind_self (fun _ => rfl) h.1
  | .hollow _ _, _ => fun _ => .nil
  | .str _ _, _ => fun cur => .cons (owns_plain cur "str" (by decide) (by decide) (by decide)).symm .nil
  | .osStr _ _, _ => fun cur => .cons (owns_plain cur "OsStr" (by decide) (by decide) (by decide)).symm .nil
  | .box self _ v, h => fun cur => .cons (h.1.owns cur).symm (.cons (owns_ptr h.2.1 cur) (kind hρ v h.2.2 _))
  | .ok self v, h => kind_one (fun _ => rfl) h.1 h.2.1 (kind hρ v h.2.2)
  | .err self v, h => kind_one (fun _ => rfl) h.1 h.2.1 (kind hρ v h.2.2)
  | .none self, h => kind_self (fun _ => rfl) h.1
  | .some self v, h => kind_one (fun _ => rfl) h.1 h.2.1 (kind hρ v h.2.2)
  | .left self v, h => kind_one (fun _ => rfl) h.1 h.2.1 (kind hρ v h.2.2)
  | .right self v, h => kind_one (fun _ => rfl) h.1 h.2.1 (kind hρ v h.2.2)
  | .vec self T items capacity, h => fun cur => by
    simp only [Datum.report]
    refine .cons (h.1.owns cur).symm ?_
    split
    · exact .nil
    · exact .cons (owns_ptr h.2.1 cur) ((kind_elements h.2.2.1 (kindAll hρ items h.2.2.2) _).append
        (.cons (owns_label3 cur _ _ "unused_capacity" (by decide) (by decide) (by decide)) .nil))
  | .vecDeque self T front back capacity, h => fun cur => by
    simp only [Datum.report]
    refine .cons (h.1.owns cur).symm ?_
    split
    · exact .nil
    · exact .cons (owns_ptr h.2.1 cur) (((kind_elements h.2.2.1 (kindAll hρ front h.2.2.2.1) _).append (kind_elements h.2.2.1 (kindAll hρ back h.2.2.2.2) _)).append
        (.cons (owns_label3 cur _ _ "unused_capacity" (by decide) (by decide) (by decide)) .nil))
  | .string self len capacity, h => fun cur =>
    .cons (h.1.owns cur).symm (.cons (owns_ptr h.2 cur) (.cons (owns_label3 cur _ _ "capacity" (by decide) (by decide) (by decide))
      (.cons (owns_label4 cur _ _ _ (Key.forTypeName (ascii "u8")) (by decide) (by decide) (by decide))
        (.cons (owns_label4 cur _ _ _ (lbl "unused_capacity") (by decide) (by decide) (by decide)) .nil))))
  | .pathBuf self len capacity, h => fun cur => by
    simp only [Datum.report]
    refine .cons (h.1.owns cur).symm ?_
    split
    · exact .nil
    · exact .cons (owns_ptr h.2 cur) (.cons (owns_label3 cur _ _ "path" (by decide) (by decide) (by decide))
        (.cons (owns_label3 cur _ _ "unused_capacity" (by decide) (by decide) (by decide)) .nil))
  | .compactString self heapAllocated len capacity, h => fun cur => by
    simp only [Datum.report]
    refine .cons (h.1.owns cur).symm ?_
    split
    · exact .cons (owns_ptr h.2 cur) (.cons (owns_label3 cur _ _ "str" (by decide) (by decide) (by decide))
        (.cons (owns_label3 cur _ _ "unused_capacity" (by decide) (by decide) (by decide)) .nil))
    · exact .nil
  | .slice self T items, h => fun cur => .cons (h.1.owns cur).symm (kind_fields (kindAll hρ items h.2.2) (owns_nodata h.2.1 cur))
  | .array self T items, h => fun cur => .cons (h.1.owns cur).symm (kind_fields (kindAll hρ items h.2.2) (owns_nodata h.2.1 cur))
  | .tuple self fields, h => fun cur => .cons (h.1.owns cur).symm (kind_tuple (kindAll hρ fields h.2.2) 0 (owns_below' h.2.1 cur))
  | .manuallyDrop self v, h => fun cur => .cons (h.1.owns cur).symm (.cons (owns_below h.2.1 cur _) (kind hρ v h.2.2 _))
  | .cell self accessible v, h => fun cur => by
    simp only [Datum.report]
    refine .cons (h.1.owns cur).symm ?_
    split
    · exact .cons (owns_below h.2.1 cur _) (kind hρ v h.2.2 _)
    · exact .nil
  | .cellEmpty self, h => kind_self (fun _ => rfl) h.1
  | .onceCell self v, h => fun cur => .cons (h.1.owns cur).symm (kind hρ v h.2.2 _)
  | .onceCellEmpty self, h => kind_self (fun _ => rfl) h.1
  | .map self _ keys values, h => fun cur => .cons (h.1.owns cur).symm (.cons (owns_below h.2.1 cur _) (kind_pairs (kindAll hρ keys h.2.2.1) (kindAll hρ values h.2.2.2) _))
  | .set self _ items, h => fun cur => .cons (h.1.owns cur).symm (.cons (owns_below h.2.1 cur _)
      (kind_fields (kindAll hρ items h.2.2) (owns_plain _ "key" (by decide) (by decide) (by decide))))
  | .smallVecInline self T items, h => fun cur => .cons (h.1.owns cur).symm (kind_fields (kindAll hρ items h.2.2) (owns_nodata (by rw [h.2.1]; decide) cur))
  | .smallVecSpilled self T items _, h => fun cur => .cons (h.1.owns cur).symm (.cons (owns_ptr h.2.1 cur)
      (kind_fields (kindAll hρ items h.2.2) (owns_reserved "ptr" hρ.1 cur _ _)))
  | .slab self T _ items capacity, h => fun cur => by
    simp only [Datum.report]
    refine .cons (h.1.owns cur).symm ?_
    split
    · exact .nil
    · exact .cons (owns_ptr h.2.1 cur) ((kind_elements h.2.2.1 (kindAll hρ items h.2.2.2) _).append
        (.cons (owns_label3 cur _ _ "unused_capacity" (by decide) (by decide) (by decide)) .nil))
  | .arc self _ _, h => fun cur => .cons (h.1.owns cur).symm (.cons (owns_below h.2 cur _) .nil)
  | .weakDangling self, h => kind_self (fun _ => rfl) h.1
  | .weak self strong _ _, h => fun cur => .cons (h.1.owns cur).symm (.cons (owns_below h.2.1 cur _) (.cons (by
      have := owns_below h.2.2.2 (cur ++ [ty self]) (lbl "ptr")
      simpa [inl] using this) .nil))
  | .hashTable self T items capacity _, h => fun cur => .cons (h.1.owns cur).symm (.cons (owns_data h.2.1 cur)
      (.cons (owns_label3 cur _ _ "capacity" (by decide) (by decide) (by decide)) (kind_elements h.2.2.1 (kindAll hρ items h.2.2.2) _)))
  | .indexSet self T items capacity _ _, h => fun cur => by
    simp only [Datum.report]
    exact (Kinded.append (.cons (h.1.owns cur).symm (.cons (owns_data h.2.1 cur)
      ((kind_fields (kindAll hρ items h.2.2) (owns_plain _ "value" (by decide) (by decide) (by decide))).append
        (.cons (owns_label3 cur _ _ "unused_capacity" (by decide) (by decide) (by decide)) .nil)))) (kind_indices h.2.1 _ cur))
  | .indexMap self _ _ KV keys values capacity _ _, h => fun cur => by
    simp only [Datum.report]
    exact (Kinded.append (.cons (h.1.owns cur).symm (.cons (owns_data h.2.1 cur)
      ((kind_pairs (kindAll hρ keys h.2.2.1) (kindAll hρ values h.2.2.2) _).append
        (.cons (owns_label3 cur _ _ "unused_capacity" (by decide) (by decide) (by decide)) .nil)))) (kind_indices h.2.1 _ cur))
  | .dashMap self _ _ KV capacity keys values _ _ _, h => fun cur =>
    .cons (h.1.owns cur).symm (.cons (owns_ptr h.2.1 cur) (.cons (owns_label3 cur _ _ "capacity" (by decide) (by decide) (by decide))
      ((kind_pairs (kindAll hρ keys h.2.2.1) (kindAll hρ values h.2.2.2) _).append
        (.cons (owns_label4 cur _ _ _ (lbl "unused_capacity") (by decide) (by decide) (by decide)) .nil))))
  | .dashSet self T capacity items _ _ _, h => fun cur =>
    .cons (h.1.owns cur).symm (.cons (owns_ptr h.2.1 cur) (.cons (owns_label3 cur _ _ "capacity" (by decide) (by decide) (by decide))
      ((kind_fields (kindAll hρ items h.2.2) (by
        have := owns_reserved "capacity" hρ.2.1 (cur ++ [ty self]) (lbl "ptr") (lbl "data")
        simpa using this)).append
        (.cons (owns_label4 cur _ _ _ (lbl "unused_capacity") (by decide) (by decide) (by decide)) .nil))))
  | .bigInt self _ _, h => fun cur => .cons (h.1.owns cur).symm (.cons (owns_ptr h.2 cur) (.cons (by
      have := owns_reserved "ptr" hρ.1 cur (ty self) (lbl "data")
      simpa [inl] using this.symm) .nil))
  | .bump self _ _ _, h => fun cur => .cons (h.1.owns cur).symm (.cons (owns_ptr h.2 cur) (.cons (by
      have := owns_reserved "ptr" hρ.1 cur (ty self) (lbl "data")
      simpa [inl] using this.symm) (.cons (owns_label3 cur _ _ "unused_capacity" (by decide) (by decide) (by decide)) .nil)))
  | .jsonMap self _ keys values, h => fun cur => .cons (h.1.owns cur).symm (.cons (owns_data h.2.1 cur)
      (kind_pairs (kindAll hρ keys h.2.2.1) (kindAll hρ values h.2.2.2) _))
  | .jsonLeaf self, h => kind_self (fun _ => rfl) h.1
  | .json self _ v, h => kind_one (fun _ => rfl) h.1 h.2.1 (kind hρ v h.2.2)
  | .futuresPending self, h => kind_self (fun _ => rfl) h.1
  | .futuresShared self _, h => fun cur => .cons (h.1.owns cur).symm (.cons (owns_below h.2 cur _) .nil)
  | .headerSlice self _ header tail, h => fun cur => by
    simp only [Datum.report]
    exact (Kinded.append (.cons (h.1.owns cur).symm (.cons (owns_below h.2.1 cur _) (kind hρ header h.2.2.1 _)))
      (.cons (owns_below h.2.1 cur _) (kind hρ tail h.2.2.2 _)))
  | .headerWithLength self header len, h => fun cur => by
    simp only [Datum.report]
    exact (Kinded.append (.cons (h.1.owns cur).symm (.cons (owns_below h.2.1 cur _) (kind hρ header h.2.2.1 _)))
      (.cons (owns_below h.2.1 cur _) (kind hρ len h.2.2.2 _)))
  | .struct self size labels fields, h => fun cur => .cons (h.1.owns cur).symm (kind_derived (kindAll hρ fields h.2.2) labels (owns_below' h.2.1 cur))
  | .enum self variant labels fields, h => fun cur => .cons (h.1.owns cur).symm (.cons (owns_below h.2.1 cur _)
      (kind_derived (kindAll hρ fields h.2.2.2) labels (fun k => by
        have := owns_other (ρ := ρ) (cur ++ [ty self]) (Key.new variant) k h.2.2.1
        simpa using this)))
  | .unit self _ _, h => kind_self (fun _ => rfl) h.1
theorem kindAll [Target] (hρ : Reserved ρ) : (l : List Datum) → Datum.NamedAll ρ l → ∀ d ∈ l, Kind ρ d
  | [], _ => by simp
  | d :: l, h => by
    intro x hx
    rcases List.mem_cons.1 hx with hx | hx
    · rw [hx]; exact kind hρ d h.1
    · exact kindAll hρ l h.2 x hx
end

theorem kind_cell [Target] (hρ : Reserved ρ) (c : Cell) (h : c.Named ρ) : Kinded ρ c.report := by
  cases c with
  | arc size v => exact .cons (owns_plain [] "ArcInner" (by decide) (by decide) (by decide)).symm (kind hρ v h _)
  | rc size v => exact .cons (owns_plain [] "RcInner" (by decide) (by decide) (by decide)).symm (kind hρ v h _)
  | triomphe size v =>
    exact .cons (owns_label [] _ (by decide) (by decide) (by decide)).symm
      (.cons (owns_other [] (Key.forTypeName (ascii "allocative::impls::triomphe::ArcInnerRepr")) (lbl "data") hρ.2.2).symm (kind hρ v h _))
  | thin repr size v =>
    exact .cons (h.1.owns []).symm (.cons (owns_below h.2.1 [] _) (kind hρ v h.2.2 _))
  | future v => exact kind hρ v h _

/-- With proper names no stack is entered both as unique and as inline. -/
theorem unmixed_names [Target] (hρ : Reserved ρ) (roots : List Datum) (cells : Ptr → Cell) (L : List Ptr) (hr : ∀ d ∈ roots, d.Named ρ) (hc : ∀ p ∈ L, (cells p).Named ρ) :
    ∀ recs, recs = roots.flatMap (fun d => d.report []) ++ L.flatMap (fun p => (cells p).report) →
      ∀ r ∈ recs, ∀ r' ∈ recs, r.path = r'.path → r.unique = r'.unique := by
  rintro _ rfl r hr1 r' hr2 e
  have : Kinded ρ (roots.flatMap (fun d => d.report []) ++ L.flatMap (fun p => (cells p).report)) := by
    refine Kinded.append ?_ ?_
    · intro r h
      obtain ⟨d, hd, h⟩ := List.mem_flatMap.1 h
      exact kind hρ d (hr d hd) [] r h
    · intro r h
      obtain ⟨d, hd, h⟩ := List.mem_flatMap.1 h
      exact kind_cell hρ _ (hc d hd) r h
  rw [this r hr1, this r' hr2, e]

end Allocative
