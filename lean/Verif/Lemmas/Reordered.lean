import Verif.Spec.Reordered
import Verif.Spec.Object
import Verif.Lemmas.Rename
set_option linter.unusedSimpArgs false
/-
Reordered values have shuffled visits.
-/
namespace Allocative

namespace Obj.Shuffle

theorem refl : ∀ o : Obj, o.Shuffle o
  | .nil => .nil
  | .inline k n e a r => .inline k n e (refl a) (refl r)
  | .unique k n e a r => .unique k n e (refl a) (refl r)
  | .shared k n p e r => .shared k n p e (refl r)

theorem appendLeft (a : Obj) {b b' : Obj} (h : b.Shuffle b') : (a.append b).Shuffle (a.append b') := by
  induction a with
  | nil => exact h
  | inline k n e i r _ ih => exact .inline k n e (refl i) ih
  | unique k n e i r _ ih => exact .unique k n e (refl i) ih
  | shared k n p e r ih => exact .shared k n p e ih

theorem appendRight (b : Obj) {a a' : Obj} (h : a.Shuffle a') : (a.append b).Shuffle (a'.append b) := by
  induction h with
  | nil => exact refl _
  | inline k n e h _ _ ih => exact .inline k n e h ih
  | unique k n e h _ _ ih => exact .unique k n e h ih
  | shared k n p e _ ih => exact .shared k n p e ih
  | swapII => exact .swapII ..
  | swapIU => exact .swapIU ..
  | swapUU => exact .swapUU ..
  | swapIS => exact .swapIS ..
  | swapUS => exact .swapUS ..
  | swapSS => exact .swapSS ..
  | symm _ ih => exact .symm ih
  | trans _ _ ih1 ih2 => exact .trans ih1 ih2

theorem append {a a' b b' : Obj} (h : a.Shuffle a') (h' : b.Shuffle b') : (a.append b).Shuffle (a'.append b') := (h.appendRight b).trans (appendLeft a' h')

theorem append_nil (a : Obj) : a.append .nil = a := by
  induction a with
  | nil => rfl
  | inline k n e i r _ ih => simp only [Obj.append, ih]
  | unique k n e i r _ ih => simp only [Obj.append, ih]
  | shared k n p e r ih => simp only [Obj.append, ih]

theorem append_assoc (a b c : Obj) : (a.append b).append c = a.append (b.append c) := by
  induction a with
  | nil => rfl
  | inline k n e i r _ ih => simp only [Obj.append, ih]
  | unique k n e i r _ ih => simp only [Obj.append, ih]
  | shared k n p e r ih => simp only [Obj.append, ih]

/-- One call moves behind others. -/
theorem behind (b : Obj) : (∀ k n e i r, (Obj.inline k n e i (b.append r)).Shuffle (b.append (.inline k n e i r))) ∧
    (∀ k n e i r, (Obj.unique k n e i (b.append r)).Shuffle (b.append (.unique k n e i r))) ∧
    (∀ k n p e r, (Obj.shared k n p e (b.append r)).Shuffle (b.append (.shared k n p e r))) := by
  induction b with
  | nil => exact ⟨fun _ _ _ _ _ => refl _, fun _ _ _ _ _ => refl _, fun _ _ _ _ _ => refl _⟩
  | inline k' n' e' i' r' _ ih =>
    obtain ⟨h1, h2, h3⟩ := ih
    exact ⟨fun k n e i r => .trans (.swapII ..) (.inline _ _ _ (refl _) (h1 ..)), fun k n e i r => .trans (.symm (.swapIU ..)) (.inline _ _ _ (refl _) (h2 ..)),
      fun k n p e r => .trans (.symm (.swapIS ..)) (.inline _ _ _ (refl _) (h3 ..))⟩
  | unique k' n' e' i' r' _ ih =>
    obtain ⟨h1, h2, h3⟩ := ih
    exact ⟨fun k n e i r => .trans (.swapIU ..) (.unique _ _ _ (refl _) (h1 ..)), fun k n e i r => .trans (.swapUU ..) (.unique _ _ _ (refl _) (h2 ..)),
      fun k n p e r => .trans (.symm (.swapUS ..)) (.unique _ _ _ (refl _) (h3 ..))⟩
  | shared k' n' p' e' r' ih =>
    obtain ⟨h1, h2, h3⟩ := ih
    exact ⟨fun k n e i r => .trans (.swapIS ..) (.shared _ _ _ _ (h1 ..)), fun k n e i r => .trans (.swapUS ..) (.shared _ _ _ _ (h2 ..)),
      fun k n p e r => .trans (.swapSS ..) (.shared _ _ _ _ (h3 ..))⟩

theorem comm (a b c : Obj) : (a.append (b.append c)).Shuffle (b.append (a.append c)) := by
  induction a with
  | nil => exact refl _
  | inline k n e i r _ ih => exact .trans (.inline _ _ _ (refl _) ih) ((behind b).1 ..)
  | unique k n e i r _ ih => exact .trans (.unique _ _ _ (refl _) ih) ((behind b).2.1 ..)
  | shared k n p e r ih => exact .trans (.shared _ _ _ _ ih) ((behind b).2.2 ..)

theorem concat_perm {l l' : List Obj} (h : l.Perm l') : (Obj.concat l).Shuffle (Obj.concat l') := by
  induction h with
  | nil => exact .nil
  | cons x _ ih => exact appendLeft x ih
  | swap x y l => exact comm y x _
  | trans _ _ ih1 ih2 => exact .trans ih1 ih2

theorem enter (k n e) {o o' : Obj} (h : o.Shuffle o') : (Visit.enter k n e o).Shuffle (Visit.enter k n e o') := .inline k n e h .nil
theorem enterUnique (k n e) {o o' : Obj} (h : o.Shuffle o') : (Visit.enterUnique k n e o).Shuffle (Visit.enterUnique k n e o') := .unique k n e h .nil

end Obj.Shuffle

/-- The same value up to the order of calls. -/
structure Value.Like (v w : Value) : Prop where
  ty : v.ty = w.ty
  size : v.sizeOfVal = w.sizeOfVal
  visit : v.visit.Shuffle w.visit

inductive Value.LikeEach : List Value → List Value → Prop
  | nil : LikeEach [] []
  | cons {v w l l'} : v.Like w → LikeEach l l' → LikeEach (v :: l) (w :: l')

theorem Value.Like.field {v w : Value} (h : v.Like w) (k : Key) : (Visit.field k v).Shuffle (Visit.field k w) := by
  simp only [Visit.field, Visit.fieldWith, h.size]
  exact .enter _ _ _ h.visit

theorem like_sized {self : Ty} {a b : Obj} (h : a.Shuffle b) : (Impl.sized self a).Like (Impl.sized self b) := ⟨rfl, rfl, h⟩

namespace Value.LikeEach

theorem length {l l' : List Value} (h : LikeEach l l') : l.length = l'.length := by
  induction h with
  | nil => rfl
  | cons _ _ ih => simp [ih]

theorem fields {l l' : List Value} (h : LikeEach l l') (k : Key) :
    (Obj.concat (l.map fun v => Visit.field k v)).Shuffle (Obj.concat (l'.map fun v => Visit.field k v)) := by
  induction h with
  | nil => exact .nil
  | cons h _ ih => exact .append (h.field k) ih

theorem each {l l' : List Value} (h : LikeEach l l') : (Visit.each l).Shuffle (Visit.each l') := by
  induction h with
  | nil => exact .nil
  | cons h _ ih => exact .append h.visit ih

theorem iter [Target] (T : Ty) {l l' : List Value} (h : LikeEach l l') : (Visit.iter T l).Shuffle (Visit.iter T l') := by
  unfold Visit.iter
  rw [h.length]
  split
  · exact .refl _
  · exact h.each

theorem pairs (a b : Key) {k k' v v' : List Value} (h : LikeEach k k') (h' : LikeEach v v') :
    (Obj.concat ((k.zip v).map fun e => (Visit.field a e.1).append (Visit.field b e.2))).Shuffle
      (Obj.concat ((k'.zip v').map fun e => (Visit.field a e.1).append (Visit.field b e.2))) := by
  induction h generalizing v v' with
  | nil => exact .refl _
  | cons h _ ih =>
    cases h' with
    | nil => exact .refl _
    | cons h' hs => exact .append (.append (h.field a) (h'.field b)) (ih hs)

theorem zip_length {k k' v v' : List Value} (h : LikeEach k k') (h' : LikeEach v v') : (k.zip v).length = (k'.zip v').length := by
  simp [h.length, h'.length]

theorem tuple (i : Nat) {l l' : List Value} (h : LikeEach l l') :
    (Obj.concat ((tupleLabels i l).map fun f => Visit.field (Key.new f.1) f.2)).Shuffle (Obj.concat ((tupleLabels i l').map fun f => Visit.field (Key.new f.1) f.2)) := by
  induction h generalizing i with
  | nil => exact .nil
  | cons h _ ih => exact .append (h.field _) (ih _)

theorem derived (labels : List (Str × Bool)) {l l' : List Value} (h : LikeEach l l') : (Visit.derivedFields labels l).Shuffle (Visit.derivedFields labels l') := by
  induction h generalizing labels with
  | nil => cases labels <;> exact .nil
  | cons h _ ih =>
    cases labels with
    | nil => exact .nil
    | cons x labels =>
      obtain ⟨label, skip⟩ := x
      refine .append ?_ (ih labels)
      split
      · exact .nil
      · exact h.field _

end Value.LikeEach

theorem values_zip [Target] (k v : List Datum) : (Datum.values k).zip (Datum.values v) = (k.zip v).map fun e => (e.1.value, e.2.value) := by
  induction k generalizing v with
  | nil => rfl
  | cons a k ih =>
    cases v with
    | nil => rfl
    | cons b v => simp [Datum.values, ih]

theorem values_perm [Target] {l l' : List Datum} (h : l.Perm l') : (Datum.values l).Perm (Datum.values l') := by
  have e : ∀ l, Datum.values l = l.map Datum.value := by
    intro l
    induction l with
    | nil => rfl
    | cons d l ih => simp [Datum.values, ih]
  rw [e, e]
  exact h.map _

theorem zip_perm [Target] {k v k' v' : List Datum} (h : (k.zip v).Perm (k'.zip v')) : ((Datum.values k).zip (Datum.values v)).Perm ((Datum.values k').zip (Datum.values v')) := by
  rw [values_zip, values_zip]
  exact h.map _

theorem iter_perm [Target] (T : Ty) {l l' : List Value} (h : l.Perm l') : (Visit.iter T l).Shuffle (Visit.iter T l') := by
  unfold Visit.iter
  rw [h.length_eq]
  split
  · exact .refl _
  · exact .concat_perm (h.map _)

mutual
theorem Datum.Reordered.like [Target] {d d' : Datum} : d.Reordered d' → d.value.Like d'.value
  | .refl d => ⟨rfl, rfl, .refl _⟩
  | .trans h h' => ⟨h.like.ty.trans h'.like.ty, h.like.size.trans h'.like.size, h.like.visit.trans h'.like.visit⟩
  | .mapOrder _ _ h => like_sized (.enter _ _ _ (.enter _ _ _ (.concat_perm ((zip_perm h).map _))))
  | .setOrder _ _ h => like_sized (.enter _ _ _ (.enter _ _ _ (.concat_perm ((values_perm h).map _))))
  | .hashTableOrder _ _ _ _ h => like_sized (.enter _ _ _ (.enterUnique _ _ _ (.enter _ _ _ (iter_perm _ (values_perm h)))))
  | .dashMapOrder _ _ _ _ _ _ _ _ h => like_sized (.enter _ _ _ (.enterUnique _ _ _ (.enter _ _ _ (.appendRight _ (.concat_perm ((zip_perm h).map _))))))
  | .dashSetOrder _ _ _ _ _ _ h => like_sized (.enter _ _ _ (.enterUnique _ _ _ (.enter _ _ _ (.appendRight _ (.concat_perm ((values_perm h).map _))))))
  | .box _ _ h => like_sized (.enter _ _ _ (.enterUnique _ _ _ h.like.visit))
  | .ok _ h => like_sized (.enter _ _ _ (h.like.field _))
  | .err _ h => like_sized (.enter _ _ _ (h.like.field _))
  | .some _ h => like_sized (.enter _ _ _ (h.like.field _))
  | .left _ h => like_sized (.enter _ _ _ (h.like.field _))
  | .right _ h => like_sized (.enter _ _ _ (h.like.field _))
  | .manuallyDrop _ (v := v) (v' := v') h => by
    have l := h.like
    refine ⟨rfl, l.size, ?_⟩
    show (Visit.enterSelf _ v.value.sizeOfVal .exit _).Shuffle (Visit.enterSelf _ v'.value.sizeOfVal .exit _)
    rw [l.size]
    exact .enter _ _ _ (l.field _)
  | .cell _ accessible h => by
    cases accessible with
    | false => exact ⟨rfl, rfl, .refl _⟩
    | true => exact like_sized (.enter _ _ _ (h.like.field _))
  | .onceCell _ h => like_sized (.enter _ _ _ h.like.visit)
  | .json _ _ h => like_sized (.enter _ _ _ (h.like.field _))
  | .headerSlice _ _ h h' => ⟨rfl, rfl, .enter _ _ _ (.append (h.like.field _) (h'.like.field _))⟩
  | .headerWithLength _ h h' => like_sized (.enter _ _ _ (.append (h.like.field _) (h'.like.field _)))
  | .vec self T capacity (l := l) (l' := l') h => by
    have hl := h.likeEach
    refine like_sized (.enter _ _ _ ?_)
    rw [hl.length]
    split
    · exact .enterUnique _ _ _ (.appendRight _ (hl.iter T))
    · exact .nil
  | .vecDeque self T capacity h h' => by
    have hl := h.likeEach
    have hl' := h'.likeEach
    refine like_sized (.enter _ _ _ ?_)
    rw [hl.length, hl'.length]
    split
    · exact .enterUnique _ _ _ (.appendRight _ (.append (hl.iter T) (hl'.iter T)))
    · exact .nil
  | .slice self T (l := l) (l' := l') h => by
    have hl := h.likeEach
    refine ⟨rfl, ?_, ?_⟩
    · show Usize.mul T.size _ = Usize.mul T.size _
      rw [hl.length]
    · show (Impl.sliceVisit T _).Shuffle (Impl.sliceVisit T _)
      unfold Impl.sliceVisit
      rw [hl.length]
      exact .enter _ _ _ (hl.fields _)
  | .array self T h => by
    have hl := h.likeEach
    refine ⟨rfl, rfl, ?_⟩
    show (Impl.sliceVisit T _).Shuffle (Impl.sliceVisit T _)
    unfold Impl.sliceVisit
    rw [hl.length]
    exact .enter _ _ _ (hl.fields _)
  | .tuple _ h => like_sized (.enter _ _ _ (h.likeEach.tuple 0))
  | .map _ _ h h' => like_sized (.enter _ _ _ (.enter _ _ _ (h.likeEach.pairs _ _ h'.likeEach)))
  | .set _ _ h => like_sized (.enter _ _ _ (.enter _ _ _ (h.likeEach.fields _)))
  | .smallVecInline _ _ h => like_sized (.enter _ _ _ (h.likeEach.fields _))
  | .smallVecSpilled _ _ _ h => like_sized (.enter _ _ _ (.enterUnique _ _ _ (h.likeEach.fields _)))
  | .slab self T entry capacity h => by
    have hl := h.likeEach
    refine like_sized (.enter _ _ _ ?_)
    rw [hl.length]
    split
    · exact .enterUnique _ _ _ (.appendRight _ (hl.iter T))
    · exact .nil
  | .hashTable _ _ _ _ h => like_sized (.enter _ _ _ (.enterUnique _ _ _ (.enter _ _ _ (h.likeEach.iter _))))
  | .indexSet self T capacity bucket table h => by
    have hl := h.likeEach
    refine like_sized (.enter _ _ _ ?_)
    rw [hl.length]
    exact .appendRight _ (.enterUnique _ _ _ (.appendRight _ (hl.fields _)))
  | .indexMap self K V KV capacity bucket table h h' => by
    have hl := h.likeEach
    have hl' := h'.likeEach
    refine like_sized (.enter _ _ _ ?_)
    rw [hl.zip_length hl']
    exact .appendRight _ (.enterUnique _ _ _ (.appendRight _ (hl.pairs _ _ hl')))
  | .dashMap _ _ _ _ _ _ _ _ h h' => like_sized (.enter _ _ _ (.enterUnique _ _ _ (.enter _ _ _ (.appendRight _ (h.likeEach.pairs _ _ h'.likeEach)))))
  | .dashSet _ _ _ _ _ _ h => like_sized (.enter _ _ _ (.enterUnique _ _ _ (.enter _ _ _ (.appendRight _ (h.likeEach.fields _)))))
  | .jsonMap _ _ h h' => like_sized (.enter _ _ _ (.enterUnique _ _ _ (h.likeEach.pairs _ _ h'.likeEach)))
  | .struct _ _ labels h => ⟨rfl, rfl, .enter _ _ _ (h.likeEach.derived labels)⟩
  | .enum _ _ labels h => like_sized (.enter _ _ _ (.enter _ _ _ (h.likeEach.derived labels)))
theorem Datum.ReorderedEach.likeEach [Target] {l l' : List Datum} : Datum.ReorderedEach l l' → Value.LikeEach (Datum.values l) (Datum.values l')
  | .nil => .nil
  | .cons h hs => .cons h.like hs.likeEach
end

theorem Cell.Reordered.shuffle [Target] {c c' : Cell} (h : c.Reordered c') : c.visit.Shuffle c'.visit := by
  cases h with
  | arc n h => exact .enter _ _ _ h.like.visit
  | rc n h => exact .enter _ _ _ h.like.visit
  | triomphe n h => exact .enter _ _ _ (h.like.field _)
  | thin T n h => exact .enter _ _ _ (h.like.field _)
  | future h => exact h.like.visit

end Allocative
