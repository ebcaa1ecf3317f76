import Verif.Model.Datum
import Verif.Spec.Rename
/-
The same values in another run of the program (C74): hash maps and sets iterate over their entries in another order.
-/
namespace Allocative

mutual
/-- The same value, where the entries of hash maps, hash sets and hash tables (at any depth) are in another order. -/
inductive Datum.Reordered : Datum → Datum → Prop
  | refl (d) : Reordered d d
  | trans {a b c} : Reordered a b → Reordered b c → Reordered a c
  -- the order of the entries; `keys` and `values` are in step
  | mapOrder (self table) {keys values keys' values'} : (keys.zip values).Perm (keys'.zip values') → Reordered (.map self table keys values) (.map self table keys' values')
  | setOrder (self table) {items items'} : items.Perm items' → Reordered (.set self table items) (.set self table items')
  | hashTableOrder (self T capacity table) {items items'} : items.Perm items' → Reordered (.hashTable self T items capacity table) (.hashTable self T items' capacity table)
  | dashMapOrder (self K V KV capacity capacityLater len table) {keys values keys' values'} : (keys.zip values).Perm (keys'.zip values') →
      Reordered (.dashMap self K V KV capacity keys values capacityLater len table) (.dashMap self K V KV capacity keys' values' capacityLater len table)
  | dashSetOrder (self T capacity capacityLater len table) {items items'} : items.Perm items' →
      Reordered (.dashSet self T capacity items capacityLater len table) (.dashSet self T capacity items' capacityLater len table)
  -- inside of other values
  | box (self n) {v v'} : Reordered v v' → Reordered (.box self n v) (.box self n v')
  | ok (self) {v v'} : Reordered v v' → Reordered (.ok self v) (.ok self v')
  | err (self) {v v'} : Reordered v v' → Reordered (.err self v) (.err self v')
  | some (self) {v v'} : Reordered v v' → Reordered (.some self v) (.some self v')
  | left (self) {v v'} : Reordered v v' → Reordered (.left self v) (.left self v')
  | right (self) {v v'} : Reordered v v' → Reordered (.right self v) (.right self v')
  | manuallyDrop (self) {v v'} : Reordered v v' → Reordered (.manuallyDrop self v) (.manuallyDrop self v')
  | cell (self accessible) {v v'} : Reordered v v' → Reordered (.cell self accessible v) (.cell self accessible v')
  | onceCell (self) {v v'} : Reordered v v' → Reordered (.onceCell self v) (.onceCell self v')
  | json (self variant) {v v'} : Reordered v v' → Reordered (.json self variant v) (.json self variant v')
  | headerSlice (self n) {h h' s s'} : Reordered h h' → Reordered s s' → Reordered (.headerSlice self n h s) (.headerSlice self n h' s')
  | headerWithLength (self) {h h' s s'} : Reordered h h' → Reordered s s' → Reordered (.headerWithLength self h s) (.headerWithLength self h' s')
  | vec (self T capacity) {l l'} : ReorderedEach l l' → Reordered (.vec self T l capacity) (.vec self T l' capacity)
  | vecDeque (self T capacity) {l l' m m'} : ReorderedEach l l' → ReorderedEach m m' → Reordered (.vecDeque self T l m capacity) (.vecDeque self T l' m' capacity)
  | slice (self T) {l l'} : ReorderedEach l l' → Reordered (.slice self T l) (.slice self T l')
  | array (self T) {l l'} : ReorderedEach l l' → Reordered (.array self T l) (.array self T l')
  | tuple (self) {l l'} : ReorderedEach l l' → Reordered (.tuple self l) (.tuple self l')
  | map (self table) {k k' v v'} : ReorderedEach k k' → ReorderedEach v v' → Reordered (.map self table k v) (.map self table k' v')
  | set (self table) {l l'} : ReorderedEach l l' → Reordered (.set self table l) (.set self table l')
  | smallVecInline (self T) {l l'} : ReorderedEach l l' → Reordered (.smallVecInline self T l) (.smallVecInline self T l')
  | smallVecSpilled (self T capacity) {l l'} : ReorderedEach l l' → Reordered (.smallVecSpilled self T l capacity) (.smallVecSpilled self T l' capacity)
  | slab (self T entry capacity) {l l'} : ReorderedEach l l' → Reordered (.slab self T entry l capacity) (.slab self T entry l' capacity)
  | hashTable (self T capacity table) {l l'} : ReorderedEach l l' → Reordered (.hashTable self T l capacity table) (.hashTable self T l' capacity table)
  | indexSet (self T capacity bucket table) {l l'} : ReorderedEach l l' → Reordered (.indexSet self T l capacity bucket table) (.indexSet self T l' capacity bucket table)
  | indexMap (self K V KV capacity bucket table) {k k' v v'} : ReorderedEach k k' → ReorderedEach v v' →
      Reordered (.indexMap self K V KV k v capacity bucket table) (.indexMap self K V KV k' v' capacity bucket table)
  | dashMap (self K V KV capacity capacityLater len table) {k k' v v'} : ReorderedEach k k' → ReorderedEach v v' →
      Reordered (.dashMap self K V KV capacity k v capacityLater len table) (.dashMap self K V KV capacity k' v' capacityLater len table)
  | dashSet (self T capacity capacityLater len table) {l l'} : ReorderedEach l l' →
      Reordered (.dashSet self T capacity l capacityLater len table) (.dashSet self T capacity l' capacityLater len table)
  | jsonMap (self table) {k k' v v'} : ReorderedEach k k' → ReorderedEach v v' → Reordered (.jsonMap self table k v) (.jsonMap self table k' v')
  | struct (self size labels) {l l'} : ReorderedEach l l' → Reordered (.struct self size labels l) (.struct self size labels l')
  | enum (self variant labels) {l l'} : ReorderedEach l l' → Reordered (.enum self variant labels l) (.enum self variant labels l')
/-- Each value of a list. -/
inductive Datum.ReorderedEach : List Datum → List Datum → Prop
  | nil : ReorderedEach [] []
  | cons {d d' l l'} : Datum.Reordered d d' → ReorderedEach l l' → ReorderedEach (d :: l) (d' :: l')
end

/-- The same for a shared allocation. -/
inductive Cell.Reordered : Cell → Cell → Prop
  | arc (n) {v v'} : v.Reordered v' → Reordered (.arc n v) (.arc n v')
  | rc (n) {v v'} : v.Reordered v' → Reordered (.rc n v) (.rc n v')
  | triomphe (n) {v v'} : v.Reordered v' → Reordered (.triomphe n v) (.triomphe n v')
  | thin (T n) {v v'} : v.Reordered v' → Reordered (.thin T n v) (.thin T n v')
  | future {v v'} : v.Reordered v' → Reordered (.future v) (.future v')

end Allocative
