import Verif.Model.Write
import Verif.Lemmas.FlameGraph
set_option linter.unusedSimpArgs false
/-
The literal writer appends the lines of `entries`.
-/
namespace Allocative
namespace FlameGraph

theorem writeLoopImpl_eq (ord) (fg : FlameGraph) (h : Ok Key.Proper fg) : ∀ (stack : Path) (w : Str),
    writeLoopImpl ord fg stack.names w = w ++ (entries fg stack).flatMap renderLine := by
  induction fg using FlameGraph.induct with
  | h ch cs n ih =>
    intro stack w
    rw [writeLoopImpl, entries_mk, List.flatMap_append]
    have hs : sortedChildren ord stack.names (mk ch cs n) = sortByKey ch := by
      have hd : ((ord.run stack.names ch).map fun x => x.1.s).Nodup :=
        (((ord.perm _ _).map _).nodup_iff).2 (nodup_names h.nodup h.keys)
      exact sortByKey_eq_of_perm (ord.perm _ _) hd
    have loop : ∀ (l : List { x // x ∈ sortedChildren ord stack.names (mk ch cs n) }) (w : Str),
        l.foldl (init := (stack.names, w)) (fun (state : List Str × Str) kc =>
          ((state.1 ++ [kc.1.1.deref]).dropLast, writeLoopImpl ord kc.1.2 (state.1 ++ [kc.1.1.deref]) state.2)) =
        (stack.names, w ++ (l.map Subtype.val).flatMap fun kc => (entries kc.2 (stack ++ [kc.1])).flatMap renderLine) := by
      intro l
      induction l with
      | nil => intro w; simp
      | cons x l ihl =>
        intro w
        have hm := mem_sortedChildren x.2
        have := ih x.1 hm (h.sub x.1 hm) (stack ++ [x.1.1]) w
        have hn : (stack ++ [x.1.1]).names = stack.names ++ [x.1.1.deref] := by simp [Path.names, Key.deref]
        rw [hn] at this
        simp only [List.foldl_cons, List.dropLast_concat, List.map_cons, List.flatMap_cons] at ihl ⊢
        rw [this, ihl, List.append_assoc]
    simp only [loop, List.attach_map_subtype_val, hs, List.flatMap_assoc]
    have e : stack.names = [] ↔ stack = [] := by simp [Path.names]
    by_cases hn : n = 0
    · simp [hn]
    · by_cases hs : stack = []
      · simp [hn, hs, Path.names]
      · have := mt e.1 hs
        simp only [mk_nodeSize, ne_eq, hn, not_false_eq_true, ↓reduceIte, this, hs]
        simp [renderLine]

end FlameGraph
end Allocative
