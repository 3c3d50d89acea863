import Verif.Gc.Kinds
import Verif.Props.Races

/-!
# C54: types of retired memory
-/

namespace BwTree.Props

open BwTree
open BwTree.Gc (PageType allocated addToGC bulkRetire headType)

/-- Every object of a chain is handed over under the type it was allocated with. -/
def RetiresAll {K V : Type} (c : Chain K V) (l : List (PageType × PageType)) : Prop :=
  l.map Prod.fst = allocated c ∧ ∀ x ∈ l, x.2 = x.1

/-- `AddToGC` hands over every object of a well-formed chain under its type. -/
theorem C54_addToGC_partial {K V : Type} [LinearOrder K] {cfg : Cfg K} {inner : Bool} {low : Option K}
    {c : Chain K V} (h : ChainWF cfg inner low c) : RetiresAll c (addToGC c) := by
  induction c with
  | base n => simp [RetiresAll, addToGC, allocated]
  | removed b => exact h.elim
  | delta d nx ih =>
    obtain ⟨h1, h2, h3, _, _, _, h4⟩ := h
    obtain ⟨i1, i2⟩ := ih h1
    have : List.map Prod.fst (match d.ty, d.pay with
        | .merge, .node _ => [(PageType.node, PageType.node)]
        | _, _ => []) = (match d.pay with | .node _ => [PageType.node] | _ => []) := by
      cases ht : d.ty <;> cases hp : d.pay <;> simp_all [DPayOK]
    refine ⟨?_, ?_⟩
    · simp only [addToGC, allocated, List.map_cons, List.map_append, i1]
      exact congrArg (fun l => PageType.delta :: (l ++ allocated nx)) this
    · intro x hx
      simp only [addToGC, List.mem_cons, List.mem_append] at hx
      rcases hx with rfl | hx | hx
      · rfl
      · split at hx
        · rw [List.mem_singleton] at hx
          rw [hx]
        · cases hx
      · exact i2 x hx

/-- `Bulkload` on a new tree does so, too. -/
theorem C54_bulkload_new_partial {K V : Type} (n : Node K V) :
    RetiresAll (.base n) (bulkRetire (.base n)) := by simp [RetiresAll, bulkRetire, headType, allocated]

/-- C54 does not hold: after one `Insert` the chain of the root is a delta record over a node;
`Bulkload` hands over the delta record as if it were a node, and does not hand over the node. -/
theorem C54_false : ∃ (S : Sys Nat Nat) (c : Chain Nat Nat), Reachable smallCfg (fun _ => none) S ∧
    (∀ t, S.th t = .idle) ∧ S.sh.mt S.sh.root = some c ∧
    bulkRetire c = [(.delta, .node)] ∧ allocated c = [.delta, .node] ∧
    ¬ RetiresAll c (bulkRetire c) := by
  obtain ⟨h, S, h1, h2, h3⟩ := scenario_witness (cfg := smallCfg) (cs := exFill 1)
    (fun h S => (quietAt h S, (S.sh.mt S.sh.root).map fun c => (bulkRetire c, allocated c)))
    (x := (true, some ([(.delta, .node)], [.delta, .node]))) (by decide)
  simp only [Prod.mk.injEq, Option.map_eq_some_iff] at h3
  obtain ⟨h3, c, h4, h5, h6⟩ := h3
  refine ⟨S, c, h2, quietAt_spec h1 h3, h4, h5, h6, fun hh => ?_⟩
  have := hh.1
  rw [h5, h6] at this
  revert this
  decide

end BwTree.Props
