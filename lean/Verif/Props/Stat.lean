import Verif.Props.Roots
import Verif.Stat.Lemmas

/-!
# Statistics of the tree (C49)
-/

namespace BwTree.Props

open BwTree

set_option linter.unusedSectionVars false

variable {K V : Type} [LinearOrder K] {cfg : Cfg K}

/-- Bytes used by a page: its base node and its delta records. -/
def usedAt (recSz : Nat) (sh : Sh K V) (p : PID) : Int :=
  match sh.mt p with
  | some c => (match Spec.baseOf c with | some n => n.size | none => 0) + Spec.deltas c * recSz
  | none => 0

/-- Bytes reserved by a page. -/
def reservedAt (page recSz : Nat) (sh : Sh K V) (p : PID) : Int :=
  match sh.mt p with
  | some c => Spec.reserved page recSz c
  | none => 0

/-- A chain from which no merged node hangs. -/
def NoMerged : Chain K V → Prop
  | .base _ => True
  | .removed _ => True
  | .delta d nx => (∀ n, d.pay ≠ .node n) ∧ NoMerged nx

theorem usage_used {recSz : Nat} {c : Chain K V} (hr : c.isRemoved = false)
    (hw : ∃ inner low, ChainWF cfg inner low c) :
    (usage cfg recSz c).2.1 =
      (match Spec.baseOf c with | some n => n.size | none => 0) + Spec.deltas c * recSz := by
  obtain ⟨inner, low, hw⟩ := hw
  have h1 : c.baseSize = (match Spec.baseOf c with | some n => n.size | none => 0) := by
    clear hr hw
    induction c with
    | base n => rfl
    | removed b => rfl
    | delta d nx ih => exact ih
  have h2 : c.deltaNum = Spec.deltas c := by
    clear hr h1
    induction c with
    | base n => rfl
    | removed b => exact hw.elim
    | delta d nx ih =>
      simp only [Chain.deltaNum, Spec.deltas, ih hw.next]
  simp only [usage, h1, h2]

theorem usage_reserved {recSz : Nat} {c : Chain K V}
    (hw : ∃ inner low, ChainWF cfg inner low c) :
    (usage cfg recSz c).2.2 ≤ Spec.reserved cfg.page recSz c ∧
    (NoMerged c → (usage cfg recSz c).2.2 = Spec.reserved cfg.page recSz c) := by
  obtain ⟨inner, low, hw⟩ := hw
  simp only [usage]
  induction c with
  | base n => simp [Chain.deltaNum, Spec.reserved]
  | removed b => exact hw.elim
  | delta d nx ih =>
    obtain ⟨i1, i2⟩ := ih hw.next
    simp only [Chain.deltaNum, Spec.reserved]
    push_cast at i1 i2 ⊢
    rw [Int.add_mul, Int.one_mul]
    refine ⟨?_, fun hn => ?_⟩
    · split <;> omega
    · have := i2 hn.2
      split
      · next n e => exact absurd e (hn.1 n)
      · omega

theorem sum_fst (l : List Usage) : l.sum.1 = (l.map Prod.fst).sum := by
  induction l with
  | nil => rfl
  | cons a l ih => simp only [List.sum_cons, List.map_cons, Prod.fst_add, ih]

theorem sum_actual (l : List Usage) : l.sum.2.1 = (l.map fun u => u.2.1).sum := by
  induction l with
  | nil => rfl
  | cons a l ih => simp only [List.sum_cons, List.map_cons, Prod.snd_add, Prod.fst_add, ih]

theorem sum_virtual (l : List Usage) : l.sum.2.2 = (l.map fun u => u.2.2).sum := by
  induction l with
  | nil => rfl
  | cons a l ih => simp only [List.sum_cons, List.map_cons, Prod.snd_add, ih]

theorem sum_le_of {α : Type} {f g : α → Int} {l : List α} (h : ∀ x ∈ l, f x ≤ g x) :
    (l.map f).sum ≤ (l.map g).sum := by
  induction l with
  | nil => simp
  | cons a l ih =>
    simp only [List.map_cons, List.sum_cons]
    have := h a (by simp)
    have := ih fun x hx => h x (List.mem_cons_of_mem _ hx)
    omega

/-- Whenever `CollectStatisticalData` returns, the entry of each level counts every page that lies so
many levels below the root (by the index records in force) exactly once, there are as many entries as
levels, the actual usage is the sum over these pages of base nodes and delta records, and it is at
most the virtual usage; the virtual usage never exceeds what is reserved, and it is exactly what is
reserved as long as no page of the level carries a merge record.

What is missing (see `C49_false`): pages without index entry are not counted, and nodes that hang
from merge records are not part of the virtual usage.  The model evaluates the traversal on one
state, as the property asks (quiet tree). -/
theorem C49_counts_partial (hc : CfgOK2 cfg) {m : K → Option V} {S : Sys K V}
    (hr : Reachable cfg m S) {recSz f : Nat} {st : List Usage}
    (h : collectStat cfg recSz S.sh f S.sh.root 0 [] = some st) (d : Nat) :
    ∃ ps : List PID, ps.Nodup ∧ (∀ p, p ∈ ps ↔ Spec.Below S.sh d p) ∧
      (d < st.length ↔ ps ≠ []) ∧
      ∀ u, st[d]? = some u → u.1 = ps.length ∧ u.2.1 = (ps.map (usedAt recSz S.sh)).sum ∧
        u.2.1 ≤ u.2.2 ∧ u.2.2 ≤ (ps.map (reservedAt cfg.page recSz S.sh)).sum ∧
        ((∀ p ∈ ps, ∀ c, S.sh.mt p = some c → NoMerged c) →
          u.2.2 = (ps.map (reservedAt cfg.page recSz S.sh)).sum) := by
  obtain ⟨s, hS⟩ := hr.sound hc
  have hsh := hS.sh
  rw [← hsh] at h ⊢
  have hT : TableWF cfg s.toSh := fun p c hm hr => hS.inv.slot_chain hm hr
  obtain ⟨F, hF⟩ := hS.inv.p.root
  have ha := collect_acc hc.toCfgOK hT f _ 0 [] st (Nat.le_refl _) h
  refine ⟨bfs s.toSh d [s.root], bfs_nodup hS.inv d (List.nodup_singleton _) (F := F) ?_,
    fun p => (below_iff hT d p).symm, ?_, fun u hu => ?_⟩
  · intro p hp
    rw [List.mem_singleton] at hp
    subst hp
    exact ⟨_, hF⟩
  · rw [ha.len]
    simp only [List.length_nil, Nat.not_lt_zero, Nat.zero_add, false_or]
    constructor
    · rintro ⟨d', rfl, h⟩; exact h
    · exact fun h => ⟨d, rfl, h⟩
  · have hsum := ha.new d
    have e1 : lvl st (0 + d) = u := by simp [lvl, hu]
    rw [e1] at hsum
    have e2 : lvl ([] : List Usage) (0 + d) = 0 := by simp [lvl]
    rw [e2, zero_add] at hsum
    have hok := ha.ok d
    generalize bfs s.toSh d [s.toSh.root] = ps at hsum hok
    have huse : ∀ p ∈ ps, ∃ c, s.toSh.mt p = some c ∧ useAt cfg recSz s.toSh p = usage cfg recSz c ∧
        c.isRemoved = false ∧ (∃ inner low, ChainWF cfg inner low c) ∧
        (usage cfg recSz c).2.1 ≤ (usage cfg recSz c).2.2 := by
      intro p hp
      obtain ⟨c, h1, h2, _⟩ := hok p hp
      obtain ⟨inner, low, h3⟩ := hT p c h1 h2
      refine ⟨c, h1, by unfold useAt; rw [h1], h2, ⟨_, _, h3⟩, ?_⟩
      have hb : c.baseSize ≤ cfg.page := by
        cases hi : s.info p with
        | none =>
          obtain ⟨n, rfl, _, g⟩ := hS.inv.p.unpub p c hi h1
          exact g
        | some x =>
          obtain ⟨F, low⟩ := x
          exact (hS.inv.live hi h1 h2).2.base
      simp only [usage]; omega
    rw [hsum]
    refine ⟨?_, ?_, ?_, ?_, fun hn => ?_⟩
    · rw [sum_fst, List.map_map]
      clear hsum hok
      induction ps with
      | nil => rfl
      | cons a l ih =>
        obtain ⟨c, _, g, _⟩ := huse a (by simp)
        rw [List.map_cons, List.sum_cons, ih fun p hp => huse p (List.mem_cons_of_mem _ hp)]
        simp only [Function.comp, g, usage, List.length_cons]; omega
    · rw [sum_actual, List.map_map]
      congr 1
      refine List.map_congr_left fun p hp => ?_
      obtain ⟨c, g1, g2, g3, g4, _⟩ := huse p hp
      simp only [Function.comp, g2, usedAt, g1]
      exact usage_used g3 g4
    · rw [sum_actual, sum_virtual, List.map_map, List.map_map]
      refine sum_le_of fun p hp => ?_
      obtain ⟨c, _, g2, _, _, g5⟩ := huse p hp
      simp only [Function.comp, g2]; exact g5
    · rw [sum_virtual, List.map_map]
      refine sum_le_of fun p hp => ?_
      obtain ⟨c, g1, g2, _, g4, _⟩ := huse p hp
      simp only [Function.comp, g2, reservedAt, g1]
      exact (usage_reserved g4).1
    · rw [sum_virtual, List.map_map]
      congr 1
      refine List.map_congr_left fun p hp => ?_
      obtain ⟨c, g1, g2, _, g4, _⟩ := huse p hp
      simp only [Function.comp, g2, reservedAt, g1]
      exact (usage_reserved g4).2 (hn p hp c g1)

/-- `CollectStatisticalData` returns if no page below the root is marked as removed or waits for its
structure modification. -/
theorem C49_returns_partial (hc : CfgOK2 cfg) {m : K → Option V} {S : Sys K V}
    (hr : Reachable cfg m S) (recSz : Nat)
    (h : ∀ d p, Spec.Below S.sh d p → ∃ c, S.sh.mt p = some c ∧ c.isRemoved = false ∧
      c.needWait cfg = false) :
    ∃ N, ∀ f, N ≤ f → ∃ st, collectStat cfg recSz S.sh f S.sh.root 0 [] = some st := by
  obtain ⟨s, hS⟩ := hr.sound hc
  have hsh := hS.sh
  rw [← hsh] at h ⊢
  have hT : TableWF cfg s.toSh := fun p c hm hr => hS.inv.slot_chain hm hr
  obtain ⟨F, hF⟩ := hS.inv.p.root
  refine ⟨F + 1, fun f hf => ?_⟩
  exact collect_some hc.toCfgOK hS.inv F f _ 0 none [] hf (Nat.le_refl _) hF
    fun d p hp => h d p ((below_iff hT d p).2 hp)

/-! ### What fails -/

/-- The merge of `exMerge`, run to its end. -/
def exMergeQ : List (Cmd Nat Nat) := exMerge 0 ++ [.fin 0 60]

/-- The virtual usage of a level is less than what its pages reserve: nobody is active, the merge of
`exMerge` is complete, and the node that hangs from the merge record of leaf 1 is left out. -/
theorem C49_reserved_false : ∃ S : Sys Nat Nat, Reachable smallCfg (fun _ => none) S ∧
    (∀ t, S.th t = .idle) ∧ ∃ st u, collectStat smallCfg 64 S.sh 10 S.sh.root 0 [] = some st ∧
      st[1]? = some u ∧ (∀ p, Spec.Below S.sh 1 p ↔ p = 1) ∧
      u.2.2 < reservedAt smallCfg.page 64 S.sh 1 := by
  obtain ⟨h, S, h1, h2, h3⟩ := scenario_witness (cfg := smallCfg) (cs := exMergeQ)
    (fun h S => (quietAt h S, decide (S.sh.root = 3 ∧ S.sh.mt 3 = some exRootDel ∧
      collectStat smallCfg 64 S.sh 10 S.sh.root 0 [] = some [(1, 128, 192), (1, 128, 192)] ∧
      reservedAt smallCfg.page 64 S.sh 1 = 320 ∧ bfs S.sh 1 [S.sh.root] = [1])))
    (x := (true, true)) (by decide)
  simp only [Prod.mk.injEq, decide_eq_true_eq] at h3
  obtain ⟨e1, e2, e3, e4, e5, e6⟩ := h3
  obtain ⟨s, hS⟩ := h2.sound smallCfg_ok
  have hT : TableWF smallCfg S.sh := by
    rw [← hS.sh]; exact fun p c hm hr => hS.inv.slot_chain hm hr
  refine ⟨S, h2, quietAt_spec h1 e1, _, _, e4, rfl, fun p => ?_, ?_⟩
  · rw [below_iff hT, e6, List.mem_singleton]
  · rw [e5]; decide

/-- A live leaf is not counted: after the race of `exTwoRoots` nobody is active and the leaf level
has three live pages (1, 4 and 2 with the keys up to 2, up to 20 and from 30 on); the entry of the
level says two. -/
theorem C49_false : ∃ S : Sys Nat Nat, Reachable smallCfg (fun _ => none) S ∧
    (∀ t, S.th t = .idle) ∧ ∃ st u, collectStat smallCfg 64 S.sh 10 S.sh.root 0 [] = some st ∧
      st[1]? = some u ∧ u.1 = 2 ∧
      ∀ p ∈ [1, 4, 2], Spec.ReachAt S.sh 1 p ∧
        ∃ c, S.sh.mt p = some c ∧ c.isRemoved = false ∧ c.isLeaf = true := by
  obtain ⟨h, S, h1, h2, h3⟩ := scenario_witness (cfg := smallCfg) (cs := exTwoRoots)
    (fun h S => (quietAt h S, decide (S.sh.root = 3 ∧
      S.sh.mt 3 = some (.base (newRoot smallCfg 30 1 2)) ∧
      collectStat smallCfg 64 S.sh 10 S.sh.root 0 [] = some [(1, 64, 128), (2, 176, 256)] ∧
      (S.sh.mt 1).map (fun c => (c.isRemoved, c.isLeaf, c.high, c.nextPid)) =
        some (false, true, some 3, 4) ∧
      (S.sh.mt 4).map (fun c => (c.isRemoved, c.isLeaf)) = some (false, true) ∧
      (S.sh.mt 2).map (fun c => (c.isRemoved, c.isLeaf)) = some (false, true))))
    (x := (true, true)) (by decide)
  simp only [Prod.mk.injEq, decide_eq_true_eq, Option.map_eq_some_iff] at h3
  obtain ⟨e1, e2, e3, e4, ⟨c1, a1, a2, a3, a4, a5⟩, ⟨c4, b1, b2, b3⟩, ⟨c2, d1, d2, d3⟩⟩ := h3
  have hroot : Spec.ReachAt S.sh 0 3 := by rw [← e2]; exact .root
  have r1 : Spec.ReachAt S.sh 1 1 := .child hroot e3 (.base (k := 30) (by simp [newRoot]))
  have r2 : Spec.ReachAt S.sh 1 2 := .child hroot e3 (.base (k := 30) (by simp [newRoot]))
  have r4 : Spec.ReachAt S.sh 1 4 := by
    have := Spec.ReachAt.sibling r1 a1 a4
    rwa [a5] at this
  refine ⟨S, h2, quietAt_spec h1 e1, _, _, e4, rfl, rfl, fun p hp => ?_⟩
  simp only [List.mem_cons, List.not_mem_nil, or_false] at hp
  rcases hp with rfl | rfl | rfl
  · exact ⟨r1, c1, a1, a2, a3⟩
  · exact ⟨r4, c4, b1, b2, b3⟩
  · exact ⟨r2, c2, d1, d2, d3⟩

/-- The statistics of a tree with a root and two leaves. -/
example : ∃ S : Sys Nat Nat, Reachable smallCfg (fun _ => none) S ∧
    collectStat smallCfg 64 S.sh 10 S.sh.root 0 [] = some [(1, 64, 128), (2, 240, 320)] := by
  obtain ⟨h, S, _, h2, h3⟩ := scenario_witness (cfg := smallCfg) (cs := exFill 8)
    (fun _ S => collectStat smallCfg 64 S.sh 10 S.sh.root 0 [])
    (x := some [(1, 64, 128), (2, 240, 320)]) (by decide)
  exact ⟨S, h2, h3⟩

end BwTree.Props
