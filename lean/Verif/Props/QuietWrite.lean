import Verif.Conc.QuietWrite
import Verif.Props.QuietIndex

/-!
# C76: operations on a quiet tree

After any execution, when no call is active, an operation that runs alone and finds room ends with the
right answer (`bw_tree.hpp` 148-476).
-/

namespace BwTree.Props

open BwTree

set_option linter.unusedSectionVars false

variable {K V : Type} [LinearOrder K] {cfg : Cfg K}

/-- **C76.**  After any execution of any number of threads, when no call is active, an operation of any
thread that runs alone returns the answer of the map and changes the map as specified, provided that
its search meets no removal mark and, unless it is a `Read`, the leaf of its key takes one more record
without a split or a merge. -/
theorem C76_quiet_op_partial (ht : cfg.thr ≤ cfg.maxDelta) (hc : CfgOK2 cfg) {m : K → Option V}
    {sh : Sh K V} (hi : Init cfg m sh) {h : List (Spec.Event K V)} {S : Sys K V}
    (hr : SureRun cfg (Sys.start sh) h S) (hq : ∀ t, S.th t = .idle) :
    ∃ mS ops, Spec.Accepts ⟨m, fun _ => .idle⟩ h ⟨mS, ops⟩ ∧ ∀ t (op : Spec.Op K V),
      (∀ p b, Spec.Route S.sh (opKey op) true p → S.sh.mt p ≠ some (.removed b)) →
      (op.isRead = true ∨ ∀ p c, Spec.Route S.sh (opKey op) true p → S.sh.mt p = some c →
        c.isLeaf = true → Spec.Covers c (opKey op) → Spec.Roomy cfg (opKey op) c) →
      ∃ S' ops', SureRun cfg (Sys.start sh)
          (h ++ [.inv t (.op op), .ret t (.op op) (.res (Spec.apply mS op).2)]) S' ∧
        (∀ t, S'.th t = .idle) ∧
        Spec.Accepts ⟨m, fun _ => .idle⟩
          (h ++ [.inv t (.op op), .ret t (.op op) (.res (Spec.apply mS op).2)])
          ⟨(Spec.apply mS op).1, ops'⟩ := by
  obtain ⟨s, h1, h2⟩ := hi.run hc hr.run
  have hI := h1.inv
  have hsh := h1.sh
  have hmt : ∀ p, s.mt p = S.sh.mt p := fun p => congrFun (congrArg Sh.mt hsh) p
  refine ⟨s.m, s.ops, h2, fun t op hl hroom => ?_⟩
  have hidle : s.ops t = .idle := by
    have := h1.th t
    rw [hq t] at this
    exact this
  rw [← hsh] at hl hroom
  have hC : Spec.Calm s.toSh (opKey op) true := by
    refine ⟨hl, fun p c w _ hm _ hw => ?_⟩
    have hm' : S.sh.mt p = some c := by rw [← hmt]; exact hm
    rw [hsh]
    exact (C72_quiet ht hc hi hr hq hm').2 w (childStep_word hw)
  have hE : ∃ f sh', Ends s.toSh (runOp cfg f op) sh' (Spec.apply s.m op).2 := by
    by_cases hop : op.isRead = true
    · cases op with
      | read k =>
        obtain ⟨N, g⟩ := read_yields hI hC (cfg := cfg)
        exact ⟨N, _, (g N (Nat.le_refl _)).ends⟩
      | _ => cases hop
    · have hop' : op.isRead = false := by simpa using hop
      obtain ⟨N, g⟩ := write_ends hc hI hop' hC
        (fun p c hm => (C72_quiet ht hc hi hr hq (by rw [← hmt]; exact hm)).1)
        (hroom.resolve_left hop)
      exact ⟨N, g N (Nat.le_refl _)⟩
  obtain ⟨f, sh', hE⟩ := hE
  obtain ⟨S1, g1, g2, g3, g4, _⟩ := Ends.sure (t := t) (call := .op op) (cfg := cfg)
    (S₀ := Sys.start sh) (h := h ++ [.inv t (.op op)])
    (S := { S with th := upd S.th t (.run (.op op) ((runOp cfg f op).bind fun r => .ret (.res r, none))) })
    (hE.bind (g := fun r => .ret (.res r, none)) (.ret _ _)) hsh.symm
    (hr.event (.event (.op S t f op (hq t)))) (upd_same ..)
  have g5 := g1.event (.event (.retOp S1 t op _ g3))
  have a1 := Spec.Accepts.inv t (.op op) h2 hidle
  have a2 := Spec.Accepts.lin t (.op op) _ _ a1 (by simp [Spec.setOp]) (.op op)
  have a3 := Spec.Accepts.ret t (.op op) (.res (Spec.apply s.m op).2) a2 (by simp [Spec.setOp])
  rw [List.append_assoc] at g5 a3
  refine ⟨_, _, g5, fun u => ?_, a3⟩
  by_cases hu : u = t
  · subst hu; exact upd_same ..
  · exact (upd_ne _ _ hu).trans ((g4 u hu).trans ((upd_ne _ _ hu).trans (hq u)))

/-! ## Examples -/

/-- Does the route of `key` end at a leaf with room?  (Decidable.) -/
def roomyCheck (cfg : Cfg Nat) (sh : Sh Nat Nat) (key : Nat) : Nat → PID → Bool
  | 0, _ => false
  | f + 1, p =>
    match sh.mt p with
    | none => false
    | some c =>
      if c.isLeaf then
        decide (c.size + cfg.entLen false key ≤ cfg.page) &&
        decide (Spec.deltas c + 1 < cfg.thr ∨ (cfg.minSize : Int) < c.size - cfg.entLen false key ∨
          c.low = none) &&
        match c.high with
        | none => true
        | some h => if h ≤ key then roomyCheck cfg sh key f c.nextPid else true
      else match childStep key true c with
        | .child q => roomyCheck cfg sh key f q
        | .sibling q => roomyCheck cfg sh key f q
        | _ => false

theorem roomyCheck_spec {cfg : Cfg Nat} {sh : Sh Nat Nat} {key f : Nat}
    (h : roomyCheck cfg sh key f sh.root = true) {p : PID} {c : Chain Nat Nat}
    (hp : Spec.Route sh key true p) (hm : sh.mt p = some c) (hl : c.isLeaf = true) :
    Spec.Roomy cfg key c := by
  have hgood : ∀ p, Spec.Route sh key true p → ∃ f, roomyCheck cfg sh key f p = true := by
    intro p hp
    induction hp with
    | root => exact ⟨f, h⟩
    | child _ hm hl hc ih =>
      obtain ⟨g, hg⟩ := ih
      cases g with
      | zero => cases hg
      | succ g => simp [roomyCheck, hm, hl, hc] at hg; exact ⟨g, hg⟩
    | cell _ hm hl hc ih =>
      obtain ⟨g, hg⟩ := ih
      cases g with
      | zero => cases hg
      | succ g => simp [roomyCheck, hm, hl, hc] at hg
    | sibling _ hm hl hc ih =>
      obtain ⟨g, hg⟩ := ih
      cases g with
      | zero => cases hg
      | succ g => simp [roomyCheck, hm, hl, hc] at hg; exact ⟨g, hg⟩
    | leaf _ hm hl hh hk ih =>
      obtain ⟨g, hg⟩ := ih
      simp only [if_true] at hk
      cases g with
      | zero => cases hg
      | succ g =>
        simp only [roomyCheck, hm, hl, hh, hk, if_true, Bool.and_eq_true] at hg
        exact ⟨g, hg.2⟩
  obtain ⟨g, hg⟩ := hgood p hp
  cases g with
  | zero => cases hg
  | succ g =>
    simp only [roomyCheck, hm, hl, if_true, Bool.and_eq_true, decide_eq_true_eq] at hg
    exact hg.1

/-- In the quiet state of `C47_false`, in which `Read(80)` never returns, `Insert(15)` and `Delete(10)`
end with the right answers. -/
example : ∃ (h : List (Spec.Event Nat Nat)) (S : Sys Nat Nat) (mS : Nat → Option Nat),
    SureRun lazyCfg (Sys.start (initSh lazyCfg)) h S ∧ (∀ t, S.th t = .idle) ∧
    DeadEnd S.sh 80 S.sh.root 4 ∧
    ∀ op : Spec.Op Nat Nat, op = .insert 15 7 ∨ op = .delete 10 →
      ∃ S', SureRun lazyCfg (Sys.start (initSh lazyCfg))
        (h ++ [.inv 3 (.op op), .ret 3 (.op op) (.res (Spec.apply mS op).2)]) S' := by
  obtain ⟨h, S, h1, h2⟩ := scenario_sure (cfg := lazyCfg) (cs := exLate)
    (fun h S => (quietAt h S, deadEndAt S.sh 80 4, routeCheck S.sh 15 5 S.sh.root,
      roomyCheck lazyCfg S.sh 15 5 S.sh.root, routeCheck S.sh 10 5 S.sh.root,
      roomyCheck lazyCfg S.sh 10 5 S.sh.root))
    (x := (true, true, true, true, true, true)) (by decide +kernel) (by decide)
  simp only [Prod.mk.injEq] at h2
  obtain ⟨hq, hd, k1, k2, k3, k4⟩ := h2
  have hq' := quietAt_spec h1.run hq
  obtain ⟨mS, _, _, h3⟩ := C76_quiet_op_partial (by decide) lazyCfg_ok .empty h1 hq'
  refine ⟨h, S, mS, h1, hq', deadEndAt_spec hd, fun op hop => ?_⟩
  rcases hop with rfl | rfl
  · obtain ⟨S', _, e, _⟩ := h3 3 (.insert 15 7) (routeCheck_spec k1).live
      (Or.inr fun p c e1 e2 e3 _ => roomyCheck_spec k2 e1 e2 e3)
    exact ⟨S', e⟩
  · obtain ⟨S', _, e, _⟩ := h3 3 (.delete 10) (routeCheck_spec k3).live
      (Or.inr fun p c e1 e2 e3 _ => roomyCheck_spec k4 e1 e2 e3)
    exact ⟨S', e⟩

/-- Leaves that are consolidated at every write: the leftmost leaf, which is too small, and a leaf on
the right. -/
example : ((scenario tinyCfg (exIns [10])).map fun y =>
      (quietAt y.1 y.2, routeCheck y.2.sh 10 5 y.2.sh.root, roomyCheck tinyCfg y.2.sh 10 5 y.2.sh.root)) =
    some (true, true, true) ∧ tinyCfg.thr = 1 ∧
    ((scenario smallCfg (exIns ((List.range 12).map (· * 10)))).map fun y =>
      (quietAt y.1 y.2, routeCheck y.2.sh 25 5 y.2.sh.root, roomyCheck smallCfg y.2.sh 25 5 y.2.sh.root)) =
    some (true, true, true) := by
  decide +kernel

end BwTree.Props
