import Verif.Conc.QuietScan
import Verif.Props.Settle
import Verif.Props.SeqTotal

/-!
# C74: scans of a quiet tree

After any execution, when no call is active, a scan that runs alone reaches its end and returns what
the map holds (`bw_tree.hpp` 206-242, 1092-1141).
-/

namespace BwTree.Props

open BwTree

set_option linter.unusedSectionVars false

variable {K V : Type} [LinearOrder K] {cfg : Cfg K}

/-- **C74.**  After any execution of any number of threads, when no call is active, a scan of any
range by any thread, with the visits its iterator makes one after the other, runs to its end and
leaves the shared memory as it is, provided that the search for its first leaf meets no removal mark.
Its records have strictly increasing keys and are the records of the map in the range; the begin key
itself may be among them if the range is open at the begin (`C13_false`). -/
theorem C74_quiet_scan_partial (ht : cfg.thr ≤ cfg.maxDelta) (hc : CfgOK2 cfg) {m : K → Option V}
    {sh : Sh K V} (hi : Init cfg m sh) {h : List (Spec.Event K V)} {S : Sys K V}
    (hr : SureRun cfg (Sys.start sh) h S) (hq : ∀ t, S.th t = .idle) :
    ∃ mS ops, Spec.Accepts ⟨m, fun _ => .idle⟩ h ⟨mS, ops⟩ ∧
      ∀ t (b e : Spec.Bound K), Spec.CalmBegin S.sh b →
      ∃ (vs : List (Spec.Visit K V)) (S' : Sys K V),
        SureRun cfg (Sys.start sh) (h ++ Spec.scanEvents t e vs) S' ∧ S'.sh = S.sh ∧
        (∀ t, S'.th t = .idle) ∧ Spec.Linked b vs ∧ Spec.Finished vs ∧
        ((Spec.allRecs vs).Pairwise fun x y => x.1 < y.1) ∧
        (∀ k v, (k, v) ∈ Spec.allRecs vs → mS k = some v ∧ Spec.toB e k ∧
          (Spec.fromB b k ∨ b = some (k, false))) ∧
        (∀ k v, mS k = some v → Spec.toB e k → Spec.fromB b k → (k, v) ∈ Spec.allRecs vs) := by
  obtain ⟨s, h1, h2, h3⟩ := hi.minded hc hr.run
  have hI := h1.inv
  have hsh := h1.sh
  have hmt : ∀ p, s.mt p = S.sh.mt p := fun p => congrFun (congrArg Sh.mt hsh) p
  have hcell : ∀ w, s.cells w = S.sh.cells w := fun w => congrFun (congrArg Sh.cells hsh) w
  have hS : Still cfg s := by
    refine ⟨fun p c hm => (C72_quiet ht hc hi hr hq (by rw [← hmt]; exact hm)).1, ?_⟩
    intro p low c x e1 e2 e3 e4
    obtain ⟨a2, a3⟩ := hI.live e1 e2 e3
    have b1 : s.info c.nextPid = some (0, some x) := a3.link x e4
    obtain ⟨c', b2⟩ := hI.l.linkl p c x a2 e4
    have hw := hI.l.page _ c' 0 _ b2 b1
    have hc' : s.cont c.nextPid = some c' := b2
    unfold St.cont at hc'
    rw [b1] at hc'
    simp only at hc'
    split at hc'
    · simp only [Option.map_eq_some_iff] at hc'
      obtain ⟨n, hp, rfl⟩ := hc'
      obtain ⟨u, hu⟩ := Option.ne_none_iff_exists'.mp (hI.p.pend _ n hp).1
      have hleaf := hw.isLeaf
      obtain ⟨call, x, _, g1, _⟩ := h2 _ u n hu hp
      rw [hq u] at g1; cases g1
    · exact ⟨c', hc', hw.not_removed⟩
  refine ⟨s.m, s.ops, h3, fun t b e hb => ?_⟩
  obtain ⟨vs, S', g1, g2, g3, g4, g5, hp⟩ := scan_whole hc hI hS t (b := b) (e := e) hsh.symm hr hq hb
    (fun p c k cl w e1 e2 => by
      rw [hcell]
      exact (C72_quiet ht hc hi hr hq (by rw [← hmt]; exact e1)).2 w (childStep_word e2))
  have hpp : Spec.Pages e vs := fun v hv => ⟨_, hp v hv⟩
  refine ⟨vs, S', g1, g2, g3, g4, g5, g4.increasing hpp, fun k v hk => ?_, fun k v hk he hbk => ?_⟩
  · obtain ⟨w, hw, hk⟩ := List.mem_flatMap.mp hk
    obtain ⟨a1, a2⟩ := ((hp w hw).mem k v).mp hk
    refine ⟨a1, a2.2.1, ?_⟩
    cases vs with
    | nil => cases hw
    | cons a vs =>
      rcases g4.from_begin hpp hw a2 with g | ⟨g, _⟩
      · exact Or.inl g
      · exact Or.inr g
  · obtain ⟨w, hw, g⟩ := g4.complete g5 k hbk he
    exact List.mem_flatMap.mpr ⟨w, hw, ((hp w hw).mem k v).mpr ⟨hk, g⟩⟩

/-! ## Examples -/

/-- Follow the way to the leftmost leaf; the number is the fuel.  (Decidable.) -/
def leftCheck (sh : Sh Nat Nat) : Nat → PID → Bool
  | 0, _ => false
  | f + 1, p =>
    match sh.mt p with
    | none => false
    | some c => !c.isRemoved && (c.isLeaf || match c.leftmostChild with
      | some q => leftCheck sh f q
      | none => false)

theorem leftCheck_spec {sh : Sh Nat Nat} {f : Nat} (h : leftCheck sh f sh.root = true) :
    Spec.CalmBegin sh none := by
  have hgood : ∀ p, Spec.LeftRoute sh p → ∃ f, leftCheck sh f p = true := by
    intro p hp
    induction hp with
    | root => exact ⟨f, h⟩
    | child _ hm hl hc ih =>
      obtain ⟨g, hg⟩ := ih
      cases g with
      | zero => cases hg
      | succ g => simp [leftCheck, hm, hl, hc] at hg; exact ⟨g, hg.2⟩
  intro p b hp hm
  obtain ⟨g, hg⟩ := hgood p hp
  cases g with
  | zero => cases hg
  | succ g => simp [leftCheck, hm, Chain.isRemoved] at hg

/-- In the quiet state of `C47_false`, in which `Read(80)` never returns, scans without a begin key
and scans that begin at 10 reach their ends. -/
example : ∃ (h : List (Spec.Event Nat Nat)) (S : Sys Nat Nat) (mS : Nat → Option Nat),
    SureRun lazyCfg (Sys.start (initSh lazyCfg)) h S ∧ (∀ t, S.th t = .idle) ∧
    DeadEnd S.sh 80 S.sh.root 4 ∧
    ∀ b, b = none ∨ b = some (10, true) → ∃ (vs : List (Spec.Visit Nat Nat)) (S' : Sys Nat Nat),
      SureRun lazyCfg (Sys.start (initSh lazyCfg)) (h ++ Spec.scanEvents 3 none vs) S' ∧
      Spec.Linked b vs ∧ Spec.Finished vs ∧
      ∀ k v, mS k = some v → Spec.fromB b k → (k, v) ∈ Spec.allRecs vs := by
  obtain ⟨h, S, h1, h2⟩ := scenario_sure (cfg := lazyCfg) (cs := exLate)
    (fun h S => (quietAt h S, deadEndAt S.sh 80 4, leftCheck S.sh 5 S.sh.root,
      routeCheck S.sh 10 5 S.sh.root)) (x := (true, true, true, true)) (by decide +kernel) (by decide)
  simp only [Prod.mk.injEq] at h2
  obtain ⟨hq, hd, hl, hk⟩ := h2
  have hq' := quietAt_spec h1.run hq
  obtain ⟨mS, _, _, h3⟩ := C74_quiet_scan_partial (by decide) lazyCfg_ok .empty h1 hq'
  refine ⟨h, S, mS, h1, hq', deadEndAt_spec hd, fun b hb => ?_⟩
  have hC : Spec.CalmBegin S.sh b := by
    rcases hb with rfl | rfl
    · exact leftCheck_spec hl
    · exact (routeCheck_spec hk).live
  obtain ⟨vs, S', e1, _, _, e2, e3, _, _, e4⟩ := h3 3 b none hC
  exact ⟨vs, S', e1, e2, e3, fun k v hk hb => e4 k v hk (by intro x c h; cases h) hb⟩

/-- The last page such a scan returns has the record of 80. -/
example : ∃ (h : List (Spec.Event Nat Nat)) (S : Sys Nat Nat),
    Run lazyCfg (Sys.start (initSh lazyCfg)) h S ∧ DeadEnd S.sh 80 S.sh.root 4 ∧
    h.getLast? = some (.ret 3 (.visit (some (70, true)) none)
      (.page [(70, 6), (80, 7), (90, 8), (100, 9), (110, 10)] none)) := by
  obtain ⟨h, S, h1, _, h2⟩ := scenario_witness (cfg := lazyCfg)
    (cs := exLate ++ [.acts [.scan 3 100 none none], .fin 3 100, .acts [.next 3 100], .fin 3 100,
      .acts [.next 3 100], .fin 3 100])
    (fun h S => (deadEndAt S.sh 80 4, h.getLast?))
    (x := (true, some (.ret 3 (.visit (some (70, true)) none)
      (.page [(70, 6), (80, 7), (90, 8), (100, 9), (110, 10)] none)))) (by decide +kernel)
  simp only [Prod.mk.injEq] at h2
  exact ⟨h, S, h1, deadEndAt_spec h2.1, h2.2⟩

/-! ## What the proviso is for -/

theorem DeadEnd.getHead {cfg : Cfg Nat} {sh sh' : Sh Nat Nat} {key : Nat} {r p : PID}
    (h : DeadEnd sh key r p) (hnw : (Chain.removed true : Chain Nat Nat).needWait cfg = false)
    {β : Type} {g : Option (Chain Nat Nat × Stk) → Prog Nat Nat β} :
    ∀ (f n : Nat) {q : Prog Nat Nat β},
    Alone n sh ((getHead cfg key true 0 f [p, r]).bind g) sh' q → GoesOn (f - 1) n q
  | 0, n, q, hq => Alone.stuck hq
  | 1, n, q, hq => Alone.stuck hq
  | f + 2, n, q, hq => by
    obtain ⟨c, h1, h2, h4⟩ := h.inner
    rcases Alone.loadInv h.leaf hq with h' | ⟨m, rfl, hr⟩
    · exact h' _ _
    replace hq := hr; clear hr
    dsimp only at hq
    rw [hnw] at hq
    change Alone m sh
      (((searchChild key true 0 (f + 1) [r]).bind fun x =>
        if x.2 = [] then .ret none else BwTree.getHead cfg key true 0 (f + 1) x.2).bind g) sh' q at hq
    rcases Alone.loadInv h1 hq with h' | ⟨m, rfl, hr⟩
    · exact h' _ _
    replace hq := hr; clear hr
    have hl : c.liveLeaf = false := by simp [Chain.liveLeaf, h2]
    simp only [hl, Bool.false_eq_true, if_false, h4, Prog.bind, List.cons_ne_nil] at hq
    exact (h.getHead hnw (f + 1) _ hq).mono (fun _ => by omega)

theorem DeadEnd.scan {sh sh' : Sh Nat Nat} {cfg : Cfg Nat} {key : Nat} {e : Spec.Bound Nat} {r p : PID}
    (h : DeadEnd sh key r p) (hnw : (Chain.removed true : Chain Nat Nat).needWait cfg = false)
    (f n : Nat) {q : Prog Nat Nat (List (Nat × Nat) × Option (Nat × PID))}
    (hq : Alone n sh (scanFirst cfg f (some (key, true)) e) sh' q) : GoesOn f n q := by
  obtain ⟨c, h1, h2, h4⟩ := h.inner
  cases hq with
  | refl => trivial
  | step e1 e2 =>
    cases e1
    rw [h.root] at e2
    cases f with
    | zero => exact (Alone.stuck e2).mono (fun _ => by omega)
    | succ f =>
      rcases Alone.loadInv h1 e2 with h' | ⟨m, rfl, hr⟩
      · exact h' _ _
      replace hq := hr; clear hr
      simp only [h2, Bool.false_eq_true, if_false] at hq
      cases f with
      | zero => exact (Alone.stuck hq).mono (fun _ => by omega)
      | succ f =>
        rcases Alone.loadInv h1 hq with h' | ⟨m, rfl, hr⟩
        · exact h' _ _
        replace hq := hr; clear hr
        have hl : c.liveLeaf = false := by simp [Chain.liveLeaf, h2]
        simp only [hl, Bool.false_eq_true, if_false, h4, Prog.bind] at hq
        rcases Alone.loadInv h.leaf hq with h' | ⟨m, rfl, hr⟩
        · exact h' _ _
        replace hq := hr; clear hr
        exact (h.getHead hnw (f + 1) _ hq).mono (fun _ => by omega)

/-- The proviso of `C74_quiet_scan_partial` is needed: there is a reachable quiet state in which a scan
from 80 that runs alone, with any amount of fuel, never completes its first visit. -/
theorem C74_calm_needed : ∃ S : Sys Nat Nat, Reachable lazyCfg (fun _ => none) S ∧
    (∀ t, S.th t = .idle) ∧ ∀ (f n : Nat) (sh' : Sh Nat Nat) (e : Spec.Bound Nat)
      (q : Prog Nat Nat (List (Nat × Nat) × Option (Nat × PID))),
      Alone n S.sh (scanFirst lazyCfg f (some (80, true)) e) sh' q → GoesOn f n q := by
  obtain ⟨h, S, h1, h2, h3⟩ := scenario_witness (cfg := lazyCfg) (cs := exLate)
    (fun h S => (quietAt h S, deadEndAt S.sh 80 4)) (x := (true, true)) (by decide)
  simp only [Prod.mk.injEq] at h3
  exact ⟨S, h2, quietAt_spec h1 h3.1, fun f n sh' e q => (deadEndAt_spec h3.2).scan (by decide) f n⟩

end BwTree.Props
