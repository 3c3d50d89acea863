import Verif.Conc.Init
import Verif.Conc.Exec

/-!
# Which events an operation can meet (proof side)
-/

namespace BwTree

set_option linter.unusedSectionVars false

variable {K V : Type}

/-- Every event in a program satisfies `P`. -/
def Prog.FlagsIn (P : Flag → Prop) {α : Type} : Prog K V α → Prop
  | .ret _ | .ub | .stuck => True
  | .flag k => P k
  | .loadRoot k => ∀ r, (k r).FlagsIn P
  | .storeRoot _ k => k.FlagsIn P
  | .casRoot _ _ k => ∀ b, (k b).FlagsIn P
  | .load _ k => ∀ c, (k c).FlagsIn P
  | .store _ _ k => k.FlagsIn P
  | .cas _ _ _ k => ∀ b, (k b).FlagsIn P
  | .newPid k => ∀ p, (k p).FlagsIn P
  | .newCell k => ∀ w, (k w).FlagsIn P
  | .loadCell _ k => ∀ p, (k p).FlagsIn P
  | .storeCell _ _ k => k.FlagsIn P

variable {P : Flag → Prop} {α β : Type}

theorem Prog.FlagsIn.bind {p : Prog K V α} {g : α → Prog K V β} (h : p.FlagsIn P)
    (hg : ∀ a, (g a).FlagsIn P) : (p.bind g).FlagsIn P := by
  induction p with
  | ret a => exact hg a
  | ub => trivial
  | stuck => trivial
  | flag k => exact h
  | loadRoot k ih => exact fun r => ih r (h r)
  | storeRoot p k ih => exact ih h
  | casRoot o n k ih => exact fun b => ih b (h b)
  | load p k ih => exact fun c => ih c (h c)
  | store p c k ih => exact ih h
  | cas p o n k ih => exact fun b => ih b (h b)
  | newPid k ih => exact fun b => ih b (h b)
  | newCell k ih => exact fun b => ih b (h b)
  | loadCell w k ih => exact fun b => ih b (h b)
  | storeCell w p k ih => exact ih h

theorem Prog.FlagsIn.step {p p' : Prog K V α} {sh sh' : Sh K V} (h : p.FlagsIn P)
    (hs : AStep sh p sh' p') : p'.FlagsIn P := by
  cases hs with
  | loadRoot k => exact h _
  | storeRoot p k => exact h
  | casRootOk o n k _ => exact h _
  | casRootFail o n k _ => exact h _
  | load p k c _ => exact h _
  | loadNull p k _ => trivial
  | store p c k => exact h
  | casOk p o n k _ => exact h _
  | casFail p o n k => exact h _
  | newPid k => exact h _
  | newCell k => exact h _
  | loadCell w k => exact h _
  | storeCell w p k => exact h

variable [LinearOrder K] {cfg : Cfg K}

theorem loadValidHead_flags : ∀ (f : Nat) (p : PID), (loadValidHead (K := K) (V := V) cfg f p).FlagsIn P
  | 0, _ => trivial
  | f + 1, p => by
    intro c
    show Prog.FlagsIn P (if _ then _ else _)
    split
    · exact loadValidHead_flags f p
    · trivial

theorem waitCell_flags : ∀ (f w : Nat), (waitCell (K := K) (V := V) f w).FlagsIn P
  | 0, _ => trivial
  | f + 1, w => by
    intro p
    show Prog.FlagsIn P (if _ then _ else _)
    split
    · exact waitCell_flags f w
    · trivial

theorem searchChild_flags (hP : P .leafAsInner) {key : K} {closed : Bool} {tgt : PID} :
    ∀ (f : Nat) (stk : Stk), (searchChild (V := V) key closed tgt f stk).FlagsIn P
  | 0, _ => trivial
  | f + 1, [] => trivial
  | f + 1, p :: rest => by
    intro c
    show Prog.FlagsIn P (if _ then _ else _)
    split
    · exact hP
    split
    · trivial
    · exact (waitCell_flags f _).bind fun _ => trivial
    · split
      · trivial
      · exact searchChild_flags hP f _
    · split
      · split
        · trivial
        · exact fun r => searchChild_flags hP f _
      · refine (searchChild_flags hP f _).bind fun x => ?_
        split
        · trivial
        split
        · trivial
        · exact searchChild_flags hP f _
    · trivial

theorem searchLeafLoop_flags (hP : P .leafAsInner) {key : K} {closed : Bool} :
    ∀ (f : Nat) (stk : Stk), (searchLeafLoop (V := V) key closed f stk).FlagsIn P
  | 0, _ => trivial
  | f + 1, [] => trivial
  | f + 1, p :: rest => by
    intro c
    show Prog.FlagsIn P (if _ then _ else _)
    split
    · trivial
    · exact (searchChild_flags hP f _).bind fun x => searchLeafLoop_flags hP f _

theorem searchLeaf_flags (hP : P .leafAsInner) {key : K} {closed : Bool} (f : Nat) :
    (searchLeaf (V := V) key closed f).FlagsIn P := fun _ => searchLeafLoop_flags hP f _

theorem searchTarget_flags (hP : P .leafAsInner) (hT : P .targetMissed) {key : K} {ti : Bool}
    {tgt : PID} : ∀ (f : Nat) (stk : Stk), (searchTarget (V := V) key ti tgt f stk).FlagsIn P
  | 0, _ => trivial
  | f + 1, [] => fun r => searchTarget_flags hP hT f _
  | f + 1, p :: rest => by
    intro c
    show Prog.FlagsIn P (if _ then _ else _)
    split
    · split
      · exact hT
      · trivial
    · refine (searchChild_flags hP f _).bind fun x => ?_
      split
      · trivial
      · exact searchTarget_flags hP hT f _

theorem getHead_flags (hP : P .leafAsInner) {key : K} {closed : Bool} {tgt : PID} :
    ∀ (f : Nat) (stk : Stk), (getHead (V := V) cfg key closed tgt f stk).FlagsIn P
  | 0, _ => trivial
  | f + 1, [] => trivial
  | f + 1, p :: rest => by
    refine (loadValidHead_flags f p).bind fun c => ?_
    split
    · trivial
    · split
      · trivial
      · exact getHead_flags hP f _
    · split
      · split
        · trivial
        · exact (searchLeaf_flags hP f).bind fun s => getHead_flags hP f _
      · refine (searchChild_flags hP f _).bind fun x => ?_
        split
        · trivial
        · exact getHead_flags hP f _
    · trivial

theorem getHeadKC_flags (hP : P .leafAsInner) (hI : P .innerAsLeaf) {key : K} :
    ∀ (f : Nat) (stk : Stk), (getHeadKC (V := V) cfg key f stk).FlagsIn P
  | 0, _ => trivial
  | f + 1, [] => trivial
  | f + 1, p :: rest => by
    refine (loadValidHead_flags f p).bind fun c => ?_
    split
    · exact hI
    split
    · trivial
    · exact getHeadKC_flags hP hI f _
    · split
      · exact (searchLeaf_flags hP f).bind fun s => getHeadKC_flags hP hI f _
      · exact (searchChild_flags hP f _).bind fun x => getHeadKC_flags hP hI f _
    · trivial

theorem getHeadForMerge_flags {key : K} : ∀ (f : Nat) (sib : Option K) (stk : Stk),
    (getHeadForMerge (V := V) cfg key f sib stk).FlagsIn P
  | 0, _, _ => trivial
  | f + 1, _, [] => trivial
  | f + 1, sib, p :: rest => by
    refine (loadValidHead_flags f p).bind fun c => ?_
    split
    · trivial
    · trivial
    · exact getHeadForMerge_flags f _ _
    · trivial

theorem tryRootSplit_flags {sep : K} {rpid lpid : PID} :
    (tryRootSplit (V := V) cfg sep rpid lpid).FlagsIn P := by
  intro r
  show Prog.FlagsIn P (if _ then _ else _)
  split
  · trivial
  · exact fun _ => trivial

variable {smo : Chain K V → Stk → Prog K V Unit}

theorem splitLoop_flags (hP : P .leafAsInner) (hT : P .targetMissed)
    (hs : ∀ c s, (smo c s).FlagsIn P) {sep : K} {high : Option K} {ri : Bool} {rpid lpid : PID} :
    ∀ (f : Nat) (stk : Stk), (splitLoop cfg smo sep high ri rpid lpid f stk).FlagsIn P
  | 0, _ => trivial
  | f + 1, [] => by
    refine tryRootSplit_flags.bind fun b => ?_
    split
    · trivial
    · refine (searchTarget_flags hP hT f _).bind fun s => ?_
      cases s with
      | nil => trivial
      | cons x s' => exact splitLoop_flags hP hT hs f _
  | f + 1, x :: xs => by
    refine (getHead_flags hP f _).bind fun o => ?_
    split
    · exact splitLoop_flags hP hT hs f _
    · trivial
    · intro b
      show Prog.FlagsIn P (if _ then _ else _)
      split
      · split
        · exact hs _ _
        · trivial
      · exact splitLoop_flags hP hT hs f _

theorem deleteLoop_flags (hs : ∀ c s, (smo c s).FlagsIn P) {dk : K} {high : Option K} {w : Nat} :
    ∀ (f : Nat) (sib : Option K) (stk : Stk), (deleteLoop cfg smo dk high w f sib stk).FlagsIn P
  | 0, _, _ => trivial
  | f + 1, sib, stk => by
    refine (getHeadForMerge_flags f _ _).bind fun x => ?_
    split
    · split
      · trivial
      · intro b
        show Prog.FlagsIn P (if _ then _ else _)
        split
        · split
          · exact (hs _ _).bind fun _ => trivial
          · trivial
        · exact deleteLoop_flags hs f _ _
    · trivial

theorem tryDelete_flags (hs : ∀ c s, (smo c s).FlagsIn P) {n : Node K V} (f : Nat) (stk : Stk) :
    (tryDeleteIndexEntry cfg smo f n stk).FlagsIn P := by
  unfold tryDeleteIndexEntry
  split
  · trivial
  split
  · trivial
  · exact fun w => deleteLoop_flags hs f _ _

theorem tryRemoveRoot_flags {n : Node K V} {pid : PID} (stk : Stk) :
    (tryRemoveRoot n pid stk).FlagsIn P := by
  unfold tryRemoveRoot
  split
  · trivial
  split
  · trivial
  · intro c
    show Prog.FlagsIn P (if _ then _ else _)
    split
    · trivial
    · exact fun _ => trivial

theorem mergeLoop_flags (hP : P .leafAsInner) (hT : P .targetMissed)
    (hs : ∀ c s, (smo c s).FlagsIn P) {n : Node K V} {dk : K} {w : Nat} {rem : PID} :
    ∀ (f : Nat) (b : Bool) (stk : Stk), (mergeLoop cfg smo n dk w rem f b stk).FlagsIn P
  | 0, _, _ => trivial
  | f + 1, true, [] =>
    (searchTarget_flags hP hT f _).bind fun s => mergeLoop_flags hP hT hs f _ _
  | f + 1, true, x :: xs => by
    refine (searchChild_flags hP f _).bind fun y => ?_
    split
    · exact mergeLoop_flags hP hT hs f _ _
    · exact mergeLoop_flags hP hT hs f _ _
  | f + 1, false, stk => by
    have key : ((getHead cfg dk false rem f stk).bind fun o =>
        match o with
        | none => mergeLoop cfg smo n dk w rem f true []
        | some (_, []) => .ub
        | some (c, p :: rest) =>
          let nc := Chain.push (mergeDelta n dk) c (cfg.nodeDiff n)
          .cas p c nc fun b =>
            if b then
              .storeCell w p (if nc.needConsolidation cfg then smo nc (p :: rest) else .ret ())
            else mergeLoop cfg smo n dk w rem f false (p :: rest)).FlagsIn P := by
      refine (getHead_flags hP f _).bind fun o => ?_
      split
      · exact mergeLoop_flags hP hT hs f _ _
      · trivial
      · intro b
        show Prog.FlagsIn P (if _ then _ else _)
        split
        · show Prog.FlagsIn P (if _ then _ else _)
          split
          · exact hs _ _
          · trivial
        · exact mergeLoop_flags hP hT hs f _ _
    cases stk with
    | nil => exact key
    | cons y ys => exact key

theorem tryMerge_flags (hP : P .leafAsInner) (hT : P .targetMissed)
    (hs : ∀ c s, (smo c s).FlagsIn P) {head : Chain K V} {n : Node K V} (f : Nat) (stk : Stk) :
    (tryMerge cfg smo f head n stk).FlagsIn P := by
  cases stk with
  | nil => trivial
  | cons p rest =>
    intro b
    show Prog.FlagsIn P (if _ then _ else _)
    split
    · refine (tryDelete_flags hs f _).bind fun o => ?_
      split
      · refine (tryRemoveRoot_flags _).bind fun b => ?_
        split <;> trivial
      · exact mergeLoop_flags hP hT hs f _ _
      · trivial
    · trivial

theorem trySMOs_flags (hP : P .leafAsInner) (hT : P .targetMissed) :
    ∀ (f : Nat) (head : Chain K V) (stk : Stk), (trySMOs cfg f head stk).FlagsIn P
  | 0, _, _ => trivial
  | f + 1, _, [] => trivial
  | f + 1, head, p :: rest => by
    intro b
    show Prog.FlagsIn P (if _ then _ else _)
    split
    · split
      · trivial
      · exact fun _ => trivial
      · split
        · trivial
        · exact fun r => splitLoop_flags hP hT (trySMOs_flags hP hT f) f _
      · exact tryMerge_flags hP hT (trySMOs_flags hP hT f) f _
    · trivial

theorem readLoop_flags (hP : P .leafAsInner) (hI : P .innerAsLeaf) (hE : P .emptyStack) {key : K} :
    ∀ (f : Nat) (stk : Stk), (readLoop (V := V) key f stk).FlagsIn P
  | 0, _ => trivial
  | f + 1, [] => trivial
  | f + 1, p :: rest => by
    intro c
    show Prog.FlagsIn P (if _ then _ else _)
    split
    · exact hI
    split
    · trivial
    · exact readLoop_flags hP hI hE f _
    · split
      · exact hE
      · exact (searchChild_flags hP f _).bind fun x => readLoop_flags hP hI hE f _
    · trivial

theorem writeLoop_flags (hP : P .leafAsInner) (hI : P .innerAsLeaf) (hT : P .targetMissed)
    {op : Spec.Op K V} {key : K} :
    ∀ (f : Nat) (stk : Stk), (writeLoop cfg op key f stk).FlagsIn P
  | 0, _ => trivial
  | f + 1, stk => by
    refine (getHeadKC_flags hP hI f _).bind fun x => ?_
    split
    · trivial
    · split
      · trivial
      · intro b
        show Prog.FlagsIn P (if _ then _ else _)
        split
        · split
          · exact (trySMOs_flags hP hT f _ _).bind fun _ => trivial
          · trivial
        · exact writeLoop_flags hP hI hT f _

theorem scanFrom_flags (hP : P .leafAsInner) (hI : P .innerAsLeaf) {key : K} {closed : Bool}
    {e : Spec.Bound K} : ∀ (f : Nat) (stk : Stk), (scanFrom (V := V) cfg key closed e f stk).FlagsIn P
  | 0, _ => trivial
  | f + 1, stk => by
    refine (getHead_flags hP f _).bind fun o => ?_
    split
    · trivial
    · split
      · exact scanFrom_flags hP hI f _
      split
      · exact hI
      split <;> trivial

theorem leftmostLoop_flags (hN : P .nullNext) :
    ∀ (f : Nat) (p : PID), (leftmostLoop (K := K) (V := V) f p).FlagsIn P
  | 0, _ => trivial
  | f + 1, p => by
    intro c
    show Prog.FlagsIn P (if _ then _ else _)
    split
    · trivial
    split
    · exact hN
    split
    · trivial
    · exact leftmostLoop_flags hN f _

theorem scanLeft_flags {e : Spec.Bound K} :
    ∀ (f : Nat) (p : PID), (scanLeft (V := V) cfg e f p).FlagsIn P
  | 0, _ => trivial
  | f + 1, p => by
    intro c
    show Prog.FlagsIn P (if _ then _ else _)
    split
    · exact scanLeft_flags f _
    split <;> trivial

/-- The events a call can meet, whatever other threads do. -/
def Spec.Call.flags : Spec.Call K V → Flag → Prop
  | .op (.read _), k => k = .leafAsInner ∨ k = .innerAsLeaf ∨ k = .emptyStack
  | .op _, k => k = .leafAsInner ∨ k = .innerAsLeaf ∨ k = .targetMissed
  | .visit none _, k => k = .nullNext
  | .visit (some _) _, k => k = .leafAsInner ∨ k = .innerAsLeaf

theorem runOp_flags (f : Nat) (o : Spec.Op K V) :
    (runOp cfg f o).FlagsIn (Spec.Call.op o).flags := by
  cases o with
  | read k =>
    refine (searchLeaf_flags (Or.inl rfl) f).bind fun s => ?_
    exact (readLoop_flags (Or.inl rfl) (Or.inr (Or.inl rfl)) (Or.inr (Or.inr rfl)) f _).bind
      fun _ => trivial
  | write k v =>
    refine (searchLeaf_flags (Or.inl rfl) f).bind fun s => ?_
    exact writeLoop_flags (Or.inl rfl) (Or.inr (Or.inl rfl)) (Or.inr (Or.inr rfl)) f _
  | insert k v =>
    refine (searchLeaf_flags (Or.inl rfl) f).bind fun s => ?_
    exact writeLoop_flags (Or.inl rfl) (Or.inr (Or.inl rfl)) (Or.inr (Or.inr rfl)) f _
  | update k v =>
    refine (searchLeaf_flags (Or.inl rfl) f).bind fun s => ?_
    exact writeLoop_flags (Or.inl rfl) (Or.inr (Or.inl rfl)) (Or.inr (Or.inr rfl)) f _
  | delete k =>
    refine (searchLeaf_flags (Or.inl rfl) f).bind fun s => ?_
    exact writeLoop_flags (Or.inl rfl) (Or.inr (Or.inl rfl)) (Or.inr (Or.inr rfl)) f _

theorem scanFirst_flags (f : Nat) (b e : Spec.Bound K) :
    (scanFirst (V := V) cfg f b e).FlagsIn (Spec.Call.flags (V := V) (.visit b e)) := by
  cases b with
  | none =>
    refine Prog.FlagsIn.bind ?_ fun p => scanLeft_flags f p
    exact fun r => leftmostLoop_flags (P := Spec.Call.flags (V := V) (.visit none e)) rfl f r
  | some x =>
    refine (searchLeaf_flags (Or.inl rfl) f).bind fun s => ?_
    exact scanFrom_flags (Or.inl rfl) (Or.inr rfl) f _

/-- Every thread is subject to `Spec.Call.flags`. -/
def FlagsOK (S : Sys K V) : Prop :=
  ∀ t c p, S.th t = .run c p → p.FlagsIn c.flags

theorem FlagsOK.step {S S' : Sys K V} {l : Option (Spec.Event K V)} (h : FlagsOK S)
    (hs : SysStep cfg S l S') : FlagsOK S' := by
  intro u c p hu
  have old : ∀ x t, (upd S.th t x) u = .run c p → u ≠ t → p.FlagsIn c.flags := by
    intro x t e hne
    rw [upd_ne _ _ hne] at e; exact h u c p e
  cases hs with
  | op t f o hi =>
    by_cases e : u = t
    · subst e
      simp only [upd_same] at hu
      cases hu
      exact (runOp_flags f o).bind fun _ => trivial
    · exact old _ _ hu e
  | scan t f b e hi =>
    by_cases e : u = t
    · subst e
      simp only [upd_same] at hu
      cases hu
      exact (scanFirst_flags f b _).bind fun _ => trivial
    · exact old _ _ hu e
  | next t f p k e hi hit =>
    by_cases e : u = t
    · subst e
      simp only [upd_same] at hu
      cases hu
      exact (scanFrom_flags (Or.inl rfl) (Or.inr rfl) f _).bind fun _ => trivial
    · exact old _ _ hu e
  | step t c' q q' sh' ht ha =>
    by_cases e : u = t
    · subst e
      simp only [upd_same] at hu
      cases hu
      exact (h u _ _ ht).step ha
    · exact old _ _ hu e
  | retOp t o r ht =>
    by_cases e : u = t
    · subst e; simp only [upd_same] at hu; cases hu
    · exact old _ _ hu e
  | retVisit t b e r ht =>
    by_cases e : u = t
    · subst e; simp only [upd_same] at hu; cases hu
    · exact old _ _ hu e

theorem FlagsOK.run {S₀ S : Sys K V} {hist : List (Spec.Event K V)} (h : FlagsOK S₀)
    (hr : Run cfg S₀ hist S) : FlagsOK S := by
  induction hr with
  | nil => exact h
  | tau _ hs ih => exact ih.step hs
  | event _ hs ih => exact ih.step hs

theorem Reachable.flagsOK {m : K → Option V} {S : Sys K V} (h : Reachable cfg m S) :
    FlagsOK S := by
  obtain ⟨sh, hist, _, h2⟩ := h
  refine FlagsOK.run ?_ h2
  intro t c p e; cases e

/-! ## Executions under an assumption -/

/-- Executions that leave only states in which `P` holds. -/
inductive RunIn (cfg : Cfg K) (P : Sys K V → Prop) (S₀ : Sys K V) : Sys K V → Prop
  | nil : RunIn cfg P S₀ S₀
  | step {S S' : Sys K V} {l : Option (Spec.Event K V)} : RunIn cfg P S₀ S → P S →
      SysStep cfg S l S' → RunIn cfg P S₀ S'

theorem RunIn.reachable {P : Sys K V → Prop} {m : K → Option V} {S₀ S : Sys K V}
    (h₀ : Reachable cfg m S₀) (hr : RunIn cfg P S₀ S) : Reachable cfg m S := by
  induction hr with
  | nil => exact h₀
  | @step S S' l _ _ hs ih =>
    obtain ⟨sh, h, h1, h2⟩ := ih
    cases l with
    | none => exact ⟨sh, h, h1, h2.tau hs⟩
    | some e => exact ⟨sh, _, h1, h2.event hs⟩

/-- One thread that is idle at first may make an assumption. -/
theorem Sound.assume {s : St K V} {S : Sys K V} (h : Sound cfg s S) {t : Nat} (ht : S.th t = .idle)
    (R : Regime) : SoundR cfg (fun u => if u = t then R else .free) s S := by
  refine ⟨h.sh, h.inv, fun u => ?_, h.it, h.mark⟩
  by_cases e : u = t
  · subst e
    have := h.th u
    rw [ht] at this ⊢
    exact this
  · simp only [e, if_false]; exact h.th u

theorem SoundR.runIn (hc : CfgOK2 cfg) {rg : Nat → Regime} {P : Sys K V → Prop} {s : St K V}
    {S₀ S : Sys K V} (h₀ : SoundR cfg rg s S₀)
    (hP : ∀ s' S', Mono s s' → s'.toSh = S'.sh → P S' → ∀ t, (rg t).ok s')
    (hr : RunIn cfg P S₀ S) : ∃ s', SoundR cfg rg s' S ∧ Mono s s' := by
  induction hr with
  | nil => exact ⟨s, h₀, Mono.rfl⟩
  | @step S S' l _ hp hs ih =>
    obtain ⟨s1, h1, m1⟩ := ih
    obtain ⟨s2, g1, _, g3, _⟩ := h1.step hc (hP s1 S m1 h1.sh hp) hs
    exact ⟨s2, g1, m1.trans g3.mono⟩

theorem SoundR.flag {rg : Nat → Regime} {s : St K V} {S : Sys K V} (h : SoundR cfg rg s S) {t : Nat}
    {k : Flag} (hk : flagAt S t = some k) : (rg t).fl k := by
  unfold flagAt at hk
  have hw := h.th t
  split at hk
  · next c k' e =>
    cases hk
    rw [e] at hw; exact hw
  · cases hk

end BwTree
