import Verif.Mem.Exec
import Verif.Props.Conc
import Verif.Props.Gc

/-!
# Executions with addresses (C01, C36-C39, C53, C55)

`PRun cfg gn P₀ h P` (`Verif/Mem/System.lean`) is an arbitrary interleaving of the programs of the code on a
memory of records at addresses, with an allocator that reuses memory and a collector that frees it.
Every chain a thread reads is read through pointers, every CAS compares addresses.

The full statements have no proviso; here, as in `Verif/Props/Conc.lean`, a thread that meets one of
the events of `Flag` stops, calls of `SiblingScan` are left out or take a guard (`gn`), and
`CollectStatisticalData` is left out (`C37_false`).
-/

namespace BwTree.Props

open BwTree BwTree.Mem

set_option linter.unusedSectionVars false

variable {K V : Type} [LinearOrder K] {cfg : Cfg K} {gn : Bool}

/-- Reachable states. -/
theorem _root_.BwTree.Mem.PRun.cpl (hc : CfgOK2 cfg) {m : K → Option V} {sh : Sh K V}
    {P₀ P : PSt K V} (hi : Init cfg m sh) (h0 : PStart sh P₀) {h : List (Spec.Event K V)}
    (hr : PRun cfg gn P₀ h P) : ∃ S s, Run cfg (Sys.start sh) h S ∧ Cpl cfg P S s := by
  obtain ⟨s, h1, _⟩ := h0.cpl hc hi
  exact h1.run hc hr

/-! ## C01 -/

/-- Every history of every execution with addresses is linearizable; no thread makes an access it is
not entitled to (`Bad`: through a pointer to reused memory, a CAS with an address it has not loaded,
a store to a page that is not its own) and none is in undefined behaviour. -/
theorem C01_addresses_partial (hc : CfgOK2 cfg) {m : K → Option V} {sh : Sh K V} {P₀ P : PSt K V}
    (hi : Init cfg m sh) (h0 : PStart sh P₀) {h : List (Spec.Event K V)}
    (hr : PRun cfg gn P₀ h P) :
    (∃ log, Spec.Linearizes m h log) ∧ (∀ t c, P.th t ≠ .run c .ub) ∧
      ∀ t c p, P.th t = .run c p → ¬ Bad cfg P t p := by
  obtain ⟨S, s, h1, h2⟩ := hr.cpl hc hi h0
  obtain ⟨h3, h4⟩ := C01_linearizable_partial hc hi h1
  refine ⟨h3, fun t c e => h4 t c ?_, fun t c p ht => h2.not_bad ht⟩
  rw [h2.th]
  exact e

/-- Every execution with addresses is, in its history and in what the threads do, an execution of the
thread system without addresses, and the pages hold the chains found in memory. -/
theorem C01_refines_partial (hc : CfgOK2 cfg) {m : K → Option V} {sh : Sh K V} {P₀ P : PSt K V}
    (hi : Init cfg m sh) (h0 : PStart sh P₀) {h : List (Spec.Event K V)}
    (hr : PRun cfg gn P₀ h P) :
    ∃ S, Run cfg (Sys.start sh) h S ∧ S.th = P.th ∧ S.it = P.it ∧ S.sh.root = P.root ∧
      (∀ p, P.gc.slot p = none → S.sh.mt p = none) ∧
      ∀ p x, P.gc.slot p = some x → ∃ c l, S.sh.mt p = some c ∧ Repr P.mem x c l := by
  obtain ⟨S, s, h1, h2⟩ := hr.cpl hc hi h0
  refine ⟨S, h1, h2.th, h2.it, h2.root, h2.mem.empty, fun p x hx => ?_⟩
  obtain ⟨c, h3, h4⟩ := h2.mem.slot p x hx
  exact ⟨c, _, h3, h4.1⟩

/-- The access a program is about to make. -/
def _root_.BwTree.Prog.moves {α : Type} : Prog K V α → Bool
  | .ret _ | .ub | .stuck | .flag _ => false
  | _ => true

/-- No thread waits for another one: a call that is not finished and has not met an event of `Flag`
(or the bound of a loop, `.stuck`) can make its next access, given two unpublished objects. -/
theorem C01_enabled_partial (hc : CfgOK2 cfg) {m : K → Option V} {sh : Sh K V} {P₀ P : PSt K V}
    (hi : Init cfg m sh) (h0 : PStart sh P₀) {h : List (Spec.Event K V)}
    (hr : PRun cfg gn P₀ h P) {t : Nat} {call : Spec.Call K V} {prog : Prog K V (Out K V)}
    (ht : P.th t = .run call prog) (hp : prog.moves = true) {x y : Gc.Obj} (hxy : x ≠ y)
    (hx : P.gc.loc x = .priv t) (hy : P.gc.loc y = .priv t) :
    ∃ P' p', PStep cfg gn P none P' ∧ P'.th = upd P.th t (.run call p') ∧
      ∀ p o n k z, prog = .cas p o n k → (p, o, z) ∈ (P.fr t).hd → P.gc.slot p = some z →
        p' = k true := by
  obtain ⟨S, s, _, h2⟩ := hr.cpl hc hi h0
  have hb := h2.not_bad ht
  cases prog with
  | ret a => cases hp
  | ub => cases hp
  | stuck => cases hp
  | flag k => cases hp
  | loadRoot k => exact ⟨_, _, .loadRoot _ _ _ _ ht, rfl, fun _ _ _ _ _ e => by cases e⟩
  | storeRoot r k => exact ⟨_, _, .storeRoot _ _ _ _ _ ht, rfl, fun _ _ _ _ _ e => by cases e⟩
  | casRoot o n k =>
    by_cases ho : P.root = o
    · have : ∃ mk z, P.gc.rem o = some ⟨t, mk, z⟩ := by
        by_contra hn
        exact hb ⟨ho, fun mk z e => hn ⟨mk, z, e⟩⟩
      obtain ⟨mk, z, h3⟩ := this
      exact ⟨_, _, .casRootOk _ _ _ _ _ _ _ _ ht ho h3, rfl, fun _ _ _ _ _ e => by cases e⟩
    · exact ⟨_, _, .casRootFail _ _ _ _ _ _ ht ho, rfl, fun _ _ _ _ _ e => by cases e⟩
  | load p k =>
    have : ∃ z c l, P.gc.slot p = some z ∧ Repr P.mem z c l := by
      by_contra hn
      exact hb fun z c l h3 h4 => hn ⟨z, c, l, h3, h4⟩
    obtain ⟨z, c, l, h3, h4⟩ := this
    exact ⟨_, _, .load _ _ _ _ _ _ _ _ ht h3 h4, rfl, fun _ _ _ _ _ e => by cases e⟩
  | store p c k =>
    have hb' : StoreShape P t p c := by
      by_contra hn
      exact hb hn
    obtain ⟨n, rfl, h3 | ⟨h3, h4, ⟨rs, h5⟩, mk, z, h6⟩ | ⟨h3, o, z, h4⟩⟩ := hb'
    · exact ⟨_, _, .publish _ _ _ _ _ _ _ ht h3 hx, rfl, fun _ _ _ _ _ e => by cases e⟩
    · exact ⟨_, _, .restore _ _ _ _ _ _ _ _ _ ht h3 h4 h5 h6, rfl, fun _ _ _ _ _ e => by cases e⟩
    · exact ⟨_, _, .split _ _ _ _ _ _ _ _ _ ht h3 h4 hx, rfl, fun _ _ _ _ _ e => by cases e⟩
  | cas p o n k =>
    by_cases hz : ∃ z, (p, o, z) ∈ (P.fr t).hd ∧ P.gc.slot p = some z
    · obtain ⟨z, h3, h4⟩ := hz
      have fin : ∀ p' o' n' k' (z' : Gc.Obj), (Prog.cas p o n k : Prog K V (Out K V)) =
          .cas p' o' n' k' → (p', o', z') ∈ (P.fr t).hd → P.gc.slot p' = some z' →
          k true = k' true := by
        intro p' o' n' k' z' e _ _
        cases e
        rfl
      by_cases hn : n = o
      · subst hn
        exact ⟨_, _, .same _ _ _ _ _ _ _ ht h3 h4, rfl, fin⟩
      · have hs : Shape cfg P t o n := by
          by_contra hs
          exact hb (Or.inr ⟨hn, hs⟩)
        cases n with
        | base n => exact ⟨_, _, .replace _ _ _ _ _ _ _ _ _ ht hn h3 h4 hx, rfl, fin⟩
        | removed b =>
          obtain ⟨m', h5⟩ := hs
          exact ⟨_, _, .mark _ _ _ _ _ _ _ _ _ _ _ ht hn h3 h4 hx hy hxy h5, rfl, fin⟩
        | delta d o' =>
          obtain ⟨rfl, h5⟩ := hs
          cases hd : d.pay with
          | node m' =>
            rw [hd] at h5
            obtain ⟨q, rs, mk, w, h6, h7⟩ := h5
            exact ⟨_, _, .merge _ _ _ _ _ _ _ _ _ _ _ _ _ _ ht h3 h4 hx hd h6 h7, rfl, fin⟩
          | cell w =>
            rw [hd] at h5
            exact ⟨_, _, .pushCell _ _ _ _ _ _ _ _ _ _ ht h3 h4 hx hd h5, rfl, fin⟩
          | val v =>
            exact ⟨_, _, .push _ _ _ _ _ _ _ _ _ ht h3 h4 hx (by simp [hd]) (by simp [hd]), rfl, fin⟩
          | child v =>
            exact ⟨_, _, .push _ _ _ _ _ _ _ _ _ ht h3 h4 hx (by simp [hd]) (by simp [hd]), rfl, fin⟩
          | none =>
            exact ⟨_, _, .push _ _ _ _ _ _ _ _ _ ht h3 h4 hx (by simp [hd]) (by simp [hd]), rfl, fin⟩
    · refine ⟨_, _, .casFail _ _ _ _ _ _ _ ht, rfl, fun p' o' n' k' z' e h3 h4 => ?_⟩
      cases e
      exact absurd ⟨z', h3, h4⟩ hz
  | newPid k => exact ⟨_, _, .newPid _ _ _ _ ht, rfl, fun _ _ _ _ _ e => by cases e⟩
  | newCell k => exact ⟨_, _, .newCell _ _ _ _ ht, rfl, fun _ _ _ _ _ e => by cases e⟩
  | loadCell w k =>
    have : CellOk P w := by
      by_contra hn
      exact hb hn
    exact ⟨_, _, .loadCell _ _ _ _ _ ht this, rfl, fun _ _ _ _ _ e => by cases e⟩
  | storeCell w p k =>
    have : CellOk P w := by
      by_contra hn
      exact hb hn
    exact ⟨_, _, .storeCell _ _ _ _ _ _ ht this, rfl, fun _ _ _ _ _ e => by cases e⟩

/-! ## C36 -/

/-- A chain `c` that a running call has loaded at address `x` or published there is still found
there, and no object of it is free or allocated again. -/
theorem C36_programs_partial (hc : CfgOK2 cfg) {m : K → Option V} {sh : Sh K V} {P₀ P : PSt K V}
    (hi : Init cfg m sh) (h0 : PStart sh P₀) {h : List (Spec.Event K V)}
    (hr : PRun cfg gn P₀ h P) {t : Nat} {p : PID} {c : Chain K V} {x : Gc.Obj}
    (hx : (p, c, x) ∈ (P.fr t).hd) :
    ∃ l, Repr P.mem x c l ∧ ∀ o ∈ x :: l, P.gc.loc o ≠ .free ∧ ∀ u, P.gc.loc o ≠ .priv u := by
  obtain ⟨S, s, _, h2⟩ := hr.cpl hc hi h0
  obtain ⟨⟨l, hl⟩, hR⟩ := h2.mem.hd t p c x hx
  obtain ⟨g, hg⟩ := h2.mem.guard_hd hx
  refine ⟨_, hR, fun o ho => ?_⟩
  refine C36_guarded_memory_partial h2.mem.gcr hg hl o ?_
  have e : P.gc.below x = l := (h2.mem.gcr.inv.held t g hg (x, l) hl).1
  rwa [← e]

/-- What a call has loaded it keeps until it returns. -/
theorem hd_step {P P' : PSt K V} {l : Option (Spec.Event K V)} (hs : PStep cfg gn P l P') {t : Nat}
    (hl : ∀ e, l = some e → evThread e ≠ t) {z : PID × Chain K V × Gc.Obj}
    (hz : z ∈ (P.fr t).hd) : z ∈ (P'.fr t).hd := by
  have aux : ∀ {u : Nat} {g : Frm K V}, (u = t → z ∈ g.hd) → z ∈ (upd P.fr u g t).hd := by
    intro u g h
    by_cases e : t = u
    · subst e; rw [upd_same]; exact h rfl
    · rw [upd_ne _ _ e]; exact hz
  have aux2 : ∀ {u : Nat} {e : Spec.Event K V} {g : Frm K V}, l = some e → evThread e = u →
      z ∈ (upd P.fr u g t).hd := by
    intro u e g h1 h2
    exact aux fun h => absurd (h2.trans h) (hl e h1)
  cases hs with
  | op => exact aux2 rfl rfl
  | scan => exact aux2 rfl rfl
  | next => exact aux2 rfl rfl
  | retOp => exact aux2 rfl rfl
  | retVisit => exact aux2 rfl rfl
  | loadRoot => exact hz
  | storeRoot => exact hz
  | casRootFail => exact hz
  | loadCell => exact hz
  | storeCell => exact hz
  | bad => exact hz
  | alloc => exact hz
  | write => exact hz
  | release => exact hz
  | retire => exact hz
  | free => exact hz
  | casRootOk => exact aux fun e => by subst e; exact hz
  | restore => exact aux fun e => by subst e; exact hz
  | split => exact aux fun e => by subst e; exact hz
  | casFail => exact aux fun e => by subst e; exact hz
  | same => exact aux fun e => by subst e; exact hz
  | replace => exact aux fun e => by subst e; exact hz
  | mark => exact aux fun e => by subst e; exact hz
  | newPid => exact aux fun e => by subst e; exact hz
  | newCell => exact aux fun e => by subst e; exact hz
  | load => exact aux fun e => by subst e; exact List.mem_cons_of_mem _ hz
  | publish => exact aux fun e => by subst e; exact List.mem_cons_of_mem _ hz
  | push => exact aux fun e => by subst e; exact List.mem_cons_of_mem _ hz
  | pushCell => exact aux fun e => by subst e; exact List.mem_cons_of_mem _ hz
  | merge => exact aux fun e => by subst e; exact List.mem_cons_of_mem _ hz

theorem hd_run {P P' : PSt K V} {h : List (Spec.Event K V)} (hr : PRun cfg gn P h P') {t : Nat}
    (hl : ∀ e ∈ h, evThread e ≠ t) {z : PID × Chain K V × Gc.Obj} (hz : z ∈ (P.fr t).hd) :
    z ∈ (P'.fr t).hd := by
  induction hr with
  | nil => exact hz
  | tau _ hs ih => exact hd_step hs (fun e h => by cases h) (ih hl)
  | event _ hs ih =>
    refine hd_step hs (fun e h => ?_) (ih fun e he => hl e (List.mem_append_left _ he))
    exact hl e (List.mem_append_right _ (by rw [Option.some.inj h]; exact List.mem_singleton.2 rfl))

theorem PRun.append {P₀ P P' : PSt K V} {h h' : List (Spec.Event K V)}
    (h1 : PRun cfg gn P₀ h P) (h2 : PRun cfg gn P h' P') : PRun cfg gn P₀ (h ++ h') P' := by
  induction h2 with
  | nil => rw [List.append_nil]; exact h1
  | tau _ hs ih => exact ih.tau hs
  | event _ hs ih => rw [← List.append_assoc]; exact ih.event hs

/-- Every step writes only to unpublished and free objects, and those it frees. -/
theorem _root_.BwTree.Mem.PStep.keep {P P' : PSt K V} {l : Option (Spec.Event K V)}
    (hs : PStep cfg gn P l P') : MemKeep P.gc P'.gc P.mem P'.mem := by
  cases hs with
  | publish => exact MemKeep.set (Or.inr (Or.inl ⟨_, ‹_›⟩))
  | split => exact MemKeep.set (Or.inr (Or.inl ⟨_, ‹_›⟩))
  | push => exact MemKeep.set (Or.inr (Or.inl ⟨_, ‹_›⟩))
  | pushCell => exact MemKeep.set (Or.inr (Or.inl ⟨_, ‹_›⟩))
  | merge => exact MemKeep.set (Or.inr (Or.inl ⟨_, ‹_›⟩))
  | replace => exact MemKeep.set (Or.inr (Or.inl ⟨_, ‹_›⟩))
  | mark t c p o b k m h x y _ _ _ _ hx hy =>
    intro z
    by_cases e : z = y
    · subst e; exact Or.inr (Or.inr (Or.inl ⟨_, hy⟩))
    · by_cases e' : z = x
      · subst e'; exact Or.inr (Or.inr (Or.inl ⟨_, hx⟩))
      · left
        show Gc.set (Gc.set P.mem x _) y _ z = _
        rw [Gc.set_other _ _ e, Gc.set_other _ _ e']
  | alloc => exact MemKeep.set (Or.inl ‹_›)
  | write => exact MemKeep.set (Or.inr (Or.inl ⟨_, ‹_›⟩))
  | free o r =>
    refine MemKeep.set (Or.inr (Or.inr ?_))
    show Gc.set P.gc.loc o .free o = .free
    exact Gc.set_same _ _ _
  | _ => exact MemKeep.rfl

/-- The objects of a chain that is found at the same address before and after a step, none of them
free or unpublished, are the same ones and their contents have not changed. -/
theorem _root_.BwTree.Mem.Repr.kept {g g' : Gc.St} {mem mem' : Gc.Obj → Rec K V}
    (hm : MemKeep g g' mem mem') {h : Gc.Obj} {c : Chain K V} {l : List Gc.Obj}
    (hR : Repr mem h c l) : ∀ {c' : Chain K V} {l' : List Gc.Obj}, Repr mem' h c' l' →
    (∀ o ∈ h :: l, g.loc o ≠ .free ∧ ∀ u, g.loc o ≠ .priv u) →
    (∀ o ∈ h :: l', g'.loc o ≠ .free) → l' = l ∧ ∀ o ∈ h :: l, mem' o = mem o := by
  have eq : ∀ {o : Gc.Obj}, g.loc o ≠ .free ∧ (∀ u, g.loc o ≠ .priv u) → g'.loc o ≠ .free →
      mem' o = mem o := by
    intro o h1 h2
    rcases hm o with h | h | ⟨u, h⟩ | h
    · exact h
    · exact absurd h h1.1
    · exact absurd h (h1.2 u)
    · exact absurd h h2
  induction hR with
  | @node h n hn =>
    intro c' l' hR' h1 h2
    have e := eq (h1 h (by simp)) (h2 h (by simp))
    rw [← e] at hn
    cases hR' with
    | node => exact ⟨rfl, by simpa using e⟩
    | mark h' => rw [h'] at hn; cases hn
    | delta h' => rw [h'] at hn; cases hn
    | merge h' => rw [h'] at hn; cases hn
  | @mark h n hn =>
    intro c' l' hR' h1 h2
    have e := eq (h1 h (by simp)) (h2 h (by simp))
    rw [← e] at hn
    cases hR' with
    | mark => exact ⟨rfl, by simpa using e⟩
    | node h' => rw [h'] at hn; cases hn
    | delta h' => rw [h'] at hn; cases hn
    | merge h' => rw [h'] at hn; cases hn
  | @delta h x d c l hn _ _ ih =>
    intro c' l' hR' h1 h2
    have e := eq (h1 h (by simp)) (h2 h (by simp))
    rw [← e] at hn
    cases hR' with
    | node h' => rw [h'] at hn; cases hn
    | mark h' => rw [h'] at hn; cases hn
    | merge h' => rw [h'] at hn; cases hn
    | delta h' _ hR' =>
      rw [h'] at hn
      cases hn
      obtain ⟨e1, e2⟩ := ih hR' (fun o ho => h1 o (List.mem_cons_of_mem _ ho))
        (fun o ho => h2 o (List.mem_cons_of_mem _ ho))
      refine ⟨by rw [e1], fun o ho => ?_⟩
      rcases List.mem_cons.mp ho with rfl | ho
      · exact e
      · exact e2 o ho
  | @merge h x y d n c l hn hy _ ih =>
    intro c' l' hR' h1 h2
    have e := eq (h1 h (by simp)) (h2 h (by simp))
    rw [← e] at hn
    cases hR' with
    | node h' => rw [h'] at hn; cases hn
    | mark h' => rw [h'] at hn; cases hn
    | delta h' => rw [h'] at hn; cases hn
    | merge h' _ hR' =>
      rw [h'] at hn
      cases hn
      obtain ⟨e1, e2⟩ := ih hR'
        (fun o ho => h1 o (List.mem_cons_of_mem _ (List.mem_cons_of_mem _ ho)))
        (fun o ho => h2 o (List.mem_cons_of_mem _ (List.mem_cons_of_mem _ ho)))
      refine ⟨by rw [e1], fun o ho => ?_⟩
      rcases List.mem_cons.mp ho with rfl | ho
      · exact e
      · rcases List.mem_cons.mp ho with rfl | ho
        · exact eq (h1 _ (by simp)) (h2 _ (by simp))
        · exact e2 o ho

/-- From the moment a thread loads a chain to the end of the call, whatever the other threads and the
collector do, the address leads to that chain, through the same objects, which stay allocated and
whose contents do not change.  So it does not matter when within the call the records are read. -/
theorem C36_until_return_partial (hc : CfgOK2 cfg) {m : K → Option V} {sh : Sh K V}
    {P₀ P P' : PSt K V} (hi : Init cfg m sh) (h0 : PStart sh P₀) {h h' : List (Spec.Event K V)}
    (hr : PRun cfg gn P₀ h P) {t : Nat} {call : Spec.Call K V} {p : PID}
    {k : Chain K V → Prog K V (Out K V)} {x : Gc.Obj} {c : Chain K V} {l : List Gc.Obj}
    (ht : P.th t = .run call (.load p k)) (hx : P.gc.slot p = some x) (hR : Repr P.mem x c l)
    (hr' : PRun cfg gn { P with gc := Gc.eff P.gc (.load t p),
                                fr := upd P.fr t ((P.fr t).load p c x),
                                th := upd P.th t (.run call (k c)) } h' P')
    (hl : ∀ e ∈ h', evThread e ≠ t) :
    Repr P'.mem x c l ∧
    ∀ o ∈ x :: l, P'.mem o = P.mem o ∧ P'.gc.loc o ≠ .free ∧ ∀ u, P'.gc.loc o ≠ .priv u := by
  have h1 := hr.tau (.load P t call p k x c l ht hx hR)
  have hz : (p, c, x) ∈ (upd P.fr t ((P.fr t).load p c x) t).hd := by
    rw [upd_same]; exact List.mem_cons_self ..
  have key : ∀ {h' : List (Spec.Event K V)} {P' : PSt K V},
      PRun cfg gn { P with gc := Gc.eff P.gc (.load t p),
                           fr := upd P.fr t ((P.fr t).load p c x),
                           th := upd P.th t (.run call (k c)) } h' P' →
      (∀ e ∈ h', evThread e ≠ t) → ∃ l', Repr P'.mem x c l' ∧
        ∀ o ∈ x :: l', P'.gc.loc o ≠ .free ∧ ∀ u, P'.gc.loc o ≠ .priv u :=
    fun hr' hl => C36_programs_partial hc hi h0 (PRun.append h1 hr')
      (hd_run hr' hl (z := (p, c, x)) hz)
  have one : ∀ {h' : List (Spec.Event K V)} {P1 P2 : PSt K V} {lb : Option (Spec.Event K V)},
      PRun cfg gn { P with gc := Gc.eff P.gc (.load t p),
                           fr := upd P.fr t ((P.fr t).load p c x),
                           th := upd P.th t (.run call (k c)) } h' P1 →
      (∀ e ∈ h', evThread e ≠ t) → PStep cfg gn P1 lb P2 →
      (∃ l', Repr P2.mem x c l' ∧
        ∀ o ∈ x :: l', P2.gc.loc o ≠ .free ∧ ∀ u, P2.gc.loc o ≠ .priv u) →
      (Repr P1.mem x c l ∧ ∀ o ∈ x :: l, P1.mem o = P.mem o ∧ P1.gc.loc o ≠ .free ∧
        ∀ u, P1.gc.loc o ≠ .priv u) →
      Repr P2.mem x c l ∧ ∀ o ∈ x :: l, P2.mem o = P.mem o ∧ P2.gc.loc o ≠ .free ∧
        ∀ u, P2.gc.loc o ≠ .priv u := by
    intro h' P1 P2 lb _ _ hs ⟨l', hR2, hl2⟩ ⟨hR1, hm1⟩
    obtain ⟨e1, e2⟩ := hR1.kept hs.keep hR2 (fun o ho => (hm1 o ho).2) (fun o ho => (hl2 o ho).1)
    subst e1
    exact ⟨hR2, fun o ho => ⟨(e2 o ho).trans (hm1 o ho).1, hl2 o ho⟩⟩
  induction hr' with
  | nil =>
    obtain ⟨l', h3, h4⟩ := key .nil hl
    have e : l' = l := (h3.unique hR).2
    subst e
    exact ⟨hR, fun o ho => ⟨rfl, h4 o ho⟩⟩
  | tau hr1 hs ih => exact one hr1 hl hs (key (hr1.tau hs) hl) (ih hl)
  | event hr1 hs ih =>
    have hl1 := fun e he => hl e (List.mem_append_left _ he)
    exact one hr1 hl1 hs (key (hr1.event hs) hl) (ih hl1)

/-! ## C53 -/

/-- When the CAS of a thread finds the address `x` from which the thread has the chain `o`, the chain
in memory at `x` is `o`, and it is the chain of the page in the thread system without addresses. -/
theorem C53_programs_partial (hc : CfgOK2 cfg) {m : K → Option V} {sh : Sh K V} {P₀ P : PSt K V}
    (hi : Init cfg m sh) (h0 : PStart sh P₀) {h : List (Spec.Event K V)}
    (hr : PRun cfg gn P₀ h P) {t : Nat} {call : Spec.Call K V} {p : PID} {o n : Chain K V}
    {k : Bool → Prog K V (Out K V)} (ht : P.th t = .run call (.cas p o n k)) :
    (∃ x, (p, o, x) ∈ (P.fr t).hd) ∧
    ∀ x, (p, o, x) ∈ (P.fr t).hd → P.gc.slot p = some x →
      (∃ l, Repr P.mem x o l) ∧ (∀ c l, Repr P.mem x c l → c = o) ∧ o.isRemoved = false := by
  obtain ⟨S, s, _, h2⟩ := hr.cpl hc hi h0
  refine ⟨?_, fun x hx hs => ?_⟩
  · by_contra hn
    exact h2.not_bad ht (Or.inl fun x hx => hn ⟨x, hx⟩)
  · obtain ⟨_, hR⟩ := h2.mem.hd t p o x hx
    exact ⟨⟨_, hR⟩, fun c l hc' => (hc'.unique hR).1, (h2.cas ht hx hs).2.1⟩

/-! ## C38 -/

theorem todo_guard {s : Gc.St} (hr : Gc.Reachable s) : ∀ t, s.todo t ≠ [] → s.guard t ≠ none := by
  induction hr with
  | init => intro t h; exact absurd rfl h
  | @step s a hr hp ih =>
    have aux : ∀ {u : Nat} {l : List Gc.Obj}, s.guard u ≠ none → ∀ t, Gc.set s.todo u l t ≠ [] →
        s.guard t ≠ none := by
      intro u l hu t h
      by_cases e : t = u
      · subst e; exact hu
      · rw [Gc.set_other _ _ e] at h; exact ih t h
    intro t h
    cases a with
    | enter u =>
      show Gc.set s.guard u _ t ≠ none
      by_cases e : t = u
      · subst e; rw [Gc.set_same]; simp
      · rw [Gc.set_other _ _ e]; exact ih t h
    | leave u =>
      show Gc.set s.guard u _ t ≠ none
      by_cases e : t = u
      · subst e; exact absurd hp.2.1 h
      · rw [Gc.set_other _ _ e]; exact ih t h
    | alloc u o => exact ih t h
    | release u o => exact ih t h
    | load u p =>
      simp only [Gc.eff] at h ⊢
      split at h <;> exact ih t h
    | push u p o x => exact ih t h
    | replace u p n x => exact aux hp.1 t h
    | publish u p n => exact ih t h
    | mark u p m n x => exact aux hp.1 t h
    | restore u p m n => exact aux (hr.inv.remGuard _ _ hp) t h
    | merge u p m n q d x => exact ih t h
    | dropRoot u p m n => exact aux (hr.inv.remGuard _ _ hp) t h
    | retire u o =>
      refine aux (ih u fun e => ?_) t h
      have hp' : o ∈ s.todo u := hp
      rw [e] at hp'
      cases hp'
    | free o => exact ih t h

/-- What is passed to the garbage collector has not been passed to it before (since it was allocated)
and is found by no thread that starts from the mapping table and follows pointers in memory. -/
theorem C38_programs_partial (hc : CfgOK2 cfg) {m : K → Option V} {sh : Sh K V} {P₀ P : PSt K V}
    (hi : Init cfg m sh) (h0 : PStart sh P₀) {h : List (Spec.Event K V)}
    (hr : PRun cfg gn P₀ h P) :
    (∀ t o, o ∈ P.gc.todo t → P.gc.cnt o = 0) ∧
    ∀ p x c l, P.gc.slot p = some x → Repr P.mem x c l → ∀ o ∈ x :: l, P.gc.cnt o = 0 ∧
      (∀ t, o ∉ P.gc.todo t) ∧ P.gc.loc o ≠ .free ∧ (∀ r, P.gc.loc o ≠ .retired r) ∧
      ∀ q y c' l', P.gc.slot q = some y → Repr P.mem y c' l' → o ∈ y :: l' → q = p := by
  obtain ⟨S, s, _, h2⟩ := hr.cpl hc hi h0
  refine ⟨fun t o ho => (C38_retired_once_partial h2.mem.gcr ho).1, fun p x c l hx hR o ho => ?_⟩
  have aux : ∀ {q y c l}, P.gc.slot q = some y → Repr P.mem y c l → l = P.gc.below y := by
    intro q y c l hy hR
    obtain ⟨_, _, h3⟩ := h2.mem.slot q y hy
    exact (hR.unique h3.1).2
  obtain rfl := aux hx hR
  obtain ⟨_, h4⟩ := C38_table_partial h2.mem.gcr hx
  obtain ⟨h5, h6, h7, h8⟩ := h4 o ho
  refine ⟨h5, fun t ht => (C38_retired_once_partial h2.mem.gcr ht).2 p x hx ho, h6, h7, ?_⟩
  intro q y c' l' hy hR' ho'
  obtain rfl := aux hy hR'
  exact h8 q y hy ho'

/-- Nothing is lost: when no call is running, everything that is allocated is found from the mapping
table, or retired, or cached by a thread. -/
theorem C38_no_leak_at_rest_partial (hc : CfgOK2 cfg) {m : K → Option V} {sh : Sh K V}
    {P₀ P : PSt K V} (hi : Init cfg m sh) (h0 : PStart sh P₀) {h : List (Spec.Event K V)}
    (hr : PRun cfg gn P₀ h P) (hq : ∀ t, P.th t = .idle) (o : Gc.Obj) :
    P.gc.loc o = .free ∨ (∃ r, P.gc.loc o = .retired r) ∨ (∃ t, P.gc.loc o = .priv t) ∨
    ∃ p x c l, P.gc.slot p = some x ∧ Repr P.mem x c l ∧ o ∈ x :: l := by
  obtain ⟨S, s, _, h2⟩ := hr.cpl hc hi h0
  have hg : ∀ t, P.gc.guard t = none := fun t => (h2.mem.idle t (hq t)).1
  rcases C38_no_leak_partial h2.mem.gcr o with h3 | h3 | h3 | ⟨p, x, h3, h4⟩ | ⟨t, h3⟩ |
    ⟨p, r, _, _, h3⟩
  · exact Or.inl h3
  · exact Or.inr (Or.inl h3)
  · exact Or.inr (Or.inr (Or.inl h3))
  · obtain ⟨c, _, h5⟩ := h2.mem.slot p x h3
    exact Or.inr (Or.inr (Or.inr ⟨p, x, c, _, h3, h5.1, h4⟩))
  · refine absurd (hg t) (todo_guard h2.mem.gcr t fun e => ?_)
    rw [e] at h3
    cases h3
  · exact absurd (hg _) h3

/-! ## C39 -/

/-- An unpublished object is found neither from the mapping table nor from any address a running call
has. -/
theorem C39_programs_partial (hc : CfgOK2 cfg) {m : K → Option V} {sh : Sh K V} {P₀ P : PSt K V}
    (hi : Init cfg m sh) (h0 : PStart sh P₀) {h : List (Spec.Event K V)}
    (hr : PRun cfg gn P₀ h P) {t : Nat} {o : Gc.Obj} (ho : P.gc.loc o = .priv t) :
    (∀ p x c l, P.gc.slot p = some x → Repr P.mem x c l → o ∉ x :: l) ∧
    (∀ u p x c l, (p, c, x) ∈ (P.fr u).hd → Repr P.mem x c l → o ∉ x :: l) ∧
    ∀ u, o ∉ P.gc.todo u := by
  obtain ⟨S, s, _, h2⟩ := hr.cpl hc hi h0
  obtain ⟨h3, h4, h5⟩ := C39_unpublished_partial h2.mem.gcr ho
  refine ⟨fun p x c l hx hR => ?_, fun u p x c l hx hR => ?_, h5⟩
  · obtain ⟨_, _, h6⟩ := h2.mem.slot p x hx
    rw [(hR.unique h6.1).2]
    exact h3 p x hx
  · obtain ⟨l', h6, h7⟩ := C36_programs_partial hc hi h0 hr hx
    rw [(hR.unique h6).2]
    exact fun hm => (h7 o hm).2 t ho

/-! ## C55 -/

/-- The word of an index-delete delta is written (and read) only while the object it is part of is still
that delta: the object is neither free nor allocated again, and contains the delta. -/
theorem C55_word_partial (hc : CfgOK2 cfg) {m : K → Option V} {sh : Sh K V} {P₀ P : PSt K V}
    (hi : Init cfg m sh) (h0 : PStart sh P₀) {h : List (Spec.Event K V)}
    (hr : PRun cfg gn P₀ h P) {t : Nat} {call : Spec.Call K V} {w : Nat} {prog : Prog K V (Out K V)}
    (ht : P.th t = .run call prog)
    (hw : (∃ k, prog = .loadCell w k) ∨ ∃ q k, prog = .storeCell w q k) :
    ∃ o d x, P.cellAt w = some o ∧ P.mem o = .delta d x ∧ d.pay = .cell w ∧
      P.gc.loc o ≠ .free ∧ ∀ u, P.gc.loc o ≠ .priv u := by
  obtain ⟨S, s, _, h2⟩ := hr.cpl hc hi h0
  have hx : ∃ p c x, (p, c, x) ∈ (P.fr t).hd ∧ CellIn w c := by
    have hg := h2.disc t call prog ht
    rcases hw with ⟨k, rfl⟩ | ⟨q, k, rfl⟩ <;> exact hg.1
  obtain ⟨p, c, x, hx, hin⟩ := hx
  obtain ⟨l, hR, hl⟩ := C36_programs_partial hc hi h0 hr hx
  obtain ⟨o, ho, d, y, h3, h4⟩ := hR.cell hin
  obtain ⟨g, hg⟩ := h2.mem.guard_hd hx
  obtain ⟨⟨l', hl'⟩, hR'⟩ := h2.mem.hd t p c x hx
  refine ⟨o, d, y, h2.mem.cellA o d y w (held_safe h2.mem.gcr hg hl' ?_) h3 h4, h3, h4, hl o ho⟩
  rw [(hR.unique hR').2] at ho
  exact ho

/-! ## Examples -/

/-- Eight writes of thread 0 with consolidations and splits; the collector frees what it may;
thread 1 begins a `Read`, loads the leaf and stops; thread 0 deletes keys and consolidates that leaf,
in memory that has been used before; the collector runs again. -/
def exReuse : List (PCmd Nat Nat) :=
  [.call 0 60 (.write 0 0), .call 0 60 (.write 1 1), .call 0 60 (.write 2 2), .call 0 60 (.write 3 3),
   .call 0 60 (.write 4 4), .call 0 60 (.write 5 5), .call 0 60 (.write 6 6), .call 0 60 (.write 7 7),
   .collect, .acts [.op 1 60 (.read 5)], .steps 1 4,
   .call 0 60 (.delete 7), .call 0 60 (.delete 6), .call 0 60 (.delete 5), .call 0 60 (.delete 4),
   .collect]

/-- The addresses a call has. -/
def hdAt (P : PSt K V) (t : Nat) : List (PID × Gc.Obj) := (P.fr t).hd.map fun y => (y.1, y.2.2)

/-- Thread 1 holds the leaf at address 14, which has been replaced and retired and stays
allocated; address 1 has been freed, is in use again and has been retired again. -/
example : ∃ (P₀ : PSt Nat Nat) (h : List (Spec.Event Nat Nat)) (P : PSt Nat Nat),
    Init smallCfg (fun _ : Nat => (none : Option Nat)) (initSh smallCfg) ∧
    PStart (initSh smallCfg) P₀ ∧ PRun smallCfg true P₀ h P ∧
    (hdAt P 1, P.gc.loc 14, P.gc.loc 1) = ([(2, 14), (3, 13), (3, 13)], .retired 12, .retired 16) :=
  pscenario_witness smallCfg_ok (cs := exReuse)
    (fun _ P => (hdAt P 1, P.gc.loc 14, P.gc.loc 1)) (by decide +kernel)

/-- The same addresses before the deletions: 1 was free, 14 was the leaf. -/
example : ∃ (P₀ : PSt Nat Nat) (h : List (Spec.Event Nat Nat)) (P : PSt Nat Nat),
    Init smallCfg (fun _ : Nat => (none : Option Nat)) (initSh smallCfg) ∧
    PStart (initSh smallCfg) P₀ ∧ PRun smallCfg true P₀ h P ∧
    (hdAt P 1, P.gc.slot 2, P.gc.loc 1) = ([(2, 14), (3, 13), (3, 13)], some 14, .free) :=
  pscenario_witness smallCfg_ok (cs := exReuse.take 11)
    (fun _ P => (hdAt P 1, P.gc.slot 2, P.gc.loc 1)) (by decide +kernel)

/-- When thread 1 has returned, the collector frees the leaf. -/
example : ∃ (P₀ : PSt Nat Nat) (h : List (Spec.Event Nat Nat)) (P : PSt Nat Nat),
    Init smallCfg (fun _ : Nat => (none : Option Nat)) (initSh smallCfg) ∧
    PStart (initSh smallCfg) P₀ ∧ PRun smallCfg true P₀ h P ∧
    (P.gc.loc 14, (rets h).getLast?) = (.free, some (1, .res (.payload none))) :=
  pscenario_witness smallCfg_ok (cs := exReuse ++ [.fin 1 20, .collect])
    (fun h P => (P.gc.loc 14, (rets h).getLast?)) (by decide +kernel)

/-- A merge: thread 0 is about to write the page ID into the index-delete delta of object 7. -/
def exWord : List (PCmd Nat Nat) :=
  [.call 0 60 (.write 0 0), .call 0 60 (.write 1 1), .call 0 60 (.write 2 2), .call 0 60 (.write 3 3),
   .call 0 60 (.write 4 4), .call 0 60 (.write 5 5), .call 0 60 (.write 6 6),
   .collect, .call 0 60 (.delete 6), .call 0 60 (.delete 5), .call 0 60 (.delete 4),
   .acts [.op 0 60 (.delete 3)], .steps 0 14]

/-- The word a thread is about to write, and its object. -/
def wordAt (P : PSt K V) (t : Nat) : Option (Nat × Option Gc.Obj × Option Gc.Loc) :=
  match P.th t with
  | .run _ (.storeCell w _ _) => some (w, P.cellAt w, (P.cellAt w).map P.gc.loc)
  | _ => none

example : ∃ (P₀ : PSt Nat Nat) (h : List (Spec.Event Nat Nat)) (P : PSt Nat Nat),
    Init smallCfg (fun _ : Nat => (none : Option Nat)) (initSh smallCfg) ∧
    PStart (initSh smallCfg) P₀ ∧ PRun smallCfg true P₀ h P ∧
    wordAt P 0 = some (0, some 7, some (.pub 3)) :=
  pscenario_witness smallCfg_ok (cs := exWord) (fun _ P => wordAt P 0) (by decide +kernel)

/-- The CAS a thread is about to make: the page, the addresses it has for the expected chain, and
the address in the page. -/
def casAt [DecidableEq V] (P : PSt K V) (t : Nat) : Option (PID × List Gc.Obj × Option Gc.Obj) :=
  match P.th t with
  | .run _ (.cas p o _ _) => some (p, ((P.fr t).hd.filter fun y => y.1 = p ∧ y.2.1 = o).map (·.2.2),
      P.gc.slot p)
  | _ => none

example : ∃ (P₀ : PSt Nat Nat) (h : List (Spec.Event Nat Nat)) (P : PSt Nat Nat),
    Init smallCfg (fun _ : Nat => (none : Option Nat)) (initSh smallCfg) ∧
    PStart (initSh smallCfg) P₀ ∧ PRun smallCfg true P₀ h P ∧
    casAt P 0 = some (2, [3, 3], some 3) :=
  pscenario_witness smallCfg_ok (cs := exWord.take 12 ++ [.steps 0 5]) (fun _ P => casAt P 0)
    (by decide +kernel)

end BwTree.Props
