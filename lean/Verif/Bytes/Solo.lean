import Verif.Bytes.Session

/-!
# One thread on bytes (proof side)

The heads a thread hands to `CAS` are the current ones as long as it runs alone.
-/

namespace BwTree.Bytes

open Layout (Mem BBound)

set_option linter.unusedSectionVars false

variable {C α β : Type}

/-! ## Heads are current -/

/-- In a run without other threads, every head given to `CAS` is the current one, and `Q` holds at
the end. -/
def Solo : BProg C α → (α → BSh C → Prop) → BSh C → Prop
  | .ret a, Q, b => Q a b
  | .ub, _, _ => True
  | .stuck, _, _ => True
  | .flag _, _, _ => True
  | .loadRoot k, Q, b => Solo (k b.root) Q b
  | .storeRoot p k, Q, b => Solo k Q { b with root := p }
  | .casRoot o n k, Q, b =>
    (b.root = o → Solo (k true) Q { b with root := n }) ∧ (b.root ≠ o → Solo (k false) Q b)
  | .load p k, Q, b => ∀ h, b.mt p = some h → Solo (k h) Q b
  | .store p c k, Q, b => Solo k Q (b.publish p c)
  | .cas p h c k, Q, b => b.mt p = some h ∧ Solo (k (some ⟨b.nid, c⟩)) Q (b.publish p c)
  | .check p h k, Q, b => b.mt p = some h ∧ Solo (k true) Q b
  | .newPid k, Q, b => Solo (k b.npid) Q { b with npid := b.npid + 1 }
  | .newCell k, Q, b =>
    Solo (k b.ncell) Q { b with ncell := b.ncell + 1, cells := upd b.cells b.ncell 0 }
  | .loadCell w k, Q, b => Solo (k (b.cells w)) Q b
  | .storeCell w p k, Q, b => Solo k Q { b with cells := upd b.cells w p }
  | .alloc k, Q, b => ∀ m, Solo (k m) Q b

theorem Solo.then {P : α → BSh C → Prop} {Q : β → BSh C → Prop} {q : BProg C α}
    {g : α → BProg C β} : ∀ {b : BSh C}, Solo q P b → (∀ a b', P a b' → Solo (g a) Q b') →
    Solo (q.bind g) Q b := by
  induction q with
  | ret a => intro b h hg; exact hg a b h
  | ub => intro b h hg; trivial
  | stuck => intro b h hg; trivial
  | flag k => intro b h hg; trivial
  | loadRoot k ih => intro b h hg; exact ih _ h hg
  | storeRoot p k ih => intro b h hg; exact ih h hg
  | casRoot o n k ih =>
    intro b h hg; exact ⟨fun e => ih _ (h.1 e) hg, fun e => ih _ (h.2 e) hg⟩
  | load p k ih => intro b h hg; exact fun x hx => ih _ (h x hx) hg
  | store p c k ih => intro b h hg; exact ih h hg
  | cas p o n k ih => intro b h hg; exact ⟨h.1, ih _ h.2 hg⟩
  | check p o k ih => intro b h hg; exact ⟨h.1, ih _ h.2 hg⟩
  | newPid k ih => intro b h hg; exact ih _ h hg
  | newCell k ih => intro b h hg; exact ih _ h hg
  | loadCell w k ih => intro b h hg; exact ih _ h hg
  | storeCell w p k ih => intro b h hg; exact ih h hg
  | alloc k ih => intro b h hg; exact fun m => ih m (h m) hg

/-- The program of a thread that has run alone. -/
theorem Solo.step {Q : α → BSh C → Prop} {b b' : BSh C} {q q' : BProg C α} (h : Solo q Q b)
    (hf : BFirm b q b' q') : Solo q' Q b' := by
  obtain ⟨hs, hc, hk⟩ := hf
  cases hs with
  | loadRoot k => exact h
  | storeRoot p k => exact h
  | casRootOk o n k e => exact h.1 e
  | casRootFail o n k e => exact h.2 e
  | load p k x e => exact h x e
  | loadNull p k e => trivial
  | store p c k => exact h
  | casOk p o n k x e1 e2 => exact h.2
  | casFail p o n k =>
    obtain ⟨e1, e2⟩ := hc _ _ _ _ _ rfl h.1 rfl
    rw [e1, e2]; exact h.2
  | checkOk p o k x e1 e2 => exact h.2
  | checkFail p o k =>
    rw [hk _ _ _ _ rfl h.1 rfl]; exact h.2
  | newPid k => exact h
  | newCell k => exact h
  | loadCell w k => exact h
  | storeCell w p k => exact h
  | alloc k m => exact h m

theorem BSh.publish_same (b : BSh C) (p : PID) (c : C) :
    (b.publish p c).mt p = some ⟨b.nid, c⟩ := upd_same _ _ _

variable {L : Lay}

/-- The memory has not changed. -/
abbrev Same (b : BSh L.C) {α : Type} : α → BSh L.C → Prop := fun _ b' => b' = b

theorem loadValidHead_solo : ∀ (f : Nat) (p : PID) (b : BSh L.C),
    Solo (loadValidHead L f p) (fun h b' => b' = b ∧ b.mt p = some h) b
  | 0, _, _ => trivial
  | f + 1, p, b => fun h hm => by
    show Solo (if _ then _ else _) _ _
    split
    · exact loadValidHead_solo f p b
    · exact ⟨rfl, hm⟩

theorem waitCell_solo : ∀ (f w : Nat) (b : BSh L.C), Solo (waitCell L f w) (Same b) b
  | 0, _, _ => trivial
  | f + 1, w, b => by
    show Solo (if _ then _ else _) _ _
    split
    · exact waitCell_solo f w b
    · exact rfl

theorem searchChild_solo (key : Str) (cl : Bool) (tgt : PID) : ∀ (f : Nat) (s : Stk) (b : BSh L.C),
    Solo (searchChild L key cl tgt f s) (Same b) b
  | 0, _, _ => trivial
  | f + 1, [], _ => trivial
  | f + 1, p :: rest, b => fun h hm => by
    show Solo (if _ then _ else _) _ _
    split
    · trivial
    · cases L.child key cl h.ch with
      | child q => exact rfl
      | cell w => exact (waitCell_solo f w b).then fun a b' e => e
      | sibling q =>
        show Solo (if _ then _ else _) _ _
        split
        · exact rfl
        · exact searchChild_solo key cl tgt f _ b
      | removed =>
        show Solo (if _ then _ else _) _ _
        split
        · split
          · exact rfl
          · exact searchChild_solo key cl tgt f _ b
        · refine (searchChild_solo key cl tgt f _ b).then fun a b' e => ?_
          subst e
          split
          · exact rfl
          · split
            · exact rfl
            · exact searchChild_solo key cl tgt f _ _
      | ub => trivial

theorem searchLeafLoop_solo (key : Str) (cl : Bool) : ∀ (f : Nat) (s : Stk) (b : BSh L.C),
    Solo (searchLeafLoop L key cl f s) (Same b) b
  | 0, _, _ => trivial
  | f + 1, [], _ => trivial
  | f + 1, p :: rest, b => fun h hm => by
    show Solo (if _ then _ else _) _ _
    split
    · exact rfl
    · refine (searchChild_solo key cl 0 f _ b).then fun a b' e => ?_
      subst e
      exact searchLeafLoop_solo key cl f _ _

theorem searchLeaf_solo (key : Str) (cl : Bool) (f : Nat) (b : BSh L.C) :
    Solo (searchLeaf L key cl f) (Same b) b := searchLeafLoop_solo key cl f _ b

theorem searchTarget_solo (key : Str) (ti : Bool) (tgt : PID) : ∀ (f : Nat) (s : Stk) (b : BSh L.C),
    Solo (searchTarget L key ti tgt f s) (Same b) b
  | 0, _, _ => trivial
  | f + 1, [], b => searchTarget_solo key ti tgt f _ b
  | f + 1, p :: rest, b => fun h hm => by
    show Solo (if _ then _ else _) _ _
    split
    · split
      · trivial
      · exact rfl
    · refine (searchChild_solo key true tgt f _ b).then fun a b' e => ?_
      subst e
      split
      · exact rfl
      · exact searchTarget_solo key ti tgt f _ _

/-- The head of the last page of the stack. -/
abbrev Top (b : BSh L.C) (h : Head L.C) (s : Stk) : Prop :=
  ∀ p rest, s = p :: rest → b.mt p = some h

theorem Top.mk {b : BSh L.C} {h : Head L.C} {p : PID} {rest : Stk} (e : b.mt p = some h) :
    Top b h (p :: rest) := fun p' rest' e' => by cases e'; exact e

theorem getHead_solo (key : Str) (cl : Bool) (tgt : PID) : ∀ (f : Nat) (s : Stk) (b : BSh L.C),
    Solo (getHead L key cl tgt f s)
      (fun o b' => b' = b ∧ ∀ h s', o = some (h, s') → Top b h s') b
  | 0, _, _ => trivial
  | f + 1, [], _ => trivial
  | f + 1, p :: rest, b => (loadValidHead_solo f p b).then fun h b' e => by
    obtain ⟨e, hm⟩ := e
    subst e
    cases L.validate key cl h.ch with
    | ok => exact ⟨rfl, fun h' s' e => by cases e; exact Top.mk hm⟩
    | sibling q =>
      show Solo (if _ then _ else _) _ _
      split
      · exact ⟨rfl, fun h' s' e => by cases e; exact Top.mk hm⟩
      · exact getHead_solo key cl tgt f _ _
    | removed =>
      show Solo (if _ then _ else _) _ _
      split
      · split
        · exact ⟨rfl, fun h' s' e => by cases e⟩
        · refine (searchLeaf_solo key cl f _).then fun a b' e => ?_
          subst e
          exact getHead_solo key cl tgt f _ _
      · refine (searchChild_solo key cl tgt f _ _).then fun a b' e => ?_
        subst e
        split
        · exact ⟨rfl, fun h' s' e => by cases e⟩
        · exact getHead_solo key cl tgt f _ _
    | ub => trivial

theorem getHeadKC_solo (key : Str) : ∀ (f : Nat) (s : Stk) (b : BSh L.C),
    Solo (getHeadKC L key f s) (fun x b' => b' = b ∧ Top b x.2.1 x.1) b
  | 0, _, _ => trivial
  | f + 1, [], _ => trivial
  | f + 1, p :: rest, b => (loadValidHead_solo f p b).then fun h b' e => by
    obtain ⟨e, hm⟩ := e
    subst e
    split
    · trivial
    · cases L.check key h.ch with
      | ret x => exact ⟨rfl, Top.mk hm⟩
      | sibling q => exact getHeadKC_solo key f _ _
      | removed =>
        show Solo (if _ then _ else _) _ _
        split
        · refine (searchLeaf_solo key true f _).then fun a b' e => ?_
          subst e
          exact getHeadKC_solo key f _ _
        · refine (searchChild_solo key true 0 f _ _).then fun a b' e => ?_
          subst e
          exact getHeadKC_solo key f _ _
      | ub => trivial

theorem getHeadForMerge_solo (key : Str) : ∀ (f : Nat) (sib : Option Str) (s : Stk) (b : BSh L.C),
    Solo (getHeadForMerge L key f sib s) (fun x b' => b' = b ∧ Top b x.2.1 x.1) b
  | 0, _, _, _ => trivial
  | f + 1, _, [], _ => trivial
  | f + 1, sib, p :: rest, b => (loadValidHead_solo f p b).then fun h b' e => by
    obtain ⟨e, hm⟩ := e
    subst e
    cases (L.mergeStep key sib h.ch).1 with
    | ok => exact ⟨rfl, Top.mk hm⟩
    | abort => exact ⟨rfl, Top.mk hm⟩
    | sibling q => exact getHeadForMerge_solo key f _ _ _
    | ub => trivial

/-! ## Structure modifications -/

/-- Nothing to say. -/
abbrev Any {α : Type} : α → BSh L.C → Prop := fun _ _ => True

theorem tryRootSplit_solo (d : L.D) (lp : PID) (b : BSh L.C) :
    Solo (tryRootSplit L d lp) Any b := by
  show Solo (if _ then _ else _) _ _
  split
  · trivial
  · exact fun m => trivial

/-- `TrySMOs` gets the current head. -/
def SmoSolo (smo : Head L.C → Stk → BProg L.C Unit) : Prop :=
  ∀ h p rest (b : BSh L.C), b.mt p = some h → Solo (smo h (p :: rest)) Any b

variable {smo : Head L.C → Stk → BProg L.C Unit}

theorem splitLoop_solo (hs : SmoSolo smo) (sep : Str) (d : L.D) (ri : Bool) (rp lp : PID) :
    ∀ (f : Nat) (s : Stk) (b : BSh L.C), Solo (splitLoop L smo sep d ri rp lp f s) Any b
  | 0, _, _ => trivial
  | f + 1, [], b => (tryRootSplit_solo d lp b).then fun x b' _ => by
    split
    · trivial
    · refine (searchTarget_solo sep ri rp f _ b').then fun s b' _ => ?_
      cases s with
      | nil => trivial
      | cons x xs => exact splitLoop_solo hs sep d ri rp lp f xs b'
  | f + 1, x :: xs, b => (getHead_solo sep true rp f _ b).then fun o b' e => by
    obtain ⟨e, ht⟩ := e
    subst e
    match o, ht with
    | none, _ => exact splitLoop_solo hs sep d ri rp lp f _ _
    | some (_, []), _ => trivial
    | some (h, p :: rest), ht =>
      refine ⟨ht _ _ rfl _ _ rfl, ?_⟩
      show Solo (if _ then _ else _) _ _
      split
      · exact hs _ _ _ _ (BSh.publish_same _ _ _)
      · trivial

theorem split_solo (hs : SmoSolo smo) (f : Nat) (l r : L.N) (sep : Str) (s : Stk) (b : BSh L.C) :
    Solo (split L smo f l r sep s) Any b := by
  cases s with
  | nil => trivial
  | cons lp rest => exact fun m => splitLoop_solo hs sep _ _ _ _ f rest _

theorem deleteLoop_solo (hs : SmoSolo smo) (dk : Str) (d : L.D) (w : Nat) :
    ∀ (f : Nat) (sib : Option Str) (s : Stk) (b : BSh L.C),
      Solo (deleteLoop L smo dk d w f sib s) Any b
  | 0, _, _, _ => trivial
  | f + 1, sib, s, b => (getHeadForMerge_solo dk f sib s b).then fun x b' e => by
    obtain ⟨s1, h, x1, o1⟩ := x
    obtain ⟨e, ht⟩ := e
    subst e
    split
    · cases s1 with
      | nil => trivial
      | cons p rest =>
        refine ⟨ht _ _ rfl, ?_⟩
        show Solo (if _ then _ else _) _ _
        split
        · exact (hs _ _ _ _ (BSh.publish_same _ _ _)).then fun _ _ _ => trivial
        · trivial
    · trivial

theorem tryDeleteIndexEntry_solo (hs : SmoSolo smo) (f : Nat) (n : L.N) (s : Stk) (b : BSh L.C) :
    Solo (tryDeleteIndexEntry L smo f n s) Any b := by
  unfold tryDeleteIndexEntry
  split
  · trivial
  · cases L.low n with
    | none => trivial
    | some dk => exact fun m => deleteLoop_solo hs dk _ _ f _ _ _

theorem tryRemoveRoot_solo (n : L.N) (p : PID) (s : Stk) (b : BSh L.C) :
    Solo (tryRemoveRoot L n p s) Any b := by
  unfold tryRemoveRoot
  split
  · trivial
  · cases L.leftmost (L.base n) with
    | none => trivial
    | some q =>
      intro h hm
      show Solo (if _ then _ else _) _ _
      split
      · trivial
      · exact ⟨fun _ => trivial, fun _ => trivial⟩

theorem mergeLoop_solo (hs : SmoSolo smo) (n : L.N) (dk : Str) (d : L.D) (w : Nat) (rem : PID) :
    ∀ (f : Nat) (x : Bool) (s : Stk) (b : BSh L.C), Solo (mergeLoop L smo n dk d w rem f x s) Any b
  | 0, _, _, _ => trivial
  | f + 1, true, [], b => (searchTarget_solo dk _ rem f _ b).then fun s b' _ =>
      mergeLoop_solo hs n dk d w rem f false s b'
  | f + 1, true, x :: xs, b => (searchChild_solo dk false rem f _ b).then fun y b' _ => by
    split
    · exact mergeLoop_solo hs n dk d w rem f _ _ _
    · exact mergeLoop_solo hs n dk d w rem f _ _ _
  | f + 1, false, s, b => by
    unfold mergeLoop
    refine (getHead_solo dk false rem f s b).then fun o b' e => ?_
    obtain ⟨e, ht⟩ := e
    subst e
    match o, ht with
    | none, _ => exact mergeLoop_solo hs n dk d w rem f _ _ _
    | some (_, []), _ => trivial
    | some (h, p :: rest), ht =>
      refine ⟨ht _ _ rfl _ _ rfl, ?_⟩
      show Solo (if _ then _ else _) _ _
      split
      · exact hs _ _ _ _ (BSh.publish_same _ _ _)
      · trivial

theorem tryMerge_solo (hs : SmoSolo smo) (f : Nat) {h : Head L.C} (n : L.N) {p : PID} (rest : Stk)
    {b : BSh L.C} (hm : b.mt p = some h) : Solo (tryMerge L smo f h n (p :: rest)) Any b := by
  refine ⟨hm, (tryDeleteIndexEntry_solo hs f n rest _).then fun o b' _ => ?_⟩
  cases o with
  | none =>
    refine (tryRemoveRoot_solo n p rest b').then fun x b' _ => ?_
    split <;> trivial
  | some w =>
    cases L.low n with
    | none => trivial
    | some dk => exact fun m => mergeLoop_solo hs n dk _ w p f _ _ _

theorem trySMOs_solo : ∀ (f : Nat), SmoSolo (trySMOs L f)
  | 0, _, _, _, _, _ => trivial
  | f + 1, h, p, rest, b, hm => by
    refine ⟨hm, fun m m' => ?_⟩
    dsimp only
    cases L.cons m m' h.ch with
    | none => trivial
    | some s =>
      cases s with
      | consolidate n => exact ⟨hm, trivial⟩
      | split l r =>
        show Solo (match L.low r with | none => _ | some sep => _) _ _
        cases L.low r with
        | none => trivial
        | some sep => exact split_solo (trySMOs_solo f) f l r sep _ b
      | merge n => exact tryMerge_solo (trySMOs_solo f) f n rest hm

/-! ## Public operations -/

theorem readLoop_solo (key : Str) : ∀ (f : Nat) (s : Stk) (b : BSh L.C),
    Solo (readLoop L key f s) Any b
  | 0, _, _ => trivial
  | f + 1, [], _ => trivial
  | f + 1, p :: rest, b => fun h hm => by
    show Solo (if _ then _ else _) _ _
    split
    · trivial
    · cases L.read key h.ch with
      | ret o => trivial
      | sibling q => exact readLoop_solo key f _ b
      | removed =>
        show Solo (if _ then _ else _) _ _
        split
        · trivial
        · exact (searchChild_solo key true 0 f _ b).then fun a b' _ => readLoop_solo key f _ b'
      | ub => trivial

theorem writeLoop_solo (o : Spec.Op Str Str) (key : Str) (d : L.D) : ∀ (f : Nat) (s : Stk) (b : BSh L.C),
    Solo (writeLoop L o key d f s) Any b
  | 0, _, _ => trivial
  | f + 1, s, b => (getHeadKC_solo key f s b).then fun x b' e => by
    obtain ⟨s1, h, x1⟩ := x
    obtain ⟨e, ht⟩ := e
    subst e
    cases writeStep L o x1 with
    | inl r => trivial
    | inr y =>
      cases s1 with
      | nil => trivial
      | cons p rest =>
        refine ⟨ht _ _ rfl, ?_⟩
        show Solo (if _ then _ else _) _ _
        split
        · exact (trySMOs_solo f _ _ _ _ (BSh.publish_same _ _ _)).then fun _ _ _ => trivial
        · trivial

theorem runOp_solo (f : Nat) (o : Spec.Op Str Str) (b : BSh L.C) : Solo (runOp L f o) Any b := by
  refine (searchLeaf_solo _ true f b).then fun s b' _ => ?_
  cases o with
  | read k => exact (readLoop_solo k f s b').then fun _ _ _ => trivial
  | write k v => exact fun m => writeLoop_solo _ _ _ f s b'
  | insert k v => exact fun m => writeLoop_solo _ _ _ f s b'
  | update k v => exact fun m => writeLoop_solo _ _ _ f s b'
  | delete k => exact fun m => writeLoop_solo _ _ _ f s b'

theorem scanFrom_solo (key : Str) (cl : Bool) (e : BBound) : ∀ (f : Nat) (s : Stk) (b : BSh L.C),
    Solo (scanFrom L key cl e f s) (Same b) b
  | 0, _, _ => trivial
  | f + 1, s, b => (getHead_solo key cl 0 f s b).then fun o b' x => by
    obtain ⟨x, _⟩ := x
    subst x
    match o with
    | none => trivial
    | some (h, s') =>
      show Solo (if _ then _ else _) _ _
      split
      · exact scanFrom_solo key cl e f s' _
      · split
        · trivial
        · intro m
          dsimp only
          cases L.scan m (some (key, cl)) e h.ch with
          | none => trivial
          | some x => exact rfl

theorem leftmostLoop_solo : ∀ (f : Nat) (p : PID) (b : BSh L.C), Solo (leftmostLoop L f p) (Same b) b
  | 0, _, _ => trivial
  | f + 1, p, b => fun h hm => by
    show Solo (if _ then _ else _) _ _
    split
    · exact rfl
    · split
      · trivial
      · cases L.leftmost h.ch with
        | none => trivial
        | some q => exact leftmostLoop_solo f q b

theorem scanLeft_solo (e : BBound) : ∀ (f : Nat) (p : PID) (b : BSh L.C),
    Solo (scanLeft L e f p) (Same b) b
  | 0, _, _ => trivial
  | f + 1, p, b => fun h hm => by
    show Solo (if _ then _ else _) _ _
    split
    · exact scanLeft_solo e f p b
    · intro m
      dsimp only
      cases L.scan m none e h.ch with
      | none => trivial
      | some x => exact rfl

theorem scanFirst_solo (f : Nat) (bb e : BBound) (b : BSh L.C) :
    Solo (scanFirst L f bb e) (Same b) b := by
  match bb with
  | some (k, cl) =>
    exact (searchLeaf_solo k cl f b).then fun s b' x => by subst x; exact scanFrom_solo k cl e f s _
  | none =>
    exact Solo.then (P := Same b) (leftmostLoop_solo f b.root b) fun s b' x => by
      subst x; exact scanLeft_solo e f s _

theorem scanNext_solo (f : Nat) (p : PID) (k : Str) (e : BBound) (b : BSh L.C) :
    Solo (scanNext L f p k e) (Same b) b := scanFrom_solo k true e f [p] b

end BwTree.Bytes
