import Verif.Bytes.Prog
import Verif.Layout.SearchSim
import Verif.Conc.System

/-!
# Programs on bytes follow programs on records (proof side)

`LayOK`: what a page layout must provide.  `PSim`: every access of the program on bytes is one of the
program on records, with a new object holding the new chain, or takes a page.
-/

namespace BwTree.Bytes

open Layout (Mem BRd BBound Enc)

set_option linter.unusedSectionVars false

variable {K V : Type} [LinearOrder K]

/-- The bytes of an operation. -/
def op (e : Enc K V) : Spec.Op K V → Spec.Op Str Str
  | .read k => .read (e.key k)
  | .write k v => .write (e.key k) (e.val v)
  | .insert k v => .insert (e.key k) (e.val v)
  | .update k v => .update (e.key k) (e.val v)
  | .delete k => .delete (e.key k)

/-- The bytes of a result. -/
def res (e : Enc K V) : Spec.Res V → Spec.Res Str
  | .payload o => .payload (o.map e.val)
  | .success => .success
  | .keyExist => .keyExist
  | .keyNotExist => .keyNotExist

/-- The bytes of a call. -/
def call (e : Enc K V) : Spec.Call K V → Spec.Call Str Str
  | .op o => .op (op e o)
  | .visit b x => .visit (e.bound b) (e.bound x)

/-- The bytes of what a call returns. -/
def rtn (e : Enc K V) : Spec.Ret K V → Spec.Ret Str Str
  | .res r => .res (res e r)
  | .page rs n => .page (rs.map fun y => (e.key y.1, e.val y.2)) (n.map e.key)

/-- The bytes of an event. -/
def event (e : Enc K V) : Spec.Event K V → Spec.Event Str Str
  | .inv t c => .inv t (call e c)
  | .ret t c r => .ret t (call e c) (rtn e r)

/-- What consolidation makes, in the model and on bytes. -/
def SmoI {N : Type} (NI : Node K V → N → Prop) : SMO K V → LSmo N → Prop
  | .consolidate n, .consolidate b => NI n b
  | .split l r, .split a b => NI l a ∧ NI r b
  | .merge n, .merge b => NI n b
  | _, _ => False

/-- The layout implements records: `Img`, `NI`, `DI` say that bytes hold a chain, a node, a delta; `OK`
are the chains that occur. -/
structure LayOK (cfg : Cfg K) (e : Enc K V) (L : Lay) (OK : Chain K V → Prop)
    (Img : Chain K V → L.C → Prop) (NI : Node K V → L.N → Prop) (DI : Delta K V → L.D → Prop) :
    Prop where
  isLeaf : ∀ {ch b}, Img ch b → L.isLeaf b = ch.isLeaf
  isRemoved : ∀ {ch b}, Img ch b → L.isRemoved b = ch.isRemoved
  needWait : ∀ {ch b}, Img ch b → L.needWait b = ch.needWait cfg
  needCons : ∀ {ch b}, Img ch b → L.needCons b = ch.needConsolidation cfg
  child : ∀ {ch b}, Img ch b → OK ch → ∀ k cl, childStep k cl ch ≠ .ub →
    L.child (e.key k) cl b = childStep k cl ch
  validate : ∀ {ch b}, Img ch b → ∀ k cl, dcValidate k cl ch ≠ .ub →
    L.validate (e.key k) cl b = dcValidate k cl ch
  check : ∀ {ch b}, Img ch b → ∀ k, keyCheck k ch ≠ .ub → L.check (e.key k) b = keyCheck k ch
  read : ∀ {ch b}, Img ch b → ∀ k, readChain k ch ≠ .ub →
    L.read (e.key k) b = e.rd (readChain k ch)
  mergeStep : ∀ {ch b}, Img ch b → ∀ k sib, (mergeStep cfg k sib ch).1 ≠ .ub →
    L.mergeStep (e.key k) (sib.map e.key) b =
      ((BwTree.mergeStep cfg k sib ch).1, ((BwTree.mergeStep cfg k sib ch).2).map e.key)
  leftmost : ∀ {ch b q}, Img ch b → OK ch → ch.leftmostChild = some q → L.leftmost b = some q
  empty : ∀ m, NI (emptyLeaf cfg) (L.empty m)
  base : ∀ {n b}, NI n b → Img (.base n) (L.base b)
  mark : ∀ l, Img (.removed l) (L.mark l)
  cons : ∀ {ch b smo}, Img ch b → OK ch → tryConsolidate cfg false ch = some smo →
    ∀ m m', ∃ s, L.cons m m' b = some s ∧ SmoI NI smo s
  okCons : ∀ {ch n}, OK ch → tryConsolidate cfg false ch = some (.merge n) → OK (.base n)
  scan : ∀ {ch b x}, Img ch b → OK ch → ∀ bb eb, scanOut cfg bb eb ch = some x →
    ch.isRemoved = false → ∀ m, L.scan m (e.bound bb) (e.bound eb) b = some (e.scan x)
  low : ∀ {n b}, NI n b → L.low b = n.low.map e.key
  high : ∀ {n b}, NI n b → L.high b = n.high.map e.key
  inner : ∀ {n b}, NI n b → L.inner b = n.inner
  cnt : ∀ {n b}, NI n b → L.cnt b = n.recs.length
  setNext : ∀ {n b}, NI n b → ∀ p, NI { n with next := p } (L.setNext b p)
  diff : ∀ {n b}, NI n b → L.diff b = cfg.nodeDiff n
  entLen : ∀ i k, L.entLen i (e.key k) = cfg.entLen i k
  put : ∀ ty k v m, DI (putDelta ty k v) (L.put m (e.key k) (e.val v))
  del : ∀ k m, DI (delDelta k) (L.del m (e.key k))
  entry : ∀ {n b sep}, NI n b → n.low = some sep → ∀ p m,
    DI (entryDelta sep n.high p) (L.entry m b p)
  idxDel : ∀ {n b dk}, NI n b → n.low = some dk → ∀ w m,
    DI (deleteDelta dk n.high w) (L.idxDel m b w)
  mergeD : ∀ {n b dk}, NI n b → n.low = some dk → ∀ m, DI (mergeDelta n dk) (L.mergeD m b)
  root : ∀ {sep h rp d}, DI (entryDelta sep h rp) d → ∀ lp m,
    NI (newRoot cfg sep lp rp) (L.root m lp d)
  push : ∀ {d dd ch b}, DI d dd → Img ch b → ∀ diff : Int,
    Img (Chain.push d ch diff) (L.push d.ty dd b diff)

section
variable {L : Lay} {α β γ δ : Type} (G : Nat → Chain K V) (OK : Chain K V → Prop)
  (Img : Chain K V → L.C → Prop)

/-- A head is the object of a chain. -/
def HdI (ch : Chain K V) (h : Head L.C) : Prop := G h.id = ch ∧ Img ch h.ch

/-- The program on bytes follows the program on records; `G` tells the chain of an object. -/
inductive PSim (P : α → β → Prop) : Prog K V α → BProg L.C β → Prop
  | ret {a b} : P a b → PSim P (.ret a) (.ret b)
  | ub {q} : PSim P .ub q
  | stuck : PSim P .stuck .stuck
  | flag (k) : PSim P (.flag k) (.flag k)
  | loadRoot {k k'} : (∀ r, PSim P (k r) (k' r)) → PSim P (.loadRoot k) (.loadRoot k')
  | storeRoot {p k k'} : PSim P k k' → PSim P (.storeRoot p k) (.storeRoot p k')
  | casRoot {o n k k'} : (∀ r, PSim P (k r) (k' r)) → PSim P (.casRoot o n k) (.casRoot o n k')
  | load {p k k'} : (∀ ch h, HdI G Img ch h → OK ch → PSim P (k ch) (k' h)) →
      PSim P (.load p k) (.load p k')
  | store {p ch c k k'} : Img ch c → PSim P k k' → PSim P (.store p ch k) (.store p c k')
  | cas {p o h n c k k'} : G h.id = o → Img n c →
      (OK o → ∀ nh, HdI G Img n nh → nh.ch = c → PSim P (k true) (k' (some nh))) →
      PSim P (k false) (k' none) → PSim P (.cas p o n k) (.cas p h c k')
  | check {p o h k k'} : G h.id = o → (OK o → PSim P (k true) (k' true)) →
      PSim P (k false) (k' false) → PSim P (.cas p o o k) (.check p h k')
  | newPid {k k'} : (∀ r, PSim P (k r) (k' r)) → PSim P (.newPid k) (.newPid k')
  | newCell {k k'} : (∀ r, PSim P (k r) (k' r)) → PSim P (.newCell k) (.newCell k')
  | loadCell {w k k'} : (∀ r, PSim P (k r) (k' r)) → PSim P (.loadCell w k) (.loadCell w k')
  | storeCell {w p k k'} : PSim P k k' → PSim P (.storeCell w p k) (.storeCell w p k')
  | alloc {p k'} : (∀ m, PSim P p (k' m)) → PSim P p (.alloc k')

end

variable {L : Lay} {α β γ δ : Type} {G : Nat → Chain K V} {OK : Chain K V → Prop}
  {Img : Chain K V → L.C → Prop} {NI : Node K V → L.N → Prop} {DI : Delta K V → L.D → Prop}
  {cfg : Cfg K} {e : Enc K V}

theorem PSim.bind {P : α → β → Prop} {Q : γ → δ → Prop} {p : Prog K V α} {q : BProg L.C β}
    {g : α → Prog K V γ} {g' : β → BProg L.C δ} (h : PSim G OK Img P p q)
    (hg : ∀ a b, P a b → PSim G OK Img Q (g a) (g' b)) :
    PSim G OK Img Q (p.bind g) (q.bind g') := by
  induction h with
  | ret h => exact hg _ _ h
  | ub => exact .ub
  | stuck => exact .stuck
  | flag k => exact .flag k
  | loadRoot _ ih => exact .loadRoot ih
  | storeRoot _ ih => exact .storeRoot ih
  | casRoot _ ih => exact .casRoot ih
  | load _ ih => exact .load fun ch h h1 h2 => ih ch h h1 h2
  | store h1 _ ih => exact .store h1 ih
  | cas h1 h2 _ _ ih1 ih2 => exact .cas h1 h2 (fun h nh h3 h4 => ih1 h nh h3 h4) ih2
  | check h1 _ _ ih1 ih2 => exact .check h1 (fun h => ih1 h) ih2
  | newPid _ ih => exact .newPid ih
  | newCell _ ih => exact .newCell ih
  | loadCell _ ih => exact .loadCell ih
  | storeCell _ ih => exact .storeCell ih
  | alloc _ ih => exact .alloc ih

theorem PSim.ite {P : α → β → Prop} {a b : Bool} {p q : Prog K V α} {p' q' : BProg L.C β}
    (h : b = a) (h1 : a = true → PSim G OK Img P p p') (h2 : a = false → PSim G OK Img P q q') :
    PSim G OK Img P (if a = true then p else q) (if b = true then p' else q') := by
  subst h
  cases b with
  | true => exact h1 rfl
  | false => exact h2 rfl

theorem PSim.iteP {P : α → β → Prop} {A : Prop} [Decidable A] {p q : Prog K V α} {p' q' : BProg L.C β}
    (h1 : A → PSim G OK Img P p p') (h2 : ¬ A → PSim G OK Img P q q') :
    PSim G OK Img P (if A then p else q) (if A then p' else q') := by
  split
  · exact h1 ‹_›
  · exact h2 ‹_›

theorem PSim.casI {P : α → β → Prop} {p : PID} {o n : Chain K V} {h : Head L.C} {c : L.C}
    {A B : Prog K V α} {k' : Option (Head L.C) → BProg L.C β} (h1 : G h.id = o) (h2 : Img n c)
    (h3 : OK o → ∀ nh, HdI G Img n nh → PSim G OK Img P A (k' (some nh)))
    (h4 : PSim G OK Img P B (k' none)) :
    PSim G OK Img P (.cas p o n fun b => if b = true then A else B) (.cas p h c k') :=
  .cas h1 h2 (fun ho nh hn _ => h3 ho nh hn) h4

variable (hL : LayOK cfg e L OK Img NI DI)

/-- What was loaded. -/
abbrev GotH (G : Nat → Chain K V) (OK : Chain K V → Prop) (Img : Chain K V → L.C → Prop)
    (c : Chain K V) (h : Head L.C) : Prop := HdI G Img c h ∧ OK c

include hL

theorem LayOK.liveLeaf {ch : Chain K V} {b : L.C} (h : Img ch b) : L.liveLeaf b = ch.liveLeaf := by
  simp only [Lay.liveLeaf, Chain.liveLeaf, hL.isLeaf h, hL.isRemoved h]

theorem LayOK.liveInner {ch : Chain K V} {b : L.C} (h : Img ch b) :
    L.liveInner b = ch.liveInner := by
  simp only [Lay.liveInner, Chain.liveInner, hL.isLeaf h, hL.isRemoved h]

theorem loadValidHead_sim : ∀ (f : Nat) (p : PID),
    PSim G OK Img (GotH G OK Img) (BwTree.loadValidHead (V := V) cfg f p) (loadValidHead L f p)
  | 0, _ => .stuck
  | f + 1, p => .load fun _ _ h1 h2 => PSim.ite (hL.needWait h1.2)
      (fun _ => loadValidHead_sim f p) fun _ => .ret ⟨h1, h2⟩

omit hL in
theorem waitCell_sim : ∀ (f w : Nat),
    PSim G OK Img (· = ·) (BwTree.waitCell (K := K) (V := V) f w) (waitCell L f w)
  | 0, _ => .stuck
  | f + 1, w => .loadCell fun _ => PSim.iteP (fun _ => waitCell_sim f w) fun _ => .ret rfl

theorem searchChild_psim (key : K) (cl : Bool) (tgt : PID) : ∀ (f : Nat) (s : Stk),
    PSim G OK Img (· = ·) (BwTree.searchChild (V := V) key cl tgt f s)
      (searchChild L (e.key key) cl tgt f s)
  | 0, _ => .stuck
  | f + 1, [] => .ub
  | f + 1, p :: rest => .load fun ch h h1 h2 => PSim.ite (hL.liveLeaf h1.2)
      (fun _ => .flag _) fun _ => by
        by_cases hu : childStep key cl ch = .ub
        · rw [hu]; exact .ub
        · rw [hL.child h1.2 h2 key cl hu]
          cases hch : childStep key cl ch with
          | child q => exact .ret rfl
          | cell w => exact PSim.bind (waitCell_sim f w) fun a b hab => by subst hab; exact .ret rfl
          | sibling q =>
            exact PSim.iteP (fun _ => .ret rfl) fun _ => searchChild_psim key cl tgt f _
          | removed =>
            exact PSim.iteP (fun _ => PSim.iteP (fun _ => .ret rfl) fun _ =>
              .loadRoot fun r => searchChild_psim key cl tgt f _) fun _ =>
              PSim.bind (searchChild_psim key cl tgt f _) fun a b hab => by
                subst hab
                exact PSim.ite rfl (fun _ => .ret rfl) fun _ =>
                  PSim.iteP (fun _ => .ret rfl) fun _ => searchChild_psim key cl tgt f _
          | ub => exact .ub

theorem searchLeafLoop_psim (key : K) (cl : Bool) : ∀ (f : Nat) (s : Stk),
    PSim G OK Img (· = ·) (BwTree.searchLeafLoop (V := V) key cl f s)
      (searchLeafLoop L (e.key key) cl f s)
  | 0, _ => .stuck
  | f + 1, [] => .ub
  | f + 1, p :: rest => .load fun _ _ h1 _ => PSim.ite (hL.isLeaf h1.2) (fun _ => .ret rfl) fun _ =>
      PSim.bind (searchChild_psim hL key cl 0 f _) fun a b hab => by
        subst hab; exact searchLeafLoop_psim key cl f _

theorem searchLeaf_psim (key : K) (cl : Bool) (f : Nat) :
    PSim G OK Img (· = ·) (BwTree.searchLeaf (V := V) key cl f) (searchLeaf L (e.key key) cl f) :=
  .loadRoot fun _ => searchLeafLoop_psim hL key cl f _

theorem searchTarget_psim (key : K) (ti : Bool) (tgt : PID) : ∀ (f : Nat) (s : Stk),
    PSim G OK Img (· = ·) (BwTree.searchTarget (V := V) key ti tgt f s)
      (searchTarget L (e.key key) ti tgt f s)
  | 0, _ => .stuck
  | f + 1, [] => .loadRoot fun _ => searchTarget_psim key ti tgt f _
  | f + 1, p :: rest => .load fun ch h h1 h2 => PSim.ite (hL.isLeaf h1.2)
      (fun _ => PSim.ite rfl (fun _ => .flag _) fun _ => .ret rfl) fun _ =>
      PSim.bind (searchChild_psim hL key true tgt f _) fun a b hab => by
        subst hab
        exact PSim.ite rfl (fun _ => .ret rfl) fun _ => searchTarget_psim key ti tgt f _

/-- The results of `GetHead`. -/
def OptI (G : Nat → Chain K V) (OK : Chain K V → Prop) (Img : Chain K V → L.C → Prop) :
    Option (Chain K V × Stk) → Option (Head L.C × Stk) → Prop
  | none, none => True
  | some x, some y => GotH G OK Img x.1 y.1 ∧ x.2 = y.2
  | _, _ => False

theorem getHead_psim (key : K) (cl : Bool) (tgt : PID) : ∀ (f : Nat) (s : Stk),
    PSim G OK Img (OptI G OK Img) (BwTree.getHead (V := V) cfg key cl tgt f s)
      (getHead L (e.key key) cl tgt f s)
  | 0, _ => .stuck
  | f + 1, [] => .ub
  | f + 1, p :: rest => PSim.bind (loadValidHead_sim hL f p) fun ch h h1 => by
      by_cases hu : dcValidate key cl ch = .ub
      · rw [hu]; exact .ub
      · rw [hL.validate h1.1.2 key cl hu]
        cases hch : dcValidate key cl ch with
        | ok => exact .ret ⟨h1, rfl⟩
        | sibling q =>
          exact PSim.iteP (fun _ => .ret ⟨h1, rfl⟩) fun _ => getHead_psim key cl tgt f _
        | removed =>
          exact PSim.iteP (fun _ => PSim.iteP (fun _ => .ret trivial) fun _ =>
            PSim.bind (searchLeaf_psim hL key cl f) fun a b hab => by
              subst hab; exact getHead_psim key cl tgt f _) fun _ =>
            PSim.bind (searchChild_psim hL key cl tgt f _) fun a b hab => by
              subst hab
              exact PSim.iteP (fun _ => .ret trivial) fun _ => getHead_psim key cl tgt f _
        | ub => exact .ub

theorem getHeadKC_psim (key : K) : ∀ (f : Nat) (s : Stk),
    PSim G OK Img (fun x y => x.1 = y.1 ∧ GotH G OK Img x.2.1 y.2.1 ∧ x.2.2 = y.2.2)
      (BwTree.getHeadKC (V := V) cfg key f s) (getHeadKC L (e.key key) f s)
  | 0, _ => .stuck
  | f + 1, [] => .ub
  | f + 1, p :: rest => PSim.bind (loadValidHead_sim hL f p) fun ch h h1 =>
      PSim.ite (hL.liveInner h1.1.2) (fun _ => .flag _) fun _ => by
        by_cases hu : keyCheck key ch = .ub
        · rw [hu]; exact .ub
        · rw [hL.check h1.1.2 key hu]
          cases hch : keyCheck key ch with
          | ret b => exact .ret ⟨rfl, h1, rfl⟩
          | sibling q => exact getHeadKC_psim key f _
          | removed =>
            exact PSim.iteP (fun _ => PSim.bind (searchLeaf_psim hL key true f) fun a b hab => by
                subst hab; exact getHeadKC_psim key f _) fun _ =>
              PSim.bind (searchChild_psim hL key true 0 f _) fun a b hab => by
                subst hab; exact getHeadKC_psim key f _
          | ub => exact .ub

theorem getHeadForMerge_psim (key : K) : ∀ (f : Nat) (sib : Option K) (s : Stk),
    PSim G OK Img (fun x y => x.1 = y.1 ∧ GotH G OK Img x.2.1 y.2.1 ∧ x.2.2.1 = y.2.2.1 ∧
        y.2.2.2 = x.2.2.2.map e.key)
      (BwTree.getHeadForMerge (V := V) cfg key f sib s)
      (getHeadForMerge L (e.key key) f (sib.map e.key) s)
  | 0, _, _ => .stuck
  | f + 1, _, [] => .ub
  | f + 1, sib, p :: rest => PSim.bind (loadValidHead_sim hL f p) fun ch h h1 => by
      by_cases hu : (mergeStep cfg key sib ch).1 = .ub
      · rw [hu]; exact .ub
      · rw [hL.mergeStep h1.1.2 key sib hu]
        cases hch : (mergeStep cfg key sib ch).1 with
        | ok => exact .ret ⟨rfl, h1, rfl, rfl⟩
        | abort => exact .ret ⟨rfl, h1, rfl, rfl⟩
        | sibling q => exact getHeadForMerge_psim key f _ _
        | ub => exact .ub

/-! ## Structure modifications -/

theorem tryRootSplit_psim {sep : K} {h : Option K} {rp : PID} {d : L.D}
    (hd : DI (entryDelta sep h rp) d) (lp : PID) :
    PSim G OK Img (· = ·) (BwTree.tryRootSplit (V := V) cfg sep rp lp) (tryRootSplit L d lp) :=
  .loadRoot fun _ => PSim.iteP (fun _ => .ret rfl) fun _ => .alloc fun m => .newPid fun _ =>
    .store (hL.base (hL.root hd lp m)) (.storeRoot (.ret rfl))

/-- Two `TrySMOs`. -/
def SmoSim (G : Nat → Chain K V) (OK : Chain K V → Prop) (Img : Chain K V → L.C → Prop)
    (s : Chain K V → Stk → Prog K V Unit) (s' : Head L.C → Stk → BProg L.C Unit) : Prop :=
  ∀ ch h stk, HdI G Img ch h → PSim G OK Img (fun (_ _ : Unit) => True) (s ch stk) (s' h stk)

theorem splitLoop_psim {s : Chain K V → Stk → Prog K V Unit} {s' : Head L.C → Stk → BProg L.C Unit}
    (hs : SmoSim G OK Img s s') {sep : K} {h : Option K} {rp : PID} {d : L.D}
    (hd : DI (entryDelta sep h rp) d) (ri : Bool) (lp : PID) : ∀ (f : Nat) (stk : Stk),
    PSim G OK Img (fun (_ _ : Unit) => True) (BwTree.splitLoop cfg s sep h ri rp lp f stk)
      (splitLoop L s' (e.key sep) d ri rp lp f stk)
  | 0, _ => .stuck
  | f + 1, [] => PSim.bind (tryRootSplit_psim hL hd lp) fun a b hab => by
      subst hab
      exact PSim.ite rfl (fun _ => .ret trivial) fun _ =>
        PSim.bind (searchTarget_psim hL sep ri rp f _) fun a b hab => by
          subst hab
          cases a with
          | nil => exact .ub
          | cons x xs => exact splitLoop_psim hs hd ri lp f xs
  | f + 1, x :: xs => PSim.bind (getHead_psim hL sep true rp f _) fun a b hab => by
      match a, b, hab with
      | none, none, _ => exact splitLoop_psim hs hd ri lp f _
      | some (c, []), _, _ => exact .ub
      | some (c, p :: rest), some (hd', s2), ⟨h1, h2⟩ =>
        simp only at h1 h2
        subst h2
        have hi := hL.push hd h1.1.2 (cfg.entLen true sep)
        simp only [hL.entLen]
        exact PSim.casI h1.1.1 hi (fun _ nh h3 => PSim.ite (hL.needCons hi)
          (fun _ => hs _ _ _ h3) fun _ => .ret trivial) (splitLoop_psim hs hd ri lp f _)

theorem split_psim {s : Chain K V → Stk → Prog K V Unit} {s' : Head L.C → Stk → BProg L.C Unit}
    (hs : SmoSim G OK Img s s') (f : Nat) {l r : Node K V} {l' r' : L.N} (hl : NI l l') (hr : NI r r')
    {sep : K} (hsep : r.low = some sep) (stk : Stk) :
    PSim G OK Img (fun (_ _ : Unit) => True) (BwTree.split cfg s f l r sep stk) (split L s' f l' r' (e.key sep) stk) := by
  cases stk with
  | nil => exact .ub
  | cons lp rest =>
    refine .newPid fun rp => .store (hL.base hr) <| .store (hL.base (hL.setNext hl rp)) <|
      .alloc fun m => ?_
    rw [hL.inner hr]
    exact splitLoop_psim hL hs (hL.entry hr hsep rp m) _ _ f rest

theorem deleteLoop_psim {s : Chain K V → Stk → Prog K V Unit} {s' : Head L.C → Stk → BProg L.C Unit}
    (hs : SmoSim G OK Img s s') {dk : K} {h : Option K} {w : Nat} {d : L.D}
    (hd : DI (deleteDelta dk h w) d) : ∀ (f : Nat) (sib : Option K) (stk : Stk),
    PSim G OK Img (· = ·) (BwTree.deleteLoop cfg s dk h w f sib stk)
      (deleteLoop L s' (e.key dk) d w f (sib.map e.key) stk)
  | 0, _, _ => .stuck
  | f + 1, sib, stk => PSim.bind (getHeadForMerge_psim hL dk f sib stk) fun a b hab => by
      obtain ⟨s1, c, b1, o1⟩ := a
      obtain ⟨s2, hd', b2, o2⟩ := b
      obtain ⟨h1, h2, h3, h4⟩ := hab
      simp only at h1 h2 h3 h4
      subst h1; subst h3; subst h4
      refine PSim.ite rfl (fun _ => ?_) fun _ => .ret rfl
      cases s1 with
      | nil => exact .ub
      | cons p rest =>
        have hi := hL.push hd h2.1.2 (-(cfg.entLen true dk : Int))
        simp only [hL.entLen]
        exact PSim.casI h2.1.1 hi (fun _ nh h3 => PSim.ite (hL.needCons hi)
          (fun _ => PSim.bind (hs _ _ _ h3) fun _ _ _ => .ret rfl) fun _ => .ret rfl)
          (deleteLoop_psim hs hd f _ _)

theorem tryDeleteIndexEntry_psim {s : Chain K V → Stk → Prog K V Unit}
    {s' : Head L.C → Stk → BProg L.C Unit} (hs : SmoSim G OK Img s s') (f : Nat) {n : Node K V}
    {n' : L.N} (hn : NI n n') (stk : Stk) :
    PSim G OK Img (· = ·) (BwTree.tryDeleteIndexEntry cfg s f n stk)
      (tryDeleteIndexEntry L s' f n' stk) := by
  refine PSim.iteP (fun _ => .ret rfl) fun _ => ?_
  rw [hL.low hn, hL.high hn]
  cases hl : n.low with
  | none => exact .ret rfl
  | some dk =>
    exact .alloc fun m => .newCell fun w => deleteLoop_psim hL hs (hL.idxDel hn hl w m) f _ _

theorem tryRemoveRoot_psim {n : Node K V} {n' : L.N} (hn : NI n n') (hok : OK (.base n)) (p : PID)
    (stk : Stk) :
    PSim G OK Img (· = ·) (BwTree.tryRemoveRoot n p stk) (tryRemoveRoot L n' p stk) := by
  unfold BwTree.tryRemoveRoot tryRemoveRoot
  rw [hL.cnt hn, hL.inner hn]
  refine PSim.iteP (fun _ => .ret rfl) fun _ => ?_
  cases hl : (Chain.base n).leftmostChild with
  | none => exact .ub
  | some q =>
    rw [hL.leftmost (hL.base hn) hok hl]
    exact .load fun ch h h1 _ => PSim.ite (hL.isLeaf h1.2) (fun _ => .ret rfl) fun _ =>
      .casRoot fun _ => .ret rfl

theorem mergeLoop_psim {s : Chain K V → Stk → Prog K V Unit} {s' : Head L.C → Stk → BProg L.C Unit}
    (hs : SmoSim G OK Img s s') {n : Node K V} {n' : L.N} (hn : NI n n') {dk : K} {d : L.D}
    (hd : DI (mergeDelta n dk) d) (w : Nat) (rem : PID) : ∀ (f : Nat) (b : Bool) (stk : Stk),
    PSim G OK Img (fun (_ _ : Unit) => True) (BwTree.mergeLoop cfg s n dk w rem f b stk)
      (mergeLoop L s' n' (e.key dk) d w rem f b stk)
  | 0, _, _ => .stuck
  | f + 1, true, [] => by
      simp only [BwTree.mergeLoop, mergeLoop]
      rw [hL.inner hn]
      exact PSim.bind (searchTarget_psim hL dk n.inner rem f _) fun a b hab => by
        subst hab; exact mergeLoop_psim hs hn hd w rem f _ _
  | f + 1, true, x :: xs => PSim.bind (searchChild_psim hL dk false rem f _) fun a b hab => by
      subst hab
      exact PSim.iteP (fun _ => mergeLoop_psim hs hn hd w rem f _ _) fun _ =>
        mergeLoop_psim hs hn hd w rem f _ _
  | f + 1, false, stk => by
      simp only [BwTree.mergeLoop, mergeLoop]
      exact PSim.bind (getHead_psim hL dk false rem f _) fun a b hab => by
        match a, b, hab with
        | none, none, _ => exact mergeLoop_psim hs hn hd w rem f _ _
        | some (c, []), _, _ => exact .ub
        | some (c, p :: rest), some (hd', s2), ⟨h1, h2⟩ =>
          simp only at h1 h2
          subst h2
          have hi := hL.push hd h1.1.2 (cfg.nodeDiff n)
          simp only [hL.diff hn]
          exact PSim.casI h1.1.1 hi (fun _ nh h3 => .storeCell (PSim.ite (hL.needCons hi)
            (fun _ => hs _ _ _ h3) fun _ => .ret trivial)) (mergeLoop_psim hs hn hd w rem f _ _)

theorem tryMerge_psim {s : Chain K V → Stk → Prog K V Unit} {s' : Head L.C → Stk → BProg L.C Unit}
    (hs : SmoSim G OK Img s s') (f : Nat) {ch : Chain K V} {h : Head L.C} (hh : HdI G Img ch h)
    {n : Node K V} {n' : L.N} (hn : NI n n') (hok : OK (.base n)) (stk : Stk) :
    PSim G OK Img (fun (_ _ : Unit) => True) (BwTree.tryMerge cfg s f ch n stk) (tryMerge L s' f h n' stk) := by
  cases stk with
  | nil => exact .ub
  | cons p rest =>
    simp only [BwTree.tryMerge, tryMerge]
    rw [hL.inner hn]
    refine PSim.casI hh.1 (hL.mark _) (fun _ nh _ => ?_) (.ret trivial)
    refine PSim.bind (tryDeleteIndexEntry_psim hL hs f hn rest) fun a b hab => ?_
    subst hab
    rw [hL.low hn]
    cases a with
    | none =>
      exact PSim.bind (tryRemoveRoot_psim hL hn hok p rest) fun a b hab => by
        subst hab
        exact PSim.ite rfl (fun _ => .ret trivial) fun _ => .store (hL.base hn) (.ret trivial)
    | some w =>
      cases hl : n.low with
      | none => exact .ub
      | some dk => exact .alloc fun m => mergeLoop_psim hL hs hn (hL.mergeD hn hl m) w p f _ _

theorem trySMOs_psim : ∀ (f : Nat), SmoSim G OK Img (BwTree.trySMOs (V := V) cfg f) (trySMOs L f)
  | 0, _, _, _, _ => .stuck
  | f + 1, _, _, [], _ => .ub
  | f + 1, ch, h, p :: rest, hh => .check hh.1 (fun hok => .alloc fun m => .alloc fun m' => by
      rw [if_pos rfl]
      cases ht : tryConsolidate cfg false ch with
      | none => exact .ub
      | some smo =>
        obtain ⟨s, h1, h2⟩ := hL.cons hh.2 hok ht m m'
        rw [h1]
        match smo, s, h2 with
        | .consolidate n, .consolidate b, h2 =>
          exact .cas hh.1 (hL.base h2) (fun _ _ _ _ => .ret trivial) (.ret trivial)
        | .split l r, .split l' r', h2 =>
          simp only
          rw [hL.low h2.2]
          cases hl : r.low with
          | none => exact .ub
          | some sep => exact split_psim hL (trySMOs_psim f) f h2.1 h2.2 hl _
        | .merge n, .merge n', h2 =>
          exact tryMerge_psim hL (trySMOs_psim f) f hh h2 (hL.okCons hok ht) _) (.ret trivial)

/-! ## Public operations -/

theorem readLoop_psim (key : K) : ∀ (f : Nat) (s : Stk),
    PSim G OK Img (fun a b => b = a.map e.val) (BwTree.readLoop (V := V) key f s)
      (readLoop L (e.key key) f s)
  | 0, _ => .stuck
  | f + 1, [] => .ub
  | f + 1, p :: rest => .load fun ch h h1 h2 => PSim.ite (hL.liveInner h1.2) (fun _ => .flag _)
      fun _ => by
        by_cases hu : readChain key ch = .ub
        · rw [hu]; exact .ub
        · rw [hL.read h1.2 key hu]
          cases hch : readChain key ch with
          | ret b => exact .ret rfl
          | sibling q => exact readLoop_psim key f _
          | removed =>
            exact PSim.iteP (fun _ => .flag _) fun _ =>
              PSim.bind (searchChild_psim hL key true 0 f _) fun a b hab => by
                subst hab; exact readLoop_psim key f _
          | ub => exact .ub

/-- The record of an operation, which both sides link in the same cases. -/
theorem writeStep_sim (o : Spec.Op K V) (found : Bool) (m : Mem) :
    (∃ r, writeDelta cfg o found = .inl r ∧ writeStep L (op e o) found = .inl (res e r)) ∨
    ∃ d diff, writeDelta cfg o found = .inr (d, diff) ∧
      writeStep L (op e o) found = .inr (d.ty, diff) ∧ DI d (opRec L m (op e o)) := by
  cases o with
  | read k => exact Or.inl ⟨_, rfl, rfl⟩
  | write k v =>
    cases found with
    | true => exact Or.inr ⟨_, _, rfl, rfl, hL.put _ k v m⟩
    | false =>
      refine Or.inr ⟨_, _, rfl, ?_, hL.put _ k v m⟩
      simp only [op, writeStep, hL.entLen]; rfl
  | insert k v =>
    cases found with
    | true => exact Or.inl ⟨_, rfl, rfl⟩
    | false =>
      refine Or.inr ⟨_, _, rfl, ?_, hL.put _ k v m⟩
      simp only [op, writeStep, hL.entLen]; rfl
  | update k v =>
    cases found with
    | true => exact Or.inr ⟨_, _, rfl, rfl, hL.put _ k v m⟩
    | false => exact Or.inl ⟨_, rfl, rfl⟩
  | delete k =>
    cases found with
    | true =>
      refine Or.inr ⟨_, _, rfl, ?_, hL.del k m⟩
      simp only [op, writeStep, hL.entLen]; rfl
    | false => exact Or.inl ⟨_, rfl, rfl⟩

theorem writeLoop_psim (o : Spec.Op K V) (key : K) (m : Mem) : ∀ (f : Nat) (s : Stk),
    PSim G OK Img (fun a b => b = res e a) (BwTree.writeLoop cfg o key f s)
      (writeLoop L (op e o) (e.key key) (opRec L m (op e o)) f s)
  | 0, _ => .stuck
  | f + 1, s => PSim.bind (getHeadKC_psim hL key f s) fun a b hab => by
      obtain ⟨s1, c, b1⟩ := a
      obtain ⟨s2, hd', b2⟩ := b
      obtain ⟨h1, h2, h3⟩ := hab
      simp only at h1 h2 h3
      subst h1; subst h3
      rcases writeStep_sim hL o b1 m with ⟨r, e1, e2⟩ | ⟨d, diff, e1, e2, hd⟩
      · simp only [e1, e2]; exact .ret rfl
      · simp only [e1, e2]
        cases s1 with
        | nil => exact .ub
        | cons p rest =>
          have hi := hL.push hd h2.1.2 diff
          exact PSim.casI h2.1.1 hi (fun _ nh h3 => PSim.ite (hL.needCons hi)
            (fun _ => PSim.bind (trySMOs_psim hL f _ _ _ h3) fun _ _ _ => .ret rfl) fun _ => .ret rfl)
            (writeLoop_psim o key m f _)

omit hL in
theorem opKey_op (o : Spec.Op K V) : opKey (op e o) = e.key (opKey o) := by cases o <;> rfl

theorem runOp_psim (f : Nat) (o : Spec.Op K V) :
    PSim G OK Img (fun a b => b = res e a) (BwTree.runOp cfg f o) (runOp L f (op e o)) := by
  unfold BwTree.runOp runOp
  rw [opKey_op]
  refine PSim.bind (searchLeaf_psim hL _ true f) fun a b hab => ?_
  subst hab
  cases o with
  | read k =>
    exact PSim.bind (readLoop_psim hL k f a) fun a b hab => by subst hab; exact .ret rfl
  | write k v => exact .alloc fun m => writeLoop_psim hL (.write k v) k m f a
  | insert k v => exact .alloc fun m => writeLoop_psim hL (.insert k v) k m f a
  | update k v => exact .alloc fun m => writeLoop_psim hL (.update k v) k m f a
  | delete k => exact .alloc fun m => writeLoop_psim hL (.delete k) k m f a

theorem scanFrom_psim (key : K) (cl : Bool) (eb : Spec.Bound K) : ∀ (f : Nat) (s : Stk),
    PSim G OK Img (fun a b => b = e.scan a) (BwTree.scanFrom (V := V) cfg key cl eb f s)
      (scanFrom L (e.key key) cl (e.bound eb) f s)
  | 0, _ => .stuck
  | f + 1, s => PSim.bind (getHead_psim hL key cl 0 f s) fun a b hab => by
      match a, b, hab with
      | none, none, _ => exact .ub
      | some (c, s1), some (hd', s2), ⟨h1, h2⟩ =>
        simp only at h1 h2
        subst h2
        refine PSim.ite (hL.isRemoved h1.1.2) (fun _ => scanFrom_psim key cl eb f s1) fun hr =>
          PSim.ite (hL.liveInner h1.1.2) (fun _ => .flag _) fun _ => .alloc fun m => ?_
        cases hs : scanOut cfg (some (key, cl)) eb c with
        | none => exact .ub
        | some x =>
          have := hL.scan h1.1.2 h1.2 _ _ hs hr m
          rw [show (some (e.key key, cl) : BBound) = e.bound (some (key, cl)) from rfl, this]
          exact .ret rfl

theorem leftmostLoop_psim : ∀ (f : Nat) (p : PID),
    PSim G OK Img (· = ·) (BwTree.leftmostLoop (K := K) (V := V) f p) (leftmostLoop L f p)
  | 0, _ => .stuck
  | f + 1, p => .load fun ch _ h1 h2 => PSim.ite (hL.isLeaf h1.2) (fun _ => .ret rfl) fun _ =>
      PSim.ite (hL.isRemoved h1.2) (fun _ => .flag _) fun _ => by
        cases hl : ch.leftmostChild with
        | none => exact .ub
        | some q => rw [hL.leftmost h1.2 h2 hl]; exact leftmostLoop_psim f q

theorem scanLeft_psim (eb : Spec.Bound K) : ∀ (f : Nat) (p : PID),
    PSim G OK Img (fun a b => b = e.scan a) (BwTree.scanLeft (V := V) cfg eb f p)
      (scanLeft L (e.bound eb) f p)
  | 0, _ => .stuck
  | f + 1, p => .load fun ch h h1 h2 => PSim.ite (hL.isRemoved h1.2)
      (fun _ => scanLeft_psim eb f p) fun hr => .alloc fun m => by
        cases hs : scanOut cfg none eb ch with
        | none => exact .ub
        | some x =>
          have := hL.scan h1.2 h2 _ _ hs hr m
          rw [show (none : BBound) = e.bound none from rfl, this]
          exact .ret rfl

theorem scanFirst_psim (f : Nat) (bb eb : Spec.Bound K) :
    PSim G OK Img (fun a b => b = e.scan a) (BwTree.scanFirst (V := V) cfg f bb eb)
      (scanFirst L f (e.bound bb) (e.bound eb)) := by
  match bb with
  | some (k, cl) =>
    exact PSim.bind (searchLeaf_psim hL k cl f) fun a b hab => by
      subst hab; exact scanFrom_psim hL k cl eb f a
  | none =>
    refine PSim.bind (P := (· = ·)) (.loadRoot fun r => leftmostLoop_psim hL f r) fun a b hab => ?_
    subst hab
    exact scanLeft_psim hL eb f a

theorem scanNext_psim (f : Nat) (p : PID) (k : K) (eb : Spec.Bound K) :
    PSim G OK Img (fun a b => b = e.scan a) (BwTree.scanNext (V := V) cfg f p k eb)
      (scanNext L f p (e.key k) (e.bound eb)) :=
  scanFrom_psim hL k true eb f [p]

end BwTree.Bytes
