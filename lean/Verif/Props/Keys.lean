import Verif.Keys.Stable
import Verif.Props.SeqTotal

/-!
# C59, C60: keys passed by reference

For variable-length keys a key argument is a pointer (`Keys/Model.lean`).  C59 asks whether an
operation depends only on the characters behind the pointer when it is called.  C60 asks whether a
scan keeps to the end key it was given.
-/

namespace BwTree.Props

open BwTree BwTree.Keys

variable {K V : Type} [LinearOrder K] {cfg : Cfg K}
set_option linter.unusedSectionVars false

/-- Keys of eight characters in small pages that leave room after a split. -/
def keyCfg : Cfg Nat :=
  { page := 272, hdr := 32, leafLen := 16, idxLen := 16, minSize := 48, thr := 2, maxDelta := 64,
    klen := fun _ => 8, maxKey := 8, buf := true }

theorem keyCfg_roomy : Roomy keyCfg := ⟨by decide, by decide⟩

theorem keyCfg_ok : CfgOK2 keyCfg :=
  { leaf := by decide, idx := by decide, leafPos := by decide, idxPos := by decide,
    hdrPos := by decide, maxPos := by decide, rootFits := by decide, min := by decide,
    keys := fun _ => Nat.le_refl _, var := Or.inr (by decide), minVar := Or.inr (by decide) }

/-! ## C59: the property -/

/-- C59 for a pointer: after any session, an operation that gets the pointer returns what the map
returns for the characters behind it at the time of the call, and the session goes on as with that
operation. -/
def KeyByValue (V : Type) (cfg : Cfg K) (r : Ref K) : Prop :=
  ∀ (m : K → Option V) (sh0 sh sh' : Sh K V) (l : List (Spec.Call K V × Spec.Ret K V))
    (it : Option (PID × K × Spec.Bound K)) (b : Bufs K) (op : PtOp V) (f n : Nat) (res : Spec.Res V),
    Init cfg m sh0 → Session cfg sh0 l sh it → FirmRun n sh (runOpR cfg f op r b) sh' (.ret res) →
    res = (Spec.apply (Spec.mapAfterAll m (l.map Prod.fst)) (op.at (r.get b))).2 ∧
      Session cfg sh0 (l ++ [(.op (op.at (r.get b)), .res res)]) sh' it

/-- **C59 for keys outside the buffers of the searches** (memory of the caller, or the buffers of
`GetLowKey` and `GetHighKey`).  `C59_false` is about the remaining pointers: the one an iterator
hands out. -/
theorem C59_partial (hc : CfgOK2 cfg) (hb : cfg.buf = true) {r : Ref K} (hr : r.Stable) :
    KeyByValue V cfg r := by
  intro m sh0 sh sh' l it b op f n res hi hs h
  rw [runOpR_stable cfg hb f op hr b] at h
  have h2 := hs.op h.loose
  have h3 := (Spec.Meets.append.mp (h2.meets hc hi)).2.1
  refine ⟨?_, h2⟩
  generalize he : (Spec.Call.op (op.at (r.get b)) : Spec.Call K V) = c at h3
  generalize hr : (Spec.Ret.res res : Spec.Ret K V) = r' at h3
  change Spec.Step _ c _ r' at h3
  cases h3 with
  | op o' => cases he; cases hr; rfl
  | visit => cases he

/-- With such a key every operation ends. -/
theorem C59_ends_partial (hR : Roomy cfg) (hc : CfgOK2 cfg) (hb : cfg.buf = true) {m : K → Option V}
    {sh0 sh : Sh K V} (hi : Init cfg m sh0) {l : List (Spec.Call K V × Spec.Ret K V)}
    {it : Option (PID × K × Spec.Bound K)} (h : Session cfg sh0 l sh it) {r : Ref K} (hr : r.Stable)
    (op : PtOp V) (b : Bufs K) :
    ∃ n sh' N, ∀ f, N ≤ f → FirmRun n sh (runOpR cfg f op r b) sh'
      (.ret (Spec.apply (Spec.mapAfterAll m (l.map Prod.fst)) (op.at (r.get b))).2) := by
  obtain ⟨n, sh', N, h1, _⟩ := C07_call_ends hR hc hi h (op.at (r.get b))
  exact ⟨n, sh', N, fun f hf => by rw [runOpR_stable cfg hb f op hr b]; exact h1 f hf⟩

/-- Concurrently, too: with such a key an operation is, access by access, the operation of the
concurrent model, so everything proved there applies. -/
theorem C59_program_partial (hb : cfg.buf = true) {r : Ref K} (hr : r.Stable) (f : Nat) (op : PtOp V)
    (b : Bufs K) : runOpR cfg f op r b = runOp cfg f (op.at (r.get b)) :=
  runOpR_stable cfg hb f op hr b

/-- **C59 for the keys the tree passes to itself.**  `TrySMOs` by reference, with the separator of a
split in the buffer of `GetLowKey`, the deep copy of the key to delete and the sibling key in the
buffer of `DeltaRecord::GetHighKey`, makes the accesses of the concurrent model in which keys are
values. -/
theorem C59_smo (hb : cfg.buf = true) (f : Nat) (c : Chain K V) (stk : Stk) (b : Bufs K) :
    Sim (fun _ _ => True) (trySMOs cfg f c stk) (trySMOsR cfg f c stk b) :=
  trySMOsR_sim cfg hb f c stk b

/-- **C59 for scans.**  A scan whose end points are in the caller's memory, and every further visit
of its iterator, which searches with the key in the buffer of `GetHighKey`, make the accesses and
return the records of the concurrent model. -/
theorem C59_scan {s e : RBound K} (hs : s.Own) (he : e.Own) (f : Nat) (b : Bufs K) :
    Sim (V := V) (fun x y => y.1 = x) (scanFirst cfg f (s.get b) (e.get b))
      (scanFirstR cfg f s e b) ∧
    ∀ p high, Sim (V := V) (fun x y => y.1 = x) (scanNext cfg f p high (e.get b))
      (scanNextR cfg f p high e b) :=
  ⟨(scanFirstR_stable cfg f hs.stable he.stable b).imp fun _ _ h => h.1,
    fun p high => (scanNextR_stable cfg f p high he b).imp fun _ _ h => h.1⟩

/-- The pointer may be in the caller's memory, whatever the buffers hold. -/
example : KeyByValue Nat keyCfg (.own 3) := C59_partial keyCfg_ok rfl trivial

/-- `C59_ends_partial` with 30 records. -/
example (b : Bufs Nat) : ∃ (l : List (Spec.Op Nat Nat × Spec.Res Nat)) (sh : Sh Nat Nat) (n : Nat)
    (sh' : Sh Nat Nat) (N : Nat), Session keyCfg (initSh keyCfg) (l.map fun x => (.op x.1, .res x.2)) sh none ∧
      2 < sh.npid ∧ ∀ f, N ≤ f → FirmRun n sh (runOpR keyCfg f .read (.own 3) b) sh'
        (.ret (.payload (some 103))) := by
  obtain ⟨l, sh, h1, h2⟩ := session_witness (cfg := keyCfg) (f := 60) (n := 300)
    (os := (List.range 30).map fun k => .insert (k + 1) (k + 101)) (sh0 := initSh keyCfg)
    (g := fun l sh => (decide (2 < sh.npid),
      (Spec.mapAfterAll (fun _ => none) (l.map fun x => (Spec.Call.op x.1 : Spec.Call Nat Nat))) 3))
    (x := (true, some 103)) (by decide +kernel)
  simp only [Prod.mk.injEq, decide_eq_true_eq] at h2
  obtain ⟨n, sh', N, h3⟩ := C59_ends_partial keyCfg_roomy keyCfg_ok rfl .empty h1 (r := .own 3)
    trivial .read b
  refine ⟨l, sh, n, sh', N, h1, h2.1, fun f hf => ?_⟩
  have h4 := h3 f hf
  simp only [PtOp.at, Ref.get, Spec.apply, List.map_map] at h4
  rw [show (Spec.mapAfterAll (fun _ => none) (l.map (Prod.fst ∘ fun x =>
    ((Spec.Call.op x.1, Spec.Ret.res x.2) : Spec.Call Nat Nat × Spec.Ret Nat Nat)))) 3 = some 103
    from h2.2] at h4
  exact h4

/-! ## C59 refuted -/

/-- `RecordIterator::GetKey`, `record_iterator.hpp` 185-190, and `operator*`, 113-118: the key of the
current record is copied to the buffer of `Node::GetKey`, and the pointer to it is returned. -/
def iterKey (b : Bufs K) (k : K) : Ref K × Bufs K := (.buf .nodeKey, b.set .nodeKey k)

/-- The pointer has the characters of the record. -/
theorem iterKey_get (b : Bufs K) (k : K) : (iterKey b k).1.get (iterKey b k).2 = k := by
  simp [iterKey, Ref.get, Bufs.set]

/-- A binary search with this pointer ends at the first record it looks at. -/
theorem bsLoopR_alias {α : Type} (recs : List (K × α)) (f s e : Nat) (b : Bufs K) (hse : s < e)
    (he : e ≤ recs.length) : ∃ x, recs[(s + e - 1) / 2]? = some x ∧
      bsLoopR recs (.buf .nodeKey) (f + 1) s e b =
        some ((true, (s + e - 1) / 2), b.set .nodeKey x.1) := by
  have h : (s + e - 1) / 2 < recs.length := by omega
  refine ⟨_, List.getElem?_eq_getElem h, ?_⟩
  simp only [bsLoopR, hse, if_true, List.getElem?_eq_getElem h]
  simp [Ref.get, Bufs.set]

/-- **An aliased `Read` does not depend on the key.**  In a tree whose root is a leaf without delta
records, `Read` with the key of an iterator returns the payload of the middle record, whatever the
key. -/
theorem C59_read_middle (n : Node K V) (hn : n.inner = false) (hh : n.high = none)
    (hr : n.recs ≠ []) (sh : Sh K V) (hm : sh.mt sh.root = some (.base n)) (b : Bufs K)
    (k : K) (x : K) (v : V) (hx : n.recs[(n.recs.length - 1) / 2]? = some (x, .val v)) (f : Nat) :
    FirmRun 3 sh (runOpR cfg (f + 1) .read (iterKey b k).1 (iterKey b k).2) sh
      (.ret (.payload (some v))) := by
  have hlen : 0 < n.recs.length := List.length_pos_of_ne_nil hr
  obtain ⟨y, h1, h2⟩ := bsLoopR_alias n.recs (n.recs.length - 1) 0 n.recs.length
    (b.set .nodeKey k) hlen (Nat.le_refl _)
  rw [Nat.sub_add_cancel hlen] at h2
  have h3 : readChainR (.buf .nodeKey) (.base n) (b.set .nodeKey k) =
      (.ret (some v), b.set .nodeKey k |>.set .nodeKey y.1) := by
    simp only [readChainR, dcSearchRecordR, hh, highKeyIsGER, searchRecordR, hn, Bool.false_and,
      Bool.false_eq_true, if_false, if_true, h2, payloadAt, Nat.zero_add, hx]
  have s1 : Firm sh (runOpR cfg (f + 1) .read (iterKey b k).1 (iterKey b k).2) sh
      ((searchLeafLoopR (iterKey b k).1 true (f + 1) [sh.root] (iterKey b k).2).bind fun s =>
        (readLoopR (iterKey b k).1 (f + 1) s.1 s.2).bind fun o => .ret (.payload o.1)) :=
    .mk (.loadRoot _ _) (by rintro q o n' k' e; cases e)
  have s2 : Firm sh ((searchLeafLoopR (iterKey b k).1 true (f + 1) [sh.root] (iterKey b k).2).bind
        fun s => (readLoopR (iterKey b k).1 (f + 1) s.1 s.2).bind fun o =>
          (.ret (.payload o.1) : Prog K V (Spec.Res V))) sh
      ((readLoopR (iterKey b k).1 (f + 1) [sh.root] (iterKey b k).2).bind fun o =>
        .ret (.payload o.1)) := by
    refine .mk ?_ (by rintro q o n' k' e; cases e)
    have h := AStep.load sh sh.root (fun c => Prog.bind
      (if c.isLeaf then .ret ([sh.root], (iterKey b k).2)
        else (searchChildR (iterKey b k).1 true 0 f [sh.root] (iterKey b k).2).bind fun x =>
          searchLeafLoopR (iterKey b k).1 true f x.1.2 x.2)
      fun s => (readLoopR (iterKey b k).1 (f + 1) s.1 s.2).bind fun o =>
        (.ret (.payload o.1) : Prog K V (Spec.Res V))) _ hm
    have hl : (Chain.base n).isLeaf = true := by simp [Chain.isLeaf, hn]
    rw [hl] at h
    exact h
  have s3 : Firm sh ((readLoopR (iterKey b k).1 (f + 1) [sh.root] (iterKey b k).2).bind fun o =>
        (.ret (.payload o.1) : Prog K V (Spec.Res V))) sh (.ret (.payload (some v))) := by
    refine .mk ?_ (by rintro q o n' k' e; cases e)
    have h := AStep.load sh sh.root (fun c => Prog.bind
      (if c.liveInner then .flag .innerAsLeaf
        else match readChainR (iterKey b k).1 c (iterKey b k).2 with
        | (.ret o, b') => .ret (o, b')
        | (.sibling q, b') => readLoopR (iterKey b k).1 f (q :: []) b'
        | (.removed, b') =>
          if ([] : Stk) = [] then .flag .emptyStack
          else (searchChildR (iterKey b k).1 true 0 f [] b').bind fun x =>
            readLoopR (iterKey b k).1 f x.1.2 x.2
        | (.ub, _) => .ub)
      fun o => (.ret (.payload o.1) : Prog K V (Spec.Res V))) _ hm
    have hl : (Chain.base n).liveInner = false := by simp [Chain.liveInner, Chain.isLeaf, hn]
    rw [hl] at h
    simp only [iterKey, h3, Bool.false_eq_true, if_false, Prog.bind] at h
    exact h
  exact .step s1 (.step s2 (.step s3 (.refl _ _)))

/-- `session_witness` with the calls themselves. -/
theorem session_witness_calls {β : Type} {cfg : Cfg Nat} {f n : Nat} {os : List (Spec.Op Nat Nat)}
    {sh0 : Sh Nat Nat} {g : Sh Nat Nat → β} {x : β}
    (h : (sessionExec cfg f n os sh0).map (fun y => g y.2) = some x) :
    ∃ (l : List (Spec.Op Nat Nat × Spec.Res Nat)) (sh : Sh Nat Nat),
      Session cfg sh0 (l.map fun x => (.op x.1, .res x.2)) sh none ∧
      l.map Prod.fst = os ∧ g sh = x := by
  have hf : ∀ (os : List (Spec.Op Nat Nat)) (s s' : Sh Nat Nat) (l : List _),
      sessionExec cfg f n os s = some (l, s') → l.map Prod.fst = os := by
    intro os
    induction os with
    | nil => intro s s' l h; cases h; rfl
    | cons o os ih =>
      intro s s' l h
      simp only [sessionExec] at h
      split at h
      · cases h
      · rw [Option.map_eq_some_iff] at h
        obtain ⟨⟨l', s2⟩, h2, h3⟩ := h
        cases h3
        rw [List.map_cons, ih _ _ _ h2]
  rw [Option.map_eq_some_iff] at h
  obtain ⟨⟨l, sh⟩, h1, h2⟩ := h
  exact ⟨l, sh, sessionExec_sound h1 (Session.start (cfg := cfg) (sh0 := sh0)), hf _ _ _ _ h1, h2⟩

/-- Thirty records, `k ↦ k + 100` for the keys 1 to 30. -/
def exThirty : List (Spec.Op Nat Nat) := (List.range 30).map fun k => .insert (k + 1) (k + 101)

/-- Results of an aliased operation and of later reads. -/
def aliased (op : PtOp Nat) (k : Nat) (ks : List Nat) (sh : Sh Nat Nat) :
    Option (Spec.Res Nat × List (Option (Spec.Res Nat))) :=
  (firmExec 200 sh (runOpR keyCfg 60 op (iterKey (fun _ => 0) k).1 (iterKey (fun _ => 0) k).2)).map
    fun y => (y.2, ks.map fun k => (firmExec 200 y.1 (runOp keyCfg 60 (.read k))).map (·.2))

theorem aliased_sound {op : PtOp Nat} {k : Nat} {ks : List Nat} {sh : Sh Nat Nat} {r : Spec.Res Nat}
    {l : List (Option (Spec.Res Nat))} (h : aliased op k ks sh = some (r, l)) :
    ∃ n sh', FirmRun n sh
        (runOpR keyCfg 60 op (iterKey (fun _ => 0) k).1 (iterKey (fun _ => 0) k).2) sh' (.ret r) ∧
      ∀ (i : Nat) k' r', ks[i]? = some k' → l[i]? = some (some r') →
        ∃ n', ∃ sh'' : Sh Nat Nat, FirmRun n' sh' (runOp keyCfg 60 (.read k')) sh'' (.ret r') := by
  unfold aliased at h
  rw [Option.map_eq_some_iff] at h
  obtain ⟨⟨sh', r1⟩, h1, h2⟩ := h
  simp only [Prod.mk.injEq] at h2
  obtain ⟨rfl, rfl⟩ := h2
  obtain ⟨n, h3⟩ := firmExec_sound h1
  refine ⟨n, sh', h3, fun i k' r' e1 e2 => ?_⟩
  simp only [List.getElem?_map, e1, Option.map_some, Option.some.injEq] at e2
  rw [Option.map_eq_some_iff] at e2
  obtain ⟨⟨sh'', r2⟩, h4, rfl⟩ := e2
  obtain ⟨n', h5⟩ := firmExec_sound h4
  exact ⟨n', sh'', h5⟩

/-- **C59 fails for the key an iterator hands out.**  One thread inserts the keys 1 to 30.  With the
iterator at key 3,

* `Read(iter.GetKey())` returns 114, the payload of key 14;
* `Delete(iter.GetKey())` returns success, afterwards key 3 is there and key 13 is gone;
* `Insert(iter.GetKey(), 7)` for a key deleted in the meantime (31) reports a duplicate. -/
theorem C59_false : ∃ (l : List (Spec.Op Nat Nat × Spec.Res Nat)) (sh : Sh Nat Nat),
    Session keyCfg (initSh keyCfg) (l.map fun x => (.op x.1, .res x.2)) sh none ∧
    l.map Prod.fst = exThirty ∧
    (∃ n sh', FirmRun n sh (runOpR keyCfg 60 .read (iterKey (fun _ => 0) 3).1
      (iterKey (fun _ => 0) 3).2) sh' (.ret (.payload (some 114)))) ∧
    (∃ n sh', FirmRun n sh (runOpR keyCfg 60 .delete (iterKey (fun _ => 0) 3).1
        (iterKey (fun _ => 0) 3).2) sh' (.ret .success) ∧
      (∃ n', ∃ sh'' : Sh Nat Nat,
        FirmRun n' sh' (runOp keyCfg 60 (.read 3)) sh'' (.ret (.payload (some 103)))) ∧
      ∃ n', ∃ sh'' : Sh Nat Nat,
        FirmRun n' sh' (runOp keyCfg 60 (.read 13)) sh'' (.ret (.payload none))) ∧
    (∃ n sh', FirmRun n sh (runOpR keyCfg 60 (.insert 7) (iterKey (fun _ => 0) 31).1
      (iterKey (fun _ => 0) 31).2) sh' (.ret .keyExist)) := by
  obtain ⟨l, sh, h1, g1, h2⟩ := session_witness_calls (cfg := keyCfg) (f := 60) (n := 300) (os := exThirty)
    (sh0 := initSh keyCfg)
    (g := fun sh => decide (aliased .read 3 [] sh = some (.payload (some 114), [])) &&
      decide (aliased .delete 3 [3, 13] sh =
        some (.success, [some (.payload (some 103)), some (.payload none)])) &&
      decide (aliased (.insert 7) 31 [] sh = some (.keyExist, [])))
    (x := true) (by decide +kernel)
  simp only [Bool.and_eq_true, decide_eq_true_eq] at h2
  obtain ⟨⟨g2, g3⟩, g4⟩ := h2
  obtain ⟨n2, s2, r2, _⟩ := aliased_sound g2
  obtain ⟨n3, s3, r3, q3⟩ := aliased_sound g3
  obtain ⟨n4, s4, r4, _⟩ := aliased_sound g4
  exact ⟨l, sh, h1, g1, ⟨n2, s2, r2⟩, ⟨n3, s3, r3, q3 0 _ _ rfl rfl, q3 1 _ _ rfl rfl⟩, n4, s4, r4⟩

/-- So the property does not hold for this pointer. -/
theorem C59_false' : ¬ KeyByValue Nat keyCfg (.buf .nodeKey) := by
  intro H
  obtain ⟨l, sh, h1, h2, ⟨n, sh', h3⟩, _⟩ := C59_false
  have h4 := (H _ _ _ _ _ _ _ _ _ _ _ .empty h1 h3).1
  rw [show Ref.get (iterKey (fun _ => 0) 3).2 (.buf .nodeKey) = 3 from iterKey_get _ _,
    List.map_map, show (Prod.fst ∘ fun x : Spec.Op Nat Nat × Spec.Res Nat =>
      ((.op x.1, .res x.2) : Spec.Call Nat Nat × Spec.Ret Nat Nat)) = Spec.Call.op ∘ Prod.fst from rfl,
    ← List.map_map, h2] at h4
  exact absurd h4 (by decide +kernel)

/-- A scan that begins at the key of an iterator begins somewhere else: with the iterator at key 3
the first page of `Scan` from this key, included, has the keys 14, 15 and 16. -/
theorem C59_scan_false : ∃ (l : List (Spec.Op Nat Nat × Spec.Res Nat)) (sh : Sh Nat Nat),
    Session keyCfg (initSh keyCfg) (l.map fun x => (.op x.1, .res x.2)) sh none ∧
    l.map Prod.fst = exThirty ∧
    ∃ n sh' b', FirmRun n sh (scanFirstR keyCfg 60 (some ((iterKey (fun _ => 0) 3).1, true)) none
      (iterKey (fun _ => 0) 3).2) sh' (.ret (([(14, 114), (15, 115), (16, 116)], some (17, 6)), b')) := by
  obtain ⟨l, sh, h1, g1, h2⟩ := session_witness_calls (cfg := keyCfg) (f := 60) (n := 300) (os := exThirty)
    (sh0 := initSh keyCfg)
    (g := fun sh => ((firmExec 200 sh (scanFirstR keyCfg 60
      (some ((iterKey (fun _ => 0) 3).1, true)) none (iterKey (fun _ => 0) 3).2)).map fun y => y.2.1))
    (x := (some ([(14, 114), (15, 115), (16, 116)], some (17, 6)))) (by decide +kernel)
  have g2 := h2
  rw [Option.map_eq_some_iff] at g2
  obtain ⟨⟨sh', y, b'⟩, h3, rfl⟩ := g2
  obtain ⟨n, h4⟩ := firmExec_sound h3
  exact ⟨l, sh, h1, g1, n, sh', b', h4⟩

/-- `C59_read_middle` with three records: `Read` of key 1 returns the payload of key 2. -/
example (b : Bufs Nat) : ∃ sh : Sh Nat Nat, FirmRun 3 sh
    (runOpR keyCfg 60 .read (iterKey b 1).1 (iterKey b 1).2) sh (.ret (.payload (some 20))) :=
  ⟨{ (initSh keyCfg : Sh Nat Nat) with mt := fun _ => some (.base
      { inner := false, recs := [(1, .val 10), (2, .val 20), (3, .val 30)], low := none, high := none,
        next := 0, size := 98 }) },
    C59_read_middle _ rfl rfl (by simp) _ rfl b 1 2 20 rfl 59⟩

/-! ## C60: the end key of an iterator -/

/-- The node visits of one scan from `b`.  `ScanKey` (`record_iterator.hpp` 42-43, 66, 220) has a
reference to the caller's variable for the end key; the elements of the list are the values of this
variable at the visits (`bw_tree.hpp` 236-238, 1137; `record_iterator.hpp` 176-178). -/
inductive RefScan (cfg : Cfg K) (sh : Sh K V) (b : Spec.Bound K) :
    List (Spec.Bound K) → List (Spec.Visit K V) → Option (PID × K) → Sh K V → Prop
  | first {n f : Nat} {sh' : Sh K V} {e : Spec.Bound K} {x : List (K × V) × Option (K × PID)} :
      FirmRun n sh (scanFirst cfg f b e) sh' (.ret x) →
      RefScan cfg sh b [e] [⟨b, x.1, x.2.map Prod.fst⟩] (x.2.map Prod.swap) sh'
  | next {n f : Nat} {es : List (Spec.Bound K)} {vs : List (Spec.Visit K V)} {p : PID} {k : K}
      {sh1 sh2 : Sh K V} {e : Spec.Bound K} {x : List (K × V) × Option (K × PID)} :
      RefScan cfg sh b es vs (some (p, k)) sh1 →
      FirmRun n sh1 (scanNext cfg f p k e) sh2 (.ret x) →
      RefScan cfg sh b (es ++ [e]) (vs ++ [⟨some (k, true), x.1, x.2.map Prod.fst⟩])
        (x.2.map Prod.swap) sh2

/-- C60: after any session a scan that has reached its end has returned the records of the range
given to `Scan`. -/
def EndKept (cfg : Cfg K) (m : K → Option V) (sh0 : Sh K V) (es : List (Spec.Bound K)) : Prop :=
  ∀ (l : List (Spec.Call K V × Spec.Ret K V)) (sh sh' : Sh K V)
    (it : Option (PID × K × Spec.Bound K)) (b e : Spec.Bound K) (vs : List (Spec.Visit K V)),
    Session cfg sh0 l sh it → RefScan cfg sh b es vs none sh' → es.head? = some e →
    (∀ k, b ≠ some (k, false)) →
    ∀ k v, (k, v) ∈ Spec.allRecs vs ↔
      Spec.mapAfterAll m (l.map Prod.fst) k = some v ∧ Spec.fromB b k ∧ Spec.toB e k

theorem _root_.BwTree.Spec.Linked.snoc {k : K} {v : Spec.Visit K V} (hv : v.b = some (k, true)) :
    ∀ {vs : List (Spec.Visit K V)} {b : Spec.Bound K}, Spec.Linked b vs →
      (∃ w, vs.getLast? = some w ∧ w.next = some k) → Spec.Linked b (vs ++ [v])
  | [], _, _, ⟨_, h, _⟩ => by cases h
  | [w], b, ⟨h1, _⟩, ⟨w', h2, h3⟩ => by
    cases h2
    exact ⟨h1, fun _ => ⟨k, h3, hv, fun h => absurd rfl h⟩⟩
  | w :: w' :: vs, b, ⟨h1, h2⟩, h3 => by
    obtain ⟨k', h4, h5⟩ := h2 (by simp)
    exact ⟨h1, fun _ => ⟨k', h4, Spec.Linked.snoc hv h5 (by rwa [List.getLast?_cons_cons] at h3)⟩⟩

theorem RefScan.session {sh0 sh sh' : Sh K V} {l : List (Spec.Call K V × Spec.Ret K V)}
    {it : Option (PID × K × Spec.Bound K)} (hs : Session cfg sh0 l sh it) {b e : Spec.Bound K}
    {es : List (Spec.Bound K)} {vs : List (Spec.Visit K V)} {nx : Option (PID × K)}
    (h : RefScan cfg sh b es vs nx sh') (he : ∀ e' ∈ es, e' = e) :
    Session cfg sh0 (l ++ vs.map (visitCall e)) sh' (nx.map fun y => (y.1, y.2, e)) ∧
      Spec.Linked b vs ∧ ∃ w, vs.getLast? = some w ∧ w.next = nx.map Prod.snd := by
  induction h with
  | @first n f sh' e' x h =>
    obtain rfl := he e' (by simp)
    refine ⟨?_, ⟨rfl, fun h => absurd rfl h⟩, ⟨_, rfl, ?_⟩⟩
    · have := hs.scan h.loose
      obtain ⟨recs, _ | y⟩ := x <;> exact this
    · obtain ⟨recs, _ | y⟩ := x <;> rfl
  | @next n f es vs p k sh1 sh2 e' x _ h ih =>
    obtain rfl := he e' (by simp)
    obtain ⟨h1, h2, h3⟩ := ih fun e'' hm => he e'' (by simp [hm])
    refine ⟨?_, h2.snoc rfl h3, ⟨_, List.getLast?_concat, ?_⟩⟩
    · have := h1.next h.loose
      rw [List.map_append, ← List.append_assoc]
      obtain ⟨recs, _ | y⟩ := x <;> exact this
    · obtain ⟨recs, _ | y⟩ := x <;> rfl

/-- **C60 while the caller leaves the variable alone.** -/
theorem C60_partial (hc : CfgOK2 cfg) {m : K → Option V} {sh0 : Sh K V} (hi : Init cfg m sh0)
    {es : List (Spec.Bound K)} (he : ∀ e ∈ es, es.head? = some e) : EndKept cfg m sh0 es := by
  intro l sh sh' it b e vs hs h hhd hb k v
  have he' : ∀ e' ∈ es, e' = e := fun e' hm => Option.some.inj ((he e' hm).symm.trans hhd)
  obtain ⟨h1, h2, h3⟩ := RefScan.session hs h he'
  have hp := (Spec.Meets.append.mp (h1.meets hc hi)).2.pages
  have hpp : Spec.Pages e vs := fun v hv => ⟨_, hp v hv⟩
  constructor
  · intro hk
    obtain ⟨w, hw, hk⟩ := List.mem_flatMap.mp hk
    obtain ⟨g1, g2⟩ := ((hp w hw).mem k v).mp hk
    refine ⟨g1, ?_, g2.2.1⟩
    cases vs with
    | nil => cases hw
    | cons a vs =>
      rcases h2.from_begin hpp hw g2 with g | ⟨g, _⟩
      · exact g
      · exact absurd g (hb k)
  · rintro ⟨hk, hf, ht⟩
    obtain ⟨w, hw, g⟩ := h2.complete h3 k hf ht
    exact List.mem_flatMap.mpr ⟨w, hw, ((hp w hw).mem k v).mpr ⟨hk, g⟩⟩

/-- Two visits of a scan, computed: records and the next key of each. -/
def scanTwo (cfg : Cfg Nat) (b e e' : Spec.Bound Nat) (sh : Sh Nat Nat) :
    Option ((List (Nat × Nat) × Option (Nat × PID)) × (List (Nat × Nat) × Option (Nat × PID))) :=
  match firmExec 200 sh (scanFirst cfg 60 b e) with
  | some (sh1, (r1, some (k, p))) =>
    (firmExec 200 sh1 (scanNext cfg 60 p k e')).map fun y => ((r1, some (k, p)), y.2)
  | _ => none

theorem scanTwo_sound {cfg : Cfg Nat} {b e e' : Spec.Bound Nat} {sh : Sh Nat Nat}
    {r1 r2 : List (Nat × Nat)} {nx : Option (Nat × PID)} {k : Nat} {p : PID}
    (h : scanTwo cfg b e e' sh = some ((r1, some (k, p)), (r2, nx))) :
    ∃ sh', RefScan cfg sh b [e, e'] [⟨b, r1, some k⟩, ⟨some (k, true), r2, nx.map Prod.fst⟩]
      (nx.map Prod.swap) sh' := by
  unfold scanTwo at h
  split at h
  · rename_i sh1 r k' p' h1
    rw [Option.map_eq_some_iff] at h
    obtain ⟨⟨sh2, y⟩, h2, h3⟩ := h
    cases h3
    obtain ⟨n, h1⟩ := firmExec_sound h1
    obtain ⟨n', h2⟩ := firmExec_sound h2
    exact ⟨sh2, .next (.first h1) h2⟩
  · cases h

/-- The keys of two visits of a finished scan. -/
def twoKeys (cfg : Cfg Nat) (b e e' : Spec.Bound Nat) (sh : Sh Nat Nat) : Option (List Nat) :=
  match scanTwo cfg b e e' sh with
  | some ((r1, some _), (r2, none)) => some ((r1 ++ r2).map Prod.fst)
  | _ => none

theorem twoKeys_sound {cfg : Cfg Nat} {b e e' : Spec.Bound Nat} {sh : Sh Nat Nat} {ks : List Nat}
    (h : twoKeys cfg b e e' sh = some ks) :
    ∃ vs sh', RefScan cfg sh b [e, e'] vs none sh' ∧ (Spec.allRecs vs).map Prod.fst = ks := by
  unfold twoKeys at h
  split at h
  · rename_i r1 x r2 h1
    obtain ⟨k, p⟩ := x
    obtain ⟨sh', h2⟩ := scanTwo_sound h1
    refine ⟨_, sh', h2, ?_⟩
    cases h
    simp [Spec.allRecs]
  · cases h

/-- **C60 fails when the caller reuses the variable.**  The keys 1 to 30 are in the tree.  A scan
from key 21 to key 27, both included, is begun; then the caller sets the variable that held 27 to
25, or to 30.  The scan returns the keys up to 25, or up to 30. -/
theorem C60_false : ∃ (l : List (Spec.Op Nat Nat × Spec.Res Nat)) (sh : Sh Nat Nat),
    Session keyCfg (initSh keyCfg) (l.map fun x => (.op x.1, .res x.2)) sh none ∧
    l.map Prod.fst = exThirty ∧
    (∃ vs sh', RefScan keyCfg sh (some (21, true)) [some (27, true), some (25, true)] vs none sh' ∧
      (Spec.allRecs vs).map Prod.fst = [21, 22, 23, 24, 25]) ∧
    (∃ vs sh', RefScan keyCfg sh (some (21, true)) [some (27, true), some (30, true)] vs none sh' ∧
      (Spec.allRecs vs).map Prod.fst =
        [21, 22, 23, 24, 25, 26, 27, 28, 29, 30]) ∧
    (∃ vs sh', RefScan keyCfg sh (some (21, true)) [some (27, true), some (27, true)] vs none sh' ∧
      (Spec.allRecs vs).map Prod.fst = [21, 22, 23, 24, 25, 26, 27]) := by
  obtain ⟨l, sh, h1, g1, h2⟩ := session_witness_calls (cfg := keyCfg) (f := 60) (n := 300)
    (os := exThirty) (sh0 := initSh keyCfg)
    (g := fun sh =>
      decide (twoKeys keyCfg (some (21, true)) (some (27, true)) (some (25, true)) sh =
        some [21, 22, 23, 24, 25]) &&
      decide (twoKeys keyCfg (some (21, true)) (some (27, true)) (some (30, true)) sh =
        some [21, 22, 23, 24, 25, 26, 27, 28, 29, 30]) &&
      decide (twoKeys keyCfg (some (21, true)) (some (27, true)) (some (27, true)) sh =
        some [21, 22, 23, 24, 25, 26, 27])) (x := true) (by decide +kernel)
  simp only [Bool.and_eq_true, decide_eq_true_eq] at h2
  obtain ⟨⟨g2, g3⟩, g4⟩ := h2
  exact ⟨l, sh, h1, g1, twoKeys_sound g2, twoKeys_sound g3, twoKeys_sound g4⟩

/-- So the property does not hold for a variable that changes. -/
theorem C60_false' :
    ¬ EndKept (V := Nat) keyCfg (fun _ => none) (initSh keyCfg) [some (27, true), some (25, true)] := by
  intro H
  obtain ⟨l, sh, h1, h2, ⟨vs, sh', h3, h4⟩, _⟩ := C60_false
  have h5 := (H _ _ _ _ _ _ _ h1 h3 rfl (by simp) 27 127).mpr ⟨?_, ?_, ?_⟩
  · have : 27 ∈ (Spec.allRecs vs).map Prod.fst := List.mem_map.mpr ⟨_, h5, rfl⟩
    rw [h4] at this
    exact absurd this (by decide)
  · rw [List.map_map, show (Prod.fst ∘ fun x : Spec.Op Nat Nat × Spec.Res Nat =>
      ((.op x.1, .res x.2) : Spec.Call Nat Nat × Spec.Ret Nat Nat)) = Spec.Call.op ∘ Prod.fst from rfl,
      ← List.map_map, h2]
    decide +kernel
  · simp [Spec.fromB]
  · simp [Spec.toB]

/-- `C60_partial` applies to the third scan of `C60_false`. -/
example : EndKept (V := Nat) keyCfg (fun _ => none) (initSh keyCfg)
    [some (27, true), some (27, true)] := C60_partial keyCfg_ok .empty (by simp)

end BwTree.Props
