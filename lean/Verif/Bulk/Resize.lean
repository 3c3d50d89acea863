import Verif.Bulk.Ghost
import Verif.Conc.Solo

/-!
# Sizes do not matter to `Read` and `Scan`

`node_size_` of a bulkloaded node with variable-length keys is not exact (C23), so such a tree does
not satisfy `Inv`.  `Read` and `Scan` do not look at sizes: they do the same as on the tree with
other sizes (`flatCfg`), and that tree satisfies `Inv`.
-/

namespace BwTree
set_option linter.unusedSectionVars false
variable {K V : Type} [LinearOrder K] {cfg : Cfg K} {α β : Type}

/-- A node with another `node_size_`. -/
def Node.resize (n : Node K V) (z : Int) : Node K V := { n with size := z }

/-- Programs that only load, and do the same when the nodes have other sizes; results with `R`. -/
inductive ResizedR (R : α → α → Prop) : Prog K V α → Prog K V α → Prop
  | ret {a b : α} : R a b → ResizedR R (.ret a) (.ret b)
  | ub : ResizedR R .ub .ub
  | stuck : ResizedR R .stuck .stuck
  | flag (k : Flag) : ResizedR R (.flag k) (.flag k)
  | loadRoot {k k' : PID → Prog K V α} : (∀ r, ResizedR R (k r) (k' r)) →
      ResizedR R (.loadRoot k) (.loadRoot k')
  | load {p : PID} {k k' : Chain K V → Prog K V α} :
      (∀ n z, ResizedR R (k (.base n)) (k' (.base (n.resize z)))) → ResizedR R (.load p k) (.load p k')
  | loadCell {w : Nat} {k k' : PID → Prog K V α} : (∀ q, ResizedR R (k q) (k' q)) →
      ResizedR R (.loadCell w k) (.loadCell w k')

/-- The same results. -/
abbrev Resized (p q : Prog K V α) : Prop := ResizedR Eq p q

theorem ResizedR.bindR {R : α → α → Prop} {R' : β → β → Prop} {p q : Prog K V α}
    {g g' : α → Prog K V β} (h : ResizedR R p q) (hg : ∀ a b, R a b → ResizedR R' (g a) (g' b)) :
    ResizedR R' (p.bind g) (q.bind g') := by
  induction h with
  | ret e => exact hg _ _ e
  | ub => exact .ub
  | stuck => exact .stuck
  | flag k => exact .flag k
  | loadRoot _ ih => exact .loadRoot ih
  | load _ ih => exact .load ih
  | loadCell _ ih => exact .loadCell ih

theorem ResizedR.bind {R' : β → β → Prop} {p q : Prog K V α} {g g' : α → Prog K V β} (h : Resized p q)
    (hg : ∀ a, ResizedR R' (g a) (g' a)) : ResizedR R' (p.bind g) (q.bind g') :=
  h.bindR fun a _ e => e ▸ hg a

theorem waitCell_resized : ∀ (f w : Nat), Resized (waitCell (K := K) (V := V) f w) (waitCell f w)
  | 0, _ => .stuck
  | f + 1, w => .loadCell fun q => by
    split
    · exact waitCell_resized f w
    · exact .ret rfl

theorem childStep_resize (key : K) (closed : Bool) (n : Node K V) (z : Int) :
    childStep key closed (.base (n.resize z)) = childStep key closed (.base n) := by
  unfold childStep
  rw [dcSearchChild, dcSearchChild]
  have e : (n.resize z).high = n.high := rfl
  rw [e]
  cases !false && !highKeyIsGE n.high key (!closed) <;> rfl

theorem readChain_resize (key : K) (n : Node K V) (z : Int) :
    readChain key (.base (n.resize z)) = readChain key (.base n) := by
  unfold readChain
  rw [dcSearchRecord, dcSearchRecord]
  have e : (n.resize z).high = n.high := rfl
  rw [e]
  cases !false && !highKeyIsGE n.high key false <;> rfl

theorem searchChild_resized (key : K) (closed : Bool) (tgt : PID) : ∀ (f : Nat) (stk : Stk),
    Resized (searchChild (V := V) key closed tgt f stk) (searchChild key closed tgt f stk)
  | 0, _ => .stuck
  | _ + 1, [] => .ub
  | f + 1, p :: rest => by
    refine .load fun n z => ?_
    rw [childStep_resize]
    show Resized (if (Chain.base n).liveLeaf then _ else _) (if (Chain.base n).liveLeaf then _ else _)
    split
    · exact .flag _
    · cases childStep key closed (.base n) with
      | child q => exact .ret rfl
      | cell w => exact (waitCell_resized f w).bind fun _ => .ret rfl
      | sibling q =>
        dsimp only
        split
        · exact .ret rfl
        · exact searchChild_resized key closed tgt f _
      | removed =>
        dsimp only
        split
        · split
          · exact .ret rfl
          · exact .loadRoot fun r => searchChild_resized key closed tgt f _
        · refine (searchChild_resized key closed tgt f _).bind fun x => ?_
          split
          · exact .ret rfl
          · split
            · exact .ret rfl
            · exact searchChild_resized key closed tgt f _
      | ub => exact .ub

theorem searchLeafLoop_resized (key : K) (closed : Bool) : ∀ (f : Nat) (stk : Stk),
    Resized (searchLeafLoop (V := V) key closed f stk) (searchLeafLoop key closed f stk)
  | 0, _ => .stuck
  | _ + 1, [] => .ub
  | f + 1, p :: rest => by
    refine .load fun n z => ?_
    show Resized (if (Chain.base n).isLeaf then _ else _) (if (Chain.base n).isLeaf then _ else _)
    split
    · exact .ret rfl
    · exact (searchChild_resized key closed 0 f _).bind fun x => searchLeafLoop_resized key closed f x.2

theorem readLoop_resized (key : K) : ∀ (f : Nat) (stk : Stk),
    Resized (readLoop (V := V) key f stk) (readLoop key f stk)
  | 0, _ => .stuck
  | _ + 1, [] => .ub
  | f + 1, p :: rest => by
    refine .load fun n z => ?_
    rw [readChain_resize]
    show Resized (if (Chain.base n).liveInner then _ else _) (if (Chain.base n).liveInner then _ else _)
    split
    · exact .flag _
    · cases readChain key (.base n) with
      | ret o => exact .ret rfl
      | sibling q => exact readLoop_resized key f _
      | removed =>
        dsimp only
        split
        · exact .flag _
        · exact (searchChild_resized key true 0 f _).bind fun x => readLoop_resized key f x.2
      | ub => exact .ub

/-- `Read` does not look at sizes. -/
theorem read_resized (cfg cfg' : Cfg K) (f : Nat) (key : K) :
    Resized (runOp (V := V) cfg f (.read key)) (runOp cfg' f (.read key)) :=
  ResizedR.bind (.loadRoot fun _ => searchLeafLoop_resized key true f _) fun stk =>
    (readLoop_resized key f stk).bind fun _ => .ret rfl

theorem ResizedR.alone {p q : Prog K V α} (h : Resized p q) {sh sh' : Sh K V} (hr : sh'.root = sh.root)
    (hc : sh'.cells = sh.cells)
    (hm : ∀ x c, sh.mt x = some c → ∃ n z, c = .base n ∧ sh'.mt x = some (.base (n.resize z))) :
    ∀ {m : Nat} {sh1 : Sh K V} {a : α}, Alone m sh p sh1 (.ret a) → Alone m sh' q sh' (.ret a) := by
  have nub : ∀ {m : Nat} {sh sh1 : Sh K V} {a : α}, ¬ Alone m sh (.ub : Prog K V α) sh1 (.ret a) := by
    intro m sh sh1 a h
    cases h with
    | step hs _ => cases hs
  induction h with
  | ret e =>
    intro m sh1 a ha
    cases e
    cases ha with
    | refl => exact .refl _ _
    | step hs _ => cases hs
  | ub => exact fun ha => absurd ha nub
  | stuck =>
    intro m sh1 a ha
    cases ha with
    | step hs _ => cases hs
  | flag k =>
    intro m sh1 a ha
    cases ha with
    | step hs _ => cases hs
  | loadRoot _ ih =>
    intro m sh1 a ha
    cases ha with
    | step hs ha =>
      cases hs
      refine .step (.loadRoot _ _) ?_
      rw [hr]
      exact ih _ ha
  | load _ ih =>
    intro m sh1 a ha
    cases ha with
    | step hs ha =>
      cases hs with
      | load _ _ c hx =>
        obtain ⟨n, z, rfl, e⟩ := hm _ _ hx
        exact .step (.load _ _ _ _ e) (ih _ _ ha)
      | loadNull => exact absurd ha nub
  | loadCell _ ih =>
    intro m sh1 a ha
    cases ha with
    | step hs ha =>
      cases hs
      refine .step (.loadCell _ _ _) ?_
      rw [hc]
      exact ih _ ha

/-! ## Scans -/

theorem loadValidHead_resized (cfg cfg' : Cfg K) (hw : ∀ (n : Node K V) (z : Int),
    (Chain.base n).needWait cfg = (Chain.base (n.resize z)).needWait cfg') : ∀ (f : Nat) (p : PID),
    ResizedR (fun c c' => ∃ n z, c = .base n ∧ c' = .base (n.resize z))
      (loadValidHead (V := V) cfg f p) (loadValidHead cfg' f p)
  | 0, _ => .stuck
  | f + 1, p => by
    refine .load fun n z => ?_
    rw [← hw n z]
    split
    · exact loadValidHead_resized cfg cfg' hw f p
    · exact .ret ⟨n, z, rfl, rfl⟩

/-- Results of `GetHead`. -/
def HeadR : Option (Chain K V × Stk) → Option (Chain K V × Stk) → Prop
  | none, none => True
  | some x, some y => (∃ n z, x.1 = .base n ∧ y.1 = .base (n.resize z)) ∧ x.2 = y.2
  | _, _ => False

theorem getHead_resized (cfg cfg' : Cfg K) (hw : ∀ (n : Node K V) (z : Int),
    (Chain.base n).needWait cfg = (Chain.base (n.resize z)).needWait cfg') (key : K) (closed : Bool)
    (tgt : PID) : ∀ (f : Nat) (stk : Stk),
    ResizedR HeadR (getHead (V := V) cfg key closed tgt f stk) (getHead cfg' key closed tgt f stk)
  | 0, _ => .stuck
  | _ + 1, [] => .ub
  | f + 1, p :: rest => by
    refine (loadValidHead_resized cfg cfg' hw f p).bindR ?_
    rintro _ _ ⟨n, z, rfl, rfl⟩
    have e : dcValidate key closed (.base (n.resize z)) = dcValidate key closed (.base n) := by
      rw [dcValidate, dcValidate]; rfl
    rw [e]
    cases dcValidate key closed (.base n) with
    | ok => exact .ret ⟨⟨n, z, rfl, rfl⟩, rfl⟩
    | sibling q =>
      dsimp only
      split
      · exact .ret ⟨⟨n, z, rfl, rfl⟩, rfl⟩
      · exact getHead_resized cfg cfg' hw key closed tgt f _
    | removed =>
      dsimp only
      split
      · split
        · exact .ret trivial
        · exact ResizedR.bind (.loadRoot fun _ => searchLeafLoop_resized key closed f _) fun s =>
            getHead_resized cfg cfg' hw key closed tgt f s
      · refine (searchChild_resized key closed tgt f _).bind fun x => ?_
        split
        · exact .ret trivial
        · exact getHead_resized cfg cfg' hw key closed tgt f _
    | ub => exact .ub

theorem copyAll_recs (cfg cfg' : Cfg K) (len len' : Nat) : ∀ (cs : List (Copy K V)) (st st' : CopySt K V),
    st.l = st'.l → st.switched = false → st'.switched = false →
    (copyAll cfg len false st cs).map CopySt.l = (copyAll cfg' len' false st' cs).map CopySt.l
  | [], st, st', h, _, _ => congrArg some h
  | c :: cs, st, st', h, h1, h2 => by
    have hr : ∀ l l' x, (copyRec cfg l false st x).l = (copyRec cfg' l' false st' x).l ∧
        (copyRec cfg l false st x).switched = false ∧ (copyRec cfg' l' false st' x).switched = false := by
      intro l l' x
      simp [copyRec, h1, h2, h]
    have hc : ∀ l l' x,
        (copyAll cfg len false (copyRec cfg l false st x) cs).map CopySt.l =
          (copyAll cfg' len' false (copyRec cfg' l' false st' x) cs).map CopySt.l := fun l l' x =>
      copyAll_recs cfg cfg' len len' cs _ _ (hr l l' x).1 (hr l l' x).2.1 (hr l l' x).2.2
    rw [copyAll, copyAll]
    cases c with
    | first r => exact hc _ _ r
    | node r => exact hc _ _ r
    | delta d =>
      have ih := copyAll_recs cfg cfg' len len' cs st st' h h1 h2
      simp only [copyOne]
      cases d.ty with
      | delete => exact ih
      | _ =>
        cases d.toRec with
        | none => rfl
        | some x => exact hc _ _ x

theorem scanNode_base (cfg : Cfg K) (n : Node K V) : scanNode cfg (.base n) =
    (copySeq [n] ([] : List (Delta K V))).bind fun seq =>
      ((copyAll cfg (cfg.recLen (!(Chain.base n).isLeaf)) false
        { l := [], lsz := cfg.hdr, switched := false, r := [], rsz := cfg.hdr } seq).map CopySt.l).map
          fun l => { n with inner := !(Chain.base n).isLeaf, recs := l, size := 2 * cfg.page } := by
  unfold scanNode tryConsolidate
  rw [show dcSort [] [] (Chain.base n) = some ([], [n]) by rw [dcSort]; rfl]
  simp only [List.reverse_cons, List.reverse_nil, List.nil_append, List.head?_cons, List.getLast?_singleton,
    Bool.not_true, Bool.false_and, Bool.false_eq_true, if_false, if_true]
  cases copySeq [n] ([] : List (Delta K V)) with
  | none => rfl
  | some seq =>
    simp only [Option.bind_some]
    generalize copyAll cfg _ false _ seq = y
    cases y <;> rfl

theorem scanOut_resize (cfg cfg' : Cfg K) (b e : Spec.Bound K) (n : Node K V) (z : Int) :
    scanOut cfg' b e (.base (n.resize z)) = scanOut cfg b e (.base n) := by
  unfold scanOut
  have es : copySeq [n.resize z] ([] : List (Delta K V)) = copySeq [n] [] := by
    rw [copySeq, copySeq]; rfl
  rw [scanNode_base, scanNode_base, es]
  cases copySeq [n] ([] : List (Delta K V)) with
  | none => rfl
  | some seq =>
    simp only [Option.bind_some]
    rw [copyAll_recs cfg' cfg _ (cfg.recLen (!(Chain.base n).isLeaf)) seq
      { l := [], lsz := cfg'.hdr, switched := false, r := [], rsz := cfg'.hdr }
      { l := [], lsz := cfg.hdr, switched := false, r := [], rsz := cfg.hdr } rfl rfl rfl]
    cases (copyAll cfg (cfg.recLen (!(Chain.base n).isLeaf)) false
      { l := [], lsz := cfg.hdr, switched := false, r := [], rsz := cfg.hdr } seq).map CopySt.l <;> rfl

theorem scanFrom_resized (cfg cfg' : Cfg K) (hw : ∀ (n : Node K V) (z : Int),
    (Chain.base n).needWait cfg = (Chain.base (n.resize z)).needWait cfg')
    (key : K) (closed : Bool) (e : Spec.Bound K) : ∀ (f : Nat) (stk : Stk),
    Resized (scanFrom (V := V) cfg key closed e f stk) (scanFrom cfg' key closed e f stk)
  | 0, _ => .stuck
  | f + 1, stk => by
    refine (getHead_resized cfg cfg' hw key closed 0 f stk).bindR fun x y hxy => ?_
    match x, y, hxy with
    | none, none, _ => exact .ub
    | some (c, s), some (c', s'), ⟨⟨n, z, h1, h2⟩, h3⟩ =>
      cases h1; cases h2; cases h3
      dsimp only
      rw [scanOut_resize cfg cfg']
      show Resized (if (Chain.base n).liveInner then _ else _) (if (Chain.base n).liveInner then _ else _)
      split
      · exact .flag _
      · cases scanOut cfg (some (key, closed)) e (.base n) with
        | none => exact .ub
        | some x => exact .ret rfl

theorem leftmostLoop_resized : ∀ (f : Nat) (p : PID),
    Resized (leftmostLoop (K := K) (V := V) f p) (leftmostLoop f p)
  | 0, _ => .stuck
  | f + 1, p => by
    refine .load fun n z => ?_
    have e : (Chain.base (n.resize z)).leftmostChild = (Chain.base n).leftmostChild := rfl
    rw [e]
    show Resized (if (Chain.base n).isLeaf then _ else _) (if (Chain.base n).isLeaf then _ else _)
    split
    · exact .ret rfl
    · show Resized (match (Chain.base n).leftmostChild with | none => _ | some q => _)
        (match (Chain.base n).leftmostChild with | none => _ | some q => _)
      cases (Chain.base n).leftmostChild with
      | none => exact .ub
      | some q => exact leftmostLoop_resized f q

theorem scanLeft_resized (cfg cfg' : Cfg K) (e : Spec.Bound K) :
    ∀ (f : Nat) (p : PID), Resized (scanLeft (V := V) cfg e f p) (scanLeft cfg' e f p)
  | 0, _ => .stuck
  | f + 1, p => by
    refine .load fun n z => ?_
    rw [scanOut_resize cfg cfg']
    show Resized (match scanOut cfg none e (.base n) with | none => _ | some x => _)
      (match scanOut cfg none e (.base n) with | none => _ | some x => _)
    cases scanOut cfg none e (.base n) with
    | none => exact .ub
    | some x => exact .ret rfl

theorem scanFirst_resized (cfg cfg' : Cfg K) (hw : ∀ (n : Node K V) (z : Int),
    (Chain.base n).needWait cfg = (Chain.base (n.resize z)).needWait cfg')
    (f : Nat) : ∀ b e : Spec.Bound K,
    Resized (scanFirst (V := V) cfg f b e) (scanFirst cfg' f b e)
  | some (k, closed), e => ResizedR.bind (.loadRoot fun _ => searchLeafLoop_resized k closed f _) fun stk =>
      scanFrom_resized cfg cfg' hw k closed e f stk
  | none, e => ResizedR.bind (.loadRoot fun _ => leftmostLoop_resized f _) fun p =>
      scanLeft_resized cfg cfg' e f p

/-! ## The tree as if keys had fixed length -/

/-- A build in which keys take no bytes and a page takes `M` records. -/
def flatCfg (K : Type) (M : Nat) : Cfg K :=
  { page := 200 + 20 * M, hdr := 1, leafLen := 1, idxLen := 1, minSize := 0, thr := 1, maxDelta := 1 }

theorem flatCfg_ok (M : Nat) : CfgOK2 (flatCfg K M) := by
  have h : 3 ≤ (flatCfg K M).page := by simp only [flatCfg]; omega
  have h2 : 2 ≤ (flatCfg K M).page := Nat.le_of_succ_le h
  exact ⟨⟨h2, h2, Nat.one_pos, Nat.one_pos, Nat.one_pos,
    fun _ => Nat.le_refl _, Or.inl rfl⟩, Nat.one_pos, h, fun _ => Nat.zero_le _, Or.inl rfl⟩

theorem flatCfg_recLen (M : Nat) (b : Bool) : (flatCfg K M).recLen b = 1 := by
  cases b <;> rfl

/-- The size of a node in such a build. -/
def Node.flatten (n : Node K V) : Node K V := n.resize ((1 + n.recs.length : Nat) : Int)

theorem nodeOf_flat (M : Nat) (b : Bool) (g : Grp K V) (nx : Option (Grp K V)) :
    nodeOf (flatCfg K M) b g nx = ((nodeOf cfg b g nx).1, (nodeOf cfg b g nx).2.flatten) := by
  simp only [nodeOf, Node.flatten, Node.resize, bulkSize_fix (cfg := flatCfg K M) (fun _ => rfl),
    flatCfg_recLen, Nat.one_mul]
  rfl

theorem nodesE_flat (M : Nat) (b : Bool) (e : Option (Grp K V)) : ∀ gs : List (Grp K V),
    nodesE (flatCfg K M) b e gs = (nodesE cfg b e gs).map fun x => (x.1, x.2.flatten)
  | [] => rfl
  | g :: gs => by rw [nodesE, nodesE, List.map_cons, nodesE_flat M b e gs, nodeOf_flat (cfg := cfg)]

theorem lvNodes0_flat (M : Nat) : ∀ lv : List (List (Grp K V)),
    lvNodes0 (flatCfg K M) lv = (lvNodes0 cfg lv).map fun x => (x.1, x.2.flatten)
  | [] => rfl
  | g :: rest => by
    rw [lvNodes0, lvNodes0, List.map_append, lvNodes0_flat M rest]
    congr 1
    cases g with
    | nil => rfl
    | cons g gs =>
      rw [nodes0, nodes0, List.map_cons, nodesE_flat (cfg := cfg), nodeOf_flat (cfg := cfg)]
      rfl

theorem LayerOK.flat {M : Nat} {b : Bool} {gs : List (Grp K V)} (h : LayerOK cfg b gs)
    (hM : ∀ g ∈ gs, g.recs.length ≤ M) : LayerOK (flatCfg K M) b gs := by
  refine ⟨h.ne, fun g hg => ?_⟩
  have h1 := hM g hg
  rw [recsLen_fix (cfg := flatCfg K M) fun _ => rfl, flatCfg_recLen]
  have e1 : (flatCfg K M).hdr = 1 := rfl
  have e2 : (flatCfg K M).bulkRes b = 0 := by cases b <;> rfl
  have e3 : (flatCfg K M).bulkCap = (200 + 20 * M) * 9 / 10 := rfl
  rw [e1, e2, e3]
  omega

theorem LvOK.flat {M : Nat} {es : List (K × Pay V)} : ∀ {lv : List (List (Grp K V))}, LvOK cfg es lv →
    (∀ gs ∈ lv, ∀ g ∈ gs, g.recs.length ≤ M) → LvOK (flatCfg K M) es lv
  | [], h, _ => h
  | [_], h, hM => ⟨h.1.flat (hM _ (by simp)), h.2⟩
  | _ :: _ :: _, h, hM => ⟨h.1.flat (hM _ (by simp)), h.2.1,
      LvOK.flat h.2.2 fun gs hg => hM gs (List.mem_cons_of_mem _ hg)⟩

theorem Built.flat {ids : Nat → Nat → PID} {es : List (K × Pay V)} {T : Tbl K V} {root : PID}
    {lv : List (List (Grp K V))} (h : Built cfg ids es T root lv) :
    ∃ M, Built (flatCfg K M) ids es (fun p => (T p).map Node.flatten) root lv := by
  have hM : ∃ M, ∀ gs ∈ lv, ∀ g ∈ gs, g.recs.length ≤ M := by
    have : ∃ M, ∀ g ∈ lv.flatten, g.recs.length ≤ M := by
      generalize lv.flatten = l
      induction l with
      | nil => exact ⟨0, fun _ h => by simp at h⟩
      | cons x l ih =>
        obtain ⟨M, hM⟩ := ih
        refine ⟨max x.recs.length M, fun g hg => ?_⟩
        rcases List.mem_cons.mp hg with rfl | hg
        · exact Nat.le_max_left _ _
        · exact Nat.le_trans (hM g hg) (Nat.le_max_right _ _)
    obtain ⟨M, hM⟩ := this
    exact ⟨M, fun gs h1 g h2 => hM g (List.mem_flatten.mpr ⟨gs, h1, h2⟩)⟩
  obtain ⟨M, hM⟩ := hM
  refine ⟨M, h.ok.flat hM, ?_, h.nodup, h.mem, h.root⟩
  rw [lvNodes0_flat (cfg := cfg)]
  refine ⟨fun x hx => ?_, fun p n hp => ?_⟩
  · obtain ⟨y, hy, rfl⟩ := List.mem_map.mp hx
    show (T y.1).map Node.flatten = _
    rw [h.holds.has y hy]
    rfl
  · obtain ⟨m, hm, _⟩ := Option.map_eq_some_iff.mp hp
    rw [List.map_map]
    exact h.holds.only p m hm

end BwTree
