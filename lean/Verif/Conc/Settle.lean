import Verif.Conc.Waits

/-!
# Who completes a merge (proof side)

`Settles` describes programs that are going to merge a removed page into its left sibling or to put it
back or to take it off as a root, `Tends` programs that take this obligation whenever they remove a
page.
-/

namespace BwTree

set_option linter.unusedSectionVars false

variable {K V : Type} {α β : Type}

/-- A value with `Q` is returned, or page `q` gets a node back, or a merge record with the node `n` is
appended to a page, or the root is changed from `q` to another page. -/
def Settles (q : PID) (n : Node K V) (Q : α → Prop) : Prog K V α → Prop
  | .ret a => Q a
  | .ub => True
  | .stuck => True
  | .flag _ => True
  | .loadRoot k => ∀ r, Settles q n Q (k r)
  | .storeRoot _ k => Settles q n Q k
  | .casRoot o _ k => (o = q ∨ Settles q n Q (k true)) ∧ Settles q n Q (k false)
  | .load _ k => ∀ c, Settles q n Q (k c)
  | .store p c k => (p = q ∧ ∃ m, c = .base m) ∨ Settles q n Q k
  | .cas _ o c k => ((∃ dk diff, c = Chain.push (mergeDelta n dk) o diff) ∨ Settles q n Q (k true)) ∧
      Settles q n Q (k false)
  | .newPid k => ∀ p, Settles q n Q (k p)
  | .newCell k => ∀ w, Settles q n Q (k w)
  | .loadCell _ k => ∀ p, Settles q n Q (k p)
  | .storeCell _ _ k => Settles q n Q k

theorem Settles.bind {q : PID} {n : Node K V} {Q : α → Prop} {R : β → Prop} {x : Prog K V α}
    {f : α → Prog K V β} (h : Settles q n Q x) (hf : ∀ a, Q a → Settles q n R (f a)) :
    Settles q n R (x.bind f) := by
  induction x with
  | ret a => exact hf a h
  | ub => trivial
  | stuck => trivial
  | flag k => trivial
  | loadRoot k ih => exact fun r => ih r (h r)
  | storeRoot p k ih => exact ih h
  | casRoot o n k ih => exact ⟨h.1.imp id (ih true), ih false h.2⟩
  | load p k ih => exact fun r => ih r (h r)
  | store p c k ih => exact h.imp id ih
  | cas p o n k ih => exact ⟨h.1.imp id (ih true), ih false h.2⟩
  | newPid k ih => exact fun r => ih r (h r)
  | newCell k ih => exact fun r => ih r (h r)
  | loadCell w k ih => exact fun r => ih r (h r)
  | storeCell w p k ih => exact ih h

theorem Settles.top {q : PID} {n : Node K V} {x : Prog K V α} : Settles q n (fun _ => True) x := by
  induction x with
  | ret a => trivial
  | ub => trivial
  | stuck => trivial
  | flag k => trivial
  | loadRoot k ih => exact fun r => ih r
  | storeRoot p k ih => exact ih
  | casRoot o n k ih => exact ⟨Or.inr (ih true), ih false⟩
  | load p k ih => exact fun r => ih r
  | store p c k ih => exact Or.inr ih
  | cas p o n k ih => exact ⟨Or.inr (ih true), ih false⟩
  | newPid k ih => exact fun r => ih r
  | newCell k ih => exact fun r => ih r
  | loadCell w k ih => exact fun r => ih r
  | storeCell w p k ih => exact ih

variable [LinearOrder K]

/-- `n` has the bounds, the level and the records of the chain `o`. -/
def Fits (cfg : Cfg K) (o : Chain K V) (n : Node K V) : Prop :=
  ∀ inner low, ChainWF cfg inner low o → n.inner = inner ∧ n.low = low ∧ n.high = o.high ∧
    n.recs = o.flat

/-- A removal mark is put on a page only by a program that is going to settle it. -/
def Tends (cfg : Cfg K) : Prog K V α → Prop
  | .ret _ => True
  | .ub => True
  | .stuck => True
  | .flag _ => True
  | .loadRoot k => ∀ r, Tends cfg (k r)
  | .storeRoot _ k => Tends cfg k
  | .casRoot _ _ k => ∀ b, Tends cfg (k b)
  | .load _ k => ∀ c, Tends cfg (k c)
  | .store _ c k => (∃ m, c = .base m) ∧ Tends cfg k
  | .cas p o c k => (∀ b, c = .removed b → o.isRemoved = false → ∃ n, Fits cfg o n ∧
      Settles p n (fun _ => False) (k true)) ∧
      Tends cfg (k true) ∧ Tends cfg (k false)
  | .newPid k => ∀ q, Tends cfg (k q)
  | .newCell k => ∀ q, Tends cfg (k q)
  | .loadCell _ k => ∀ q, Tends cfg (k q)
  | .storeCell _ _ k => Tends cfg k

section
variable {cfg : Cfg K}

theorem Tends.seq {x : Prog K V α} {f : α → Prog K V β} (h : Tends cfg x)
    (hf : ∀ a, Tends cfg (f a)) : Tends cfg (x.bind f) := by
  induction x with
  | ret a => exact hf a
  | ub => trivial
  | stuck => trivial
  | flag k => trivial
  | loadRoot k ih => exact fun r => ih r (h r)
  | storeRoot p k ih => exact ih h
  | casRoot o n k ih => exact fun r => ih r (h r)
  | load p k ih => exact fun r => ih r (h r)
  | store p c k ih => exact ⟨h.1, ih h.2⟩
  | cas p o n k ih =>
    obtain ⟨h1, h3, h4⟩ := h
    refine ⟨fun b e e' => ?_, ih true h3, ih false h4⟩
    obtain ⟨n, h5, h6⟩ := h1 b e e'
    exact ⟨n, h5, h6.bind fun _ h => h.elim⟩
  | newPid k ih => exact fun r => ih r (h r)
  | newCell k ih => exact fun r => ih r (h r)
  | loadCell w k ih => exact fun r => ih r (h r)
  | storeCell w p k ih => exact ih h

/-! ## Searches -/

theorem loadValidHead_tends : ∀ (f : Nat) (p : PID),
    Tends cfg (loadValidHead cfg f p : Prog K V (Chain K V))
  | 0, _ => trivial
  | f + 1, p => fun c => by
    show Tends cfg (if _ then _ else _)
    split
    · exact loadValidHead_tends f p
    · trivial

theorem waitCell_tends : ∀ (f w : Nat),
    Tends cfg (waitCell f w : Prog K V PID)
  | 0, _ => trivial
  | f + 1, w => fun p => by
    show Tends cfg (if _ then _ else _)
    split
    · exact waitCell_tends f w
    · trivial

theorem searchChild_tends {key : K} {closed : Bool} {tgt : PID} : ∀ (f : Nat) (stk : Stk),
    Tends cfg (searchChild key closed tgt f stk : Prog K V (Bool × Stk))
  | 0, _ => trivial
  | _ + 1, [] => trivial
  | f + 1, p :: rest => fun c => by
    show Tends cfg (if _ then _ else _)
    split
    · trivial
    split
    · trivial
    · exact (waitCell_tends f _).seq fun _ => trivial
    · split
      · trivial
      · exact searchChild_tends f _
    · split
      · split
        · trivial
        · exact fun r => searchChild_tends f _
      · refine (searchChild_tends f _).seq fun x => ?_
        split
        · trivial
        split
        · trivial
        · exact searchChild_tends f _
    · trivial

theorem searchLeafLoop_tends {key : K} {closed : Bool} : ∀ (f : Nat) (stk : Stk),
    Tends cfg (searchLeafLoop key closed f stk : Prog K V Stk)
  | 0, _ => trivial
  | _ + 1, [] => trivial
  | f + 1, p :: rest => fun c => by
    show Tends cfg (if _ then _ else _)
    split
    · trivial
    · exact (searchChild_tends f _).seq fun _ => searchLeafLoop_tends f _

theorem searchLeaf_tends {key : K} {closed : Bool} (f : Nat) :
    Tends cfg (searchLeaf key closed f : Prog K V Stk) := fun _ => searchLeafLoop_tends f _

theorem searchTarget_tends {key : K} {ti : Bool} {tgt : PID} : ∀ (f : Nat) (stk : Stk),
    Tends cfg (searchTarget key ti tgt f stk : Prog K V Stk)
  | 0, _ => trivial
  | f + 1, [] => fun _ => searchTarget_tends f _
  | f + 1, p :: rest => fun c => by
    show Tends cfg (if _ then _ else _)
    split
    · split <;> trivial
    · refine (searchChild_tends f _).seq fun x => ?_
      split
      · trivial
      · exact searchTarget_tends f _

theorem getHead_tends {key : K} {closed : Bool} {tgt : PID} : ∀ (f : Nat) (stk : Stk),
    Tends cfg (getHead cfg key closed tgt f stk : Prog K V (Option (Chain K V × Stk)))
  | 0, _ => trivial
  | _ + 1, [] => trivial
  | f + 1, p :: rest => by
    refine (loadValidHead_tends f p).seq fun c => ?_
    split
    · trivial
    · split
      · trivial
      · exact getHead_tends f _
    · split
      · split
        · trivial
        · exact (searchLeaf_tends f).seq fun _ => getHead_tends f _
      · refine (searchChild_tends f _).seq fun x => ?_
        split
        · trivial
        · exact getHead_tends f _
    · trivial

theorem getHeadKC_tends {key : K} : ∀ (f : Nat) (stk : Stk),
    Tends cfg (getHeadKC cfg key f stk : Prog K V (Stk × Chain K V × Bool))
  | 0, _ => trivial
  | _ + 1, [] => trivial
  | f + 1, p :: rest => by
    refine (loadValidHead_tends f p).seq fun c => ?_
    split
    · trivial
    split
    · trivial
    · exact getHeadKC_tends f _
    · split
      · exact (searchLeaf_tends f).seq fun _ => getHeadKC_tends f _
      · exact (searchChild_tends f _).seq fun _ => getHeadKC_tends f _
    · trivial

theorem getHeadForMerge_tends {key : K} : ∀ (f : Nat) (sib : Option K) (stk : Stk),
    Tends cfg (getHeadForMerge cfg key f sib stk : Prog K V (Stk × Chain K V × Bool × Option K))
  | 0, _, _ => trivial
  | _ + 1, _, [] => trivial
  | f + 1, sib, p :: rest => by
    refine (loadValidHead_tends f p).seq fun c => ?_
    split
    · trivial
    · trivial
    · exact getHeadForMerge_tends f _ _
    · trivial

/-! ## Structure modifications -/

variable {smo : Chain K V → Stk → Prog K V Unit}

theorem smo_tends (hs : ∀ head stk, Tends cfg (smo head stk)) {b : Bool} {nc : Chain K V} {stk : Stk} :
    Tends cfg (if b then smo nc stk else .ret ()) := by
  split
  · exact hs _ _
  · trivial

theorem tryRootSplit_tends {sep : K} {rpid lpid : PID} :
    Tends cfg (tryRootSplit cfg sep rpid lpid : Prog K V Bool) := fun r => by
  show Tends cfg (if _ then _ else _)
  split
  · trivial
  · exact fun np => ⟨⟨_, rfl⟩, trivial⟩

theorem splitLoop_tends (hs : ∀ head stk, Tends cfg (smo head stk)) {sep : K}
    {high : Option K} {ri : Bool} {rpid lpid : PID} : ∀ (f : Nat) (stk : Stk),
    Tends cfg (splitLoop cfg smo sep high ri rpid lpid f stk)
  | 0, _ => trivial
  | f + 1, [] => by
    refine tryRootSplit_tends.seq fun b => ?_
    split
    · trivial
    · refine (searchTarget_tends f _).seq fun s => ?_
      split
      · trivial
      · exact splitLoop_tends hs f _
  | f + 1, x :: xs => by
    refine (getHead_tends f _).seq fun o => ?_
    split
    · exact splitLoop_tends hs f _
    · trivial
    · exact ⟨fun b e => (by cases e), smo_tends hs, splitLoop_tends hs f _⟩

theorem split_tends (hs : ∀ head stk, Tends cfg (smo head stk)) {f : Nat} {l r : Node K V}
    {sep : K} {stk : Stk} : Tends cfg (split cfg smo f l r sep stk) := by
  cases stk with
  | nil => trivial
  | cons lpid rest => exact fun rpid => ⟨⟨_, rfl⟩, ⟨_, rfl⟩, splitLoop_tends hs f _⟩

theorem deleteLoop_tends (hs : ∀ head stk, Tends cfg (smo head stk)) {dk : K}
    {high : Option K} {w : Nat} : ∀ (f : Nat) (sib : Option K) (stk : Stk),
    Tends cfg (deleteLoop cfg smo dk high w f sib stk)
  | 0, _, _ => trivial
  | f + 1, sib, stk => by
    refine (getHeadForMerge_tends f _ _).seq fun x => ?_
    split
    · split
      · trivial
      · refine ⟨fun b e => (by cases e), ?_, deleteLoop_tends hs f _ _⟩
        simp only [if_true]
        split
        · exact (hs _ _).seq fun _ => trivial
        · trivial
    · trivial

theorem tryDeleteIndexEntry_tends (hs : ∀ head stk, Tends cfg (smo head stk)) {f : Nat}
    {n : Node K V} {stk : Stk} : Tends cfg (tryDeleteIndexEntry cfg smo f n stk) := by
  unfold tryDeleteIndexEntry
  split
  · trivial
  split
  · trivial
  · exact fun w => deleteLoop_tends hs f _ _

theorem tryRemoveRoot_tends {n : Node K V} {pid : PID} {stk : Stk} :
    Tends cfg (tryRemoveRoot n pid stk : Prog K V Bool) := by
  unfold tryRemoveRoot
  split
  · trivial
  split
  · trivial
  · intro c
    show Tends cfg (if _ then _ else _)
    split
    · trivial
    · exact fun b => trivial

theorem mergeLoop_tends (hs : ∀ head stk, Tends cfg (smo head stk)) {n : Node K V} {dk : K}
    {w : Nat} {rem : PID} : ∀ (f : Nat) (b : Bool) (stk : Stk),
    Tends cfg (mergeLoop cfg smo n dk w rem f b stk)
  | 0, _, _ => trivial
  | f + 1, true, [] => (searchTarget_tends f _).seq fun s => mergeLoop_tends hs f _ _
  | f + 1, true, x :: xs => by
    refine (searchChild_tends f _).seq fun y => ?_
    split
    · exact mergeLoop_tends hs f _ _
    · exact mergeLoop_tends hs f _ _
  | f + 1, false, stk => by
    refine (getHead_tends f _).seq fun o => ?_
    split
    · exact mergeLoop_tends hs f _ _
    · trivial
    · exact ⟨fun b e => (by cases e), smo_tends hs, mergeLoop_tends hs f _ _⟩

theorem mergeLoop_settles {n : Node K V} {dk : K} {w : Nat} {q rem : PID} :
    ∀ (f : Nat) (b : Bool) (stk : Stk),
      Settles q n (fun _ => False) (mergeLoop cfg smo n dk w rem f b stk)
  | 0, _, _ => trivial
  | f + 1, true, [] => Settles.top.bind fun s _ => mergeLoop_settles f _ _
  | f + 1, true, x :: xs => by
    refine Settles.top.bind fun y _ => ?_
    split
    · exact mergeLoop_settles f _ _
    · exact mergeLoop_settles f _ _
  | f + 1, false, stk => by
    refine Settles.top.bind fun o _ => ?_
    split
    · exact mergeLoop_settles f _ _
    · trivial
    · exact ⟨Or.inl ⟨_, _, rfl⟩, mergeLoop_settles f _ _⟩

/-- A page is removed as a root or put back. -/
theorem tryRemoveRoot_settles {n : Node K V} {pid : PID} {stk : Stk} :
    Settles pid n (fun b => b = false) (tryRemoveRoot n pid stk : Prog K V Bool) := by
  unfold tryRemoveRoot
  split
  · rfl
  split
  · trivial
  · intro c
    show Settles pid n _ (if _ then _ else _)
    split
    · rfl
    · exact ⟨Or.inl rfl, rfl⟩

theorem tryMerge_tends (hs : ∀ head stk, Tends cfg (smo head stk))
    {f : Nat} {head : Chain K V} {n : Node K V} (hn : Fits cfg head n) {stk : Stk} :
    Tends cfg (tryMerge cfg smo f head n stk) := by
  cases stk with
  | nil => trivial
  | cons p rest =>
    refine ⟨fun b _ _ => ⟨n, hn, ?_⟩, ?_, trivial⟩
    · simp only [if_true]
      refine Settles.top.bind fun o _ => ?_
      split
      · exact tryRemoveRoot_settles.bind fun b hb => (by rw [hb]; exact Or.inl ⟨rfl, _, rfl⟩)
      · exact mergeLoop_settles f _ _
      · trivial
    · simp only [if_true]
      refine (tryDeleteIndexEntry_tends hs).seq fun o => ?_
      split
      · refine tryRemoveRoot_tends.seq fun b => ?_
        split
        · trivial
        · exact ⟨⟨_, rfl⟩, trivial⟩
      · exact mergeLoop_tends hs f _ _
      · trivial

theorem merge_fits (hc : CfgOK cfg) {c : Chain K V} {n : Node K V}
    (h : tryConsolidate cfg false c = some (.merge n)) : Fits cfg c n := by
  intro inner low hw
  obtain ⟨_, t2, t3, t4⟩ := tryConsolidate_spec hc hw false
  by_cases hsz : c.size ≤ cfg.page
  · by_cases hmin : c.size ≤ cfg.minSize
    · rw [t2 rfl hsz hmin] at h; cases h
      exact ⟨rfl, hw.low_eq, rfl, rfl⟩
    · rw [t3 rfl hsz hmin] at h; cases h
  · obtain ⟨_, _, _, _, _, _, _, e⟩ := t4 rfl hsz
    rw [e] at h; cases h

theorem trySMOs_tends (hc : CfgOK cfg) : ∀ (f : Nat) (head : Chain K V) (stk : Stk),
    Tends cfg (trySMOs cfg f head stk)
  | 0, _, _ => trivial
  | _ + 1, _, [] => trivial
  | f + 1, head, p :: rest => by
    have ih : ∀ head stk, Tends cfg (trySMOs cfg f head stk : Prog K V Unit) := trySMOs_tends hc f
    refine ⟨fun b e e' => ?_, ?_, trivial⟩
    · subst e; cases e'
    · simp only [if_true]
      split
      · trivial
      · exact ⟨fun _ e => (by cases e), trivial, trivial⟩
      · split
        · trivial
        · exact split_tends ih
      · exact tryMerge_tends ih (merge_fits hc ‹_›)

/-! ## Calls -/

theorem readLoop_tends {key : K} : ∀ (f : Nat) (stk : Stk),
    Tends cfg (readLoop key f stk : Prog K V (Option V))
  | 0, _ => trivial
  | _ + 1, [] => trivial
  | f + 1, p :: rest => fun c => by
    show Tends cfg (if _ then _ else _)
    split
    · trivial
    split
    · trivial
    · exact readLoop_tends f _
    · split
      · trivial
      · exact (searchChild_tends f _).seq fun _ => readLoop_tends f _
    · trivial

theorem writeLoop_tends (hc : CfgOK cfg) {op : Spec.Op K V}
    {key : K} : ∀ (f : Nat) (stk : Stk), Tends cfg (writeLoop cfg op key f stk)
  | 0, _ => trivial
  | f + 1, stk => by
    have hs := trySMOs_tends (V := V) hc f
    refine (getHeadKC_tends f _).seq fun x => ?_
    split
    · trivial
    · rename_i d diff e
      split
      · trivial
      · refine ⟨fun b e => (by cases e), ?_, writeLoop_tends hc f _⟩
        simp only [if_true]
        split
        · exact (hs _ _).seq fun _ => trivial
        · trivial

theorem runOp_tends (hc : CfgOK cfg) {op : Spec.Op K V} (f : Nat) :
    Tends cfg (runOp cfg f op) := by
  refine (searchLeaf_tends f).seq fun stk => ?_
  split
  · exact (readLoop_tends f _).seq fun _ => trivial
  · exact writeLoop_tends hc f _

theorem scanFrom_tends {key : K} {closed : Bool} {e : Spec.Bound K} : ∀ (f : Nat) (stk : Stk),
    Tends cfg (scanFrom cfg key closed e f stk : Prog K V (List (K × V) × Option (K × PID)))
  | 0, _ => trivial
  | f + 1, stk => by
    refine (getHead_tends f _).seq fun o => ?_
    split
    · trivial
    split
    · exact scanFrom_tends f _
    split
    · trivial
    split <;> trivial

theorem leftmostLoop_tends : ∀ (f : Nat) (p : PID),
    Tends cfg (leftmostLoop f p : Prog K V PID)
  | 0, _ => trivial
  | f + 1, p => fun c => by
    show Tends cfg (if _ then _ else _)
    split
    · trivial
    split
    · trivial
    split
    · trivial
    · exact leftmostLoop_tends f _

theorem scanLeft_tends {e : Spec.Bound K} : ∀ (f : Nat) (p : PID),
    Tends cfg (scanLeft cfg e f p : Prog K V (List (K × V) × Option (K × PID)))
  | 0, _ => trivial
  | f + 1, p => fun c => by
    show Tends cfg (if _ then _ else _)
    split
    · exact scanLeft_tends f _
    split <;> trivial

theorem scanFirst_tends {b e : Spec.Bound K} (f : Nat) :
    Tends cfg (scanFirst cfg f b e : Prog K V (List (K × V) × Option (K × PID))) := by
  unfold scanFirst
  split
  · exact (searchLeaf_tends f).seq fun _ => scanFrom_tends f _
  · refine Tends.seq (fun r => leftmostLoop_tends f r) fun _ => scanLeft_tends f _

/-! ## Steps -/

theorem Tends.step {s s' : Sh K V} {x x' : Prog K V α} (h : Tends cfg x) (ha : AStep s x s' x') :
    Tends cfg x' := by
  cases ha with
  | loadRoot k => exact h _
  | storeRoot p k => exact h
  | casRootOk => exact h _
  | casRootFail => exact h _
  | load => exact h _
  | loadNull => trivial
  | store => exact h.2
  | casOk p o n k e => exact h.2.1
  | casFail => exact h.2.2
  | newPid => exact h _
  | newCell => exact h _
  | loadCell => exact h _
  | storeCell => exact h

/-- A removal mark comes from a program that settles it. -/
theorem Tends.mark {s s' : Sh K V} {x x' : Prog K V α} (h : Tends cfg x) (ha : AStep s x s' x')
    {q : PID} {c : Chain K V} {b : Bool} (hm : s.mt q = some c) (hr : c.isRemoved = false)
    (hm' : s'.mt q = some (.removed b)) :
    ∃ n, Fits cfg c n ∧ Settles q n (fun _ => False) x' := by
  have same : s.mt q = some (.removed b) → False := by
    intro e; rw [hm] at e; cases e; cases hr
  cases ha with
  | store p c' k =>
    by_cases e : q = p
    · subst e
      have hm' : some c' = some (.removed b) := (upd_same s.mt q (some c')).symm.trans hm'
      obtain ⟨m, rfl⟩ := h.1
      cases hm'
    · exact (same ((upd_ne s.mt (some c') e).symm.trans hm')).elim
  | casOk p o n k e' =>
    by_cases e : q = p
    · subst e
      have hm' : some n = some (.removed b) := (upd_same s.mt q (some n)).symm.trans hm'
      cases hm'
      rw [hm] at e'; cases e'
      exact h.1 b rfl hr
    · exact (same ((upd_ne s.mt (some n) e).symm.trans hm')).elim
  | _ => exact (same hm').elim

theorem Settles.step {q : PID} {n : Node K V} {Q : α → Prop} {s s' : Sh K V} {x x' : Prog K V α}
    (h : Settles q n Q x) (ha : AStep s x s' x') : Settles q n Q x' ∨
      (∃ m, s'.mt q = some (.base m)) ∨ (s.root = q ∧ ∃ r k, x = .casRoot q r k) ∨
      ∃ p o dk diff, s.mt p = some o ∧ s'.mt p = some (Chain.push (mergeDelta n dk) o diff) := by
  cases ha with
  | loadRoot k => exact Or.inl (h _)
  | storeRoot p k => exact Or.inl h
  | casRootOk o _ k e =>
    rcases h.1 with rfl | h
    · exact Or.inr (Or.inr (Or.inl ⟨e, _, _, rfl⟩))
    · exact Or.inl h
  | casRootFail => exact Or.inl h.2
  | load => exact Or.inl (h _)
  | loadNull => exact Or.inl trivial
  | store p c k =>
    rcases h with ⟨rfl, m, rfl⟩ | h
    · exact Or.inr (Or.inl ⟨m, upd_same ..⟩)
    · exact Or.inl h
  | casOk p o c k e =>
    rcases h.1 with ⟨dk, diff, rfl⟩ | h
    · exact Or.inr (Or.inr (Or.inr ⟨p, o, dk, diff, e, upd_same ..⟩))
    · exact Or.inl h
  | casFail => exact Or.inl h.2
  | newPid => exact Or.inl (h _)
  | newCell => exact Or.inl (h _)
  | loadCell => exact Or.inl (h _)
  | storeCell => exact Or.inl h

/-- All threads tend their removal marks. -/
def Care (cfg : Cfg K) (S : Sys K V) : Prop := ∀ t c x, S.th t = .run c x → Tends cfg x

/-- The owner of a removed page whose contents are in no other page is going to settle it. -/
def Mind (s : St K V) (S : Sys K V) : Prop :=
  ∀ q u n, s.own q = some u → s.pend q = some n →
    ∃ call x n', S.th u = .run call x ∧ n'.inner = n.inner ∧ n'.low = n.low ∧ n'.high = n.high ∧
      n'.recs = n.recs ∧ Settles q n' (fun _ => False) x

/-- Calls and returns. -/
theorem SysStep.care (hc : CfgOK cfg) {S S' : Sys K V} {e : Spec.Event K V}
    (hs : SysStep cfg S (some e) S') : ∃ t y, S'.th = upd S.th t y ∧
      (∀ c x, S.th t = .run c x → ∃ r, x = .ret r) ∧ (∀ c x, y = .run c x → Tends cfg x) := by
  cases hs with
  | op t f o hi =>
    refine ⟨t, _, rfl, fun c x h => (by rw [hi] at h; cases h), fun c x h => ?_⟩
    cases h
    exact (runOp_tends hc f).seq fun _ => trivial
  | scan t f b e hi =>
    refine ⟨t, _, rfl, fun c x h => (by rw [hi] at h; cases h), fun c x h => ?_⟩
    cases h
    exact (scanFirst_tends f).seq fun _ => trivial
  | next t f p k e hi hit =>
    refine ⟨t, _, rfl, fun c x h => (by rw [hi] at h; cases h), fun c x h => ?_⟩
    cases h
    exact (scanFrom_tends f _).seq fun _ => trivial
  | retOp t o r hr =>
    exact ⟨t, _, rfl, fun c x h => (by rw [hr] at h; cases h; exact ⟨_, rfl⟩),
      fun c x h => by cases h⟩
  | retVisit t b e r hr =>
    exact ⟨t, _, rfl, fun c x h => (by rw [hr] at h; cases h; exact ⟨_, rfl⟩),
      fun c x h => by cases h⟩

theorem Care.step (hc : CfgOK cfg) {S S' : Sys K V} (h : Care cfg S) {l : Option (Spec.Event K V)}
    (hs : SysStep cfg S l S') : Care cfg S' := by
  cases l with
  | some e =>
    obtain ⟨u, y, h2, _, h4⟩ := hs.care hc
    intro t c x ht
    rw [h2] at ht
    by_cases e : t = u
    · subst e; rw [upd_same] at ht; exact h4 c x ht
    · rw [upd_ne _ _ e] at ht; exact h t c x ht
  | none =>
    cases hs with
    | step u call x x' sh' h1 h2 =>
      intro t c y ht
      by_cases e : t = u
      · subst e
        have ht := (upd_same S.th t _).symm.trans ht
        cases ht
        exact (h t call x h1).step h2
      · exact h t c y ((upd_ne _ _ e).symm.trans ht)

variable {s s' : St K V}

/-- The contents of a removed page are not in two places. -/
theorem Inv.merged (hI : Inv cfg s) {p q : PID} {n n' : Node K V} {o : Chain K V} {dk : K} {diff : Int}
    (hp : s.mt p = some (Chain.push (mergeDelta n dk) o diff)) (hn : s.pend q = some n')
    (h1 : n.inner = n'.inner) (h2 : n.low = n'.low) (h3 : n.high = n'.high)
    (h4 : n.recs = n'.recs) : False := by
  obtain ⟨_, hi, ⟨b, hq⟩, _⟩ := hI.p.pend q n' hn
  obtain ⟨⟨F', low'⟩, hi⟩ := Option.ne_none_iff_exists'.mp hi
  have hpq : p ≠ q := by rintro rfl; rw [hp] at hq; cases hq
  have hip : s.info p ≠ none := by
    intro e
    obtain ⟨m, e, _⟩ := hI.p.unpub p _ e hp
    cases e
  obtain ⟨⟨F, low⟩, hip⟩ := Option.ne_none_iff_exists'.mp hip
  obtain ⟨hcp, hwp⟩ := hI.live hip hp rfl
  have hcq : s.lv.cont q = some (.base n') := by
    show s.cont q = _
    unfold St.cont
    rw [hi, hq, hn]; rfl
  have hwq := hI.l.page q _ F' low' hcq hi
  obtain ⟨w1, w2, w3, _, _, _, w4, m, w5, w6, w7, w8, w9⟩ := hwp.wf
  have w5 : DPay.node n = DPay.node m := w5
  cases w5
  obtain ⟨v1, v2, v3⟩ := hwq.wf
  have w7 : n.low = some dk := w7
  have w4 : o.high = some dk := w4
  have hlow' : low' = some dk := by rw [← v2, ← h2, w7]
  have hF : F = F' := by
    have hz : (F = 0) = (F' = 0) := by
      have := w6.symm.trans (h1.trans v1)
      simpa using this
    by_cases h0 : F = 0
    · rw [h0, hz.mp h0]
    · have hin : n'.inner = true := by
        rw [v1]; exact decide_eq_true fun e => h0 (hz.mpr e)
      obtain ⟨r, rs, e1, _⟩ := v3.first hin
      have hk := v3.kind r (by rw [e1]; exact List.mem_cons_self ..)
      unfold PayOK at hk
      rw [if_pos hin] at hk
      obtain ⟨c, hc⟩ := hk
      have hb : n'.body = n'.recs := by
        have hl : n'.leftInner = false := by simp [Node.leftInner, ← h2, w7]
        simp [Node.body, hl]
      have m1 : (r.1, Pay.child c) ∈ (Chain.base n').flatBody := by
        show _ ∈ n'.body
        rw [hb, e1, ← hc]
        exact List.mem_cons_self ..
      have m2 : (r.1, Pay.child c) ∈ (Chain.push (mergeDelta n dk) o diff).flatBody := by
        show _ ∈ o.flatBody ++ n.recs
        rw [h4, e1, ← hc]
        exact List.mem_append_right _ (List.mem_cons_self ..)
      have a := (hI.l.ents q _ F' low' r.1 c hcq hi m1).1
      have b := (hI.l.ents p _ F low r.1 c hcp hip m2).1
      rw [a] at b; cases b; rfl
  subst hF
  rcases hI.l.disj p q _ _ F low low' hcp hcq hip hi hpq with ⟨h, l, e1, e2, e3⟩ | ⟨h, l, e1, e2, e3⟩
  · have e1 : n.high = some h := e1
    rw [hlow'] at e2; cases e2
    exact absurd (w9.ne _ _ w7 e1) (not_lt.2 e3)
  · have e1 : n'.high = some h := e1
    rw [← h3] at e1
    have a := w9.ne _ _ w7 e1
    have b := w1.nonempty _ _ e2 w4
    exact absurd (lt_trans b a) (not_lt.2 e3)

theorem Mind.step (hc : CfgOK2 cfg) {S S' : Sys K V} (hS : Sound cfg s S) (hC : Care cfg S)
    (hM : Mind s S) {l : Option (Spec.Event K V)} (hs : SysStep cfg S l S') :
    ∃ s', Sound cfg s' S' ∧ Mind s' S' ∧
      Follows s s' l.toList := by
  cases l with
  | some e =>
    obtain ⟨ops, h1, h1', _⟩ := hS.event hc hs
    obtain ⟨u, y, h2, h3, _⟩ := hs.care hc.toCfgOK
    refine ⟨_, h1, fun q v n ho hp => ?_, h1'⟩
    obtain ⟨call, x, n', e1, e2, e3, e4, e6, e5⟩ := hM q v n ho hp
    have hne : v ≠ u := by
      rintro rfl
      obtain ⟨r, rfl⟩ := h3 _ _ e1
      exact e5
    exact ⟨call, x, n', by rw [h2, upd_ne _ _ hne]; exact e1, e2, e3, e4, e6, e5⟩
  | none =>
    cases hs with
    | step t call x x' sh' h1 h2 =>
      obtain ⟨s', g1, g2, _, _, g3⟩ := hS.access (rg := fun _ => .free) trivial h1 h2
      have hmt : ∀ q, s'.mt q = sh'.mt q := fun q => congrFun (congrArg Sh.mt g1.sh) q
      have hmt0 : ∀ q, s.mt q = S.sh.mt q := fun q => congrFun (congrArg Sh.mt hS.sh) q
      refine ⟨s', g1, fun q v n ho hp => ?_, ?_⟩
      · obtain ⟨_, _, ⟨b, hr'⟩, _⟩ := g1.inv.p.pend q n hp
        by_cases hold : ∃ b, s.mt q = some (.removed b)
        · obtain ⟨b0, hr0⟩ := hold
          have ho0 : s.own q = some v := by
            rcases g2.acq q v ho with h | ⟨_, h⟩
            · exact h
            · exact absurd hr0 (h b0)
          have hp0 : s.pend q = some n := by
            rcases g2.pnd q n hp with h | ⟨c, h, h', _⟩
            · exact h
            · rw [hr0] at h; cases h; cases h'
          obtain ⟨call', y, n', e1, e2, e3, e4, e6, e5⟩ := hM q v n ho0 hp0
          by_cases hv : v = t
          · subst hv
            rw [h1] at e1; cases e1
            rcases e5.step h2 with h | ⟨m, h⟩ | ⟨h, h'⟩ | ⟨p, o, dk, diff, _, h⟩
            · exact ⟨call, x', n', upd_same .., e2, e3, e4, e6, h⟩
            · rw [hmt, h] at hr'; cases hr'
            · obtain ⟨r, k, rfl⟩ := h'
              rw [g3 q r k rfl ((congrArg Sh.root hS.sh).trans h)] at hp; cases hp
            · exact (g1.inv.merged (by rw [hmt]; exact h) hp e2 e3 e4 e6).elim
          · exact ⟨call', y, n', (upd_ne _ _ hv).trans e1, e2, e3, e4, e6, e5⟩
        · rcases g2.pnd q n hp with h | ⟨c, hm, hr, hcons⟩
          · obtain ⟨_, _, h, _⟩ := hS.inv.p.pend q n h
            exact absurd h hold
          · by_cases hv : v = t
            · subst hv
              obtain ⟨n', f1, f2⟩ := (hC v call x h1).mark h2 (by rw [← hmt0]; exact hm) hr
                (by rw [← hmt]; exact hr')
              obtain ⟨inner, low, hw⟩ := hS.inv.slot_chain hm hr
              obtain ⟨a1, a2, a3, a4⟩ := f1 _ _ hw
              have hin : n'.inner = n.inner := by
                rw [a1, hcons.1, hw.isLeaf, Bool.not_not]
              have hlo : n'.low = n.low := by rw [a2, hcons.2.1, hw.low_eq]
              exact ⟨call, x', n', upd_same .., hin, hlo, by rw [a3, hcons.2.2.1],
                by rw [a4, hcons.2.2.2.2], f2⟩
            · have ho0 : s.own q = some v := by
                rcases g2.acq q v ho with h | ⟨h, _⟩
                · exact h
                · exact absurd h hv
              have := ((g2.rely v hv).own q ho0).2.1
              rw [this] at hr'
              exact absurd ⟨b, hr'⟩ hold
      · exact g2.follows

theorem Init.minded (hc : CfgOK2 cfg) {m : K → Option V} {sh : Sh K V} (hi : Init cfg m sh)
    {h : List (Spec.Event K V)} {S : Sys K V} (hr : Run cfg (Sys.start sh) h S) :
    ∃ s, Sound cfg s S ∧ Mind s S ∧ Spec.Accepts ⟨m, fun _ => .idle⟩ h ⟨s.m, s.ops⟩ := by
  have key : ∃ s, Sound cfg s S ∧ Mind s S ∧ Care cfg S ∧
      Spec.Accepts ⟨m, fun _ => .idle⟩ h ⟨s.m, s.ops⟩ := by
    induction hr with
    | nil =>
      obtain ⟨s0, h0, h1, h2⟩ := hi.sound hc
      refine ⟨s0, h0, fun q u n _ hp => ?_, fun t c x e => (by cases e), by rw [h1, h2]; exact .nil _⟩
      obtain ⟨_, _, ⟨b, e⟩, _⟩ := h0.inv.p.pend q n hp
      rw [show s0.mt q = sh.mt q from congrFun (congrArg Sh.mt h0.sh) q] at e
      obtain ⟨n, e'⟩ := hi.base e
      cases e'
    | tau _ hs ih =>
      obtain ⟨s, h1, h2, h3, h4⟩ := ih
      obtain ⟨s', g1, g2, g3⟩ := h2.step hc h1 h3 hs
      have := g3 _ _ h4
      rw [Option.toList, List.append_nil] at this
      exact ⟨s', g1, g2, h3.step hc.toCfgOK hs, this⟩
    | event _ hs ih =>
      obtain ⟨s, h1, h2, h3, h4⟩ := ih
      obtain ⟨s', g1, g2, g3⟩ := h2.step hc h1 h3 hs
      exact ⟨s', g1, g2, h3.step hc.toCfgOK hs, g3 _ _ h4⟩
  obtain ⟨s, h1, h2, _, h4⟩ := key
  exact ⟨s, h1, h2, h4⟩

end

end BwTree
