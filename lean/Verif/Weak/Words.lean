import Verif.Conc.System

/-!
# Which words a call sets (proof side)

A call sets only words of index-delete records that it has created itself.
-/

namespace BwTree.Weak

set_option linter.unusedSectionVars false

variable {K V : Type} [LinearOrder K] {α β : Type}

/-- The discipline: `W` are the words created so far. -/
def wd : Prog K V α → (α → (Nat → Prop) → Prop) → (Nat → Prop) → Prop
  | .ret a, Q, W => Q a W
  | .ub, _, _ => True
  | .stuck, _, _ => True
  | .flag _, _, _ => True
  | .loadRoot k, Q, W => ∀ r, wd (k r) Q W
  | .storeRoot _ k, Q, W => wd k Q W
  | .casRoot _ _ k, Q, W => ∀ r, wd (k r) Q W
  | .load _ k, Q, W => ∀ r, wd (k r) Q W
  | .store _ _ k, Q, W => wd k Q W
  | .cas _ _ _ k, Q, W => ∀ r, wd (k r) Q W
  | .newPid k, Q, W => ∀ r, wd (k r) Q W
  | .newCell k, Q, W => ∀ w, wd (k w) Q (fun x => W x ∨ x = w)
  | .loadCell _ k, Q, W => ∀ r, wd (k r) Q W
  | .storeCell w _ k, Q, W => W w ∧ wd k Q W

/-- No word is created or set. -/
def noCell : Prog K V α → Prop
  | .ret _ => True
  | .ub => True
  | .stuck => True
  | .flag _ => True
  | .loadRoot k => ∀ r, noCell (k r)
  | .storeRoot _ k => noCell k
  | .casRoot _ _ k => ∀ r, noCell (k r)
  | .load _ k => ∀ r, noCell (k r)
  | .store _ _ k => noCell k
  | .cas _ _ _ k => ∀ r, noCell (k r)
  | .newPid k => ∀ r, noCell (k r)
  | .newCell _ => False
  | .loadCell _ k => ∀ r, noCell (k r)
  | .storeCell _ _ _ => False

theorem noCell_bind {p : Prog K V α} {k : α → Prog K V β} (h : noCell p) (hk : ∀ a, noCell (k a)) :
    noCell (p.bind k) := by
  induction p with
  | ret a => exact hk a
  | ub => trivial
  | stuck => trivial
  | flag k => trivial
  | loadRoot k ih => exact fun r => ih r (h r)
  | storeRoot p k ih => exact ih h
  | casRoot o n k ih => exact fun r => ih r (h r)
  | load p k ih => exact fun r => ih r (h r)
  | store p c k ih => exact ih h
  | cas p a b k ih => exact fun r => ih r (h r)
  | newPid k ih => exact fun r => ih r (h r)
  | newCell k ih => exact h.elim
  | loadCell w k ih => exact fun r => ih r (h r)
  | storeCell w p k ih => exact h.elim

/-- Programs without words in front. -/
theorem wd_noCell {p : Prog K V α} {k : α → Prog K V β} {Q : β → (Nat → Prop) → Prop}
    {W : Nat → Prop} (h : noCell p) (hk : ∀ a, wd (k a) Q W) : wd (p.bind k) Q W := by
  induction p with
  | ret a => exact hk a
  | ub => trivial
  | stuck => trivial
  | flag k => trivial
  | loadRoot k ih => exact fun r => ih r (h r)
  | storeRoot p k ih => exact ih h
  | casRoot o n k ih => exact fun r => ih r (h r)
  | load p k ih => exact fun r => ih r (h r)
  | store p c k ih => exact ih h
  | cas p a b k ih => exact fun r => ih r (h r)
  | newPid k ih => exact fun r => ih r (h r)
  | newCell k ih => exact h.elim
  | loadCell w k ih => exact fun r => ih r (h r)
  | storeCell w p k ih => exact h.elim

theorem wd_bind {p : Prog K V α} {k : α → Prog K V β} {P : α → (Nat → Prop) → Prop}
    {Q : β → (Nat → Prop) → Prop} {W : Nat → Prop} (h : wd p P W)
    (hk : ∀ a W', (∀ w, W w → W' w) → P a W' → wd (k a) Q W') : wd (p.bind k) Q W := by
  induction p generalizing W with
  | ret a => exact hk a W (fun _ h => h) h
  | ub => trivial
  | stuck => trivial
  | flag k => trivial
  | loadRoot k ih => exact fun r => ih r (h r) hk
  | storeRoot p k ih => exact ih h hk
  | casRoot o n k ih => exact fun r => ih r (h r) hk
  | load p k ih => exact fun r => ih r (h r) hk
  | store p c k ih => exact ih h hk
  | cas p a b k ih => exact fun r => ih r (h r) hk
  | newPid k ih => exact fun r => ih r (h r) hk
  | newCell k ih => exact fun r => ih r (h r) fun a W' hw hp => hk a W' (fun w h => hw w (Or.inl h)) hp
  | loadCell w k ih => exact fun r => ih r (h r) hk
  | storeCell w p k ih => exact ⟨h.1, ih h.2 hk⟩

variable {cfg : Cfg K}

theorem loadValidHead_nc : ∀ {f : Nat} {p : PID}, noCell (loadValidHead cfg f p : Prog K V _)
  | 0, _ => trivial
  | f + 1, p => fun c => by try dsimp only; split <;> first | exact loadValidHead_nc | trivial

theorem waitCell_nc : ∀ {f w : Nat}, noCell (waitCell f w : Prog K V _)
  | 0, _ => trivial
  | f + 1, w => fun c => by try dsimp only; split <;> first | exact waitCell_nc | trivial

theorem searchChild_nc {key : K} {closed : Bool} {tgt : PID} : ∀ {f : Nat} {s : Stk},
    noCell (searchChild key closed tgt f s : Prog K V _)
  | 0, _ => trivial
  | f + 1, [] => trivial
  | f + 1, p :: rest => by
    simp only [searchChild]
    intro c
    try dsimp only
    split
    · trivial
    · split
      · trivial
      · exact noCell_bind waitCell_nc fun _ => trivial
      · split <;> first | trivial | exact searchChild_nc
      · split
        · split
          · trivial
          · exact fun r => searchChild_nc
        · refine noCell_bind searchChild_nc fun x => ?_
          split
          · trivial
          · split <;> first | trivial | exact searchChild_nc
      · trivial

theorem searchLeafLoop_nc {key : K} {closed : Bool} : ∀ {f : Nat} {s : Stk},
    noCell (searchLeafLoop key closed f s : Prog K V _)
  | 0, _ => trivial
  | f + 1, [] => trivial
  | f + 1, p :: rest => by
    simp only [searchLeafLoop]
    intro c
    try dsimp only
    split
    · trivial
    · exact noCell_bind searchChild_nc fun x => searchLeafLoop_nc

theorem searchLeaf_nc {key : K} {closed : Bool} {f : Nat} :
    noCell (searchLeaf key closed f : Prog K V _) := fun _ => searchLeafLoop_nc

theorem searchTarget_nc {key : K} {i : Bool} {tgt : PID} : ∀ {f : Nat} {s : Stk},
    noCell (searchTarget key i tgt f s : Prog K V _)
  | 0, _ => trivial
  | f + 1, [] => fun r => searchTarget_nc
  | f + 1, p :: rest => by
    simp only [searchTarget]
    intro c
    try dsimp only
    split
    · split <;> trivial
    · refine noCell_bind searchChild_nc fun x => ?_
      split <;> first | trivial | exact searchTarget_nc

theorem getHead_nc {key : K} {closed : Bool} {tgt : PID} : ∀ {f : Nat} {s : Stk},
    noCell (getHead cfg key closed tgt f s : Prog K V _)
  | 0, _ => trivial
  | f + 1, [] => trivial
  | f + 1, p :: rest => by
    simp only [getHead]
    refine noCell_bind loadValidHead_nc fun c => ?_
    split
    · trivial
    · split <;> first | trivial | exact getHead_nc
    · split
      · split
        · trivial
        · exact noCell_bind searchLeaf_nc fun s => getHead_nc
      · refine noCell_bind searchChild_nc fun x => ?_
        split <;> first | trivial | exact getHead_nc
    · trivial

theorem getHeadKC_nc {key : K} : ∀ {f : Nat} {s : Stk}, noCell (getHeadKC cfg key f s : Prog K V _)
  | 0, _ => trivial
  | f + 1, [] => trivial
  | f + 1, p :: rest => by
    simp only [getHeadKC]
    refine noCell_bind loadValidHead_nc fun c => ?_
    split
    · trivial
    · split
      · trivial
      · exact getHeadKC_nc
      · split
        · exact noCell_bind searchLeaf_nc fun s => getHeadKC_nc
        · exact noCell_bind searchChild_nc fun x => getHeadKC_nc
      · trivial

theorem getHeadForMerge_nc {key : K} : ∀ {f : Nat} {b : Option K} {s : Stk},
    noCell (getHeadForMerge cfg key f b s : Prog K V _)
  | 0, _, _ => trivial
  | f + 1, _, [] => trivial
  | f + 1, b, p :: rest => by
    simp only [getHeadForMerge]
    refine noCell_bind loadValidHead_nc fun c => ?_
    split
    · trivial
    · trivial
    · exact getHeadForMerge_nc
    · trivial

theorem tryRootSplit_nc {sep : K} {r l : PID} : noCell (tryRootSplit cfg sep r l : Prog K V _) := by
  intro x
  try dsimp only
  split
  · trivial
  · exact fun _ => trivial

theorem tryRemoveRoot_nc {n : Node K V} {p : PID} {s : Stk} : noCell (tryRemoveRoot n p s) := by
  unfold tryRemoveRoot
  split
  · trivial
  · split
    · trivial
    · intro c
      try dsimp only
      split
      · trivial
      · exact fun _ => trivial

theorem readLoop_nc {key : K} : ∀ {f : Nat} {s : Stk}, noCell (readLoop key f s : Prog K V _)
  | 0, _ => trivial
  | f + 1, [] => trivial
  | f + 1, p :: rest => by
    simp only [readLoop]
    intro c
    try dsimp only
    split
    · trivial
    · split
      · trivial
      · exact readLoop_nc
      · split
        · trivial
        · exact noCell_bind searchChild_nc fun x => readLoop_nc
      · trivial

theorem scanFrom_nc {key : K} {closed : Bool} {e : Spec.Bound K} : ∀ {f : Nat} {s : Stk},
    noCell (scanFrom cfg key closed e f s : Prog K V _)
  | 0, _ => trivial
  | f + 1, s => by
    simp only [scanFrom]
    refine noCell_bind getHead_nc fun o => ?_
    split
    · trivial
    · split
      · exact scanFrom_nc
      · split
        · trivial
        · split <;> trivial

theorem leftmostLoop_nc : ∀ {f : Nat} {p : PID}, noCell (leftmostLoop f p : Prog K V _)
  | 0, _ => trivial
  | f + 1, p => by
    simp only [leftmostLoop]
    intro c
    try dsimp only
    split
    · trivial
    · split
      · trivial
      · split <;> first | trivial | exact leftmostLoop_nc

theorem scanLeft_nc {e : Spec.Bound K} : ∀ {f : Nat} {p : PID},
    noCell (scanLeft cfg e f p : Prog K V _)
  | 0, _ => trivial
  | f + 1, p => by
    simp only [scanLeft]
    intro c
    try dsimp only
    split
    · exact scanLeft_nc
    · split <;> trivial

/-! ## Structure modifications -/

/-- Any result. -/
abbrev anyR : α → (Nat → Prop) → Prop := fun _ _ => True

section
variable {smo : Chain K V → Stk → Prog K V Unit}
  (hs : ∀ c s W, wd (smo c s) anyR W)
include hs

theorem splitLoop_wd {sep : K} {high : Option K} {i : Bool} {r l : PID} {W : Nat → Prop} :
    ∀ {f : Nat} {s : Stk}, wd (splitLoop cfg smo sep high i r l f s) anyR W
  | 0, _ => trivial
  | f + 1, [] => by
    simp only [splitLoop]
    refine wd_noCell tryRootSplit_nc fun b => ?_
    split
    · trivial
    · refine wd_noCell searchTarget_nc fun s => ?_
      split
      · trivial
      · exact splitLoop_wd
  | f + 1, x :: xs => by
    simp only [splitLoop]
    refine wd_noCell getHead_nc fun o => ?_
    split
    · exact splitLoop_wd
    · trivial
    · intro b
      try dsimp only
      split
      · split
        · exact hs _ _ _
        · trivial
      · exact splitLoop_wd

theorem split_wd {f : Nat} {l r : Node K V} {sep : K} {s : Stk} {W : Nat → Prop} :
    wd (split cfg smo f l r sep s) anyR W := by
  unfold split
  split
  · trivial
  · exact fun _ => splitLoop_wd hs

theorem deleteLoop_wd {dk : K} {high : Option K} {w : Nat} {W : Nat → Prop} (hw : W w) :
    ∀ {f : Nat} {b : Option K} {s : Stk},
      wd (deleteLoop cfg smo dk high w f b s) (fun o W => ∀ w, o = some w → W w) W
  | 0, _, _ => trivial
  | f + 1, b, s => by
    simp only [deleteLoop]
    refine wd_noCell getHeadForMerge_nc fun x => ?_
    split
    · split
      · trivial
      · intro b
        try dsimp only
        split
        · split
          · exact wd_bind (hs _ _ _) fun _ W' h _ w' e => by cases e; exact h _ hw
          · intro w' e; cases e; exact hw
        · exact deleteLoop_wd hw
    · intro w' e; cases e

theorem tryDeleteIndexEntry_wd {f : Nat} {n : Node K V} {s : Stk} {W : Nat → Prop} :
    wd (tryDeleteIndexEntry cfg smo f n s) (fun o W => ∀ w, o = some w → W w) W := by
  unfold tryDeleteIndexEntry
  split
  · intro w e; cases e
  · split
    · intro w e; cases e
    · exact fun w => deleteLoop_wd hs (Or.inr rfl)

theorem mergeLoop_wd {n : Node K V} {dk : K} {w : Nat} {rem : PID} {W : Nat → Prop} (hw : W w) :
    ∀ {f : Nat} {b : Bool} {s : Stk}, wd (mergeLoop cfg smo n dk w rem f b s) anyR W
  | 0, _, _ => trivial
  | f + 1, true, [] => by
    simp only [mergeLoop]
    exact wd_noCell searchTarget_nc fun s => mergeLoop_wd hw
  | f + 1, true, x :: xs => by
    simp only [mergeLoop]
    refine wd_noCell searchChild_nc fun s => ?_
    split <;> exact mergeLoop_wd hw
  | f + 1, false, s => by
    simp only [mergeLoop]
    refine wd_noCell getHead_nc fun o => ?_
    split
    · exact mergeLoop_wd hw
    · trivial
    · intro b
      try dsimp only
      split
      · refine ⟨hw, ?_⟩
        split
        · exact hs _ _ _
        · trivial
      · exact mergeLoop_wd hw

theorem tryMerge_wd {f : Nat} {head : Chain K V} {n : Node K V} {s : Stk} {W : Nat → Prop} :
    wd (tryMerge cfg smo f head n s) anyR W := by
  unfold tryMerge
  split
  · trivial
  · intro b
    try dsimp only
    split
    · refine wd_bind (tryDeleteIndexEntry_wd hs) fun o W' _ ho => ?_
      split
      · refine wd_noCell tryRemoveRoot_nc fun b => ?_
        split <;> trivial
      · exact mergeLoop_wd hs (ho _ rfl)
      · trivial
    · trivial

end

theorem trySMOs_wd : ∀ {f : Nat} (head : Chain K V) (s : Stk) (W : Nat → Prop),
    wd (trySMOs cfg f head s) anyR W
  | 0, _, _, _ => trivial
  | f + 1, _, [], _ => trivial
  | f + 1, head, p :: rest, W => by
    simp only [trySMOs]
    intro b
    try dsimp only
    split
    · split
      · trivial
      · exact fun _ => trivial
      · split
        · trivial
        · exact split_wd trySMOs_wd
      · exact tryMerge_wd trySMOs_wd
    · trivial

theorem writeLoop_wd {op : Spec.Op K V} {key : K} {W : Nat → Prop} : ∀ {f : Nat} {s : Stk},
    wd (writeLoop cfg op key f s) anyR W
  | 0, _ => trivial
  | f + 1, s => by
    simp only [writeLoop]
    refine wd_noCell getHeadKC_nc fun x => ?_
    split
    · trivial
    · split
      · trivial
      · intro b
        try dsimp only
        split
        · split
          · exact wd_bind (trySMOs_wd _ _ _) fun _ _ _ _ => trivial
          · trivial
        · exact writeLoop_wd

theorem runOp_wd {f : Nat} {op : Spec.Op K V} {W : Nat → Prop} : wd (runOp cfg f op) anyR W := by
  unfold runOp
  refine wd_noCell searchLeaf_nc fun s => ?_
  split
  · exact wd_noCell readLoop_nc fun _ => trivial
  · exact writeLoop_wd

theorem scanFirst_nc {f : Nat} {b e : Spec.Bound K} : noCell (scanFirst cfg f b e : Prog K V _) := by
  unfold scanFirst
  split
  · exact noCell_bind searchLeaf_nc fun _ => scanFrom_nc
  · exact noCell_bind (fun _ => leftmostLoop_nc) fun _ => scanLeft_nc

end BwTree.Weak
