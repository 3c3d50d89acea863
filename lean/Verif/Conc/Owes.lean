import Verif.Conc.Sure
import Verif.Conc.Init

/-!
# Who ends a wait (proof side)

`Releases` and `Sets` describe programs that are going to release a page and to set the word of an
index-delete record, `Tidy` programs that take these obligations whenever they create a reason to
wait.
-/

namespace BwTree

set_option linter.unusedSectionVars false

variable {K V : Type} {α β : Type}

/-- The words of the index-delete records of a chain. -/
def Chain.words : Chain K V → List Nat
  | .base _ => []
  | .removed _ => []
  | .delta d nx => match d.pay with
    | .cell w => w :: nx.words
    | _ => nx.words

/-- A node or a removal mark. -/
def Chain.bare : Chain K V → Bool
  | .base _ => true
  | .removed _ => true
  | .delta _ _ => false

theorem Chain.words_bare {c : Chain K V} (h : c.bare = true) : c.words = [] := by
  cases c with
  | base n => rfl
  | removed b => rfl
  | delta d nx => cases h

/-- Within `n` accesses the program replaces the chain `c` of page `p` by a node or a removal mark. -/
inductive Releases (p : PID) : Nat → Chain K V → Prog K V α → Prop
  | ub {n : Nat} {c : Chain K V} : Releases p (n + 1) c .ub
  | stuck {n : Nat} {c : Chain K V} : Releases p (n + 1) c .stuck
  | check {n : Nat} {c : Chain K V} {k : Bool → Prog K V α} : Releases p n c (k true) →
      Releases p (n + 1) c (.cas p c c k)
  | swap {n : Nat} {c c' : Chain K V} {k : Bool → Prog K V α} : c'.bare = true →
      Releases p (n + 1) c (.cas p c c' k)
  | newPid {n : Nat} {c : Chain K V} {k : PID → Prog K V α} : (∀ q, Releases p n c (k q)) →
      Releases p (n + 1) c (.newPid k)
  | put {n : Nat} {c c' : Chain K V} {k : Prog K V α} : c'.bare = true →
      Releases p (n + 1) c (.store p c' k)
  | other {n : Nat} {c c' : Chain K V} {q : PID} {k : Prog K V α} : c'.bare = true →
      Releases p n c k → Releases p (n + 1) c (.store q c' k)
  | word {n : Nat} {c : Chain K V} {w : Nat} {q : PID} {k : Prog K V α} : Releases p n c k →
      Releases p (n + 1) c (.storeCell w q k)

theorem Releases.le {p : PID} {n m : Nat} {c : Chain K V} {x : Prog K V α} (h : Releases p n c x)
    (hm : n ≤ m) : Releases p m c x := by
  induction h generalizing m with
  | ub => cases m with | zero => omega | succ m => exact .ub
  | stuck => cases m with | zero => omega | succ m => exact .stuck
  | check _ ih => cases m with | zero => omega | succ m => exact .check (ih (by omega))
  | swap h => cases m with | zero => omega | succ m => exact .swap h
  | newPid _ ih => cases m with | zero => omega | succ m => exact .newPid fun q => ih q (by omega)
  | put h => cases m with | zero => omega | succ m => exact .put h
  | other h _ ih => cases m with | zero => omega | succ m => exact .other h (ih (by omega))
  | word _ ih => cases m with | zero => omega | succ m => exact .word (ih (by omega))

theorem Releases.bind {p : PID} {n : Nat} {c : Chain K V} {x : Prog K V α} {f : α → Prog K V β}
    (h : Releases p n c x) : Releases p n c (x.bind f) := by
  induction h with
  | ub => exact .ub
  | stuck => exact .stuck
  | check _ ih => exact .check ih
  | swap h => exact .swap h
  | newPid _ ih => exact .newPid ih
  | put h => exact .put h
  | other h _ ih => exact .other h ih
  | word _ ih => exact .word ih

/-- A value with `Q` is returned, or the word `w` is set. -/
def Sets (w : Nat) (Q : α → Prop) : Prog K V α → Prop
  | .ret a => Q a
  | .ub => True
  | .stuck => True
  | .flag _ => True
  | .loadRoot k => ∀ r, Sets w Q (k r)
  | .storeRoot _ k => Sets w Q k
  | .casRoot _ _ k => ∀ b, Sets w Q (k b)
  | .load _ k => ∀ c, Sets w Q (k c)
  | .store _ _ k => Sets w Q k
  | .cas p _ _ k => (p ≠ 0 → Sets w Q (k true)) ∧ Sets w Q (k false)
  | .newPid k => ∀ q, Sets w Q (k q)
  | .newCell k => ∀ q, Sets w Q (k q)
  | .loadCell _ k => ∀ q, Sets w Q (k q)
  | .storeCell w' q k => (w' = w ∧ q ≠ 0) ∨ Sets w Q k

theorem Sets.bind {w : Nat} {Q : α → Prop} {R : β → Prop} {x : Prog K V α} {f : α → Prog K V β}
    (h : Sets w Q x) (hf : ∀ a, Q a → Sets w R (f a)) : Sets w R (x.bind f) := by
  induction x with
  | ret a => exact hf a h
  | ub => trivial
  | stuck => trivial
  | flag k => trivial
  | loadRoot k ih => exact fun r => ih r (h r)
  | storeRoot p k ih => exact ih h
  | casRoot o n k ih => exact fun r => ih r (h r)
  | load p k ih => exact fun r => ih r (h r)
  | store p c k ih => exact ih h
  | cas p o n k ih => exact ⟨fun e => ih true (h.1 e), ih false h.2⟩
  | newPid k ih => exact fun r => ih r (h r)
  | newCell k ih => exact fun r => ih r (h r)
  | loadCell w k ih => exact fun r => ih r (h r)
  | storeCell w p k ih => exact h.imp id ih

/-- Every program leads to the values `True`. -/
theorem Sets.top {w : Nat} {x : Prog K V α} : Sets w (fun _ => True) x := by
  induction x with
  | ret a => trivial
  | ub => trivial
  | stuck => trivial
  | flag k => trivial
  | loadRoot k ih => exact fun r => ih r
  | storeRoot p k ih => exact ih
  | casRoot o n k ih => exact fun r => ih r
  | load p k ih => exact fun r => ih r
  | store p c k ih => exact ih
  | cas p o n k ih => exact ⟨fun _ => ih true, ih false⟩
  | newPid k ih => exact fun r => ih r
  | newCell k ih => exact fun r => ih r
  | loadCell w k ih => exact fun r => ih r
  | storeCell w p k ih => exact Or.inr ih

variable [LinearOrder K]

/-- Whoever makes visitors wait is going to end it: a chain that needs waiting is appended only by a
program that releases the page within five accesses; a record with a word `w` is appended only by a
program that sets the word or returns a value with `Q w`. -/
def Tidy (cfg : Cfg K) (Q : Nat → α → Prop) : Prog K V α → Prop
  | .ret _ => True
  | .ub => True
  | .stuck => True
  | .flag _ => True
  | .loadRoot k => ∀ r, Tidy cfg Q (k r)
  | .storeRoot _ k => Tidy cfg Q k
  | .casRoot _ _ k => ∀ b, Tidy cfg Q (k b)
  | .load _ k => ∀ c, Tidy cfg Q (k c)
  | .store _ c k => c.bare = true ∧ Tidy cfg Q k
  | .cas p o n k => (o.needWait cfg = false → n.needWait cfg = true → Releases p 5 n (k true)) ∧
      (∀ w ∈ n.words, w ∈ o.words ∨ (p ≠ 0 → Sets w (Q w) (k true))) ∧
      (p ≠ 0 → Tidy cfg Q (k true)) ∧ Tidy cfg Q (k false)
  | .newPid k => ∀ q, Tidy cfg Q (k q)
  | .newCell k => ∀ q, Tidy cfg Q (k q)
  | .loadCell _ k => ∀ q, Tidy cfg Q (k q)
  | .storeCell _ q k => q ≠ 0 ∧ Tidy cfg Q k

/-- No value discharges the obligation to set a word. -/
abbrev Never : Nat → α → Prop := fun _ _ => False

section
variable {cfg : Cfg K}

theorem Tidy.bind {Q : Nat → α → Prop} {R : Nat → β → Prop} {x : Prog K V α} {f : α → Prog K V β}
    (h : Tidy cfg Q x) (hf : ∀ a, Tidy cfg R (f a)) (hw : ∀ w a, Q w a → Sets w (R w) (f a)) :
    Tidy cfg R (x.bind f) := by
  induction x with
  | ret a => exact hf a
  | ub => trivial
  | stuck => trivial
  | flag k => trivial
  | loadRoot k ih => exact fun r => ih r (h r)
  | storeRoot p k ih => exact ih h
  | casRoot o n k ih => exact fun r => ih r (h r)
  | load p k ih => exact fun r => ih r (h r)
  | store p c k ih => exact ⟨h.1, ih h.2⟩
  | cas p o n k ih =>
    obtain ⟨h1, h2, h3, h4⟩ := h
    refine ⟨fun a b => (h1 a b).bind, fun w e => (h2 w e).imp id fun s hp => (s hp).bind (hw w),
      fun e => ih true (h3 e), ih false h4⟩
  | newPid k ih => exact fun r => ih r (h r)
  | newCell k ih => exact fun r => ih r (h r)
  | loadCell w k ih => exact fun r => ih r (h r)
  | storeCell w p k ih => exact ⟨h.1, ih h.2⟩

/-- Composition with a program that leaves nothing open. -/
theorem Tidy.seq {R : Nat → β → Prop} {x : Prog K V α} {f : α → Prog K V β}
    (h : Tidy cfg Never x) (hf : ∀ a, Tidy cfg R (f a)) : Tidy cfg R (x.bind f) :=
  h.bind hf fun _ _ e => e.elim

theorem Tidy.weaken {Q R : Nat → α → Prop} {x : Prog K V α} (h : Tidy cfg Q x)
    (hw : ∀ w a, Q w a → R w a) : Tidy cfg R x := by
  have : x = x.bind .ret := by
    clear h
    induction x with
    | ret a => rfl
    | ub => rfl
    | stuck => rfl
    | flag k => rfl
    | storeRoot p k ih => exact congrArg (Prog.storeRoot p) ih
    | store p c k ih => exact congrArg (Prog.store p c) ih
    | storeCell w p k ih => exact congrArg (Prog.storeCell w p) ih
    | loadRoot k ih => exact congrArg Prog.loadRoot (funext ih)
    | casRoot o n k ih => exact congrArg (Prog.casRoot o n) (funext ih)
    | load p k ih => exact congrArg (Prog.load p) (funext ih)
    | cas p o n k ih => exact congrArg (Prog.cas p o n) (funext ih)
    | newPid k ih => exact congrArg Prog.newPid (funext ih)
    | newCell k ih => exact congrArg Prog.newCell (funext ih)
    | loadCell w k ih => exact congrArg (Prog.loadCell w) (funext ih)
  rw [this]
  exact h.bind (fun _ => trivial) hw

/-! ## Searches -/

theorem loadValidHead_tidy {Q : Nat → Chain K V → Prop} : ∀ (f : Nat) (p : PID),
    Tidy cfg Q (loadValidHead cfg f p)
  | 0, _ => trivial
  | f + 1, p => fun c => by
    show Tidy cfg Q (if _ then _ else _)
    split
    · exact loadValidHead_tidy f p
    · trivial

theorem waitCell_tidy {Q : Nat → PID → Prop} : ∀ (f w : Nat),
    Tidy cfg Q (waitCell f w : Prog K V PID)
  | 0, _ => trivial
  | f + 1, w => fun p => by
    show Tidy cfg Q (if _ then _ else _)
    split
    · exact waitCell_tidy f w
    · trivial

theorem searchChild_tidy {key : K} {closed : Bool} {tgt : PID} : ∀ (f : Nat) (stk : Stk),
    Tidy cfg Never (searchChild key closed tgt f stk : Prog K V (Bool × Stk))
  | 0, _ => trivial
  | _ + 1, [] => trivial
  | f + 1, p :: rest => fun c => by
    show Tidy cfg Never (if _ then _ else _)
    split
    · trivial
    split
    · trivial
    · exact (waitCell_tidy f _).seq fun _ => trivial
    · split
      · trivial
      · exact searchChild_tidy f _
    · split
      · split
        · trivial
        · exact fun r => searchChild_tidy f _
      · refine (searchChild_tidy f _).seq fun x => ?_
        split
        · trivial
        split
        · trivial
        · exact searchChild_tidy f _
    · trivial

theorem searchLeafLoop_tidy {key : K} {closed : Bool} : ∀ (f : Nat) (stk : Stk),
    Tidy cfg Never (searchLeafLoop key closed f stk : Prog K V Stk)
  | 0, _ => trivial
  | _ + 1, [] => trivial
  | f + 1, p :: rest => fun c => by
    show Tidy cfg Never (if _ then _ else _)
    split
    · trivial
    · exact (searchChild_tidy f _).seq fun _ => searchLeafLoop_tidy f _

theorem searchLeaf_tidy {key : K} {closed : Bool} (f : Nat) :
    Tidy cfg Never (searchLeaf key closed f : Prog K V Stk) := fun _ => searchLeafLoop_tidy f _

theorem searchTarget_tidy {key : K} {ti : Bool} {tgt : PID} : ∀ (f : Nat) (stk : Stk),
    Tidy cfg Never (searchTarget key ti tgt f stk : Prog K V Stk)
  | 0, _ => trivial
  | f + 1, [] => fun _ => searchTarget_tidy f _
  | f + 1, p :: rest => fun c => by
    show Tidy cfg Never (if _ then _ else _)
    split
    · split <;> trivial
    · refine (searchChild_tidy f _).seq fun x => ?_
      split
      · trivial
      · exact searchTarget_tidy f _

theorem getHead_tidy {key : K} {closed : Bool} {tgt : PID} : ∀ (f : Nat) (stk : Stk),
    Tidy cfg Never (getHead cfg key closed tgt f stk : Prog K V (Option (Chain K V × Stk)))
  | 0, _ => trivial
  | _ + 1, [] => trivial
  | f + 1, p :: rest => by
    refine (loadValidHead_tidy f p).seq fun c => ?_
    split
    · trivial
    · split
      · trivial
      · exact getHead_tidy f _
    · split
      · split
        · trivial
        · exact (searchLeaf_tidy f).seq fun _ => getHead_tidy f _
      · refine (searchChild_tidy f _).seq fun x => ?_
        split
        · trivial
        · exact getHead_tidy f _
    · trivial

theorem getHeadKC_tidy {key : K} : ∀ (f : Nat) (stk : Stk),
    Tidy cfg Never (getHeadKC cfg key f stk : Prog K V (Stk × Chain K V × Bool))
  | 0, _ => trivial
  | _ + 1, [] => trivial
  | f + 1, p :: rest => by
    refine (loadValidHead_tidy f p).seq fun c => ?_
    split
    · trivial
    split
    · trivial
    · exact getHeadKC_tidy f _
    · split
      · exact (searchLeaf_tidy f).seq fun _ => getHeadKC_tidy f _
      · exact (searchChild_tidy f _).seq fun _ => getHeadKC_tidy f _
    · trivial

theorem getHeadForMerge_tidy {key : K} : ∀ (f : Nat) (sib : Option K) (stk : Stk),
    Tidy cfg Never (getHeadForMerge cfg key f sib stk : Prog K V (Stk × Chain K V × Bool × Option K))
  | 0, _, _ => trivial
  | _ + 1, _, [] => trivial
  | f + 1, sib, p :: rest => by
    refine (loadValidHead_tidy f p).seq fun c => ?_
    split
    · trivial
    · trivial
    · exact getHeadForMerge_tidy f _ _
    · trivial

/-! ## Structure modifications -/

/-- `TrySMOs` releases the page within four accesses. -/
theorem trySMOs_releases : ∀ (f : Nat) (head : Chain K V) (p : PID) (rest : Stk),
    Releases p 4 head (trySMOs cfg f head (p :: rest))
  | 0, _, _, _ => .stuck
  | f + 1, head, p, rest => by
    refine .check ?_
    simp only [if_true]
    split
    · exact .ub
    · exact .swap rfl
    · split
      · exact .ub
      · exact .newPid fun q => .other rfl (.put rfl)
    · exact .swap rfl

/-- What the calls of `TrySMOs` in the structure modifications provide. -/
structure SmoTidy (cfg : Cfg K) (smo : Chain K V → Stk → Prog K V Unit) : Prop where
  tidy : ∀ head stk, Tidy cfg Never (smo head stk)
  rel : ∀ head p rest, Releases p 4 head (smo head (p :: rest))

theorem Chain.words_push {d : Delta K V} {c : Chain K V} {diff : Int} (h : ∀ w, d.pay ≠ .cell w) :
    (Chain.push d c diff).words = c.words := by
  cases e : d.pay with
  | cell w => exact absurd e (h w)
  | _ => simp [Chain.push, Chain.words, e]

theorem Chain.words_pushCell {d : Delta K V} {c : Chain K V} {diff : Int} {w : Nat}
    (h : d.pay = .cell w) : (Chain.push d c diff).words = w :: c.words := by
  simp [Chain.push, Chain.words, h]

theorem Chain.consolidates (ht : cfg.thr ≤ cfg.maxDelta) {c : Chain K V} (h : c.needWait cfg = true) :
    c.needConsolidation cfg = true := by
  simp only [Chain.needWait, Chain.needConsolidation, Bool.and_eq_true, Bool.or_eq_true,
    decide_eq_true_eq] at h ⊢
  exact ⟨h.1, h.2.imp (fun e => Nat.le_trans ht e) id⟩

variable {smo : Chain K V → Stk → Prog K V Unit}

/-- After an append: consolidate if needed. -/
theorem SmoTidy.after (hs : SmoTidy cfg smo) {nc : Chain K V} {stk : Stk} :
    Tidy cfg Never (if nc.needConsolidation cfg then smo nc stk else .ret ()) := by
  split
  · exact hs.tidy _ _
  · trivial

theorem SmoTidy.relAfter (ht : cfg.thr ≤ cfg.maxDelta) (hs : SmoTidy cfg smo) {nc : Chain K V}
    (hw : nc.needWait cfg = true) {p : PID} {rest : Stk} {x : Prog K V Unit} :
    Releases p 4 nc (if nc.needConsolidation cfg then smo nc (p :: rest) else x) := by
  rw [if_pos (Chain.consolidates ht hw)]
  exact hs.rel _ _ _

theorem tryRootSplit_tidy {sep : K} {rpid lpid : PID} :
    Tidy cfg Never (tryRootSplit cfg sep rpid lpid : Prog K V Bool) := fun r => by
  show Tidy cfg Never (if _ then _ else _)
  split
  · trivial
  · exact fun np => ⟨rfl, trivial⟩

theorem splitLoop_tidy (ht : cfg.thr ≤ cfg.maxDelta) (hs : SmoTidy cfg smo) {sep : K}
    {high : Option K} {ri : Bool} {rpid lpid : PID} : ∀ (f : Nat) (stk : Stk),
    Tidy cfg Never (splitLoop cfg smo sep high ri rpid lpid f stk)
  | 0, _ => trivial
  | f + 1, [] => by
    refine tryRootSplit_tidy.seq fun b => ?_
    split
    · trivial
    · refine (searchTarget_tidy f _).seq fun s => ?_
      split
      · trivial
      · exact splitLoop_tidy ht hs f _
  | f + 1, x :: xs => by
    refine (getHead_tidy f _).seq fun o => ?_
    split
    · exact splitLoop_tidy ht hs f _
    · trivial
    · refine ⟨fun _ hw => (hs.relAfter ht hw).le (by omega), fun w hw => Or.inl ?_, fun _ => hs.after,
        splitLoop_tidy ht hs f _⟩
      rwa [Chain.words_push (by intro w e; cases e)] at hw

theorem split_tidy (ht : cfg.thr ≤ cfg.maxDelta) (hs : SmoTidy cfg smo) {f : Nat} {l r : Node K V}
    {sep : K} {stk : Stk} : Tidy cfg Never (split cfg smo f l r sep stk) := by
  cases stk with
  | nil => trivial
  | cons lpid rest => exact fun rpid => ⟨rfl, rfl, splitLoop_tidy ht hs f _⟩

theorem deleteLoop_tidy (ht : cfg.thr ≤ cfg.maxDelta) (hs : SmoTidy cfg smo) {dk : K}
    {high : Option K} {w : Nat} : ∀ (f : Nat) (sib : Option K) (stk : Stk),
    Tidy cfg (fun w o => o = some w) (deleteLoop cfg smo dk high w f sib stk)
  | 0, _, _ => trivial
  | f + 1, sib, stk => by
    refine (getHeadForMerge_tidy f _ _).seq fun x => ?_
    split
    · split
      · trivial
      · refine ⟨fun _ hw => ?_, fun w' hw => ?_, fun _ => ?_, deleteLoop_tidy ht hs f _ _⟩
        · simp only [if_true]
          rw [if_pos (Chain.consolidates ht hw)]
          exact ((hs.rel _ _ _).le (by omega)).bind
        · rw [Chain.words_pushCell rfl, List.mem_cons] at hw
          rcases hw with rfl | hw
          · refine Or.inr fun _ => ?_
            simp only [if_true]
            split
            · exact Sets.top.bind fun _ _ => rfl
            · rfl
          · exact Or.inl hw
        · simp only [if_true]
          split
          · exact (hs.tidy _ _).seq fun _ => trivial
          · trivial
    · trivial

theorem tryDeleteIndexEntry_tidy (ht : cfg.thr ≤ cfg.maxDelta) (hs : SmoTidy cfg smo) {f : Nat}
    {n : Node K V} {stk : Stk} :
    Tidy cfg (fun w o => o = some w) (tryDeleteIndexEntry cfg smo f n stk) := by
  unfold tryDeleteIndexEntry
  split
  · trivial
  split
  · trivial
  · exact fun w => deleteLoop_tidy ht hs f _ _

theorem tryRemoveRoot_tidy {n : Node K V} {pid : PID} {stk : Stk} :
    Tidy cfg Never (tryRemoveRoot n pid stk : Prog K V Bool) := by
  unfold tryRemoveRoot
  split
  · trivial
  split
  · trivial
  · intro c
    show Tidy cfg Never (if _ then _ else _)
    split
    · trivial
    · exact fun b => trivial

theorem mergeLoop_tidy (ht : cfg.thr ≤ cfg.maxDelta) (hs : SmoTidy cfg smo) {n : Node K V} {dk : K}
    {w : Nat} {rem : PID} : ∀ (f : Nat) (b : Bool) (stk : Stk),
    Tidy cfg Never (mergeLoop cfg smo n dk w rem f b stk)
  | 0, _, _ => trivial
  | f + 1, true, [] => (searchTarget_tidy f _).seq fun s => mergeLoop_tidy ht hs f _ _
  | f + 1, true, x :: xs => by
    refine (searchChild_tidy f _).seq fun y => ?_
    split
    · exact mergeLoop_tidy ht hs f _ _
    · exact mergeLoop_tidy ht hs f _ _
  | f + 1, false, stk => by
    refine (getHead_tidy f _).seq fun o => ?_
    split
    · exact mergeLoop_tidy ht hs f _ _
    · trivial
    · refine ⟨fun _ hw => ?_, fun w hw => Or.inl ?_, fun hp => ⟨hp, hs.after⟩,
        mergeLoop_tidy ht hs f _ _⟩
      · exact .word (hs.relAfter ht hw)
      · rwa [Chain.words_push (by intro w e; cases e)] at hw

theorem mergeLoop_sets {n : Node K V} {dk : K} {w : Nat} {rem : PID} :
    ∀ (f : Nat) (b : Bool) (stk : Stk), Sets w (fun _ => False) (mergeLoop cfg smo n dk w rem f b stk)
  | 0, _, _ => trivial
  | f + 1, true, [] => Sets.top.bind fun s _ => mergeLoop_sets f _ _
  | f + 1, true, x :: xs => by
    refine Sets.top.bind fun y _ => ?_
    split
    · exact mergeLoop_sets f _ _
    · exact mergeLoop_sets f _ _
  | f + 1, false, stk => by
    refine Sets.top.bind fun o _ => ?_
    split
    · exact mergeLoop_sets f _ _
    · trivial
    · exact ⟨fun hp => Or.inl ⟨rfl, hp⟩, mergeLoop_sets f _ _⟩

theorem tryMerge_tidy (ht : cfg.thr ≤ cfg.maxDelta) (hp : 0 < cfg.maxDelta) (hs : SmoTidy cfg smo)
    {f : Nat} {head : Chain K V} {n : Node K V} {stk : Stk} :
    Tidy cfg Never (tryMerge cfg smo f head n stk) := by
  cases stk with
  | nil => trivial
  | cons p rest =>
    refine ⟨fun _ hw => ?_, fun w hw => (by cases hw), fun _ => ?_, trivial⟩
    · rw [Chain.needWait_removed hp] at hw; cases hw
    · simp only [if_true]
      refine (tryDeleteIndexEntry_tidy ht hs).bind (fun o => ?_) fun w o e => ?_
      · split
        · refine tryRemoveRoot_tidy.seq fun b => ?_
          split
          · trivial
          · exact ⟨rfl, trivial⟩
        · exact mergeLoop_tidy ht hs f _ _
        · trivial
      · subst e
        split
        · rename_i e; cases e
        · rename_i e _; cases e; exact mergeLoop_sets f _ _
        · trivial

theorem trySMOs_tidy (ht : cfg.thr ≤ cfg.maxDelta) (hp : 0 < cfg.maxDelta) : ∀ (f : Nat),
    SmoTidy (V := V) cfg (trySMOs cfg f)
  | 0 => ⟨fun _ _ => trivial, fun _ _ _ => .stuck⟩
  | f + 1 => by
    have ih := trySMOs_tidy ht hp f
    refine ⟨fun head stk => ?_, fun _ _ _ => trySMOs_releases _ _ _ _⟩
    cases stk with
    | nil => trivial
    | cons p rest =>
      refine ⟨fun e e' => (by rw [e] at e'; cases e'), fun w hw => Or.inl hw, fun _ => ?_, trivial⟩
      simp only [if_true]
      split
      · trivial
      · exact ⟨fun _ e => (by cases e), fun w hw => (by cases hw), fun _ => trivial, trivial⟩
      · split
        · trivial
        · exact split_tidy ht ih
      · exact tryMerge_tidy ht hp ih

/-! ## Calls -/

theorem readLoop_tidy {key : K} : ∀ (f : Nat) (stk : Stk),
    Tidy cfg Never (readLoop key f stk : Prog K V (Option V))
  | 0, _ => trivial
  | _ + 1, [] => trivial
  | f + 1, p :: rest => fun c => by
    show Tidy cfg Never (if _ then _ else _)
    split
    · trivial
    split
    · trivial
    · exact readLoop_tidy f _
    · split
      · trivial
      · exact (searchChild_tidy f _).seq fun _ => readLoop_tidy f _
    · trivial

theorem writeDelta_pay {op : Spec.Op K V} {b : Bool} {d : Delta K V} {diff : Int}
    (h : writeDelta cfg op b = .inr (d, diff)) (w : Nat) : d.pay ≠ .cell w := by
  intro e
  cases op <;> cases b <;> simp [writeDelta] at h <;> obtain ⟨rfl, _⟩ := h <;> cases e

theorem writeLoop_tidy (ht : cfg.thr ≤ cfg.maxDelta) (hp : 0 < cfg.maxDelta) {op : Spec.Op K V}
    {key : K} : ∀ (f : Nat) (stk : Stk), Tidy cfg Never (writeLoop cfg op key f stk)
  | 0, _ => trivial
  | f + 1, stk => by
    have hs := trySMOs_tidy (V := V) ht hp f
    refine (getHeadKC_tidy f _).seq fun x => ?_
    split
    · trivial
    · rename_i d diff e
      split
      · trivial
      · refine ⟨fun _ hw => ?_, fun w hw => Or.inl ?_, fun _ => ?_, writeLoop_tidy ht hp f _⟩
        · simp only [if_true]
          rw [if_pos (Chain.consolidates ht hw)]
          exact ((hs.rel _ _ _).le (by omega)).bind
        · rwa [Chain.words_push (writeDelta_pay e)] at hw
        · simp only [if_true]
          split
          · exact (hs.tidy _ _).seq fun _ => trivial
          · trivial

theorem runOp_tidy (ht : cfg.thr ≤ cfg.maxDelta) (hp : 0 < cfg.maxDelta) {op : Spec.Op K V} (f : Nat) :
    Tidy cfg Never (runOp cfg f op) := by
  refine (searchLeaf_tidy f).seq fun stk => ?_
  split
  · exact (readLoop_tidy f _).seq fun _ => trivial
  · exact writeLoop_tidy ht hp f _

theorem scanFrom_tidy {key : K} {closed : Bool} {e : Spec.Bound K} : ∀ (f : Nat) (stk : Stk),
    Tidy cfg Never (scanFrom cfg key closed e f stk : Prog K V (List (K × V) × Option (K × PID)))
  | 0, _ => trivial
  | f + 1, stk => by
    refine (getHead_tidy f _).seq fun o => ?_
    split
    · trivial
    split
    · exact scanFrom_tidy f _
    split
    · trivial
    split <;> trivial

theorem leftmostLoop_tidy : ∀ (f : Nat) (p : PID),
    Tidy cfg Never (leftmostLoop f p : Prog K V PID)
  | 0, _ => trivial
  | f + 1, p => fun c => by
    show Tidy cfg Never (if _ then _ else _)
    split
    · trivial
    split
    · trivial
    split
    · trivial
    · exact leftmostLoop_tidy f _

theorem scanLeft_tidy {e : Spec.Bound K} : ∀ (f : Nat) (p : PID),
    Tidy cfg Never (scanLeft cfg e f p : Prog K V (List (K × V) × Option (K × PID)))
  | 0, _ => trivial
  | f + 1, p => fun c => by
    show Tidy cfg Never (if _ then _ else _)
    split
    · exact scanLeft_tidy f _
    split <;> trivial

theorem scanFirst_tidy {b e : Spec.Bound K} (f : Nat) :
    Tidy cfg Never (scanFirst cfg f b e : Prog K V (List (K × V) × Option (K × PID))) := by
  unfold scanFirst
  split
  · exact (searchLeaf_tidy f).seq fun _ => scanFrom_tidy f _
  · refine Tidy.seq (fun r => leftmostLoop_tidy f r) fun _ => scanLeft_tidy f _

/-! ## Steps -/

theorem Tidy.step {Q : Nat → α → Prop} {s s' : Sh K V} {x x' : Prog K V α} (h : Tidy cfg Q x)
    (h0 : s.mt 0 = none) (ha : AStep s x s' x') : Tidy cfg Q x' := by
  cases ha with
  | loadRoot k => exact h _
  | storeRoot p k => exact h
  | casRootOk => exact h _
  | casRootFail => exact h _
  | load => exact h _
  | loadNull => trivial
  | store => exact h.2
  | casOk p o n k e => exact h.2.2.1 (by rintro rfl; rw [h0] at e; cases e)
  | casFail => exact h.2.2.2
  | newPid => exact h _
  | newCell => exact h _
  | loadCell => exact h _
  | storeCell => exact h.2

theorem Sets.step {w : Nat} {Q : α → Prop} {s s' : Sh K V} {x x' : Prog K V α} (h : Sets w Q x)
    (h0 : s.mt 0 = none) (ha : AStep s x s' x') : s'.cells w ≠ 0 ∨ Sets w Q x' := by
  cases ha with
  | loadRoot k => exact Or.inr (h _)
  | storeRoot p k => exact Or.inr h
  | casRootOk => exact Or.inr (h _)
  | casRootFail => exact Or.inr (h _)
  | load => exact Or.inr (h _)
  | loadNull => exact Or.inr trivial
  | store => exact Or.inr h
  | casOk p o n k e => exact Or.inr (h.1 (by rintro rfl; rw [h0] at e; cases e))
  | casFail => exact Or.inr h.2
  | newPid => exact Or.inr (h _)
  | newCell => exact Or.inr (h _)
  | loadCell => exact Or.inr (h _)
  | storeCell w' q k =>
    rcases h with ⟨rfl, h⟩ | h
    · exact Or.inl (by simpa using h)
    · exact Or.inr h

/-- A word that is set stays set. -/
theorem Tidy.cells {Q : Nat → α → Prop} {s s' : Sh K V} {x x' : Prog K V α} (h : Tidy cfg Q x)
    (ha : AStep s x s' x') {w : Nat} (hw : w < s.ncell) (hs : s.cells w ≠ 0) : s'.cells w ≠ 0 := by
  cases ha with
  | newCell k =>
    have : w ≠ s.ncell := by omega
    show upd _ _ _ _ ≠ 0
    rw [upd_ne _ _ this]; exact hs
  | storeCell w' q k =>
    show upd _ _ _ _ ≠ 0
    by_cases e : w = w'
    · subst e; simpa using h.1
    · rw [upd_ne _ _ e]; exact hs
  | _ => exact hs

theorem AStep.ncell_mono {s s' : Sh K V} {x x' : Prog K V α} (ha : AStep s x s' x') :
    s.ncell ≤ s'.ncell := by
  cases ha with
  | newCell k => exact Nat.le_succ _
  | _ => exact Nat.le_refl _

/-- The words in a slot were there before, or the program is going to set them. -/
theorem Tidy.slot {Q : Nat → α → Prop} {s s' : Sh K V} {x x' : Prog K V α} (h : Tidy cfg Q x)
    (h0 : s.mt 0 = none) (ha : AStep s x s' x') {q : PID} {c : Chain K V} {w : Nat}
    (hm : s'.mt q = some c) (hw : w ∈ c.words) :
    (∃ c', s.mt q = some c' ∧ w ∈ c'.words) ∨ Sets w (Q w) x' := by
  cases ha with
  | store p c' k =>
    by_cases e : q = p
    · subst e
      have hm : some c' = some c := (upd_same s.mt q (some c')).symm.trans hm
      cases hm
      rw [Chain.words_bare h.1] at hw; cases hw
    · exact Or.inl ⟨c, (upd_ne s.mt (some c') e).symm.trans hm, hw⟩
  | casOk p o n k e' =>
    by_cases e : q = p
    · subst e
      have hm : some n = some c := (upd_same s.mt q (some n)).symm.trans hm
      cases hm
      have hp : q ≠ 0 := by rintro rfl; rw [h0] at e'; cases e'
      exact (h.2.1 w hw).imp (fun x => ⟨o, e', x⟩) fun x => x hp
    · exact Or.inl ⟨c, (upd_ne s.mt (some n) e).symm.trans hm, hw⟩
  | _ => exact Or.inl ⟨c, hm, hw⟩

/-- One access of the thread that releases the page. -/
theorem Releases.step {p : PID} {n : Nat} {c : Chain K V} {s s' : Sh K V} {x x' : Prog K V α}
    (h : Releases p n c x) (hm : s.mt p = some c) (ha : Sure s x s' x') :
    (∃ c', s'.mt p = some c' ∧ c'.bare = true) ∨
    (s'.mt p = some c ∧ ∃ m, n = m + 1 ∧ Releases p m c x') := by
  cases h with
  | ub => cases ha.step
  | stuck => cases ha.step
  | check h =>
    cases ha with
    | firm f =>
      obtain ⟨_, f⟩ := f
      obtain ⟨rfl, rfl⟩ := f _ _ _ _ rfl hm
      exact Or.inr ⟨upd_same .., _, rfl, h⟩
    | weak w => exact absurd w Weak.irrefl
  | swap h =>
    cases ha with
    | firm f =>
      obtain ⟨_, f⟩ := f
      obtain ⟨rfl, rfl⟩ := f _ _ _ _ rfl hm
      exact Or.inl ⟨_, upd_same .., h⟩
    | weak w => obtain ⟨d, rfl⟩ := w; cases h
  | newPid h =>
    cases ha.step
    exact Or.inr ⟨hm, _, rfl, h _⟩
  | put h =>
    cases ha.step
    exact Or.inl ⟨_, upd_same .., h⟩
  | @other _ _ c' q k hb h =>
    cases ha.step
    by_cases e : p = q
    · subst e; exact Or.inl ⟨_, upd_same .., hb⟩
    · exact Or.inr ⟨(upd_ne s.mt (some c') e).trans hm, _, rfl, h⟩
  | word h =>
    cases ha.step
    exact Or.inr ⟨hm, _, rfl, h⟩

/-- A page that begins to wait is released by the program that made it wait. -/
theorem Tidy.wait {Q : Nat → α → Prop} (hp : 0 < cfg.maxDelta) {s s' : Sh K V} {x x' : Prog K V α}
    (h : Tidy cfg Q x) (ha : AStep s x s' x') {q : PID} {c : Chain K V} (hm : s'.mt q = some c)
    (hw : c.needWait cfg = true) (ho : ∀ c', s.mt q = some c' → c'.needWait cfg = false) :
    Releases q 5 c x' := by
  have same : s.mt q = some c → Releases q 5 c x' := by
    intro e; rw [ho c e] at hw; cases hw
  cases ha with
  | store p c' k =>
    by_cases e : q = p
    · subst e
      have hm : some c' = some c := (upd_same s.mt q (some c')).symm.trans hm
      cases hm
      cases c with
      | base n => cases hw
      | removed b => rw [Chain.needWait_removed hp] at hw; cases hw
      | delta d nx => cases h.1
    · exact same ((upd_ne s.mt (some c') e).symm.trans hm)
  | casOk p o n k e' =>
    by_cases e : q = p
    · subst e
      have hm : some n = some c := (upd_same s.mt q (some n)).symm.trans hm
      cases hm
      exact h.1 (ho o e') hw
    · exact same ((upd_ne s.mt (some n) e).symm.trans hm)
  | _ => exact same hm

end

end BwTree
