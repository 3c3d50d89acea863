import Verif.Weak.Ids
import Verif.Conc.System

/-!
# Where the page IDs of a call come from (proof side)

`kp` says of a program: it accesses only slots whose page ID it has read in a chain, in `root_` or in the
word of an index-delete delta, or has reserved; it publishes only page IDs whose slot it knows to be
filled.
-/

namespace BwTree.Weak

set_option linter.unusedSectionVars false

variable {K V : Type} [LinearOrder K] {α β : Type}

/-- A known page ID, or `kNullPtr`. -/
def In (N : PID → Prop) (p : PID) : Prop := p = 0 ∨ N p

/-- The discipline.  `N`: page IDs whose slot is filled; `F`: reserved page IDs. -/
def kp : Prog K V α → (α → (PID → Prop) → Prop) → (PID → Prop) → (PID → Prop) → Prop
  | .ret a, Q, N, _ => Q a N
  | .ub, _, _, _ => True
  | .stuck, _, _, _ => True
  | .flag _, _, _, _ => True
  | .loadRoot k, Q, N, F => ∀ r, kp (k r) Q (fun q => N q ∨ q = r) F
  | .storeRoot p k, Q, N, F => In N p ∧ kp k Q N F
  | .casRoot _ b k, Q, N, F => In N b ∧ ∀ r, kp (k r) Q N F
  | .load p k, Q, N, F => In N p ∧ ∀ c, kp (k c) Q (fun q => N q ∨ c.Ids q) F
  | .store p c k, Q, N, F => (In N p ∨ F p) ∧ (∀ q, c.Ids q → In N q) ∧
      kp k Q (fun q => N q ∨ q = p) F
  | .cas p _ b k, Q, N, F => In N p ∧ (∀ q, b.Ids q → In N q) ∧ ∀ r, kp (k r) Q N F
  | .newPid k, Q, N, F => ∀ p, kp (k p) Q N (fun q => F q ∨ q = p)
  | .newCell k, Q, N, F => ∀ w, kp (k w) Q N F
  | .loadCell _ k, Q, N, F => ∀ p, kp (k p) Q (fun q => N q ∨ q = p) F
  | .storeCell _ p k, Q, N, F => In N p ∧ kp k Q N F

theorem kp_mono {p : Prog K V α} {Q Q' : α → (PID → Prop) → Prop} {N F F' : PID → Prop}
    (h : kp p Q N F) (hq : ∀ a N, Q a N → Q' a N) (hf : ∀ q, F q → F' q) : kp p Q' N F' := by
  induction p generalizing N F F' with
  | ret a => exact hq _ _ h
  | ub => trivial
  | stuck => trivial
  | flag k => trivial
  | loadRoot k ih => exact fun r => ih r (h r) hf
  | storeRoot p k ih => exact ⟨h.1, ih h.2 hf⟩
  | casRoot o n k ih => exact ⟨h.1, fun r => ih r (h.2 r) hf⟩
  | load p k ih => exact ⟨h.1, fun r => ih r (h.2 r) hf⟩
  | store p c k ih => exact ⟨h.1.imp_right (hf _), h.2.1, ih h.2.2 hf⟩
  | cas p a b k ih => exact ⟨h.1, h.2.1, fun r => ih r (h.2.2 r) hf⟩
  | newPid k ih => exact fun r => ih r (h r) fun q hq => hq.imp_left (hf q)
  | newCell k ih => exact fun r => ih r (h r) hf
  | loadCell w k ih => exact fun r => ih r (h r) hf
  | storeCell w p k ih => exact ⟨h.1, ih h.2 hf⟩

theorem kp_bind {p : Prog K V α} {k : α → Prog K V β} {Q : β → (PID → Prop) → Prop}
    {N F : PID → Prop} (h : kp p (fun a N => kp (k a) Q N fun _ => False) N F) :
    kp (p.bind k) Q N F := by
  induction p generalizing N F with
  | ret a => exact kp_mono h (fun _ _ h => h) fun _ h => h.elim
  | ub => trivial
  | stuck => trivial
  | flag k => trivial
  | loadRoot k ih => exact fun r => ih r (h r)
  | storeRoot p k ih => exact ⟨h.1, ih h.2⟩
  | casRoot o n k ih => exact ⟨h.1, fun r => ih r (h.2 r)⟩
  | load p k ih => exact ⟨h.1, fun r => ih r (h.2 r)⟩
  | store p c k ih => exact ⟨h.1, h.2.1, ih h.2.2⟩
  | cas p a b k ih => exact ⟨h.1, h.2.1, fun r => ih r (h.2.2 r)⟩
  | newPid k ih => exact fun r => ih r (h r)
  | newCell k ih => exact fun r => ih r (h r)
  | loadCell w k ih => exact fun r => ih r (h r)
  | storeCell w p k ih => exact ⟨h.1, ih h.2⟩

/-- `kp` for programs without reserved page IDs at the start; what was known stays known. -/
def Kn (p : Prog K V α) (P : α → (PID → Prop) → Prop) (N : PID → Prop) : Prop :=
  kp p (fun a N' => (∀ q, N q → N' q) ∧ P a N') N fun _ => False

theorem Kn.bind {p : Prog K V α} {k : α → Prog K V β} {P : α → (PID → Prop) → Prop}
    {Q : β → (PID → Prop) → Prop} {N : PID → Prop} (h : Kn p P N)
    (hk : ∀ a N', (∀ q, N q → N' q) → P a N' → Kn (k a) Q N') : Kn (p.bind k) Q N :=
  kp_bind (kp_mono h (fun a N' hg => kp_mono (hk a N' hg.1 hg.2)
    (fun _ _ x => ⟨fun q hq => x.1 q (hg.1 q hq), x.2⟩) fun _ h => h) fun _ h => h)

theorem Kn.ret {a : α} {P : α → (PID → Prop) → Prop} {N : PID → Prop} (h : P a N) :
    Kn (.ret a : Prog K V α) P N := ⟨fun _ h => h, h⟩

theorem Kn.load {p : PID} {k : Chain K V → Prog K V α} {P : α → (PID → Prop) → Prop}
    {N : PID → Prop} (hp : In N p) (h : ∀ c, Kn (k c) P fun q => N q ∨ c.Ids q) :
    Kn (.load p k) P N :=
  ⟨hp, fun c => kp_mono (h c) (fun _ _ x => ⟨fun q hq => x.1 q (Or.inl hq), x.2⟩) fun _ h => h⟩

theorem Kn.loadRoot {k : PID → Prog K V α} {P : α → (PID → Prop) → Prop}
    {N : PID → Prop} (h : ∀ r, Kn (k r) P fun q => N q ∨ q = r) : Kn (.loadRoot k) P N :=
  fun r => kp_mono (h r) (fun _ _ x => ⟨fun q hq => x.1 q (Or.inl hq), x.2⟩) fun _ h => h

theorem Kn.loadCell {w : Nat} {k : PID → Prog K V α} {P : α → (PID → Prop) → Prop}
    {N : PID → Prop} (h : ∀ r, Kn (k r) P fun q => N q ∨ q = r) : Kn (.loadCell w k) P N :=
  fun r => kp_mono (h r) (fun _ _ x => ⟨fun q hq => x.1 q (Or.inl hq), x.2⟩) fun _ h => h

theorem Kn.cas {p : PID} {a b : Chain K V} {k : Bool → Prog K V α} {P : α → (PID → Prop) → Prop}
    {N : PID → Prop} (hp : In N p) (hb : ∀ q, b.Ids q → In N q) (h : ∀ r, Kn (k r) P N) :
    Kn (.cas p a b k) P N := ⟨hp, hb, h⟩

theorem Kn.ite {c : Prop} [Decidable c] {a b : Prog K V α} {P : α → (PID → Prop) → Prop}
    {N : PID → Prop} (h1 : c → Kn a P N) (h2 : ¬ c → Kn b P N) : Kn (if c then a else b) P N := by
  split
  · exact h1 ‹_›
  · exact h2 ‹_›

/-- All page IDs of a stack are known. -/
def StkIn (N : PID → Prop) (s : Stk) : Prop := ∀ p ∈ s, In N p

/-- All page IDs of a chain are known. -/
def ChIn (N : PID → Prop) (c : Chain K V) : Prop := ∀ q, c.Ids q → In N q

theorem In.mono {N N' : PID → Prop} (h : ∀ q, N q → N' q) {p : PID} (hp : In N p) : In N' p :=
  hp.imp_right (h p)

theorem StkIn.mono {N N' : PID → Prop} (h : ∀ q, N q → N' q) {s : Stk} (hs : StkIn N s) :
    StkIn N' s := fun p hp => (hs p hp).mono h

theorem ChIn.mono {N N' : PID → Prop} (h : ∀ q, N q → N' q) {c : Chain K V} (hc : ChIn N c) :
    ChIn N' c := fun p hp => (hc p hp).mono h

theorem StkIn.cons {N : PID → Prop} {p : PID} {s : Stk} (hp : In N p) (hs : StkIn N s) :
    StkIn N (p :: s) := fun q hq => (List.mem_cons.1 hq).elim (fun e => e ▸ hp) (hs q)

theorem StkIn.head {N : PID → Prop} {p : PID} {s : Stk} (hs : StkIn N (p :: s)) : In N p :=
  hs p List.mem_cons_self

theorem StkIn.tail {N : PID → Prop} {p : PID} {s : Stk} (hs : StkIn N (p :: s)) : StkIn N s :=
  fun q hq => hs q (List.mem_cons_of_mem _ hq)

theorem StkIn.nil {N : PID → Prop} : StkIn N [] := fun _ h => (nomatch h)

variable {cfg : Cfg K} {f : Nat} {key : K} {closed : Bool} {tgt : PID} {N : PID → Prop}

/-- After a load. -/
abbrev ld (N : PID → Prop) (c : Chain K V) : PID → Prop := fun q => N q ∨ c.Ids q

theorem ld_chain {c : Chain K V} : ChIn (ld N c) c := fun _ h => Or.inr (Or.inr h)

theorem loadValidHead_kn {p : PID} (hp : In N p) :
    Kn (loadValidHead (V := V) cfg f p) (fun c N' => ChIn N' c) N := by
  induction f generalizing N with
  | zero => trivial
  | succ f ih =>
    exact Kn.load hp fun c => Kn.ite (fun _ => ih (hp.mono fun _ => Or.inl)) fun _ => Kn.ret ld_chain

theorem waitCell_kn {w : Nat} : Kn (waitCell (K := K) (V := V) f w) (fun p N' => In N' p) N := by
  induction f generalizing N with
  | zero => trivial
  | succ f ih => exact Kn.loadCell fun r => Kn.ite (fun _ => ih) fun _ => Kn.ret (Or.inr (Or.inr rfl))

theorem searchChild_kn {s : Stk} (hs : StkIn N s) :
    Kn (searchChild (V := V) key closed tgt f s) (fun x N' => StkIn N' x.2) N := by
  induction f generalizing s N with
  | zero => trivial
  | succ f ih =>
    cases s with
    | nil => trivial
    | cons p rest =>
      refine Kn.load hs.head fun c => Kn.ite (fun _ => trivial) fun _ => ?_
      have hs' : StkIn (ld N c) (p :: rest) := hs.mono fun _ => Or.inl
      cases hc : childStep key closed c with
      | child q => exact Kn.ret (hs'.cons (Or.inr (Or.inr (childStep_ids.1 hc))))
      | cell w =>
        exact Kn.bind waitCell_kn fun q N' h1 h2 => Kn.ret ((hs'.mono h1).cons h2)
      | sibling q =>
        exact Kn.ite (fun _ => Kn.ret hs') fun _ => ih (hs'.tail.cons (Or.inr (Or.inr (childStep_ids.2 hc))))
      | removed =>
        refine Kn.ite (fun _ => Kn.ite (fun _ => Kn.ret StkIn.nil) fun _ => Kn.loadRoot fun r => ?_)
          fun _ => ?_
        · exact ih (StkIn.nil.cons (Or.inr (Or.inr rfl)))
        · exact Kn.bind (ih hs'.tail) fun x N' h1 h2 => Kn.ite (fun _ => Kn.ret h2) fun _ =>
            Kn.ite (fun _ => Kn.ret StkIn.nil) fun _ => ih h2
      | ub => trivial

theorem searchLeafLoop_kn {s : Stk} (hs : StkIn N s) :
    Kn (searchLeafLoop (V := V) key closed f s) (fun x N' => StkIn N' x) N := by
  induction f generalizing s N with
  | zero => trivial
  | succ f ih =>
    cases s with
    | nil => trivial
    | cons p rest =>
      refine Kn.load hs.head fun c => ?_
      have hs' : StkIn (ld N c) (p :: rest) := hs.mono fun _ => Or.inl
      exact Kn.ite (fun _ => Kn.ret hs') fun _ => Kn.bind (searchChild_kn hs') fun x N' _ h2 => ih h2

theorem searchLeaf_kn : Kn (searchLeaf (V := V) key closed f) (fun x N' => StkIn N' x) N :=
  Kn.loadRoot fun _ => searchLeafLoop_kn (StkIn.nil.cons (Or.inr (Or.inr rfl)))

theorem searchTarget_kn {ti : Bool} {s : Stk} (hs : StkIn N s) :
    Kn (searchTarget (V := V) key ti tgt f s) (fun x N' => StkIn N' x) N := by
  induction f generalizing s N with
  | zero => trivial
  | succ f ih =>
    cases s with
    | nil => exact Kn.loadRoot fun r => ih (StkIn.nil.cons (Or.inr (Or.inr rfl)))
    | cons p rest =>
      refine Kn.load hs.head fun c => ?_
      have hs' : StkIn (ld N c) (p :: rest) := hs.mono fun _ => Or.inl
      exact Kn.ite (fun _ => Kn.ite (fun _ => trivial) fun _ => Kn.ret hs') fun _ =>
        Kn.bind (searchChild_kn hs') fun x N' _ h2 => Kn.ite (fun _ => Kn.ret h2) fun _ => ih h2

theorem getHead_kn {s : Stk} (hs : StkIn N s) :
    Kn (getHead (V := V) cfg key closed tgt f s)
      (fun o N' => ∀ c s, o = some (c, s) → ChIn N' c ∧ StkIn N' s) N := by
  induction f generalizing s N with
  | zero => trivial
  | succ f ih =>
    cases s with
    | nil => trivial
    | cons p rest =>
      refine Kn.bind (loadValidHead_kn hs.head) fun c N' h1 h2 => ?_
      have hs' : StkIn N' (p :: rest) := hs.mono h1
      have hret : ∀ c' s, some (c, p :: rest) = some (c', s) → ChIn N' c' ∧ StkIn N' s := by
        intro c' s e
        cases Option.some.inj e
        exact ⟨h2, hs'⟩
      cases hv : dcValidate key closed c with
      | ok => exact Kn.ret hret
      | sibling q => exact Kn.ite (fun _ => Kn.ret hret) fun _ => ih (hs'.tail.cons (h2 q (dcValidate_ids hv)))
      | removed =>
        refine Kn.ite (fun _ => Kn.ite (fun _ => Kn.ret fun _ _ e => by cases e) fun _ => ?_) fun _ => ?_
        · exact Kn.bind searchLeaf_kn fun x N' _ h => ih h
        · exact Kn.bind (searchChild_kn hs'.tail) fun x N' _ h =>
            Kn.ite (fun _ => Kn.ret fun _ _ e => by cases e) fun _ => ih h
      | ub => trivial

theorem getHeadKC_kn {s : Stk} (hs : StkIn N s) :
    Kn (getHeadKC (V := V) cfg key f s) (fun x N' => StkIn N' x.1 ∧ ChIn N' x.2.1) N := by
  induction f generalizing s N with
  | zero => trivial
  | succ f ih =>
    cases s with
    | nil => trivial
    | cons p rest =>
      refine Kn.bind (loadValidHead_kn hs.head) fun c N' h1 h2 => Kn.ite (fun _ => trivial) fun _ => ?_
      have hs' : StkIn N' (p :: rest) := hs.mono h1
      cases hv : keyCheck key c with
      | ret b => exact Kn.ret ⟨hs', h2⟩
      | sibling q => exact ih (hs'.tail.cons (h2 q (keyCheck_ids hv)))
      | removed =>
        refine Kn.ite (fun _ => ?_) fun _ => ?_
        · exact Kn.bind searchLeaf_kn fun x N' _ h => ih h
        · exact Kn.bind (searchChild_kn hs'.tail) fun x N' _ h => ih h
      | ub => trivial

theorem getHeadForMerge_kn {sib : Option K} {s : Stk} (hs : StkIn N s) :
    Kn (getHeadForMerge (V := V) cfg key f sib s) (fun x N' => StkIn N' x.1 ∧ ChIn N' x.2.1) N := by
  induction f generalizing s N sib with
  | zero => trivial
  | succ f ih =>
    cases s with
    | nil => trivial
    | cons p rest =>
      refine Kn.bind (loadValidHead_kn hs.head) fun c N' h1 h2 => ?_
      have hs' : StkIn N' (p :: rest) := hs.mono h1
      cases hv : (mergeStep cfg key sib c).1 with
      | ok => exact Kn.ret ⟨hs', h2⟩
      | abort => exact Kn.ret ⟨hs', h2⟩
      | sibling q => exact ih (hs'.tail.cons (h2 q (mergeStep_ids hv)))
      | ub => trivial

/-! ## Structure modifications -/

theorem push_in {d : Delta K V} {c : Chain K V} {x : Int} (hd : ∀ q, d.pay.Ids q → In N q)
    (hc : ChIn N c) : ChIn N (Chain.push d c x) := fun q hq => hq.elim (hd q) (hc q)

/-- What is assumed of `TrySMOs` in the loops that call it. -/
def SmoKn (smo : Chain K V → Stk → Prog K V Unit) : Prop :=
  ∀ (N : PID → Prop) c s, ChIn N c → StkIn N s → Kn (smo c s) (fun _ _ => True) N

theorem tryRootSplit_kn {sep : K} {r l : PID} (hr : In N r) (hl : In N l) :
    Kn (tryRootSplit (V := V) cfg sep r l) (fun _ _ => True) N := by
  refine Kn.loadRoot fun x => Kn.ite (fun _ => Kn.ret trivial) fun _ np => ?_
  refine ⟨Or.inr (Or.inr rfl), fun q hq => ?_, Or.inr (Or.inr rfl), fun _ h => Or.inl h, trivial⟩
  rcases hq with e | ⟨x, hx, e⟩
  · exact Or.inl e
  · simp only [newRoot, List.mem_cons, List.not_mem_nil, or_false] at hx
    rcases hx with h | h <;> rw [h] at e <;> cases e
    · exact hl.mono fun _ => Or.inl
    · exact hr.mono fun _ => Or.inl

theorem splitLoop_kn {smo : Chain K V → Stk → Prog K V Unit} (hsmo : SmoKn smo) {sep : K}
    {high : Option K} {ri : Bool} {r l : PID} {s : Stk} (hr : In N r) (hl : In N l) (hs : StkIn N s) :
    Kn (splitLoop cfg smo sep high ri r l f s) (fun _ _ => True) N := by
  induction f generalizing s N with
  | zero => trivial
  | succ f ih =>
    cases s with
    | nil =>
      refine Kn.bind (tryRootSplit_kn hr hl) fun b N' h1 _ => Kn.ite (fun _ => Kn.ret trivial) fun _ => ?_
      refine Kn.bind (searchTarget_kn StkIn.nil) fun s N'' h2 h3 => ?_
      cases s with
      | nil => trivial
      | cons x s => exact ih ((hr.mono h1).mono h2) ((hl.mono h1).mono h2) h3.tail
    | cons x xs =>
      refine Kn.bind (getHead_kn hs) fun o N' h1 h2 => ?_
      match o with
      | none => exact ih (hr.mono h1) (hl.mono h1) StkIn.nil
      | some (c, []) => trivial
      | some (c, p :: rest) =>
        obtain ⟨h3, h4⟩ := h2 c (p :: rest) rfl
        have h5 : ChIn N' (Chain.push (entryDelta sep high r) c (cfg.entLen true sep)) :=
          push_in (fun q e => by rw [show q = r from e]; exact hr.mono h1) h3
        exact Kn.cas h4.head h5 fun b => Kn.ite
          (fun _ => Kn.ite (fun _ => hsmo _ _ _ h5 h4) fun _ => Kn.ret trivial)
          fun _ => ih (hr.mono h1) (hl.mono h1) h4

theorem split_kn {smo : Chain K V → Stk → Prog K V Unit} (hsmo : SmoKn smo) {sep : K}
    {l r : Node K V} {s : Stk} (hl : ∀ q, (∃ x ∈ l.recs, x.2 = .child q) → In N q)
    (hr : ∀ q, r.Ids q → In N q) (hs : StkIn N s) :
    Kn (split cfg smo f l r sep s) (fun _ _ => True) N := by
  cases s with
  | nil => trivial
  | cons p rest =>
    intro rp
    refine ⟨Or.inr (Or.inr rfl), hr, Or.inl (hs.head.mono fun _ => Or.inl), fun q hq => ?_, ?_⟩
    · rcases hq with e | h
      · exact Or.inr (Or.inr e)
      · exact (hl q h).mono fun _ => Or.inl
    · refine kp_mono (splitLoop_kn hsmo (Or.inr (Or.inl (Or.inr rfl))) (Or.inr (Or.inr rfl))
        (hs.tail.mono fun _ h => Or.inl (Or.inl h))) (fun _ _ x => ⟨fun q hq => x.1 q (Or.inl (Or.inl hq)), x.2⟩)
        fun _ h => h.elim

theorem deleteLoop_kn {smo : Chain K V → Stk → Prog K V Unit} (hsmo : SmoKn smo) {dk : K}
    {high : Option K} {w : Nat} {sib : Option K} {s : Stk} (hs : StkIn N s) :
    Kn (deleteLoop cfg smo dk high w f sib s) (fun _ _ => True) N := by
  induction f generalizing s N sib with
  | zero => trivial
  | succ f ih =>
    refine Kn.bind (getHeadForMerge_kn hs) fun x N' _ h2 => Kn.ite (fun _ => ?_) fun _ => Kn.ret trivial
    obtain ⟨stk, c, b, sb⟩ := x
    obtain ⟨h3, h4⟩ := h2
    simp only at h3 h4 ⊢
    cases stk with
    | nil => trivial
    | cons p rest =>
      have h5 : ChIn N' (Chain.push (deleteDelta dk high w) c (-(cfg.entLen true dk : Int))) :=
        push_in (fun q e => e.elim) h4
      exact Kn.cas h3.head h5 fun b => Kn.ite
        (fun _ => Kn.ite (fun _ => Kn.bind (hsmo _ _ _ h5 h3) fun _ _ _ _ => Kn.ret trivial)
          fun _ => Kn.ret trivial) fun _ => ih h3

theorem tryDeleteIndexEntry_kn {smo : Chain K V → Stk → Prog K V Unit} (hsmo : SmoKn smo)
    {n : Node K V} {s : Stk} (hs : StkIn N s) :
    Kn (tryDeleteIndexEntry cfg smo f n s) (fun _ _ => True) N := by
  refine Kn.ite (fun _ => Kn.ret trivial) fun _ => ?_
  cases n.low with
  | none => exact Kn.ret trivial
  | some dk => exact fun w => deleteLoop_kn hsmo hs

theorem tryRemoveRoot_kn {n : Node K V} {p : PID} {s : Stk} (hn : ∀ q, n.Ids q → In N q) :
    Kn (tryRemoveRoot n p s) (fun _ _ => True) N := by
  refine Kn.ite (fun _ => Kn.ret trivial) fun _ => ?_
  cases hc : (Chain.base n).leftmostChild with
  | none => trivial
  | some q =>
    have hq : In N q := hn q (leftmostChild_ids hc)
    exact Kn.load hq fun c => Kn.ite (fun _ => Kn.ret trivial) fun _ =>
      ⟨hq.mono fun _ => Or.inl, fun b => Kn.ret trivial⟩

theorem mergeLoop_kn {smo : Chain K V → Stk → Prog K V Unit} (hsmo : SmoKn smo) {n : Node K V}
    {dk : K} {w : Nat} {rem : PID} {b : Bool} {s : Stk} (hn : ∀ q, n.Ids q → In N q)
    (hs : StkIn N s) : Kn (mergeLoop cfg smo n dk w rem f b s) (fun _ _ => True) N := by
  induction f generalizing s N b with
  | zero => trivial
  | succ f ih =>
    cases b with
    | true =>
      cases s with
      | nil =>
        exact Kn.bind (searchTarget_kn StkIn.nil) fun s N' h1 h2 => ih (fun q h => (hn q h).mono h1) h2
      | cons x xs =>
        refine Kn.bind (searchChild_kn hs) fun y N' h1 h2 => Kn.ite (fun _ => ?_) fun _ => ?_
        · exact ih (fun q h => (hn q h).mono h1) StkIn.nil
        · exact ih (fun q h => (hn q h).mono h1) h2
    | false =>
      have key : Kn ((getHead cfg dk false rem f s).bind fun o =>
          match o with
          | none => mergeLoop cfg smo n dk w rem f true []
          | some (_, []) => .ub
          | some (c, p :: rest) =>
            let nc := Chain.push (mergeDelta n dk) c (cfg.nodeDiff n)
            .cas p c nc fun b =>
              if b then
                .storeCell w p (if nc.needConsolidation cfg then smo nc (p :: rest) else .ret ())
              else mergeLoop cfg smo n dk w rem f false (p :: rest)) (fun _ _ => True) N := by
        refine Kn.bind (getHead_kn hs) fun o N' h1 h2 => ?_
        have hn' : ∀ q, n.Ids q → In N' q := fun q h => (hn q h).mono h1
        match o with
        | none => exact ih hn' StkIn.nil
        | some (c, []) => trivial
        | some (c, p :: rest) =>
          obtain ⟨h3, h4⟩ := h2 c (p :: rest) rfl
          have h5 : ChIn N' (Chain.push (mergeDelta n dk) c (cfg.nodeDiff n)) :=
            push_in hn' h3
          exact Kn.cas h4.head h5 fun b => Kn.ite
            (fun _ => ⟨h4.head, Kn.ite (fun _ => hsmo _ _ _ h5 h4) fun _ => Kn.ret trivial⟩)
            fun _ => ih hn' h4
      cases s with
      | nil => exact key
      | cons x xs => exact key

theorem tryMerge_kn {smo : Chain K V → Stk → Prog K V Unit} (hsmo : SmoKn smo) {head : Chain K V}
    {n : Node K V} {s : Stk} (hn : ∀ q, n.Ids q → In N q) (hs : StkIn N s) :
    Kn (tryMerge cfg smo f head n s) (fun _ _ => True) N := by
  cases s with
  | nil => trivial
  | cons p rest =>
    refine Kn.cas hs.head (fun _ h => h.elim) fun b => Kn.ite (fun _ => ?_) fun _ => Kn.ret trivial
    refine Kn.bind (tryDeleteIndexEntry_kn hsmo hs.tail) fun o N' h1 _ => ?_
    have hn' : ∀ q, n.Ids q → In N' q := fun q h => (hn q h).mono h1
    cases o with
    | none =>
      refine Kn.bind (tryRemoveRoot_kn hn') fun b N'' h2 _ => Kn.ite (fun _ => Kn.ret trivial) fun _ => ?_
      exact ⟨Or.inl ((hs.head.mono h1).mono h2), fun q h => (hn' q h).mono h2, fun _ => Or.inl, trivial⟩
    | some w =>
      cases n.low with
      | none => trivial
      | some dk => exact mergeLoop_kn hsmo hn' (hs.tail.mono h1)

theorem trySMOs_kn : SmoKn (trySMOs (V := V) cfg f) := by
  induction f with
  | zero => intro _ _ _ _ _; trivial
  | succ f ih =>
    intro N c s hc hs
    cases s with
    | nil => trivial
    | cons p rest =>
      refine Kn.cas hs.head hc fun b => Kn.ite (fun _ => ?_) fun _ => Kn.ret trivial
      cases ht : tryConsolidate cfg false c with
      | none => trivial
      | some o =>
        have hi := tryConsolidate_ids ht hc
        cases o with
        | consolidate n => exact Kn.cas hs.head hi fun _ => Kn.ret trivial
        | split l r =>
          simp only
          cases r.low with
          | none => trivial
          | some sep => exact split_kn ih hi.1 hi.2 hs
        | merge n => exact tryMerge_kn ih hi hs

/-! ## Operations -/

theorem readLoop_kn {s : Stk} (hs : StkIn N s) :
    Kn (readLoop (V := V) key f s) (fun _ _ => True) N := by
  induction f generalizing s N with
  | zero => trivial
  | succ f ih =>
    cases s with
    | nil => trivial
    | cons p rest =>
      refine Kn.load hs.head fun c => Kn.ite (fun _ => trivial) fun _ => ?_
      have hs' : StkIn (ld N c) (p :: rest) := hs.mono fun _ => Or.inl
      cases hc : readChain key c with
      | ret o => exact Kn.ret trivial
      | sibling q => exact ih (hs'.tail.cons (Or.inr (Or.inr (readChain_ids hc))))
      | removed =>
        exact Kn.ite (fun _ => trivial) fun _ => Kn.bind (searchChild_kn hs'.tail) fun x N' _ h => ih h
      | ub => trivial

theorem writeDelta_ids {op : Spec.Op K V} {b : Bool} {d : Delta K V} {x : Int}
    (h : writeDelta cfg op b = .inr (d, x)) (q : PID) : ¬ d.pay.Ids q := by
  cases op <;> cases b <;> cases h <;> exact id

theorem writeLoop_kn {op : Spec.Op K V} {s : Stk} (hs : StkIn N s) :
    Kn (writeLoop cfg op key f s) (fun _ _ => True) N := by
  induction f generalizing s N with
  | zero => trivial
  | succ f ih =>
    refine Kn.bind (getHeadKC_kn hs) fun x N' _ h2 => ?_
    obtain ⟨stk, c, b⟩ := x
    obtain ⟨h3, h4⟩ := h2
    simp only at h3 h4 ⊢
    cases hw : writeDelta cfg op b with
    | inl r => exact Kn.ret trivial
    | inr y =>
      obtain ⟨d, x⟩ := y
      simp only
      cases stk with
      | nil => trivial
      | cons p rest =>
        have h5 : ChIn N' (Chain.push d c x) := push_in (fun q e => (writeDelta_ids hw q e).elim) h4
        exact Kn.cas h3.head h5 fun b => Kn.ite
          (fun _ => Kn.ite (fun _ => Kn.bind (trySMOs_kn _ _ _ h5 h3) fun _ _ _ _ => Kn.ret trivial)
            fun _ => Kn.ret trivial) fun _ => ih h3

theorem runOp_kn {op : Spec.Op K V} : Kn (runOp cfg f op) (fun _ _ => True) N := by
  refine Kn.bind searchLeaf_kn fun s N' _ hs => ?_
  cases op with
  | read k => exact Kn.bind (readLoop_kn hs) fun _ _ _ _ => Kn.ret trivial
  | write k v => exact writeLoop_kn hs
  | insert k v => exact writeLoop_kn hs
  | update k v => exact writeLoop_kn hs
  | delete k => exact writeLoop_kn hs

/-- The page of the next node visit is known. -/
def NextIn (N : PID → Prop) (x : List (K × V) × Option (K × PID)) : Prop :=
  ∀ k p, x.2 = some (k, p) → In N p

theorem scanOut_in {b e : Spec.Bound K} {c : Chain K V} {x : List (K × V) × Option (K × PID)}
    (hc : ChIn N c) (h : scanOut cfg b e c = some x) : NextIn N x := by
  intro k p e
  obtain ⟨l, o⟩ := x
  simp only at e
  subst e
  exact hc p (scanOut_ids h)

theorem scanFrom_kn {e : Spec.Bound K} {s : Stk} (hs : StkIn N s) :
    Kn (scanFrom (V := V) cfg key closed e f s) (fun x N' => NextIn N' x) N := by
  induction f generalizing s N with
  | zero => trivial
  | succ f ih =>
    refine Kn.bind (getHead_kn hs) fun o N' _ h2 => ?_
    match o with
    | none => trivial
    | some (c, s') =>
      obtain ⟨h3, h4⟩ := h2 c s' rfl
      refine Kn.ite (fun _ => ih h4) fun _ => Kn.ite (fun _ => trivial) fun _ => ?_
      cases hx : scanOut cfg (some (key, closed)) e c with
      | none => trivial
      | some x => exact Kn.ret (scanOut_in h3 hx)

theorem leftmostLoop_kn {p : PID} (hp : In N p) :
    Kn (leftmostLoop (K := K) (V := V) f p) (fun q N' => In N' q) N := by
  induction f generalizing p N with
  | zero => trivial
  | succ f ih =>
    refine Kn.load hp fun c => Kn.ite (fun _ => Kn.ret (hp.mono fun _ => Or.inl)) fun _ =>
      Kn.ite (fun _ => trivial) fun _ => ?_
    cases hc : c.leftmostChild with
    | none => trivial
    | some q => exact ih (Or.inr (Or.inr (leftmostChild_ids hc)))

theorem scanLeft_kn {e : Spec.Bound K} {p : PID} (hp : In N p) :
    Kn (scanLeft (V := V) cfg e f p) (fun x N' => NextIn N' x) N := by
  induction f generalizing N with
  | zero => trivial
  | succ f ih =>
    refine Kn.load hp fun c => Kn.ite (fun _ => ih (hp.mono fun _ => Or.inl)) fun _ => ?_
    cases hx : scanOut cfg none e c with
    | none => trivial
    | some x => exact Kn.ret (scanOut_in ld_chain hx)

theorem scanFirst_kn {b e : Spec.Bound K} :
    Kn (scanFirst (V := V) cfg f b e) (fun x N' => NextIn N' x) N := by
  match b with
  | some (k, cl) => exact Kn.bind searchLeaf_kn fun s N' _ hs => scanFrom_kn hs
  | none =>
    exact Kn.bind (Kn.loadRoot fun r => leftmostLoop_kn (Or.inr (Or.inr rfl)))
      fun p N' _ hp => scanLeft_kn hp

/-- The page of the iterator a call returns. -/
def OutIn (N : PID → Prop) (x : Out K V) : Prop := ∀ p k e, x.2 = some (p, k, e) → In N p

theorem visitOut_in {e : Spec.Bound K} {x : List (K × V) × Option (K × PID)} (h : NextIn N x) :
    OutIn N (visitOut e x) := by
  intro p k e' hx
  simp only [visitOut, Option.map_eq_some_iff] at hx
  obtain ⟨⟨k', p'⟩, e1, e2⟩ := hx
  cases e2
  exact h k' p' e1

theorem op_kn {op : Spec.Op K V} :
    Kn ((runOp cfg f op).bind fun r => .ret ((.res r, none) : Out K V)) (fun x N' => OutIn N' x) N :=
  Kn.bind runOp_kn fun _ _ _ _ => Kn.ret fun _ _ _ h => by cases h

theorem scan_kn {b e : Spec.Bound K} :
    Kn ((scanFirst (V := V) cfg f b e).bind fun x => .ret (visitOut e x)) (fun x N' => OutIn N' x) N :=
  Kn.bind scanFirst_kn fun _ _ _ h => Kn.ret (visitOut_in h)

theorem next_kn {p : PID} {k : K} {e : Spec.Bound K} (hp : In N p) :
    Kn ((scanNext (V := V) cfg f p k e).bind fun x => .ret (visitOut e x)) (fun x N' => OutIn N' x) N :=
  Kn.bind (scanFrom_kn (StkIn.nil.cons hp)) fun _ _ _ h => Kn.ret (visitOut_in h)

end BwTree.Weak
