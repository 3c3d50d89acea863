import Verif.Keys.Model

/-!
# Keys that no search overwrites (helper lemmas)
-/

namespace BwTree.Keys
open BwTree Prog

set_option linter.unusedSectionVars false

variable {K V : Type} [LinearOrder K]

/-- The key lies outside the buffers that searches and scans write to. -/
def Ref.Stable : Ref K → Prop
  | .own _ => True
  | .buf x => x = .nodeLow ∨ x = .nodeHigh

/-- The buffers of `Node::GetLowKey` and `Node::GetHighKey` are the same. -/
def Keep (b b' : Bufs K) : Prop := b' .nodeLow = b .nodeLow ∧ b' .nodeHigh = b .nodeHigh

theorem Keep.refl (b : Bufs K) : Keep b b := ⟨rfl, rfl⟩

theorem Keep.trans {b b' b'' : Bufs K} (h : Keep b b') (h' : Keep b' b'') : Keep b b'' :=
  ⟨h'.1.trans h.1, h'.2.trans h.2⟩

theorem Keep.get {b b' : Bufs K} (h : Keep b b') {r : Ref K} (hr : r.Stable) : r.get b' = r.get b := by
  cases r with
  | own k => rfl
  | buf x => rcases hr with rfl | rfl; exacts [h.1, h.2]

theorem keep_nodeKey (b : Bufs K) (k : K) : Keep b (b.set .nodeKey k) := ⟨rfl, rfl⟩
theorem keep_deltaKey (b : Bufs K) (k : K) : Keep b (b.set .deltaKey k) := ⟨rfl, rfl⟩
theorem keep_deltaHigh (b : Bufs K) (k : K) : Keep b (b.set .deltaHigh k) := ⟨rfl, rfl⟩

theorem sameKeyR_stable {r : Ref K} (hr : r.Stable) (a : K) (b : Bufs K) :
    (sameKeyR r a b).1 = sameKey a (r.get b) ∧ Keep b (sameKeyR r a b).2 :=
  ⟨by simp only [sameKeyR, (keep_deltaKey b a).get hr], keep_deltaKey b a⟩

theorem lowKeyIsLER_stable {r : Ref K} (hr : r.Stable) (a : K) (closed : Bool) (b : Bufs K) :
    (lowKeyIsLER r a closed b).1 = lowKeyIsLE a (r.get b) closed ∧
      Keep b (lowKeyIsLER r a closed b).2 :=
  ⟨by simp only [lowKeyIsLER, (keep_deltaKey b a).get hr], keep_deltaKey b a⟩

theorem highKeyIsGER_stable {r : Ref K} (hr : r.Stable) (h : Option K) (closed : Bool) (b : Bufs K) :
    (highKeyIsGER r h closed b).1 = highKeyIsGE h (r.get b) closed ∧
      Keep b (highKeyIsGER r h closed b).2 := by
  cases h with
  | none => exact ⟨rfl, .refl _⟩
  | some h => exact ⟨by simp only [highKeyIsGER, (keep_deltaHigh b h).get hr], keep_deltaHigh b h⟩

/-- A search with a state answers like one without, and keeps the two buffers. -/
def Opt {α : Type} (b : Bufs K) (o : Option α) (o' : Option (α × Bufs K)) : Prop :=
  match o, o' with
  | none, none => True
  | some x, some y => y.1 = x ∧ Keep b y.2
  | _, _ => False

theorem Opt.weaken {α : Type} {b b' : Bufs K} (h : Keep b b') {o : Option α}
    {o' : Option (α × Bufs K)} (ho : Opt b' o o') : Opt b o o' := by
  cases o <;> cases o'
  · trivial
  · exact ho
  · exact ho
  · exact ⟨ho.1, h.trans ho.2⟩

theorem bsLoopR_stable {α : Type} (recs : List (K × α)) {r : Ref K} (hr : r.Stable) :
    ∀ (f s e : Nat) (b : Bufs K), Opt b (bsLoop recs (r.get b) f s e) (bsLoopR recs r f s e b) := by
  intro f
  induction f with
  | zero =>
    intro s e b
    simp only [bsLoop, bsLoopR]
    split
    · trivial
    · exact ⟨rfl, .refl _⟩
  | succ f ih =>
    intro s e b
    simp only [bsLoop, bsLoopR]
    split
    · split
      · rename_i h
        simp only [h]; trivial
      · rename_i ik v h
        have hk := keep_nodeKey b ik
        simp only [h, hk.get hr]
        split
        · have := ih s ((s + e - 1) / 2) (b.set .nodeKey ik)
          rw [hk.get hr] at this
          exact this.weaken hk
        · split
          · have := ih ((s + e - 1) / 2 + 1) e (b.set .nodeKey ik)
            rw [hk.get hr] at this
            exact this.weaken hk
          · exact ⟨rfl, hk⟩
    · exact ⟨rfl, .refl _⟩

theorem searchRecordR_stable (n : Node K V) {r : Ref K} (hr : r.Stable) (b : Bufs K) :
    Opt b (n.searchRecord (r.get b)) (searchRecordR n r b) := bsLoopR_stable _ hr _ _ _ _

theorem searchChildNR_stable (n : Node K V) {r : Ref K} (hr : r.Stable) (closed : Bool) (b : Bufs K) :
    Opt b (n.searchChild (r.get b) closed) (searchChildNR n r closed b) := by
  have h := bsLoopR_stable n.recs hr n.recs.length 1 n.recs.length b
  simp only [Node.searchChild, searchChildNR]
  generalize bsLoop n.recs (r.get b) n.recs.length 1 n.recs.length = o at h ⊢
  generalize bsLoopR n.recs r n.recs.length 1 n.recs.length b = o' at h ⊢
  cases o with
  | none =>
    cases o' with
    | none => trivial
    | some y => exact h.elim
  | some x =>
    cases o' with
    | none => exact h.elim
    | some y =>
      obtain ⟨⟨f, p⟩, b'⟩ := y
      obtain ⟨rfl, h2⟩ := h
      dsimp only
      split
      · rename_i q hq
        simp only [hq]
        exact ⟨rfl, h2⟩
      · rename_i hq
        split
        · rename_i q hq'; exact (hq _ _ hq').elim
        · trivial

theorem dcSearchRecordR_stable {r : Ref K} (hr : r.Stable) (c : Chain K V) :
    ∀ (smo : Bool) (b : Bufs K),
      (dcSearchRecordR r smo c b).1 = dcSearchRecord (r.get b) smo c ∧
        Keep b (dcSearchRecordR r smo c b).2 := by
  induction c with
  | base n =>
    intro smo b
    obtain ⟨h1, h2⟩ := highKeyIsGER_stable hr n.high false b
    simp only [dcSearchRecordR, dcSearchRecord, h1]
    cases smo with
    | true => exact ⟨rfl, .refl _⟩
    | false =>
      cases highKeyIsGE n.high (r.get b) false
      · exact ⟨rfl, h2⟩
      · exact ⟨rfl, h2⟩
  | removed x => intro smo b; exact ⟨rfl, .refl _⟩
  | delta d nx ih =>
    intro smo b
    obtain ⟨h1, h2⟩ := sameKeyR_stable hr d.key b
    obtain ⟨h3, h4⟩ := lowKeyIsLER_stable hr d.key true b
    obtain ⟨h5, h6⟩ := highKeyIsGER_stable hr d.high false (lowKeyIsLER r d.key true b).2
    rw [h4.get hr] at h5
    have i1 := fun s => ih s (sameKeyR r d.key b).2
    have i2 := fun s => ih s (lowKeyIsLER r d.key true b).2
    simp only [h2.get hr] at i1
    simp only [h4.get hr] at i2
    simp only [dcSearchRecordR, dcSearchRecord, h1, h3]
    cases d.ty with
    | insert =>
      simp only
      split
      · exact ⟨rfl, h2⟩
      · exact ⟨(i1 smo).1, h2.trans (i1 smo).2⟩
    | modify =>
      simp only
      split
      · exact ⟨rfl, h2⟩
      · exact ⟨(i1 smo).1, h2.trans (i1 smo).2⟩
    | delete =>
      simp only
      split
      · exact ⟨rfl, h2⟩
      · exact ⟨(i1 smo).1, h2.trans (i1 smo).2⟩
    | merge =>
      simp only
      split
      · cases d.pay with
        | node n =>
          simp only [h5]
          cases smo with
          | true => exact ⟨rfl, h4⟩
          | false =>
            cases highKeyIsGE d.high (r.get b) false
            · exact ⟨rfl, h4.trans h6⟩
            · exact ⟨rfl, h4.trans h6⟩
        | _ => exact ⟨rfl, .refl _⟩
      · exact ⟨(i2 true).1, h4.trans (i2 true).2⟩

theorem inEntryR_stable {r : Ref K} (hr : r.Stable) (low : K) (high : Option K) (closed : Bool)
    (b : Bufs K) :
    (inEntryR r low high closed b).1 =
        (lowKeyIsLE low (r.get b) closed && highKeyIsGE high (r.get b) (!closed)) ∧
      Keep b (inEntryR r low high closed b).2 := by
  obtain ⟨h3, h4⟩ := lowKeyIsLER_stable hr low closed b
  obtain ⟨h5, h6⟩ := highKeyIsGER_stable hr high (!closed) (lowKeyIsLER r low closed b).2
  rw [h4.get hr] at h5
  simp only [inEntryR, h3]
  cases lowKeyIsLE low (r.get b) closed
  · exact ⟨rfl, h4⟩
  · exact ⟨by simpa using h5, h4.trans h6⟩

theorem dcSearchChildR_stable {r : Ref K} (hr : r.Stable) (closed : Bool) (c : Chain K V) :
    ∀ (smo : Bool) (b : Bufs K),
      (dcSearchChildR r closed smo c b).1 = dcSearchChild (r.get b) closed smo c ∧
        Keep b (dcSearchChildR r closed smo c b).2 := by
  induction c with
  | base n =>
    intro smo b
    obtain ⟨h1, h2⟩ := highKeyIsGER_stable hr n.high (!closed) b
    simp only [dcSearchChildR, dcSearchChild, h1]
    cases smo with
    | true => exact ⟨rfl, .refl _⟩
    | false =>
      cases highKeyIsGE n.high (r.get b) (!closed)
      · exact ⟨rfl, h2⟩
      · exact ⟨rfl, h2⟩
  | removed x => intro smo b; exact ⟨rfl, .refl _⟩
  | delta d nx ih =>
    intro smo b
    obtain ⟨h1, h2⟩ := inEntryR_stable hr d.key d.high closed b
    obtain ⟨h3, h4⟩ := lowKeyIsLER_stable hr d.key closed b
    obtain ⟨h5, h6⟩ := highKeyIsGER_stable hr d.high (!closed) (lowKeyIsLER r d.key closed b).2
    rw [h4.get hr] at h5
    have i1 := fun s => ih s (inEntryR r d.key d.high closed b).2
    have i2 := fun s => ih s (lowKeyIsLER r d.key closed b).2
    simp only [h2.get hr] at i1
    simp only [h4.get hr] at i2
    simp only [dcSearchChildR, dcSearchChild, h1, h3]
    cases d.ty with
    | insert =>
      simp only
      split
      · cases d.pay <;> first | exact ⟨rfl, h2⟩ | exact ⟨rfl, .refl _⟩
      · exact ⟨(i1 smo).1, h2.trans (i1 smo).2⟩
    | modify => exact ⟨rfl, .refl _⟩
    | delete =>
      simp only
      split
      · cases d.pay <;> first | exact ⟨rfl, h2⟩ | exact ⟨rfl, .refl _⟩
      · exact ⟨(i1 smo).1, h2.trans (i1 smo).2⟩
    | merge =>
      simp only
      split
      · cases d.pay with
        | node n =>
          simp only [h5]
          cases smo with
          | true => exact ⟨rfl, h4⟩
          | false =>
            cases highKeyIsGE d.high (r.get b) (!closed)
            · exact ⟨rfl, h4.trans h6⟩
            · exact ⟨rfl, h4.trans h6⟩
        | _ => exact ⟨rfl, .refl _⟩
      · exact ⟨(i2 true).1, h4.trans (i2 true).2⟩

theorem dcValidateR_stable {r : Ref K} (hr : r.Stable) (closed : Bool) (c : Chain K V) (b : Bufs K) :
    (dcValidateR r closed c b).1 = dcValidate (r.get b) closed c ∧
      Keep b (dcValidateR r closed c b).2 := by
  induction c with
  | base n =>
    obtain ⟨h1, h2⟩ := highKeyIsGER_stable hr n.high (!closed) b
    simp only [dcValidateR, dcValidate, h1]
    cases highKeyIsGE n.high (r.get b) (!closed)
    · exact ⟨rfl, h2⟩
    · exact ⟨rfl, h2⟩
  | removed x => exact ⟨rfl, .refl _⟩
  | delta d nx ih =>
    obtain ⟨h1, h2⟩ := highKeyIsGER_stable hr d.high (!closed) b
    simp only [dcValidateR, dcValidate, h1]
    cases d.ty with
    | merge =>
      simp only
      cases highKeyIsGE d.high (r.get b) (!closed)
      · cases d.pay <;> first | exact ⟨rfl, h2⟩ | exact ⟨rfl, .refl _⟩
      · exact ⟨rfl, h2⟩
    | _ => exact ih

/-! ## One loaded head -/

theorem readChainR_stable {r : Ref K} (hr : r.Stable) (c : Chain K V) (b : Bufs K) :
    (readChainR r c b).1 = readChain (r.get b) c ∧ Keep b (readChainR r c b).2 := by
  obtain ⟨h1, h2⟩ := dcSearchRecordR_stable hr c false b
  simp only [readChainR, readChain, ← h1]
  generalize dcSearchRecordR r false c b = x at h1 h2 ⊢
  obtain ⟨x, b'⟩ := x
  cases x with
  | found p => cases p <;> exact ⟨rfl, h2⟩
  | base n =>
    have h := searchRecordR_stable n hr b'
    rw [h2.get hr] at h
    dsimp only
    generalize n.searchRecord (r.get b) = o at h ⊢
    generalize searchRecordR n r b' = o' at h ⊢
    cases o <;> cases o'
    · exact ⟨rfl, h2⟩
    · exact h.elim
    · exact h.elim
    · rename_i x y
      obtain ⟨⟨f, p⟩, b''⟩ := y
      obtain ⟨rfl, h3⟩ := h
      cases f <;> exact ⟨rfl, h2.trans h3⟩
  | _ => exact ⟨rfl, h2⟩

theorem keyCheckR_stable {r : Ref K} (hr : r.Stable) (c : Chain K V) (b : Bufs K) :
    (keyCheckR r c b).1 = keyCheck (r.get b) c ∧ Keep b (keyCheckR r c b).2 := by
  obtain ⟨h1, h2⟩ := dcSearchRecordR_stable hr c false b
  simp only [keyCheckR, keyCheck, ← h1]
  generalize dcSearchRecordR r false c b = x at h1 h2 ⊢
  obtain ⟨x, b'⟩ := x
  cases x with
  | base n =>
    have h := searchRecordR_stable n hr b'
    rw [h2.get hr] at h
    dsimp only
    generalize n.searchRecord (r.get b) = o at h ⊢
    generalize searchRecordR n r b' = o' at h ⊢
    cases o <;> cases o'
    · exact ⟨rfl, h2⟩
    · exact h.elim
    · exact h.elim
    · rename_i x y
      obtain ⟨⟨f, p⟩, b''⟩ := y
      obtain ⟨rfl, h3⟩ := h
      exact ⟨rfl, h2.trans h3⟩
  | _ => exact ⟨rfl, h2⟩

theorem childStepR_stable {r : Ref K} (hr : r.Stable) (closed : Bool) (c : Chain K V) (b : Bufs K) :
    (childStepR r closed c b).1 = childStep (r.get b) closed c ∧
      Keep b (childStepR r closed c b).2 := by
  obtain ⟨h1, h2⟩ := dcSearchChildR_stable hr closed c false b
  simp only [childStepR, childStep, ← h1]
  generalize dcSearchChildR r closed false c b = x at h1 h2 ⊢
  obtain ⟨x, b'⟩ := x
  cases x with
  | base n =>
    have h := searchChildNR_stable n hr closed b'
    rw [h2.get hr] at h
    dsimp only
    generalize n.searchChild (r.get b) closed = o at h ⊢
    generalize searchChildNR n r closed b' = o' at h ⊢
    cases o <;> cases o'
    · exact ⟨rfl, h2⟩
    · exact h.elim
    · exact h.elim
    · rename_i x y
      obtain ⟨p, b''⟩ := y
      obtain ⟨rfl, h3⟩ := h
      exact ⟨rfl, h2.trans h3⟩
  | _ => exact ⟨rfl, h2⟩

/-! ## Programs that make the same accesses -/

/-- The same accesses to shared memory, with related results. -/
inductive Sim {α β : Type} (P : α → β → Prop) : Prog K V α → Prog K V β → Prop
  | ret {a : α} {b : β} : P a b → Sim P (.ret a) (.ret b)
  | ub : Sim P .ub .ub
  | stuck : Sim P .stuck .stuck
  | flag (k : Flag) : Sim P (.flag k) (.flag k)
  | loadRoot {k k'} : (∀ x, Sim P (k x) (k' x)) → Sim P (.loadRoot k) (.loadRoot k')
  | storeRoot {p k k'} : Sim P k k' → Sim P (.storeRoot p k) (.storeRoot p k')
  | casRoot {o n k k'} : (∀ x, Sim P (k x) (k' x)) → Sim P (.casRoot o n k) (.casRoot o n k')
  | load {p k k'} : (∀ x, Sim P (k x) (k' x)) → Sim P (.load p k) (.load p k')
  | store {p c k k'} : Sim P k k' → Sim P (.store p c k) (.store p c k')
  | cas {p o n k k'} : (∀ x, Sim P (k x) (k' x)) → Sim P (.cas p o n k) (.cas p o n k')
  | newPid {k k'} : (∀ x, Sim P (k x) (k' x)) → Sim P (.newPid k) (.newPid k')
  | newCell {k k'} : (∀ x, Sim P (k x) (k' x)) → Sim P (.newCell k) (.newCell k')
  | loadCell {w k k'} : (∀ x, Sim P (k x) (k' x)) → Sim P (.loadCell w k) (.loadCell w k')
  | storeCell {w p k k'} : Sim P k k' → Sim P (.storeCell w p k) (.storeCell w p k')

theorem Sim.eq {α : Type} {p q : Prog K V α} (h : Sim (· = ·) p q) : p = q := by
  induction h with
  | ret h => rw [h]
  | ub => rfl
  | stuck => rfl
  | flag k => rfl
  | loadRoot _ ih => congr 1; funext x; exact ih x
  | storeRoot _ ih => rw [ih]
  | casRoot _ ih => congr 1; funext x; exact ih x
  | load _ ih => congr 1; funext x; exact ih x
  | store _ ih => rw [ih]
  | cas _ ih => congr 1; funext x; exact ih x
  | newPid _ ih => congr 1; funext x; exact ih x
  | newCell _ ih => congr 1; funext x; exact ih x
  | loadCell _ ih => congr 1; funext x; exact ih x
  | storeCell _ ih => rw [ih]

theorem Sim.rfl {α : Type} (p : Prog K V α) : Sim (· = ·) p p := by
  induction p with
  | ret a => exact .ret (Eq.refl _)
  | ub => exact .ub
  | stuck => exact .stuck
  | flag k => exact .flag k
  | loadRoot k ih => exact .loadRoot ih
  | storeRoot p k ih => exact .storeRoot ih
  | casRoot o n k ih => exact .casRoot ih
  | load p k ih => exact .load ih
  | store p c k ih => exact .store ih
  | cas p o n k ih => exact .cas ih
  | newPid k ih => exact .newPid ih
  | newCell k ih => exact .newCell ih
  | loadCell w k ih => exact .loadCell ih
  | storeCell w p k ih => exact .storeCell ih

theorem Sim.bind {α β γ δ : Type} {P : α → β → Prop} {Q : γ → δ → Prop} {p : Prog K V α}
    {q : Prog K V β} {g : α → Prog K V γ} {g' : β → Prog K V δ} (h : Sim P p q)
    (hg : ∀ a b, P a b → Sim Q (g a) (g' b)) : Sim Q (p.bind g) (q.bind g') := by
  induction h with
  | ret h => exact hg _ _ h
  | ub => exact .ub
  | stuck => exact .stuck
  | flag k => exact .flag k
  | loadRoot _ ih => exact .loadRoot ih
  | storeRoot _ ih => exact .storeRoot ih
  | casRoot _ ih => exact .casRoot ih
  | load _ ih => exact .load ih
  | store _ ih => exact .store ih
  | cas _ ih => exact .cas ih
  | newPid _ ih => exact .newPid ih
  | newCell _ ih => exact .newCell ih
  | loadCell _ ih => exact .loadCell ih
  | storeCell _ ih => exact .storeCell ih

/-- Bind after the same program. -/
theorem Sim.bindSame {α γ δ : Type} {Q : γ → δ → Prop} {p : Prog K V α}
    {g : α → Prog K V γ} {g' : α → Prog K V δ}
    (hg : ∀ a, Sim Q (g a) (g' a)) : Sim Q (p.bind g) (p.bind g') :=
  (Sim.rfl p).bind (by rintro a _ rfl; exact hg a)

theorem Sim.imp {α β : Type} {P Q : α → β → Prop} {p : Prog K V α} {q : Prog K V β} (h : Sim P p q)
    (hPQ : ∀ a b, P a b → Q a b) : Sim Q p q := by
  induction h with
  | ret h => exact .ret (hPQ _ _ h)
  | ub => exact .ub
  | stuck => exact .stuck
  | flag k => exact .flag k
  | loadRoot _ ih => exact .loadRoot ih
  | storeRoot _ ih => exact .storeRoot ih
  | casRoot _ ih => exact .casRoot ih
  | load _ ih => exact .load ih
  | store _ ih => exact .store ih
  | cas _ ih => exact .cas ih
  | newPid _ ih => exact .newPid ih
  | newCell _ ih => exact .newCell ih
  | loadCell _ ih => exact .loadCell ih
  | storeCell _ ih => exact .storeCell ih

/-- The same result, and the two buffers are kept. -/
def Res {α : Type} (b : Bufs K) (a : α) (x : α × Bufs K) : Prop := x.1 = a ∧ Keep b x.2

theorem Sim.weaken {α : Type} {b b' : Bufs K} (h : Keep b b') {p : Prog K V α}
    {q : Prog K V (α × Bufs K)} (hs : Sim (Res b') p q) : Sim (Res b) p q :=
  hs.imp fun _ _ hx => ⟨hx.1, h.trans hx.2⟩

theorem searchChildR_stable {r : Ref K} (hr : r.Stable) (closed : Bool) (tgt : PID) :
    ∀ (f : Nat) (stk : Stk) (b : Bufs K),
      Sim (V := V) (Res b) (searchChild (r.get b) closed tgt f stk) (searchChildR r closed tgt f stk b) := by
  intro f
  induction f with
  | zero => intro stk b; exact .stuck
  | succ f ih =>
    intro stk b
    cases stk with
    | nil => exact .ub
    | cons p rest =>
      refine .load fun c => ?_
      obtain ⟨h1, h2⟩ := childStepR_stable hr closed c b
      simp only [← h1]
      generalize childStepR r closed c b = x at h1 h2 ⊢
      obtain ⟨x, b'⟩ := x
      have hg := h2.get hr
      dsimp only at hg h2 ⊢
      split
      · exact .flag _
      · cases x with
        | child q => exact .ret ⟨rfl, h2⟩
        | cell w => exact .bindSame fun q => .ret ⟨rfl, h2⟩
        | sibling q =>
          dsimp only
          split
          · exact .ret ⟨rfl, h2⟩
          · rw [← hg]; exact (ih _ b').weaken h2
        | removed =>
          dsimp only
          split
          · split
            · exact .ret ⟨rfl, h2⟩
            · refine .loadRoot fun x => ?_
              rw [← hg]; exact (ih _ b').weaken h2
          · rw [← hg]
            refine (ih rest b').bind ?_
            rintro ⟨a1, a2⟩ ⟨_, b''⟩ ⟨rfl, h3⟩
            dsimp only at h3 ⊢
            split
            · exact .ret ⟨rfl, h2.trans h3⟩
            · split
              · exact .ret ⟨rfl, h2.trans h3⟩
              · rw [← h3.get hr]; exact (ih _ b'').weaken (h2.trans h3)
        | ub => exact .ub

theorem searchLeafLoopR_stable {r : Ref K} (hr : r.Stable) (closed : Bool) :
    ∀ (f : Nat) (stk : Stk) (b : Bufs K),
      Sim (V := V) (Res b) (searchLeafLoop (r.get b) closed f stk) (searchLeafLoopR r closed f stk b) := by
  intro f
  induction f with
  | zero => intro stk b; exact .stuck
  | succ f ih =>
    intro stk b
    cases stk with
    | nil => exact .ub
    | cons p rest =>
      refine .load fun c => ?_
      split
      · exact .ret ⟨rfl, .refl _⟩
      · refine (searchChildR_stable hr closed 0 f _ b).bind ?_
        rintro a ⟨_, b'⟩ ⟨rfl, h⟩
        rw [← h.get hr]; exact (ih _ b').weaken h

theorem searchLeafR_stable {r : Ref K} (hr : r.Stable) (closed : Bool) (f : Nat) (b : Bufs K) :
    Sim (V := V) (Res b) (searchLeaf (r.get b) closed f) (searchLeafR r closed f b) :=
  .loadRoot fun _ => searchLeafLoopR_stable hr closed f _ b

theorem searchTargetR_stable {r : Ref K} (hr : r.Stable) (tInner : Bool) (tgt : PID) :
    ∀ (f : Nat) (stk : Stk) (b : Bufs K),
      Sim (V := V) (Res b) (searchTarget (r.get b) tInner tgt f stk)
        (searchTargetR r tInner tgt f stk b) := by
  intro f
  induction f with
  | zero => intro stk b; exact .stuck
  | succ f ih =>
    intro stk b
    cases stk with
    | nil => exact .loadRoot fun x => ih _ b
    | cons p rest =>
      refine .load fun c => ?_
      split
      · split
        · exact .flag _
        · exact .ret ⟨rfl, .refl _⟩
      · refine (searchChildR_stable hr true tgt f _ b).bind ?_
        rintro a ⟨_, b'⟩ ⟨rfl, h⟩
        dsimp only at h ⊢
        split
        · exact .ret ⟨rfl, h⟩
        · rw [← h.get hr]; exact (ih _ b').weaken h

theorem getHeadR_stable (cfg : Cfg K) {r : Ref K} (hr : r.Stable) (closed : Bool) (tgt : PID) :
    ∀ (f : Nat) (stk : Stk) (b : Bufs K),
      Sim (V := V) (Res b) (getHead cfg (r.get b) closed tgt f stk)
        (getHeadR cfg r closed tgt f stk b) := by
  intro f
  induction f with
  | zero => intro stk b; exact .stuck
  | succ f ih =>
    intro stk b
    cases stk with
    | nil => exact .ub
    | cons p rest =>
      refine .bindSame fun c => ?_
      obtain ⟨h1, h2⟩ := dcValidateR_stable hr closed c b
      simp only [← h1]
      generalize dcValidateR r closed c b = x at h1 h2 ⊢
      obtain ⟨x, b'⟩ := x
      have hg := h2.get hr
      dsimp only at hg h2 ⊢
      cases x with
      | ok => exact .ret ⟨rfl, h2⟩
      | sibling q =>
        dsimp only
        split
        · exact .ret ⟨rfl, h2⟩
        · rw [← hg]; exact (ih _ b').weaken h2
      | removed =>
        dsimp only
        split
        · split
          · exact .ret ⟨rfl, h2⟩
          · rw [← hg]
            refine (searchLeafR_stable hr closed f b').bind ?_
            rintro a ⟨_, b''⟩ ⟨rfl, h3⟩
            rw [← h3.get hr]; exact (ih _ b'').weaken (h2.trans h3)
        · rw [← hg]
          refine (searchChildR_stable hr closed tgt f rest b').bind ?_
          rintro ⟨a1, a2⟩ ⟨_, b''⟩ ⟨rfl, h3⟩
          dsimp only at h3 ⊢
          split
          · exact .ret ⟨rfl, h2.trans h3⟩
          · rw [← h3.get hr]; exact (ih _ b'').weaken (h2.trans h3)
      | ub => exact .ub

theorem getHeadKCR_stable (cfg : Cfg K) {r : Ref K} (hr : r.Stable) :
    ∀ (f : Nat) (stk : Stk) (b : Bufs K),
      Sim (V := V) (Res b) (getHeadKC cfg (r.get b) f stk) (getHeadKCR cfg r f stk b) := by
  intro f
  induction f with
  | zero => intro stk b; exact .stuck
  | succ f ih =>
    intro stk b
    cases stk with
    | nil => exact .ub
    | cons p rest =>
      refine .bindSame fun c => ?_
      obtain ⟨h1, h2⟩ := keyCheckR_stable hr c b
      simp only [← h1]
      generalize keyCheckR r c b = x at h1 h2 ⊢
      obtain ⟨x, b'⟩ := x
      have hg := h2.get hr
      dsimp only at hg h2 ⊢
      split
      · exact .flag _
      · cases x with
        | ret o => exact .ret ⟨rfl, h2⟩
        | sibling q => rw [← hg]; exact (ih _ b').weaken h2
        | removed =>
          dsimp only
          split
          · rw [← hg]
            refine (searchLeafR_stable hr true f b').bind ?_
            rintro a ⟨_, b''⟩ ⟨rfl, h3⟩
            rw [← h3.get hr]; exact (ih _ b'').weaken (h2.trans h3)
          · rw [← hg]
            refine (searchChildR_stable hr true 0 f rest b').bind ?_
            rintro ⟨a1, a2⟩ ⟨_, b''⟩ ⟨rfl, h3⟩
            rw [← h3.get hr]; exact (ih _ b'').weaken (h2.trans h3)
        | ub => exact .ub

/-! ## The merge check -/

/-- What the buffer of `DeltaRecord::GetHighKey` holds, as `Tree/KeyBuffer.lean` tracks it. -/
def Sib (has : Bool) (buf : Option K) (b : Bufs K) : Prop := has = true → buf = some (b .deltaHigh)

theorem Sib.high {has : Bool} {buf : Option K} {b : Bufs K} (h : Sib has buf b) (x : Option K)
    {r : Ref K} {closed : Bool} : Sib has (loadHigh x buf) (highKeyIsGER r x closed b).2 := by
  cases x with
  | none => exact h
  | some x => intro _; rfl

theorem dcSearchForMergeR_own (key : K) (has : Bool) (c : Chain K V) :
    ∀ (smo kf sf : Bool) (buf : Option K) (b : Bufs K), Sib has buf b → (has = false → sf = true) →
      (dcSearchForMergeR (.own key) (.buf .deltaHigh) smo kf sf c b).1 =
          (dcSearchForMergeB key buf smo kf sf c).1 ∧
        Sib has (dcSearchForMergeB key buf smo kf sf c).2
          (dcSearchForMergeR (.own key) (.buf .deltaHigh) smo kf sf c b).2 ∧
        (∀ n kf' sf', (dcSearchForMergeB key buf smo kf sf c).1 = .base n kf' sf' →
          has = false → sf' = true) := by
  induction c with
  | base n =>
    intro smo kf sf buf b hb hs
    simp only [dcSearchForMergeR, dcSearchForMergeB]
    cases kf with
    | true =>
      refine ⟨by simp, by simpa using hb, ?_⟩
      simp only [Bool.not_true, Bool.false_and, Bool.false_eq_true, if_false]
      rintro _ _ _ h; cases h; exact hs
    | false =>
      simp only [Bool.false_eq_true, if_false, Bool.not_false, Bool.true_and]
      have key2 : ∀ b' : Bufs K, Sib has buf b' →
          ((if smo = true then (MRes.base n false sf, b')
            else if (highKeyIsGER (.own key) n.high false b').1 = true then
              (MRes.base n false sf, (highKeyIsGER (.own key) n.high false b').2)
            else (MRes.sibling n.next, (highKeyIsGER (.own key) n.high false b').2)).1 =
          (if (!smo) = true then
            if (!highKeyIsGE n.high key false) = true then
              (MRes.sibling n.next, loadHigh n.high buf)
            else (MRes.base n false sf, loadHigh n.high buf)
          else (MRes.base n false sf, buf)).1 ∧
          Sib has (if (!smo) = true then
            if (!highKeyIsGE n.high key false) = true then
              ((MRes.sibling n.next : MRes K V), loadHigh n.high buf)
            else (MRes.base n false sf, loadHigh n.high buf)
          else (MRes.base n false sf, buf)).2
          (if smo = true then ((MRes.base n false sf : MRes K V), b')
            else if (highKeyIsGER (.own key) n.high false b').1 = true then
              (MRes.base n false sf, (highKeyIsGER (.own key) n.high false b').2)
            else (MRes.sibling n.next, (highKeyIsGER (.own key) n.high false b').2)).2 ∧
          (∀ n' kf' sf', (if (!smo) = true then
            if (!highKeyIsGE n.high key false) = true then
              ((MRes.sibling n.next : MRes K V), loadHigh n.high buf)
            else (MRes.base n false sf, loadHigh n.high buf)
          else (MRes.base n false sf, buf)).1 = .base n' kf' sf' → has = false → sf' = true)) := by
        intro b' hb'
        have h1 := (highKeyIsGER_stable (r := .own key) trivial n.high false b').1
        rw [h1]
        cases smo with
        | true => exact ⟨rfl, hb', fun _ _ _ h => by cases h; exact hs⟩
        | false =>
          simp only [Ref.get]
          by_cases hg : highKeyIsGE n.high key false = true
          · simp only [hg, Bool.not_true, Bool.not_false, Bool.false_eq_true, if_true, if_false]
            exact ⟨trivial, hb'.high _, fun _ _ _ h => by cases h; exact hs⟩
          · simp only [hg, Bool.not_false, Bool.false_eq_true, if_true, if_false]
            exact ⟨trivial, hb'.high _, fun _ _ _ h => by cases h⟩
      obtain ⟨hl1, hl2⟩ : (lowIsKeyR (.own key) n.low b).1 = lowIsKey n.low key ∧
          Sib has buf (lowIsKeyR (.own key) n.low b).2 := by
        cases n.low with
        | none => exact ⟨rfl, hb⟩
        | some l => exact ⟨rfl, hb⟩
      rw [hl1]
      by_cases hk : lowIsKey n.low key = true
      · rw [if_pos hk, if_pos hk]
        exact ⟨rfl, hl2, fun _ _ _ h => by cases h⟩
      · rw [if_neg hk, if_neg hk]
        exact key2 _ hl2
  | removed x => intro smo kf sf buf b hb hs; exact ⟨rfl, hb, fun _ _ _ h => by cases h⟩
  | delta d nx ih =>
    intro smo kf sf buf b hb hs
    simp only [dcSearchForMergeR, dcSearchForMergeB]
    have hsib : ∀ b' : Bufs K, Sib has buf b' → sf = false →
        (sameKeyR (.buf .deltaHigh) d.key b').1 = sameKeyOpt d.key buf := by
      intro b' hb' hsf
      have hh : has = true := by
        cases has with
        | true => rfl
        | false => rw [hs rfl] at hsf; cases hsf
      rw [hb' hh]
      rfl
    have hkk : ∀ (b' : Bufs K), (sameKeyR (.own key) d.key b').1 = sameKey d.key key := fun _ => rfl
    have hset : ∀ (r : Ref K) (b' : Bufs K), Sib has buf b' → Sib has buf (sameKeyR r d.key b').2 :=
      fun _ _ h => h
    cases hd : d.ty with
    | insert =>
      simp only
      obtain ⟨x, hx, hx1, hx2⟩ : ∃ x : Bool × Bufs K,
          (if kf = true then (true, b) else sameKeyR (.own key) d.key b) = x ∧
            x.1 = (kf || sameKey d.key key) ∧ Sib has buf x.2 := by
        cases kf
        · exact ⟨_, rfl, by simp [hkk], hset _ _ hb⟩
        · exact ⟨_, rfl, by simp, hb⟩
      rw [hx, hx1]
      split
      · exact ⟨rfl, hx2, fun _ _ _ h => by cases h⟩
      · obtain ⟨y, hy, hy1, hy2⟩ : ∃ y : Bool × Bufs K,
            (if sf = true then (true, x.2) else sameKeyR (.buf .deltaHigh) d.key x.2) = y ∧
              y.1 = (sf || sameKeyOpt d.key buf) ∧ Sib has buf y.2 := by
          cases hsf : sf
          · exact ⟨_, rfl, by simp [hsib _ hx2 hsf], hset _ _ hx2⟩
          · exact ⟨_, rfl, by simp, hx2⟩
        rw [hy, hy1]
        split
        · exact ⟨rfl, hy2, fun _ _ _ h => by cases h⟩
        · exact ih _ _ _ _ _ hy2 (fun h => by rw [hs h]; rfl)
    | delete =>
      simp only
      obtain ⟨x, hx, hx1, hx2⟩ : ∃ x : Bool × Bufs K,
          (if kf = true then (false, b) else sameKeyR (.own key) d.key b) = x ∧
            x.1 = (!kf && sameKey d.key key) ∧ Sib has buf x.2 := by
        cases kf
        · exact ⟨_, rfl, by simp [hkk], hset _ _ hb⟩
        · exact ⟨_, rfl, by simp, hb⟩
      rw [hx, hx1]
      split
      · exact ⟨rfl, hx2, fun _ _ _ h => by cases h⟩
      · obtain ⟨y, hy, hy1, hy2⟩ : ∃ y : Bool × Bufs K,
            (if sf = true then (false, x.2) else sameKeyR (.buf .deltaHigh) d.key x.2) = y ∧
              y.1 = (!sf && sameKeyOpt d.key buf) ∧ Sib has buf y.2 := by
          cases hsf : sf
          · exact ⟨_, rfl, by simp [hsib _ hx2 hsf], hset _ _ hx2⟩
          · exact ⟨_, rfl, by simp, hx2⟩
        rw [hy, hy1]
        split
        · exact ⟨rfl, hy2, fun _ _ _ h => by cases h⟩
        · exact ih _ _ _ _ _ hy2 hs
    | modify => exact ⟨rfl, hb, fun _ _ _ h => by cases h⟩
    | merge =>
      simp only
      rw [show (lowKeyIsLER (.own key) d.key true b).1 = lowKeyIsLE d.key key true from rfl]
      have hx2 : Sib has buf (lowKeyIsLER (.own key) d.key true b).2 := hb
      generalize (lowKeyIsLER (.own key) d.key true b).2 = b1 at hx2 ⊢
      split
      · cases d.pay with
        | node n =>
          have h1 := (highKeyIsGER_stable (r := .own key) trivial d.high false b1).1
          simp only [h1, Ref.get]
          cases smo <;> cases kf <;>
            simp only [Bool.or_true, Bool.or_false, Bool.not_true, Bool.not_false,
              Bool.and_true, Bool.and_false, Bool.false_eq_true, if_true, if_false]
          · cases highKeyIsGE d.high key false
            · exact ⟨rfl, hx2.high _, fun _ _ _ h => by cases h⟩
            · exact ⟨rfl, hx2.high _, fun _ _ _ h => by cases h; exact hs⟩
          · exact ⟨trivial, hx2, fun _ _ _ h => by cases h; exact hs⟩
          · exact ⟨trivial, hx2, fun _ _ _ h => by cases h; exact hs⟩
          · exact ⟨trivial, hx2, fun _ _ _ h => by cases h; exact hs⟩
        | _ => exact ⟨rfl, hb, fun _ _ _ h => by cases h⟩
      · obtain ⟨y, hy, hy1, hy2⟩ : ∃ y : Bool × Bufs K,
            (if sf = true then (true, b1) else sameKeyR (.buf .deltaHigh) d.key b1) = y ∧
              y.1 = (sf || sameKeyOpt d.key buf) ∧ Sib has buf y.2 := by
          cases hsf : sf
          · exact ⟨_, rfl, by simp [hsib _ hx2 hsf], hset _ _ hx2⟩
          · exact ⟨_, rfl, by simp, hx2⟩
        rw [hy, hy1]
        split
        · exact ⟨rfl, hy2, fun _ _ _ h => by cases h⟩
        · exact ih _ _ _ _ _ hy2 (fun h => by rw [hs h]; rfl)

/-- Result of a search whose key points outside the buffer of `Node::GetKey`. -/
inductive OtherRes (b : Bufs K) : Option (Bool × Nat) → Option ((Bool × Nat) × Bufs K) → Prop
  | none : OtherRes b none none
  | some {x b'} : (∀ z, z ≠ .nodeKey → b' z = b z) → OtherRes b (some x) (some (x, b'))

theorem bsLoopR_other {α : Type} (recs : List (K × α)) {r : Ref K} (hr : r ≠ .buf .nodeKey) :
    ∀ (f s e : Nat) (b : Bufs K),
      OtherRes b (bsLoop recs (r.get b) f s e) (bsLoopR recs r f s e b) := by
  have hg : ∀ (b : Bufs K) k, r.get (b.set .nodeKey k) = r.get b := by
    intro b k
    cases r with
    | own k => rfl
    | buf x =>
      have : x ≠ .nodeKey := fun e => hr (by rw [e])
      simp [Ref.get, Bufs.set, this]
  intro f
  induction f with
  | zero =>
    intro s e b
    simp only [bsLoop, bsLoopR]
    split
    · exact .none
    · exact .some fun _ _ => rfl
  | succ f ih =>
    intro s e b
    simp only [bsLoop, bsLoopR]
    split
    · cases recs[(s + e - 1) / 2]? with
      | none => exact .none
      | some x =>
        obtain ⟨ik, v⟩ := x
        have hset : ∀ z, z ≠ Buf.nodeKey → (b.set .nodeKey ik) z = b z := by
          intro z hz; simp [Bufs.set, hz]
        have wk : ∀ s' e', OtherRes b (bsLoop recs (r.get b) f s' e')
            (bsLoopR recs r f s' e' (b.set .nodeKey ik)) := by
          intro s' e'
          have := ih s' e' (b.set .nodeKey ik)
          rw [hg] at this
          generalize bsLoop recs (r.get b) f s' e' = o at this ⊢
          generalize bsLoopR recs r f s' e' (b.set .nodeKey ik) = o' at this ⊢
          cases this with
          | none => exact .none
          | some h => exact .some fun z hz => (h z hz).trans (hset z hz)
        dsimp only
        rw [hg]
        split
        · exact wk _ _
        · split
          · exact wk _ _
          · exact .some hset
    · exact .some fun _ _ => rfl

theorem nodeHasR_other (n : Node K V) {r : Ref K} (hr : r ≠ .buf .nodeKey) (b : Bufs K) :
    (nodeHas n (r.get b) = none ∧ searchRecordR n r b = none) ∨
    ∃ x p b', nodeHas n (r.get b) = some x ∧ searchRecordR n r b = some ((x, p), b') ∧
      ∀ z, z ≠ .nodeKey → b' z = b z := by
  have h := bsLoopR_other n.recs hr n.recs.length (if n.inner && n.low.isNone then 1 else 0)
    n.recs.length b
  simp only [nodeHas, Node.searchRecord, searchRecordR]
  generalize bsLoop n.recs (r.get b) n.recs.length (if n.inner && n.low.isNone then 1 else 0)
    n.recs.length = o at h ⊢
  generalize bsLoopR n.recs r n.recs.length (if n.inner && n.low.isNone then 1 else 0)
    n.recs.length b = o' at h ⊢
  cases h with
  | none => exact Or.inl ⟨rfl, rfl⟩
  | @some x b' h2 => exact Or.inr ⟨x.1, x.2, b', rfl, rfl, h2⟩

/-- The check by reference is the one of `Tree/KeyBuffer.lean`. -/
theorem mergeCheckR_own (key : K) (has : Bool) (c : Chain K V) (buf : Option K) (b : Bufs K)
    (hb : Sib has buf b) :
    (mergeCheckR (.own key) (.buf .deltaHigh) has c b).1 = (mergeCheckB key has buf c).1 ∧
      Sib has (mergeCheckB key has buf c).2
        (mergeCheckR (.own key) (.buf .deltaHigh) has c b).2 := by
  obtain ⟨h1, h2, h3⟩ := dcSearchForMergeR_own key has c false false (!has) buf b hb
    (by intro h; rw [h]; rfl)
  simp only [mergeCheckR, mergeCheckB]
  generalize dcSearchForMergeR (.own key) (.buf .deltaHigh) false false (!has) c b = x at h1 h2 ⊢
  generalize dcSearchForMergeB key buf false false (!has) c = y at h1 h2 h3 ⊢
  obtain ⟨x, b'⟩ := x
  obtain ⟨y, u⟩ := y
  dsimp only at h1 h2 h3 ⊢
  subst h1
  cases x with
  | base n kf sf =>
    have hsf := h3 n kf sf rfl
    dsimp only
    have key2 : ∀ (kf' : Bool) (b1 : Bufs K), b1 .deltaHigh = b' .deltaHigh →
        (if sf = true then (if kf' = true then McRes.ok else McRes.abort, b1)
          else match searchRecordR n (.buf .deltaHigh) b1 with
            | none => (McRes.ub, b1)
            | some ((sf', _), b2) => (if (sf' && kf') = true then McRes.ok else McRes.abort, b2)).1 =
        (match sf, u with
          | true, _ => (if kf' = true then McRes.ok else McRes.abort, u)
          | false, some s =>
            match nodeHas n s with
            | none => (McRes.ub, u)
            | some sf' => (if (sf' && kf') = true then McRes.ok else McRes.abort, u)
          | false, none => (McRes.ub, u)).1 ∧
        Sib has (match sf, u with
          | true, _ => (if kf' = true then McRes.ok else McRes.abort, u)
          | false, some s =>
            match nodeHas n s with
            | none => (McRes.ub, u)
            | some sf' => (if (sf' && kf') = true then McRes.ok else McRes.abort, u)
          | false, none => (McRes.ub, u)).2
        (if sf = true then (if kf' = true then McRes.ok else McRes.abort, b1)
          else match searchRecordR n (.buf .deltaHigh) b1 with
            | none => (McRes.ub, b1)
            | some ((sf', _), b2) => (if (sf' && kf') = true then McRes.ok else McRes.abort, b2)).2 := by
      intro kf' b1 hb1
      have hs1 : Sib has u b1 := fun h => by rw [h2 h, hb1]
      cases sf with
      | true => exact ⟨rfl, hs1⟩
      | false =>
        have hh : has = true := by
          cases has with
          | true => rfl
          | false => exact absurd (hsf rfl) (by decide)
        have hu : u = some (b1 .deltaHigh) := hs1 hh
        subst hu
        dsimp only
        rcases nodeHasR_other n (r := .buf .deltaHigh) (by intro h; cases h) b1 with
          ⟨e1, e2⟩ | ⟨x, p, b2, e1, e2, e3⟩
        · simp only [Ref.get] at e1
          rw [e1, e2]
          exact ⟨rfl, hs1⟩
        · simp only [Ref.get] at e1
          rw [e1, e2]
          refine ⟨rfl, fun _ => ?_⟩
          exact congrArg some (e3 .deltaHigh (by intro h; cases h)).symm
    cases kf with
    | true => exact key2 true b' rfl
    | false =>
      simp only [Bool.false_eq_true, if_false]
      rcases nodeHasR_other n (r := .own key) (by intro h; cases h) b' with
        ⟨e1, e2⟩ | ⟨x, p, b1, e1, e2, e3⟩
      · simp only [Ref.get] at e1
        rw [e1, e2]
        exact ⟨rfl, h2⟩
      · simp only [Ref.get] at e1
        rw [e1, e2]
        exact key2 x b1 (e3 _ (by intro h; cases h))
  | _ => exact ⟨rfl, h2⟩

theorem mergeStepR (cfg : Cfg K) (hcfg : cfg.buf = true) (key : K) (has : Bool) (c : Chain K V)
    (sib : Option K) (b : Bufs K) (hs : sib.isSome = has) (hb : Sib has sib b) :
    (mergeCheckR (.own key) (.buf .deltaHigh) has c b).1 = (mergeStep cfg key sib c).1 ∧
      ((mergeStep cfg key sib c).2.isSome = has) ∧
      Sib has (mergeStep cfg key sib c).2
        (mergeCheckR (.own key) (.buf .deltaHigh) has c b).2 := by
  obtain ⟨h1, h2⟩ := mergeCheckR_own key has c sib b hb
  subst hs
  simp only [mergeStep, hcfg, if_true]
  refine ⟨h1, ?_⟩
  cases sib with
  | none => exact ⟨rfl, fun h => by cases h⟩
  | some s =>
    simp only [Option.isSome_some, if_true]
    have h3 := h2 rfl
    simp only [Option.isSome_some] at h3
    refine ⟨by rw [h3]; rfl, fun _ => h3⟩

theorem getHeadForMergeR_own (cfg : Cfg K) (hcfg : cfg.buf = true) (key : K) (has : Bool) :
    ∀ (f : Nat) (sib : Option K) (stk : Stk) (b : Bufs K), sib.isSome = has → Sib has sib b →
      Sim (V := V) (fun x y => y.1 = (x.1, x.2.1, x.2.2.1) ∧ x.2.2.2.isSome = has ∧
          Sib has x.2.2.2 y.2)
        (getHeadForMerge cfg key f sib stk)
        (getHeadForMergeR cfg (.own key) (.buf .deltaHigh) has f stk b) := by
  intro f
  induction f with
  | zero => intro sib stk b _ _; exact .stuck
  | succ f ih =>
    intro sib stk b hs hb
    cases stk with
    | nil => exact .ub
    | cons p rest =>
      refine .bindSame fun c => ?_
      obtain ⟨h1, h2, h3⟩ := mergeStepR cfg hcfg key has c sib b hs hb
      rw [← h1]
      generalize mergeCheckR (.own key) (.buf .deltaHigh) has c b = x at h1 h3 ⊢
      generalize mergeStep cfg key sib c = y at h2 h3 ⊢
      obtain ⟨x, b'⟩ := x
      cases x with
      | ok => exact .ret ⟨rfl, h2, h3⟩
      | abort => exact .ret ⟨rfl, h2, h3⟩
      | sibling q => exact ih _ _ _ h2 h3
      | ub => exact .ub

/-! ## Structure modifications -/

/-- `TrySMOs` by reference and by value. -/
def SmoSim (smo : Chain K V → Stk → Prog K V Unit)
    (smoR : Chain K V → Stk → Bufs K → Prog K V (Bufs K)) : Prop :=
  ∀ c stk b, Sim (fun _ _ => True) (smo c stk) (smoR c stk b)

theorem splitLoopR_stable (cfg : Cfg K) {smo : Chain K V → Stk → Prog K V Unit}
    {smoR : Chain K V → Stk → Bufs K → Prog K V (Bufs K)} (hsmo : SmoSim smo smoR)
    {r : Ref K} (hr : r.Stable) (high : Option K) (rInner : Bool) (rpid lpid : PID) (sep : K) :
    ∀ (f : Nat) (stk : Stk) (b : Bufs K), r.get b = sep →
      Sim (fun _ _ => True) (splitLoop cfg smo sep high rInner rpid lpid f stk)
        (splitLoopR cfg smoR r sep high rInner rpid lpid f stk b) := by
  intro f
  induction f with
  | zero => intro stk b _; cases stk <;> exact .stuck
  | succ f ih =>
    intro stk b hb
    cases stk with
    | nil =>
      refine .bindSame fun x => ?_
      split
      · exact .ret trivial
      · have h := searchTargetR_stable (V := V) hr rInner rpid f [] b
        rw [hb] at h
        refine h.bind ?_
        rintro _ ⟨s, b'⟩ ⟨rfl, hk⟩
        cases s with
        | nil => exact .ub
        | cons p s => exact ih _ _ ((hk.get hr).trans hb)
    | cons p rest =>
      have h := getHeadR_stable (V := V) cfg hr true rpid f (p :: rest) b
      rw [hb] at h
      refine h.bind ?_
      rintro _ ⟨o, b'⟩ ⟨rfl, hk⟩
      have hb' := (hk.get hr).trans hb
      rcases o with _ | ⟨c, _ | ⟨q, s⟩⟩
      · exact ih _ _ hb'
      · exact .ub
      · refine .cas fun ok => ?_
        dsimp only
        split
        · split
          · exact hsmo _ _ _
          · exact .ret trivial
        · exact ih _ _ hb'

theorem splitR_stable (cfg : Cfg K) {smo : Chain K V → Stk → Prog K V Unit}
    {smoR : Chain K V → Stk → Bufs K → Prog K V (Bufs K)} (hsmo : SmoSim smo smoR)
    (f : Nat) (l r : Node K V) (sep : K) (stk : Stk) (b : Bufs K) :
    Sim (fun _ _ => True) (split cfg smo f l r sep stk) (splitR cfg smoR f l r sep stk b) := by
  cases stk with
  | nil => exact .ub
  | cons p rest =>
    exact .newPid fun rpid => .store (.store
      (splitLoopR_stable cfg hsmo (r := .buf .nodeLow) (Or.inl rfl) _ _ _ _ _ _ _ _ rfl))

theorem deleteLoopR_own (cfg : Cfg K) (hcfg : cfg.buf = true)
    {smo : Chain K V → Stk → Prog K V Unit}
    {smoR : Chain K V → Stk → Bufs K → Prog K V (Bufs K)} (hsmo : SmoSim smo smoR)
    (has : Bool) (dk : K) (high : Option K) (w : Nat) :
    ∀ (f : Nat) (sib : Option K) (stk : Stk) (b : Bufs K), sib.isSome = has → Sib has sib b →
      Sim (fun x y => y.1 = x) (deleteLoop cfg smo dk high w f sib stk)
        (deleteLoopR cfg smoR (.own dk) (.buf .deltaHigh) has dk high w f stk b) := by
  intro f
  induction f with
  | zero => intro sib stk b _ _; exact .stuck
  | succ f ih =>
    intro sib stk b hs hb
    refine (getHeadForMergeR_own cfg hcfg dk has f sib stk b hs hb).bind ?_
    rintro ⟨s, c, k, sib'⟩ ⟨_, b'⟩ ⟨rfl, h1, h2⟩
    dsimp only at h1 h2 ⊢
    split
    · cases s with
      | nil => exact .ub
      | cons p rest =>
        refine .cas fun ok => ?_
        split
        · split
          · exact (hsmo _ _ _).bind fun _ _ _ => .ret rfl
          · exact .ret rfl
        · exact ih _ _ _ h1 h2
    · exact .ret rfl

theorem tryDeleteIndexEntryR_own (cfg : Cfg K) (hcfg : cfg.buf = true)
    {smo : Chain K V → Stk → Prog K V Unit}
    {smoR : Chain K V → Stk → Bufs K → Prog K V (Bufs K)} (hsmo : SmoSim smo smoR)
    (f : Nat) (n : Node K V) {dk : K} (hl : n.low = some dk) (stk : Stk) (b : Bufs K) :
    Sim (fun x y => y.1 = x) (tryDeleteIndexEntry cfg smo f n stk)
      (tryDeleteIndexEntryR cfg smoR f (.own dk) n stk b) := by
  simp only [tryDeleteIndexEntry, tryDeleteIndexEntryR, hl]
  split
  · exact .ret rfl
  · refine .newCell fun w => deleteLoopR_own cfg hcfg hsmo _ _ _ _ _ _ _ _ rfl ?_
    cases n.high with
    | none => intro h; cases h
    | some x => intro _; rfl

theorem mergeLoopR_stable (cfg : Cfg K) {smo : Chain K V → Stk → Prog K V Unit}
    {smoR : Chain K V → Stk → Bufs K → Prog K V (Bufs K)} (hsmo : SmoSim smo smoR)
    {r : Ref K} (hr : r.Stable) (n : Node K V) (dk : K) (w : Nat) (rem : PID) :
    ∀ (f : Nat) (x : Bool) (stk : Stk) (b : Bufs K), r.get b = dk →
      Sim (fun _ _ => True) (mergeLoop cfg smo n dk w rem f x stk)
        (mergeLoopR cfg smoR n r dk w rem f x stk b) := by
  intro f
  induction f with
  | zero => intro x stk b _; exact .stuck
  | succ f ih =>
    intro x stk b hb
    cases x with
    | true =>
      cases stk with
      | nil =>
        have h := searchTargetR_stable (V := V) hr n.inner rem f [] b
        rw [hb] at h
        refine h.bind ?_
        rintro _ ⟨s, b'⟩ ⟨rfl, hk⟩
        exact ih _ _ _ ((hk.get hr).trans hb)
      | cons p rest =>
        have h := searchChildR_stable (V := V) hr false rem f (p :: rest) b
        rw [hb] at h
        refine h.bind ?_
        rintro _ ⟨s, b'⟩ ⟨rfl, hk⟩
        have hb' := (hk.get hr).trans hb
        dsimp only
        split
        · exact ih _ _ _ hb'
        · exact ih _ _ _ hb'
    | false =>
      have h := getHeadR_stable (V := V) cfg hr false rem f stk b
      rw [hb] at h
      have key2 : Sim (fun _ _ => True) (mergeLoop cfg smo n dk w rem (f + 1) false stk)
        (mergeLoopR cfg smoR n r dk w rem (f + 1) false stk b) := by
        simp only [mergeLoop, mergeLoopR]
        refine h.bind ?_
        rintro _ ⟨o, b'⟩ ⟨rfl, hk⟩
        have hb' := (hk.get hr).trans hb
        rcases o with _ | ⟨c, _ | ⟨q, s⟩⟩
        · exact ih _ _ _ hb'
        · exact .ub
        · refine .cas fun ok => ?_
          dsimp only
          split
          · refine .storeCell ?_
            split
            · exact hsmo _ _ _
            · exact .ret trivial
          · exact ih _ _ _ hb'
      exact key2

theorem tryMergeR_stable (cfg : Cfg K) (hcfg : cfg.buf = true)
    {smo : Chain K V → Stk → Prog K V Unit}
    {smoR : Chain K V → Stk → Bufs K → Prog K V (Bufs K)} (hsmo : SmoSim smo smoR)
    (f : Nat) (head : Chain K V) (n : Node K V) (stk : Stk) (b : Bufs K) :
    Sim (fun _ _ => True) (tryMerge cfg smo f head n stk) (tryMergeR cfg smoR f head n stk b) := by
  cases stk with
  | nil => exact .ub
  | cons p rest =>
    refine .cas fun ok => ?_
    split
    · cases hl : n.low with
      | none =>
        have h0 : tryDeleteIndexEntry cfg smo f n rest = .ret none := by
          simp only [tryDeleteIndexEntry, hl]
          split <;> rfl
        rw [h0]
        show Sim _ ((tryRemoveRoot n p rest).bind _) ((tryRemoveRoot n p rest).bind _)
        refine .bindSame fun x => ?_
        split
        · exact .ret trivial
        · exact .store (.ret trivial)
      | some dk =>
        refine (tryDeleteIndexEntryR_own cfg hcfg hsmo f n hl rest _).bind ?_
        rintro _ ⟨o, b'⟩ rfl
        cases o with
        | none =>
          refine .bindSame fun x => ?_
          split
          · exact .ret trivial
          · exact .store (.ret trivial)
        | some w => exact mergeLoopR_stable cfg hsmo (r := delKeyRef dk) trivial n dk w p f true rest b' rfl
    · exact .ret trivial

/-- All of `TrySMOs`, with every key by reference, makes the accesses of the model by value. -/
theorem trySMOsR_sim (cfg : Cfg K) (hcfg : cfg.buf = true) :
    ∀ f, SmoSim (trySMOs (V := V) cfg f) (trySMOsR cfg f) := by
  intro f
  induction f with
  | zero => intro c stk b; exact .stuck
  | succ f ih =>
    intro c stk b
    cases stk with
    | nil => exact .ub
    | cons p rest =>
      refine .cas fun ok => ?_
      split
      · cases tryConsolidate cfg false c with
        | none => exact .ub
        | some x =>
          cases x with
          | consolidate n => exact .cas fun _ => .ret trivial
          | split l r =>
            dsimp only
            cases r.low with
            | none => exact .ub
            | some sep => exact splitR_stable cfg ih f l r sep _ _
          | merge n => exact tryMergeR_stable cfg hcfg ih f c n _ _
      · exact .ret trivial

/-! ## Point operations -/

theorem readLoopR_stable {r : Ref K} (hr : r.Stable) :
    ∀ (f : Nat) (stk : Stk) (b : Bufs K),
      Sim (V := V) (Res b) (readLoop (r.get b) f stk) (readLoopR r f stk b) := by
  intro f
  induction f with
  | zero => intro stk b; exact .stuck
  | succ f ih =>
    intro stk b
    cases stk with
    | nil => exact .ub
    | cons p rest =>
      refine .load fun c => ?_
      obtain ⟨h1, h2⟩ := readChainR_stable hr c b
      simp only [← h1]
      generalize readChainR r c b = x at h1 h2 ⊢
      obtain ⟨x, b'⟩ := x
      have hg := h2.get hr
      dsimp only at hg h2 ⊢
      split
      · exact .flag _
      · cases x with
        | ret o => exact .ret ⟨rfl, h2⟩
        | sibling q => rw [← hg]; exact (ih _ b').weaken h2
        | removed =>
          dsimp only
          split
          · exact .flag _
          · rw [← hg]
            refine (searchChildR_stable hr true 0 f rest b').bind ?_
            rintro ⟨a1, a2⟩ ⟨_, b''⟩ ⟨rfl, h3⟩
            rw [← h3.get hr]; exact (ih _ b'').weaken (h2.trans h3)
        | ub => exact .ub

theorem writeLoopR_stable (cfg : Cfg K) (hcfg : cfg.buf = true) (op : Spec.Op K V) {r : Ref K} (hr : r.Stable) :
    ∀ (f : Nat) (stk : Stk) (b : Bufs K),
      Sim (· = ·) (writeLoop cfg op (r.get b) f stk) (writeLoopR cfg op r f stk b) := by
  intro f
  induction f with
  | zero => intro stk b; exact .stuck
  | succ f ih =>
    intro stk b
    refine (getHeadKCR_stable cfg hr f stk b).bind ?_
    rintro ⟨s, c, k⟩ ⟨_, b'⟩ ⟨rfl, h⟩
    dsimp only at h ⊢
    cases writeDelta cfg op k with
    | inl a => exact .ret rfl
    | inr x =>
      cases s with
      | nil => exact .ub
      | cons p rest =>
        refine .cas fun ok => ?_
        split
        · split
          · exact (trySMOsR_sim cfg hcfg f _ _ _).bind fun _ _ _ => .ret rfl
          · exact .ret rfl
        · rw [← h.get hr]; exact ih _ b'

theorem opKey_at (op : PtOp V) (k : K) : opKey (op.at k) = k := by cases op <;> rfl

/-- With a key that no search overwrites an operation is the one of `Conc/Code.lean`. -/
theorem runOpR_stable (cfg : Cfg K) (hcfg : cfg.buf = true) (f : Nat) (op : PtOp V) {r : Ref K} (hr : r.Stable) (b : Bufs K) :
    runOpR cfg f op r b = runOp cfg f (op.at (r.get b)) := by
  refine (Sim.eq ?_).symm
  simp only [runOp, runOpR, opKey_at]
  refine (searchLeafR_stable hr true f b).bind ?_
  rintro _ ⟨s, b'⟩ ⟨rfl, h⟩
  dsimp only at h ⊢
  have h1 := h.get hr
  cases op with
  | read =>
    simp only [PtOp.at, ← h1]
    refine (readLoopR_stable hr f s b').bind ?_
    rintro a ⟨_, b''⟩ ⟨rfl, _⟩
    exact .ret rfl
  | write v => simp only [PtOp.at, ← h1]; exact writeLoopR_stable cfg hcfg _ hr f s b'
  | insert v => simp only [PtOp.at, ← h1]; exact writeLoopR_stable cfg hcfg _ hr f s b'
  | update v => simp only [PtOp.at, ← h1]; exact writeLoopR_stable cfg hcfg _ hr f s b'
  | delete => simp only [PtOp.at, ← h1]; exact writeLoopR_stable cfg hcfg _ hr f s b'

/-! ## Scans -/

/-- An end point that no search overwrites. -/
def RBound.Stable : RBound K → Prop
  | none => True
  | some (r, _) => r.Stable

theorem Keep.bound {b b' : Bufs K} (h : Keep b b') {e : RBound K} (he : e.Stable) :
    e.get b' = e.get b := by
  cases e with
  | none => rfl
  | some x => simp only [RBound.get, h.get (r := x.1) he]

theorem consBuf_keep (c : Chain K V) (b : Bufs K) : Keep b (consBuf c b) := by
  simp only [consBuf]
  split
  · exact .refl _
  · split
    · exact .refl _
    · exact keep_nodeKey _ _

theorem endPosR_stable (n : Node K V) {e : RBound K} (he : e.Stable) (b : Bufs K) :
    Opt b (n.endPos (e.get b)) (endPosR n e b) := by
  cases e with
  | none =>
    simp only [RBound.get, Node.endPos, endPosR, Node.isRightmostOf, isRightmostOfR]
    cases n.high <;> exact ⟨rfl, .refl _⟩
  | some x =>
    obtain ⟨r, closed⟩ := x
    have hr : r.Stable := he
    simp only [RBound.get, Node.endPos, endPosR, Node.isRightmostOf, isRightmostOfR]
    have key : ∀ b' : Bufs K, Keep b b' → Opt b
        ((n.searchRecord (r.get b)).map fun x => (true, if x.1 && closed then x.2 + 1 else x.2))
        ((searchRecordR n r b').map fun x =>
          ((true, if x.1.1 && closed then x.1.2 + 1 else x.1.2), x.2)) := by
      intro b' hk
      have h := searchRecordR_stable n hr b'
      rw [hk.get hr] at h
      generalize n.searchRecord (r.get b) = o at h ⊢
      generalize searchRecordR n r b' = o' at h ⊢
      cases o <;> cases o'
      · trivial
      · exact h.elim
      · exact h.elim
      · rename_i x y
        obtain ⟨⟨f, p⟩, b''⟩ := y
        obtain ⟨rfl, h3⟩ := h
        exact ⟨rfl, hk.trans h3⟩
    cases n.high with
    | none => exact key b (.refl _)
    | some h =>
      simp only [(keep_nodeKey b h).get hr]
      cases hx : (decide (r.get b < h) || (!closed && !decide (h < r.get b)))
      · exact ⟨rfl, keep_nodeKey b h⟩
      · exact key _ (keep_nodeKey b h)

theorem beginPosR_stable (n : Node K V) {s : RBound K} (hs : s.Stable) (b : Bufs K) :
    Opt b (n.beginPos (s.get b)) (beginPosR n s b) := by
  cases s with
  | none => exact ⟨rfl, .refl _⟩
  | some x =>
    obtain ⟨r, closed⟩ := x
    have hr : r.Stable := hs
    have h := searchRecordR_stable n hr b
    simp only [RBound.get, Node.beginPos, beginPosR]
    generalize n.searchRecord (r.get b) = o at h ⊢
    generalize searchRecordR n r b = o' at h ⊢
    cases o <;> cases o'
    · trivial
    · exact h.elim
    · exact h.elim
    · rename_i x y
      obtain ⟨⟨f, p⟩, b''⟩ := y
      obtain ⟨rfl, h3⟩ := h
      exact ⟨rfl, h3⟩

theorem scanOutR_stable (cfg : Cfg K) {s e : RBound K} (hs : s.Stable) (he : e.Stable)
    (c : Chain K V) (b : Bufs K) :
    Opt b (scanOut cfg (s.get b) (e.get b) c) (scanOutR cfg s e c b) := by
  simp only [scanOut, scanOutR]
  cases scanNode cfg c with
  | none => trivial
  | some n =>
    have hk := consBuf_keep c b
    have h1 := beginPosR_stable n hs (consBuf c b)
    rw [hk.bound hs] at h1
    dsimp only
    generalize n.beginPos (s.get b) = o at h1 ⊢
    generalize beginPosR n s (consBuf c b) = o' at h1 ⊢
    cases o <;> cases o'
    · trivial
    · exact h1.elim
    · exact h1.elim
    · rename_i x y
      obtain ⟨bp, b1⟩ := y
      obtain ⟨rfl, h3⟩ := h1
      have hk1 := hk.trans h3
      have h2 := endPosR_stable n he b1
      rw [hk1.bound he] at h2
      dsimp only
      generalize n.endPos (e.get b) = o at h2 ⊢
      generalize endPosR n e b1 = o' at h2 ⊢
      cases o <;> cases o'
      · trivial
      · exact h2.elim
      · exact h2.elim
      · rename_i y
        obtain ⟨⟨isEnd, ep⟩, b2⟩ := y
        obtain ⟨rfl, h4⟩ := h2
        dsimp only
        cases payloads ((n.recs.take ep).drop bp) with
        | none => trivial
        | some l => exact ⟨rfl, hk1.trans h4⟩

theorem scanFromR_stable (cfg : Cfg K) {r : Ref K} (hr : r.Stable) (closed : Bool) {e : RBound K}
    (he : e.Stable) : ∀ (f : Nat) (stk : Stk) (b : Bufs K),
      Sim (V := V) (Res b) (scanFrom cfg (r.get b) closed (e.get b) f stk)
        (scanFromR cfg r closed e f stk b) := by
  intro f
  induction f with
  | zero => intro stk b; exact .stuck
  | succ f ih =>
    intro stk b
    refine (getHeadR_stable cfg hr closed 0 f stk b).bind ?_
    rintro _ ⟨o, b'⟩ ⟨rfl, h⟩
    dsimp only at h ⊢
    rcases o with _ | ⟨c, stk'⟩
    · exact .ub
    · dsimp only
      split
      · rw [← h.get hr, ← h.bound he]; exact (ih _ b').weaken h
      · split
        · exact .flag _
        · have h2 := scanOutR_stable cfg (s := some (r, closed)) hr he c b'
          rw [h.bound he, show RBound.get b' (some (r, closed)) = some (r.get b, closed) from
            congrArg (fun k => some (k, closed)) (h.get hr)] at h2
          generalize scanOut cfg (some (r.get b, closed)) (RBound.get b e) c = o at h2 ⊢
          generalize scanOutR cfg (some (r, closed)) e c b' = o' at h2 ⊢
          cases o <;> cases o'
          · exact .ub
          · exact h2.elim
          · exact h2.elim
          · exact .ret ⟨h2.1, h.trans h2.2⟩

theorem scanLeftR_stable (cfg : Cfg K) {e : RBound K}
    (he : e.Stable) : ∀ (f : Nat) (p : PID) (b : Bufs K),
      Sim (V := V) (Res b) (scanLeft cfg (e.get b) f p) (scanLeftR cfg e f p b) := by
  intro f
  induction f with
  | zero => intro p b; exact .stuck
  | succ f ih =>
    intro p b
    refine .load fun c => ?_
    split
    · exact ih _ b
    · have h2 := scanOutR_stable cfg (s := none) trivial he c b
      rw [show RBound.get b (none : RBound K) = none from rfl] at h2
      generalize scanOut cfg none (RBound.get b e) c = o at h2 ⊢
      generalize scanOutR cfg none e c b = o' at h2 ⊢
      cases o <;> cases o'
      · exact .ub
      · exact h2.elim
      · exact h2.elim
      · exact .ret h2

theorem scanFirstR_stable (cfg : Cfg K) (f : Nat) {s e : RBound K} (hs : s.Stable) (he : e.Stable)
    (b : Bufs K) :
    Sim (V := V) (Res b) (scanFirst cfg f (s.get b) (e.get b)) (scanFirstR cfg f s e b) := by
  cases s with
  | none =>
    simp only [scanFirst, scanFirstR, RBound.get]
    exact .bindSame fun p => scanLeftR_stable cfg he f p b
  | some x =>
    obtain ⟨r, closed⟩ := x
    simp only [scanFirst, scanFirstR, RBound.get]
    refine (searchLeafR_stable (r := r) hs closed f b).bind ?_
    rintro _ ⟨o, b'⟩ ⟨rfl, h⟩
    have h1 := scanFromR_stable (V := V) cfg (r := r) hs closed he f o b'
    rw [h.get hs, h.bound he] at h1
    exact h1.weaken h

/-- An end point in memory of the caller. -/
def RBound.Own : RBound K → Prop
  | none => True
  | some (r, _) => ∃ k, r = .own k

theorem RBound.Own.stable {e : RBound K} (h : e.Own) : e.Stable := by
  cases e with
  | none => trivial
  | some x => obtain ⟨k, hk⟩ := h; simp only [RBound.Stable, hk]; trivial

theorem RBound.Own.get {e : RBound K} (h : e.Own) (b b' : Bufs K) : e.get b = e.get b' := by
  cases e with
  | none => rfl
  | some x => obtain ⟨k, hk⟩ := h; simp only [RBound.get, hk, Ref.get]

theorem scanNextR_stable (cfg : Cfg K) (f : Nat) (p : PID) (high : K) {e : RBound K} (he : e.Own)
    (b : Bufs K) :
    Sim (V := V) (Res (b.set .nodeHigh high)) (scanNext cfg f p high (e.get b))
      (scanNextR cfg f p high e b) := by
  have h := scanFromR_stable (V := V) cfg (r := .buf .nodeHigh) (Or.inr rfl) true he.stable f [p]
    (b.set .nodeHigh high)
  rw [he.get _ b] at h
  exact h

end BwTree.Keys
