import Verif.Conc.SeqLogic

/-!
# Program logic for calls that end (helper lemmas)

`rt` and `tp` are the total counterparts of `ro` and `sp`: the program ends, provided `CASStrong`
fails only if the slot holds another value, and `CASWeak` fails spuriously a bounded number of times.
`Firm` are the steps without spurious failures, `Loose` are runs with a number of them.
-/

namespace BwTree

set_option linter.unusedSectionVars false

section
variable {K V : Type} {α β : Type}

/-- The program only reads and returns a value with `Q`. -/
def rt (sh : Sh K V) : Prog K V α → (α → Prop) → Prop
  | .ret a, Q => Q a
  | .loadRoot k, Q => rt sh (k sh.root) Q
  | .load p k, Q => ∃ c, sh.mt p = some c ∧ rt sh (k c) Q
  | .loadCell w k, Q => rt sh (k (sh.cells w)) Q
  | .ub, _ => False
  | .stuck, _ => False
  | .flag _, _ => False
  | .storeRoot _ _, _ => False
  | .casRoot _ _ _, _ => False
  | .store _ _ _, _ => False
  | .cas _ _ _ _, _ => False
  | .newPid _, _ => False
  | .newCell _, _ => False
  | .storeCell _ _ _, _ => False

/-- The new value is a delta record on top of the expected one: these are the uses of `CASWeak`
(`bw_tree.hpp` 289, 341, 394, 443, 1388, 1490, 1542).  Consolidated nodes and removal marks are
installed with `CASStrong` (1209, 1447). -/
def Weak (o n : Chain K V) : Prop := ∃ d, n = .delta d o

theorem Weak.irrefl {c : Chain K V} : ¬ Weak c c := by
  rintro ⟨d, e⟩
  have := congrArg sizeOf e
  simp at this

/-- The program, running alone with ghost updates of choice, returns a value with `Q`, if at most `j`
times a weak compare-and-swap fails spuriously. -/
def tp : Nat → Prog K V α → (α → St K V → Prop) → St K V → Prop
  | _, .ret a, Q, s => Q a s
  | _, .ub, _, _ => False
  | _, .stuck, _, _ => False
  | _, .flag _, _, _ => False
  | j, .loadRoot k, Q, s => tp j (k s.root) Q s
  | j, .load p k, Q, s => ∃ c, s.mt p = some c ∧ tp j (k c) Q s
  | j, .loadCell w k, Q, s => tp j (k (s.cells w)) Q s
  | j, .storeRoot p k, Q, s => ∃ s' : St K V, s'.toSh = { s.toSh with root := p } ∧ tp j k Q s'
  | j, .casRoot o n k, Q, s => (s.root ≠ o ∧ tp j (k false) Q s) ∨
      (s.root = o ∧ ∃ s' : St K V, s'.toSh = { s.toSh with root := n } ∧ tp j (k true) Q s')
  | j, .store p c k, Q, s => ∃ s' : St K V, s'.toSh = { s.toSh with mt := upd s.mt p (some c) } ∧
      tp j k Q s'
  | j, .cas p o n k, Q, s => (s.mt p ≠ some o ∧ tp j (k false) Q s) ∨
      (s.mt p = some o ∧ (Weak o n → ∀ i, i < j → tp i (k false) Q s) ∧
        ∃ s' : St K V, s'.toSh = { s.toSh with mt := upd s.mt p (some n) } ∧ tp j (k true) Q s')
  | j, .newPid k, Q, s => ∃ s' : St K V, s'.toSh = { s.toSh with npid := s.npid + 1 } ∧
      tp j (k s.npid) Q s'
  | j, .newCell k, Q, s => ∃ s' : St K V,
      s'.toSh = { s.toSh with ncell := s.ncell + 1, cells := upd s.cells s.ncell 0 } ∧
      tp j (k s.ncell) Q s'
  | j, .storeCell w p k, Q, s => ∃ s' : St K V, s'.toSh = { s.toSh with cells := upd s.cells w p } ∧
      tp j k Q s'

theorem rt_then {sh : Sh K V} {p : Prog K V α} {g : α → Prog K V β} {P : α → Prop} {Q : β → Prop}
    (h : rt sh p P) (hg : ∀ a, P a → rt sh (g a) Q) : rt sh (p.bind g) Q := by
  induction p with
  | ret a => exact hg _ h
  | loadRoot k ih => exact ih _ h
  | load p k ih => obtain ⟨c, e, h⟩ := h; exact ⟨c, e, ih c h⟩
  | loadCell w k ih => exact ih _ h
  | _ => exact h.elim

theorem rt_mono {sh : Sh K V} {p : Prog K V α} {P Q : α → Prop} (h : rt sh p P)
    (hPQ : ∀ a, P a → Q a) : rt sh p Q := by
  induction p with
  | ret a => exact hPQ _ h
  | loadRoot k ih => exact ih _ h
  | load p k ih => obtain ⟨c, e, h⟩ := h; exact ⟨c, e, ih c h⟩
  | loadCell w k ih => exact ih _ h
  | _ => exact h.elim

/-- A program that reads only ends with what `ro` says about its results. -/
theorem rt_and {sh : Sh K V} {p : Prog K V α} {P Q : α → Prop} (h : rt sh p P) (h' : ro sh p Q) :
    rt sh p (fun a => P a ∧ Q a) := by
  induction p with
  | ret a => exact ⟨h, h'⟩
  | loadRoot k ih => exact ih _ h h'
  | load p k ih => obtain ⟨c, e, h⟩ := h; exact ⟨c, e, ih c h (h' c e)⟩
  | loadCell w k ih => exact ih _ h h'
  | _ => exact h.elim

theorem tp_of_rt {j : Nat} {s : St K V} {p : Prog K V α} {g : α → Prog K V β} {P : α → Prop}
    {Q : β → St K V → Prop} (h : rt s.toSh p P) (hg : ∀ a, P a → tp j (g a) Q s) :
    tp j (p.bind g) Q s := by
  induction p with
  | ret a => exact hg _ h
  | loadRoot k ih => exact ih _ h
  | load p k ih => obtain ⟨c, e, h⟩ := h; exact ⟨c, e, ih c h⟩
  | loadCell w k ih => exact ih _ h
  | _ => exact h.elim

theorem tp_rt {j : Nat} {s : St K V} {p : Prog K V α} {P : α → Prop}
    {Q : α → St K V → Prop} (h : rt s.toSh p P) (hg : ∀ a, P a → Q a s) : tp j p Q s := by
  induction p with
  | ret a => exact hg _ h
  | loadRoot k ih => exact ih _ h
  | load p k ih => obtain ⟨c, e, h⟩ := h; exact ⟨c, e, ih c h⟩
  | loadCell w k ih => exact ih _ h
  | _ => exact h.elim

theorem tp_mono {p : Prog K V α} {P Q : α → St K V → Prop} : ∀ {j : Nat} {s : St K V}, tp j p P s →
    (∀ a s', P a s' → Q a s') → tp j p Q s := by
  induction p with
  | ret a => intro j s h hq; exact hq _ _ h
  | ub => intro j s h hq; exact h
  | stuck => intro j s h hq; exact h
  | flag k => intro j s h hq; exact h
  | loadRoot k ih => intro j s h hq; exact ih _ h hq
  | load p k ih => intro j s h hq; obtain ⟨c, e, h⟩ := h; exact ⟨c, e, ih c h hq⟩
  | loadCell w k ih => intro j s h hq; exact ih _ h hq
  | storeRoot p k ih => intro j s h hq; obtain ⟨s', e, h⟩ := h; exact ⟨s', e, ih h hq⟩
  | casRoot o n k ih =>
    intro j s h hq
    rcases h with ⟨e, h⟩ | ⟨e, s', e', h⟩
    · exact Or.inl ⟨e, ih _ h hq⟩
    · exact Or.inr ⟨e, s', e', ih _ h hq⟩
  | store p c k ih => intro j s h hq; obtain ⟨s', e, h⟩ := h; exact ⟨s', e, ih h hq⟩
  | cas p o n k ih =>
    intro j s h hq
    rcases h with ⟨e, h⟩ | ⟨e, hw, s', e', h⟩
    · exact Or.inl ⟨e, ih _ h hq⟩
    · exact Or.inr ⟨e, fun w i hi => ih _ (hw w i hi) hq, s', e', ih _ h hq⟩
  | newPid k ih => intro j s h hq; obtain ⟨s', e, h⟩ := h; exact ⟨s', e, ih _ h hq⟩
  | newCell k ih => intro j s h hq; obtain ⟨s', e, h⟩ := h; exact ⟨s', e, ih _ h hq⟩
  | storeCell w p k ih => intro j s h hq; obtain ⟨s', e, h⟩ := h; exact ⟨s', e, ih h hq⟩

/-- With fewer failures. -/
theorem tp_le {p : Prog K V α} {Q : α → St K V → Prop} : ∀ {i j : Nat} {s : St K V}, tp j p Q s →
    i ≤ j → tp i p Q s := by
  induction p with
  | ret a => intro i j s h hi; exact h
  | ub => intro i j s h hi; exact h
  | stuck => intro i j s h hi; exact h
  | flag k => intro i j s h hi; exact h
  | loadRoot k ih => intro i j s h hi; exact ih _ h hi
  | load p k ih => intro i j s h hi; obtain ⟨c, e, h⟩ := h; exact ⟨c, e, ih c h hi⟩
  | loadCell w k ih => intro i j s h hi; exact ih _ h hi
  | storeRoot p k ih => intro i j s h hi; obtain ⟨s', e, h⟩ := h; exact ⟨s', e, ih h hi⟩
  | casRoot o n k ih =>
    intro i j s h hi
    rcases h with ⟨e, h⟩ | ⟨e, s', e', h⟩
    · exact Or.inl ⟨e, ih _ h hi⟩
    · exact Or.inr ⟨e, s', e', ih _ h hi⟩
  | store p c k ih => intro i j s h hi; obtain ⟨s', e, h⟩ := h; exact ⟨s', e, ih h hi⟩
  | cas p o n k ih =>
    intro i j s h hi
    rcases h with ⟨e, h⟩ | ⟨e, hw, s', e', h⟩
    · exact Or.inl ⟨e, ih _ h hi⟩
    · exact Or.inr ⟨e, fun w i' hi' => hw w i' (Nat.lt_of_lt_of_le hi' hi), s', e', ih _ h hi⟩
  | newPid k ih => intro i j s h hi; obtain ⟨s', e, h⟩ := h; exact ⟨s', e, ih _ h hi⟩
  | newCell k ih => intro i j s h hi; obtain ⟨s', e, h⟩ := h; exact ⟨s', e, ih _ h hi⟩
  | storeCell w p k ih => intro i j s h hi; obtain ⟨s', e, h⟩ := h; exact ⟨s', e, ih h hi⟩

theorem tp_bind {p : Prog K V α} {g : α → Prog K V β} {Q : β → St K V → Prop} :
    ∀ {j : Nat} {s : St K V}, tp j p (fun a s => tp j (g a) Q s) s → tp j (p.bind g) Q s := by
  induction p with
  | ret a => intro j s h; exact h
  | ub => intro j s h; exact h
  | stuck => intro j s h; exact h
  | flag k => intro j s h; exact h
  | loadRoot k ih => intro j s h; exact ih _ h
  | load p k ih => intro j s h; obtain ⟨c, e, h⟩ := h; exact ⟨c, e, ih c h⟩
  | loadCell w k ih => intro j s h; exact ih _ h
  | storeRoot p k ih => intro j s h; obtain ⟨s', e, h⟩ := h; exact ⟨s', e, ih h⟩
  | casRoot o n k ih =>
    intro j s h
    rcases h with ⟨e, h⟩ | ⟨e, s', e', h⟩
    · exact Or.inl ⟨e, ih _ h⟩
    · exact Or.inr ⟨e, s', e', ih _ h⟩
  | store p c k ih => intro j s h; obtain ⟨s', e, h⟩ := h; exact ⟨s', e, ih h⟩
  | cas p o n k ih =>
    intro j s h
    rcases h with ⟨e, h⟩ | ⟨e, hw, s', e', h⟩
    · exact Or.inl ⟨e, ih _ h⟩
    · exact Or.inr ⟨e, fun w i hi => ih _ (tp_mono (hw w i hi) fun _ _ x => tp_le x (Nat.le_of_lt hi)), s', e', ih _ h⟩
  | newPid k ih => intro j s h; obtain ⟨s', e, h⟩ := h; exact ⟨s', e, ih _ h⟩
  | newCell k ih => intro j s h; obtain ⟨s', e, h⟩ := h; exact ⟨s', e, ih _ h⟩
  | storeCell w p k ih => intro j s h; obtain ⟨s', e, h⟩ := h; exact ⟨s', e, ih h⟩

theorem tp_then {j : Nat} {p : Prog K V α} {g : α → Prog K V β} {P : α → St K V → Prop}
    {Q : β → St K V → Prop} {s : St K V} (h : tp j p P s) (hg : ∀ a s', P a s' → tp j (g a) Q s') :
    tp j (p.bind g) Q s := tp_bind (tp_mono h hg)

theorem tp_ret {j : Nat} {a : α} {Q : α → St K V → Prop} {s : St K V} (h : Q a s) : tp j (.ret a) Q s := h

/-! ## Steps -/

/-- One step in which no compare-and-swap fails spuriously. -/
inductive Firm : Sh K V → Prog K V α → Sh K V → Prog K V α → Prop
  | mk {s s' : Sh K V} {p p' : Prog K V α} : AStep s p s' p' →
      (∀ q o n k, p = .cas q o n k → s.mt q = some o →
        s' = { s with mt := upd s.mt q (some n) } ∧ p' = k true) → Firm s p s' p'

theorem Firm.step {s s' : Sh K V} {p p' : Prog K V α} (h : Firm s p s' p') : AStep s p s' p' := by
  cases h; assumption

/-- The steps are determined. -/
theorem Firm.det {s s1 s2 : Sh K V} {p p1 p2 : Prog K V α} (h1 : Firm s p s1 p1)
    (h2 : Firm s p s2 p2) : s1 = s2 ∧ p1 = p2 := by
  obtain ⟨a1, f1⟩ := h1
  obtain ⟨a2, f2⟩ := h2
  cases a1 with
  | casOk _ _ _ _ e =>
    obtain ⟨e1, e2⟩ := f2 _ _ _ _ rfl e
    exact ⟨e1.symm, e2.symm⟩
  | casFail =>
    cases a2 with
    | casOk _ _ _ _ e =>
      obtain ⟨e1, e2⟩ := f1 _ _ _ _ rfl e
      exact ⟨e1, e2⟩
    | casFail => exact ⟨rfl, rfl⟩
  | load _ _ c e =>
    cases a2 with
    | load _ _ c' e' => rw [e] at e'; cases e'; exact ⟨rfl, rfl⟩
    | loadNull _ _ e' => rw [e] at e'; cases e'
  | loadNull _ _ e =>
    cases a2 with
    | load _ _ c' e' => rw [e] at e'; cases e'
    | loadNull _ _ e' => exact ⟨rfl, rfl⟩
  | casRootOk _ _ _ e =>
    cases a2 with
    | casRootOk _ _ _ e' => exact ⟨rfl, rfl⟩
    | casRootFail _ _ _ e' => exact absurd e e'
  | casRootFail _ _ _ e =>
    cases a2 with
    | casRootOk _ _ _ e' => exact absurd e' e
    | casRootFail _ _ _ e' => exact ⟨rfl, rfl⟩
  | _ => cases a2; exact ⟨rfl, rfl⟩

/-- `n` steps without spurious failures. -/
inductive FirmRun : Nat → Sh K V → Prog K V α → Sh K V → Prog K V α → Prop
  | refl (s : Sh K V) (p : Prog K V α) : FirmRun 0 s p s p
  | step {n : Nat} {s s' s'' : Sh K V} {p p' p'' : Prog K V α} : Firm s p s' p' →
      FirmRun n s' p' s'' p'' → FirmRun (n + 1) s p s'' p''

theorem FirmRun.alone {n : Nat} {s s' : Sh K V} {p p' : Prog K V α} (h : FirmRun n s p s' p') :
    Alone n s p s' p' := by
  induction h with
  | refl s p => exact .refl _ _
  | step a _ ih => exact .step a.step ih

/-- Runs that end are determined. -/
theorem FirmRun.prefix {n m : Nat} {s s1 s2 : Sh K V} {p p2 : Prog K V α} {a : α}
    (h1 : FirmRun n s p s1 (.ret a)) (h2 : FirmRun m s p s2 p2) :
    m ≤ n ∧ FirmRun (n - m) s2 p2 s1 (.ret a) := by
  induction h2 generalizing n with
  | refl s p => exact ⟨Nat.zero_le _, h1⟩
  | step f _ ih =>
    cases h1 with
    | refl => cases f.step
    | step f' h1 =>
      obtain ⟨e1, e2⟩ := f.det f'
      subst e1 e2
      obtain ⟨i1, i2⟩ := ih h1
      refine ⟨Nat.succ_le_succ i1, ?_⟩
      rw [Nat.succ_sub_succ]
      exact i2

/-- A program with a total specification ends. -/
theorem tp_run {j : Nat} {p : Prog K V α} {Q : α → St K V → Prop} : ∀ {s : St K V}, tp j p Q s →
    ∃ n s' a, FirmRun n s.toSh p s'.toSh (.ret a) ∧ Q a s' := by
  have hmk : ∀ {sh sh' : Sh K V} {p p' : Prog K V α} {Q' : α → St K V → Prop}, Firm sh p sh' p' →
      (∃ n s' a, FirmRun n sh' p' s'.toSh (.ret a) ∧ Q' a s') →
      ∃ n s' a, FirmRun n sh p s'.toSh (.ret a) ∧ Q' a s' := by
    rintro sh sh' p p' Q' hf ⟨n, s', a, h1, h2⟩
    exact ⟨n + 1, s', a, .step hf h1, h2⟩
  induction p with
  | ret a => intro s h; exact ⟨0, s, a, .refl _ _, h⟩
  | ub => intro s h; exact h.elim
  | stuck => intro s h; exact h.elim
  | flag k => intro s h; exact h.elim
  | loadRoot k ih =>
    intro s h
    exact hmk (.mk (.loadRoot _ _) (by intros; contradiction)) (ih _ h)
  | load p k ih =>
    intro s h
    obtain ⟨c, e, h⟩ := h
    exact hmk (.mk (.load _ _ _ _ e) (by intros; contradiction)) (ih _ h)
  | loadCell w k ih =>
    intro s h
    exact hmk (.mk (.loadCell _ _ _) (by intros; contradiction)) (ih _ h)
  | storeRoot p k ih =>
    intro s h
    obtain ⟨s', e, h⟩ := h
    refine hmk (.mk (.storeRoot _ _ _) (by intros; contradiction)) ?_
    rw [← e]; exact ih h
  | casRoot o n k ih =>
    intro s h
    rcases h with ⟨e, h⟩ | ⟨e, s', e', h⟩
    · exact hmk (.mk (.casRootFail _ _ _ _ e) (by intros; contradiction)) (ih _ h)
    · refine hmk (.mk (.casRootOk _ _ _ _ e) (by intros; contradiction)) ?_
      rw [← e']; exact ih _ h
  | store p c k ih =>
    intro s h
    obtain ⟨s', e, h⟩ := h
    refine hmk (.mk (.store _ _ _ _) (by intros; contradiction)) ?_
    rw [← e]; exact ih h
  | cas p o n k ih =>
    intro s h
    rcases h with ⟨e, h⟩ | ⟨e, _, s', e', h⟩
    · refine hmk (.mk (.casFail _ _ _ _ _) ?_) (ih _ h)
      intro q o' n' k' e1 e2
      cases e1
      exact absurd e2 e
    · refine hmk (.mk (.casOk _ _ _ _ _ e) ?_) ?_
      · intro q o' n' k' e1 e2
        cases e1
        exact ⟨rfl, rfl⟩
      · rw [← e']; exact ih _ h
  | newPid k ih =>
    intro s h
    obtain ⟨s', e, h⟩ := h
    refine hmk (.mk (.newPid _ _) (by intros; contradiction)) ?_
    rw [← e]; exact ih _ h
  | newCell k ih =>
    intro s h
    obtain ⟨s', e, h⟩ := h
    refine hmk (.mk (.newCell _ _) (by intros; contradiction)) ?_
    rw [← e]; exact ih _ h
  | storeCell w p k ih =>
    intro s h
    obtain ⟨s', e, h⟩ := h
    refine hmk (.mk (.storeCell _ _ _ _) (by intros; contradiction)) ?_
    rw [← e]; exact ih h

/-! ## Spurious failures -/

/-- A run of `m` steps; `i` times a weak compare-and-swap fails although the slot holds the expected
value. -/
inductive Loose : Nat → Nat → Sh K V → Prog K V α → Sh K V → Prog K V α → Prop
  | refl (s : Sh K V) (p : Prog K V α) : Loose 0 0 s p s p
  | step {m i : Nat} {s s' s'' : Sh K V} {p p' p'' : Prog K V α} : Firm s p s' p' →
      Loose m i s' p' s'' p'' → Loose (m + 1) i s p s'' p''
  | fail {m i : Nat} {s s'' : Sh K V} {q : PID} {o n : Chain K V} {k : Bool → Prog K V α}
      {p'' : Prog K V α} : s.mt q = some o → Weak o n → Loose m i s (k false) s'' p'' →
      Loose (m + 1) (i + 1) s (.cas q o n k) s'' p''

theorem FirmRun.loose {n : Nat} {s s' : Sh K V} {p p' : Prog K V α} (h : FirmRun n s p s' p') :
    Loose n 0 s p s' p' := by
  induction h with
  | refl s p => exact .refl _ _
  | step f _ ih => exact .step f ih

theorem Loose.alone {m i : Nat} {s s' : Sh K V} {p p' : Prog K V α} (h : Loose m i s p s' p') :
    Alone m s p s' p' := by
  induction h with
  | refl s p => exact .refl _ _
  | step f _ ih => exact .step f.step ih
  | fail _ _ _ ih => exact .step (.casFail _ _ _ _ _) ih

/-- What a program that ends does with at most `j` spurious failures: no run has more than `n` steps,
one that has not returned goes on, and a result has `Q`. -/
def Closes (n j : Nat) (Q : α → St K V → Prop) (sh : Sh K V) (p : Prog K V α) : Prop :=
  ∀ m i sh' p', i ≤ j → Loose m i sh p sh' p' → m ≤ n ∧
    ((∃ a s', p' = .ret a ∧ s'.toSh = sh' ∧ Q a s') ∨ ∃ sh'' p'', Firm sh' p' sh'' p'')

theorem Closes.ret {j : Nat} {Q : α → St K V → Prop} {s : St K V} {a : α} (h : Q a s) :
    Closes 0 j Q s.toSh (.ret a) := by
  intro m i sh' p' _ hr
  cases hr with
  | refl => exact ⟨Nat.le_refl _, Or.inl ⟨a, s, rfl, rfl, h⟩⟩
  | step f _ => cases f.step

theorem Closes.step {n j : Nat} {Q : α → St K V → Prop} {sh sh1 : Sh K V} {p p1 : Prog K V α}
    (f : Firm sh p sh1 p1) (h : Closes n j Q sh1 p1)
    (hw : ∀ q o c k, p = .cas q o c k → sh.mt q = some o → Weak o c → ∀ i, i < j →
      Closes n i Q sh (k false)) : Closes (n + 1) j Q sh p := by
  intro m i sh' p' hi hr
  cases hr with
  | refl => exact ⟨Nat.zero_le _, Or.inr ⟨_, _, f⟩⟩
  | step f' hr =>
    obtain ⟨e1, e2⟩ := f.det f'
    subst e1 e2
    obtain ⟨g1, g2⟩ := h _ _ _ _ hi hr
    exact ⟨Nat.succ_le_succ g1, g2⟩
  | @fail m i _ _ q o c k _ e1 e2 hr =>
    obtain ⟨g1, g2⟩ := hw q o c k rfl e1 e2 i hi _ _ _ _ (Nat.le_refl _) hr
    exact ⟨Nat.succ_le_succ g1, g2⟩

theorem Closes.le {n n' j : Nat} {Q : α → St K V → Prop} {sh : Sh K V} {p : Prog K V α}
    (h : Closes n j Q sh p) (hn : n ≤ n') : Closes n' j Q sh p := fun m i sh' p' hi hr =>
  ⟨Nat.le_trans (h m i sh' p' hi hr).1 hn, (h m i sh' p' hi hr).2⟩

theorem Closes.fewer {n i j : Nat} {Q : α → St K V → Prop} {sh : Sh K V} {p : Prog K V α}
    (h : Closes n j Q sh p) (hi : i ≤ j) : Closes n i Q sh p := fun m i' sh' p' hi' hr =>
  h m i' sh' p' (Nat.le_trans hi' hi) hr

end

end BwTree
