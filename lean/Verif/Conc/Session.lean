import Verif.Conc.TotOps
import Verif.Conc.Fuel
import Verif.Spec.Calls
import Verif.Spec.Scan

/-!
# Sessions: complete calls of one thread (model and helper lemmas)
-/

namespace BwTree

set_option linter.unusedSectionVars false

variable {K V : Type} [LinearOrder K] {cfg : Cfg K}

/-- One thread issues complete calls one after the other, from the shared memory `sh0` on.  A call
takes `n` steps, and `j` times a weak compare-and-swap fails spuriously.  The session records the calls and what they returned, the
shared memory after them, and the iterator the thread holds (`Sys.it`).  `f` bounds the number of
loop iterations of a call and is arbitrary. -/
inductive Session (cfg : Cfg K) (sh0 : Sh K V) : List (Spec.Call K V × Spec.Ret K V) → Sh K V →
    Option (PID × K × Spec.Bound K) → Prop
  | start : Session cfg sh0 [] sh0 none
  /-- a point operation. -/
  | op {l : List (Spec.Call K V × Spec.Ret K V)} {sh sh' : Sh K V}
      {it : Option (PID × K × Spec.Bound K)} {n j f : Nat} {o : Spec.Op K V} {r : Spec.Res V} :
      Session cfg sh0 l sh it → Loose n j sh (runOp cfg f o) sh' (.ret r) →
      Session cfg sh0 (l ++ [(.op o, .res r)]) sh' it
  /-- `Scan`. -/
  | scan {l : List (Spec.Call K V × Spec.Ret K V)} {sh sh' : Sh K V}
      {it : Option (PID × K × Spec.Bound K)} {n j f : Nat} {b e : Spec.Bound K}
      {x : List (K × V) × Option (K × PID)} :
      Session cfg sh0 l sh it → Loose n j sh (scanFirst cfg f b e) sh' (.ret x) →
      Session cfg sh0 (l ++ [(.visit b e, (visitOut e x).1)]) sh' (visitOut e x).2
  /-- the iterator goes to the next node. -/
  | next {l : List (Spec.Call K V × Spec.Ret K V)} {sh sh' : Sh K V} {n j f : Nat} {p : PID} {k : K}
      {e : Spec.Bound K} {x : List (K × V) × Option (K × PID)} :
      Session cfg sh0 l sh (some (p, k, e)) → Loose n j sh (scanNext cfg f p k e) sh' (.ret x) →
      Session cfg sh0 (l ++ [(.visit (some (k, true)) e, (visitOut e x).1)]) sh' (visitOut e x).2

/-! ## Sessions are executions -/

theorem AStep.bind {α β : Type} {s s' : Sh K V} {p p' : Prog K V α} (h : AStep s p s' p')
    (g : α → Prog K V β) : AStep s (p.bind g) s' (p'.bind g) := by
  cases h with
  | loadRoot k => exact .loadRoot _ _
  | storeRoot p k => exact .storeRoot _ _ _
  | casRootOk o n k hr => exact .casRootOk _ _ _ _ hr
  | casRootFail o n k hr => exact .casRootFail _ _ _ _ hr
  | load p k c hm => exact .load _ _ _ _ hm
  | loadNull p k hm => exact .loadNull _ _ _ hm
  | store p c k => exact .store _ _ _ _
  | casOk p o n k hm => exact .casOk _ _ _ _ _ hm
  | casFail p o n k => exact .casFail _ _ _ _ _
  | newPid k => exact .newPid _ _
  | newCell k => exact .newCell _ _
  | loadCell w k => exact .loadCell _ _ _
  | storeCell w p k => exact .storeCell _ _ _ _

/-- Steps of a thread that runs alone, in the system. -/
theorem Run.alone {α : Type} {S0 : Sys K V} {h : List (Spec.Event K V)} {t : Nat}
    {c : Spec.Call K V} {g : α → Prog K V (Out K V)} {n : Nat} {sh sh' : Sh K V}
    {p p' : Prog K V α} (ha : Alone n sh p sh' p') : ∀ {S : Sys K V}, Run cfg S0 h S → S.sh = sh →
    S.th t = .run c (p.bind g) → (∀ u, u ≠ t → S.th u = .idle) →
    ∃ S', Run cfg S0 h S' ∧ S'.sh = sh' ∧ S'.th t = .run c (p'.bind g) ∧
      (∀ u, u ≠ t → S'.th u = .idle) ∧ S'.it = S.it := by
  induction ha with
  | refl s p => intro S h1 h2 h3 h4; exact ⟨S, h1, h2, h3, h4, rfl⟩
  | step a _ ih =>
    intro S h1 h2 h3 h4
    obtain ⟨S', e1, e2, e3, e4, e5⟩ := ih (h1.tau (.step S t c _ _ _ h3 (h2 ▸ a.bind g))) rfl
      (upd_same _ _ _) (fun u hu => by simp only [upd_ne _ _ hu]; exact h4 u hu)
    exact ⟨S', e1, e2, e3, e4, e5⟩

theorem Session.run {sh0 sh : Sh K V} {l : List (Spec.Call K V × Spec.Ret K V)}
    {it : Option (PID × K × Spec.Bound K)} (h : Session cfg sh0 l sh it) (t : Nat) :
    ∃ S, Run cfg (Sys.start sh0) (Spec.callHist t l) S ∧ S.sh = sh ∧ (∀ u, S.th u = .idle) ∧
      S.it t = it := by
  induction h with
  | start => exact ⟨_, .nil, rfl, fun _ => rfl, rfl⟩
  | @op l sh sh' it n j f o r h hf ih =>
    obtain ⟨S, h1, h2, h3, h4⟩ := ih
    obtain ⟨S1, e1, e2, e3, e4, e5⟩ := (h1.event (.op S t f o (h3 t))).alone hf.alone (t := t) h2
      (upd_same _ _ _) (fun u hu => by simp only [upd_ne _ _ hu]; exact h3 u)
    refine ⟨{ S1 with th := upd S1.th t .idle }, ?_, e2, fun u => ?_, ?_⟩
    · rw [Spec.callHist_append, Spec.callHist, Spec.callHist, List.append_cons]
      exact e1.event (.retOp S1 t o (.res r, none) e3)
    · by_cases hu : u = t
      · subst hu; exact upd_same _ _ _
      · simp only [upd_ne _ _ hu]; exact e4 u hu
    · show S1.it t = it
      rw [e5]; exact h4
  | @scan l sh sh' it n j f b e x h hf ih =>
    obtain ⟨S, h1, h2, h3, h4⟩ := ih
    obtain ⟨S1, e1, e2, e3, e4, e5⟩ := (h1.event (.scan S t f b e (h3 t))).alone hf.alone (t := t) h2
      (upd_same _ _ _) (fun u hu => by simp only [upd_ne _ _ hu]; exact h3 u)
    refine ⟨{ S1 with th := upd S1.th t .idle, it := upd S1.it t (visitOut e x).2 }, ?_, e2,
      fun u => ?_, ?_⟩
    · rw [Spec.callHist_append, Spec.callHist, Spec.callHist, List.append_cons]
      exact e1.event (.retVisit S1 t b e (visitOut e x) e3)
    · by_cases hu : u = t
      · subst hu; exact upd_same _ _ _
      · simp only [upd_ne _ _ hu]; exact e4 u hu
    · exact upd_same _ _ _
  | @next l sh sh' n j f p k e x h hf ih =>
    obtain ⟨S, h1, h2, h3, h4⟩ := ih
    obtain ⟨S1, e1, e2, e3, e4, e5⟩ := (h1.event (.next S t f p k e (h3 t) h4)).alone hf.alone
      (t := t) h2 (upd_same _ _ _) (fun u hu => by simp only [upd_ne _ _ hu]; exact h3 u)
    refine ⟨{ S1 with th := upd S1.th t .idle, it := upd S1.it t (visitOut e x).2 }, ?_, e2,
      fun u => ?_, ?_⟩
    · rw [Spec.callHist_append, Spec.callHist, Spec.callHist, List.append_cons]
      exact e1.event (.retVisit S1 t _ e (visitOut e x) e3)
    · by_cases hu : u = t
      · subst hu; exact upd_same _ _ _
      · simp only [upd_ne _ _ hu]; exact e4 u hu
    · exact upd_same _ _ _

/-! ## The invariant between calls -/

theorem weak_push {c : Chain K V} (d : Delta K V) (diff : Int) : Weak c (Chain.push d c diff) :=
  ⟨_, rfl⟩

/-- A program with a total specification ends, with any larger bound on the loops. -/
theorem tp_closes {α : Type} {p : Prog K V α} {Q : α → St K V → Prop} : ∀ {j : Nat} {s : St K V},
    tp j p Q s → ∃ n, ∀ q, Ext p q → Closes n j Q s.toSh q := by
  induction p with
  | ret a => intro j s h; exact ⟨0, fun q e => by cases e; exact .ret h⟩
  | ub => intro j s h; exact h.elim
  | stuck => intro j s h; exact h.elim
  | flag k => intro j s h; exact h.elim
  | loadRoot k ih =>
    intro j s h
    obtain ⟨n, h1⟩ := ih _ h
    refine ⟨n + 1, fun q e => ?_⟩
    cases e with
    | loadRoot e =>
      exact .step (.mk (.loadRoot _ _) (by intros; contradiction)) (h1 _ (e _))
        (by intros; contradiction)
  | load p k ih =>
    intro j s h
    obtain ⟨c, ec, h⟩ := h
    obtain ⟨n, h1⟩ := ih _ h
    refine ⟨n + 1, fun q e => ?_⟩
    cases e with
    | load _ e =>
      exact .step (.mk (.load _ _ _ _ ec) (by intros; contradiction)) (h1 _ (e _))
        (by intros; contradiction)
  | loadCell w k ih =>
    intro j s h
    obtain ⟨n, h1⟩ := ih _ h
    refine ⟨n + 1, fun q e => ?_⟩
    cases e with
    | loadCell _ e =>
      exact .step (.mk (.loadCell _ _ _) (by intros; contradiction)) (h1 _ (e _))
        (by intros; contradiction)
  | storeRoot p k ih =>
    intro j s h
    obtain ⟨s', es, h⟩ := h
    obtain ⟨n, h1⟩ := ih h
    refine ⟨n + 1, fun q e => ?_⟩
    cases e with
    | storeRoot _ e =>
      exact .step (.mk (.storeRoot _ _ _) (by intros; contradiction)) (es ▸ h1 _ e)
        (by intros; contradiction)
  | casRoot o c k ih =>
    intro j s h
    rcases h with ⟨eo, h⟩ | ⟨eo, s', es, h⟩
    · obtain ⟨n, h1⟩ := ih _ h
      refine ⟨n + 1, fun q e => ?_⟩
      cases e with
      | casRoot _ _ e =>
        exact .step (.mk (.casRootFail _ _ _ _ eo) (by intros; contradiction)) (h1 _ (e _))
          (by intros; contradiction)
    · obtain ⟨n, h1⟩ := ih _ h
      refine ⟨n + 1, fun q e => ?_⟩
      cases e with
      | casRoot _ _ e =>
        exact .step (.mk (.casRootOk _ _ _ _ eo) (by intros; contradiction)) (es ▸ h1 _ (e _))
          (by intros; contradiction)
  | store p c k ih =>
    intro j s h
    obtain ⟨s', es, h⟩ := h
    obtain ⟨n, h1⟩ := ih h
    refine ⟨n + 1, fun q e => ?_⟩
    cases e with
    | store _ _ e =>
      exact .step (.mk (.store _ _ _ _) (by intros; contradiction)) (es ▸ h1 _ e)
        (by intros; contradiction)
  | cas p o c k ih =>
    intro j s h
    rcases h with ⟨eo, h⟩ | ⟨eo, hw, s', es, h⟩
    · obtain ⟨n, h1⟩ := ih _ h
      refine ⟨n + 1, fun q e => ?_⟩
      cases e with
      | cas _ _ _ e =>
        refine .step (.mk (.casFail _ _ _ _ _) ?_) (h1 _ (e _)) ?_
        · intro q' o' n' k' e1 e2
          cases e1
          exact absurd e2 eo
        · intro q' o' n' k' e1 e2
          cases e1
          exact absurd e2 eo
    · obtain ⟨n, h1⟩ := ih _ h
      have h2 : ∃ n', ∀ q, Ext (k false) q → Weak o c → ∀ i, i < j → Closes n' i Q s.toSh q := by
        cases j with
        | zero => exact ⟨0, fun _ _ _ i hi => absurd hi (Nat.not_lt_zero _)⟩
        | succ j =>
          by_cases w : Weak o c
          · obtain ⟨n', h3⟩ := ih _ (hw w j (Nat.lt_succ_self _))
            exact ⟨n', fun q e _ i hi => (h3 q e).fewer (Nat.le_of_lt_succ hi)⟩
          · exact ⟨0, fun _ _ w' => absurd w' w⟩
      obtain ⟨n', h3⟩ := h2
      refine ⟨max n n' + 1, fun q e => ?_⟩
      cases e with
      | cas _ _ _ e =>
        refine .step (.mk (.casOk _ _ _ _ _ eo) ?_) ((es ▸ h1 _ (e _)).le (Nat.le_max_left _ _)) ?_
        · intro q' o' n' k' e1 e2
          cases e1
          exact ⟨rfl, rfl⟩
        · intro q' o' n' k' e1 _ e3 i hi
          cases e1
          exact (h3 _ (e _) e3 i hi).le (Nat.le_max_right _ _)
  | newPid k ih =>
    intro j s h
    obtain ⟨s', es, h⟩ := h
    obtain ⟨n, h1⟩ := ih _ h
    refine ⟨n + 1, fun q e => ?_⟩
    cases e with
    | newPid e =>
      exact .step (.mk (.newPid _ _) (by intros; contradiction)) (es ▸ h1 _ (e _))
        (by intros; contradiction)
  | newCell k ih =>
    intro j s h
    obtain ⟨s', es, h⟩ := h
    obtain ⟨n, h1⟩ := ih _ h
    refine ⟨n + 1, fun q e => ?_⟩
    cases e with
    | newCell e =>
      exact .step (.mk (.newCell _ _) (by intros; contradiction)) (es ▸ h1 _ (e _))
        (by intros; contradiction)
  | storeCell w p k ih =>
    intro j s h
    obtain ⟨s', es, h⟩ := h
    obtain ⟨n, h1⟩ := ih h
    refine ⟨n + 1, fun q e => ?_⟩
    cases e with
    | storeCell _ _ e =>
      exact .step (.mk (.storeCell _ _ _ _) (by intros; contradiction)) (es ▸ h1 _ e)
        (by intros; contradiction)

/-- A run that ends does so as the total specification says. -/
theorem tp_det {α : Type} {j : Nat} {p : Prog K V α} {Q : α → St K V → Prop} {s : St K V} {n : Nat}
    {sh' : Sh K V} {a : α} (h : tp j p Q s) (hr : Loose n j s.toSh p sh' (.ret a)) :
    ∃ s' : St K V, s'.toSh = sh' ∧ Q a s' := by
  obtain ⟨_, h1⟩ := tp_closes h
  obtain ⟨_, ⟨a', s', e, h2, h3⟩ | ⟨_, _, h2⟩⟩ := h1 p (.refl p) _ _ _ _ (Nat.le_refl _) hr
  · cases e; exact ⟨s', h2, h3⟩
  · cases h2.step

theorem rt_run {α : Type} {p : Prog K V α} {P : α → Prop} {s : St K V} (h : rt s.toSh p P) :
    ∃ n a, FirmRun n s.toSh p s.toSh (.ret a) ∧ P a := by
  obtain ⟨n, s', a, h1, h2, h3⟩ := tp_run (tp_rt (j := 0) (Q := fun a s' => s' = s ∧ P a) h (fun a h => ⟨rfl, h⟩))
  subst h2
  exact ⟨n, a, h1, h3⟩

/-- A program that reads only has no compare-and-swap that could fail. -/
theorem rt_loose {α : Type} {sh : Sh K V} {p : Prog K V α} {P : α → Prop} (h : rt sh p P)
    {n j : Nat} {sh' : Sh K V} {p' : Prog K V α} (hr : Loose n j sh p sh' p') :
    j = 0 ∧ sh' = sh ∧ FirmRun n sh p sh' p' := by
  induction hr with
  | refl s p => exact ⟨rfl, rfl, .refl _ _⟩
  | step f _ ih =>
    have hf := f
    obtain ⟨a, _⟩ := f
    have h2 := fun h3 => (ih h3).imp_right fun x => And.intro x.1 (FirmRun.step hf x.2)
    cases a with
    | loadRoot k => exact h2 h
    | load p k c hm =>
      obtain ⟨c', e, h⟩ := h
      rw [hm] at e; cases e
      exact h2 h
    | loadNull p k hm =>
      obtain ⟨c', e, h⟩ := h
      rw [hm] at e; cases e
    | loadCell w k => exact h2 h
    | _ => exact h.elim
  | fail _ _ _ _ => exact h.elim

theorem rt_det {α : Type} {j : Nat} {p : Prog K V α} {P : α → Prop} {s : St K V} {n : Nat}
    {sh' : Sh K V} {a : α} (h : rt s.toSh p P) (hr : Loose n j s.toSh p sh' (.ret a)) :
    s.toSh = sh' ∧ P a := by
  obtain ⟨s', h1, h2, h3⟩ := tp_det (tp_rt (Q := fun a s' => s' = s ∧ P a) h (fun a h => ⟨rfl, h⟩)) hr
  subst h2
  exact ⟨h1, h3⟩

theorem VisOK.it {s : St K V} {e : Spec.Bound K} {x : List (K × V) × Option (K × PID)}
    (h : VisOK s x) : ItOK s (visitOut e x).2 := by
  intro p k e' he
  cases hx2 : x.2 with
  | none => rw [visitOut, hx2] at he; cases he
  | some y =>
    rw [visitOut, hx2] at he
    have he' : (y.2, y.1, e) = (p, k, e') := Option.some.inj he
    have h1 : y.2 = p := congrArg Prod.fst he'
    have h2 : y.1 = k := congrArg (fun z => z.2.1) he'
    rw [← h1, ← h2]
    exact h _ _ hx2

/-- What holds between the calls of a session. -/
structure Rested (cfg : Cfg K) (s : St K V) (it : Option (PID × K × Spec.Bound K)) : Prop where
  si : SI0 cfg s
  nw : NW cfg noP s
  it : ItOK s it

/-- A point operation of a session. -/
theorem Rested.op {s : St K V} {it : Option (PID × K × Spec.Bound K)} (h : Rested cfg s it)
    (hR : Roomy cfg) (hc : CfgOK2 cfg) (o : Spec.Op K V) : ∃ s0 : St K V, s0.toSh = s.toSh ∧
    ∃ N, ∀ j f, N + j ≤ f → tp j (runOp cfg f o) (fun _ s' => Rested cfg s' it) s0 := by
  obtain ⟨⟨fl, h1⟩, h2, h3⟩ := h
  refine ⟨{ s with ops := Spec.setOp s.ops 0 (.pending (.op o)) }, rfl,
    need cfg { s with ops := Spec.setOp s.ops 0 (.pending (.op o)) }, fun j f hf => ?_⟩
  refine tp_mono (runOp_tot (t := 0) hR hc (h1.setOps _) h2 (by simp [Spec.setOp]) hf) ?_
  rintro _ s' ⟨i1, i2, i3⟩
  exact ⟨i1, i3, fun p k e he => i2.info _ _ (h3 p k e he)⟩

theorem Ext.firm {α : Type} {sh sh' : Sh K V} {p p' q : Prog K V α} (h : Ext p q)
    (hs : Firm sh p sh' p') : ∃ q', Firm sh q sh' q' ∧ Ext p' q' := by
  obtain ⟨hs, hf⟩ := hs
  by_cases hc : ∃ x o n k, p = .cas x o n k ∧ sh.mt x = some o
  · obtain ⟨x, o, n, k, rfl, hm⟩ := hc
    obtain ⟨e1, e2⟩ := hf x o n k rfl hm
    subst e1 e2
    cases h with
    | cas _ _ _ e =>
      refine ⟨_, .mk (.casOk _ _ _ _ _ hm) ?_, e true⟩
      rintro x' o' n' k' e' _
      cases e'
      exact ⟨rfl, rfl⟩
  · obtain ⟨q', h1, h2⟩ := h.step hs
    refine ⟨q', .mk h1 ?_, h2⟩
    rintro x o n k rfl hm
    exfalso
    cases h with
    | stuck => cases hs
    | cas _ _ _ e => exact hc ⟨_, _, _, _, rfl, hm⟩

/-- With spurious failures. -/
theorem Ext.loose {α : Type} {n j : Nat} {sh sh' : Sh K V} {p p' q : Prog K V α} (h : Ext p q)
    (hr : Loose n j sh p sh' p') : ∃ q', Loose n j sh q sh' q' ∧ Ext p' q' := by
  induction hr generalizing q with
  | refl s p => exact ⟨q, .refl _ _, h⟩
  | step f _ ih =>
    obtain ⟨q1, h1, h2⟩ := h.firm f
    obtain ⟨q2, h3, h4⟩ := ih h2
    exact ⟨q2, .step h1 h3, h4⟩
  | fail e w _ ih =>
    cases h with
    | cas _ _ _ h =>
      obtain ⟨q2, h3, h4⟩ := ih (h _)
      exact ⟨q2, .fail e w h3, h4⟩

theorem Ext.looseRet {α : Type} {n j : Nat} {sh sh' : Sh K V} {p q : Prog K V α} {a : α} (h : Ext p q)
    (hr : Loose n j sh p sh' (.ret a)) : Loose n j sh q sh' (.ret a) := by
  obtain ⟨q', h1, h2⟩ := h.loose hr
  cases h2
  exact h1

/-- A run that ends does so with a larger bound on the loops as well. -/
theorem Ext.firmRun {α : Type} {n : Nat} {sh sh' : Sh K V} {p p' q : Prog K V α} (h : Ext p q)
    (hr : FirmRun n sh p sh' p') : ∃ q', FirmRun n sh q sh' q' ∧ Ext p' q' := by
  induction hr generalizing q with
  | refl s p => exact ⟨q, .refl _ _, h⟩
  | step f _ ih =>
    obtain ⟨q1, h1, h2⟩ := h.firm f
    obtain ⟨q2, h3, h4⟩ := ih h2
    exact ⟨q2, .step h1 h3, h4⟩

theorem Ext.firmRet {α : Type} {n : Nat} {sh sh' : Sh K V} {p q : Prog K V α} {a : α} (h : Ext p q)
    (hr : FirmRun n sh p sh' (.ret a)) : FirmRun n sh q sh' (.ret a) := by
  obtain ⟨q', h1, h2⟩ := h.firmRun hr
  cases h2
  exact h1

/-- Steps without spurious failures are determined. -/
theorem FirmRun.unique {α : Type} {n n' : Nat} {sh sh' sh'' : Sh K V} {p q : Prog K V α} {a : α}
    (h : FirmRun n sh p sh' (.ret a)) (h' : FirmRun n' sh p sh'' q) :
    n' ≤ n ∧ (∀ b, q = .ret b → n' = n ∧ sh'' = sh' ∧ b = a) := by
  induction n generalizing n' sh p with
  | zero =>
    cases h with
    | refl =>
      cases h' with
      | refl => exact ⟨Nat.le_refl _, fun b e => by cases e; exact ⟨rfl, rfl, rfl⟩⟩
      | step f _ => cases f.step
  | succ n ih =>
    cases h with
    | step f h =>
      cases h' with
      | refl =>
        refine ⟨Nat.zero_le _, ?_⟩
        rintro b rfl
        cases f.step
      | step f' h' =>
        obtain ⟨e1, e2⟩ := f.det f'
        subst e1 e2
        obtain ⟨g1, g2⟩ := ih h h'
        refine ⟨Nat.succ_le_succ g1, fun b e => ?_⟩
        obtain ⟨g3, g4⟩ := g2 b e
        exact ⟨by rw [g3], g4⟩

/-- The invariant holds between the calls of a session. -/
theorem Session.rested (hR : Roomy cfg) (hc : CfgOK2 cfg) {m : K → Option V} {sh0 sh : Sh K V}
    (hi : Init cfg m sh0) {l : List (Spec.Call K V × Spec.Ret K V)}
    {it : Option (PID × K × Spec.Bound K)} (h : Session cfg sh0 l sh it) :
    ∃ s : St K V, s.toSh = sh ∧ Rested cfg s it := by
  induction h with
  | start =>
    obtain ⟨s, h1, h2, h3⟩ := hi.tot hc
    exact ⟨s, h1, h2, h3, fun _ _ _ e => by cases e⟩
  | @op l sh sh' it n j f o r h hf ih =>
    obtain ⟨s, rfl, h2⟩ := ih
    obtain ⟨s0, h3, N, h4⟩ := h2.op hR hc o
    rw [← h3] at hf
    exact tp_det (h4 j (max f (N + j)) (Nat.le_max_right _ _))
      ((runOp_ext (Nat.le_max_left f (N + j)) o).looseRet hf)
  | @scan l sh sh' it n j f b e x h hf ih =>
    obtain ⟨s, rfl, ⟨fl, h2⟩, h3, h4⟩ := ih
    obtain ⟨e1, e2⟩ := rt_det (scanFirst_tot hc h2 h3 (Nat.le_max_right f _))
      ((scanFirst_ext (Nat.le_max_left f _)).looseRet hf)
    exact ⟨s, e1, ⟨fl, h2⟩, h3, e2.it⟩
  | @next l sh sh' n j f p k e x h hf ih =>
    obtain ⟨s, rfl, ⟨fl, h2⟩, h3, h4⟩ := ih
    obtain ⟨e1, e2⟩ := rt_det (scanNext_tot hc h2 h3 (Nat.le_max_right f _) (h4 p k e rfl))
      ((scanNext_ext (Nat.le_max_left f _)).looseRet hf)
    exact ⟨s, e1, ⟨fl, h2⟩, h3, e2.it⟩

/-- A call ends. -/
theorem Session.op_ends (hR : Roomy cfg) (hc : CfgOK2 cfg) {m : K → Option V} {sh0 sh : Sh K V}
    (hi : Init cfg m sh0) {l : List (Spec.Call K V × Spec.Ret K V)}
    {it : Option (PID × K × Spec.Bound K)} (h : Session cfg sh0 l sh it) (o : Spec.Op K V) :
    ∃ n sh' r N, ∀ f, N ≤ f → FirmRun n sh (runOp cfg f o) sh' (.ret r) := by
  obtain ⟨s, rfl, h2⟩ := h.rested hR hc hi
  obtain ⟨s0, h3, N, h4⟩ := h2.op hR hc o
  obtain ⟨n, s', r, h5, _⟩ := tp_run (h4 0 N (Nat.le_refl _))
  rw [h3] at h5
  exact ⟨n, s'.toSh, r, N, fun f hf => (runOp_ext hf o).firmRet h5⟩

/-- A call ends, with any number of spurious failures. -/
theorem Session.op_closes (hR : Roomy cfg) (hc : CfgOK2 cfg) {m : K → Option V} {sh0 sh : Sh K V}
    (hi : Init cfg m sh0) {l : List (Spec.Call K V × Spec.Ret K V)}
    {it : Option (PID × K × Spec.Bound K)} (h : Session cfg sh0 l sh it) (o : Spec.Op K V) (j : Nat) :
    ∃ n N, ∀ f, N ≤ f → ∀ n' j' sh' p, j' ≤ j → Loose n' j' sh (runOp cfg f o) sh' p →
      n' ≤ n ∧ ((∃ r, p = .ret r) ∨ ∃ sh'' p', Firm sh' p sh'' p') := by
  obtain ⟨s, rfl, h2⟩ := h.rested hR hc hi
  obtain ⟨s0, h3, N, h4⟩ := h2.op hR hc o
  obtain ⟨n, h5⟩ := tp_closes (h4 j (N + j) (Nat.le_refl _))
  rw [h3] at h5
  refine ⟨n, N + j, fun f hf n' j' sh' p hj hr => ?_⟩
  obtain ⟨g1, ⟨a, _, e, _, _⟩ | g2⟩ := h5 _ (runOp_ext hf o) _ _ _ _ hj hr
  · exact ⟨g1, Or.inl ⟨a, e⟩⟩
  · exact ⟨g1, Or.inr g2⟩

theorem Session.scan_ends (hR : Roomy cfg) (hc : CfgOK2 cfg) {m : K → Option V} {sh0 sh : Sh K V}
    (hi : Init cfg m sh0) {l : List (Spec.Call K V × Spec.Ret K V)}
    {it : Option (PID × K × Spec.Bound K)} (h : Session cfg sh0 l sh it) (b e : Spec.Bound K) :
    ∃ n x N, ∀ f, N ≤ f → FirmRun n sh (scanFirst cfg f b e) sh (.ret x) := by
  obtain ⟨s, rfl, ⟨fl, h2⟩, h3, h4⟩ := h.rested hR hc hi
  obtain ⟨n, x, h5, _⟩ := rt_run (scanFirst_tot hc h2 h3 (b := b) (e := e) (Nat.le_refl _))
  exact ⟨n, x, _, fun f hf => (scanFirst_ext hf).firmRet h5⟩

theorem Session.next_ends (hR : Roomy cfg) (hc : CfgOK2 cfg) {m : K → Option V} {sh0 sh : Sh K V}
    (hi : Init cfg m sh0) {l : List (Spec.Call K V × Spec.Ret K V)} {p : PID} {k : K}
    {e : Spec.Bound K} (h : Session cfg sh0 l sh (some (p, k, e))) :
    ∃ n x N, ∀ f, N ≤ f → FirmRun n sh (scanNext cfg f p k e) sh (.ret x) := by
  obtain ⟨s, rfl, ⟨fl, h2⟩, h3, h4⟩ := h.rested hR hc hi
  obtain ⟨n, x, h5, _⟩ := rt_run (scanNext_tot hc h2 h3 (e := e) (Nat.le_refl _) (h4 p k e rfl))
  exact ⟨n, x, _, fun f hf => (scanNext_ext hf).firmRet h5⟩

/-- The calls return what the map returns. -/
theorem Session.meets (hc : CfgOK2 cfg) {m : K → Option V} {sh0 sh : Sh K V}
    (hi : Init cfg m sh0) {l : List (Spec.Call K V × Spec.Ret K V)}
    {it : Option (PID × K × Spec.Bound K)} (h : Session cfg sh0 l sh it) : Spec.Meets m l := by
  obtain ⟨S, h1, _⟩ := h.run 0
  obtain ⟨s, _, h2⟩ := hi.run hc h1
  exact h2.calls.1

/-- A visit as a call with its return. -/
def visitCall (e : Spec.Bound K) (v : Spec.Visit K V) : Spec.Call K V × Spec.Ret K V :=
  (.visit v.b e, .page v.recs v.next)

/-- An iterator reaches the end. -/
theorem Session.finish (hc : CfgOK2 cfg) {m : K → Option V} {sh0 : Sh K V}
    (hm : ∀ {l sh it}, Session cfg sh0 l sh it → Spec.Meets m l) {s : St K V} {e : Spec.Bound K} : ∀ (N : Nat)
    {l : List (Spec.Call K V × Spec.Ret K V)} {p : PID} {k : K},
    (after s 0 (some k)).card < N → Session cfg sh0 l s.toSh (some (p, k, e)) →
    Rested cfg s (some (p, k, e)) →
    ∃ vs, Session cfg sh0 (l ++ vs.map (visitCall e)) s.toSh none ∧
      Spec.Linked (some (k, true)) vs ∧ Spec.Finished vs := by
  intro N
  induction N with
  | zero => intro l p k hn; exact absurd hn (Nat.not_lt_zero _)
  | succ N ih =>
    intro l p k hn h ⟨⟨fl, h2⟩, h3, h4⟩
    obtain ⟨n, x, h5, h6⟩ := rt_run (scanNext_tot hc h2 h3 (e := e) (Nat.le_refl _) (h4 p k e rfl))
    have h7 := h.next h5.loose
    obtain ⟨recs, nx⟩ := x
    cases nx with
    | none =>
      refine ⟨[⟨some (k, true), recs, none⟩], h7, ⟨rfl, fun h => absurd rfl h⟩, ⟨_, rfl, rfl⟩⟩
    | some y =>
      obtain ⟨k', p'⟩ := y
      have hlt : k < k' := by
        have hm := (Spec.Meets.append.mp (hm h7)).2.1
        cases hm with
        | visit _ _ _ _ ok =>
          rcases ok.next_from k' k true rfl rfl with e | ⟨e, _⟩
          · exact e
          · cases e
      have hcard := after_lt h2.inv (low := some k) (h6 k' p' rfl) (by intro x hx; cases hx; exact hlt)
      have hN : (after s 0 (some k')).card < N := by omega
      obtain ⟨vs, g1, g2, g3⟩ := ih hN h7 ⟨⟨fl, h2⟩, h3, h6.it⟩
      refine ⟨⟨some (k, true), recs, some k'⟩ :: vs, ?_, ⟨rfl, fun _ => ⟨k', rfl, g2⟩⟩, ?_⟩
      · rw [List.map_cons, List.append_cons]; exact g1
      · obtain ⟨v, e1, e2⟩ := g3
        refine ⟨v, ?_, e2⟩
        cases vs with
        | nil => cases e1
        | cons a b => rw [List.getLast?_cons_cons]; exact e1

/-- A scan reaches the end. -/
theorem Session.scan_allOf (hc : CfgOK2 cfg) {m : K → Option V} {sh0 : Sh K V}
    (hm : ∀ {l sh it}, Session cfg sh0 l sh it → Spec.Meets m l) {s : St K V}
    {l : List (Spec.Call K V × Spec.Ret K V)} {it : Option (PID × K × Spec.Bound K)}
    (h : Session cfg sh0 l s.toSh it) (hr : Rested cfg s it) (b e : Spec.Bound K) :
    ∃ vs, Session cfg sh0 (l ++ vs.map (visitCall e)) s.toSh none ∧
      Spec.Linked b vs ∧ Spec.Finished vs := by
  obtain ⟨⟨fl, h2⟩, h3, h4⟩ := hr
  obtain ⟨n, x, h5, h6⟩ := rt_run (scanFirst_tot hc h2 h3 (b := b) (e := e) (Nat.le_refl _))
  have h7 := h.scan h5.loose
  obtain ⟨recs, nx⟩ := x
  cases nx with
  | none => exact ⟨[⟨b, recs, none⟩], h7, ⟨rfl, fun h => absurd rfl h⟩, ⟨_, rfl, rfl⟩⟩
  | some y =>
    obtain ⟨k', p'⟩ := y
    obtain ⟨vs, g1, g2, g3⟩ := Session.finish hc hm _ (Nat.lt_succ_self _) h7
      ⟨⟨fl, h2⟩, h3, h6.it⟩
    refine ⟨⟨b, recs, some k'⟩ :: vs, ?_, ⟨rfl, fun _ => ⟨k', rfl, g2⟩⟩, ?_⟩
    · rw [List.map_cons, List.append_cons]; exact g1
    · obtain ⟨v, e1, e2⟩ := g3
      refine ⟨v, ?_, e2⟩
      cases vs with
      | nil => cases e1
      | cons a b => rw [List.getLast?_cons_cons]; exact e1

theorem Session.scan_all (hR : Roomy cfg) (hc : CfgOK2 cfg) {m : K → Option V} {sh0 sh : Sh K V}
    (hi : Init cfg m sh0) {l : List (Spec.Call K V × Spec.Ret K V)}
    {it : Option (PID × K × Spec.Bound K)} (h : Session cfg sh0 l sh it) (b e : Spec.Bound K) :
    ∃ vs, Session cfg sh0 (l ++ vs.map (visitCall e)) sh none ∧
      Spec.Linked b vs ∧ Spec.Finished vs := by
  obtain ⟨s, rfl, hr⟩ := h.rested hR hc hi
  exact h.scan_allOf hc (fun h => h.meets hc hi) hr b e

/-- In such a state no page makes a thread wait. -/
theorem Rested.no_wait {it : Option (PID × K × Spec.Bound K)} (h : Rested cfg s it) {p : PID}
    {c : Chain K V} (hm : s.mt p = some c) : c.needWait cfg = false := by
  obtain ⟨⟨fl, h2⟩, h3, h4⟩ := h
  cases hw : s.info p with
  | none =>
    obtain ⟨n, rfl, _⟩ := h2.inv.p.unpub p c hw hm
    simp [Chain.needWait, Chain.isDelta]
  | some x => exact h3.head (F := x.1) (low := x.2) hw hm

/-- No page makes others wait. -/
theorem Session.no_wait (hR : Roomy cfg) (hc : CfgOK2 cfg) {m : K → Option V} {sh0 sh : Sh K V}
    (hi : Init cfg m sh0) {l : List (Spec.Call K V × Spec.Ret K V)}
    {it : Option (PID × K × Spec.Bound K)} (h : Session cfg sh0 l sh it) {p : PID} {c : Chain K V}
    (hm : sh.mt p = some c) : c.needWait cfg = false := by
  obtain ⟨s, rfl, h2⟩ := h.rested hR hc hi
  exact h2.no_wait hm

end BwTree
