import Verif.Bytes.Sim
import Verif.Bytes.System

/-!
# Executions on bytes are executions on records (proof side)
-/

namespace BwTree.Bytes

open Layout (Mem BBound Enc)

set_option linter.unusedSectionVars false

variable {K V : Type} [LinearOrder K] {L : Lay} {OK : Chain K V → Prop}
  {Img : Chain K V → L.C → Prop} {NI : Node K V → L.N → Prop} {DI : Delta K V → L.D → Prop}
  {cfg : Cfg K} {e : Enc K V} {α β : Type}

/-- `G` knows the first `n` objects. -/
def Agree (hist : Nat → Chain K V) (n : Nat) (G : Nat → Chain K V) : Prop := ∀ i, i < n → G i = hist i

theorem Agree.rfl {hist : Nat → Chain K V} {n : Nat} : Agree hist n hist := fun _ _ => Eq.refl _

theorem Agree.upd {hist G : Nat → Chain K V} {n : Nat} {c : Chain K V}
    (h : Agree (upd hist n c) (n + 1) G) : Agree hist n G ∧ G n = c := by
  refine ⟨fun i hi => ?_, ?_⟩
  · rw [h i (Nat.lt_succ_of_lt hi), upd_ne _ _ (Nat.ne_of_lt hi)]
  · rw [h n (Nat.lt_succ_self n), upd_same]

/-- Memory on bytes holds memory on records; `hist` tells the chain of every object. -/
structure ShI (Img : Chain K V → L.C → Prop) (hist : Nat → Chain K V) (s : Sh K V) (b : BSh L.C) :
    Prop where
  null : ∀ p, b.mt p = none → s.mt p = none
  head : ∀ p h, b.mt p = some h → h.id < b.nid ∧ s.mt p = some (hist h.id) ∧ Img (hist h.id) h.ch
  root : b.root = s.root
  cells : b.cells = s.cells
  npid : b.npid = s.npid
  ncell : b.ncell = s.ncell

theorem ShI.publish {hist : Nat → Chain K V} {s : Sh K V} {b : BSh L.C} (h : ShI Img hist s b)
    {ch : Chain K V} {c : L.C} (hi : Img ch c) (p : PID) :
    ShI Img (upd hist b.nid ch) { s with mt := upd s.mt p (some ch) } (b.publish p c) := by
  refine ⟨fun q hq => ?_, fun q x hq => ?_, h.root, h.cells, h.npid, h.ncell⟩
  · have hq : upd b.mt p (some ⟨b.nid, c⟩) q = none := hq
    show upd s.mt p (some ch) q = none
    by_cases e : q = p
    · subst e; rw [upd_same] at hq; cases hq
    · rw [upd_ne _ _ e] at hq ⊢; exact h.null q hq
  · have hq : upd b.mt p (some ⟨b.nid, c⟩) q = some x := hq
    show x.id < b.nid + 1 ∧ upd s.mt p (some ch) q = _ ∧ _
    by_cases e : q = p
    · subst e
      rw [upd_same] at hq ⊢
      cases hq
      exact ⟨Nat.lt_succ_self _, by rw [upd_same], by rw [upd_same]; exact hi⟩
    · rw [upd_ne _ _ e] at hq ⊢
      obtain ⟨h1, h2, h3⟩ := h.head q x hq
      rw [upd_ne _ _ (Nat.ne_of_lt h1)]
      exact ⟨Nat.lt_succ_of_lt h1, h2, h3⟩

/-- One access on bytes is one on records, or takes a page. -/
theorem PSim.step {P : α → β → Prop} {hist : Nat → Chain K V} {s : Sh K V} {b b' : BSh L.C}
    {p : Prog K V α} {q q' : BProg L.C β} (hs : ShI Img hist s b)
    (hp : ∀ G, Agree hist b.nid G → PSim G OK Img P p q) (h : BStep b q b' q') (hu : p ≠ .ub)
    (hok : ∀ x ch, s.mt x = some ch → OK ch) :
    ∃ hist' s' p', (AStep s p s' p' ∨ (s' = s ∧ p' = p ∧ ∃ k, q = .alloc k)) ∧ Agree hist b.nid hist' ∧
      b.nid ≤ b'.nid ∧ ShI Img hist' s' b' ∧ ∀ G, Agree hist' b'.nid G → PSim G OK Img P p' q' := by
  have h0 := hp hist Agree.rfl
  cases h with
  | loadRoot k' =>
    cases h0 with
    | ub => exact absurd rfl hu
    | @loadRoot k _ _ =>
      refine ⟨hist, s, _, Or.inl (.loadRoot s k), Agree.rfl, Nat.le_refl _, hs, fun G hG => ?_⟩
      have hg := hp G hG
      cases hg with
      | loadRoot h1 => rw [hs.root]; exact h1 _
  | storeRoot x k' =>
    cases h0 with
    | ub => exact absurd rfl hu
    | @storeRoot _ k _ _ =>
      refine ⟨hist, _, _, Or.inl (.storeRoot s x k), Agree.rfl, Nat.le_refl _,
        ⟨hs.null, hs.head, rfl, hs.cells, hs.npid, hs.ncell⟩, fun G hG => ?_⟩
      have hg := hp G hG
      cases hg with
      | storeRoot h1 => exact h1
  | casRootOk o n k' h1 =>
    cases h0 with
    | ub => exact absurd rfl hu
    | @casRoot _ _ k _ _ =>
      refine ⟨hist, _, _, Or.inl (.casRootOk s o n k (hs.root ▸ h1)), Agree.rfl, Nat.le_refl _,
        ⟨hs.null, hs.head, rfl, hs.cells, hs.npid, hs.ncell⟩, fun G hG => ?_⟩
      have hg := hp G hG
      cases hg with
      | casRoot h1 => exact h1 _
  | casRootFail o n k' h1 =>
    cases h0 with
    | ub => exact absurd rfl hu
    | @casRoot _ _ k _ _ =>
      refine ⟨hist, _, _, Or.inl (.casRootFail s o n k (hs.root ▸ h1)), Agree.rfl, Nat.le_refl _, hs,
        fun G hG => ?_⟩
      have hg := hp G hG
      cases hg with
      | casRoot h1 => exact h1 _
  | load x k' hd h1 =>
    cases h0 with
    | ub => exact absurd rfl hu
    | @load _ k _ _ =>
      obtain ⟨h2, h3, h4⟩ := hs.head x hd h1
      refine ⟨hist, _, _, Or.inl (.load s x k _ h3), Agree.rfl, Nat.le_refl _, hs, fun G hG => ?_⟩
      have hg := hp G hG
      cases hg with
      | load h5 => exact h5 _ _ ⟨hG _ h2, h4⟩ (hok _ _ h3)
  | loadNull x k' h1 =>
    cases h0 with
    | ub => exact absurd rfl hu
    | @load _ k _ _ =>
      exact ⟨hist, _, _, Or.inl (.loadNull s x k (hs.null x h1)), Agree.rfl, Nat.le_refl _, hs,
        fun G hG => .ub⟩
  | store x c k' =>
    cases h0 with
    | ub => exact absurd rfl hu
    | @store _ ch _ k _ h1 _ =>
      refine ⟨_, _, _, Or.inl (.store s x ch k), ?_, Nat.le_succ _, hs.publish h1 x, fun G hG => ?_⟩
      · exact fun i hi => upd_ne _ _ (Nat.ne_of_lt hi)
      · have hg := hp G (Agree.upd hG).1
        cases hg with
        | store _ h2 => exact h2
  | casOk x o n k' hd h1 h2 =>
    cases h0 with
    | ub => exact absurd rfl hu
    | @cas _ oc _ nc _ k _ e1 e2 _ _ =>
      obtain ⟨h3, h4, h5⟩ := hs.head x hd h1
      rw [h2, e1] at h4
      refine ⟨_, _, _, Or.inl (.casOk s x oc nc k h4), ?_, Nat.le_succ _, hs.publish e2 x,
        fun G hG => ?_⟩
      · exact fun i hi => upd_ne _ _ (Nat.ne_of_lt hi)
      · obtain ⟨g1, g2⟩ := Agree.upd hG
        have hg := hp G g1
        cases hg with
        | cas _ _ h6 _ => exact h6 (hok _ _ h4) _ ⟨g2, e2⟩ rfl
  | casFail x o n k' =>
    cases h0 with
    | ub => exact absurd rfl hu
    | @cas _ oc _ nc _ k _ e1 e2 _ _ =>
      refine ⟨hist, _, _, Or.inl (.casFail s x oc nc k), Agree.rfl, Nat.le_refl _, hs, fun G hG => ?_⟩
      have hg := hp G hG
      cases hg with
      | cas _ _ _ h6 => exact h6
  | checkOk x o k' hd h1 h2 =>
    cases h0 with
    | ub => exact absurd rfl hu
    | @check _ oc _ k _ e1 _ _ =>
      obtain ⟨h3, h4, h5⟩ := hs.head x hd h1
      rw [h2, e1] at h4
      refine ⟨hist, s, k true, Or.inl ?_, Agree.rfl, Nat.le_refl _, hs, fun G hG => ?_⟩
      · have := AStep.casOk s x oc oc k h4
        rwa [show upd s.mt x (some oc) = s.mt from ?_] at this
        funext y
        by_cases ey : y = x
        · subst ey; rw [upd_same, h4]
        · rw [upd_ne _ _ ey]
      · have hg := hp G hG
        cases hg with
        | check _ h6 _ => exact h6 (hok _ _ h4)
  | checkFail x o k' =>
    cases h0 with
    | ub => exact absurd rfl hu
    | @check _ oc _ k _ e1 _ _ =>
      refine ⟨hist, _, _, Or.inl (.casFail s x oc oc k), Agree.rfl, Nat.le_refl _, hs, fun G hG => ?_⟩
      have hg := hp G hG
      cases hg with
      | check _ _ h6 => exact h6
  | newPid k' =>
    cases h0 with
    | ub => exact absurd rfl hu
    | @newPid k _ _ =>
      refine ⟨hist, _, _, Or.inl (.newPid s k), Agree.rfl, Nat.le_refl _,
        ⟨hs.null, hs.head, hs.root, hs.cells, ?_, hs.ncell⟩, fun G hG => ?_⟩
      · show b.npid + 1 = s.npid + 1
        rw [hs.npid]
      · have hg := hp G hG
        cases hg with
        | newPid h1 => rw [hs.npid]; exact h1 _
  | newCell k' =>
    cases h0 with
    | ub => exact absurd rfl hu
    | @newCell k _ _ =>
      refine ⟨hist, _, _, Or.inl (.newCell s k), Agree.rfl, Nat.le_refl _,
        ⟨hs.null, hs.head, hs.root, ?_, hs.npid, ?_⟩, fun G hG => ?_⟩
      · show upd b.cells b.ncell 0 = upd s.cells s.ncell 0
        rw [hs.cells, hs.ncell]
      · show b.ncell + 1 = s.ncell + 1
        rw [hs.ncell]
      · have hg := hp G hG
        cases hg with
        | newCell h1 => rw [hs.ncell]; exact h1 _
  | loadCell w k' =>
    cases h0 with
    | ub => exact absurd rfl hu
    | @loadCell _ k _ _ =>
      refine ⟨hist, s, _, Or.inl (.loadCell s w k), Agree.rfl, Nat.le_refl _, hs, fun G hG => ?_⟩
      have hg := hp G hG
      cases hg with
      | loadCell h1 => rw [hs.cells]; exact h1 _
  | storeCell w x k' =>
    cases h0 with
    | ub => exact absurd rfl hu
    | @storeCell _ _ k _ _ =>
      refine ⟨hist, _, _, Or.inl (.storeCell s w x k), Agree.rfl, Nat.le_refl _,
        ⟨hs.null, hs.head, hs.root, ?_, hs.npid, hs.ncell⟩, fun G hG => ?_⟩
      · show upd b.cells w x = upd s.cells w x
        rw [hs.cells]
      · have hg := hp G hG
        cases hg with
        | storeCell h1 => exact h1
  | alloc k' m =>
    refine ⟨hist, s, p, Or.inr ⟨rfl, rfl, _, rfl⟩, Agree.rfl, Nat.le_refl _, hs, fun G hG => ?_⟩
    have hg := hp G hG
    cases hg with
    | ub => exact absurd rfl hu
    | alloc h1 => exact h1 m

/-- The bytes of what a program yields. -/
def out (e : Enc K V) (x : Out K V) : BOut :=
  (rtn e x.1, x.2.map fun y => (y.1, e.key y.2.1, e.bound y.2.2))

/-- Threads in the model and on bytes. -/
def TI (G : Nat → Chain K V) (OK : Chain K V → Prop) (Img : Chain K V → L.C → Prop) (e : Enc K V) :
    TSt K V → BTSt L → Prop
  | .idle, .idle => True
  | .run c p, .run c' q => c' = call e c ∧ PSim G OK Img (fun a b => b = out e a) p q
  | _, _ => False

/-- Systems in the model and on bytes. -/
structure SysI (OK : Chain K V → Prop) (Img : Chain K V → L.C → Prop) (e : Enc K V)
    (hist : Nat → Chain K V) (S : Sys K V) (B : BSys L) : Prop where
  sh : ShI Img hist S.sh B.sh
  th : ∀ G, Agree hist B.sh.nid G → ∀ t, TI G OK Img e (S.th t) (B.th t)
  it : ∀ t, B.it t = (S.it t).map fun y => (y.1, e.key y.2.1, e.bound y.2.2)

theorem call_op {c : Spec.Call K V} {o : Spec.Op Str Str} (h : Spec.Call.op o = call e c) :
    ∃ o', c = .op o' ∧ o = op e o' := by
  cases c with
  | op o' => cases h; exact ⟨o', rfl, rfl⟩
  | visit b x => cases h

theorem call_visit {c : Spec.Call K V} {b x : BBound} (h : Spec.Call.visit b x = call e c) :
    ∃ b' x', c = .visit b' x' ∧ b = e.bound b' ∧ x = e.bound x' := by
  cases c with
  | op o' => cases h
  | visit b' x' => cases h; exact ⟨b', x', rfl, rfl, rfl⟩

theorem visitOut_enc (eb : Spec.Bound K) (x : List (K × V) × Option (K × PID)) :
    visitOut (e.bound eb) (e.scan x) = out e (BwTree.visitOut eb x) := by
  obtain ⟨l, o⟩ := x
  cases o <;> rfl

theorem SysI.thread {hist : Nat → Chain K V} {S : Sys K V} {B : BSys L} (hi : SysI OK Img e hist S B)
    {t : Nat} {c : Spec.Call Str Str} {q : BProg L.C BOut} (h : B.th t = .run c q) :
    ∃ c' p, S.th t = .run c' p ∧ c = call e c' ∧
      ∀ G, Agree hist B.sh.nid G → PSim G OK Img (fun a b => b = out e a) p q := by
  have h0 := hi.th hist Agree.rfl t
  rw [h] at h0
  cases hs : S.th t with
  | idle => rw [hs] at h0; exact h0.elim
  | run c' p =>
    rw [hs] at h0
    refine ⟨c', p, rfl, h0.1, fun G hG => ?_⟩
    have h1 := hi.th G hG t
    rw [h, hs] at h1
    exact h1.2

theorem SysI.idle {hist : Nat → Chain K V} {S : Sys K V} {B : BSys L} (hi : SysI OK Img e hist S B)
    {t : Nat} (h : B.th t = .idle) : S.th t = .idle := by
  have h0 := hi.th hist Agree.rfl t
  rw [h] at h0
  cases hs : S.th t with
  | idle => rfl
  | run c' p => rw [hs] at h0; exact h0.elim

/-- One step on bytes is at most one step on records. -/
theorem SysI.step (hL : LayOK cfg e L OK Img NI DI) {legal : Spec.Call Str Str → Prop}
    (hlegal : ∀ c, legal c → ∃ c', c = call e c') {hist : Nat → Chain K V} {S : Sys K V}
    {B B' : BSys L} {ev : Option (Spec.Event Str Str)} (hi : SysI OK Img e hist S B)
    (hu : ∀ t c, S.th t ≠ .run c .ub) (hok : ∀ x ch, S.sh.mt x = some ch → OK ch)
    (h : BSysStep L legal B ev B') :
    ∃ hist' S', SysI OK Img e hist' S' B' ∧
      ((S' = S ∧ ev = none) ∨ ∃ ev', ev = ev'.map (event e) ∧ SysStep cfg S ev' S') := by
  have keep : ∀ {G : Nat → Chain K V} {t : Nat} {x : TSt K V} {y : BTSt L},
      (∀ t', TI G OK Img e (S.th t') (B.th t')) → TI G OK Img e x y →
      ∀ t', TI G OK Img e (upd S.th t x t') (upd B.th t y t') := by
    intro G t x y h1 h2 t'
    by_cases et : t' = t
    · subst et; rw [upd_same, upd_same]; exact h2
    · rw [upd_ne _ _ et, upd_ne _ _ et]; exact h1 t'
  cases h with
  | op t f o hl h1 =>
    obtain ⟨c, hc⟩ := hlegal _ hl
    obtain ⟨o', rfl, rfl⟩ := call_op hc
    refine ⟨hist, _, ?_, Or.inr ⟨some (.inv t (.op o')), rfl, .op S t f o' (hi.idle h1)⟩⟩
    refine ⟨hi.sh, fun G hG => keep (hi.th G hG) (And.intro rfl ?_), hi.it⟩
    exact PSim.bind (runOp_psim hL f o') fun a b hab => by subst hab; exact .ret rfl
  | scan t f b x hl h1 =>
    obtain ⟨c, hc⟩ := hlegal _ hl
    obtain ⟨b', x', rfl, rfl, rfl⟩ := call_visit hc
    refine ⟨hist, _, ?_,
      Or.inr ⟨some (.inv t (.visit b' x')), rfl, .scan S t f b' x' (hi.idle h1)⟩⟩
    refine ⟨hi.sh, fun G hG => keep (hi.th G hG) (And.intro rfl ?_), hi.it⟩
    exact PSim.bind (scanFirst_psim hL f b' x') fun a b hab => by
      subst hab; exact .ret (visitOut_enc x' a)
  | next t f p k x h1 h2 =>
    rw [hi.it t] at h2
    cases hs : S.it t with
    | none => rw [hs] at h2; cases h2
    | some y =>
      obtain ⟨p', k', x'⟩ := y
      rw [hs] at h2
      cases h2
      refine ⟨hist, _, ?_, Or.inr ⟨some (.inv t (.visit (some (k', true)) x')), rfl,
        .next S t f p' k' x' (hi.idle h1) hs⟩⟩
      refine ⟨hi.sh, fun G hG => keep (hi.th G hG) (And.intro rfl ?_), hi.it⟩
      exact PSim.bind (scanNext_psim hL f p' k' x') fun a b hab => by
        subst hab; exact .ret (visitOut_enc x' a)
  | step t c q q' sh' h1 h2 =>
    obtain ⟨c', p, h3, rfl, h5⟩ := hi.thread h1
    obtain ⟨hist', s', p', h6, h7, h8, h9, h10⟩ := PSim.step hi.sh h5 h2
      (fun hx => hu t c' (by rw [h3, hx])) hok
    have hth : ∀ G, Agree hist' sh'.nid G → ∀ t', TI G OK Img e (S.th t') (B.th t') :=
      fun G hG t' => hi.th G (fun i hi' => (hG i (Nat.lt_of_lt_of_le hi' h8)).trans (h7 i hi')) t'
    rcases h6 with h6 | ⟨rfl, rfl, _⟩
    · refine ⟨hist', _, ?_, Or.inr ⟨none, rfl, .step S t c' p p' s' h3 h6⟩⟩
      exact ⟨h9, fun G hG => keep (hth G hG) (And.intro rfl (h10 G hG)), hi.it⟩
    · refine ⟨hist', S, ⟨h9, fun G hG t' => ?_, hi.it⟩, Or.inl ⟨rfl, rfl⟩⟩
      have := keep (t := t) (x := .run c' p') (y := .run (call e c') q') (hth G hG) (And.intro rfl (h10 G hG)) t'
      rwa [show upd S.th t (.run c' p') = S.th from ?_] at this
      funext y
      by_cases ey : y = t
      · subst ey; rw [upd_same, h3]
      · rw [upd_ne _ _ ey]
  | retOp t o r h1 =>
    obtain ⟨c', p, h3, hc, h5⟩ := hi.thread h1
    obtain ⟨o', rfl, rfl⟩ := call_op hc
    have h0 := h5 hist Agree.rfl
    cases h0 with
    | ub => exact absurd h3 (hu t _)
    | @ret a b h6 =>
      subst h6
      refine ⟨hist, _, ?_, Or.inr ⟨some (.ret t (.op o') a.1), rfl, .retOp S t o' a h3⟩⟩
      exact ⟨hi.sh, fun G hG => keep (x := .idle) (y := .idle) (hi.th G hG) trivial, hi.it⟩
  | retVisit t b x r h1 =>
    obtain ⟨c', p, h3, hc, h5⟩ := hi.thread h1
    obtain ⟨b', x', rfl, rfl, rfl⟩ := call_visit hc
    have h0 := h5 hist Agree.rfl
    cases h0 with
    | ub => exact absurd h3 (hu t _)
    | @ret a b h6 =>
      subst h6
      refine ⟨hist, _, ?_,
        Or.inr ⟨some (.ret t (.visit b' x') a.1), rfl, .retVisit S t b' x' a h3⟩⟩
      refine ⟨hi.sh, fun G hG => keep (x := .idle) (y := .idle) (hi.th G hG) trivial, fun t' => ?_⟩
      show upd B.it t (out e a).2 t' = (upd S.it t a.2 t').map _
      by_cases et : t' = t
      · subst et; rw [upd_same, upd_same]; rfl
      · rw [upd_ne _ _ et, upd_ne _ _ et]; exact hi.it t'

theorem BStep.npid {b b' : BSh L.C} {q q' : BProg L.C α} (h : BStep b q b' q') : b.npid ≤ b'.npid := by
  cases h <;> first | exact Nat.le_refl _ | exact Nat.le_succ _

theorem BSysStep.npid {legal : Spec.Call Str Str → Prop} {B B' : BSys L}
    {ev : Option (Spec.Event Str Str)} (h : BSysStep L legal B ev B') : B.sh.npid ≤ B'.sh.npid := by
  cases h <;> first | exact Nat.le_refl _ | exact BStep.npid ‹_›

/-- New trees. -/
theorem start_sim (hL : LayOK cfg e L OK Img NI DI) (m : Mem) :
    SysI OK Img e (fun _ => .base (emptyLeaf cfg)) (Sys.start (initSh (V := V) cfg)) (bstart L m) := by
  refine ⟨⟨fun p hp => ?_, fun p x hp => ?_, rfl, rfl, rfl, rfl⟩, fun G _ t => trivial, fun t => rfl⟩
  · have hp : upd (fun _ => none) 1 (some (⟨0, L.base (L.empty m)⟩ : Head L.C)) p = none := hp
    show upd (fun _ => none) 1 (some (Chain.base (emptyLeaf (V := V) cfg))) p = none
    by_cases ep : p = 1
    · subst ep; rw [upd_same] at hp; cases hp
    · rw [upd_ne _ _ ep]
  · have hp : upd (fun _ => none) 1 (some (⟨0, L.base (L.empty m)⟩ : Head L.C)) p = some x := hp
    show x.id < 1 ∧ upd (fun _ => none) 1 (some (Chain.base (emptyLeaf (V := V) cfg))) p = _ ∧ _
    by_cases ep : p = 1
    · subst ep
      rw [upd_same] at hp ⊢
      cases hp
      exact ⟨Nat.zero_lt_one, rfl, hL.base (hL.empty m)⟩
    · rw [upd_ne _ _ ep] at hp; cases hp

/-- Every execution on bytes is one on records.  `lim`: `OK` holds in reachable states with at most
`lim` page IDs. -/
theorem run_sim (hL : LayOK cfg e L OK Img NI DI) {legal : Spec.Call Str Str → Prop}
    (hlegal : ∀ c, legal c → ∃ c', c = call e c') {lim : Nat} {S₀ : Sys K V} {B₀ : BSys L}
    {hist₀ : Nat → Chain K V} (h₀ : SysI OK Img e hist₀ S₀ B₀)
    (hu : ∀ h S, Run cfg S₀ h S → ∀ t c, S.th t ≠ .run c .ub)
    (hok : ∀ h S, Run cfg S₀ h S → S.sh.npid ≤ lim → ∀ x ch, S.sh.mt x = some ch → OK ch)
    {h : List (Spec.Event Str Str)} {B : BSys L} (hr : BRun L legal B₀ h B)
    (hlim : B.sh.npid ≤ lim) :
    ∃ h' hist S, h = h'.map (event e) ∧ Run cfg S₀ h' S ∧ SysI OK Img e hist S B := by
  induction hr with
  | nil => exact ⟨[], hist₀, S₀, rfl, .nil, h₀⟩
  | tau _ hs ih =>
    obtain ⟨h', hist, S, h1, h2, h3⟩ := ih (Nat.le_trans hs.npid hlim)
    obtain ⟨hist', S', h4, h5⟩ := h3.step hL hlegal (hu _ _ h2)
      (hok _ _ h2 (h3.sh.npid ▸ Nat.le_trans hs.npid hlim)) hs
    rcases h5 with ⟨rfl, _⟩ | ⟨ev', h6, h7⟩
    · exact ⟨h', hist', _, h1, h2, h4⟩
    · cases ev' with
      | none => exact ⟨h', hist', S', h1, .tau h2 h7, h4⟩
      | some x => cases h6
  | event _ hs ih =>
    obtain ⟨h', hist, S, h1, h2, h3⟩ := ih (Nat.le_trans hs.npid hlim)
    obtain ⟨hist', S', h4, h5⟩ := h3.step hL hlegal (hu _ _ h2)
      (hok _ _ h2 (h3.sh.npid ▸ Nat.le_trans hs.npid hlim)) hs
    rcases h5 with ⟨_, h6⟩ | ⟨ev', h6, h7⟩
    · cases h6
    · cases ev' with
      | none => cases h6
      | some x =>
        refine ⟨h' ++ [x], hist', S', ?_, .event h2 h7, h4⟩
        rw [h1, List.map_append]
        cases h6; rfl

end BwTree.Bytes
