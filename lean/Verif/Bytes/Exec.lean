import Verif.Bytes.System

/-!
# Running the programs on bytes (executable)

One thread alone, pages full of zeros; used for examples.
-/

namespace BwTree.Bytes

open Layout (Mem BBound)

variable {L : Lay} {α : Type}

/-- Run a program to its end. -/
def exec : Nat → BSh L.C → BProg L.C α → Option (BSh L.C × α)
  | 0, s, .ret a => some (s, a)
  | 0, _, _ => none
  | n + 1, s, p =>
    match p with
    | .ret a => some (s, a)
    | .ub | .stuck | .flag _ => none
    | .loadRoot k => exec n s (k s.root)
    | .storeRoot p k => exec n { s with root := p } k
    | .casRoot o x k => if s.root = o then exec n { s with root := x } (k true) else exec n s (k false)
    | .load p k =>
      match s.mt p with
      | some h => exec n s (k h)
      | none => none
    | .store p c k => exec n (s.publish p c) k
    | .cas p o c k =>
      match s.mt p with
      | some h => if h.id = o.id then exec n (s.publish p c) (k (some ⟨s.nid, c⟩)) else exec n s (k none)
      | none => exec n s (k none)
    | .check p o k =>
      match s.mt p with
      | some h => if h.id = o.id then exec n s (k true) else exec n s (k false)
      | none => exec n s (k false)
    | .newPid k => exec n { s with npid := s.npid + 1 } (k s.npid)
    | .newCell k => exec n { s with ncell := s.ncell + 1, cells := upd s.cells s.ncell 0 } (k s.ncell)
    | .loadCell w k => exec n s (k (s.cells w))
    | .storeCell w p k => exec n { s with cells := upd s.cells w p } k
    | .alloc k => exec n s (k fun _ => 0)

/-- Many steps of a program. -/
inductive BSteps {C : Type} : BSh C → BProg C α → BSh C → BProg C α → Prop
  | refl (s p) : BSteps s p s p
  | cons {s p s' p' s'' p''} : BStep s p s' p' → BSteps s' p' s'' p'' → BSteps s p s'' p''

theorem exec_sound : ∀ {n : Nat} {s : BSh L.C} {p : BProg L.C α} {s' : BSh L.C} {a : α},
    exec n s p = some (s', a) → BSteps s p s' (.ret a)
  | 0, s, p, s', a, h => by
    cases p <;> cases h
    exact .refl _ _
  | n + 1, s, p, s', a, h => by
    cases p with
    | ret x => cases h; exact .refl _ _
    | ub => cases h
    | stuck => cases h
    | flag k => cases h
    | loadRoot k => exact .cons (.loadRoot _ _) (exec_sound h)
    | storeRoot q k => exact .cons (.storeRoot _ _ _) (exec_sound h)
    | casRoot o x k =>
      simp only [exec] at h
      split at h
      · exact .cons (.casRootOk _ _ _ _ ‹_›) (exec_sound h)
      · exact .cons (.casRootFail _ _ _ _ ‹_›) (exec_sound h)
    | load q k =>
      simp only [exec] at h
      split at h
      · exact .cons (.load _ _ _ _ ‹_›) (exec_sound h)
      · cases h
    | store q c k => exact .cons (.store _ _ _ _) (exec_sound h)
    | cas q o c k =>
      simp only [exec] at h
      split at h
      · split at h
        · exact .cons (.casOk _ _ _ _ _ _ ‹_› ‹_›) (exec_sound h)
        · exact .cons (.casFail _ _ _ _ _) (exec_sound h)
      · exact .cons (.casFail _ _ _ _ _) (exec_sound h)
    | check q o k =>
      simp only [exec] at h
      split at h
      · split at h
        · exact .cons (.checkOk _ _ _ _ _ ‹_› ‹_›) (exec_sound h)
        · exact .cons (.checkFail _ _ _ _) (exec_sound h)
      · exact .cons (.checkFail _ _ _ _) (exec_sound h)
    | newPid k => exact .cons (.newPid _ _) (exec_sound h)
    | newCell k => exact .cons (.newCell _ _) (exec_sound h)
    | loadCell w k => exact .cons (.loadCell _ _ _) (exec_sound h)
    | storeCell w q k => exact .cons (.storeCell _ _ _ _) (exec_sound h)
    | alloc k => exact .cons (.alloc _ _ _) (exec_sound h)

/-- A call of the only thread. -/
inductive BCall where
  | op (o : Spec.Op Str Str)
  | visit (b e : BBound)
  | next

/-- Results of calls one after the other; `f` bounds the loops, `n` the accesses. -/
def execAll (f n : Nat) : BSys L → List BCall → Option (List (Spec.Ret Str Str) × BSys L)
  | S, [] => some ([], S)
  | S, .op o :: cs =>
    (exec n S.sh ((runOp L f o).bind fun r => .ret ((.res r, none) : BOut))).bind fun x =>
      (execAll f n { S with sh := x.1 } cs).map fun y => (x.2.1 :: y.1, y.2)
  | S, .visit b e :: cs =>
    (exec n S.sh ((scanFirst L f b e).bind fun x => .ret (visitOut e x))).bind fun x =>
      (execAll f n { S with sh := x.1, it := upd S.it 0 x.2.2 } cs).map fun y => (x.2.1 :: y.1, y.2)
  | S, .next :: cs =>
    match S.it 0 with
    | none => none
    | some (p, k, e) =>
      (exec n S.sh ((scanNext L f p k e).bind fun x => .ret (visitOut e x))).bind fun x =>
        (execAll f n { S with sh := x.1, it := upd S.it 0 x.2.2 } cs).map fun y =>
          (x.2.1 :: y.1, y.2)

/-- What was returned. -/
def brets (h : List (Spec.Event Str Str)) : List (Spec.Ret Str Str) :=
  h.filterMap fun e => match e with
    | .ret _ _ r => some r
    | .inv _ _ => none

theorem BRun.steps {legal : Spec.Call Str Str → Prop} {S₀ : BSys L} {h : List (Spec.Event Str Str)}
    {c : Spec.Call Str Str} {s s' : BSh L.C} {p p' : BProg L.C BOut} (hs : BSteps s p s' p') :
    ∀ {S : BSys L}, BRun L legal S₀ h S → S.sh = s → S.th 0 = .run c p →
      BRun L legal S₀ h { S with sh := s', th := upd S.th 0 (.run c p') } := by
  induction hs with
  | refl s p =>
    intro S h1 h2 h3
    have : ({ S with sh := s, th := upd S.th 0 (.run c p) } : BSys L) = S := by
      obtain ⟨sh, th, it⟩ := S
      simp only at h2 h3
      subst h2
      congr 1
      funext t
      by_cases e : t = 0
      · subst e; rw [upd_same, h3]
      · rw [upd_ne _ _ e]
    rw [this]; exact h1
  | cons h0 _ ih =>
    intro S h1 h2 h3
    subst h2
    have h4 := ih (.tau h1 (.step S 0 c _ _ _ h3 h0)) rfl (upd_same S.th 0 _)
    have h5 : ∀ x y : BTSt L, upd (upd S.th 0 x) 0 y = upd S.th 0 y := fun x y => by
      funext t
      by_cases e : t = 0
      · subst e; rw [upd_same, upd_same]
      · rw [upd_ne _ _ e, upd_ne _ _ e, upd_ne _ _ e]
    simp only [h5] at h4
    exact h4

/-- The calls are legal. -/
def BCall.Legal (legal : Spec.Call Str Str → Prop) : BCall → Prop
  | .op o => legal (.op o)
  | .visit b e => legal (.visit b e)
  | .next => True

theorem upd_idle {S : BSys L} (h : S.th 0 = .idle) (x : BTSt L) :
    upd (upd S.th 0 x) 0 .idle = S.th := by
  funext t
  by_cases e : t = 0
  · subst e; rw [upd_same, h]
  · rw [upd_ne _ _ e, upd_ne _ _ e]

theorem upd_upd (g : Nat → BTSt L) (x y : BTSt L) : upd (upd g 0 x) 0 y = upd g 0 y := by
  funext t
  by_cases e : t = 0
  · subst e; rw [upd_same, upd_same]
  · rw [upd_ne _ _ e, upd_ne _ _ e, upd_ne _ _ e]

/-- A call that runs alone, up to its return. -/
theorem BRun.alone {legal : Spec.Call Str Str → Prop} {S₀ S : BSys L} {h : List (Spec.Event Str Str)}
    {n : Nat} {c : Spec.Call Str Str} {p : BProg L.C BOut} {s' : BSh L.C} {o : BOut}
    (hr : BRun L legal S₀ h { S with th := upd S.th 0 (.run c p) })
    (hx : exec n S.sh p = some (s', o)) :
    BRun L legal S₀ h { S with sh := s', th := upd S.th 0 (.run c (.ret o)) } := by
  have h1 := BRun.steps (exec_sound hx) hr rfl (upd_same S.th 0 _)
  simp only [upd_upd] at h1
  exact h1

theorem brets_snoc (h : List (Spec.Event Str Str)) (a : Nat) (b c : Spec.Call Str Str)
    (r : Spec.Ret Str Str) : brets (h ++ [.inv a b] ++ [.ret a c r]) = brets h ++ [r] := by
  simp [brets, List.filterMap_append]

theorem execAll_sound {legal : Spec.Call Str Str → Prop} {S₀ : BSys L} {f n : Nat} :
    ∀ {cs : List BCall} {S S' : BSys L} {h : List (Spec.Event Str Str)}
      {rs : List (Spec.Ret Str Str)}, (∀ c ∈ cs, c.Legal legal) → S.th 0 = .idle →
      BRun L legal S₀ h S → execAll f n S cs = some (rs, S') →
      ∃ h', BRun L legal S₀ h' S' ∧ brets h' = brets h ++ rs
  | [], S, S', h, rs, _, _, hr, he => by
    cases he
    exact ⟨h, hr, by simp⟩
  | .op o :: cs, S, S', h, rs, hl, hid, hr, he => by
    simp only [execAll, Option.bind_eq_some_iff, Option.map_eq_some_iff] at he
    obtain ⟨⟨s', x⟩, h1, ⟨rs', S1⟩, h2, h3⟩ := he
    cases h3
    have r2 := BRun.alone (BRun.event hr (.op S 0 f o (hl _ (List.mem_cons_self ..)) hid)) h1
    have r3 := BRun.event r2 (.retOp _ 0 o x (upd_same S.th 0 _))
    simp only [upd_idle hid] at r3
    obtain ⟨h', h4, h5⟩ := execAll_sound (S := { S with sh := s' })
      (fun c hc => hl c (List.mem_cons_of_mem _ hc)) hid r3 h2
    refine ⟨h', h4, ?_⟩
    rw [h5, brets_snoc, List.append_assoc]; rfl
  | .visit b e :: cs, S, S', h, rs, hl, hid, hr, he => by
    simp only [execAll, Option.bind_eq_some_iff, Option.map_eq_some_iff] at he
    obtain ⟨⟨s', x⟩, h1, ⟨rs', S1⟩, h2, h3⟩ := he
    cases h3
    have r2 := BRun.alone (BRun.event hr (.scan S 0 f b e (hl _ (List.mem_cons_self ..)) hid)) h1
    have r3 := BRun.event r2 (.retVisit _ 0 b e x (upd_same S.th 0 _))
    simp only [upd_idle hid] at r3
    obtain ⟨h', h4, h5⟩ := execAll_sound (S := { S with sh := s', it := upd S.it 0 x.2 })
      (fun c hc => hl c (List.mem_cons_of_mem _ hc)) hid r3 h2
    refine ⟨h', h4, ?_⟩
    rw [h5, brets_snoc, List.append_assoc]; rfl
  | .next :: cs, S, S', h, rs, hl, hid, hr, he => by
    simp only [execAll] at he
    cases hit : S.it 0 with
    | none => rw [hit] at he; cases he
    | some y =>
      obtain ⟨p, k, e⟩ := y
      rw [hit] at he
      simp only [Option.bind_eq_some_iff, Option.map_eq_some_iff] at he
      obtain ⟨⟨s', x⟩, h1, ⟨rs', S1⟩, h2, h3⟩ := he
      cases h3
      have r2 := BRun.alone (BRun.event hr (.next S 0 f p k e hid hit)) h1
      have r3 := BRun.event r2 (.retVisit _ 0 _ e x (upd_same S.th 0 _))
      simp only [upd_idle hid] at r3
      obtain ⟨h', h4, h5⟩ := execAll_sound (S := { S with sh := s', it := upd S.it 0 x.2 })
        (fun c hc => hl c (List.mem_cons_of_mem _ hc)) hid r3 h2
      refine ⟨h', h4, ?_⟩
      rw [h5, brets_snoc, List.append_assoc]; rfl

end BwTree.Bytes
