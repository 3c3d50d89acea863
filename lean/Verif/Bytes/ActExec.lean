import Verif.Bytes.Exclusive
import Verif.Bytes.SessionExec

/-!
# Running threads on bytes one after the other (for examples)
-/

namespace BwTree.Bytes

open Layout (Mem BBound)

variable {L : Lay} {legal : Spec.Call Str Str → Prop}

/-- What threads do: a call from its begin to its end, or the begin of a call. -/
inductive BAct where
  | full (t : Nat) (c : BCall)
  | call (t : Nat) (o : Spec.Op Str Str)

/-- The history and state after actions one after the other; `f` bounds the loops, `n` the accesses. -/
def execActs (f n : Nat) : List (Spec.Event Str Str) → BSys L → List BAct →
    Option (List (Spec.Event Str Str) × BSys L)
  | h, S, [] => some (h, S)
  | h, S, .call t o :: as =>
    match S.th t with
    | .run _ _ => none
    | .idle => execActs f n (h ++ [.inv t (.op o)])
        { S with th := upd S.th t (.run (.op o) ((runOp L f o).bind fun r => .ret (.res r, none))) } as
  | h, S, .full t (.op o) :: as =>
    match S.th t with
    | .run _ _ => none
    | .idle =>
      (exec n S.sh ((runOp L f o).bind fun r => .ret ((.res r, none) : BOut))).bind fun x =>
        execActs f n (h ++ [.inv t (.op o)] ++ [.ret t (.op o) x.2.1])
          { S with sh := x.1, th := upd S.th t .idle } as
  | h, S, .full t (.visit b e) :: as =>
    match S.th t with
    | .run _ _ => none
    | .idle =>
      (exec n S.sh ((scanFirst L f b e).bind fun x => .ret (visitOut e x))).bind fun x =>
        execActs f n (h ++ [.inv t (.visit b e)] ++ [.ret t (.visit b e) x.2.1])
          { sh := x.1, th := upd S.th t .idle, it := upd S.it t x.2.2 } as
  | h, S, .full t .next :: as =>
    match S.th t, S.it t with
    | .idle, some (p, k, e) =>
      (exec n S.sh ((scanNext L f p k e).bind fun x => .ret (visitOut e x))).bind fun x =>
        execActs f n (h ++ [.inv t (.visit (some (k, true)) e)] ++ [.ret t (.visit (some (k, true)) e) x.2.1])
          { sh := x.1, th := upd S.th t .idle, it := upd S.it t x.2.2 } as
    | _, _ => none

theorem bupd_twice (th : Nat → BTSt L) (t : Nat) (x y : BTSt L) : upd (upd th t x) t y = upd th t y := by
  funext u
  by_cases e : u = t
  · subst e; rw [upd_same, upd_same]
  · rw [upd_ne _ _ e, upd_ne _ _ e, upd_ne _ _ e]

theorem BSureRun.firm {S₀ : BSys L} {h : List (Spec.Event Str Str)} {t : Nat} {c : Spec.Call Str Str}
    {b b' : BSh L.C} {p p' : BProg L.C BOut} (hf : BFirmRun b p b' p') : ∀ {S : BSys L},
    BSureRun L legal S₀ h S → S.sh = b → S.th t = .run c p →
    BSureRun L legal S₀ h { S with sh := b', th := upd S.th t (.run c p') } := by
  induction hf with
  | refl b p =>
    intro S h1 h2 h3
    have : ({ S with sh := b, th := upd S.th t (.run c p) } : BSys L) = S := by
      obtain ⟨sh, th, it⟩ := S
      simp only at h2 h3
      subst h2
      congr 1
      funext u
      by_cases e : u = t
      · subst e; rw [upd_same, h3]
      · rw [upd_ne _ _ e]
    rw [this]; exact h1
  | step f _ ih =>
    intro S h1 h2 h3
    subst h2
    have := ih (h1.tau (.access S t c _ _ _ h3 f)) rfl (upd_same _ _ _)
    simp only [bupd_twice] at this
    exact this

theorem bstep_bind {α β C : Type} {b b' : BSh C} {p p' : BProg C α} (h : BStep b p b' p')
    (g : α → BProg C β) : BStep b (p.bind g) b' (p'.bind g) := by
  cases h with
  | loadRoot k => exact .loadRoot _ _
  | storeRoot q k => exact .storeRoot _ _ _
  | casRootOk o n k e => exact .casRootOk _ _ _ _ e
  | casRootFail o n k e => exact .casRootFail _ _ _ _ e
  | load q k c e => exact .load _ _ _ _ e
  | loadNull q k e => exact .loadNull _ _ _ e
  | store q c k => exact .store _ _ _ _
  | casOk q o n k hd e1 e2 => exact .casOk _ _ _ _ _ _ e1 e2
  | casFail q o n k => exact .casFail _ _ _ _ _
  | checkOk q o k hd e1 e2 => exact .checkOk _ _ _ _ _ e1 e2
  | checkFail q o k => exact .checkFail _ _ _ _
  | newPid k => exact .newPid _ _
  | newCell k => exact .newCell _ _
  | loadCell w k => exact .loadCell _ _ _
  | storeCell w q k => exact .storeCell _ _ _ _
  | alloc k m => exact .alloc _ _ _

theorem bfirm_bind {α β C : Type} {b b' : BSh C} {p p' : BProg C α} (h : BFirm b p b' p')
    (g : α → BProg C β) : BFirm b (p.bind g) b' (p'.bind g) := by
  refine ⟨bstep_bind h.step g, ?_, ?_⟩
  · intro q o n k hd e hm hi
    cases p with
    | cas q' o' n' k' =>
      cases e
      obtain ⟨e1, rfl⟩ := h.cas _ _ _ _ _ rfl hm hi
      exact ⟨e1, rfl⟩
    | ret a => exact absurd h.step nofun
    | _ => cases e
  · intro q o k hd e hm hi
    cases p with
    | check q' o' k' =>
      cases e
      rw [h.check _ _ _ _ rfl hm hi]
    | ret a => exact absurd h.step nofun
    | _ => cases e

theorem bfirmRun_bind {α β C : Type} {b b' : BSh C} {p p' : BProg C α} (h : BFirmRun b p b' p')
    (g : α → BProg C β) : BFirmRun b (p.bind g) b' (p'.bind g) := by
  induction h with
  | refl => exact .refl _ _
  | step f _ ih => exact .step (bfirm_bind f g) ih

/-- The actions are legal. -/
def BAct.Legal (legal : Spec.Call Str Str → Prop) : BAct → Prop
  | .full _ c => c.Legal legal
  | .call _ o => legal (.op o)

instance [DecidablePred legal] : DecidablePred (BAct.Legal legal) := fun a => by
  cases a with
  | full t c => cases c <;> simp only [BAct.Legal, BCall.Legal] <;> infer_instance
  | call t o => simp only [BAct.Legal]; infer_instance

theorem execActs_sound {S₀ : BSys L} {f n : Nat} : ∀ {as : List BAct} {h : List (Spec.Event Str Str)}
    {S S' : BSys L} {h' : List (Spec.Event Str Str)}, BSureRun L legal S₀ h S → (∀ a ∈ as, a.Legal legal) →
    execActs f n h S as = some (h', S') → BSureRun L legal S₀ h' S'
  | [], h, S, S', h', hr, _, he => by cases he; exact hr
  | .call t o :: as, h, S, S', h', hr, hl, he => by
    simp only [execActs] at he
    split at he
    · cases he
    · rename_i ht
      exact execActs_sound (hr.event (.event (.op S t f o (hl (.call t o) List.mem_cons_self) ht)))
        (fun a ha => hl a (List.mem_cons_of_mem _ ha)) he
  | .full t (.op o) :: as, h, S, S', h', hr, hl, he => by
    simp only [execActs] at he
    split at he
    · cases he
    · rename_i ht
      simp only [Option.bind_eq_some_iff] at he
      obtain ⟨⟨b', r⟩, h1, h2⟩ := he
      have h3 := BSureRun.firm (t := t) (c := .op o) (exec_firm h1)
        (hr.event (.event (.op S t f o (hl (.full t (.op o)) List.mem_cons_self) ht))) rfl (upd_same _ _ _)
      have h4 := h3.event (.event (.retOp _ t o r (upd_same _ _ _)))
      simp only [bupd_twice] at h4
      exact execActs_sound h4 (fun a ha => hl a (List.mem_cons_of_mem _ ha)) h2
  | .full t (.visit b e) :: as, h, S, S', h', hr, hl, he => by
    simp only [execActs] at he
    split at he
    · cases he
    · rename_i ht
      simp only [Option.bind_eq_some_iff] at he
      obtain ⟨⟨b', r⟩, h1, h2⟩ := he
      have h3 := BSureRun.firm (t := t) (c := .visit b e) (exec_firm h1)
        (hr.event (.event (.scan S t f b e (hl (.full t (.visit b e)) List.mem_cons_self) ht))) rfl
        (upd_same _ _ _)
      have h4 := h3.event (.event (.retVisit _ t b e r (upd_same _ _ _)))
      simp only [bupd_twice] at h4
      exact execActs_sound h4 (fun a ha => hl a (List.mem_cons_of_mem _ ha)) h2
  | .full t .next :: as, h, S, S', h', hr, hl, he => by
    simp only [execActs] at he
    split at he
    · rename_i p k e ht hit
      simp only [Option.bind_eq_some_iff] at he
      obtain ⟨⟨b', r⟩, h1, h2⟩ := he
      have h3 := BSureRun.firm (t := t) (c := .visit (some (k, true)) e) (exec_firm h1)
        (hr.event (.event (.next S t f p k e ht hit))) rfl (upd_same _ _ _)
      have h4 := h3.event (.event (.retVisit _ t (some (k, true)) e r (upd_same _ _ _)))
      simp only [bupd_twice] at h4
      exact execActs_sound h4 (fun a ha => hl a (List.mem_cons_of_mem _ ha)) h2
    · cases he

theorem bupd_idle {th : Nat → BTSt L} {t u : Nat} {c : Spec.Call Str Str} {p : BProg L.C BOut}
    (h : upd th t .idle u = .run c p) : th u = .run c p := by
  by_cases e : u = t
  · subst e; rw [upd_same] at h; cases h
  · rwa [upd_ne _ _ e] at h

/-- Calls that are active at the end. -/
theorem execActs_open {f n : Nat} : ∀ {as : List BAct} {h : List (Spec.Event Str Str)} {S S' : BSys L}
    {h' : List (Spec.Event Str Str)}, execActs f n h S as = some (h', S') → ∀ {t c p},
    S'.th t = .run c p → S.th t = .run c p ∨ ∃ o, .call t o ∈ as ∧ c = .op o
  | [], h, S, S', h', he, t, c, p, ht => by cases he; exact Or.inl ht
  | .call u o :: as, h, S, S', h', he, t, c, p, ht => by
    simp only [execActs] at he
    split at he
    · cases he
    · rcases execActs_open he ht with h1 | ⟨o', h1, h2⟩
      · by_cases e : t = u
        · subst e
          simp only [upd_same] at h1
          cases h1
          exact Or.inr ⟨o, List.mem_cons_self, rfl⟩
        · simp only [upd_ne _ _ e] at h1
          exact Or.inl h1
      · exact Or.inr ⟨o', List.mem_cons_of_mem _ h1, h2⟩
  | .full u (.op o) :: as, h, S, S', h', he, t, c, p, ht => by
    simp only [execActs] at he
    split at he
    · cases he
    · simp only [Option.bind_eq_some_iff] at he
      obtain ⟨⟨b', r⟩, _, h2⟩ := he
      rcases execActs_open h2 ht with h1 | ⟨o', h1, h2⟩
      · exact Or.inl (bupd_idle h1)
      · exact Or.inr ⟨o', List.mem_cons_of_mem _ h1, h2⟩
  | .full u (.visit b e) :: as, h, S, S', h', he, t, c, p, ht => by
    simp only [execActs] at he
    split at he
    · cases he
    · simp only [Option.bind_eq_some_iff] at he
      obtain ⟨⟨b', r⟩, _, h2⟩ := he
      rcases execActs_open h2 ht with h1 | ⟨o', h1, h2⟩
      · exact Or.inl (bupd_idle h1)
      · exact Or.inr ⟨o', List.mem_cons_of_mem _ h1, h2⟩
  | .full u .next :: as, h, S, S', h', he, t, c, p, ht => by
    simp only [execActs] at he
    split at he
    · simp only [Option.bind_eq_some_iff] at he
      obtain ⟨⟨b', r⟩, _, h2⟩ := he
      rcases execActs_open h2 ht with h1 | ⟨o', h1, h2⟩
      · exact Or.inl (bupd_idle h1)
      · exact Or.inr ⟨o', List.mem_cons_of_mem _ h1, h2⟩
    · cases he

end BwTree.Bytes
