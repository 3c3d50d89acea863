import Verif.Weak.Model

/-!
# Concrete executions on the C++ memory model (used by counterexamples)

An interpreter for schedules, proved to produce executions of the model.
-/

namespace BwTree.Weak

set_option linter.unusedSectionVars false

variable {K V : Type} {m : Mem K V} {v : View} {l : Loc}

/-- The largest time stamp of an object. -/
def topOf (l : Loc) : List (Msg K V) → Nat
  | [] => 0
  | x :: xs => if x.loc = l then max x.ts (topOf l xs) else topOf l xs

theorem le_topOf {xs : List (Msg K V)} {x : Msg K V} (hx : x ∈ xs) (hl : x.loc = l) :
    x.ts ≤ topOf l xs := by
  induction xs with
  | nil => cases hx
  | cons y ys ih =>
    simp only [topOf]
    rcases List.mem_cons.1 hx with e | hx
    · subst e; rw [if_pos hl]; exact Nat.le_max_left _ _
    · have := ih hx
      split <;> omega

theorem free_top : Free m l (topOf l m.msgs + 1) :=
  ⟨Nat.succ_pos _, fun x hx hl => ⟨by have := le_topOf hx hl; omega,
    fun f _ h => by have := le_topOf hx hl; omega⟩⟩

theorem next_top : Next m l (topOf l m.msgs) (topOf l m.msgs + 1) :=
  ⟨Nat.lt_succ_self _, free_top, fun x hx hl h => by have := le_topOf hx hl; omega⟩

/-- Read the write with a given time stamp (`none`: the last one). -/
def rd (m : Mem K V) (v : View) (l : Loc) (c : Option Nat) : Option (Msg K V) :=
  let t := c.getD (topOf l m.msgs)
  if v.get l ≤ t then
    if t = 0 then some (m.first l) else m.msgs.find? fun x => decide (x.loc = l) && decide (x.ts = t)
  else none

theorem rd_some {c : Option Nat} {x : Msg K V} (h : rd m v l c = some x) :
    Readable m v l x ∧ x.ts = c.getD (topOf l m.msgs) := by
  simp only [rd] at h
  split at h
  · rename_i hle
    split at h
    · rename_i e
      cases h
      exact ⟨⟨Or.inr rfl, rfl, by rw [e] at hle; exact hle⟩, e.symm⟩
    · have h1 := List.mem_of_find?_eq_some h
      have h2 := List.find?_some h
      simp only [Bool.and_eq_true, decide_eq_true_eq] at h2
      exact ⟨⟨Or.inl h1, h2.1, h2.2 ▸ hle⟩, h2.2⟩
  · cases h

variable [LinearOrder K] [DecidableEq V] {α : Type} {o : Orders} {C : Nat}

/-- Is a value null? -/
def isNull : WVal K V → Bool
  | .null => true
  | _ => false

theorem isNull_false {x : WVal K V} (h : isNull x = false) : x ≠ .null := by
  intro e; subst e; cases h

/-- One atomic access: reads take the write chosen by `c` (`r` for the pointer to a row), writes come
last, a compare-and-swap succeeds if it can, unless `ok` is false. -/
def wexec (o : Orders) (C : Nat) (c r : Option Nat) (ok : Bool) (m : Mem K V) (v : View) :
    Prog K V α → Option (Mem K V × View × Prog K V α)
  | .ret _ | .ub | .stuck | .flag _ => none
  | .loadRoot k => (rd m v .root c).bind fun x => match x.val with
    | .id q => some (m, readV o.root v x, k q)
    | _ => none
  | .storeRoot p k =>
    let t := topOf .root m.msgs + 1
    if v.get .root < t then
      some (m.add (wmsg o.root v .root t (.id p) [] none), v.put .root t, k)
    else none
  | .casRoot a b k => (rd m v .root none).bind fun x => match x.val with
    | .id q =>
      let t := topOf .root m.msgs + 1
      if q = a then
        some (m.add (wmsg o.root (readV o.root v x) .root t (.id b) x.view (some x.ts)),
          (readV o.root v x).put .root t, k true)
      else some (m, readV o.root v x, k false)
    | _ => none
  | .load p k => (rd m v (.row (p / C)) r).bind fun y =>
    if isNull y.val then none
    else (rd m (v.put y.loc y.ts) (.slot p) c).bind fun x => match x.val with
      | .chain h => some (m, readV true (v.put y.loc y.ts) x, k h)
      | _ => none
  | .store p h k => (rd m v (.row (p / C)) r).bind fun y =>
    if isNull y.val then none
    else
      let t := topOf (.slot p) m.msgs + 1
      if (v.put y.loc y.ts).get (.slot p) < t then
        some (m.add (wmsg true (v.put y.loc y.ts) (.slot p) t (.chain h) [] none),
          (v.put y.loc y.ts).put (.slot p) t, k)
      else none
  | .cas p a b k => (rd m v (.row (p / C)) r).bind fun y =>
    if isNull y.val then none
    else if ok then (rd m (v.put y.loc y.ts) (.slot p) none).bind fun x =>
        if x.val = .chain a then
          if a = b then some (m, readV true (v.put y.loc y.ts) x, k true)
          else
            let t := topOf (.slot p) m.msgs + 1
            some (m.add (wmsg true (v.put y.loc y.ts) (.slot p) t (.chain b) x.view (some x.ts)),
              (v.put y.loc y.ts).put (.slot p) t, k true)
        else some (m, v.put y.loc y.ts, k false)
    else some (m, v.put y.loc y.ts, k false)
  | .newPid k => (rd m v .cnt none).bind fun x => match x.val with
    | .id q =>
      let t := topOf .cnt m.msgs + 1
      if (q + 1) / C = q / C then
        some (m.add (wmsg o.tab (readV o.tab v x) .cnt t (.id (q + 1)) x.view (some x.ts)),
          (readV o.tab v x).put .cnt t, k q)
      else
        let u := topOf (.row ((q + 1) / C)) m.msgs + 1
        if (readV o.tab v x).get (.row ((q + 1) / C)) < u then
          some ((m.add (wmsg false (readV o.tab v x) (.row ((q + 1) / C)) u (.id 1) [] none)).add
              (wmsg o.tab ((readV o.tab v x).put (.row ((q + 1) / C)) u) .cnt t (.id (q + 1)) []
                (some x.ts)),
            ((readV o.tab v x).put (.row ((q + 1) / C)) u).put .cnt t, k q)
        else none
    | _ => none
  | .newCell k => some ({ m with ncell := m.ncell + 1 }, v, k m.ncell)
  | .loadCell w k => (rd m v (.word w) c).bind fun x => match x.val with
    | .id q => some (m, readV o.word v x, k q)
    | _ => none
  | .storeCell w p k =>
    let t := topOf (.word w) m.msgs + 1
    if v.get (.word w) < t then
      some (m.add (wmsg o.word v (.word w) t (.id p) [] none), v.put (.word w) t, k)
    else none

theorem wexec_sound {c r : Option Nat} {ok : Bool} {m' : Mem K V} {v' : View} {p p' : Prog K V α}
    (h : wexec o C c r ok m v p = some (m', v', p')) : WStep o C m v p m' v' p' := by
  have last : ∀ {v : View} {l : Loc} {x : Msg K V}, rd m v l none = some x →
      Next m l x.ts (topOf l m.msgs + 1) := by
    intro v l x h
    have := (rd_some h).2
    simp only [Option.getD_none] at this
    rw [this]
    exact next_top
  cases p with
  | ret a => cases h
  | ub => cases h
  | stuck => cases h
  | flag k => cases h
  | loadRoot k =>
    simp only [wexec, Option.bind_eq_some_iff] at h
    obtain ⟨x, h1, h2⟩ := h
    split at h2
    · cases h2; exact .loadRoot _ _ _ _ _ (rd_some h1).1 ‹_›
    · cases h2
  | storeRoot p k =>
    simp only [wexec] at h
    split at h
    · cases h; exact .storeRoot _ _ _ _ _ ‹_› free_top
    · cases h
  | casRoot a b k =>
    simp only [wexec, Option.bind_eq_some_iff] at h
    obtain ⟨x, h1, h2⟩ := h
    split at h2
    · split at h2
      · rename_i e
        subst e
        cases h2
        exact .casRootOk _ _ _ _ _ _ _ (rd_some h1).1 ‹_› (last h1)
      · cases h2; exact .casRootFail _ _ _ _ _ _ _ (rd_some h1).1 ‹_› ‹_›
    · cases h2
  | load p k =>
    simp only [wexec, Option.bind_eq_some_iff] at h
    obtain ⟨y, h1, h2⟩ := h
    split at h2
    · cases h2
    · rename_i hn
      rw [Option.bind_eq_some_iff] at h2
      obtain ⟨x, h3, h4⟩ := h2
      split at h4
      · cases h4
        exact .load _ _ _ _ _ _ _ (rd_some h1).1 (isNull_false (by simpa using hn)) (rd_some h3).1 ‹_›
      · cases h4
  | store p h' k =>
    simp only [wexec, Option.bind_eq_some_iff] at h
    obtain ⟨y, h1, h2⟩ := h
    split at h2
    · cases h2
    · rename_i hn
      split at h2
      · cases h2
        exact .store _ _ _ _ _ _ _ (rd_some h1).1 (isNull_false (by simpa using hn)) ‹_› free_top
      · cases h2
  | cas p a b k =>
    simp only [wexec, Option.bind_eq_some_iff] at h
    obtain ⟨y, h1, h2⟩ := h
    split at h2
    · cases h2
    · rename_i hn
      have hn := isNull_false (x := y.val) (by simpa using hn)
      split at h2
      · rw [Option.bind_eq_some_iff] at h2
        obtain ⟨x, h3, h4⟩ := h2
        split at h4
        · split at h4
          · rename_i e
            subst e
            cases h4
            exact .casSame _ _ _ _ _ _ _ (rd_some h1).1 hn (rd_some h3).1 ‹_›
          · cases h4
            exact .casOk _ _ _ _ _ _ _ _ _ (rd_some h1).1 hn (rd_some h3).1 ‹_› (last h3)
        · cases h4; exact .casFail _ _ _ _ _ _ _ (rd_some h1).1 hn
      · cases h2; exact .casFail _ _ _ _ _ _ _ (rd_some h1).1 hn
  | newPid k =>
    simp only [wexec, Option.bind_eq_some_iff] at h
    obtain ⟨x, h1, h2⟩ := h
    split at h2
    · split at h2
      · cases h2; exact .newPid _ _ _ _ _ _ (rd_some h1).1 ‹_› (last h1) ‹_›
      · split at h2
        · cases h2
          exact .newPidRow _ _ _ _ _ _ _ (rd_some h1).1 ‹_› (last h1) ‹_› ‹_› free_top
        · cases h2
    · cases h2
  | newCell k => cases h; exact .newCell ..
  | loadCell w k =>
    simp only [wexec, Option.bind_eq_some_iff] at h
    obtain ⟨x, h1, h2⟩ := h
    split at h2
    · cases h2; exact .loadCell _ _ _ _ _ _ (rd_some h1).1 ‹_›
    · cases h2
  | storeCell w p k =>
    simp only [wexec] at h
    split at h
    · cases h; exact .storeCell _ _ _ _ _ _ ‹_› free_top
    · cases h

/-- Commands of a scenario. -/
inductive WCmd (K V : Type) where
  /-- start a point operation -/
  | op (t f : Nat) (c : Spec.Op K V)
  /-- one access with chosen reads -/
  | rd (t : Nat) (c : Option Nat)
  /-- `n` accesses with the last writes -/
  | steps (t n : Nat)
  /-- run to the end of the call, at most `n` accesses, and return -/
  | fin (t n : Nat)

variable {cfg : Cfg K}

/-- One access of a thread. -/
def wstep1 (o : Orders) (C : Nat) (c : Option Nat) (t : Nat) (S : WSys K V) : Option (WSys K V) :=
  match S.th t with
  | .idle => none
  | .run call p => (wexec o C c none true S.mem (S.view t) p).map fun y =>
      { S with mem := y.1, view := upd S.view t y.2.1, th := upd S.th t (.run call y.2.2) }

/-- Several accesses. -/
def wsteps (o : Orders) (C : Nat) (t : Nat) : Nat → WSys K V → Option (WSys K V)
  | 0, S => some S
  | n + 1, S => (wstep1 o C none t S).bind (wsteps o C t n)

/-- Accesses until nothing is left to do, and the return. -/
def wfin (o : Orders) (C : Nat) (t : Nat) : Nat → WSys K V → Option (WSys K V)
  | 0, _ => none
  | n + 1, S => match S.th t with
    | .run (.op _) (.ret _) => some { S with th := upd S.th t .idle }
    | _ => (wstep1 o C none t S).bind (wfin o C t n)

/-- One command. -/
def wcmd (o : Orders) (C : Nat) (cfg : Cfg K) (S : WSys K V) : WCmd K V → Option (WSys K V)
  | .op t f c => match S.th t with
    | .idle => some { S with
        th := upd S.th t (.run (.op c) ((runOp cfg f c).bind fun r => .ret (.res r, none))) }
    | .run _ _ => none
  | .rd t c => wstep1 o C c t S
  | .steps t n => wsteps o C t n S
  | .fin t n => wfin o C t n S

/-- A scenario. -/
def wcmds (o : Orders) (C : Nat) (cfg : Cfg K) : List (WCmd K V) → WSys K V → Option (WSys K V)
  | [], S => some S
  | c :: cs, S => (wcmd o C cfg S c).bind (wcmds o C cfg cs)

theorem wstep1_sound {c : Option Nat} {t : Nat} {S₀ S S' : WSys K V}
    (h : wstep1 o C c t S = some S') (hr : WRun o C cfg S₀ S) : WRun o C cfg S₀ S' := by
  unfold wstep1 at h
  split at h
  · cases h
  · rw [Option.map_eq_some_iff] at h
    obtain ⟨⟨m', v', p'⟩, h1, h2⟩ := h
    cases h2
    exact hr.step (.step _ _ _ _ _ _ _ ‹_› (wexec_sound h1))

theorem wsteps_sound {t : Nat} {S₀ : WSys K V} : ∀ {n : Nat} {S S' : WSys K V},
    wsteps o C t n S = some S' → WRun o C cfg S₀ S → WRun o C cfg S₀ S'
  | 0, S, S', h, hr => by cases h; exact hr
  | n + 1, S, S', h, hr => by
    rw [wsteps, Option.bind_eq_some_iff] at h
    obtain ⟨S1, h1, h2⟩ := h
    exact wsteps_sound h2 (wstep1_sound h1 hr)

theorem wfin_sound {t : Nat} {S₀ : WSys K V} : ∀ {n : Nat} {S S' : WSys K V},
    wfin o C t n S = some S' → WRun o C cfg S₀ S → WRun o C cfg S₀ S'
  | 0, S, S', h, hr => by cases h
  | n + 1, S, S', h, hr => by
    rw [wfin] at h
    split at h
    · cases h; exact hr.step (.retOp _ _ _ _ ‹_›)
    · rw [Option.bind_eq_some_iff] at h
      obtain ⟨S1, h1, h2⟩ := h
      exact wfin_sound h2 (wstep1_sound h1 hr)

theorem wcmds_sound {S₀ : WSys K V} : ∀ {cs : List (WCmd K V)} {S S' : WSys K V},
    wcmds o C cfg cs S = some S' → WRun o C cfg S₀ S → WRun o C cfg S₀ S'
  | [], S, S', h, hr => by cases h; exact hr
  | c :: cs, S, S', h, hr => by
    rw [wcmds, Option.bind_eq_some_iff] at h
    obtain ⟨S1, h1, h2⟩ := h
    refine wcmds_sound h2 ?_
    cases c with
    | op t f c =>
      simp only [wcmd] at h1
      split at h1
      · cases h1; exact hr.step (.op _ _ _ _ ‹_›)
      · cases h1
    | rd t c => exact wstep1_sound h1 hr
    | steps t n => exact wsteps_sound h1 hr
    | fin t n => exact wfin_sound h1 hr

/-- The kind of null pointer the next access of a thread may dereference: (slot, page ID). -/
def faultAt (C : Nat) (S : WSys K V) (t : Nat) : Option (Bool × PID) :=
  match S.th t with
  | .run _ (.load p _) =>
    if p = 0 then none
    else if (S.view t).get (.row (p / C)) = 0 && isNull (S.mem.init (.row (p / C))) then some (false, p)
    else if (S.view t).get (.slot p) = 0 && isNull (S.mem.init (.slot p)) then some (true, p)
    else none
  | .run _ (.store p _ _) | .run _ (.cas p _ _ _) =>
    if p = 0 then none
    else if (S.view t).get (.row (p / C)) = 0 && isNull (S.mem.init (.row (p / C))) then some (false, p)
    else none
  | _ => none

theorem isNull_true {x : WVal K V} (h : isNull x = true) : x = .null := by
  cases x with
  | null => rfl
  | chain c => cases h
  | id p => cases h

theorem faultAt_sound {S : WSys K V} {t : Nat} {x : Bool × PID} (h : faultAt C S t = some x) :
    ∃ c p, S.th t = .run c p ∧ MayFault C S.mem (S.view t) p := by
  have first : ∀ l, (decide ((S.view t).get l = 0) && isNull (S.mem.init l)) = true →
      ∃ x, Readable S.mem (S.view t) l x ∧ x.val = .null := by
    intro l h
    rw [Bool.and_eq_true, decide_eq_true_eq] at h
    exact ⟨S.mem.first l, ⟨Or.inr rfl, rfl, by rw [h.1]; exact Nat.zero_le _⟩, isNull_true h.2⟩
  unfold faultAt at h
  split at h
  · refine ⟨_, _, ‹_›, ?_⟩
    split at h
    · cases h
    · split at h
      · exact ⟨‹_›, Or.inl (first _ ‹_›)⟩
      · split at h
        · exact ⟨‹_›, Or.inr (first _ ‹_›)⟩
        · cases h
  · refine ⟨_, _, ‹_›, ?_⟩
    split at h
    · cases h
    · split at h
      · exact ⟨‹_›, first _ ‹_›⟩
      · cases h
  · refine ⟨_, _, ‹_›, ?_⟩
    split at h
    · cases h
    · split at h
      · exact ⟨‹_›, first _ ‹_›⟩
      · cases h
  · cases h

/-- A scenario on the empty tree that ends in front of a null pointer. -/
theorem fault_witness {cs : List (WCmd K V)} {t : Nat} {x : Bool × PID}
    (h : ((wcmds o C cfg cs (WSys.start C (initSh cfg))).bind fun S => faultAt C S t) = some x) :
    ∃ S : WSys K V, WRun o C cfg (WSys.start C (initSh cfg)) S ∧
      ∃ c p, S.th t = .run c p ∧ MayFault C S.mem (S.view t) p := by
  rw [Option.bind_eq_some_iff] at h
  obtain ⟨S, h1, h2⟩ := h
  exact ⟨S, wcmds_sound h1 .refl, faultAt_sound h2⟩

end BwTree.Weak
