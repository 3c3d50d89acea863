import Verif.Mem.Start
import Verif.Conc.Exec

/-!
# Concrete executions with addresses (used by examples)

An interpreter for schedules, proved to produce executions of the system of `Verif/Mem/System.lean`.
-/

namespace BwTree.Mem

open BwTree.Gc (Obj)

set_option linter.unusedSectionVars false

variable {K V : Type} [LinearOrder K] [DecidableEq V]

/-- Follow the pointers, at most `n` of them. -/
def readChain (mem : Obj → Rec K V) : Nat → Obj → Option (Chain K V × List Obj)
  | 0, _ => none
  | n + 1, h => match mem h with
    | .node m => some (.base m, [])
    | .mark b => some (.removed b, [])
    | .delta d x => match d.pay with
      | .node _ => none
      | _ => match readChain mem n x with
        | some (c, l) => some (.delta d c, x :: l)
        | none => none
    | .merge d x y => match mem y, readChain mem n x with
      | .node m, some (c, l) => some (.delta { d with pay := .node m } c, y :: x :: l)
      | _, _ => none

theorem readChain_sound {mem : Obj → Rec K V} : ∀ {n : Nat} {h : Obj} {c : Chain K V}
    {l : List Obj}, readChain mem n h = some (c, l) → Repr mem h c l
  | 0, _, _, _, e => by cases e
  | n + 1, h, c, l, e => by
    simp only [readChain] at e
    split at e
    · cases e; exact .node ‹_›
    · cases e; exact .mark ‹_›
    · rename_i d x hm
      split at e
      · cases e
      · rename_i hp
        split at e
        · cases e
          exact .delta hm (fun n hn => hp n hn) (readChain_sound ‹_›)
        · cases e
    · rename_i d x y hm
      split at e
      · cases e
        exact .merge hm ‹_› (readChain_sound ‹_›)
      · cases e

/-- Actions of a scheduler. -/
inductive PAct (K V : Type) where
  | op (t f : Nat) (o : Spec.Op K V)
  | scan (t f : Nat) (b e : Spec.Bound K)
  | next (t f : Nat)
  /-- the next access of a thread, with the private objects `x` and `y`; a CAS fails if `ok` is
  false -/
  | step (t : Nat) (ok : Bool) (x y : Obj)
  | alloc (t : Nat) (o : Obj)
  | release (t : Nat) (o : Obj)
  | retire (t : Nat) (o : Obj)
  /-- all guards of threads below `n` are newer; no other thread has a guard -/
  | free (o : Obj)
  | ret (t : Nat)

/-- The address from which the thread has the head `o` of `p`, if it is still there. -/
def expected (P : PSt K V) (t : Nat) (p : PID) (o : Chain K V) : Option Obj :=
  match P.gc.slot p with
  | some h => if (p, o, h) ∈ (P.fr t).hd then some h else none
  | none => none

theorem expected_some {P : PSt K V} {t : Nat} {p : PID} {o : Chain K V} {h : Obj}
    (e : expected P t p o = some h) : P.gc.slot p = some h ∧ (p, o, h) ∈ (P.fr t).hd := by
  unfold expected at e
  split at e
  · split at e
    · cases e; exact ⟨‹_›, ‹_›⟩
    · cases e
  · cases e

/-- One access. -/
def pacc (cfg : Cfg K) (P : PSt K V) (t : Nat) (c : Spec.Call K V) (ok : Bool) (x y : Obj) :
    Prog K V (Out K V) → Option (PSt K V)
  | .ret _ | .ub | .stuck | .flag _ => none
  | .loadRoot k => some { P with th := upd P.th t (.run c (k P.root)) }
  | .storeRoot r k => some { P with root := r, th := upd P.th t (.run c k) }
  | .casRoot o n k =>
    if P.root = o then match P.gc.rem o with
      | some ⟨u, mk, z⟩ => if u = t then
          some { P with root := n, gc := Gc.eff P.gc (.dropRoot t o mk z),
                        fr := upd P.fr t (P.fr t).pop, th := upd P.th t (.run c (k true)) }
        else none
      | none => none
    else some { P with th := upd P.th t (.run c (k false)) }
  | .load p k => match P.gc.slot p with
    | some h => match readChain P.mem 64 h with
      | some (ch, _) =>
        some { P with gc := Gc.eff P.gc (.load t p), fr := upd P.fr t ((P.fr t).load p ch h),
                      th := upd P.th t (.run c (k ch)) }
      | none => none
    | none => none
  | .store p (.base n) k =>
    if p ∈ (P.fr t).new ∧ P.gc.loc x = .priv t then
      some { P with gc := Gc.eff P.gc (.publish t p x), mem := Gc.set P.mem x (.node n),
                    fr := upd P.fr t ((P.fr t).pub p (.base n) x), th := upd P.th t (.run c k) }
    else if (P.fr t).new = [] then match (P.fr t).chk with
      | some (q, _, h) => if q = p ∧ P.gc.loc x = .priv t then
          some { P with gc := Gc.eff P.gc (.replace t p x h), mem := Gc.set P.mem x (.node n),
                        fr := upd P.fr t (P.fr t).fail, th := upd P.th t (.run c k) }
        else none
      | none => match (P.fr t).rems, P.gc.rem p with
        | (q, m) :: _, some ⟨u, mk, z⟩ => if q = p ∧ m = n ∧ u = t then
            some { P with gc := Gc.eff P.gc (.restore t p mk z), fr := upd P.fr t (P.fr t).pop,
                          th := upd P.th t (.run c k) }
          else none
        | _, _ => none
    else none
  | .store _ _ _ => none
  | .cas p o n k => match ok, expected P t p o with
    | true, some h =>
      if n = o then
        some { P with fr := upd P.fr t ((P.fr t).same p o h), th := upd P.th t (.run c (k true)) }
      else if P.gc.loc x = .priv t then match n with
        | .delta d o' => if o' = o then match d.pay with
            | .node m => match (P.fr t).rems with
              | (q, m') :: _ => match P.gc.rem q with
                | some ⟨u, mk, z⟩ => if m' = m ∧ u = t then
                    some { P with gc := Gc.eff P.gc (.merge t q mk z p x h),
                                  mem := Gc.set P.mem x (.merge { d with pay := .none } h z),
                                  fr := upd P.fr t (((P.fr t).push p (.delta d o) x).pop),
                                  th := upd P.th t (.run c (k true)) }
                  else none
                | none => none
              | [] => none
            | .cell w => if w ∈ (P.fr t).cs then
                some { P with gc := Gc.eff P.gc (.push t p x h), mem := Gc.set P.mem x (.delta d h),
                              cellAt := upd P.cellAt w (some x),
                              fr := upd P.fr t (((P.fr t).push p (.delta d o) x).dropCell w),
                              th := upd P.th t (.run c (k true)) }
              else none
            | _ => some { P with gc := Gc.eff P.gc (.push t p x h),
                                 mem := Gc.set P.mem x (.delta d h),
                                 fr := upd P.fr t ((P.fr t).push p (.delta d o) x),
                                 th := upd P.th t (.run c (k true)) }
          else none
        | .base n => some { P with gc := Gc.eff P.gc (.replace t p x h),
                                   mem := Gc.set P.mem x (.node n),
                                   fr := upd P.fr t (P.fr t).fail,
                                   th := upd P.th t (.run c (k true)) }
        | .removed b => match tryConsolidate cfg false o with
          | some (.merge m) => if P.gc.loc y = .priv t ∧ x ≠ y then
              some { P with gc := Gc.eff P.gc (.mark t p x y h),
                            mem := Gc.set (Gc.set P.mem x (.mark b)) y (.node m),
                            fr := upd P.fr t ((P.fr t).mark p m),
                            th := upd P.th t (.run c (k true)) }
            else none
          | _ => none
      else none
    | _, _ => some { P with fr := upd P.fr t (P.fr t).fail, th := upd P.th t (.run c (k false)) }
  | .newPid k => some { P with npid := P.npid + 1, fr := upd P.fr t ((P.fr t).pid P.npid),
                               th := upd P.th t (.run c (k P.npid)) }
  | .newCell k => some { P with ncell := P.ncell + 1, cells := upd P.cells P.ncell 0,
                                fr := upd P.fr t ((P.fr t).cell P.ncell),
                                th := upd P.th t (.run c (k P.ncell)) }
  | .loadCell w k => match P.cellAt w with
    | some o => match P.mem o with
      | .delta d _ => if d.pay = .cell w then some { P with th := upd P.th t (.run c (k (P.cells w))) }
        else none
      | _ => none
    | none => none
  | .storeCell w p k => match P.cellAt w with
    | some o => match P.mem o with
      | .delta d _ => if d.pay = .cell w then
          some { P with cells := upd P.cells w p, th := upd P.th t (.run c k) }
        else none
      | _ => none
    | none => none

theorem pacc_sound {cfg : Cfg K} {gn : Bool} {P P' : PSt K V} {t : Nat} {c : Spec.Call K V}
    {ok : Bool} {x y : Obj} {p : Prog K V (Out K V)} (hp : P.th t = .run c p)
    (e : pacc cfg P t c ok x y p = some P') : PStep cfg gn P none P' := by
  cases p with
  | ret a => cases e
  | ub => cases e
  | stuck => cases e
  | flag k => cases e
  | loadRoot k => cases e; exact .loadRoot _ _ _ _ hp
  | storeRoot r k => cases e; exact .storeRoot _ _ _ _ _ hp
  | casRoot o n k =>
    simp only [pacc] at e
    split at e
    · split at e
      · split at e
        · rename_i h1 _ _ _ _ h2 h3
          subst h3
          cases e
          exact .casRootOk _ _ _ _ _ _ _ _ hp h1 h2
        · cases e
      · cases e
    · cases e
      exact .casRootFail _ _ _ _ _ _ hp ‹_›
  | load p k =>
    simp only [pacc] at e
    split at e
    · split at e
      · cases e
        exact .load _ _ _ _ _ _ _ _ hp ‹_› (readChain_sound ‹_›)
      · cases e
    · cases e
  | store p ch k =>
    cases ch with
    | base n =>
      simp only [pacc] at e
      split at e
      · rename_i h1
        cases e
        exact .publish _ _ _ _ _ _ _ hp h1.1 h1.2
      · split at e
        · rename_i h2
          split at e
          · split at e
            · rename_i h3 h4
              obtain ⟨rfl, h5⟩ := h4
              cases e
              exact .split _ _ _ _ _ _ _ _ _ hp h2 h3 h5
            · cases e
          · split at e
            · split at e
              · rename_i h4 h5 h6
                obtain ⟨rfl, rfl, rfl⟩ := h6
                cases e
                exact .restore _ _ _ _ _ _ _ _ _ hp h2 ‹_› h4 h5
              · cases e
            · cases e
        · cases e
    | removed b => cases e
    | delta d ch => cases e
  | cas p o n k =>
    simp only [pacc] at e
    split at e
    · rename_i h hx
      obtain ⟨h1, h2⟩ := expected_some hx
      split at e
      · rename_i ho
        subst ho
        cases e
        exact .same _ _ _ _ _ _ _ hp h2 h1
      · rename_i ho
        split at e
        · rename_i hl
          split at e
          · rename_i d o'
            split at e
            · rename_i ho'
              subst ho'
              split at e
              · rename_i m hd
                split at e
                · rename_i q m' rs hrs
                  split at e
                  · split at e
                    · rename_i h3 h4
                      obtain ⟨rfl, rfl⟩ := h4
                      cases e
                      exact .merge _ _ _ _ _ _ _ _ _ _ _ _ _ _ hp h2 h1 hl hd hrs h3
                    · cases e
                  · cases e
                · cases e
              · rename_i w hd
                split at e
                · cases e
                  exact .pushCell _ _ _ _ _ _ _ _ _ _ hp h2 h1 hl hd ‹_›
                · cases e
              · rename_i hd1 hd2
                cases e
                exact .push _ _ _ _ _ _ _ _ _ hp h2 h1 hl (fun m hm => hd1 m hm)
                  fun w hw => hd2 w hw
            · cases e
          · cases e
            exact .replace _ _ _ _ _ _ _ _ _ hp ho h2 h1 hl
          · split at e
            · split at e
              · rename_i h3 h4
                cases e
                exact .mark _ _ _ _ _ _ _ _ _ _ _ hp ho h2 h1 hl h4.1 h4.2 h3
              · cases e
            · cases e
        · cases e
    · cases e
      exact .casFail _ _ _ _ _ _ _ hp
  | newPid k => cases e; exact .newPid _ _ _ _ hp
  | newCell k => cases e; exact .newCell _ _ _ _ hp
  | loadCell w k =>
    simp only [pacc] at e
    split at e
    · split at e
      · split at e
        · cases e; exact .loadCell _ _ _ _ _ hp ⟨_, _, _, ‹_›, ‹_›, ‹_›⟩
        · cases e
      · cases e
    · cases e
  | storeCell w p k =>
    simp only [pacc] at e
    split at e
    · split at e
      · split at e
        · cases e; exact .storeCell _ _ _ _ _ _ hp ⟨_, _, _, ‹_›, ‹_›, ‹_›⟩
        · cases e
      · cases e
    · cases e

/-- History in reverse, and state. -/
abbrev PX (K V : Type) := List (Spec.Event K V) × PSt K V

/-- May the collector free the object?  Only threads 0, 1 and 2 occur in the history. -/
def mayFree (h : List (Spec.Event K V)) (P : PSt K V) (o : Obj) : Bool :=
  (match P.gc.loc o with
    | .retired r => (List.range 3).all fun t => match P.gc.guard t with
      | some g => decide (r < g)
      | none => true
    | _ => false) && h.all fun e => decide (evThread e < 3)

/-- One action. -/
def pexec (cfg : Cfg K) (gn : Bool) (x : PX K V) : PAct K V → Option (PX K V)
  | .op t f o => match x.2.th t with
    | .idle => some (.inv t (.op o) :: x.1,
        { x.2 with
          gc := Gc.eff x.2.gc (.enter t), fr := upd x.2.fr t .empty,
          th := upd x.2.th t (.run (.op o) ((runOp cfg f o).bind fun r => .ret (.res r, none))) })
    | .run _ _ => none
  | .scan t f b e => match x.2.th t with
    | .idle => some (.inv t (.visit b e) :: x.1,
        { x.2 with
          gc := Gc.eff x.2.gc (.enter t), fr := upd x.2.fr t .empty,
          th := upd x.2.th t (.run (.visit b e)
            ((scanFirst cfg f b e).bind fun y => .ret (visitOut e y))) })
    | .run _ _ => none
  | .next t f => match gn, x.2.th t, x.2.it t with
    | true, .idle, some (p, k, e) => some (.inv t (.visit (some (k, true)) e) :: x.1,
        { x.2 with
          gc := Gc.eff x.2.gc (.enter t), fr := upd x.2.fr t .empty,
          th := upd x.2.th t (.run (.visit (some (k, true)) e)
            ((scanNext cfg f p k e).bind fun y => .ret (visitOut e y))) })
    | _, _, _ => none
  | .step t ok a b => match x.2.th t with
    | .idle => none
    | .run c p => match pacc cfg x.2 t c ok a b p with
      | some P' => some (x.1, P')
      | none => none
  | .alloc t o => if x.2.gc.loc o = .free then
      some (x.1, { x.2 with gc := Gc.eff x.2.gc (.alloc t o), mem := Gc.set x.2.mem o (.mark true) })
    else none
  | .release t o => if x.2.gc.loc o = .priv t then
      some (x.1, { x.2 with gc := Gc.eff x.2.gc (.release t o) })
    else none
  | .retire t o => if o ∈ x.2.gc.todo t then
      some (x.1, { x.2 with gc := Gc.eff x.2.gc (.retire t o) })
    else none
  | .free o => if mayFree x.1 x.2 o then
      some (x.1, { x.2 with gc := Gc.eff x.2.gc (.free o), mem := Gc.set x.2.mem o (.mark true) })
    else none
  | .ret t => if x.2.gc.todo t = [] then match x.2.th t with
      | .run (.op o) (.ret r) => some (.ret t (.op o) r.1 :: x.1,
          { x.2 with
            gc := Gc.eff x.2.gc (.leave t), fr := upd x.2.fr t .empty, th := upd x.2.th t .idle })
      | .run (.visit b e) (.ret r) => some (.ret t (.visit b e) r.1 :: x.1,
          { x.2 with
            gc := Gc.eff x.2.gc (.leave t), fr := upd x.2.fr t .empty, th := upd x.2.th t .idle,
            it := upd x.2.it t r.2 })
      | _ => none
    else none

/-- A thread that does not occur in the history has no guard. -/
theorem PRun.guard {cfg : Cfg K} {gn : Bool} (hc : CfgOK2 cfg) {m : K → Option V} {sh : Sh K V}
    {P₀ P : PSt K V} (hi : Init cfg m sh) (h0 : PStart sh P₀) {h : List (Spec.Event K V)}
    (hr : PRun cfg gn P₀ h P) {t : Nat} (ht : ∀ e ∈ h, evThread e ≠ t) : P.gc.guard t = none := by
  obtain ⟨s, h1, _⟩ := h0.cpl hc hi
  obtain ⟨S', s', h2, h3⟩ := h1.run hc hr
  have := h2.idle ht
  rw [h3.th] at this
  exact (h3.mem.idle t this).1

theorem mayFree_spec {cfg : Cfg K} {gn : Bool} (hc : CfgOK2 cfg) {m : K → Option V} {sh : Sh K V}
    {P₀ P : PSt K V} (hi : Init cfg m sh) (h0 : PStart sh P₀) {h : List (Spec.Event K V)}
    (hr : PRun cfg gn P₀ h.reverse P) {o : Obj} (hf : mayFree h P o = true) :
    Gc.Pre P.gc (.free o) := by
  rw [mayFree, Bool.and_eq_true] at hf
  obtain ⟨h1, h2⟩ := hf
  rw [List.all_eq_true] at h2
  split at h1
  · rename_i r hl
    rw [List.all_eq_true] at h1
    refine ⟨r, hl, fun t g hg => ?_⟩
    by_cases ht : t < 3
    · have := h1 t (List.mem_range.2 ht)
      rw [hg] at this
      exact of_decide_eq_true this
    · have := PRun.guard hc hi h0 hr (t := t) fun e he e' => by
        have := of_decide_eq_true (h2 e (List.mem_reverse.1 he))
        rw [e'] at this
        exact ht this
      rw [this] at hg
      cases hg
  · cases h1

theorem pexec_sound {cfg : Cfg K} {gn : Bool} (hc : CfgOK2 cfg) {m : K → Option V} {sh : Sh K V}
    {P₀ : PSt K V} (hi : Init cfg m sh) (h0 : PStart sh P₀) {x y : PX K V} {a : PAct K V}
    (hr : PRun cfg gn P₀ x.1.reverse x.2) (e : pexec cfg gn x a = some y) :
    PRun cfg gn P₀ y.1.reverse y.2 := by
  cases a with
  | op t f o =>
    simp only [pexec] at e
    split at e
    · cases e
      rw [List.reverse_cons]
      exact hr.event (.op _ _ _ _ ‹_›)
    · cases e
  | scan t f b e' =>
    simp only [pexec] at e
    split at e
    · cases e
      rw [List.reverse_cons]
      exact hr.event (.scan _ _ _ _ _ ‹_›)
    · cases e
  | next t f =>
    simp only [pexec] at e
    split at e
    · cases e
      rw [List.reverse_cons]
      exact hr.event (.next _ _ _ _ _ _ rfl ‹_› ‹_›)
    · cases e
  | step t ok a b =>
    simp only [pexec] at e
    split at e
    · cases e
    · split at e
      · cases e
        exact hr.tau (pacc_sound ‹_› ‹_›)
      · cases e
  | alloc t o =>
    simp only [pexec] at e
    split at e
    · cases e
      exact hr.tau (.alloc _ _ _ _ ‹_›)
    · cases e
  | release t o =>
    simp only [pexec] at e
    split at e
    · cases e
      exact hr.tau (.release _ _ _ ‹_›)
    · cases e
  | retire t o =>
    simp only [pexec] at e
    split at e
    · cases e
      exact hr.tau (.retire _ _ _ ‹_›)
    · cases e
  | free o =>
    simp only [pexec] at e
    split at e
    · cases e
      exact hr.tau (.free _ _ _ (mayFree_spec hc hi h0 hr ‹_›))
    · cases e
  | ret t =>
    simp only [pexec] at e
    split at e
    · split at e
      · cases e
        rw [List.reverse_cons]
        exact hr.event (.retOp _ _ _ _ ‹_› ‹_›)
      · cases e
        rw [List.reverse_cons]
        exact hr.event (.retVisit _ _ _ _ _ ‹_› ‹_›)
      · cases e
    · cases e

/-- A schedule. -/
def pexecs (cfg : Cfg K) (gn : Bool) : List (PAct K V) → PX K V → Option (PX K V)
  | [], x => some x
  | a :: as, x => match pexec cfg gn x a with
    | some y => pexecs cfg gn as y
    | none => none

theorem pexecs_sound {cfg : Cfg K} {gn : Bool} (hc : CfgOK2 cfg) {m : K → Option V} {sh : Sh K V}
    {P₀ : PSt K V} (hi : Init cfg m sh) (h0 : PStart sh P₀) : ∀ {as : List (PAct K V)}
    {x y : PX K V}, PRun cfg gn P₀ x.1.reverse x.2 → pexecs cfg gn as x = some y →
    PRun cfg gn P₀ y.1.reverse y.2
  | [], x, y, hr, e => by cases e; exact hr
  | a :: as, x, y, hr, e => by
    simp only [pexecs] at e
    split at e
    · exact pexecs_sound hc hi h0 (pexec_sound hc hi h0 hr ‹_›) e
    · cases e

/-- The actions for the next access of a thread: allocate what it may need, make the access, hand the
garbage over. -/
def plan (x : PX K V) (t : Nat) : List (PAct K V) :=
  match x.2.th t with
  | .run _ (.cas _ _ n _) => match n, (List.range 64).filter fun o => x.2.gc.loc o = .free with
    | .removed _, a :: b :: _ => [.alloc t a, .alloc t b, .step t true a b]
    | _, a :: _ => [.alloc t a, .step t true a a]
    | _, _ => []
  | .run _ (.store ..) => match (List.range 64).filter fun o => x.2.gc.loc o = .free with
    | a :: _ => [.alloc t a, .step t true a a]
    | _ => []
  | _ => [.step t true 0 0]

/-- Release what is private and unused; hand the garbage over. -/
def tidy (x : PX K V) (t : Nat) : List (PAct K V) :=
  ((List.range 64).filter fun o => x.2.gc.loc o = .priv t).map (.release t) ++
    (x.2.gc.todo t).map (.retire t)

/-- Steps of a thread until its call is finished or it cannot move, at most `n`. -/
def pfinish (cfg : Cfg K) (gn : Bool) (t : Nat) : Nat → PX K V → Option (PX K V)
  | 0, x => some x
  | n + 1, x => match pexecs cfg gn (plan x t) x with
    | some y => match pexecs cfg gn (tidy y t) y with
      | some z => pfinish cfg gn t n z
      | none => none
    | none => some x

theorem pfinish_sound {cfg : Cfg K} {gn : Bool} (hc : CfgOK2 cfg) {m : K → Option V} {sh : Sh K V}
    {P₀ : PSt K V} (hi : Init cfg m sh) (h0 : PStart sh P₀) {t : Nat} : ∀ {n : Nat}
    {x y : PX K V}, PRun cfg gn P₀ x.1.reverse x.2 → pfinish cfg gn t n x = some y →
    PRun cfg gn P₀ y.1.reverse y.2
  | 0, x, y, hr, e => by cases e; exact hr
  | n + 1, x, y, hr, e => by
    simp only [pfinish] at e
    split at e
    · split at e
      · exact pfinish_sound hc hi h0 (pexecs_sound hc hi h0 (pexecs_sound hc hi h0 hr ‹_›) ‹_›) e
      · cases e
    · cases e; exact hr

/-- Commands of a scenario. -/
inductive PCmd (K V : Type) where
  /-- single actions -/
  | acts (as : List (PAct K V))
  /-- at most `n` accesses of a thread, with what they need -/
  | steps (t n : Nat)
  /-- a whole call, with at most `n` accesses -/
  | call (t n : Nat) (o : Spec.Op K V)
  /-- let a thread finish its call -/
  | fin (t n : Nat)
  /-- free everything that may be freed -/
  | collect

/-- One command. -/
def pcexec (cfg : Cfg K) (gn : Bool) (x : PX K V) : PCmd K V → Option (PX K V)
  | .acts as => pexecs cfg gn as x
  | .steps t n => pfinish cfg gn t n x
  | .call t n o => match pexecs cfg gn [.op t n o] x with
    | some y => match pfinish cfg gn t n y with
      | some z => pexecs cfg gn [.ret t] z
      | none => none
    | none => none
  | .fin t n => match pfinish cfg gn t n x with
    | some z => pexecs cfg gn [.ret t] z
    | none => none
  | .collect => pexecs cfg gn (((List.range 64).filter (mayFree x.1 x.2)).map .free) x

/-- A scenario. -/
def pcexecs (cfg : Cfg K) (gn : Bool) : List (PCmd K V) → PX K V → Option (PX K V)
  | [], x => some x
  | c :: cs, x => match pcexec cfg gn x c with
    | some y => pcexecs cfg gn cs y
    | none => none

theorem pcexec_sound {cfg : Cfg K} {gn : Bool} (hc : CfgOK2 cfg) {m : K → Option V} {sh : Sh K V}
    {P₀ : PSt K V} (hi : Init cfg m sh) (h0 : PStart sh P₀) {c : PCmd K V} {x y : PX K V}
    (hr : PRun cfg gn P₀ x.1.reverse x.2) (e : pcexec cfg gn x c = some y) :
    PRun cfg gn P₀ y.1.reverse y.2 := by
  cases c with
  | acts as => exact pexecs_sound hc hi h0 hr e
  | steps t n => exact pfinish_sound hc hi h0 hr e
  | call t n o =>
    simp only [pcexec] at e
    split at e
    · split at e
      · exact pexecs_sound hc hi h0 (pfinish_sound hc hi h0 (pexecs_sound hc hi h0 hr ‹_›) ‹_›) e
      · cases e
    · cases e
  | fin t n =>
    simp only [pcexec] at e
    split at e
    · exact pexecs_sound hc hi h0 (pfinish_sound hc hi h0 hr ‹_›) e
    · cases e
  | collect => exact pexecs_sound hc hi h0 hr e

theorem pcexecs_sound {cfg : Cfg K} {gn : Bool} (hc : CfgOK2 cfg) {m : K → Option V} {sh : Sh K V}
    {P₀ : PSt K V} (hi : Init cfg m sh) (h0 : PStart sh P₀) : ∀ {cs : List (PCmd K V)}
    {x y : PX K V}, PRun cfg gn P₀ x.1.reverse x.2 → pcexecs cfg gn cs x = some y →
    PRun cfg gn P₀ y.1.reverse y.2
  | [], x, y, hr, e => by cases e; exact hr
  | c :: cs, x, y, hr, e => by
    simp only [pcexecs] at e
    split at e
    · exact pcexecs_sound hc hi h0 (pcexec_sound hc hi h0 hr ‹_›) e
    · cases e

/-- A scenario on the empty tree: the history and the final state. -/
def pscenario (cfg : Cfg K) (gn : Bool) (cs : List (PCmd K V)) : Option (PX K V) :=
  (pcexecs cfg gn cs ([], startAt (initSh cfg))).map fun x => (x.1.reverse, x.2)

theorem pscenario_witness {cfg : Cfg K} {gn : Bool} (hc : CfgOK2 cfg) {cs : List (PCmd K V)}
    {α : Type} {z : α} (f : List (Spec.Event K V) → PSt K V → α)
    (e : ((pscenario cfg gn cs).map fun y => f y.1 y.2) = some z) :
    ∃ P₀ h P, Init cfg (fun _ : K => (none : Option V)) (initSh cfg) ∧
      PStart (initSh cfg) P₀ ∧ PRun cfg gn P₀ h P ∧ f h P = z := by
  have hi : Init cfg (fun _ : K => (none : Option V)) (initSh cfg) := .empty
  rw [Option.map_eq_some_iff] at e
  obtain ⟨⟨h, P⟩, e1, e2⟩ := e
  simp only [pscenario, Option.map_eq_some_iff] at e1
  obtain ⟨y, e3, e4⟩ := e1
  cases e4
  exact ⟨_, _, _, hi, (Init.start hi), pcexecs_sound hc hi (Init.start hi) .nil e3, e2⟩

end BwTree.Mem
