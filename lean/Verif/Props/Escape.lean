import Verif.Props.Races

/-!
# Executions beyond the flagged states: a read that returns a page ID (C01)

The executions of `Conc/System.lean` end, for the thread concerned, where the code takes an index
node for a leaf (`Flag.innerAsLeaf`).  For `Read` the code does nothing undefined there if payloads
are eight bytes wide: `SearchRecord` compares keys only (`fixlen/node.hpp` 330-350) and `GetPayload`
copies the eight bytes of the page ID (268-276, 693-700).  This file adds that one transition and
shows that the resulting histories are not linearizable.
-/

namespace BwTree

set_option linter.unusedSectionVars false

/-- The bytes of a record of an index node read as a payload: the page ID, `fixlen/node.hpp`
268-276 with `sizeof(Payload) = sizeof(PageID)`.  The first 510 page IDs are the numbers 1, 2, …
(`mapping_table.hpp` 118-155, one row). -/
def asPayload : Pay Nat → Pay Nat
  | .child p => .val p
  | .val v => .val v

/-- A base node whose page IDs are read as payloads. -/
def asLeaf : Chain Nat Nat → Option (Chain Nat Nat)
  | .base n => some (.base { n with recs := n.recs.map fun r => (r.1, asPayload r.2) })
  | _ => none

/-- Executions in which `Read` goes on when the page it loads is an index node (a base node without
delta records): as `Read`, `bw_tree.hpp` 157-195, does with the bytes it finds. -/
inductive XRun (cfg : Cfg Nat) (S₀ : Sys Nat Nat) : List (Spec.Event Nat Nat) → Sys Nat Nat → Prop
  | nil : XRun cfg S₀ [] S₀
  | tau {h : List (Spec.Event Nat Nat)} {S S' : Sys Nat Nat} : XRun cfg S₀ h S →
      SysStep cfg S none S' → XRun cfg S₀ h S'
  | event {h : List (Spec.Event Nat Nat)} {S S' : Sys Nat Nat} {e : Spec.Event Nat Nat} :
      XRun cfg S₀ h S → SysStep cfg S (some e) S' → XRun cfg S₀ (h ++ [e]) S'
  | readInner {h : List (Spec.Event Nat Nat)} {S : Sys Nat Nat} {t key : Nat} {p : PID}
      {k : Chain Nat Nat → Prog Nat Nat (Out Nat Nat)} {c c' : Chain Nat Nat} {o : Option Nat} :
      XRun cfg S₀ h S → S.th t = .run (.op (.read key)) (.load p k) → S.sh.mt p = some c →
      k c = .flag .innerAsLeaf → asLeaf c = some c' → readChain key c' = .ret o →
      XRun cfg S₀ h
        { S with th := upd S.th t (.run (.op (.read key)) (.ret (.res (.payload o), none))) }

theorem Run.extended {cfg : Cfg Nat} {S₀ S : Sys Nat Nat} {h : List (Spec.Event Nat Nat)}
    (hr : Run cfg S₀ h S) : XRun cfg S₀ h S := by
  induction hr with
  | nil => exact .nil
  | tau _ hs ih => exact .tau ih hs
  | event _ hs ih => exact .event ih hs

namespace Spec

variable {K V : Type} [LinearOrder K]

/-- The call stores `v` under `k` if it succeeds. -/
def Call.stores (k : K) (v : V) : Call K V → Prop
  | .op (.write k' v') | .op (.insert k' v') | .op (.update k' v') => k' = k ∧ v' = v
  | _ => False

/-- The event is the invocation of such a call. -/
def Event.stores (k : K) (v : V) : Event K V → Prop
  | .inv _ c => c.stores k v
  | .ret .. => False

instance [DecidableEq V] (k : K) (v : V) (c : Call K V) : Decidable (c.stores k v) := by
  unfold Call.stores; split <;> infer_instance

instance [DecidableEq V] (k : K) (v : V) (e : Event K V) : Decidable (e.stores k v) := by
  unfold Event.stores; split <;> infer_instance

/-- A record is in the map only if it was there before or the call stored it. -/
theorem Step.origin {m m' : K → Option V} {c : Call K V} {r : Ret K V} (h : Step m c m' r) {k : K}
    {v : V} (hv : m' k = some v) : m k = some v ∨ c.stores k v := by
  cases h with
  | visit => exact Or.inl hv
  | op o =>
    have hset : ∀ {k' : K} {x : Option V}, set m k' x k = some v → m k = some v ∨
        (k' = k ∧ x = some v) := by
      intro k' x hx
      simp only [set] at hx
      split at hx
      · rename_i e; exact Or.inr ⟨e.symm, hx⟩
      · exact Or.inl hx
    cases o <;> simp only [apply] at hv
    all_goals (try split at hv)
    all_goals first
      | exact Or.inl hv
      | (rcases hset hv with h | ⟨h1, h2⟩
         · exact Or.inl h
         · cases h2 <;> exact Or.inr ⟨h1, rfl⟩)

/-- Every value an effect finds was in the map at first or was stored by an earlier effect. -/
theorem Chained.origin {k : K} {v : V} : ∀ {m : K → Option V} {log : List (Eff K V)},
    Chained m log → ∀ e ∈ log, e.pre k = some v → m k = some v ∨ ∃ a ∈ log, a.call.stores k v
  | _, [], _, e, he, _ => by simp at he
  | m, a :: log, hc, e, he, hv => by
    rcases List.mem_cons.mp he with rfl | he
    · left; rw [← hc.1]; exact hv
    · rcases Chained.origin hc.2.2 e he hv with h | ⟨b, hb, h⟩
      · rcases hc.2.1.origin h with h | h
        · exact Or.inl h
        · exact Or.inr ⟨a, List.mem_cons_self, h⟩
      · exact Or.inr ⟨b, List.mem_cons_of_mem _ hb, h⟩

/-- In a linearizable history every value a read returns was in the map at first or a call that
stores it was invoked. -/
theorem Linearizes.origin {m : K → Option V} {h : List (Event K V)} {log : List (Eff K V)}
    (hl : Linearizes m h log) {t : Nat} {k : K} {v : V}
    (hr : Event.ret t (.op (.read k)) (.res (.payload (some v))) ∈ h) :
    m k = some v ∨ ∃ u c, Event.inv u c ∈ h ∧ c.stores k v := by
  obtain ⟨j, hj⟩ := List.getElem?_of_mem hr
  obtain ⟨e, he, _, h2, h3, _⟩ := hl.ret j _ _ _ hj
  have hpre : e.pre k = some v := by
    have : ∀ {m : K → Option V} {log : List (Eff K V)}, Chained m log → e ∈ log →
        Step e.pre e.call e.post e.ret := by
      intro m log hc he
      induction log generalizing m with
      | nil => simp at he
      | cons a log ih =>
        rcases List.mem_cons.mp he with rfl | he
        · rw [hc.1]; exact hc.2.1
        · exact ih hc.2.2 he
    have hs := this hl.chain he
    rw [h2, h3] at hs
    generalize e.pre = q at hs ⊢
    generalize e.post = q' at hs
    generalize hR : Ret.res (Res.payload (some v)) = R at hs
    cases hs
    simp only [apply, Ret.res.injEq, Res.payload.injEq] at hR
    exact hR.symm
  rcases hl.chain.origin e he hpre with h | ⟨a, ha, h⟩
  · exact Or.inl h
  · obtain ⟨i, _, _, hi, _⟩ := hl.call a ha
    exact Or.inr ⟨a.t, a.call, List.mem_of_getElem? hi, h⟩

end Spec

namespace Props

/-- As `exShrink`: thread 1 reads key 40 and sleeps before it loads the leaf, thread 0 shrinks the
tree below it.  Then thread 0 inserts until the tree has one level more than at first, and thread 1
goes on: its leaf has been removed, it climbs down again from the root of its stack and stops one
level above the leaves. -/
def exEscape : List (Cmd Nat Nat) :=
  exFill 7 ++ [.acts [.op 1 100 (.read 40)], .steps 1 6, .call 0 100 (.update 40 1),
    .call 0 100 (.delete 70), .call 0 100 (.delete 60), .call 0 100 (.delete 50),
    .call 0 100 (.delete 40), .call 0 100 (.insert 40 1040), .call 0 100 (.insert 41 1041),
    .call 0 100 (.insert 42 1042), .call 0 100 (.insert 43 1043), .call 0 100 (.insert 44 1044),
    .steps 1 6]

/-- What `Read` of thread `t` returns if it is about to load an index node. -/
def escapeAt (S : Sys Nat Nat) (t : Nat) : Option (Nat × Option Nat) :=
  match S.th t with
  | .run (.op (.read key)) (.load p k) =>
    match S.sh.mt p with
    | some c =>
      match k c with
      | .flag .innerAsLeaf =>
        match asLeaf c with
        | some c' =>
          match readChain key c' with
          | .ret o => some (key, o)
          | _ => none
        | none => none
      | _ => none
    | none => none
  | _ => none

theorem escapeAt_spec {cfg : Cfg Nat} {S₀ S : Sys Nat Nat} {h : List (Spec.Event Nat Nat)} {t key : Nat}
    {o : Option Nat} (e : escapeAt S t = some (key, o)) (hr : XRun cfg S₀ h S) :
    ∃ S', XRun cfg S₀ (h ++ [.ret t (.op (.read key)) (.res (.payload o))]) S' := by
  unfold escapeAt at e
  split at e
  · split at e
    · split at e
      · split at e
        · split at e
          · cases e
            have h1 := XRun.readInner hr ‹_› ‹_› ‹_› ‹_› ‹_›
            exact ⟨_, h1.event (.retOp _ t (.read key) (.res (.payload o), none) (upd_same _ _ _))⟩
          · cases e
        · cases e
      · cases e
    · cases e
  · cases e

/-- C01 does not hold: `Read(40)` returns 11, which is the ID of a page.  The calls that store
something under key 40 store 3, 1 and 1040. -/
theorem C01_false : ∃ (h : List (Spec.Event Nat Nat)) (S : Sys Nat Nat),
    XRun tinyCfg (Sys.start (initSh tinyCfg)) h S ∧
    h.getLast? = some (.ret 1 (.op (.read 40)) (.res (.payload (some 11)))) ∧
    ¬ ∃ log, Spec.Linearizes (fun _ => none) h log := by
  obtain ⟨h, S, h1, _, h3⟩ := scenario_witness (cfg := tinyCfg) (cs := exEscape)
    (fun h S => (escapeAt S 1, decide (∀ e ∈ h, ¬ e.stores 40 11)))
    (x := (some (40, some 11), true)) (by decide +kernel)
  simp only [Prod.mk.injEq, decide_eq_true_eq] at h3
  obtain ⟨S', h4⟩ := escapeAt_spec h3.1 h1.extended
  refine ⟨_, S', h4, by simp, ?_⟩
  rintro ⟨log, hl⟩
  rcases hl.origin (t := 1) (k := 40) (v := 11) (by simp) with h | ⟨u, c, hc, hs⟩
  · cases h
  · rcases List.mem_append.mp hc with hc | hc
    · exact h3.2 _ hc hs
    · simp at hc

end Props
end BwTree
