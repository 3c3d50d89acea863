import Verif.Bytes.VarBulk
import Verif.Props.Bytes
import Verif.Props.FixPages

/-!
# Operations after Bulkload with variable-length keys
-/

namespace BwTree.Spec

variable {K V : Type} [LinearOrder K]

/-- The call does not remove `k`. -/
def Call.keeps (k : K) : Call K V → Prop
  | .op (.delete k') => k' ≠ k
  | _ => True

theorem Step.keeps {m m' : K → Option V} {c : Call K V} {r : Ret K V} (h : Step m c m' r) {k : K}
    (hk : m k ≠ none) (hc : c.keeps k) : m' k ≠ none := by
  cases h with
  | visit => exact hk
  | op o =>
    have hset : ∀ {k' : K} {v : V}, set m k' (some v) k ≠ none := by
      intro k' v
      simp only [set]
      split
      · exact Option.some_ne_none _
      · exact hk
    cases o with
    | read k' => exact hk
    | write k' v => exact hset
    | insert k' v =>
      simp only [apply]
      split
      · exact hset
      · exact hk
    | update k' v =>
      simp only [apply]
      split
      · exact hk
      · exact hset
    | delete k' =>
      have hne : k ≠ k' := fun e => hc e.symm
      simp only [apply]
      split
      · exact hk
      · simp only [set, if_neg hne]; exact hk

theorem Chained.keeps {k : K} : ∀ {m : K → Option V} {log : List (Eff K V)}, Chained m log →
    m k ≠ none → (∀ e ∈ log, e.call.keeps k) → ∀ e ∈ log, e.pre k ≠ none
  | _, [], _, _, _, e, he => by simp at he
  | m, a :: log, hc, hk, hd, e, he => by
    rcases List.mem_cons.mp he with rfl | he
    · rw [hc.1]; exact hk
    · exact Chained.keeps hc.2.2 (hc.2.1.keeps hk (hd a List.mem_cons_self))
        (fun e he => hd e (List.mem_cons_of_mem _ he)) e he

/-- In a linearizable history, a key that was in the map at first and that no call removes is found by
every read. -/
theorem Linearizes.kept {m : K → Option V} {h : List (Event K V)} {log : List (Eff K V)}
    (hl : Linearizes m h log) {k : K} (hk : m k ≠ none) (hd : ∀ t c, Event.inv t c ∈ h → c.keeps k)
    {t : Nat} : Event.ret t (.op (.read k)) (.res (.payload none)) ∉ h := by
  intro hr
  obtain ⟨j, hj⟩ := List.getElem?_of_mem hr
  obtain ⟨e, he, _, h2, h3, _⟩ := hl.ret j _ _ _ hj
  have hpre : e.pre k = none := by
    have : ∀ {m : K → Option V} {log : List (Eff K V)}, Chained m log → e ∈ log →
        Step e.pre e.call e.post e.ret := by
      intro m log hc he
      induction log generalizing m with
      | nil => simp at he
      | cons a log ih =>
        rcases List.mem_cons.mp he with rfl | he
        · rw [hc.1]; exact hc.2.1
        · exact ih hc.2.2 he
    have hs := this hl.chain he
    rw [h2, h3] at hs
    generalize e.pre = q at hs ⊢
    generalize e.post = q' at hs
    generalize hR : Ret.res (Res.payload none) = R at hs
    cases hs
    simp only [apply, Ret.res.injEq, Res.payload.injEq] at hR
    exact hR.symm
  refine hl.chain.keeps hk (fun a ha => ?_) e he hpre
  obtain ⟨i, _, _, hi, _⟩ := hl.call a ha
  exact hd _ _ (List.mem_of_getElem? hi)

/-- Only reads return a payload or its absence. -/
theorem Linearizes.read {m : K → Option V} {h : List (Event K V)} {log : List (Eff K V)}
    (hl : Linearizes m h log) {t : Nat} {c : Call K V} {o : Option V}
    (hr : Event.ret t c (.res (.payload o)) ∈ h) : ∃ k u, c = .op (.read k) ∧ Event.inv u c ∈ h := by
  obtain ⟨j, hj⟩ := List.getElem?_of_mem hr
  obtain ⟨e, he, _, h2, h3, _⟩ := hl.ret j _ _ _ hj
  obtain ⟨i, _, _, hi, _⟩ := hl.call e he
  have hs : Step e.pre e.call e.post e.ret := by
    have : ∀ {m : K → Option V} {log : List (Eff K V)}, Chained m log → e ∈ log →
        Step e.pre e.call e.post e.ret := by
      intro m log hc he
      induction log generalizing m with
      | nil => simp at he
      | cons a log ih =>
        rcases List.mem_cons.mp he with rfl | he
        · rw [hc.1]; exact hc.2.1
        · exact ih hc.2.2 he
    exact this hl.chain he
  rw [h2] at hi
  have hi := List.mem_of_getElem? hi
  rw [h2, h3] at hs
  generalize e.pre = q at hs
  generalize e.post = q' at hs
  generalize hR : Ret.res (Res.payload o) = R at hs
  cases hs with
  | visit => cases hR
  | op o' =>
    cases o' with
    | read k => exact ⟨k, _, rfl, hi⟩
    | write k v => simp [apply] at hR
    | insert k v => simp only [apply] at hR; split at hR <;> simp at hR
    | update k v => simp only [apply] at hR; split at hR <;> simp at hR
    | delete k => simp only [apply] at hR; split at hR <;> simp at hR

end BwTree.Spec

namespace BwTree.Props

open Bytes
open Layout (Mem VPage)

/-- The calls insert, write or update, or read the key `k`. -/
def oneRead (k : Str) : Spec.Call Str Str → Prop
  | .op (.read k') => k' = k
  | .op (.delete _) => False
  | .op _ => True
  | .visit _ _ => False

instance (k : Str) : (c : Spec.Call Str Str) → Decidable (oneRead k c)
  | .op (.read _) => inferInstanceAs (Decidable (_ = _))
  | .op (.delete _) => isFalse id
  | .op (.write ..) | .op (.insert ..) | .op (.update ..) => isTrue trivial
  | .visit _ _ => isFalse id

/-- In a linearizable history of such calls, no read misses a key that was in the map at first. -/
theorem never_missed {P : VPar} {mk : Nat} {m : KStr mk → Option (VStr P.pay)}
    [LinearOrder (KStr mk)] {h' : List (Spec.Event (KStr mk) (VStr P.pay))}
    {log : List (Spec.Eff (KStr mk) (VStr P.pay))} (hl : Spec.Linearizes m h' log) {k : KStr mk}
    (hk : m k ≠ none)
    (hc : ∀ t o, .inv t (.op o) ∈ h'.map (event (P.enc mk)) → oneRead k.1 (.op o)) :
    Spec.Ret.res (.payload none) ∉ brets (h'.map (event (P.enc mk))) := by
  intro hr
  obtain ⟨ev, h1, h2⟩ := List.mem_filterMap.1 hr
  obtain ⟨ev', h3, rfl⟩ := List.mem_map.1 h1
  have hcall : ∀ t o, .inv t (.op o) ∈ h' → oneRead k.1 (.op (op (P.enc mk) o)) := fun t o hm =>
    hc t _ (List.mem_map.2 ⟨_, hm, rfl⟩)
  cases ev' with
  | inv t c => cases h2
  | ret t c r =>
    have hr' : r = .res (.payload none) := by
      have h2 := Option.some.inj h2
      cases r with
      | page => cases h2
      | res r =>
        cases r with
        | payload o =>
          cases o with
          | none => rfl
          | some v => cases h2
        | success => cases h2
        | keyExist => cases h2
        | keyNotExist => cases h2
    subst hr'
    obtain ⟨k', u, rfl, hi⟩ := hl.read h3
    have e : k' = k := Subtype.ext (hcall u _ hi)
    subst e
    refine hl.kept hk (fun t c hm => ?_) h3
    cases c with
    | visit => trivial
    | op o =>
      cases o with
      | delete k' => exact absurd (hcall t _ hm) id
      | _ => trivial

/-! ## C68 -/

/-- A key of eight bytes. -/
def loadKey (i : Nat) : KStr 8 := ⟨[UInt8.ofNat i, 0, 0, 0, 8, 0, 16, 0], Nat.succ_pos _, Nat.le_refl 8⟩

/-- A payload. -/
def loadVal (i : Nat) : VStr exPar.pay := ⟨strVal i, rfl⟩

/-- Seventeen records: three leaves. -/
def loadRecs : List (KStr 8 × VStr exPar.pay) :=
  (List.range 17).map fun i => (loadKey (120 + i), loadVal i)

/-- The page IDs the workers draw. -/
def loadIds (t i : Nat) : PID := 2 + i + 30 * t

/-- Two insertions into the second leaf and a read of its last record. -/
def loadCalls : List BCall :=
  [.op (.insert [128, 0, 0, 1] (strVal 50)), .op (.insert [129, 0, 0, 1] (strVal 51)),
   .op (.read (loadKey 135).1)]

/-- Calls as in `loadCalls`. -/
def loadCall (c : Spec.Call Str Str) : Prop := okCall exPar 8 c ∧ oneRead (loadKey 135).1 c

instance (c : Spec.Call Str Str) : Decidable (loadCall c) := inferInstanceAs (Decidable (_ ∧ _))

instance : (c : BCall) → Decidable (c.Legal loadCall)
  | .op o => inferInstanceAs (Decidable (loadCall (.op o)))
  | .visit b e => inferInstanceAs (Decidable (loadCall (.visit b e)))
  | .next => isTrue trivial

set_option maxRecDepth 100000 in
/-- With variable-length keys the operations after `Bulkload` are not linearizable, with constants for
which they are when the tree starts empty (`exPar_ok`, C62): a loaded record that nobody removes is
lost.  `Bulkload` leaves the lowest key of a leaf out of `node_size_` (C23), so two insertions pass
for fitting; consolidation then writes the highest key over the metadata of the last record. -/
theorem C68_false : exPar.OK 8 ∧ (loadRecs.map Prod.fst).Pairwise (· < ·) ∧
    ∃ T root, vBulkload exPar 8 8 (fun _ _ => 7) loadIds 1 (loadRecs.map fun x => (x.1.1, x.2.1)) =
        some (T, root) ∧
      ∃ h B, BRun (varLay exPar) (okCall exPar 8) (vBulkStart exPar T root 100) h B ∧
        B.sh.npid ≤ 256 ^ exPar.pid ∧
        brets h = [.res .success, .res .success, .res (.payload none)] ∧
        ¬ ∃ h' : List (Spec.Event (KStr 8) (VStr exPar.pay)),
          h = h'.map (event (exPar.enc 8)) ∧ ∃ log, Spec.Linearizes (Spec.ofList loadRecs) h' log := by
  refine ⟨exPar_ok, by decide +kernel, ?_⟩
  have hx : ((vBulkload exPar 8 8 (fun _ _ => 7) loadIds 1
      (loadRecs.map fun x => (x.1.1, x.2.1))).elim false fun y =>
      (execAll (L := varLay exPar) 40 1000 (vBulkStart exPar y.1 y.2 100) loadCalls).elim
      false fun x => decide (x.1 = [.res .success, .res .success, .res (.payload none)]) &&
        decide (x.2.sh.npid = 100)) = true := by decide +kernel
  cases hb : vBulkload exPar 8 8 (fun _ _ => 7) loadIds 1 (loadRecs.map fun x => (x.1.1, x.2.1)) with
  | none => rw [hb] at hx; cases hx
  | some y =>
    rw [hb] at hx
    obtain ⟨T, root⟩ := y
    refine ⟨T, root, rfl, ?_⟩
    simp only [Option.elim_some] at hx
    cases he : execAll (L := varLay exPar) 40 1000 (vBulkStart exPar T root 100) loadCalls with
    | none => rw [he] at hx; cases hx
    | some x =>
      rw [he] at hx
      obtain ⟨rs, B⟩ := x
      simp only [Option.elim_some, Bool.and_eq_true, decide_eq_true_eq] at hx
      obtain ⟨h, r1, r2⟩ := execAll_sound (legal := loadCall) (by decide +kernel) rfl .nil he
      have hrets : brets h = [.res .success, .res .success, .res (.payload none)] := r2.trans hx.1
      refine ⟨h, B, brun_mono (fun c h => h.1) r1, by rw [hx.2]; decide, hrets, ?_⟩
      rintro ⟨g, hg, log, hl⟩
      refine never_missed (k := loadKey 135) hl (by decide +kernel) (fun t o hm => ?_) ?_
      · rw [← hg] at hm
        exact (brun_legal r1 hm).2
      · rw [← hg, hrets]
        exact List.mem_cons_of_mem _ (List.mem_cons_of_mem _ List.mem_cons_self)

end BwTree.Props
