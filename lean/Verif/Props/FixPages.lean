import Verif.Props.FixBytes
import Verif.Props.Escape

/-!
# Fixed-length pages whose size is not a power of two
-/

namespace BwTree.Props

open Fix
open Layout (Mem)
open Bytes (VStr Lay BSys BRun BSysStep bstart BCall brets execAll execAll_sound event)

set_option linter.unusedSectionVars false

variable {L : Lay} {legal legal' : Spec.Call Str Str → Prop}

theorem brun_mono (hl : ∀ c, legal c → legal' c) {S₀ S : BSys L} {h : List (Spec.Event Str Str)}
    (hr : BRun L legal S₀ h S) : BRun L legal' S₀ h S := by
  have hs : ∀ {S S' : BSys L} {e : Option (Spec.Event Str Str)}, BSysStep L legal S e S' →
      BSysStep L legal' S e S' := by
    intro S S' e h
    cases h with
    | op t f o h1 h2 => exact .op S t f o (hl _ h1) h2
    | scan t f b e h1 h2 => exact .scan S t f b e (hl _ h1) h2
    | next t f p k e h1 h2 => exact .next S t f p k e h1 h2
    | step t c p p' sh' h1 h2 => exact .step S t c p p' sh' h1 h2
    | retOp t o r h1 => exact .retOp S t o r h1
    | retVisit t b e r h1 => exact .retVisit S t b e r h1
  induction hr with
  | nil => exact .nil
  | tau _ h1 ih => exact .tau ih (hs h1)
  | event _ h1 ih => exact .event ih (hs h1)

theorem brun_legal {S₀ S : BSys L} {h : List (Spec.Event Str Str)} (hr : BRun L legal S₀ h S) {t : Nat}
    {o : Spec.Op Str Str} (hm : .inv t (.op o) ∈ h) : legal (.op o) := by
  induction hr with
  | nil => cases hm
  | tau _ _ ih => exact ih hm
  | event _ hs ih =>
    rcases List.mem_append.1 hm with hm | hm
    · exact ih hm
    · rw [List.mem_singleton] at hm
      subst hm
      cases hs with
      | op t f o h1 h2 => exact h1

/-- The call stores the bytes `v` if it succeeds. -/
def storesBytes (v : Str) : Spec.Call Str Str → Prop
  | .op (.write _ v') | .op (.insert _ v') | .op (.update _ v') => v' = v
  | _ => False

/-- In a linearizable history, a payload that was returned was stored by a call. -/
theorem returned_stored {K V : Type} [LinearOrder K] {e : Layout.Enc K V}
    {h' : List (Spec.Event K V)} {log : List (Spec.Eff K V)}
    (hl : Spec.Linearizes (fun _ => none) h' log) {v : Str}
    (hr : Spec.Ret.res (.payload (some v)) ∈ brets (h'.map (event e))) :
    ∃ t o, .inv t (.op o) ∈ h'.map (event e) ∧ storesBytes v (.op o) := by
  obtain ⟨ev, h1, h2⟩ := List.mem_filterMap.1 hr
  obtain ⟨ev', h3, rfl⟩ := List.mem_map.1 h1
  cases ev' with
  | inv t c => cases h2
  | ret t c r =>
    simp only [event, Option.some.injEq] at h2
    cases r with
    | page rs n => cases h2
    | res r =>
      cases r with
      | success => cases h2
      | keyExist => cases h2
      | keyNotExist => cases h2
      | payload p =>
        cases p with
        | none => simp [Bytes.rtn, Bytes.res] at h2
        | some x =>
          simp only [Bytes.rtn, Bytes.res, Option.map_some, Spec.Ret.res.injEq,
            Spec.Res.payload.injEq, Option.some.injEq] at h2
          -- the call is a read
          have hread : ∃ k, c = .op (.read k) := by
            obtain ⟨j, hj⟩ := List.getElem?_of_mem h3
            obtain ⟨ef, he, _, g2, g3, _⟩ := hl.ret j _ _ _ hj
            have : ∀ {m : K → Option V} {log : List (Spec.Eff K V)}, Spec.Chained m log → ef ∈ log →
                Spec.Step ef.pre ef.call ef.post ef.ret := by
              intro m log hc he
              induction log generalizing m with
              | nil => simp at he
              | cons a log ih =>
                rcases List.mem_cons.mp he with rfl | he
                · rw [hc.1]; exact hc.2.1
                · exact ih hc.2.2 he
            have hs := this hl.chain he
            rw [g2, g3] at hs
            generalize ef.pre = q at hs
            generalize ef.post = q' at hs
            generalize hR : Spec.Ret.res (Spec.Res.payload (some x)) = R at hs
            cases hs with
            | visit => cases hR
            | op o =>
              cases o <;> simp only [Spec.apply] at hR
              · exact ⟨_, rfl⟩
              all_goals (try split at hR)
              all_goals simp at hR
          obtain ⟨k, rfl⟩ := hread
          rcases hl.origin h3 with hx | ⟨u, c, hc, hs⟩
          · cases hx
          · have hm := List.mem_map_of_mem (f := event e) hc
            cases c with
            | visit b x => exact hs.elim
            | op o =>
              refine ⟨u, Bytes.op e o, hm, ?_⟩
              cases o with
              | read k => exact hs.elim
              | delete k => exact hs.elim
              | write k y => exact (congrArg e.val hs.2).trans h2
              | insert k y => exact (congrArg e.val hs.2).trans h2
              | update k y => exact (congrArg e.val hs.2).trans h2

/-- Pages of 6000 bytes: they compile (`common.hpp` 102 and 112) and meet the static assertion of
`bw_tree.hpp` 1683. -/
def oddPar : FPar := { fexPar with c := ⟨6000, 32, 32, 8⟩, minSize := 375, thr := 8 }

/-- Ten insertions and a read. -/
def oddCalls : List BCall :=
  (List.range 10).map (fun i => .op (.insert (fixKey i) (strVal i))) ++ [.op (.read (fixKey 0))]

/-- Legal calls that do not store zeros. -/
def oddCall : Spec.Call Str Str → Prop :=
  fun c => okCall oddPar c ∧ ¬ storesBytes (List.replicate 8 0) c

instance : (c : Spec.Call Str Str) → Decidable (storesBytes (List.replicate 8 0) c)
  | .op (.read _) | .op (.delete _) | .visit _ _ => isFalse id
  | .op (.write _ _) | .op (.insert _ _) | .op (.update _ _) => inferInstanceAs (Decidable (_ = _))

instance : (c : Spec.Call Str Str) → Decidable (okCall oddPar c)
  | .op (.read _) | .op (.delete _) => inferInstanceAs (Decidable (_ = _))
  | .op (.write _ _) | .op (.insert _ _) | .op (.update _ _) =>
    inferInstanceAs (Decidable (_ = _ ∧ _))
  | .visit none none => isTrue ⟨trivial, trivial⟩
  | .visit (some _) none => inferInstanceAs (Decidable (_ = _ ∧ True))
  | .visit none (some _) => inferInstanceAs (Decidable (True ∧ _ = _))
  | .visit (some _) (some _) => inferInstanceAs (Decidable (_ = _ ∧ _ = _))

instance : (c : BCall) → Decidable (c.Legal oddCall)
  | .op o => inferInstanceAs (Decidable (okCall oddPar (.op o) ∧ _))
  | .visit b e => inferInstanceAs (Decidable (okCall oddPar (.visit b e) ∧ _))
  | .next => isTrue trivial

instance : LinearOrder (VStr oddPar.c.klen) := inferInstanceAs (LinearOrder (VStr 8))

set_option maxRecDepth 100000 in
/-- Without the condition on the page size (all others of `FPar.OK` hold) the operations are not
linearizable: with pages of 6000 bytes a read returns eight zeros although no call stores them.  The
leaf was consolidated, and `GetPayloadAddr` leads to the bytes of a key. -/
theorem C65_false :
    4096 ≤ oddPar.c.page ∧ oddPar.c.klen + oddPar.pay ≤ oddPar.c.page / 4 ∧
    ∃ h B, BRun (fixLay oddPar) (okCall oddPar) (bstart (fixLay oddPar) fun _ => 7) h B ∧
      B.sh.npid ≤ 256 ^ oddPar.pid ∧
      Spec.Ret.res (.payload (some (List.replicate 8 0))) ∈ brets h ∧
      ¬ ∃ h' : List (Spec.Event (VStr oddPar.c.klen) (VStr oddPar.pay)),
        h = h'.map (event oddPar.enc) ∧ ∃ log, Spec.Linearizes (fun _ => none) h' log := by
  refine ⟨by decide, by decide, ?_⟩
  have hx : ((execAll (L := fixLay oddPar) 40 1000 (bstart (fixLay oddPar) fun _ => 7) oddCalls).elim
      false fun x => decide (x.1.drop 10 = [.res (.payload (some (List.replicate 8 0)))]) &&
        decide (x.2.sh.npid = 2)) = true := by decide +kernel
  cases he : execAll (L := fixLay oddPar) 40 1000 (bstart (fixLay oddPar) fun _ => 7) oddCalls with
  | none => rw [he] at hx; cases hx
  | some x =>
    rw [he] at hx
    obtain ⟨rs, B⟩ := x
    simp only [Option.elim_some, Bool.and_eq_true, decide_eq_true_eq] at hx
    obtain ⟨h', r1, r2⟩ := execAll_sound (legal := oddCall) (by decide +kernel) rfl .nil he
    have hmem : Spec.Ret.res (.payload (some (List.replicate 8 0))) ∈ brets h' := by
      refine List.mem_of_mem_drop (i := 10) ?_
      rw [r2]
      show _ ∈ rs.drop 10
      rw [hx.1]; exact List.mem_cons_self ..
    refine ⟨h', B, brun_mono (fun c h => h.1) r1, by rw [hx.2]; decide, hmem, ?_⟩
    rintro ⟨g, hg, log, hl⟩
    rw [hg] at hmem
    obtain ⟨t, o, k1, k2⟩ := returned_stored hl hmem
    rw [← hg] at k1
    exact (brun_legal r1 k1).2 k2

end BwTree.Props
