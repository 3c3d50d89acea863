import Verif.Weak.Known
import Verif.Weak.Start

/-!
# Page IDs in memory have been reserved (proof side)
-/

namespace BwTree.Bytes

open Weak

set_option linter.unusedSectionVars false

variable {K V : Type} [LinearOrder K] {cfg : Cfg K} {α : Type}

/-- The program uses page IDs below `n` only. -/
def POK (n : PID) (Q : α → (PID → Prop) → Prop) (p : Prog K V α) : Prop :=
  ∃ N F : PID → Prop, (∀ q, N q → q < n) ∧ (∀ q, F q → q < n) ∧ kp p Q N F

/-- All page IDs in shared memory are below `npid`. -/
structure ShIds (s : Sh K V) : Prop where
  pos : 0 < s.npid
  root : s.root < s.npid
  cells : ∀ w, s.cells w < s.npid
  slots : ∀ p c, s.mt p = some c → ∀ q, c.Ids q → q < s.npid

theorem in_lt {N : PID → Prop} {n p : PID} (h0 : 0 < n) (hN : ∀ q, N q → q < n) (h : In N p) :
    p < n := by
  rcases h with h | h
  · rw [h]; exact h0
  · exact hN p h

theorem POK.step {s s' : Sh K V} {p p' : Prog K V α} {Q : α → (PID → Prop) → Prop}
    (hs : ShIds s) (hp : POK s.npid Q p) (h : AStep s p s' p') :
    ShIds s' ∧ s.npid ≤ s'.npid ∧ POK s'.npid Q p' := by
  obtain ⟨N, F, hN, hF, hk⟩ := hp
  have or {n : PID} {A : PID → Prop} (hA : ∀ q, A q → q < n) (hN : ∀ q, N q → q < n) :
      ∀ q, (N q ∨ A q) → q < n := fun q h => h.elim (hN q) (hA q)
  have slots : ∀ {p : PID} {c : Chain K V}, (∀ q, c.Ids q → q < s.npid) →
      ∀ p' c', upd s.mt p (some c) p' = some c' → ∀ q, c'.Ids q → q < s.npid := by
    intro p c hc p' c' h
    by_cases e : p' = p
    · subst e; rw [upd_same] at h; cases h; exact hc
    · rw [upd_ne _ _ e] at h; exact hs.slots p' c' h
  cases h with
  | loadRoot k =>
    exact ⟨hs, Nat.le_refl _, _, F, or (fun q h => by rw [h]; exact hs.root) hN, hF, hk s.root⟩
  | storeRoot p k =>
    exact ⟨⟨hs.pos, in_lt hs.pos hN hk.1, hs.cells, hs.slots⟩, Nat.le_refl _, N, F, hN, hF, hk.2⟩
  | casRootOk o n k e =>
    exact ⟨⟨hs.pos, in_lt hs.pos hN hk.1, hs.cells, hs.slots⟩, Nat.le_refl _, N, F, hN, hF, hk.2 true⟩
  | casRootFail o n k e => exact ⟨hs, Nat.le_refl _, N, F, hN, hF, hk.2 false⟩
  | load p k c e =>
    exact ⟨hs, Nat.le_refl _, _, F, or (hs.slots p c e) hN, hF, hk.2 c⟩
  | loadNull p k e => exact ⟨hs, Nat.le_refl _, N, F, hN, hF, trivial⟩
  | store p c k =>
    refine ⟨⟨hs.pos, hs.root, hs.cells, slots fun q hq => in_lt hs.pos hN (hk.2.1 q hq)⟩,
      Nat.le_refl _, _, F, or (fun q h => ?_) hN, hF, hk.2.2⟩
    subst h
    exact hk.1.elim (fun h => in_lt hs.pos hN h) fun h => hF _ h
  | casOk p o n k e =>
    exact ⟨⟨hs.pos, hs.root, hs.cells, slots fun q hq => in_lt hs.pos hN (hk.2.1 q hq)⟩,
      Nat.le_refl _, N, F, hN, hF, hk.2.2 true⟩
  | casFail p o n k => exact ⟨hs, Nat.le_refl _, N, F, hN, hF, hk.2.2 false⟩
  | newPid k =>
    refine ⟨⟨Nat.succ_pos _, Nat.lt_succ_of_lt hs.root, fun w => Nat.lt_succ_of_lt (hs.cells w),
      fun p c e q h => Nat.lt_succ_of_lt (hs.slots p c e q h)⟩, Nat.le_succ _, N, _,
      fun q h => Nat.lt_succ_of_lt (hN q h), fun q h => h.elim (fun h => Nat.lt_succ_of_lt (hF q h))
        fun h => by rw [h]; exact Nat.lt_succ_self _, hk s.npid⟩
  | newCell k =>
    refine ⟨⟨hs.pos, hs.root, fun w => ?_, hs.slots⟩, Nat.le_refl _, N, F, hN, hF, hk s.ncell⟩
    show upd s.cells s.ncell 0 w < s.npid
    by_cases e : w = s.ncell
    · subst e; rw [upd_same]; exact hs.pos
    · rw [upd_ne _ _ e]; exact hs.cells w
  | loadCell w k =>
    exact ⟨hs, Nat.le_refl _, _, F, or (fun q h => by rw [h]; exact hs.cells w) hN, hF, hk _⟩
  | storeCell w p k =>
    refine ⟨⟨hs.pos, hs.root, fun w' => ?_, hs.slots⟩, Nat.le_refl _, N, F, hN, hF, hk.2⟩
    show upd s.cells w p w' < s.npid
    by_cases e : w' = w
    · subst e; rw [upd_same]; exact in_lt hs.pos hN hk.1
    · rw [upd_ne _ _ e]; exact hs.cells w'

theorem POK.mono {n n' : PID} (h : n ≤ n') {Q : α → (PID → Prop) → Prop} {p : Prog K V α}
    (hp : POK n Q p) : POK n' Q p := by
  obtain ⟨N, F, hN, hF, hk⟩ := hp
  exact ⟨N, F, fun q hq => Nat.lt_of_lt_of_le (hN q hq) h, fun q hq => Nat.lt_of_lt_of_le (hF q hq) h, hk⟩

/-- A thread uses page IDs below `n` only. -/
def TIds (n : PID) : TSt K V → Prop
  | .idle => True
  | .run _ p => POK n (fun a N => OutIn N a) p

theorem TIds.mono {n n' : PID} (h : n ≤ n') {x : TSt K V} (hx : TIds n x) : TIds n' x := by
  cases x with
  | idle => trivial
  | run c p => exact POK.mono h hx

/-- All page IDs of the system are below `npid`. -/
structure SysIds (S : Sys K V) : Prop where
  sh : ShIds S.sh
  th : ∀ t, TIds S.sh.npid (S.th t)
  it : ∀ t p k e, S.it t = some (p, k, e) → p < S.sh.npid

theorem SysIds.step {S S' : Sys K V} {ev : Option (Spec.Event K V)} (hi : SysIds S)
    (h : SysStep cfg S ev S') : SysIds S' := by
  have keep : ∀ (t : Nat) (x : TSt K V), TIds S.sh.npid x →
      ∀ t', TIds S.sh.npid (upd S.th t x t') := by
    intro t x hx t'
    by_cases e : t' = t
    · subst e; rw [upd_same]; exact hx
    · rw [upd_ne _ _ e]; exact hi.th t'
  have start : ∀ {N : PID → Prop} {p : Prog K V (Out K V)}, (∀ q, N q → q < S.sh.npid) →
      Kn p (fun x N' => OutIn N' x) N → POK S.sh.npid (fun a N => OutIn N a) p := fun hN hp =>
    ⟨_, fun _ => False, hN, fun _ h => h.elim, kp_mono hp (fun _ _ x => x.2) fun _ h => h⟩
  cases h with
  | op t f o h1 =>
    exact ⟨hi.sh, keep t _ (start (N := fun _ => False) (fun _ h => h.elim) op_kn), hi.it⟩
  | scan t f b e h1 =>
    exact ⟨hi.sh, keep t _ (start (N := fun _ => False) (fun _ h => h.elim) scan_kn), hi.it⟩
  | next t f p k e h1 h2 =>
    refine ⟨hi.sh, keep t _ (start (N := fun q => q = p) (fun q h => ?_) (next_kn (Or.inr rfl))), hi.it⟩
    rw [h]; exact hi.it t p k e h2
  | step t c p p' sh' h1 h2 =>
    have hp := hi.th t
    rw [h1] at hp
    obtain ⟨e1, e2, e3⟩ := POK.step hi.sh hp h2
    refine ⟨e1, fun t' => ?_, fun t' q k e hq => Nat.lt_of_lt_of_le (hi.it t' q k e hq) e2⟩
    show TIds sh'.npid (upd S.th t _ t')
    by_cases e : t' = t
    · subst e; rw [upd_same]; exact e3
    · rw [upd_ne _ _ e]; exact (hi.th t').mono e2
  | retOp t o r h1 => exact ⟨hi.sh, keep t _ trivial, hi.it⟩
  | retVisit t b e r h1 =>
    refine ⟨hi.sh, keep t _ trivial, fun t' q k e' hq => ?_⟩
    have hq : upd S.it t r.2 t' = some (q, k, e') := hq
    by_cases e'' : t' = t
    · subst e''
      rw [upd_same] at hq
      have hp := hi.th t'
      rw [h1] at hp
      obtain ⟨N, F, hN, -, hk⟩ := hp
      exact in_lt hi.sh.pos hN (hk q k e' hq)
    · rw [upd_ne _ _ e''] at hq
      exact hi.it _ _ _ _ hq

theorem SysIds.run {S₀ S : Sys K V} {h : List (Spec.Event K V)} (hi : SysIds S₀)
    (hr : Run cfg S₀ h S) : SysIds S := by
  induction hr with
  | nil => exact hi
  | tau _ hs ih => exact ih.step hs
  | event _ hs ih => exact ih.step hs

/-- Initial states. -/
theorem init_ids {m : K → Option V} {sh : Sh K V} (h : Init cfg m sh) : SysIds (Sys.start sh) := by
  have hc := h.closed
  have hr := hc.npid _ hc.root
  have h0 : 0 < sh.npid := Nat.lt_of_le_of_lt (Nat.zero_le sh.root) hr
  refine ⟨⟨h0, hr, fun w => ?_, fun p c hp q hq => ?_⟩, fun _ => trivial, fun _ _ _ _ h => by cases h⟩
  · show sh.cells w < sh.npid
    rw [hc.cells w]; exact h0
  · rcases hc.ids p c hp q hq with rfl | hq
    · exact h0
    · exact hc.npid q hq

end BwTree.Bytes
