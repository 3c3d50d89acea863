import Verif.Bytes.SoloTree

/-!
# A quiet tree in order on bytes (proof side)
-/

namespace BwTree.Bytes

open Layout (Mem BBound Enc)

set_option linter.unusedSectionVars false

variable {K V : Type} [LinearOrder K] {cfg : Cfg K} {e : Enc K V} {L : Lay} {OK : Chain K V → Prop}
  {Img : Chain K V → L.C → Prop} {NI : Node K V → L.N → Prop} {DI : Delta K V → L.D → Prop}
  {legal : Spec.Call Str Str → Prop} {lt : Str → Str → Bool} {lim : Nat}

theorem _root_.BwTree.Run.join {S₀ S S' : Sys K V} {h h' : List (Spec.Event K V)}
    (hr : Run cfg S₀ h S) (hr' : Run cfg S h' S') : Run cfg S₀ (h ++ h') S' := by
  induction hr' with
  | nil => rw [List.append_nil]; exact hr
  | tau _ hs ih => exact ih.tau hs
  | event _ hs ih => rw [← List.append_assoc]; exact ih.event hs

/-- The bytes of a pending or returned call. -/
def opSt (e : Enc K V) : Spec.OpSt K V → Spec.OpSt Str Str
  | .idle => .idle
  | .pending c => .pending (call e c)
  | .done c r => .done (call e c) (rtn e r)

theorem setOp_enc (f : Nat → Spec.OpSt K V) (t : Nat) (x : Spec.OpSt K V) :
    (fun u => opSt e (Spec.setOp f t x u)) = Spec.setOp (fun u => opSt e (f u)) t (opSt e x) := by
  funext u
  unfold Spec.setOp
  split <;> rfl

/-- A history of the map of records is one of the map of strings. -/
theorem accepts_enc (hlt : ∀ a b, lt (e.key a) (e.key b) = decide (a < b))
    (hk : Function.Injective e.key) {a b : Spec.AMap K V} {h : List (Spec.Event K V)}
    (ha : Spec.Accepts a h b) {M : Str → Option Str} (hM : MapI e a.m M) :
    ∃ M', MapI e b.m M' ∧ @Spec.Accepts Str Str _ (strLT lt) ⟨M, fun t => opSt e (a.ops t)⟩
      (h.map (event e)) ⟨M', fun t => opSt e (b.ops t)⟩ := by
  induction ha with
  | nil => exact ⟨M, hM, @Spec.Accepts.nil Str Str _ (strLT lt) _⟩
  | @inv b h t op _ h2 ih =>
    obtain ⟨M', g1, g2⟩ := ih
    refine ⟨M', g1, ?_⟩
    rw [List.map_append]
    simp only [setOp_enc]
    exact @Spec.Accepts.inv Str Str _ (strLT lt) _ _ _ t (call e op) g2 (by simp only [h2]; rfl)
  | @lin b h t op m' r _ h2 h3 ih =>
    obtain ⟨M', g1, g2⟩ := ih
    have h4 : m' = Spec.mapAfter b.m op := by cases h3 <;> rfl
    refine ⟨Spec.mapAfter M' (call e op), by rw [h4]; exact g1.after hk op, ?_⟩
    simp only [setOp_enc]
    exact @Spec.Accepts.lin Str Str _ (strLT lt) _ _ _ t (call e op) _ (rtn e r) g2
      (by simp only [h2]; rfl) (step_enc hlt hk g1 h3)
  | @ret b h t op r _ h2 ih =>
    obtain ⟨M', g1, g2⟩ := ih
    refine ⟨M', g1, ?_⟩
    rw [List.map_append]
    simp only [setOp_enc]
    exact @Spec.Accepts.ret Str Str _ (strLT lt) _ _ _ t (call e op) (rtn e r) g2 (by simp only [h2]; rfl)

theorem SysI.quiet {hist : Nat → Chain K V} {S : Sys K V} {B : BSys L} (h : SysI OK Img e hist S B)
    (hq : ∀ t, B.th t = .idle) (t : Nat) : S.th t = .idle := by
  have h1 := h.th hist Agree.rfl t
  rw [hq t] at h1
  cases h2 : S.th t with
  | idle => rfl
  | run c p => rw [h2] at h1; exact h1.elim

/-- The bytes of a quiet tree in order are good for one thread. -/
theorem quiet_setup (hL : LayOK cfg e L OK Img NI DI) (hlegal : ∀ c, legal c → ∃ c', c = call e c')
    (hk : Function.Injective e.key) (hlt : ∀ a b, lt (e.key a) (e.key b) = decide (a < b))
    (hR : Roomy cfg) (hc : CfgOK2 cfg) {m : K → Option V} {M : Str → Option Str} (hM : MapI e m M)
    {sh0 : Sh K V} (hi : Init cfg m sh0)
    (hok : ∀ h S, Run cfg (Sys.start sh0) h S → S.sh.npid ≤ lim → ∀ x ch, S.sh.mt x = some ch → OK ch)
    {h' : List (Spec.Event K V)} {S : Sys K V} (hr : Run cfg (Sys.start sh0) h' S)
    {hist : Nat → Chain K V} {B : BSys L} (hS : SysI OK Img e hist S B) (hq : ∀ t, B.th t = .idle)
    (hw : ∀ p hd, B.sh.mt p = some hd → L.needWait hd.ch = false) (ho : Spec.InOrder S.sh) :
    ∃ mS M', @Spec.Accepts Str Str _ (strLT lt) ⟨M, fun _ => .idle⟩ (h'.map (event e))
        ⟨M', fun _ => .idle⟩ ∧
      Setup cfg e L OK Img NI DI legal lt lim mS M' B.sh := by
  obtain ⟨s, h1, h2, h3⟩ := hi.minded hc hr
  have hq' := hS.quiet hq
  have hsh := h1.sh
  have hmt : ∀ p, s.mt p = S.sh.mt p := fun p => congrFun (congrArg Sh.mt hsh) p
  have hrest : Rested cfg s none := Spec.InOrder.rested h1 h2 hq'
    (fun p c hm => by
      rw [hmt] at hm
      cases hb : B.sh.mt p with
      | none => rw [hS.sh.null p hb] at hm; cases hm
      | some hd =>
        obtain ⟨_, g1, g2⟩ := hS.sh.head p hd hb
        rw [hm] at g1; cases g1
        rw [← hL.needWait g2]; exact hw p hd hb)
    (by rw [hsh]; exact ho)
  obtain ⟨M', g1, g2⟩ := accepts_enc hlt hk h3 hM
  have hops : ∀ t, s.ops t = .idle := by
    intro t
    have := h1.th t
    rw [hq' t] at this
    exact this
  have g3 : (fun t => opSt e (s.ops t)) = fun _ => .idle := by
    funext t; rw [hops t]; rfl
  change @Spec.Accepts Str Str _ (strLT lt) ⟨M, fun _ => .idle⟩ _ ⟨M', fun t => opSt e (s.ops t)⟩ at g2
  rw [g3] at g2
  refine ⟨s.m, M', g2, hL, hlegal, hk, hlt, hR, hc, g1, S.sh, hist, ⟨?_, ?_⟩, hS.sh, S, rfl, hq', ?_, ?_⟩
  · intro l sh it hl
    exact hl.meetsFrom hc h1 hq'
  · intro l sh it hl
    exact hrest.session hR hc (by rw [hsh]; exact hl)
  · intro h S' hr'
    exact (Props.C01_linearizable_partial hc hi (hr.join hr')).2
  · intro h S' hr'
    exact hok _ _ (hr.join hr')

end BwTree.Bytes
