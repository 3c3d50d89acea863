import Verif.Bulk.Resize
import Verif.Conc.Exclusive
import Verif.Spec.Apart
import Verif.Props.Bulk

/-!
# Reads and scans of a bulkloaded tree (C83)

Any number of threads read and scan a bulkloaded tree, in any layout.  With variable-length keys writes
after `Bulkload` may lose records (C68).
-/

namespace BwTree.Props

open BwTree

set_option linter.unusedSectionVars false

variable {K V : Type} [LinearOrder K] {cfg : Cfg K}

theorem flatCfg_roomy (M : Nat) : Roomy (flatCfg K M) := by
  refine ⟨fun b => ?_, Nat.le_refl _⟩
  rw [flatCfg_recLen]
  simp only [flatCfg]
  omega

/-- The table with the sizes of `Node.flatten`. -/
def flatTbl (T : Tbl K V) : Tbl K V := fun p => (T p).map Node.flatten

/-- Threads that read. -/
def FlatTh : TSt K V → TSt K V → Prop
  | .idle, .idle => True
  | .run c p, .run c' q => c = c' ∧ Resized p q
  | _, _ => False

/-- The two systems. -/
structure FlatSys (T : Tbl K V) (root npid : PID) (S S' : Sys K V) : Prop where
  sh : S.sh = bulkSh T root npid
  sh' : S'.sh = bulkSh (flatTbl T) root npid
  it : S'.it = S.it
  th : ∀ t, FlatTh (S.th t) (S'.th t)

theorem FlatSys.step {cfg cfg' : Cfg K} {T : Tbl K V} {root npid : PID} {S S' S1 : Sys K V} {e : Option (Spec.Event K V)}
    (h : FlatSys T root npid S S') (hs : SysStep cfg S e S1)
    (hr : ∀ t c, e = some (.inv t c) → c.isWrite = false) :
    ∃ S1', SureStep cfg' S' e S1' ∧ FlatSys T root npid S1 S1' := by
  have hw : ∀ (n : Node K V) (z : Int),
      (Chain.base n).needWait cfg = (Chain.base (n.resize z)).needWait cfg' := fun _ _ => rfl
  have hidle : ∀ {t}, S.th t = .idle → S'.th t = .idle := by
    intro t ht
    have := h.th t
    rw [ht] at this
    cases hq : S'.th t with
    | idle => rfl
    | run c q => rw [hq] at this; exact this.elim
  have hrun : ∀ {t c p}, S.th t = .run c p → ∃ q, S'.th t = .run c q ∧ Resized p q := by
    intro t c p ht
    have := h.th t
    rw [ht] at this
    cases hq : S'.th t with
    | idle => rw [hq] at this; exact this.elim
    | run c' q => rw [hq] at this; obtain ⟨rfl, h⟩ := this; exact ⟨q, rfl, h⟩
  have hth : ∀ {t x y}, FlatTh x y → ∀ u, FlatTh (upd S.th t x u) (upd S'.th t y u) := by
    intro t x y hxy u
    by_cases e : u = t
    · subst e; rw [upd_same, upd_same]; exact hxy
    · rw [upd_ne _ _ e, upd_ne _ _ e]; exact h.th u
  cases hs with
  | op t f o ht =>
    cases o with
    | read k =>
      exact ⟨_, .event (.op S' t f _ (hidle ht)), h.sh, h.sh', h.it,
        hth ⟨rfl, (read_resized cfg cfg' f k).bind fun _ => .ret rfl⟩⟩
    | _ => exact absurd (hr _ _ rfl) (by simp [Spec.Call.isWrite, Spec.Op.isWrite])
  | scan t f b e ht =>
    exact ⟨_, .event (.scan S' t f b e (hidle ht)), h.sh, h.sh', h.it,
      hth ⟨rfl, (scanFirst_resized cfg cfg' hw f b e).bind fun _ => .ret rfl⟩⟩
  | next t f p k e ht hi =>
    exact ⟨_, .event (.next S' t f p k e (hidle ht) (by rw [h.it]; exact hi)), h.sh, h.sh', h.it,
      hth ⟨rfl, (scanFrom_resized cfg cfg' hw k true e f [p]).bind fun _ => .ret rfl⟩⟩
  | step t c p p' sh1 ht ha =>
    obtain ⟨q, h1, h2⟩ := hrun ht
    have key : sh1 = S.sh ∧ ∃ q', Firm S'.sh q S'.sh q' ∧ Resized p' q' := by
      cases h2 with
      | ret e => cases ha
      | ub => cases ha
      | stuck => cases ha
      | flag k => cases ha
      | loadRoot hk =>
        cases ha
        refine ⟨rfl, _, .mk (.loadRoot _ _) nofun, ?_⟩
        rw [h.sh, h.sh']
        exact hk _
      | @load x k k' hk =>
        cases ha with
        | load _ _ _ hx =>
          rw [h.sh] at hx
          obtain ⟨n, hT, rfl⟩ := Option.map_eq_some_iff.mp hx
          refine ⟨rfl, _, .mk (.load _ _ _ (.base n.flatten) ?_) nofun, hk n _⟩
          rw [h.sh']
          show ((T x).map Node.flatten).map Chain.base = _
          rw [hT]; rfl
        | loadNull _ _ hx =>
          rw [h.sh] at hx
          refine ⟨rfl, _, .mk (.loadNull _ _ _ ?_) nofun, .ub⟩
          rw [h.sh']
          show ((T x).map Node.flatten).map Chain.base = _
          rw [Option.map_eq_none_iff.mp hx]; rfl
      | loadCell hk =>
        cases ha
        refine ⟨rfl, _, .mk (.loadCell _ _ _) nofun, ?_⟩
        rw [h.sh, h.sh']
        exact hk _
    obtain ⟨rfl, q', h3, h4⟩ := key
    exact ⟨_, .access S' t c q q' _ h1 (.firm h3), h.sh, h.sh', h.it, hth ⟨rfl, h4⟩⟩
  | retOp t o r ht =>
    obtain ⟨q, h1, h2⟩ := hrun ht
    cases h2 with
    | ret e =>
      cases e
      exact ⟨_, .event (.retOp S' t o r h1), h.sh, h.sh', h.it, hth trivial⟩
  | retVisit t b e r ht =>
    obtain ⟨q, h1, h2⟩ := hrun ht
    cases h2 with
    | ret e1 =>
      cases e1
      refine ⟨_, .event (.retVisit S' t b e r h1), h.sh, h.sh', ?_, hth trivial⟩
      show upd S'.it t r.2 = upd S.it t r.2
      rw [h.it]

/-- **C83.**  Any number of threads read and scan a bulkloaded tree, in any layout and with any sizes of
pages, records and keys: the history is linearizable to the map of the given records, no thread runs into
undefined behaviour or one of the events of `Flag` (C08-C10), and the tree stays as it is. -/
theorem C83_loaded_reads {ids : Nat → Nat → PID} (hinj : IdsInj ids)
    (hf : ∀ t i, 1 < ids t i) {threads : Nat} {es : List (K × V)} (hes : es ≠ [])
    (hs : es.Pairwise fun x y => x.1 < y.1) {T : Tbl K V} {root npid : PID}
    (hb : bulkload cfg ids threads es = some (T, root)) (hn : ∀ p n, T p = some n → p < npid)
    {h : List (Spec.Event K V)} {S : Sys K V} (hr : Run cfg (Sys.start (bulkSh T root npid)) h S)
    (ho : ∀ t c, .inv t c ∈ h → c.isWrite = false) :
    (∃ log, Spec.Linearizes (Spec.ofList es) h log) ∧
      (∀ t c p, S.th t = .run c p → p ≠ .ub ∧ ∀ k, p ≠ .flag k) ∧ S.sh = bulkSh T root npid := by
  have h0 : ∀ t i, ids t i ≠ 0 := fun t i e =>
    Nat.not_lt_zero 1 (Nat.lt_of_lt_of_eq (hf t i) e)
  obtain ⟨T', root', lv, e1, e2⟩ := bulkload_spec hinj h0 threads es hes
    (Or.inr (by rw [hb]; exact Option.some_ne_none _))
  obtain ⟨rfl, rfl⟩ := Prod.mk.inj (Option.some.inj (e1.symm.trans hb))
  obtain ⟨M, e3⟩ := e2.flat
  have hsim : ∃ S', SureRun (flatCfg K M) (Sys.start (bulkSh (flatTbl T') root' npid)) h S' ∧
      FlatSys T' root' npid S S' := by
    induction hr with
    | nil => exact ⟨_, .nil, rfl, rfl, rfl, fun _ => trivial⟩
    | tau _ hs ih =>
      obtain ⟨S1, h1, h2⟩ := ih ho
      obtain ⟨S2, h3, h4⟩ := h2.step hs (by intro t c e; cases e)
      exact ⟨S2, .tau h1 h3, h4⟩
    | event _ hs ih =>
      obtain ⟨S1, h1, h2⟩ := ih fun t c hm => ho t c (List.mem_append_left _ hm)
      obtain ⟨S2, h3, h4⟩ := h2.step hs fun t c e => ho t c (by cases e; simp)
      exact ⟨S2, .event h1 h3, h4⟩
  obtain ⟨S', h1, h2⟩ := hsim
  have hn' : ∀ p n, flatTbl T' p = some n → p < npid := by
    intro p n hp
    obtain ⟨m, hm, _⟩ := Option.map_eq_some_iff.mp hp
    exact hn p m hm
  have hI := bulkSt_inv (npid := npid) (Or.inl fun _ => rfl) e3 hs h0 hn'
  have hS : Sound (flatCfg K M) (bulkSt (flatTbl T') root' npid lv (Spec.ofList es))
      (Sys.start (bulkSh (flatTbl T') root' npid)) :=
    ⟨rfl, hI, fun _ => rfl, (fun _ _ _ _ e => by cases e), (fun _ _ _ _ e => by cases e)⟩
  obtain ⟨s, g1, g2, _⟩ := hS.run (flatCfg_ok M) h1.run
  have g3 : Spec.Accepts ⟨Spec.ofList es, fun _ => .idle⟩ h ⟨s.m, s.ops⟩ := by
    have := g2 ⟨Spec.ofList es, fun _ => .idle⟩ [] (.nil _)
    simpa using this
  obtain ⟨log, g4⟩ := g3.linearizable (fun _ => rfl)
  have hx : Excl (flatCfg K M) S' := by
    have h00 : Excl (flatCfg K M) (Sys.start (bulkSh (flatTbl T') root' npid)) := by
      refine ⟨bulkSt (flatTbl T') root' npid lv (Spec.ofList es),
        ⟨bulkSt_si0 (Or.inl fun _ => rfl) e3 hs h0 hn', NW.bases ?_, fun _ _ _ e => by cases e⟩,
        (fun _ _ _ _ e => by cases e), Or.inl ⟨rfl, fun _ _ _ e => by cases e⟩⟩
      intro p c hm
      obtain ⟨n, _, e⟩ := Option.map_eq_some_iff.mp hm
      exact ⟨n, e.symm⟩
    have he : Spec.Exclusive h := by
      intro l1 l2 l3 t u c c' e hc
      exfalso
      have w1 := ho t c (by rw [e]; simp)
      have w2 := ho u c' (by rw [e]; simp)
      rcases hc with hc | hc
      · rw [w1] at hc; cases hc
      · rw [w2] at hc; cases hc
    clear h2 g1 g2 g3 g4 ho hr
    induction h1 with
    | nil => exact h00
    | tau hr hs ih => exact (ih he).step (flatCfg_roomy M) (flatCfg_ok M) hr hs (by simpa using he)
    | event hr hs ih => exact (ih he.left).step (flatCfg_roomy M) (flatCfg_ok M) hr hs he
  refine ⟨⟨log, g4.lin⟩, fun t c p e => ?_, h2.sh⟩
  have h3 := h2.th t
  rw [e] at h3
  cases hq : S'.th t with
  | idle => rw [hq] at h3; exact h3.elim
  | run c' q =>
    rw [hq] at h3
    obtain ⟨_, h3⟩ := h3
    obtain ⟨f1, f2⟩ := hx.fine (flatCfg_roomy M) (flatCfg_ok M) hq
    refine ⟨?_, fun k => ?_⟩
    · rintro rfl
      cases h3
      exact f1 rfl
    · rintro rfl
      cases h3
      exact f2 k rfl

/-! ## Example -/

/-- Keys of 25 to 64 bytes, three workers: thread 0 has read a word, and thread 1 begins a scan. -/
example : ∃ (T : Tbl Nat Nat) (root npid : PID) (h : List (Spec.Event Nat Nat)) (S : Sys Nat Nat),
    bulkload wordCfg exIds 3 exWords = some (T, root) ∧ Run wordCfg (Sys.start (bulkSh T root npid)) h S ∧
    h = [.inv 0 (.op (.read 91)), .ret 0 (.op (.read 91)) (.res (.payload (Spec.ofList exWords 91))),
      .inv 1 (.visit none none)] ∧
    (∃ log, Spec.Linearizes (Spec.ofList exWords) h log) ∧
    ∀ t c p, S.th t = .run c p → p ≠ .ub ∧ ∀ k, p ≠ .flag k := by
  obtain ⟨T, root, hb, _⟩ := C32_bulkload_ends_partial wordCfg_bulk exIds_inj exIds_fresh 3
    (es := exWords) (by decide)
  have hs : exWords.Pairwise fun x y => x.1 < y.1 := by decide +kernel
  obtain ⟨npid, hn⟩ : ∃ npid : PID, ∀ p n, T p = some n → p < npid := by
    obtain ⟨U, leaves, h4⟩ := C33_levels_linked exIds_inj exIds_fresh (by decide) hb
    have hl : ∃ b : Nat, ∀ x ∈ (U ++ [leaves]).flatten, x.1 < b := by
      generalize (U ++ [leaves]).flatten = l
      induction l with
      | nil => exact ⟨0, by simp⟩
      | cons x l ih =>
        obtain ⟨b, hb⟩ := ih
        refine ⟨max (x.1 + 1) b, fun y hy => ?_⟩
        rcases List.mem_cons.mp hy with rfl | hy
        · exact Nat.lt_of_lt_of_le (Nat.lt_succ_self _) (Nat.le_max_left _ _)
        · exact Nat.lt_of_lt_of_le (hb y hy) (Nat.le_max_right _ _)
    obtain ⟨b, hl⟩ := hl
    exact ⟨b, fun p n hp => hl (p, n) ((h4.table p n).mp hp)⟩
  obtain ⟨N, hN⟩ := (C30_contents exIds_inj exIds_fresh (by decide) hs hb hn).2 91
  obtain ⟨n, ha⟩ := hN N (Nat.le_refl _)
  obtain ⟨S1, r1, r2, r3, r4, r5⟩ := ((Run.nil (cfg := wordCfg) (S₀ := Sys.start (bulkSh T root npid))).event
    (.op _ 0 N (.read 91) rfl)).alone ha (t := 0) (c := .op (.read 91))
      (g := fun r => .ret (.res r, none)) rfl (by dsimp only; rw [upd_same])
      (fun u hu => by dsimp only; rw [upd_ne _ _ hu]; rfl)
  have r6 := (r1.event (.retOp S1 0 _ _ r3)).event (.scan _ 1 5 none none
    (by dsimp only; rw [upd_ne _ _ (by decide)]; exact r4 1 (by decide)))
  have c83 := C83_loaded_reads exIds_inj exIds_fresh (by decide) hs hb hn r6 (by
    intro t c hm
    simp only [List.nil_append, List.cons_append, List.mem_cons, List.not_mem_nil, or_false] at hm
    rcases hm with e | e | e <;> cases e <;> rfl)
  exact ⟨T, root, npid, _, _, hb, r6, rfl, c83.1, c83.2.1⟩

end BwTree.Props
