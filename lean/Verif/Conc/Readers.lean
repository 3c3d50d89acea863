import Verif.Conc.Session
import Verif.Conc.Sure
import Verif.Conc.Iter
import Verif.Spec.Apart

/-!
# Reads and scans leave the shared memory as it is (helper lemmas)
-/

namespace BwTree

set_option linter.unusedSectionVars false

variable {K V : Type}

/-- The program makes no access except loads. -/
def Prog.ReadsOnly {α : Type} : Prog K V α → Prop
  | .ret _ | .ub | .stuck | .flag _ => True
  | .loadRoot k => ∀ r, (k r).ReadsOnly
  | .load _ k => ∀ c, (k c).ReadsOnly
  | .loadCell _ k => ∀ q, (k q).ReadsOnly
  | _ => False

theorem Prog.ReadsOnly.bind {α β : Type} {p : Prog K V α} {g : α → Prog K V β} (h : p.ReadsOnly)
    (hg : ∀ a, (g a).ReadsOnly) : (p.bind g).ReadsOnly := by
  induction p with
  | ret a => exact hg a
  | ub => trivial
  | stuck => trivial
  | flag k => trivial
  | loadRoot k ih => exact fun r => ih r (h r)
  | load p k ih => exact fun c => ih c (h c)
  | loadCell w k ih => exact fun q => ih q (h q)
  | _ => exact h.elim

/-- A load changes nothing. -/
theorem Prog.ReadsOnly.step {α : Type} {sh sh' : Sh K V} {p p' : Prog K V α} (h : p.ReadsOnly)
    (hs : AStep sh p sh' p') : sh' = sh ∧ p'.ReadsOnly := by
  cases hs with
  | loadRoot k => exact ⟨rfl, h _⟩
  | load p k c _ => exact ⟨rfl, h c⟩
  | loadNull => exact ⟨rfl, trivial⟩
  | loadCell w k => exact ⟨rfl, h _⟩
  | _ => exact h.elim

variable [LinearOrder K] {cfg : Cfg K}

theorem loadValidHead_reads (f : Nat) (p : PID) :
    (loadValidHead cfg f p : Prog K V _).ReadsOnly := by
  induction f with
  | zero => trivial
  | succ f ih =>
    intro c
    show Prog.ReadsOnly (if _ then _ else _)
    split
    · exact ih
    · trivial

theorem waitCell_reads (f w : Nat) : (waitCell f w : Prog K V PID).ReadsOnly := by
  induction f with
  | zero => trivial
  | succ f ih =>
    intro c
    show Prog.ReadsOnly (if _ then _ else _)
    split
    · exact ih
    · trivial

theorem searchChild_reads (key : K) (closed : Bool) (tgt : PID) (f : Nat) (stk : Stk) :
    (searchChild key closed tgt f stk : Prog K V _).ReadsOnly := by
  induction f generalizing stk with
  | zero => trivial
  | succ f ih =>
    cases stk with
    | nil => trivial
    | cons p rest =>
      intro c
      show Prog.ReadsOnly (if _ then _ else _)
      split
      · trivial
      · split
        · trivial
        · exact (waitCell_reads _ _).bind fun _ => trivial
        · split
          · trivial
          · exact ih _
        · split
          · split
            · trivial
            · exact fun r => ih _
          · refine (ih _).bind fun x => ?_
            split
            · trivial
            · split
              · trivial
              · exact ih _
        · trivial

theorem searchLeafLoop_reads (key : K) (closed : Bool) (f : Nat) (stk : Stk) :
    (searchLeafLoop key closed f stk : Prog K V _).ReadsOnly := by
  induction f generalizing stk with
  | zero => trivial
  | succ f ih =>
    cases stk with
    | nil => trivial
    | cons p rest =>
      intro c
      show Prog.ReadsOnly (if _ then _ else _)
      split
      · trivial
      · exact (searchChild_reads _ _ _ _ _).bind fun x => ih _

theorem searchLeaf_reads (key : K) (closed : Bool) (f : Nat) :
    (searchLeaf key closed f : Prog K V _).ReadsOnly := fun _ => searchLeafLoop_reads _ _ _ _

theorem getHead_reads (key : K) (closed : Bool) (tgt : PID) (f : Nat) (stk : Stk) :
    (getHead cfg key closed tgt f stk : Prog K V _).ReadsOnly := by
  induction f generalizing stk with
  | zero => trivial
  | succ f ih =>
    cases stk with
    | nil => trivial
    | cons p rest =>
      refine (loadValidHead_reads _ _).bind fun c => ?_
      split
      · trivial
      · split
        · trivial
        · exact ih _
      · split
        · split
          · trivial
          · exact (searchLeaf_reads _ _ _).bind fun s => ih _
        · refine (searchChild_reads _ _ _ _ _).bind fun x => ?_
          split
          · trivial
          · exact ih _
      · trivial

theorem readLoop_reads (key : K) (f : Nat) (stk : Stk) :
    (readLoop key f stk : Prog K V _).ReadsOnly := by
  induction f generalizing stk with
  | zero => trivial
  | succ f ih =>
    cases stk with
    | nil => trivial
    | cons p rest =>
      intro c
      show Prog.ReadsOnly (if _ then _ else _)
      split
      · trivial
      · split
        · trivial
        · exact ih _
        · split
          · trivial
          · exact (searchChild_reads _ _ _ _ _).bind fun x => ih _
        · trivial

/-- `Read`, `bw_tree.hpp` 145-197. -/
theorem read_reads (f : Nat) (o : Spec.Op K V) (ho : o.isWrite = false) :
    (runOp cfg f o).ReadsOnly := by
  cases o with
  | read k =>
    exact (searchLeaf_reads _ _ _).bind fun s => (readLoop_reads _ _ _).bind fun o => trivial
  | _ => cases ho

theorem scanFrom_reads (key : K) (closed : Bool) (e : Spec.Bound K) (f : Nat) (stk : Stk) :
    (scanFrom cfg key closed e f stk : Prog K V _).ReadsOnly := by
  induction f generalizing stk with
  | zero => trivial
  | succ f ih =>
    refine (getHead_reads _ _ _ _ _).bind fun o => ?_
    split
    · trivial
    · split
      · exact ih _
      · split
        · trivial
        · split <;> trivial

theorem leftmostLoop_reads (f : Nat) (p : PID) : (leftmostLoop f p : Prog K V PID).ReadsOnly := by
  induction f generalizing p with
  | zero => trivial
  | succ f ih =>
    intro c
    show Prog.ReadsOnly (if _ then _ else _)
    split
    · trivial
    · split
      · trivial
      · split
        · trivial
        · exact ih _

theorem scanLeft_reads (e : Spec.Bound K) (f : Nat) (p : PID) :
    (scanLeft cfg e f p : Prog K V _).ReadsOnly := by
  induction f generalizing p with
  | zero => trivial
  | succ f ih =>
    intro c
    show Prog.ReadsOnly (if _ then _ else _)
    split
    · exact ih _
    · split <;> trivial

/-- `Scan`, `bw_tree.hpp` 206-242. -/
theorem scanFirst_reads (f : Nat) (b e : Spec.Bound K) :
    (scanFirst cfg f b e : Prog K V _).ReadsOnly := by
  cases b with
  | some x => exact (searchLeaf_reads _ _ _).bind fun s => scanFrom_reads _ _ _ _ _
  | none =>
    exact Prog.ReadsOnly.bind (p := .loadRoot fun r => leftmostLoop f r)
      (fun r => leftmostLoop_reads _ _) fun p => scanLeft_reads _ _ _

/-- `SiblingScan`, `bw_tree.hpp` 1124-1141. -/
theorem scanNext_reads (f : Nat) (p : PID) (k : K) (e : Spec.Bound K) :
    (scanNext cfg f p k e : Prog K V _).ReadsOnly := scanFrom_reads _ _ _ _ _

/-! ## Steps of readers -/

/-- The thread makes no access except loads until its call returns. -/
def TSt.Reader : TSt K V → Prop
  | .idle => True
  | .run c p => c.isWrite = false ∧ p.ReadsOnly

/-- Sure steps, from the other end. -/
theorem Loose.snoc {α : Type} {m i : Nat} {s s' s'' : Sh K V} {p p' p'' : Prog K V α}
    (h : Loose m i s p s' p') (f : Firm s' p' s'' p'') : Loose (m + 1) i s p s'' p'' := by
  induction h with
  | refl s p => exact .step f (.refl _ _)
  | step g _ ih => exact .step g (ih f)
  | fail e w _ ih => exact .fail e w (ih f)

theorem Loose.snocFail {α : Type} {m i : Nat} {s s' : Sh K V} {p : Prog K V α} {q : PID}
    {o n : Chain K V} {k : Bool → Prog K V α} (h : Loose m i s p s' (.cas q o n k))
    (e : s'.mt q = some o) (w : Weak o n) : Loose (m + 1) (i + 1) s p s' (k false) := by
  generalize hp : Prog.cas q o n k = p' at h
  induction h with
  | refl s p => subst hp; exact .fail e w (.refl _ _)
  | step g _ ih => exact .step g (ih e hp)
  | fail e' w' _ ih => exact .fail e' w' (ih e hp)

theorem Firm.bindInv {α β : Type} {s s' : Sh K V} {p : Prog K V α} {g : α → Prog K V β}
    {q : Prog K V β} (hg : ∀ a, ∃ b, g a = .ret b) (h : Firm s (p.bind g) s' q) :
    ∃ p', Firm s p s' p' ∧ q = p'.bind g := by
  obtain ⟨a, f⟩ := h
  by_cases hc : ∃ x o n k, p = .cas x o n k ∧ s.mt x = some o
  · obtain ⟨x, o, n, k, rfl, hm⟩ := hc
    obtain ⟨e1, e2⟩ := f x o n (fun b => (k b).bind g) rfl hm
    subst e1 e2
    refine ⟨k true, ⟨.casOk _ _ _ _ _ hm, ?_⟩, rfl⟩
    rintro x' o' n' k' e _
    cases e
    exact ⟨rfl, rfl⟩
  · rcases a.bindInv with ⟨x, rfl⟩ | ⟨p', h1, rfl⟩
    · obtain ⟨b, hb⟩ := hg x
      simp only [Prog.bind, hb] at a
      cases a
    · exact ⟨p', ⟨h1, fun x o n k e hm => absurd ⟨x, o, n, k, e, hm⟩ hc⟩, rfl⟩

theorem ret_of_bind {α β : Type} {p : Prog K V α} {g : α → Prog K V β} {b : β}
    (h : p.bind g = .ret b) : ∃ a, p = .ret a ∧ g a = .ret b := by
  cases p with
  | ret a => exact ⟨a, rfl, h⟩
  | _ => cases h

theorem Firm.bind {α β : Type} {s s' : Sh K V} {p p' : Prog K V α} (h : Firm s p s' p')
    (g : α → Prog K V β) : Firm s (p.bind g) s' (p'.bind g) := by
  obtain ⟨a, f⟩ := h
  refine ⟨a.bind g, ?_⟩
  intro x o n k e hm
  cases p with
  | cas x' o' n' k' =>
    cases e
    obtain ⟨e1, e2⟩ := f _ _ _ _ rfl hm
    exact ⟨e1, by rw [e2]⟩
  | ret a => cases a
  | _ => cases e

/-- What a thread in a call of a writing operation has done, when it began in `sh0`. -/
def Writing (cfg : Cfg K) (sh0 : Sh K V) (S : Sys K V) (t : Nat) (o : Spec.Op K V) : Prop :=
  ∃ (f n j : Nat) (p : Prog K V (Spec.Res V)), S.th t = .run (.op o) (p.bind fun r => .ret (.res r, none)) ∧
    Loose n j sh0 (runOp cfg f o) S.sh p

/-- Accesses of a thread to the shared memory, as part of a run. -/
theorem sure_loose {α : Type} {sh0 sh sh' : Sh K V} {P p : Prog K V α} {g : α → Prog K V (Out K V)}
    {q : Prog K V (Out K V)} {n j : Nat} (hg : ∀ a, ∃ b, g a = .ret b) (hl : Loose n j sh0 P sh p)
    (hs : Sure sh (p.bind g) sh' q) :
    ∃ n' j' p', q = p'.bind g ∧ Loose n' j' sh0 P sh' p' := by
  generalize hp : p.bind g = x at hs
  cases hs with
  | firm hf =>
    subst hp
    obtain ⟨p', h1, h2⟩ := hf.bindInv hg
    exact ⟨_, _, p', h2, hl.snoc h1⟩
  | @weak x o n k hw =>
    cases p with
    | cas x' o' n' k' =>
      cases hp
      by_cases hm : sh.mt x = some o
      · exact ⟨_, _, k' false, rfl, hl.snocFail hm hw⟩
      · exact ⟨_, _, k' false, rfl, hl.snoc ⟨.casFail _ _ _ _ _, by
          rintro x1 o1 n1 k1 e1 h1
          cases e1
          exact absurd h1 hm⟩⟩
    | ret a => obtain ⟨b, hb⟩ := hg a; simp only [Prog.bind, hb] at hp; cases hp
    | _ => cases hp

/-- An execution in which writes do not overlap is, for the shared memory, one of a single thread that
issues the writes one after the other. -/
structure Serial (cfg : Cfg K) (sh0 : Sh K V) (h : List (Spec.Event K V)) (S : Sys K V) : Prop where
  /-- the writes that have returned, and at most one that is active. -/
  writes : ∃ sh1, Session cfg sh0 (Spec.writesDone h) sh1 none ∧
    ((∀ t, (S.th t).Reader) ∧ S.sh = sh1 ∨
      ∃ t o, Spec.Op.isWrite o = true ∧ Writing cfg sh1 S t o ∧ (∀ u, u ≠ t → (S.th u).Reader) ∧
        ∃ h1 h2, h = h1 ++ .inv t (.op o) :: h2 ∧ ∀ c r, .ret t c r ∉ h2)

theorem Serial.other {sh0 : Sh K V} {h : List (Spec.Event K V)} {S S' : Sys K V} {t : Nat}
    {l : List (Spec.Event K V)} (hs : Serial cfg sh0 h S) (h1 : S'.sh = S.sh)
    (h2 : ∀ u, u ≠ t → S'.th u = S.th u) (h3 : (S.th t).Reader) (h4 : (S'.th t).Reader)
    (h5 : Spec.writesDone l = []) (h6 : ∀ u c r, .ret u c r ∈ l → u = t) :
    Serial cfg sh0 (h ++ l) S' := by
  obtain ⟨sh1, g1, g2⟩ := hs
  refine ⟨sh1, by rw [Spec.writesDone_append, h5, List.append_nil]; exact g1, ?_⟩
  have h7 : ∀ u, (S.th u).Reader → (S'.th u).Reader := by
    intro u hu
    by_cases e : u = t
    · subst e; exact h4
    · rw [h2 u e]; exact hu
  rcases g2 with ⟨g2, g3⟩ | ⟨w, o, g2, g3, g4, k1, k2, g5, g6⟩
  · exact Or.inl ⟨fun u => h7 u (g2 u), h1.trans g3⟩
  · have hne : w ≠ t := by
      rintro rfl
      obtain ⟨f, n, j, p, e, _⟩ := g3
      rw [e] at h3
      have := h3.1
      rw [Spec.Call.isWrite, g2] at this
      cases this
    refine Or.inr ⟨w, o, g2, ?_, fun u hu => h7 u (g4 u hu), k1, k2 ++ l, by simp [g5], ?_⟩
    · obtain ⟨f, n, j, p, e1, e2⟩ := g3
      exact ⟨f, n, j, p, by rw [h2 w hne]; exact e1, by rw [h1]; exact e2⟩
    · intro c r hm
      rcases List.mem_append.mp hm with hm | hm
      · exact g6 c r hm
      · exact hne (h6 _ _ _ hm)

theorem Serial.step {sh0 : Sh K V} {h : List (Spec.Event K V)} {S S' : Sys K V}
    {l : Option (Spec.Event K V)} (hs : Serial cfg sh0 h S) (hst : SureStep cfg S l S')
    (ha : Spec.Apart (h ++ l.toList)) : Serial cfg sh0 (h ++ l.toList) S' := by
  cases hst with
  | access t c p p' sh' ht hp =>
    show Serial cfg sh0 (h ++ []) _
    by_cases hr : (S.th t).Reader
    · have hr' := hr
      rw [ht] at hr'
      obtain ⟨e1, e2⟩ := hr'.2.step hp.step
      exact hs.other (t := t) e1 (fun u hu => upd_ne _ _ hu) hr
        (by simp only [upd_same]; exact ⟨hr'.1, e2⟩) rfl (by intro _ _ _ hm; cases hm)
    · obtain ⟨sh1, g1, g2⟩ := hs
      rcases g2 with ⟨g2, _⟩ | ⟨w, o, g2, ⟨f, n, j, q, e1, e2⟩, g4, g5⟩
      · exact absurd (g2 t) hr
      · have hw : t = w := by
          by_contra hne
          exact hr (g4 t hne)
        subst hw
        rw [e1] at ht
        cases ht
        obtain ⟨n', j', q', e3, e4⟩ := sure_loose (fun a => ⟨_, rfl⟩) e2 hp
        subst e3
        rw [List.append_nil]
        exact ⟨sh1, g1, Or.inr ⟨t, o, g2, ⟨f, n', j', q', upd_same _ _ _, e4⟩,
          fun u hu => by simp only [upd_ne _ _ hu]; exact g4 u hu, g5⟩⟩
  | event hst =>
    cases hst with
    | op t f o ht =>
      cases hw : o.isWrite with
      | false =>
        refine hs.other (t := t) rfl (fun u hu => upd_ne _ _ hu) (by rw [ht]; trivial) ?_ rfl ?_
        · simp only [upd_same]
          exact ⟨hw, (read_reads f o hw).bind fun _ => trivial⟩
        · intro u c r hm; simp at hm
      | true =>
        obtain ⟨sh1, g1, g2⟩ := hs
        refine ⟨sh1, by rw [Spec.writesDone_append]; simpa [Spec.writesDone] using g1, Or.inr ?_⟩
        rcases g2 with ⟨g2, g3⟩ | ⟨w, o', g2, _, _, h1, h2, g5, g6⟩
        · refine ⟨t, o, hw, ⟨f, 0, 0, _, upd_same _ _ _, by rw [← g3]; exact .refl _ _⟩, fun u hu => ?_,
            h, [], by simp, by intro _ _ hm; cases hm⟩
          simp only [upd_ne _ _ hu]; exact g2 u
        · obtain ⟨r, hr⟩ := ha h1 h2 [] w t (.op o') (.op o) (by simp [g5]) g2 hw
          exact absurd hr (g6 _ _)
    | scan t f b e ht =>
      refine hs.other (t := t) rfl (fun u hu => upd_ne _ _ hu) (by rw [ht]; trivial) ?_ rfl ?_
      · simp only [upd_same]
        exact ⟨rfl, (scanFirst_reads f b e).bind fun _ => trivial⟩
      · intro u c r hm; simp at hm
    | next t f p k e ht hit =>
      refine hs.other (t := t) rfl (fun u hu => upd_ne _ _ hu) (by rw [ht]; trivial) ?_ rfl ?_
      · simp only [upd_same]
        exact ⟨rfl, (scanNext_reads f p k e).bind fun _ => trivial⟩
      · intro u c r hm; simp at hm
    | retOp t o r ht =>
      by_cases hr : (S.th t).Reader
      · refine hs.other (t := t) rfl (fun u hu => upd_ne _ _ hu) hr ?_ ?_ ?_
        · simp only [upd_same]; trivial
        · rw [ht] at hr
          have := hr.1
          simp only [Option.toList, Spec.writesDone, this]
          rfl
        · intro u c r hm; simp at hm; exact hm.1
      · obtain ⟨sh1, g1, g2⟩ := hs
        rcases g2 with ⟨g2, _⟩ | ⟨w, o', g2, ⟨f, n, j, q, e1, e2⟩, g4, g5⟩
        · exact absurd (g2 t) hr
        · have hw : t = w := by
            by_contra hne
            exact hr (g4 t hne)
          subst hw
          rw [e1] at ht
          injection ht with ht1 ht2
          cases ht1
          obtain ⟨a, rfl, e3⟩ := ret_of_bind ht2
          cases e3
          refine ⟨S.sh, ?_, Or.inl ⟨fun u => ?_, rfl⟩⟩
          · rw [Spec.writesDone_append]
            have : Spec.Call.isWrite (.op o : Spec.Call K V) = true := g2
            simp only [Option.toList, Spec.writesDone, this, if_true]
            exact g1.op e2
          · by_cases e : u = t
            · subst e; simp only [upd_same]; trivial
            · simp only [upd_ne _ _ e]; exact g4 u e
    | retVisit t b e r ht =>
      have hr : (S.th t).Reader := by
        obtain ⟨sh1, g1, g2⟩ := hs
        rcases g2 with ⟨g2, _⟩ | ⟨w, o', g2, ⟨f, n, j, q, e1, e2⟩, g4, g5⟩
        · exact g2 t
        · refine g4 t ?_
          rintro rfl
          rw [e1] at ht; cases ht
      refine hs.other (t := t) rfl (fun u hu => upd_ne _ _ hu) hr ?_ rfl ?_
      · simp only [upd_same]; trivial
      · intro u c r hm; simp at hm; exact hm.1

theorem SureRun.serial {sh0 : Sh K V} {h : List (Spec.Event K V)} {S : Sys K V}
    (hr : SureRun cfg (Sys.start sh0) h S) (ha : Spec.Apart h) : Serial cfg sh0 h S := by
  induction hr with
  | nil => exact ⟨sh0, .start, Or.inl ⟨fun _ => trivial, rfl⟩⟩
  | @tau h S S' _ hs ih =>
    have := (ih ha).step hs (by simpa using ha)
    simpa using this
  | @event h S S' e _ hs ih => exact (ih ha.left).step hs ha

/-! ## A call among readers -/

/-- `S'` comes later than `S`, and thread `t` is in the same call all the time.  It has made `n` accesses,
and `j` times a weak compare-and-swap failed spuriously.  The other threads went on with their calls,
returned, and called reads and scans, but no writes. -/
inductive During (cfg : Cfg K) (t : Nat) (S : Sys K V) : Nat → Nat → Sys K V → Prop
  | refl : During cfg t S 0 0 S
  /-- an access of thread `t`. -/
  | own {n j : Nat} {S' : Sys K V} {c : Spec.Call K V} {x x' : Prog K V (Out K V)} {sh' : Sh K V} :
      During cfg t S n j S' → S'.th t = .run c x → Firm S'.sh x sh' x' → During cfg t S (n + 1) j
        { S' with sh := sh', th := upd S'.th t (.run c x'), mark := newMark t S'.sh sh' S'.mark }
  /-- a spurious failure of thread `t`. -/
  | fail {n j : Nat} {S' : Sys K V} {c : Spec.Call K V} {q : PID} {o o' : Chain K V}
      {k : Bool → Prog K V (Out K V)} : During cfg t S n j S' → S'.th t = .run c (.cas q o o' k) →
      S'.sh.mt q = some o → Weak o o' → During cfg t S (n + 1) (j + 1)
        { S' with sh := S'.sh, th := upd S'.th t (.run c (k false)), mark := newMark t S'.sh S'.sh S'.mark }
  /-- an access of another thread. -/
  | access {n j u : Nat} {S' : Sys K V} {c : Spec.Call K V} {x x' : Prog K V (Out K V)} {sh' : Sh K V} :
      During cfg t S n j S' → u ≠ t → S'.th u = .run c x → Sure S'.sh x sh' x' → During cfg t S n j
        { S' with sh := sh', th := upd S'.th u (.run c x'), mark := newMark u S'.sh sh' S'.mark }
  /-- a call or return of another thread. -/
  | event {n j : Nat} {S' S'' : Sys K V} {e : Spec.Event K V} : During cfg t S n j S' →
      SysStep cfg S' (some e) S'' → (∀ c, e ≠ .inv t c) → (∀ c r, e ≠ .ret t c r) →
      (∀ u c, e = .inv u c → c.isWrite = false) → During cfg t S n j S''

theorem During.run {S₀ S S' : Sys K V} {t n j : Nat} {h : List (Spec.Event K V)}
    (hr : SureRun cfg S₀ h S) (hd : During cfg t S n j S') : ∃ h', SureRun cfg S₀ (h ++ h') S' := by
  induction hd with
  | refl => exact ⟨[], by simpa using hr⟩
  | own _ h1 h2 ih =>
    obtain ⟨h', ih⟩ := ih
    exact ⟨h', ih.tau (.access _ _ _ _ _ _ h1 (.firm h2))⟩
  | fail _ h1 h2 h3 ih =>
    obtain ⟨h', ih⟩ := ih
    exact ⟨h', ih.tau (.access _ _ _ _ _ _ h1 (.weak h3))⟩
  | access _ _ h1 h2 ih =>
    obtain ⟨h', ih⟩ := ih
    exact ⟨h', ih.tau (.access _ _ _ _ _ _ h1 h2)⟩
  | @event _ _ _ _ e _ h1 _ _ _ ih =>
    obtain ⟨h', ih⟩ := ih
    exact ⟨h' ++ [e], by rw [← List.append_assoc]; exact ih.event (.event h1)⟩

/-- The accesses of the thread are those it makes alone. -/
theorem During.loose {α : Type} {S S' : Sys K V} {t n j : Nat} {c : Spec.Call K V} {P : Prog K V α}
    {g : α → Prog K V (Out K V)} (hg : ∀ a, ∃ b, g a = .ret b) (hd : During cfg t S n j S')
    (ht : S.th t = .run c (P.bind g)) (ho : ∀ u, u ≠ t → (S.th u).Reader) :
    (∀ u, u ≠ t → (S'.th u).Reader) ∧
    ∃ p, S'.th t = .run c (p.bind g) ∧ Loose n j S.sh P S'.sh p := by
  induction hd with
  | refl => exact ⟨ho, P, ht, .refl _ _⟩
  | own _ h1 h2 ih =>
    obtain ⟨i1, p, i2, i3⟩ := ih
    rw [i2] at h1
    cases h1
    obtain ⟨p', e1, rfl⟩ := h2.bindInv hg
    exact ⟨fun u hu => by simp only [upd_ne _ _ hu]; exact i1 u hu, p', upd_same _ _ _, i3.snoc e1⟩
  | fail _ h1 h2 h3 ih =>
    obtain ⟨i1, p, i2, i3⟩ := ih
    rw [i2] at h1
    injection h1 with h4 h5
    cases p with
    | cas q o o' k =>
      cases h5
      exact ⟨fun u hu => by simp only [upd_ne _ _ hu]; exact i1 u hu, k false,
        by rw [h4]; exact upd_same _ _ _, i3.snocFail h2 h3⟩
    | ret a => obtain ⟨b, hb⟩ := hg a; simp only [Prog.bind, hb] at h5; cases h5
    | _ => cases h5
  | @access n j u S' c' x x' sh' _ h0 h1 h2 ih =>
    obtain ⟨i1, p, i2, i3⟩ := ih
    have hu := i1 u h0
    rw [h1] at hu
    obtain ⟨e1, e2⟩ := hu.2.step h2.step
    subst e1
    refine ⟨fun v hv => ?_, p, by simp only [upd_ne _ _ (Ne.symm h0)]; exact i2, i3⟩
    by_cases e : v = u
    · subst e; simp only [upd_same]; exact ⟨hu.1, e2⟩
    · simp only [upd_ne _ _ e]; exact i1 v hv
  | @event n j S' S'' e _ h1 h2 h3 h4 ih =>
    obtain ⟨i1, p, i2, i3⟩ := ih
    have key : ∀ (u : Nat) (x : TSt K V), u ≠ t → x.Reader →
        (∀ v, v ≠ t → (upd S'.th u x v).Reader) ∧ upd S'.th u x t = S'.th t := by
      intro u x hu hx
      refine ⟨fun v hv => ?_, upd_ne _ _ (Ne.symm hu)⟩
      by_cases e : v = u
      · subst e; simp only [upd_same]; exact hx
      · simp only [upd_ne _ _ e]; exact i1 v hv
    cases h1 with
    | op u f o hu =>
      have hw : o.isWrite = false := h4 u _ rfl
      obtain ⟨k1, k2⟩ := key u (.run (.op o) ((runOp cfg f o).bind fun r => .ret (.res r, none)))
        (fun e => h2 _ (by rw [e])) ⟨hw, (read_reads f o hw).bind fun _ => trivial⟩
      exact ⟨k1, p, k2.trans i2, i3⟩
    | scan u f b e' hu =>
      obtain ⟨k1, k2⟩ := key u (.run (.visit b e') ((scanFirst cfg f b e').bind fun x => .ret (visitOut e' x)))
        (fun e => h2 _ (by rw [e])) ⟨rfl, (scanFirst_reads f b e').bind fun _ => trivial⟩
      exact ⟨k1, p, k2.trans i2, i3⟩
    | next u f q k e' hu hit =>
      obtain ⟨k1, k2⟩ := key u (.run (.visit (some (k, true)) e')
          ((scanNext cfg f q k e').bind fun x => .ret (visitOut e' x)))
        (fun e => h2 _ (by rw [e])) ⟨rfl, (scanNext_reads f q k e').bind fun _ => trivial⟩
      exact ⟨k1, p, k2.trans i2, i3⟩
    | retOp u o r hu =>
      obtain ⟨k1, k2⟩ := key u .idle (fun e => h3 _ _ (by rw [e])) trivial
      exact ⟨k1, p, k2.trans i2, i3⟩
    | retVisit u b e' r hu =>
      obtain ⟨k1, k2⟩ := key u .idle (fun e => h3 _ _ (by rw [e])) trivial
      exact ⟨k1, p, k2.trans i2, i3⟩

end BwTree
