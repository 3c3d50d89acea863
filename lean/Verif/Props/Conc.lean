import Verif.Conc.Init
import Verif.Conc.Exec
import Verif.Tree.SpecLemmas

/-!
# C01 - C06, C20 - C22, C43 - C46: all executions of the thread system

`Run cfg (Sys.start sh) h S` is an arbitrary interleaving of any number of threads; a thread that
meets one of the events of `Flag` (C08 - C10) stops there.
-/

namespace BwTree.Props

open BwTree

set_option linter.unusedSectionVars false

variable {K V : Type} [LinearOrder K] {cfg : Cfg K}

/-! ## Configurations used by the examples -/

/-- The default build for 8-byte keys and payloads (`CMakeLists.txt` 24-30): `kHeaderLen` is 32, the
threshold is `2 * Log2(1024 / 256)`, the minimum size `1024 / 16`. -/
def defCfg : Cfg Nat :=
  { page := 1024, hdr := 32, leafLen := 16, idxLen := 16, minSize := 64, thr := 4, maxDelta := 64 }

/-- A build with small pages: 6 records per page, nodes with one record are merged. -/
def smallCfg : Cfg Nat :=
  { page := 128, hdr := 32, leafLen := 16, idxLen := 16, minSize := 48, thr := 2, maxDelta := 64 }

theorem defCfg_ok : CfgOK2 defCfg := by
  refine ⟨⟨?_, ?_, ?_, ?_, ?_, fun _ => Nat.le_refl _, Or.inl rfl⟩, ?_, ?_, ?_, Or.inl rfl⟩ <;> decide

theorem smallCfg_ok : CfgOK2 smallCfg := by
  refine ⟨⟨?_, ?_, ?_, ?_, ?_, fun _ => Nat.le_refl _, Or.inl rfl⟩, ?_, ?_, ?_, Or.inl rfl⟩ <;> decide

/-! ## C01: linearizability

The full statement has no proviso; here a thread that meets one of the events of `Flag` stops, so
what the code does after such an event is not covered.  These events are possible: `C08_false`,
`C09_false`, `C10_false`. -/

/-- Every history of every execution is linearizable, and no thread meets undefined behaviour other
than the events of `Flag`. -/
theorem C01_linearizable_partial (hc : CfgOK2 cfg) {m : K → Option V} {sh : Sh K V}
    (hi : Init cfg m sh) {h : List (Spec.Event K V)} {S : Sys K V}
    (hr : Run cfg (Sys.start sh) h S) :
    (∃ log, Spec.Linearizes m h log) ∧ ∀ t c, S.th t ≠ .run c .ub := by
  obtain ⟨s, h1, h2⟩ := hi.run hc hr
  obtain ⟨log, h3⟩ := h2.linearizable (fun _ => rfl)
  refine ⟨⟨log, h3.lin⟩, fun t c e => ?_⟩
  have := h1.th t
  rw [e] at this
  exact this

/-- Two threads write the same key at the same time; one succeeds, the other retries and finds the
key. -/
def exRace : List (Cmd Nat Nat) :=
  [.acts [.op 0 20 (.insert 5 50), .op 1 20 (.insert 5 51)], .steps 0 3, .steps 1 3,
   .fin 0 20, .fin 1 20, .call 0 20 (.read 5)]

/-- What was returned to whom. -/
def rets (h : List (Spec.Event K V)) : List (Nat × Spec.Ret K V) :=
  h.filterMap fun e => match e with
    | .ret t _ r => some (t, r)
    | .inv _ _ => none

example : ∃ (h : List (Spec.Event Nat Nat)) (S : Sys Nat Nat),
    Run defCfg (Sys.start (initSh defCfg)) h S ∧
    rets h = [(0, .res .success), (1, .res .keyExist), (0, .res (.payload (some 50)))] := by
  have h : ((scenario defCfg exRace).map fun x => rets x.1) =
    some [(0, .res .success), (1, .res .keyExist), (0, .res (.payload (some 50)))] := by decide
  rw [Option.map_eq_some_iff] at h
  obtain ⟨⟨a, S⟩, h1, h2⟩ := h
  exact ⟨a, S, scenario_sound h1, h2⟩

/-! ## C02 - C04: the point operations one by one -/

/-- The moments of a call: some effect of thread `t` between the last invocation of the call before
position `j` and `j`. -/
theorem effect_of_return (hc : CfgOK2 cfg) {m : K → Option V} {sh : Sh K V} (hi : Init cfg m sh)
    {h : List (Spec.Event K V)} {S : Sys K V} (hr : Run cfg (Sys.start sh) h S) :
    ∃ log, Spec.Linearizes m h log ∧ ∀ j t o r, h[j]? = some (.ret t (.op o) (.res r)) →
      ∃ e ∈ log, (∃ i, i < e.pos ∧ e.pos ≤ j ∧ h[i]? = some (.inv t (.op o))) ∧
        Spec.apply e.pre o = (e.post, r) := by
  obtain ⟨⟨log, hl⟩, _⟩ := C01_linearizable_partial hc hi hr
  refine ⟨log, hl, ?_⟩
  intro j t o r hj
  obtain ⟨e, he, h1, h2, h3, i, h4, h5, h6, _⟩ := hl.ret j t _ _ hj
  refine ⟨e, he, ⟨i, h4, h5, h6⟩, ?_⟩
  have hstep : ∀ {m : K → Option V} {log : List (Spec.Eff K V)}, Spec.Chained m log → e ∈ log →
      Spec.Step e.pre e.call e.post e.ret := by
    intro m log
    induction log generalizing m with
    | nil => intro _ h; cases h
    | cons a l ih =>
      intro hch hm
      rcases List.mem_cons.mp hm with rfl | hm
      · rw [hch.1]; exact hch.2.1
      · exact ih hch.2.2 hm
  have hs := hstep hl.chain he
  rw [h2, h3] at hs
  generalize he2 : e.post = p at hs
  generalize hq : (Spec.Ret.res r : Spec.Ret K V) = q at hs
  cases hs with
  | op => cases hq; rfl

/-- `Insert` is a uniqueness check. -/
theorem C02_insert_partial (hc : CfgOK2 cfg) {m : K → Option V} {sh : Sh K V} (hi : Init cfg m sh)
    {h : List (Spec.Event K V)} {S : Sys K V} (hr : Run cfg (Sys.start sh) h S) :
    ∃ log, Spec.Linearizes m h log ∧
      ∀ j t k v r, h[j]? = some (.ret t (.op (.insert k v)) (.res r)) →
      ∃ e ∈ log, (∃ i, i < e.pos ∧ e.pos ≤ j ∧ h[i]? = some (.inv t (.op (.insert k v)))) ∧
        ((r = .success ∧ e.pre k = none ∧ e.post k = some v ∧ ∀ x, x ≠ k → e.post x = e.pre x) ∨
         (r = .keyExist ∧ e.pre k ≠ none ∧ e.post = e.pre)) := by
  obtain ⟨log, hl, h1⟩ := effect_of_return hc hi hr
  refine ⟨log, hl, fun j t k v r hj => ?_⟩
  obtain ⟨e, he, h2, h3⟩ := h1 j t _ r hj
  refine ⟨e, he, h2, ?_⟩
  cases hp : e.pre k with
  | none =>
    simp only [Spec.apply, hp, Prod.mk.injEq] at h3
    left
    refine ⟨h3.2.symm, rfl, ?_, fun x hx => ?_⟩
    · rw [← h3.1]; simp [Spec.set]
    · rw [← h3.1]; simp [Spec.set, hx]
  | some y =>
    simp only [Spec.apply, hp, Prod.mk.injEq] at h3
    exact Or.inr ⟨h3.2.symm, by simp, h3.1.symm⟩

/-- `Update` and `Delete` act only on existing keys. -/
theorem C03_update_delete_partial (hc : CfgOK2 cfg) {m : K → Option V} {sh : Sh K V}
    (hi : Init cfg m sh) {h : List (Spec.Event K V)} {S : Sys K V}
    (hr : Run cfg (Sys.start sh) h S) :
    ∃ log, Spec.Linearizes m h log ∧
      (∀ j t k v r, h[j]? = some (.ret t (.op (.update k v)) (.res r)) →
      ∃ e ∈ log, (∃ i, i < e.pos ∧ e.pos ≤ j ∧ h[i]? = some (.inv t (.op (.update k v)))) ∧
        ((r = .success ∧ e.pre k ≠ none ∧ e.post k = some v ∧ ∀ x, x ≠ k → e.post x = e.pre x) ∨
         (r = .keyNotExist ∧ e.pre k = none ∧ e.post = e.pre))) ∧
      (∀ j t k r, h[j]? = some (.ret t (.op (.delete k)) (.res r)) →
      ∃ e ∈ log, (∃ i, i < e.pos ∧ e.pos ≤ j ∧ h[i]? = some (.inv t (.op (.delete k)))) ∧
        ((r = .success ∧ e.pre k ≠ none ∧ e.post k = none ∧ ∀ x, x ≠ k → e.post x = e.pre x) ∨
         (r = .keyNotExist ∧ e.pre k = none ∧ e.post = e.pre))) := by
  obtain ⟨log, hl, h1⟩ := effect_of_return hc hi hr
  refine ⟨log, hl, fun j t k v r hj => ?_, fun j t k r hj => ?_⟩
  · obtain ⟨e, he, h2, h3⟩ := h1 j t _ r hj
    refine ⟨e, he, h2, ?_⟩
    cases hp : e.pre k with
    | none =>
      simp only [Spec.apply, hp, Prod.mk.injEq] at h3
      exact Or.inr ⟨h3.2.symm, rfl, h3.1.symm⟩
    | some y =>
      simp only [Spec.apply, hp, Prod.mk.injEq] at h3
      left
      refine ⟨h3.2.symm, by simp, ?_, fun x hx => ?_⟩
      · rw [← h3.1]; simp [Spec.set]
      · rw [← h3.1]; simp [Spec.set, hx]
  · obtain ⟨e, he, h2, h3⟩ := h1 j t _ r hj
    refine ⟨e, he, h2, ?_⟩
    cases hp : e.pre k with
    | none =>
      simp only [Spec.apply, hp, Prod.mk.injEq] at h3
      exact Or.inr ⟨h3.2.symm, rfl, h3.1.symm⟩
    | some y =>
      simp only [Spec.apply, hp, Prod.mk.injEq] at h3
      left
      refine ⟨h3.2.symm, by simp, ?_, fun x hx => ?_⟩
      · rw [← h3.1]; simp [Spec.set]
      · rw [← h3.1]; simp [Spec.set, hx]

/-- `Write` always succeeds and overwrites; `Read` returns the payload of the moment. -/
theorem C04_write_partial (hc : CfgOK2 cfg) {m : K → Option V} {sh : Sh K V} (hi : Init cfg m sh)
    {h : List (Spec.Event K V)} {S : Sys K V} (hr : Run cfg (Sys.start sh) h S) :
    ∃ log, Spec.Linearizes m h log ∧
      (∀ j t k v r, h[j]? = some (.ret t (.op (.write k v)) (.res r)) →
      ∃ e ∈ log, (∃ i, i < e.pos ∧ e.pos ≤ j ∧ h[i]? = some (.inv t (.op (.write k v)))) ∧
        r = .success ∧ e.post k = some v ∧ ∀ x, x ≠ k → e.post x = e.pre x) ∧
      (∀ j t k r, h[j]? = some (.ret t (.op (.read k)) (.res r)) →
      ∃ e ∈ log, (∃ i, i < e.pos ∧ e.pos ≤ j ∧ h[i]? = some (.inv t (.op (.read k)))) ∧
        r = .payload (e.pre k) ∧ e.post = e.pre) := by
  obtain ⟨log, hl, h1⟩ := effect_of_return hc hi hr
  refine ⟨log, hl, fun j t k v r hj => ?_, fun j t k r hj => ?_⟩
  · obtain ⟨e, he, h2, h3⟩ := h1 j t _ r hj
    refine ⟨e, he, h2, ?_⟩
    simp only [Spec.apply, Prod.mk.injEq] at h3
    refine ⟨h3.2.symm, ?_, fun x hx => ?_⟩
    · rw [← h3.1]; simp [Spec.set]
    · rw [← h3.1]; simp [Spec.set, hx]
  · obtain ⟨e, he, h2, h3⟩ := h1 j t _ r hj
    refine ⟨e, he, h2, ?_⟩
    simp only [Spec.apply, Prod.mk.injEq] at h3
    exact ⟨h3.2.symm, h3.1.symm⟩

/-- All five operations, successful and not. -/
def exOps : List (Cmd Nat Nat) :=
  [.call 0 20 (.insert 5 50), .call 1 20 (.insert 5 51), .call 0 20 (.update 5 52),
   .call 0 20 (.update 6 60), .call 1 20 (.write 6 61), .call 0 20 (.delete 5),
   .call 1 20 (.delete 5), .call 1 20 (.read 6)]

example : ∃ (h : List (Spec.Event Nat Nat)) (S : Sys Nat Nat),
    Run defCfg (Sys.start (initSh defCfg)) h S ∧
    rets h = [(0, .res .success), (1, .res .keyExist), (0, .res .success), (0, .res .keyNotExist),
      (1, .res .success), (0, .res .success), (1, .res .keyNotExist),
      (1, .res (.payload (some 61)))] := by
  have h : ((scenario defCfg exOps).map fun x => rets x.1) =
    some [(0, .res .success), (1, .res .keyExist), (0, .res .success), (0, .res .keyNotExist),
      (1, .res .success), (0, .res .success), (1, .res .keyNotExist),
      (1, .res (.payload (some 61)))] := by decide
  rw [Option.map_eq_some_iff] at h
  obtain ⟨⟨a, S⟩, h1, h2⟩ := h
  exact ⟨a, S, scenario_sound h1, h2⟩

end BwTree.Props
