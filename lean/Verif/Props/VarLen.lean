import Verif.Props.Structure
import Verif.Props.SeqTotal

/-!
# C22, C56: splits of pages with variable-length keys

The whole concurrent model covers both page layouts; `Cfg.klen` is the length of a key.  This file
has the configurations for variable-length keys and shows what the static assertion
(`bw_tree.hpp` 1683) does not exclude.
-/

namespace BwTree.Props

open BwTree

variable {K V : Type} [LinearOrder K] {cfg : Cfg K}
set_option linter.unusedSectionVars false

/-- The default build for variable-length keys of at most 128 bytes and eight-byte payloads
(`CMakeLists.txt` 24-30): `kHeaderLen` is 32, a record takes eight bytes of metadata.  The keys used
here have different lengths. -/
def varCfg : Cfg Nat :=
  { page := 1024, hdr := 32, leafLen := 16, idxLen := 16, minSize := 64, thr := 4, maxDelta := 64,
    klen := fun k => 29 + k % 100, maxKey := 128, buf := true }

theorem varCfg_ok : CfgOK2 varCfg :=
  { leaf := by decide, idx := by decide, leafPos := by decide, idxPos := by decide,
    hdrPos := by decide, maxPos := by decide, rootFits := by decide, min := by decide,
    keys := fun k => show 29 + k % 100 ≤ 128 by omega,
    var := Or.inr (by decide), minVar := Or.inr (by decide) }

/-- The static assertion of `BwTree` for variable-length keys: a record takes at most a quarter of a
page (`bw_tree.hpp` 1683), for metadata of eight bytes. -/
def Asserted (cfg : Cfg K) : Prop :=
  (∀ k, cfg.klen k ≤ cfg.maxKey) ∧ cfg.maxKey + (cfg.leafLen - 8) ≤ cfg.page / 4 ∧
    cfg.leafLen = 16 ∧ cfg.idxLen = 16 ∧ cfg.hdr = 32

theorem varCfg_asserted : Asserted varCfg :=
  ⟨varCfg_ok.keys, by decide, rfl, rfl, rfl⟩

/-- Pages of 1024 bytes and keys of at most 248 bytes: just allowed.  Multiples of ten are long. -/
def longCfg : Cfg Nat :=
  { page := 1024, hdr := 32, leafLen := 16, idxLen := 16, minSize := 64, thr := 4, maxDelta := 64,
    klen := fun k => if k % 10 = 0 then 248 else 8, maxKey := 248, buf := true }

theorem longCfg_asserted : Asserted longCfg :=
  ⟨fun k => show (if k % 10 = 0 then 248 else 8) ≤ 248 by split <;> omega, by decide, rfl, rfl, rfl⟩

/-- Every base node at the page IDs handed out so far fits in its page. -/
def AllFit (cfg : Cfg K) (S : Sys K V) : Prop :=
  ∀ p < S.sh.npid, ∀ c, S.sh.mt p = some c → c.baseSize ≤ cfg.page

/-- `AllFit`, computed. -/
def fitAt (cfg : Cfg Nat) (S : Sys Nat Nat) : Bool :=
  (List.range S.sh.npid).all fun p => match S.sh.mt p with
    | some c => decide (c.baseSize ≤ cfg.page)
    | none => true

theorem fitAt_spec {cfg : Cfg Nat} {S : Sys Nat Nat} (h : fitAt cfg S = true) : AllFit cfg S := by
  intro p hp c hm
  have := List.all_eq_true.mp h p (List.mem_range.mpr hp)
  rw [hm] at this
  exact of_decide_eq_true this

/-! ## C22, C56 refuted for long keys -/

/-- Five inserts of long keys by one thread. -/
def exLong (n : Nat) : List (Cmd Nat Nat) :=
  (List.range 4).map (fun i => .call 0 90 (.insert (100 * (i + 1)) i)) ++
    [.acts [.op 0 90 (.insert 500 5)], .steps 0 n]

/-- Long keys on both sides of nine short ones, which are then deleted. -/
def exHole (n : Nat) : List (Cmd Nat Nat) :=
  (List.range 4).map (fun i => .call 0 90 (.insert (100 * (i + 1)) i)) ++
  (List.range 9).map (fun i => .call 0 90 (.insert (301 + i) i)) ++
  [.call 0 90 (.insert 401 10)] ++
  (List.range 9).map (fun i => .call 0 90 (.delete (301 + i))) ++
  [.acts [.op 0 90 (.insert 350 5)], .steps 0 n]

/-- Sizes of the halves into which a page is split. -/
def halves (cfg : Cfg Nat) (S : Sys Nat Nat) (p : PID) : Option (Nat × Nat × Nat × Nat) :=
  match S.sh.mt p with
  | some c => match tryConsolidate cfg false c with
    | some (.split l r) =>
      some (Spec.bytes cfg l, l.recs.length, Spec.bytes cfg r, r.recs.length)
    | _ => none
  | none => none

/-- **C22 fails for keys of 248 bytes, which the static assertion allows.**  One thread inserts five
keys.  All nodes fit, the middle leaf has lower and upper bound and is split: its left half gets two
records, 1056 bytes with the bounds, and goes to a page of 1024 bytes. -/
theorem C22_false : Asserted longCfg ∧ ∃ (S : Sys Nat Nat) (c : Chain Nat Nat) (l r : Node Nat Nat),
    Reachable longCfg (fun _ => none) S ∧ AllFit longCfg S ∧ S.sh.mt 2 = some c ∧
    tryConsolidate longCfg false c = some (.split l r) ∧
    Spec.bytes longCfg l = 1056 ∧ longCfg.page < Spec.bytes longCfg l := by
  refine ⟨longCfg_asserted, ?_⟩
  obtain ⟨h, S, _, h2, h3⟩ := scenario_witness (cfg := longCfg) (cs := exLong 7)
    (fun _ S => (fitAt longCfg S, (halves longCfg S 2).map Prod.fst))
    (x := (true, some 1056)) (by decide +kernel)
  simp only [Prod.mk.injEq] at h3
  obtain ⟨g1, g3⟩ := h3
  rw [Option.map_eq_some_iff] at g3
  obtain ⟨x, g3, g4⟩ := g3
  unfold halves at g3
  split at g3
  · rename_i c hm
    split at g3
    · rename_i l r ht
      cases g3
      refine ⟨S, c, l, r, h2, fitAt_spec g1, hm, ht, g4, ?_⟩
      rw [show Spec.bytes longCfg l = 1056 from g4]; decide
    · cases g3
  · cases g3

/-- Is page `p` overfull and does consolidation fail on it? -/
def noHalf (cfg : Cfg Nat) (S : Sys Nat Nat) (p : PID) : Bool :=
  match S.sh.mt p with
  | some c => decide ((cfg.page : Int) < c.size) && (tryConsolidate cfg false c).isNone &&
      decide (c.flat.length = 2)
  | none => false

/-- Has thread `t` met undefined behaviour? -/
def atUb (S : Sys Nat Nat) (t : Nat) : Bool :=
  match S.th t with
  | .run _ .ub => true
  | _ => false

/-- **C56 fails for keys of 248 bytes.**  The calls of one thread leave a leaf with two bounds and
two records of maximum length, 1056 bytes, in a tree in which every node fits.  The first half of
the split takes both records: the second has no record, there is no separator, and `Split` reads
the key of a record that does not exist. -/
theorem C56_false : Asserted longCfg ∧ ∃ (S : Sys Nat Nat) (c : Chain Nat Nat)
    (call : Spec.Call Nat Nat), Reachable longCfg (fun _ => none) S ∧ AllFit longCfg S ∧
    S.sh.mt 2 = some c ∧ (longCfg.page : Int) < c.size ∧ tryConsolidate longCfg false c = none ∧
    S.th 0 = .run call .ub := by
  refine ⟨longCfg_asserted, ?_⟩
  obtain ⟨h, S, _, h2, h3⟩ := scenario_witness (cfg := longCfg) (cs := exHole 7)
    (fun _ S => (fitAt longCfg S, noHalf longCfg S 2, atUb S 0))
    (x := (true, true, true)) (by decide +kernel)
  simp only [Prod.mk.injEq] at h3
  obtain ⟨g1, g2, g3⟩ := h3
  unfold noHalf at g2
  split at g2
  · rename_i c hm
    simp only [Bool.and_eq_true, decide_eq_true_eq, Option.isNone_iff_eq_none] at g2
    unfold atUb at g3
    split at g3
    · rename_i call ht
      exact ⟨S, c, call, h2, fitAt_spec g1, hm, g2.1.1, g2.1.2, ht⟩
    · cases g3
  · cases g2

/-! ## C56 for keys of bounded length -/

/-- With `CfgOK2`, which the default build meets (`varCfg_ok`), consolidation never fails, and a
split leaves records on both sides: the separator is the first key of the right half, above all keys
of the left half. -/
theorem C56_both_halves_partial (hc : CfgOK2 cfg) {m : K → Option V} {S : Sys K V}
    (hr : Reachable cfg m S) {p : PID} {c : Chain K V} (hm : S.sh.mt p = some c)
    (hn : c.isRemoved = false) :
    tryConsolidate cfg false c ≠ none ∧
    ∀ l r, tryConsolidate cfg false c = some (.split l r) →
      l.recs ≠ [] ∧ ∃ x rs, r.recs = x :: rs ∧ l.high = some x.1 ∧ r.low = some x.1 ∧
        (∀ y ∈ Spec.keyed l, y.1 < x.1) ∧ Spec.keyed r = r.recs := by
  obtain ⟨s, hS⟩ := hr.sound hc
  have hsh : s.mt = S.sh.mt := congrArg Sh.mt hS.sh
  obtain ⟨inner, low, hwf, hsz, hbase⟩ := hS.inv.slot_wf (by rw [hsh]; exact hm) hn
  obtain ⟨_, t2, t3, t4⟩ := tryConsolidate_spec hc.toCfgOK hwf false
  by_cases hs : c.size ≤ cfg.page
  · by_cases hm : c.size ≤ cfg.minSize
    · rw [t2 rfl hs hm]; exact ⟨Option.some_ne_none _, fun l r e => by cases e⟩
    · rw [t3 rfl hs hm]; exact ⟨Option.some_ne_none _, fun l r e => by cases e⟩
  · obtain ⟨lr, x, rr, h1, h2, h3, h4, e⟩ := t4 rfl hs
    rw [e]
    refine ⟨Option.some_ne_none _, fun l r e => ?_⟩
    injection Option.some.inj e with hl hr
    obtain ⟨v1, v2, _⟩ := split_wf hwf h1 h2 0
    subst hl; subst hr
    refine ⟨h1, x, rr, rfl, rfl, rfl, ?_, ?_⟩
    · intro y hy
      rw [keyed_eq_body] at hy
      have := (v1.flatBody_spec.2.1 y hy).2 _ rfl
      simpa using this
    · rw [keyed_eq_body]
      simp [Node.body, Node.leftInner, splitR]

/-- Inserts of keys of several lengths; the root leaf is about to be split. -/
def exVar (n : Nat) : List (Cmd Nat Nat) :=
  (List.range 10).map (fun i => .call 0 90 (.insert (137 * (i + 1)) i)) ++
    [.acts [.op 0 90 (.insert 77 5)], .steps 0 n]

/-- Pages split in this configuration, and the sizes of the halves are those of the specification. -/
example : ∃ (S : Sys Nat Nat) (c : Chain Nat Nat) (l r : Node Nat Nat),
    Reachable varCfg (fun _ => none) S ∧ S.sh.mt 1 = some c ∧ c.isRemoved = false ∧ c.size = 1139 ∧
    tryConsolidate varCfg false c = some (.split l r) ∧
    Spec.bytes varCfg l = 618 ∧ l.recs.length = 5 ∧ Spec.bytes varCfg r = 781 ∧
    r.recs.length = 6 := by
  obtain ⟨h, S, _, h2, h3⟩ := scenario_witness (cfg := varCfg) (cs := exVar 4)
    (fun _ S => ((S.sh.mt 1).map fun c => (c.isRemoved, c.size), halves varCfg S 1))
    (x := (some (false, 1139), some (618, 5, 781, 6))) (by decide +kernel)
  simp only [Prod.mk.injEq] at h3
  obtain ⟨g1, g2⟩ := h3
  unfold halves at g2
  split at g2
  · rename_i c hm
    split at g2
    · rename_i l r ht
      rw [hm] at g1
      simp only [Option.map_some, Option.some.injEq, Prod.mk.injEq] at g1 g2
      exact ⟨S, c, l, r, h2, hm, g1.1, g1.2, ht, g2⟩
    · cases g2
  · cases g2

/-- Keys of at most 64 bytes; nodes of at most 96 bytes are merged. -/
def shortCfg : Cfg Nat :=
  { page := 1024, hdr := 32, leafLen := 16, idxLen := 16, minSize := 96, thr := 4, maxDelta := 64,
    klen := fun k => 25 + k % 40, maxKey := 64, buf := true }

theorem shortCfg_ok : CfgOK2 shortCfg :=
  { leaf := by decide, idx := by decide, leafPos := by decide, idxPos := by decide,
    hdrPos := by decide, maxPos := by decide, rootFits := by decide, min := by decide,
    keys := fun k => show 25 + k % 40 ≤ 64 by omega,
    var := Or.inr (by decide), minVar := Or.inr (by decide) }

theorem shortCfg_roomy : Roomy shortCfg := ⟨by decide, by decide⟩

/-- A split, then deletes until the right leaf is merged into the left one. -/
def exVarMerge (n : Nat) : List (Cmd Nat Nat) :=
  (List.range 16).map (fun i => .call 0 90 (.insert (137 * (i + 1)) i)) ++
  (List.range 7).map (fun i => .call 0 90 (.delete (137 * (16 - i)))) ++
    [.acts [.op 0 90 (.delete 1233)], .steps 0 n]

/-- Merging an empty leaf makes its left sibling smaller: the bound between the two (58 bytes) is no
longer stored. -/
example : (∃ (S : Sys Nat Nat) (c : Chain Nat Nat), Reachable shortCfg (fun _ => none) S ∧
      S.sh.mt 1 = some c ∧ c.size = 590 ∧ Spec.deltas c = 0 ∧ S.sh.mt 2 = some (.removed true)) ∧
    ∃ (S : Sys Nat Nat) (c : Chain Nat Nat), Reachable shortCfg (fun _ => none) S ∧
      S.sh.mt 1 = some c ∧ c.size = 532 ∧ Spec.deltas c = 1 ∧ S.sh.mt 2 = some (.removed true) := by
  have key : ∀ (n : Nat) (x : Int × Nat),
      ((scenario shortCfg (exVarMerge n)).map fun y =>
        ((y.2.sh.mt 1).map fun c => (c.size, Spec.deltas c), y.2.sh.mt 2)) =
        some (some x, some (.removed true)) →
      ∃ (S : Sys Nat Nat) (c : Chain Nat Nat), Reachable shortCfg (fun _ => none) S ∧
        S.sh.mt 1 = some c ∧ c.size = x.1 ∧ Spec.deltas c = x.2 ∧
        S.sh.mt 2 = some (.removed true) := by
    intro n x hx
    obtain ⟨h, S, _, h2, h3⟩ := scenario_witness
      (fun _ S => ((S.sh.mt 1).map fun c => (c.size, Spec.deltas c), S.sh.mt 2)) hx
    simp only [Prod.mk.injEq, Option.map_eq_some_iff] at h3
    obtain ⟨⟨c, g1, g2⟩, g3⟩ := h3
    exact ⟨S, c, h2, g1, congrArg Prod.fst g2, congrArg Prod.snd g2, g3⟩
  exact ⟨key 13 (590, 0) (by decide +kernel), key 14 (532, 1) (by decide +kernel)⟩

end BwTree.Props
