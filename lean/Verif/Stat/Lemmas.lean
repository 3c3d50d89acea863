import Verif.Stat.Model
import Verif.Spec.Stat
import Verif.Conc.Sound
import Verif.Tree.SpecLemmas
import Mathlib.Algebra.Group.Prod
import Mathlib.Algebra.Group.Int.Defs
import Mathlib.Algebra.Group.Nat.Defs
import Mathlib.Algebra.BigOperators.Group.List.Basic
import Mathlib.Data.List.Nodup

/-!
# CollectStatisticalData visits every page once (proof side)
-/

namespace BwTree

set_option linter.unusedSectionVars false

variable {K V : Type} [LinearOrder K] {cfg : Cfg K}

/-- Page IDs in a list of records. -/
def childIds (l : List (K × Pay V)) : List PID :=
  l.filterMap fun r => match r.2 with
    | .child q => some q
    | .val _ => none

/-- Children of a page. -/
def kids (c : Chain K V) : List PID := if c.isLeaf then [] else childIds c.flat

def kidsAt (sh : Sh K V) (p : PID) : List PID :=
  match sh.mt p with
  | some c => kids c
  | none => []

/-- The pages `d` levels below the given ones. -/
def bfs (sh : Sh K V) : Nat → List PID → List PID
  | 0, ps => ps
  | d + 1, ps => bfs sh d (ps.flatMap (kidsAt sh))

theorem bfs_append (sh : Sh K V) (d : Nat) (a b : List PID) :
    bfs sh d (a ++ b) = bfs sh d a ++ bfs sh d b := by
  induction d generalizing a b with
  | zero => rfl
  | succ d ih => simp only [bfs, List.flatMap_append, ih]

theorem bfs_nil (sh : Sh K V) (d : Nat) : bfs sh d [] = [] := by
  induction d with
  | zero => rfl
  | succ d ih => simpa only [bfs, List.flatMap_nil] using ih

/-- What a page contributes. -/
def useAt (cfg : Cfg K) (recSz : Nat) (sh : Sh K V) (p : PID) : Usage :=
  match sh.mt p with
  | some c => usage cfg recSz c
  | none => 0

/-- Entry of a level. -/
def lvl (st : List Usage) (i : Nat) : Usage := st[i]?.getD 0

/-- The pages below `qs`, from level `l` on, have been added. -/
structure Acc (cfg : Cfg K) (recSz : Nat) (sh : Sh K V) (l : Nat) (qs : List PID)
    (st st' : List Usage) : Prop where
  old : ∀ i, i < l → lvl st' i = lvl st i
  new : ∀ d, lvl st' (l + d) = lvl st (l + d) + ((bfs sh d qs).map (useAt cfg recSz sh)).sum
  len : ∀ i, i < st'.length ↔ i < st.length ∨ ∃ d, i = l + d ∧ bfs sh d qs ≠ []
  ok : ∀ d p, p ∈ bfs sh d qs → ∃ c, sh.mt p = some c ∧ c.isRemoved = false ∧
    c.needWait cfg = false

variable {recSz : Nat} {sh : Sh K V} {l : Nat} {st st1 st' : List Usage}

theorem Acc.nil : Acc cfg recSz sh l [] st st where
  old := fun _ _ => rfl
  new := fun d => by simp [bfs_nil]
  len := fun i => by simp [bfs_nil]
  ok := fun d p h => by simp [bfs_nil] at h

theorem Acc.append {a b : List PID} (h1 : Acc cfg recSz sh l a st st1)
    (h2 : Acc cfg recSz sh l b st1 st') : Acc cfg recSz sh l (a ++ b) st st' where
  old := fun i hi => (h2.old i hi).trans (h1.old i hi)
  new := fun d => by rw [h2.new, h1.new, bfs_append, List.map_append, List.sum_append, add_assoc]
  len := fun i => by
    rw [h2.len, h1.len]
    simp only [bfs_append, ne_eq, List.append_eq_nil_iff, not_and_or]
    constructor
    · rintro ((h | ⟨d, e, h⟩) | ⟨d, e, h⟩)
      · exact Or.inl h
      · exact Or.inr ⟨d, e, Or.inl h⟩
      · exact Or.inr ⟨d, e, Or.inr h⟩
    · rintro (h | ⟨d, e, h | h⟩)
      · exact Or.inl (Or.inl h)
      · exact Or.inl (Or.inr ⟨d, e, h⟩)
      · exact Or.inr ⟨d, e, h⟩
  ok := fun d p h => by
    rw [bfs_append] at h
    rcases List.mem_append.1 h with h | h
    · exact h1.ok d p h
    · exact h2.ok d p h

theorem Acc.le {qs : List PID} (h : Acc cfg recSz sh l qs st st') : st.length ≤ st'.length := by
  by_contra hn
  have := (h.len st'.length).2 (Or.inl (by omega))
  omega

/-- The own entry of a page. -/
theorem lvl_add {i : Nat} {u : Usage} (h : addUsage l u st = some st') :
    lvl st' i = (if i = l then lvl st i + u else lvl st i) ∧ st'.length = st.length := by
  unfold addUsage at h
  cases e : st[l]? with
  | none => rw [e] at h; cases h
  | some x =>
    rw [e] at h
    cases Option.some.inj h
    have hl : l < st.length := by
      rw [List.getElem?_eq_some_iff] at e; exact e.1
    refine ⟨?_, by simp⟩
    by_cases hi : i = l
    · subst hi
      rw [if_pos rfl]
      unfold lvl
      rw [e, List.getElem?_set_self hl]
      rfl
    · rw [if_neg hi]
      unfold lvl
      rw [List.getElem?_set_ne (by omega)]

theorem addUsage_some {u : Usage} (h : l < st.length) : ∃ st', addUsage l u st = some st' := by
  unfold addUsage
  rw [List.getElem?_eq_getElem h]
  exact ⟨_, rfl⟩

/-- The entry of a new level. -/
theorem lvl_grow (hl : l ≤ st.length) :
    (∀ i, lvl (if st.length ≤ l then st ++ [(0, 0, 0)] else st) i = lvl st i) ∧
    ∀ i, i < (if st.length ≤ l then st ++ [(0, 0, 0)] else st).length ↔ i < st.length ∨ i = l := by
  split
  · next h =>
    have : st.length = l := by omega
    refine ⟨fun i => ?_, fun i => ?_⟩
    · unfold lvl
      rcases Nat.lt_trichotomy i st.length with hi | hi | hi
      · rw [List.getElem?_append_left hi]
      · subst hi
        rw [List.getElem?_concat_length, List.getElem?_eq_none (le_refl _)]; rfl
      · rw [List.getElem?_eq_none (Nat.le_of_lt hi), List.getElem?_eq_none (by
          rw [List.length_append, List.length_singleton]; omega)]
    · simp only [List.length_append, List.length_singleton]; omega
  · exact ⟨fun _ => rfl, fun i => by omega⟩

theorem Acc.node {p : PID} {c : Chain K V} (hm : sh.mt p = some c) (hr : c.isRemoved = false)
    (hw : c.needWait cfg = false) (hl : l ≤ st.length)
    (ha : addUsage l (usage cfg recSz c) (if st.length ≤ l then st ++ [(0, 0, 0)] else st) =
      some st1) (hk : Acc cfg recSz sh (l + 1) (kids c) st1 st') :
    Acc cfg recSz sh l [p] st st' := by
  obtain ⟨g1, g2⟩ := lvl_grow hl
  have hb : ∀ d, bfs sh (d + 1) [p] = bfs sh d (kids c) := by
    intro d
    simp only [bfs, List.flatMap_cons, List.flatMap_nil, List.append_nil, kidsAt, hm]
  have hx : ∀ i, i < st1.length ↔ i < st.length ∨ i = l := by
    intro i
    rw [(lvl_add (i := 0) ha).2]; exact g2 i
  refine ⟨fun i hi => ?_, fun d => ?_, fun i => ?_, fun d q hq => ?_⟩
  · rw [hk.old i (by omega), (lvl_add ha).1, if_neg (by omega), g1]
  · cases d with
    | zero =>
      rw [Nat.add_zero, hk.old l (by omega), (lvl_add ha).1, if_pos rfl, g1]
      simp [bfs, useAt, hm]
    | succ d =>
      have := hk.new d
      rw [show l + 1 + d = l + (d + 1) by omega] at this
      rw [this, (lvl_add ha).1, if_neg (by omega), g1, hb]
  · rw [hk.len, hx]
    constructor
    · rintro ((h | h) | ⟨d, e, h⟩)
      · exact Or.inl h
      · exact Or.inr ⟨0, by omega, by simp [bfs]⟩
      · exact Or.inr ⟨d + 1, by omega, by rw [hb]; exact h⟩
    · rintro (h | ⟨d, e, h⟩)
      · exact Or.inl (Or.inl h)
      · cases d with
        | zero => exact Or.inl (Or.inr e)
        | succ d => exact Or.inr ⟨d, by omega, by rw [← hb]; exact h⟩
  · cases d with
    | zero =>
      simp only [bfs, List.mem_singleton] at hq
      subst hq
      exact ⟨c, hm, hr, hw⟩
    | succ d => rw [hb] at hq; exact hk.ok d q hq

/-- Every chain of the table is well-formed. -/
def TableWF (cfg : Cfg K) (sh : Sh K V) : Prop :=
  ∀ p c, sh.mt p = some c → c.isRemoved = false → ∃ inner low, ChainWF cfg inner low c

theorem collect_acc (hc : CfgOK cfg) (hT : TableWF cfg sh) : ∀ (f : Nat) (p : PID) (l : Nat)
    (st st' : List Usage), l ≤ st.length → collectStat cfg recSz sh f p l st = some st' →
    Acc cfg recSz sh l [p] st st' := by
  intro f
  induction f with
  | zero => intro p l st st' _ h; cases h
  | succ f ih =>
    intro p l st st' hl h
    simp only [collectStat] at h
    split at h
    · cases h
    · next c hm =>
      split at h
      · cases h
      · next hb =>
        rw [Bool.or_eq_true, not_or, Bool.not_eq_true, Bool.not_eq_true] at hb
        split at h
        · cases h
        · next st2 ha =>
          have hl2 : l + 1 ≤ st2.length := by
            rw [(lvl_add (i := 0) ha).2]
            exact ((lvl_grow hl).2 l).2 (Or.inr rfl)
          refine Acc.node hm hb.2 hb.1 hl ha ?_
          split at h
          · next hleaf =>
            cases h
            have : kids c = [] := by unfold kids; rw [if_pos hleaf]
            rw [this]; exact Acc.nil
          · next hleaf =>
            obtain ⟨inner, low, hwf⟩ := hT p c hm hb.2
            have ht := (tryConsolidate_spec hc hwf true).1 rfl
            rw [ht] at h
            simp only [consNode] at h
            have : kids c = childIds c.flat := by unfold kids; rw [if_neg hleaf]
            rw [this]
            generalize c.flat = rs at h
            clear ha ht this
            induction rs generalizing st2 with
            | nil =>
              simp only [List.foldlM_nil] at h
              cases h
              exact Acc.nil
            | cons r rs ihr =>
              rw [List.foldlM_cons] at h
              cases hp : r.2 with
              | val v => rw [hp] at h; cases h
              | child q =>
                rw [hp] at h
                simp only at h
                cases hq : collectStat cfg recSz sh f q (l + 1) st2 with
                | none => rw [hq] at h; cases h
                | some st3 =>
                  rw [hq] at h
                  have h1 := ih q (l + 1) st2 st3 hl2 hq
                  have h2 := ihr st3 (Nat.le_trans hl2 h1.le) h
                  have : childIds (r :: rs) = [q] ++ childIds rs := by
                    simp [childIds, List.filterMap_cons, hp]
                  rw [this]
                  exact h1.append h2

/-- The traversal ends if no page below the root is removed or waits. -/
theorem collect_some (hc : CfgOK cfg) {s : St K V} (hI : Inv cfg s) : ∀ (F f : Nat) (p : PID)
    (l : Nat) (low : Option K) (st : List Usage), F < f → l ≤ st.length →
    s.info p = some (F, low) →
    (∀ d q, q ∈ bfs s.toSh d [p] → ∃ c, s.mt q = some c ∧ c.isRemoved = false ∧
      c.needWait cfg = false) →
    ∃ st', collectStat cfg recSz s.toSh f p l st = some st' := by
  have hT : TableWF cfg s.toSh := fun p c hm hr => hI.slot_chain hm hr
  intro F
  induction F using Nat.strong_induction_on with
  | _ F ih =>
    intro f p l low st hf hl hi hok
    cases f with
    | zero => omega
    | succ f =>
      obtain ⟨c, hm, hr, hw⟩ := hok 0 p (by simp [bfs])
      obtain ⟨hcont, hpw⟩ := hI.live hi hm hr
      simp only [collectStat]
      rw [show s.toSh.mt p = some c from hm]
      simp only [hr, hw, Bool.or_false, if_false, Bool.false_eq_true]
      obtain ⟨st2, ha⟩ := addUsage_some (u := usage cfg recSz c)
        (((lvl_grow hl).2 l).2 (Or.inr rfl))
      have hl2 : l + 1 ≤ st2.length := by
        rw [(lvl_add (i := 0) ha).2]
        exact ((lvl_grow hl).2 l).2 (Or.inr rfl)
      rw [ha]
      simp only
      split
      · exact ⟨_, rfl⟩
      · next hleaf =>
        have ht := (tryConsolidate_spec hc hpw.wf true).1 rfl
        rw [ht]
        simp only [consNode]
        have hF : F ≠ 0 := by
          intro e; rw [hpw.isLeaf, e] at hleaf; exact hleaf rfl
        have hfc : s.fcf F < F := hI.l.fcf F (Nat.pos_of_ne_zero hF) (hI.l.fam p F low hi)
        have hk : kids c = childIds c.flat := by unfold kids; rw [if_neg hleaf]
        have hkk : ∀ d q, q ∈ bfs s.toSh d (childIds c.flat) → ∃ c, s.mt q = some c ∧
            c.isRemoved = false ∧ c.needWait cfg = false := by
          intro d q hq
          refine hok (d + 1) q ?_
          simp only [bfs, List.flatMap_cons, List.flatMap_nil, List.append_nil, kidsAt]
          rw [show s.toSh.mt p = some c from hm]
          simp only
          rw [hk]; exact hq
        have hpay := hpw.wf.kind_flat
        have hent := hpw.ents.flat hpw.wf
        have hinfo : ∀ x ∈ c.flat, ∀ q, x.2 = .child q → ∃ low, s.info q = some (s.fcf F, low) := by
          intro x hx q e
          rcases List.mem_append.1 hx with hx | hx
          · exact ⟨_, hent.1 x hx q e⟩
          · exact ⟨_, hent.2 x hx q e⟩
        clear ha ht hk hent
        generalize c.flat = rs at hkk hpay hinfo
        induction rs generalizing st2 with
        | nil => exact ⟨_, rfl⟩
        | cons r rs ihr =>
          have hp := hpay r (by simp)
          unfold PayOK at hp
          rw [if_pos (by simpa using hF)] at hp
          obtain ⟨q, hp⟩ := hp
          obtain ⟨low', hiq⟩ := hinfo r (by simp) q hp
          have hcat : childIds (r :: rs) = [q] ++ childIds rs := by
            simp [childIds, List.filterMap_cons, hp]
          rw [hcat] at hkk
          obtain ⟨st3, h3⟩ := ih (s.fcf F) hfc f q (l + 1) low' st2 (by omega) hl2 hiq
            (fun d x hx => hkk d x (by rw [bfs_append]; exact List.mem_append_left _ hx))
          have h4 := collect_acc hc hT f q (l + 1) st2 st3 hl2 h3
          rw [List.foldlM_cons]
          simp only [hp, h3]
          exact ihr st3 (Nat.le_trans hl2 h4.le)
            (fun d x hx => hkk d x (by rw [bfs_append]; exact List.mem_append_right _ hx))
            (fun x hx => hpay x (List.mem_cons_of_mem _ hx))
            (fun x hx => hinfo x (List.mem_cons_of_mem _ hx))

/-! ## Every page is visited once -/

theorem mem_childIds {l : List (K × Pay V)} {q : PID} :
    q ∈ childIds l ↔ ∃ k, (k, Pay.child q) ∈ l := by
  unfold childIds
  rw [List.mem_filterMap]
  constructor
  · rintro ⟨⟨k, p⟩, hx, h⟩
    cases p with
    | val v => cases h
    | child q' => cases h; exact ⟨k, hx⟩
  · rintro ⟨k, h⟩
    exact ⟨_, h, rfl⟩

/-- Where the lower bound of a child comes from. -/
theorem kid_info {s : St K V} (hI : Inv cfg s) {p q : PID} {F : Nat} {low : Option K}
    (hi : s.info p = some (F, low)) (hq : q ∈ kidsAt s.toSh p) :
    ∃ c, s.cont p = some c ∧
      ((∃ k, InR low c.high k ∧ s.info q = some (s.fcf F, some k)) ∨
        (low = none ∧ s.info q = some (s.fcf F, none))) := by
  unfold kidsAt at hq
  cases hm : s.mt p with
  | none => rw [show s.toSh.mt p = none from hm] at hq; cases hq
  | some c =>
    rw [show s.toSh.mt p = some c from hm] at hq
    simp only [kids] at hq
    split at hq
    · cases hq
    · obtain ⟨k, hk⟩ := mem_childIds.1 hq
      have hr : c.isRemoved = false := by
        cases c with
        | removed b => simp [Chain.flat, Chain.pre, Chain.flatBody] at hk
        | base n => rfl
        | delta d nx => rfl
      obtain ⟨hcont, hpw⟩ := hI.live hi hm hr
      obtain ⟨e1, e2⟩ := hpw.ents.flat hpw.wf
      refine ⟨c, hcont, ?_⟩
      rcases List.mem_append.1 hk with hk | hk
      · right
        refine ⟨?_, e1 _ hk q rfl⟩
        cases hb : (decide (F ≠ 0) && low.isNone) with
        | false => rw [hpw.wf.pre_shape.2 hb] at hk; cases hk
        | true =>
          rw [Bool.and_eq_true] at hb
          exact Option.isNone_iff_eq_none.1 hb.2
      · left
        exact ⟨k, hpw.wf.flatBody_spec.2.1 _ hk, e2 _ hk q rfl⟩

theorem kids_nodup {s : St K V} (hI : Inv cfg s) {p : PID} {F : Nat} {low : Option K}
    (hi : s.info p = some (F, low)) : (kidsAt s.toSh p).Nodup := by
  unfold kidsAt
  cases hm : s.mt p with
  | none => exact List.nodup_nil
  | some c =>
    simp only [kids]
    split
    · exact List.nodup_nil
    · cases hr : c.isRemoved with
      | true =>
        cases c with
        | removed b => exact List.nodup_nil
        | base n => cases hr
        | delta d nx => cases hr
      | false =>
        obtain ⟨hcont, hpw⟩ := hI.live hi hm hr
        obtain ⟨e1, e2⟩ := hpw.ents.flat hpw.wf
        have hbody : (childIds c.flatBody).Nodup := by
          have hs := hpw.wf.flatBody_spec.1
          unfold childIds
          refine List.Pairwise.filterMap _ ?_ (List.Pairwise.and_mem.1 hs)
          · rintro ⟨k, a⟩ ⟨k', b⟩ ⟨h1, h2, hlt⟩ q hq q' hq' rfl
            cases a with
            | val v => cases hq
            | child x =>
              cases b with
              | val v => cases hq'
              | child y =>
                cases hq; cases hq'
                have := (e2 _ h1 q rfl).symm.trans (e2 _ h2 q rfl)
                simp only [Option.some.injEq, Prod.mk.injEq, true_and] at this
                exact absurd this (ne_of_lt hlt)
        unfold Chain.flat
        have hcat : childIds (c.pre ++ c.flatBody) = childIds c.pre ++ childIds c.flatBody := by
          unfold childIds; rw [List.filterMap_append]
        rw [hcat]
        refine List.Nodup.append ?_ hbody ?_
        · cases hb : (decide (F ≠ 0) && low.isNone) with
          | false => rw [hpw.wf.pre_shape.2 hb]; exact List.nodup_nil
          | true =>
            obtain ⟨r, e, _⟩ := hpw.wf.pre_shape.1 hb
            rw [e]
            cases hp : r.2 with
            | val v => simp [childIds, hp]
            | child q => simp [childIds, hp]
        · intro q hq hq'
          obtain ⟨k, hk⟩ := mem_childIds.1 hq
          obtain ⟨k', hk'⟩ := mem_childIds.1 hq'
          have := (e1 _ hk q rfl).symm.trans (e2 _ hk' q rfl)
          simp at this

theorem bfs_nodup {s : St K V} (hI : Inv cfg s) (d : Nat) : ∀ {F : Nat} {ps : List PID},
    ps.Nodup → (∀ p ∈ ps, ∃ low, s.info p = some (F, low)) → (bfs s.toSh d ps).Nodup := by
  induction d with
  | zero => intro F ps h _; exact h
  | succ d ih =>
    intro F ps hn hf
    refine ih (F := s.fcf F) ?_ ?_
    · rw [List.nodup_flatMap]
      refine ⟨fun p hp => ?_, ?_⟩
      · obtain ⟨low, hi⟩ := hf p hp
        exact kids_nodup hI hi
      · refine (List.Pairwise.and_mem.1 hn).imp ?_
        rintro p p' ⟨hp, hp', hne⟩ q hq hq'
        obtain ⟨low, hi⟩ := hf p hp
        obtain ⟨low', hi'⟩ := hf p' hp'
        obtain ⟨c, hc1, hc2⟩ := kid_info hI hi hq
        obtain ⟨c', hc1', hc2'⟩ := kid_info hI hi' hq'
        have hdis := hI.l.disj p p' c c' F low low' hc1 hc1' hi hi' hne
        rcases hc2 with ⟨k, h1, h2⟩ | ⟨h1, h2⟩
        · rcases hc2' with ⟨k', h1', h2'⟩ | ⟨h1', h2'⟩
          · have := h2.symm.trans h2'
            simp only [Option.some.injEq, Prod.mk.injEq, true_and] at this
            subst this
            rcases hdis with ⟨a, b, e1, e2, e3⟩ | ⟨a, b, e1, e2, e3⟩
            · have g1 := h1.2 a e1
              have g2 := h1'.1 b e2
              simp at g1 g2; order
            · have g1 := h1'.2 a e1
              have g2 := h1.1 b e2
              simp at g1 g2; order
          · have := h2.symm.trans h2'
            simp at this
        · rcases hc2' with ⟨k', h1', h2'⟩ | ⟨h1', h2'⟩
          · have := h2.symm.trans h2'
            simp at this
          · rcases hdis with ⟨a, b, e1, e2, e3⟩ | ⟨a, b, e1, e2, e3⟩
            · rw [h1'] at e2; cases e2
            · rw [h1] at e2; cases e2
    · intro q hq
      obtain ⟨p, hp, hq⟩ := List.mem_flatMap.1 hq
      obtain ⟨low, hi⟩ := hf p hp
      obtain ⟨c, _, ⟨k, _, h⟩ | ⟨_, h⟩⟩ := kid_info hI hi hq
      · exact ⟨_, h⟩
      · exact ⟨_, h⟩

/-! ## The specification of children -/

theorem spec_baseOf (c : Chain K V) : Spec.baseOf c = baseOf c := by
  induction c with
  | base n => rfl
  | removed b => rfl
  | delta d nx ih => exact ih

theorem kid_iff {inner : Bool} {low : Option K} {c : Chain K V} (h : ChainWF cfg inner low c)
    (q : PID) : Spec.Kid c q ↔ q ∈ kids c := by
  obtain ⟨n, hb1, hb2, hb3, hb4, hb5⟩ := h.base
  unfold Spec.Kid kids
  cases hl : c.isLeaf with
  | true => simp
  | false =>
    rw [if_neg (by simp), mem_childIds]
    have hin : inner = true := by
      have := h.isLeaf
      rw [hl] at this
      cases inner with
      | true => rfl
      | false => cases this
    simp only [true_and, spec_baseOf, hb1, Option.some.injEq]
    have hs := h.flatBody_spec.1
    constructor
    · rintro (⟨k, hk⟩ | ⟨n', k, rfl, h1, h2⟩)
      · rw [look_eq h] at hk
        exact ⟨k, List.mem_append_right _ (alook_mem hk)⟩
      · refine ⟨k, List.mem_append_left _ ?_⟩
        rw [hb5, Node.pre, Node.leftInner, hb3, hin, h1]
        cases e : n.recs with
        | nil => rw [e] at h2; cases h2
        | cons r rs =>
          rw [e] at h2
          cases h2
          simp
    · rintro ⟨k, hk⟩
      rcases List.mem_append.1 hk with hk | hk
      · right
        rw [hb5, Node.pre] at hk
        split at hk
        · next hli =>
          rw [Node.leftInner, Bool.and_eq_true] at hli
          refine ⟨n, k, rfl, Option.isNone_iff_eq_none.1 hli.2, ?_⟩
          cases e : n.recs with
          | nil => rw [e] at hk; cases hk
          | cons r rs =>
            rw [e] at hk
            simp only [List.take_succ_cons, List.take_zero, List.mem_singleton] at hk
            rw [hk]; rfl
        · cases hk
      · left
        exact ⟨k, by rw [look_eq h]; exact alook_of_mem hs hk⟩

theorem bfs_snoc (sh : Sh K V) (d : Nat) (ps : List PID) :
    bfs sh (d + 1) ps = (bfs sh d ps).flatMap (kidsAt sh) := by
  induction d generalizing ps with
  | zero => rfl
  | succ d ih => exact ih _

theorem below_iff (hT : TableWF cfg sh) (d : Nat) (p : PID) :
    Spec.Below sh d p ↔ p ∈ bfs sh d [sh.root] := by
  have hk : ∀ p q c, sh.mt p = some c → (Spec.Kid c q ↔ q ∈ kids c) := by
    intro p q c hm
    cases hr : c.isRemoved with
    | false =>
      obtain ⟨inner, low, h⟩ := hT p c hm hr
      exact kid_iff h q
    | true =>
      cases c with
      | removed b =>
        cases b <;>
          simp [Spec.Kid, kids, Chain.flat, Chain.pre, Chain.flatBody, childIds, Spec.look,
            Spec.baseOf, Chain.isLeaf]
      | base n => cases hr
      | delta d nx => cases hr
  induction d generalizing p with
  | zero =>
    simp only [bfs, List.mem_singleton]
    constructor
    · intro h; cases h; rfl
    · rintro rfl; exact .root
  | succ d ih =>
    rw [bfs_snoc, List.mem_flatMap]
    constructor
    · intro h
      cases h with
      | @kid _ p' _ c h1 h2 h3 =>
        refine ⟨p', (ih p').1 h1, ?_⟩
        unfold kidsAt
        rw [h2]
        exact (hk p' p c h2).1 h3
    · rintro ⟨p', h1, h2⟩
      unfold kidsAt at h2
      cases hm : sh.mt p' with
      | none => rw [hm] at h2; cases h2
      | some c =>
        rw [hm] at h2
        exact .kid ((ih p').2 h1) hm ((hk p' p c hm).2 h2)

end BwTree
