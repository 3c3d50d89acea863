import Verif.Fix.Search
import Verif.Fix.Cons
import Verif.Layout.SearchSim

/-!
# Searches on bytes give what the searches of the model give (proofs, fixed-length layout)
-/

namespace BwTree.Fix

open Layout (Mem FCfg FPage FSplit Enc BRd BCh BBound bsLoop_lt bsLoop_le endPos_le payloads_get slice_eq)

set_option linter.unusedSectionVars false

variable {K V : Type} [LinearOrder K] {cfg : Cfg K} {P : FPar} {e : Enc K V}

theorem NImg.keyAt {n : Node K V} {nd : FNode} (h : NImg P e n nd) {i : Nat} (hi : i < n.recs.length)
    (h0 : ¬ (n.inner = true ∧ n.low = none ∧ i = 0)) :
    nd.pg.key P.c i = e.key (n.recs[i]).1 := h.keys i hi h0

theorem highGE_sim (he : FEncOK cfg P e) {r : FRec} {h : Option K}
    (hr : Bnd e h r.hasHigh r.high) (key : K) (cl : Bool) :
    r.highGE P.lt (e.key key) cl = highKeyIsGE h key cl := by
  unfold FRec.highGE
  rw [hr.1]
  cases h with
  | none => rfl
  | some k =>
    rw [hr.2 k rfl]
    simp only [highKeyIsGE, he.lt, Option.isSome_some, Bool.not_true, Bool.false_or]

/-! ## Comparisons -/

theorem sameKey_sim (he : FEncOK cfg P e) {r : FRec} {a : K} (hr : r.key = e.key a) (key : K) :
    r.sameKey P.lt (e.key key) = sameKey a key := by
  simp only [FRec.sameKey, sameKey, hr, he.lt]

theorem sameKeyOpt_sim (he : FEncOK cfg P e) {r : FRec} {a : K} (hr : r.key = e.key a)
    (key : Option K) : r.sameKeyOpt P.lt (key.map e.key) = sameKeyOpt a key := by
  cases key with
  | none => rfl
  | some k => exact sameKey_sim he hr k

theorem lowLE_sim (he : FEncOK cfg P e) {r : FRec} {a : K} (hr : r.key = e.key a) (key : K)
    (cl : Bool) : r.lowLE P.lt (e.key key) cl = lowKeyIsLE a key cl := by
  simp only [FRec.lowLE, lowKeyIsLE, hr, he.lt]

theorem lowIsKey_sim (he : FEncOK cfg P e) {n : Node K V} {nd : FNode} (h : NImg P e n nd)
    (key : K) : (nd.hasLow && nd.asRec.sameKey P.lt (e.key key)) = lowIsKey n.low key := by
  have hl := h.low
  rw [hl.1]
  cases hn : n.low with
  | none => rfl
  | some k =>
    have h3 : nd.asRec.key = e.key k := hl.2 k hn
    simp only [Option.isSome_some, Bool.true_and, lowIsKey]
    exact sameKey_sim he h3 key

/-! ## In a node -/

theorem fbsLoop_sim (he : FEncOK cfg P e) {n : Node K V} {nd : FNode} (h : NImg P e n nd)
    (key : K) {b0 : Nat} (hb0 : n.inner = true → n.low = none → 1 ≤ b0) :
    ∀ (f b x : Nat), b0 ≤ b → fbsLoop P.lt P.c nd (e.key key) f b x = bsLoop n.recs key f b x
  | 0, b, x, _ => rfl
  | f + 1, b, x, hb => by
    simp only [fbsLoop, bsLoop]
    by_cases hbx : b < x
    · rw [if_pos hbx, if_pos hbx]
      have hpos : b ≤ (b + x - 1) / 2 := by omega
      by_cases hp : (b + x - 1) / 2 < n.recs.length
      · have hk := h.keyAt hp (by
          rintro ⟨h1, h2, h3⟩
          have := hb0 h1 h2
          omega)
        rw [if_neg (by rw [h.cnt]; omega), List.getElem?_eq_getElem hp, hk]
        simp only [he.lt, decide_eq_true_eq]
        rw [fbsLoop_sim he h key hb0 f b _ hb, fbsLoop_sim he h key hb0 f _ x (by omega)]
      · rw [if_pos (by rw [h.cnt]; omega), List.getElem?_eq_none (by omega)]
    · rw [if_neg hbx, if_neg hbx]

theorem searchRecord_sim (he : FEncOK cfg P e) {n : Node K V} {nd : FNode} (h : NImg P e n nd)
    (key : K) : nd.searchRecord P.lt P.c (e.key key) = n.searchRecord key := by
  unfold FNode.searchRecord Node.searchRecord
  rw [h.leftmost, h.cnt]
  refine fbsLoop_sim he h key ?_ _ _ _ (Nat.le_refl _)
  intro h1 h2
  simp [h1, h2]

theorem NImg.payAt {n : Node K V} {nd : FNode} (h : NImg P e n nd) {i : Nat}
    (hi : i < n.recs.length) {plen : Nat} (hp : (e.pay (n.recs[i]).2).length = plen) :
    nd.pg.pay P.c plen i = e.pay (n.recs[i]).2 := by
  have := h.pays i hi
  rw [hp] at this
  exact this

theorem searchChild_sim (he : FEncOK cfg P e) {n : Node K V} {nd : FNode} (h : NImg P e n nd)
    (key : K) (cl : Bool) {p : PID} (hs : n.searchChild key cl = some p) :
    nd.searchChild P.lt P.c P.pid (e.key key) cl = some (e.pid p) := by
  unfold Node.searchChild at hs
  unfold FNode.searchChild
  rw [h.cnt, fbsLoop_sim he h key (b0 := 1) (fun _ _ => Nat.le_refl _) _ _ _ (Nat.le_refl _)]
  cases hb : bsLoop n.recs key n.recs.length 1 n.recs.length with
  | none => rw [hb] at hs; cases hs
  | some r =>
    obtain ⟨f, pos⟩ := r
    rw [hb] at hs
    simp only at hs ⊢
    split at hs
    · rename_i k q hg
      cases hs
      obtain ⟨hi, hq⟩ := List.getElem?_eq_some_iff.1 hg
      rw [if_pos hi]
      have hpl : (e.pay (n.recs[(if f then pos + (if cl then 1 else 0) else pos) - 1]).2).length =
          P.pid := by
        rw [hq]
        have := he.pid p
        show (e.pid p).length = _
        omega
      rw [h.payAt hi hpl, hq]; rfl
    · cases hs

/-! ## In a chain -/

/-- The outcome on bytes belongs to the outcome of the model. -/
def RImg (P : FPar) (e : Enc K V) : SRes K V → BSRes → Prop
  | .found p, .found b => ∀ v, p = .val v → b = e.val v
  | .notFound, .notFound => True
  | .sibling p, .sibling q => p = q
  | .removed, .removed => True
  | .base n, .base nd => NImg P e n nd
  | .ub, _ => True
  | _, _ => False

theorem bSearchRecord_sim (he : FEncOK cfg P e) (key : K) : ∀ {ch : Chain K V} {b : BChain}
    (_ : CImg P e ch b) (smo : Bool), RImg P e (dcSearchRecord key smo ch)
      (bSearchRecord P P.pay (e.key key) smo b)
  | .base n, .base nd, h, smo => by
    have h' : NImg P e n nd := h
    have hh := highGE_sim he (r := nd.asRec) h'.high key false
    simp only [dcSearchRecord, bSearchRecord, hh]
    split
    · exact h'.next.symm
    · exact h'
  | .removed _, .removed _, _, _ => trivial
  | .delta d nx, .delta ty r ref b, h, smo => by
    obtain ⟨hd, hn, _, hx⟩ := h
    have hs := sameKey_sim he hd.key key
    have hl := lowLE_sim he hd.key key true
    have hh := highGE_sim he hd.high key false
    simp only [dcSearchRecord, bSearchRecord, hd.ty, hs, hl, hh]
    have hfound : d.ty ≠ .delete → RImg P e (.found d.pay : SRes K V)
        (.found (r.pay P P.pay)) := by
      intro hne v hv
      have hr := hd.cell (d.key, .val v) hne (by simp [Delta.toRec, hv])
      have := hr
      have hlen := he.val v
      show r.mem.read P.blk P.pay = _
      rw [show P.pay = (e.val v).length by omega]
      exact this
    cases hty : d.ty with
    | insert =>
      simp only
      split
      · exact hfound (by simp [hty])
      · exact bSearchRecord_sim he key hx smo
    | modify =>
      simp only
      split
      · exact hfound (by simp [hty])
      · exact bSearchRecord_sim he key hx smo
    | delete =>
      simp only
      split
      · trivial
      · exact bSearchRecord_sim he key hx smo
    | merge =>
      simp only
      split
      · cases hp : d.pay with
        | node n =>
          obtain ⟨nd, rfl, hnp⟩ := hn n hp
          simp only
          split
          · exact hnp.next.symm
          · exact hnp
        | _ => trivial
      · exact bSearchRecord_sim he key hx true
  | .base _, .removed _, h, _ | .base _, .delta .., h, _ | .removed _, .base _, h, _
  | .removed _, .delta .., h, _ | .delta .., .base _, h, _ | .delta .., .removed _, h, _ => h.elim

theorem bRead_sim (he : FEncOK cfg P e) (key : K) {ch : Chain K V} {b : BChain}
    (h : CImg P e ch b) (hub : readChain key ch ≠ .ub) :
    bRead P P.pay (e.key key) b = e.rd (readChain key ch) := by
  have hs := bSearchRecord_sim he key h false
  unfold readChain at hub ⊢
  unfold bRead
  cases hr : dcSearchRecord key false ch with
  | found p =>
    rw [hr] at hs hub
    cases hb : bSearchRecord P P.pay (e.key key) false b with
    | found q =>
      rw [hb] at hs
      cases p with
      | val v => rw [hs v rfl]; rfl
      | _ => exact absurd rfl hub
    | _ => rw [hb] at hs; exact hs.elim
  | notFound =>
    rw [hr] at hs
    cases hb : bSearchRecord P P.pay (e.key key) false b with
    | notFound => rfl
    | _ => rw [hb] at hs; exact hs.elim
  | sibling p =>
    rw [hr] at hs
    cases hb : bSearchRecord P P.pay (e.key key) false b with
    | sibling q => rw [hb] at hs; cases (show p = q from hs); rfl
    | _ => rw [hb] at hs; exact hs.elim
  | removed =>
    rw [hr] at hs
    cases hb : bSearchRecord P P.pay (e.key key) false b with
    | removed => rfl
    | _ => rw [hb] at hs; exact hs.elim
  | base n =>
    rw [hr] at hs hub
    cases hb : bSearchRecord P P.pay (e.key key) false b with
    | base nd =>
      rw [hb] at hs
      have hn : NImg P e n nd := hs
      simp only [searchRecord_sim he hn key]
      simp only at hub
      cases hsr : n.searchRecord key with
      | none => rw [hsr] at hub; exact absurd rfl hub
      | some r =>
        obtain ⟨f, pos⟩ := r
        rw [hsr] at hub
        cases f with
        | false => rfl
        | true =>
          have hi : pos < n.recs.length := bsLoop_lt hsr rfl
          simp only [payloadAt, List.getElem?_eq_getElem hi] at hub ⊢
          cases hx : n.recs[pos] with
          | mk k p =>
            rw [hx] at hub
            cases p with
            | child q => exact absurd rfl hub
            | val v =>
              have := he.val v
              rw [hn.payAt hi (plen := P.pay) (by
                rw [hx]; show (e.val v).length = _; omega), hx]
              rfl
    | _ => rw [hb] at hs; exact hs.elim
  | ub => rw [hr] at hub; exact absurd rfl hub

theorem bKeyCheck_sim (he : FEncOK cfg P e) (key : K) {ch : Chain K V} {b : BChain}
    (h : CImg P e ch b) (hub : keyCheck key ch ≠ .ub) :
    bKeyCheck P P.pay (e.key key) b = keyCheck key ch := by
  have hs := bSearchRecord_sim he key h false
  unfold keyCheck at hub ⊢
  unfold bKeyCheck
  cases hr : dcSearchRecord key false ch with
  | ub => rw [hr] at hub; exact absurd rfl hub
  | base n =>
    rw [hr] at hs
    cases hb : bSearchRecord P P.pay (e.key key) false b with
    | base nd =>
      rw [hb] at hs
      have hn : NImg P e n nd := hs
      simp only [searchRecord_sim he hn key]
      cases n.searchRecord key <;> rfl
    | _ => rw [hb] at hs; exact hs.elim
  | sibling p =>
    rw [hr] at hs
    cases hb : bSearchRecord P P.pay (e.key key) false b with
    | sibling q => rw [hb] at hs; cases (show p = q from hs); rfl
    | _ => rw [hb] at hs; exact hs.elim
  | _ =>
    rw [hr] at hs
    cases hb : bSearchRecord P P.pay (e.key key) false b <;> rw [hb] at hs <;>
      exact hs.elim

/-- The outcome on bytes belongs to the outcome of the model. -/
def HImg (P : FPar) (e : Enc K V) : CRes K V → BCRes → Prop
  | .child p, .child b => b = e.pid p
  | .cell w, .cell w' => w = w'
  | .sibling p, .sibling q => p = q
  | .removed, .removed => True
  | .base n, .base nd => NImg P e n nd
  | .ub, _ => True
  | _, _ => False

theorem bSearchChild_sim (he : FEncOK cfg P e) (key : K) (cl : Bool) : ∀ {ch : Chain K V}
    {b : BChain} (_ : CImg P e ch b) (smo : Bool), HImg P e (dcSearchChild key cl smo ch)
      (bSearchChild P P.pid (e.key key) cl smo b)
  | .base n, .base nd, h, smo => by
    have h' : NImg P e n nd := h
    have hh := highGE_sim he (r := nd.asRec) h'.high key (!cl)
    simp only [dcSearchChild, bSearchChild, hh]
    split
    · exact h'.next.symm
    · exact h'
  | .removed _, .removed _, _, _ => trivial
  | .delta d nx, .delta ty r ref b, h, smo => by
    obtain ⟨hd, hn, hw, hx⟩ := h
    have hl := lowLE_sim he hd.key key cl
    have hh := highGE_sim he hd.high key (!cl)
    simp only [dcSearchChild, bSearchChild, hd.ty, hl, hh]
    cases hty : d.ty with
    | insert =>
      simp only
      split
      · cases hp : d.pay with
        | child p =>
          have hr := hd.cell (d.key, .child p) (by simp [hty]) (by simp [Delta.toRec, hp])
          have := hr
          have hlen := he.pid p
          show r.mem.read P.blk P.pid = _
          rw [show P.pid = (e.pid p).length by omega]
          exact this
        | _ => trivial
      · exact bSearchChild_sim he key cl hx smo
    | modify => trivial
    | delete =>
      simp only
      split
      · cases hp : d.pay with
        | cell w => rw [hw w hp]; rfl
        | _ => trivial
      · exact bSearchChild_sim he key cl hx smo
    | merge =>
      simp only
      split
      · cases hp : d.pay with
        | node n =>
          obtain ⟨nd, rfl, hnp⟩ := hn n hp
          simp only
          split
          · exact hnp.next.symm
          · exact hnp
        | _ => trivial
      · exact bSearchChild_sim he key cl hx true
  | .base _, .removed _, h, _ | .base _, .delta .., h, _ | .removed _, .base _, h, _
  | .removed _, .delta .., h, _ | .delta .., .base _, h, _ | .delta .., .removed _, h, _ => h.elim

theorem bChildStep_sim (he : FEncOK cfg P e) (key : K) (cl : Bool) {ch : Chain K V} {b : BChain}
    (h : CImg P e ch b) (hub : childStep key cl ch ≠ .ub) :
    bChildStep P P.pid (e.key key) cl b = e.ch (childStep key cl ch) := by
  have hs := bSearchChild_sim he key cl h false
  unfold childStep at hub ⊢
  unfold bChildStep
  cases hr : dcSearchChild key cl false ch with
  | ub => rw [hr] at hub; exact absurd rfl hub
  | base n =>
    rw [hr] at hs hub
    cases hb : bSearchChild P P.pid (e.key key) cl false b with
    | base nd =>
      rw [hb] at hs
      have hn : NImg P e n nd := hs
      simp only at hub ⊢
      cases hsc : n.searchChild key cl with
      | none => rw [hsc] at hub; exact absurd rfl hub
      | some p => rw [searchChild_sim he hn key cl hsc]; rfl
    | _ => rw [hb] at hs; exact hs.elim
  | child p =>
    rw [hr] at hs
    cases hb : bSearchChild P P.pid (e.key key) cl false b with
    | child q => rw [hb] at hs; cases (show q = e.pid p from hs); rfl
    | _ => rw [hb] at hs; exact hs.elim
  | cell p =>
    rw [hr] at hs
    cases hb : bSearchChild P P.pid (e.key key) cl false b with
    | cell q => rw [hb] at hs; cases (show p = q from hs); rfl
    | _ => rw [hb] at hs; exact hs.elim
  | sibling p =>
    rw [hr] at hs
    cases hb : bSearchChild P P.pid (e.key key) cl false b with
    | sibling q => rw [hb] at hs; cases (show p = q from hs); rfl
    | _ => rw [hb] at hs; exact hs.elim
  | removed =>
    rw [hr] at hs
    cases hb : bSearchChild P P.pid (e.key key) cl false b with
    | removed => rfl
    | _ => rw [hb] at hs; exact hs.elim

theorem bValidate_sim (he : FEncOK cfg P e) (key : K) (cl : Bool) : ∀ {ch : Chain K V} {b : BChain}
    (_ : CImg P e ch b), dcValidate key cl ch ≠ .ub →
      bValidate P.lt (e.key key) cl b = dcValidate key cl ch
  | .base n, .base nd, h, _ => by
    have h' : NImg P e n nd := h
    have hh := highGE_sim he (r := nd.asRec) h'.high key (!cl)
    simp only [dcValidate, bValidate, hh, h'.next]
  | .removed _, .removed _, _, _ => rfl
  | .delta d nx, .delta ty r ref b, h, hub => by
    obtain ⟨hd, hn, _, hx⟩ := h
    have hh := highGE_sim he hd.high key (!cl)
    simp only [dcValidate] at hub
    simp only [dcValidate, bValidate, hd.ty, hh]
    cases hty : d.ty with
    | merge =>
      rw [hty] at hub
      simp only at hub ⊢
      split
      · rename_i hc
        rw [if_pos hc] at hub
        cases hp : d.pay with
        | node n =>
          obtain ⟨nd, rfl, hnp⟩ := hn n hp
          simp only [hnp.next]
        | _ => rw [hp] at hub; exact absurd rfl hub
      · rfl
    | _ => rw [hty] at hub; exact bValidate_sim he key cl hx hub
  | .base _, .removed _, h, _ | .base _, .delta .., h, _ | .removed _, .base _, h, _
  | .removed _, .delta .., h, _ | .delta .., .base _, h, _ | .delta .., .removed _, h, _ => h.elim

/-- The outcome on bytes belongs to the outcome of the model. -/
def MImg (P : FPar) (e : Enc K V) : MRes K V → BMRes → Prop
  | .found, .found => True
  | .abort, .abort => True
  | .sibling p, .sibling q => p = q
  | .removed, .removed => True
  | .base n kf sf, .base nd kf' sf' => NImg P e n nd ∧ kf = kf' ∧ sf = sf'
  | .ub, _ => True
  | _, _ => False

theorem bSearchForMerge_sim (he : FEncOK cfg P e) (key : K) (sib : Option K) :
    ∀ {ch : Chain K V} {b : BChain} (_ : CImg P e ch b) (smo kf sf : Bool),
    MImg P e (dcSearchForMerge key sib smo kf sf ch)
      (bSearchForMerge P.lt (e.key key) (sib.map e.key) smo kf sf b)
  | .base n, .base nd, h, smo, kf, sf => by
    have h' : NImg P e n nd := h
    have hh := highGE_sim he (r := nd.asRec) h'.high key false
    have hk := lowIsKey_sim he h' key
    simp only [dcSearchForMerge, bSearchForMerge, hk, hh]
    split
    · trivial
    · split
      · exact h'.next.symm
      · exact ⟨h', rfl, rfl⟩
  | .removed _, .removed _, _, _, _, _ => trivial
  | .delta d nx, .delta ty r ref b, h, smo, kf, sf => by
    obtain ⟨hd, hn, hw, hx⟩ := h
    have hs := sameKey_sim he hd.key key
    have ho := sameKeyOpt_sim he hd.key sib
    have hl := lowLE_sim he hd.key key true
    have hh := highGE_sim he hd.high key false
    simp only [dcSearchForMerge, bSearchForMerge, hd.ty, hs, ho, hl, hh]
    cases hty : d.ty with
    | insert =>
      simp only
      split
      · trivial
      · split
        · trivial
        · exact bSearchForMerge_sim he key sib hx smo _ _
    | modify => trivial
    | delete =>
      simp only
      split
      · trivial
      · split
        · trivial
        · exact bSearchForMerge_sim he key sib hx smo _ _
    | merge =>
      simp only
      split
      · cases hp : d.pay with
        | node n =>
          obtain ⟨nd, rfl, hnp⟩ := hn n hp
          simp only
          split
          · exact hnp.next.symm
          · exact ⟨hnp, rfl, rfl⟩
        | _ => trivial
      · split
        · trivial
        · exact bSearchForMerge_sim he key sib hx true _ _
  | .base _, .removed _, h, _, _, _ | .base _, .delta .., h, _, _, _
  | .removed _, .base _, h, _, _, _ | .removed _, .delta .., h, _, _, _
  | .delta .., .base _, h, _, _, _ | .delta .., .removed _, h, _, _, _ => h.elim

theorem bMergeCheck_sim (he : FEncOK cfg P e) (key : K) (sib : Option K)
    {ch : Chain K V} {b : BChain} (h : CImg P e ch b) (hub : mergeCheck key sib ch ≠ .ub) :
    bMergeCheck P (e.key key) (sib.map e.key) b = mergeCheck key sib ch := by
  have h1 := bSearchForMerge_sim he key sib h false false sib.isNone
  unfold mergeCheck at hub ⊢
  unfold bMergeCheck
  rw [Option.isNone_map]
  cases hr : dcSearchForMerge key sib false false sib.isNone ch with
  | ub => rw [hr] at hub; exact absurd rfl hub
  | base n kf sf =>
    rw [hr] at h1 hub
    cases hq : bSearchForMerge P.lt (e.key key) (sib.map e.key) false false sib.isNone b with
    | base nd kf' sf' =>
      rw [hq] at h1
      obtain ⟨hn, rfl, rfl⟩ := h1
      simp only [nodeHas, searchRecord_sim he hn key] at hub ⊢
      cases hk : (if kf = true then some true else (n.searchRecord key).map Prod.fst) with
      | none => rfl
      | some kf' =>
        rw [hk] at hub
        cases sf with
        | true => rfl
        | false =>
          cases sib with
          | none => exact absurd rfl hub
          | some s =>
            simp only [Option.map_some, searchRecord_sim he hn s] at hub ⊢
            cases hs : n.searchRecord s with
            | none => rw [hs] at hub; exact absurd rfl hub
            | some x => rfl
    | _ => rw [hq] at h1; exact h1.elim
  | sibling p =>
    rw [hr] at h1
    cases hq : bSearchForMerge P.lt (e.key key) (sib.map e.key) false false sib.isNone b with
    | sibling q => rw [hq] at h1; cases (show p = q from h1); rfl
    | _ => rw [hq] at h1; exact h1.elim
  | _ =>
    rw [hr] at h1
    cases hq : bSearchForMerge P.lt (e.key key) (sib.map e.key) false false sib.isNone b <;>
      rw [hq] at h1 <;> first | exact h1.elim | rfl

theorem leftmostChild_sim (he : FEncOK cfg P e) : ∀ {ch : Chain K V} {b : BChain}
    (_ : CImg P e ch b) {p : PID}, ch.leftmostChild = some p →
      b.leftmostChild P.c P.pid = some (e.pid p)
  | .base n, .base nd, h, p, hp => by
    have h' : NImg P e n nd := h
    simp only [Chain.leftmostChild] at hp
    split at hp
    · rename_i k q l hl
      cases hp
      have hi : 0 < n.recs.length := by rw [hl]; simp
      have hx : n.recs[0] = (k, .child p) := by simp [hl]
      have := he.pid p
      simp only [BChain.leftmostChild, h'.cnt]
      rw [if_neg (by omega), h'.payAt hi (plen := P.pid) (by
        rw [hx]; show (e.pid p).length = _; omega), hx]
      rfl
    · cases hp
  | .removed _, .removed _, _, _, hp => by cases hp
  | .delta d nx, .delta ty r ref b, h, p, hp => leftmostChild_sim he h.2.2.2 hp
  | .base _, .removed _, h, _, _ | .base _, .delta .., h, _, _ | .removed _, .base _, h, _, _
  | .removed _, .delta .., h, _, _ | .delta .., .base _, h, _, _
  | .delta .., .removed _, h, _, _ => h.elim

/-! ## Scans -/

theorem isRightmostOf_sim (he : FEncOK cfg P e) {n : Node K V} {nd : FNode} (h : NImg P e n nd)
    (b : Spec.Bound K) : nd.isRightmostOf P.lt (e.bound b) = n.isRightmostOf b := by
  have hh := h.high
  unfold FNode.isRightmostOf Node.isRightmostOf
  rw [hh.1]
  cases hn : n.high with
  | none => rfl
  | some k =>
    rw [hh.2 k hn]
    cases b with
    | none => rfl
    | some x =>
      obtain ⟨k', cl⟩ := x
      simp [Layout.Enc.bound, Option.map_some, he.lt]

theorem endPos_sim (he : FEncOK cfg P e) {n : Node K V} {nd : FNode} (h : NImg P e n nd)
    (b : Spec.Bound K) : nd.endPos P.lt P.c (e.bound b) = n.endPos b := by
  unfold FNode.endPos Node.endPos
  rw [isRightmostOf_sim he h b]
  cases b with
  | none =>
    have := h.cnt
    cases n.isRightmostOf none <;> simp [Layout.Enc.bound, this]
  | some x =>
    obtain ⟨k', cl⟩ := x
    have := h.cnt
    cases n.isRightmostOf (some (k', cl)) <;>
      simp [Layout.Enc.bound, this, searchRecord_sim he h k']

theorem beginPos_sim (he : FEncOK cfg P e) {n : Node K V} {nd : FNode} (h : NImg P e n nd)
    (b : Spec.Bound K) : nd.beginPos P.lt P.c (e.bound b) = n.beginPos b := by
  unfold FNode.beginPos Node.beginPos
  cases b with
  | none => rfl
  | some x =>
    obtain ⟨k', cl⟩ := x
    simp [Layout.Enc.bound, searchRecord_sim he h k']

theorem bScanOut_sim (he : FEncOK cfg P e) (hc : CfgOK cfg) {inner : Bool} {low : Option K}
    {ch : Chain K V} {b : BChain} (hw : ChainWF cfg inner low ch) (h : CImg P e ch b) (old : Mem)
    (hfit : ch.size ≤ 2 * cfg.page) {bb eb : Spec.Bound K}
    {x : List (K × V) × Option (K × PID)} (hs : scanOut cfg bb eb ch = some x) :
    bScanOut P P.pay old (e.bound bb) (e.bound eb) b =
      some (e.scan x) := by
  unfold scanOut at hs
  cases hn : scanNode cfg ch with
  | none => rw [hn] at hs; cases hs
  | some n =>
  rw [hn] at hs
  have hspec := (tryConsolidate_spec hc hw true).1 rfl
  have hnn : n = consNode inner ch (2 * cfg.page) := by
    unfold scanNode at hn
    rw [hspec] at hn
    exact (Option.some.inj hn).symm
  have ht : tryConsolidate cfg true ch = some (.consolidate n) := by rw [hspec, hnn]
  have hwn := (consNode_wf hw).1.2.2
  have hkind : ∀ x ∈ n.recs, PayOK n.inner x.2 := by rw [hnn]; exact hwn.kind
  have hne : n.inner = true → n.recs ≠ [] := by
    rw [hnn]
    intro h1
    obtain ⟨r, rs, h2, _⟩ := hwn.first h1
    intro h3
    have h4 : (consNode inner ch ch.size).recs = [] := h3
    rw [h2] at h4
    cases h4
  obtain ⟨bs, hbs, himg, _⟩ := bTryConsolidate_sim he hc hw h old old true (fun _ => hfit)
    (by rw [ht]; intro l r hx; cases hx) ht
  unfold bScanOut
  rw [hbs]
  cases bs with
  | two l r => exact himg.elim
  | one m nd =>
    cases m with
    | true => exact himg.elim
    | false =>
      have hp : NImg P e n nd := himg
      simp only [beginPos_sim he hp, endPos_sim he hp] at hs ⊢
      cases h1 : n.beginPos bb with
      | none => rw [h1] at hs; cases hs
      | some bp =>
        cases h2 : n.endPos eb with
        | none => rw [h1, h2] at hs; cases hs
        | some y =>
          obtain ⟨isEnd, ep⟩ := y
          rw [h1, h2] at hs
          have hle : ep ≤ n.recs.length := endPos_le hne h2
          simp only at hs ⊢
          cases h3 : payloads ((n.recs.take ep).drop bp) with
          | none => rw [h3] at hs; cases hs
          | some o =>
            rw [h3] at hs
            cases hs
            rw [if_neg (by rw [hp.cnt]; omega)]
            have hrecs := payloads_get h3
            have hvs : ∀ i, bp ≤ i → i < ep → ∀ hi : i < n.recs.length, ∃ v, (n.recs[i]).2 = .val v := by
              intro i hb1 hb2 hi
              have hm : n.recs[i] ∈ (n.recs.take ep).drop bp := by
                rw [List.mem_iff_getElem]
                refine ⟨i - bp, by simp; omega, ?_⟩
                simp only [List.getElem_drop, List.getElem_take]
                congr 1; omega
              rw [hrecs] at hm
              obtain ⟨y, _, hy⟩ := List.mem_map.1 hm
              exact ⟨y.2, by rw [← hy]⟩
            have hl : (List.range' bp (ep - bp)).map
                (fun i => (nd.pg.key P.c i, nd.pg.pay P.c P.pay i)) =
                ((n.recs.take ep).drop bp).map fun r => (e.key r.1, e.pay r.2) := by
              refine slice_eq hle ?_
              intro i hb1 hb2 hi
              obtain ⟨v, hv⟩ := hvs i hb1 hb2 hi
              have := he.val v
              have hni : n.inner = false := by
                have hk := hkind _ (List.getElem_mem hi)
                rw [hv] at hk
                cases hni : n.inner with
                | false => rfl
                | true => rw [hni] at hk; obtain ⟨_, hk⟩ := hk; cases hk
              rw [hp.keyAt hi (by rw [hni]; simp), hp.payAt hi (by
                rw [hv]; show (e.val v).length = _; omega)]
            rw [hl, hrecs, List.map_map]
            have hnext : (if isEnd = true then none else some (nd.high, nd.next)) =
                (if isEnd = true then none else n.high.map fun h => (h, n.next)).map
                  fun y : K × PID => (e.key y.1, y.2) := by
              cases isEnd with
              | true => rfl
              | false =>
                have hr : n.isRightmostOf eb = false := by
                  unfold Node.endPos at h2
                  split at h2
                  · rename_i k cl _
                    cases hq : n.searchRecord k <;> rw [hq] at h2 <;> cases h2
                  · simp only [Option.some.injEq, Prod.mk.injEq] at h2
                    exact h2.1
                cases hh : n.high with
                | none => simp [Node.isRightmostOf, hh] at hr
                | some k =>
                  have h4 := hp.high
                  rw [hh] at h4
                  have h5 : nd.high = e.key k := h4.2 k rfl
                  simp [h5, hp.next]
            rw [hnext]
            rfl

end BwTree.Fix
