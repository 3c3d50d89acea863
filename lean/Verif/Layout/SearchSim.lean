import Verif.Layout.Search
import Verif.Layout.Cons
import Verif.Tree.KeyBuffer
import Verif.Tree.Scan

/-!
# Searches on bytes give what the searches of the model give (proofs)
-/

namespace BwTree.Layout

open Util (Metadata)

variable {K V : Type} [LinearOrder K] {cfg : Cfg K} {c : VCfg} {lt : List UInt8 → List UInt8 → Bool}
  {e : Enc K V}

set_option linter.unusedSectionVars false

/-! ## Comparisons -/

theorem bound_of {mem : Mem} {m : Metadata} (he : EncOK cfg c lt e) {h : Option K}
    (hr : RecAt mem m (e.opt h) []) :
    (if m.keyLen.toNat = 0 then none else some (mem.read m.offset.toNat m.keyLen.toNat)) =
      h.map e.key := by
  cases h with
  | none =>
    have h1 : m.keyLen.toNat = 0 := hr.1
    rw [if_pos h1]; rfl
  | some k =>
    have h1 : m.keyLen.toNat = (e.key k).length := hr.1
    have := he.pos k
    rw [if_neg (by omega), hr.key]; rfl

theorem highKey_eq (he : EncOK cfg c lt e) {r : VRec} {h : Option K}
    (hr : RecAt r.mem r.high (e.opt h) []) : r.highKey = h.map e.key := bound_of he hr

theorem sameKey_sim (he : EncOK cfg c lt e) {r : VRec} {a : K} (hr : r.key = e.key a) (key : K) :
    r.sameKey lt (e.key key) = sameKey a key := by
  simp only [VRec.sameKey, sameKey, hr, he.lt]

theorem sameKeyOpt_sim (he : EncOK cfg c lt e) {r : VRec} {a : K} (hr : r.key = e.key a)
    (key : Option K) : r.sameKeyOpt lt (key.map e.key) = sameKeyOpt a key := by
  cases key with
  | none => rfl
  | some k => exact sameKey_sim he hr k

theorem lowLE_sim (he : EncOK cfg c lt e) {r : VRec} {a : K} (hr : r.key = e.key a) (key : K)
    (cl : Bool) : r.lowLE lt (e.key key) cl = lowKeyIsLE a key cl := by
  simp only [VRec.lowLE, lowKeyIsLE, hr, he.lt]

theorem highGE_sim (he : EncOK cfg c lt e) {r : VRec} {h : Option K}
    (hr : RecAt r.mem r.high (e.opt h) []) (key : K) (cl : Bool) :
    r.highGE lt (e.key key) cl = highKeyIsGE h key cl := by
  simp only [VRec.highGE, highKey_eq he hr]
  cases h with
  | none => rfl
  | some k => simp only [Option.map_some, highKeyIsGE, he.lt]

theorem loadHigh_sim (he : EncOK cfg c lt e) {r : VRec} {h : Option K}
    (hr : RecAt r.mem r.high (e.opt h) []) (buf : Option K) :
    r.loadHigh (buf.map e.key) = (loadHigh h buf).map e.key := by
  simp only [VRec.loadHigh, highKey_eq he hr]
  cases h <;> rfl

theorem lowIsKey_sim (he : EncOK cfg c lt e) {n : Node K V} {pg : VPage} (h : NImg c e n pg)
    (key : K) : (!decide (pg.low.keyLen.toNat = 0) && pg.asRec.sameKey lt (e.key key)) =
      lowIsKey n.low key := by
  have hl := h.low
  cases hn : n.low with
  | none =>
    rw [hn] at hl
    have h1 : pg.low.keyLen.toNat = 0 := hl.1
    simp [h1, lowIsKey]
  | some k =>
    rw [hn] at hl
    have h1 : pg.low.keyLen.toNat = (e.key k).length := hl.1
    have := he.pos k
    have h2 : decide (pg.low.keyLen.toNat = 0) = false := decide_eq_false (by omega)
    rw [h2]
    have h3 : pg.asRec.key = e.key k := hl.key
    simp only [Bool.not_false, Bool.true_and, lowIsKey]
    exact sameKey_sim he h3 key

/-! ## In a node -/

theorem vbsLoop_sim (he : EncOK cfg c lt e) {n : Node K V} {pg : VPage} (h : NImg c e n pg)
    (key : K) {b0 : Nat} (hb0 : n.inner = true → n.low = none → 1 ≤ b0) :
    ∀ (f b x : Nat), b0 ≤ b → vbsLoop lt c pg (e.key key) f b x = bsLoop n.recs key f b x
  | 0, b, x, _ => rfl
  | f + 1, b, x, hb => by
    simp only [vbsLoop, bsLoop]
    by_cases hbx : b < x
    · rw [if_pos hbx, if_pos hbx]
      have hpos : b ≤ (b + x - 1) / 2 := by omega
      by_cases hp : (b + x - 1) / 2 < n.recs.length
      · have hk := h.keyAt hp (by
          rintro ⟨h1, h2, h3⟩
          have := hb0 h1 h2
          omega)
        rw [if_neg (by rw [h.cnt]; omega), List.getElem?_eq_getElem hp, hk]
        simp only [he.lt, decide_eq_true_eq]
        rw [vbsLoop_sim he h key hb0 f b _ hb, vbsLoop_sim he h key hb0 f _ x (by omega)]
      · rw [if_pos (by rw [h.cnt]; omega), List.getElem?_eq_none (by omega)]
    · rw [if_neg hbx, if_neg hbx]

theorem searchRecord_sim (he : EncOK cfg c lt e) {n : Node K V} {pg : VPage} (h : NImg c e n pg)
    (key : K) : pg.searchRecord lt c (e.key key) = n.searchRecord key := by
  unfold VPage.searchRecord Node.searchRecord
  rw [h.leftmost he, h.cnt]
  refine vbsLoop_sim he h key ?_ _ _ _ (Nat.le_refl _)
  intro h1 h2
  simp [h1, h2]

/-- A found position is a record. -/
theorem bsLoop_lt {α : Type} {recs : List (K × α)} {key : K} : ∀ {f b x : Nat} {r : Bool × Nat},
    bsLoop recs key f b x = some r → r.1 = true → r.2 < recs.length
  | 0, b, x, r, h, hr => by
    simp only [bsLoop] at h
    split at h <;> cases h
    exact absurd hr (by simp)
  | f + 1, b, x, r, h, hr => by
    simp only [bsLoop] at h
    split at h
    · split at h
      · cases h
      · rename_i ik y hg
        split at h
        · exact bsLoop_lt h hr
        · split at h
          · exact bsLoop_lt h hr
          · cases h
            exact (List.getElem?_eq_some_iff.1 hg).1
    · cases h
      exact absurd hr (by simp)

theorem NImg.payAt {n : Node K V} {pg : VPage} (h : NImg c e n pg) {i : Nat}
    (hi : i < n.recs.length) {plen : Nat} (hp : (e.pay (n.recs[i]).2).length = plen) :
    pg.pay c plen i = e.pay (n.recs[i]).2 := by
  have := (h.recs i hi).pay
  rw [hp] at this
  exact this

theorem searchChild_sim (he : EncOK cfg c lt e) {n : Node K V} {pg : VPage} (h : NImg c e n pg)
    (key : K) (cl : Bool) {p : PID} (hs : n.searchChild key cl = some p) :
    pg.searchChild lt c (cfg.idxLen - 8) (e.key key) cl = some (e.pid p) := by
  unfold Node.searchChild at hs
  unfold VPage.searchChild
  rw [h.cnt, vbsLoop_sim he h key (b0 := 1) (fun _ _ => Nat.le_refl _) _ _ _ (Nat.le_refl _)]
  cases hb : bsLoop n.recs key n.recs.length 1 n.recs.length with
  | none => rw [hb] at hs; cases hs
  | some r =>
    obtain ⟨f, pos⟩ := r
    rw [hb] at hs
    simp only at hs ⊢
    split at hs
    · rename_i k q hg
      cases hs
      obtain ⟨hi, hq⟩ := List.getElem?_eq_some_iff.1 hg
      rw [if_pos hi]
      have hpl : (e.pay (n.recs[(if f then pos + (if cl then 1 else 0) else pos) - 1]).2).length =
          cfg.idxLen - 8 := by
        rw [hq]
        have := he.pid p
        show (e.pid p).length = _
        omega
      rw [h.payAt hi hpl, hq]; rfl
    · cases hs

/-! ## In a chain -/

/-- The outcome on bytes belongs to the outcome of the model. -/
def RImg (c : VCfg) (e : Enc K V) : SRes K V → BSRes → Prop
  | .found p, .found b => ∀ v, p = .val v → b = e.val v
  | .notFound, .notFound => True
  | .sibling p, .sibling q => p = q
  | .removed, .removed => True
  | .base n, .base pg => NImg c e n pg
  | .ub, _ => True
  | _, _ => False

theorem bSearchRecord_sim (he : EncOK cfg c lt e) (key : K) : ∀ {ch : Chain K V} {b : BChain}
    (_ : CImg c e ch b) (smo : Bool), RImg c e (dcSearchRecord key smo ch)
      (bSearchRecord lt (cfg.leafLen - 8) (e.key key) smo b)
  | .base n, .base pg, h, smo => by
    have h' : NImg c e n pg := h
    have hh := highGE_sim he (r := pg.asRec) h'.high key false
    simp only [dcSearchRecord, bSearchRecord, hh]
    split
    · exact h'.next.symm
    · exact h'
  | .removed _, .removed _, _, _ => trivial
  | .delta d nx, .delta ty r nd b, h, smo => by
    obtain ⟨hd, hn, _, hx⟩ := h
    have hs := sameKey_sim he hd.key.2 key
    have hl := lowLE_sim he hd.key.2 key true
    have hh := highGE_sim he hd.high key false
    simp only [dcSearchRecord, bSearchRecord, hd.ty, hs, hl, hh]
    have hfound : d.ty ≠ .delete → RImg c e (.found d.pay : SRes K V)
        (.found (r.pay (cfg.leafLen - 8))) := by
      intro hne v hv
      have hr := hd.cell (d.key, .val v) hne (by simp [Delta.toRec, hv])
      have := hr.pay
      have hlen := he.val v
      show r.mem.read _ (cfg.leafLen - 8) = _
      rw [show cfg.leafLen - 8 = (e.val v).length by omega]
      exact this
    cases hty : d.ty with
    | insert =>
      simp only
      split
      · exact hfound (by simp [hty])
      · exact bSearchRecord_sim he key hx smo
    | modify =>
      simp only
      split
      · exact hfound (by simp [hty])
      · exact bSearchRecord_sim he key hx smo
    | delete =>
      simp only
      split
      · trivial
      · exact bSearchRecord_sim he key hx smo
    | merge =>
      simp only
      split
      · cases hp : d.pay with
        | node n =>
          obtain ⟨pg, rfl, hnp⟩ := hn n hp
          simp only
          split
          · exact hnp.next.symm
          · exact hnp
        | _ => trivial
      · exact bSearchRecord_sim he key hx true
  | .base _, .removed _, h, _ | .base _, .delta .., h, _ | .removed _, .base _, h, _
  | .removed _, .delta .., h, _ | .delta .., .base _, h, _ | .delta .., .removed _, h, _ => h.elim

/-- What `Read` returns, in bytes. -/
def Enc.rd (e : Enc K V) : RdRes V → BRd
  | .ret o => .ret (o.map e.val)
  | .sibling p => .sibling p
  | .removed => .removed
  | .ub => .ub

theorem bRead_sim (he : EncOK cfg c lt e) (key : K) {ch : Chain K V} {b : BChain}
    (h : CImg c e ch b) (hub : readChain key ch ≠ .ub) :
    bRead lt c (cfg.leafLen - 8) (e.key key) b = e.rd (readChain key ch) := by
  have hs := bSearchRecord_sim he key h false
  unfold readChain at hub ⊢
  unfold bRead
  cases hr : dcSearchRecord key false ch with
  | found p =>
    rw [hr] at hs hub
    cases hb : bSearchRecord lt (cfg.leafLen - 8) (e.key key) false b with
    | found q =>
      rw [hb] at hs
      cases p with
      | val v => rw [hs v rfl]; rfl
      | _ => exact absurd rfl hub
    | _ => rw [hb] at hs; exact hs.elim
  | notFound =>
    rw [hr] at hs
    cases hb : bSearchRecord lt (cfg.leafLen - 8) (e.key key) false b with
    | notFound => rfl
    | _ => rw [hb] at hs; exact hs.elim
  | sibling p =>
    rw [hr] at hs
    cases hb : bSearchRecord lt (cfg.leafLen - 8) (e.key key) false b with
    | sibling q => rw [hb] at hs; cases (show p = q from hs); rfl
    | _ => rw [hb] at hs; exact hs.elim
  | removed =>
    rw [hr] at hs
    cases hb : bSearchRecord lt (cfg.leafLen - 8) (e.key key) false b with
    | removed => rfl
    | _ => rw [hb] at hs; exact hs.elim
  | base n =>
    rw [hr] at hs hub
    cases hb : bSearchRecord lt (cfg.leafLen - 8) (e.key key) false b with
    | base pg =>
      rw [hb] at hs
      have hn : NImg c e n pg := hs
      simp only [searchRecord_sim he hn key]
      simp only at hub
      cases hsr : n.searchRecord key with
      | none => rw [hsr] at hub; exact absurd rfl hub
      | some r =>
        obtain ⟨f, pos⟩ := r
        rw [hsr] at hub
        cases f with
        | false => rfl
        | true =>
          have hi : pos < n.recs.length := bsLoop_lt hsr rfl
          simp only [payloadAt, List.getElem?_eq_getElem hi] at hub ⊢
          cases hx : n.recs[pos] with
          | mk k p =>
            rw [hx] at hub
            cases p with
            | child q => exact absurd rfl hub
            | val v =>
              have := he.val v
              rw [hn.payAt hi (plen := cfg.leafLen - 8) (by
                rw [hx]; show (e.val v).length = _; omega), hx]
              rfl
    | _ => rw [hb] at hs; exact hs.elim
  | ub => rw [hr] at hub; exact absurd rfl hub

theorem bKeyCheck_sim (he : EncOK cfg c lt e) (key : K) {ch : Chain K V} {b : BChain}
    (h : CImg c e ch b) (hub : keyCheck key ch ≠ .ub) :
    bKeyCheck lt c (cfg.leafLen - 8) (e.key key) b = keyCheck key ch := by
  have hs := bSearchRecord_sim he key h false
  unfold keyCheck at hub ⊢
  unfold bKeyCheck
  cases hr : dcSearchRecord key false ch with
  | ub => rw [hr] at hub; exact absurd rfl hub
  | base n =>
    rw [hr] at hs
    cases hb : bSearchRecord lt (cfg.leafLen - 8) (e.key key) false b with
    | base pg =>
      rw [hb] at hs
      have hn : NImg c e n pg := hs
      simp only [searchRecord_sim he hn key]
      cases n.searchRecord key <;> rfl
    | _ => rw [hb] at hs; exact hs.elim
  | sibling p =>
    rw [hr] at hs
    cases hb : bSearchRecord lt (cfg.leafLen - 8) (e.key key) false b with
    | sibling q => rw [hb] at hs; cases (show p = q from hs); rfl
    | _ => rw [hb] at hs; exact hs.elim
  | _ =>
    rw [hr] at hs
    cases hb : bSearchRecord lt (cfg.leafLen - 8) (e.key key) false b <;> rw [hb] at hs <;>
      exact hs.elim

/-- The outcome on bytes belongs to the outcome of the model. -/
def HImg (c : VCfg) (e : Enc K V) : CRes K V → BCRes → Prop
  | .child p, .child b => b = e.pid p
  | .cell w, .cell w' => w = w'
  | .sibling p, .sibling q => p = q
  | .removed, .removed => True
  | .base n, .base pg => NImg c e n pg
  | .ub, _ => True
  | _, _ => False

theorem bSearchChild_sim (he : EncOK cfg c lt e) (key : K) (cl : Bool) : ∀ {ch : Chain K V}
    {b : BChain} (_ : CImg c e ch b) (smo : Bool), HImg c e (dcSearchChild key cl smo ch)
      (bSearchChild lt (cfg.idxLen - 8) (e.key key) cl smo b)
  | .base n, .base pg, h, smo => by
    have h' : NImg c e n pg := h
    have hh := highGE_sim he (r := pg.asRec) h'.high key (!cl)
    simp only [dcSearchChild, bSearchChild, hh]
    split
    · exact h'.next.symm
    · exact h'
  | .removed _, .removed _, _, _ => trivial
  | .delta d nx, .delta ty r nd b, h, smo => by
    obtain ⟨hd, hn, hw, hx⟩ := h
    have hl := lowLE_sim he hd.key.2 key cl
    have hh := highGE_sim he hd.high key (!cl)
    simp only [dcSearchChild, bSearchChild, hd.ty, hl, hh]
    cases hty : d.ty with
    | insert =>
      simp only
      split
      · cases hp : d.pay with
        | child p =>
          have hr := hd.cell (d.key, .child p) (by simp [hty]) (by simp [Delta.toRec, hp])
          have := hr.pay
          have hlen := he.pid p
          show r.mem.read _ (cfg.idxLen - 8) = _
          rw [show cfg.idxLen - 8 = (e.pid p).length by omega]
          exact this
        | _ => trivial
      · exact bSearchChild_sim he key cl hx smo
    | modify => trivial
    | delete =>
      simp only
      split
      · cases hp : d.pay with
        | cell w => rw [hw w hp]; rfl
        | _ => trivial
      · exact bSearchChild_sim he key cl hx smo
    | merge =>
      simp only
      split
      · cases hp : d.pay with
        | node n =>
          obtain ⟨pg, rfl, hnp⟩ := hn n hp
          simp only
          split
          · exact hnp.next.symm
          · exact hnp
        | _ => trivial
      · exact bSearchChild_sim he key cl hx true
  | .base _, .removed _, h, _ | .base _, .delta .., h, _ | .removed _, .base _, h, _
  | .removed _, .delta .., h, _ | .delta .., .base _, h, _ | .delta .., .removed _, h, _ => h.elim

/-- Where `SearchChildNode` goes, in bytes. -/
def Enc.ch (e : Enc K V) : ChRes → BCh
  | .child p => .child (e.pid p)
  | .cell w => .cell w
  | .sibling p => .sibling p
  | .removed => .removed
  | .ub => .ub

theorem bChildStep_sim (he : EncOK cfg c lt e) (key : K) (cl : Bool) {ch : Chain K V} {b : BChain}
    (h : CImg c e ch b) (hub : childStep key cl ch ≠ .ub) :
    bChildStep lt c (cfg.idxLen - 8) (e.key key) cl b = e.ch (childStep key cl ch) := by
  have hs := bSearchChild_sim he key cl h false
  unfold childStep at hub ⊢
  unfold bChildStep
  cases hr : dcSearchChild key cl false ch with
  | ub => rw [hr] at hub; exact absurd rfl hub
  | base n =>
    rw [hr] at hs hub
    cases hb : bSearchChild lt (cfg.idxLen - 8) (e.key key) cl false b with
    | base pg =>
      rw [hb] at hs
      have hn : NImg c e n pg := hs
      simp only at hub ⊢
      cases hsc : n.searchChild key cl with
      | none => rw [hsc] at hub; exact absurd rfl hub
      | some p => rw [searchChild_sim he hn key cl hsc]; rfl
    | _ => rw [hb] at hs; exact hs.elim
  | child p =>
    rw [hr] at hs
    cases hb : bSearchChild lt (cfg.idxLen - 8) (e.key key) cl false b with
    | child q => rw [hb] at hs; cases (show q = e.pid p from hs); rfl
    | _ => rw [hb] at hs; exact hs.elim
  | cell p =>
    rw [hr] at hs
    cases hb : bSearchChild lt (cfg.idxLen - 8) (e.key key) cl false b with
    | cell q => rw [hb] at hs; cases (show p = q from hs); rfl
    | _ => rw [hb] at hs; exact hs.elim
  | sibling p =>
    rw [hr] at hs
    cases hb : bSearchChild lt (cfg.idxLen - 8) (e.key key) cl false b with
    | sibling q => rw [hb] at hs; cases (show p = q from hs); rfl
    | _ => rw [hb] at hs; exact hs.elim
  | removed =>
    rw [hr] at hs
    cases hb : bSearchChild lt (cfg.idxLen - 8) (e.key key) cl false b with
    | removed => rfl
    | _ => rw [hb] at hs; exact hs.elim

theorem bValidate_sim (he : EncOK cfg c lt e) (key : K) (cl : Bool) : ∀ {ch : Chain K V} {b : BChain}
    (_ : CImg c e ch b), dcValidate key cl ch ≠ .ub →
      bValidate lt (e.key key) cl b = dcValidate key cl ch
  | .base n, .base pg, h, _ => by
    have h' : NImg c e n pg := h
    have hh := highGE_sim he (r := pg.asRec) h'.high key (!cl)
    simp only [dcValidate, bValidate, hh, h'.next]
  | .removed _, .removed _, _, _ => rfl
  | .delta d nx, .delta ty r nd b, h, hub => by
    obtain ⟨hd, hn, _, hx⟩ := h
    have hh := highGE_sim he hd.high key (!cl)
    simp only [dcValidate] at hub
    simp only [dcValidate, bValidate, hd.ty, hh]
    cases hty : d.ty with
    | merge =>
      rw [hty] at hub
      simp only at hub ⊢
      split
      · rename_i hc
        rw [if_pos hc] at hub
        cases hp : d.pay with
        | node n =>
          obtain ⟨pg, rfl, hnp⟩ := hn n hp
          simp only [hnp.next]
        | _ => rw [hp] at hub; exact absurd rfl hub
      · rfl
    | _ => rw [hty] at hub; exact bValidate_sim he key cl hx hub
  | .base _, .removed _, h, _ | .base _, .delta .., h, _ | .removed _, .base _, h, _
  | .removed _, .delta .., h, _ | .delta .., .base _, h, _ | .delta .., .removed _, h, _ => h.elim

/-- The outcome on bytes belongs to the outcome of the model. -/
def MImg (c : VCfg) (e : Enc K V) : MRes K V → BMRes → Prop
  | .found, .found => True
  | .abort, .abort => True
  | .sibling p, .sibling q => p = q
  | .removed, .removed => True
  | .base n kf sf, .base pg kf' sf' => NImg c e n pg ∧ kf = kf' ∧ sf = sf'
  | .ub, _ => True
  | _, _ => False

theorem bSearchForMerge_sim (he : EncOK cfg c lt e) (key : K) : ∀ {ch : Chain K V} {b : BChain}
    (_ : CImg c e ch b) (buf : Option K) (smo kf sf : Bool),
    MImg c e (dcSearchForMergeB key buf smo kf sf ch).1
        (bSearchForMerge lt (e.key key) (buf.map e.key) smo kf sf b).1 ∧
      ((dcSearchForMergeB key buf smo kf sf ch).1 ≠ .ub →
        (bSearchForMerge lt (e.key key) (buf.map e.key) smo kf sf b).2 =
          ((dcSearchForMergeB key buf smo kf sf ch).2).map e.key)
  | .base n, .base pg, h, buf, smo, kf, sf => by
    have h' : NImg c e n pg := h
    have hh := highGE_sim he (r := pg.asRec) h'.high key false
    have hl := loadHigh_sim he (r := pg.asRec) h'.high buf
    have hk := lowIsKey_sim he h' key
    simp only [dcSearchForMergeB, bSearchForMerge, Bool.and_assoc, hk, hh, hl]
    split
    · exact ⟨trivial, fun _ => rfl⟩
    · split
      · split
        · exact ⟨h'.next.symm, fun _ => rfl⟩
        · exact ⟨⟨h', rfl, rfl⟩, fun _ => rfl⟩
      · exact ⟨⟨h', rfl, rfl⟩, fun _ => rfl⟩
  | .removed _, .removed _, _, _, _, _, _ => ⟨trivial, fun _ => rfl⟩
  | .delta d nx, .delta ty r nd b, h, buf, smo, kf, sf => by
    obtain ⟨hd, hn, hw, hx⟩ := h
    have hs := sameKey_sim he hd.key.2 key
    have ho := sameKeyOpt_sim he hd.key.2 buf
    have hl := lowLE_sim he hd.key.2 key true
    have hh := highGE_sim he hd.high key false
    have hb := loadHigh_sim he hd.high buf
    simp only [dcSearchForMergeB, bSearchForMerge, hd.ty, hs, ho, hl, hh, hb]
    cases hty : d.ty with
    | insert =>
      simp only
      split
      · exact ⟨trivial, fun _ => rfl⟩
      · split
        · exact ⟨trivial, fun _ => rfl⟩
        · exact bSearchForMerge_sim he key hx buf smo _ _
    | modify => exact ⟨trivial, fun h => absurd rfl h⟩
    | delete =>
      simp only
      split
      · exact ⟨trivial, fun _ => rfl⟩
      · split
        · exact ⟨trivial, fun _ => rfl⟩
        · exact bSearchForMerge_sim he key hx buf smo _ _
    | merge =>
      simp only
      split
      · cases hp : d.pay with
        | node n =>
          obtain ⟨pg, rfl, hnp⟩ := hn n hp
          simp only
          split
          · split
            · exact ⟨hnp.next.symm, fun _ => rfl⟩
            · exact ⟨⟨hnp, rfl, rfl⟩, fun _ => rfl⟩
          · exact ⟨⟨hnp, rfl, rfl⟩, fun _ => rfl⟩
        | _ => exact ⟨trivial, fun h => absurd rfl h⟩
      · split
        · exact ⟨trivial, fun _ => rfl⟩
        · exact bSearchForMerge_sim he key hx buf true _ _
  | .base _, .removed _, h, _, _, _, _ | .base _, .delta .., h, _, _, _, _
  | .removed _, .base _, h, _, _, _, _ | .removed _, .delta .., h, _, _, _, _
  | .delta .., .base _, h, _, _, _, _ | .delta .., .removed _, h, _, _, _, _ => h.elim

theorem bMergeCheck_sim (he : EncOK cfg c lt e) (key : K) (has : Bool) (buf : Option K)
    {ch : Chain K V} {b : BChain} (h : CImg c e ch b)
    (hub : (mergeCheckB key has buf ch).1 ≠ .ub) :
    bMergeCheck lt c (e.key key) has (buf.map e.key) b =
      ((mergeCheckB key has buf ch).1, ((mergeCheckB key has buf ch).2).map e.key) := by
  obtain ⟨h1, h2⟩ := bSearchForMerge_sim he key h buf false false (!has)
  unfold mergeCheckB at hub ⊢
  unfold bMergeCheck
  cases hr : dcSearchForMergeB key buf false false (!has) ch with
  | mk r bf =>
  cases hq : bSearchForMerge lt (e.key key) (buf.map e.key) false false (!has) b with
  | mk q bq =>
  rw [hr] at h1 h2 hub
  rw [hq] at h1 h2
  simp only at h1 h2
  cases r with
  | ub => exact absurd rfl hub
  | base n kf sf =>
    cases q with
    | base pg kf' sf' =>
      obtain ⟨hn, rfl, rfl⟩ := h1
      rw [h2 (by simp)]
      simp only [nodeHas, searchRecord_sim he hn key] at hub ⊢
      cases hk : (if kf = true then some true else (n.searchRecord key).map Prod.fst) with
      | none => rfl
      | some kf' =>
        rw [hk] at hub
        cases sf with
        | true => rfl
        | false =>
          cases bf with
          | none => exact absurd rfl hub
          | some s =>
            simp only [Option.map_some, searchRecord_sim he hn s] at hub ⊢
            cases hs : n.searchRecord s with
            | none => rw [hs] at hub; exact absurd rfl hub
            | some x => rfl
    | _ => exact h1.elim
  | sibling p =>
    rw [h2 (by simp)]
    cases q with
    | sibling q => cases (show p = q from h1); rfl
    | _ => exact h1.elim
  | _ =>
    rw [h2 (by simp)]
    cases q <;> first | exact h1.elim | rfl

theorem leftmostChild_sim (he : EncOK cfg c lt e) : ∀ {ch : Chain K V} {b : BChain}
    (_ : CImg c e ch b) {p : PID}, ch.leftmostChild = some p →
      b.leftmostChild c (cfg.idxLen - 8) = some (e.pid p)
  | .base n, .base pg, h, p, hp => by
    have h' : NImg c e n pg := h
    simp only [Chain.leftmostChild] at hp
    split at hp
    · rename_i k q l hl
      cases hp
      have hi : 0 < n.recs.length := by rw [hl]; simp
      have hx : n.recs[0] = (k, .child p) := by simp [hl]
      have := he.pid p
      simp only [BChain.leftmostChild, h'.cnt]
      rw [if_neg (by omega), h'.payAt hi (plen := cfg.idxLen - 8) (by
        rw [hx]; show (e.pid p).length = _; omega), hx]
      rfl
    · cases hp
  | .removed _, .removed _, _, _, hp => by cases hp
  | .delta d nx, .delta ty r nd b, h, p, hp => leftmostChild_sim he h.2.2.2 hp
  | .base _, .removed _, h, _, _ | .base _, .delta .., h, _, _ | .removed _, .base _, h, _, _
  | .removed _, .delta .., h, _, _ | .delta .., .base _, h, _, _
  | .delta .., .removed _, h, _, _ => h.elim

/-! ## Scans -/

/-- A bound in bytes. -/
def Enc.bound (e : Enc K V) : Spec.Bound K → BBound := Option.map fun x => (e.key x.1, x.2)

theorem isRightmostOf_sim (he : EncOK cfg c lt e) {n : Node K V} {pg : VPage} (h : NImg c e n pg)
    (b : Spec.Bound K) : pg.isRightmostOf lt (e.bound b) = n.isRightmostOf b := by
  have hh := h.high
  unfold VPage.isRightmostOf Node.isRightmostOf
  cases hn : n.high with
  | none =>
    rw [hn] at hh
    have : pg.high.keyLen.toNat = 0 := hh.1
    rw [if_pos this]
  | some k =>
    rw [hn] at hh
    have h1 : pg.high.keyLen.toNat = (e.key k).length := hh.1
    have h2 : pg.border pg.high = e.key k := hh.key
    have := he.pos k
    rw [if_neg (by omega), h2]
    cases b with
    | none => rfl
    | some x =>
      obtain ⟨k', cl⟩ := x
      simp only [Enc.bound, Option.map_some, he.lt]

theorem endPos_sim (he : EncOK cfg c lt e) {n : Node K V} {pg : VPage} (h : NImg c e n pg)
    (b : Spec.Bound K) : pg.endPos lt c (e.bound b) = n.endPos b := by
  unfold VPage.endPos Node.endPos
  rw [isRightmostOf_sim he h b]
  cases b with
  | none =>
    have := h.cnt
    cases n.isRightmostOf none <;> simp [Enc.bound, this]
  | some x =>
    obtain ⟨k', cl⟩ := x
    have := h.cnt
    cases n.isRightmostOf (some (k', cl)) <;>
      simp [Enc.bound, this, searchRecord_sim he h k']

theorem beginPos_sim (he : EncOK cfg c lt e) {n : Node K V} {pg : VPage} (h : NImg c e n pg)
    (b : Spec.Bound K) : pg.beginPos lt c (e.bound b) = n.beginPos b := by
  unfold VPage.beginPos Node.beginPos
  cases b with
  | none => rfl
  | some x =>
    obtain ⟨k', cl⟩ := x
    simp [Enc.bound, searchRecord_sim he h k']

/-- The position found does not exceed the number of records, if the search started inside. -/
theorem bsLoop_le {α : Type} {recs : List (K × α)} {key : K} : ∀ {f b x : Nat} {r : Bool × Nat},
    b ≤ x → x ≤ recs.length → bsLoop recs key f b x = some r → r.2 ≤ recs.length
  | 0, b, x, r, hb, hx, h => by
    simp only [bsLoop] at h
    split at h <;> cases h
    simp only; omega
  | f + 1, b, x, r, hb, hx, h => by
    simp only [bsLoop] at h
    split at h
    · split at h
      · cases h
      · rename_i ik y hg
        have hp := (List.getElem?_eq_some_iff.1 hg).1
        split at h
        · exact bsLoop_le (by omega) (by omega) h
        · split at h
          · exact bsLoop_le (by omega) hx h
          · cases h
            exact Nat.le_of_lt hp
    · cases h
      simp only; omega

theorem endPos_le {n : Node K V} (hi : n.inner = true → n.recs ≠ []) {b : Spec.Bound K} {x : Bool × Nat}
    (h : n.endPos b = some x) : x.2 ≤ n.recs.length := by
  unfold Node.endPos at h
  split at h
  · rename_i k cl _
    cases hs : n.searchRecord k with
    | none => rw [hs] at h; cases h
    | some r =>
      rw [hs] at h
      simp only [Option.map_some, Option.some.injEq] at h
      subst h
      have hle : r.2 ≤ n.recs.length := by
        unfold Node.searchRecord at hs
        refine bsLoop_le ?_ (Nat.le_refl _) hs
        by_cases h1 : n.inner = true
        · have := List.length_pos_iff.2 (hi h1)
          split <;> omega
        · rw [if_neg (by simp [h1])]; exact Nat.zero_le _
      obtain ⟨f, pos⟩ := r
      cases f with
      | false => exact hle
      | true =>
        have : pos < n.recs.length := bsLoop_lt hs rfl
        cases cl <;> simp <;> omega
  · cases h
    exact Nat.le_refl _

theorem payloads_get : ∀ {l : List (K × Pay V)} {o : List (K × V)}, payloads l = some o →
    l = o.map fun x => (x.1, Pay.val x.2)
  | [], o, h => by cases h; rfl
  | (k, .val v) :: l, o, h => by
    simp only [payloads] at h
    cases hp : payloads l with
    | none => rw [hp] at h; cases h
    | some o' =>
      rw [hp] at h
      cases h
      rw [payloads_get hp]; rfl
  | (_, .child _) :: _, _, h => by cases h

theorem slice_eq {α β : Type} {l : List α} {f : α → β} {g : Nat → β} {b x : Nat}
    (hx : x ≤ l.length) (h : ∀ i, b ≤ i → i < x → ∀ hi : i < l.length, g i = f l[i]) :
    (List.range' b (x - b)).map g = ((l.take x).drop b).map f := by
  apply List.ext_getElem
  · simp; omega
  · intro i h1 h2
    simp only [List.length_map, List.length_range'] at h1
    simp only [List.getElem_map, List.getElem_range', List.getElem_drop, List.getElem_take, Nat.one_mul]
    exact h _ (by omega) (by omega) (by omega)

/-- What a visit of a leaf yields, in bytes. -/
def Enc.scan (e : Enc K V) (x : List (K × V) × Option (K × PID)) :
    List (List UInt8 × List UInt8) × Option (List UInt8 × Nat) :=
  (x.1.map fun y => (e.key y.1, e.val y.2), x.2.map fun y => (e.key y.1, y.2))

theorem bScanOut_sim (he : EncOK cfg c lt e) (hc : CfgOK cfg) {inner : Bool} {low : Option K}
    {ch : Chain K V} {b : BChain} (hw : ChainWF cfg inner low ch) (h : CImg c e ch b) (old : Mem)
    (hfit : ch.size ≤ 2 * cfg.page) {bb eb : Spec.Bound K}
    {x : List (K × V) × Option (K × PID)} (hs : scanOut cfg bb eb ch = some x) :
    bScanOut lt c (cfg.leafLen - 8) cfg.minSize old (e.bound bb) (e.bound eb) b =
      some (e.scan x) := by
  unfold scanOut at hs
  cases hn : scanNode cfg ch with
  | none => rw [hn] at hs; cases hs
  | some n =>
  rw [hn] at hs
  have hspec := (tryConsolidate_spec hc hw true).1 rfl
  have hnn : n = consNode inner ch (2 * cfg.page) := by
    unfold scanNode at hn
    rw [hspec] at hn
    exact (Option.some.inj hn).symm
  have ht : tryConsolidate cfg true ch = some (.consolidate n) := by rw [hspec, hnn]
  have hwn := (consNode_wf hw).1.2.2
  have hkind : ∀ x ∈ n.recs, PayOK n.inner x.2 := by rw [hnn]; exact hwn.kind
  have hne : n.inner = true → n.recs ≠ [] := by
    rw [hnn]
    intro h1
    obtain ⟨r, rs, h2, _⟩ := hwn.first h1
    intro h3
    have h4 : (consNode inner ch ch.size).recs = [] := h3
    rw [h2] at h4
    cases h4
  obtain ⟨bs, hbs, himg, _⟩ := bTryConsolidate_sim he hc hw h old old true (fun _ => hfit)
    (by rw [ht]; intro l r hx; cases hx) ht
  unfold bScanOut
  rw [hbs]
  cases bs with
  | two l r => exact himg.elim
  | one m pg =>
    cases m with
    | true => exact himg.elim
    | false =>
      have hp : NImg c e n pg := himg
      simp only [beginPos_sim he hp, endPos_sim he hp] at hs ⊢
      cases h1 : n.beginPos bb with
      | none => rw [h1] at hs; cases hs
      | some bp =>
        cases h2 : n.endPos eb with
        | none => rw [h1, h2] at hs; cases hs
        | some y =>
          obtain ⟨isEnd, ep⟩ := y
          rw [h1, h2] at hs
          have hle : ep ≤ n.recs.length := endPos_le hne h2
          simp only at hs ⊢
          cases h3 : payloads ((n.recs.take ep).drop bp) with
          | none => rw [h3] at hs; cases hs
          | some o =>
            rw [h3] at hs
            cases hs
            rw [if_neg (by rw [hp.cnt]; omega)]
            have hrecs := payloads_get h3
            have hvs : ∀ i, bp ≤ i → i < ep → ∀ hi : i < n.recs.length, ∃ v, (n.recs[i]).2 = .val v := by
              intro i hb1 hb2 hi
              have hm : n.recs[i] ∈ (n.recs.take ep).drop bp := by
                rw [List.mem_iff_getElem]
                refine ⟨i - bp, by simp; omega, ?_⟩
                simp only [List.getElem_drop, List.getElem_take]
                congr 1; omega
              rw [hrecs] at hm
              obtain ⟨y, _, hy⟩ := List.mem_map.1 hm
              exact ⟨y.2, by rw [← hy]⟩
            have hl : (List.range' bp (ep - bp)).map
                (fun i => (pg.key c i, pg.pay c (cfg.leafLen - 8) i)) =
                ((n.recs.take ep).drop bp).map fun r => (e.key r.1, e.pay r.2) := by
              refine slice_eq hle ?_
              intro i hb1 hb2 hi
              obtain ⟨v, hv⟩ := hvs i hb1 hb2 hi
              have := he.val v
              have hni : n.inner = false := by
                have hk := hkind _ (List.getElem_mem hi)
                rw [hv] at hk
                cases hni : n.inner with
                | false => rfl
                | true => rw [hni] at hk; obtain ⟨_, hk⟩ := hk; cases hk
              rw [hp.keyAt hi (by rw [hni]; simp), hp.payAt hi (by
                rw [hv]; show (e.val v).length = _; omega)]
            rw [hl, hrecs, List.map_map]
            have hnext : (if isEnd = true then none else some (pg.border pg.high, pg.next)) =
                (if isEnd = true then none else n.high.map fun h => (h, n.next)).map
                  fun y : K × PID => (e.key y.1, y.2) := by
              cases isEnd with
              | true => rfl
              | false =>
                have hr : n.isRightmostOf eb = false := by
                  unfold Node.endPos at h2
                  split at h2
                  · rename_i k cl _
                    cases hq : n.searchRecord k <;> rw [hq] at h2 <;> cases h2
                  · simp only [Option.some.injEq, Prod.mk.injEq] at h2
                    exact h2.1
                cases hh : n.high with
                | none => simp [Node.isRightmostOf, hh] at hr
                | some k =>
                  have h4 := hp.high
                  rw [hh] at h4
                  have h5 : pg.border pg.high = e.key k := h4.key
                  simp [h5, hp.next]
            rw [hnext]
            rfl

end BwTree.Layout
