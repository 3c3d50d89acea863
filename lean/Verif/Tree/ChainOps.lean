import Verif.Tree.ChainSearch

/-!
# Operations preserve well-formedness (helper lemmas)
-/

namespace BwTree

set_option linter.unusedSectionVars false

variable {K V : Type} [LinearOrder K] {cfg : Cfg K} {inner : Bool} {low : Option K}

/-! ## Bytes of keys -/

theorem keyBytes_append {α : Type} (l r : List (K × α)) :
    cfg.keyBytes (l ++ r) = cfg.keyBytes l + cfg.keyBytes r := by
  simp [Cfg.keyBytes]

theorem keyBytes_cons {α : Type} (x : K × α) (r : List (K × α)) :
    cfg.keyBytes (x :: r) = cfg.klen x.1 + cfg.keyBytes r := by
  simp [Cfg.keyBytes]

theorem keyBytes_ains {α : Type} {k : K} {v : α} {l : List (K × α)} (hs : SortedK l) :
    cfg.keyBytes (ains k v l) =
      if alook l k = none then cfg.keyBytes l + cfg.klen k else cfg.keyBytes l := by
  induction l with
  | nil => simp [ains, Cfg.keyBytes]
  | cons y l ih =>
    obtain ⟨a, w⟩ := y
    have ht := hs.tail
    have hh := hs.head_lt
    unfold ains
    rw [alook_cons]
    split
    · next h =>
      rw [if_neg (ne_of_lt h)]
      simp only [keyBytes_cons, ih ht]; split <;> omega
    · split
      · next h1 h2 =>
        rw [if_neg (ne_of_gt h2), if_pos]
        · simp only [keyBytes_cons]; omega
        · apply alook_none_of_lt
          intro x hx
          have := hh x hx
          simp at this; order
      · next h1 h2 =>
        have : a = k := by order
        simp [this, keyBytes_cons]

theorem keyBytes_adel {α : Type} {k : K} {l : List (K × α)} (hs : SortedK l) :
    cfg.keyBytes l =
      if alook l k = none then cfg.keyBytes (adel k l) else cfg.keyBytes (adel k l) + cfg.klen k := by
  induction l with
  | nil => simp [adel]
  | cons y l ih =>
    obtain ⟨a, w⟩ := y
    have hh := hs.head_lt
    unfold adel
    rw [alook_cons]
    split
    · next e =>
      subst e
      have : alook l a = none := alook_none_of_lt hh
      have h2 := ih hs.tail
      rw [if_pos this] at h2
      simp [keyBytes_cons, h2]; omega
    · next e =>
      simp only [keyBytes_cons]
      have h2 := ih hs.tail
      split at h2 <;> simp_all; omega

/-! ## Pushing a delta -/

theorem needWait_false_cnt {c : Chain K V} (h : c.needWait cfg = false) (hpos : 0 < cfg.maxDelta) :
    (if c.isDelta then c.cnt + 1 else 1) ≤ cfg.maxDelta := by
  unfold Chain.needWait at h
  split
  · next hd => rw [hd] at h; simp at h; omega
  · omega

theorem needWait_false_size {c : Chain K V} (h : c.needWait cfg = false) (hd : c.isDelta = true) :
    c.size ≤ cfg.page := by
  unfold Chain.needWait at h
  rw [hd] at h; simp at h; omega

theorem push_put_wf {c : Chain K V} (h : ChainWF cfg inner low c) {d : Delta K V} {p : Pay V}
    (hi : d.inner = inner) (hp : DPayOK inner d.ty d.pay) (hr : d.toRec = some (d.key, p))
    (hw : c.needWait cfg = false) (hpos : 0 < cfg.maxDelta) (hrange : InR low c.high d.key)
    {diff : Int}
    (hty : (d.ty = .insert ∧ alook c.flatBody d.key = none ∧ diff = cfg.entLen inner d.key) ∨
      (d.ty = .modify ∧ alook c.flatBody d.key ≠ none ∧ diff = 0)) :
    ChainWF cfg inner low (Chain.push d c diff) ∧
      (Chain.push d c diff).flatBody = ains d.key p c.flatBody ∧
      (Chain.push d c diff).pre = c.pre ∧ (Chain.push d c diff).high = c.high ∧
      (Chain.push d c diff).nextPid = c.nextPid := by
  have hm : d.ty ≠ .merge := by rcases hty with h | h <;> simp [h.1]
  have hd : d.ty ≠ .delete := by rcases hty with h | h <;> simp [h.1]
  have hfb : (Chain.push d c diff).flatBody = ains d.key p c.flatBody :=
    flatBody_put (d := { d with cnt := _, size := _ }) hm hd hr
  have hs := h.flatBody_spec.1
  have hhi : (Chain.push d c diff).high = c.high := by simp [Chain.push, Chain.high, hm]
  have hsz : c.size + diff = cfg.bytes inner low (Chain.push d c diff).high
      ((Chain.push d c diff).flat).length (Chain.push d c diff).flatBody := by
    have e1 : (Chain.push d c diff).flat = c.pre ++ ains d.key p c.flatBody := by
      unfold Chain.flat; rw [hfb]; rfl
    rw [e1, h.size_eq, hfb, hhi]
    unfold Cfg.bytes
    simp only [List.length_append, length_ains hs, Chain.flat, keyBytes_ains hs]
    rcases hty with ⟨_, h1, h2⟩ | ⟨_, h1, h2⟩
    · rw [h1, h2]; unfold Cfg.entLen; simp only [if_true]; push_cast
      rw [Int.mul_add, Int.mul_add, Int.mul_add]; omega
    · rw [if_neg h1, if_neg h1, h2]; omega
  refine ⟨⟨h, hi, hp, rfl, needWait_false_cnt hw hpos, hsz, ?_⟩, hfb, rfl, ?_, ?_⟩
  · rcases hty with ⟨h1, h2, _⟩ | ⟨h1, h2, _⟩ <;> simp only [h1] <;> exact ⟨hrange, h2⟩
  · simp [Chain.push, Chain.high, hm]
  · cases ht : d.ty <;> first | exact absurd ht hm | simp [Chain.push, Chain.nextPid, ht]

theorem push_del_wf {c : Chain K V} (h : ChainWF cfg inner low c) {d : Delta K V}
    (hi : d.inner = inner) (hp : DPayOK inner d.ty d.pay) (hty : d.ty = .delete)
    (hw : c.needWait cfg = false) (hpos : 0 < cfg.maxDelta) (hrange : InR low c.high d.key)
    (hin : alook c.flatBody d.key ≠ none) (hlow : inner = true → LowOK low d.key false) :
    ChainWF cfg inner low (Chain.push d c (-(cfg.entLen inner d.key : Int))) ∧
      (Chain.push d c (-(cfg.entLen inner d.key : Int))).flatBody = adel d.key c.flatBody ∧
      (Chain.push d c (-(cfg.entLen inner d.key : Int))).pre = c.pre ∧
      (Chain.push d c (-(cfg.entLen inner d.key : Int))).high = c.high ∧
      (Chain.push d c (-(cfg.entLen inner d.key : Int))).nextPid = c.nextPid := by
  have hs := h.flatBody_spec.1
  have hfb : (Chain.push d c (-(cfg.entLen inner d.key : Int))).flatBody = adel d.key c.flatBody := by
    simp [Chain.push, Chain.flatBody, hty]
  have hhi : (Chain.push d c (-(cfg.entLen inner d.key : Int))).high = c.high := by
    simp [Chain.push, Chain.high, hty]
  have hsz : c.size + (-(cfg.entLen inner d.key : Int)) = cfg.bytes inner low
      (Chain.push d c (-(cfg.entLen inner d.key : Int))).high
      ((Chain.push d c (-(cfg.entLen inner d.key : Int))).flat).length
      (Chain.push d c (-(cfg.entLen inner d.key : Int))).flatBody := by
    have e1 : (Chain.push d c (-(cfg.entLen inner d.key : Int))).flat =
        c.pre ++ adel d.key c.flatBody := by
      unfold Chain.flat; rw [hfb]; rfl
    have e2 := keyBytes_adel (cfg := cfg) (k := d.key) hs
    rw [if_neg hin] at e2
    rw [e1, h.size_eq, hfb, hhi]
    unfold Cfg.bytes Cfg.entLen
    rw [e2]
    simp only [List.length_append, length_adel hs, Chain.flat, if_neg hin]
    have hl : c.flatBody.length = (c.flatBody.length - 1) + 1 := by
      have : c.flatBody ≠ [] := by intro e; rw [e] at hin; simp at hin
      have := List.length_pos_iff.2 this; omega
    rw [hl]
    simp only [Nat.add_sub_cancel]
    push_cast
    rw [Int.mul_add, Int.mul_add, Int.mul_add]; omega
  refine ⟨⟨h, hi, hp, rfl, needWait_false_cnt hw hpos, hsz, ?_⟩, hfb, rfl, ?_, ?_⟩
  · simp only [hty]; exact ⟨hrange, hin, hlow⟩
  · simp [Chain.push, Chain.high, hty]
  · simp [Chain.push, Chain.nextPid, hty]

theorem push_merge_wf {c : Chain K V} (h : ChainWF cfg inner low c) {d : Delta K V} {n : Node K V}
    (hi : d.inner = inner) (hty : d.ty = .merge) (hpay : d.pay = .node n)
    (hw : c.needWait cfg = false) (hpos : 0 < cfg.maxDelta) (hkey : c.high = some d.key)
    (hn : NodeWF cfg n) (hni : n.inner = inner) (hnl : n.low = some d.key) (hnh : n.high = d.high) :
    ChainWF cfg inner low (Chain.push d c (cfg.nodeDiff n)) ∧
      (Chain.push d c (cfg.nodeDiff n)).flatBody = c.flatBody ++ n.recs ∧
      (Chain.push d c (cfg.nodeDiff n)).pre = c.pre ∧
      (Chain.push d c (cfg.nodeDiff n)).high = n.high ∧
      (Chain.push d c (cfg.nodeDiff n)).nextPid = n.next := by
  have hfb : (Chain.push d c (cfg.nodeDiff n)).flatBody = c.flatBody ++ n.recs := by
    simp [Chain.push, Chain.flatBody, hty, hpay]
  have hhi : (Chain.push d c (cfg.nodeDiff n)).high = n.high := by
    simp [Chain.push, Chain.high, hty, hnh]
  have hnb : n.body = n.recs := Node.body_of_low hnl
  have hsz : c.size + (cfg.nodeDiff n) = cfg.bytes inner low (Chain.push d c (cfg.nodeDiff n)).high
      ((Chain.push d c (cfg.nodeDiff n)).flat).length
      (Chain.push d c (cfg.nodeDiff n)).flatBody := by
    have e1 : (Chain.push d c (cfg.nodeDiff n)).flat = c.pre ++ (c.flatBody ++ n.recs) := by
      unfold Chain.flat; rw [hfb]; rfl
    rw [e1, h.size_eq, hfb, hhi, hkey]
    unfold Cfg.nodeDiff
    rw [hn.size, hni, hnl, hnb]
    unfold Cfg.bytes Cfg.bnd Cfg.olen
    simp only [List.length_append, Chain.flat, keyBytes_append]
    push_cast
    rw [Int.mul_add, Int.mul_add, Int.mul_add]
    cases inner <;> simp <;> omega
  refine ⟨⟨h, hi, by simp [DPayOK, hty], rfl, needWait_false_cnt hw hpos, hsz, ?_⟩,
    hfb, rfl, ?_, ?_⟩
  · simp only [hty]; exact ⟨hkey, n, hpay, hni, hnl, hnh, hn⟩
  · simp [Chain.push, Chain.high, hty, hnh]
  · simp [Chain.push, Chain.nextPid, hty, hpay]

/-! ## Consolidated and split nodes -/

theorem ChainWF.pre_shape {c : Chain K V} (h : ChainWF cfg inner low c) :
    ((inner && low.isNone) = true → ∃ r, c.pre = [r] ∧ PayOK inner r.2) ∧
    ((inner && low.isNone) = false → c.pre = []) := by
  obtain ⟨n, _, h2, h3, h4, h5⟩ := h.base
  rw [h5]
  have hl : n.leftInner = (inner && low.isNone) := by simp [Node.leftInner, h3, h4]
  refine ⟨?_, ?_⟩
  · intro e
    have hi : n.inner = true := by rw [h3]; simp at e; exact e.1
    obtain ⟨r, rs, hr, _⟩ := h2.first hi
    refine ⟨r, by simp [Node.pre, hl, e, hr], ?_⟩
    rw [← h3]; exact h2.kind r (by simp [hr])
  · intro e; simp [Node.pre, hl, e]

theorem ChainWF.head_low {c : Chain K V} (h : ChainWF cfg true low c) {l : K}
    (hl : low = some l) : ∃ p rs, c.flatBody = (l, p) :: rs := by
  have hin := h.low_mem hl
  obtain ⟨hs, hr, _⟩ := h.flatBody_spec
  cases hf : c.flatBody with
  | nil => rw [hf] at hin; simp at hin
  | cons x rs =>
    obtain ⟨k, p⟩ := x
    rw [hf] at hin hs hr
    have hk : l ≤ k := by have := (hr (k, p) (by simp)).1 l hl; simpa using this
    have : k = l := by
      rcases lt_or_eq_of_le hk with e | e
      · exfalso; apply hin
        apply alook_none_of_lt
        intro x hx
        rcases List.mem_cons.1 hx with e' | hx
        · subst e'; exact e
        · have := hs.head_lt x hx; simp at this; order
      · exact e.symm
    subst this
    exact ⟨p, rs, rfl⟩

/-- A node made of the key-less prefix and a sorted body. -/
theorem nodeWF_mk {inner : Bool} {low high : Option K} {next : PID} {pre body : List (K × Pay V)}
    {size : Int}
    (hpre1 : (inner && low.isNone) = true → ∃ r, pre = [r])
    (hpre2 : (inner && low.isNone) = false → pre = [])
    (hs : SortedK body) (hr : ∀ x ∈ body, InR low high x.1) (hne : NonEmptyR low high)
    (hk : ∀ x ∈ pre ++ body, PayOK inner x.2)
    (hf : inner = true → ∀ l, low = some l → ∃ p rs, body = (l, p) :: rs)
    (hsz : size = cfg.bytes inner low high (pre ++ body).length body) :
    NodeWF cfg ({ inner, low, high, next, recs := pre ++ body, size } : Node K V) ∧
      ({ inner, low, high, next, recs := pre ++ body, size } : Node K V).pre = pre ∧
      ({ inner, low, high, next, recs := pre ++ body, size } : Node K V).body = body := by
  have hb : ({ inner, low, high, next, recs := pre ++ body, size } : Node K V).body = body := by
    unfold Node.body Node.leftInner
    simp only
    split
    · next e => obtain ⟨r, e'⟩ := hpre1 e; simp [e']
    · next e => rw [hpre2 (by cases hb : (inner && low.isNone) <;> simp_all)]; rfl
  have hp : ({ inner, low, high, next, recs := pre ++ body, size } : Node K V).pre = pre := by
    unfold Node.pre Node.leftInner
    simp only
    split
    · next e => obtain ⟨r, e'⟩ := hpre1 e; simp [e']
    · next e => rw [hpre2 (by cases hb : (inner && low.isNone) <;> simp_all)]
  refine ⟨⟨by rw [hb]; exact hs, by rw [hb]; exact hr, hne, hk, ?_, by rw [hb]; exact hsz⟩, hp, hb⟩
  intro hi
  simp only at hi
  subst hi
  cases low with
  | none =>
    obtain ⟨r, e'⟩ := hpre1 (by simp)
    exact ⟨r, body, by simp [e'], by simp⟩
  | some l =>
    obtain ⟨p, rs, e⟩ := hf rfl l rfl
    have := hpre2 (by simp)
    exact ⟨(l, p), rs, by simp [this, e], by simp⟩

theorem ChainWF.kind_flat {c : Chain K V} (h : ChainWF cfg inner low c) :
    ∀ x ∈ c.flat, PayOK inner x.2 := by
  intro x hx
  rcases List.mem_append.1 hx with hx | hx
  · cases hb : (inner && low.isNone)
    · rw [h.pre_shape.2 hb] at hx; simp at hx
    · obtain ⟨r, hr, hp⟩ := h.pre_shape.1 hb
      rw [hr] at hx; simp at hx; subst hx; exact hp
  · exact h.flatBody_spec.2.2 x hx

/-- The consolidated node is well-formed and means the same. -/
theorem consNode_wf {c : Chain K V} (h : ChainWF cfg inner low c) :
    ChainWF cfg inner low (.base (consNode inner c c.size)) ∧
      (Chain.base (consNode inner c c.size)).pre = c.pre ∧
      (Chain.base (consNode inner c c.size)).flatBody = c.flatBody ∧
      (Chain.base (consNode inner c c.size)).high = c.high ∧
      (Chain.base (consNode inner c c.size)).nextPid = c.nextPid := by
  obtain ⟨hs, hr, _⟩ := h.flatBody_spec
  obtain ⟨h1, h2, h3⟩ := nodeWF_mk (cfg := cfg) (inner := inner) (low := low) (high := c.high)
    (next := c.nextPid) (pre := c.pre) (body := c.flatBody) (size := c.size)
    (fun e => by obtain ⟨r, hr, _⟩ := h.pre_shape.1 e; exact ⟨r, hr⟩) h.pre_shape.2 hs hr
    h.nonempty h.kind_flat
    (fun hi l hl => by subst hi; exact h.head_low hl) h.size_eq
  have hlow := h.low_eq
  have e : consNode inner c c.size =
      { inner, low, high := c.high, next := c.nextPid, recs := c.pre ++ c.flatBody,
        size := c.size } := by
    simp [consNode, hlow, Chain.flat]
  rw [e]
  exact ⟨⟨rfl, rfl, h1⟩, h2, h3, rfl, rfl⟩

/-- Both halves of a split are well-formed; together they mean the same. -/
theorem split_wf {c : Chain K V} (h : ChainWF cfg inner low c) {lr : List (K × Pay V)}
    {x : K × Pay V} {rr : List (K × Pay V)} (hlr : lr ≠ []) (hcat : lr ++ x :: rr = c.flat)
    (next : PID) :
    let l : Node K V := splitL cfg inner c lr x.1 next
    let r : Node K V := splitR cfg inner c x rr
    ChainWF cfg inner low (.base l) ∧ ChainWF cfg inner (some x.1) (.base r) ∧
      (Chain.base l).pre = c.pre ∧ (Chain.base r).pre = [] ∧
      (Chain.base l).flatBody ++ (Chain.base r).flatBody = c.flatBody ∧
      (Chain.base r).flatBody = x :: rr ∧
      LowOK low x.1 false ∧ HighOK c.high x.1 true := by
  intro l r
  obtain ⟨hs, hr, _⟩ := h.flatBody_spec
  -- the prefix is inside the left half
  have hpre : ∃ lb, lr = c.pre ++ lb ∧ lb ++ x :: rr = c.flatBody := by
    unfold Chain.flat at hcat
    cases hb : (inner && low.isNone)
    · rw [h.pre_shape.2 hb] at hcat ⊢
      exact ⟨lr, by simp, by simpa using hcat⟩
    · obtain ⟨r, hr, _⟩ := h.pre_shape.1 hb
      rw [hr] at hcat ⊢
      cases lr with
      | nil => exact absurd rfl hlr
      | cons y ys =>
        simp at hcat
        obtain ⟨e1, e2⟩ := hcat
        exact ⟨ys, by simp [e1], e2⟩
  obtain ⟨lb, hlb, hcat'⟩ := hpre
  rw [← hcat'] at hs hr
  have hsl := hs.append_left
  have hsr := hs.append_right
  have hlt := hs.append_lt
  have hxr := hr x (by simp)
  have hxlow : LowOK low x.1 false := by
    apply hxr.1.strict
    intro e
    -- the left half holds a record below x
    have hp0 : c.pre = [] := h.pre_shape.2 (by simp [e])
    rw [hp0] at hlb
    simp at hlb
    subst hlb
    cases lr with
    | nil => exact absurd rfl hlr
    | cons y ys =>
      have h1 := hlt y (by simp) x (by simp)
      have h2 := (hr y (by simp)).1 _ e
      simp at h2; order
  have hl := h.low_eq
  obtain ⟨a1, a2, a3⟩ := nodeWF_mk (cfg := cfg) (inner := inner) (low := low) (high := some x.1)
    (next := next) (pre := c.pre) (body := lb)
    (size := cfg.lsz inner c (c.pre ++ lb) + cfg.bnd inner low (some x.1))
    (fun e => by obtain ⟨r, hr, _⟩ := h.pre_shape.1 e; exact ⟨r, hr⟩) h.pre_shape.2 hsl
    (by
      intro y hy
      refine ⟨(hr y (by simp [hy])).1, ?_⟩
      intro b hb; cases hb
      simpa using hlt y hy x (by simp))
    (by
      intro a b ha hb; cases hb
      simpa using hxlow a ha)
    (by
      intro y hy
      apply h.kind_flat
      rw [← hcat, hlb]
      exact List.mem_append_left _ hy)
    (by
      intro hi l hl
      subst hi
      obtain ⟨p, rs, e⟩ := h.head_low hl
      have hp0 : c.pre = [] := h.pre_shape.2 (by simp [hl])
      rw [hp0] at hlb; simp at hlb; subst hlb
      cases lr with
      | nil => exact absurd rfl hlr
      | cons y ys =>
        rw [← hcat'] at e
        simp at e
        exact ⟨p, ys, by rw [e.1]⟩)
    (by unfold Cfg.lsz Cfg.bytes; simp)
  obtain ⟨b1, b2, b3⟩ := nodeWF_mk (cfg := cfg) (inner := inner) (low := some x.1)
    (high := c.high) (next := c.nextPid) (pre := []) (body := x :: rr)
    (size := cfg.bytes inner (some x.1) c.high (x :: rr).length (x :: rr))
    (by simp) (by simp) hsr
    (by
      intro y hy
      refine ⟨?_, (hr y (List.mem_append_right _ hy)).2⟩
      intro l hl; cases hl
      rcases List.mem_cons.1 hy with e | hy
      · subst e; simp
      · have := hsr.head_lt y hy; simp; order)
    (by intro a b ha hb; cases ha; simpa using hxr.2 b hb)
    (by
      intro y hy
      apply h.kind_flat
      rw [← hcat]
      exact List.mem_append_right _ (by simpa using hy))
    (by intro _ l hl; cases hl; exact ⟨x.2, rr, rfl⟩)
    (by simp)
  have el : l = Node.mk inner low (some x.1) next (c.pre ++ lb)
      (cfg.lsz inner c (c.pre ++ lb) + cfg.bnd inner low (some x.1)) := by
    simp [l, splitL, hl, hlb]
  have er : r = Node.mk inner (some x.1) c.high c.nextPid ([] ++ x :: rr)
      (cfg.bytes inner (some x.1) c.high (x :: rr).length (x :: rr)) := rfl
  rw [el, er]
  refine ⟨⟨rfl, rfl, a1⟩, ⟨rfl, rfl, b1⟩, a2, b2, ?_, b3, hxlow, hxr.2⟩
  simp only [Chain.flatBody]
  rw [a3, b3]; exact hcat'

/-! ## Entries of new chains -/

theorem NodeEnts.of_flat {P : Option K → PID → Prop} {n : Node K V} {pre body : List (K × Pay V)}
    (h1 : n.pre = pre) (h2 : n.body = body)
    (hp : ∀ x ∈ pre, ∀ p, x.2 = .child p → P none p)
    (hb : ∀ x ∈ body, ∀ p, x.2 = .child p → P (some x.1) p) : NodeEnts P n := by
  refine ⟨by rw [h1]; exact hp, by rw [h2]; exact hb⟩

/-- How far above one page the size of a head can get: one record, or a merged node. -/
def slack (cfg : Cfg K) (inner : Bool) : Int :=
  max (cfg.recLen inner + cfg.maxKey) (cfg.minSize - cfg.hdr)

/-- The bytes of a chain, divided at the cut of a split. -/
theorem ChainWF.cut_size {c : Chain K V} (h : ChainWF cfg inner low c)
    {lr rr : List (K × Pay V)} {x : K × Pay V} (hlr : lr ≠ []) (hcat : lr ++ x :: rr = c.flat) :
    c.size = cfg.lsz inner c lr + cfg.recLen inner * (x :: rr).length + cfg.keyBytes (x :: rr) +
      cfg.bnd inner low c.high := by
  have hpl : c.pre.length ≤ lr.length := by
    have h1 : 1 ≤ lr.length := List.length_pos_iff.2 hlr
    cases hb : (inner && low.isNone)
    · rw [h.pre_shape.2 hb]; simp
    · obtain ⟨r, hr, _⟩ := h.pre_shape.1 hb
      rw [hr]; exact h1
  have hfb : c.flatBody = lr.drop c.pre.length ++ x :: rr := by
    have := congrArg (List.drop c.pre.length) hcat
    rw [List.drop_append_of_le_length hpl] at this
    rw [this, Chain.flat, List.drop_left]
  rw [h.size_eq, hfb, ← hcat]
  unfold Cfg.bytes Cfg.lsz
  simp only [keyBytes_append, List.length_append]
  push_cast
  rw [Int.mul_add]; omega

/-- Both halves of a split fit in one page. -/
theorem split_fits {inner : Bool} {low : Option K} (hc : CfgOK cfg) {c : Chain K V}
    (h : ChainWF cfg inner low c) (hsl : c.size ≤ cfg.page + slack cfg inner)
    (hmin : (cfg.minSize : Int) ≤ max (cfg.hdr + cfg.recLen inner) ((cfg.page - cfg.hdr) / 2))
    (hminv : cfg.maxKey = 0 ∨ cfg.minSize + cfg.maxKey ≤ (cfg.page - cfg.hdr) / 2)
    {lr rr : List (K × Pay V)} {x : K × Pay V} (hlr : lr ≠ []) (hcat : lr ++ x :: rr = c.flat)
    (hsm : cfg.lsz inner c lr - (cfg.recLen inner + cfg.maxKey) ≤
        ((cfg.page - cfg.hdr) / 2 : Int) ∨ lr.length = 1)
    (hlg : ((cfg.page - cfg.hdr) / 2 : Int) < cfg.lsz inner c lr) :
    (splitL cfg inner c lr x.1 0).size ≤ cfg.page ∧ (splitR cfg inner c x rr).size ≤ cfg.page := by
  have hlen := hc.len inner
  have hsz := h.cut_size hlr hcat
  have hlow := h.low_eq
  have hv := hc.var
  have hl1 : 1 ≤ lr.length := List.length_pos_iff.2 hlr
  have hb1 := hc.bnd_le inner c.low (some x.1)
  have hk := hc.olen_le c.low
  have hkx := hc.keys x.1
  have hge : (cfg.hdr + cfg.recLen inner : Int) ≤ cfg.lsz inner c lr := by
    have h1 : (cfg.recLen inner : Int) * 1 ≤ cfg.recLen inner * lr.length :=
      Int.mul_le_mul_of_nonneg_left (by omega) (by omega)
    unfold Cfg.lsz; omega
  refine ⟨?_, ?_⟩
  · show cfg.lsz inner c lr + cfg.bnd inner c.low (some x.1) ≤ cfg.page
    have one : lr.length = 1 →
        cfg.lsz inner c lr ≤ cfg.hdr + cfg.recLen inner + cfg.maxKey := by
      intro h1
      obtain ⟨a, e⟩ := List.length_eq_one_iff.1 h1
      subst e
      have := hc.keys a.1
      unfold Cfg.lsz
      cases hp : c.pre.length with
      | zero => simp [Cfg.keyBytes]; omega
      | succ m => simp [Cfg.keyBytes]; omega
    rcases hv with hv | hv
    · rcases Nat.lt_or_ge 1 lr.length with h2 | h2
      · rcases hsm with hsm | hsm
        · have h1 : (cfg.recLen inner : Int) * 2 ≤ cfg.recLen inner * lr.length :=
            Int.mul_le_mul_of_nonneg_left (by omega) (by omega)
          have : (cfg.hdr + cfg.recLen inner * 2 : Int) ≤ cfg.lsz inner c lr := by
            unfold Cfg.lsz; omega
          omega
        · omega
      · have := one (by omega); omega
    · have := hv inner
      rcases hsm with hsm | hsm
      · omega
      · have := one hsm; omega
  · show cfg.bytes inner (some x.1) c.high (x :: rr).length (x :: rr) ≤ cfg.page
    unfold Cfg.bytes
    have hb : (cfg.bnd inner (some x.1) c.high : Int) ≤ cfg.bnd inner low c.high + cfg.maxKey := by
      unfold Cfg.bnd; cases inner <;> simp [Cfg.olen] <;> omega
    unfold slack at hsl
    rcases hv with hv | hv
    · omega
    · have := hv inner
      rcases hminv with hm | hm <;> omega

end BwTree
