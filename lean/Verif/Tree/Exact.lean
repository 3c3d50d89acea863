import Verif.Tree.HeadOps

/-!
# Exact routing in inner chains (helper lemmas)

A chain of an inner page routes exactly when every key leads to the entry with the largest separator
that is not above the key.  This depends on the upper bounds stored in index-entry and index-delete
records; `ExactC` says what they have to satisfy when a record is pushed.
-/

namespace BwTree

set_option linter.unusedSectionVars false

variable {K V : Type} [LinearOrder K] {cfg : Cfg K} {low : Option K}

/-- `a ≤ key`, or `a < key` in an open search. -/
def LEc (closed : Bool) (a key : K) : Prop := if closed then a ≤ key else a < key

/-- `q` is the child of the last separator below the key. -/
def Floor (pre body : List (K × Pay V)) (key : K) (closed : Bool) (q : PID) : Prop :=
  (∃ sep, (sep, Pay.child q) ∈ body ∧ LEc closed sep key ∧
    ∀ x ∈ body, LEc closed x.1 key → x.1 ≤ sep) ∨
  ((∃ y, (y, Pay.child q) ∈ pre) ∧ ∀ x ∈ body, ¬ LEc closed x.1 key)

/-- The upper bounds of the records of a chain are exact; `fl` gives the left neighbours of deleted
entries by their words. -/
def ExactC (fl : Nat → Option PID) : Chain K V → Prop
  | .base _ => True
  | .removed _ => True
  | .delta d nx => ExactC fl nx ∧
    (d.ty = .insert ∨ d.ty = .delete →
      (∀ h, d.high = some h → d.key < h) ∧
      (∀ x ∈ nx.flatBody, d.key < x.1 → ∃ h, d.high = some h ∧ h ≤ x.1) ∧
      (∀ h, d.high = some h → HighOK nx.high h true → alook nx.flatBody h ≠ none) ∧
      (∀ b, nx.high = some b → ∃ h, d.high = some h ∧ h ≤ b)) ∧
    (∀ w, d.pay = .cell w → ∃ q, fl w = some q ∧ Floor nx.pre nx.flatBody d.key false q)

theorem ExactC.mono {fl fl' : Nat → Option PID} (h : ∀ w q, fl w = some q → fl' w = some q)
    {c : Chain K V} (hc : ExactC fl c) : ExactC fl' c := by
  induction c with
  | base n => trivial
  | removed b => trivial
  | delta d nx ih =>
    obtain ⟨h1, h2, h3⟩ := hc
    refine ⟨ih h1, h2, fun w hw => ?_⟩
    obtain ⟨q, e1, e2⟩ := h3 w hw
    exact ⟨q, h w q e1, e2⟩

theorem LEc.of_lowKeyIsLE {a key : K} {closed : Bool} (h : lowKeyIsLE a key closed = true) :
    LEc closed a key := lowKeyIsLE_iff.1 h

theorem not_lowKeyIsLE {a key : K} {closed : Bool} (h : lowKeyIsLE a key closed = false) :
    ¬ LEc closed a key := by
  intro e
  rw [lowKeyIsLE_iff.2 e] at h; cases h

/-- Child search in a node. -/
theorem Node.searchChild_floor {n : Node K V} (hwf : NodeWF cfg n) (hi : n.inner = true) (key : K)
    (closed : Bool) (hlow : LowOK n.low key closed) :
    ∃ q, n.searchChild key closed = some q ∧ Floor n.pre n.body key closed q := by
  obtain ⟨r, rs, hr, hfirst⟩ := hwf.first hi
  have hkind : ∀ x ∈ n.recs, ∃ c, x.2 = Pay.child c := by
    intro x hx; have := hwf.kind x hx; simpa [PayOK, hi] using this
  have hs : SortedK (n.recs.drop 1) := by
    have := hwf.sorted
    unfold Node.body at this
    split at this
    · exact this
    · rw [hr] at this ⊢; exact this.tail
  obtain ⟨pos, hp, c, h1, h2, h3, h4⟩ := n.searchChild_spec hs (by rw [hr]; simp) key closed hkind
  refine ⟨c, h1, ?_⟩
  have hgt : ∀ i (hi : i < n.recs.length), pos < i → ¬ LEc closed n.recs[i].1 key := by
    intro i hi hpi
    have := h4 i hi hpi
    unfold LEc
    cases closed <;> simp at this ⊢ <;> exact this
  by_cases h0 : n.skip ≤ pos
  · left
    refine ⟨n.recs[pos].1, ?_, ?_, ?_⟩
    · rw [n.body_eq, mem_drop_iff]
      refine ⟨pos, hp, h0, ?_⟩
      rw [← h2]
    · by_cases e0 : pos = 0
      · subst e0
        have e0 : n.recs[0] = r := by simp [hr]
        rw [e0]
        cases hl : n.low with
        | none => simp [Node.skip, Node.leftInner, hi, hl] at h0
        | some l =>
          rw [hfirst l hl]; exact hlow l hl
      · exact h3 pos hp (by omega) (Nat.le_refl _)
    · intro x hx hle
      rw [n.body_eq, mem_drop_iff] at hx
      obtain ⟨i, hi', hs', rfl⟩ := hx
      by_cases hpi : pos < i
      · exact absurd hle (hgt i hi' hpi)
      · by_cases e : i = pos
        · subst e; exact le_rfl
        · have hb := hwf.sorted
          rw [n.body_eq] at hb
          exact le_of_lt (sortedK_drop_lt hb hs' (by omega) hp)
  · right
    have hskip : n.skip = 1 ∧ pos = 0 := by
      unfold Node.skip at h0 ⊢
      split at h0 <;> simp_all
    refine ⟨⟨n.recs[pos].1, ?_⟩, ?_⟩
    · have : n.leftInner = true := by
        have := hskip.1
        unfold Node.skip at this
        split at this
        · assumption
        · cases this
      rw [Node.pre, if_pos this]
      obtain ⟨_, rfl⟩ := hskip
      rw [← h2]
      simp [hr]
    · intro x hx
      rw [n.body_eq, mem_drop_iff] at hx
      obtain ⟨i, hi', hs', rfl⟩ := hx
      exact hgt i hi' (by omega)

theorem HighOK.le {high : Option K} {key : K} {closed : Bool} (h : HighOK high key closed) {x : K}
    (hx : LEc closed x key) : (∀ b, high = some b → x < b) ∨ closed = true := by
  cases closed with
  | true => exact Or.inr rfl
  | false =>
    left
    intro b hb
    have := h b hb
    simp [LEc] at this hx
    order

/-- Child search in a chain is exact. -/
theorem dcSearchChild_exact {fl : Nat → Option PID} {c : Chain K V} (h : ChainWF cfg true low c)
    (hx : ExactC fl c) (key : K) (closed : Bool) (hlow : LowOK low key closed)
    (hhigh : HighOK c.high key closed) :
    ∀ smo : Bool,
    (∃ q, dcSearchChild key closed smo c = .child q ∧ Floor c.pre c.flatBody key closed q) ∨
    (∃ w q, dcSearchChild key closed smo c = .cell w ∧ fl w = some q ∧
      Floor c.pre c.flatBody key closed q) ∨
    (∃ n q, dcSearchChild key closed smo c = .base n ∧ n.searchChild key closed = some q ∧
      Floor c.pre c.flatBody key closed q) := by
  induction c with
  | base n =>
    intro smo
    right; right
    obtain ⟨q, h1, h2⟩ := n.searchChild_floor h.2.2 h.1 key closed (by rw [h.2.1]; exact hlow)
    have : highKeyIsGE n.high key (!closed) = true := highKeyIsGE_iff.2 hhigh
    exact ⟨n, q, by simp [dcSearchChild, this], h1, h2⟩
  | removed l => exact h.elim
  | delta d nx ih =>
    intro smo
    have h' := h
    obtain ⟨hx1, hx2, hx3⟩ := hx
    obtain ⟨hnx, _, hpay, _, _, _, h4⟩ := h
    by_cases hm : d.ty = .merge
    · rw [hm] at h4
      obtain ⟨hh, n, hn, hin, hlo, hhi, hwf⟩ := h4
      have hhd : (Chain.delta d nx).high = d.high := by simp [Chain.high, hm]
      have hfb : (Chain.delta d nx).flatBody = nx.flatBody ++ n.recs := by
        simp [Chain.flatBody, hm, hn]
      have hbd : n.body = n.recs := Node.body_of_low hlo
      have hpn : n.pre = [] := by simp [Node.pre, Node.leftInner, hlo]
      have hnb : ∀ x ∈ nx.flatBody, x.1 < d.key := by
        intro x hxm
        have := (hnx.flatBody_spec.2.1 x hxm).2 d.key hh
        simpa using this
      have hnr : ∀ x ∈ n.recs, d.key ≤ x.1 := by
        intro x hxm
        have := (hwf.range x (by rw [hbd]; exact hxm)).1 d.key hlo
        simpa using this
      rw [hhd] at hhigh
      have hpre : (Chain.delta d nx).pre = nx.pre := rfl
      rw [hfb, hpre]
      cases hle : lowKeyIsLE d.key key closed
      · have hnle := not_lowKeyIsLE hle
        have hkn : HighOK nx.high key closed := by
          intro b hb; rw [hh] at hb; cases hb
          unfold LEc at hnle
          cases closed <;> simp at hnle ⊢ <;> order
        have hres : dcSearchChild key closed smo (.delta d nx) = dcSearchChild key closed true nx := by
          simp [dcSearchChild, hm, hle]
        rw [hres]
        have hfl : ∀ q, Floor nx.pre nx.flatBody key closed q →
            Floor nx.pre (nx.flatBody ++ n.recs) key closed q := by
          intro q hq
          have hno : ∀ x ∈ n.recs, ¬ LEc closed x.1 key := by
            intro x hxm hle'
            have := hnr x hxm
            apply hnle
            unfold LEc at hle' ⊢
            cases closed <;> simp at hle' ⊢ <;> order
          rcases hq with ⟨sep, a1, a2, a3⟩ | ⟨a1, a2⟩
          · refine Or.inl ⟨sep, List.mem_append_left _ a1, a2, fun x hxm hl => ?_⟩
            rcases List.mem_append.1 hxm with e | e
            · exact a3 x e hl
            · exact absurd hl (hno x e)
          · refine Or.inr ⟨a1, fun x hxm => ?_⟩
            rcases List.mem_append.1 hxm with e | e
            · exact a2 x e
            · exact hno x e
        rcases ih hnx hx1 hkn true with ⟨q, e1, e2⟩ | ⟨w, q, e1, e2, e3⟩ | ⟨m, q, e1, e2, e3⟩
        · exact Or.inl ⟨q, e1, hfl q e2⟩
        · exact Or.inr (Or.inl ⟨w, q, e1, e2, hfl q e3⟩)
        · exact Or.inr (Or.inr ⟨m, q, e1, e2, hfl q e3⟩)
      · have : highKeyIsGE d.high key (!closed) = true := highKeyIsGE_iff.2 hhigh
        right; right
        have hdk := LEc.of_lowKeyIsLE hle
        obtain ⟨q, h1, h2⟩ := n.searchChild_floor hwf hin key closed
          (by rw [hlo]; intro l e; cases e; exact hdk)
        refine ⟨n, q, by simp [dcSearchChild, hm, hle, hn, this], h1, ?_⟩
        rw [hpn, hbd] at h2
        rcases h2 with ⟨sep, a1, a2, a3⟩ | ⟨⟨y, hy⟩, _⟩
        · refine Or.inl ⟨sep, List.mem_append_right _ a1, a2, fun x hxm hl => ?_⟩
          rcases List.mem_append.1 hxm with e | e
          · have := hnb x e
            have := hnr _ a1
            order
          · exact a3 x e hl
        · cases hy
    · have hhd : (Chain.delta d nx).high = nx.high := by simp [Chain.high, hm]
      rw [hhd] at hhigh
      have hpre : (Chain.delta d nx).pre = nx.pre := rfl
      rw [hpre]
      have ih := ih hnx hx1 hhigh smo
      have hsorted := hnx.flatBody_spec.1
      cases ht : d.ty with
      | modify => rw [ht] at hpay; simp [DPayOK] at hpay
      | merge => exact absurd ht hm
      | insert =>
        rw [ht] at hpay h4
        simp only [DPayOK, if_true] at hpay
        obtain ⟨p, hp⟩ := hpay
        obtain ⟨x1, x2, x3, _⟩ := hx2 (Or.inl ht)
        have hfb : (Chain.delta d nx).flatBody = ains d.key (.child p) nx.flatBody := by
          simp [Chain.flatBody, ht, Delta.toRec, hp]
        rw [hfb]
        have hmem : ∀ x, x ∈ ains d.key (.child p) nx.flatBody ↔
            x = (d.key, .child p) ∨ x ∈ nx.flatBody := by
          intro x
          have hl := alook_ains (v := Pay.child p) (k := d.key) hsorted
          have hs := sorted_ains (v := Pay.child p) (k := d.key) hsorted
          constructor
          · intro hxm
            have := alook_of_mem hs (k := x.1) (v := x.2) hxm
            rw [hl] at this
            split at this
            · next e => left; exact Prod.ext e.symm (Option.some.inj this).symm
            · exact Or.inr (alook_mem this)
          · rintro (rfl | hxm)
            · apply alook_mem; rw [hl]; simp
            · have hne : x.1 ≠ d.key := by
                intro e
                exact alook_none.1 h4.2 x hxm e
              have := alook_of_mem hsorted (k := x.1) (v := x.2) hxm
              apply alook_mem (k := x.1) (v := x.2)
              rw [hl, if_neg (Ne.symm hne)]; exact this
        cases hcond : (lowKeyIsLE d.key key closed && highKeyIsGE d.high key (!closed))
        · have hres : dcSearchChild key closed smo (.delta d nx) =
              dcSearchChild key closed smo nx := by
            simp [dcSearchChild, ht, hcond]
          rw [hres]
          have hfl : ∀ q, Floor nx.pre nx.flatBody key closed q →
              Floor nx.pre (ains d.key (.child p) nx.flatBody) key closed q := by
            intro q hq
            -- either the key is below the entry, or another entry is closer
            have hcl : ¬ LEc closed d.key key ∨ ∃ x ∈ nx.flatBody, LEc closed x.1 key ∧ d.key < x.1 := by
              by_cases hle : lowKeyIsLE d.key key closed = true
              · right
                rw [hle, Bool.true_and] at hcond
                have hnh : ¬ HighOK d.high key closed := by
                  intro e; rw [highKeyIsGE_iff.2 e] at hcond; cases hcond
                cases hdh : d.high with
                | none => exact absurd (by intro b e; rw [hdh] at e; cases e) hnh
                | some h =>
                  have hlt := x1 h hdh
                  have hhk : LEc closed h key := by
                    by_contra hc
                    apply hnh
                    intro b e
                    rw [hdh] at e; cases e
                    unfold LEc at hc
                    cases closed <;> simp at hc ⊢ <;> exact hc
                  have hin : HighOK nx.high h true := by
                    intro b hb
                    have := hhigh b hb
                    unfold LEc at hhk
                    cases closed <;> simp at this hhk ⊢ <;> order
                  obtain ⟨v, hv⟩ := Option.ne_none_iff_exists'.1 (x3 h hdh hin)
                  exact ⟨_, alook_mem hv, hhk, hlt⟩
              · exact Or.inl (not_lowKeyIsLE (by simpa using hle))
            rcases hq with ⟨sep, a1, a2, a3⟩ | ⟨a1, a2⟩
            · refine Or.inl ⟨sep, (hmem _).2 (Or.inr a1), a2, fun x hxm hl => ?_⟩
              rcases (hmem x).1 hxm with rfl | e
              · rcases hcl with e | ⟨y, y1, y2, y3⟩
                · exact absurd hl e
                · have := a3 y y1 y2; simp only; order
              · exact a3 x e hl
            · refine Or.inr ⟨a1, fun x hxm => ?_⟩
              rcases (hmem x).1 hxm with rfl | e
              · rcases hcl with e | ⟨y, y1, y2, y3⟩
                · exact e
                · exact absurd y2 (a2 y y1)
              · exact a2 x e
          rcases ih with ⟨q, e1, e2⟩ | ⟨w, q, e1, e2, e3⟩ | ⟨m, q, e1, e2, e3⟩
          · exact Or.inl ⟨q, e1, hfl q e2⟩
          · exact Or.inr (Or.inl ⟨w, q, e1, e2, hfl q e3⟩)
          · exact Or.inr (Or.inr ⟨m, q, e1, e2, hfl q e3⟩)
        · left
          refine ⟨p, by simp [dcSearchChild, ht, hcond, hp], Or.inl ⟨d.key, (hmem _).2 (Or.inl rfl),
            ?_, fun x hxm hl => ?_⟩⟩
          · rw [Bool.and_eq_true] at hcond; exact LEc.of_lowKeyIsLE hcond.1
          · rw [Bool.and_eq_true] at hcond
            rcases (hmem x).1 hxm with rfl | e
            · exact le_rfl
            · by_contra hlt
              obtain ⟨h, e1, e2⟩ := x2 x e (not_le.1 hlt)
              have := highKeyIsGE_iff.1 hcond.2 h e1
              unfold LEc at hl
              cases closed <;> simp at this hl <;> order
      | delete =>
        rw [ht] at hpay h4
        simp only [DPayOK, if_true] at hpay
        obtain ⟨w, hw⟩ := hpay
        obtain ⟨x1, x2, x3, _⟩ := hx2 (Or.inr ht)
        have hfb : (Chain.delta d nx).flatBody = adel d.key nx.flatBody := by
          simp [Chain.flatBody, ht]
        rw [hfb]
        cases hcond : (lowKeyIsLE d.key key closed && highKeyIsGE d.high key (!closed))
        · have hres : dcSearchChild key closed smo (.delta d nx) =
              dcSearchChild key closed smo nx := by
            simp [dcSearchChild, ht, hcond]
          rw [hres]
          have hfl : ∀ q, Floor nx.pre nx.flatBody key closed q →
              Floor nx.pre (adel d.key nx.flatBody) key closed q := by
            intro q hq
            have hcl : ¬ LEc closed d.key key ∨ ∃ x ∈ nx.flatBody, LEc closed x.1 key ∧ d.key < x.1 := by
              by_cases hle : lowKeyIsLE d.key key closed = true
              · right
                rw [hle, Bool.true_and] at hcond
                have hnh : ¬ HighOK d.high key closed := by
                  intro e; rw [highKeyIsGE_iff.2 e] at hcond; cases hcond
                cases hdh : d.high with
                | none => exact absurd (by intro b e; rw [hdh] at e; cases e) hnh
                | some h =>
                  have hlt := x1 h hdh
                  have hhk : LEc closed h key := by
                    by_contra hc
                    apply hnh
                    intro b e
                    rw [hdh] at e; cases e
                    unfold LEc at hc
                    cases closed <;> simp at hc ⊢ <;> exact hc
                  have hin : HighOK nx.high h true := by
                    intro b hb
                    have := hhigh b hb
                    unfold LEc at hhk
                    cases closed <;> simp at this hhk ⊢ <;> order
                  obtain ⟨v, hv⟩ := Option.ne_none_iff_exists'.1 (x3 h hdh hin)
                  exact ⟨_, alook_mem hv, hhk, hlt⟩
              · exact Or.inl (not_lowKeyIsLE (by simpa using hle))
            rcases hq with ⟨sep, a1, a2, a3⟩ | ⟨a1, a2⟩
            · refine Or.inl ⟨sep, mem_adel.2 ⟨a1, ?_⟩, a2, fun x hxm hl =>
                a3 x (mem_adel.1 hxm).1 hl⟩
              rintro rfl
              rcases hcl with e | ⟨y, y1, y2, y3⟩
              · exact e a2
              · have := a3 y y1 y2; order
            · exact Or.inr ⟨a1, fun x hxm => a2 x (mem_adel.1 hxm).1⟩
          rcases ih with ⟨q, e1, e2⟩ | ⟨w, q, e1, e2, e3⟩ | ⟨m, q, e1, e2, e3⟩
          · exact Or.inl ⟨q, e1, hfl q e2⟩
          · exact Or.inr (Or.inl ⟨w, q, e1, e2, hfl q e3⟩)
          · exact Or.inr (Or.inr ⟨m, q, e1, e2, hfl q e3⟩)
        · right; left
          obtain ⟨q, e1, e2⟩ := hx3 w hw
          refine ⟨w, q, by simp [dcSearchChild, ht, hcond, hw], e1, ?_⟩
          rw [Bool.and_eq_true] at hcond
          have hk := LEc.of_lowKeyIsLE hcond.1
          -- entries not above the key are below the deleted one
          have hbel : ∀ x ∈ adel d.key nx.flatBody, LEc closed x.1 key → LEc false x.1 d.key := by
            intro x hxm hl
            obtain ⟨hxm, hne⟩ := mem_adel.1 hxm
            by_contra hlt
            simp only [LEc, Bool.false_eq_true, if_false, not_lt] at hlt
            obtain ⟨h, e1, e2⟩ := x2 x hxm (lt_of_le_of_ne hlt (Ne.symm hne))
            have := highKeyIsGE_iff.1 hcond.2 h e1
            unfold LEc at hl
            cases closed <;> simp at this hl <;> order
          have hup : ∀ x : K, LEc false x d.key → LEc closed x key := by
            intro x hl
            unfold LEc at hk hl ⊢
            cases closed <;> simp at hk hl ⊢ <;> order
          rcases e2 with ⟨sep, a1, a2, a3⟩ | ⟨a1, a2⟩
          · refine Or.inl ⟨sep, mem_adel.2 ⟨a1, ?_⟩, hup _ a2, fun x hxm hl =>
              a3 x (mem_adel.1 hxm).1 (hbel x hxm hl)⟩
            rintro rfl
            simp [LEc] at a2
          · exact Or.inr ⟨a1, fun x hxm hl => a2 x (mem_adel.1 hxm).1 (hbel x hxm hl)⟩

/-- One step of a search in an exact chain. -/
theorem childStep_exact {fl : Nat → Option PID} {c : Chain K V} (h : ChainWF cfg true low c)
    (hx : ExactC fl c) (key : K) (closed : Bool) (hlow : LowOK low key closed)
    (hhigh : HighOK c.high key closed) :
    (∃ q, childStep key closed c = .child q ∧ Floor c.pre c.flatBody key closed q) ∨
    (∃ w q, childStep key closed c = .cell w ∧ fl w = some q ∧
      Floor c.pre c.flatBody key closed q) := by
  rcases dcSearchChild_exact h hx key closed hlow hhigh false with
    ⟨q, e1, e2⟩ | ⟨w, q, e1, e2, e3⟩ | ⟨n, q, e1, e2, e3⟩
  · exact Or.inl ⟨q, by simp [childStep, e1], e2⟩
  · exact Or.inr ⟨w, q, by simp [childStep, e1], e2, e3⟩
  · exact Or.inl ⟨q, by simp [childStep, e1, e2], e3⟩

/-- A search for a key beyond the range of an exact chain goes to the sibling. -/
theorem dcSearchChild_beyond {fl : Nat → Option PID} {c : Chain K V} (h : ChainWF cfg true low c)
    (hx : ExactC fl c) (key : K) (closed : Bool) (hhigh : ¬ HighOK c.high key closed) :
    dcSearchChild key closed false c = .sibling c.nextPid := by
  induction c with
  | base n =>
    have : highKeyIsGE n.high key (!closed) = false := by
      rw [← Bool.not_eq_true, highKeyIsGE_iff]; exact hhigh
    simp [dcSearchChild, this, Chain.nextPid]
  | removed l => exact h.elim
  | delta d nx ih =>
    obtain ⟨hx1, hx2, hx3⟩ := hx
    obtain ⟨hnx, _, hpay, _, _, _, h4⟩ := h
    by_cases hm : d.ty = .merge
    · rw [hm] at h4
      obtain ⟨hh, n, hn, hin, hlo, hhi, hwf⟩ := h4
      have hhd : (Chain.delta d nx).high = d.high := by simp [Chain.high, hm]
      rw [hhd] at hhigh
      have hge : highKeyIsGE d.high key (!closed) = false := by
        rw [← Bool.not_eq_true, highKeyIsGE_iff]; exact hhigh
      have hle : lowKeyIsLE d.key key closed = true := by
        rw [lowKeyIsLE_iff]
        cases hdh : d.high with
        | none => exact absurd (by intro b e; rw [hdh] at e; cases e) hhigh
        | some b =>
          have hlt := hwf.ne d.key b hlo (by rw [hhi]; exact hdh)
          by_contra hc
          apply hhigh
          intro b' e
          rw [hdh] at e; cases e
          cases closed <;> simp at hc ⊢ <;> order
      simp [dcSearchChild, hm, hle, hge, hn, Chain.nextPid]
    · have hhd : (Chain.delta d nx).high = nx.high := by simp [Chain.high, hm]
      rw [hhd] at hhigh
      have hnp : (Chain.delta d nx).nextPid = nx.nextPid := by simp [Chain.nextPid, hm]
      have ih := ih hnx hx1 hhigh
      have key' : d.ty = .insert ∨ d.ty = .delete → highKeyIsGE d.high key (!closed) = false := by
        intro ht
        obtain ⟨_, _, _, x4⟩ := hx2 ht
        rw [← Bool.not_eq_true, highKeyIsGE_iff]
        intro hk
        apply hhigh
        intro b hb
        obtain ⟨h, e1, e2⟩ := x4 b hb
        have := hk h e1
        cases closed <;> simp at this ⊢ <;> order
      rw [hnp, ← ih]
      cases ht : d.ty with
      | modify => rw [ht] at hpay; simp [DPayOK] at hpay
      | merge => exact absurd ht hm
      | insert => simp [dcSearchChild, ht, key' (Or.inl ht)]
      | delete => simp [dcSearchChild, ht, key' (Or.inr ht)]

theorem childStep_beyond {fl : Nat → Option PID} {c : Chain K V} (h : ChainWF cfg true low c)
    (hx : ExactC fl c) (key : K) (closed : Bool) (hhigh : ¬ HighOK c.high key closed) :
    childStep key closed c = .sibling c.nextPid := by
  simp [childStep, dcSearchChild_beyond h hx key closed hhigh]

end BwTree
