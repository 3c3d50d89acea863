import Verif.Conc.Code

/-!
# The page IDs in a chain (proof side)

Every page ID that the code takes from a chain, and every page ID in a node built by a consolidation,
is written in a record or node of the chain.
-/

namespace BwTree

set_option linter.unusedSectionVars false

variable {K V : Type}

/-- A page ID is written in a node. -/
def Node.Ids (n : Node K V) (q : PID) : Prop := q = n.next ∨ ∃ x ∈ n.recs, x.2 = .child q

/-- A page ID is written in the payload of a delta record. -/
def DPay.Ids : DPay K V → PID → Prop
  | .child p, q => q = p
  | .node n, q => n.Ids q
  | _, _ => False

/-- A page ID is written in a chain. -/
def Chain.Ids : Chain K V → PID → Prop
  | .base n, q => n.Ids q
  | .removed _, _ => False
  | .delta d c, q => d.pay.Ids q ∨ c.Ids q

variable [LinearOrder K] {key : K} {closed : Bool} {c : Chain K V} {q : PID}

theorem dcSearchChild_ids {smo : Bool} :
    (dcSearchChild key closed smo c = .child q → c.Ids q) ∧
    (dcSearchChild key closed smo c = .sibling q → c.Ids q) ∧
    (∀ n, dcSearchChild key closed smo c = .base n → n.Ids q → c.Ids q) := by
  induction c generalizing smo with
  | base n =>
    simp only [dcSearchChild]
    split
    · exact ⟨fun h => (nomatch h), fun h => by cases h; exact Or.inl rfl, fun _ h => (nomatch h)⟩
    · exact ⟨fun h => (nomatch h), fun h => (nomatch h), fun _ h => by cases h; exact id⟩
  | removed b => exact ⟨fun h => (nomatch h), fun h => (nomatch h), fun _ h => (nomatch h)⟩
  | delta d c ih =>
    have hi : ∀ smo, _ := fun smo => (⟨fun h => Or.inr ((ih (smo := smo)).1 h),
      fun h => Or.inr ((ih (smo := smo)).2.1 h), fun n h x => Or.inr ((ih (smo := smo)).2.2 n h x)⟩ :
      (dcSearchChild key closed smo c = .child q → (Chain.delta d c).Ids q) ∧
      (dcSearchChild key closed smo c = .sibling q → (Chain.delta d c).Ids q) ∧
      (∀ n, dcSearchChild key closed smo c = .base n → n.Ids q → (Chain.delta d c).Ids q))
    rw [dcSearchChild]
    cases ht : d.ty with
    | insert =>
      simp only
      split
      · split
        · rename_i e
          refine ⟨fun h => ?_, fun h => (nomatch h), fun _ h => (nomatch h)⟩
          cases h
          exact Or.inl (by rw [e]; exact rfl)
        · exact ⟨fun h => (nomatch h), fun h => (nomatch h), fun _ h => (nomatch h)⟩
      · exact hi _
    | modify => exact ⟨fun h => (nomatch h), fun h => (nomatch h), fun _ h => (nomatch h)⟩
    | delete =>
      simp only
      split
      · split
        · exact ⟨fun h => (nomatch h), fun h => (nomatch h), fun _ h => (nomatch h)⟩
        · exact ⟨fun h => (nomatch h), fun h => (nomatch h), fun _ h => (nomatch h)⟩
      · exact hi _
    | merge =>
      simp only
      split
      · split
        · rename_i n e
          split
          · refine ⟨fun h => (nomatch h), fun h => ?_, fun _ h => (nomatch h)⟩
            cases h
            exact Or.inl (by rw [e]; exact Or.inl rfl)
          · refine ⟨fun h => (nomatch h), fun h => (nomatch h), fun m h => ?_⟩
            cases h
            exact fun h => Or.inl (by rw [e]; exact h)
        · exact ⟨fun h => (nomatch h), fun h => (nomatch h), fun _ h => (nomatch h)⟩
      · exact hi _

theorem Node.searchChild_ids {n : Node K V} (h : n.searchChild key closed = some q) : n.Ids q := by
  unfold Node.searchChild at h
  split at h
  · cases h
  · simp only at h
    split at h
    · rename_i e
      cases h
      exact Or.inr ⟨_, List.mem_of_getElem? e, rfl⟩
    · cases h

theorem childStep_ids : (childStep key closed c = .child q → c.Ids q) ∧
    (childStep key closed c = .sibling q → c.Ids q) := by
  unfold childStep
  split
  · exact ⟨fun h => by cases h; exact dcSearchChild_ids.1 ‹_›, fun h => (nomatch h)⟩
  · exact ⟨fun h => (nomatch h), fun h => (nomatch h)⟩
  · exact ⟨fun h => (nomatch h), fun h => by cases h; exact dcSearchChild_ids.2.1 ‹_›⟩
  · exact ⟨fun h => (nomatch h), fun h => (nomatch h)⟩
  · split
    · refine ⟨fun h => ?_, fun h => (nomatch h)⟩
      cases h
      exact dcSearchChild_ids.2.2 _ ‹_› (Node.searchChild_ids ‹_›)
    · exact ⟨fun h => (nomatch h), fun h => (nomatch h)⟩
  · exact ⟨fun h => (nomatch h), fun h => (nomatch h)⟩

theorem dcSearchRecord_ids {smo : Bool} (h : dcSearchRecord key smo c = .sibling q) : c.Ids q := by
  induction c generalizing smo with
  | base n =>
    simp only [dcSearchRecord] at h
    split at h
    · cases h; exact Or.inl rfl
    · cases h
  | removed b => cases h
  | delta d c ih =>
    rw [dcSearchRecord] at h
    cases ht : d.ty with
    | insert => rw [ht] at h; simp only at h; split at h <;> [cases h; exact Or.inr (ih h)]
    | modify => rw [ht] at h; simp only at h; split at h <;> [cases h; exact Or.inr (ih h)]
    | delete => rw [ht] at h; simp only at h; split at h <;> [cases h; exact Or.inr (ih h)]
    | merge =>
      rw [ht] at h
      simp only at h
      split at h
      · split at h
        · rename_i n e
          split at h
          · cases h
            exact Or.inl (by rw [e]; exact Or.inl rfl)
          · cases h
        · cases h
      · exact Or.inr (ih h)

theorem readChain_ids (h : readChain key c = .sibling q) : c.Ids q := by
  unfold readChain at h
  split at h <;> try cases h
  · exact dcSearchRecord_ids ‹_›
  · split at h
    · cases h
    · unfold payloadAt at h; split at h <;> cases h
    · cases h

theorem keyCheck_ids (h : keyCheck key c = .sibling q) : c.Ids q := by
  unfold keyCheck at h
  split at h <;> try cases h
  · exact dcSearchRecord_ids ‹_›
  · split at h <;> cases h

theorem dcValidate_ids (h : dcValidate key closed c = .sibling q) : c.Ids q := by
  induction c with
  | base n =>
    simp only [dcValidate] at h
    split at h
    · cases h; exact Or.inl rfl
    · cases h
  | removed b => cases h
  | delta d c ih =>
    rw [dcValidate] at h
    split at h
    · split at h
      · split at h
        · rename_i e
          cases h
          exact Or.inl (by rw [e]; exact Or.inl rfl)
        · cases h
      · cases h
    · exact Or.inr (ih h)

theorem dcSearchForMerge_ids {sib : Option K} {smo kf sf : Bool}
    (h : dcSearchForMerge key sib smo kf sf c = .sibling q) : c.Ids q := by
  induction c generalizing smo kf sf with
  | base n =>
    simp only [dcSearchForMerge] at h
    split at h
    · cases h
    · split at h
      · cases h; exact Or.inl rfl
      · cases h
  | removed b => cases h
  | delta d c ih =>
    rw [dcSearchForMerge] at h
    cases ht : d.ty with
    | insert =>
      rw [ht] at h
      simp only at h
      split at h
      · cases h
      · split at h
        · cases h
        · exact Or.inr (ih h)
    | modify => rw [ht] at h; cases h
    | delete =>
      rw [ht] at h
      simp only at h
      split at h
      · cases h
      · split at h
        · cases h
        · exact Or.inr (ih h)
    | merge =>
      rw [ht] at h
      simp only at h
      split at h
      · split at h
        · rename_i e
          split at h
          · cases h
            exact Or.inl (by rw [e]; exact Or.inl rfl)
          · cases h
        · cases h
      · split at h
        · cases h
        · exact Or.inr (ih h)

theorem mergeStep_ids {cfg : Cfg K} {sib : Option K} (h : (mergeStep cfg key sib c).1 = .sibling q) :
    c.Ids q := by
  unfold mergeStep at h
  split at h
  · simp only [mergeCheckB] at h
    split at h <;> try cases h
    · rename_i e
      have := dcSearchForMergeB_fst key sib c false false (!sib.isSome)
      rw [e] at this
      exact dcSearchForMerge_ids this.symm
    · split at h
      · cases h
      · split at h
        · dsimp only at h; split at h <;> cases h
        · split at h
          · cases h
          · dsimp only at h; split at h <;> cases h
        · cases h
  · simp only [mergeCheck] at h
    split at h <;> try cases h
    · exact dcSearchForMerge_ids ‹_›
    · split at h
      · cases h
      · split at h
        · split at h <;> cases h
        · split at h
          · cases h
          · split at h <;> cases h
        · cases h

theorem leftmostChild_ids (h : c.leftmostChild = some q) : c.Ids q := by
  induction c with
  | base n =>
    simp only [Chain.leftmostChild] at h
    split at h
    · rename_i e
      cases h
      exact Or.inr ⟨_, by rw [e]; exact List.mem_cons_self, rfl⟩
    · cases h
  | removed b => cases h
  | delta d c ih => exact Or.inr (ih h)

/-! ## Consolidation -/

section
variable {P : PID → Prop}

/-- The page IDs of a record satisfy `P`. -/
def RecP (P : PID → Prop) (x : K × Pay V) : Prop := ∀ q, x.2 = .child q → P q

/-- The page IDs of a copy satisfy `P`. -/
def CopyP (P : PID → Prop) : Copy K V → Prop
  | .first r | .node r => RecP P r
  | .delta d => ∀ q, d.pay.Ids q → P q

theorem addByInsertionSort_mem {d x : Delta K V} {l : List (Delta K V)}
    (h : x ∈ addByInsertionSort d l) : x = d ∨ x ∈ l := by
  induction l with
  | nil => exact Or.inl (List.mem_singleton.1 h)
  | cons r rs ih =>
    simp only [addByInsertionSort] at h
    split at h
    · rcases List.mem_cons.1 h with e | h
      · exact Or.inr (e ▸ List.mem_cons_self)
      · exact (ih h).imp_right fun h => List.mem_cons_of_mem _ h
    · split at h
      · exact List.mem_cons.1 h
      · exact Or.inr h

theorem dcSort_ids {c : Chain K V} : ∀ {arr : List (Delta K V)} {nodes : List (Node K V)}
    {arr' : List (Delta K V)} {nodes' : List (Node K V)},
    dcSort arr nodes c = some (arr', nodes') → (∀ q, c.Ids q → P q) →
    (∀ d ∈ arr, ∀ q, d.pay.Ids q → P q) → (∀ n ∈ nodes, ∀ q, n.Ids q → P q) →
    (∀ d ∈ arr', ∀ q, d.pay.Ids q → P q) ∧ (∀ n ∈ nodes', ∀ q, n.Ids q → P q) := by
  induction c with
  | base n =>
    intro arr nodes arr' nodes' h hc ha hn
    cases h
    refine ⟨ha, fun m hm => ?_⟩
    rcases List.mem_append.1 hm with hm | hm
    · exact hn m hm
    · rw [List.mem_singleton.1 hm]; exact hc
  | removed b => intro _ _ _ _ h; cases h
  | delta d c ih =>
    intro arr nodes arr' nodes' h hc ha hn
    rw [dcSort] at h
    split at h
    · split at h
      · rename_i n e
        refine ih h (fun q hq => hc q (Or.inr hq)) ha fun m hm => ?_
        rcases List.mem_append.1 hm with hm | hm
        · exact hn m hm
        · rw [List.mem_singleton.1 hm]
          exact fun q hq => hc q (Or.inl (by rw [e]; exact hq))
      · cases h
    · refine ih h (fun q hq => hc q (Or.inr hq)) (fun x hx => ?_) hn
      rcases addByInsertionSort_mem hx with e | hx
      · rw [e]; exact fun q hq => hc q (Or.inl hq)
      · exact ha x hx

theorem mergeRecs_ids : ∀ {rs : List (K × Pay V)} {arr : List (Delta K V)},
    (∀ r ∈ rs, RecP P r) → (∀ d ∈ arr, ∀ q, d.pay.Ids q → P q) →
    (∀ x ∈ (mergeRecs rs arr).1, CopyP P x) ∧ ∀ d ∈ (mergeRecs rs arr).2, ∀ q, d.pay.Ids q → P q
  | [], arr, _, ha => ⟨fun x hx => (nomatch hx), ha⟩
  | r :: rs, arr, hr, ha => by
    have hr1 := hr r List.mem_cons_self
    have hr2 : ∀ x ∈ rs, RecP P x := fun x hx => hr x (List.mem_cons_of_mem _ hx)
    have hlt : ∀ x ∈ (arr.takeWhile fun d => decide (d.key < r.1)).map (Copy.delta (V := V)),
        CopyP P x := by
      intro x hx
      obtain ⟨d, hd, e⟩ := List.mem_map.1 hx
      rw [← e]
      exact ha d ((List.takeWhile_sublist _).mem hd)
    have hrest : ∀ x ∈ arr.dropWhile fun d => decide (d.key < r.1), ∀ q, x.pay.Ids q → P q :=
      fun x hx => ha x ((List.dropWhile_sublist _).mem hx)
    rw [mergeRecs]
    simp only
    split
    · rename_i d rest' e
      rw [e] at hrest
      split
      · have hi := mergeRecs_ids (rs := rs) (arr := rest') hr2
          fun x hx => hrest x (List.mem_cons_of_mem _ hx)
        refine ⟨fun x hx => ?_, hi.2⟩
        rcases List.mem_append.1 hx with hx | hx
        · exact hlt x hx
        · rcases List.mem_cons.1 hx with e | hx
          · rw [e]; exact hrest d List.mem_cons_self
          · exact hi.1 x hx
      · have hi := mergeRecs_ids (rs := rs) (arr := d :: rest') hr2 hrest
        refine ⟨fun x hx => ?_, hi.2⟩
        rcases List.mem_append.1 hx with hx | hx
        · exact hlt x hx
        · rcases List.mem_cons.1 hx with e | hx
          · rw [e]; exact hr1
          · exact hi.1 x hx
    · have hi := mergeRecs_ids (rs := rs) (arr := []) hr2 fun x hx => (nomatch hx)
      refine ⟨fun x hx => ?_, hi.2⟩
      rcases List.mem_append.1 hx with hx | hx
      · exact hlt x hx
      · rcases List.mem_cons.1 hx with e | hx
        · rw [e]; exact hr1
        · exact hi.1 x hx

theorem copySeq_ids : ∀ {ns : List (Node K V)} {arr : List (Delta K V)} {seq : List (Copy K V)},
    copySeq ns arr = some seq → (∀ n ∈ ns, ∀ q, n.Ids q → P q) →
    (∀ d ∈ arr, ∀ q, d.pay.Ids q → P q) → ∀ x ∈ seq, CopyP P x
  | [], arr, seq, h, _, ha => by
    cases h
    intro x hx
    obtain ⟨d, hd, e⟩ := List.mem_map.1 hx
    rw [← e]
    exact ha d hd
  | n :: ns, arr, seq, h, hn, ha => by
    have hn1 : ∀ x ∈ n.recs, RecP P x := fun x hx q e => hn n List.mem_cons_self q (Or.inr ⟨x, hx, e⟩)
    have hn2 : ∀ m ∈ ns, ∀ q, m.Ids q → P q := fun m hm => hn m (List.mem_cons_of_mem _ hm)
    rw [copySeq] at h
    split at h
    · split at h
      · cases h
      · rename_i r rs e
        rw [e] at hn1
        have hm := mergeRecs_ids (rs := rs) (arr := arr) (fun x hx => hn1 x (List.mem_cons_of_mem _ hx)) ha
        rw [Option.map_eq_some_iff] at h
        obtain ⟨l, e1, e2⟩ := h
        have hi := copySeq_ids e1 hn2 hm.2
        rw [← e2]
        intro x hx
        rcases List.mem_cons.1 hx with e | hx
        · rw [e]; exact hn1 r List.mem_cons_self
        · rcases List.mem_append.1 hx with hx | hx
          · exact hm.1 x hx
          · exact hi x hx
    · have hm := mergeRecs_ids (rs := n.recs) (arr := arr) hn1 ha
      rw [Option.map_eq_some_iff] at h
      obtain ⟨l, e1, e2⟩ := h
      have hi := copySeq_ids e1 hn2 hm.2
      rw [← e2]
      intro x hx
      rcases List.mem_append.1 hx with hx | hx
      · exact hm.1 x hx
      · exact hi x hx

theorem copyRec_ids {cfg : Cfg K} {len : Nat} {sp : Bool} {st : CopySt K V} {x : K × Pay V}
    (h1 : ∀ r ∈ st.l, RecP P r) (h2 : ∀ r ∈ st.r, RecP P r) (hx : RecP P x) :
    (∀ r ∈ (copyRec cfg len sp st x).l, RecP P r) ∧ ∀ r ∈ (copyRec cfg len sp st x).r, RecP P r := by
  unfold copyRec
  split
  · refine ⟨h1, fun r hr => ?_⟩
    rcases List.mem_append.1 hr with hr | hr
    · exact h2 r hr
    · rw [List.mem_singleton.1 hr]; exact hx
  · refine ⟨fun r hr => ?_, h2⟩
    rcases List.mem_append.1 hr with hr | hr
    · exact h1 r hr
    · rw [List.mem_singleton.1 hr]; exact hx

theorem copyAll_ids {cfg : Cfg K} {len : Nat} {sp : Bool} : ∀ {seq : List (Copy K V)}
    {st st' : CopySt K V}, copyAll cfg len sp st seq = some st' → (∀ x ∈ seq, CopyP P x) →
    (∀ r ∈ st.l, RecP P r) → (∀ r ∈ st.r, RecP P r) →
    (∀ r ∈ st'.l, RecP P r) ∧ ∀ r ∈ st'.r, RecP P r
  | [], st, st', h, _, h1, h2 => by cases h; exact ⟨h1, h2⟩
  | x :: xs, st, st', h, hx, h1, h2 => by
    rw [copyAll, Option.bind_eq_some_iff] at h
    obtain ⟨st1, e1, e2⟩ := h
    have hx1 := hx x List.mem_cons_self
    have hs : (∀ r ∈ st1.l, RecP P r) ∧ ∀ r ∈ st1.r, RecP P r := by
      cases x with
      | first r => cases e1; exact copyRec_ids h1 h2 hx1
      | node r => cases e1; exact copyRec_ids h1 h2 hx1
      | delta d =>
        rw [copyOne] at e1
        split at e1
        · cases e1; exact ⟨h1, h2⟩
        · rw [Option.map_eq_some_iff] at e1
          obtain ⟨r, e3, e4⟩ := e1
          rw [← e4]
          refine copyRec_ids h1 h2 fun q hq => hx1 q ?_
          unfold Delta.toRec at e3
          split at e3
          · cases e3; cases hq
          · rename_i e
            cases e3
            cases hq
            rw [e]
            exact rfl
          · cases e3
    exact copyAll_ids e2 (fun y hy => hx y (List.mem_cons_of_mem _ hy)) hs.1 hs.2

/-- The page IDs of the nodes a structure modification is about to write. -/
def SmoP (P : PID → Prop) : SMO K V → Prop
  | .consolidate n | .merge n => ∀ q, n.Ids q → P q
  | .split l r => (∀ q, (∃ x ∈ l.recs, x.2 = .child q) → P q) ∧ ∀ q, r.Ids q → P q

theorem tryConsolidate_ids {cfg : Cfg K} {scan : Bool} {c : Chain K V} {s : SMO K V}
    (h : tryConsolidate cfg scan c = some s) (hc : ∀ q, c.Ids q → P q) : SmoP P s := by
  rw [tryConsolidate] at h
  split at h
  · cases h
  · rename_i arr nodes e
    have hs := dcSort_ids e hc (fun _ h => (nomatch h)) (fun _ h => (nomatch h))
    simp only at h
    split at h
    · rename_i seq front back e1 e2 e3
      have hq := copySeq_ids e1 (fun n hn => hs.2 n (List.mem_reverse.1 hn)) hs.1
      have hf : P front.next := by
        refine hs.2 front (List.mem_of_mem_head? e2) _ (Or.inl rfl)
      split at h
      · cases h
      · rename_i st e4
        have hst := copyAll_ids e4 hq (fun _ h => (nomatch h)) (fun _ h => (nomatch h))
        split at h
        · split at h
          · cases h
            rename_i x xs hsw hr
            refine ⟨fun q ⟨x, hx, e⟩ => hst.1 x hx q e, fun q hq => ?_⟩
            rcases hq with e | ⟨x, hx, e⟩
            · rw [e]; exact hf
            · exact hst.2 x hx q e
          · cases h
        · split at h
          · cases h
            rintro q (e | ⟨x, hx, e⟩)
            · rw [e]; exact hf
            · exact hst.1 x hx q e
          · cases h
            rintro q (e | ⟨x, hx, e⟩)
            · rw [e]; exact hf
            · exact hst.1 x hx q e
    · cases h

end

theorem scanOut_ids {cfg : Cfg K} {b e : Spec.Bound K} {k : K} {l : List (K × V)}
    (h : scanOut cfg b e c = some (l, some (k, q))) : c.Ids q := by
  unfold scanOut at h
  split at h
  · cases h
  · rename_i n hn
    have hnx : c.Ids n.next := by
      unfold scanNode at hn
      split at hn
      · rename_i ht
        cases hn
        have := tryConsolidate_ids (P := c.Ids) ht fun _ h => h
        exact this _ (Or.inl rfl)
      · rename_i ht
        cases hn
        have := tryConsolidate_ids (P := c.Ids) ht fun _ h => h
        exact this _ (Or.inl rfl)
      · cases hn
    split at h
    · split at h
      · cases h
      · have h := congrArg Prod.snd (Option.some.inj h)
        simp only at h
        split at h
        · cases h
        · rw [Option.map_eq_some_iff] at h
          obtain ⟨x, e1, e2⟩ := h
          cases e2
          exact hnx
    · cases h

end BwTree
