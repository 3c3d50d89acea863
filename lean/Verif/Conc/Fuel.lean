import Verif.Conc.Code

/-!
# More loop iterations do no harm (helper lemmas)

A program with a larger bound on its loops does the same, except that it goes on where the other one
has used up its bound.
-/

namespace BwTree

set_option linter.unusedSectionVars false

variable {K V : Type} {α β : Type}

/-- `q` does what `p` does, and goes on where `p` is stuck. -/
inductive Ext : Prog K V α → Prog K V α → Prop
  | ret (a : α) : Ext (.ret a) (.ret a)
  | ub : Ext .ub .ub
  | stuck (q : Prog K V α) : Ext .stuck q
  | flag (k : Flag) : Ext (.flag k) (.flag k)
  | loadRoot {k k' : PID → Prog K V α} : (∀ x, Ext (k x) (k' x)) → Ext (.loadRoot k) (.loadRoot k')
  | storeRoot (p : PID) {k k' : Prog K V α} : Ext k k' → Ext (.storeRoot p k) (.storeRoot p k')
  | casRoot (o n : PID) {k k' : Bool → Prog K V α} : (∀ x, Ext (k x) (k' x)) →
      Ext (.casRoot o n k) (.casRoot o n k')
  | load (p : PID) {k k' : Chain K V → Prog K V α} : (∀ x, Ext (k x) (k' x)) →
      Ext (.load p k) (.load p k')
  | store (p : PID) (c : Chain K V) {k k' : Prog K V α} : Ext k k' → Ext (.store p c k) (.store p c k')
  | cas (p : PID) (o n : Chain K V) {k k' : Bool → Prog K V α} : (∀ x, Ext (k x) (k' x)) →
      Ext (.cas p o n k) (.cas p o n k')
  | newPid {k k' : PID → Prog K V α} : (∀ x, Ext (k x) (k' x)) → Ext (.newPid k) (.newPid k')
  | newCell {k k' : Nat → Prog K V α} : (∀ x, Ext (k x) (k' x)) → Ext (.newCell k) (.newCell k')
  | loadCell (w : Nat) {k k' : PID → Prog K V α} : (∀ x, Ext (k x) (k' x)) →
      Ext (.loadCell w k) (.loadCell w k')
  | storeCell (w : Nat) (p : PID) {k k' : Prog K V α} : Ext k k' →
      Ext (.storeCell w p k) (.storeCell w p k')

theorem Ext.refl (p : Prog K V α) : Ext p p := by
  induction p with
  | ret a => exact .ret a
  | ub => exact .ub
  | stuck => exact .stuck _
  | flag k => exact .flag k
  | loadRoot k ih => exact .loadRoot ih
  | storeRoot p k ih => exact .storeRoot p ih
  | casRoot o n k ih => exact .casRoot o n ih
  | load p k ih => exact .load p ih
  | store p c k ih => exact .store p c ih
  | cas p o n k ih => exact .cas p o n ih
  | newPid k ih => exact .newPid ih
  | newCell k ih => exact .newCell ih
  | loadCell w k ih => exact .loadCell w ih
  | storeCell w p k ih => exact .storeCell w p ih

theorem Ext.bind {p q : Prog K V α} {g g' : α → Prog K V β} (h : Ext p q)
    (hg : ∀ a, Ext (g a) (g' a)) : Ext (p.bind g) (q.bind g') := by
  induction h with
  | ret a => exact hg a
  | ub => exact .ub
  | stuck q => exact .stuck _
  | flag k => exact .flag k
  | loadRoot _ ih => exact .loadRoot ih
  | storeRoot p _ ih => exact .storeRoot p ih
  | casRoot o n _ ih => exact .casRoot o n ih
  | load p _ ih => exact .load p ih
  | store p c _ ih => exact .store p c ih
  | cas p o n _ ih => exact .cas p o n ih
  | newPid _ ih => exact .newPid ih
  | newCell _ ih => exact .newCell ih
  | loadCell w _ ih => exact .loadCell w ih
  | storeCell w p _ ih => exact .storeCell w p ih

theorem Ext.bindSame {p : Prog K V α} {g g' : α → Prog K V β}
    (hg : ∀ a, Ext (g a) (g' a)) : Ext (p.bind g) (p.bind g') := (Ext.refl p).bind hg

variable [LinearOrder K] {cfg : Cfg K} {f f' : Nat}

theorem ite_ext {c : Prop} [Decidable c] {a b a' b' : Prog K V α} (h1 : Ext a a') (h2 : Ext b b') :
    Ext (if c then a else b) (if c then a' else b') := by
  split
  · exact h1
  · exact h2

theorem loadValidHead_ext (h : f ≤ f') (p : PID) :
    Ext (loadValidHead (K := K) (V := V) cfg f p) (loadValidHead cfg f' p) := by
  induction f generalizing f' with
  | zero => exact .stuck _
  | succ f ih =>
    obtain ⟨f', rfl⟩ := Nat.exists_eq_add_of_le' (Nat.le_trans (Nat.le_add_left 1 _) h)
    exact .load _ fun c => ite_ext (ih (by omega)) (.refl _)

theorem waitCell_ext (h : f ≤ f') (w : Nat) :
    Ext (waitCell (K := K) (V := V) f w) (waitCell f' w) := by
  induction f generalizing f' with
  | zero => exact .stuck _
  | succ f ih =>
    obtain ⟨f', rfl⟩ := Nat.exists_eq_add_of_le' (Nat.le_trans (Nat.le_add_left 1 _) h)
    exact .loadCell _ fun c => ite_ext (ih (by omega)) (.refl _)

theorem searchChild_ext {key : K} {closed : Bool} {tgt : PID} (h : f ≤ f') (stk : Stk) :
    Ext (searchChild (V := V) key closed tgt f stk) (searchChild key closed tgt f' stk) := by
  induction f generalizing f' stk with
  | zero => exact .stuck _
  | succ f ih =>
    obtain ⟨f', rfl⟩ := Nat.exists_eq_add_of_le' (Nat.le_trans (Nat.le_add_left 1 _) h)
    have h' : f ≤ f' := by omega
    cases stk with
    | nil => exact .refl _
    | cons p rest =>
      refine .load _ fun c => ite_ext (.refl _) ?_
      cases childStep key closed c with
      | child q => exact .refl _
      | cell w => exact (waitCell_ext h' w).bind fun _ => .refl _
      | sibling q => exact ite_ext (.refl _) (ih h' _)
      | removed =>
        refine ite_ext (ite_ext (.refl _) (.loadRoot fun r => ih h' _)) ?_
        exact (ih h' _).bind fun x => ite_ext (.refl _) (ite_ext (.refl _) (ih h' _))
      | ub => exact .refl _

theorem searchLeafLoop_ext {key : K} {closed : Bool} (h : f ≤ f') (stk : Stk) :
    Ext (searchLeafLoop (V := V) key closed f stk) (searchLeafLoop key closed f' stk) := by
  induction f generalizing f' stk with
  | zero => exact .stuck _
  | succ f ih =>
    obtain ⟨f', rfl⟩ := Nat.exists_eq_add_of_le' (Nat.le_trans (Nat.le_add_left 1 _) h)
    have h' : f ≤ f' := by omega
    cases stk with
    | nil => exact .refl _
    | cons p rest =>
      exact .load _ fun c => ite_ext (.refl _) ((searchChild_ext h' _).bind fun x => ih h' _)

theorem searchLeaf_ext {key : K} {closed : Bool} (h : f ≤ f') :
    Ext (searchLeaf (V := V) key closed f) (searchLeaf key closed f') :=
  .loadRoot fun _ => searchLeafLoop_ext h _

theorem searchTarget_ext {key : K} {ti : Bool} {tgt : PID} (h : f ≤ f') (stk : Stk) :
    Ext (searchTarget (V := V) key ti tgt f stk) (searchTarget key ti tgt f' stk) := by
  induction f generalizing f' stk with
  | zero => exact .stuck _
  | succ f ih =>
    obtain ⟨f', rfl⟩ := Nat.exists_eq_add_of_le' (Nat.le_trans (Nat.le_add_left 1 _) h)
    have h' : f ≤ f' := by omega
    cases stk with
    | nil => exact .loadRoot fun r => ih h' _
    | cons p rest =>
      exact .load _ fun c => ite_ext (.refl _) ((searchChild_ext h' _).bind fun x =>
        ite_ext (.refl _) (ih h' _))

theorem getHead_ext {key : K} {closed : Bool} {tgt : PID} (h : f ≤ f') (stk : Stk) :
    Ext (getHead (V := V) cfg key closed tgt f stk) (getHead cfg key closed tgt f' stk) := by
  induction f generalizing f' stk with
  | zero => exact .stuck _
  | succ f ih =>
    obtain ⟨f', rfl⟩ := Nat.exists_eq_add_of_le' (Nat.le_trans (Nat.le_add_left 1 _) h)
    have h' : f ≤ f' := by omega
    cases stk with
    | nil => exact .refl _
    | cons p rest =>
      refine (loadValidHead_ext h' _).bind fun c => ?_
      cases dcValidate key closed c with
      | ok => exact .refl _
      | sibling q => exact ite_ext (.refl _) (ih h' _)
      | removed =>
        refine ite_ext (ite_ext (.refl _) ((searchLeaf_ext h').bind fun r => ih h' _)) ?_
        exact (searchChild_ext h' _).bind fun x => ite_ext (.refl _) (ih h' _)
      | ub => exact .refl _

theorem getHeadKC_ext {key : K} (h : f ≤ f') (stk : Stk) :
    Ext (getHeadKC (V := V) cfg key f stk) (getHeadKC cfg key f' stk) := by
  induction f generalizing f' stk with
  | zero => exact .stuck _
  | succ f ih =>
    obtain ⟨f', rfl⟩ := Nat.exists_eq_add_of_le' (Nat.le_trans (Nat.le_add_left 1 _) h)
    have h' : f ≤ f' := by omega
    cases stk with
    | nil => exact .refl _
    | cons p rest =>
      refine (loadValidHead_ext h' _).bind fun c => ite_ext (.refl _) ?_
      cases keyCheck key c with
      | ret b => exact .refl _
      | sibling q => exact ih h' _
      | removed =>
        exact ite_ext ((searchLeaf_ext h').bind fun r => ih h' _)
          ((searchChild_ext h' _).bind fun x => ih h' _)
      | ub => exact .refl _

theorem getHeadForMerge_ext {key : K} (h : f ≤ f') (sib : Option K) (stk : Stk) :
    Ext (getHeadForMerge (V := V) cfg key f sib stk) (getHeadForMerge cfg key f' sib stk) := by
  induction f generalizing f' sib stk with
  | zero => exact .stuck _
  | succ f ih =>
    obtain ⟨f', rfl⟩ := Nat.exists_eq_add_of_le' (Nat.le_trans (Nat.le_add_left 1 _) h)
    have h' : f ≤ f' := by omega
    cases stk with
    | nil => exact .refl _
    | cons p rest =>
      refine (loadValidHead_ext h' _).bind fun c => ?_
      cases (mergeStep cfg key sib c).1 with
      | ok => exact .refl _
      | abort => exact .refl _
      | sibling q => exact ih h' _ _
      | ub => exact .refl _

/-! ## Structure modifications -/

section
variable {smo smo' : Chain K V → Stk → Prog K V Unit}

theorem splitLoop_ext (hs : ∀ c st, Ext (smo c st) (smo' c st)) {sep : K} {high : Option K}
    {ri : Bool} {rpid lpid : PID} (h : f ≤ f') (stk : Stk) :
    Ext (splitLoop cfg smo sep high ri rpid lpid f stk)
      (splitLoop cfg smo' sep high ri rpid lpid f' stk) := by
  induction f generalizing f' stk with
  | zero => cases stk <;> exact .stuck _
  | succ f ih =>
    obtain ⟨f', rfl⟩ := Nat.exists_eq_add_of_le' (Nat.le_trans (Nat.le_add_left 1 _) h)
    have h' : f ≤ f' := by omega
    cases stk with
    | nil =>
      refine Ext.bindSame fun b => ite_ext (.refl _) ((searchTarget_ext h' _).bind fun s => ?_)
      cases s with
      | nil => exact .refl _
      | cons x s => exact ih h' _
    | cons x xs =>
      refine (getHead_ext h' _).bind fun o => ?_
      rcases o with _ | ⟨c, _ | ⟨p, rest⟩⟩
      · exact ih h' _
      · exact .refl _
      · exact .cas _ _ _ fun b => ite_ext (ite_ext (hs _ _) (.refl _)) (ih h' _)

theorem split_ext (hs : ∀ c st, Ext (smo c st) (smo' c st)) (h : f ≤ f') {l r : Node K V} {sep : K}
    (stk : Stk) : Ext (split cfg smo f l r sep stk) (split cfg smo' f' l r sep stk) := by
  cases stk with
  | nil => exact .refl _
  | cons p rest =>
    exact .newPid fun r => .store _ _ (.store _ _ (splitLoop_ext hs h _))

theorem deleteLoop_ext (hs : ∀ c st, Ext (smo c st) (smo' c st)) {dk : K} {high : Option K}
    {w : Nat} (h : f ≤ f') (sib : Option K) (stk : Stk) :
    Ext (deleteLoop cfg smo dk high w f sib stk) (deleteLoop cfg smo' dk high w f' sib stk) := by
  induction f generalizing f' sib stk with
  | zero => exact .stuck _
  | succ f ih =>
    obtain ⟨f', rfl⟩ := Nat.exists_eq_add_of_le' (Nat.le_trans (Nat.le_add_left 1 _) h)
    have h' : f ≤ f' := by omega
    refine (getHeadForMerge_ext h' _ _).bind fun x => ite_ext ?_ (.refl _)
    rcases x with ⟨_ | ⟨p, rest⟩, c, b⟩
    · exact .refl _
    · exact .cas _ _ _ fun b =>
        ite_ext (ite_ext ((hs _ _).bind fun _ => .refl _) (.refl _)) (ih h' _ _)

theorem tryDeleteIndexEntry_ext (hs : ∀ c st, Ext (smo c st) (smo' c st)) (h : f ≤ f')
    {n : Node K V} (stk : Stk) :
    Ext (tryDeleteIndexEntry cfg smo f n stk) (tryDeleteIndexEntry cfg smo' f' n stk) := by
  refine ite_ext (.refl _) ?_
  cases n.low with
  | none => exact .refl _
  | some dk => exact .newCell fun w => deleteLoop_ext hs h _ _

theorem mergeLoop_ext (hs : ∀ c st, Ext (smo c st) (smo' c st)) {n : Node K V} {dk : K} {w : Nat}
    {rem : PID} (h : f ≤ f') (b : Bool) (stk : Stk) :
    Ext (mergeLoop cfg smo n dk w rem f b stk) (mergeLoop cfg smo' n dk w rem f' b stk) := by
  induction f generalizing f' b stk with
  | zero => exact .stuck _
  | succ f ih =>
    obtain ⟨f', rfl⟩ := Nat.exists_eq_add_of_le' (Nat.le_trans (Nat.le_add_left 1 _) h)
    have h' : f ≤ f' := by omega
    cases b with
    | true =>
      cases stk with
      | nil => exact (searchTarget_ext h' _).bind fun s => ih h' _ _
      | cons x xs =>
        exact (searchChild_ext h' _).bind fun y => ite_ext (ih h' _ _) (ih h' _ _)
    | false =>
      refine (getHead_ext h' _).bind fun o => ?_
      rcases o with _ | ⟨c, _ | ⟨p, rest⟩⟩
      · exact ih h' _ _
      · exact .refl _
      · exact .cas _ _ _ fun b => ite_ext (.storeCell _ _ (ite_ext (hs _ _) (.refl _))) (ih h' _ _)

theorem tryMerge_ext (hs : ∀ c st, Ext (smo c st) (smo' c st)) (h : f ≤ f') {head : Chain K V}
    {n : Node K V} (stk : Stk) :
    Ext (tryMerge cfg smo f head n stk) (tryMerge cfg smo' f' head n stk) := by
  cases stk with
  | nil => exact .refl _
  | cons p rest =>
    refine .cas _ _ _ fun b => ite_ext ((tryDeleteIndexEntry_ext hs h _).bind fun o => ?_) (.refl _)
    cases o with
    | none => exact .refl _
    | some w =>
      cases n.low with
      | none => exact .refl _
      | some dk => exact mergeLoop_ext hs h _ _

end

theorem trySMOs_ext (h : f ≤ f') (c : Chain K V) (stk : Stk) :
    Ext (trySMOs cfg f c stk) (trySMOs cfg f' c stk) := by
  induction f generalizing f' c stk with
  | zero => exact .stuck _
  | succ f ih =>
    obtain ⟨f', rfl⟩ := Nat.exists_eq_add_of_le' (Nat.le_trans (Nat.le_add_left 1 _) h)
    have h' : f ≤ f' := by omega
    cases stk with
    | nil => exact .refl _
    | cons p rest =>
      refine .cas _ _ _ fun b => ite_ext ?_ (.refl _)
      rcases tryConsolidate cfg false c with _ | (n | ⟨l, r⟩ | n)
      · exact .refl _
      · exact .refl _
      · simp only
        cases r.low with
        | none => exact .refl _
        | some sep => exact split_ext (fun c st => ih h' c st) h' _
      · exact tryMerge_ext (fun c st => ih h' c st) h' _

/-! ## Public operations -/

theorem readLoop_ext {key : K} (h : f ≤ f') (stk : Stk) :
    Ext (readLoop (V := V) key f stk) (readLoop key f' stk) := by
  induction f generalizing f' stk with
  | zero => exact .stuck _
  | succ f ih =>
    obtain ⟨f', rfl⟩ := Nat.exists_eq_add_of_le' (Nat.le_trans (Nat.le_add_left 1 _) h)
    have h' : f ≤ f' := by omega
    cases stk with
    | nil => exact .refl _
    | cons p rest =>
      refine .load _ fun c => ite_ext (.refl _) ?_
      cases readChain key c with
      | ret o => exact .refl _
      | sibling q => exact ih h' _
      | removed => exact ite_ext (.refl _) ((searchChild_ext h' _).bind fun x => ih h' _)
      | ub => exact .refl _

theorem writeLoop_ext {op : Spec.Op K V} {key : K} (h : f ≤ f') (stk : Stk) :
    Ext (writeLoop cfg op key f stk) (writeLoop cfg op key f' stk) := by
  induction f generalizing f' stk with
  | zero => exact .stuck _
  | succ f ih =>
    obtain ⟨f', rfl⟩ := Nat.exists_eq_add_of_le' (Nat.le_trans (Nat.le_add_left 1 _) h)
    have h' : f ≤ f' := by omega
    refine (getHeadKC_ext h' _).bind fun x => ?_
    rcases writeDelta cfg op x.2.2 with r | ⟨d, diff⟩
    · exact .refl _
    · rcases x with ⟨_ | ⟨p, rest⟩, c, b⟩
      · exact .refl _
      · exact .cas _ _ _ fun b =>
          ite_ext (ite_ext ((trySMOs_ext h' _ _).bind fun _ => .refl _) (.refl _)) (ih h' _)

theorem runOp_ext (h : f ≤ f') (op : Spec.Op K V) : Ext (runOp cfg f op) (runOp cfg f' op) := by
  refine (searchLeaf_ext h).bind fun stk => ?_
  cases op with
  | read k => exact (readLoop_ext h _).bind fun _ => .refl _
  | write k v => exact writeLoop_ext h _
  | insert k v => exact writeLoop_ext h _
  | update k v => exact writeLoop_ext h _
  | delete k => exact writeLoop_ext h _

theorem scanFrom_ext {key : K} {closed : Bool} {e : Spec.Bound K} (h : f ≤ f') (stk : Stk) :
    Ext (scanFrom (V := V) cfg key closed e f stk) (scanFrom cfg key closed e f' stk) := by
  induction f generalizing f' stk with
  | zero => exact .stuck _
  | succ f ih =>
    obtain ⟨f', rfl⟩ := Nat.exists_eq_add_of_le' (Nat.le_trans (Nat.le_add_left 1 _) h)
    have h' : f ≤ f' := by omega
    refine (getHead_ext h' _).bind fun o => ?_
    rcases o with _ | ⟨c, stk'⟩
    · exact .refl _
    · exact ite_ext (ih h' _) (.refl _)

theorem leftmostLoop_ext (h : f ≤ f') (p : PID) :
    Ext (leftmostLoop (K := K) (V := V) f p) (leftmostLoop f' p) := by
  induction f generalizing f' p with
  | zero => exact .stuck _
  | succ f ih =>
    obtain ⟨f', rfl⟩ := Nat.exists_eq_add_of_le' (Nat.le_trans (Nat.le_add_left 1 _) h)
    have h' : f ≤ f' := by omega
    refine .load _ fun c => ite_ext (.refl _) (ite_ext (.refl _) ?_)
    cases c.leftmostChild with
    | none => exact .refl _
    | some q => exact ih h' _

theorem scanLeft_ext {e : Spec.Bound K} (h : f ≤ f') (p : PID) :
    Ext (scanLeft (V := V) cfg e f p) (scanLeft cfg e f' p) := by
  induction f generalizing f' p with
  | zero => exact .stuck _
  | succ f ih =>
    obtain ⟨f', rfl⟩ := Nat.exists_eq_add_of_le' (Nat.le_trans (Nat.le_add_left 1 _) h)
    exact .load _ fun c => ite_ext (ih (by omega) _) (.refl _)

theorem scanFirst_ext {b e : Spec.Bound K} (h : f ≤ f') :
    Ext (scanFirst (V := V) cfg f b e) (scanFirst cfg f' b e) := by
  cases b with
  | some x => exact (searchLeaf_ext h).bind fun _ => scanFrom_ext h _
  | none => exact (Ext.loadRoot fun r => leftmostLoop_ext h r).bind fun _ => scanLeft_ext h _

theorem scanNext_ext {p : PID} {key : K} {e : Spec.Bound K} (h : f ≤ f') :
    Ext (scanNext (V := V) cfg f p key e) (scanNext cfg f' p key e) := scanFrom_ext h _

/-! ## Runs -/

theorem Ext.step {sh sh' : Sh K V} {p p' q : Prog K V α} (h : Ext p q) (hs : AStep sh p sh' p') :
    ∃ q', AStep sh q sh' q' ∧ Ext p' q' := by
  cases hs with
  | loadRoot k => cases h with | loadRoot e => exact ⟨_, .loadRoot _ _, e _⟩
  | storeRoot p k => cases h with | storeRoot _ e => exact ⟨_, .storeRoot _ _ _, e⟩
  | casRootOk o n k hr => cases h with | casRoot _ _ e => exact ⟨_, .casRootOk _ _ _ _ hr, e _⟩
  | casRootFail o n k hr => cases h with | casRoot _ _ e => exact ⟨_, .casRootFail _ _ _ _ hr, e _⟩
  | load p k c hm => cases h with | load _ e => exact ⟨_, .load _ _ _ _ hm, e _⟩
  | loadNull p k hm => cases h with | load _ e => exact ⟨_, .loadNull _ _ _ hm, .ub⟩
  | store p c k => cases h with | store _ _ e => exact ⟨_, .store _ _ _ _, e⟩
  | casOk p o n k hm => cases h with | cas _ _ _ e => exact ⟨_, .casOk _ _ _ _ _ hm, e _⟩
  | casFail p o n k => cases h with | cas _ _ _ e => exact ⟨_, .casFail _ _ _ _ _, e _⟩
  | newPid k => cases h with | newPid e => exact ⟨_, .newPid _ _, e _⟩
  | newCell k => cases h with | newCell e => exact ⟨_, .newCell _ _, e _⟩
  | loadCell w k => cases h with | loadCell _ e => exact ⟨_, .loadCell _ _ _, e _⟩
  | storeCell w p k => cases h with | storeCell _ _ e => exact ⟨_, .storeCell _ _ _ _, e⟩

end BwTree
