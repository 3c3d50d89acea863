import Verif.Conc.TotLogic
import Verif.Conc.SeqSmo
import Verif.Conc.Solo

/-!
# Searches of a thread that runs alone end (helper lemmas)
-/

namespace BwTree

set_option linter.unusedSectionVars false

variable {K V : Type} [LinearOrder K] {cfg : Cfg K} {E D : PID → Prop}
  {W : Nat → Prop} {fl : Nat → Option PID} {F G H : Nat} {low : Option K}
  {p q r tgt : PID} {s s' : St K V} {t : Nat} {key : K} {closed : Bool}

/-- Only the pages `O` have a head that makes others wait. -/
def NW (cfg : Cfg K) (O : PID → Prop) (s : St K V) : Prop :=
  ∀ q c, s.info q ≠ none → s.mt q = some c → c.needWait cfg = true → O q

/-- Number of ids handed out. -/
def np (s : St K V) : Nat := s.npid

theorem after_card (F : Nat) (low : Option K) : (after s F low).card ≤ np s := by
  classical
  have h1 : (after s F low).card ≤ (Finset.range (np s)).card :=
    Finset.card_le_card (Finset.filter_subset _ _)
  rwa [Finset.card_range] at h1

theorem Adj.length {stk : Stk} : ∀ {F : Nat} (_ : LInv cfg s.lv), Adj s F stk →
    stk.length + F ≤ s.nfam ∨ stk = [] := by
  induction stk with
  | nil => intro F _ _; exact Or.inr rfl
  | cons p rest ih =>
    intro F hl h
    left
    have hF := h.head_lt hl (by simp)
    obtain ⟨_, e | ⟨G, g1, g2, g3⟩⟩ := h
    · subst e
      simp only [List.length_cons, List.length_nil]; omega
    · rcases ih hl g3 with e | e
      · cases rest with
        | nil => simp only [List.length_cons, List.length_nil]; omega
        | cons q r =>
          have := hl.fcf G g1 (g3.head_lt hl (by simp))
          change s.fcf G < G at this
          simp only [List.length_cons] at e ⊢; omega
      · subst e
        simp only [List.length_cons, List.length_nil]; omega

theorem loadValidHead_rt {c : Chain K V} {f : Nat} (hm : s.mt p = some c)
    (hw : c.needWait cfg = false) (hf : 1 ≤ f) : rt s.toSh (loadValidHead cfg f p) (fun x => c = x) := by
  obtain ⟨f, rfl⟩ := Nat.exists_eq_add_of_le' hf
  refine ⟨c, hm, ?_⟩
  simp only [hw, Bool.false_eq_true, if_false]
  rfl

theorem waitCell_rt {w f : Nat} (hw : s.cells w ≠ 0) (hf : 1 ≤ f) :
    rt s.toSh (waitCell (K := K) (V := V) f w) (fun x => s.cells w = x) := by
  obtain ⟨f, rfl⟩ := Nat.exists_eq_add_of_le' hf
  show rt s.toSh (if s.cells w = 0 then _ else _) _
  rw [if_neg hw]
  rfl

/-- No word that the search for `key` meets in family `H` is null. -/
def Words (s : St K V) (key : K) (closed : Bool) (H : Nat) : Prop :=
  ∀ p c l w, s.info p = some (H, l) → s.cont p = some c → LowOK l key closed →
    childStep key closed c = .cell w → s.cells w ≠ 0

/-- One level of a descent ends. -/
theorem searchChild_rt (h : SI cfg E D W fl s) (hH : H ≠ 0)
    (htgt : ∀ l, s.info tgt ≠ some (H, l)) (hL : LiveAt s H tgt) (hW : Words s key closed H) :
    ∀ (n : Nat) {f : Nat} {p : PID} {low : Option K}
    {rest : Stk} {c : Chain K V}, s.info p = some (H, low) → (after s H low).card < n → n + 1 ≤ f →
    StkOK .free s H key closed (p :: rest) → s.cont p = some c →
    rt s.toSh (searchChild key closed tgt f (p :: rest)) (fun _ => True) := by
  intro n
  induction n with
  | zero => intro f p low rest c _ hn; exact absurd hn (Nat.not_lt_zero _)
  | succ n ih =>
    intro f p low rest c hi hn hf hs hc
    obtain ⟨f, rfl⟩ := Nat.exists_eq_add_of_le' (Nat.le_trans (Nat.le_add_left 1 _) hf)
    have hne : p ≠ tgt := by rintro rfl; exact htgt _ hi
    obtain ⟨hm, hr⟩ := hL p c low hne hi hc
    refine ⟨c, hm, ?_⟩
    obtain ⟨low', l1, l2, l3, l4⟩ := hs.live h.inv hm hr
    rw [hi] at l1; cases l1
    have hll : c.liveLeaf = false := by
      simp [Chain.liveLeaf, l4.isLeaf, hH]
    simp only [hll, Bool.false_eq_true, if_false]
    have hwf := l4.wf
    simp only [hH, ne_eq, not_false_eq_true, decide_true] at hwf
    by_cases hh : HighOK c.high key closed
    · rcases childStep_exact hwf (h.x.exact p c H low hc hi hH) key closed l2 hh with
        ⟨q, e1, e2⟩ | ⟨w, q, e1, e2, e3⟩
      · simp only [e1]
        trivial
      · simp only [e1]
        exact rt_then (waitCell_rt (hW p c low w hi hc l2 e1) (by omega)) (fun _ _ => trivial)
    · have h1 := childStep_beyond hwf (h.x.exact p c H low hc hi hH) key closed hh
      simp only [h1]
      obtain ⟨b, b1, b2, b3⟩ := l4.sibling hh
      have hnt : c.nextPid ≠ tgt := by
        intro e; rw [e] at b2; exact htgt _ b2
      simp only [hnt, if_false]
      obtain ⟨c', hc'⟩ := h.inv.l.linkl p c b hc b1
      have hlt := after_lt h.inv (low := low) b2 (fun x hx => by
        subst hx; exact l4.wf.nonempty x b rfl b1)
      exact ih b2 (by omega) (by omega) (hs.swap b2 b3) hc'

theorem searchChild_live (h : SI cfg E D W fl s) (hH : H ≠ 0)
    (htgt : ∀ l, s.info tgt ≠ some (H, l)) (hL : LiveAt s H tgt) (hW : Words s key closed H)
    {f : Nat} (hf : np s + 2 ≤ f) {p : PID} {rest : Stk} {c : Chain K V}
    (hs : StkOK .free s H key closed (p :: rest)) (hc : s.cont p = some c) :
    rt s.toSh (searchChild key closed tgt f (p :: rest)) (fun x => x.1 = false ∧
      ∃ q p' cp, x.2 = q :: p' :: rest ∧ StkOK .free s (s.fcf H) key closed x.2 ∧
        s.cont p' = some cp ∧ Reach s (s.fcf H) key closed q) := by
  obtain ⟨⟨low, hi⟩, _⟩ := hs.adj
  have := after_card (s := s) H low
  exact rt_mono (rt_and (searchChild_rt h hH htgt hL hW (np s + 1) hi (by omega) (by omega) hs hc)
    (searchChild_exact h hH htgt hL f hs hc)) (fun _ x => x.2)

/-- The levels above `F` can be searched. -/
structure Clear (s : St K V) (key : K) (closed : Bool) (tgt : PID) (F : Nat) : Prop where
  live : ∀ H, F < H → LiveAt s H tgt
  tgt : ∀ H, F < H → ∀ l, s.info tgt ≠ some (H, l)
  words : ∀ H, Down s.fcf H F → F < H → Words s key closed H

/-- A search from any stack ends. -/
theorem searchChild_all (h : SI cfg E D W fl s) (hC : Clear s key closed tgt F) (ht : tgt ≠ 0) :
    ∀ {stk : Stk} {H f : Nat}, F < H → Down s.fcf H F → StkOK .free s H key closed stk → stk ≠ [] →
    stk.length + np s + 2 ≤ f →
    rt s.toSh (searchChild key closed tgt f stk) (fun x => x.1 = false ∧ (x.2 = [] ∨
      ∃ q p' rest cp, x.2 = q :: p' :: rest ∧ StkOK .free s (s.fcf H) key closed x.2 ∧
        s.cont p' = some cp ∧ Reach s (s.fcf H) key closed q)) := by
  intro stk
  induction stk with
  | nil => intro H f _ _ _ hne; exact absurd rfl hne
  | cons p rest ih =>
    intro H f hF hd hs _ hf
    obtain ⟨⟨low, hi⟩, _⟩ := hs.adj
    obtain ⟨c, hm, _⟩ := h.inv.p.slot p H low hi
    cases hr : c.isRemoved with
    | false =>
      obtain ⟨hc, _⟩ := h.inv.live hi hm hr
      refine rt_mono (searchChild_live h (by omega) (hC.tgt H hF) (hC.live H hF) (hC.words H hd hF)
        (by omega) hs hc) ?_
      rintro x ⟨x1, q, p', cp, x2, x3, x4, x5⟩
      exact ⟨x1, Or.inr ⟨q, p', rest, cp, x2, x3, x4, x5⟩⟩
    | true =>
      simp only [List.length_cons] at hf
      obtain ⟨f, rfl⟩ := Nat.exists_eq_add_of_le' (Nat.le_trans (Nat.le_add_left 1 _) hf)
      obtain ⟨b, rfl⟩ := isRemoved_true hr
      refine ⟨_, hm, ?_⟩
      have hll : (Chain.removed (K := K) (V := V) b).liveLeaf = false := by
        simp [Chain.liveLeaf, Chain.isRemoved]
      have hst : childStep key closed (Chain.removed (K := K) (V := V) b) = .removed := rfl
      simp only [hll, hst, Bool.false_eq_true, if_false]
      by_cases hrest : rest = []
      · simp only [hrest, if_true, ht, ne_eq, not_false_eq_true]
        exact ⟨rfl, Or.inl rfl⟩
      · simp only [hrest, if_false]
        obtain ⟨G, hG0, hGF, hG⟩ := hs.tail hrest
        have hGlt := hG.adj.head_lt h.inv.l hrest
        have hlt := h.inv.l.fcf G hG0 hGlt
        change s.fcf G < G at hlt
        apply rt_then (ih (by omega) (.step (by omega) (by rw [hGF]; exact hd)) hG hrest (by omega))
        rintro x ⟨x1, x2 | ⟨q, p', rest', cp, x2, x3, x4, cq, lq, x5, x6, _⟩⟩
        · simp only [x1, x2, Bool.false_eq_true, if_false, if_true]
          exact ⟨rfl, Or.inl rfl⟩
        · rw [hGF] at x3 x5
          rw [x2] at x3
          simp only [x1, x2, Bool.false_eq_true, if_false, reduceCtorEq]
          refine rt_mono (searchChild_live h (by omega) (hC.tgt H hF) (hC.live H hF) (hC.words H hd hF)
            (by omega) x3 x6) ?_
          rintro x ⟨x1, q, p', cp, x2, x3, x4, x5⟩
          exact ⟨x1, Or.inr ⟨q, p', _, cp, x2, x3, x4, x5⟩⟩

/-- The walk to the page of a key ends. -/
theorem getHead_rt (h : SI cfg E D W fl s) (hL : LiveAt s H tgt)
    (hw : NW cfg (fun _ => False) s) : ∀ (n : Nat) {f : Nat} {p : PID} {low : Option K}
    {rest : Stk} {c : Chain K V}, s.info p = some (H, low) → (after s H low).card < n → n + 1 ≤ f →
    StkOK .free s H key closed (p :: rest) → s.cont p = some c → p ≠ tgt →
    rt s.toSh (getHead cfg key closed tgt f (p :: rest)) (fun o => o ≠ none) := by
  intro n
  induction n with
  | zero => intro f p low rest c _ hn; exact absurd hn (Nat.not_lt_zero _)
  | succ n ih =>
    intro f p low rest c hi hn hf hs hc hne
    obtain ⟨f, rfl⟩ := Nat.exists_eq_add_of_le' (Nat.le_trans (Nat.le_add_left 1 _) hf)
    obtain ⟨hm, hr⟩ := hL p c low hne hi hc
    have hnw : c.needWait cfg = false := by
      cases e : c.needWait cfg with
      | false => rfl
      | true => exact (hw p c (by rw [hi]; simp) hm e).elim
    apply rt_then (loadValidHead_rt hm hnw (by omega))
    rintro _ rfl
    obtain ⟨low', l1, l2, l3, l4⟩ := hs.live h.inv hm hr
    rw [hi] at l1; cases l1
    by_cases hh : HighOK c.high key closed
    · have hst := (dcValidate_spec l4.wf key closed).1 hh
      simp only [hst]
      exact Option.some_ne_none _
    · have hst := (dcValidate_spec l4.wf key closed).2 hh
      simp only [hst]
      obtain ⟨b, b1, b2, b3⟩ := l4.sibling hh
      by_cases e : c.nextPid = tgt
      · simp only [e, if_true]
        exact Option.some_ne_none _
      · simp only [e, if_false]
        obtain ⟨c', hc'⟩ := h.inv.l.linkl p c b hc b1
        have hlt := after_lt h.inv (low := low) b2 (fun x hx => by
          subst hx; exact l4.wf.nonempty x b rfl b1)
        exact ih b2 (by omega) (by omega) (hs.swap b2 b3) hc' e

theorem getHead_live (h : SI cfg E D W fl s) (hL : LiveAt s H tgt)
    (hw : NW cfg (fun _ => False) s) {lt : Option K} (ht : s.info tgt = some (F, lt)) (hF : F ≤ H)
    {f : Nat} (hf : np s + 2 ≤ f) {p : PID} {rest : Stk} {c : Chain K V}
    (hs : StkOK .free s H key closed (p :: rest)) (hc : s.cont p = some c) (hne : p ≠ tgt) :
    rt s.toSh (getHead cfg key closed tgt f (p :: rest)) (fun o => o ≠ none ∧
      GhPost cfg .free s H key closed tgt o) := by
  obtain ⟨⟨low, hi⟩, _⟩ := hs.adj
  have := after_card (s := s) H low
  exact rt_and (getHead_rt h hL hw (np s + 1) hi (by omega) (by omega) hs hc hne)
    (getHead_gen h.inv ht f hF (by simp) hs)

/-- The same from a stack whose top may be removed. -/
theorem getHead_all (h : SI cfg E D W fl s) (hC : Clear s key closed tgt F)
    (hw : NW cfg (fun _ => False) s) {lt : Option K} (ht : s.info tgt = some (F, lt)) (hF : F < H)
    (hd : Down s.fcf H F) {f : Nat} {stk : Stk} (hne : stk ≠ []) (hf : stk.length + np s + 3 ≤ f)
    (hs : StkOK .free s H key closed stk) :
    rt s.toSh (getHead cfg key closed tgt f stk) (GhPost cfg .free s H key closed tgt) := by
  refine rt_mono (rt_and (P := fun _ => True) ?_ (getHead_gen h.inv ht f (Nat.le_of_lt hF) hne hs))
    (fun _ x => x.2)
  have htz : tgt ≠ 0 := h.inv.info_ne_zero ht
  cases stk with
  | nil => exact absurd rfl hne
  | cons p rest =>
  obtain ⟨⟨low, hi⟩, _⟩ := hs.adj
  obtain ⟨c, hm, _⟩ := h.inv.p.slot p H low hi
  have hpne : ∀ {p : PID} {l : Option K}, s.info p = some (H, l) → p ≠ tgt := by
    rintro p l hp rfl
    rw [ht] at hp; cases hp; omega
  cases hr : c.isRemoved with
  | false =>
    obtain ⟨hc, _⟩ := h.inv.live hi hm hr
    exact rt_mono (getHead_live h (hC.live H hF) hw ht (Nat.le_of_lt hF) (by omega) hs hc (hpne hi))
      (fun _ _ => trivial)
  | true =>
    obtain ⟨f, rfl⟩ := Nat.exists_eq_add_of_le' (Nat.le_trans (Nat.le_add_left 1 _) hf)
    obtain ⟨b, rfl⟩ := isRemoved_true hr
    simp only [List.length_cons] at hf
    have hnw : (Chain.removed (K := K) (V := V) b).needWait cfg = false := by
      cases e : (Chain.removed (K := K) (V := V) b).needWait cfg with
      | false => rfl
      | true => exact (hw p _ (by rw [hi]; simp) hm e).elim
    apply rt_then (loadValidHead_rt hm hnw (by omega))
    rintro _ rfl
    have hst : dcValidate key closed (Chain.removed (K := K) (V := V) b) = .removed := rfl
    simp only [hst]
    by_cases hrest : rest = []
    · simp only [hrest, if_true, htz, ne_eq, not_false_eq_true]
      trivial
    · simp only [hrest, if_false]
      obtain ⟨G, hG0, hGF, hG⟩ := hs.tail hrest
      have hGlt := hG.adj.head_lt h.inv.l hrest
      have hlt := h.inv.l.fcf G hG0 hGlt
      change s.fcf G < G at hlt
      apply rt_then (searchChild_all h hC htz (by omega) (.step (by omega) (by rw [hGF]; exact hd)) hG hrest (by omega))
      rintro x ⟨x1, x2 | ⟨q, p', rest', cp, x2, x3, x4, cq, lq, x5, x6, _⟩⟩
      · simp only [x2, if_true]
        trivial
      · rw [hGF] at x3 x5
        rw [x2] at x3
        simp only [x2, if_false, reduceCtorEq]
        exact rt_mono (getHead_live h (hC.live H hF) hw ht (Nat.le_of_lt hF) (by omega) x3 x6
          (hpne x5)) (fun _ _ => trivial)

/-- The walk to the left neighbour of a page that is not indexed ends. -/
theorem searchChild_target_rt (h : SI cfg E D W fl s) (hF : F ≠ 0) {ct : Chain K V}
    (hit : s.info tgt = some (F, some key)) (hct : s.cont tgt = some ct) (hL : LiveAt s F tgt) :
    ∀ (n : Nat) {f : Nat} {p : PID} {low : Option K} {rest : Stk} {c : Chain K V},
    s.info p = some (F, low) → (after s F low).card < n → n ≤ f →
    StkOK .free s F key true (p :: rest) →
    s.cont p = some c → p ≠ tgt →
    rt s.toSh (searchChild key true tgt f (p :: rest)) (fun x => x.1 = true ∧
      ∃ q cq, x.2 = q :: rest ∧ StkOK .free s F key true x.2 ∧ s.cont q = some cq ∧ q ≠ tgt) := by
  intro n
  induction n with
  | zero => intro f p low rest c _ hn; exact absurd hn (Nat.not_lt_zero _)
  | succ n ih =>
    intro f p low rest c hi hn hf hs hc hne
    obtain ⟨f, rfl⟩ := Nat.exists_eq_add_of_le' (Nat.le_trans (Nat.le_add_left 1 _) hf)
    obtain ⟨hm, hr⟩ := hL p c low hne hi hc
    refine ⟨c, hm, ?_⟩
    obtain ⟨low', l1, l2, l3, l4⟩ := hs.live h.inv hm hr
    rw [hi] at l1; cases l1
    have hll : c.liveLeaf = false := by
      simp [Chain.liveLeaf, l4.isLeaf, hF]
    simp only [hll, Bool.false_eq_true, if_false]
    have hwf := l4.wf
    simp only [hF, ne_eq, not_false_eq_true, decide_true] at hwf
    have hh : ¬ HighOK c.high key true := by
      intro hh
      exact hne (h.inv.l.uniq hc hct hi hit ⟨l2, hh⟩ (h.inv.l.page _ _ _ _ hct hit).inR_low)
    have h1 := childStep_beyond hwf (h.x.exact p c F low hc hi hF) key true hh
    simp only [h1]
    obtain ⟨b, b1, b2, b3⟩ := l4.sibling hh
    by_cases hnt : c.nextPid = tgt
    · simp only [hnt, if_true]
      exact ⟨rfl, p, c, rfl, hs, hc, hne⟩
    · simp only [hnt, if_false]
      obtain ⟨c', hc'⟩ := h.inv.l.linkl p c b hc b1
      have hlt := after_lt h.inv (low := low) b2 (fun x hx => by
        subst hx; exact l4.wf.nonempty x b rfl b1)
      exact ih b2 (by omega) (by omega) (hs.swap b2 b3) hc' hnt

/-- The stack of a search from the root: the two top pages are present. -/
def Fresh (s : St K V) (H : Nat) (key : K) (tgt : PID) (stk : Stk) : Prop :=
  ∃ p rest c, stk = p :: rest ∧ p ≠ tgt ∧ s.cont p = some c ∧ StkOK .free s H key true stk ∧
    ((rest = [] ∧ s.info s.root = some (H, none)) ∨
      ∃ z zs cz, rest = z :: zs ∧ s.cont z = some cz)

/-- The search for a page that is not indexed ends. -/
theorem searchTarget_rt (h : SI cfg E D W fl s) {ct : Chain K V} {tInner : Bool}
    (hti : tInner = decide (F ≠ 0))
    (hit : s.info tgt = some (F, some key)) (hct : s.cont tgt = some ct)
    (hnp : ∀ G, s.est tgt ≠ .posted G)
    (hL : ∀ H, Down s.fcf H F → LiveAt s H tgt)
    (hW : ∀ H, Down s.fcf H F → F < H → Words s key true H) : ∀ (n : Nat) {H f : Nat} {stk : Stk},
    H < n → n + np s + 2 ≤ f → Down s.fcf H F → Fresh s H key tgt stk →
    rt s.toSh (searchTarget key tInner tgt f stk) (Fresh s F key tgt) := by
  intro n
  induction n with
  | zero => intro H f stk hn; exact absurd hn (Nat.not_lt_zero _)
  | succ n ih =>
    rintro H f stk hn hf hd ⟨p, rest, c, rfl, hne, hc, hs, hrest⟩
    obtain ⟨f, rfl⟩ := Nat.exists_eq_add_of_le' (Nat.le_trans (Nat.le_add_left 1 _) hf)
    obtain ⟨⟨low, hi⟩, _⟩ := hs.adj
    obtain ⟨hm, hr⟩ := hL H hd p c low hne hi hc
    refine ⟨c, hm, ?_⟩
    have hpw := (h.inv.live hi hm hr).2
    have hcard := after_card (s := s) H low
    simp only [hpw.isLeaf]
    cases hd with
    | refl =>
      by_cases hF : F = 0
      · have : tInner = false := by simp [hti, hF]
        simp only [hF, decide_true, if_true, this, Bool.false_eq_true, if_false]
        subst hF
        exact ⟨p, rest, c, rfl, hne, hc, hs, hrest⟩
      · simp only [hF, decide_false, Bool.false_eq_true, if_false]
        apply rt_then (searchChild_target_rt h hF hit hct (hL F (.refl _)) (np s + 1) hi
          (by omega) (by omega) hs hc hne)
        rintro x ⟨x1, q, cq, x2, x3, x4, x5⟩
        simp only [x1, if_true]
        exact ⟨q, rest, cq, x2, x5, x4, x3, hrest⟩
    | step hH hd' =>
      simp only [hH, decide_false, Bool.false_eq_true, if_false]
      have hlt := h.inv.l.fcf H (Nat.pos_of_ne_zero hH) (h.inv.l.fam _ _ _ hi)
      change s.fcf H < H at hlt
      have hle := hd'.le h.inv.l.fcf (Nat.lt_trans hlt (h.inv.l.fam _ _ _ hi))
      have htgt : ∀ l, s.info tgt ≠ some (H, l) := by
        intro l e
        rw [hit] at e; cases e
        omega
      apply rt_then (searchChild_live h hH htgt (hL H (.step hH hd')) (hW H (.step hH hd') (by omega)) (by omega) hs hc)
      rintro x ⟨x1, q, p', cp, x2, x3, x4, cq, lq, q1, q2, q3, q4⟩
      simp only [x1, Bool.false_eq_true, if_false]
      refine ih (by omega) (by omega) hd' ⟨q, p' :: rest, cq, x2, ?_, q2, x3, Or.inr ⟨p', rest, cp, rfl, x4⟩⟩
      rintro rfl
      rcases q4 with e | ⟨G, e⟩
      · rw [hit, e] at q1; cases q1
      · exact hnp G e

/-- The search from the root. -/
theorem searchTarget_root (h : SI cfg E D W fl s) {ct : Chain K V} {tInner : Bool}
    (hti : tInner = decide (F ≠ 0))
    (hit : s.info tgt = some (F, some key)) (hct : s.cont tgt = some ct)
    (hnp : ∀ G, s.est tgt ≠ .posted G)
    (hL : ∀ H, Down s.fcf H F → LiveAt s H tgt)
    (hW : ∀ H, Down s.fcf H F → F < H → Words s key true H) {f : Nat} (hf : s.nfam + np s + 3 ≤ f) :
    rt s.toSh (searchTarget key tInner tgt f []) (Fresh s F key tgt) := by
  obtain ⟨f, rfl⟩ := Nat.exists_eq_add_of_le' (Nat.le_trans (Nat.le_add_left 1 _) hf)
  show rt s.toSh (searchTarget key tInner tgt f [s.root]) _
  obtain ⟨c, hc⟩ := h.x.rootc
  obtain ⟨T, hT, hd⟩ := h.x.chain tgt ct F _ hct hit
  change s.info s.root = _ at hT
  refine searchTarget_rt h hti hit hct hnp hL hW s.nfam (h.inv.l.fam _ _ _ hT) (by omega) hd
    ⟨s.root, [], c, rfl, ?_, hc, StkOK.root hT trivial, Or.inl ⟨rfl, hT⟩⟩
  intro e
  rw [e, hit] at hT; cases hT

/-- The walk to the page with the entry of a removed page ends. -/
theorem getHeadForMerge_rt (hG : 0 < G) (h : SI cfg E D W fl s)
    (hw : NW cfg (fun _ => False) s) : ∀ (n : Nat) {sib : Option K} {f : Nat} {p : PID} {low : Option K}
    {rest : Stk}, s.info p = some (G, low) → (after s G low).card < n → n + 1 ≤ f →
    StkOK .free s G key true (p :: rest) →
    rt s.toSh (getHeadForMerge cfg key f sib (p :: rest)) (fun x => x.2.2.1 = true →
      ∃ c, s.mt p = some c ∧ c.isRemoved = false) := by
  intro n
  induction n with
  | zero => intro sib f p low rest _ hn; exact absurd hn (Nat.not_lt_zero _)
  | succ n ih =>
    intro sib f p low rest hi hn hf hs
    obtain ⟨f, rfl⟩ := Nat.exists_eq_add_of_le' (Nat.le_trans (Nat.le_add_left 1 _) hf)
    obtain ⟨c, hm, _⟩ := h.inv.p.slot p G low hi
    have hnw : c.needWait cfg = false := by
      cases e : c.needWait cfg with
      | false => rfl
      | true => exact (hw p c (by rw [hi]; simp) hm e).elim
    apply rt_then (loadValidHead_rt hm hnw (by omega))
    rintro _ rfl
    cases hrem : c.isRemoved with
    | true =>
      obtain ⟨b, rfl⟩ := isRemoved_true hrem
      have hst := mergeStep_removed (V := V) (cfg := cfg) key sib b
      simp only [hst]
      intro e; cases e
    | false =>
      obtain ⟨low', l1, l2, l3, l4⟩ := hs.live h.inv hm hrem
      rw [hi] at l1; cases l1
      have hwf := l4.wf
      simp only [Nat.pos_iff_ne_zero.1 hG, ne_eq, not_false_eq_true, decide_true] at hwf
      rcases mergeStep_spec hwf key sib with ⟨e1, e2⟩ | e1 | ⟨e1, e2⟩
      · simp only [e1]
        intro _
        exact ⟨c, hm, hrem⟩
      · simp only [e1]
        intro e; cases e
      · simp only [e1]
        obtain ⟨b, b1, b2, b3⟩ := l4.sibling e2
        have hlt := after_lt h.inv (low := low) b2 (fun x hx => by
          subst hx; exact l4.wf.nonempty x b rfl b1)
        exact rt_mono (ih b2 (by omega) (by omega) (hs.swap b2 b3)) (fun _ _ _ => ⟨c, hm, hrem⟩)

theorem getHeadForMerge_live {sib : Option K} (hG : 0 < G) (h : SI cfg E D W fl s)
    (hw : NW cfg (fun _ => False) s) {f : Nat} (hf : np s + 2 ≤ f) {p : PID}
    {rest : Stk} (hs : StkOK .free s G key true (p :: rest)) :
    rt s.toSh (getHeadForMerge cfg key f sib (p :: rest)) (fun x => (x.2.2.1 = true →
      ∃ c, s.mt p = some c ∧ c.isRemoved = false) ∧ GmPost cfg .free s G key x) := by
  obtain ⟨⟨low, hi⟩, _⟩ := hs.adj
  have := after_card (s := s) G low
  exact rt_and (getHeadForMerge_rt hG h hw (np s + 1) hi (by omega) (by omega) hs)
    (getHeadForMerge_gen hG h.inv f (by simp) hs)

/-! ## Words -/

/-- The word occurs in the chain. -/
def Chain.hasCell (w : Nat) : Chain K V → Prop
  | .base _ => False
  | .removed _ => False
  | .delta d nx => d.pay = .cell w ∨ nx.hasCell w

theorem EntsOK.without {P : Option K → PID → Prop} {Q : K → Nat → Prop} {c : Chain K V} {w : Nat}
    (h : EntsOK P Q c) (hw : ¬ c.hasCell w) : EntsOK P (fun k x => Q k x ∧ x ≠ w) c := by
  induction c with
  | base n => exact h
  | removed b => trivial
  | delta d nx ih =>
    simp only [Chain.hasCell, not_or] at hw
    exact ⟨ih h.1 hw.2, h.2.1, fun c e => ⟨h.2.2.1 c e, by rintro rfl; exact hw.1 e⟩, h.2.2.2⟩

theorem EntsOK.known {P : Option K → PID → Prop} {Q : K → Nat → Prop} {c : Chain K V} {w : Nat}
    (h : EntsOK P Q c) (hw : c.hasCell w) : ∃ k, Q k w := by
  induction c with
  | base n => exact hw.elim
  | removed b => exact hw.elim
  | delta d nx ih =>
    rcases hw with e | e
    · exact ⟨d.key, h.2.2.1 w e⟩
    · exact ih h.1 e

/-- The word occurs in the page. -/
def CellAt (s : St K V) (w : Nat) (q : PID) : Prop := ∃ c, s.cont q = some c ∧ c.hasCell w

/-- The words are of lower families. -/
def WBelow (s : St K V) (F : Nat) (W : Nat → Prop) : Prop :=
  ∀ w, W w → ∃ G k, s.cellInfo w = some (G, k) ∧ G < F

theorem WBelow.mono (h : WBelow s F W) (m : Mono s s') (hF : F ≤ G) : WBelow s' G W := by
  intro w hw
  obtain ⟨G', k, e1, e2⟩ := h w hw
  exact ⟨G', k, m.cell _ _ e1, by omega⟩

theorem WBelow.add {w : Nat} {k : K} (h : WBelow s F W) (hi : s.cellInfo w = some (F, k)) (hF : F < G) :
    WBelow s G (fun x => W x ∨ x = w) := by
  rintro x (hx | rfl)
  · obtain ⟨G', k', e1, e2⟩ := h x hx
    exact ⟨G', k', e1, by omega⟩
  · exact ⟨F, k, hi, hF⟩

theorem CellAt.lt (hI : Inv cfg s) {w : Nat} (h : CellAt s w p) : w < s.ncell := by
  obtain ⟨c, hc, hw⟩ := h
  obtain ⟨F, low, hi⟩ := hI.l.known p c hc
  obtain ⟨k, hk⟩ := (hI.l.page _ _ _ _ hc hi).ents.known hw
  change s.cellInfo w = _ at hk
  by_contra hlt
  rw [hI.p.cfresh w (by omega)] at hk; cases hk

/-- Which words a search can meet. -/
theorem SI.words (h : SI cfg E D W fl s) (hH : H ≠ 0)
    (hx : ∀ w p sep, W w → CellAt s w p → s.cellInfo w = some (s.fcf H, sep) →
      LowOK (some sep) key closed → False) : Words s key closed H := by
  intro p c l w hi hc hlow hst
  have hw := h.inv.l.page _ _ _ _ hc hi
  have hwf := hw.wf
  simp only [hH, ne_eq, not_false_eq_true, decide_true] at hwf
  have hh : HighOK c.high key closed := by
    by_contra hh
    rw [childStep_beyond hwf (h.x.exact p c H l hc hi hH) key closed hh] at hst
    cases hst
  rcases childStep_exact hwf (h.x.exact p c H l hc hi hH) key closed hlow hh with
    ⟨q, e1, _⟩ | ⟨w', q, e1, e2, e3⟩
  · rw [e1] at hst; cases hst
  · rw [e1] at hst; cases hst
    obtain ⟨_, _, hq, _⟩ := h.reach hi hc e3
    rcases (h.cell w q e2).2 with e | ⟨_, e⟩
    · rw [e]; exact h.inv.info_ne_zero hq
    · exfalso
      have hcell : c.hasCell w := by
        by_contra hn
        rcases childStep_spec hwf (hw.ents.without hn) key closed hlow with
          ⟨_, _, a1, _⟩ | ⟨w', sep, a1, a2, _⟩ | ⟨a1, _⟩
        · rw [e1] at a1; cases a1
        · rw [e1] at a1; cases a1; exact a2.2 rfl
        · rw [e1] at a1; cases a1
      rcases childStep_spec hwf hw.ents key closed hlow with
        ⟨_, _, a1, _⟩ | ⟨w', sep, a1, a2, a3⟩ | ⟨a1, _⟩
      · rw [e1] at a1; cases a1
      · rw [e1] at a1; cases a1
        exact hx w p sep e ⟨c, hc, hcell⟩ a2 a3
      · rw [e1] at a1; cases a1

/-- No word of a lower family is met. -/
theorem SI.wordsAbove (h : SI cfg E D W fl s) (hW : WBelow s F W) : ∀ H, Down s.fcf H F → F < H →
    Words s key closed H := by
  intro H hd hF p c l w hi hc
  refine h.words (by omega) ?_ p c l w hi hc
  intro w p sep hw _ hc _
  obtain ⟨G, k, e1, e2⟩ := hW w hw
  rw [hc] at e1; cases e1
  cases hd with
  | refl => omega
  | step hH hd' =>
    have hlt := h.inv.l.fcf H (Nat.pos_of_ne_zero hH) (h.inv.l.fam _ _ _ hi)
    change s.fcf H < H at hlt
    have := hd'.le h.inv.l.fcf (Nat.lt_trans hlt (h.inv.l.fam _ _ _ hi))
    omega

/-- The same with a word of family `F` that is not met either. -/
theorem SI.wordsOwn {w0 : Nat} {dk : K} (h : SI cfg E D (fun x => W x ∨ x = w0) fl s)
    (hW : WBelow s F W) (hw0 : s.cellInfo w0 = some (F, dk))
    (hor : (closed = false ∧ key = dk) ∨ ∀ q, ¬ CellAt s w0 q) : ∀ H, Down s.fcf H F → F < H →
    Words s key closed H := by
  intro H hd hF p c l w hi hc
  refine h.words (by omega) ?_ p c l w hi hc
  intro w p sep hw hat hc hl
  rcases hw with hw | rfl
  · obtain ⟨G, k, e1, e2⟩ := hW w hw
    rw [hc] at e1; cases e1
    cases hd with
    | refl => omega
    | step hH hd' =>
      have hlt := h.inv.l.fcf H (Nat.pos_of_ne_zero hH) (h.inv.l.fam _ _ _ hi)
      change s.fcf H < H at hlt
      have := hd'.le h.inv.l.fcf (Nat.lt_trans hlt (h.inv.l.fam _ _ _ hi))
      omega
  · rcases hor with ⟨rfl, rfl⟩ | hor
    · rw [hw0] at hc
      simp only [Option.some.injEq, Prod.mk.injEq] at hc
      rw [← hc.2] at hl
      have := hl _ rfl
      simp at this
    · exact hor p hat

end BwTree
