import Verif.Iter.Model
import Verif.Props.Races

/-!
# C40: iterators of one thread
-/

namespace BwTree.Props

open BwTree

set_option linter.unusedSectionVars false

/-! ## What holds: one iterator at a time -/

/-- Iterators are used one after the other: once `Scan` has been called for another iterator, an
iterator is not used any more (`o`: the iterator of the last `Scan`). -/
def OneAtATime {K : Type} : Option Nat → List (Iter.Cmd K) → Prop
  | _, [] => True
  | _, .scan i _ _ :: cs => OneAtATime (some i) cs
  | o, .has i _ :: cs => o = some i ∧ OneAtATime o cs
  | o, .get i :: cs => o = some i ∧ OneAtATime o cs
  | o, .next i :: cs => o = some i ∧ OneAtATime o cs

section
variable {K V : Type} [LinearOrder K]

/-- The shared and the separate pages agree on the iterator in use. -/
structure Agree (o : Option Nat) (s s' : Iter.St K V) : Prop where
  its : s.its = s'.its
  time : s.time = s'.time
  page : ∀ i, o = some i → s'.its i ≠ none → s.page 0 = s'.page i

theorem agree_has (src : Iter.Src K V) {i : Nat} : ∀ (f : Nat) (it : Iter.It K)
    {s s' : Iter.St K V}, s'.its i ≠ none → Agree (some i) s s' →
    (Iter.hasRecord src 0 f it s).1 = (Iter.hasRecord src i f it s').1 ∧
    Agree (some i) (Iter.hasRecord src 0 f it s).2.1 (Iter.hasRecord src i f it s').2.1 ∧
    (Iter.hasRecord src 0 f it s).2.2 = (Iter.hasRecord src i f it s').2.2 ∧
    (Iter.hasRecord src i f it s').2.1.its i ≠ none
  | 0, it, s, s', hi, h => ⟨rfl, h, rfl, hi⟩
  | f + 1, it, s, s', hi, h => by
    have hp := h.page i rfl hi
    have ht := h.time
    simp only [Iter.hasRecord, ht, hp]
    split
    · exact ⟨rfl, h, rfl, hi⟩
    split
    · exact ⟨rfl, h, rfl, hi⟩
    split
    · exact ⟨rfl, h, rfl, hi⟩
    split
    · exact ⟨rfl, h, rfl, hi⟩
    split
    · exact ⟨rfl, h, rfl, hi⟩
    split
    · refine agree_has src f _ hi ⟨h.its, rfl, ?_⟩
      intro j hj _
      cases Option.some.inj hj
      simp [upd]
    · exact ⟨rfl, h, rfl, hi⟩

theorem agree_run (src : Iter.Src K V) : ∀ (cs : List (Iter.Cmd K)) {o : Option Nat}
    {s s' : Iter.St K V}, Agree o s s' → OneAtATime o cs →
    Iter.run src Iter.shared s cs = Iter.run src Iter.separate s' cs
  | [], _, _, _, _, _ => rfl
  | c :: cs, o, s, s', h, hd => by
    simp only [Iter.run, List.cons.injEq]
    have key : (Iter.step src Iter.shared s c).2 = (Iter.step src Iter.separate s' c).2 ∧
        ∃ o', Agree o' (Iter.step src Iter.shared s c).1 (Iter.step src Iter.separate s' c).1 ∧
          OneAtATime o' cs := by
      have ht := h.time
      have hits := h.its
      cases c with
      | scan i b e =>
        have hcs : OneAtATime (some i) cs := hd
        have hbad : Agree (some i) { s with its := upd s.its i none, time := s'.time }
            { s' with its := upd s'.its i none } := by
          refine ⟨by simp [hits], rfl, ?_⟩
          intro j hj hn
          cases Option.some.inj hj
          simp [upd] at hn
        simp only [Iter.step, ht]
        split
        · exact ⟨rfl, some i, hbad, hcs⟩
        split
        · refine ⟨rfl, some i, ⟨by simp [hits], rfl, ?_⟩, hcs⟩
          intro j hj _
          cases Option.some.inj hj
          simp [upd, Iter.shared, Iter.separate]
        · exact ⟨rfl, some i, hbad, hcs⟩
      | has i f =>
        obtain ⟨ho, hcs⟩ := hd
        subst ho
        simp only [Iter.step, hits]
        cases hi : s'.its i with
        | none => exact ⟨rfl, some i, h, hcs⟩
        | some it =>
          obtain ⟨e1, e2, e3, e4⟩ := agree_has src (i := i) f it (by simp [hi]) h
          refine ⟨e3, some i, ⟨?_, e2.time, ?_⟩, hcs⟩
          · show upd _ i (some (Iter.hasRecord src 0 f it s).1) = _
            rw [e1]
            exact congrArg (fun x => upd x i _) e2.its
          · intro j hj _
            cases Option.some.inj hj
            exact e2.page i rfl e4
      | get i =>
        obtain ⟨ho, hcs⟩ := hd
        subst ho
        simp only [Iter.step, hits]
        cases hi : s'.its i with
        | none => exact ⟨rfl, some i, h, hcs⟩
        | some it =>
          have hp := h.page i rfl (by simp [hi])
          simp only [Iter.shared, Iter.separate, id, hp]
          cases s'.page i with
          | none => exact ⟨rfl, some i, h, hcs⟩
          | some n =>
            simp only
            split <;> exact ⟨rfl, some i, h, hcs⟩
      | next i =>
        obtain ⟨ho, hcs⟩ := hd
        subst ho
        simp only [Iter.step, hits]
        cases hi : s'.its i with
        | none => exact ⟨rfl, some i, h, hcs⟩
        | some it =>
          refine ⟨rfl, some i, ⟨by simp, ht, ?_⟩, hcs⟩
          intro j hj _
          cases Option.some.inj hj
          exact h.page i rfl (by simp [hi])
    obtain ⟨e1, o', e2, e3⟩ := key
    exact ⟨e1, agree_run src cs e2 e3⟩

/-- The iterator a call is made on. -/
def Iter.Cmd.it : Iter.Cmd K → Nat
  | .scan i _ _ => i
  | .has i _ => i
  | .get i => i
  | .next i => i

/-- The tree does not change. -/
def Quiet (src : Iter.Src K V) : Prop :=
  (∀ t t', src.first t = src.first t') ∧ ∀ t t', src.sib t = src.sib t'

/-- What the calls on iterator `i` return. -/
def outsOf (i : Nat) : List (Iter.Cmd K) → List (Iter.Out K V) → List (Iter.Out K V)
  | c :: cs, o :: os => if Iter.Cmd.it c = i then o :: outsOf i cs os else outsOf i cs os
  | _, _ => []

/-- The iterators of a thread are independent in a calls sequence: the calls on each iterator
return what they return if no other iterator is used. -/
def Independent (src : Iter.Src K V) (slot : Nat → Nat) (cs : List (Iter.Cmd K)) : Prop :=
  ∀ i, outsOf i cs (Iter.run src slot Iter.St.init cs) =
    Iter.run src slot Iter.St.init (cs.filter fun c => Iter.Cmd.it c = i)

theorem sep_has (src : Iter.Src K V) (hq : Quiet src) {i : Nat} : ∀ (f : Nat) (it : Iter.It K)
    {s s' : Iter.St K V}, s.page i = s'.page i →
    (Iter.hasRecord src i f it s).1 = (Iter.hasRecord src i f it s').1 ∧
    (Iter.hasRecord src i f it s).2.1.page i = (Iter.hasRecord src i f it s').2.1.page i ∧
    (Iter.hasRecord src i f it s).2.2 = (Iter.hasRecord src i f it s').2.2
  | 0, it, s, s', h => ⟨rfl, h, rfl⟩
  | f + 1, it, s, s', h => by
    have ht := hq.2 s.time s'.time
    simp only [Iter.hasRecord, ht, h]
    split
    · exact ⟨rfl, h, rfl⟩
    split
    · exact ⟨rfl, h, rfl⟩
    split
    · exact ⟨rfl, h, rfl⟩
    split
    · exact ⟨rfl, h, rfl⟩
    split
    · exact ⟨rfl, h, rfl⟩
    split
    · exact sep_has src hq f _ (by simp [upd])
    · exact ⟨rfl, h, rfl⟩

theorem has_frame (src : Iter.Src K V) {i j : Nat} (hij : j ≠ i) : ∀ (f : Nat) (it : Iter.It K)
    {s : Iter.St K V}, (Iter.hasRecord src i f it s).2.1.its = s.its ∧
      (Iter.hasRecord src i f it s).2.1.page j = s.page j
  | 0, it, s => ⟨rfl, rfl⟩
  | f + 1, it, s => by
    simp only [Iter.hasRecord]
    split
    · exact ⟨rfl, rfl⟩
    split
    · exact ⟨rfl, rfl⟩
    split
    · exact ⟨rfl, rfl⟩
    split
    · exact ⟨rfl, rfl⟩
    split
    · exact ⟨rfl, rfl⟩
    split
    · refine ⟨(has_frame src hij f _).1, (has_frame src hij f _).2.trans ?_⟩
      simp [upd, hij]
    · exact ⟨rfl, rfl⟩

theorem has_its (src : Iter.Src K V) {i : Nat} : ∀ (f : Nat) (it : Iter.It K)
    {s : Iter.St K V}, (Iter.hasRecord src i f it s).2.1.its = s.its := fun f it _ =>
  (has_frame src (i := i) (j := i + 1) (Nat.succ_ne_self i) f it).1

theorem step_frame (src : Iter.Src K V) {i : Nat} {c : Iter.Cmd K} (hc : Iter.Cmd.it c ≠ i)
    (s : Iter.St K V) :
    (Iter.step src Iter.separate s c).1.its i = s.its i ∧
    (Iter.step src Iter.separate s c).1.page i = s.page i := by
  have hc' : i ≠ Iter.Cmd.it c := Ne.symm hc
  cases c with
  | scan j b e =>
    have hj : i ≠ j := hc'
    simp only [Iter.step]
    split
    · simp [upd, hj]
    split <;> simp [upd, hj, Iter.separate]
  | has j f =>
    have hj : i ≠ j := hc'
    simp only [Iter.step]
    split
    · exact ⟨rfl, rfl⟩
    · refine ⟨?_, (has_frame src hj f _).2⟩
      simp only [upd, hj, if_false]
      exact congrFun (has_frame src hj f _).1 i
  | get j =>
    simp only [Iter.step]
    split
    · split <;> exact ⟨rfl, rfl⟩
    · exact ⟨rfl, rfl⟩
  | next j =>
    have hj : i ≠ j := hc'
    simp only [Iter.step]
    split
    · simp [upd, hj]
    · exact ⟨rfl, rfl⟩

theorem step_same (src : Iter.Src K V) (hq : Quiet src) {c : Iter.Cmd K}
    {s s' : Iter.St K V} (h1 : s.its (Iter.Cmd.it c) = s'.its (Iter.Cmd.it c))
    (h2 : s.page (Iter.Cmd.it c) = s'.page (Iter.Cmd.it c)) :
    (Iter.step src Iter.separate s c).2 = (Iter.step src Iter.separate s' c).2 ∧
    (Iter.step src Iter.separate s c).1.its (Iter.Cmd.it c) =
      (Iter.step src Iter.separate s' c).1.its (Iter.Cmd.it c) ∧
    (Iter.step src Iter.separate s c).1.page (Iter.Cmd.it c) =
      (Iter.step src Iter.separate s' c).1.page (Iter.Cmd.it c) := by
  cases c with
  | scan j b e =>
    simp only [Iter.Cmd.it] at h1 h2 ⊢
    simp only [Iter.step, hq.1 s.time s'.time]
    split
    · exact ⟨rfl, by simp [upd], h2⟩
    split
    · simp [upd, Iter.separate]
    · exact ⟨rfl, by simp [upd], h2⟩
  | has j f =>
    simp only [Iter.Cmd.it] at h1 h2 ⊢
    simp only [Iter.step, h1]
    split
    · next h => exact ⟨rfl, by rw [h1], h2⟩
    · obtain ⟨e1, e2, e3⟩ := sep_has src hq (i := j) f _ h2
      refine ⟨e3, ?_, e2⟩
      simp only [upd, if_true, Option.some.injEq]
      exact e1
  | get j =>
    simp only [Iter.Cmd.it] at h1 h2 ⊢
    simp only [Iter.step, h1, Iter.separate, id, h2]
    split
    · split <;> exact ⟨rfl, h1, h2⟩
    · exact ⟨rfl, h1, h2⟩
  | next j =>
    simp only [Iter.Cmd.it] at h1 h2 ⊢
    simp only [Iter.step, h1]
    split
    · exact ⟨rfl, by simp [upd], h2⟩
    · exact ⟨rfl, by rw [h1], h2⟩

theorem sep_run (src : Iter.Src K V) (hq : Quiet src) (i : Nat) : ∀ (cs : List (Iter.Cmd K))
    {s s' : Iter.St K V}, s.its i = s'.its i → s.page i = s'.page i →
    outsOf i cs (Iter.run src Iter.separate s cs) =
      Iter.run src Iter.separate s' (cs.filter fun c => Iter.Cmd.it c = i)
  | [], _, _, _, _ => rfl
  | c :: cs, s, s', h1, h2 => by
    simp only [Iter.run, outsOf]
    by_cases hc : Iter.Cmd.it c = i
    · rw [if_pos hc, List.filter_cons_of_pos (by simpa using hc)]
      simp only [Iter.run, List.cons.injEq]
      subst hc
      obtain ⟨e1, e2, e3⟩ := step_same src hq h1 h2
      exact ⟨e1, sep_run src hq _ cs e2 e3⟩
    · rw [if_neg hc, List.filter_cons_of_neg (by simpa using hc)]
      obtain ⟨e1, e2⟩ := step_frame src hc s
      exact sep_run src hq i cs (e1.trans h1) (e2.trans h2)

/-- With one page per iterator, the iterators of a thread would be independent. -/
theorem C40_separate_pages (src : Iter.Src K V) (hq : Quiet src) (cs : List (Iter.Cmd K)) :
    Independent src Iter.separate cs := fun i => sep_run src hq i cs rfl rfl

theorem oneAtATime_filter (i : Nat) : ∀ (cs : List (Iter.Cmd K)) (o o' : Option Nat),
    OneAtATime o cs → (o = some i → o' = some i) →
    OneAtATime o' (cs.filter fun c => Iter.Cmd.it c = i)
  | [], _, _, _, _ => trivial
  | c :: cs, o, o', h, ho => by
    by_cases hc : Iter.Cmd.it c = i
    · rw [List.filter_cons_of_pos (by simpa using hc)]
      subst hc
      cases c with
      | scan j b e => exact oneAtATime_filter _ cs _ _ h id
      | has j f => exact ⟨ho h.1, oneAtATime_filter _ cs _ _ h.2 ho⟩
      | get j => exact ⟨ho h.1, oneAtATime_filter _ cs _ _ h.2 ho⟩
      | next j => exact ⟨ho h.1, oneAtATime_filter _ cs _ _ h.2 ho⟩
    · rw [List.filter_cons_of_neg (by simpa using hc)]
      cases c with
      | scan j b e =>
        refine oneAtATime_filter _ cs (some j) _ h (fun e => ?_)
        exact absurd (Option.some.inj e) hc
      | has j f => exact oneAtATime_filter _ cs _ _ h.2 ho
      | get j => exact oneAtATime_filter _ cs _ _ h.2 ho
      | next j => exact oneAtATime_filter _ cs _ _ h.2 ho

/-- C40, as far as it holds: with the one page of the code, iterators that are used one after the
other (each only until the thread calls `Scan` again) behave as with a page of their own, whatever
the tree delivers; if the tree does not change, each returns what it returns alone. -/
theorem C40_one_at_a_time_partial (src : Iter.Src K V) (cs : List (Iter.Cmd K))
    (h : OneAtATime none cs) :
    Iter.run src Iter.shared Iter.St.init cs = Iter.run src Iter.separate Iter.St.init cs ∧
    (Quiet src → Independent src Iter.shared cs) := by
  have ha : Agree none (Iter.St.init : Iter.St K V) Iter.St.init :=
    ⟨rfl, rfl, fun i hi => by cases hi⟩
  have e := agree_run src cs ha h
  refine ⟨e, fun hq i => ?_⟩
  rw [e, C40_separate_pages src hq cs i]
  exact (agree_run src _ ha (oneAtATime_filter i cs none none h (fun x => by cases x))).symm

end

/-! ## The loop over one iterator -/

section
variable {K V : Type} [LinearOrder K]

/-- The nodes a scan up to `e` visits, and what it takes from each: `n` is delivered for the begin
bound `b`, the next node at time `t`; a node contributes the records from its begin position to its
end position. -/
inductive Visits (src : Iter.Src K V) (e : Spec.Bound K) :
    Nat → Node K V → Spec.Bound K → List (List (K × Pay V)) → Prop
  | last {t : Nat} {n : Node K V} {b : Spec.Bound K} {bp ep : Nat} : n.beginPos b = some bp →
      n.endPos e = some (true, ep) → Visits src e t n b [(n.recs.take ep).drop bp]
  | more {t : Nat} {n n' : Node K V} {b : Spec.Bound K} {bp ep : Nat} {k : K}
      {vs : List (List (K × Pay V))} : n.beginPos b = some bp → n.endPos e = some (false, ep) →
      n.high = some k → src.sib t n.next k = some n' → Visits src e (t + 1) n' (some (k, true)) vs →
      Visits src e t n b ((n.recs.take ep).drop bp :: vs)

/-- What is left to yield from a position on. -/
inductive Rest (src : Iter.Src K V) (e : Spec.Bound K) :
    Nat → Node K V → Nat → Nat → Bool → List (List (K × Pay V)) → Prop
  | last {t : Nat} {n : Node K V} {pos cnt : Nat} :
      Rest src e t n pos cnt true [(n.recs.take cnt).drop pos]
  | more {t : Nat} {n n' : Node K V} {pos cnt bp ep : Nat} {isEnd : Bool} {k : K}
      {vs : List (List (K × Pay V))} : n.high = some k → src.sib t n.next k = some n' →
      n'.beginPos (some (k, true)) = some bp → n'.endPos e = some (isEnd, ep) →
      Rest src e (t + 1) n' bp ep isEnd vs →
      Rest src e t n pos cnt false ((n.recs.take cnt).drop pos :: vs)

theorem Rest.visits {src : Iter.Src K V} {e : Spec.Bound K} {t : Nat} {n : Node K V}
    {pos cnt : Nat} {isEnd : Bool} {vs : List (List (K × Pay V))} (h : Rest src e t n pos cnt isEnd vs)
    {b : Spec.Bound K} (hb : n.beginPos b = some pos) (he : n.endPos e = some (isEnd, cnt)) :
    Visits src e t n b vs := by
  induction h generalizing b with
  | last => exact .last hb he
  | more h1 h2 h3 h4 _ ih => exact .more hb he h1 h2 (ih h3 h4)

theorem Rest.yield {src : Iter.Src K V} {e : Spec.Bound K} {t : Nat} {n : Node K V}
    {pos cnt : Nat} {isEnd : Bool} {vs : List (List (K × Pay V))} {r : K × Pay V} (hp : pos < cnt)
    (hr : n.recs[pos]? = some r) (h : Rest src e t n (pos + 1) cnt isEnd vs) :
    ∃ vs', Rest src e t n pos cnt isEnd vs' ∧ vs'.flatten = r :: vs.flatten := by
  have hd : (n.recs.take cnt).drop pos = r :: (n.recs.take cnt).drop (pos + 1) := by
    have h1 : (n.recs.take cnt)[pos]? = some r := by rw [List.getElem?_take_of_lt hp]; exact hr
    obtain ⟨h2, h3⟩ := List.getElem?_eq_some_iff.mp h1
    rw [List.drop_eq_getElem_cons h2, h3]
  cases h with
  | last => exact ⟨_, .last, by simp [hd]⟩
  | more h1 h2 h3 h4 h5 => exact ⟨_, .more h1 h2 h3 h4 h5, by simp [hd]⟩

/-- `HasRecord` goes to the next record. -/
theorem hasRecord_rest (src : Iter.Src K V) (pg : Nat) : ∀ (f : Nat) (it : Iter.It K)
    {s : Iter.St K V} {n : Node K V}, s.page pg = some n →
    ((Iter.hasRecord src pg f it s).2.2 = .bool false →
      ∃ vs, Rest src it.e s.time n it.pos it.cnt it.isEnd vs ∧ vs.flatten = []) ∧
    ((Iter.hasRecord src pg f it s).2.2 = .bool true →
      (Iter.hasRecord src pg f it s).1.pos < (Iter.hasRecord src pg f it s).1.cnt ∧
      (Iter.hasRecord src pg f it s).1.e = it.e ∧
      ∃ n', (Iter.hasRecord src pg f it s).2.1.page pg = some n' ∧
        ∀ vs, Rest src it.e (Iter.hasRecord src pg f it s).2.1.time n'
          (Iter.hasRecord src pg f it s).1.pos (Iter.hasRecord src pg f it s).1.cnt
          (Iter.hasRecord src pg f it s).1.isEnd vs →
        ∃ vs', Rest src it.e s.time n it.pos it.cnt it.isEnd vs' ∧ vs'.flatten = vs.flatten)
  | 0, it, s, n, hn => ⟨fun h => (by cases h), fun h => by cases h⟩
  | f + 1, it, s, n, hn => by
    have hnil : ¬ it.pos < it.cnt → (n.recs.take it.cnt).drop it.pos = [] := by
      intro h
      apply List.drop_eq_nil_of_le
      rw [List.length_take]
      omega
    by_cases h1 : it.pos < it.cnt
    · simp only [Iter.hasRecord, h1, if_true]
      exact ⟨fun h => (by cases h), fun _ => ⟨trivial, trivial, n, hn, fun vs h => ⟨vs, h, rfl⟩⟩⟩
    · by_cases h2 : it.isEnd = true
      · simp only [Iter.hasRecord, h1, h2, if_true, if_false]
        exact ⟨fun _ => ⟨_, .last, by simp [hnil h1]⟩, fun h => by cases h⟩
      · simp only [Bool.not_eq_true] at h2
        simp only [Iter.hasRecord, h1, h2, if_false, hn, Bool.false_eq_true]
        cases h3 : n.high with
        | none => exact ⟨fun h => (by cases h), fun h => by cases h⟩
        | some k =>
          simp only
          cases h4 : src.sib s.time n.next k with
          | none => exact ⟨fun h => (by cases h), fun h => by cases h⟩
          | some n' =>
            simp only
            cases h5 : n'.beginPos (some (k, true)) with
            | none => exact ⟨fun h => (by cases h), fun h => by cases h⟩
            | some bp =>
              cases h6 : n'.endPos it.e with
              | none => exact ⟨fun h => (by cases h), fun h => by cases h⟩
              | some x =>
                obtain ⟨isEnd, ep⟩ := x
                simp only
                obtain ⟨i1, i2⟩ := hasRecord_rest src pg f
                  { it with pos := bp, cnt := ep, isEnd := isEnd }
                  (s := { s with page := upd s.page pg (some n'), time := s.time + 1 }) (n := n')
                  (upd_same _ _ _)
                refine ⟨fun h => ?_, fun h => ?_⟩
                · obtain ⟨vs, r1, r2⟩ := i1 h
                  exact ⟨_, .more h3 h4 h5 h6 r1, by simp [hnil h1, r2]⟩
                · obtain ⟨j1, j2, n2, j3, j4⟩ := i2 h
                  refine ⟨j1, j2, n2, j3, fun vs hv => ?_⟩
                  obtain ⟨vs', r1, r2⟩ := j4 vs hv
                  exact ⟨_, .more h3 h4 h5 h6 r1, by simp [hnil h1, r2]⟩

theorem loop_rest (src : Iter.Src K V) (slot : Nat → Nat) (i f : Nat) : ∀ (N : Nat)
    {s : Iter.St K V} {it : Iter.It K} {n : Node K V} {rs : List (K × Pay V)},
    s.its i = some it → s.page (slot i) = some n → Iter.loop src slot i f N s = (rs, true) →
    ∃ vs, Rest src it.e s.time n it.pos it.cnt it.isEnd vs ∧ vs.flatten = rs
  | 0, s, it, n, rs, _, _, h => by simp [Iter.loop] at h
  | N + 1, s, it, n, rs, hi, hn, h => by
    obtain ⟨h1, h2⟩ := hasRecord_rest src (slot i) f it hn
    simp only [Iter.loop, Iter.step, hi] at h
    generalize hx : Iter.hasRecord src (slot i) f it s = x at h h1 h2
    obtain ⟨it', s', o⟩ := x
    simp only at h h1 h2
    cases o with
    | bool b =>
      cases b with
      | false =>
        cases h
        exact h1 rfl
      | true =>
        obtain ⟨j1, j2, n', j3, j4⟩ := h2 rfl
        simp only [upd_same, j3] at h
        cases hr : n'.recs[it'.pos]? with
        | none => simp [hr] at h
        | some r =>
          simp only [hr, upd_same, Prod.mk.injEq] at h
          obtain ⟨k1, k2⟩ := h
          obtain ⟨vs, r1, r2⟩ := loop_rest src slot i f N (rs := _) (n := n')
            (it := { it' with pos := it'.pos + 1 })
            (s := { s' with its := upd (upd s'.its i (some it')) i (some { it' with pos := it'.pos + 1 }) })
            (upd_same _ _ _) j3 (Prod.ext rfl k2)
          simp only [j2] at r1
          obtain ⟨vs', r3, r4⟩ := r1.yield j1 hr
          obtain ⟨vs2, r5, r6⟩ := j4 vs' r3
          exact ⟨vs2, r5, by rw [r6, r4, r2, ← k1]⟩
    | unit => cases h
    | record _ => cases h
    | bad => cases h

/-- The loop over an iterator, when no other iterator of the thread is used meanwhile, yields the
records of the visits, node by node, each exactly once; other threads may change the tree between
the visits. -/
theorem C12_loop (src : Iter.Src K V) (slot : Nat → Nat) (i f N : Nat) (s : Iter.St K V)
    (b e : Spec.Bound K) {rs : List (K × Pay V)}
    (hs : (Iter.step src slot s (.scan i b e)).2 = .unit)
    (hl : Iter.loop src slot i f N (Iter.step src slot s (.scan i b e)).1 = (rs, true)) :
    ∃ n vs, src.first s.time b = some n ∧ Visits src e (s.time + 1) n b vs ∧ rs = vs.flatten := by
  simp only [Iter.step] at hs hl
  cases h1 : src.first s.time b with
  | none => simp [h1] at hs
  | some n =>
    simp only [h1] at hs hl
    cases h2 : n.beginPos b with
    | none => simp [h2] at hs
    | some bp =>
      cases h3 : n.endPos e with
      | none => simp [h2, h3] at hs
      | some x =>
        obtain ⟨isEnd, ep⟩ := x
        simp only [h2, h3] at hl
        obtain ⟨vs, r1, r2⟩ := loop_rest src slot i f N (it := ⟨bp, ep, isEnd, e⟩) (n := n)
          (upd_same _ _ _) (upd_same _ _ _) hl
        exact ⟨n, vs, rfl, r1.visits h2 h3, r2.symm⟩

end

/-! ## What does not hold -/

section
variable {K V : Type} [LinearOrder K]

/-- The chain of the leaf for `key`, from page `p`, in a state that does not change: the pages of
`Spec.Route`. -/
def leafAt (sh : Sh K V) (key : K) : Nat → PID → Option (Chain K V)
  | 0, _ => none
  | f + 1, p => match sh.mt p with
    | none => none
    | some c =>
      if c.isLeaf then
        match c.high with
        | none => some c
        | some h => if h ≤ key then leafAt sh key f c.nextPid else some c
      else match childStep key true c with
        | .sibling q => leafAt sh key f q
        | .child q => leafAt sh key f q
        | _ => none

/-- What a tree that does not change delivers to scans with closed begin keys. -/
def srcOf (cfg : Cfg K) (sh : Sh K V) : Iter.Src K V :=
  { first := fun _ b => match b with
      | some (k, true) => (leafAt sh k 20 sh.root).bind (scanNode cfg)
      | _ => none
    sib := fun _ p k => (leafAt sh k 20 p).bind (scanNode cfg) }

end

/-- Two iterators: the second one is created while the first one stands at its first record. -/
def exTwoIters : List (Iter.Cmd Nat) :=
  [.scan 0 (some (10, true)) (some (20, true)), .has 0 5, .scan 1 (some (50, true)) none, .has 1 5,
    .get 0]

/-- C40 does not hold: there is a reachable state in which every call has returned (the tree does
not change), and a thread that scans [10, 20], then [50, ∞), reads its first iterator and gets the
record of key 30, which lies outside its range; alone, the first iterator yields key 10. -/
theorem C40_false : ∃ S : Sys Nat Nat, Reachable smallCfg (fun _ => none) S ∧
    (∀ t, S.th t = .idle) ∧ Quiet (srcOf smallCfg S.sh) ∧
    outsOf 0 exTwoIters (Iter.run (srcOf smallCfg S.sh) Iter.shared Iter.St.init exTwoIters) =
      [.unit, .bool true, .record (30, .val 2)] ∧
    Iter.run (srcOf smallCfg S.sh) Iter.shared Iter.St.init
      (exTwoIters.filter fun c => Iter.Cmd.it c = 0) =
      [.unit, .bool true, .record (10, .val 0)] ∧
    ¬ Independent (srcOf smallCfg S.sh) Iter.shared exTwoIters := by
  obtain ⟨h, S, h1, h2, h3⟩ := scenario_witness (cfg := smallCfg) (cs := exFill 7)
    (fun h S => (quietAt h S, outsOf 0 exTwoIters
        (Iter.run (srcOf smallCfg S.sh) Iter.shared Iter.St.init exTwoIters),
      Iter.run (srcOf smallCfg S.sh) Iter.shared Iter.St.init
        (exTwoIters.filter fun c => Iter.Cmd.it c = 0)))
    (x := (true, [.unit, .bool true, .record (30, .val 2)],
      [.unit, .bool true, .record (10, .val 0)])) (by decide)
  simp only [Prod.mk.injEq] at h3
  refine ⟨S, h2, quietAt_spec h1 h3.1, ⟨fun _ _ => rfl, fun _ _ => rfl⟩, h3.2.1, h3.2.2,
    fun hi => ?_⟩
  have := hi 0
  rw [h3.2.1, h3.2.2] at this
  revert this
  decide

/-- Two scans one after the other, each of them across a sibling link. -/
def exTwoScans : List (Iter.Cmd Nat) :=
  [.scan 0 (some (20, true)) none, .has 0 5, .get 0, .next 0, .has 0 5, .get 0,
    .scan 1 (some (10, true)) (some (10, true)), .has 1 5, .get 1, .next 1, .has 1 5]

example : OneAtATime none exTwoScans := by simp [OneAtATime, exTwoScans]

example : ∃ S : Sys Nat Nat, Reachable smallCfg (fun _ => none) S ∧
    Iter.run (srcOf smallCfg S.sh) Iter.shared Iter.St.init exTwoScans =
      [.unit, .bool true, .record (20, .val 1), .unit, .bool true, .record (30, .val 2),
       .unit, .bool true, .record (10, .val 0), .unit, .bool false] := by
  obtain ⟨_, S, _, h2, h3⟩ := scenario_witness (cfg := smallCfg) (cs := exFill 7)
    (fun _ S => Iter.run (srcOf smallCfg S.sh) Iter.shared Iter.St.init exTwoScans)
    (x := [.unit, .bool true, .record (20, .val 1), .unit, .bool true, .record (30, .val 2),
       .unit, .bool true, .record (10, .val 0), .unit, .bool false]) (by decide)
  exact ⟨S, h2, h3⟩

/-- A loop over two leaves, from the second record of the first one. -/
example : ∃ S : Sys Nat Nat, Reachable smallCfg (fun _ => none) S ∧
    Iter.loop (srcOf smallCfg S.sh) Iter.shared 0 5 10
      (Iter.step (srcOf smallCfg S.sh) Iter.shared Iter.St.init
        (.scan 0 (some (20, true)) (some (60, false)))).1 =
      ([(20, .val 1), (30, .val 2), (40, .val 3), (50, .val 4)], true) := by
  obtain ⟨_, S, _, h2, h3⟩ := scenario_witness (cfg := smallCfg) (cs := exFill 7)
    (fun _ S => Iter.loop (srcOf smallCfg S.sh) Iter.shared 0 5 10
      (Iter.step (srcOf smallCfg S.sh) Iter.shared Iter.St.init
        (.scan 0 (some (20, true)) (some (60, false)))).1)
    (x := ([(20, .val 1), (30, .val 2), (40, .val 3), (50, .val 4)], true)) (by decide)
  exact ⟨S, h2, h3⟩

end BwTree.Props
