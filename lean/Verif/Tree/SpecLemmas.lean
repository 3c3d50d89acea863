import Verif.Spec.Chain
import Verif.Tree.HeadOps

/-!
# The specification of chains agrees with the proof-side meaning `flatBody`
-/

namespace BwTree

variable {K V : Type} [LinearOrder K] {cfg : Cfg K} {inner : Bool} {low : Option K}
set_option linter.unusedSectionVars false

theorem find_eq_alook (l : List (K × Pay V)) (key : K) : Spec.find l key = alook l key := by
  induction l with
  | nil => rfl
  | cons x l ih =>
    obtain ⟨a, v⟩ := x
    unfold Spec.find at *
    by_cases h : a = key
    · simp [alook, h]
    · simp [alook, h, ih]

theorem keyed_eq_body (n : Node K V) : Spec.keyed n = n.body := by
  unfold Spec.keyed Node.body Node.leftInner
  cases n.inner <;> cases n.low <;> simp

theorem increasing_iff (l : List (K × Pay V)) : Spec.Increasing l ↔ SortedK l := by
  unfold Spec.Increasing SortedK
  rw [List.pairwise_map]

theorem toRec_payOf (d : Delta K V) : d.toRec = (Spec.payOf d).map (fun p => (d.key, p)) := by
  unfold Delta.toRec Spec.payOf
  cases d.pay <;> rfl

theorem look_eq {c : Chain K V} (h : ChainWF cfg inner low c) (key : K) :
    Spec.look key c = alook c.flatBody key := by
  induction c with
  | base n => simp [Spec.look, Chain.flatBody, find_eq_alook, keyed_eq_body]
  | removed l => exact h.elim
  | delta d nx ih =>
    have ih := ih h.next
    obtain ⟨hs, hr, _⟩ := h.next.flatBody_spec
    obtain ⟨_, _, hp, _, _, _, h7⟩ := h
    cases ht : d.ty
    · obtain ⟨p, hp1, _⟩ := DPayOK.toRec hp (by simp [ht]) (by simp [ht])
      have hp2 : Spec.payOf d = some p := by
        rw [toRec_payOf] at hp1
        cases e : Spec.payOf d <;> rw [e] at hp1 <;> simp at hp1
        rw [hp1]
      simp only [Spec.look, Chain.flatBody, ht, hp1, alook_ains hs, hp2, ih]
    · obtain ⟨p, hp1, _⟩ := DPayOK.toRec hp (by simp [ht]) (by simp [ht])
      have hp2 : Spec.payOf d = some p := by
        rw [toRec_payOf] at hp1
        cases e : Spec.payOf d <;> rw [e] at hp1 <;> simp at hp1
        rw [hp1]
      simp only [Spec.look, Chain.flatBody, ht, hp1, alook_ains hs, hp2, ih]
    · simp only [Spec.look, Chain.flatBody, ht, alook_adel, ih]
    · rw [ht] at h7
      obtain ⟨hh, n, hn, hni, hnl, hnh, hnw⟩ := h7
      simp only [Spec.look, Chain.flatBody, ht, hn, alook_append, find_eq_alook, ih]
      by_cases hk : d.key ≤ key
      · have : alook nx.flatBody key = none := by
          apply alook_none_of_gt
          intro x hx
          have := (hr x hx).2 _ hh
          simp only [if_true] at this
          order
        simp [hk, this]
      · have : alook n.recs key = none := by
          apply alook_none_of_lt
          intro x hx
          have := (hnw.range x (by rw [Node.body_of_low hnl]; exact hx)).1 _ hnl
          simp only [if_true] at this
          order
        simp only [hk, if_false, this]
        cases alook nx.flatBody key <;> rfl

/-- Number of smaller keys. -/
theorem filter_lt_length {α : Type} (l : List (K × α)) (key : K) (p : Nat) (hp : p ≤ l.length)
    (h1 : ∀ i (_ : i < l.length), i < p → l[i].1 < key)
    (h2 : ∀ i (_ : i < l.length), p ≤ i → key < l[i].1) :
    (l.filter (fun r => decide (r.1 < key))).length = p := by
  have e1 : (l.take p).filter (fun r => decide (r.1 < key)) = l.take p := by
    rw [List.filter_eq_self]
    intro a ha
    obtain ⟨i, hi, e⟩ := List.mem_iff_getElem.1 ha
    simp only [List.length_take] at hi
    rw [List.getElem_take] at e
    have := h1 i (by omega) (by omega)
    rw [e] at this; simpa using this
  have e2 : (l.drop p).filter (fun r => decide (r.1 < key)) = [] := by
    rw [List.filter_eq_nil_iff]
    intro a ha
    obtain ⟨i, hi, hpi, e⟩ := mem_drop_iff.1 ha
    have := h2 i hi hpi
    rw [e] at this
    simp only [decide_eq_true_eq]; order
  conv => lhs; rw [← List.take_append_drop p l]
  rw [List.filter_append, e1, e2]
  simp; omega

theorem route_pos (key : K) (closed : Bool) (l : List (K × PID)) :
    ∀ (d : PID) (pos : Nat), pos ≤ l.length →
      (∀ i (_ : i < l.length), i < pos → if closed then l[i].1 ≤ key else l[i].1 < key) →
      (∀ i (_ : i < l.length), pos ≤ i → if closed then key < l[i].1 else key ≤ l[i].1) →
      some (Spec.route key closed d l) = ((d :: l.map Prod.snd)[pos]?) := by
  induction l with
  | nil => intro d pos hp _ _; simp at hp; subst hp; rfl
  | cons x l ih =>
    intro d pos hp h1 h2
    obtain ⟨k, p⟩ := x
    cases pos with
    | zero =>
      have := h2 0 (by simp) (by omega)
      simp only [List.getElem_cons_zero] at this
      have hn : ¬ (k < key ∨ (closed = true ∧ k = key)) := by
        cases closed
        · simp at this ⊢; order
        · simp at this ⊢; constructor <;> order
      simp [Spec.route, hn]
    | succ pos =>
      have := h1 0 (by simp) (by omega)
      simp only [List.getElem_cons_zero] at this
      have hn : (k < key ∨ (closed = true ∧ k = key)) := by
        cases closed
        · simp at this ⊢; order
        · simp at this ⊢
          rcases lt_or_eq_of_le this with h | h
          · exact Or.inl h
          · exact Or.inr h
      simp only [Spec.route, hn, if_true, List.map_cons, List.getElem?_cons_succ]
      apply ih p pos (by simpa using hp)
      · intro i hi hip
        have := h1 (i + 1) (by simpa using hi) (by omega)
        simpa using this
      · intro i hi hip
        have := h2 (i + 1) (by simpa using hi) (by omega)
        simpa using this

/-! ## Bytes -/

theorem bytes_spec (n : Node K V) :
    cfg.bytes n.inner n.low n.high n.recs.length n.body = Spec.bytes cfg n := by
  unfold Spec.bytes Cfg.bytes Cfg.bnd Cfg.keyBytes
  rw [keyed_eq_body]
  cases n.inner <;> cases n.low <;> cases n.high <;>
    (simp [Cfg.olen, Cfg.recLen, Int.mul_comm]; try omega)

theorem ChainWF.cons_bytes {inner : Bool} {low : Option K} {c : Chain K V}
    (h : ChainWF cfg inner low c) (sz : Int) :
    cfg.bytes inner low c.high c.flat.length c.flatBody = Spec.bytes cfg (consNode inner c sz) := by
  rw [← bytes_spec]
  show _ = cfg.bytes inner c.low c.high c.flat.length (consNode inner c sz).body
  obtain ⟨_, _, w3, _⟩ := consNode_wf h
  have hb : (consNode inner c sz).body = c.flatBody := w3
  rw [h.low_eq, hb]

end BwTree
