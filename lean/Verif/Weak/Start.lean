import Verif.Weak.Inv
import Verif.Conc.Init

/-!
# Initial states on the C++ memory model (proof side)
-/

namespace BwTree.Weak

set_option linter.unusedSectionVars false

variable {K V : Type} [LinearOrder K] {cfg : Cfg K}

/-- Every page ID in the tree has a slot. -/
structure Closed (sh : Sh K V) : Prop where
  root : sh.mt sh.root ≠ none
  ids : ∀ p c, sh.mt p = some c → ∀ q, c.Ids q → q = 0 ∨ sh.mt q ≠ none
  npid : ∀ p, sh.mt p ≠ none → p < sh.npid
  cells : ∀ w, sh.cells w = 0

theorem Closed.initOK {sh : Sh K V} (h : Closed sh) (o : Orders) (C : Nat) :
    InitOK o C (initVal C sh) := by
  have hk : ∀ p, sh.mt p ≠ none → Knows C (initVal C sh) [] p := by
    intro p hp
    refine Or.inr ⟨Or.inr ?_, Or.inr ?_⟩
    · have : p / C ≤ sh.npid / C := Nat.div_le_div_right (Nat.le_of_lt (h.npid p hp))
      simp [initVal, this]
    · simp only [initVal]
      cases e : sh.mt p with
      | none => exact absurd e hp
      | some c => simp
  intro l
  cases l with
  | slot p =>
    simp only [initVal]
    cases e : sh.mt p with
    | none => trivial
    | some c => exact fun q hq => (h.ids p c e q hq).elim Or.inl (hk q)
  | root => exact hk _ h.root
  | word w => exact Or.inl (h.cells w)
  | row r => trivial
  | cnt =>
    show Ok (initVal C sh) _ (.row (sh.npid / C))
    exact Or.inr (by simp [initVal])

theorem closed_empty : Closed (initSh cfg : Sh K V) where
  root := by simp [initSh]
  ids := by
    intro p c hp q hq
    by_cases e : p = 1
    · subst e
      have : c = .base (emptyLeaf cfg) := (Option.some.inj (by simpa [initSh] using hp)).symm
      subst this
      rcases hq with e | ⟨x, hx, _⟩
      · exact Or.inl e
      · exact (nomatch hx)
    · simp only [initSh, upd_ne _ _ e] at hp; cases hp
  npid := by
    intro p hp
    by_cases e : p = 1
    · subst e; exact Nat.one_lt_two
    · simp only [initSh, upd_ne _ _ e] at hp; exact absurd rfl hp
  cells := fun _ => rfl

theorem closed_bulk {ids : Nat → Nat → PID} {es : List (K × V)} {T : Tbl K V} {root npid : PID}
    {lv : List (List (Grp K V))}
    (hb : Built cfg ids (es.map fun x => (x.1, Pay.val x.2)) T root lv)
    (bound : ∀ p n, T p = some n → p < npid) : Closed (bulkSh T root npid) where
  root := by
    obtain ⟨g, h1, h2⟩ := hb.root
    cases lv with
    | nil => cases h1
    | cons gs lv =>
      cases h1
      have := InLv.slot (F := lv.length) (A := []) (B := []) (D := lv) hb ⟨⟨[], rfl⟩, rfl⟩
      simp [bulkSh, h2, this]
  ids := by
    intro p c hp q hq
    have some_ne : ∀ {q n}, T q = some n → (bulkSh T root npid).mt q ≠ none := by
      intro q n h; simp [bulkSh, h]
    simp only [bulkSh, Option.map_eq_some_iff] at hp
    obtain ⟨n, h1, rfl⟩ := hp
    obtain ⟨x, h2, rfl⟩ := List.mem_map.1 (hb.holds.only p n h1)
    have hn := (hb.holds.has x h2).symm.trans h1
    cases Option.some.inj hn
    obtain ⟨F, A, g, B, D, hl, rfl⟩ := lvNodes0_mem.1 h2
    rcases hq with e | ⟨y, hy, e⟩
    · cases B with
      | nil => exact Or.inl e
      | cons b B =>
        have hs := InLv.slot (A := A ++ [g]) (g := b) (B := B) hb
          ⟨⟨hl.lv.choose, hl.lv.choose_spec.trans (by simp)⟩, hl.len⟩
        have e : q = b.pid := e
        exact Or.inr (e ▸ some_ne hs)
    · have hy : y ∈ g.recs := hy
      cases D with
      | nil =>
        obtain ⟨U, hU⟩ := hl.lv
        have hok := hb.ok
        rw [hU] at hok
        have hk := hok.suffix.kind (by
          intro x hx
          obtain ⟨z, _, rfl⟩ := List.mem_map.1 hx
          exact ⟨_, rfl⟩) y (List.mem_flatMap.2 ⟨g, by simp, hy⟩)
        rw [e] at hk
        obtain ⟨v, hv⟩ := hk
        cases hv
      | cons d ds =>
        have hc := hl.child hb.ok
        have : ∃ A1 g1 B1, InLv lv ds.length A1 g1 B1 ds ∧ y = (g1.hd.1, .child g1.pid) := by
          by_cases hA : A = []
          · rcases List.mem_cons.1 hy with h | h
            · obtain ⟨g1, B1, h3, h4⟩ := hc.1 y hA h
              exact ⟨[], g1, B1, h3, h4⟩
            · obtain ⟨A1, g1, B1, _, h3, h4⟩ := hc.2 y (fun _ => h) hy
              exact ⟨A1, g1, B1, h3, h4⟩
          · obtain ⟨A1, g1, B1, _, h3, h4⟩ := hc.2 y (fun h => absurd h hA) hy
            exact ⟨A1, g1, B1, h3, h4⟩
        obtain ⟨A1, g1, B1, h3, h4⟩ := this
        rw [h4] at e
        cases e
        exact Or.inr (some_ne (h3.slot hb))
  npid := by
    intro p hp
    cases e : T p with
    | none => simp [bulkSh, e] at hp
    | some n => exact bound p n e
  cells := fun _ => rfl

/-- Initial states are closed. -/
theorem _root_.BwTree.Init.closed {m : K → Option V} {sh : Sh K V} (h : Init cfg m sh) : Closed sh := by
  cases h with
  | empty => exact closed_empty
  | @bulk ids threads es T root npid fix inj fresh ne sorted run bound =>
    have h0 : ∀ t i, ids t i ≠ 0 := fun t i e =>
      Nat.not_lt_zero 1 (Nat.lt_of_lt_of_eq (fresh t i) e)
    obtain ⟨T', root', lv, h1, h2⟩ := bulkload_spec inj h0 threads es ne
      (Or.inr (by rw [run]; exact Option.some_ne_none _))
    obtain ⟨rfl, rfl⟩ := Prod.mk.inj (Option.some.inj (h1.symm.trans run))
    exact closed_bulk h2 bound

end BwTree.Weak
