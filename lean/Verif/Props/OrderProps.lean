import Mathlib.Data.Fintype.Card
import Mathlib.Data.Fintype.Sets
import Mathlib.Data.Fintype.EquivFin
import Mathlib.Logic.Relation
import Verif.Lemmas.OrderInv

/-!
# C10, C11: `order_plates`
-/

namespace Storch
variable {α : Type _} [ValEq α]

/-! ### Specification -/

/-- Some plate named `b` in the list has a parent named `a`. -/
def ParentOf (ps : List (Plate α)) (a b : String) : Prop :=
  ∃ p ∈ ps, p.name = b ∧ ∃ q ∈ p.parents, q.name = a

/-- No plate is its own (indirect) parent. -/
def AcyclicPlates (ps : List (Plate α)) : Prop :=
  ∀ k, ¬ Relation.TransGen (ParentOf ps) k k

/-- Every parent of a member is itself a member (up to plate equality). -/
def ParentClosed (ps : List (Plate α)) : Prop :=
  ∀ p ∈ ps, ∀ q ∈ p.parents, ∃ x ∈ ps, x.pyEq q = true

/-- In `r` every plate comes after those of its parents that are in `ps`. -/
def SortedIn (ps r : List (Plate α)) : Prop :=
  ∀ r1 p r2, r = r1 ++ p :: r2 → ∀ q ∈ p.parents, (∃ x ∈ ps, x.pyEq q = true) →
    ∃ x ∈ r1, x.pyEq q = true

/-- `q` is a parent of `p`, a parent of a parent, and so on. -/
inductive IsAncestor : Plate α → Plate α → Prop
  | parent {q p : Plate α} : q ∈ p.parents → IsAncestor q p
  | step {r q p : Plate α} : IsAncestor r q → q ∈ p.parents → IsAncestor r p

/-- Every plate of the list has either all its parents in the list or, of its ancestors, none (and no
plate of the list is named like one of its parents). -/
def ParentsAllOrNone (ps : List (Plate α)) : Prop := ∀ p ∈ ps,
  (∀ q ∈ p.parents, ∃ x ∈ ps, x.pyEq q = true) ∨
  ((∀ q, IsAncestor q p → ∀ x ∈ ps, x.pyEq q = false) ∧
    ∀ q ∈ p.parents, ∀ x ∈ ps, x.name ≠ q.name)

/-! ### Theorems -/

/-- C10: `order_plates` terminates on every list of plates whatsoever (the fuel of the modelled loop
never runs out). -/
theorem C10_terminates (ps : List (Plate α)) (reverse : Bool) :
    orderPlates ps reverse ≠ .error .diverge :=
  orderPlates_not_diverge ps reverse

theorem orderPlates_run {ps : List (Plate α)} (hn : (ps.map Plate.name).Nodup) :
    (orderPlates ps = .error .value ∨ ∃ r inE, OInv ps r [] inE ∧ orderPlates ps = .ok r ∧
      ordCycle ps inE = false) := by
  have hd := orderPlates_not_diverge ps false
  obtain ⟨h1, h2⟩ := ordLoop_inv hn (ordFuel ps) (OInv.init hn)
  unfold orderPlates at hd ⊢
  simp only at hd ⊢
  cases hl : ordLoop ps (ordInit ps).outE (ordFuel ps) (ordInit ps).roots (ordInit ps).inE [] with
  | error e =>
    rw [hl] at hd h2
    left
    have : e = .key ∨ e = .value ∨ e = .diverge := by
      have key : ∀ fuel T inE S e, ordLoop ps (ordInit ps).outE fuel T inE S = .error e →
          e = .key ∨ e = .value ∨ e = .diverge := by
        intro fuel
        induction fuel with
        | zero => intro T inE S e h; simp [ordLoop] at h; exact Or.inr (Or.inr h.symm)
        | succ fuel ih =>
          intro T inE S e h
          cases T with
          | nil => simp [ordLoop] at h
          | cons n T =>
            simp only [ordLoop] at h
            cases hg : dget (ordInit ps).outE n.name with
            | none => simp [hg] at h; exact Or.inl h.symm
            | some ms =>
              cases hr : ordRelax n ms T inE with
              | error e' =>
                simp [hg, hr] at h
                subst h
                rcases ordRelax_error hr with h | h
                · exact Or.inl h
                · exact Or.inr (Or.inl h)
              | ok x => simp only [hg, hr] at h; exact ih _ _ _ _ h
      exact key _ _ _ _ _ hl
    rcases this with rfl | rfl | rfl
    · exact absurd rfl h2
    · rfl
    · exact absurd rfl hd
  | ok x =>
    obtain ⟨r, inE⟩ := x
    simp only
    by_cases hc : ordCycle ps inE = true
    · left; simp [hc]
    · right
      exact ⟨r, inE, h1 r inE hl, by simp [hc], by simpa using hc⟩

/-- `reverse=True` gives the reversed list, and fails exactly when the forward call fails. -/
theorem C10_reverse (ps : List (Plate α)) :
    orderPlates ps true = (orderPlates ps false).map List.reverse := by
  unfold orderPlates
  simp only
  cases ordLoop ps (ordInit ps).outE (ordFuel ps) (ordInit ps).roots (ordInit ps).inE [] with
  | error e => rfl
  | ok x =>
    simp only [Bool.false_eq_true, if_false, if_true]
    split_ifs <;> rfl

omit [ValEq α] in
theorem acyclic_induction {ps : List (Plate α)} (ha : AcyclicPlates ps) {P : Plate α → Prop}
    (step : ∀ p ∈ ps, (∀ x ∈ ps, (∃ q ∈ p.parents, q.name = x.name) → P x) → P p) :
    ∀ p ∈ ps, P p := by
  let K : Type := {k : String // k ∈ ps.map Plate.name}
  let R : K → K → Prop := fun a b => Relation.TransGen (ParentOf ps) a.1 b.1
  have : IsTrans K R := ⟨fun a b c h1 h2 => h1.trans h2⟩
  have : Std.Irrefl R := ⟨fun a h => ha a.1 h⟩
  have : Finite K := (inferInstance : Finite {k : String // k ∈ ps.map Plate.name})
  have hwf : WellFounded R := Finite.wellFounded_of_trans_of_irrefl R
  have key : ∀ k : K, ∀ p ∈ ps, p.name = k.1 → P p := by
    intro k
    induction k using hwf.induction with
    | _ k ih =>
      intro p hp hpk
      apply step p hp
      rintro x hx ⟨q, hq, hqx⟩
      exact ih ⟨x.name, List.mem_map_of_mem hx⟩
        (Relation.TransGen.single ⟨p, hp, hpk, q, hq, hqx⟩) x hx rfl
  exact fun p hp => key ⟨p.name, List.mem_map_of_mem hp⟩ p hp rfl

omit [ValEq α] in
theorem acyclic_of_rank {ps : List (Plate α)} (rank : String → Nat)
    (h : ∀ a b, ParentOf ps a b → rank a < rank b) : AcyclicPlates ps := by
  intro k hk
  have : ∀ a b, Relation.TransGen (ParentOf ps) a b → rank a < rank b := by
    intro a b hab
    induction hab with
    | single h1 => exact h _ _ h1
    | tail _ h1 ih => exact Nat.lt_trans ih (h _ _ h1)
  exact Nat.lt_irrefl _ (this k k hk)

omit [ValEq α] in
theorem sizeOf_parent {p q : Plate α} (h : q ∈ p.parents) : sizeOf q < sizeOf p := by
  obtain ⟨a, b, c, d, ps⟩ := p
  have := List.sizeOf_lt_of_mem h
  simp only [Plate.parents] at this
  simp only [Plate.mk.sizeOf_spec]
  omega

theorem isRoot_iff {ps : List (Plate α)} (p : Plate α) :
    isRoot ps p = true ↔ ∀ q, IsAncestor q p → q.isIn ps = false := by
  have e : isRoot ps p = isRootList ps p.parents := by cases p; rfl
  rw [e, isRootList_eq_true]
  constructor
  · intro h q hq
    cases hq with
    | parent hq => exact (h q hq).1
    | step h1 h2 =>
      rename_i s
      exact (isRoot_iff s).1 (h s h2).2 q h1
  · intro h q hq
    refine ⟨h q (.parent hq), ?_⟩
    exact (isRoot_iff q).2 (fun r hr => h r (.step hr hq))
termination_by sizeOf p
decreasing_by
  all_goals exact sizeOf_parent (by assumption)

theorem isIn_false {p : Plate α} {ps : List (Plate α)} :
    p.isIn ps = false ↔ ∀ x ∈ ps, x.pyEq p = false := by
  simp [Plate.isIn, memBy]

theorem pGood_of_spec {ps : List (Plate α)} (h : ParentsAllOrNone ps) : PGood ps := by
  intro p hp
  rcases h p hp with h | h
  · exact Or.inl (fun q hq => Plate.isIn_iff.2 (h q hq))
  · refine Or.inr ⟨(isRoot_iff p).2 (fun q hq => isIn_false.2 (h.1 q hq)), h.2⟩

theorem orderPlates_good {ps : List (Plate α)} (hn : (ps.map Plate.name).Nodup) (hg : PGood ps) :
    (orderPlates ps = .error .value ∧ ¬ AcyclicPlates ps) ∨
    (AcyclicPlates ps ∧ ∃ r, orderPlates ps = .ok r ∧ r.Perm ps ∧ SortedIn ps r) := by
  have hd := orderPlates_not_diverge ps false
  obtain ⟨h1, _⟩ := ordLoop_inv hn (ordFuel ps) (OInv.init hn)
  obtain ⟨h2, h3⟩ := ordLoop_closed hn hg (ordFuel ps) (OInv.init hn) (CInv.init hn)
  unfold orderPlates at hd ⊢
  simp only at hd ⊢
  cases hl : ordLoop ps (ordInit ps).outE (ordFuel ps) (ordInit ps).roots (ordInit ps).inE [] with
  | error e =>
    rw [hl] at hd
    exact absurd (congrArg _ (h3 e hl)) hd
  | ok x =>
    obtain ⟨S, inE⟩ := x
    have hO := h1 S inE hl
    have hC := h2 S inE hl
    have hcy : ordCycle ps inE = true ↔ ∃ p ∈ ps, ∃ q ∈ wait S p, q.isIn ps = true := by
      rw [ordCycle_eq_true]
      constructor
      · rintro ⟨⟨k, v⟩, he, q, hq, hi⟩
        have hk := hO.keys.2 k (List.mem_map_of_mem (f := Prod.fst) he)
        obtain ⟨p, hp, rfl⟩ := List.mem_map.1 hk
        have := dget_of_mem hO.keys.1 he
        rw [hC.rem p hp] at this
        injection this with this
        exact ⟨p, hp, q, this ▸ hq, hi⟩
      · rintro ⟨p, hp, q, hq, hi⟩
        exact ⟨_, mem_of_dget (hC.rem p hp), q, hq, hi⟩
    by_cases hc : ordCycle ps inE = true
    · left
      refine ⟨by simp [hc], ?_⟩
      intro ha
      obtain ⟨p, hp, q, hq, hi⟩ := hcy.1 hc
      have hall : ∀ p ∈ ps, p ∈ S := by
        apply acyclic_induction (P := fun p => p ∈ S) ha
        intro p hp hpar
        have := hC.comp p hp ?_
        · simpa using this
        · rcases hg p hp with h | h
          · left
            rw [wait, List.filter_eq_nil_iff]
            intro q hq
            obtain ⟨x, hx, he⟩ := Plate.isIn_iff.1 (h q hq)
            have := hpar x hx ⟨q, hq, (Plate.pyEq_name he).symm⟩
            have : q.isIn S = true := Plate.isIn_iff.2 ⟨x, this, he⟩
            simp [this]
          · exact Or.inr h.1
      obtain ⟨x, hx, he⟩ := Plate.isIn_iff.1 hi
      have h4 : q.isIn S = true := Plate.isIn_iff.2 ⟨x, hall x hx, he⟩
      simp only [wait, List.mem_filter, h4] at hq
      simp at hq
    · right
      have hall : ∀ p ∈ ps, p ∈ S := by
        intro p hp
        have := hC.comp p hp ?_
        · simpa using this
        · rcases hg p hp with h | h
          · left
            rw [List.eq_nil_iff_forall_not_mem]
            intro q hq
            exact hc (hcy.2 ⟨p, hp, q, hq, h q (List.mem_filter.1 hq).1⟩)
          · exact Or.inr h.1
      have hSn : (S.map Plate.name).Nodup := by simpa using hO.nodup
      have hperm : S.Perm ps :=
        (List.perm_ext_iff_of_nodup hSn.of_map hn.of_map).2
          (fun p => ⟨fun h => hO.sub p (by simpa using h), hall p⟩)
      have hsorted : SortedIn ps S := by
        intro S1 p S2 he q hq hx
        exact Plate.isIn_iff.1 (hO.sorted S1 p S2 he q hq (Plate.isIn_iff.2 hx))
      refine ⟨?_, S, by simp [hc], hperm, hsorted⟩
      apply acyclic_of_rank
        (fun k => if k ∈ ps.map Plate.name then (S.map Plate.name).idxOf k + 1 else 0)
      rintro a b ⟨p, hp, rfl, q, hq, rfl⟩
      have hpn : p.name ∈ ps.map Plate.name := List.mem_map_of_mem hp
      simp only [hpn, if_true]
      split_ifs with hqn
      · obtain ⟨x, hx, hxq⟩ := List.mem_map.1 hqn
        have hin : q.isIn ps = true := by
          rcases hg p hp with h | h
          · exact h q hq
          · exact absurd hxq (h.2 q hq x hx)
        obtain ⟨S1, S2, he⟩ := List.append_of_mem (hall p hp)
        obtain ⟨y, hy, hyq⟩ := hsorted S1 p S2 he q hq (Plate.isIn_iff.1 hin)
        have hnd := hSn
        rw [he, List.map_append, List.map_cons] at hnd
        have hp1 : p.name ∉ S1.map Plate.name := by
          intro h
          exact List.disjoint_of_nodup_append hnd h (by simp)
        have hq1 : q.name ∈ S1.map Plate.name := by
          rw [← Plate.pyEq_name hyq]; exact List.mem_map_of_mem hy
        rw [he, List.map_append, List.map_cons, List.idxOf_append_of_mem hq1,
          List.idxOf_append_of_notMem hp1]
        have := List.idxOf_lt_length_of_mem hq1
        simp only [List.idxOf_cons_self]
        omega
      · omega

/-- C10: on a parent-closed list with distinct names and no cycle, `order_plates` returns a permutation
of the list in which every plate comes after all its parents. -/
theorem C10_topological (ps : List (Plate α)) (hn : (ps.map Plate.name).Nodup)
    (hc : ParentClosed ps) (ha : AcyclicPlates ps) :
    ∃ r, orderPlates ps = .ok r ∧ r.Perm ps ∧
      ∀ r1 p r2, r = r1 ++ p :: r2 → ∀ q ∈ p.parents, ∃ x ∈ r1, x.pyEq q = true := by
  have hg : ParentsAllOrNone ps := fun p hp => Or.inl (hc p hp)
  rcases orderPlates_good hn (pGood_of_spec hg) with h | ⟨_, r, h1, h2, h3⟩
  · exact absurd ha h.2
  · refine ⟨r, h1, h2, ?_⟩
    intro r1 p r2 he q hq
    exact h3 r1 p r2 he q hq (hc p (h2.mem_iff.1 (by rw [he]; simp)) q hq)

/-- C10: on a parent-closed list with distinct names `ValueError` is raised exactly when there is a
cycle, and nothing else is ever raised. -/
theorem C10_error_iff_cycle (ps : List (Plate α)) (hn : (ps.map Plate.name).Nodup)
    (hc : ParentClosed ps) (reverse : Bool) :
    (orderPlates ps reverse = .error .value ↔ ¬ AcyclicPlates ps) ∧
    ∀ e, orderPlates ps reverse = .error e → e = .value := by
  have hg : ParentsAllOrNone ps := fun p hp => Or.inl (hc p hp)
  have : orderPlates ps reverse =
      if reverse then (orderPlates ps false).map List.reverse else orderPlates ps false := by
    cases reverse
    · rfl
    · exact C10_reverse ps
  rw [this]
  rcases orderPlates_good hn (pGood_of_spec hg) with h | ⟨ha, r, h1, h2, h3⟩
  · rw [h.1]
    cases reverse <;> simp [Except.map, h.2]
  · rw [h1]
    cases reverse <;> simp [Except.map, ha]

/-- C11, the part that holds for every list with distinct names: the call either raises `ValueError` or
returns a duplicate-free selection of the given plates in which every plate comes after those of its
parents that were given.  Missing: that all plates are returned and that no error is raised, which is
false in general (`C11_refuted`). -/
theorem C11_sound_partial (ps : List (Plate α)) (hn : (ps.map Plate.name).Nodup) :
    orderPlates ps = .error .value ∨
    ∃ r, orderPlates ps = .ok r ∧ r.Nodup ∧ (∀ p ∈ r, p ∈ ps) ∧ SortedIn ps r := by
  rcases orderPlates_run hn with h | ⟨r, inE, h1, h2, _⟩
  · exact Or.inl h
  · right
    refine ⟨r, h2, ?_, fun p hp => h1.sub p (by simpa using hp), ?_⟩
    · have := h1.nodup
      rw [List.append_nil] at this
      exact this.of_map
    · intro S1 p S2 he q hq hx
      exact Plate.isIn_iff.1 (h1.sorted S1 p S2 he q hq (Plate.isIn_iff.2 hx))

/-- C11, completeness where it holds: if every plate has all or none of its ancestors' plates in the
list, nothing is lost and an error is raised only for a real cycle.  Missing: plates with some parents
inside and some outside of the list. -/
theorem C11_complete_partial (ps : List (Plate α)) (hn : (ps.map Plate.name).Nodup)
    (hg : ParentsAllOrNone ps) (ha : AcyclicPlates ps) :
    ∃ r, orderPlates ps = .ok r ∧ r.Perm ps ∧ SortedIn ps r := by
  rcases orderPlates_good hn (pGood_of_spec hg) with h | ⟨_, r, h⟩
  · exact absurd ha h.2
  · exact ⟨r, h⟩

/-! ### Cases -/

section Examples
private def w1 : Weight Int := .torch (.scalar 1)
private def pa : Plate Int := .mk "a" 2 w1 .plain []
private def pb : Plate Int := .mk "b" 3 w1 .plain [pa]
private def pc : Plate Int := .mk "c" 4 w1 .plain [pa, pb]
private def pd : Plate Int := .mk "d" 5 w1 .plain [pa, pb, pc]

/-- C11 fails: with `a` already reduced, `order_plates([c, b])` loses `c`, and
`order_plates([d, c, b])` reports a cycle although there is none. -/
theorem C11_refuted :
    (∃ ps : List (Plate Int), (ps.map Plate.name).Nodup ∧ AcyclicPlates ps ∧
      ∃ r, orderPlates ps = .ok r ∧ ∃ p ∈ ps, p.name ∉ r.map Plate.name) ∧
    (∃ ps : List (Plate Int), (ps.map Plate.name).Nodup ∧ AcyclicPlates ps ∧
      orderPlates ps = .error .value) := by
  have hr : ∀ ps : List (Plate Int), (∀ p ∈ ps, p = pb ∨ p = pc ∨ p = pd) → AcyclicPlates ps := by
    intro ps h
    apply acyclic_of_rank (fun k => if k = "a" then 0 else if k = "b" then 1 else
      if k = "c" then 2 else 3)
    rintro a b ⟨p, hp, rfl, q, hq, rfl⟩
    rcases h p hp with rfl | rfl | rfl
    · simp only [pb, Plate.parents, List.mem_singleton] at hq
      subst hq; decide
    · simp only [pc, Plate.parents, List.mem_cons, List.not_mem_nil, or_false] at hq
      rcases hq with rfl | rfl <;> decide
    · simp only [pd, Plate.parents, List.mem_cons, List.not_mem_nil, or_false] at hq
      rcases hq with rfl | rfl | rfl <;> decide
  refine ⟨⟨[pc, pb], by decide, hr _ (by simp), ?_⟩, ⟨[pd, pc, pb], by decide, hr _ (by simp), ?_⟩⟩
  · refine ⟨[pb], ?_, pc, by simp, by decide⟩
    rfl
  · rfl

/-- A case for `C10_terminates`, `C11_sound_partial` and `C10_topological`: three nested plates given in the wrong order. -/
example : ((([pc, pb, pa] : List (Plate Int)).map Plate.name).Nodup) ∧
    ParentClosed [pc, pb, pa] ∧ AcyclicPlates [pc, pb, pa] ∧
    orderPlates [pc, pb, pa] = .ok [pa, pb, pc] := by
  refine ⟨by decide, ?_, ?_, rfl⟩
  · intro p hp q hq
    simp only [List.mem_cons, List.not_mem_nil, or_false] at hp
    rcases hp with rfl | rfl | rfl
    · simp only [pc, Plate.parents, List.mem_cons, List.not_mem_nil, or_false] at hq
      rcases hq with rfl | rfl
      · exact ⟨pa, by simp, Plate.pyEq_refl _⟩
      · exact ⟨pb, by simp, Plate.pyEq_refl _⟩
    · simp only [pb, Plate.parents, List.mem_singleton] at hq
      subst hq
      exact ⟨pa, by simp, Plate.pyEq_refl _⟩
    · simp [pa, Plate.parents] at hq
  · apply acyclic_of_rank (fun k => if k = "a" then 0 else if k = "b" then 1 else
      if k = "c" then 2 else 3)
    rintro a b ⟨p, hp, rfl, q, hq, rfl⟩
    simp only [List.mem_cons, List.not_mem_nil, or_false] at hp
    rcases hp with rfl | rfl | rfl
    · simp only [pc, Plate.parents, List.mem_cons, List.not_mem_nil, or_false] at hq
      rcases hq with rfl | rfl <;> decide
    · simp only [pb, Plate.parents, List.mem_singleton] at hq
      subst hq; decide
    · simp [pa, Plate.parents] at hq

/-- A case for the error direction of `C10_error_iff_cycle`: two plates that are each other's parent. -/
example : let x : Plate Int := .mk "x" 2 w1 .plain [.mk "y" 2 w1 .plain []]
    let y : Plate Int := .mk "y" 2 w1 .plain [.mk "x" 2 w1 .plain []]
    ([x, y].map Plate.name).Nodup ∧ orderPlates [x, y] = .error .value := by
  exact ⟨by decide, rfl⟩

/-- A case for `C11_complete_partial`: `b` has all, `c` none of its ancestors in the list. -/
example : ParentsAllOrNone ([pb, pa, .mk "c" 4 w1 .plain [.mk "z" 2 w1 .plain []]] : List (Plate Int)) := by
  intro p hp
  simp only [List.mem_cons, List.not_mem_nil, or_false] at hp
  rcases hp with rfl | rfl | rfl
  · left
    intro q hq
    simp only [pb, Plate.parents, List.mem_singleton] at hq
    subst hq
    exact ⟨pa, by simp, Plate.pyEq_refl _⟩
  · left; intro q hq; simp [pa, Plate.parents] at hq
  · right
    constructor
    · intro q hq x hx
      cases hq with
      | parent hq =>
        simp only [Plate.parents, List.mem_singleton] at hq
        subst hq
        simp only [List.mem_cons, List.not_mem_nil, or_false] at hx
        rcases hx with rfl | rfl | rfl <;> rfl
      | step h1 h2 =>
        simp only [Plate.parents, List.mem_singleton] at h2
        subst h2
        cases h1 with
        | parent h => simp [Plate.parents] at h
        | step _ h => simp [Plate.parents] at h
    · intro q hq x hx
      simp only [Plate.parents, List.mem_singleton] at hq
      subst hq
      simp only [List.mem_cons, List.not_mem_nil, or_false] at hx
      rcases hx with rfl | rfl | rfl <;> decide

end Examples

end Storch
