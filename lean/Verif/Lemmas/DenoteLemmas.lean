import Verif.Props.IndepProps

/-!
Lemmas for C98: what `IndependentTensor.__init__` creates, and the mean over its plate.
-/

namespace Storch
variable {α : Type _}
open World

/-- The new tensor, whether the list of plates is new or shared. -/
theorem newIndep_sten [ValEq α] {env : Env α} {w : World α} {t : Ten α} {parents : List Nat} {src : PlateSrc α}
    {tn pn : String} {n : Nat} {es : List Nat} (hn0 : 1 ≤ n) (hpos : ∀ p ∈ w.srcPlates src, 1 ≤ p.n)
    (hnd : ((w.srcPlates src).map Plate.name).Nodup) (hname : ∀ p ∈ w.srcPlates src, p.name ≠ pn)
    (s : List Nat) (hs' : t.shape = n :: s)
    (hs : t.shape = ((Plate.mk pn n (.torch (Ten.scalar (env.inv n))) .plain (w.srcPlates src) ::
      w.srcPlates src).filter (fun p => decide (1 < p.n))).map Plate.n ++ es) :
    ∃ w', newIndep env w t parents src tn pn none = (w', .ok ()) ∧ w'.size = w.size + 1 ∧
      (w'.node w.size).parents = parents.map (fun p => (p, false)) ∧
      (w'.sten w.size).ten = t ∧
      (w'.sten w.size).plates = Plate.mk pn n (.torch (Ten.scalar (env.inv n))) .plain (w.srcPlates src) :: w.srcPlates src ∧
      (w'.sten w.size).WF ∧ (w'.sten w.size).eventShape = es := by
  set ps := w.srcPlates src with hps
  set P : Plate α := Plate.mk pn n (.torch (Ten.scalar (env.inv n))) .plain ps with hP
  obtain ⟨r, hr1, hr2, hr3, hr4, hr5⟩ := checkPlates_ok_of (R := P :: ps) (by
      rw [List.map_cons, List.nodup_cons]
      refine ⟨?_, hnd⟩
      intro hm
      obtain ⟨q, hq, he⟩ := List.mem_map.1 hm
      exact hname q hq he) (by
      intro p hp
      rcases List.mem_cons.1 hp with rfl | hp
      · exact hn0
      · exact hpos p hp) t es hs
  obtain ⟨d, hd, hrd⟩ : ∃ d, STen.checkPlates t.shape (P :: ps) [] 0 = .ok d ∧ r = ⟨t, P :: ps, d⟩ := by
    unfold STen.mk' at hr1
    split at hr1
    · cases hr1
    · rename_i d hd; cases hr1; exact ⟨d, hd, rfl⟩
  have hany : (ps.any fun p => p.name == pn) = false := by simpa using hname
  have hW : indepWeight env n none = .ok (.torch (Ten.scalar (env.inv n))) := by
    rw [indepWeight, if_neg (by omega)]
  have key : ∀ (w1 : World α) (src1 : PlateSrc α), w1.size = w.size → w1.srcPlates src1 = P :: ps →
      ∃ w', newNode w1 .indep (some tn) t parents src1 false none = (w', .ok w.size) ∧ w'.size = w.size + 1 ∧
        (w'.node w.size).parents = parents.map (fun p => (p, false)) ∧
        ((w'.plates w.size = P :: ps) → w'.sten w.size = r) ∧ (w'.node w.size).platesAt = src1.addr w.size ∧
        w'.plateList = src1.store w.size w1.plateList := by
    intro w1 src1 hsz hsrc
    generalize hr : newNode w1 .indep (some tn) t parents src1 false none = q
    obtain ⟨w', res⟩ := q
    have hres : res = .ok w.size := by
      unfold newNode at hr
      simp only [hsrc, hd] at hr
      cases hr; rw [hsz]
    subst hres
    obtain ⟨g1, g2, g3, g4, g5, g6, g7, g8, g9, g10, g11, g12, _⟩ := newNode_spec hr
    refine ⟨w', rfl, by rw [g2, hsz], g4, ?_, g9, g10⟩
    intro hpl
    rw [hsrc, hd] at g12
    injection g12 with g12
    rw [hrd, World.sten, g7, hpl, g12]
  cases src with
  | fresh qs =>
    have hqs : qs = ps := rfl
    obtain ⟨w', k1, k2, k3, k4, k5, k6⟩ := key w (.fresh (P :: ps)) rfl rfl
    have hst := k4 (by
      rw [World.plates, k5, k6]
      simp only [PlateSrc.addr, PlateSrc.store, if_true])
    refine ⟨w', ?_, k2, k3, by rw [hst, hr2], by rw [hst, hr3], by rw [hst]; exact hr4, by rw [hst, hr5]⟩
    unfold newIndep
    rw [hs']
    simp only [← hps, hany, hW, Bool.false_eq_true, if_false]
    simp only [← hP, k1]
  | shared a =>
    obtain ⟨w', k1, k2, k3, k4, k5, k6⟩ :=
      key { w with plateList := fun b => if b = a then P :: ps else w.plateList b } (.shared a) rfl (by
        simp only [srcPlates, if_true])
    have hst := k4 (by
      rw [World.plates, k5, k6]
      simp only [PlateSrc.addr, PlateSrc.store, if_true])
    refine ⟨w', ?_, k2, k3, by rw [hst, hr2], by rw [hst, hr3], by rw [hst]; exact hr4, by rw [hst, hr5]⟩
    unfold newIndep
    rw [hs']
    simp only [← hps, hany, hW, Bool.false_eq_true, if_false]
    simp only [← hP, k1]

/-- Reducing a plate with weight `1 / n`, that no other plate depends on, gives the mean over it. -/
theorem newPlate_mean [ValEq α] [Field α] {r : STen α} (hprop : Proper r) {pn : String} {n : Nat} {ps : List (Plate α)}
    {inv : α} (hinv : inv = 1 / (n : α))
    (hr3 : r.plates = Plate.mk pn n (.torch (Ten.scalar inv)) .plain ps :: ps) (hname : NameFree pn ps)
    {hook : UnwrapHook α} (hh : PlainHook hook) (dt : α → α) (hdt : ∀ n : Nat, dt (1 / (n : α)) = 1 / (n : α)) :
    ∃ r', reducePlates hook dt (.st r false) [.name pn] = .ok r' ∧ r'.plates = ps ∧ r'.eventShape = r.eventShape ∧
      ∀ ι e, Ten.InB e r.eventShape → r'.sample ι e =
        (∑ k ∈ Finset.range n, r.sample (Function.update ι pn k) e) / (n : α) := by
  set P : Plate α := Plate.mk pn n (.torch (Ten.scalar inv)) .plain ps with hP
  have hPm : P ∈ r.plates := by rw [hr3]; simp
  have hnone : ParentsAllOrNone [P] := by
    intro p hp
    rw [List.mem_singleton] at hp
    subst hp
    right
    constructor
    · intro q hq y hy
      rw [List.mem_singleton] at hy
      subst hy
      apply pyEq_false_of_name
      cases hq with
      | parent h => exact Ne.symm (hname q h).1
      | step h1 h2 => exact Ne.symm ((hname _ h2).2 q h1)
    · intro q hq y hy
      rw [List.mem_singleton] at hy
      subst hy
      exact Ne.symm (hname q hq).1
  have hacy : AcyclicPlates [P] := by
    have h1 : ∀ a b, ParentOf [P] a b → b = pn ∧ a ≠ pn := by
      rintro a b ⟨p, hp, hb, q, hq, ha⟩
      rw [List.mem_singleton] at hp
      subst hp
      exact ⟨hb.symm, by rw [← ha]; exact (hname q hq).1⟩
    intro k hk
    have hlast : k = pn := by
      cases hk with
      | single h => exact (h1 _ _ h).1
      | tail _ h => exact (h1 _ _ h).1
    have hfirst : k ≠ pn := by
      rcases Relation.TransGen.head'_iff.1 hk with ⟨c, hc, _⟩
      exact (h1 _ _ hc).2
    exact hfirst hlast
  obtain ⟨l, r', _, hperm, q1, q2, q3, ⟨_, _⟩, q5, q6⟩ := reducePlates_spec hh dt hprop (args := [.name pn]) (ps := [P])
    (Or.inr ⟨by simp, .cons ⟨hPm, Or.inr rfl⟩ .nil⟩) (by simp) (by
      intro p hp
      rw [List.mem_singleton] at hp
      subst hp
      exact .scalar _ rfl rfl) (by
      intro p hp W names hW
      rw [List.mem_singleton] at hp
      subst hp
      cases hW) hnone hacy false
  have hl1 : l = [P] := List.perm_singleton.1 hperm
  subst hl1
  have hes : r'.eventShape = r.eventShape := q5 (by
    intro p hp
    rw [List.mem_singleton] at hp
    subst hp
    exact ⟨_, rfl⟩)
  refine ⟨r', q1, ?_, hes, ?_⟩
  · rw [q3, hr3, dropPlates, List.filter_cons_of_neg (by simp)]
    apply List.filter_eq_self.2
    intro q hq
    have : q.name ≠ P.name := (hname q hq).1
    simp [this]
  · intro ι e he
    rw [q6 ι e (by rw [hes, ← InB.length_eq he, List.take_length]; exact he)]
    have hw : ∀ ι, P.weightAt dt ι = 1 / (n : α) := by
      intro ι
      simp only [hP, Plate.weightAt, Plate.weight, Ten.scalar]
      simp [hinv]
      simpa using hdt n
    simp only [List.reverse_singleton, nestSum, List.map_cons, List.map_nil, List.prod_cons, List.prod_nil, mul_one, hw]
    show ∑ k ∈ Finset.range n, _ = _
    rw [← Finset.mul_sum, one_div, div_eq_mul_inv, mul_comm]
    rfl

/-- Swapping a position with the first one: the entry comes first, and the first entry takes its place. -/
theorem swapAt_front {β : Type _} {l : List β} {d : Nat} (h : d < l.length) :
    swapAt l d 0 = l[d] :: (l.set d (l[0]'(by omega))).tail := by
  rw [swapAt_of_lt h (by omega)]
  cases l with
  | nil => simp at h
  | cons a l => cases d <;> simp

theorem moveFront_ok {x : Ten α} {dim : Nat} (h : dim < x.shape.length) :
    ∃ t, moveFront x dim = .ok t ∧
      t.shape = x.shape[dim] :: (x.shape.set dim (x.shape[0]'(by omega))).tail ∧
      ∀ idx (hi : dim < idx.length), t.get (idx[dim] :: (idx.set dim (idx[0]'(by omega))).tail) = x.get idx := by
  by_cases hd : dim = 0
  · subst hd
    refine ⟨x, by rw [moveFront, if_pos rfl], ?_, ?_⟩
    · have : ∀ (l : List Nat) (h : 0 < l.length), l = l[0] :: (l.set 0 l[0]).tail := by
        intro l h
        cases l with
        | nil => simp at h
        | cons a l => simp
      exact this _ h
    · intro idx hi
      cases idx with
      | nil => simp at hi
      | cons a l => simp
  · refine ⟨⟨swapAt x.shape dim 0, fun idx => x.get (swapAt idx dim 0)⟩, ?_, swapAt_front h, ?_⟩
    · rw [moveFront, if_neg hd, Ten.transpose, if_pos ⟨h, by show 0 < x.shape.length; omega⟩]
    · intro idx hi
      show x.get (swapAt _ dim 0) = _
      rw [← swapAt_front hi, swapAt_swapAt hi (by omega)]

end Storch
