import Verif.Props.ContextProps
import Verif.Props.ReduceProps

/-!
# C16, C17: gather_samples and denote_independent
-/

namespace Storch
variable {α : Type _}
open World

theorem raised {p : World α × Except Err Unit} {e : Err} (h : p.2 = .error e) : p = (p.1, .error e) := by
  cases p; cases h; rfl

/-! ### C16 -/

/-- Neither a plate of the list nor one of its ancestors has the name. -/
def NameFree (pn : String) (ps : List (Plate α)) : Prop :=
  ∀ p ∈ ps, p.name ≠ pn ∧ ∀ q, IsAncestor q p → q.name ≠ pn

theorem pyEq_false_of_name [ValEq α] {p q : Plate α} (h : p.name ≠ q.name) : p.pyEq q = false := by
  have hb : ∀ a b : Plate α, a.name ≠ b.name → a.baseEq b = false := by
    intro a b h
    rw [Plate.baseEq, if_pos (by simpa using h)]
  have hm : ∀ a b : Plate α, a.name ≠ b.name → a.eqMethod b = false := by
    intro a b h
    unfold Plate.eqMethod
    split
    · exact hb a b h
    · split
      · rfl
      · rw [hb a b h]; rfl
  unfold Plate.pyEq
  split
  · exact hm _ _ (Ne.symm h)
  · exact hm _ _ h

theorem newIndep_fresh {env : Env α} {w : World α} {t : Ten α} {parents : List Nat} {ps : List (Plate α)}
    {tn pn : String} {wt : Option (Weight α)} {n : Nat} {s : List Nat} {W : Weight α} {d : Nat}
    (hs : t.shape = n :: s) (hn : ∀ p ∈ ps, p.name ≠ pn) (hW : indepWeight env n wt = .ok W)
    (hc : STen.checkPlates t.shape (Plate.mk pn n W .plain ps :: ps) [] 0 = .ok d) :
    ∃ w', newIndep env w t parents (.fresh ps) tn pn wt = (w', .ok ()) ∧
      newNode w .indep (some tn) t parents (.fresh (Plate.mk pn n W .plain ps :: ps)) false none =
        (w', .ok w.size) := by
  generalize hr : newNode w .indep (some tn) t parents (.fresh (Plate.mk pn n W .plain ps :: ps)) false none = r
  obtain ⟨w', res⟩ := r
  have hres : res = .ok w.size := by
    unfold newNode at hr
    simp only [srcPlates, hc] at hr
    cases hr; rfl
  subst hres
  refine ⟨w', ?_, rfl⟩
  unfold newIndep
  rw [hs]
  have hany : ((w.srcPlates (.fresh ps)).any fun p => p.name == pn) = false := by
    simpa [srcPlates] using hn
  simp only [hany, hW, Bool.false_eq_true, if_false]
  simp only [srcPlates, hr]

section
variable [ValEq α]

omit [ValEq α] in
theorem stack_ok {ts : List (Ten α)} {t : Ten α} (h : ∀ u ∈ t :: ts, u.shape = t.shape) :
    ∃ r, stackSamples (t :: ts) = .ok r ∧ r.shape = (t :: ts).length :: t.shape ∧
      ∀ k (hk : k < (t :: ts).length) idx, r.get (k :: idx) = ((t :: ts)[k]).get idx := by
  have hall : (ts.all fun u => u.shape == t.shape) = true := by
    simpa using fun u hu => h u (by simp [hu])
  refine ⟨_, by simp only [stackSamples, hall, if_true]; rfl, rfl, ?_⟩
  · intro k hk idx
    simp only [List.getD_eq_getElem?_getD, List.getElem?_eq_getElem hk, Option.getD_some]

/-- Gathering at least two samples with the same shape and the same plates, outside of deterministic and
stochastic functions, under a new plate name: the result is a new tensor whose value at index `k` of the new
plate is the `k`th sample, at all indices of all other plates; no existing tensor changes, apart from the
children that are recorded for the samples; and reducing the new plate gives the mean of the samples.
Missing from C16: a single sample (`C16_refuted`). -/
theorem C16_gather_partial [Field α] [Inhabited α] (env : Env α) (w : World α) (hr : Reachable env w)
    (hinv : ∀ n, env.inv n = 1 / (n : α)) (x : Nat) (xs : List Nat) (hlen : xs ≠ []) (pn : String)
    (hctx : w.ctxDet = 0 ∧ w.ctxStoch = false) (hlt : ∀ i ∈ x :: xs, i < w.size)
    (hgood : ∀ i ∈ x :: xs, Proper (w.sten i) ∧ w.plates i = w.plates x ∧
      (w.node i).ten.shape = (w.node x).ten.shape)
    (hname : NameFree pn (w.plates x)) :
    ∃ w', exec env (.gather (x :: xs) pn none) w = (w', .ok ()) ∧ w'.size = w.size + 1 ∧
      (∀ i < w.size, w'.node i = w.node i ∧ w'.plates i = w.plates i) ∧
      (∃ p, w'.plates w.size = p :: w.plates x ∧ p.name = pn ∧ p.n = (x :: xs).length) ∧
      (w'.sten w.size).eventShape = (w.sten x).eventShape ∧
      (∀ k (hk : k < (x :: xs).length) ι e, (w'.sten w.size).sample (Function.update ι pn k) e =
        (w.sten ((x :: xs)[k])).sample ι e) ∧
      ∀ {hook : UnwrapHook α}, PlainHook hook → ∀ dt : α → α, (∀ n : Nat, dt (1 / (n : α)) = 1 / (n : α)) →
        ∃ r, reducePlates hook dt (.st (w'.sten w.size) false) [.name pn] = .ok r ∧
          r.plates = w.plates x ∧ r.eventShape = (w.sten x).eventShape ∧
          ∀ ι e, Ten.InB e (w.sten x).eventShape → r.sample ι e =
            ((x :: xs).map (fun i => (w.sten i).sample ι e)).sum / ((x :: xs).length : α) := by
  obtain ⟨_, hl, _⟩ := hr.good
  obtain ⟨t, ht1, ht2, ht3⟩ := stack_ok (ts := xs.map (fun i => (w.node i).ten)) (t := (w.node x).ten)
    (by
      intro u hu
      rcases List.mem_cons.1 hu with rfl | hu
      · rfl
      · obtain ⟨i, hi, rfl⟩ := List.mem_map.1 hu
        exact (hgood i (by simp [hi])).2.2)
  have hlen' : ((w.node x).ten :: xs.map (fun i => (w.node i).ten)).length = (x :: xs).length := by simp
  rw [hlen'] at ht2
  set n := (x :: xs).length with hn
  have hn2 : 1 < n := by
    cases xs with
    | nil => exact absurd rfl hlen
    | cons y ys => simp [hn]
  have hpx := (hgood x (by simp)).1
  set P : Plate α := Plate.mk pn n (.torch (Ten.scalar (env.inv n))) .plain (w.plates x) with hP
  have hpnames : ((P :: w.plates x).map Plate.name).Nodup := by
    rw [List.map_cons, List.nodup_cons]
    refine ⟨?_, hpx.wf.names⟩
    intro hm
    obtain ⟨q, hq, he⟩ := List.mem_map.1 hm
    exact (hname q hq).1 he
  have hpos : ∀ p ∈ P :: w.plates x, 1 ≤ p.n := by
    intro p hp
    rcases List.mem_cons.1 hp with rfl | hp
    · exact le_of_lt hn2
    · exact hpx.wf.pos p hp
  have hfilter : (P :: w.plates x).filter (fun p => decide (1 < p.n)) = P :: (w.sten x).multiDimPlates := by
    rw [List.filter_cons_of_pos (by simpa [hP, Plate.n] using hn2)]
    rfl
  obtain ⟨r, hr1, hr2, hr3, hr4, hr5⟩ := checkPlates_ok_of hpnames hpos t (w.sten x).eventShape (by
    rw [ht2, hfilter, List.map_cons]
    have := hpx.wf.shape
    rw [List.cons_append, ← this]
    rfl)
  have hcheck : ∃ d, STen.checkPlates t.shape (P :: w.plates x) [] 0 = .ok d ∧ r = ⟨t, P :: w.plates x, d⟩ := by
    unfold STen.mk' at hr1
    split at hr1
    · cases hr1
    · rename_i d hd; cases hr1; exact ⟨d, hd, rfl⟩
  obtain ⟨d, hd, hrd⟩ := hcheck
  obtain ⟨w', hw1, hw2⟩ := newIndep_fresh (w := w) (parents := x :: xs) (tn := indepName (w.node x).name pn)
    (env := env) (wt := none) (n := n) (W := .torch (Ten.scalar (env.inv n))) ht2 (fun p hp => (hname p hp).1)
    (by rw [indepWeight, if_neg (by omega)]) hd
  obtain ⟨g1, g2, g3, g4, g5, g6, g7, g8, g9, g10, g11, g12, _⟩ := newNode_spec hw2
  have hnew : w'.sten w.size = r := by
    rw [hrd, World.sten, g7, World.plates, g9, g10]
    simp only [PlateSrc.addr, PlateSrc.store, if_true]
    simp only [srcPlates] at g12
    have : d = (w'.node w.size).plateDims := by
      have h0 := hd.symm.trans g12
      cases h0; rfl
    rw [this]
  have hmd : r.multiDimPlates = P :: (w.sten x).multiDimPlates := by
    rw [STen.multiDimPlates, hr3, hfilter]
  have hsamp : ∀ k (hk : k < n) ι e, r.sample (Function.update ι pn k) e = (w.sten ((x :: xs)[k])).sample ι e := by
    intro k hk ι e
    have hi := hgood ((x :: xs)[k]) (List.getElem_mem hk)
    have hmdi : (w.sten ((x :: xs)[k])).multiDimPlates = (w.sten x).multiDimPlates := by
      rw [STen.multiDimPlates, STen.multiDimPlates]
      show (w.plates _).filter _ = (w.plates _).filter _
      rw [hi.2.1]
    have hdims : (w.node ((x :: xs)[k])).plateDims = (w.node x).plateDims := by
      have h1 := hi.1.wf.dims
      have h2 := hpx.wf.dims
      rw [hmdi] at h1
      exact h1.trans h2.symm
    have hev : (w.sten ((x :: xs)[k])).eventShape = (w.sten x).eventShape := by
      have h1 := hi.1.wf.shape
      have h2 := hpx.wf.shape
      rw [hmdi] at h1
      have h3 : (w.sten ((x :: xs)[k])).ten.shape = (w.sten x).ten.shape := hi.2.2
      rw [h1, h2] at h3
      exact List.append_cancel_left h3
    rw [STen.sample, STen.sample, hmd, hmdi, hr5, hev, hr2, List.map_cons, List.cons_append]
    have hup : (fun p : Plate α => Function.update ι pn k p.name) P = k := by simp [hP, Plate.name]
    simp only at hup
    rw [hup, ht3 k (by rw [hlen']; exact hk)]
    have hget : ((w.node x).ten :: xs.map (fun i => (w.node i).ten))[k]'(by rw [hlen']; exact hk) =
        (w.sten ((x :: xs)[k])).ten := by
      have : ((x :: xs).map (fun i => (w.node i).ten))[k]'(by rw [List.length_map]; exact hk) = (w.node ((x :: xs)[k])).ten := by
        rw [List.getElem_map]
      exact this
    rw [hget]
    congr 2
    apply List.map_congr_left
    intro p hp
    have := (hname p (List.mem_filter.1 hp).1).1
    rw [Function.update_of_ne this]
  have hprop : Proper r := by
    refine ⟨hr4, ?_⟩
    rw [hr3]
    intro p hp
    rcases List.mem_cons.1 hp with rfl | hp
    · rfl
    · exact hpx.plain p hp
  refine ⟨w', ?_, g2, ?_, ?_, by rw [hnew, hr5], by rw [hnew]; exact hsamp, ?_⟩
  · simp only [exec, World.gather]
    rw [if_neg (by simpa using hlt), hctx.1, hctx.2]
    simp only [lt_irrefl, decide_false, Bool.or_false, Bool.false_eq_true, if_false, List.map_cons, ht1]
    exact hw1
  · intro i hi
    refine ⟨g3 i (by omega), ?_⟩
    rw [World.plates, World.plates, g3 i (by omega), g10]
    have := hl.plates i hi
    simp only [PlateSrc.store]
    rw [if_neg (by omega)]
  · refine ⟨P, ?_, rfl, rfl⟩
    have : w'.plates w.size = (w'.sten w.size).plates := rfl
    rw [this, hnew, hr3]
  · intro hook hh dt hdt
    rw [hnew]
    have hPm : P ∈ r.plates := by rw [hr3]; simp
    have hnone : ParentsAllOrNone [P] := by
      intro p hp
      rw [List.mem_singleton] at hp
      subst hp
      right
      constructor
      · intro q hq y hy
        rw [List.mem_singleton] at hy
        subst hy
        apply pyEq_false_of_name
        cases hq with
        | parent h => exact Ne.symm (hname q h).1
        | step h1 h2 => exact Ne.symm ((hname _ h2).2 q h1)
      · intro q hq y hy
        rw [List.mem_singleton] at hy
        subst hy
        exact Ne.symm (hname q hq).1
    have hacy : AcyclicPlates [P] := by
      have h1 : ∀ a b, ParentOf [P] a b → b = pn ∧ a ≠ pn := by
        rintro a b ⟨p, hp, hb, q, hq, ha⟩
        rw [List.mem_singleton] at hp
        subst hp
        exact ⟨hb.symm, by rw [← ha]; exact (hname q hq).1⟩
      intro k hk
      have hlast : k = pn := by
        cases hk with
        | single h => exact (h1 _ _ h).1
        | tail _ h => exact (h1 _ _ h).1
      have hfirst : k ≠ pn := by
        rcases Relation.TransGen.head'_iff.1 hk with ⟨c, hc, _⟩
        exact (h1 _ _ hc).2
      exact hfirst hlast
    obtain ⟨l, r', _, hperm, q1, q2, q3, ⟨_, _⟩, q5, q6⟩ := reducePlates_spec hh dt hprop (args := [.name pn]) (ps := [P])
      (Or.inr ⟨by simp, .cons ⟨hPm, Or.inr rfl⟩ .nil⟩) (by simp) (by
        intro p hp
        rw [List.mem_singleton] at hp
        subst hp
        exact .scalar _ rfl rfl) (by
        intro p hp W names hW
        rw [List.mem_singleton] at hp
        subst hp
        cases hW) hnone hacy false
    have hl1 : l = [P] := List.perm_singleton.1 hperm
    subst hl1
    have hes : r'.eventShape = r.eventShape := q5 (by
      intro p hp
      rw [List.mem_singleton] at hp
      subst hp
      exact ⟨_, rfl⟩)
    refine ⟨r', q1, ?_, by rw [hes, hr5], ?_⟩
    · rw [q3, hr3, dropPlates, List.filter_cons_of_neg (by simp)]
      apply List.filter_eq_self.2
      intro q hq
      have : q.name ≠ P.name := (hname q hq).1
      simp [this]
    · intro ι e he
      rw [q6 ι e (by rw [hes, hr5, ← InB.length_eq he, List.take_length]; exact he)]
      have hw : ∀ ι, P.weightAt dt ι = 1 / (n : α) := by
        intro ι
        simp only [hP, Plate.weightAt, Plate.weight, Ten.scalar]
        simp [hinv]
        simpa using hdt n
      simp only [List.reverse_singleton, nestSum, List.map_cons, List.map_nil, List.prod_cons, List.prod_nil, mul_one, hw]
      show ∑ k ∈ Finset.range n, _ = _
      rw [← Finset.mul_sum, div_eq_mul_one_div, mul_comm]
      have hmap : (x :: xs).map (fun i => (w.sten i).sample ι e) =
          (List.range n).map (fun k => r.sample (Function.update ι pn k) e) := by
        apply List.ext_getElem
        · simp [hn]
        · intro k h1 h2
          rw [List.length_map] at h1
          rw [List.getElem_map, List.getElem_map, List.getElem_range, hsamp k h1]
      rw [List.map_cons] at hmap
      rw [hmap, sum_range_list, one_mul, one_div, div_eq_mul_inv]
      rfl

end

/-- Two scalars `3` and `5`: the gathered tensor has the value `[3, 5]` and one plate of size 2. -/
def gatherTwo : Cmd Int :=
  .seq (.tensor (some "a") (Ten.scalar 3) [] []) <| .tensor (some "b") (Ten.scalar 5) [] []

/-- The hypotheses of `C16_gather_partial` hold before gathering. -/
example : let w := (exec plainEnv gatherTwo World.init).1
    w.ctxDet = 0 ∧ w.ctxStoch = false ∧ w.size = 2 ∧ w.plates 0 = [] ∧ w.plates 1 = [] ∧
      (w.node 1).ten.shape = (w.node 0).ten.shape := by decide +kernel

/-- A case for `C16_gather_partial` and `C17_others_partial`: what is gathered, next to the tensors 0 and 1. -/
example : let w := (exec plainEnv (.seq gatherTwo (.gather [0, 1] "s" none)) World.init).1
    (w.sten 2).ten.shape = [2] ∧ (w.plates 2).map Plate.name = ["s"] ∧
      (w.sten 2).sample (fun _ => 0) [] = 3 ∧ (w.sten 2).sample (fun _ => 1) [] = 5 := by decide +kernel

/-- A tensor of shape `[2]` on a plate of size 2. -/
def onePlate : Cmd Int :=
  .tensor (some "a") ⟨[2], fun i => i.headD 0⟩ [] [.mk "p" 2 (.torch (Ten.scalar 0)) .plain []]

/-- A scalar. -/
def oneScalar : Cmd Int := .tensor (some "a") (Ten.scalar 3) [] []

/-- C16 is false for a single sample: if the sample has a plate, gathering raises a `ValueError`; and if it
has none, the new dimension is an event dimension rather than the dimension of the plate, so that the
sample of a scalar is a vector of length 1. -/
theorem C16_refuted :
    (∃ w : World Int, exec plainEnv onePlate World.init = (w, .ok ()) ∧ (w.sten 0).ten.shape = [2] ∧
      (exec plainEnv (.gather [0] "s" none) w).2 = .error .value) ∧
    (∃ w w' : World Int, exec plainEnv oneScalar World.init = (w, .ok ()) ∧
      exec plainEnv (.gather [0] "s" none) w = (w', .ok ()) ∧
      (w.sten 0).eventShape = [] ∧ (w'.sten 1).eventShape = [1] ∧ (w'.sten 1).plateDims = 0) := by
  refine ⟨⟨(exec plainEnv onePlate World.init).1, ?_, ?_, ?_⟩,
    ⟨(exec plainEnv oneScalar World.init).1,
      (exec plainEnv (.gather [0] "s" none) (exec plainEnv oneScalar World.init).1).1, ?_, ?_, ?_, ?_, ?_⟩⟩
  · have : (exec plainEnv onePlate World.init).2 = .ok () := by decide +kernel
    exact ran this
  · decide +kernel
  · decide +kernel
  · have : (exec plainEnv oneScalar World.init).2 = .ok () := by decide +kernel
    exact ran this
  · have : (exec plainEnv (.gather [0] "s" none) (exec plainEnv oneScalar World.init).1).2 = .ok () := by
      decide +kernel
    exact ran this
  · decide +kernel
  · decide +kernel
  · decide +kernel

/-! ### C17 -/

/-- What `newNode` does to existing tensors, whether or not it raises. -/
theorem newNode_keeps {w w' : World α} {kind name t parents src rg m res}
    (h : newNode w kind name t parents src rg m = (w', res)) :
    (∀ i < w.size, w'.node i = w.node i) ∧ ∀ a, (∀ ps, src = .fresh ps → a ≠ w.size) → w'.plateList a = w.plateList a := by
  cases res with
  | error e =>
    unfold newNode at h
    split at h
    · cases h; exact ⟨fun _ _ => rfl, fun _ _ => rfl⟩
    · cases h
  | ok id =>
    obtain ⟨rfl, _, g3, _, _, _, _, _, _, g10, _⟩ := newNode_spec h
    refine ⟨fun i hi => g3 i (by omega), fun a ha => ?_⟩
    rw [g10]
    cases src with
    | fresh ps => simp only [PlateSrc.store]; rw [if_neg (ha ps rfl)]
    | shared b => rfl

theorem newIndep_keeps {env : Env α} {w w' : World α} {t parents src tn pn wt res}
    (h : newIndep env w t parents src tn pn wt = (w', res)) :
    (∀ i < w.size, w'.node i = w.node i) ∧
      ∀ a, a ≠ w.size → src ≠ .shared a → w'.plateList a = w.plateList a := by
  unfold newIndep at h
  split at h
  · cases h; exact ⟨fun _ _ => rfl, fun _ _ _ => rfl⟩
  · simp only at h
    split at h
    · cases h; exact ⟨fun _ _ => rfl, fun _ _ _ => rfl⟩
    · split at h
      · cases h; exact ⟨fun _ _ => rfl, fun _ _ _ => rfl⟩
      · cases src with
        | fresh ps =>
          simp only at h
          generalize hn : newNode w .indep _ t parents _ false none = r at h
          obtain ⟨w2, r2⟩ := r
          have hk := newNode_keeps hn
          have : w2 = w' := by cases r2 <;> (cases h; rfl)
          subst this
          exact ⟨hk.1, fun a ha _ => hk.2 a (fun _ _ => ha)⟩
        | shared b =>
          simp only at h
          generalize hn : newNode _ .indep _ t parents _ false none = r at h
          obtain ⟨w2, r2⟩ := r
          have hk := newNode_keeps hn
          have : w2 = w' := by cases r2 <;> (cases h; rfl)
          subst this
          refine ⟨hk.1, fun a ha hs => ?_⟩
          rw [hk.2 a (fun _ _ => ha)]
          simp only
          rw [if_neg (by rintro rfl; exact hs rfl)]

variable [ValEq α] [Inhabited α]

/-- Denoting a torch tensor, or gathering samples, changes neither the value nor the plates of any existing
tensor, whether or not it raises; and denoting a storch tensor changes neither, apart from the plates of
those tensors that share the list of plates of the argument.  Missing from C17: the argument itself
(`C17_argument_refuted`). -/
theorem C17_others_partial (env : Env α) (w : World α) (hr : Reachable env w) (pn : String)
    (wt : Option (Weight α)) (i : Nat) (hi : i < w.size) :
    (∀ t dim, let w' := (exec env (.denoteTorch t dim pn wt) w).1
      w'.node i = w.node i ∧ w'.plates i = w.plates i) ∧
    (∀ xs, let w' := (exec env (.gather xs pn wt) w).1
      w'.node i = w.node i ∧ w'.plates i = w.plates i) ∧
    ∀ x dim, let w' := (exec env (.denote x dim pn wt) w).1
      w'.node i = w.node i ∧ ((w.node i).platesAt ≠ (w.node x).platesAt → w'.plates i = w.plates i) := by
  obtain ⟨_, hl, _⟩ := hr.good
  have hp := hl.plates i hi
  refine ⟨?_, ?_, ?_⟩
  · intro t dim
    simp only [exec, denoteTorch]
    split
    · exact ⟨rfl, rfl⟩
    · split
      · exact ⟨rfl, rfl⟩
      · generalize hn : newIndep env w _ _ _ _ _ _ = r
        obtain ⟨w2, r2⟩ := r
        have hk := newIndep_keeps hn
        refine ⟨hk.1 i hi, ?_⟩
        simp only [World.plates]
        rw [hk.1 i hi, hk.2 _ (by omega) (by rintro ⟨⟩)]
  · intro xs
    simp only [exec, gather]
    split
    · exact ⟨rfl, rfl⟩
    · split
      · exact ⟨rfl, rfl⟩
      · split
        · exact ⟨rfl, rfl⟩
        · split
          · exact ⟨rfl, rfl⟩
          · generalize hn : newIndep env w _ _ _ _ _ _ = r
            obtain ⟨w2, r2⟩ := r
            have hk := newIndep_keeps hn
            refine ⟨hk.1 i hi, ?_⟩
            simp only [World.plates]
            rw [hk.1 i hi, hk.2 _ (by omega) (by rintro ⟨⟩)]
  · intro x dim
    simp only [exec, denote]
    split
    · exact ⟨rfl, fun _ => rfl⟩
    · split
      · exact ⟨rfl, fun _ => rfl⟩
      · split
        · exact ⟨rfl, fun _ => rfl⟩
        · generalize hn : newIndep env w _ _ _ _ _ _ = r
          obtain ⟨w2, r2⟩ := r
          have hk := newIndep_keeps hn
          refine ⟨hk.1 i hi, fun hne => ?_⟩
          simp only [World.plates]
          rw [hk.1 i hi, hk.2 _ (by omega) (by intro he; injection he with he; exact hne he.symm)]

/-- C17 is false for every storch argument: whenever `denote_independent` succeeds on one, the argument has
one plate more afterwards, although its value is the one it had. -/
theorem C17_argument_refuted (env : Env α) (w w' : World α) (hr : Reachable env w) (x dim : Nat) (pn : String)
    (wt : Option (Weight α)) (h : exec env (.denote x dim pn wt) w = (w', .ok ())) :
    ∃ p : Plate α, p.name = pn ∧ w'.plates x = p :: w.plates x ∧ w'.plates w.size = w'.plates x ∧
      (w'.node x).ten = (w.node x).ten ∧ (w'.node x).plateDims = (w.node x).plateDims := by
  obtain ⟨_, hl, _⟩ := hr.good
  simp only [exec, denote] at h
  split at h
  · cases h
  · rename_i hx
    split at h
    · cases h
    · split at h
      · cases h
      · have hp := hl.plates x (by omega)
        unfold newIndep at h
        split at h
        · cases h
        · simp only at h
          split at h
          · cases h
          · split at h
            · cases h
            · generalize hn : newNode _ .indep _ _ _ _ false none = r at h
              obtain ⟨w2, r2⟩ := r
              cases r2 with
              | error e => cases h
              | ok id =>
                cases h
                obtain ⟨rfl, _, g3, _, _, _, _, _, g9, g10, _⟩ := newNode_spec hn
                have hx' := g3 x (Nat.ne_of_lt (Nat.lt_of_not_le hx))
                simp only [PlateSrc.addr] at g9
                simp only [PlateSrc.store] at g10
                refine ⟨_, ?_, by rw [World.plates, hx', g10]; simp only [if_true]; rfl, ?_, by rw [hx'], by rw [hx']⟩
                · rfl
                · rw [World.plates, World.plates, g9, hx']

/-- A tensor of shape `[2, 3]` on a plate of size 2. -/
def plateAndEvent : Cmd Int :=
  .tensor (some "a") ⟨[2, 3], fun _ => 7⟩ [] [.mk "p" 2 (.torch (Ten.scalar 0)) .plain []]

/-- C17 is false: after denoting dimension 1 of a tensor of shape `[2, 3]` as independent, its own plates
claim that its first dimension has size 3; and even when the call raises, the argument is changed. -/
theorem C17_refuted : ∃ w : World Int, exec plainEnv plateAndEvent World.init = (w, .ok ()) ∧
    (w.plates 0).map Plate.n = [2] ∧
    (∃ w', exec plainEnv (.denote 0 1 "q" none) w = (w', .ok ()) ∧ (w'.plates 0).map Plate.n = [3, 2] ∧
      (w'.node 0).ten.shape = [2, 3]) ∧
    ∃ w', exec plainEnv (.denote 0 0 "q" none) w = (w', .error .value) ∧
      (w'.plates 0).map Plate.name = ["q", "p"] := by
  refine ⟨(exec plainEnv plateAndEvent World.init).1, ?_, ?_,
    ⟨(exec plainEnv (.denote 0 1 "q" none) (exec plainEnv plateAndEvent World.init).1).1, ?_, ?_, ?_⟩,
    ⟨(exec plainEnv (.denote 0 0 "q" none) (exec plainEnv plateAndEvent World.init).1).1, ?_, ?_⟩⟩
  · have : (exec plainEnv plateAndEvent World.init).2 = .ok () := by decide +kernel
    exact ran this
  · decide +kernel
  · have : (exec plainEnv (.denote 0 1 "q" none) (exec plainEnv plateAndEvent World.init).1).2 = .ok () := by
      decide +kernel
    exact ran this
  · decide +kernel
  · decide +kernel
  · have : (exec plainEnv (.denote 0 0 "q" none) (exec plainEnv plateAndEvent World.init).1).2 = .error .value := by
      decide +kernel
    exact raised this
  · decide +kernel

end Storch
