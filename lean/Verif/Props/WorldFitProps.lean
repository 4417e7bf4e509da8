import Verif.Lemmas.FitLemmas
import Verif.Props.PlateProps
import Verif.Props.CollectProps
import Verif.Props.ContextProps
import Verif.Props.IndepProps

/-!
# C91: the plates of every tensor describe its dimensions; more on C73 and C28 in running programs
-/

namespace Storch
variable {α : Type _}
open World

/-! ### C91 -/

theorem Fits.admissible {ps : List (Plate α)} {shape : List Nat} {dims : Nat} (h : World.Fits ps shape dims) :
    Admissible ps shape ∧ dims = ((ps.map Plate.n).filter (fun k => k ≠ 1)).length := by
  obtain ⟨h1, _, ⟨rest, h3⟩, h4⟩ := (checkPlates_ok_iff _ _ _ _ _).1 h
  refine ⟨⟨(nodup_names_iff _).1 h1, rest, ?_⟩, ?_⟩
  · rw [filter_map_n]; simpa using h3.symm
  · rw [filter_map_n, List.length_map]; omega

theorem occurs_of_denotes {c : Cmd α} (h : c.denotes = true) : ∃ x dim pn wt, Occurs (.denote x dim pn wt) c := by
  induction c with
  | denote x dim pn wt => exact ⟨x, dim, pn, wt, .here _⟩
  | seq a b iha ihb =>
    rcases Bool.or_eq_true_iff.1 h with h | h
    · obtain ⟨x, d, p, w, ho⟩ := iha h; exact ⟨x, d, p, w, .seqL ho⟩
    · obtain ⟨x, d, p, w, ho⟩ := ihb h; exact ⟨x, d, p, w, .seqR ho⟩
  | attempt a b iha ihb =>
    rcases Bool.or_eq_true_iff.1 h with h | h
    · obtain ⟨x, d, p, w, ho⟩ := iha h; exact ⟨x, d, p, w, .attemptL ho⟩
    · obtain ⟨x, d, p, w, ho⟩ := ihb h; exact ⟨x, d, p, w, .attemptR ho⟩
  | det _ _ _ _ _ ih => obtain ⟨x, d, p, w, ho⟩ := ih h; exact ⟨x, d, p, w, .det ho⟩
  | stoch _ _ _ _ ih => obtain ⟨x, d, p, w, ho⟩ := ih h; exact ⟨x, d, p, w, .stoch ho⟩
  | ignoring _ ih => obtain ⟨x, d, p, w, ho⟩ := ih h; exact ⟨x, d, p, w, .ignoring ho⟩
  | gradMode _ _ ih => obtain ⟨x, d, p, w, ho⟩ := ih h; exact ⟨x, d, p, w, .gradMode ho⟩
  | sample _ _ ih => obtain ⟨x, d, p, w, ho⟩ := ih h; exact ⟨x, d, p, w, .sample ho⟩
  | surrogate _ ih => obtain ⟨x, d, p, w, ho⟩ := ih h; exact ⟨x, d, p, w, .surrogate ho⟩
  | backward _ _ _ _ ih => obtain ⟨x, d, p, w, ho⟩ := ih h; exact ⟨x, d, p, w, .backward ho⟩
  | _ => cases h

section
variable [ValEq α] [Inhabited α]

/-- **C91, for programs without `denote_independent` on storch tensors.**  Whatever such a program does, in whatever
order, and whether or not it ends in an exception: afterwards the plates of every tensor it has created have different
names, the shape of the tensor starts with the sizes of those that are not of size one, and `plate_dims` is how many
these are.  Missing from C91: `denote_independent` on storch tensors (`C91_refuted`). -/
theorem C91_fits_partial (env : Env α) (c : Cmd α) (hc : ∀ x dim pn wt, ¬ Occurs (.denote x dim pn wt) c)
    (w : World α) (hw : (exec env c World.init).1 = w) (i : Nat) (hi : i < w.size) :
    Admissible (w.plates i) (w.node i).ten.shape ∧
      (w.node i).plateDims = (((w.plates i).map Plate.n).filter (fun k => k ≠ 1)).length := by
  subst hw
  have hok : PlatesOK false (exec env c World.init).1 := PlatesOK.exec env c (by
    intro h
    obtain ⟨x, d, p, w, ho⟩ := occurs_of_denotes h
    exact absurd ho (hc x d p w))
  obtain ⟨l, ps, e1, e2, e3⟩ := hok.fits i hi
  rw [e2 rfl, List.nil_append] at e1
  rw [e1]
  exact Fits.admissible e3

/-- **C91, for all programs**: the names of the plates of every tensor differ; and the plates are those that the
constructor accepted for this tensor, with further ones in front.  Missing from C91: that there are no further ones. -/
theorem C91_names_partial (env : Env α) (w : World α) (hr : Reachable env w) (i : Nat) (hi : i < w.size) :
    (∀ j k (hj : j < (w.plates i).length) (hk : k < (w.plates i).length),
      (w.plates i)[j].name = (w.plates i)[k].name → j = k) ∧
    ∃ inserted ps, w.plates i = inserted ++ ps ∧ Admissible ps (w.node i).ten.shape ∧
      (w.node i).plateDims = ((ps.map Plate.n).filter (fun k => k ≠ 1)).length := by
  obtain ⟨c, rfl⟩ := hr
  have hok : PlatesOK true (exec env c World.init).1 := PlatesOK.exec env c (fun _ => rfl)
  refine ⟨(nodup_names_iff _).1 (hok.names _), ?_⟩
  obtain ⟨l, ps, e1, _, e3⟩ := hok.fits i hi
  exact ⟨l, ps, e1, Fits.admissible e3⟩

end

/-- C91 is false: after `denote_independent(x, 1, "q")` on a tensor of shape `[2, 3]` with a plate of size 2, the plates
of `x` have the sizes 3 and 2, and its `plate_dims` is 1. -/
theorem C91_refuted : ∃ w : World Int, Reachable plainEnv w ∧ 0 < w.size ∧
    ¬ Admissible (w.plates 0) (w.node 0).ten.shape ∧
    (w.node 0).plateDims ≠ (((w.plates 0).map Plate.n).filter (fun k => k ≠ 1)).length := by
  refine ⟨(exec plainEnv (.seq plateAndEvent (.denote 0 1 "q" none)) World.init).1, ⟨_, rfl⟩, by decide +kernel, ?_,
    by decide +kernel⟩
  rintro ⟨_, rest, h⟩
  have h1 : ((exec plainEnv (.seq plateAndEvent (.denote 0 1 "q" none)) World.init).1.node 0).ten.shape = [2, 3] := by
    decide +kernel
  have h2 : (((exec plainEnv (.seq plateAndEvent (.denote 0 1 "q" none)) World.init).1.plates 0).map Plate.n).filter
      (fun k => k ≠ 1) = [3, 2] := by decide +kernel
  rw [h1, h2] at h
  cases h

/-! ### C73 in a running program -/

theorem addParents_spec (ps : List Nat) : ∀ acc, ∃ more, addParents acc ps = acc ++ more ∧ more.Nodup ∧
    (∀ q ∈ more, q ∉ acc ∧ q ∈ ps) ∧ ∀ p ∈ ps, p ∈ addParents acc ps := by
  induction ps with
  | nil => intro acc; exact ⟨[], by simp [addParents], by simp, by simp, by simp⟩
  | cons p ps ih =>
    intro acc
    rw [addParents]
    split
    · rename_i hp
      obtain ⟨m, h1, h2, h3, h4⟩ := ih acc
      refine ⟨m, h1, h2, fun q hq => ⟨(h3 q hq).1, List.mem_cons_of_mem _ (h3 q hq).2⟩, ?_⟩
      intro q hq
      rcases List.mem_cons.1 hq with rfl | hq
      · rw [h1]; exact List.mem_append_left _ hp
      · exact h4 q hq
    · rename_i hp
      obtain ⟨m, h1, h2, h3, h4⟩ := ih (acc ++ [p])
      refine ⟨p :: m, by rw [h1]; simp, ?_, ?_, ?_⟩
      · rw [List.nodup_cons]
        exact ⟨fun hm => (h3 p hm).1 (by simp), h2⟩
      · intro q hq
        rcases List.mem_cons.1 hq with rfl | hq
        · exact ⟨hp, by simp⟩
        · exact ⟨fun hm => (h3 q hq).1 (by simp [hm]), List.mem_cons_of_mem _ (h3 q hq).2⟩
      · intro q hq
        rcases List.mem_cons.1 hq with rfl | hq
        · rw [h1]; simp
        · exact h4 q hq

section
variable [ValEq α]

theorem addPlates_spec (ps : List (Plate α)) : ∀ acc, ∃ more, addPlates acc ps = acc ++ more ∧
    (∀ x ∈ more, x ∈ ps) ∧ ∀ x ∈ ps, x.isIn (addPlates acc ps) = true := by
  induction ps with
  | nil => intro acc; exact ⟨[], by simp [addPlates], by simp, by simp⟩
  | cons p ps ih =>
    intro acc
    rw [addPlates]
    split
    · rename_i hp
      obtain ⟨m, h1, h2, h3⟩ := ih acc
      refine ⟨m, h1, fun x hx => List.mem_cons_of_mem _ (h2 x hx), ?_⟩
      intro x hx
      rcases List.mem_cons.1 hx with rfl | hx
      · obtain ⟨y, hy, he⟩ := Plate.isIn_iff.1 hp
        rw [h1]
        exact Plate.isIn_iff.2 ⟨y, List.mem_append_left _ hy, he⟩
      · exact h3 x hx
    · obtain ⟨m, h1, h2, h3⟩ := ih (acc ++ [p])
      refine ⟨p :: m, by rw [h1]; simp, ?_, ?_⟩
      · intro x hx
        rcases List.mem_cons.1 hx with rfl | hx
        · simp
        · exact List.mem_cons_of_mem _ (h2 x hx)
      · intro x hx
        rcases List.mem_cons.1 hx with rfl | hx
        · rw [h1]; exact Plate.isIn_iff.2 ⟨x, by simp, Plate.pyEq_refl x⟩
        · exact h3 x hx

theorem paramPlates_spec (w : World α) (ps : List Nat) : ∀ acc, ∃ more, paramPlates w acc ps = acc ++ more ∧
    (∀ x ∈ more, ∃ p ∈ ps, x ∈ w.plates p) ∧
    ∀ p ∈ ps, ∀ x ∈ w.plates p, x.isIn (paramPlates w acc ps) = true := by
  induction ps with
  | nil => intro acc; exact ⟨[], by simp [paramPlates], by simp, by simp⟩
  | cons p ps ih =>
    intro acc
    rw [paramPlates]
    obtain ⟨m1, a1, a2, a3⟩ := addPlates_spec (w.plates p) acc
    obtain ⟨m2, b1, b2, b3⟩ := ih (addPlates acc (w.plates p))
    refine ⟨m1 ++ m2, by rw [b1, a1, List.append_assoc], ?_, ?_⟩
    · intro x hx
      rcases List.mem_append.1 hx with hx | hx
      · exact ⟨p, by simp, a2 x hx⟩
      · obtain ⟨q, hq, h⟩ := b2 x hx; exact ⟨q, List.mem_cons_of_mem _ hq, h⟩
    · intro q hq x hx
      rcases List.mem_cons.1 hq with rfl | hq
      · obtain ⟨y, hy, he⟩ := Plate.isIn_iff.1 (a3 x hx)
        rw [b1]
        exact Plate.isIn_iff.2 ⟨y, List.mem_append_left _ hy, he⟩
      · exact b3 q hq x hx

/-- **C73, for the tensor in the graph.**  When `Method.sample` returns, whatever `mc_sample` did in between, the first
tensor made after it is a stochastic tensor.  Its parents are the registered ones and then those parameters that are not
among them, each once; its plates are its own, then the registered ones, then plates of parameters; every plate that a
parameter had when `sample` was called is among them, and the own name is that of no other.  Simplified as in the model:
parameters are given one by one. -/
theorem C73_sampled (env : Env α) (s : SampleCall α) (body : Cmd α) (w w' : World α)
    (h : exec env (.sample s body) w = (w', .ok ())) :
    ∃ id parents own ps, id = (exec env body { w with ignoreWrap := true }).1.size ∧ id < w'.size ∧
      (w'.node id).kind = .stoch ∧ (w'.node id).requiresGrad = s.requiresGrad ∧
      (w'.node id).method = some s.method ∧
      w'.parents id = parents.map (fun p => (p, false)) ∧
      (∃ more, parents = w.stochParents ++ more ∧ more.Nodup ∧ (∀ q ∈ more, q ∉ w.stochParents ∧ q ∈ s.params)) ∧
      (∀ p ∈ s.params, p ∈ parents) ∧
      w'.plates id = own :: ps ∧ own.name = s.plateName ∧ s.drawn.shape.head? = some own.n ∧
      (∀ q ∈ ps, q.name ≠ s.plateName) ∧
      (∃ more, ps = w.plateLinks ++ more ∧ ∀ x ∈ more, ∃ p ∈ s.params, x ∈ w.plates p) ∧
      ∀ p ∈ s.params, ∀ x ∈ w.plates p, x.isIn ps = true := by
  simp only [exec, sampleCall] at h
  split at h
  · cases h
  split at h
  · cases h
  rename_i hnm
  generalize hb : exec env body { w with ignoreWrap := true } = r at h
  obtain ⟨w1, r1⟩ := r
  cases r1 with
  | error e => cases h
  | ok u =>
    simp only at h
    obtain ⟨more, p1, p2, p3, p4⟩ := addParents_spec s.params w.stochParents
    obtain ⟨more', q1, q2, q3⟩ := paramPlates_spec w s.params w.plateLinks
    split at h
    · cases h
    rename_i n rest hsh
    split at h
    · cases h
    have key : ∀ (w2 : World α) (id : Nat) (t : Ten α), newNode { w1 with ignoreWrap := false } .stoch (some s.plateName) t
        (addParents w.stochParents s.params)
        (.fresh (Plate.mk s.plateName n (.torch (Ten.scalar (env.inv n))) .plain (paramPlates w w.plateLinks s.params) ::
          paramPlates w w.plateLinks s.params)) s.requiresGrad (some s.method) = (w2, .ok id) →
        w'.node id = w2.node id → w'.plateList id = w2.plateList id → id < w'.size →
        ∃ id parents own ps, id = w1.size ∧ id < w'.size ∧
          (w'.node id).kind = .stoch ∧ (w'.node id).requiresGrad = s.requiresGrad ∧
          (w'.node id).method = some s.method ∧
          w'.parents id = parents.map (fun p => (p, false)) ∧
          (∃ more, parents = w.stochParents ++ more ∧ more.Nodup ∧ (∀ q ∈ more, q ∉ w.stochParents ∧ q ∈ s.params)) ∧
          (∀ p ∈ s.params, p ∈ parents) ∧
          w'.plates id = own :: ps ∧ own.name = s.plateName ∧ some n = some own.n ∧
          (∀ q ∈ ps, q.name ≠ s.plateName) ∧
          (∃ more, ps = w.plateLinks ++ more ∧ ∀ x ∈ more, ∃ p ∈ s.params, x ∈ w.plates p) ∧
          ∀ p ∈ s.params, ∀ x ∈ w.plates p, x.isIn ps = true := by
      intro w2 id t hn e1 e2 e3
      obtain ⟨g1, _, _, g4, _, _, _, g8, g9, g10, _, _, _, g14, g15, _⟩ := newNode_spec hn
      simp only [PlateSrc.addr] at g9
      refine ⟨id, _, Plate.mk s.plateName n (.torch (Ten.scalar (env.inv n))) .plain
        (paramPlates w w.plateLinks s.params), _, g1, e3, by rw [e1, g8], by rw [e1, g14], by rw [e1, g15], by rw [World.parents, e1, g4],
        ⟨more, p1, p2, p3⟩, p4, ?_, ?_, ?_, ?_, ⟨more', q1, q2⟩, q3⟩
      · rw [World.plates, e1, g9, e2, g10]
        simp only [PlateSrc.store, if_true]
      · rfl
      · rfl
      · intro q hq he
        exact hnm (List.any_eq_true.2 ⟨q, hq, by simpa using he⟩)
    simp only [hsh, List.head?_cons]
    split at h
    · cases h
    · rename_i w2 id hn
      have hid := newNode_ok hn
      split at h
      · cases h
        exact key _ id _ hn rfl rfl (by simp only; omega)
      · rename_i t' _
        split at h
        · cases h
        · rename_i w4 id' hn'
          cases h
          obtain ⟨k1, k2, k3, _, _, _, _, _, _, k10, _⟩ := newNode_spec hn'
          refine key _ id _ hn ?_ ?_ ?_
          · rw [k3 id (by simp only at k1; omega)]
          · rw [k10]; rfl
          · simp only at k2; omega

/-! ### C28: what a deterministic function may return -/

theorem wrapOuts_ok (args : List Nat) (plates : List (Plate α)) (name : String) (os : List (Out α)) :
    ∀ sh k (w w' : World α), wrapOuts args plates name os sh k w = (w', .ok ()) →
      w.size ≤ w'.size ∧ (∀ i < w.size, w'.node i = w.node i) ∧
      ∀ o, .st o ∈ os → o < w'.size ∧ (w'.node o).kind ≠ .stoch ∧ (w'.node o).kind ≠ .indep := by
  induction os with
  | nil => intro sh k w w' h; cases h; exact ⟨Nat.le_refl _, fun _ _ => rfl, by simp⟩
  | cons o os ih =>
    intro sh k w w' h
    cases o with
    | none =>
      rw [wrapOuts] at h
      obtain ⟨h1, h2, h3⟩ := ih sh k w w' h
      exact ⟨h1, h2, fun o ho => h3 o (by simpa using ho)⟩
    | st o =>
      rw [wrapOuts] at h
      split at h
      · rename_i ho
        split at h
        · cases h
        · rename_i hst
          split at h
          · cases h
          · split at h
            · cases h
            · rename_i w1 id hn
              obtain ⟨g1, g2, g3, _⟩ := newNode_spec hn
              obtain ⟨h1, h2, h3⟩ := ih sh (k + 1) w1 w' h
              have hk : ∀ i < w.size, w'.node i = w.node i := fun i hi => by
                rw [h2 i (by omega), g3 i (by omega)]
              refine ⟨by omega, hk, ?_⟩
              intro q hq
              rcases List.mem_cons.1 hq with hq | hq
              · injection hq with hq
                subst hq
                rw [hk q ho]
                refine ⟨by omega, ?_, ?_⟩ <;> intro hc <;> exact hst (by rw [isStoch, hc])
              · exact h3 q hq
      · cases h
    | torch t =>
      simp only [wrapOuts] at h
      split at h
      · cases h
      · rename_i w1 id hn
        obtain ⟨g1, g2, g3, _⟩ := newNode_spec hn
        obtain ⟨h1, h2, h3⟩ := ih _ (k + 1) w1 w' h
        exact ⟨by omega, fun i hi => by rw [h2 i (by omega), g3 i (by omega)], fun o ho => h3 o (by simpa using ho)⟩

/-- **C28, for what a deterministic function returns.**  When a call of a deterministic function with storch arguments
returns, outside `ignore_wrapping`, then whatever the function did, none of the tensors it returned is a sample or an
independent tensor.  Missing from C28: that no samples are drawn inside (`C28_refuted`). -/
theorem C28_returned_partial (env : Env α) (args : List Nat) (reduced : List String) (name : String) (body : Cmd α)
    (outs : List (Out α)) (w w' : World α) (ha : args ≠ [])
    (h : exec env (.det args reduced name body outs) w = (w', .ok ())) (hi : w'.ignoreWrap = false) :
    ∀ o, .st o ∈ outs → o < w'.size ∧ (w'.node o).kind ≠ .stoch ∧ (w'.node o).kind ≠ .indep := by
  simp only [exec, detCall] at h
  split at h
  · cases h
  split at h
  · cases h
  split at h
  · cases h
  split at h
  · cases h
  · split at h
    · rename_i hig
      cases h
      rw [hi] at hig
      cases hig
    · exact (wrapOuts_ok _ _ _ _ _ _ _ _ h).2.2

end

/-! ### Cases -/

/-- A sample of size 3 from a distribution with a parameter of shape `[2]` on a plate of size 2, the cost of it, and what
`backward` cleans up. -/
def sampleAndCost : Cmd Int :=
  .seq (.tensor (some "a") ⟨[2], fun _ => 7⟩ [] [.mk "p" 2 (.torch (Ten.scalar 0)) .plain []])
    (.seq (.sample ⟨[0], true, "z", 0, ⟨[3, 2], fun _ => 1⟩, none⟩ .skip) (.addCost 1 (some "c")))

theorem sampleAndCost_occurs : ∀ x dim pn wt, ¬ Occurs (.denote x dim pn wt) sampleAndCost := by
  intro x dim pn wt h
  cases h with
  | seqL h => cases h
  | seqR h =>
    cases h with
    | seqL h => cases h with | sample h => cases h
    | seqR h => cases h

/-- A case for `C91_fits_partial` and `C91_names_partial`: the sample and the cost, with plates of sizes 3 and 2. -/
example : let w := (exec plainEnv sampleAndCost World.init).1
    w.size = 3 ∧ (w.plates 2).map Plate.n = [3, 2] ∧ (w.plates 2).map Plate.name = ["z", "p"] ∧
      Admissible (w.plates 2) (w.node 2).ten.shape ∧ (w.node 2).plateDims = 2 := by
  intro w
  have h1 : w.size = 3 := by decide +kernel
  have h2 : (w.plates 2).map Plate.n = [3, 2] := by decide +kernel
  have := C91_fits_partial plainEnv sampleAndCost sampleAndCost_occurs w rfl 2 (by rw [h1]; decide)
  have hn := (C91_names_partial plainEnv w ⟨sampleAndCost, rfl⟩ 2 (by rw [h1]; decide)).1
  exact ⟨h1, h2, by decide +kernel, this.1, by rw [this.2, h2]; rfl⟩

/-- A case for `C73_sampled`: the sample of `sampleAndCost`. -/
example : let x := (exec plainEnv (.tensor (some "a") ⟨[2], fun _ => 7⟩ []
      [.mk "p" 2 (.torch (Ten.scalar 0)) .plain []]) World.init).1
    ∃ w' id own ps, exec plainEnv (.sample ⟨[0], true, "z", 0, ⟨[3, 2], fun _ => 1⟩, none⟩ .skip) x = (w', .ok ()) ∧
      w'.plates id = own :: ps ∧ own.name = "z" ∧ own.n = 3 ∧ w'.parents id = [(0, false)] ∧
      ∀ q ∈ x.plates 0, q.isIn ps = true := by
  intro x
  have hr : (exec plainEnv (.sample ⟨[0], true, "z", 0, ⟨[3, 2], fun _ => 1⟩, none⟩ .skip) x).2 = .ok () := by
    decide +kernel
  obtain ⟨id, parents, own, ps, h1, _, _, _, _, h4, _, _, h6, h7, h8, _, _, h9⟩ := C73_sampled plainEnv
    ⟨[0], true, "z", 0, ⟨[3, 2], fun _ => 1⟩, none⟩ .skip x _ (ran hr)
  have hid : id = 1 := by rw [h1]; decide +kernel
  subst hid
  exact ⟨_, 1, own, ps, ran hr, h6, h7, by injection h8 with h8; exact h8.symm, by decide +kernel,
    h9 0 (List.mem_singleton.2 rfl)⟩

/-- A case for `C28_returned_partial`: `f(x)` returns `x`, and is accepted; if it returns a sample drawn in it, that
raises. -/
example : let x : Cmd Int := .tensor none ⟨[], fun _ => 1⟩ [] []
    let w := (exec plainEnv x World.init).1
    let draw : Cmd Int := .sample ⟨[0], true, "z", 0, ⟨[2], fun _ => 1⟩, none⟩ .skip
    (∃ w', exec plainEnv (.det [0] [] "f" .skip [.st 0]) w = (w', .ok ()) ∧ (w'.node 0).kind ≠ .stoch) ∧
    (exec plainEnv (.det [0] [] "f" draw [.st 1]) w).2 = .error .runtime := by
  intro x w draw
  have hr : (exec plainEnv (.det [0] [] "f" .skip [.st 0]) w).2 = .ok () := by decide +kernel
  exact ⟨⟨_, ran hr, (C28_returned_partial plainEnv [0] [] "f" .skip [.st 0] w _ (by simp) (ran hr) (by decide +kernel) 0
    (by simp)).2.1⟩, by decide +kernel⟩

end Storch
