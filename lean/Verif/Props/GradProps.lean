import Verif.Props.CollectProps
import Verif.Props.PlateProps
import Verif.Props.GraphProps

/-!
# C84: `storch.grad`
-/

namespace Storch
open World
variable {α : Type _}

/-! ### Specification -/

/-- The torch tensor of a list entry. -/
def World.GArg.ten (w : World α) : GArg α → Ten α
  | .st i => (w.node i).ten
  | .torch t => t

/-- The plates of a list entry: a torch tensor has none. -/
def World.GArg.plates (w : World α) : GArg α → List (Plate α)
  | .st i => w.plates i
  | .torch _ => []

/-- The entry has a name to derive the name of the gradient from; torch tensors do not need one. -/
def World.GArg.Named (w : World α) : GArg α → Prop
  | .st i => (w.node i).name ≠ none
  | .torch _ => True

/-- The name of the gradient. -/
def World.GArg.gradName (w : World α) : GArg α → Option String
  | .st i => (w.node i).name.map (· ++ "_grad")
  | .torch _ => some "grad"

/-- Tensor `id`, made between `w` and `w'`, is the gradient `g` with respect to `x`: it has the plates of `x`, it is
named after `x`, and in the graph it is a child of all outputs and of `x` (if that is a storch tensor), with the links
noted on both sides. -/
structure IsGrad (w w' : World α) (outputs : List Nat) (x : GArg α) (g : Ten α) (id : Nat) : Prop where
  made : w.size ≤ id ∧ id < w'.size
  kind : (w'.node id).kind = .plain
  ten : (w'.node id).ten = g
  plates : w'.plates id = x.plates w
  name : (w'.node id).name = x.gradName w
  parents : (w'.parents id).map Prod.fst = outputs ++ x.ids
  kids : ∀ p ∈ outputs ++ x.ids, (id, false) ∈ w'.kids p

/-- The tensors of `w` are still there, on the same plates and with the same parents; they can have got new children. -/
structure KeepsOld (w w' : World α) : Prop where
  size : w.size ≤ w'.size
  node : ∀ i < w.size, w'.node i = w.node i
  plates : ∀ i < w.size, w'.plates i = w.plates i
  kids : ∀ i < w.size, w.kids i <+: w'.kids i

/-! ### Lemmas -/

theorem KeepsOld.rfl' {w : World α} : KeepsOld w w :=
  ⟨le_rfl, fun _ _ => rfl, fun _ _ => rfl, fun _ _ => List.prefix_rfl⟩

theorem KeepsOld.trans {a b c : World α} (h : KeepsOld a b) (h' : KeepsOld b c) : KeepsOld a c :=
  ⟨h.size.trans h'.size, fun i hi => (h'.node i (lt_of_lt_of_le hi h.size)).trans (h.node i hi),
    fun i hi => (h'.plates i (lt_of_lt_of_le hi h.size)).trans (h.plates i hi),
    fun i hi => (h.kids i hi).trans (h'.kids i (lt_of_lt_of_le hi h.size))⟩

theorem newNode_keepsOld {w w' : World α} {kind name t parents src rg m id} (hl : LinksOK w)
    (h : newNode w kind name t parents src rg m = (w', .ok id)) : KeepsOld w w' := by
  obtain ⟨h1, h2, h3, _, _, _, _, _, _, h10, h11, _⟩ := newNode_spec h
  have hn : ∀ i < w.size, w'.node i = w.node i := fun i hi => h3 i (by omega)
  refine ⟨by omega, hn, ?_, ?_⟩
  · intro i hi
    have := hl.plates i hi
    rw [World.plates, World.plates, hn i hi, h10]
    cases src with
    | fresh ps => exact if_neg (by omega)
    | shared a => rfl
  · intro i hi
    have hr := hl.addr i hi
    rw [World.rank] at hr
    rw [World.kids, World.kids, hn i hi, h11, if_neg (by omega), addKids_eq]
    exact List.prefix_append _ _

/-- The tensor made for one gradient. -/
theorem gradTensor_ok {w : World α} {outputs : List Nat} {x : GArg α} {g : Ten α} (hl : LinksOK w)
    (ho : ∀ i ∈ outputs, i < w.size) (hx : ∀ i ∈ x.ids, i < w.size) (hn : x.Named w)
    (ha : Admissible (x.plates w) g.shape) :
    ∃ w', gradTensor w outputs x (some g) = (w', .ok w.size) ∧ LinksOK w' ∧ KeepsOld w w' ∧
      w'.size = w.size + 1 ∧ IsGrad w w' outputs x g w.size := by
  have mk : ∀ (name : Option String) (src : PlateSrc α) (ps : List Nat), w.srcPlates src = x.plates w →
      (∀ i ∈ ps, i < w.size) → (∀ a, src = .shared a → ∃ j, j < w.size ∧ a = (w.node j).platesAt) →
      name = x.gradName w → ps = outputs ++ x.ids →
      ∃ w', newNode w .plain name g ps src false none = (w', .ok w.size) ∧ LinksOK w' ∧ KeepsOld w w' ∧
        w'.size = w.size + 1 ∧ IsGrad w w' outputs x g w.size := by
    intro name src ps hsrc hps hsh hname hpar
    obtain ⟨s, hs⟩ := (C01_construct_iff g (x.plates w)).2 ha
    have hc : ∃ d, STen.checkPlates g.shape (w.srcPlates src) [] 0 = .ok d := by
      rw [hsrc]
      unfold STen.mk' at hs
      split at hs
      · cases hs
      · rename_i d hd; exact ⟨d, hd⟩
    obtain ⟨d, hd⟩ := hc
    generalize hnew : newNode w .plain name g ps src false none = r
    obtain ⟨w', res⟩ := r
    have hres : res = .ok w.size := by
      rw [newNode, hd] at hnew
      exact (Prod.ext_iff.1 hnew).2.symm
    subst hres
    have hp := newNode_prims (ins := false) hps hsh hnew
    have hk := newNode_keepsOld hl hnew
    obtain ⟨_, h2, h3, h4, h5, _, h7, h8, h9, h10, h11, _, h13, _⟩ := newNode_spec hnew
    refine ⟨w', rfl, ?_, hk, h2, ⟨le_rfl, by omega⟩, h8, h7, ?_, by rw [h13, hname], ?_, ?_⟩
    · exact hl.prims hp
    · rw [World.plates, h9, h10, ← hsrc]
      cases src with
      | fresh l => simp [PlateSrc.addr, PlateSrc.store, World.srcPlates]
      | shared a => rfl
    · rw [World.parents, h4, List.map_map, ← hpar]
      exact List.map_id' ps
    · intro p hpp
      rw [← hpar] at hpp
      have hlt := hps p hpp
      have hr := hl.addr p hlt
      rw [World.rank] at hr
      rw [World.kids, hk.node p hlt, h11, if_neg (by omega), addKids_eq]
      refine List.mem_append_right _ (List.mem_replicate.2 ⟨?_, rfl⟩)
      exact (List.countP_pos_iff.2 ⟨p, hpp, by simp⟩).ne'
  cases x with
  | torch t => exact mk (some "grad") (.fresh []) outputs rfl ho (by simp) rfl (by simp [GArg.ids])
  | st i =>
    have hi : i < w.size := hx i (by simp [GArg.ids])
    obtain ⟨n, hname⟩ := Option.ne_none_iff_exists'.1 (show (w.node i).name ≠ none from hn)
    rw [gradTensor, hname]
    refine mk _ _ _ rfl ?_ ?_ (by simp [GArg.gradName, hname]) rfl
    · intro j hj
      rcases List.mem_append.1 hj with hj | hj
      · exact ho j hj
      · rw [List.mem_singleton.1 hj]; exact hi
    · intro a hsa
      cases hsa
      exact ⟨i, hi, rfl⟩

theorem KeepsOld.isGrad {w w1 w2 : World α} {outputs : List Nat} {x : GArg α} {g : Ten α} {id : Nat}
    (h : KeepsOld w1 w2) (ho : ∀ i ∈ outputs, i < w1.size) (hx : ∀ i ∈ x.ids, i < w1.size)
    (hg : IsGrad w w1 outputs x g id) : IsGrad w w2 outputs x g id := by
  have hid := hg.made.2
  refine ⟨⟨hg.made.1, lt_of_lt_of_le hid h.size⟩, ?_, ?_, ?_, ?_, ?_, ?_⟩
  · rw [h.node id hid]; exact hg.kind
  · rw [h.node id hid]; exact hg.ten
  · rw [h.plates id hid]; exact hg.plates
  · rw [h.node id hid]; exact hg.name
  · have := hg.parents; rwa [World.parents, ← h.node id hid] at this
  · intro p hp
    refine (h.kids p ?_).subset (hg.kids p hp)
    rcases List.mem_append.1 hp with hp | hp
    · exact ho p hp
    · exact hx p hp

theorem KeepsOld.same {w w1 : World α} (h : KeepsOld w w1) {x : GArg α} (hx : ∀ i ∈ x.ids, i < w.size) :
    x.plates w1 = x.plates w ∧ x.gradName w1 = x.gradName w ∧ (x.Named w1 ↔ x.Named w) := by
  cases x with
  | torch t => exact ⟨rfl, rfl, Iff.rfl⟩
  | st i =>
    have hi := hx i (by simp [GArg.ids])
    refine ⟨h.plates i hi, ?_, ?_⟩
    · rw [GArg.gradName, GArg.gradName, h.node i hi]
    · rw [GArg.Named, GArg.Named, h.node i hi]

theorem gradLoop_ok (outputs : List Nat) (xs : List (GArg α)) : ∀ (gs : List (Ten α)) (w : World α), LinksOK w →
    (∀ i ∈ outputs, i < w.size) → (∀ x ∈ xs, ∀ i ∈ x.ids, i < w.size) →
    List.Forall₂ (fun x g => x.Named w ∧ Admissible (x.plates w) g.shape) xs gs →
    ∃ w', gradLoop outputs xs (gs.map some) w = (w', .ok (List.range' w.size xs.length)) ∧ KeepsOld w w' ∧
      w'.size = w.size + xs.length ∧
      ∀ (k : Nat) x g, xs[k]? = some x → gs[k]? = some g → IsGrad w w' outputs x g (w.size + k) := by
  induction xs with
  | nil =>
    intro gs w hl ho hx hf
    cases hf
    exact ⟨w, rfl, .rfl', rfl, by simp⟩
  | cons x xs ih =>
    intro gs w hl ho hx hf
    cases hf with
    | @cons _ g _ gs hxg hf =>
      have hx0 : ∀ i ∈ x.ids, i < w.size := hx x (by simp)
      obtain ⟨w1, h1, hl1, hk1, hs1, hg1⟩ := gradTensor_ok hl ho hx0 hxg.1 hxg.2
      have ho1 : ∀ i ∈ outputs, i < w1.size := fun i hi => lt_of_lt_of_le (ho i hi) hk1.size
      obtain ⟨w2, h2, hk2, hs2, hg2⟩ := ih gs w1 hl1 ho1
        (fun y hy i hi => lt_of_lt_of_le (hx y (by simp [hy]) i hi) hk1.size)
        (by
          rw [List.forall₂_iff_get] at hf ⊢
          refine ⟨hf.1, fun i hi hi' => ?_⟩
          have := hf.2 i hi hi'
          obtain ⟨e1, _, e3⟩ := hk1.same (hx (xs.get ⟨i, hi⟩) (by simp))
          rw [e1, e3]
          exact this)
      refine ⟨w2, ?_, hk1.trans hk2, ?_, ?_⟩
      · rw [List.map_cons, gradLoop, h1]
        simp only
        rw [h2]
        simp only [List.length_cons, List.range'_succ, hs1]
      · rw [hs2, hs1, List.length_cons]; omega
      · intro k y g' hy hg'
        cases k with
        | zero =>
          simp only [List.getElem?_cons_zero, Option.some.injEq] at hy hg'
          subst hy; subst hg'
          exact hk2.isGrad ho1 (fun i hi => lt_of_lt_of_le (hx0 i hi) hk1.size) hg1
        | succ k =>
          simp only [List.getElem?_cons_succ] at hy hg'
          have := hg2 k y g' hy hg'
          have hyx : ∀ i ∈ y.ids, i < w.size := hx y (List.mem_cons_of_mem _ (List.mem_of_getElem? hy))
          obtain ⟨e1, e2, _⟩ := hk1.same hyx
          rw [hs1] at this
          have e : w.size + (k + 1) = w.size + 1 + k := by omega
          rw [e]
          exact ⟨⟨by omega, this.made.2⟩, this.kind, this.ten, by rw [this.plates, e1], by rw [this.name, e2],
            this.parents, this.kids⟩

section
variable [ValEq α]

theorem unwrapList_vals (hook : UnwrapHook α) (w : World α) (mdp : List (Plate α)) (ed : Nat) (xs : List (GArg α)) :
    unwrapList hook { alignTensors := false } mdp ed (xs.map (GArg.val w)) =
      .ok (xs.map fun x => .torch (x.ten w)) := by
  induction xs with
  | nil => rfl
  | cons x xs ih =>
    rw [List.map_cons, unwrapList]
    have : Val.unwrap hook { alignTensors := false } mdp ed (GArg.val w x) = .ok (.torch (x.ten w)) := by
      cases x with
      | st i => simp [GArg.val, Val.unwrap, unwrapSt, GArg.ten, World.sten]
      | torch t => simp [GArg.val, Val.unwrap, GArg.ten]
    rw [this, ih]
    rfl

theorem listTens_vals (w : World α) (xs : List (GArg α)) :
    listTens (.lst (xs.map fun x => Val.torch (x.ten w))) = some (xs.map (GArg.ten w)) := by
  induction xs with
  | nil => rfl
  | cons x xs ih =>
    rw [listTens] at ih ⊢
    rw [List.map_cons, List.mapM_cons, ih]
    rfl

theorem tensorsL_append (xs ys : List (Val α)) : tensorsL (xs ++ ys) = tensorsL xs ++ tensorsL ys := by
  induction xs with
  | nil => rfl
  | cons x xs ih => rw [List.cons_append, tensorsL, tensorsL, ih, List.append_assoc]

theorem tensorsL_vals (w : World α) (xs : List (GArg α)) :
    tensorsL (xs.map (GArg.val w)) = (xs.flatMap GArg.ids).map w.sten := by
  induction xs with
  | nil => rfl
  | cons x xs ih =>
    rw [List.map_cons, tensorsL, ih, List.flatMap_cons, List.map_append]
    cases x <;> simp [GArg.val, Val.tensors, GArg.ids]

/-- What `storch.grad` does once the numbers are known to be tensors and the plates do not conflict. -/
theorem gradCall_eq (env : Env α) (ag : Autograd' α) (outputs : List Nat) (inputs : List (GArg α))
    (gos : Option (List (GArg α))) (w : World α)
    (hlt : ∀ i ∈ outputs ++ inputs.flatMap GArg.ids ++ (gos.getD []).flatMap GArg.ids, i < w.size)
    (hc : ∀ i ∈ outputs ++ inputs.flatMap GArg.ids ++ (gos.getD []).flatMap GArg.ids,
      ∀ j ∈ outputs ++ inputs.flatMap GArg.ids ++ (gos.getD []).flatMap GArg.ids,
      ∀ p ∈ w.plates i, ∀ q ∈ w.plates j, p.name = q.name → p.pyEq q = false →
        ∃ a b, p.kind = .anc a ∧ q.kind = .anc b) :
    gradCall env ag outputs inputs gos w =
      match ag (outputs.map fun i => (w.node i).ten) (inputs.map (GArg.ten w)) (gos.map (·.map (GArg.ten w))) with
      | .error e => (w, .error e)
      | .ok gs => gradLoop outputs inputs gs w := by
  have hany : ¬ ((outputs ++ inputs.flatMap GArg.ids ++ (gos.getD []).flatMap GArg.ids).any
      (fun i => decide (w.size ≤ i)) = true) := by
    simp only [List.any_eq_true, decide_eq_true_eq, not_exists, not_and, not_le]
    exact hlt
  rw [gradCall.eq_def, if_neg hany]
  have hov : (outputs.map fun i => Val.st (w.sten i) (w.isStoch i)) = (outputs.map GArg.st).map (GArg.val w) := by
    rw [List.map_map]; rfl
  have hot : (outputs.map fun i => (w.node i).ten) = (outputs.map (GArg.st (α := α))).map (GArg.ten w) := by
    rw [List.map_map]; rfl
  have hoi : outputs = (outputs.map (GArg.st (α := α))).flatMap GArg.ids := by
    rw [List.flatMap_map]; simp [GArg.ids]
  rw [hov, hot]
  have key : ∀ (v r : Val α) (ts : List Nat),
      v.tensors = ts.map w.sten → (∀ i ∈ ts, i ∈ (gos.getD []).flatMap GArg.ids) →
      (∀ mdp ed, Val.unwrap env.hook { alignTensors := false } mdp ed v = .ok r) →
      ∃ pl pr, prepareArgs env.hook { alignTensors := false }
        ⟨[.lst ((outputs.map GArg.st).map (GArg.val w)), .lst (inputs.map (GArg.val w)), v], []⟩ =
        .ok ⟨⟨[.lst ((outputs.map GArg.st).map fun x => .torch (x.ten w)),
          .lst (inputs.map fun x => .torch (x.ten w)), r], []⟩, pr, pl⟩ := by
    intro v r ts hv hts hr
    set a : Args α := ⟨[.lst ((outputs.map GArg.st).map (GArg.val w)), .lst (inputs.map (GArg.val w)), v], []⟩ with ha
    have htens : a.tensors = (outputs ++ inputs.flatMap GArg.ids ++ ts).map w.sten := by
      simp only [ha, Args.tensors, tensorsL, Val.tensors, tensorsL_vals, hv, List.map_nil, List.append_nil,
        List.map_append, ← hoi, List.append_assoc]
    have hall : ∀ p ∈ a.allPlates, ∃ i ∈ outputs ++ inputs.flatMap GArg.ids ++ (gos.getD []).flatMap GArg.ids,
        p ∈ w.plates i := by
      intro p hp
      rw [Args.allPlates, htens, List.mem_flatMap] at hp
      obtain ⟨s, hs, hps⟩ := hp
      obtain ⟨i, hi, rfl⟩ := List.mem_map.1 hs
      refine ⟨i, ?_, hps⟩
      rcases List.mem_append.1 hi with hi | hi
      · exact List.mem_append_left _ hi
      · exact List.mem_append_right _ (hts i hi)
    obtain ⟨ps, hps, _⟩ := C04_newest_survives a (by
      intro p hp q hq
      obtain ⟨i, hi, hpi⟩ := hall p hp
      obtain ⟨j, hj, hqj⟩ := hall q hq
      exact hc i hi j hj p hpi q hqj)
    refine ⟨ps, (collectArgs a).1.parents, ?_⟩
    rw [prepareArgs, hps]
    simp only [applyDim, applyDims, ha, unwrapList, Val.unwrap, unwrapList_vals, hr, List.map_nil, List.zip_nil_right,
      if_true]
  cases gos with
  | none =>
    obtain ⟨pl, pr, h⟩ := key .none .none [] rfl (by simp) (fun _ _ => by rw [Val.unwrap])
    simp only [h, listTens_vals]
    rfl
  | some l =>
    obtain ⟨pl, pr, h⟩ := key (.lst (l.map (GArg.val w))) (.lst (l.map fun x => .torch (x.ten w)))
      (l.flatMap GArg.ids) (by rw [Val.tensors, tensorsL_vals]) (by simp)
      (fun _ _ => by rw [Val.unwrap, unwrapList_vals])
    simp only [h, listTens_vals]
    rfl

/-! ### C84 -/

/-- For all outputs, inputs and `grad_outputs` without conflicting plates, with named inputs: where
`torch.autograd.grad`, which is given the torch tensors of the outputs, the inputs and `grad_outputs` in the order of the
call, computes a gradient for every input, of the shape of the input, `storch.grad` returns one tensor for every input, in
the order of the inputs: the gradient, on the plates of the input and named after it, linked as a child of all outputs and of
the input.  All other tensors stay as they are, up to their new children.
Missing from C84: inputs without a name, and inputs that the outputs do not depend on (`C84_refuted`). -/
theorem C84_gradients_partial [Inhabited α] (env : Env α) (ag : Autograd' α) (outputs : List Nat)
    (inputs : List (GArg α)) (gos : Option (List (GArg α))) (w : World α) (gs : List (Ten α)) (hr : Reachable env w)
    (hlt : ∀ i ∈ outputs ++ inputs.flatMap GArg.ids ++ (gos.getD []).flatMap GArg.ids, i < w.size)
    (hc : ∀ i ∈ outputs ++ inputs.flatMap GArg.ids ++ (gos.getD []).flatMap GArg.ids,
      ∀ j ∈ outputs ++ inputs.flatMap GArg.ids ++ (gos.getD []).flatMap GArg.ids,
      ∀ p ∈ w.plates i, ∀ q ∈ w.plates j, p.name = q.name → p.pyEq q = false →
        ∃ a b, p.kind = .anc a ∧ q.kind = .anc b)
    (hn : ∀ x ∈ inputs, x.Named w) (ha : ∀ x ∈ inputs, Admissible (x.plates w) (x.ten w).shape)
    (hag : ag (outputs.map fun i => (w.node i).ten) (inputs.map (GArg.ten w)) (gos.map (·.map (GArg.ten w))) =
      .ok (gs.map some))
    (hs : gs.map Ten.shape = inputs.map fun x => (x.ten w).shape) :
    ∃ w' ids, gradCall env ag outputs inputs gos w = (w', .ok ids) ∧ ids.length = inputs.length ∧ ids.Nodup ∧
      KeepsOld w w' ∧ w'.size = w.size + inputs.length ∧
      ∀ (k : Nat) x g id, inputs[k]? = some x → gs[k]? = some g → ids[k]? = some id → IsGrad w w' outputs x g id := by
  obtain ⟨_, hl, _⟩ := hr.good
  have hlen : gs.length = inputs.length := by simpa using congrArg List.length hs
  obtain ⟨w', h1, h2, h3, h4⟩ := gradLoop_ok outputs inputs gs w hl
    (fun i hi => hlt i (by simp [hi]))
    (fun x hx i hi => hlt i (List.mem_append_left _ (List.mem_append_right _ (List.mem_flatMap.2 ⟨x, hx, hi⟩))))
    (by
      rw [List.forall₂_iff_get]
      refine ⟨hlen.symm, fun k hk hk' => ?_⟩
      have hm : inputs.get ⟨k, hk⟩ ∈ inputs := List.get_mem _ _
      have he : (gs.get ⟨k, hk'⟩).shape = ((inputs.get ⟨k, hk⟩).ten w).shape := by
        have := congrArg (fun l => l[k]?) hs
        simpa [List.getElem?_eq_getElem hk, List.getElem?_eq_getElem hk'] using this
      exact ⟨hn _ hm, by rw [he]; exact ha _ hm⟩)
  refine ⟨w', List.range' w.size inputs.length, ?_, by simp, List.nodup_range', h2, h3, ?_⟩
  · rw [gradCall_eq env ag outputs inputs gos w hlt hc, hag]
    exact h1
  · intro k x g id hx hg hid
    have hk : k < inputs.length := (List.getElem?_eq_some_iff.1 hx).1
    rw [List.getElem?_range' hk] at hid
    simp only [one_mul, Option.some.injEq] at hid
    rw [← hid]
    exact h4 k x g hx hg

theorem gradLoop_refused (outputs : List Nat) (xs : List (GArg α)) :
    ∀ (gs : List (Option (Ten α))) (w w' : World α) ids, LinksOK w → (∀ i ∈ outputs, i < w.size) →
      (∀ x ∈ xs, ∀ i ∈ x.ids, i < w.size) → gs.length = xs.length →
      gradLoop outputs xs gs w = (w', .ok ids) → (∀ x ∈ xs, x.Named w) ∧ ∀ g ∈ gs, g ≠ none := by
  induction xs with
  | nil =>
    intro gs w w' ids _ _ _ hlen _
    cases gs with
    | nil => simp
    | cons g gs => simp at hlen
  | cons x xs ih =>
    intro gs w w' ids hl ho hx hlen h
    cases gs with
    | nil => simp at hlen
    | cons g gs =>
      have hx0 : ∀ i ∈ x.ids, i < w.size := hx x (by simp)
      rw [gradLoop] at h
      split at h
      · cases h
      · rename_i w1 id h1
        have hp := gradTensor_sameVars (ins := false) ho hx0 h1
        have hg : x.Named w ∧ g ≠ none ∧ KeepsOld w w1 := by
          cases x with
          | st i =>
            simp only [gradTensor] at h1
            split at h1
            · cases h1
            · rename_i n hn
              split at h1
              · rename_i t
                exact ⟨by simp [GArg.Named, hn], by simp, newNode_keepsOld hl h1⟩
              · split at h1 <;> cases h1
          | torch t =>
            simp only [gradTensor] at h1
            split at h1
            · exact ⟨trivial, by simp, newNode_keepsOld hl h1⟩
            · cases h1
        split at h
        · cases h
        · rename_i w2 ids2 h2
          obtain ⟨h3, h4⟩ := ih gs w1 w2 ids2 (hl.prims hp.1)
            (fun i hi => lt_of_lt_of_le (ho i hi) hg.2.2.size)
            (fun y hy i hi => lt_of_lt_of_le (hx y (by simp [hy]) i hi) hg.2.2.size) (by simpa using hlen) h2
          refine ⟨?_, ?_⟩
          · intro y hy
            rcases List.mem_cons.1 hy with rfl | hy'
            · exact hg.1
            · exact (hg.2.2.same (hx y hy)).2.2.1 (h3 y hy')
          · intro g' hg'
            rcases List.mem_cons.1 hg' with rfl | hg'
            · exact hg.2.1
            · exact h4 g' hg'

/-- `storch.grad` raises and changes nothing, or it goes on with what `torch.autograd.grad` computes. -/
theorem gradCall_cases (env : Env α) (ag : Autograd' α) (outputs : List Nat) (inputs : List (GArg α))
    (gos : Option (List (GArg α))) (w : World α) :
    (∃ e, gradCall env ag outputs inputs gos w = (w, .error e)) ∨
    ((∀ i ∈ outputs ++ inputs.flatMap GArg.ids ++ (gos.getD []).flatMap GArg.ids, i < w.size) ∧
      gradCall env ag outputs inputs gos w =
      match ag (outputs.map fun i => (w.node i).ten) (inputs.map (GArg.ten w)) (gos.map (·.map (GArg.ten w))) with
      | .error e => (w, .error e)
      | .ok gs => gradLoop outputs inputs gs w) := by
  rw [gradCall.eq_def]
  by_cases hany : (outputs ++ inputs.flatMap GArg.ids ++ (gos.getD []).flatMap GArg.ids).any
      (fun i => decide (w.size ≤ i)) = true
  · rw [if_pos hany]; exact Or.inl ⟨_, rfl⟩
  · rw [if_neg hany]
    have hlt := not_any_le hany
    have hov : (outputs.map fun i => Val.st (w.sten i) (w.isStoch i)) = (outputs.map GArg.st).map (GArg.val w) := by
      rw [List.map_map]; rfl
    have hot : (outputs.map fun i => (w.node i).ten) = (outputs.map (GArg.st (α := α))).map (GArg.ten w) := by
      rw [List.map_map]; rfl
    rw [hov, hot]
    have key : ∀ (v r : Val α), (∀ mdp ed, Val.unwrap env.hook { alignTensors := false } mdp ed v = .ok r) →
        (∃ e, prepareArgs env.hook { alignTensors := false }
          ⟨[.lst ((outputs.map GArg.st).map (GArg.val w)), .lst (inputs.map (GArg.val w)), v], []⟩ = .error e) ∨
        ∃ pl pr, prepareArgs env.hook { alignTensors := false }
          ⟨[.lst ((outputs.map GArg.st).map (GArg.val w)), .lst (inputs.map (GArg.val w)), v], []⟩ =
          .ok ⟨⟨[.lst ((outputs.map GArg.st).map fun x => .torch (x.ten w)),
            .lst (inputs.map fun x => .torch (x.ten w)), r], []⟩, pr, pl⟩ := by
      intro v r hr
      set a : Args α := ⟨[.lst ((outputs.map GArg.st).map (GArg.val w)), .lst (inputs.map (GArg.val w)), v], []⟩ with ha
      cases hps : filterPlates (collectArgs a).1.plates (collectArgs a).1.plates with
      | error e => left; exact ⟨e, by rw [prepareArgs, hps]⟩
      | ok ps =>
        right
        refine ⟨ps, (collectArgs a).1.parents, ?_⟩
        rw [prepareArgs, hps]
        simp only [applyDim, applyDims, ha, unwrapList, Val.unwrap, unwrapList_vals, hr, List.map_nil,
          List.zip_nil_right, if_true]
    cases gos with
    | none =>
      rcases key .none .none (fun _ _ => by rw [Val.unwrap]) with ⟨e, h⟩ | ⟨pl, pr, h⟩
      · left; exact ⟨e, by simp only [h]⟩
      · right
        refine ⟨hlt, ?_⟩
        simp only [h, listTens_vals]
        rfl
    | some l =>
      rcases key (.lst (l.map (GArg.val w))) (.lst (l.map fun x => .torch (x.ten w)))
        (fun _ _ => by rw [Val.unwrap, unwrapList_vals]) with ⟨e, h⟩ | ⟨pl, pr, h⟩
      · left; exact ⟨e, by simp only [h]⟩
      · right
        refine ⟨hlt, ?_⟩
        simp only [h, listTens_vals]
        rfl

/-- The other direction: whenever `storch.grad` returns, all inputs that are storch tensors have names, and
`torch.autograd.grad` found a gradient for every input.  So `allow_unused` is of no use. -/
theorem C84_returns_only [Inhabited α] (env : Env α) (ag : Autograd' α) (outputs : List Nat)
    (inputs : List (GArg α)) (gos : Option (List (GArg α))) (w w' : World α) (ids : List Nat) (hr : Reachable env w)
    (hag : ∀ os is gos gs, ag os is gos = .ok gs → gs.length = is.length)
    (h : gradCall env ag outputs inputs gos w = (w', .ok ids)) :
    (∀ x ∈ inputs, x.Named w) ∧
      ∃ gs, ag (outputs.map fun i => (w.node i).ten) (inputs.map (GArg.ten w)) (gos.map (·.map (GArg.ten w))) =
        .ok gs ∧ ∀ g ∈ gs, g ≠ none := by
  obtain ⟨_, hl, _⟩ := hr.good
  rcases gradCall_cases env ag outputs inputs gos w with ⟨e, he⟩ | ⟨hlt, he⟩
  · rw [he] at h; cases h
  · rw [he] at h
    split at h
    · cases h
    · rename_i gs hgs
      obtain ⟨h1, h2⟩ := gradLoop_refused outputs inputs gs w w' ids hl (fun i hi => hlt i (by simp [hi]))
        (fun x hx i hi => hlt i (List.mem_append_left _ (List.mem_append_right _ (List.mem_flatMap.2 ⟨x, hx, hi⟩))))
        (by rw [hag _ _ _ _ hgs, List.length_map]) h
      exact ⟨h1, gs, hgs, h2⟩

end

namespace GradCase

/-- A plate of size two. -/
def pl : Plate Int := ⟨"z", 2, .torch ⟨[], fun _ => 0⟩, .plain, []⟩

/-- `x = storch.Tensor([3, 4], [], [z], "x")`, `y = f(x)`, and a tensor without a name. -/
def start : Cmd Int :=
  .seq (.tensor (some "x") ⟨[2], fun i => if i = [0] then 3 else 4⟩ [] [pl]) <|
  .seq (.det [0] [] "f" .skip [.torch ⟨[2], fun i => if i = [0] then 9 else 16⟩]) <|
  .tensor none ⟨[2], fun _ => 1⟩ [] [pl]

/-- The state after it. -/
def w0 : World Int := (exec plainEnv start World.init).1

/-- torch's gradient of the sum of the squares of the first input, and of a sum that does not depend on the others. -/
def sq (unused : Bool) : Autograd' Int := fun _ is _ =>
  .ok (is.zipIdx.map fun e => if e.2 = 0 ∨ !unused then some ⟨e.1.shape, fun i => 2 * e.1.get i⟩ else none)

/-- A torch parameter. -/
def param : Ten Int := ⟨[3], fun _ => 7⟩

theorem w0_reachable : Reachable plainEnv w0 := ⟨start, rfl⟩

/-- The hypotheses of `C84_gradients_partial` hold for `storch.grad([y], [x, param])`, and what it says comes out: tensor 3
holds the gradient with respect to `x`, on its plate, tensor 4 the one of the parameter, without plates. -/
example : ∃ w' ids, gradCall plainEnv (sq false) [1] [.st 0, .torch param] none w0 = (w', .ok ids) ∧
    ids.length = 2 ∧ ids.Nodup ∧ KeepsOld w0 w' ∧ w'.size = 5 ∧
    ∀ (k : Nat) x g id, ([.st 0, .torch param] : List (GArg Int))[k]? = some x →
      ([⟨[2], fun i => 2 * (w0.node 0).ten.get i⟩, ⟨[3], fun i => 2 * param.get i⟩] : List (Ten Int))[k]? = some g →
      ids[k]? = some id → IsGrad w0 w' [1] x g id := by
  have hsz : w0.size = 3 := by decide +kernel
  have h0 : (w0.node 0).ten.shape = [2] := by decide +kernel
  have hpl : ∀ i ∈ [1] ++ ([.st 0, .torch param] : List (GArg Int)).flatMap GArg.ids ++
      ((none : Option (List (GArg Int))).getD []).flatMap GArg.ids,
      ∀ j ∈ [1] ++ ([.st 0, .torch param] : List (GArg Int)).flatMap GArg.ids ++
      ((none : Option (List (GArg Int))).getD []).flatMap GArg.ids,
      ∀ p ∈ w0.plates i, ∀ q ∈ w0.plates j, p.pyEq q = true := by decide +kernel
  have := C84_gradients_partial plainEnv (sq false) [1] [.st 0, .torch param] none w0
    [⟨[2], fun i => 2 * (w0.node 0).ten.get i⟩, ⟨[3], fun i => 2 * param.get i⟩] w0_reachable
    (by decide +kernel)
    (fun i hi j hj p hp q hq _ hne => by rw [hpl i hi j hj p hp q hq] at hne; cases hne)
    (by
      intro x hx
      simp only [List.mem_cons, List.not_mem_nil, or_false] at hx
      rcases hx with rfl | rfl
      · show (w0.node 0).name ≠ none
        decide +kernel
      · trivial)
    (by
      intro x hx
      simp only [List.mem_cons, List.not_mem_nil, or_false] at hx
      rcases hx with rfl | rfl
      · exact (C01_construct_iff (w0.node 0).ten (w0.plates 0)).1 (by
          have : ((STen.mk' (w0.node 0).ten (w0.plates 0)).toOption.isSome) = true := by decide +kernel
          cases h : STen.mk' (w0.node 0).ten (w0.plates 0) with
          | error e => rw [h] at this; cases this
          | ok s => exact ⟨s, rfl⟩)
      · exact (C01_construct_iff param []).1 ⟨_, rfl⟩)
    (by
      simp only [sq, List.map_cons, List.map_nil, GArg.ten, List.zipIdx_cons, List.zipIdx_nil, Bool.not_false,
        or_true, if_true, h0, param])
    (by simp [GArg.ten, h0, param])
  rw [hsz] at this
  exact this

/-- The tensors that come out, as numbers: their elements, plates and parents. -/
example :
    let r := gradCall plainEnv (sq false) [1] [.st 0, .torch param] none w0
    r.2.toOption = some [3, 4] ∧ (r.1.node 3).ten.get [1] = 8 ∧ (r.1.plates 3).map Plate.name = ["z"] ∧
      (r.1.node 3).name = some "x_grad" ∧ (r.1.parents 3).map Prod.fst = [1, 0] ∧
      (r.1.plates 4).map Plate.name = [] ∧ (r.1.parents 4).map Prod.fst = [1] ∧
      (r.1.kids 1).map Prod.fst = [3, 4] := by decide +kernel

/-- `C84_returns_only` speaks about this call: it returns, and `sq` gives one entry for every input. -/
example : (gradCall plainEnv (sq false) [1] [.st 0, .torch param] none w0).2.toOption = some [3, 4] ∧
    ∀ os is gos gs, sq false os is gos = .ok gs → gs.length = is.length :=
  ⟨by decide +kernel, fun os is gos gs h => by
    simp only [sq, Except.ok.injEq] at h
    rw [← h, List.length_map, List.length_zipIdx]⟩

end GradCase

open GradCase in
/-- C84 fails.  For an input without a name (the default of `storch.Tensor`) the gradient is
computed and then TypeError is raised.  With `allow_unused`, where torch returns None for an input that the outputs do not
depend on, AttributeError is raised; the output keeps a child (tensor 4) that nobody can use.  If that input is a storch tensor
with a plate of two, AttributeError is raised before the links are made. -/
theorem C84_refuted :
    (sq false [(w0.node 1).ten] [(w0.node 2).ten] none).toOption.isSome = true ∧
    (gradCall plainEnv (sq false) [1] [.st 2] none w0).2 = .error .type ∧
    (sq true [(w0.node 1).ten] [(w0.node 0).ten, param] none).toOption.isSome = true ∧
    (gradCall plainEnv (sq true) [1] [.st 0, .torch param] none w0).2 = .error .attribute ∧
    ((gradCall plainEnv (sq true) [1] [.st 0, .torch param] none w0).1.kids 1).map Prod.fst = [3, 4] ∧
    (gradCall plainEnv (sq true) [1] [.torch param, .st 0] none w0).2 = .error .attribute ∧
    ((gradCall plainEnv (sq true) [1] [.torch param, .st 0] none w0).1.kids 1).map Prod.fst = [3] ∧
    Reachable plainEnv w0 :=
  ⟨by decide +kernel, by decide +kernel, by decide +kernel, by decide +kernel, by decide +kernel, by decide +kernel, by decide +kernel, w0_reachable⟩

end Storch
