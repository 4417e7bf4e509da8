import Verif.Lemmas.DenoteLemmas

/-!
# C98: the samples that `denote_independent` returns
-/

namespace Storch
variable {α : Type _}
open World

/-- What remains of an index, or a shape, when the entry at `dim` is taken out and the first entry is put in its
place. -/
def restOf (dim : Nat) (idx : List Nat) : List Nat := (idx.set dim (idx.headD 0)).tail

section
variable [ValEq α]

/-- `denote_independent` on a torch tensor with at least two entries along the dimension, outside of deterministic
and stochastic functions: the result has no parents, one plate with a sample per entry along the dimension, and the
sample `idx[dim]` is the slice of the tensor there, in which the first dimension takes the place of the one that was
denoted.  Reducing the plate gives the mean of the tensor over the dimension.  Missing from C98: dimensions of size
one (`C98_single_refuted`), given weights, negative dimensions. -/
theorem C98_torch_partial [Field α] (env : Env α) (w : World α) (hinv : ∀ n, env.inv n = 1 / (n : α))
    (hctx : w.ctxDet = 0 ∧ w.ctxStoch = false) (x : Ten α) (dim : Nat) (hdim : dim < x.shape.length) (pn : String)
    (hn : 1 < x.shape[dim]) :
    ∃ w', exec env (.denoteTorch x dim pn none) w = (w', .ok ()) ∧ w'.size = w.size + 1 ∧
      (w'.node w.size).parents = [] ∧
      (∃ p, w'.plates w.size = [p] ∧ p.name = pn ∧ p.n = x.shape[dim] ∧ p.parents = []) ∧
      (w'.sten w.size).eventShape = restOf dim x.shape ∧
      (∀ idx, Ten.InB idx x.shape → ∀ ι, ι pn = idx.getD dim 0 →
        (w'.sten w.size).sample ι (restOf dim idx) = x.get idx) ∧
      ∀ {hook : UnwrapHook α}, PlainHook hook → ∀ dt : α → α, (∀ n : Nat, dt (1 / (n : α)) = 1 / (n : α)) →
        ∃ r, reducePlates hook dt (.st (w'.sten w.size) false) [.name pn] = .ok r ∧
          r.plates = [] ∧ r.eventShape = restOf dim x.shape ∧
          ∀ idx, Ten.InB idx x.shape → ∀ ι, r.sample ι (restOf dim idx) =
            (∑ k ∈ Finset.range x.shape[dim], x.get (idx.set dim k)) / (x.shape[dim] : α) := by
  obtain ⟨t, ht1, ht2, ht3⟩ := moveFront_ok hdim
  have hrest : ∀ (l : List Nat) (h : dim < l.length), (l.set dim (l[0]'(by omega))).tail = restOf dim l := by
    intro l h
    cases l with
    | nil => simp at h
    | cons a l => rfl
  rw [hrest _ hdim] at ht2
  obtain ⟨w', h1, h2, h3, h4, h5, h6, h7⟩ := newIndep_sten (env := env) (w := w) (t := t) (parents := [])
    (src := .fresh []) (tn := pn) (pn := pn) (n := x.shape[dim]) (es := restOf dim x.shape) (by omega) (by
      intro p hp; simp [srcPlates] at hp) (by simp [srcPlates]) (by intro p hp; simp [srcPlates] at hp) _ ht2 (by
      rw [ht2, List.filter_cons_of_pos (by exact decide_eq_true hn)]
      simp [srcPlates, Plate.n])
  have hps : w'.plates w.size = [Plate.mk pn x.shape[dim] (.torch (Ten.scalar (env.inv x.shape[dim]))) .plain []] := h5
  have hmd : (w'.sten w.size).multiDimPlates =
      [Plate.mk pn x.shape[dim] (.torch (Ten.scalar (env.inv x.shape[dim]))) .plain []] := by
    rw [STen.multiDimPlates]
    have : (w'.sten w.size).plates = _ := hps
    rw [this, List.filter_cons_of_pos (by exact decide_eq_true hn)]
    rfl
  have hin : ∀ idx, Ten.InB idx x.shape → Ten.InB (restOf dim idx) (restOf dim x.shape) := by
    intro idx hi
    have hlen := InB.length_eq hi
    rw [← hrest idx (by omega), ← hrest x.shape hdim]
    rw [Ten.InB, List.forall₂_iff_get] at hi ⊢
    refine ⟨by simp [hlen], ?_⟩
    intro i ha hb
    simp only [List.get_eq_getElem, List.getElem_tail, List.getElem_set] at hi ⊢
    split
    · exact hi.2 0 (by omega) (by omega)
    · exact hi.2 (i + 1) (by simp at ha; omega) (by simp at hb; omega)
  have hval : ∀ idx, Ten.InB idx x.shape → ∀ ι, ι pn = idx.getD dim 0 →
        (w'.sten w.size).sample ι (restOf dim idx) = x.get idx := by
    intro idx hi ι hk
    have hlen := InB.length_eq hi
    have hd : dim < idx.length := by omega
    rw [STen.sample, hmd, h7, h4, bidx_of_inB (hin idx hi), List.map_singleton, ← hrest idx hd, ← ht3 idx hd]
    simp only [Plate.name, hk, List.getD_eq_getElem?_getD, List.getElem?_eq_getElem hd, Option.getD_some]
    rfl
  refine ⟨w', ?_, h2, h3, ⟨_, hps, rfl, rfl, rfl⟩, h7, hval, ?_⟩
  · simp only [exec, World.denoteTorch]
    rw [hctx.1, hctx.2]
    simp only [lt_irrefl, decide_false, Bool.or_false, Bool.false_eq_true, if_false, ht1]
    exact h1
  · intro hook hh dt hdt
    have hprop : Proper (w'.sten w.size) := by
      refine ⟨h6, ?_⟩
      intro p hp
      have : (w'.sten w.size).plates = _ := hps
      rw [this, List.mem_singleton] at hp
      subst hp; rfl
    obtain ⟨r, r1, r2, r3, r4⟩ := newPlate_mean hprop (hinv _) h5 (by intro p hp; simp [srcPlates] at hp) hh dt hdt
    refine ⟨r, r1, r2, by rw [r3, h7], ?_⟩
    intro idx hi ι
    have hlen := InB.length_eq hi
    rw [r4 ι _ (by rw [h7]; exact hin idx hi)]
    congr 1
    apply Finset.sum_congr rfl
    intro k hk
    have hset : restOf dim (idx.set dim k) = restOf dim idx := by
      cases idx with
      | nil => rfl
      | cons a l => cases dim <;> simp [restOf]
    rw [← hset]
    apply hval
    · rw [Ten.InB, List.forall₂_iff_get] at hi ⊢
      refine ⟨by simp [hlen], ?_⟩
      intro i ha hb
      simp only [List.get_eq_getElem, List.getElem_set] at hi ⊢
      split
      · rename_i he; subst he; exact Finset.mem_range.1 hk
      · exact hi.2 i (by simpa using ha) hb
    · rw [Function.update_self, List.getD_eq_getElem?_getD, List.getElem?_set_self (by omega)]
      rfl

/-- `denote_independent` on a storch tensor with exactly one plate of several samples, at the dimension right after
that plate: every sample of every other plate, at sample `k` of the new one, is the slice `k` of the first event
dimension.  Missing from C98: further dimensions and plates (`C98_exchanged_refuted`, `C98_plates_refuted`). -/
theorem C98_plate_partial [Field α] (env : Env α) (w : World α) (hinv : ∀ n, env.inv n = 1 / (n : α))
    (hctx : w.ctxDet = 0 ∧ w.ctxStoch = false) (x : Nat) (hx : x < w.size) (pn : String) (hp : Proper (w.sten x))
    (hname : NameFree pn (w.plates x)) (n : Nat) (es : List Nat) (hn : 1 < n)
    (hes : (w.sten x).eventShape = n :: es) (hone : (w.sten x).plateDims = 1) :
    ∃ w', exec env (.denote x 1 pn none) w = (w', .ok ()) ∧ w'.size = w.size + 1 ∧
      (w'.node w.size).parents = [(x, false)] ∧
      (∃ p, w'.plates w.size = p :: w.plates x ∧ p.name = pn ∧ p.n = n ∧ p.parents = w.plates x) ∧
      (w'.sten w.size).eventShape = es ∧
      (∀ k < n, ∀ ι, ι pn = k → ∀ e, Ten.InB e es →
        (w'.sten w.size).sample ι e = (w.sten x).sample ι (k :: e)) ∧
      ∀ {hook : UnwrapHook α}, PlainHook hook → ∀ dt : α → α, (∀ n : Nat, dt (1 / (n : α)) = 1 / (n : α)) →
        ∃ r, reducePlates hook dt (.st (w'.sten w.size) false) [.name pn] = .ok r ∧
          r.plates = w.plates x ∧ r.eventShape = es ∧
          ∀ ι e, Ten.InB e es → r.sample ι e =
            (∑ k ∈ Finset.range n, (w.sten x).sample ι (k :: e)) / (n : α) := by
  have hsh := hp.wf.shape
  have hdm := hp.wf.dims
  rw [hone] at hdm
  obtain ⟨Q, hQ⟩ := List.length_eq_one_iff.1 hdm.symm
  rw [hQ, hes] at hsh
  have hsh' : (w.node x).ten.shape = [Q.n, n] ++ es := hsh
  obtain ⟨t, ht1, ht2, ht3⟩ := moveFront_ok (x := (w.node x).ten) (dim := 1) (by rw [hsh']; simp)
  have ht2' : t.shape = n :: Q.n :: es := by
    rw [ht2]
    simp [hsh']
  have hsrc : w.srcPlates (.shared (w.node x).platesAt) = w.plates x := rfl
  have hfil : (w.plates x).filter (fun p => decide (1 < p.n)) = [Q] := hQ
  have hQm : Q ∈ w.plates x := by
    have : Q ∈ (w.plates x).filter (fun p => decide (1 < p.n)) := by rw [hfil]; simp
    exact (List.mem_filter.1 this).1
  obtain ⟨w', h1, h2, h3, h4, h5, h6, h7⟩ := newIndep_sten (env := env) (w := w) (t := t) (parents := [x])
    (src := .shared (w.node x).platesAt) (tn := indepName (w.node x).name pn) (pn := pn) (n := n) (es := es)
    (by omega) (by rw [hsrc]; exact hp.wf.pos) (by rw [hsrc]; exact hp.wf.names)
    (by rw [hsrc]; exact fun p h => (hname p h).1) _ ht2' (by
      rw [ht2', List.filter_cons_of_pos (by exact decide_eq_true hn), hsrc, hfil]
      simp [Plate.n])
  rw [hsrc] at h5
  have hmd : (w'.sten w.size).multiDimPlates =
      [Plate.mk pn n (.torch (Ten.scalar (env.inv n))) .plain (w.plates x), Q] := by
    rw [STen.multiDimPlates, h5, List.filter_cons_of_pos (by exact decide_eq_true hn), hfil]
  have hval : ∀ k < n, ∀ ι, ι pn = k → ∀ e, Ten.InB e es →
        (w'.sten w.size).sample ι e = (w.sten x).sample ι (k :: e) := by
    intro k hk ι hι e he
    have hke : Ten.InB (k :: e) (n :: es) := List.Forall₂.cons hk he
    rw [STen.sample, STen.sample, hmd, hQ, h7, hes, h4, bidx_of_inB he, bidx_of_inB hke]
    have := ht3 (ι Q.name :: k :: e) (by simp)
    simp only [List.getElem_cons_succ, List.getElem_cons_zero, List.set_cons_succ, List.set_cons_zero,
      List.tail_cons] at this
    simp only [List.map_cons, List.map_nil, Plate.name, hι, List.cons_append, List.nil_append]
    exact this
  refine ⟨w', ?_, h2, h3, ⟨_, h5, rfl, rfl, rfl⟩, h7, hval, ?_⟩
  · simp only [exec, World.denote]
    rw [if_neg (by omega), hctx.1, hctx.2]
    simp only [lt_irrefl, decide_false, Bool.or_false, Bool.false_eq_true, if_false, ht1]
    exact h1
  · intro hook hh dt hdt
    have hprop : Proper (w'.sten w.size) := by
      refine ⟨h6, ?_⟩
      rw [h5]
      intro p hm
      rcases List.mem_cons.1 hm with rfl | hm
      · rfl
      · exact hp.plain p hm
    obtain ⟨r, r1, r2, r3, r4⟩ := newPlate_mean hprop (hinv _) h5 hname hh dt hdt
    refine ⟨r, r1, r2, by rw [r3, h7], ?_⟩
    intro ι e he
    rw [r4 ι _ (by rw [h7]; exact he)]
    congr 1
    apply Finset.sum_congr rfl
    intro k hk
    rw [hval k (Finset.mem_range.1 hk) _ (Function.update_self ..) e he]
    rw [STen.sample, STen.sample, hQ]
    simp only [List.map_cons, List.map_nil]
    rw [Function.update_of_ne (hname Q hQm).1]

/-- `denote_independent` on a storch tensor all of whose plates have one sample, at any dimension with at least two
entries: the plates are kept after the new one, and the rest is as for a torch tensor.  Missing from C98: what
`C98_torch_partial` misses. -/
theorem C98_single_plates_partial [Field α] (env : Env α) (w : World α) (hinv : ∀ n, env.inv n = 1 / (n : α))
    (hctx : w.ctxDet = 0 ∧ w.ctxStoch = false) (x : Nat) (hx : x < w.size) (pn : String) (hp : Proper (w.sten x))
    (hname : NameFree pn (w.plates x)) (hzero : (w.sten x).plateDims = 0) (dim : Nat)
    (hdim : dim < (w.sten x).eventShape.length) (hn : 1 < (w.sten x).eventShape[dim]) :
    ∃ w', exec env (.denote x dim pn none) w = (w', .ok ()) ∧ w'.size = w.size + 1 ∧
      (w'.node w.size).parents = [(x, false)] ∧
      (∃ p, w'.plates w.size = p :: w.plates x ∧ p.name = pn ∧ p.n = (w.sten x).eventShape[dim] ∧
        p.parents = w.plates x) ∧
      (w'.sten w.size).eventShape = restOf dim (w.sten x).eventShape ∧
      (∀ idx, Ten.InB idx (w.sten x).eventShape → ∀ ι, ι pn = idx.getD dim 0 →
        (w'.sten w.size).sample ι (restOf dim idx) = (w.sten x).sample ι idx) ∧
      ∀ {hook : UnwrapHook α}, PlainHook hook → ∀ dt : α → α, (∀ n : Nat, dt (1 / (n : α)) = 1 / (n : α)) →
        ∃ r, reducePlates hook dt (.st (w'.sten w.size) false) [.name pn] = .ok r ∧
          r.plates = w.plates x ∧ r.eventShape = restOf dim (w.sten x).eventShape ∧
          ∀ idx, Ten.InB idx (w.sten x).eventShape → ∀ ι, r.sample ι (restOf dim idx) =
            (∑ k ∈ Finset.range (w.sten x).eventShape[dim], (w.sten x).sample ι (idx.set dim k)) /
              ((w.sten x).eventShape[dim] : α) := by
  have hQ : (w.sten x).multiDimPlates = [] := List.length_eq_zero_iff.1 (by rw [← hp.wf.dims, hzero])
  have hsh := hp.wf.shape
  rw [hQ] at hsh
  generalize hes : (w.sten x).eventShape = es at *
  have hsh' : (w.node x).ten.shape = es := hsh
  obtain ⟨t, ht1, ht2, ht3⟩ := moveFront_ok (x := (w.node x).ten) (dim := dim) (by rw [hsh']; exact hdim)
  have hrest : ∀ (l : List Nat) (h : dim < l.length), (l.set dim (l[0]'(by omega))).tail = restOf dim l := by
    intro l h
    cases l with
    | nil => simp at h
    | cons a l => rfl
  have ht2' : t.shape = es[dim] :: restOf dim es := by
    rw [ht2, hrest _ (by rw [hsh']; exact hdim)]
    subst hsh'
    rfl
  have hsrc : w.srcPlates (.shared (w.node x).platesAt) = w.plates x := rfl
  have hfil : (w.plates x).filter (fun p => decide (1 < p.n)) = [] := hQ
  obtain ⟨w', h1, h2, h3, h4, h5, h6, h7⟩ := newIndep_sten (env := env) (w := w) (t := t) (parents := [x])
    (src := .shared (w.node x).platesAt) (tn := indepName (w.node x).name pn) (pn := pn) (n := es[dim])
    (es := restOf dim es) (by omega) (by rw [hsrc]; exact hp.wf.pos) (by rw [hsrc]; exact hp.wf.names)
    (by rw [hsrc]; exact fun p h => (hname p h).1) _ ht2' (by
      rw [ht2', List.filter_cons_of_pos (by exact decide_eq_true hn), hsrc, hfil]
      simp [Plate.n])
  rw [hsrc] at h5
  have hmd : (w'.sten w.size).multiDimPlates =
      [Plate.mk pn es[dim] (.torch (Ten.scalar (env.inv es[dim]))) .plain (w.plates x)] := by
    rw [STen.multiDimPlates, h5, List.filter_cons_of_pos (by exact decide_eq_true hn), hfil]
  have hin : ∀ idx, Ten.InB idx es → Ten.InB (restOf dim idx) (restOf dim es) := by
    intro idx hi
    have hlen := InB.length_eq hi
    rw [← hrest idx (by omega), ← hrest es hdim]
    rw [Ten.InB, List.forall₂_iff_get] at hi ⊢
    refine ⟨by simp [hlen], ?_⟩
    intro i ha hb
    simp only [List.get_eq_getElem, List.getElem_tail, List.getElem_set] at hi ⊢
    split
    · exact hi.2 0 (by omega) (by omega)
    · exact hi.2 (i + 1) (by simp at ha; omega) (by simp at hb; omega)
  have hsame : ∀ idx, Ten.InB idx es → ∀ ι, (w.sten x).sample ι idx = (w.node x).ten.get idx := by
    intro idx hi ι
    rw [STen.sample, hQ, hes, bidx_of_inB hi]
    rfl
  have hval : ∀ idx, Ten.InB idx es → ∀ ι, ι pn = idx.getD dim 0 →
        (w'.sten w.size).sample ι (restOf dim idx) = (w.node x).ten.get idx := by
    intro idx hi ι hk
    have hlen := InB.length_eq hi
    have hd : dim < idx.length := by omega
    rw [STen.sample, hmd, h7, h4, bidx_of_inB (hin idx hi), List.map_singleton, ← hrest idx hd, ← ht3 idx hd]
    simp only [Plate.name, hk, List.getD_eq_getElem?_getD, List.getElem?_eq_getElem hd, Option.getD_some]
    rfl
  refine ⟨w', ?_, h2, h3, ⟨_, h5, rfl, rfl, rfl⟩, h7, fun idx hi ι hk => by rw [hval idx hi ι hk, hsame idx hi ι], ?_⟩
  · simp only [exec, World.denote]
    rw [if_neg (by omega), hctx.1, hctx.2]
    simp only [lt_irrefl, decide_false, Bool.or_false, Bool.false_eq_true, if_false, ht1]
    exact h1
  · intro hook hh dt hdt
    have hprop : Proper (w'.sten w.size) := by
      refine ⟨h6, ?_⟩
      rw [h5]
      intro p hm
      rcases List.mem_cons.1 hm with rfl | hm
      · rfl
      · exact hp.plain p hm
    obtain ⟨r, r1, r2, r3, r4⟩ := newPlate_mean hprop (hinv _) h5 hname hh dt hdt
    refine ⟨r, r1, r2, by rw [r3, h7], ?_⟩
    intro idx hi ι
    have hlen := InB.length_eq hi
    rw [r4 ι _ (by rw [h7]; exact hin idx hi)]
    congr 1
    apply Finset.sum_congr rfl
    intro k hk
    have hset : restOf dim (idx.set dim k) = restOf dim idx := by
      cases idx with
      | nil => rfl
      | cons a l => cases dim <;> simp [restOf]
    have hi' : Ten.InB (idx.set dim k) es := by
      rw [Ten.InB, List.forall₂_iff_get] at hi ⊢
      refine ⟨by simp [hlen], ?_⟩
      intro i ha hb
      simp only [List.get_eq_getElem, List.getElem_set] at hi ⊢
      split
      · rename_i he; subst he; exact Finset.mem_range.1 hk
      · exact hi.2 i (by simpa using ha) hb
    rw [← hset, hsame _ hi']
    apply hval _ hi'
    rw [Function.update_self, List.getD_eq_getElem?_getD, List.getElem?_set_self (by omega)]
    rfl

/-- C98 is false for every storch tensor with several plates of which two neighbours have different sizes: denoting any
event dimension with at least two entries raises a `ValueError`. -/
theorem C98_unequal_refuted (env : Env α) (w : World α)
    (hctx : w.ctxDet = 0 ∧ w.ctxStoch = false) (x : Nat) (hx : x < w.size) (pn : String) (hp : (w.sten x).WF)
    (dim : Nat) (hev : (w.sten x).plateDims ≤ dim) (hdim : dim < (w.sten x).ten.shape.length)
    (hn : 1 < (w.sten x).ten.shape[dim]) (i : Nat) (hi : i + 1 < (w.sten x).multiDimPlates.length)
    (hne : (w.sten x).multiDimPlates[i].n ≠ (w.sten x).multiDimPlates[i + 1].n) :
    (exec env (.denote x dim pn none) w).2 = .error .value := by
  have hsh := hp.shape
  have hdm := hp.dims
  change dim < (w.node x).ten.shape.length at hdim
  change 1 < (w.node x).ten.shape[dim] at hn
  change (w.node x).ten.shape = _ at hsh
  obtain ⟨t, ht1, ht2, _⟩ := moveFront_ok (x := (w.node x).ten) (dim := dim) hdim
  have hfil : (w.plates x).filter (fun p => decide (p.n ≠ 1)) = (w.sten x).multiDimPlates := by
    rw [STen.multiDimPlates]
    apply List.filter_congr
    intro p hm
    have := hp.pos p hm
    simp only [decide_eq_decide]
    omega
  have hsrc : w.srcPlates (.shared (w.node x).platesAt) = w.plates x := rfl
  simp only [exec, World.denote]
  rw [if_neg (by omega), hctx.1, hctx.2]
  simp only [lt_irrefl, decide_false, Bool.or_false, Bool.false_eq_true, if_false, ht1]
  unfold newIndep
  rw [ht2]
  simp only [hsrc]
  split
  · rfl
  · have hW : indepWeight env (w.node x).ten.shape[dim] none =
        .ok (.torch (Ten.scalar (env.inv (w.node x).ten.shape[dim]))) := by
      rw [indepWeight, if_neg (by omega)]
    simp only [hW]
    generalize hP : Plate.mk pn (w.node x).ten.shape[dim] (.torch (Ten.scalar (env.inv (w.node x).ten.shape[dim])))
      .plain (w.plates x) = P
    have hPn : P.n = (w.node x).ten.shape[dim] := by rw [← hP]; rfl
    have hbad : STen.checkPlates t.shape (P :: w.plates x) [] 0 = .error .value := by
      cases hc : STen.checkPlates t.shape (P :: w.plates x) [] 0 with
      | error e => rw [checkPlates_error _ _ _ _ hc]
      | ok r =>
        exfalso
        obtain ⟨_, _, hpre, _⟩ := (checkPlates_ok_iff _ _ _ _ _).1 hc
        rw [List.filter_cons_of_pos (by rw [hPn]; simp; omega), hfil, List.drop_zero] at hpre
        obtain ⟨rest, hrest⟩ := hpre
        have e1 : t.shape[i + 1]? = some (w.sten x).multiDimPlates[i].n := by
          rw [← hrest, List.getElem?_append_left (by simp; omega), List.map_cons, List.getElem?_cons_succ,
            List.getElem?_map, List.getElem?_eq_getElem (by omega)]
          rfl
        have e2 : t.shape[i + 1]? = some (w.sten x).multiDimPlates[i + 1].n := by
          rw [ht2, List.getElem?_cons_succ, List.getElem?_tail, List.getElem?_set_ne (by omega), hsh,
            List.getElem?_append_left (by simp; omega), List.getElem?_map, List.getElem?_eq_getElem hi]
          rfl
        rw [e1] at e2
        exact hne (Option.some.inj e2)
    have hnode : ∀ (w1 : World α) (tn : String), w1.srcPlates (.shared (w.node x).platesAt) = P :: w.plates x →
        (newNode w1 .indep (some tn) t [x] (.shared (w.node x).platesAt) false none).2 = .error .value := by
      intro w1 tn h1
      unfold newNode
      rw [h1, hbad]
    generalize hr : newNode { w with plateList := fun b => if b = (w.node x).platesAt then P :: w.plates x else w.plateList b }
      .indep (some (indepName (w.node x).name pn)) t [x] (.shared (w.node x).platesAt) false none = q
    have := hnode { w with plateList := fun b => if b = (w.node x).platesAt then P :: w.plates x else w.plateList b }
      (indepName (w.node x).name pn) (by simp only [srcPlates, if_true])
    rw [hr] at this
    obtain ⟨w2, res⟩ := q
    simp only at this
    rw [this]

/-- C98 is false for every storch tensor with two plates of the same size, of which the first event dimension is
denoted: the call succeeds, and the two plates are exchanged in what it returns. -/
theorem C98_exchanged_refuted (env : Env α) (w : World α)
    (hctx : w.ctxDet = 0 ∧ w.ctxStoch = false) (x : Nat) (hx : x < w.size) (pn : String) (hp : (w.sten x).WF)
    (hname : ∀ p ∈ w.plates x, p.name ≠ pn) (n : Nat) (es : List Nat) (hn : 1 < n)
    (hes : (w.sten x).eventShape = n :: es) (P Q : Plate α) (htwo : (w.sten x).multiDimPlates = [P, Q])
    (hsize : P.n = Q.n) :
    ∃ w', exec env (.denote x 2 pn none) w = (w', .ok ()) ∧
      (w'.plates w.size).map Plate.name = pn :: (w.plates x).map Plate.name ∧
      ∀ k < n, ∀ ι κ, ι pn = k → κ P.name = ι Q.name → κ Q.name = ι P.name → ∀ e, Ten.InB e es →
        (w'.sten w.size).sample ι e = (w.sten x).sample κ (k :: e) := by
  have hsh := hp.shape
  rw [htwo, hes] at hsh
  have hsh' : (w.node x).ten.shape = [P.n, Q.n, n] ++ es := hsh
  obtain ⟨t, ht1, ht2, ht3⟩ := moveFront_ok (x := (w.node x).ten) (dim := 2) (by rw [hsh']; simp)
  have ht2' : t.shape = n :: P.n :: Q.n :: es := by
    rw [ht2]
    simp [hsh', hsize]
  have hsrc : w.srcPlates (.shared (w.node x).platesAt) = w.plates x := rfl
  have hfil : (w.plates x).filter (fun p => decide (1 < p.n)) = [P, Q] := htwo
  obtain ⟨w', h1, h2, h3, h4, h5, h6, h7⟩ := newIndep_sten (env := env) (w := w) (t := t) (parents := [x])
    (src := .shared (w.node x).platesAt) (tn := indepName (w.node x).name pn) (pn := pn) (n := n) (es := es)
    (by omega) (by rw [hsrc]; exact hp.pos) (by rw [hsrc]; exact hp.names)
    (by rw [hsrc]; exact hname) _ ht2' (by
      rw [ht2', List.filter_cons_of_pos (by exact decide_eq_true hn), hsrc, hfil]
      simp [Plate.n])
  rw [hsrc] at h5
  have hmd : (w'.sten w.size).multiDimPlates =
      [Plate.mk pn n (.torch (Ten.scalar (env.inv n))) .plain (w.plates x), P, Q] := by
    rw [STen.multiDimPlates, h5, List.filter_cons_of_pos (by exact decide_eq_true hn), hfil]
  refine ⟨w', ?_, ?_, ?_⟩
  · simp only [exec, World.denote]
    rw [if_neg (by omega), hctx.1, hctx.2]
    simp only [lt_irrefl, decide_false, Bool.or_false, Bool.false_eq_true, if_false, ht1]
    exact h1
  · have : w'.plates w.size = _ := h5
    rw [this]
    rfl
  · intro k hk ι κ hι hκ1 hκ2 e he
    have hke : Ten.InB (k :: e) (n :: es) := List.Forall₂.cons hk he
    rw [STen.sample, STen.sample, hmd, htwo, h7, hes, h4, bidx_of_inB he, bidx_of_inB hke]
    have := ht3 (κ P.name :: κ Q.name :: k :: e) (by simp)
    simp only [List.getElem_cons_succ, List.getElem_cons_zero, List.set_cons_succ, List.set_cons_zero,
      List.tail_cons] at this
    have hg : t.get (ι pn :: ι P.name :: ι Q.name :: e) = (w.node x).ten.get (κ P.name :: κ Q.name :: k :: e) := by
      rw [hι, ← hκ1, ← hκ2]
      exact this
    exact hg

end

/-- Two plates of the same size, or of different sizes, and one event dimension. -/
def twoPlates (m : Nat) : Cmd Int :=
  .tensor (some "a") ⟨[2, m, 2], fun i => 100 * i.getD 0 0 + 10 * i.getD 1 0 + i.getD 2 0⟩ []
    [.mk "p" 2 (.torch (Ten.scalar 0)) .plain [], .mk "q" m (.torch (Ten.scalar 0)) .plain []]

/-- C98 is false for two plates: when their sizes agree, the sample of the new tensor at `p = 1`, `q = 0`, is the one
of the argument at `p = 0`, `q = 1`; when they do not agree the call raises. -/
theorem C98_plates_refuted :
    (∃ w w' : World Int, exec plainEnv (twoPlates 2) World.init = (w, .ok ()) ∧
      exec plainEnv (.denote 0 2 "s" none) w = (w', .ok ()) ∧
      (w'.plates 1).map Plate.name = ["s", "p", "q"] ∧
      (w'.sten 1).sample (fun s => if s = "p" then 1 else 0) [] = 10 ∧
      (w.sten 0).sample (fun s => if s = "p" then 1 else 0) [0] = 100) ∧
    ∃ w : World Int, exec plainEnv (twoPlates 3) World.init = (w, .ok ()) ∧
      (exec plainEnv (.denote 0 2 "s" none) w).2 = .error .value := by
  refine ⟨⟨(exec plainEnv (twoPlates 2) World.init).1,
      (exec plainEnv (.denote 0 2 "s" none) (exec plainEnv (twoPlates 2) World.init).1).1, ?_, ?_, ?_, ?_, ?_⟩,
    ⟨(exec plainEnv (twoPlates 3) World.init).1, ?_, ?_⟩⟩
  · have : (exec plainEnv (twoPlates 2) World.init).2 = .ok () := by decide +kernel
    exact ran this
  · have : (exec plainEnv (.denote 0 2 "s" none) (exec plainEnv (twoPlates 2) World.init).1).2 = .ok () := by
      decide +kernel
    exact ran this
  · decide +kernel
  · decide +kernel
  · decide +kernel
  · have : (exec plainEnv (twoPlates 3) World.init).2 = .ok () := by decide +kernel
    exact ran this
  · decide +kernel

/-- The hypotheses of `C98_exchanged_refuted` hold for `twoPlates 2`. -/
example : let w := (exec plainEnv (twoPlates 2) World.init).1
    w.ctxDet = 0 ∧ w.ctxStoch = false ∧ w.size = 1 ∧ (w.sten 0).eventShape = [2] ∧
      (w.sten 0).multiDimPlates.map Plate.n = [2, 2] ∧ (w.plates 0).map Plate.name = ["p", "q"] := by decide +kernel

/-- The hypotheses of `C98_unequal_refuted` hold for `twoPlates 3`, at dimension 2. -/
example : let w := (exec plainEnv (twoPlates 3) World.init).1
    w.ctxDet = 0 ∧ w.ctxStoch = false ∧ w.size = 1 ∧ (w.sten 0).plateDims = 2 ∧ (w.sten 0).ten.shape = [2, 3, 2] ∧
      (w.sten 0).multiDimPlates.map Plate.n = [2, 3] := by decide +kernel

/-- A case for `C98_single_plates_partial`: a plate with one sample, and the second dimension of the event. -/
example : let w := (exec plainEnv (.denoteTorch ⟨[1, 3], fun i => i.getD 1 0⟩ 0 "p" none) World.init).1
    let w' := (exec plainEnv (.denote 0 1 "s" none) w).1
    (w.sten 0).plateDims = 0 ∧ (w.sten 0).eventShape = [1, 3] ∧ (w'.plates 1).map Plate.n = [3, 1] ∧
      (w'.sten 1).eventShape = [1] ∧ (w'.sten 1).sample (fun _ => 2) [0] = 2 := by decide +kernel

/-- C98 is false for a dimension of size one: the plate has one sample, whose event has the dimension still. -/
theorem C98_single_refuted : ∃ w' : World Int,
    exec plainEnv (.denoteTorch ⟨[1, 3], fun i => i.getD 1 0⟩ 0 "s" none) World.init = (w', .ok ()) ∧
      (w'.plates 0).map Plate.n = [1] ∧ (w'.sten 0).eventShape = [1, 3] := by
  refine ⟨(exec plainEnv (.denoteTorch ⟨[1, 3], fun i => i.getD 1 0⟩ 0 "s" none) World.init).1, ?_, ?_, ?_⟩
  · have : (exec plainEnv (.denoteTorch ⟨[1, 3], fun i => i.getD 1 0⟩ 0 "s" none) World.init).2 = .ok () := by
      decide +kernel
    exact ran this
  · decide +kernel
  · decide +kernel

/-- A case for `C98_torch_partial`: the second dimension of a matrix of shape `[2, 3]`. -/
example : let w := (exec plainEnv (.denoteTorch ⟨[2, 3], fun i => 10 * i.getD 0 0 + i.getD 1 0⟩ 1 "s" none) World.init).1
    (w.plates 0).map Plate.n = [3] ∧ (w.sten 0).eventShape = [2] ∧ (w.sten 0).sample (fun _ => 2) [1] = 12 ∧
      (w.sten 0).sample (fun _ => 0) [1] = 10 := by decide +kernel

/-- A tensor of shape `[2, 3]` with one plate. -/
def oneRow : Cmd Int :=
  .tensor (some "a") ⟨[2, 3], fun i => 10 * i.getD 0 0 + i.getD 1 0⟩ [] [.mk "p" 2 (.torch (Ten.scalar 0)) .plain []]

/-- A case for `C98_plate_partial`: the event dimension of `oneRow`. -/
example : let w := (exec plainEnv oneRow World.init).1
    let w' := (exec plainEnv (.denote 0 1 "s" none) w).1
    (w.sten 0).plateDims = 1 ∧ (w.sten 0).eventShape = [3] ∧ (w'.sten 1).eventShape = [] ∧
      (w'.sten 1).sample (fun s => if s = "p" then 1 else 2) [] = 12 ∧
      (w.sten 0).sample (fun s => if s = "p" then 1 else 2) [2] = 12 := by decide +kernel

end Storch
