import Verif.Model.Distr
import Verif.Lemmas.PlateLemmas

/-!
# C73: a sample depends on every parameter of its distribution
-/

namespace Storch
namespace Params

variable {τ α : Type _}

/-- `Level d e`: `e` is `d` or is reached from it through `base_dist`, as through `Independent`. -/
inductive Level : Distr τ → Distr τ → Prop
  | here (d) : Level d d
  | base {cs attr b ps e} : Level b e → Level (.mk cs attr (some b) ps) e

/-- `Inside d e`: `e` is any distribution that `d` is made of. -/
inductive Inside : Distr τ → Distr τ → Prop
  | here (d) : Inside d d
  | base {cs attr b ps e} : Inside b e → Inside (.mk cs attr (some b) ps) e
  | part {cs attr b ps q e} : q ∈ ps → Inside q e → Inside (.mk cs attr b ps) e

/-- The distribution has the tensor `t` as its parameter `k`. -/
def Distr.Has : Distr τ → String → τ → Prop
  | .mk cs attr _ _, k, t => k ∈ cs ∧ attr k = .tensor t

/-- `t` is the parameter `k` of the innermost level that has one with `keep`. -/
inductive Innermost (keep : τ → Bool) : Distr τ → String → τ → Prop
  | last {cs attr ps k t} : k ∈ cs → attr k = .tensor t → keep t = true → Innermost keep (.mk cs attr none ps) k t
  | deeper {cs attr b ps k t} : Innermost keep b k t → Innermost keep (.mk cs attr (some b) ps) k t
  | shallow {cs attr b ps k t} : k ∈ cs → attr k = .tensor t → keep t = true →
      (∀ e u, Level b e → e.Has k u → keep u = false) → Innermost keep (.mk cs attr (some b) ps) k t

theorem dget_dset (d : List (String × τ)) (k k' : String) (v : τ) :
    dget (dset d k v) k' = if k' = k then some v else dget d k' := by
  induction d with
  | nil => by_cases h : k = k' <;> simp [dset, dget, h, eq_comm]
  | cons x d ih =>
    obtain ⟨a, b⟩ := x
    by_cases ha : a = k
    · subst ha
      by_cases h : a = k'
      · simp [dset, dget, h]
      · simp [dset, dget, h, Ne.symm h]
    · rw [dset, if_neg ha]
      by_cases h : a = k'
      · subst h
        simp [dget, ha]
      · simp [dget, h, ih]

theorem dget_addParams (keep : τ → Bool) (attr : String → Attr τ) (k : String) : ∀ (cs : List String)
    (params : List (String × τ)), dget (addParams keep attr cs params) k =
      match attr k with
      | .tensor t => if k ∈ cs ∧ keep t = true then some t else dget params k
      | _ => dget params k
  | [], params => by cases attr k <;> simp [addParams]
  | c :: cs, params => by
    have ih := dget_addParams keep attr k cs
    unfold addParams
    cases hc : attr c with
    | tensor t =>
      simp only [ih]
      by_cases hk : k = c
      · subst hk
        rw [hc]
        by_cases hkeep : keep t = true <;> simp [hkeep, dget_dset]
      · cases hak : attr k with
        | tensor u => by_cases hkeep : keep t = true <;> simp [hkeep, dget_dset, hk]
        | other => by_cases hkeep : keep t = true <;> simp [hkeep, dget_dset, hk]
        | missing => by_cases hkeep : keep t = true <;> simp [hkeep, dget_dset, hk]
    | other =>
      simp only [ih]
      by_cases hk : k = c
      · subst hk; rw [hc]
      · simp [hk]
    | missing =>
      simp only [ih]
      by_cases hk : k = c
      · subst hk; rw [hc]
      · simp [hk]

theorem addParams_some (keep : τ → Bool) (attr : String → Attr τ) (k : String) (cs : List String)
    (params : List (String × τ)) (t : τ) : dget (addParams keep attr cs params) k = some t ↔
      (k ∈ cs ∧ attr k = .tensor t ∧ keep t = true) ∨
      (dget params k = some t ∧ ∀ u, k ∈ cs → attr k = .tensor u → keep u = false) := by
  rw [dget_addParams]
  cases h : attr k with
  | tensor u =>
    by_cases hx : k ∈ cs ∧ keep u = true
    · simp only [hx, and_self, if_true, Option.some.injEq, Attr.tensor.injEq, true_and, forall_const]
      constructor
      · rintro rfl
        exact Or.inl ⟨rfl, hx.2⟩
      · rintro (⟨rfl, _⟩ | ⟨_, h2⟩)
        · rfl
        · have := h2 u rfl
          rw [hx.2] at this
          cases this
    · simp only [if_neg hx]
      constructor
      · intro h1
        refine Or.inr ⟨h1, fun v hc hv => ?_⟩
        cases hv
        by_contra hk
        exact hx ⟨hc, by simpa using hk⟩
      · rintro (⟨h1, h2, h3⟩ | ⟨h1, _⟩)
        · cases h2
          exact absurd ⟨h1, h3⟩ hx
        · exact h1
  | other => simp
  | missing => simp

/-- No level has a parameter `k` that passes. -/
def NoneKept (keep : τ → Bool) (d : Distr τ) (k : String) : Prop := ∀ e u, Level d e → e.Has k u → keep u = false

theorem noneKept_last {keep : τ → Bool} {cs attr ps} {k : String} :
    NoneKept keep (.mk cs attr none ps) k ↔ ∀ u, k ∈ cs → attr k = .tensor u → keep u = false := by
  constructor
  · intro h u h1 h2
    exact h _ u (.here _) ⟨h1, h2⟩
  · intro h e u hl hh
    cases hl
    exact h u hh.1 hh.2

theorem noneKept_base {keep : τ → Bool} {cs attr b ps} {k : String} :
    NoneKept keep (.mk cs attr (some b) ps) k ↔
      (∀ u, k ∈ cs → attr k = .tensor u → keep u = false) ∧ NoneKept keep b k := by
  constructor
  · intro h
    exact ⟨fun u h1 h2 => h _ u (.here _) ⟨h1, h2⟩, fun e u hl hh => h e u (.base hl) hh⟩
  · rintro ⟨h1, h2⟩ e u hl hh
    cases hl with
    | here => exact h1 u hh.1 hh.2
    | base hl => exact h2 e u hl hh

theorem distrLoop_some (keep : τ → Bool) (k : String) (t : τ) : ∀ (d : Distr τ) (params : List (String × τ)),
    dget (distrLoop keep d params) k = some t ↔ Innermost keep d k t ∨ (dget params k = some t ∧ NoneKept keep d k)
  | .mk cs attr none ps, params => by
    rw [distrLoop, addParams_some, noneKept_last]
    constructor
    · rintro (⟨h1, h2, h3⟩ | h)
      · exact Or.inl (.last h1 h2 h3)
      · exact Or.inr h
    · rintro (h | h)
      · cases h with
        | last h1 h2 h3 => exact Or.inl ⟨h1, h2, h3⟩
      · exact Or.inr h
  | .mk cs attr (some b) ps, params => by
    rw [distrLoop, distrLoop_some keep k t b, addParams_some, noneKept_base]
    constructor
    · rintro (h | ⟨⟨h1, h2, h3⟩ | ⟨h1, h2⟩, h4⟩)
      · exact Or.inl (.deeper h)
      · exact Or.inl (.shallow h1 h2 h3 h4)
      · exact Or.inr ⟨h1, h2, h4⟩
    · rintro (h | ⟨h1, h2, h4⟩)
      · cases h with
        | deeper h => exact Or.inl h
        | shallow h1 h2 h3 h4 => exact Or.inr ⟨Or.inl ⟨h1, h2, h3⟩, h4⟩
      · exact Or.inr ⟨Or.inr ⟨h1, h2⟩, h4⟩

/-- **C73, the dictionary.**  For any nesting, a key is bound to the parameter of the innermost level that has one (with
`requires_grad`, when asked for). -/
theorem C73_dictionary (d : Distr (Param α)) (filter : Bool) (k : String) (p : Param α) :
    dget (getDistrParameters d filter) k = some p ↔
      Innermost (fun p => !filter || p.requiresGrad) d k p := by
  rw [getDistrParameters, distrLoop_some]
  simp [dget]

/-- Levels that share a key share the parameter, as `LogNormal` and `HalfNormal` do with their `base_dist`. -/
def Coherent (d : Distr τ) : Prop :=
  ∀ e e' k t t', Level d e → Level d e' → e.Has k t → e'.Has k t' → t = t'

theorem exists_innermost {keep : τ → Bool} {k : String} : ∀ d : Distr τ, ¬ NoneKept keep d k →
    ∃ t, Innermost keep d k t
  | .mk cs attr none ps, h => by
    rw [noneKept_last] at h
    simp only [not_forall] at h
    obtain ⟨u, h1, h2, h3⟩ := h
    exact ⟨u, .last h1 h2 (by simpa using h3)⟩
  | .mk cs attr (some b) ps, h => by
    by_cases hb : NoneKept keep b k
    · rw [noneKept_base] at h
      have h' : ¬ ∀ u, k ∈ cs → attr k = .tensor u → keep u = false := fun h1 => h ⟨h1, hb⟩
      simp only [not_forall] at h'
      obtain ⟨u, h1, h2, h3⟩ := h'
      exact ⟨u, .shallow h1 h2 (by simpa using h3) hb⟩
    · obtain ⟨t, ht⟩ := exists_innermost b hb
      exact ⟨t, .deeper ht⟩

theorem Innermost.level {keep : τ → Bool} {d : Distr τ} {k : String} {t : τ} (h : Innermost keep d k t) :
    ∃ e, Level d e ∧ e.Has k t ∧ keep t = true := by
  induction h with
  | last h1 h2 h3 => exact ⟨_, .here _, ⟨h1, h2⟩, h3⟩
  | deeper _ ih =>
    obtain ⟨e, h1, h2⟩ := ih
    exact ⟨e, .base h1, h2⟩
  | shallow h1 h2 h3 _ => exact ⟨_, .here _, ⟨h1, h2⟩, h3⟩

theorem innermost_of_has {keep : τ → Bool} {d e : Distr τ} {k : String} {t : τ} (hl : Level d e) (hh : e.Has k t)
    (hk : keep t = true) (hc : Coherent d) : Innermost keep d k t := by
  obtain ⟨u, hu⟩ := exists_innermost (keep := keep) (k := k) d (fun h => by rw [h e t hl hh] at hk; cases hk)
  obtain ⟨e', h1, h2, _⟩ := hu.level
  rw [hc e e' k t u hl h1 hh h2]
  exact hu

theorem mem_of_dget {d : List (String × τ)} {k : String} {t : τ} (h : dget d k = some t) : (k, t) ∈ d := by
  induction d with
  | nil => cases h
  | cons x d ih =>
    obtain ⟨a, b⟩ := x
    rw [dget] at h
    split at h
    · rename_i ha
      cases h
      subst ha
      simp
    · exact List.mem_cons_of_mem _ (ih h)

theorem mem_dset {d : List (String × τ)} {k : String} {v : τ} {x : String × τ} (h : x ∈ dset d k v) :
    x ∈ d ∨ x = (k, v) := by
  induction d with
  | nil => simpa [dset] using h
  | cons y d ih =>
    obtain ⟨a, b⟩ := y
    rw [dset] at h
    split at h
    · rcases List.mem_cons.1 h with h | h
      · exact Or.inr h
      · exact Or.inl (List.mem_cons_of_mem _ h)
    · rcases List.mem_cons.1 h with h | h
      · exact Or.inl (by simp [h])
      · rcases ih h with h | h
        · exact Or.inl (List.mem_cons_of_mem _ h)
        · exact Or.inr h

theorem mem_addParams {keep : τ → Bool} {attr : String → Attr τ} : ∀ {cs : List String} {params : List (String × τ)}
    {x : String × τ}, x ∈ addParams keep attr cs params → x ∈ params ∨ (x.1 ∈ cs ∧ attr x.1 = .tensor x.2)
  | [], params, x, h => Or.inl h
  | c :: cs, params, x, h => by
    unfold addParams at h
    split at h
    · rename_i t ht
      rcases mem_addParams h with h | h
      · split at h
        · rcases mem_dset h with h | rfl
          · exact Or.inl h
          · exact Or.inr ⟨by simp, ht⟩
        · exact Or.inl h
      · exact Or.inr ⟨List.mem_cons_of_mem _ h.1, h.2⟩
    · rcases mem_addParams h with h | h
      · exact Or.inl h
      · exact Or.inr ⟨List.mem_cons_of_mem _ h.1, h.2⟩
    · rcases mem_addParams h with h | h
      · exact Or.inl h
      · exact Or.inr ⟨List.mem_cons_of_mem _ h.1, h.2⟩

theorem mem_distrLoop {keep : τ → Bool} : ∀ {d : Distr τ} {params : List (String × τ)} {x : String × τ},
    x ∈ distrLoop keep d params → x ∈ params ∨ ∃ e, Level d e ∧ e.Has x.1 x.2
  | .mk cs attr none ps, params, x, h => by
    rw [distrLoop] at h
    rcases mem_addParams h with h | h
    · exact Or.inl h
    · exact Or.inr ⟨_, .here _, h⟩
  | .mk cs attr (some b) ps, params, x, h => by
    rw [distrLoop] at h
    rcases mem_distrLoop h with h | ⟨e, h1, h2⟩
    · rcases mem_addParams h with h | h
      · exact Or.inl h
      · exact Or.inr ⟨_, .here _, h⟩
    · exact Or.inr ⟨e, .base h1, h2⟩

variable [ValEq α]

theorem isIn_append {p : Plate α} {l l' : List (Plate α)} (h : p.isIn l = true) : p.isIn (l ++ l') = true := by
  unfold Plate.isIn memBy at h ⊢
  rw [List.any_append, h, Bool.true_or]

theorem addPlates_spec : ∀ (ps plates : List (Plate α)),
    (∃ more, addPlates ps plates = plates ++ more ∧ ∀ x ∈ more, x ∈ ps) ∧
      ∀ p ∈ ps, p.isIn (addPlates ps plates) = true
  | [], plates => ⟨⟨[], by simp [addPlates], by simp⟩, by simp⟩
  | p :: ps, plates => by
    obtain ⟨⟨more, h1, h2⟩, h3⟩ := addPlates_spec ps (if p.isIn plates then plates else plates ++ [p])
    have hp : p.isIn (if p.isIn plates then plates else plates ++ [p]) = true := by
      split
      · assumption
      · unfold Plate.isIn memBy
        rw [List.any_append]
        simp [Plate.pyEq_refl]
    refine ⟨?_, ?_⟩
    · by_cases hi : p.isIn plates = true
      · rw [if_pos hi] at h1
        exact ⟨more, by rw [addPlates, if_pos hi, h1], fun x hx => List.mem_cons_of_mem _ (h2 x hx)⟩
      · rw [if_neg hi] at h1
        refine ⟨p :: more, by rw [addPlates, if_neg hi, h1, List.append_assoc]; rfl, ?_⟩
        intro x hx
        rcases List.mem_cons.1 hx with rfl | hx
        · simp
        · exact List.mem_cons_of_mem _ (h2 x hx)
    · intro q hq
      rw [addPlates]
      rcases List.mem_cons.1 hq with rfl | hq
      · rw [h1]
        exact isIn_append hp
      · exact h3 q hq

/-- What the loop over the parameters does. -/
theorem addParam_spec : ∀ (l : List (Param α)) (a : SampleArgs α),
    (∃ more, (l.foldl addParam a).parents = a.parents ++ more ∧ (∀ q ∈ more, q ∈ l ∧ q.isStorch = true) ∧
      (∀ q ∈ more, ∀ r ∈ a.parents, r.id ≠ q.id) ∧ (more.map Param.id).Nodup) ∧
    (∃ more, (l.foldl addParam a).plates = a.plates ++ more ∧ ∀ x ∈ more, ∃ p ∈ l, p.isStorch = true ∧ x ∈ p.plates) ∧
    ((l.foldl addParam a).requiresGrad = (a.requiresGrad || l.any Param.requiresGrad)) ∧
    ∀ p ∈ l, p.isStorch = true → (∃ q ∈ (l.foldl addParam a).parents, q.id = p.id) ∧
      ∀ x ∈ p.plates, x.isIn (l.foldl addParam a).plates = true
  | [], a => ⟨⟨[], by simp, by simp, by simp, by simp⟩, ⟨[], by simp, by simp⟩, by simp, by simp⟩
  | p :: l, a => by
    obtain ⟨⟨m1, a1, a2, a3, a4⟩, ⟨m2, b1, b2⟩, c1, d1⟩ := addParam_spec l (addParam a p)
    rw [List.foldl_cons]
    by_cases hs : p.isStorch = true
    · obtain ⟨⟨m3, e1, e2⟩, e3⟩ := addPlates_spec p.plates a.plates
      have hpl : (addParam a p).plates = a.plates ++ m3 := by rw [addParam, if_pos hs]; exact e1
      have hgr : (addParam a p).requiresGrad = (a.requiresGrad || p.requiresGrad) := by rw [addParam, if_pos hs]
      have hpa : (addParam a p).parents =
          if a.parents.any (fun q => q.id == p.id) then a.parents else a.parents ++ [p] := by rw [addParam, if_pos hs]
      have hin : ∃ q ∈ (addParam a p).parents, q.id = p.id := by
        rw [hpa]
        split
        · rename_i h
          obtain ⟨q, hq, h⟩ := List.any_eq_true.1 h
          exact ⟨q, hq, by simpa using h⟩
        · exact ⟨p, by simp, rfl⟩
      refine ⟨?_, ?_, ?_, ?_⟩
      · by_cases hi : a.parents.any (fun q => q.id == p.id) = true
        · rw [if_pos hi] at hpa
          refine ⟨m1, by rw [a1, hpa], fun q hq => ⟨List.mem_cons_of_mem _ (a2 q hq).1, (a2 q hq).2⟩, ?_, a4⟩
          rw [hpa] at a3
          exact a3
        · rw [if_neg hi] at hpa
          refine ⟨p :: m1, by rw [a1, hpa, List.append_assoc]; rfl, ?_, ?_, ?_⟩
          · intro q hq
            rcases List.mem_cons.1 hq with rfl | hq
            · exact ⟨by simp, hs⟩
            · exact ⟨List.mem_cons_of_mem _ (a2 q hq).1, (a2 q hq).2⟩
          · intro q hq r hr
            rcases List.mem_cons.1 hq with rfl | hq
            · intro he
              exact hi (List.any_eq_true.2 ⟨r, hr, by simpa using he⟩)
            · exact a3 q hq r (by rw [hpa]; exact List.mem_append_left _ hr)
          · rw [List.map_cons, List.nodup_cons]
            refine ⟨?_, a4⟩
            intro hm
            obtain ⟨q, hq, he⟩ := List.mem_map.1 hm
            exact a3 q hq p (by rw [hpa]; simp) he.symm
      · refine ⟨m3 ++ m2, by rw [b1, hpl, List.append_assoc], ?_⟩
        intro x hx
        rcases List.mem_append.1 hx with hx | hx
        · exact ⟨p, by simp, hs, e2 x hx⟩
        · obtain ⟨q, h1, h2⟩ := b2 x hx
          exact ⟨q, List.mem_cons_of_mem _ h1, h2⟩
      · rw [c1, hgr, List.any_cons, Bool.or_assoc]
      · intro q hq hqs
        rcases List.mem_cons.1 hq with rfl | hq
        · refine ⟨?_, ?_⟩
          · obtain ⟨r, h1, h2⟩ := hin
            exact ⟨r, by rw [a1]; exact List.mem_append_left _ h1, h2⟩
          · intro x hx
            rw [b1]
            apply isIn_append
            have : (addParam a q).plates = addPlates q.plates a.plates := by rw [addParam, if_pos hs]
            rw [this]
            exact e3 x hx
        · exact d1 q hq hqs
    · have hpa : (addParam a p).parents = a.parents := by rw [addParam, if_neg hs]
      have hpl : (addParam a p).plates = a.plates := by rw [addParam, if_neg hs]
      have hgr : (addParam a p).requiresGrad = (a.requiresGrad || p.requiresGrad) := by rw [addParam, if_neg hs]
      refine ⟨⟨m1, by rw [a1, hpa], fun q hq => ⟨List.mem_cons_of_mem _ (a2 q hq).1, (a2 q hq).2⟩,
        by rw [hpa] at a3; exact a3, a4⟩, ⟨m2, by rw [b1, hpl], ?_⟩, ?_, ?_⟩
      · intro x hx
        obtain ⟨q, h1, h2⟩ := b2 x hx
        exact ⟨q, List.mem_cons_of_mem _ h1, h2⟩
      · rw [c1, hgr, List.any_cons, Bool.or_assoc]
      · intro q hq hqs
        rcases List.mem_cons.1 hq with rfl | hq
        · exact absurd hqs hs
        · exact d1 q hq hqs

/-- **C73, for distributions nested through `base_dist`.**  Every parameter of every level becomes a parent of the sample
(once) if it is a storch tensor, its plates become plates of the sample, and the sample requires gradients exactly when one
of the parameters does; nothing else is added to the context.  What is missing: distributions held in other ways
(`C73_refuted`) and levels that use one key for two tensors (`C73_conflict_refuted`). -/
theorem C73_partial (ctxParents : List (Param α)) (ctxPlates : List (Plate α)) {d : Distr (Param α)} (hc : Coherent d) :
    (∀ e k p, Level d e → e.Has k p → p.isStorch = true →
      (∃ q ∈ (sampleArgs ctxParents ctxPlates d).parents, q.id = p.id) ∧
        ∀ x ∈ p.plates, x.isIn (sampleArgs ctxParents ctxPlates d).plates = true) ∧
    (∃ more, (sampleArgs ctxParents ctxPlates d).parents = ctxParents ++ more ∧ (more.map Param.id).Nodup ∧
      ∀ q ∈ more, q.isStorch = true ∧ (∀ r ∈ ctxParents, r.id ≠ q.id) ∧ ∃ e k, Level d e ∧ e.Has k q) ∧
    (∃ more, (sampleArgs ctxParents ctxPlates d).plates = ctxPlates ++ more ∧
      ∀ x ∈ more, ∃ e k p, Level d e ∧ e.Has k p ∧ p.isStorch = true ∧ x ∈ p.plates) ∧
    ((sampleArgs ctxParents ctxPlates d).requiresGrad = true ↔
      ∃ e k p, Level d e ∧ e.Has k p ∧ p.requiresGrad = true) := by
  have hin : ∀ e k p, Level d e → e.Has k p → p ∈ (getDistrParameters d false).map Prod.snd := by
    intro e k p hl hh
    have := (C73_dictionary d false k p).2 (innermost_of_has hl hh (by simp) hc)
    exact List.mem_map.2 ⟨(k, p), mem_of_dget this, rfl⟩
  have hout : ∀ p ∈ (getDistrParameters d false).map Prod.snd, ∃ e k, Level d e ∧ e.Has k p := by
    intro p hp
    obtain ⟨x, hx, rfl⟩ := List.mem_map.1 hp
    rcases mem_distrLoop hx with h | ⟨e, h1, h2⟩
    · cases h
    · exact ⟨e, x.1, h1, h2⟩
  obtain ⟨⟨m1, a1, a2, a3, a4⟩, ⟨m2, b1, b2⟩, c1, d1⟩ :=
    addParam_spec ((getDistrParameters d false).map Prod.snd) ⟨ctxParents, ctxPlates, false⟩
  refine ⟨fun e k p hl hh hs => d1 p (hin e k p hl hh) hs, ⟨m1, a1, a4, fun q hq => ⟨(a2 q hq).2, a3 q hq, ?_⟩⟩,
    ⟨m2, b1, fun x hx => ?_⟩, ?_⟩
  · exact hout q (a2 q hq).1
  · obtain ⟨p, h1, h2, h3⟩ := b2 x hx
    obtain ⟨e, k, h4, h5⟩ := hout p h1
    exact ⟨e, k, p, h4, h5, h2, h3⟩
  · show (List.foldl addParam _ _).requiresGrad = true ↔ _
    rw [c1, Bool.false_or, List.any_eq_true]
    constructor
    · rintro ⟨p, h1, h2⟩
      obtain ⟨e, k, h4, h5⟩ := hout p h1
      exact ⟨e, k, p, h4, h5, h2⟩
    · rintro ⟨e, k, p, h1, h2, h3⟩
      exact ⟨p, hin e k p h1 h2, h3⟩

/-- **C73 fails for distributions held in other ways.**  Whatever storch tensor `p` a component depends on, a distribution
without `arg_constraints` of its own and without `base_dist`, like `MixtureSameFamily`, gives a sample that does not have `p`
as a parent, nor its plates, and that does not require gradients. -/
theorem C73_refuted (p : Param α) (k : String) :
    ∃ d : Distr (Param α), (∃ e, Inside d e ∧ e.Has k p) ∧ ∀ ctxParents ctxPlates,
      (sampleArgs ctxParents ctxPlates d).parents = ctxParents ∧ (sampleArgs ctxParents ctxPlates d).plates = ctxPlates ∧
        (sampleArgs ctxParents ctxPlates d).requiresGrad = false :=
  ⟨.mk [] (fun _ => .missing) none [.mk [k] (fun _ => .tensor p) none []],
    ⟨_, .part (List.mem_singleton.2 rfl) (.here _), List.mem_singleton.2 rfl, rfl⟩, fun _ _ => ⟨rfl, rfl, rfl⟩⟩

/-- Two levels that use one key for two tensors: the outer one is lost. -/
theorem C73_conflict_refuted (p q : Param α) (hid : p.id ≠ q.id) :
    ¬ ∃ r ∈ (sampleArgs [] [] (.mk ["loc"] (fun _ => .tensor p)
      (some (.mk ["loc"] (fun _ => .tensor q) none [])) [])).parents, r.id = p.id := by
  rintro ⟨r, hr, he⟩
  have : r = q := by
    simp only [sampleArgs, getDistrParameters, distrLoop, addParams, dset, Bool.not_false, Bool.true_or, if_true,
      List.map_cons, List.map_nil, List.foldl_cons, List.foldl_nil, addParam] at hr
    split at hr
    · simpa using hr
    · simp at hr
  rw [this] at he
  exact hid he.symm

/-! ## Cases -/

namespace DistrCase

/-- A plate of three samples. -/
def x : Plate Int := .mk "x" 3 (.torch (Ten.scalar 0)) .plain []
def loc : Param Int := ⟨0, true, [x], true⟩
def scale : Param Int := ⟨1, false, [], false⟩

/-- `Normal(loc, scale)` inside `Independent`. -/
def normal : Distr (Param Int) :=
  .mk ["loc", "scale"] (fun k => if k = "loc" then .tensor loc else if k = "scale" then .tensor scale else .missing) none []
def independent : Distr (Param Int) := .mk [] (fun _ => .missing) (some normal) []

theorem coherent : Coherent independent := by
  have hl : ∀ e, Level independent e → ∀ k t, e.Has k t → normal.Has k t := by
    intro e he k t hh
    cases he with
    | here => cases hh.1
    | base h =>
      cases h
      exact hh
  intro e e' k t t' h1 h2 h3 h4
  have a1 := (hl e h1 k t h3).2
  have a2 := (hl e' h2 k t' h4).2
  rw [a1] at a2
  cases a2
  rfl

/-- `C73_partial` applies: the sample depends on `loc`, with its plate, and requires gradients. -/
example : (∃ q ∈ (sampleArgs [] [] independent).parents, q.id = 0) ∧ x.isIn (sampleArgs [] [] independent).plates = true ∧
    (sampleArgs [] [] independent).requiresGrad = true := by
  obtain ⟨h1, _, _, h4⟩ := C73_partial ([] : List (Param Int)) [] coherent
  have hl : Level independent normal := .base (.here _)
  have hh : normal.Has "loc" loc := ⟨by simp, rfl⟩
  exact ⟨(h1 _ _ _ hl hh rfl).1, (h1 _ _ _ hl hh rfl).2 x (by simp [loc]), h4.2 ⟨_, _, _, hl, hh, rfl⟩⟩

/-- Both kinds of dictionary: with the filter only `loc` is found. -/
example : dget (getDistrParameters independent true) "scale" = none ∧
    dget (getDistrParameters independent false) "scale" = some scale := ⟨rfl, rfl⟩

end DistrCase

end Params
end Storch
