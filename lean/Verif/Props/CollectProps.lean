import Verif.Lemmas.AlignLemmas

/-!
# C04: collection of parents and plates
-/

namespace Storch
variable {α : Type _}

/-! ### Specification -/

mutual
/-- All storch tensors inside a value, left to right (distributions are opaque). -/
def Val.tensors : Val α → List (STen α)
  | .st t _ => [t]
  | .dict _ vs => tensorsL vs
  | .tup xs => tensorsL xs
  | .lst xs => tensorsL xs
  | .iter xs => tensorsL xs
  | .none => []
  | .torch _ => []
  | .distr _ _ _ _ => []
  | .other _ => []
def tensorsL : List (Val α) → List (STen α)
  | [] => []
  | v :: vs => v.tensors ++ tensorsL vs
end

/-- The storch tensors among the arguments of a call. -/
def Args.tensors (a : Args α) : List (STen α) := tensorsL a.pos ++ tensorsL (a.kw.map Prod.snd)

/-- All plates of all storch arguments, in order. -/
def Args.allPlates (a : Args α) : List (Plate α) := a.tensors.flatMap STen.plates

variable [ValEq α]

/-- `R` lists the first occurrences (up to plate equality) of the elements of `l`. -/
structure FirstOcc (R l : List (Plate α)) : Prop where
  sub : R.Sublist l
  distinct : R.Pairwise (fun p q => p.pyEq q = false)
  complete : ∀ p ∈ l, ∃ q ∈ R, q.pyEq p = true
  first : ∀ l1 p l2, l = l1 ++ p :: l2 → (∀ q ∈ l1, q.pyEq p = false) → p ∈ R

/-! ### Lemmas -/

theorem firstOcc_nil : FirstOcc ([] : List (Plate α)) [] :=
  ⟨List.Sublist.refl _, List.Pairwise.nil, by simp, by simp⟩

theorem firstOcc_snoc {R l : List (Plate α)} (h : FirstOcc R l) (p : Plate α) :
    FirstOcc (if p.isIn R then R else R ++ [p]) (l ++ [p]) := by
  by_cases hp : p.isIn R = true
  · simp only [hp, if_true]
    refine ⟨h.sub.trans (List.sublist_append_left _ _), h.distinct, ?_, ?_⟩
    · intro q hq
      rcases List.mem_append.1 hq with hq | hq
      · exact h.complete q hq
      · simp only [List.mem_singleton] at hq
        subst hq
        exact Plate.isIn_iff.1 hp
    · intro l1 q l2 he hn
      rcases List.eq_nil_or_concat' l2 with rfl | ⟨l3, x, rfl⟩
      · have he' : l ++ [p] = l1 ++ [q] := by simpa using he
        obtain ⟨rfl, hx⟩ := List.append_inj' he' rfl
        simp only [List.cons.injEq, and_true] at hx
        subst hx
        obtain ⟨y, hy, hye⟩ := Plate.isIn_iff.1 hp
        have := hn y (h.sub.subset hy)
        rw [hye] at this; cases this
      · have he' : l ++ [p] = (l1 ++ q :: l3) ++ [x] := by simpa using he
        obtain ⟨h1, _⟩ := List.append_inj' he' rfl
        exact h.first l1 q l3 h1 hn
  · have hp' : ∀ q ∈ R, q.pyEq p = false := by
      intro q hq
      by_contra hc
      exact hp (Plate.isIn_iff.2 ⟨q, hq, by simpa using hc⟩)
    simp only [hp, Bool.false_eq_true, if_false]
    refine ⟨h.sub.append (List.Sublist.refl _), ?_, ?_, ?_⟩
    · rw [List.pairwise_append]
      exact ⟨h.distinct, List.pairwise_singleton _ _, fun a ha b hb => by
        simp only [List.mem_singleton] at hb; subst hb; exact hp' a ha⟩
    · intro q hq
      rcases List.mem_append.1 hq with hq | hq
      · obtain ⟨y, hy, he⟩ := h.complete q hq
        exact ⟨y, List.mem_append_left _ hy, he⟩
      · exact ⟨q, List.mem_append_right _ hq, Plate.pyEq_refl q⟩
    · intro l1 q l2 he hn
      rcases List.eq_nil_or_concat' l2 with rfl | ⟨l3, x, rfl⟩
      · have he' : l ++ [p] = l1 ++ [q] := by simpa using he
        obtain ⟨_, hx⟩ := List.append_inj' he' rfl
        simp only [List.cons.injEq, and_true] at hx
        subst hx
        simp
      · have he' : l ++ [p] = (l1 ++ q :: l3) ++ [x] := by simpa using he
        obtain ⟨h1, _⟩ := List.append_inj' he' rfl
        exact List.mem_append_left _ (h.first l1 q l3 h1 hn)

theorem firstOcc_addPlates {R l : List (Plate α)} (h : FirstOcc R l) (ps : List (Plate α)) :
    FirstOcc (addPlates R ps) (l ++ ps) := by
  induction ps generalizing R l with
  | nil => simpa [addPlates] using h
  | cons p ps ih =>
    have := ih (firstOcc_snoc h p)
    simpa [addPlates] using this

/-- The collected lists describe the tensors `ts` collected so far. -/
structure Collected (c : Coll α) (ts : List (STen α)) : Prop where
  parents : c.parents = ts
  plates : FirstOcc c.plates (ts.flatMap STen.plates)

mutual
theorem Val.collect_spec (v : Val α) (c : Coll α) (ts : List (STen α)) (h : Collected c ts) :
    Collected (v.collect c).1 (ts ++ v.tensors) ∧
      (v.collect c).2 = (v.tensors.map STen.eventDims).foldr max 0 := by
  cases v with
  | st t s =>
    refine ⟨⟨by simp [Val.collect, Val.tensors, h.parents], ?_⟩, by simp [Val.collect, Val.tensors]⟩
    simpa [Val.collect, Val.tensors] using firstOcc_addPlates h.plates t.plates
  | dict ks vs =>
    have := collectList_spec vs c 0 ts h
    simpa [Val.collect, Val.tensors] using this
  | tup xs =>
    have := collectList_spec xs c 0 ts h
    simpa [Val.collect, Val.tensors] using this
  | lst xs =>
    have := collectList_spec xs c 0 ts h
    simpa [Val.collect, Val.tensors] using this
  | iter xs =>
    have := collectList_spec xs c 0 ts h
    simpa [Val.collect, Val.tensors] using this
  | none => simpa [Val.collect, Val.tensors] using h
  | torch t => simpa [Val.collect, Val.tensors] using h
  | distr k r ks ps => simpa [Val.collect, Val.tensors] using h
  | other n => simpa [Val.collect, Val.tensors] using h
theorem collectList_spec (vs : List (Val α)) (c : Coll α) (m : Nat) (ts : List (STen α))
    (h : Collected c ts) :
    Collected (collectList vs c m).1 (ts ++ tensorsL vs) ∧
      (collectList vs c m).2 = max m (((tensorsL vs).map STen.eventDims).foldr max 0) := by
  cases vs with
  | nil => simpa [collectList, tensorsL] using h
  | cons v vs =>
    obtain ⟨h1, h2⟩ := Val.collect_spec v c ts h
    obtain ⟨h3, h4⟩ := collectList_spec vs (v.collect c).1 (max m (v.collect c).2) _ h1
    simp only [collectList, tensorsL]
    refine ⟨by simpa using h3, ?_⟩
    rw [h4, h2]
    simp only [List.map_append, List.foldr_append]
    have hm : ∀ (l : List Nat) (b : Nat), l.foldr max b = max (l.foldr max 0) b := by
      intro l b
      induction l with
      | nil => simp
      | cons x l ih => simp only [List.foldr_cons]; rw [ih]; omega
    rw [hm _ (List.foldr max 0 (List.map STen.eventDims (tensorsL vs)))]
    omega
end

theorem foldr_max_append (l l' : List Nat) :
    (l ++ l').foldr max 0 = max (l.foldr max 0) (l'.foldr max 0) := by
  induction l with
  | nil => simp
  | cons x l ih => simp only [List.cons_append, List.foldr_cons, ih]; omega

theorem collectArgs_spec (a : Args α) :
    Collected (collectArgs a).1 a.tensors ∧
      (collectArgs a).2 = (a.tensors.map STen.eventDims).foldr max 0 := by
  obtain ⟨h1, h2⟩ := collectList_spec a.pos ⟨[], []⟩ 0 [] ⟨rfl, firstOcc_nil⟩
  obtain ⟨h3, h4⟩ := collectList_spec (a.kw.map Prod.snd) (collectList a.pos ⟨[], []⟩ 0).1 0 _ h1
  refine ⟨by simpa [collectArgs, Args.tensors] using h3, ?_⟩
  simp only [collectArgs]
  rw [h2, h4, Args.tensors, List.map_append, foldr_max_append]
  omega

/-- The plates of the arguments are ordinary plates. -/
def PlainArgs (a : Args α) : Prop := ∀ t ∈ a.tensors, ∀ p ∈ t.plates, p.kind = .plain

/-- Plates of the same name are equal plates. -/
def NoConflict (a : Args α) : Prop :=
  ∀ t ∈ a.tensors, ∀ t' ∈ a.tensors, ∀ p ∈ t.plates, ∀ q ∈ t'.plates,
    p.name = q.name → p.pyEq q = true

theorem onCollecting_plain (self : Plate α) (all : List (Plate α)) (hp : ∀ p ∈ all, p.kind = .plain) :
    self.onCollecting all =
      if ∃ p ∈ all, p.name = self.name ∧ p.pyEq self = false then .error .value else .ok true := by
  induction all with
  | nil => simp [Plate.onCollecting]
  | cons p ps ih =>
    have hpk := hp p (by simp)
    rw [Plate.onCollecting]
    by_cases hc : p.name = self.name ∧ p.pyEq self = false
    · have : ∃ x ∈ p :: ps, x.name = self.name ∧ x.pyEq self = false := ⟨p, by simp, hc⟩
      rw [if_pos this, if_pos (by simp [hc.1, hc.2])]
      simp [Plate.onDuplicate, hpk]
    · have hb : ¬ ((p.name == self.name && !p.pyEq self) = true) := by
        simpa using hc
      rw [if_neg hb, ih (fun x hx => hp x (List.mem_cons_of_mem _ hx))]
      have : (∃ x ∈ p :: ps, x.name = self.name ∧ x.pyEq self = false) ↔
          (∃ x ∈ ps, x.name = self.name ∧ x.pyEq self = false) := by
        constructor
        · rintro ⟨x, hx, h⟩
          rcases List.mem_cons.1 hx with rfl | hx
          · exact absurd h hc
          · exact ⟨x, hx, h⟩
        · rintro ⟨x, hx, h⟩; exact ⟨x, List.mem_cons_of_mem _ hx, h⟩
      simp only [this]

theorem filterPlates_plain (all ps : List (Plate α)) (hp : ∀ p ∈ all, p.kind = .plain) :
    ((∀ s ∈ ps, ∀ p ∈ all, p.name = s.name → p.pyEq s = true) ∧ filterPlates all ps = .ok ps) ∨
    ((∃ s ∈ ps, ∃ p ∈ all, p.name = s.name ∧ p.pyEq s = false) ∧
      filterPlates all ps = .error .value) := by
  induction ps with
  | nil => left; simp [filterPlates]
  | cons s ps ih =>
    rw [filterPlates, onCollecting_plain s all hp]
    by_cases hc : ∃ p ∈ all, p.name = s.name ∧ p.pyEq s = false
    · right
      simp only [hc, if_true]
      exact ⟨⟨s, by simp, hc⟩, trivial⟩
    · simp only [hc, if_false]
      rcases ih with ⟨h1, h2⟩ | ⟨h1, h2⟩
      · left
        rw [h2]
        refine ⟨?_, rfl⟩
        intro x hx p hpa he
        rcases List.mem_cons.1 hx with rfl | hx
        · by_contra hne
          exact hc ⟨p, hpa, he, by simpa using hne⟩
        · exact h1 x hx p hpa he
      · right
        rw [h2]
        obtain ⟨x, hx, h⟩ := h1
        exact ⟨⟨x, List.mem_cons_of_mem _ hx, h⟩, rfl⟩

/-- Collection and filtering for ordinary plates: either the plates of the arguments agree and the
collected list is kept as it is, or they conflict and ValueError is raised. -/
theorem collect_plain (a : Args α) (hp : PlainArgs a) :
    (NoConflict a ∧ filterPlates (collectArgs a).1.plates (collectArgs a).1.plates =
        .ok (collectArgs a).1.plates ∧ ((collectArgs a).1.plates.map Plate.name).Nodup) ∨
    (¬ NoConflict a ∧ filterPlates (collectArgs a).1.plates (collectArgs a).1.plates =
        .error .value) := by
  obtain ⟨⟨h1, h2⟩, _⟩ := collectArgs_spec a
  set R := (collectArgs a).1.plates with hR
  have hmem : ∀ p, p ∈ a.tensors.flatMap STen.plates ↔ ∃ t ∈ a.tensors, p ∈ t.plates := by simp
  have hk : ∀ p ∈ R, p.kind = .plain := by
    intro p hpR
    obtain ⟨t, ht, hpt⟩ := (hmem p).1 (h2.sub.subset hpR)
    exact hp t ht p hpt
  rcases filterPlates_plain R R hk with ⟨h3, h4⟩ | ⟨h3, h4⟩
  · left
    refine ⟨?_, h4, ?_⟩
    · intro t ht t' ht' p hpt q hqt he
      obtain ⟨p', hp', hpe⟩ := h2.complete p ((hmem p).2 ⟨t, ht, hpt⟩)
      obtain ⟨q', hq', hqe⟩ := h2.complete q ((hmem q).2 ⟨t', ht', hqt⟩)
      have := h3 q' hq' p' hp' (by rw [Plate.pyEq_name hpe, Plate.pyEq_name hqe, he])
      exact Plate.pyEq_trans (Plate.pyEq_symm hpe) (Plate.pyEq_trans this hqe)
    · rw [List.Nodup, List.pairwise_map]
      refine h2.distinct.imp_of_mem ?_
      intro p q hpm hqm hne he
      rw [h3 q hqm p hpm he] at hne
      cases hne
  · right
    refine ⟨?_, h4⟩
    intro hc
    obtain ⟨s, hs, p, hpm, hn, hne⟩ := h3
    obtain ⟨t, ht, hst⟩ := (hmem s).1 (h2.sub.subset hs)
    obtain ⟨t', ht', hpt⟩ := (hmem p).1 (h2.sub.subset hpm)
    rw [hc t' ht' t ht p hpt s hst hn] at hne
    cases hne

/-! ### C04 -/

/-- C04: whenever `_prepare_args` succeeds (for any options), the recorded parents are exactly the
storch tensors among the arguments, at any nesting depth and in order, and the collected plates have
different names, contain (an equal of) every plate of every storch argument, and are listed in the
order of first occurrence. -/
theorem C04_collected (hook : UnwrapHook α) (cfg : WCfg) (a : Args α) (hp : PlainArgs a) (p : Prep α)
    (h : prepareArgs hook cfg a = .ok p) :
    p.parents = a.tensors ∧ (p.plates.map Plate.name).Nodup ∧ FirstOcc p.plates a.allPlates := by
  obtain ⟨⟨h1, h2⟩, _⟩ := collectArgs_spec a
  rw [prepareArgs] at h
  rcases collect_plain a hp with ⟨_, h4, h5⟩ | ⟨_, h4⟩
  · simp only [h4] at h
    split at h
    · simp at h
    · split at h
      · simp at h
      · split at h
        · split at h
          · simp at h
          · split at h
            · simp at h
            · injection h with h
              subst h
              exact ⟨h1, h5, h2⟩
        · injection h with h
          subst h
          exact ⟨h1, h5, h2⟩
  · simp only [h4] at h
    cases h

/-- C04: if two storch arguments carry plates of the same name that are not equal, the call raises
ValueError. -/
theorem C04_conflict_raises (hook : UnwrapHook α) (ign : Bool) (cfg : WCfg) (fn : Fn α) (a : Args α)
    (hp : PlainArgs a)
    (t t' : STen α) (ht : t ∈ a.tensors) (ht' : t' ∈ a.tensors) (p q : Plate α) (hpt : p ∈ t.plates)
    (hqt : q ∈ t'.plates) (hname : p.name = q.name) (hne : p.pyEq q = false) :
    prepareArgs hook cfg a = .error .value ∧ handleDet hook false ign cfg fn a = .error .value := by
  have : prepareArgs hook cfg a = .error .value := by
    rw [prepareArgs]
    rcases collect_plain a hp with ⟨h3, _⟩ | ⟨_, h4⟩
    · rw [h3 t ht t' ht' p hpt q hqt hname] at hne
      cases hne
    · simp only [h4]
  refine ⟨this, ?_⟩
  rw [handleDet, this]
  simp

/-- C04: plates that agree are never rejected by the collection. -/
theorem C04_no_false_conflict (a : Args α) (hp : PlainArgs a) (hc : NoConflict a) :
    filterPlates (collectArgs a).1.plates (collectArgs a).1.plates = .ok (collectArgs a).1.plates := by
  rcases collect_plain a hp with ⟨_, h, _⟩ | ⟨h, _⟩
  · exact h
  · exact absurd hc h

/-! ### Ancestral plates -/

/-- `q` is an ancestral plate made later than the ancestral plate `p`. -/
def NewerThan (q p : Plate α) : Prop := ∃ i j, p.kind = .anc i ∧ q.kind = .anc j ∧ i < j

theorem onCollecting_anc (self : Plate α) (all : List (Plate α))
    (hp : ∀ p ∈ all, p.name = self.name → p.pyEq self = false →
      ∃ i j, p.kind = .anc i ∧ self.kind = .anc j) :
    ∃ b, self.onCollecting all = .ok b ∧ (b = true ↔
      ∀ p ∈ all, p.name = self.name → p.pyEq self = true ∨ NewerThan self p) := by
  induction all with
  | nil => exact ⟨true, rfl, by simp⟩
  | cons p ps ih =>
    obtain ⟨b, h1, h2⟩ := ih (fun x hx => hp x (List.mem_cons_of_mem _ hx))
    rw [Plate.onCollecting]
    by_cases hc : p.name = self.name ∧ p.pyEq self = false
    · rw [if_pos (by simp [hc.1, hc.2])]
      obtain ⟨i, j, hi, hj⟩ := hp p (by simp) hc.1 hc.2
      by_cases hij : i < j
      · simp only [Plate.onDuplicate, hi, hj, hij, decide_true]
        refine ⟨b, h1, h2.trans ?_⟩
        simp only [List.forall_mem_cons]
        exact ⟨fun h => ⟨fun _ => Or.inr ⟨i, j, hi, hj, hij⟩, h⟩, fun h => h.2⟩
      · simp only [Plate.onDuplicate, hi, hj, hij, decide_false]
        refine ⟨false, rfl, ?_⟩
        simp only [Bool.false_eq_true, false_iff]
        intro h
        rcases h p (by simp) hc.1 with h | ⟨i', j', hi', hj', hlt⟩
        · rw [hc.2] at h; cases h
        · rw [hi] at hi'; rw [hj] at hj'
          injection hi' with hi'; injection hj' with hj'
          subst hi' hj'
          exact hij hlt
    · have hb : ¬ ((p.name == self.name && !p.pyEq self) = true) := by simpa using hc
      rw [if_neg hb]
      refine ⟨b, h1, h2.trans ?_⟩
      simp only [List.forall_mem_cons]
      refine ⟨fun h => ⟨fun hn => Or.inl ?_, h⟩, fun h => h.2⟩
      by_contra hne
      exact hc ⟨hn, by simpa using hne⟩

theorem filterPlates_anc (all ps : List (Plate α))
    (hp : ∀ s ∈ ps, ∀ p ∈ all, p.name = s.name → p.pyEq s = false →
      ∃ i j, p.kind = .anc i ∧ s.kind = .anc j) :
    ∃ r, filterPlates all ps = .ok r ∧ r.Sublist ps ∧ ∀ s ∈ ps, (s ∈ r ↔
      ∀ p ∈ all, p.name = s.name → p.pyEq s = true ∨ NewerThan s p) := by
  induction ps with
  | nil => exact ⟨[], rfl, by simp, by simp⟩
  | cons s ps ih =>
    obtain ⟨b, h1, h2⟩ := onCollecting_anc s all (hp s (by simp))
    obtain ⟨r, h3, h4, h5⟩ := ih (fun x hx => hp x (List.mem_cons_of_mem _ hx))
    rw [filterPlates, h1, h3]
    simp only
    cases b with
    | true =>
      refine ⟨_, rfl, by simpa using h4.cons_cons s, ?_⟩
      intro x hx
      simp only [if_true]
      rcases List.mem_cons.1 hx with rfl | hx
      · exact ⟨fun _ => h2.1 rfl, fun _ => by simp⟩
      · constructor
        · intro hxr
          rcases List.mem_cons.1 hxr with rfl | hxr
          · exact h2.1 rfl
          · exact (h5 x hx).1 hxr
        · intro h
          exact List.mem_cons_of_mem _ ((h5 x hx).2 h)
    | false =>
      refine ⟨_, rfl, by simpa using h4.cons s, ?_⟩
      intro x hx
      simp only [Bool.false_eq_true, if_false]
      rcases List.mem_cons.1 hx with rfl | hx
      · constructor
        · intro hxr
          exact (h5 x (h4.subset hxr)).1 hxr
        · intro h
          exact absurd (h2.2 h) (by simp)
      · exact h5 x hx

/-- C04, ancestral plates (a sequence decoder makes a new one, of the same name, at every step): when
plates of the same name that differ are always ancestral, no ValueError is raised, and of the plates of a
name exactly those are kept that are newer than all differing others; so the newest survives. -/
theorem C04_newest_survives (a : Args α)
    (hc : ∀ p ∈ a.allPlates, ∀ q ∈ a.allPlates, p.name = q.name → p.pyEq q = false →
      ∃ i j, p.kind = .anc i ∧ q.kind = .anc j) :
    ∃ r, filterPlates (collectArgs a).1.plates (collectArgs a).1.plates = .ok r ∧
      r.Sublist a.allPlates ∧ (r.map Plate.name).Nodup ∧
      (∀ s ∈ r, ∀ p ∈ a.allPlates, p.name = s.name → p.pyEq s = true ∨ NewerThan s p) ∧
      ∀ s ∈ a.allPlates, (∀ p ∈ a.allPlates, p.name = s.name → p.pyEq s = true ∨ NewerThan s p) →
        ∃ s' ∈ r, s'.pyEq s = true := by
  obtain ⟨⟨h1, h2⟩, _⟩ := collectArgs_spec a
  set R := (collectArgs a).1.plates with hR
  obtain ⟨r, h3, h4, h5⟩ := filterPlates_anc R R (fun s hs p hp he hne =>
    hc p (h2.sub.subset hp) s (h2.sub.subset hs) he hne)
  have hkind : ∀ {x y : Plate α}, x.pyEq y = true → x.kind = y.kind := by
    intro x y h
    simp only [Plate.pyEq, Plate.eqMethod] at h
    cases hx : x.kind <;> cases hy : y.kind <;> rw [hx, hy] at h <;> simp at h ⊢
    exact h.2
  have hup : ∀ s ∈ R, (∀ p ∈ R, p.name = s.name → p.pyEq s = true ∨ NewerThan s p) →
      ∀ p ∈ a.allPlates, p.name = s.name → p.pyEq s = true ∨ NewerThan s p := by
    intro s _ h p hp hn
    obtain ⟨p', hp', he⟩ := h2.complete p hp
    rcases h p' hp' ((Plate.pyEq_name he).trans hn) with h | ⟨i, j, hi, hj, hij⟩
    · exact Or.inl (Plate.pyEq_trans (Plate.pyEq_symm he) h)
    · exact Or.inr ⟨i, j, by rw [← hkind he]; exact hi, hj, hij⟩
  refine ⟨r, h3, h4.trans h2.sub, ?_, ?_, ?_⟩
  · rw [List.Nodup, List.pairwise_map]
    refine (h2.distinct.sublist h4).imp_of_mem ?_
    intro p q hpm hqm hne he
    rcases (h5 q (h4.subset hqm)).1 hqm p (h4.subset hpm) he with h | ⟨i, j, hi, hj, hij⟩
    · rw [h] at hne; cases hne
    · rcases (h5 p (h4.subset hpm)).1 hpm q (h4.subset hqm) he.symm with h | ⟨i', j', hi', hj', hij'⟩
      · rw [Plate.pyEq_symm h] at hne; cases hne
      · rw [hi] at hj'; rw [hj] at hi'
        injection hj' with hj'; injection hi' with hi'
        omega
  · intro s hs
    exact hup s (h4.subset hs) ((h5 s (h4.subset hs)).1 hs)
  · intro s hs h
    obtain ⟨s', hs', he⟩ := h2.complete s hs
    refine ⟨s', (h5 s' hs').2 ?_, he⟩
    intro p hp hn
    rcases h p (h2.sub.subset hp) (hn.trans (Plate.pyEq_name he)) with h | ⟨i, j, hi, hj, hij⟩
    · exact Or.inl (Plate.pyEq_trans h (Plate.pyEq_symm he))
    · exact Or.inr ⟨i, j, hi, by rw [hkind he]; exact hj, hij⟩

section Examples
private def exT (n : Nat) : Ten Int := ⟨[n], fun l => (l.headD 0 : Int)⟩
private def exPl (s : String) (n : Nat) : Plate Int := .mk s n (.torch (.scalar 1)) .plain []
private def exA : STen Int := ⟨⟨[2, 3], fun _ => 1⟩, [exPl "x" 2, exPl "y" 3], 2⟩
private def exB : STen Int := ⟨⟨[3, 2], fun _ => 1⟩, [exPl "y" 3, exPl "x" 2], 2⟩
private def exC : STen Int := ⟨⟨[4], fun _ => 1⟩, [exPl "x" 4], 1⟩

/-- A nested call `f([a, {"k": b}], t)` meets the hypotheses; two plates are collected. -/
example : let a : Args Int := ⟨[.lst [.st exA false, .dict ["k"] [.st exB false]], .torch (exT 2)], []⟩
    PlainArgs a ∧ NoConflict a ∧
      (collectArgs a).1.plates.map Plate.name = ["x", "y"] := by
  refine ⟨?_, ?_, rfl⟩
  · intro t ht p hp
    simp [Args.tensors, tensorsL, Val.tensors] at ht
    rcases ht with rfl | rfl <;> simp [exA, exB, exPl] at hp <;> rcases hp with rfl | rfl <;> rfl
  · intro t ht t' ht' p hp q hq he
    simp [Args.tensors, tensorsL, Val.tensors] at ht ht'
    have : ∀ t, t = exA ∨ t = exB → ∀ p ∈ t.plates, p = exPl "x" 2 ∨ p = exPl "y" 3 := by
      rintro t (rfl | rfl) p hp <;> simp [exA, exB] at hp <;> tauto
    rcases this t ht p hp with rfl | rfl <;> rcases this t' ht' q hq with rfl | rfl
    · rfl
    · exact absurd he (by decide)
    · exact absurd he (by decide)
    · rfl

/-- A conflicting call, a case for `C04_conflict_raises`: plate `x` of size 2 and of size 4. -/
example : (exPl "x" 2).pyEq (exPl "x" 4) = false ∧
    (match collectArgs (⟨[.st exA false, .st exC false], []⟩ : Args Int) with
     | (c, _) => filterPlates c.plates c.plates) = .error .value := ⟨rfl, rfl⟩

private def exAnc (i n : Nat) : Plate Int := .mk "z" n (.torch (.scalar 1)) (.anc i) []

/-- Of the second and the fifth plate of a decoder the fifth is kept; the hypothesis of
`C04_newest_survives` holds. -/
example : let a : Args Int := ⟨[.st ⟨⟨[2], fun _ => 1⟩, [exAnc 1 2], 1⟩ false,
      .st ⟨⟨[3, 2], fun _ => 1⟩, [exAnc 4 3, exPl "x" 2], 2⟩ false], []⟩
    (∀ p ∈ a.allPlates, ∀ q ∈ a.allPlates, p.name = q.name → p.pyEq q = false →
      ∃ i j, p.kind = .anc i ∧ q.kind = .anc j) ∧
    (filterPlates (collectArgs a).1.plates (collectArgs a).1.plates).map (List.map Plate.kind) =
      .ok [.anc 4, .plain] := by
  refine ⟨?_, rfl⟩
  intro p hp q hq he hne
  simp [Args.allPlates, Args.tensors, tensorsL, Val.tensors] at hp hq
  rcases hp with rfl | rfl | rfl <;> rcases hq with rfl | rfl | rfl
  all_goals first
    | exact ⟨_, _, rfl, rfl⟩
    | exact absurd he (by decide)
    | exact absurd hne (by decide)
end Examples

end Storch
