import Mathlib.Data.List.Nodup
import Verif.Lemmas.OrderPlatesLemmas

/-! Loop invariants of `order_plates`: soundness on every list with distinct names, and completeness on
parent-closed lists. -/

namespace Storch
variable {α : Type _} [ValEq α]

omit [ValEq α] in
theorem eq_of_name_eq {ps : List (Plate α)} (hn : (ps.map Plate.name).Nodup) {p q : Plate α}
    (hp : p ∈ ps) (hq : q ∈ ps) (h : p.name = q.name) : p = q :=
  List.inj_on_of_nodup_map hn hp hq h

/-- Soundness invariant of the `while` loop: `S` is the output so far, `T` the stack. -/
structure OInv (ps S T : List (Plate α)) (inE : Edges α) : Prop where
  sub : ∀ p ∈ S ++ T, p ∈ ps
  nodup : ((S ++ T).map Plate.name).Nodup
  rem : ∀ p ∈ ps, ∃ r, dget inE p.name = some r ∧ r.Sublist p.parents ∧
    ∀ q ∈ p.parents, q ∈ r ∨ q.isIn S = true
  ready : ∀ p ∈ S ++ T, isRoot ps p = true ∨ dget inE p.name = some []
  top : ∀ p ∈ T, ∀ q ∈ p.parents, q.isIn ps = true → q.isIn S = true
  sorted : ∀ S1 p S2, S = S1 ++ p :: S2 → ∀ q ∈ p.parents, q.isIn ps = true → q.isIn S1 = true
  keys : (inE.map Prod.fst).Nodup ∧ ∀ k ∈ inE.map Prod.fst, k ∈ ps.map Plate.name

theorem keys_fold (plates ps : List (Plate α)) (st : OrdSt α)
    (h : (st.inE.map Prod.fst).Nodup ∧ ∀ k ∈ st.inE.map Prod.fst, k ∈ plates.map Plate.name)
    (hs : ∀ p ∈ ps, p ∈ plates) :
    ((ps.foldl (ordInit1 plates) st).inE.map Prod.fst).Nodup ∧
      ∀ k ∈ (ps.foldl (ordInit1 plates) st).inE.map Prod.fst, k ∈ plates.map Plate.name := by
  induction ps generalizing st with
  | nil => exact h
  | cons p ps ih =>
    simp only [List.foldl_cons]
    apply ih
    · refine ⟨nodup_keys_dset _ _ h.1, ?_⟩
      intro k hk
      simp only [ordInit1, keys_dset] at hk
      split_ifs at hk
      · exact h.2 k hk
      · rcases List.mem_append.1 hk with hk | hk
        · exact h.2 k hk
        · simp only [List.mem_singleton] at hk
          subst hk
          exact List.mem_map_of_mem (hs p (by simp))
    · exact fun q hq => hs q (List.mem_cons_of_mem _ hq)

theorem OInv.init {ps : List (Plate α)} (hn : (ps.map Plate.name).Nodup) :
    OInv ps [] (ordInit ps).roots (ordInit ps).inE := by
  have hr := ordInit_roots ps
  have hmem : ∀ p ∈ (ordInit ps).roots, p ∈ ps ∧ isRoot ps p = true := by
    intro p hp; rw [hr] at hp; simpa using hp
  refine ⟨?_, ?_, ?_, ?_, ?_, ?_, ?_⟩
  · intro p hp; exact (hmem p (by simpa using hp)).1
  · rw [hr]
    simp only [List.nil_append, List.map_reverse, List.nodup_reverse]
    exact hn.sublist (List.filter_sublist.map _)
  · intro p hp
    exact ⟨_, ordInit_in hn hp, List.Sublist.refl _, fun q hq => Or.inl hq⟩
  · intro p hp; exact Or.inl (hmem p (by simpa using hp)).2
  · intro p hp q hq hi
    rw [isRoot_parents (hmem p hp).2 q hq] at hi
    cases hi
  · intro S1 p S2 h; simp at h
  · exact keys_fold ps ps _ (by simp) (fun _ h => h)

theorem OInv.push {ps S T : List (Plate α)} {inE : Edges α} {n : Plate α}
    (h : OInv ps S (n :: T) inE) : OInv ps (S ++ [n]) T inE := by
  have e : S ++ n :: T = (S ++ [n]) ++ T := by simp
  refine ⟨?_, ?_, ?_, ?_, ?_, ?_, h.keys⟩
  · rw [← e]; exact h.sub
  · rw [← e]; exact h.nodup
  · intro p hp
    obtain ⟨r, h1, h2, h3⟩ := h.rem p hp
    refine ⟨r, h1, h2, fun q hq => (h3 q hq).imp id ?_⟩
    exact Plate.isIn_mono (fun x hx => List.mem_append_left _ hx)
  · rw [← e]; exact h.ready
  · intro p hp q hq hi
    exact Plate.isIn_mono (fun x hx => List.mem_append_left _ hx)
      (h.top p (List.mem_cons_of_mem _ hp) q hq hi)
  · intro S1 p S2 he q hq hi
    rcases List.eq_nil_or_concat' S2 with rfl | ⟨S3, x, rfl⟩
    · have he' : S ++ [n] = S1 ++ [p] := by simpa using he
      obtain ⟨rfl, hx⟩ := List.append_inj' he' rfl
      simp only [List.cons.injEq, and_true] at hx
      subst hx
      exact h.top n (by simp) q hq hi
    · have he' : S ++ [n] = (S1 ++ p :: S3) ++ [x] := by simpa using he
      obtain ⟨h1, _⟩ := List.append_inj' he' rfl
      exact h.sorted S1 p S3 h1 q hq hi

theorem OInv.relax {ps S T T' : List (Plate α)} {inE inE' : Edges α} {n : Plate α}
    {ms : List (Plate α)} (hn : (ps.map Plate.name).Nodup)
    (hnS : n ∈ S) (hms : ∀ m ∈ ms, m ∈ ps)
    (h : OInv ps S T inE) (hr : ordRelax n ms T inE = .ok (T', inE')) : OInv ps S T' inE' := by
  induction ms generalizing T inE with
  | nil =>
    simp only [ordRelax, Except.ok.injEq, Prod.mk.injEq] at hr
    obtain ⟨rfl, rfl⟩ := hr
    exact h
  | cons m ms ih =>
    have hm : m ∈ ps := hms m (by simp)
    obtain ⟨r, h1, h2, h3⟩ := h.rem m hm
    simp only [ordRelax, h1] at hr
    cases hrm : removeBy Plate.pyEq n r with
    | none => simp [hrm] at hr
    | some r' =>
      simp only [hrm] at hr
      refine ih (fun x hx => hms x (List.mem_cons_of_mem _ hx)) ?_ hr
      obtain ⟨a, y, b, rfl, rfl, hy, _⟩ := removeBy_eq_some hrm
      have hyp : y ∈ m.parents := h2.subset (by simp)
      have hyps : y.isIn ps = true :=
        Plate.isIn_iff.2 ⟨n, h.sub n (List.mem_append_left _ hnS), Plate.pyEq_symm hy⟩
      have hmST : m ∉ S ++ T := by
        intro hmem
        rcases h.ready m hmem with h4 | h4
        · rw [isRoot_parents h4 y hyp] at hyps; cases hyps
        · rw [h1] at h4; simp at h4
      have hrem : ∀ p ∈ ps, ∃ r, dget (dset inE m.name (a ++ b)) p.name = some r ∧
          r.Sublist p.parents ∧ ∀ q ∈ p.parents, q ∈ r ∨ q.isIn S = true := by
        intro p hp
        by_cases hpm : p = m
        · subst hpm
          refine ⟨a ++ b, by rw [dget_dset]; simp, ?_, ?_⟩
          · exact List.Sublist.trans (by simp) h2
          · intro q hq
            rcases h3 q hq with h5 | h5
            · simp only [List.mem_append, List.mem_cons] at h5 ⊢
              rcases h5 with h5 | rfl | h5
              · exact Or.inl (Or.inl h5)
              · exact Or.inr (Plate.isIn_iff.2 ⟨n, hnS, Plate.pyEq_symm hy⟩)
              · exact Or.inl (Or.inr h5)
            · exact Or.inr h5
        · have hne : m.name ≠ p.name := fun e => hpm (eq_of_name_eq hn hm hp e).symm
          rw [dget_dset, if_neg hne]
          exact h.rem p hp
      have hready : ∀ p ∈ S ++ T,
          isRoot ps p = true ∨ dget (dset inE m.name (a ++ b)) p.name = some [] := by
        intro p hp
        have hpm : p ≠ m := fun e => hmST (e ▸ hp)
        have hne : m.name ≠ p.name := fun e => hpm (eq_of_name_eq hn hm (h.sub p hp) e).symm
        rw [dget_dset, if_neg hne]
        exact h.ready p hp
      have hkeys : ((dset inE m.name (a ++ b)).map Prod.fst).Nodup ∧
          ∀ k ∈ (dset inE m.name (a ++ b)).map Prod.fst, k ∈ ps.map Plate.name := by
        refine ⟨nodup_keys_dset _ _ h.keys.1, ?_⟩
        intro k hk
        rw [keys_dset] at hk
        split_ifs at hk
        · exact h.keys.2 k hk
        · rcases List.mem_append.1 hk with hk | hk
          · exact h.keys.2 k hk
          · simp only [List.mem_singleton] at hk
            subst hk
            exact List.mem_map_of_mem hm
      by_cases hemp : (a ++ b).isEmpty = true
      · simp only [hemp, if_true]
        have hab : a ++ b = [] := by simpa using hemp
        have hperm : (S ++ m :: T).Perm (m :: (S ++ T)) := List.perm_middle
        refine ⟨?_, ?_, hrem, ?_, ?_, h.sorted, hkeys⟩
        · intro p hp
          rcases List.mem_cons.1 (hperm.mem_iff.1 hp) with rfl | hp
          · exact hm
          · exact h.sub p hp
        · rw [(hperm.map Plate.name).nodup_iff, List.map_cons, List.nodup_cons]
          refine ⟨?_, h.nodup⟩
          intro hc
          obtain ⟨x, hx, hxm⟩ := List.mem_map.1 hc
          exact hmST (eq_of_name_eq hn (h.sub x hx) hm hxm ▸ hx)
        · intro p hp
          rcases List.mem_cons.1 (hperm.mem_iff.1 hp) with rfl | hp
          · right; rw [dget_dset]; simp [hab]
          · exact hready p hp
        · intro p hp q hq hi
          rcases List.mem_cons.1 hp with rfl | hp
          · obtain ⟨r, h6, _, h7⟩ := hrem p hm
            rw [dget_dset] at h6
            simp only [if_true, Option.some.injEq] at h6
            subst h6
            rcases h7 q hq with h8 | h8
            · rw [hab] at h8; simp at h8
            · exact h8
          · exact h.top p hp q hq hi
      · simp only [hemp, Bool.false_eq_true, if_false]
        exact ⟨h.sub, h.nodup, hrem, hready, h.top, h.sorted, hkeys⟩

theorem ordRelax_not_key {ps T : List (Plate α)} {inE : Edges α} {n : Plate α}
    {ms : List (Plate α)} (hms : ∀ m ∈ ms, m ∈ ps)
    (h : ∀ p ∈ ps, ∃ r, dget inE p.name = some r) :
    ordRelax n ms T inE ≠ .error .key := by
  induction ms generalizing T inE with
  | nil => simp [ordRelax]
  | cons m ms ih =>
    obtain ⟨r, h1⟩ := h m (hms m (by simp))
    simp only [ordRelax, h1]
    cases hrm : removeBy Plate.pyEq n r with
    | none => simp
    | some r' =>
      simp only
      apply ih (fun x hx => hms x (List.mem_cons_of_mem _ hx))
      intro p hp
      rw [dget_dset]
      split_ifs
      · exact ⟨_, rfl⟩
      · exact h p hp

theorem ordLoop_inv {ps : List (Plate α)} (hn : (ps.map Plate.name).Nodup) (fuel : Nat)
    {S T : List (Plate α)} {inE : Edges α} (h : OInv ps S T inE) :
    (∀ S' inE', ordLoop ps (ordInit ps).outE fuel T inE S = .ok (S', inE') → OInv ps S' [] inE') ∧
    ordLoop ps (ordInit ps).outE fuel T inE S ≠ .error .key := by
  induction fuel generalizing S T inE with
  | zero => simp [ordLoop]
  | succ fuel ih =>
    cases T with
    | nil =>
      simp only [ordLoop]
      refine ⟨?_, by simp⟩
      intro S' inE' he
      simp only [Except.ok.injEq, Prod.mk.injEq] at he
      obtain ⟨rfl, rfl⟩ := he
      exact h
    | cons n T =>
      have hnps : n ∈ ps := h.sub n (by simp)
      simp only [ordLoop, Plate.isIn_of_mem hnps, if_true,
        ordInit_out (List.mem_map_of_mem (f := Plate.name) hnps)]
      have hms : ∀ m ∈ outOf ps n.name, m ∈ ps := fun m hm => (mem_outOf.1 hm).1
      have hp := h.push
      cases hr : ordRelax n (outOf ps n.name) T inE with
      | error e =>
        refine ⟨by simp, ?_⟩
        have := ordRelax_not_key (T := T) (inE := inE) (n := n) hms
          (fun p hp => by obtain ⟨r, h1, _⟩ := h.rem p hp; exact ⟨r, h1⟩)
        rw [hr] at this
        simpa using this
      | ok x =>
        obtain ⟨T', inE'⟩ := x
        simp only
        exact ih (hp.relax hn (by simp) hms hr)

/-! ### Completeness on parent-closed lists -/

theorem relax_block {n m : Plate α} (c : Nat) {ms T r : List (Plate α)} {inE : Edges α}
    (h : dget inE m.name = some r) (hc : r.countP (fun q => q.pyEq n) = c) :
    ∃ inE', (∀ k, dget inE' k = dget (dset inE m.name (r.filter (fun q => !q.pyEq n))) k) ∧
      ordRelax n (List.replicate c m ++ ms) T inE =
      ordRelax n ms
        (if 0 < c ∧ r.filter (fun q => !q.pyEq n) = [] then m :: T else T) inE' := by
  induction c generalizing T r inE with
  | zero =>
    refine ⟨inE, ?_, by simp⟩
    intro k
    rw [dget_dset]
    have : r.filter (fun q => !q.pyEq n) = r := by
      rw [List.filter_eq_self]
      intro a ha
      have := (List.countP_eq_zero.1 hc) a ha
      simpa using this
    rw [this]
    split_ifs with hk
    · rw [← hk, h]
    · rfl
  | succ c ih =>
    rw [List.replicate_succ, List.cons_append]
    simp only [ordRelax, h]
    cases hrm : removeBy Plate.pyEq n r with
    | none =>
      have := removeBy_eq_none.1 hrm
      have : r.countP (fun q => q.pyEq n) = 0 := by
        rw [List.countP_eq_zero]; intro a ha; simp [this a ha]
      omega
    | some r' =>
      obtain ⟨a, y, b, rfl, rfl, hy, ha⟩ := removeBy_eq_some hrm
      simp only
      have hc' : (a ++ b).countP (fun q => q.pyEq n) = c := by
        simp only [List.countP_append, List.countP_cons, hy, if_true] at hc ⊢
        omega
      have hf : (a ++ y :: b).filter (fun q => !q.pyEq n) =
          (a ++ b).filter (fun q => !q.pyEq n) := by simp [hy]
      have hg : dget (dset inE m.name (a ++ b)) m.name = some (a ++ b) := by
        rw [dget_dset]; simp
      obtain ⟨inE', h1, h2⟩ := ih (T := if (a ++ b).isEmpty then m :: T else T) hg hc'
      refine ⟨inE', ?_, ?_⟩
      · intro k
        rw [h1 k, dget_dset, dget_dset, dget_dset, hf]
        split_ifs <;> rfl
      · rw [h2, hf]
        congr 1
        by_cases hemp : (a ++ b) = []
        · have : c = 0 := by rw [← hc', hemp]; rfl
          simp [hemp, this]
        · have he : (a ++ b).isEmpty = false := by
            rw [List.isEmpty_eq_false_iff]; exact hemp
          simp only [he, Bool.false_eq_true, if_false, Nat.succ_pos, true_and]
          by_cases h0 : 0 < c
          · simp [h0]
          · have : c = 0 := by omega
            subst this
            have : (a ++ b).filter (fun q => !q.pyEq n) = a ++ b := by
              rw [List.filter_eq_self]
              intro x hx
              have := (List.countP_eq_zero.1 hc') x hx
              simpa using this
            rw [this]
            simp [hemp]

/-- Every plate of the list either has all its parents in the list, or none of its ancestors and no
plate named like one of its parents. -/
def PGood (ps : List (Plate α)) : Prop := ∀ p ∈ ps,
  (∀ q ∈ p.parents, q.isIn ps = true) ∨
  (isRoot ps p = true ∧ ∀ q ∈ p.parents, ∀ x ∈ ps, x.name ≠ q.name)

theorem closed_name {ps : List (Plate α)} (hn : (ps.map Plate.name).Nodup) (hcl : PGood ps)
    {p q n : Plate α} (hp : p ∈ ps) (hq : q ∈ p.parents) (hnp : n ∈ ps) :
    q.name = n.name ↔ q.pyEq n = true := by
  constructor
  · intro h
    have hin : q.isIn ps = true := by
      rcases hcl p hp with h' | h'
      · exact h' q hq
      · exact absurd h.symm (h'.2 q hq n hnp)
    obtain ⟨x, hx, he⟩ := Plate.isIn_iff.1 hin
    have : x = n := eq_of_name_eq hn hx hnp (by rw [Plate.pyEq_name he, h])
    subst this
    exact Plate.pyEq_symm he
  · exact Plate.pyEq_name

/-- The parents of `p` that are not in `S`. -/
def wait (S : List (Plate α)) (p : Plate α) : List (Plate α) :=
  p.parents.filter (fun q => !q.isIn S)

theorem wait_append (S : List (Plate α)) (n p : Plate α) :
    wait (S ++ [n]) p = (wait S p).filter (fun q => !q.pyEq n) := by
  simp only [wait, List.filter_filter]
  congr 1
  funext q
  simp only [Plate.isIn, memBy, List.any_append, List.any_cons, List.any_nil, Bool.or_false,
    Bool.not_or]
  rw [Plate.pyEq_comm n q, Bool.and_comm]

/-- Exact invariant on parent-closed lists. -/
structure CInv (ps S T : List (Plate α)) (inE : Edges α) : Prop where
  rem : ∀ p ∈ ps, dget inE p.name = some (wait S p)
  comp : ∀ p ∈ ps, wait S p = [] ∨ isRoot ps p = true → p ∈ S ++ T

theorem relax_closed {ps S : List (Plate α)} (hn : (ps.map Plate.name).Nodup) (hcl : PGood ps)
    {n : Plate α} (hnp : n ∈ ps) (hnS : n.isIn S = false)
    (qs rs : List (Plate α)) (hps : ps = rs ++ qs) {T : List (Plate α)} {inE : Edges α}
    (h1 : ∀ p ∈ rs, dget inE p.name = some (wait (S ++ [n]) p))
    (h2 : ∀ p ∈ qs, dget inE p.name = some (wait S p))
    (h3 : ∀ p ∈ rs, wait (S ++ [n]) p = [] ∨ isRoot ps p = true → p ∈ (S ++ [n]) ++ T)
    (h4 : ∀ p ∈ qs, wait S p = [] ∨ isRoot ps p = true → p ∈ (S ++ [n]) ++ T) :
    ∃ T' inE', ordRelax n (outOf qs n.name) T inE = .ok (T', inE') ∧
      CInv ps (S ++ [n]) T' inE' := by
  induction qs generalizing rs T inE with
  | nil =>
    have : ps = rs := by simpa using hps
    subst this
    exact ⟨T, inE, rfl, h1, h3⟩
  | cons m qs ih =>
    have hm : m ∈ ps := by rw [hps]; simp
    have hcount : m.parents.countP (fun q => q.name = n.name) =
        (wait S m).countP (fun q => q.pyEq n) := by
      rw [wait, List.countP_filter]
      apply List.countP_congr
      intro q hq
      have hcn := closed_name hn hcl hm hq hnp
      simp only [decide_eq_true_eq, Bool.and_eq_true, Bool.not_eq_eq_eq_not, Bool.not_true]
      rw [hcn]
      constructor
      · intro hqn
        refine ⟨hqn, ?_⟩
        by_contra hc
        have hc : q.isIn S = true := by simpa using hc
        obtain ⟨x, hx, he⟩ := Plate.isIn_iff.1 hc
        have : n.isIn S = true := Plate.isIn_iff.2 ⟨x, hx, Plate.pyEq_trans he hqn⟩
        rw [hnS] at this; cases this
      · exact fun h => h.1
    have hout : outOf (m :: qs) n.name =
        List.replicate (m.parents.countP (fun q => q.name = n.name)) m ++ outOf qs n.name := by
      simp [outOf]
    obtain ⟨inE', hi, he⟩ := relax_block (n := n) (m := m) (T := T) (ms := outOf qs n.name)
      _ (h2 m (by simp)) hcount.symm
    rw [hout, he]
    set c := m.parents.countP (fun q => q.name = n.name) with hc
    rw [← wait_append] at hi ⊢
    have hnames : ∀ p ∈ rs ++ qs, m.name ≠ p.name := by
      intro p hp
      have hnd := hn
      rw [hps] at hnd
      have hpm := ((List.perm_middle (a := m) (l₁ := rs) (l₂ := qs)).map Plate.name).nodup_iff.1 hnd
      rw [List.map_cons, List.nodup_cons] at hpm
      intro e
      exact hpm.1 (e ▸ List.mem_map_of_mem hp)
    have hmono : ∀ {x}, x ∈ (S ++ [n]) ++ T → x ∈ (S ++ [n]) ++
        (if 0 < c ∧ wait (S ++ [n]) m = [] then m :: T else T) := by
      intro x hx
      rcases List.mem_append.1 hx with hx | hx
      · exact List.mem_append_left _ hx
      · apply List.mem_append_right
        split_ifs
        · exact List.mem_cons_of_mem _ hx
        · exact hx
    apply ih (rs ++ [m]) (by simp [hps])
    · intro p hp
      rw [hi, dget_dset]
      rcases List.mem_append.1 hp with hp | hp
      · rw [if_neg (hnames p (List.mem_append_left _ hp))]
        exact h1 p hp
      · simp only [List.mem_singleton] at hp
        subst hp
        simp
    · intro p hp
      rw [hi, dget_dset, if_neg (hnames p (List.mem_append_right _ hp))]
      exact h2 p (List.mem_cons_of_mem _ hp)
    · intro p hp hw
      rcases List.mem_append.1 hp with hp | hp
      · exact hmono (h3 p hp hw)
      · simp only [List.mem_singleton] at hp
        subst hp
        rcases hw with hw | hw
        swap
        · exact hmono (h4 p (by simp) (Or.inr hw))
        by_cases hc0 : 0 < c
        · rw [if_pos ⟨hc0, hw⟩]; simp
        · have h0 : (wait S p).countP (fun q => q.pyEq n) = 0 := by
            rw [← hcount]; omega
          have : wait (S ++ [n]) p = wait S p := by
            rw [wait_append, List.filter_eq_self]
            intro a ha
            have := (List.countP_eq_zero.1 h0) a ha
            simpa using this
          exact hmono (h4 p (by simp) (Or.inl (this ▸ hw)))
    · intro p hp hw
      exact hmono (h4 p (List.mem_cons_of_mem _ hp) hw)

theorem CInv.init {ps : List (Plate α)} (hn : (ps.map Plate.name).Nodup) :
    CInv ps [] (ordInit ps).roots (ordInit ps).inE := by
  have hw : ∀ p : Plate α, wait [] p = p.parents := by
    intro p
    rw [wait, List.filter_eq_self]
    intro q _
    simp [Plate.isIn, memBy]
  refine ⟨?_, ?_⟩
  · intro p hp; rw [hw]; exact ordInit_in hn hp
  · intro p hp h
    rw [hw] at h
    rw [ordInit_roots]
    rcases h with h | h
    · simp [hp, isRoot_of_no_parents h]
    · simp [hp, h]

theorem ordLoop_closed {ps : List (Plate α)} (hn : (ps.map Plate.name).Nodup) (hcl : PGood ps)
    (fuel : Nat) {S T : List (Plate α)} {inE : Edges α} (h : OInv ps S T inE) (hC : CInv ps S T inE) :
    (∀ S' inE', ordLoop ps (ordInit ps).outE fuel T inE S = .ok (S', inE') → CInv ps S' [] inE') ∧
    (∀ e, ordLoop ps (ordInit ps).outE fuel T inE S = .error e → e = .diverge) := by
  induction fuel generalizing S T inE with
  | zero => simp [ordLoop]
  | succ fuel ih =>
    cases T with
    | nil =>
      simp only [ordLoop]
      refine ⟨?_, by simp⟩
      intro S' inE' he
      simp only [Except.ok.injEq, Prod.mk.injEq] at he
      obtain ⟨rfl, rfl⟩ := he
      exact hC
    | cons n T =>
      have hnps : n ∈ ps := h.sub n (by simp)
      simp only [ordLoop, Plate.isIn_of_mem hnps, if_true,
        ordInit_out (List.mem_map_of_mem (f := Plate.name) hnps)]
      have hms : ∀ m ∈ outOf ps n.name, m ∈ ps := fun m hm => (mem_outOf.1 hm).1
      have hnS : n.isIn S = false := by
        by_contra hc
        have hc : n.isIn S = true := by simpa using hc
        obtain ⟨x, hx, he⟩ := Plate.isIn_iff.1 hc
        have hd := h.nodup
        rw [List.map_append, List.map_cons] at hd
        have := List.disjoint_of_nodup_append hd (List.mem_map_of_mem hx)
          (by rw [Plate.pyEq_name he]; simp)
        exact this
      have hS : ∀ {x}, x ∈ S ++ n :: T → x ∈ (S ++ [n]) ++ T := by intro x hx; simpa using hx
      obtain ⟨T', inE', h1, h2⟩ := relax_closed hn hcl hnps hnS ps [] rfl (T := T)
        (by simp) hC.rem (by simp) (fun p hp hw => hS (hC.comp p hp hw))
      rw [h1]
      simp only
      exact ih (h.push.relax hn (by simp) hms h1) h2

end Storch
