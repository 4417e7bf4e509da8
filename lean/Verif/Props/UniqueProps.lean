import Verif.Model.Unique
import Verif.Lemmas.PlateLemmas
import Verif.Lemmas.RavelLemmas
import Mathlib.Data.Finset.Image
import Mathlib.Data.Fintype.Card
import Mathlib.Data.List.GetD

/-!
# C62: `undo_unique` should restore the plates that `unique` removed
-/

namespace Storch
open Ten

variable {α : Type _}

/-- What torch promises of `torch.unique(tensor, return_inverse=True, dim=0)` for a tensor whose rows have elements: the
rows of the first result are distinct and are the rows of the tensor, the second result tells for every row where it is.
(The order of the rows, which torch sorts, is not needed.) -/
structure UniqueRows (fl uniq : Ten α) (inv : Ten Nat) : Prop where
  shape : ∃ n k rest, fl.shape = n :: rest ∧ uniq.shape = k :: rest ∧ inv.shape = [n] ∧
    (∀ i < n, inv.get [i] < k ∧ ∀ r, InB r rest → uniq.get (inv.get [i] :: r) = fl.get (i :: r)) ∧
    (∀ a < k, ∃ i < n, inv.get [i] = a) ∧
    ∀ a < k, ∀ b < k, (∀ r, InB r rest → uniq.get (a :: r) = uniq.get (b :: r)) → a = b

/-- `tu` is `torch.unique` along the first dimension: it succeeds when there is one and its rows have elements, and only
gives such results. -/
structure TorchUnique (tu : Ten α → Except Err (Ten α × Ten Nat)) : Prop where
  some : ∀ fl : Ten α, fl.shape ≠ [] → numel (fl.shape.drop 1) ≠ 0 → ∃ r, tu fl = .ok r
  rows : ∀ fl u inv, tu fl = .ok (u, inv) → UniqueRows fl u inv

section undo
variable [Zero α] [ValEq α]

theorem view_name (p : UPlate α) : p.view.name = p.name := by cases p <;> rfl

theorem view_n (p : UPlate α) : p.view.n = p.n := by cases p <;> rfl

theorem view_names (ps : List (UPlate α)) : (ps.map UPlate.view).map Plate.name = ps.map UPlate.name := by
  rw [List.map_map]
  exact List.map_congr_left (fun p _ => view_name p)

theorem utenMk_ok {t : Ten α} {ps : List (UPlate α)} {r : UTen α} (h : UTen.mk' t ps = .ok r) :
    r.plates = ps ∧ (ps.map UPlate.name).Nodup := by
  unfold UTen.mk' at h
  split at h
  · cases h
  · rename_i d hd
    cases h
    refine ⟨rfl, ?_⟩
    have := ((checkPlates_ok_iff _ _ _ _ _).1 hd).1
    rwa [view_names] at this

theorem bind_ok {β γ : Type _} {x : Except Err β} {f : β → Except Err γ} {r : γ} (h : (x >>= f) = .ok r) :
    ∃ b, x = .ok b ∧ f b = .ok r := by
  cases x with
  | error e => cases h
  | ok b => exact ⟨b, rfl, h⟩

theorem bind_error {β γ : Type _} {x : Except Err β} {f : β → Except Err γ} {e : Err} (h : (x >>= f) = .error e) :
    x = .error e ∨ ∃ b, x = .ok b ∧ f b = .error e := by
  cases x with
  | error e' => exact Or.inl (by cases h; rfl)
  | ok b => exact Or.inr ⟨b, rfl, h⟩

theorem undoPlate_ok {t : UTen α} {name : String} {sh : List (UPlate α)} {inv : Ten Nat} {r : UTen α}
    (h : t.undoPlate name sh inv = .ok r) :
    r.plates = sh ++ t.plates ∧ ((sh ++ t.plates).map UPlate.name).Nodup := by
  unfold UTen.undoPlate at h
  obtain ⟨_, _, h⟩ := bind_ok h
  obtain ⟨_, _, h⟩ := bind_ok h
  obtain ⟨_, _, h⟩ := bind_ok h
  obtain ⟨_, _, h⟩ := bind_ok h
  obtain ⟨_, _, h⟩ := bind_ok h
  exact utenMk_ok h

theorem undoPlate_error {t : UTen α} {name : String} {sh : List (UPlate α)} {inv : Ten Nat} {e : Err}
    (h : t.undoPlate name sh inv = .error e) : e ≠ .diverge := by
  unfold UTen.undoPlate at h
  rcases bind_error h with h | ⟨_, _, h⟩
  · unfold UTen.dimIndex at h
    split at h <;> cases h
    simp
  rcases bind_error h with h | ⟨_, _, h⟩
  · unfold UPlate.collect at h
    split at h <;> cases h
    simp
  rcases bind_error h with h | ⟨_, _, h⟩
  · unfold Ten.transpose at h
    split at h <;> cases h
    simp
  rcases bind_error h with h | ⟨_, _, h⟩
  · unfold Ten.indexSelect at h
    repeat' split at h
    all_goals cases h
    all_goals simp
  rcases bind_error h with h | ⟨_, _, h⟩
  · unfold Ten.reshape at h
    split at h <;> cases h
    simp
  · unfold UTen.mk' at h
    split at h
    · rename_i e' he
      cases h
      rw [checkPlates_error _ _ _ _ he]
      simp
    · cases h

/-- One pass adds the shrunken plates of every `UniquePlate` in front, and keeps the `UniquePlate`s. -/
theorem undoFor_ok : ∀ (ps : List (UPlate α)) {t r : UTen α}, UTen.undoFor ps t = .ok r →
    ∃ pre, r.plates = pre ++ t.plates ∧ (∀ name n sh inv, .uniq name n sh inv ∈ ps → ∀ q ∈ sh, q ∈ pre) ∧
      (ps.any UPlate.isUniq = true → (r.plates.map UPlate.name).Nodup)
  | [], t, r, h => by
    cases h
    refine ⟨[], rfl, ?_, ?_⟩
    · intro _ _ _ _ h
      cases h
    · intro h
      cases h
  | .base p :: ps, t, r, h => by
    obtain ⟨pre, h1, h2, h3⟩ := undoFor_ok ps (t := t) h
    refine ⟨pre, h1, fun name n sh inv hm => ?_, ?_⟩
    · rcases List.mem_cons.1 hm with hm | hm
      · cases hm
      · exact h2 name n sh inv hm
    · simpa [UPlate.isUniq] using h3
  | .uniq name n sh inv :: ps, t, r, h => by
    unfold UTen.undoFor at h
    obtain ⟨t', ht, h⟩ := bind_ok h
    obtain ⟨p1, p2⟩ := undoPlate_ok ht
    obtain ⟨pre, h1, h2, h3⟩ := undoFor_ok ps h
    refine ⟨pre ++ sh, by rw [h1, p1, List.append_assoc], fun name' n' sh' inv' hm q hq => ?_, fun _ => ?_⟩
    · rcases List.mem_cons.1 hm with hm | hm
      · cases hm
        exact List.mem_append_right _ hq
      · exact List.mem_append_left _ (h2 _ _ _ _ hm q hq)
    · by_cases hu : ps.any UPlate.isUniq = true
      · exact h3 hu
      · have : ∀ (ps : List (UPlate α)), ps.any UPlate.isUniq = false → ∀ t : UTen α, UTen.undoFor ps t = .ok t := by
          intro ps
          induction ps with
          | nil => intro _ t; rfl
          | cons p ps ih =>
            intro hp t
            cases p with
            | base p => exact ih (by simpa [UPlate.isUniq] using hp) t
            | uniq => simp [UPlate.isUniq] at hp
        rw [this ps (by simpa using hu) t'] at h
        cases h
        rw [p1]
        exact p2

theorem undoFor_error : ∀ (ps : List (UPlate α)) {t : UTen α} {e : Err}, UTen.undoFor ps t = .error e → e ≠ .diverge
  | [], t, e, h => by cases h
  | .base p :: ps, t, e, h => undoFor_error ps (t := t) h
  | .uniq name n sh inv :: ps, t, e, h => by
    unfold UTen.undoFor at h
    rcases bind_error h with h | ⟨t', _, h⟩
    · exact undoPlate_error h
    · exact undoFor_error ps h

/-- **C62 is false for every tensor.**  `undo_unique` raises on every tensor with a `UniquePlate` that replaced plates,
whatever the other plates and the elements are: the `UniquePlate` is kept, so the loop runs again and adds the same plates
a second time (unique.py:75, 99-102). -/
theorem C62_refuted {v : UTen α} {name : String} {n : Nat} {sh : List (UPlate α)} {inv : Ten Nat}
    (hv : .uniq name n sh inv ∈ v.plates) (hs : sh ≠ []) :
    ∃ e, e ≠ .diverge ∧ ∀ fuel, UTen.undoUnique (fuel + 2) v = .error e := by
  have hu : v.isUnique = true := List.any_eq_true.2 ⟨_, hv, rfl⟩
  cases h1 : UTen.undoFor v.plates v with
  | error e => exact ⟨e, undoFor_error _ h1, fun fuel => by rw [UTen.undoUnique, if_pos hu, h1]⟩
  | ok t =>
    obtain ⟨pre, p1, p2, _⟩ := undoFor_ok _ h1
    have hv' : .uniq name n sh inv ∈ t.plates := by rw [p1]; exact List.mem_append_right _ hv
    have hu' : t.isUnique = true := List.any_eq_true.2 ⟨_, hv', rfl⟩
    cases h2 : UTen.undoFor t.plates t with
    | error e =>
      refine ⟨e, undoFor_error _ h2, fun fuel => ?_⟩
      rw [UTen.undoUnique, if_pos hu, h1]
      simp only
      rw [UTen.undoUnique, if_pos hu', h2]
    | ok w =>
      exfalso
      obtain ⟨pre', q1, q2, q3⟩ := undoFor_ok _ h2
      obtain ⟨q, hq⟩ := List.exists_mem_of_ne_nil sh hs
      have a1 : q.name ∈ pre'.map UPlate.name := List.mem_map_of_mem (q2 _ _ _ _ hv' q hq)
      have a2 : q.name ∈ t.plates.map UPlate.name := by
        rw [p1]
        exact List.mem_map_of_mem (List.mem_append_left _ (p2 _ _ _ _ hv q hq))
      have hn := q3 hu'
      rw [q1, List.map_append] at hn
      exact (List.nodup_append.1 hn).2.2 _ a1 _ a2 rfl

/-- For `undo_unique(f(unique(t)))`: whatever `f` computes from the unique elements (a tensor with the same plates), the call
raises when `t` has a plate with several samples. -/
theorem C62_round_refuted {tu : Ten α → Except Err (Ten α × Ten Nat)} {t u v : UTen α} {name : String}
    (hu : t.unique tu name = .ok u) (ht : t.multiDim ≠ []) (hv : v.plates = u.plates) :
    ∃ e, e ≠ .diverge ∧ ∀ fuel, UTen.undoUnique (fuel + 2) v = .error e := by
  unfold UTen.unique at hu
  obtain ⟨_, _, hu⟩ := bind_ok hu
  obtain ⟨_, _, hu⟩ := bind_ok hu
  obtain ⟨⟨x, inv⟩, _, hu⟩ := bind_ok hu
  obtain ⟨_, _, hu⟩ := bind_ok hu
  split at hu
  · cases hu
  · cases hu
  · rename_i k rest _ _
    refine C62_refuted (name := "uq_plate_" ++ name) (n := k) (sh := t.multiDim) (inv := inv) ?_ ht
    rw [hv, (utenMk_ok hu).1]
    simp

end undo

section unique
variable [Zero α] [ValEq α]

theorem collect_base {ps : List (UPlate α)} (h : ∀ p ∈ ps, p.isUniq = false) : UPlate.collect ps = .ok () := by
  have hb : ∀ p ∈ ps, ∀ q : UPlate α, UPlate.hasShrunken q p = false := by
    intro p hp q
    cases p with
    | base p => simp [UPlate.hasShrunken]
    | uniq => cases h _ hp
  unfold UPlate.collect
  rw [if_neg]
  rw [List.any_eq_true]
  rintro ⟨p, hp, hx⟩
  obtain ⟨q, hq, hx⟩ := List.any_eq_true.1 hx
  rw [hb p hp q] at hx
  cases hx

/-- What holds of `unique`: for one plate with several samples and at least one event dimension, the result has the distinct
rows, flattened, and the index tensor of the `UniquePlate` finds the elements of the tensor among them.  What is missing for
C62: that `undo_unique` uses it. -/
theorem C62_partial {tu : Ten α → Except Err (Ten α × Ten Nat)} (htu : TorchUnique tu) {t : UTen α} {name : String}
    {m : Nat} {ev : List Nat} {p : UPlate α} (hm : t.multiDim = [p]) (hone : ∀ q ∈ t.plates, q.n ≠ 0)
    (hb : ∀ q ∈ t.plates, q.isUniq = false) (hnd : (t.plates.map UPlate.name).Nodup) (hp : p.n = m)
    (hd : t.plateDims = 1) (hshape : t.ten.shape = m :: ev) (hev : ev ≠ []) (hne : numel ev ≠ 0) :
    ∃ u k inv, t.unique tu name = .ok u ∧ u.plates = [.uniq ("uq_plate_" ++ name) k [p] inv] ∧
      u.ten.shape = [k, numel ev] ∧ k ≤ m ∧
      (∀ i < m, ∀ idx, InB idx ev → inv.get [i] < k ∧
        u.ten.get [inv.get [i], ravel ev idx] = t.ten.get (i :: idx)) ∧
      ∀ a < k, ∀ b < k, (∀ j < numel ev, u.ten.get [a, j] = u.ten.get [b, j]) → a = b := by
  have hfl : t.ten.flattenFrom 1 = .ok ⟨[m, numel ev],
      fun idx => t.ten.get (idx.take 1 ++ unravel ev (idx.getD 1 0))⟩ := by
    have : ev.length ≠ 0 := by simpa using hev
    unfold Ten.flattenFrom
    rw [if_neg]
    · simp [hshape]
    · rw [hshape]
      simp
      omega
  obtain ⟨⟨x, inv⟩, hx⟩ := htu.some ⟨[m, numel ev], fun idx => t.ten.get (idx.take 1 ++ unravel ev (idx.getD 1 0))⟩
    (by simp) (by simpa [numel] using hne)
  obtain ⟨m', k, rest, s1, s2, s3, s4, s5, s6⟩ := (htu.rows _ _ _ hx).shape
  simp only [List.cons.injEq] at s1
  obtain ⟨rfl, rfl⟩ := s1
  have hm1 : 1 < m := by
    have : p ∈ t.multiDim := by rw [hm]; simp
    have := (List.mem_filter.1 this).2
    rw [hp] at this
    simpa using this
  have hk1 : inv.get [0] < k := (s4 0 (by omega)).1
  have hfilter : (t.plates.map UPlate.view).filter (fun p => p.n ≠ 1) = [p.view] := by
    rw [List.filter_map]
    have : t.plates.filter ((fun p : Plate α => decide (p.n ≠ 1)) ∘ UPlate.view) = t.multiDim := by
      unfold UTen.multiDim
      apply List.filter_congr
      intro q hq
      have := hone q hq
      simp only [Function.comp, view_n]
      rw [decide_eq_decide]
      omega
    rw [this, hm]
    rfl
  have hnames : ((t.plates.map UPlate.view).map Plate.name).Nodup := by
    rw [view_names]
    exact hnd
  have hcheck : STen.checkPlates inv.shape (t.plates.map UPlate.view) [] 0 = .ok 1 := by
    rw [checkPlates_ok_iff, hfilter]
    refine ⟨hnames, by simp, ?_, by simp⟩
    rw [s3]
    simp [view_n, hp]
  have hmk : ∃ d, STen.checkPlates x.shape [(UPlate.uniq ("uq_plate_" ++ name) k [p] inv : UPlate α).view] [] 0 =
      .ok d := by
    refine ⟨_, (checkPlates_ok_iff _ _ _ _ _).2 ⟨by simp, by simp, ?_, rfl⟩⟩
    rw [s2]
    by_cases h1 : k = 1 <;> simp [UPlate.view, Plate.n, h1]
  obtain ⟨d, hd'⟩ := hmk
  refine ⟨⟨x, [.uniq ("uq_plate_" ++ name) k [p] inv], d⟩, k, inv, ?_, rfl, s2, ?_, ?_, ?_⟩
  · unfold UTen.unique
    rw [collect_base hb, hd, hfl]
    show (tu _ >>= _) = _
    rw [hx]
    show (STen.checkPlates inv.shape (t.plates.map UPlate.view) [] 0 >>= _) = _
    rw [hcheck]
    show (match x.shape with | [] => _ | 0 :: _ => _ | n :: _ => _) = _
    rw [s2]
    rcases k with _ | k
    · omega
    · simp only [hm]
      unfold UTen.mk'
      simp only [List.map_cons, List.map_nil]
      rw [hd']
  · have hinj : ∀ a : Fin k, ∃ i : Fin m, inv.get [i.1] = a.1 := fun a => by
      obtain ⟨i, hi, he⟩ := s5 a a.2
      exact ⟨⟨i, hi⟩, he⟩
    choose g hg using hinj
    have : Function.Injective g := fun a b hab => Fin.ext (by rw [← hg a, ← hg b, hab])
    simpa using Fintype.card_le_of_injective g this
  · intro i hi idx hidx
    refine ⟨(s4 i hi).1, ?_⟩
    have := (s4 i hi).2 [ravel ev idx] (by
      refine List.Forall₂.cons (ravel_lt hidx) .nil)
    show x.get [inv.get [i], ravel ev idx] = _
    rw [this]
    simp [unravel_ravel hidx]
  · intro a ha b hb' h
    refine s6 a ha b hb' (fun r hr => ?_)
    cases hr with
    | cons h1 h2 =>
      cases h2
      exact h _ h1

/-- Tensors with two plates of several samples: `unique` raises, since the index tensor has one dimension only
(unique.py:83-88). -/
theorem C62_two_plates_refuted {tu : Ten α → Except Err (Ten α × Ten Nat)} (htu : TorchUnique tu) {t : UTen α}
    {name : String} {p q : UPlate α} {ps : List (UPlate α)} (hm : t.multiDim = p :: q :: ps) :
    ∃ e, t.unique tu name = .error e := by
  cases h : t.unique tu name with
  | error e => exact ⟨e, rfl⟩
  | ok u =>
    exfalso
    unfold UTen.unique at h
    obtain ⟨_, _, h⟩ := bind_ok h
    obtain ⟨fl, _, h⟩ := bind_ok h
    obtain ⟨⟨x, inv⟩, hx, h⟩ := bind_ok h
    obtain ⟨d, hc, h⟩ := bind_ok h
    obtain ⟨n, k, rest, s1, s2, s3, _⟩ := (htu.rows _ _ _ hx).shape
    have hpre := ((checkPlates_ok_iff _ _ _ _ _).1 hc).2.2.1
    rw [List.drop_zero] at hpre
    have hl := hpre.length_le
    have hle : 2 ≤ ((t.plates.map UPlate.view).filter (fun p => p.n ≠ 1)).length := by
      rw [List.filter_map, List.length_map]
      have h2 : t.multiDim.length = ps.length + 2 := by rw [hm]; rfl
      have h3 : t.multiDim.length ≤ (t.plates.filter ((fun p : Plate α => decide (p.n ≠ 1)) ∘ UPlate.view)).length := by
        unfold UTen.multiDim
        rw [← List.countP_eq_length_filter, ← List.countP_eq_length_filter]
        apply List.countP_mono_left
        intro x _ hx
        simp only [Function.comp, view_n, decide_eq_true_eq] at hx ⊢
        omega
      omega
    rw [List.length_map, s3] at hl
    simp at hl
    simp at hle
    omega

/-- Tensors with plates and without event dimensions, like the costs that one would make unique: `unique` raises, since
`torch.flatten` has no dimension to start from (unique.py:82). -/
theorem C62_no_event_refuted {tu : Ten α → Except Err (Ten α × Ten Nat)} {t : UTen α} {name : String}
    (hb : ∀ q ∈ t.plates, q.isUniq = false) (hd : t.ten.shape.length = t.plateDims) (hpos : t.plateDims ≠ 0) :
    t.unique tu name = .error .index := by
  unfold UTen.unique
  rw [collect_base hb]
  show (t.ten.flattenFrom t.plateDims >>= _) = _
  unfold Ten.flattenFrom
  rw [if_pos ⟨hd.le, by intro h; rw [h] at hd; exact hpos hd.symm⟩]
  rfl

end unique

/-! ## There is such a `torch.unique`, and cases -/

open Classical in
/-- A function with the promises of `torch.unique(·, return_inverse=True, dim=0)` (unique.py:83-85). -/
noncomputable def someUnique (fl : Ten α) : Except Err (Ten α × Ten Nat) :=
  match fl.shape with
  | [] => .error .index
  | n :: rest =>
    let row : Nat → List Nat → α := fun i r => if InB r rest then fl.get (i :: r) else fl.get []
    let L : List (List Nat → α) := ((Finset.range n).image row).toList
    .ok (⟨L.length :: rest, fun idx => (L.getD (idx.headD 0) (fun _ => fl.get [])) idx.tail⟩,
      ⟨[n], fun idx => L.idxOf (row (idx.headD 0))⟩)

theorem someUnique_ok : TorchUnique (α := α) someUnique := by
  classical
  constructor
  · intro fl h _
    unfold someUnique
    split
    · exact absurd ‹_› h
    · exact ⟨_, rfl⟩
  · intro fl u inv h
    unfold someUnique at h
    split at h
    · cases h
    · rename_i n rest hs
      simp only [Except.ok.injEq, Prod.mk.injEq] at h
      obtain ⟨rfl, rfl⟩ := h
      set row : Nat → List Nat → α := fun i r => if InB r rest then fl.get (i :: r) else fl.get [] with hrow
      set L : List (List Nat → α) := ((Finset.range n).image row).toList with hL
      have hmem : ∀ i < n, row i ∈ L := fun i hi => by
        rw [hL, Finset.mem_toList]
        exact Finset.mem_image_of_mem _ (Finset.mem_range.2 hi)
      have hfrom : ∀ f ∈ L, ∃ i < n, row i = f := fun f hf => by
        rw [hL, Finset.mem_toList, Finset.mem_image] at hf
        obtain ⟨i, hi, he⟩ := hf
        exact ⟨i, Finset.mem_range.1 hi, he⟩
      have hLn : L.Nodup := Finset.nodup_toList _
      refine ⟨n, L.length, rest, hs, rfl, rfl, fun i hi => ⟨?_, fun r hr => ?_⟩, fun a ha => ?_, fun a ha b hb h => ?_⟩
      · exact List.idxOf_lt_length_of_mem (hmem i hi)
      · have h1 := List.idxOf_lt_length_of_mem (hmem i hi)
        show (L.getD (L.idxOf (row i)) (fun _ => fl.get [])) r = _
        rw [List.getD_eq_getElem _ _ h1, List.getElem_idxOf h1]
        simp [hrow, hr]
      · obtain ⟨i, hi, he⟩ := hfrom L[a] (List.getElem_mem ha)
        refine ⟨i, hi, ?_⟩
        show L.idxOf (row i) = a
        rw [he]
        exact hLn.idxOf_getElem a ha
      · have hv : ∀ c (hc : c < L.length) r, ¬ InB r rest → L[c] r = fl.get [] := by
          intro c hc r hr
          obtain ⟨i, _, he⟩ := hfrom L[c] (List.getElem_mem hc)
          rw [← he]
          simp [hrow, hr]
        have : L[a] = L[b] := by
          funext r
          by_cases hr : InB r rest
          · have := h r hr
            simp only [List.headD_cons, List.tail_cons] at this
            rwa [List.getD_eq_getElem _ _ ha, List.getD_eq_getElem _ _ hb] at this
          · rw [hv a ha r hr, hv b hb r hr]
        exact (hLn.getElem_inj_iff).1 this

namespace UniqueCase

/-- Three samples of pairs, two of them equal. -/
def t : UTen Int := ⟨⟨[3, 2], fun idx => if idx.headD 0 = 1 then 5 else idx.getD 1 0⟩,
  [.base (.mk "x" 3 (.torch (scalar 0)) .plain [])], 1⟩

/-- `C62_partial` applies, and then `undo_unique` raises by `C62_round_refuted`. -/
example : ∃ u, t.unique someUnique "t" = .ok u ∧
    ∃ e, e ≠ .diverge ∧ ∀ fuel, UTen.undoUnique (fuel + 2) u = .error e := by
  obtain ⟨u, k, inv, h, _⟩ := C62_partial (α := Int) someUnique_ok (t := t) (name := "t") (m := 3) (ev := [2])
    (p := .base (.mk "x" 3 (.torch (scalar 0)) .plain [])) rfl (by simp [t, UPlate.n, Plate.n])
    (by simp [t, UPlate.isUniq]) (by simp [t]) rfl rfl rfl (by simp) (by simp [numel])
  exact ⟨u, h, C62_round_refuted h (by simp [UTen.multiDim, t, UPlate.n, Plate.n]) rfl⟩

/-- A tensor with two plates. -/
def two : UTen Int := ⟨⟨[3, 2, 2], fun _ => 0⟩, [.base (.mk "x" 3 (.torch (scalar 0)) .plain []),
  .base (.mk "y" 2 (.torch (scalar 0)) .plain [])], 2⟩

example : ∃ e, two.unique someUnique "t" = .error e := C62_two_plates_refuted someUnique_ok (p := two.plates[0])
  (q := two.plates[1]) (ps := []) rfl

/-- A cost per sample. -/
def costs : UTen Int := ⟨⟨[3], fun _ => 0⟩, [.base (.mk "x" 3 (.torch (scalar 0)) .plain [])], 1⟩

example : costs.unique someUnique "c" = .error .index :=
  C62_no_event_refuted (by simp [costs, UPlate.isUniq]) rfl (by decide)

end UniqueCase

end Storch
