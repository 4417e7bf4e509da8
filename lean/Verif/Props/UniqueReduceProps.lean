import Verif.Model.UniqueReduce
import Verif.Props.UniqueMixProps
import Verif.Lemmas.ListLemmas

/-!
# C102: a cost of unique samples should be reduced to that of all samples
-/

namespace Storch
open Ten

variable {α : Type _} [Zero α] [ValEq α]

theorem utenMk_prefix {t : Ten α} {ps : List (UPlate α)} {r : UTen α} (h : UTen.mk' t ps = .ok r) :
    (ps.filter (fun p => p.n ≠ 1)).map UPlate.n <+: t.shape ∧
      r.plateDims = (ps.filter (fun p => p.n ≠ 1)).length ∧ r.ten = t := by
  unfold UTen.mk' at h
  split at h
  · cases h
  · rename_i d hd
    cases h
    obtain ⟨-, -, h3, h4⟩ := (checkPlates_ok_iff _ _ _ _ _).1 hd
    have e : (ps.map UPlate.view).filter (fun p => p.n ≠ 1) = (ps.filter (fun p => p.n ≠ 1)).map UPlate.view := by
      rw [List.filter_map]
      congr 1
      refine List.filter_congr fun p _ => ?_
      simp [view_n]
    rw [e] at h3 h4
    refine ⟨?_, ?_, rfl⟩
    · rw [List.map_map, List.drop_zero] at h3
      rwa [show Plate.n ∘ UPlate.view = (UPlate.n : UPlate α → Nat) from funext view_n] at h3
    · simpa using h4

theorem indexSelect_shape {t r : Ten α} {index : Ten Nat} (h : t.indexSelect index = .ok r) :
    t.shape ≠ [] ∧ r.shape.drop 1 = t.shape.drop 1 := by
  unfold Ten.indexSelect at h
  repeat' split at h
  all_goals cases h
  all_goals simp_all

/-- What has happened if `undo_unique` of a plate returns: the unique plate was found among those with several samples,
and the tensor made has the sizes of the replaced plates in front of all dimensions but the first. -/
theorem undoPlate_shape {t : UTen α} {name : String} {sh : List (UPlate α)} {inv : Ten Nat} {r : UTen α}
    (h : t.undoPlate name sh inv = .ok r) :
    ∃ i, t.dimIndex name = .ok i ∧ i < t.ten.shape.length ∧ t.plateDims - 1 < t.ten.shape.length ∧
      ((sh ++ t.plates).filter (fun p => p.n ≠ 1)).map UPlate.n <+:
        sh.map UPlate.n ++ (swapAt t.ten.shape i (t.plateDims - 1)).drop 1 := by
  unfold UTen.undoPlate at h
  obtain ⟨i, hi, h⟩ := bind_ok h
  obtain ⟨_, _, h⟩ := bind_ok h
  obtain ⟨sw, hsw, h⟩ := bind_ok h
  obtain ⟨fl, hfl, h⟩ := bind_ok h
  obtain ⟨sel, hsel, h⟩ := bind_ok h
  unfold Ten.transpose at hsw
  split at hsw
  · rename_i hlt
    cases hsw
    obtain ⟨-, hf⟩ := indexSelect_shape hfl
    unfold Ten.reshape at hsel
    split at hsel
    · cases hsel
      have := (utenMk_prefix h).1
      simp only [hf] at this
      exact ⟨i, hi, hlt.1, hlt.2, this⟩
    · cases hsel
  · cases hsw

theorem filter_all {sh : List (UPlate α)} (hsh : ∀ q ∈ sh, q.n ≠ 1) : sh.filter (fun p => p.n ≠ 1) = sh :=
  List.filter_eq_self.2 fun q hq => by simpa using hsh q hq

/-- **C102 is false for every cost.**  A tensor without event dimensions, as costs are, with any plates: reducing a unique
plate that replaced plates of several samples raises, whatever the plates of the cost, the index tensor and the elements
are.  The unique plate is added again to the tensor that no longer has its dimension (unique.py:75). -/
theorem C102_cost_refuted {β : Type _} (red : UTen α → List (UPlate α) → Except Err β) {v : UTen α}
    (hv : UTen.mk' v.ten v.plates = .ok v) (hcost : v.ten.shape.length = v.plateDims) (name : String)
    {sh : List (UPlate α)} (hsh : ∀ q ∈ sh, q.n ≠ 1) (inv : Ten Nat) :
    ∃ e, v.reduceUniq red name sh inv = .error e := by
  unfold UTen.reduceUniq
  cases h : v.undoPlate name sh inv with
  | error e => exact ⟨e, rfl⟩
  | ok r =>
    exfalso
    obtain ⟨i, -, hi, -, hp⟩ := undoPlate_shape h
    have hd := (utenMk_prefix hv).2.1
    have hl := hp.length_le
    rw [List.filter_append, filter_all hsh] at hl
    simp only [List.length_map, List.length_append, List.length_drop, length_swapAt] at hl
    omega

/-- **C102 is false for what `unique` returns**, event dimensions included: a tensor under the unique plate alone, with
`k` unique samples, raises when its plate is reduced unless the size of the first event dimension happens to be `k`. -/
theorem C102_event_refuted {β : Type _} (red : UTen α → List (UPlate α) → Except Err β) {v : UTen α}
    (hv : UTen.mk' v.ten v.plates = .ok v) {name : String} {k : Nat} {sh : List (UPlate α)} {inv : Ten Nat}
    (hp : v.plates = [.uniq name k sh inv]) {e : Nat} {rest : List Nat} (hs : v.ten.shape = k :: e :: rest)
    (hsh : ∀ q ∈ sh, q.n ≠ 1) (hek : e ≠ k) :
    ∃ err, v.reduceUniq red name sh inv = .error err := by
  unfold UTen.reduceUniq
  cases h : v.undoPlate name sh inv with
  | error e => exact ⟨e, rfl⟩
  | ok r =>
    exfalso
    obtain ⟨i, hi, -, -, hpre⟩ := undoPlate_shape h
    have hd := (utenMk_prefix hv).2.1
    by_cases hk : 1 < k
    · have hk1 : k ≠ 1 := by omega
      have hi0 : i = 0 := by
        simp [UTen.dimIndex, UTen.multiDim, hp, UPlate.n, UPlate.name, hk, indexBy] at hi
        exact hi.symm
      rw [hp] at hd hpre
      simp only [UPlate.n, ne_eq, hk1, not_false_eq_true, decide_true, List.filter_cons_of_pos, List.filter_nil,
        List.length_singleton] at hd
      rw [List.filter_append, filter_all hsh, hd, hi0, hs] at hpre
      simp only [ne_eq, UPlate.n, hk1, not_false_eq_true, decide_true, List.filter_cons_of_pos, List.filter_nil,
        List.map_append, List.map_cons, List.map_nil, List.prefix_append_right_inj] at hpre
      simp [swapAt] at hpre
      exact hek hpre.symm
    · simp [UTen.dimIndex, UTen.multiDim, hp, UPlate.n, hk, indexBy] at hi

/-- What holds: if the first event dimension has the size `k` of the unique plate, undoing returns the element of every
sample, by way of the index tensor; the tensor may have further plates with one sample.  Missing for C102: all other sizes
(`C102_event_refuted`, `C102_cost_refuted`), and also here the event dimension is then taken for the unique plate, so that the
next step would reduce it too. -/
theorem C102_square_partial {β : Type _} (red : UTen α → List (UPlate α) → Except Err β) {v : UTen α}
    (hv : UTen.mk' v.ten v.plates = .ok v) {name : String} {k m : Nat} {p : UPlate α} {inv : Ten Nat}
    (hp : v.plates.filter (fun q => q.n ≠ 1) = [.uniq name k [p] inv])
    (hone : ∀ q ∈ v.plates, q.isUniq = true → q = .uniq name k [p] inv)
    {rest : List Nat} (hs : v.ten.shape = k :: k :: rest) (hk : 1 < k)
    (hm : p.n = m) (hm1 : m ≠ 1) (hpu : p.isUniq = false) (hname : p.name ∉ v.plates.map UPlate.name)
    (hinv : inv.shape = [m]) (hlt : ∀ i < m, inv.get [i] < k) :
    ∃ u : UTen α, v.reduceUniq red name [p] inv = red u [p] ∧ u.plates = p :: v.plates ∧ u.plateDims = 2 ∧
      u.ten.shape = m :: k :: rest ∧
      ∀ i < m, ∀ j, InB j (k :: rest) → u.ten.get (i :: j) = v.ten.get (inv.get [i] :: j) := by
  have hd := (utenMk_prefix hv).2.1
  rw [hp] at hd
  have hun : (UPlate.uniq name k [p] inv : UPlate α).n = k := rfl
  have hmd : v.multiDim = [.uniq name k [p] inv] := by
    have : v.multiDim = (v.plates.filter (fun q => q.n ≠ 1)).filter (fun q => decide (1 < q.n)) := by
      rw [UTen.multiDim, List.filter_filter]
      refine List.filter_congr fun q _ => ?_
      by_cases h : 1 < q.n
      · simp [h]
        omega
      · simp [h]
    rw [this, hp]
    simp [hun, hk]
  have hdim : v.dimIndex name = .ok 0 := by
    simp [UTen.dimIndex, hmd, UPlate.name, indexBy]
  have hcol : UPlate.collect v.plates = .ok () := by
    refine (C101_replaced _).2 fun q hq r hr => ?_
    have : r = p := by
      cases hr with
      | here h =>
        cases hone _ hq rfl
        exact List.mem_singleton.1 h
      | deep h h' =>
        cases hone _ hq rfl
        rw [List.mem_singleton.1 h] at h'
        cases h' <;> cases hpu
    rwa [this]
  have htr : v.ten.transpose 0 0 = .ok ⟨v.ten.shape, fun idx => v.ten.get (swapAt idx 0 0)⟩ := by
    unfold Ten.transpose
    rw [if_pos (by simp [Ten.ndim, hs])]
    simp [hs, swapAt]
  have hsel : (⟨v.ten.shape, fun idx => v.ten.get (swapAt idx 0 0)⟩ : Ten α).indexSelect inv =
      .ok ⟨m :: k :: rest, fun idx => v.ten.get (swapAt (inv.get [idx.getD 0 0] :: idx.drop 1) 0 0)⟩ := by
    unfold Ten.indexSelect
    simp only [hs, hinv]
    rw [if_pos (fun i hi => hlt i (List.mem_range.1 hi))]
  have hfil : ((p :: v.plates).filter (fun q => q.n ≠ 1)) = [p, .uniq name k [p] inv] := by
    rw [List.filter_cons_of_pos (by simpa [hm] using hm1), hp]
  have hnames : (v.plates.map UPlate.name).Nodup := (utenMk_ok hv).2
  have hmk : ∃ u, UTen.mk' (α := α) ⟨m :: k :: rest, fun idx => v.ten.get (swapAt (inv.get
        [(unravel (m :: k :: rest) (ravel (m :: k :: rest) idx)).getD 0 0] ::
          (unravel (m :: k :: rest) (ravel (m :: k :: rest) idx)).drop 1) 0 0)⟩ (p :: v.plates) = .ok u := by
    unfold UTen.mk'
    have e : ((p :: v.plates).map UPlate.view).filter (fun q => q.n ≠ 1) = [p, .uniq name k [p] inv].map UPlate.view := by
      rw [List.filter_map, ← hfil]
      congr 1
      refine List.filter_congr fun q _ => ?_
      simp [view_n]
    have : STen.checkPlates (m :: k :: rest) ((p :: v.plates).map UPlate.view) [] 0 = .ok 2 := by
      refine (checkPlates_ok_iff _ _ _ _ _).2 ⟨?_, by simp, ?_, ?_⟩
      · rw [view_names, List.map_cons, List.nodup_cons]
        exact ⟨hname, hnames⟩
      · rw [e]
        simp [view_n, hm, hun]
      · rw [e]
        simp
    simp only [this]
    exact ⟨_, rfl⟩
  obtain ⟨u, hu⟩ := hmk
  obtain ⟨u1, -⟩ := utenMk_ok hu
  obtain ⟨-, u2, u3⟩ := utenMk_prefix hu
  refine ⟨u, ?_, u1, ?_, by rw [u3], fun i hi j hj => ?_⟩
  · have hundo : v.undoPlate name [p] inv = .ok u := by
      unfold UTen.undoPlate
      rw [hdim]
      show (UPlate.collect v.plates >>= _) = _
      rw [hcol]
      show (v.ten.transpose 0 (v.plateDims - 1) >>= _) = _
      rw [hd]
      show (v.ten.transpose 0 0 >>= _) = _
      rw [htr]
      show (Ten.indexSelect _ inv >>= _) = _
      rw [hsel]
      show (Ten.reshape _ ([p].map UPlate.n ++ (m :: k :: rest).drop 1) >>= _) = _
      simp only [List.map_cons, List.map_nil, hm, List.drop_succ_cons, List.drop_zero, List.cons_append, List.nil_append]
      unfold Ten.reshape
      rw [if_pos rfl]
      exact hu
    unfold UTen.reduceUniq
    rw [hundo]
    rfl
  · rw [u2, hfil]
    rfl
  · rw [u3]
    simp only
    rw [unravel_ravel (.cons hi hj)]
    simp [swapAt]

namespace UniqueReduceCase
open UniqueMixCase

/-- A cost for each of the two unique samples that replaced the three of `x`. -/
def cost : UTen Int := ⟨⟨[2], fun idx => idx.headD 0⟩, [.uniq "uq_plate_t" 2 [x] ⟨[3], fun idx => idx.headD 0 % 2⟩], 1⟩

/-- A case for `C102_cost_refuted`. -/
example : ∃ e, cost.reduceUniq (fun u _ => .ok u) "uq_plate_t" [x] ⟨[3], fun idx => idx.headD 0 % 2⟩ = .error e :=
  C102_cost_refuted _ rfl rfl _ (by simp [x, UPlate.n, Plate.n]) _

/-- Two unique samples, each a vector of five. -/
def wide : UTen Int := ⟨⟨[2, 5], fun idx => idx.headD 0⟩, cost.plates, 1⟩

/-- A case for `C102_event_refuted`. -/
example : ∃ e, wide.reduceUniq (fun u _ => .ok u) "uq_plate_t" [x] ⟨[3], fun idx => idx.headD 0 % 2⟩ = .error e :=
  C102_event_refuted _ rfl (k := 2) rfl (e := 5) (rest := []) rfl (by simp [x, UPlate.n, Plate.n]) (by decide)

/-- Two unique samples, each a pair, next to a plate with one sample. -/
def square : UTen Int := ⟨⟨[2, 2], fun idx => 10 * idx.headD 0 + idx.getD 1 0⟩, one :: cost.plates, 1⟩

/-- A case for `C102_square_partial`. -/
example : ∃ u, square.reduceUniq (fun u _ => .ok u) "uq_plate_t" [x] ⟨[3], fun idx => idx.headD 0 % 2⟩ = .ok u ∧
    u.ten.get [2, 1] = 1 ∧ u.ten.get [1, 1] = 11 := by
  obtain ⟨u, h1, -, -, -, h⟩ := C102_square_partial (fun u _ => .ok u) (v := square) rfl (k := 2) (m := 3) (p := x) rfl
    (by
      intro q hq hu
      rcases List.mem_cons.1 hq with rfl | hq
      · cases hu
      · exact List.mem_singleton.1 hq)
    (rest := []) rfl (by decide) rfl (by decide) rfl (by decide) rfl (by
      intro i _
      show i % 2 < 2
      omega)
  exact ⟨u, h1, h 2 (by decide) [1] (.cons (by decide) .nil), h 1 (by decide) [1] (.cons (by decide) .nil)⟩

end UniqueReduceCase

end Storch
