import Mathlib.Tactic.NormNum
import Verif.Lemmas.ControlNetLemmas
import Verif.Props.RelaxProps
import Verif.Model.RelaxRun

/-!
# C89: the control network that `RELAX` builds when it is given `in_dim`

`RELAX` and `LAX` evaluate a control network at each sample.  When none is given, they build one (relax.py:29-43).
-/

namespace Storch
variable {α : Type _} [AddCommMonoid α] [Mul α]

/-! ### Specification -/

/-- A network with one hidden layer of fifty units, at one input of `d` numbers. -/
def netOut (relu : α → α) (d : Nat) (w1 b1 w2 b2 : List Nat → α) (row : Nat → α) : α :=
  (∑ j ∈ Finset.range 50, relu ((∑ i ∈ Finset.range d, row i * w1 [j, i]) + b1 [j]) * w2 [0, j]) + b2 [0]

/-- The number of inputs, and whether the whole event of a sample is the input. -/
def InDim.flat : InDim → Bool
  | .int d => decide (d ≤ 1)
  | .dims _ => true

/-- The number of inputs. -/
def InDim.size : InDim → Nat
  | .int d => d
  | .dims ds => ds.prod

/-! ### Proofs -/

omit [AddCommMonoid α] [Mul α] in
theorem make_spec {d : InDim} {w1 b1 w2 b2 : List Nat → α} {c : ControlNet α} (h : ControlNet.make d w1 b1 w2 b2 = .ok c) :
    c.inDim = d.size ∧ (c.reshape || decide (c.inDim ≤ 1)) = d.flat ∧ c.w1 = ⟨[50, d.size], w1⟩ ∧ c.b1 = ⟨[50], b1⟩ ∧
      c.w2 = ⟨[1, 50], w2⟩ ∧ c.b2 = ⟨[1], b2⟩ := by
  cases d with
  | int d =>
    cases h
    simp [InDim.size, InDim.flat]
  | dims ds =>
    cases ds with
    | nil => cases h
    | cons x xs =>
      cases h
      have : ∀ (l : List Nat) y, l.foldl (· * ·) y = y * l.prod := by
        intro l
        induction l with
        | nil => intro y; simp
        | cons z l ih => intro y; rw [List.foldl_cons, ih, List.prod_cons, Nat.mul_assoc]
      simp [InDim.size, InDim.flat, this]

omit [AddCommMonoid α] [Mul α] in
theorem exists_ravel {s : List Nat} {l : Nat} (h : l < Ten.numel s) : ∃ e, Ten.InB e s ∧ Ten.ravel s e = l := by
  induction s generalizing l with
  | nil =>
    refine ⟨[], .nil, ?_⟩
    simp only [Ten.numel, List.foldr_nil] at h
    simp only [Ten.ravel]
    omega
  | cons d s ih =>
    rw [Ten.numel_cons] at h
    have hpos : 0 < Ten.numel s := Nat.pos_of_ne_zero fun h0 => by rw [h0] at h; omega
    obtain ⟨e, he, hr⟩ := ih (Nat.mod_lt l hpos)
    refine ⟨l / Ten.numel s :: e, .cons (Nat.div_lt_of_lt_mul (by rwa [Nat.mul_comm])) he, ?_⟩
    rw [Ten.ravel, hr, Nat.mul_comm]
    exact Nat.div_add_mod l _

variable [ValEq α]

/-- The layers behind the reshape. -/
theorem layers {hook : UnwrapHook α} (hh : PlainHook hook) (relu : α → α) {x : STen α} (hx : Proper x) {s : List Nat}
    {d : Nat} (hs : x.eventShape = s ++ [d]) (w1 b1 w2 b2 : List Nat → α) :
    ∃ h h' y r, asSt (handleDet hook false false {} linearFn
        ⟨[.st x false, .torch ⟨[50, d], w1⟩, .torch ⟨[50], b1⟩], []⟩) = .ok h ∧
      asSt (handleDet hook false false {} (reluFn relu) ⟨[.st h false], []⟩) = .ok h' ∧
      asSt (handleDet hook false false {} linearFn
        ⟨[.st h' false, .torch ⟨[1, 50], w2⟩, .torch ⟨[1], b2⟩], []⟩) = .ok y ∧
      asSt (handleDet hook false false {} squeezeLastFn ⟨[.st y false, .other 1], []⟩) = .ok r ∧
      Proper r ∧ r.plates = x.plates ∧ r.eventShape = s ∧
      ∀ i, r.ten.get i = netOut relu d w1 b1 w2 b2 (fun l => x.ten.get (i ++ [l])) := by
  obtain ⟨h, a1, a2, a3, a4, -, a6⟩ := linear_call hh hx hs (k := 50) w1 b1
  obtain ⟨h', e1, e2, e3, e4, -, e6⟩ := relu_call hh a2 relu
  obtain ⟨y, f1, f2, f3, f4, -, f6⟩ := linear_call hh e2 (e4.trans a4) (k := 1) w2 b2
  obtain ⟨r, g1, g2, g3, g4, -, g6⟩ := squeeze_call hh f2 f4
  refine ⟨h, h', y, r, a1, e1, f1, g1, g2, by rw [g3, f3, e3, a3], g4, fun i => ?_⟩
  rw [g6, f6, netOut]
  simp only [e6, a6]

omit [ValEq α] in
theorem netOut_congr (relu : α → α) (d : Nat) (w1 b1 w2 b2 : List Nat → α) {row row' : Nat → α}
    (h : ∀ l < d, row l = row' l) : netOut relu d w1 b1 w2 b2 row = netOut relu d w1 b1 w2 b2 row' := by
  simp only [netOut]
  congr 1
  refine Finset.sum_congr rfl fun j _ => ?_
  congr 3
  exact Finset.sum_congr rfl fun l hl => by rw [h l (Finset.mem_range.1 hl)]

/-- C89, the whole event: with `in_dim` a sequence of sizes (or at most one), for every sample whose event has as many
elements as the sizes multiply to, the control network of `RELAX` gives one number, on the plates of the sample: that of
the network at the elements of that sample, in row-major order.  The numbers of different samples do not meet. -/
theorem C89_event {hook : UnwrapHook α} (hh : PlainHook hook) (relu : α → α) {d : InDim} {w1 b1 w2 b2 : List Nat → α}
    {c : ControlNet α} (hc : ControlNet.make d w1 b1 w2 b2 = .ok c) (hd : d.flat = true) {x : STen α} (hx : Proper x)
    (hn : x.eventShape.prod = d.size) :
    ∃ r, c.forward hook relu x = .ok r ∧ r.WF ∧ r.plates = x.plates ∧ r.eventShape = [] ∧
      ∀ i, Ten.InB i (x.multiDimPlates.map Plate.n) → ∀ row : Nat → α,
        (∀ e, Ten.InB e x.eventShape → row (Ten.ravel x.eventShape e) = x.ten.get (i ++ e)) →
        r.ten.get i = netOut relu d.size w1 b1 w2 b2 row := by
  obtain ⟨-, m2, m3, m4, m5, m6⟩ := make_spec hc
  obtain ⟨x', k1, k2, k3, k4, -, k6⟩ := reshape_call hh hx
  have hnum : Ten.numel x.eventShape = d.size := by rw [← hn, List.prod_eq_foldr]; rfl
  rw [hnum] at k4
  obtain ⟨h, h', y, r, a1, a2, a3, a4, a5, a6, a7, a8⟩ := layers hh relu k2 (s := []) k4 w1 b1 w2 b2
  refine ⟨r, ?_, a5.wf, a6.trans k3, a7, fun i hi row hrow => ?_⟩
  · rw [ControlNet.forward, m2, if_pos hd, m3, m4, m5, m6]
    simp only [k1, a1, a2, a3, a4]
  · rw [a8]
    refine netOut_congr _ _ _ _ _ _ fun l hl => ?_
    have hl' : l < Ten.numel x.eventShape := by rwa [hnum]
    obtain ⟨e, he, rfl⟩ : ∃ e, Ten.InB e x.eventShape ∧ Ten.ravel x.eventShape e = l := exists_ravel hl'
    rw [k6 i hi e he, hrow e he]

/-- C89, the last dimension: with `in_dim` a number above one, the network is evaluated at each row along the last
dimension of the event, so that the samples of vectors get one number each and the event dimensions before the last
one stay. -/
theorem C89_rows {hook : UnwrapHook α} (hh : PlainHook hook) (relu : α → α) {d : Nat} (hd : 1 < d)
    {w1 b1 w2 b2 : List Nat → α} {c : ControlNet α} (hc : ControlNet.make (.int d) w1 b1 w2 b2 = .ok c) {x : STen α}
    (hx : Proper x) {s : List Nat} (hs : x.eventShape = s ++ [d]) :
    ∃ r, c.forward hook relu x = .ok r ∧ r.WF ∧ r.plates = x.plates ∧ r.eventShape = s ∧
      ∀ i, r.ten.get i = netOut relu d w1 b1 w2 b2 (fun l => x.ten.get (i ++ [l])) := by
  obtain ⟨-, m2, m3, m4, m5, m6⟩ := make_spec hc
  obtain ⟨h, h', y, r, a1, a2, a3, a4, a5, a6, a7, a8⟩ := layers hh relu hx hs w1 b1 w2 b2
  refine ⟨r, ?_, a5.wf, a6, a7, a8⟩
  rw [ControlNet.forward, m2, if_neg (by simp [InDim.flat]; omega), m3, m4, m5, m6]
  simp only [InDim.size, a1, a2, a3, a4]

/-- C89, sizes: samples of another number of elements, or with another last dimension, raise. -/
theorem C89_sizes {hook : UnwrapHook α} (hh : PlainHook hook) (relu : α → α) {d : InDim} {w1 b1 w2 b2 : List Nat → α}
    {c : ControlNet α} (hc : ControlNet.make d w1 b1 w2 b2 = .ok c) {x : STen α} (hx : Proper x)
    (hn : if d.flat then x.eventShape.prod ≠ d.size else x.eventShape.getLast? ≠ some d.size)
    (hp : d.flat = false → x.eventShape ≠ []) :
    c.forward hook relu x = .error .torch := by
  obtain ⟨-, m2, m3, m4, m5, m6⟩ := make_spec hc
  have key : ∀ {t : STen α}, Proper t → t.eventShape ≠ [] → t.eventShape.getLast? ≠ some d.size →
      handleDet hook false false {} linearFn ⟨[.st t false, .torch ⟨[50, d.size], w1⟩, .torch ⟨[50], b1⟩], []⟩ =
        .error .torch := by
    intro t ht h1 h2
    refine call_error hh ht _ _ (collect_torch [_, _]) (unwrap_torch hook [_, _]) ?_
    simp only [List.map_cons, List.map_nil, linearFn, Ten.linear]
    rw [if_neg]
    rw [ht.wf.shape, List.getLast?_append]
    cases hg : t.eventShape.getLast? with
    | none => exact absurd (List.getLast?_eq_none_iff.1 hg) h1
    | some v => rw [hg] at h2; simpa using h2
  rw [ControlNet.forward, m2, m3, m4, m5, m6]
  cases hd : d.flat with
  | true =>
    obtain ⟨x', k1, k2, k3, k4, -, k6⟩ := reshape_call hh hx
    rw [hd] at hn
    have := key k2 (by rw [k4]; simp) (by
      rw [k4]
      simp only [List.getLast?_singleton, ne_eq, Option.some.injEq]
      rw [if_pos rfl, List.prod_eq_foldr] at hn
      exact hn)
    rw [if_pos rfl, k1]
    dsimp only
    rw [this]
    rfl
  | false =>
    rw [hd] at hn
    have := key hx (hp hd) (by simpa using hn)
    simp [this, asSt]

/-! ### In the program of C76 -/

section
variable {E : Type _} {θ₀ : E} {m K : Nat}

/-- The network of `netOut`, with weights that are functions of the parameters, at the `m * K` numbers of one sample. -/
noncomputable def netAt (w1 b1 w2 b2 : List Nat → E → ℝ) (θ : E) (v : Fin m → Fin K → ℝ) : ℝ :=
  netOut (fun a => max a 0) (m * K) (fun l => w1 l θ) (fun l => b1 l θ) (fun l => w2 l θ) (fun l => b2 l θ)
    (fun i => if h : i / K < m ∧ i % K < K then v ⟨i / K, h.1⟩ ⟨i % K, h.2⟩ else 0)

/-- `F.relu` on differentiable numbers. -/
noncomputable def reluAD (a : AD E θ₀) : AD E θ₀ := fun θ => max (a θ) 0

theorem fsum_apply (s : Finset Nat) (g : Nat → AD E θ₀) (θ : E) : (∑ i ∈ s, g i) θ = ∑ i ∈ s, g i θ := by
  exact Finset.sum_apply θ s (g : Nat → E → ℝ)

theorem netOut_apply (relu : AD E θ₀ → AD E θ₀) (d : Nat) (w1 b1 w2 b2 : List Nat → AD E θ₀) (row : Nat → AD E θ₀) (θ : E)
    (relu' : ℝ → ℝ) (h : ∀ a : AD E θ₀, relu a θ = relu' (a θ)) :
    netOut relu d w1 b1 w2 b2 row θ = netOut relu' d (fun l => w1 l θ) (fun l => b1 l θ) (fun l => w2 l θ)
      (fun l => b2 l θ) (fun i => row i θ) := by
  simp only [netOut, AD.add_apply, fsum_apply, AD.mul_apply, h]

/-- C89 in the program of C76: for samples of `m` variables with `K` outcomes, the control network that `RELAX` builds
for `in_dim = (m, K)` is `perSample` of a function of the parameters and the sample, as the control network of
`C76_unbiased` is. -/
theorem C89_relax {hook : UnwrapHook (AD E θ₀)} (hh : PlainHook hook) {w1 b1 w2 b2 : List Nat → AD E θ₀}
    {c : ControlNet (AD E θ₀)} (hc : ControlNet.make (.dims [m, K]) w1 b1 w2 b2 = .ok c) {x : STen (AD E θ₀)}
    (hx : Proper x) (hs : x.eventShape = [m, K]) :
    ∃ r, c.forward hook reluAD x = .ok r ∧ r.plates = (perSample (netAt (m := m) (K := K) w1 b1 w2 b2) x).plates ∧
      r.ten.Eqv (perSample (netAt (m := m) (K := K) w1 b1 w2 b2) x).ten := by
  obtain ⟨r, r1, r2, r3, r4, r5⟩ := C89_event hh reluAD hc rfl hx (by rw [hs]; simp [InDim.size])
  have hshape : r.ten.shape = x.multiDimPlates.map Plate.n := by
    rw [r2.shape, r4, List.append_nil, STen.multiDimPlates, STen.multiDimPlates, r3]
  have htake : x.ten.shape.take x.plateDims = x.multiDimPlates.map Plate.n := by
    rw [hx.wf.shape, hx.wf.dims]
    simp
  refine ⟨r, r1, r3, by rw [hshape]; exact htake.symm, fun i hi => ?_⟩
  rw [hshape] at hi
  rw [r5 i hi (fun l => x.ten.get (i ++ [l / K, l % K]))]
  · rw [show (InDim.dims [m, K]).size = m * K by simp [InDim.size]]
    funext θ
    refine (netOut_apply reluAD (m * K) w1 b1 w2 b2 (fun l => x.ten.get (i ++ [l / K, l % K])) θ (fun a => max a 0)
      fun _ => rfl).trans ?_
    simp only [perSample, netAt]
    refine netOut_congr _ _ _ _ _ _ fun l hl' => ?_
    have hK : 0 < K := Nat.pos_of_ne_zero fun h0 => by rw [h0] at hl'; omega
    have h1 : l / K < m := Nat.div_lt_of_lt_mul (by rwa [Nat.mul_comm])
    rw [dif_pos ⟨h1, Nat.mod_lt _ hK⟩]
  · intro e he
    rw [hs] at he ⊢
    obtain ⟨a, l, ha, hl, rfl⟩ : ∃ a l, a < m ∧ l < K ∧ e = [a, l] := by
      cases he with
      | cons h1 h2 =>
        cases h2 with
        | cons h2 h3 => cases h3; exact ⟨_, _, h1, h2, rfl⟩
    have hK : 0 < K := by omega
    have e1 : Ten.ravel [m, K] [a, l] = K * a + l := by simp [Ten.ravel, Ten.numel, Nat.mul_comm]
    rw [e1, Nat.mul_add_div hK, Nat.div_eq_of_lt hl, Nat.mul_add_mod, Nat.mod_eq_of_lt hl, Nat.add_zero]

end

/-! ### With rebar -/

section
variable {α : Type _} [CommRing α] [ValEq α] [Autograd α]

/-- C89 is false with rebar when `in_dim` is a sequence of sizes or at most one: there the network is applied to torch
tensors, which have no `plate_dims`, so that the estimator raises for every sample and every cost, and the surrogate loss with it as soon as one cost depends on
the sample. -/
theorem C89_rebar_refuted (hook : UnwrapHook α) (relu : α → α) {d : InDim} {w1 b1 w2 b2 : List Nat → α} {c : ControlNet α}
    (hc : ControlNet.make d w1 b1 w2 b2 = .ok c) (hd : d.flat = true) (eta : Operand α)
    (logProb : STen α → Except Err (STen α)) (name : String) :
    (∀ tensor cost, ∃ e, rebarEstimator hook eta (c.onTorch relu) logProb name tensor cost = .error e) ∧
    ∀ tensor costs, (∃ k ∈ costs, rebarSampled hook eta (c.onTorch relu) logProb name tensor ∈ k.2) →
      ∀ r, surrogateLoss hook costs ≠ .ok r := by
  have hnet : ∀ t, c.onTorch relu t = .error .attribute := by
    intro t
    rw [ControlNet.onTorch, (make_spec hc).2.1, if_pos hd]
  have hfn : ∀ pi n a, ∃ e, rebarFn (c.onTorch relu) pi n a = .error e := by
    intro pi n a
    unfold rebarFn
    split
    · split_ifs
      · exact ⟨_, by rw [hnet]⟩
      · exact ⟨_, rfl⟩
    · exact ⟨_, rfl⟩
  suffices h : ∀ tensor cost, ∃ e, rebarEstimator hook eta (c.onTorch relu) logProb name tensor cost = .error e from
    ⟨h, fun tensor costs hk r => surrogate_raises hook rfl (fun np rc => h np rc) hk r⟩
  intro tensor cost
  rw [rebarEstimator]
  cases relaxIndex name tensor with
  | error e => exact ⟨e, rfl⟩
  | ok r =>
    obtain ⟨plate, i⟩ := r
    cases i with
    | none => exact ⟨_, rfl⟩
    | some i =>
      dsimp only
      rw [rebarParts]
      cases logProb tensor with
      | error e => exact ⟨e, rfl⟩
      | ok lp =>
        obtain ⟨e, he⟩ := call_raises hook {} (hfn i (plate.n / 3)) (opArgs [.st tensor true, .st cost false])
        dsimp only
        rw [he]
        exact ⟨e, rfl⟩

omit [ValEq α] [Autograd α] in
/-- C89 is false with rebar when `in_dim` is a number above one: for more than one sample of vectors of that size, the sum of
the network's output of shape `[n]` and the costs of shape `[n, 1]` has the shape `[n, n]`, and storing it raises. -/
theorem C89_vector_refuted (relu : α → α) {n d : Nat} (hn : 1 < n) (hd : 1 < d) {w1 b1 w2 b2 : List Nat → α}
    {c : ControlNet α} (hc : ControlNet.make (.int d) w1 b1 w2 b2 = .ok c) {z y : Ten α} (hz : z.shape = [3 * n, d])
    (hy : y.shape = [3 * n, 1]) : ∃ e, rebarFn (c.onTorch relu) 0 n ⟨[.torch z, .torch y], []⟩ = .error e := by
  refine C43_network_refuted hn (d := d) (fun t ht => ?_) hz hy
  obtain ⟨-, m2, m3, m4, m5, m6⟩ := make_spec hc
  have lin : ∀ {u : Ten α} {q k : Nat} (w b : List Nat → α), u.shape = [n, q] →
      ∃ r, u.linear ⟨[k, q], w⟩ ⟨[k], b⟩ = .ok r ∧ r.shape = [n, k] := by
    intro u q k w b hu
    refine ⟨_, by rw [Ten.linear]; simp only [hu, List.getLast?_cons_cons, List.getLast?_singleton, if_true]; rfl, ?_⟩
    simp
  obtain ⟨h, h1, h2⟩ := lin (k := 50) w1 b1 ht
  obtain ⟨o, o1, o2⟩ := lin (u := h.map relu) (k := 1) w2 b2 h2
  refine ⟨o.squeezeLast, ?_, by simp [Ten.squeezeLast, o2]⟩
  rw [ControlNet.onTorch, m2, if_neg (by simp [InDim.flat]; omega), m3, m4, m5, m6]
  simp only [InDim.size, h1, o1]

/-! ### LAX -/

/-- C90 is false: as soon as one cost depends on a variable sampled with `LAX`, the surrogate loss raises, whatever the
control network, the distribution, the costs and the other variables are.  The exception is `NameError` if nothing else
raises before. -/
theorem C90_lax_refuted (hook : UnwrapHook α) (cPhi : STen α → Except Err (Operand α))
    (logProb : STen α → Except Err (STen α)) (tensor : STen α) :
    (∀ costs, (∃ k ∈ costs, laxSampled hook cPhi logProb tensor ∈ k.2) → ∀ r, surrogateLoss hook costs ≠ .ok r) ∧
    ∀ c rc np o lp lp' diff, reducedCost hook c tensor = .ok rc → newParent tensor rc = .ok np → cPhi np = .ok o →
      logProb np = .ok lp → sumIndices hook lp = .ok lp' → opCall hook subElts [.st rc false, o] = .ok diff →
      ∀ ps rest, surrogateLoss hook ((c, laxSampled hook cPhi logProb tensor :: ps) :: rest) = .error .name := by
  constructor
  · intro costs hk r
    refine surrogate_raises hook rfl (fun np rc => ?_) hk r
    show ∃ e, laxEstimator hook cPhi logProb np rc = .error e
    rw [laxEstimator]
    repeat' split
    all_goals exact ⟨_, rfl⟩
  · intro c rc np o lp lp' diff h1 h2 h3 h4 h5 h6 ps rest
    simp [surrogateLoss, surrogateCosts, surrogateCost, parentLoop, laxSampled, h1, h2, laxEstimator, h3, h4, h5, h6]

end

/-! ### Cases -/

namespace ControlNetCase

/-- Two samples of two by two numbers. -/
def x : STen ℚ := ⟨⟨[2, 2, 2], fun l => 4 * l.headD 0 + 2 * l.getD 1 0 + l.getD 2 0⟩, [vecPlate "x" 2 (fun _ => 1 / 2)], 1⟩

theorem x_proper : Proper x := ⟨⟨by decide, by decide, rfl, rfl⟩, by intro p hp; simp [x] at hp; rw [hp]; rfl⟩

/-- Weights that differ between inputs, and between the two units that are used. -/
def w1 (l : List Nat) : ℚ := if l.headD 0 = 0 then l.getD 1 0 + 1 else if l.headD 0 = 49 then 3 - 2 * l.getD 1 0 else 0
def w2 (l : List Nat) : ℚ := if l.getD 1 0 = 0 then 1 else if l.getD 1 0 = 49 then 10 else 0

/-- The hypotheses of `C89_event` and `C89_relax` are met: sizes two by two, two samples. -/
example : ∃ c r, ControlNet.make (.dims [2, 2]) w1 (fun _ => 1) w2 (fun _ => 5) = .ok c ∧
    c.forward (fun _ a => .ok a) (fun a => max a 0) x = .ok r ∧ r.plates = x.plates ∧ r.eventShape = [] := by
  obtain ⟨r, h1, -, h3, h4, -⟩ := C89_event (hook := fun _ a => .ok a) (fun _ _ _ => rfl) (fun a => max a 0)
    (d := .dims [2, 2]) (w1 := w1) (b1 := fun _ => 1) (w2 := w2) (b2 := fun _ => 5) rfl rfl x_proper (by decide)
  exact ⟨_, r, rfl, h1, h3, h4⟩

/-- The numbers: the first sample gives `1·0 + 2·1 + 3·2 + 4·3 + 1 = 21` at the first unit and a negative number at the
last one. -/
example : (match ControlNet.make (.dims [2, 2]) w1 (fun _ => 1) w2 (fun _ => 5) with
    | .error _ => none
    | .ok c => match c.forward (fun _ a => .ok a) (fun a => max a 0) x with
      | .error _ => none
      | .ok r => some (r.ten.shape, r.ten.get [0], r.ten.get [1])) = some ([2], 26, 66) := by decide +kernel

/-- The rows one by one, with `in_dim = 2` (`C89_rows`). -/
example : (match ControlNet.make (.int 2) w1 (fun _ => 1) w2 (fun _ => 5) with
    | .error _ => none
    | .ok c => match c.forward (fun _ a => .ok a) (fun a => max a 0) x with
      | .error _ => none
      | .ok r => some (r.ten.shape, r.ten.get [0, 0], r.ten.get [0, 1], r.ten.get [1, 1])) =
    some ([2, 2], 28, 114, 286) := by decide +kernel

example : ∃ c r, ControlNet.make (.int 2) w1 (fun _ => 1) w2 (fun _ => 5) = .ok c ∧
    c.forward (fun _ a => .ok a) (fun a => max a 0) x = .ok r ∧ r.plates = x.plates ∧ r.eventShape = [2] := by
  obtain ⟨r, h1, -, h3, h4, -⟩ := C89_rows (hook := fun _ a => .ok a) (fun _ _ _ => rfl) (fun a => max a 0)
    (d := 2) (by decide) (w1 := w1) (b1 := fun _ => 1) (w2 := w2) (b2 := fun _ => 5) rfl x_proper (s := [2]) (by decide)
  exact ⟨_, r, rfl, h1, h3, h4⟩

/-- Five inputs do not fit (`C89_sizes`). -/
example : ∃ c, ControlNet.make (.dims [5]) w1 (fun _ => 1) w2 (fun _ => 5) = .ok c ∧
    c.forward (fun _ a => .ok a) (fun a => max a 0) x = .error .torch :=
  ⟨_, rfl, C89_sizes (hook := fun _ a => .ok a) (fun _ _ _ => rfl) (fun a => max a 0) (d := .dims [5]) (w1 := w1)
    (b1 := fun _ => 1) (w2 := w2) (b2 := fun _ => 5) rfl x_proper (by decide) (by decide)⟩

/-- With rebar (`C89_rebar_refuted`, `C89_vector_refuted`): six rows, of which two are hard samples. -/
example : ∃ c, ControlNet.make (.dims [2]) (fun _ => (1 : Dual)) (fun _ => 1) (fun _ => 1) (fun _ => 5) = .ok c ∧
    ∀ r, surrogateLoss (fun _ a => .ok a) [(⟨⟨[6], fun _ => 1⟩, [vecPlate "x" 6 (fun _ => 1)], 1⟩,
      [rebarSampled (fun _ a => .ok a) (.torch (.scalar 1)) (c.onTorch id) (fun t => .ok t) "x"
        ⟨⟨[6, 2], fun _ => 1⟩, [vecPlate "x" 6 (fun _ => 1)], 1⟩])] ≠ .ok r :=
  ⟨_, rfl, (C89_rebar_refuted (α := Dual) (fun _ a => .ok a) id (d := .dims [2]) (w1 := fun _ => 1)
    (b1 := fun _ => 1) (w2 := fun _ => 1) (b2 := fun _ => 5) rfl rfl (.torch (.scalar 1)) (fun t => .ok t) "x").2 _ _
    ⟨_, List.mem_singleton_self _, List.mem_singleton_self _⟩⟩

/-- A variable with two samples of vectors, and a cost (`C90_lax_refuted`). -/
example : surrogateLoss (α := Dual) (fun _ a => .ok a) [(⟨⟨[2], fun _ => 1⟩, [vecPlate "x" 2 (fun _ => 1)], 1⟩,
    [laxSampled (fun _ a => .ok a) (fun _ => .ok (.torch (.scalar 1))) (fun t => .ok t)
      ⟨⟨[2, 3], fun _ => 1⟩, [vecPlate "x" 2 (fun _ => 1)], 1⟩])] = .error .name :=
  (C90_lax_refuted _ _ _ _).2 _ _ _ _ _ _ _ rfl rfl rfl rfl rfl rfl _ _

example : ∃ c e, ControlNet.make (.int 2) w1 (fun _ => 1) w2 (fun _ => 5) = .ok c ∧
    rebarFn (c.onTorch (fun a => max a 0)) 0 2 ⟨[.torch ⟨[6, 2], fun _ => 1⟩, .torch ⟨[6, 1], fun _ => 1⟩], []⟩ = .error e := by
  obtain ⟨e, he⟩ := C89_vector_refuted (fun a => max a 0) (n := 2) (d := 2) (by decide) (by decide) (w1 := w1)
    (b1 := fun _ => 1) (w2 := w2) (b2 := fun _ => 5) rfl (z := ⟨[6, 2], fun _ => 1⟩) (y := ⟨[6, 1], fun _ => 1⟩) rfl rfl
  exact ⟨_, e, rfl, he⟩

end ControlNetCase

end Storch
