import Verif.Props.SamplersProps

/-!
# C87: which estimators can be made, which sampling methods they make themselves, and that they are different objects

The specification is `Accepts`.
-/

namespace Storch.Samplers

/-! ### Specification -/

/-- The arguments that the constructor of a class of estimators accepts, with a sampling method of class `cls`: a function cannot
be set without replacement, the batch average needs two samples of `MonteCarlo`, and RELAX a control variate. -/
def Accepts (cls : Cls) (n : Nat) : Kind → Prop
  | .score .none => True
  | .score .movingAverage => True
  | .score .batchAverage => ∃ N, cls = .monteCarlo N ∧ 2 ≤ N
  | .score .invalid => False
  | .relax control => control = true ∧ ∀ k, cls ≠ .swor k
  | .infer .other => n = 1 ∨ ∃ N, cls = .monteCarlo N ∧ 2 ≤ N
  | .expect => True
  | .wor _ => True
  | _ => ∀ k, cls ≠ .swor k

/-! ### Proofs -/

theorem orDefault_made (plate : String) (arg : Option Nat) (n : Nat) (w : World) : (orDefault plate arg n w).1.made = w.made := by
  cases arg <;> rfl

theorem setSample_made (i : Nat) (f : Nat × Fn) (w : World) : (setSample i f w).1.made = w.made := by
  rw [setSample]
  cases w.samplers[i]? with
  | none => rfl
  | some s => obtain ⟨pl, c, a, b⟩ := s; cases c <;> rfl

theorem setWeight_made (i : Nat) (f : Nat × WFn) (w : World) : (setWeight i f w).1.made = w.made := by
  rw [setWeight]
  cases w.samplers[i]? <;> rfl

theorem initScore_made (plate : String) (arg : Option Nat) (n : Nat) (b : Baseline) (w : World) :
    (initScore plate arg n b w).1.made = w.made + 1 := by
  rw [initScore_world, orDefault_made]; rfl

theorem initFn_made (kind : Kind) (f : Fn) (plate : String) (arg : Option Nat) (n : Nat) (w : World) :
    (initFn kind f plate arg n w).1.made = w.made + 1 := by
  rw [initFn_world, setSample_made, orDefault_made]; rfl

theorem initWeighted_made (kind : Kind) (f : Fn) (g : WFn) (plate : String) (arg : Option Nat) (n : Nat) (w : World) :
    (initWeighted kind f g plate arg n w).1.made = w.made + 1 := by
  rcases initWeighted_world kind f g plate arg n w with e | e
  · rw [e, setSample_made, orDefault_made]; rfl
  · rw [e, setWeight_made, setSample_made, orDefault_made]; rfl

/-- The numbers of the estimators that a constructor makes are new. -/
theorem construct_made (kind : Kind) (plate : String) (arg : Option Nat) (n : Nat) (w : World) :
    w.made ≤ (construct kind plate arg n w).1.made ∧ ∀ m, (construct kind plate arg n w).2 = .ok m →
      w.made ≤ m.id ∧ m.id < (construct kind plate arg n w).1.made ∧
      w.made ≤ m.inner ∧ m.inner < (construct kind plate arg n w).1.made := by
  have fn : ∀ k f, construct kind plate arg n w = initFn k f plate arg n w →
      w.made ≤ (construct kind plate arg n w).1.made ∧ ∀ m, (construct kind plate arg n w).2 = .ok m →
        w.made ≤ m.id ∧ m.id < (construct kind plate arg n w).1.made ∧
        w.made ≤ m.inner ∧ m.inner < (construct kind plate arg n w).1.made := by
    intro k f e
    rw [e]
    have h := initFn_made k f plate arg n w
    refine ⟨by omega, fun m hm => ?_⟩
    obtain ⟨hm', -⟩ := initFn_ok (Prod.ext rfl hm : initFn k f plate arg n w = (_, .ok m))
    rw [hm']; simp only; omega
  have two : ∀ k f g, construct kind plate arg n w = initWeighted k f g plate arg n w →
      w.made ≤ (construct kind plate arg n w).1.made ∧ ∀ m, (construct kind plate arg n w).2 = .ok m →
        w.made ≤ m.id ∧ m.id < (construct kind plate arg n w).1.made ∧
        w.made ≤ m.inner ∧ m.inner < (construct kind plate arg n w).1.made := by
    intro k f g e
    rw [e]
    have h := initWeighted_made k f g plate arg n w
    refine ⟨by omega, fun m hm => ?_⟩
    obtain ⟨hm', -⟩ := initWeighted_ok (Prod.ext rfl hm : initWeighted k f g plate arg n w = (_, .ok m))
    rw [hm']; simp only; omega
  have own : ∀ k c, construct kind plate arg n w = initOwn k c plate w →
      w.made ≤ (construct kind plate arg n w).1.made ∧ ∀ m, (construct kind plate arg n w).2 = .ok m →
        w.made ≤ m.id ∧ m.id < (construct kind plate arg n w).1.made ∧
        w.made ≤ m.inner ∧ m.inner < (construct kind plate arg n w).1.made := by
    intro k c e
    rw [e]
    simp only [initOwn, newId, newSampler, Except.ok.injEq]
    refine ⟨by omega, ?_⟩
    rintro m rfl
    simp
  cases kind with
  | score b =>
    have h := initScore_made plate arg n b w
    refine ⟨by show _ ≤ (initScore plate arg n b w).1.made; omega, fun m hm => ?_⟩
    obtain ⟨-, hm', -⟩ := initScore_ok (Prod.ext rfl hm : initScore plate arg n b w = (_, .ok m))
    show _ ∧ m.id < (initScore plate arg n b w).1.made ∧ _ ∧ m.inner < (initScore plate arg n b w).1.made
    rw [hm']; simp only; omega
  | reparam => exact fn _ _ rfl
  | gumbel => exact fn _ _ rfl
  | entmax => exact fn _ _ rfl
  | disarm => exact fn _ _ rfl
  | arm => exact two _ _ _ rfl
  | relax c => exact two _ _ _ rfl
  | expect => exact own _ _ rfl
  | wor k => exact own _ _ rfl
  | infer t =>
    have hin : (inferInner t plate arg n (newId w).1).1.made = w.made + 2 := by
      cases t
      · exact initFn_made _ _ _ _ _ _
      · exact initFn_made _ _ _ _ _ _
      · exact initScore_made _ _ _ _ _
    have hid : ∀ m, (inferInner t plate arg n (newId w).1).2 = .ok m → m.id = w.made + 1 := by
      intro m hm
      cases t
      · obtain ⟨e, -⟩ := initFn_ok (Prod.ext rfl hm : inferInner .rsample plate arg n (newId w).1 = (_, .ok m)); rw [e]; rfl
      · obtain ⟨e, -⟩ := initFn_ok (Prod.ext rfl hm : inferInner .discrete plate arg n (newId w).1 = (_, .ok m)); rw [e]; rfl
      · obtain ⟨-, e, -⟩ := initScore_ok (Prod.ext rfl hm : inferInner .other plate arg n (newId w).1 = (_, .ok m)); rw [e]; rfl
    rw [construct, initInfer_eq]
    rcases hr : inferInner t plate arg n (newId w).1 with ⟨v, e | m'⟩
    · rw [hr] at hin
      exact ⟨by simp only at hin ⊢; omega, fun m hm => by cases hm⟩
    · rw [hr] at hin hid
      have h1 := hid m' rfl
      have h2 := initScore_made plate arg n .none v
      simp only at hin ⊢
      rcases hr2 : initScore plate arg n .none v with ⟨u, e | m2⟩
      · rw [hr2] at h2
        exact ⟨by simp only at h2 ⊢; omega, fun m hm => by cases hm⟩
      · rw [hr2] at h2
        simp only at h2 ⊢
        refine ⟨by omega, ?_⟩
        rintro m hm
        cases hm
        simp only; omega

theorem run_made (p : List Cmd) (w : World) : w.made ≤ (run w p).made := by
  induction p generalizing w with
  | nil => exact Nat.le_refl _
  | cons c p ih =>
    refine Nat.le_trans ?_ (ih (step w c))
    cases c with
    | sampler plate cls => exact Nat.le_refl _
    | method kind plate arg n => exact (construct_made _ _ _ _ _).1

theorem baseInit_isOk {plate : String} {i : Nat} {w : World} {x : Sampler} (hx : w.samplers[i]? = some x) :
    (∃ u, baseInit plate i w = .ok u) ↔ x.plate = plate := by
  rw [baseInit, hx]
  simp only
  split_ifs with h
  · simp [h]
  · simp [h]

theorem initScore_isOk {plate : String} {i n : Nat} {b : Baseline} {w : World} {x : Sampler} (hx : w.samplers[i]? = some x) :
    (∃ m, (initScore plate (some i) n b w).2 = .ok m) ↔ x.plate = plate ∧ Accepts x.cls n (.score b) := by
  have hb := baseInit_isOk (plate := plate) hx
  have hn : nSamples i ⟨w.samplers, w.made + 1⟩ = match x.cls with | .monteCarlo n => .ok n | _ => .error .attribute := by
    rw [nSamples, hx]
    obtain ⟨pl, c, a, d⟩ := x
    cases c <;> rfl
  show (∃ m, (match baseInit plate i w with
    | .error e => ((newId w).1, Except.error e)
    | .ok () => _ : World × Except Err Method).2 = .ok m) ↔ _
  rcases hr : baseInit plate i w with e | u
  · rw [hr] at hb
    have : ¬x.plate = plate := fun h => by obtain ⟨u, hu⟩ := hb.2 h; cases hu
    simp [this]
  · rw [hr] at hb
    have hp : x.plate = plate := hb.1 ⟨u, rfl⟩
    simp only [hp, true_and]
    cases b with
    | none => simp [Accepts]
    | movingAverage => simp [Accepts]
    | invalid => simp [Accepts]
    | batchAverage =>
      obtain ⟨pl, c, a, d⟩ := x
      cases c <;> simp only [hn, Accepts, reduceCtorEq, false_and, exists_false, Cls.monteCarlo.injEq]
      rename_i N
      by_cases h1 : N ≤ 1
      · simp only [h1, if_true, reduceCtorEq, exists_false, false_iff]
        rintro ⟨N', rfl, h⟩; omega
      · simp only [h1, if_false, Except.ok.injEq, exists_eq', true_iff]
        exact ⟨N, rfl, by omega⟩

theorem setSample_isOk {i : Nat} {f : Nat × Fn} {w : World} {x : Sampler} (hx : w.samplers[i]? = some x) :
    (∀ k, x.cls ≠ .swor k) → ∃ w1, setSample i f w = (w1, .ok ()) ∧ w1.samplers[i]? = some { x with mcSample := some f } := by
  intro h
  have : ∃ w1, setSample i f w = (w1, .ok ()) := by
    rw [setSample, hx]
    obtain ⟨pl, c, a, d⟩ := x
    cases c <;> first | exact ⟨_, rfl⟩ | exact absurd rfl (h _)
  obtain ⟨w1, e⟩ := this
  obtain ⟨s, h1, h2, -⟩ := setSample_ok e
  rw [hx] at h1
  cases h1
  exact ⟨w1, e, h2⟩

theorem setSample_swor {i k : Nat} {f : Nat × Fn} {w : World} {x : Sampler} (hx : w.samplers[i]? = some x) (h : x.cls = .swor k) :
    setSample i f w = (w, .error .runtime) := by
  rw [setSample, hx]
  simp only [h]

theorem initFn_isOk {kind : Kind} {f : Fn} {plate : String} {i n : Nat} {w : World} {x : Sampler} (hx : w.samplers[i]? = some x) :
    (∃ m, (initFn kind f plate (some i) n w).2 = .ok m) ↔ x.plate = plate ∧ ∀ k, x.cls ≠ .swor k := by
  by_cases hs : ∃ k, x.cls = .swor k
  · obtain ⟨k, hk⟩ := hs
    have := setSample_swor (f := (w.made, f)) (w := (newId w).1) hx hk
    have e : (initFn kind f plate (some i) n w).2 = .error .runtime := by
      show (match setSample i (w.made, f) (newId w).1 with
        | (w, .error e) => (w, Except.error e)
        | (w, .ok ()) => _ : World × Except Err Method).2 = _
      rw [this]
    rw [e]
    constructor
    · rintro ⟨m, hm⟩; cases hm
    · rintro ⟨-, h⟩; exact absurd hk (h k)
  · have hs' : ∀ k, x.cls ≠ .swor k := fun k hk => hs ⟨k, hk⟩
    obtain ⟨w1, h1, h2⟩ := setSample_isOk (f := (w.made, f)) (w := (newId w).1) hx hs'
    have hb := baseInit_isOk (plate := plate) h2
    show (∃ m, (match setSample i (w.made, f) (newId w).1 with
        | (w, .error e) => (w, Except.error e)
        | (w, .ok ()) => match baseInit plate i w with
          | .error e => (w, .error e)
          | .ok () => (w, .ok _) : World × Except Err Method).2 = .ok m) ↔ _
    rw [h1]
    simp only
    rcases hr : baseInit plate i w1 with e | u
    · rw [hr] at hb
      have : ¬x.plate = plate := fun h => by obtain ⟨u, hu⟩ := hb.2 h; cases hu
      simp [this]
    · rw [hr] at hb
      simp only [show x.plate = plate from hb.1 ⟨u, rfl⟩, true_and]
      exact ⟨fun _ => hs', fun _ => ⟨_, rfl⟩⟩

theorem initWeighted_isOk {kind : Kind} {f : Fn} {g : WFn} {plate : String} {i n : Nat} {w : World} {x : Sampler}
    (hx : w.samplers[i]? = some x) :
    (∃ m, (initWeighted kind f g plate (some i) n w).2 = .ok m) ↔
      x.plate = plate ∧ (∀ k, x.cls ≠ .swor k) ∧ kind ≠ .relax false := by
  by_cases hs : ∃ k, x.cls = .swor k
  · obtain ⟨k, hk⟩ := hs
    have := setSample_swor (f := (w.made, f)) (w := (newId w).1) hx hk
    have e : (initWeighted kind f g plate (some i) n w).2 = .error .runtime := by
      show (match setSample i (w.made, f) (newId w).1 with
        | (w, .error e) => (w, Except.error e)
        | (w, .ok ()) => _ : World × Except Err Method).2 = _
      rw [this]
    rw [e]
    constructor
    · rintro ⟨m, hm⟩; cases hm
    · rintro ⟨-, h, -⟩; exact absurd hk (h k)
  · have hs' : ∀ k, x.cls ≠ .swor k := fun k hk => hs ⟨k, hk⟩
    obtain ⟨w1, h1, h2⟩ := setSample_isOk (f := (w.made, f)) (w := (newId w).1) hx hs'
    have h3 : ∃ w2, setWeight i (w.made, g) w1 = (w2, .ok ()) := by
      rw [setWeight, h2]; exact ⟨_, rfl⟩
    obtain ⟨w2, h3⟩ := h3
    obtain ⟨s, h4, h5, -⟩ := setWeight_ok h3
    rw [h2] at h4
    cases h4
    have hb := baseInit_isOk (plate := plate) h5
    show (∃ m, (match setSample i (w.made, f) (newId w).1 with
        | (w, .error e) => (w, Except.error e)
        | (v, .ok ()) => match setWeight i (w.made, g) v with
          | (w, .error e) => (w, .error e)
          | (w, .ok ()) => match baseInit plate i w with
            | .error e => (w, .error e)
            | .ok () => if kind = .relax false then (w, .error .value) else (w, .ok _) : World × Except Err Method).2 = .ok m) ↔ _
    rw [h1]
    simp only
    rw [h3]
    simp only
    rcases hr : baseInit plate i w2 with e | u
    · rw [hr] at hb
      have : ¬x.plate = plate := fun h => by obtain ⟨u, hu⟩ := hb.2 h; cases hu
      simp [this]
    · rw [hr] at hb
      simp only [show x.plate = plate from hb.1 ⟨u, rfl⟩, true_and]
      by_cases hk : kind = .relax false
      · simp [hk]
      · simp only [if_neg hk]
        exact ⟨fun _ => ⟨hs', hk⟩, fun _ => ⟨_, rfl⟩⟩

/-! ### C87 -/

/-- **C87** (which arguments are accepted).  In every state: with a sampling method that exists, the constructor of an estimator
returns exactly if the names are equal and the class of the sampling method fits (`Accepts`). -/
theorem C87_accepts {w : World} {s : Nat} {x : Sampler} (hx : w.samplers[s]? = some x) {kind : Kind} (ht : Takes kind) (plate : String)
    (n : Nat) :
    (∃ w1 m, construct kind plate (some s) n w = (w1, .ok m)) ↔ x.plate = plate ∧ Accepts x.cls n kind := by
  have e : (∃ w1 m, construct kind plate (some s) n w = (w1, .ok m)) ↔ ∃ m, (construct kind plate (some s) n w).2 = .ok m :=
    ⟨fun ⟨w1, m, h⟩ => ⟨m, by rw [h]⟩, fun ⟨m, h⟩ => ⟨_, m, Prod.ext rfl h⟩⟩
  rw [e]
  cases kind with
  | score b => exact initScore_isOk (n := n) hx
  | reparam => exact initFn_isOk (n := n) hx
  | gumbel => exact initFn_isOk (n := n) hx
  | entmax => exact initFn_isOk (n := n) hx
  | disarm => exact initFn_isOk (n := n) hx
  | arm => exact (initWeighted_isOk (n := n) hx).trans ⟨fun h => ⟨h.1, h.2.1⟩, fun h => ⟨h.1, h.2, by simp⟩⟩
  | relax c =>
    refine (initWeighted_isOk (n := n) hx).trans ⟨fun h => ⟨h.1, ?_, h.2.1⟩, fun h => ⟨h.1, h.2.2, ?_⟩⟩
    · cases c
      · exact absurd rfl h.2.2
      · rfl
    · rw [h.2.1]; simp
  | expect => exact ht.elim
  | wor k => exact ht.elim
  | infer t =>
    rw [construct, initInfer_eq]
    have hin : (∃ m, (inferInner t plate (some s) n (newId w).1).2 = .ok m) ↔ x.plate = plate ∧ Accepts x.cls n (.infer t) := by
      cases t with
      | rsample => exact initFn_isOk (n := n) (w := (newId w).1) hx
      | discrete => exact initFn_isOk (n := n) (w := (newId w).1) hx
      | other =>
        refine (initScore_isOk (n := n) (w := (newId w).1) hx).trans ?_
        by_cases h1 : n = 1
        · simp [h1, Accepts]
        · simp [h1, Accepts]
    have hfix := (inferInner_fixed (newId w).1 (some s) t plate n).same s (by
      by_contra hc
      have : w.samplers[s]? = none := List.getElem?_eq_none (Nat.le_of_not_lt hc)
      rw [this] at hx; cases hx)
    rcases hr : inferInner t plate (some s) n (newId w).1 with ⟨v, e | m'⟩
    · rw [hr] at hin
      rw [← hin]
    · rw [hr] at hin hfix
      have ha := hin.1 ⟨m', rfl⟩
      have hv : ∃ y, v.samplers[s]? = some y ∧ y.plate = x.plate := by
        rw [show (newId w).1.samplers[s]? = some x from hx] at hfix
        simp only [Option.map_some] at hfix
        cases hy : v.samplers[s]? with
        | none => rw [hy] at hfix; cases hfix
        | some y =>
          rw [hy] at hfix
          simp only [Option.map_some, Option.some.injEq, Prod.mk.injEq] at hfix
          exact ⟨y, rfl, hfix.1⟩
      obtain ⟨y, hy, hyp⟩ := hv
      have h2 := (initScore_isOk (plate := plate) (n := n) (b := .none) hy).2 ⟨by rw [hyp]; exact ha.1, trivial⟩
      obtain ⟨m2, hm2⟩ := h2
      simp only
      rcases hr2 : initScore plate (some s) n .none v with ⟨u, e | m3⟩
      · rw [hr2] at hm2; cases hm2
      · exact ⟨fun _ => ha, fun _ => ⟨_, rfl⟩⟩

/-- **C87** (no sampling method given).  The constructor returns unless the baseline is invalid or the batch average is asked of
less than two samples, or the control variate of RELAX is missing. -/
theorem C87_accepts_default (w : World) {kind : Kind} (ht : Takes kind) (plate : String) (n : Nat) :
    (∃ w1 m, construct kind plate none n w = (w1, .ok m)) ↔ Accepts (.monteCarlo n) n kind := by
  have hx : ∀ v : World, (newSampler plate (.monteCarlo n) v).1.samplers[v.samplers.length]? = some ⟨plate, .monteCarlo n, none, none⟩ := by
    intro v; simp [newSampler]
  have easy : construct kind plate none n w = construct kind plate (some w.samplers.length) n (newSampler plate (.monteCarlo n) w).1 →
      ((∃ w1 m, construct kind plate none n w = (w1, .ok m)) ↔ Accepts (.monteCarlo n) n kind) := by
    intro e
    rw [e, C87_accepts (hx w) ht]
    simp
  cases kind with
  | infer t =>
    have hin : (∃ m, (inferInner t plate none n (newId w).1).2 = .ok m) ↔ Accepts (.monteCarlo n) n (.infer t) := by
      have e : inferInner t plate none n (newId w).1 =
          inferInner t plate (some w.samplers.length) n (newSampler plate (.monteCarlo n) (newId w).1).1 := by cases t <;> rfl
      rw [e]
      cases t with
      | rsample => exact (initFn_isOk (n := n) (hx (newId w).1)).trans (by simp [Accepts])
      | discrete => exact (initFn_isOk (n := n) (hx (newId w).1)).trans (by simp [Accepts])
      | other =>
        refine (initScore_isOk (n := n) (hx (newId w).1)).trans ?_
        by_cases h1 : n = 1
        · simp [h1, Accepts]
        · simp [h1, Accepts]
    rw [construct, initInfer_eq]
    rcases hr : inferInner t plate none n (newId w).1 with ⟨v, e | m'⟩
    · rw [hr] at hin
      rw [← hin]
      simp
    · rw [hr] at hin
      have ha := hin.1 ⟨m', rfl⟩
      have h2 := (initScore_isOk (plate := plate) (n := n) (b := .none) (hx v)).2 ⟨rfl, trivial⟩
      obtain ⟨m2, hm2⟩ := h2
      have h3 : (initScore plate none n .none v).2 = .ok m2 := hm2
      simp only
      rcases hr2 : initScore plate none n .none v with ⟨u, e | m3⟩
      · rw [hr2] at h3; cases h3
      · exact ⟨fun _ => ha, fun _ => ⟨_, _, rfl⟩⟩
  | expect => exact ht.elim
  | wor k => exact ht.elim
  | _ => exact easy rfl

/-- **C87** (estimators that make their sampling method themselves).  `Expect` takes the support with the probabilities, the
estimators without replacement decode with their `k`, whatever the program does afterwards. -/
theorem C87_own (w : World) (plate : String) (arg : Option Nat) (n : Nat) (p : List Cmd) (present : Bool) :
    (∃ w1 m, construct .expect plate arg n w = (w1, .ok m) ∧ sample m present (run w1 p) = .ok (.support, .probs)) ∧
    ∀ k, ∃ w1 m, construct (.wor k) plate arg n w = (w1, .ok m) ∧ sample m present (run w1 p) = .ok (.beam k, .swor) := by
  have key : ∀ cls : Cls, ((newSampler plate cls (newId w).1).1).samplers[w.samplers.length]? = some ⟨plate, cls, none, none⟩ := by
    intro cls; simp [newSampler, newId]
  exact ⟨⟨_, _, rfl, (C87_classes (key .enumerate) p rfl present).2.1 rfl⟩,
    fun k => ⟨_, _, rfl, (C87_classes (key (.swor k)) p rfl present).2.2 k rfl⟩⟩

/-- **C87** (estimators are different objects).  Two estimators that are made one after the other have different numbers, and so
have those that they made for sampling: the function that `C87_given_partial` names is that of no other estimator. -/
theorem C87_distinct {w w1 w2 : World} {k1 k2 : Kind} {p1 p2 : String} {a1 a2 : Option Nat} {n1 n2 : Nat} {m1 m2 : Method}
    (h1 : construct k1 p1 a1 n1 w = (w1, .ok m1)) (p : List Cmd) (h2 : construct k2 p2 a2 n2 (run w1 p) = (w2, .ok m2)) :
    m1.id ≠ m2.id ∧ m1.inner ≠ m2.inner ∧ m1.id ≠ m2.inner ∧ m1.inner ≠ m2.id := by
  have e1 := (construct_made k1 p1 a1 n1 w).2 m1 (by rw [h1])
  have e2 := (construct_made k2 p2 a2 n2 (run w1 p)).2 m2 (by rw [h2])
  rw [h1] at e1
  rw [h2] at e2
  have := run_made p w1
  simp only at e1 e2
  omega

/-! ### Cases -/

namespace SamplersMakeCase

/-- Sampling methods of three classes, and estimators that `C87_accepts` says are made or refused. -/
def w : World := run init [.sampler "x" (.monteCarlo 2), .sampler "y" (.swor 3), .sampler "z" (.mcDecoder 4)]

example : (∃ w1 m, construct (.score .batchAverage) "x" (some 0) 1 w = (w1, .ok m)) ∧
    (¬∃ w1 m, construct (.score .batchAverage) "z" (some 2) 1 w = (w1, .ok m)) ∧
    (¬∃ w1 m, construct .arm "y" (some 1) 1 w = (w1, .ok m)) ∧ (∃ w1 m, construct (.score .none) "y" (some 1) 1 w = (w1, .ok m)) ∧
    (∃ w1 m, construct (.relax true) "z" (some 2) 1 w = (w1, .ok m)) ∧ ¬∃ w1 m, construct .arm "x" (some 2) 1 w = (w1, .ok m) := by
  have h0 : w.samplers[0]? = some ⟨"x", .monteCarlo 2, none, none⟩ := rfl
  have h1 : w.samplers[1]? = some ⟨"y", .swor 3, none, none⟩ := rfl
  have h2 : w.samplers[2]? = some ⟨"z", .mcDecoder 4, none, none⟩ := rfl
  refine ⟨(C87_accepts h0 (kind := .score .batchAverage) trivial _ _).2 ⟨rfl, 2, rfl, by decide⟩, ?_, ?_, (C87_accepts h1 (kind := .score .none) trivial _ _).2 ⟨rfl, trivial⟩,
    (C87_accepts h2 (kind := .relax true) trivial _ _).2 ⟨rfl, rfl, by simp⟩, ?_⟩
  · rw [C87_accepts h2 (kind := .score .batchAverage) trivial]; rintro ⟨-, N, h, -⟩; cases h
  · rw [C87_accepts h1 (kind := .arm) trivial]; rintro ⟨-, h⟩; exact h 3 rfl
  · rw [C87_accepts h2 (kind := .arm) trivial]; rintro ⟨h, -⟩; simp at h

/-- `C87_accepts_default`: `Infer` with one sample for any distribution, but the batch average needs two. -/
example : (∃ w1 m, construct (.infer .other) "q" none 1 w = (w1, .ok m)) ∧ ¬∃ w1 m, construct (.score .batchAverage) "q" none 1 w = (w1, .ok m) := by
  refine ⟨(C87_accepts_default w (kind := .infer .other) trivial _ _).2 (.inl rfl), ?_⟩
  rw [C87_accepts_default w (kind := .score .batchAverage) trivial]
  rintro ⟨N, h, h2⟩
  cases h
  omega

/-- `C87_own` with a program that goes on: an estimator without replacement decodes with its own `k`, though another
one is made with the same plate afterwards. -/
example : ∃ w1 m, construct (.wor 3) "q" none 1 w = (w1, .ok m) ∧
    sample m false (run w1 [.method (.wor 5) "q" none 1, .sampler "q" (.swor 7)]) = .ok (.beam 3, .swor) :=
  (C87_own w "q" none 1 _ false).2 3

/-- The hypotheses of `C87_distinct` are met. -/
example : ∃ w1 m1 w2 m2, construct (.infer .discrete) "x" (some 0) 1 w = (w1, .ok m1) ∧
    construct .gumbel "z" (some 2) 1 (run w1 [.method .expect "e" none 1]) = (w2, .ok m2) ∧
    (m1.id, m1.inner, m2.id, m2.inner) = (0, 1, 4, 4) := ⟨_, _, _, _, rfl, rfl, rfl⟩

end SamplersMakeCase

end Storch.Samplers
