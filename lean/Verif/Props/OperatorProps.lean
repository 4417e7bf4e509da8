import Verif.Model.Operators
import Verif.Props.BroadcastProps
import Verif.Props.ExposeProps

/-!
# Operators on storch tensors (C78)

The specification is the meaning of the operators for torch tensors, element by element.
-/

namespace Storch
variable {α : Type _}

/-- What the operators of `torch.Tensor` compute for the elements. -/
def TorchOps.bin (T : TorchOps α) : BinOp → α → α → α
  | .add => T.add
  | .sub => T.sub
  | .mul => T.mul
  | .pow => T.pow
  | .mod => T.remainder
  | .truediv => T.trueDivide
  | .floordiv => T.floorDivide
  | .and => T.bitwiseAnd
  | .or => T.bitwiseOr
  | .xor => T.bitwiseXor
  | .lshift => T.shl
  | .rshift => T.shr
  | .ge => T.ge
  | .gt => T.gt
  | .le => T.le
  | .lt => T.lt
  | .eq => T.eq
  | .ne => T.ne

/-- What the unary operators of `torch.Tensor` compute for the elements. -/
def TorchOps.un (T : TorchOps α) : UnOp → α → α
  | .neg => T.neg
  | .pos => id
  | .abs => T.abs
  | .invert => T.invert

/-- Comparisons can be read from both sides. -/
structure TorchOps.Lawful (T : TorchOps α) : Prop where
  gt : ∀ a b, T.gt a b = T.lt b a
  ge : ∀ a b, T.ge a b = T.le b a
  eq : ∀ a b, T.eq a b = T.eq b a

variable [ValEq α] [Zero α]

/-- `r` is `f` of the two operands, for every sample and event. -/
def OfSamples (f : α → α → α) (a b : Operand α) (es : List Nat) (r : STen α) : Prop :=
  r.WF ∧ FirstOcc r.plates ((stens [a, b]).flatMap STen.plates) ∧ r.eventShape = es ∧
    ∀ (ι : String → Nat) (e : List Nat), Ten.InB e es → r.sample ι e = f (a.sample ι e) (b.sample ι e)

/-- The operands of C05: proper tensors whose event shapes broadcast to `es`, one of them a storch tensor. -/
structure Fit (a b : Operand α) (es : List Nat) : Prop where
  good : GoodOps [a, b]
  tensor : stens [a, b] ≠ []
  torch : ∀ t, Operand.torch t ∈ [a, b] → t.ndim ≤ maxEv [a, b]
  shape : Ten.bshapes ([a, b].map (Operand.evShape (maxEv [a, b]))) = some es

theorem Fit.call {hook : UnwrapHook α} (hh : PlainHook hook) (f : α → α → α) {a b : Operand α} {es : List Nat}
    (h : Fit a b es) : ∃ r, handleDet hook false false {} (elementwiseFn (binElts f)) (opArgs [a, b]) = .ok (.st r false) ∧
      OfSamples f a b es r := by
  obtain ⟨r, h1, h2, h3, h4, h5⟩ := C05_elementwise hook hh (binElts f) [a, b] h.good h.tensor h.torch es h.shape
  exact ⟨r, h1, h2, h3, h4, fun ι e he => by rw [h5 ι e he]; rfl⟩

theorem torchBin_call {hook : UnwrapHook α} (hh : PlainHook hook) {takes : Bool × Bool} (f : α → α → α) {a b : PyArg α}
    {es : List Nat} (h : Fit a.operand b.operand es) (ha : ∀ c, a = .num c → takes.1 = true)
    (hb : ∀ c, b = .num c → takes.2 = true) :
    ∃ r, torchBin hook takes f a b = .ok (.st r false) ∧ OfSamples f a.operand b.operand es r := by
  have hc := h.call hh f
  cases a with
  | num c => simpa only [torchBin, ha c rfl, if_true] using hc
  | tensor o =>
    cases b with
    | num c => simpa only [torchBin, hb c rfl, if_true] using hc
    | tensor o' => simpa only [torchBin] using hc

omit [Zero α] in
/-- The plates of one tensor, each once, are its plates. -/
theorem firstOcc_eq {x : STen α} (hx : x.WF) {R : List (Plate α)} (h : FirstOcc R x.plates) : R = x.plates := by
  have hnd : x.plates.Nodup := List.Nodup.of_map _ hx.names
  refine h.sub.eq_of_length_le ?_
  refine (hnd.subperm ?_).length_le
  intro p hp
  obtain ⟨l1, l2, hl⟩ := List.append_of_mem hp
  refine h.first l1 p l2 hl ?_
  intro q hq
  rw [Bool.eq_false_iff]
  intro he
  have hn := hx.names
  rw [hl, List.map_append, List.map_cons, List.nodup_append] at hn
  exact hn.2.2 q.name (List.mem_map_of_mem hq) p.name (by simp) (Plate.pyEq_name he)

theorem bzip_both (s : List Nat) : Ten.bzip (List.replicate s.length 1) s = some s ∧
    Ten.bzip s (List.replicate s.length 1) = some s := by
  induction s with
  | nil => exact ⟨rfl, rfl⟩
  | cons d s ih =>
    by_cases hd : 1 = d
    · subst hd
      simp [List.replicate_succ, Ten.bzip, Ten.bdim, ih.1, ih.2]
    · simp [List.replicate_succ, Ten.bzip, Ten.bdim, ih.1, ih.2, hd, Ne.symm hd]

omit [Zero α] in
/-- A storch tensor and a number fit. -/
theorem fit_num {y : STen α} {s : Bool} (h : GoodOps [.st y s]) (c : α) :
    Fit (.torch (Ten.scalar c)) (.st y s) y.eventShape ∧ Fit (.st y s) (.torch (Ten.scalar c)) y.eventShape := by
  have he : y.eventDims = y.eventShape.length := rfl
  have m1 : maxEv [.torch (Ten.scalar c), .st y s] = y.eventDims := by simp [maxEv, stens]
  have m2 : maxEv [.st y s, .torch (Ten.scalar c)] = y.eventDims := by simp [maxEv, stens]
  have p1 : Ten.padL y.eventShape.length y.eventShape = y.eventShape := by simp [Ten.padL]
  have p2 : Ten.padL y.eventShape.length (List.replicate y.eventShape.length 1) = List.replicate y.eventShape.length 1 := by
    simp [Ten.padL]
  have b1 : Ten.bzip (List.replicate y.eventShape.length 1) (List.replicate y.eventShape.length 1) =
      some (List.replicate y.eventShape.length 1) := by
    have := (bzip_both (List.replicate y.eventShape.length 1)).1
    simpa using this
  refine ⟨⟨⟨h.wf, h.plain, h.agree⟩, by simp [stens], ?_, ?_⟩, ⟨⟨h.wf, h.plain, h.agree⟩, by simp [stens], ?_, ?_⟩⟩
  · intro t ht
    simp at ht
    subst ht
    exact Nat.zero_le _
  · rw [m1]
    have : [Operand.torch (Ten.scalar c), .st y s].map (Operand.evShape y.eventDims) =
        [List.replicate y.eventShape.length 1, y.eventShape] := by
      simp [Operand.evShape, Ten.scalar, Ten.ndim, he]
    rw [this, bshapes_eq _ y.eventShape.length (by simp)]
    simp [p1, p2, b1, (bzip_both y.eventShape).1, bfold]
  · intro t ht
    simp at ht
    subst ht
    exact Nat.zero_le _
  · rw [m2]
    have : [Operand.st y s, .torch (Ten.scalar c)].map (Operand.evShape y.eventDims) =
        [y.eventShape, List.replicate y.eventShape.length 1] := by
      simp [Operand.evShape, Ten.scalar, Ten.ndim, he]
    rw [this, bshapes_eq _ y.eventShape.length (by simp)]
    simp [p1, p2, (bzip_both y.eventShape).1, (bzip_both y.eventShape).2, bfold]

/-- C78 for all operators but `&`, `|`, `^`, `<<`, `!=`: with a storch tensor or a torch tensor on the left, the result has the
plates of both operands and is what torch's operator computes, for every sample and event.  Numbers are allowed where the
torch function accepts them.  Missing: these five operators (refuted), and numbers on the left (`C78_reflected_partial`). -/
theorem C78_partial {hook : UnwrapHook α} (hh : PlainHook hook) (T : TorchOps α) (takes : BinOp → Bool × Bool) {op : BinOp}
    (hop : op ∉ [BinOp.and, .or, .xor, .lshift, .ne]) {o : Operand α} {b : PyArg α} {es : List Nat}
    (h : Fit o b.operand es) (hb : ∀ c, b = .num c → (takes op).2 = true) :
    ∃ r, pyBin T takes T.bin hook op (.tensor o) b = .ok (.st r false) ∧ OfSamples (T.bin op) o b.operand es r := by
  have key : ∀ f, ∃ r, torchBin hook (takes op) f (.tensor o) b = .ok (.st r false) ∧
      OfSamples f o b.operand es r := fun f => torchBin_call hh f (a := .tensor o) h (by simp) hb
  cases o with
  | torch t => exact key _
  | st t s => cases op <;> simp at hop <;> exact key _

/-- A number on the left, for the same operators and but for `>>`: the result is what torch's operator computes for the number
and each element.  The torch functions must accept a number in the place where the operator puts it. -/
theorem C78_reflected_partial {hook : UnwrapHook α} (hh : PlainHook hook) {T : TorchOps α} (hT : T.Lawful)
    (takes : BinOp → Bool × Bool) {op : BinOp} (hop : op ∉ [BinOp.and, .or, .xor, .lshift, .rshift, .ne]) (c : α) {y : STen α}
    {s : Bool} (h : GoodOps [.st y s]) (ht : ∀ op, (takes op).1 = true ∧ (takes op).2 = true) :
    ∃ r, pyBin T takes T.bin hook op (.num c) (.tensor (.st y s)) = .ok (.st r false) ∧ r.WF ∧
      r.plates = y.plates ∧ r.eventShape = y.eventShape ∧
      ∀ (ι : String → Nat) (e : List Nat), Ten.InB e y.eventShape → r.sample ι e = T.bin op c (y.sample ι e) := by
  obtain ⟨f1, f2⟩ := fit_num h c
  have key1 : ∀ op f, ∃ r, torchBin hook (takes op) f (.num c) (.tensor (.st y s)) = .ok (.st r false) ∧ r.WF ∧
      r.plates = y.plates ∧ r.eventShape = y.eventShape ∧
      ∀ (ι : String → Nat) (e : List Nat), Ten.InB e y.eventShape → r.sample ι e = f c (y.sample ι e) := by
    intro op f
    obtain ⟨r, h1, h2, h3, h4, h5⟩ := torchBin_call hh f (takes := takes op) (a := .num c) (b := .tensor (.st y s)) f1
      (fun _ _ => (ht op).1) (fun _ _ => (ht op).2)
    exact ⟨r, h1, h2, firstOcc_eq (h.wf y (by simp [stens])) (by simpa [PyArg.operand, stens] using h3), h4, fun ι e he => h5 ι e he⟩
  have key2 : ∀ op f, ∃ r, torchBin hook (takes op) f (.tensor (.st y s)) (.num c) = .ok (.st r false) ∧ r.WF ∧
      r.plates = y.plates ∧ r.eventShape = y.eventShape ∧
      ∀ (ι : String → Nat) (e : List Nat), Ten.InB e y.eventShape → r.sample ι e = f (y.sample ι e) c := by
    intro op f
    obtain ⟨r, h1, h2, h3, h4, h5⟩ := torchBin_call hh f (takes := takes op) (a := .tensor (.st y s)) (b := .num c) f2
      (fun _ _ => (ht op).1) (fun _ _ => (ht op).2)
    exact ⟨r, h1, h2, firstOcc_eq (h.wf y (by simp [stens])) (by simpa [PyArg.operand, stens] using h3), h4, fun ι e he => h5 ι e he⟩
  cases op <;> simp at hop
  case ge =>
    obtain ⟨r, h1, h2, h3, h4, h5⟩ := key2 .le T.le
    exact ⟨r, h1, h2, h3, h4, fun ι e he => by rw [h5 ι e he]; exact (hT.ge _ _).symm⟩
  case gt =>
    obtain ⟨r, h1, h2, h3, h4, h5⟩ := key2 .lt T.lt
    exact ⟨r, h1, h2, h3, h4, fun ι e he => by rw [h5 ι e he]; exact (hT.gt _ _).symm⟩
  case le =>
    obtain ⟨r, h1, h2, h3, h4, h5⟩ := key2 .ge T.ge
    exact ⟨r, h1, h2, h3, h4, fun ι e he => by rw [h5 ι e he]; exact hT.ge _ _⟩
  case lt =>
    obtain ⟨r, h1, h2, h3, h4, h5⟩ := key2 .gt T.gt
    exact ⟨r, h1, h2, h3, h4, fun ι e he => by rw [h5 ι e he]; exact hT.gt _ _⟩
  case eq =>
    obtain ⟨r, h1, h2, h3, h4, h5⟩ := key2 .eq T.eq
    exact ⟨r, h1, h2, h3, h4, fun ι e he => by rw [h5 ι e he]; exact hT.eq _ _⟩
  all_goals exact key1 _ _

/-- The unary operators compute what torch's operators compute, for every sample and event. -/
theorem C78_unary {hook : UnwrapHook α} (hh : PlainHook hook) (T : TorchOps α) (op : UnOp) {x : STen α} {s : Bool}
    (h : GoodOps [.st x s]) :
    ∃ r s', storchUn T hook op x s = .ok (.st r s') ∧ r.WF ∧ r.plates = x.plates ∧ r.eventShape = x.eventShape ∧
      ∀ (ι : String → Nat) (e : List Nat), Ten.InB e x.eventShape → r.sample ι e = T.un op (x.sample ι e) := by
  have key : ∀ f : α → α, ∃ r s', handleDet hook false false {} (elementwiseFn (unElts f)) (opArgs [.st x s]) =
      .ok (.st r s') ∧ r.WF ∧ r.plates = x.plates ∧ r.eventShape = x.eventShape ∧
      ∀ (ι : String → Nat) (e : List Nat), Ten.InB e x.eventShape → r.sample ι e = f (x.sample ι e) := by
    intro f
    obtain ⟨r, h1, h2, h3, h4, h5⟩ := C05_elementwise hook hh (unElts f) [.st x s] h (by simp [stens]) (by simp)
      x.eventShape (by
        have he : x.eventDims = x.eventShape.length := rfl
        have m : maxEv [.st x s] = x.eventDims := by simp [maxEv, stens]
        have : [Operand.st x s].map (Operand.evShape x.eventDims) = [x.eventShape] := by simp [Operand.evShape]
        rw [m, this, bshapes_eq _ x.eventShape.length (by simp)]
        simp [Ten.padL, (bzip_both x.eventShape).1, bfold])
    exact ⟨r, false, h1, h2, firstOcc_eq (h.wf x (by simp [stens])) (by simpa [stens] using h3), h4, fun ι e he => h5 ι e he⟩
  cases op with
  | pos =>
    exact ⟨x, s, rfl, h.wf x (by simp [stens]), rfl, rfl, fun _ _ _ => rfl⟩
  | neg => exact key _
  | abs => exact key _
  | invert => exact key _

/-- C78 is false for `<<`: with tensors on both sides the operands are exchanged, because `__lshift__` is defined twice and the
second definition was meant to be `__rlshift__`. -/
theorem C78_shift_refuted {hook : UnwrapHook α} (hh : PlainHook hook) (T : TorchOps α) (takes : BinOp → Bool × Bool)
    {x : STen α} {s : Bool} {o : Operand α} {es : List Nat} (h : Fit (.st x s) o es) :
    ∃ r, pyBin T takes T.bin hook .lshift (.tensor (.st x s)) (.tensor o) = .ok (.st r false) ∧
      OfSamples (fun a b => T.shl b a) (.st x s) o es r := by
  exact torchBin_call hh (fun a b => T.shl b a) (takes := takes .lshift) (a := .tensor (.st x s)) (b := .tensor o) h
    (by simp) (by simp)

/-- A storch tensor and a number cannot be shifted: `x << c`, `c << x` and `c >> x` raise, for all tensors and numbers. -/
theorem C78_shift_numbers_refuted (hook : UnwrapHook α) (T : TorchOps α) (takes : BinOp → Bool × Bool) (torchOp : BinOp → α → α → α)
    (x : STen α) (s : Bool) (c : α) :
    (∃ e, pyBin T takes torchOp hook .lshift (.tensor (.st x s)) (.num c) = .error e) ∧
    (∃ e, pyBin T takes torchOp hook .lshift (.num c) (.tensor (.st x s)) = .error e) ∧
    (∃ e, pyBin T takes torchOp hook .rshift (.num c) (.tensor (.st x s)) = .error e) := by
  have key : ∃ e, handleDet hook false false {} (fun _ => .ok (.other 0)) (opArgs [.st x s]) = .error e :=
    C31_python_values_raise hook false {} _ _ (by simp [opArgs, Operand.val, Args.tensors, tensorsL, Val.tensors])
      (fun _ _ h => ⟨0, (Except.ok.inj h).symm⟩)
  exact ⟨key, ⟨.type, rfl⟩, key⟩

/-- C78 is false for `!=`, which raises for all operands, unless a torch tensor is on the left. -/
theorem C78_ne_refuted (hook : UnwrapHook α) (T : TorchOps α) (takes : BinOp → Bool × Bool) (torchOp : BinOp → α → α → α)
    (x : STen α) (s : Bool) (b : PyArg α) (c : α) :
    (∃ e, pyBin T takes torchOp hook .ne (.tensor (.st x s)) b = .error e) ∧
    (∃ e, pyBin T takes torchOp hook .ne (.num c) (.tensor (.st x s)) = .error e) := by
  constructor
  · show ∃ e, storchBin T takes hook .ne _ b = .error e
    unfold storchBin
    simp only
    split <;> exact ⟨_, rfl⟩
  · show ∃ e, storchBin T takes hook .ne _ _ = .error e
    unfold storchBin
    simp only
    split <;> exact ⟨_, rfl⟩

/-- `&`, `|` and `^` compute the logical functions.  On elements for which these agree with the bitwise functions, such as
truth values, they are what torch's operators compute. -/
theorem C78_bitwise_partial {hook : UnwrapHook α} (hh : PlainHook hook) (T : TorchOps α) (takes : BinOp → Bool × Bool) {op : BinOp}
    (hop : op ∈ [BinOp.and, .or, .xor]) {x : STen α} {s : Bool} {o : Operand α} {es : List Nat} (h : Fit (.st x s) o es)
    (B : α → Prop) (hB : ∀ a b, B a → B b → T.logicalAnd a b = T.bitwiseAnd a b ∧ T.logicalOr a b = T.bitwiseOr a b ∧
      T.logicalXor a b = T.bitwiseXor a b) (hx : ∀ ι e, B (x.sample ι e)) (ho : ∀ ι e, B (o.sample ι e)) :
    ∃ r, pyBin T takes T.bin hook op (.tensor (.st x s)) (.tensor o) = .ok (.st r false) ∧
      OfSamples (T.bin op) (.st x s) o es r := by
  have key : ∀ f, ∃ r, torchBin hook (takes op) f (.tensor (.st x s)) (.tensor o) = .ok (.st r false) ∧
      OfSamples f (.st x s) o es r := fun f => torchBin_call hh f (a := .tensor (.st x s)) (b := .tensor o) h (by simp) (by simp)
  simp only [List.mem_cons, List.not_mem_nil, or_false] at hop
  rcases hop with rfl | rfl | rfl
  · obtain ⟨r, h1, h2, h3, h4, h5⟩ := key T.logicalAnd
    exact ⟨r, h1, h2, h3, h4, fun ι e he => (h5 ι e he).trans (hB _ _ (hx ι e) (ho ι e)).1⟩
  · obtain ⟨r, h1, h2, h3, h4, h5⟩ := key T.logicalOr
    exact ⟨r, h1, h2, h3, h4, fun ι e he => (h5 ι e he).trans (hB _ _ (hx ι e) (ho ι e)).2.1⟩
  · obtain ⟨r, h1, h2, h3, h4, h5⟩ := key T.logicalXor
    exact ⟨r, h1, h2, h3, h4, fun ι e he => (h5 ι e he).trans (hB _ _ (hx ι e) (ho ι e)).2.2⟩

/-! ### Integers -/

namespace OperatorCase

instance : ValEq Int := ⟨fun a b => decide (a = b), by simp, by simp +contextual [eq_comm], by simp +contextual⟩

/-- Truth values are 0 and 1. -/
def b2i (b : Bool) : Int := if b then 1 else 0

/-- The functions of torch for integers (division is floor division, shifts are by natural numbers). -/
def intOps : TorchOps Int where
  add := (· + ·)
  sub := (· - ·)
  mul := (· * ·)
  pow a b := a ^ b.toNat
  remainder := Int.fmod
  trueDivide := Int.fdiv
  floorDivide := Int.fdiv
  logicalAnd a b := b2i (a ≠ 0 && b ≠ 0)
  logicalOr a b := b2i (a ≠ 0 || b ≠ 0)
  logicalXor a b := b2i ((a ≠ 0) ^^ (b ≠ 0))
  bitwiseAnd a b := (a.toNat &&& b.toNat : Nat)
  bitwiseOr a b := (a.toNat ||| b.toNat : Nat)
  bitwiseXor a b := (a.toNat ^^^ b.toNat : Nat)
  shl a b := a * 2 ^ b.toNat
  shr a b := Int.fdiv a (2 ^ b.toNat)
  ge a b := b2i (decide (a ≥ b))
  gt a b := b2i (decide (a > b))
  le a b := b2i (decide (a ≤ b))
  lt a b := b2i (decide (a < b))
  eq a b := b2i (decide (a = b))
  ne a b := b2i (decide (a ≠ b))
  neg a := -a
  abs a := a.natAbs
  invert a := -a - 1

theorem intOps_lawful : intOps.Lawful := ⟨fun _ _ => rfl, fun _ _ => rfl, fun a b => by
  simp [intOps, eq_comm]⟩

def plate (s : String) (n : Nat) : Plate Int := .mk s n (.torch (.scalar 1)) .plain []

/-- Two samples with events of size 2: 1, 2 and 5, 6. -/
def x : STen Int := ⟨⟨[2, 2], fun l => 4 * (l.headD 0 : Int) + l.getD 1 0 + 1⟩, [plate "x" 2], 1⟩
/-- Three samples: 1, 2, 3. -/
def y : STen Int := ⟨⟨[3], fun l => (l.headD 0 : Int) + 1⟩, [plate "y" 3], 1⟩

def hook : UnwrapHook Int := fun _ a => .ok a

theorem good : GoodOps [.st x false, .st y false] := by
  refine ⟨?_, ?_, ?_⟩
  · intro t ht
    simp only [stens, List.mem_cons, List.not_mem_nil, or_false] at ht
    rcases ht with rfl | rfl
    · exact ⟨by decide, by intro p hp; rw [List.mem_singleton.1 hp]; decide, rfl, rfl⟩
    · exact ⟨by decide, by intro p hp; rw [List.mem_singleton.1 hp]; decide, rfl, rfl⟩
  · intro t ht p hp
    simp only [stens, List.mem_cons, List.not_mem_nil, or_false] at ht
    rcases ht with rfl | rfl <;> rw [List.mem_singleton.1 hp] <;> rfl
  · intro t ht t' ht' p hp q hq he
    simp only [stens, List.mem_cons, List.not_mem_nil, or_false] at ht ht'
    rcases ht with rfl | rfl <;> rcases ht' with rfl | rfl <;> rw [List.mem_singleton.1 hp, List.mem_singleton.1 hq] at he ⊢ <;>
      first | rfl | exact absurd he (by decide)

theorem good1 : GoodOps [.st x false] :=
  ⟨fun t ht => good.wf t (by simp only [stens, List.mem_cons, List.not_mem_nil, or_false] at ht ⊢; exact Or.inl ht),
   fun t ht => good.plain t (by simp only [stens, List.mem_cons, List.not_mem_nil, or_false] at ht ⊢; exact Or.inl ht),
   fun t ht t' ht' => good.agree t (by simp only [stens, List.mem_cons, List.not_mem_nil, or_false] at ht ⊢; exact Or.inl ht) t'
    (by simp only [stens, List.mem_cons, List.not_mem_nil, or_false] at ht' ⊢; exact Or.inl ht')⟩

theorem fit : Fit (.st x false) (.st y false) [2] := ⟨good, by simp [stens], by simp, rfl⟩

/-- Which functions take numbers does not matter for the refutations. -/
def takes : BinOp → Bool × Bool := fun _ => (true, true)

/-- A case for `C78_partial`, `C78_reflected_partial` and `C78_unary`: `x - y`, `10 - x`, `-x`, and `10 < x`, which Python turns
into `x > 10`. -/
example : (∃ r, pyBin intOps takes intOps.bin hook .sub (.tensor (.st x false)) (.tensor (.st y false)) = .ok (.st r false) ∧
      r.sample (fun _ => 1) [1] = 6 - 2) ∧
    (∃ r, pyBin intOps takes intOps.bin hook .sub (.num 10) (.tensor (.st x false)) = .ok (.st r false) ∧
      r.sample (fun _ => 1) [1] = 10 - 6) ∧
    (∃ r, pyBin intOps takes intOps.bin hook .lt (.num 10) (.tensor (.st x false)) = .ok (.st r false) ∧
      r.sample (fun _ => 1) [1] = 0) ∧
    ∃ r s', storchUn intOps hook .neg x false = .ok (.st r s') ∧ r.sample (fun _ => 1) [1] = -6 := by
  have hb : Ten.InB [1] [2] := by simp [Ten.InB]
  refine ⟨?_, ?_, ?_, ?_⟩
  · obtain ⟨r, h1, -, -, -, h5⟩ := C78_partial (hook := hook) (fun _ _ _ => rfl) intOps takes (op := .sub) (by decide)
      (b := .tensor (.st y false)) fit (by simp)
    exact ⟨r, h1, (h5 _ [1] hb).trans (by decide)⟩
  · obtain ⟨r, h1, -, -, -, h5⟩ := C78_reflected_partial (hook := hook) (fun _ _ _ => rfl) intOps_lawful takes (op := .sub)
      (by decide) 10 good1 (fun _ => ⟨rfl, rfl⟩)
    exact ⟨r, h1, (h5 _ [1] hb).trans (by decide)⟩
  · obtain ⟨r, h1, -, -, -, h5⟩ := C78_reflected_partial (hook := hook) (fun _ _ _ => rfl) intOps_lawful takes (op := .lt)
      (by decide) 10 good1 (fun _ => ⟨rfl, rfl⟩)
    exact ⟨r, h1, (h5 _ [1] hb).trans (by decide)⟩
  · obtain ⟨r, s', h1, -, -, -, h5⟩ := C78_unary (hook := hook) (fun _ _ _ => rfl) intOps .neg good1
    exact ⟨r, s', h1, (h5 _ [1] hb).trans (by decide)⟩

/-- The truth values of `x > 2` and `y > 1`. -/
def xb : STen Int := { x with ten := ⟨x.ten.shape, fun l => b2i (decide (x.ten.get l > 2))⟩ }
def yb : STen Int := { y with ten := ⟨y.ten.shape, fun l => b2i (decide (y.ten.get l > 1))⟩ }

/-- A case for `C78_bitwise_partial`: `(x > 2) & (y > 1)`. -/
example : ∃ r, pyBin intOps takes intOps.bin hook .and (.tensor (.st xb false)) (.tensor (.st yb false)) = .ok (.st r false) ∧
    r.sample (fun _ => 1) [1] = 1 ∧ r.sample (fun _ => 0) [1] = 0 := by
  have hf : Fit (.st xb false) (.st yb false) [2] := by
    refine ⟨⟨?_, ?_, ?_⟩, by simp [stens], by simp, rfl⟩
    · intro t ht
      simp only [stens, List.mem_cons, List.not_mem_nil, or_false] at ht
      rcases ht with rfl | rfl
      · exact ⟨by decide, by intro p hp; rw [List.mem_singleton.1 hp]; decide, rfl, rfl⟩
      · exact ⟨by decide, by intro p hp; rw [List.mem_singleton.1 hp]; decide, rfl, rfl⟩
    · intro t ht p hp
      simp only [stens, List.mem_cons, List.not_mem_nil, or_false] at ht
      rcases ht with rfl | rfl <;> rw [List.mem_singleton.1 hp] <;> rfl
    · intro t ht t' ht' p hp q hq he
      simp only [stens, List.mem_cons, List.not_mem_nil, or_false] at ht ht'
      rcases ht with rfl | rfl <;> rcases ht' with rfl | rfl <;>
        rw [List.mem_singleton.1 hp, List.mem_singleton.1 hq] at he ⊢ <;> first | rfl | exact absurd he (by decide)
  have hv : ∀ b : Bool, b2i b = 0 ∨ b2i b = 1 := by decide
  obtain ⟨r, h1, -, -, -, h5⟩ := C78_bitwise_partial (hook := hook) (fun _ _ _ => rfl) intOps takes (op := .and) (by simp)
    hf (fun a => a = 0 ∨ a = 1) (by rintro a b (rfl | rfl) (rfl | rfl) <;> decide) (fun _ _ => hv _) (fun _ _ => hv _)
  have hb : Ten.InB [1] [2] := by simp [Ten.InB]
  exact ⟨r, h1, (h5 _ [1] hb).trans (by decide), (h5 _ [1] hb).trans (by decide)⟩

/-- A case for `C78_shift_numbers_refuted` and `C78_ne_refuted`: `x << 1`, `x != x` and `2 != x`. -/
example : (∃ e, pyBin intOps takes intOps.bin hook .lshift (.tensor (.st x false)) (.num 1) = .error e) ∧
    (∃ e, pyBin intOps takes intOps.bin hook .ne (.tensor (.st x false)) (.tensor (.st x false)) = .error e) ∧
    ∃ e, pyBin intOps takes intOps.bin hook .ne (.num 2) (.tensor (.st x false)) = .error e :=
  ⟨(C78_shift_numbers_refuted hook intOps takes intOps.bin x false 1).1,
    (C78_ne_refuted hook intOps takes intOps.bin x false _ 2).1,
    (C78_ne_refuted hook intOps takes intOps.bin x false (.tensor (.st x false)) 2).2⟩

/-- C78 is false for `<<`, `&`, `|` and `^` on integers: 6 << 2 gives 128 (2 shifted by 6 places) instead of 24, 6 & 2 gives 1
instead of 2, 6 | 2 gives 1 instead of 6, and 6 ^ 2 gives 0 instead of 4. -/
theorem C78_refuted :
    (∃ r, pyBin intOps takes intOps.bin hook .lshift (.tensor (.st x false)) (.tensor (.st y false)) = .ok (.st r false) ∧
      r.sample (fun _ => 1) [1] = 128 ∧ intOps.bin .lshift (x.sample (fun _ => 1) [1]) (y.sample (fun _ => 1) [1]) = 24) ∧
    (∃ r, pyBin intOps takes intOps.bin hook .and (.tensor (.st x false)) (.tensor (.st y false)) = .ok (.st r false) ∧
      r.sample (fun _ => 1) [1] = 1 ∧ intOps.bin .and (x.sample (fun _ => 1) [1]) (y.sample (fun _ => 1) [1]) = 2) ∧
    (∃ r, pyBin intOps takes intOps.bin hook .or (.tensor (.st x false)) (.tensor (.st y false)) = .ok (.st r false) ∧
      r.sample (fun _ => 1) [1] = 1 ∧ intOps.bin .or (x.sample (fun _ => 1) [1]) (y.sample (fun _ => 1) [1]) = 6) ∧
    ∃ r, pyBin intOps takes intOps.bin hook .xor (.tensor (.st x false)) (.tensor (.st y false)) = .ok (.st r false) ∧
      r.sample (fun _ => 1) [1] = 0 ∧ intOps.bin .xor (x.sample (fun _ => 1) [1]) (y.sample (fun _ => 1) [1]) = 4 := by
  have hb : Ten.InB [1] [2] := by simp [Ten.InB]
  refine ⟨?_, ?_, ?_, ?_⟩
  · obtain ⟨r, h1, -, -, -, h5⟩ := C78_shift_refuted (hook := hook) (fun _ _ _ => rfl) intOps takes fit
    exact ⟨r, h1, (h5 _ [1] hb).trans (by decide), by decide⟩
  all_goals
    obtain ⟨r, h1, -, -, -, h5⟩ := torchBin_call (hook := hook) (fun _ _ _ => rfl) (takes := (true, true)) (a := .tensor (.st x false))
      (b := .tensor (.st y false)) _ fit (by simp) (by simp)
    exact ⟨r, h1, (h5 _ [1] hb).trans (by decide), by decide⟩

end OperatorCase

end Storch
