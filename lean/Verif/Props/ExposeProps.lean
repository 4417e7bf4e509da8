import Verif.Model.Expose
import Verif.Props.CollectProps

/-!
# C31: what Python can see of a storch tensor
-/

namespace Storch
variable {α : Type _}

mutual
/-- Nothing but storch tensors, None, and lists, tuples and distributions of them: no torch tensor, number,
string or other Python object. -/
def Val.Hidden : Val α → Prop
  | .none => True
  | .st _ _ => True
  | .tup xs => HiddenL xs
  | .lst xs => HiddenL xs
  | .distr _ _ _ ps => HiddenL ps
  | .torch _ => False
  | .iter _ => False
  | .dict _ _ => False
  | .other _ => False
/-- The same for a list of values. -/
def HiddenL : List (Val α) → Prop
  | [] => True
  | v :: vs => v.Hidden ∧ HiddenL vs
end

section

mutual
theorem Val.wrapOut_hidden (plates : List (Plate α)) (u : Bool) (v : Val α) {r : Val α}
    (h : v.wrapOut plates u = .ok r) : r.Hidden := by
  cases v with
  | none => cases h; exact trivial
  | st o s =>
    rw [Val.wrapOut] at h
    split at h
    · cases h
    · split at h
      · cases h
      · split at h
        · cases h
        · cases h; exact trivial
  | torch t =>
    rw [Val.wrapOut] at h
    split at h
    · cases h
    · split at h
      · cases h
      · cases h; exact trivial
  | tup xs =>
    rw [Val.wrapOut] at h
    split at h
    · cases h
    · rename_i rs hr; cases h; exact wrapOutList_hidden plates u xs hr
  | lst xs =>
    rw [Val.wrapOut] at h
    split at h
    · cases h
    · rename_i rs hr; cases h; exact wrapOutList_hidden plates u xs hr
  | iter xs =>
    rw [Val.wrapOut] at h
    split at h
    · cases h
    · rename_i rs hr; cases h; exact wrapOutList_hidden plates u xs hr
  | dict ks vs =>
    cases ks with
    | nil => rw [Val.wrapOut] at h; cases h; exact trivial
    | cons k ks => rw [Val.wrapOut] at h; cases h
  | distr k r ks ps =>
    cases k with
    | discrete =>
      rw [Val.wrapOut] at h
      split at h
      · cases h
      · rename_i rs hr; cases h; exact wrapOutList_hidden plates u ps hr
    | relaxed => rw [Val.wrapOut] at h; cases h
    | unsupported => rw [Val.wrapOut] at h; cases h
  | other n => rw [Val.wrapOut] at h; cases h
theorem wrapOutList_hidden (plates : List (Plate α)) (u : Bool) (vs : List (Val α)) {rs : List (Val α)}
    (h : wrapOutList plates u vs = .ok rs) : HiddenL rs := by
  cases vs with
  | nil => cases h; exact trivial
  | cons v vs =>
    rw [wrapOutList] at h
    split at h
    · cases h
    · rename_i r hr
      split at h
      · cases h
      · rename_i rs' hrs; cases h
        exact ⟨v.wrapOut_hidden plates u hr, wrapOutList_hidden plates u vs hrs⟩
end

variable [ValEq α]

theorem prepareArgs_parents {hook : UnwrapHook α} {cfg : WCfg} {a : Args α} {p : Prep α}
    (h : prepareArgs hook cfg a = .ok p) : p.parents = a.tensors := by
  have hc := (collectArgs_spec a).1.parents
  unfold prepareArgs at h
  simp only at h
  split at h
  · cases h
  · split at h
    · cases h
    · split at h
      · cases h
      · split at h
        · split at h
          · cases h
          · split at h
            · cases h
            · cases h; exact hc
        · cases h; exact hc

/-- Whatever function is called on whatever arguments with a storch tensor among them, through the wrapper
with whatever options: what comes back is hidden.  (Inside `ignore_wrapping` this is switched off.) -/
theorem C31_hidden (hook : UnwrapHook α) (ctx : Bool) (cfg : WCfg) (fn : Fn α) (a : Args α)
    (ha : a.tensors ≠ []) {v : Val α} (h : handleDet hook ctx false cfg fn a = .ok v) : v.Hidden := by
  unfold handleDet at h
  split at h
  · cases h
  · split at h
    · cases h
    · rename_i p hp
      rw [prepareArgs_parents hp, if_neg (by simpa using ha)] at h
      split at h
      · cases h
      · simp only [Bool.false_eq_true, if_false] at h
        exact Val.wrapOut_hidden _ _ _ h

/-- A call through the wrapper of a function that returns a Python number, string, … raises. -/
theorem C31_python_values_raise (hook : UnwrapHook α) (ctx : Bool) (cfg : WCfg) (fn : Fn α) (a : Args α)
    (ha : a.tensors ≠ []) (hfn : ∀ b v, fn b = .ok v → ∃ n, v = .other n) :
    ∃ e, handleDet hook ctx false cfg fn a = .error e := by
  unfold handleDet
  split
  · exact ⟨_, rfl⟩
  · split
    · exact ⟨_, rfl⟩
    · rename_i p hp
      rw [prepareArgs_parents hp, if_neg (by simpa using ha)]
      split
      · exact ⟨_, rfl⟩
      · rename_i out hout
        obtain ⟨n, rfl⟩ := hfn _ _ hout
        simp only [Bool.false_eq_true, if_false]
        exact ⟨_, rfl⟩

/-- The names under which torch gives away elements of tensors as Python values, or fills tensors with
random numbers, according to its documentation. -/
def exposing : List String :=
  ["item", "tolist", "is_nonzero", "allclose", "equal", "numpy", "__bool__", "__int__", "__float__",
   "__index__", "__array__", "__contains__", "bernoulli", "bernoulli_", "multinomial", "normal", "normal_",
   "poisson", "random_", "uniform_"]

/-- Torch knows every function under its own name. -/
def TorchApi.Named (api : TorchApi α) : Prop :=
  (∀ f tf, api.function f = some tf → tf.name = f) ∧ ∀ f tf, api.attr f = some (.callable tf) → tf.name = f

/-- Calling one of these functions or methods, apart from `normal_`, on a storch tensor raises
`IllegalStorchExposeError`, or `AttributeError` / `TypeError` where torch has no such method.
Missing from C31: `normal_` (`C31_refuted`). -/
theorem C31_exposing_raise_partial (api : TorchApi α) (hapi : api.Named) (hook : UnwrapHook α) (fl : Flags)
    (own : Fn α) (f : String) (hf : f ∈ exposing) (hn : f ≠ "normal_") :
    (∀ tf a, api.function f = some tf → f ∉ ["numpy", "__bool__", "__int__", "__float__", "__index__",
        "__array__", "__contains__"] → torchFunction hook fl tf a = .error .expose) ∧
    ∀ x s pos kw, callMethod api hook fl own f x s pos kw = .error .expose ∨
      callMethod api hook fl own f x s pos kw = .error .attribute ∨
      callMethod api hook fl own f x s pos kw = .error .type := by
  constructor
  · intro tf a htf hnot
    have hname := hapi.1 f tf htf
    unfold torchFunction
    rw [hname, if_pos]
    simp only [exposing, List.mem_cons, List.not_mem_nil, or_false] at hf hnot
    simp only [exceptionMethods, List.mem_cons, List.not_mem_nil, or_false]
    tauto
  · intro x s pos kw
    have key : f ∈ exceptionMethods ∧ dget ownAttrs f = none ∨ dget ownAttrs f = some (.raises .expose) := by
      simp only [exposing, List.mem_cons, List.not_mem_nil, or_false] at hf
      rcases hf with rfl | rfl | rfl | rfl | rfl | rfl | rfl | rfl | rfl | rfl | rfl | rfl | rfl | rfl | rfl | rfl |
        rfl | rfl | rfl | rfl
      all_goals first
        | (left; decide +kernel)
        | (right; decide +kernel)
        | exact absurd rfl hn
    unfold callMethod
    rcases key with ⟨h1, h2⟩ | h2
    · simp only [h2]
      cases hattr : api.attr f with
      | none => right; left; rfl
      | some at' =>
        cases at' with
        | data => right; right; rfl
        | callable tf =>
          left
          simp only
          rw [hapi.2 f tf hattr, if_pos h1]
    · simp only [h2]
      left; trivial

/-- Python's own conversions of a storch tensor raise outside of `ignore_wrapping`, whatever torch does. -/
theorem C31_conversions (api : TorchApi α) (hook : UnwrapHook α) (ctx : Bool) (own : Fn α) (c : Conversion)
    (x : STen α) (s : Bool) (pos : List (Val α)) (hown : ∀ a v, own a = .ok v → ∃ t, v = .torch t) :
    ∃ e, convert api hook ⟨ctx, false⟩ own c x s pos = .error e := by
  have hraise : ∀ f e, dget ownAttrs f = some (.raises e) → ∀ y s pos,
      callMethod api hook ⟨ctx, false⟩ own f y s pos [] = .error e := by
    intro f e h y s pos
    unfold callMethod
    simp only [h]
  cases c with
  | ne =>
    simp only [convert]
    have hm : dget ownAttrs "__eq__" = some (.wrapped true) := by decide +kernel
    generalize hr : callMethod api hook ⟨ctx, false⟩ own "__eq__" x s pos [] = r
    unfold callMethod at hr
    simp only [hm] at hr
    cases hd : handleDet hook ctx false { lBroadcast := true } own ⟨.st x s :: pos, []⟩ with
    | error e => rw [hd] at hr; subst hr; exact ⟨_, rfl⟩
    | ok v =>
      rw [hd] at hr
      subst hr
      have hst : ∃ t s', v = .st t s' := by
        unfold handleDet at hd
        split at hd
        · cases hd
        · split at hd
          · cases hd
          · rename_i p hp
            rw [prepareArgs_parents hp, if_neg (by simp [Args.tensors, tensorsL, Val.tensors])] at hd
            split at hd
            · cases hd
            · rename_i out hout
              obtain ⟨t, rfl⟩ := hown _ _ hout
              simp only [Bool.false_eq_true, if_false, Val.wrapOut] at hd
              split at hd
              · cases hd
              · cases hd; exact ⟨_, _, rfl⟩
      obtain ⟨t, s', rfl⟩ := hst
      exact ⟨.expose, hraise "__bool__" .expose (by decide +kernel) t s' []⟩
  | bool => exact ⟨_, hraise "__bool__" .expose (by decide +kernel) x s pos⟩
  | int => exact ⟨_, hraise "__int__" .expose (by decide +kernel) x s pos⟩
  | float => exact ⟨_, hraise "__float__" .expose (by decide +kernel) x s pos⟩
  | index => exact ⟨_, hraise "__index__" .expose (by decide +kernel) x s pos⟩
  | iter => exact ⟨_, hraise "__iter__" .notImplemented (by decide +kernel) x s pos⟩
  | array => exact ⟨_, hraise "__array__" .expose (by decide +kernel) x s pos⟩
  | contains => exact ⟨_, hraise "__contains__" .expose (by decide +kernel) x s pos⟩
  | deepcopy => exact ⟨_, hraise "__deepcopy__" .notImplemented (by decide +kernel) x s pos⟩
  | pickle => exact ⟨_, hraise "__getstate__" .notImplemented (by decide +kernel) x s pos⟩

/-- The names that storch leaves to torch (excluded_init.py:1-27, 64, 67-79): factory functions, settings, and methods that every
Python class has. -/
def leftToTorch : List String :=
  ["_debug_has_internal_overlap", "_nnpack_available", "_use_cudnn_ctc_loss", "can_cast", "empty",
   "empty_strided", "from_file", "from_numpy", "full", "get_default_dtype", "get_num_interop_threads",
   "get_num_threads", "hamming_window", "hann_window", "logspace", "ones", "promote_types", "range",
   "tril_indices", "triu_indices", "set_flush_denormal", "set_num_interop_threads", "set_num_threads",
   "zeros", "compiled_with_cxx11_abi", "get_softmax_dim", "assert_int-or-pair", "__class__", "__delattr__", "__delitem__",
   "__dir__", "__format__", "__getattribute__", "__init_subclass__", "__setattr__", "__subclasshook__"]

/-- Every method call and every operator on a storch tensor outside of `ignore_wrapping`, whatever torch
does: if it does not raise, the result is hidden, or no function of the elements (`info`), or asked for by
one of the attributes that unwrap explicitly.  Names that storch excludes are left out, because torch
itself runs for them. -/
theorem C31_methods_partial (api : TorchApi α) (hapi : api.Named) (hook : UnwrapHook α) (ctx : Bool) (own : Fn α)
    (f : String) (hf' : f ∉ leftToTorch) (x : STen α) (s : Bool)
    (pos : List (Val α)) (kw : List (String × Val α)) {r : Access α}
    (h : callMethod api hook ⟨ctx, false⟩ own f x s pos kw = .ok r) :
    (∃ v : Val α, r = .value v ∧ v.Hidden) ∨ r = .info ∨
      (r = .unwrapped ∧ f ∈ ["_tensor", "detach_tensor", "grad", "__str__", "__repr__"]) := by
  have hex : ∀ g ∈ excludedMethods, g ∈ leftToTorch ∨ g ∈ ["__getitem__", "__setitem__"] := by decide +kernel
  have hf : f ∉ excludedMethods ∨ f ∈ ["__getitem__", "__setitem__"] := by
    by_cases h : f ∈ excludedMethods
    · exact (hex f h).elim (fun h' => absurd h' hf') Or.inr
    · exact Or.inl h
  have hts : (⟨.st x s :: pos, kw⟩ : Args α).tensors ≠ [] := by simp [Args.tensors, tensorsL, Val.tensors]
  have htorch : ∀ g, (f, Own.torch g) ∈ ownAttrs → g ∉ excludedMethods := by
    have : ∀ e ∈ ownAttrs, ∀ g, e.2 = .torch g → g ∉ excludedMethods := by
      have hb : (ownAttrs.all fun e => match e.2 with | .torch g => !excludedMethods.contains g | _ => true) = true := by
        decide +kernel
      intro e he g hg
      have := List.all_eq_true.1 hb e he
      rw [hg] at this
      simpa using this
    intro g hg
    exact this _ hg g rfl
  have hunwrap : ∀ e ∈ ownAttrs, e.2 = .unwrap → e.1 ∈ ["_tensor", "detach_tensor", "grad", "__str__", "__repr__"] := by
    decide +kernel
  have hdget : ∀ {β : Type} (d : List (String × β)) k v, dget d k = some v → (k, v) ∈ d := by
    intro β d k v
    induction d with
    | nil => intro h; cases h
    | cons e d ih =>
      obtain ⟨k', v'⟩ := e
      rw [dget]
      split
      · rename_i hk; intro h; cases h; simp [hk]
      · intro h; exact List.mem_cons_of_mem _ (ih h)
  unfold callMethod at h
  simp only at h
  cases ho : dget ownAttrs f with
  | some o =>
    have hmem := hdget _ _ _ ho
    cases o with
    | raises e => simp only [ho] at h; cases h
    | torch g =>
      simp only [ho] at h
      cases hg : api.function g with
      | none => simp only [hg] at h; cases h
      | some tf =>
        simp only [hg] at h
        have hng := htorch g hmem
        cases ht : torchFunction hook ⟨ctx, false⟩ tf ⟨.st x s :: pos, kw⟩ with
        | error e => rw [ht] at h; cases h
        | ok v =>
          rw [ht] at h; cases h
          left
          refine ⟨v, rfl, ?_⟩
          unfold torchFunction at ht
          rw [hapi.1 g tf hg] at ht
          split at ht
          · cases ht
          · simp only at ht
            split at ht
            · exact C31_hidden _ _ _ _ _ hts ht
            · exact C31_hidden _ _ _ _ _ hts ht
    | wrapped lb =>
      simp only [ho] at h
      cases ht : handleDet hook ctx false { lBroadcast := lb } own ⟨.st x s :: pos, kw⟩ with
      | error e => rw [ht] at h; cases h
      | ok v => rw [ht] at h; cases h; exact Or.inl ⟨v, rfl, C31_hidden _ _ _ _ _ hts ht⟩
    | info => simp only [ho] at h; cases h; exact Or.inr (Or.inl rfl)
    | self => simp only [ho] at h; cases h; exact Or.inl ⟨_, rfl, trivial⟩
    | unwrap =>
      simp only [ho] at h; cases h
      exact Or.inr (Or.inr ⟨rfl, hunwrap _ hmem rfl⟩)
  | none =>
    simp only [ho] at h
    have hf' : f ∉ excludedMethods := by
      rcases hf with hf | hf
      · exact hf
      · simp only [List.mem_cons, List.not_mem_nil, or_false] at hf
        rcases hf with rfl | rfl
        · have : dget ownAttrs "__getitem__" ≠ none := by decide +kernel
          exact absurd ho this
        · have : dget ownAttrs "__setitem__" ≠ none := by decide +kernel
          exact absurd ho this
    cases hattr : api.attr f with
    | none => simp only [hattr] at h; cases h
    | some at' =>
      cases at' with
      | data => simp only [hattr] at h; cases h
      | callable tf =>
        simp only [hattr] at h
        rw [hapi.2 f tf hattr] at h
        split at h
        · cases h
        · cases ht : handleDet hook ctx false {} tf.fn ⟨.st x s :: pos, kw⟩ with
          | error e => rw [ht] at h; cases h
          | ok v => rw [ht] at h; cases h; exact Or.inl ⟨v, rfl, C31_hidden _ _ _ _ _ hts ht⟩

end

/-! ### Witnesses -/

/-- A library with the methods `item`, `numel` and `normal_` and the function `add`. -/
def smallApi : TorchApi Int where
  function f := if f = "add" then some ⟨"add", elementwiseFn List.sum⟩ else none
  attr f :=
    if f = "item" then some (.callable ⟨"item", fun _ => .ok (.other 3)⟩)
    else if f = "numel" then some (.callable ⟨"numel", fun _ => .ok (.other 1)⟩)
    else if f = "normal_" then some (.callable ⟨"normal_", fun a => match a.pos with
      | .torch t :: _ => .ok (.torch (t.map (fun _ => 7)))
      | _ => .error .type⟩)
    else none

/-- The result of a call as something that can be compared. -/
def Access.summary : Except Err (Access Int) → Option (Option Int)
  | .ok (.value (.st t _)) => some (some (t.ten.get []))
  | .ok _ => some none
  | .error _ => none

theorem smallApi_named : smallApi.Named := by
  constructor
  · intro f tf h
    simp only [smallApi] at h
    split at h
    · cases h; simp_all
    · cases h
  · intro f tf h
    simp only [smallApi] at h
    split at h
    · cases h; simp_all
    · split at h
      · cases h; simp_all
      · split at h
        · cases h; simp_all
        · cases h

/-- C31 is false: `x.normal_()` runs on the wrapped tensor and returns, because of a missing comma in the
table of banned methods. -/
theorem C31_refuted : smallApi.Named ∧
    Access.summary (callMethod smallApi (fun _ t => .ok t) ⟨false, false⟩ (fun _ => .error .type) "normal_"
      ⟨Ten.scalar 5, [], 0⟩ false [] []) = some (some 7) :=
  ⟨smallApi_named, by decide +kernel⟩

/-- `C31_conversions` applies to it: `bool(x)`, and `x != x`, where `==` gives a tensor. -/
example (hook : UnwrapHook Int) (c : Conversion) : ∃ e, convert smallApi hook ⟨false, false⟩ (fun _ => .ok (.torch (Ten.scalar 1)))
    c ⟨Ten.scalar 5, [], 0⟩ false [.st ⟨Ten.scalar 4, [], 0⟩ false] = .error e :=
  C31_conversions smallApi hook false _ c _ _ _ (fun _ _ h => ⟨Ten.scalar 1, (Except.ok.inj h).symm⟩)

/-- `C31_python_values_raise` applies to `numel` of any two tensors. -/
example (hook : UnwrapHook Int) (x y : STen Int) : ∃ e, handleDet hook false false {} (fun _ => .ok (.other 1))
    ⟨[.st x false, .st y false], []⟩ = .error e :=
  C31_python_values_raise hook false {} _ _ (by simp [Args.tensors, tensorsL, Val.tensors]) (fun _ _ h => ⟨1, (Except.ok.inj h).symm⟩)

/-- In the same library, which `C31_exposing_raise_partial`, `C31_methods_partial` and `C31_python_values_raise` apply to, `x + x`
is hidden, and `x.item()` and `x.numel()` raise. -/
example : Access.summary (callMethod smallApi (fun _ t => .ok t) ⟨false, false⟩ (fun _ => .error .type) "__add__"
      ⟨Ten.scalar 5, [], 0⟩ false [.st ⟨Ten.scalar 4, [], 0⟩ false] []) = some (some 9) ∧
    Access.summary (callMethod smallApi (fun _ t => .ok t) ⟨false, false⟩ (fun _ => .error .type) "item"
      ⟨Ten.scalar 5, [], 0⟩ false [] []) = none ∧
    Access.summary (callMethod smallApi (fun _ t => .ok t) ⟨false, false⟩ (fun _ => .error .type) "numel"
      ⟨Ten.scalar 5, [], 0⟩ false [] []) = none := by decide +kernel

end Storch
