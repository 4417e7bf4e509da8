import Verif.Model.World
import Mathlib.Logic.Relation
import Mathlib.Data.List.Count
import Mathlib.Tactic.Linarith

/-!
# Primitive changes of the world

Every command is a sequence of primitive changes; invariants of the graph are shown for these.
-/

namespace Storch
variable {α : Type _} {ins : Bool}

namespace World

/-- The parts of the world that make up the graph are the same. -/
structure SameGraph (w w' : World α) : Prop where
  size : w'.size = w.size
  node : w'.node = w.node
  plateList : w'.plateList = w.plateList
  kidList : w'.kidList = w.kidList

/-- A primitive change.  `ins` says whether plates may be inserted into existing lists. -/
inductive Prim (ins : Bool) : World α → World α → Prop
  | same {w w'} : SameGraph w w' → Prim ins w w'
  | new {w w' kind name t parents src rg m id} (hp : ∀ p ∈ parents, p < w.size)
      (hs : ∀ a, src = .shared a → ∃ j, j < w.size ∧ a = (w.node j).platesAt) :
      newNode w kind name t parents src rg m = (w', .ok id) → Prim ins w w'
  | insertPlate {w : World α} (a : Nat) (p : Plate α) (hi : ins = true)
      (hn : ∀ q ∈ w.plateList a, q.name ≠ p.name) :
      Prim ins w { w with plateList := fun b => if b = a then p :: w.plateList a else w.plateList b }
  | mark {w : World α} (x : Nat) (hx : x < w.size) : Prim ins w (w.mark x)
  | cut {w : World α} (x : Nat) (hx : x < w.size) (hc : (w.node x).cleaned = true) : Prim ins w (w.cut x)
  | mimic {w w' x t ps} : mimic w x t ps = (w', .ok ()) → Prim ins w w'

/-- A sequence of primitive changes. -/
abbrev Prims (ins : Bool) : World α → World α → Prop := Relation.ReflTransGen (Prim ins)

/-- Changes that insert no plates are changes. -/
theorem Prims.loosen {w w' : World α} (h : Prims false w w') : Prims ins w w' := by
  refine Relation.ReflTransGen.mono ?_ _ _ h
  intro a b h
  cases h with
  | same h => exact .same h
  | new h1 h2 h3 => exact .new h1 h2 h3
  | insertPlate _ _ h => cases h
  | mark x h => exact .mark x h
  | cut x h h' => exact .cut x h h'
  | mimic h => exact .mimic h

/-- The module variables refer to existing tensors, and nothing is registered outside a stochastic
context. -/
structure VarsOK (w : World α) : Prop where
  costs : ∀ c ∈ w.costs, c < w.size
  parents : ∀ c ∈ w.stochParents, c < w.size
  quiet : w.ctxStoch = false → w.stochParents = [] ∧ w.plateLinks = []

/-- The number of the tensor for which the child list of `i` was made: `i` itself, or the original of a
copy made by `surrogate_loss`. -/
def rank (w : World α) (i : Nat) : Nat := (w.node i).kidsAt / 2

/-- The links stay among the existing tensors and go up in rank; lists made by `_clean` belong to cleaned
tensors; no link is flagged differentiable. -/
structure LinksOK (w : World α) : Prop where
  parents : ∀ i < w.size, ∀ e ∈ w.parents i, e.1 < w.rank i ∧ e.2 = false
  kids : ∀ a, ∀ e ∈ w.kidList a, e.1 < w.size ∧ a / 2 < w.rank e.1 ∧ e.2 = false
  addr : ∀ i < w.size, w.rank i ≤ i
  cleanAddr : ∀ i < w.size, ∀ j, (w.node i).kidsAt = 2 * j + 1 → (w.node j).cleaned = true
  plates : ∀ i < w.size, (w.node i).platesAt < w.size

theorem newNode_size {w w' : World α} {kind name t parents src rg m r}
    (h : newNode w kind name t parents src rg m = (w', r)) :
    w'.size = w.size ∨ w'.size = w.size + 1 := by
  unfold newNode at h
  split at h <;> cases h <;> simp

/-- What the constructor leaves alone. -/
structure SameVars (w w' : World α) : Prop where
  ctxDet : w'.ctxDet = w.ctxDet
  ctxStoch : w'.ctxStoch = w.ctxStoch
  stochParents : w'.stochParents = w.stochParents
  plateLinks : w'.plateLinks = w.plateLinks
  ignoreWrap : w'.ignoreWrap = w.ignoreWrap
  gradEnabled : w'.gradEnabled = w.gradEnabled
  costs : w'.costs = w.costs
  methods : w'.methods = w.methods
  resets : w'.resets = w.resets
  log : w'.log = w.log

theorem SameVars.rfl' {w : World α} : SameVars w w := by constructor <;> rfl

theorem SameVars.trans {a b c : World α} (h : SameVars a b) (h' : SameVars b c) : SameVars a c := by
  constructor
  · rw [h'.ctxDet, h.ctxDet]
  · rw [h'.ctxStoch, h.ctxStoch]
  · rw [h'.stochParents, h.stochParents]
  · rw [h'.plateLinks, h.plateLinks]
  · rw [h'.ignoreWrap, h.ignoreWrap]
  · rw [h'.gradEnabled, h.gradEnabled]
  · rw [h'.costs, h.costs]
  · rw [h'.methods, h.methods]
  · rw [h'.resets, h.resets]
  · rw [h'.log, h.log]

theorem newNode_vars {w w' : World α} {kind name t parents src rg m r}
    (h : newNode w kind name t parents src rg m = (w', r)) : SameVars w w' := by
  unfold newNode at h
  split at h <;> cases h <;> constructor <;> rfl

theorem newNode_error {w w' : World α} {kind name t parents src rg m e}
    (h : newNode w kind name t parents src rg m = (w', .error e)) : w' = w := by
  unfold newNode at h
  split at h <;> cases h
  rfl

theorem newNode_ok {w w' : World α} {kind name t parents src rg m id}
    (h : newNode w kind name t parents src rg m = (w', .ok id)) : id = w.size ∧ w'.size = w.size + 1 := by
  unfold newNode at h
  split at h <;> cases h
  exact ⟨rfl, rfl⟩

/-- A constructor call is a primitive change, or nothing. -/
theorem newNode_prims {w w' : World α} {kind name t parents src rg m r}
    (hp : ∀ p ∈ parents, p < w.size)
    (hs : ∀ a, src = .shared a → ∃ j, j < w.size ∧ a = (w.node j).platesAt)
    (h : newNode w kind name t parents src rg m = (w', r)) : Prims ins w w' := by
  cases r with
  | error e => rw [newNode_error h]
  | ok id => exact .single (.new hp hs h)

theorem VarsOK.mono {w w' : World α} (h : VarsOK w) (hs : w.size ≤ w'.size) (hv : SameVars w w') :
    VarsOK w' := by
  constructor
  · rw [hv.costs]; exact fun c hc => lt_of_lt_of_le (h.costs c hc) hs
  · rw [hv.stochParents]; exact fun c hc => lt_of_lt_of_le (h.parents c hc) hs
  · rw [hv.ctxStoch, hv.stochParents, hv.plateLinks]; exact h.quiet

/-! ### The child lists -/

theorem addKids_eq (w : World α) (id : Nat) (ps : List Nat) : ∀ kl a, addKids w id ps kl a =
    kl a ++ List.replicate (ps.countP (fun p => (w.node p).kidsAt == a)) (id, false) := by
  induction ps with
  | nil => intro kl a; simp [addKids]
  | cons p ps ih =>
    intro kl a
    rw [addKids, ih]
    by_cases h : a = (w.node p).kidsAt
    · rw [if_pos h, List.countP_cons_of_pos (by simp [h]), List.append_assoc, List.replicate_succ]
      rfl
    · rw [if_neg h, List.countP_cons_of_neg (by simpa using fun h' => h h'.symm)]

theorem mem_addLinkedKids {w : World α} {id : Nat} {ps : List (Nat × Bool)} : ∀ {kl a e},
    e ∈ addLinkedKids w id ps kl a ↔
      e ∈ kl a ∨ ∃ p ∈ ps, (w.node p.1).kidsAt = a ∧ e = (id, p.2) := by
  induction ps with
  | nil => intro kl a e; simp [addLinkedKids]
  | cons p ps ih =>
    intro kl a e
    rw [addLinkedKids, ih]
    by_cases h : a = (w.node p.1).kidsAt
    · subst h
      rw [if_pos rfl]
      simp only [List.mem_append, List.mem_cons, List.not_mem_nil, or_false, exists_eq_or_imp, true_and]
      tauto
    · rw [if_neg h]
      simp [Ne.symm h]

/-- The fields of the new tensor and of all others. -/
theorem newNode_spec {w w' : World α} {kind name t parents src rg m id}
    (h : newNode w kind name t parents src rg m = (w', .ok id)) :
    id = w.size ∧ w'.size = w.size + 1 ∧
      (∀ i, i ≠ id → w'.node i = w.node i) ∧
      (w'.node id).parents = parents.map (fun p => (p, false)) ∧ (w'.node id).kidsAt = 2 * id ∧
      (w'.node id).cleaned = false ∧ (w'.node id).ten = t ∧ (w'.node id).kind = kind ∧
      (w'.node id).platesAt = src.addr id ∧
      w'.plateList = src.store id w.plateList ∧
      (∀ a, w'.kidList a = if a = 2 * id then [] else addKids w id parents w.kidList a) ∧
      STen.checkPlates t.shape (w.srcPlates src) [] 0 = .ok (w'.node id).plateDims ∧
      (w'.node id).name = name ∧ (w'.node id).requiresGrad = rg ∧ (w'.node id).method = m ∧
      (w'.node id).origin = id := by
  unfold newNode at h
  split at h
  · cases h
  · rename_i d hd
    cases h
    refine ⟨rfl, rfl, ?_, ?_⟩
    · intro i hi; simp [hi]
    · simp [hd]

theorem mimic_spec {w w' : World α} {x t ps} (h : mimic w x t ps = (w', .ok ())) :
    x < w.size ∧ ∃ w1, newNode w .stoch (w.node x).name t [] (.fresh ps) (w.node x).requiresGrad
        (w.node x).method = (w1, .ok w.size) ∧ w'.size = w.size + 1 ∧
      (∀ i, i ≠ w.size → w'.node i = w.node i) ∧
      w'.node w.size = { w1.node w.size with
        parents := (w.node x).parents, kidsAt := (w.node x).kidsAt, origin := (w.node x).kidsAt / 2 } ∧
      w'.plateList = w1.plateList ∧
      (∀ a, w'.kidList a = addLinkedKids w w.size (w.node x).parents
        (fun a => if a = 2 * w.size then [] else w.kidList a) a) ∧ SameVars w w' := by
  unfold mimic at h
  split at h
  · cases h
  · rename_i hx
    split at h
    · cases h
    · split at h
      · cases h
      · rename_i w1 id hn
        obtain ⟨h1, h2, h3, h4, h5, h6, h7, h8, h9, h10, h11, h12⟩ := newNode_spec hn
        subst h1
        have hv := newNode_vars hn
        cases h
        refine ⟨not_le.1 hx, w1, hn, h2, ?_, by simp, rfl, ?_, ?_⟩
        · intro i hi; simp [hi, h3 i hi]
        · intro a
          have : w1.kidList = fun a => if a = 2 * w.size then [] else w.kidList a := by
            funext a; rw [h11]; rfl
          simp only [this]
        · exact ⟨hv.1, hv.2, hv.3, hv.4, hv.5, hv.6, hv.7, hv.8, hv.9, hv.10⟩

/-! ### Links stay in range -/

theorem rank_of_node {w w' : World α} {i : Nat} (h : w'.node i = w.node i) : w'.rank i = w.rank i := by
  rw [rank, rank, h]

theorem LinksOK.prim {w w' : World α} (h : LinksOK w) (hp : Prim ins w w') : LinksOK w' := by
  cases hp with
  | same hs =>
    obtain ⟨s1, s2, s3, s4⟩ := hs
    have hr : ∀ i, w'.rank i = w.rank i := fun i => rank_of_node (by rw [s2])
    constructor
    · intro i hi e he; rw [hr]; exact h.parents i (s1 ▸ hi) e (by rw [World.parents, s2] at he; exact he)
    · intro a e he; rw [s1, hr]; exact h.kids a e (by rw [← s4]; exact he)
    · intro i hi; rw [hr]; exact h.addr i (s1 ▸ hi)
    · rw [s1, s2]; exact h.cleanAddr
    · intro i hi; rw [s2, s1]; exact h.plates i (s1 ▸ hi)
  | @new _ kind name t parents src rg m id hpar hsrc hn =>
    obtain ⟨h1, h2, h3, h4, h5, h6, h7, h8, h9, h10, h11, h12⟩ := newNode_spec hn
    subst h1
    have hr : ∀ i, i ≠ w.size → w'.rank i = w.rank i := fun i hi => rank_of_node (h3 i hi)
    have hrs : w'.rank w.size = w.size := by rw [rank, h5]; omega
    constructor
    · intro i hi e he
      by_cases hid : i = w.size
      · subst hid
        rw [World.parents, h4] at he
        obtain ⟨p, hp, rfl⟩ := List.mem_map.1 he
        rw [hrs]
        exact ⟨hpar p hp, rfl⟩
      · rw [World.parents, h3 i hid] at he
        rw [hr i hid]
        exact h.parents i (by omega) e he
    · intro a e he
      rw [h11] at he
      split at he
      · simp at he
      · rw [addKids_eq] at he
        rcases List.mem_append.1 he with he | he
        · have := h.kids a e he
          rw [hr _ (by omega)]
          exact ⟨by omega, this.2⟩
        · have hcnt : 0 < List.countP (fun p => (w.node p).kidsAt == a) parents := by
            by_contra hc
            rw [Nat.eq_zero_of_not_pos hc] at he
            simp at he
          rw [List.countP_pos_iff] at hcnt
          obtain ⟨p, hp, hpa⟩ := hcnt
          rw [List.eq_of_mem_replicate he]
          simp only [beq_iff_eq] at hpa
          have := h.addr p (hpar p hp)
          rw [rank, hpa] at this
          have := hpar p hp
          rw [hrs]
          exact ⟨by simp; omega, by omega, rfl⟩
    · intro i hi
      by_cases hid : i = w.size
      · subst hid; rw [hrs]
      · rw [hr i hid]; exact h.addr i (by omega)
    · intro i hi j hj
      by_cases hid : i = w.size
      · subst hid; rw [h5] at hj; omega
      · rw [h3 i hid] at hj
        have := h.cleanAddr i (by omega) j hj
        have hji := h.addr i (by omega)
        rw [rank, hj] at hji
        rw [h3 j (by omega)]
        exact this
    · intro i hi
      by_cases hid : i = w.size
      · subst hid
        rw [h9]
        cases src with
        | fresh ps => simp only [PlateSrc.addr]; omega
        | shared a =>
          simp only [PlateSrc.addr]
          obtain ⟨j, hj, hja⟩ := hsrc a rfl
          have := h.plates j hj
          omega
      · rw [h3 i hid]
        have := h.plates i (by omega)
        omega
  | insertPlate a p _ _ => exact ⟨h.parents, h.kids, h.addr, h.cleanAddr, h.plates⟩
  | mark x hx =>
    have hn : ∀ i, ((w.mark x).node i).parents = (w.node i).parents ∧
        ((w.mark x).node i).kidsAt = (w.node i).kidsAt ∧ ((w.mark x).node i).platesAt = (w.node i).platesAt ∧
        ((w.node i).cleaned = true → ((w.mark x).node i).cleaned = true) := by
      intro i
      simp only [World.mark]
      split
      · rename_i hix; subst hix; simp
      · simp
    have hr : ∀ i, (w.mark x).rank i = w.rank i := fun i => by rw [rank, rank, (hn i).2.1]
    constructor
    · intro i hi e he
      rw [hr]
      exact h.parents i hi e (by rw [World.parents, (hn i).1] at he; exact he)
    · intro a e he; rw [hr]; exact h.kids a e he
    · intro i hi; rw [hr]; exact h.addr i hi
    · intro i hi j hj
      rw [(hn i).2.1] at hj
      exact (hn j).2.2.2 (h.cleanAddr i hi j hj)
    · intro i hi; rw [(hn i).2.2.1]; exact h.plates i hi
  | cut x hx hc =>
    have hr : ∀ i, w.rank i ≤ (w.cut x).rank i ∨ w.size ≤ i := by
      intro i
      by_cases hi : i < w.size
      · left
        simp only [rank, World.cut]
        split
        · rename_i hix; subst hix
          have := h.addr i hi
          rw [rank] at this
          simp only; omega
        · exact le_refl _
      · right; omega
    constructor
    · intro i hi e he
      simp only [World.parents, World.cut] at he
      split at he
      · simp at he
      · have := h.parents i hi e he
        rcases hr i with h' | h'
        · exact ⟨by omega, this.2⟩
        · change i < w.size at hi; omega
    · intro a e he
      simp only [World.cut] at he
      split at he
      · simp at he
      · have := h.kids a e he
        rcases hr e.1 with h' | h'
        · exact ⟨this.1, by omega, this.2.2⟩
        · omega
    · intro i hi
      simp only [rank, World.cut]
      split
      · rename_i hix; subst hix; simp only; omega
      · exact h.addr i hi
    · intro i hi j hj
      have hcl : (w.node j).cleaned = true → ((w.cut x).node j).cleaned = true := by
        simp only [World.cut]
        split
        · rename_i hjx; subst hjx; exact id
        · exact id
      apply hcl
      simp only [World.cut] at hj
      split at hj
      · simp only at hj
        have : j = x := by omega
        rw [this]; exact hc
      · exact h.cleanAddr i hi j hj
    · intro i hi
      simp only [World.cut]
      split
      · rename_i hix; subst hix; exact h.plates i hi
      · exact h.plates i hi
  | mimic hm =>
    obtain ⟨hx, w1, hn, h2, h3, h4, h5, h6, h7⟩ := mimic_spec hm
    rename_i x t ps
    have hr : ∀ i, i ≠ w.size → w'.rank i = w.rank i := fun i hi => rank_of_node (h3 i hi)
    have hrs : w'.rank w.size = w.rank x := by rw [rank, h4]; rfl
    constructor
    · intro i hi e he
      by_cases hid : i = w.size
      · subst hid
        rw [World.parents, h4] at he
        rw [hrs]
        exact h.parents x hx e he
      · rw [World.parents, h3 i hid] at he
        rw [hr i hid]
        exact h.parents i (by omega) e he
    · intro a e he
      rw [h6] at he
      rcases mem_addLinkedKids.1 he with he | ⟨p, hp, hpa, rfl⟩
      · split at he
        · simp at he
        · have := h.kids a e he
          rw [hr _ (by omega)]
          exact ⟨by omega, this.2⟩
      · have h1 := h.parents x hx p hp
        have h2' := h.addr x hx
        have h3' := h.addr p.1 (by omega)
        rw [rank, hpa] at h3'
        simp only
        rw [hrs]
        exact ⟨by omega, by omega, h1.2⟩
    · intro i hi
      by_cases hid : i = w.size
      · subst hid; rw [hrs]; have := h.addr x hx; omega
      · rw [hr i hid]; exact h.addr i (by omega)
    · intro i hi j hj
      have key : (w.node j).cleaned = true ∧ j < w.size := by
        by_cases hid : i = w.size
        · subst hid
          rw [h4] at hj
          simp only at hj
          have hji := h.addr x hx
          rw [rank, hj] at hji
          exact ⟨h.cleanAddr x hx j hj, by omega⟩
        · rw [h3 i hid] at hj
          have hji := h.addr i (by omega)
          rw [rank, hj] at hji
          exact ⟨h.cleanAddr i (by omega) j hj, by omega⟩
      rw [h3 j (by omega)]
      exact key.1
    · intro i hi
      by_cases hid : i = w.size
      · subst hid
        rw [h4]
        simp only
        have := (newNode_spec hn).2.2.2.2.2.2.2.2.1
        rw [this]; simp only [PlateSrc.addr]; omega
      · rw [h3 i hid]
        have := h.plates i (by omega)
        omega

theorem LinksOK.prims {w w' : World α} (h : LinksOK w) (hp : Prims ins w w') : LinksOK w' := by
  induction hp with
  | refl => exact h
  | tail _ hp ih => exact ih.prim hp

theorem Prim.size_le {w w' : World α} (hp : Prim ins w w') : w.size ≤ w'.size := by
  cases hp with
  | same hs => exact hs.size.ge
  | new _ _ hn => rw [(newNode_ok hn).2]; omega
  | insertPlate => exact le_refl _
  | mark => exact le_refl _
  | cut => exact le_refl _
  | mimic hm => obtain ⟨_, _, _, h2, _⟩ := mimic_spec hm; omega

theorem Prims.size_le {w w' : World α} (hp : Prims ins w w') : w.size ≤ w'.size := by
  induction hp with
  | refl => exact le_refl _
  | tail _ hp ih => exact ih.trans hp.size_le

theorem LinksOK.init [Inhabited α] : LinksOK (World.init : World α) := by
  constructor <;> intro i hi <;> simp_all [World.init]

end World

end Storch
