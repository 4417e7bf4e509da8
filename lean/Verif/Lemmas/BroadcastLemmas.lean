import Verif.Lemmas.AlignLemmas

/-! Torch broadcasting of shapes whose leading part is a list of plate dimensions. -/

namespace Storch
variable {α β : Type _}

open Ten

theorem bzip_length {x y z : List Nat} (h : bzip x y = some z) :
    z.length = x.length ∧ x.length = y.length := by
  induction x generalizing y z with
  | nil =>
    cases y with
    | nil => simp [bzip] at h; subst h; simp
    | cons b y => simp [bzip] at h
  | cons a x ih =>
    cases y with
    | nil => simp [bzip] at h
    | cons b y =>
      simp only [bzip] at h
      cases h1 : bdim a b with
      | none => simp [h1] at h
      | some d =>
        cases h2 : bzip x y with
        | none => simp [h1, h2] at h
        | some ds =>
          simp only [h1, h2, Option.some.injEq] at h
          subst h
          have := ih h2
          simp [this.1, this.2]

theorem bzip_append {x y z : List Nat} (h : bzip x y = some z) (x' y' : List Nat) :
    bzip (x ++ x') (y ++ y') = (bzip x' y').map (z ++ ·) := by
  induction x generalizing y z with
  | nil =>
    cases y with
    | nil => simp [bzip] at h; subst h; simp
    | cons b y => simp [bzip] at h
  | cons a x ih =>
    cases y with
    | nil => simp [bzip] at h
    | cons b y =>
      simp only [bzip] at h
      cases h1 : bdim a b with
      | none => simp [h1] at h
      | some d =>
        cases h2 : bzip x y with
        | none => simp [h1, h2] at h
        | some ds =>
          simp only [h1, h2, Option.some.injEq] at h
          subst h
          simp only [List.cons_append, bzip, h1, ih h2]
          cases bzip x' y' <;> rfl

/-- Broadcast a list of shapes of the same length, starting from `acc`. -/
def bfold (acc : List Nat) (shapes : List (List Nat)) : Option (List Nat) :=
  shapes.foldlM (fun acc s => bzip acc s) acc

theorem bfold_cons (acc s : List Nat) (ss : List (List Nat)) :
    bfold acc (s :: ss) = (bzip acc s).bind (fun a => bfold a ss) := rfl

theorem bshapes_eq (shapes : List (List Nat)) (n : Nat) (h : (shapes.map List.length).foldr max 0 = n) :
    bshapes shapes = bfold (List.replicate n 1) (shapes.map (padL n)) := by
  subst h
  rw [bshapes, bfold, List.foldlM_map]

theorem bfold_length {acc s : List Nat} {ss : List (List Nat)} (h : bfold acc ss = some s) :
    s.length = acc.length := by
  induction ss generalizing acc with
  | nil => simp [bfold] at h; subst h; rfl
  | cons x ss ih =>
    rw [bfold_cons] at h
    cases h1 : bzip acc x with
    | none => simp [h1] at h
    | some a =>
      simp only [h1, Option.bind_some] at h
      rw [ih h, (bzip_length h1).1]

/-- Plate dimensions: size `n` where the predicate holds, 1 elsewhere. -/
def pdims (M : List (Plate α)) (P : Plate α → Bool) : List Nat := M.map (fun p => if P p then p.n else 1)

@[simp] theorem length_pdims (M : List (Plate α)) (P : Plate α → Bool) : (pdims M P).length = M.length := by
  simp [pdims]

theorem bzip_pdims (M : List (Plate α)) (P Q : Plate α → Bool) :
    bzip (pdims M P) (pdims M Q) = some (pdims M (fun p => P p || Q p)) := by
  induction M with
  | nil => rfl
  | cons p M ih =>
    simp only [pdims, List.map_cons, bzip] at ih ⊢
    rw [ih]
    have : bdim (if P p = true then p.n else 1) (if Q p = true then p.n else 1) =
        some (if (P p || Q p) = true then p.n else 1) := by
      cases hP : P p <;> cases hQ : Q p <;> simp [bdim]
      intro h1 h2
      exact absurd h2 h1
    rw [this]

theorem bfold_split (M : List (Plate α)) (A : Plate α → Bool) (acc : List Nat)
    (ss : List ((Plate α → Bool) × List Nat)) :
    bfold (pdims M A ++ acc) (ss.map (fun s => pdims M s.1 ++ s.2)) =
      (bfold acc (ss.map Prod.snd)).map
        (fun e => pdims M (fun p => A p || ss.any (fun s => s.1 p)) ++ e) := by
  induction ss generalizing A acc with
  | nil => simp [bfold]
  | cons s ss ih =>
    simp only [List.map_cons, bfold_cons]
    rw [bzip_append (bzip_pdims M A s.1)]
    cases h : bzip acc s.2 with
    | none => simp
    | some a =>
      simp only [Option.map_some, Option.bind_some]
      rw [ih]
      congr 1
      funext e
      congr 2
      funext p
      simp [Bool.or_assoc]

theorem replicate_eq_pdims (M : List (Plate α)) :
    List.replicate M.length 1 = pdims M (fun _ => false) := by
  induction M with
  | nil => rfl
  | cons p M ih => simp [pdims, List.replicate_succ] at ih ⊢

theorem bidx_append {s s' i i' : List Nat} (h : s.length = i.length) :
    bidx (s ++ s') (i ++ i') = bidx s i ++ bidx s' i' := by
  rw [bidx, List.zipWith_append (h := h)]; rfl

theorem bidx_of_inB {s e : List Nat} (h : InB e s) : bidx s e = e := by
  induction h with
  | nil => rfl
  | cons hd _ ih =>
    rename_i x d l1 l2 _
    simp only [bidx, List.zipWith_cons_cons] at ih ⊢
    rw [ih]
    split_ifs with h1
    · have : x = 0 := by omega
      simp [this]
    · rfl

theorem take_bidx (s r e : List Nat) : (bidx (s ++ r) e).take s.length = bidx s e := by
  rw [bidx, List.take_zipWith, List.take_left]
  induction s generalizing e with
  | nil => simp [bidx]
  | cons a s ih =>
    cases e with
    | nil => simp [bidx]
    | cons b e =>
      simp only [List.length_cons, List.take_succ_cons, List.zipWith_cons_cons, bidx] at ih ⊢
      rw [ih]

theorem bidx_pdims (M : List (Plate α)) (P : Plate α → Bool) (ι : String → Nat)
    (hn : ∀ p ∈ M, 1 < p.n) :
    bidx (pdims M P) (M.map (fun p => ι p.name)) = M.map (fun p => if P p then ι p.name else 0) := by
  induction M with
  | nil => rfl
  | cons p M ih =>
    have h1 := hn p (by simp)
    have := ih (fun x hx => hn x (List.mem_cons_of_mem _ hx))
    simp only [bidx, pdims, List.map_cons, List.zipWith_cons_cons] at this ⊢
    rw [this]
    by_cases hP : P p = true
    · simp only [hP, if_true]; rw [if_neg (by omega)]
    · simp [hP]

theorem InB.length_eq {i s : List Nat} (h : InB i s) : i.length = s.length := List.Forall₂.length_eq h

end Storch
