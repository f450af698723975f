/-!
# C06: model and proof for `mplang/utils/func_utils.py`
-/
namespace Verif.Trace

/-- A python tree as `jax.tree_util` sees it: leaves and containers.  `kind` stands for the container type with its keys
(list, tuple, dict with these sorted keys, None = container without children). -/
inductive Tree (α : Type) where
  | leaf (a : α)
  | node (kind : String) (children : List (Tree α))

mutual
/-- leaves of `tree_flatten` (jax, external), left to right -/
def Tree.leaves {α : Type} : Tree α → List α
  | .leaf a => [a]
  | .node _ ts => leavesL ts
/-- see `Tree.leaves` -/
def leavesL {α : Type} : List (Tree α) → List α
  | [] => []
  | t :: ts => t.leaves ++ leavesL ts
end

mutual
/-- structure part of `tree_flatten` (a `PyTreeDef`) -/
def Tree.def' {α : Type} : Tree α → Tree Unit
  | .leaf _ => .leaf ()
  | .node k ts => .node k (defL ts)
/-- see `Tree.def'` -/
def defL {α : Type} : List (Tree α) → List (Tree Unit)
  | [] => []
  | t :: ts => t.def' :: defL ts
end

mutual
/-- `tree_unflatten` (jax, external): consume the leaves left to right; `none` = too few leaves -/
def unflattenAux {α : Type} : Tree Unit → List α → Option (Tree α × List α)
  | .leaf _, [] => none
  | .leaf _, a :: r => some (.leaf a, r)
  | .node k ts, l => match unflattenL ts l with
    | none => none
    | some (us, r) => some (.node k us, r)
/-- see `unflattenAux` -/
def unflattenL {α : Type} : List (Tree Unit) → List α → Option (List (Tree α) × List α)
  | [], l => some ([], l)
  | t :: ts, l => match unflattenAux t l with
    | none => none
    | some (u, r) => match unflattenL ts r with
      | none => none
      | some (us, r') => some (u :: us, r')
end

/-- `tree_unflatten`: all leaves must be used (jax raises otherwise) -/
def unflatten {α : Type} (t : Tree Unit) (l : List α) : Option (Tree α) :=
  match unflattenAux t l with
  | some (u, []) => some u
  | _ => none

/-- `list_split` (utils/func_utils.py:62-73) from index `i` on -/
def listSplit {α : Type} (pred : α → Bool) : Nat → List α → List α × List α × List Nat
  | _, [] => ([], [], [])
  | i, x :: xs =>
    let r := listSplit pred (i + 1) xs
    if pred x then (x :: r.1, r.2.1, i :: r.2.2) else (r.1, x :: r.2.1, r.2.2)

/-- loop of `list_reconstruct` (utils/func_utils.py:76-87); `n` iterations remain, `idx` is the loop variable, the lists
are the parts not consumed yet (`fst_itr` indexes both `fst` and `fst_idxs`).  `none` = IndexError. -/
def reconLoop {α : Type} : Nat → Nat → List α → List α → List Nat → Option (List α)
  | 0, _, _, _, _ => some []
  | n + 1, idx, fst, snd, idxs =>
    match idxs with
    | i :: is =>
      if i = idx then match fst with
        | [] => none
        | x :: fst' => (reconLoop n (idx + 1) fst' snd is).map (x :: ·)
      else match snd with
        | [] => none
        | y :: snd' => (reconLoop n (idx + 1) fst snd' (i :: is)).map (y :: ·)
    | [] => match snd with
      | [] => none
      | y :: snd' => (reconLoop n (idx + 1) fst snd' []).map (y :: ·)

/-- `list_reconstruct` (utils/func_utils.py:76-87) -/
def listReconstruct {α : Type} (fst snd : List α) (idxs : List Nat) : Option (List α) :=
  reconLoop (fst.length + snd.length) 0 fst snd idxs

/-- `MorphStruct` (utils/func_utils.py:24-29) -/
abbrev Morph (α : Type) := Tree Unit × List Nat × List α

/-- `var_morph` (utils/func_utils.py:90-96) -/
def varMorph {α : Type} (t : Tree α) (isVar : α → Bool) : List α × Morph α :=
  let r := listSplit isVar 0 t.leaves
  (r.1, (t.def', r.2.2, r.2.1))

/-- `var_demorph` (utils/func_utils.py:99-103) -/
def varDemorph {α : Type} (vars : List α) (m : Morph α) : Option (Tree α) :=
  match listReconstruct vars m.2.2 m.2.1 with
  | none => none
  | some flat => unflatten m.1 flat

/-! ## Specification: replace the variable leaves, left to right, by the given values -/

/-- replace the variables of a list -/
def substList {α : Type} (isVar : α → Bool) : List α → List α → List α
  | [], _ => []
  | x :: xs, vs => if isVar x then match vs with
      | [] => x :: substList isVar xs []
      | v :: vs' => v :: substList isVar xs vs'
    else x :: substList isVar xs vs

mutual
/-- replace the variable leaves of a tree by `f` of their rank (0, 1, … from the left); returns also the next rank -/
def Tree.subst {α : Type} (isVar : α → Bool) (f : Nat → α) : Tree α → Nat → Tree α × Nat
  | .leaf a, n => if isVar a then (.leaf (f n), n + 1) else (.leaf a, n)
  | .node k ts, n => let r := substL isVar f ts n; (.node k r.1, r.2)
/-- see `Tree.subst` -/
def substL {α : Type} (isVar : α → Bool) (f : Nat → α) : List (Tree α) → Nat → List (Tree α) × Nat
  | [], n => ([], n)
  | t :: ts, n =>
    let r := t.subst isVar f n
    let s := substL isVar f ts r.2
    (r.1 :: s.1, s.2)
end

/-! ## Proofs -/

theorem listSplit_idx {α : Type} (pred : α → Bool) (i : Nat) (xs : List α) :
    ∀ k ∈ (listSplit pred i xs).2.2, i ≤ k := by
  induction xs generalizing i with
  | nil => simp [listSplit]
  | cons x xs ih =>
    intro k hk
    simp only [listSplit] at hk
    split at hk
    · simp only [List.mem_cons] at hk
      rcases hk with rfl | hk
      · exact Nat.le_refl _
      · have := ih (i + 1) k hk; omega
    · have := ih (i + 1) k hk; omega

theorem listSplit_len {α : Type} (pred : α → Bool) (i : Nat) (xs : List α) :
    (listSplit pred i xs).1.length + (listSplit pred i xs).2.1.length = xs.length := by
  induction xs generalizing i with
  | nil => simp [listSplit]
  | cons x xs ih =>
    have := ih (i + 1)
    simp only [listSplit]
    split <;> simp <;> omega

theorem recon_split {α : Type} (pred : α → Bool) (i : Nat) (xs vs : List α)
    (hl : vs.length = (listSplit pred i xs).1.length) :
    reconLoop xs.length i vs (listSplit pred i xs).2.1 (listSplit pred i xs).2.2 = some (substList pred xs vs) := by
  induction xs generalizing i vs with
  | nil => simp [listSplit, reconLoop, substList]
  | cons x xs ih =>
    simp only [listSplit] at hl ⊢
    split at hl
    · rename_i hp
      cases vs with
      | nil => simp at hl
      | cons v vs =>
        simp only [List.length_cons, Nat.add_right_cancel_iff] at hl
        simp only [hp, if_true, List.length_cons, reconLoop, substList, ih (i + 1) vs hl, Option.map_some]
    · rename_i hp
      have h1 := ih (i + 1) vs hl
      have h2 := listSplit_idx pred (i + 1) xs
      simp only [List.length_cons, hp, substList]
      cases hidx : (listSplit pred (i + 1) xs).2.2 with
      | nil => rw [hidx] at h1; simp [reconLoop, h1]
      | cons k ks =>
        have hne : k ≠ i := by have := h2 k (by rw [hidx]; simp); omega
        rw [hidx] at h1
        simp [reconLoop, hne, h1]

mutual
theorem unflatten_spec {α : Type} (t : Tree α) (l r : List α) (h : l.length = t.leaves.length) :
    ∃ u, unflattenAux t.def' (l ++ r) = some (u, r) ∧ u.leaves = l ∧ u.def' = t.def' := by
  match t with
  | .leaf a =>
    simp only [Tree.leaves, List.length_singleton] at h
    match l, h with
    | [x], _ => exact ⟨.leaf x, by simp [Tree.def', unflattenAux], by simp [Tree.leaves], by simp [Tree.def']⟩
  | .node k ts =>
    simp only [Tree.leaves] at h
    obtain ⟨us, h1, h2, h3⟩ := unflattenL_spec ts l r h
    exact ⟨.node k us, by simp [Tree.def', unflattenAux, h1], by simp [Tree.leaves, h2], by simp [Tree.def', h3]⟩
theorem unflattenL_spec {α : Type} (ts : List (Tree α)) (l r : List α) (h : l.length = (leavesL ts).length) :
    ∃ us, unflattenL (defL ts) (l ++ r) = some (us, r) ∧ leavesL us = l ∧ defL us = defL ts := by
  match ts with
  | [] =>
    simp only [leavesL, List.length_nil] at h
    have : l = [] := List.length_eq_zero_iff.mp h
    subst this
    exact ⟨[], by simp [defL, unflattenL], by simp [leavesL], rfl⟩
  | t :: ts =>
    simp only [leavesL, List.length_append] at h
    have hsplit : l = l.take t.leaves.length ++ l.drop t.leaves.length := (List.take_append_drop _ _).symm
    have hl1 : (l.take t.leaves.length).length = t.leaves.length := by simp; omega
    have hl2 : (l.drop t.leaves.length).length = (leavesL ts).length := by simp; omega
    obtain ⟨u, h1, h2, h3⟩ := unflatten_spec t (l.take t.leaves.length) (l.drop t.leaves.length ++ r) hl1
    obtain ⟨us, g1, g2, g3⟩ := unflattenL_spec ts (l.drop t.leaves.length) r hl2
    refine ⟨u :: us, ?_, ?_, ?_⟩
    · simp only [defL, unflattenL]
      rw [hsplit, List.append_assoc, h1]
      simp only [g1]
    · simp only [leavesL, h2, g2, List.take_append_drop]
    · simp only [defL, h3, g3]
end

mutual
theorem tree_ext {α : Type} (t u : Tree α) (h1 : t.leaves = u.leaves) (h2 : t.def' = u.def') : t = u := by
  match t, u with
  | .leaf a, .leaf b => simp only [Tree.leaves, List.cons.injEq, and_true] at h1; rw [h1]
  | .leaf a, .node k ts => simp [Tree.def'] at h2
  | .node k ts, .leaf a => simp [Tree.def'] at h2
  | .node k ts, .node k' us =>
    simp only [Tree.def', Tree.node.injEq] at h2
    simp only [Tree.leaves] at h1
    rw [h2.1, trees_ext ts us h1 h2.2]
theorem trees_ext {α : Type} (ts us : List (Tree α)) (h1 : leavesL ts = leavesL us) (h2 : defL ts = defL us) :
    ts = us := by
  match ts, us with
  | [], [] => rfl
  | [], u :: us => simp [defL] at h2
  | t :: ts, [] => simp [defL] at h2
  | t :: ts, u :: us =>
    simp only [defL, List.cons.injEq] at h2
    simp only [leavesL] at h1
    have hlen : t.leaves.length = u.leaves.length := leaves_len t u h2.1
    have h3 := List.append_inj h1 hlen
    rw [tree_ext t u h3.1 h2.1, trees_ext ts us h3.2 h2.2]
theorem leaves_len {α : Type} (t u : Tree α) (h : t.def' = u.def') : t.leaves.length = u.leaves.length := by
  match t, u with
  | .leaf a, .leaf b => rfl
  | .leaf a, .node k ts => simp [Tree.def'] at h
  | .node k ts, .leaf a => simp [Tree.def'] at h
  | .node k ts, .node k' us =>
    simp only [Tree.def', Tree.node.injEq] at h
    simp only [Tree.leaves]
    exact leavesL_len ts us h.2
theorem leavesL_len {α : Type} (ts us : List (Tree α)) (h : defL ts = defL us) :
    (leavesL ts).length = (leavesL us).length := by
  match ts, us with
  | [], [] => rfl
  | [], u :: us => simp [defL] at h
  | t :: ts, [] => simp [defL] at h
  | t :: ts, u :: us =>
    simp only [defL, List.cons.injEq] at h
    simp only [leavesL, List.length_append, leaves_len t u h.1, leavesL_len ts us h.2]
end

theorem substList_append {α : Type} (p : α → Bool) (xs ys vs : List α) (h : (xs.filter p).length ≤ vs.length) :
    substList p (xs ++ ys) vs = substList p xs (vs.take (xs.filter p).length) ++
      substList p ys (vs.drop (xs.filter p).length) := by
  induction xs generalizing vs with
  | nil => simp [substList]
  | cons x xs ih =>
    simp only [List.cons_append, substList]
    by_cases hp : p x = true
    · simp only [List.filter_cons, hp, if_true, List.length_cons] at h ⊢
      cases vs with
      | nil => simp at h
      | cons v vs =>
        simp only [List.length_cons, Nat.add_le_add_iff_right] at h
        simp only [List.take_succ_cons, List.drop_succ_cons, List.cons_append]
        rw [ih vs h]
    · have hp' : p x = false := by simpa using hp
      simp only [List.filter_cons, hp', if_false] at h ⊢
      simp only [Bool.false_eq_true, if_false] at h ⊢
      rw [ih vs h]; simp

theorem substList_length {α : Type} (p : α → Bool) (xs vs : List α) : (substList p xs vs).length = xs.length := by
  induction xs generalizing vs with
  | nil => simp [substList]
  | cons x xs ih =>
    simp only [substList]
    split
    · cases vs <;> simp [ih]
    · simp [ih]

theorem listSplit_fst {α : Type} (p : α → Bool) (i : Nat) (xs : List α) : (listSplit p i xs).1 = xs.filter p := by
  induction xs generalizing i with
  | nil => simp [listSplit]
  | cons x xs ih => simp only [listSplit, List.filter_cons]; split <;> simp [ih]

theorem substList_self {α : Type} (p : α → Bool) (xs : List α) : substList p xs (xs.filter p) = xs := by
  induction xs with
  | nil => rfl
  | cons x xs ih =>
    simp only [substList, List.filter_cons]
    by_cases hp : p x = true
    · simp [hp, ih]
    · simp [hp, ih]

mutual
theorem subst_leaves {α : Type} (p : α → Bool) (f : Nat → α) (t : Tree α) (n : Nat) :
    (t.subst p f n).1.leaves = substList p t.leaves ((List.range' n (t.leaves.filter p).length).map f) ∧
    (t.subst p f n).1.def' = t.def' ∧ (t.subst p f n).2 = n + (t.leaves.filter p).length := by
  match t with
  | .leaf a =>
    simp only [Tree.subst, Tree.leaves]
    by_cases hp : p a = true
    · simp [hp, Tree.leaves, Tree.def', substList]
    · simp [hp, Tree.leaves, Tree.def', substList]
  | .node k ts =>
    obtain ⟨h1, h2, h3⟩ := substL_leaves p f ts n
    exact ⟨by simp [Tree.subst, Tree.leaves, h1], by simp [Tree.subst, Tree.def', h2], by simp [Tree.subst, Tree.leaves, h3]⟩
theorem substL_leaves {α : Type} (p : α → Bool) (f : Nat → α) (ts : List (Tree α)) (n : Nat) :
    leavesL (substL p f ts n).1 = substList p (leavesL ts) ((List.range' n ((leavesL ts).filter p).length).map f) ∧
    defL (substL p f ts n).1 = defL ts ∧ (substL p f ts n).2 = n + ((leavesL ts).filter p).length := by
  match ts with
  | [] => simp [substL, leavesL, defL, substList]
  | t :: ts =>
    obtain ⟨h1, h2, h3⟩ := subst_leaves p f t n
    obtain ⟨g1, g2, g3⟩ := substL_leaves p f ts (t.subst p f n).2
    refine ⟨?_, ?_, ?_⟩
    · simp only [substL, leavesL, List.filter_append, List.length_append]
      rw [substList_append _ _ _ _ (by simp), h1, g1, h3]
      rw [← List.range'_append_1, List.map_append]
      congr 1
      · rw [List.take_left' (by simp)]
      · rw [List.drop_left' (by simp)]
    · simp only [substL, defL, h2, g2]
    · simp only [substL, leavesL, List.filter_append, List.length_append]; rw [g3, h3]; omega
end

/-- **C06** Splitting the arguments and merging them again gives the original arguments back. -/
theorem morph_roundtrip {α : Type} (t : Tree α) (isVar : α → Bool) :
    varDemorph (varMorph t isVar).1 (varMorph t isVar).2 = some t := by
  simp only [varDemorph, varMorph, listReconstruct, listSplit_len]
  rw [recon_split isVar 0 t.leaves (listSplit isVar 0 t.leaves).1 rfl, listSplit_fst, substList_self]
  simp only [unflatten]
  obtain ⟨u, h1, h2, h3⟩ := unflatten_spec t t.leaves [] rfl
  rw [List.append_nil] at h1
  rw [h1]
  simp only [Option.some.injEq]
  exact tree_ext u t h2 h3

/-- **C06** Merging with other values `f 0, f 1, …` for the variables replaces exactly the variables, in order. -/
theorem morph_replace {α : Type} (t : Tree α) (isVar : α → Bool) (f : Nat → α) :
    varDemorph ((List.range (varMorph t isVar).1.length).map f) (varMorph t isVar).2 = some (t.subst isVar f 0).1 := by
  have hlen := listSplit_len isVar 0 t.leaves
  simp only [varDemorph, varMorph, listReconstruct, List.length_map, List.length_range, hlen]
  rw [recon_split isVar 0 t.leaves _ (by simp)]
  simp only [unflatten]
  obtain ⟨u, h1, h2, h3⟩ := unflatten_spec t
    (substList isVar t.leaves ((List.range (listSplit isVar 0 t.leaves).1.length).map f)) [] (substList_length _ _ _)
  rw [List.append_nil] at h1
  rw [h1]
  simp only [Option.some.injEq]
  obtain ⟨g1, g2, -⟩ := subst_leaves isVar f t 0
  apply tree_ext
  · rw [h2, g1, listSplit_fst, List.range_eq_range']
  · rw [h3, g2]

mutual
theorem unflatten_sound {α : Type} (t : Tree Unit) (l r : List α) (u : Tree α) (h : unflattenAux t l = some (u, r)) :
    l = u.leaves ++ r ∧ u.def' = t := by
  match t, l with
  | .leaf (), [] => simp [unflattenAux] at h
  | .leaf (), x :: l =>
    simp only [unflattenAux, Option.some.injEq, Prod.mk.injEq] at h
    obtain ⟨rfl, rfl⟩ := h
    exact ⟨by simp [Tree.leaves], by simp [Tree.def']⟩
  | .node k ts, l =>
    simp only [unflattenAux] at h
    split at h
    · cases h
    · rename_i us q hq
      simp only [Option.some.injEq, Prod.mk.injEq] at h
      obtain ⟨rfl, rfl⟩ := h
      obtain ⟨h1, h2⟩ := unflattenL_sound ts l _ us hq
      exact ⟨by simpa [Tree.leaves] using h1, by simp [Tree.def', h2]⟩
theorem unflattenL_sound {α : Type} (ts : List (Tree Unit)) (l r : List α) (us : List (Tree α))
    (h : unflattenL ts l = some (us, r)) : l = leavesL us ++ r ∧ defL us = ts := by
  match ts with
  | [] =>
    simp only [unflattenL, Option.some.injEq, Prod.mk.injEq] at h
    obtain ⟨rfl, rfl⟩ := h
    exact ⟨by simp [leavesL], by simp [defL]⟩
  | t :: ts =>
    simp only [unflattenL] at h
    split at h
    · cases h
    · rename_i u q hq
      split at h
      · cases h
      · rename_i vs q' hq'
        simp only [Option.some.injEq, Prod.mk.injEq] at h
        obtain ⟨rfl, rfl⟩ := h
        obtain ⟨h1, h2⟩ := unflatten_sound t l q u hq
        obtain ⟨g1, g2⟩ := unflattenL_sound ts q _ vs hq'
        exact ⟨by rw [h1, g1]; simp [leavesL], by simp [defL, h2, g2]⟩
end

/-- **C06** Rebuilding never drops or invents a value: whatever is rebuilt has exactly the given leaves, in order, and the
recorded structure; so too many or too few values are refused. -/
theorem unflatten_exact {α : Type} (t : Tree Unit) (l : List α) (u : Tree α) (h : unflatten t l = some u) :
    u.leaves = l ∧ u.def' = t := by
  unfold unflatten at h
  split at h
  · rename_i v hv
    simp only [Option.some.injEq] at h
    subst h
    obtain ⟨h1, h2⟩ := unflatten_sound t l [] v hv
    exact ⟨by simpa using h1.symm, h2⟩
  · cases h

example : unflatten (.node "t" [.leaf (), .leaf ()]) [1, 2] = some (.node "t" [.leaf 1, .leaf 2]) ∧
    unflatten (.node "t" [.leaf (), .leaf ()]) [1, 2, 3] = none := ⟨rfl, rfl⟩

/-- **C06** The variables are the leaves satisfying the predicate, in order. -/
theorem morph_variables {α : Type} (t : Tree α) (isVar : α → Bool) : (varMorph t isVar).1 = t.leaves.filter isVar :=
  listSplit_fst isVar 0 t.leaves

/-- **C06** `flat_args[i] for i in in_morph[1]` (`TracedFunction.prepare_inputs`, edsl/tracer.py:562) picks the variables. -/
theorem morph_positions {α : Type} (t : Tree α) (isVar : α → Bool) :
    (varMorph t isVar).2.2.1.map (fun i => t.leaves[i]?) = ((varMorph t isVar).1).map some := by
  simp only [varMorph]
  have : ∀ (xs pre : List α), ((listSplit isVar pre.length xs).2.2).map (fun i => (pre ++ xs)[i]?)
      = (listSplit isVar pre.length xs).1.map some := by
    intro xs
    induction xs with
    | nil => intro pre; simp [listSplit]
    | cons x xs ih =>
      intro pre
      have h := ih (pre ++ [x])
      simp only [List.length_append, List.length_cons, List.length_nil, Nat.zero_add, List.append_assoc,
        List.cons_append, List.nil_append] at h
      simp only [listSplit]
      split
      · simp [h]
      · exact h
  simpa using this t.leaves []

/-- `normalize_fn` (utils/func_utils.py:106-123): the normalised function applied to a variable list -/
def normalized {α β : Type} (fn : Tree α → Option β) (m : Morph α) (rargs : List α) : Option β :=
  match varDemorph rargs m with
  | none => none
  | some t => fn t

/-- **C06** The normalised function called on the original variables is the original call. -/
theorem normalize_fn_same {α β : Type} (fn : Tree α → Option β) (t : Tree α) (isVar : α → Bool) :
    normalized fn (varMorph t isVar).2 (varMorph t isVar).1 = fn t := by
  simp only [normalized, morph_roundtrip]

example : varMorph (.node "tuple" [.leaf 3, .node "dict:a,b" [.leaf 10, .node "None" [], .leaf 4], .leaf 12])
    (fun n => decide (n < 5)) = ([3, 4], (.node "tuple" [.leaf (), .node "dict:a,b" [.leaf (), .node "None" [], .leaf ()],
      .leaf ()], [0, 2], [10, 12])) := rfl

end Verif.Trace
