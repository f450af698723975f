import Verif.Spu.RunJax
import Verif.Trace.TracerLemmas
/-!
# C36 — host values on an SPU (libs/device/api.py:714-718)

`put("SP0", x)` for a host value runs the identity on the SPU: `device("SP0")(lambda x: x)(x)`.
-/
namespace Verif.Spu.Run
open Verif.Serde Verif.Tensor Verif.Trace

variable {S A Code : Type}

/-- the value at a leaf, if it is one -/
def Leaf.value? : Leaf A → Option A
  | .val a => some a
  | .obj _ _ => none

/-- `lambda x: x` as the SPU's compiler sees it: the argument tree holds values only (after the objects are replaced).
/repo/mplang/libs/device/api.py:718 -/
def identity (t : Tree (Leaf A)) : Option (Tree A) :=
  (t.leaves.mapM Leaf.value?).bind (unflatten t.def')

/-- the host value as argument: no objects -/
def hostArg (x : Tree A) : Tree (Leaf A) := x.map Leaf.val

theorem hostArg_leaves (x : Tree A) : (hostArg x).leaves = x.leaves.map Leaf.val := (map_leaves Leaf.val x).1

theorem identity_host (x : Tree A) : identity (hostArg x) = some x := by
  unfold identity
  rw [hostArg_leaves]
  have h1 : ∀ l : List A, (l.map Leaf.val).mapM Leaf.value? = some l := by
    intro l
    induction l with
    | nil => rfl
    | cons a l ih => simp [ih, Leaf.value?]
  rw [h1, show (hostArg x).def' = x.def' from (map_leaves Leaf.val x).2]
  obtain ⟨u, hu, h2, h3⟩ := unflatten_spec' x x.leaves rfl
  rw [Option.bind_some, hu, tree_ext u x h2 h3]

theorem host_vars (x : Tree A) : (varMorph (hostArg x) Leaf.isVar).1 = [] := by
  rw [morph_variables, hostArg_leaves]
  simp [Leaf.isVar]

/-- with no objects, replacing them changes nothing -/
theorem host_same [Inhabited A] (x : Tree A) (as : List A) : withArrays (hostArg x) as = hostArg x := by
  unfold withArrays
  have h := morph_replace (hostArg x) Leaf.isVar (fun k => .val (as.getD k default))
  have h' := morph_roundtrip (hostArg x) Leaf.isVar
  rw [host_vars] at h h'
  exact Option.some.inj (h.symm.trans h')

/-- **C36, a host value put on an SPU.**  When it compiles, no input is declared; whatever ran before, every member gets a tree of shares of
the shape of the value, and opening the shares of any leaf gives that leaf in the SPU's fixed point. -/
theorem host_put_spu [Inhabited A] {L : Lib S A Code} {opens : Vis → Nat → List S → A → Prop} (hL : L.Ok opens) (x : Tree A)
    {vs : List (Leaf A)} {op : ExecOp Code} (h : traceRun L identity (hostArg x) = some (vs, op))
    (hconst : L.sem (fun _ => some x) [] = some (x.map L.enc))
    (seed : Nat) (seeds : Nat → Nat) {n : Nat} (hn : 0 < n) (vars : Nat → String → Option S) :
    vs = [] ∧ ∃ res, jointExec L op seed seeds n (fun _ => []) vars = some res ∧ res.length = n ∧
      (∀ (i : Nat) own, res[i]? = some own → ∃ tr, resultTree op own = some tr ∧ tr.def' = x.def') ∧
      ∀ (j : Nat) a, x.leaves[j]? = some a → openOutput L res j = some (L.enc a) := by
  obtain ⟨h1, h2, h3, _, _⟩ := traceRun_inv h
  rw [host_vars] at h1
  rw [h1] at h2
  have hi : op.inputs = [] := by simpa using h2.symm
  rw [hi] at h3
  have hv : op.vis = [] := by simpa using h3.symm
  have hsem : L.sem (fun xs => identity (withArrays (hostArg x) xs)) [] = some (x.map L.enc) := by
    rw [← hconst]
    refine hL.arity _ _ _ fun xs _ => ?_
    rw [host_same, identity_host]
  obtain ⟨res, h4, h5, h6, h7⟩ := spu_function_partial hL h seed seeds hn (fun _ => []) vars (as := [])
    { len := by rw [hv]; rfl, arity := fun _ _ => by rw [hv]; rfl
      secret := fun j a hj _ => by rw [hv] at hj; cases hj
      pub := fun j a hj _ => by rw [hv] at hj; cases hj } hsem
  refine ⟨h1, res, h4, h5, fun i own ho => ?_, fun j a ha => ?_⟩
  · obtain ⟨tr, g1, g2, _⟩ := h6 i own ho
    exact ⟨tr, g1, by rw [g2, (map_leaves L.enc x).2]⟩
  · exact h7 j _ (by rw [(map_leaves L.enc x).1, List.getElem?_map, ha]; rfl)

/-- a pair of numbers put on an SPU of three members -/
example : ∃ vs op res, traceRun toyLib identity (hostArg (.node "tuple" [.leaf (some 4), .leaf (some 9)])) = some (vs, op) ∧ vs = [] ∧
    jointExec toyLib op 2 (fun i => i) 3 (fun _ => []) (fun _ _ => none) = some res ∧ openOutput toyLib res 0 = some (some 4) ∧
    openOutput toyLib res 1 = some (some 9) := by
  obtain ⟨h0, res, h1, _, _, h2⟩ := host_put_spu toyLib_ok (.node "tuple" [.leaf (some 4), .leaf (some 9)]) (op := ⟨_, [], [], _, _, []⟩) (vs := []) rfl rfl
    2 (fun i => i) (by decide : 0 < 3) (fun _ _ => none)
  exact ⟨_, _, res, rfl, rfl, h1, h2 0 _ rfl, h2 1 _ rfl⟩

end Verif.Spu.Run
