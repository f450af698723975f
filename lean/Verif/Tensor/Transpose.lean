import Verif.Tensor.Lemmas
import Mathlib.Data.List.Perm.Subperm
import Mathlib.Data.List.Nodup
/-! C55: transpose and gather. -/

namespace Verif.Tensor

/-- Specification: a run-time shape is compatible with a declared one — same rank, and every declared dimension is
either dynamic (−1) or the run-time size. -/
def Fits (rt : List Nat) (decl : List Int) : Prop :=
  List.Forall₂ (fun (n : Nat) (d : Int) => d = -1 ∨ d = (n : Int)) rt decl

theorem Fits_iff (rt : List Nat) (decl : List Int) :
    Fits rt decl ↔ rt.length = decl.length ∧
      ∀ (k : Nat) (n : Nat) (d : Int), rt[k]? = some n → decl[k]? = some d → d = -1 ∨ d = (n : Int) := by
  simp only [Fits, List.forall₂_iff_get]
  constructor
  · rintro ⟨h1, h2⟩
    refine ⟨h1, ?_⟩
    intro k i d hi hd
    obtain ⟨a, ha⟩ := List.getElem?_eq_some_iff.1 hi
    obtain ⟨b, hb⟩ := List.getElem?_eq_some_iff.1 hd
    have := h2 k a b
    simp at this
    rw [ha, hb] at this
    exact this
  · rintro ⟨h1, h2⟩
    refine ⟨h1, ?_⟩
    intro k a b
    exact h2 k _ _ (List.getElem?_eq_getElem a) (List.getElem?_eq_getElem b)

theorem mkTensor_ok {e : Elem} {sh : List Int} {t : TTy} (h : mkTensor e sh = .ok t) :
    t = ⟨e, sh⟩ ∧ ∀ d ∈ sh, d = -1 ∨ 0 < d := by
  unfold mkTensor at h
  split at h
  · cases h
  · rename_i hh
    cases h
    refine ⟨rfl, ?_⟩
    intro d hd
    simp only [List.any_eq_true, not_exists, not_and, Bool.or_eq_true, decide_eq_true_eq, not_or] at hh
    have := hh d hd
    omega

/-- **C55, transpose.**  If the rule accepts `perm`, then for every array compatible with the declared input shape
the op succeeds, the result is compatible with the computed type, and result element `idx` is the input element whose
coordinate `perm[k]` is `idx[k]`. -/
theorem transpose_shape_sound {α : Type} (t t' : TTy) (perm : List Int) (a : Arr α)
    (h : transposeAe t perm = .ok t') (hw : a.WF) (hf : Fits a.shape t.shape) :
    ∃ r, transposeImpl a perm = .ok r ∧ Fits r.shape t'.shape ∧ t'.elem = t.elem ∧ r.WF ∧
      ∀ idx src : List Nat, InB idx r.shape → src.length = a.shape.length →
        (∀ (k : Nat) (p : Int), perm[k]? = some p → src[p.toNat]? = idx[k]?) → r.get idx = a.get src := by
  simp only [transposeAe] at h
  split at h
  · cases h
  rename_i hlen
  split at h
  · cases h
  rename_i hset
  obtain ⟨ht', -⟩ := mkTensor_ok h
  have hlen : perm.length = t.shape.length := by omega
  have hset' : perm.all (fun p => decide (0 ≤ p) && decide (p < (t.shape.length : Int))) = true ∧
      (List.range t.shape.length).all (fun i => decide ((i : Int) ∈ perm)) = true := by
    by_contra hc
    apply hset
    cases h1 : perm.all (fun p => decide (0 ≤ p) && decide (p < (t.shape.length : Int))) <;>
      cases h2 : (List.range t.shape.length).all (fun i => decide ((i : Int) ∈ perm)) <;> simp_all
  obtain ⟨hr, hc⟩ := hset'
  simp only [List.all_eq_true, Bool.and_eq_true, decide_eq_true_eq, List.mem_range] at hr hc
  obtain ⟨hfl, hfd⟩ := (Fits_iff _ _).1 hf
  generalize hn : a.shape.length = n at *
  rw [← hfl] at hlen hr hc
  have hq : (perm.map fun p : Int => (if p < 0 then p + (n : Int) else p).toNat) = perm.map Int.toNat := by
    apply List.map_congr_left
    intro p hp
    have := (hr p hp).1
    rw [if_neg (by omega)]
  generalize hQ : perm.map Int.toNat = q at *
  have hql : q.length = n := by rw [← hQ]; simp [hlen]
  have hqlt : ∀ x ∈ q, x < n := by
    intro x hx
    rw [← hQ, List.mem_map] at hx
    obtain ⟨p, hp, rfl⟩ := hx
    have := hr p hp
    omega
  have hqc : ∀ i, i < n → i ∈ q := by
    intro i hi
    rw [← hQ, List.mem_map]
    exact ⟨(i : Int), hc i hi, by simp⟩
  have hnd : q.Nodup := by
    have hs : (List.range n).Subperm q :=
      (List.nodup_range).subperm (fun i hi => hqc i (by simpa using hi))
    exact (hs.perm_of_length_le (by simp [hql])).nodup_iff.1 List.nodup_range
  have hlt_any : ¬ (perm.any (fun p => decide (p < -(n : Int)) || decide (p ≥ (n : Int))) = true) := by
    simp only [List.any_eq_true, not_exists, not_and, Bool.or_eq_true, decide_eq_true_eq, not_or]
    intro p hp
    have := hr p hp
    omega
  have hin : ∀ idx, InB idx (q.map fun p => a.shape.getD p 0) →
      InB ((List.range n).map fun p => idx.getD (q.idxOf p) 0) a.shape := by
    intro idx hi
    obtain ⟨hl, hd⟩ := (InB_iff_get _ _).1 hi
    refine (InB_iff_get _ _).2 ⟨by simp [hn], ?_⟩
    intro k i d hk hdk
    rw [List.getElem?_map] at hk
    by_cases hkn : k < n
    · rw [List.getElem?_range hkn] at hk
      simp at hk
      have hkq := hqc k hkn
      have hio : q.idxOf k < q.length := List.idxOf_lt_length_iff.2 hkq
      have h3 : q[q.idxOf k]? = some k := by
        rw [List.getElem?_eq_getElem hio]; simp
      have h4 : idx.length = q.length := by simpa using hl
      have h5 : idx[q.idxOf k]? = some i := by
        rw [List.getElem?_eq_getElem (by omega)]
        rw [List.getElem?_eq_getElem (by omega)] at hk
        simpa using hk
      have h6 : (q.map fun p => a.shape.getD p 0)[q.idxOf k]? = some d := by
        rw [List.getElem?_map, h3]
        simp [hdk]
      exact hd _ _ _ h5 h6
    · rw [List.getElem?_eq_none (by simp; omega)] at hk
      simp at hk
  obtain ⟨r, hr1, hr2, hr3, hr4⟩ := build_total (q.map fun p => a.shape.getD p 0)
    (fun idx => a.get ((List.range n).map fun p => idx.getD (q.idxOf p) 0))
    (fun idx hi => get_total a hw _ (hin idx hi))
  refine ⟨r, ?_, ?_, ?_, hr3, ?_⟩
  · simp only [transposeImpl, npTranspose, hn]
    rw [if_neg (by omega), if_neg hlt_any, hq, if_neg (by simpa using hnd)]
    exact hr1
  · rw [hr2, ht']
    refine (Fits_iff _ _).2 ⟨by simp [hql, hlen], ?_⟩
    intro k m d h1 h2
    rw [List.getElem?_map] at h1 h2
    rw [← hQ, List.getElem?_map] at h1
    cases hp : perm[k]? with
    | none => rw [hp] at h2; simp at h2
    | some p =>
      rw [hp] at h1 h2
      simp at h1 h2
      have hpm : p ∈ perm := List.mem_of_getElem? hp
      have hpr := hr p hpm
      have hlt1 : p.toNat < a.shape.length := by omega
      have hlt2 : p.toNat < t.shape.length := by omega
      have e1 := List.getElem?_eq_getElem hlt1
      have e2 := List.getElem?_eq_getElem hlt2
      rw [e1] at h1; rw [e2] at h2
      simp at h1 h2
      rw [h1] at e1; rw [h2] at e2
      exact hfd _ _ _ e1 e2
  · rw [ht']
  · intro idx src hi hsl hsrc
    rw [hr2] at hi
    rw [hr4 idx hi]
    congr 1
    obtain ⟨hl, -⟩ := (InB_iff_get _ _).1 hi
    have h4 : idx.length = q.length := by simpa using hl
    apply List.ext_getElem?
    intro k
    rw [List.getElem?_map]
    by_cases hkn : k < n
    · rw [List.getElem?_range hkn]
      have hkq := hqc k hkn
      have hio : q.idxOf k < q.length := List.idxOf_lt_length_iff.2 hkq
      have h3 : q[q.idxOf k]? = some k := by
        rw [List.getElem?_eq_getElem hio]; simp
      rw [← hQ, List.getElem?_map, hQ] at h3
      cases hp : perm[q.idxOf k]? with
      | none => rw [hp] at h3; simp at h3
      | some p =>
        rw [hp] at h3
        simp at h3
        have := hsrc _ _ hp
        rw [h3] at this
        rw [this]
        have : q.idxOf k < idx.length := by omega
        simp [List.getElem?_eq_getElem this]
    · rw [List.getElem?_eq_none (by simp; omega), List.getElem?_eq_none (by omega)]
      simp

/-- A 2×3 array, declared with a dynamic first dimension, is transposed. -/
example : transposeAe ⟨.int 32 true, [-1, 3]⟩ [1, 0] = .ok ⟨.int 32 true, [3, -1]⟩ ∧
    Fits [2, 3] [-1, 3] ∧ (⟨[2, 3], [1, 2, 3, 4, 5, 6]⟩ : Arr Nat).WF ∧
    transposeImpl (⟨[2, 3], [1, 2, 3, 4, 5, 6]⟩ : Arr Nat) [1, 0] = .ok ⟨[3, 2], [1, 4, 2, 5, 3, 6]⟩ := by
  refine ⟨by decide, ?_, rfl, by decide⟩
  exact .cons (.inl rfl) (.cons (.inr rfl) .nil)

/-- The transpose rule accepts exactly the permutations of the dimensions. -/
theorem transpose_rule_accepts_iff (t : TTy) (perm : List Int) (hv : ∀ d ∈ t.shape, d = -1 ∨ 0 < d) :
    (∃ t', transposeAe t perm = .ok t') ↔ perm.Perm ((List.range t.shape.length).map (fun i : Nat => (i : Int))) := by
  generalize hn : t.shape.length = n
  constructor
  · rintro ⟨t', h⟩
    simp only [transposeAe] at h
    split at h
    · cases h
    rename_i hlen
    split at h
    · cases h
    rename_i hset
    have hc : (List.range n).all (fun i => decide ((i : Int) ∈ perm)) = true := by
      rw [hn] at hset
      cases h2 : (List.range n).all (fun i => decide ((i : Int) ∈ perm)) with
      | true => rfl
      | false => rw [h2] at hset; simp at hset
    simp only [List.all_eq_true, decide_eq_true_eq, List.mem_range] at hc
    have hnd : ((List.range n).map (fun i : Nat => (i : Int))).Nodup :=
      List.Nodup.map (fun a b hab => by simpa using hab) List.nodup_range
    have hs : ((List.range n).map (fun i : Nat => (i : Int))).Subperm perm := by
      refine hnd.subperm ?_
      intro x hx
      rw [List.mem_map] at hx
      obtain ⟨i, hi, rfl⟩ := hx
      exact hc i (by simpa using hi)
    exact (hs.perm_of_length_le (by simp; omega)).symm
  · intro hp
    have hl : perm.length = n := by simpa using hp.length_eq
    have h1 : perm.all (fun p => decide (0 ≤ p) && decide (p < (n : Int))) = true := by
      simp only [List.all_eq_true, Bool.and_eq_true, decide_eq_true_eq]
      intro p hpm
      have := hp.subset hpm
      rw [List.mem_map] at this
      obtain ⟨i, hi, rfl⟩ := this
      simp at hi
      omega
    have h2 : (List.range n).all (fun i => decide ((i : Int) ∈ perm)) = true := by
      simp only [List.all_eq_true, decide_eq_true_eq]
      intro i hi
      exact hp.symm.subset (List.mem_map.2 ⟨i, hi, rfl⟩)
    refine ⟨⟨t.elem, perm.map fun p => t.shape.getD p.toNat 0⟩, ?_⟩
    simp only [transposeAe, hn]
    rw [if_neg (by omega), if_neg (by rw [h1, h2]; simp)]
    unfold mkTensor
    rw [if_neg]
    simp only [List.any_eq_true, not_exists, not_and, Bool.or_eq_true, decide_eq_true_eq, not_or]
    intro d hd
    rw [List.mem_map] at hd
    obtain ⟨p, hpm, rfl⟩ := hd
    simp only [List.all_eq_true, Bool.and_eq_true, decide_eq_true_eq] at h1
    have hpr := h1 p hpm
    have hlt : p.toNat < t.shape.length := by omega
    have : t.shape.getD p.toNat 0 ∈ t.shape := by
      simp [List.getD, List.getElem?_eq_getElem hlt]
    have := hv _ this
    omega

example : (∃ t', transposeAe ⟨.int 32 true, [4, 3, 2]⟩ [2, 0, 1] = .ok t') ∧
    ¬ (∃ t', transposeAe ⟨.int 32 true, [4, 3, 2]⟩ [2, 0, 2] = .ok t') := by
  constructor
  · exact ⟨⟨.int 32 true, [2, 4, 3]⟩, by decide⟩
  · rw [transpose_rule_accepts_iff _ _ (by decide)]
    decide

theorem normAxis_eq {axis : Int} {n ax : Nat} (h : normAxis axis n = .ok ax) :
    ax < n ∧ (if axis ≥ 0 then axis else axis + (n : Int)) = (ax : Int) := by
  unfold normAxis at h
  by_cases ha : axis ≥ 0
  · simp only [ha, if_true] at h ⊢
    by_cases hc : axis < 0 ∨ axis ≥ (n : Int)
    · rw [if_pos hc] at h; cases h
    · rw [if_neg hc] at h
      cases h
      omega
  · simp only [ha, if_false] at h ⊢
    by_cases hc : (n : Int) + axis < 0 ∨ (n : Int) + axis ≥ (n : Int)
    · rw [if_pos hc] at h; cases h
    · rw [if_neg hc] at h
      cases h
      omega

theorem normAxis_npAxis {axis : Int} {n ax : Nat} (h : normAxis axis n = .ok ax) : npAxis axis n = .ok ax ∧ ax < n := by
  obtain ⟨h1, h2⟩ := normAxis_eq h
  refine ⟨?_, h1⟩
  unfold npAxis
  by_cases ha : axis ≥ 0
  · rw [if_pos ha] at h2
    rw [if_neg (by omega), if_neg (by omega)]
    congr 1; omega
  · rw [if_neg ha] at h2
    rw [if_neg (by omega), if_pos (by omega)]
    congr 1; omega

/-- **C55, gather.**  If the rule accepts, then for every operand compatible with the declared shapes whose run-time
indices are within the gathered dimension (−n … n−1), the op succeeds, the result is compatible with the computed
type, and result element `(pre, mid, post)` is operand element `(pre, indices[mid], post)`. -/
theorem gather_shape_sound {α : Type} (t ix t' : TTy) (axis : Int) (a : Arr α) (i : Arr Int)
    (h : gatherAe t ix axis = .ok t') (hw : a.WF) (hf : Fits a.shape t.shape)
    (hwi : i.WF) (hfi : Fits i.shape ix.shape)
    (hrange : ∀ (x : Int) (n : Nat), x ∈ i.data →
      a.shape[(if axis ≥ 0 then axis else axis + (a.shape.length : Int)).toNat]? = some n →
      -(n : Int) ≤ x ∧ x < (n : Int)) :
    ∃ r, gatherImpl a i axis = .ok r ∧ Fits r.shape t'.shape ∧ t'.elem = t.elem ∧ r.WF ∧
      ∀ (pre mid post : List Nat) (x : Int) (n : Nat),
        pre.length = (if axis ≥ 0 then axis else axis + (a.shape.length : Int)).toNat →
        a.shape[pre.length]? = some n →
        InB (pre ++ mid ++ post) r.shape → i.get mid = .ok x →
        r.get (pre ++ mid ++ post) = a.get (pre ++ (if x < 0 then x + (n : Int) else x).toNat :: post) := by
  unfold gatherAe at h
  split at h
  · cases h
  split at h
  · cases h
  simp only [bind, Except.bind] at h
  split at h
  · cases h
  rename_i ax hax
  obtain ⟨ht', -⟩ := mkTensor_ok h
  obtain ⟨hfl, hfd⟩ := (Fits_iff _ _).1 hf
  rw [← hfl] at hax
  obtain ⟨hnp, haxlt⟩ := normAxis_npAxis hax
  have haxeq : (if axis ≥ 0 then axis else axis + (a.shape.length : Int)).toNat = ax := by
    rw [(normAxis_eq hax).2]; simp
  rw [haxeq] at hrange ⊢
  obtain ⟨n, hn⟩ : ∃ n, a.shape[ax]? = some n := ⟨_, List.getElem?_eq_getElem haxlt⟩
  have hgd : a.shape.getD ax 0 = n := by simp [List.getD, hn]
  have hsplit : a.shape = a.shape.take ax ++ n :: a.shape.drop (ax + 1) := by
    obtain ⟨hh, he⟩ := List.getElem?_eq_some_iff.1 hn
    rw [← he, List.getElem_cons_drop hh, List.take_append_drop]
  have htl : (a.shape.take ax).length = ax := by simp; omega
  -- decomposition of an index of the result
  have hdec : ∀ idx, InB idx (a.shape.take ax ++ i.shape ++ a.shape.drop (ax + 1)) →
      InB (idx.take ax) (a.shape.take ax) ∧ InB ((idx.drop ax).take i.shape.length) i.shape ∧
      InB (idx.drop (ax + i.shape.length)) (a.shape.drop (ax + 1)) := by
    intro idx hi
    unfold InB at hi ⊢
    rw [List.append_assoc] at hi
    have h1 := List.forall₂_take_append idx _ _ hi
    have h2 := List.forall₂_drop_append idx _ _ hi
    rw [htl] at h1 h2
    have h3 := List.forall₂_take_append _ _ _ h2
    have h4 := List.forall₂_drop_append _ _ _ h2
    rw [List.drop_drop] at h4
    exact ⟨h1, h3, h4⟩
  have hwrap : ∀ idx x, i.get idx = .ok x → (if x < 0 then x + (n : Int) else x).toNat < n := by
    intro idx x hx
    have hm : x ∈ i.data := by
      unfold Arr.get at hx
      split at hx
      · split at hx
        · rename_i y hy
          cases hx
          exact List.mem_of_getElem? hy
        · cases hx
      · cases hx
    have := hrange x n hm hn
    split <;> omega
  have hany : ¬ (i.data.any (fun x => decide (x < -(n : Int)) || decide (x ≥ (n : Int))) = true) := by
    simp only [List.any_eq_true, not_exists, not_and, Bool.or_eq_true, decide_eq_true_eq, not_or]
    intro x hx
    have := hrange x n hx hn
    omega
  obtain ⟨r, hr1, hr2, hr3, hr4⟩ := build_total (a.shape.take ax ++ i.shape ++ a.shape.drop (ax + 1))
    (fun idx => do
      let k ← i.get ((idx.drop ax).take i.shape.length)
      a.get (idx.take ax ++ [(if k < 0 then k + (n : Int) else k).toNat] ++ idx.drop (ax + i.shape.length)))
    (by
      intro idx hi
      obtain ⟨h1, h2, h3⟩ := hdec idx hi
      obtain ⟨x, hx⟩ := get_total i hwi _ h2
      have : InB (idx.take ax ++ [(if x < 0 then x + (n : Int) else x).toNat] ++ idx.drop (ax + i.shape.length))
          a.shape := by
        rw [hsplit]
        unfold InB
        rw [List.append_assoc]
        refine List.rel_append h1 (List.Forall₂.cons (hwrap _ _ hx) h3)
      obtain ⟨y, hy⟩ := get_total a hw _ this
      exact ⟨y, by simp only [hx, bind, Except.bind]; exact hy⟩)
  refine ⟨r, ?_, ?_, ?_, hr3, ?_⟩
  · simp only [gatherImpl, npTake, hnp, bind, Except.bind, hgd]
    rw [if_neg hany]
    exact hr1
  · rw [hr2, ht']
    unfold Fits at hf hfi ⊢
    refine List.rel_append (List.rel_append ?_ hfi) ?_
    · exact List.forall₂_take _ hf
    · exact List.forall₂_drop _ hf
  · rw [ht']
  · intro pre mid post x m hpl hm hin hx
    rw [hpl, hn] at hm
    cases hm
    rw [hr2] at hin
    rw [hr4 _ hin]
    obtain ⟨h1, h2, h3⟩ := hdec _ hin
    have hml : mid.length = i.shape.length := by
      have : InB mid i.shape := by
        by_contra hc
        rw [get_error i mid hc] at hx
        cases hx
      exact List.Forall₂.length_eq this
    have e1 : (pre ++ mid ++ post).take ax = pre := by
      rw [List.append_assoc, ← hpl, List.take_left']; rfl
    have e2 : ((pre ++ mid ++ post).drop ax).take i.shape.length = mid := by
      rw [List.append_assoc, ← hpl, List.drop_left', ← hml, List.take_left'] <;> rfl
    have e3 : (pre ++ mid ++ post).drop (ax + i.shape.length) = post := by
      rw [← hpl, ← hml, List.drop_left']; simp
    simp only [e1, e2, e3, hx, bind, Except.bind]
    simp

/-- Gathering rows 2 and −1 of a 3×2 array declared with a dynamic first dimension. -/
example : gatherAe ⟨.other "f32", [-1, 2]⟩ ⟨.int 64 true, [2]⟩ (-2) = .ok ⟨.other "f32", [2, 2]⟩ ∧
    gatherImpl (⟨[3, 2], [1, 2, 3, 4, 5, 6]⟩ : Arr Nat) ⟨[2], [1, -1]⟩ (-2) = .ok ⟨[2, 2], [3, 4, 5, 6]⟩ := by
  decide

end Verif.Tensor
