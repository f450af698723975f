import Verif.Interp.AsyncLemmas
import Mathlib.Data.List.Perm.Subperm
import Mathlib.Data.List.Nodup
/-! Helper lemmas: how availability, pending counts and use counts change when one op completes, and the invariant. -/
namespace Verif.Interp
section
variable {N V : Type} [DecidableEq N]

theorem outs_unique (ops : List (Op N)) (h : (ops.flatMap Op.outs).Nodup) (i j : Nat) (a b : Op N)
    (hi : ops[i]? = some a) (hj : ops[j]? = some b) (v : N) (ha : v ∈ a.outs) (hb : v ∈ b.outs) : i = j := by
  induction ops generalizing i j with
  | nil => simp at hi
  | cons o ops ih =>
    simp only [List.flatMap_cons, List.nodup_append] at h
    have hin : ∀ (k : Nat) (c : Op N), ops[k]? = some c → v ∈ c.outs → v ∈ ops.flatMap Op.outs := by
      intro k c hk hc
      exact List.mem_flatMap.mpr ⟨c, List.mem_of_getElem? hk, hc⟩
    cases i with
    | zero =>
      cases j with
      | zero => rfl
      | succ j =>
        simp only [List.getElem?_cons_zero, Option.some.injEq, List.getElem?_cons_succ] at hi hj
        subst hi
        exact absurd rfl (h.2.2 v ha v (hin j b hj hb))
    | succ i =>
      cases j with
      | zero =>
        simp only [List.getElem?_cons_zero, Option.some.injEq, List.getElem?_cons_succ] at hi hj
        subst hj
        exact absurd rfl (h.2.2 v hb v (hin i a hi ha))
      | succ j =>
        simp only [List.getElem?_cons_succ] at hi hj
        rw [ih h.2.1 i j hi hj]

theorem WF.outs_nodup {g : Graph N} (h : WF g) {i : Nat} {op : Op N} (hop : g.ops[i]? = some op) : op.outs.Nodup := by
  have := h.nodup
  simp only [defined, List.nodup_append] at this
  exact (List.nodup_flatMap.mp this.2.1).1 op (List.mem_of_getElem? hop)

theorem WF.outs_not_input {g : Graph N} (h : WF g) {i : Nat} {op : Op N} (hop : g.ops[i]? = some op) {v : N}
    (hv : v ∈ op.outs) : v ∉ g.inputs := by
  have := h.nodup
  simp only [defined, List.nodup_append] at this
  intro hc
  exact this.2.2 v hc v (List.mem_flatMap.mpr ⟨op, List.mem_of_getElem? hop, hv⟩) rfl

theorem WF.outs_not_avail {g : Graph N} (h : WF g) {i : Nat} {op : Op N} (hop : g.ops[i]? = some op) {C : List Nat}
    (hi : i ∉ C) {v : N} (hv : v ∈ op.outs) : avail g C v = false := by
  rw [Bool.eq_false_iff]
  intro hc
  rcases (avail_iff g C v).mp hc with hc | ⟨j, hj, o, ho, hvo⟩
  · exact h.outs_not_input hop hv hc
  · have hn := h.nodup
    simp only [defined, List.nodup_append] at hn
    have := outs_unique g.ops hn.2.1 i j op o hop ho v hv hvo
    subst this; exact hi hj

theorem avail_cons (g : Graph N) (C : List Nat) (i : Nat) (op : Op N) (hop : g.ops[i]? = some op) (v : N) :
    avail g (i :: C) v = (avail g C v || decide (v ∈ op.outs)) := by
  rw [Bool.eq_iff_iff, Bool.or_eq_true, avail_iff, avail_iff, decide_eq_true_eq]
  constructor
  · rintro (h | ⟨j, hj, o, ho, hv⟩)
    · exact .inl (.inl h)
    · rcases List.mem_cons.mp hj with rfl | hj
      · rw [hop] at ho; cases ho; exact .inr hv
      · exact .inl (.inr ⟨j, hj, o, ho, hv⟩)
  · rintro ((h | ⟨j, hj, o, ho, hv⟩) | h)
    · exact .inl h
    · exact .inr ⟨j, by simp [hj], o, ho, hv⟩
    · exact .inr ⟨i, by simp, op, hop, h⟩

theorem avail_mono (g : Graph N) (C : List Nat) (i : Nat) (v : N) (h : avail g C v = true) :
    avail g (i :: C) v = true := by
  rw [avail_iff] at h ⊢
  rcases h with h | ⟨j, hj, o, ho, hv⟩
  · exact .inl h
  · exact .inr ⟨j, by simp [hj], o, ho, hv⟩

theorem consumers_count (ops : List (Op N)) (v : N) (k j : Nat) :
    ((ops.zipIdx k).flatMap fun p => (p.1.ins.filter (· = v)).map fun _ => p.2).count j
      = if k ≤ j then (match ops[j - k]? with | some op => op.ins.count v | none => 0) else 0 := by
  induction ops generalizing k with
  | nil => simp
  | cons o ops ih =>
    simp only [List.zipIdx_cons, List.flatMap_cons, List.count_append, ih]
    have h0 : (List.map (fun _ => k) (o.ins.filter (· = v))).count j = if k = j then o.ins.count v else 0 := by
      rw [List.map_const', List.count_replicate]
      have : (o.ins.filter (· = v)).length = o.ins.count v := by
        rw [← List.countP_eq_length_filter, List.count_eq_countP]
        apply List.countP_congr; intro x _; simp
      rw [this]; simp
    rw [h0]
    by_cases h1 : k = j
    · subst h1
      simp
      intro h; omega
    · by_cases h2 : k ≤ j
      · have h3 : k + 1 ≤ j := by omega
        have h4 : j - k = (j - (k + 1)) + 1 := by omega
        simp only [h1, if_false, h2, h3, if_true, Nat.zero_add]
        rw [h4, List.getElem?_cons_succ]
      · have h3 : ¬ k + 1 ≤ j := by omega
        simp [h1, h2, h3]

theorem filter_split (a b : N → Bool) (outs ins : List N) (hn : outs.Nodup) (hb : ∀ v, b v = (a v || decide (v ∈ outs)))
    (ho : ∀ v ∈ outs, a v = false) :
    (ins.filter fun v => !a v).length
      = (ins.filter fun v => !b v).length + (outs.map fun v => ins.count v).sum := by
  induction ins with
  | nil =>
    have : (outs.map fun v => List.count v ([] : List N)).sum = 0 := by
      induction outs <;> simp_all
    simp
  | cons x ins ih =>
    have h1 : (outs.map fun v => (x :: ins).count v).sum = (outs.map fun v => ins.count v).sum + outs.count x := by
      clear ih ho hn hb
      induction outs with
      | nil => simp
      | cons o outs iho =>
        rw [List.map_cons, List.sum_cons, iho, List.map_cons, List.sum_cons, List.count_cons, List.count_cons]
        by_cases h : x = o
        · subst h; simp; omega
        · have : ¬ o = x := fun e => h e.symm
          simp [h, this]; omega
    rw [h1]
    by_cases hx : x ∈ outs
    · have hax := ho x hx
      have hbx : b x = true := by rw [hb]; simp [hx]
      have hcx : outs.count x = 1 := List.count_eq_one_of_mem hn hx
      simp only [List.filter_cons, hax, hbx, hcx]
      simp only [Bool.not_false, if_true, Bool.not_true, List.length_cons]
      simp; omega
    · have hbx : b x = a x := by rw [hb]; simp [hx]
      have hcx : outs.count x = 0 := List.count_eq_zero.mpr hx
      simp only [List.filter_cons, hbx, hcx, Nat.add_zero]
      split
      · simp only [List.length_cons]; omega
      · exact ih

theorem pc_cons {g : Graph N} (hwf : WF g) {i : Nat} {op : Op N} (hop : g.ops[i]? = some op) {C : List Nat}
    (hi : i ∉ C) (j : Nat) :
    pc g C j = pc g (i :: C) j + (op.outs.flatMap (consumers g)).count j := by
  have hcount : (op.outs.flatMap (consumers g)).count j
      = (op.outs.map fun v => match g.ops[j]? with | some o => o.ins.count v | none => 0).sum := by
    rw [List.count_flatMap]
    congr 1
    apply List.map_congr_left
    intro v hv
    have := consumers_count g.ops v 0 j
    simp only [Nat.zero_le, if_true, Nat.sub_zero] at this
    simp only [Function.comp, consumers, hwf.outs_not_input hop hv, if_false]
    exact this
  rw [hcount]
  simp only [pc]
  cases hj : g.ops[j]? with
  | none => simp
  | some o =>
    simp only
    exact filter_split _ _ _ _ (hwf.outs_nodup hop) (avail_cons g C i op hop)
      (fun v hv => hwf.outs_not_avail hop hi hv)

theorem need_aux (ops : List (Op N)) (C : List Nat) (v : N) (k i : Nat) (op : Op N) (hk : k ≤ i)
    (hop : ops[i - k]? = some op) (hi : i ∉ C) :
    (((ops.zipIdx k).filter fun p => !C.contains p.2).map fun p => p.1.ins.count v).sum
      = (((ops.zipIdx k).filter fun p => !(i :: C).contains p.2).map fun p => p.1.ins.count v).sum + op.ins.count v := by
  induction ops generalizing k with
  | nil => simp at hop
  | cons o ops ih =>
    by_cases h : k = i
    · subst h
      simp only [Nat.sub_self, List.getElem?_cons_zero, Option.some.injEq] at hop
      subst hop
      have hrest : ((ops.zipIdx (k + 1)).filter fun p => !C.contains p.2)
          = ((ops.zipIdx (k + 1)).filter fun p => !(k :: C).contains p.2) := by
        apply List.filter_congr
        intro p hp
        have := List.le_snd_of_mem_zipIdx hp
        have hne : (p.2 == k) = false := by simp; omega
        simp only [List.contains_cons, hne, Bool.false_or]
      simp only [List.zipIdx_cons, List.filter_cons, hrest]
      simp [hi]; omega
    · have h4 : i - k = (i - (k + 1)) + 1 := by omega
      rw [h4, List.getElem?_cons_succ] at hop
      have := ih (k + 1) (by omega) hop
      simp only [List.zipIdx_cons, List.filter_cons]
      have hne : (k == i) = false := by simp [h]
      simp only [List.contains_cons, hne, Bool.false_or] at this ⊢
      split
      · simp only [List.map_cons, List.sum_cons]; omega
      · exact this

theorem need_cons {g : Graph N} {i : Nat} {op : Op N} (hop : g.ops[i]? = some op) {C : List Nat} (hi : i ∉ C) (v : N) :
    need g C v = need g (i :: C) v + op.ins.count v := by
  have := need_aux g.ops C v 0 i op (by omega) (by simpa using hop) hi
  simp only [need] at this ⊢
  omega

theorem need_nil (g : Graph N) (v : N) : need g [] v = gcInfo g v := by
  simp only [need, gcInfo, List.count_flatMap]
  congr 1
  generalize 0 = k
  suffices h : ∀ ops : List (Op N), ∀ k, (List.map (fun p => List.count v p.1.ins)
      (List.filter (fun p : Op N × Nat => ![].contains p.2) (ops.zipIdx k))).sum
      = (List.map (List.count v ∘ Op.ins) ops).sum from h _ _
  intro ops
  induction ops with
  | nil => simp
  | cons o ops ih => intro k; simp only [List.zipIdx_cons]; simpa using ih (k + 1)

theorem pc_nil (g : Graph N) (i : Nat) : pc g [] i = pend0 g i := by
  simp only [pc, pend0]
  split <;> simp_all [avail]

/-- The invariant of asynchronous evaluation; `C` is the list of ops completed so far. -/
structure Inv (sem : Sem V) (isAsync : Nat → Bool) (g : Graph N) (env0 : Env N V) (C : List Nat) (s : St N V) :
    Prop where
  nodup : (qops s.queue ++ s.running.map Prod.fst ++ C).Nodup
  ready : ∀ i ∈ qops s.queue ++ s.running.map Prod.fst ++ C, i < g.ops.length ∧ pc g C i = 0
  pend : ∀ i, s.pend i = pc g C i
  rc : ∀ v, s.rc v = need g C v
  env : ∀ v, avail g C v = true → 0 < need g C v →
    s.env v = denLoop sem 0 g.ops env0 v ∧ (denLoop sem 0 g.ops env0 v).isSome = true
  run : ∀ i args, (i, args) ∈ s.running → ∃ op, g.ops[i]? = some op ∧
    resolve (denLoop sem 0 g.ops env0) op.ins = some args ∧ sem.impl i = true
  okC : ∀ i ∈ C, ∃ op, g.ops[i]? = some op ∧ (opOk sem (denLoop sem 0 g.ops env0) i op).isSome = true
  rem : s.remOps + C.length = g.ops.length
  logNd : (qops s.queue ++ s.log).Nodup
  logPc : ∀ i ∈ s.log, i < g.ops.length ∧ pc g C i = 0
  logC : ∀ i ∈ s.running.map Prod.fst ++ C, i ∈ s.log
  busy : ∀ i, s.busy = some i → i ∈ s.running.map Prod.fst
  all : s.err = false → s.main = .loop → ∀ i, i < g.ops.length → pc g C i = 0 →
    i ∈ qops s.queue ++ s.running.map Prod.fst ++ C
  done1 : Item.done ∈ s.queue → C.length = g.ops.length
  done2 : s.main = .loop → C.length = g.ops.length → Item.done ∈ s.queue
  err1 : s.err = true → ¬ AllOk sem g env0
  err2 : s.err = true → s.main = .loop → Item.err ∈ s.queue
  err3 : Item.err ∈ s.queue → s.err = true
  raised : s.main = .raised → ¬ AllOk sem g env0
  returned : ∀ r, s.main = .returned r → AllOk sem g env0 ∧ resolve (denLoop sem 0 g.ops env0) g.outputs = some r

theorem Inv.allOk {sem : Sem V} {isAsync : Nat → Bool} {g : Graph N} {env0 : Env N V} {C : List Nat} {s : St N V}
    (h : Inv sem isAsync g env0 C s) (hl : C.length = g.ops.length) : AllOk sem g env0 := by
  have hnd : C.Nodup := (List.nodup_append.mp h.nodup).2.1
  have hsub : C ⊆ List.range g.ops.length := by
    intro i hi
    exact List.mem_range.mpr (h.ready i (by simp [hi])).1
  have hperm := (List.subperm_of_subset hnd hsub).perm_of_length_le (by simp [hl])
  intro i op hop
  have hi : i < g.ops.length := (List.getElem?_eq_some_iff.mp hop).1
  have hiC : i ∈ C := hperm.mem_iff.mpr (List.mem_range.mpr hi)
  obtain ⟨o, ho, hok⟩ := h.okC i hiC
  rw [hop] at ho; cases ho
  exact Option.isSome_iff_exists.mp hok

end
end Verif.Interp
