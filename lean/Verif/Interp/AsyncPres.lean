import Verif.Interp.AsyncInv
/-! Helper lemmas: the invariant holds initially and is preserved by every step. -/
namespace Verif.Interp
section
variable {N V : Type} [DecidableEq N]

theorem need_pos_of_use {g : Graph N} {i : Nat} {op : Op N} (hop : g.ops[i]? = some op) {C : List Nat} (hi : i ∉ C)
    {v : N} (hv : v ∈ op.ins) : 0 < need g C v := by
  rw [need_cons hop hi v]
  have := List.count_pos_iff.mpr hv
  omega

theorem need_pos_of_out (g : Graph N) (C : List Nat) {v : N} (hv : v ∈ g.outputs) : 0 < need g C v := by
  have := List.count_pos_iff.mpr hv
  simp only [need]; omega

theorem pc_zero_avail {g : Graph N} {i : Nat} {op : Op N} (hop : g.ops[i]? = some op) {C : List Nat}
    (h : pc g C i = 0) {v : N} (hv : v ∈ op.ins) : avail g C v = true := by
  simp only [pc, hop, List.length_eq_zero_iff, List.filter_eq_nil_iff] at h
  simpa using h v hv

theorem Inv.resolve_ready {sem : Sem V} {isAsync : Nat → Bool} {g : Graph N} {env0 : Env N V} {C : List Nat}
    {s : St N V} (h : Inv sem isAsync g env0 C s) {i : Nat} (hi : i ∈ qops s.queue) {op : Op N}
    (hop : g.ops[i]? = some op) :
    resolve s.env op.ins = resolve (denLoop sem 0 g.ops env0) op.ins ∧ (resolve s.env op.ins).isSome = true := by
  have hiC : i ∉ C := by
    intro hc
    have := h.nodup
    rw [List.append_assoc, List.nodup_append] at this
    exact this.2.2 i hi i (by simp [hc]) rfl
  have hpc := (h.ready i (by simp [hi])).2
  have hv : ∀ v ∈ op.ins, s.env v = denLoop sem 0 g.ops env0 v ∧ (denLoop sem 0 g.ops env0 v).isSome = true :=
    fun v hv => h.env v (pc_zero_avail hop hpc hv) (need_pos_of_use hop hiC hv)
  have hc := resolve_congr s.env _ op.ins (fun v hm => (hv v hm).1)
  refine ⟨hc, ?_⟩
  rw [hc, resolve_isSome_iff]
  exact fun v hm => (hv v hm).2

theorem inv_init (sem : Sem V) (isAsync : Nat → Bool) (g : Graph N) (hwf : WF g) (args : List V) (env0 : Env N V)
    (h0 : initEnv g args = some env0) : Inv sem isAsync g env0 [] (initSt g env0) := by
  have hq : qops (initSt g env0).queue = (List.range g.ops.length).filter (fun i => pend0 g i = 0) := by
    simp only [initSt, qops_append]
    have h1 : ∀ l : List Nat, qops (l.map Item.op) = l := by
      intro l; induction l with
      | nil => rfl
      | cons a l ih => simp only [List.map_cons, qops_op, ih]
    rw [h1]
    split <;> simp [qops]
  have hnd : ((List.range g.ops.length).filter (fun i => decide (pend0 g i = 0))).Nodup :=
    List.nodup_range.filter _
  constructor
  · simp only [hq]; simpa [initSt] using hnd
  · intro i hi
    simp only [hq] at hi
    simp [initSt] at hi
    exact ⟨hi.1, by rw [pc_nil]; exact hi.2⟩
  · intro i; rw [pc_nil]; rfl
  · intro v; rw [need_nil]; rfl
  · intro v ha _
    simp only [avail, List.any_nil, Bool.or_false, decide_eq_true_eq] at ha
    have hden : denLoop sem 0 g.ops env0 v = env0 v := by
      apply denLoop_not_mem
      intro hc
      have := hwf.nodup
      simp only [defined, List.nodup_append] at this
      exact this.2.2 v ha v hc rfl
    rw [hden]
    exact ⟨rfl, initEnv_isSome g args env0 h0 v ha⟩
  · intro i args hm; simp [initSt] at hm
  · simp
  · simp [initSt]
  · rw [hq]; simpa [initSt] using hnd
  · simp [initSt]
  · simp [initSt]
  · intro i hb; simp [initSt] at hb
  · intro _ _ i hi hpc
    rw [pc_nil] at hpc
    rw [hq]
    simp [hi, hpc]
  · intro hd
    simp only [initSt, List.mem_append, List.mem_map] at hd
    rcases hd with ⟨_, _, h⟩ | hd
    · cases h
    · split at hd
      · rename_i hn; simp [hn]
      · simp at hd
  · intro _ hn
    simp only [List.length_nil] at hn
    simp [initSt, ← hn]
  · intro he; simp [initSt] at he
  · intro he; simp [initSt] at he
  · intro hm
    exfalso
    simp only [initSt, List.mem_append, List.mem_map] at hm
    rcases hm with ⟨_, _, h⟩ | hm
    · cases h
    · split at hm <;> simp at hm
  · intro he; simp [initSt] at he
  · intro r he; simp [initSt] at he

theorem opOk_none_notAllOk {sem : Sem V} {g : Graph N} {env0 : Env N V} {i : Nat} {op : Op N}
    (hop : g.ops[i]? = some op) (h : opOk sem (denLoop sem 0 g.ops env0) i op = none) : ¬ AllOk sem g env0 := by
  intro ha
  obtain ⟨bs, hbs⟩ := ha i op hop
  rw [h] at hbs; cases hbs

/-- a completion that only removes the op from `running` (an error was recorded before) -/
theorem inv_drop {sem : Sem V} {isAsync : Nat → Bool} {g : Graph N} {env0 : Env N V} {C : List Nat} {s : St N V}
    (h : Inv sem isAsync g env0 C s) {i : Nat} {args : List V} {l r : List (Nat × List V)}
    (hr : s.running = l ++ (i, args) :: r) (he : s.err = true) :
    Inv sem isAsync g env0 C
      { s with running := l ++ r, busy := if s.busy = some i then none else s.busy } := by
  have hsub : (l ++ r).Sublist s.running := by rw [hr]; exact List.Sublist.append_left (List.sublist_cons_self _ _) _
  have hsub' : ((l ++ r).map Prod.fst).Sublist (s.running.map Prod.fst) := hsub.map _
  have hsub2 : (qops s.queue ++ (l ++ r).map Prod.fst ++ C).Sublist (qops s.queue ++ s.running.map Prod.fst ++ C) :=
    (List.Sublist.append_left hsub' _).append_right _
  exact {
    nodup := h.nodup.sublist hsub2
    ready := fun j hj => h.ready j (hsub2.subset hj)
    pend := h.pend
    rc := h.rc
    env := h.env
    run := fun j a hm => h.run j a (hsub.subset hm)
    okC := h.okC
    rem := h.rem
    logNd := h.logNd
    logPc := h.logPc
    logC := fun j hj => h.logC j ((hsub'.append_right _).subset hj)
    busy := by
      intro j hb
      simp only at hb
      split at hb
      · cases hb
      · rename_i hne
        have hm := h.busy j hb
        have hji : j ≠ i := fun e => hne (by rw [hb, e])
        rw [hr] at hm
        simp only [List.map_append, List.map_cons, List.mem_append, List.mem_cons] at hm ⊢
        rcases hm with hm | hm | hm
        · exact .inl hm
        · exact absurd hm hji
        · exact .inr hm
    all := fun h1 => by simp [he] at h1
    done1 := h.done1
    done2 := h.done2
    err1 := h.err1
    err2 := h.err2
    err3 := h.err3
    raised := h.raised
    returned := h.returned }

/-- a completion with an error -/
theorem inv_err {sem : Sem V} {isAsync : Nat → Bool} {g : Graph N} {env0 : Env N V} {C : List Nat} {s : St N V}
    (h : Inv sem isAsync g env0 C s) {i : Nat} {args : List V} {l r : List (Nat × List V)}
    (hr : s.running = l ++ (i, args) :: r) (hf : ¬ AllOk sem g env0) :
    Inv sem isAsync g env0 C
      (onErr { s with running := l ++ r, busy := if s.busy = some i then none else s.busy }) := by
  cases he : s.err with
  | true => simp only [onErr, he, if_true]; have := inv_drop h hr he; simpa [he] using this
  | false =>
    have hset : Inv sem isAsync g env0 C { s with err := true, queue := s.queue ++ [Item.err] } := by
      have hqq : qops (s.queue ++ [Item.err]) = qops s.queue := by simp [qops]
      exact {
        nodup := by simpa only [hqq] using h.nodup
        ready := by simpa only [hqq] using h.ready
        pend := h.pend
        rc := h.rc
        env := h.env
        run := h.run
        okC := h.okC
        rem := h.rem
        logNd := by simpa only [hqq] using h.logNd
        logPc := h.logPc
        logC := h.logC
        busy := h.busy
        all := fun h1 => by simp at h1
        done1 := fun hd => h.done1 (by simpa using hd)
        done2 := fun hm hl => by simpa using h.done2 hm hl
        err1 := fun _ => hf
        err2 := fun _ _ => by simp
        err3 := fun _ => rfl
        raised := h.raised
        returned := h.returned }
    have := inv_drop hset (i := i) (args := args) (l := l) (r := r) hr rfl
    simpa only [onErr, he, Bool.false_eq_true, if_false] using this

/-- a successful completion -/
theorem inv_ok {sem : Sem V} {isAsync : Nat → Bool} {g : Graph N} (hwf : WF g) {env0 : Env N V} {C : List Nat}
    {s : St N V} (h : Inv sem isAsync g env0 C s) {i : Nat} {args : List V} {l r : List (Nat × List V)} {op : Op N}
    (hr : s.running = l ++ (i, args) :: r) (hop : g.ops[i]? = some op) (he : s.err = false) {bs : List (N × V)}
    (hok : opOk sem (denLoop sem 0 g.ops env0) i op = some bs) :
    Inv sem isAsync g env0 (i :: C)
      (onOk g op bs { s with running := l ++ r, busy := if s.busy = some i then none else s.busy }) := by
  have hmem : i ∈ s.running.map Prod.fst := by rw [hr]; simp
  have hiC : i ∉ C := by
    intro hc
    exact (List.nodup_append.mp h.nodup).2.2 i (by simp [hmem]) i hc rfl
  have hiN : i < g.ops.length := (h.ready i (by simp [hmem])).1
  have hpci : pc g C i = 0 := (h.ready i (by simp [hmem])).2
  have hfst := opOk_fst _ _ _ _ _ hok
  have hlenC : (i :: C).length ≤ g.ops.length := by
    have hnd : (i :: C).Nodup := List.nodup_cons.mpr ⟨hiC, (List.nodup_append.mp h.nodup).2.1⟩
    have hsub : (i :: C) ⊆ List.range g.ops.length := by
      intro j hj
      rcases List.mem_cons.mp hj with rfl | hj
      · exact List.mem_range.mpr hiN
      · exact List.mem_range.mpr (h.ready j (by simp [hj])).1
    simpa using (List.subperm_of_subset hnd hsub).length_le
  -- trigger
  have hT := trigger_fold (op.outs.flatMap (consumers g)) s.pend s.queue (by
    intro j; rw [h.pend, pc_cons hwf hop hiC j]; omega)
  obtain ⟨hT1, new, hT2, hTn, hTm⟩ := hT
  have hnew : ∀ j, j ∈ new ↔ pc g (i :: C) j = 0 ∧ pc g C j ≠ 0 := by
    intro j
    rw [hTm, h.pend, pc_cons hwf hop hiC j]
    omega
  have hpcmono : ∀ j, pc g C j = 0 → pc g (i :: C) j = 0 := by
    intro j hj; have := pc_cons hwf hop hiC j; omega
  have hnewN : ∀ j ∈ new, j < g.ops.length := by
    intro j hj
    have := ((hnew j).mp hj).2
    apply Nat.lt_of_not_le
    intro hle
    apply this
    simp [pc, List.getElem?_eq_none hle]
  -- gc
  have hG := gc_fold op.ins (s.env.setAll bs, s.rc) (by
    intro v; show _ ≤ s.rc v; rw [h.rc, need_cons hop hiC v]; omega)
  obtain ⟨hG1, hG2, -, -⟩ := hG
  have hqmap : ∀ l : List Nat, qops (l.map Item.op) = l := by
    intro l; induction l with
    | nil => rfl
    | cons a l ih => simp only [List.map_cons, qops_op, ih]
  have hqueue : (onOk g op bs { s with running := l ++ r, busy := if s.busy = some i then none else s.busy }).queue
      = s.queue ++ new.map Item.op ++ (if s.remOps - 1 = 0 then [Item.done] else []) := by
    simp only [onOk, hT2]
    split <;> simp
  have hq : qops (onOk g op bs { s with running := l ++ r, busy := if s.busy = some i then none else s.busy }).queue
      = qops s.queue ++ new := by
    rw [hqueue, qops_append, qops_append, hqmap]
    split <;> simp [qops]
  have hrun : (onOk g op bs { s with running := l ++ r, busy := if s.busy = some i then none else s.busy }).running
      = l ++ r := rfl
  have hpermR : (s.running.map Prod.fst).Perm (i :: (l ++ r).map Prod.fst) := by
    rw [hr]; simp only [List.map_append, List.map_cons]; exact List.perm_middle
  -- the active list is the old one plus new
  have hperm : (qops s.queue ++ new ++ (l ++ r).map Prod.fst ++ i :: C).Perm
      (new ++ (qops s.queue ++ s.running.map Prod.fst ++ C)) := by
    have h1 : (qops s.queue ++ new ++ (l ++ r).map Prod.fst ++ i :: C).Perm
        (i :: (qops s.queue ++ new ++ (l ++ r).map Prod.fst ++ C)) := List.perm_middle
    have h2 : (new ++ (qops s.queue ++ s.running.map Prod.fst ++ C)).Perm
        (new ++ (qops s.queue ++ (i :: (l ++ r).map Prod.fst) ++ C)) :=
      List.Perm.append_left _ (List.Perm.append_right _ (List.Perm.append_left _ hpermR))
    have h3 : (new ++ (qops s.queue ++ (i :: (l ++ r).map Prod.fst) ++ C)).Perm
        (i :: (new ++ (qops s.queue ++ (l ++ r).map Prod.fst ++ C))) := by
      have : new ++ (qops s.queue ++ (i :: (l ++ r).map Prod.fst) ++ C)
          = (new ++ qops s.queue) ++ i :: ((l ++ r).map Prod.fst ++ C) := by simp
      rw [this]
      refine List.perm_middle.trans ?_
      simp
    have h4 : (qops s.queue ++ new ++ (l ++ r).map Prod.fst ++ C).Perm
        (new ++ (qops s.queue ++ (l ++ r).map Prod.fst ++ C)) := by
      have e1 : qops s.queue ++ new ++ (l ++ r).map Prod.fst ++ C
          = (qops s.queue ++ new) ++ ((l ++ r).map Prod.fst ++ C) := by simp
      have e2 : new ++ (qops s.queue ++ (l ++ r).map Prod.fst ++ C)
          = (new ++ qops s.queue) ++ ((l ++ r).map Prod.fst ++ C) := by simp
      rw [e1, e2]
      exact List.Perm.append_right _ List.perm_append_comm
    exact h1.trans ((h4.cons i).trans (h3.symm.trans h2.symm))
  have hsub : (l ++ r).Sublist s.running := by rw [hr]; exact List.Sublist.append_left (List.sublist_cons_self _ _) _
  have hrem := h.rem
  exact {
    nodup := by
      rw [hq, hrun, hperm.nodup_iff, List.nodup_append]
      refine ⟨hTn, h.nodup, ?_⟩
      rintro a ha b hb rfl
      exact ((hnew a).mp ha).2 (h.ready a hb).2
    ready := by
      intro j hj
      rw [hq, hrun, hperm.mem_iff, List.mem_append] at hj
      rcases hj with hj | hj
      · exact ⟨hnewN j hj, ((hnew j).mp hj).1⟩
      · exact ⟨(h.ready j hj).1, hpcmono j (h.ready j hj).2⟩
    pend := by
      intro j
      have : (onOk g op bs { s with running := l ++ r, busy := if s.busy = some i then none else s.busy }).pend j
        = s.pend j - (op.outs.flatMap (consumers g)).count j := hT1 j
      rw [this, h.pend, pc_cons hwf hop hiC j]; omega
    rc := by
      intro v
      have : (onOk g op bs { s with running := l ++ r, busy := if s.busy = some i then none else s.busy }).rc v
        = s.rc v - op.ins.count v := hG1 v
      rw [this, h.rc, need_cons hop hiC v]; omega
    env := by
      intro v ha hn
      have hc := need_cons hop hiC v
      have hstep : (onOk g op bs { s with running := l ++ r, busy := if s.busy = some i then none else s.busy }).env v
        = (s.env.setAll bs) v := by
        refine hG2 v ?_
        show 0 < s.rc v - op.ins.count v
        rw [h.rc]; omega
      rw [hstep]
      rw [avail_cons g C i op hop] at ha
      by_cases hv : v ∈ op.outs
      · have : v ∈ bs.map Prod.fst := by rw [hfst]; exact hv
        obtain ⟨⟨w, x⟩, hx, hw⟩ := List.mem_map.mp this
        simp only at hw; subst hw
        rw [setAll_mem_eq _ _ (by rw [hfst]; exact hwf.outs_nodup hop) _ _ hx]
        rw [den_eq sem g hwf env0 i op hop bs hok _ hx]
        simp
      · have hav : avail g C v = true := by simpa [hv] using ha
        rw [setAll_not_mem _ _ _ (by rw [hfst]; exact hv)]
        exact h.env v hav (by omega)
    run := fun j a hm => h.run j a (hsub.subset hm)
    okC := by
      intro j hj
      rcases List.mem_cons.mp hj with rfl | hj
      · exact ⟨op, hop, by simp [hok]⟩
      · exact h.okC j hj
    rem := by
      show s.remOps - 1 + (i :: C).length = _
      simp only [List.length_cons] at hlenC ⊢; omega
    logNd := by
      rw [hq]
      show (qops s.queue ++ new ++ s.log).Nodup
      have hpl : (qops s.queue ++ new ++ s.log).Perm (new ++ (qops s.queue ++ s.log)) := by
        rw [← List.append_assoc]
        exact List.Perm.append_right _ List.perm_append_comm
      rw [hpl.nodup_iff, List.nodup_append]
      refine ⟨hTn, h.logNd, ?_⟩
      rintro a ha b hb rfl
      have hpc0 : pc g C a = 0 := by
        rcases List.mem_append.mp hb with hb | hb
        · exact (h.ready a (by simp [hb])).2
        · exact (h.logPc a hb).2
      exact ((hnew a).mp ha).2 hpc0
    logPc := fun j hj => ⟨(h.logPc j hj).1, hpcmono j (h.logPc j hj).2⟩
    logC := by
      intro j hj
      rw [hrun] at hj
      apply h.logC
      rcases List.mem_append.mp hj with hj | hj
      · exact List.mem_append_left _ ((hsub.map _).subset hj)
      · rcases List.mem_cons.mp hj with rfl | hj
        · exact List.mem_append_left _ hmem
        · exact List.mem_append_right _ hj
    busy := by
      intro j hb
      have hb' : (if s.busy = some i then none else s.busy) = some j := hb
      split at hb'
      · cases hb'
      · rename_i hne
        have hm := h.busy j hb'
        have hji : j ≠ i := fun e => hne (by rw [hb', e])
        rw [hrun]
        have := hpermR.mem_iff.mp hm
        rcases List.mem_cons.mp this with e | hh
        · exact absurd e hji
        · exact hh
    all := by
      intro _ hm j hj hpc
      rw [hq, hrun, hperm.mem_iff, List.mem_append]
      by_cases hz : pc g C j = 0
      · exact .inr (h.all he hm j hj hz)
      · exact .inl ((hnew j).mpr ⟨hpc, hz⟩)
    done1 := by
      intro hd
      rw [hqueue] at hd
      simp only [List.mem_append, List.mem_map] at hd
      rcases hd with (hd | ⟨_, _, hd⟩) | hd
      · have := h.done1 hd
        simp only [List.length_cons] at hlenC; omega
      · cases hd
      · split at hd
        · simp only [List.length_cons] at hlenC ⊢; omega
        · simp at hd
    done2 := by
      intro _ hl
      rw [hqueue]
      simp only [List.length_cons] at hl
      have : s.remOps - 1 = 0 := by omega
      simp [this]
    err1 := fun h1 => by
      have : s.err = true := h1
      rw [he] at this; cases this
    err2 := fun h1 => by
      have : s.err = true := h1
      rw [he] at this; cases this
    err3 := by
      intro hd
      rw [hqueue] at hd
      simp only [List.mem_append, List.mem_map] at hd
      rcases hd with (hd | ⟨_, _, hd⟩) | hd
      · exact h.err3 hd
      · cases hd
      · split at hd <;> simp at hd
    raised := h.raised
    returned := h.returned }

theorem Inv.out_resolve {sem : Sem V} {isAsync : Nat → Bool} {g : Graph N} (hwf : WF g) {env0 : Env N V} {C : List Nat}
    {s : St N V} (h : Inv sem isAsync g env0 C s) (hl : C.length = g.ops.length) :
    resolve s.env g.outputs = resolve (denLoop sem 0 g.ops env0) g.outputs ∧
      (resolve s.env g.outputs).isSome = true := by
  have hnd : C.Nodup := (List.nodup_append.mp h.nodup).2.1
  have hsub : C ⊆ List.range g.ops.length := by
    intro i hi
    exact List.mem_range.mpr (h.ready i (by simp [hi])).1
  have hperm := (List.subperm_of_subset hnd hsub).perm_of_length_le (by simp [hl])
  have hv : ∀ v ∈ g.outputs, s.env v = denLoop sem 0 g.ops env0 v ∧ (denLoop sem 0 g.ops env0 v).isSome = true := by
    intro v hv
    refine h.env v ?_ (need_pos_of_out g C hv)
    rw [avail_iff]
    have := hwf.outs v hv
    simp only [defined, List.mem_append, List.mem_flatMap] at this
    rcases this with h1 | ⟨op, hop, hvo⟩
    · exact .inl h1
    · obtain ⟨i, hi, hget⟩ := List.mem_iff_getElem.mp hop
      exact .inr ⟨i, hperm.mem_iff.mpr (List.mem_range.mpr hi), op, by simp [hget, List.getElem?_eq_getElem hi], hvo⟩
  have hc := resolve_congr s.env _ g.outputs (fun v hm => (hv v hm).1)
  refine ⟨hc, ?_⟩
  rw [hc, resolve_isSome_iff]
  exact fun v hm => (hv v hm).2

theorem inv_step {sem : Sem V} {isAsync : Nat → Bool} {g : Graph N} (hwf : WF g) {env0 : Env N V} {C : List Nat}
    {s s' : St N V} (h : Inv sem isAsync g env0 C s) (hs : Step sem isAsync g s s') :
    ∃ C', Inv sem isAsync g env0 C' s' := by
  have hpop : ∀ {x : Item} {q : List Item}, s.queue = x :: q → (qops q).Sublist (qops s.queue) := by
    intro x q hq; rw [hq]; exact List.Sublist.filterMap _ (List.sublist_cons_self _ _)
  -- leaving the main loop after popping `x`
  have hleave : ∀ {x : Item} {q : List Item} {m : Main V}, s.queue = x :: q → m ≠ .loop →
      (m = .raised → ¬ AllOk sem g env0) →
      (∀ r, m = .returned r → AllOk sem g env0 ∧ resolve (denLoop sem 0 g.ops env0) g.outputs = some r) →
      Inv sem isAsync g env0 C { s with queue := q, main := m } := by
    intro x q m hq hm h1 h2
    have hsub : (qops q ++ s.running.map Prod.fst ++ C).Sublist (qops s.queue ++ s.running.map Prod.fst ++ C) :=
      ((hpop hq).append_right _).append_right _
    have hqs : ∀ y, y ∈ q → y ∈ s.queue := fun y hy => by rw [hq]; exact List.mem_cons_of_mem _ hy
    exact {
      nodup := h.nodup.sublist hsub
      ready := fun j hj => h.ready j (hsub.subset hj)
      pend := h.pend
      rc := h.rc
      env := h.env
      run := h.run
      okC := h.okC
      rem := h.rem
      logNd := h.logNd.sublist ((hpop hq).append_right _)
      logPc := h.logPc
      logC := h.logC
      busy := h.busy
      all := fun _ hm' => absurd hm' hm
      done1 := fun hd => h.done1 (hqs _ hd)
      done2 := fun hm' => absurd hm' hm
      err1 := h.err1
      err2 := fun _ hm' => absurd hm' hm
      err3 := fun hd => h.err3 (hqs _ hd)
      raised := h1
      returned := h2 }
  cases hs with
  | @takeOp i q op args hm hb hq hop ha hi =>
    have hiq : i ∈ qops s.queue := by rw [hq, qops_op]; simp
    obtain ⟨hres, -⟩ := h.resolve_ready hiq hop
    refine ⟨C, ?_⟩
    have hperm : (qops q ++ (i :: s.running.map Prod.fst) ++ C).Perm (qops s.queue ++ s.running.map Prod.fst ++ C) := by
      rw [hq, qops_op]
      exact List.Perm.append_right _ List.perm_middle
    have hqs : ∀ y, y ∈ q → y ∈ s.queue := fun y hy => by rw [hq]; exact List.mem_cons_of_mem _ hy
    have hqs' : ∀ y, y ∈ s.queue → y ≠ .op i → y ∈ q := fun y hy hne => by
      rw [hq] at hy; rcases List.mem_cons.mp hy with e | hy
      · exact absurd e hne
      · exact hy
    have hplog : (qops q ++ i :: s.log).Perm (qops s.queue ++ s.log) := by
      rw [hq, qops_op]; exact List.perm_middle
    exact {
      nodup := hperm.nodup_iff.mpr h.nodup
      ready := fun j hj => h.ready j (hperm.mem_iff.mp hj)
      pend := h.pend
      rc := h.rc
      env := h.env
      run := by
        intro j a hmem
        rcases List.mem_cons.mp hmem with e | hmem
        · cases e
          exact ⟨op, hop, by rw [← hres, ha], hi⟩
        · exact h.run j a hmem
      okC := h.okC
      rem := h.rem
      logNd := hplog.nodup_iff.mpr h.logNd
      logPc := by
        intro j hj
        rcases List.mem_cons.mp hj with rfl | hj
        · exact h.ready j (by simp [hiq])
        · exact h.logPc j hj
      logC := by
        intro j hj
        show j ∈ i :: s.log
        simp only [List.map_cons, List.cons_append, List.mem_cons] at hj ⊢
        rcases hj with rfl | hj
        · exact .inl rfl
        · exact .inr (h.logC j hj)
      busy := by
        intro j hj
        simp only at hj ⊢
        split at hj
        · cases hj
        · cases hj; simp
      all := fun he hm j hj hpc => hperm.mem_iff.mpr (h.all he hm j hj hpc)
      done1 := fun hd => h.done1 (hqs _ hd)
      done2 := fun hm hl => hqs' _ (h.done2 hm hl) (by simp)
      err1 := h.err1
      err2 := fun he hm => hqs' _ (h.err2 he hm) (by simp)
      err3 := fun hd => h.err3 (hqs _ hd)
      raised := h.raised
      returned := h.returned }
  | @takeMissing i q op hm hb hq hop ha =>
    have hiq : i ∈ qops s.queue := by rw [hq, qops_op]; simp
    obtain ⟨-, hsome⟩ := h.resolve_ready hiq hop
    rw [ha] at hsome; cases hsome
  | @takeNoImpl i q op args hm hb hq hop ha hi =>
    have hiq : i ∈ qops s.queue := by rw [hq, qops_op]; simp
    obtain ⟨hres, -⟩ := h.resolve_ready hiq hop
    refine ⟨C, hleave hq (by simp) (fun _ => opOk_none_notAllOk hop ?_) (by simp)⟩
    simp [opOk, ← hres, ha, hi]
  | @takeDone q hm hb hq =>
    have hl : C.length = g.ops.length := h.done1 (by rw [hq]; simp)
    obtain ⟨h1, h2⟩ := h.out_resolve hwf hl
    obtain ⟨r, hr⟩ := Option.isSome_iff_exists.mp h2
    refine ⟨C, ?_⟩
    rw [hr]
    refine hleave hq (by simp) (by simp) ?_
    intro r' e
    simp only [Main.returned.injEq] at e
    subst e
    exact ⟨h.allOk hl, by rw [← h1, hr]⟩
  | @takeErr q hm hb hq =>
    have he : s.err = true := h.err3 (by rw [hq]; simp)
    exact ⟨C, hleave hq (by simp) (fun _ => h.err1 he) (by simp)⟩
  | @complete i args op l r hr hop =>
    obtain ⟨o, ho, hres, himpl⟩ := h.run i args (by rw [hr]; simp)
    rw [hop] at ho; cases ho
    cases hrun : sem.run i args with
    | none =>
      refine ⟨C, ?_⟩
      simp only [onDone]
      exact inv_err h hr (opOk_none_notAllOk hop (by simp [opOk, hres, himpl, hrun]))
    | some res =>
      simp only [onDone]
      cases he : s.err with
      | true => exact ⟨C, by have := inv_drop h hr he; simpa [he] using this⟩
      | false =>
        simp only [Bool.false_eq_true, if_false]
        cases hb : bindOuts sem op.outs res with
        | none =>
          refine ⟨C, ?_⟩
          have := inv_err h hr (opOk_none_notAllOk hop (by simp [opOk, hres, himpl, hrun, hb]))
          simpa only [he] using this
        | some bs =>
          refine ⟨i :: C, ?_⟩
          have := inv_ok hwf h hr hop he (bs := bs) (by simp [opOk, hres, himpl, hrun, hb])
          simpa only [he] using this

theorem inv_reach {sem : Sem V} {isAsync : Nat → Bool} {g : Graph N} (hwf : WF g) {args : List V} {env0 : Env N V}
    (h0 : initEnv g args = some env0) {s : St N V} (hr : Reach sem isAsync g (initSt g env0) s) :
    ∃ C, Inv sem isAsync g env0 C s := by
  induction hr with
  | init => exact ⟨[], inv_init sem isAsync g hwf args env0 h0⟩
  | step _ hs ih => obtain ⟨C, hC⟩ := ih; exact inv_step hwf hC hs

end
end Verif.Interp
