import Verif.Interp.SyncLemmas
/-! Helper lemmas: asynchronous evaluation. -/
namespace Verif.Interp
section
variable {N V : Type} [DecidableEq N]

/-! ### Denotation: evaluate whatever can be evaluated -/

/-- op `i` evaluated on `env`: the bindings it produces, if everything goes well -/
def opOk (sem : Sem V) (env : Env N V) (i : Nat) (op : Op N) : Option (List (N × V)) :=
  match resolve env op.ins with
  | none => none
  | some args => if sem.impl i then match sem.run i args with
      | none => none
      | some r => bindOuts sem op.outs r
    else none

/-- evaluate in order, skipping ops that fail -/
def denLoop (sem : Sem V) : Nat → List (Op N) → Env N V → Env N V
  | _, [], env => env
  | i, op :: ops, env => match opOk sem env i op with
    | none => denLoop sem (i + 1) ops env
    | some bs => denLoop sem (i + 1) ops (env.setAll bs)

theorem opOk_fst (sem : Sem V) (env : Env N V) (i : Nat) (op : Op N) (bs : List (N × V))
    (h : opOk sem env i op = some bs) : bs.map Prod.fst = op.outs := by
  simp only [opOk] at h
  split at h; · cases h
  split at h
  · split at h; · cases h
    exact bindOuts_fst _ _ _ _ h
  · cases h

theorem denLoop_not_mem (sem : Sem V) (i : Nat) (ops : List (Op N)) (env : Env N V) (v : N)
    (h : v ∉ ops.flatMap Op.outs) : denLoop sem i ops env v = env v := by
  induction ops generalizing i env with
  | nil => rfl
  | cons op ops ih =>
    simp only [List.flatMap_cons, List.mem_append, not_or] at h
    simp only [denLoop]
    cases hb : opOk sem env i op with
    | none => exact ih _ _ h.2
    | some bs =>
      simp only
      rw [ih _ _ h.2, setAll_not_mem]
      rw [opOk_fst _ _ _ _ _ hb]; exact h.1

theorem opOk_congr (sem : Sem V) (e e' : Env N V) (i : Nat) (op : Op N) (h : ∀ v ∈ op.ins, e v = e' v) :
    opOk sem e i op = opOk sem e' i op := by
  simp only [opOk, resolve_congr e e' op.ins h]

theorem denLoop_append (sem : Sem V) (i : Nat) (a b : List (Op N)) (env : Env N V) :
    denLoop sem i (a ++ b) env = denLoop sem (i + a.length) b (denLoop sem i a env) := by
  induction a generalizing i env with
  | nil => simp [denLoop]
  | cons op a ih =>
    simp only [List.cons_append, denLoop, List.length_cons]
    split <;> rw [ih] <;> congr 1 <;> omega

/-- fixpoint equation of the denotation on a well-formed graph -/
theorem den_eq (sem : Sem V) (g : Graph N) (hwf : WF g) (env : Env N V) (i : Nat) (op : Op N)
    (hop : g.ops[i]? = some op) (bs : List (N × V))
    (h : opOk sem (denLoop sem 0 g.ops env) i op = some bs) :
    ∀ p ∈ bs, denLoop sem 0 g.ops env p.1 = some p.2 := by
  obtain ⟨hi, hget⟩ := List.getElem?_eq_some_iff.mp hop
  have hsplit : g.ops = g.ops.take i ++ op :: g.ops.drop (i + 1) := by
    rw [← hget, List.getElem_cons_drop, List.take_append_drop]
  have hlen : (g.ops.take i).length = i := by simp; omega
  generalize hpre : g.ops.take i = pre at *
  generalize hpost : g.ops.drop (i + 1) = post at *
  have huses := hwf.uses pre op post hsplit
  have hnd := hwf.nodup
  rw [hsplit] at hnd h ⊢
  simp only [defined, List.flatMap_append, List.flatMap_cons] at hnd
  rw [denLoop_append] at h ⊢
  simp only [Nat.zero_add, hlen, denLoop] at h ⊢
  -- operands are not redefined by op or post
  have hdis : ∀ v ∈ op.ins, v ∉ op.outs ++ post.flatMap Op.outs := by
    intro v hv hc
    have hd := huses v hv
    simp only [defined] at hd
    rw [← List.append_assoc, List.nodup_append] at hnd
    exact hnd.2.2 v hd v hc rfl
  have hcongr : ∀ v ∈ op.ins, denLoop sem i (op :: post) (denLoop sem 0 pre env) v = denLoop sem 0 pre env v := by
    intro v hv
    apply denLoop_not_mem
    simpa using hdis v hv
  have hE : (match opOk sem (denLoop sem 0 pre env) i op with
      | none => denLoop sem (i + 1) post (denLoop sem 0 pre env)
      | some bs => denLoop sem (i + 1) post ((denLoop sem 0 pre env).setAll bs))
      = denLoop sem i (op :: post) (denLoop sem 0 pre env) := rfl
  rw [hE] at h ⊢
  rw [opOk_congr sem _ _ i op hcongr] at h
  intro p hp
  simp only [denLoop, h]
  have hfst := opOk_fst _ _ _ _ _ h
  have hmem : p.1 ∈ op.outs := by rw [← hfst]; exact List.mem_map_of_mem hp
  have hn2 : (op.outs ++ post.flatMap Op.outs).Nodup := by
    rw [← List.append_assoc, List.nodup_append] at hnd
    exact hnd.2.1
  rw [denLoop_not_mem]
  · apply setAll_mem_eq
    · rw [hfst]; exact (List.nodup_append.mp hn2).1
    · exact hp
  · intro hc
    exact (List.nodup_append.mp hn2).2.2 _ hmem _ hc rfl

/-- all ops succeed in the denotation -/
def AllOk (sem : Sem V) (g : Graph N) (env : Env N V) : Prop :=
  ∀ i op, g.ops[i]? = some op → ∃ bs, opOk sem (denLoop sem 0 g.ops env) i op = some bs

theorem specLoop_eq_denLoop (sem : Sem V) (i : Nat) (ops : List (Op N)) (env env' : Env N V)
    (h : specLoop sem i ops env = some env') : denLoop sem i ops env = env' := by
  induction ops generalizing i env with
  | nil => simp only [specLoop, Option.some.injEq] at h; exact h
  | cons op ops ih =>
    simp only [specLoop] at h
    split at h; · cases h
    rename_i args hargs
    split at h
    · rename_i himpl
      split at h; · cases h
      rename_i res hres
      split at h; · cases h
      rename_i bs hbs
      simp only [denLoop, opOk, hargs, himpl, if_true, hres, hbs]
      exact ih _ _ h
    · cases h

/-- sequential evaluation succeeds iff every op succeeds -/
theorem specLoop_some_iff (sem : Sem V) (i : Nat) (ops : List (Op N)) (env : Env N V) :
    (specLoop sem i ops env).isSome = true ↔
      ∀ pre op post, ops = pre ++ op :: post → (opOk sem (denLoop sem i pre env) (i + pre.length) op).isSome = true := by
  induction ops generalizing i env with
  | nil => simp [specLoop]
  | cons o ops ih =>
    constructor
    · intro h pre op post heq
      have hhead : ∃ bs, opOk sem env i o = some bs ∧ (specLoop sem (i + 1) ops (env.setAll bs)).isSome = true := by
        simp only [specLoop] at h
        simp only [opOk]
        cases hr : resolve env o.ins with
        | none => simp [hr] at h
        | some args =>
          simp only [hr] at h ⊢
          cases hi : sem.impl i with
          | false => simp [hi] at h
          | true =>
            simp only [hi, if_true] at h ⊢
            cases hrun : sem.run i args with
            | none => simp [hrun] at h
            | some res =>
              simp only [hrun] at h ⊢
              cases hb : bindOuts sem o.outs res with
              | none => simp [hb] at h
              | some bs => simp only [hb] at h; exact ⟨bs, rfl, h⟩
      obtain ⟨bs, hbs, hrest⟩ := hhead
      cases pre with
      | nil =>
        simp only [List.nil_append, List.cons.injEq] at heq
        obtain ⟨rfl, rfl⟩ := heq
        simp [denLoop, hbs]
      | cons p pre =>
        simp only [List.cons_append, List.cons.injEq] at heq
        obtain ⟨rfl, heq⟩ := heq
        have := (ih _ _).mp hrest pre op post heq
        simp only [denLoop, hbs, List.length_cons]
        rw [show i + (pre.length + 1) = i + 1 + pre.length by omega]
        exact this
    · intro h
      have h0 := h [] o ops rfl
      simp only [denLoop, List.length_nil, Nat.add_zero] at h0
      obtain ⟨bs, hbs⟩ := Option.isSome_iff_exists.mp h0
      have hrest : (specLoop sem (i + 1) ops (env.setAll bs)).isSome = true := by
        apply (ih _ _).mpr
        intro pre op post heq
        have := h (o :: pre) op post (by simp [heq])
        simp only [denLoop, hbs, List.length_cons] at this
        rw [show i + (pre.length + 1) = i + 1 + pre.length by omega] at this
        exact this
      simp only [opOk] at hbs
      simp only [specLoop]
      cases hr : resolve env o.ins with
      | none => simp [hr] at hbs
      | some args =>
        simp only [hr] at hbs
        cases hi : sem.impl i with
        | false => simp [hi] at hbs
        | true =>
          simp only [hi, if_true] at hbs ⊢
          cases hrun : sem.run i args with
          | none => simp [hrun] at hbs
          | some res =>
            simp only [hrun] at hbs
            simp only [hbs]; exact hrest

theorem specLoop_some_iff_allOk (sem : Sem V) (g : Graph N) (hwf : WF g) (env : Env N V) :
    (specLoop sem 0 g.ops env).isSome = true ↔ AllOk sem g env := by
  rw [specLoop_some_iff]
  have key : ∀ pre op post, g.ops = pre ++ op :: post →
      opOk sem (denLoop sem 0 pre env) pre.length op = opOk sem (denLoop sem 0 g.ops env) pre.length op := by
    intro pre op post heq
    apply opOk_congr
    intro v hv
    have hd := hwf.uses pre op post heq v hv
    rw [heq, denLoop_append, denLoop_not_mem sem _ (op :: post)]
    have hnd := hwf.nodup
    rw [heq] at hnd
    simp only [defined, List.flatMap_append] at hnd hd
    intro hc
    rw [← List.append_assoc, List.nodup_append] at hnd
    exact hnd.2.2 v hd v hc rfl
  constructor
  · intro h i op hop
    obtain ⟨hi, hget⟩ := List.getElem?_eq_some_iff.mp hop
    have hsplit : g.ops = g.ops.take i ++ op :: g.ops.drop (i + 1) := by
      rw [← hget, List.getElem_cons_drop, List.take_append_drop]
    have hlen : (g.ops.take i).length = i := by simp; omega
    have h1 := h _ _ _ hsplit
    rw [Nat.zero_add, key _ _ _ hsplit, hlen] at h1
    exact Option.isSome_iff_exists.mp h1
  · intro h pre op post heq
    rw [Nat.zero_add, key _ _ _ heq]
    obtain ⟨bs, hbs⟩ := h pre.length op (by rw [heq]; simp)
    simp [hbs]

/-! ### Bookkeeping -/

/-- `v` is available once the ops in `C` are complete -/
def avail (g : Graph N) (C : List Nat) (v : N) : Bool :=
  decide (v ∈ g.inputs) || C.any fun i => match g.ops[i]? with | some op => decide (v ∈ op.outs) | none => false

theorem avail_iff (g : Graph N) (C : List Nat) (v : N) :
    avail g C v = true ↔ v ∈ g.inputs ∨ ∃ i ∈ C, ∃ op, g.ops[i]? = some op ∧ v ∈ op.outs := by
  simp only [avail, Bool.or_eq_true, decide_eq_true_eq, List.any_eq_true]
  constructor
  · rintro (h | ⟨i, hi, h⟩)
    · exact .inl h
    · right
      refine ⟨i, hi, ?_⟩
      split at h
      · rename_i op hop; exact ⟨op, hop, by simpa using h⟩
      · cases h
  · rintro (h | ⟨i, hi, op, hop, h⟩)
    · exact .inl h
    · right
      refine ⟨i, hi, ?_⟩
      simp [hop, h]

/-- number of operand occurrences of op `i` not yet available -/
def pc (g : Graph N) (C : List Nat) (i : Nat) : Nat :=
  match g.ops[i]? with
  | none => 0
  | some op => (op.ins.filter fun v => !avail g C v).length

/-- operand occurrences of `v` in ops not in `C`, plus output occurrences -/
def need (g : Graph N) (C : List Nat) (v : N) : Nat :=
  ((g.ops.zipIdx.filter fun p => !C.contains p.2).map fun p => p.1.ins.count v).sum + g.outputs.count v

/-- ops waiting in the queue -/
def qops (q : List Item) : List Nat := q.filterMap fun | .op i => some i | _ => none

theorem qops_append (a b : List Item) : qops (a ++ b) = qops a ++ qops b := by simp [qops]
theorem qops_op (i : Nat) (q : List Item) : qops (.op i :: q) = i :: qops q := by simp [qops]

/-- effect of the whole trigger loop -/
theorem trigger_fold (l : List Nat) (p : Nat → Nat) (q : List Item) (hc : ∀ i, l.count i ≤ p i) :
    (∀ i, (l.foldl trigger (p, q)).1 i = p i - l.count i) ∧
    ∃ new : List Nat, (l.foldl trigger (p, q)).2 = q ++ new.map Item.op ∧ new.Nodup ∧
      ∀ i, i ∈ new ↔ 0 < l.count i ∧ p i = l.count i := by
  induction l generalizing p q with
  | nil => exact ⟨by simp, [], by simp⟩
  | cons w l ih =>
    have hw : 0 < p w := by have := hc w; simp at this; omega
    let p' := (trigger (p, q) w).1
    have hp' : ∀ i, p' i = if i = w then p w - 1 else p i := fun i => rfl
    have hc' : ∀ i, l.count i ≤ p' i := by
      intro i
      have := hc i
      rw [hp']
      simp only [List.count_cons] at this
      by_cases h : i = w
      · subst h; simp at this; simp; omega
      · simp only [h, if_false]; omega
    obtain ⟨h1, new, h2, h3, h4⟩ := ih p' (trigger (p, q) w).2 hc'
    simp only [List.foldl_cons]
    have hcount : ∀ i, (w :: l).count i = l.count i + if i = w then 1 else 0 := by
      intro i; simp only [List.count_cons]
      by_cases h : i = w
      · subst h; simp
      · have : (w == i) = false := by simp; exact fun e => h e.symm
        simp [this, h]
    refine ⟨?_, ?_⟩
    · intro i
      have := h1 i
      rw [show (l.foldl trigger (trigger (p, q) w)).1 i = p' i - l.count i from this, hp', hcount]
      by_cases h : i = w
      · subst h; simp; omega
      · simp [h]
    · by_cases hz : p w - 1 = 0
      · refine ⟨w :: new, ?_, ?_, ?_⟩
        · rw [h2]; simp [trigger, hz]
        · refine List.nodup_cons.mpr ⟨?_, h3⟩
          intro hm
          obtain ⟨a, b⟩ := (h4 w).mp hm
          rw [hp'] at b; simp at b; omega
        · intro i
          rw [List.mem_cons, h4, hp', hcount]
          have hcw := hc w
          rw [hcount] at hcw
          by_cases h : i = w
          · subst h; simp at hcw ⊢; omega
          · simp [h]
      · refine ⟨new, ?_, h3, ?_⟩
        · rw [h2]; simp [trigger, hz]
        · intro i
          rw [h4, hp', hcount]
          have hcw := hc w
          rw [hcount] at hcw
          by_cases h : i = w
          · subst h; simp [-List.count_pos_iff] at hcw ⊢; omega
          · simp [h]

end
end Verif.Interp
