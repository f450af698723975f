import Verif.Graph.Lemmas
import Verif.Interp.Spec
/-!
# C05 and C07: the graph builder and the JSON form of graphs
-/
namespace Verif.Graph
open Verif.Serde

/-! ## C07 -/

/-- `v` is a value object handed out by an earlier successful call on this very graph. -/
def B.holds (b : B) (v : Operand) : Prop := v.own = true ∧ (v.name, v.ty) ∈ b.handles

/-- Histories of builder calls on one graph, successful or not.  `P` restricts the names of inputs.  `add_op` gets values
of this graph; `add_output` may be tried with any foreign value.  `reorder`: `align_region_inputs` permutes the inputs
(edsl/tracer.py:544). -/
inductive Hist (P : String → Prop) : B → Prop
  | new : Hist P {}
  | input {b : B} (h : Hist P b) (n : String) (t : Ty) (hn : P n) : Hist P (b.addInput n t).1
  | op {b : B} (h : Hist P b) (opcode : String) (ins : List Operand) (tys : Option (List Ty))
      (attrs : List (String × PyVal)) (regs : List Gr) (hins : ∀ v ∈ ins, b.holds v) :
      Hist P (b.addOp opcode ins tys attrs regs).1
  | output {b : B} (h : Hist P b) (v : Operand) (hv : v.own = true → b.holds v) : Hist P (b.addOutput v).1
  | reorder {b : B} (h : Hist P b) (l : List (String × Ty)) (hl : l.Perm b.inputs) : Hist P { b with inputs := l }

/-- forget everything but the data flow: names of inputs, operands, results, outputs -/
def flow : Gr → Interp.Graph String
  | .mk ins ops outs => ⟨names ins, ops.map fun o => ⟨o.ins.map Operand.name, names o.outs⟩, outs⟩

theorem flow_outs (ops : List OpD) :
    ((ops.map fun o => (⟨o.ins.map Operand.name, names o.outs⟩ : Interp.Op String)).flatMap Interp.Op.outs)
      = names (ops.flatMap OpD.outs) := by
  induction ops with
  | nil => rfl
  | cons o ops ih => simp only [List.map_cons, List.flatMap_cons, ih, names, List.map_append]

/-- invariant behind C07 -/
structure SSA (b : B) : Prop where
  vals : (names b.values).Nodup
  nodup : (names b.handles).Nodup
  sub : ∀ n ∈ names b.handles, n ∈ names b.values
  uses : ∀ pre op post, b.ops = pre ++ op :: post → ∀ v ∈ op.ins,
    v.own = true ∧ (v.name, v.ty) ∈ b.inputs ++ pre.flatMap OpD.outs
  outs : ∀ n ∈ b.outputs, n ∈ names b.handles

theorem snoc_split {α : Type} {l pre post : List α} {a x : α} (h : l ++ [a] = pre ++ x :: post) :
    (pre = l ∧ x = a ∧ post = []) ∨ ∃ post', post = post' ++ [a] ∧ l = pre ++ x :: post' := by
  rcases List.eq_nil_or_concat post with rfl | ⟨p, y, rfl⟩
  · left
    have := List.append_inj' h rfl
    simp_all
  · right
    have h2 : l ++ [a] = (pre ++ x :: p) ++ [y] := by simpa using h
    have := List.append_inj' h2 rfl
    simp at this
    exact ⟨p, by simp [this.2], this.1⟩

theorem Hist.ssa {P : String → Prop} {b : B} (h : Hist P b) : SSA b := by
  induction h with
  | new => exact ⟨by simp, by simp [B.handles], by simp [B.handles], by simp, by simp⟩
  | @input b h n t hn ih =>
    simp only [B.addInput, B.addValue]
    by_cases hc : n ∈ List.map Prod.fst b.values
    · simp only [hc, if_true]; exact ih
    · simp only [hc, if_false]
      have hperm : (names (b.inputs ++ [(n, t)] ++ b.ops.flatMap OpD.outs)).Perm (n :: names b.handles) := by
        simp only [B.handles, names, List.map_append, List.map_cons, List.map_nil, List.append_assoc, List.cons_append,
          List.nil_append]
        exact List.perm_middle
      refine ⟨?_, ?_, ?_, ?_, ?_⟩
      · simp only [names, List.map_append, List.map_cons, List.map_nil]
        rw [List.nodup_append]
        refine ⟨ih.vals, by simp, ?_⟩
        rintro a ha c hcc rfl
        simp only [List.mem_singleton] at hcc
        subst hcc; exact hc ha
      · simp only [B.handles]
        rw [hperm.nodup_iff, List.nodup_cons]
        exact ⟨fun hm => hc (ih.sub n hm), ih.nodup⟩
      · intro m hm
        simp only [B.handles] at hm
        have := hperm.mem_iff.mp hm
        simp only [names, List.map_append, List.map_cons, List.map_nil, List.mem_append, List.mem_singleton]
        rcases List.mem_cons.mp this with rfl | hm
        · exact .inr rfl
        · exact .inl (ih.sub m hm)
      · intro pre op post heq v hv
        obtain ⟨h1, h2⟩ := ih.uses pre op post heq v hv
        refine ⟨h1, ?_⟩
        rcases List.mem_append.mp h2 with h2 | h2
        · exact List.mem_append_left _ (List.mem_append_left _ h2)
        · exact List.mem_append_right _ h2
      · intro m hm
        simp only [B.handles]
        rw [hperm.mem_iff]
        exact List.mem_cons_of_mem _ (ih.outs m hm)
  | @op b h opcode ins tys attrs regs hins ih =>
    simp only [B.addOp]
    split
    · exact ih
    · rename_i ts hts
      obtain ⟨ex, vc', h1, h2, h3⟩ := addValues_any b ts
      have hvals : (names (b.values ++ ex)).Nodup := by
        simp only [names, List.map_append]
        rw [List.nodup_append]
        refine ⟨ih.vals, h3, ?_⟩
        rintro a ha c hc rfl
        exact h2 a hc ha
      split
      · rename_i b' hb
        rw [hb] at h1
        simp only at h1
        subst h1
        refine ⟨hvals, ih.nodup, ?_, ih.uses, ih.outs⟩
        intro n hn
        simp only [names, List.map_append, List.mem_append]
        exact .inl (ih.sub n hn)
      · rename_i b' outs hb
        obtain ⟨e1, e2, e3, e4, e5⟩ := addValues_some b ts b' outs hb
        subst e1
        have hh : names (b.inputs ++ (b.ops ++ [OpD.mk opcode ins outs attrs regs (opName b.oc)]).flatMap OpD.outs)
            = names b.handles ++ names outs := by
          simp [names, B.handles, OpD.outs, List.flatMap_append]
        refine ⟨?_, ?_, ?_, ?_, ?_⟩
        · simp only [names, List.map_append]
          rw [List.nodup_append]
          refine ⟨ih.vals, e5, ?_⟩
          rintro a ha c hc rfl
          exact e4 a hc ha
        · simp only [B.handles]
          rw [hh, List.nodup_append]
          refine ⟨ih.nodup, e5, ?_⟩
          rintro a ha c hc rfl
          exact e4 a hc (ih.sub a ha)
        · intro n hn
          simp only [B.handles] at hn
          rw [hh] at hn
          simp only [names, List.map_append, List.mem_append]
          rcases List.mem_append.mp hn with hn | hn
          · exact .inl (ih.sub n hn)
          · exact .inr hn
        · intro pre op post heq v hv
          rcases snoc_split heq with ⟨rfl, rfl, rfl⟩ | ⟨post', rfl, heq'⟩
          · obtain ⟨g1, g2⟩ := hins v hv
            exact ⟨g1, g2⟩
          · exact ih.uses pre op post' heq' v hv
        · intro n hn
          simp only [B.handles]
          rw [hh]
          exact List.mem_append_left _ (ih.outs n hn)
  | @output b h v hv ih =>
    simp only [B.addOutput]
    split
    · rename_i hc
      refine ⟨ih.vals, ih.nodup, ih.sub, ih.uses, ?_⟩
      intro n hn
      rcases List.mem_append.mp hn with hn | hn
      · exact ih.outs n hn
      · simp only [List.mem_singleton] at hn
        subst hn
        exact List.mem_map.mpr ⟨_, (hv hc.1).2, rfl⟩
    · exact ih
  | @reorder b h l hl ih =>
    have hperm : (names (l ++ b.ops.flatMap OpD.outs)).Perm (names b.handles) :=
      (List.Perm.append_right _ hl).map _
    refine ⟨ih.vals, hperm.nodup_iff.mpr ih.nodup, fun n hn => ih.sub n (hperm.mem_iff.mp hn), ?_,
      fun n hn => hperm.mem_iff.mpr (ih.outs n hn)⟩
    intro pre op post heq v hv
    obtain ⟨h1, h2⟩ := ih.uses pre op post heq v hv
    refine ⟨h1, ?_⟩
    rcases List.mem_append.mp h2 with h2 | h2
    · exact List.mem_append_left _ (hl.mem_iff.mpr h2)
    · exact List.mem_append_right _ h2

/-- **C07** Whatever calls were made, in whatever order, successful or rejected: the graph is in single assignment form —
all names of inputs and results are different, every operand is an input or a result of an earlier op, every output is
defined.  (`Interp.WF` is the hypothesis under which evaluation is proved correct in C11-C13.) -/
theorem builder_ssa (b : B) (h : Hist (fun _ => True) b) : Interp.WF (flow b.graph) := by
  have hs := h.ssa
  refine ⟨?_, ?_, ?_⟩
  · simp only [Interp.defined, flow, B.graph, flow_outs]
    have := hs.nodup
    simpa only [B.handles, names, List.map_append] using this
  · intro pre op post heq v hv
    simp only [flow, B.graph] at heq
    obtain ⟨l1, l2, h1, h2, h3⟩ := List.map_eq_append_iff.mp heq
    obtain ⟨o, l3, rfl, rfl, rfl⟩ := List.map_eq_cons_iff.mp h3
    obtain ⟨w, hw, rfl⟩ := List.mem_map.mp hv
    obtain ⟨-, hmem⟩ := hs.uses l1 o l3 h1 w hw
    simp only [Interp.defined, flow, B.graph]
    rw [← h2, flow_outs]
    rcases List.mem_append.mp hmem with h | h
    · exact List.mem_append_left _ (List.mem_map.mpr ⟨_, h, rfl⟩)
    · exact List.mem_append_right _ (List.mem_map.mpr ⟨_, h, rfl⟩)
  · intro v hv
    simp only [Interp.defined, flow, B.graph, flow_outs]
    have := hs.outs v hv
    simpa only [B.handles, names, List.map_append] using this

/-- **C07** The operands recorded in the graph also carry the type they were defined with. -/
theorem builder_operand_types (b : B) (h : Hist (fun _ => True) b) (pre post : List OpD) (op : OpD)
    (hop : b.ops = pre ++ op :: post) (v : Operand) (hv : v ∈ op.ins) :
    (v.name, v.ty) ∈ b.inputs ++ pre.flatMap OpD.outs := (h.ssa.uses pre op post hop v hv).2

/-- **C07** A rejected `add_input` or `add_output` leaves the graph unchanged. -/
theorem builder_rejections_apply_nothing (b : B) :
    (∀ n t, (b.addInput n t).2.isNone = true → (b.addInput n t).1 = b) ∧
    (∀ v, (b.addOutput v).2 = false → (b.addOutput v).1 = b) ∧
    (∀ o i ty a r, (b.addOp o i ty a r).2.isNone = true → (b.addOp o i ty a r).1.graph = b.graph) := by
  refine ⟨?_, ?_, ?_⟩
  · intro n t h
    simp only [B.addInput, B.addValue] at h ⊢
    by_cases hc : n ∈ List.map Prod.fst b.values <;> simp [hc] at h ⊢
  · intro v h
    simp only [B.addOutput] at h ⊢
    by_cases hc : v.own = true ∧ v.name ∈ List.map Prod.fst b.values
    · simp [hc] at h
    · simp only [hc, if_false]
  · intro o i ty a r h
    simp only [B.addOp] at h ⊢
    split
    · rfl
    · rename_i ts hts
      obtain ⟨ex, vc', h1, -, -⟩ := addValues_any b ts
      split
      · rename_i b' hb
        rw [hb] at h1; simp only at h1; rw [h1]; rfl
      · rename_i b' outs hb
        simp [hts, hb] at h

/-- What C07 does not give: `add_op` does not check that its operands belong to the graph.  A value of another graph is
accepted, and the resulting graph has an operand that nothing defines. -/
theorem builder_accepts_foreign_operand :
    ∃ (v : Operand), v.own = false ∧ ¬ Interp.WF (flow ((({} : B).addOp "neg" [v] none [] []).1.graph)) := by
  refine ⟨⟨false, "x", .float 32⟩, rfl, fun h => ?_⟩
  have := h.uses [] ⟨["x"], ["%0"]⟩ [] rfl "x" (by simp)
  revert this
  decide

/-! ## C05 -/

mutual
/-- Histories where no `add_op` call failed: types are valid, attributes are python values, regions are finished graphs
built the same way. -/
inductive Clean (eq : PyVal → PyVal → Bool) : B → Prop
  | new : Clean eq {}
  | input {b : B} (h : Clean eq b) (n : String) (t : Ty) (ht : t.valid = true) : Clean eq (b.addInput n t).1
  | op {b : B} (h : Clean eq b) (opcode : String) (ins : List Operand) (tys : Option (List Ty))
      (attrs : List (String × PyVal)) (regs : List Gr) (hins : ∀ v ∈ ins, b.holds v)
      (hty : ∀ ts, tys = some ts → ∀ t ∈ ts, t.valid = true) (hattr : ∀ a ∈ attrs, a.2.WF eq)
      (hreg : ∀ r ∈ regs, CleanG eq r) (hok : (b.addOp opcode ins tys attrs regs).2.isSome = true) :
      Clean eq (b.addOp opcode ins tys attrs regs).1
  | output {b : B} (h : Clean eq b) (v : Operand) (hv : v.own = true → b.holds v) : Clean eq (b.addOutput v).1
  | reorder {b : B} (h : Clean eq b) (l : List (String × Ty)) (hl : l.Perm b.inputs) : Clean eq { b with inputs := l }
/-- a finished graph -/
inductive CleanG (eq : PyVal → PyVal → Bool) : Gr → Prop
  | mk {b : B} (h : Clean eq b) : CleanG eq b.graph
end

theorem OpsRep.valid {eq : PyVal → PyVal → Bool} {I : List (String × Ty)} {ops : List OpD} (h : OpsRep eq I ops) :
    ∀ v ∈ ops.flatMap OpD.outs, v.2.valid = true := by
  induction h with
  | nil => simp
  | snoc _ _ _ ht _ _ ih =>
    intro v hv
    simp only [List.flatMap_append, List.mem_append, List.flatMap_cons, List.flatMap_nil, List.append_nil, OpD.outs] at hv
    rcases hv with hv | hv
    · exact ih v hv
    · exact ht v hv

theorem rep_input {eq : PyVal → PyVal → Bool} {b : B} (ih : Rep eq b) (n : String) (t : Ty) (ht : t.valid = true) :
    Rep eq (b.addInput n t).1 := by
  simp only [B.addInput, B.addValue]
  by_cases hc : n ∈ List.map Prod.fst b.values
  · simp only [hc, if_true]; exact ih
  · simp only [hc, if_false]
    refine ⟨ih.ops.mono (fun v hv => List.mem_append_left _ hv), ?_, ?_, ih.vc, ih.oc, ?_, ?_⟩
    · simp only [B.handles, List.append_assoc]
      have h1 : (b.values ++ [(n, t)]).Perm ((n, t) :: b.handles) :=
        List.perm_append_comm.trans (ih.perm.cons _)
      refine h1.trans ?_
      exact List.perm_middle.symm
    · simp only [names, List.map_append, List.map_cons, List.map_nil]
      rw [List.nodup_append]
      refine ⟨ih.nodup, by simp, ?_⟩
      rintro a ha c hcc rfl
      simp only [List.mem_singleton] at hcc
      subst hcc; exact hc ha
    · intro m hm
      have := ih.outs m hm
      simp only [B.handles, names, List.map_append, List.mem_append] at this ⊢
      tauto
    · intro v hv
      rcases List.mem_append.mp hv with hv | hv
      · exact ih.tys v hv
      · simp only [List.mem_singleton] at hv; subst hv; exact ht

theorem rep_op {eq : PyVal → PyVal → Bool} {b : B} (ih : Rep eq b) (opcode : String) (ins : List Operand)
    (tys : Option (List Ty)) (attrs : List (String × PyVal)) (regs : List Gr) (hins : ∀ v ∈ ins, b.holds v)
    (hty : ∀ ts, tys = some ts → ∀ t ∈ ts, t.valid = true) (hattr : ∀ a ∈ attrs, a.2.WF eq)
    (hreg : ∀ r ∈ regs, Good eq r) (hok : (b.addOp opcode ins tys attrs regs).2.isSome = true) :
    Rep eq (b.addOp opcode ins tys attrs regs).1 := by
  simp only [B.addOp] at hok ⊢
  split at hok
  · cases hok
  · rename_i ts hts
    split at hok
    · cases hok
    · rename_i b' outs hb
      obtain ⟨e1, e2, e3, e4, e5⟩ := addValues_some b ts b' outs hb
      subst e1
      simp only [hb]
      have htv : ∀ t ∈ ts, t.valid = true := by
        cases tys with
        | some ts' => simp only [outTypes, Option.some.injEq] at hts; subst hts; exact hty _ rfl
        | none =>
          cases ins with
          | nil => simp [outTypes] at hts
          | cons v ins =>
            simp only [outTypes, Option.some.injEq] at hts
            subst hts
            intro t ht
            simp only [List.mem_singleton] at ht
            subst ht
            have := (hins v (by simp)).2
            rcases List.mem_append.mp this with h | h
            · exact ih.tys _ h
            · exact ih.ops.valid _ h
      refine ⟨?_, ?_, ?_, ?_, ?_, ?_, ih.tys⟩
      · simp only [ih.oc]
        refine .snoc ih.ops (fun v hv => hins v hv) (by rw [e3, ih.vc]) ?_ hattr hreg
        intro v hv
        apply htv
        rw [← e2]
        exact List.mem_map_of_mem hv
      · simp only [B.handles, List.flatMap_append, List.flatMap_cons, List.flatMap_nil, List.append_nil, OpD.outs]
        rw [← List.append_assoc]
        exact List.Perm.append_right _ ih.perm
      · simp only [names, List.map_append]
        rw [List.nodup_append]
        refine ⟨ih.nodup, e5, ?_⟩
        rintro a ha c hc rfl
        exact e4 a hc ha
      · simp [ih.vc, OpD.outs, List.flatMap_append]
      · simp [ih.oc]
      · intro m hm
        have := ih.outs m hm
        simp only [B.handles, names, List.map_append, List.mem_append, List.flatMap_append] at this ⊢
        tauto

theorem rep_output {eq : PyVal → PyVal → Bool} {b : B} (ih : Rep eq b) (v : Operand) (hv : v.own = true → b.holds v) :
    Rep eq (b.addOutput v).1 := by
  simp only [B.addOutput]
  split
  · rename_i hc
    refine ⟨ih.ops, ih.perm, ih.nodup, ih.vc, ih.oc, ?_, ih.tys⟩
    intro n hn
    rcases List.mem_append.mp hn with hn | hn
    · exact ih.outs n hn
    · simp only [List.mem_singleton] at hn
      subst hn
      exact List.mem_map.mpr ⟨_, (hv hc.1).2, rfl⟩
  · exact ih

theorem rep_reorder {eq : PyVal → PyVal → Bool} {b : B} (ih : Rep eq b) (l : List (String × Ty)) (hl : l.Perm b.inputs) :
    Rep eq { b with inputs := l } := by
  have hperm : (l ++ b.ops.flatMap OpD.outs).Perm b.handles := List.Perm.append_right _ hl
  exact ⟨ih.ops.mono (fun v hv => hl.mem_iff.mpr hv), ih.perm.trans hperm.symm, ih.nodup, ih.vc, ih.oc,
    fun n hn => (hperm.map Prod.fst).mem_iff.mpr (ih.outs n hn), fun v hv => ih.tys v (hl.mem_iff.mp hv)⟩

mutual
theorem Clean.rep {eq : PyVal → PyVal → Bool} {b : B} : Clean eq b → Rep eq b
  | .new => ⟨.nil, by simp [B.handles], by simp, by simp, by simp, by simp, by simp⟩
  | .input h n t ht => rep_input h.rep n t ht
  | .op h opcode ins tys attrs regs hins hty hattr hreg hok =>
    rep_op h.rep opcode ins tys attrs regs hins hty hattr (fun r hr => (hreg r hr).good) hok
  | .output h v hv => rep_output h.rep v hv
  | .reorder h l hl => rep_reorder h.rep l hl
theorem CleanG.good {eq : PyVal → PyVal → Bool} {g : Gr} : CleanG eq g → Good eq g
  | .mk h => h.rep.good
end

/-- **C05** A graph built without a failed `add_op` — any inputs, ops, nested regions, outputs — that can be serialised is
read back unchanged: same inputs, ops, names, types, attributes, operands, regions and outputs. -/
theorem graph_json_roundtrip_partial (eq : PyVal → PyVal → Bool) (g : Gr) (hg : CleanG eq g) (j : Json)
    (h : grToJson g = some j) : grFromJson eq j = some g :=
  hg.good j h _ (Nat.le_refl _)

/-- **C05** When no input is named `%0`, `%1`, … (the tracer uses `%arg0`, `%capture1`, …), `add_op` with given output types
never fails, so the restriction in `graph_json_roundtrip_partial` only excludes such input names. -/
theorem builder_op_never_fails (b : B) (h : Hist (fun n => ∀ k, n ≠ valueName k) b) (opcode : String)
    (ins : List Operand) (ts : List Ty) (attrs : List (String × PyVal)) (regs : List Gr) :
    (b.addOp opcode ins (some ts) attrs regs).2.isSome = true := by
  have hinv : ∀ n ∈ names b.values, (∀ k, n ≠ valueName k) ∨ ∃ k, k < b.vc ∧ n = valueName k := by
    clear ts ins attrs regs opcode
    have hext : ∀ (ts : List Ty) (b : B),
        (∀ n ∈ names b.values, (∀ k, n ≠ valueName k) ∨ ∃ k, k < b.vc ∧ n = valueName k) →
        ∀ n ∈ names (b.addValues ts).1.values,
          (∀ k, n ≠ valueName k) ∨ ∃ k, k < (b.addValues ts).1.vc ∧ n = valueName k := by
      intro ts
      induction ts with
      | nil => intro b hb; exact hb
      | cons t ts iht =>
        intro b hb
        simp only [B.addValues, B.addValue]
        have hstep : ∀ n ∈ names (b.values ++ [(valueName b.vc, t)]),
            (∀ k, n ≠ valueName k) ∨ ∃ k, k < b.vc + 1 ∧ n = valueName k := by
          intro n hn
          simp only [names, List.map_append, List.mem_append, List.map_cons, List.map_nil, List.mem_singleton] at hn
          rcases hn with hn | rfl
          · rcases hb n hn with h | ⟨k, hk, e⟩
            · exact .inl h
            · exact .inr ⟨k, by omega, e⟩
          · exact .inr ⟨b.vc, by omega, rfl⟩
        by_cases hc : valueName b.vc ∈ List.map Prod.fst b.values
        · simp only [hc, if_true]
          intro n hn
          rcases hb n hn with h | ⟨k, hk, e⟩
          · exact .inl h
          · exact .inr ⟨k, by omega, e⟩
        · simp only [hc, if_false]
          have := iht { b with vc := b.vc + 1, values := b.values ++ [(valueName b.vc, t)] } hstep
          split
          · rename_i heq; rw [heq] at this; exact this
          · rename_i heq; rw [heq] at this; exact this
    induction h with
    | new => simp
    | @input b h n t hn ih =>
      simp only [B.addInput, B.addValue]
      by_cases hc : n ∈ List.map Prod.fst b.values
      · simp only [hc, if_true]; exact ih
      · simp only [hc, if_false]
        intro m hm
        simp only [names, List.map_append, List.mem_append, List.map_cons, List.map_nil, List.mem_singleton] at hm
        rcases hm with hm | rfl
        · exact ih m hm
        · exact .inl hn
    | @op b h opcode ins tys attrs regs hins ih =>
      simp only [B.addOp]
      split
      · exact ih
      · rename_i ts hts
        have := hext ts b ih
        split
        · rename_i b' hb; rw [hb] at this; exact this
        · rename_i b' outs hb; rw [hb] at this; exact this
    | @output b h v hv ih =>
      simp only [B.addOutput]
      split <;> exact ih
    | reorder h l hl ih => exact ih
  have hgo : ∀ (ts : List Ty) (b : B),
      (∀ n ∈ names b.values, (∀ k, n ≠ valueName k) ∨ ∃ k, k < b.vc ∧ n = valueName k) →
      (b.addValues ts).2.isSome = true := by
    intro ts
    induction ts with
    | nil => intro b _; rfl
    | cons t ts iht =>
      intro b hb
      have hc : ¬ valueName b.vc ∈ List.map Prod.fst b.values := by
        intro hc
        rcases hb _ hc with h | ⟨k, hk, e⟩
        · exact h b.vc rfl
        · have := Base.append_repr_inj e; omega
      simp only [B.addValues, B.addValue, hc, if_false]
      have := iht { b with vc := b.vc + 1, values := b.values ++ [(valueName b.vc, t)] } (by
        intro n hn
        simp only [names, List.map_append, List.mem_append, List.map_cons, List.map_nil, List.mem_singleton] at hn
        rcases hn with hn | rfl
        · rcases hb n hn with h | ⟨k, hk, e⟩
          · exact .inl h
          · exact .inr ⟨k, by simp; omega, e⟩
        · exact .inr ⟨b.vc, by simp, rfl⟩)
      split
      · rename_i heq; rw [heq] at this; cases this
      · rfl
  have := hgo ts b hinv
  simp only [B.addOp, outTypes]
  split
  · rename_i heq; rw [heq] at this; cases this
  · rfl

/-- tracer names never look like generated names -/
example : ∀ k, "%arg0" ≠ valueName k := by
  intro k h
  have h1 : ("%arg0").toList = ("%" ++ k.repr).toList := by rw [h]; rfl
  rw [String.toList_append] at h1
  have h2 : 'a' ∈ k.repr.toList := by
    have : k.repr.toList = "arg0".toList := by
      have : "%arg0".toList = "%".toList ++ "arg0".toList := by decide
      rw [this] at h1
      exact (List.append_cancel_left h1).symm
    rw [this]; decide
  exact absurd (Base.repr_isDigit h2) (by decide)

/-- the history of the counterexample: an input called `%1`, an op with two results (fails half way), two more ops -/
def collideB : B :=
  let b0 := (({} : B).addInput "%1" (.float 32)).1
  let b1 := (b0.addOp "split" [⟨true, "%1", .float 32⟩] (some [.float 32, .float 32]) [] []).1
  let b2 := (b1.addOp "neg" [⟨true, "%1", .float 32⟩] (some [.float 32]) [] []).1
  (b2.addOp "neg" [⟨true, "%1", .float 32⟩] (some [.float 32]) [] []).1

/-- C05 is violated after a failed `add_op`: the graph serialises, but reading it back raises, because the rebuild
regenerates names from `%0` on and meets the input `%1`. -/
theorem graph_json_roundtrip_violated : Hist (fun _ => True) collideB ∧
    ∃ j, grToJson collideB.graph = some j ∧ ∀ eq, grFromJson eq j = none := by
  constructor
  · have hv : ∀ b : B, (("%1" : String), Ty.float 32) ∈ b.inputs → b.holds ⟨true, "%1", .float 32⟩ :=
      fun b hb => ⟨rfl, List.mem_append_left _ hb⟩
    refine .op (.op (.op (.input .new _ _ trivial) _ _ _ _ _ ?_) _ _ _ _ _ ?_) _ _ _ _ _ ?_ <;>
    · intro v hm
      simp only [List.mem_singleton] at hm
      subst hm
      exact hv _ (List.Mem.head _)
  · refine ⟨_, rfl, fun eq => rfl⟩

/-! ### Non-vacuity of `CleanG`: a conditional with a nested region -/

def exInner : B :=
  let b0 := (({} : B).addInput "%arg0" (.float 32)).1
  let b1 := (b0.addOp "neg" [⟨true, "%arg0", .float 32⟩] none [] []).1
  (b1.addOutput ⟨true, "%0", .float 32⟩).1

def exOuter : B :=
  let b0 := (({} : B).addInput "%arg0" (.float 32)).1
  let b1 := (b0.addOp "simp.uniform_cond" [⟨true, "%arg0", .float 32⟩] (some [.float 32, .int 64 true])
    [("verify", .bool true)] [exInner.graph, exInner.graph]).1
  (b1.addOutput ⟨true, "%1", .int 64 true⟩).1

theorem exInner_clean (eq : PyVal → PyVal → Bool) : Clean eq exInner := by
  refine .output (.op (.input .new _ _ (by decide)) _ _ _ _ _ ?_ (by simp) (by simp) (by simp) (by decide)) _ ?_
  · intro v hm
    simp only [List.mem_singleton] at hm
    subst hm
    exact ⟨rfl, List.Mem.head _⟩
  · intro _; exact ⟨rfl, .tail _ (.head _)⟩

theorem exOuter_clean (eq : PyVal → PyVal → Bool) : Clean eq exOuter := by
  refine .output (.op (.input .new _ _ (by decide)) _ _ _ _ _ ?_ ?_ ?_ ?_ (by decide)) _ ?_
  · intro v hm
    simp only [List.mem_singleton] at hm
    subst hm
    exact ⟨rfl, List.Mem.head _⟩
  · intro ts hts t ht
    simp only [Option.some.injEq] at hts
    subst hts
    revert t; decide
  · intro a ha
    simp only [List.mem_singleton] at ha
    subst ha; simp [PyVal.WF]
  · intro r hr
    simp only [List.mem_cons, List.not_mem_nil, or_false, or_self] at hr
    subst hr
    exact .mk (exInner_clean eq)
  · intro _; exact ⟨rfl, .tail _ (.tail _ (.head _))⟩

example (eq : PyVal → PyVal → Bool) : CleanG eq exOuter.graph ∧ (grToJson exOuter.graph).isSome = true :=
  ⟨.mk (exOuter_clean eq), rfl⟩

end Verif.Graph
