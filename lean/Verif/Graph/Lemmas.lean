import Verif.Graph.Model
import Verif.Serde.Lemmas
import Verif.Base.Names
import Mathlib.Data.List.Nodup
import Mathlib.Data.List.Perm.Basic
/-! Helper lemmas for the graph model. -/
namespace Verif.Graph
open Verif.Serde

/-- results of an op -/
def OpD.outs : OpD → List (String × Ty)
  | .mk _ _ o _ _ _ => o
/-- operands of an op -/
def OpD.ins : OpD → List Operand
  | .mk _ i _ _ _ _ => i

/-- all values defined by inputs and ops -/
def B.handles (b : B) : List (String × Ty) := b.inputs ++ b.ops.flatMap OpD.outs

abbrev names (l : List (String × Ty)) : List String := l.map Prod.fst

/-- what `add_value` for a list of types does -/
theorem addValues_some (b : B) (ts : List Ty) (b' : B) (outs : List (String × Ty)) (h : b.addValues ts = (b', some outs)) :
    b' = { b with values := b.values ++ outs, vc := b.vc + outs.length } ∧ outs.map Prod.snd = ts ∧
    names outs = (List.range' b.vc outs.length).map valueName ∧
    (∀ n ∈ names outs, n ∉ names b.values) ∧ (names outs).Nodup := by
  induction ts generalizing b b' outs with
  | nil => simp only [B.addValues] at h; cases h; simp
  | cons t ts ih =>
    simp only [B.addValues, B.addValue] at h
    split at h
    · rename_i heq
      split at heq
      · cases heq; cases h
      · cases heq
    · rename_i b1 v heq
      split at heq
      · cases heq
      · rename_i hnew
        cases heq
        split at h
        · cases h
        · rename_i b2 vs hrec
          cases h
          obtain ⟨h1, h2, h3, h4, h5⟩ := ih _ _ _ hrec
          refine ⟨?_, ?_, ?_, ?_, ?_⟩
          · rw [h1]; simp [Nat.add_assoc, Nat.add_comm 1]
          · simp [h2]
          · simp only [names] at h3
            simp only [List.map_cons, List.length_cons, List.range'_succ, h3, names]
          · intro n hn
            rcases List.mem_cons.mp hn with rfl | hn
            · exact hnew
            · have := h4 n hn
              simp only [List.map_append, List.mem_append, not_or] at this
              exact this.1
          · refine List.nodup_cons.mpr ⟨?_, h5⟩
            intro hc
            exact h4 _ hc (by simp)

/-- in any case only values and the counter change, and fresh values are appended -/
theorem addValues_any (b : B) (ts : List Ty) :
    ∃ ex vc', (b.addValues ts).1 = { b with values := b.values ++ ex, vc := vc' } ∧
      (∀ n ∈ names ex, n ∉ names b.values) ∧ (names ex).Nodup := by
  induction ts generalizing b with
  | nil => exact ⟨[], b.vc, by simp [B.addValues], by simp, by simp⟩
  | cons t ts ih =>
    simp only [B.addValues, B.addValue]
    by_cases hc : valueName b.vc ∈ List.map Prod.fst b.values
    · simp only [hc, if_true]
      exact ⟨[], b.vc + 1, by simp, by simp, by simp⟩
    · simp only [hc, if_false]
      obtain ⟨ex, vc', h1, h2, h3⟩ := ih { b with vc := b.vc + 1, values := b.values ++ [(valueName b.vc, t)] }
      refine ⟨(valueName b.vc, t) :: ex, vc', ?_, ?_, ?_⟩
      · split
        · rename_i h; rw [h] at h1; rw [h1]; simp
        · rename_i h; rw [h] at h1; rw [h1]; simp
      · intro n hn
        rcases List.mem_cons.mp hn with rfl | hn
        · exact hc
        · have := h2 n hn
          simp only [List.map_append, List.mem_append, not_or, names] at this
          exact this.1
      · refine List.nodup_cons.mpr ⟨?_, h3⟩
        intro hcc
        exact h2 _ hcc (by simp [names])

/-- replaying `add_value` on fresh contiguous names -/
theorem addValues_replay (b : B) (outs : List (String × Ty))
    (h3 : names outs = (List.range' b.vc outs.length).map valueName)
    (h4 : ∀ n ∈ names outs, n ∉ names b.values) (h5 : (names outs).Nodup) :
    b.addValues (outs.map Prod.snd) = ({ b with values := b.values ++ outs, vc := b.vc + outs.length }, some outs) := by
  induction outs generalizing b with
  | nil => simp [B.addValues]
  | cons o outs ih =>
    obtain ⟨n, t⟩ := o
    simp only [names, List.map_cons, List.length_cons, List.range'_succ, List.cons.injEq] at h3
    obtain ⟨hn, h3⟩ := h3
    subst hn
    have hfresh : ¬ valueName b.vc ∈ List.map Prod.fst b.values := h4 _ (by simp [names])
    simp only [List.map_cons, B.addValues, B.addValue, hfresh, if_false]
    simp only [names, List.map_cons, List.nodup_cons] at h5
    rw [ih { b with vc := b.vc + 1, values := b.values ++ [(valueName b.vc, t)] } h3 ?_ h5.2]
    · simp [Nat.add_assoc, Nat.add_comm 1]
    · intro m hm
      simp only [names, List.map_append, List.mem_append, not_or, List.map_cons, List.map_nil, List.mem_singleton]
      refine ⟨h4 m (by simp only [names, List.map_cons, List.mem_cons]; exact .inr hm), ?_⟩
      rintro rfl
      exact h5.1 hm

theorem getVal_of_mem (vs : List (String × Ty)) (h : (names vs).Nodup) (n : String) (t : Ty) (hm : (n, t) ∈ vs) :
    getVal n vs = some t := by
  induction vs with
  | nil => simp at hm
  | cons v vs ih =>
    obtain ⟨k, u⟩ := v
    simp only [names, List.map_cons, List.nodup_cons] at h
    simp only [getVal]
    rcases List.mem_cons.mp hm with e | hm
    · cases e; simp
    · have hne : k ≠ n := by
        rintro rfl
        exact h.1 (List.mem_map.mpr ⟨(k, t), hm, rfl⟩)
      simp only [hne, if_false]
      exact ih h.2 hm

theorem renameOuts_id (outs : List (String × Ty)) (values : List (String × Ty)) :
    renameOuts (outs.map fun v => ⟨true, v.1, v.2⟩) (outs.map Prod.fst) values = some (values, outs) := by
  induction outs with
  | nil => simp [renameOuts]
  | cons o outs ih => simp [renameOuts, ih]

theorem setLast_append (pre : List OpD) (o : OpD) (outs : List (String × Ty)) (name : String) :
    setLast outs name (pre ++ [o]) = pre ++ setLast outs name [o] := by
  induction pre with
  | nil => rfl
  | cons p pre ih =>
    cases h : pre ++ [o] with
    | nil => simp at h
    | cons q qs => 
      rw [List.cons_append, h]
      simp only [setLast]
      rw [← h, ih]; simp

theorem opsToJson_snoc (ops : List OpD) (op : OpD) (js : List Json) (h : opsToJson (ops ++ [op]) = some js) :
    ∃ js0 j, opsToJson ops = some js0 ∧ opToJson op = some j ∧ js = js0 ++ [j] := by
  induction ops generalizing js with
  | nil =>
    simp only [List.nil_append, opsToJson] at h
    split at h; · cases h
    rename_i j hj
    cases h
    exact ⟨[], j, rfl, hj, rfl⟩
  | cons o ops ih =>
    simp only [List.cons_append, opsToJson] at h ⊢
    split at h; · cases h
    rename_i j hj
    split at h; · cases h
    rename_i js' hjs'
    cases h
    obtain ⟨js0, k, h1, h2, h3⟩ := ih js' hjs'
    subst h3
    exact ⟨j :: js0, k, by simp [hj, h1], h2, rfl⟩

theorem opsFromJson_snoc (eq : PyVal → PyVal → Bool) (rec : Json → Option Gr) (js : List Json) (j : Json) (b : B) :
    opsFromJson eq rec (js ++ [j]) b = match opsFromJson eq rec js b with
      | none => none
      | some b' => opFromJson eq rec b' j := by
  induction js generalizing b with
  | nil => simp only [List.nil_append, opsFromJson]; split <;> simp_all
  | cons k js ih =>
    simp only [List.cons_append, opsFromJson]
    cases opFromJson eq rec b k with
    | none => rfl
    | some b' => exact ih b'

theorem depthList_mem {j : Json} {js : List Json} (h : j ∈ js) : j.depth ≤ depthList js := by
  induction js with
  | nil => simp at h
  | cons k js ih =>
    simp only [depthList]
    rcases List.mem_cons.mp h with rfl | h
    · omega
    · have := ih h; omega

theorem depthFields_mem {k : String} {j : Json} {fs : List (String × Json)} (h : (k, j) ∈ fs) :
    j.depth ≤ depthFields fs := by
  induction fs with
  | nil => simp at h
  | cons f fs ih =>
    obtain ⟨k', j'⟩ := f
    simp only [depthFields]
    rcases List.mem_cons.mp h with e | h
    · cases e; omega
    · have := ih h; omega

theorem valsFromJson_toJson (vs : List (String × Ty)) (hv : ∀ v ∈ vs, v.2.valid = true) (js : List Json)
    (h : mapOpt valToJson vs = some js) : mapOpt valFromJson js = some vs := by
  induction vs generalizing js with
  | nil => simp only [mapOpt] at h; cases h; rfl
  | cons v vs ih =>
    obtain ⟨n, t⟩ := v
    simp only [mapOpt, valToJson] at h
    cases ht : tyToJson t with
    | none => simp [ht] at h
    | some j =>
      simp only [ht] at h
      cases hr : mapOpt valToJson vs with
      | none => simp [hr] at h
      | some js' =>
        simp only [hr, Option.some.injEq] at h
        subst h
        have h1 := ih (fun v hm => hv v (by simp [hm])) js' hr
        have h2 : tyFromJson j = some t := tyFromJsonF_toJson t (hv (n, t) (by simp)) j ht _ (Nat.le_refl _)
        simp [mapOpt, valFromJson, getStr, lookup, h2, h1]

theorem attrsFromJson_toJson (eq : PyVal → PyVal → Bool) (as : List (String × PyVal)) (hv : ∀ a ∈ as, a.2.WF eq)
    (js : List (String × Json)) (h : attrsToJson as = some js) : mapFields (fromJson eq) js = some as := by
  induction as generalizing js with
  | nil => simp only [attrsToJson, mapOpt] at h; cases h; rfl
  | cons a as ih =>
    obtain ⟨k, v⟩ := a
    simp only [attrsToJson, mapOpt] at h
    cases ht : toJson v with
    | none => simp [ht] at h
    | some j =>
      simp only [ht] at h
      cases hr : attrsToJson as with
      | none => simp only [attrsToJson] at hr; simp [hr] at h
      | some js' =>
        have hr' := hr
        simp only [attrsToJson] at hr
        simp only [hr, Option.some.injEq] at h
        subst h
        have h1 := ih (fun v hm => hv v (by simp [hm])) js' hr'
        have h2 : fromJson eq j = some v := fromJsonF_toJson eq v (hv (k, v) (by simp)) j ht _ (Nat.le_refl _)
        simp [mapFields, h2, h1]

/-- the graph is recovered from its JSON form -/
def Good (eq : PyVal → PyVal → Bool) (g : Gr) : Prop :=
  ∀ j, grToJson g = some j → ∀ n, j.depth ≤ n → grFromJsonF eq n j = some g

theorem regsFromJson_toJson (eq : PyVal → PyVal → Bool) (rs : List Gr) (hg : ∀ r ∈ rs, Good eq r) (js : List Json)
    (h : regsToJson rs = some js) (n : Nat) (hn : depthList js ≤ n) : mapOpt (grFromJsonF eq n) js = some rs := by
  induction rs generalizing js with
  | nil => simp only [regsToJson] at h; cases h; rfl
  | cons r rs ih =>
    simp only [regsToJson] at h
    split at h; · cases h
    rename_i j hj
    split at h; · cases h
    rename_i js' hjs
    cases h
    simp only [depthList] at hn
    have h1 := ih (fun v hm => hg v (by simp [hm])) js' hjs (by omega)
    have h2 := hg r (by simp) j hj n (by omega)
    simp [mapOpt, h2, h1]

/-- ops as the builder leaves them: contiguous result names, operands defined before -/
inductive OpsRep (eq : PyVal → PyVal → Bool) (I : List (String × Ty)) : List OpD → Prop
  | nil : OpsRep eq I []
  | snoc {ops : List OpD} {opcode : String} {ins : List Operand} {outs : List (String × Ty)}
      {attrs : List (String × PyVal)} {regs : List Gr} (h : OpsRep eq I ops)
      (hins : ∀ v ∈ ins, v.own = true ∧ (v.name, v.ty) ∈ I ++ ops.flatMap OpD.outs)
      (hnames : names outs = (List.range' (ops.flatMap OpD.outs).length outs.length).map valueName)
      (hty : ∀ v ∈ outs, v.2.valid = true) (hattr : ∀ a ∈ attrs, a.2.WF eq) (hreg : ∀ r ∈ regs, Good eq r) :
      OpsRep eq I (ops ++ [.mk opcode ins outs attrs regs (opName ops.length)])

theorem OpsRep.mono {eq : PyVal → PyVal → Bool} {I I' : List (String × Ty)} {ops : List OpD} (h : OpsRep eq I ops)
    (hs : ∀ v ∈ I, v ∈ I') : OpsRep eq I' ops := by
  induction h with
  | nil => exact .nil
  | snoc _ hins hn ht ha hr ih =>
    refine .snoc ih (fun v hv => ⟨(hins v hv).1, ?_⟩) hn ht ha hr
    rcases List.mem_append.mp (hins v hv).2 with h | h
    · exact List.mem_append_left _ (hs _ h)
    · exact List.mem_append_right _ h

/-- state of the rebuild after the inputs `I` and the ops `ops` -/
def rebuilt (I : List (String × Ty)) (ops : List OpD) : B where
  inputs := I
  ops := ops
  outputs := []
  values := I ++ ops.flatMap OpD.outs
  vc := (ops.flatMap OpD.outs).length
  oc := ops.length

theorem addInputs_aux (I J : List (String × Ty)) (h : (names (I ++ J)).Nodup) :
    addInputs J (rebuilt I []) = some (rebuilt (I ++ J) []) := by
  induction J generalizing I with
  | nil => simp [addInputs]
  | cons v J ih =>
    obtain ⟨n, t⟩ := v
    have hfresh : ¬ n ∈ List.map Prod.fst (rebuilt I []).values := by
      simp only [rebuilt, List.flatMap_nil, List.append_nil]
      simp only [names, List.map_append, List.map_cons, List.nodup_append] at h
      intro hc
      exact h.2.2 n hc n (by simp) rfl
    simp only [addInputs, B.addInput, B.addValue, hfresh, if_false]
    have := ih (I ++ [(n, t)]) (by simpa using h)
    simp only [List.append_assoc, List.cons_append, List.nil_append] at this
    rw [← this]
    simp [rebuilt]

theorem resolveNames_ok (values : List (String × Ty)) (h : (names values).Nodup) (ins : List Operand)
    (hi : ∀ v ∈ ins, v.own = true ∧ (v.name, v.ty) ∈ values) :
    resolveNames values (ins.map Operand.name) = some ins := by
  induction ins with
  | nil => rfl
  | cons v ins ih =>
    have h1 := ih (fun w hw => hi w (by simp [hw]))
    obtain ⟨ho, hm⟩ := hi v (by simp)
    have h2 := getVal_of_mem values h _ _ hm
    simp only [resolveNames] at h1
    simp only [resolveNames, List.map_cons, mapOpt, h2, h1]
    obtain ⟨o, n, t⟩ := v
    simp only at ho
    subst ho; rfl

theorem opFromJson_step (eq : PyVal → PyVal → Bool) (I : List (String × Ty)) (ops : List OpD) (opcode : String)
    (ins : List Operand) (outs : List (String × Ty)) (attrs : List (String × PyVal)) (regs : List Gr)
    (hins : ∀ v ∈ ins, v.own = true ∧ (v.name, v.ty) ∈ I ++ ops.flatMap OpD.outs)
    (hnames : names outs = (List.range' (ops.flatMap OpD.outs).length outs.length).map valueName)
    (hty : ∀ v ∈ outs, v.2.valid = true) (hattr : ∀ a ∈ attrs, a.2.WF eq) (hreg : ∀ r ∈ regs, Good eq r)
    (hnd : (names (I ++ ops.flatMap OpD.outs ++ outs)).Nodup) (j : Json)
    (hj : opToJson (.mk opcode ins outs attrs regs (opName ops.length)) = some j) (n : Nat) (hd : j.depth ≤ n) :
    opFromJson eq (grFromJsonF eq n) (rebuilt I ops) j
      = some (rebuilt I (ops ++ [.mk opcode ins outs attrs regs (opName ops.length)])) := by
  simp only [opToJson] at hj
  split at hj; · cases hj
  rename_i jo hjo
  split at hj; · cases hj
  rename_i ja hja
  split at hj; · cases hj
  rename_i jr hjr
  simp only [Option.some.injEq] at hj
  subst hj
  have hdr : depthList jr ≤ n := by
    have : (Json.arr jr).depth ≤ n := by
      refine Nat.le_trans ?_ hd
      simp only [Json.depth, depthFields]
      omega
    simp only [Json.depth] at this; omega
  have h1 : mapOpt strFromJson (ins.map fun v => Json.str v.name) = some (ins.map Operand.name) := by
    clear hins hd
    induction ins with
    | nil => rfl
    | cons v ins ih => simp [mapOpt, strFromJson, ih]
  have h2 := valsFromJson_toJson outs hty jo hjo
  have h3 := attrsFromJson_toJson eq attrs hattr ja hja
  have h4 := regsFromJson_toJson eq regs hreg jr hjr n hdr
  have hnd' : (names (I ++ ops.flatMap OpD.outs)).Nodup := by
    simp only [names, List.map_append] at hnd ⊢
    exact (List.nodup_append.mp hnd).1
  have h5 := resolveNames_ok (rebuilt I ops).values hnd' ins hins
  have h6 := addValues_replay (rebuilt I ops) outs hnames (by
    intro m hm hc
    have : (names (I ++ ops.flatMap OpD.outs) ++ names outs).Nodup := by
      simpa only [names, List.map_append] using hnd
    exact (List.nodup_append.mp this).2.2 m hc m hm rfl) (by
    have : (names (I ++ ops.flatMap OpD.outs) ++ names outs).Nodup := by
      simpa only [names, List.map_append] using hnd
    exact (List.nodup_append.mp this).2.1)
  have h7 := renameOuts_id outs ((rebuilt I ops).values ++ outs)
  simp only [opFromJson, getStr, getArr, getObjD, getArrD, getName, lookup]
  simp only [String.reduceEq, if_false, if_true, h1, h2, h3, h4, h5, B.addOp, outTypes, h6, h7,
    Option.some.injEq]
  simp only [rebuilt, setLast_append, setLast, List.flatMap_append, List.flatMap_cons, List.flatMap_nil,
    List.append_nil, OpD.outs, List.length_append, List.length_cons, List.length_nil, List.append_assoc, ite_self]

theorem opsFromJson_rebuilt (eq : PyVal → PyVal → Bool) (I : List (String × Ty)) (ops : List OpD)
    (h : OpsRep eq I ops) (hnd : (names (I ++ ops.flatMap OpD.outs)).Nodup) (js : List Json)
    (hj : opsToJson ops = some js) (n : Nat) (hd : depthList js ≤ n) :
    opsFromJson eq (grFromJsonF eq n) js (rebuilt I []) = some (rebuilt I ops) := by
  induction h generalizing js with
  | nil => simp only [opsToJson] at hj; cases hj; rfl
  | @snoc ops opcode ins outs attrs regs h hins hnames hty hattr hreg ih =>
    obtain ⟨js0, j, h1, h2, rfl⟩ := opsToJson_snoc _ _ _ hj
    rw [opsFromJson_snoc]
    have hda : ∀ k ∈ js0 ++ [j], k.depth ≤ n := fun k hk => Nat.le_trans (depthList_mem hk) hd
    have hd0 : depthList js0 ≤ n := by
      clear hj h1
      induction js0 with
      | nil => simp [depthList]
      | cons k js0 ihk =>
        simp only [List.cons_append, depthList] at hd
        have := ihk (by omega) (fun k hk => hda k (by simp at hk ⊢; tauto))
        simp only [depthList]; omega
    have hnd2 : (names (I ++ ops.flatMap OpD.outs ++ outs)).Nodup := by
      simpa [OpD.outs, List.append_assoc] using hnd
    have hnd1 : (names (I ++ ops.flatMap OpD.outs)).Nodup := by
      simp only [names, List.map_append] at hnd2 ⊢
      exact (List.nodup_append.mp hnd2).1
    rw [ih hnd1 js0 h1 hd0]
    exact opFromJson_step eq I ops opcode ins outs attrs regs hins hnames hty hattr hreg hnd2 j h2 n
      (hda j (by simp))

theorem addOutputs_ok (outs : List String) (b : B) (h : ∀ n ∈ outs, n ∈ names b.values) :
    addOutputs outs b = some { b with outputs := b.outputs ++ outs } := by
  induction outs generalizing b with
  | nil => simp [addOutputs]
  | cons n outs ih =>
    have hn : n ∈ names b.values := h n (by simp)
    have hget : ∃ t, getVal n b.values = some t := by
      clear ih h
      revert hn
      generalize b.values = vs
      intro hn
      induction vs with
      | nil => simp at hn
      | cons v vs ih =>
        obtain ⟨k, t⟩ := v
        simp only [getVal]
        by_cases hk : k = n
        · exact ⟨t, by simp [hk]⟩
        · simp only [hk, if_false]
          apply ih
          simp only [names, List.map_cons, List.mem_cons] at hn
          rcases hn with e | hn
          · exact absurd e.symm hk
          · exact hn
    obtain ⟨t, ht⟩ := hget
    simp only [addOutputs, ht, B.addOutput, true_and]
    have hn' : n ∈ List.map Prod.fst b.values := hn
    simp only [hn', if_true]
    rw [ih { b with outputs := b.outputs ++ [n] } (fun m hm => h m (by simp [hm]))]
    simp

/-- what a collision-free build leaves behind -/
structure Rep (eq : PyVal → PyVal → Bool) (b : B) : Prop where
  ops : OpsRep eq b.inputs b.ops
  perm : b.values.Perm b.handles
  nodup : (names b.values).Nodup
  vc : b.vc = (b.ops.flatMap OpD.outs).length
  oc : b.oc = b.ops.length
  outs : ∀ n ∈ b.outputs, n ∈ names b.handles
  tys : ∀ v ∈ b.inputs, v.2.valid = true

theorem Rep.good {eq : PyVal → PyVal → Bool} {b : B} (h : Rep eq b) : Good eq b.graph := by
  intro j hj n hn
  simp only [B.graph, grToJson] at hj
  split at hj; · cases hj
  rename_i ji hji
  split at hj; · cases hj
  rename_i jo hjo
  simp only [withKind, setKey, String.reduceEq, if_false, Option.some.injEq] at hj
  subst hj
  obtain ⟨m, rfl⟩ := ne_zero_of_depth hn
  have hd : depthList jo ≤ m := by
    simp only [Json.depth, depthFields] at hn; omega
  have hnd : (names b.handles).Nodup := (h.perm.map Prod.fst).nodup_iff.mp h.nodup
  have hndI : (names b.inputs).Nodup := by
    simp only [names, B.handles, List.map_append] at hnd
    exact (List.nodup_append.mp hnd).1
  have h1 := valsFromJson_toJson b.inputs h.tys ji hji
  have h2 : mapOpt strFromJson (b.outputs.map Json.str) = some b.outputs := by
    generalize b.outputs = l
    induction l with
    | nil => rfl
    | cons v l ih => simp [mapOpt, strFromJson, ih]
  have h3 := addInputs_aux [] b.inputs (by simpa using hndI)
  have h4 := opsFromJson_rebuilt eq b.inputs b.ops h.ops hnd jo hjo m hd
  have h5 := addOutputs_ok b.outputs (rebuilt b.inputs b.ops) h.outs
  have h0 : rebuilt [] [] = ({} : B) := rfl
  rw [h0, List.nil_append] at h3
  simp only [grFromJsonF, lookup, getArr, String.reduceEq, if_false, if_true, h1, h2, h3, h4, h5, Option.map_some]
  simp [rebuilt, B.graph]

end Verif.Graph
