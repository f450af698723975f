import Verif.Graph.Props
/-!
# C05 — reading graphs whose values have names of their own

`Graph.from_json` first adds an operation with generated result names (`%k`) and then renames the results
(edsl/graph.py:437-455).  For graphs made by the builder the two names agree; here the renaming itself is at work: graphs
with any distinct names that are not of the generated form (a hand-written or externally produced artifact).
-/
namespace Verif.Graph
open Verif.Serde

/-- a finished operation list in which every value has a name of its own: operands are values defined before, no name has
the generated form, types, attributes and regions can be written and read -/
inductive Foreign (eq : PyVal → PyVal → Bool) (I : List (String × Ty)) : List OpD → Prop
  | nil : Foreign eq I []
  | snoc {ops : List OpD} {opcode : String} {ins : List Operand} {outs : List (String × Ty)}
      {attrs : List (String × PyVal)} {regs : List Gr} {name : String} (h : Foreign eq I ops)
      (hins : ∀ v ∈ ins, v.own = true ∧ (v.name, v.ty) ∈ I ++ ops.flatMap OpD.outs)
      (hnames : ∀ v ∈ outs, ∀ k, v.1 ≠ valueName k) (hname : name ≠ "")
      (hty : ∀ v ∈ outs, v.2.valid = true) (hattr : ∀ a ∈ attrs, a.2.WF eq) (hreg : ∀ r ∈ regs, Good eq r) :
      Foreign eq I (ops ++ [.mk opcode ins outs attrs regs name])

theorem delVal_absent {k : String} {vs : List (String × Ty)} (h : k ∉ names vs) : delVal k vs = vs := by
  refine List.filter_eq_self.mpr fun p hp => ?_
  simp only [ne_eq, decide_not, Bool.not_eq_eq_eq_not, Bool.not_true, decide_eq_false_iff_not]
  rintro rfl
  exact h (List.mem_map_of_mem hp)

theorem setVal_absent {k : String} {t : Ty} {vs : List (String × Ty)} (h : k ∉ names vs) : setVal k t vs = vs ++ [(k, t)] := by
  induction vs with
  | nil => rfl
  | cons v vs ih =>
    obtain ⟨k', t'⟩ := v
    simp only [names, List.map_cons, List.mem_cons, not_or] at h
    simp only [setVal]
    rw [if_neg (fun e => h.1 e.symm), ih h.2]
    rfl

/-- renaming freshly added results to other fresh names: the dict of values then holds exactly the new names -/
theorem renameOuts_fresh (gen outs : List (String × Ty)) (hty : gen.map Prod.snd = outs.map Prod.snd)
    (V done : List (String × Ty))
    (hn : (names (V ++ gen ++ done)).Nodup) (ho : (names (V ++ done ++ outs)).Nodup)
    (hd : ∀ n ∈ names outs, n ∉ names gen) :
    renameOuts (gen.map fun v => ⟨true, v.1, v.2⟩) (outs.map Prod.fst) (V ++ gen ++ done)
      = some (V ++ done ++ outs, outs) := by
  induction gen generalizing outs done with
  | nil =>
    cases outs with
    | nil => simp [renameOuts]
    | cons o outs => simp at hty
  | cons g gen ih =>
    obtain ⟨g, t⟩ := g
    cases outs with
    | nil => simp at hty
    | cons o outs =>
      obtain ⟨n, t'⟩ := o
      simp only [List.map_cons, List.cons.injEq] at hty
      obtain ⟨rfl, hty⟩ := hty
      have hgn : g ≠ n := by
        rintro rfl
        exact hd g (by simp [names]) (by simp [names])
      have hV : names (V ++ (g, t) :: gen ++ done) = names V ++ g :: (names gen ++ names done) := by simp [names]
      rw [hV] at hn
      have h1 := List.nodup_append.mp hn
      have h2 := List.nodup_cons.mp h1.2.1
      have hgV : g ∉ names V := fun hc => h1.2.2 g hc g (by simp) rfl
      have hdel : delVal g (V ++ (g, t) :: gen ++ done) = V ++ gen ++ done := by
        have e : V ++ (g, t) :: gen ++ done = V ++ ((g, t) :: (gen ++ done)) := by simp
        rw [e]
        unfold delVal
        rw [List.filter_append, List.filter_cons_of_neg (by simp)]
        have a := delVal_absent hgV
        have b := delVal_absent (k := g) (vs := gen ++ done) (by simpa [names] using h2.1)
        simp only [delVal] at a b
        rw [a, b, List.append_assoc]
      have hOut : names (V ++ done ++ (n, t) :: outs) = names V ++ (names done ++ n :: names outs) := by simp [names]
      rw [hOut] at ho
      have o1 := List.nodup_append.mp ho
      have o2 := List.nodup_append.mp o1.2.1
      have hnfresh : n ∉ names (V ++ gen ++ done) := by
        simp only [names, List.map_append, List.mem_append, not_or]
        refine ⟨⟨fun hc => o1.2.2 n hc n (by simp) rfl, fun hc => hd n (by simp [names]) ?_⟩, fun hc => o2.2.2 n hc n (by simp) rfl⟩
        simp only [names, List.map_cons, List.mem_cons]
        exact .inr hc
      have hmem : g ∈ List.map Prod.fst (V ++ (g, t) :: gen ++ done) := by simp
      simp only [List.map_cons, renameOuts, hgn, if_false, hmem, if_true, hdel, setVal_absent hnfresh]
      have hre : V ++ gen ++ done ++ [(n, t)] = V ++ gen ++ (done ++ [(n, t)]) := by simp
      rw [hre, ih outs hty (done ++ [(n, t)]) ?_ ?_ ?_]
      · simp
      · have : names (V ++ gen ++ (done ++ [(n, t)])) = names (V ++ gen ++ done) ++ [n] := by simp [names]
        rw [this]
        refine List.nodup_append.mpr ⟨?_, by simp, ?_⟩
        · simp only [names, List.map_append, List.append_assoc] at *
          refine List.nodup_append.mpr ⟨h1.1, h2.2, fun a ha b hb => h1.2.2 a ha b (List.mem_cons_of_mem _ hb)⟩
        · rintro a ha b hb rfl
          simp only [List.mem_singleton] at hb
          subst hb
          exact hnfresh ha
      · have : V ++ (done ++ [(n, t)]) ++ outs = V ++ done ++ (n, t) :: outs := by simp
        rw [this, hOut]; exact ho
      · intro m hm hc
        exact hd m (by simp only [names, List.map_cons, List.mem_cons]; exact .inr hm)
          (by simp only [names, List.map_cons, List.mem_cons]; exact .inr hc)

theorem valueName_inj {a b : Nat} (h : valueName a = valueName b) : a = b := by
  simp only [valueName] at h
  exact Verif.Base.append_repr_inj h

theorem opFromJson_rename (eq : PyVal → PyVal → Bool) (I : List (String × Ty)) (ops : List OpD) (opcode : String)
    (ins : List Operand) (outs : List (String × Ty)) (attrs : List (String × PyVal)) (regs : List Gr) (name : String)
    (hins : ∀ v ∈ ins, v.own = true ∧ (v.name, v.ty) ∈ I ++ ops.flatMap OpD.outs)
    (hnames : ∀ v ∈ outs, ∀ k, v.1 ≠ valueName k) (hold : ∀ v ∈ I ++ ops.flatMap OpD.outs, ∀ k, v.1 ≠ valueName k)
    (hname : name ≠ "")
    (hty : ∀ v ∈ outs, v.2.valid = true) (hattr : ∀ a ∈ attrs, a.2.WF eq) (hreg : ∀ r ∈ regs, Good eq r)
    (hnd : (names (I ++ ops.flatMap OpD.outs ++ outs)).Nodup) (j : Json)
    (hj : opToJson (.mk opcode ins outs attrs regs name) = some j) (n : Nat) (hd : j.depth ≤ n) :
    opFromJson eq (grFromJsonF eq n) (rebuilt I ops) j
      = some (rebuilt I (ops ++ [.mk opcode ins outs attrs regs name])) := by
  simp only [opToJson] at hj
  split at hj; · cases hj
  rename_i jo hjo
  split at hj; · cases hj
  rename_i ja hja
  split at hj; · cases hj
  rename_i jr hjr
  simp only [Option.some.injEq] at hj
  subst hj
  have hdr : depthList jr ≤ n := by
    have : (Json.arr jr).depth ≤ n := by
      refine Nat.le_trans ?_ hd
      simp only [Json.depth, depthFields]
      omega
    simp only [Json.depth] at this; omega
  have h1 : mapOpt strFromJson (ins.map fun v => Json.str v.name) = some (ins.map Operand.name) := by
    clear hins hd
    induction ins with
    | nil => rfl
    | cons v ins ih => simp [mapOpt, strFromJson, ih]
  have h2 := valsFromJson_toJson outs hty jo hjo
  have h3 := attrsFromJson_toJson eq attrs hattr ja hja
  have h4 := regsFromJson_toJson eq regs hreg jr hjr n hdr
  have hnd' : (names (I ++ ops.flatMap OpD.outs)).Nodup := by
    simp only [names, List.map_append] at hnd ⊢
    exact (List.nodup_append.mp hnd).1
  have h5 := resolveNames_ok (rebuilt I ops).values hnd' ins hins
  -- the generated results
  obtain ⟨gen, hgen⟩ : ∃ gen, gen = ((List.range' (rebuilt I ops).vc outs.length).map valueName).zip (outs.map Prod.snd) := ⟨_, rfl⟩
  have hgl : gen.length = outs.length := by simp [hgen]
  have hgf : names gen = (List.range' (rebuilt I ops).vc gen.length).map valueName := by
    rw [hgl, hgen, names]
    exact List.map_fst_zip (by simp)
  have hgs : gen.map Prod.snd = outs.map Prod.snd := by
    rw [hgen]
    exact List.map_snd_zip (by simp)
  have hgk : ∀ m ∈ names gen, ∃ k, m = valueName k := by
    intro m hm
    rw [hgf] at hm
    obtain ⟨k, -, rfl⟩ := List.mem_map.mp hm
    exact ⟨k, rfl⟩
  have hgnd : (names gen).Nodup := by
    rw [hgf]
    exact List.Pairwise.map _ (fun a b hab e => hab (valueName_inj e)) List.nodup_range'
  have hgfresh : ∀ m ∈ names gen, m ∉ names (rebuilt I ops).values := by
    intro m hm hc
    obtain ⟨k, rfl⟩ := hgk m hm
    obtain ⟨v, hv, e⟩ := List.mem_map.mp hc
    exact hold v hv k e
  have h6 := addValues_replay (rebuilt I ops) gen hgf hgfresh hgnd
  rw [hgs] at h6
  have h7 := renameOuts_fresh gen outs hgs (rebuilt I ops).values [] (by
      simp only [List.append_nil, names, List.map_append]
      refine List.nodup_append.mpr ⟨hnd', hgnd, fun a ha b hb e => ?_⟩
      subst e
      exact hgfresh a hb ha) (by simpa [rebuilt] using hnd) (by
      intro m hm hc
      obtain ⟨k, rfl⟩ := hgk m hc
      obtain ⟨v, hv, e⟩ := List.mem_map.mp hm
      exact hnames v hv k e)
  simp only [List.append_nil] at h7
  simp only [opFromJson, getStr, getArr, getObjD, getArrD, getName, lookup]
  simp only [String.reduceEq, if_false, if_true, h1, h2, h3, h4, h5, B.addOp, outTypes, h6, h7,
    Option.some.injEq]
  simp only [rebuilt, setLast_append, setLast, List.flatMap_append, List.flatMap_cons, List.flatMap_nil,
    List.append_nil, OpD.outs, List.length_append, List.length_cons, List.length_nil, List.append_assoc, if_neg hname, hgl]

theorem Foreign.names {eq : PyVal → PyVal → Bool} {I : List (String × Ty)} {ops : List OpD} (h : Foreign eq I ops) :
    ∀ v ∈ ops.flatMap OpD.outs, ∀ k, v.1 ≠ valueName k := by
  induction h with
  | nil => simp
  | snoc _ _ hn _ _ _ _ ih =>
    intro v hv
    simp only [List.flatMap_append, List.mem_append, List.flatMap_cons, List.flatMap_nil, List.append_nil, OpD.outs] at hv
    rcases hv with hv | hv
    · exact ih v hv
    · exact hn v hv

theorem opsFromJson_foreign (eq : PyVal → PyVal → Bool) (I : List (String × Ty)) (ops : List OpD)
    (h : Foreign eq I ops) (hI : ∀ v ∈ I, ∀ k, v.1 ≠ valueName k) (hnd : (Graph.names (I ++ ops.flatMap OpD.outs)).Nodup)
    (js : List Json) (hj : opsToJson ops = some js) (n : Nat) (hd : depthList js ≤ n) :
    opsFromJson eq (grFromJsonF eq n) js (rebuilt I []) = some (rebuilt I ops) := by
  induction h generalizing js with
  | nil => simp only [opsToJson] at hj; cases hj; rfl
  | @snoc ops opcode ins outs attrs regs name h hins hnames hname hty hattr hreg ih =>
    obtain ⟨js0, j, h1, h2, rfl⟩ := opsToJson_snoc _ _ _ hj
    rw [opsFromJson_snoc]
    have hda : ∀ k ∈ js0 ++ [j], k.depth ≤ n := fun k hk => Nat.le_trans (depthList_mem hk) hd
    have hd0 : depthList js0 ≤ n := by
      clear hj h1
      induction js0 with
      | nil => simp [depthList]
      | cons k js0 ihk =>
        simp only [List.cons_append, depthList] at hd
        have := ihk (by omega) (fun k hk => hda k (by simp at hk ⊢; tauto))
        simp only [depthList]; omega
    have hnd2 : (Graph.names (I ++ ops.flatMap OpD.outs ++ outs)).Nodup := by
      simpa [OpD.outs, List.append_assoc] using hnd
    have hnd1 : (Graph.names (I ++ ops.flatMap OpD.outs)).Nodup := by
      simp only [Graph.names, List.map_append] at hnd2 ⊢
      exact (List.nodup_append.mp hnd2).1
    rw [ih hnd1 js0 h1 hd0]
    refine opFromJson_rename eq I ops opcode ins outs attrs regs name hins hnames ?_ hname hty hattr hreg hnd2 j h2 n
      (hda j (by simp))
    intro v hv
    rcases List.mem_append.mp hv with hv | hv
    · exact hI v hv
    · exact h.names v hv

/-- **C05, names of one's own** A graph whose values have distinct names, none of the generated form `%k` (so every result
is renamed while it is read), whose operands are inputs or earlier results, is read back from its JSON form unchanged: the
same inputs, operations, operation names, result names, operands, attributes, regions and outputs. -/
theorem foreign_names_roundtrip (eq : PyVal → PyVal → Bool) (I : List (String × Ty)) (ops : List OpD) (outs : List String)
    (h : Foreign eq I ops) (hI : ∀ v ∈ I, ∀ k, v.1 ≠ valueName k) (hIt : ∀ v ∈ I, v.2.valid = true)
    (hnd : (names (I ++ ops.flatMap OpD.outs)).Nodup)
    (ho : ∀ n ∈ outs, n ∈ names (I ++ ops.flatMap OpD.outs)) : Good eq (.mk I ops outs) := by
  intro j hj n hn
  simp only [grToJson] at hj
  split at hj; · cases hj
  rename_i ji hji
  split at hj; · cases hj
  rename_i jo hjo
  simp only [withKind, setKey, String.reduceEq, if_false, Option.some.injEq] at hj
  subst hj
  obtain ⟨m, rfl⟩ := ne_zero_of_depth hn
  have hd : depthList jo ≤ m := by
    simp only [Json.depth, depthFields] at hn; omega
  have hndI : (names I).Nodup := by
    simp only [names, List.map_append] at hnd
    exact (List.nodup_append.mp hnd).1
  have h1 := valsFromJson_toJson I hIt ji hji
  have h2 : mapOpt strFromJson (outs.map Json.str) = some outs := by
    clear ho hn
    induction outs with
    | nil => rfl
    | cons v l ih => simp [mapOpt, strFromJson, ih]
  have h3 := addInputs_aux [] I (by simpa using hndI)
  have h4 := opsFromJson_foreign eq I ops h hI hnd jo hjo m hd
  have h5 := addOutputs_ok outs (rebuilt I ops) ho
  have h0 : rebuilt [] [] = ({} : B) := rfl
  rw [h0, List.nil_append] at h3
  simp only [grFromJsonF, lookup, getArr, String.reduceEq, if_false, if_true, h1, h2, h3, h4, h5, Option.map_some]
  simp [rebuilt, B.graph]

/-- inputs `x`, `y`; `sum, diff = arith(x, y)` named "first"; `neg = negate(diff)`; output `neg` -/
def exNamed : Gr :=
  .mk [("x", .int 32 true), ("y", .int 32 true)]
    [.mk "arith" [⟨true, "x", .int 32 true⟩, ⟨true, "y", .int 32 true⟩] [("sum", .int 32 true), ("diff", .int 32 true)] [("k", .int 3)] [] "first",
     .mk "negate" [⟨true, "diff", .int 32 true⟩] [("neg", .int 32 true)] [] [] "second"]
    ["neg"]

theorem notGenerated {s : String} (h : s.toList.head? ≠ some '%') (k : Nat) : s ≠ valueName k := by
  rintro rfl
  simp [valueName] at h

/-- `foreign_names_roundtrip` applies to it, and its JSON form exists -/
example (eq : PyVal → PyVal → Bool) : Good eq exNamed ∧ (grToJson exNamed).isSome = true := by
  constructor
  · refine foreign_names_roundtrip eq _ _ _ (.snoc (ops := [_]) (.snoc (ops := []) .nil ?_ ?_ (by decide) ?_ ?_ ?_) ?_ ?_ (by decide) ?_ ?_ ?_) ?_ ?_ ?_ ?_
    · intro v hv; simp only [List.mem_cons, List.not_mem_nil, or_false] at hv; rcases hv with rfl | rfl <;> simp
    · intro v hv; simp only [List.mem_cons, List.not_mem_nil, or_false] at hv; rcases hv with rfl | rfl <;> exact notGenerated (by decide)
    · intro v hv; simp only [List.mem_cons, List.not_mem_nil, or_false] at hv; rcases hv with rfl | rfl <;> rfl
    · intro v hv; rw [List.mem_singleton] at hv; subst hv; simp [PyVal.WF]
    · simp
    · intro v hv; rw [List.mem_singleton] at hv; subst hv; simp [OpD.outs]
    · intro v hv; rw [List.mem_singleton] at hv; subst hv; exact notGenerated (by decide)
    · intro v hv; rw [List.mem_singleton] at hv; subst hv; rfl
    · simp
    · simp
    · intro v hv; simp only [List.mem_cons, List.not_mem_nil, or_false] at hv; rcases hv with rfl | rfl <;> exact notGenerated (by decide)
    · intro v hv; simp only [List.mem_cons, List.not_mem_nil, or_false] at hv; rcases hv with rfl | rfl <;> rfl
    · decide
    · decide
  · rfl

/-- **C07, handles** What the builder returns are values of that very graph: `add_input` returns the value with the given
name and type, `add_op` returns one value per output type, in order, and each of them is a value of the graph from then on
(so it can be used as an operand or output of later calls). -/
theorem builder_returns_own_values (b : B) :
    (∀ n t b' v, b.addInput n t = (b', some v) → b'.holds v ∧ v.name = n ∧ v.ty = t) ∧
    (∀ opcode ins tys attrs regs b' vs, b.addOp opcode ins (some tys) attrs regs = (b', some vs) →
      (∀ v ∈ vs, b'.holds v) ∧ vs.map Operand.ty = tys) := by
  constructor
  · intro n t b' v h
    simp only [B.addInput, B.addValue] at h
    by_cases hc : n ∈ List.map Prod.fst b.values
    · simp [hc] at h
    · simp only [hc, if_false, Prod.mk.injEq, Option.some.injEq] at h
      obtain ⟨rfl, rfl⟩ := h
      exact ⟨⟨rfl, by simp [B.handles]⟩, rfl, rfl⟩
  · intro opcode ins tys attrs regs b' vs h
    simp only [B.addOp, outTypes] at h
    split at h
    · simp at h
    · rename_i b1 outs hb
      obtain ⟨e1, e2, e3, e4, e5⟩ := addValues_some b tys b1 outs hb
      simp only [Prod.mk.injEq, Option.some.injEq] at h
      obtain ⟨rfl, rfl⟩ := h
      refine ⟨?_, ?_⟩
      · intro v hv
        obtain ⟨o, ho, rfl⟩ := List.mem_map.mp hv
        exact ⟨rfl, by simp only [B.handles, List.flatMap_append, List.mem_append, OpD.outs, List.flatMap_cons, List.flatMap_nil, List.append_nil]; exact .inr (.inr ho)⟩
      · rw [← e2, List.map_map]; rfl

/-- both cases occur -/
example : (({} : B).addInput "x" (.int 32 true)).2.isSome = true ∧
    ((({} : B).addInput "x" (.int 32 true)).1.addOp "add" [⟨true, "x", .int 32 true⟩] (some [.int 32 true, .float 64]) [] []).2.isSome = true := by
  constructor <;> rfl

end Verif.Graph
