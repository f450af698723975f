import Verif.Tool.Program
import Mathlib.Tactic.Tauto
/-! # C38 and C39: artifacts and the required world size -/
namespace Verif.Tool
open Verif.Serde Verif.Graph

/-! ## reading a sorted record -/

theorem sigFromJson_sorted (j : Json) (hj : DistinctKeys j) : sigFromJson (Json.sorted j) = sigFromJson j := by
  cases j with
  | obj fs =>
    simp only [DistinctKeys] at hj
    simp only [Json.sorted, sigFromJson, getStr_sorted hj.1, getNum_sorted hj.1]
  | _ => rfl

theorem getOptStr_sorted {fs : List (String × Json)} (hd : (fs.map Prod.fst).Nodup) (k : String) :
    getOptStr k (sortKeys (sortedFields fs)) = getOptStr k fs := by
  simp only [getOptStr, lookup_sorted fs hd]
  cases lookup k fs with
  | none => rfl
  | some j => cases j <;> rfl

theorem getOptNum_sorted {fs : List (String × Json)} (hd : (fs.map Prod.fst).Nodup) (k : String) :
    getOptNum k (sortKeys (sortedFields fs)) = getOptNum k fs := by
  simp only [getOptNum, lookup_sorted fs hd]
  cases lookup k fs with
  | none => rfl
  | some j => cases j <;> rfl

theorem progFromJson_sorted {eq : PyVal → PyVal → Bool} (he : PyEq eq) (j : Json) (hj : DistinctKeys j) (p : Program)
    (h : progFromJson eq j = some p) :
    ∃ g', progFromJson eq (Json.sorted j) = some { p with graph := g' } ∧ Gr.norm g' = Gr.norm p.graph ∧
      ∀ fs jg, j = .obj fs → lookup "graph" fs = some jg → grFromJson eq (Json.sorted jg) = some g' := by
  cases j with
  | obj fs =>
    simp only [DistinctKeys] at hj
    simp only [Json.sorted, progFromJson, lookup_sorted fs hj.1] at h ⊢
    cases hk : lookup "_kind" fs with
    | none => simp [hk] at h
    | some k => cases k with
      | str kind =>
        simp only [hk, Option.map_some, Json.sorted] at h ⊢
        by_cases hkind : kind = "mplang.CompiledProgram"
        · simp only [if_pos hkind] at h ⊢
          simp only [progFields, getNum_sorted hj.1, getStr_sorted hj.1, getArrD_sorted hj.1, getOptStr_sorted hj.1,
            getOptNum_sorted hj.1, lookup_sorted fs hj.1] at h ⊢
          cases h1 : getNum "schema_version" fs with
          | none => simp [h1] at h
          | some v =>
            simp only [h1] at h ⊢
            by_cases hv : v ≠ 1
            · simp [hv] at h
            · simp only [if_neg hv] at h ⊢
              cases h2 : lookup "graph" fs with
              | none => simp [h2] at h
              | some jg => cases h3 : lookup "signature" fs with
                | none => simp [h2, h3] at h
                | some js => cases h4 : getArrD "required_opcodes" fs with
                  | none => simp [h2, h3, h4] at h
                  | some jo => cases h5 : getStr "graph_digest" fs with
                    | none => simp [h2, h3, h4, h5] at h
                    | some dg =>
                      simp only [h2, h3, h4, h5, Option.map_some, mapOpt_str_sorted,
                        sigFromJson_sorted js (distinctFields_mem hj.2 _ (lookup_mem_fields h3))] at h ⊢
                      have hg := grFromJson_sorted he jg (distinctFields_mem hj.2 _ (lookup_mem_fields h2))
                      rcases map_eq_cases hg with ⟨g1, g2⟩ | ⟨a, b, g1, g2, g3⟩
                      · simp [g2] at h
                      · simp only [g1, g2] at h ⊢
                        cases h6 : sigFromJson js with
                        | none => simp [h6] at h
                        | some io =>
                          obtain ⟨i, o⟩ := io
                          cases h7 : mapOpt strFromJson jo with
                          | none => simp [h6, h7] at h
                          | some ops =>
                            simp only [h6, h7] at h ⊢
                            cases h8 : getOptNum "required_world_size" fs with
                            | none => simp [h8] at h
                            | some ws => cases h9 : getOptStr "created_at" fs with
                              | none => simp [h8, h9] at h
                              | some ca => cases h10 : getOptStr "mplang_version" fs with
                                | none => simp [h8, h9, h10] at h
                                | some mv => cases h11 : getOptStr "name" fs with
                                  | none => simp [h8, h9, h10, h11] at h
                                  | some nm =>
                                    simp only [h8, h9, h10, h11, Option.some.injEq] at h ⊢
                                    subst h
                                    refine ⟨a, rfl, g3, fun fs' jg' e hl => ?_⟩
                                    cases e
                                    rw [h2] at hl
                                    cases hl
                                    exact g1
        · simp [if_neg hkind] at h
      | _ => simp [hk] at h
  | _ => simp [progFromJson] at h

theorem mapOpt_strs (xs : List String) : mapOpt strFromJson (xs.map .str) = some xs :=
  mapOpt_map _ _ _ fun _ _ => rfl

theorem progFromJson_toJson (eq : PyVal → PyVal → Bool) (p : Program) (hg : CleanG eq p.graph) (hv : p.schemaVersion = 1)
    (j : Json) (h : p.toJson = some j) : progFromJson eq j = some p := by
  simp only [Program.toJson] at h
  cases hj : grToJson p.graph with
  | none => simp [hj] at h
  | some jg =>
    simp only [hj, Option.some.injEq] at h
    subst h
    have hr := graph_json_roundtrip_partial eq p.graph hg jg hj
    cases p with
    | mk g i o ops dg ws ca mv v nm =>
      simp only at hv hr
      subst hv
      have e1 : ∀ s : Option String, (match optStr s with
          | .null => some none
          | .str s => some (some s)
          | _ => none : Option (Option String)) = some s := by intro s; cases s <;> rfl
      have e2 : ∀ s : Option Int, (match optNum s with
          | .null => some none
          | .num s => some (some s)
          | _ => none : Option (Option Int)) = some s := by intro s; cases s <;> rfl
      cases ws <;> cases ca <;> cases mv <;> cases nm <;>
        simp [progFromJson, withKind, setKey, lookup, progFields, getNum, getStr, getArrD, getOptStr, getOptNum, hr,
          sigFromJson, sigToJson, mapOpt_strs, optStr, optNum]

/-! ## what only depends on the normal form -/

mutual
theorem opsOf_norm (g : Gr) : opsOf (Gr.norm g) = (opsOf g).map OpD.norm := by
  cases g with | mk ins ops outs => simp only [Gr.norm, opsOf, opsOfOps_norm ops]
theorem opsOfOp_norm (o : OpD) : opsOfOp (OpD.norm o) = (opsOfOp o).map OpD.norm := by
  cases o with
  | mk a b c d e f =>
    simp only [OpD.norm, opsOfOp, List.map_cons, opsOfGrs_norm e]
theorem opsOfOps_norm (os : List OpD) : opsOfOps (normOps os) = (opsOfOps os).map OpD.norm := by
  cases os with
  | nil => rfl
  | cons o os => simp only [normOps, opsOfOps, opsOfOp_norm o, opsOfOps_norm os, List.map_append]
theorem opsOfGrs_norm (gs : List Gr) : opsOfGrs (normGrs gs) = (opsOfGrs gs).map OpD.norm := by
  cases gs with
  | nil => rfl
  | cons g gs => simp only [normGrs, opsOfGrs, opsOf_norm g, opsOfGrs_norm gs, List.map_append]
end

theorem opcodes_norm (g : Gr) : requiredOpcodesOf (Gr.norm g) = requiredOpcodesOf g := by
  simp only [requiredOpcodesOf, opsOf_norm, List.map_map]
  have : (opcodeOf ∘ OpD.norm) = opcodeOf := by funext o; cases o; rfl
  rw [this]

theorem digest_norm (H : Json → String) (g : Gr) : digestOf H (Gr.norm g) = digestOf H g := by
  have := congrArg (Option.map H) (grToJson_norm g)
  simpa only [digestOf, Option.map_map, Function.comp_def] using this

/-- every attribute dict has distinct keys -/
def AttrsOk (g : Gr) : Prop := ∀ o ∈ opsOf g, ((attrsOf o).map Prod.fst).Nodup

theorem attrs_norm_keys (o : OpD) : ((attrsOf (OpD.norm o)).map Prod.fst).Nodup ↔ ((attrsOf o).map Prod.fst).Nodup := by
  cases o with
  | mk a b c d e f =>
    simp only [OpD.norm, attrsOf, normAttrs]
    rw [((sortKeys_perm _).map Prod.fst).nodup_iff, List.map_map]
    rfl

theorem attrsOk_norm (g : Gr) : AttrsOk (Gr.norm g) ↔ AttrsOk g := by
  simp only [AttrsOk, opsOf_norm, List.mem_map]
  constructor
  · intro h o ho
    exact (attrs_norm_keys o).mp (h _ ⟨o, ho, rfl⟩)
  · rintro h _ ⟨o, ho, rfl⟩
    exact (attrs_norm_keys o).mpr (h o ho)

theorem getAttr_perm {l l' : List (String × PyVal)} (hp : l.Perm l') (h : (l.map Prod.fst).Nodup) (k : String) :
    getAttr k l = getAttr k l' := by
  induction hp with
  | nil => rfl
  | cons x _ ih =>
    simp only [List.map_cons, List.nodup_cons] at h
    simp only [getAttr, ih h.2]
  | swap x y l =>
    simp only [List.map_cons, List.nodup_cons, List.mem_cons, not_or] at h
    simp only [getAttr]
    by_cases h1 : y.1 = k <;> by_cases h2 : x.1 = k <;> simp [h1, h2]
    exact absurd (h1.trans h2.symm) h.1.1
  | trans p1 p2 ih1 ih2 => rw [ih1 h, ih2 ((p1.map Prod.fst).nodup_iff.mp h)]

theorem getAttr_map (l : List (String × PyVal)) (k : String) :
    getAttr k (l.map fun p => (p.1, PyVal.norm p.2)) = (getAttr k l).map PyVal.norm := by
  induction l with
  | nil => rfl
  | cons x xs ih => simp only [List.map_cons, getAttr]; split <;> simp [ih]

theorem partyId_norm (v : PyVal) : partyId (PyVal.norm v) = partyId v := by cases v <;> rfl

theorem mapOpt_partyId_norm (xs : List PyVal) : mapOpt partyId (normVals xs) = mapOpt partyId xs := by
  induction xs with
  | nil => rfl
  | cons x xs ih => simp only [normVals, mapOpt, partyId_norm, ih]

theorem partiesVal_norm (v : Option PyVal) : partiesVal (v.map PyVal.norm) = partiesVal v := by
  cases v with
  | none => rfl
  | some v => cases v <;> first | rfl | exact mapOpt_partyId_norm _

theorem worldSize_norm (g : Gr) (h : AttrsOk g) : worldSizeOf (Gr.norm g) = worldSizeOf g := by
  have e : mapOpt (fun o => partiesVal (getAttr "parties" (attrsOf o))) (opsOf (Gr.norm g))
      = mapOpt (fun o => partiesVal (getAttr "parties" (attrsOf o))) (opsOf g) := by
    rw [opsOf_norm, mapOpt_comp]
    have : ∀ l : List OpD, (∀ o ∈ l, ((attrsOf o).map Prod.fst).Nodup) →
        mapOpt (fun o => partiesVal (getAttr "parties" (attrsOf (OpD.norm o)))) l
          = mapOpt (fun o => partiesVal (getAttr "parties" (attrsOf o))) l := by
      intro l
      induction l with
      | nil => intro _; rfl
      | cons o os ih =>
        intro hl
        have h1 : partiesVal (getAttr "parties" (attrsOf (OpD.norm o))) = partiesVal (getAttr "parties" (attrsOf o)) := by
          have hn := (attrs_norm_keys o).mpr (hl o (by simp))
          have hp : attrsOf (OpD.norm o) = normAttrs (attrsOf o) := by cases o; rfl
          rw [hp] at hn ⊢
          simp only [normAttrs] at hn ⊢
          rw [getAttr_perm (sortKeys_perm _) hn, getAttr_map, partiesVal_norm]
        simp only [mapOpt, h1, ih fun o ho => hl o (by simp [ho])]
    exact this _ h
  simp only [worldSizeOf, collectParties, e]

theorem validate_norm (H : Json → String) (p : Program) (g' : Gr) (hn : Gr.norm g' = Gr.norm p.graph)
    (ha : AttrsOk p.graph) : validate H { p with graph := g' } = validate H p := by
  have h1 : requiredOpcodesOf g' = requiredOpcodesOf p.graph := by rw [← opcodes_norm, hn, opcodes_norm]
  have h2 : digestOf H g' = digestOf H p.graph := by rw [← digest_norm, hn, digest_norm]
  have ha' : AttrsOk g' := by rw [← attrsOk_norm, hn, attrsOk_norm]; exact ha
  have h3 : worldSizeOf g' = worldSizeOf p.graph := by rw [← worldSize_norm g' ha', hn, worldSize_norm _ ha]
  have h4 : nInputs g' = nInputs p.graph ∧ nOutputs g' = nOutputs p.graph := by
    cases g' with
    | mk ins' ops' outs' => cases hg : p.graph with
      | mk ins ops outs =>
        rw [hg] at hn
        simp only [Gr.norm, Gr.mk.injEq] at hn
        exact ⟨by simpa [nInputs] using congrArg List.length hn.1, by simp only [nOutputs, hn.2.2]⟩
  simp only [validate, h1, h2, h3, h4.1, h4.2]

mutual
theorem attrsOk_json (g : Gr) (j : Json) (h : grToJson g = some j) (hd : DistinctKeys j) : AttrsOk g := by
  cases g with
  | mk ins ops outs =>
    simp only [grToJson] at h
    cases h1 : mapOpt valToJson ins with
    | none => simp [h1] at h
    | some ji => cases h2 : opsToJson ops with
      | none => simp [h1, h2] at h
      | some jo =>
        simp only [h1, h2, Option.some.injEq] at h
        subst h
        simp [withKind, setKey, DistinctKeys, distinctFields] at hd
        simp only [AttrsOk, opsOf]
        exact attrsOk_ops ops jo h2 hd.2.1
theorem attrsOk_ops (os : List OpD) (js : List Json) (h : opsToJson os = some js) (hd : distinctList js) :
    ∀ o ∈ opsOfOps os, ((attrsOf o).map Prod.fst).Nodup := by
  cases os with
  | nil => simp [opsOfOps]
  | cons o os =>
    simp only [opsToJson] at h
    cases h1 : opToJson o with
    | none => simp [h1] at h
    | some j => cases h2 : opsToJson os with
      | none => simp [h1, h2] at h
      | some js' =>
        simp only [h1, h2, Option.some.injEq] at h
        subst h
        simp only [distinctList] at hd
        intro x hx
        simp only [opsOfOps, List.mem_append] at hx
        rcases hx with hx | hx
        · exact attrsOk_op o j h1 hd.1 x hx
        · exact attrsOk_ops os js' h2 hd.2 x hx
theorem attrsOk_op (o : OpD) (j : Json) (h : opToJson o = some j) (hd : DistinctKeys j) :
    ∀ x ∈ opsOfOp o, ((attrsOf x).map Prod.fst).Nodup := by
  cases o with
  | mk opcode ins outs attrs regs name =>
    simp only [opToJson] at h
    cases h1 : mapOpt valToJson outs with
    | none => simp [h1] at h
    | some jo => cases h2 : attrsToJson attrs with
      | none => simp [h1, h2] at h
      | some ja => cases h3 : regsToJson regs with
        | none => simp [h1, h2, h3] at h
        | some jr =>
          simp only [h1, h2, h3, Option.some.injEq] at h
          subst h
          simp only [DistinctKeys, distinctFields] at hd
          intro x hx
          simp only [opsOfOp, List.mem_cons] at hx
          rcases hx with rfl | hx
          · simp only [attrsOf]
            rw [attrsToJson_eq] at h2
            rw [← mapF_keys _ _ _ h2]
            exact hd.2.2.2.2.1.1
          · exact attrsOk_grs regs jr h3 hd.2.2.2.2.2.1 x hx
theorem attrsOk_grs (gs : List Gr) (js : List Json) (h : regsToJson gs = some js) (hd : distinctList js) :
    ∀ o ∈ opsOfGrs gs, ((attrsOf o).map Prod.fst).Nodup := by
  cases gs with
  | nil => simp [opsOfGrs]
  | cons g gs =>
    simp only [regsToJson] at h
    cases h1 : grToJson g with
    | none => simp [h1] at h
    | some j => cases h2 : regsToJson gs with
      | none => simp [h1, h2] at h
      | some js' =>
        simp only [h1, h2, Option.some.injEq] at h
        subst h
        simp only [distinctList] at hd
        intro x hx
        simp only [opsOfGrs, List.mem_append] at hx
        rcases hx with hx | hx
        · exact attrsOk_json g j h1 hd.1 x hx
        · exact attrsOk_grs gs js' h2 hd.2 x hx
end

/-! ## C38 -/

theorem distinct_strs (xs : List String) : distinctList (xs.map .str) := by
  induction xs with
  | nil => trivial
  | cons x xs ih => exact ⟨trivial, ih⟩

/-- the JSON of a program has distinct keys if that of its graph has -/
theorem prog_distinct (p : Program) (jg : Json) (hjg : grToJson p.graph = some jg) (hd : DistinctKeys jg) :
    ∃ fs, p.toJson = some (.obj fs) ∧ DistinctKeys (.obj fs) ∧ lookup "graph" fs = some jg := by
  have h1 : ∀ s, DistinctKeys (optStr s) := by intro s; cases s <;> trivial
  have h2 : ∀ s, DistinctKeys (optNum s) := by intro s; cases s <;> trivial
  refine ⟨_, by simp only [Program.toJson, hjg, withKind]; rfl, ?_, rfl⟩
  simp [setKey, DistinctKeys, distinctFields, h1, h2, distinct_strs, sigToJson, hd]

/-- **C38** (partial) Unpacking what was packed succeeds and returns the same program, up to the order of dict items inside
the graph (`Gr.norm` sorts every dict: attributes, string-keyed dict values, columns of table types).  `hj`: python dicts
have distinct keys.  Missing: the order itself, see `artifact_roundtrip_violated`. -/
theorem artifact_roundtrip_partial (c : Container) (hc : c.Lossless) (H : Json → String) (eq : PyVal → PyVal → Bool)
    (he : PyEq eq) (limit : Nat) (compress : Bool) (p : Program) (hg : CleanG eq p.graph) (hv : p.schemaVersion = 1)
    (hok : validate H p = true) (jg : Json) (hjg : grToJson p.graph = some jg) (hj : DistinctKeys jg)
    (hsize : ∀ j, p.toJson = some j → (c.text (Json.sorted j)).length ≤ limit) :
    ∃ data g', pack c compress p = some data ∧ unpack c H eq limit data = some { p with graph := g' } ∧
      Gr.norm g' = Gr.norm p.graph ∧ grFromJson eq (Json.sorted jg) = some g' := by
  obtain ⟨fs, hfs, hfd, hlk⟩ := prog_distinct p jg hjg hj
  obtain ⟨g', h1, h2, h3⟩ := progFromJson_sorted he _ hfd p (progFromJson_toJson eq p hg hv _ hfs)
  have hga : AttrsOk p.graph := attrsOk_json _ jg hjg hj
  have hsz := hsize _ hfs
  refine ⟨c.tar compress (c.text (Json.sorted (.obj fs))), g', by simp only [pack, hfs, Option.map_some], ?_, h2,
    h3 fs jg rfl hlk⟩
  simp only [unpack, hc.tar, hc.json, h1, validate_norm H p g' h2 hga, hok, if_true]
  rw [if_neg (by simp), if_neg (by omega), if_neg (by omega)]

theorem validate_iff (H : Json → String) (p : Program) :
    validate H p = true ↔ ∃ d w, digestOf H p.graph = some d ∧ worldSizeOf p.graph = some w ∧
      p.inputArity = nInputs p.graph ∧ p.outputArity = nOutputs p.graph ∧
      sortStrs p.requiredOpcodes = requiredOpcodesOf p.graph ∧
      (p.graphDigest = "" ∨ p.graphDigest = d) ∧ (∀ n, p.requiredWorldSize = some n → n = (w : Int)) := by
  simp only [validate]
  cases digestOf H p.graph with
  | none => simp
  | some d => cases worldSizeOf p.graph with
    | none => simp
    | some w =>
      cases p.requiredWorldSize <;> simp [and_assoc, worldOk]

theorem sortStrs_perm (l : List String) : (sortStrs l).Perm l := by
  have := (sortKeys_perm (l.map fun s => (s, ()))).map Prod.fst
  rw [List.map_map] at this
  simpa [sortStrs, Function.comp_def] using this

theorem sortStrs_idem (l : List String) : sortStrs (sortStrs l) = sortStrs l := by
  simp only [sortStrs, List.map_map]
  have : ∀ l : List (String × Unit), l.map ((fun s => (s, ())) ∘ Prod.fst) = l := by
    intro l
    induction l with
    | nil => rfl
    | cons x xs ih => simp [ih]
  rw [this, sortKeys_idem]

theorem mem_dedupStrs (l : List String) (s : String) : s ∈ dedupStrs l ↔ s ∈ l := by
  induction l with
  | nil => simp [dedupStrs]
  | cons x xs ih =>
    simp only [dedupStrs]
    split
    · rename_i hx
      rw [ih, List.mem_cons]
      constructor
      · exact .inr
      · rintro (rfl | h)
        · exact hx
        · exact h
    · simp [ih]

theorem nodup_dedupStrs (l : List String) : (dedupStrs l).Nodup := by
  induction l with
  | nil => simp [dedupStrs]
  | cons x xs ih =>
    simp only [dedupStrs]
    split
    · exact ih
    · rename_i hx
      rw [List.nodup_cons]
      exact ⟨fun h => hx ((mem_dedupStrs xs x).mp h), ih⟩

theorem progFromJson_version (eq : PyVal → PyVal → Bool) (j : Json) (p : Program) (h : progFromJson eq j = some p) :
    p.schemaVersion = 1 := by
  cases j with
  | obj fs =>
    simp only [progFromJson] at h
    cases hk : lookup "_kind" fs with
    | none => simp [hk] at h
    | some k => cases k with
      | str kind =>
        simp only [hk] at h
        split at h
        · simp only [progFields] at h
          cases hv : getNum "schema_version" fs with
          | none => simp [hv] at h
          | some v =>
            simp only [hv] at h
            by_cases h1 : v ≠ 1
            · simp [h1] at h
            · simp only [if_neg h1] at h
              repeat' split at h
              all_goals try cases h
              simpa using h1
        · cases h
      | _ => simp [hk] at h
  | _ => simp [progFromJson] at h

/-- **C38** Whatever bytes are given to `unpack`: if it returns a program, then the schema version is 1, the recorded arities
are those of the graph, the recorded opcodes are exactly the opcodes occurring in the graph and its nested regions (each
once), the recorded world size (if any) is the one computed from the graph, and the recorded digest is the digest of the
graph or the empty string.  So every corruption of those fields is rejected. -/
theorem unpack_checks (c : Container) (H : Json → String) (eq : PyVal → PyVal → Bool) (limit : Nat) (data : List Nat)
    (p : Program) (h : unpack c H eq limit data = some p) :
    p.schemaVersion = 1 ∧ p.inputArity = nInputs p.graph ∧ p.outputArity = nOutputs p.graph ∧
      (p.requiredOpcodes.Nodup ∧ ∀ s, s ∈ p.requiredOpcodes ↔ ∃ o ∈ opsOf p.graph, opcodeOf o = s) ∧
      (∀ n, p.requiredWorldSize = some n → worldSizeOf p.graph = some n.toNat ∧ 0 ≤ n) ∧
      (p.graphDigest = "" ∨ digestOf H p.graph = some p.graphDigest) := by
  have hvd : validate H p = true ∧ p.schemaVersion = 1 := by
    simp only [unpack] at h
    split at h
    · cases h
    · split at h
      · cases h
      · split at h
        · cases h
        · split at h
          · cases h
          · split at h
            · cases h
            · rename_i j hj
              split at h
              · cases h
              · rename_i q hq
                split at h
                · rename_i hval
                  cases h
                  refine ⟨hval, ?_⟩
                  exact progFromJson_version eq j p hq
                · cases h
  obtain ⟨d, w, h1, h2, h3, h4, h5, h6, h7⟩ := (validate_iff H p).mp hvd.1
  have hperm : p.requiredOpcodes.Perm (dedupStrs ((opsOf p.graph).map opcodeOf)) :=
    (sortStrs_perm _).symm.trans (h5 ▸ sortStrs_perm _)
  refine ⟨hvd.2, h3, h4, ⟨hperm.nodup_iff.mpr (nodup_dedupStrs _), fun s => ?_⟩, ?_, ?_⟩
  · rw [hperm.mem_iff, mem_dedupStrs, List.mem_map]
  · intro n hn
    have := h7 n hn
    subst this
    exact ⟨by simpa using h2, by omega⟩
  · rcases h6 with h6 | h6
    · exact .inl h6
    · exact .inr (by rw [h6]; exact h1)

/-- **C38** Nothing larger than the limit is parsed: if `unpack` returns a program, the archive member is a regular file
whose header size lies between 0 and the limit, inclusive. -/
theorem unpack_size (c : Container) (H : Json → String) (eq : PyVal → PyVal → Bool) (limit : Nat) (data : List Nat)
    (p : Program) (h : unpack c H eq limit data = some p) :
    ∃ size content, c.untar data = some (true, size, content) ∧ 0 ≤ size ∧ size ≤ limit := by
  simp only [unpack] at h
  split at h
  · cases h
  · rename_i isFile size content hu
    split at h
    · cases h
    · rename_i hf
      split at h
      · cases h
      · rename_i h0
        split at h
        · cases h
        · rename_i h1
          refine ⟨size, content, ?_, by omega, by omega⟩
          rw [hu]
          simpa using hf

/-- **C38** A corrupted graph under an unchanged non-empty digest is rejected: if `unpack` returns two programs with the
same non-empty recorded digest, their graphs have the same JSON with sorted keys, or the hash function has a collision that
these two artifacts exhibit. -/
theorem digest_binds_graph (c : Container) (H : Json → String) (eq : PyVal → PyVal → Bool) (limit : Nat)
    (data data' : List Nat) (p p' : Program) (h : unpack c H eq limit data = some p)
    (h' : unpack c H eq limit data' = some p') (hd : p.graphDigest = p'.graphDigest) (hne : p.graphDigest ≠ "") :
    ∃ x x', (grToJson p.graph).map Json.sorted = some x ∧ (grToJson p'.graph).map Json.sorted = some x' ∧
      (x = x' ∨ (x ≠ x' ∧ H x = H x')) := by
  have h1 := (unpack_checks c H eq limit data p h).2.2.2.2.2.resolve_left hne
  have h2 := (unpack_checks c H eq limit data' p' h').2.2.2.2.2.resolve_left (hd ▸ hne)
  simp only [digestOf] at h1 h2
  cases hx : grToJson p.graph with
  | none => simp [hx] at h1
  | some x => cases hx' : grToJson p'.graph with
    | none => simp [hx'] at h2
    | some x' =>
      simp only [hx, hx', Option.map_some, Option.some.injEq] at h1 h2
      refine ⟨_, _, rfl, rfl, ?_⟩
      by_cases he : Json.sorted x = Json.sorted x'
      · exact .inl he
      · exact .inr ⟨he, by rw [h1, h2, hd]⟩

/-- **C38** Every program `compile_program` returns passes the validation, so together with `artifact_roundtrip_partial` it
can be packed and unpacked. -/
theorem compiled_valid (H : Json → String) (now : String) (ver name : Option String) (t : Traced) (p : Program)
    (h : compileProgram H now ver name t = some p) :
    validate H p = true ∧ p.schemaVersion = 1 ∧ p.graph = t.graph ∧ t.captured = 0 ∧ t.outImms = 0 := by
  simp only [compileProgram] at h
  split at h
  · cases h
  · rename_i h1
    split at h
    · cases h
    · rename_i h2
      split at h
      · cases h
      · split at h
        · rename_i d w hd hw
          cases h
          refine ⟨?_, rfl, rfl, by omega, by omega⟩
          rw [validate_iff H _]
          refine ⟨d, w, hd, hw, rfl, rfl, ?_, .inr rfl, ?_⟩
          · exact sortStrs_idem _
          · intro n hn
            cases hn
            rfl
        · cases h

/-- the graph of the counterexample: `table.read` of a table with columns `b`, `a` -/
def exTable : Ty := .table [("b", .float 64), ("a", .int 64 true)] (-1)
/-- see `exTable` -/
def exTableB : B :=
  let b1 := (({} : B).addOp "table.read" [] (some [exTable])
    [("path", .str "/data/in.csv"), ("schema", .ty exTable), ("format", .str "csv")] []).1
  (b1.addOutput ⟨true, "%0", exTable⟩).1

theorem exTableB_clean (eq : PyVal → PyVal → Bool) : Clean eq exTableB := by
  refine .output (.op .new _ _ _ _ _ (by simp) ?_ ?_ (by simp) (by decide)) _ ?_
  · intro ts hts t ht
    simp only [Option.some.injEq] at hts
    subst hts
    revert t; decide
  · intro a ha
    simp only [List.mem_cons, List.not_mem_nil, or_false] at ha
    rcases ha with rfl | rfl | rfl
    · simp [PyVal.WF]
    · simp only [PyVal.WF]; decide
    · simp [PyVal.WF]
  · intro _; exact ⟨rfl, .head _⟩

/-- the traced function of the example -/
def exTraced : Traced := ⟨exTableB.graph, 0, 0, 0, some "read"⟩

/-- a simple key equality, for the examples -/
def exEq (a b : PyVal) : Bool :=
  match a, b with
  | .str x, .str y => decide (x = y)
  | _, _ => false

theorem exEq_ok : PyEq exEq := by
  refine ⟨fun a b => rfl, fun a b => ?_⟩
  cases a <;> cases b <;> rfl

/-- the columns of the output type of the first operation -/
def firstSchema : Gr → Option (List String)
  | .mk _ (.mk _ _ ((_, .table sch _) :: _) _ _ _ :: _) _ => some (sch.map Prod.fst)
  | _ => none

/-- C38 is violated: a program reading a table with columns `b`, `a` comes back reading columns `a`, `b` — both in the type
of the result and in the `schema` attribute, whose order decides the column order of the data at run time
(backends/table_impl.py:421-428, 452-458).  The digest does not notice: it is computed with sorted keys as well. -/
theorem artifact_roundtrip_violated (c : Container) (hc : c.Lossless) (H : Json → String) :
    ∃ p p' data limit, compileProgram H "t0" none none exTraced = some p ∧ pack c true p = some data ∧
      unpack c H exEq limit data = some p' ∧
      firstSchema p.graph = some ["b", "a"] ∧ firstSchema p'.graph = some ["a", "b"] := by
  have hcp : ∃ p, compileProgram H "t0" none none exTraced = some p ∧ p.graph = exTableB.graph := ⟨_, rfl, rfl⟩
  obtain ⟨p, hp, hpg⟩ := hcp
  obtain ⟨hval, hv, -, -, -⟩ := compiled_valid H "t0" none none exTraced p hp
  obtain ⟨jg, hjg, hdist, hread⟩ : ∃ jg, grToJson p.graph = some jg ∧ DistinctKeys jg ∧
      (grFromJson exEq (Json.sorted jg)).bind firstSchema = some ["a", "b"] := by
    refine ⟨_, by rw [hpg]; rfl, ?_, by decide⟩
    simp [withKind, setKey, DistinctKeys, distinctFields, distinctList, distinct_strs]
  obtain ⟨data, g', h1, h2, -, h4⟩ := artifact_roundtrip_partial c hc H exEq exEq_ok
    (c.text (Json.sorted (p.toJson.getD .null))).length true p (hpg ▸ .mk (exTableB_clean exEq)) hv hval jg hjg hdist
    (fun j hj => by simp [hj])
  refine ⟨p, _, data, _, hp, h1, h2, by rw [hpg]; rfl, ?_⟩
  rw [h4] at hread
  exact hread

/-- A digest that is the empty string is not checked: an artifact whose graph was replaced and whose digest was blanked
passes, provided arities, opcodes and world size still fit. -/
theorem empty_digest_not_checked (c : Container) (hc : c.Lossless) (H : Json → String) (eq : PyVal → PyVal → Bool)
    (he : PyEq eq) (p : Program) (hg : CleanG eq p.graph) (hv : p.schemaVersion = 1)
    (hok : validate H p = true) (jg : Json) (hjg : grToJson p.graph = some jg) (hj : DistinctKeys jg) :
    ∃ data limit q, pack c false { p with graphDigest := "" } = some data ∧ unpack c H eq limit data = some q ∧
      q.graphDigest = "" ∧ Gr.norm q.graph = Gr.norm p.graph := by
  obtain ⟨d, w, h1, h2, h3, h4, h5, h6, h7⟩ := (validate_iff H p).mp hok
  obtain ⟨data, g', k1, k2, k3, -⟩ := artifact_roundtrip_partial c hc H eq he
    (c.text (Json.sorted (({ p with graphDigest := "" } : Program).toJson.getD .null))).length false
    { p with graphDigest := "" } hg hv ((validate_iff H _).mpr ⟨d, w, h1, h2, h3, h4, h5, .inl rfl, h7⟩) jg hjg hj
    (fun j hj => by simp [hj])
  exact ⟨data, _, _, k1, k2, rfl, k3⟩

/-! ## C39 -/

theorem mapOpt_mem {α β : Type} (f : α → Option β) (l : List α) (r : List β) (h : mapOpt f l = some r) (x : α)
    (hx : x ∈ l) : ∃ y ∈ r, f x = some y := by
  induction l generalizing r with
  | nil => simp at hx
  | cons a l ih =>
    simp only [mapOpt] at h
    cases hf : f a with
    | none => simp [hf] at h
    | some y => cases hm : mapOpt f l with
      | none => simp [hf, hm] at h
      | some ys =>
        simp only [hf, hm, Option.some.injEq] at h
        subst h
        rcases List.mem_cons.mp hx with rfl | hx
        · exact ⟨y, by simp, hf⟩
        · obtain ⟨z, hz, hfz⟩ := ih ys hm hx
          exact ⟨z, by simp [hz], hfz⟩

theorem mapOpt_mem_rev {α β : Type} (f : α → Option β) (l : List α) (r : List β) (h : mapOpt f l = some r) (y : β)
    (hy : y ∈ r) : ∃ x ∈ l, f x = some y := by
  induction l generalizing r with
  | nil => simp [mapOpt] at h; subst h; simp at hy
  | cons a l ih =>
    simp only [mapOpt] at h
    cases hf : f a with
    | none => simp [hf] at h
    | some z => cases hm : mapOpt f l with
      | none => simp [hf, hm] at h
      | some ys =>
        simp only [hf, hm, Option.some.injEq] at h
        subst h
        rcases List.mem_cons.mp hy with rfl | hy
        · exact ⟨a, by simp, hf⟩
        · obtain ⟨x, hx, hfx⟩ := ih ys hm hy
          exact ⟨x, by simp [hx], hfx⟩

theorem foldr_max (ps : List Nat) (b : Nat) : (∀ x ∈ ps, x ≤ ps.foldr max b) ∧ b ≤ ps.foldr max b ∧
    (ps.foldr max b ∈ ps ∨ ps.foldr max b = b) := by
  induction ps with
  | nil => simp
  | cons p ps ih =>
    obtain ⟨h1, h2, h3⟩ := ih
    refine ⟨?_, ?_, ?_⟩
    · intro x hx
      rcases List.mem_cons.mp hx with rfl | hx
      · exact Nat.le_max_left _ _
      · exact Nat.le_trans (h1 x hx) (Nat.le_max_right _ _)
    · exact Nat.le_trans h2 (Nat.le_max_right _ _)
    · simp only [List.foldr_cons]
      rcases Nat.le_total p (ps.foldr max b) with hle | hle
      · rw [Nat.max_eq_right hle]
        rcases h3 with h3 | h3
        · exact .inl (by simp [h3])
        · exact .inr h3
      · rw [Nat.max_eq_left hle]; exact .inl (by simp)

/-- party `r` occurs in the `parties` attribute of some operation of `g`, at any depth of nested regions -/
def PartyIn (g : Gr) (r : Nat) : Prop :=
  ∃ o ∈ opsOf g, ∃ xs, (getAttr "parties" (attrsOf o) = some (.tuple xs) ∨ getAttr "parties" (attrsOf o) = some (.list xs)) ∧
    PyVal.int r ∈ xs

/-- **C39** (partial) The recorded world size is larger than every rank listed in a `parties` attribute anywhere in the
program, nested regions included, and it is not larger than needed for all the `parties` attributes.  Missing: ranks that
occur only in the routing table of a shuffle or in the party set of a type, see `world_size_violated`. -/
theorem world_size_covers_partial (H : Json → String) (now : String) (ver name : Option String) (t : Traced) (p : Program)
    (h : compileProgram H now ver name t = some p) :
    ∃ w : Nat, p.requiredWorldSize = some w ∧ (∀ r, PartyIn t.graph r → r < w) ∧
      (0 < w → ∃ o ∈ opsOf t.graph, ∃ l, partiesVal (getAttr "parties" (attrsOf o)) = some l ∧ w - 1 ∈ l) := by
  simp only [compileProgram] at h
  split at h
  · cases h
  · split at h
    · cases h
    · split at h
      · cases h
      · split at h
        · rename_i d w hd hw
          cases h
          refine ⟨w, rfl, ?_, ?_⟩
          · rintro r ⟨o, ho, xs, hxs, hr⟩
            simp only [worldSizeOf, collectParties] at hw
            cases hm : mapOpt (fun o => partiesVal (getAttr "parties" (attrsOf o))) (opsOf t.graph) with
            | none => simp [hm] at hw
            | some L =>
              simp only [hm, Option.map_some, Option.some.injEq] at hw
              obtain ⟨l, hl, hfl⟩ := mapOpt_mem _ _ L hm o ho
              have hrl : r ∈ l := by
                have : partiesVal (getAttr "parties" (attrsOf o)) = mapOpt partyId xs := by
                  rcases hxs with hxs | hxs <;> rw [hxs] <;> rfl
                rw [this] at hfl
                obtain ⟨y, hy, hry⟩ := mapOpt_mem _ _ l hfl _ hr
                simp only [partyId] at hry
                rw [if_neg (by omega)] at hry
                simp only [Int.toNat_natCast, Option.some.injEq] at hry
                exact hry ▸ hy
              have hrL : r ∈ L.flatten := List.mem_flatten.mpr ⟨l, hl, hrl⟩
              cases hL : L.flatten with
              | nil => rw [hL] at hrL; simp at hrL
              | cons q qs =>
                rw [hL] at hrL hw
                simp only [sizeFor] at hw
                obtain ⟨m1, m2, -⟩ := foldr_max qs q
                rcases List.mem_cons.mp hrL with rfl | hrL
                · omega
                · have := m1 r hrL; omega
          · intro hpos
            simp only [worldSizeOf, collectParties] at hw
            cases hm : mapOpt (fun o => partiesVal (getAttr "parties" (attrsOf o))) (opsOf t.graph) with
            | none => simp [hm] at hw
            | some L =>
              simp only [hm, Option.map_some, Option.some.injEq] at hw
              cases hL : L.flatten with
              | nil => rw [hL] at hw; simp [sizeFor] at hw; omega
              | cons q qs =>
                rw [hL] at hw
                simp only [sizeFor] at hw
                have hmem : w - 1 ∈ L.flatten := by
                  rw [hL, ← hw, Nat.add_sub_cancel]
                  rcases (foldr_max qs q).2.2 with h | h
                  · exact List.mem_cons_of_mem _ h
                  · rw [h]; simp
                obtain ⟨l, hl, hwl⟩ := List.mem_flatten.mp hmem
                obtain ⟨o, ho, hfo⟩ := mapOpt_mem_rev _ _ L hm l hl
                exact ⟨o, ho, l, hfo, hwl⟩
        · cases h

/-- party 0 computes a constant and sends it to party 5 -/
def exShuffleB : B :=
  let b1 := (({} : B).addOp "simp.pcall_static" [] (some [.mp (.float 32) (some [0])])
    [("parties", .tuple [.int 0])] []).1
  let b2 := (b1.addOp "simp.shuffle" [⟨true, "%0", .mp (.float 32) (some [0])⟩] (some [.mp (.float 32) (some [5])])
    [("routing", .dict [(.int 5, .int 0)])] []).1
  (b2.addOutput ⟨true, "%1", .mp (.float 32) (some [5])⟩).1

/-- C39 is violated: a program whose result lives at party 5 (the target of a shuffle) is recorded as needing a world of
size 1, because only attributes named `parties` are inspected (tool/program.py:71-89). -/
theorem world_size_violated (H : Json → String) :
    ∃ p, compileProgram H "t0" none none ⟨exShuffleB.graph, 0, 0, 0, none⟩ = some p ∧ p.requiredWorldSize = some 1 ∧
      (∃ o ∈ opsOf p.graph, opcodeOf o = "simp.shuffle" ∧
        getAttr "routing" (attrsOf o) = some (.dict [(.int 5, .int 0)])) := by
  refine ⟨_, rfl, rfl, _, List.mem_cons_of_mem _ (List.mem_cons_self ..), rfl, rfl⟩

/-! ### the hypotheses hold for real programs -/

/-- a pcall inside a conditional: ranks in nested regions count -/
def exNestedB : B :=
  let b1 := (({} : B).addInput "%arg0" (.mp (.float 32) (some [0, 1, 2]))).1
  let inner := (((({} : B).addInput "%arg0" (.mp (.float 32) (some [0, 1, 2]))).1).addOp "simp.pcall_static"
    [⟨true, "%arg0", .mp (.float 32) (some [0, 1, 2])⟩] (some [.mp (.float 32) (some [1, 2])])
    [("parties", .tuple [.int 1, .int 2])] []).1
  (b1.addOp "simp.uniform_cond" [⟨true, "%arg0", .mp (.float 32) (some [0, 1, 2])⟩] (some []) []
    [inner.graph, inner.graph]).1

example (H : Json → String) : ∃ p, compileProgram H "t0" none none ⟨exNestedB.graph, 0, 0, 1, none⟩ = some p ∧
    p.requiredWorldSize = some 3 ∧ p.requiredOpcodes = ["simp.pcall_static", "simp.uniform_cond"] ∧
    PartyIn p.graph 2 :=
  ⟨_, rfl, rfl, (by decide : requiredOpcodesOf exNestedB.graph = _), _, List.mem_cons_of_mem _ (List.mem_cons_self ..), _, .inl rfl,
    List.mem_cons_of_mem _ (List.mem_cons_self ..)⟩

/-- a lossless container exists for any injective text encoding -/
example (text : Json → List Nat) (parse : List Nat → Option Json) (h : ∀ j, parse (text j) = some j) :
    Container.Lossless ⟨text, parse, fun _ b => b, fun b => some (true, b.length, b)⟩ := ⟨h, fun _ _ => rfl⟩

end Verif.Tool
