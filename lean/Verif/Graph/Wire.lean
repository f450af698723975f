import Verif.Graph.Props
import Verif.Serde.WireProps
/-!
# Graphs as bytes (edsl/serde.py:354-413 on `Graph`): property C05 down to the wire

Drivers send programs to workers as `serde.dumps_b64(graph)` (backends/simp_driver/http.py:107) and program artifacts contain
the same JSON.  Nothing about the JSON text is assumed beyond the float and gzip contracts of `WireLib`.
-/
namespace Verif.Graph
open Verif.Serde Verif.Crypto

/-- `serde.dumps(graph, compress)` (edsl/serde.py:354-369) -/
def grDumps (W : WireLib) (c : Bool) (g : Gr) : Option (List Nat) :=
  match grToJson g with
  | none => none
  | some j => if printable j then some (if c then W.compress (jsonBytes W j) else jsonBytes W j) else none

/-- `serde.loads(data, compressed)` on a graph (edsl/serde.py:372-386) -/
def grLoads (W : WireLib) (eq : PyVal → PyVal → Bool) (c : Bool) (d : List Nat) : Option Gr :=
  match (if c then W.decompress d else some d) with
  | none => none
  | some t =>
    match bytesJson W t with
    | none => none
    | some j => grFromJson eq j

/-- `serde.dumps_b64(graph)` (edsl/serde.py:389-400) -/
def grDumpsB64 (W : WireLib) (c : Bool) (g : Gr) : Option String := (grDumps W c g).map fun b => String.ofList (b64enc b)

/-- `serde.loads_b64(data)` (edsl/serde.py:403-413) -/
def grLoadsB64 (W : WireLib) (eq : PyVal → PyVal → Bool) (c : Bool) (s : String) : Option Gr :=
  match b64dec s.toList with
  | none => none
  | some b => grLoads W eq c b

mutual
/-- What every graph in python satisfies: attributes are a dict (different names) of python values, types went through their
constructors; and floats in attributes are numbers, infinities or python's own NaN. -/
def Gr.Wired (eq : PyVal → PyVal → Bool) : Gr → Prop
  | .mk ins ops _ => (∀ v ∈ ins, v.2.valid = true) ∧ opsWired eq ops
/-- see `Gr.Wired` -/
def OpD.Wired (eq : PyVal → PyVal → Bool) : OpD → Prop
  | .mk _ _ outs attrs regions _ => (∀ v ∈ outs, v.2.valid = true) ∧ (attrs.map Prod.fst).Nodup ∧
      (∀ a ∈ attrs, a.2.WF eq ∧ a.2.goodFloats) ∧ regsWired eq regions
/-- see `Gr.Wired` -/
def opsWired (eq : PyVal → PyVal → Bool) : List OpD → Prop
  | [] => True
  | o :: os => o.Wired eq ∧ opsWired eq os
/-- see `Gr.Wired` -/
def regsWired (eq : PyVal → PyVal → Bool) : List Gr → Prop
  | [] => True
  | r :: rs => r.Wired eq ∧ regsWired eq rs
end

theorem vals_clean (vs : List (String × Ty)) (hv : ∀ v ∈ vs, v.2.valid = true) (js : List Json)
    (h : mapOpt valToJson vs = some js) : cleanL js := by
  induction vs generalizing js with
  | nil => simp [mapOpt] at h; subst h; trivial
  | cons v vs ih =>
    simp only [mapOpt] at h
    cases ht : tyToJson v.2 with
    | none => simp [valToJson, ht] at h
    | some j =>
      have hv1 : valToJson v = some (.obj [("name", .str v.1), ("type", j)]) := by simp [valToJson, ht]
      rw [hv1] at h
      cases hr : mapOpt valToJson vs with
      | none => simp [hr] at h
      | some jr =>
        simp only [hr, Option.some.injEq] at h
        subst h
        refine ⟨?_, ih (fun x hx => hv x (by simp [hx])) jr hr⟩
        have := tyToJson_clean v.2 (hv v (by simp)) j ht
        simp [Serde.Clean, cleanF, this]

theorem attrs_clean {eq : PyVal → PyVal → Bool} (hs : ∀ s, eq (.str s) (.str s) = true) (as : List (String × PyVal))
    (hv : ∀ a ∈ as, a.2.WF eq ∧ a.2.goodFloats) (js : List (String × Json)) (h : attrsToJson as = some js) :
    cleanF js ∧ js.map Prod.fst = as.map Prod.fst := by
  induction as generalizing js with
  | nil => simp [attrsToJson, mapOpt] at h; subst h; exact ⟨trivial, rfl⟩
  | cons a as ih =>
    simp only [attrsToJson, mapOpt] at h
    cases ht : toJson a.2 with
    | none => simp [ht] at h
    | some j =>
      simp only [ht] at h
      cases hr : attrsToJson as with
      | none => simp only [attrsToJson] at hr; simp [hr] at h
      | some jr =>
        have hr' := hr
        simp only [attrsToJson] at hr'
        simp only [hr', Option.some.injEq] at h
        subst h
        obtain ⟨h1, h2⟩ := ih (fun x hx => hv x (by simp [hx])) jr hr
        have := toJson_clean hs a.2 (hv a (by simp)).1 (hv a (by simp)).2 j ht
        exact ⟨⟨this, h1⟩, by simp [h2]⟩

mutual
theorem grToJson_clean {eq : PyVal → PyVal → Bool} (hs : ∀ s, eq (.str s) (.str s) = true) (g : Gr) (hg : g.Wired eq)
    (j : Json) (h : grToJson g = some j) : Serde.Clean j := by
  obtain ⟨ins, ops, outs⟩ := g
  simp only [grToJson] at h
  cases hi : mapOpt valToJson ins with
  | none => simp [hi] at h
  | some ji =>
    cases ho : opsToJson ops with
    | none => simp [hi, ho] at h
    | some jo =>
      simp only [hi, ho, Option.some.injEq] at h
      subst h
      have h1 := vals_clean ins hg.1 ji hi
      have h2 := opsToJson_clean hs ops hg.2 jo ho
      have h3 := cleanL_strs (fun s : String => s) outs
      simp [withKind, setKey, Serde.Clean, cleanF, h1, h2, h3]
theorem opToJson_clean {eq : PyVal → PyVal → Bool} (hs : ∀ s, eq (.str s) (.str s) = true) (o : OpD) (ho : o.Wired eq)
    (j : Json) (h : opToJson o = some j) : Serde.Clean j := by
  obtain ⟨opcode, ins, outs, attrs, regions, name⟩ := o
  simp only [opToJson] at h
  cases hi : mapOpt valToJson outs with
  | none => simp [hi] at h
  | some jo =>
    cases ha : attrsToJson attrs with
    | none => simp [hi, ha] at h
    | some ja =>
      cases hr : regsToJson regions with
      | none => simp [hi, ha, hr] at h
      | some jr =>
        simp only [hi, ha, hr, Option.some.injEq] at h
        subst h
        obtain ⟨w1, w2, w3, w4⟩ := ho
        have h1 := vals_clean outs w1 jo hi
        obtain ⟨h2, h3⟩ := attrs_clean hs attrs w3 ja ha
        have h4 := regsToJson_clean hs regions w4 jr hr
        have h5 := cleanL_strs (fun v : Operand => v.name) ins
        rw [← h3] at w2
        simp [Serde.Clean, cleanF, h1, h2, h4, h5, w2]
theorem opsToJson_clean {eq : PyVal → PyVal → Bool} (hs : ∀ s, eq (.str s) (.str s) = true) (os : List OpD)
    (ho : opsWired eq os) (js : List Json) (h : opsToJson os = some js) : cleanL js := by
  match os, ho, h with
  | [], _, h => simp [opsToJson] at h; subst h; trivial
  | o :: os, ho, h =>
    simp only [opsToJson] at h
    cases h1 : opToJson o with
    | none => simp [h1] at h
    | some j =>
      cases h2 : opsToJson os with
      | none => simp [h1, h2] at h
      | some jr =>
        simp only [h1, h2, Option.some.injEq] at h
        subst h
        exact ⟨opToJson_clean hs o ho.1 j h1, opsToJson_clean hs os ho.2 jr h2⟩
theorem regsToJson_clean {eq : PyVal → PyVal → Bool} (hs : ∀ s, eq (.str s) (.str s) = true) (rs : List Gr)
    (ho : regsWired eq rs) (js : List Json) (h : regsToJson rs = some js) : cleanL js := by
  match rs, ho, h with
  | [], _, h => simp [regsToJson] at h; subst h; trivial
  | o :: os, ho, h =>
    simp only [regsToJson] at h
    cases h1 : grToJson o with
    | none => simp [h1] at h
    | some j =>
      cases h2 : regsToJson os with
      | none => simp [h1, h2] at h
      | some jr =>
        simp only [h1, h2, Option.some.injEq] at h
        subst h
        exact ⟨grToJson_clean hs o ho.1 j h1, regsToJson_clean hs os ho.2 jr h2⟩
end

/-- **C05** on the wire: whatever bytes `dumps` writes for a graph built without a failed `add_op`, `loads` reads back as the
same graph, compressed or not. -/
theorem graph_bytes_roundtrip_partial {W : WireLib} (hW : W.Ok) {eq : PyVal → PyVal → Bool}
    (hs : ∀ s, eq (.str s) (.str s) = true) (g : Gr) (hg : CleanG eq g) (hw : g.Wired eq) (c : Bool) (d : List Nat)
    (h : grDumps W c g = some d) : grLoads W eq c d = some g := by
  unfold grDumps at h
  split at h
  · cases h
  · rename_i j hj
    split at h
    · rename_i hp
      cases h
      have hb := bytesJson_jsonBytes hW j (grToJson_clean hs g hw j hj) hp
      have hr := graph_json_roundtrip_partial eq g hg j hj
      cases c
      · simp [grLoads, hb, hr]
      · simp only [grLoads, if_true]
        rw [hW.gzip _ (by rw [jsonBytes]; exact utf8_bytes _)]
        simp only [hb, hr]
    · cases h

/-- **C05** for the base64 text of the `/exec` request. -/
theorem graph_b64_roundtrip_partial {W : WireLib} (hW : W.Ok) {eq : PyVal → PyVal → Bool}
    (hs : ∀ s, eq (.str s) (.str s) = true) (g : Gr) (hg : CleanG eq g) (hw : g.Wired eq) (c : Bool) (d : String)
    (h : grDumpsB64 W c g = some d) : grLoadsB64 W eq c d = some g := by
  simp only [grDumpsB64, Option.map_eq_some_iff] at h
  obtain ⟨b, hb, rfl⟩ := h
  have hby : ∀ x ∈ b, x < 256 := by
    have hb' := hb
    unfold grDumps at hb'
    split at hb'
    · cases hb'
    · split at hb'
      · cases hb'
        cases c
        · exact utf8_bytes _
        · exact hW.bytes _ (by rw [jsonBytes]; exact utf8_bytes _)
      · cases hb'
  simp only [grLoadsB64, String.toList_ofList, b64dec_enc b hby]
  exact graph_bytes_roundtrip_partial hW hs g hg hw c b hb

example : (grDumps toyWire true exOuter.graph).isSome = true ∧ (grDumpsB64 toyWire true exOuter.graph).isSome = true := by
  decide +kernel

theorem exOuter_wired (eq : PyVal → PyVal → Bool) : exOuter.graph.Wired eq := by
  have e : exOuter.graph = .mk [("%arg0", .float 32)] [.mk "simp.uniform_cond" [⟨true, "%arg0", .float 32⟩]
      [("%0", .float 32), ("%1", .int 64 true)] [("verify", .bool true)] [exInner.graph, exInner.graph] "op0"] ["%1"] := by
    rfl
  have e' : exInner.graph = .mk [("%arg0", .float 32)] [.mk "neg" [⟨true, "%arg0", .float 32⟩]
      [("%0", .float 32)] [] [] "op0"] ["%0"] := by rfl
  have hi : exInner.graph.Wired eq := by
    rw [e']
    simp [Gr.Wired, opsWired, OpD.Wired, regsWired, Ty.valid, Ty.localOk, bitwidthOk, floatOk]
  rw [e]
  simp [Gr.Wired, opsWired, OpD.Wired, regsWired, hi, PyVal.WF, PyVal.goodFloats, Ty.valid, Ty.localOk, bitwidthOk, floatOk]

end Verif.Graph
