import Verif.Graph.Printer
/-!
# Graphs as text (`Graph.to_string`, edsl/graph.py:312-362; `str(graph)`; `TracedFunction.compiler_ir`, edsl/tracer.py:479-499)

Specification: `GraphShown`, `PlainGraph`.
-/
namespace Verif.Graph.Printer
open Verif.Serde

variable {A : Type}

/-- `f" : {v.type}"` if verbose (edsl/graph.py:325, 332, 346) -/
def typeSuffix (verbose : Bool) (v : String × Ty) : List Char := if verbose then ' ' :: ':' :: ' ' :: v.2.text else []

/-- the type of the first output, if verbose and there is one (edsl/graph.py:346) -/
def firstType (verbose : Bool) : List (String × Ty) → List Char
  | [] => []
  | v :: _ => typeSuffix verbose v

/-- `{k}={v}` for the attributes in insertion order, if there are any (edsl/graph.py:348-352); `str` is python's `str` -/
def attrsStr (str : A → List Char) (attrs : List (String × A)) : List Char :=
  if attrs.isEmpty then [] else ' ' :: '{' :: (joinC (attrs.map fun a => a.1.toList ++ '=' :: str a.2) ++ ['}'])

/-- `op.attrs.get("value", "?")` in an f-string (edsl/graph.py:331) -/
def valueStr (str : A → List Char) (attrs : List (String × A)) : List Char :=
  match attrs.find? (fun a => a.1 = "value") with
  | some a => str a.2
  | none => ['?']

/-- one operation (edsl/graph.py:329-354); a `constant` without outputs is an `IndexError`.  The operation's regions are not read. -/
def opStr (str : A → List Char) (verbose : Bool) : PO A → Option (List Char)
  | .mk opcode ins outs attrs _ =>
    if opcode = "constant" then
      match outs with
      | [] => none
      | v :: _ => some (v.1.toList ++ ' ' :: '=' :: ' ' :: 'c' :: 'o' :: 'n' :: 's' :: 't' :: 'a' :: 'n' :: 't' :: ' ' ::
          (valueStr str attrs ++ typeSuffix verbose v))
    else some (outsText outs ++ ' ' :: '=' :: ' ' :: (opcode.toList ++ '(' :: (joinC (ins.map String.toList) ++ ')' ::
      (attrsStr str attrs ++ firstType verbose outs))))

/-- an input (edsl/graph.py:324-326) -/
def inputStr (verbose : Bool) (v : String × Ty) : List Char :=
  v.1.toList ++ ' ' :: '=' :: ' ' :: 'i' :: 'n' :: 'p' :: 'u' :: 't' :: typeSuffix verbose v

/-- the last line (edsl/graph.py:357-359) -/
def returnStr : List String → List (List Char)
  | [] => []
  | o :: os => ['r' :: 'e' :: 't' :: 'u' :: 'r' :: 'n' :: ' ' :: joinC ((o :: os).map String.toList)]

/-- `Graph.to_string(verbose)` (edsl/graph.py:312-362), which is also `compiler_ir(verbose)` and, not verbose, `str(graph)` -/
def toStr (str : A → List Char) (verbose : Bool) : PG A → Option (List Char)
  | .mk ins ops outs => (ops.mapM (opStr str verbose)).map fun ls => joinLines (ins.map (inputStr verbose) ++ ls ++ returnStr outs)

/-! ## Specification -/

/-- all of an operation but its regions and the types of its outputs other than the first (of all, if not verbose) -/
def PO.shown (verbose : Bool) : PO A → String × List String × List String × Option Ty × List (String × A)
  | .mk opcode ins outs attrs _ =>
    (opcode, ins, outs.map Prod.fst, if verbose then (outs.head?).map fun v => v.2.hide else none, attrs)

/-- The graphs have the same inputs, outputs and top-level operations, without the regions of these; with the types of the inputs
and of the first output of every operation if `verbose` (without the encryption schemas of secret-shared types). -/
def GraphShown (verbose : Bool) : PG A → PG A → Prop
  | .mk ins ops outs, .mk ins' ops' outs' =>
    (ins.map fun v => (v.1, if verbose then some v.2.hide else none)) = (ins'.map fun v => (v.1, if verbose then some v.2.hide else none)) ∧
    ops.map (PO.shown verbose) = ops'.map (PO.shown verbose) ∧ outs = outs'

/-- the characters an opcode may have here -/
def opChar (c : Char) : Bool := c != '(' && c != ' ' && c != '\n'

/-- names, opcodes and types are plain, attribute values satisfy `ok`, and there is no opcode `constant` (no dialect has it) -/
def PlainGraph (ok : A → Prop) : PG A → Prop
  | .mk ins ops outs => (∀ v ∈ ins, PlainVal v) ∧ (∀ n ∈ outs, ValueName n) ∧ ∀ o ∈ ops, match o with
    | .mk c is os as _ => c ≠ "constant" ∧ (∀ x ∈ c.toList, opChar x = true) ∧ (∀ n ∈ is, ValueName n) ∧ (∀ v ∈ os, PlainVal v) ∧
        ∀ a ∈ as, AttrName a.1 ∧ ok a.2

/-! ## Proofs -/

/-- all lines, each followed by a line feed -/
def catN (l : List (List Char)) : List Char := l.flatMap fun x => x ++ ['\n']

theorem catN_join : ∀ l : List (List Char), l ≠ [] → catN l = joinLines l ++ ['\n']
  | [], h => absurd rfl h
  | [x], _ => by simp [catN, joinLines]
  | x :: y :: l, _ => by
    have := catN_join (y :: l) (by simp)
    simp only [catN, List.flatMap_cons] at this ⊢
    rw [joinLines, this]
    simp

theorem word_upto : ∀ {a b r r' : List Char}, (∀ c ∈ a, opChar c = true) → (∀ c ∈ b, opChar c = true) →
    (∀ c x, r = c :: x → opChar c = false) → (∀ c x, r' = c :: x → opChar c = false) → a ++ r = b ++ r' → a = b ∧ r = r'
  | [], [], r, r', _, _, _, _, h => by simpa using h
  | [], x :: b, r, r', _, hb, hr, _, h => by
    have := hr x (b ++ r') (by simpa using h)
    rw [hb x List.mem_cons_self] at this; cases this
  | x :: a, [], r, r', ha, _, _, hr', h => by
    have := hr' x (a ++ r) (by simpa using h.symm)
    rw [ha x List.mem_cons_self] at this; cases this
  | x :: a, y :: b, r, r', ha, hb, hr, hr', h => by
    simp only [List.cons_append, List.cons.injEq] at h
    obtain ⟨e1, e2⟩ := word_upto (fun c m => ha c (List.mem_cons_of_mem _ m)) (fun c m => hb c (List.mem_cons_of_mem _ m))
      hr hr' h.2
    exact ⟨by rw [h.1, e1], e2⟩

theorem suffix_upto (verbose : Bool) {v w : String × Ty} {r r' : List Char} (hv : PlainVal v) (hw : PlainVal w)
    (h : typeSuffix verbose v ++ '\n' :: r = typeSuffix verbose w ++ '\n' :: r') :
    (if verbose then some v.2.hide else none) = (if verbose then some w.2.hide else none) ∧ r = r' := by
  cases verbose with
  | false => simpa [typeSuffix] using h
  | true =>
    simp only [typeSuffix, if_true, List.cons_append, List.cons.injEq, true_and] at h
    obtain ⟨e1, e2⟩ := text_upto _ _ _ _ hv.2 hw.2 (stops_cons (by decide)) (stops_cons (by decide)) h
    simp only [List.cons.injEq, true_and] at e2
    exact ⟨by simp [e1], e2⟩

theorem first_upto (verbose : Bool) {l l' : List (String × Ty)} {r r' : List Char} (hl : ∀ v ∈ l, PlainVal v)
    (hl' : ∀ v ∈ l', PlainVal v) (hn : l.map Prod.fst = l'.map Prod.fst)
    (h : firstType verbose l ++ '\n' :: r = firstType verbose l' ++ '\n' :: r') :
    (if verbose then (l.head?).map fun v => v.2.hide else none) = (if verbose then (l'.head?).map fun v => v.2.hide else none) ∧ r = r' := by
  match l, l' with
  | [], [] => simpa [firstType] using h
  | [], _ :: _ => simp at hn
  | _ :: _, [] => simp at hn
  | v :: l, w :: l' =>
    obtain ⟨e1, e2⟩ := suffix_upto verbose (hl v List.mem_cons_self) (hl' w List.mem_cons_self) h
    exact ⟨by simpa using e1, e2⟩

/-- what may follow the attributes here -/
def AfterAttrsStr (z : List Char) : Prop := ∃ x, z = '\n' :: x ∨ z = ' ' :: ':' :: x

theorem first_after (verbose : Bool) (l : List (String × Ty)) (r : List Char) : AfterAttrsStr (firstType verbose l ++ '\n' :: r) := by
  cases l with
  | nil => exact ⟨r, .inl rfl⟩
  | cons v l =>
    cases verbose with
    | false => exact ⟨r, .inl rfl⟩
    | true => exact ⟨_, .inr rfl⟩

theorem attrsStr_upto {str : A → List Char} {ok : A → Prop} (hstr : ReprClear str ok) (l l' : List (String × A))
    (z z' : List Char) (hl : ∀ a ∈ l, AttrName a.1 ∧ ok a.2) (hl' : ∀ a ∈ l', AttrName a.1 ∧ ok a.2) (hz : AfterAttrsStr z)
    (hz' : AfterAttrsStr z') (h : attrsStr str l ++ z = attrsStr str l' ++ z') : l = l' ∧ z = z' := by
  have clash : ∀ (m : List (String × A)) (z z' : List Char), m ≠ [] → AfterAttrsStr z' →
      attrsStr str m ++ z ≠ attrsStr str [] ++ z' := by
    intro m z z' hne hz' e
    obtain ⟨x, rfl | rfl⟩ := hz' <;> simp [attrsStr, hne] at e
  by_cases e1 : l = [] <;> by_cases e2 : l' = []
  · subst e1; subst e2
    exact ⟨rfl, by simpa [attrsStr] using h⟩
  · subst e1; exact absurd h.symm (clash l' z' z e2 hz)
  · subst e2; exact absurd h (clash l z z' e1 hz')
  · unfold attrsStr at h
    rw [if_neg (by simp [e1]), if_neg (by simp [e2])] at h
    simp only [List.nil_append, List.cons_append, List.append_assoc, List.cons.injEq, true_and] at h
    have hj := join_upto (fun a : String × A => a.1.toList ++ '=' :: str a.2) id (fun a => AttrName a.1 ∧ ok a.2) '}'
      (by decide)
      (fun a b r r' hka hkb hs hs' e => by
        simp only [List.append_assoc, List.cons_append] at e
        obtain ⟨e5, e6⟩ := ident_upto hka.1.2 hkb.1.2 (brk_cons (by decide)) (brk_cons (by decide)) e
        simp only [List.cons.injEq, true_and] at e6
        obtain ⟨e7, e8⟩ := hstr a.2 b.2 r r' hka.2 hkb.2 hs hs' e6
        exact ⟨Prod.ext (String.toList_inj.mp e5) e7, e8⟩)
      (fun a r r' hka e => by
        obtain ⟨c, w, hc⟩ := List.exists_cons_of_ne_nil hka.1.1
        have := hka.1.2 c (by rw [hc]; exact List.mem_cons_self)
        simp only [hc, List.cons_append, List.cons.injEq] at e
        rw [e.1] at this
        exact absurd this (by decide))
      l l' z z' hl hl' h
    exact ⟨by simpa using hj.1, hj.2⟩

/-- the lines of a graph before the last: inputs, and operations without their regions -/
inductive Row (A : Type) where
  | inp (v : String × Ty)
  | op (opcode : String) (ins : List String) (outs : List (String × Ty)) (attrs : List (String × A))

/-- text of a row -/
def Row.text (str : A → List Char) (verbose : Bool) : Row A → List Char
  | .inp v => inputStr verbose v
  | .op opcode ins outs attrs => outsText outs ++ ' ' :: '=' :: ' ' :: (opcode.toList ++ '(' :: (joinC (ins.map String.toList) ++ ')' ::
      (attrsStr str attrs ++ firstType verbose outs)))

/-- what a row shows -/
def Row.shown (verbose : Bool) : Row A → (String × Option Ty) ⊕ (String × List String × List String × Option Ty × List (String × A))
  | .inp v => .inl (v.1, if verbose then some v.2.hide else none)
  | .op opcode ins outs attrs => .inr (opcode, ins, outs.map Prod.fst, if verbose then (outs.head?).map fun v => v.2.hide else none, attrs)

/-- see `PlainGraph` -/
def Row.Plain (ok : A → Prop) : Row A → Prop
  | .inp v => PlainVal v
  | .op c is os as => (∀ x ∈ c.toList, opChar x = true) ∧ (∀ n ∈ is, ValueName n) ∧ (∀ v ∈ os, PlainVal v) ∧ ∀ a ∈ as, AttrName a.1 ∧ ok a.2

theorem suffix_break (verbose : Bool) (v : String × Ty) (r : List Char) :
    ∃ c x, typeSuffix verbose v ++ '\n' :: r = c :: x ∧ (c = ' ' ∨ c = '\n') := by
  cases verbose with
  | false => exact ⟨_, _, rfl, .inr rfl⟩
  | true => exact ⟨_, _, rfl, .inl rfl⟩

theorem inp_op_ne (verbose : Bool) (v : String × Ty) (c : String) (hc : ∀ x ∈ c.toList, opChar x = true) (r q : List Char) :
    'i' :: 'n' :: 'p' :: 'u' :: 't' :: (typeSuffix verbose v ++ '\n' :: r) ≠ c.toList ++ '(' :: q := by
  intro e
  obtain ⟨d, x, ex, hd⟩ := suffix_break verbose v r
  rw [ex] at e
  have := word_upto (a := ['i', 'n', 'p', 'u', 't']) (b := c.toList) (r := d :: x) (r' := '(' :: q) (by decide) hc
    (by intro c' y h; cases h; rcases hd with rfl | rfl <;> decide) (by intro c' y h; cases h; decide) (by simpa using e)
  have h2 := this.2
  simp only [List.cons.injEq] at h2
  rcases hd with rfl | rfl <;> exact absurd h2.1 (by decide)

theorem row_upto {str : A → List Char} {ok : A → Prop} (hstr : ReprClear str ok) (verbose : Bool) :
    ∀ (a b : Row A) (r r' : List Char), a.Plain ok → b.Plain ok →
      a.text str verbose ++ '\n' :: r = b.text str verbose ++ '\n' :: r' → a.shown verbose = b.shown verbose ∧ r = r'
  | .inp v, .inp w, r, r', hv, hw, h => by
    simp only [Row.text, inputStr, List.append_assoc, List.cons_append] at h
    obtain ⟨e1, e2⟩ := value_upto hv.1 hw.1 (brk_cons (by decide)) (brk_cons (by decide)) h
    simp only [List.cons.injEq, true_and] at e2
    obtain ⟨e3, e4⟩ := suffix_upto verbose hv hw e2
    exact ⟨by simp only [Row.shown, e1, e3], e4⟩
  | .inp v, .op c is os as, r, r', hv, ho, h => by
    simp only [Row.text, inputStr, List.append_assoc, List.cons_append] at h
    have := (outs_upto [v] os _ _ (by intro w hw; rw [List.mem_singleton.mp hw]; exact hv) ho.2.2.1 h).2
    simp only [List.cons.injEq, true_and] at this
    exact absurd this (inp_op_ne verbose v c ho.1 _ _)
  | .op c is os as, .inp v, r, r', ho, hv, h => by
    simp only [Row.text, inputStr, List.append_assoc, List.cons_append] at h
    have := (outs_upto [v] os _ _ (by intro w hw; rw [List.mem_singleton.mp hw]; exact hv) ho.2.2.1 h.symm).2
    simp only [List.cons.injEq, true_and] at this
    exact absurd this (inp_op_ne verbose v c ho.1 _ _)
  | .op c is os as, .op c' is' os' as', r, r', h1, h2, h => by
    simp only [Row.text, List.append_assoc, List.cons_append] at h
    obtain ⟨e1, e2⟩ := outs_upto os os' _ _ h1.2.2.1 h2.2.2.1 h
    simp only [List.cons.injEq, true_and] at e2
    obtain ⟨e3, e4⟩ := word_upto h1.1 h2.1 (by intro c' y h; cases h; decide) (by intro c' y h; cases h; decide) e2
    simp only [List.cons.injEq, true_and] at e4
    obtain ⟨e5, e6⟩ := names_upto (by decide) (by decide) (by decide) _ _ _ _ h1.2.1 h2.2.1 e4
    obtain ⟨e7, e8⟩ := attrsStr_upto hstr _ _ _ _ h1.2.2.2 h2.2.2.2 (first_after ..) (first_after ..) e6
    obtain ⟨e9, e10⟩ := first_upto verbose h1.2.2.1 h2.2.2.1 e1 e8
    exact ⟨by simp only [Row.shown, e1, e5, e7, e9, String.toList_inj.mp e3], e10⟩

theorem row_head {ok : A → Prop} (str : A → List Char) (verbose : Bool) (a : Row A) (h : a.Plain ok) (r : List Char) :
    ∃ c x, a.text str verbose ++ r = c :: x ∧ (c = '%' ∨ c = '[') := by
  cases a with
  | inp v =>
    obtain ⟨w, ew, _⟩ := h.1
    exact ⟨'%', _, by simp only [Row.text, inputStr, ew, List.cons_append]; rfl, .inl rfl⟩
  | op c is os as =>
    obtain ⟨c, x, e, hc⟩ := outs_head os h.2.2.1 (' ' :: '=' :: ' ' :: (c.toList ++ '(' :: (joinC (is.map String.toList) ++ ')' ::
      (attrsStr str as ++ firstType verbose os))) ++ r)
    exact ⟨c, x, by simp only [Row.text, List.append_assoc, List.cons_append] at e ⊢; exact e, hc⟩

theorem ret_lines_upto {o o' : List String} (ho : ∀ n ∈ o, ValueName n) (ho' : ∀ n ∈ o', ValueName n)
    (h : catN (returnStr o) = catN (returnStr o')) : o = o' := by
  match o, o' with
  | [], [] => rfl
  | [], _ :: _ => simp [returnStr, catN] at h
  | _ :: _, [] => simp [returnStr, catN] at h
  | n :: o, n' :: o' =>
    simp only [returnStr, catN, List.flatMap_cons, List.flatMap_nil, List.append_nil, List.cons_append, List.cons.injEq, true_and] at h
    exact (names_upto (by decide) (by decide) (by decide) _ _ _ _ ho ho' h).1

theorem rows_upto {str : A → List Char} {ok : A → Prop} (hstr : ReprClear str ok) (verbose : Bool) (o o' : List String)
    (ho : ∀ n ∈ o, ValueName n) (ho' : ∀ n ∈ o', ValueName n) :
    ∀ (l l' : List (Row A)), (∀ a ∈ l, a.Plain ok) → (∀ a ∈ l', a.Plain ok) →
      catN (l.map (Row.text str verbose)) ++ catN (returnStr o) = catN (l'.map (Row.text str verbose)) ++ catN (returnStr o') →
      l.map (Row.shown verbose) = l'.map (Row.shown verbose) ∧ o = o' := by
  have clash : ∀ (a : Row A) (l : List (Row A)) (o o' : List String), a.Plain ok →
      catN ((a :: l).map (Row.text str verbose)) ++ catN (returnStr o) ≠ catN (returnStr o') := by
    intro a l o o' ha e
    obtain ⟨c, x, ex, hc⟩ := row_head str verbose a ha ('\n' :: (catN (l.map (Row.text str verbose)) ++ catN (returnStr o)))
    simp only [catN, List.map_cons, List.flatMap_cons, List.append_assoc, List.cons_append, List.nil_append] at e ex
    rw [ex] at e
    cases o' with
    | nil => simp [returnStr] at e
    | cons n o' =>
      simp only [returnStr, List.flatMap_cons, List.cons_append, List.cons.injEq] at e
      rcases hc with rfl | rfl <;> exact absurd e.1 (by decide)
  intro l
  induction l with
  | nil =>
    intro l' _ hl' h
    cases l' with
    | nil => exact ⟨rfl, ret_lines_upto ho ho' (by simpa [catN] using h)⟩
    | cons b m => exact absurd (by simpa [catN] using h.symm) (clash b m o' o (hl' b List.mem_cons_self))
  | cons a l ih =>
    intro l' hl hl' h
    cases l' with
    | nil => exact absurd (by simpa [catN] using h) (clash a l o o' (hl a List.mem_cons_self))
    | cons b m =>
      simp only [catN, List.map_cons, List.flatMap_cons, List.append_assoc, List.cons_append, List.nil_append] at h
      obtain ⟨e1, e2⟩ := row_upto hstr verbose a b _ _ (hl a List.mem_cons_self) (hl' b List.mem_cons_self) h
      obtain ⟨e3, e4⟩ := ih m (fun x hx => hl x (List.mem_cons_of_mem _ hx)) (fun x hx => hl' x (List.mem_cons_of_mem _ hx)) e2
      exact ⟨by rw [List.map_cons, List.map_cons, e1, e3], e4⟩

/-- the row of an operation -/
def PO.row : PO A → Row A
  | .mk c is os as _ => .op c is os as

theorem opStr_eq (str : A → List Char) (verbose : Bool) (o : PO A) (h : match o with | .mk c _ _ _ _ => c ≠ "constant") :
    opStr str verbose o = some (o.row.text str verbose) := by
  obtain ⟨c, is, os, as, rs⟩ := o
  simp only [opStr, PO.row, Row.text]
  rw [if_neg h]

theorem mapM_opStr (str : A → List Char) (verbose : Bool) : ∀ (l : List (PO A)),
    (∀ o ∈ l, match o with | .mk c _ _ _ _ => c ≠ "constant") → l.mapM (opStr str verbose) = some (l.map fun o => o.row.text str verbose)
  | [], _ => rfl
  | o :: l, h => by
    rw [List.mapM_cons, opStr_eq str verbose o (h o List.mem_cons_self), mapM_opStr str verbose l (fun o m => h o (List.mem_cons_of_mem _ m))]
    rfl

theorem split_rows {α β : Type} : ∀ (a a' : List α) (b b' : List β), a.map Sum.inl ++ b.map Sum.inr = a'.map (Sum.inl (β := β)) ++ b'.map Sum.inr →
    a = a' ∧ b = b' := by
  have inr : ∀ b b' : List β, b.map (Sum.inr (α := α)) = b'.map Sum.inr → b = b' := fun b b' h =>
    (List.map_inj_right (fun _ _ e => Sum.inr.inj e)).mp h
  intro a
  induction a with
  | nil =>
    intro a' b b' h
    cases a' with
    | nil => exact ⟨rfl, inr _ _ (by simpa using h)⟩
    | cons x a' => cases b <;> simp at h
  | cons x a ih =>
    intro a' b b' h
    cases a' with
    | nil => cases b' <;> simp at h
    | cons y a' =>
      simp only [List.map_cons, List.cons_append, List.cons.injEq, Sum.inl.injEq] at h
      obtain ⟨e1, e2⟩ := ih a' b b' h.2
      exact ⟨by rw [h.1, e1], e2⟩

theorem toStr_rows (str : A → List Char) (verbose : Bool) {ok : A → Prop} (ins : List (String × Ty)) (ops : List (PO A)) (outs : List String)
    (h : PlainGraph ok (.mk ins ops outs)) :
    toStr str verbose (.mk ins ops outs) = some (joinLines ((ins.map Row.inp ++ ops.map PO.row).map (Row.text str verbose) ++ returnStr outs)) ∧
    ∀ a ∈ ins.map Row.inp ++ ops.map PO.row, a.Plain ok := by
  obtain ⟨h1, _, h3⟩ := h
  constructor
  · have hm := mapM_opStr str verbose ops (fun o m => by
      have := h3 o m
      obtain ⟨c, is, os, as, rs⟩ := o
      exact this.1)
    simp only [toStr, hm, Option.map_some]
    simp only [List.map_append, List.map_map, Function.comp_def, Row.text]
  · intro a ha
    rcases List.mem_append.mp ha with ha | ha
    · obtain ⟨v, hv, rfl⟩ := List.mem_map.mp ha
      exact h1 v hv
    · obtain ⟨o, ho, rfl⟩ := List.mem_map.mp ha
      have := h3 o ho
      obtain ⟨c, is, os, as, rs⟩ := o
      exact this.2

/-! ## Properties -/

/-- **C123** (part of: the text of a graph determines the graph) `str(graph)`, `to_string(verbose)` and `compiler_ir(verbose)` print,
and two graphs with the same text have the same inputs, outputs and top-level operations, with operands, attributes in their order
and names of the results, and the same types of inputs and first outputs if `verbose`.  Missing: regions and the types of further
outputs (which are not printed, see `to_string_regions_violated`), encryption schemas, operation names, names with special characters,
attribute values with an ambiguous `str`. -/
theorem to_string_determines_partial {str : A → List Char} {ok : A → Prop} (hstr : ReprClear str ok) (verbose : Bool) (g g' : PG A)
    (h : PlainGraph ok g) (h' : PlainGraph ok g') :
    (∃ t, toStr str verbose g = some t) ∧ (toStr str verbose g = toStr str verbose g' → GraphShown verbose g g') := by
  obtain ⟨ins, ops, outs⟩ := g
  obtain ⟨ins', ops', outs'⟩ := g'
  obtain ⟨e1, p1⟩ := toStr_rows str verbose ins ops outs h
  obtain ⟨e2, p2⟩ := toStr_rows str verbose ins' ops' outs' h'
  refine ⟨⟨_, e1⟩, ?_⟩
  rw [e1, e2]
  intro e
  injection e with e
  have hne : ∀ (l : List (Row A)) (o : List String), (∀ a ∈ l, a.Plain ok) → l.map (Row.text str verbose) ++ returnStr o ≠ [] →
      joinLines (l.map (Row.text str verbose) ++ returnStr o) ≠ [] := by
    intro l o hl hn e0
    have := catN_join _ hn
    rw [e0] at this
    cases l with
    | nil => cases o with
      | nil => exact hn rfl
      | cons n o => simp [returnStr, catN] at this
    | cons a l =>
      obtain ⟨c, x, ex, hc⟩ := row_head str verbose a (hl a List.mem_cons_self)
        ('\n' :: (catN (l.map (Row.text str verbose)) ++ catN (returnStr o)))
      simp only [catN, List.map_cons, List.cons_append, List.flatMap_cons, List.flatMap_append, List.append_assoc, List.nil_append] at this ex
      rw [ex] at this
      simp only [List.cons.injEq] at this
      rcases hc with rfl | rfl <;> exact absurd this.1 (by decide)
  have hcat : catN ((ins.map Row.inp ++ ops.map PO.row).map (Row.text str verbose)) ++ catN (returnStr outs) =
      catN ((ins'.map Row.inp ++ ops'.map PO.row).map (Row.text str verbose)) ++ catN (returnStr outs') := by
    have ca : ∀ a b : List (List Char), catN a ++ catN b = catN (a ++ b) := by intro a b; simp [catN]
    rw [ca, ca]
    by_cases n1 : (ins.map Row.inp ++ ops.map PO.row).map (Row.text str verbose) ++ returnStr outs = []
    · by_cases n2 : (ins'.map Row.inp ++ ops'.map PO.row).map (Row.text str verbose) ++ returnStr outs' = []
      · rw [n1, n2]
      · rw [n1] at e
        exact absurd e.symm (hne _ _ p2 n2)
    · by_cases n2 : (ins'.map Row.inp ++ ops'.map PO.row).map (Row.text str verbose) ++ returnStr outs' = []
      · rw [n2] at e
        exact absurd e (hne _ _ p1 n1)
      · rw [catN_join _ n1, catN_join _ n2, e]
  obtain ⟨e3, e4⟩ := rows_upto hstr verbose outs outs' h.2.1 h'.2.1 _ _ p1 p2 hcat
  have conv : ∀ (ins : List (String × Ty)) (ops : List (PO A)), (ins.map Row.inp ++ ops.map PO.row).map (Row.shown verbose) =
      (ins.map fun v => (v.1, if verbose then some v.2.hide else none)).map Sum.inl ++ (ops.map (PO.shown verbose)).map Sum.inr := by
    intro ins ops
    have hs : ∀ o : PO A, o.row.shown verbose = Sum.inr (o.shown verbose) := fun o => by obtain ⟨c, is, os, as, rs⟩ := o; rfl
    rw [List.map_append, List.map_map, List.map_map, List.map_map, List.map_map]
    rw [show (Row.shown verbose ∘ PO.row : PO A → _) = Sum.inr ∘ PO.shown verbose from funext hs]
    rfl
  rw [conv, conv] at e3
  obtain ⟨e5, e6⟩ := split_rows _ _ _ _ e3
  exact ⟨e5, e6, e4⟩

/-- the operation without its regions -/
def PO.bare : PO A → PO A
  | .mk c ins outs attrs _ => .mk c ins outs attrs []

/-- **C123** (violated) `str(graph)`, `to_string` and `compiler_ir` do not read the regions of operations, verbose or not: graphs that
run different functions print alike. -/
theorem to_string_regions_violated (str : A → List Char) (verbose : Bool) (ins : List (String × Ty)) (ops ops' : List (PO A))
    (outs : List String) (h : ops.map PO.bare = ops'.map PO.bare) :
    toStr str verbose (.mk ins ops outs) = toStr str verbose (.mk ins ops' outs) := by
  have key : ∀ o o' : PO A, o.bare = o'.bare → opStr str verbose o = opStr str verbose o' := by
    intro o o' e
    obtain ⟨c, is, os, as, rs⟩ := o
    obtain ⟨c', is', os', as', rs'⟩ := o'
    simp only [PO.bare, PO.mk.injEq] at e
    obtain ⟨rfl, rfl, rfl, rfl, _⟩ := e
    rfl
  have hm : ∀ (l l' : List (PO A)), l.map PO.bare = l'.map PO.bare → l.mapM (opStr str verbose) = l'.mapM (opStr str verbose) := by
    intro l
    induction l with
    | nil => intro l' e; cases l' with
      | nil => rfl
      | cons x m => simp at e
    | cons o l ih => intro l' e; cases l' with
      | nil => simp at e
      | cons o' l' =>
        simp only [List.map_cons, List.cons.injEq] at e
        rw [List.mapM_cons, List.mapM_cons, key o o' e.1, ih l' e.2]
  simp only [toStr, hm ops ops' h]

/-- two graphs in which one party runs different functions -/
def pcallOf (body : PG IntAttr) : PG IntAttr :=
  .mk [("%arg0", .mp (.float 32) (some [0]))]
    [.mk "simp.pcall_static" ["%arg0"] [("%0", .mp (.float 32) (some [0]))] [("parties", .tuple [0])] [body]] ["%0"]

example : (toStr IntAttr.repr true (pcallOf (.mk [("%arg0", .float 32)] [] ["%arg0"]))).map String.ofList = some "%arg0 = input : MP[f32, parties=(0,)]
%0 = simp.pcall_static(%arg0) {parties=(0,)} : MP[f32, parties=(0,)]
return %0" := by decide +kernel

example (body : PG IntAttr) : PlainGraph (fun _ => True) (pcallOf body) := by
  have n1 : ValueName "%arg0" := ⟨['a', 'r', 'g', '0'], by decide, by decide⟩
  have n2 : ValueName "%0" := ⟨['0'], by decide, by decide⟩
  have a1 : AttrName "parties" := ⟨by decide, by decide⟩
  have o1 : ∀ x ∈ "simp.pcall_static".toList, opChar x = true := by decide
  refine ⟨?_, ?_, ?_⟩
  · simp [PlainVal, Ty.PlainNames, n1]
  · simp [n2]
  · intro o ho
    rw [List.mem_singleton.mp ho]
    exact ⟨by decide, o1, by simp [n1], by simp [PlainVal, Ty.PlainNames, n2], by simp [a1]⟩

example : toStr IntAttr.repr true (pcallOf (.mk [("%arg0", .float 32)] [] ["%arg0"])) =
    toStr IntAttr.repr true (pcallOf (.mk [("%arg0", .float 32)]
      [.mk "tensor.run_jax" ["%arg0"] [("%0", .float 32)] [("text_ref", .int 7)] []] ["%0"])) :=
  to_string_regions_violated _ _ _ _ _ _ rfl

end Verif.Graph.Printer
