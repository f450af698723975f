import Verif.Serde.TypeText
/-!
# Printed graphs (`format_graph`, edsl/printer.py:24-119)

Specification: `PG.seen` (what the chosen options show) and `PG.Plain`.
-/
namespace Verif.Graph.Printer
open Verif.Serde

mutual
/-- `Graph` (edsl/graph.py:183-208) as the printer reads it: values are given by their names, with the type where they are
defined; attribute values are of any type `A` -/
inductive PG (A : Type) where
  | mk (inputs : List (String × Ty)) (ops : List (PO A)) (outputs : List String)
/-- `Operation` (edsl/graph.py:129-150); its own name is not printed -/
inductive PO (A : Type) where
  | mk (opcode : String) (ins : List String) (outs : List (String × Ty)) (attrs : List (String × A)) (regions : List (PG A))
end

/-- `GraphPrinter(indent_size, show_types, show_attrs)` (edsl/printer.py:27-36) -/
structure Cfg where
  indent : Nat := 2
  showTypes : Bool := true
  showAttrs : Bool := true

variable {A : Type}

/-- `_write`: one line (edsl/printer.py:47-49) -/
def write (cfg : Cfg) (lvl : Nat) (text : List Char) : List Char := List.replicate (lvl * cfg.indent) ' ' ++ text

/-- one entry of `_format_params` (edsl/printer.py:71-75) -/
def paramText (cfg : Cfg) (v : String × Ty) : List Char :=
  v.1.toList ++ (if cfg.showTypes then ':' :: ' ' :: v.2.text else [])

/-- `_format_params` (edsl/printer.py:67-77) -/
def paramsText (cfg : Cfg) : List (String × Ty) → List Char
  | [] => ['(', ')']
  | v :: vs => '(' :: (joinC ((v :: vs).map (paramText cfg)) ++ [')'])

/-- `_format_outputs` (edsl/printer.py:95-100) -/
def outsText : List (String × Ty) → List Char
  | [] => ['[', ']']
  | [v] => v.1.toList
  | v :: w :: vs => '[' :: (joinC ((v :: w :: vs).map fun x => x.1.toList) ++ [']'])

/-- `sorted(attrs)`: the items by key (edsl/printer.py:105) -/
def sorted (attrs : List (String × A)) : List (String × A) := attrs.mergeSort fun a b => decide (a.1 ≤ b.1)

/-- `_format_attrs` (edsl/printer.py:102-106); `repr` is python's `repr` of attribute values -/
def attrsText (repr : A → List Char) (cfg : Cfg) (attrs : List (String × A)) : List Char :=
  if !cfg.showAttrs || attrs.isEmpty then []
  else ' ' :: '{' :: (joinC ((sorted attrs).map fun a => a.1.toList ++ '=' :: repr a.2) ++ ['}'])

/-- `_format_output_types` (edsl/printer.py:108-114) -/
def typesText (cfg : Cfg) (outs : List (String × Ty)) : List Char :=
  if !cfg.showTypes then []
  else match outs with
    | [] => []
    | [v] => ' ' :: ':' :: ' ' :: v.2.text
    | vs => ' ' :: ':' :: ' ' :: '(' :: (joinC (vs.map fun v => v.2.text) ++ [')'])

/-- `op_line` (edsl/printer.py:82-86) -/
def opLine (repr : A → List Char) (cfg : Cfg) (opcode : String) (ins : List String) (outs : List (String × Ty))
    (attrs : List (String × A)) : List Char :=
  outsText outs ++ ' ' :: '=' :: ' ' :: (opcode.toList ++ '(' :: (joinC (ins.map String.toList) ++ ')' ::
    (attrsText repr cfg attrs ++ typesText cfg outs)))

/-- the `return` line (edsl/printer.py:61-63) -/
def retLines (cfg : Cfg) (lvl : Nat) (outs : List String) : List (List Char) :=
  match outs with
  | [] => []
  | os => [write cfg lvl ('r' :: 'e' :: 't' :: 'u' :: 'r' :: 'n' :: ' ' :: joinC (os.map String.toList))]

mutual
/-- `_format_graph` (edsl/printer.py:51-65); the heading is always `None` -/
def graphLines (repr : A → List Char) (cfg : Cfg) (lvl : Nat) : PG A → List (List Char)
  | .mk ins ops outs =>
    write cfg lvl (paramsText cfg ins ++ [' ', '{']) ::
      (opsLines repr cfg (lvl + 1) ops ++ (retLines cfg (lvl + 1) outs ++ [write cfg lvl ['}']]))
/-- the loop over the operations and `_format_operation` (edsl/printer.py:58-59, 79-93) -/
def opsLines (repr : A → List Char) (cfg : Cfg) (lvl : Nat) : List (PO A) → List (List Char)
  | [] => []
  | .mk opcode ins outs attrs regions :: os =>
    (match regions with
      | [] => [write cfg lvl (opLine repr cfg opcode ins outs attrs)]
      | r :: rs => write cfg lvl (opLine repr cfg opcode ins outs attrs ++ [' ', '{']) ::
          (regsLines repr cfg (lvl + 1) (r :: rs) ++ [write cfg lvl ['}']])) ++ opsLines repr cfg lvl os
/-- the loop over the regions of an operation (edsl/printer.py:89-90) -/
def regsLines (repr : A → List Char) (cfg : Cfg) (lvl : Nat) : List (PG A) → List (List Char)
  | [] => []
  | r :: rs => graphLines repr cfg lvl r ++ regsLines repr cfg lvl rs
end

/-- `"\n".join(lines)` -/
def joinLines : List (List Char) → List Char
  | [] => []
  | [x] => x
  | x :: y :: xs => x ++ '\n' :: joinLines (y :: xs)

/-- `format_graph(graph, **options)` (edsl/printer.py:38-42, 117-119) -/
def format (repr : A → List Char) (cfg : Cfg) (g : PG A) : List Char := joinLines (graphLines repr cfg 0 g)

/-! ## Specification -/

/-- what is shown of the type of a value -/
def seenTy (cfg : Cfg) (t : Ty) : Option Ty := if cfg.showTypes then some t.hide else none

mutual
/-- what the options show of a graph -/
inductive SG (A : Type) where
  | mk (inputs : List (String × Option Ty)) (ops : List (SO A)) (outputs : List String)
/-- what the options show of an operation -/
inductive SO (A : Type) where
  | mk (opcode : String) (ins : List String) (outs : List (String × Option Ty)) (attrs : List (String × A)) (regions : List (SG A))
end

mutual
/-- Everything in the graph: names, opcodes, operands, nesting, outputs; the types if they are to be shown (without the
encryption schemas of secret-shared types); the attributes, in the order of their names, if they are to be shown. -/
def PG.seen (cfg : Cfg) : PG A → SG A
  | .mk ins ops outs => .mk (ins.map fun v => (v.1, seenTy cfg v.2)) (seenOps cfg ops) outs
/-- see `PG.seen` -/
def seenOps (cfg : Cfg) : List (PO A) → List (SO A)
  | [] => []
  | .mk c ins outs attrs regs :: os =>
    .mk c ins (outs.map fun v => (v.1, seenTy cfg v.2)) (if cfg.showAttrs then sorted attrs else []) (seenRegs cfg regs) ::
      seenOps cfg os
/-- see `PG.seen` -/
def seenRegs (cfg : Cfg) : List (PG A) → List (SG A)
  | [] => []
  | r :: rs => r.seen cfg :: seenRegs cfg rs
end

/-- a character of an identifier -/
def identChar (c : Char) : Bool := c.isAlphanum || c == '_'

/-- a value name as the tracer makes them: `%3`, `%arg0`, `%capture1` -/
def ValueName (s : String) : Prop := ∃ w, s.toList = '%' :: w ∧ ∀ c ∈ w, identChar c = true

/-- an attribute name: an identifier -/
def AttrName (s : String) : Prop := s.toList ≠ [] ∧ ∀ c ∈ s.toList, identChar c = true

/-- `repr` texts of the attribute values in question can be told apart when followed by a comma or a closing brace -/
def ReprClear (repr : A → List Char) (ok : A → Prop) : Prop :=
  ∀ a b r r', ok a → ok b → (∃ x, r = ',' :: x ∨ r = '}' :: x) → (∃ x, r' = ',' :: x ∨ r' = '}' :: x) →
    repr a ++ r = repr b ++ r' → a = b ∧ r = r'

/-- a value with a plain name and a type with plain names -/
def PlainVal (v : String × Ty) : Prop := ValueName v.1 ∧ v.2.PlainNames

mutual
/-- names, opcodes and types are plain, in the graph and all its regions; attribute values satisfy `ok` -/
def PG.Plain (ok : A → Prop) : PG A → Prop
  | .mk ins ops outs => (∀ v ∈ ins, PlainVal v) ∧ PlainOps ok ops ∧ ∀ n ∈ outs, ValueName n
/-- see `PG.Plain` -/
def PlainOps (ok : A → Prop) : List (PO A) → Prop
  | [] => True
  | .mk c ins outs attrs regs :: os => ('(' ∉ c.toList ∧ (∀ n ∈ ins, ValueName n) ∧ (∀ v ∈ outs, PlainVal v) ∧
      (∀ a ∈ attrs, AttrName a.1 ∧ ok a.2) ∧ PlainRegs ok regs) ∧ PlainOps ok os
/-- see `PG.Plain` -/
def PlainRegs (ok : A → Prop) : List (PG A) → Prop
  | [] => True
  | r :: rs => r.Plain ok ∧ PlainRegs ok rs
end

/-! ## Proofs -/

/-- all lines, each after a line feed -/
def cat (l : List (List Char)) : List Char := l.flatMap fun x => '\n' :: x

theorem cat_append (l m : List (List Char)) : cat (l ++ m) = cat l ++ cat m := by simp [cat]
theorem cat_cons (x : List Char) (m : List (List Char)) : cat (x :: m) = '\n' :: (x ++ cat m) := by simp [cat]
theorem cat_nil : cat [] = [] := rfl

theorem cat_join : ∀ l : List (List Char), l ≠ [] → cat l = '\n' :: joinLines l
  | [], h => absurd rfl h
  | [x], _ => by simp [cat, joinLines]
  | x :: y :: l, _ => by rw [cat_cons, cat_join (y :: l) (by simp), joinLines]

theorem spaces_upto : ∀ {a b : Nat} {c d : Char} {x y : List Char}, c ≠ ' ' → d ≠ ' ' →
    List.replicate a ' ' ++ c :: x = List.replicate b ' ' ++ d :: y → c = d ∧ x = y
  | 0, 0, c, d, x, y, _, _, h => by simpa using h
  | 0, b + 1, c, d, x, y, hc, _, h => by
    simp [List.replicate_succ] at h; exact absurd h.1 hc
  | a + 1, 0, c, d, x, y, _, hd, h => by
    simp [List.replicate_succ] at h; exact absurd h.1.symm hd
  | a + 1, b + 1, c, d, x, y, hc, hd, h => by
    simp only [List.replicate_succ, List.cons_append, List.cons.injEq, true_and] at h
    exact spaces_upto hc hd h

/-- followed by a comma or by the closing character -/
def Sep (c : Char) (r : List Char) : Prop := ∃ x, r = ',' :: x ∨ r = c :: x

theorem join_upto {α β : Type} (f : α → List Char) (key : α → β) (ok : α → Prop) (c : Char) (hc : c ≠ ',')
    (hel : ∀ a b r r', ok a → ok b → Sep c r → Sep c r' → f a ++ r = f b ++ r' → key a = key b ∧ r = r')
    (hne : ∀ a r r', ok a → f a ++ r ≠ c :: r') : ∀ (l l' : List α) (r r' : List Char), (∀ a ∈ l, ok a) → (∀ a ∈ l', ok a) →
    joinC (l.map f) ++ c :: r = joinC (l'.map f) ++ c :: r' → l.map key = l'.map key ∧ r = r' := by
  have shape : ∀ (a : α) (l : List α) (r : List Char), ∃ x, joinC ((a :: l).map f) ++ c :: r = f a ++ x ∧ Sep c x ∧
      (l = [] ∧ x = c :: r ∨ ∃ b m, l = b :: m ∧ x = ',' :: ' ' :: (joinC (l.map f) ++ c :: r)) := by
    intro a l r
    cases l with
    | nil => exact ⟨c :: r, by simp [joinC], ⟨r, .inr rfl⟩, .inl ⟨rfl, rfl⟩⟩
    | cons b m => exact ⟨',' :: ' ' :: (joinC ((b :: m).map f) ++ c :: r), by simp [joinC], ⟨_, .inl rfl⟩, .inr ⟨b, m, rfl, rfl⟩⟩
  intro l
  induction l with
  | nil =>
    intro l' r r' _ ho' h
    cases l' with
    | nil => simpa [joinC] using h
    | cons b m =>
      obtain ⟨x, hx, _⟩ := shape b m r'
      rw [hx] at h
      exact absurd h.symm (hne b x r (ho' b List.mem_cons_self))
  | cons a l ih =>
    intro l' r r' ho ho' h
    obtain ⟨x, hx, hs, hl⟩ := shape a l r
    rw [hx] at h
    cases l' with
    | nil => exact absurd h (hne a x r' (ho a List.mem_cons_self))
    | cons b m =>
      obtain ⟨y, hy, hs', hl'⟩ := shape b m r'
      rw [hy] at h
      obtain ⟨e1, e2⟩ := hel a b x y (ho a List.mem_cons_self) (ho' b List.mem_cons_self) hs hs' h
      rcases hl with ⟨rfl, rfl⟩ | ⟨a2, l2, _, rfl⟩ <;> rcases hl' with ⟨rfl, rfl⟩ | ⟨b2, m2, _, rfl⟩
      · simp only [List.cons.injEq, true_and] at e2
        exact ⟨by simp [e1], e2⟩
      · simp only [List.cons.injEq] at e2; exact absurd e2.1 hc
      · simp only [List.cons.injEq] at e2; exact absurd e2.1.symm hc
      · simp only [List.cons.injEq, true_and] at e2
        obtain ⟨e3, e4⟩ := ih m r r' (fun z hz => ho z (List.mem_cons_of_mem _ hz))
          (fun z hz => ho' z (List.mem_cons_of_mem _ hz)) e2
        exact ⟨by rw [List.map_cons, List.map_cons, e1, e3], e4⟩

/-- the next character, if any, is not part of an identifier -/
def Brk (r : List Char) : Prop := ∀ c r', r = c :: r' → identChar c = false
theorem brk_cons {c : Char} {r : List Char} (h : identChar c = false) : Brk (c :: r) := by
  intro d r' e; cases e; exact h

theorem ident_upto : ∀ {a b r r' : List Char}, (∀ c ∈ a, identChar c = true) → (∀ c ∈ b, identChar c = true) →
    Brk r → Brk r' → a ++ r = b ++ r' → a = b ∧ r = r'
  | [], [], r, r', _, _, _, _, h => by simpa using h
  | [], x :: b, r, r', _, hb, hr, _, h => by
    have := hr x (b ++ r') (by simpa using h)
    rw [hb x List.mem_cons_self] at this; cases this
  | x :: a, [], r, r', ha, _, _, hr', h => by
    have := hr' x (a ++ r) (by simpa using h.symm)
    rw [ha x List.mem_cons_self] at this; cases this
  | x :: a, y :: b, r, r', ha, hb, hr, hr', h => by
    simp only [List.cons_append, List.cons.injEq] at h
    obtain ⟨e1, e2⟩ := ident_upto (fun c m => ha c (List.mem_cons_of_mem _ m)) (fun c m => hb c (List.mem_cons_of_mem _ m))
      hr hr' h.2
    exact ⟨by rw [h.1, e1], e2⟩

theorem value_upto {a b : String} {r r' : List Char} (ha : ValueName a) (hb : ValueName b) (hr : Brk r) (hr' : Brk r')
    (h : a.toList ++ r = b.toList ++ r') : a = b ∧ r = r' := by
  obtain ⟨w, ew, hw⟩ := ha
  obtain ⟨w', ew', hw'⟩ := hb
  rw [ew, ew'] at h
  simp only [List.cons_append, List.cons.injEq, true_and] at h
  obtain ⟨e1, e2⟩ := ident_upto hw hw' hr hr' h
  exact ⟨String.toList_inj.mp (by rw [ew, ew', e1]), e2⟩

theorem value_head {a : String} (ha : ValueName a) (r : List Char) {c : Char} (hc : c ≠ '%') (r' : List Char) :
    a.toList ++ r ≠ c :: r' := by
  obtain ⟨w, ew, _⟩ := ha
  rw [ew]
  intro h
  simp only [List.cons_append, List.cons.injEq] at h
  exact hc h.1.symm

theorem sep_brk {c : Char} (hc : identChar c = false) {r : List Char} (h : Sep c r) : Brk r := by
  obtain ⟨x, rfl | rfl⟩ := h
  · exact brk_cons (by decide)
  · exact brk_cons hc

theorem sep_stops {c : Char} (hc : c.isDigit = false) {r : List Char} (h : Sep c r) : Stops r := by
  obtain ⟨x, rfl | rfl⟩ := h
  · exact stops_cons (by decide)
  · exact stops_cons hc

theorem names_upto {c : Char} (hc : identChar c = false) (h1 : c ≠ ',') (h2 : c ≠ '%') (l l' : List String) (r r' : List Char)
    (hl : ∀ n ∈ l, ValueName n) (hl' : ∀ n ∈ l', ValueName n)
    (h : joinC (l.map String.toList) ++ c :: r = joinC (l'.map String.toList) ++ c :: r') : l = l' ∧ r = r' := by
  obtain ⟨e1, e2⟩ := join_upto String.toList id ValueName c h1
    (fun a b r r' ha hb hs hs' e => value_upto ha hb (sep_brk hc hs) (sep_brk hc hs') e)
    (fun a r r' ha => value_head ha r h2 r') l l' r r' hl hl' h
  exact ⟨by simpa using e1, e2⟩

theorem params_upto (cfg : Cfg) (l l' : List (String × Ty)) (r r' : List Char) (hl : ∀ v ∈ l, PlainVal v)
    (hl' : ∀ v ∈ l', PlainVal v) (h : paramsText cfg l ++ r = paramsText cfg l' ++ r') :
    (l.map fun v => (v.1, seenTy cfg v.2)) = (l'.map fun v => (v.1, seenTy cfg v.2)) ∧ r = r' := by
  have e : ∀ (l : List (String × Ty)) (r : List Char), paramsText cfg l ++ r = '(' :: (joinC (l.map (paramText cfg)) ++ ')' :: r) := by
    intro l r; cases l <;> simp [paramsText, joinC]
  rw [e, e] at h
  simp only [List.cons.injEq, true_and] at h
  refine join_upto (paramText cfg) (fun v => (v.1, seenTy cfg v.2)) PlainVal ')' (by decide) ?_ ?_ l l' r r' hl hl' h
  · intro a b r r' ha hb hs hs' e
    cases ht : cfg.showTypes with
    | false =>
      simp only [paramText, ht, Bool.false_eq_true, if_false, List.append_nil] at e
      obtain ⟨e1, e2⟩ := value_upto ha.1 hb.1 (sep_brk (by decide) hs) (sep_brk (by decide) hs') e
      exact ⟨by simp [seenTy, ht, e1], e2⟩
    | true =>
      simp only [paramText, ht, if_true, List.append_assoc, List.cons_append] at e
      obtain ⟨e1, e2⟩ := value_upto ha.1 hb.1 (brk_cons (by decide)) (brk_cons (by decide)) e
      simp only [List.cons.injEq, true_and] at e2
      obtain ⟨e3, e4⟩ := text_upto _ _ _ _ ha.2 hb.2 (sep_stops (by decide) hs) (sep_stops (by decide) hs') e2
      exact ⟨by simp [seenTy, ht, e1, e3], e4⟩
  · intro a r r' ha
    simp only [paramText, List.append_assoc]
    exact value_head ha.1 _ (by decide) r'

theorem outs_upto (l l' : List (String × Ty)) (r r' : List Char) (hl : ∀ v ∈ l, PlainVal v) (hl' : ∀ v ∈ l', PlainVal v)
    (h : outsText l ++ ' ' :: r = outsText l' ++ ' ' :: r') : l.map Prod.fst = l'.map Prod.fst ∧ r = r' := by
  have many : ∀ (v w : String × Ty) (l : List (String × Ty)) (r : List Char),
      outsText (v :: w :: l) ++ r = '[' :: (joinC (((v :: w :: l).map Prod.fst).map String.toList) ++ ']' :: r) := by
    intro v w l r
    simp [outsText]
    rfl
  have none' : ∀ r : List Char, outsText [] ++ r = '[' :: (joinC ((([] : List (String × Ty)).map Prod.fst).map String.toList) ++ ']' :: r) := by
    intro r; simp [outsText, joinC]
  have br : ∀ (l l' : List (String × Ty)) (r r' : List Char), (∀ v ∈ l, PlainVal v) → (∀ v ∈ l', PlainVal v) →
      joinC ((l.map Prod.fst).map String.toList) ++ ']' :: ' ' :: r = joinC ((l'.map Prod.fst).map String.toList) ++ ']' :: ' ' :: r' →
      l.map Prod.fst = l'.map Prod.fst ∧ r = r' := by
    intro l l' r r' hl hl' h
    obtain ⟨e1, e2⟩ := names_upto (by decide) (by decide) (by decide) _ _ _ _
      (fun n hn => by obtain ⟨v, hv, rfl⟩ := List.mem_map.mp hn; exact (hl v hv).1)
      (fun n hn => by obtain ⟨v, hv, rfl⟩ := List.mem_map.mp hn; exact (hl' v hv).1) h
    simp only [List.cons.injEq, true_and] at e2
    exact ⟨e1, e2⟩
  match l, l' with
  | [v], [w] =>
    obtain ⟨e1, e2⟩ := value_upto (hl v List.mem_cons_self).1 (hl' w List.mem_cons_self).1 (brk_cons (by decide)) (brk_cons (by decide)) h
    simp only [List.cons.injEq, true_and] at e2
    exact ⟨by simp [e1], e2⟩
  | [v], [] => rw [none'] at h; exact absurd h (value_head (hl v List.mem_cons_self).1 _ (by decide) _)
  | [v], w :: x :: m => rw [many] at h; exact absurd h (value_head (hl v List.mem_cons_self).1 _ (by decide) _)
  | [], [w] => rw [none'] at h; exact absurd h.symm (value_head (hl' w List.mem_cons_self).1 _ (by decide) _)
  | v :: x :: m, [w] => rw [many] at h; exact absurd h.symm (value_head (hl' w List.mem_cons_self).1 _ (by decide) _)
  | [], [] => rw [none', none'] at h; simp only [List.cons.injEq, true_and] at h; exact br _ _ _ _ hl hl' h
  | [], w :: x :: m => rw [none', many] at h; simp only [List.cons.injEq, true_and] at h; exact br _ _ _ _ hl hl' h
  | v :: x :: m, [] => rw [none', many] at h; simp only [List.cons.injEq, true_and] at h; exact br _ _ _ _ hl hl' h
  | v :: x :: m, w :: y :: k => rw [many, many] at h; simp only [List.cons.injEq, true_and] at h; exact br _ _ _ _ hl hl' h

/-- what may follow the attributes -/
def AfterAttrs (z : List Char) : Prop := ∃ x, z = '\n' :: x ∨ z = ' ' :: ':' :: x ∨ z = ' ' :: '{' :: '\n' :: x

theorem attrs_upto {repr : A → List Char} {ok : A → Prop} (hrepr : ReprClear repr ok) (cfg : Cfg) (l l' : List (String × A))
    (z z' : List Char) (hl : ∀ a ∈ l, AttrName a.1 ∧ ok a.2) (hl' : ∀ a ∈ l', AttrName a.1 ∧ ok a.2) (hz : AfterAttrs z)
    (hz' : AfterAttrs z') (h : attrsText repr cfg l ++ z = attrsText repr cfg l' ++ z') :
    (if cfg.showAttrs then sorted l else []) = (if cfg.showAttrs then sorted l' else []) ∧ z = z' := by
  have hmem : ∀ (m : List (String × A)), (∀ a ∈ m, AttrName a.1 ∧ ok a.2) → ∀ a ∈ sorted m, AttrName a.1 ∧ ok a.2 := by
    intro m hm a ha
    exact hm a ((List.mergeSort_perm m _).mem_iff.mp ha)
  -- a printed attribute list can not be read as what follows an empty one
  have clash : ∀ (m : List (String × A)) (z z' : List Char), m ≠ [] → (∀ a ∈ m, AttrName a.1 ∧ ok a.2) → AfterAttrs z' →
      ' ' :: '{' :: (joinC ((sorted m).map fun a => a.1.toList ++ '=' :: repr a.2) ++ '}' :: z) ≠ z' := by
    intro m z z' hne hm hz' e
    have : sorted m ≠ [] := by
      intro e0
      exact hne (by
        have := (List.mergeSort_perm m fun a b => decide (a.1 ≤ b.1))
        rw [show (m.mergeSort fun a b => decide (a.1 ≤ b.1)) = [] from e0] at this
        exact this.nil_eq.symm)
    obtain ⟨a, q, hq⟩ := List.exists_cons_of_ne_nil this
    obtain ⟨hn, _⟩ := hmem m hm a (by rw [hq]; exact List.mem_cons_self)
    obtain ⟨c, w, hc⟩ := List.exists_cons_of_ne_nil hn.1
    obtain ⟨y, hy⟩ : ∃ y, joinC ((sorted m).map fun a => a.1.toList ++ '=' :: repr a.2) ++ '}' :: z = c :: y := by
      rw [hq]
      cases q with
      | nil => exact ⟨w ++ '=' :: (repr a.2 ++ '}' :: z), by simp [joinC, hc]⟩
      | cons b q => exact ⟨_, by simp [joinC, hc]; rfl⟩
    rw [hy] at e
    have hid := hn.2 c (by rw [hc]; exact List.mem_cons_self)
    obtain ⟨x, rfl | rfl | rfl⟩ := hz'
    · simp at e
    · simp at e
    · simp only [List.cons.injEq, true_and] at e
      rw [e.1] at hid
      exact absurd hid (by decide)
  cases ha : cfg.showAttrs with
  | false =>
    simp [attrsText, ha] at h
    exact ⟨by simp, h⟩
  | true =>
    simp only [attrsText, ha, Bool.not_true, Bool.false_or] at h
    by_cases e1 : l = [] <;> by_cases e2 : l' = []
    · simp [e1, e2] at h
      exact ⟨by rw [e1, e2], h⟩
    · rw [if_pos (by simp [e1]), if_neg (by simp [e2])] at h
      simp only [List.nil_append, List.cons_append, List.append_assoc] at h
      exact absurd h.symm (clash l' z' z e2 hl' hz)
    · rw [if_neg (by simp [e1]), if_pos (by simp [e2])] at h
      simp only [List.nil_append, List.cons_append, List.append_assoc] at h
      exact absurd h (clash l z z' e1 hl hz')
    · rw [if_neg (by simp [e1]), if_neg (by simp [e2])] at h
      simp only [List.nil_append, List.cons_append, List.append_assoc, List.cons.injEq, true_and] at h
      have hj := join_upto (fun a : String × A => a.1.toList ++ '=' :: repr a.2) id (fun a => AttrName a.1 ∧ ok a.2) '}'
        (by decide)
        (fun a b r r' hka hkb hs hs' e => by
          simp only [List.append_assoc, List.cons_append] at e
          obtain ⟨e5, e6⟩ := ident_upto hka.1.2 hkb.1.2 (brk_cons (by decide)) (brk_cons (by decide)) e
          simp only [List.cons.injEq, true_and] at e6
          obtain ⟨e7, e8⟩ := hrepr a.2 b.2 r r' hka.2 hkb.2 hs hs' e6
          exact ⟨Prod.ext (String.toList_inj.mp e5) e7, e8⟩)
        (fun a r r' hka e => by
          obtain ⟨c, w, hc⟩ := List.exists_cons_of_ne_nil hka.1.1
          have := hka.1.2 c (by rw [hc]; exact List.mem_cons_self)
          simp only [hc, List.cons_append, List.cons.injEq] at e
          rw [e.1] at this
          exact absurd this (by decide))
        (sorted l) (sorted l') z z' (hmem l hl) (hmem l' hl') h
      exact ⟨by simpa using hj.1, hj.2⟩

/-- what may follow the types -/
def AfterTypes (z : List Char) : Prop := ∃ x, z = '\n' :: x ∨ z = ' ' :: '{' :: '\n' :: x

theorem afterTypes_stops {z : List Char} (h : AfterTypes z) : Stops z := by
  obtain ⟨x, rfl | rfl⟩ := h <;> exact stops_cons (by decide)

theorem types_upto (cfg : Cfg) (l l' : List (String × Ty)) (z z' : List Char) (hl : ∀ v ∈ l, PlainVal v)
    (hl' : ∀ v ∈ l', PlainVal v) (hn : l.map Prod.fst = l'.map Prod.fst) (hz : AfterTypes z) (hz' : AfterTypes z')
    (h : typesText cfg l ++ z = typesText cfg l' ++ z') :
    (l.map fun v => (v.1, seenTy cfg v.2)) = (l'.map fun v => (v.1, seenTy cfg v.2)) ∧ z = z' := by
  have fin : ∀ l l' : List (String × Ty), l.map Prod.fst = l'.map Prod.fst → (l.map fun v => v.2.hide) = (l'.map fun v => v.2.hide) →
      (l.map fun v => (v.1, some v.2.hide)) = (l'.map fun v => (v.1, some v.2.hide)) := by
    intro l
    induction l with
    | nil => intro l' h1 _; cases l' with
      | nil => rfl
      | cons w m => simp at h1
    | cons v l ih => intro l' h1 h2; cases l' with
      | nil => simp at h1
      | cons w m =>
        simp only [List.map_cons, List.cons.injEq] at h1 h2 ⊢
        exact ⟨by rw [h1.1, h2.1], ih m h1.2 h2.2⟩
  have fin0 : ∀ l l' : List (String × Ty), l.map Prod.fst = l'.map Prod.fst →
      (l.map fun v => (v.1, (none : Option Ty))) = (l'.map fun v => (v.1, none)) := by
    intro l l' e
    have : ∀ l : List (String × Ty), (l.map fun v => (v.1, (none : Option Ty))) = (l.map Prod.fst).map fun n => (n, none) := by
      intro l; simp
    rw [this, this, e]
  cases ht : cfg.showTypes with
  | false =>
    simp [typesText, ht] at h
    refine ⟨?_, h⟩
    simp only [seenTy, ht, Bool.false_eq_true, if_false]
    exact fin0 l l' hn
  | true =>
    simp only [seenTy, ht, if_true]
    simp only [typesText, ht, Bool.not_true, Bool.false_eq_true, if_false] at h
    match l, l' with
    | [], [] => exact ⟨rfl, by simpa using h⟩
    | [v], [w] =>
      simp only [List.cons_append, List.cons.injEq, true_and] at h
      obtain ⟨e1, e2⟩ := text_upto _ _ _ _ (hl v List.mem_cons_self).2 (hl' w List.mem_cons_self).2 (afterTypes_stops hz)
        (afterTypes_stops hz') h
      exact ⟨fin _ _ hn (by simp [e1]), e2⟩
    | v :: x :: m, w :: y :: k =>
      simp only [List.cons_append, List.append_assoc, List.nil_append, List.cons.injEq, true_and] at h
      obtain ⟨e1, e2⟩ := join_upto (fun v : String × Ty => v.2.text) (fun v => v.2.hide) PlainVal ')' (by decide)
        (fun a b r r' ha hb hs hs' e => text_upto _ _ _ _ ha.2 hb.2 (sep_stops (by decide) hs) (sep_stops (by decide) hs') e)
        (fun a r r' ha e => by
          have := congrArg clsOf e
          rw [clsOf_text] at this
          have h23 : ∀ t : Ty, cls t ≠ 23 := by
            intro t e; unfold cls at e; split at e <;> exact absurd e (by decide)
          exact h23 a.2 this) _ _ z z' hl hl' h
      exact ⟨fin _ _ hn e1, e2⟩
    | [], _ :: _ => simp at hn
    | _ :: _, [] => simp at hn
    | [_], _ :: _ :: _ => simp at hn
    | _ :: _ :: _, [_] => simp at hn

/-- the regions of an operation and its closing brace, or nothing -/
def regText (repr : A → List Char) (cfg : Cfg) (lvl : Nat) : List (PG A) → List Char
  | [] => []
  | r :: rs => ' ' :: '{' :: (cat (regsLines repr cfg (lvl + 1) (r :: rs)) ++ '\n' :: write cfg lvl ['}'])

theorem cat_op (repr : A → List Char) (cfg : Cfg) (lvl : Nat) (c : String) (ins : List String) (outs : List (String × Ty))
    (attrs : List (String × A)) (regs : List (PG A)) (os : List (PO A)) (r : List Char) :
    cat (opsLines repr cfg lvl (.mk c ins outs attrs regs :: os)) ++ r =
      '\n' :: (List.replicate (lvl * cfg.indent) ' ' ++ (outsText outs ++ ' ' :: '=' :: ' ' :: (c.toList ++ '(' ::
        (joinC (ins.map String.toList) ++ ')' :: (attrsText repr cfg attrs ++ (typesText cfg outs ++ (regText repr cfg lvl regs ++
          (cat (opsLines repr cfg lvl os) ++ r)))))))) := by
  cases regs with
  | nil => simp [opsLines, cat_cons, write, opLine, regText]
  | cons g gs => simp [opsLines, cat_cons, cat_append, cat_nil, write, opLine, regText]

/-- a line starting like an operation -/
theorem outs_head (l : List (String × Ty)) (hl : ∀ v ∈ l, PlainVal v) (r : List Char) :
    ∃ c x, outsText l ++ r = c :: x ∧ (c = '%' ∨ c = '[') := by
  match l with
  | [] => exact ⟨_, _, rfl, .inr rfl⟩
  | [v] =>
    obtain ⟨w, ew, _⟩ := (hl v List.mem_cons_self).1
    exact ⟨'%', w ++ r, by simp [outsText, ew], .inl rfl⟩
  | v :: w :: m => exact ⟨_, _, rfl, .inr rfl⟩

/-- what may follow the operations of a graph -/
def AfterOps (z : List Char) : Prop := ∃ k c x, z = '\n' :: (List.replicate k ' ' ++ c :: x) ∧ (c = 'r' ∨ c = '}')

theorem cat_ops_nl (repr : A → List Char) (cfg : Cfg) (lvl : Nat) (os : List (PO A)) (z : List Char) (hz : AfterOps z) :
    ∃ x, cat (opsLines repr cfg lvl os) ++ z = '\n' :: x := by
  cases os with
  | nil => obtain ⟨k, c, x, rfl, _⟩ := hz; exact ⟨_, rfl⟩
  | cons o os => obtain ⟨c, ins, outs, attrs, regs⟩ := o; exact ⟨_, cat_op ..⟩

theorem cat_graph (repr : A → List Char) (cfg : Cfg) (lvl : Nat) (ins : List (String × Ty)) (ops : List (PO A)) (outs : List String)
    (r : List Char) : cat (graphLines repr cfg lvl (.mk ins ops outs)) ++ r =
      '\n' :: (List.replicate (lvl * cfg.indent) ' ' ++ (paramsText cfg ins ++ ' ' :: '{' ::
        (cat (opsLines repr cfg (lvl + 1) ops) ++ (cat (retLines cfg (lvl + 1) outs) ++
          '\n' :: (List.replicate (lvl * cfg.indent) ' ' ++ '}' :: r))))) := by
  simp [graphLines, cat_cons, cat_append, cat_nil, write]

theorem params_head (cfg : Cfg) (l : List (String × Ty)) (r : List Char) : ∃ x, paramsText cfg l ++ r = '(' :: x := by
  cases l <;> exact ⟨_, rfl⟩

theorem ret_after (cfg : Cfg) (lvl k : Nat) (outs : List String) (r : List Char) :
    AfterOps (cat (retLines cfg lvl outs) ++ '\n' :: (List.replicate k ' ' ++ '}' :: r)) := by
  cases outs with
  | nil => exact ⟨k, '}', r, by simp [retLines, cat_nil], .inr rfl⟩
  | cons o os =>
    exact ⟨lvl * cfg.indent, 'r', _, by simp [retLines, cat_cons, cat_nil, write]; rfl, .inl rfl⟩

theorem ret_upto (cfg : Cfg) (lvl k : Nat) (o o' : List String) (r r' : List Char) (ho : ∀ n ∈ o, ValueName n)
    (ho' : ∀ n ∈ o', ValueName n)
    (h : cat (retLines cfg lvl o) ++ '\n' :: (List.replicate k ' ' ++ '}' :: r) =
      cat (retLines cfg lvl o') ++ '\n' :: (List.replicate k ' ' ++ '}' :: r')) : o = o' ∧ r = r' := by
  have full : ∀ (n : String) (o : List String) (r : List Char), cat (retLines cfg lvl (n :: o)) ++ r =
      '\n' :: (List.replicate (lvl * cfg.indent) ' ' ++ 'r' :: 'e' :: 't' :: 'u' :: 'r' :: 'n' :: ' ' ::
        (joinC ((n :: o).map String.toList) ++ r)) := by
    intro n o r; simp [retLines, cat_cons, cat_nil, write]
  match o, o' with
  | [], [] =>
    simp only [retLines, cat_nil, List.nil_append, List.cons.injEq, true_and] at h
    exact ⟨rfl, (spaces_upto (by decide) (by decide) h).2⟩
  | [], n :: o =>
    rw [full] at h
    simp only [retLines, cat_nil, List.nil_append, List.cons.injEq, true_and] at h
    exact absurd (spaces_upto (by decide) (by decide) h).1 (by decide)
  | n :: o, [] =>
    rw [full] at h
    simp only [retLines, cat_nil, List.nil_append, List.cons.injEq, true_and] at h
    exact absurd (spaces_upto (by decide) (by decide) h).1 (by decide)
  | n :: o, n' :: o' =>
    rw [full, full] at h
    simp only [List.cons.injEq, true_and] at h
    have h2 := (spaces_upto (by decide) (by decide) h).2
    simp only [List.cons.injEq, true_and] at h2
    obtain ⟨e1, e2⟩ := names_upto (by decide) (by decide) (by decide) _ _ _ _ ho ho' h2
    exact ⟨e1, (spaces_upto (by decide) (by decide) e2).2⟩

section
variable {repr : A → List Char} {ok : A → Prop} (hrepr : ReprClear repr ok) (cfg : Cfg)
include hrepr

mutual
theorem graph_upto : ∀ (g g' : PG A) (lvl : Nat) (r r' : List Char), g.Plain ok → g'.Plain ok →
    cat (graphLines repr cfg lvl g) ++ r = cat (graphLines repr cfg lvl g') ++ r' → g.seen cfg = g'.seen cfg ∧ r = r'
  | .mk ins ops outs, .mk ins' ops' outs', lvl, r, r', hp, hp', h => by
    obtain ⟨h1, h2, h3⟩ := hp
    obtain ⟨h1', h2', h3'⟩ := hp'
    rw [cat_graph, cat_graph] at h
    simp only [List.cons.injEq, true_and, List.append_cancel_left_eq] at h
    obtain ⟨e1, e2⟩ := params_upto cfg _ _ _ _ h1 h1' h
    simp only [List.cons.injEq, true_and] at e2
    obtain ⟨e3, e4⟩ := ops_upto ops ops' (lvl + 1) _ _ h2 h2' (ret_after ..) (ret_after ..) e2
    obtain ⟨e5, e6⟩ := ret_upto cfg _ _ _ _ _ _ h3 h3' e4
    exact ⟨by rw [PG.seen, PG.seen, e1, e3, e5], e6⟩
theorem ops_upto : ∀ (os os' : List (PO A)) (lvl : Nat) (z z' : List Char), PlainOps ok os → PlainOps ok os' →
    AfterOps z → AfterOps z' → cat (opsLines repr cfg lvl os) ++ z = cat (opsLines repr cfg lvl os') ++ z' →
    seenOps cfg os = seenOps cfg os' ∧ z = z'
  | [], [], lvl, z, z', _, _, _, _, h => by
    simp only [opsLines, cat_nil, List.nil_append] at h
    exact ⟨rfl, h⟩
  | [], .mk c ins outs attrs regs :: os, lvl, z, z', _, hp', hz, _, h => by
    rw [cat_op] at h
    obtain ⟨k, d, x, rfl, hd⟩ := hz
    simp only [opsLines, cat_nil, List.nil_append, List.cons.injEq, true_and] at h
    obtain ⟨f, y, ef, hf⟩ := outs_head outs hp'.1.2.2.1 (' ' :: '=' :: ' ' :: (c.toList ++ '(' ::
        (joinC (ins.map String.toList) ++ ')' :: (attrsText repr cfg attrs ++ (typesText cfg outs ++ (regText repr cfg lvl regs ++
          (cat (opsLines repr cfg lvl os) ++ z')))))))
    rw [ef] at h
    have := (spaces_upto (by rcases hd with rfl | rfl <;> decide) (by rcases hf with rfl | rfl <;> decide) h).1
    rcases hd with rfl | rfl <;> rcases hf with rfl | rfl <;> exact absurd this (by decide)
  | .mk c ins outs attrs regs :: os, [], lvl, z, z', hp, _, _, hz', h => by
    rw [cat_op] at h
    obtain ⟨k, d, x, rfl, hd⟩ := hz'
    simp only [opsLines, cat_nil, List.nil_append, List.cons.injEq, true_and] at h
    obtain ⟨f, y, ef, hf⟩ := outs_head outs hp.1.2.2.1 (' ' :: '=' :: ' ' :: (c.toList ++ '(' ::
        (joinC (ins.map String.toList) ++ ')' :: (attrsText repr cfg attrs ++ (typesText cfg outs ++ (regText repr cfg lvl regs ++
          (cat (opsLines repr cfg lvl os) ++ z)))))))
    rw [ef] at h
    have := (spaces_upto (by rcases hf with rfl | rfl <;> decide) (by rcases hd with rfl | rfl <;> decide) h).1
    rcases hd with rfl | rfl <;> rcases hf with rfl | rfl <;> exact absurd this (by decide)
  | .mk c ins outs attrs regs :: os, .mk c' ins' outs' attrs' regs' :: os', lvl, z, z', hp, hp', hz, hz', h => by
    obtain ⟨⟨h1, h2, h3, h4, h5⟩, h6⟩ := hp
    obtain ⟨⟨h1', h2', h3', h4', h5'⟩, h6'⟩ := hp'
    rw [cat_op, cat_op] at h
    simp only [List.cons.injEq, true_and, List.append_cancel_left_eq] at h
    obtain ⟨e1, e2⟩ := outs_upto _ _ _ _ h3 h3' h
    simp only [List.cons.injEq, true_and] at e2
    obtain ⟨e3, e4⟩ := upto h1 h1' e2
    obtain ⟨e5, e6⟩ := names_upto (by decide) (by decide) (by decide) _ _ _ _ h2 h2' e4
    obtain ⟨q, hq⟩ := cat_ops_nl repr cfg lvl os z hz
    obtain ⟨q', hq'⟩ := cat_ops_nl repr cfg lvl os' z' hz'
    have reg : ∀ (regs : List (PG A)) (q : List Char), AfterTypes (regText repr cfg lvl regs ++ '\n' :: q) := by
      intro regs q
      cases regs with
      | nil => exact ⟨q, .inl rfl⟩
      | cons g gs =>
        obtain ⟨i, o, u⟩ := g
        refine ⟨(cat (regsLines repr cfg (lvl + 1) (.mk i o u :: gs))).tail ++ '\n' :: (write cfg lvl ['}'] ++ '\n' :: q), .inr ?_⟩
        simp [regText, regsLines, graphLines, cat_append, cat_cons]
    have aft : ∀ (outs : List (String × Ty)) (w : List Char), AfterTypes w → AfterAttrs (typesText cfg outs ++ w) := by
      intro outs w hw
      unfold typesText
      cases cfg.showTypes with
      | false =>
        obtain ⟨x, rfl | rfl⟩ := hw
        · exact ⟨x, .inl rfl⟩
        · exact ⟨x, .inr (.inr rfl)⟩
      | true =>
        match outs with
        | [] =>
          obtain ⟨x, rfl | rfl⟩ := hw
          · exact ⟨x, .inl rfl⟩
          · exact ⟨x, .inr (.inr rfl)⟩
        | [v] => exact ⟨_, .inr (.inl rfl)⟩
        | v :: v' :: vs => exact ⟨_, .inr (.inl rfl)⟩
    rw [hq, hq'] at e6
    obtain ⟨e7, e8⟩ := attrs_upto hrepr cfg _ _ _ _ h4 h4' (aft _ _ (reg _ _)) (aft _ _ (reg _ _)) e6
    obtain ⟨e9, e10⟩ := types_upto cfg _ _ _ _ h3 h3' e1 (reg _ _) (reg _ _) e8
    have e11 : seenRegs cfg regs = seenRegs cfg regs' ∧ '\n' :: q = '\n' :: q' := by
      match regs, regs', h5, h5', e10 with
      | [], [], _, _, e10 => exact ⟨rfl, by simpa [regText] using e10⟩
      | [], g :: gs, _, _, e10 => simp [regText] at e10
      | g :: gs, [], _, _, e10 => simp [regText] at e10
      | g :: gs, g' :: gs', h5, h5', e10 =>
        simp only [regText, List.cons_append, List.append_assoc, List.cons.injEq, true_and, write] at e10
        exact regs_upto (g :: gs) (g' :: gs') (lvl + 1) _ _ _ h5 h5' e10
    rw [← hq, ← hq'] at e11
    obtain ⟨e12, e13⟩ := ops_upto os os' lvl z z' h6 h6' hz hz' e11.2
    exact ⟨by rw [seenOps, seenOps, String.toList_inj.mp e3, e5, e9, e7, e11.1, e12], e13⟩
theorem regs_upto : ∀ (rs rs' : List (PG A)) (lvl k : Nat) (r r' : List Char), PlainRegs ok rs → PlainRegs ok rs' →
    cat (regsLines repr cfg lvl rs) ++ '\n' :: (List.replicate k ' ' ++ '}' :: r) =
      cat (regsLines repr cfg lvl rs') ++ '\n' :: (List.replicate k ' ' ++ '}' :: r') →
    seenRegs cfg rs = seenRegs cfg rs' ∧ r = r'
  | [], [], lvl, k, r, r', _, _, h => by
    simp only [regsLines, cat_nil, List.nil_append, List.cons.injEq, true_and] at h
    exact ⟨rfl, (spaces_upto (by decide) (by decide) h).2⟩
  | [], .mk i o u :: gs, lvl, k, r, r', _, _, h => by
    simp only [regsLines, cat_nil, cat_append, List.nil_append, List.append_assoc] at h
    rw [cat_graph] at h
    simp only [List.cons.injEq, true_and] at h
    obtain ⟨x, hx⟩ := params_head cfg i (' ' :: '{' :: (cat (opsLines repr cfg (lvl + 1) o) ++ (cat (retLines cfg (lvl + 1) u) ++
          '\n' :: (List.replicate (lvl * cfg.indent) ' ' ++ '}' :: (cat (regsLines repr cfg lvl gs) ++
            '\n' :: (List.replicate k ' ' ++ '}' :: r'))))))
    rw [hx] at h
    exact absurd (spaces_upto (by decide) (by decide) h).1 (by decide)
  | .mk i o u :: gs, [], lvl, k, r, r', _, _, h => by
    simp only [regsLines, cat_nil, cat_append, List.nil_append, List.append_assoc] at h
    rw [cat_graph] at h
    simp only [List.cons.injEq, true_and] at h
    obtain ⟨x, hx⟩ := params_head cfg i (' ' :: '{' :: (cat (opsLines repr cfg (lvl + 1) o) ++ (cat (retLines cfg (lvl + 1) u) ++
          '\n' :: (List.replicate (lvl * cfg.indent) ' ' ++ '}' :: (cat (regsLines repr cfg lvl gs) ++
            '\n' :: (List.replicate k ' ' ++ '}' :: r))))))
    rw [hx] at h
    exact absurd (spaces_upto (by decide) (by decide) h).1 (by decide)
  | g :: gs, g' :: gs', lvl, k, r, r', hp, hp', h => by
    simp only [regsLines, cat_append, List.append_assoc] at h
    obtain ⟨e1, e2⟩ := graph_upto g g' lvl _ _ hp.1 hp'.1 h
    obtain ⟨e3, e4⟩ := regs_upto gs gs' lvl k r r' hp.2 hp'.2 e2
    exact ⟨by rw [seenRegs, seenRegs, e1, e3], e4⟩
end
end

/-! ## Properties -/

/-- **C123** (part of: the text of a graph determines the graph) Whatever the options and the indentation: two graphs that
print to the same text have the same inputs, operations, operands, nesting of regions and outputs, and the same attributes
and types as far as these are shown.  Missing: the encryption schemas of secret-shared types, names with special characters,
attribute values with an ambiguous `repr`, and operation names. -/
theorem format_determines_partial {repr : A → List Char} {ok : A → Prop} (hrepr : ReprClear repr ok) (cfg : Cfg) (g g' : PG A)
    (h : g.Plain ok) (h' : g'.Plain ok) (e : format repr cfg g = format repr cfg g') : g.seen cfg = g'.seen cfg := by
  have hne : ∀ g : PG A, graphLines repr cfg 0 g ≠ [] := by
    intro g; cases g; simp [graphLines]
  refine (graph_upto hrepr cfg g g' 0 [] [] h h' ?_).1
  rw [cat_join _ (hne g), cat_join _ (hne g')]
  unfold format at e
  rw [e]

/-- attribute values used by most operations: an int, or a tuple of ints -/
inductive IntAttr where
  | int (n : Int)
  | tuple (l : List Int)

/-- python `repr` of an int or of a tuple of ints -/
def IntAttr.repr : IntAttr → List Char
  | .int n => decText n
  | .tuple l => tupleText l

/-- such attribute values can be told apart -/
theorem intAttr_clear : ReprClear IntAttr.repr (fun _ => True) := by
  have stop : ∀ r : List Char, (∃ x, r = ',' :: x ∨ r = '}' :: x) → Stops r := by
    rintro r ⟨x, rfl | rfl⟩ <;> exact stops_cons (by decide)
  have hn : ∀ l : List Int, ∃ q, tupleText l = '(' :: q := by
    intro l
    match l with
    | [] => exact ⟨_, rfl⟩
    | [x] => exact ⟨_, by simp [tupleText]; rfl⟩
    | x :: y :: l => exact ⟨_, by simp [tupleText]; rfl⟩
  intro a b r r' _ _ hr hr' e
  cases a with
  | int m => cases b with
    | int n =>
      obtain ⟨e1, e2⟩ := int_upto (stop r hr) (stop r' hr') e
      exact ⟨by rw [e1], e2⟩
    | tuple l =>
      obtain ⟨q, hq⟩ := hn l
      simp only [IntAttr.repr, hq] at e
      exact absurd e (int_head_ne m _ (by decide) (by decide) _)
  | tuple l => cases b with
    | int n =>
      obtain ⟨q, hq⟩ := hn l
      simp only [IntAttr.repr, hq] at e
      exact absurd e.symm (int_head_ne n _ (by decide) (by decide) _)
    | tuple l' =>
      obtain ⟨e1, e2⟩ := tuple_upto e
      exact ⟨by rw [e1], e2⟩

/-- a graph with a nested region, two outputs of one operation, and attributes -/
def demo : PG IntAttr :=
  .mk [("%arg0", .mp (.float 32) (some [0, 1]))]
    [.mk "simp.pcall_static" ["%arg0"] [("%0", .mp (.float 32) (some [0])), ("%1", .mp (.int 64 true) (some [0]))]
      [("parties", .tuple [0])]
      [.mk [("%arg0", .float 32)] [.mk "tensor.reshape" ["%arg0"] [("%0", .tensor (.float 32) [2, 3])] [("new_shape", .tuple [2, 3])] []]
        ["%0"]],
     .mk "simp.shuffle_static" ["%0"] [("%2", .mp (.float 32) (some [1]))] [] []]
    ["%2"]

/-- its text with the default options, and without types and attributes -/
example : String.ofList (format IntAttr.repr {} demo) = "(%arg0: MP[f32, parties=(0, 1)]) {
  [%0, %1] = simp.pcall_static(%arg0) {parties=(0,)} : (MP[f32, parties=(0,)], MP[i64, parties=(0,)]) {
    (%arg0: f32) {
      %0 = tensor.reshape(%arg0) {new_shape=(2, 3)} : Tensor[f32, (2, 3)]
      return %0
    }
  }
  %2 = simp.shuffle_static(%0) : MP[f32, parties=(1,)]
  return %2
}" := by decide +kernel

/-- its names, opcodes and types are plain -/
example : demo.Plain (fun _ => True) := by
  have n1 : ValueName "%arg0" := ⟨['a', 'r', 'g', '0'], by decide, by decide⟩
  have n2 : ValueName "%0" := ⟨['0'], by decide, by decide⟩
  have n3 : ValueName "%1" := ⟨['1'], by decide, by decide⟩
  have n4 : ValueName "%2" := ⟨['2'], by decide, by decide⟩
  have a1 : AttrName "parties" := ⟨by decide, by decide⟩
  have a2 : AttrName "new_shape" := ⟨by decide, by decide⟩
  have o1 : '(' ∉ "simp.pcall_static".toList := by decide
  have o2 : '(' ∉ "tensor.reshape".toList := by decide
  have o3 : '(' ∉ "simp.shuffle_static".toList := by decide
  simp only [demo, PG.Plain, PlainOps, PlainRegs, PlainVal, Ty.PlainNames, List.forall_mem_cons, n1, n2, n3, n4, a1, a2, o1, o2, o3,
    not_false_eq_true, true_and, and_true]
  simp

/-- **C123** (violated) the encryption schema shows nowhere in the text of a graph: two graphs that differ in the type of
their input print alike with every option -/
theorem format_schema_violated : ∃ g g' : PG IntAttr, g ≠ g' ∧ g.Plain (fun _ => True) ∧ g'.Plain (fun _ => True) ∧
    ∀ cfg, format IntAttr.repr cfg g = format IntAttr.repr cfg g' := by
  have n1 : ValueName "%arg0" := ⟨['a', 'r', 'g', '0'], by decide, by decide⟩
  refine ⟨.mk [("%arg0", .ss (.float 32) "ss")] [] ["%arg0"], .mk [("%arg0", .ss (.float 32) "semi2k")] [] ["%arg0"], by simp, ?_, ?_,
    fun cfg => rfl⟩
  · simp [PG.Plain, PlainOps, PlainVal, Ty.PlainNames, n1]
  · simp [PG.Plain, PlainOps, PlainVal, Ty.PlainNames, n1]

end Verif.Graph.Printer
