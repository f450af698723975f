import Verif.Serde.Model
import Verif.Base.Names
/-!
# Printed types (`str(type)`: edsl/typing.py, dialects/{crypto,phe,bfv,tee}.py)

The text of a type is what `format_graph` shows and what the execution key of a graph is computed from.
Specification: `Ty.hide` (what the text does not show) and `Ty.PlainNames`; properties at the end of the file.
-/
namespace Verif.Serde

/-- `str(n)` of a python int -/
def decText : Int → List Char
  | .ofNat m => m.repr.toList
  | .negSucc m => '-' :: (m + 1).repr.toList

/-- `", ".join(parts)` -/
def joinC : List (List Char) → List Char
  | [] => []
  | [x] => x
  | x :: y :: xs => x ++ ',' :: ' ' :: joinC (y :: xs)

/-- `str` of a tuple of ints: `()`, `(0,)`, `(0, 1)` -/
def tupleText : List Int → List Char
  | [] => "()".toList
  | [x] => "(".toList ++ decText x ++ ",)".toList
  | xs => "(".toList ++ joinC (xs.map decText) ++ ")".toList

/-- the name before the bracket (dialects/crypto.py:41,70,99,128,157, tee.py:135) -/
def NamedKind.text : NamedKind → List Char
  | .point => ['P', 'o', 'i', 'n', 't']
  | .scalar => ['S', 'c', 'a', 'l', 'a', 'r']
  | .privKey => ['P', 'r', 'i', 'v', 'a', 't', 'e', 'K', 'e', 'y']
  | .pubKey => ['P', 'u', 'b', 'l', 'i', 'c', 'K', 'e', 'y']
  | .symKey => ['S', 'y', 'm', 'm', 'e', 't', 'r', 'i', 'c', 'K', 'e', 'y']
  | .attestedKey => ['A', 't', 't', 'e', 's', 't', 'e', 'd', 'K', 'e', 'y']

/-- `str(self.parties)`: a tuple or `None` (edsl/typing.py:844-845) -/
def partiesText : Option (List Int) → List Char
  | none => "None".toList
  | some l => tupleText l

/-- `sign_prefix` (edsl/typing.py:223) -/
def signText : Bool → List Char
  | true => ['i']
  | false => ['u']

/-- `kind` (dialects/phe.py:95) -/
def keyText : Bool → List Char
  | true => ['P']
  | false => ['S']

/-- `nrows_str` (edsl/typing.py:610) -/
def nrowsText (n : Int) : List Char := if n = -1 then [] else ", nrows=".toList ++ decText n

mutual
/-- `__str__` of every type class: IntegerType edsl/typing.py:222-224, FloatType :270-271, ComplexType :317-318, TensorType
:450-452, VectorType :537-538, TableType :608-611, CustomType :710-712, SSType :775-776, MPType :844-845,
dialects/crypto.py:40-157, dialects/bfv.py:114-115,157-158,198-199,231-232, dialects/tee.py:90-91,134-135,167-168,
dialects/phe.py:94-96,118-119,143-144 -/
def Ty.text : Ty → List Char
  | .int b s => signText s ++ decText b
  | .float b => ['f'] ++ decText b
  | .complex b => ['c'] ++ decText (b * 2)
  | .tensor e sh => ['T', 'e', 'n', 's', 'o', 'r', '['] ++ e.text ++ [',', ' ', '('] ++ joinC (sh.map decText) ++ [')', ']']
  | .vector e n => ['V', 'e', 'c', 't', 'o', 'r', '['] ++ e.text ++ [',', ' '] ++ decText n ++ [']']
  | .table sch n => ['T', 'a', 'b', 'l', 'e', '[', '{'] ++ joinC (schemaText sch) ++ ['}'] ++ nrowsText n ++ [']']
  | .custom k => ['C', 'u', 's', 't', 'o', 'm', '['] ++ k.toList ++ [']']
  | .ss p _ => ['S', 'S', '['] ++ p.text ++ [']']
  | .mp v ps => ['M', 'P', '['] ++ v.text ++ [',', ' ', 'p', 'a', 'r', 't', 'i', 'e', 's', '='] ++ partiesText ps ++ [']']
  | .named k s => k.text ++ ['['] ++ s.toList ++ [']']
  | .bfvKey k n => ['B', 'F', 'V'] ++ k.toList ++ ['K', 'e', 'y', '[', 'N', '='] ++ decText n ++ [']']
  | .bfvPlain v => ['B', 'F', 'V', 'P', 'l', 'a', 'i', 'n', 't', 'e', 'x', 't', '['] ++ v.text ++ [']']
  | .bfvCipher v => ['B', 'F', 'V', 'C', 'i', 'p', 'h', 'e', 'r', 't', 'e', 'x', 't', '['] ++ v.text ++ [']']
  | .bfvEncoder n => ['B', 'F', 'V', 'E', 'n', 'c', 'o', 'd', 'e', 'r', '[', 'N', '='] ++ decText n ++ [']']
  | .teeQuote => ['T', 'E', 'E', 'Q', 'u', 'o', 't', 'e']
  | .teeMeasurement => ['T', 'E', 'E', 'M', 'e', 'a', 's', 'u', 'r', 'e', 'm', 'e', 'n', 't']
  | .pheKey s p => keyText p ++ ['K', 'e', 'y', '['] ++ s.toList ++ [']']
  | .phePlain b => ['P', 'T', '[', 'i'] ++ decText b ++ [']']
  | .pheCipher s => ['C', 'T', '['] ++ s.toList ++ [']']
/-- `f"'{k}': {v}"` for every column (edsl/typing.py:609) -/
def schemaText : List (String × Ty) → List (List Char)
  | [] => []
  | (k, t) :: r => (['\''] ++ k.toList ++ ['\'', ':', ' '] ++ t.text) :: schemaText r
end

/-! ## Specification -/

mutual
/-- The type with everything its text leaves out replaced by a constant: the encryption schema of a secret-shared type. -/
def Ty.hide : Ty → Ty
  | .tensor e sh => .tensor e.hide sh
  | .vector e n => .vector e.hide n
  | .table sch n => .table (hideSchema sch) n
  | .ss p _ => .ss p.hide ""
  | .mp v ps => .mp v.hide ps
  | .bfvPlain v => .bfvPlain v.hide
  | .bfvCipher v => .bfvCipher v.hide
  | t => t
/-- `Ty.hide` in every column -/
def hideSchema : List (String × Ty) → List (String × Ty)
  | [] => []
  | (k, t) :: r => (k, t.hide) :: hideSchema r
end

mutual
/-- The names inside a type do not contain the character that ends them in the text: no quote in a column name, no closing
bracket in the name of a custom type, a curve, a suite or a scheme, no opening bracket in a key kind. -/
def Ty.PlainNames : Ty → Prop
  | .tensor e _ | .vector e _ | .ss e _ | .mp e _ | .bfvPlain e | .bfvCipher e => e.PlainNames
  | .table sch _ => PlainColumns sch
  | .custom k => ']' ∉ k.toList
  | .named _ s => ']' ∉ s.toList
  | .bfvKey k _ => '[' ∉ k.toList
  | .pheKey s _ | .pheCipher s => ']' ∉ s.toList
  | _ => True
/-- columns of a table -/
def PlainColumns : List (String × Ty) → Prop
  | [] => True
  | (k, t) :: r => '\'' ∉ k.toList ∧ t.PlainNames ∧ PlainColumns r
end

/-! ## Proofs -/

/-- the next character, if any, is not a digit -/
def Stops (r : List Char) : Prop := ∀ c r', r = c :: r' → c.isDigit = false

theorem stops_nil : Stops [] := by intro c r' h; cases h
theorem stops_cons {c : Char} {r : List Char} (h : c.isDigit = false) : Stops (c :: r) := by
  intro d r' e; cases e; exact h

theorem upto {c : Char} : ∀ {a b r r' : List Char}, c ∉ a → c ∉ b → a ++ c :: r = b ++ c :: r' → a = b ∧ r = r'
  | [], [], r, r', _, _, h => by simpa using h
  | [], x :: b, r, r', _, hb, h => by
    simp only [List.nil_append, List.cons_append, List.cons.injEq] at h
    exact absurd h.1 (fun e => hb (e ▸ List.mem_cons_self))
  | x :: a, [], r, r', ha, _, h => by
    simp only [List.nil_append, List.cons_append, List.cons.injEq] at h
    exact absurd h.1 (fun e => ha (e ▸ List.mem_cons_self))
  | x :: a, y :: b, r, r', ha, hb, h => by
    simp only [List.cons_append, List.cons.injEq] at h
    obtain ⟨e1, e2⟩ := upto (fun m => ha (List.mem_cons_of_mem _ m)) (fun m => hb (List.mem_cons_of_mem _ m)) h.2
    exact ⟨by rw [h.1, e1], e2⟩

theorem digits_upto : ∀ {a b r r' : List Char}, (∀ c ∈ a, c.isDigit = true) → (∀ c ∈ b, c.isDigit = true) →
    Stops r → Stops r' → a ++ r = b ++ r' → a = b ∧ r = r'
  | [], [], r, r', _, _, _, _, h => by simpa using h
  | [], x :: b, r, r', _, hb, hr, _, h => by
    have := hr x (b ++ r') (by simpa using h)
    rw [hb x List.mem_cons_self] at this; cases this
  | x :: a, [], r, r', ha, _, _, hr', h => by
    have := hr' x (a ++ r) (by simpa using h.symm)
    rw [ha x List.mem_cons_self] at this; cases this
  | x :: a, y :: b, r, r', ha, hb, hr, hr', h => by
    simp only [List.cons_append, List.cons.injEq] at h
    obtain ⟨e1, e2⟩ := digits_upto (fun c m => ha c (List.mem_cons_of_mem _ m)) (fun c m => hb c (List.mem_cons_of_mem _ m))
      hr hr' h.2
    exact ⟨by rw [h.1, e1], e2⟩

theorem decText_digits_or_minus {n : Int} {c : Char} (h : c ∈ decText n) : c.isDigit = true ∨ c = '-' := by
  cases n with
  | ofNat m => exact .inl (Base.repr_isDigit h)
  | negSucc m =>
    simp only [decText, List.mem_cons] at h
    rcases h with h | h
    · exact .inr h
    · exact .inl (Base.repr_isDigit h)

theorem repr_upto {m n : Nat} {r r' : List Char} (hr : Stops r) (hr' : Stops r')
    (h : m.repr.toList ++ r = n.repr.toList ++ r') : m = n ∧ r = r' := by
  obtain ⟨e1, e2⟩ := digits_upto (fun c m => Base.repr_isDigit m) (fun c m => Base.repr_isDigit m) hr hr' h
  exact ⟨Base.repr_inj (String.toList_inj.mp e1), e2⟩

theorem repr_head_ne (m : Nat) (r : List Char) {c : Char} (hc : c.isDigit = false) (r' : List Char) :
    m.repr.toList ++ r ≠ c :: r' := by
  intro h
  cases hm : m.repr.toList with
  | nil => exact Base.repr_ne_nil m hm
  | cons d ds =>
    rw [hm] at h
    simp only [List.cons_append, List.cons.injEq] at h
    have := Base.repr_isDigit (n := m) (c := d) (by rw [hm]; exact List.mem_cons_self)
    rw [h.1, hc] at this; cases this

theorem int_upto {m n : Int} {r r' : List Char} (hr : Stops r) (hr' : Stops r')
    (h : decText m ++ r = decText n ++ r') : m = n ∧ r = r' := by
  cases m with
  | ofNat m => cases n with
    | ofNat n =>
      obtain ⟨e1, e2⟩ := repr_upto hr hr' h
      exact ⟨by rw [e1], e2⟩
    | negSucc n => exact absurd h (repr_head_ne m r (by decide) _)
  | negSucc m => cases n with
    | ofNat n => exact absurd h.symm (repr_head_ne n r' (by decide) _)
    | negSucc n =>
      simp only [decText, List.cons_append, List.cons.injEq, true_and] at h
      obtain ⟨e1, e2⟩ := repr_upto hr hr' h
      exact ⟨by rw [Nat.succ.inj e1], e2⟩

theorem int_head_ne (m : Int) (r : List Char) {c : Char} (hc : c.isDigit = false) (hm : c ≠ '-') (r' : List Char) :
    decText m ++ r ≠ c :: r' := by
  cases m with
  | ofNat m => exact repr_head_ne m r hc r'
  | negSucc m =>
    intro h
    simp only [decText, List.cons_append, List.cons.injEq] at h
    exact hm h.1.symm

/-- joined ints followed by a closing parenthesis -/
theorem ints_upto : ∀ {a b : List Int} {r r' : List Char},
    joinC (a.map decText) ++ ')' :: r = joinC (b.map decText) ++ ')' :: r' → a = b ∧ r = r'
  | [], [], r, r', h => by simpa [joinC] using h
  | [], [y], r, r', h => absurd h.symm (int_head_ne y _ (by decide) (by decide) _)
  | [], y :: z :: b, r, r', h => by
    simp only [List.map_cons, joinC, List.append_assoc] at h
    exact absurd h.symm (int_head_ne y _ (by decide) (by decide) _)
  | [x], [], r, r', h => absurd h (int_head_ne x _ (by decide) (by decide) _)
  | x :: z :: a, [], r, r', h => by
    simp only [List.map_cons, joinC, List.append_assoc] at h
    exact absurd h (int_head_ne x _ (by decide) (by decide) _)
  | [x], [y], r, r', h => by
    obtain ⟨e1, e2⟩ := int_upto (stops_cons (by decide)) (stops_cons (by decide)) h
    simp only [List.cons.injEq, true_and] at e2
    exact ⟨by rw [e1], e2⟩
  | [x], y :: z :: b, r, r', h => by
    simp only [List.map_cons, List.map_nil, joinC, List.append_assoc, List.cons_append] at h
    obtain ⟨_, e2⟩ := int_upto (stops_cons (by decide)) (stops_cons (by decide)) h
    simp at e2
  | x :: z :: a, [y], r, r', h => by
    simp only [List.map_cons, List.map_nil, joinC, List.append_assoc, List.cons_append] at h
    obtain ⟨_, e2⟩ := int_upto (stops_cons (by decide)) (stops_cons (by decide)) h
    simp at e2
  | x :: z :: a, y :: w :: b, r, r', h => by
    simp only [List.map_cons, joinC, List.append_assoc, List.cons_append] at h
    obtain ⟨e1, e2⟩ := int_upto (stops_cons (by decide)) (stops_cons (by decide)) h
    simp at e2
    obtain ⟨e3, e4⟩ := ints_upto (a := z :: a) (b := w :: b) (by simpa using e2)
    exact ⟨by rw [e1, e3], e4⟩

theorem tuple_upto : ∀ {a b : List Int} {r r' : List Char}, tupleText a ++ r = tupleText b ++ r' → a = b ∧ r = r'
  | [], [], r, r', h => by simpa [tupleText] using h
  | [], [y], r, r', h => by
    simp [tupleText] at h
    exact absurd h.symm (int_head_ne y _ (by decide) (by decide) _)
  | [], y :: z :: b, r, r', h => by
    simp [tupleText, joinC] at h
    exact absurd h.symm (int_head_ne y _ (by decide) (by decide) _)
  | [x], [], r, r', h => by
    simp [tupleText] at h
    exact absurd h (int_head_ne x _ (by decide) (by decide) _)
  | x :: z :: a, [], r, r', h => by
    simp [tupleText, joinC] at h
    exact absurd h (int_head_ne x _ (by decide) (by decide) _)
  | [x], [y], r, r', h => by
    simp [tupleText] at h
    obtain ⟨e1, e2⟩ := int_upto (stops_cons (by decide)) (stops_cons (by decide)) h
    simp only [List.cons.injEq, true_and] at e2
    exact ⟨by rw [e1], e2⟩
  | [x], y :: z :: b, r, r', h => by
    simp [tupleText, joinC] at h
    obtain ⟨_, e2⟩ := int_upto (stops_cons (by decide)) (stops_cons (by decide)) h
    simp at e2
  | x :: z :: a, [y], r, r', h => by
    simp [tupleText, joinC] at h
    obtain ⟨_, e2⟩ := int_upto (stops_cons (by decide)) (stops_cons (by decide)) h
    simp at e2
  | x :: z :: a, y :: w :: b, r, r', h => by
    have h' : joinC ((x :: z :: a).map decText) ++ ')' :: r = joinC ((y :: w :: b).map decText) ++ ')' :: r' := by
      simpa [tupleText] using h
    exact ints_upto h'

theorem parties_upto {a b : Option (List Int)} {r r' : List Char} (h : partiesText a ++ r = partiesText b ++ r') :
    a = b ∧ r = r' := by
  have hn : ∀ l : List Int, ∃ q, tupleText l = '(' :: q := by
    intro l
    match l with
    | [] => exact ⟨_, rfl⟩
    | [x] => exact ⟨_, by simp [tupleText]; rfl⟩
    | x :: y :: l => exact ⟨_, by simp [tupleText]; rfl⟩
  cases a with
  | none => cases b with
    | none => simpa [partiesText] using h
    | some l => obtain ⟨q, e⟩ := hn l; simp [partiesText, e] at h
  | some l => cases b with
    | none => obtain ⟨q, e⟩ := hn l; simp [partiesText, e] at h
    | some l' =>
      obtain ⟨e1, e2⟩ := tuple_upto h
      exact ⟨by rw [e1], e2⟩

theorem nrows_upto {m n : Int} {r r' : List Char} (h : nrowsText m ++ ']' :: r = nrowsText n ++ ']' :: r') :
    m = n ∧ r = r' := by
  unfold nrowsText at h
  by_cases hm : m = -1 <;> by_cases hn : n = -1
  · simp [hm, hn] at h; exact ⟨by rw [hm, hn], h⟩
  · simp [hm, hn] at h
  · simp [hm, hn] at h
  · simp [hm, hn] at h
    obtain ⟨e1, e2⟩ := int_upto (stops_cons (by decide)) (stops_cons (by decide)) h
    simp only [List.cons.injEq, true_and] at e2
    exact ⟨e1, e2⟩

/-- a key kind against a fixed name that does not end in `Key` -/
theorem kind_ne {k : List Char} (hk : '[' ∉ k) {name q q' : List Char} (hn : '[' ∉ name) (he : ∀ p : List Char, name ≠ p ++ ['K', 'e', 'y']) :
    k ++ 'K' :: 'e' :: 'y' :: '[' :: q ≠ name ++ '[' :: q' := by
  intro h
  have h' : (k ++ ['K', 'e', 'y']) ++ '[' :: q = name ++ '[' :: q' := by simpa using h
  obtain ⟨e, _⟩ := upto (by simp [hk]) hn h'
  exact he k e.symm

/-- class of a type, the four BFV classes together -/
def cls : Ty → Nat
  | .int _ true => 0
  | .int _ false => 1
  | .float _ => 2
  | .complex _ => 3
  | .tensor .. => 4
  | .vector .. => 5
  | .table .. => 6
  | .custom _ => 7
  | .ss .. => 8
  | .mp .. => 9
  | .named .point _ => 10
  | .named .scalar _ => 11
  | .named .privKey _ => 12
  | .named .pubKey _ => 13
  | .named .symKey _ => 14
  | .named .attestedKey _ => 15
  | .bfvKey .. | .bfvPlain .. | .bfvCipher .. | .bfvEncoder .. => 16
  | .teeQuote => 17
  | .teeMeasurement => 18
  | .pheKey _ true => 19
  | .pheKey _ false => 20
  | .phePlain _ => 21
  | .pheCipher _ => 22

/-- reads the class off the first characters -/
def clsOf : List Char → Nat
  | 'i' :: _ => 0
  | 'u' :: _ => 1
  | 'f' :: _ => 2
  | 'c' :: _ => 3
  | 'T' :: 'e' :: _ => 4
  | 'V' :: _ => 5
  | 'T' :: 'a' :: _ => 6
  | 'C' :: 'u' :: _ => 7
  | 'S' :: 'S' :: _ => 8
  | 'M' :: _ => 9
  | 'P' :: 'o' :: _ => 10
  | 'S' :: 'c' :: _ => 11
  | 'P' :: 'r' :: _ => 12
  | 'P' :: 'u' :: _ => 13
  | 'S' :: 'y' :: _ => 14
  | 'A' :: _ => 15
  | 'B' :: _ => 16
  | 'T' :: 'E' :: 'E' :: 'Q' :: _ => 17
  | 'T' :: 'E' :: 'E' :: 'M' :: _ => 18
  | 'P' :: 'K' :: _ => 19
  | 'S' :: 'K' :: _ => 20
  | 'P' :: 'T' :: _ => 21
  | 'C' :: 'T' :: _ => 22
  | _ => 23

theorem clsOf_text (t : Ty) (r : List Char) : clsOf (t.text ++ r) = cls t := by
  cases t
  case int b s => cases s <;> rfl
  case named k s => cases k <;> rfl
  case pheKey s p => cases p <;> rfl
  all_goals rfl

theorem same_cls {t t' : Ty} {r r' : List Char} (h : t.text ++ r = t'.text ++ r') : cls t = cls t' := by
  rw [← clsOf_text t r, h, clsOf_text]

/-- reads the class back from its number -/
macro "by_class" : tactic => `(tactic| (intro h; unfold cls at h; split at h <;> first
  | exact absurd h (by decide) | exact ⟨_, rfl⟩ | exact ⟨_, _, rfl⟩ | rfl
  | exact .inl ⟨_, _, rfl⟩ | exact .inr (.inl ⟨_, rfl⟩) | exact .inr (.inr (.inl ⟨_, rfl⟩)) | exact .inr (.inr (.inr ⟨_, rfl⟩))))

theorem cls_int_t {t : Ty} : cls t = 0 → ∃ b, t = .int b true := by by_class
theorem cls_int_f {t : Ty} : cls t = 1 → ∃ b, t = .int b false := by by_class
theorem cls_float {t : Ty} : cls t = 2 → ∃ b, t = .float b := by by_class
theorem cls_complex {t : Ty} : cls t = 3 → ∃ b, t = .complex b := by by_class
theorem cls_tensor {t : Ty} : cls t = 4 → ∃ e sh, t = .tensor e sh := by by_class
theorem cls_vector {t : Ty} : cls t = 5 → ∃ e n, t = .vector e n := by by_class
theorem cls_table {t : Ty} : cls t = 6 → ∃ s n, t = .table s n := by by_class
theorem cls_custom {t : Ty} : cls t = 7 → ∃ k, t = .custom k := by by_class
theorem cls_ss {t : Ty} : cls t = 8 → ∃ p e, t = .ss p e := by by_class
theorem cls_mp {t : Ty} : cls t = 9 → ∃ v p, t = .mp v p := by by_class
theorem cls_point {t : Ty} : cls t = 10 → ∃ s, t = .named .point s := by by_class
theorem cls_scalar {t : Ty} : cls t = 11 → ∃ s, t = .named .scalar s := by by_class
theorem cls_privKey {t : Ty} : cls t = 12 → ∃ s, t = .named .privKey s := by by_class
theorem cls_pubKey {t : Ty} : cls t = 13 → ∃ s, t = .named .pubKey s := by by_class
theorem cls_symKey {t : Ty} : cls t = 14 → ∃ s, t = .named .symKey s := by by_class
theorem cls_attestedKey {t : Ty} : cls t = 15 → ∃ s, t = .named .attestedKey s := by by_class
theorem cls_bfv {t : Ty} : cls t = 16 → (∃ k n, t = .bfvKey k n) ∨ (∃ v, t = .bfvPlain v) ∨ (∃ v, t = .bfvCipher v) ∨ ∃ n, t = .bfvEncoder n := by by_class
theorem cls_teeQuote {t : Ty} : cls t = 17 → t = .teeQuote := by by_class
theorem cls_teeMeas {t : Ty} : cls t = 18 → t = .teeMeasurement := by by_class
theorem cls_pkey {t : Ty} : cls t = 19 → ∃ s, t = .pheKey s true := by by_class
theorem cls_skey {t : Ty} : cls t = 20 → ∃ s, t = .pheKey s false := by by_class
theorem cls_phePlain {t : Ty} : cls t = 21 → ∃ b, t = .phePlain b := by by_class
theorem cls_pheCipher {t : Ty} : cls t = 22 → ∃ s, t = .pheCipher s := by by_class

/-- a name in brackets -/
theorem name_upto {a b : String} {r r' : List Char} (ha : ']' ∉ a.toList) (hb : ']' ∉ b.toList)
    (h : a.toList ++ ']' :: r = b.toList ++ ']' :: r') : a = b ∧ r = r' := by
  obtain ⟨e1, e2⟩ := upto ha hb h
  exact ⟨String.toList_inj.mp e1, e2⟩

theorem int_close {c : Char} (hc : c.isDigit = false) {m n : Int} {r r' : List Char}
    (h : decText m ++ c :: r = decText n ++ c :: r') : m = n ∧ r = r' := by
  obtain ⟨e1, e2⟩ := int_upto (stops_cons hc) (stops_cons hc) h
  simp only [List.cons.injEq, true_and] at e2
  exact ⟨e1, e2⟩

theorem not_key {name : List Char} (h : (name.reverse.take 3 == ['y', 'e', 'K']) = false) (p : List Char) :
    name ≠ p ++ ['K', 'e', 'y'] := by
  rintro rfl
  simp at h

mutual
/-- the text of a type, followed by something that does not continue a number, determines what it shows -/
theorem text_upto : ∀ (t t' : Ty) (r r' : List Char), t.PlainNames → t'.PlainNames → Stops r → Stops r' →
    t.text ++ r = t'.text ++ r' → t.hide = t'.hide ∧ r = r'
  | .int b true, t', r, r', _, _, hr, hr', h => by
    obtain ⟨b', rfl⟩ := cls_int_t (same_cls h).symm
    simp [Ty.text, signText, keyText] at h
    obtain ⟨e1, e2⟩ := int_upto hr hr' h
    exact ⟨by rw [e1], e2⟩
  | .int b false, t', r, r', _, _, hr, hr', h => by
    obtain ⟨b', rfl⟩ := cls_int_f (same_cls h).symm
    simp [Ty.text, signText, keyText] at h
    obtain ⟨e1, e2⟩ := int_upto hr hr' h
    exact ⟨by rw [e1], e2⟩
  | .float b, t', r, r', _, _, hr, hr', h => by
    obtain ⟨b', rfl⟩ := cls_float (same_cls h).symm
    simp [Ty.text, signText, keyText] at h
    obtain ⟨e1, e2⟩ := int_upto hr hr' h
    exact ⟨by rw [e1], e2⟩
  | .complex b, t', r, r', _, _, hr, hr', h => by
    obtain ⟨b', rfl⟩ := cls_complex (same_cls h).symm
    simp [Ty.text, signText, keyText] at h
    obtain ⟨e1, e2⟩ := int_upto hr hr' h
    exact ⟨by rw [show b = b' by omega], e2⟩
  | .tensor e sh, t', r, r', hp, hp', _, _, h => by
    obtain ⟨e', sh', rfl⟩ := cls_tensor (same_cls h).symm
    simp [Ty.text, signText, keyText] at h
    obtain ⟨e1, e2⟩ := text_upto e e' _ _ hp hp' (stops_cons (by decide)) (stops_cons (by decide)) h
    simp at e2
    obtain ⟨e3, e4⟩ := ints_upto e2
    simp at e4
    exact ⟨by simp only [Ty.hide]; rw [e1, e3], e4⟩
  | .vector e n, t', r, r', hp, hp', _, _, h => by
    obtain ⟨e', n', rfl⟩ := cls_vector (same_cls h).symm
    simp [Ty.text, signText, keyText] at h
    obtain ⟨e1, e2⟩ := text_upto e e' _ _ hp hp' (stops_cons (by decide)) (stops_cons (by decide)) h
    simp at e2
    obtain ⟨e3, e4⟩ := int_close (by decide) e2
    exact ⟨by simp only [Ty.hide]; rw [e1, e3], e4⟩
  | .table sch n, t', r, r', hp, hp', _, _, h => by
    obtain ⟨sch', n', rfl⟩ := cls_table (same_cls h).symm
    simp [Ty.text, signText, keyText] at h
    obtain ⟨e1, e2⟩ := columns_upto sch sch' _ _ hp hp' h
    obtain ⟨e3, e4⟩ := nrows_upto e2
    exact ⟨by simp only [Ty.hide]; rw [e1, e3], e4⟩
  | .custom k, t', r, r', hp, hp', _, _, h => by
    obtain ⟨k', rfl⟩ := cls_custom (same_cls h).symm
    simp [Ty.text, signText, keyText] at h
    obtain ⟨e1, e2⟩ := name_upto hp hp' h
    exact ⟨by rw [e1], e2⟩
  | .ss p e, t', r, r', hp, hp', _, _, h => by
    obtain ⟨p', e', rfl⟩ := cls_ss (same_cls h).symm
    simp [Ty.text, signText, keyText] at h
    obtain ⟨e1, e2⟩ := text_upto p p' _ _ hp hp' (stops_cons (by decide)) (stops_cons (by decide)) h
    simp at e2
    exact ⟨by simp only [Ty.hide]; rw [e1], e2⟩
  | .mp v ps, t', r, r', hp, hp', _, _, h => by
    obtain ⟨v', ps', rfl⟩ := cls_mp (same_cls h).symm
    simp [Ty.text, signText, keyText] at h
    obtain ⟨e1, e2⟩ := text_upto v v' _ _ hp hp' (stops_cons (by decide)) (stops_cons (by decide)) h
    simp at e2
    obtain ⟨e3, e4⟩ := parties_upto e2
    simp at e4
    exact ⟨by simp only [Ty.hide]; rw [e1, e3], e4⟩
  | .named .point s, t', r, r', hp, hp', _, _, h => by
    obtain ⟨s', rfl⟩ := cls_point (same_cls h).symm
    simp [Ty.text, NamedKind.text] at h
    obtain ⟨e1, e2⟩ := name_upto hp hp' h
    exact ⟨by rw [e1], e2⟩
  | .named .scalar s, t', r, r', hp, hp', _, _, h => by
    obtain ⟨s', rfl⟩ := cls_scalar (same_cls h).symm
    simp [Ty.text, NamedKind.text] at h
    obtain ⟨e1, e2⟩ := name_upto hp hp' h
    exact ⟨by rw [e1], e2⟩
  | .named .privKey s, t', r, r', hp, hp', _, _, h => by
    obtain ⟨s', rfl⟩ := cls_privKey (same_cls h).symm
    simp [Ty.text, NamedKind.text] at h
    obtain ⟨e1, e2⟩ := name_upto hp hp' h
    exact ⟨by rw [e1], e2⟩
  | .named .pubKey s, t', r, r', hp, hp', _, _, h => by
    obtain ⟨s', rfl⟩ := cls_pubKey (same_cls h).symm
    simp [Ty.text, NamedKind.text] at h
    obtain ⟨e1, e2⟩ := name_upto hp hp' h
    exact ⟨by rw [e1], e2⟩
  | .named .symKey s, t', r, r', hp, hp', _, _, h => by
    obtain ⟨s', rfl⟩ := cls_symKey (same_cls h).symm
    simp [Ty.text, NamedKind.text] at h
    obtain ⟨e1, e2⟩ := name_upto hp hp' h
    exact ⟨by rw [e1], e2⟩
  | .named .attestedKey s, t', r, r', hp, hp', _, _, h => by
    obtain ⟨s', rfl⟩ := cls_attestedKey (same_cls h).symm
    simp [Ty.text, NamedKind.text] at h
    obtain ⟨e1, e2⟩ := name_upto hp hp' h
    exact ⟨by rw [e1], e2⟩
  | .bfvKey k n, t', r, r', hp, hp', _, _, h => by
    rcases cls_bfv (same_cls h).symm with ⟨k', n', rfl⟩ | ⟨v', rfl⟩ | ⟨v', rfl⟩ | ⟨n', rfl⟩
    · simp [Ty.text, signText, keyText] at h
      have h' : (k.toList ++ ['K', 'e', 'y']) ++ '[' :: 'N' :: '=' :: (decText n ++ ']' :: r) =
          (k'.toList ++ ['K', 'e', 'y']) ++ '[' :: 'N' :: '=' :: (decText n' ++ ']' :: r') := by simpa using h
      obtain ⟨e1, e2⟩ := upto (by simpa using show '[' ∉ k.toList from hp) (by simpa using show '[' ∉ k'.toList from hp') h'
      simp at e1 e2
      obtain ⟨e3, e4⟩ := int_close (by decide) e2
      exact ⟨by rw [String.toList_inj.mp e1, e3], e4⟩
    · simp [Ty.text, signText, keyText] at h
      exact absurd h (kind_ne hp (name := "Plaintext".toList) (by decide) (fun p e => not_key (by decide) p e))
    · simp [Ty.text, signText, keyText] at h
      exact absurd h (kind_ne hp (name := "Ciphertext".toList) (by decide) (fun p e => not_key (by decide) p e))
    · simp [Ty.text, signText, keyText] at h
      exact absurd h (kind_ne hp (name := "Encoder".toList) (by decide) (fun p e => not_key (by decide) p e))
  | .bfvPlain v, t', r, r', hp, hp', _, _, h => by
    rcases cls_bfv (same_cls h).symm with ⟨k', n', rfl⟩ | ⟨v', rfl⟩ | ⟨v', rfl⟩ | ⟨n', rfl⟩
    · simp [Ty.text, signText, keyText] at h
      exact absurd h.symm (kind_ne hp' (name := "Plaintext".toList) (by decide) (fun p e => not_key (by decide) p e))
    · simp [Ty.text, signText, keyText] at h
      obtain ⟨e1, e2⟩ := text_upto v v' _ _ hp hp' (stops_cons (by decide)) (stops_cons (by decide)) h
      simp at e2
      exact ⟨by simp only [Ty.hide]; rw [e1], e2⟩
    · simp [Ty.text, signText, keyText] at h
    · simp [Ty.text, signText, keyText] at h
  | .bfvCipher v, t', r, r', hp, hp', _, _, h => by
    rcases cls_bfv (same_cls h).symm with ⟨k', n', rfl⟩ | ⟨v', rfl⟩ | ⟨v', rfl⟩ | ⟨n', rfl⟩
    · simp [Ty.text, signText, keyText] at h
      exact absurd h.symm (kind_ne hp' (name := "Ciphertext".toList) (by decide) (fun p e => not_key (by decide) p e))
    · simp [Ty.text, signText, keyText] at h
    · simp [Ty.text, signText, keyText] at h
      obtain ⟨e1, e2⟩ := text_upto v v' _ _ hp hp' (stops_cons (by decide)) (stops_cons (by decide)) h
      simp at e2
      exact ⟨by simp only [Ty.hide]; rw [e1], e2⟩
    · simp [Ty.text, signText, keyText] at h
  | .bfvEncoder n, t', r, r', hp, hp', _, _, h => by
    rcases cls_bfv (same_cls h).symm with ⟨k', n', rfl⟩ | ⟨v', rfl⟩ | ⟨v', rfl⟩ | ⟨n', rfl⟩
    · simp [Ty.text, signText, keyText] at h
      exact absurd h.symm (kind_ne hp' (name := "Encoder".toList) (by decide) (fun p e => not_key (by decide) p e))
    · simp [Ty.text, signText, keyText] at h
    · simp [Ty.text, signText, keyText] at h
    · simp [Ty.text, signText, keyText] at h
      obtain ⟨e1, e2⟩ := int_close (by decide) h
      exact ⟨by rw [e1], e2⟩
  | .teeQuote, t', r, r', _, _, _, _, h => by
    obtain rfl := cls_teeQuote (same_cls h).symm
    exact ⟨rfl, List.append_cancel_left h⟩
  | .teeMeasurement, t', r, r', _, _, _, _, h => by
    obtain rfl := cls_teeMeas (same_cls h).symm
    exact ⟨rfl, List.append_cancel_left h⟩
  | .pheKey s true, t', r, r', hp, hp', _, _, h => by
    obtain ⟨s', rfl⟩ := cls_pkey (same_cls h).symm
    simp [Ty.text, signText, keyText] at h
    obtain ⟨e1, e2⟩ := name_upto hp hp' h
    exact ⟨by rw [e1], e2⟩
  | .pheKey s false, t', r, r', hp, hp', _, _, h => by
    obtain ⟨s', rfl⟩ := cls_skey (same_cls h).symm
    simp [Ty.text, signText, keyText] at h
    obtain ⟨e1, e2⟩ := name_upto hp hp' h
    exact ⟨by rw [e1], e2⟩
  | .phePlain b, t', r, r', _, _, _, _, h => by
    obtain ⟨b', rfl⟩ := cls_phePlain (same_cls h).symm
    simp [Ty.text, signText, keyText] at h
    obtain ⟨e1, e2⟩ := int_close (by decide) h
    exact ⟨by rw [e1], e2⟩
  | .pheCipher s, t', r, r', hp, hp', _, _, h => by
    obtain ⟨s', rfl⟩ := cls_pheCipher (same_cls h).symm
    simp [Ty.text, signText, keyText] at h
    obtain ⟨e1, e2⟩ := name_upto hp hp' h
    exact ⟨by rw [e1], e2⟩
/-- the columns of a table, followed by the closing brace -/
theorem columns_upto : ∀ (s s' : List (String × Ty)) (r r' : List Char), PlainColumns s → PlainColumns s' →
    joinC (schemaText s) ++ '}' :: r = joinC (schemaText s') ++ '}' :: r' → hideSchema s = hideSchema s' ∧ r = r'
  | [], [], r, r', _, _, h => by simpa [schemaText, joinC, hideSchema] using h
  | [], [(k, t)], r, r', _, _, h => by simp [schemaText, joinC] at h
  | [], (k, t) :: (k2, t2) :: q, r, r', _, _, h => by simp [schemaText, joinC] at h
  | [(k, t)], [], r, r', _, _, h => by simp [schemaText, joinC] at h
  | (k, t) :: (k2, t2) :: q, [], r, r', _, _, h => by simp [schemaText, joinC] at h
  | [(k, t)], (k', t') :: q, r, r', hp, hp', h => by
    obtain ⟨x, hx⟩ : ∃ x, joinC (schemaText ((k', t') :: q)) = '\'' :: (k'.toList ++ '\'' :: ':' :: ' ' :: (t'.text ++ x)) ∧
        (q = [] ∧ x = [] ∨ ∃ p, x = ',' :: p) := by
      cases q with
      | nil => exact ⟨[], by simp [schemaText, joinC]⟩
      | cons c q => exact ⟨',' :: ' ' :: joinC (schemaText (c :: q)), by simp [schemaText, joinC]⟩
    rw [hx.1, show joinC (schemaText [(k, t)]) = '\'' :: (k.toList ++ '\'' :: ':' :: ' ' :: t.text) by
      simp [schemaText, joinC]] at h
    simp only [List.cons_append, List.append_assoc, List.cons.injEq, true_and] at h
    obtain ⟨e1, e2⟩ := upto hp.1 hp'.1 h
    simp at e2
    have hs : Stops (x ++ '}' :: r') := by
      rcases hx.2 with ⟨_, rfl⟩ | ⟨p, rfl⟩ <;> exact stops_cons (by decide)
    obtain ⟨e3, e4⟩ := text_upto t t' _ _ hp.2.1 hp'.2.1 (stops_cons (by decide)) hs e2
    rcases hx.2 with ⟨rfl, rfl⟩ | ⟨p, rfl⟩
    · simp at e4
      exact ⟨by simp only [hideSchema]; rw [String.toList_inj.mp e1, e3], e4⟩
    · simp at e4
  | (k, t) :: (k2, t2) :: s, (k', t') :: q, r, r', hp, hp', h => by
    obtain ⟨x, hx⟩ : ∃ x, joinC (schemaText ((k', t') :: q)) = '\'' :: (k'.toList ++ '\'' :: ':' :: ' ' :: (t'.text ++ x)) ∧
        (q = [] ∧ x = [] ∨ x = ',' :: ' ' :: joinC (schemaText q)) := by
      cases q with
      | nil => exact ⟨[], by simp [schemaText, joinC]⟩
      | cons c q => exact ⟨',' :: ' ' :: joinC (schemaText (c :: q)), by simp [schemaText, joinC]⟩
    rw [hx.1] at h
    have hl : joinC (schemaText ((k, t) :: (k2, t2) :: s)) =
        '\'' :: (k.toList ++ '\'' :: ':' :: ' ' :: (t.text ++ ',' :: ' ' :: joinC (schemaText ((k2, t2) :: s)))) := by
      simp [schemaText, joinC]
    rw [hl] at h
    simp only [List.cons_append, List.append_assoc, List.cons.injEq, true_and] at h
    obtain ⟨e1, e2⟩ := upto hp.1 hp'.1 h
    simp only [List.cons.injEq, true_and] at e2
    have hs : Stops (x ++ '}' :: r') := by
      rcases hx.2 with ⟨_, rfl⟩ | rfl <;> exact stops_cons (by decide)
    obtain ⟨e3, e4⟩ := text_upto t t' _ _ hp.2.1 hp'.2.1 (stops_cons (by decide)) hs e2
    rcases hx.2 with ⟨_, rfl⟩ | rfl
    · simp at e4
    · simp only [List.cons_append, List.cons.injEq, true_and] at e4
      obtain ⟨e5, e6⟩ := columns_upto ((k2, t2) :: s) q _ _ hp.2.2 hp'.2.2 e4
      refine ⟨?_, e6⟩
      have : hideSchema ((k, t) :: (k2, t2) :: s) = (k, t.hide) :: hideSchema ((k2, t2) :: s) := by
        rw [hideSchema]
      rw [this, e5, hideSchema, String.toList_inj.mp e1, e3]
end

mutual
theorem text_hide : ∀ t : Ty, t.hide.text = t.text
  | .int .. | .float .. | .complex .. | .custom .. | .named .. | .bfvKey .. | .bfvEncoder .. | .teeQuote
  | .teeMeasurement | .pheKey .. | .phePlain .. | .pheCipher .. => rfl
  | .tensor e _ => by simp only [Ty.hide, Ty.text, text_hide e]
  | .vector e _ => by simp only [Ty.hide, Ty.text, text_hide e]
  | .table sch _ => by simp only [Ty.hide, Ty.text, schemaText_hide sch]
  | .ss p _ => by simp only [Ty.hide, Ty.text, text_hide p]
  | .mp v _ => by simp only [Ty.hide, Ty.text, text_hide v]
  | .bfvPlain v => by simp only [Ty.hide, Ty.text, text_hide v]
  | .bfvCipher v => by simp only [Ty.hide, Ty.text, text_hide v]
theorem schemaText_hide : ∀ s : List (String × Ty), schemaText (hideSchema s) = schemaText s
  | [] => rfl
  | (k, t) :: r => by simp only [hideSchema, schemaText, text_hide t, schemaText_hide r]
end

/-! ## Properties -/

/-- **C123** (part of: the text of a type determines the type) Two types whose names are plain print alike exactly when they
are equal up to the encryption schema of their secret-shared components.  Missing: the schema, and names with quotes or
brackets (see the two theorems below). -/
theorem type_text_partial (t t' : Ty) (h : t.PlainNames) (h' : t'.PlainNames) : t.text = t'.text ↔ t.hide = t'.hide := by
  constructor
  · intro e
    exact (text_upto t t' [] [] h h' stops_nil stops_nil (by rw [e])).1
  · intro e
    rw [← text_hide t, e, text_hide]

/-- the hypotheses are met by a table of tensors and secret-shared columns held by two parties -/
example : (Ty.mp (.table [("id", .int 64 true), ("name", .custom "string"), ("x", .ss (.tensor (.float 32) [-1, 10]) "ss")] 100)
    (some [0, 1])).PlainNames ∧
    String.ofList (Ty.mp (.table [("id", .int 64 true), ("name", .custom "string"),
      ("x", .ss (.tensor (.float 32) [-1, 10]) "ss")] 100) (some [0, 1])).text =
    "MP[Table[{'id': i64, 'name': Custom[string], 'x': SS[Tensor[f32, (-1, 10)]]}, nrows=100], parties=(0, 1)]" := by
  refine ⟨?_, by decide +kernel⟩
  simp [Ty.PlainNames, PlainColumns]

/-- a type without secret-shared components is shown in full -/
theorem type_text_exact_partial (t t' : Ty) (h : t.PlainNames) (h' : t'.PlainNames) (hs : t.hide = t) (hs' : t'.hide = t')
    (e : t.text = t'.text) : t = t' := by
  rw [← hs, ← hs']; exact (type_text_partial t t' h h').mp e

example : (Ty.mp (.tensor (.int 8 false) [3]) none).PlainNames ∧
    (Ty.mp (.tensor (.int 8 false) [3]) none).hide = .mp (.tensor (.int 8 false) [3]) none := ⟨trivial, rfl⟩

/-- **C123** (violated) the encryption schema of a secret-shared type is not printed: two different valid types, one text -/
theorem type_text_schema_violated : ∃ t t' : Ty, t.valid = true ∧ t'.valid = true ∧ t.PlainNames ∧ t'.PlainNames ∧ t ≠ t' ∧
    t.text = t'.text :=
  ⟨.ss (.float 32) "ss", .ss (.float 32) "semi2k", by decide, by decide, trivial, trivial, by simp, rfl⟩

/-- **C123** (violated) column names are quoted but not escaped: a table with one column and a table with two print alike -/
theorem type_text_column_violated : ∃ t t' : Ty, t.valid = true ∧ t'.valid = true ∧ t.hide = t ∧ t'.hide = t' ∧ t ≠ t' ∧
    t.text = t'.text :=
  ⟨.table [("a': i32, 'b", .int 32 true)] (-1), .table [("a", .int 32 true), ("b", .int 32 true)] (-1),
    by decide, by decide, rfl, rfl, by simp, by decide +kernel⟩

end Verif.Serde
