/-! Facts about decimal numerals, used for the names and message keys the code builds with f-strings. -/
namespace Verif.Base

theorem repr_inj {m n : Nat} (h : m.repr = n.repr) : m = n := by
  have h1 : Nat.toDigits 10 m = Nat.toDigits 10 n := by
    rw [← Nat.toList_repr, ← Nat.toList_repr, h]
  rw [← Nat.ofDigitChars_toDigits (b := 10) (n := m) (by decide) (by decide),
    ← Nat.ofDigitChars_toDigits (b := 10) (n := n) (by decide) (by decide), h1]

theorem repr_isDigit {n : Nat} {c : Char} (h : c ∈ n.repr.toList) : c.isDigit = true := by
  rw [Nat.toList_repr] at h
  exact Nat.isDigit_of_mem_toDigits (by decide) (by decide) h

theorem repr_ne_nil (n : Nat) : n.repr.toList ≠ [] := by
  rw [Nat.toList_repr]; exact Nat.toDigits_ne_nil

theorem append_repr_inj {p : String} {m n : Nat} (h : p ++ m.repr = p ++ n.repr) : m = n := by
  have : (p ++ m.repr).toList = (p ++ n.repr).toList := by rw [h]
  simp only [String.toList_append, List.append_cancel_left_eq] at this
  exact repr_inj (String.toList_inj.mp this)

end Verif.Base
