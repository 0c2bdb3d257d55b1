/-
Byte strings. C++ `std::string` / `llvm::StringRef` / `std::string_view` values are
modelled as lists of bytes.
-/
deriving instance DecidableEq for Except

namespace Verif

/-- A C++ byte string. -/
abbrev Bytes := List UInt8

/-- `b!"abc"` is the list of the UTF-8 bytes of the literal (expanded at elaboration time). -/
macro:max "b!" s:str : term => do
  let bs := s.getString.toUTF8.toList
  let elems : Array (Lean.TSyntax `term) := (bs.map fun b => Lean.Syntax.mkNumLit (toString b.toNat)).toArray
  `(([$elems,*] : List UInt8))

/-- The newline byte `'\n'`. -/
abbrev NL : UInt8 := 10

/-- Lift a check over the 256 byte values. -/
theorem forall_byte {P : UInt8 → Prop} (h : ∀ n : Fin 256, P (UInt8.ofNat n.val)) (c : UInt8) : P c := by
  have := h ⟨c.toNat, c.toNat_lt⟩
  simpa using this

end Verif
