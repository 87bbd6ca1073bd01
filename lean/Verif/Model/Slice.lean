import Verif.Model.Lexer

/-! Go slices with their backing arrays, as far as `NewLexer`'s `append` needs them. -/

namespace Cddlc

/-- Memory: the backing arrays, by address. For `append` at lexer/lexer.go:53. -/
abbrev Heap := List Bytes

/-- A Go `[]byte` header: which array, where in it, length and capacity. For `append` at lexer/lexer.go:53. -/
structure GoSlice where
  arr : Nat
  off : Nat
  len : Nat
  cap : Nat
  deriving DecidableEq, Repr

namespace GoSlice

/-- The bytes of a slice. For `append` at lexer/lexer.go:53. -/
def read (h : Heap) (s : GoSlice) : Bytes := ((h.getD s.arr []).drop s.off).take s.len

/-- The slice lies in an existing array and its length is within its capacity. For `append` at lexer/lexer.go:53. -/
def Valid (h : Heap) (s : GoSlice) : Prop :=
  s.arr < h.length ∧ s.len ≤ s.cap ∧ s.off + s.cap ≤ (h.getD s.arr []).length

/-- models the Go built-in `append(s, b)` for one byte: in place when there is spare capacity,
otherwise into a new array (whose extra capacity `grow` is the runtime's choice). For `append` at lexer/lexer.go:53. -/
def append (grow : Nat) (h : Heap) (s : GoSlice) (b : UInt8) : Heap × GoSlice :=
  if s.len < s.cap then
    (h.set s.arr ((h.getD s.arr []).set (s.off + s.len) b), { s with len := s.len + 1 })
  else
    (h ++ [s.read h ++ b :: List.replicate grow 0],
      { arr := h.length, off := 0, len := s.len + 1, cap := s.len + 1 + grow })

end GoSlice

/-- models lexer/lexer.go:52-66 `NewLexer`, with memory: the lexer keeps the slice returned by
`append(src, 32)`; the lexer of the model holds its contents. -/
def newLexerMem (grow : Nat) (h : Heap) (src : GoSlice) : Heap × GoSlice × Lexer :=
  let (h', s') := src.append grow h 32
  (h', s', Lexer.next
    { src := s'.read h', chr := 0, offset := 0, rdOffset := 0, errCount := 0, errors := [],
      lineLast := -1, linePrev := [] })

end Cddlc
