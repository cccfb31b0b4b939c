import Mathlib.Data.Nat.Notation

/-! Model of the loader of the table of direction numbers, `math/random_ops/sobol/sobol_impl.py`. -/

namespace Model

/-- `sobol_impl.py` L253-259 of `load_data`: one data line `[d, s, a, m_1, ..., m_s]`; the polynomial is coded by
`2^s + 2 a + 1`. -/
def sobolTableEntry (tokens : List Nat) : Nat × List Nat := (2 ^ tokens.getD 1 0 + 2 * tokens.getD 2 0 + 1, tokens.drop 3)

/-- `sobol_impl.py` L236-261 `load_data`: the lines after the header. The array of initial direction numbers is padded
with zeros to 18 rows there; reading a list beyond its end gives zero here. -/
def loadSobolTable (lines : List (List Nat)) : List (Nat × List Nat) := lines.map sobolTableEntry

end Model
