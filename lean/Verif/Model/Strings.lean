import Verif.Model.PolyMath
import Verif.Model.Numerics

/-!
# Parsing and printing (src/terms.rs, src/strings.rs, src/err.rs)

A `&str` is the list of its characters; byte offsets are sums of UTF-8 sizes.
-/

namespace Rustnomial

/-! ## Strings -/

/-- `str::len`: the number of bytes. -/
def byteLen (s : List Char) : Nat := (s.map Char.utf8Size).sum

/-- `str::char_indices`, from byte offset `off` on. -/
def charIndices : Nat → List Char → List (Nat × Char)
  | _, [] => []
  | off, c :: cs => (off, c) :: charIndices (off + c.utf8Size) cs

/-- Splits a string at a byte offset; `none` when the offset is not on a character boundary or
beyond the end. -/
def splitByte : List Char → Nat → Option (List Char × List Char)
  | cs, 0 => some ([], cs)
  | [], _ + 1 => none
  | c :: cs, n + 1 =>
    if c.utf8Size ≤ n + 1 then
      match splitByte cs (n + 1 - c.utf8Size) with
      | some (a, b) => some (c :: a, b)
      | none => none
    else none

/-- `&s[i..j]`: panics unless `i ≤ j` and both are character boundaries. -/
def sliceStr (s : List Char) (i j : Nat) : Res (List Char) :=
  if i ≤ j then
    match splitByte s j with
    | none => .panic
    | some (pre, _) =>
      match splitByte pre i with
      | none => .panic
      | some (_, r) => .ok r
  else .panic

/-- `char::is_whitespace` (Unicode `White_Space`), used at src/terms.rs 147. -/
def isWhitespaceChar (c : Char) : Bool :=
  let n := c.toNat
  (0x9 ≤ n && n ≤ 0xd) || n = 0x20 || n = 0x85 || n = 0xa0 || n = 0x1680 || (0x2000 ≤ n && n ≤ 0x200a) ||
    n = 0x2028 || n = 0x2029 || n = 0x202f || n = 0x205f || n = 0x3000

/-! ## The tokenizer -/

/-- `TermTokenizer` (src/terms.rs 116-121). -/
structure Tokenizer where
  charIndices : List (Nat × Char)
  seenStart : Bool
  startIndex : Nat
  len : Nat

/-- `TermTokenizer::new` (src/terms.rs 123-132). -/
def Tokenizer.new (s : List Char) : Tokenizer := ⟨Rustnomial.charIndices 0 s, false, 0, byteLen s⟩

/-- The body of `next` (src/terms.rs 138-160), recursive in the remaining characters: the range and
the new state. -/
def Tokenizer.nextLoop (len start : Nat) : List (Nat × Char) → Bool → Option (Nat × Nat) × Tokenizer
  | [], seen =>
    if start ≠ len then (some (start, len), ⟨[], seen, len, len⟩) else (none, ⟨[], seen, start, len⟩)
  | (index, c) :: rest, seen =>
    if c = '+' || c = '-' then
      if seen then (some (start, index), ⟨rest, seen, index, len⟩)
      else nextLoop len start rest true
    else if !seen && !isWhitespaceChar c then nextLoop len start rest true
    else nextLoop len start rest seen

/-- `Iterator::next` (src/terms.rs 137-161). -/
def Tokenizer.next (t : Tokenizer) : Option (Nat × Nat) × Tokenizer :=
  Tokenizer.nextLoop t.len t.startIndex t.charIndices t.seenStart

/-- Running the iterator to its end. -/
def Tokenizer.collect : Nat → Tokenizer → Res (List (Nat × Nat))
  | 0, _ => .fuel
  | f + 1, t =>
    match t.next with
    | (none, _) => .ok []
    | (some r, t') => do
      let rs ← collect f t'
      .ok (r :: rs)

/-! ## Numbers -/

/-- `'0'..='9'`. -/
def isDigitChar (c : Char) : Bool := decide ('0' ≤ c ∧ c ≤ '9')

/-- The value of a digit. -/
def digitVal (c : Char) : Nat := c.toNat - '0'.toNat

/-- The value of a numeral. -/
def decVal (ds : List Char) : Nat := ds.foldl (fun a c => 10 * a + digitVal c) 0

/-- One or more digits. -/
def parseDigits (ds : List Char) : Option Nat :=
  if ds ≠ [] ∧ ds.all isDigitChar = true then some (decVal ds) else none

/-- A value, if it fits the type. -/
def fitsInt (t : IntTy) (v : Int) : Option Int := if t.InRange v then some v else none

/-- `<$T>::from_str` of the standard library for the integer type `t`: an optional sign (`-` only
for signed types), one or more digits, value in range. -/
def parseInt (t : IntTy) : List Char → Option Int
  | '+' :: ds => (parseDigits ds).bind fun n => fitsInt t n
  | '-' :: ds => if t.signed then (parseDigits ds).bind fun n => fitsInt t (-(n : Int)) else none
  | ds => (parseDigits ds).bind fun n => fitsInt t n

/-- `usize::from_str` with `uw`-bit `usize`. -/
def parseUsize (uw : Nat) (s : List Char) : Option Nat := (parseInt ⟨false, uw⟩ s).map Int.toNat

/-- The digit character of `n < 10`. -/
def digitChar (n : Nat) : Char := Char.ofNat (n + 48)

/-- `Display` of an unsigned number of the standard library: decimal without leading zeros. -/
def showNat (n : Nat) : List Char :=
  if n < 10 then [digitChar n] else showNat (n / 10) ++ [digitChar (n % 10)]
termination_by n
decreasing_by omega

/-- `Display` of an integer of the standard library. -/
def showInt (v : Int) : List Char := if v < 0 then '-' :: showNat v.natAbs else showNat v.natAbs

/-! ## Terms -/

/-- `TermFromStringError` (src/err.rs 10-19). -/
inductive TermFromStringError where
  | moreThanOneX
  | coeffCouldNotBeParsed
  | unexpectedChar (c : Char)
  | caretWithoutXInFront
  | caretWithoutDegree
  | multipleCarets
  | degreeCouldNotBeParsed
  deriving DecidableEq, Repr

/-- `Display` of `TermFromStringError` (src/err.rs 28-44). -/
def TermFromStringError.display : TermFromStringError → List Char
  | .moreThanOneX => "More than one occurance of 'x' in str".toList
  | .coeffCouldNotBeParsed => "Coeff could not be parsed.".toList
  | .caretWithoutXInFront => "^ seen without x in front".toList
  | .unexpectedChar c =>
    "Unexpected char (".toList ++ [c] ++ ") (legal characters include +, -, ., x, ^, 0..9).".toList
  | .multipleCarets => "^ appears more than once.".toList
  | .caretWithoutDegree => "^ without ensuing degree!".toList
  | .degreeCouldNotBeParsed => "Degree could not be parsed".toList

/-- `PolynomialFromStringError` (src/err.rs 21-26). -/
inductive PolynomialFromStringError where
  | termFromString (e : TermFromStringError)
  | addingTerm (e : TryAddError)
  | noTermsFound
  deriving DecidableEq, Repr

/-- The local variables of `Term::from_str` (src/terms.rs 44-47). -/
structure TermState (N : Type) where
  numVec : List Char
  coeff : N
  seenX : Bool
  seenCaret : Bool

section
variable {N : Type}

/-- The body of the `for` loop of `Term::from_str` (src/terms.rs 48-88); `parse` is `N::from_str`
with its error dropped. -/
def termStep (parse : List Char → Option N) (st : TermState N) (c : Char) :
    Except TermFromStringError (TermState N) :=
  if c = ' ' || c = ',' || c = '_' then .ok st
  else if c = '+' || c = '-' || c = '.' || isDigitChar c then
    .ok { st with numVec := st.numVec ++ [c] }
  else if c = 'x' then
    if st.seenX then .error .moreThanOneX
    else if st.numVec.isEmpty then .ok { st with seenX := true }
    else
      let numVec :=
        if st.numVec.length = 1 ∧ (st.numVec = ['-'] ∨ st.numVec = ['+']) then st.numVec ++ ['1']
        else st.numVec
      match parse numVec with
      | some val => .ok { st with numVec := [], coeff := val, seenX := true }
      | none => .error .coeffCouldNotBeParsed
  else if c = '^' then
    if st.seenCaret then .error .multipleCarets
    else if !st.seenX then .error .caretWithoutXInFront
    else .ok { st with seenCaret := true }
  else .error (.unexpectedChar c)

/-- The `for` loop of `Term::from_str` (src/terms.rs 48-89). -/
def termLoop (parse : List Char → Option N) : List Char → TermState N →
    Except TermFromStringError (TermState N)
  | [], st => .ok st
  | c :: cs, st =>
    match termStep parse st c with
    | .ok st => termLoop parse cs st
    | .error e => .error e

/-- The part of `Term::from_str` after the loop (src/terms.rs 90-113). -/
def termFinish [Zero N] [NumZero N] (parse : List Char → Option N) (uw : Nat) (st : TermState N) :
    Except TermFromStringError (Term N) :=
  if st.seenX then
    if st.numVec.isEmpty then
      if st.seenCaret then .error .caretWithoutDegree else .ok (Term.new st.coeff 1)
    else
      match parseUsize uw st.numVec with
      | some degree => .ok (Term.new st.coeff degree)
      | none => .error .coeffCouldNotBeParsed
  else
    match parse st.numVec with
    | some val => .ok (Term.new val 0)
    | none => .error .coeffCouldNotBeParsed

/-- `Term::from_str` (src/terms.rs 43-113). -/
def Term.fromStr [Zero N] [NumZero N] [One N] (parse : List Char → Option N) (uw : Nat) (s : List Char) :
    Except TermFromStringError (Term N) :=
  match termLoop parse s ⟨[], 1, false, false⟩ with
  | .ok st => termFinish parse uw st
  | .error e => .error e

/-! ## Polynomials -/

/-- The `for` loop of `from_str` (src/strings.rs 46-60) and the code after it (61-65).  `S` is the
polynomial type. -/
def fromStrLoop {S : Type} [Zero N] [NumZero N] [One N] [MutPoly N S] (parse : List Char → Option N)
    (uw : Nat) (s : List Char) : Nat → Tokenizer → S → Bool → Res (Except PolynomialFromStringError S)
  | 0, _, _, _ => .fuel
  | f + 1, tok, polynomial, hasIterated =>
    match tok.next with
    | (none, _) => if hasIterated then .ok (.ok polynomial) else .ok (.error .noTermsFound)
    | (some (a, b), tok') => do
      let sub ← sliceStr s a b
      match Term.fromStr parse uw sub with
      | .error e => .ok (.error (.termFromString e))
      | .ok .zeroTerm => fromStrLoop parse uw s f tok' polynomial true
      | .ok (.term coeff deg) =>
        match MutPoly.tryAddTerm polynomial coeff deg with
        | (_, .error e) => .ok (.error (.addingTerm e))
        | (polynomial, .ok ()) => fromStrLoop parse uw s f tok' polynomial true

/-- `poly_from_str!` (src/strings.rs 32-69): `zero` is `$T::zero()`.  The fuel (number of calls of
the tokenizer) is one more than the number of characters plus one; C34 shows that it suffices. -/
def polyFromStr {S : Type} [Zero N] [NumZero N] [One N] [MutPoly N S] (zero : S)
    (parse : List Char → Option N) (uw : Nat) (s : List Char) : Res (Except PolynomialFromStringError S) :=
  fromStrLoop parse uw s (s.length + 2) (Tokenizer.new s) zero false

/-- `impl FromStr for Polynomial` (src/polynomial/polynomial.rs 659). -/
def Poly.fromStr [Zero N] [NumZero N] [One N] [Add N] [Sub N] [CanNegate N]
    (parse : List Char → Option N) (uw : Nat) (s : List Char) :
    Res (Except PolynomialFromStringError (Poly N)) := polyFromStr Poly.zero parse uw s

/-- `impl FromStr for SparsePolynomial` (src/polynomial/sparsepolynomial.rs 244). -/
def Sparse.fromStr [Zero N] [NumZero N] [One N] [Add N] [Sub N] [CanNegate N]
    (parse : List Char → Option N) (uw : Nat) (s : List Char) :
    Res (Except PolynomialFromStringError (Sparse N)) := polyFromStr Sparse.zero parse uw s

/-- `impl FromStr for Monomial` (src/polynomial/monomial.rs 326). -/
def Monomial.fromStr [Zero N] [NumZero N] [One N] [Add N] [Sub N]
    (parse : List Char → Option N) (uw : Nat) (s : List Char) :
    Res (Except PolynomialFromStringError (Monomial N)) := polyFromStr Monomial.zero parse uw s

/-- `impl FromStr for LinearBinomial` (src/polynomial/binomial.rs 289). -/
def LinearBinomial.fromStr [Zero N] [NumZero N] [One N] [Add N] [Sub N]
    (parse : List Char → Option N) (uw : Nat) (s : List Char) :
    Res (Except PolynomialFromStringError (LinearBinomial N)) :=
  polyFromStr LinearBinomial.zero parse uw s

/-- `impl FromStr for QuadraticTrinomial` (src/polynomial/trinomial.rs 336). -/
def QuadraticTrinomial.fromStr [Zero N] [NumZero N] [One N] [Add N] [Sub N]
    (parse : List Char → Option N) (uw : Nat) (s : List Char) :
    Res (Except PolynomialFromStringError (QuadraticTrinomial N)) :=
  polyFromStr QuadraticTrinomial.zero parse uw s

/-! ## Printing -/

/-- The operations of the coefficient type used by `Display`: `Display` itself, `One::is_one`,
`IsNegativeOne`, `IsPositive`, `Abs` (bounds at src/strings.rs 14, 71-74, 92-95). -/
structure NumFmt (N : Type) where
  shw : N → List Char
  isOne : N → Bool
  isNegativeOne : N → Bool
  isPositive : N → Bool
  abs : N → Res N

/-- The operations of the integer type `t`; `chk`: overflow checks are on. -/
def intFmt (chk : Bool) (t : IntTy) : NumFmt Int where
  shw := showInt
  isOne v := decide (v = 1)
  isNegativeOne := isNegativeOne t
  isPositive := isPositiveInt
  abs := absInt chk t

/-- `write_leading_term` (src/strings.rs 71-90): the text written. -/
def writeLeadingTerm (F : NumFmt N) (coeff : N) (degree : Nat) : List Char :=
  if degree = 0 then F.shw coeff
  else
    (if F.isNegativeOne coeff then ['-'] else if !F.isOne coeff then F.shw coeff else []) ++
      (if degree > 1 then ['x', '^'] ++ showNat degree else ['x'])

/-- `write_trailing_term` (src/strings.rs 92-113): the text written. -/
def writeTrailingTerm (F : NumFmt N) (coeff : N) (degree : Nat) : Res (List Char) := do
  let sgn := [' ', if F.isPositive coeff then '+' else '-', ' ']
  let coeff ← F.abs coeff
  if degree = 0 then .ok (sgn ++ F.shw coeff)
  else
    .ok (sgn ++ (if !F.isOne coeff then F.shw coeff else []) ++
      (if degree > 1 then ['x', '^'] ++ showNat degree else ['x']))

/-- The `for` loop of `fmt` (src/strings.rs 20-22). -/
def writeTrailingTerms (F : NumFmt N) : List (N × Nat) → Res (List Char)
  | [] => .ok []
  | (coeff, degree) :: ts => do
    let a ← writeTrailingTerm F coeff degree
    let b ← writeTrailingTerms F ts
    .ok (a ++ b)

/-- `fmt_poly!` (src/strings.rs 7-30) on the items of `ordered_term_iter()`. -/
def displayTerms (F : NumFmt N) : List (N × Nat) → Res (List Char)
  | [] => .ok ['0']
  | (coeff, degree) :: ts => do
    let b ← writeTrailingTerms F ts
    .ok (writeLeadingTerm F coeff degree ++ b)

/-- `Display for Polynomial` (src/polynomial/polynomial.rs 660). -/
def Poly.display [Zero N] [NumZero N] (F : NumFmt N) (p : Poly N) : Res (List Char) :=
  displayTerms F p.orderedTermIter

/-- `Display for SparsePolynomial` (src/polynomial/sparsepolynomial.rs 245). -/
def Sparse.display [Zero N] [NumZero N] (F : NumFmt N) (p : Sparse N) : Res (List Char) :=
  displayTerms F p.orderedTermIter

/-- `Display for LinearBinomial` (src/polynomial/binomial.rs 290). -/
def LinearBinomial.display [Zero N] [NumZero N] (F : NumFmt N) (p : LinearBinomial N) : Res (List Char) :=
  displayTerms F p.orderedTermIter

/-- `Display for QuadraticTrinomial` (src/polynomial/trinomial.rs 337). -/
def QuadraticTrinomial.display [Zero N] [NumZero N] (F : NumFmt N) (p : QuadraticTrinomial N) :
    Res (List Char) := displayTerms F p.orderedTermIter

/-- `Display for Monomial` (src/polynomial/monomial.rs 328-341). -/
def Monomial.display [Zero N] [NumZero N] (F : NumFmt N) (p : Monomial N) : Res (List Char) :=
  match p.asTerm with
  | .term coeff degree => .ok (writeLeadingTerm F coeff degree)
  | .zeroTerm => .ok ['0']

/-- `Display for Integral` (src/polynomial/integral.rs 46-58); `isZero` and `disp` are `is_zero()` and
the `Display` of the inner polynomial. -/
def Integral.display {P : Type} (isZero : P → Bool) (disp : P → Res (List Char)) (i : Integral P) :
    Res (List Char) :=
  if isZero i.polynomial then .ok ['C']
  else do
    let s ← disp i.polynomial
    .ok (s ++ [' ', '+', ' ', 'C'])

end

end Rustnomial
