import Verif.Model.Strings

/-!
# Specification of tokens and terms as texts
-/

namespace Rustnomial

/-- `+` or `-`. -/
def IsSign (c : Char) : Prop := c = '+' ∨ c = '-'

/-- A token after the first: a sign, then no sign. -/
def SignToken (t : List Char) : Prop := ∃ c body, t = c :: body ∧ IsSign c ∧ ∀ d ∈ body, ¬ IsSign d

/-- The first token: blanks, a non-blank character (possibly a sign), then no sign. -/
def FirstToken (t : List Char) : Prop :=
  ∃ ws c body, t = ws ++ c :: body ∧ (∀ d ∈ ws, isWhitespaceChar d = true) ∧
    isWhitespaceChar c = false ∧ ∀ d ∈ body, ¬ IsSign d

/-- `ts` is the partition of `s` at its signs (a sign before any other non-blank character belongs to
the first token). -/
def IsTokenization (s : List Char) (ts : List (List Char)) : Prop :=
  ts.flatten = s ∧
  match ts with
  | [] => True
  | t :: rest =>
    (FirstToken t ∧ ∀ u ∈ rest, SignToken u) ∨ (t ≠ [] ∧ (∀ d ∈ t, isWhitespaceChar d = true) ∧ rest = [])

/-- The byte ranges of consecutive pieces, from offset `off` on. -/
def rangesOf : Nat → List (List Char) → List (Nat × Nat)
  | _, [] => []
  | off, t :: ts => (off, off + byteLen t) :: rangesOf (off + byteLen t) ts

/-- Characters ignored inside a term. -/
def IsSep (c : Char) : Prop := c = ' ' ∨ c = ',' ∨ c = '_'

instance : DecidablePred IsSep := fun c => by unfold IsSep; infer_instance

/-- Characters of numbers. -/
def IsNum (c : Char) : Prop := c = '+' ∨ c = '-' ∨ c = '.' ∨ isDigitChar c = true

instance : DecidablePred IsNum := fun c => by unfold IsNum; infer_instance

/-- The text of a term without the ignored characters. -/
def clean (s : List Char) : List Char := s.filter (fun c => decide (¬ IsSep c))

/-- The coefficient written in front of `x`: nothing means one, a lone sign means plus or minus one. -/
def coeffText {N : Type} [One N] (parse : List Char → Option N) (num : List Char) : Option N :=
  if num = [] then some 1
  else if num = ['-'] ∨ num = ['+'] then parse (num ++ ['1'])
  else parse num

end Rustnomial
