import Verif.Model.Basic

/-! # Reading the decimal numbers off a piece of text -/

namespace Spec

/-- The maximal runs of decimal digits in a text, read as numbers: `numbers none` outside a run,
`numbers (some n)` inside a run whose value so far is `n`. -/
def numbersFrom : Option Nat → List Char → List Nat
  | none, [] => []
  | some n, [] => [n]
  | acc, c :: cs =>
    if c.isDigit then numbersFrom (some ((acc.getD 0) * 10 + (c.toNat - '0'.toNat))) cs
    else (match acc with | none => [] | some n => [n]) ++ numbersFrom none cs

/-- All decimal numbers occurring in a text, in order. -/
def numbers (text : List Char) : List Nat := numbersFrom none text

example : numbers "key 12, then 7.".toList = [12, 7] := by decide

end Spec
