/-!
# The tokenizer of the expression parser

Models `sym::detail::ExprTokenizer::consume` and `consumeFloat`
(`stator/symbolic/parser.hpp:165-280`).

A C++ `std::string` is a list of bytes; a byte is a `Char` with code below 256, so the UTF-8
text of the plus-minus sign is the two characters `\u00c2\u00b1`. `std::isdigit`/`std::isalpha`
are those of the "C" locale (for bytes above 127 the C++ call has formally undefined behaviour;
the model follows glibc, which answers "no").
-/

namespace Stator

/-- `std::isdigit`, "C" locale. -/
def isDigit (c : Char) : Bool := '0' ≤ c && c ≤ '9'

/-- `std::isalpha`, "C" locale. -/
def isAlpha (c : Char) : Bool := ('a' ≤ c && c ≤ 'z') || ('A' ≤ c && c ≤ 'Z')

/-- The text of the plus-minus sign in UTF-8. -/
def pmSign : List Char := ['\u00c2', '\u00b1']

/-- A token. The C++ tokenizer represents the current token as a substring; here the kind that
`consume` determined is kept with the text. `bad` marks a position where `consume` throws. -/
inductive Tok
  | num (s : List Char)
  | word (s : List Char)
  | sym (s : List Char)
  | bad
  deriving DecidableEq, Repr

/-- The loop of `consumeFloat`, given the flags `decimal` and `exponent` and the text at `_end`.
Returns the consumed text and the remaining text; `none` is an exception.
models: parser.hpp:219-280. -/
def floatLoop (decimal exponent : Bool) : List Char → Option (List Char × List Char)
  | [] => some ([], [])
  | c :: cs =>
    if c = '.' then
      if !decimal && !exponent then
        (floatLoop true exponent cs).map fun p => (c :: p.1, p.2)
      else none
    else if c = 'e' ∨ c = 'E' then
      if !exponent then
        match cs with
        | [] => none
        | s :: cs' =>
          if s = '+' ∨ s = '-' then
            match cs' with
            | [] => none
            | g :: _ =>
              if isDigit g then
                (floatLoop true true cs').map fun p => (c :: s :: p.1, p.2)
              else none
          else if isDigit s then
            (floatLoop true true (s :: cs')).map fun p => (c :: p.1, p.2)
          else none
      else none
    else if isDigit c then
      (floatLoop decimal exponent cs).map fun p => (c :: p.1, p.2)
    else some ([], c :: cs)

/-- The texts of the symbolic (non-alphabetic) operators registered in `_right_operators` or
`_left_operators`. models: parser.hpp:101-134. -/
def symTable : List (List Char) :=
  [['='], ['+'], ['-'], ['*'], ['/'], ['^'], ['{'], pmSign, [')'], [','], ['['], [']'], [':'],
   ['}'], ['(']]

/-- Skip blanks. models: parser.hpp:170-171. -/
def skipSpaces : List Char → List Char
  | ' ' :: cs => skipSpaces cs
  | cs => cs

/-- One step of `consume` after blanks were skipped, at a character `c` followed by `cs`: the token
and the rest of the text. models: parser.hpp:179-216. -/
def lexOne (c : Char) (cs : List Char) : Tok × List Char :=
  if isDigit c then
    match floatLoop false false cs with
    | some (t, rest) => (.num (c :: t), rest)
    | none => (.bad, [])
  else if isAlpha c then
    (.word (c :: cs.takeWhile isAlpha), cs.dropWhile isAlpha)
  else
    let text := if c = '\u00c2' ∨ c = '\u00c3' then c :: cs.take 1 else [c]
    let rest := if c = '\u00c2' ∨ c = '\u00c3' then cs.drop 1 else cs
    if text ∈ symTable then (.sym text, rest) else (.bad, [])

theorem skipSpaces_length (cs : List Char) : (skipSpaces cs).length ≤ cs.length := by
  fun_induction skipSpaces cs <;> simp_all; omega

theorem floatLoop_append (d e : Bool) (cs t rest : List Char)
    (h : floatLoop d e cs = some (t, rest)) : cs = t ++ rest := by
  fun_induction floatLoop d e cs generalizing t rest <;> simp_all <;> grind

theorem lexOne_length (c : Char) (cs : List Char) : (lexOne c cs).2.length ≤ cs.length := by
  unfold lexOne
  split
  · split
    · rename_i h; have := floatLoop_append _ _ _ _ _ h; simp [this]
    · simp
  · split
    · exact (List.dropWhile_suffix isAlpha).length_le
    · dsimp only
      split <;> split <;> simp

/-- The token stream of a text: what successive calls of `consume` produce. The stream ends at the
end of the text, or with `bad` where `consume` throws. Tokenization does not depend on the parser
state, so the C++ tokenizer's lazily produced tokens are this list.
models: parser.hpp:165-217. -/
def lex (cs : List Char) : List Tok :=
  match _h : skipSpaces cs with
  | [] => []
  | c :: cs' =>
    if (lexOne c cs').1 = .bad then [.bad]
    else (lexOne c cs').1 :: lex (lexOne c cs').2
termination_by cs.length
decreasing_by
  have h1 := skipSpaces_length cs
  have h2 := lexOne_length c cs'
  rw [_h] at h1
  simp only [List.length_cons] at h1
  omega

end Stator
