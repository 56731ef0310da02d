import Verif.Model.Debug

/-!
# Text on one line and on many

`Doc` is a text made of pieces that are not broken and groups in brackets. `line` writes it on one line, `lines` with every entry
of a group on its own lines, four spaces further in than the group. `joined` takes the line breaks out again without knowing the
pieces.
-/

namespace Fleece.Spec
open Fleece

mutual
/-- A piece, or a group: what opens it, the entries, what closes it. -/
inductive Doc where
  | piece (s : Text)
  | group (opener : Text) (es : Entries) (closer : Char)
/-- Entries, each with what stands in front of it (a key, or nothing). -/
inductive Entries where
  | nil
  | cons (front : Text) (d : Doc) (rest : Entries)
end

/-- The comma in front of these entries. -/
def Entries.comma : Entries → Text
  | .nil => []
  | .cons .. => [',', ' ']

mutual
/-- On one line. -/
def Doc.line : Doc → Text
  | .piece s => s
  | .group o es c => o ++ es.line ++ [c]
def Entries.line : Entries → Text
  | .nil => []
  | .cons p d es => p ++ d.line ++ es.comma ++ es.line
end

/-- Indentation at a level. -/
def margin (level : Nat) : Text := List.replicate (4 * level) ' '

mutual
/-- On many lines; the group starts in a line at this level. -/
def Doc.lines (level : Nat) : Doc → Text
  | .piece s => s
  | .group o .nil c => o ++ [c]
  | .group o (.cons p d es) c => o ++ '\n' :: Entries.lines (level + 1) (.cons p d es) ++ margin level ++ [c]
def Entries.lines (level : Nat) : Entries → Text
  | .nil => []
  | .cons p d es => margin level ++ p ++ d.lines level ++ [',', '\n'] ++ es.lines level
end

/-- Where `joined` is: in a line; after a comma that may end the line; in the indentation after a line that did not end with a
comma, or did. -/
inductive Place where
  | inside
  | comma
  | opened
  | next
deriving DecidableEq

/-- Takes line breaks out: after an opening bracket, or in front of a closing one, nothing is left; otherwise `, `. -/
def joined : Place → Text → Text
  | .comma, [] => [',']
  | _, [] => []
  | .inside, c :: cs =>
    if c = ',' then joined .comma cs else if c = '\n' then joined .opened cs else c :: joined .inside cs
  | .comma, c :: cs =>
    if c = ',' then ',' :: joined .comma cs else if c = '\n' then joined .next cs else ',' :: c :: joined .inside cs
  | .opened, c :: cs => if c = ' ' then joined .opened cs else c :: joined .inside cs
  | .next, c :: cs =>
    if c = ' ' then joined .next cs else if c ∈ [')', ']', '}'] then c :: joined .inside cs else ',' :: ' ' :: c :: joined .inside cs

/-- A first character that is no layout. -/
def Start (s : Text) : Prop := ∃ c r, s = c :: r ∧ c ≠ ' ' ∧ c ≠ ',' ∧ c ∉ [')', ']', '}']


/-- No bracket is opened here, and there is no comma. -/
def Plain (s : Text) : Prop := ∀ c ∈ s, c ∉ ['(', '[', '{', ',']

/-- No quote ends here: `\` is followed by another character, and quotes follow a `\`. -/
def unended : Text → Bool
  | [] => true
  | [c] => c != '"' && c != '\\'
  | c :: d :: s => if c = '\\' then unended s else c != '"' && unended (d :: s)

/-- One text in quotes. -/
def InQuotes (s : Text) : Prop := ∃ t, s = '"' :: t ++ ['"'] ∧ unended t = true

mutual
/-- Everything that can be broken is: outside quotes there are brackets around groups only, and commas between entries only. And nothing is broken that should
not be: no piece has a line break. -/
def Doc.Good : Doc → Prop
  | .piece s => '\n' ∉ s ∧ Start s ∧ (Plain s ∨ InQuotes s)
  | .group o es c => (∃ n b, o = n ++ [b] ∧ b ∈ ['(', '[', '{'] ∧ Plain n) ∧ '\n' ∉ o ∧ Start o ∧ es.Good ∧ c ∈ [')', ']', '}']
def Entries.Good : Entries → Prop
  | .nil => True
  | .cons p d es => (p = [] ∨ '\n' ∉ p ∧ Start p ∧ ∃ q, p = q ++ [':', ' '] ∧ InQuotes q) ∧ d.Good ∧ es.Good
end

end Fleece.Spec
