import Verif.Spec.Tree
import Verif.Model.Debug

/-!
# Specification: documents as text

Which text is which document, as `{:?}` writes it: `Dict({"ab": Array([Short(1), Null("Null")])})`. Of the model only `Text` and
`Printer` (the text of a float, and which characters are printed as they are) are used.
-/

namespace Fleece.Spec
open Fleece

/-- `s` is `n` to the base `b`, without leading zeros. -/
inductive Digits (b : Nat) : Nat → Text → Prop where
  | one {d : Nat} (lt : d < b) : Digits b d [Nat.digitChar d]
  | more {n d : Nat} {s : Text} (pos : 0 < n) (lt : d < b) (h : Digits b n s) : Digits b (b * n + d) (s ++ [Nat.digitChar d])

/-- `s` is the number `z`. -/
inductive Numeral : Int → Text → Prop where
  | nonneg {n : Nat} {s : Text} (h : Digits 10 n s) : Numeral n s
  | neg {n : Nat} {s : Text} (h : Digits 10 n s) (pos : 0 < n) : Numeral (-n) ('-' :: s)

/-- The characters that have an escape of their own, and what stands after the backslash. -/
def escapes : List (Char × Char) := [('\x00', '0'), ('\t', 't'), ('\n', 'n'), ('\r', 'r'), ('"', '"'), ('\\', '\\')]

/-- `s` is the character `c` inside quotes. -/
inductive Escaped (P : Printer) (c : Char) : Text → Prop where
  | short {x : Char} (h : (c, x) ∈ escapes) : Escaped P c ['\\', x]
  | plain (h : ∀ x, (c, x) ∉ escapes) (p : P.plain c = true) : Escaped P c [c]
  | hex {s : Text} (h : ∀ x, (c, x) ∉ escapes) (p : P.plain c = false) (ds : Digits 16 c.toNat s) :
      Escaped P c ('\\' :: 'u' :: '{' :: (s ++ ['}']))

/-- `s` is the characters `cs` inside quotes. -/
inductive EscapedAll (P : Printer) : List Char → Text → Prop where
  | nil : EscapedAll P [] []
  | cons {c : Char} {cs : List Char} {s r : Text} (h : Escaped P c s) (t : EscapedAll P cs r) : EscapedAll P (c :: cs) (s ++ r)

/-- `s` is the text with these UTF-8 bytes, in quotes. -/
inductive Quoted (P : Printer) : List UInt8 → Text → Prop where
  | intro {cs : List Char} {s : Text} (h : EscapedAll P cs s) : Quoted P (cs.flatMap String.utf8EncodeChar) ('"' :: (s ++ ['"']))

/-- `s` is the items one after the other with `, ` between them. -/
inductive Joined : List Text → Text → Prop where
  | nil : Joined [] []
  | one {x : Text} : Joined [x] x
  | more {x y s : Text} {ys : List Text} (h : Joined (y :: ys) s) : Joined (x :: y :: ys) (x ++ ',' :: ' ' :: s)

/-- `s` is the document `t`. -/
inductive Renders (P : Printer) : Tree → Text → Prop where
  | null : Renders P .null "Null(\"Null\")".toList
  | undefined : Renders P .undefined "Undefined(\"Undefined\")".toList
  | false : Renders P (.bool Bool.false) "False(\"False\")".toList
  | true : Renders P (.bool Bool.true) "True(\"True\")".toList
  | int {z : Int} {name s : Text} (how : name ∈ ["Short".toList, "Int".toList, "UnsignedInt".toList]) (h : Numeral z s) :
      Renders P (.int z) (name ++ '(' :: (s ++ [')']))
  | float {d : UInt64} {name : Text} (how : name ∈ ["Float".toList, "Double32".toList, "Double64".toList]) :
      Renders P (.float d) (name ++ '(' :: (P.float d ++ [')']))
  | str {b : List UInt8} {s : Text} (h : Quoted P b s) : Renders P (.str b) ("String(".toList ++ s ++ ")".toList)
  | data {d : List UInt8} {ss : List Text} {s : Text} (len : ss.length = d.length)
      (each : ∀ (i : Nat) (b : UInt8) (x : Text), d[i]? = some b → ss[i]? = some x → Numeral b.toNat x) (h : Joined ss s) :
      Renders P (.data d) ("Data([".toList ++ s ++ "])".toList)
  | arr {xs : List Tree} {ss : List Text} {s : Text} (len : ss.length = xs.length)
      (each : ∀ (i : Nat) (t : Tree) (x : Text), xs[i]? = some t → ss[i]? = some x → Renders P t x) (h : Joined ss s) :
      Renders P (.arr xs) ("Array([".toList ++ s ++ "])".toList)
  | dict {kvs : List (List UInt8 × Tree)} {ks vs : List Text} {s : Text} (lenk : ks.length = kvs.length)
      (lenv : vs.length = kvs.length)
      (keys : ∀ (i : Nat) (k : List UInt8 × Tree) (x : Text), kvs[i]? = some k → ks[i]? = some x → Quoted P k.1 x)
      (vals : ∀ (i : Nat) (k : List UInt8 × Tree) (x : Text), kvs[i]? = some k → vs[i]? = some x → Renders P k.2 x)
      (h : Joined (List.zipWith (fun k v => k ++ ':' :: ' ' :: v) ks vs) s) :
      Renders P (.dict kvs) ("Dict({".toList ++ s ++ "})".toList)

/-- The float `d` occurs in the document. -/
inductive HasFloat (d : UInt64) : Tree → Prop where
  | self : HasFloat d (.float d)
  | arr {xs : List Tree} {x : Tree} (mem : x ∈ xs) (h : HasFloat d x) : HasFloat d (.arr xs)
  | dict {kvs : List (List UInt8 × Tree)} {k : List UInt8 × Tree} (mem : k ∈ kvs) (h : HasFloat d k.2) : HasFloat d (.dict kvs)

/-- The same documents but for floats that have the same text. -/
inductive Alike (P : Printer) : Tree → Tree → Prop where
  | refl (t : Tree) : Alike P t t
  | float {a b : UInt64} (h : P.float a = P.float b) : Alike P (.float a) (.float b)
  | arr {xs ys : List Tree} (len : xs.length = ys.length)
      (each : ∀ (i : Nat) (x y : Tree), xs[i]? = some x → ys[i]? = some y → Alike P x y) : Alike P (.arr xs) (.arr ys)
  | dict {xs ys : List (List UInt8 × Tree)} (keys : xs.map Prod.fst = ys.map Prod.fst)
      (each : ∀ (i : Nat) (x y : List UInt8 × Tree), xs[i]? = some x → ys[i]? = some y → Alike P x.2 y.2) :
      Alike P (.dict xs) (.dict ys)

end Fleece.Spec
