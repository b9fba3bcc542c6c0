import Verif.Spec.Regex

/-!
# Specification: patterns as they are written, and what they mean

A pattern is given by the parts it is made of. `text` is how they are written, `Means` says where in a text they match, and `Ok` says
that the parts are what the text is made of: that a character may stand for itself at its place, that the digits of an escape end where
they do, and so on. Nothing here speaks of parsing.
-/

namespace Hound.Spec.Pat
open Hound

/-! ## Characters -/

/-- The value of a digit, up to `f`. -/
def digitVal (c : UInt8) : Nat := if c ≤ 57 then c.toNat - 48 else if c ≤ 70 then c.toNat - 55 else c.toNat - 87

/-- The number the digits write. -/
def numeral (base : Nat) (ds : Bytes) : Nat := ds.foldl (fun n c => n * base + digitVal c) 0

/-- A decimal digit. -/
def isDigit (c : UInt8) : Bool := 48 ≤ c && c ≤ 57
/-- An octal digit. -/
def isOctal (c : UInt8) : Bool := 48 ≤ c && c ≤ 55
/-- A hexadecimal digit. -/
def isHex (c : UInt8) : Bool := isDigit c || (65 ≤ c && c ≤ 70) || (97 ≤ c && c ≤ 102)
/-- A letter or a decimal digit. -/
def isAlnum (c : UInt8) : Bool := isDigit c || (65 ≤ c && c ≤ 90) || (97 ≤ c && c ≤ 122)

/-- The control characters with a letter: `\a \f \n \r \t \v`. -/
def controls : List (UInt8 × Rune) := [(97, 7), (102, 12), (110, 10), (114, 13), (116, 9), (118, 11)]

/-- A character, as it can be written: itself, `\` and a punctuation mark, `\n` and the like, `\012`, `\x41`, `\x{10FFFF}`. -/
inductive Written where
  | plain (r : Rune)
  | punct (c : UInt8)
  | control (c : UInt8)
  | octal (ds : Bytes)
  | hex (a b : UInt8)
  | longHex (ds : Bytes)

/-- How it is written. -/
def Written.text : Written → Bytes
  | .plain r => encodeRaw r
  | .punct c => [92, c]
  | .control c => [92, c]
  | .octal ds => 92 :: ds
  | .hex a b => [92, 120, a, b]
  | .longHex ds => 92 :: 120 :: 123 :: (ds ++ [125])

/-- The character. -/
def Written.rune : Written → Rune
  | .plain r => r
  | .punct c => c.toNat
  | .control c => (controls.lookup c).getD 0
  | .octal ds => numeral 8 ds
  | .hex a b => numeral 16 [a, b]
  | .longHex ds => numeral 16 ds

/-- Written properly, if `next` follows. An octal escape has up to three digits, and two at least unless it begins with a zero; if it has
fewer than three, no such digit follows. -/
def Written.Ok (next : Bytes) : Written → Prop
  | .plain r => validRune r = true
  | .punct c => c < 128 ∧ isAlnum c = false
  | .control c => (controls.lookup c).isSome
  | .octal ds => ds ≠ [] ∧ (∀ c ∈ ds, isOctal c = true) ∧ ds.length ≤ 3 ∧ (ds.head? ≠ some 48 → 2 ≤ ds.length) ∧
      (ds.length < 3 → ∀ c, next.head? = some c → isOctal c = false)
  | .hex a b => isHex a = true ∧ isHex b = true
  | .longHex ds => ds ≠ [] ∧ (∀ c ∈ ds, isHex c = true) ∧ numeral 16 ds ≤ 0x10FFFF

/-! ## Sets of characters -/

/-- The characters of a set; if case does not matter, also those that differ from one of them in case only. -/
def WithCase (orbit : Rune → List Rune) (caseless : Bool) (S : Rune → Prop) (x : Rune) : Prop :=
  S x ∨ (caseless = true ∧ ∃ y, S y ∧ x ∈ orbit y)

/-- The set, or what is not in it. -/
def Sign (neg : Bool) (S : Rune → Prop) (x : Rune) : Prop := if neg then ¬ S x else S x

/-- ASCII letters. -/
def alpha (x : Rune) : Bool := (65 ≤ x && x ≤ 90) || (97 ≤ x && x ≤ 122)
/-- ASCII digits. -/
def dec (x : Rune) : Bool := 48 ≤ x && x ≤ 57
/-- Letters, digits and the underscore. -/
def wordChar (x : Rune) : Bool := alpha x || dec x || x == 95

/-- `\d \s \w`, and the capital letters for what is not in these sets. -/
def perlSets : List (UInt8 × Bool × (Rune → Bool)) :=
  [(100, false, dec), (68, true, dec),
   (115, false, fun x => x == 9 || x == 10 || x == 12 || x == 13 || x == 32), (83, true, fun x => x == 9 || x == 10 || x == 12 || x == 13 || x == 32),
   (119, false, wordChar), (87, true, wordChar)]

/-- The sets `[:name:]`. -/
def posixSets : List (Bytes × (Rune → Bool)) :=
  [(b!"alnum", fun x => alpha x || dec x), (b!"alpha", alpha), (b!"ascii", fun x => x < 128), (b!"blank", fun x => x == 9 || x == 32),
   (b!"cntrl", fun x => x < 32 || x == 127), (b!"digit", dec), (b!"graph", fun x => 32 < x && x < 127), (b!"lower", fun x => 97 ≤ x && x ≤ 122),
   (b!"print", fun x => 32 ≤ x && x < 127), (b!"punct", fun x => 32 < x && x < 127 && !alpha x && !dec x),
   (b!"space", fun x => (9 ≤ x && x ≤ 13) || x == 32), (b!"upper", fun x => 65 ≤ x && x ≤ 90), (b!"word", wordChar),
   (b!"xdigit", fun x => dec x || (65 ≤ x && x ≤ 70) || (97 ≤ x && x ≤ 102))]

/-- A set with a name: `\d` and the like; a Unicode class of one letter, `\pL` or `\PL`; one of any name, `\p{Greek}`, `\P{Greek}`, or with
a caret `\p{^Greek}`. -/
inductive Named where
  | perl (c : UInt8)
  | letter (neg : Bool) (c : UInt8)
  | word (neg caret : Bool) (name : Bytes)

/-- How it is written. -/
def Named.text : Named → Bytes
  | .perl c => [92, c]
  | .letter neg c => [92, if neg then 80 else 112, c]
  | .word neg caret name => [92, if neg then 80 else 112, 123] ++ (if caret then [94] else []) ++ name ++ [125]

section
variable (orbit : Rune → List Rune) (uni : Bytes → Option (Rune → Prop))

/-- The set has the character. `uni` gives the Unicode classes by name. -/
def Named.Has (caseless : Bool) : Named → Rune → Prop
  | .perl c, x => ∃ neg S, perlSets.lookup c = some (neg, S) ∧ Sign neg (WithCase orbit caseless (S · = true)) x
  | .letter neg c, x => ∃ S, uni [c] = some S ∧ Sign neg (WithCase orbit caseless S) x
  | .word neg caret name, x => ∃ S, uni name = some S ∧ Sign (neg != caret) (WithCase orbit caseless S) x

/-- There is such a set. (The name of a Unicode class is ASCII.) -/
def Named.Ok : Named → Prop
  | .perl c => (perlSets.lookup c).isSome
  | .letter _ c => c < 128 ∧ c ≠ 123 ∧ c ≠ 94 ∧ (uni [c]).isSome
  | .word _ _ name => (∀ c ∈ name, c < 128 ∧ c ≠ 125) ∧ name.head? ≠ some 94 ∧ (uni name).isSome

/-- What can stand between brackets: a character, a range, a set with a name, `[:name:]` or `[:^name:]`. -/
inductive Member where
  | one (c : Written)
  | range (lo hi : Written)
  | named (n : Named)
  | posix (neg : Bool) (name : Bytes)

/-- How it is written. -/
def Member.text : Member → Bytes
  | .one c => c.text
  | .range lo hi => lo.text ++ 45 :: hi.text
  | .named n => n.text
  | .posix neg name => [91, 58] ++ (if neg then [94] else []) ++ name ++ [58, 93]

/-- The characters it stands for. -/
def Member.Has (caseless : Bool) : Member → Rune → Prop
  | .one c, x => WithCase orbit caseless (· = c.rune) x
  | .range lo hi, x => WithCase orbit caseless (fun y => lo.rune ≤ y ∧ y ≤ hi.rune) x
  | .named n, x => n.Has orbit uni caseless x
  | .posix neg name, x => ∃ S, posixSets.lookup name = some S ∧ Sign neg (WithCase orbit caseless (S · = true)) x

/-- The text, behind a bracket, looks like that of `[:name:]`. -/
def LooksPosix (t : Bytes) : Prop := ∃ a b, t = 58 :: a ++ 58 :: 93 :: b

/-- Properly written between brackets, if `next` follows: no backslash stands for itself, and a closing bracket only if it is the `first`;
a single character is not followed by a dash, unless that is the last. -/
def Member.Ok (first : Bool) (next : Bytes) : Member → Prop
  | .one c => c.Ok next ∧ (∀ r, c = .plain r → r ≠ 92 ∧ (r = 93 → first = true) ∧ (r = 91 → ¬ LooksPosix next)) ∧
      ∀ d t, next = 45 :: d :: t → d = 93
  | .range lo hi => lo.Ok (45 :: (hi.text ++ next)) ∧ hi.Ok next ∧ (∀ r, lo = .plain r → r ≠ 92 ∧ (r = 93 → first = true)) ∧
      (∀ r, hi = .plain r → r ≠ 92 ∧ r ≠ 93) ∧ lo.rune ≤ hi.rune
  | .named n => n.Ok uni
  | .posix _ name => (posixSets.lookup name).isSome

/-- What stands between brackets. -/
def membersText (ms : List Member) : Bytes := ms.flatMap Member.text

/-- Properly written, if `next` follows. -/
def MembersOk : Bool → List Member → Bytes → Prop
  | _, [], _ => True
  | first, c :: ms, next => c.Ok uni first (membersText ms ++ next) ∧ MembersOk false ms next

/-! ## Flags and repetitions -/

/-- What the flags `i` (case does not matter), `m` (`^` and `$` match at line ends) and `s` (`.` matches newlines) say. -/
structure Mode where
  caseless : Bool
  multiline : Bool
  dotAll : Bool
deriving DecidableEq

/-- Flags `on-off`. -/
structure Flags where
  on : Bytes
  off : Option Bytes

/-- How they are written. -/
def Flags.text (f : Flags) : Bytes := f.on ++ (match f.off with | none => [] | some o => 45 :: o)

/-- They are of `i m s U`. -/
def Flags.Ok (f : Flags) : Prop := (∀ c ∈ f.on, c ∈ b!"imsU") ∧ ∀ o, f.off = some o → o ≠ [] ∧ ∀ c ∈ o, c ∈ b!"imsU"

/-- One flag, after them. -/
def Flags.set (f : Flags) (c : UInt8) (old : Bool) : Bool := if c ∈ f.off.getD [] then false else if c ∈ f.on then true else old

/-- The flags after them. (`U` only says which of several matches is taken.) -/
def Flags.mode (f : Flags) (m : Mode) : Mode := ⟨f.set 105 m.caseless, f.set 109 m.multiline, f.set 115 m.dotAll⟩

/-- How often: `*`, `+`, `?`, `{n}`, `{n,}`, `{n,m}`. -/
inductive Times where
  | star
  | plus
  | quest
  | exactly (n : Bytes)
  | atLeast (n : Bytes)
  | between (n m : Bytes)

/-- How it is written. -/
def Times.text : Times → Bytes
  | .star => [42]
  | .plus => [43]
  | .quest => [63]
  | .exactly n => 123 :: (n ++ [125])
  | .atLeast n => 123 :: (n ++ [44, 125])
  | .between n m => 123 :: (n ++ 44 :: (m ++ [125]))

/-- The least number of times. -/
def Times.least : Times → Nat
  | .star => 0
  | .plus => 1
  | .quest => 0
  | .exactly n => numeral 10 n
  | .atLeast n => numeral 10 n
  | .between n _ => numeral 10 n

/-- The greatest, if there is one. -/
def Times.most : Times → Option Nat
  | .star => none
  | .plus => none
  | .quest => some 1
  | .exactly n => some (numeral 10 n)
  | .atLeast _ => none
  | .between _ m => some (numeral 10 m)

/-- A decimal number without leading zeros. -/
def Decimal (n : Bytes) : Prop := n ≠ [] ∧ (∀ c ∈ n, isDigit c = true) ∧ (n.head? = some 48 → n.length = 1)

/-- The text, behind a brace, looks like that of a repetition. -/
def LooksCounted (t : Bytes) : Prop :=
  ∃ n rest, Decimal n ∧ (t = n ++ 125 :: rest ∨ t = n ++ 44 :: 125 :: rest ∨ ∃ m, Decimal m ∧ t = n ++ 44 :: (m ++ 125 :: rest))

/-- The numbers are at most 1000, in order. -/
def Times.Ok : Times → Prop
  | .star => True
  | .plus => True
  | .quest => True
  | .exactly n => Decimal n ∧ numeral 10 n ≤ 1000
  | .atLeast n => Decimal n ∧ numeral 10 n ≤ 1000
  | .between n m => Decimal n ∧ Decimal m ∧ numeral 10 n ≤ numeral 10 m ∧ numeral 10 m ≤ 1000

/-- The copies a repetition with numbers makes. -/
def Times.copies : Times → Nat
  | .exactly n => max 1 (numeral 10 n)
  | .atLeast n => max 1 (numeral 10 n)
  | .between _ m => max 1 (numeral 10 m)
  | _ => 1

/-! ## Patterns -/

/-- How a group begins: `(`, `(?P<name>`, `(?flags:`. -/
inductive Opening where
  | capture
  | name (n : Bytes)
  | flags (f : Flags)

/-- How it is written. -/
def Opening.text : Opening → Bytes
  | .capture => [40]
  | .name n => [40, 63, 80, 60] ++ n ++ [62]
  | .flags f => [40, 63] ++ f.text ++ [58]

/-- Properly written. -/
def Opening.Ok : Opening → Prop
  | .capture => True
  | .name n => n ≠ [] ∧ ∀ c ∈ n, isAlnum c = true ∨ c = 95
  | .flags f => f.Ok

/-- The flags in the group. -/
def Opening.mode (m : Mode) : Opening → Mode
  | .flags f => f.mode m
  | _ => m

mutual
/-- What can be repeated: a character; `.`, `^`, `$`, `\A`, `\z`, `\b`, `\B`; a set with a name; a set in brackets; a group. -/
inductive Atom where
  | char (c : Written)
  | dot
  | caret
  | dollar
  | textStart
  | textEnd
  | edge
  | noEdge
  | named (n : Named)
  | set (neg : Bool) (ms : List Member)
  | group (o : Opening) (body : Alts)
/-- A part of a sequence: an atom; one that is repeated, with a `?` behind that if it is `lazy`; `(?flags)`; `\Qtext\E`, at the end of the
pattern also without the `\E`. -/
inductive Piece where
  | once (a : Atom)
  | times (a : Atom) (t : Times) (lazy : Bool)
  | flags (f : Flags)
  | quoted (rs : List Rune) (closed : Bool)
/-- Pieces one after the other. -/
inductive Seq where
  | nil
  | cons (p : Piece) (s : Seq)
/-- Alternatives. -/
inductive Alts where
  | one (s : Seq)
  | or (s : Seq) (more : Alts)
end

mutual
/-- How it is written. -/
def Atom.text : Atom → Bytes
  | .char c => c.text
  | .dot => [46]
  | .caret => [94]
  | .dollar => [36]
  | .textStart => [92, 65]
  | .textEnd => [92, 122]
  | .edge => [92, 98]
  | .noEdge => [92, 66]
  | .named n => n.text
  | .set neg ms => 91 :: ((if neg then [94] else []) ++ membersText ms ++ [93])
  | .group o body => o.text ++ body.text ++ [41]
/-- How it is written. -/
def Piece.text : Piece → Bytes
  | .once a => a.text
  | .times a t lazy => a.text ++ t.text ++ (if lazy then [63] else [])
  | .flags f => [40, 63] ++ f.text ++ [41]
  | .quoted rs closed => [92, 81] ++ rs.flatMap encodeRaw ++ (if closed then [92, 69] else [])
/-- How it is written. -/
def Seq.text : Seq → Bytes
  | .nil => []
  | .cons p s => p.text ++ s.text
/-- How it is written. -/
def Alts.text : Alts → Bytes
  | .one s => s.text
  | .or s more => s.text ++ 124 :: more.text
end

/-- The characters that do not stand for themselves. -/
def special : List Rune := [92, 46, 43, 42, 63, 40, 41, 124, 91, 94, 36]

mutual
/-- Properly written, if `next` follows: a character stands for itself if it is not `special`, a brace if it does not look like a repetition;
there is something between brackets, and without the caret for what is not in the set, it does not begin with a caret. -/
def Atom.Ok (next : Bytes) : Atom → Prop
  | .char c => c.Ok next ∧ ∀ r, c = .plain r → r ∉ special ∧ (r = 123 → ¬ LooksCounted next)
  | .named n => n.Ok uni
  | .set neg ms => ms ≠ [] ∧ MembersOk uni true ms (93 :: next) ∧ (neg = false → (membersText ms).head? ≠ some 94)
  | .group o body => o.Ok ∧ body.Ok (41 :: next)
  | _ => True
/-- Properly written, if `next` follows. The text of `\Qtext\E` has no `\E`. -/
def Piece.Ok (next : Bytes) : Piece → Prop
  | .once a => a.Ok next
  | .times a t lazy => a.Ok (t.text ++ (if lazy then [63] else []) ++ next) ∧ t.Ok
  | .flags f => f.Ok
  | .quoted rs closed => (∀ r ∈ rs, validRune r = true) ∧ ¬ [92, 69] <:+: rs.flatMap encodeRaw ∧ (closed = false → next = [])
/-- Properly written, if `next` follows. -/
def Seq.Ok (next : Bytes) : Seq → Prop
  | .nil => True
  | .cons p s => p.Ok (s.text ++ next) ∧ s.Ok next
/-- Properly written, if `next` follows. -/
def Alts.Ok (next : Bytes) : Alts → Prop
  | .one s => s.Ok next
  | .or s more => s.Ok (124 :: (more.text ++ next)) ∧ more.Ok next
end

/-- The text is a pattern written by the rules above. -/
def ProperlyWritten (uni : Bytes → Option (Rune → Prop)) (expr : Bytes) : Prop :=
  ∃ p : Alts, p.Ok uni [] ∧ p.text = expr

/-- `(?flags)` or `\Qtext\E`. -/
def Piece.Loose : Piece → Prop
  | .flags f => f.Ok
  | .quoted rs closed => (∀ r ∈ rs, validRune r = true) ∧ closed = true
  | _ => False

/-- A repetition stands right behind `(?flags)` or `\Qtext\E`. (Go takes it to repeat the last character or atom before that.) -/
def LooseRepeat (expr : Bytes) : Prop :=
  ∃ (u v : Bytes) (p : Piece) (t : Times), p.Loose ∧ t.Ok ∧ expr = u ++ p.text ++ t.text ++ v

mutual
/-- How many copies of a part nested repetitions with numbers make. -/
def Atom.copies : Atom → Nat
  | .group _ body => body.copies
  | _ => 1
/-- The same for a piece. -/
def Piece.copies : Piece → Nat
  | .once a => a.copies
  | .times a t _ => t.copies * a.copies
  | _ => 1
/-- The same for a sequence. -/
def Seq.copies : Seq → Nat
  | .nil => 1
  | .cons p s => max p.copies s.copies
/-- The same for alternatives. -/
def Alts.copies : Alts → Nat
  | .one s => s.copies
  | .or s more => max s.copies more.copies
end

/-! ## Meaning -/

/-- The flags after a piece. -/
def Piece.after (m : Mode) : Piece → Mode
  | .flags f => f.mode m
  | _ => m

/-- The flags after a sequence. -/
def Seq.after (m : Mode) : Seq → Mode
  | .nil => m
  | .cons p s => Seq.after (p.after m) s

/-- One character of a set stands in the text. -/
def OneOf (S : Rune → Prop) (w : Bytes) (i j : Nat) : Prop := ∃ r, S r ∧ RuneAt w r i j

/-- One character after the other. -/
def CharsAt (caseless : Bool) (w : Bytes) : List Rune → Nat → Nat → Prop
  | [], i, j => i = j
  | c :: cs, i, j => ∃ k, OneOf (WithCase orbit caseless (· = c)) w i k ∧ CharsAt caseless w cs k j

mutual
/-- Where in the text `w` an atom matches: from `i` to `j`. -/
def Atom.Means (w : Bytes) (m : Mode) : Atom → Nat → Nat → Prop
  | .char c, i, j => OneOf (WithCase orbit m.caseless (· = c.rune)) w i j
  | .dot, i, j => OneOf (fun r => m.dotAll = true ∨ r ≠ 10) w i j
  | .caret, i, j => i = j ∧ (i = 0 ∨ (m.multiline = true ∧ w[i - 1]? = some 10))
  | .dollar, i, j => i = j ∧ (i = w.length ∨ (m.multiline = true ∧ w[i]? = some 10))
  | .textStart, i, j => i = j ∧ i = 0
  | .textEnd, i, j => i = j ∧ i = w.length
  | .edge, i, j => i = j ∧ wordBoundaryAt w i = true
  | .noEdge, i, j => i = j ∧ wordBoundaryAt w i = false
  | .named n, i, j => OneOf (n.Has orbit uni m.caseless) w i j
  | .set neg ms, i, j => OneOf (Sign neg fun x => ∃ c ∈ ms, c.Has orbit uni m.caseless x) w i j
  | .group o body, i, j => body.Means w (o.mode m) i j
/-- Where a piece matches. -/
def Piece.Means (w : Bytes) (m : Mode) : Piece → Nat → Nat → Prop
  | .once a, i, j => a.Means w m i j
  | .times a t _, i, j => ∃ n, t.least ≤ n ∧ (∀ h, t.most = some h → n ≤ h) ∧ Iter (a.Means w m) n i j
  | .flags _, i, j => i = j
  | .quoted rs _, i, j => CharsAt orbit m.caseless w rs i j
/-- Where a sequence matches; flags set in it hold for what follows. -/
def Seq.Means (w : Bytes) (m : Mode) : Seq → Nat → Nat → Prop
  | .nil, i, j => i = j
  | .cons p s, i, j => ∃ k, p.Means w m i k ∧ Seq.Means w (p.after m) s k j
/-- Where one of the alternatives matches. -/
def Alts.Means (w : Bytes) (m : Mode) : Alts → Nat → Nat → Prop
  | .one s, i, j => s.Means w m i j
  | .or s more, i, j => s.Means w m i j ∨ more.Means w (s.after m) i j
end

mutual
/-- Every character and every set in the pattern is as said. Both are asked with whether case matters where they stand. -/
def Atom.All (okChar : Bool → Rune → Prop) (okSet : Bool → (Rune → Prop) → Prop) (m : Mode) : Atom → Prop
  | .char c => okChar m.caseless c.rune
  | .named n => okSet m.caseless (n.Has orbit uni m.caseless)
  | .set neg ms => okSet m.caseless (Sign neg fun x => ∃ c ∈ ms, c.Has orbit uni m.caseless x)
  | .group o body => body.All okChar okSet (o.mode m)
  | _ => True
/-- The same for a piece. -/
def Piece.All (okChar : Bool → Rune → Prop) (okSet : Bool → (Rune → Prop) → Prop) (m : Mode) : Piece → Prop
  | .once a => a.All okChar okSet m
  | .times a _ _ => a.All okChar okSet m
  | .flags _ => True
  | .quoted rs _ => ∀ r ∈ rs, okChar m.caseless r
/-- The same for a sequence. -/
def Seq.All (okChar : Bool → Rune → Prop) (okSet : Bool → (Rune → Prop) → Prop) (m : Mode) : Seq → Prop
  | .nil => True
  | .cons p s => p.All okChar okSet m ∧ Seq.All okChar okSet (p.after m) s
/-- The same for alternatives. -/
def Alts.All (okChar : Bool → Rune → Prop) (okSet : Bool → (Rune → Prop) → Prop) (m : Mode) : Alts → Prop
  | .one s => s.All okChar okSet m
  | .or s more => s.All okChar okSet m ∧ more.All okChar okSet (s.after m)
end

mutual
/-- There is a `|` in it. -/
def Atom.Forks : Atom → Prop
  | .group _ body => body.Forks
  | _ => False
/-- The same for a piece. -/
def Piece.Forks : Piece → Prop
  | .once a => a.Forks
  | .times a _ _ => a.Forks
  | _ => False
/-- The same for a sequence. -/
def Seq.Forks : Seq → Prop
  | .nil => False
  | .cons p s => p.Forks ∨ s.Forks
/-- The same for alternatives. -/
def Alts.Forks : Alts → Prop
  | .one s => s.Forks
  | .or _ _ => True
end

mutual
/-- There is something in it that matches only where the text begins: `\A`, or `^` where it does not match at line ends. -/
def Atom.Starts (m : Mode) : Atom → Prop
  | .textStart => True
  | .caret => m.multiline = false
  | .group o body => body.Starts (o.mode m)
  | _ => False
/-- The same for a piece. -/
def Piece.Starts (m : Mode) : Piece → Prop
  | .once a => a.Starts m
  | .times a _ _ => a.Starts m
  | _ => False
/-- The same for a sequence. -/
def Seq.Starts (m : Mode) : Seq → Prop
  | .nil => False
  | .cons p s => p.Starts m ∨ Seq.Starts (p.after m) s
/-- The same for alternatives. -/
def Alts.Starts (m : Mode) : Alts → Prop
  | .one s => s.Starts m
  | .or s more => s.Starts m ∨ more.Starts (s.after m)
end

/-! ## Alternatives and case -/

/-- No character is in it in two cases. -/
def OneCase (L : Rune → Prop) : Prop := ∀ x y, L x → L y → y ∉ orbit x

/-- If the set has just one character, it is of `L`; and it is not just the two cases of one letter. -/
def SetIn (L S : Rune → Prop) : Prop :=
  (∀ x, (∀ y, y ≤ 0x10FFFF ∧ S y ↔ y = x) → L x) ∧ ∀ x y, y ∈ orbit x → ¬ ∀ z, z ≤ 0x10FFFF ∧ S z ↔ z = x ∨ z = y

/-- Case matters nowhere in the alternatives; or it matters everywhere in them, no character is written in them in two cases, and no set is
just the two cases of one letter. -/
def Alts.Uniform (m : Mode) (a : Alts) : Prop :=
  a.All orbit uni (fun f _ => f = true) (fun f _ => f = true) m ∨
  ∃ L, OneCase orbit L ∧ a.All orbit uni (fun f r => f = false ∧ L r) (fun f S => f = false ∧ SetIn orbit L S) m

mutual
/-- Wherever there are several alternatives in it, they are `Uniform`. -/
def Atom.Settled (m : Mode) : Atom → Prop
  | .group o body => body.Settled (o.mode m)
  | _ => True
/-- The same for a piece. -/
def Piece.Settled (m : Mode) : Piece → Prop
  | .once a => a.Settled m
  | .times a _ _ => a.Settled m
  | _ => True
/-- The same for a sequence. -/
def Seq.Settled (m : Mode) : Seq → Prop
  | .nil => True
  | .cons p s => p.Settled m ∧ Seq.Settled (p.after m) s
/-- The same for alternatives. -/
def Alts.Settled (m : Mode) : Alts → Prop
  | .one s => s.Settled m
  | .or s more => (Alts.or s more).Uniform orbit uni m
end

end

end Hound.Spec.Pat
