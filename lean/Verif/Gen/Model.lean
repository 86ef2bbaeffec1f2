import Verif.Text.Model
/-
Model of symbol and literal generation in the code generators:
 - SizeofSanitizedString, SanitizeString, LabelForPath: /repo/lib/c.c:591-678,
   /repo/lib/aarch64.c:1096-1179 (same code)
 - StringLit: c.c:91-109, aarch64.c:226-239
 - function labels: c.c:236-238, 285-288
`signedChar` says whether the platform's `char` is signed (x86) or not (aarch64).
-/
namespace Verif.Gen
open Verif.Text (Byte Str ch Path Name)

/-- `isalnum((unsigned char)c)` in the C locale. -/
def isAlnum (b : Byte) : Bool :=
  (ch '0' ≤ b && b ≤ ch '9') || (ch 'A' ≤ b && b ≤ ch 'Z') || (ch 'a' ≤ b && b ≤ ch 'z')

/-- A hexadecimal digit as printed by `%x`. -/
def hexDigit (d : Nat) : Byte :=
  if d < 10 then UInt8.ofNat (48 + d) else UInt8.ofNat (87 + d)

/-- `%x` of an unsigned number. -/
def hex (n : Nat) : Str :=
  if n < 16 then [hexDigit n] else hex (n / 16) ++ [hexDigit (n % 16)]

/-- `%0<width>x`. -/
def hexPad (width n : Nat) : Str :=
  List.replicate (width - (hex n).length) (ch '0') ++ hex n

/-- The value a `char` has when passed to a variadic function, read back as `unsigned int` by
`%x`. -/
def charArg (signedChar : Bool) (b : Byte) : Nat :=
  if signedChar && 0x80 ≤ b then 2^32 - 256 + b.toNat else b.toNat

/-- What `sprintf` writes for one character (without the NUL): c.c:616, 665-671. -/
def translate (signedChar : Bool) (b : Byte) : Str :=
  if isAlnum b then [b] else [ch '_'] ++ hexPad 2 (charArg signedChar b) ++ [ch '_']

/-- The size of the buffers `x` and `translated` (c.c:615, 658). -/
def charBuf : Nat := 5

/-- Appending with bounds: `none` is a write outside a buffer. `cap` is the size of `dst`. -/
def appendChar (signedChar : Bool) (cap : Nat) (dst : Str) (b : Byte) : Option Str :=
  let t := translate signedChar b
  if t.length + 1 ≤ charBuf ∧ dst.length + t.length + 1 ≤ cap then some (dst ++ t) else none

def appendChars (signedChar : Bool) (cap : Nat) : Str → Str → Option Str
  | dst, [] => some dst
  | dst, b :: w => (appendChar signedChar cap dst b).bind fun dst => appendChars signedChar cap dst w

/-- c.c:591-598 `SizeofSanitizedString`. -/
def sizeofSanitized (s : Str) : Nat := s.foldl (fun n b => n + if isAlnum b then 1 else 4) 1

/-- c.c:611-619 `SanitizeString`, into a buffer of `SizeofSanitizedString` bytes. -/
def sanitize (signedChar : Bool) (s : Str) : Option Str :=
  appendChars signedChar (sizeofSanitized s) [] s

def prefix_ : Str := ['_', 'F', 'b', 'l', 'e'].map ch

/-- c.c:643-654: the size of the buffer `name`. -/
def labelLen (p : Path) : Nat :=
  p.foldl (fun len n => n.str.foldl (fun len b => if isAlnum b then len + 1 else len + 4) (len + 4)) (5 + 1) + 4

/-- c.c:661-673, the loop over the names. -/
def labelLoop (signedChar : Bool) (cap : Nat) : Str → Path → Option Str
  | dst, [] => some dst
  | dst, n :: p =>
    ((appendChar signedChar cap dst (ch '/')).bind fun dst =>
      appendChars signedChar cap dst n.str).bind fun dst => labelLoop signedChar cap dst p

/-- c.c:632-678 `LabelForPath`. -/
def labelForPath (signedChar : Bool) (p : Path) : Option Str :=
  let cap := labelLen p
  (labelLoop signedChar cap prefix_ p).bind fun dst => appendChar signedChar cap dst (ch '%')

/-- c.c:236-238, 285-288: the name of the C function for a code block, `%s_%04zx`; aarch64.c:369,
1035 has a dot instead of the underscore. -/
def functionLabel (signedChar : Bool) (sep : Byte) (blockName : Str) (blockId : Nat) : Option Str :=
  (sanitize signedChar blockName).map fun s => s ++ [sep] ++ hexPad 4 blockId

/-- c.c:95-106: the text written for one character of a C string literal. -/
def escapeC (b : Byte) : Str :=
  if b = 7 then [ch '\\', ch 'a']
  else if b = 8 then [ch '\\', ch 'b']
  else if b = 12 then [ch '\\', ch 'f']
  else if b = 10 then [ch '\\', ch 'n']
  else if b = 13 then [ch '\\', ch 'r']
  else if b = 9 then [ch '\\', ch 't']
  else if b = 11 then [ch '\\', ch 'v']
  else if b = ch '"' then [ch '\\', ch '"']
  else if b = ch '\\' then [ch '\\', ch '\\']
  else [b]

/-- c.c:91-109 `StringLit`. -/
def stringLitC (s : Str) : Str := [ch '"'] ++ s.flatMap escapeC ++ [ch '"']

/-- aarch64.c:229-236. -/
def escapeAsm (b : Byte) : Str :=
  if b = 10 then [ch '\\', ch 'n']
  else if b = ch '"' then [ch '\\', ch '"']
  else if b = ch '\\' then [ch '\\', ch '\\']
  else [b]

/-- aarch64.c:226-239 `StringLit`, the operand of `.string`. -/
def stringLitAsm (s : Str) : Str := [ch '"'] ++ s.flatMap escapeAsm ++ [ch '"']

/-- aarch64.c:1231: the operand of `.string` for a source file name, not escaped. -/
def locLitAsm (source : Str) : Str := [ch '"'] ++ source ++ [ch '"']

end Verif.Gen
