/-
Model of the input and output of proofs: `operator<<` and `operator>>` of `LinPfTranscript` and
`QuadPfTranscript` (/repo/src/dlproofs/bulletproof.cpp:469-525), of `Point`
(/repo/include/point25519.hpp:120-127) and of `Scalar` (/repo/include/scalar25519.hpp:153-160).

Points and scalars are their 32 bytes here.  Of the C++ streams only what these functions use is modelled:
formatted output of strings and of `size_t`, unformatted output of bytes (neither can fail), and an input
stream with its remaining bytes and the answer to `good()`.  The classic locale is assumed (no grouping).
-/
import Verif.Model.Bulletproof

namespace Verif.IO

/-- An input stream: the bytes that are left, and whether none of `eofbit`, `failbit`, `badbit` is set. -/
structure IStream where
  buf : Bytes
  good : Bool

/-- `std::isspace` in the classic locale. -/
def isSpace (b : UInt8) : Bool := b == 32 || (9 ≤ b && b ≤ 13)

def isDigit (b : UInt8) : Bool := 48 ≤ b && b ≤ 57

/-- The sentry of a formatted extraction: it skips white space; at the end of the stream it sets
`eofbit` and `failbit`. -/
def IStream.skip (s : IStream) : IStream :=
  if s.good then ⟨s.buf.dropWhile isSpace, !(s.buf.dropWhile isSpace).isEmpty⟩ else s

/-- `is >> str`: the bytes up to the next white space; `eofbit` is set if that is the end of the stream.  If
the sentry fails the string keeps its old value. -/
def getString (old : Bytes) (s : IStream) : Bytes × IStream :=
  let s := s.skip
  if s.good then (s.buf.takeWhile (!isSpace ·), ⟨s.buf.dropWhile (!isSpace ·), !(s.buf.dropWhile (!isSpace ·)).isEmpty⟩)
  else (old, s)

/-- The value of a string of decimal digits. -/
def decVal (ds : Bytes) : ℕ := ds.foldl (fun a b => a * 10 + (b.toNat - 48)) 0

/-- `is >> n` for `size_t n`: an optional sign and decimal digits.  Without digits the result is 0 and
`failbit` is set, when the number does not fit it is the largest one and `failbit` is set, and when the digits
reach the end of the stream `eofbit` is set.  If the sentry fails `n` keeps its old value (`none` if it
has not been initialised). -/
def getNat (old : Option ℕ) (s : IStream) : Option ℕ × IStream :=
  let s := s.skip
  if s.good then
    let neg := s.buf.head? == some 45
    let b := if s.buf.head? == some 45 || s.buf.head? == some 43 then s.buf.tail else s.buf
    let ds := b.takeWhile isDigit
    let rest := b.dropWhile isDigit
    if ds.isEmpty then (some 0, ⟨rest, false⟩)
    else if 2 ^ 64 ≤ decVal ds then (some (2 ^ 64 - 1), ⟨rest, false⟩)
    else (some (if neg then (2 ^ 64 - decVal ds) % 2 ^ 64 else decVal ds), ⟨rest, !rest.isEmpty⟩)
  else (old, s)

/-- `is.read(bytes, 32)`, point25519.hpp:124-127 and scalar25519.hpp:157-160. -/
def getRaw (old : Bytes) (s : IStream) : Bytes × IStream :=
  if s.good then
    if 32 ≤ s.buf.length then (s.buf.take 32, ⟨s.buf.drop 32, true⟩)
    else (s.buf ++ old.drop s.buf.length, ⟨[], false⟩)
  else (old, s)

/-- `for (auto& X: v) is >> X;` -/
def getRaws : List Bytes → IStream → List Bytes × IStream
  | [], s => ([], s)
  | o :: os, s =>
    let (x, s) := getRaw o s
    let (xs, s) := getRaws os s
    (x :: xs, s)

/-- `v.resize(n)`: elements are dropped or default-constructed ones (`dflt`) appended. -/
def resize (v : List Bytes) (n : ℕ) (dflt : Bytes) : List Bytes :=
  v.take n ++ List.replicate (n - v.length) dflt

/-- `is >> n; v.resize(n); for (auto& X: v) is >> X;`.  The use of an `n` that has not been initialised is
undefined; `resize` throws when there is no room for `n` elements (`maxLen`). -/
def getVec (maxLen : ℕ) (dflt : Bytes) (v : List Bytes) (n : Option ℕ) (s : IStream) :
    Res (List Bytes × Option ℕ × IStream) :=
  let (n, s) := getNat n s
  match n with
  | none => .ub
  | some n => if maxLen < n then .throw else
    let (v, s) := getRaws (resize v n dflt) s
    .ok (v, some n, s)

/-- `operator<<(LinPfTranscript)`, bulletproof.cpp:469-479. -/
def putLin (tr : LinPf Bytes Bytes) : Bytes :=
  tr.tag ++ tr.C ++ decBytes tr.Ls.length ++ tr.Ls.flatten ++ decBytes tr.Rs.length ++ tr.Rs.flatten ++ tr.S ++
    tr.a ++ tr.r

/-- `operator>>(LinPfTranscript)`, bulletproof.cpp:480-493. -/
def getLin (maxLen : ℕ) (dflt : Bytes) (tr : LinPf Bytes Bytes) (s : IStream) :
    Res (LinPf Bytes Bytes × IStream) := do
  let (tag, s) := getString tr.tag s
  let (C, s) := getRaw tr.C s
  let (Ls, n, s) ← getVec maxLen dflt tr.Ls none s
  let (Rs, _, s) ← getVec maxLen dflt tr.Rs n s
  let (S, s) := getRaw tr.S s
  let (a, s) := getRaw tr.a s
  let (r, s) := getRaw tr.r s
  .ok (⟨tag, C, Ls, Rs, S, a, r⟩, s)

/-- `operator<<(QuadPfTranscript)`, bulletproof.cpp:495-508. -/
def putQuad (tr : QuadPf Bytes Bytes) : Bytes :=
  tr.tag ++ tr.C ++ decBytes tr.Ls.length ++ tr.Ls.flatten ++ decBytes tr.Rs.length ++ tr.Rs.flatten ++ tr.S1 ++
    tr.S2 ++ tr.a ++ tr.b ++ tr.r

/-- `operator>>(QuadPfTranscript)`, bulletproof.cpp:509-525. -/
def getQuad (maxLen : ℕ) (dflt : Bytes) (tr : QuadPf Bytes Bytes) (s : IStream) :
    Res (QuadPf Bytes Bytes × IStream) := do
  let (tag, s) := getString tr.tag s
  let (C, s) := getRaw tr.C s
  let (Ls, n, s) ← getVec maxLen dflt tr.Ls none s
  let (Rs, _, s) ← getVec maxLen dflt tr.Rs n s
  let (S1, s) := getRaw tr.S1 s
  let (S2, s) := getRaw tr.S2 s
  let (a, s) := getRaw tr.a s
  let (b, s) := getRaw tr.b s
  let (r, s) := getRaw tr.r s
  .ok (⟨tag, C, Ls, Rs, S1, S2, a, b, r⟩, s)

end Verif.IO
