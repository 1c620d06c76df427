/-
Model of the parts of /repo/src/regev/regevEnc.cpp that Model/RegevEnc.lean leaves out: the tag of a `GlobalKey`, the
expansion of the CRS from the tag, and the fingerprints of the CRS and of the key.

libsodium's generic hash is an arbitrary function of the key, the length of the output and the message.  NTL's
pseudorandom generator is an arbitrary function of its seed and the position in the stream of elements.
-/
import Verif.Model.RegevEnc
import Verif.Model.Scalar25519
import Verif.Model.Aggregate
import Verif.Model.Ternary

namespace Verif.Regev

/-- The state of libsodium's streaming hash: `none` is uninitialised memory, otherwise key, length of the
output and the bytes so far. -/
abbrev HashState := Option (Bytes × ℕ × Bytes)

/-- `crypto_generichash_init` (libsodium, called in regevEnc.cpp:121 and 133): fails for keys of more than 64
bytes, before it writes to the state.  The callers ignore the returned error. -/
def hashInit (key : Bytes) (outlen : ℕ) : HashState :=
  if key.length > 64 then none else some (key, outlen, [])

/-- `crypto_generichash_update` (libsodium, called in regevEnc.cpp:125 and 137). -/
def hashUpdate (st : HashState) (b : Bytes) : Res HashState :=
  match st with
  | none => .ub
  | some (key, n, m) => .ok (some (key, n, m ++ b))

/-- `crypto_generichash_final` (libsodium, called in regevEnc.cpp:127 and 139) with the length given to
`crypto_generichash_init`. -/
def hashFinal (hash : Bytes → ℕ → Bytes → Bytes) (st : HashState) : Res Bytes :=
  match st with
  | none => .ub
  | some (key, n, m) => .ok (hash key n m)

section
variable {q ell : ℕ}

/-- The inner loop over `j`, regevEnc.cpp:123-126 and 135-138. -/
def hashRow (st : HashState) : EVec q ell → Res HashState
  | [] => .ok st
  | e :: es => do
    let st ← hashUpdate st (Sc.elementBytes e (32 * ell))
    hashRow st es

/-- The loop over `i`, regevEnc.cpp:123-126 and 135-138. -/
def hashRows (st : HashState) : EMat q ell → Res HashState
  | [] => .ok st
  | r :: rs => do
    let st ← hashRow st r
    hashRows st rs

/-- A `GlobalKey` with its tag and its fingerprints, regevEnc.hpp:57-74; `Bhash` is `none` while it has not been
written. -/
structure TaggedKey (q ell : ℕ) where
  tag : Bytes
  key : GlobalKey q ell
  Ahash : Bytes
  Bhash : Option Bytes

/-- The given or expanded CRS, regevEnc.cpp:108-117: `crs` is the matrix that the optional pointer points to;
without it, element `j` of row `i` is number `i*kay+j` of the stream with seed `tag+"CRS"`. -/
def crsEntry (prg : Bytes → ℕ → Elt (ZMod q) ell) (tag : Bytes) (kay : ℕ) (crs : Option (EMat q ell)) (i j : ℕ) :
    Res (Elt (ZMod q) ell) :=
  match crs with
  | some M => do rd (← rd M i) j
  | none => .ok (prg (tag ++ str "CRS") (i * kay + j))

/-- The loop that fills `A`, regevEnc.cpp:112-117. -/
def crsRows (prg : Bytes → ℕ → Elt (ZMod q) ell) (tag : Bytes) (kay : ℕ) (crs : Option (EMat q ell)) :
    Res (EMat q ell) :=
  mapRes (fun i => mapRes (fun j => crsEntry prg tag kay crs i j) (List.range kay)) (List.range kay)

/-- `GlobalKey::GlobalKey`, regevEnc.cpp:95-128, with the expansion of the CRS and its fingerprint.  The state of
the random generator is saved and restored (lines 111 and 128), so it is not part of the result. -/
def TaggedKey.new (hash : Bytes → ℕ → Bytes → Bytes) (prg : Bytes → ℕ → Elt (ZMod q) ell) (tag : Bytes)
    (k n sigma1 sigma2 : ℤ) (crs : Option (EMat q ell)) : Res (TaggedKey q ell) := do
  let _ ← GlobalKey.new (q := q) (ell := ell) k n sigma1 sigma2 fun _ _ => 0
  let A ← crsRows prg tag k.toNat crs
  let gk ← GlobalKey.new k n sigma1 sigma2 fun i j => (A.getD i []).getD j 0
  let st ← hashRows (hashInit (tag ++ str "CRS") 32) gk.A
  let Ahash ← hashFinal hash st
  .ok ⟨tag, gk, Ahash, none⟩

/-- `GlobalKey::setKeyHash`, regevEnc.cpp:131-140. -/
def TaggedKey.setKeyHash (hash : Bytes → ℕ → Bytes → Bytes) (t : TaggedKey q ell) : Res (TaggedKey q ell) := do
  let st ← hashRows (hashInit (str "RegevKey") 32) t.key.B
  let h ← hashFinal hash st
  .ok { t with Bhash := some h }

/-- `GlobalKey::addPK`, regevEnc.cpp:143-157, on a key with its fingerprints, which it leaves alone. -/
def TaggedKey.addPK (t : TaggedKey q ell) (pk : EVec q ell) : TaggedKey q ell × Res ℕ :=
  ({ t with key := (t.key.addPK pk).1 }, (t.key.addPK pk).2)

/-- `GlobalKey::operator==`, regevEnc.hpp:83. -/
def TaggedKey.eq (a b : TaggedKey q ell) : Bool := a.tag == b.tag

end
end Verif.Regev
