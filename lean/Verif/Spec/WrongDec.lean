/-
The inputs of a party that wants to prove a wrong decryption (used by C102).
-/
import Verif.Spec.Round

namespace Verif.Spec
open Regev

/-- The noise for which a ciphertext of `x` looks like an encryption of `x + ε` in place `i`: the term `ε·g` is moved from the
noise to the plaintext. -/
noncomputable def wrongNoise (delta : ℕ) (noise : EVec Regev.P 2) (i : ℕ) (ε : ℤ) : EVec Regev.P 2 :=
  noise.set i (noise.getD i 0 - (ε : ZMod Regev.P) • g Regev.P 2 delta)

/-- The inputs of a party that claims that plaintext `i` is larger by `ε` than it is, and shares the secret that results:
the ciphertexts that it has received and its keys are the same; all new shares, and with them the ciphertext of the new
shares, are shifted by the amount by which the secret is wrong. -/
noncomputable def wrongInput (delta : ℕ) (inp : RoundInput Regev.P) (i : ℕ) (ε : ℤ) : RoundInput Regev.P :=
  { inp with
    pt1 := inp.pt1.set i (inp.pt1.getD i 0 + ε)
    decNoise := wrongNoise delta inp.decNoise i ε
    pt2 := inp.pt2.map fun s => s + ε * inp.lagrange.getD i 0
    ct2 := inp.ct2.map fun c => c + ((ε : ZMod Regev.P) * inp.lagrange.getD i 0) • g Regev.P 2 delta }

end Verif.Spec
