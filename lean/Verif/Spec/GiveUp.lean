/-
The random bits of the rejection samplers as finite tables (used by C90).
-/
import Verif.Spec.Main

namespace Verif.Spec
open Regev

/-- The random bits of one trial: for each of `len` elements and each of its two coefficients, `bits` bits and a sign. -/
abbrev TrialBits (len bits : ℕ) : Type := Fin len → Fin 2 → Fin (2 ^ bits) × Bool

/-- The random bits of a loop of `tries` trials. -/
abbrev LoopBits (tries len bits : ℕ) : Type := Fin tries → TrialBits len bits

/-- The bits of a trial as a function of element and coefficient (zero outside of the table). -/
def trialOf {len bits : ℕ} (x : TrialBits len bits) (i k : ℕ) : ℕ × Bool :=
  if h : i < len ∧ k < 2 then (((x ⟨i, h.1⟩ ⟨k, h.2⟩).1 : ℕ), (x ⟨i, h.1⟩ ⟨k, h.2⟩).2) else (0, false)

/-- The bits of a loop as a function of trial, element and coefficient (zero outside of the table). -/
def rndOf {tries len bits : ℕ} (x : LoopBits tries len bits) : Rnd :=
  fun t => if h : t < tries then trialOf (x ⟨t, h⟩) else fun _ _ => (0, false)

/-- The vector that one trial draws. -/
def drawnBy (q : ℕ) {len bits : ℕ} (x : TrialBits len bits) : EVec q 2 :=
  (List.range len).map fun i => boundedElement bits (trialOf x i)

/-- The bits for a key pair: key and noise, 51 trials each. -/
abbrev KeyBits {q : ℕ} (gk : GlobalKey q 2) : Type := LoopBits 51 gk.kay 2 × LoopBits 51 gk.kay gk.sigmaEnc1

/-- The bits for an encryption: 51 trials for the randomness, 25 for each noise. -/
abbrev EncBits {q : ℕ} (gk : GlobalKey q 2) : Type :=
  LoopBits 51 gk.kay 2 × LoopBits 25 gk.kay gk.sigmaEnc1 × LoopBits 25 gk.enn gk.sigmaEnc2

def keyCoinsOf {q : ℕ} {gk : GlobalKey q 2} (x : KeyBits gk) : Rnd × Rnd := (rndOf x.1, rndOf x.2)

def encCoinsOf {q : ℕ} {gk : GlobalKey q 2} (x : EncBits gk) : Rnd × Rnd × Rnd := (rndOf x.1, rndOf x.2.1, rndOf x.2.2)

/-- The bits for the keys of all parties, the ciphertexts of all parties and the ciphertext of the new sharing. -/
abbrev ProgramBits {q : ℕ} (gk : GlobalKey q 2) : Type :=
  (Fin gk.enn → KeyBits gk) × (Fin gk.enn → EncBits gk) × EncBits gk

/-- The coins of a run of the program with the given bits, secret and sharing. -/
def coinsOf {q : ℕ} {gk : GlobalKey q 2} (secret : ZMod q) (shares : ℕ → ZMod q) (x : ProgramBits gk) : MainCoins q where
  keys i := if h : i < gk.enn then keyCoinsOf (x.1 ⟨i, h⟩) else (fun _ _ _ => (0, false), fun _ _ _ => (0, false))
  secret := secret
  shares := shares
  enc i := if h : i < gk.enn then encCoinsOf (x.2.1 ⟨i, h⟩) else
    (fun _ _ _ => (0, false), fun _ _ _ => (0, false), fun _ _ _ => (0, false))
  reEnc := encCoinsOf x.2.2

end Verif.Spec
