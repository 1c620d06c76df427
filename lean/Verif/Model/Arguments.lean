/-
Model of the command line of /repo/src/main.cpp and of the whole program up to the final proofs.
-/
import Verif.Model.Main

namespace Verif
open Regev

/-- White space of the C locale. -/
def isSpace (b : UInt8) : Bool := b == 32 || (9 ≤ b && b ≤ 13)

/-- A decimal digit. -/
def isDigit (b : UInt8) : Bool := 48 ≤ b && b ≤ 57

/-- The accumulation of a decimal number from its digits. -/
def digitsVal (ds : Bytes) : ℕ := ds.foldl (fun a b => 10 * a + (b.toNat - 48)) 0

/-- The optional sign of a number: whether it is negative, and the rest. -/
def takeSign : Bytes → Bool × Bytes
  | 45 :: t => (true, t)
  | 43 :: t => (false, t)
  | s => (false, s)

/-- `std::stoi` (standard library; main.cpp:50): white space, an optional sign and digits; what follows is ignored;
throws when there are no digits or the number does not fit an `int`. -/
def stoi (s : Bytes) : Res ℤ :=
  let r := takeSign (s.dropWhile isSpace)
  let ds := r.2.takeWhile isDigit
  if ds = [] then .throw
  else
    let v : ℤ := if r.1 then -(digitsVal ds : ℤ) else digitsVal ds
    if v < -2 ^ 31 ∨ v ≥ 2 ^ 31 then .throw else .ok v

/-- The number of parties, main.cpp:48-53; `arg` is `argv[1]` if there is one. -/
def nParties (arg : Option Bytes) : Res ℕ := do
  let n ← (match arg with | none => .ok 512 | some s => stoi s : Res ℤ)
  let n := if n < 32 ∨ n > 4096 then 512 else n
  .ok n.toNat

/-- The program from the command line to the end of the proof functions, main.cpp:45-196: see `mainProve`
(Model/Main.lean) for the arguments.  The party that proves is number 1. -/
noncomputable def program {G : Type} [AddCommGroup G] [Module (ZMod Regev.P) G] [Fact (Nat.Prime Regev.P)]
    (E : Env (ZMod Regev.P) G) (getG getH : ℕ → G)
    (ntlKernel : List (List (ZMod Regev.P)) → List (List (ZMod Regev.P)))
    (bounds : GlobalKey Regev.P 2 → List (List (ZMod Regev.P)) → Res (Params Regev.P)) (arg : Option Bytes)
    (crs : ℕ → ℕ → ℕ → Elt (ZMod Regev.P) 2) (C : MainCoins Regev.P) (mer : E.St)
    (rnd0 fresh : Blocks (ZMod Regev.P)) (r : ZMod Regev.P) (tests : ℕ → Tests) (small : ℕ → SmallRnd Regev.P) :
    Res (Bool × Params Regev.P × VerifierData (ZMod Regev.P) G E.St × ProverData (ZMod Regev.P)) := do
  let n ← nParties arg
  mainProve E getG getH ntlKernel bounds Regev.delta (setParams 2 n).1 n (setParams 2 n).2.1 (setParams 2 n).2.2
    (crs n) 1 C mer rnd0 fresh r tests small

end Verif
