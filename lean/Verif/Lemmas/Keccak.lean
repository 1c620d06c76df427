/- Lemmas: the Keccak-f[1600] of merlin.c is that of FIPS 202. -/
import Verif.Model.Merlin
import Verif.Spec.Keccak
import Mathlib.Tactic.FinCases
import Mathlib.Data.Fintype.Basic
import Mathlib.Data.List.GetD
import Mathlib.Tactic.Ring

namespace Verif.Merlin
open Verif

/-! ### Lanes after each step -/

theorem ln_set (a : List UInt64) (i j : Nat) (v : UInt64) (hi : i < a.length) :
    ln (a.set i v) j = if j = i then v else ln a j := by
  unfold ln
  simp only [List.getD_eq_getElem?_getD, List.getElem?_set]
  by_cases h : j = i
  · subst h; simp [hi]
  · rw [if_neg (fun e => h e.symm), if_neg h]

theorem ln_foldl_own (g : Nat → UInt64 → UInt64) (L : List Nat) (a : List UInt64) (hn : L.Nodup)
    (hL : ∀ i ∈ L, i < a.length) (j : Nat) :
    ln (L.foldl (fun a i => a.set i (g i (ln a i))) a) j = if j ∈ L then g j (ln a j) else ln a j := by
  induction L generalizing a with
  | nil => simp
  | cons i L ih =>
    rw [List.nodup_cons] at hn
    have hi := hL i List.mem_cons_self
    rw [List.foldl_cons, ih _ hn.2 (by intro k hk; rw [List.length_set]; exact hL k (List.mem_cons_of_mem _ hk)), ln_set _ _ _ _ hi]
    by_cases h : j = i
    · subst h; simp [hn.1]
    · simp [h]

theorem length_foldl_set {α : Type} (f : List UInt64 → α → Nat) (g : List UInt64 → α → UInt64) (L : List α) (a : List UInt64) :
    (L.foldl (fun a i => a.set (f a i) (g a i)) a).length = a.length := by
  induction L generalizing a with
  | nil => rfl
  | cons i L ih => rw [List.foldl_cons, ih, List.length_set]

theorem thetaA_flat (a b : List UInt64) :
    thetaA a b = ((List.range 5).flatMap fun x => (List.range 5).map fun y => 5 * y + x).foldl
      (fun a i => a.set i (ln a i ^^^ (ln b ((i % 5 + 4) % 5) ^^^ rol (ln b ((i % 5 + 1) % 5)) 1))) a := by
  unfold thetaA
  rw [List.foldl_flatMap]
  simp only [List.foldl_map]
  refine List.foldl_ext _ _ _ fun a' x hx => ?_
  refine List.foldl_ext _ _ _ fun a'' y hy => ?_
  rw [List.mem_range] at hx
  have : (5 * y + x) % 5 = x := by omega
  rw [this]

theorem thetaA_length (a b : List UInt64) : (thetaA a b).length = a.length := by
  rw [thetaA_flat]
  exact length_foldl_set (fun _ i => i) (fun a i => ln a i ^^^ (ln b ((i % 5 + 4) % 5) ^^^ rol (ln b ((i % 5 + 1) % 5)) 1)) _ a

theorem ln_theta (a b : List UInt64) (h : a.length = 25) (j : Nat) (hj : j < 25) :
    ln (thetaA a b) j = ln a j ^^^ (ln b ((j % 5 + 4) % 5) ^^^ rol (ln b ((j % 5 + 1) % 5)) 1) := by
  rw [thetaA_flat, ln_foldl_own (fun i v => v ^^^ (ln b ((i % 5 + 4) % 5) ^^^ rol (ln b ((i % 5 + 1) % 5)) 1)) _ _
    (by decide +kernel) (by rw [h]; decide +kernel), if_pos]
  revert j
  decide +kernel

/-- the walk of rho and pi over the pairs (destination, rotation) -/
def rpVal (a : List UInt64) : List (Nat × UInt64) → UInt64 → Nat → UInt64
  | [], _, j => ln a j
  | (p, r) :: L, t, j => if j = p then rol t r else rpVal a L (ln a p) j

theorem rpVal_set (a : List UInt64) (p : Nat) (v : UInt64) (hp : p < a.length) (L : List (Nat × UInt64))
    (hL : p ∉ L.map Prod.fst) (t : UInt64) (j : Nat) (hj : j ≠ p) : rpVal (a.set p v) L t j = rpVal a L t j := by
  induction L generalizing t with
  | nil => simp [rpVal, ln_set _ _ _ _ hp, hj]
  | cons q L ih =>
    obtain ⟨q, r⟩ := q
    simp only [List.map_cons, List.mem_cons, not_or] at hL
    simp only [rpVal]
    rw [ih hL.2, ln_set _ _ _ _ hp, if_neg (show ¬ q = p from fun e => hL.1 e.symm)]

theorem ln_rp (L : List (Nat × UInt64)) (a : List UInt64) (t : UInt64) (hn : (L.map Prod.fst).Nodup)
    (hL : ∀ q ∈ L, q.1 < a.length) (j : Nat) :
    ln (L.foldl (fun (p : List UInt64 × UInt64) q => (p.1.set q.1 (rol p.2 q.2), ln p.1 q.1)) (a, t)).1 j =
      rpVal a L t j := by
  induction L generalizing a t with
  | nil => rfl
  | cons q L ih =>
    obtain ⟨p, r⟩ := q
    rw [List.map_cons, List.nodup_cons] at hn
    have hp : p < a.length := hL _ List.mem_cons_self
    rw [List.foldl_cons, ih _ _ hn.2 (by intro k hk; rw [List.length_set]; exact hL k (List.mem_cons_of_mem _ hk))]
    simp only [rpVal]
    split
    · rename_i e
      subst e
      have : ∀ (L : List (Nat × UInt64)) (t : UInt64), j ∉ L.map Prod.fst → ∀ a, rpVal a L t j = ln a j := by
        intro L
        induction L with
        | nil => intro t _ a; rfl
        | cons q L ih =>
          intro t h a
          simp only [List.map_cons, List.mem_cons, not_or] at h
          rw [rpVal, if_neg h.1, ih _ h.2]
      rw [this _ _ hn.1, ln_set _ _ _ _ hp, if_pos rfl]
    · rename_i e
      rw [rpVal_set a p _ hp L hn.1 _ _ e]

theorem rhoPi_flat (a : List UInt64) :
    rhoPi a = (pi.zip rho).foldl (fun (p : List UInt64 × UInt64) q => (p.1.set q.1 (rol p.2 q.2), ln p.1 q.1)) (a, ln a 1) := by
  have : pi.zip rho = (List.range 24).map fun x => (pi.getD x 0, rho.getD x 0) := by decide +kernel
  rw [this, List.foldl_map]
  rfl

theorem rhoPi_length (a : List UInt64) : (rhoPi a).1.length = a.length := by
  unfold rhoPi
  generalize List.range 24 = L
  generalize ln a 1 = t
  induction L generalizing a t with
  | nil => rfl
  | cons i L ih => rw [List.foldl_cons, ih, List.length_set]

theorem ln_rhoPi (a : List UInt64) (h : a.length = 25) (j : Nat) :
    ln (rhoPi a).1 j = rpVal a (pi.zip rho) (ln a 1) j := by
  rw [rhoPi_flat]
  exact ln_rp _ _ _ (by decide +kernel) (by rw [h]; decide +kernel) j

/-- one row of chi -/
def chiRow (a : List UInt64) (y : Nat) : List UInt64 :=
  let b := (List.range 5).map fun x => ln a (5 * y + x)
  (List.range 5).foldl (fun a x =>
      a.set (5 * y + x) (ln b x ^^^ ((~~~ (ln b ((x + 1) % 5))) &&& ln b ((x + 2) % 5)))) a

theorem chiRow_length (a : List UInt64) (y : Nat) : (chiRow a y).length = a.length := by
  unfold chiRow
  exact length_foldl_set (fun _ x => 5 * y + x) (fun _ x => _) _ a

theorem ln_map_range (f : Nat → UInt64) (n i : Nat) (h : i < n) : ln ((List.range n).map f) i = f i := by
  simp [ln, h]

theorem ln_chiRow (a : List UInt64) (y j : Nat) (hy : 5 * y + 4 < a.length) :
    ln (chiRow a y) j = if j / 5 = y then
      ln a j ^^^ ((~~~ (ln a (5 * y + (j % 5 + 1) % 5))) &&& ln a (5 * y + (j % 5 + 2) % 5)) else ln a j := by
  unfold chiRow
  have key : ∀ (w : Nat → UInt64) (n : Nat), n ≤ 5 → ∀ (a : List UInt64), 5 * y + 4 < a.length → ∀ j,
      ln ((List.range n).foldl (fun a x => a.set (5 * y + x) (w x)) a) j =
        if j / 5 = y ∧ j % 5 < n then w (j % 5) else ln a j := by
    intro w n
    induction n with
    | zero => intro _ a _ j; simp
    | succ n ih =>
      intro hn a ha j
      rw [List.range_succ, List.foldl_append, List.foldl_cons, List.foldl_nil, ln_set, ih (by omega) a ha]
      · by_cases e : j = 5 * y + n
        · have h1 : j / 5 = y := by omega
          have h2 : j % 5 = n := by omega
          rw [if_pos e, if_pos ⟨h1, by omega⟩, h2]
        · rw [if_neg e]
          by_cases e2 : j / 5 = y ∧ j % 5 < n
          · rw [if_pos e2, if_pos ⟨e2.1, by omega⟩]
          · rw [if_neg e2, if_neg (by omega)]
      · rw [length_foldl_set (fun _ x => 5 * y + x) (fun _ x => w x)]; omega
  rw [key _ 5 le_rfl a hy]
  by_cases e : j / 5 = y
  · rw [if_pos ⟨e, Nat.mod_lt _ (by norm_num)⟩, if_pos e, ln_map_range _ _ _ (Nat.mod_lt _ (by norm_num)),
      ln_map_range _ _ _ (Nat.mod_lt _ (by norm_num)), ln_map_range _ _ _ (Nat.mod_lt _ (by norm_num))]
    rw [show 5 * y + j % 5 = j by omega]
  · rw [if_neg (fun h => e h.1), if_neg e]

theorem chi_rows (a : List UInt64) : chi a = (List.range 5).foldl chiRow a := rfl

theorem chi_length (a : List UInt64) : (chi a).length = a.length := by
  rw [chi_rows]
  generalize List.range 5 = L
  induction L generalizing a with
  | nil => rfl
  | cons i L ih => rw [List.foldl_cons, ih, chiRow_length]

theorem ln_chi (a : List UInt64) (h : a.length = 25) (j : Nat) (hj : j < 25) :
    ln (chi a) j = ln a j ^^^ ((~~~ (ln a (5 * (j / 5) + (j % 5 + 1) % 5))) &&& ln a (5 * (j / 5) + (j % 5 + 2) % 5)) := by
  have key : ∀ (n : Nat), n ≤ 5 → ∀ j, j < 25 → ln ((List.range n).foldl chiRow a) j =
      if j / 5 < n then ln a j ^^^ ((~~~ (ln a (5 * (j / 5) + (j % 5 + 1) % 5))) &&& ln a (5 * (j / 5) + (j % 5 + 2) % 5))
      else ln a j := by
    intro n
    induction n with
    | zero => intro _ j _; simp
    | succ n ih =>
      intro hn j hj
      have hl : ((List.range n).foldl chiRow a).length = 25 := by
        clear ih
        induction n with
        | zero => simpa using h
        | succ n ihn => rw [List.range_succ, List.foldl_append, List.foldl_cons, List.foldl_nil, chiRow_length, ihn (by omega)]
      rw [List.range_succ, List.foldl_append, List.foldl_cons, List.foldl_nil, ln_chiRow _ _ _ (by omega)]
      by_cases e : j / 5 = n
      · rw [if_pos e, if_pos (by omega), ih (by omega) _ hj, ih (by omega) _ (by omega), ih (by omega) _ (by omega),
          if_neg (by omega), if_neg (by omega), if_neg (by omega), e]
      · rw [if_neg e, ih (by omega) _ hj]
        by_cases e2 : j / 5 < n
        · rw [if_pos e2, if_pos (by omega)]
        · rw [if_neg e2, if_neg (by omega)]
  have := key 5 le_rfl j hj
  rw [if_pos (by omega)] at this
  rw [chi_rows]; exact this

theorem thetaB_ln (a : List UInt64) (x : Nat) (hx : x < 5) :
    ln (thetaB a) x = ln a x ^^^ ln a (x + 5) ^^^ ln a (x + 10) ^^^ ln a (x + 15) ^^^ ln a (x + 20) := by
  unfold thetaB
  rw [ln_map_range _ _ _ hx]
  simp [List.range_succ]

theorem round_length (a : List UInt64) (i : Nat) : (round a i).length = a.length := by
  unfold round iota
  rw [List.length_set, chi_length, rhoPi_length, thetaA_length]

theorem keccakLanes_length (a : List UInt64) : (keccakLanes a).length = a.length := by
  unfold keccakLanes
  generalize List.range 24 = L
  induction L generalizing a with
  | nil => rfl
  | cons i L ih => rw [List.foldl_cons, ih, round_length]

/-! ### Bits -/

/-- the lanes as bits -/
def bitsOf (a : List UInt64) : Spec.Keccak.State := fun x y z => (ln a (5 * y.val + x.val)).toNat.testBit z.val

theorem xor_bit (a b : UInt64) (z : Nat) : (a ^^^ b).toNat.testBit z = (a.toNat.testBit z ^^ b.toNat.testBit z) := by
  rw [UInt64.toNat_xor, Nat.testBit_xor]

theorem and_bit (a b : UInt64) (z : Nat) : (a &&& b).toNat.testBit z = (a.toNat.testBit z && b.toNat.testBit z) := by
  rw [UInt64.toNat_and, Nat.testBit_and]

theorem not_bit (a : UInt64) (z : Nat) (hz : z < 64) : (~~~ a).toNat.testBit z = !(a.toNat.testBit z) := by
  have : (~~~ a).toNat = (~~~ a.toBitVec).toNat := rfl
  rw [this, ← BitVec.getLsbD, BitVec.getLsbD_not]
  simp [hz]
  rfl

theorem rol_bit (a : UInt64) (s z : Fin 64) (hs : s ≠ 0) :
    (rol a (UInt64.ofNat s.val)).toNat.testBit z.val = a.toNat.testBit (z - s).val := by
  unfold rol
  have hs' : 0 < s.val := Nat.pos_of_ne_zero (fun h => hs (Fin.ext h))
  have h1 : (UInt64.ofNat s.val).toNat % 64 = s.val := by
    rw [UInt64.toNat_ofNat_of_lt' (by have := s.2; simp [UInt64.size]; omega)]; exact Nat.mod_eq_of_lt s.2
  have h2 : (64 - UInt64.ofNat s.val).toNat % 64 = 64 - s.val := by
    rw [UInt64.toNat_sub_of_le, UInt64.toNat_ofNat_of_lt' (by have := s.2; simp [UInt64.size]; omega)]
    · show (64 - s.val) % 64 = _
      omega
    · rw [UInt64.le_iff_toNat_le, UInt64.toNat_ofNat_of_lt' (by have := s.2; simp [UInt64.size]; omega)]
      have := s.2
      show s.val ≤ 64
      omega
  rw [UInt64.toNat_or, Nat.testBit_or, UInt64.toNat_shiftLeft, UInt64.toNat_shiftRight, h1, h2, Nat.testBit_mod_two_pow,
    Nat.testBit_shiftLeft, Nat.testBit_shiftRight]
  have hz := z.2
  have hs2 := s.2
  have ha : ∀ k, 64 ≤ k → a.toNat.testBit k = false := fun k hk =>
    Nat.testBit_lt_two_pow (lt_of_lt_of_le a.toNat_lt (Nat.pow_le_pow_right (by norm_num) hk))
  have hv : (z - s).val = (64 - s.val + z.val) % 64 := Fin.val_sub ..
  by_cases h : s.val ≤ z.val
  · have : (z - s).val = z.val - s.val := by rw [hv]; omega
    rw [this, ha (64 - s.val + z.val) (by omega)]
    simp [hz, h]
  · have : (z - s).val = 64 - s.val + z.val := by rw [hv]; omega
    rw [this]
    simp [h]

/-! ### The steps on bits -/

theorem fin5_arith : ∀ x : Fin 5, (x.val + 4) % 5 = (x - 1).val ∧ (x.val + 1) % 5 = (x + 1).val ∧
    (x.val + 2) % 5 = (x + 2).val := by decide

theorem idx_lt (x y : Fin 5) : 5 * y.val + x.val < 25 := by have := x.2; have := y.2; omega

theorem bits_theta (a : List UInt64) (h : a.length = 25) :
    bitsOf (thetaA a (thetaB a)) = Spec.Keccak.theta (bitsOf a) := by
  funext x y z
  unfold bitsOf
  rw [ln_theta a _ h _ (idx_lt x y), xor_bit, xor_bit]
  have hm : (5 * y.val + x.val) % 5 = x.val := by have := x.2; omega
  rw [hm]
  have hp : ∀ (u : Fin 5) (w : Fin 64), (ln (thetaB a) u.val).toNat.testBit w.val = Spec.Keccak.parity (bitsOf a) u w := by
    intro u w
    rw [thetaB_ln a _ u.2]
    simp only [xor_bit, Spec.Keccak.parity, bitsOf]
    simp only [Fin.val_zero, Fin.val_one, Fin.val_two, Nat.mul_zero, Nat.zero_add]
    rw [Nat.add_comm u.val 5, Nat.add_comm u.val 10, Nat.add_comm u.val 15, Nat.add_comm u.val 20]
    rfl
  obtain ⟨h1, h2, -⟩ := fin5_arith x
  rw [h1, h2, hp, show (1 : UInt64) = UInt64.ofNat (1 : Fin 64).val from rfl, rol_bit _ 1 z (by decide), hp]
  rfl

theorem bits_rhoPi (a : List UInt64) (h : a.length = 25) :
    bitsOf (rhoPi a).1 = Spec.Keccak.pi (Spec.Keccak.rho (bitsOf a)) := by
  funext x y z
  unfold bitsOf
  rw [ln_rhoPi a h]
  -- every lane comes from the lane that the standard says, rotated by the right amount
  have key : ∀ x y : Fin 5, (x = 0 ∧ y = 0 ∧ rpVal a (pi.zip rho) (ln a 1) (5 * y.val + x.val) = ln a 0) ∨
      (Fin.ofNat 64 (Spec.Keccak.offset (x + 3 * y) x) ≠ 0 ∧ rpVal a (pi.zip rho) (ln a 1) (5 * y.val + x.val) =
        rol (ln a (5 * x.val + (x + 3 * y).val)) (UInt64.ofNat (Fin.ofNat 64 (Spec.Keccak.offset (x + 3 * y) x)).val)) := by
    intro x y
    fin_cases x <;> fin_cases y
    · left; exact ⟨rfl, rfl, rfl⟩
    all_goals
      right
      refine ⟨by decide +kernel, ?_⟩
      rfl
  rcases key x y with ⟨rfl, rfl, e⟩ | ⟨hne, e⟩
  · rw [e]
    show _ = (ln a (5 * 0 + 0)).toNat.testBit (z - Fin.ofNat 64 (Spec.Keccak.offset 0 0)).val
    have : Fin.ofNat 64 (Spec.Keccak.offset 0 0) = 0 := by decide +kernel
    have hz0 : z - 0 = z := by apply Fin.ext; rw [Fin.val_sub]; show (64 - 0 + z.val) % 64 = z.val; have := z.2; omega
    rw [this, hz0]
  · rw [e, rol_bit _ _ _ hne]
    rfl

theorem bits_chi (a : List UInt64) (h : a.length = 25) : bitsOf (chi a) = Spec.Keccak.chi (bitsOf a) := by
  funext x y z
  unfold bitsOf
  rw [ln_chi a h _ (idx_lt x y), xor_bit, and_bit, not_bit _ _ z.2]
  have hm : (5 * y.val + x.val) % 5 = x.val := by have := x.2; omega
  have hd : (5 * y.val + x.val) / 5 = y.val := by have := x.2; omega
  rw [hm, hd]
  obtain ⟨-, h1, h2⟩ := fin5_arith x
  rw [h1, h2]
  rfl

theorem rc_bits : ∀ i : Fin 24, ∀ z : Fin 64, (RC.getD i.val 0).toNat.testBit z.val = Spec.Keccak.roundConstant i.val z := by
  decide +kernel

theorem bits_iota (a : List UInt64) (h : a.length = 25) (i : Nat) (hi : i < 24) :
    bitsOf (iota a i) = Spec.Keccak.iota i (bitsOf a) := by
  funext x y z
  unfold bitsOf iota Spec.Keccak.iota
  rw [ln_set _ _ _ _ (by omega)]
  by_cases e : x = 0 ∧ y = 0
  · obtain ⟨rfl, rfl⟩ := e
    rw [if_pos (by rfl), if_pos ⟨rfl, rfl⟩, xor_bit, rc_bits ⟨i, hi⟩ z]
    rfl
  · rw [if_neg e, if_neg]
    intro h0
    exact e ⟨Fin.ext (by show x.val = 0; omega), Fin.ext (by show y.val = 0; omega)⟩

theorem bits_round (a : List UInt64) (h : a.length = 25) (i : Nat) (hi : i < 24) :
    bitsOf (round a i) = Spec.Keccak.round (bitsOf a) i := by
  unfold round Spec.Keccak.round
  rw [bits_iota _ (by rw [chi_length, rhoPi_length, thetaA_length, h]) i hi,
    bits_chi _ (by rw [rhoPi_length, thetaA_length, h]), bits_rhoPi _ (by rw [thetaA_length, h]), bits_theta a h]

theorem bits_keccak (a : List UInt64) (h : a.length = 25) : bitsOf (keccakLanes a) = Spec.Keccak.keccakF (bitsOf a) := by
  unfold keccakLanes Spec.Keccak.keccakF
  have : ∀ i ∈ List.range 24, i < 24 := fun i hi => List.mem_range.1 hi
  revert this
  generalize List.range 24 = L
  induction L generalizing a with
  | nil => intro _; rfl
  | cons i L ih =>
    intro hL
    rw [List.foldl_cons, List.foldl_cons, ih _ (by rw [round_length, h]) (fun j hj => hL j (List.mem_cons_of_mem _ hj)),
      bits_round a h i (hL i List.mem_cons_self)]

/-! ### Bytes -/

theorem laneOf_bit (b : Bytes) (hb : b.length = 8) (z : Nat) (hz : z < 64) :
    (laneOf b).toNat.testBit z = (b.getD (z / 8) 0).toNat.testBit (z % 8) := by
  have key : ∀ (b : Bytes) (z : Nat), (b.foldr (fun (x : UInt8) acc => x.toNat + 256 * acc) 0).testBit z =
      (b.getD (z / 8) 0).toNat.testBit (z % 8) := by
    intro b
    induction b with
    | nil => intro z; simp
    | cons x b ih =>
      intro z
      rw [List.foldr_cons, Nat.add_comm]
      generalize hg : List.foldr (fun (x : UInt8) acc => x.toNat + 256 * acc) 0 b = g at ih ⊢
      rw [show 256 * g = 2 ^ 8 * g from rfl, Nat.testBit_two_pow_mul_add _ (show x.toNat < 2 ^ 8 from x.toNat_lt), ih]
      by_cases h : z < 8
      · rw [if_pos h, Nat.div_eq_of_lt h, Nat.mod_eq_of_lt h]; rfl
      · rw [if_neg h, show z / 8 = (z - 8) / 8 + 1 by omega, show z % 8 = (z - 8) % 8 by omega]; rfl
  have hlt : ∀ b : Bytes, b.foldr (fun (x : UInt8) acc => x.toNat + 256 * acc) 0 < 256 ^ b.length := by
    intro b
    induction b with
    | nil => simp
    | cons x b ih =>
      rw [List.foldr_cons, List.length_cons, pow_succ]
      have := x.toNat_lt
      omega
  unfold laneOf
  rw [UInt64.toNat_ofNat_of_lt' (by have := hlt b; rw [hb] at this; simpa [UInt64.size] using this), key]

theorem lanes_bits (st : Bytes) (h : st.length = 200) : bitsOf (lanes st) = Spec.Keccak.stateOf st := by
  funext x y z
  unfold bitsOf lanes Spec.Keccak.stateOf Spec.Keccak.bit
  have hi := idx_lt x y
  have hz := z.2
  rw [ln_map_range _ _ _ hi, laneOf_bit _ (by simp [h]; omega) _ hz]
  generalize 5 * y.val + x.val = i at hi ⊢
  simp only [List.getD_eq_getElem?_getD, List.getElem?_take, List.getElem?_drop]
  rw [if_pos (by omega), show (64 * i + z.val) % 8 = z.val % 8 by omega, show (64 * i + z.val) / 8 = 8 * i + z.val / 8 by omega]

theorem laneBytes_length (x : UInt64) : (laneBytes x).length = 8 := by simp [laneBytes]

theorem flatMap_getD (a : List UInt64) (i j : Nat) (hj : j < 8) :
    (a.flatMap laneBytes).getD (8 * i + j) 0 = if i < a.length then (laneBytes (ln a i)).getD j 0 else 0 := by
  induction a generalizing i with
  | nil => simp
  | cons x a ih =>
    rw [List.flatMap_cons]
    cases i with
    | zero =>
      rw [List.getD_append _ _ _ _ (by rw [laneBytes_length]; omega)]
      simp [ln]
    | succ i =>
      rw [List.getD_append_right _ _ _ _ (by rw [laneBytes_length]; omega), laneBytes_length,
        show 8 * (i + 1) + j - 8 = 8 * i + j by omega, ih]
      simp [ln]

theorem bytes_bits (a : List UInt64) (h : a.length = 25) : Spec.Keccak.stateOf (a.flatMap laneBytes) = bitsOf a := by
  funext x y z
  unfold bitsOf Spec.Keccak.stateOf Spec.Keccak.bit
  have hi := idx_lt x y
  have hz := z.2
  generalize 5 * y.val + x.val = i at hi ⊢
  rw [show (64 * i + z.val) / 8 = 8 * i + z.val / 8 by omega, show (64 * i + z.val) % 8 = z.val % 8 by omega,
    flatMap_getD _ _ _ (by omega), if_pos (by omega)]
  unfold laneBytes
  have : ((List.range 8).map fun k => UInt8.ofNat ((ln a i).toNat / 256 ^ k % 256)).getD (z.val / 8) 0 =
      UInt8.ofNat ((ln a i).toNat / 256 ^ (z.val / 8) % 256) := by
    rw [List.getD_eq_getElem?_getD, List.getElem?_map, List.getElem?_range (by omega)]; rfl
  rw [this, UInt8.toNat_ofNat_of_lt' (by simp [UInt8.size]; omega)]
  rw [show 256 ^ (z.val / 8) = 2 ^ (8 * (z.val / 8)) by rw [pow_mul]; rfl, show 256 = 2 ^ 8 from rfl, Nat.testBit_mod_two_pow,
    Nat.testBit_div_two_pow, show z.val % 8 + 8 * (z.val / 8) = z.val by omega]
  simp; omega

theorem keccakf_length' (st : Bytes) : (keccakf st).length = 200 := by
  unfold keccakf
  have h : (keccakLanes (lanes st)).length = 25 := by rw [keccakLanes_length]; simp [lanes]
  revert h
  generalize keccakLanes (lanes st) = a
  intro h
  rw [List.length_flatMap]
  simp [laneBytes_length, h]

theorem keccakf_bits (st : Bytes) (h : st.length = 200) :
    Spec.Keccak.stateOf (keccakf st) = Spec.Keccak.keccakF (Spec.Keccak.stateOf st) := by
  unfold keccakf
  have hl : (lanes st).length = 25 := by simp [lanes]
  rw [bytes_bits _ (by rw [keccakLanes_length, hl]), bits_keccak _ hl, lanes_bits st h]

end Verif.Merlin
