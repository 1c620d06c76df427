import Verif.Spec.Elt
import Mathlib.Tactic.Ring
import Mathlib.Tactic.LinearCombination
import Mathlib.Algebra.Polynomial.Monic
import Mathlib.Algebra.Polynomial.Div

namespace Verif.Elt
open Polynomial Verif.Spec
variable {F : Type} [CommRing F] {ell : ℕ}

theorem phi_monic [Nontrivial F] (h : ell ≠ 0) : (phi F ell).Monic := by
  unfold phi
  have := monic_X_pow_add_C (1 : F) h
  simpa using this

theorem phi_degree [Nontrivial F] (h : ell ≠ 0) : (phi F ell).degree = ell := by
  unfold phi
  have := degree_X_pow_add_C (Nat.pos_of_ne_zero h) (1 : F)
  simpa using this

theorem polyOf_degree (a : Fin ell → F) : (polyOf a).degree < ell := by
  unfold polyOf
  refine lt_of_le_of_lt (degree_sum_le _ _) ?_
  rw [Finset.sup_lt_iff (by exact WithBot.bot_lt_coe _)]
  intro i _
  exact lt_of_le_of_lt (degree_C_mul_X_pow_le _ _) (by exact_mod_cast i.2)

theorem polyOf_coeff (a : Fin ell → F) (i : Fin ell) : (polyOf a).coeff i = a i := by
  unfold polyOf
  rw [finset_sum_coeff]
  simp only [coeff_C_mul_X_pow]
  rw [Finset.sum_eq_single i]
  · simp
  · intro b _ hb
    rw [if_neg]
    intro h; exact hb (Fin.ext h.symm)
  · simp

theorem polyOf_inj (a b : Fin ell → F) (h : polyOf a = polyOf b) : a = b := by
  funext i
  rw [← polyOf_coeff a i, h, polyOf_coeff]

theorem polyOf_sub (a b : Fin ell → F) : polyOf a - polyOf b = polyOf (fun i => a i - b i) := by
  unfold polyOf
  rw [← Finset.sum_sub_distrib]
  exact Finset.sum_congr rfl fun i _ => by rw [C_sub]; ring

theorem polyOf_add (a b : Fin ell → F) : polyOf a + polyOf b = polyOf (fun i => a i + b i) := by
  unfold polyOf
  rw [← Finset.sum_add_distrib]
  exact Finset.sum_congr rfl fun i _ => by rw [C_add]; ring

theorem polyOf_smul (s : F) (a : Fin ell → F) : C s * polyOf a = polyOf (fun i => s * a i) := by
  unfold polyOf
  rw [Finset.mul_sum]
  exact Finset.sum_congr rfl fun i _ => by rw [C_mul]; ring

/-- Congruent coefficient vectors are equal. -/
theorem eq_of_dvd [Nontrivial F] (a b : Fin ell → F) (h : phi F ell ∣ polyOf a - polyOf b) :
    a = b := by
  by_cases h0 : ell = 0
  · subst h0; funext i; exact i.elim0
  apply polyOf_inj
  have : polyOf a - polyOf b = 0 := by
    rw [← modByMonic_eq_zero_iff_dvd (phi_monic h0)] at h
    have h2 := (modByMonic_eq_self_iff (p := polyOf a - polyOf b) (phi_monic h0)).2
      (by rw [phi_degree h0, polyOf_sub]; exact polyOf_degree _)
    rw [← h2, h]
  exact sub_eq_zero.1 this

theorem inRing_inj [Nontrivial F] : Function.Injective (inRing : Elt F ell → _) := by
  intro a b h
  unfold inRing at h
  rw [AdjoinRoot.mk_eq_mk] at h
  exact Elt.ext (eq_of_dvd _ _ h)

theorem root_pow : (AdjoinRoot.mk (phi F ell) X) ^ ell = -1 := by
  have : AdjoinRoot.mk (phi F ell) (phi F ell) = 0 := AdjoinRoot.mk_self
  have h2 : AdjoinRoot.mk (phi F ell) X ^ ell + 1 = 0 := by
    conv at this => lhs; arg 2; unfold phi
    rwa [map_add, map_pow, map_one] at this
  exact eq_neg_of_add_eq_zero_left h2

@[simp] theorem add_c (a b : Elt F ell) (i : Fin ell) : (a + b).c i = a.c i + b.c i := rfl
@[simp] theorem sub_c (a b : Elt F ell) (i : Fin ell) : (a - b).c i = a.c i - b.c i := rfl
@[simp] theorem neg_c (a : Elt F ell) (i : Fin ell) : (-a).c i = - a.c i := rfl
@[simp] theorem zero_c (i : Fin ell) : (0 : Elt F ell).c i = 0 := rfl
@[simp] theorem smul_c (s : F) (a : Elt F ell) (i : Fin ell) : (s • a).c i = s * a.c i := rfl
theorem mul_c (a b : Elt F ell) (k : Fin ell) : (a * b).c k = ∑ i : Fin ell, ∑ j : Fin ell,
    if i.val + j.val = k.val then a.c i * b.c j
    else if i.val + j.val = k.val + ell then - (a.c i * b.c j) else 0 := rfl

theorem inRing_zero : inRing (0 : Elt F ell) = 0 := by
  unfold inRing polyOf; simp

theorem inRing_add (a b : Elt F ell) : inRing (a + b) = inRing a + inRing b := by
  unfold inRing
  rw [← map_add, polyOf_add]; rfl

theorem inRing_sub (a b : Elt F ell) : inRing (a - b) = inRing a - inRing b := by
  unfold inRing
  rw [← map_sub, polyOf_sub]; rfl

theorem inRing_neg (a : Elt F ell) : inRing (-a) = - inRing a := by
  have h : -a = 0 - a := by ext i; simp
  rw [h, inRing_sub, inRing_zero, zero_sub]

theorem inRing_smul (s : F) (a : Elt F ell) :
    inRing (s • a) = AdjoinRoot.mk (phi F ell) (C s) * inRing a := by
  unfold inRing
  rw [← map_mul, polyOf_smul]; rfl

theorem inRing_const (s : F) [NeZero ell] :
    inRing (⟨fun i => if i.val = 0 then s else 0⟩ : Elt F ell) = AdjoinRoot.mk (phi F ell) (C s) := by
  unfold inRing polyOf
  congr 1
  rw [Finset.sum_eq_single (⟨0, Nat.pos_of_ne_zero (NeZero.ne ell)⟩ : Fin ell)]
  · simp
  · intro b _ hb
    have h0 : ¬ b.val = 0 := fun h => hb (Fin.ext h)
    simp [h0]
  · simp

theorem inRing_one [NeZero ell] : inRing (1 : Elt F ell) = 1 := by
  have := inRing_const (ell := ell) (1 : F)
  rw [C_1, map_one] at this
  exact this

theorem inRing_mul (a b : Elt F ell) : inRing (a * b) = inRing a * inRing b := by
  unfold inRing polyOf
  simp only [map_sum, map_mul, map_pow, mul_c]
  set x := AdjoinRoot.mk (phi F ell) X with hx
  rw [Finset.sum_mul]
  simp only [Finset.mul_sum, Finset.sum_mul]
  rw [Finset.sum_comm]
  refine Finset.sum_congr rfl fun i _ => ?_
  rw [Finset.sum_comm]
  refine Finset.sum_congr rfl fun j _ => ?_
  have hpow : x ^ ell = -1 := root_pow
  by_cases h : i.val + j.val < ell
  · rw [Finset.sum_eq_single ⟨i.val + j.val, h⟩]
    · simp only [if_true]
      rw [C_mul, map_mul, pow_add]; ring
    · intro k _ hk
      rw [if_neg (fun h' => hk (Fin.ext h'.symm)), if_neg (by omega)]; simp
    · simp
  · rw [Finset.sum_eq_single ⟨i.val + j.val - ell, by omega⟩]
    · rw [if_neg (by simp only; omega), if_pos (by simp only; omega)]
      have : x ^ (i.val) * x ^ j.val = - x ^ (i.val + j.val - ell) := by
        rw [← pow_add]
        conv_lhs => rw [show i.val + j.val = ell + (i.val + j.val - ell) by omega, pow_add, hpow]
        ring
      rw [C_neg, C_mul, map_neg, map_mul]
      linear_combination -(AdjoinRoot.mk (phi F ell) (C (a.c i)) * AdjoinRoot.mk (phi F ell) (C (b.c j))) * this
    · intro k _ hk
      have h1 : ¬ i.val + j.val = k.val := by omega
      have h2 : ¬ i.val + j.val = k.val + ell := fun h' => hk (Fin.ext (by simp only; omega))
      rw [if_neg h1, if_neg h2]; simp
    · simp

theorem inRing_nsmul (n : ℕ) (a : Elt F ell) : inRing (n • a) = n • inRing a := by
  have h : n • a = (n : F) • a := by
    ext i; show n • a.c i = (n : F) * a.c i; rw [nsmul_eq_mul]
  rw [h, inRing_smul, nsmul_eq_mul]; simp

theorem inRing_zsmul (n : ℤ) (a : Elt F ell) : inRing (n • a) = n • inRing a := by
  have h : n • a = (n : F) • a := by
    ext i; show n • a.c i = (n : F) * a.c i; rw [zsmul_eq_mul]
  rw [h, inRing_smul, zsmul_eq_mul]; simp

theorem inRing_pow [NeZero ell] (a : Elt F ell) (n : ℕ) : inRing (a ^ n) = inRing a ^ n := by
  induction n with
  | zero => rw [pow_zero]; exact inRing_one
  | succ n ih =>
    show inRing (pow a n * a) = _
    rw [inRing_mul, pow_succ]
    exact congrArg (· * inRing a) ih

theorem inRing_natCast [NeZero ell] (n : ℕ) : inRing (n : Elt F ell) = n := by
  have := inRing_const (ell := ell) (n : F)
  refine this.trans ?_
  simp

theorem inRing_intCast [NeZero ell] (n : ℤ) : inRing (n : Elt F ell) = n := by
  have := inRing_const (ell := ell) (n : F)
  refine this.trans ?_
  simp

noncomputable instance [Nontrivial F] [NeZero ell] : CommRing (Elt F ell) :=
  Function.Injective.commRing inRing inRing_inj inRing_zero inRing_one inRing_add inRing_mul
    inRing_neg inRing_sub (fun n a => inRing_nsmul n a) (fun n a => inRing_zsmul n a) inRing_pow
    inRing_natCast inRing_intCast

/-- The scalar multiplication is that of an algebra. -/
instance [Nontrivial F] [NeZero ell] : Module F (Elt F ell) where
  one_smul a := by ext i; simp
  mul_smul s t a := by ext i; simp [mul_assoc]
  smul_zero s := by ext i; simp
  smul_add s a b := by ext i; simp [mul_add]
  add_smul s t a := by ext i; simp [add_mul]
  zero_smul a := by ext i; simp

instance [Nontrivial F] [NeZero ell] : IsScalarTower F (Elt F ell) (Elt F ell) where
  smul_assoc s a b := by
    apply inRing_inj
    simp only [smul_eq_mul, inRing_smul, inRing_mul, mul_assoc]

instance [Nontrivial F] [NeZero ell] : SMulCommClass F (Elt F ell) (Elt F ell) where
  smul_comm s a b := by
    apply inRing_inj
    simp only [smul_eq_mul, inRing_smul, inRing_mul]
    ring

/-- A coefficient as an additive map. -/
def coeffHom [Nontrivial F] [NeZero ell] (i : Fin ell) : Elt F ell →+ F where
  toFun a := a.c i
  map_zero' := rfl
  map_add' _ _ := rfl

theorem coeff_lt (e : Elt F ell) {i : ℕ} (h : i < ell) : e.coeff i = e.c ⟨i, h⟩ := dif_pos h
theorem coeff_fin (e : Elt F ell) (i : Fin ell) : e.coeff i = e.c i := dif_pos i.2

theorem sum_c [Nontrivial F] [NeZero ell] (l : List (Elt F ell)) (i : Fin ell) :
    (l.sum).c i = (l.map fun a => a.c i).sum := by
  have := map_list_sum (coeffHom (F := F) i) l
  exact this

theorem finset_sum_c [Nontrivial F] [NeZero ell] {ι : Type} (s : Finset ι) (f : ι → Elt F ell)
    (i : Fin ell) : (∑ k ∈ s, f k).c i = ∑ k ∈ s, (f k).c i := by
  have := map_sum (coeffHom (F := F) i) f s
  exact this

end Verif.Elt
