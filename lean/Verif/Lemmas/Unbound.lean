/-
How the results of the proof functions depend on the ciphertext and the public key.
-/
import Verif.Model.Driver
import Verif.Spec.Round
import Verif.Lemmas.Batch
import Mathlib.GroupTheory.Coset.Card
import Mathlib.Data.Fintype.BigOperators

namespace Verif
open Regev

section
variable {q : ℕ} [Fact q.Prime] {G : Type} [AddCommGroup G] [Module (ZMod q) G]

/-- `F c` depends on the vector `c` only through one inner product. -/
def OneIp {β : Type} (F : EVec q 2 → Res β) : Prop := ∃ u : EVec q 2, ∀ c c', ip u c = ip u c' → F c = F c'

namespace OneIp
variable {α β : Type}

theorem const (m : Res β) : OneIp (q := q) fun _ => m := ⟨[], fun _ _ _ => rfl⟩

theorem bind {m : Res α} {F : α → EVec q 2 → Res β} (h : ∀ a, OneIp (F a)) : OneIp fun c => m >>= fun a => F a c := by
  cases m with
  | ok a =>
    obtain ⟨u, hu⟩ := h a
    exact ⟨u, fun c c' e => by simpa only [Res.ok_bind] using hu c c' e⟩
  | throw => exact ⟨[], fun _ _ _ => rfl⟩
  | ub => exact ⟨[], fun _ _ _ => rfl⟩

theorem bind_left {m : EVec q 2 → Res α} (h : OneIp m) (F : α → Res β) : OneIp fun c => m c >>= F := by
  obtain ⟨u, hu⟩ := h
  exact ⟨u, fun c c' e => by simp only [hu c c' e]⟩

theorem ite {p : Prop} [Decidable p] (m : Res β) {F : EVec q 2 → Res β} (h : OneIp F) :
    OneIp fun c => if p then m else F c := by
  by_cases hp : p
  · simp only [hp, if_true]; exact const m
  · simp only [hp, if_false]; exact h

end OneIp

theorem onSlot_oneIp (cs : List (LinConstraint (ZMod q))) (slot : ℕ)
    {f : EVec q 2 → List (LinConstraint (ZMod q)) → Res (List (LinConstraint (ZMod q)))}
    (h : ∀ cs, OneIp fun c => f c cs) : OneIp fun c => onSlot cs slot (f c) := by
  unfold onSlot
  exact OneIp.ite _ ((h _).bind_left _)

theorem ip_swap (u c : EVec q 2) : ip u c = ip c u := by
  unfold ip
  rw [List.zipWith_comm]
  simp only [mul_comm]

/-- Reading the vector into the right-hand side of a pair of constraints. -/
theorem setEqs_oneIp (cs : List (LinConstraint (ZMod q))) (u : EVec q 2) :
    OneIp fun c => setEqsTo cs (ip u c) := ⟨u, fun c c' e => by
    show setEqsTo cs (ip u c) = setEqsTo cs (ip u c')
    rw [e]⟩

theorem enc1_oneIp (P : Params q) (ix : Indexes) (R1 : List TMat) (xvec1 : EVec q 2)
    (cs : List (LinConstraint (ZMod q))) : OneIp fun ct1 => encConstraints1 P ix R1 xvec1 ct1 cs := by
  unfold encConstraints1
  exact OneIp.bind fun xR1 => (setEqs_oneIp cs xR1).bind_left _

theorem enc2_oneIp (P : Params q) (ix : Indexes) (R2 : List TMat) (xvec2 : EVec q 2)
    (cs : List (LinConstraint (ZMod q))) : OneIp fun ct2 => encConstraints2 P ix R2 xvec2 ct2 cs := by
  unfold encConstraints2
  exact OneIp.bind fun xR2 => (setEqs_oneIp cs xR2).bind_left _

theorem key1_oneIp (P : Params q) (ix : Indexes) (R1 : List TMat) (xvec1 : EVec q 2)
    (cs : List (LinConstraint (ZMod q))) : OneIp fun pk => keyConstraints1 P ix R1 xvec1 pk cs := by
  unfold keyConstraints1
  exact OneIp.bind fun R1x => (setEqs_oneIp cs R1x).bind_left _

theorem dec_oneIp (P : Params q) (ix : Indexes) (R : List TMat) (xvec : EVec q 2) (ctMat : EMat q 2)
    (cs : List (LinConstraint (ZMod q))) : OneIp fun ctVec => decConstraints P ix R xvec ctMat ctVec cs := by
  unfold decConstraints
  refine OneIp.bind fun cs => OneIp.bind fun Rx => OneIp.bind_left ?_ _
  obtain ⟨u, hu⟩ := setEqs_oneIp cs Rx
  exact ⟨u, fun c c' e => by
    show setEqsTo cs (ip c Rx) = setEqsTo cs (ip c' Rx)
    rw [ip_swap c, ip_swap c']
    exact hu c c' e⟩

theorem proveEncryption_ct1 (E : Env (ZMod q) G) (P : Params q) (fresh : Blocks (ZMod q)) (tests : ℕ → Tests)
    (vd : VerifierData (ZMod q) G E.St) (pd : ProverData (ZMod q)) (ct2 : EVec q 2) (ptxt : List (ZMod q))
    (rnd noise1 noise2 : EVec q 2) :
    OneIp fun ct1 => proveEncryption E P fresh tests vd pd ct1 ct2 ptxt rnd noise1 noise2 := by
  unfold proveEncryption
  dsimp only
  refine OneIp.bind fun pt2Com => OneIp.bind fun rCom => OneIp.bind fun R1 => ?_
  refine OneIp.bind fun R2 => OneIp.bind fun R3 => ?_
  refine OneIp.bind fun n1 => OneIp.bind fun n2 => OneIp.bind fun n3 => OneIp.bind fun c1 => OneIp.bind fun c2 => ?_
  refine OneIp.bind fun p1 => OneIp.bind fun p2 => OneIp.bind fun p3 => OneIp.bind fun p4 => OneIp.bind fun p5 => ?_
  refine OneIp.bind fun p1 => OneIp.bind fun p2 => OneIp.bind fun p3 => OneIp.bind fun p4 => OneIp.bind fun p5 => ?_
  refine OneIp.bind fun l1 => OneIp.bind fun l2 => OneIp.bind fun x1 => OneIp.bind fun xvec => ?_
  exact (onSlot_oneIp _ _ fun cs => enc1_oneIp P _ _ _ cs).bind_left _

theorem proveEncryption_ct2 (E : Env (ZMod q) G) (P : Params q) (fresh : Blocks (ZMod q)) (tests : ℕ → Tests)
    (vd : VerifierData (ZMod q) G E.St) (pd : ProverData (ZMod q)) (ct1 : EVec q 2) (ptxt : List (ZMod q))
    (rnd noise1 noise2 : EVec q 2) :
    OneIp fun ct2 => proveEncryption E P fresh tests vd pd ct1 ct2 ptxt rnd noise1 noise2 := by
  unfold proveEncryption
  dsimp only
  refine OneIp.bind fun pt2Com => OneIp.bind fun rCom => OneIp.bind fun R1 => ?_
  refine OneIp.bind fun R2 => OneIp.bind fun R3 => ?_
  refine OneIp.bind fun n1 => OneIp.bind fun n2 => OneIp.bind fun n3 => OneIp.bind fun c1 => OneIp.bind fun c2 => ?_
  refine OneIp.bind fun p1 => OneIp.bind fun p2 => OneIp.bind fun p3 => OneIp.bind fun p4 => OneIp.bind fun p5 => ?_
  refine OneIp.bind fun p1 => OneIp.bind fun p2 => OneIp.bind fun p3 => OneIp.bind fun p4 => OneIp.bind fun p5 => ?_
  refine OneIp.bind fun l1 => OneIp.bind fun l2 => OneIp.bind fun x1 => OneIp.bind fun xvec => ?_
  refine OneIp.bind fun l1 => OneIp.bind fun x2 => OneIp.bind fun xvec => ?_
  exact (onSlot_oneIp _ _ fun cs => enc2_oneIp P _ _ _ cs).bind_left _

theorem proveDecryption_ctVec (E : Env (ZMod q) G) (P : Params q) (fresh : Blocks (ZMod q)) (tests : ℕ → Tests)
    (vd : VerifierData (ZMod q) G E.St) (pd : ProverData (ZMod q)) (ctMat : EMat q 2) (ptxt : List (ZMod q))
    (skey noise : EVec q 2) :
    OneIp fun ctVec => proveDecryption E P fresh tests vd pd ctMat ctVec ptxt skey noise := by
  unfold proveDecryption
  dsimp only
  refine OneIp.bind fun c1 => OneIp.bind fun R => OneIp.bind fun n1 => OneIp.bind fun d => ?_
  refine OneIp.bind fun p1 => OneIp.bind fun p2 => OneIp.bind fun p3 => OneIp.bind fun p4 => ?_
  refine OneIp.bind fun x1 => OneIp.bind fun xvec => ?_
  exact (onSlot_oneIp _ _ fun cs => dec_oneIp P _ _ _ _ cs).bind_left _

/-- The parameters with public key number `j` replaced. -/
def withKey (P : Params q) (j : ℕ) (pk : EVec q 2) : Params q := { P with gk := { P.gk with B := P.gk.B.set j pk } }

theorem proveKeyGen_pk (E : Env (ZMod q) G) (P : Params q) (fresh : Blocks (ZMod q)) (tests : ℕ → Tests)
    (vd : VerifierData (ZMod q) G E.St) (pd : ProverData (ZMod q)) (j : ℕ) (skey noise : EVec q 2) :
    OneIp fun pk => proveKeyGen E (withKey P j pk) fresh tests vd pd j skey noise := by
  have h1 : ∀ pk B d, hiBound (withKey P j pk) B d = hiBound P B d := fun _ _ _ => rfl
  have h2 : ∀ pk, loBound (withKey P j pk) = loBound P := fun _ => rfl
  have h3 : ∀ pk ix R x c cs, keyConstraints1 (withKey P j pk) ix R x c cs = keyConstraints1 P ix R x c cs :=
    fun _ _ _ _ _ _ => rfl
  have h4 : ∀ pk, (withKey P j pk).gk.B = P.gk.B.set j pk := fun _ => rfl
  have h5 : ∀ pk, (withKey P j pk).gk.kay = P.gk.kay := fun _ => rfl
  have h6 : ∀ pk, (withKey P j pk).radix = P.radix := fun _ => rfl
  have h7 : ∀ pk, (withKey P j pk).B_sk = P.B_sk := fun _ => rfl
  have h8 : ∀ pk, (withKey P j pk).B_kNoise = P.B_kNoise := fun _ => rfl
  unfold proveKeyGen
  simp only [h1, h2, h4, h5, h6, h7, h8]
  refine OneIp.bind fun c1 => OneIp.bind fun R1 => OneIp.bind fun R2 => OneIp.bind fun n1 => OneIp.bind fun n2 => ?_
  refine OneIp.bind fun d => OneIp.bind fun p1 => OneIp.bind fun p2 => OneIp.bind fun p3 => ?_
  refine OneIp.bind fun p1 => OneIp.bind fun p2 => OneIp.bind fun p3 => ?_
  refine OneIp.bind fun l1 => OneIp.bind fun l2 => OneIp.bind fun x1 => OneIp.bind fun xvec => ?_
  by_cases hj : j < P.gk.B.length
  · have e : ∀ pk, rd (P.gk.B.set j pk) j = .ok pk := by
      intro pk
      unfold rd
      simp [hj]
    simp only [e, Res.ok_bind]
    exact (onSlot_oneIp _ _ fun cs => by
      simp only [h3]
      exact key1_oneIp P _ _ _ cs).bind_left _
  · have e : ∀ pk, rd (P.gk.B.set j pk) j = .ub := by
      intro pk
      unfold rd
      simp [hj]
    simp only [e]
    exact OneIp.const _

theorem proveRound_ct1 (E : Env (ZMod q) G) (P : Params q) (fresh : Blocks (ZMod q)) (tests : ℕ → Tests)
    (small : ℕ → SmallRnd q) (inp : RoundInput q) (vd : VerifierData (ZMod q) G E.St) (pd : ProverData (ZMod q)) :
    OneIp fun ct1 => proveRound E P fresh tests small { inp with ct1 := ct1 } vd pd := by
  unfold proveRound
  dsimp only
  exact OneIp.bind fun a => (proveEncryption_ct1 E P fresh tests a.1 a.2 _ _ _ _ _).bind_left _

theorem proveRound_ct2 (E : Env (ZMod q) G) (P : Params q) (fresh : Blocks (ZMod q)) (tests : ℕ → Tests)
    (small : ℕ → SmallRnd q) (inp : RoundInput q) (vd : VerifierData (ZMod q) G E.St) (pd : ProverData (ZMod q)) :
    OneIp fun ct2 => proveRound E P fresh tests small { inp with ct2 := ct2 } vd pd := by
  unfold proveRound
  dsimp only
  exact OneIp.bind fun a => (proveEncryption_ct2 E P fresh tests a.1 a.2 _ _ _ _ _).bind_left _


/-! ### Counting -/

theorem ip_ofFn : ∀ (n : ℕ) (u : EVec q 2) (c : Fin n → Elt (ZMod q) 2),
    ip u (List.ofFn c) = ∑ i : Fin n, u.getD i 0 * c i := by
  intro n
  induction n with
  | zero =>
    intro u c
    simp [ip]
  | succ n ih =>
    intro u c
    cases u with
    | nil => simp [ip]
    | cons a u =>
      have e : ip (a :: u) (List.ofFn c) = a * c 0 + ip u (List.ofFn fun i => c i.succ) := by
        unfold ip
        rw [List.ofFn_succ, List.zipWith_cons_cons, ← List.sum_eq_foldl, ← List.sum_eq_foldl, List.sum_cons]
      rw [e, ih, Fin.sum_univ_succ]
      simp

/-- Many vectors have the same inner product with a given one. -/
theorem card_fiber (n : ℕ) (u : EVec q 2) (c₀ : Fin n → Elt (ZMod q) 2) :
    q ^ (2 * (n - 1)) ≤ Nat.card {c : Fin n → Elt (ZMod q) 2 // ip u (List.ofFn c) = ip u (List.ofFn c₀)} := by
  have : NeZero q := ⟨(Fact.out : q.Prime).ne_zero⟩
  have hq : 0 < q := (Fact.out : q.Prime).pos
  have hfin : Finite (Elt (ZMod q) 2) := Nat.finite_of_card_ne_zero (by rw [card_elt]; positivity)
  obtain ⟨φ, hφ⟩ : ∃ φ : (Fin n → Elt (ZMod q) 2) →+ Elt (ZMod q) 2, ∀ c, φ c = ip u (List.ofFn c) := by
    refine ⟨⟨⟨fun c => ∑ i : Fin n, u.getD i 0 * c i, ?_⟩, ?_⟩, ?_⟩
    · simp
    · intro x y
      simp only [Pi.add_apply, mul_add, Finset.sum_add_distrib]
    · intro c
      rw [ip_ofFn]
      rfl
  have hker : Nat.card {c : Fin n → Elt (ZMod q) 2 // ip u (List.ofFn c) = ip u (List.ofFn c₀)} = Nat.card φ.ker := by
    refine Nat.card_congr ⟨fun c => ⟨c.1 - c₀, ?_⟩, fun k => ⟨k.1 + c₀, ?_⟩, fun c => ?_, fun k => ?_⟩
    · rw [AddMonoidHom.mem_ker, map_sub, hφ, hφ, c.2, sub_self]
    · have hk := k.2
      rw [AddMonoidHom.mem_ker] at hk
      rw [← hφ, ← hφ, map_add, hk, zero_add]
    · simp
    · simp
  rw [hker]
  rcases Nat.eq_zero_or_pos n with rfl | hn
  · rw [Nat.zero_sub, mul_zero, pow_zero]
    exact Nat.card_pos (α := φ.ker)
  have h1 : Nat.card (Fin n → Elt (ZMod q) 2) = Nat.card φ.range * Nat.card φ.ker := by
    rw [φ.ker.card_eq_card_quotient_mul_card_addSubgroup]
    rw [Nat.card_congr (QuotientAddGroup.quotientKerEquivRange φ).toEquiv]
  have h2 : Nat.card φ.range ≤ q ^ 2 := by
    rw [← card_elt]
    exact Nat.card_le_card_of_injective _ Subtype.val_injective
  have h3 : Nat.card (Fin n → Elt (ZMod q) 2) = q ^ 2 * q ^ (2 * (n - 1)) := by
    rw [Nat.card_fun, card_elt, Nat.card_fin, ← pow_mul, ← pow_add]
    congr 1
    omega
  rw [h3] at h1
  have h4 := Nat.mul_le_mul_right (Nat.card φ.ker) h2
  rw [← h1] at h4
  exact Nat.le_of_mul_le_mul_left h4 (by positivity)

theorem OneIp.count {β : Type} {F : EVec q 2 → Res β} (h : OneIp F) {n : ℕ} {c : EVec q 2} (hc : c.length = n)
    {r : Res β} (hr : F c = r) :
    q ^ (2 * (n - 1)) ≤ Nat.card {c' : Fin n → Elt (ZMod q) 2 // F (List.ofFn c') = r} := by
  have : NeZero q := ⟨(Fact.out : q.Prime).ne_zero⟩
  have hq : 0 < q := (Fact.out : q.Prime).pos
  have hfin : Finite (Elt (ZMod q) 2) := Nat.finite_of_card_ne_zero (by rw [card_elt]; positivity)
  subst hc
  obtain ⟨u, hu⟩ := h
  have e : List.ofFn (fun i => c[i]) = c := List.ofFn_getElem
  refine (card_fiber c.length u fun i => c[i]).trans ?_
  rw [e]
  refine Nat.card_le_card_of_injective (fun x => ⟨x.1, ?_⟩) ?_
  · rw [← hr]
    exact hu _ _ x.2
  · intro x y hxy
    exact Subtype.ext (congrArg (fun z => z.1) hxy)

/-- Numbers of small absolute value. -/
theorem card_small (R : ℕ) : Nat.card {s : ZMod q // |s.valMinAbs| ≤ R} ≤ 2 * R + 1 := by
  have h := Nat.card_le_card_of_injective
    (fun s : {s : ZMod q // |s.valMinAbs| ≤ R} => (⟨s.1.valMinAbs, Finset.mem_Icc.2 (abs_le.1 s.2)⟩ :
      Finset.Icc (-(R : ℤ)) R)) (fun a b hab => Subtype.ext (ZMod.injective_valMinAbs (congrArg Subtype.val hab)))
  refine h.trans ?_
  rw [Nat.card_eq_fintype_card, Fintype.card_coe, Int.card_Icc]
  omega

/-- Every coefficient has absolute value at most `R`. -/
def Coeffs (R : ℕ) (n : ℕ) (v : EVec q 2) : Prop := ∀ i < n, ∀ c, |((v.getD i 0).c c).valMinAbs| ≤ R

theorem Coeffs.exists {R n : ℕ} {v : EVec q 2} (h : Coeffs R n v) :
    ∃ f : Fin n × Fin 2 → {s : ZMod q // |s.valMinAbs| ≤ R}, ∀ i : Fin n, v.getD i 0 = ⟨fun c => (f (i, c)).1⟩ :=
  ⟨fun x => ⟨(v.getD x.1 0).c x.2, h x.1 x.1.2 x.2⟩, fun _ => rfl⟩

/-- If two small vectors determine a vector, there are few such vectors. -/
theorem card_determined (n R S : ℕ) (Q : EVec q 2 → EVec q 2 → EVec q 2 → Prop)
    (hQ : ∀ r e r' e' c c', Q c r e → Q c' r' e' → (∀ i < n, r.getD i 0 = r'.getD i 0) →
      (∀ i < n, e.getD i 0 = e'.getD i 0) → ∀ i < n, c.getD i 0 = c'.getD i 0) :
    Nat.card {c : Fin n → Elt (ZMod q) 2 // ∃ r e, Coeffs R n r ∧ Coeffs S n e ∧ Q (List.ofFn c) r e} ≤
      (2 * R + 1) ^ (2 * n) * (2 * S + 1) ^ (2 * n) := by
  classical
  have : NeZero q := ⟨(Fact.out : q.Prime).ne_zero⟩
  have h : ∀ c : {c : Fin n → Elt (ZMod q) 2 // ∃ r e, Coeffs R n r ∧ Coeffs S n e ∧ Q (List.ofFn c) r e},
      ∃ (f : Fin n × Fin 2 → {s : ZMod q // |s.valMinAbs| ≤ R}) (k : Fin n × Fin 2 → {s : ZMod q // |s.valMinAbs| ≤ S}),
        ∃ r e, Q (List.ofFn c.1) r e ∧ (∀ i : Fin n, r.getD i 0 = ⟨fun c => (f (i, c)).1⟩) ∧
          ∀ i : Fin n, e.getD i 0 = ⟨fun c => (k (i, c)).1⟩ := by
    rintro ⟨c, r, e, hr, he, hc⟩
    obtain ⟨f, hf⟩ := hr.exists
    obtain ⟨k, hk⟩ := he.exists
    exact ⟨f, k, r, e, hc, hf, hk⟩
  choose f k hfk using h
  refine (Nat.card_le_card_of_injective (fun c => (f c, k c)) ?_).trans ?_
  · intro c c' hcc
    obtain ⟨h1, h2⟩ := Prod.mk.inj hcc
    obtain ⟨r, e, hc, hr, he⟩ := hfk c
    obtain ⟨r', e', hc', hr', he'⟩ := hfk c'
    apply Subtype.ext
    funext i
    have := hQ r e r' e' _ _ hc hc' (fun i hi => by rw [hr ⟨i, hi⟩, hr' ⟨i, hi⟩, h1])
      (fun i hi => by rw [he ⟨i, hi⟩, he' ⟨i, hi⟩, h2]) i i.2
    simpa using this
  · rw [Nat.card_prod, Nat.card_fun, Nat.card_fun, Nat.card_prod, Nat.card_fin, Nat.card_fin, mul_comm n 2]
    exact Nat.mul_le_mul (Nat.pow_le_pow_left (card_small R) _) (Nat.pow_le_pow_left (card_small S) _)

end
end Verif
