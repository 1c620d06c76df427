/-
C23–C25: Shamir secret sharing (shamir.hpp / shamir.cpp).
-/
import Verif.Lemmas.Shamir
import Mathlib.Algebra.Field.ZMod
import Mathlib.LinearAlgebra.FiniteDimensional.Basic
import Mathlib.RingTheory.Finiteness.Basic
import Mathlib.Tactic.NormNum.Prime

namespace Verif.Props
open Verif Verif.Spec Polynomial

section
variable {F : Type} [Field F] [DecidableEq F]

/-- Conditions on a set of evaluation points: the `int`s are distinct (it is a `std::set`),
they stay distinct in the field, none is 0 there, and their differences are `int`s. -/
structure GoodPoints (F : Type) [Field F] (pts : List Int) : Prop where
  nodup : pts.Nodup
  inj : ∀ x ∈ pts, ∀ y ∈ pts, x ≠ y → (x : F) ≠ (y : F)
  ne_zero : ∀ x ∈ pts, (x : F) ≠ 0
  range : ∀ x ∈ pts, ∀ y ∈ pts, -2 ^ 31 ≤ y - x ∧ y - x < 2 ^ 31

omit [DecidableEq F] in
theorem GoodPoints.sub {pts sub : List Int} (h : GoodPoints F pts) (hs : sub.Sublist pts) :
    GoodPoints F sub :=
  ⟨hs.nodup h.nodup, fun x hx y hy => h.inj x (hs.subset hx) y (hs.subset hy),
    fun x hx => h.ne_zero x (hs.subset hx), fun x hx y hy => h.range x (hs.subset hx) y (hs.subset hy)⟩

omit [DecidableEq F] in
/-- C23: what `newSharing` returns is a valid sharing of the secret: secret first, then the
value of one polynomial of degree below the threshold at each point. -/
theorem C23_newSharing_valid (pts : List Int) (rs : List F) (s : F) :
    ValidSharing (rs.length + 1) pts (newSharing pts rs s) ∧ (newSharing pts rs s).head? = some s := by
  constructor
  · exact ⟨_, degree_sharing rs s, newSharing_eq pts rs s⟩
  · rw [newSharing_eq, eval_zero_sharing]; rfl

/-- C23: any `t` (or more) shares of any valid sharing reconstruct the secret, i.e. the
first entry of the vector. -/
theorem C23_reconstruct (pts : List Int) (t : Nat) (v : List F) (hv : ValidSharing t pts v)
    (sub : List Int) (hs : sub.Sublist pts) (ht : t ≤ sub.length) (hg : GoodPoints F pts) :
    ∃ s, v.head? = some s ∧ getSecret (sharesAt pts v sub) sub = .ok s := by
  obtain ⟨p, hp, rfl⟩ := hv
  have hg' := hg.sub hs
  refine ⟨p.eval 0, rfl, ?_⟩
  rw [sharesAt_eq pts (p.eval 0) (fun x => p.eval (x : F)) sub hs hg.nodup]
  apply getSecret_eval sub hg'.nodup hg'.range hg'.inj
  exact lt_of_lt_of_le hp (by exact_mod_cast ht)

/-- C23 end to end: share a secret with `t-1` random coefficients, take the shares of any
`t` points, reconstruct. -/
theorem C23_share_reconstruct (pts : List Int) (t : Nat) (rs : List F) (s : F)
    (hrs : rs.length + 1 = t) (sub : List Int) (hs : sub.Sublist pts) (ht : sub.length = t)
    (hg : GoodPoints F pts) :
    getSecret (sharesAt pts (newSharing pts rs s) sub) sub = .ok s := by
  obtain ⟨h1, h2⟩ := C23_newSharing_valid pts rs s
  rw [hrs] at h1
  obtain ⟨s', h3, h4⟩ := C23_reconstruct pts t _ h1 sub hs (by omega) hg
  rw [h2] at h3
  cases h3
  exact h4

/-- C23: a repeated point (two `int`s equal in the field) is reported as an error by the
division, never silently reconstructed. -/
theorem C23_collision_throws (x y : Int) (hxy : x < y) (hr : y - x < 2 ^ 31) (h : (x : F) = (y : F))
    (sharing : List F) : getSecret sharing [x, y] = .throw := by
  have hne : x ≠ y := by omega
  have h0 : ((y - x : Int) : F) = 0 := by rw [Int.cast_sub, h, sub_self]
  unfold getSecret lagrangeCoeffs lagrangeOuter
  rw [lagrangeInner_eq x [x, y] 1 1 (by
    intro z hz; simp at hz; omega)]
  simp only [Res.ok_bind, one_mul]
  rw [List.filter_cons_of_neg (by simp), List.filter_cons_of_pos (by simpa using hne.symm)]
  simp only [List.filter_nil, List.map_cons, List.map_nil, List.prod_cons, List.prod_nil, h0,
    zero_mul, if_true]
  rfl

instance fact17 : Fact (Nat.Prime 17) := ⟨by norm_num⟩

/-- the test configuration of the repository (modulus 17, points 1..5) is a good set -/
theorem good_example : GoodPoints (ZMod 17) [1, 2, 3, 4, 5] := by
  refine ⟨by decide, ?_, ?_, ?_⟩
  · intro x hx y hy; fin_cases hx <;> fin_cases hy <;> decide
  · intro x hx; fin_cases hx <;> decide
  · intro x hx y hy; fin_cases hx <;> fin_cases hy <;> decide

example : getSecret (sharesAt [1, 2, 3, 4, 5] (newSharing [1, 2, 3, 4, 5] [(7 : ZMod 17)] 3) [2, 4]) [2, 4]
    = .ok 3 :=
  C23_share_reconstruct [1, 2, 3, 4, 5] 2 [7] 3 rfl [2, 4] (by decide) rfl good_example

omit [DecidableEq F] in
/-- C24: for the parameters computed by the constructor (threshold at least 1, NTL's kernel
routine doing what it documents), `H·v = 0` holds exactly for the valid sharings. -/
theorem C24_parity_check (ntlKernel : List (List F) → List (List F))
    (hker : ∀ G nr nc, G.length = nr → (∀ r ∈ G, r.length = nc) →
      GeneratesLeftKernel (ntlKernel G) G nr nc)
    (pts : List Int) (t : Nat) (ht : 1 ≤ t) :
    ∃ sp, SharingParams.make ntlKernel pts t = .ok sp ∧ sp.thr = t ∧ sp.evalPoints = pts ∧
      ∀ v : List F, v.length = pts.length + 1 →
        ((∀ y ∈ matVec sp.H v, y = 0) ↔ ValidSharing t pts v) := by
  obtain ⟨G, hG⟩ : ∃ G, G = (1 :: List.replicate (t - 1) (0 : F)) ::
    pts.map fun (ep : Int) => genRow (ep : F) t 1 := ⟨_, rfl⟩
  have hmake : SharingParams.make ntlKernel pts t
      = .ok { thr := t, evalPoints := pts, H := ntlKernel G } := by
    unfold SharingParams.make genMatrix
    rw [if_neg (by omega), ← hG]; rfl
  have hrow : ∀ (k : Nat) (ep c : F), (genRow ep k c).length = k := by
    intro k
    induction k with
    | zero => intros; rfl
    | succ k ih => intro ep c; simp [genRow, ih]
  obtain ⟨hlen, hspan⟩ := hker G (pts.length + 1) t (by simp [hG]) (by
    intro r hr
    rw [hG] at hr
    rcases List.mem_cons.1 hr with rfl | hr
    · simp; omega
    · obtain ⟨ep, -, rfl⟩ := List.mem_map.1 hr
      exact hrow _ _ _)
  obtain ⟨pt, hpt⟩ : ∃ pt : Fin (pts.length + 1) → F,
    ∀ i : Fin (pts.length + 1), pt i = ((0 : F) :: pts.map fun (x : Int) => (x : F))[i.1]'(by simp only [List.length_cons, List.length_map]; exact i.2) :=
    ⟨_, fun _ => rfl⟩
  have hentry : ∀ (i : Fin (pts.length + 1)) (j : Fin t), (G.getD i []).getD j 0 = pt i ^ j.1 := by
    intro i j
    rw [hG, genMatrix_entry pts t i j i.2 j.2, hpt]
  refine ⟨_, hmake, rfl, rfl, ?_⟩
  intro v hv
  simp only
  obtain ⟨vf, hvf⟩ : ∃ vf : Fin (pts.length + 1) → F, ∀ i, vf i = v[i.1] := ⟨fun i => v[i.1], fun _ => rfl⟩
  -- one row
  have hdot : ∀ row : List F, row.length = pts.length + 1 → ∀ y : Fin (pts.length + 1) → F,
      (∀ i : Fin (pts.length + 1), row[i.1]? = some (y i)) →
      ((row.zip v).map fun p => p.1 * p.2).sum = ∑ i, y i * vf i := by
    intro row hr y hy
    rw [← List.sum_ofFn]
    congr 1
    apply List.ext_getElem
    · simp [hr, hv]
    · intro i h1 h2
      have hi : i < pts.length + 1 := by simpa using h2
      have := hy ⟨i, hi⟩
      rw [List.getElem?_eq_getElem (by omega)] at this
      simp only [Option.some.injEq] at this
      simp only [List.getElem_map, List.getElem_zip, this, List.getElem_ofFn, hvf]
  -- H v = 0 iff everything in the left kernel annihilates v
  have hstep : (∀ y ∈ matVec (ntlKernel G) v, y = 0) ↔
      ∀ x : Fin (pts.length + 1) → F, (∀ j : Fin t, ∑ i, x i * pt i ^ j.1 = 0) → ∑ i, x i * vf i = 0 := by
    constructor
    · intro h x hx
      have hmem := (hspan x).1 (by simpa only [hentry] using hx)
      induction hmem using Submodule.span_induction with
      | mem y hy =>
        obtain ⟨row, hrow, hy⟩ := hy
        rw [← hdot row (hlen row hrow) y hy]
        exact h _ (List.mem_map.2 ⟨row, hrow, rfl⟩)
      | zero => simp
      | add a b ha hb iha ihb =>
        have ea := (hspan a).2 ha
        have eb := (hspan b).2 hb
        simp only [hentry] at ea eb
        simp only [Pi.add_apply, add_mul, Finset.sum_add_distrib]
        rw [iha ea, ihb eb, add_zero]
      | smul c a ha iha =>
        have ea := (hspan a).2 ha
        simp only [hentry] at ea
        simp only [Pi.smul_apply, smul_eq_mul, mul_assoc, ← Finset.mul_sum]
        rw [iha ea, mul_zero]
    · intro h y hy
      obtain ⟨row, hrow, rfl⟩ := List.mem_map.1 hy
      have hl := hlen row hrow
      rw [hdot row hl (fun i => row[i.1]) (fun i => List.getElem?_eq_getElem (by omega))]
      apply h
      have := (hspan (fun i => row[i.1])).2 (Submodule.subset_span
        ⟨row, hrow, fun i => List.getElem?_eq_getElem (by omega)⟩)
      simpa only [hentry] using this
  rw [hstep]
  constructor
  · intro h
    obtain ⟨c, hc⟩ := mem_span_cols (fun i (j : Fin t) => pt i ^ j.1) vf h
    obtain ⟨p, hp⟩ : ∃ p : F[X], p = ∑ j : Fin t, C (c j) * X ^ j.1 := ⟨_, rfl⟩
    have heval : ∀ x, p.eval x = ∑ j : Fin t, c j * x ^ j.1 := by
      intro x; rw [hp, eval_finset_sum]; simp
    refine ⟨p, ?_, ?_⟩
    · rw [hp]
      apply lt_of_le_of_lt (degree_sum_le _ _)
      rw [Finset.sup_lt_iff (by exact_mod_cast WithBot.bot_lt_coe t)]
      intro j _
      exact lt_of_le_of_lt (degree_C_mul_X_pow_le _ _) (by exact_mod_cast j.2)
    · apply List.ext_getElem
      · simp [hv]
      · intro i h1 h2
        have hi : i < pts.length + 1 := by omega
        have := hc ⟨i, hi⟩
        rw [hvf] at this
        simp only at this
        rw [this, ← heval, hpt]
        cases i with
        | zero => rfl
        | succ i => simp
  · rintro ⟨p, hp, rfl⟩ x hx
    have hvp : ∀ i, vf i = p.eval (pt i) := by
      intro i
      rw [hvf, hpt]
      obtain ⟨i, hi⟩ := i
      cases i with
      | zero => rfl
      | succ i => simp
    have heval : ∀ z, p.eval z = ∑ j : Fin t, p.coeff j * z ^ j.1 := by
      intro z
      rw [eval_eq_sum_degreeLTEquiv (by rw [mem_degreeLT]; exact hp)]
      apply Finset.sum_congr rfl
      intro j _
      rfl
    simp only [hvp, heval, Finset.mul_sum]
    rw [Finset.sum_comm]
    apply Finset.sum_eq_zero
    intro j _
    have := hx j
    calc ∑ i, x i * (p.coeff j * pt i ^ j.1) = p.coeff j * ∑ i, x i * pt i ^ j.1 := by
          rw [Finset.mul_sum]; apply Finset.sum_congr rfl; intro i _; ring
      _ = 0 := by rw [this, mul_zero]

omit [DecidableEq F] in
/-- C24: with threshold 0 the constructor writes out of bounds. -/
theorem C24_threshold_zero (ntlKernel : List (List F) → List (List F)) (pts : List Int) :
    SharingParams.make ntlKernel pts 0 = .ub := rfl

/-- a kernel routine with the documented contract exists (so C24 is about something) -/
example : ∃ k : List (List F) → List (List F), ∀ G nr nc, G.length = nr → (∀ r ∈ G, r.length = nc) →
    GeneratesLeftKernel (k G) G nr nc := by
  classical
  have key : ∀ (G : List (List F)), ∃ H, ∀ nr nc, G.length = nr → (∀ r ∈ G, r.length = nc) →
      GeneratesLeftKernel H G nr nc := by
    intro G
    by_cases hG : ∃ nc, ∀ r ∈ G, r.length = nc
    · -- columns beyond the width read as 0, so one width is as good as another
      let K : Submodule F (Fin G.length → F) :=
        { carrier := {x | ∀ j : Nat, (∑ i : Fin G.length, x i * ((G.getD i []).getD j 0)) = 0}
          add_mem' := by
            intro a b ha hb j
            simp only [Pi.add_apply, add_mul, Finset.sum_add_distrib]
            rw [ha j, hb j, add_zero]
          zero_mem' := by intro j; simp
          smul_mem' := by
            intro c a ha j
            simp only [Pi.smul_apply, smul_eq_mul, mul_assoc, ← Finset.mul_sum]
            rw [ha j, mul_zero] }
      obtain ⟨S, hS⟩ : K.FG := IsNoetherian.noetherian K
      refine ⟨S.toList.map fun y => List.ofFn y, ?_⟩
      rintro nr nc rfl hnc
      refine ⟨by intro row hrow; obtain ⟨y, -, rfl⟩ := List.mem_map.1 hrow; simp, ?_⟩
      intro x
      have hset : {y : Fin G.length → F | ∃ row ∈ S.toList.map (fun y => List.ofFn y),
          ∀ i : Fin G.length, row[i.1]? = some (y i)} = (S : Set (Fin G.length → F)) := by
        ext y
        constructor
        · rintro ⟨row, hrow, hy⟩
          obtain ⟨z, hz, rfl⟩ := List.mem_map.1 hrow
          have : y = z := by
            funext i
            have := hy i
            simpa using this.symm
          subst this
          simpa using hz
        · intro hy
          exact ⟨List.ofFn y, List.mem_map.2 ⟨y, by simpa using hy, rfl⟩, fun i => by simp⟩
      rw [hset, hS]
      constructor
      · intro h j
        by_cases hj : j < nc
        · exact h ⟨j, hj⟩
        · apply Finset.sum_eq_zero
          intro i _
          have hr : (G.getD i []).length = nc := by
            rw [List.getD_eq_getElem?_getD, List.getElem?_eq_getElem i.2]
            exact hnc _ (List.getElem_mem i.2)
          rw [List.getD_eq_getElem?_getD (l := G.getD i []),
            List.getElem?_eq_none (by omega)]
          simp
      · intro h j; exact h j
    · exact ⟨[], fun nr nc _ h => absurd ⟨nc, h⟩ hG⟩
  choose k hk using key
  exact ⟨k, hk⟩

omit [DecidableEq F] in
/-- C25 (privacy): for any at most `t-1` evaluation points `sub` and any two secrets there
is a bijection of the random choices under which the shares at `sub` are the same; so for
uniformly random choices those shares have the same distribution for every secret. -/
theorem C25_privacy (pts : List Int) (t : Nat) (sub : List Int) (hs : sub.Sublist pts)
    (ht : sub.length + 1 ≤ t) (hg : GoodPoints F pts) (s s' : F) :
    ∃ φ : List F → List F,
      Set.BijOn φ {rs | rs.length + 1 = t} {rs | rs.length + 1 = t} ∧
      ∀ rs, rs.length + 1 = t →
        sharesAt pts (newSharing pts rs s) sub = sharesAt pts (newSharing pts (φ rs) s') sub := by
  obtain ⟨q, hq⟩ : ∃ q : F[X], q = C (s' - s) * (sub.map fun (b : Int) => 1 - C ((b : F)⁻¹) * X).prod :=
    ⟨_, rfl⟩
  have hg' := hg.sub hs
  have hdeg : q.natDegree + 1 ≤ t := by
    have : q.natDegree ≤ sub.length := by
      rw [hq]
      refine le_trans (natDegree_C_mul_le _ _) ?_
      refine le_trans (natDegree_list_prod_le _) ?_
      rw [List.map_map]
      refine le_trans (List.sum_le_card_nsmul _ 1 ?_) (by simp)
      intro n hn
      obtain ⟨b, -, rfl⟩ := List.mem_map.1 hn
      simp only [Function.comp]
      refine le_trans (natDegree_sub_le _ _) ?_
      have := natDegree_C_mul_X_pow_le ((b : F)⁻¹) 1
      rw [pow_one] at this
      simp only [natDegree_one]
      omega
    omega
  have hq0 : q.eval 0 = s' - s := by
    rw [hq, eval_mul, eval_C, eval_list_prod, List.map_map]
    have : ((fun p : F[X] => p.eval 0) ∘ fun (b : Int) => 1 - C ((b : F)⁻¹) * X) = fun _ => 1 := by
      funext b; simp
    have h2 : (List.map ((eval 0) ∘ fun (b : Int) => (1 - C ((b : F)⁻¹) * X : F[X])) sub) = sub.map fun _ => 1 := by
      apply List.map_congr_left; intro b _; simp
    rw [h2]; simp
  have hqb : ∀ b ∈ sub, q.eval (b : F) = 0 := by
    intro b hb
    rw [hq, eval_mul, eval_list_prod]
    have : (0 : F) ∈ (sub.map fun (b : Int) => (1 - C ((b : F)⁻¹) * X : F[X])).map (eval (b : F)) := by
      rw [List.map_map]
      refine List.mem_map.2 ⟨b, hb, ?_⟩
      simp [hg'.ne_zero b hb]
    rw [List.prod_eq_zero this, mul_zero]
  -- translation of the coefficients by ±q
  obtain ⟨tr, htr⟩ : ∃ tr : F[X] → List F → List F, ∀ p rs, tr p rs =
    List.ofFn fun i : Fin rs.length => rs[i.1] + p.coeff (rs.length - i.1) := ⟨_, fun _ _ => rfl⟩
  have htl : ∀ p rs, (tr p rs).length = rs.length := by intro p rs; rw [htr]; simp
  have hpoly : ∀ (p : F[X]) (rs : List F) (a b : F), p.natDegree ≤ rs.length → p.coeff 0 = b - a →
      toPoly (sharingCoeffs (tr p rs) b) = toPoly (sharingCoeffs rs a) + p := by
    intro p rs a b hp h0
    ext i
    rw [coeff_add, coeff_toPoly, coeff_toPoly]
    unfold sharingCoeffs
    cases i with
    | zero => simp [h0]
    | succ i =>
      simp only [List.getD_cons_succ]
      by_cases hi : i < rs.length
      · rw [List.getD_eq_getElem?_getD, List.getElem?_eq_getElem (by simpa [htl] using hi),
          List.getD_eq_getElem?_getD, List.getElem?_eq_getElem (by simpa using hi)]
        simp only [Option.getD_some, List.getElem_reverse, htr, List.getElem_ofFn, List.length_ofFn]
        congr 2
        omega
      · rw [List.getD_eq_getElem?_getD, List.getElem?_eq_none (by simp [htl]; omega),
          List.getD_eq_getElem?_getD, List.getElem?_eq_none (by simp; omega),
          coeff_eq_zero_of_natDegree_lt (by omega)]
        simp
  have hinv : ∀ p rs, tr (-p) (tr p rs) = rs := by
    intro p rs
    apply List.ext_getElem
    · simp [htl]
    · intro i h1 h2
      simp [htr]
  have hinv' : ∀ p rs, tr p (tr (-p) rs) = rs := by
    intro p rs
    have := hinv (-p) rs
    rwa [neg_neg] at this
  refine ⟨tr q, ⟨?_, ?_, ?_⟩, ?_⟩
  · intro rs hrs; simpa [htl] using hrs
  · intro a ha b hb hab
    rw [← hinv q a, hab, hinv]
  · intro rs hrs
    exact ⟨tr (-q) rs, by simpa [htl] using hrs, hinv' q rs⟩
  · intro rs hrs
    rw [newSharing_eq, newSharing_eq,
      sharesAt_eq pts _ (fun x => (toPoly (sharingCoeffs rs s)).eval (x : F)) sub hs hg.nodup,
      sharesAt_eq pts _ (fun x => (toPoly (sharingCoeffs (tr q rs) s')).eval (x : F)) sub hs hg.nodup]
    apply List.map_congr_left
    intro b hb
    rw [hpoly q rs s s' (by omega) (by rw [← hq0, coeff_zero_eq_eval_zero]), eval_add, hqb b hb, add_zero]

/-- C25 (perfect secrecy, exact count): for exactly `t-1` points, any values `ys` there and
any secret, exactly one choice of the random coefficients produces them. -/
theorem C25_unique (pts : List Int) (t : Nat) (sub : List Int) (hs : sub.Sublist pts)
    (ht : sub.length + 1 = t) (hg : GoodPoints F pts) (s : F) (ys : List F)
    (hys : ys.length = sub.length) :
    ∃! rs : List F, rs.length + 1 = t ∧ sharesAt pts (newSharing pts rs s) sub = ys := by
  have hg' := hg.sub hs
  have hshare : ∀ rs : List F, sharesAt pts (newSharing pts rs s) sub
      = sub.map fun (x : Int) => (toPoly (sharingCoeffs rs s)).eval (x : F) := by
    intro rs
    rw [newSharing_eq, sharesAt_eq pts _
      (fun x => (toPoly (sharingCoeffs rs s)).eval (x : F)) sub hs hg.nodup]
  -- the nodes 0 and sub, all distinct
  have hnd : (sub.map fun (x : Int) => (x : F)).Nodup :=
    List.Nodup.map_on (fun x hx y hy hxy => by
      by_contra hne; exact hg'.inj x hx y hy hne hxy) hg'.nodup
  have h0 : (0 : F) ∉ sub.map fun (x : Int) => (x : F) := by
    intro h
    obtain ⟨b, hb, h⟩ := List.mem_map.1 h
    exact hg'.ne_zero b hb h
  obtain ⟨N, hN⟩ : ∃ N : Finset F, N = insert 0 (sub.map fun (x : Int) => (x : F)).toFinset := ⟨_, rfl⟩
  have hcard : N.card = t := by
    rw [hN, Finset.card_insert_of_notMem (by simpa using h0), List.toFinset_card_of_nodup hnd]
    simpa using ht
  apply existsUnique_of_exists_of_unique
  · -- interpolate
    have hinj : Set.InjOn (id : F → F) (N : Set F) := fun a _ b _ h => h
    obtain ⟨val, hval0, hvalb⟩ : ∃ val : F → F, val 0 = s ∧
        ∀ i (h : i < sub.length), val (sub[i] : F) = ys[i]'(by omega) := by
      refine ⟨fun x => if x = 0 then s else ys.getD ((sub.map fun (x : Int) => (x : F)).idxOf x) 0, by simp, ?_⟩
      intro i h
      have hne : (sub[i] : F) ≠ 0 := hg'.ne_zero _ (List.getElem_mem h)
      have hidx : (sub.map fun (x : Int) => (x : F)).idxOf (sub[i] : F) = i := by
        have := hnd.idxOf_getElem i (by simpa using h)
        simpa using this
      simp only [if_neg hne, hidx]
      rw [List.getD_eq_getElem?_getD, List.getElem?_eq_getElem (by omega)]; rfl
    obtain ⟨p, hp⟩ : ∃ p, p = Lagrange.interpolate N id val := ⟨_, rfl⟩
    have hev : ∀ x ∈ N, p.eval x = val x := by
      intro x hx
      rw [hp]
      exact Lagrange.eval_interpolate_at_node val hinj hx
    have hdeg : p.degree < t := by
      rw [hp, ← hcard]; exact Lagrange.degree_interpolate_lt val hinj
    have hc0 : p.coeff 0 = s := by
      rw [coeff_zero_eq_eval_zero, hev 0 (by rw [hN]; simp), hval0]
    obtain ⟨m, rfl⟩ : ∃ m, t = m + 1 := ⟨t - 1, by omega⟩
    obtain ⟨rs, hrs⟩ : ∃ rs : List F, rs = (List.ofFn fun i : Fin m => p.coeff (i.1 + 1)).reverse := ⟨_, rfl⟩
    have hcoeffs : sharingCoeffs rs s = List.ofFn fun i : Fin (m + 1) => p.coeff i := by
      unfold sharingCoeffs
      rw [hrs, List.reverse_reverse, List.ofFn_succ]
      simp [hc0]
    refine ⟨rs, by rw [hrs]; simp, ?_⟩
    rw [hshare, hcoeffs, toPoly_ofFn p (m + 1) hdeg]
    apply List.ext_getElem
    · simp [hys]
    · intro i h1 h2
      have hi : i < sub.length := by simpa using h1
      rw [List.getElem_map, hev _ (by
        rw [hN]; simp only [Finset.mem_insert, List.mem_toFinset]
        exact .inr (List.mem_map.2 ⟨sub[i], List.getElem_mem hi, rfl⟩)), hvalb i hi]
  · rintro a b ⟨ha1, ha2⟩ ⟨hb1, hb2⟩
    have heq : toPoly (sharingCoeffs a s) = toPoly (sharingCoeffs b s) := by
      apply eq_of_degrees_lt_of_eval_finset_eq N
      · rw [hcard, ← ha1]; exact degree_sharing a s
      · rw [hcard, ← hb1]; exact degree_sharing b s
      · intro x hx
        rw [hN, Finset.mem_insert] at hx
        rcases hx with rfl | hx
        · rw [eval_zero_sharing, eval_zero_sharing]
        · obtain ⟨b', hb', rfl⟩ := List.mem_map.1 (List.mem_toFinset.1 hx)
          have := ha2.trans hb2.symm
          rw [hshare, hshare] at this
          exact List.map_inj_left.1 this b' hb'
    have := toPoly_inj _ _ (by simp [sharingCoeffs]; omega) heq
    simpa [sharingCoeffs] using this

example : ∃! rs : List (ZMod 17), rs.length + 1 = 3 ∧
    sharesAt [1, 2, 3, 4, 5] (newSharing [1, 2, 3, 4, 5] rs 9) [2, 5] = [4, 11] :=
  C25_unique [1, 2, 3, 4, 5] 3 [2, 5] (by decide) rfl good_example 9 [4, 11] rfl

end

end Verif.Props
